import Verif.Spec.Context
/-
Proofs for C84: an invariant about histories (`LogInv`), and one about the phase in progress (`Running`).
-/

namespace Verif.Ctx
open Spec.Ctx

theorem snoc_split {α : Type} {log x r : List α} {e : α} (h : log ++ [e] = x ++ r) (hr : r ≠ []) : ∃ r', r = r' ++ [e] ∧ log = x ++ r' := by
  rcases List.eq_nil_or_concat r with rfl | ⟨r', y, rfl⟩
  · exact absurd rfl hr
  · rw [List.concat_eq_append, ← List.append_assoc] at h
    obtain ⟨h1, h2⟩ := List.append_inj' h rfl
    simp only [List.cons.injEq, and_true] at h2
    subst h2
    exact ⟨r', by simp, h1⟩

/-- The first entry of the rest is the new one, or was there before. -/
theorem snoc_cons {α : Type} {log x r : List α} {e y : α} (h : log ++ [e] = x ++ y :: r) :
    (r = [] ∧ y = e ∧ log = x) ∨ ∃ r', r = r' ++ [e] ∧ log = x ++ y :: r' := by
  obtain ⟨r', h1, h2⟩ := snoc_split h (by simp)
  cases r' with
  | nil => obtain ⟨rfl, rfl⟩ := List.cons.inj h1; exact .inl ⟨rfl, rfl, by simpa using h2⟩
  | cons z r' => obtain ⟨rfl, rfl⟩ := List.cons.inj h1; exact .inr ⟨r', rfl, h2⟩

def nob (mid : List Entry) : Prop := ∀ e ∈ mid, bound e = false

theorem nob_left {a b : List Entry} (h : nob (a ++ b)) : nob a := fun e he => h e (by simp [he])

/-- A phase is open at the end of the history. -/
def Opened (log a : List Entry) (up : Bool) (l : Option LRef) (xs : List (Option Sub)) (mid : List Entry) : Prop :=
  log = a ++ .begun up l xs :: mid ∧ nob mid

def isChanged (l : LRef) : Entry → Bool
  | .changed l' _ => l' = l
  | _ => false

/-- Elements in the order of the phase. -/
def dir (up : Bool) (xs : List (Option Sub)) : List (Option Sub) := if up then xs else xs.reverse

/-- What is known of a phase whose loop is over. -/
def Fin (a : List Entry) (up : Bool) (l : Option LRef) (xs : List (Option Sub)) (mid : List Entry) : Prop :=
  ∃ l0, l = some l0 ∧ ((∀ e ∈ mid, touched l0 e = false) → (called up mid).map some = dir up xs) ∧
    (∀ u x ok, .ret u x ok ∈ mid → u = up ∧ ok = true) ∧ called (!up) mid = [] ∧
    mid.filterMap (fun | .ret _ x _ => some x | _ => none) = called up mid ∧
    (called up mid).length = (if up then elems (a ++ .begun up l xs :: mid) l0 else xs).length

/-- What is known of a phase that was aborted. -/
def Abt (a : List Entry) (up : Bool) (l : Option LRef) (xs : List (Option Sub)) (mid : List Entry) : Prop :=
  (l = none ∧ mid = []) ∨
  ∃ l0, l = some l0 ∧ ((∀ e ∈ mid, touched l0 e = false) → ((called up mid).map some) <+: dir up xs) ∧ called (!up) mid = [] ∧
    ((∃ m' x, mid = m' ++ [.ret up x false]) ∨ (∃ e ∈ mid, isChanged l0 e = true) ∨ none ∈ elems (a ++ .begun up l xs :: mid) l0)

/-- Phases do not overlap, and everything else happens within one. -/
def Nest (log : List Entry) : Entry → Prop
  | .begun .. => ∀ a up l xs mid, ¬ Opened log a up l xs mid
  | .finished u | .aborted u | .call u _ | .ret u _ _ => ∃ a l xs mid, Opened log a u l xs mid
  | _ => True

structure LogInv (log : List Entry) : Prop where
  beg : ∀ a up l xs r, log = a ++ .begun up l xs :: r → l = listNow a ∧ xs = l.elim [] (elems a)
  fin : ∀ a up l xs mid u r, log = a ++ .begun up l xs :: (mid ++ .finished u :: r) → nob mid → u = up ∧ Fin a up l xs mid
  abt : ∀ a up l xs mid u r, log = a ++ .begun up l xs :: (mid ++ .aborted u :: r) → nob mid → u = up ∧ Abt a up l xs mid
  nest : ∀ a e r, log = a ++ e :: r → Nest a e
  chg : ∀ a up l xs p ys q r, log = a ++ .begun up (some l) xs :: (p ++ .changed l ys :: (q ++ r)) → nob p → nob q → ∀ u x, .call u x ∉ q

/-- When may an entry follow? -/
def Cond (log : List Entry) : Entry → Prop
  | .begun _ l xs => l = listNow log ∧ xs = l.elim [] (elems log)
  | .finished u => ∀ a up l xs mid, Opened log a up l xs mid → u = up ∧ Fin a up l xs mid
  | .aborted u => ∀ a up l xs mid, Opened log a up l xs mid → u = up ∧ Abt a up l xs mid
  | .call .. => ∀ a up l xs mid, Opened log a up (some l) xs mid → ∀ e ∈ mid, isChanged l e = false
  | _ => True

theorem LogInv.nil : LogInv [] where
  beg := fun a up l xs r h => by cases a <;> cases h
  fin := fun a up l xs mid u r h => by cases a <;> cases h
  abt := fun a up l xs mid u r h => by cases a <;> cases h
  nest := fun a e r h => by cases a <;> cases h
  chg := fun a up l xs p ys q r h => by cases a <;> cases h

theorem LogInv.snoc {log : List Entry} {e : Entry} (h : LogInv log) (hc : Cond log e) (hnest : Nest log e) : LogInv (log ++ [e]) where
  nest := fun a e' r he => by
    rcases snoc_cons he with ⟨-, rfl, rfl⟩ | ⟨r', -, he'⟩
    · exact hnest
    · exact h.nest _ _ _ he'
  beg := fun a up l xs r he => by
    rcases snoc_cons he with ⟨-, rfl, rfl⟩ | ⟨r', -, he'⟩
    · exact hc
    · exact h.beg _ _ _ _ _ he'
  fin := fun a up l xs mid u r he hn => by
    rw [← List.cons_append, ← List.append_assoc] at he
    rcases snoc_cons he with ⟨-, rfl, rfl⟩ | ⟨r', -, he'⟩
    · exact hc _ _ _ _ _ ⟨rfl, hn⟩
    · exact h.fin a up l xs mid u r' (by rw [he']; simp) hn
  abt := fun a up l xs mid u r he hn => by
    rw [← List.cons_append, ← List.append_assoc] at he
    rcases snoc_cons he with ⟨-, rfl, rfl⟩ | ⟨r', -, he'⟩
    · exact hc _ _ _ _ _ ⟨rfl, hn⟩
    · exact h.abt a up l xs mid u r' (by rw [he']; simp) hn
  chg := fun a up l xs p ys q r he hp hq u x hm => by
    rcases List.eq_nil_or_concat r with rfl | ⟨r', y, rfl⟩
    · rcases List.eq_nil_or_concat q with rfl | ⟨q', y, rfl⟩
      · cases hm
      · rw [List.concat_eq_append] at he hq hm
        have he1 : log ++ [e] = (a ++ .begun up (some l) xs :: (p ++ .changed l ys :: q')) ++ [y] := by rw [he]; simp
        obtain ⟨h1, h2⟩ := List.append_inj' he1 rfl
        simp only [List.cons.injEq, and_true] at h2
        subst h2
        rcases List.mem_append.1 hm with hm | hm
        · exact h.chg a up l xs p ys q' [] (by rw [h1]; simp) hp (nob_left hq) u x hm
        · simp only [List.mem_singleton] at hm
          subst hm
          have := hc a up l xs (p ++ .changed l ys :: q') ⟨h1, fun z hz => by
            rcases List.mem_append.1 hz with hz | hz
            · exact hp z hz
            · rcases List.mem_cons.1 hz with rfl | hz
              · rfl
              · exact nob_left hq z hz⟩ (.changed l ys) (by simp)
          simp [isChanged] at this
    · rw [List.concat_eq_append] at he
      have he1 : log ++ [e] = (a ++ .begun up (some l) xs :: (p ++ .changed l ys :: (q ++ r'))) ++ [y] := by rw [he]; simp
      obtain ⟨h1, -⟩ := List.append_inj' he1 rfl
      exact h.chg a up l xs p ys q r' h1 hp hq u x hm

/-- The phase in progress. -/
structure Running (items : LRef → List (Option Sub)) (mods : LRef → Nat) (i : It) (xs : List (Option Sub)) (mid : List Entry) : Prop where
  mod : mods i.l = i.expected + mid.countP (isChanged i.l)
  pos : (∀ e ∈ mid, touched i.l e = false) → items i.l = xs ∧ i.cursor ≤ xs.length ∧
    (called i.up mid).map some = if i.up then xs.take i.cursor else (xs.drop i.cursor).reverse
  len : (∀ e ∈ mid, isChanged i.l e = false) → i.cursor ≤ (items i.l).length
  cnt : if i.up then i.cursor = (called i.up mid).length else i.cursor + (called i.up mid).length = xs.length
  other : called (!i.up) mid = []
  rets : mid.filterMap (fun | .ret _ x _ => some x | _ => none) ++ i.calling.toList = called i.up mid
  oks : ∀ u x ok, .ret u x ok ∈ mid → u = i.up ∧ ok = true

structure Inv (w : W) : Prop where
  log : LogInv w.log
  ref : w.ref = listNow w.log
  items : ∀ l, w.items l = elems w.log l
  open_ : ∀ a up l xs mid, Opened w.log a up l xs mid → ∃ i, w.it = some i ∧ i.up = up ∧ l = some i.l ∧ Running w.items w.mod i xs mid
  idle : w.it ≠ none → ∃ a up l xs mid, Opened w.log a up l xs mid

theorem inv_init : Inv .init where
  log := .nil
  ref := rfl
  items := fun _ => rfl
  open_ := fun a up l xs mid h => by obtain ⟨h, -⟩ := h; cases a <;> cases h
  idle := fun h => absurd rfl h

theorem called_append (up : Bool) (a b : List Entry) : called up (a ++ b) = called up a ++ called up b := List.filterMap_append ..
theorem listNow_snoc (a : List Entry) (e : Entry) : listNow (a ++ [e]) = match e with | .given l => l | _ => listNow a := by
  unfold listNow; rw [List.foldl_append]; cases e <;> rfl
theorem elems_snoc (a : List Entry) (e : Entry) (l : LRef) : elems (a ++ [e]) l = match e with
    | .changed l' ys => if l' = l then ys else elems a l
    | .put l' i x => if l' = l then (elems a l).set i x else elems a l
    | _ => elems a l := by
  unfold elems; rw [List.foldl_append]; cases e <;> rfl

/-- The phase that is open after one more entry. -/
theorem opened_snoc {log a mid : List Entry} {e : Entry} {up : Bool} {l : Option LRef} {xs : List (Option Sub)}
    (h : Opened (log ++ [e]) a up l xs mid) :
    (mid = [] ∧ e = .begun up l xs ∧ log = a) ∨ (bound e = false ∧ ∃ mid', mid = mid' ++ [e] ∧ Opened log a up l xs mid') := by
  obtain ⟨h1, h2⟩ := h
  rcases snoc_cons h1 with ⟨rfl, rfl, rfl⟩ | ⟨r', rfl, h1'⟩
  · exact .inl ⟨rfl, rfl, rfl⟩
  · exact .inr ⟨h2 e (by simp), r', rfl, h1', nob_left h2⟩

theorem opened_on {log a mid : List Entry} {e : Entry} {up : Bool} {l : Option LRef} {xs : List (Option Sub)}
    (h : Opened log a up l xs mid) (he : bound e = false) : Opened (log ++ [e]) a up l xs (mid ++ [e]) :=
  ⟨by rw [h.1]; simp, fun x hx => by
    rcases List.mem_append.1 hx with hx | hx
    · exact h.2 x hx
    · simp only [List.mem_singleton] at hx; rw [hx]; exact he⟩


theorem Inv.on {w w' : W} {e : Entry} (h : Inv w) (hlog : w'.log = w.log ++ [e]) (hb : bound e = false) (hc : Cond w.log e) (hn : Nest w.log e)
    (href : w'.ref = listNow (w.log ++ [e])) (hitems : ∀ l, w'.items l = elems (w.log ++ [e]) l) (hid : w'.it ≠ none → w.it ≠ none)
    (hrun : ∀ {a up l xs mid i}, Opened w.log a up l xs mid → w.it = some i → i.up = up → l = some i.l → Running w.items w.mod i xs mid →
      ∃ i', w'.it = some i' ∧ i'.up = i.up ∧ i'.l = i.l ∧ Running w'.items w'.mod i' xs (mid ++ [e])) : Inv w' where
  log := hlog ▸ h.log.snoc hc hn
  ref := hlog ▸ href
  items := fun l => hlog ▸ hitems l
  open_ := fun a up l xs mid ho => by
    rw [hlog] at ho
    rcases opened_snoc ho with ⟨-, rfl, -⟩ | ⟨-, mid', rfl, ho'⟩
    · cases hb
    · obtain ⟨i, h1, h2, h3, h4⟩ := h.open_ _ _ _ _ _ ho'
      obtain ⟨i', g1, g2, g3, g4⟩ := hrun ho' h1 h2 h3 h4
      exact ⟨i', g1, g2.trans h2, by rw [h3, g3], g4⟩
  idle := fun hi => by
    obtain ⟨a, up, l, xs, mid, ho⟩ := h.idle (hid hi)
    exact ⟨a, up, l, xs, _, hlog ▸ opened_on ho hb⟩

/-- The end of a phase. -/
theorem Inv.close {w : W} {log : List Entry} {e : Entry} (hl : LogInv log) (hlog : w.log = log ++ [e]) (he : (∃ u, e = .finished u) ∨ ∃ u, e = .aborted u)
    (hc : Cond log e) (hn : Nest log e) (href : w.ref = listNow log) (hitems : ∀ l, w.items l = elems log l) (hit : w.it = none) : Inv w where
  log := hlog ▸ hl.snoc hc hn
  ref := by rw [hlog, listNow_snoc, href]; rcases he with ⟨u, rfl⟩ | ⟨u, rfl⟩ <;> rfl
  items := fun l => by rw [hlog, elems_snoc, hitems]; rcases he with ⟨u, rfl⟩ | ⟨u, rfl⟩ <;> rfl
  open_ := fun a up l xs mid ho => by
    rw [hlog] at ho
    rcases opened_snoc ho with ⟨-, h1, -⟩ | ⟨hb, -⟩
    · rcases he with ⟨u, rfl⟩ | ⟨u, rfl⟩ <;> cases h1
    · rcases he with ⟨u, rfl⟩ | ⟨u, rfl⟩ <;> cases hb
  idle := fun hi => absurd hit hi

theorem Inv.queued {w : W} (h : Inv w) (q : List Ev) (s : String) : Inv { w with queue := q, state := s } :=
  ⟨h.log, h.ref, h.items, h.open_, h.idle⟩

/-- An entry that says nothing about lists or phases. -/
theorem Running.skip {items : LRef → List (Option Sub)} {mods : LRef → Nat} {i : It} {xs : List (Option Sub)} {mid : List Entry} {e : Entry}
    (h : Running items mods i xs mid) (h1 : isChanged i.l e = false) (h2 : touched i.l e = false)
    (h3 : called i.up [e] = []) (h4 : called (!i.up) [e] = []) (h5 : ∀ u x ok, e ≠ .ret u x ok) : Running items mods i xs (mid ++ [e]) where
  mod := by rw [List.countP_append, h.mod]; simp [h1]
  pos := fun ht => by rw [called_append, h3, List.append_nil]; exact h.pos fun e he => ht e (by simp [he])
  len := fun ht => h.len fun e he => ht e (by simp [he])
  cnt := by rw [called_append, h3, List.append_nil]; exact h.cnt
  other := by rw [called_append, h4, h.other]; rfl
  rets := by
    rw [called_append, h3, List.append_nil, ← h.rets, List.filterMap_append]
    cases e <;> simp_all
  oks := fun u x ok hm => by
    rcases List.mem_append.1 hm with hm | hm
    · exact h.oks u x ok hm
    · simp only [List.mem_singleton] at hm; exact absurd hm.symm (h5 u x ok)

theorem inv_given {w : W} (h : Inv w) (l : Option LRef) : Inv (({ w with ref := l }).emit (.given l)) :=
  h.on rfl rfl trivial trivial (by rw [listNow_snoc]; rfl) (fun l' => by rw [elems_snoc]; exact h.items l') id
    fun _ hi _ _ hr => ⟨_, hi, rfl, rfl, hr.skip rfl rfl rfl rfl (fun _ _ _ h => by cases h)⟩

theorem inv_state {w : W} (h : Inv w) (s : String) : Inv (({ w with state := s }).emit (.state s)) :=
  h.on rfl rfl trivial trivial (by rw [listNow_snoc]; exact h.ref) (fun l' => by rw [elems_snoc]; exact h.items l') id
    fun _ hi _ _ hr => ⟨_, hi, rfl, rfl, hr.skip rfl rfl rfl rfl (fun _ _ _ h => by cases h)⟩

/-- Events that are fired or taken. -/
theorem inv_note {w : W} (h : Inv w) (q : List Ev) {e : Entry} {ev : Ev} (he : e = .fired ev ∨ e = .taken ev) : Inv (({ w with queue := q }).emit e) := by
  rcases he with rfl | rfl
  all_goals
    exact h.on rfl rfl trivial trivial (by rw [listNow_snoc]; exact h.ref) (fun l' => by rw [elems_snoc]; exact h.items l') id
      fun _ hi _ _ hr => ⟨_, hi, rfl, rfl, hr.skip rfl rfl rfl rfl (fun _ _ _ h => by cases h)⟩

theorem fset_eq {α : Type} (f : Nat → α) (n m : Nat) (x : α) : fset f n x m = if n = m then x else f m := by
  unfold fset; split <;> simp_all [eq_comm]

theorem inv_changed {w : W} (h : Inv w) (l : LRef) (ys : List (Option Sub)) :
    Inv (({ w with items := fset w.items l ys, mod := fset w.mod l (w.mod l + 1) }).emit (.changed l ys)) := by
  refine h.on rfl rfl trivial trivial (by rw [listNow_snoc]; exact h.ref) (fun l' => ?_) id fun {_ _ _ _ mid i} _ hi _ _ hr => ⟨_, hi, rfl, rfl, ?_⟩
  · rw [elems_snoc]
    show fset w.items l ys l' = _
    rw [fset_eq, h.items l']
  · show Running (fset w.items l ys) (fset w.mod l (w.mod l + 1)) _ _ _
    refine ⟨?_, fun ht => ?_, fun ht => ?_, by rw [called_append]; simpa [called] using hr.cnt, by rw [called_append, hr.other]; rfl, ?_, fun u x ok hm => ?_⟩
    · rw [fset_eq, List.countP_append, ← Nat.add_assoc, ← hr.mod]
      by_cases hl : l = i.l
      · subst hl; simp [isChanged]
      · simp [hl, isChanged]
    · have h1 := ht (.changed l ys) (by simp)
      simp only [touched, decide_eq_false_iff_not] at h1
      rw [fset_eq, if_neg h1, called_append]
      have := hr.pos fun e he => ht e (by simp [he])
      simpa [called] using this
    · have h1 := ht (.changed l ys) (by simp)
      simp only [isChanged, decide_eq_false_iff_not] at h1
      rw [fset_eq, if_neg h1]
      exact hr.len fun e he => ht e (by simp [he])
    · rw [called_append, ← hr.rets, List.filterMap_append]; simp [called]
    · rcases List.mem_append.1 hm with hm | hm
      · exact hr.oks u x ok hm
      · simp at hm

theorem inv_put {w : W} (h : Inv w) (l : LRef) (k : Nat) (x : Option Sub) :
    Inv (({ w with items := fset w.items l ((w.items l).set k x) }).emit (.put l k x)) := by
  refine h.on rfl rfl trivial trivial (by rw [listNow_snoc]; exact h.ref) (fun l' => ?_) id fun {_ _ _ _ mid i} _ hi _ _ hr => ⟨_, hi, rfl, rfl, ?_⟩
  · rw [elems_snoc]
    show fset w.items l _ l' = _
    rw [fset_eq]
    by_cases hl : l = l'
    · subst hl; simp [h.items]
    · simp [hl, h.items]
  · show Running (fset w.items l ((w.items l).set k x)) w.mod _ _ _
    refine ⟨?_, fun ht => ?_, fun ht => ?_, by rw [called_append]; simpa [called] using hr.cnt, by rw [called_append, hr.other]; rfl, ?_, fun u y ok hm => ?_⟩
    · rw [List.countP_append, ← Nat.add_assoc, ← hr.mod]; simp [isChanged]
    · have h1 := ht (.put l k x) (by simp)
      simp only [touched, decide_eq_false_iff_not] at h1
      rw [fset_eq, if_neg h1, called_append]
      have := hr.pos fun e he => ht e (by simp [he])
      simpa [called] using this
    · have := hr.len fun e he => ht e (by simp [he])
      rw [fset_eq]
      split
      · next hl => subst hl; simpa using this
      · exact this
    · rw [called_append, ← hr.rets, List.filterMap_append]; simp [called]
    · rcases List.mem_append.1 hm with hm | hm
      · exact hr.oks u y ok hm
      · simp at hm

theorem inv_begin {w : W} (h : Inv w) (hit : w.it = none) (up : Bool) : Inv (w.beginPhase up) := by
  have hno : ∀ a up l xs mid, ¬ Opened w.log a up l xs mid := fun a up l xs mid ho => by
    obtain ⟨i, h1, -⟩ := h.open_ _ _ _ _ _ ho
    rw [hit] at h1; cases h1
  unfold W.beginPhase
  split
  · next hr =>
    have hc : Cond w.log (.begun up none []) := ⟨by rw [← h.ref, hr], rfl⟩
    refine Inv.close (log := w.log ++ [.begun up none []]) (e := .aborted up) (h.log.snoc (e := .begun up none []) hc hno) rfl (.inr ⟨_, rfl⟩) ?_
      ⟨w.log, none, [], [], rfl, fun e he => by cases he⟩
      (by rw [listNow_snoc]; exact h.ref) (fun l => by rw [elems_snoc]; exact h.items l) rfl
    intro a up' l xs mid ho
    rcases opened_snoc ho with ⟨rfl, h1, -⟩ | ⟨hb, -⟩
    · cases h1; exact ⟨rfl, .inl ⟨rfl, rfl⟩⟩
    · cases hb
  · next l hr =>
    have hc : Cond w.log (.begun up (some l) (w.items l)) := ⟨by rw [← h.ref, hr], by rw [h.items]; rfl⟩
    refine ⟨h.log.snoc (e := .begun up (some l) (w.items l)) hc hno, by show w.ref = listNow (w.log ++ _); rw [listNow_snoc]; exact h.ref,
      fun l' => by show w.items l' = elems (w.log ++ _) l'; rw [elems_snoc]; exact h.items l', ?_, fun _ => ⟨w.log, up, some l, w.items l, [], rfl, fun e he => by cases he⟩⟩
    intro a up' l' xs mid ho
    rcases opened_snoc ho with ⟨rfl, h1, -⟩ | ⟨hb, -⟩
    · cases h1
      refine ⟨_, rfl, rfl, rfl, ?_⟩
      refine ⟨rfl, fun _ => ⟨rfl, ?_, ?_⟩, fun _ => ?_, ?_, rfl, rfl, fun _ _ _ hm => by cases hm⟩
      · cases up <;> simp
      · cases up <;> simp [called]
      · show (if up = true then 0 else _) ≤ (w.items l).length
        cases up <;> simp
      · show if up = true then (if up = true then 0 else _) = 0 else (if up = true then 0 else _) + 0 = (w.items l).length
        cases up <;> simp
    · cases hb

theorem inv_handle {w : W} (h : Inv w) (hit : w.it = none) (ev : Ev) : Inv (w.handle ev) := by
  unfold W.handle
  split
  · exact h
  · next s hs =>
    have h1 := inv_state h s
    dsimp only
    split
    · exact inv_begin h1 hit true
    · split
      · exact inv_begin h1 hit false
      · exact h1

theorem countP_zero {l : LRef} {mid : List Entry} (h : mid.countP (isChanged l) = 0) : ∀ e ∈ mid, isChanged l e = false := by
  intro e he
  have := List.countP_eq_zero.1 h e he
  simpa using this

theorem isChanged_of_touched {l : LRef} {mid : List Entry} (h : ∀ e ∈ mid, touched l e = false) : ∀ e ∈ mid, isChanged l e = false := by
  intro e he
  have := h e he
  cases e <;> simp_all [isChanged, touched]

/-- What has been called comes first. -/
theorem Running.prefix {items : LRef → List (Option Sub)} {mods : LRef → Nat} {i : It} {xs : List (Option Sub)} {mid : List Entry}
    (h : Running items mods i xs mid) (ht : ∀ e ∈ mid, touched i.l e = false) : (called i.up mid).map some <+: dir i.up xs := by
  obtain ⟨-, h2, h3⟩ := h.pos ht
  rw [h3]
  unfold dir
  cases i.up
  · simp only [Bool.false_eq_true, if_false]
    exact List.reverse_prefix.2 (List.drop_suffix _ _)
  · exact List.take_prefix _ _

theorem Inv.opened {w : W} (h : Inv w) {i : It} (hi : w.it = some i) : ∃ a l xs mid, Opened w.log a i.up l xs mid := by
  obtain ⟨a, up, l, xs, mid, ho⟩ := h.idle (by rw [hi]; simp)
  obtain ⟨j, h1, rfl, -, -⟩ := h.open_ _ _ _ _ _ ho
  rw [hi] at h1; cases h1
  exact ⟨a, l, xs, mid, ho⟩

theorem inv_turn {w : W} (h : Inv w) {i : It} (hi : w.it = some i) (hcall : i.calling = none) : Inv (w.turn i) := by
  unfold W.turn
  by_cases hcur : i.cursor = (if i.up then (w.items i.l).length else 0)
  · rw [if_pos hcur]
    refine Inv.close (log := w.log) (e := .finished i.up) h.log rfl (.inl ⟨_, rfl⟩) ?_ (h.opened hi) h.ref h.items rfl
    intro a up l xs mid ho
    obtain ⟨j, h1, rfl, rfl, hr⟩ := h.open_ _ _ _ _ _ ho
    rw [hi] at h1; cases h1
    refine ⟨rfl, i.l, rfl, fun ht => ?_, hr.oks, hr.other, ?_, ?_⟩
    · obtain ⟨g1, g2, g3⟩ := hr.pos ht
      rw [g3]
      unfold dir
      cases hu : i.up
      · simp [hu] at hcur; simp [hcur]
      · simp [hu, g1] at hcur; simp [hcur]
    · have := hr.rets; rw [hcall] at this; simpa using this
    · have := hr.cnt
      rw [← ho.1, ← h.items]
      cases hu : i.up
      · simp [hu] at this hcur ⊢; omega
      · simp [hu] at this hcur ⊢; omega
  · rw [if_neg hcur]
    by_cases hm : w.mod i.l ≠ i.expected
    · rw [if_pos hm]
      refine Inv.close (log := w.log) (e := .aborted i.up) h.log rfl (.inr ⟨_, rfl⟩) ?_ (h.opened hi) h.ref h.items rfl
      intro a up l xs mid ho
      obtain ⟨j, h1, rfl, rfl, hr⟩ := h.open_ _ _ _ _ _ ho
      rw [hi] at h1; cases h1
      refine ⟨rfl, .inr ⟨i.l, rfl, hr.prefix, hr.other, .inr (.inl ?_)⟩⟩
      have h2 := hr.mod
      refine Classical.byContradiction fun hcon => hm ?_
      rw [h2, List.countP_eq_zero.2 fun e he hx => hcon ⟨e, he, hx⟩]
      rfl
    · rw [if_neg hm]
      have hm' : w.mod i.l = i.expected := Classical.not_not.1 hm
      have hnc : ∀ {xs mid}, Running w.items w.mod i xs mid → ∀ e ∈ mid, isChanged i.l e = false := fun hr =>
        countP_zero (by have := hr.mod; omega)
      have hcur' : ∀ {n}, i.cursor ≤ n → n = (w.items i.l).length → (if i.up then i.cursor else i.cursor - 1) < (w.items i.l).length := by
        intro n h1 h2
        cases hu : i.up <;> simp [hu] at hcur ⊢ <;> omega
      dsimp only
      split
      · next x hx =>
        refine h.on rfl rfl ?_ (h.opened hi) (by rw [listNow_snoc]; exact h.ref) (fun l' => by rw [elems_snoc]; exact h.items l') (fun _ => by rw [hi]; simp) ?_
        · intro a up l xs mid ho
          obtain ⟨j, h1, rfl, h2, hr⟩ := h.open_ _ _ _ _ _ ho
          rw [hi] at h1; cases h1; cases h2
          exact hnc hr
        · intro a up l xs mid j ho h1 _ _ hr
          rw [hi] at h1; cases h1
          refine ⟨_, rfl, rfl, rfl, ?_⟩
          have hlen := hr.len (hnc hr)
          have hc : called i.up [Entry.call i.up x] = [x] := by simp [called]
          refine ⟨?_, fun ht => ?_, fun _ => ?_, ?_, ?_, ?_, fun u y ok hm => ?_⟩
          · show w.mod i.l = i.expected + _
            rw [List.countP_append, ← Nat.add_assoc, ← hr.mod]; simp [isChanged]
          · obtain ⟨g1, g2, g3⟩ := hr.pos fun e he => ht e (by simp [he])
            refine ⟨g1, ?_, ?_⟩
            · have := hcur' hlen rfl
              show (if i.up then i.cursor + 1 else i.cursor - 1) ≤ _
              rw [← g1]
              cases hu : i.up <;> simp [hu] at this ⊢ <;> omega
            · show (called i.up _).map some = if i.up then xs.take (if i.up then i.cursor + 1 else i.cursor - 1)
                else (xs.drop (if i.up then i.cursor + 1 else i.cursor - 1)).reverse
              rw [called_append, hc, List.map_append, g3]
              rw [g1] at hx
              cases hu : i.up
              · simp only [hu, Bool.false_eq_true, if_false] at hx hcur ⊢
                have h5 : i.cursor - 1 < xs.length := by omega
                rw [List.drop_eq_getElem_cons h5]
                rw [List.getElem?_eq_getElem h5] at hx
                have h6 : i.cursor - 1 + 1 = i.cursor := by omega
                rw [h6, Option.some.inj hx]
                simp
              · simp only [hu, if_true] at hx ⊢
                rw [List.take_add_one, hx]
                rfl
          · have := hcur' hlen rfl
            show (if i.up then i.cursor + 1 else i.cursor - 1) ≤ (w.items i.l).length
            cases hu : i.up <;> simp [hu] at this ⊢ <;> omega
          · have h5 := hcur' hlen rfl
            have h6 := hr.cnt
            show if i.up then (if i.up then i.cursor + 1 else i.cursor - 1) = _ else (if i.up then i.cursor + 1 else i.cursor - 1) + _ = xs.length
            rw [called_append, hc, List.length_append]
            cases hu : i.up <;> simp [hu] at h5 h6 hcur ⊢ <;> omega
          · rw [called_append, hr.other]; cases hu : i.up <;> simp [called]
          · show _ ++ [x] = called i.up _
            rw [called_append, hc, ← hr.rets, hcall, List.filterMap_append]; simp
          · rcases List.mem_append.1 hm with hm | hm
            · exact hr.oks u y ok hm
            · simp at hm
      · next hx =>
        refine Inv.close (log := w.log) (e := .aborted i.up) h.log rfl (.inr ⟨_, rfl⟩) ?_ (h.opened hi) h.ref h.items rfl
        intro a up l xs mid ho
        obtain ⟨j, h1, rfl, rfl, hr⟩ := h.open_ _ _ _ _ _ ho
        rw [hi] at h1; cases h1
        refine ⟨rfl, .inr ⟨i.l, rfl, hr.prefix, hr.other, .inr (.inr ?_)⟩⟩
        have hk := hcur' (hr.len (hnc hr)) rfl
        rw [← ho.1, ← h.items]
        rw [List.getElem?_eq_getElem hk] at hx
        have hel := List.getElem_mem hk
        cases hv : (w.items i.l)[if i.up = true then i.cursor else i.cursor - 1] with
        | none => rw [hv] at hel; exact hel
        | some y => exact absurd (congrArg some hv) (hx y)

theorem inv_ret {w : W} (h : Inv w) {i : It} (hi : w.it = some i) {x : Sub} (hcall : i.calling = some x) (ok : Bool) :
    Inv (let w' := ({ w with it := some { i with calling := none } }).emit (.ret i.up x ok); if ok then w' else w'.abort i.up) := by
  have hrets : ∀ {xs mid}, Running w.items w.mod i xs mid → (mid ++ [Entry.ret i.up x ok]).filterMap (fun | .ret _ x _ => some x | _ => none) =
      called i.up (mid ++ [Entry.ret i.up x ok]) := fun hr => by
    rw [called_append, ← hr.rets, hcall, List.filterMap_append]; simp [called]
  cases ok
  · refine Inv.close (log := w.log ++ [.ret i.up x false]) (e := .aborted i.up) (h.log.snoc (e := .ret i.up x false) trivial (h.opened hi)) rfl (.inr ⟨_, rfl⟩) ?_
      (let ⟨a, l, xs, mid, ho⟩ := h.opened hi; ⟨a, l, xs, _, opened_on ho rfl⟩)
      (by rw [listNow_snoc]; exact h.ref) (fun l => by rw [elems_snoc]; exact h.items l) rfl
    intro a up l xs mid ho
    rcases opened_snoc ho with ⟨-, h1, -⟩ | ⟨-, mid', rfl, ho'⟩
    · cases h1
    · obtain ⟨j, h1, rfl, rfl, hr⟩ := h.open_ _ _ _ _ _ ho'
      rw [hi] at h1; cases h1
      refine ⟨rfl, .inr ⟨i.l, rfl, fun ht => ?_, ?_, .inl ⟨_, _, rfl⟩⟩⟩
      · rw [called_append]
        have := hr.prefix fun e he => ht e (by simp [he])
        simpa [called] using this
      · rw [called_append, hr.other]; rfl
  · refine h.on (e := .ret i.up x true) rfl rfl trivial (h.opened hi) (by rw [listNow_snoc]; exact h.ref) (fun l' => by rw [elems_snoc]; exact h.items l') (fun _ => by rw [hi]; simp) ?_
    intro a up l xs mid j ho h1 _ _ hr
    rw [hi] at h1; cases h1
    refine ⟨_, rfl, rfl, rfl, ?_⟩
    refine ⟨?_, fun ht => ?_, fun ht => hr.len fun e he => ht e (by simp [he]), by rw [called_append]; simpa [called] using hr.cnt, by rw [called_append, hr.other]; rfl, ?_, fun u y ok hm => ?_⟩
    · show w.mod i.l = i.expected + _
      rw [List.countP_append, ← Nat.add_assoc, ← hr.mod]; simp [isChanged]
    · have := hr.pos fun e he => ht e (by simp [he])
      rw [called_append, show called i.up [Entry.ret i.up x true] = [] from rfl, List.append_nil]
      exact this
    · show _ ++ [] = called i.up _
      rw [List.append_nil]; exact hrets hr
    · rcases List.mem_append.1 hm with hm | hm
      · exact hr.oks u y ok hm
      · simp only [List.mem_singleton, Entry.ret.injEq] at hm; exact ⟨hm.1, hm.2.2⟩

theorem inv_step {w w' : W} (h : Inv w) {s : Step} (hs : step w s = some w') : Inv w' := by
  cases s with
  | given l => cases hs; exact inv_given h l
  | changed l xs => cases hs; exact inv_changed h l xs
  | put l k x => cases hs; exact inv_put h l k x
  | fire ev => cases hs; exact inv_note h (w.queue ++ [ev]) (.inl rfl)
  | take =>
    simp only [step] at hs
    split at hs
    · next ev q hit _ => rw [← Option.some.inj hs]; exact inv_handle (inv_note h q (.inr rfl)) hit ev
    · cases hs
  | turn =>
    simp only [step] at hs
    split at hs
    · next i hi =>
      split at hs
      · next hc => cases hs; exact inv_turn h hi hc
      · cases hs
    · cases hs
  | ret ok =>
    simp only [step] at hs
    split at hs
    · next i hi =>
      split at hs
      · next x hc => cases hs; exact inv_ret h hi hc ok
      · cases hs
    · cases hs

theorem inv_runs {w w' : W} (h : Inv w) {xs : List Step} (hs : runs w xs = some w') : Inv w' := by
  induction xs generalizing w with
  | nil => cases hs; exact h
  | cons x xs ih =>
    simp only [runs] at hs
    split at hs
    · cases hs
    · next w1 h1 => exact ih (inv_step h h1) hs

theorem inv {w : W} (h : Reach w) : Inv w := let ⟨_, hs⟩ := h; inv_runs inv_init hs

/-! ### States and phases -/

/-- The state of a phase. -/
def phaseState (up : Bool) : String := if up then STATE_STARTING else STATE_STOPPING

def plain : Entry → Bool
  | .begun .. => false
  | .state s => s ≠ STATE_STARTING ∧ s ≠ STATE_STOPPING
  | _ => true

/-- States of phases and beginnings of phases come in pairs. -/
inductive Pairs : List Entry → Prop
  | nil : Pairs []
  | one {log : List Entry} {e : Entry} (h : Pairs log) (he : plain e = true) : Pairs (log ++ [e])
  | two {log : List Entry} (h : Pairs log) (up : Bool) (l : Option LRef) (xs : List (Option Sub)) :
    Pairs (log ++ [.state (phaseState up), .begun up l xs])

theorem Pairs.state {log : List Entry} (h : Pairs log) {up : Bool} {p r : List Entry} (he : log = p ++ .state (phaseState up) :: r) :
    ∃ l xs r', r = .begun up l xs :: r' := by
  induction h generalizing r with
  | nil => cases p <;> cases he
  | one h hp ih =>
    rcases snoc_cons he with ⟨-, rfl, -⟩ | ⟨r', rfl, he'⟩
    · cases up <;> simp [plain, phaseState] at hp
    · obtain ⟨l, xs, r2, rfl⟩ := ih he'
      exact ⟨l, xs, _, rfl⟩
  | @two log h u l xs ih =>
    have he2 : (log ++ [.state (phaseState u)]) ++ [.begun u l xs] = p ++ .state (phaseState up) :: r := by rw [← he]; simp
    rcases snoc_cons he2 with ⟨-, h1, -⟩ | ⟨r', rfl, he'⟩
    · cases h1
    · rcases snoc_cons he' with ⟨rfl, h1, -⟩ | ⟨r2, rfl, he3⟩
      · have : u = up := by cases u <;> cases up <;> first | rfl | exact absurd h1 (by decide)
        subst this
        exact ⟨l, xs, [], rfl⟩
      · obtain ⟨l', xs', r4, rfl⟩ := ih he3
        exact ⟨l', xs', _, rfl⟩

theorem Pairs.begun {log : List Entry} (h : Pairs log) {up : Bool} {l : Option LRef} {xs : List (Option Sub)} {p r : List Entry}
    (he : log = p ++ .begun up l xs :: r) : ∃ p', p = p' ++ [.state (phaseState up)] := by
  induction h generalizing r with
  | nil => cases p <;> cases he
  | one h hp ih =>
    rcases snoc_cons he with ⟨-, rfl, -⟩ | ⟨r', rfl, he'⟩
    · cases hp
    · exact ih he'
  | @two log h u l' xs' ih =>
    have he2 : (log ++ [.state (phaseState u)]) ++ [.begun u l' xs'] = p ++ .begun up l xs :: r := by rw [← he]; simp
    rcases snoc_cons he2 with ⟨-, h1, rfl⟩ | ⟨r', rfl, he'⟩
    · cases h1; exact ⟨_, rfl⟩
    · rcases snoc_cons he' with ⟨-, h1, -⟩ | ⟨r2, rfl, he3⟩
      · cases h1
      · exact ih he3

theorem pairs_begin {w : W} {log : List Entry} (h : Pairs log) (up : Bool) (hl : w.log = log ++ [.state (phaseState up)]) : Pairs (w.beginPhase up).log := by
  unfold W.beginPhase
  split
  · have := (h.two up none []).one (e := .aborted up) rfl
    simpa [W.abort, W.emit, hl] using this
  · next l _ =>
    have := h.two up (some l) (w.items l)
    simpa [W.emit, hl] using this

theorem pairs_handle {w : W} (h : Pairs w.log) (ev : Ev) : Pairs (w.handle ev).log := by
  unfold W.handle
  split
  · exact h
  · next s hs =>
    dsimp only
    by_cases h1 : s = STATE_STARTING
    · rw [if_pos h1]; subst h1; exact pairs_begin h true rfl
    · rw [if_neg h1]
      by_cases h2 : s = STATE_STOPPING
      · rw [if_pos h2]; subst h2; exact pairs_begin h false rfl
      · rw [if_neg h2]
        exact h.one (by simp [plain, h1, h2])

theorem pairs_turn {w : W} (h : Pairs w.log) (i : It) : Pairs (w.turn i).log := by
  unfold W.turn
  by_cases h1 : i.cursor = (if i.up then (w.items i.l).length else 0)
  · rw [if_pos h1]; exact h.one rfl
  · rw [if_neg h1]
    by_cases h2 : w.mod i.l ≠ i.expected
    · rw [if_pos h2]; exact h.one rfl
    · rw [if_neg h2]
      dsimp only
      split
      · exact h.one rfl
      · exact h.one rfl

theorem pairs_step {w w' : W} (h : Pairs w.log) {s : Step} (hs : step w s = some w') : Pairs w'.log := by
  cases s with
  | given l => cases hs; exact h.one rfl
  | changed l xs => cases hs; exact h.one rfl
  | put l k x => cases hs; exact h.one rfl
  | fire ev => cases hs; exact h.one rfl
  | take =>
    simp only [step] at hs
    split at hs
    · next ev q hit _ =>
      have h1 : Pairs (({ w with queue := q }).emit (.taken ev)).log := h.one rfl
      rw [← Option.some.inj hs]
      exact pairs_handle h1 ev
    · cases hs
  | turn =>
    simp only [step] at hs
    split at hs
    · next i hi =>
      split at hs
      · rw [← Option.some.inj hs]; exact pairs_turn h i
      · cases hs
    · cases hs
  | ret ok =>
    simp only [step] at hs
    split at hs
    · next i hi =>
      split at hs
      · next x hc =>
        cases hs
        have h1 := h.one (e := .ret i.up x ok) rfl
        cases ok
        · exact h1.one (e := .aborted i.up) rfl
        · exact h1
      · cases hs
    · cases hs

theorem pairs {w : W} (h : Reach w) : Pairs w.log := by
  obtain ⟨xs, hs⟩ := h
  have : ∀ (xs : List Step) (w0 : W), Pairs w0.log → runs w0 xs = some w → Pairs w.log := by
    intro xs
    induction xs with
    | nil => intro w0 h0 h1; cases h1; exact h0
    | cons x xs ih =>
      intro w0 h0 h1
      simp only [runs] at h1
      split at h1
      · cases h1
      · next w1 h2 => exact ih w1 (pairs_step h0 h2) h1
  exact this xs _ .nil hs

/-! ### Events -/

theorem eventsOf_append (a b : List Entry) : eventsOf (a ++ b) = eventsOf a ++ eventsOf b := List.filterMap_append
theorem takenOf_append (a b : List Entry) : takenOf (a ++ b) = takenOf a ++ takenOf b := List.filterMap_append

theorem table_eq : lifeCfg.table =
    [("UNINITIALISED", ⟨false, [(some ⟨0, "start"⟩, some ⟨"STARTING", 2⟩)]⟩),
     ("_END_", ⟨true, []⟩), ("_UNINITIALISED_", ⟨true, []⟩), ("_NOOP_", ⟨true, []⟩),
     ("STARTING", ⟨false, [(some ⟨0, "complete"⟩, some ⟨"STARTED", 3⟩), (some ⟨0, "error"⟩, some ⟨"STOPPED", 5⟩)]⟩),
     ("STARTED", ⟨false, [(some ⟨0, "stop"⟩, some ⟨"STOPPING", 4⟩), (some ⟨0, "error"⟩, some ⟨"STOPPED", 5⟩)]⟩),
     ("STOPPING", ⟨false, [(some ⟨0, "complete"⟩, some ⟨"STOPPED", 5⟩), (some ⟨0, "error"⟩, some ⟨"STOPPED", 5⟩)]⟩),
     ("STOPPED", ⟨false, [(some ⟨0, "start"⟩, some ⟨"STARTING", 2⟩), (some ⟨0, "stop"⟩, some ⟨"_END_", 0⟩)]⟩)] := by
  decide +kernel

theorem target_eq (s : String) (ev : Ev) : target s ev = next s ev := by
  obtain ⟨cls, name, oid⟩ := ev
  unfold target next lifecycle
  rw [table_eq]
  simp only [Table.row?, Ev.key]
  have names : (name = "start" ∨ name = "complete" ∨ name = "error" ∨ name = "stop") ∨
      ("start" ≠ name ∧ "complete" ≠ name ∧ "error" ≠ name ∧ "stop" ≠ name) := by
    by_cases h1 : name = "start"
    · exact .inl (.inl h1)
    by_cases h2 : name = "complete"
    · exact .inl (.inr (.inl h2))
    by_cases h3 : name = "error"
    · exact .inl (.inr (.inr (.inl h3)))
    by_cases h4 : name = "stop"
    · exact .inl (.inr (.inr (.inr h4)))
    exact .inr ⟨Ne.symm h1, Ne.symm h2, Ne.symm h3, Ne.symm h4⟩
  have states : (s = "UNINITIALISED" ∨ s = "_END_" ∨ s = "_UNINITIALISED_" ∨ s = "_NOOP_" ∨ s = "STARTING" ∨ s = "STARTED" ∨ s = "STOPPING" ∨ s = "STOPPED") ∨
      ("UNINITIALISED" ≠ s ∧ "_END_" ≠ s ∧ "_UNINITIALISED_" ≠ s ∧ "_NOOP_" ≠ s ∧ "STARTING" ≠ s ∧ "STARTED" ≠ s ∧ "STOPPING" ≠ s ∧ "STOPPED" ≠ s) := by
    by_cases h : s ∈ ["UNINITIALISED", "_END_", "_UNINITIALISED_", "_NOOP_", "STARTING", "STARTED", "STOPPING", "STOPPED"]
    · exact .inl (by simpa using h)
    · refine .inr ?_
      simp only [List.mem_cons, List.not_mem_nil, or_false, not_or] at h
      obtain ⟨h1, h2, h3, h4, h5, h6, h7, h8⟩ := h
      exact ⟨Ne.symm h1, Ne.symm h2, Ne.symm h3, Ne.symm h4, Ne.symm h5, Ne.symm h6, Ne.symm h7, Ne.symm h8⟩
  rcases states with h | ⟨h1, h2, h3, h4, h5, h6, h7, h8⟩
  · by_cases hc : cls = 0
    · subst hc
      rcases names with h' | ⟨n1, n2, n3, n4⟩
      · rw [if_pos rfl]
        rcases h with rfl | rfl | rfl | rfl | rfl | rfl | rfl | rfl <;> rcases h' with rfl | rfl | rfl | rfl <;> simp [AMap.get?, Row.target, List.find?]
      · rcases h with rfl | rfl | rfl | rfl | rfl | rfl | rfl | rfl <;> simp [AMap.get?, Row.target, List.find?, n1, n2, n3, n4]
    · rw [if_neg hc]
      have hc' : ¬ 0 = cls := fun h => hc h.symm
      rcases h with rfl | rfl | rfl | rfl | rfl | rfl | rfl | rfl <;> simp [AMap.get?, Row.target, hc']
  · simp [AMap.get?, List.find?, h1, h2, h3, h4, h5, h6, h7, h8]

/-- Events are taken in order, and the state is where they lead to. -/
structure Told (w : W) : Prop where
  fifo : eventsOf w.log = takenOf w.log ++ w.queue
  state : w.state = leads (takenOf w.log)
  states : ∀ p s r, w.log = p ++ .state s :: r → ∃ p' ev, p = p' ++ [.taken ev] ∧ next (leads (takenOf p')) ev = some s
  all : ∀ p ev r s, w.log = p ++ .taken ev :: r → next (leads (takenOf p)) ev = some s → ∃ r', r = .state s :: r'

theorem leads_snoc (evs : List Ev) (ev : Ev) : leads (evs ++ [ev]) = (next (leads evs) ev).getD (leads evs) := by simp [leads]

/-- Entries that have nothing to do with events taken. -/
theorem Told.other {w w' : W} {e : Entry} (h : Told w) (hl : w'.log = w.log ++ [e]) (h1 : takenOf [e] = []) (h2 : ∀ s, e ≠ .state s)
    (hs : w'.state = w.state) (hq : w'.queue = w.queue ++ eventsOf [e]) : Told w' := by
  refine ⟨?_, ?_, ?_, ?_⟩
  · rw [hl, eventsOf_append, takenOf_append, h1, h.fifo, hq]; simp
  · rw [hs, hl, takenOf_append, h1, List.append_nil]; exact h.state
  · intro p s r he
    rw [hl] at he
    rcases snoc_cons he with ⟨_, h3, _⟩ | ⟨r', rfl, h3⟩
    · exact absurd h3.symm (h2 s)
    · exact h.states _ _ _ h3
  · intro p ev r s he hn
    rw [hl] at he
    rcases snoc_cons he with ⟨_, rfl, _⟩ | ⟨r', rfl, h3⟩
    · cases h1
    · obtain ⟨r'', h4⟩ := h.all _ _ _ _ h3 hn
      exact ⟨r'' ++ [e], by rw [h4]; rfl⟩

theorem told_abort {w : W} (h : Told w) (up : Bool) : Told (w.abort up) :=
  h.other (e := .aborted up) rfl rfl (fun _ h => by cases h) rfl rfl

theorem told_begin {w : W} (h : Told w) (up : Bool) : Told (w.beginPhase up) := by
  unfold W.beginPhase
  split
  · exact told_abort (h.other (w' := w.emit (.begun up none [])) (e := .begun up none []) rfl rfl (fun _ h => by cases h) rfl (by simp [W.emit, eventsOf])) up
  · next l _ => exact h.other (e := .begun up (some l) (w.items l)) rfl rfl (fun _ h => by cases h) rfl (by simp [W.emit, eventsOf])

theorem told_take {w : W} (h : Told w) {ev : Ev} {q : List Ev} (hq : w.queue = ev :: q) : Told ((({ w with queue := q }).emit (.taken ev)).handle ev) := by
  have hf : eventsOf (w.log ++ [.taken ev]) = takenOf (w.log ++ [.taken ev]) ++ q := by
    rw [eventsOf_append, takenOf_append, h.fifo, hq]; simp [eventsOf, takenOf]
  have hst : ∀ p s r, w.log ++ [.taken ev] = p ++ .state s :: r → ∃ p' ev, p = p' ++ [.taken ev] ∧ next (leads (takenOf p')) ev = some s := by
    intro p s r he
    rcases snoc_cons he with ⟨_, h3, _⟩ | ⟨r', rfl, h3⟩
    · cases h3
    · exact h.states _ _ _ h3
  have hal : ∀ p ev' r s, w.log ++ [.taken ev] = p ++ .taken ev' :: r → next (leads (takenOf p)) ev' = some s →
      (∃ r', r = .state s :: r') ∨ (r = [] ∧ ev' = ev ∧ p = w.log) := by
    intro p ev' r s he hn
    rcases snoc_cons he with ⟨h3, h4, h5⟩ | ⟨r', rfl, h3⟩
    · cases h4; exact .inr ⟨h3, rfl, h5.symm⟩
    · obtain ⟨r'', h4⟩ := h.all _ _ _ _ h3 hn
      exact .inl ⟨r'' ++ [.taken ev], by rw [h4]; rfl⟩
  have hs0 : w.state = leads (takenOf w.log) := h.state
  have ht : leads (takenOf (w.log ++ [.taken ev])) = (next w.state ev).getD w.state := by
    rw [takenOf_append, hs0]; exact leads_snoc _ _
  unfold W.handle
  have hte : target (({ w with queue := q }).emit (.taken ev)).state ev = next w.state ev := target_eq w.state ev
  rw [hte]
  cases hn : next w.state ev with
  | none =>
    rw [hn] at ht
    refine ⟨hf, ht.symm, hst, fun p ev' r s he hn' => (hal p ev' r s he hn').elim id fun ⟨_, h2, h3⟩ => ?_⟩
    subst h2 h3
    have hn' : next (leads (takenOf w.log)) ev' = some s := hn'
    rw [← hs0, hn] at hn'
    cases hn'
  | some s =>
    rw [hn] at ht
    have h1 : Told (({ ({ w with queue := q }).emit (.taken ev) with state := s }).emit (.state s)) := by
      refine ⟨?_, ?_, ?_, ?_⟩
      · show eventsOf (w.log ++ [.taken ev] ++ [.state s]) = takenOf (w.log ++ [.taken ev] ++ [.state s]) ++ q
        rw [eventsOf_append, takenOf_append (w.log ++ _), hf]; simp [eventsOf, takenOf]
      · show s = leads (takenOf (w.log ++ [.taken ev] ++ [.state s]))
        rw [takenOf_append (w.log ++ _)]
        show s = leads (takenOf (w.log ++ [.taken ev]) ++ [])
        rw [List.append_nil, ht]; rfl
      · intro p s' r he
        have he : w.log ++ [.taken ev] ++ [.state s] = p ++ .state s' :: r := he
        rcases snoc_cons he with ⟨_, h3, h4⟩ | ⟨r', rfl, h3⟩
        · cases h3
          exact ⟨w.log, ev, h4.symm, by rw [← hn, hs0]⟩
        · exact hst _ _ _ h3
      · intro p ev' r s' he hn'
        have he : w.log ++ [.taken ev] ++ [.state s] = p ++ .taken ev' :: r := he
        rcases snoc_cons he with ⟨_, h3, h4⟩ | ⟨r', rfl, h3⟩
        · cases h3
        · rcases hal _ _ _ _ h3 hn' with ⟨r'', rfl⟩ | ⟨rfl, rfl, rfl⟩
          · exact ⟨r'' ++ [.state s], rfl⟩
          · have hn' : next (leads (takenOf w.log)) ev' = some s' := hn'
            rw [← hs0, hn] at hn'
            cases hn'
            exact ⟨[], rfl⟩
    dsimp only
    by_cases k1 : s = STATE_STARTING
    · rw [if_pos k1]; exact told_begin h1 true
    · rw [if_neg k1]
      by_cases k2 : s = STATE_STOPPING
      · rw [if_pos k2]; exact told_begin h1 false
      · rw [if_neg k2]; exact h1

theorem told_turn {w : W} (h : Told w) (i : It) : Told (w.turn i) := by
  unfold W.turn
  by_cases h1 : i.cursor = (if i.up then (w.items i.l).length else 0)
  · rw [if_pos h1]; exact h.other (e := .finished i.up) rfl rfl (fun _ h => by cases h) rfl rfl
  · rw [if_neg h1]
    by_cases h2 : w.mod i.l ≠ i.expected
    · rw [if_pos h2]; exact told_abort h _
    · rw [if_neg h2]
      dsimp only
      split
      · next x _ => exact h.other (e := .call i.up x) rfl rfl (fun _ h => by cases h) rfl (by simp [W.emit, eventsOf])
      · exact told_abort h _

theorem told_step {w w' : W} (h : Told w) {s : Step} (hs : step w s = some w') : Told w' := by
  cases s with
  | given l => cases hs; exact h.other (e := .given l) rfl rfl (fun _ h => by cases h) rfl (by simp [W.emit, eventsOf])
  | changed l xs => cases hs; exact h.other (e := .changed l xs) rfl rfl (fun _ h => by cases h) rfl (by simp [W.emit, eventsOf])
  | put l k x => cases hs; exact h.other (e := .put l k x) rfl rfl (fun _ h => by cases h) rfl (by simp [W.emit, eventsOf])
  | fire ev => cases hs; exact h.other (e := .fired ev) rfl rfl (fun _ h => by cases h) rfl rfl
  | take =>
    simp only [step] at hs
    split at hs
    · next ev q hit hq => rw [← Option.some.inj hs]; exact told_take h hq
    · cases hs
  | turn =>
    simp only [step] at hs
    split at hs
    · next i hi =>
      split at hs
      · rw [← Option.some.inj hs]; exact told_turn h i
      · cases hs
    · cases hs
  | ret ok =>
    simp only [step] at hs
    split at hs
    · next i hi =>
      split at hs
      · next x hc =>
        cases hs
        have h1 : Told (({ w with it := some { i with calling := none } }).emit (.ret i.up x ok)) :=
          h.other (e := .ret i.up x ok) rfl rfl (fun _ h => by cases h) rfl (by simp [W.emit, eventsOf])
        cases ok
        · exact told_abort h1 i.up
        · exact h1
      · cases hs
    · cases hs

theorem told {w : W} (h : Reach w) : Told w := by
  obtain ⟨xs, hs⟩ := h
  have : ∀ (xs : List Step) (w0 : W), Told w0 → runs w0 xs = some w → Told w := by
    intro xs
    induction xs with
    | nil => intro w0 h0 h1; cases h1; exact h0
    | cons x xs ih =>
      intro w0 h0 h1
      simp only [runs] at h1
      split at h1
      · cases h1
      · next w1 h2 => exact ih w1 (told_step h0 h2) h1
  exact this xs _ ⟨rfl, rfl, (fun p s r h => by cases p <;> cases h), fun p s r _ h => by cases p <;> cases h⟩ hs

end Verif.Ctx
