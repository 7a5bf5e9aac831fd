import Verif.Spec.Scan
import Verif.Proofs.Context
/-
Proofs for C87: what is known of an entry when it is written (`Cond`), of a thread that fires (`At`), and where a pair is (`Loc`).
-/

namespace Verif.Scan
open Spec.Scan
open Verif.Ctx (snoc_split snoc_cons)

theorem accepted_snoc (a : List Entry) (e : Entry) : accepted (a ++ [e]) = accepted a ++ (match e with | .accept t => [t] | _ => []) := by
  unfold accepted; rw [List.filterMap_append]; cases e <;> rfl
theorem taken_snoc (a : List Entry) (e : Entry) : taken (a ++ [e]) = taken a ++ (match e with | .take _ t => [t] | _ => []) := by
  unfold taken; rw [List.filterMap_append]; cases e <;> rfl
theorem takenBy_snoc (k : Nat) (a : List Entry) (e : Entry) :
    takenBy k (a ++ [e]) = takenBy k a ++ (match e with | .take k' t => if k' = k then [t] else [] | _ => []) := by
  unfold takenBy; rw [List.filterMap_append]
  cases e with
  | take k' t => by_cases hk : k' = k <;> simp [List.filterMap, hk]
  | _ => rfl
theorem mem_accepted {log : List Entry} {t : Tok} : t ∈ accepted log ↔ .accept t ∈ log := by
  unfold accepted
  rw [List.mem_filterMap]
  constructor
  · rintro ⟨e, he, h⟩; cases e <;> cases h; exact he
  · exact fun h => ⟨_, h, rfl⟩
theorem mem_taken {log : List Entry} {t : Tok} : t ∈ taken log ↔ ∃ k, .take k t ∈ log := by
  unfold taken
  rw [List.mem_filterMap]
  constructor
  · rintro ⟨e, he, h⟩; cases e <;> cases h; exact ⟨_, he⟩
  · exact fun ⟨k, h⟩ => ⟨_, h, rfl⟩

/-- Every element of the queue before `n` is different from `t`. -/
def Vis (eqv : Tok → Tok → Bool) (log : List Entry) (head : Nat) (t : Tok) (n : Nat) : Prop :=
  n ≤ (accepted log).length ∧ ∀ i t', head ≤ i → i < n → (accepted log)[i]? = some t' → eqv t' t = false

/-- When may an entry follow? -/
def Cond (eqv : Tok → Tok → Bool) (a : List Entry) : Entry → Prop
  | .fire _ t => (∀ p, .fire p t ∉ a) ∧ a.countP (decides t) = 0
  | .drop p t => a.countP (decides t) = 0 ∧ .fire p t ∈ a
  | .npe _ _ => False
  | .accept t => a.countP (decides t) = 0 ∧ ∃ p b m, a = b ++ .fire p t :: m ∧ Vis eqv a (taken a).length t (accepted b).length
  | .ret p t => a.countP (decides t) = 1 ∧ .fire p t ∈ a ∧ .ret p t ∉ a
  | .take _ t => (accepted a)[(taken a).length]? = some t
  | .process k t => (takenBy k a).getLast? = some t
  | .done k t => .process k t ∈ a

/-- What is known of a thread that fires. -/
def At (eqv : Tok → Tok → Bool) (w : W) (p : Nat) : PC → Prop
  | .idle => True
  | .scan t pos => (w.log.countP (decides t) = 0 ∧ .ret p t ∉ w.log) ∧ ∃ a m, w.log = a ++ .fire p t :: m ∧ Vis eqv w.log w.head t pos
  | .seen t pos x => (w.log.countP (decides t) = 0 ∧ .ret p t ∉ w.log) ∧ ∃ a m, w.log = a ++ .fire p t :: m ∧
      ∃ i t', pos = i + 1 ∧ w.nodes[i]? = some x ∧ Vis eqv w.log w.head t i ∧ w.held x = some t' ∧ t' ∉ taken a
  | .passed t | .got t _ => (w.log.countP (decides t) = 0 ∧ .ret p t ∉ w.log) ∧ ∃ a m, w.log = a ++ .fire p t :: m ∧ Vis eqv w.log w.head t (accepted a).length
  | .written t x => (w.log.countP (decides t) = 0 ∧ .ret p t ∉ w.log) ∧ (∃ a m, w.log = a ++ .fire p t :: m ∧ Vis eqv w.log w.head t (accepted a).length) ∧
      w.held x = some t
  | .offered t | .over t => (w.log.countP (decides t) = 1 ∧ .ret p t ∉ w.log) ∧ .fire p t ∈ w.log

def tok : PC → Option Tok
  | .idle => none
  | .scan t _ | .seen t _ _ | .passed t | .got t _ | .written t _ | .offered t | .over t => some t

/-- Where a pair may be. -/
inductive Loc
  | nowhere
  | pool
  | node (i : Nat)
  | prod (p : Nat)
  | work (k : Nat)
deriving DecidableEq

structure Own (w : W) (own : Nat → Loc) : Prop where
  pool : w.pool.Nodup ∧ ∀ x ∈ w.pool, own x = .pool
  node : ∀ i x, w.head ≤ i → w.nodes[i]? = some x → own x = .node i
  prod : ∀ p t x, w.prod p = .got t x ∨ w.prod p = .written t x → own x = .prod p
  work : ∀ k x, (w.work k = .got x ∨ ∃ t, w.work k = .busy x t) → own x = .work k
  new : ∀ x, w.newPair ≤ x → own x = .nowhere

/-- An event that has got past the check. -/
def Passed (w : W) (t : Tok) : Prop := t ∈ accepted w.log ∨ ∃ p x, w.prod p = .written t x

structure Inv (eqv : Tok → Tok → Bool) (w : W) : Prop where
  each : ∀ a e r, w.log = a ++ e :: r → Cond eqv a e
  at_ : ∀ p, At eqv w p (w.prod p)
  own : ∃ own, Own w own
  fresh : ∀ p t, .fire p t ∈ w.log → t < w.fresh
  fired : ∀ t, 0 < w.log.countP (decides t) → t < w.fresh
  len : w.nodes.length = (accepted w.log).length
  hd : w.head ≤ w.nodes.length
  tk : taken w.log = (accepted w.log).take w.head
  nodup : (accepted w.log).Nodup
  live : ∀ i x, w.head ≤ i → w.nodes[i]? = some x → w.held x = (accepted w.log)[i]?
  held : ∀ x t, w.held x = some t → Passed w t
  work : ∀ k x, (w.work k = .got x → ∃ t, w.held x = some t ∧ (takenBy k w.log).getLast? = some t) ∧ ∀ t, w.work k = .busy x t → .process k t ∈ w.log
  drops : ∀ b p t r, w.log = b ++ .drop p t :: r → ∃ a m t', b = a ++ .fire p t :: m ∧ eqv t' t = true ∧ t' ≠ t ∧ (∃ p', .fire p' t' ∈ b) ∧ t' ∉ taken a ∧ Passed w t'

theorem inv_init (eqv : Tok → Tok → Bool) : Inv eqv .init where
  each := fun a e r h => by cases a <;> cases h
  at_ := fun _ => trivial
  own := by
    refine ⟨fun _ => .nowhere, ⟨List.nodup_nil, fun _ h => by cases h⟩, fun i x _ h => ?_, fun p t x h => ?_, fun k x h => ?_, fun _ _ => rfl⟩
    · simp [W.init] at h
    · rcases h with h | h <;> simp [W.init] at h
    · rcases h with h | ⟨_, h⟩ <;> simp [W.init] at h
  fresh := fun _ _ h => by cases h
  fired := fun _ h => by cases h
  len := rfl
  hd := Nat.le_refl _
  tk := rfl
  nodup := List.nodup_nil
  live := fun i x _ h => by simp [W.init] at h
  held := fun _ _ h => by cases h
  work := fun _ _ => ⟨(fun h => by cases h), (fun _ h => by cases h)⟩
  drops := fun b _ _ _ h => by cases b <;> cases h

theorem Vis.on {eqv : Tok → Tok → Bool} {log : List Entry} {hd hd' : Nat} {t : Tok} {n : Nat} (h : Vis eqv log hd t n) (es : List Entry) (hh : hd ≤ hd') :
    Vis eqv (log ++ es) hd' t n := by
  have hl : accepted (log ++ es) = accepted log ++ accepted es := List.filterMap_append ..
  refine ⟨by rw [hl, List.length_append]; exact Nat.le_trans h.1 (Nat.le_add_right ..), fun i t' h1 h2 h3 => h.2 i t' (Nat.le_trans hh h1) h2 ?_⟩
  rw [hl, List.getElem?_append_left (Nat.lt_of_lt_of_le h2 h.1)] at h3
  exact h3

theorem At.fired {eqv : Tok → Tok → Bool} {w : W} {p : Nat} {pc : PC} (h : At eqv w p pc) {t : Tok} (ht : tok pc = some t) : .fire p t ∈ w.log ∧ .ret p t ∉ w.log := by
  cases pc <;> cases ht
  · obtain ⟨h1, a, m, h2, -⟩ := h; exact ⟨by rw [h2]; simp, h1.2⟩
  · obtain ⟨h1, a, m, h2, -⟩ := h; exact ⟨by rw [h2]; simp, h1.2⟩
  · obtain ⟨h1, a, m, h2, -⟩ := h; exact ⟨by rw [h2]; simp, h1.2⟩
  · obtain ⟨h1, a, m, h2, -⟩ := h; exact ⟨by rw [h2]; simp, h1.2⟩
  · obtain ⟨h1, ⟨a, m, h2, -⟩, -⟩ := h; exact ⟨by rw [h2]; simp, h1.2⟩
  · exact ⟨h.2, h.1.2⟩
  · exact ⟨h.2, h.1.2⟩

/-- The other threads: the history goes on, elements are added and taken, pairs that nobody else holds are written. -/
theorem At.on {eqv : Tok → Tok → Bool} {w w' : W} {p : Nat} {pc : PC} (h : At eqv w p pc) (es : List Entry) (hlog : w'.log = w.log ++ es)
    (h1 : ∀ t, tok pc = some t → es.countP (decides t) = 0 ∧ .ret p t ∉ es) (hn : ∃ l, w'.nodes = w.nodes ++ l) (hhd : w.head ≤ w'.head)
    (hh : ∀ x, w'.held x = w.held x ∨ ∃ t', w'.held x = some t' ∧ t' ∉ taken w.log) (hw : ∀ t x, pc = .written t x → w'.held x = w.held x) : At eqv w' p pc := by
  obtain ⟨l, hn⟩ := hn
  have hc : ∀ t n, tok pc = some t → w.log.countP (decides t) = n ∧ .ret p t ∉ w.log → w'.log.countP (decides t) = n ∧ .ret p t ∉ w'.log := fun t n ht hh => by
    rw [hlog, List.countP_append, (h1 t ht).1, Nat.add_zero]
    refine ⟨hh.1, fun hm => ?_⟩
    rcases List.mem_append.1 hm with hm | hm
    · exact hh.2 hm
    · exact (h1 t ht).2 hm
  have hs : ∀ t a m, w.log = a ++ .fire p t :: m → w'.log = a ++ .fire p t :: (m ++ es) := fun t a m hh => by rw [hlog, hh]; simp
  cases pc with
  | idle => trivial
  | scan t pos =>
    obtain ⟨g, a, m, g1, g2⟩ := h
    exact ⟨hc t 0 rfl g, a, m ++ es, hs t a m g1, by rw [hlog]; exact g2.on es hhd⟩
  | seen t pos x =>
    obtain ⟨g, a, m, g1, i, t', g2, g3, g4, g5, g6⟩ := h
    refine ⟨hc t 0 rfl g, a, m ++ es, hs t a m g1, i, ?_⟩
    have hx : w'.nodes[i]? = some x := by
      rw [hn, List.getElem?_append_left]
      · exact g3
      · exact (List.getElem?_eq_some_iff.1 g3).1
    rcases hh x with hx' | ⟨t'', hx', ht''⟩
    · exact ⟨t', g2, hx, by rw [hlog]; exact g4.on es hhd, hx'.trans g5, g6⟩
    · refine ⟨t'', g2, hx, by rw [hlog]; exact g4.on es hhd, hx', fun hm => ht'' ?_⟩
      rw [g1]
      show t'' ∈ List.filterMap _ (a ++ _)
      rw [List.filterMap_append]
      exact List.mem_append_left _ hm
  | passed t =>
    obtain ⟨g, a, m, g1, g2⟩ := h
    exact ⟨hc t 0 rfl g, a, m ++ es, hs t a m g1, by rw [hlog]; exact g2.on es hhd⟩
  | got t x =>
    obtain ⟨g, a, m, g1, g2⟩ := h
    exact ⟨hc t 0 rfl g, a, m ++ es, hs t a m g1, by rw [hlog]; exact g2.on es hhd⟩
  | written t x =>
    obtain ⟨g, ⟨a, m, g1, g2⟩, g3⟩ := h
    exact ⟨hc t 0 rfl g, ⟨a, m ++ es, hs t a m g1, by rw [hlog]; exact g2.on es hhd⟩, (hw t x rfl).trans g3⟩
  | offered t => exact ⟨hc t 1 rfl h.1, by rw [hlog]; exact List.mem_append_left _ h.2⟩
  | over t => exact ⟨hc t 1 rfl h.1, by rw [hlog]; exact List.mem_append_left _ h.2⟩

theorem fire_inj {eqv : Tok → Tok → Bool} {log : List Entry} (h : ∀ a e r, log = a ++ e :: r → Cond eqv a e) {p p' : Nat} {t : Tok} (h1 : .fire p t ∈ log) (h2 : .fire p' t ∈ log) :
    p = p' := by
  obtain ⟨a, r, rfl⟩ := List.append_of_mem h1
  rcases List.mem_append.1 h2 with h2 | h2
  · exact absurd h2 ((h _ _ _ rfl).1 p')
  · rcases List.mem_cons.1 h2 with h2 | h2
    · cases h2; rfl
    · obtain ⟨a', r', rfl⟩ := List.append_of_mem h2
      have := (h (a ++ .fire p t :: a') (.fire p' t) r' (by simp)).1 p
      exact absurd (by simp) this

theorem each_snoc {eqv : Tok → Tok → Bool} {log : List Entry} {e : Entry} (h : ∀ a e r, log = a ++ e :: r → Cond eqv a e) (he : Cond eqv log e) :
    ∀ a e' r, log ++ [e] = a ++ e' :: r → Cond eqv a e' := by
  intro a e' r heq
  rcases snoc_cons heq with ⟨-, rfl, rfl⟩ | ⟨r', -, h'⟩
  · exact he
  · exact h _ _ _ h'

theorem at_fset {eqv : Tok → Tok → Bool} {w : W} {f : Nat → PC} {p : Nat} {pc : PC} (h : At eqv w p pc) (ho : ∀ p', p' ≠ p → At eqv w p' (f p')) :
    ∀ p', At eqv w p' (fset f p pc p') := by
  intro p'
  unfold fset
  split
  · next hp => rw [hp]; exact h
  · next hp => exact ho p' hp

/-- The events of two threads differ. -/
theorem Inv.differ {eqv : Tok → Tok → Bool} {w : W} (h : Inv eqv w) {p p' : Nat} {t t' : Tok} (ht : tok (w.prod p) = some t) (ht' : tok (w.prod p') = some t')
    (hp : p' ≠ p) : t ≠ t' :=
  fun heq => hp (fire_inj h.each ((h.at_ p').fired ht').1 (heq ▸ ((h.at_ p).fired ht).1))

/-- Facts about drops stay true. -/
theorem drops_on {eqv : Tok → Tok → Bool} {w w' : W} (h : Inv eqv w) (hP : ∀ t, Passed w t → Passed w' t) (es : List Entry) (hlog : w'.log = w.log ++ es)
    (hne : ∀ p t, es ≠ [.drop p t]) (hes : es.length ≤ 1) :
    ∀ b p t r, w'.log = b ++ .drop p t :: r → ∃ a m t', b = a ++ .fire p t :: m ∧ eqv t' t = true ∧ t' ≠ t ∧ (∃ p', .fire p' t' ∈ b) ∧ t' ∉ taken a ∧ Passed w' t' := by
  intro b p t r hb
  have key : ∃ r', w.log = b ++ .drop p t :: r' := by
    rw [hlog] at hb
    match es, hes with
    | [], _ => exact ⟨r, by simpa using hb⟩
    | [e], _ =>
      rcases snoc_cons hb with ⟨-, rfl, rfl⟩ | ⟨r', -, h'⟩
      · exact absurd rfl (hne p t)
      · exact ⟨r', h'⟩
  obtain ⟨r', hr⟩ := key
  obtain ⟨a, m, t', g1, g2, g3, g4, g5, g6⟩ := h.drops b p t r' hr
  exact ⟨a, m, t', g1, g2, g3, g4, g5, hP t' g6⟩

theorem not_taken {eqv : Tok → Tok → Bool} {w : W} (h : Inv eqv w) {t : Tok} (h0 : w.log.countP (decides t) = 0) : t ∉ accepted w.log ∧ t ∉ taken w.log := by
  have h1 : t ∉ accepted w.log := fun hm => by
    have := List.countP_eq_zero.1 h0 _ (mem_accepted.1 hm)
    simp [decides] at this
  exact ⟨h1, fun hm => h1 (List.mem_of_mem_take (h.tk ▸ hm))⟩

theorem taken_len {eqv : Tok → Tok → Bool} {w : W} (h : Inv eqv w) : (taken w.log).length = w.head := by
  rw [h.tk, List.length_take, ← h.len]
  exact Nat.min_eq_left h.hd

/-! ### A thread that fires -/

/-- An entry of the thread that fires, or none: the queue and the pairs stay as they are. -/
theorem Inv.say {eqv : Tok → Tok → Bool} {w : W} (h : Inv eqv w) {p : Nat} {pc : PC} (es : List Entry) {fr : Nat} {pl : List Nat} {np : Nat}
    (hes : es = [] ∨ ∃ t, es = [.fire p t] ∧ t = w.fresh ∨ (es = [.drop p t] ∨ es = [.ret p t]) ∧ tok (w.prod p) = some t)
    (hc : ∀ e, es = [e] → Cond eqv w.log e)
    (ha : At eqv { w with fresh := fr, pool := pl, newPair := np, prod := fset w.prod p pc, log := w.log ++ es } p pc)
    (hown : ∃ own, Own { w with fresh := fr, pool := pl, newPair := np, prod := fset w.prod p pc, log := w.log ++ es } own)
    (hfr : w.fresh ≤ fr) (hff : ∀ t, es = [.fire p t] → t < fr) (hno : ∀ t x, w.prod p ≠ .written t x)
    (hdrop : ∀ t, es = [.drop p t] → ∃ a m t', w.log = a ++ .fire p t :: m ∧ eqv t' t = true ∧ t' ≠ t ∧ (∃ p', .fire p' t' ∈ w.log) ∧ t' ∉ taken a ∧ Passed w t') :
    Inv eqv { w with fresh := fr, pool := pl, newPair := np, prod := fset w.prod p pc, log := w.log ++ es } := by
  have hacc : accepted (w.log ++ es) = accepted w.log := by
    rcases hes with rfl | ⟨t, ⟨rfl, -⟩ | ⟨rfl | rfl, -⟩⟩
    · simp
    all_goals rw [accepted_snoc]; simp
  have htk : taken (w.log ++ es) = taken w.log := by
    rcases hes with rfl | ⟨t, ⟨rfl, -⟩ | ⟨rfl | rfl, -⟩⟩
    · simp
    all_goals rw [taken_snoc]; simp
  have htb : ∀ k, takenBy k (w.log ++ es) = takenBy k w.log := fun k => by
    rcases hes with rfl | ⟨t, ⟨rfl, -⟩ | ⟨rfl | rfl, -⟩⟩
    · simp
    all_goals rw [takenBy_snoc]; simp
  have hP : ∀ t, Passed w t → Passed { w with fresh := fr, pool := pl, newPair := np, prod := fset w.prod p pc, log := w.log ++ es } t := fun t ht => by
    rcases ht with ht | ⟨p', x, hx⟩
    · exact .inl (by show t ∈ accepted (w.log ++ es); rw [hacc]; exact ht)
    · refine .inr ⟨p', x, ?_⟩
      show fset w.prod p pc p' = _
      rw [fset_ne]
      · exact hx
      · rintro rfl; exact hno t x hx
  have hev : ∀ a e r, w.log ++ es = a ++ e :: r → Cond eqv a e := by
    rcases hes with rfl | ⟨t, ⟨rfl, -⟩ | ⟨rfl | rfl, -⟩⟩
    · simpa using h.each
    all_goals exact each_snoc h.each (hc _ rfl)
  refine ⟨hev, at_fset ha fun p' hp' => (h.at_ p').on es rfl (fun t ht => ?_) ⟨[], by simp⟩ (Nat.le_refl _) (fun _ => .inl rfl) (fun _ _ _ => rfl), hown, ?_, ?_, ?_, h.hd, ?_, ?_, ?_, ?_, ?_, ?_⟩
  · rcases hes with rfl | ⟨t0, ⟨rfl, -⟩ | ⟨rfl | rfl, h0⟩⟩
    · simp
    · simp [decides]
    · have := h.differ h0 ht hp'
      simp [decides, this]
    · have := h.differ h0 ht hp'
      simp only [List.mem_singleton, Entry.ret.injEq, not_and]
      exact ⟨by simp [decides], fun hh => absurd hh hp'⟩
  · intro p' t ht
    rcases List.mem_append.1 ht with ht | ht
    · exact Nat.lt_of_lt_of_le (h.fresh p' t ht) hfr
    · rcases hes with rfl | ⟨t0, ⟨rfl, -⟩ | ⟨rfl | rfl, h0⟩⟩
      · cases ht
      · simp only [List.mem_singleton, Entry.fire.injEq] at ht; rw [ht.2]; exact hff t0 rfl
      · simp at ht
      · simp at ht
  · intro t ht
    rw [List.countP_append] at ht
    rcases Nat.eq_zero_or_pos (w.log.countP (decides t)) with h0 | h0
    · rw [h0, Nat.zero_add] at ht
      rcases hes with rfl | ⟨t0, ⟨rfl, -⟩ | ⟨rfl | rfl, h1⟩⟩
      · cases ht
      · simp [decides] at ht
      · have h2 : t0 = t := Classical.byContradiction fun hne => by simp [decides, hne] at ht
        rw [← h2]
        exact Nat.lt_of_lt_of_le (h.fresh p t0 ((h.at_ p).fired h1).1) hfr
      · simp [decides] at ht
    · exact Nat.lt_of_lt_of_le (h.fired t h0) hfr
  · show w.nodes.length = (accepted (w.log ++ es)).length
    rw [hacc]; exact h.len
  · show taken (w.log ++ es) = (accepted (w.log ++ es)).take w.head
    rw [hacc, htk]; exact h.tk
  · show (accepted (w.log ++ es)).Nodup
    rw [hacc]; exact h.nodup
  · intro i x h1 h2
    show w.held x = (accepted (w.log ++ es))[i]?
    rw [hacc]; exact h.live i x h1 h2
  · exact fun x t hx => hP t (h.held x t hx)
  · intro k x
    refine ⟨fun hk => ?_, fun t hk => List.mem_append_left _ ((h.work k x).2 t hk)⟩
    obtain ⟨t, h1, h2⟩ := (h.work k x).1 hk
    exact ⟨t, h1, by show (takenBy k (w.log ++ es)).getLast? = _; rw [htb]; exact h2⟩
  · by_cases hd : ∃ t, es = [.drop p t]
    · obtain ⟨t, rfl⟩ := hd
      intro b p' t' r hb
      rcases snoc_cons hb with ⟨-, he, rfl⟩ | ⟨r', -, h'⟩
      · cases he
        obtain ⟨a, m, t2, g1, g2, g3, g4, g5, g6⟩ := hdrop t rfl
        exact ⟨a, m, t2, g1, g2, g3, g4, g5, hP _ g6⟩
      · obtain ⟨a, m, t2, g1, g2, g3, g4, g5, g6⟩ := h.drops b p' t' r' h'
        exact ⟨a, m, t2, g1, g2, g3, g4, g5, hP _ g6⟩
    · refine drops_on h hP es rfl (fun p' t' he => ?_) ?_
      · rcases hes with rfl | ⟨t0, ⟨rfl, -⟩ | ⟨rfl | rfl, -⟩⟩
        · cases he
        · cases he
        · exact hd ⟨t0, rfl⟩
        · cases he
      · rcases hes with rfl | ⟨t0, ⟨rfl, -⟩ | ⟨rfl | rfl, -⟩⟩ <;> simp

/-- The pairs stay where they are. -/
theorem Own.same {w w' : W} {own : Nat → Loc} (h : Own w own) (h1 : w'.pool = w.pool) (h2 : w'.head = w.head) (h3 : w'.nodes = w.nodes)
    (h4 : ∀ p t x, w'.prod p = .got t x ∨ w'.prod p = .written t x → ∃ t, w.prod p = .got t x ∨ w.prod p = .written t x)
    (h5 : ∀ k x, (w'.work k = .got x ∨ ∃ t, w'.work k = .busy x t) → w.work k = .got x ∨ ∃ t, w.work k = .busy x t) (h6 : w'.newPair = w.newPair) : Own w' own where
  pool := by rw [h1]; exact h.pool
  node := by rw [h2, h3]; exact h.node
  prod := fun p t x hp => by obtain ⟨t', h'⟩ := h4 p t x hp; exact h.prod p t' x h'
  work := fun k x hk => h.work k x (h5 k x hk)
  new := by rw [h6]; exact h.new

theorem own_move {w : W} {p : Nat} {pc : PC} {fr : Nat} {log : List Entry} (h : ∃ own, Own w own)
    (hpc : ∀ t x, pc = .got t x ∨ pc = .written t x → ∃ t, w.prod p = .got t x ∨ w.prod p = .written t x) :
    ∃ own, Own { w with fresh := fr, prod := fset w.prod p pc, log := log } own := by
  obtain ⟨own, h⟩ := h
  refine ⟨own, h.same rfl rfl rfl (fun p' t x hp' => ?_) (fun _ _ hk => hk) rfl⟩
  have hp2 : fset w.prod p pc p' = .got t x ∨ fset w.prod p pc p' = .written t x := hp'
  unfold fset at hp2
  split at hp2
  · next hpp => subst hpp; exact hpc t x hp2
  · exact ⟨t, hp2⟩

theorem inv_fire {eqv : Tok → Tok → Bool} {w : W} (h : Inv eqv w) {p : Nat} (hp : w.prod p = .idle) :
    Inv eqv { w with fresh := w.fresh + 1, prod := fset w.prod p (.scan w.fresh 0), log := w.log ++ [.fire p w.fresh] } := by
  have h0 : w.log.countP (decides w.fresh) = 0 := by
    rcases Nat.eq_zero_or_pos (w.log.countP (decides w.fresh)) with h0 | h0
    · exact h0
    · exact absurd (h.fired _ h0) (Nat.lt_irrefl _)
  have hr : .ret p w.fresh ∉ w.log := fun hm => by
    obtain ⟨a, r, he⟩ := List.append_of_mem hm
    have := (h.each _ _ _ he).2.1
    exact absurd (h.fresh p w.fresh (by rw [he]; simp [this])) (Nat.lt_irrefl _)
  refine h.say (pc := .scan w.fresh 0) [.fire p w.fresh] (.inr ⟨w.fresh, .inl ⟨rfl, rfl⟩⟩) (fun e he => ?_) ?_ ?_ (Nat.le_succ _) (fun t he => ?_) (fun t x => by rw [hp]; simp)
    (fun t he => by simp at he)
  · cases he
    exact ⟨fun p' hm => absurd (h.fresh _ _ hm) (Nat.lt_irrefl _), h0⟩
  · refine ⟨⟨?_, ?_⟩, w.log, [], rfl, Nat.zero_le _, fun i _ _ hi => absurd hi (Nat.not_lt_zero _)⟩
    · show (w.log ++ [_]).countP _ = 0
      rw [List.countP_append, h0]; simp [decides]
    · simpa using hr
  · exact own_move h.own (by simp)
  · cases he; exact Nat.lt_succ_self _

theorem inv_look {eqv : Tok → Tok → Bool} {w w' : W} (h : Inv eqv w) {p : Nat} (hs : step eqv w (.look p) = some w') : Inv eqv w' := by
  simp only [step] at hs
  cases hp : w.prod p with
  | scan t pos =>
    have ha := h.at_ p
    rw [hp] at hs ha
    obtain ⟨g, a, m, g1, g2⟩ := ha
    have hno : ∀ t x, w.prod p ≠ .written t x := by rw [hp]; simp
    have hvis : Vis eqv w.log w.head t (min (Nat.max pos w.head) (accepted w.log).length) := by
      refine ⟨Nat.min_le_right _ _, fun i t' h1 h2 h3 => g2.2 i t' h1 ?_ h3⟩
      have h4 := Nat.lt_of_lt_of_le h2 (Nat.min_le_left _ _)
      show i < pos
      have h5 : i < max pos w.head := h4
      omega
    cases hx : w.nodes[Nat.max pos w.head]? with
    | some x =>
      simp only [hx] at hs
      rw [← Option.some.inj hs]
      have hlt := (List.getElem?_eq_some_iff.1 hx).1
      rw [h.len] at hlt
      rw [Nat.min_eq_left (Nat.le_of_lt hlt)] at hvis
      have hge : w.head ≤ Nat.max pos w.head := Nat.le_max_right _ _
      have hl := h.live _ x hge hx
      obtain ⟨t', ht'⟩ : ∃ t', (accepted w.log)[Nat.max pos w.head]? = some t' := ⟨_, List.getElem?_eq_getElem hlt⟩
      have := h.say (pc := .seen t (Nat.max pos w.head + 1) x) (fr := w.fresh) (pl := w.pool) (np := w.newPair) [] (.inl rfl) (fun e he => by cases he) ?_ (own_move h.own (by simp)) (Nat.le_refl _)
        (fun t he => by cases he) hno (fun t he => by cases he)
      · simpa using this
      · simp only [List.append_nil]
        refine ⟨g, a, m, g1, _, t', rfl, hx, hvis, hl.trans ht', fun hm => ?_⟩
        have hm2 : t' ∈ taken w.log := by
          rw [g1]; show t' ∈ List.filterMap _ (a ++ _)
          rw [List.filterMap_append]; exact List.mem_append_left _ hm
        rw [h.tk] at hm2
        obtain ⟨j, hj, hjt⟩ := List.getElem_of_mem hm2
        have hjl : j < w.head := Nat.lt_of_lt_of_le hj (by rw [List.length_take]; exact Nat.min_le_left _ _)
        have hj2 : (accepted w.log)[j]? = some t' := by
          rw [← hjt, List.getElem_take]
          exact List.getElem?_eq_getElem _
        have := (List.getElem?_inj (List.getElem?_eq_some_iff.1 hj2).1 h.nodup).1 (hj2.trans ht'.symm)
        omega
    | none =>
      simp only [hx] at hs
      rw [← Option.some.inj hs]
      have hle := List.getElem?_eq_none_iff.1 hx
      rw [h.len] at hle
      rw [Nat.min_eq_right hle] at hvis
      have := h.say (pc := .passed t) (fr := w.fresh) (pl := w.pool) (np := w.newPair) [] (.inl rfl) (fun e he => by cases he) ?_ (own_move h.own (by simp)) (Nat.le_refl _)
        (fun t he => by cases he) hno (fun t he => by cases he)
      · simpa using this
      · simp only [List.append_nil]
        have hal : (accepted a).length ≤ (accepted w.log).length := by
          rw [g1]; show _ ≤ (List.filterMap _ (a ++ _)).length
          rw [List.filterMap_append, List.length_append]; exact Nat.le_add_right _ _
        exact ⟨g, a, m, g1, hal, fun i t' h1 h2 h3 => hvis.2 i t' h1 (Nat.lt_of_lt_of_le h2 hal) h3⟩
  | _ => simp [hp] at hs

theorem passed_ne {eqv : Tok → Tok → Bool} {w : W} (h : Inv eqv w) {p : Nat} {t t' : Tok} (ht : tok (w.prod p) = some t) (h0 : w.log.countP (decides t) = 0)
    (hno : ∀ t x, w.prod p ≠ .written t x) (hP : Passed w t') : t' ≠ t := by
  rintro rfl
  rcases hP with hm | ⟨p', x, hx⟩
  · exact (not_taken h h0).1 hm
  · by_cases hp : p' = p
    · subst hp; exact hno _ _ hx
    · exact h.differ ht (by rw [hx]; rfl) hp rfl

theorem passed_fired {eqv : Tok → Tok → Bool} {w : W} (h : Inv eqv w) {t : Tok} (hP : Passed w t) : ∃ p, .fire p t ∈ w.log := by
  rcases hP with hm | ⟨p', x, hx⟩
  · obtain ⟨a, r, he⟩ := List.append_of_mem (mem_accepted.1 hm)
    obtain ⟨-, p, b, m, hb, -⟩ := h.each _ _ _ he
    exact ⟨p, by rw [he, hb]; simp⟩
  · exact ⟨p', ((h.at_ p').fired (t := t) (by rw [hx]; rfl)).1⟩

theorem inv_compare {eqv : Tok → Tok → Bool} {w w' : W} (h : Inv eqv w) {p : Nat} (hs : step eqv w (.compare p) = some w') : Inv eqv w' := by
  simp only [step] at hs
  cases hp : w.prod p with
  | seen t pos x =>
    have ha := h.at_ p
    rw [hp] at hs ha
    obtain ⟨g, a, m, g1, i, t', g2, g3, g4, g5, g6⟩ := ha
    have hno : ∀ t x, w.prod p ≠ .written t x := by rw [hp]; simp
    have htok : tok (w.prod p) = some t := by rw [hp]; rfl
    simp only [g5] at hs
    by_cases he : eqv t' t = true
    · rw [if_pos he] at hs
      rw [← Option.some.inj hs]
      have hPt := h.held x t' g5
      refine h.say (pc := .over t) [.drop p t] (.inr ⟨t, .inr ⟨.inl rfl, htok⟩⟩) (fun e he => ?_) ?_ (own_move h.own (by simp)) (Nat.le_refl _) (fun t he => by simp at he) hno (fun t1 h1 => ?_)
      · cases he; exact ⟨g.1, by rw [g1]; simp⟩
      · refine ⟨⟨?_, by simpa using g.2⟩, List.mem_append_left _ (by rw [g1]; simp)⟩
        show (w.log ++ [_]).countP _ = 1
        rw [List.countP_append, g.1]; simp [decides]
      · cases h1
        exact ⟨a, m, t', g1, he, passed_ne h htok g.1 hno hPt, passed_fired h hPt, g6, hPt⟩
    · rw [if_neg he] at hs
      rw [← Option.some.inj hs]
      have := h.say (pc := .scan t pos) (fr := w.fresh) (pl := w.pool) (np := w.newPair) [] (.inl rfl) (fun e he => by cases he) ?_ (own_move h.own (by simp)) (Nat.le_refl _)
        (fun t he => by cases he) hno (fun t he => by cases he)
      · simpa using this
      · simp only [List.append_nil]
        have hil := (List.getElem?_eq_some_iff.1 g3).1
        refine ⟨g, a, m, g1, by rw [g2, ← h.len]; exact hil, fun j t2 h1 h2 h3 => ?_⟩
        by_cases hj : j = i
        · subst hj
          have := h.live j x h1 g3
          rw [g5, h3] at this
          cases this
          simpa using he
        · exact g4.2 j t2 h1 (by omega) h3
  | _ => simp [hp] at hs

theorem inv_pair {eqv : Tok → Tok → Bool} {w w' : W} (h : Inv eqv w) {p : Nat} (hs : step eqv w (.pair p) = some w') : Inv eqv w' := by
  simp only [step] at hs
  cases hp : w.prod p with
  | passed t =>
    have ha := h.at_ p
    rw [hp] at hs ha
    have hno : ∀ t x, w.prod p ≠ .written t x := by rw [hp]; simp
    obtain ⟨own, ho⟩ := h.own
    cases hpool : w.pool with
    | nil =>
      simp only [hpool] at hs
      rw [← Option.some.inj hs]
      have := h.say (pc := .got t w.newPair) (fr := w.fresh) (pl := w.pool) (np := w.newPair + 1) [] (.inl rfl) (fun e he => by cases he) ?_ ?_ (Nat.le_refl _)
        (fun t he => by cases he) hno (fun t he => by cases he)
      · simpa [hpool] using this
      · simp only [List.append_nil]; exact ha
      · have hnew : ∀ x, own x ≠ .nowhere → x ≠ w.newPair := fun x hx he => hx (ho.new x (by rw [he]; exact Nat.le_refl _))
        refine ⟨fset own w.newPair (.prod p), ⟨ho.pool.1, fun x hx => ?_⟩, fun i x h1 h2 => ?_, fun p' t' x h1 => ?_, fun k x h1 => ?_, fun x hx => ?_⟩
        · have := ho.pool.2 x hx
          rw [fset_ne _ _ (hnew x (by rw [this]; simp))]; exact this
        · have := ho.node i x h1 h2
          rw [fset_ne _ _ (hnew x (by rw [this]; simp))]; exact this
        · have h2 : fset w.prod p (.got t w.newPair) p' = .got t' x ∨ fset w.prod p (.got t w.newPair) p' = .written t' x := h1
          unfold fset at h2
          split at h2
          · next hpp =>
            rcases h2 with h2 | h2
            · cases h2; rw [fset_same, hpp]
            · cases h2
          · have := ho.prod p' t' x h2
            rw [fset_ne _ _ (hnew x (by rw [this]; simp))]; exact this
        · have := ho.work k x h1
          rw [fset_ne _ _ (hnew x (by rw [this]; simp))]; exact this
        · have hx' : w.newPair + 1 ≤ x := hx
          rw [fset_ne _ _ (by omega)]; exact ho.new x (by omega)
    | cons x0 xs =>
      simp only [hpool] at hs
      rw [← Option.some.inj hs]
      have := h.say (pc := .got t x0) (fr := w.fresh) (pl := xs) (np := w.newPair) [] (.inl rfl) (fun e he => by cases he) ?_ ?_ (Nat.le_refl _)
        (fun t he => by cases he) hno (fun t he => by cases he)
      · simpa using this
      · simp only [List.append_nil]; exact ha
      · have hpl := ho.pool
        rw [hpool] at hpl
        have hx0 := hpl.2 x0 (by simp)
        have hnd := List.nodup_cons.1 hpl.1
        have hnew : ∀ x, own x ≠ .pool → x ≠ x0 := fun x hx he => hx (he ▸ hx0)
        refine ⟨fset own x0 (.prod p), ⟨hnd.2, fun x hx => ?_⟩, fun i x h1 h2 => ?_, fun p' t' x h1 => ?_, fun k x h1 => ?_, fun x hx => ?_⟩
        · rw [fset_ne _ _ (by rintro rfl; exact hnd.1 hx)]
          exact hpl.2 x (List.mem_cons_of_mem _ hx)
        · have := ho.node i x h1 h2
          rw [fset_ne _ _ (hnew x (by rw [this]; simp))]; exact this
        · have h2 : fset w.prod p (.got t x0) p' = .got t' x ∨ fset w.prod p (.got t x0) p' = .written t' x := h1
          unfold fset at h2
          split at h2
          · next hpp =>
            rcases h2 with h2 | h2
            · cases h2; rw [fset_same, hpp]
            · cases h2
          · have := ho.prod p' t' x h2
            rw [fset_ne _ _ (hnew x (by rw [this]; simp))]; exact this
        · have := ho.work k x h1
          rw [fset_ne _ _ (hnew x (by rw [this]; simp))]; exact this
        · have := ho.new x hx
          rw [fset_ne _ _ (hnew x (by rw [this]; simp))]; exact this
  | _ => simp [hp] at hs

theorem inv_ret {eqv : Tok → Tok → Bool} {w : W} (h : Inv eqv w) {p : Nat} {t : Tok} (hp : w.prod p = .offered t ∨ w.prod p = .over t) :
    Inv eqv { w with prod := fset w.prod p .idle, log := w.log ++ [.ret p t] } := by
  have ha : (w.log.countP (decides t) = 1 ∧ .ret p t ∉ w.log) ∧ .fire p t ∈ w.log := by
    have ha := h.at_ p
    rcases hp with hp | hp <;> rw [hp] at ha <;> exact ha
  refine h.say (pc := .idle) [.ret p t] (.inr ⟨t, .inr ⟨.inr rfl, by rcases hp with hp | hp <;> rw [hp] <;> rfl⟩⟩) (fun e he => ?_) trivial (own_move h.own (by simp)) (Nat.le_refl _)
    (fun t he => by simp at he) (fun t' x => by rcases hp with hp | hp <;> rw [hp] <;> simp) (fun t he => by simp at he)
  cases he
  exact ⟨ha.1.1, ha.2, ha.1.2⟩

theorem inv_write {eqv : Tok → Tok → Bool} {w : W} (h : Inv eqv w) {p : Nat} {t : Tok} {x : Nat} (hp : w.prod p = .got t x) :
    Inv eqv { w with held := fset w.held x (some t), prod := fset w.prod p (.written t x) } := by
  have ha := h.at_ p
  rw [hp] at ha
  obtain ⟨own, ho⟩ := h.own
  have hx := ho.prod p t x (.inl hp)
  have hnew : ∀ y, own y ≠ .prod p → y ≠ x := fun y hy he => hy (he ▸ hx)
  have hnt := (not_taken h ha.1.1).2
  have hP : ∀ t', Passed w t' → Passed { w with held := fset w.held x (some t), prod := fset w.prod p (.written t x) } t' := fun t' ht' => by
    rcases ht' with ht' | ⟨p', x', hx'⟩
    · exact .inl ht'
    · refine .inr ⟨p', x', ?_⟩
      show fset w.prod p _ p' = _
      rw [fset_ne]
      · exact hx'
      · rintro rfl; rw [hp] at hx'; cases hx'
  refine ⟨h.each, at_fset ?_ fun p' hp' => (h.at_ p').on [] (by simp) (by simp) ⟨[], by simp⟩ (Nat.le_refl _) (fun y => ?_) (fun t' y hw => ?_), ⟨own, ?_⟩, h.fresh, h.fired, h.len, h.hd,
    h.tk, h.nodup, fun i y h1 h2 => ?_, fun y t' hy => ?_, fun k y => ⟨fun hk => ?_, fun t' hk => (h.work k y).2 t' hk⟩, ?_⟩
  · exact ⟨ha.1, ha.2, fset_same ..⟩
  · by_cases hy : y = x
    · exact .inr ⟨t, by show fset w.held x _ y = _; rw [hy, fset_same], hnt⟩
    · exact .inl (by show fset w.held x _ y = _; rw [fset_ne _ _ hy])
  · show fset w.held x _ y = _
    rw [fset_ne]
    refine hnew y fun he => ?_
    have := ho.prod p' t' y (.inr hw)
    rw [he] at this
    cases this; exact hp' rfl
  · refine ho.same rfl rfl rfl (fun p' t' y hy => ?_) (fun _ _ hk => hk) rfl
    have h2 : fset w.prod p (.written t x) p' = .got t' y ∨ fset w.prod p (.written t x) p' = .written t' y := hy
    unfold fset at h2
    split at h2
    · next hpp =>
      rcases h2 with h2 | h2
      · cases h2
      · cases h2; exact ⟨t, .inl (hpp ▸ hp)⟩
    · exact ⟨t', h2⟩
  · show fset w.held x _ y = _
    rw [fset_ne _ _ (hnew y (by rw [ho.node i y h1 h2]; simp))]
    exact h.live i y h1 h2
  · have h2 : fset w.held x (some t) y = some t' := hy
    unfold fset at h2
    split at h2
    · cases h2
      exact .inr ⟨p, x, fset_same ..⟩
    · exact hP t' (h.held y t' h2)
  · obtain ⟨t', h1, h2⟩ := (h.work k y).1 hk
    refine ⟨t', ?_, h2⟩
    show fset w.held x _ y = _
    rw [fset_ne _ _ (hnew y (by rw [ho.work k y (.inl hk)]; simp))]
    exact h1
  · exact drops_on h hP [] (by simp) (by simp) (by simp)

theorem inv_offer {eqv : Tok → Tok → Bool} {w : W} (h : Inv eqv w) {p : Nat} {t : Tok} {x : Nat} (hp : w.prod p = .written t x) :
    Inv eqv { w with nodes := w.nodes ++ [x], prod := fset w.prod p (.offered t), log := w.log ++ [.accept t] } := by
  have ha := h.at_ p
  rw [hp] at ha
  obtain ⟨g, ⟨a, m, g1, g2⟩, g3⟩ := ha
  have htok : tok (w.prod p) = some t := by rw [hp]; rfl
  obtain ⟨own, ho⟩ := h.own
  have hx := ho.prod p t x (.inr hp)
  have hnew : ∀ y, own y ≠ .prod p → y ≠ x := fun y hy he => hy (he ▸ hx)
  have hacc : accepted (w.log ++ [.accept t]) = accepted w.log ++ [t] := accepted_snoc _ _
  have htk : taken (w.log ++ [.accept t]) = taken w.log := by rw [taken_snoc]; simp
  have htb : ∀ k, takenBy k (w.log ++ [.accept t]) = takenBy k w.log := fun k => by rw [takenBy_snoc]; simp
  have hP : ∀ t', Passed w t' → Passed { w with nodes := w.nodes ++ [x], prod := fset w.prod p (.offered t), log := w.log ++ [.accept t] } t' := fun t' ht' => by
    rcases ht' with ht' | ⟨p', x', hx'⟩
    · exact .inl (by show t' ∈ accepted (w.log ++ _); rw [hacc]; exact List.mem_append_left _ ht')
    · by_cases hpp : p' = p
      · subst hpp
        rw [hp] at hx'; cases hx'
        exact .inl (by show t ∈ accepted (w.log ++ _); rw [hacc]; simp)
      · refine .inr ⟨p', x', ?_⟩
        show fset w.prod p _ p' = _
        rw [fset_ne _ _ hpp]; exact hx'
  refine ⟨each_snoc h.each ⟨g.1, p, a, m, g1, by rw [taken_len h]; exact g2⟩, at_fset ?_ fun p' hp' => (h.at_ p').on [.accept t] rfl (fun t' ht' => ?_) ⟨[x], rfl⟩ (Nat.le_refl _)
    (fun _ => .inl rfl) (fun _ _ _ => rfl), ⟨fset own x (.node w.nodes.length), ?_⟩, ?_, ?_, ?_, ?_, ?_, ?_, ?_, ?_, ?_, ?_⟩
  · refine ⟨⟨?_, by simpa using g.2⟩, List.mem_append_left _ (by rw [g1]; simp)⟩
    show (w.log ++ [_]).countP _ = 1
    rw [List.countP_append, g.1]; simp [decides]
  · have := h.differ htok ht' hp'
    simp [decides, this]
  · refine ⟨⟨ho.pool.1, fun y hy => ?_⟩, fun i y h1 h2 => ?_, fun p' t' y h1 => ?_, fun k y h1 => ?_, fun y hy => ?_⟩
    · have := ho.pool.2 y hy
      rw [fset_ne _ _ (hnew y (by rw [this]; simp))]; exact this
    · have h2' : (w.nodes ++ [x])[i]? = some y := h2
      rw [List.getElem?_append] at h2'
      split at h2'
      · have := ho.node i y h1 h2'
        rw [fset_ne _ _ (hnew y (by rw [this]; simp))]; exact this
      · next hi =>
        have hi2 : i - w.nodes.length = 0 := by
          have := (List.getElem?_eq_some_iff.1 h2').1
          simp at this; omega
        rw [hi2] at h2'
        simp at h2'
        subst h2'
        rw [fset_same]
        congr 1; omega
    · have h2 : fset w.prod p (.offered t) p' = .got t' y ∨ fset w.prod p (.offered t) p' = .written t' y := h1
      unfold fset at h2
      split at h2
      · rcases h2 with h2 | h2 <;> cases h2
      · next hpp =>
        have := ho.prod p' t' y h2
        rw [fset_ne _ _ (hnew y (by rw [this]; simp; exact hpp))]; exact this
    · have := ho.work k y h1
      rw [fset_ne _ _ (hnew y (by rw [this]; simp))]; exact this
    · have := ho.new y hy
      rw [fset_ne _ _ (hnew y (by rw [this]; simp))]; exact this
  · intro p' t' ht'
    rcases List.mem_append.1 ht' with ht' | ht'
    · exact h.fresh _ _ ht'
    · simp at ht'
  · intro t' ht'
    rw [List.countP_append] at ht'
    rcases Nat.eq_zero_or_pos (w.log.countP (decides t')) with h0 | h0
    · have h2 : t = t' := Classical.byContradiction fun hne => by rw [h0] at ht'; simp [decides, hne] at ht'
      rw [← h2]; exact h.fresh p t (by rw [g1]; simp)
    · exact h.fired t' h0
  · show (w.nodes ++ [x]).length = (accepted (w.log ++ [_])).length
    rw [hacc, List.length_append, List.length_append, h.len]; rfl
  · show w.head ≤ (w.nodes ++ [x]).length
    rw [List.length_append]; exact Nat.le_trans h.hd (Nat.le_add_right _ _)
  · show taken (w.log ++ [_]) = (accepted (w.log ++ [_])).take w.head
    rw [hacc, htk, List.take_append_of_le_length (by rw [← h.len]; exact h.hd)]; exact h.tk
  · show (accepted (w.log ++ [_])).Nodup
    rw [hacc, List.nodup_append]
    exact ⟨h.nodup, by simp, fun y hy z hz => by simp only [List.mem_singleton] at hz; subst hz; rintro rfl; exact (not_taken h g.1).1 hy⟩
  · intro i y h1 h2
    show w.held y = (accepted (w.log ++ [_]))[i]?
    have h2' : (w.nodes ++ [x])[i]? = some y := h2
    rw [hacc]
    rw [List.getElem?_append] at h2'
    split at h2'
    · next hi =>
      rw [List.getElem?_append_left (by rw [← h.len]; exact hi)]
      exact h.live i y h1 h2'
    · next hi =>
      have hi2 : i - w.nodes.length = 0 := by
        have := (List.getElem?_eq_some_iff.1 h2').1
        simp at this; omega
      rw [hi2] at h2'
      simp at h2'
      subst h2'
      rw [List.getElem?_append_right (by rw [← h.len]; omega), ← h.len, hi2]
      exact g3
  · exact fun y t' hy => hP t' (h.held y t' hy)
  · intro k y
    refine ⟨fun hk => ?_, fun t' hk => List.mem_append_left _ ((h.work k y).2 t' hk)⟩
    obtain ⟨t', h1, h2⟩ := (h.work k y).1 hk
    exact ⟨t', h1, by show (takenBy k (w.log ++ [_])).getLast? = _; rw [htb]; exact h2⟩
  · exact drops_on h hP [.accept t] rfl (by simp) (by simp)

/-! ### A worker -/

theorem Inv.work_ {eqv : Tok → Tok → Bool} {w : W} (h : Inv eqv w) {k : Nat} {kc : KC} {e : Entry} {hd : Nat} {pl : List Nat} (hc : Cond eqv w.log e)
    (he : (∃ t, e = .take k t ∧ hd = w.head + 1) ∨ (∃ t, (e = .process k t ∨ e = .done k t) ∧ hd = w.head)) (hhd : w.head ≤ hd ∧ hd ≤ w.nodes.length)
    (htk : taken (w.log ++ [e]) = (accepted w.log).take hd) (hown : ∃ own, Own { w with head := hd, pool := pl, work := fset w.work k kc, log := w.log ++ [e] } own)
    (hk : ∀ x, (kc = .got x → ∃ t, w.held x = some t ∧ (takenBy k (w.log ++ [e])).getLast? = some t) ∧ ∀ t, kc = .busy x t → .process k t ∈ w.log ++ [e]) :
    Inv eqv { w with head := hd, pool := pl, work := fset w.work k kc, log := w.log ++ [e] } := by
  have hacc : accepted (w.log ++ [e]) = accepted w.log := by
    rw [accepted_snoc]
    rcases he with ⟨t, rfl, -⟩ | ⟨t, rfl | rfl, -⟩ <;> simp
  have hd0 : ∀ t, decides t e = false := fun t => by rcases he with ⟨t, rfl, -⟩ | ⟨t, rfl | rfl, -⟩ <;> rfl
  have hP : ∀ t, Passed w t → Passed { w with head := hd, pool := pl, work := fset w.work k kc, log := w.log ++ [e] } t := fun t ht => by
    rcases ht with ht | ht
    · exact .inl (by show t ∈ accepted (w.log ++ _); rw [hacc]; exact ht)
    · exact .inr ht
  refine ⟨each_snoc h.each hc, fun p => (h.at_ p).on [e] rfl (fun t _ => ⟨by simp [hd0], ?_⟩) ⟨[], by simp⟩ hhd.1 (fun _ => .inl rfl) (fun _ _ _ => rfl), hown, ?_, ?_, ?_, hhd.2, ?_, ?_, ?_, ?_, ?_, ?_⟩
  · rcases he with ⟨t, rfl, -⟩ | ⟨t, rfl | rfl, -⟩ <;> simp
  · intro p' t' ht'
    rcases List.mem_append.1 ht' with ht' | ht'
    · exact h.fresh _ _ ht'
    · simp only [List.mem_singleton] at ht'
      rcases he with ⟨t, rfl, -⟩ | ⟨t, rfl | rfl, -⟩ <;> cases ht'
  · intro t ht
    rw [List.countP_append] at ht
    have : [e].countP (decides t) = 0 := by simp [hd0]
    rw [this] at ht
    exact h.fired t ht
  · show w.nodes.length = (accepted (w.log ++ [e])).length
    rw [hacc]; exact h.len
  · show taken (w.log ++ [e]) = (accepted (w.log ++ [e])).take hd
    rw [hacc]; exact htk
  · show (accepted (w.log ++ [e])).Nodup
    rw [hacc]; exact h.nodup
  · intro i x h1 h2
    show w.held x = (accepted (w.log ++ [e]))[i]?
    rw [hacc]; exact h.live i x (Nat.le_trans hhd.1 h1) h2
  · exact fun x t hx => hP t (h.held x t hx)
  · intro k' x
    have hne : k' ≠ k → takenBy k' (w.log ++ [e]) = takenBy k' w.log := fun hn => by
      rw [takenBy_snoc]
      rcases he with ⟨t, rfl, -⟩ | ⟨t, rfl | rfl, -⟩
      · simp [Ne.symm hn]
      · simp
      · simp
    refine ⟨fun hw => ?_, fun t hw => ?_⟩
    · have hw2 : fset w.work k kc k' = .got x := hw
      unfold fset at hw2
      split at hw2
      · next hkk => subst hkk; exact (hk x).1 hw2
      · next hkk =>
        obtain ⟨t', h1, h2⟩ := (h.work k' x).1 hw2
        exact ⟨t', h1, by show (takenBy k' (w.log ++ [_])).getLast? = _; rw [hne hkk]; exact h2⟩
    · have hw2 : fset w.work k kc k' = .busy x t := hw
      unfold fset at hw2
      split at hw2
      · next hkk => subst hkk; exact (hk x).2 t hw2
      · exact List.mem_append_left _ ((h.work k' x).2 t hw2)
  · refine drops_on h hP [e] rfl (fun p t => ?_) (by simp)
    rcases he with ⟨t, rfl, -⟩ | ⟨t, rfl | rfl, -⟩ <;> simp

theorem inv_poll {eqv : Tok → Tok → Bool} {w w' : W} (h : Inv eqv w) {k : Nat} (hs : step eqv w (.poll k) = some w') : Inv eqv w' := by
  simp only [step] at hs
  cases hk : w.work k with
  | idle =>
    rw [hk] at hs
    cases hx : w.nodes[w.head]? with
    | none => simp [hx] at hs
    | some x =>
      simp only [hx] at hs
      have hlt := (List.getElem?_eq_some_iff.1 hx).1
      have hl := h.live w.head x (Nat.le_refl _) hx
      cases ht : w.held x with
      | none => simp [ht] at hs
      | some t =>
        simp only [ht] at hs
        rw [← Option.some.inj hs]
        rw [ht] at hl
        obtain ⟨own, ho⟩ := h.own
        have hox := ho.node w.head x (Nat.le_refl _) hx
        have hnew : ∀ y, own y ≠ .node w.head → y ≠ x := fun y hy he => hy (he ▸ hox)
        refine h.work_ (kc := .got x) (pl := w.pool) (hd := w.head + 1) (by show _ = _; rw [taken_len h]; exact hl.symm) (.inl ⟨t, rfl, rfl⟩) ⟨Nat.le_succ _, hlt⟩ ?_ ?_ (fun y => ⟨fun hy => ?_, fun t' hy => by cases hy⟩)
        · rw [taken_snoc, h.tk, List.take_add_one, ← hl]; rfl
        · refine ⟨fset own x (.work k), ⟨ho.pool.1, fun y hy => ?_⟩, fun i y h1 h2 => ?_, fun p t' y h1 => ?_, fun k' y h1 => ?_, fun y hy => ?_⟩
          · have := ho.pool.2 y hy
            rw [fset_ne _ _ (hnew y (by rw [this]; simp))]; exact this
          · have h1' : w.head + 1 ≤ i := h1
            have := ho.node i y (by omega) h2
            rw [fset_ne _ _ (hnew y (by rw [this]; simp; omega))]; exact this
          · have := ho.prod p t' y h1
            rw [fset_ne _ _ (hnew y (by rw [this]; simp))]; exact this
          · have h2 : fset w.work k (.got x) k' = .got y ∨ ∃ t, fset w.work k (.got x) k' = .busy y t := h1
            unfold fset at h2
            split at h2
            · next hkk =>
              rcases h2 with h2 | ⟨_, h2⟩
              · cases h2; rw [fset_same, hkk]
              · cases h2
            · have := ho.work k' y h2
              rw [fset_ne _ _ (hnew y (by rw [this]; simp))]; exact this
          · have := ho.new y hy
            rw [fset_ne _ _ (hnew y (by rw [this]; simp))]; exact this
        · cases hy
          exact ⟨t, ht, by rw [takenBy_snoc]; simp⟩
  | _ => simp [hk] at hs

theorem inv_read {eqv : Tok → Tok → Bool} {w w' : W} (h : Inv eqv w) {k : Nat} (hs : step eqv w (.read k) = some w') : Inv eqv w' := by
  simp only [step] at hs
  cases hk : w.work k with
  | got x =>
    obtain ⟨t, h1, h2⟩ := (h.work k x).1 hk
    simp only [hk, h1] at hs
    rw [← Option.some.inj hs]
    obtain ⟨own, ho⟩ := h.own
    refine h.work_ (kc := .busy x t) (pl := w.pool) (hd := w.head) h2 (.inr ⟨t, .inl rfl, rfl⟩) ⟨Nat.le_refl _, h.hd⟩ ?_ ⟨own, ?_⟩ (fun y => ⟨(fun hy => by cases hy), fun t' hy => ?_⟩)
    · rw [taken_snoc, List.append_nil]; exact h.tk
    · refine ho.same rfl rfl rfl (fun _ t _ hp => ⟨t, hp⟩) (fun k' y hy => ?_) rfl
      have h3 : fset w.work k (.busy x t) k' = .got y ∨ ∃ t', fset w.work k (.busy x t) k' = .busy y t' := hy
      unfold fset at h3
      split at h3
      · next hkk =>
        rcases h3 with h3 | ⟨_, h3⟩
        · cases h3
        · cases h3; exact .inl (hkk ▸ hk)
      · exact h3
    · cases hy; simp
  | _ => simp [hk] at hs

theorem inv_give {eqv : Tok → Tok → Bool} {w : W} (h : Inv eqv w) {k x : Nat} {t : Tok} (hk : w.work k = .busy x t) :
    Inv eqv { w with pool := w.pool ++ [x], work := fset w.work k .idle, log := w.log ++ [.done k t] } := by
  obtain ⟨own, ho⟩ := h.own
  have hox := ho.work k x (.inr ⟨t, hk⟩)
  have hnew : ∀ y, own y ≠ .work k → y ≠ x := fun y hy he => hy (he ▸ hox)
  refine h.work_ (kc := .idle) (pl := w.pool ++ [x]) (hd := w.head) ((h.work k x).2 t hk) (.inr ⟨t, .inr rfl, rfl⟩) ⟨Nat.le_refl _, h.hd⟩ ?_ ⟨fset own x .pool, ?_⟩
    (fun y => ⟨(fun hy => by cases hy), (fun t' hy => by cases hy)⟩)
  · rw [taken_snoc, List.append_nil]; exact h.tk
  · refine ⟨⟨?_, fun y hy => ?_⟩, fun i y h1 h2 => ?_, fun p t' y h1 => ?_, fun k' y h1 => ?_, fun y hy => ?_⟩
    · show (w.pool ++ [x]).Nodup
      rw [List.nodup_append]
      refine ⟨ho.pool.1, by simp, fun y hy z hz => ?_⟩
      simp only [List.mem_singleton] at hz; subst hz; rintro rfl
      have := ho.pool.2 y hy
      rw [hox] at this; cases this
    · rcases List.mem_append.1 hy with hy | hy
      · have := ho.pool.2 y hy
        rw [fset_ne _ _ (hnew y (by rw [this]; simp))]; exact this
      · simp only [List.mem_singleton] at hy; rw [hy, fset_same]
    · have := ho.node i y h1 h2
      rw [fset_ne _ _ (hnew y (by rw [this]; simp))]; exact this
    · have := ho.prod p t' y h1
      rw [fset_ne _ _ (hnew y (by rw [this]; simp))]; exact this
    · have h3 : fset w.work k .idle k' = .got y ∨ ∃ t', fset w.work k .idle k' = .busy y t' := h1
      unfold fset at h3
      split at h3
      · rcases h3 with h3 | ⟨_, h3⟩ <;> cases h3
      · next hkk =>
        have := ho.work k' y h3
        rw [fset_ne _ _ (hnew y (by rw [this]; simp; exact hkk))]; exact this
    · have := ho.new y hy
      rw [fset_ne _ _ (hnew y (by rw [this]; simp))]; exact this

theorem inv_step {eqv : Tok → Tok → Bool} {w w' : W} (h : Inv eqv w) {x : Act} (hs : step eqv w x = some w') : Inv eqv w' := by
  cases x with
  | fire p =>
    simp only [step] at hs
    cases hp : w.prod p with
    | idle => simp only [hp] at hs; rw [← Option.some.inj hs]; exact inv_fire h hp
    | _ => simp [hp] at hs
  | look p => exact inv_look h hs
  | compare p => exact inv_compare h hs
  | pair p => exact inv_pair h hs
  | write p =>
    simp only [step] at hs
    cases hp : w.prod p with
    | got t x => simp only [hp] at hs; rw [← Option.some.inj hs]; exact inv_write h hp
    | _ => simp [hp] at hs
  | offer p =>
    simp only [step] at hs
    cases hp : w.prod p with
    | written t x => simp only [hp] at hs; rw [← Option.some.inj hs]; exact inv_offer h hp
    | _ => simp [hp] at hs
  | ret p =>
    simp only [step] at hs
    cases hp : w.prod p with
    | offered t => simp only [hp] at hs; rw [← Option.some.inj hs]; exact inv_ret h (.inl hp)
    | over t => simp only [hp] at hs; rw [← Option.some.inj hs]; exact inv_ret h (.inr hp)
    | _ => simp [hp] at hs
  | poll k => exact inv_poll h hs
  | read k => exact inv_read h hs
  | give k =>
    simp only [step] at hs
    cases hk : w.work k with
    | busy x t => simp only [hk] at hs; rw [← Option.some.inj hs]; exact inv_give h hk
    | _ => simp [hk] at hs

theorem inv {eqv : Tok → Tok → Bool} {w : W} (hw : Reach eqv w) : Inv eqv w := by
  obtain ⟨xs, hx⟩ := hw
  have : ∀ (w0 : W), Inv eqv w0 → runs eqv w0 xs = some w → Inv eqv w := by
    clear hx
    induction xs with
    | nil => intro w0 h0 h1; rw [← Option.some.inj h1]; exact h0
    | cons x xs ih =>
      intro w0 h0 h1
      simp only [runs] at h1
      cases hs : step eqv w0 x with
      | none => simp [hs] at h1
      | some w1 => simp only [hs] at h1; exact ih w1 (inv_step h0 hs) h1
  exact this _ (inv_init eqv) hx

end Verif.Scan
