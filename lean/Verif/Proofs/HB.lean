import Verif.Spec.HB
import Verif.Proofs.Tasks
/-
Invariants that speak about the history of actions (Spec/HB.lean), and happens-before in growing histories.
-/

namespace Verif
open Spec.HB

/-- The control state of a thread that is doing something: a worker is in a drain. -/
def Busy : Tid → List Frame → Prop
  | .client _, _ => True
  | .worker .., l => ∃ d b, At l d (some b)
  | .env, _ => False

theorem at_move {env : Env} {w : World} {l l' : List Frame} {o : Op} (hm : LMove env w l o l') {d : Nat} {b : Frame}
    (h : At l d (some b)) : ∃ d b, At l' d (some b) := by
  cases hm with
  | @enter l c _ => exact ⟨_, _, .cons (by cases c <;> rfl) h⟩
  | leave hl =>
    have := leaves_isDrain hl
    cases h with
    | drain hd => rw [this] at hd; cases hd
    | cons _ hs => exact ⟨_, _, hs⟩
  | user _ _ => exact ⟨_, _, h⟩
  | frame hm =>
    cases h with
    | drain hd => exact ⟨_, _, .drain ((move_isDrain hm).trans hd)⟩
    | cons hd hs => exact ⟨_, _, .cons ((move_isDrain hm).trans hd) hs⟩

theorem busy_move {env : Env} {w : World} {t : Tid} {l l' : List Frame} {o : Op} (hm : LMove env w l o l') (h : Busy t l) : Busy t l' := by
  cases t with
  | client _ => trivial
  | worker _ _ => obtain ⟨d, b, h⟩ := h; exact at_move hm h
  | env => exact h

/-- `J` is preserved by all steps from states that satisfy `A`, together with the history of actions. -/
structure HInv (env : Env) (A : (Tid → List Frame) → World → Prop) (J : List Did → (Tid → List Frame) → World → Prop) : Prop where
  op : ∀ H lst w t o l', A lst w → J H lst w → LMove env w (lst t) o l' → Busy t (lst t) →
    J (H ++ [.op t o (exec t o w).1]) (fset lst t l') (exec t o w).2
  ret : ∀ H lst w t, A lst w → J H lst w → fin t (.ok ()) (lst t) → J H (fset lst t []) w
  thr : ∀ H lst w t x, A lst w → J H lst w → fin t (.error x) (lst t) → J H (fset lst t []) (w.log t (.uncaught x))
  dispatch : ∀ H lst w e i j s m, A lst w → J H lst w → lst (.worker e i) = [] → i < env.width e →
    (w.tasks e)[j]? = some (s, m) →
    J (H ++ [.take (.worker e i) e s m]) (fset lst (.worker e i) (task s m)) { w with tasks := fset w.tasks e ((w.tasks e).eraseIdx j) }
  interrupt : ∀ H lst w t, A lst w → J H lst w → J H lst { w with intr := fset w.intr t true }
  shutdown : ∀ H lst w e, A lst w → J H lst w → J H lst { w with shut := fset w.shut e true }
  dropTasks : ∀ H lst w e, A lst w → J H lst w → J H lst (w.dropTasks e)

theorem hist_step {env : Env} {A : (Tid → List Frame) → World → Prop} {J : List Did → (Tid → List Frame) → World → Prop}
    (hA : Invariant env (proto env) [] task Verif.fin A) (hJ : HInv env A J) {c c' : Conf} {x : Choice} {lst : Tid → List Frame}
    {H : List Did} (ht : ThreadsOk (proto env) [] Verif.fin lst c) (hb : ∀ t, c.thr t ≠ none → Busy t (lst t)) (ha : A lst c.w)
    (hj : J H lst c.w) (hs : step env c x = some c') :
    ∃ lst', ThreadsOk (proto env) [] Verif.fin lst' c' ∧ (∀ t, c'.thr t ≠ none → Busy t (lst' t)) ∧ A lst' c'.w ∧ J (H ++ (did c x).toList) lst' c'.w := by
  have hc := checked env
  have upd : ∀ (t : Tid) (l : List Frame) (p : Option (Prog Unit)) (w : World),
      (match p with | none => l = [] | some p => (proto env).Ok t p l (Verif.fin t)) →
      ThreadsOk (proto env) [] Verif.fin (fset lst t l) ⟨w, fset c.thr t p⟩ := by
    intro t l p w hp u
    by_cases hu : u = t
    · subst hu; simp only [fset_same]; exact hp
    · simp only [fset_ne _ _ hu]; exact ht u
  have updb : ∀ (t : Tid) (l : List Frame) (p : Option (Prog Unit)) (w : World), (p ≠ none → Busy t l) →
      ∀ u, (Conf.mk w (fset c.thr t p)).thr u ≠ none → Busy u (fset lst t l u) := by
    intro t l p w hp u
    by_cases hu : u = t
    · subst hu; simp only [fset_same]; exact hp
    · simp only [fset_ne _ _ hu]; exact hb u
  have same : ∀ t, fset lst t (lst t) = lst := by
    intro t; funext u; by_cases h : u = t <;> simp [fset, h]
  cases x with
  | begin n u =>
    simp only [step] at hs
    split at hs
    · cases hs
    next hn =>
      cases hs
      have h0 := ht (.client n)
      rw [hn] at h0
      refine ⟨fset lst (.client n) (lst (.client n)), upd _ _ _ _ ?_, updb _ _ _ _ (fun _ => trivial), ?_⟩
      · simp only; rw [h0]; exact hc.client n u
      · rw [same]; simpa [did] using ⟨ha, hj⟩
  | run t =>
    simp only [step] at hs
    split at hs
    · cases hs
    next p hp =>
      have h0 := ht t
      rw [hp] at h0
      have hbt : Busy t (lst t) := hb t (by rw [hp]; simp)
      cases p with
      | ret a =>
        cases hs
        refine ⟨fset lst t [], upd _ _ _ _ rfl, updb _ _ _ _ (fun h => absurd rfl h), hA.ret _ _ _ ha h0, ?_⟩
        simpa [did, hp] using hJ.ret _ _ _ _ ha hj h0
      | thr x =>
        cases hs
        refine ⟨fset lst t [], upd _ _ _ _ rfl, updb _ _ _ _ (fun h => absurd rfl h), hA.thr _ _ _ _ ha h0, ?_⟩
        simpa [did, hp] using hJ.thr _ _ _ _ _ ha hj h0
      | op o k =>
        simp only [runThread] at hs
        split at hs
        next he =>
          cases hs
          refine ⟨fset lst t (lNxt env (lst t) o c.w), upd _ _ _ _ (h0.2 c.w (hA.know _ _ t ha)),
            updb _ _ _ _ (fun _ => busy_move (w := c.w) (lmove_of_allowed h0.1) hbt), hA.op _ _ _ _ ha h0.1 he, ?_⟩
          have := hJ.op _ _ _ _ _ _ ha hj (lmove_of_allowed h0.1) hbt
          simpa [did, hp] using this
        · cases hs
      | call f k =>
        cases hs
        refine ⟨fset lst t (lst t), upd _ _ _ _ ?_, updb _ _ _ _ (fun _ => hbt), ?_⟩
        · simp only
          rw [Proto.ok_handle]
          exact (hc.body t f (lst t) h0.1).mono (fun r l' hp => h0.2 r l' hp)
        · rw [same]; simpa [did, hp] using ⟨ha, hj⟩
  | dispatch e i j =>
    simp only [step] at hs
    split at hs
    next hw =>
      split at hs
      next s m hn hj' =>
        cases hs
        have h0 := ht (.worker e i)
        rw [hn] at h0
        refine ⟨fset lst (.worker e i) (task s m), upd _ _ _ _ (hc.drain _ s m),
          updb _ _ _ _ (fun _ => ⟨_, _, .drain rfl⟩), hA.dispatch _ _ _ _ _ _ _ ha h0 hw hj', ?_⟩
        simpa [did, hj'] using hJ.dispatch _ _ _ _ _ _ _ _ ha hj h0 hw hj'
      · cases hs
    · cases hs
  | interrupt t =>
    cases hs
    exact ⟨lst, ht, hb, hA.interrupt _ _ _ ha, by simpa [did] using hJ.interrupt _ _ _ t ha hj⟩
  | shutdown e now =>
    cases hs
    refine ⟨lst, ht, hb, ?_⟩
    have h1 := hA.shutdown _ _ e ha
    have h2 := hJ.shutdown _ _ _ e ha hj
    cases now with
    | false => simpa [did] using ⟨h1, h2⟩
    | true => simpa [did] using ⟨hA.dropTasks _ _ e h1, hJ.dropTasks _ _ _ e h1 h2⟩

theorem hist_runs {env : Env} {A : (Tid → List Frame) → World → Prop} {J : List Did → (Tid → List Frame) → World → Prop}
    (hA : Invariant env (proto env) [] task Verif.fin A) (hJ : HInv env A J) {c c' : Conf} {xs : List Choice} {lst : Tid → List Frame}
    {H : List Did} (ht : ThreadsOk (proto env) [] Verif.fin lst c) (hb : ∀ t, c.thr t ≠ none → Busy t (lst t)) (ha : A lst c.w)
    (hj : J H lst c.w) (hs : runs env c xs = some c') :
    ∃ lst', ThreadsOk (proto env) [] Verif.fin lst' c' ∧ A lst' c'.w ∧ J (H ++ history env c xs) lst' c'.w := by
  induction xs generalizing c lst H with
  | nil => cases hs; exact ⟨lst, ht, ha, by simpa [history] using hj⟩
  | cons x xs ih =>
    simp only [runs] at hs
    split at hs
    · cases hs
    next c1 h1 =>
      obtain ⟨l1, ht1, hb1, ha1, hj1⟩ := hist_step hA hJ ht hb ha hj h1
      obtain ⟨l2, ht2, ha2, hj2⟩ := ih ht1 hb1 ha1 hj1 hs
      refine ⟨l2, ht2, ha2, ?_⟩
      simpa [history, h1] using hj2

theorem hist_sound {env : Env} {A : (Tid → List Frame) → World → Prop} {J : List Did → (Tid → List Frame) → World → Prop}
    (hA : Invariant env (proto env) [] task Verif.fin A) (hJ : HInv env A J) (h0 : ∀ c, Initial c → A (fun _ => []) c.w)
    (hj0 : ∀ c, Initial c → J [] (fun _ => []) c.w) {c c' : Conf} (hi : Initial c) {xs : List Choice} (hs : runs env c xs = some c') :
    ∃ lst', A lst' c'.w ∧ J (history env c xs) lst' c'.w := by
  obtain ⟨l, _, h1, h2⟩ := hist_runs hA hJ (H := []) (lst := fun _ => []) (by intro t; rw [hi.idle t])
    (fun t h => absurd (hi.idle t) h) (h0 c hi) (hj0 c hi) hs
  exact ⟨l, h1, by simpa using h2⟩

/-! Happens-before. -/

variable {wide : Bool} {H : List Did} {x a : Did} {i j k : Nat}

theorem snoc_get : (H ++ [x])[i]? = some a ↔ H[i]? = some a ∨ (i = H.length ∧ a = x) := by
  rcases Nat.lt_trichotomy i H.length with h | h | h
  · rw [List.getElem?_append_left h]
    constructor
    · exact Or.inl
    · rintro (h' | ⟨h', _⟩)
      · exact h'
      · omega
  · subst h
    simp [eq_comm]
  · have h1 : (H ++ [x])[i]? = none := by simp; omega
    have h2 : H[i]? = none := by simp; omega
    simp [h1, h2]; omega

theorem get_snoc (h : H[i]? = some a) : (H ++ [x])[i]? = some a := snoc_get.2 (Or.inl h)
theorem last_snoc : (H ++ [x])[H.length]? = some x := snoc_get.2 (Or.inr ⟨rfl, rfl⟩)

theorem get_lt (h : H[i]? = some a) : i < H.length := by
  rcases Nat.lt_or_ge i H.length with h' | h'
  · exact h'
  · rw [List.getElem?_eq_none h'] at h; cases h

theorem Sync.lt (h : Sync wide H i j) : i < j := by cases h <;> assumption

theorem HB.lt (h : HB wide H i j) : i < j := by
  induction h with
  | po h => exact h
  | sync h => exact Sync.lt h
  | trans _ _ h1 h2 => exact Nat.lt_trans h1 h2

theorem Sync.snoc (h : Sync wide H i j) : Sync wide (H ++ [x]) i j := by
  have hb : ∀ {j : Nat} {a : Did}, H[j]? = some a → ∀ k v, k < j → H[k]? ≠ some v → (H ++ [x])[k]? ≠ some v := by
    intro j a hj k v hk hn h
    rcases snoc_get.1 h with h | ⟨h, _⟩
    · exact hn h
    · have := get_lt hj; omega
  cases h with
  | started h1 h2 h3 =>
    exact .started h1 (get_snoc h2) (h3.imp (fun ⟨r, h⟩ => ⟨r, get_snoc h⟩) (fun ⟨r, h⟩ => ⟨r, get_snoc h⟩))
  | ended h1 h2 h3 =>
    exact .ended h1 (h2.imp get_snoc (fun ⟨s, b, api, h⟩ => ⟨s, b, api, get_snoc h⟩))
      (h3.imp (fun ⟨r, h⟩ => ⟨r, get_snoc h⟩) (fun ⟨s, b, api, r, h⟩ => ⟨s, b, api, r, get_snoc h⟩))
  | queue h1 h2 h3 h4 =>
    rcases h3 with h | ⟨l, h, hl⟩
    · exact .queue h1 (get_snoc h2) (Or.inl (get_snoc h)) (fun k v hk hk' => hb h k _ hk' (h4 k v hk hk'))
    · exact .queue h1 (get_snoc h2) (Or.inr ⟨l, get_snoc h, hl⟩) (fun k v hk hk' => hb h k _ hk' (h4 k v hk hk'))
  | pool h1 h2 h3 h4 => exact .pool h1 (get_snoc h2) (get_snoc h3) (fun k v hk hk' => hb h3 k _ hk' (h4 k v hk hk'))
  | latch h1 h2 h3 => exact .latch h1 (get_snoc h2) (get_snoc h3)
  | task h0 h1 h2 h3 => exact .task h0 h1 (get_snoc h2) (get_snoc h3)
  | mem h0 h1 h2 h3 => exact .mem h0 h1 (get_snoc h2) (get_snoc h3)

theorem HB.snoc (h : HB wide H i j) : HB wide (H ++ [x]) i j := by
  induction h with
  | po h1 h2 h3 h4 => exact .po h1 (get_snoc h2) (get_snoc h3) h4
  | sync h => exact .sync (Sync.snoc h)
  | trans _ _ h1 h2 => exact .trans h1 h2

/-- What thread `t` does next comes after action `i`. -/
def Past (wide : Bool) (H : List Did) (i : Nat) (t : Tid) : Prop :=
  ∃ k a, H[k]? = some a ∧ a.tid = t ∧ (k = i ∨ HB wide H i k)

theorem Past.snoc {t : Tid} (h : Past wide H i t) : Past wide (H ++ [x]) i t := by
  obtain ⟨k, a, h1, h2, h3⟩ := h
  exact ⟨k, a, get_snoc h1, h2, h3.imp id HB.snoc⟩

theorem Past.self : Past wide (H ++ [x]) H.length x.tid := ⟨_, _, last_snoc, rfl, Or.inl rfl⟩

theorem Past.hb (h : Past wide H i x.tid) : HB wide (H ++ [x]) i H.length := by
  obtain ⟨k, a, h1, h2, h3⟩ := h
  have h4 : HB wide (H ++ [x]) k H.length := .po (get_lt h1) (get_snoc h1) last_snoc h2
  rcases h3 with rfl | h3
  · exact h4
  · exact .trans (HB.snoc h3) h4

theorem Past.of_hb (h : HB wide (H ++ [x]) i H.length) : Past wide (H ++ [x]) i x.tid := ⟨_, _, last_snoc, rfl, Or.inr h⟩

/-- Everything done to a cell comes before what `t` does next. -/
def Sees (H : List Did) (c : Cell) (t : Tid) : Prop :=
  ∀ i a, H[i]? = some a → (a.reads c ∨ a.writes c) → Past false H i t

/-- Everything done to a cell comes before action `o`. -/
def Upto (H : List Did) (c : Cell) (o : Nat) : Prop :=
  ∀ i a, H[i]? = some a → (a.reads c ∨ a.writes c) → HB false H i o

theorem Sees.snoc {c : Cell} {t : Tid} (h : Sees H c t) (hx : ¬(x.reads c ∨ x.writes c)) : Sees (H ++ [x]) c t := by
  intro i a hi ha
  rcases snoc_get.1 hi with h' | ⟨_, rfl⟩
  · exact Past.snoc (h i a h' ha)
  · exact absurd ha hx

theorem Sees.own {c : Cell} (h : Sees H c x.tid) : Sees (H ++ [x]) c x.tid := by
  intro i a hi ha
  rcases snoc_get.1 hi with h' | ⟨rfl, rfl⟩
  · exact Past.snoc (h i a h' ha)
  · exact Past.self

theorem Upto.snoc {c : Cell} {o : Nat} (h : Upto H c o) (hx : ¬(x.reads c ∨ x.writes c)) : Upto (H ++ [x]) c o := by
  intro i a hi ha
  rcases snoc_get.1 hi with h' | ⟨_, rfl⟩
  · exact HB.snoc (h i a h' ha)
  · exact absurd ha hx

theorem Sees.upto {c : Cell} (h : Sees H c x.tid) (hx : ¬(x.reads c ∨ x.writes c)) : Upto (H ++ [x]) c H.length := by
  intro i a hi ha
  rcases snoc_get.1 hi with h' | ⟨_, rfl⟩
  · exact Past.hb (h i a h' ha)
  · exact absurd ha hx

theorem Upto.sees {c : Cell} {o : Nat} (h : Upto H c o) (hs : Sync false (H ++ [x]) o H.length) (hx : ¬(x.reads c ∨ x.writes c)) :
    Sees (H ++ [x]) c x.tid := by
  intro i a hi ha
  rcases snoc_get.1 hi with h' | ⟨_, rfl⟩
  · exact Past.of_hb (.trans (HB.snoc (h i a h' ha)) (.sync hs))
  · exact absurd ha hx

theorem raceFree_snoc {c : Cell} (h : RaceFree false H c) (hx : (x.reads c ∨ x.writes c) → Sees H c x.tid) :
    RaceFree false (H ++ [x]) c := by
  intro i j a b hij hi hj ha hb hw
  rcases snoc_get.1 hi with hi' | ⟨rfl, rfl⟩
  · rcases snoc_get.1 hj with hj' | ⟨rfl, rfl⟩
    · exact HB.snoc (h i j a b hij hi' hj' ha hb hw)
    · exact Past.hb (hx hb i a hi' ha)
  · have := get_lt hj
    simp at this
    omega

end Verif
