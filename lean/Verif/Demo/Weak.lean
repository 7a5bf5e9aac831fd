import Verif.Proofs.WeakSC
/-
Concrete executions with reads of `currentState` that are not sequentially consistent, and a way to check that such reads are justified.
-/

namespace Verif.Demo
open Verif.Spec.HB Verif.Spec.Weak Verif.Weak

/-- Follow a schedule, skipping impossible steps. Machine 0 has the weak field. -/
def wdrive (env : Env) (c : Conf) : List WChoice → Conf
  | [] => c
  | x :: xs => match Weak.step env (· = 0) c x with
    | none => wdrive env c xs
    | some c' => wdrive env c' xs

def whist (env : Env) (c : Conf) : List WChoice → List Did
  | [] => []
  | x :: xs => match Weak.step env (· = 0) c x with
    | none => whist env c xs
    | some c' => (Spec.Weak.did c x).toList ++ whist env c' xs

theorem whist_real (env : Env) (c : Conf) (xs : List WChoice) :
    ∃ ys, Weak.runs env (· = 0) c ys = some (wdrive env c xs) ∧ Spec.Weak.history env (· = 0) c ys = whist env c xs ∧ ∀ y ∈ ys, y ∈ xs := by
  induction xs generalizing c with
  | nil => exact ⟨[], rfl, rfl, fun _ h => h⟩
  | cons x xs ih =>
    cases h : Weak.step env (· = 0) c x with
    | none =>
      obtain ⟨ys, h1, h2, h3⟩ := ih c
      refine ⟨ys, ?_, ?_, fun y hy => List.mem_cons_of_mem _ (h3 y hy)⟩
      · rw [h1]; simp [wdrive, h]
      · rw [h2]; simp [whist, h]
    | some c' =>
      obtain ⟨ys, h1, h2, h3⟩ := ih c'
      refine ⟨x :: ys, ?_, ?_, fun y hy => List.mem_cons.2 ((List.mem_cons.1 hy).imp id (h3 y))⟩
      · simp only [Weak.runs, h, h1]; simp [wdrive, h]
      · simp [Spec.Weak.history, whist, h, h2]

/-- Does the action write `currentState` of `m`, and what? -/
def putB (m : MId) : Did → Option St
  | .op _ (.setCur m' s _) _ => if m' = m then some s else none
  | _ => none

theorem put_of {H : List Did} {m : MId} {k : Nat} {s : St} : Writes H m k s ↔ ∃ d, H[k]? = some d ∧ putB m d = some s := by
  constructor
  · rintro ⟨t, api, h⟩
    exact ⟨_, h, by simp [putB]⟩
  · rintro ⟨d, h, hd⟩
    unfold putB at hd
    split at hd
    next t m' s' api r =>
      split at hd
      next hm => subst hm; cases hd; exact ⟨t, api, h⟩
      · cases hd
    · cases hd

/-- Action `k` may happen before action `i`. -/
def may (H : List Did) (k i : Nat) : Bool :=
  match H[k]? with
  | some a => (after [a] (H.drop (k + 1)))[i - (k + 1)]? == some true
  | none => false

theorem may_of {wide : Bool} {H : List Did} {k i : Nat} (h : HB wide H k i) {a : Did} (hk : H[k]? = some a) : may H k i = true := by
  simp only [may, hk, beq_iff_eq]
  exact Classical.byContradiction fun h' => not_hb hk h' h

/-- No write between `j` and `i` may happen before `i`. -/
def openB (m : MId) (H : List Did) (j i : Nat) : Bool :=
  (List.range i).all fun k => k < j || (match H[k]? with | some d => (putB m d).isNone || !may H k i | none => true)

theorem open_of {wide : Bool} {H : List Did} {m : MId} {j i k : Nat} {s : St} (h : openB m H j i = true) (hk : Writes H m k s) (hj : j ≤ k) : ¬HB wide H k i := by
  intro hb
  obtain ⟨d, h1, h2⟩ := put_of.1 hk
  have := List.all_eq_true.1 h k (List.mem_range.2 (HB.lt hb))
  simp only [h1, h2, may_of hb h1] at this
  simp at this
  omega

def justB (m : MId) (H : List Did) (i : Nat) : Did → Bool
  | .op _ (.getCur m') v => m' != m || match v with
    | none => openB m H 0 i
    | some s => (List.range i).any fun j => (match H[j]? with | some d => putB m d == some s | none => false) && openB m H (j + 1) i
  | _ => true

def justifiedB (m : MId) (H : List Did) : Bool :=
  (List.range H.length).all fun i => match H[i]? with | some d => justB m H i d | none => true

theorem justified_of {wide : Bool} {m : MId} {H : List Did} (h : justifiedB m H = true) : Justified wide true m H := by
  intro i t v hi
  have := List.all_eq_true.1 h i (List.mem_range.2 (get_lt hi))
  simp only [hi, justB, bne_self_eq_false, Bool.false_or] at this
  cases v with
  | none => exact Or.inl ⟨rfl, fun k s hk => open_of this hk (Nat.zero_le _)⟩
  | some s =>
    obtain ⟨j, hj, h1⟩ := List.any_eq_true.1 this
    have hj := List.mem_range.1 hj
    simp only [Bool.and_eq_true] at h1
    obtain ⟨h1, h2⟩ := h1
    split at h1
    next d hd =>
      refine Or.inr ⟨j, s, rfl, put_of.2 ⟨d, hd, eq_of_beq h1⟩, ⟨fun hb => ?_, fun k s' hk hjk => open_of h2 hk (HB.lt hjk)⟩, fun _ => hj⟩
      have := HB.lt hb; omega
    · cases h1

/-- After action `b`, thread `W` only changes the state; before, nobody. -/
def changesOk (W : Tid) (m : MId) (H : List Did) (b : Nat) : Bool :=
  (List.range H.length).all fun k => match H[k]? with
    | some (.op t (.casEnded m' _ _ _) r) => m' != m || !r || (t == W && b < k)
    | _ => true

theorem tidy_of {W t : Tid} {m : MId} {s : St} {H : List Did} {a b : Nat} (hab : a < b) (ha : H[a]? = some (.op t (.setCur m s true) ()))
    (hb : H[b]? = some (.op t (.clearEnded m) ())) (h : changesOk W m H b = true) : Tidy W m H a b where
  order := hab
  start := ⟨t, s, ha, hb⟩
  changes k u s' e api hk := by
    have := List.all_eq_true.1 h k (List.mem_range.2 (get_lt hk))
    simp only [hk] at this
    simpa using this

/-- `isEnded` is reset by action `n` and no other. -/
def clearsOk (m : MId) (H : List Did) (n : Nat) : Bool :=
  (List.range H.length).all fun k => match H[k]? with
    | some (.op _ (.clearEnded m') _) => m' != m || k == n
    | _ => true

theorem clears_of {m : MId} {H : List Did} {n b : Nat} {u : Tid} (h : clearsOk m H n = true) (hb : H[b]? = some (.op u (.clearEnded m) ())) : b = n := by
  have := List.all_eq_true.1 h b (List.mem_range.2 (get_lt hb))
  simp only [hb] at this
  simpa using this

/-- Thread `t` does at most `n` steps; whenever it reads the state it gets the next of these values. -/
def readsN (t : Tid) (n : Nat) (v : Option St) : List WChoice := (List.replicate n [.read t v, .sched (.run t)]).flatten

end Verif.Demo
