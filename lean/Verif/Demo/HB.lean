import Verif.Spec.HB
import Verif.Demo.Events
/-
Histories of concrete executions, and a way to compute that one action does not happen before another.
-/

namespace Verif.Demo
open Verif.Spec.HB

/-- The history of an execution that follows a schedule, skipping impossible steps. -/
def hist (env : Env) (c : Conf) : List Choice → List Did
  | [] => []
  | x :: xs => match step env c x with
    | none => hist env c xs
    | some c' => (did c x).toList ++ hist env c' xs

theorem hist_real (env : Env) (c : Conf) (xs : List Choice) :
    ∃ ys, runs env c ys = some (drive env c xs) ∧ history env c ys = hist env c xs ∧ ∀ y ∈ ys, y ∈ xs := by
  induction xs generalizing c with
  | nil => exact ⟨[], rfl, rfl, fun _ h => h⟩
  | cons x xs ih =>
    cases h : step env c x with
    | none =>
      obtain ⟨ys, h1, h2, h3⟩ := ih c
      refine ⟨ys, ?_, ?_, fun y hy => List.mem_cons_of_mem _ (h3 y hy)⟩
      · rw [h1]; simp [drive, tryStep, h]
      · rw [h2]; simp [hist, h]
    | some c' =>
      obtain ⟨ys, h1, h2, h3⟩ := ih c'
      refine ⟨x :: ys, ?_, ?_, fun y hy => List.mem_cons.2 ((List.mem_cons.1 hy).imp id (h3 y))⟩
      · simp only [runs, h, h1]; simp [drive, tryStep, h]
      · simp [history, hist, h, h2]

/-- `a`, done before `b`, might be ordered before it directly (more often than it is). -/
def edge (a b : Did) : Bool := a.tid == b.tid || sync a b
where
  sync : Did → Did → Bool
    | .op _ (.casStarted m) _, .op _ (.getStarted m') _ => m == m'
    | .op _ (.casStarted m) _, .op _ (.casStarted m') _ => m == m'
    | .op _ (.clearEnded m) _, .op _ (.getEnded m') _ => m == m'
    | .op _ (.clearEnded m) _, .op _ (.casEnded m' _ _ _) _ => m == m'
    | .op _ (.casEnded m _ _ _) _, .op _ (.getEnded m') _ => m == m'
    | .op _ (.casEnded m _ _ _) _, .op _ (.casEnded m' _ _ _) _ => m == m'
    | .op _ (.offer q _) _, .op _ (.poll q') _ => q == q'
    | .op _ (.offer q _) _, .op _ (.qSnap q') _ => q == q'
    | .op _ (.poolGive s _) _, .op _ (.poolTake s') _ => s == s'
    | .op _ (.countDown n) _, .op _ (.await n') _ => n == n'
    | .op _ (.submit ..) _, .take .. => true
    | .op _ (.setMem ..) _, .op _ (.getMem _) _ => true
    | _, _ => false

/-- Which of the actions `ys` may come after one of `S`. -/
def after (S : List Did) : List Did → List Bool
  | [] => []
  | y :: ys => let b := S.any (edge · y); b :: after (if b then y :: S else S) ys

theorem after_step {S ys : List Did} {n : Nat} {y : Did} (hy : ys[n]? = some y)
    (h : (∃ s ∈ S, edge s y = true) ∨ ∃ k z, k < n ∧ ys[k]? = some z ∧ (after S ys)[k]? = some true ∧ edge z y = true) :
    (after S ys)[n]? = some true := by
  induction ys generalizing S n with
  | nil => cases hy
  | cons x ys ih =>
    cases n with
    | zero =>
      simp only [List.getElem?_cons_zero, Option.some.injEq] at hy
      subst hy
      rcases h with ⟨s, hs, he⟩ | ⟨k, _, hk, _⟩
      · simp only [after, List.getElem?_cons_zero, Option.some.injEq]
        exact List.any_eq_true.2 ⟨s, hs, he⟩
      · omega
    | succ n =>
      simp only [List.getElem?_cons_succ] at hy
      simp only [after, List.getElem?_cons_succ]
      apply ih hy
      rcases h with ⟨s, hs, he⟩ | ⟨k, z, hk, hz, hm, he⟩
      · refine Or.inl ⟨s, ?_, he⟩
        split
        · exact List.mem_cons_of_mem _ hs
        · exact hs
      · cases k with
        | zero =>
          simp only [List.getElem?_cons_zero, Option.some.injEq] at hz
          subst hz
          simp only [after, List.getElem?_cons_zero, Option.some.injEq] at hm
          rw [if_pos hm]
          exact Or.inl ⟨x, List.mem_cons_self, he⟩
        | succ k =>
          simp only [List.getElem?_cons_succ] at hz
          simp only [after, List.getElem?_cons_succ] at hm
          exact Or.inr ⟨k, z, by omega, hz, hm, he⟩

theorem edge_of_sync {wide : Bool} {H : List Did} {i j : Nat} (h : Sync wide H i j) :
    i < j ∧ ∃ a b, H[i]? = some a ∧ H[j]? = some b ∧ edge a b = true := by
  cases h with
  | started hl h1 h2 =>
    rcases h2 with ⟨r, h2⟩ | ⟨r, h2⟩ <;> exact ⟨hl, _, _, h1, h2, by simp [edge, edge.sync]⟩
  | ended hl h1 h2 =>
    rcases h1 with h1 | ⟨_, _, _, h1⟩ <;> rcases h2 with ⟨r, h2⟩ | ⟨_, _, _, r, h2⟩ <;>
      exact ⟨hl, _, _, h1, h2, by simp [edge, edge.sync]⟩
  | queue hl h1 h2 _ =>
    rcases h2 with h2 | ⟨l, h2, _⟩ <;> exact ⟨hl, _, _, h1, h2, by simp [edge, edge.sync]⟩
  | pool hl h1 h2 _ => exact ⟨hl, _, _, h1, h2, by simp [edge, edge.sync]⟩
  | latch hl h1 h2 => exact ⟨hl, _, _, h1, h2, by simp [edge, edge.sync]⟩
  | task _ hl h1 h2 => exact ⟨hl, _, _, h1, h2, by simp [edge, edge.sync]⟩
  | mem _ hl h1 h2 => exact ⟨hl, _, _, h1, h2, by simp [edge, edge.sync]⟩

/-- Nothing orders action `i` before action `j`. -/
theorem not_hb {wide : Bool} {H : List Did} {i j : Nat} {a : Did} (hi : H[i]? = some a)
    (h : (after [a] (H.drop (i + 1)))[j - (i + 1)]? ≠ some true) : ¬HB wide H i j := by
  intro hij
  have key : ∀ x y, HB wide H x y → (x = i ∨ (i < x ∧ (after [a] (H.drop (i + 1)))[x - (i + 1)]? = some true)) →
      i < y ∧ (after [a] (H.drop (i + 1)))[y - (i + 1)]? = some true := by
    intro x y hxy
    have one : ∀ x y, x < y ∧ (∃ b d, H[x]? = some b ∧ H[y]? = some d ∧ edge b d = true) →
        (x = i ∨ (i < x ∧ (after [a] (H.drop (i + 1)))[x - (i + 1)]? = some true)) →
        i < y ∧ (after [a] (H.drop (i + 1)))[y - (i + 1)]? = some true := by
      rintro x y ⟨hl, b, d, hb, hd, he⟩ hx
      have hiy : i < y := by rcases hx with rfl | ⟨hx, _⟩ <;> omega
      refine ⟨hiy, after_step (y := d) ?_ ?_⟩
      · rw [List.getElem?_drop, ← hd]; congr 1; omega
      · rcases hx with rfl | ⟨hx, hm⟩
        · rw [hi] at hb; cases hb
          exact Or.inl ⟨a, List.mem_cons_self, he⟩
        · refine Or.inr ⟨x - (i + 1), b, by omega, ?_, hm, he⟩
          rw [List.getElem?_drop, ← hb]; congr 1; omega
    induction hxy with
    | po hl h1 h2 ht => exact one _ _ ⟨hl, _, _, h1, h2, by simp [edge, ht]⟩
    | sync hs => exact one _ _ (edge_of_sync hs)
    | trans _ _ ih1 ih2 => exact fun hx => ih2 (Or.inr (ih1 hx))
  exact h (key _ _ hij (Or.inl rfl)).2

def readsB : Did → Cell → Bool
  | .op _ (.getCur m) _, c => c == .cur m
  | .op _ (.getListener m) _, c | .op _ (.notify m _) _, c => c == .listener m
  | .op _ (.getPair p) _, c => c == .pair p
  | .op _ (.getPayload o) _, c => c == .payload o
  | .op _ (.newCopy ev) _, c => c == .payload ev.oid
  | _, _ => false

def writesB : Did → Cell → Bool
  | .op _ (.setCur m _ _) _, c => c == .cur m
  | .op _ (.setListener m _) _, c => c == .listener m
  | .op _ (.setPair p _ _) _, c => c == .pair p
  | .op _ (.setPayload o _) _, c => c == .payload o
  | .op _ (.newCopy _) ev, c => c == .payload ev.oid
  | _, _ => false

theorem reads_of {d : Did} {c : Cell} (h : readsB d c = true) : d.reads c := by
  unfold readsB at h
  split at h <;> first | exact eq_of_beq h | cases h

theorem writes_of {d : Did} {c : Cell} (h : writesB d c = true) : d.writes c := by
  unfold writesB at h
  split at h <;> first | exact eq_of_beq h | cases h

/-- Actions `i` and `j` access the cell, one of them writes it, and nothing orders them. -/
def raceAt (H : List Did) (c : Cell) (i j : Nat) : Bool :=
  match H[i]?, H[j]? with
  | some a, some b => i < j && (readsB a c || writesB a c) && (readsB b c || writesB b c) && (writesB a c || writesB b c) &&
    (after [a] (H.drop (i + 1)))[j - (i + 1)]? != some true
  | _, _ => false

theorem race_of {H : List Did} {c : Cell} (i j : Nat) (h : raceAt H c i j = true) : ¬RaceFree true H c := by
  unfold raceAt at h
  split at h
  · next a b ha hb =>
    simp only [Bool.and_eq_true, Bool.or_eq_true, decide_eq_true_eq, bne_iff_ne] at h
    obtain ⟨⟨⟨⟨hl, h1⟩, h2⟩, h3⟩, h4⟩ := h
    exact fun hf => not_hb ha h4 (hf i j a b hl ha hb (h1.imp reads_of writes_of) (h2.imp reads_of writes_of) (h3.imp writes_of writes_of))
  · cases h

/-- All races that are there. -/
def races (H : List Did) (c : Cell) : List (Nat × Nat) :=
  (List.range H.length).flatMap fun j => (List.range j).filterMap fun i => if raceAt H c i j then some (i, j) else none

/-! Checking the discipline. -/

def readsOk (W : Tid) (m : MId) (H : List Did) : Bool :=
  H.all fun d => match d with | .op t (.getCur m') _ => m' != m || t == W | _ => true

def stopsOk (W : Tid) (m : MId) (H : List Did) : Bool :=
  H.all fun d => match d with | .op t (.emit (.enter (.stop m'))) _ => m' != m || t == W | _ => true

def firesOk (W : Tid) (m : MId) : Bool → List Did → Bool
  | _, [] => true
  | b, d :: ds => (match d with | .op t (.emit (.enter (.fire m' _))) _ => m' != m || t == W || b | _ => true) &&
    firesOk W m (b || match d with | .op _ (.clearEnded m') _ => m' == m | _ => false) ds

theorem reads_ok {W : Tid} {m : MId} {H : List Did} (h : readsOk W m H = true) (i : Nat) (t : Tid) (r : Option St)
    (hi : H[i]? = some (.op t (.getCur m) r)) : t = W := by
  simpa using List.all_eq_true.1 h _ (List.mem_of_getElem? hi)

theorem stops_ok {W : Tid} {m : MId} {H : List Did} (h : stopsOk W m H = true) (i : Nat) (t : Tid)
    (hi : H[i]? = some (.op t (.emit (.enter (.stop m))) ())) : t = W := by
  simpa using List.all_eq_true.1 h _ (List.mem_of_getElem? hi)

theorem fires_ok {W : Tid} {m : MId} {b : Bool} {H : List Did} (h : firesOk W m b H = true) (i : Nat) (t : Tid) (ev : Ev)
    (hi : H[i]? = some (.op t (.emit (.enter (.fire m ev))) ())) :
    t = W ∨ b = true ∨ ∃ k < i, ∃ u, H[k]? = some (.op u (.clearEnded m) ()) := by
  induction H generalizing b i with
  | nil => cases hi
  | cons d ds ih =>
    simp only [firesOk, Bool.and_eq_true] at h
    cases i with
    | zero =>
      simp only [List.getElem?_cons_zero, Option.some.injEq] at hi
      subst hi
      have := h.1
      simp only [bne_self_eq_false, Bool.false_or, Bool.or_eq_true, beq_iff_eq] at this
      exact this.imp id Or.inl
    | succ i =>
      rcases ih h.2 i hi with h1 | h1 | ⟨k, hk, u, hu⟩
      · exact Or.inl h1
      · simp only [Bool.or_eq_true] at h1
        rcases h1 with h1 | h1
        · exact Or.inr (Or.inl h1)
        · split at h1
          · next u m' x =>
            have := eq_of_beq h1
            subst this
            exact Or.inr (Or.inr ⟨0, by omega, u, rfl⟩)
          · cases h1
      · exact Or.inr (Or.inr ⟨k + 1, by omega, u, hu⟩)

theorem disciplined_of {W : Tid} {m : MId} {H : List Did} (h1 : readsOk W m H = true) (h2 : stopsOk W m H = true)
    (h3 : firesOk W m false H = true) : Disciplined W m H where
  reads := reads_ok h1
  stops := stops_ok h2
  fires := fun i t ev hi => by
    rcases fires_ok h3 i t ev hi with h | h | ⟨k, hk, h⟩
    · exact Or.inl h
    · cases h
    · exact Or.inr ⟨k, hk, Or.inl h⟩

end Verif.Demo
