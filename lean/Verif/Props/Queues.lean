import Verif.Proofs.Queues
/-
C85: strategies with event queues of other kinds.
-/

namespace Verif.Qs
open Spec.Qs

/-! ### One call of fire -/

/-- When a call of `fire` returns, exactly one of three things has happened: the event was put into the queue, it was refused by the queue, or it was
reported because the queue was full. -/
theorem C85_fate {c : Cfg} {w : W} (hw : Reach c w) {a r : List Entry} {p : Nat} {t : Tok} (h : w.log = a ++ .ret p t :: r) :
    a.countP (decides t) = 1 ∧ .fire p t ∈ a ∧ .ret p t ∉ a :=
  (inv hw).each _ _ _ h

/-- An event is reported only if there is a bound, and the queue held as many elements as the bound when the event was fired, counting those that came
meanwhile. -/
theorem C85_rejected {c : Cfg} {w : W} (hw : Reach c w) {b r : List Entry} {p : Nat} {t : Tok} (h : w.log = b ++ .rejected p t :: r) :
    ∃ a m, b = a ++ .fire p t :: m ∧ 0 < c.max ∧ c.max ≤ (((inQueue a).length + (accepted m).length : Nat) : Int) :=
  ((inv hw).each _ _ _ h).2

/-- An event gets into the queue only if the queue takes it, and, if there is a bound, fewer elements than the bound were there throughout the call of
`size()`. -/
theorem C85_accepted {c : Cfg} {w : W} (hw : Reach c w) {b r : List Entry} {t : Tok} (h : w.log = b ++ .accept t :: r) :
    c.offerOk (inQueue b) true = true ∧
      ∃ p a m1 m2, b = a ++ .fire p t :: (m1 ++ m2) ∧ (0 < c.max → (stayed a (a ++ .fire p t :: m1) : Int) < c.max) :=
  ((inv hw).each _ _ _ h).2

/-! ### The queue -/

/-- What is taken is what the queue says, among the events accepted and not yet taken. -/
theorem C85_taken {c : Cfg} {w : W} (hw : Reach c w) {a r : List Entry} {k : Nat} {t : Tok} (h : w.log = a ++ .take k t :: r) :
    ∃ i, c.pickOk (inQueue a) i = true ∧ (inQueue a)[i]? = some t :=
  (inv hw).each _ _ _ h

/-- Every accepted event is in the queue or has been taken, not both, and is taken only once. -/
theorem C85_conserved {c : Cfg} {w : W} (hw : Reach c w) : (accepted w.log).Perm (taken w.log ++ inQueue w.log) ∧ (accepted w.log).Nodup := by
  refine ⟨perm _ (inv hw).each, ?_⟩
  have : ∀ log : List Entry, (∀ a e r, log = a ++ e :: r → Cond c a e) → (accepted log).Nodup := by
    intro log h
    refine List.pairwise_filterMap.2 ?_
    refine List.pairwise_iff_forall_sublist.2 fun {e e'} hsub t ht t' ht' heq => ?_
    subst heq
    have h1 : e = .accept t := by cases e <;> simp_all
    have h2 : e' = .accept t := by cases e' <;> simp_all
    subst h1 h2
    obtain ⟨r1, r2, rfl, g1, g2⟩ := List.cons_sublist_iff.1 hsub
    obtain ⟨x, y, rfl⟩ := List.append_of_mem (List.singleton_sublist.1 g2)
    have := (h (r1 ++ x) (.accept t) y (by simp)).1
    have h3 := List.countP_eq_zero.1 this (.accept t) (by simp [g1])
    simp [decides] at h3
  exact this _ (inv hw).each

/-- With a queue that is first in, first out, events are taken in the order in which they were accepted, by any number of workers. -/
theorem C85_fifo {c : Cfg} (hf : ∀ xs i, c.pickOk xs i = true → i = 0) {w : W} (hw : Reach c w) : taken w.log ++ inQueue w.log = accepted w.log :=
  fifo hf _ (inv hw).each

/-- When nobody is doing anything, the queue is empty: whatever order the queue chooses, nothing that was accepted is left behind. -/
theorem C85_rest {c : Cfg} {w : W} (hw : Reach c w) (hr : w.Rest) : inQueue w.log = [] ∧ (accepted w.log).Perm (taken w.log) := by
  have hi := inv hw
  have hq : w.q = [] := by
    refine Classical.byContradiction fun hne => ?_
    rcases hi.drain hne with h1 | ⟨k, h1⟩ | ⟨p, t, h1⟩
    · rw [hr.1] at h1; exact absurd h1 (by decide)
    · exact h1 (hr.2.2 k)
    · rw [hr.2.1] at h1; cases h1
  have h2 : inQueue w.log = [] := by rw [← hi.q, hq]
  refine ⟨h2, ?_⟩
  have := perm _ hi.each
  rwa [h2, List.append_nil] at this

/-- The bound holds if events are fired one after the other, though `size()` is not atomic. -/
theorem C85_bound {c : Cfg} {w : W} (hw : Reach c w) (h0 : 0 < c.max) (ha : Alone w.log) : ((inQueue w.log).length : Int) ≤ c.max :=
  (inv hw).q ▸ (bnd hw h0 ha).len

/-- With one worker, a worker never finds the queue empty after its check. -/
theorem C85_single {c : Cfg} (h1 : c.workers ≤ 1) {w : W} (hw : Reach c w) (k : Nat) : .died k ∉ w.log := (sing h1 hw).died k

/-- A worker dies only if the queue is empty. -/
theorem C85_died {c : Cfg} {w : W} (hw : Reach c w) {a r : List Entry} {k : Nat} (h : w.log = a ++ .died k :: r) : inQueue a = [] :=
  (inv hw).each _ _ _ h

/-! ### Runs -/

/-- java.util.concurrent.ConcurrentLinkedQueue. -/
def clq (max : Int) (n : Nat) : Cfg := ⟨max, n, fun _ b => b, fun _ i => i == 0⟩
/-- java.util.concurrent.ArrayBlockingQueue. -/
def abq (cap : Nat) : Cfg := ⟨-1, 1, fun q b => b == decide (q.length < cap), fun _ i => i == 0⟩
/-- java.util.Collections.asLifoQueue. -/
def lifo : Cfg := ⟨-1, 1, fun _ b => b, fun q i => i + 1 == q.length⟩

def after (c : Cfg) (xs : List Act) : W := (runs c .init xs).getD .init

theorem reach_after {c : Cfg} {xs : List Act} (h : (runs c .init xs).isSome = true) : Reach c (after c xs) := ⟨xs, by
  unfold after
  cases hr : runs c .init xs with
  | none => rw [hr] at h; cases h
  | some w => rfl⟩

/-- Two events into a queue with room for one. -/
def tight : List Act :=
  [.fire 0, .size 0 0, .offer 0 true, .execute 0, .fire 0, .size 0 1, .offer 0 false, .execute 0,
   .begin 0, .check 0, .poll 0 0, .done 0, .check 0, .begin 0, .check 0]

/-- Two events, the last one first. -/
def upside : List Act :=
  [.fire 0, .size 0 0, .offer 0 true, .execute 0, .fire 0, .size 0 1, .offer 0 true, .execute 0,
   .begin 0, .check 0, .poll 0 1, .done 0, .check 0, .poll 0 0, .done 0, .check 0, .begin 0, .check 0]

/-- Three events and a bound of 1; while `size()` is called for the second, the first one is taken. -/
def bounded : List Act :=
  [.fire 0, .size 0 0, .offer 0 true, .execute 0, .begin 0, .check 0, .fire 0, .poll 0 0, .size 0 0, .offer 0 true, .execute 0,
   .fire 1, .size 1 1, .report 1, .ret 1, .done 0, .check 0, .poll 0 0, .done 0, .check 0, .begin 0, .check 0]

/-- Two threads fire at the same time. -/
def crossed : List Act := [.fire 0, .fire 1, .size 0 0, .size 1 0, .offer 0 true, .offer 1 true]

/-- Two workers and one event. -/
def hungry : List Act :=
  [.fire 0, .size 0 0, .offer 0 true, .execute 0, .fire 1, .size 1 1, .offer 1 true, .execute 1, .begin 0, .begin 1, .check 0, .poll 0 0, .check 1, .done 0,
   .check 0, .poll 0 0, .poll 1 0]

theorem tight_reach : Reach (abq 1) (after (abq 1) tight) := reach_after (by decide +kernel)
theorem upside_reach : Reach lifo (after lifo upside) := reach_after (by decide +kernel)
theorem bounded_reach : Reach (clq 1 1) (after (clq 1 1) bounded) := reach_after (by decide +kernel)
theorem crossed_reach : Reach (clq 1 1) (after (clq 1 1) crossed) := reach_after (by decide +kernel)
theorem hungry_reach : Reach (clq 0 2) (after (clq 0 2) hungry) := reach_after (by decide +kernel)

theorem tight_rest : (after (abq 1) tight).Rest :=
  ⟨by decide +kernel, fun | 0 => by decide +kernel | _ + 1 => rfl, fun | 0 => by decide +kernel | _ + 1 => rfl⟩
theorem bounded_rest : (after (clq 1 1) bounded).Rest :=
  ⟨by decide +kernel, fun | 0 => by decide +kernel | 1 => by decide +kernel | _ + 2 => rfl, fun | 0 => by decide +kernel | _ + 1 => rfl⟩

/-- A test for `Alone`. -/
def turns : Option (Nat × Tok) → List Entry → Bool
  | _, [] => true
  | none, .fire p t :: r => turns (some (p, t)) r
  | some _, .fire _ _ :: _ => false
  | some (p, t), .ret p' t' :: r => turns (if p = p' ∧ t = t' then none else some (p, t)) r
  | s, _ :: r => turns s r

theorem turns_open {p p' : Nat} {t t' : Tok} {m r : List Entry} (h : turns (some (p, t)) (m ++ .fire p' t' :: r) = true) : .ret p t ∈ m := by
  induction m with
  | nil => cases h
  | cons e m ih =>
    cases e with
    | fire => cases h
    | ret p1 t1 =>
      simp only [List.cons_append, turns] at h
      split at h
      · next heq => rw [heq.1, heq.2]; simp
      · exact List.mem_cons_of_mem _ (ih h)
    | _ => exact List.mem_cons_of_mem _ (ih h)

theorem turns_at {s : Option (Nat × Tok)} {p : Nat} {t : Tok} {a r : List Entry} (h : turns s (a ++ .fire p t :: r) = true) : turns (some (p, t)) r = true := by
  induction a generalizing s with
  | nil => cases s with
    | none => exact h
    | some x => cases h
  | cons e a ih =>
    cases s with
    | none => cases e <;> exact ih h
    | some x => cases e <;> first | exact ih h | (cases h; done)

theorem alone_of {log : List Entry} (h : turns none log = true) : Alone log := by
  intro a p t m p' t' r he
  rw [he] at h
  exact turns_open (turns_at h)

example : ∃ a r, (after (abq 1) tight).log = a ++ .ret 0 1 :: r ∧ a.countP (decides 1) = 1 :=
  ⟨[.fire 0 0, .accept 0, .ret 0 0, .fire 0 1, .refuse 1], [.take 0 0, .done 0 0], by decide +kernel, (C85_fate tight_reach (p := 0) (r := [.take 0 0, .done 0 0]) (by decide +kernel)).1⟩

def boundedLog : List Entry :=
  [.fire 0 0, .accept 0, .ret 0 0, .fire 0 1, .take 0 0, .accept 1, .ret 0 1, .fire 1 2, .rejected 1 2, .ret 1 2, .done 0 0, .take 0 1, .done 0 1]
theorem bounded_log : (after (clq 1 1) bounded).log = boundedLog := by decide +kernel

example : ∃ a m, boundedLog.take 8 = a ++ .fire 1 2 :: m ∧ 0 < (1 : Int) ∧ (1 : Int) ≤ (((inQueue a).length + (accepted m).length : Nat) : Int) :=
  C85_rejected bounded_reach (r := boundedLog.drop 9) (by rw [bounded_log]; rfl)
example : (true = true) ∧ ∃ p a m1 m2, boundedLog.take 5 = a ++ .fire p 1 :: (m1 ++ m2) ∧ (0 < (1 : Int) → (stayed a (a ++ .fire p 1 :: m1) : Int) < 1) :=
  C85_accepted bounded_reach (r := boundedLog.drop 6) (by rw [bounded_log]; rfl)
example : ((inQueue (after (clq 1 1) bounded).log).length : Int) ≤ 1 :=
  C85_bound bounded_reach (by decide) (alone_of (by decide +kernel))
example : taken (after (clq 1 1) bounded).log ++ inQueue (after (clq 1 1) bounded).log = accepted (after (clq 1 1) bounded).log :=
  C85_fifo (fun xs i h => by simpa [clq] using h) bounded_reach
example : (accepted (after (clq 1 1) bounded).log).Perm (taken (after (clq 1 1) bounded).log) := (C85_rest bounded_reach bounded_rest).2
example : accepted (after lifo upside).log = [0, 1] ∧ (accepted (after lifo upside).log).Perm (taken (after lifo upside).log ++ inQueue (after lifo upside).log) :=
  ⟨by decide +kernel, (C85_conserved upside_reach).1⟩
example : ∃ i, lifo.pickOk [0, 1] i = true ∧ ([0, 1] : List Tok)[i]? = some 1 :=
  C85_taken upside_reach (a := [.fire 0 0, .accept 0, .ret 0 0, .fire 0 1, .accept 1, .ret 0 1]) (k := 0) (r := [.done 0 1, .take 0 0, .done 0 0]) (by decide +kernel)

example : Entry.died 0 ∉ (after (clq 1 1) bounded).log := C85_single (Nat.le_refl 1) bounded_reach 0

/-! ### What does not hold -/

/-- A queue that refuses elements: `fire` returns, nothing is reported, and the event is never processed. -/
theorem C85_negation_lost : ∃ c w p t, Reach c w ∧ w.Rest ∧ .ret p t ∈ w.log ∧ t ∉ taken w.log ∧ ∀ p', .rejected p' t ∉ w.log := by
  refine ⟨abq 1, _, 0, 1, tight_reach, tight_rest, by decide +kernel, by decide +kernel, fun p' h => ?_⟩
  have : (after (abq 1) tight).log.all (fun | .rejected .. => false | _ => true) = true := by decide +kernel
  exact absurd (List.all_eq_true.1 this _ h) (by simp)

/-- Events that one thread fires one after the other need not be processed in this order, although there is one worker only. -/
theorem C85_negation_order : ∃ c w, Reach c w ∧ c.workers = 1 ∧ Alone w.log ∧ accepted w.log = [0, 1] ∧ taken w.log = [1, 0] :=
  ⟨lifo, _, upside_reach, rfl, alone_of (by decide +kernel), by decide +kernel, by decide +kernel⟩

/-- Threads that fire at the same time exceed the bound. -/
theorem C85_negation_bound : ∃ c w, Reach c w ∧ c.max = 1 ∧ (inQueue w.log).length = 2 :=
  ⟨clq 1 1, _, crossed_reach, rfl, by decide +kernel⟩

/-- Two workers: one of them finds the queue empty after its check. -/
theorem C85_negation_died : ∃ c w, Reach c w ∧ c.workers = 2 ∧ .died 1 ∈ w.log :=
  ⟨clq 0 2, _, hungry_reach, rfl, by decide +kernel⟩
example : ∃ a r, (after (clq 0 2) hungry).log = a ++ .died 1 :: r ∧ inQueue a = [] :=
  ⟨[.fire 0 0, .accept 0, .ret 0 0, .fire 1 1, .accept 1, .ret 1 1, .take 0 0, .done 0 0, .take 0 1], [], by decide +kernel,
    C85_died hungry_reach (k := 1) (r := []) (by decide +kernel)⟩

end Verif.Qs
