import Verif.Proofs.Bounds
import Verif.Props.Queue
import Verif.Demo.Races
/-
C30, C31: how many events wait in a bounded queue, and duplicates in a queue with the drop-duplicates strategy.
-/

namespace Verif
open Spec (accepted taken)

section
variable {env : Env} {c : Conf} {q : QId}

theorem waiting_eq (hr : Reach env c) : Spec.waiting q c.w.trace = (c.w.queue q).filterMap c.w.pair := by
  obtain ⟨_, h, _⟩ := C13_fifo env c hr q
  rw [Spec.waiting, h, List.drop_left]

theorem waiting_length (hr : Reach env c) : (Spec.waiting q c.w.trace).length = (c.w.queue q).length := by
  rw [waiting_eq hr]
  obtain ⟨_, _, h⟩ := C13_fifo env c hr q
  generalize c.w.queue q = l at h
  induction l with
  | nil => rfl
  | cons p l ih =>
    obtain ⟨x, hx⟩ := Option.isSome_iff_exists.1 (h p List.mem_cons_self)
    simp [hx, ih fun p hp => h p (List.mem_cons_of_mem _ hp)]

/-- C30b: if all strategies which use a queue have a bound, none greater than `n`, and all calls of `fire` for machines with
this queue are made by the threads `P` (client threads, or worker threads if actions fire events), then there are never more
than `n + P.length - 1` events waiting. -/
theorem C30_bound {n : Nat} (hr : Reach env c)
    (hs : ∀ s, (env.strat s).queue = q → 0 < (env.strat s).maxQ ∧ (env.strat s).maxQ ≤ n) {P : List Tid}
    (hP : ∀ t m ev, (t, .enter (.fire m ev)) ∈ c.w.trace → (env.strat (env.mach m).strat).queue = q → t ∈ P) :
    (Spec.waiting q c.w.trace).length ≤ n + P.length - 1 := by
  obtain ⟨lst, -, -, h⟩ := Invariant.reach
    (((own_invariant env).and (stacks_invariant env _)).and ((bounded_invariant env q n).mono fun _ _ h => h.2))
    (fun c hi => ⟨⟨own_initial env c hi, stacks_initial _⟩, fun _ _ _ =>
      ⟨[], List.nodup_nil, fun _ => by simp [inflight], .inr (by rw [hi.queue]; rfl)⟩⟩) hr
  obtain ⟨I, _, _, h⟩ := h hs P hP
  rw [waiting_length hr]
  omega

/-- C30b: if only one thread fires, the bound is respected. -/
theorem C30_single_producer {n : Nat} (hr : Reach env c)
    (hs : ∀ s, (env.strat s).queue = q → 0 < (env.strat s).maxQ ∧ (env.strat s).maxQ ≤ n) {t : Tid}
    (hP : ∀ u m ev, (u, .enter (.fire m ev)) ∈ c.w.trace → (env.strat (env.mach m).strat).queue = q → u = t) :
    (Spec.waiting q c.w.trace).length ≤ n :=
  C30_bound (P := [t]) hr hs fun u m ev h1 h2 => List.mem_singleton.2 (hP u m ev h1 h2)

/-- C31b: if all strategies which use a queue are drop-duplicates strategies, and all calls of `fire` for machines with this
queue are made by one thread and with events of the library's class (or any events of class 0), then no two of the waiting
events are equal. -/
theorem C31_no_duplicates (hr : Reach env c) (hs : ∀ s, (env.strat s).queue = q → (env.strat s).dropDup = true) {t : Tid}
    (hP : ∀ u m ev, (u, .enter (.fire m ev)) ∈ c.w.trace → (env.strat (env.mach m).strat).queue = q → u = t ∧ ev.cls = 0) :
    (Spec.waiting q c.w.trace).Pairwise fun x y => x.1.eqv y.1 = false := by
  obtain ⟨lst, -, -, h⟩ := Invariant.reach
    (((own_invariant env).and (stacks_invariant env _)).and (distinct_invariant env q t))
    (fun c hi => ⟨⟨own_initial env c hi, stacks_initial _⟩, fun _ _ => ⟨by rw [hi.queue]; exact .nil, fun _ _ _ _ h => (nomatch h)⟩⟩) hr
  rw [waiting_eq hr]
  exact (h hs hP).1

end

namespace Demo

def fireP (ev : Ev) : UProg := .call (.fire 0 ev) fun _ => .done

/-- Three client threads fire events at a queue with bound 1, all pass the check before any enqueues its event. -/
def crowd : Conf :=
  drive (env acts 1) conf ([.begin 0 (client 0 [])] ++ runN (.client 0) 100 ++
    [.begin 0 (fireP go), .begin 1 (fireP stay), .begin 2 (fireP back)] ++
    runN (.client 0) 5 ++ runN (.client 1) 5 ++ runN (.client 2) 5 ++
    runN (.client 0) 20 ++ runN (.client 1) 20 ++ runN (.client 2) 20)

theorem crowd_reach : ReachFrom (env acts 1) conf crowd := drive_reach _ _ _

/-- One thread fires three events at a queue with bound 2. -/
def filled : Conf := drive (env acts 2) conf ([.begin 0 (client 0 [go, stay, back])] ++ runN (.client 0) 100)
theorem filled_reach : ReachFrom (env acts 2) conf filled := drive_reach _ _ _

/-- One thread fires go, stay, go, drop duplicates. -/
def single : Conf := drive (env acts 0 true) conf ([.begin 0 (client 0 [go, stay, go])] ++ runN (.client 0) 100)
theorem single_reach : ReachFrom (env acts 0 true) conf single := drive_reach _ _ _

/-- Two threads fire the same event. -/
def twins : Conf :=
  drive (env acts 0 true) conf ([.begin 0 (client 0 [])] ++ runN (.client 0) 100 ++ [.begin 0 (fireP go), .begin 1 (fireP go)] ++
    runN (.client 0) 6 ++ runN (.client 1) 6 ++ runN (.client 0) 20 ++ runN (.client 1) 20)
theorem twins_reach : ReachFrom (env acts 0 true) conf twins := drive_reach _ _ _

/-- An event of a class of the user's, not the library's. -/
def special : Ev := ⟨7, "go", .client 8⟩
/-- One thread fires it twice, with a payload. -/
def payloads : Conf :=
  drive (env acts 0 true) conf ([.begin 0 (.call (.start 0) fun _ => .call (.setPayload special.oid (some 5)) fun _ => client.fires 0 [special, special])] ++
    runN (.client 0) 100)
theorem payloads_reach : ReachFrom (env acts 0 true) conf payloads := drive_reach _ _ _

/-- Facts about all calls of `fire` in a history. -/
theorem fires_of {tr : Spec.Trace} {P : Tid → Ev → Bool}
    (h : tr.all (fun x => match x with | (t, .enter (.fire _ ev)) => P t ev | _ => true) = true) :
    ∀ t m ev, (t, .enter (.fire m ev)) ∈ tr → P t ev = true := fun _ _ _ hm => List.all_eq_true.1 h _ hm

end Demo

example : (Spec.waiting 0 Demo.crowd.w.trace).length ≤ 1 + 3 - 1 :=
  C30_bound (env := Demo.env Demo.acts 1) (P := [.client 0, .client 1, .client 2]) ⟨_, Demo.conf_initial _, Demo.crowd_reach⟩
    (fun s _ => ⟨by show (0 : Int) < 1; decide, Int.le_refl _⟩)
    (fun t m ev h _ => by
      have := Demo.fires_of (P := fun t _ => [Tid.client 0, .client 1, .client 2].contains t) (by decide +kernel) t m ev h
      simpa using this)

example : (Spec.waiting 0 Demo.filled.w.trace).length ≤ 2 :=
  C30_single_producer (env := Demo.env Demo.acts 2) (t := .client 0) ⟨_, Demo.conf_initial _, Demo.filled_reach⟩
    (fun s _ => ⟨by show (0 : Int) < 2; decide, Int.le_refl _⟩)
    (fun t m ev h _ => by
      have := Demo.fires_of (P := fun t _ => t == .client 0) (by decide +kernel) t m ev h
      simpa using this)

example : Spec.waiting 0 Demo.filled.w.trace = [(Demo.go, 0), (Demo.stay, 0)] := by decide +kernel

example : (Spec.waiting 0 Demo.single.w.trace).Pairwise fun x y => x.1.eqv y.1 = false :=
  C31_no_duplicates (env := Demo.env Demo.acts 0 true) (t := .client 0) ⟨_, Demo.conf_initial _, Demo.single_reach⟩ (fun _ _ => rfl)
    (fun t m ev h _ => by
      have := Demo.fires_of (P := fun t ev => t == .client 0 && ev.cls == 0) (by decide +kernel) t m ev h
      simpa using this)

example : Spec.waiting 0 Demo.single.w.trace = [(Demo.go, 0), (Demo.stay, 0)] := by decide +kernel

/-- The bound of C30 cannot be improved to `maxQueueSize` if several threads fire: here 3 threads and 3 waiting events with
`maxQueueSize` 1. -/
theorem C30_bound_attained : ∃ env c, Reach env c ∧ (∀ s, (env.strat s).maxQ = 1) ∧
    (Spec.waiting 0 c.w.trace).length = 1 + 3 - 1 ∧
    ∀ t m ev, (t, .enter (.fire m ev)) ∈ c.w.trace → t ∈ [Tid.client 0, .client 1, .client 2] :=
  ⟨Demo.env Demo.acts 1, Demo.crowd, ⟨_, Demo.conf_initial _, Demo.crowd_reach⟩, fun _ => rfl, by decide +kernel, fun t m ev h => by
      have := Demo.fires_of (P := fun t _ => [Tid.client 0, .client 1, .client 2].contains t) (by decide +kernel) t m ev h
      simpa using this⟩

/-- With two threads the same event can be waiting twice. -/
theorem C31_negation_two_producers : ∃ env c, Reach env c ∧ (∀ s, (env.strat s).dropDup = true) ∧
    Spec.waiting 0 c.w.trace = [(Demo.go, 0), (Demo.go, 0)] :=
  ⟨Demo.env Demo.acts 0 true, Demo.twins, ⟨_, Demo.conf_initial _, Demo.twins_reach⟩, fun _ => rfl, by decide +kernel⟩

/-- With events of another class that carry payloads, even one thread gets two equal events into the queue: the queue holds
copies, which are of the library's class and so not equal to the event that was fired. -/
theorem C31_negation_copies : ∃ env c, Reach env c ∧ (∀ s, (env.strat s).dropDup = true) ∧
    (∀ t m ev, (t, .enter (.fire m ev)) ∈ c.w.trace → t = .client 0) ∧
    ∃ x y, Spec.waiting 0 c.w.trace = [x, y] ∧ x.1.eqv y.1 = true ∧ x.1.eqv Demo.special = false :=
  ⟨Demo.env Demo.acts 0 true, Demo.payloads, ⟨_, Demo.conf_initial _, Demo.payloads_reach⟩, fun _ => rfl, fun t m ev h => by
      have := Demo.fires_of (P := fun t _ => t == .client 0) (by decide +kernel) t m ev h
      simpa using this, (⟨0, "go", .copy 0⟩, 0), (⟨0, "go", .copy 1⟩, 0), by decide +kernel, by decide +kernel, by decide +kernel⟩

end Verif
