import Verif.Proofs.Pool
import Verif.Props.Bounds
/-
C66: the pool of event/machine pairs: how many it keeps, and what they keep.
-/

namespace Verif
open Spec (accepted taken)

/-- Every pair in a pool holds what was processed with it last. -/
def Kept (_ : Tid → List Frame) (w : World) : Prop :=
  ∀ s p, p ∈ w.pool s → ∃ ev m t, w.pair p = some (ev, m) ∧ (t, Obs.done m ev) ∈ w.trace

theorem kept_preserved (env : Env) : Preserved env (Own env) Kept where
  op := by
    intro lst w t o l' ho h hm he s p hp
    clear he
    obtain ⟨loc, ho⟩ := ho
    have old : p ∈ w.pool s → ∃ ev m u, (exec t o w).2.pair p = some (ev, m) ∧ (u, Obs.done m ev) ∈ (exec t o w).2.trace := by
      intro hp0
      obtain ⟨ev, m, u, h1, h2⟩ := h s p hp0
      refine ⟨ev, m, u, ?_, by rw [exec_trace]; exact List.mem_append_left _ h2⟩
      rw [exec_pair]
      split
      · rename_i p' ev' m'
        have : p ≠ p' := by
          rintro rfl
          have := (ho.ow t p).1 (uses_owned hm rfl)
          rw [ho.pl, this] at hp0; cases hp0
        rw [fset_ne _ _ this, h1]
      · exact h1
    rw [exec_pool] at hp
    split at hp
    · split at hp
      · exact old (List.mem_of_mem_tail hp)
      · exact old hp
    · rename_i s' p'
      split at hp
      · rcases List.mem_append.1 hp with hp | hp
        · exact old hp
        · have := List.mem_singleton.1 hp
          subst this
          obtain ⟨ev, m, hpr⟩ : ∃ ev m, w.pair p = some (ev, m) := by
            generalize hl : lst t = l at hm
            cases hm with
            | user _ hu => exact hu.elim
            | @frame f f' rest _ hm =>
              have hf := ho.fact t f (by rw [hl]; exact List.mem_cons_self)
              cases hm with
              | stPh _ _ ha => cases phAllowed_op ha
              | drPh ha => cases phAllowed_op ha
              | drGive _ => exact ⟨_, _, hf.1⟩
              | drGiveErr _ => exact ⟨_, _, hf.1⟩
              | drOver => exact ⟨_, _, hf.1⟩
              | drOverErr => exact ⟨_, _, hf.1⟩
          refine ⟨ev, m, t, ?_, ?_⟩
          · rw [exec_pair]; exact hpr
          · simp [exec, hpr, World.log]
      · exact old hp
    · exact old hp
  ret := fun lst w t _ h _ => h
  thr := fun lst w t x _ h _ s p hp => by
    obtain ⟨ev, m, u, h1, h2⟩ := h s p hp
    exact ⟨ev, m, u, h1, List.mem_append_left _ h2⟩
  dispatch := fun lst w e i j s' m _ h _ _ _ => h
  interrupt := fun lst w t _ h => h
  shutdown := fun lst w e _ h => h
  dropTasks := fun lst w e _ h s p hp => by
    obtain ⟨ev, m, u, h1, h2⟩ := h s p hp
    exact ⟨ev, m, u, h1, List.mem_append_left _ h2⟩

/-- C66: the number of pairs a strategy keeps (in its pool and in its queue), if no other strategy uses its queue: at most the greatest
number of events that ever waited at the same time, plus one for each thread that ever fired at one of its machines, plus one for each
worker. (Machines may share the strategy.) -/
theorem C66_bound {env : Env} {c : Conf} (hr : Reach env c) {s : SId} (hs : ∀ s', (env.strat s').queue = (env.strat s).queue → s' = s)
    {P : List Tid} (hP : ∀ t m ev, (t, .enter (.fire m ev)) ∈ c.w.trace → (env.mach m).strat = s → t ∈ P) {n : Nat}
    (hn : ∀ tr, tr <+: c.w.trace → (Spec.waiting (env.strat s).queue tr).length ≤ n) :
    (c.w.pool s).length + (c.w.queue (env.strat s).queue).length ≤ n + P.length + env.width (env.strat s).exec := by
  obtain ⟨lst, -, -, h⟩ := Invariant.reach
    ((((own_invariant env).and (task_preserved env)).and (stacks_invariant env _)).and (pooled_preserved env s hs))
    (fun c hi => ⟨⟨⟨own_initial env c hi, task_initial env c hi⟩, stacks_initial _⟩, fun P n _ _ =>
      ⟨[], [], List.nodup_nil, List.nodup_nil, fun _ => by simp [firing], fun _ => by simp [draining], by
        simp [World.pairs, hi.queue, hi.pool]⟩⟩) hr
  obtain ⟨I, J, _, _, _, _, h⟩ := h P n (fun t m ev h1 h2 => hP t m ev h1 (hs _ h2)) (fun tr hp => by
    have := hn tr hp
    simp only [Spec.waiting, List.length_drop] at this
    have h0 : env.q s = (env.strat s).queue := rfl
    rw [h0]
    omega)
  simp only [World.pairs, Env.q] at h
  omega

/-- C66: every pair in a pool still holds an event and a machine: those of the last event that was processed with it. -/
theorem C66_kept {env : Env} {c : Conf} (hr : Reach env c) {s : SId} {p : PairId} (hp : p ∈ c.w.pool s) :
    ∃ ev m t, c.w.pair p = some (ev, m) ∧ (t, .done m ev) ∈ c.w.trace := by
  obtain ⟨lst, -, -, h⟩ := Invariant.reach ((own_invariant env).and (kept_preserved env))
    (fun c hi => ⟨own_initial env c hi, fun s p hp => by rw [hi.pool] at hp; cases hp⟩) hr
  exact h s p hp

/-- A step adds one entry to the history, or entries for discarded tasks only. -/
theorem step_adds {env : Env} {c c' : Conf} {x : Choice} (h : step env c x = some c') :
    ∃ d, c'.w.trace = c.w.trace ++ d ∧ (d.length ≤ 1 ∨ ∀ x ∈ d, ∃ s m, x = (Tid.env, Obs.taskDropped s m)) := by
  have none' : c'.w.trace = c.w.trace → ∃ d, c'.w.trace = c.w.trace ++ d ∧ (d.length ≤ 1 ∨ ∀ x ∈ d, ∃ s m, x = (Tid.env, Obs.taskDropped s m)) :=
    fun h => ⟨[], by rw [h, List.append_nil], .inl (Nat.zero_le _)⟩
  cases x with
  | begin n u => simp only [step] at h; split at h <;> cases h; exact none' rfl
  | run t =>
    simp only [step] at h
    split at h
    · cases h
    rename_i p _
    cases p with
    | ret a => cases h; exact none' rfl
    | thr x => cases h; exact ⟨[_], rfl, .inl (Nat.le_refl _)⟩
    | call f k => cases h; exact none' rfl
    | op o k =>
      simp only [runThread] at h
      split at h <;> cases h
      refine ⟨_, exec_trace t o c.w, .inl ?_⟩
      cases opObs o c.w <;> simp
  | dispatch e i j =>
    simp only [step] at h
    split at h
    · split at h <;> cases h; exact none' rfl
    · cases h
  | interrupt t => cases h; exact none' rfl
  | shutdown e now =>
    cases h
    cases now with
    | false => exact none' rfl
    | true =>
      refine ⟨_, rfl, .inr fun x hx => ?_⟩
      obtain ⟨a, -, rfl⟩ := List.mem_map.1 hx
      exact ⟨_, _, rfl⟩

/-- What is waiting according to a beginning of the history was waiting in some configuration. -/
theorem prefix_waiting {env : Env} {c : Conf} (hr : Reach env c) (q : QId) {tr : Spec.Trace} (hp : tr <+: c.w.trace) :
    ∃ c', Reach env c' ∧ c'.w.trace <+: tr ∧ Spec.waiting q tr = Spec.waiting q c'.w.trace := by
  obtain ⟨c0, hi, xs, hx⟩ := hr
  have : ∀ ys c1, runs env c1 ys = some c → Reach env c1 → (∀ tr, tr <+: c1.w.trace →
      ∃ c', Reach env c' ∧ c'.w.trace <+: tr ∧ Spec.waiting q tr = Spec.waiting q c'.w.trace) →
      ∀ tr, tr <+: c.w.trace → ∃ c', Reach env c' ∧ c'.w.trace <+: tr ∧ Spec.waiting q tr = Spec.waiting q c'.w.trace := by
    intro ys
    induction ys with
    | nil => intro c1 h _ h1; cases h; exact h1
    | cons y ys ih =>
      intro c1 h hr h1
      simp only [runs] at h
      split at h
      · cases h
      rename_i c2 h2
      have hr2 : Reach env c2 := by
        obtain ⟨c0, hi, hr⟩ := hr
        exact ⟨c0, hi, hr.trans ⟨[y], by simp [runs, h2]⟩⟩
      refine ih c2 h hr2 fun tr hp => ?_
      obtain ⟨d, hd, hd1⟩ := step_adds h2
      rw [hd] at hp
      rcases List.prefix_or_prefix_of_prefix hp (List.prefix_append c1.w.trace d) with h3 | ⟨d', rfl⟩
      · exact h1 tr h3
      have h3 := (List.prefix_append_right_inj _).1 hp
      rcases hd1 with h4 | h4
      · cases d' with
        | nil => rw [List.append_nil]; exact ⟨c1, hr, List.prefix_refl _, rfl⟩
        | cons a d' =>
          have : a :: d' = d := h3.eq_of_length_le (by simp; omega)
          exact ⟨c2, hr2, by rw [hd, this]; exact List.prefix_refl _, by rw [hd, this]⟩
      · refine ⟨c1, hr, List.prefix_append _ _, ?_⟩
        have h5 : ∀ {α : Type} (g : Tid × Obs → Option α), (∀ s m, g (Tid.env, .taskDropped s m) = none) → d'.filterMap g = [] := by
          intro α g hg
          refine List.filterMap_eq_nil_iff.2 fun x hx => ?_
          obtain ⟨s, m, rfl⟩ := h4 x (h3.subset hx)
          exact hg s m
        simp only [Spec.waiting, Spec.accepted, Spec.taken, List.filterMap_append]
        rw [h5, h5] <;> simp
  exact this xs c0 hx ⟨c0, hi, [], rfl⟩ (fun tr hp => by
    rw [hi.trace] at hp
    rw [List.prefix_nil.1 hp]
    exact ⟨c0, ⟨c0, hi, [], rfl⟩, by rw [hi.trace]; exact List.prefix_refl _, by rw [hi.trace]⟩) tr hp

namespace Demo

/-- All machines have strategies of their own, but these use one queue and one executor, as strategies made with the same `Config` do,
and those of the default builder (EventProcessingStrategyFactory.java:23, 30-31, 115-122, 139-144). -/
def leaky : Env := { Demo.env acts with strat := fun _ => ⟨0, 0, 0, false, cfg.table⟩ }

/-- Fire one event at each of the machines 0 and 1. -/
def fireBoth : UProg := .call (.fire 0 stay) fun _ => .call (.fire 1 stay) fun _ => .done

/-- Fire at both machines; then the first drain task processes both events, and the second finds nothing. -/
def leakRound : List Choice :=
  [.begin 0 fireBoth] ++ runN (.client 0) 30 ++ [.dispatch 0 0 0] ++ runN (.worker 0 0) 44 ++ [.dispatch 0 0 0] ++ runN (.worker 0 0) 6

def leak (n : Nat) : Conf :=
  drive leaky conf ([.begin 0 (client 0 []), .begin 1 (client 1 [])] ++ runN (.client 0) 20 ++ runN (.client 1) 20 ++ (List.replicate n leakRound).flatten)

theorem leak_reach (n : Nat) : Reach leaky (leak n) := ⟨_, conf_initial _, drive_reach _ _ _⟩

theorem prefixes {tr : Spec.Trace} {f : Spec.Trace → Bool} (h : (List.range (tr.length + 1)).all (fun i => f (tr.take i)) = true) :
    ∀ tr', tr' <+: tr → f tr' = true := by
  intro tr' hp
  have h1 := List.all_eq_true.1 h tr'.length (List.mem_range.2 (Nat.lt_succ_of_le hp.length_le))
  rwa [← List.prefix_iff_eq_take.1 hp] at h1

end Demo

/-- C66: with bounds on the queue sizes, the memory held by pool and queue is bounded, whatever the number of events. -/
theorem C66_memory {env : Env} {c : Conf} (hr : Reach env c) {s : SId} (hs : ∀ s', (env.strat s').queue = (env.strat s).queue → s' = s)
    {n : Nat} (hm : 0 < (env.strat s).maxQ ∧ (env.strat s).maxQ ≤ n)
    {P : List Tid} (hP : ∀ t m ev, (t, .enter (.fire m ev)) ∈ c.w.trace → (env.mach m).strat = s → t ∈ P) :
    (c.w.pool s).length + (c.w.queue (env.strat s).queue).length ≤ n + P.length - 1 + P.length + env.width (env.strat s).exec := by
  refine C66_bound hr hs hP fun tr hp => ?_
  obtain ⟨c', hr', hp', hw⟩ := prefix_waiting hr (env.strat s).queue hp
  rw [hw]
  exact C30_bound hr' (fun s' h => hs s' h ▸ hm) fun t m ev h1 h2 => hP t m ev ((hp'.trans hp).subset h1) (hs _ h2)

/-- C66: strategies which share a queue lose this bound. Here one thread fires, there is one worker, and never more than two events are
waiting, but the first pool has got 5 pairs. -/
theorem C66_negation_shared_queue : ¬ ∀ (env : Env) (c : Conf) (s : SId) (P : List Tid) (n : Nat), Reach env c →
    (∀ t m ev, (t, .enter (.fire m ev)) ∈ c.w.trace → t ∈ P) →
    (∀ tr, tr <+: c.w.trace → (Spec.waiting (env.strat s).queue tr).length ≤ n) →
    (c.w.pool s).length + (c.w.queue (env.strat s).queue).length ≤ n + P.length + env.width (env.strat s).exec := by
  intro h
  have := h Demo.leaky (Demo.leak 4) 0 [.client 0] 2 (Demo.leak_reach 4)
    (fun t m ev h => by
      have := Demo.fires_of (P := fun t _ => t == .client 0) (by decide +kernel) t m ev h
      simpa using this)
    (fun tr hp => of_decide_eq_true
      (Demo.prefixes (f := fun tr => decide ((Spec.waiting (Demo.leaky.strat 0).queue tr).length ≤ 2)) (by decide +kernel) tr hp))
  revert this
  decide +kernel

namespace Demo

/-- The worker takes the first event; the second one is waiting and the pair for the third one has been made; then the worker processes
both events, and the third one is added to the queue. -/
def tight : Conf :=
  drive (env acts) conf ([.begin 0 (client 0 [go, stay, back])] ++ runN (.client 0) 18 ++ [.dispatch 0 0 0] ++ runN (.worker 0 0) 3 ++
    runN (.client 0) 17 ++ runN (.worker 0 0) 70 ++ runN (.client 0) 4)

theorem tight_reach : Reach (env acts) tight := ⟨_, conf_initial _, drive_reach _ _ _⟩

end Demo

/-- The bound of C66 cannot be improved: never more than one event is waiting, one thread fires, there is one worker, and three pairs are
in the pool or the queue. -/
theorem C66_bound_attained : ∃ env c, Reach env c ∧ (∀ s, (env.strat s).queue = s) ∧
    (∀ t m ev, (t, .enter (.fire m ev)) ∈ c.w.trace → t ∈ [Tid.client 0]) ∧
    (∀ tr, tr <+: c.w.trace → (Spec.waiting 0 tr).length ≤ 1) ∧ (c.w.pool 0).length + (c.w.queue 0).length = 1 + 1 + 1 ∧
    env.width (env.strat 0).exec = 1 :=
  ⟨Demo.env Demo.acts, Demo.tight, Demo.tight_reach, fun _ => rfl, fun t m ev h => by
      have := Demo.fires_of (P := fun t _ => t == .client 0) (by decide +kernel) t m ev h
      simpa using this,
    fun tr hp => of_decide_eq_true (Demo.prefixes (f := fun tr => decide ((Spec.waiting 0 tr).length ≤ 1)) (by decide +kernel) tr hp),
    by decide +kernel, rfl⟩

example : (Demo.tight.w.pool 0).length + (Demo.tight.w.queue ((Demo.env Demo.acts).strat 0).queue).length ≤
    1 + [Tid.client 0].length + (Demo.env Demo.acts).width ((Demo.env Demo.acts).strat 0).exec :=
  C66_bound (c := Demo.tight) (s := 0) Demo.tight_reach (fun s' h => h)
    (fun t m ev h _ => by
      have := Demo.fires_of (P := fun t _ => t == .client 0) (by decide +kernel) t m ev h
      simpa using this)
    (fun tr hp => of_decide_eq_true
      (Demo.prefixes (f := fun tr => decide ((Spec.waiting ((Demo.env Demo.acts).strat 0).queue tr).length ≤ 1)) (by decide +kernel) tr hp))

example : (Demo.filled.w.pool 0).length + (Demo.filled.w.queue ((Demo.env Demo.acts 2).strat 0).queue).length ≤
    2 + [Tid.client 0].length - 1 + [Tid.client 0].length + (Demo.env Demo.acts 2).width ((Demo.env Demo.acts 2).strat 0).exec :=
  C66_memory (env := Demo.env Demo.acts 2) (c := Demo.filled) (s := 0) ⟨_, Demo.conf_initial _, Demo.filled_reach⟩ (fun s' h => h)
    ⟨by show (0 : Int) < 2; decide, Int.le_refl _⟩
    (fun t m ev h _ => by
      have := Demo.fires_of (P := fun t _ => t == .client 0) (by decide +kernel) t m ev h
      simpa using this)

example : Demo.filled.w.queue 0 = [0, 1] := by decide +kernel

example : ∃ ev m t, Demo.tour.w.pair 0 = some (ev, m) ∧ (t, .done m ev) ∈ Demo.tour.w.trace :=
  C66_kept (c := Demo.tour) (s := 0) (p := 0) ⟨_, Demo.conf_initial _, Demo.tour_reach⟩ (by decide +kernel)

/-- C66: the documentation of `EventMachinePairPool.give` (EventMachinePairPool.java:28-30), "Resets the state of an object and gives it back
to the pool", is wrong: a pair in the pool still refers to event and machine. -/
theorem C66_negation_documentation : ¬ ∀ (env : Env) (c : Conf) (s : SId) (p : PairId), Reach env c → p ∈ c.w.pool s → c.w.pair p = none := by
  intro h
  have := h (Demo.env Demo.acts) Demo.tour 0 0 ⟨_, Demo.conf_initial _, Demo.tour_reach⟩ (by decide +kernel)
  revert this
  decide +kernel

end Verif
