import Verif.Proofs.Dup
import Verif.Props.Calls
import Verif.Props.Bounds
import Verif.Demo.Races
/-
C52: events are dropped only for a reason. C55: the copy of an event.
-/

namespace Verif
open Spec (waiting)

section
variable {env : Env} {c0 c : Conf} {t : Tid} {m : MId} {ev : Ev}

/-- The environment does nothing but drop tasks. -/
structure EnvOk (c : Conf) : Prop where
  idle : c.thr .env = none
  tr : ∀ e ∈ c.w.trace, e.1 = .env → ∃ s m, e.2 = .taskDropped s m

theorem envOk_step {c' : Conf} {x : Choice} (h : EnvOk c) (hs : step env c x = some c') : EnvOk c' := by
  have hlog : ∀ (w : World) (l : Option Obs) (u : Tid), u ≠ .env → w.trace = c.w.trace ++ (l.map fun o => (u, o)).toList →
      ∀ e ∈ w.trace, e.1 = .env → ∃ s m, e.2 = .taskDropped s m := by
    intro w l u hu hw e he h1
    rw [hw] at he
    rcases List.mem_append.1 he with he | he
    · exact h.tr e he h1
    · simp only [Option.mem_toList, Option.map_eq_some_iff] at he
      obtain ⟨_, _, rfl⟩ := he
      exact absurd h1 hu
  cases x with
  | begin n u =>
    simp only [step] at hs
    split at hs
    · cases hs
    · cases hs; exact ⟨by simp only [fset_ne _ _ (show Tid.env ≠ .client n by simp)]; exact h.idle, h.tr⟩
  | dispatch e i j =>
    simp only [step] at hs
    split at hs
    · split at hs
      · cases hs; exact ⟨by simp only [fset_ne _ _ (show Tid.env ≠ .worker e i by simp)]; exact h.idle, h.tr⟩
      · cases hs
    · cases hs
  | interrupt u => cases hs; exact ⟨h.idle, h.tr⟩
  | shutdown e now =>
    cases hs
    cases now with
    | false => exact ⟨h.idle, h.tr⟩
    | true =>
      refine ⟨h.idle, fun e' he h1 => ?_⟩
      simp only [if_true, World.dropTasks] at he
      rcases List.mem_append.1 he with he | he
      · exact h.tr e' he h1
      · obtain ⟨x, _, rfl⟩ := List.mem_map.1 he; exact ⟨_, _, rfl⟩
  | run u =>
    simp only [step] at hs
    split at hs
    · cases hs
    next p hp =>
      have hu : u ≠ .env := by rintro rfl; rw [h.idle] at hp; cases hp
      cases p with
      | ret r => cases hs; exact ⟨by simp only [fset_ne _ _ (Ne.symm hu)]; exact h.idle, h.tr⟩
      | thr x =>
        cases hs
        exact ⟨by simp only [fset_ne _ _ (Ne.symm hu)]; exact h.idle, hlog _ (some (.uncaught x)) u hu rfl⟩
      | call f k => cases hs; exact ⟨by simp only [fset_ne _ _ (Ne.symm hu)]; exact h.idle, h.tr⟩
      | op o k =>
        simp only [runThread] at hs
        split at hs
        · cases hs
          exact ⟨by simp only [fset_ne _ _ (Ne.symm hu)]; exact h.idle, hlog _ _ u hu (exec_trace u o c.w)⟩
        · cases hs

theorem envOk (hi : Initial c0) (hr : ReachFrom env c0 c) : EnvOk c := by
  obtain ⟨xs, hx⟩ := hr
  have : ∀ (xs : List Choice) (c1 : Conf), EnvOk c1 → runs env c1 xs = some c → EnvOk c := by
    intro xs
    induction xs with
    | nil => intro c1 h1 hx; cases hx; exact h1
    | cons x xs ih =>
      intro c1 h1 hx
      simp only [runs] at hx
      split at hx
      · cases hx
      next c2 h2 => exact ih c2 (envOk_step h1 h2) hx
  exact this xs c0 ⟨hi.idle _, by rw [hi.trace]; simp⟩ hx

/-- C52: if `fire(ev)` drops the event, then at some moment of this call an equal event was waiting in the queue, or
another thread was in the middle of firing an equal event (or one whose copy is equal) to a machine with the same queue. -/
theorem C52_dropped_for_a_reason (hr : Reach env c) {pre post : Spec.Trace} (h : c.w.trace = pre ++ (t, .dropped m ev) :: post) :
    ∃ a b1 b2, pre = a ++ (t, .enter (.fire m ev)) :: (b1 ++ b2) ∧ (∀ e ∈ b1 ++ b2, e.1 ≠ t) ∧
      Spec.Reason (fun m => (env.strat (env.mach m).strat).queue) (env.strat (env.mach m).strat).queue
        (a ++ (t, .enter (.fire m ev)) :: b1) t ev := by
  obtain ⟨_, _, _, hd⟩ := Invariant.reach ((own_invariant env).and (dup_preserved env))
    (fun c hi => ⟨own_initial env c hi, fun _ => trivial, fun pre t m ev post h => by rw [hi.trace] at h; simp at h⟩) hr
  obtain ⟨c0, hi, hr⟩ := hr
  have henv := (envOk hi hr).tr
  have hne : ∀ u k, (u, .enter k) ∈ c.w.trace → u ≠ .env := by
    rintro u k hu rfl
    obtain ⟨_, _, h⟩ := henv _ hu rfl
    cases h
  obtain ⟨a, b, h1, b1, b2, rfl, h3⟩ := hd.dr _ _ _ _ _ h
  refine ⟨a, b1, b2, h1.1, h1.2 (hne t (.fire m ev) ?_), ?_⟩
  · rw [h, h1.1]; simp
  · rcases h3 with h3 | ⟨t', m', ev', h4, h5, ⟨a', b', h6, h7⟩, h8⟩
    · exact Or.inl h3
    · refine Or.inr ⟨t', m', ev', h4, h5, ⟨a', b', h6, h7 (hne t' (.fire m' ev') ?_)⟩, h8⟩
      have : (t', Obs.enter (.fire m' ev')) ∈ a ++ (t, .enter (.fire m ev)) :: b1 := by rw [h6]; simp
      rw [h, h1.1]
      simp only [List.mem_append, List.mem_cons] at this ⊢
      rcases this with h | h | h <;> simp [h]

/-- C52: if nobody else fires to this queue, an equal event was waiting at some moment of the call. -/
theorem C52_single_producer (hr : Reach env c) {pre post : Spec.Trace} (h : c.w.trace = pre ++ (t, .dropped m ev) :: post)
    (h1 : ∀ t' m' ev', (t', .enter (.fire m' ev')) ∈ pre →
      (env.strat (env.mach m').strat).queue = (env.strat (env.mach m).strat).queue → t' = t) :
    ∃ a b1 b2, pre = a ++ (t, .enter (.fire m ev)) :: (b1 ++ b2) ∧ (∀ e ∈ b1 ++ b2, e.1 ≠ t) ∧
      ∃ x ∈ waiting (env.strat (env.mach m).strat).queue (a ++ (t, .enter (.fire m ev)) :: b1), x.1.eqv ev = true := by
  obtain ⟨a, b1, b2, h2, h3, h4⟩ := C52_dropped_for_a_reason hr h
  refine ⟨a, b1, b2, h2, h3, ?_⟩
  rcases h4 with h4 | ⟨t', m', ev', h4, h5, ⟨a', b', h6, _⟩, _⟩
  · exact h4
  · refine absurd (h1 t' m' ev' ?_ h5) h4
    have : (t', Obs.enter (.fire m' ev')) ∈ a ++ (t, .enter (.fire m ev)) :: b1 := by rw [h6]; simp
    rw [h2]
    simp only [List.mem_append, List.mem_cons] at this ⊢
    rcases this with h | h | h <;> simp [h]

/-! #### C55 -/

open Spec.Calls (IsCall) in
/-- C55: what `fire(ev)` puts into the queue is equal to `ev`, if `ev` is an event of the library's class. So it is treated
like `ev` by the transition table. -/
theorem C55_copy_is_equal {pre mid : Spec.Trace} {os : List Obs} {r : Option Exc} (hi : Initial c0) (hr : ReachFrom env c0 c)
    (hc : IsCall c.w.trace t (.fire m ev) pre mid os r) {q : QId} {m' : MId} {e : Ev} (ha : .accepted q m' e ∈ os) (h0 : ev.cls = 0) :
    e.eqv ev = true := by
  have hcopy : ∀ n, (Spec.Calls.copyOf ev n).eqv ev = true := fun n => by
    simp only [Ev.eqv, Ev.key, Spec.Calls.copyOf, h0, beq_self_eq_true]
  have hself : ev.eqv ev = true := by simp only [Ev.eqv, beq_self_eq_true]
  cases C12_one_fate hi hr hc <;> simp at ha <;> obtain ⟨_, _, rfl⟩ := ha <;> first | exact hself | exact hcopy _

end

/-! #### Examples -/

namespace Demo

/-- Two machines with the same strategy, which drops duplicates. -/
def sharingDup : Env := (Setup.run [.newConfig, .createDropDuplicate 1, .newBuilder, .setStrategy 0 0, .build 0, .newBuilder,
  .setStrategy 1 0, .build 1]).wire (env fun _ _ => [])
/-- `go` for machine 0, then `go` for machine 1; then everything is processed. -/
def robbed : Conf :=
  drive sharingDup conf ([.begin 0 (bothP go go)] ++ runN (.client 0) 100 ++ [.dispatch 0 0 0] ++ runN (.worker 0 0) 100)
theorem robbed_reach : ReachFrom sharingDup conf robbed := drive_reach _ _ _

/-- While client 1 looks for duplicates of `go`, the pair it is about to look at is taken from the queue, processed, and
reused by client 2 for another `go`. -/
def ghost : Conf :=
  drive (env acts 0 true) conf ([.begin 0 (client 0 [stay])] ++ runN (.client 0) 100 ++ [.begin 1 (fireP go)] ++ runN (.client 1) 5 ++
    [.dispatch 0 0 0] ++ runN w0 100 ++ [.begin 2 (fireP go)] ++ runN (.client 2) 9 ++ runN (.client 1) 2)
theorem ghost_reach : ReachFrom (env acts 0 true) conf ghost := drive_reach _ _ _

/-- A -- special --> B, where `special` is of a class of the user's. -/
def cfgSpecial : CfgSt := cfgRun rs [.initialSate (some A), .receives (some special), .itTransitionsTo (some B),
  .when_ (some B), .receives (some back), .itTransitionsTo (some A)] .empty
def specialEnv : Env := tabled (env acts) fun _ => cfgSpecial
/-- Fire it with or without payload. -/
def specials (v : Option Val) : Conf :=
  drive specialEnv conf ([.begin 0 (.call (.start 0) fun _ => .call (.setPayload special.oid v) fun _ => client.fires 0 [special])] ++
    runN (.client 0) 100 ++ [.dispatch 0 0 0] ++ runN (.worker 0 0) 100)
theorem specials_reach (v : Option Val) : ReachFrom specialEnv conf (specials v) := drive_reach _ _ _

/-- Position of the first entry that satisfies `p`. -/
theorem split_at {tr : Spec.Trace} (i : Nat) {e : Tid × Obs} (h : tr[i]? = some e) : tr = tr.take i ++ e :: tr.drop (i + 1) := by
  obtain ⟨hi, rfl⟩ := List.getElem?_eq_some_iff.1 h
  simp

end Demo

open Demo in
/-- C52: one thread fires go, stay, go; the last one is dropped. -/
example : ∃ i, single.w.trace = single.w.trace.take i ++ (.client 0, .dropped 0 go) :: single.w.trace.drop (i + 1) ∧
    ∃ a b1 b2, single.w.trace.take i = a ++ (.client 0, .enter (.fire 0 go)) :: (b1 ++ b2) ∧ (∀ e ∈ b1 ++ b2, e.1 ≠ .client 0) ∧
      ∃ x ∈ waiting 0 (a ++ (.client 0, .enter (.fire 0 go)) :: b1), x.1.eqv go = true := by
  have h : single.w.trace[14]? = some (.client 0, .dropped 0 go) := by decide +kernel
  refine ⟨14, split_at 14 h, C52_single_producer (env := env acts 0 true) ⟨_, conf_initial _, single_reach⟩ (split_at 14 h) ?_⟩
  intro t' m' ev' hm _
  have := fires_of (P := fun t _ => t == .client 0) (by decide +kernel) t' m' ev' (List.mem_of_mem_take hm)
  simpa using this

/-- Duplicates are looked for among the events of all machines that share the strategy: here the only event ever fired at
machine 1 is dropped because of an event for machine 0. At the end nothing is left to do, and machine 1 has never received it. -/
theorem C52_shared_strategy : ∃ env c, Reach env c ∧ (.client 0, .dropped 1 Demo.go) ∈ c.w.trace ∧
    (∀ t q ev, (t, .accepted q 1 ev) ∉ c.w.trace) ∧ waiting 0 c.w.trace = [] ∧
    (c.w.mach 0).cur = some Demo.B ∧ (c.w.mach 1).cur = some Demo.A := by
  refine ⟨Demo.sharingDup, Demo.robbed, ⟨_, Demo.conf_initial _, Demo.robbed_reach⟩, by decide +kernel, ?_, by decide +kernel,
    by decide +kernel, by decide +kernel⟩
  intro t q ev h
  have : Demo.robbed.w.trace.all (fun x => match x with | (_, .accepted _ m _) => m ≠ 1 | _ => true) = true := by decide +kernel
  have := List.all_eq_true.1 this _ h
  simp at this

/-- The second kind of reason is needed: here an event is dropped although no equal event is waiting at any moment of the
call, because the pair under inspection is reused by another thread which is just firing an equal event. -/
theorem C52_race : ∃ env c a b, Reach env c ∧ c.w.trace = a ++ (.client 1, .enter (.fire 0 Demo.go)) :: (b ++ [(.client 1, .dropped 0 Demo.go)]) ∧
    ∀ b1 b2, b = b1 ++ b2 → ∀ x ∈ waiting 0 (a ++ (.client 1, .enter (.fire 0 Demo.go)) :: b1), x.1.eqv Demo.go = false := by
  refine ⟨Demo.env Demo.acts 0 true, Demo.ghost, Demo.ghost.w.trace.take 9, (Demo.ghost.w.trace.drop (10)).take 5,
    ⟨_, Demo.conf_initial _, Demo.ghost_reach⟩, by decide +kernel, ?_⟩
  have h : ∀ n < 6, ∀ x ∈ waiting 0 (Demo.ghost.w.trace.take 9 ++ (Tid.client 1, .enter (.fire 0 Demo.go)) ::
      ((Demo.ghost.w.trace.drop (10)).take 5).take n), x.1.eqv Demo.go = false := by decide +kernel
  intro b1 b2 hb
  have hlen : b1.length < 6 := by
    have := congrArg List.length hb
    simp only [List.length_append, List.length_take] at this
    omega
  have := h b1.length hlen
  rwa [hb, List.take_left] at this

/-- C55 fails for other classes: with a payload the event is copied, the copy is of the library's class, and the transition
configured for the event is not found. Without a payload it works. -/
theorem C55_negation_class : ∃ env c c', Reach env c ∧ Reach env c' ∧
    ((env.strat 0).table.row? (some Demo.A)).bind (·.target (some Demo.special.key)) = some Demo.B ∧
    (∃ t e, (t, .enter (.fire 0 Demo.special)) ∈ c.w.trace ∧ (Demo.w0, .cb (.unmapped 0 e)) ∈ c.w.trace ∧ e.name = Demo.special.name) ∧
    (c.w.mach 0).cur = some Demo.A ∧ (c'.w.mach 0).cur = some Demo.B ∧ waiting 0 c.w.trace = [] := by
  refine ⟨Demo.specialEnv, Demo.specials (some 5), Demo.specials none, ⟨_, Demo.conf_initial _, Demo.specials_reach _⟩,
    ⟨_, Demo.conf_initial _, Demo.specials_reach _⟩, by decide +kernel, ⟨.client 0, ⟨0, "go", .copy 0⟩, ?_⟩, by decide +kernel,
    by decide +kernel, by decide +kernel⟩
  exact ⟨by decide +kernel, by decide +kernel, rfl⟩

end Verif
