import Verif.Proofs.Brackets
import Verif.Props.Events
import Verif.Demo.Races
/-
C36: what the listener of a machine sees.
-/

namespace Verif
open Spec (bare meddles openEv apiDepth notes note? Bracketed)
open Spec.Mon (concerns)
open Spec.Calls (userObs cbMach)

section
variable {env : Env} {c0 c : Conf} {m : MId} {pre tr post : List (Tid × Obs)}

/-- Once the `start()` that started the machine has returned, the listener is only called by the worker of the machine,
outside API calls. -/
theorem note_by_worker (ha : Alone env m) (hi : Initial c0) (hr : ReachFrom env c0 c) (h : c.w.trace = pre ++ tr ++ post)
    (hs : (after c0 pre).started m = true)
    (hopen : ∀ t, cnt (Obs.entersStart m) t pre = cnt (Obs.leavesStart m) t pre) {a b : List (Tid × Obs)} {u : Tid} {k : Cb}
    (hab : tr = a ++ (u, .cb k) :: b) (hn : (note? m (.cb k)).isSome = true) :
    u = env.workerOf m ∧ apiDepth u (pre ++ a) = 0 := by
  have hk : cbMach k = some m := by
    cases k <;> simp_all [note?, cbMach]
  have h' : c.w.trace = pre ++ a ++ (u, .cb k) :: (b ++ post) := by rw [h, hab]; simp
  have hd := no_note_in_call hi hr h' hs hopen hk
  exact ⟨(C15_only_for_the_event ha hi hr h' hd rfl (by cases k <;> simp_all [note?, concerns, cbMach])).1, hd⟩

/-- C36: after `start()` has returned, in every stretch of history in which nobody starts or stops the machine or replaces
its listener (and which does not begin or end in the middle of the processing of an event), all calls of the listener, by
whatever threads, are properly bracketed: each `end(f, ev, t)` directly follows its `begin(f, ev, t)`. A `begin` may lack
its `end` only if user code called by the worker threw in this stretch. -/
theorem C36_brackets_partial (ha : Alone env m) (hi : Initial c0) (hr : ReachFrom env c0 c) (h : c.w.trace = pre ++ tr ++ post)
    (hs : (after c0 pre).started m = true)
    (hopen : ∀ t, cnt (Obs.entersStart m) t pre = cnt (Obs.leavesStart m) t pre)
    (h0 : openEv (env.workerOf m) m pre = none) (h1 : openEv (env.workerOf m) m (pre ++ tr) = none)
    (hm : ∀ e ∈ tr, meddles m e.2 = false) :
    Bracketed m true (notes m tr) ∧
      ((∀ c x, .cbRet c (some x) ∉ bare (env.workerOf m) (apiDepth (env.workerOf m) pre) tr) → Bracketed m false (notes m tr)) := by
  have he := C15_events ha hi hr h rfl h0 h1 hm
  have hn := notes_bare (m := m) (env.workerOf m) tr (apiDepth (env.workerOf m) pre) (fun a u k b hab hk => by
    obtain ⟨rfl, hd⟩ := note_by_worker ha hi hr h hs hopen hab hk
    exact ⟨rfl, by rw [apiDepth, List.foldl_append] at hd; exact hd⟩)
  rw [hn]
  exact ⟨events_brackets (d := env.desc m) he (fun h => nomatch h), fun hok => events_brackets (d := env.desc m) he fun _ => hok⟩

/-- Four events of the demo run `tour`: all properly bracketed. -/
example : Bracketed 0 false (notes 0 (Demo.tour.w.trace.drop 25)) :=
  (C36_brackets_partial (c := Demo.tour) (pre := Demo.tour.w.trace.take 25) (post := []) (Demo.alone Demo.acts 0 false)
    (Demo.conf_initial true) Demo.tour_reach (by decide +kernel) (by decide +kernel)
    (fun t => by
      by_cases h : t = .client 0
      · subst h; decide +kernel
      · have : ∀ e ∈ Demo.tour.w.trace.take 25, e.1 = .client 0 := by decide +kernel
        rw [cnt_other _ fun e he => by rw [this e he]; exact fun h' => h h'.symm,
          cnt_other _ fun e he => by rw [this e he]; exact fun h' => h h'.symm])
    (by decide +kernel) (by decide +kernel)
    (fun e he => by
      have := (by decide +kernel : (Demo.tour.w.trace.drop 25).all (fun e => !meddles 0 e.2) = true)
      simpa using List.all_eq_true.1 this _ he)).2
    (fun c x hmem => by
      have := List.all_eq_true.1 (by decide +kernel : (bare ((Demo.env Demo.acts).workerOf 0)
        (apiDepth ((Demo.env Demo.acts).workerOf 0) (Demo.tour.w.trace.take 25)) (Demo.tour.w.trace.drop 25)).all
        (fun o => match o with | .cbRet _ (some _) => false | _ => true) = true) _ hmem
      simp at this)

example : notes 0 (Demo.tour.w.trace.drop 25) =
    [.begin 0 Demo.A Demo.go Demo.B, .end_ 0 Demo.A Demo.go Demo.B, .begin 0 Demo.B Demo.stay Demo.rs.noopSt, .end_ 0 Demo.B Demo.stay Demo.rs.noopSt,
     .begin 0 Demo.B Demo.back Demo.A, .end_ 0 Demo.B Demo.back Demo.A, .begin 0 Demo.A Demo.go Demo.B, .end_ 0 Demo.A Demo.go Demo.B] := by
  decide +kernel

/-- C36 is false across `start()`: while the thread that starts the machine is still in its `begin` callback, another
thread fires an event, and the worker calls the listener for this event: the calls for the two transitions are nested. All
calls have returned, no user code threw. -/
theorem C36_negation_start : ∃ env c, Reach env c ∧ (∀ t, c.thr t = none) ∧ (∀ t k x, (t, .cbRet k (some x)) ∉ c.w.trace) ∧
    (c.w.mach 0).started = true ∧ ¬ Bracketed 0 true (notes 0 c.w.trace) := by
  refine ⟨Demo.env Demo.acts, Demo.overlap, ⟨_, Demo.conf_initial _, Demo.overlap_reach⟩, Demo.overlap_idle, ?_, by decide +kernel, ?_⟩
  · intro t k x hmem
    have := List.all_eq_true.1 (by decide +kernel : Demo.overlap.w.trace.all
        (fun e => match e.2 with | .cbRet _ (some _) => false | _ => true) = true) _ hmem
    simp at this
  · rw [show notes 0 Demo.overlap.w.trace = [.begin 0 Demo.rs.noSt immEv Demo.A, .begin 0 Demo.A Demo.go Demo.B,
      .end_ 0 Demo.A Demo.go Demo.B, .end_ 0 Demo.rs.noSt immEv Demo.A] by decide +kernel]
    intro h
    cases h with
    | lone _ h =>
      cases h with
      | pair h => cases h
      | lone _ h => cases h

/-- C36 is false across `stop()`: for an event without transition, the listener is told that the event arrived in state B and
was dealt with in the end state. All calls have returned, no user code threw. -/
theorem C36_negation_stop : ∃ env c, Reach env c ∧ (∀ t, c.thr t = none) ∧ (∀ t k x, (t, .cbRet k (some x)) ∉ c.w.trace) ∧
    (c.w.mach 0).started = true ∧ ¬ Bracketed 0 true (notes 0 c.w.trace) := by
  refine ⟨Demo.env Demo.acts, Demo.stayed, ⟨_, Demo.conf_initial _, Demo.stayed_reach⟩, Demo.stayed_idle, ?_, by decide +kernel, ?_⟩
  · intro t k x hmem
    have := List.all_eq_true.1 (by decide +kernel : Demo.stayed.w.trace.all
        (fun e => match e.2 with | .cbRet _ (some _) => false | _ => true) = true) _ hmem
    simp at this
  · rw [show notes 0 Demo.stayed.w.trace = [.begin 0 Demo.rs.noSt immEv Demo.A, .end_ 0 Demo.rs.noSt immEv Demo.A,
      .begin 0 Demo.A Demo.go Demo.B, .end_ 0 Demo.A Demo.go Demo.B,
      .begin 0 Demo.B Demo.stay Demo.rs.noopSt, .end_ 0 Demo.rs.endSt Demo.stay Demo.rs.noopSt] by decide +kernel]
    intro h
    cases h with
    | lone _ h => cases h
    | pair h =>
      cases h with
      | lone _ h => cases h
      | pair h =>
        generalize hl : [Cb.begin 0 Demo.B Demo.stay Demo.rs.noopSt, .end_ 0 Demo.rs.endSt Demo.stay Demo.rs.noopSt] = l at h
        cases h with
        | nil => cases hl
        | lone _ h => injection hl with _ hl; subst hl; cases h
        | pair h =>
          injection hl with h1 hl
          injection hl with h2 _
          injection h1 with _ h1
          injection h2 with _ h2
          exact absurd (h1.trans h2.symm) (by decide)

end
end Verif
