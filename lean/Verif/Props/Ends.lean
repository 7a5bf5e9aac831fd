import Verif.Props.Calls
import Verif.Props.Events
import Verif.Demo.Races
/-
C23 (initial state), C26.
-/

namespace Verif
open Spec (Desc MSt bare meddles Transition Notify Handles Events openEv apiDepth changes)
open Spec.Mon (Mem concerns touches)
open Spec.Calls (IsCall own StartFate StartInFate StopFate memAt tailObs ran)

section
variable {env : Env} {c0 c : Conf} {t : Tid} {m : MId}

/-! #### C26 -/

theorem handles_proper {d : Desc} {mem : Mem} {ev : Ev} {os : List Obs} {r : Option Exc} (he : d.endSt.name = resEnd)
    (h : Handles d mem ev os r) (hp : mem.proper) : (os.foldl (Mem.step d.m) mem).proper := by
  cases h with
  | over _ => exact hp
  | moves h1 h2 h3 h4 =>
    cases h4 with
    | completed =>
      rw [Transition.mem_completed]
      split
      · exact fun _ => ⟨_, rfl, he⟩
      · exact fun h => ⟨_, rfl, beq_iff_eq.1 h⟩
    | failedBefore _ h5 => rw [mem_failed mem h5]; exact hp
    | failedAfter _ h5 =>
      simp only [List.append_assoc]
      rw [List.foldl_append, step_cbs mem quiet_shown, List.foldl_append, mem_change, ← List.append_assoc, mem_failed _ h5]
      exact fun h => ⟨_, rfl, beq_iff_eq.1 h⟩
  | stays h1 h2 h3 h4 => rw [mem_notify mem h4]; exact hp
  | unmapped h1 h2 h3 h4 => rw [mem_notify mem h4]; exact hp
  | nowhere h1 h2 => exact hp

theorem events_proper {d : Desc} {q : QId} {mem mem' : Mem} {os : List Obs} (he : d.endSt.name = resEnd)
    (h : Events d q mem os mem') (hp : mem.proper) : mem'.proper := by
  induction h with
  | nil => exact hp
  | other _ _ _ ih => exact ih hp
  | event h1 _ ih => exact ih (handles_proper he h1 hp)

theorem st_eq {a b : Mem} : a.st = b.st ↔ a.cur = b.cur ∧ a.ended = b.ended := by simp [Mem.st]

/-- Only changes count. -/
theorem after_changes (mem : Mem) (tr : List (Tid × Obs)) :
    (mem.after m tr).st = (((tr.map (·.2)).filter (changes m)).foldl (Mem.step m) mem).st := by
  suffices ∀ mem mem' : Mem, mem.st = mem'.st →
      (mem.after m tr).st = (((tr.map (·.2)).filter (changes m)).foldl (Mem.step m) mem').st from this _ _ rfl
  induction tr with
  | nil => intro mem mem' h; exact h
  | cons e tr ih =>
    intro mem mem' h
    have h0 := st_eq.1 h
    show ((mem.step m e.2).after m tr).st = _
    simp only [List.map_cons, List.filter_cons]
    split
    · next hc =>
      refine ih _ _ ?_
      cases he : e.2 <;> simp_all [changes, Mem.step, Mem.st]
    · next hc =>
      refine ih _ _ (Eq.trans ?_ h)
      cases he : e.2 <;> simp_all [changes, Mem.step, Mem.st]
      split
      · exact ⟨rfl, rfl⟩
      · exact h0

theorem proper_st {a b : Mem} (h : a.st = b.st) (hp : a.proper) : b.proper := by
  have := st_eq.1 h
  intro hb
  rw [← this.2] at hb
  rw [← this.1]
  exact hp hb

/-- `start()`, `startInState()`, `stop()` of machine `m`. -/
def Api.controls (m : MId) : Api → Bool
  | .start m' | .startInState m' _ | .stop m' => m' = m
  | .fire .. => false

/-- Histories in which the calls of `start()`, `startInState()` and `stop()` of machine `m` happen while nobody else
changes the state of the machine. In between, its worker processes events. -/
inductive Orderly (env : Env) (c0 : Conf) (m : MId) : List (Tid × Obs) → Prop
  | nil : Orderly env c0 m []
  /-- The worker processes some number of events. -/
  | work {pre seg} : Orderly env c0 m pre → (∀ e ∈ seg, meddles m e.2 = false) →
      openEv (env.workerOf m) m pre = none → openEv (env.workerOf m) m (pre ++ seg) = none → Orderly env c0 m (pre ++ seg)
  /-- A call, which does all the changes that happen while it is open. A `start()` that fails must not find the machine
  ended: see `C26_start_throws`. -/
  | call {pre t k mid os r} : Orderly env c0 m pre → k.controls m = true → own t 0 mid = some os →
      (mid.map (·.2)).filter (changes m) = os.filter (changes m) → r = none ∨ (machAt c0 m pre).ended = false →
      Orderly env c0 m (pre ++ (t, .enter k) :: (mid ++ [(t, .leave k r)]))

/-- What a call of `start`, `startInState` or `stop` may do to the machine. -/
theorem call_proper {mem : Mem} {os : List Obs} {r : Option Exc} {e : St} (he : e.name = resEnd) (hp : mem.proper)
    (hr : r = none ∨ mem.ended = false)
    (h : os.filter (changes m) = [] ∨ os.filter (changes m) = [.upd m e true true, .cur m e true] ∨
      ∃ s rest, os.filter (changes m) = .cur m s true :: rest ∧ (∀ o ∈ rest, o = .cleared m) ∧ (r = none → .cleared m ∈ rest)) :
    ((os.filter (changes m)).foldl (Mem.step m) mem).proper := by
  rcases h with h | h | ⟨s, rest, h, h1, h2⟩
  · rw [h]; exact hp
  · rw [h]; exact fun _ => ⟨e, by simp [Mem.step], he⟩
  · rw [h]
    have key : ∀ (rest : List Obs) (mem : Mem), (∀ o ∈ rest, o = .cleared m) → mem.ended = false ∨ .cleared m ∈ rest →
        (rest.foldl (Mem.step m) mem).ended = false := by
      intro rest
      induction rest with
      | nil =>
        rintro mem - (h | h)
        · exact h
        · cases h
      | cons o rest ih =>
        intro mem h1 h2
        have := h1 o List.mem_cons_self
        subst this
        exact ih _ (fun o ho => h1 o (List.mem_cons_of_mem _ ho)) (.inl (by simp [Mem.step]))
    intro hend
    have := key rest (mem.step m (.cur m s true)) h1 (by
      rcases hr with hr | hr
      · exact .inr (h2 hr)
      · exact .inl (by simpa [Mem.step] using hr))
    rw [List.foldl_cons, this] at hend
    cases hend

theorem filter_cbs (m : MId) : ∀ pl, (ran pl).filter (changes m) = []
  | [] => rfl
  | .cb c :: pl => by simp [ran, changes, filter_cbs m pl]
  | .upd .. :: pl | .halt .. :: pl | .cur .. :: pl | .thr .. :: pl => by simp [ran, filter_cbs m pl]

/-- C26, as far as it is true: if the calls of `start()`, `startInState()` and `stop()` happen while nobody else changes
the machine, then whenever no call is open and no event in processing, `isEnded()` implies that the current state is
_END_, whatever user code threw. -/
theorem C26_orderly_partial (ha : Alone env m) (hi : Initial c0) (hr : ReachFrom env c0 c) {pre post : List (Tid × Obs)}
    (h : c.w.trace = pre ++ post) (ho : Orderly env c0 m pre) : (machAt c0 m pre).proper := by
  induction ho generalizing post with
  | nil => intro h; cases h
  | @work pre seg _ h1 h2 h3 ih =>
    have := C15_events ha hi hr (pre := pre) (tr := seg) (post := post) h rfl h2 h3 h1
    exact events_proper rfl this (ih (post := seg ++ post) (by rw [h]; simp))
  | @call pre t k mid os r _ hk hown hch hre ih =>
    have hp := ih (post := ((t, .enter k) :: (mid ++ [(t, .leave k r)])) ++ post) (by rw [h]; simp)
    have hcall : IsCall c.w.trace t k pre mid os r := ⟨⟨post, by rw [h]; simp⟩, hown⟩
    rw [machAt_append]
    refine proper_st (after_changes (machAt c0 m pre) _).symm ?_
    have hf : ((((t, Obs.enter k) :: (mid ++ [(t, .leave k r)])).map (·.2)).filter (changes m)) = os.filter (changes m) := by
      rw [← hch]; simp [changes]
    rw [hf]
    refine call_proper (r := r) (e := (env.mach m).res.endSt) rfl hp hre ?_
    cases k with
    | fire => cases hk
    | stop m' =>
      have : m' = m := by simpa [Api.controls] using hk
      subst this
      rcases (C27_stop hi hr hcall).2.1 with rfl | rfl
      · exact .inl rfl
      · exact .inr (.inl (by simp [changes]))
    | start m' =>
      have : m' = m := by simpa [Api.controls] using hk
      subst this
      cases C49_start_protocol hi hr hcall with
      | failed _ => exact .inl rfl
      | already _ _ => exact .inl rfl
      | @ok s _ _ _ => exact .inr (.inr ⟨s, [.cleared m'], by simp [changes, filter_cbs], by simp, by simp⟩)
      | @threw s _ _ _ _ _ _ _ _ => exact .inr (.inr ⟨s, [], by simp [changes, filter_cbs], by simp, by simp⟩)
      | @swapped s rest _ _ _ _ _ _ h1 h2 =>
        refine .inr (.inr ⟨s, rest.filter (changes m'), by simp [changes], ?_, fun hr => ?_⟩)
        · intro o ho
          obtain ⟨ho, hc⟩ := List.mem_filter.1 ho
          rcases h1 o ho with ⟨c, rfl⟩ | ⟨c, r, rfl⟩ | rfl
          · cases hc
          · cases hc
          · rfl
        · exact List.mem_filter.2 ⟨h2 hr, by simp [changes]⟩
    | startInState m' s =>
      have : m' = m := by simpa [Api.controls] using hk
      subst this
      rcases C28_startInState hi hr hcall with ⟨_, rfl, _⟩ | ⟨_, rfl, _⟩ | ⟨s', _, _, _, rfl, _⟩
      · exact .inl rfl
      · exact .inl rfl
      · exact .inr (.inr ⟨s', [.cleared m'], by simp [changes], by simp, by simp⟩)

/-- The machine starts, makes a transition and is stopped. -/
example : (machAt Demo.conf 0 Demo.stopAfter.w.trace).proper :=
  C26_orderly_partial (Demo.alone Demo.acts 0 false) (Demo.conf_initial false) Demo.stopAfter_reach (post := []) (by simp) <| by
    have h1 := Orderly.call (env := Demo.env Demo.acts) (c0 := Demo.conf) (m := 0) (t := .client 0) (k := .start 0)
      (mid := (Demo.stopAfter.w.trace.drop 1).take 3) (os := [.started 0, .cur 0 Demo.A true, .cleared 0]) (r := none)
      .nil rfl (by decide +kernel) (by decide +kernel) (.inl rfl)
    have h2 := Orderly.work (seg := (Demo.stopAfter.w.trace.drop 5).take 20) h1
      (fun e he => by
        have := (by decide +kernel : ((Demo.stopAfter.w.trace.drop 5).take 20).all (fun e => !meddles 0 e.2) = true)
        simpa using List.all_eq_true.1 this _ he) (by decide +kernel) (by decide +kernel)
    have h3 := Orderly.call (t := .client 1) (k := .stop 0) (mid := (Demo.stopAfter.w.trace.drop 26).take 2)
      (os := [.upd 0 Demo.rs.endSt true true, .cur 0 Demo.rs.endSt true]) (r := none) h2 rfl (by decide +kernel) (by decide +kernel) (.inl rfl)
    exact Demo.cast_trace h3 (by decide +kernel)

/-- C26 is false: `stop()` called between the worker's test-and-set of `isEnded` and its write of the current state returns
with the machine ended and in _END_, but then the worker writes its target state. All threads are idle in the end, the
machine has ended, and its current state is B. -/
theorem C26_stop_race : ∃ env c, Reach env c ∧ (∀ t, c.thr t = none) ∧ (c.w.mach 0).ended = true ∧
    (c.w.mach 0).cur = some Demo.B ∧ Demo.B.name ≠ "_END_" :=
  ⟨Demo.env fun _ _ => [], Demo.stopRace (fun _ _ => []) 9, ⟨_, Demo.conf_initial _, Demo.stopRace_reach _ _⟩,
    Demo.stopRace_idle, by decide +kernel, by decide +kernel, by decide +kernel⟩

/-- C26 is false even without concurrency: after `stop()` on a machine that was not started, a `start()` whose listener throws
leaves the machine ended and in its initial state. -/
theorem C26_start_throws : ∃ env c, Reach env c ∧ (∀ t, c.thr t = none) ∧ (c.w.mach 0).ended = true ∧
    (c.w.mach 0).cur = some Demo.A ∧ Demo.A.name ≠ "_END_" :=
  ⟨_, Demo.stopStart, ⟨_, Demo.conf_initial _, Demo.stopStart_reach⟩,
    Demo.stopStart_idle, by decide +kernel, by decide +kernel, by decide +kernel⟩

/-! #### C23, the initial state -/

/-- C23: `start()` never ends the machine, whatever its initial state. -/
theorem C23_start_never_ends {pre mid : List (Tid × Obs)} {os : List Obs} {r : Option Exc} (hi : Initial c0) (hr : ReachFrom env c0 c)
    (hc : IsCall c.w.trace t (.start m) pre mid os r) (s : St) (b a : Bool) : .upd m s b a ∉ os := by
  have hran : ∀ pl, .upd m s b a ∉ ran pl := by
    intro pl
    induction pl with
    | nil => simp [ran]
    | cons it pl ih => cases it <;> simpa [ran] using ih
  intro hm
  cases C49_start_protocol hi hr hc with
  | failed _ => cases hm
  | already _ _ => cases hm
  | ok _ _ _ => simp [hran] at hm
  | threw _ _ _ _ => simp [hran] at hm
  | swapped _ _ _ h1 _ =>
    simp at hm
    rcases h1 _ hm with ⟨c, h⟩ | ⟨c, r, h⟩ | h <;> cases h

example : .upd 0 Demo.rs.endSt true false ∉ [Obs.started 0, .cur 0 Demo.A true, .cleared 0] :=
  C23_start_never_ends (c := Demo.stopAfter) (t := .client 0) (pre := []) (mid := (Demo.stopAfter.w.trace.drop 1).take 3) (r := none)
    (Demo.conf_initial false) Demo.stopAfter_reach ⟨⟨Demo.stopAfter.w.trace.drop 5, by decide +kernel⟩, by decide +kernel⟩ _ _ _

/-- C23 is false for the initial state: `initialSate(A).itEnds()` is accepted, `start()` returns normally, A is final, and
the machine has not ended; it accepts events and reports them as unmapped. -/
theorem C23_negation_initial : ∃ env c, Reach env c ∧ (∀ t, c.thr t = none) ∧ (env.mach 0).table = Demo.cfgEnd.table ∧
    (env.desc 0).final Demo.A = true ∧ (c.w.mach 0).started = true ∧ (c.w.mach 0).ended = false ∧ (c.w.mach 0).cur = some Demo.A ∧
    (Demo.w0, .cb (.unmapped 0 Demo.go)) ∈ c.w.trace :=
  ⟨Demo.tabled (Demo.env fun _ _ => []) fun _ => Demo.cfgEnd, Demo.neverEnds, ⟨_, Demo.conf_initial _, Demo.neverEnds_reach⟩,
    Demo.neverEnds_idle, rfl, by decide +kernel, by decide +kernel, by decide +kernel, by decide +kernel, by decide +kernel⟩

end
end Verif
