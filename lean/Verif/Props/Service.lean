import Verif.Demo.App
import Verif.Props.Lifecycle
/-
C42-C48: the application service.
-/

namespace Verif
open Spec.App Svc

section
variable {a : App}

/-! ### Entry actions -/

/-- What is visible of an entry action that has got to `act`. `k`: of STARTING, STOPPING, or (`none`) STOPPED. -/
def seenIn (a : App) (k : Option Bool) (act : Act) (es : List Obs) : Prop :=
  match k, act with
  | some up, .phase up' i => up' = up ∧ i ≤ a.nsubs ∧ es = phased a up i
  | some up, .inSub up' i => up' = up ∧ i < a.nsubs ∧ es = phased a up i ++ [.user (.sub a.id (order a.nsubs up i) up)]
  | some up, .failed _ => ∀ r, Script a up r (es ++ fires a evtError r)
  | some up, .completing => es = phased a up a.nsubs ++ [.enter (.fire a.m evtComplete)]
  | some up, .erring => ∃ es', es = es' ++ [.enter (.fire a.m evtError)] ∧ ∀ r, Script a up r (es' ++ fires a evtError r)
  | some up, .over r => Script a up r es
  | none, .fresh => es = []
  | none, .ending => a.exitOnStop = true ∧ es = [.enter (.fire a.m evtStop)]
  | none, .counting => a.exitOnStop = true ∧ es = fires a evtStop none
  | none, .over r => StopScript a r es
  | _, _ => False

theorem phased_succ (up : Bool) (i : Nat) : phased a up (i + 1) = phased a up i ++
    [.user (.sub a.id (order a.nsubs up i) up), .user (.subRet a.id (order a.nsubs up i) up none)] := by
  simp [phased, List.range_succ]

theorem phased_le (up : Bool) {i n : Nat} (h : i ≤ n) : ∃ rest, phased a up n = phased a up i ++ rest := by
  induction n with
  | zero => cases Nat.le_zero.1 h; exact ⟨[], by simp⟩
  | succ n ih =>
    rcases Nat.lt_or_ge n i with h1 | h1
    · have : i = n + 1 := by omega
      subst this; exact ⟨[], by simp⟩
    · obtain ⟨rest, h2⟩ := ih h1
      exact ⟨_, by rw [phased_succ, h2, List.append_assoc]⟩

theorem seen_step {k : Option Bool} {act act' : Act} {es : List Obs} {c : Cb} {o : Obs} (h : seenIn a k act es)
    (hr : relevant a (some (c, act)) o = true) (hs : actStep a act o = some act') :
    seenIn a k act' (es ++ [o]) ∧ ∀ os, visible a act.isInSub (o :: os) = o :: visible a act'.isInSub os := by
  unfold actStep at hs
  split at hs
  next up i j k' up' =>
    have hj : j = a.id := by simpa [relevant] using hr
    subst hj
    split at hs
    next hc =>
      cases hs
      obtain ⟨h1, rfl, rfl⟩ := hc
      refine ⟨?_, fun os => by simp [visible, Act.isInSub]⟩
      cases k with
      | none => exact h.elim
      | some u => obtain ⟨rfl, h2, rfl⟩ := h; exact ⟨rfl, h1, rfl⟩
    · cases hs
  next up i j k' up' r =>
    have hj : j = a.id := by simpa [relevant] using hr
    subst hj
    split at hs
    next hc =>
      obtain ⟨rfl, rfl⟩ := hc
      cases k with
      | none => exact h.elim
      | some u =>
        obtain ⟨rfl, h2, rfl⟩ := h
        split at hs
        · cases hs
          refine ⟨⟨rfl, h2, by rw [phased_succ]; simp⟩, fun os => by simp [visible, Act.isInSub]⟩
        next x =>
          cases hs
          unfold afterFail
          by_cases hx : x.isException = true
          · rw [if_pos hx]
            refine ⟨fun r => ?_, fun os => by simp [visible, Act.isInSub]⟩
            have := Script.failed (a := a) (up := up') (r := r) h2 hx
            simpa using this
          · rw [if_neg hx]
            refine ⟨?_, fun os => by simp [visible, Act.isInSub]⟩
            have := Script.killed (a := a) (up := up') (x := x) h2 (by simpa using hx)
            simpa [seenIn] using this
    · cases hs
  next up i m ev =>
    have hm : m = a.m := by simpa [relevant, Act.isInSub] using hr
    subst hm
    split at hs
    next hc =>
      cases hs
      obtain ⟨rfl, rfl⟩ := hc
      refine ⟨?_, fun os => by simp [visible, Act.isInSub]⟩
      cases k with
      | none => exact h.elim
      | some u => obtain ⟨rfl, h2, rfl⟩ := h; rfl
    · cases hs
  next m ev r =>
    have hm : m = a.m := by simpa [relevant, Act.isInSub] using hr
    subst hm
    split at hs
    next hc =>
      subst hc
      cases k with
      | none => exact h.elim
      | some u =>
        have h : es = _ := h
        subst h
        split at hs
        · cases hs
          refine ⟨?_, fun os => by simp [visible, Act.isInSub]⟩
          have := Script.complete (a := a) (up := u)
          simpa [seenIn, fires] using this
        next x =>
          cases hs
          unfold afterFail
          by_cases hx : x.isException = true
          · rw [if_pos hx]
            refine ⟨fun r => ?_, fun os => by simp [visible, Act.isInSub]⟩
            have := Script.unheard (a := a) (up := u) (r := r) hx
            simpa [fires] using this
          · rw [if_neg hx]
            refine ⟨?_, fun os => by simp [visible, Act.isInSub]⟩
            have := Script.dead (a := a) (up := u) (x := x) (by simpa using hx)
            simpa [seenIn, fires] using this
    · cases hs
  next x m ev =>
    have hm : m = a.m := by simpa [relevant, Act.isInSub] using hr
    subst hm
    split at hs
    next hc =>
      cases hs; subst hc
      refine ⟨?_, fun os => by simp [visible, Act.isInSub]⟩
      cases k with
      | none => exact h.elim
      | some u => exact ⟨es, rfl, h⟩
    · cases hs
  next m ev r =>
    have hm : m = a.m := by simpa [relevant, Act.isInSub] using hr
    subst hm
    split at hs
    next hc =>
      cases hs; subst hc
      refine ⟨?_, fun os => by simp [visible, Act.isInSub]⟩
      cases k with
      | none => exact h.elim
      | some u =>
        obtain ⟨es', rfl, h⟩ := h
        have := h r
        simpa [seenIn, fires] using this
    · cases hs
  next m ev =>
    have hm : m = a.m := by simpa [relevant, Act.isInSub] using hr
    subst hm
    split at hs
    next hc =>
      cases hs
      obtain ⟨h1, rfl⟩ := hc
      refine ⟨?_, fun os => by simp [visible, Act.isInSub]⟩
      cases k with
      | none => have h : es = _ := h; subst h; exact ⟨h1, rfl⟩
      | some u => exact h.elim
    · cases hs
  next m ev r =>
    have hm : m = a.m := by simpa [relevant, Act.isInSub] using hr
    subst hm
    split at hs
    next hc =>
      subst hc
      cases k with
      | some u => exact h.elim
      | none =>
        obtain ⟨h1, rfl⟩ := h
        split at hs
        · cases hs
          exact ⟨⟨h1, rfl⟩, fun os => by simp [visible, Act.isInSub]⟩
        next x =>
          cases hs
          exact ⟨.dead h1, fun os => by simp [visible, Act.isInSub]⟩
    · cases hs
  next n =>
    have hm : n = a.latch := by simpa [relevant] using hr
    subst hm
    cases hs
    refine ⟨?_, fun os => by simp [visible, Act.isInSub]⟩
    cases k with
    | some u => exact h.elim
    | none => obtain ⟨h1, rfl⟩ := h; exact .exits h1
  · cases hs

theorem visible_skip {act : Act} {c : Cb} {o : Obs} (hr : relevant a (some (c, act)) o = false) (os : List Obs) :
    visible a act.isInSub (o :: os) = visible a act.isInSub os := by
  unfold relevant at hr
  split at hr
  all_goals first
    | (simp at hr; simp [visible, hr]; done)
    | (simp at hr; simp only [visible]; rw [if_neg]; rintro ⟨rfl, h⟩; simp [h] at hr; done)
    | rfl

/-- A stretch of the history in which the action does not return. -/
theorem run_visible {k : Option Bool} {c : Cb} {os : List Obs} {act : Act} {es : List Obs} {s : Option (Cb × Act)}
    (h : seenIn a k act es) (hr : run a (some (c, act)) os = some s) (hn : ∀ r, Obs.cbRet c r ∉ os) :
    ∃ act', s = some (c, act') ∧ seenIn a k act' (es ++ visible a act.isInSub os) := by
  induction os generalizing act es with
  | nil => cases hr; exact ⟨act, rfl, by simpa [visible] using h⟩
  | cons o os ih =>
    have hn' : ∀ r, Obs.cbRet c r ∉ os := fun r hm => hn r (List.mem_cons_of_mem _ hm)
    simp only [run] at hr
    by_cases hrel : relevant a (some (c, act)) o = true
    · simp only [Spec.App.step, if_pos hrel] at hr
      split at hr
      · cases hr
      next s' hs' =>
        split at hs'
        next heq => cases heq
        next c1 act1 c' r heq =>
          cases heq
          split at hs'
          next hc => exact absurd (by rw [hc.1]; exact List.mem_cons_self ..) (hn r)
          · cases hs'
        next c1 act1 heq hno =>
          cases heq
          obtain ⟨act', ha', rfl⟩ := Option.map_eq_some_iff.1 hs'
          obtain ⟨h1, h2⟩ := seen_step h hrel ha'
          obtain ⟨act2, h3, h4⟩ := ih h1 hr hn'
          exact ⟨act2, h3, by rw [h2]; simpa using h4⟩
        next heq _ => cases heq
    · rw [Bool.not_eq_true] at hrel
      simp only [Spec.App.step, hrel, Bool.false_eq_true, if_false] at hr
      obtain ⟨act2, h3, h4⟩ := ih h hr hn'
      exact ⟨act2, h3, by rw [visible_skip hrel]; exact h4⟩

theorem actRun_append {s : Option (Cb × Act)} (xs ys : List Obs) :
    run a s (xs ++ ys) = (run a s xs).bind fun s' => run a s' ys := by
  induction xs generalizing s with
  | nil => rfl
  | cons x xs ih =>
    simp only [List.cons_append, run]
    cases Spec.App.step a s x with
    | none => rfl
    | some s' => exact ih

/-- Which entry action: of STARTING (`some true`), STOPPING, or STOPPED. -/
def kindOf (a : App) (oid : Nat) : Option Bool :=
  if oid = a.starting.oid then some true else if oid = a.stopping.oid then some false else none

theorem seen_entry (oid : Nat) : seenIn a (kindOf a oid) (entryAct a oid) [] := by
  unfold kindOf entryAct
  split
  · exact ⟨rfl, Nat.zero_le _, rfl⟩
  · split
    · exact ⟨rfl, Nat.zero_le _, rfl⟩
    · rfl

/-- The automaton at the beginning of a watched entry action. -/
theorem run_entry {os mid : List Obs} {m : MId} {oid i : Nat} {ev : Ev} {s : Option (Cb × Act)} (hw : watched a oid = true)
    (hr : run a none (os ++ .cb (.action m .entry oid i ev) :: mid) = some s) :
    run a (some (.action m .entry oid i ev, entryAct a oid)) mid = some s := by
  rw [actRun_append] at hr
  obtain ⟨s1, h1, h2⟩ := Option.bind_eq_some_iff.1 hr
  simp only [run] at h2
  cases s1 with
  | none => simpa [Spec.App.step, relevant, hw] using h2
  | some p =>
    obtain ⟨c, act⟩ := p
    simp only [Spec.App.step, relevant, hw, if_true] at h2
    have : actStep a act (.cb (.action m .entry oid i ev)) = none := by cases act <;> rfl
    simp [this] at h2

end

section
variable {a : App} {env : Env} {c0 c : Conf} {t : Tid}

theorem entry_inSub (oid : Nat) : (entryAct a oid).isInSub = false := by
  unfold entryAct
  split
  · rfl
  · split <;> rfl

theorem action_open (ha : a.Wired env) (h0 : Initial c0) (hl : c0.w.latch a.latch ≠ 0) (hr : Execution a env c0 c)
    {os mid : List Obs} {m : MId} {oid i : Nat} {ev : Ev} (hw : watched a oid = true)
    (h : ofThread t c.w.trace = os ++ .cb (.action m .entry oid i ev) :: mid)
    (hn : ∀ r, Obs.cbRet (.action m .entry oid i ev) r ∉ mid) :
    ∃ act, seenIn a (kindOf a oid) act (visible a false mid) := by
  obtain ⟨lst, hI⟩ := inv ha h0 hl hr
  have h1 := hI.run t
  rw [h] at h1
  obtain ⟨act, -, h2⟩ := run_visible (seen_entry oid) (run_entry hw h1) hn
  rw [entry_inSub] at h2
  exact ⟨act, by simpa using h2⟩

theorem action_over (ha : a.Wired env) (h0 : Initial c0) (hl : c0.w.latch a.latch ≠ 0) (hr : Execution a env c0 c)
    {os mid post : List Obs} {m : MId} {oid i : Nat} {ev : Ev} {r : Option Exc} (hw : watched a oid = true)
    (h : ofThread t c.w.trace = os ++ .cb (.action m .entry oid i ev) :: (mid ++ .cbRet (.action m .entry oid i ev) r :: post))
    (hn : ∀ r, Obs.cbRet (.action m .entry oid i ev) r ∉ mid) :
    ∃ act, mayEnd a act r = true ∧ seenIn a (kindOf a oid) act (visible a false mid) := by
  obtain ⟨lst, hI⟩ := inv ha h0 hl hr
  have h1 := hI.run t
  rw [h] at h1
  have h2 := run_entry hw h1
  rw [actRun_append] at h2
  obtain ⟨s1, h3, h4⟩ := Option.bind_eq_some_iff.1 h2
  obtain ⟨act, rfl, h5⟩ := run_visible (seen_entry oid) h3 hn
  rw [entry_inSub] at h5
  refine ⟨act, ?_, by simpa using h5⟩
  have hrel : relevant a (some (.action m .entry oid i ev, act)) (.cbRet (.action m .entry oid i ev) r) = true := hw
  simp only [run, Spec.App.step, if_pos hrel] at h4
  split at h4
  · cases h4
  next s' hs' =>
    split at hs'
    next hc => exact hc.2
    · cases hs'

namespace Demo

/-- The history of thread `t`, cut before entry `i`, and before entry `i + n + 1`. -/
theorem cut {t : Tid} {tr : List (Tid × Obs)} {x y : Obs} (i n : Nat)
    (h : (ofThread t tr)[i]? = some x) (h2 : (ofThread t tr)[i + n + 1]? = some y) :
    ofThread t tr = (ofThread t tr).take i ++ x :: (((ofThread t tr).drop (i + 1)).take n ++ y :: (ofThread t tr).drop (i + n + 2)) := by
  have h3 : (ofThread t tr).drop (i + 1) =
      ((ofThread t tr).drop (i + 1)).take n ++ y :: (ofThread t tr).drop (i + n + 2) := by
    have h4 := List.getElem?_eq_some_iff.1 h2
    rw [show i + n + 2 = i + n + 1 + 1 from rfl, ← h4.2, ← List.drop_eq_getElem_cons h4.1, show i + n + 1 = i + 1 + n by omega,
      ← List.drop_drop (i := n) (j := i + 1), List.take_append_drop]
  have h4 := List.getElem?_eq_some_iff.1 h
  rw [← h3, ← h4.2, ← List.drop_eq_getElem_cons h4.1, List.take_append_drop]

theorem not_ret {c : Cb} {mid : List Obs} (h : mid.all (fun o => match o with | .cbRet c' _ => c' != c | _ => true) = true) :
    ∀ r, Obs.cbRet c r ∉ mid := by
  intro r hm
  have := List.all_eq_true.1 h _ hm
  simp at this

theorem calm_wired (exit : Bool) : (app exit calmSub).Wired (appEnv (app exit calmSub)) := app_wired _ _ (calm_outside exit)
theorem bad_wired (exit : Bool) : (app exit badSub).Wired (appEnv (app exit badSub)) := app_wired _ _ (bad_outside exit)

end Demo

/-- C42, C43: the entry action of STARTING (STOPPING), while it runs. What is visible of it is the beginning of an allowed script:
the subsystems are started one after the other, in order (stopped, in reverse order), each one only after the one before has
returned; when all are done, `complete` is fired; if one throws an `Exception`, no more subsystems are called, `complete` is not
fired, and exactly one `error` event is fired. This holds for any number of subsystems and whatever they do. -/
theorem C42_phase (ha : a.Wired env) (h0 : Initial c0) (hl : c0.w.latch a.latch ≠ 0) (hr : Execution a env c0 c)
    {os mid : List Obs} {m : MId} {up : Bool} {i : Nat} {ev : Ev}
    (h : ofThread t c.w.trace = os ++ .cb (.action m .entry (if up then a.starting.oid else a.stopping.oid) i ev) :: mid)
    (hn : ∀ r, Obs.cbRet (.action m .entry (if up then a.starting.oid else a.stopping.oid) i ev) r ∉ mid) :
    ∃ r es, Script a up r (visible a false mid ++ es) := by
  have hk : kindOf a (if up then a.starting.oid else a.stopping.oid) = some up := by
    have hd := ha.oids
    simp only [List.nodup_cons, List.mem_cons, List.not_mem_nil, or_false, not_or] at hd
    cases up with
    | true => simp [kindOf]
    | false => simp [kindOf, Ne.symm hd.2.1.2.1]
  obtain ⟨act, h1⟩ := action_open ha h0 hl hr (by cases up <;> simp [watched]) h hn
  rw [hk] at h1
  generalize visible a false mid = es at h1
  cases act with
  | phase up' i =>
    obtain ⟨rfl, h2, rfl⟩ := h1
    obtain ⟨rest, h3⟩ := phased_le up' h2
    refine ⟨none, rest ++ fires a evtComplete none, ?_⟩
    rw [← List.append_assoc, ← h3]; exact .complete
  | inSub up' i =>
    obtain ⟨rfl, h2, rfl⟩ := h1
    have h2' : i + 1 ≤ a.nsubs := h2
    obtain ⟨rest, h3⟩ := phased_le up' h2'
    refine ⟨none, .user (.subRet a.id (order a.nsubs up' i) up' none) :: rest ++ fires a evtComplete none, ?_⟩
    have := Script.complete (a := a) (up := up')
    rw [h3, phased_succ] at this
    simpa using this
  | failed x => exact ⟨none, _, h1 none⟩
  | completing =>
    have h1 : es = _ := h1
    subst h1
    refine ⟨none, [.leave (.fire a.m evtComplete) none], ?_⟩
    have := Script.complete (a := a) (up := up)
    simpa [fires] using this
  | erring =>
    obtain ⟨es', rfl, h1⟩ := h1
    refine ⟨none, [.leave (.fire a.m evtError) none], ?_⟩
    have := h1 none
    simpa [fires] using this
  | over r => exact ⟨r, [], by rw [List.append_nil]; exact h1⟩
  | fresh | ending | counting => exact h1.elim

open Demo in
/-- Subsystem 0 of the demo app is being started. -/
example : ∃ r es, Script (app true calmSub) true r
    ([.user (.sub 0 0 true)] ++ es) := by
  let c := drive (appEnv (app true calmSub)) appConf
    ([.begin 0 (callApp (app true calmSub) .start)] ++ runN (.client 0) 60 ++ [.dispatch 0 0 0] ++ runN (.worker 0 0) 15)
  have hx : Execution (app true calmSub) (appEnv (app true calmSub)) appConf c := drive_execution fun x hx => by
    simp only [List.mem_append, List.mem_singleton] at hx
    rcases hx with ((rfl | hx) | rfl) | hx
    all_goals first | exact callApp_outside _ _ | exact runN_within _ _ _ hx | trivial
  have := C42_phase (up := true) (t := w0) (os := (ofThread w0 c.w.trace).take 3) (mid := (ofThread w0 c.w.trace).drop 4)
    (m := 0) (i := 0) (ev := evtStart) (calm_wired true) appConf_initial latchesOne hx (by decide +kernel)
    (not_ret (by decide +kernel))
  rwa [show visible (app true calmSub) false ((ofThread w0 c.w.trace).drop 4) = [.user (.sub 0 0 true)] by decide +kernel] at this

/-- C42, C43: the entry action of STARTING (STOPPING) from beginning to end. -/
theorem C42_phase_over (ha : a.Wired env) (h0 : Initial c0) (hl : c0.w.latch a.latch ≠ 0) (hr : Execution a env c0 c)
    {os mid post : List Obs} {m : MId} {up : Bool} {i : Nat} {ev : Ev} {r : Option Exc}
    (h : ofThread t c.w.trace = os ++ .cb (.action m .entry (if up then a.starting.oid else a.stopping.oid) i ev) ::
      (mid ++ .cbRet (.action m .entry (if up then a.starting.oid else a.stopping.oid) i ev) r :: post))
    (hn : ∀ r, Obs.cbRet (.action m .entry (if up then a.starting.oid else a.stopping.oid) i ev) r ∉ mid) :
    Script a up r (visible a false mid) := by
  have hk : kindOf a (if up then a.starting.oid else a.stopping.oid) = some up := by
    have hd := ha.oids
    simp only [List.nodup_cons, List.mem_cons, List.not_mem_nil, or_false, not_or] at hd
    cases up with
    | true => simp [kindOf]
    | false => simp [kindOf, Ne.symm hd.2.1.2.1]
  obtain ⟨act, h1, h2⟩ := action_over ha h0 hl hr (by cases up <;> simp [watched]) h hn
  rw [hk] at h2
  unfold mayEnd at h1
  simp only [Bool.or_eq_true, Bool.and_eq_true, beq_iff_eq] at h1
  rcases h1 with rfl | ⟨⟨rfl, -⟩, -⟩
  · exact h2
  · exact h2.elim

open Demo in
/-- STARTING, when the second subsystem cannot be started. -/
example : Script (app true badSub) true none (visible (app true badSub) false (((ofThread w0 faulty.w.trace).drop 4).take 9)) :=
  C42_phase_over (up := true) (m := 0) (i := 0) (ev := evtStart) (bad_wired true) appConf_initial latchesOne faulty_exec
    (cut 3 9 (by decide +kernel) (by decide +kernel)) (not_ret (by decide +kernel))

open Demo in
example : visible (app true badSub) false (((ofThread w0 faulty.w.trace).drop 4).take 9) =
    [.user (.sub 0 0 true), .user (.subRet 0 0 true none), .user (.sub 0 1 true), .user (.subRet 0 1 true (some (.user 7))),
     .enter (.fire 0 evtError), .leave (.fire 0 evtError) none] := by decide +kernel

open Demo in
/-- STOPPING: in reverse order. -/
example : Script (app true calmSub) false none (visible (app true calmSub) false (((ofThread w0 served.w.trace).drop 26).take 10)) :=
  C42_phase_over (up := false) (m := 0) (i := 0) (ev := evtStop) (calm_wired true) appConf_initial latchesOne served_exec
    (cut 25 10 (by decide +kernel) (by decide +kernel)) (not_ret (by decide +kernel))

open Demo in
example : visible (app true calmSub) false (((ofThread w0 served.w.trace).drop 26).take 10) =
    [.user (.sub 0 1 false), .user (.subRet 0 1 false none), .user (.sub 0 0 false), .user (.subRet 0 0 false none),
     .enter (.fire 0 evtComplete), .leave (.fire 0 evtComplete) none] := by decide +kernel

/-- The entry action of STOPPED from beginning to end: in exit-on-stop mode `stop` is fired and the main thread released (unless
`fire` throws); otherwise nothing happens. -/
theorem C44_stopped_action (ha : a.Wired env) (h0 : Initial c0) (hl : c0.w.latch a.latch ≠ 0) (hr : Execution a env c0 c)
    {os mid post : List Obs} {m : MId} {i : Nat} {ev : Ev} {r : Option Exc}
    (h : ofThread t c.w.trace = os ++ .cb (.action m .entry a.stopped.oid i ev) ::
      (mid ++ .cbRet (.action m .entry a.stopped.oid i ev) r :: post))
    (hn : ∀ r, Obs.cbRet (.action m .entry a.stopped.oid i ev) r ∉ mid) : StopScript a r (visible a false mid) := by
  have hd := ha.oids
  simp only [List.nodup_cons, List.mem_cons, List.not_mem_nil, or_false, not_or] at hd
  have hk : kindOf a a.stopped.oid = none := by
    simp [kindOf, Ne.symm hd.2.1.2.2, Ne.symm hd.2.2.2.1]
  obtain ⟨act, h1, h2⟩ := action_over ha h0 hl hr (by simp [watched]) h hn
  rw [hk] at h2
  unfold mayEnd at h1
  simp only [Bool.or_eq_true, Bool.and_eq_true, beq_iff_eq] at h1
  rcases h1 with rfl | ⟨⟨rfl, h3⟩, rfl⟩
  · exact h2
  · have h2 : _ = [] := h2
    rw [h2]; exact .stays (by simpa using h3)


/-! ### Methods -/

open Demo in
example : StopScript (app true calmSub) none (visible (app true calmSub) false (((ofThread w0 served.w.trace).drop 42).take 5)) :=
  C44_stopped_action (m := 0) (i := 0) (ev := evtComplete) (calm_wired true) appConf_initial latchesOne served_exec
    (cut 41 5 (by decide +kernel) (by decide +kernel)) (not_ret (by decide +kernel))

/-- C46: what a call of `start()`, `stop()` or `error()` of an app has done when it returns, see `CallDone`: `stop()` fires exactly
one `stop` event if the current state it read was STARTED (or, in restartable mode, STOPPED), does nothing in STOPPED of an
exit-on-stop app, and otherwise throws IllegalStateException and fires nothing; `start()` of an app that has been started fires
exactly one `start` event if the app is restartable and STOPPED, and otherwise throws IllegalStateException and fires nothing. -/
theorem C46_calls (ha : a.Wired env) (h0 : Initial c0) (hl : c0.w.latch a.latch ≠ 0) (hr : Execution a env c0 c)
    {pre post : List (Tid × Obs)} {k : AppCall} {r : Option Exc} (h : c.w.trace = pre ++ (t, .user (.appRet a.id k r)) :: post) :
    ∃ pos rest, openCalls a t pre = (pos, k) :: rest ∧ pre[pos]? = some (t, .user (.app a.id k)) ∧ CallDone a t pre pos r k := by
  obtain ⟨lst, hI⟩ := inv ha h0 hl hr
  have := hI.rets pre.length t k r (by rw [h]; simp)
  rw [h, List.take_left] at this
  exact this

open Demo in
/-- `stop()` of the demo app in STARTED, and after its end. -/
example : ∃ pos rest, openCalls (app true calmSub) (.client 1) (served.w.trace.take 37) = (pos, .stop) :: rest ∧
    (served.w.trace.take 37)[pos]? = some (.client 1, .user (.app 0 .stop)) ∧
    CallDone (app true calmSub) (.client 1) (served.w.trace.take 37) pos none .stop :=
  C46_calls (calm_wired true) appConf_initial latchesOne served_exec (post := served.w.trace.drop 38) (by decide +kernel)

open Demo in
example : ∃ pos rest, openCalls (app true badSub) (.client 1) (faulty.w.trace.take 41) = (pos, .stop) :: rest ∧
    (faulty.w.trace.take 41)[pos]? = some (.client 1, .user (.app 0 .stop)) ∧
    CallDone (app true badSub) (.client 1) (faulty.w.trace.take 41) pos (some (.ise .appState)) .stop :=
  C46_calls (bad_wired true) appConf_initial latchesOne faulty_exec (post := faulty.w.trace.drop 42) (by decide +kernel)

/-- C46, `stop()` in a state in which the app cannot be stopped: IllegalStateException, and nothing is fired. -/
theorem C46_stop_refused (ha : a.Wired env) (h0 : Initial c0) (hl : c0.w.latch a.latch ≠ 0) (hr : Execution a env c0 c)
    {pre post : List (Tid × Obs)} {r : Option Exc} (h : c.w.trace = pre ++ (t, .user (.appRet a.id .stop r)) :: post)
    (hs : ∀ n ≤ pre.length, (curOf a.m (pre.take n)).map (·.name) ≠ some "STARTED" ∧
      (curOf a.m (pre.take n)).map (·.name) ≠ some "STOPPED") :
    r = some (.ise .appState) ∧ ∃ pos rest, openCalls a t pre = (pos, .stop) :: rest ∧ ownEntries a t (pre.drop (pos + 1)) = [] := by
  obtain ⟨pos, rest, h1, h2, n, -, h3, h4⟩ := C46_calls ha h0 hl hr h
  rw [show onStop a.exitOnStop ((curOf a.m (pre.take n)).map (·.name)) = .refuse by
    unfold onStop; rw [if_neg (hs n h3).1, if_neg (hs n h3).2]] at h4
  exact ⟨h4.2, pos, rest, h1, h4.1⟩

open Demo in
/-- `stop()` before `start()`. -/
example : ∃ pos rest, openCalls (app true calmSub) (.client 1) [(.client 1, .user (.app 0 .stop))] = (pos, .stop) :: rest ∧
    ownEntries (app true calmSub) (.client 1) (List.drop (pos + 1) [(.client 1, .user (.app 0 .stop))]) = [] := by
  refine (C46_stop_refused (calm_wired true) appConf_initial latchesOne tooEarly_exec
    (pre := [(.client 1, .user (.app 0 .stop))]) (post := []) (r := some (.ise .appState)) (by decide +kernel) ?_).2
  intro n hn
  match n, hn with
  | 0, _ => decide
  | 1, _ => decide

def watchedCb (a : App) : Cb → Bool
  | .action _ .entry oid _ _ => watched a oid
  | _ => false

/-- An entry action is open because it has begun and not returned. -/
theorem run_began {os : List Obs} {c : Cb} {act : Act} {s : Option (Cb × Act)} (hs : ∀ p, s = some p → watchedCb a p.1 = true)
    (hr : run a s os = some (some (c, act))) :
    ((∃ act0, s = some (c, act0)) ∧ ∀ r, Obs.cbRet c r ∉ os) ∨
    ∃ os1 os2, os = os1 ++ .cb c :: os2 ∧ (∀ r, Obs.cbRet c r ∉ os2) ∧ watchedCb a c = true := by
  induction os generalizing s with
  | nil => cases hr; exact Or.inl ⟨⟨act, rfl⟩, fun r => List.not_mem_nil⟩
  | cons o os ih =>
    simp only [run] at hr
    cases hst : Spec.App.step a s o with
    | none => rw [hst] at hr; cases hr
    | some s' =>
      rw [hst] at hr
      have key : (∀ p, s' = some p → watchedCb a p.1 = true) ∧ ∀ act0, s' = some (c, act0) →
          ((∃ act0, s = some (c, act0)) ∧ ∀ r, Obs.cbRet c r ≠ o) ∨ (s = none ∧ o = .cb c) := by
        unfold Spec.App.step at hst
        split at hst
        next hrel =>
          split at hst
          next m k oid i ev =>
            cases hst
            refine ⟨?_, ?_⟩
            · intro p hp; cases hp
              cases k with
              | entry => exact hrel
              | _ => cases hrel
            · intro act0 hp; cases hp; exact Or.inr ⟨rfl, rfl⟩
          · split at hst
            · cases hst; exact ⟨fun p hp => (by cases hp), fun _ hp => (by cases hp)⟩
            · cases hst
          next o' c1 act1 hno =>
            obtain ⟨act', -, rfl⟩ := Option.map_eq_some_iff.1 hst
            refine ⟨fun p hp => ?_, fun act0 hp => ?_⟩
            · cases hp; exact hs (c1, act1) rfl
            · cases hp; exact Or.inl ⟨⟨_, rfl⟩, fun r h => hno _ _ h.symm⟩
          · cases hst
        next hrel =>
          cases hst
          refine ⟨hs, fun act0 hp => Or.inl ⟨⟨act0, hp⟩, fun r h => ?_⟩⟩
          subst h
          have := hs _ hp
          refine hrel ?_
          obtain ⟨m, oid, i, ev, rfl⟩ : ∃ m oid i ev, c = .action m .entry oid i ev := by
            cases c with
            | action m k oid i ev => cases k with
              | entry => exact ⟨_, _, _, _, rfl⟩
              | _ => cases this
            | _ => cases this
          exact this
      rcases ih key.1 hr with ⟨⟨act0, h1⟩, h2⟩ | ⟨os1, os2, h1, h2⟩
      · rcases key.2 act0 h1 with ⟨h3, h4⟩ | ⟨rfl, rfl⟩
        · refine Or.inl ⟨h3, fun r hm => ?_⟩
          rcases List.mem_cons.1 hm with h | h
          · exact h4 r h
          · exact h2 r h
        · exact Or.inr ⟨[], os, rfl, h2, key.1 _ h1⟩
      · exact Or.inr ⟨o :: os1, os2, by rw [h1]; rfl, h2⟩

theorem mem_ofThread {x : Obs} {tr : List (Tid × Obs)} : x ∈ ofThread t tr ↔ (t, x) ∈ tr := by
  unfold ofThread
  rw [List.mem_filterMap]
  constructor
  · rintro ⟨⟨u, y⟩, hm, h⟩
    by_cases hu : u = t
    · subst hu; simp at h; subst h; exact hm
    · simp [hu] at h
  · intro h; exact ⟨(t, x), h, by simp⟩

theorem released_of_run (ha : a.Wired env) {tr : List (Tid × Obs)} {s : Option (Cb × Act)} (h1 : run a none (ofThread t tr) = some s)
    (h : (t, Obs.latch a.latch) ∈ tr) :
    a.exitOnStop = true ∧ ∃ m i ev os mid post, ofThread t tr =
      os ++ .cb (.action m .entry a.stopped.oid i ev) :: (mid ++ .latch a.latch :: post) ∧
      (∀ r, Obs.cbRet (.action m .entry a.stopped.oid i ev) r ∉ mid) ∧ visible a false mid = fires a evtStop none := by
  obtain ⟨l1, l2, h2⟩ := List.append_of_mem (mem_ofThread.2 h)
  rw [h2, actRun_append] at h1
  obtain ⟨s1, h3, h4⟩ := Option.bind_eq_some_iff.1 h1
  have hrel : relevant a s1 (.latch a.latch) = true := by simp [relevant]
  simp only [run, Spec.App.step, if_pos hrel] at h4
  cases s1 with
  | none => cases h4
  | some p =>
    obtain ⟨cb, act⟩ := p
    have hact : act = .counting := by
      cases act <;> first | rfl | cases h4
    subst hact
    rcases run_began (fun p hp => by cases hp) h3 with ⟨⟨_, h5⟩, -⟩ | ⟨os1, os2, rfl, h6, h7⟩
    · cases h5
    · unfold watchedCb at h7
      split at h7
      next m oid i ev =>
        obtain ⟨act', h8, h9⟩ := run_visible (seen_entry oid) (run_entry h7 h3) h6
        cases h8
        rw [entry_inSub, List.nil_append] at h9
        have hd := ha.oids
        simp only [List.nodup_cons, List.mem_cons, List.not_mem_nil, or_false, not_or] at hd
        have hk : kindOf a oid = none := by
          cases hk : kindOf a oid with
          | none => rfl
          | some u => rw [hk] at h9; exact h9.elim
        rw [hk] at h9
        have ho : oid = a.stopped.oid := by
          unfold kindOf at hk
          split at hk
          · cases hk
          · split at hk
            · cases hk
            next n1 n2 => simpa [watched, n1, n2] using h7
        subst ho
        exact ⟨h9.1, m, i, ev, os1, os2, l2, by rw [h2]; simp, h6, h9.2⟩
      · cases h7

/-- The main thread is released only by the entry action of STOPPED, in exit-on-stop mode, after it has fired `stop`. -/
theorem C44_released (ha : a.Wired env) (h0 : Initial c0) (hl : c0.w.latch a.latch ≠ 0) (hr : Execution a env c0 c)
    (h : (t, Obs.latch a.latch) ∈ c.w.trace) :
    a.exitOnStop = true ∧ ∃ m i ev os mid post, ofThread t c.w.trace =
      os ++ .cb (.action m .entry a.stopped.oid i ev) :: (mid ++ .latch a.latch :: post) ∧
      (∀ r, Obs.cbRet (.action m .entry a.stopped.oid i ev) r ∉ mid) ∧ visible a false mid = fires a evtStop none := by
  obtain ⟨lst, hI⟩ := inv ha h0 hl hr
  exact released_of_run ha (hI.run t) h

open Demo in
example : ∃ m i ev os mid post, ofThread w0 served.w.trace =
      os ++ .cb (.action m .entry 15 i ev) :: (mid ++ .latch 0 :: post) ∧
      (∀ r, Obs.cbRet (.action m .entry 15 i ev) r ∉ mid) ∧ visible (app true calmSub) false mid = fires (app true calmSub) evtStop none :=
  (C44_released (calm_wired true) appConf_initial latchesOne served_exec (t := w0) (by decide +kernel)).2

/-- C44: in exit-on-stop mode a call of `start()` that returns normally was the first one, and returns only after some thread has
run the entry action of STOPPED up to the release of the main thread, or after an interrupt. -/
theorem C44_start_blocks (ha : a.Wired env) (h0 : Initial c0) (hl : c0.w.latch a.latch ≠ 0) (hr : Execution a env c0 c)
    {pre post : List (Tid × Obs)} (h : c.w.trace = pre ++ (t, .user (.appRet a.id .start none)) :: post) (he : a.exitOnStop = true) :
    (∃ u m i ev, (u, Obs.cb (.action m .entry a.stopped.oid i ev)) ∈ pre ∧ (u, Obs.latch a.latch) ∈ pre) ∨
    ∃ pos rest, openCalls a t pre = (pos, .start) :: rest ∧ Obs.user (.intr a.id) ∈ ownEntries a t (pre.drop (pos + 1)) := by
  obtain ⟨pos, rest, h1, h2, n, n2, -, -, -, h3⟩ := C46_calls ha h0 hl hr h
  split at h3
  · rw [he, show onStart true ((curOf a.m (pre.take n)).map (·.name)) = .refuse by simp [onStart]] at h3
    cases h3.2
  · obtain ⟨nested, ⟨x, hx, -⟩ | ⟨x, hx, -⟩ | ⟨b, before, stopped, n3, h4, hb, h5, -⟩⟩ := h3
    · cases hx
    · cases hx
    · cases b with
      | true => exact Or.inr ⟨pos, rest, h1, by rw [h4, hb]; simp⟩
      | false =>
        left
        obtain ⟨u, hu⟩ := h5 rfl
        obtain ⟨lst, hI⟩ := inv ha h0 hl hr
        have h6 := hI.run u
        rw [h, show ofThread u (pre ++ (t, .user (.appRet a.id .start none)) :: post) =
          ofThread u pre ++ ofThread u ((t, .user (.appRet a.id .start none)) :: post) by simp [ofThread], actRun_append] at h6
        obtain ⟨s1, h7, -⟩ := Option.bind_eq_some_iff.1 h6
        obtain ⟨-, m, i, ev, os, mid, post', h8, -⟩ := released_of_run ha h7 hu
        exact ⟨u, m, i, ev, mem_ofThread.1 (by rw [h8]; simp), hu⟩

open Demo in
example := C44_start_blocks (calm_wired true) appConf_initial latchesOne served_exec (t := .client 0)
  (pre := served.w.trace.take 69) (post := []) (by decide +kernel) rfl

/-- C45, negatively: in restartable mode nothing ever releases the main thread: a call of `start()` that returns normally either
just restarted a stopped app, or its thread was interrupted. It does not matter if the app has been stopped, or even ended by a
second stop. -/
theorem C45_never_released (ha : a.Wired env) (h0 : Initial c0) (hl : c0.w.latch a.latch ≠ 0) (hr : Execution a env c0 c)
    {pre post : List (Tid × Obs)} (h : c.w.trace = pre ++ (t, .user (.appRet a.id .start none)) :: post) (he : a.exitOnStop = false) :
    ∃ pos rest, openCalls a t pre = (pos, .start) :: rest ∧
      (ownEntries a t (pre.drop (pos + 1)) = fires a evtStart none ∨
       Obs.user (.intr a.id) ∈ ownEntries a t (pre.drop (pos + 1))) := by
  obtain ⟨pos, rest, h1, h2, n, n2, -, -, -, h3⟩ := C46_calls ha h0 hl hr h
  refine ⟨pos, rest, h1, ?_⟩
  split at h3
  · split at h3
    · exact Or.inl h3
    · cases h3.2
  · obtain ⟨nested, ⟨x, hx, -⟩ | ⟨x, hx, -⟩ | ⟨b, before, stopped, n3, h4, hb, h5, -⟩⟩ := h3
    · cases hx
    · cases hx
    · cases b with
      | true => exact Or.inr (by rw [h4, hb]; simp)
      | false =>
        obtain ⟨u, hu⟩ := h5 rfl
        obtain ⟨h6, -⟩ := C44_released (t := u) ha h0 hl hr (by rw [h]; exact List.mem_append_left _ hu)
        rw [he] at h6; cases h6

open Demo in
example := C45_never_released (calm_wired false) appConf_initial latchesOne woken_exec (t := .client 0)
  (pre := woken.w.trace.take 67) (post := []) (by decide +kernel) rfl

open Demo in
/-- C45, negatively: there is an execution after which a restartable app has been stopped twice and its machine has ended, nothing
is left to do, and the main thread still waits. -/
theorem C45_stuck : ∃ (a : App) (env : Env) (c0 c : Conf), a.Wired env ∧ a.exitOnStop = false ∧ Initial c0 ∧ c0.w.latch a.latch ≠ 0 ∧
    Execution a env c0 c ∧ (c.w.mach a.m).ended = true ∧ openCalls a (.client 0) c.w.trace = [(0, .start)] ∧
    step env c (.run (.client 0)) = none ∧ c.w.tasks 0 = [] ∧ c.thr (.worker 0 0) = none :=
  ⟨app false calmSub, appEnv (app false calmSub), appConf, idle, calm_wired false, rfl, appConf_initial, latchesOne, idle_exec,
    by decide +kernel, by decide +kernel, Option.isNone_iff_eq_none.1 (by decide +kernel), by decide +kernel,
    Option.isNone_iff_eq_none.1 (by decide +kernel)⟩

/-- C48: if `start()` throws, this is because it was refused, or the exception comes from the machine's `start()`, from firing
`start`, or from its own call of `stop()`. -/
theorem C48_why (ha : a.Wired env) (h0 : Initial c0) (hl : c0.w.latch a.latch ≠ 0) (hr : Execution a env c0 c)
    {pre post : List (Tid × Obs)} {x : Exc} (h : c.w.trace = pre ++ (t, .user (.appRet a.id .start (some x))) :: post) :
    ∃ pos rest, openCalls a t pre = (pos, .start) :: rest ∧
      ((ownEntries a t (pre.drop (pos + 1)) = [] ∧ x = .ise .appState) ∨
       ∃ own o, ownEntries a t (pre.drop (pos + 1)) = own ++ [o] ∧
         (o = .leave (.start a.m) (some x) ∨ o = .leave (.fire a.m evtStart) (some x) ∨ o = .user (.appRet a.id .stop (some x)))) := by
  obtain ⟨pos, rest, h1, h2, n, n2, -, -, -, h3⟩ := C46_calls ha h0 hl hr h
  refine ⟨pos, rest, h1, ?_⟩
  split at h3
  · split at h3
    · exact Or.inr ⟨[.enter (.fire a.m evtStart)], _, h3, Or.inr (Or.inl rfl)⟩
    · cases h3.2; exact Or.inl ⟨h3.1, rfl⟩
  · right
    obtain ⟨nested, ⟨y, hy, h4⟩ | ⟨y, hy, h4⟩ | ⟨b, before, stopped, n3, h4, hb, h5, -, -, h6⟩⟩ := h3
    · cases hy; exact ⟨_, _, h4, Or.inl rfl⟩
    · cases hy
      exact ⟨.enter (.start a.m) :: nested ++ [.leave (.start a.m) none, .enter (.fire a.m evtStart)], _, by rw [h4]; simp, Or.inr (Or.inl rfl)⟩
    · split at h6
      · cases h6.2
      · obtain ⟨k, h6⟩ := h6
        rw [h6, ← List.append_assoc] at h4
        exact ⟨_, _, h4, Or.inr (Or.inr rfl)⟩

open Demo in
example := C48_why (calm_wired true) appConf_initial latchesOne raced_exec (t := .client 0)
  (pre := raced.w.trace.take 71) (post := []) (x := .ise .appState) (by decide +kernel)

open Demo in
/-- C48, negatively: there is an execution in which an exit-on-stop app is started, stopped properly, and `start()` throws
IllegalStateException nevertheless: its machine has ended between the test whether it has and the call of `stop()`. -/
theorem C48_race : ∃ (a : App) (env : Env) (c0 c : Conf) (pre : List (Tid × Obs)), a.Wired env ∧ a.exitOnStop = true ∧ Initial c0 ∧
    c0.w.latch a.latch ≠ 0 ∧ Execution a env c0 c ∧
    c.w.trace = pre ++ [(.client 0, .user (.appRet a.id .start (some (.ise .appState))))] ∧
    (Tid.client 1, Obs.user (.appRet a.id .stop none)) ∈ pre ∧
    (Tid.worker 0 0, Obs.user (.subRet a.id 0 false none)) ∈ pre ∧ (Tid.worker 0 0, Obs.latch a.latch) ∈ pre :=
  ⟨app true calmSub, appEnv (app true calmSub), appConf, raced, raced.w.trace.take 71, calm_wired true, rfl, appConf_initial, latchesOne,
    raced_exec, by decide +kernel, by decide +kernel, by decide +kernel, by decide +kernel⟩

open Demo in
/-- C43, what is missing: the subsystems started before the one that failed are never stopped, although the app has been stopped and
its machine has ended. -/
theorem C43_left_running : ∃ (a : App) (env : Env) (c0 c : Conf), a.Wired env ∧ Initial c0 ∧ c0.w.latch a.latch ≠ 0 ∧
    Execution a env c0 c ∧ (c.w.mach a.m).ended = true ∧
    (Tid.worker 0 0, Obs.user (.subRet a.id 0 true none)) ∈ c.w.trace ∧
    (∀ e ∈ c.w.trace, ∀ k, e.2 ≠ .user (.sub a.id k false)) ∧ c.w.tasks 0 = [] ∧ c.thr (.worker 0 0) = none :=
  ⟨app true badSub, appEnv (app true badSub), appConf, faulty, bad_wired true, appConf_initial, latchesOne, faulty_exec,
    by decide +kernel, by decide +kernel, (fun e he k hk => by
      have h : faulty.w.trace.all (fun e => match e.2 with | .user (.sub _ _ up) => up | _ => true) = true := by decide +kernel
      have := List.all_eq_true.1 h e he
      rw [hk] at this; cases this), by decide +kernel, Option.isNone_iff_eq_none.1 (by decide +kernel)⟩

end
end Verif
