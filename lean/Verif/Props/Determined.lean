import Verif.Spec.Determined
import Verif.Props.Effects
import Verif.Props.Rest
import Verif.Demo.Races
/-
C83: everything a machine does is determined by the events it takes.
-/

namespace Verif
open Spec
open Spec.Mon
open Spec.Calls (userObs cbMach)

namespace Determined
variable {d : Desc} {m : MId} {ev : Ev} {thr : List Cb → Option Exc} {past : List Cb} {os : List Obs}

theorem cbs_append (a b : List Obs) : cbsOf m (a ++ b) = cbsOf m a ++ cbsOf m b := List.filterMap_append ..

theorem cbOf_mach {c : Cb} (h : cbMach c = some m) : cbOf m (.cb c) = some c := by
  cases c <;> simp_all [cbOf, cbMach]

theorem cbs_shown {cs : List Cb} (h : ∀ c ∈ cs, cbMach c = some m) : cbsOf m (shown cs) = cs := by
  induction cs with
  | nil => rfl
  | cons c cs ih =>
    have h1 := cbOf_mach (h c (by simp))
    have h2 := ih fun c hc => h c (by simp [hc])
    simp only [cbsOf, shown_cons] at h2 ⊢
    rw [List.filterMap_cons_some h1, List.filterMap_cons_none rfl, h2]

theorem _root_.Verif.Spec.Obeys.left {a b : List Obs} (h : Obeys m thr past (a ++ b)) : Obeys m thr past a := by
  intro p c r q he hc
  exact h p c r (q ++ b) (by rw [he]; simp) hc

theorem _root_.Verif.Spec.Obeys.right {a b : List Obs} (h : Obeys m thr past (a ++ b)) : Obeys m thr (past ++ cbsOf m a) b := by
  intro p c r q he hc
  have := h (a ++ p) c r q (by rw [he]; simp) hc
  rw [cbs_append] at this
  simpa using this

theorem cut_shown {cs cs' : List Cb} (h : ∀ c ∈ cs, cbMach c = some m) (hf : Obeys m thr past (shown cs)) :
    cut thr m ev past (cs ++ cs') = (cs ++ (cut thr m ev (past ++ cs) cs').1, (cut thr m ev (past ++ cs) cs').2) := by
  induction cs generalizing past with
  | nil => simp
  | cons c cs ih =>
    have hc := h c (by simp)
    have h1 : none = thr (past ++ [c]) := by
      have := hf [.cb c] c none (shown cs) rfl hc
      simpa [cbsOf, List.filterMap_cons_some (cbOf_mach hc)] using this
    have hs : shown (c :: cs) = [.cb c, .cbRet c none] ++ shown cs := rfl
    have h2 : Obeys m thr (past ++ [c]) (shown cs) := by
      have := Obeys.right (hs ▸ hf)
      have hcb : cbsOf m [.cb c, .cbRet c none] = [c] := cbs_shown (cs := [c]) (by simpa using hc)
      rwa [hcb] at this
    have h3 := ih (fun c hc => h c (by simp [hc])) h2
    simp only [List.cons_append, cut, ← h1, h3, List.append_assoc, List.nil_append]

theorem cut_all {cs : List Cb} (h : ∀ c ∈ cs, cbMach c = some m) (hf : Obeys m thr past (shown cs)) :
    cut thr m ev past cs = (cs, false) := by
  have := cut_shown (cs' := []) (ev := ev) h hf
  simpa [cut] using this

theorem cut_failed {cs : List Cb} {c : Cb} {cs' : List Cb} {x : Exc} {os : List Obs} {r : Option Exc} (h : ∀ k ∈ cs ++ c :: cs', cbMach k = some m)
    (hr : Report m ev x os r) (hf : Obeys m thr past (shown cs ++ [.cb c, .cbRet c (some x)] ++ os)) :
    cut thr m ev past (cs ++ c :: cs') = (cbsOf m (shown cs ++ [.cb c, .cbRet c (some x)] ++ os), true) := by
  have hcs : ∀ k ∈ cs, cbMach k = some m := fun k hk => h k (by simp [hk])
  have hc := h c (by simp)
  have h1 : some x = thr (past ++ cs ++ [c]) := by
    have := hf (shown cs ++ [.cb c]) c (some x) os (by simp) hc
    rw [cbs_append, cbs_shown hcs] at this
    simpa [cbsOf, List.filterMap_cons_some (cbOf_mach hc)] using this
  rw [cut_shown hcs hf.left.left, cbs_append, cbs_append, cbs_shown hcs]
  have h2 : cbsOf m [.cb c, .cbRet c (some x)] = [c] := by
    simp only [cbsOf]
    rw [List.filterMap_cons_some (cbOf_mach hc)]; rfl
  rw [h2]
  simp only [cut, ← h1]
  cases hr with
  | told hx => simp [hx, cbsOf, cbOf]
  | untold hx => simp [hx, cbsOf]

theorem before_mach {lst : Bool} {a b : St} : ∀ c ∈ d.before lst a ev b, cbMach c = some d.m := fun c h => by
  rcases not_flow_before h with ⟨_, _, rfl⟩ | ⟨_, _, rfl⟩ <;> rfl

theorem after_mach {lst : Bool} {a b : St} : ∀ c ∈ d.afterwards lst a ev b, cbMach c = some d.m := fun c h => by
  rcases not_flow_after h with ⟨_, _, rfl⟩ | ⟨_, _, rfl⟩ <;> rfl

theorem notify_cut {cs : List Cb} {os : List Obs} {r : Option Exc} (h : ∀ c ∈ cs, cbMach c = some m) (hn : Notify m ev cs os r)
    (hf : Obeys m thr past os) : cbsOf m os = (cut thr m ev past cs).1 := by
  cases hn with
  | completed => rw [cut_all h hf, cbs_shown h]
  | failed hc hr => subst hc; rw [cut_failed h hr hf]

theorem change_cbs {b : St} : cbsOf m (d.change b) = [] := rfl
theorem ending_cbs {b : St} : cbsOf m (d.ending b) = [] := by unfold Desc.ending; split <;> rfl

theorem lst_handles {mem : Mem} {os : List Obs} {r : Option Exc} (h : Handles d mem ev os r) : (os.foldl (Mem.step d.m) mem).lst = mem.lst := by
  cases h with
  | over _ => rfl
  | moves _ _ _ ht =>
    cases ht with
    | completed => rw [Transition.mem_completed]; split <;> first | rfl | (split <;> rfl)
    | failedBefore _ h => rw [mem_failed mem h]
    | failedAfter _ h =>
      rw [List.append_assoc, List.append_assoc, List.append_assoc, List.foldl_append, List.foldl_append, ← List.append_assoc, mem_failed _ h,
        step_cbs mem quiet_shown, mem_change]
  | stays _ _ _ h => rw [mem_notify mem h]
  | unmapped _ _ _ h => rw [mem_notify mem h]
  | nowhere _ _ => rfl

/-- One event. -/
theorem handles_deed {mem : Mem} {os : List Obs} {r : Option Exc} (h : Handles d mem ev os r) (hf : Obeys d.m thr past os) :
    d.deed thr mem.lst.isSome past mem.st ev = (cbsOf d.m os, (os.foldl (Mem.step d.m) mem).st) := by
  cases h with
  | over he => simp [Desc.deed, Mem.st, he, cbsOf]
  | @moves a b _ _ he hc hb ht =>
    have hb' : d.reaction mem.st.cur ev = .goes b := by rw [show mem.st.cur = some a from hc]; exact hb
    have hs : mem.st = ⟨some a, false⟩ := by simp [Mem.st, he, hc]
    simp only [Desc.deed, hs, hb]
    cases ht with
    | completed =>
      have h1 := hf.left.left.left
      have h2 := hf.left.right
      rw [cbs_append, cbs_shown before_mach, change_cbs, List.append_nil] at h2
      rw [cut_all before_mach h1]
      simp only [Bool.false_eq_true, if_false, cut_all after_mach h2, cbs_append, cbs_shown before_mach, cbs_shown after_mach, change_cbs, ending_cbs,
        List.append_nil]
      rw [Transition.mem_completed, Effects.reaction_goes (x := ⟨some a, false⟩) hb rfl]
      by_cases h3 : b.name = resEnd
      · simp [h3, Mem.st]
      · by_cases h4 : d.final b = true
        · simp [h3, h4, Mem.st]
        · simp [h3, h4, Mem.st]
    | failedBefore h1 h2 =>
      rw [h1, cut_failed (h1 ▸ before_mach) h2 hf, mem_failed mem h2]
      simp [hs]
    | failedAfter h1 h2 =>
      rename_i cs k cs' x os
      have he' : shown (d.before mem.lst.isSome a ev b) ++ d.change b ++ shown cs ++ [.cb k, .cbRet k (some x)] ++ os =
          (shown (d.before mem.lst.isSome a ev b) ++ d.change b) ++ (shown cs ++ [.cb k, .cbRet k (some x)] ++ os) := by simp
      rw [he'] at hf ⊢
      have h3 := hf.right
      rw [cbs_append, cbs_shown before_mach, change_cbs, List.append_nil] at h3
      rw [cut_all before_mach hf.left.left, h1]
      simp only [Bool.false_eq_true, if_false]
      rw [cut_failed (h1 ▸ after_mach) h2 h3]
      rw [cbs_append (shown _ ++ d.change b), cbs_append (shown _) (d.change b), cbs_shown before_mach, change_cbs, List.append_nil]
      rw [List.foldl_append (l := shown (d.before mem.lst.isSome a ev b) ++ d.change b), mem_failed _ h2, List.foldl_append, step_cbs mem quiet_shown, mem_change]
      rfl
  | stays he hc hb hn =>
    rw [mem_notify mem hn, notify_cut (fun c hcs => ?_) hn hf]
    · simp [Desc.deed, Mem.st, he, hc, hb]
    · split at hcs
      · simp at hcs; rcases hcs with rfl | rfl <;> rfl
      · cases hcs
  | unmapped he hc hb hn =>
    rw [mem_notify mem hn, notify_cut (fun c hcs => ?_) hn hf]
    · simp [Desc.deed, Mem.st, he, hc, hb]
    · simp at hcs; subst hcs; rfl
  | nowhere he hb =>
    have : Desc.deed d thr mem.lst.isSome past mem.st ev = ([.flowEx d.m ev .npe], mem.st) := by
      simp only [Desc.deed, Mem.st, he, hb]
      split <;> simp_all
    rw [this]
    simp [cbsOf, cbOf, Mem.st, Mem.step]

theorem other_cb {x : Obs} (h : concerns m x = false) : cbOf m x = none := by
  cases x with
  | cb c => cases c <;> simp_all [concerns, cbOf, cbMach]
  | _ => rfl

/-- All events. -/
theorem events_deeds {q : QId} {mem mem' : Mem} {os : List Obs} (h : Events d q mem os mem') : ∀ {past}, Obeys d.m thr past os →
    d.deeds thr mem.lst.isSome past mem.st (os.filterMap (Effects.takes d.m)) = (cbsOf d.m os, mem'.st) := by
  induction h with
  | nil => intro past _; rfl
  | @other mem x os mem' h1 h2 _ ih =>
    intro past hf
    have h3 : Effects.takes d.m x = none := by
      cases x with
      | taken q m' ev => simp only [begins, decide_eq_false_iff_not] at h2; simp [Effects.takes, h2]
      | _ => rfl
    have h4 : cbsOf d.m (x :: os) = cbsOf d.m os := List.filterMap_cons_none (other_cb h1)
    rw [List.filterMap_cons_none h3, h4]
    refine ih ?_
    have := Obeys.right (a := [x]) (b := os) hf
    rwa [show cbsOf d.m [x] = [] from List.filterMap_cons_none (other_cb h1), List.append_nil] at this
  | @event mem ev os r rest mem' hh _ ih =>
    intro past hf
    have e1 : Obs.taken q d.m ev :: (os ++ .done d.m ev :: rest) = [.taken q d.m ev] ++ (os ++ ([.done d.m ev] ++ rest)) := by simp
    have t1 : Effects.takes d.m (.taken q d.m ev) = some ev := by simp [Effects.takes]
    rw [e1] at hf ⊢
    have f1 : Obeys d.m thr past (os ++ ([.done d.m ev] ++ rest)) := by
      have := hf.right
      rwa [show cbsOf d.m [Obs.taken q d.m ev] = [] from rfl, List.append_nil] at this
    have f2 : Obeys d.m thr (past ++ cbsOf d.m os) rest := by
      have := f1.right.right
      rwa [show cbsOf d.m [Obs.done d.m ev] = [] from rfl, List.append_nil] at this
    have g1 := handles_deed hh f1.left
    have g2 := ih f2
    rw [lst_handles hh] at g2
    have t2 : ([Obs.taken q d.m ev] ++ (os ++ ([Obs.done d.m ev] ++ rest))).filterMap (Effects.takes d.m) = ev :: rest.filterMap (Effects.takes d.m) := by
      rw [List.filterMap_append, List.filterMap_append, List.filterMap_append, Effects.takes_handles hh, List.filterMap_cons_some t1]; rfl
    rw [t2]
    simp only [Desc.deeds, g1, g2, cbs_append]
    rfl

end Determined

section
variable {env env' : Env} {c0 c c0' c' : Conf} {m : MId} {t : Tid} {pre tr pre' tr' : List (Tid × Obs)} {thr : List Cb → Option Exc}

/-- C83: between two moments at which no event of the machine is in processing, if nobody starts or stops the machine or replaces its listener, the
callbacks made and the state are a function of the state before, the events taken, and what user code throws. -/
theorem C83_determined (ha : Alone env m) (hi : Initial c0) (hr : ReachFrom env c0 c) (h : c.w.trace = pre ++ tr)
    (ht : t = env.workerOf m) (h0 : openEv t m pre = none) (h1 : openEv t m (pre ++ tr) = none)
    (hm : ∀ e ∈ tr, meddles m e.2 = false) (hthr : Obeys m thr [] (bare t (apiDepth t pre) tr)) :
    (cbsOf m (bare t (apiDepth t pre) tr), (⟨(c.w.mach m).cur, (c.w.mach m).ended⟩ : MSt)) =
      (env.desc m).deeds thr (machAt c0 m pre).lst.isSome [] (machAt c0 m pre).st (takenOf m tr) := by
  have he := C15_events (post := []) ha hi hr (by rw [h]; simp) ht h0 h1 hm
  have h2 := Determined.events_deeds (thr := thr) he (past := []) hthr
  have h3 := C71_all_events ha hi hr h ht h0 h1 hm
  have h4 := Effects.out_events he []
  rw [show (env.desc m).m = m from rfl] at h2 h4
  rw [outcomes, h4, List.map_nil, List.nil_append] at h3
  rw [h3] at h2
  rw [h2, show (⟨(c.w.mach m).cur, (c.w.mach m).ended⟩ : MSt) = (memOf c.w m).st from rfl, world_mem ha.priv hi hr, h]

/-- C83: two executions in which the machine is configured in the same way, is in the same state, takes the same events, and user code throws in
the same places: the callbacks are the same, and the state in the end. Whatever else there is in the programs, and however threads are scheduled. -/
theorem C83_same (ha : Alone env m) (hi : Initial c0) (hr : ReachFrom env c0 c) (h : c.w.trace = pre ++ tr)
    (h0 : openEv (env.workerOf m) m pre = none) (h1 : openEv (env.workerOf m) m (pre ++ tr) = none)
    (hm : ∀ e ∈ tr, meddles m e.2 = false) (hthr : Obeys m thr [] (bare (env.workerOf m) (apiDepth (env.workerOf m) pre) tr))
    (ha' : Alone env' m) (hi' : Initial c0') (hr' : ReachFrom env' c0' c') (h' : c'.w.trace = pre' ++ tr')
    (h0' : openEv (env'.workerOf m) m pre' = none) (h1' : openEv (env'.workerOf m) m (pre' ++ tr') = none)
    (hm' : ∀ e ∈ tr', meddles m e.2 = false) (hthr' : Obeys m thr [] (bare (env'.workerOf m) (apiDepth (env'.workerOf m) pre') tr'))
    (hd : env.desc m = env'.desc m) (hs : (machAt c0 m pre).st = (machAt c0' m pre').st)
    (hl : (machAt c0 m pre).lst.isSome = (machAt c0' m pre').lst.isSome) (he : takenOf m tr = takenOf m tr') :
    cbsOf m (bare (env.workerOf m) (apiDepth (env.workerOf m) pre) tr) = cbsOf m (bare (env'.workerOf m) (apiDepth (env'.workerOf m) pre') tr') ∧
    (c.w.mach m).cur = (c'.w.mach m).cur ∧ (c.w.mach m).ended = (c'.w.mach m).ended := by
  have e1 := C83_determined ha hi hr h rfl h0 h1 hm hthr
  have e2 := C83_determined ha' hi' hr' h' rfl h0' h1' hm' hthr'
  rw [← hd, ← hs, ← hl, ← he, ← e1] at e2
  simp only [Prod.mk.injEq, MSt.mk.injEq] at e2
  exact ⟨e2.1.symm, e2.2.1.symm, e2.2.2.symm⟩

/-- C83 at rest: what has been done is determined by the events accepted, in the order of their acceptance. -/
theorem C83_at_rest (ha : Alone env m) (hi : Initial c0) (hr : ReachFrom env c0 c) (hrest : c.AtRest env m)
    (h : c.w.trace = pre ++ tr) (h0 : openEv (env.workerOf m) m pre = none)
    (hm : ∀ e ∈ tr, meddles m e.2 = false) (hthr : Obeys m thr [] (bare (env.workerOf m) (apiDepth (env.workerOf m) pre) tr)) :
    (cbsOf m (bare (env.workerOf m) (apiDepth (env.workerOf m) pre) tr), (⟨(c.w.mach m).cur, (c.w.mach m).ended⟩ : MSt)) =
      (env.desc m).deeds thr (machAt c0 m pre).lst.isSome [] (machAt c0 m pre).st
        (((Spec.accepted (env.qm m) c.w.trace).drop (Spec.taken (env.qm m) pre).length).map Prod.fst) := by
  rw [C83_determined ha hi hr h rfl h0 (by rw [← h]; exact idle_open ha.priv hi hr (hrest.idle _)) hm hthr]
  have h1 := (C14_all_taken ⟨_, hi, hr⟩ (fun s hs => by rw [ha.priv.queue s hs]) hrest.idle hrest.tasks hrest.lost).2
  have h2 : Spec.taken (env.qm m) (pre ++ tr) = Spec.taken (env.qm m) pre ++ Spec.taken (env.qm m) tr := List.filterMap_append ..
  rw [← h1, takenOf_queue ha.priv hi hr h, h, h2, List.drop_left]

end

/-- A way to check `Obeys`. -/
def Determined.obeysB (m : MId) (thr : List Cb → Option Exc) : List Cb → List Obs → Bool
  | _, [] => true
  | past, .cbRet c r :: os => (cbMach c != some m || r == thr past) && obeysB m thr past os
  | past, o :: os => obeysB m thr (past ++ (cbOf m o).toList) os

theorem Determined.obeys_of {m : MId} {thr : List Cb → Option Exc} {past : List Cb} {os : List Obs} (h : obeysB m thr past os = true) :
    Obeys m thr past os := by
  induction os generalizing past with
  | nil => intro p c r q he; cases p <;> cases he
  | cons o os ih =>
    have key : (∀ c r, o = .cbRet c r → cbMach c = some m → r = thr past) ∧ obeysB m thr (past ++ (cbOf m o).toList) os = true := by
      cases o with
      | cbRet c r =>
        simp only [obeysB, Bool.and_eq_true, Bool.or_eq_true, bne_iff_ne, beq_iff_eq] at h
        refine ⟨fun c' r' he hc => ?_, by simpa [cbOf] using h.2⟩
        cases he
        rcases h.1 with h1 | h1
        · exact absurd hc h1
        · exact h1
      | _ => exact ⟨(fun _ _ he => by cases he), h⟩
    intro p c r q he hc
    cases p with
    | nil =>
      obtain ⟨rfl, _⟩ := List.cons.inj he
      simpa [cbsOf] using key.1 c r rfl hc
    | cons x p =>
      obtain ⟨rfl, he'⟩ := List.cons.inj he
      have := ih key.2 p c r q he' hc
      rw [this]
      cases hx : cbOf m o <;> simp [cbsOf, hx]

namespace Demo

/-- Entry actions of C throw. -/
def thrC (cs : List Cb) : Option Exc := match cs.getLast? with
  | some (.action _ .entry 3 0 _) => some (.user 6)
  | _ => none

/-- Events come one after the other. -/
def pool2a : Conf :=
  drive pool2 conf ([.begin 0 (client 0 [go, back])] ++ runN (.client 0) 100 ++ [.dispatch 0 0 0] ++ runN (.worker 0 0) 100 ++
    [.dispatch 0 1 0] ++ runN (.worker 0 1) 10)
/-- The second worker takes the second event before the first worker has changed the state. -/
def pool2b : Conf :=
  drive pool2 conf ([.begin 0 (client 0 [go, back])] ++ runN (.client 0) 100 ++ [.dispatch 0 0 0, .dispatch 0 1 0] ++
    runN (.worker 0 0) 5 ++ runN (.worker 0 1) 60 ++ runN (.worker 0 0) 60)

theorem pool2a_reach : ReachFrom pool2 conf pool2a := drive_reach _ _ _
theorem pool2b_reach : ReachFrom pool2 conf pool2b := drive_reach _ _ _

theorem pool2a_rest : pool2a.AtRest pool2 0 where
  idle := by
    unfold pool2a
    exact idle_of (fun _ => rfl) [.client 0, .worker 0 0, .worker 0 1] (by decide +kernel) (by decide +kernel)
  tasks := fun s m h => by
    rw [show pool2a.w.tasks (pool2.strat (pool2.mach 0).strat).exec = [] by decide +kernel] at h; cases h
  lost := nothing_lost (by decide +kernel)

theorem pool2b_rest : pool2b.AtRest pool2 0 where
  idle := by
    unfold pool2b
    exact idle_of (fun _ => rfl) [.client 0, .worker 0 0, .worker 0 1] (by decide +kernel) (by decide +kernel)
  tasks := fun s m h => by
    rw [show pool2b.w.tasks (pool2.strat (pool2.mach 0).strat).exec = [] by decide +kernel] at h; cases h
  lost := nothing_lost (by decide +kernel)

/-- The events of `rested`, fired by one client. -/
def restedAlone : Conf := worked (env acts) [go, back, stay, go] 300

theorem restedAlone_reach : ReachFrom (env acts) (conf true) restedAlone := drive_reach _ _ _

end Demo

/-- The run of `C71_effects`: an entry action of the final state C throws. -/
example : (cbsOf 0 (bare Demo.w0 (apiDepth Demo.w0 (Demo.failsMore.w.trace.take 13)) (Demo.failsMore.w.trace.drop 13)),
    (⟨(Demo.failsMore.w.mach 0).cur, (Demo.failsMore.w.mach 0).ended⟩ : MSt)) =
    ((Demo.env Demo.badEntry).desc 0).deeds Demo.thrC true [] ⟨some Demo.A, false⟩ [Demo.quit, Demo.go, Demo.quit] := by
  have h := C83_determined (thr := Demo.thrC) (Demo.alone _ _ _) (Demo.conf_initial true) Demo.failsMore_reach (pre := Demo.failsMore.w.trace.take 13)
    (tr := Demo.failsMore.w.trace.drop 13) (by decide +kernel) (t := Demo.w0) rfl (by decide +kernel) (by decide +kernel)
    (fun e he => by
      have := (by decide +kernel : (Demo.failsMore.w.trace.drop 13).all (fun e => !meddles 0 e.2) = true)
      simpa using List.all_eq_true.1 this _ he)
    (Determined.obeys_of (by decide +kernel))
  exact h.trans (by decide +kernel)

/-- What this is. -/
example : ((Demo.env Demo.badEntry).desc 0).deeds Demo.thrC true [] ⟨some Demo.A, false⟩ [Demo.quit, Demo.go] =
    ([.begin 0 Demo.A Demo.quit Demo.C, .action 0 .entry 3 0 Demo.quit, .flowEx 0 Demo.quit (.user 6), .flowEx 0 Demo.go .npe], ⟨some Demo.C, false⟩) := by
  decide +kernel

/-- C83_same: the run of C56 with two clients, and a run in which one client fires the same events. -/
example : cbsOf 0 (bare Demo.w0 (apiDepth Demo.w0 (Demo.rested.w.trace.take 9)) (Demo.rested.w.trace.drop 9)) =
    cbsOf 0 (bare Demo.w0 (apiDepth Demo.w0 (Demo.restedAlone.w.trace.take 9)) (Demo.restedAlone.w.trace.drop 9)) ∧
    (Demo.rested.w.mach 0).cur = (Demo.restedAlone.w.mach 0).cur ∧ (Demo.rested.w.mach 0).ended = (Demo.restedAlone.w.mach 0).ended := by
  have h := C83_same (thr := fun _ => none) (Demo.alone Demo.acts 0 false) (Demo.conf_initial true) Demo.rested_reach
    (pre := Demo.rested.w.trace.take 9) (tr := Demo.rested.w.trace.drop 9) (by decide +kernel) (by decide +kernel) (by decide +kernel)
    (fun e he => by
      have := (by decide +kernel : (Demo.rested.w.trace.drop 9).all (fun e => !meddles 0 e.2) = true)
      simpa using List.all_eq_true.1 this _ he)
    (Determined.obeys_of (by decide +kernel))
    (Demo.alone Demo.acts 0 false) (Demo.conf_initial true) Demo.restedAlone_reach
    (pre' := Demo.restedAlone.w.trace.take 9) (tr' := Demo.restedAlone.w.trace.drop 9) (by decide +kernel) (by decide +kernel) (by decide +kernel)
    (fun e he => by
      have := (by decide +kernel : (Demo.restedAlone.w.trace.drop 9).all (fun e => !meddles 0 e.2) = true)
      simpa using List.all_eq_true.1 this _ he)
    (Determined.obeys_of (by decide +kernel)) rfl (by decide +kernel) (by decide +kernel) (by decide +kernel)
  exact h

/-- The histories are not the same. -/
example : Demo.rested.w.trace ≠ Demo.restedAlone.w.trace := by decide +kernel

/-- C83_at_rest. -/
example : (cbsOf 0 (bare Demo.w0 (apiDepth Demo.w0 (Demo.rested.w.trace.take 9)) (Demo.rested.w.trace.drop 9)),
    (⟨(Demo.rested.w.mach 0).cur, (Demo.rested.w.mach 0).ended⟩ : MSt)) =
    ((Demo.env Demo.acts).desc 0).deeds (fun _ => none) true [] ⟨some Demo.A, false⟩ [Demo.go, Demo.back, Demo.stay, Demo.go] := by
  have h := C83_at_rest (thr := fun _ => none) (Demo.alone Demo.acts 0 false) (Demo.conf_initial true) Demo.rested_reach Demo.rested_rest
    (pre := Demo.rested.w.trace.take 9) (tr := Demo.rested.w.trace.drop 9) (by decide +kernel) (by decide +kernel)
    (fun e he => by
      have := (by decide +kernel : (Demo.rested.w.trace.drop 9).all (fun e => !meddles 0 e.2) = true)
      simpa using List.all_eq_true.1 this _ he)
    (Determined.obeys_of (by decide +kernel))
  exact h.trans (by decide +kernel)

/-- Not so for executors with several threads: there is a program whose only client fires `go` and `back`, both are accepted in this order, everything
is processed, no user code throws, and the machine ends up in one state or in another. -/
theorem C83_negation_pool : ¬ ∀ (env : Env) (c0 c c' : Conf) (m : MId), Private env m → Initial c0 → ReachFrom env c0 c → ReachFrom env c0 c' →
    c.AtRest env m → c'.AtRest env m → (∀ t k x, (t, Obs.cbRet k (some x)) ∉ c.w.trace ∧ (t, Obs.cbRet k (some x)) ∉ c'.w.trace) →
    accepted (env.qm m) c.w.trace = accepted (env.qm m) c'.w.trace → (c.w.mach m).cur = (c'.w.mach m).cur := by
  intro h
  have hno : ∀ {tr : List (Tid × Obs)}, tr.all (fun e => match e.2 with | .cbRet _ (some _) => false | _ => true) = true →
      ∀ t k x, (t, Obs.cbRet k (some x)) ∉ tr := fun hall t k x hm => absurd (List.all_eq_true.1 hall _ hm) (by simp)
  have := h Demo.pool2 Demo.conf Demo.pool2a Demo.pool2b 0 ⟨fun _ h => h, fun _ h => h⟩ (Demo.conf_initial false) Demo.pool2a_reach Demo.pool2b_reach
    Demo.pool2a_rest Demo.pool2b_rest (fun t k x => ⟨hno (by decide +kernel) t k x, hno (by decide +kernel) t k x⟩) (by decide +kernel)
  exact absurd this (by decide +kernel)

end Verif
