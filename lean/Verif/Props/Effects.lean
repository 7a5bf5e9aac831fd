import Verif.Spec.Effects
import Verif.Props.Events
/-
C71: the state of a machine when user code throws, and machines that get stuck.
-/

namespace Verif
open Spec
open Spec.Mon
open Spec.Calls (userObs)

namespace Effects
variable {d : Desc} {m : MId} {ev : Ev}

def noFlow (c : Cb) : Prop := ∀ m ev x, c ≠ .flowEx m ev x

theorem out_shown {cs : List Cb} {s} : (shown cs).foldl (outStep m) s = s := by
  induction cs generalizing s with
  | nil => rfl
  | cons c cs ih =>
    rw [shown_cons, List.foldl_cons, List.foldl_cons, ih]
    obtain ⟨r, l⟩ := s
    cases c <;> rfl

theorem out_report {x : Exc} {os : List Obs} {r : Option Exc} {s} (h : Report m ev x os r) : os.foldl (outStep m) s = s := by
  obtain ⟨r, l⟩ := s
  cases h with
  | told _ => rfl
  | untold _ => rfl

theorem out_threw {c : Cb} {x : Exc} {l} (hc : noFlow c) :
    [Obs.cb c, .cbRet c (some x)].foldl (outStep m) (some (ev, none), l) = (some (ev, some c), l) := by
  cases c <;> first | rfl | exact absurd rfl (hc _ _ _)

theorem out_change {b : St} {s} : (d.change b).foldl (outStep m) s = s := by obtain ⟨r, l⟩ := s; rfl

theorem out_ending {b : St} {s} : (d.ending b).foldl (outStep m) s = s := by
  unfold Desc.ending; split <;> (obtain ⟨r, l⟩ := s; rfl)

theorem out_failed {cs : List Cb} {c : Cb} {x : Exc} {os : List Obs} {r : Option Exc} {l} (hc : noFlow c) (h : Report m ev x os r) :
    (shown cs ++ [Obs.cb c, Obs.cbRet c (some x)] ++ os).foldl (outStep m) (some (ev, none), l) = (some (ev, some c), l) := by
  rw [List.foldl_append, List.foldl_append, out_shown, out_threw hc, out_report h]

theorem reaction_next {x : MSt} (h : ∀ b, d.reaction x.cur ev ≠ .goes b) : d.next x ev = x := by
  unfold Desc.next
  split
  · rfl
  · cases hx : x.cur with
    | none => rfl
    | some a =>
      simp only [Desc.reaction, hx] at h ⊢
      cases hr : d.table.row? (some a) with
      | none => rfl
      | some row =>
        simp only [hr] at h ⊢
        cases ht : row.target (some ev.key) with
        | none => rfl
        | some b =>
          simp only [ht] at h ⊢
          split
          · rfl
          next hb => rw [if_neg hb] at h; exact absurd rfl (h b)

theorem reaction_goes {x : MSt} {b : St} (h : d.reaction x.cur ev = .goes b) (he : x.ended = false) :
    d.next x ev = if b.name = resEnd then ⟨some b, true⟩ else if d.final b then ⟨some d.endSt, true⟩ else ⟨some b, false⟩ := by
  unfold Desc.next
  rw [he]
  cases hx : x.cur with
  | none => rw [hx] at h; simp [Desc.reaction] at h
  | some a =>
    simp only [Desc.reaction, hx] at h ⊢
    cases hr : d.table.row? (some a) with
    | none => rw [hr] at h; cases h
    | some row =>
      simp only [hr] at h ⊢
      cases ht : row.target (some ev.key) with
      | none => rw [ht] at h; cases h
      | some b' =>
        simp only [ht] at h ⊢
        split at h
        · cases h
        next hb => cases h; simp [hb]

theorem effect_still {x : MSt} (h : ∀ b, d.reaction x.cur ev ≠ .goes b) (c : Option Cb) : d.effect x ev c = x := by
  unfold Desc.effect
  cases c with
  | none => exact reaction_next h
  | some c =>
    simp only
    split
    next hb => exact absurd hb (h _)
    · rfl

theorem before_early {lst : Bool} {a b : St} {c : Cb} (h : c ∈ d.before lst a ev b) : noFlow c ∧ late c = false := by
  rcases not_flow_before h with ⟨_, _, rfl⟩ | ⟨_, _, rfl⟩ <;> exact ⟨fun _ _ _ h => (by cases h), rfl⟩

theorem after_late {lst : Bool} {a b : St} {c : Cb} (h : c ∈ d.afterwards lst a ev b) : noFlow c ∧ late c = true := by
  rcases not_flow_after h with ⟨_, _, rfl⟩ | ⟨_, _, rfl⟩ <;> exact ⟨fun _ _ _ h => (by cases h), rfl⟩

/-- The outcome of one event. -/
theorem handles_out {mem : Mem} {os : List Obs} {r : Option Exc} (h : Handles d mem ev os r) :
    ∃ c, (∀ l, os.foldl (outStep d.m) (some (ev, none), l) = (some (ev, c), l)) ∧
      (os.foldl (Mem.step d.m) mem).st = d.effect mem.st ev c := by
  have notify : ∀ {cs : List Cb} {os : List Obs}, Notify d.m ev cs os r → (∀ c ∈ cs, noFlow c) →
      (∀ b, d.reaction mem.st.cur ev ≠ .goes b) → ∃ c, (∀ l, os.foldl (outStep d.m) (some (ev, none), l) = (some (ev, c), l)) ∧
      (os.foldl (Mem.step d.m) mem).st = d.effect mem.st ev c := by
    intro cs os hn hcs hb
    rw [mem_notify mem hn]
    cases hn with
    | completed => exact ⟨none, fun l => out_shown, (effect_still hb _).symm⟩
    | failed hc hr =>
      exact ⟨some _, fun l => out_failed (hcs _ (by rw [hc]; simp)) hr, (effect_still hb _).symm⟩
  cases h with
  | over he => exact ⟨none, fun l => rfl, by simp [Desc.effect, Desc.next, Mem.st, he]⟩
  | @moves a b _ _ he hc hb ht =>
    have hb' : d.reaction mem.st.cur ev = .goes b := by rw [show mem.st.cur = some a from hc]; exact hb
    cases ht with
    | completed =>
      refine ⟨none, fun l => ?_, ?_⟩
      · simp only [List.foldl_append, out_shown, out_change, out_ending]
      · rw [Transition.mem_completed, Desc.effect, reaction_goes hb' he]
        by_cases h1 : b.name = resEnd
        · simp [h1, Mem.st]
        · by_cases h2 : d.final b = true
          · simp [h1, h2, Mem.st]
          · simp [h1, h2, Mem.st]
    | failedBefore h1 h2 =>
      have h3 := before_early (d := d) (lst := mem.lst.isSome) (a := a) (b := b) (ev := ev) (by rw [h1]; exact List.mem_append_right _ List.mem_cons_self)
      refine ⟨some _, fun l => out_failed h3.1 h2, ?_⟩
      rw [mem_failed mem h2]
      simp [Desc.effect, h3.2]
    | failedAfter h1 h2 =>
      rename_i cs k cs' x os
      have h3 := after_late (d := d) (lst := mem.lst.isSome) (a := a) (b := b) (ev := ev) (by rw [h1]; exact List.mem_append_right _ List.mem_cons_self)
      refine ⟨some k, fun l => ?_, ?_⟩
      · rw [List.append_assoc, List.append_assoc, List.append_assoc, List.foldl_append, List.foldl_append, out_shown, out_change,
          ← List.append_assoc]
        exact out_failed h3.1 h2
      · rw [List.append_assoc, List.append_assoc, List.append_assoc, List.foldl_append, List.foldl_append, ← List.append_assoc, mem_failed _ h2,
          step_cbs mem quiet_shown, mem_change]
        simp only [Desc.effect, h3.2, hb']; rfl
  | stays he hc hb hn =>
    refine notify hn (fun c hcs => ?_) (fun b hg => ?_)
    · split at hcs
      · simp at hcs; rcases hcs with rfl | rfl <;> exact fun _ _ _ h => by cases h
      · cases hcs
    · rw [show mem.st.cur = _ from hc, hb] at hg; cases hg
  | unmapped he hc hb hn =>
    refine notify hn (fun c hcs => ?_) (fun b hg => ?_)
    · simp at hcs; subst hcs; exact fun _ _ _ h => by cases h
    · rw [show mem.st.cur = _ from hc, hb] at hg; cases hg
  | nowhere he hb =>
    refine ⟨none, fun l => rfl, ?_⟩
    rw [effect_still (x := mem.st) (fun b hg => by rw [show mem.st.cur = mem.cur from rfl, hb] at hg; cases hg)]
    rfl

theorem out_other {x : Obs} {l} (h1 : concerns m x = false) (h2 : begins m x = false) : outStep m (none, l) x = (none, l) := by
  cases x with
  | taken q m' ev => simp only [begins, decide_eq_false_iff_not] at h2; simp [outStep, h2]
  | cbRet c r => cases c <;> cases r <;> rfl
  | _ => rfl

theorem out_nil {q : QId} {mem mem' : Mem} {os : List Obs} (h : Events d q mem os mem') :
    ∀ l, ∃ l', os.foldl (outStep d.m) (none, l) = (none, l ++ l') ∧ mem'.st = d.lead mem.st l' := by
  induction h with
  | nil => exact fun l => ⟨[], by simp, rfl⟩
  | other h1 h2 _ ih =>
    intro l
    rw [List.foldl_cons, out_other h1 h2]
    exact ih l
  | event hh _ ih =>
    intro l
    rename_i mem0 ev os r rest mem1 hrest
    obtain ⟨c, h1, h2⟩ := handles_out hh
    obtain ⟨l', h3, h4⟩ := ih (l ++ [(ev, c)])
    refine ⟨(ev, c) :: l', ?_, ?_⟩
    · rw [List.foldl_cons, show outStep d.m (none, l) (.taken q d.m ev) = (some (ev, none), l) by simp [outStep], List.foldl_append, h1,
        List.foldl_cons, show outStep d.m (some (ev, c), l) (.done d.m ev) = (none, l ++ [(ev, c)]) by simp [outStep], h3]
      simp
    · rw [h4, h2]; rfl

/-- An event of machine `m` is taken. -/
def takes (m : MId) : Obs → Option Ev
  | .taken _ m' ev => if m' = m then some ev else none
  | _ => none

theorem takes_shown {cs : List Cb} : (shown cs).filterMap (takes m) = [] := by
  induction cs with
  | nil => rfl
  | cons c cs ih => rw [shown_cons]; simpa [takes] using ih

theorem takes_report {m' : MId} {x : Exc} {os : List Obs} {r : Option Exc} (h : Report m' ev x os r) : os.filterMap (takes m) = [] := by
  cases h <;> rfl

theorem takes_notify {m' : MId} {cs : List Cb} {os : List Obs} {r : Option Exc} (h : Notify m' ev cs os r) :
    os.filterMap (takes m) = [] := by
  cases h with
  | completed => exact takes_shown
  | failed _ h => simp only [List.filterMap_append, takes_shown, takes_report h]; rfl

theorem takes_handles {mem : Mem} {os : List Obs} {r : Option Exc} (h : Handles d mem ev os r) : os.filterMap (takes m) = [] := by
  have hc : ∀ b, (d.change b).filterMap (takes m) = [] := fun _ => rfl
  cases h with
  | over _ => rfl
  | moves _ _ _ ht =>
    cases ht with
    | completed =>
      simp only [List.filterMap_append, takes_shown, hc, Desc.ending]
      split <;> rfl
    | failedBefore _ h => simp only [List.filterMap_append, takes_shown, takes_report h]; rfl
    | failedAfter _ h => simp only [List.filterMap_append, takes_shown, takes_report h, hc]; rfl
  | stays _ _ _ h => exact takes_notify h
  | unmapped _ _ _ h => exact takes_notify h
  | nowhere _ _ => rfl

theorem out_events {q : QId} {mem mem' : Mem} {os : List Obs} (h : Events d q mem os mem') : ∀ l,
    (os.foldl (outStep d.m) (none, l)).2.map Prod.fst = l.map Prod.fst ++ os.filterMap (takes d.m) := by
  induction h with
  | nil => intro l; simp
  | other h1 h2 _ ih =>
    intro l
    rename_i x os mem' _
    rw [List.foldl_cons, out_other h1 h2, ih]
    have : takes d.m x = none := by
      cases x with
      | taken q m' ev => simp only [begins, decide_eq_false_iff_not] at h2; simp [takes, h2]
      | _ => rfl
    simp [this]
  | event hh _ ih =>
    intro l
    rename_i mem0 ev os r rest mem1 hrest
    obtain ⟨c, h1, h2⟩ := handles_out hh
    rw [List.foldl_cons, show outStep d.m (none, l) (.taken q d.m ev) = (some (ev, none), l) by simp [outStep], List.foldl_append, h1,
        List.foldl_cons, show outStep d.m (some (ev, c), l) (.done d.m ev) = (none, l ++ [(ev, c)]) by simp [outStep], ih]
    simp only [List.map_append, List.map_cons, List.map_nil, List.filterMap_cons, List.filterMap_append, takes_handles hh]
    simp [takes]

theorem takes_bare {t u : Tid} {x : Obs} {n : Nat} {tr : List (Tid × Obs)} :
    (bare t n ((u, x) :: tr)).filterMap (takes m) =
      (if u = t ∧ n = 0 then (takes m x).toList else []) ++ (bare t (depthStep t n (u, x)) tr).filterMap (takes m) := by
  by_cases hu : u = t
  · subst hu
    have hn : n = 0 ∨ 0 < n := by omega
    cases x <;> rcases hn with rfl | hn <;>
      simp [bare, depthStep, takes, userObs, Nat.ne_of_gt, List.filterMap_cons, *] <;> (repeat' split) <;> simp_all
  · cases x <;> simp [bare, depthStep, hu]

end Effects

section
variable {env : Env} {c0 c : Conf} {m : MId} {t : Tid} {pre tr : List (Tid × Obs)}

/-- C71: between two moments at which no event of the machine is in processing, if nobody starts or stops the machine or replaces its
listener, the state of the machine is determined by the events taken and by which callback of an event threw, if one did: a
callback before the change of state leaves the state as it was, one after it leaves the machine in the target state, even if
that is final, without ending it. -/
theorem C71_effects (ha : Alone env m) (hi : Initial c0) (hr : ReachFrom env c0 c) (h : c.w.trace = pre ++ tr)
    (ht : t = env.workerOf m) (h0 : openEv t m pre = none) (h1 : openEv t m (pre ++ tr) = none)
    (hm : ∀ e ∈ tr, meddles m e.2 = false) :
    (⟨(c.w.mach m).cur, (c.w.mach m).ended⟩ : MSt) =
      (env.desc m).lead (machAt c0 m pre).st (outcomes m (bare t (apiDepth t pre) tr)) := by
  have he := C15_events (post := []) ha hi hr (by rw [h]; simp) ht h0 h1 hm
  obtain ⟨l', h2, h3⟩ := Effects.out_nil he []
  rw [show (⟨(c.w.mach m).cur, (c.w.mach m).ended⟩ : MSt) = (memOf c.w m).st from rfl, world_mem ha.priv hi hr, h, h3]
  unfold outcomes
  rw [show (env.desc m).m = m from rfl] at h2
  rw [h2]; rfl

/-- The events with outcomes are the events taken. -/
theorem C71_all_events (ha : Alone env m) (hi : Initial c0) (hr : ReachFrom env c0 c) (h : c.w.trace = pre ++ tr)
    (ht : t = env.workerOf m) (h0 : openEv t m pre = none) (h1 : openEv t m (pre ++ tr) = none)
    (hm : ∀ e ∈ tr, meddles m e.2 = false) :
    (outcomes m (bare t (apiDepth t pre) tr)).map Prod.fst = takenOf m tr := by
  have he := C15_events (post := []) ha hi hr (by rw [h]; simp) ht h0 h1 hm
  have h2 := Effects.out_events he []
  rw [show (env.desc m).m = m from rfl] at h2
  rw [outcomes, h2, List.map_nil, List.nil_append]
  subst ht
  clear he h0 h1 h2 hm
  induction tr generalizing pre with
  | nil => rfl
  | cons e tr ih =>
    have ih := ih (pre := pre ++ [e]) (by rw [h]; simp)
    have hd : apiDepth (env.workerOf m) (pre ++ [e]) = depthStep (env.workerOf m) (apiDepth (env.workerOf m) pre) e := by
      simp [apiDepth, List.foldl_append]
    rw [hd] at ih
    obtain ⟨u, x⟩ := e
    rw [Effects.takes_bare, ih]
    have : takenOf m ((u, x) :: tr) = (Effects.takes m x).toList ++ takenOf m tr := by
      cases x with
      | taken q m' ev => by_cases hm : m' = m <;> simp [takenOf, Effects.takes, hm]
      | _ => rfl
    rw [this]
    congr 1
    cases hx : Effects.takes m x with
    | none => simp
    | some ev =>
      cases x with
      | taken q m' ev' =>
        simp only [Effects.takes, Option.ite_none_right_eq_some, Option.some.injEq] at hx
        obtain ⟨rfl, rfl⟩ := hx
        have hu : u = env.workerOf m' := taken_worker ha hi hr (t := u) (q := q) (ev := ev') (by rw [h]; simp)
        obtain ⟨g, h1, _, _, h2, _⟩ := history_open ha.priv hi hr u h
        obtain ⟨_, g2, h3, _, h4, _⟩ := at_taken ha.priv hi hr h
        rw [h1] at h3; cases h3
        rw [h4, hu] at h2
        rw [if_pos ⟨hu, h2.symm⟩]
      | _ => cases hx

/-- C71: a machine that is in a state which no event leaves, and has not ended, stays there, and does not end, until somebody calls
`start()` or `stop()`, whatever happens. -/
theorem C71_stuck (ha : Alone env m) (hi : Initial c0) (hr : ReachFrom env c0 c) (h : c.w.trace = pre ++ tr)
    (ht : t = env.workerOf m) (h0 : openEv t m pre = none) (h1 : openEv t m (pre ++ tr) = none)
    (hm : ∀ e ∈ tr, meddles m e.2 = false) {s : St} (hs : (machAt c0 m pre).st = ⟨some s, false⟩)
    (hno : ∀ ev b, (env.desc m).reaction (some s) ev ≠ .goes b) :
    (c.w.mach m).cur = some s ∧ (c.w.mach m).ended = false := by
  have h2 := C71_effects ha hi hr h ht h0 h1 hm
  rw [hs] at h2
  have : ∀ l : List (Ev × Option Cb), (env.desc m).lead ⟨some s, false⟩ l = ⟨some s, false⟩ := by
    intro l
    induction l with
    | nil => rfl
    | cons e l ih => rw [Desc.lead, List.foldl_cons, Effects.effect_still (hno e.1)]; exact ih
  rw [this] at h2
  exact ⟨congrArg MSt.cur h2, congrArg MSt.ended h2⟩

/-- C71, conversely: a machine that is in a final state without having ended, and was not so before, got there by an event during
which an entry action or the end listener threw. -/
theorem C71_cause (ha : Alone env m) (hi : Initial c0) (hr : ReachFrom env c0 c) (h : c.w.trace = pre ++ tr)
    (ht : t = env.workerOf m) (h0 : openEv t m pre = none) (h1 : openEv t m (pre ++ tr) = none)
    (hm : ∀ e ∈ tr, meddles m e.2 = false)
    (hpre : ∀ s, (machAt c0 m pre).st = ⟨some s, false⟩ → (env.desc m).final s = false)
    {s : St} (hs : (c.w.mach m).cur = some s) (he : (c.w.mach m).ended = false) (hf : (env.desc m).final s = true) :
    ∃ ev k, (ev, some k) ∈ outcomes m (bare t (apiDepth t pre) tr) ∧ late k = true := by
  refine Classical.byContradiction fun hno => ?_
  have h2 := C71_effects ha hi hr h ht h0 h1 hm
  rw [hs, he] at h2
  have hq : ∀ e ∈ outcomes m (bare t (apiDepth t pre) tr), ∀ k, e.2 = some k → late k = false := by
    intro e hin k hk
    cases hl : late k with
    | false => rfl
    | true => exact absurd ⟨e.1, k, by rw [← hk]; exact hin, hl⟩ hno
  generalize outcomes m (bare t (apiDepth t pre) tr) = l at h2 hq
  generalize (machAt c0 m pre).st = x at h2 hpre
  clear hno h hs he h0 h1 hm
  induction l generalizing x with
  | nil => rw [hpre s h2.symm] at hf; cases hf
  | cons e l ih =>
    refine ih (fun e' he' => hq e' (List.mem_cons_of_mem _ he')) ((env.desc m).effect x e.1 e.2) h2 (fun s' hs' => ?_)
    have hstill : (env.desc m).effect x e.1 e.2 = x → (env.desc m).final s' = false := fun hx => hpre s' (hx ▸ hs')
    cases hk : e.2 with
    | some k =>
      refine hstill ?_
      simp [Desc.effect, hk, hq e List.mem_cons_self k hk]
    | none =>
      rw [hk] at hs'
      by_cases hg : ∃ b, (env.desc m).reaction x.cur e.1 = .goes b
      · obtain ⟨b, hg⟩ := hg
        cases hxe : x.ended with
        | true => refine hstill ?_; simp [Desc.effect, Desc.next, hk, hxe]
        | false =>
          rw [Desc.effect, Effects.reaction_goes hg hxe] at hs'
          split at hs'
          · simp at hs'
          · split at hs'
            · simp at hs'
            next hfb => simp only [MSt.mk.injEq, Option.some.injEq, and_true] at hs'; subst hs'; simpa using hfb
      · exact hstill (Effects.effect_still (fun b hb => hg ⟨b, hb⟩) _)

/-- No event leaves a state that was never configured. -/
theorem nowhere_of {d : Desc} {s : St} (h : d.table.row? (some s) = none) (ev : Ev) : d.reaction (some s) ev = .nowhere := by
  unfold Desc.reaction; simp only [h]

end

namespace Demo

/-- The entry action of a final state has thrown. -/
theorem failsAfter_st : (machAt (conf true) 0 failsAfter.w.trace).st = ⟨some C, false⟩ := by decide +kernel

/-- More events are fired then. -/
def failsMore : Conf := worked (env badEntry) [quit, go, quit]

theorem failsMore_reach : ReachFrom (env badEntry) (conf true) failsMore := drive_reach _ _ _

end Demo

/-- The hypotheses hold in a run in which the entry action of a final state throws and further events are fired. -/
example : (⟨(Demo.failsMore.w.mach 0).cur, (Demo.failsMore.w.mach 0).ended⟩ : MSt) =
    ((Demo.env Demo.badEntry).desc 0).lead ⟨some Demo.A, false⟩
      [(Demo.quit, some (.action 0 .entry 3 0 Demo.quit)), (Demo.go, none), (Demo.quit, none)] := by
  have h := C71_effects (Demo.alone _ _ _) (Demo.conf_initial true) Demo.failsMore_reach (pre := Demo.failsMore.w.trace.take 13)
    (tr := Demo.failsMore.w.trace.drop 13) (by decide +kernel) (t := Demo.w0) rfl (by decide +kernel) (by decide +kernel)
    (fun e he => by
      have := (by decide +kernel : (Demo.failsMore.w.trace.drop 13).all (fun e => !meddles 0 e.2) = true)
      simpa using List.all_eq_true.1 this _ he)
  exact h.trans (by decide +kernel)

example : ∃ ev k, (ev, some k) ∈ outcomes 0 (bare Demo.w0 (apiDepth Demo.w0 (Demo.failsMore.w.trace.take 13)) (Demo.failsMore.w.trace.drop 13)) ∧
    late k = true :=
  C71_cause (Demo.alone _ _ _) (Demo.conf_initial true) Demo.failsMore_reach (pre := Demo.failsMore.w.trace.take 13)
    (tr := Demo.failsMore.w.trace.drop 13) (by decide +kernel) (t := Demo.w0) rfl (by decide +kernel) (by decide +kernel)
    (fun e he => by
      have := (by decide +kernel : (Demo.failsMore.w.trace.drop 13).all (fun e => !meddles 0 e.2) = true)
      simpa using List.all_eq_true.1 this _ he)
    (fun s hs => by
      rw [show (machAt (Demo.conf true) 0 (Demo.failsMore.w.trace.take 13)).st = ⟨some Demo.A, false⟩ by decide +kernel] at hs
      cases hs; decide +kernel)
    (s := Demo.C) (by decide +kernel) (by decide +kernel) (by decide +kernel)

/-- The claim that a machine whose transition into a final state has been carried out ends is false: if an entry action of the state
throws, the machine is in the final state, it has not ended, and it will not end until somebody calls `start()` or `stop()`,
whatever events are fired. -/
theorem C71_negation : ∃ env c0 c, ∃ m : MId, ∃ s : St, Alone env m ∧ Initial c0 ∧ ReachFrom env c0 c ∧
    openEv (env.workerOf m) m c.w.trace = none ∧ (env.desc m).final s = true ∧
    (c.w.mach m).cur = some s ∧ (c.w.mach m).ended = false ∧
    ∀ c' tr, ReachFrom env c c' → c'.w.trace = c.w.trace ++ tr → (∀ e ∈ tr, meddles m e.2 = false) →
      openEv (env.workerOf m) m c'.w.trace = none → (c'.w.mach m).cur = some s ∧ (c'.w.mach m).ended = false := by
  refine ⟨Demo.env Demo.badEntry, Demo.conf true, Demo.failsAfter, 0, Demo.C, Demo.alone _ _ _, Demo.conf_initial true,
    Demo.failsAfter_reach, (by decide +kernel), (by decide +kernel), (by decide +kernel), (by decide +kernel), ?_⟩
  intro c' tr hr h hm ho
  exact C71_stuck (Demo.alone _ _ _) (Demo.conf_initial true) (Demo.failsAfter_reach.trans hr) h rfl (by decide +kernel)
    (by rw [← h]; exact ho) hm Demo.failsAfter_st (fun ev b hg => by rw [nowhere_of (by decide +kernel)] at hg; cases hg)

end Verif
