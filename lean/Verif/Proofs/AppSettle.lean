import Verif.Proofs.SettleStep
import Verif.Props.Service
/-
The lifecycle of an app goes on: what happens after a state of its machine has been entered.
-/

namespace Verif.Settle
open Spec (Run Desc MSt bare meddles openEv openStep apiDepth takenOf IsEvent accepted taken)
open Spec.App (ofThread visible Script StopScript fires phased)
open Spec.Mon
open Svc (Execution)

variable {env : Env} {r : Run env} {a : App}

theorem execution (hw : ∀ i x, r.pick i = some x → x.within a.Outside) (i : Nat) : Execution a env (r.conf 0) (r.conf i) := by
  induction i with
  | zero => exact ⟨[], by simp, rfl⟩
  | succ i ih =>
    have := r.next i
    cases hp : r.pick i with
    | none => rw [hp] at this; simp only at this; rw [this]; exact ih
    | some x =>
      rw [hp] at this
      obtain ⟨xs, h1, hx⟩ := ih
      refine ⟨xs ++ [x], ?_, ?_⟩
      · intro y hy
        rcases List.mem_append.1 hy with hy | hy
        · exact h1 y hy
        · rw [List.mem_singleton.1 hy]; exact hw i x hp
      · rw [runs_append, hx]; simp [runs, this]

/-- The app's machine is looked after, and from the history `P` on its user code does not throw, and it is not started or stopped by
others. -/
structure Cared (a : App) (r : Run env) (P : List (Tid × Obs)) : Prop where
  wired : a.Wired env
  within : ∀ i x, r.pick i = some x → x.within a.Outside
  latch : (r.conf 0).w.latch a.latch ≠ 0
  served : Served r a.m
  unbounded : (env.strat (env.mach a.m).strat).maxQ ≤ 0
  all : (env.strat (env.mach a.m).strat).dropDup = false
  started : ∃ u, (u, Obs.started a.m) ∈ P
  rest : openEv (env.workerOf a.m) a.m P = none
  smooth : Smooth r a.m P

theorem clause_of (ha : a.Wired env) {s b : St} {ev : Ev} (hs : s ∈ a.states) (hg : (env.desc a.m).reaction (some s) ev = .goes b) :
    ∃ c ∈ a.clauses, c.1 = s ∧ c.2.1.key = ev.key ∧ b = c.2.2.getD (env.mach a.m).res.endSt := by
  refine Classical.byContradiction fun hn => ?_
  by_cases hc : ∃ c ∈ a.clauses, c.1 = s ∧ c.2.1.key = ev.key
  · obtain ⟨c, h1, rfl, h3⟩ := hc
    rw [ha.goes h1 h3.symm] at hg
    cases hg
    exact hn ⟨c, h1, rfl, h3, rfl⟩
  · rw [ha.unmappedIn hs fun c h1 h2 h3 => hc ⟨c, h1, h2, h3⟩] at hg
    cases hg

theorem bare_sublist (t : Tid) (d : Nat) (tr : List (Tid × Obs)) : List.Sublist (bare t d tr) (ofThread t tr) := by
  induction tr generalizing d with
  | nil => exact List.Sublist.slnil
  | cons e tr ih =>
    obtain ⟨u, o⟩ := e
    by_cases hu : u = t
    · subst hu
      have h1 : ofThread u ((u, o) :: tr) = o :: ofThread u tr := by simp [ofThread]
      rw [h1]
      have h2 : ∀ d, List.Sublist (bare u d tr) (o :: ofThread u tr) := fun d => (ih d).cons _
      have h3 : List.Sublist (o :: bare u d tr) (o :: ofThread u tr) := (ih d).cons_cons _
      cases o <;> simp only [bare, ne_eq, not_true_eq_false, if_false] <;> first | exact h2 _ | (split <;> first | exact h2 _ | exact h3)
    · have h1 : ofThread t ((u, o) :: tr) = ofThread t tr := by simp [ofThread, hu]
      have h2 : bare t d ((u, o) :: tr) = bare t d tr := by simp [bare, hu]
      rw [h1, h2]; exact ih d

theorem sublist_pair {α : Type} {x y : α} {A B l : List α} (h : List.Sublist (A ++ x :: y :: B) l) :
    ∃ l1 l2 l3, l = l1 ++ x :: (l2 ++ y :: l3) := by
  have h1 : List.Sublist [x, y] l := by
    refine List.Sublist.trans ?_ h
    refine List.Sublist.trans ?_ (List.sublist_append_right A _)
    exact (List.nil_sublist B).cons_cons y |>.cons_cons x
  obtain ⟨l1, l2, rfl, h2, h3⟩ := List.cons_sublist_iff.1 h1
  obtain ⟨p, q, rfl⟩ := List.append_of_mem h2
  obtain ⟨p', q', rfl⟩ := List.append_of_mem (List.singleton_sublist.1 h3)
  exact ⟨p, q ++ p', q', by simp⟩

theorem first_ret {c : Cb} {r0 : Option Exc} {l l' : List Obs} :
    ∃ l1 r l2, l ++ .cbRet c r0 :: l' = l1 ++ .cbRet c r :: l2 ∧ ∀ r, Obs.cbRet c r ∉ l1 := by
  induction l with
  | nil => exact ⟨[], r0, l', rfl, by simp⟩
  | cons o l ih =>
    by_cases ho : ∃ r, o = .cbRet c r
    · obtain ⟨r, rfl⟩ := ho
      exact ⟨[], r, l ++ .cbRet c r0 :: l', rfl, by simp⟩
    · obtain ⟨l1, r, l2, h1, h2⟩ := ih
      refine ⟨o :: l1, r, l2, by rw [List.cons_append, h1]; rfl, fun r' hm => ?_⟩
      rcases List.mem_cons.1 hm with hm | hm
      · exact ho ⟨r', hm.symm⟩
      · exact h2 r' hm

theorem ofThread_append {t : Tid} {x y : List (Tid × Obs)} : ofThread t (x ++ y) = ofThread t x ++ ofThread t y := by
  simp [ofThread]

theorem mem_ofThread {t : Tid} {o : Obs} {tr : List (Tid × Obs)} : o ∈ ofThread t tr ↔ (t, o) ∈ tr := by
  unfold ofThread
  constructor
  · intro h
    obtain ⟨⟨u, x⟩, h1, h2⟩ := List.mem_filterMap.1 h
    simp only [Option.ite_none_right_eq_some, Option.some.injEq] at h2
    obtain ⟨rfl, rfl⟩ := h2
    exact h1
  · intro h
    exact List.mem_filterMap.2 ⟨(t, o), h, by simp⟩

theorem visible_mem {b : Bool} {l : List Obs} {o : Obs} (h : o ∈ visible a b l) : o ∈ l := by
  induction l generalizing b with
  | nil => exact h
  | cons x l ih =>
    unfold visible at h
    split at h <;> first
      | (split at h
         · rcases List.mem_cons.1 h with rfl | h
           · exact List.mem_cons_self
           · exact List.mem_cons_of_mem _ (ih h)
         · exact List.mem_cons_of_mem _ (ih h))
      | exact List.mem_cons_of_mem _ (ih h)

section
variable {P : List (Tid × Obs)}

/-- The entry action of the state entered by a transition runs to its end, without an exception. -/
theorem action_run (hc : Cared a r P) {s b : St} {ev : Ev} {x p1 p2 : List (Tid × Obs)}
    (hst : Step r a.m s ev b (P ++ x) (p1 ++ (env.workerOf a.m, .cur a.m b false) :: p2)) (hb : b ∈ a.states)
    (hn : 0 < (env.acts .entry b.oid).length) :
    ∃ j os l1 l2, ofThread (env.workerOf a.m) (r.conf j).w.trace = os ++ .cb (.action a.m .entry b.oid 0 ev) ::
        (l1 ++ .cbRet (.action a.m .entry b.oid 0 ev) none :: l2) ∧ (∀ r, Obs.cbRet (.action a.m .entry b.oid 0 ev) r ∉ l1) ∧
      ∀ o ∈ l1, (env.workerOf a.m, o) ∈ p2 := by
  have hb := hst.bare_after hc.served.alone hc.smooth.later (hc.wired.notFinal hb)
  obtain ⟨j, rest, hj⟩ := hst.at_
  have h1 : ∃ B, bare (env.workerOf a.m) 0 p2 = .cb (.action a.m .entry b.oid 0 ev) :: .cbRet (.action a.m .entry b.oid 0 ev) none :: B := by
    obtain ⟨n, hn'⟩ : ∃ n, (env.acts .entry b.oid).length = n + 1 := ⟨_, (Nat.sub_add_cancel hn).symm⟩
    rw [hb]
    unfold Desc.afterwards
    simp only [show (env.desc a.m).nacts .entry b.oid = n + 1 from hn', List.range_succ_eq_map, List.map_cons, Spec.shown, List.cons_append,
      List.flatMap_cons, List.nil_append]
    exact ⟨_, rfl⟩
  obtain ⟨B, h1⟩ := h1
  obtain ⟨l1, l2, l3, h2⟩ := sublist_pair (A := []) (h1 ▸ bare_sublist (env.workerOf a.m) 0 p2)
  obtain ⟨k1, q, k2, h3, h4⟩ := first_ret (c := .action a.m .entry b.oid 0 ev) (r0 := none) (l := l2) (l' := l3)
  rw [h3] at h2
  have hq : q = none := by
    cases q with
    | none => rfl
    | some e =>
      exfalso
      have h5 : (env.workerOf a.m, Obs.cbRet (.action a.m .entry b.oid 0 ev) (some e)) ∈ p2 := mem_ofThread.1 (by rw [h2]; simp)
      exact hc.smooth.quiet j (x ++ (env.workerOf a.m, .taken (env.qm a.m) a.m ev) ::
        (p1 ++ (env.workerOf a.m, .cur a.m b false) :: p2 ++ (env.workerOf a.m, .done a.m ev) :: rest))
        (by rw [hj]; simp) (env.workerOf a.m) (.action a.m .entry b.oid 0 ev) e (by simp [h5]) rfl
  subst hq
  refine ⟨j, ofThread (env.workerOf a.m) (P ++ x ++ (env.workerOf a.m, .taken (env.qm a.m) a.m ev) :: p1 ++ [(env.workerOf a.m, .cur a.m b false)]) ++ l1, k1,
    k2 ++ ofThread (env.workerOf a.m) ((env.workerOf a.m, .done a.m ev) :: rest), ?_, h4, ?_⟩
  · have h6 : (r.conf j).w.trace = (P ++ x ++ (env.workerOf a.m, .taken (env.qm a.m) a.m ev) :: p1 ++ [(env.workerOf a.m, .cur a.m b false)]) ++
        (p2 ++ (env.workerOf a.m, .done a.m ev) :: rest) := by rw [hj]; simp
    rw [h6, ofThread_append (y := p2 ++ (env.workerOf a.m, .done a.m ev) :: rest), ofThread_append (x := p2), h2]
    simp only [List.append_assoc, List.cons_append]
  · intro o ho
    exact mem_ofThread.1 (by rw [h2]; simp [ho])

theorem script_fires {up : Bool} {es : List Obs} (h : Script a up none es) :
    ∃ e ∈ [evtComplete, evtError], Obs.leave (.fire a.m e) none ∈ es := by
  generalize hr : (none : Option Exc) = q at h
  cases h with
  | complete => exact ⟨evtComplete, by simp, by simp [fires]⟩
  | unheard _ => subst hr; exact ⟨evtError, by simp, by simp [fires]⟩
  | dead _ => cases hr
  | failed _ _ => subst hr; exact ⟨evtError, by simp, by simp [fires]⟩
  | killed _ _ => cases hr

theorem calm_upd (hc : Cared a r P) {s b : St} {ev : Ev} {x mid : List (Tid × Obs)} (hst : Step r a.m s ev b (P ++ x) mid)
    (hb : b ∈ a.states) (s' : St) (api : Bool) : Obs.upd a.m s' true api ∉ bare (env.workerOf a.m) 0 mid := by
  rw [hst.bare hc.served.alone hc.smooth.later]
  have hsh : ∀ cs : List Cb, Obs.upd a.m s' true api ∉ Spec.shown cs := by
    intro cs hm
    obtain ⟨c, _, hc⟩ := List.mem_flatMap.1 hm
    simp at hc
  have hne : b.name ≠ resEnd := fun h => (hc.wired.usable b hb).1 h
  simp only [List.mem_append, hsh, false_or, or_false, Desc.change, Desc.ending, hc.wired.notFinal hb, not_or]
  simp [hne]

theorem step_accepts (hc : Cared a r P) {s b : St} {ev e : Ev} {x mid : List (Tid × Obs)} (hst : Step r a.m s ev b (P ++ x) mid)
    (hb : b ∈ a.states) (he : (env.workerOf a.m, Obs.leave (.fire a.m e) none) ∈ mid) :
    ∃ y e' z, mid = y ++ (env.workerOf a.m, .accepted (env.qm a.m) a.m e') :: z ∧ e'.name = e.name ∧ (e.cls = 0 → e'.key = e.key) := by
  obtain ⟨j, rest, hj⟩ := hst.at_
  obtain ⟨_, _, hp⟩ := hst.processing hc.served.alone hc.smooth.later
  obtain ⟨m1, m2, rfl⟩ := List.append_of_mem he
  obtain ⟨u, hu⟩ := hc.started
  obtain ⟨y, e', z, h1, h2⟩ := fire_accepted (u := u) hc.served.alone.priv r.init (r.reach_conf j) (e := e) (mid := m1)
    (post := m2 ++ (env.workerOf a.m, .done a.m ev) :: rest) (by rw [hj]; simp) (List.mem_append_left _ hu) hc.unbounded hc.all
    (fun y z hyz => not_ended hp (env.qm a.m) (congrArg MSt.ended hst.state) (fun s' api => calm_upd hc hst hb s' api)
      (y := z ++ (env.workerOf a.m, .leave (.fire a.m e) none) :: m2) (by rw [hyz]; simp))
  exact ⟨y, e', z ++ (env.workerOf a.m, .leave (.fire a.m e) none) :: m2, by rw [h1]; simp, h2⟩

/-- While the entry action of STARTING or STOPPING runs, `complete` or `error` is accepted. -/
theorem phase_accepts (hc : Cared a r P) {s : St} {ev : Ev} {up : Bool} {x mid : List (Tid × Obs)}
    (hst : Step r a.m s ev (if up then a.starting else a.stopping) (P ++ x) mid) :
    ∃ y e' z, mid = y ++ (env.workerOf a.m, .accepted (env.qm a.m) a.m e') :: z ∧ (e'.key = evtComplete.key ∨ e'.key = evtError.key) := by
  have hs : (if up then a.starting else a.stopping) ∈ a.states := by cases up <;> simp [App.states]
  have hoid : (if up then a.starting else a.stopping).oid = if up then a.starting.oid else a.stopping.oid := by cases up <;> rfl
  have hact : ∃ p, a.action (if up then a.starting else a.stopping).oid = some p := by
    cases up with
    | true => exact ⟨a.startingAction, by simp [App.action]⟩
    | false =>
      have hd := hc.wired.oids
      simp only [List.nodup_cons, List.mem_cons, List.not_mem_nil, or_false, not_or] at hd
      exact ⟨a.stoppingAction, by simp [App.action, Ne.symm hd.2.1.2.1]⟩
  obtain ⟨p, hp⟩ := hact
  obtain ⟨p1, p2, rfl⟩ := List.append_of_mem (hst.cur_mem hc.served.alone hc.smooth.later)
  obtain ⟨j, os, l1, l2, h1, h2, h3⟩ := action_run hc hst hs (by rw [hc.wired.entry _ p hp]; simp)
  rw [hoid] at h1 h2
  have h4 := C42_phase_over hc.wired r.init hc.latch (execution hc.within j) h1 h2
  obtain ⟨e, he, h5⟩ := script_fires h4
  obtain ⟨y, e', z, h6, _, h7⟩ := step_accepts hc hst hs (e := e) (by simp [h3 _ (visible_mem h5)])
  refine ⟨y, e', z, h6, ?_⟩
  simp only [List.mem_cons, List.not_mem_nil, or_false] at he
  rcases he with rfl | rfl
  · exact .inl (h7 rfl)
  · exact .inr (h7 rfl)

theorem Cared.later (hc : Cared a r P) {Q : List (Tid × Obs)} (hr : openEv (env.workerOf a.m) a.m (P ++ Q) = none) : Cared a r (P ++ Q) where
  wired := hc.wired
  within := hc.within
  latch := hc.latch
  served := hc.served
  unbounded := hc.unbounded
  all := hc.all
  started := let ⟨u, hu⟩ := hc.started; ⟨u, List.mem_append_left _ hu⟩
  rest := hr
  smooth := hc.smooth.later

theorem usable_ne (hw : a.Wired env) {b : St} (hb : b ∈ a.states) : b.name ≠ resEnd := fun h => (hw.usable b hb).1 h

/-- A state that has been entered is left if an event that is mapped in it is accepted after the transition has begun. -/
theorem goes_on (hc : Cared a r P) {s b : St} {ev : Ev} {x mid : List (Tid × Obs)} (hst : Step r a.m s ev b (P ++ x) mid)
    (hb : b ∈ a.states) {i : Nat} {u : Tid} {e : Ev} {y z : List (Tid × Obs)}
    (h : (r.conf i).w.trace = (P ++ x) ++ (env.workerOf a.m, .taken (env.qm a.m) a.m ev) :: (y ++ (u, .accepted (env.qm a.m) a.m e) :: z))
    {c : Clause} (hcl : c ∈ a.clauses) (h1 : c.1 = b) (h2 : e.key = c.2.1.key) (h3 : c.2.2.getD (env.mach a.m).res.endSt ≠ b) :
    ∃ x' ev' b' mid', Step r a.m b ev' b' (ends env a.m ev (P ++ x) mid ++ x') mid' ∧
      ∃ c' ∈ a.clauses, c'.1 = b ∧ b' = c'.2.2.getD (env.mach a.m).res.endSt := by
  subst h1
  obtain ⟨j, hj⟩ := hst.index
  have hs : Smooth r a.m (ends env a.m ev (P ++ x) mid) := by
    unfold ends; rw [List.append_assoc]; exact hc.smooth.later
  obtain ⟨x', ev', b', mid', h4⟩ := leaves_step hc.served hs (tr := []) (i0 := j) (by rw [hj]; simp) hst.rest
    (hst.result hc.served.alone hc.smooth.later (usable_ne hc.wired hb) (hc.wired.notFinal hb)) (i := i) (u := u) (ev := e)
    (past := (P ++ x) ++ (env.workerOf a.m, .taken (env.qm a.m) a.m ev) :: y) (post := z) (by rw [h]; simp)
    (hst.late hc.served.alone) (hc.wired.goes hcl h2) h3
  obtain ⟨c', h5, h6, _, h7⟩ := clause_of hc.wired hb h4.goes
  exact ⟨x', ev', b', mid', h4, c', h5, h6, h7⟩

end

end Verif.Settle
