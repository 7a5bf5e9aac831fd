import Verif.Proofs.AppWait
import Verif.Props.Settle
/-
An app that is told to stop gets STOPPED: `C77`.
-/

namespace Verif.Settle
open Spec (Run Desc MSt bare meddles openEv openStep apiDepth takenOf IsEvent accepted taken)
open Spec.Mon

variable {env : Env} {r : Run env} {m : MId}

/-! ### A state that has been left -/

theorem fold_same {d : Desc} {x : MSt} {l : List Ev} (h : ∀ ev ∈ l, d.next x ev = x) : l.foldl d.next x = x := by
  induction l with
  | nil => rfl
  | cons e l ih => rw [List.foldl_cons, h e List.mem_cons_self]; exact ih fun ev he => h ev (List.mem_cons_of_mem _ he)

/-- If the machine is at rest and the state is not what it was, it has been left with some event. -/
theorem left_state (hv : Served r m) {P tr : List (Tid × Obs)} (hs : Smooth r m P) {j : Nat} (h : (r.conf j).w.trace = P ++ tr)
    (h0 : openEv (env.workerOf m) m P = none) (h1 : openEv (env.workerOf m) m (P ++ tr) = none) {s : St}
    (hst : (machAt (r.conf 0) m P).st = ⟨some s, false⟩) (hne : (machAt (r.conf 0) m (P ++ tr)).st ≠ ⟨some s, false⟩) :
    ∃ a ev' b' mid, Step r m s ev' b' (P ++ a) mid := by
  have h2 := state_at hv.alone hs h h0 h1
  obtain ⟨ev, hm, hc⟩ : ∃ ev ∈ takenOf m tr, (env.desc m).next (machAt (r.conf 0) m P).st ev ≠ (machAt (r.conf 0) m P).st := by
    refine Classical.byContradiction fun hn => hne ?_
    rw [h2, fold_same fun ev he => Classical.byContradiction fun hx => hn ⟨ev, he, hx⟩, hst]
  obtain ⟨a, ev', b0, h3, h4, h5⟩ := left_with hv.alone hs h h0 hm hc
  rw [hst] at h4 h5
  obtain ⟨_, s', b', h6, h7⟩ := goes_of_next h5
  cases h6
  have h8 : (r.conf j).w.trace = (P ++ a) ++ (env.workerOf m, .taken (env.qm m) m ev') :: b0 := by rw [h, h3]; simp
  obtain ⟨j', mid', rest, _, h9, h10, h11, _⟩ := is_event hv.alone h8 (hv.fair _) hv.returns
  exact ⟨a, ev', b', mid', ⟨j', rest, h9⟩, h10, h11, h4, h7⟩

/-- If the machine has entered another state, it has left the one it was in. -/
theorem left_cur (hv : Served r m) {P tr post : List (Tid × Obs)} (hs : Smooth r m P) (h0 : openEv (env.workerOf m) m P = none) {i : Nat}
    {u : Tid} {b s : St} (h : (r.conf i).w.trace = P ++ tr ++ (u, .cur m b false) :: post)
    (hst : (machAt (r.conf 0) m P).st = ⟨some s, false⟩) : ∃ a ev' b' mid, Step r m s ev' b' (P ++ a) mid := by
  obtain ⟨a, ev, s', b', mid, p1, p2, h1, _⟩ := entered_any hv hs h0 h
  by_cases hss : s' = s
  · subst hss; exact ⟨a, ev, b', mid, h1⟩
  · obtain ⟨j, rest, hj⟩ := h1.at_
    obtain ⟨j0, _, _, h2, _⟩ := Course.entry_time r j (by simp [Env.workerOf]) hj
    refine left_state hv hs h2 h0 (h1.rest_before hv.alone) hst ?_
    rw [h1.state]
    intro he
    injection he with he
    injection he with he
    exact hss he

/-- The machine comes to rest again. -/
theorem rests (hv : Served r m) (j : Nat) : ∃ j', j ≤ j' ∧ openEv (env.workerOf m) m (r.conf j').w.trace = none := by
  cases ho : openEv (env.workerOf m) m (r.conf j).w.trace with
  | none => exact ⟨j, Nat.le_refl _, ho⟩
  | some ev =>
    obtain ⟨a, q, b, h1, h2⟩ := open_split ho
    obtain ⟨j1, mid, rest, _, h3, _, _, h4⟩ := is_event hv.alone h1 (hv.fair _) hv.returns
    obtain ⟨j0, _, _, _, h5⟩ := Course.entry_time r j1 (pre := a ++ (env.workerOf m, .taken q m ev) :: mid) (x := .done m ev) (post := rest)
      (worker_ne (env := env) (m := m)) (by rw [h3]; simp)
    refine ⟨j0 + 1, ?_, by rw [h5, ← h4]; simp⟩
    refine Classical.byContradiction fun hn => ?_
    obtain ⟨z, hz⟩ := Course.grows_le r (show j0 + 1 ≤ j by omega)
    rw [h5, h1] at hz
    have hz : (a ++ [(env.workerOf m, .taken q m ev)]) ++ (mid ++ (env.workerOf m, .done m ev) :: z) =
        (a ++ [(env.workerOf m, .taken q m ev)]) ++ b := by
      have : a ++ (env.workerOf m, .taken q m ev) :: b = (a ++ [(env.workerOf m, .taken q m ev)]) ++ b := by simp
      rw [← this, ← hz]; simp
    have hz := List.append_cancel_left hz
    exact h2 ev (by rw [← hz]; simp)

/-- Nobody clears the flag `isEnded`: it stays. -/
theorem ended_stays {P : List (Tid × Obs)} (hs : Smooth r m P) {i j : Nat} (hij : i ≤ j) (hP : P <+: (r.conf i).w.trace)
    (h : ((r.conf i).w.mach m).ended = true) : ((r.conf j).w.mach m).ended = true := by
  obtain ⟨n, rfl⟩ := Nat.le.dest hij
  clear hij
  induction n with
  | zero => exact h
  | succ n ih =>
    have hn := r.next (i + n)
    rw [show i + (n + 1) = i + n + 1 from rfl]
    cases hx : r.pick (i + n) with
    | none => rw [hx] at hn; simp only at hn; rw [hn]; exact ih
    | some c =>
      rw [hx] at hn
      simp only at hn
      cases c with
      | begin k u =>
        simp only [step] at hn
        split at hn
        · cases hn
        · have hn := Option.some.inj hn; rw [← hn]; exact ih
      | run u =>
        simp only [step] at hn
        split at hn
        · cases hn
        next q hq =>
          cases q with
          | ret x => have hn := Option.some.inj hn; rw [← hn]; exact ih
          | thr x => have hn := Option.some.inj hn; rw [← hn]; exact ih
          | call f k => have hn := Option.some.inj hn; rw [← hn]; exact ih
          | op o k =>
            obtain ⟨b1, b2⟩ := Wait.step_op r hx hq
            rw [b2]
            by_cases ho : o = .clearEnded m
            · exfalso
              subst ho
              obtain ⟨z, hz⟩ := hP
              obtain ⟨z', hz'⟩ := Course.grows_le r (show i ≤ i + n by omega)
              have := hs.calm (i + n + 1) (z ++ z' ++ [(u, .cleared m)]) (by rw [b2, exec_trace, ← hz', ← hz]; simp [opObs]) (u, .cleared m) (by simp)
              simp [meddles] at this
            · have keep : ∀ (w : World) {o : Op}, o ≠ .clearEnded m → (w.mach m).ended = true → ((exec u o w).2.mach m).ended = true := by
                intro w o ho hw
                cases o <;> simp only [exec] <;> (try split) <;> (try split) <;> simp_all [World.log, fset]
                all_goals (split <;> simp_all)
              exact keep _ ho ih
      | dispatch e k l =>
        simp only [step] at hn
        split at hn
        · split at hn
          · have hn := Option.some.inj hn; rw [← hn]; exact ih
          · cases hn
        · cases hn
      | interrupt u => have hn := Option.some.inj hn; rw [← hn]; exact ih
      | shutdown e now => have hn := Option.some.inj hn; rw [← hn]; cases now <;> exact ih

/-- Every piece of history is that of a configuration, up to entries of the environment. -/
theorem conf_near (j : Nat) {X Y : List (Tid × Obs)} (h : (r.conf j).w.trace = X ++ Y) :
    ∃ l Z, l ≤ j ∧ (r.conf l).w.trace = X ++ Z ∧ ∀ z ∈ Z, z.1 = .env := by
  induction j generalizing Y with
  | zero =>
    rw [r.init.trace] at h
    obtain ⟨rfl, rfl⟩ := List.append_eq_nil_iff.1 h.symm
    exact ⟨0, [], Nat.le_refl _, by rw [r.init.trace]; rfl, by simp⟩
  | succ j ih =>
    obtain ⟨ys, h1, h2⟩ := Course.adds r j
    rw [h1] at h
    rcases List.append_eq_append_iff.1 h with ⟨z, h3, h4⟩ | ⟨z, h3, h4⟩
    · cases z with
      | nil => obtain ⟨l, Z, h5, h6, h7⟩ := ih (Y := []) (by rw [h3]; simp); exact ⟨l, Z, by omega, h6, h7⟩
      | cons e z =>
        rcases h2 with rfl | ⟨t, x, rfl, _⟩ | h2
        · cases h4
        · obtain ⟨rfl, h5⟩ := List.cons.inj h4
          obtain ⟨rfl, rfl⟩ := List.append_eq_nil_iff.1 h5.symm
          exact ⟨j + 1, [], Nat.le_refl _, by rw [h1, h3]; simp, by simp⟩
        · exact ⟨j + 1, Y, Nat.le_refl _, by rw [h1, h], fun y hy => h2 y (by rw [h4]; exact List.mem_append_right _ hy)⟩
    · obtain ⟨l, Z, h5, h6, h7⟩ := ih h3; exact ⟨l, Z, by omega, h6, h7⟩

/-! ### The states of an app -/

theorem fold_cur {m : MId} {s : St} {tr : List (Tid × Obs)} {mem : Mem} (h : ∀ u b api, (u, Obs.cur m b api) ∈ tr → b = s)
    (h0 : mem.cur = some s) : (mem.after m tr).cur = some s := by
  induction tr generalizing mem with
  | nil => exact h0
  | cons e tr ih =>
    show ((mem.step m e.2).after m tr).cur = some s
    refine ih (fun u b api hm => h u b api (List.mem_cons_of_mem _ hm)) ?_
    obtain ⟨u, o⟩ := e
    cases o with
    | cur m' b api =>
      simp only [Mem.step]
      split
      next hm => subst hm; rw [h u b api List.mem_cons_self]
      · exact h0
    | upd m' b e api => simp only [Mem.step]; split <;> exact h0
    | cleared m' => simp only [Mem.step]; split <;> exact h0
    | listener m' l => simp only [Mem.step]; split <;> exact h0
    | _ => exact h0

variable {a : App} {P : List (Tid × Obs)}

/-- A state of the lifecycle has been entered and is not the state of the machine any more: the machine has gone on to a state the lifecycle
allows. -/
theorem left_app (hc : Cared a r P) {s : St} (hs : s ∈ a.states) {u : Tid} {j : Nat} {tr x : List (Tid × Obs)}
    (h : (r.conf j).w.trace = P ++ tr ++ (u, .cur a.m s false) :: x)
    (hne : ((r.conf j).w.mach a.m).cur ≠ some s ∨ ((r.conf j).w.mach a.m).ended = true) :
    ∃ j y c z, c ∈ a.clauses ∧ c.1 = s ∧
      (r.conf j).w.trace = P ++ tr ++ (u, .cur a.m s false) :: (y ++ (u, .cur a.m (c.2.2.getD (env.mach a.m).res.endSt) false) :: z) := by
  obtain ⟨x0, ev, s0, mid, p1, p2, h1, rfl, h2, h3⟩ := entered hc.served hc.smooth hc.rest h (state_ne_end hc.wired hs)
  have hsm : Smooth r a.m (ends env a.m ev (P ++ x0) mid) := by
    unfold ends; rw [List.append_assoc]; exact hc.smooth.later
  have hres := h1.result hc.served.alone hc.smooth.later (usable_ne hc.wired hs) (hc.wired.notFinal hs)
  obtain ⟨jq, hjq⟩ := h1.index
  have hstep : ∃ x' ev' b' mid', Step r a.m s ev' b' (ends env a.m ev (P ++ x0) mid ++ x') mid' := by
    by_cases hend : ((r.conf j).w.mach a.m).ended = true
    · obtain ⟨J, hJ, hrest⟩ := rests hc.served (max j jq)
      have he := ended_stays hc.smooth (show j ≤ J by omega) (by rw [h, List.append_assoc]; exact List.prefix_append _ _) hend
      obtain ⟨z, hz⟩ := Course.grows_le r (show jq ≤ J by omega)
      rw [hjq] at hz
      refine left_state hc.served hsm hz.symm h1.rest (by rw [hz]; exact hrest) hres ?_
      rw [hz, ← world_mem hc.served.alone.priv r.init (r.reach_conf J)]
      intro hx
      have : (memOf (r.conf J).w a.m).ended = false := congrArg MSt.ended hx
      have h4 : (memOf (r.conf J).w a.m).ended = ((r.conf J).w.mach a.m).ended := rfl
      rw [h4, he] at this
      cases this
    · have hcur := hne.resolve_right hend
      obtain ⟨u', b, api, hm, hb⟩ : ∃ u' b api, (u', Obs.cur a.m b api) ∈ x ∧ b ≠ s := by
        refine Classical.byContradiction fun hn => hcur ?_
        have h4 : ((r.conf j).w.mach a.m).cur = (memOf (r.conf j).w a.m).cur := rfl
        rw [h4, world_mem hc.served.alone.priv r.init (r.reach_conf j), h]
        unfold machAt Mem.after
        rw [List.foldl_append, List.foldl_cons]
        refine fold_cur (fun u b api hm => Classical.byContradiction fun hx => hn ⟨u, b, api, hm, hx⟩) ?_
        simp [Mem.step]
      have hapi : api = false := by
        have := hc.smooth.calm j (tr ++ (env.workerOf a.m, .cur a.m s false) :: x) (by rw [h]; simp) (u', .cur a.m b api)
          (List.mem_append_right _ (List.mem_cons_of_mem _ hm))
        simpa [meddles] using this
      subst hapi
      obtain ⟨z, hz⟩ := Course.grows_le r (Nat.le_max_left j jq)
      obtain ⟨z', hz'⟩ := Course.grows_le r (Nat.le_max_right j jq)
      have hxz : x ++ z = p2 ++ (env.workerOf a.m, .done a.m ev) :: z' := by
        have : (P ++ x0 ++ (env.workerOf a.m, .taken (env.qm a.m) a.m ev) :: (p1 ++ [(env.workerOf a.m, .cur a.m s false)])) ++ (x ++ z) =
            (P ++ x0 ++ (env.workerOf a.m, .taken (env.qm a.m) a.m ev) :: (p1 ++ [(env.workerOf a.m, .cur a.m s false)])) ++
              (p2 ++ (env.workerOf a.m, .done a.m ev) :: z') := by
          have e1 := hz.trans hz'.symm
          rw [h, hjq, ends, h2, h3] at e1
          simpa using e1
        exact List.append_cancel_left this
      have hm' : (u', Obs.cur a.m b false) ∈ p2 ++ (env.workerOf a.m, Obs.done a.m ev) :: z' := by
        rw [← hxz]; exact List.mem_append_left _ hm
      rcases List.mem_append.1 hm' with hm' | hm'
      · exfalso
        obtain ⟨q1, q2, hq⟩ := List.append_of_mem hm'
        obtain ⟨_, _, _, _, _, _, _, _, hu, _⟩ := entered_any hc.served hc.smooth hc.rest (i := jq) (u := u') (b := b)
          (tr := x0 ++ (env.workerOf a.m, .taken (env.qm a.m) a.m ev) :: (p1 ++ (env.workerOf a.m, .cur a.m s false) :: q1))
          (post := q2 ++ [(env.workerOf a.m, .done a.m ev)]) (by rw [hjq, ends, h3, hq]; simp)
        subst hu
        obtain ⟨jj, rest, h8⟩ := h1.at_
        obtain ⟨_, _, _, _, _, g', h11⟩ := at_taken hc.served.alone.priv r.init (r.reach_conf jj) h8
        obtain ⟨g1, h12, _⟩ := mon_split h11
        have hbare : Obs.cur a.m b false ∈ bare (env.workerOf a.m) 0 mid := by
          have := bare_of_drain h12 rfl (x := .cur a.m b false) (by rw [h3, hq]; simp)
          exact this
        rw [h1.bare hc.served.alone hc.smooth.later] at hbare
        simp only [List.mem_append, shown_cur, false_or, or_false] at hbare
        rcases hbare with hm | hm
        · exact hb (by simpa [Desc.change, Env.desc] using hm)
        · unfold Desc.ending at hm
          rw [hc.wired.notFinal hs] at hm
          cases hm
      · rcases List.mem_cons.1 hm' with hm' | hm'
        · cases hm'
        · obtain ⟨q1, q2, rfl⟩ := List.append_of_mem hm'
          exact left_cur hc.served hsm h1.rest (i := max j jq) (tr := q1) (post := q2) (u := u') (b := b)
            (by rw [← hz', hjq]; simp) hres
  obtain ⟨x', ev', b', mid', h4⟩ := hstep
  obtain ⟨c, h5, h6, _, rfl⟩ := clause_of hc.wired hs h4.goes
  obtain ⟨j, y, z, h7⟩ := onward hc h1 h2 h3 h4
  exact ⟨j, y, c, z, h5, h6, h7⟩

end Verif.Settle

namespace Verif.AppWait
open Spec Spec.App Prog

variable {α : Type} {a : App} {env : Env} (r : Run env)

/-! ### Firing an event at the app's machine -/

/-- As `finish_free`; the thread comes back to its level, and does not fall below it meanwhile. -/
theorem finish_bal {t : Tid} (ht : t ≠ .env) (hf : r.fair t) {p : Prog α} {K : Except Exc α → Prog Unit} {i : Nat} {e s : Nat × Nat} (hp : Free env p)
    (hb : Wait.Bal e s p) (h : (r.conf i).thr t = some (p.handle K)) (hl : level t (r.conf i).w.trace = s) (h2 : e.2 ≤ s.2) :
    ∃ j x, i ≤ j ∧ (r.conf j).thr t = some (K x) ∧ level t (r.conf j).w.trace = e ∧
      ∀ l, i ≤ l → l ≤ j → e.2 ≤ (level t (r.conf l).w.trace).2 := by
  induction p generalizing i s with
  | ret x => cases hb; exact ⟨i, _, Nat.le_refl _, h, hl, fun l b1 b2 => by rw [Nat.le_antisymm b2 b1, hl]; exact Nat.le_refl _⟩
  | thr x => cases hb; exact ⟨i, _, Nat.le_refl _, h, hl, fun l b1 b2 => by rw [Nat.le_antisymm b2 b1, hl]; exact Nat.le_refl _⟩
  | op o k ih =>
    have h0 := hp.1
    obtain ⟨j, c1, c2, c3, c4⟩ := Wait.goes r ht hf h (by cases o <;> first | rfl | cases h0)
    obtain ⟨c5, c6⟩ := Wait.step_op r c2 c3
    obtain ⟨j', x, d1, d2, d3, d4⟩ := ih _ (hp.2 _) (hb (exec t o (r.conf j).w).1).2.2 c5 (by rw [c6, Wait.level_exec, c4 j c1 (Nat.le_refl _), hl])
      (hb (exec t o (r.conf j).w).1).2.1
    refine ⟨j', x, by omega, d2, d3, fun l b1 b2 => ?_⟩
    by_cases hlj : l ≤ j
    · rw [c4 l b1 hlj, hl]; exact h2
    · exact d4 l (by omega) b2
  | call f k ih =>
    obtain ⟨j, c1, c2, c3, c4⟩ := Wait.goes r ht hf h rfl
    obtain ⟨c5, c6⟩ := Wait.step_call r c2 c3
    rw [hp.1] at c5
    obtain ⟨j', x, d1, d2, d3, d4⟩ := ih _ (hp.2 _) (hb (.ok ())) c5 (by rw [c6, c4 j c1 (Nat.le_refl _), hl]) h2
    refine ⟨j', x, by omega, d2, d3, fun l b1 b2 => ?_⟩
    by_cases hlj : l ≤ j
    · rw [c4 l b1 hlj, hl]; exact h2
    · exact d4 l (by omega) b2

/-- A piece of history that never falls below its level is a call. -/
theorem own_of_level {t : Tid} {mid : List (Tid × Obs)} {d D x : Nat} (hD : 0 < D) (h : ∀ mid', mid' <+: mid → D ≤ (mid'.foldl (levelStep t) (x, D + d)).2)
    (he : (mid.foldl (levelStep t) (x, D + d)).2 = D) : ∃ os, Spec.Calls.own t d mid = some os := by
  induction mid generalizing d x with
  | nil => have : d = 0 := by simpa using he
           subst this; exact ⟨[], rfl⟩
  | cons e mid ih =>
    obtain ⟨u, o⟩ := e
    rw [List.foldl_cons] at he
    have h' : ∀ mid', mid' <+: mid → D ≤ (mid'.foldl (levelStep t) (levelStep t (x, D + d) (u, o))).2 := by
      intro mid' hm
      have := h ((u, o) :: mid') (List.cons_prefix_cons.2 ⟨rfl, hm⟩)
      rwa [List.foldl_cons] at this
    by_cases hu : u = t
    · subst hu
      have same : ∀ x', levelStep u (x, D + d) (u, o) = (x', D + d) → ∃ os, Spec.Calls.own u d mid = some os := by
        intro x' hx
        rw [hx] at he h'
        exact ih h' he
      cases o with
      | enter k =>
        have hx : levelStep u (x, D + d) (u, .enter k) = (x, D + (d + 1)) := by simp [levelStep, Nat.add_assoc]
        rw [hx] at he h'
        simpa [Spec.Calls.own] using ih h' he
      | leave k o =>
        cases d with
        | zero =>
          exfalso
          have h1 := h' [] (List.nil_prefix)
          simp [levelStep] at h1
          omega
        | succ d =>
          have hx : levelStep u (x, D + (d + 1)) (u, .leave k o) = (x, D + d) := by simp [levelStep]
          rw [hx] at he h'
          simpa [Spec.Calls.own] using ih h' he
      | taskDropped s m =>
        obtain ⟨os, ho⟩ := same x (by simp [levelStep])
        exact ⟨os, by simpa [Spec.Calls.own] using ho⟩
      | _ =>
        obtain ⟨os, ho⟩ := same _ (by simp [levelStep]; rfl)
        simp only [Spec.Calls.own, ne_eq, not_true_eq_false, if_false, ho]
        split <;> exact ⟨_, rfl⟩
    · have hx : levelStep t (x, D + d) (u, o) = (x, D + d) := by simp [levelStep, hu]
      rw [hx] at he h'
      simpa [Spec.Calls.own, hu] using ih h' he

/-- Firing an event at the app's machine after it has been started: the event is accepted, or the machine has ended. -/
theorem fire_told {P : List (Tid × Obs)} (hc : Settle.Cared a r P) {t : Tid} (ht : t ≠ .env) {i : Nat} {e : Ev} (hcls : e.cls = 0)
    {K : Except Exc Unit → Prog Unit} (h : (r.conf i).thr t = some (((a.fire e).denote env).handle K)) (hP : P <+: (r.conf i).w.trace) :
    ∃ j, i ≤ j ∧ ((∃ x e' y, (r.conf j).w.trace = (r.conf i).w.trace ++ x ++ (t, .accepted (env.qm a.m) a.m e') :: y ∧ e'.key = e.key) ∨
      ((r.conf j).w.mach a.m).ended = true) := by
  have hf := hc.served.fair t
  change (r.conf i).thr t = some (((api (.fire a.m e) (Wait.code env (.fire a.m e))).bind fun x => (UProg.ofRes x).denote env).handle K) at h
  rw [Prog.bind, Wait.handle_handle, Wait.api_eq] at h
  obtain ⟨j1, b0, _, b1, b2, _⟩ := do_op (a := a) r ht hf h (by simp)
  rw [Wait.handle_handle] at b1
  have b3 : (r.conf (j1 + 1)).w.trace = (r.conf j1).w.trace ++ [(t, .enter (.fire a.m e))] := by
    rw [b2, exec_trace]; simp [opObs]
  have hl : level t (r.conf (j1 + 1)).w.trace = ((level t (r.conf j1).w.trace).1, (level t (r.conf j1).w.trace).2 + 1) := by
    rw [b3, Wait.level_append]; simp [levelStep]
  obtain ⟨j2, x, c1, c2, c3, c4⟩ := finish_bal r ht hf (free_fire hc.wired e) (Wait.calm_code env (.fire a.m e)).bal b1 hl (Nat.le_refl _)
  obtain ⟨j3, d0, d1, d2, d3⟩ := Wait.goes r ht hf c2 rfl
  obtain ⟨d4, d5⟩ := Wait.step_op r d1 d2
  obtain ⟨mid, hmid⟩ := Course.grows_le r (Nat.le_trans c1 d0)
  obtain ⟨z1, hz1⟩ := Course.grows_le r b0
  obtain ⟨z0, hz0⟩ := hP
  have hlev : ∀ mid', mid' <+: mid → (level t (r.conf j1).w.trace).2 + 1 ≤ (mid'.foldl (levelStep t) (level t (r.conf (j1 + 1)).w.trace)).2 := by
    intro mid' hm
    obtain ⟨w, rfl⟩ := hm
    obtain ⟨l, e1, e2, e3⟩ := Wait.level_between r ht (Nat.le_trans c1 d0) (tr := (r.conf (j1 + 1)).w.trace ++ mid')
      (List.prefix_append _ _) (by rw [← hmid]; exact ⟨w, by simp⟩)
    unfold level at e3 ⊢
    rw [List.foldl_append] at e3
    rw [e3]
    by_cases hlj : l ≤ j2
    · exact c4 l e1 hlj
    · have := d3 l (by omega) e2
      rw [c3] at this
      unfold level at this
      rw [this]
      exact Nat.le_refl _
  have hend : (mid.foldl (levelStep t) (level t (r.conf (j1 + 1)).w.trace)).2 = (level t (r.conf j1).w.trace).2 + 1 := by
    have := d3 j3 d0 (Nat.le_refl _)
    rw [c3, ← hmid] at this
    unfold level at this ⊢
    rw [List.foldl_append] at this
    rw [this]
  rw [hl] at hlev hend
  obtain ⟨os, hos⟩ := own_of_level (d := 0) (Nat.succ_pos _) hlev hend
  have hcall : Spec.Calls.IsCall (r.conf (j3 + 1)).w.trace t (.fire a.m e) (r.conf j1).w.trace mid os (outcome x) :=
    ⟨⟨[], by rw [d5, exec_trace, ← hmid, b3]; simp [opObs]⟩, hos⟩
  have htr3 : (r.conf j3).w.trace = (r.conf i).w.trace ++ z1 ++ (t, .enter (.fire a.m e)) :: mid := by
    rw [← hmid, b3, ← hz1]; simp
  have hfate := C12_one_fate r.init (r.reach_conf (j3 + 1)) hcall
  have hst : ∀ a', (Spec.Calls.memAt (after (r.conf 0) (r.conf j1).w.trace) a').started a.m = true := by
    intro a'
    refine memAt_started _ _ _ ?_
    obtain ⟨u, hu⟩ := hc.started
    exact started_of_mem (u := u) (by rw [← hz1, ← hz0]; exact List.mem_append_left _ (List.mem_append_left _ hu))
  have hown := own_mem hos
  have acc : ∀ e', Obs.accepted (env.qm a.m) a.m e' ∈ os → e'.key = e.key → ∃ j, i ≤ j ∧
      ((∃ x e' y, (r.conf j).w.trace = (r.conf i).w.trace ++ x ++ (t, .accepted (env.qm a.m) a.m e') :: y ∧ e'.key = e.key) ∨
      ((r.conf j).w.mach a.m).ended = true) := by
    intro e' hm hk
    obtain ⟨y1, y2, hy⟩ := List.append_of_mem (hown _ hm)
    exact ⟨j3, by omega, .inl ⟨z1 ++ (t, .enter (.fire a.m e)) :: y1, e', y2, by rw [htr3, hy]; simp, hk⟩⟩
  generalize outcome x = o at hfate
  cases hfate with
  | before h4 => obtain ⟨a', _, h6⟩ := h4; rw [hst a'] at h6; cases h6
  | after _ h4 =>
    obtain ⟨a', ⟨y, rfl⟩, h6⟩ := h4
    have h7 : (machAt (r.conf 0) a.m ((r.conf i).w.trace ++ z1 ++ (t, .enter (.fire a.m e)) :: a')).ended = true := by
      rw [← Settle.ended_eq, ← h6]
      unfold after Spec.Calls.memAt
      rw [← List.foldl_append]
      simp only [List.foldl_append, List.foldl_cons, ← hz1]
      rfl
    obtain ⟨l, Z, e1, e2, e3⟩ := Settle.conf_near (r := r) j3 (X := (r.conf i).w.trace ++ z1 ++ (t, .enter (.fire a.m e)) :: a') (Y := y)
      (by rw [htr3]; simp)
    have hli : i ≤ l := by
      refine Classical.byContradiction fun hn => ?_
      obtain ⟨w, hw⟩ := Course.grows_le r (show l ≤ i by omega)
      have := congrArg List.length hw
      rw [e2] at this
      simp at this
    refine ⟨l, hli, .inr ?_⟩
    have h8 : ((r.conf l).w.mach a.m).ended = (memOf (r.conf l).w a.m).ended := rfl
    rw [h8, world_mem hc.served.alone.priv r.init (r.reach_conf l), e2]
    have hZ : ∀ z ∈ Z, ∃ s m, z.2 = .taskDropped s m := by
      intro z hz
      have h9 := e3 z hz
      obtain ⟨u, o⟩ := z
      subst h9
      exact Wait.env_obs r l (x := o) (by rw [e2]; exact List.mem_append_right _ hz)
    have hkeep : ∀ (Z : List (Tid × Obs)) (mem : Spec.Mon.Mem), (∀ z ∈ Z, ∃ s m, z.2 = .taskDropped s m) → (mem.after a.m Z).ended = mem.ended := by
      intro Z
      induction Z with
      | nil => intro mem _; rfl
      | cons z Z ih =>
        intro mem hz
        obtain ⟨s, m, hs⟩ := hz z List.mem_cons_self
        show ((mem.step a.m z.2).after a.m Z).ended = mem.ended
        rw [hs, ih _ fun y hy => hz y (List.mem_cons_of_mem _ hy)]
        rfl
    have h9 := hkeep Z (machAt (r.conf 0) a.m ((r.conf i).w.trace ++ z1 ++ (t, .enter (.fire a.m e)) :: a')) hZ
    rw [h7] at h9
    rw [← h9]
    unfold machAt Spec.Mon.Mem.after
    rw [List.foldl_append]
  | full _ _ h4 =>
    obtain ⟨a', h5, h6⟩ := h4
    have h6 : Spec.Calls.isFull (callsCfg env) _ a.m = true := h6
    rw [Spec.Calls.isFull, Bool.and_eq_true] at h6
    have h7 : (env.strat (env.mach a.m).strat).maxQ > 0 := of_decide_eq_true h6.1
    have := hc.unbounded
    omega
  | dropped h4 => rw [show (callsCfg env).dropDup a.m = false from hc.all] at h4; cases h4
  | queued => exact acc e List.mem_cons_self rfl
  | refused => exact acc e List.mem_cons_self rfl
  | @queuedCopy n v => exact acc (Spec.Calls.copyOf e n) (List.mem_cons_of_mem _ List.mem_cons_self) (by simp [Spec.Calls.copyOf, Ev.key, hcls])
  | @refusedCopy n v => exact acc (Spec.Calls.copyOf e n) (List.mem_cons_of_mem _ List.mem_cons_self) (by simp [Spec.Calls.copyOf, Ev.key, hcls])

/-- A latch with count 1 that has been counted down is open. -/
theorem latch_open {n i : Nat} (h0 : (r.conf 0).w.latch n = 1) :
    (r.conf i).w.latch n ≤ 1 ∧ ∀ u, (u, Obs.latch n) ∈ (r.conf i).w.trace → (r.conf i).w.latch n = 0 := by
  induction i with
  | zero => exact ⟨by rw [h0]; exact Nat.le_refl _, fun u hu => by rw [r.init.trace] at hu; cases hu⟩
  | succ i ih =>
    have same : (r.conf (i + 1)).w.latch n = (r.conf i).w.latch n → (∀ u, (u, Obs.latch n) ∈ (r.conf (i + 1)).w.trace → (u, Obs.latch n) ∈ (r.conf i).w.trace) →
        (r.conf (i + 1)).w.latch n ≤ 1 ∧ ∀ u, (u, Obs.latch n) ∈ (r.conf (i + 1)).w.trace → (r.conf (i + 1)).w.latch n = 0 :=
      fun h1 h2 => ⟨by rw [h1]; exact ih.1, fun u hu => by rw [h1]; exact ih.2 u (h2 u hu)⟩
    have hn := r.next i
    cases hx : r.pick i with
    | none => rw [hx] at hn; simp only at hn; rw [hn]; exact ih
    | some c =>
      rw [hx] at hn
      simp only at hn
      cases c with
      | begin k u =>
        simp only [Verif.step] at hn
        split at hn
        · cases hn
        · have hn := Option.some.inj hn; rw [← hn]; exact ih
      | run u =>
        simp only [Verif.step] at hn
        split at hn
        · cases hn
        next q hq =>
          cases q with
          | ret x => have hn := Option.some.inj hn; rw [← hn]; exact ih
          | thr x =>
            have hn := Option.some.inj hn
            refine same (by rw [← hn]; rfl) fun v hv => ?_
            rw [← hn] at hv
            simpa [World.log] using hv
          | call f k => have hn := Option.some.inj hn; rw [← hn]; exact ih
          | op o k =>
            obtain ⟨_, b2⟩ := Wait.step_op r hx hq
            by_cases ho : o = .countDown n
            · subst ho
              have : (r.conf (i + 1)).w.latch n = 0 := by
                rw [b2]
                simp only [exec, World.log, fset_same]
                have := ih.1
                omega
              exact ⟨by omega, fun _ _ => this⟩
            · refine same ?_ fun v hv => ?_
              · rw [b2]
                cases o <;> simp only [exec] <;> (try split) <;> (try split) <;> simp_all [World.log, fset]
                intro h1; exact absurd h1.symm ho
              · rw [b2, exec_trace] at hv
                rcases List.mem_append.1 hv with hv | hv
                · exact hv
                · exfalso
                  have hob : opObs o (r.conf i).w = some (.latch n) := by
                    cases hoo : opObs o (r.conf i).w with
                    | none => rw [hoo] at hv; cases hv
                    | some y => rw [hoo] at hv; simp at hv; rw [hv.2]
                  have hopok : OpOk (r.conf i).w o := by
                    obtain ⟨hok, hinv⟩ := Course.pos_ok r i
                    have hok := hok u
                    rw [hq] at hok
                    exact opOk_of_lmove (lst := fun t => (Course.pos r i t).1) hinv.own
                      (lmove_of_allowed (env := env) (w := (r.conf i).w) (l := (Course.pos r i u).1) (o := o) hok.1.1)
                  revert hob
                  cases o with
                  | emit y => intro hob; cases hob; cases hopok
                  | _ => simp only [opObs] <;> (try split) <;> (try split) <;> simp_all
      | dispatch e k l =>
        simp only [Verif.step] at hn
        split at hn
        · split at hn
          · have hn := Option.some.inj hn; rw [← hn]; exact ih
          · cases hn
        · cases hn
      | interrupt u => have hn := Option.some.inj hn; rw [← hn]; exact ih
      | shutdown e now =>
        obtain ⟨ys, h1, h2⟩ := Course.adds r i
        refine same ?_ fun v hv => ?_
        · have hn := Option.some.inj hn; rw [← hn]; cases now <;> rfl
        · have hv' := hv
          rw [h1] at hv
          rcases List.mem_append.1 hv with hv | hv
          · exact hv
          · exfalso
            rcases h2 with rfl | ⟨t, x, _, h3⟩ | h2
            · cases hv
            · rw [hx] at h3; cases h3
            · have := h2 _ hv
              simp only at this
              subst this
              obtain ⟨_, _, h4⟩ := Wait.env_obs r (i + 1) hv'
              cases h4

end Verif.AppWait
