import Verif.Props.Notes
/-
C58: callbacks tell the truth.
-/

namespace Verif
open Spec (Item Desc bare meddles shown Report Transition Notify Reaction Handles apiDepth depthStep notes Fits)
open Spec.Mon

/-- All callbacks satisfy `P` at the moment they are made. -/
def AllCb (m : MId) (P : Mem → Cb → Prop) : Mem → List Obs → Prop
  | _, [] => True
  | mem, o :: os => (∀ k, o = .cb k → P mem k) ∧ AllCb m P (mem.step m o) os

section
variable {m : MId} {P : Mem → Cb → Prop} {mem : Mem} {d : Desc} {ev : Ev} {a b : St} {os : List Obs} {r : Option Exc}

theorem allCb_append {os1 os2 : List Obs} (h1 : AllCb m P mem os1) (h2 : AllCb m P (os1.foldl (Mem.step m) mem) os2) :
    AllCb m P mem (os1 ++ os2) := by
  induction os1 generalizing mem with
  | nil => exact h2
  | cons o os ih => exact ⟨h1.1, ih h1.2 h2⟩

theorem allCb_at {os1 os2 : List Obs} {k : Cb} (h : AllCb m P mem (os1 ++ .cb k :: os2)) : P (os1.foldl (Mem.step m) mem) k := by
  induction os1 generalizing mem with
  | nil => exact h.1 k rfl
  | cons o os ih => exact ih h.2

theorem allCb_shown {cs : List Cb} (h : ∀ k ∈ cs, P mem k) : AllCb m P mem (shown cs) := by
  induction cs with
  | nil => trivial
  | cons c cs ih =>
    exact ⟨fun k hk => by cases hk; exact h c List.mem_cons_self, (fun k hk => by cases hk),
      ih fun k hk => h k (List.mem_cons_of_mem _ hk)⟩

theorem allCb_report {x : Exc} (hf : P mem (.flowEx m ev x)) (h : Report m ev x os r) : AllCb m P mem os := by
  cases h with
  | told _ => exact ⟨fun k hk => by cases hk; exact hf, (fun k hk => by cases hk), trivial⟩
  | untold _ => trivial

theorem allCb_failed {cs : List Cb} {c : Cb} {x : Exc} (h : ∀ k ∈ cs, P mem k) (hc : P mem c) (hf : P mem (.flowEx m ev x))
    (hr : Report m ev x os r) : AllCb m P mem (shown cs ++ [.cb c, .cbRet c (some x)] ++ os) := by
  rw [List.append_assoc]
  refine allCb_append (allCb_shown h) ?_
  rw [step_cbs mem quiet_shown]
  exact ⟨fun k hk => by cases hk; exact hc, (fun k hk => by cases hk), allCb_report hf hr⟩

theorem allCb_notify {cs : List Cb} (h : ∀ k ∈ cs, P mem k) (hf : ∀ x, P mem (.flowEx m ev x)) (hn : Notify m ev cs os r) :
    AllCb m P mem os := by
  cases hn with
  | completed => exact allCb_shown h
  | failed hcs hr =>
    rw [hcs] at h
    exact allCb_failed (fun k hk => h k (by simp [hk])) (h _ (by simp)) (hf _) hr

theorem handles_allCb (h : Handles d mem ev os r) : AllCb d.m (Fits d ev mem) mem os := by
  have hf : ∀ (now : Mem) x, Fits d ev mem now (.flowEx d.m ev x) := fun _ _ => ⟨rfl, rfl⟩
  cases h with
  | over _ => trivial
  | @moves a b _ _ he hc hb ht =>
    have hbef : ∀ k ∈ d.before mem.lst.isSome a ev b, Fits d ev mem mem k := by
      intro k hk
      simp only [Desc.before, List.mem_append, List.mem_map, List.mem_range] at hk
      rcases hk with hk | ⟨i, hi, rfl⟩
      · split at hk
        · rw [List.mem_singleton.1 hk]
          exact ⟨rfl, rfl, hc, hc, Or.inl hb⟩
        · cases hk
      · exact ⟨rfl, rfl, a, b, hc, hb, hc, rfl, hi⟩
    have haft : ∀ k ∈ d.afterwards mem.lst.isSome a ev b,
        Fits d ev mem { mem with cur := some b, ended := b.name == Verif.resEnd } k := by
      intro k hk
      simp only [Desc.afterwards, List.mem_append, List.mem_map, List.mem_range] at hk
      rcases hk with ⟨i, hi, rfl⟩ | hk
      · exact ⟨rfl, rfl, a, b, hc, hb, rfl, rfl, hi⟩
      · split at hk
        · rw [List.mem_singleton.1 hk]
          exact ⟨rfl, rfl, hc, Or.inl ⟨hb, rfl⟩⟩
        · cases hk
    have hchange : ∀ mem', AllCb d.m (Fits d ev mem) mem' (d.change b) := fun mem' =>
      ⟨(fun k hk => by cases hk), (fun k hk => by cases hk), trivial⟩
    cases ht with
    | completed =>
      refine allCb_append (allCb_append (allCb_append (allCb_shown hbef) (hchange _)) ?_) ?_
      · rw [List.foldl_append, step_cbs mem quiet_shown, mem_change]
        exact allCb_shown haft
      · simp only [Desc.ending]
        split
        · exact ⟨(fun k hk => by cases hk), (fun k hk => by cases hk), trivial⟩
        · trivial
    | failedBefore hcs hr =>
      rw [hcs] at hbef
      exact allCb_failed (fun k hk => hbef k (by simp [hk])) (hbef _ (by simp)) (hf _ _) hr
    | failedAfter hcs hr =>
      rw [hcs] at haft
      rw [List.append_assoc, List.append_assoc]
      refine allCb_append (allCb_append (allCb_shown hbef) (hchange _)) ?_
      rw [List.foldl_append, step_cbs mem quiet_shown, mem_change, ← List.append_assoc]
      exact allCb_failed (fun k hk => haft k (by simp [hk])) (haft _ (by simp)) (hf _ _) hr
  | @stays a b _ _ he hc hb hn =>
    refine allCb_notify (fun k hk => ?_) (hf _) hn
    split at hk
    · simp only [List.mem_cons, List.not_mem_nil, or_false] at hk
      rcases hk with rfl | rfl
      · exact ⟨rfl, rfl, hc, hc, Or.inr hb⟩
      · exact ⟨rfl, rfl, hc, Or.inr ⟨hb, hc⟩⟩
    · cases hk
  | @unmapped a _ _ he hc hb hn =>
    refine allCb_notify (fun k hk => ?_) (hf _) hn
    rw [List.mem_singleton.1 hk]
    exact ⟨rfl, rfl, by rw [hc]; exact hb, rfl⟩
  | nowhere => exact ⟨fun k hk => by cases hk; exact hf _ _, (fun k hk => by cases hk), trivial⟩

end

section
variable {env : Env} {c0 c : Conf} {t : Tid} {m : MId} {ev : Ev} {pre mid post : List (Tid × Obs)}

/-- C58: callbacks made while an event is processed tell the truth, provided that nobody starts or stops the machine or
replaces its listener meanwhile. In particular: when the listener is told begin(a, e, b), `a` is the current state and the
table leads from there with `e` to `b`; when it is told end(a, e, b), the machine was in `a` when `e` was taken, the table
leads to `b`, and `b` is the current state now (`a`, if `e` is configured with no transition). Exit actions run in the state
they belong to, entry actions too. -/
theorem C58_callbacks_fit (ha : Alone env m) (hi : Initial c0) (hr : ReachFrom env c0 c) {q : QId} {k : Cb}
    (h : c.w.trace = pre ++ (t, .taken q m ev) :: (mid ++ (t, .cb k) :: post)) (hd : apiDepth t (pre ++ (t, .taken q m ev) :: mid) = 0)
    (hnd : ∀ m' ev', (t, .done m' ev') ∉ mid) (hm : ∀ e ∈ mid, meddles m e.2 = false) :
    Fits (env.desc m) ev (machAt c0 m pre) (machAt c0 m (pre ++ (t, .taken q m ev) :: mid)) k := by
  have ht := taken_worker ha hi hr (t := t) (q := q) (ev := ev) (by rw [h]; simp)
  obtain ⟨_, g, h1, _, hg, g', h2⟩ := at_taken ha.priv hi hr h
  obtain ⟨g1, h3, _, _, h4, _⟩ := history_open ha.priv hi hr t h
  have hg1 : g1 = g := Option.some.inj (h3.symm.trans h1)
  rw [hg1, hg] at h4
  have hd0 : mid.foldl (depthStep t) 0 = 0 := by
    rw [depth_append, ← h4] at hd
    exact hd
  have hun : Undisturbed t m mid := by
    rw [ht]
    exact undisturbed_of_single ha hi hr (pre := pre ++ [(t, .taken q m ev)]) (post := (t, .cb k) :: post) (by rw [h]; simp) hm
  have hun' : Undisturbed t m (mid ++ [(t, .cb k)]) := by
    intro e he htch
    rcases List.mem_append.1 he with he | he
    · exact hun e he htch
    · rw [List.mem_singleton.1 he] at htch
      cases htch
  have h5 : ∃ rest r, Handles (env.desc m) (machAt c0 m pre) ev (bare t 0 mid ++ .cb k :: rest) r := by
    have hplan : ∀ x, Item.thr x ∈ planNow (monCfg env m).d (machAt c0 m pre) ev → _ := fun x hx => thr_planNow hx
    rw [show mid ++ (t, .cb k) :: post = mid ++ [(t, .cb k)] ++ post by simp] at h2
    obtain ⟨g2, h7, _⟩ := mon_split h2
    have hnd' : ∀ m' ev', (t, Obs.done m' ev') ∉ mid ++ [(t, .cb k)] := by
      intro m' ev' hmem
      rcases List.mem_append.1 hmem with hmem | hmem
      · exact hnd m' ev' hmem
      · cases List.mem_singleton.1 hmem
    have h8 := prog_run (cfg := monCfg env m) hplan hun' hnd' prog_start h7
    obtain ⟨rest, r, h9⟩ := behaves_of_prog (cfg := monCfg env m) hplan h8
    have hb : bare t 0 (mid ++ [(t, .cb k)]) = bare t 0 mid ++ [.cb k] := by
      rw [bare_append, hd0]
      simp [bare, Spec.Calls.userObs]
    refine ⟨rest, r, ?_⟩
    rw [← ha.desc]
    refine handles_of_behaves ?_
    simp only [List.nil_append, hb] at h9
    simpa using h9
  obtain ⟨rest, r, h5⟩ := h5
  have h6 := allCb_at (handles_allCb h5)
  obtain ⟨g2, h7, _⟩ := mon_split h2
  have h8 := mem_undisturbed (cfg := monCfg env m) hun h7
  have h9 := mon_mem h7
  rw [h8] at h9
  rw [machAt_append]
  have : (machAt c0 m pre).after m ((t, .taken q m ev) :: mid) = (bare t 0 mid).foldl (Mem.step m) (machAt c0 m pre) := h9.symm
  rw [this]
  exact h6

/-- Event `go` of the demo run: when the listener is told that A has become B, it has. -/
example : Demo.tour.w.trace[42]? = some (Demo.w0, .cb (.end_ 0 Demo.A Demo.go Demo.B)) := by decide +kernel

example : Fits ((Demo.env Demo.acts).desc 0) Demo.go (machAt (Demo.conf true) 0 (Demo.tour.w.trace.take 25))
    (machAt (Demo.conf true) 0 (Demo.tour.w.trace.take 25 ++ (Demo.w0, .taken 0 0 Demo.go) :: (Demo.tour.w.trace.drop 26).take 16))
    (.end_ 0 Demo.A Demo.go Demo.B) :=
  C58_callbacks_fit (post := Demo.tour.w.trace.drop 43) (Demo.alone Demo.acts 0 false) (Demo.conf_initial true) Demo.tour_reach
    (by decide +kernel) (by decide +kernel)
    (fun m' ev' hmem => by
      have := List.all_eq_true.1 (by decide +kernel : ((Demo.tour.w.trace.drop 26).take 16).all
        (fun e => match e.2 with | .done .. => false | _ => true) = true) _ hmem
      simp at this)
    (fun e he => by
      have := List.all_eq_true.1 (by decide +kernel : ((Demo.tour.w.trace.drop 26).take 16).all
        (fun e => !meddles 0 e.2) = true) _ he
      simpa using this)

theorem nothing_thrown {tr : List (Tid × Obs)} (h : tr.all (fun e => match e.2 with | .cbRet _ (some _) => false | _ => true) = true)
    (t : Tid) (k : Cb) (x : Exc) : (t, .cbRet k (some x)) ∉ tr := by
  intro hmem
  have := List.all_eq_true.1 h _ hmem
  simp at this

/-- C58 is false if somebody calls `stop()` meanwhile: the worker reads the current state again after it has looked up the
transition, and tells the listener of a transition from the end state to B that nobody has configured and that does not take
place. All calls have returned, no user code threw. -/
theorem C58_negation_from_end : ∃ env c, Reach env c ∧ Alone env 0 ∧ (∀ t, c.thr t = none) ∧
    (∀ t k x, (t, .cbRet k (some x)) ∉ c.w.trace) ∧
    .end_ 0 (env.mach 0).res.endSt Demo.go Demo.B ∈ notes 0 c.w.trace ∧
    (env.desc 0).reaction (some (env.mach 0).res.endSt) Demo.go = .unmapped ∧ (∀ t a, (t, .cur 0 Demo.B a) ∉ c.w.trace) :=
  ⟨Demo.env Demo.acts, Demo.torn 5, ⟨_, Demo.conf_initial _, Demo.torn_reach 5⟩, Demo.alone Demo.acts 0 false, Demo.torn_idle5,
    nothing_thrown (by decide +kernel), by decide +kernel, by decide +kernel, fun t a hmem => by
      have := List.all_eq_true.1 (by decide +kernel : (Demo.torn 5).w.trace.all
        (fun e => match e.2 with | .cur _ s _ => decide (s ≠ Demo.B) | _ => true) = true) _ hmem
      simp at this⟩

/-- C58 is false if somebody calls `stop()` meanwhile: the listener is told that the machine has gone from A to B, but it has
not; it has never been in B, and neither the exit actions of A nor the entry actions of B have run. -/
theorem C58_negation_phantom : ∃ env c, Reach env c ∧ Alone env 0 ∧ (∀ t, c.thr t = none) ∧
    (∀ t k x, (t, .cbRet k (some x)) ∉ c.w.trace) ∧
    .end_ 0 Demo.A Demo.go Demo.B ∈ notes 0 c.w.trace ∧ (∀ t a, (t, .cur 0 Demo.B a) ∉ c.w.trace) ∧
    env.acts .exit Demo.A.oid ≠ [] ∧ env.acts .entry Demo.B.oid ≠ [] ∧
    (∀ t m k o i ev, (t, .cb (.action m k o i ev)) ∉ c.w.trace) :=
  ⟨Demo.env Demo.acts, Demo.torn 6, ⟨_, Demo.conf_initial _, Demo.torn_reach 6⟩, Demo.alone Demo.acts 0 false, Demo.torn_idle6,
    nothing_thrown (by decide +kernel), by decide +kernel, fun t a hmem => by
      have := List.all_eq_true.1 (by decide +kernel : (Demo.torn 6).w.trace.all
        (fun e => match e.2 with | .cur _ s _ => decide (s ≠ Demo.B) | _ => true) = true) _ hmem
      simp at this,
    by simp [Demo.env, Demo.acts, Demo.A], by simp [Demo.env, Demo.acts, Demo.B], fun t m k o i ev hmem => by
      have := List.all_eq_true.1 (by decide +kernel : (Demo.torn 6).w.trace.all
        (fun e => match e.2 with | .cb (.action ..) => false | _ => true) = true) _ hmem
      simp at this⟩

end
end Verif
