import Verif.Props.Events
import Verif.Props.Stranded
import Verif.Props.Calls
/-
C56: when everything has come to rest. The state of a machine is the fold of its transition table over the events that were
accepted, in the order in which they were accepted.
-/

namespace Verif
open Spec (MSt meddles openEv openStep takenOf)
open Spec.Mon
open Spec.Calls (IsCall StartFate userObs)

section
variable {env : Env} {c0 c : Conf} {m : MId} {t : Tid} {pre tr mid : List (Tid × Obs)}

/-- Everything has come to rest: no thread is doing anything, the machine's executor has no drain task for its queue, and has
never refused or thrown away one. -/
structure Conf.AtRest (env : Env) (m : MId) (c : Conf) : Prop where
  idle : ∀ t, c.thr t = none
  tasks : ∀ s m', (s, m') ∈ c.w.tasks (env.strat (env.mach m).strat).exec → (env.strat s).queue ≠ env.qm m
  lost : ∀ x ∈ c.w.trace, ∀ s m', (env.strat s).queue = env.qm m → x.2 ≠ .rejected s m' ∧ x.2 ≠ .taskDropped s m'

theorem idle_open (hp : Private env m) (hi : Initial c0) (hr : ReachFrom env c0 c) (h : c.thr t = none) :
    openEv t m c.w.trace = none := by
  obtain ⟨lst, hth, _, d, md, b, hrun, hat, hbot⟩ := mon_accepted hp hi hr t
  have h0 := hth t
  rw [h] at h0
  rw [show lst t = [] from h0] at hat
  have hmd : md = .idle := by
    cases hat with
    | nil => exact hbot
  obtain ⟨_, h5, _⟩ := run_open (cfg := monCfg env m) (g := G.init (c0.w.mach m).listener) trivial hrun
  subst hmd
  exact h5.symm

theorem taken_own (hp : Private env m) (hi : Initial c0) (hr : ReachFrom env c0 c) (h : c.w.trace = pre ++ tr) {e : Ev × MId}
    (he : e ∈ Spec.taken (env.qm m) tr) : e.2 = m := by
  obtain ⟨lst, _, ⟨_, ht⟩, _⟩ := mon_accepted hp hi hr .env
  obtain ⟨x, hx, hxe⟩ := List.mem_filterMap.1 he
  obtain ⟨u, o⟩ := x
  cases o with
  | taken q m' ev =>
    simp only [Option.ite_none_right_eq_some, Option.some.injEq] at hxe
    obtain ⟨rfl, rfl⟩ := hxe
    obtain ⟨_, _, _, _, _, h1⟩ := ht.taken u _ m' ev (by rw [h]; exact List.mem_append_right _ hx)
    exact hp.eq h1
  | _ => cases hxe

theorem takenOf_queue (hp : Private env m) (hi : Initial c0) (hr : ReachFrom env c0 c) (h : c.w.trace = pre ++ tr) :
    takenOf m tr = (Spec.taken (env.qm m) tr).map Prod.fst := by
  induction tr generalizing pre with
  | nil => rfl
  | cons e tr ih =>
    have hown : ∀ x ∈ Spec.taken (env.qm m) (e :: tr), x.2 = m := fun x hx => taken_own hp hi hr h hx
    have ih := ih (pre := pre ++ [e]) (by rw [h]; simp)
    obtain ⟨u, o⟩ := e
    cases o with
    | taken q m' ev =>
      simp only [takenOf, Spec.taken] at ih ⊢
      by_cases hm : m' = m
      · subst hm
        obtain ⟨rfl, _⟩ := at_taken hp hi hr h
        simp [ih]
      · by_cases hq : q = env.qm m
        · exact absurd (hown (ev, m') (by simp [Spec.taken, hq])) hm
        · simp [ih, hm, hq]
    | _ => exact ih

/-- C56: when everything has come to rest, and nobody has started or stopped the machine or replaced its listener after some
moment at which no event was in processing, and no user code of the machine has thrown since, then the state of the machine
is the fold of its transition table over all events that had not been taken by then, in the order of their acceptance. No
accepted event is forgotten, none counts twice, whatever the threads that fired them did and however they were scheduled. -/
theorem C56_at_rest (ha : Alone env m) (hi : Initial c0) (hr : ReachFrom env c0 c) (hrest : c.AtRest env m)
    (h : c.w.trace = pre ++ tr) (h0 : openEv (env.workerOf m) m pre = none)
    (hm : ∀ e ∈ tr, meddles m e.2 = false)
    (hok : ∀ c x, (env.workerOf m, Obs.cbRet c (some x)) ∈ tr → Spec.Calls.cbMach c ≠ some m) :
    (⟨(c.w.mach m).cur, (c.w.mach m).ended⟩ : MSt) =
      (((Spec.accepted (env.qm m) c.w.trace).drop (Spec.taken (env.qm m) pre).length).map Prod.fst).foldl (env.desc m).next
        (machAt c0 m pre).st := by
  rw [C17_fold ha hi hr h rfl h0 (by rw [← h]; exact idle_open ha.priv hi hr (hrest.idle _)) hm hok]
  have h1 := (C14_all_taken ⟨_, hi, hr⟩ (fun s hs => by rw [ha.priv.queue s hs]) hrest.idle hrest.tasks hrest.lost).2
  have h2 : Spec.taken (env.qm m) (pre ++ tr) = Spec.taken (env.qm m) pre ++ Spec.taken (env.qm m) tr := List.filterMap_append ..
  rw [← h1, takenOf_queue ha.priv hi hr h, h, h2, List.drop_left]

theorem after_touching (m : MId) (mem : Mem) (tr : List (Tid × Obs)) :
    mem.after m tr = (tr.filter fun e => touches m e.2).foldl (fun mem e => mem.step m e.2) mem := by
  induction tr generalizing mem with
  | nil => rfl
  | cons e tr ih =>
    rw [show mem.after m (e :: tr) = (mem.step m e.2).after m tr from rfl, ih]
    by_cases he : touches m e.2 = true
    · simp [he]
    · have : mem.step m e.2 = mem := by
        obtain ⟨u, o⟩ := e
        cases o <;> first | rfl | (simp only [touches, decide_eq_true_eq] at he; simp [Mem.step, he])
      simp [he, this]

/-- Nobody interferes with the first `start()` of the machine: of the entries so far, only those of the call itself change the
machine, and no event has been taken yet. Then the machine is in its initial state. -/
theorem start_state (ha : Alone env m) (hi : Initial c0) (hr : ReachFrom env c0 c) {os : List Obs} {s : St}
    (hc : IsCall c.w.trace t (.start m) pre mid os none) (hs : (env.mach m).init = some s)
    (hpre : ∀ e ∈ pre, meddles m e.2 = false)
    (hmid : (mid.filter fun e => meddles m e.2).map Prod.snd = os.filter (meddles m))
    (hnt : ∀ u q ev, (u, Obs.taken q m ev) ∉ pre ++ mid) :
    (machAt c0 m (pre ++ (t, .enter (.start m)) :: (mid ++ [(t, .leave (.start m) none)]))).st = ⟨some s, false⟩ := by
  have hfate := C49_start_protocol hi hr hc
  obtain ⟨post, hsplit⟩ := hc.split
  generalize hH : pre ++ (t, Obs.enter (.start m)) :: (mid ++ [(t, .leave (.start m) none)]) = hist
  have hsp : c.w.trace = hist ++ post := by rw [hsplit, ← hH]; simp
  have hnt' : ∀ u q ev, (u, Obs.taken q m ev) ∉ hist := by
    intro u q ev hmem
    rw [← hH] at hmem
    simp only [List.mem_append, List.mem_cons, Prod.mk.injEq, reduceCtorEq, and_false, false_or, List.not_mem_nil, or_false] at hmem
    exact hnt u q ev (List.mem_append.2 hmem)
  have htm : ∀ e ∈ hist, touches m e.2 = meddles m e.2 := by
    rintro ⟨u, x⟩ he
    obtain ⟨g, h2, _⟩ := history_open ha.priv hi hr u hsp
    have h3 := (run_idle (cfg := monCfg env m) (g := G.init (c0.w.mach m).listener) rfl (hnt' u) h2).2.1 x he
    cases ht : touches m x with
    | true => exact (h3 ht).symm
    | false => cases x <;> simp_all [touches, meddles]
  have hfil : (hist.filter fun e => touches m e.2).map Prod.snd = os.filter (meddles m) := by
    rw [List.filter_congr htm, ← hH, List.filter_append, ← hmid, List.filter_eq_nil_iff.2 (by simpa using hpre)]
    simp [meddles]
  have hmem : machAt c0 m hist = (os.filter (meddles m)).foldl (Mem.step m) (Mem.init (c0.w.mach m).listener) := by
    rw [machAt, after_touching, ← hfil, List.foldl_map]
  rw [hmem]
  have hcs : ∀ {s'}, (callsCfg env).init m = some s' → s' = s := fun h => Option.some.inj (h.symm.trans hs)
  cases hfate with
  | @ok s' lst _ h2 _ =>
    cases hcs h2
    have hran : ∀ pl, (Spec.Calls.ran pl).filter (meddles m) = [] := by
      intro pl
      induction pl with
      | nil => rfl
      | cons it pl ih => cases it <;> first | exact ih | simp [Spec.Calls.ran, meddles, ih]
    simp [List.filter_append, hran, meddles, Mem.step, Mem.st]
  | @swapped s' rest _ u l _ h2 h3 h4 h5 =>
    exfalso
    have h6 : Obs.listener m l ∈ (mid.filter fun e => meddles m e.2).map Prod.snd :=
      List.mem_map.2 ⟨(u, .listener m l), List.mem_filter.2 ⟨h3, by simp [meddles]⟩, rfl⟩
    rw [hmid] at h6
    have h7 := (List.mem_filter.1 h6).1
    simp only [List.mem_cons, reduceCtorEq, false_or] at h7
    rcases h4 _ h7 with ⟨_, h⟩ | ⟨_, _, h⟩ | h <;> cases h

/-- C56 for a machine which is started once: it is started, nobody interferes with that (see `start_state`), and after that
nobody starts or stops it or replaces its listener, and no user code of it throws. When everything has come to rest, the
state of the machine is the fold of its table over all events ever accepted, beginning with the initial state. -/
theorem C56_from_start (ha : Alone env m) (hi : Initial c0) (hr : ReachFrom env c0 c) (hrest : c.AtRest env m)
    {os : List Obs} {s : St} {post : List (Tid × Obs)} (hs : (env.mach m).init = some s)
    (h : c.w.trace = pre ++ (t, .enter (.start m)) :: (mid ++ (t, .leave (.start m) none) :: post))
    (hown : Spec.Calls.own t 0 mid = some os)
    (hpre : ∀ e ∈ pre, meddles m e.2 = false)
    (hmid : (mid.filter fun e => meddles m e.2).map Prod.snd = os.filter (meddles m))
    (hnt : ∀ u q ev, (u, Obs.taken q m ev) ∉ pre ++ mid)
    (hm : ∀ e ∈ post, meddles m e.2 = false)
    (hok : ∀ c x, (env.workerOf m, Obs.cbRet c (some x)) ∈ post → Spec.Calls.cbMach c ≠ some m) :
    (⟨(c.w.mach m).cur, (c.w.mach m).ended⟩ : MSt) =
      ((Spec.accepted (env.qm m) c.w.trace).map Prod.fst).foldl (env.desc m).next ⟨some s, false⟩ := by
  have h1 : c.w.trace = (pre ++ (t, .enter (.start m)) :: (mid ++ [(t, .leave (.start m) none)])) ++ post := by rw [h]; simp
  have hnt' : ∀ u q ev, (u, Obs.taken q m ev) ∉ pre ++ (t, Obs.enter (.start m)) :: (mid ++ [(t, .leave (.start m) none)]) := by
    intro u q ev hmem
    simp only [List.mem_append, List.mem_cons, Prod.mk.injEq, reduceCtorEq, and_false, false_or, List.not_mem_nil, or_false] at hmem
    exact hnt u q ev (List.mem_append.2 hmem)
  obtain ⟨g, h2, _, h3, _⟩ := history_open ha.priv hi hr (env.workerOf m) h1
  have h4 := (run_idle (cfg := monCfg env m) (g := G.init (c0.w.mach m).listener) rfl (hnt' _) h2).1
  have h5 := C56_at_rest ha hi hr hrest h1 (by rw [← h3, h4]; rfl) hm hok
  rw [start_state ha hi hr ⟨⟨post, h⟩, hown⟩ hs hpre hmid hnt] at h5
  have h6 : Spec.taken (env.qm m) (pre ++ (t, Obs.enter (.start m)) :: (mid ++ [(t, .leave (.start m) none)])) = [] := by
    refine List.eq_nil_iff_forall_not_mem.2 fun e he => ?_
    have h7 := taken_own ha.priv hi hr (pre := []) (tr := c.w.trace) rfl (e := e)
      (by rw [h1, Spec.taken, List.filterMap_append]; exact List.mem_append_left _ he)
    obtain ⟨⟨u, o⟩, hx, hxe⟩ := List.mem_filterMap.1 he
    cases o with
    | taken q m' ev =>
      simp only [Option.ite_none_right_eq_some, Option.some.injEq] at hxe
      obtain ⟨_, rfl⟩ := hxe
      cases h7
      exact hnt' u q ev hx
    | _ => cases hxe
  rw [h6] at h5
  exact h5

end

namespace Demo

/-- One client starts the machine and fires two events. Another one fires two events concurrently. The worker executes the
four drain tasks; the first two of them run while the clients are still firing. -/
def rested : Conf :=
  drive (Demo.env acts) (conf true) ([.begin 0 (client 0 [go, stay])] ++ runN (.client 0) 26 ++
    [.begin 1 (.call (.fire 0 back) fun _ => .call (.fire 0 go) fun _ => .done)] ++ runN (.client 1) 10 ++ [.dispatch 0 0 0] ++
    runN (.worker 0 0) 20 ++ runN (.client 0) 60 ++ runN (.worker 0 0) 150 ++ runN (.client 1) 60 ++
    [.dispatch 0 0 0] ++ runN (.worker 0 0) 100 ++ [.dispatch 0 0 0] ++ runN (.worker 0 0) 100 ++ [.dispatch 0 0 0] ++ runN (.worker 0 0) 60)

theorem rested_reach : ReachFrom (Demo.env acts) (conf true) rested := drive_reach _ _ _

theorem rested_rest : rested.AtRest (Demo.env acts) 0 where
  idle := by
    unfold rested
    exact idle_of (fun _ => rfl) [.client 0, .client 1, .worker 0 0] (by decide +kernel) (by decide +kernel)
  tasks := fun s m h => by
    rw [show rested.w.tasks ((Demo.env acts).strat ((Demo.env acts).mach 0).strat).exec = [] by decide +kernel] at h; cases h
  lost := nothing_lost (by decide +kernel)

end Demo

example : (⟨(Demo.rested.w.mach 0).cur, (Demo.rested.w.mach 0).ended⟩ : MSt) =
    ((Spec.accepted 0 Demo.rested.w.trace).map Prod.fst).foldl ((Demo.env Demo.acts).desc 0).next ⟨some Demo.A, false⟩ :=
  C56_from_start (Demo.alone Demo.acts 0 false) (Demo.conf_initial true) Demo.rested_reach Demo.rested_rest (t := .client 0)
    (pre := []) (mid := (Demo.rested.w.trace.drop 1).take 7) (post := Demo.rested.w.trace.drop 9)
    (os := ((Demo.rested.w.trace.drop 1).take 7).map Prod.snd) (by decide +kernel) (by decide +kernel) (by decide +kernel)
    (fun _ h => (nomatch h)) (by decide +kernel)
    (fun u q ev h => by
      have := (by decide +kernel : ((Demo.rested.w.trace.drop 1).take 7).all
        (fun e => match e.2 with | .taken .. => false | _ => true) = true)
      rcases List.mem_append.1 h with h | h
      · cases h
      · exact absurd (List.all_eq_true.1 this _ h) (by simp))
    (fun e he => by
      have := (by decide +kernel : (Demo.rested.w.trace.drop 9).all (fun e => !meddles 0 e.2) = true)
      simpa using List.all_eq_true.1 this _ he)
    (fun c x h => by
      have := (by decide +kernel : (Demo.rested.w.trace.drop 9).all
        (fun e => match e.2 with | .cbRet _ (some _) => false | _ => true) = true)
      exact absurd (List.all_eq_true.1 this _ h) (by simp))

/-- The events of the two clients were accepted in the order `go`, `back`, `stay`, `go`, and the machine is in B. -/
example : (Spec.accepted 0 Demo.rested.w.trace).map Prod.fst = [Demo.go, Demo.back, Demo.stay, Demo.go] ∧
    (Demo.rested.w.mach 0).cur = some Demo.B := by decide +kernel

end Verif
