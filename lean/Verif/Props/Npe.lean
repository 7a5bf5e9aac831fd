import Verif.Spec.Npe
import Verif.Props.Script
import Verif.Props.Calls
import Verif.Props.Live
import Verif.Proofs.Wait
/-
C79: NullPointerExceptions of event processing.
-/

namespace Verif
open Spec
open Spec.Course
open Spec.Mon (Mem)

variable {env : Env} {c0 c : Conf} {t : Tid} {m : MId} {ev : Ev}

namespace Npe

theorem mem_cur {v : Mem} {tr : List (Tid × Obs)} (h : (v.after m tr).cur = none) : v.cur = none ∧ ∀ u a b, (u, .cur m a b) ∉ tr := by
  induction tr generalizing v with
  | nil => exact ⟨h, by simp⟩
  | cons e tr ih =>
    obtain ⟨h1, h2⟩ := ih (v := v.step m e.2) h
    obtain ⟨u, x⟩ := e
    have : v.cur = none ∧ ∀ a b, x ≠ .cur m a b := by
      cases x <;> simp only [Mem.step] at h1 <;> first
        | exact ⟨h1, by simp⟩
        | (split at h1
           · first
             | exact ⟨h1, by simp⟩
             | cases h1
           · refine ⟨h1, ?_⟩
             intro a b hx
             cases hx <;> contradiction)
    refine ⟨this.1, fun u' a b hm => ?_⟩
    rcases List.mem_cons.1 hm with hm | hm
    · cases hm; exact this.2 _ _ rfl
    · exact h2 u' a b hm

end Npe

/-- C79: if event processing reports a `NullPointerException`, then user code threw it, or the listener was removed while the event was
processed, or the event was taken before `start()`, `startInState()` or `stop()` had set the state, or the state has no entry in the table. -/
theorem C79_cause (hi : Initial c0) (hr : ReachFrom env c0 c) (ht : t ≠ .env) {past post : List (Tid × Obs)}
    (h : c.w.trace = past ++ (t, .cb (.flowEx m ev .npe)) :: post) (h0 : inCalls t past = 0) :
    ∃ s pre mid, Open (Course.cfg env) t past pre mid s m ev ∧ NpeCause (Course.cfg env) t (machAt c0) pre mid s m ev := by
  have hre := C57_reasons hi hr ht h
  generalize hx : Obs.cb (.flowEx m ev .npe) = x at hre
  cases hre with
  | enter => cases hx
  | inner h1 => omega
  | user h1 => subst hx; cases h1
  | taken => cases hx
  | uncaught => cases hx
  | @event s cm i pre mid m' ev' x _ _ _ ho hw =>
    cases hw with
    | @note b _ _ _ _ _ => cases b <;> cases hx
    | threw _ hm => cases hx; exact ⟨_, _, _, ho, .user hm⟩
    | removed hm => cases hx; exact ⟨_, _, _, ho, .removed hm⟩
    | norow hm =>
      cases hx
      refine ⟨_, _, _, ho, ?_⟩
      obtain ⟨a, b, hab, hrow⟩ := hm
      cases hc : (machAt c0 m (pre ++ (t, .taken ((Course.cfg env).queue s) m ev) :: a)).cur with
      | none =>
        refine .early fun u a' b' hmem => ?_
        exact (Npe.mem_cur hc).2 u a' b' (List.mem_append_left _ hmem)
      | some x =>
        rw [hc] at hrow
        exact .norow ⟨a, b, hab, hc⟩ hrow
    | _ => cases hx

namespace Npe
open Spec.Calls (G stack next)

/-- Calls that are about to set the state have passed their checks. -/
def Passed (cfg : Spec.Calls.Cfg) (cs : List Spec.Calls.Call) : Prop := ∀ k ∈ cs, k.st = .won → cfg.fail k.api = none

theorem passed_next {cfg : Spec.Calls.Cfg} {mem : Spec.Calls.Mem} {k : Spec.Calls.Call} {o : Obs} (h : next cfg mem k o = some .won) :
    cfg.fail k.api = none := by
  unfold next at h
  repeat' split at h
  all_goals first
    | (simp_all; done)
    | (obtain ⟨_, h1⟩ := ‹_ ∧ _›; rename_i he _ _; rw [he]; exact h1)

theorem passed_stack {cfg : Spec.Calls.Cfg} {mem : Spec.Calls.Mem} {cs cs' : List Spec.Calls.Call} {o : Obs} (hp : Passed cfg cs)
    (h : stack cfg mem cs o = some cs') : Passed cfg cs' := by
  unfold stack at h
  split at h
  · cases h; exact hp
  · cases h; intro k hk; simp only [List.mem_singleton] at hk; subst hk; intro h; cases h
  · split at h
    · cases h
      intro k hk
      rcases List.mem_cons.1 hk with rfl | hk
      · intro h; cases h
      · exact hp k hk
    · cases h
  · split at h
    · cases h; exact fun k hk => hp k (List.mem_cons_of_mem _ hk)
    · cases h
  · cases h
  · split at h
    · cases h; exact hp
    · cases h
  · split at h
    · cases h; exact hp
    · split at h
      next st hn =>
        cases h
        intro k hk
        rcases List.mem_cons.1 hk with rfl | hk
        · rintro ⟨⟩
          have := passed_next hn
          exact this
        · exact hp k (List.mem_cons_of_mem _ hk)
      · cases h

theorem passed_run {cfg : Spec.Calls.Cfg} {tr : List (Tid × Obs)} : ∀ {g g' : G}, (∀ t, Passed cfg (g.calls t)) →
    Spec.Calls.run cfg g tr = some g' → ∀ t, Passed cfg (g'.calls t) := by
  induction tr with
  | nil => intro g g' hp h; cases h; exact hp
  | cons e tr ih =>
    intro g g' hp h
    obtain ⟨cs, _, h1, h2⟩ := run_cons h
    refine ih (fun t k hk => ?_) h2
    obtain ⟨k', hk', rfl⟩ := List.mem_map.1 hk
    show k'.st = _ → _
    by_cases ht : t = e.1
    · subst ht
      rw [fset_same] at hk'
      exact passed_stack (hp _) h1 k' hk'
    · rw [fset_ne _ _ ht] at hk'
      exact hp t k' hk'

/-- States that are set by API calls. -/
theorem api_cur (hi : Initial c0) (hr : ReachFrom env c0 c) {u : Tid} {a : St} (h : (u, .cur m a true) ∈ c.w.trace) :
    (env.mach m).init = some a ∨ a = (env.mach m).res.endSt ∨ (env.mach m).table.row? (some a) ≠ none := by
  obtain ⟨g, hg, -⟩ := run_of_reach hi hr
  obtain ⟨pre, post, hs⟩ := List.append_of_mem h
  rw [hs] at hg
  obtain ⟨g1, h1, h2⟩ := run_split hg
  have hp := passed_run (by intro t k hk; cases hk) h1 u
  obtain ⟨cs, _, h3, _⟩ := run_cons h2
  generalize g1.calls u = l at hp h3
  cases l with
  | nil => simp [stack, Spec.Calls.background] at h3
  | cons k l =>
    simp only [stack, Spec.Calls.userObs, Bool.false_eq_true, and_false, if_false] at h3
    split at h3
    next st hn =>
      have hpk := hp k List.mem_cons_self
      obtain ⟨api, st', seen, since⟩ := k
      cases api with
      | fire m' ev => cases st' <;> cases hn
      | stop m' =>
        cases st' <;> first | (cases hn; done) | skip
        simp only [next] at hn
        split at hn
        next h4 => obtain ⟨rfl, rfl, -⟩ := h4; exact Or.inr (Or.inl rfl)
        · cases hn
      | start m' =>
        cases st' <;> first | (cases hn; done) | skip
        simp only [next] at hn
        split at hn
        next h4 => obtain ⟨rfl, h4, -⟩ := h4; exact Or.inl h4
        · cases hn
      | startInState m' s =>
        cases st' <;> first | (cases hn; done) | skip
        simp only [next] at hn
        split at hn
        next h4 =>
          obtain ⟨rfl, rfl, -⟩ := h4
          refine Or.inr (Or.inr fun hrow => ?_)
          have := hpk rfl
          simp [callsCfg, Env.startInFail, hrow] at this
        · cases hn
    · cases h3

theorem drive_runs {xs : List Choice} : ∀ {c0 c : Conf}, runs env c0 xs = some c → drive env c0 xs = c := by
  induction xs with
  | nil => intro c0 c h; cases h; rfl
  | cons x xs ih =>
    intro c0 c h
    simp only [runs] at h
    split at h
    · cases h
    next c1 hc => rw [← ih h]; simp [drive, tryStep, hc]

theorem env_entry (hi : Initial c0) (hr : ReachFrom env c0 c) {x : Obs} (h : (Tid.env, x) ∈ c.w.trace) : ∃ s m, x = .taskDropped s m := by
  obtain ⟨xs, hx⟩ := hr
  rw [← drive_runs hx, ← Demo.runOf_end (hi := hi) (Nat.le_refl _)] at h
  exact Wait.env_obs _ _ h

/-- The strategy of a thread that processes events of `m`. -/
theorem open_strat (hp : Private env m) (hi : Initial c0) (hr : ReachFrom env c0 c) {past pre mid post : List (Tid × Obs)} {s : SId}
    (ho : Open (Course.cfg env) t past pre mid s m ev) (h : c.w.trace = past ++ post) : s = (env.mach m).strat := by
  obtain ⟨h1, -⟩ := at_taken hp hi hr (pre := pre) (q := (Course.cfg env).queue s) (t := t) (ev := ev) (post := mid ++ post)
    (by rw [h, ho.split]; simp)
  exact hp.queue s h1

/-- States that are set by event processing. -/
theorem proc_cur (hp : Private env m) (hi : Initial c0) (hr : ReachFrom env c0 c) {u : Tid} {a : St} (h : (u, .cur m a false) ∈ c.w.trace) :
    a = (env.mach m).res.endSt ∨
      ∃ x row k, (env.strat (env.mach m).strat).table.row? x = some row ∧ row.target k = some a := by
  have hu : u ≠ .env := by
    rintro rfl
    obtain ⟨_, _, h⟩ := env_entry hi hr h
    cases h
  obtain ⟨past, post, hs⟩ := List.append_of_mem h
  have h1 := C57_reasons hi hr hu hs
  generalize hx : Obs.cur m a false = x at h1
  cases h1 with
  | enter => cases hx
  | inner _ h1 => subst hx; cases h1
  | user h1 => subst hx; cases h1
  | taken => cases hx
  | uncaught => cases hx
  | @event s cm i pre mid m' ev' x _ _ _ ho hw =>
    cases hw with
    | @note b _ _ _ _ _ => cases hx
    | @write b e hm =>
      cases hx
      obtain ⟨p1, p2, hp12⟩ := List.append_of_mem hm
      have h2 := C57_reasons hi hr hu (past := pre ++ (u, .taken ((Course.cfg env).queue s) m ev') :: p1) (x := .upd m a e false)
        (post := p2 ++ (u, .cur m a false) :: post) (by rw [hs, ho.split, hp12]; simp)
      generalize hy : Obs.upd m a e false = y at h2
      cases h2 with
      | enter => cases hy
      | inner _ h1 => subst hy; cases h1
      | user h1 => subst hy; cases h1
      | taken => cases hy
      | uncaught => cases hy
      | @event s' cm' i' pre' mid' m'' ev'' y _ _ _ ho' hw' =>
        cases hw' with
        | note => cases hy
        | enter hl _ _ =>
          cases hy
          obtain rfl := open_strat hp hi hr ho' (post := (u, .upd m a (a.name == resEnd) false) :: (p2 ++ (u, .cur m a false) :: post))
            (by rw [hs, ho.split, hp12]; simp)
          obtain ⟨_, _, _, row, h1, h2⟩ := hl
          exact Or.inr ⟨_, row, _, h1, h2⟩
        | halt => cases hy; exact Or.inl rfl
        | _ => cases hy
    | _ => cases hx

theorem open_unique {cfg : Cfg} {past pre mid pre' mid' : List (Tid × Obs)} {s s' : SId} {m' : MId} {ev' : Ev} (h : Open cfg t past pre mid s m ev)
    (h' : Open cfg t past pre' mid' s' m' ev') : pre = pre' ∧ mid = mid' := by
  have hs := h.split.symm.trans h'.split
  rcases List.append_eq_append_iff.1 hs with ⟨l, h1, h2⟩ | ⟨l, h1, h2⟩
  · cases l with
    | nil => simp only [List.nil_append, List.cons.injEq] at h2; exact ⟨by simpa using h1.symm, h2.2⟩
    | cons e l =>
      simp only [List.cons_append, List.cons.injEq] at h2
      exact absurd (by rw [h2.2]; simp) (h.last (cfg.queue s') m' ev')
  · cases l with
    | nil => simp only [List.nil_append, List.cons.injEq] at h2; exact ⟨by simpa using h1, h2.2.symm⟩
    | cons e l =>
      simp only [List.cons_append, List.cons.injEq] at h2
      exact absurd (by rw [h2.2]; simp) (h'.last (cfg.queue s) m ev)

theorem row_of_cur {T : Table} (hp : Private env m) (hT : (env.strat (env.mach m).strat).table = T)
    (hc : Covers T (env.mach m).table (env.mach m).init (env.mach m).res.endSt) (hi : Initial c0) (hr : ReachFrom env c0 c) {u : Tid} {a : St}
    {b : Bool} (h : (u, .cur m a b) ∈ c.w.trace) : T.row? (some a) ≠ none := by
  cases b with
  | true =>
    rcases api_cur hi hr h with h | rfl | h
    · exact hc.init a h
    · exact hc.last
    · exact hc.given a h
  | false =>
    rcases proc_cur hp hi hr h with rfl | ⟨x, row, k, h1, h2⟩
    · exact hc.last
    · exact hc.closed x row k a (by rw [← hT]; exact h1) h2

theorem cur_mem {v : Mem} {tr : List (Tid × Obs)} {a : St} (h : (v.after m tr).cur = some a) : v.cur = some a ∨ ∃ u b, (u, .cur m a b) ∈ tr := by
  induction tr generalizing v with
  | nil => exact Or.inl h
  | cons e tr ih =>
    rcases ih (v := v.step m e.2) h with h1 | ⟨u, b, h1⟩
    · obtain ⟨u, x⟩ := e
      cases x <;> simp only [Mem.step] at h1 <;> first
        | exact Or.inl h1
        | (split at h1
           · first
             | exact Or.inl h1
             | (cases h1; rename_i hm; subst hm; exact Or.inr ⟨_, _, List.mem_cons_self⟩)
           · exact Or.inl h1)
    · exact Or.inr ⟨u, b, List.mem_cons_of_mem _ h1⟩

end Npe

/-- C79: if every state the machine can get into is configured, the event was taken after the machine was given its first state, no user code called
for it threw a `NullPointerException`, and the listener was not removed meanwhile, then event processing does not report one. -/
theorem C79_none (hp : Private env m)
    (hc : Covers (env.strat (env.mach m).strat).table (env.mach m).table (env.mach m).init (env.mach m).res.endSt) (hi : Initial c0) (hr : ReachFrom env c0 c) (ht : t ≠ .env)
    {past post pre mid : List (Tid × Obs)} {s : SId} {x : Obs} (h : c.w.trace = past ++ (t, x) :: post) (h0 : inCalls t past = 0)
    (ho : Open (Course.cfg env) t past pre mid s m ev) {u : Tid} {a : St} {b : Bool} (hcur : (u, .cur m a b) ∈ pre)
    (huser : ∀ c, (t, .cbRet c (some .npe)) ∉ mid) (hlst : ∀ u, (u, .listener m none) ∉ mid) : x ≠ .cb (.flowEx m ev .npe) := by
  rintro rfl
  obtain ⟨s', pre', mid', ho', hcause⟩ := C79_cause hi hr ht h h0
  obtain ⟨rfl, rfl⟩ := Npe.open_unique ho ho'
  cases hcause with
  | user h1 => exact huser _ h1
  | removed h1 => exact hlst _ h1
  | early h1 => exact h1 _ _ _ hcur
  | @norow x h1 h2 =>
    obtain rfl := Npe.open_strat hp hi hr ho' h
    obtain ⟨d1, d2, rfl, h3⟩ := h1
    rcases Npe.cur_mem h3 with h3 | ⟨u', b', h3⟩
    · cases h3
    · refine Npe.row_of_cur hp rfl hc hi hr (u := u') (b := b') ?_ h2
      rw [h, ho'.split]
      rcases List.mem_append.1 h3 with h3 | h3
      · simp [h3]
      · rcases List.mem_cons.1 h3 with h3 | h3
        · cases h3
        · simp [h3]

namespace Demo

/-- A --go--> B, B --back--> A -/
def roundCfg : CfgSt := cfgRun rs [.initialSate (some A), .receives (some go), .itTransitionsTo (some B),
  .when_ (some B), .receives (some back), .itTransitionsTo (some A)] .empty

def roundEnv : Env := { Demo.env acts with
  mach := fun m => ⟨m, roundCfg.table, roundCfg.init, rs⟩
  strat := fun s => ⟨s, s, 0, false, roundCfg.table⟩ }

theorem round_private : Private roundEnv 0 := ⟨fun _ h => h, fun _ h => h⟩

theorem closed_of {T : Table} (h : T.all (fun p => p.2.ents.all fun e => match e.2 with | none => true | some b => (T.row? (some b)).isSome) = true) :
    ∀ a row k b, T.row? a = some row → row.target k = some b → T.row? (some b) ≠ none := by
  intro a row k b h1 h2 h3
  cases a with
  | none => cases h1
  | some a =>
    unfold Row.target at h2
    cases hk : AMap.get? row.ents k with
    | none => rw [hk] at h2; cases h2
    | some y =>
      rw [hk] at h2
      cases y with
      | none => cases h2
      | some y =>
        cases h2
        have := List.all_eq_true.1 (List.all_eq_true.1 h _ (AMap.get?_some_mem h1)) _ (AMap.get?_some_mem hk)
        simp only at this
        rw [h3] at this
        cases this

theorem round_covers : Covers (roundEnv.strat (roundEnv.mach 0).strat).table (roundEnv.mach 0).table (roundEnv.mach 0).init
    (roundEnv.mach 0).res.endSt where
  init := by intro a h; cases h; decide +kernel
  last := by decide +kernel
  given := fun a h => h
  closed := closed_of (by decide +kernel)

/-- The listener of machine 0 is installed; `go` is fired and processed. -/
def round : Conf :=
  drive roundEnv (conf true) ([.begin 0 (client 0 [go])] ++ runN (.client 0) 40 ++ [.dispatch 0 0 0] ++ runN (.worker 0 0) 80)

/-- Client 0 is in `start()`, has marked the machine as started, but has not set its state; client 1 fires `go`, which is processed. -/
def beforeState : Conf :=
  drive (Demo.env acts) conf ([.begin 0 (client 0 [])] ++ runN (.client 0) 2 ++ [.begin 1 (.call (.fire 0 go) fun _ => .done)] ++
    runN (.client 1) 30 ++ [.dispatch 0 0 0] ++ runN (.worker 0 0) 50 ++ runN (.client 0) 20)

/-- Client 0 starts the machine and fires `e`; when the worker has done `n` steps client 1 removes the listener. -/
def gone (e : Ev) (n : Nat) : Conf :=
  drive (Demo.env acts) (conf true) ([.begin 0 (client 0 [e])] ++ runN (.client 0) 40 ++ [.dispatch 0 0 0] ++ runN (.worker 0 0) n ++
    [.begin 1 (.call (.setListener 0 none) fun _ => .done)] ++ runN (.client 1) 3 ++ runN (.worker 0 0) 80)

theorem round_reach : ReachFrom roundEnv (conf true) round := drive_reach _ _ _

theorem beforeState_reach : ReachFrom (Demo.env acts) conf beforeState := drive_reach _ _ _

theorem gone_reach (e : Ev) (n : Nat) : ReachFrom (Demo.env acts) (conf true) (gone e n) := drive_reach _ _ _

theorem beforeState_idle : ∀ t, beforeState.thr t = none := by
  unfold beforeState
  exact idle_of (fun _ => rfl) [.client 0, .client 1, .worker 0 0] (by decide +kernel) (by decide +kernel)

theorem gone_go_idle : ∀ t, (gone go 7).thr t = none := by
  unfold gone
  exact idle_of (fun _ => rfl) [.client 0, .client 1, .worker 0 0] (by decide +kernel) (by decide +kernel)

theorem gone_quit_idle : ∀ t, (gone quit 23).thr t = none := by
  unfold gone
  exact idle_of (fun _ => rfl) [.client 0, .client 1, .worker 0 0] (by decide +kernel) (by decide +kernel)

end Demo


theorem no_entry {tr : List (Tid × Obs)} {p : Obs → Bool} (h : tr.all (fun e => !p e.2) = true) {t : Tid} {x : Obs} (hp : p x = true) :
    (t, x) ∉ tr := by
  intro hm
  have := List.all_eq_true.1 h _ hm
  simp [hp] at this

/-- The exception that is reported in `beforeState` has its cause: the event was taken before the machine had a state. -/
example : ∃ s pre mid, Open (Course.cfg (Demo.env Demo.acts)) (.worker 0 0) (Demo.beforeState.w.trace.take 7) pre mid s 0 Demo.go ∧
    NpeCause (Course.cfg (Demo.env Demo.acts)) (.worker 0 0) (machAt (Demo.conf)) pre mid s 0 Demo.go :=
  C79_cause (post := Demo.beforeState.w.trace.drop 8) (Demo.conf_initial false) Demo.beforeState_reach (by simp)
    (by decide +kernel) (by decide +kernel)

/-- `go` in `round`: whatever the worker does after it has taken the event, it does not report an exception. -/
example : ∀ x post, Demo.round.w.trace = Demo.round.w.trace.take 28 ++ (.worker 0 0, x) :: post → x ≠ .cb (.flowEx 0 Demo.go .npe) :=
  fun x post h => C79_none (u := .client 0) (a := Demo.A) (b := true) (s := 0)
    (pre := Demo.round.w.trace.take 13) (mid := (Demo.round.w.trace.take 28).drop 14)
    Demo.round_private Demo.round_covers (Demo.conf_initial true) Demo.round_reach (by simp) h (by decide +kernel)
    ⟨by decide +kernel, fun _ _ _ => no_entry (p := fun | .taken .. => true | _ => false) (by decide +kernel) rfl,
      fun _ _ => no_entry (p := fun | .done .. => true | _ => false) (by decide +kernel) rfl⟩
    (by decide +kernel) (fun _ => no_entry (p := fun | .cbRet _ (some _) => true | _ => false) (by decide +kernel) rfl)
    (fun _ => no_entry (p := fun | .listener .. => true | _ => false) (by decide +kernel) rfl)

/-- The claim that is not true: if user code never throws and nobody stops the machine, the only event that was accepted has had its effect when
everything is at rest; `quiet`: what else is asked of the history. -/
def EventHasEffect (quiet : MId → List (Tid × Obs) → Prop) : Prop :=
  ∀ (env : Env) (c : Conf) (m : MId) (ev : Ev) (i b : St) (row : Row), Alone env m → Reach env c → (∀ t, c.thr t = none) → c.w.tasks (env.strat (env.mach m).strat).exec = [] →
    (c.w.mach m).started = true → (∀ t k x, (t, .cbRet k (some x)) ∉ c.w.trace) → (∀ t, (t, .enter (.stop m)) ∉ c.w.trace) →
    (∀ t s, (t, .enter (.startInState m s)) ∉ c.w.trace) → quiet m c.w.trace →
    Spec.accepted (env.qm m) c.w.trace = [(ev, m)] → (env.mach m).init = some i → (env.mach m).table.row? (some i) = some row →
    row.target (some ev.key) = some b → b.name ≠ resNoop → (c.w.mach m).cur = some b ∨ (c.w.mach m).ended = true

/-- C79: an event that another thread fires while `start()` is in progress can get lost: it is accepted, but when it is processed the machine has no
state yet; a `NullPointerException` is reported and the machine stays in its initial state. (No listener is installed.) -/
theorem C79_negation_start : ¬ EventHasEffect fun m tr => ∀ t l, (t, .listener m l) ∉ tr := by
  intro h
  have := h (Demo.env Demo.acts) Demo.beforeState 0 Demo.go Demo.A Demo.B _ (Demo.alone Demo.acts 0 false)
    ⟨_, Demo.conf_initial _, Demo.beforeState_reach⟩ Demo.beforeState_idle (by decide +kernel) (by decide +kernel)
    (fun t k x => no_entry (p := fun | .cbRet _ (some _) => true | _ => false) (by decide +kernel) rfl)
    (fun t => no_entry (p := fun | .enter (.stop _) => true | _ => false) (by decide +kernel) rfl)
    (fun t s => no_entry (p := fun | .enter (.startInState _ _) => true | _ => false) (by decide +kernel) rfl)
    (fun t l => no_entry (p := fun | .listener _ _ => true | _ => false) (by decide +kernel) rfl)
    (by decide +kernel) rfl rfl (by decide +kernel) (by decide +kernel)
  revert this
  decide +kernel

/-- C79: an event that is fired when `start()` has returned gets lost if the listener is removed at the wrong moment
(`setStateMachineListener(null)`): a `NullPointerException` is reported before the state changes. -/
theorem C79_negation_listener : ¬ EventHasEffect fun m tr =>
    ∃ a t b, tr = a ++ (t, .leave (.start m) none) :: b ∧ ∀ u q ev, (u, .accepted q m ev) ∉ a := by
  intro h
  have := h (Demo.env Demo.acts) (Demo.gone Demo.go 7) 0 Demo.go Demo.A Demo.B _ (Demo.alone Demo.acts 0 false)
    ⟨_, Demo.conf_initial _, Demo.gone_reach _ _⟩ Demo.gone_go_idle (by decide +kernel) (by decide +kernel)
    (fun t k x => no_entry (p := fun | .cbRet _ (some _) => true | _ => false) (by decide +kernel) rfl)
    (fun t => no_entry (p := fun | .enter (.stop _) => true | _ => false) (by decide +kernel) rfl)
    (fun t s => no_entry (p := fun | .enter (.startInState _ _) => true | _ => false) (by decide +kernel) rfl)
    ⟨(Demo.gone Demo.go 7).w.trace.take 8, .client 0, (Demo.gone Demo.go 7).w.trace.drop 9, by decide +kernel,
      fun u q ev => no_entry (p := fun | .accepted .. => true | _ => false) (by decide +kernel) rfl⟩
    (by decide +kernel) rfl rfl (by decide +kernel) (by decide +kernel)
  revert this
  decide +kernel

/-- C79: .. or, if it is removed a little later, the machine gets into a final state without ending. Everything is at rest, no user code threw, nobody
called `stop()`. -/
theorem C79_negation_final : ∃ env c a, Alone env 0 ∧ Reach env c ∧ (∀ t, c.thr t = none) ∧
    c.w.tasks (env.strat (env.mach 0).strat).exec = [] ∧ (∀ t k x, (t, .cbRet k (some x)) ∉ c.w.trace) ∧
    (∀ t, (t, .enter (.stop 0)) ∉ c.w.trace) ∧ (c.w.mach 0).started = true ∧ (c.w.mach 0).cur = some a ∧
    (env.mach 0).table.row? (some a) = none ∧ (c.w.mach 0).ended = false :=
  ⟨Demo.env Demo.acts, Demo.gone Demo.quit 23, Demo.C, Demo.alone Demo.acts 0 false, ⟨_, Demo.conf_initial _, Demo.gone_reach _ _⟩,
    Demo.gone_quit_idle, by decide +kernel,
    (fun t k x => no_entry (p := fun | .cbRet _ (some _) => true | _ => false) (by decide +kernel) rfl),
    (fun t => no_entry (p := fun | .enter (.stop _) => true | _ => false) (by decide +kernel) rfl),
    by decide +kernel, by decide +kernel, by decide +kernel, by decide +kernel⟩

end Verif
