import Verif.Spec.Watch
import Verif.Model.User
/-
Listeners that only watch make no difference (C101).
-/

namespace Verif.Watching
open Verif.Spec.Watch Prog

variable {V : Watch} {env : Verif.Env} {α β : Type}

/-! ### Programs -/

/-- Operations done with and without listeners alike. -/
def Shared (V : Watch) : Op → Bool
  | .getListener m => !V.mach m
  | .notify .. => false
  | .setListener m none => !V.mach m
  | .setListener m (some l) => !V.mach m && !V.lst l
  | .getMem a => !V.mem a
  | .setMem a _ => !V.mem a
  | _ => true

/-- Operations of listeners that only watch. -/
def Extra (V : Watch) : Op → Bool
  | .getStarted _ | .getEnded _ | .getCur _ | .qSize _ | .getPayload _ | .getMem _ => true
  | .setMem a _ => V.mem a
  | .emit o => !V.seen o
  | _ => false

/-- Calls of listeners that only watch. -/
def Watcher (V : Watch) : Call → Bool
  | .listener l .. => V.lst l
  | _ => false

/-- The second program is the first one without the calls of listeners that only watch. -/
inductive Er (V : Watch) (env : Verif.Env) : Prog α → Prog α → Prop
  | ret (a) : Er V env (.ret a) (.ret a)
  | thr (x : Exc) : Er V env (.thr x) (.thr x)
  | op (o : Op) {k k' : o.Res → Prog α} (ho : Shared V o = true) (hk : ∀ r, Er V env (k r) (k' r)) : Er V env (.op o k) (.op o k')
  | ask (m : MId) {k k' : Option LId → Prog α} (hm : V.mach m = true) (hk : ∀ l, V.lst l = true → Er V env (k (some l)) (k' none)) :
      Er V env (.op (.getListener m) k) (.op (.getListener m) k')
  | other (m : MId) (c : Cb) {k k' : Option LId → Prog α} (hm : V.mach m = false) (hk : ∀ r, (∀ l, r = some l → V.lst l = false) → Er V env (k r) (k' r)) :
      Er V env (.op (.notify m c) k) (.op (.notify m c) k')
  | call (c : Call) {k k' : Except Exc Unit → Prog α} (hc : Watcher V c = false) (hk : ∀ r, Er V env (k r) (k' r)) : Er V env (.call c k) (.call c k')
  | look (o : Op) {k : o.Res → Prog α} {p : Prog α} (ho : Extra V o = true) (hk : ∀ r, Er V env (k r) p) : Er V env (.op o k) p
  | notify (m : MId) (c : Cb) {k : Option LId → Prog α} {p : Prog α} (hm : V.mach m = true) (hc : V.cbSeen c = false) (hk : ∀ l, V.lst l = true → Er V env (k (some l)) p) :
      Er V env (.op (.notify m c) k) p
  | watch (c : Call) {k : Except Exc Unit → Prog α} {p : Prog α} (hc : Watcher V c = true) (h : Er V env ((body env c).handle k) p) : Er V env (.call c k) p

theorem er_handle {p p' : Prog α} {f f' : Except Exc α → Prog β} (h : Er V env p p') (hf : ∀ r, Er V env (f r) (f' r)) : Er V env (p.handle f) (p'.handle f') := by
  induction h with
  | ret a => exact hf _
  | thr x => exact hf _
  | op o ho _ ih => exact .op o ho fun r => ih r
  | ask m hm _ ih => exact .ask m hm fun l hl => ih l hl
  | other m c hm _ ih => exact .other m c hm fun r hr => ih r hr
  | call c hc _ ih => exact .call c hc fun r => ih r
  | look o ho _ ih => exact .look o ho fun r => ih r
  | notify m c hm hc _ ih => exact .notify m c hm hc fun l hl => ih l hl
  | watch c hc _ ih => exact .watch c hc (by rw [← handle_handle]; exact ih)

theorem er_bind {p p' : Prog α} {f f' : α → Prog β} (h : Er V env p p') (hf : ∀ a, Er V env (f a) (f' a)) : Er V env (p >>= f) (p' >>= f') :=
  er_handle h fun r => by
    cases r with
    | ok a => exact hf a
    | error x => exact .thr x

theorem er_attempt {p p' : Prog α} (h : Er V env p p') : Er V env p.attempt p'.attempt := er_handle h fun r => .ret r

theorem er_lift {o : Op} (ho : Shared V o = true) : Er V env (lift o) (lift o) := .op o ho fun r => .ret r

theorem er_except (r : Except Exc α) : Er V env (ofExcept r) (ofExcept r) := by
  cases r with
  | ok a => exact .ret a
  | error x => exact .thr x

theorem er_invoke {c : Call} (hc : Watcher V c = false) : Er V env (invoke c) (invoke c) := .call c hc er_except

theorem er_deref (a : Option α) : Er V env (deref a) (deref a) := by
  cases a with
  | none => exact .thr _
  | some a => exact .ret a

theorem er_userCall {c : Cb} {k : Call} (hk : Watcher V k = false) : Er V env (userCall c k) (userCall c k) :=
  er_bind (er_attempt (er_invoke hk)) fun r => er_bind (er_lift rfl) fun _ => er_except r

theorem er_callback {c : Cb} {k : Call} (hk : Watcher V k = false) : Er V env (callback c k) (callback c k) := er_bind (er_lift rfl) fun _ => er_userCall hk

theorem er_quiet {u : UProg} (h : V.Quiet u) {k : Except Exc Unit → Prog α} {p : Prog α} (hk : Er V env (k (.ok ())) p) : Er V env ((u.denote env).handle k) p := by
  induction h with
  | done => exact hk
  | call u hu _ ih => cases u with
    | isStarted | isEnded | getCurrentState | getEventQueueSize | getPayload | getMem => exact .look _ rfl fun r => ih r
    | setMem a v => exact .look _ hu fun r => ih r
    | note n => exact .look _ (by simpa [Extra, Watch.seen, Watch.Looks] using hu) fun r => ih r
    | _ => cases hu

section
variable (he : V.Env env)
include he

theorem er_notify (m : MId) (b : Bool) (f : Option St) (ev : Ev) (t : Option St) : Er V env (notifyListener env m b f ev t) (notifyListener env m b f ev t) := by
  unfold notifyListener
  cases hm : V.mach m with
  | true =>
    refine .ask m hm fun l hl => ?_
    refine .notify m _ hm ?_ fun l hl => ?_
    · cases b <;> simp [Watch.cbSeen, hm]
    · refine .watch _ hl (er_quiet (he.watcher l b _ ev _ hl) ?_)
      refine .look _ ?_ fun _ => .ret ()
      cases b <;> simp [Extra, Watch.seen, Watch.cbSeen, hm]
  | false =>
    refine er_bind (er_lift (by simp [Shared, hm])) fun l => ?_
    cases l with
    | none => exact .ret ()
    | some l =>
      refine .other m _ hm fun r hr => ?_
      cases r with
      | none => exact .thr _
      | some l => exact er_userCall (hr l rfl)

omit he in
theorem er_runActs (m : MId) (k : Kind) (o : Nat) (ev : Ev) (n : Nat) : ∀ i, Er V env (runActs m k o ev i n) (runActs m k o ev i n) := by
  induction n with
  | zero => intro i; exact .ret ()
  | succ n ih => intro i; exact er_bind (er_callback rfl) fun _ => ih (i + 1)

omit he in
theorem er_onState (k : Kind) (s : St) (ev : Ev) (m : MId) : Er V env (onState env k s ev m) (onState env k s ev m) := er_runActs m k s.oid ev _ 0

omit he in
theorem er_update (m : MId) (s : St) (api : Bool) : Er V env (updateCurrentState env m s api) (updateCurrentState env m s api) :=
  er_bind (er_lift rfl) fun r => by
    cases r
    · exact .ret ()
    · exact er_lift rfl

omit he in
theorem er_stop (m : MId) (api : Bool) : Er V env (stop env m api) (stop env m api) := er_update m _ api

theorem er_execute (s : SId) (ev : Ev) (m : MId) : Er V env (execute env s ev m) (execute env s ev m) := by
  refine er_bind (er_lift rfl) fun c => er_bind (er_deref _) fun row => ?_
  cases row.target (some ev.key) with
  | none => exact er_callback rfl
  | some to =>
    dsimp only
    split
    · exact er_bind (er_lift rfl) fun _ => er_bind (er_notify he m false _ ev _) fun _ => er_bind (er_lift rfl) fun _ => er_notify he m true _ ev _
    · refine er_bind (er_lift rfl) fun _ => er_bind (er_notify he m false _ ev _) fun _ => er_bind (er_lift rfl) fun _ => er_bind (er_deref _) fun _ =>
        er_bind (er_onState .exit _ ev m) fun _ => er_bind (er_update m to false) fun _ => er_bind (er_lift rfl) fun _ => er_bind (er_deref _) fun _ =>
          er_bind (er_onState .entry _ ev m) fun _ => er_bind (er_notify he m true _ ev _) fun _ => ?_
      split
      · exact er_stop m false
      · exact .ret ()

theorem er_processOne (s : SId) (cm : MId) (p : PairId) (ev : Ev) (m : MId) : Er V env (processOne env s cm p ev m) (processOne env s cm p ev m) := by
  refine er_bind (er_attempt (er_bind (er_lift rfl) fun r => ?_)) fun r => ?_
  · cases r
    · exact er_execute he s ev m
    · exact .ret ()
  · have jp : ∀ r : Except Exc Unit, Er V env (do lift (.poolGive s p); ofExcept r) (do lift (.poolGive s p); ofExcept r) := fun r =>
      er_bind (er_lift (o := .poolGive s p) rfl) fun _ => er_except r
    cases r with
    | ok u => exact jp _
    | error x =>
      dsimp only
      split
      · exact er_bind (er_attempt (er_callback rfl)) jp
      · exact jp _

theorem er_drain (s : SId) (cm : MId) : Er V env (drain env s cm) (drain env s cm) := by
  refine er_bind (er_lift rfl) fun r => ?_
  cases r
  · exact er_bind (er_lift rfl) fun _ => er_bind (er_deref _) fun p => er_bind (er_lift rfl) fun _ => er_bind (er_deref _) fun y =>
      er_bind (er_processOne he s cm p y.1 y.2) fun _ => er_invoke rfl
  · exact .ret ()

omit he in
theorem er_anyEqual (ev : Ev) (ps : List PairId) : Er V env (anyEqual ev ps) (anyEqual ev ps) := by
  induction ps with
  | nil => exact .ret _
  | cons p ps ih =>
    refine er_bind (er_lift rfl) fun x => er_bind (er_deref _) fun y => ?_
    dsimp only
    split
    · exact .ret _
    · exact ih

omit he in
theorem er_default (s : SId) (ev : Ev) (m : MId) : Er V env (processEventDefault env s ev m) (processEventDefault env s ev m) := by
  unfold processEventDefault
  dsimp only
  have tail : ∀ p : PairId, Er V env (do
      lift (.offer (env.strat s).queue p)
      if !(← lift (.submit (env.strat s).exec s m)) then thr .rejected) (do
      lift (.offer (env.strat s).queue p)
      if !(← lift (.submit (env.strat s).exec s m)) then thr .rejected : Prog Unit) := fun p =>
    er_bind (er_lift (o := .offer (env.strat s).queue p) rfl) fun _ => er_bind (er_lift rfl) fun r => by
      cases r
      · exact .thr _
      · exact .ret ()
  refine er_bind (er_lift rfl) fun n => ?_
  split
  · exact er_callback rfl
  · refine er_bind (er_lift rfl) fun p => er_bind (er_lift rfl) fun v => ?_
    split
    · exact er_bind (er_lift rfl) fun ev' => er_bind (er_lift rfl) fun _ => tail p
    · exact er_bind (er_lift rfl) fun _ => tail p

omit he in
theorem er_processEvent (s : SId) (ev : Ev) (m : MId) : Er V env (processEvent env s ev m) (processEvent env s ev m) := by
  unfold processEvent
  split
  · refine er_bind (er_lift rfl) fun ps => er_bind (er_anyEqual ev ps) fun b => ?_
    cases b
    · exact er_default s ev m
    · exact er_lift rfl
  · exact er_default s ev m

omit he in
theorem er_fire (m : MId) (ev : Ev) : Er V env (fire env m ev) (fire env m ev) := by
  refine er_bind (er_lift rfl) fun r => ?_
  cases r
  · exact er_callback rfl
  · have jp : ∀ e : Bool, Er V env (if e then callback (.flowAfter m ev) (.flowAfter (env.mach m).strat ev m) else processEvent env (env.mach m).strat ev m)
        (if e then callback (.flowAfter m ev) (.flowAfter (env.mach m).strat ev m) else processEvent env (env.mach m).strat ev m) := fun e => by
      cases e
      · exact er_processEvent _ ev m
      · exact er_callback rfl
    refine er_bind (er_lift rfl) fun r => ?_
    cases r
    · exact jp false
    · exact er_bind (er_lift rfl) jp

theorem er_start (m : MId) : Er V env (start env m) (start env m) := by
  unfold start
  dsimp only
  split
  · exact .thr _
  · exact .thr _
  · refine er_bind (er_lift rfl) fun r => ?_
    cases r
    · exact .thr _
    · exact er_bind (er_lift rfl) fun _ => er_bind (er_notify he m false _ immEv _) fun _ => er_bind (er_onState .entry _ immEv m) fun _ =>
        er_bind (er_notify he m true _ immEv _) fun _ => er_lift rfl

omit he in
theorem er_startInState (m : MId) (s : Option St) : Er V env (startInState env m s) (startInState env m s) := by
  unfold startInState
  split
  · refine er_bind (er_lift rfl) fun r => ?_
    cases r
    · exact .thr _
    · exact er_bind (er_lift rfl) fun _ => er_lift rfl
  · exact .thr _

omit he in
theorem er_api {c : Api} {p : Prog Unit} (hp : Er V env p p) : Er V env (api c p) (api c p) :=
  er_bind (er_lift rfl) fun _ => er_bind (er_attempt hp) fun r => er_bind (er_lift rfl) fun _ => .ret r

theorem er_prog (u : UCall) (hu : V.Apart u = true) : Er V env (u.prog env) (u.prog env) := by
  cases u with
  | fire m ev => exact er_api (er_fire m ev)
  | stop m => exact er_api (er_stop m true)
  | start m => exact er_api (er_start he m)
  | startInState m s => exact er_api (er_startInState m s)
  | proc i => exact er_attempt (er_invoke rfl)
  | setListener m l => cases l <;> exact er_lift hu
  | getMem a => exact er_lift hu
  | setMem a v => exact er_lift hu
  | _ => exact er_lift rfl

theorem er_denote {u : UProg} (h : V.Keeps u) : Er V env (u.denote env) (u.denote env) := by
  induction h with
  | done => exact .ret ()
  | thr x => exact .thr x
  | call u hu _ ih => exact er_bind (er_prog he u hu) fun r => ih r

theorem er_body {c : Call} (h : Watcher V c = false) : Er V env (body env c) (body env c) := by
  cases c with
  | action k o i ev m =>
    simp only [body]
    cases h1 : (env.acts k o)[i]? with
    | none => exact .ret ()
    | some a => exact er_denote he (he.acts k o a (List.mem_of_getElem? h1) ev m)
  | listener l b f ev t => exact er_denote he (he.listener l b f ev t h)
  | unmapped s ev m => exact er_denote he (he.unmapped s ev m)
  | flowEx s ev m x => exact er_denote he (he.flowEx s ev m x)
  | flowAfter s ev m => exact er_denote he (he.flowAfter s ev m)
  | flowBefore s ev m => exact er_denote he (he.flowBefore s ev m)
  | proc i => exact er_denote he (he.proc i)
  | drain s m => exact er_drain he s m

end

/-! ### Steps -/

section
variable {w w' : World}

theorem l_log (h : V.Like w w') (t : Tid) (o : Obs) : V.Like (w.log t o) (w'.log t o) :=
  { h with trace := by simp only [World.log, List.filter_append, h.trace] }

theorem l_extra (h : V.Like w w') (t : Tid) {o : Obs} (ho : V.seen o = false) : V.Like (w.log t o) w' :=
  { h with trace := by simp [World.log, List.filter_append, h.trace, ho] }

theorem l_mach (h : V.Like w w') (m : MId) {x x' : Mach} (hx : x.started = x'.started ∧ x.ended = x'.ended ∧ x.cur = x'.cur)
    (hl : V.mach m = false → x.listener = x'.listener) : V.Like { w with mach := fset w.mach m x } { w' with mach := fset w'.mach m x' } :=
  { h with
    mach := fun n => (by
      by_cases hn : n = m
      · subst hn; simpa using hx
      · simp only [fset_ne _ _ hn]; exact h.mach n)
    listener := fun n hv => (by
      by_cases hn : n = m
      · subst hn; simpa using hl hv
      · simp only [fset_ne _ _ hn]; exact h.listener n hv) }

theorem l_pair (t : Tid) (x : Option (Ev × MId)) {g : MId → Ev → Obs} (hv : V.Like w w') :
    V.Like (match x with | some (ev, m) => w.log t (g m ev) | none => w) (match x with | some (ev, m) => w'.log t (g m ev) | none => w') := by
  cases x with
  | none => exact hv
  | some y => exact l_log hv t _

theorem shared_exec (h : V.Like w w') (t : Tid) (o : Op) (ho : Shared V o = true) : (exec t o w).1 = (exec t o w').1 ∧ V.Like (exec t o w).2 (exec t o w').2 := by
  cases o with
  | notify => cases ho
  | getStarted m => exact ⟨(h.mach m).1, h⟩
  | casStarted m =>
    simp only [exec]
    rw [← (h.mach m).1]
    split
    · exact ⟨rfl, h⟩
    · exact ⟨rfl, l_log (l_mach h m (by exact ⟨rfl, (h.mach m).2⟩) (by exact h.listener m)) t _⟩
  | getEnded m => exact ⟨(h.mach m).2.1, h⟩
  | clearEnded m => exact ⟨rfl, l_log (l_mach h m (by exact ⟨(h.mach m).1, rfl, (h.mach m).2.2⟩) (by exact h.listener m)) t _⟩
  | casEnded m s b api =>
    simp only [exec]
    rw [← (h.mach m).2.1]
    split
    · exact ⟨rfl, h⟩
    · exact ⟨rfl, l_log (l_mach h m (by exact ⟨(h.mach m).1, rfl, (h.mach m).2.2⟩) (by exact h.listener m)) t _⟩
  | getCur m => exact ⟨(h.mach m).2.2, h⟩
  | setCur m s api => exact ⟨rfl, l_log (l_mach h m (by exact ⟨(h.mach m).1, (h.mach m).2.1, rfl⟩) (by exact h.listener m)) t _⟩
  | getListener m => exact ⟨h.listener m (by simpa [Shared] using ho), h⟩
  | setListener m l => exact ⟨rfl, l_log (l_mach h m (by exact h.mach m) (by exact fun _ => rfl)) t _⟩
  | qSize q => exact ⟨by simp [exec, h.queue], h⟩
  | qSnap q => exact ⟨by simp [exec, h.queue], h⟩
  | qIsEmpty q => exact ⟨by simp [exec, h.queue], h⟩
  | offer q p =>
    simp only [exec]
    rw [← h.pair]
    exact ⟨trivial, l_pair t _ (g := fun m ev => .accepted q m ev) { h with queue := by simp [h.queue], pair := rfl }⟩
  | poll q =>
    simp only [exec]
    rw [← h.pair, ← h.queue]
    cases hq : w.queue q with
    | nil => exact ⟨rfl, h⟩
    | cons p ps => exact ⟨rfl, l_pair t _ (g := fun m ev => .taken q m ev) { h with queue := rfl, pair := rfl }⟩
  | poolTake s =>
    simp only [exec]
    rw [← h.pool]
    cases hq : w.pool s with
    | nil => exact ⟨h.nextPair, { h with nextPair := by simp [h.nextPair], pool := rfl }⟩
    | cons p ps => exact ⟨rfl, { h with pool := rfl }⟩
  | poolGive s p =>
    simp only [exec]
    rw [← h.pair]
    exact ⟨trivial, l_pair t _ (g := fun m ev => .done m ev) { h with pool := by simp [h.pool], pair := rfl }⟩
  | setPair p ev m => exact ⟨rfl, { h with pair := by simp [exec, h.pair] }⟩
  | getPair p => exact ⟨by simp [exec, h.pair], h⟩
  | getPayload o => exact ⟨by simp [exec, h.payload], h⟩
  | setPayload o v => exact ⟨rfl, l_log (by exact { h with payload := by simp [h.payload] }) t _⟩
  | newCopy ev =>
    simp only [exec]
    rw [← h.nextCopy, ← h.payload]
    exact ⟨rfl, l_log (by exact { h with nextCopy := rfl, payload := rfl }) t _⟩
  | submit e s m =>
    simp only [exec]
    rw [← h.shut]
    split
    · exact ⟨rfl, l_log h t _⟩
    · exact ⟨rfl, l_log (by exact { h with tasks := by simp [h.tasks], shut := rfl }) t _⟩
  | emit o => exact ⟨rfl, l_log h t o⟩
  | getMem a => exact ⟨h.mem a (by simpa [Shared] using ho), h⟩
  | setMem a v => exact ⟨rfl, { h with mem := fun b hb => (by
      simp only [exec]
      by_cases hn : b = a
      · subst hn; simp
      · simp only [fset_ne _ _ hn]; exact h.mem b hb) }⟩
  | await n =>
    simp only [exec]
    rw [← h.intr]
    split
    · exact ⟨rfl, { h with intr := rfl }⟩
    · exact ⟨rfl, h⟩
  | countDown n => exact ⟨rfl, l_log (by exact { h with latch := by simp [h.latch] }) t _⟩
  | setIntr => exact ⟨rfl, { h with intr := by simp [exec, h.intr] }⟩

theorem extra_exec (h : V.Like w w') (t : Tid) (o : Op) (ho : Extra V o = true) : V.Like (exec t o w).2 w' := by
  cases o with
  | getStarted | getEnded | getCur | qSize | getPayload | getMem => exact h
  | setMem a v =>
    have ha : V.mem a = true := ho
    exact { h with mem := fun b hb => (by
      simp only [exec]
      by_cases hn : b = a
      · subst hn; rw [ha] at hb; cases hb
      · simp only [fset_ne _ _ hn]; exact h.mem b hb) }
  | emit o => exact l_extra h t (by simpa [Extra] using ho)
  | _ => cases ho

theorem like_enabled (h : V.Like w w') (t : Tid) (o : Op) : enabled t o w = enabled t o w' := by
  cases o <;> simp [enabled, h.intr, h.latch]

theorem extra_enabled (t : Tid) (o : Op) (ho : Extra V o = true) : enabled t o w = true := by
  cases o <;> first | rfl | cases ho

/-- Only `setListener` changes listeners. -/
theorem listener_exec (t : Tid) (o : Op) (ho : ∀ m l, o ≠ .setListener m l) (n : MId) : ((exec t o w).2.mach n).listener = (w.mach n).listener := by
  have hs : ∀ (m : MId) (x : Mach), x.listener = (w.mach m).listener → ((fset w.mach m x) n).listener = (w.mach n).listener := fun m x hx => by
    by_cases hn : n = m
    · subst hn; simpa using hx
    · rw [fset_ne _ _ hn]
  cases o with
  | setListener m l => exact absurd rfl (ho m l)
  | casStarted m | casEnded m =>
    simp only [exec]
    split
    · rfl
    · exact hs m _ rfl
  | clearEnded m | setCur m => exact hs m _ rfl
  | notify m c =>
    simp only [exec]
    cases (w.mach m).listener <;> rfl
  | offer q p | poolGive s p =>
    simp only [exec]
    split <;> rfl
  | poll q =>
    simp only [exec]
    split
    · rfl
    · dsimp only
      split <;> rfl
  | poolTake s | submit | await =>
    simp only [exec]
    split <;> rfl
  | _ => rfl

theorem listener_set (t : Tid) (m : MId) (l : Option LId) (hs : Shared V (.setListener m l) = true) (n : MId) (hn : V.mach n = true) :
    ((exec t (.setListener m l) w).2.mach n).listener = (w.mach n).listener := by
  have hm : n ≠ m := by
    rintro rfl
    cases l <;> simp [Shared, hn] at hs
  simp only [exec, World.log, fset_ne _ _ hm]

theorem others_exec (h : V.Others w) (t : Tid) (o : Op) (hs : Shared V o = true ∨ ∀ m l, o ≠ .setListener m l) : V.Others (exec t o w).2 := by
  intro n hn l hl
  by_cases ho : ∀ m l, o ≠ .setListener m l
  · rw [listener_exec t o ho] at hl; exact h n hn l hl
  · obtain hs := hs.resolve_right ho
    cases o with
    | setListener m k =>
      simp only [exec, World.log] at hl
      by_cases hm : n = m
      · subst hm
        simp only [fset_same] at hl
        subst hl
        simpa [Shared, hn] using hs
      · rw [fset_ne _ _ hm] at hl; exact h n hn l hl
    | _ => exact absurd (fun _ _ h => by cases h) ho

theorem watched_exec (t : Tid) (o : Op) (hs : Shared V o = true ∨ ∀ m l, o ≠ .setListener m l) (n : MId) (hn : V.mach n = true) :
    ((exec t o w).2.mach n).listener = (w.mach n).listener := by
  by_cases ho : ∀ m l, o ≠ .setListener m l
  · exact listener_exec t o ho n
  · obtain hs := hs.resolve_right ho
    cases o with
    | setListener m k => exact listener_set t m k hs n hn
    | _ => exact absurd (fun _ _ h => by cases h) ho

theorem on_exec (h : V.On w) (t : Tid) (o : Op) (hs : Shared V o = true ∨ ∀ m l, o ≠ .setListener m l) : V.On (exec t o w).2 :=
  ⟨fun n hn => by rw [watched_exec t o hs n hn]; exact h.1 n hn, others_exec h.2 t o hs⟩

theorem off_exec (h : V.Off w) (t : Tid) (o : Op) (hs : Shared V o = true ∨ ∀ m l, o ≠ .setListener m l) : V.Off (exec t o w).2 :=
  ⟨fun n hn => by rw [watched_exec t o hs n hn]; exact h.1 n hn, others_exec h.2 t o hs⟩

theorem extra_set (o : Op) (ho : Extra V o = true) : ∀ m l, o ≠ .setListener m l := by
  rintro m l rfl
  cases ho

end

inductive Both (R : α → β → Prop) : Option α → Option β → Prop
  | none : Both R none none
  | some {a b} : R a b → Both R (some a) (some b)

/-- The second configuration is the first one without listeners that only watch. -/
structure CR (V : Watch) (env : Verif.Env) (c d : Conf) : Prop where
  w : V.Like c.w d.w
  on : V.On c.w
  off : V.Off d.w
  thr : ∀ t, Both (Er V env) (c.thr t) (d.thr t)

theorem cr_set {c d : Conf} (h : CR V env c d) {w w' : World} (hw : V.Like w w') (hon : V.On w) (hoff : V.Off w') (t : Tid) {p p' : Option (Prog Unit)}
    (hp : Both (Er V env) p p') : CR V env { w := w, thr := fset c.thr t p } { w := w', thr := fset d.thr t p' } :=
  ⟨hw, hon, hoff, fun u => by
    by_cases hu : u = t
    · subst hu; simpa using hp
    · simp only [fset_ne _ _ hu]; exact h.thr u⟩

/-- Only the first one makes a step. -/
theorem cr_left {c d : Conf} (h : CR V env c d) {w : World} (hw : V.Like w d.w) (hon : V.On w) (t : Tid) {p p' : Prog Unit} (hd : d.thr t = some p') (hp : Er V env p p') :
    CR V env { w := w, thr := fset c.thr t (some p) } d :=
  ⟨hw, hon, h.off, fun u => by
    by_cases hu : u = t
    · subst hu; simp only [fset_same, hd]; exact .some hp
    · simp only [fset_ne _ _ hu]; exact h.thr u⟩

section
variable (he : V.Env env)
include he

/-- A step with listeners: the same step without them, or none. -/
theorem run_left {c d c1 : Conf} (h : CR V env c d) (t : Tid) {p p' : Prog Unit} (hd : d.thr t = some p') (hp : Er V env p p') (hr : runThread env c t p = some c1) :
    CR V env c1 d ∨ ∃ d1, runThread env d t p' = some d1 ∧ CR V env c1 d1 := by
  cases hp with
  | ret a => cases hr; exact .inr ⟨_, rfl, cr_set h h.w h.on h.off t .none⟩
  | thr x => cases hr; exact .inr ⟨_, rfl, cr_set h (l_log h.w t _) h.on h.off t .none⟩
  | op o ho hk =>
    simp only [runThread] at hr ⊢
    rw [like_enabled h.w t o] at hr
    split at hr
    · rename_i hen
      cases hr
      simp only [hen, if_true]
      obtain ⟨h1, h2⟩ := shared_exec h.w t o ho
      refine .inr ⟨_, rfl, cr_set h h2 (on_exec h.on t o (.inl ho)) (off_exec h.off t o (.inl ho)) t (.some ?_)⟩
      rw [h1]
      exact hk _
    · cases hr
  | ask m hm hk =>
    obtain ⟨l, h1, h2⟩ := h.on.1 m hm
    simp only [runThread, enabled, if_true, exec, h1, h.off.1 m hm] at hr ⊢
    cases hr
    exact .inr ⟨_, rfl, cr_set h h.w h.on h.off t (.some (hk l h2))⟩
  | other m cb hm hk =>
    have hl := h.w.listener m hm
    have ho := h.on.2 m hm
    simp only [runThread, enabled, if_true, exec] at hr ⊢
    rw [← hl]
    cases h1 : (c.w.mach m).listener with
    | none => rw [h1] at hr; cases hr; exact .inr ⟨_, rfl, cr_set h h.w h.on h.off t (.some (hk _ (by simp)))⟩
    | some l =>
      rw [h1] at hr
      cases hr
      exact .inr ⟨_, rfl, cr_set h (l_log h.w t _) h.on h.off t (.some (hk _ fun k hk => by cases hk; exact ho l h1))⟩
  | call f hf hk =>
    cases hr
    exact .inr ⟨_, rfl, cr_set h h.w h.on h.off t (.some (er_handle (er_body he hf) hk))⟩
  | look o ho hk =>
    simp only [runThread, extra_enabled t o ho, if_true] at hr
    cases hr
    exact .inl (cr_left h (extra_exec h.w t o ho) (on_exec h.on t o (.inr (extra_set o ho))) t hd (hk _))
  | notify m cb hm hc hk =>
    obtain ⟨l, h1, h2⟩ := h.on.1 m hm
    simp only [runThread, enabled, if_true, exec, h1] at hr
    cases hr
    exact .inl (cr_left h (l_extra (o := .cb cb) h.w t hc) h.on t hd (hk l h2))
  | watch f hf hk =>
    cases hr
    exact .inl (cr_left h h.w h.on t hd hk)

/-- A step without listeners: some steps with them. -/
theorem run_right {d d1 : Conf} (t : Tid) {p p' : Prog Unit} (hd : d.thr t = some p') (hp : Er V env p p') (hr : runThread env d t p' = some d1) :
    ∀ c, CR V env c d → c.thr t = some p → ∃ n c1, runs env c (List.replicate (n + 1) (.run t)) = some c1 ∧ CR V env c1 d1 := by
  have one : ∀ {c c1 : Conf} {q : Prog Unit}, c.thr t = some q → runThread env c t q = some c1 → CR V env c1 d1 →
      ∃ n c1, runs env c (List.replicate (n + 1) (.run t)) = some c1 ∧ CR V env c1 d1 := fun {c c1 q} h1 h2 h3 =>
    ⟨0, c1, by simp [runs, step, h1, h2], h3⟩
  have more : ∀ {c c1 : Conf} {q : Prog Unit}, c.thr t = some q → runThread env c t q = some c1 →
      (∃ n c2, runs env c1 (List.replicate (n + 1) (.run t)) = some c2 ∧ CR V env c2 d1) →
      ∃ n c1, runs env c (List.replicate (n + 1) (.run t)) = some c1 ∧ CR V env c1 d1 := fun {c c1 q} h1 h2 ⟨n, c2, h3, h4⟩ =>
    ⟨n + 1, c2, by rw [List.replicate_succ]; simp only [runs, step, h1, h2]; exact h3, h4⟩
  induction hp with
  | ret a => intro c h hc; cases hr; exact one hc rfl (cr_set h h.w h.on h.off t .none)
  | thr x => intro c h hc; cases hr; exact one hc rfl (cr_set h (l_log h.w t _) h.on h.off t .none)
  | op o ho hk =>
    intro c h hc
    simp only [runThread] at hr
    split at hr
    · rename_i hen
      cases hr
      rw [← like_enabled h.w t o] at hen
      obtain ⟨h1, h2⟩ := shared_exec h.w t o ho
      refine one hc (by simp only [runThread, hen, if_true]; rfl) (cr_set h h2 (on_exec h.on t o (.inl ho)) (off_exec h.off t o (.inl ho)) t (.some ?_))
      rw [h1]
      exact hk _
    · cases hr
  | ask m hm hk =>
    intro c h hc
    obtain ⟨l, h1, h2⟩ := h.on.1 m hm
    simp only [runThread, enabled, if_true, exec, h.off.1 m hm] at hr
    cases hr
    exact one hc (by simp only [runThread, enabled, if_true, exec, h1]) (cr_set h h.w h.on h.off t (.some (hk l h2)))
  | other m cb hm hk =>
    intro c h hc
    have hl := h.w.listener m hm
    have ho := h.on.2 m hm
    simp only [runThread, enabled, if_true, exec] at hr
    rw [← hl] at hr
    cases h1 : (c.w.mach m).listener with
    | none =>
      rw [h1] at hr
      cases hr
      exact one hc (by simp only [runThread, enabled, if_true, exec, h1]) (cr_set h h.w h.on h.off t (.some (hk _ (by simp))))
    | some l =>
      rw [h1] at hr
      cases hr
      exact one hc (by simp only [runThread, enabled, if_true, exec, h1])
        (cr_set h (l_log h.w t _) h.on h.off t (.some (hk _ fun k hk => by cases hk; exact ho l h1)))
  | call f hf hk =>
    intro c h hc
    cases hr
    exact one hc rfl (cr_set h h.w h.on h.off t (.some (er_handle (er_body he hf) hk)))
  | look o ho hk ih =>
    intro c h hc
    refine more hc (by simp only [runThread, extra_enabled t o ho, if_true]; rfl) (ih _ hd hr _ ?_ (fset_same _ _ _))
    exact cr_left h (extra_exec h.w t o ho) (on_exec h.on t o (.inr (extra_set o ho))) t hd (hk _)
  | notify m cb hm hcb hk ih =>
    intro c h hc
    obtain ⟨l, h1, h2⟩ := h.on.1 m hm
    refine more hc (by simp only [runThread, enabled, if_true, exec, h1]; rfl) (ih l h2 hd hr _ ?_ (fset_same _ _ _))
    exact cr_left h (l_extra (o := .cb cb) h.w t hcb) h.on t hd (hk l h2)
  | watch f hf hk ih =>
    intro c h hc
    exact more hc rfl (ih hd hr _ (cr_left h h.w h.on t hd hk) (fset_same _ _ _))

/-- Choices other than `run` have the same effect with and without listeners. -/
theorem other_step {c d : Conf} (h : CR V env c d) (x : Choice) (hx : V.Choice x) (hn : ∀ t, x ≠ .run t) : Both (CR V env) (step env c x) (step env d x) := by
  cases x with
  | run t => exact absurd rfl (hn t)
  | «begin» n u =>
    have := h.thr (.client n)
    simp only [step]
    generalize c.thr (.client n) = p at this
    generalize d.thr (.client n) = p' at this
    cases this with
    | none => exact .some (cr_set h h.w h.on h.off _ (.some (er_denote he hx)))
    | some _ => exact .none
  | dispatch e i j =>
    have := h.thr (.worker e i)
    simp only [step]
    split
    · rw [← h.w.tasks]
      generalize c.thr (.worker e i) = p at this
      generalize d.thr (.worker e i) = p' at this
      cases this with
      | some _ => exact .none
      | none =>
        cases (c.w.tasks e)[j]? with
        | none => exact .none
        | some y => exact .some (cr_set h (by exact { h.w with tasks := rfl }) (by exact h.on) (by exact h.off) _ (.some (er_drain he _ _)))
    · exact .none
  | interrupt t => exact .some ⟨{ h.w with intr := by simp [h.w.intr] }, h.on, h.off, h.thr⟩
  | shutdown e now =>
    have h1 : V.Like { c.w with shut := fset c.w.shut e true } { d.w with shut := fset d.w.shut e true } := { h.w with shut := by simp [h.w.shut] }
    cases now
    · exact .some ⟨h1, h.on, h.off, h.thr⟩
    · refine .some ⟨{ h1 with tasks := ?_, trace := ?_ }, h.on, h.off, h.thr⟩
      · simp [World.dropTasks, h.w.tasks]
      · simp only [World.dropTasks, List.filter_append, h.w.trace, h.w.tasks, if_true]

theorem runs_left {xs : List Choice} (hx : ∀ x ∈ xs, V.Choice x) {c d c1 : Conf} (h : CR V env c d) (hr : runs env c xs = some c1) :
    ∃ ys d1, ys.Sublist xs ∧ runs env d ys = some d1 ∧ CR V env c1 d1 := by
  induction xs generalizing c d with
  | nil => cases hr; exact ⟨[], d, .slnil, rfl, h⟩
  | cons x xs ih =>
    simp only [runs] at hr
    cases hs : step env c x with
    | none => rw [hs] at hr; cases hr
    | some c2 =>
      rw [hs] at hr
      have key : CR V env c2 d ∨ ∃ d2, step env d x = some d2 ∧ CR V env c2 d2 := by
        by_cases hn : ∀ t, x ≠ .run t
        · have := other_step he h x (hx x (by simp)) hn
          rw [hs] at this
          generalize step env d x = y at this
          cases this with
          | some h1 => exact .inr ⟨_, rfl, h1⟩
        · cases x with
          | run t =>
            have := h.thr t
            simp only [step] at hs ⊢
            cases hc : c.thr t with
            | none => rw [hc] at hs; cases hs
            | some p =>
              rw [hc] at hs this
              cases hd : d.thr t with
              | none => rw [hd] at this; cases this
              | some p' =>
                rw [hd] at this
                cases this with
                | some hp => exact run_left he h t hd hp hs
          | _ => exact absurd (fun _ h => by cases h) hn
      rcases key with h2 | ⟨d2, h2, h3⟩
      · obtain ⟨ys, d1, g1, g2, g3⟩ := ih (fun y hy => hx y (by simp [hy])) h2 hr
        exact ⟨ys, d1, .cons _ g1, g2, g3⟩
      · obtain ⟨ys, d1, g1, g2, g3⟩ := ih (fun y hy => hx y (by simp [hy])) h3 hr
        exact ⟨x :: ys, d1, g1.cons_cons _, by simp only [runs, h2]; exact g2, g3⟩

omit he in
theorem runs_app (xs ys : List Choice) (c c1 : Conf) (h : runs env c xs = some c1) : runs env c (xs ++ ys) = runs env c1 ys := by
  induction xs generalizing c with
  | nil => cases h; rfl
  | cons x xs ih =>
    simp only [runs, List.cons_append] at h ⊢
    cases hs : step env c x with
    | none => rw [hs] at h; cases h
    | some c2 => rw [hs] at h; exact ih c2 h

theorem runs_right {ys : List Choice} (hx : ∀ x ∈ ys, V.Choice x) {c d d1 : Conf} (h : CR V env c d) (hr : runs env d ys = some d1) :
    ∃ xs c1, ys.Sublist xs ∧ (∀ x ∈ xs, V.Choice x) ∧ runs env c xs = some c1 ∧ CR V env c1 d1 := by
  induction ys generalizing c d with
  | nil => cases hr; exact ⟨[], c, .slnil, (by simp), rfl, h⟩
  | cons x ys ih =>
    simp only [runs] at hr
    cases hs : step env d x with
    | none => rw [hs] at hr; cases hr
    | some d2 =>
      rw [hs] at hr
      have key : ∃ zs c2, [x].Sublist zs ∧ (∀ z ∈ zs, V.Choice z) ∧ runs env c zs = some c2 ∧ CR V env c2 d2 := by
        by_cases hn : ∀ t, x ≠ .run t
        · have := other_step he h x (hx x (by simp)) hn
          rw [hs] at this
          generalize hy : step env c x = y at this
          cases this with
          | some h1 => exact ⟨[x], _, .refl _, fun z hz => by rw [List.mem_singleton.1 hz]; exact hx x (by simp), by simp [runs, hy], h1⟩
        · cases x with
          | run t =>
            have := h.thr t
            simp only [step] at hs
            cases hd : d.thr t with
            | none => rw [hd] at hs; cases hs
            | some p' =>
              rw [hd] at hs this
              cases hc : c.thr t with
              | none => rw [hc] at this; cases this
              | some p =>
                rw [hc] at this
                cases this with
                | some hp =>
                  obtain ⟨n, c2, h1, h2⟩ := run_right he t hd hp hs c h hc
                  refine ⟨_, c2, ?_, fun z hz => ?_, h1, h2⟩
                  · rw [List.replicate_succ]; exact (List.nil_sublist _).cons_cons _
                  · rw [List.eq_of_mem_replicate hz]; trivial
          | _ => exact absurd (fun _ h => by cases h) hn
      obtain ⟨zs, c2, g1, g2, g3, g4⟩ := key
      obtain ⟨xs, c1, k1, k2, k3, k4⟩ := ih (fun y hy => hx y (by simp [hy])) g4 hr
      refine ⟨zs ++ xs, c1, ?_, fun z hz => ?_, ?_, k4⟩
      · exact (List.Sublist.append g1 k1 : ([x] ++ ys).Sublist _)
      · rcases List.mem_append.1 hz with hz | hz
        · exact g2 z hz
        · exact k2 z hz
      · rw [runs_app _ _ _ _ g3]; exact k3

end

end Verif.Watching
