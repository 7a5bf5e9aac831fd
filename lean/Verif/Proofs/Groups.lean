import Verif.Spec.Groups
import Verif.Proofs.Mem
/-
Groups of machines that share nothing with the rest of the program do what they would do without it (C102).
-/

namespace Verif.Groups
open Verif.Spec.Groups Prog

/-- A group, and which copies of events and which pairs are the group's; `f` and `g` say which objects they are in another execution. -/
structure Kit where
  G : Group
  f : Nat → Nat
  D : Nat → Prop
  g : Nat → Nat
  P : Nat → Prop
  S : Nat → Prop
  T : Nat → Prop

variable {K : Kit} {env env' : Verif.Env} {α α' β β' : Type}

abbrev Kit.Oid (K : Kit) : EvOid → Prop := K.G.Oid K.D

abbrev Kit.ev (K : Kit) : Ev → Ev := renEv K.f

/-- Events that are passed to callbacks. -/
def Kit.Passed (K : Kit) (ev : Ev) : Prop := ev = immEv ∨ K.Oid ev.oid

/-! ### Operations -/

def Kit.op (K : Kit) : Op → Op
  | .notify m c => .notify m (renCb K.f c)
  | .offer q p => .offer q (K.g p)
  | .poolGive s p => .poolGive s (K.g p)
  | .setPair p ev m => .setPair (K.g p) (K.ev ev) m
  | .getPair p => .getPair (K.g p)
  | .getPayload o => .getPayload (renOid K.f o)
  | .setPayload o v => .setPayload (renOid K.f o) v
  | .newCopy ev => .newCopy (K.ev ev)
  | .emit o => .emit (renObs K.f o)
  | o => o

def Kit.res (K : Kit) : (o : Op) → o.Res → (K.op o).Res
  | .getStarted _, r => r
  | .casStarted _, r => r
  | .getEnded _, r => r
  | .clearEnded _, r => r
  | .casEnded .., r => r
  | .getCur _, r => r
  | .setCur .., r => r
  | .getListener _, r => r
  | .notify .., r => r
  | .setListener .., r => r
  | .qSize _, r => r
  | .qSnap _, r => r.map K.g
  | .qIsEmpty _, r => r
  | .offer .., r => r
  | .poll _, r => r.map K.g
  | .poolTake _, r => K.g r
  | .poolGive .., r => r
  | .setPair .., r => r
  | .getPair _, r => r.map fun x => (K.ev x.1, x.2)
  | .getPayload _, r => r
  | .setPayload .., r => r
  | .newCopy _, r => K.ev r
  | .submit .., r => r
  | .emit _, r => r
  | .getMem _, r => r
  | .setMem .., r => r
  | .await _, r => r
  | .countDown _, r => r
  | .setIntr, r => r

/-- The operation concerns only what belongs to the group. -/
def Kit.okOp (K : Kit) : Op → Prop
  | .getStarted m | .casStarted m | .getEnded m | .clearEnded m | .casEnded m .. | .getCur m | .getListener m | .notify m _ => K.G.mach m = true
  | .setCur m s _ => K.G.mach m = true ∧ K.S s.oid
  | .setListener m l => K.G.mach m = true ∧ ∀ k, l = some k → K.G.lst k = true
  | .qSize q | .qSnap q | .qIsEmpty q | .poll q => K.G.queue q = true
  | .offer q p => K.G.queue q = true ∧ K.P p
  | .poolTake s => K.G.strat s = true
  | .poolGive s p => K.G.strat s = true ∧ K.P p
  | .setPair p ev m => K.P p ∧ K.Oid ev.oid ∧ K.G.mach m = true
  | .getPair p => K.P p
  | .getPayload o => K.Oid o
  | .setPayload o _ => K.Oid o
  | .newCopy ev => K.Oid ev.oid
  | .submit e s m => K.G.exec e = true ∧ K.G.strat s = true ∧ K.G.mach m = true
  | .getMem a | .setMem a _ => K.G.mem a = true
  | .await n | .countDown n => K.G.latch n = true
  | .emit _ | .setIntr => True

/-- So does its result. -/
def Kit.okRes (K : Kit) : (o : Op) → o.Res → Prop
  | .getCur _, r => ∀ s, r = some s → K.S s.oid
  | .notify .., r => ∀ l, r = some l → K.G.lst l = true
  | .qSnap _, r => ∀ p ∈ r, K.P p
  | .poll _, r => ∀ p, r = some p → K.P p
  | .poolTake _, r => K.P r
  | .getPair _, r => ∀ x, r = some x → K.Oid x.1.oid ∧ K.G.mach x.2 = true
  | .newCopy _, r => K.Oid r.oid
  | _, _ => True

def Kit.call (K : Kit) : Call → Call
  | .action k o i ev m => .action k o i (K.ev ev) m
  | .listener l b f ev t => .listener l b f (K.ev ev) t
  | .unmapped s ev m => .unmapped s (K.ev ev) m
  | .flowEx s ev m x => .flowEx s (K.ev ev) m x
  | .flowAfter s ev m => .flowAfter s (K.ev ev) m
  | .flowBefore s ev m => .flowBefore s (K.ev ev) m
  | c => c

def Kit.okCall (K : Kit) : Call → Prop
  | .action _ o _ ev m => K.G.mach m = true ∧ K.Passed ev ∧ K.S o
  | .unmapped s ev m | .flowEx s ev m _ | .flowAfter s ev m | .flowBefore s ev m => K.G.mach m = true ∧ K.Passed ev ∧ K.G.strat s = true
  | .listener l _ _ ev _ => K.G.lst l = true ∧ K.Passed ev
  | .proc i => K.G.proc i = true
  | .drain s m => K.G.strat s = true ∧ K.G.mach m = true

/-! ### Programs -/

/-- Programs do the same things, and concern only the group. -/
inductive PR (K : Kit) (R : α → β → Prop) : Prog α → Prog β → Prop
  | ret {a b} : R a b → PR K R (.ret a) (.ret b)
  | thr (x : Exc) : PR K R (.thr x) (.thr x)
  | op (o : Op) {k : o.Res → Prog α} {k' : (K.op o).Res → Prog β} (ho : K.okOp o) (hk : ∀ r, K.okRes o r → PR K R (k r) (k' (K.res o r))) :
      PR K R (.op o k) (.op (K.op o) k')
  | call (c : Call) {k : Except Exc Unit → Prog α} {k' : Except Exc Unit → Prog β} (hc : K.okCall c) (hk : ∀ r, PR K R (k r) (k' r)) : PR K R (.call c k) (.call (K.call c) k')

inductive Res (R : α → β → Prop) : Except Exc α → Except Exc β → Prop
  | ok {a b} : R a b → Res R (.ok a) (.ok b)
  | error (x : Exc) : Res R (.error x) (.error x)

theorem pr_handle {R : α → β → Prop} {S : α' → β' → Prop} {p : Prog α} {p' : Prog β} {h : Except Exc α → Prog α'} {h' : Except Exc β → Prog β'} (hp : PR K R p p')
    (hh : ∀ r r', Res R r r' → PR K S (h r) (h' r')) : PR K S (p.handle h) (p'.handle h') := by
  induction hp with
  | ret ha => exact hh _ _ (.ok ha)
  | thr x => exact hh _ _ (.error x)
  | op o ho _ ih => exact .op o ho fun r hr => ih r hr
  | call c hc _ ih => exact .call c hc fun r => ih r

theorem pr_bind {R : α → β → Prop} {S : α' → β' → Prop} {p : Prog α} {p' : Prog β} {h : α → Prog α'} {h' : β → Prog β'} (hp : PR K R p p')
    (hh : ∀ r r', R r r' → PR K S (h r) (h' r')) : PR K S (p >>= h) (p' >>= h') :=
  pr_handle hp fun r r' hr => by
    cases hr with
    | ok ha => exact hh _ _ ha
    | error x => exact .thr x

theorem pr_then {S : α' → β' → Prop} {p p' : Prog Unit} {h : Unit → Prog α'} {h' : Unit → Prog β'} (hp : PR K Eq p p') (hh : PR K S (h ()) (h' ())) :
    PR K S (p >>= h) (p' >>= h') := pr_bind hp fun _ _ _ => hh

theorem pr_attempt {R : α → β → Prop} {p : Prog α} {p' : Prog β} (h : PR K R p p') : PR K (Res R) p.attempt p'.attempt := pr_handle h fun _ _ h => .ret h

/-- An operation, then the rest. -/
theorem pr_op {R : α → β → Prop} (o : Op) {h : o.Res → Prog α} {h' : (K.op o).Res → Prog β} (ho : K.okOp o) (hh : ∀ r, K.okRes o r → PR K R (h r) (h' (K.res o r))) :
    PR K R (lift o >>= h) (lift (K.op o) >>= h') := .op o ho hh

theorem pr_except {R : α → β → Prop} {r : Except Exc α} {r' : Except Exc β} (h : Res R r r') : PR K R (ofExcept r) (ofExcept r') := by
  cases h with
  | ok h => exact .ret h
  | error x => exact .thr x

theorem res_eq {r r' : Except Exc α} (h : Res Eq r r') : r = r' := by
  cases h with
  | ok h => rw [h]
  | error => rfl

theorem res_refl (r : Except Exc α) : Res Eq r r := by
  cases r with
  | ok => exact .ok rfl
  | error => exact .error _

theorem pr_invoke {c : Call} (h : K.okCall c) : PR K Eq (invoke c) (invoke (K.call c)) := .call c h fun r => pr_except (res_refl r)

theorem pr_deref (a : Option α) : PR K (fun x y => y = x ∧ a = some x) (deref a) (deref a) := by
  cases a with
  | none => exact .thr _
  | some a => exact .ret ⟨rfl, rfl⟩

theorem pr_derefMap (h : α → β) (a : Option α) : PR K (fun x y => y = h x ∧ a = some x) (deref a) (deref (a.map h)) := by
  cases a with
  | none => exact .thr _
  | some a => exact .ret ⟨rfl, rfl⟩

theorem pr_ite {R : α → β → Prop} {c : Prop} [Decidable c] {a b : Prog α} {a' b' : Prog β} (h : PR K R a a') (h' : PR K R b b') :
    PR K R (if c then a else b) (if c then a' else b') := by
  split
  · exact h
  · exact h'

theorem pr_userCall (c : Cb) {k : Call} (hk : K.okCall k) : PR K Eq (userCall c k) (userCall (renCb K.f c) (K.call k)) :=
  pr_bind (pr_attempt (pr_invoke hk)) fun r r' hr => by
    have := res_eq hr
    subst this
    exact pr_op (.emit (.cbRet c (outcome r))) trivial fun _ _ => pr_except hr

theorem pr_callback (c : Cb) {k : Call} (hk : K.okCall k) : PR K Eq (callback c k) (callback (renCb K.f c) (K.call k)) :=
  pr_op (.emit (.cb c)) trivial fun _ _ => pr_userCall c hk

section
variable (he : K.G.Env K.S env) (hW : K.G.Within K.S env) (hA : K.G.Agree K.S env env')

include hA

theorem pr_notify (m : MId) (hm : K.G.mach m = true) (b : Bool) (f t : Option St) {ev : Ev} (hev : K.Passed ev) :
    PR K Eq (notifyListener env m b f ev t) (notifyListener env' m b f (K.ev ev) t) := by
  unfold notifyListener
  rw [hA.mach m hm]
  refine pr_op (.getListener m) hm fun l _ => ?_
  cases l with
  | none => exact .ret rfl
  | some l =>
    cases b with
    | true =>
      refine pr_op (.notify m (.end_ m (f.getD (env.mach m).res.noSt) ev (t.getD (env.mach m).res.noSt))) hm fun r hr => ?_
      cases r with
      | none => exact .thr _
      | some l => exact pr_userCall (.end_ m (f.getD (env.mach m).res.noSt) ev (t.getD (env.mach m).res.noSt)) (k := .listener l true _ ev _) ⟨hr l rfl, hev⟩
    | false =>
      refine pr_op (.notify m (.begin m (f.getD (env.mach m).res.noSt) ev (t.getD (env.mach m).res.noSt))) hm fun r hr => ?_
      cases r with
      | none => exact .thr _
      | some l => exact pr_userCall (.begin m (f.getD (env.mach m).res.noSt) ev (t.getD (env.mach m).res.noSt)) (k := .listener l false _ ev _) ⟨hr l rfl, hev⟩

omit hA in
theorem pr_runActs (m : MId) (hm : K.G.mach m = true) (k : Kind) (o : Nat) (ho : K.S o) {ev : Ev} (hev : K.Passed ev) (n : Nat) :
    ∀ i, PR K Eq (runActs m k o ev i n) (runActs m k o (K.ev ev) i n) := by
  induction n with
  | zero => intro i; exact .ret rfl
  | succ n ih => intro i; exact pr_then (pr_callback (.action m k o i ev) (k := .action k o i ev m) ⟨hm, hev, ho⟩) (ih (i + 1))

theorem pr_onState (k : Kind) (s : St) (hs : K.S s.oid) {ev : Ev} (hev : K.Passed ev) (m : MId) (hm : K.G.mach m = true) :
    PR K Eq (onState env k s ev m) (onState env' k s (K.ev ev) m) := by
  have h := congrArg List.length (hA.acts k s.oid hs m hm)
  rw [List.length_map, List.length_map] at h
  unfold onState
  rw [h]
  exact pr_runActs m hm k s.oid hs hev _ 0

theorem pr_update (m : MId) (hm : K.G.mach m = true) (s : St) (hs : K.S s.oid) (api : Bool) : PR K Eq (updateCurrentState env m s api) (updateCurrentState env' m s api) := by
  unfold updateCurrentState
  rw [hA.mach m hm]
  exact pr_op (.casEnded m s _ api) hm fun r _ => by
    cases r
    · exact .ret rfl
    · exact .op (.setCur m s api) ⟨hm, hs⟩ fun _ _ => .ret rfl

include hW

theorem pr_stop (m : MId) (hm : K.G.mach m = true) (api : Bool) : PR K Eq (stop env m api) (stop env' m api) := by
  unfold stop
  rw [hA.mach m hm]
  exact pr_update hA m hm _ (hW.end_ m hm) api

theorem pr_execute (s : SId) (hs : K.G.strat s = true) {ev : Ev} (hev : K.Passed ev) (m : MId) (hm : K.G.mach m = true) :
    PR K Eq (execute env s ev m) (execute env' s (K.ev ev) m) := by
  unfold execute
  rw [hA.mach m hm, hA.strat s hs]
  refine pr_op (.getCur m) hm fun c hc => pr_bind (pr_deref _) fun row row' hrow => ?_
  obtain ⟨rfl, hrow⟩ := hrow
  have hkey : (K.ev ev).key = ev.key := rfl
  rw [hkey]
  cases hto : row'.target (some ev.key) with
  | none => exact pr_callback (.unmapped m ev) (k := .unmapped s ev m) ⟨hm, hev, hs⟩
  | some to =>
    dsimp only
    split
    · exact pr_op (.getCur m) hm fun _ _ => pr_then (pr_notify hA m hm false _ _ hev) (pr_op (.getCur m) hm fun _ _ => pr_notify hA m hm true _ _ hev)
    · refine pr_op (.getCur m) hm fun _ _ => pr_then (pr_notify hA m hm false _ _ hev) (pr_op (.getCur m) hm fun c1 hc1 => pr_bind (pr_deref _) fun x y hxy => ?_)
      obtain ⟨rfl, hxy⟩ := hxy
      refine pr_then (pr_onState hA .exit _ (hc1 _ hxy) hev m hm) (pr_then (pr_update hA m hm to (hW.table s hs _ _ _ _ hrow hto) false)
        (pr_op (.getCur m) hm fun c2 hc2 => pr_bind (pr_deref _) fun x y hxy => ?_))
      obtain ⟨rfl, hxy⟩ := hxy
      refine pr_then (pr_onState hA .entry _ (hc2 _ hxy) hev m hm) (pr_then (pr_notify hA m hm true _ _ hev) ?_)
      split
      · exact pr_stop hW hA m hm false
      · exact .ret rfl

theorem pr_processOne (s : SId) (hs : K.G.strat s = true) (cm : MId) (hcm : K.G.mach cm = true) (p : PairId) (hp : K.P p) {ev : Ev} (hev : K.Passed ev) (m : MId)
    (hm : K.G.mach m = true) : PR K Eq (processOne env s cm p ev m) (processOne env' s cm (K.g p) (K.ev ev) m) := by
  refine pr_bind (R := Res Eq) (pr_attempt (R := Eq) (pr_op (.getEnded cm) hcm fun r _ => ?_)) fun r r' hr => ?_
  · cases r
    · exact pr_execute hW hA s hs hev m hm
    · exact .ret rfl
  · have jp : ∀ r r' : Except Exc Unit, Res Eq r r' → PR K Eq (do lift (.poolGive s p); ofExcept r) (do lift (.poolGive s (K.g p)); ofExcept r') := fun r r' hr =>
      pr_op (.poolGive s p) ⟨hs, hp⟩ fun _ _ => pr_except hr
    cases hr with
    | ok h => exact jp _ _ (.ok h)
    | error x =>
      dsimp only
      split
      · exact pr_bind (pr_attempt (pr_callback (.flowEx m ev x) (k := .flowEx s ev m x) ⟨hm, hev, hs⟩)) jp
      · exact jp _ _ (.error x)

include he

theorem pr_drain (s : SId) (hs : K.G.strat s = true) (cm : MId) (hcm : K.G.mach cm = true) : PR K Eq (drain env s cm) (drain env' s cm) := by
  have hq := he.queue s hs
  unfold drain
  rw [hA.strat s hs]
  refine pr_op (.qIsEmpty (env.strat s).queue) hq fun r _ => ?_
  cases r
  · refine pr_op (.poll (env.strat s).queue) hq fun r hr => pr_bind (pr_derefMap K.g r) fun p p' hp => ?_
    obtain ⟨rfl, hp⟩ := hp
    refine pr_op (.getPair p) (hr p hp) fun x hx => pr_bind (pr_derefMap (fun x : Ev × MId => (K.ev x.1, x.2)) x) fun y y' hy => ?_
    obtain ⟨rfl, hy⟩ := hy
    obtain ⟨h1, h2⟩ := hx y hy
    exact pr_then (pr_processOne hW hA s hs cm hcm p (hr p hp) (.inr h1) y.2 h2) (pr_invoke (c := .drain s cm) ⟨hs, hcm⟩)
  · exact .ret rfl

omit he hW hA in
theorem pr_anyEqual (ev : Ev) (ps : List PairId) (hp : ∀ p ∈ ps, K.P p) : PR K Eq (anyEqual ev ps) (anyEqual (K.ev ev) (ps.map K.g)) := by
  induction ps with
  | nil => exact .ret rfl
  | cons p ps ih =>
    refine pr_op (.getPair p) (hp p (by simp)) fun x hx => pr_bind (pr_derefMap (fun x : Ev × MId => (K.ev x.1, x.2)) x) fun y y' hy => ?_
    obtain ⟨rfl, hy⟩ := hy
    have : (K.ev y.1).eqv (K.ev ev) = y.1.eqv ev := rfl
    dsimp only
    rw [this]
    split
    · exact .ret rfl
    · exact ih fun q hq => hp q (by simp [hq])

omit hW in
theorem pr_default (s : SId) (hs : K.G.strat s = true) {ev : Ev} (hev : K.Oid ev.oid) (m : MId) (hm : K.G.mach m = true) :
    PR K Eq (processEventDefault env s ev m) (processEventDefault env' s (K.ev ev) m) := by
  have hq := he.queue s hs
  have hx := he.exec s hs
  unfold processEventDefault
  rw [hA.strat s hs]
  dsimp only
  have tail : ∀ p : PairId, K.P p → PR K Eq (do
      lift (.offer (env.strat s).queue p)
      if !(← lift (.submit (env.strat s).exec s m)) then thr .rejected) (do
      lift (.offer (env.strat s).queue (K.g p))
      if !(← lift (.submit (env.strat s).exec s m)) then thr .rejected : Prog Unit) := fun p hp =>
    pr_op (.offer (env.strat s).queue p) ⟨hq, hp⟩ fun _ _ => pr_op (.submit (env.strat s).exec s m) ⟨hx, hs, hm⟩ fun r _ => by
      cases r
      · exact .thr _
      · exact .ret rfl
  refine pr_op (.qSize (env.strat s).queue) hq fun n _ => ?_
  refine pr_ite (pr_callback (.flowFull m ev) (k := .flowEx s ev m (.ise .queueFull)) ⟨hm, .inr hev, hs⟩) ?_
  refine pr_op (.poolTake s) hs fun p hp => ?_
  refine pr_op (.getPayload ev.oid) hev fun v _ => ?_
  refine pr_ite ?_ ?_
  · exact pr_op (.newCopy ev) hev fun ev' hev' => pr_op (.setPair p ev' m) ⟨hp, hev', hm⟩ fun _ _ => tail p hp
  · exact pr_op (.setPair p ev m) ⟨hp, hev, hm⟩ fun _ _ => tail p hp

omit hW in
theorem pr_processEvent (s : SId) (hs : K.G.strat s = true) {ev : Ev} (hev : K.Oid ev.oid) (m : MId) (hm : K.G.mach m = true) :
    PR K Eq (processEvent env s ev m) (processEvent env' s (K.ev ev) m) := by
  unfold processEvent
  rw [hA.strat s hs]
  split
  · refine pr_op (.qSnap (env.strat s).queue) (he.queue s hs) fun ps hps => pr_bind (pr_anyEqual ev ps hps) fun b b' hb => ?_
    subst hb
    cases b
    · exact pr_default he hA s hs hev m hm
    · exact .op (.emit (.dropped m ev)) trivial fun _ _ => .ret rfl
  · exact pr_default he hA s hs hev m hm

omit hW in
theorem pr_fire (m : MId) (hm : K.G.mach m = true) {ev : Ev} (hev : K.Oid ev.oid) : PR K Eq (fire env m ev) (fire env' m (K.ev ev)) := by
  have hs := he.strat m hm
  unfold fire
  rw [hA.mach m hm]
  refine pr_op (.getStarted m) hm fun r _ => ?_
  cases r
  · exact pr_callback (.flowBefore m ev) (k := .flowBefore _ ev m) ⟨hm, .inr hev, hs⟩
  · have jp : ∀ e : Bool, PR K Eq (if e then callback (.flowAfter m ev) (.flowAfter (env.mach m).strat ev m) else processEvent env (env.mach m).strat ev m)
        (if e then callback (.flowAfter m (K.ev ev)) (.flowAfter (env.mach m).strat (K.ev ev) m) else processEvent env' (env.mach m).strat (K.ev ev) m) := fun e => by
      cases e
      · exact pr_processEvent he hA _ hs hev m hm
      · exact pr_callback (.flowAfter m ev) (k := .flowAfter _ ev m) ⟨hm, .inr hev, hs⟩
    refine pr_op (.getStarted m) hm fun r _ => ?_
    cases r
    · exact jp false
    · exact pr_op (.getEnded m) hm fun e _ => jp e

omit he in
theorem pr_start (m : MId) (hm : K.G.mach m = true) : PR K Eq (start env m) (start env' m) := by
  have hi : K.Passed immEv := .inl rfl
  unfold start
  rw [hA.mach m hm]
  dsimp only
  split
  · exact .thr _
  · exact .thr _
  · next i h =>
    have hS := hW.init m hm _ h
    refine pr_op (.casStarted m) hm fun r _ => ?_
    cases r
    · exact .thr _
    · exact pr_op (.setCur m _ true) ⟨hm, hS⟩ fun _ _ => pr_then (pr_notify hA m hm false _ _ hi) (pr_then (pr_onState hA .entry _ hS hi m hm)
        (pr_then (pr_notify hA m hm true _ _ hi) (.op (.clearEnded m) hm fun _ _ => .ret rfl)))

omit he hW in
theorem pr_startInState (m : MId) (hm : K.G.mach m = true) (s : Option St) (hs : ∀ x, s = some x → K.S x.oid) : PR K Eq (startInState env m s) (startInState env' m s) := by
  unfold startInState
  rw [hA.mach m hm]
  split
  · refine pr_op (.casStarted m) hm fun r _ => ?_
    cases r
    · exact .thr _
    · exact pr_op (.setCur m _ true) ⟨hm, hs _ rfl⟩ fun _ _ => .op (.clearEnded m) hm fun _ _ => .ret rfl
  · exact .thr _

omit he hW hA in
theorem pr_api (c : Api) {p p' : Prog Unit} (hp : PR K Eq p p') : PR K Eq (api c p) (api (renApi K.f c) p') := by
  refine pr_op (.emit (.enter c)) trivial fun _ _ => pr_bind (pr_attempt hp) fun r r' hr => ?_
  have := res_eq hr
  subst this
  exact pr_op (.emit (.leave c (outcome r))) trivial fun _ _ => .ret rfl

theorem pr_denote {u : UProg} (h : K.G.User K.D u) (hS : Stays K.S u) : PR K Eq (u.denote env) ((renUser K.f u).denote env') := by
  induction h with
  | done => exact .ret rfl
  | thr x => exact .thr x
  | call u hu _ ih =>
    cases hS with
    | call _ h1 h2 =>
    replace ih := fun r => ih r (h2 r)
    cases u with
    | fire m ev => exact pr_bind (pr_api (.fire m ev) (pr_fire he hA m hu.1 hu.2)) fun r r' hr => by subst hr; exact ih r
    | stop m => exact pr_bind (pr_api (.stop m) (pr_stop hW hA m hu true)) fun r r' hr => by subst hr; exact ih r
    | start m => exact pr_bind (pr_api (.start m) (pr_start hW hA m hu)) fun r r' hr => by subst hr; exact ih r
    | startInState m s =>
      exact pr_bind (pr_api (.startInState m s) (pr_startInState hA m hu s fun x hx => by subst hx; exact h1)) fun r r' hr => by subst hr; exact ih r
    | isStarted m => exact pr_op (.getStarted m) hu fun r _ => ih r
    | isEnded m => exact pr_op (.getEnded m) hu fun r _ => ih r
    | getCurrentState m => exact pr_op (.getCur m) hu fun r _ => ih r
    | getEventQueueSize m =>
      have : (env'.strat (env'.mach m).strat).queue = (env.strat (env.mach m).strat).queue := by rw [hA.mach m hu, hA.strat _ (he.strat m hu)]
      show PR K Eq (lift (.qSize (env.strat (env.mach m).strat).queue) >>= _) (lift (.qSize (env'.strat (env'.mach m).strat).queue) >>= _)
      rw [this]
      exact pr_op (.qSize _) (he.queue _ (he.strat m hu)) fun r _ => ih r
    | setListener m l => exact pr_op (.setListener m l) hu fun r _ => ih r
    | getPayload o => exact pr_op (.getPayload o) hu fun r _ => ih r
    | setPayload o v => exact pr_op (.setPayload o v) hu fun r _ => ih r
    | proc i => exact pr_bind (pr_attempt (pr_invoke (c := .proc i) hu)) fun r r' hr => by rw [← res_eq hr]; exact ih r
    | note n => exact pr_op (.emit (.user n)) trivial fun r _ => ih r
    | getMem a => exact pr_op (.getMem a) hu fun r _ => ih r
    | setMem a v => exact pr_op (.setMem a v) hu fun r _ => ih r
    | await n => exact pr_op (.await n) hu fun r _ => ih r
    | countDown n => exact pr_op (.countDown n) hu fun r _ => ih r
    | setIntr => exact pr_op .setIntr trivial fun r _ => ih r

theorem pr_code {g : Ev → UProg} (h : K.G.Code g) {ev : Ev} (hev : K.Passed ev) (hS : Stays K.S (g ev)) : PR K Eq ((g ev).denote env) ((g (K.ev ev)).denote env') := by
  rw [h.same]
  exact pr_denote he hW hA (h.own _ _ hev) hS

theorem pr_body {c : Call} (h : K.okCall c) : PR K Eq (body env c) (body env' (K.call c)) := by
  cases c with
  | action k o i ev m =>
    have h1 := congrArg (fun l => l[i]?) (hA.acts k o h.2.2 m h.1)
    simp only [List.getElem?_map] at h1
    simp only [body, Kit.call]
    cases h2 : (env.acts k o)[i]? with
    | none =>
      rw [h2] at h1
      rw [Option.map_eq_none_iff.1 h1]
      exact .ret rfl
    | some a =>
      rw [h2] at h1
      obtain ⟨a', h3, h4⟩ := Option.map_eq_some_iff.1 h1
      rw [h3]
      have h5 : a' (K.ev ev) m = a (K.ev ev) m := congrFun h4 (K.ev ev)
      dsimp only
      rw [h5]
      exact pr_code he hW hA (he.acts k o h.2.2 a (List.mem_of_getElem? h2) m h.1) h.2.1 (hW.acts k o h.2.2 a (List.mem_of_getElem? h2) ev m h.1)
  | listener l b f ev t =>
    simp only [body, Kit.call, hA.listener l h.1]
    exact pr_code he hW hA (he.listener l b f t h.1) h.2 (hW.listener l b f ev t h.1)
  | unmapped s ev m =>
    simp only [body, Kit.call, hA.unmapped s _ m h.2.2 h.1]
    exact pr_code he hW hA (he.unmapped s m h.2.2 h.1) h.2.1 (hW.unmapped s ev m h.2.2 h.1)
  | flowEx s ev m x =>
    simp only [body, Kit.call, hA.flowEx s _ m x h.2.2 h.1]
    exact pr_code he hW hA (he.flowEx s m x h.2.2 h.1) h.2.1 (hW.flowEx s ev m x h.2.2 h.1)
  | flowAfter s ev m =>
    simp only [body, Kit.call, hA.flowAfter s _ m h.2.2 h.1]
    exact pr_code he hW hA (he.flowAfter s m h.2.2 h.1) h.2.1 (hW.flowAfter s ev m h.2.2 h.1)
  | flowBefore s ev m =>
    simp only [body, Kit.call, hA.flowBefore s _ m h.2.2 h.1]
    exact pr_code he hW hA (he.flowBefore s m h.2.2 h.1) h.2.1 (hW.flowBefore s ev m h.2.2 h.1)
  | proc i =>
    simp only [body, Kit.call, hA.proc i h]
    exact pr_code he hW hA (g := fun _ => env.proc i) (he.proc i h) (ev := immEv) (.inl rfl) (hW.proc i h)
  | drain s m => exact pr_drain he hW hA s h.1 m h.2

end

theorem stays_all (u : UProg) : Stays AllStates u := by
  induction u with
  | done => exact .done
  | thr x => exact .thr x
  | call u k ih =>
    refine .call u ?_ ih
    cases u with
    | startInState m s => cases s <;> trivial
    | _ => trivial

theorem within_all (G : Group) (env : Verif.Env) : G.Within AllStates env where
  init _ _ _ _ := trivial
  end_ _ _ := trivial
  table _ _ _ _ _ _ _ _ := trivial
  acts _ _ _ _ _ _ _ _ := stays_all _
  listener _ _ _ _ _ _ := stays_all _
  unmapped _ _ _ _ _ := stays_all _
  flowEx _ _ _ _ _ _ := stays_all _
  flowAfter _ _ _ _ _ := stays_all _
  flowBefore _ _ _ _ _ := stays_all _
  proc _ _ := stays_all _

theorem agree_refl (G : Group) (S : Nat → Prop) (env : Verif.Env) : G.Agree S env env where
  mach _ _ := rfl
  strat _ _ := rfl
  width _ _ := rfl
  acts _ _ _ _ _ := rfl
  listener _ _ := rfl
  unmapped _ _ _ _ _ := rfl
  flowEx _ _ _ _ _ _ := rfl
  flowAfter _ _ _ _ _ := rfl
  flowBefore _ _ _ _ _ := rfl
  proc _ _ := rfl

/-! ### Memory -/

/-- What the group can reach belongs to it. -/
structure WO (K : Kit) (w : World) : Prop where
  lst : ∀ m, K.G.mach m = true → ∀ l, (w.mach m).listener = some l → K.G.lst l = true
  pair : ∀ p, K.P p → ∀ x, w.pair p = some x → K.Oid x.1.oid ∧ K.G.mach x.2 = true
  queue : ∀ q, K.G.queue q = true → ∀ p ∈ w.queue q, K.P p
  pool : ∀ s, K.G.strat s = true → ∀ p ∈ w.pool s, K.P p
  tasks : ∀ e, K.G.exec e = true → ∀ x ∈ w.tasks e, K.G.strat x.1 = true ∧ K.G.mach x.2 = true
  cur : ∀ m, K.G.mach m = true → ∀ s, (w.mach m).cur = some s → K.S s.oid

/-- As far as the group is concerned, the memory is the same. -/
structure WS (K : Kit) (w w' : World) : Prop where
  mach : ∀ m, K.G.mach m = true → w'.mach m = w.mach m
  payload : ∀ o, K.Oid o → w'.payload (renOid K.f o) = w.payload o
  pair : ∀ p, K.P p → w'.pair (K.g p) = (w.pair p).map fun x => (K.ev x.1, x.2)
  queue : ∀ q, K.G.queue q = true → w'.queue q = (w.queue q).map K.g
  pool : ∀ s, K.G.strat s = true → w'.pool s = (w.pool s).map K.g
  tasks : ∀ e, K.G.exec e = true → w'.tasks e = w.tasks e
  shut : ∀ e, K.G.exec e = true → w'.shut e = w.shut e
  latch : ∀ n, K.G.latch n = true → w'.latch n = w.latch n
  intr : ∀ t, K.G.tid t = true → w'.intr t = w.intr t
  mem : ∀ a, K.G.mem a = true → w'.mem a = w.mem a

theorem fset_of {γ δ : Type} [DecidableEq γ] {A : γ → δ → Prop} {h : γ → δ} {x : γ} {v : δ} (hv : A x v) (hh : ∀ y, A y (h y)) (y : γ) : A y (fset h x v y) := by
  by_cases hy : y = x
  · rw [hy, fset_same]; exact hv
  · rw [fset_ne _ _ hy]; exact hh y

theorem fset_rel {γ δ γ' δ' : Type} [DecidableEq γ] [DecidableEq γ'] {A : γ → Prop} {r : γ → γ'} {B : δ → δ'} {h : γ → δ} {h' : γ' → δ'} {x : γ} {v : δ} {v' : δ'}
    (hr : ∀ y z, r y = r z → y = z) (hv : v' = B v) (hh : ∀ y, A y → h' (r y) = B (h y)) (y : γ) (hy : A y) : fset h' (r x) v' (r y) = B (fset h x v y) := by
  by_cases hyx : y = x
  · rw [hyx, fset_same, fset_same]; exact hv
  · rw [fset_ne _ _ hyx, fset_ne _ _ fun h => hyx (hr _ _ h)]; exact hh y hy

theorem fset_other {γ δ : Type} [DecidableEq γ] {A : γ → Prop} {h : γ → δ} {x : γ} {v : δ} (hx : ¬A x) (y : γ) (hy : A y) : fset h x v y = h y :=
  fset_ne _ _ fun h => hx (h ▸ hy)

theorem entry_tid (G : Group) {t : Tid} (ht : t ≠ .env) (o : Obs) : G.entry (t, o) = G.tid t := by
  cases t with
  | env => exact absurd rfl ht
  | client => rfl
  | worker => rfl

theorem logs_other (G : Group) {w : World} {t : Tid} (ht : G.tid t = false) (he : t ≠ .env) (o : Option Obs) :
    (w.trace ++ (o.map fun x => (t, x)).toList).filter G.entry = w.trace.filter G.entry := by
  cases o with
  | none => simp
  | some o => simp [List.filter_append, entry_tid _ he, ht]

/-- Allocation: new copies and pairs. -/
structure New (K : Kit) (w w1 : World) : Prop where
  copy : w1.nextCopy ≠ w.nextCopy → K.D w.nextCopy
  pair : w1.nextPair ≠ w.nextPair → K.P w.nextPair

theorem exec_own {w : World} {t : Tid} {o : Op} (hw : WO K w) (ho : K.okOp o) (hn : New K w (exec t o w).2) : K.okRes o (exec t o w).1 ∧ WO K (exec t o w).2 := by
  cases o with
  | casStarted m =>
    refine ⟨trivial, ?_⟩
    simp only [exec]
    split
    · exact hw
    · exact { hw with lst := fset_of (A := fun m (x : Mach) => K.G.mach m = true → ∀ l, x.listener = some l → K.G.lst l = true) (hw.lst m) hw.lst, cur := fset_of (A := fun m (x : Mach) => K.G.mach m = true → ∀ s, x.cur = some s → K.S s.oid) (hw.cur m) hw.cur }
  | clearEnded m =>
    exact ⟨trivial, { hw with lst := fset_of (A := fun m (x : Mach) => K.G.mach m = true → ∀ l, x.listener = some l → K.G.lst l = true) (hw.lst m) hw.lst, cur := fset_of (A := fun m (x : Mach) => K.G.mach m = true → ∀ s, x.cur = some s → K.S s.oid) (hw.cur m) hw.cur }⟩
  | casEnded m s b api =>
    refine ⟨trivial, ?_⟩
    simp only [exec]
    split
    · exact hw
    · exact { hw with lst := fset_of (A := fun m (x : Mach) => K.G.mach m = true → ∀ l, x.listener = some l → K.G.lst l = true) (hw.lst m) hw.lst, cur := fset_of (A := fun m (x : Mach) => K.G.mach m = true → ∀ s, x.cur = some s → K.S s.oid) (hw.cur m) hw.cur }
  | setCur m s api =>
    exact ⟨trivial, { hw with lst := fset_of (A := fun m (x : Mach) => K.G.mach m = true → ∀ l, x.listener = some l → K.G.lst l = true) (hw.lst m) hw.lst, cur := fset_of (A := fun m (x : Mach) => K.G.mach m = true → ∀ s, x.cur = some s → K.S s.oid) (fun _ _ h => by cases h; exact ho.2) hw.cur }⟩
  | setListener m l =>
    exact ⟨trivial, { hw with lst := fset_of (A := fun m (x : Mach) => K.G.mach m = true → ∀ l, x.listener = some l → K.G.lst l = true) (fun _ => ho.2) hw.lst, cur := fset_of (A := fun m (x : Mach) => K.G.mach m = true → ∀ s, x.cur = some s → K.S s.oid) (hw.cur m) hw.cur }⟩
  | notify m c =>
    have := hw.lst m ho
    simp only [exec]
    split
    · exact ⟨fun l hl => (nomatch hl), hw⟩
    · next l hl => exact ⟨fun l' hl' => this l' (hl.trans hl'), { hw with }⟩
  | qSnap q => exact ⟨hw.queue q ho, hw⟩
  | offer q p =>
    have : WO K { w with queue := fset w.queue q (w.queue q ++ [p]) } := { hw with
      queue := fset_of (A := fun q x => K.G.queue q = true → ∀ p ∈ x, K.P p) (fun h p' hp' => by
        rcases List.mem_append.1 hp' with h' | h'
        · exact hw.queue q h p' h'
        · rw [List.mem_singleton.1 h']; exact ho.2) hw.queue }
    refine ⟨trivial, ?_⟩
    simp only [exec]
    split
    · exact { this with }
    · exact this
  | poll q =>
    have hq := hw.queue q ho
    simp only [exec]
    split
    · exact ⟨fun p hp => (nomatch hp), hw⟩
    · next p ps hps =>
      have : WO K { w with queue := fset w.queue q ps } := { hw with
        queue := fset_of (A := fun q x => K.G.queue q = true → ∀ p ∈ x, K.P p) (fun _ p' hp' => hq p' (by rw [hps]; exact .tail _ hp')) hw.queue }
      refine ⟨fun p' hp' => ?_, ?_⟩
      · cases hp'; exact hq p (by rw [hps]; exact .head _)
      · split
        · exact { this with }
        · exact this
  | poolTake s =>
    have hq := hw.pool s ho
    have h2 := hn.pair
    simp only [exec] at h2 ⊢
    split
    · next h => exact ⟨h2 (by rw [h]; exact Nat.succ_ne_self _), { hw with }⟩
    · next p ps hps =>
      exact ⟨hq p (by rw [hps]; exact .head _), { hw with
        pool := fset_of (A := fun q x => K.G.strat q = true → ∀ p ∈ x, K.P p) (fun _ p' hp' => hq p' (by rw [hps]; exact .tail _ hp')) hw.pool }⟩
  | poolGive s p =>
    have : WO K { w with pool := fset w.pool s (w.pool s ++ [p]) } := { hw with
      pool := fset_of (A := fun q x => K.G.strat q = true → ∀ p ∈ x, K.P p) (fun h p' hp' => by
        rcases List.mem_append.1 hp' with h' | h'
        · exact hw.pool s h p' h'
        · rw [List.mem_singleton.1 h']; exact ho.2) hw.pool }
    refine ⟨trivial, ?_⟩
    simp only [exec]
    split
    · exact { this with }
    · exact this
  | setPair p ev m =>
    exact ⟨trivial, { hw with
      pair := fset_of (A := fun p (x : Option (Ev × MId)) => K.P p → ∀ y, x = some y → K.Oid y.1.oid ∧ K.G.mach y.2 = true) (fun _ y hy => by cases hy; exact ho.2) hw.pair }⟩
  | getCur m => exact ⟨hw.cur m ho, hw⟩
  | getPair p => exact ⟨hw.pair p ho, hw⟩
  | newCopy ev => exact ⟨hn.copy (Nat.succ_ne_self _), { hw with }⟩
  | submit e s m =>
    refine ⟨trivial, ?_⟩
    simp only [exec]
    split
    · exact { hw with }
    · exact { hw with
        tasks := fset_of (A := fun e (x : List (SId × MId)) => K.G.exec e = true → ∀ y ∈ x, K.G.strat y.1 = true ∧ K.G.mach y.2 = true) (fun h y hy => by
          rcases List.mem_append.1 hy with h' | h'
          · exact hw.tasks e h y h'
          · rw [List.mem_singleton.1 h']; exact ho.2) hw.tasks }
  | await n =>
    refine ⟨trivial, ?_⟩
    simp only [exec]
    split
    · exact { hw with }
    · exact hw
  | getStarted | getEnded | getListener | qSize | qIsEmpty | getPayload | getMem => exact ⟨trivial, hw⟩
  | emit | setPayload | setMem | countDown | setIntr => exact ⟨trivial, { hw with }⟩

/-- Other objects are other objects. -/
structure Kit.Inj (K : Kit) : Prop where
  f : ∀ x y, K.f x = K.f y → x = y
  g : ∀ x y, K.g x = K.g y → x = y

theorem oid_inj (h : K.Inj) (x y : EvOid) (e : renOid K.f x = renOid K.f y) : x = y := by
  cases x <;> cases y <;> simp only [renOid] at e
  · exact e
  · exact EvOid.noConfusion e
  · exact EvOid.noConfusion e
  · rw [h.f _ _ (EvOid.copy.inj e)]

theorem obs_rel {w w' : World} (hw : WS K w w') {o : Op} (ho : K.okOp o) (hn : (∃ ev, o = .newCopy ev) → K.f w.nextCopy = w'.nextCopy) (hq : WO K w) :
    opObs (K.op o) w' = (opObs o w).map (renObs K.f) := by
  cases o with
  | casStarted m => simp only [opObs, Kit.op, hw.mach m ho]; split <;> rfl
  | casEnded m s b api => simp only [opObs, Kit.op, hw.mach m ho]; split <;> rfl
  | notify m c => simp only [opObs, Kit.op, hw.mach m ho]; split <;> rfl
  | offer q p => simp only [opObs, Kit.op, hw.pair p ho.2]; cases w.pair p <;> rfl
  | poll q =>
    simp only [opObs, Kit.op, hw.queue q ho]
    cases h : w.queue q with
    | nil => rfl
    | cons p ps =>
      simp only [List.map_cons, hw.pair p (hq.queue q ho p (by rw [h]; exact .head _))]
      cases w.pair p <;> rfl
  | poolGive s p => simp only [opObs, Kit.op, hw.pair p ho.2]; cases w.pair p <;> rfl
  | newCopy ev =>
    have h1 : w'.payload (K.ev ev).oid = w.payload ev.oid := hw.payload _ ho
    simp only [opObs, Kit.op, h1, Option.map, renObs, hn ⟨ev, rfl⟩]
  | submit e s m => simp only [opObs, Kit.op, hw.shut e ho.1]; split <;> rfl
  | _ => rfl

theorem exec_rel {w w' : World} {t : Tid} {o : Op} (hi : K.Inj) (hq : WO K w) (hw : WS K w w') (ht : K.G.tid t = true) (ho : K.okOp o)
    (hf : (exec t o w).2.nextCopy ≠ w.nextCopy → K.f w.nextCopy = w'.nextCopy) (hg : (exec t o w).2.nextPair ≠ w.nextPair → K.g w.nextPair = w'.nextPair) :
    (exec t (K.op o) w').1 = K.res o (exec t o w).1 ∧ WS K (exec t o w).2 (exec t (K.op o) w').2 ∧
      ((exec t o w).2.nextCopy = w.nextCopy ∧ (exec t (K.op o) w').2.nextCopy = w'.nextCopy ∨
        (exec t o w).2.nextCopy = w.nextCopy + 1 ∧ (exec t (K.op o) w').2.nextCopy = w'.nextCopy + 1) ∧
      ((exec t o w).2.nextPair = w.nextPair ∧ (exec t (K.op o) w').2.nextPair = w'.nextPair ∨
        (exec t o w).2.nextPair = w.nextPair + 1 ∧ (exec t (K.op o) w').2.nextPair = w'.nextPair + 1) := by
  have hmach : ∀ m x, ∀ n, K.G.mach n = true → fset w'.mach m x n = fset w.mach m x n := fun m x n hn =>
    fset_rel (A := fun m => K.G.mach m = true) (r := id) (B := id) (fun _ _ h => h) rfl hw.mach n hn
  cases o with
  | getStarted m => exact ⟨congrArg Mach.started (hw.mach m ho), hw, .inl ⟨rfl, rfl⟩, .inl ⟨rfl, rfl⟩⟩
  | getEnded m => exact ⟨congrArg Mach.ended (hw.mach m ho), hw, .inl ⟨rfl, rfl⟩, .inl ⟨rfl, rfl⟩⟩
  | getCur m => exact ⟨congrArg Mach.cur (hw.mach m ho), hw, .inl ⟨rfl, rfl⟩, .inl ⟨rfl, rfl⟩⟩
  | getListener m => exact ⟨congrArg Mach.listener (hw.mach m ho), hw, .inl ⟨rfl, rfl⟩, .inl ⟨rfl, rfl⟩⟩
  | casStarted m =>
    simp only [exec, Kit.op, hw.mach m ho]
    split
    · exact ⟨rfl, hw, .inl ⟨rfl, rfl⟩, .inl ⟨rfl, rfl⟩⟩
    · exact ⟨rfl, { hw with mach := hmach m _ }, .inl ⟨rfl, rfl⟩, .inl ⟨rfl, rfl⟩⟩
  | clearEnded m =>
    simp only [exec, Kit.op, hw.mach m ho]
    exact ⟨rfl, { hw with mach := hmach m _ }, .inl ⟨rfl, rfl⟩, .inl ⟨rfl, rfl⟩⟩
  | casEnded m s b api =>
    simp only [exec, Kit.op, hw.mach m ho]
    split
    · exact ⟨rfl, hw, .inl ⟨rfl, rfl⟩, .inl ⟨rfl, rfl⟩⟩
    · exact ⟨rfl, { hw with mach := hmach m _ }, .inl ⟨rfl, rfl⟩, .inl ⟨rfl, rfl⟩⟩
  | setCur m s api =>
    simp only [exec, Kit.op, hw.mach m ho.1]
    exact ⟨rfl, { hw with mach := hmach m _ }, .inl ⟨rfl, rfl⟩, .inl ⟨rfl, rfl⟩⟩
  | setListener m l =>
    simp only [exec, Kit.op, hw.mach m ho.1]
    exact ⟨rfl, { hw with mach := hmach m _ }, .inl ⟨rfl, rfl⟩, .inl ⟨rfl, rfl⟩⟩
  | notify m c =>
    simp only [exec, Kit.op, hw.mach m ho]
    split
    · exact ⟨rfl, hw, .inl ⟨rfl, rfl⟩, .inl ⟨rfl, rfl⟩⟩
    · exact ⟨rfl, { hw with }, .inl ⟨rfl, rfl⟩, .inl ⟨rfl, rfl⟩⟩
  | qSize q => exact ⟨by simp [exec, Kit.op, Kit.res, hw.queue q ho], hw, .inl ⟨rfl, rfl⟩, .inl ⟨rfl, rfl⟩⟩
  | qSnap q => exact ⟨by simp [exec, Kit.op, Kit.res, hw.queue q ho], hw, .inl ⟨rfl, rfl⟩, .inl ⟨rfl, rfl⟩⟩
  | qIsEmpty q => exact ⟨by simp [exec, Kit.op, Kit.res, hw.queue q ho], hw, .inl ⟨rfl, rfl⟩, .inl ⟨rfl, rfl⟩⟩
  | offer q p =>
    have : WS K { w with queue := fset w.queue q (w.queue q ++ [p]) } { w' with queue := fset w'.queue q (w'.queue q ++ [K.g p]) } := { hw with
      queue := fset_rel (A := fun q => K.G.queue q = true) (r := id) (B := List.map K.g) (fun _ _ h => h) (by rw [hw.queue q ho.1, List.map_append]; rfl) hw.queue }
    simp only [exec, Kit.op, hw.pair p ho.2]
    cases w.pair p with
    | none => exact ⟨rfl, this, .inl ⟨rfl, rfl⟩, .inl ⟨rfl, rfl⟩⟩
    | some x => exact ⟨rfl, { this with }, .inl ⟨rfl, rfl⟩, .inl ⟨rfl, rfl⟩⟩
  | poll q =>
    have h0 := hw.queue q ho
    have h1 := hq.queue q ho
    cases h : w.queue q with
    | nil =>
      rw [h] at h0
      simp only [exec, Kit.op, h, h0, List.map_nil]
      exact ⟨rfl, hw, .inl ⟨trivial, trivial⟩, .inl ⟨trivial, trivial⟩⟩
    | cons p ps =>
      rw [h] at h0 h1
      have : WS K { w with queue := fset w.queue q ps } { w' with queue := fset w'.queue q (ps.map K.g) } := { hw with
        queue := fset_rel (A := fun q => K.G.queue q = true) (r := id) (B := List.map K.g) (fun _ _ h => h) rfl hw.queue }
      simp only [exec, Kit.op, h, h0, List.map_cons, hw.pair p (h1 p (.head _))]
      cases w.pair p with
      | none => exact ⟨rfl, this, .inl ⟨rfl, rfl⟩, .inl ⟨rfl, rfl⟩⟩
      | some x => exact ⟨rfl, { this with }, .inl ⟨rfl, rfl⟩, .inl ⟨rfl, rfl⟩⟩
  | poolTake s =>
    have h0 := hw.pool s ho
    cases h : w.pool s with
    | nil =>
      rw [h] at h0
      simp only [exec, h] at hg
      simp only [exec, Kit.op, h, h0, List.map_nil]
      exact ⟨(hg (Nat.succ_ne_self _)).symm, { hw with }, .inl ⟨trivial, trivial⟩, .inr ⟨trivial, trivial⟩⟩
    | cons p ps =>
      rw [h] at h0
      simp only [exec, Kit.op, h, h0, List.map_cons]
      exact ⟨rfl, { hw with pool := fset_rel (A := fun s => K.G.strat s = true) (r := id) (B := List.map K.g) (fun _ _ h => h) rfl hw.pool }, .inl ⟨trivial, trivial⟩, .inl ⟨trivial, trivial⟩⟩
  | poolGive s p =>
    have : WS K { w with pool := fset w.pool s (w.pool s ++ [p]) } { w' with pool := fset w'.pool s (w'.pool s ++ [K.g p]) } := { hw with
      pool := fset_rel (A := fun q => K.G.strat q = true) (r := id) (B := List.map K.g) (fun _ _ h => h) (by rw [hw.pool s ho.1, List.map_append]; rfl) hw.pool }
    simp only [exec, Kit.op, hw.pair p ho.2]
    cases w.pair p with
    | none => exact ⟨rfl, this, .inl ⟨rfl, rfl⟩, .inl ⟨rfl, rfl⟩⟩
    | some x => exact ⟨rfl, { this with }, .inl ⟨rfl, rfl⟩, .inl ⟨rfl, rfl⟩⟩
  | setPair p ev m =>
    exact ⟨rfl, { hw with pair := fset_rel (A := K.P) (B := Option.map fun x : Ev × MId => (K.ev x.1, x.2)) hi.g rfl hw.pair }, .inl ⟨rfl, rfl⟩, .inl ⟨rfl, rfl⟩⟩
  | getPair p => exact ⟨hw.pair p ho, hw, .inl ⟨rfl, rfl⟩, .inl ⟨rfl, rfl⟩⟩
  | getPayload o => exact ⟨hw.payload o ho, hw, .inl ⟨rfl, rfl⟩, .inl ⟨rfl, rfl⟩⟩
  | setPayload o v =>
    exact ⟨rfl, { hw with payload := fset_rel (A := K.Oid) (B := id) (oid_inj hi) rfl hw.payload }, .inl ⟨rfl, rfl⟩, .inl ⟨rfl, rfl⟩⟩
  | newCopy ev =>
    have h1 : w'.payload (K.ev ev).oid = w.payload ev.oid := hw.payload _ ho
    have h2 := hf (Nat.succ_ne_self _)
    have h3 : EvOid.copy w'.nextCopy = renOid K.f (.copy w.nextCopy) := by rw [← h2]; rfl
    refine ⟨?_, ?_, .inr ⟨rfl, rfl⟩, .inl ⟨rfl, rfl⟩⟩
    · simp only [exec, Kit.op, Kit.res, h3]; rfl
    · simp only [exec, Kit.op, h1, h3]
      exact { hw with payload := fset_rel (A := K.Oid) (B := id) (oid_inj hi) rfl hw.payload }
  | submit e s m =>
    simp only [exec, Kit.op, hw.shut e ho.1]
    split
    · exact ⟨rfl, { hw with }, .inl ⟨rfl, rfl⟩, .inl ⟨rfl, rfl⟩⟩
    · exact ⟨rfl, { hw with
        tasks := fset_rel (A := fun e => K.G.exec e = true) (r := id) (B := id) (fun _ _ h => h) (by rw [hw.tasks e ho.1]; rfl) hw.tasks }, .inl ⟨rfl, rfl⟩, .inl ⟨rfl, rfl⟩⟩
  | emit o => exact ⟨rfl, { hw with }, .inl ⟨rfl, rfl⟩, .inl ⟨rfl, rfl⟩⟩
  | getMem a => exact ⟨hw.mem a ho, hw, .inl ⟨rfl, rfl⟩, .inl ⟨rfl, rfl⟩⟩
  | setMem a v =>
    exact ⟨rfl, { hw with mem := fset_rel (A := fun a => K.G.mem a = true) (r := id) (B := id) (fun _ _ h => h) rfl hw.mem }, .inl ⟨rfl, rfl⟩, .inl ⟨rfl, rfl⟩⟩
  | await n =>
    simp only [exec, Kit.op, hw.intr t ht]
    split
    · exact ⟨rfl, { hw with intr := fset_rel (A := fun t => K.G.tid t = true) (r := id) (B := id) (fun _ _ h => h) rfl hw.intr }, .inl ⟨rfl, rfl⟩, .inl ⟨rfl, rfl⟩⟩
    · exact ⟨rfl, hw, .inl ⟨rfl, rfl⟩, .inl ⟨rfl, rfl⟩⟩
  | countDown n =>
    exact ⟨rfl, { hw with latch := fset_rel (A := fun n => K.G.latch n = true) (r := id) (B := id) (fun _ _ h => h) (by rw [hw.latch n ho]; rfl) hw.latch }, .inl ⟨rfl, rfl⟩, .inl ⟨rfl, rfl⟩⟩
  | setIntr =>
    exact ⟨rfl, { hw with intr := fset_rel (A := fun t => K.G.tid t = true) (r := id) (B := id) (fun _ _ h => h) rfl hw.intr }, .inl ⟨rfl, rfl⟩, .inl ⟨rfl, rfl⟩⟩

theorem enabled_rel {w w' : World} {t : Tid} {o : Op} (hw : WS K w w') (ht : K.G.tid t = true) (ho : K.okOp o) : enabled t (K.op o) w' = enabled t o w := by
  cases o with
  | await n => simp only [enabled, Kit.op, hw.intr t ht, hw.latch n ho]
  | _ => rfl

/-! ### What the rest of the program does -/

/-- Groups that share nothing. -/
structure Apart (K K' : Kit) : Prop where
  mach : ∀ x, K'.G.mach x = true → ¬K.G.mach x = true
  strat : ∀ x, K'.G.strat x = true → ¬K.G.strat x = true
  queue : ∀ x, K'.G.queue x = true → ¬K.G.queue x = true
  exec : ∀ x, K'.G.exec x = true → ¬K.G.exec x = true
  mem : ∀ x, K'.G.mem x = true → ¬K.G.mem x = true
  latch : ∀ x, K'.G.latch x = true → ¬K.G.latch x = true
  tid : ∀ x, K'.G.tid x = true → ¬K.G.tid x = true
  oid : ∀ x, K'.Oid x → ¬K.Oid x
  P : ∀ x, K'.P x → ¬K.P x

/-- As far as the group is concerned, nothing has changed. -/
structure Same (K : Kit) (w w1 : World) : Prop where
  mach : ∀ m, K.G.mach m = true → w1.mach m = w.mach m
  payload : ∀ o, K.Oid o → w1.payload o = w.payload o
  pair : ∀ p, K.P p → w1.pair p = w.pair p
  queue : ∀ q, K.G.queue q = true → w1.queue q = w.queue q
  pool : ∀ s, K.G.strat s = true → w1.pool s = w.pool s
  tasks : ∀ e, K.G.exec e = true → w1.tasks e = w.tasks e
  shut : ∀ e, K.G.exec e = true → w1.shut e = w.shut e
  latch : ∀ n, K.G.latch n = true → w1.latch n = w.latch n
  intr : ∀ t, K.G.tid t = true → w1.intr t = w.intr t
  mem : ∀ a, K.G.mem a = true → w1.mem a = w.mem a

theorem WO.same {w w1 : World} (h : WO K w) (hs : Same K w w1) : WO K w1 where
  lst m hm l hl := h.lst m hm l (by rw [← hs.mach m hm]; exact hl)
  pair p hp x hx := h.pair p hp x (by rw [← hs.pair p hp]; exact hx)
  queue q hq p hp := h.queue q hq p (by rw [← hs.queue q hq]; exact hp)
  pool q hq p hp := h.pool q hq p (by rw [← hs.pool q hq]; exact hp)
  tasks q hq p hp := h.tasks q hq p (by rw [← hs.tasks q hq]; exact hp)
  cur m hm l hl := h.cur m hm l (by rw [← hs.mach m hm]; exact hl)

theorem WS.same {w w1 v : World} (h : WS K w v) (hs : Same K w w1) : WS K w1 v where
  mach m hm := by rw [hs.mach m hm]; exact h.mach m hm
  payload m hm := by rw [hs.payload m hm]; exact h.payload m hm
  pair m hm := by rw [hs.pair m hm]; exact h.pair m hm
  queue m hm := by rw [hs.queue m hm]; exact h.queue m hm
  pool m hm := by rw [hs.pool m hm]; exact h.pool m hm
  tasks m hm := by rw [hs.tasks m hm]; exact h.tasks m hm
  shut m hm := by rw [hs.shut m hm]; exact h.shut m hm
  latch m hm := by rw [hs.latch m hm]; exact h.latch m hm
  intr m hm := by rw [hs.intr m hm]; exact h.intr m hm
  mem m hm := by rw [hs.mem m hm]; exact h.mem m hm

theorem exec_apart {K' : Kit} (hA : Apart K K') {w : World} {t : Tid} {o : Op} (ht : K'.G.tid t = true) (ho : K'.okOp o) (hn : New K' w (exec t o w).2) :
    Same K w (exec t o w).2 := by
  have htid : ∀ (v : Bool) t', K.G.tid t' = true → fset w.intr t v t' = w.intr t' := fun v => fset_other (A := fun t => K.G.tid t = true) (hA.tid t ht)
  have hmach : ∀ m x, K'.G.mach m = true → ∀ n, K.G.mach n = true → fset w.mach m x n = w.mach n := fun m x hm => fset_other (A := fun m => K.G.mach m = true) (hA.mach m hm)
  have hqueue : ∀ m x, K'.G.queue m = true → ∀ n, K.G.queue n = true → fset w.queue m x n = w.queue n := fun m x hm =>
    fset_other (A := fun m => K.G.queue m = true) (hA.queue m hm)
  have hpool : ∀ m x, K'.G.strat m = true → ∀ n, K.G.strat n = true → fset w.pool m x n = w.pool n := fun m x hm =>
    fset_other (A := fun m => K.G.strat m = true) (hA.strat m hm)
  have htasks : ∀ m x, K'.G.exec m = true → ∀ n, K.G.exec n = true → fset w.tasks m x n = w.tasks n := fun m x hm =>
    fset_other (A := fun m => K.G.exec m = true) (hA.exec m hm)
  have hr : ∀ {γ δ : Type} {A : γ → Prop} {h : γ → δ}, ∀ x, A x → h x = h x := fun _ _ => rfl
  cases o with
  | casStarted m =>
    simp only [exec]
    split
    · exact ⟨hr, hr, hr, hr, hr, hr, hr, hr, hr, hr⟩
    · exact ⟨hmach m _ ho, hr, hr, hr, hr, hr, hr, hr, hr, hr⟩
  | casEnded m s b api =>
    simp only [exec]
    split
    · exact ⟨hr, hr, hr, hr, hr, hr, hr, hr, hr, hr⟩
    · exact ⟨hmach m _ ho, hr, hr, hr, hr, hr, hr, hr, hr, hr⟩
  | clearEnded m => exact ⟨hmach m _ ho, hr, hr, hr, hr, hr, hr, hr, hr, hr⟩
  | setCur m s api => exact ⟨hmach m _ ho.1, hr, hr, hr, hr, hr, hr, hr, hr, hr⟩
  | setListener m l => exact ⟨hmach m _ ho.1, hr, hr, hr, hr, hr, hr, hr, hr, hr⟩
  | notify m c =>
    simp only [exec]
    split <;> exact ⟨hr, hr, hr, hr, hr, hr, hr, hr, hr, hr⟩
  | offer q p =>
    simp only [exec]
    split <;> exact ⟨hr, hr, hr, hqueue q _ ho.1, hr, hr, hr, hr, hr, hr⟩
  | poll q =>
    simp only [exec]
    split
    · exact ⟨hr, hr, hr, hr, hr, hr, hr, hr, hr, hr⟩
    · split <;> exact ⟨hr, hr, hr, hqueue q _ ho, hr, hr, hr, hr, hr, hr⟩
  | poolTake s =>
    simp only [exec]
    split
    · exact ⟨hr, hr, hr, hr, hr, hr, hr, hr, hr, hr⟩
    · exact ⟨hr, hr, hr, hr, hpool s _ ho, hr, hr, hr, hr, hr⟩
  | poolGive s p =>
    simp only [exec]
    split <;> exact ⟨hr, hr, hr, hr, hpool s _ ho.1, hr, hr, hr, hr, hr⟩
  | setPair p ev m => exact ⟨hr, hr, fset_other (A := K.P) (hA.P p ho.1), hr, hr, hr, hr, hr, hr, hr⟩
  | setPayload o v => exact ⟨hr, fset_other (A := K.Oid) (hA.oid o ho), hr, hr, hr, hr, hr, hr, hr, hr⟩
  | newCopy ev => exact ⟨hr, fset_other (A := K.Oid) (hA.oid (.copy w.nextCopy) (hn.copy (Nat.succ_ne_self _))), hr, hr, hr, hr, hr, hr, hr, hr⟩
  | submit e s m =>
    simp only [exec]
    split
    · exact ⟨hr, hr, hr, hr, hr, hr, hr, hr, hr, hr⟩
    · exact ⟨hr, hr, hr, hr, hr, htasks e _ ho.1, hr, hr, hr, hr⟩
  | setMem a v => exact ⟨hr, hr, hr, hr, hr, hr, hr, hr, hr, fset_other (A := fun a => K.G.mem a = true) (hA.mem a ho)⟩
  | await n =>
    simp only [exec]
    split
    · exact ⟨hr, hr, hr, hr, hr, hr, hr, hr, htid _, hr⟩
    · exact ⟨hr, hr, hr, hr, hr, hr, hr, hr, hr, hr⟩
  | countDown n => exact ⟨hr, hr, hr, hr, hr, hr, hr, fset_other (A := fun a => K.G.latch a = true) (hA.latch n ho), hr, hr⟩
  | setIntr => exact ⟨hr, hr, hr, hr, hr, hr, hr, hr, htid _, hr⟩
  | _ => exact ⟨hr, hr, hr, hr, hr, hr, hr, hr, hr, hr⟩

/-! ### Executions -/

/-- The rest of the program. -/
def Kit.out (K : Kit) : Kit := ⟨K.G.rest, id, fun n => ¬K.D n, id, fun n => ¬K.P n, K.T, K.S⟩

theorem not_rest {b : Bool} (h : (!b) = true) : ¬b = true := by
  cases b
  · exact Bool.noConfusion
  · exact Bool.noConfusion h

theorem rest_not {b : Bool} (h : b = true) : ¬(!b) = true := fun h' => not_rest h' h

theorem rest_tid (G : Group) (t : Tid) (h : G.rest.tid t = true) : ¬G.tid t = true := by
  cases t with
  | client => exact not_rest h
  | worker => exact not_rest h
  | env => exact Bool.noConfusion

theorem apart_out (K : Kit) : Apart K K.out where
  mach _ h := not_rest h
  strat _ h := not_rest h
  queue _ h := not_rest h
  exec _ h := not_rest h
  mem _ h := not_rest h
  latch _ h := not_rest h
  tid t h := rest_tid _ t h
  oid x h := by
    cases x with
    | client n => exact not_rest h
    | copy n => exact h
  P _ h := h

theorem apart_in (K : Kit) : Apart K.out K where
  mach _ h := rest_not h
  strat _ h := rest_not h
  queue _ h := rest_not h
  exec _ h := rest_not h
  mem _ h := rest_not h
  latch _ h := rest_not h
  tid t h := fun h' => rest_tid _ t h' h
  oid x h := by
    cases x with
    | client n => exact rest_not h
    | copy n => exact fun h' => h' h
  P _ h := fun h' => h' h

def Only (K : Kit) (p : Prog Unit) : Prop := ∃ q : Prog Unit, PR K Eq p q

/-- What threads of the group have to do. -/
inductive TR (K : Kit) : Option (Prog Unit) → Option (Prog Unit) → Prop
  | none : TR K none none
  | some {p q} : PR K Eq p q → TR K (some p) (some q)

/-- `c`: the whole program; `d`: only the group. -/
structure Sim (K : Kit) (c d : Conf) : Prop where
  own : WO K c.w
  mem : WS K c.w d.w
  trace : d.w.trace = (c.w.trace.filter K.G.entry).map fun e => (e.1, renObs K.f e.2)
  thr : ∀ t, K.G.tid t = true → TR K (c.thr t) (d.thr t)
  rest : WO K.out c.w
  others : ∀ t, K.G.tid t = false → d.thr t = none ∧ ∀ p, c.thr t = some p → K.G.rest.tid t = true ∧ Only K.out p

/-- Client programs know of no copies of events. -/
theorem user_ren {G : Group} {u : UProg} (f : Nat → Nat) (h : G.User (fun _ => False) u) : renUser f u = u := by
  have ho : ∀ o, G.Oid (fun _ => False) o → renOid f o = o := fun o ho => by
    cases o with
    | client => rfl
    | copy => exact ho.elim
  induction h with
  | done => rfl
  | thr => rfl
  | call u hu _ ih =>
    cases u with
    | fire m ev =>
      have key : ∀ (ev' : Ev) (k : (UCall.fire m ev).Res → UProg), ev' = ev → UProg.call (.fire m ev') k = .call (.fire m ev) k := fun _ _ h => by rw [h]
      simp only [renUser, ih]
      exact key _ _ (by unfold renEv; rw [ho _ hu.2])
    | getPayload o =>
      have key : ∀ (o' : EvOid) (k : Option Val → UProg), o' = o → UProg.call (.getPayload o') k = .call (.getPayload o) k := fun _ _ h => by rw [h]
      simp only [renUser, ih]
      exact key _ _ (ho _ hu)
    | setPayload o v =>
      have key : ∀ (o' : EvOid) (k : Unit → UProg), o' = o → UProg.call (.setPayload o' v) k = .call (.setPayload o v) k := fun _ _ h => by rw [h]
      simp only [renUser, ih]
      exact key _ _ (ho _ hu)
    | _ => simp only [renUser, ih]

theorem user_mono {G : Group} {D D' : Nat → Prop} (hD : ∀ n, D n → D' n) {u : UProg} (h : G.User D u) : G.User D' u := by
  have ho : ∀ o, G.Oid D o → G.Oid D' o := fun o ho => by
    cases o with
    | client => exact ho
    | copy n => exact hD n ho
  induction h with
  | done => exact .done
  | thr x => exact .thr x
  | call u hu _ ih =>
    refine .call u ?_ ih
    cases u with
    | fire m ev => exact ⟨hu.1, ho _ hu.2⟩
    | getPayload o => exact ho _ hu
    | setPayload o v => exact ho _ hu
    | _ => exact hu

theorem pr_begin (he : K.G.Env K.S env) (hW : K.G.Within K.S env) (hA : K.G.Agree K.S env env') {u : UProg} (h : K.G.User (fun _ => False) u) (hS : Stays K.S u) :
    PR K Eq (u.denote env) (u.denote env') := by
  have := pr_denote he hW hA (user_mono (D' := K.D) (fun _ h => h.elim) h) hS
  rw [user_ren K.f h] at this
  exact this

theorem tr_set {c d : Conf} {t : Tid} {x y : Option (Prog Unit)} (h : ∀ t, K.G.tid t = true → TR K (c.thr t) (d.thr t)) (hx : TR K x y) (s : Tid) (hs : K.G.tid s = true) :
    TR K (fset c.thr t x s) (fset d.thr t y s) := by
  by_cases h' : s = t
  · rw [h', fset_same, fset_same]; exact hx
  · rw [fset_ne _ _ h', fset_ne _ _ h']; exact h s hs

theorem others_set {c d : Conf} {t : Tid} {x y : Option (Prog Unit)} (ht : K.G.tid t = true)
    (h : ∀ t, K.G.tid t = false → d.thr t = none ∧ ∀ p, c.thr t = some p → K.G.rest.tid t = true ∧ Only K.out p) (s : Tid) (hs : K.G.tid s = false) :
    fset d.thr t y s = none ∧ ∀ p, fset c.thr t x s = some p → K.G.rest.tid s = true ∧ Only K.out p := by
  have h' : s ≠ t := fun h => by rw [h, ht] at hs; exact Bool.noConfusion hs
  rw [fset_ne _ _ h', fset_ne _ _ h']
  exact h s hs

theorem thr_set {c d : Conf} {t : Tid} {x : Option (Prog Unit)} (ht : K.G.tid t = false) (h : ∀ t, K.G.tid t = true → TR K (c.thr t) (d.thr t)) (s : Tid)
    (hs : K.G.tid s = true) : TR K (fset c.thr t x s) (d.thr s) := by
  have h' : s ≠ t := fun h => by rw [h, ht] at hs; exact Bool.noConfusion hs
  rw [fset_ne _ _ h']
  exact h s hs

theorem rest_set {c d : Conf} {t : Tid} {x : Option (Prog Unit)} (hx : ∀ p, x = some p → K.G.rest.tid t = true ∧ Only K.out p)
    (h : ∀ t, K.G.tid t = false → d.thr t = none ∧ ∀ p, c.thr t = some p → K.G.rest.tid t = true ∧ Only K.out p) (s : Tid) (hs : K.G.tid s = false) :
    d.thr s = none ∧ ∀ p, fset c.thr t x s = some p → K.G.rest.tid s = true ∧ Only K.out p := by
  refine ⟨(h s hs).1, ?_⟩
  by_cases h' : s = t
  · rw [h', fset_same]; exact hx
  · rw [fset_ne _ _ h']; exact (h s hs).2

theorem tid_ne_env {G : Group} {t : Tid} (ht : G.tid t = true) : t ≠ .env := fun h => by rw [h] at ht; exact Bool.noConfusion ht

theorem trace_in {w v : World} {t : Tid} (ht : K.G.tid t = true) (h : v.trace = (w.trace.filter K.G.entry).map fun e => (e.1, renObs K.f e.2)) (o : Option Obs) :
    v.trace ++ ((o.map (renObs K.f)).map fun x => (t, x)).toList = ((w.trace ++ (o.map fun x => (t, x)).toList).filter K.G.entry).map fun e => (e.1, renObs K.f e.2) := by
  cases o with
  | none => simpa using h
  | some o => simp [List.filter_append, h, entry_tid _ (tid_ne_env ht), ht]

/-- Allocation in the two executions. -/
structure Alloc (K : Kit) (c c' d : Conf) : Prop where
  copy : c'.w.nextCopy ≠ c.w.nextCopy → K.D c.w.nextCopy ∧ K.f c.w.nextCopy = d.w.nextCopy
  pair : c'.w.nextPair ≠ c.w.nextPair → K.P c.w.nextPair ∧ K.g c.w.nextPair = d.w.nextPair

def Count (a a' b b' : Nat) : Prop := a' = a ∧ b' = b ∨ a' = a + 1 ∧ b' = b + 1

theorem body_in (he : K.G.Env K.S env) (hW : K.G.Within K.S env) (hA : K.G.Agree K.S env env') {f : Call} (hf : K.okCall f) {k k' : Except Exc Unit → Prog Unit} (hk : ∀ r, PR K Eq (k r) (k' r)) :
    PR K Eq ((body env f).handle k) ((body env' (K.call f)).handle k') :=
  pr_handle (pr_body he hW hA hf) fun r r' hr => by rw [← res_eq hr]; exact hk r

theorem step_in (hi : K.Inj) (he : K.G.Env K.S env) (hW : K.G.Within K.S env) (hA : K.G.Agree K.S env env') {c c' d : Conf} {x : Choice} (h : Sim K c d) (hx : K.G.choice x = true) (hb : K.G.Begins x) (hS : K.G.BeginsIn K.S x) (hs : step env c x = some c')
    (ha : Alloc K c c' d) : ∃ d', step env' d x = some d' ∧ Sim K c' d' ∧ Count c.w.nextCopy c'.w.nextCopy d.w.nextCopy d'.w.nextCopy ∧
      Count c.w.nextPair c'.w.nextPair d.w.nextPair d'.w.nextPair := by
  cases x with
  | begin n u =>
    have ht := h.thr (.client n) hx
    simp only [step] at hs ⊢
    cases h1 : c.thr (.client n) with
    | some => rw [h1] at hs; exact absurd hs (by simp)
    | none =>
      rw [h1] at hs ht
      cases hs
      generalize h2 : d.thr (.client n) = q at ht ⊢
      cases ht
      exact ⟨_, rfl, ⟨h.own, h.mem, h.trace, tr_set h.thr (.some (pr_begin he hW hA (hb hx) (hS hx))), h.rest, others_set hx h.others⟩, .inl ⟨rfl, rfl⟩, .inl ⟨rfl, rfl⟩⟩
  | run t =>
    have hx : K.G.tid t = true := hx
    have ht := h.thr t hx
    simp only [step] at hs ⊢
    cases h1 : c.thr t with
    | none => rw [h1] at hs; exact absurd hs (by simp)
    | some p =>
      rw [h1] at hs ht
      generalize h2 : d.thr t = q at ht ⊢
      cases ht with
      | some hp =>
        cases hp with
        | ret _ => cases hs; exact ⟨_, rfl, ⟨h.own, h.mem, h.trace, tr_set h.thr .none, h.rest, others_set hx h.others⟩, .inl ⟨rfl, rfl⟩, .inl ⟨rfl, rfl⟩⟩
        | thr x =>
          cases hs
          exact ⟨_, rfl, ⟨{ h.own with }, { h.mem with }, trace_in hx h.trace (some (.uncaught x)), tr_set h.thr .none, { h.rest with }, others_set hx h.others⟩,
            .inl ⟨rfl, rfl⟩, .inl ⟨rfl, rfl⟩⟩
        | call f hf hk =>
          cases hs
          exact ⟨_, rfl, ⟨h.own, h.mem, h.trace, tr_set h.thr (.some (body_in he hW hA hf hk)), h.rest, others_set hx h.others⟩, .inl ⟨rfl, rfl⟩, .inl ⟨rfl, rfl⟩⟩
        | op o ho hk =>
          simp only [runThread, enabled_rel h.mem hx ho] at hs ⊢
          split at hs
          · next hen =>
            cases hs
            have hn : New K c.w (exec t o c.w).2 := ⟨fun h => (ha.copy h).1, fun h => (ha.pair h).1⟩
            obtain ⟨a1, a2⟩ := exec_own h.own ho hn
            obtain ⟨b1, b2, b3, b4⟩ := exec_rel hi h.own h.mem hx ho (fun h => (ha.copy h).2) (fun h => (ha.pair h).2)
            refine ⟨_, if_pos hen, ⟨a2, b2, ?_, tr_set h.thr (.some ?_), h.rest.same (exec_apart (apart_in K) hx ho hn), others_set hx h.others⟩, b3, b4⟩
            · show (exec t (K.op o) d.w).2.trace = _
              rw [exec_trace, obs_rel h.mem ho (fun ⟨ev, he⟩ => by subst he; exact (ha.copy (Nat.succ_ne_self _)).2) h.own]
              show _ = ((exec t o c.w).2.trace.filter _).map _
              rw [exec_trace]
              exact trace_in hx h.trace _
            · rw [b1]
              exact hk _ a1
          · exact absurd hs (by simp)
  | dispatch e i j =>
    have hx : K.G.exec e = true := hx
    have ht := h.thr (.worker e i) hx
    have hk := h.mem.tasks e hx
    simp only [step] at hs ⊢
    split at hs
    · next hw =>
      rw [hA.width e hx, if_pos hw, hk]
      generalize h1 : c.thr (.worker e i) = p at ht hs
      generalize h2 : d.thr (.worker e i) = q at ht ⊢
      cases ht with
      | some => exact absurd hs (by simp)
      | none =>
        cases h3 : (c.w.tasks e)[j]? with
        | none => rw [h3] at hs; exact absurd hs (by simp)
        | some sm =>
          rw [h3] at hs
          cases hs
          have hm := h.own.tasks e hx sm (List.mem_of_getElem? h3)
          refine ⟨_, rfl, ⟨{ h.own with tasks := ?_ }, { h.mem with tasks := ?_ }, h.trace, tr_set h.thr (.some (pr_drain he hW hA _ hm.1 _ hm.2)), { h.rest with tasks := ?_ },
            others_set (t := .worker e i) hx h.others⟩, .inl ⟨rfl, rfl⟩, .inl ⟨rfl, rfl⟩⟩
          · exact fset_of (A := fun e (x : List (SId × MId)) => K.G.exec e = true → ∀ y ∈ x, K.G.strat y.1 = true ∧ K.G.mach y.2 = true)
              (fun h' y hy => h.own.tasks e h' y (List.mem_of_mem_eraseIdx hy)) h.own.tasks
          · exact fset_rel (A := fun e => K.G.exec e = true) (r := id) (B := id) (fun _ _ h => h) rfl h.mem.tasks
          · exact fset_of (A := fun e (x : List (SId × MId)) => K.out.G.exec e = true → ∀ y ∈ x, K.out.G.strat y.1 = true ∧ K.out.G.mach y.2 = true)
              (fun h' y hy => h.rest.tasks e h' y (List.mem_of_mem_eraseIdx hy)) h.rest.tasks
    · exact absurd hs (by simp)
  | interrupt t =>
    cases hs
    exact ⟨_, rfl, ⟨{ h.own with }, { h.mem with intr := fset_rel (A := fun e => K.G.tid e = true) (r := id) (B := id) (fun _ _ h => h) rfl h.mem.intr }, h.trace, h.thr,
      { h.rest with }, h.others⟩, .inl ⟨rfl, rfl⟩, .inl ⟨rfl, rfl⟩⟩
  | shutdown e now =>
    have hx : K.G.exec e = true := hx
    have hsh : ∀ e', K.G.exec e' = true → fset d.w.shut e true e' = fset c.w.shut e true e' :=
      fset_rel (A := fun e => K.G.exec e = true) (r := id) (B := id) (fun _ _ h => h) rfl h.mem.shut
    cases hs
    cases now with
    | false => exact ⟨_, rfl, ⟨{ h.own with }, { h.mem with shut := hsh }, h.trace, h.thr, { h.rest with }, h.others⟩, .inl ⟨rfl, rfl⟩, .inl ⟨rfl, rfl⟩⟩
    | true =>
      refine ⟨_, rfl, ⟨{ h.own with tasks := ?_ }, { h.mem with shut := hsh, tasks := ?_ }, ?_, h.thr, { h.rest with tasks := ?_ }, h.others⟩, .inl ⟨rfl, rfl⟩, .inl ⟨rfl, rfl⟩⟩
      · exact fset_of (A := fun e (x : List (SId × MId)) => K.G.exec e = true → ∀ y ∈ x, K.G.strat y.1 = true ∧ K.G.mach y.2 = true) (fun _ y hy => (nomatch hy)) h.own.tasks
      · exact fset_rel (A := fun e => K.G.exec e = true) (r := id) (B := id) (fun _ _ h => h) rfl h.mem.tasks
      · have hk := h.mem.tasks e hx
        have ho := h.own.tasks e hx
        show d.w.trace ++ (d.w.tasks e).map _ = ((c.w.trace ++ (c.w.tasks e).map _).filter _).map _
        have h0 : ((c.w.tasks e).map fun t => (Tid.env, Obs.taskDropped t.1 t.2)).filter K.G.entry = (c.w.tasks e).map fun t => (Tid.env, Obs.taskDropped t.1 t.2) := by
          rw [List.filter_eq_self]
          intro y hy
          obtain ⟨z, hz, rfl⟩ := List.mem_map.1 hy
          exact (ho z hz).1
        rw [hk, List.filter_append, List.map_append, h.trace, h0, List.map_map]
        rfl
      · exact fset_of (A := fun e (x : List (SId × MId)) => K.out.G.exec e = true → ∀ y ∈ x, K.out.G.strat y.1 = true ∧ K.out.G.mach y.2 = true)
          (fun _ y hy => (nomatch hy)) h.rest.tasks

theorem step_out (he : K.G.rest.Env K.T env) (hV : K.G.rest.Within K.T env) {c c' d : Conf} {x : Choice} (h : Sim K c d) (hx : K.G.choice x = false) (hb : K.G.rest.Begins x) (hS : K.G.rest.BeginsIn K.T x) (hs : step env c x = some c')
    (hc : c'.w.nextCopy ≠ c.w.nextCopy → ¬K.D c.w.nextCopy) (hp : c'.w.nextPair ≠ c.w.nextPair → ¬K.P c.w.nextPair) : Sim K c' d := by
  have hrest : ∀ {b : Bool}, b = false → (!b) = true := fun h => by rw [h]; rfl
  cases x with
  | begin n u =>
    simp only [step] at hs
    cases h1 : c.thr (.client n) with
    | some => rw [h1] at hs; exact absurd hs (by simp)
    | none =>
      rw [h1] at hs
      cases hs
      exact ⟨h.own, h.mem, h.trace, thr_set (t := .client n) hx h.thr, h.rest,
        rest_set (fun p hp => by cases hp; exact ⟨hrest hx, _, pr_begin (K := K.out) he hV (agree_refl _ _ _) (hb (hrest hx)) (hS (hrest hx))⟩) h.others⟩
  | run t =>
    have hx : K.G.tid t = false := hx
    simp only [step] at hs
    cases h1 : c.thr t with
    | none => rw [h1] at hs; exact absurd hs (by simp)
    | some p =>
      rw [h1] at hs
      obtain ⟨ht, q, hq⟩ := (h.others t hx).2 p h1
      have hte := tid_ne_env ht
      cases hq with
      | ret _ => cases hs; exact ⟨h.own, h.mem, h.trace, thr_set hx h.thr, h.rest, rest_set (fun _ h => (nomatch h)) h.others⟩
      | thr x =>
        cases hs
        refine ⟨{ h.own with }, { h.mem with }, ?_, thr_set hx h.thr, { h.rest with }, rest_set (fun _ h => (nomatch h)) h.others⟩
        exact h.trace.trans (congrArg (List.map _) (logs_other K.G hx hte (some (.uncaught x))).symm)
      | call f hf hk =>
        cases hs
        exact ⟨h.own, h.mem, h.trace, thr_set hx h.thr, h.rest, rest_set (fun _ h => by cases h; exact ⟨ht, _, body_in (K := K.out) he hV (agree_refl _ _ _) hf hk⟩) h.others⟩
      | op o ho hk =>
        simp only [runThread] at hs
        split at hs
        · cases hs
          have hn : New K.out c.w (exec t o c.w).2 := ⟨hc, hp⟩
          obtain ⟨a1, a2⟩ := exec_own h.rest ho hn
          have a3 := exec_apart (apart_out K) ht ho hn
          refine ⟨h.own.same a3, h.mem.same a3, ?_, thr_set hx h.thr, a2, rest_set (fun _ h => by cases h; exact ⟨ht, _, hk _ a1⟩) h.others⟩
          show _ = ((exec t o c.w).2.trace.filter _).map _
          rw [exec_trace, logs_other K.G hx hte]
          exact h.trace
        · exact absurd hs (by simp)
  | dispatch e i j =>
    have hx : K.G.exec e = false := hx
    have hx' : ¬K.G.exec e = true := by rw [hx]; exact Bool.noConfusion
    simp only [step] at hs
    split at hs
    · split at hs
      · next s m h1 h3 =>
        cases hs
        have hm := h.rest.tasks e (hrest hx) (s, m) (List.mem_of_getElem? h3)
        refine ⟨{ h.own with tasks := ?_ }, { h.mem with tasks := ?_ }, h.trace, thr_set (t := .worker e i) hx h.thr, { h.rest with tasks := ?_ },
          rest_set (t := .worker e i) (fun _ h => by cases h; exact ⟨hrest hx, _, pr_drain (K := K.out) he hV (agree_refl _ _ _) _ hm.1 _ hm.2⟩) h.others⟩
        · exact fset_of (A := fun e (x : List (SId × MId)) => K.G.exec e = true → ∀ y ∈ x, K.G.strat y.1 = true ∧ K.G.mach y.2 = true)
            (fun h' y hy => h.own.tasks e h' y (List.mem_of_mem_eraseIdx hy)) h.own.tasks
        · intro e' he'
          show d.w.tasks e' = fset c.w.tasks e _ e'
          rw [fset_other (A := fun e => K.G.exec e = true) hx' e' he']
          exact h.mem.tasks e' he'
        · exact fset_of (A := fun e (x : List (SId × MId)) => K.out.G.exec e = true → ∀ y ∈ x, K.out.G.strat y.1 = true ∧ K.out.G.mach y.2 = true)
            (fun h' y hy => h.rest.tasks e h' y (List.mem_of_mem_eraseIdx hy)) h.rest.tasks
      · exact absurd hs (by simp)
    · exact absurd hs (by simp)
  | interrupt t =>
    have hx' : ¬K.G.tid t = true := by rw [show K.G.tid t = false from hx]; exact Bool.noConfusion
    cases hs
    refine ⟨{ h.own with }, { h.mem with intr := ?_ }, h.trace, h.thr, { h.rest with }, h.others⟩
    intro t' ht'
    show d.w.intr t' = fset c.w.intr t _ t'
    rw [fset_other (A := fun e => K.G.tid e = true) hx' t' ht']
    exact h.mem.intr t' ht'
  | shutdown e now =>
    have hx : K.G.exec e = false := hx
    have hx' : ¬K.G.exec e = true := by rw [hx]; exact Bool.noConfusion
    have hsh : ∀ e', K.G.exec e' = true → d.w.shut e' = fset c.w.shut e true e' := fun e' he' => by
      rw [fset_other (A := fun e => K.G.exec e = true) hx' e' he']
      exact h.mem.shut e' he'
    cases hs
    cases now with
    | false => exact ⟨{ h.own with }, { h.mem with shut := hsh }, h.trace, h.thr, { h.rest with }, h.others⟩
    | true =>
      refine ⟨{ h.own with tasks := ?_ }, { h.mem with shut := hsh, tasks := ?_ }, ?_, h.thr, { h.rest with tasks := ?_ }, h.others⟩
      · exact fset_of (A := fun e (x : List (SId × MId)) => K.G.exec e = true → ∀ y ∈ x, K.G.strat y.1 = true ∧ K.G.mach y.2 = true) (fun _ y hy => (nomatch hy)) h.own.tasks
      · intro e' he'
        show d.w.tasks e' = fset c.w.tasks e _ e'
        rw [fset_other (A := fun e => K.G.exec e = true) hx' e' he']
        exact h.mem.tasks e' he'
      · have ho := h.rest.tasks e (hrest hx)
        show d.w.trace = ((c.w.trace ++ (c.w.tasks e).map _).filter _).map _
        have h0 : ((c.w.tasks e).map fun t => (Tid.env, Obs.taskDropped t.1 t.2)).filter K.G.entry = [] := by
          rw [List.filter_eq_nil_iff]
          intro y hy
          obtain ⟨z, hz, rfl⟩ := List.mem_map.1 hy
          exact not_rest (ho z hz).1
        rw [List.filter_append, h0, List.append_nil]
        exact h.trace
      · exact fset_of (A := fun e (x : List (SId × MId)) => K.out.G.exec e = true → ∀ y ∈ x, K.out.G.strat y.1 = true ∧ K.out.G.mach y.2 = true)
          (fun _ y hy => (nomatch hy)) h.rest.tasks

/-! ### Which copies and pairs are made for the group -/

theorem exec_next (t : Tid) (o : Op) (w : World) :
    ((exec t o w).2.nextCopy = w.nextCopy ∨ (exec t o w).2.nextCopy = w.nextCopy + 1) ∧ ((exec t o w).2.nextPair = w.nextPair ∨ (exec t o w).2.nextPair = w.nextPair + 1) := by
  cases o <;> simp only [exec] <;> (repeat' split) <;> simp [World.log]

theorem step_next {c c' : Conf} {x : Choice} (h : step env c x = some c') :
    (c'.w.nextCopy = c.w.nextCopy ∨ c'.w.nextCopy = c.w.nextCopy + 1) ∧ (c'.w.nextPair = c.w.nextPair ∨ c'.w.nextPair = c.w.nextPair + 1) := by
  cases x with
  | begin n u =>
    simp only [step] at h
    split at h
    · cases h
    · cases h; exact ⟨.inl rfl, .inl rfl⟩
  | run t =>
    simp only [step] at h
    split at h
    · cases h
    · next p _ =>
      cases p with
      | ret => cases h; exact ⟨.inl rfl, .inl rfl⟩
      | thr => cases h; exact ⟨.inl rfl, .inl rfl⟩
      | call => cases h; exact ⟨.inl rfl, .inl rfl⟩
      | op o k =>
        simp only [runThread] at h
        split at h
        · cases h; exact exec_next t o c.w
        · cases h
  | dispatch e i j =>
    simp only [step] at h
    split at h
    · split at h
      · cases h; exact ⟨.inl rfl, .inl rfl⟩
      · cases h
    · cases h
  | interrupt t => cases h; exact ⟨.inl rfl, .inl rfl⟩
  | shutdown e now => cases h; cases now <;> exact ⟨.inl rfl, .inl rfl⟩

/-- The numbers that are given out to the group in an execution. -/
def given (env : Verif.Env) (G : Group) (next : World → Nat) : Conf → List Choice → List Nat
  | _, [] => []
  | c, x :: xs => match step env c x with
    | none => []
    | some c' => if G.choice x = true ∧ next c'.w ≠ next c.w then next c.w :: given env G next c' xs else given env G next c' xs

/-- The numbers they have if nobody else is given any. -/
def place (l : List Nat) (n : Nat) : Nat := if n ∈ l then l.idxOf n else l.length + n

theorem place_inj (l : List Nat) (x y : Nat) (h : place l x = place l y) : x = y := by
  unfold place at h
  split at h
  · next hx =>
    have h1 := List.idxOf_lt_length_of_mem hx
    split at h
    · next hy =>
      have h2 := List.idxOf_lt_length_of_mem hy
      rw [← List.getElem_idxOf h1, ← List.getElem_idxOf h2]
      simp only [h]
    · omega
  · split at h
    · next hy => have h2 := List.idxOf_lt_length_of_mem hy; omega
    · omega

theorem place_at {a b : List Nat} {n : Nat} (h : n ∉ a) : place (a ++ n :: b) n = a.length := by
  unfold place
  rw [if_pos (by simp), List.idxOf_append, if_neg h]
  simp

theorem given_ge {G : Group} {next : World → Nat} (hn : ∀ {c c' x}, step env c x = some c' → next c'.w = next c.w ∨ next c'.w = next c.w + 1) (xs : List Choice) :
    ∀ c, ∀ n ∈ given env G next c xs, next c.w ≤ n := by
  induction xs with
  | nil => intro c n h; exact nomatch h
  | cons x xs ih =>
    intro c n h
    simp only [given] at h
    cases hs : step env c x with
    | none => rw [hs] at h; exact nomatch h
    | some c' =>
      rw [hs] at h
      have h1 := hn hs
      dsimp only at h
      split at h
      · rcases List.mem_cons.1 h with h | h
        · omega
        · have := ih c' n h; omega
      · have := ih c' n h; omega

theorem given_cons {G : Group} {next : World → Nat} {c c' : Conf} {x : Choice} {xs : List Choice} (hs : step env c x = some c') :
    given env G next c (x :: xs) = if G.choice x = true ∧ next c'.w ≠ next c.w then next c.w :: given env G next c' xs else given env G next c' xs := by
  simp only [given, hs]

/-- The state of the bookkeeping: what has been given out, and what will be. -/
structure Book (next : World → Nat) (l before after : List Nat) (w : World) (n : Nat) : Prop where
  all : l = before ++ after
  past : ∀ x ∈ before, x < next w
  count : n = before.length

theorem Book.mine {next : World → Nat} {l a b : List Nat} {w : World} {n : Nat} (h : Book next l a (next w :: b) w n) : next w ∈ l ∧ place l (next w) = n := by
  refine ⟨by rw [h.all]; simp, ?_⟩
  rw [h.all, place_at (fun h' => Nat.lt_irrefl _ (h.past _ h')), h.count]

theorem runs_sim (hi : K.Inj) (he : K.G.Env K.S env) (hW : K.G.Within K.S env) (hA : K.G.Agree K.S env env') (hr : K.G.rest.Env K.T env)
    (hV : K.G.rest.Within K.T env) {lc lp : List Nat} (hf : K.f = place lc) (hD : ∀ n, K.D n ↔ n ∈ lc) (hg : K.g = place lp)
    (hP : ∀ n, K.P n ↔ n ∈ lp) (xs : List Choice) : ∀ (c d : Conf) (bc bp : List Nat), Sim K c d → Book World.nextCopy lc bc (given env K.G World.nextCopy c xs) c.w d.w.nextCopy →
      Book World.nextPair lp bp (given env K.G World.nextPair c xs) c.w d.w.nextPair → (∀ x ∈ xs, (K.G.Begins x ∧ K.G.rest.Begins x) ∧ K.G.BeginsIn K.S x ∧ K.G.rest.BeginsIn K.T x) → ∀ c', runs env c xs = some c' →
      ∃ d', runs env' d (xs.filter K.G.choice) = some d' ∧ Sim K c' d' := by
  induction xs with
  | nil =>
    intro c d bc bp h _ _ _ c' hc
    cases hc
    exact ⟨d, rfl, h⟩
  | cons x xs ih =>
    intro c d bc bp h kc kp hb c2 hc
    simp only [runs] at hc
    cases hs : step env c x with
    | none => rw [hs] at hc; cases hc
    | some c' =>
      rw [hs] at hc
      rw [given_cons hs] at kc kp
      have hn := step_next hs
      have hxs : ∀ x ∈ xs, (K.G.Begins x ∧ K.G.rest.Begins x) ∧ K.G.BeginsIn K.S x ∧ K.G.rest.BeginsIn K.T x := fun y hy => hb y (.tail _ hy)
      -- the bookkeeping for one kind of number
      have keep : ∀ {next : World → Nat} {l b : List Nat} {n n' : Nat}, (∀ {c c' x}, step env c x = some c' → next c'.w = next c.w ∨ next c'.w = next c.w + 1) →
          Book next l b (if K.G.choice x = true ∧ next c'.w ≠ next c.w then next c.w :: given env K.G next c' xs else given env K.G next c' xs) c.w n →
          (K.G.choice x = true → Count (next c.w) (next c'.w) n n') → (K.G.choice x = false → n' = n) → ∃ b', Book next l b' (given env K.G next c' xs) c'.w n' := by
        intro next l b n n' hn k h1 h2
        have hn := hn hs
        by_cases hx : K.G.choice x = true
        · by_cases hne : next c'.w = next c.w
          · rw [if_neg (fun h => h.2 hne)] at k
            refine ⟨b, k.all, fun y hy => by rw [hne]; exact k.past y hy, ?_⟩
            rcases h1 hx with h | h
            · rw [h.2]; exact k.count
            · omega
          · rw [if_pos ⟨hx, hne⟩] at k
            refine ⟨b ++ [next c.w], by rw [k.all]; simp, fun y hy => ?_, ?_⟩
            · rcases List.mem_append.1 hy with hy | hy
              · have := k.past y hy; omega
              · have := List.mem_singleton.1 hy; omega
            · rcases h1 hx with h | h
              · exact absurd h.1 hne
              · rw [h.2, k.count]; simp
        · rw [if_neg (fun h => hx h.1)] at k
          exact ⟨b, k.all, fun y hy => by have := k.past y hy; omega, by rw [h2 (Bool.eq_false_iff.2 hx)]; exact k.count⟩
      cases hx : K.G.choice x with
      | true =>
        have ha : Alloc K c c' d := by
          constructor
          · intro hne
            rw [if_pos ⟨hx, hne⟩] at kc
            rw [hD, hf]
            exact kc.mine
          · intro hne
            rw [if_pos ⟨hx, hne⟩] at kp
            rw [hP, hg]
            exact kp.mine
        obtain ⟨d', h1, h2, h3, h4⟩ := step_in hi he hW hA h hx (hb x (.head _)).1.1 (hb x (.head _)).2.1 hs ha
        obtain ⟨bc', kc'⟩ := keep (fun h => (step_next h).1) kc (fun _ => h3) (fun h => by rw [hx] at h; cases h)
        obtain ⟨bp', kp'⟩ := keep (fun h => (step_next h).2) kp (fun _ => h4) (fun h => by rw [hx] at h; cases h)
        obtain ⟨d2, h5, h6⟩ := ih c' d' bc' bp' h2 kc' kp' hxs c2 hc
        refine ⟨d2, ?_, h6⟩
        rw [List.filter_cons_of_pos hx]
        simp only [runs, h1]
        exact h5
      | false =>
        have hno : ∀ {next : World → Nat} {l b : List Nat} {n : Nat}, (∀ {c c' x}, step env c x = some c' → next c'.w = next c.w ∨ next c'.w = next c.w + 1) →
            Book next l b (if K.G.choice x = true ∧ next c'.w ≠ next c.w then next c.w :: given env K.G next c' xs else given env K.G next c' xs) c.w n →
            next c'.w ≠ next c.w → next c.w ∉ l := by
          intro next l b n hn k hne hm
          rw [if_neg (fun h => by rw [hx] at h; exact Bool.noConfusion h.1)] at k
          rw [k.all] at hm
          rcases List.mem_append.1 hm with hm | hm
          · exact Nat.lt_irrefl _ (k.past _ hm)
          · have h1 := given_ge hn xs c' _ hm
            have h2 := hn hs
            omega
        have h2 := step_out hr hV h hx (hb x (.head _)).1.2 (hb x (.head _)).2.2 hs (fun hne => by rw [hD]; exact hno (fun h => (step_next h).1) kc hne)
          (fun hne => by rw [hP]; exact hno (fun h => (step_next h).2) kp hne)
        obtain ⟨bc', kc'⟩ := keep (n' := d.w.nextCopy) (fun h => (step_next h).1) kc (fun h => by rw [hx] at h; cases h) (fun _ => rfl)
        obtain ⟨bp', kp'⟩ := keep (n' := d.w.nextPair) (fun h => (step_next h).2) kp (fun h => by rw [hx] at h; cases h) (fun _ => rfl)
        obtain ⟨d2, h5, h6⟩ := ih c' d bc' bp' h2 kc' kp' hxs c2 hc
        refine ⟨d2, ?_, h6⟩
        rw [List.filter_cons_of_neg (by rw [hx]; exact Bool.noConfusion)]
        exact h5

theorem sim_start {c c' : Conf} (hc : Initial c) (hc' : Initial c') (h1 : K.G.Start c.w) (h2 : K.G.rest.Start c.w) (ha : K.G.Alike c.w c'.w) : Sim K c c' where
  own := ⟨h1.listener, fun p _ x hx => by rw [hc.pair] at hx; exact (nomatch hx), fun q _ p hp => by rw [hc.queue] at hp; exact (nomatch hp),
    fun q _ p hp => by rw [hc.pool] at hp; exact (nomatch hp), fun q _ p hp => by rw [hc.tasks] at hp; exact (nomatch hp),
    fun m _ s hs => by rw [(hc.mach m).2.2] at hs; exact (nomatch hs)⟩
  mem := ⟨ha.mach, fun o ho => by
      cases o with
      | client n => exact ha.payload n ho
      | copy n => exact (ha.copies _).trans (h1.payload _).symm,
    fun p _ => by rw [hc.pair, hc'.pair]; rfl, fun p _ => by rw [hc.queue, hc'.queue]; rfl, fun p _ => by rw [hc.pool, hc'.pool]; rfl,
    fun e _ => by rw [hc.tasks, hc'.tasks], ha.shut, ha.latch, fun t ht => by
      cases t with
      | client n => exact ha.intr n ht
      | worker e i => exact ha.intrWorker e i ht
      | env => exact (nomatch (show false = true from ht)), ha.mem⟩
  trace := by rw [hc.trace, hc'.trace]; rfl
  thr t _ := by rw [hc.idle, hc'.idle]; exact .none
  rest := ⟨h2.listener, fun p _ x hx => by rw [hc.pair] at hx; exact (nomatch hx), fun q _ p hp => by rw [hc.queue] at hp; exact (nomatch hp),
    fun q _ p hp => by rw [hc.pool] at hp; exact (nomatch hp), fun q _ p hp => by rw [hc.tasks] at hp; exact (nomatch hp),
    fun m _ s hs => by rw [(hc.mach m).2.2] at hs; exact (nomatch hs)⟩
  others t _ := ⟨hc'.idle t, fun p hp => by rw [hc.idle] at hp; exact (nomatch hp)⟩

theorem alike_refl {G : Group} {w : World} (h : G.Start w) : G.Alike w w :=
  ⟨fun _ _ => rfl, fun _ _ => rfl, h.payload, fun _ _ => rfl, fun _ _ => rfl, fun _ _ => rfl, fun _ _ _ => rfl, fun _ _ => rfl⟩

theorem elsewhere {G : Group} {S T : Nat → Prop} (he : G.Env S env) (hW : G.Within S env) (hA : G.Agree S env env') (hr : G.rest.Env T env)
    (hV : G.rest.Within T env) {c0 c c0' : Conf} (hc : Initial c0)
    (hc' : Initial c0') (h1 : G.Start c0.w) (h2 : G.rest.Start c0.w) (ha : G.Alike c0.w c0'.w) {xs : List Choice}
    (hb : ∀ x ∈ xs, (G.Begins x ∧ G.rest.Begins x) ∧ G.BeginsIn S x ∧ G.rest.BeginsIn T x) (hx : runs env c0 xs = some c) :
    ∃ K : Kit, ∃ d, K.G = G ∧ K.Inj ∧ runs env' c0' (xs.filter G.choice) = some d ∧ Sim K c d := by
  let lc := given env G World.nextCopy c0 xs
  let lp := given env G World.nextPair c0 xs
  let K : Kit := ⟨G, place lc, fun n => n ∈ lc, place lp, fun n => n ∈ lp, S, T⟩
  have hi : K.Inj := ⟨place_inj lc, place_inj lp⟩
  obtain ⟨d, h3, h4⟩ := runs_sim (K := K) hi he hW hA hr hV rfl (fun _ => Iff.rfl) rfl (fun _ => Iff.rfl) xs c0 c0' [] [] (sim_start hc hc' h1 h2 ha)
    ⟨rfl, fun x hx => (nomatch hx), hc'.nextCopy⟩ ⟨rfl, fun x hx => (nomatch hx), hc'.nextPair⟩ hb c hx
  exact ⟨K, d, rfl, hi, h3, h4⟩

theorem alike_start {G : Group} {w w' : World} (h : G.Start w) (ha : G.Alike w w') : G.Start w' :=
  ⟨fun m hm l hl => h.listener m hm l (by rw [← ha.mach m hm]; exact hl), ha.copies⟩

theorem agree_act {G : Group} {S : Nat → Prop} (hA : G.Agree S env env') {k : Kind} {o : Nat} (ho : S o) {a : Ev → MId → UProg} (h : a ∈ env'.acts k o) {m : MId}
    (hm : G.mach m = true) : ∃ b ∈ env.acts k o, (fun ev => b ev m) = fun ev => a ev m := by
  have h1 : (fun ev => a ev m) ∈ (env'.acts k o).map fun a ev => a ev m := List.mem_map.2 ⟨a, h, rfl⟩
  rw [hA.acts k o ho m hm] at h1
  exact List.mem_map.1 h1

theorem agree_env {G : Group} {S : Nat → Prop} (hA : G.Agree S env env') (h : G.Env S env) : G.Env S env' where
  strat m hm := by rw [hA.mach m hm]; exact h.strat m hm
  queue s hs := by rw [hA.strat s hs]; exact h.queue s hs
  exec s hs := by rw [hA.strat s hs]; exact h.exec s hs
  acts k o ho a ha m hm := by
    obtain ⟨b, hb, e⟩ := agree_act hA ho ha hm
    rw [← e]
    exact h.acts k o ho b hb m hm
  listener l b f t hl := by rw [hA.listener l hl]; exact h.listener l b f t hl
  unmapped s m hs hm := by rw [funext fun ev => hA.unmapped s ev m hs hm]; exact h.unmapped s m hs hm
  flowEx s m x hs hm := by rw [funext fun ev => hA.flowEx s ev m x hs hm]; exact h.flowEx s m x hs hm
  flowAfter s m hs hm := by rw [funext fun ev => hA.flowAfter s ev m hs hm]; exact h.flowAfter s m hs hm
  flowBefore s m hs hm := by rw [funext fun ev => hA.flowBefore s ev m hs hm]; exact h.flowBefore s m hs hm
  proc i hi := by rw [hA.proc i hi]; exact h.proc i hi

theorem agree_within {G : Group} {S : Nat → Prop} (hA : G.Agree S env env') (h : G.Within S env) : G.Within S env' where
  init m hm s hs := h.init m hm s (by rw [← hA.mach m hm]; exact hs)
  end_ m hm := by rw [hA.mach m hm]; exact h.end_ m hm
  table s hs x row k to hrow := h.table s hs x row k to (by rw [← hA.strat s hs]; exact hrow)
  acts k o ho a ha ev m hm := by
    obtain ⟨b, hb, e⟩ := agree_act hA ho ha hm
    rw [← congrFun e ev]
    exact h.acts k o ho b hb ev m hm
  listener l b f ev t hl := by rw [hA.listener l hl]; exact h.listener l b f ev t hl
  unmapped s ev m hs hm := by rw [hA.unmapped s ev m hs hm]; exact h.unmapped s ev m hs hm
  flowEx s ev m x hs hm := by rw [hA.flowEx s ev m x hs hm]; exact h.flowEx s ev m x hs hm
  flowAfter s ev m hs hm := by rw [hA.flowAfter s ev m hs hm]; exact h.flowAfter s ev m hs hm
  flowBefore s ev m hs hm := by rw [hA.flowBefore s ev m hs hm]; exact h.flowBefore s ev m hs hm
  proc i hi := by rw [hA.proc i hi]; exact h.proc i hi

theorem begins_all (G : Group) (x : Choice) : G.BeginsIn AllStates x := by
  cases x with
  | begin => exact fun _ => stays_all _
  | _ => trivial

theorem alone {G : Group} (he : G.Env AllStates env) (hr : G.rest.Env AllStates env) {c0 c : Conf} (hc : Initial c0) (h1 : G.Start c0.w) (h2 : G.rest.Start c0.w) {xs : List Choice}
    (hb : ∀ x ∈ xs, G.Begins x ∧ G.rest.Begins x) (hx : runs env c0 xs = some c) : ∃ K : Kit, ∃ d, K.G = G ∧ K.Inj ∧ runs env c0 (xs.filter G.choice) = some d ∧ Sim K c d :=
  elsewhere he (within_all G env) (agree_refl G _ env) hr (within_all _ env) hc hc h1 h2 (alike_refl h1)
    (fun x hx => ⟨hb x hx, begins_all G x, begins_all _ x⟩) hx

/-- What the group can do alone, it can do together with the rest. -/
theorem step_back (hA : K.G.Agree K.S env env') {c d : Conf} {x : Choice} (h : Sim K c d) (hx : K.G.choice x = true) (hs : step env c x = none) : step env' d x = none := by
  cases x with
  | begin n u =>
    have ht := h.thr (.client n) hx
    simp only [step] at hs ⊢
    generalize c.thr (.client n) = p at ht hs
    generalize d.thr (.client n) = q at ht ⊢
    cases ht with
    | none => cases hs
    | some => rfl
  | run t =>
    have hx : K.G.tid t = true := hx
    have ht := h.thr t hx
    simp only [step] at hs ⊢
    generalize c.thr t = p at ht hs
    generalize d.thr t = q at ht ⊢
    cases ht with
    | none => rfl
    | some hp =>
      cases hp with
      | ret => cases hs
      | thr => cases hs
      | call => cases hs
      | op o ho hk =>
        simp only [runThread, enabled_rel h.mem hx ho] at hs ⊢
        split at hs
        · cases hs
        · next hen => exact if_neg hen
  | dispatch e i j =>
    have hx : K.G.exec e = true := hx
    have ht := h.thr (.worker e i) hx
    simp only [step, h.mem.tasks e hx] at hs ⊢
    generalize c.thr (.worker e i) = p at ht hs
    generalize d.thr (.worker e i) = q at ht ⊢
    cases ht with
    | none =>
      cases h3 : (c.w.tasks e)[j]? with
      | none => simp
      | some sm =>
        rw [h3] at hs
        rw [hA.width e hx]
        split at hs
        · cases hs
        · next hw => exact if_neg hw
    | some => simp
  | interrupt t => cases hs
  | shutdown e now => cases hs

theorem runs_cut {c : Conf} (xs : List Choice) : (∃ c', runs env c xs = some c') ∨ ∃ a x b c', xs = a ++ x :: b ∧ runs env c a = some c' ∧ step env c' x = none := by
  induction xs generalizing c with
  | nil => exact .inl ⟨c, rfl⟩
  | cons x xs ih =>
    cases hs : step env c x with
    | none => exact .inr ⟨[], x, xs, c, rfl, rfl, hs⟩
    | some c1 =>
      rcases ih (c := c1) with ⟨c', h⟩ | ⟨a, y, b, c', h1, h2, h3⟩
      · exact .inl ⟨c', by simp only [runs, hs]; exact h⟩
      · exact .inr ⟨x :: a, y, b, c', by rw [h1]; rfl, by simp only [runs, hs]; exact h2, h3⟩

theorem runs_stuck {c d : Conf} {a b : List Choice} {x : Choice} (h : runs env c a = some d) (hx : step env d x = none) : runs env c (a ++ x :: b) = none := by
  induction a generalizing c with
  | nil => cases h; simp only [List.nil_append, runs, hx]
  | cons y a ih =>
    simp only [List.cons_append, runs] at h ⊢
    split at h
    · cases h
    · exact ih h

end Verif.Groups
