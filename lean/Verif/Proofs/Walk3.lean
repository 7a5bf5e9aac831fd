import Verif.Proofs.Walk2
/-
The code follows the protocol: drain task, fire, start, stop, user code.
-/

namespace Verif
open Prog Proto
open Spec (Item)

variable {env : Env} {t : Tid}

/-- Not the call or the return of an API method. -/
def plainOp : Op → Bool
  | .emit (.enter _) | .emit (.leave ..) => false
  | _ => true

theorem lNxt_plain {o : Op} (h : plainOp o = true) (f : Frame) (rest : List Frame) (w : World) :
    lNxt env (f :: rest) o w = f.nxt env o w :: rest := by
  cases o with
  | emit o => cases o <;> first | rfl | cases h
  | _ => rfl

theorem lAllowed_plain {o : Op} (h : plainOp o = true) {f : Frame} {rest : List Frame} (ha : f.allowed env o) :
    lAllowed env (f :: rest) o := by
  cases o with
  | emit o => cases o <;> first | exact Or.inr ⟨_, _, rfl, ha⟩ | cases h
  | _ => exact Or.inr ⟨_, _, rfl, ha⟩

theorem ok_fr {α : Type} {o : Op} {k : o.Res → Prog α} {f : Frame} {rest : List Frame} {Q : Except Exc α → List Frame → Prop}
    (hp : plainOp o = true) (ha : f.allowed env o)
    (h : ∀ w r, r = (exec t o w).1 → lKnow (f :: rest) w → (proto env).Ok t (k r) (f.nxt env o w :: rest) Q) :
    (proto env).Ok t (lift o >>= k) (f :: rest) Q := by
  rw [ok_bind, ok_lift]
  refine ⟨lAllowed_plain hp ha, fun w hw => ?_⟩
  show Cont _ _ _ _ _ (lNxt env (f :: rest) o w)
  rw [lNxt_plain hp]
  exact h w _ rfl hw

theorem ok_fr' {o : Op} {f : Frame} {rest : List Frame} {Q : Except Exc o.Res → List Frame → Prop}
    (hp : plainOp o = true) (ha : f.allowed env o)
    (h : ∀ w r, r = (exec t o w).1 → lKnow (f :: rest) w → Q (.ok r) (f.nxt env o w :: rest)) :
    (proto env).Ok t (lift o) (f :: rest) Q := by
  rw [ok_lift]
  refine ⟨lAllowed_plain hp ha, fun w hw => ?_⟩
  show Q _ (lNxt env (f :: rest) o w)
  rw [lNxt_plain hp]
  exact h w _ rfl hw

/-! ### The two kinds of plan contexts -/

def drainS (m : MId) (ev : Ev) : Op → Prop
  | .emit (.cb c) => c.tMach = some (m, ev)
  | .emit (.cbRet ..) | .getListener _ | .notify .. | .getCur _ | .casEnded .. | .setCur .. => True
  | _ => False

theorem drainFull (m : MId) (ev : Ev) : Full (drainS m ev) m ev where
  getListener := trivial
  notify := fun _ => trivial
  emit := fun _ h => h
  emitRet := fun _ _ => trivial
  getCur := trivial
  cas := fun _ _ => trivial
  setCur := fun _ => trivial

theorem drainCtx (s : SId) (cm : MId) (p : PairId) (ev : Ev) (m : MId) :
    PhCtx env m ev (fun ph => [.drain s cm (.busy p ev m ph)]) (drainS m ev) where
  callable := fun ph h => h
  allowed := by
    intro ph o hS h
    refine lAllowed_plain ?_ (Or.inl h)
    cases o with
    | emit o => cases o <;> first | rfl | exact hS.elim
    | _ => first | rfl | exact hS.elim
  nxt := by
    intro ph o w hS h
    rw [lNxt_plain]
    · simp only [Frame.nxt]
      congr 2
      cases o with
      | emit o =>
        cases o with
        | cb c =>
          cases c <;> first | rfl | cases hS
        | cbRet c r => rfl
        | _ => exact hS.elim
      | _ => first | rfl | exact hS.elim
    · cases o with
      | emit o => cases o <;> first | rfl | exact hS.elim
      | _ => first | rfl | exact hS.elim

def startS (m : MId) : Op → Prop
  | .emit (.cb c) => c.tMach = some (m, immEv)
  | .emit (.cbRet ..) | .getListener _ | .notify .. => True
  | _ => False

theorem startBasic (m : MId) : Basic (startS m) m immEv where
  getListener := trivial
  notify := fun _ => trivial
  emit := fun _ h => h
  emitRet := fun _ _ => trivial

theorem startCtx (m : MId) (rest : List Frame) :
    PhCtx env m immEv (fun ph => .start m (.busy ph) :: rest) (startS m) where
  callable := fun ph h => h
  allowed := by
    intro ph o hS h
    refine lAllowed_plain ?_ ?_
    · cases o with
      | emit o => cases o <;> first | rfl | exact hS.elim
      | _ => first | rfl | exact hS.elim
    · cases o with
      | emit o => exact ⟨rfl, rfl, h⟩
      | getListener => exact ⟨rfl, rfl, h⟩
      | notify => exact ⟨rfl, rfl, h⟩
      | _ => exact hS.elim
  nxt := by
    intro ph o w hS h
    rw [lNxt_plain]
    · simp only [Frame.nxt]
      congr 2
      cases o with
      | emit o =>
        cases o with
        | cb c => rfl
        | cbRet c r => rfl
        | _ => exact hS.elim
      | _ => first | rfl | exact hS.elim
    · cases o with
      | emit o => cases o <;> first | rfl | exact hS.elim
      | _ => first | rfl | exact hS.elim

/-! ### Drain task -/

/-- How one round of the drain task ends. -/
def PostD (s : SId) (cm : MId) (r : Except Exc Unit) (l : List Frame) : Prop :=
  match r with
  | .ok _ => l = [.drain s cm .loop]
  | .error x => l = [.drain s cm (.dead x)]

theorem ok_give {s : SId} {cm : MId} {d : Dr} {p : PairId} {r : Except Exc Unit}
    (ha : drAllowed env s cm d (.poolGive s p))
    (hn : ∀ w, PostD s cm r [.drain s cm (drNxt env s d (.poolGive s p) w)]) :
    (proto env).Ok t (do lift (.poolGive s p); ofExcept r) [.drain s cm d] (PostD s cm) := by
  refine ok_fr rfl ha fun w u hu _ => ?_
  rw [ok_ofExcept]
  exact hn w

/-- Catching an exception: the flow listener. -/
theorem ok_catch {s : SId} {cm : MId} {p : PairId} {m : MId} {x : Exc} {ph : Ph}
    (hx : x.isException = true)
    (hp : ph = .thrown x ∨ (ph = .lame none ∧ x = .npe)) :
    (proto env).Ok t (do
      let r ← (callback (.flowEx m ev x) (.flowEx s ev m x)).attempt
      lift (.poolGive s p)
      ofExcept r) [.drain s cm (.busy p ev m ph)] (PostD s cm) := by
  rw [ok_bind, ok_attempt]
  unfold callback
  refine ok_fr rfl (Or.inr (Or.inl ⟨x, hx, rfl, hp⟩)) fun w u _ _ => ?_
  have hn : Frame.nxt env (.drain s cm (.busy p ev m ph)) (.emit (.cb (.flowEx m ev x))) w = .drain s cm (.flow p ev m x) := rfl
  rw [hn]
  refine ok_userCall ⟨rfl, _, rfl, rfl, rfl⟩ (by intros; simp) (fun r => lAllowed_plain rfl (by exact rfl)) ?_
  intro r w _
  have : lNxt env [.drain s cm (.flow p ev m x)] (.emit (.cbRet (.flowEx m ev x) (outcome r))) w =
    [.drain s cm (.over p ev m (outcome r))] := rfl
  rw [this]
  simp only [cont_ok]
  refine ok_give ⟨rfl, rfl⟩ fun w => ?_
  cases r <;> rfl

theorem ok_processOne {s : SId} {cm : MId} {p : PairId} {m : MId} :
    (proto env).Ok t (processOne env s cm p ev m) [.drain s cm (.known p ev m)] (PostD s cm) := by
  unfold processOne
  rw [ok_bind, ok_attempt]
  refine ok_fr rfl rfl fun w r hr _ => ?_
  simp only [exec] at hr
  subst hr
  by_cases he : (w.mach cm).ended = true
  · have hn : Frame.nxt env (.drain s cm (.known p ev m)) (.getEnded cm) w = .drain s cm (.over p ev m none) := by
      simp [Frame.nxt, drNxt, he]
    rw [hn]
    simp only [he, Bool.not_true, Bool.false_eq_true, if_false, ok_pure, cont_ok]
    refine (?_ : (proto env).Ok t (do lift (.poolGive s p); ofExcept (.ok ())) [.drain s cm (.over p ev m none)] (PostD s cm))
    exact ok_give ⟨rfl, rfl⟩ fun w => rfl
  · have hn : Frame.nxt env (.drain s cm (.known p ev m)) (.getEnded cm) w = .drain s cm (.busy p ev m
        (.run ((desc env s m).plan (w.mach m).listener.isSome (w.mach m).cur ev) (w.mach m).cur (w.mach m).listener)) := by
      simp [Frame.nxt, drNxt, he]
    rw [hn]
    have he' : (w.mach cm).ended = false := by simpa using he
    simp only [he', Bool.not_false, if_true]
    refine (ok_execute (drainCtx s cm p ev m) (drainFull m ev) (fun _ h => ⟨h, _, rfl, rfl, rfl⟩) _ _).mono ?_
    intro r l h
    simp only [cont_ok]
    cases r with
    | ok u =>
      refine (?_ : (proto env).Ok t (do lift (.poolGive s p); ofExcept (.ok ())) l (PostD s cm))
      rcases h with ⟨c, l', rfl⟩ | rfl
      · exact ok_give (Or.inr (Or.inr ⟨rfl, Or.inl ⟨c, l', rfl⟩⟩)) fun w => rfl
      · exact ok_give (Or.inr (Or.inr ⟨rfl, Or.inr (Or.inr rfl)⟩)) fun w => rfl
    | error x =>
      by_cases hx : x.isException = true
      · simp only [hx, if_true]
        rcases h with rfl | ⟨rfl, rfl⟩
        · exact ok_catch hx (Or.inl rfl)
        · exact ok_catch hx (Or.inr ⟨rfl, rfl⟩)
      · have hx' : x.isException = false := by simpa using hx
        simp only [hx', Bool.false_eq_true, if_false]
        refine (?_ : (proto env).Ok t (do lift (.poolGive s p); ofExcept (.error x)) l (PostD s cm))
        rcases h with rfl | ⟨rfl, rfl⟩
        · exact ok_give (Or.inr (Or.inr ⟨rfl, Or.inr (Or.inl ⟨x, hx', rfl⟩)⟩)) fun w => rfl
        · cases hx'

theorem ok_drain {s : SId} {cm : MId} {d : Dr} (hd : d = .fresh ∨ d = .loop) :
    (proto env).Ok t (drain env s cm) [.drain s cm d] (lPost (.drain s cm) []) := by
  unfold drain
  refine ok_fr rfl (by rcases hd with rfl | rfl <;> rfl) fun w r hr _ => ?_
  simp only [exec] at hr
  subst hr
  by_cases he : (w.queue (env.q s)).isEmpty = true
  · have hn : Frame.nxt env (.drain s cm d) (.qIsEmpty (env.q s)) w = .drain s cm .quit := by
      rcases hd with rfl | rfl <;> simp only [Frame.nxt, drNxt, he, if_true]
    show (proto env).Ok t _ [Frame.nxt env (.drain s cm d) (.qIsEmpty (env.q s)) w] _
    rw [hn]
    refine ok_ite (fun _ => rfl) (fun h => absurd he h)
  · obtain ⟨b, hn⟩ : ∃ b, Frame.nxt env (.drain s cm d) (.qIsEmpty (env.q s)) w = .drain s cm (.seen b) := by
      rcases hd with rfl | rfl <;> simp [Frame.nxt, drNxt, he]
    show (proto env).Ok t _ [Frame.nxt env (.drain s cm d) (.qIsEmpty (env.q s)) w] _
    rw [hn]
    refine ok_ite (fun h => absurd h he) (fun _ => ?_)
    refine ok_fr rfl rfl fun w r hr hk => ?_
    simp only [exec] at hr
    subst hr
    change (proto env).Ok t _ [.drain s cm (drNxt env s (.seen b) (.poll (env.q s)) w)] _
    cases hq : w.queue (env.q s) with
    | nil =>
      simp only [drNxt, hq]
      have hq' : w.queue (env.strat s).queue = [] := hq
      simp only [hq']
      rfl
    | cons p ps =>
      have hs : (w.pair p).isSome = true := hk.1 (env.q s) p (by rw [hq]; exact List.mem_cons_self ..)
      obtain ⟨⟨ev, m⟩, hp⟩ := Option.isSome_iff_exists.mp hs
      have hq' : w.queue (env.strat s).queue = p :: ps := hq
      simp only [drNxt, hq, hq', hp]
      refine ok_deref_some ?_
      refine ok_fr rfl rfl fun w r hr hk => ?_
      have h := hk.2.1 s cm p ev m [] rfl
      simp only [exec, h] at hr
      subst hr
      refine ok_deref_some ?_
      change (proto env).Ok t _ [.drain s cm (.known p ev m)] _
      rw [ok_bind]
      refine ok_processOne.mono ?_
      intro r l h
      cases r with
      | ok u =>
        cases h
        simp only [cont_ok]
        rw [ok_invoke]
        refine ⟨rfl, fun r l' h => ?_⟩
        exact h
      | error x => exact h

/-! ### fire -/

def PostF (m : MId) (ev : Ev) (rest : List Frame) (r : Except Exc Unit) (l : List Frame) : Prop :=
  l = .fire m ev (.fin (outcome r)) :: rest

theorem ok_fireCb {m : MId} {f : Fate} {c : Cb} {call : Call} {rest : List Frame}
    (hd : ∀ s m, call ≠ .drain s m) (hp : lPre env call (.fire m ev (.cb c) :: rest)) (ha : fateAllowed env m ev f (.emit (.cb c)))
    (hn : ∀ w, fateNxt env m ev f (.emit (.cb c)) w = .cb c) :
    (proto env).Ok t (callback c call) (.fire m ev f :: rest) (PostF m ev rest) := by
  unfold callback
  refine ok_fr rfl ha fun w u _ _ => ?_
  simp only [Frame.nxt, hn]
  refine ok_userCall hp hd (fun r => lAllowed_plain rfl (by exact rfl)) ?_
  intro r w _
  rfl

theorem ok_anyEqual {m : MId} {rest : List Frame} {k : Bool → Prog Unit} (todo : List PairId)
    (h1 : (proto env).Ok t (k true) (.fire m ev .dup :: rest) (PostF m ev rest))
    (h2 : (proto env).Ok t (k false) (.fire m ev (.scan []) :: rest) (PostF m ev rest)) :
    (proto env).Ok t (anyEqual ev todo >>= k) (.fire m ev (.scan todo) :: rest) (PostF m ev rest) := by
  induction todo with
  | nil => exact h2
  | cons p ps ih =>
    unfold anyEqual
    rw [ok_bind]
    refine ok_fr rfl rfl fun w r hr hk => ?_
    obtain ⟨⟨en, m'⟩, hp⟩ := Option.isSome_iff_exists.mp (hk.2.2 m ev _ rest rfl p (List.mem_cons_self ..))
    simp only [exec, hp] at hr
    subst hr
    by_cases he : en.eqv ev = true
    · simp only [Frame.nxt, fateNxt, hp, he, if_true]
      change (proto env).Ok t (if en.eqv ev = true then ret true else _) _ _
      rw [if_pos he]
      exact h1
    · simp only [Frame.nxt, fateNxt, hp]
      rw [if_neg he]
      change (proto env).Ok t (if en.eqv ev = true then ret true else _) _ _
      rw [if_neg he, ← ok_bind]
      exact ih

theorem ok_pedDefault {m : MId} {f : Fate} {rest : List Frame}
    (hf : (f = .live ∧ (env.strat (env.mach m).strat).dropDup = false) ∨ f = .scan []) :
    (proto env).Ok t (processEventDefault env (env.mach m).strat ev m) (.fire m ev f :: rest) (PostF m ev rest) := by
  unfold processEventDefault
  refine ok_fr rfl ?_ fun w r hr _ => ?_
  · rcases hf with ⟨rfl, h⟩ | rfl
    · exact ⟨rfl, h⟩
    · rfl
  simp only [exec] at hr
  subst hr
  have hn : Frame.nxt env (.fire m ev f) (.qSize (env.strat (env.mach m).strat).queue) w = .fire m ev
      (if (env.strat (env.mach m).strat).maxQ > 0 && ((w.queue (env.strat (env.mach m).strat).queue).length : Int) ≥ (env.strat (env.mach m).strat).maxQ then .full else .sized) := by
    rcases hf with ⟨rfl, h⟩ | rfl <;> rfl
  rw [hn]
  refine ok_ite (fun h => ?_) (fun h => ?_)
  · rw [if_pos h]
    exact ok_fireCb (by intros; simp) (by first | exact rfl | exact ⟨rfl, _, rfl, rfl, rfl⟩) rfl (fun _ => rfl)
  · rw [if_neg h]
    refine ok_fr rfl rfl fun w p hp _ => ?_
    have hn : Frame.nxt env (.fire m ev .sized) (.poolTake (env.mach m).strat) w = .fire m ev (.took p) := by
      simp only [exec] at hp
      simp only [Frame.nxt, fateNxt]
      cases hq : w.pool (env.mach m).strat with
      | nil => simp only [hq] at hp; subst hp; rfl
      | cons => simp only [hq] at hp; subst hp; rfl
    rw [hn]
    refine ok_fr rfl rfl fun w r hr _ => ?_
    simp only [exec] at hr
    subst hr
    have last : ∀ ev', (proto env).Ok t (do
        lift (.offer (env.strat (env.mach m).strat).queue p)
        if !(← lift (.submit (env.strat (env.mach m).strat).exec (env.mach m).strat m)) then
          thr .rejected) (.fire m ev (.loaded p ev') :: rest) (PostF m ev rest) := by
      intro ev'
      refine ok_fr rfl ⟨rfl, rfl⟩ fun w u _ _ => ?_
      change (proto env).Ok t _ (.fire m ev .owing :: rest) _
      refine ok_fr rfl ⟨rfl, rfl, rfl⟩ fun w r hr _ => ?_
      simp only [exec] at hr
      simp only [Frame.nxt, fateNxt]
      cases hs : w.shut (env.strat (env.mach m).strat).exec with
      | true => simp only [hs, if_true] at hr; subst hr; exact rfl
      | false => simp only [hs, Bool.false_eq_true, if_false] at hr; subst hr; exact rfl
    by_cases hpl : (w.payload ev.oid).isSome = true
    · have hn : Frame.nxt env (.fire m ev (.took p)) (.getPayload ev.oid) w = .fire m ev (.cpy p) := by
        simp only [Frame.nxt, fateNxt, hpl, if_true]
      rw [hn]
      simp only [hpl, if_true]
      refine ok_fr rfl rfl fun w r hr _ => ?_
      simp only [exec] at hr
      subst hr
      refine ok_fr rfl ⟨rfl, rfl, rfl⟩ fun w u _ _ => ?_
      exact last _
    · have hn : Frame.nxt env (.fire m ev (.took p)) (.getPayload ev.oid) w = .fire m ev (.raw p) := by
        simp only [Frame.nxt, fateNxt, hpl]; rfl
      rw [hn]
      have hpl' : (w.payload ev.oid).isSome = false := by simpa using hpl
      simp only [hpl', Bool.false_eq_true, if_false]
      refine ok_fr rfl ⟨rfl, rfl, rfl⟩ fun w u _ _ => ?_
      exact last _

theorem ok_processEvent {m : MId} {rest : List Frame} :
    (proto env).Ok t (processEvent env (env.mach m).strat ev m) (.fire m ev .live :: rest) (PostF m ev rest) := by
  unfold processEvent
  refine ok_ite (fun h => ?_) (fun h => ?_)
  · refine ok_fr rfl ⟨rfl, h⟩ fun w r hr _ => ?_
    simp only [exec] at hr
    subst hr
    change (proto env).Ok t _ (.fire m ev (.scan (w.queue (env.qm m))) :: rest) _
    refine ok_anyEqual _ ?_ ?_
    · exact ok_fr' rfl rfl fun w r _ _ => rfl
    · exact ok_pedDefault (Or.inr rfl)
  · exact ok_pedDefault (Or.inl ⟨rfl, by simpa using h⟩)

theorem ok_fire {m : MId} {rest : List Frame} :
    (proto env).Ok t (fire env m ev) (.fire m ev .pre :: rest) (PostF m ev rest) := by
  unfold fire
  refine ok_fr rfl rfl fun w r hr _ => ?_
  simp only [exec] at hr
  subst hr
  by_cases h1 : (w.mach m).started = true
  · simp only [h1, Bool.not_true, Bool.false_eq_true, if_false, Frame.nxt, fateNxt, if_true]
    refine ok_fr rfl rfl fun w r hr _ => ?_
    simp only [exec] at hr
    subst hr
    by_cases h2 : (w.mach m).started = true
    · simp only [h2, Frame.nxt, fateNxt, ↓reduceIte]
      refine ok_fr rfl rfl fun w r hr _ => ?_
      simp only [exec] at hr
      subst hr
      by_cases h3 : (w.mach m).ended = true
      · simp only [h3, Frame.nxt, fateNxt, if_true]
        exact ok_fireCb (by intros; simp) (by first | exact rfl | exact ⟨rfl, _, rfl, rfl, rfl⟩) rfl (fun _ => rfl)
      · have h3' : (w.mach m).ended = false := by simpa using h3
        simp only [h3', Frame.nxt, fateNxt, Bool.false_eq_true, if_false]
        exact ok_processEvent
    · have h2' : (w.mach m).started = false := by simpa using h2
      simp only [h2', Frame.nxt, fateNxt, Bool.false_eq_true, if_false]
      exact ok_processEvent
  · have h1' : (w.mach m).started = false := by simpa using h1
    simp only [h1', Bool.not_false, if_true, Frame.nxt, fateNxt, Bool.false_eq_true, if_false]
    exact ok_fireCb (by intros; simp) (by first | exact rfl | exact ⟨rfl, _, rfl, rfl, rfl⟩) rfl (fun _ => rfl)

/-! ### stop, start, startInState -/

theorem ok_stop {m : MId} {rest : List Frame} :
    (proto env).Ok t (stop env m true) (.stop m .pre :: rest) (fun r l => r = .ok () ∧ l = .stop m .fin :: rest) := by
  have : (env.mach m).res.endSt.eqv (env.mach m).res.endSt = true := by simp [St.eqv]
  unfold stop updateCurrentState
  rw [this]
  refine ok_fr rfl ⟨rfl, rfl, rfl, rfl⟩ fun w r hr _ => ?_
  by_cases h : (w.mach m).ended = true
  · simp only [exec, h, if_true] at hr
    subst hr
    simp only [Frame.nxt, spNxt, h, if_true]
    exact ⟨rfl, rfl⟩
  · simp only [exec, h] at hr
    subst hr
    simp only [Frame.nxt, spNxt, h]
    exact ok_fr' rfl ⟨rfl, rfl, rfl⟩ fun w r _ _ => ⟨rfl, rfl⟩

/-- How `start`/`startInState` end. -/
def PostS (fail : Option Exc) (mk : StPh → Frame) (rest : List Frame) (r : Except Exc Unit) (l : List Frame) : Prop :=
  ∃ ph, l = mk ph :: rest ∧ StPh.leaves fail ph (outcome r)

theorem ok_start {m : MId} {rest : List Frame} :
    (proto env).Ok t (start env m) (.start m .pre :: rest) (PostS (env.startFail m) (.start m) rest) := by
  unfold start
  dsimp only
  cases hsc : startChecks (env.mach m).init (env.mach m).table with
  | some x => exact ⟨.pre, rfl, by simp [outcome, StPh.leaves, Env.startFail, hsc]⟩
  | none =>
    cases hi : (env.mach m).init with
    | none => exact ⟨.pre, rfl, by rw [hi] at hsc; simp [outcome, StPh.leaves, Env.startFail, hsc, hi]⟩
    | some i =>
      simp only
      refine ok_fr rfl ⟨rfl, by rw [hi] at hsc; simp [Env.startFail, hsc, hi]⟩ fun w r hr _ => ?_
      by_cases h : (w.mach m).started = true
      · simp only [exec, h, if_true] at hr
        subst hr
        simp only [Frame.nxt, stNxt, h, if_true]
        exact ⟨.lost, rfl, rfl⟩
      · simp only [exec, h] at hr
        subst hr
        simp only [Frame.nxt, stNxt, h, Bool.false_eq_true, ↓reduceIte]
        refine ok_fr rfl ⟨rfl, hi.symm, rfl⟩ fun w r _ _ => ?_
        have hn : ∀ lst : Option LId, (desc env (env.mach m).strat m).startPlan (env.mach m).res.noSt lst.isSome i =
            Spec.note lst.isSome (.begin m (env.mach m).res.noSt immEv i) ++
            ((desc env (env.mach m).strat m).actions .entry i immEv 0 ((desc env (env.mach m).strat m).nacts .entry i.oid) ++
            (Spec.note lst.isSome (.end_ m (env.mach m).res.noSt immEv i) ++ [])) := by
          intro lst; simp [Spec.Desc.startPlan, desc]
        simp only [Frame.nxt, stNxt, Bool.false_eq_true, if_false, hn]
        have p1 : pendOf (Spec.note (w.mach m).listener.isSome (.end_ m (env.mach m).res.noSt immEv i) ++ []) = none :=
          pendOf_note _ _ _ rfl
        have p2 := pendOf_acts (desc env (env.mach m).strat m) .entry i immEv ((desc env (env.mach m).strat m).nacts .entry i.oid) _ p1
        have hx := startCtx (env := env) m rest
        have hb := startBasic m
        -- the part after the CAS as a whole
        have last : ∀ l, PostE (fun ph => .start m (.busy ph) :: rest) (.ok ()) l →
            (proto env).Ok t (lift (.clearEnded m)) l (PostS (env.startFail m) (.start m) rest) := by
          intro l hl
          rcases hl with ⟨c, l', rfl⟩ | rfl
          · exact ok_fr' rfl ⟨rfl, Or.inl ⟨c, l', rfl⟩⟩ fun w r _ _ => ⟨.fin, rfl, rfl⟩
          · exact ok_fr' rfl ⟨rfl, Or.inr rfl⟩ fun w r _ _ => ⟨.fin, rfl, rfl⟩
        have hex : ∀ x l, PostE (fun ph => .start m (.busy ph) :: rest) (.error x) l →
            PostS (env.startFail m) (.start m) rest (.error x) l := by
          intro x l hl
          rcases hl with rfl | ⟨hx, rfl⟩
          · exact ⟨_, rfl, x, rfl, Or.inl rfl⟩
          · exact ⟨_, rfl, x, rfl, Or.inr ⟨rfl, hx⟩⟩
        have chain : ∀ {p : Prog Unit} {l : List Frame} {G1 : Ph} {f : Unit → Prog Unit},
            (proto env).Ok t p l (Post (fun ph => .start m (.busy ph) :: rest) G1) →
            (proto env).Ok t (f ()) (.start m (.busy G1) :: rest) (PostS (env.startFail m) (.start m) rest) →
            (proto env).Ok t (f ()) (.start m (.busy (.lame none)) :: rest) (PostS (env.startFail m) (.start m) rest) →
            (proto env).Ok t (p >>= f) l (PostS (env.startFail m) (.start m) rest) := by
          intro p l G1 f h1 h2 h3
          rw [ok_bind]
          refine h1.mono ?_
          intro r l h
          cases r with
          | ok u => rcases h with rfl | rfl
                    · exact h2
                    · exact h3
          | error x => exact hex x l h
        have l3 := last _ (Or.inr rfl)
        have l2 := chain (f := fun _ => lift (.clearEnded m))
          (ok_notify_lame hx hb (t := t) (complete := true) (f := some (env.mach m).res.noSt) (ev := immEv) (to := some i) (G := .lame none)) l3 l3
        have l1 := chain (f := fun _ => do
            notifyListener env m true (some (env.mach m).res.noSt) immEv (some i); lift (.clearEnded m))
          (ok_onState_lame hx hb (t := t) (k := .entry) (s := i) (ev := immEv) (G := .lame none)) l2 l2
        refine chain (ok_notify hx hb p2 (isThr_acts _ _ _ _ _ _ (isThr_note _ _ _ rfl)) (complete := false)) ?_ l1
        refine chain (ok_onState hx hb rfl rfl) ?_ l2
        refine chain (ok_notify hx hb rfl rfl (complete := true)) ?_ l3
        exact last _ (Or.inl ⟨_, _, rfl⟩)

theorem ok_startIn {m : MId} {s : Option St} {rest : List Frame} :
    (proto env).Ok t (startInState env m s) (.startIn m s .pre :: rest) (PostS (env.startInFail m s) (.startIn m s) rest) := by
  unfold startInState
  cases hrow : (env.mach m).table.row? s with
  | none => exact ⟨.pre, rfl, by simp [outcome, StPh.leaves, Env.startInFail, hrow]⟩
  | some row =>
    cases s with
    | none => cases hrow
    | some s =>
      simp only
      refine ok_fr rfl ⟨rfl, by simp [Env.startInFail, hrow]⟩ fun w r hr _ => ?_
      by_cases h : (w.mach m).started = true
      · simp only [exec, h, if_true] at hr
        subst hr
        simp only [Frame.nxt, stNxt, h, if_true]
        exact ⟨.lost, rfl, rfl⟩
      · simp only [exec, h] at hr
        subst hr
        simp only [Frame.nxt, stNxt, h, Bool.false_eq_true, ↓reduceIte]
        refine ok_fr rfl ⟨rfl, rfl, rfl⟩ fun w r _ _ => ?_
        simp only [Frame.nxt, stNxt, if_true]
        exact ok_fr' rfl ⟨rfl, Or.inl ⟨_, _, rfl⟩⟩ fun w r _ _ => ⟨.fin, rfl, rfl⟩

/-! ### User code -/

theorem ok_api {c : Api} {p : Prog Unit} {l : List Frame} {Q : Except Exc (Except Exc Unit) → List Frame → Prop}
    (hc : callable l) (Q1 : Except Exc Unit → List Frame → Prop)
    (h : (proto env).Ok t p (.ofApi c :: l) Q1)
    (hQ : ∀ r l1, Q1 r l1 → ∃ f, l1 = f :: l ∧ f.leaves env c (outcome r))
    (hl : ∀ r, Q (.ok r) l) : (proto env).Ok t (api c p) l Q := by
  unfold api
  rw [ok_bind, ok_lift]
  refine ⟨hc, fun w _ => ?_⟩
  show Cont _ _ _ _ _ (.ofApi c :: l)
  simp only [cont_ok]
  rw [ok_bind, ok_attempt]
  refine h.mono ?_
  intro r l1 h1
  obtain ⟨f, rfl, hf⟩ := hQ r l1 h1
  simp only [cont_ok]
  rw [ok_bind, ok_lift]
  refine ⟨⟨f, l, rfl, hf⟩, fun w _ => ?_⟩
  exact hl r

theorem ok_ucall {u : UCall} {l : List Frame} {Q : Except Exc u.Res → List Frame → Prop} (hc : callable l)
    (hQ : ∀ r, Q (.ok r) l) : (proto env).Ok t (u.prog env) l Q := by
  cases u with
  | fire m ev =>
    exact ok_api hc (PostF m ev l) ok_fire (fun r l1 h => ⟨_, h, rfl, rfl, rfl⟩) hQ
  | stop m =>
    refine ok_api hc _ ok_stop ?_ hQ
    rintro r l1 ⟨rfl, rfl⟩
    exact ⟨_, rfl, rfl, rfl, rfl⟩
  | start m =>
    refine ok_api hc _ ok_start ?_ hQ
    rintro r l1 ⟨ph, rfl, h1⟩
    exact ⟨_, rfl, rfl, h1⟩
  | startInState m s =>
    refine ok_api hc _ ok_startIn ?_ hQ
    rintro r l1 ⟨ph, rfl, h1⟩
    exact ⟨_, rfl, rfl, rfl, h1⟩
  | proc i =>
    unfold UCall.prog
    rw [ok_attempt]
    exact ok_invoke_user hc (by intros; simp) hQ
  | _ => exact ok_user hc trivial hQ

theorem ok_denote (u : UProg) {l : List Frame} (hc : callable l) :
    (proto env).Ok t (u.denote env) l (fun _ l' => l' = l) := by
  induction u with
  | done => rfl
  | thr x => rfl
  | call u k ih =>
    unfold UProg.denote
    rw [ok_bind']
    exact ok_ucall hc fun r => ih r

theorem checked (env : Env) : Checked env (proto env) [] task fin where
  body := by
    intro t c l h
    cases c with
    | drain s m =>
      cases h
      exact ok_drain (Or.inr rfl)
    | action k oid i ev m =>
      unfold body
      simp only
      split
      · exact ok_denote _ h
      · rfl
    | unmapped => exact ok_denote _ h.1
    | flowEx => exact ok_denote _ h.1
    | _ => exact ok_denote _ h
  client := by
    intro n u
    refine (ok_denote u (l := []) trivial).mono ?_
    intro r l h
    exact Or.inl ⟨⟨n, rfl⟩, h⟩
  drain := by
    intro t s m
    refine (ok_drain (Or.inl rfl)).mono ?_
    intro r l h
    refine Or.inr ⟨s, m, ?_⟩
    cases r <;> exact h

end Verif
