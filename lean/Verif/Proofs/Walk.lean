import Verif.Logic.Frames
/-
The code follows the protocol of Verif.Logic.Frames.
-/

namespace Verif
open Prog Proto
open Spec (Item)

variable {env : Env} {t : Tid}

theorem lNxt_user {l : List Frame} {o : Op} (hc : callable l) (ho : userOp o) (w : World) : lNxt env l o w = l := by
  match l with
  | [] => cases o with
    | emit o => cases o <;> simp_all [userOp, lNxt]
    | _ => simp_all [userOp, lNxt]
  | f :: rest =>
    simp only [callable] at hc
    have : f.nxt env o w = f := by
      cases f with
      | fire m ev f => cases f <;> simp [Frame.calling] at hc; simp only [Frame.nxt]; congr 1
                       cases o with
                       | emit o => cases o <;> simp_all [userOp, fateNxt]
                       | _ => simp_all [userOp, fateNxt]
      | stop m ph => simp [Frame.calling] at hc
      | start m ph =>
        cases ph with
        | busy ph =>
          simp only [Frame.calling] at hc; simp only [Frame.nxt]; congr 1
          cases ph <;> simp [Ph.calling] at hc <;>
          (cases o with
            | emit o => cases o <;> simp_all [userOp, stNxt, phNxt]
            | _ => simp_all [userOp, stNxt, phNxt])
        | _ => simp [Frame.calling] at hc
      | startIn m s ph => simp [Frame.calling] at hc
      | drain s cm d =>
        cases d with
        | busy p ev m ph =>
          simp only [Frame.calling] at hc; simp only [Frame.nxt]; congr 1
          cases ph <;> simp [Ph.calling] at hc <;>
          (cases o with
            | emit o => cases o <;> simp_all [userOp, drNxt, phNxt]
            | _ => simp_all [userOp, drNxt, phNxt])
        | flow p ev m x =>
          simp only [Frame.nxt]; congr 1
          cases o with
          | emit o => cases o <;> simp_all [userOp, drNxt]
          | _ => simp_all [userOp, drNxt]
        | _ => simp [Frame.calling] at hc
    cases o with
    | emit o => cases o <;> simp_all [userOp, lNxt]
    | _ => simp_all [userOp, lNxt]

theorem lAllowed_user {l : List Frame} {o : Op} (hc : callable l) (ho : userOp o) : lAllowed env l o := by
  cases o with
  | emit o => cases o <;> first | exact Or.inl ⟨hc, ho⟩ | exact ho.elim
  | _ => exact Or.inl ⟨hc, ho⟩

/-- A harmless operation of user code. -/
theorem ok_user {l : List Frame} {o : Op} {Q : Except Exc o.Res → List Frame → Prop} (hc : callable l) (ho : userOp o)
    (hQ : ∀ r, Q (.ok r) l) : (proto env).Ok t (lift o) l Q := by
  rw [ok_lift]
  refine ⟨lAllowed_user hc ho, fun w _ => ?_⟩
  show Q _ (lNxt env l o w)
  rw [lNxt_user hc ho]; exact hQ _

theorem ok_invoke_user {l : List Frame} {c : Call} {Q : Except Exc Unit → List Frame → Prop} (hc : lPre env c l)
    (hd : ∀ s m, c ≠ .drain s m) (hQ : ∀ r, Q r l) : (proto env).Ok t (invoke c) l Q := by
  rw [ok_invoke]
  cases c with
  | drain s m => exact absurd rfl (hd s m)
  | _ => refine ⟨hc, fun r l' h => ?_⟩; cases h; exact hQ r

theorem ok_userCall {l : List Frame} {c : Cb} {f : Call} {Q : Except Exc Unit → List Frame → Prop} (hc : lPre env f l)
    (hd : ∀ s m, f ≠ .drain s m) (ha : ∀ r, lAllowed env l (.emit (.cbRet c r)))
    (hQ : ∀ (r : Except Exc Unit) w, lKnow l w → Q r (lNxt env l (.emit (.cbRet c (outcome r))) w)) :
    (proto env).Ok t (userCall c f) l Q := by
  unfold userCall
  rw [ok_bind, ok_attempt]
  refine ok_invoke_user hc hd fun r => ?_
  simp only [cont_ok]
  rw [ok_bind, ok_lift]
  refine ⟨ha _, fun w hw => ?_⟩
  simp only [cont_ok, ok_ofExcept]
  exact hQ r w hw

/-! ### Code that follows a plan -/

/-- Stacks whose top frame is described by a phase. `S`: operations it supports. -/
structure PhCtx (env : Env) (m : MId) (ev : Ev) (ctx : Ph → List Frame) (S : Op → Prop) : Prop where
  callable : ∀ ph, ph.calling = true → callable (ctx ph)
  allowed : ∀ ph o, S o → phAllowed m ev ph o → lAllowed env (ctx ph) o
  nxt : ∀ ph o w, S o → phAllowed m ev ph o → lNxt env (ctx ph) o w = ctx (phNxt m ph o w)

/-- How a piece of code that follows a plan ends. -/
def Post (ctx : Ph → List Frame) (G : Ph) (r : Except Exc Unit) (l : List Frame) : Prop :=
  match r with
  | .ok _ => l = ctx G ∨ l = ctx (.lame none)
  | .error x => l = ctx (.thrown x) ∨ (x = .npe ∧ l = ctx (.lame none))

theorem ok_seq {ctx : Ph → List Frame} {G1 G2 : Ph} {p : Prog Unit} {f : Unit → Prog Unit} {l : List Frame}
    (h1 : (proto env).Ok t p l (Post ctx G1)) (h2 : (proto env).Ok t (f ()) (ctx G1) (Post ctx G2))
    (h3 : (proto env).Ok t (f ()) (ctx (.lame none)) (Post ctx G2)) :
    (proto env).Ok t (p >>= f) l (Post ctx G2) := by
  rw [ok_bind]
  refine h1.mono ?_
  intro r l h
  cases r with
  | ok u => rcases h with rfl | rfl
            · exact h2
            · exact h3
  | error x => exact h

section
variable {m : MId} {ev : Ev} {ctx : Ph → List Frame} {S : Op → Prop}

/-- Operations that a phase supports. -/
structure Basic (S : Op → Prop) (m : MId) (ev : Ev) : Prop where
  getListener : S (.getListener m)
  notify : ∀ c, S (.notify m c)
  emit : ∀ c, c.tMach = some (m, ev) → S (.emit (.cb c))
  emitRet : ∀ c r, S (.emit (.cbRet c r))

structure Full (S : Op → Prop) (m : MId) (ev : Ev) : Prop extends Basic S m ev where
  getCur : S (.getCur m)
  cas : ∀ s b, S (.casEnded m s b false)
  setCur : ∀ s, S (.setCur m s false)

theorem ok_op {α : Type} (hx : PhCtx env m ev ctx S) {o : Op} {k : o.Res → Prog α} {ph : Ph} (hS : S o) (ha : phAllowed m ev ph o)
    {Q : Except Exc α → List Frame → Prop}
    (h : ∀ w r, r = (exec t o w).1 → (proto env).Ok t (k r) (ctx (phNxt m ph o w)) Q) :
    (proto env).Ok t (lift o >>= k) (ctx ph) Q := by
  rw [ok_bind, ok_lift]
  refine ⟨hx.allowed _ _ hS ha, fun w _ => ?_⟩
  show Cont _ _ _ _ _ (lNxt env (ctx ph) o w)
  rw [hx.nxt _ _ _ hS ha]
  exact h w _ rfl

/-- User code running in a phase on the plan. -/
theorem ok_inCb (hx : PhCtx env m ev ctx S) (hb : Basic S m ev) {c : Cb} {f : Call} {pl : List Item} {cur : Option St}
    {lst : Option LId} (hd : ∀ s m, f ≠ .drain s m) (hp : ∀ ph, callable (ctx ph) → lPre env f (ctx ph)) :
    (proto env).Ok t (userCall c f) (ctx (.inCb c pl cur lst)) (Post ctx (.run pl cur lst)) := by
  refine ok_userCall (hp _ (hx.callable _ rfl)) hd (fun r => hx.allowed _ _ (hb.emitRet c r) rfl) ?_
  intro r w _
  rw [hx.nxt (.inCb c pl cur lst) _ _ (hb.emitRet c _) rfl]
  cases r with
  | ok u => exact Or.inl rfl
  | error x => exact Or.inl rfl

theorem ok_lameCb (hx : PhCtx env m ev ctx S) (hb : Basic S m ev) {c : Cb} {f : Call} {G : Ph} (hd : ∀ s m, f ≠ .drain s m)
    (hp : ∀ ph, callable (ctx ph) → lPre env f (ctx ph)) :
    (proto env).Ok t (userCall c f) (ctx (.lameCb c)) (Post ctx G) := by
  refine ok_userCall (hp _ (hx.callable _ rfl)) hd (fun r => hx.allowed _ _ (hb.emitRet c r) rfl) ?_
  intro r w _
  rw [hx.nxt (.lameCb c) _ _ (hb.emitRet c _) rfl]
  cases r with
  | ok u => exact Or.inr rfl
  | error x => exact Or.inl rfl

theorem ok_callback (hx : PhCtx env m ev ctx S) (hb : Basic S m ev) {c : Cb} {f : Call} {pl : List Item} {cur : Option St}
    {lst : Option LId} (hd : ∀ s m, f ≠ .drain s m) (hp : ∀ ph, callable (ctx ph) → lPre env f (ctx ph))
    (hm : c.tMach = some (m, ev)) (hn : c.isNote = false) :
    (proto env).Ok t (callback c f) (ctx (.run (.cb c :: pl) cur lst)) (Post ctx (.run pl cur lst)) := by
  unfold callback
  refine ok_op hx (hb.emit c hm) (by exact ⟨hn, hm, rfl⟩) fun w r hr => ?_
  exact ok_inCb hx hb hd hp

theorem ok_callback_lame (hx : PhCtx env m ev ctx S) (hb : Basic S m ev) {c : Cb} {f : Call} {G : Ph}
    (hd : ∀ s m, f ≠ .drain s m) (hp : ∀ ph, callable (ctx ph) → lPre env f (ctx ph)) (hm : c.tMach = some (m, ev)) :
    (proto env).Ok t (callback c f) (ctx (.lame none)) (Post ctx G) := by
  unfold callback
  refine ok_op hx (hb.emit c hm) (by exact hm) fun w r hr => ?_
  exact ok_lameCb hx hb hd hp

theorem ok_acts (hx : PhCtx env m ev ctx S) (hb : Basic S m ev) {k : Kind} {s : St} {d : Spec.Desc} (hd : d.m = m)
    {pl : List Item} {cur : Option St} {lst : Option LId} (i n : Nat) :
    (proto env).Ok t (runActs m k s.oid ev i n) (ctx (.run (d.actions k s ev i n ++ pl) cur lst))
      (Post ctx (.run pl cur lst)) := by
  have lame : ∀ n i, (proto env).Ok t (runActs m k s.oid ev i n) (ctx (.lame none)) (Post ctx (.run pl cur lst)) := by
    intro n
    induction n with
    | zero => intro i; exact Or.inr rfl
    | succ n ih =>
      intro i
      unfold runActs
      exact ok_seq (G1 := .lame none) (ok_callback_lame hx hb (by intros; simp) (fun _ h => h) rfl) (ih _) (ih _)
  induction n generalizing i with
  | zero => exact Or.inl rfl
  | succ n ih =>
    unfold runActs
    refine ok_seq (G1 := .run (d.actions k s ev (i + 1) n ++ pl) cur lst) ?_ (ih _) (lame _ _)
    have : d.actions k s ev i (n + 1) = .cb (.action m k s.oid i ev) :: d.actions k s ev (i + 1) n := by
      simp [Spec.Desc.actions, List.range'_succ, hd]
    rw [this]
    exact ok_callback hx hb (by intros; simp) (fun _ h => h) rfl rfl

theorem ok_acts_lame (hx : PhCtx env m ev ctx S) (hb : Basic S m ev) {k : Kind} {s : Nat} {G : Ph} (i n : Nat) :
    (proto env).Ok t (runActs m k s ev i n) (ctx (.lame none)) (Post ctx G) := by
  induction n generalizing i with
  | zero => exact Or.inr rfl
  | succ n ih =>
    unfold runActs
    exact ok_seq (G1 := .lame none) (ok_callback_lame hx hb (by intros; simp) (fun _ h => h) rfl) (ih _) (ih _)

theorem ok_onState (hx : PhCtx env m ev ctx S) (hb : Basic S m ev) {k : Kind} {s : St} {d : Spec.Desc} (hd : d.m = m)
    (hn : d.nacts k s.oid = (env.acts k s.oid).length)
    {pl : List Item} {cur : Option St} {lst : Option LId} :
    (proto env).Ok t (onState env k s ev m) (ctx (.run (d.actions k s ev 0 (d.nacts k s.oid) ++ pl) cur lst))
      (Post ctx (.run pl cur lst)) := by
  unfold onState
  rw [hn]; exact ok_acts hx hb hd _ _

theorem ok_onState_lame (hx : PhCtx env m ev ctx S) (hb : Basic S m ev) {k : Kind} {s : St} {G : Ph} :
    (proto env).Ok t (onState env k s ev m) (ctx (.lame none)) (Post ctx G) := by
  unfold onState; exact ok_acts_lame hx hb _ _

/-- The callback of a listener notification. -/
def noteCb (m : MId) (complete : Bool) (f : St) (ev : Ev) (s : St) : Cb :=
  if complete then .end_ m f ev s else .begin m f ev s

theorem ok_notify_lame (hx : PhCtx env m ev ctx S) (hb : Basic S m ev) {complete : Bool} {f to : Option St} {G : Ph} :
    (proto env).Ok t (notifyListener env m complete f ev to) (ctx (.lame none)) (Post ctx G) := by
  unfold notifyListener
  refine ok_op hx hb.getListener (by exact rfl) fun w r hr => ?_
  simp only [exec] at hr; subst hr; simp only [phNxt]
  refine ok_ite (fun _ => ?_) (fun _ => Or.inr rfl)
  refine ok_op hx (hb.notify _) (by refine ⟨rfl, ?_⟩; cases complete <;> rfl) fun w r hr => ?_
  simp only [exec] at hr; subst hr; simp only [phNxt]
  cases hl : (w.mach m).listener with
  | none => exact Or.inr ⟨rfl, rfl⟩
  | some l => exact ok_lameCb hx hb (by intros; simp) (fun _ h => h)

theorem ok_notify (hx : PhCtx env m ev ctx S) (hb : Basic S m ev) {complete : Bool} {f to : St}
    {pl : List Item} {cur : Option St} {lst : Option LId} (hp : pendOf pl = none)
    (hth : isThr pl = false) :
    (proto env).Ok t (notifyListener env m complete (some f) ev (some to))
      (ctx (.run (Spec.note lst.isSome (noteCb m complete f ev to) ++ pl) cur lst)) (Post ctx (.run pl cur lst)) := by
  unfold notifyListener
  refine ok_op hx hb.getListener (by
    refine ⟨rfl, ?_⟩
    cases lst with
    | none => simpa [Spec.note] using hth
    | some l => rfl) fun w r hr => ?_
  simp only [exec] at hr; subst hr; simp only [phNxt]
  by_cases h : (w.mach m).listener = lst
  · rw [if_pos h]; subst h
    cases hl : (w.mach m).listener with
    | none => simp [Spec.note]; exact Or.inl rfl
    | some l =>
      simp only [Option.isSome_some, if_true, Spec.note, Option.getD_some]
      refine ok_op hx (hb.notify _) (by refine ⟨rfl, ?_, ?_, rfl⟩ <;> cases complete <;> rfl) fun w r hr => ?_
      simp only [exec] at hr; subst hr; simp only [phNxt]
      cases hl : (w.mach m).listener with
      | none => exact Or.inr ⟨rfl, rfl⟩
      | some l' =>
        simp only
        by_cases h' : some l' = some l
        · rw [if_pos h']; exact ok_inCb hx hb (by intros; simp) (fun _ h => h)
        · rw [if_neg h']; exact ok_lameCb hx hb (by intros; simp) (fun _ h => h)
  · have hp' : pendOf (Spec.note lst.isSome (noteCb m complete f ev to) ++ pl) = none := by
      cases lst with
      | none => simpa [Spec.note] using hp
      | some l => rfl
    rw [if_neg h, hp']
    refine ok_ite (fun _ => ?_) (fun _ => Or.inr rfl)
    refine ok_op hx (hb.notify _) (by refine ⟨rfl, ?_⟩; cases complete <;> rfl) fun w r hr => ?_
    simp only [exec] at hr; subst hr; simp only [phNxt]
    cases hl : (w.mach m).listener with
    | none => exact Or.inr ⟨rfl, rfl⟩
    | some l => exact ok_lameCb hx hb (by intros; simp) (fun _ h => h)

theorem ok_getCur {α : Type} (hx : PhCtx env m ev ctx S) (hf : Full S m ev) {k : Option St → Prog α} {pl : List Item} {cur : Option St}
    {lst : Option LId} (hp : pendOf pl = none) (hth : isThr pl = false) {Q : Except Exc α → List Frame → Prop}
    (h1 : (proto env).Ok t (k cur) (ctx (.run pl cur lst)) Q) (h2 : ∀ v, (proto env).Ok t (k v) (ctx (.lame none)) Q) :
    (proto env).Ok t (lift (.getCur m) >>= k) (ctx (.run pl cur lst)) Q := by
  refine ok_op hx hf.getCur (by exact rfl) fun w r hr => ?_
  simp only [exec] at hr; subst hr; simp only [phNxt]
  split
  next h =>
    rw [h]
    have : Ph.seen pl cur lst = .run pl cur lst := by
      cases pl with
      | nil => rfl
      | cons a pl => cases a <;> first | rfl | cases hth
    rw [this]; exact h1
  · rw [hp]; exact h2 _

theorem ok_getCur_thr {α : Type} (hx : PhCtx env m ev ctx S) (hf : Full S m ev) {k : Option St → Prog α} {x : Exc} {cur : Option St}
    {lst : Option LId} {Q : Except Exc α → List Frame → Prop}
    (h1 : (proto env).Ok t (k cur) (ctx (.thrown x)) Q) (h2 : ∀ v, (proto env).Ok t (k v) (ctx (.lame none)) Q) :
    (proto env).Ok t (lift (.getCur m) >>= k) (ctx (.run [.thr x] cur lst)) Q := by
  refine ok_op hx hf.getCur (by exact rfl) fun w r hr => ?_
  simp only [exec] at hr; subst hr; simp only [phNxt]
  split
  next h => rw [h]; exact h1
  · exact h2 _

theorem ok_getCur_lame {α : Type} (hx : PhCtx env m ev ctx S) (hf : Full S m ev) {k : Option St → Prog α}
    {Q : Except Exc α → List Frame → Prop} (h2 : ∀ v, (proto env).Ok t (k v) (ctx (.lame none)) Q) :
    (proto env).Ok t (lift (.getCur m) >>= k) (ctx (.lame none)) Q := by
  refine ok_op hx hf.getCur (by exact rfl) fun w r hr => ?_
  exact h2 _

theorem ok_update_lame (hx : PhCtx env m ev ctx S) (hf : Full S m ev) {s : St} {G : Ph} :
    (proto env).Ok t (updateCurrentState env m s false) (ctx (.lame none)) (Post ctx G) := by
  unfold updateCurrentState
  refine ok_op hx (hf.cas _ _) (by exact ⟨rfl, rfl⟩) fun w r hr => ?_
  simp only [exec] at hr; subst hr; simp only [phNxt]
  by_cases h : (w.mach m).ended = true
  · simp only [h, if_true]; exact Or.inr rfl
  · simp only [h]
    simp only [Bool.false_eq_true, if_false, if_true]
    rw [ok_lift]
    refine ⟨hx.allowed _ _ (hf.setCur s) ⟨rfl, rfl, rfl⟩, fun w _ => ?_⟩
    show Post _ _ _ (lNxt _ _ _ _)
    rw [hx.nxt (.lame (some s)) _ _ (hf.setCur s) ⟨rfl, rfl, rfl⟩]
    exact Or.inr rfl

theorem ok_update (hx : PhCtx env m ev ctx S) (hf : Full S m ev) {s : St} {pl : List Item} {cur : Option St} {lst : Option LId} :
    (proto env).Ok t (updateCurrentState env m s false)
      (ctx (.run (.upd s (s.eqv (env.mach m).res.endSt) :: .cur s :: pl) cur lst)) (Post ctx (.run pl (some s) lst)) := by
  unfold updateCurrentState
  refine ok_op hx (hf.cas _ _) (by exact ⟨rfl, rfl, Or.inl rfl⟩) fun w r hr => ?_
  simp only [exec] at hr; subst hr; simp only [phNxt]
  by_cases h : (w.mach m).ended = true
  · simp only [h, if_true]; exact Or.inr rfl
  · simp only [h]
    simp only [Bool.false_eq_true, if_false, if_true, List.tail_cons]
    rw [ok_lift]
    refine ⟨hx.allowed _ _ (hf.setCur s) ⟨rfl, rfl, rfl⟩, fun w _ => ?_⟩
    show Post _ _ _ (lNxt _ _ _ _)
    rw [hx.nxt (.run (.cur s :: pl) cur lst) _ _ (hf.setCur s) ⟨rfl, rfl, rfl⟩]
    exact Or.inl rfl

theorem ok_halt (hx : PhCtx env m ev ctx S) (hf : Full S m ev) {pl : List Item} {cur : Option St} {lst : Option LId} :
    (proto env).Ok t (stop env m false)
      (ctx (.run (.halt (env.mach m).res.endSt :: .cur (env.mach m).res.endSt :: pl) cur lst)) (fun r l => Post ctx (.run pl (some (env.mach m).res.endSt) lst) r l ∨
        (r = .ok () ∧ l = ctx (.run pl cur lst))) := by
  unfold stop updateCurrentState
  have he : (env.mach m).res.endSt.eqv (env.mach m).res.endSt = true := by simp [St.eqv]
  rw [he]
  refine ok_op hx (hf.cas _ _) (by exact ⟨rfl, rfl, Or.inr ⟨rfl, rfl⟩⟩) fun w r hr => ?_
  simp only [exec] at hr; subst hr; simp only [phNxt]
  by_cases h : (w.mach m).ended = true
  · simp only [h, if_true]; exact Or.inr ⟨rfl, rfl⟩
  · simp only [h]
    simp only [Bool.false_eq_true, if_false, if_true, List.tail_cons]
    rw [ok_lift]
    refine ⟨hx.allowed _ _ (hf.setCur _) ⟨rfl, rfl, rfl⟩, fun w _ => ?_⟩
    show Post _ _ _ (lNxt _ _ _ _) ∨ _
    rw [hx.nxt (.run (.cur (env.mach m).res.endSt :: pl) cur lst) _ _ (hf.setCur _) ⟨rfl, rfl, rfl⟩]
    exact Or.inl (Or.inl rfl)

end
end Verif
