import Verif.Proofs.Processing
/-
What the history says about callbacks is what happens: an entry `cb` is followed at once by the call of the user code it
announces, that user code is never called otherwise, and the outcome recorded in the entry `cbRet` is the outcome of the call.
-/

namespace Verif
open Prog

/-- The machine a callback belongs to. -/
def Cb.mach : Cb → MId
  | .begin m .. | .end_ m .. | .action m .. | .unmapped m .. | .flowEx m .. | .flowFull m .. | .flowAfter m .. | .flowBefore m .. => m

/-- Calls of user code by the library. -/
def Call.isUser : Call → Bool
  | .proc _ | .drain .. => false
  | _ => true

/-- The call that belongs to a callback; `l`: the listener that was found. -/
def Cb.Calls (env : Env) (l : Option LId) (f : Call) : Cb → Prop
  | .begin _ a ev b => ∃ x, l = some x ∧ f = .listener x false a ev b
  | .end_ _ a ev b => ∃ x, l = some x ∧ f = .listener x true a ev b
  | .action m k oid i ev => f = .action k oid i ev m ∧ i < (env.acts k oid).length
  | .unmapped m ev => ∃ s, f = .unmapped s ev m
  | .flowEx m ev x => ∃ s, f = .flowEx s ev m x
  | .flowFull m ev => f = .flowEx (env.mach m).strat ev m (.ise .queueFull)
  | .flowAfter m ev => f = .flowAfter (env.mach m).strat ev m
  | .flowBefore m ev => f = .flowBefore (env.mach m).strat ev m

/-- Bookkeeping: the open callbacks, and a callback that has been announced and not yet been called. -/
def hNext : (o : Op) → o.Res → List Cb → Option (List Cb × Option (Cb × Option LId))
  | .emit (.cb c), _, l => some (l, some (c, none))
  | .emit (.cbRet c _), _, l => match l with
    | c' :: l' => if c' = c then some (l', none) else none
    | [] => none
  | .notify m c, r, l => match r with
    | none => some (l, none)
    | some x => if c.mach = m then some (l, some (c, some x)) else none
  | _, _, l => some (l, none)

section
variable {env : Env} {α β : Type}

/-- Programs that announce their callbacks. -/
def Honest (env : Env) : Prog α → List Cb → Option (Cb × Option LId) → (Except Exc α → List Cb → Prop) → Prop
  | .ret a, l, none, Q => Q (.ok a) l
  | .thr x, l, none, Q => Q (.error x) l
  | .op o k, l, none, Q => ∀ r, ∃ l' a, hNext o r l = some (l', a) ∧ Honest env (k r) l' a Q
  | .call f k, l, none, Q => f.isUser = false ∧ ∀ r, Honest env (k r) l none Q
  | .call f k, l, some a, Q => a.1.Calls env a.2 f ∧
      ∀ r, (∃ k', k r = .op (.emit (.cbRet a.1 (outcome r))) k') ∧ Honest env (k r) (a.1 :: l) none Q
  | _, _, some _, _ => False

theorem Honest.handle {p : Prog α} {f : Except Exc α → Prog β} {l : List Cb} {a : Option (Cb × Option LId)}
    {Q : Except Exc β → List Cb → Prop} (h : Honest env p l a (fun r l' => Honest env (f r) l' none Q)) :
    Honest env (p.handle f) l a Q := by
  induction p generalizing l a with
  | ret x => cases a with
    | none => exact h
    | some a => exact h.elim
  | thr x => cases a with
    | none => exact h
    | some a => exact h.elim
  | op o k ih => cases a with
    | none =>
      intro r
      obtain ⟨l', a, h1, h2⟩ := h r
      exact ⟨l', a, h1, ih r h2⟩
    | some a => exact h.elim
  | call c k ih => cases a with
    | none => exact ⟨h.1, fun r => ih r (h.2 r)⟩
    | some a =>
      refine ⟨h.1, fun r => ?_⟩
      obtain ⟨⟨k', h1⟩, h2⟩ := h.2 r
      refine ⟨⟨fun u => (k' u).handle f, ?_⟩, ih r h2⟩
      show (k r).handle f = _
      rw [h1]; rfl

theorem Honest.mono {p : Prog α} {l : List Cb} {a : Option (Cb × Option LId)} {Q Q' : Except Exc α → List Cb → Prop}
    (h : Honest env p l a Q) (hQ : ∀ r l', Q r l' → Q' r l') : Honest env p l a Q' := by
  induction p generalizing l a with
  | ret x => cases a with
    | none => exact hQ _ _ h
    | some a => exact h.elim
  | thr x => cases a with
    | none => exact hQ _ _ h
    | some a => exact h.elim
  | op o k ih => cases a with
    | none =>
      intro r
      obtain ⟨l', a, h1, h2⟩ := h r
      exact ⟨l', a, h1, ih r h2⟩
    | some a => exact h.elim
  | call c k ih => cases a with
    | none => exact ⟨h.1, fun r => ih r (h.2 r)⟩
    | some a => exact ⟨h.1, fun r => ⟨(h.2 r).1, ih r (h.2 r).2⟩⟩

/-- Code that leaves the open callbacks as they are. -/
abbrev Bal (env : Env) (p : Prog α) : Prop := ∀ l, Honest env p l none (fun _ l' => l' = l)

theorem Bal.ret (a : α) : Bal env (ret a) := fun _ => rfl
theorem Bal.pure (a : α) : Bal env (pure a : Prog α) := fun _ => rfl
theorem Bal.thr (x : Exc) : Bal env (Prog.thr x : Prog α) := fun _ => rfl

theorem Bal.handle {p : Prog α} {f : Except Exc α → Prog β} (h : Bal env p) (hf : ∀ r, Bal env (f r)) :
    Bal env (p.handle f) := fun l => ((h l).mono (fun r l' e => by subst e; exact hf r l')).handle

theorem Bal.bind {p : Prog α} {f : α → Prog β} (h : Bal env p) (hf : ∀ a, Bal env (f a)) : Bal env (p >>= f) :=
  Bal.handle h fun r => by cases r with
    | ok a => exact hf a
    | error x => exact .thr x

theorem Bal.attempt {p : Prog α} (h : Bal env p) : Bal env p.attempt := h.handle fun r => .ret r

/-- Operations without a meaning for callbacks. -/
def Op.mute : Op → Bool
  | .emit (.cb _) | .emit (.cbRet ..) | .notify .. => false
  | _ => true

theorem hNext_mute {o : Op} (h : o.mute = true) (r : o.Res) (l : List Cb) : hNext o r l = some (l, none) := by
  cases o with
  | emit x => cases x <;> first | rfl | cases h
  | notify => cases h
  | _ => rfl

theorem Bal.lift {o : Op} (h : o.mute = true) : Bal env (lift o) := fun l r => ⟨l, none, hNext_mute h r l, rfl⟩

theorem Bal.ite {c : Prop} [Decidable c] {p q : Prog α} (h1 : Bal env p) (h2 : Bal env q) : Bal env (if c then p else q) := by
  split
  · exact h1
  · exact h2

theorem Bal.ofExcept (r : Except Exc α) : Bal env (ofExcept r) := by
  cases r with
  | ok a => exact .ret a
  | error x => exact .thr x

theorem Bal.deref (v : Option α) : Bal env (deref v) := by
  cases v with
  | none => exact .thr _
  | some a => exact .ret a

theorem Bal.invoke {f : Call} (h : f.isUser = false) : Bal env (invoke f) := fun l => ⟨h, fun r => Bal.ofExcept r l⟩

/-- An announced call. -/
theorem honest_userCall {c : Cb} {x : Option LId} {f : Call} (h : c.Calls env x f) (l : List Cb) :
    Honest env (userCall c f) l (some (c, x)) (fun _ l' => l' = l) := by
  refine ⟨h, fun r => ⟨?_, ?_⟩⟩
  · cases r <;> exact ⟨_, rfl⟩
  · have : ∀ r : Except Exc Unit, Honest env (do lift (.emit (.cbRet c (outcome r))); ofExcept r) (c :: l) none (fun _ l' => l' = l) := by
      intro r u
      exact ⟨l, none, by simp [hNext], Bal.ofExcept r l⟩
    cases r with
    | ok u => exact this (.ok u)
    | error x => exact this (.error x)

theorem Bal.callback {c : Cb} {f : Call} (h : c.Calls env none f) : Bal env (callback c f) :=
  fun l _ => ⟨l, some (c, none), rfl, honest_userCall h l⟩

theorem Bal.notify {m : MId} {b : Bool} {f : Option St} {ev : Ev} {t : Option St} : Bal env (notifyListener env m b f ev t) := by
  unfold notifyListener
  refine .bind (.lift rfl) fun l => .ite ?_ (.pure _)
  have key : ∀ c : Cb, c.mach = m → (∀ x, c.Calls env (some x) (.listener x b (f.getD (env.mach m).res.noSt) ev (t.getD (env.mach m).res.noSt))) →
      Bal env (do
        match ← Prog.lift (.notify m c) with
        | none => Prog.thr .npe
        | some l => userCall c (.listener l b (f.getD (env.mach m).res.noSt) ev (t.getD (env.mach m).res.noSt))) := by
    intro c hc h l' r
    cases r with
    | none => exact ⟨l', none, rfl, rfl⟩
    | some x => exact ⟨l', some (c, some x), by simp [hNext, hc], honest_userCall (h x) l'⟩
  cases b with
  | true => exact key _ rfl fun x => ⟨x, rfl, rfl⟩
  | false => exact key _ rfl fun x => ⟨x, rfl, rfl⟩

theorem Bal.runActs {m : MId} {k : Kind} {oid : Nat} {ev : Ev} (n : Nat) : ∀ i, i + n ≤ (env.acts k oid).length →
    Bal env (runActs m k oid ev i n) := by
  induction n with
  | zero => intro i _; exact .ret _
  | succ n ih =>
    intro i h
    exact .bind (.callback ⟨rfl, by omega⟩) fun _ => ih _ (by omega)

theorem Bal.onState {k : Kind} {s : St} {ev : Ev} {m : MId} : Bal env (onState env k s ev m) := .runActs _ _ (by omega)

theorem Bal.update {m : MId} {s : St} {b : Bool} : Bal env (updateCurrentState env m s b) :=
  .bind (.lift rfl) fun _ => .ite (.lift rfl) (.pure _)

theorem Bal.execute {s : SId} {ev : Ev} {m : MId} : Bal env (execute env s ev m) := by
  unfold Verif.execute
  refine .bind (.lift rfl) fun v => .bind (.deref _) fun row => ?_
  cases row.target (some ev.key) with
  | none => exact .callback ⟨s, rfl⟩
  | some to =>
    refine .ite (.bind (.lift rfl) fun _ => .bind .notify fun _ => .bind (.lift rfl) fun _ => .notify) ?_
    exact .bind (.lift rfl) fun _ => .bind .notify fun _ => .bind (.lift rfl) fun _ => .bind (.deref _) fun _ =>
      .bind .onState fun _ => .bind .update fun _ => .bind (.lift rfl) fun _ => .bind (.deref _) fun _ =>
      .bind .onState fun _ => .bind .notify fun _ => .ite .update (.pure _)

theorem Bal.processOne {s : SId} {cm : MId} {p : PairId} {ev : Ev} {m : MId} : Bal env (processOne env s cm p ev m) := by
  unfold Verif.processOne
  have h : ∀ r : Except Exc Unit, Bal env (do Prog.lift (.poolGive s p); Prog.ofExcept r) := fun r => .bind (.lift rfl) fun _ => .ofExcept _
  refine .bind (.attempt (.bind (.lift rfl) fun _ => .ite .execute (.pure _))) fun r => ?_
  cases r with
  | ok u => exact .bind (.ret _) h
  | error x => exact .ite (.bind (.attempt (.callback ⟨s, rfl⟩)) h) (.bind (.ret _) h)

theorem Bal.drain {s : SId} {cm : MId} : Bal env (drain env s cm) :=
  .bind (.lift rfl) fun _ => .ite (.ret _) (.bind (.lift rfl) fun _ => .bind (.deref _) fun _ => .bind (.lift rfl) fun _ =>
    .bind (.deref _) fun _ => .bind .processOne fun _ => .invoke rfl)

theorem Bal.anyEqual {ev : Ev} (ps : List PairId) : Bal env (anyEqual ev ps) := by
  induction ps with
  | nil => exact .ret _
  | cons p ps ih => exact .bind (.lift rfl) fun _ => .bind (.deref _) fun _ => .ite (.ret _) ih

theorem Bal.processEventDefault {ev : Ev} {m : MId} : Bal env (processEventDefault env (env.mach m).strat ev m) := by
  unfold Verif.processEventDefault
  refine .bind (.lift rfl) fun _ => .ite (.callback rfl) (.bind (.lift rfl) fun p => .bind (.lift rfl) fun _ => ?_)
  have h : Bal env (do
      Prog.lift (.offer (env.strat (env.mach m).strat).queue p)
      if !(← Prog.lift (.submit (env.strat (env.mach m).strat).exec (env.mach m).strat m)) then Prog.thr .rejected) :=
    .bind (.lift rfl) fun _ => .bind (.lift rfl) fun _ => .ite (.thr _) (.pure _)
  exact .ite (.bind (.lift rfl) fun _ => .bind (.lift rfl) fun _ => h) (.bind (.lift rfl) fun _ => h)

theorem Bal.fire {m : MId} {ev : Ev} : Bal env (fire env m ev) := by
  unfold Verif.fire
  have h : Bal env (processEvent env (env.mach m).strat ev m) := by
    unfold processEvent
    exact .ite (.bind (.lift rfl) fun _ => .bind (.anyEqual _) fun _ => .ite (.lift rfl) .processEventDefault) .processEventDefault
  have h' : ∀ e : Bool, Bal env (if e then Verif.callback (.flowAfter m ev) (.flowAfter (env.mach m).strat ev m)
      else processEvent env (env.mach m).strat ev m) := fun e => .ite (.callback rfl) h
  exact .bind (.lift rfl) fun _ => .ite (.callback rfl) (.bind (.lift rfl) fun _ => .ite (.bind (.lift rfl) h') (.bind (.ret _) h'))

theorem Bal.start {m : MId} : Bal env (start env m) := by
  unfold Verif.start
  dsimp only
  split
  · exact .thr _
  · exact .thr _
  · exact .bind (.lift rfl) fun _ => .ite (.bind (.lift rfl) fun _ => .bind .notify fun _ => .bind .onState fun _ =>
      .bind .notify fun _ => .lift rfl) (.thr _)

theorem Bal.startIn {m : MId} {s : Option St} : Bal env (startInState env m s) := by
  unfold startInState
  split
  · exact .bind (.lift rfl) fun _ => .ite (.bind (.lift rfl) fun _ => .lift rfl) (.thr _)
  · exact .thr _

theorem Bal.api {c : Api} {p : Prog Unit} (h : Bal env p) : Bal env (api c p) :=
  .bind (.lift rfl) fun _ => .bind h.attempt fun _ => .bind (.lift rfl) fun _ => .ret _

theorem Bal.ucall (u : UCall) : Bal env (u.prog env) := by
  cases u with
  | fire m ev => exact .api .fire
  | stop m => exact .api .update
  | start m => exact .api .start
  | startInState m s => exact .api .startIn
  | proc i => exact .attempt (.invoke rfl)
  | _ => exact .lift rfl

theorem Bal.denote (u : UProg) : Bal env (u.denote env) := by
  induction u with
  | done => exact .ret _
  | thr x => exact .thr _
  | call u k ih => exact .bind (.ucall u) ih

theorem Bal.body (f : Call) : Bal env (body env f) := by
  cases f with
  | action k oid i ev m => simp only [Verif.body]; split; exact .denote _; exact .ret _
  | drain s m => exact .drain
  | _ => exact .denote _

end

/-! ### Executions -/

/-- What is known about a callback that has been announced and not yet been called. -/
def Announced (c0 : Conf) (tr : List (Tid × Obs)) (t : Tid) (a : Cb × Option LId) : Prop :=
  ∃ pre post, tr = pre ++ (t, .cb a.1) :: post ∧ (∀ e ∈ post, e.1 ≠ t) ∧
    ∀ x, a.2 = some x → (machAt c0 a.1.mach pre).lst = some x

theorem Announced.append {c0 : Conf} {tr : List (Tid × Obs)} {t : Tid} {a : Cb × Option LId} (h : Announced c0 tr t a)
    {tr' : List (Tid × Obs)} (h' : ∀ e ∈ tr', e.1 ≠ t) : Announced c0 (tr ++ tr') t a := by
  obtain ⟨pre, post, rfl, h1, h2⟩ := h
  refine ⟨pre, post ++ tr', by simp, ?_, h2⟩
  intro e he
  rcases List.mem_append.1 he with he | he
  · exact h1 e he
  · exact h' e he

/-- Every thread announces its callbacks. -/
def HonestConf (env : Env) (c0 c : Conf) : Prop :=
  c.thr .env = none ∧ ∀ t p, c.thr t = some p →
    ∃ l a, Honest env p l a (fun _ l' => l' = []) ∧ ∀ x, a = some x → Announced c0 c.w.trace t x

section
variable {env : Env} {c0 c c' : Conf}

theorem mach_of_own {lst : Tid → List Frame} {w : World} (m : MId) (h : Own env lst w) {t : Tid} {o : Op} {l' : List Frame}
    (hm : LMove env w (lst t) o l') (hw : memOf w m = machAt c0 m w.trace) :
    memOf (exec t o w).2 m = machAt c0 m (exec t o w).2.trace := by
  rw [memOf_exec m (opOk_of_lmove h hm), exec_trace]
  simp only [machAt, Spec.Mon.Mem.after, List.foldl_append] at hw ⊢
  rw [← hw]
  cases opObs o w <;> rfl

/-- What the history tells about a machine is true. -/
theorem mach_invariant (c0 : Conf) : Preserved env (Own env) (fun _ w => ∀ m, memOf w m = machAt c0 m w.trace) where
  op := fun lst w t o l' ha hj hm _ m => mach_of_own m ha hm (hj m)
  ret := fun lst w t _ h _ => h
  thr := by
    intro lst w t x _ h _ m
    have := h m
    simp only [machAt, Spec.Mon.Mem.after] at this ⊢
    rw [show (w.log t (.uncaught x)).trace = w.trace ++ [(t, .uncaught x)] from rfl, List.foldl_append, ← this]
    rfl
  dispatch := fun lst w e i j s m _ h _ _ _ => h
  interrupt := fun lst w t _ h => h
  shutdown := fun lst w e _ h => h
  dropTasks := by
    intro lst w e _ h m
    have h0 := h m
    simp only [machAt, Spec.Mon.Mem.after] at h0 ⊢
    simp only [World.dropTasks, List.foldl_append, ← h0]
    have : ∀ (l : List (SId × MId)) (mem : Spec.Mon.Mem),
        (l.map fun x => (Tid.env, Obs.taskDropped x.1 x.2)).foldl (fun mem e => mem.step m e.2) mem = mem := by
      intro l
      induction l with
      | nil => intro mem; rfl
      | cons x l ih => intro mem; exact ih mem
    rw [this]
    rfl

/-- Control states for a reachable configuration, with what they say about pairs, and the state of the machines. -/
theorem control (hi : Initial c0) (hr : ReachFrom env c0 c) : ∃ lst, ThreadsOk (proto env) [] fin lst c ∧ Own env lst c.w ∧
    ∀ m, memOf c.w m = machAt c0 m c.w.trace := by
  obtain ⟨xs, hx⟩ := hr
  refine sound_runs (checked env) ((own_invariant env).and (mach_invariant c0)) (lst := fun _ => []) ?_ ⟨own_initial env c0 hi, ?_⟩ hx
  · intro t; rw [hi.idle t]
  · intro m
    obtain ⟨_, h2, h3⟩ := hi.mach m
    simp [memOf, machAt, Spec.Mon.Mem.after, hi.trace, Spec.Mon.Mem.init, h2, h3]

theorem exec_own_thread (t u : Tid) (o : Op) (w : World) (h : u ≠ t) :
    ∃ tr, (exec u o w).2.trace = w.trace ++ tr ∧ ∀ e ∈ tr, e.1 ≠ t := by
  refine ⟨_, exec_trace u o w, ?_⟩
  intro e he
  cases ho : opObs o w with
  | none => simp [ho] at he
  | some x => simp [ho] at he; subst he; exact h

theorem honest_step (hw : ∀ m, memOf c.w m = machAt c0 m c.w.trace) (h : HonestConf env c0 c) {x : Choice}
    (hs : step env c x = some c') : HonestConf env c0 c' := by
  obtain ⟨he, h⟩ := h
  -- a thread changes, the others see entries of this thread only
  have upd : ∀ (t : Tid) (p' : Option (Prog Unit)) (w : World) (tr : List (Tid × Obs)), t ≠ .env → w.trace = c.w.trace ++ tr →
      (∀ e ∈ tr, e.1 = t) →
      (∀ p, p' = some p → ∃ l a, Honest env p l a (fun _ l' => l' = []) ∧ ∀ x, a = some x → Announced c0 w.trace t x) →
      HonestConf env c0 ⟨w, fset c.thr t p'⟩ := by
    intro t p' w tr ht hw' htr hp
    refine ⟨by simp [fset, ht.symm, he], ?_⟩
    intro u p hu
    by_cases hut : u = t
    · subst hut; simp only [fset_same] at hu; exact hp p hu
    · simp only [fset_ne _ _ hut] at hu
      obtain ⟨l, a, h1, h2⟩ := h u p hu
      refine ⟨l, a, h1, fun x hx => ?_⟩
      show Announced c0 w.trace u x
      rw [hw']
      exact (h2 x hx).append fun e he' => by rw [htr e he']; exact fun h => hut h.symm
  cases x with
  | begin n u =>
    simp only [step] at hs
    split at hs
    · cases hs
    · cases hs
      refine upd _ _ _ [] (by simp) (by simp) (by simp) ?_
      intro p hp; cases hp
      exact ⟨[], none, Bal.denote u [], by simp⟩
  | run t =>
    simp only [step] at hs
    split at hs
    · cases hs
    next p hp =>
      have ht : t ≠ .env := by intro h'; subst h'; rw [he] at hp; cases hp
      obtain ⟨l, a, h1, h2⟩ := h t p hp
      cases p with
      | ret r => cases hs; exact upd _ _ _ [] ht (by simp) (by simp) (by simp)
      | thr r => cases hs; exact upd _ _ _ [(t, .uncaught r)] ht rfl (by simp) (by simp)
      | op o k =>
        simp only [runThread] at hs
        split at hs
        · cases hs
          cases a with
          | some a => exact h1.elim
          | none =>
            refine upd _ _ _ _ ht (exec_trace t o c.w) ?_ ?_
            · intro e he'
              cases ho : opObs o c.w with
              | none => simp [ho] at he'
              | some x => simp [ho] at he'; subst he'; rfl
            · intro p hp'; cases hp'
              obtain ⟨l', a, h3, h4⟩ := h1 (exec t o c.w).1
              refine ⟨l', a, h4, fun x hx => ?_⟩
              subst hx
              -- a callback has been announced
              cases o with
              | emit y =>
                cases y with
                | cb cb =>
                  simp only [hNext, Option.some.injEq, Prod.mk.injEq] at h3
                  obtain ⟨rfl, rfl⟩ := h3
                  exact ⟨c.w.trace, [], rfl, by simp, by simp⟩
                | cbRet cb r =>
                  simp only [hNext] at h3
                  split at h3
                  · split at h3
                    · cases h3
                    · cases h3
                  · cases h3
                | _ => cases h3
              | notify m cb =>
                cases hl : (c.w.mach m).listener with
                | none => simp [exec, hNext, hl] at h3
                | some y =>
                  simp only [exec, hNext, hl] at h3
                  split at h3
                  next hm =>
                    cases h3
                    refine ⟨c.w.trace, [], by simp [exec, hl, World.log], by simp, fun x hx => ?_⟩
                    cases hx
                    rw [hm, ← hw m]
                    exact hl
                  · cases h3
              | _ => cases h3
        · cases hs
      | call f k =>
        cases hs
        refine upd _ _ _ [] ht (by simp) (by simp) ?_
        intro p hp'; cases hp'
        cases a with
        | none => exact ⟨l, none, ((Bal.body f l).mono fun r l' e => by subst e; exact h1.2 r).handle, by simp⟩
        | some a => exact ⟨_, none, ((Bal.body f (a.1 :: l)).mono fun r l' e => by subst e; exact (h1.2 r).2).handle, by simp⟩
  | dispatch e i j =>
    simp only [step] at hs
    split at hs
    · split at hs
      · cases hs
        refine upd _ _ _ [] (by simp) (by simp) (by simp) ?_
        intro p hp; cases hp
        exact ⟨[], none, Bal.drain [], by simp⟩
      · cases hs
    · cases hs
  | interrupt t => cases hs; exact ⟨he, h⟩
  | shutdown e now =>
    cases hs
    cases now with
    | false => exact ⟨he, h⟩
    | true =>
      refine ⟨he, fun t p hp => ?_⟩
      obtain ⟨l, a, h1, h2⟩ := h t p hp
      refine ⟨l, a, h1, fun x hx => (h2 x hx).append ?_⟩
      intro e he'
      obtain ⟨y, _, rfl⟩ := List.mem_map.1 he'
      rintro rfl
      rw [he] at hp; cases hp

theorem reach_snoc {env : Env} {c0 c c' : Conf} (h : ReachFrom env c0 c) {x : Choice} (hs : step env c x = some c') :
    ReachFrom env c0 c' := by
  obtain ⟨xs, hx⟩ := h
  refine ⟨xs ++ [x], ?_⟩
  revert hx
  induction xs generalizing c0 with
  | nil => intro hx; cases hx; simp [runs, hs]
  | cons y ys ih =>
    intro hx
    simp only [runs, List.cons_append] at hx ⊢
    split at hx
    · cases hx
    · exact ih hx

theorem honest_reach (hi : Initial c0) (hr : ReachFrom env c0 c) : HonestConf env c0 c := by
  obtain ⟨xs, hx⟩ := hr
  have : ∀ (xs : List Choice) (c1 : Conf), ReachFrom env c0 c1 → HonestConf env c0 c1 → runs env c1 xs = some c → HonestConf env c0 c := by
    intro xs
    induction xs with
    | nil => intro c1 _ h1 hx; cases hx; exact h1
    | cons x xs ih =>
      intro c1 hr1 h1 hx
      simp only [runs] at hx
      split at hx
      · cases hx
      next c2 h2 =>
        obtain ⟨_, _, _, hw⟩ := control hi hr1
        exact ih c2 (reach_snoc hr1 h2) (honest_step hw h1 h2) hx
  exact this xs c0 ⟨[], rfl⟩ ⟨hi.idle _, fun t p hp => by rw [hi.idle t] at hp; cases hp⟩ hx

end
end Verif
