import Verif.Proofs.Reconf
import Verif.Proofs.Context
import Verif.Proofs.Config
/-
Proofs for C82: which calls are made for an event and by `start()`, the queue, and what is reported.
-/

namespace Verif.Reconf
open Spec.Reconf

variable {c : Code} {α β : Type}

/-! ### The queue, and what is recorded -/

/-- The memory, the queue and the entries are what the history tells. -/
structure Whole (c : Code) (w : W) : Prop where
  good : Good c w
  started : w.started = startedOf w.log
  fifo : queuedOf w.log = takenOf w.log ++ w.queue
  each : ∀ a e b, w.log = a ++ e :: b → Fits c.res a e

theorem whole_init : Whole c .init := ⟨good_init, rfl, rfl, fun a e b h => by cases a <;> cases h⟩

theorem startedOf_append (a b : List Entry) : startedOf (a ++ b) = (startedOf a || startedOf b) := List.any_append

theorem queuedOf_append (a b : List Entry) : queuedOf (a ++ b) = queuedOf a ++ queuedOf b := List.filterMap_append

theorem takenOf_append (a b : List Entry) : takenOf (a ++ b) = takenOf a ++ takenOf b := List.filterMap_append

theorem Whole.snoc {w w' : W} {e : Entry} (h : Whole c w) (hl : w'.log = w.log ++ [e]) (hg : Good c w')
    (hs : w'.started = (w.started || startedOf [e])) (hq : w.queue ++ queuedOf [e] = takenOf [e] ++ w'.queue)
    (hf : Fits c.res w.log e) : Whole c w' := by
  refine ⟨hg, ?_, ?_, ?_⟩
  · rw [hs, hl, startedOf_append, h.started]
  · rw [hl, queuedOf_append, takenOf_append, h.fifo, List.append_assoc, hq, List.append_assoc]
  · intro a x b hx
    rw [hl] at hx
    rcases Ctx.snoc_cons hx with ⟨_, rfl, rfl⟩ | ⟨r, rfl, hr⟩
    · exact hf
    · exact h.each _ _ _ hr

/-- `p` keeps the invariant. -/
def Pres (c : Code) (p : M α) : Prop := ∀ w, Whole c w → Ht p w (fun _ w' => Whole c w') fun _ w' => Whole c w'

theorem Pres.bind {p : M α} {f : α → M β} (hp : Pres c p) (hf : ∀ a, Pres c (f a)) : Pres c (p >>= f) := fun w hw =>
  Ht.bind (Ht.mono (hp w hw) (fun a w1 h1 => hf a w1 h1) fun _ _ h => h)

theorem Pres.pure (a : α) : Pres c (Pure.pure a : M α) := fun _ hw => hw
theorem Pres.throw (x : Exc) : Pres c (MonadExcept.throw x : M α) := fun _ hw => hw
theorem Pres.get : Pres c (MonadState.get : M W) := fun _ hw => hw

/-- Entries about which nothing else is known. -/
theorem Pres.emit {e : Entry} (hm : mute e = true) (h1 : startedOf [e] = false) (h2 : queuedOf [e] = []) (h3 : takenOf [e] = [])
    (hf : ∀ a, Fits c.res a e) : Pres c (Reconf.emit e) := fun w hw =>
  hw.snoc (w' := { w with log := w.log ++ [e] }) rfl (hw.good.mute hm w.queue w.started) (by rw [h1]; simp) (by rw [h2, h3]; simp) (hf _)

theorem update_pres (s : St) (u : Bool) : Pres c (updateCurrentState c s u) := by
  intro w hw
  unfold updateCurrentState
  refine Ht.bind (Ht.get ?_)
  cases he : w.ended with
  | true => exact hw
  | false =>
    refine Ht.bind (Ht.modify (Ht.emit ?_))
    refine hw.snoc (e := .cur s u) rfl ⟨?_, ?_, ?_⟩ (by simp [startedOf]) (by simp [queuedOf, takenOf]) trivial
    · show w.cfg = _
      rw [hw.good.cfg]
      simp [config_append, calls, cfgRun]
    · rw [stateOf_snoc]
    · rw [endedOf_snoc]; rfl

theorem call_pres (u : RCall) : Pres c (u.run c) := by
  cases u with
  | cfg k =>
    intro w hw
    refine Ht.bind (Ht.get (Ht.bind (Ht.modify (Ht.bind (Ht.emit (Ht.pure ?_))))))
    refine hw.snoc (e := .cfg k (k.throws c.res w.cfg)) rfl ⟨?_, ?_, ?_⟩ (by simp [startedOf]) (by simp [queuedOf, takenOf]) ?_
    · show k.after c.res w.cfg = _
      rw [hw.good.cfg, config_append]
      rfl
    · show w.cur = _
      rw [hw.good.cur, stateOf_snoc]
    · show w.ended = _
      rw [hw.good.ended, endedOf_snoc]
    · show k.throws c.res w.cfg = _
      rw [hw.good.cfg]
  | fire ev =>
    intro w hw
    refine Ht.bind (Ht.get ?_)
    split
    next h =>
      refine hw.snoc (w' := { w with log := w.log ++ [.unexpected ev] }) rfl (hw.good.mute rfl w.queue w.started) (by simp [startedOf]) (by simp [queuedOf, takenOf]) ?_
      show startedOf w.log = false ∨ endedOf w.log = true
      rw [← hw.started, ← hw.good.ended]
      simpa using h
    next h =>
      refine Ht.bind (Ht.modify (Ht.emit (hw.snoc (e := .queued ev) rfl (hw.good.mute rfl _ w.started) (by simp [startedOf]) (by simp [queuedOf, takenOf]) ?_)))
      show startedOf w.log = true ∧ endedOf w.log = false
      rw [← hw.started, ← hw.good.ended]
      simpa using h
  | stop => exact update_pres _ _
  | isStarted => exact .bind .get fun _ => .pure _
  | isEnded => exact .bind .get fun _ => .pure _
  | getCurrentState => exact .bind .get fun _ => .pure _
  | note n => exact .emit rfl rfl rfl rfl fun _ => trivial

theorem prog_pres (p : RProg) : Pres c (p.run c) := by
  induction p with
  | done => exact .pure _
  | thr x => exact .throw x
  | call u k ih => exact .bind (call_pres u) fun r => ih r

theorem callback_pres (k : Cb) (p : RProg) (hk : ∀ a, Fits c.res a (.cb k)) : Pres c (callback c k p) :=
  .bind (.emit rfl rfl rfl rfl hk) fun _ => prog_pres p

theorem notify_pres (complete : Bool) (f : Option St) (ev : Ev) (t : St) : Pres c (notifyListener c complete f ev t) := by
  unfold notifyListener
  split
  · exact .pure _
  · refine callback_pres _ _ fun _ => ?_
    split <;> trivial

theorem runActs_pres (k : Kind) (oid : Nat) (ev : Ev) (as : List (Ev → RProg)) : ∀ i, Pres c (runActs c k oid ev i as) := by
  induction as with
  | nil => exact fun _ => .pure _
  | cons a as ih => exact fun i => .bind (callback_pres _ _ fun _ => trivial) fun _ => ih _

theorem deref_pres (o : Option α) : Pres c (deref o) := by
  cases o
  · exact .throw _
  · exact .pure _

theorem transition_pres (ev : Ev) (to : St) : Pres c (transition c ev to) := by
  unfold transition
  refine .bind .get fun _ => .bind (notify_pres _ _ _ _) fun _ => .bind .get fun _ => .bind (deref_pres _) fun _ =>
    .bind (runActs_pres _ _ _ _ _) fun _ => .bind (update_pres _ _) fun _ => .bind .get fun _ => .bind (deref_pres _) fun _ =>
    .bind (runActs_pres _ _ _ _ _) fun _ => .bind (notify_pres _ _ _ _) fun _ => .bind .get fun _ => ?_
  split
  · exact update_pres _ _
  · exact .pure _

theorem execute_pres (ev : Ev) : Pres c (execute c ev) := by
  unfold execute
  refine .bind .get fun w => .bind (deref_pres _) fun row => ?_
  split
  · exact callback_pres _ _ fun _ => trivial
  · split
    · exact .bind .get fun _ => .bind (notify_pres _ _ _ _) fun _ => .bind .get fun _ => notify_pres _ _ _ _
    · exact transition_pres _ _

/-! ### Calls of user code -/

theorem libs_append (a b : List Entry) : libs (a ++ b) = libs a ++ libs b := List.filter_append ..

theorem stopped_append (a b : List Entry) : stopped (a ++ b) = (stopped a || stopped b) := List.any_append

/-- Entries made by user code and by calls of it. -/
def plain (rs : Reserved) : Entry → Prop
  | .cfg .. | .queued _ | .unexpected _ | .cb _ | .note _ => True
  | .cur x u => u = true ∧ x = rs.endSt
  | _ => False

/-- `w'` comes from `w` by user code, and calls of it. -/
def More (c : Code) (w w' : W) (us : List Entry) : Prop := Good c w' ∧ w'.log = w.log ++ us ∧ (∀ e ∈ us, plain c.res e) ∧ failed us = false

theorem More.refl {w : W} (h : Good c w) : More c w w [] := ⟨h, by simp, (fun _ h => by cases h), rfl⟩

theorem More.trans {w w' w'' : W} {a b : List Entry} (h : More c w w' a) (h' : More c w' w'' b) : More c w w'' (a ++ b) :=
  ⟨h'.1, by rw [h'.2.1, h.2.1, List.append_assoc], fun e he => (List.mem_append.1 he).elim (h.2.2.1 e) (h'.2.2.1 e), by
    rw [failed_append, h.2.2.2, h'.2.2.2]; rfl⟩

/-- `p` makes the calls `L`, the first of them if it throws. -/
def Ran (c : Code) (p : M α) (L : List Entry) : Prop := ∀ w, Good c w →
  Ht p w (fun _ w' => ∃ us, More c w w' us ∧ libs us = L) (fun _ w' => ∃ us, More c w w' us ∧ libs us <+: L)

theorem Ran.bind {p : M α} {f : α → M β} {L L' : List Entry} (hp : Ran c p L) (hf : ∀ a, Ran c (f a) L') : Ran c (p >>= f) (L ++ L') := by
  intro w hw
  refine Ht.bind (Ht.mono (hp w hw) ?_ ?_)
  · rintro a w1 ⟨us, h1, h2⟩
    refine Ht.mono (hf a w1 h1.1) ?_ ?_
    · rintro _ w2 ⟨vs, h3, h4⟩
      exact ⟨us ++ vs, h1.trans h3, by rw [libs_append, h2, h4]⟩
    · rintro _ w2 ⟨vs, h3, h4⟩
      exact ⟨us ++ vs, h1.trans h3, by rw [libs_append, h2]; exact (List.prefix_append_right_inj _).2 h4⟩
  · rintro _ w1 ⟨us, h1, h2⟩
    exact ⟨us, h1, h2.trans (List.prefix_append ..)⟩

theorem Ran.pure (a : α) : Ran c (Pure.pure a : M α) [] := fun _ hw => ⟨[], .refl hw, rfl⟩
theorem Ran.throw (x : Exc) (L : List Entry) : Ran c (MonadExcept.throw x : M α) L := fun _ hw => ⟨[], .refl hw, List.nil_prefix⟩
theorem Ran.get : Ran c (MonadState.get : M W) [] := fun _ hw => ⟨[], .refl hw, rfl⟩

theorem Ran.emit {e : Entry} (hp : plain c.res e) (hm : mute e = true) (hf : failed [e] = false) : Ran c (Reconf.emit e) (libs [e]) := fun w hw =>
  ⟨[e], ⟨hw.mute hm w.queue w.started, rfl, fun x hx => by rw [List.mem_singleton.1 hx]; exact hp, hf⟩, rfl⟩

theorem call_ran (u : RCall) : Ran c (u.run c) [] := by
  cases u with
  | cfg k =>
    intro w hw
    refine Ht.bind (Ht.get (Ht.bind (Ht.modify (Ht.bind (Ht.emit (Ht.pure ⟨[.cfg k (k.throws c.res w.cfg)], ⟨⟨?_, ?_, ?_⟩, rfl, ?_, rfl⟩, rfl⟩))))))
    · show k.after c.res w.cfg = _
      rw [hw.cfg, config_append]
      rfl
    · show w.cur = _
      rw [hw.cur, stateOf_snoc]
    · show w.ended = _
      rw [hw.ended, endedOf_snoc]
    · intro x hx; rw [List.mem_singleton.1 hx]; trivial
  | fire ev =>
    refine Ran.bind (L := []) .get fun w => ?_
    split
    · exact .emit trivial rfl rfl
    · intro w hw
      exact Ht.bind (Ht.modify (Ht.emit ⟨[.queued ev], ⟨hw.mute rfl _ w.started, rfl, fun x hx => by rw [List.mem_singleton.1 hx]; trivial, rfl⟩, rfl⟩))
  | stop =>
    intro w hw
    refine update_ht _ _ hw (fun _ => ⟨[], .refl hw, rfl⟩) fun _ _ h1 h2 _ => ⟨_, ⟨h1, h2, ?_, rfl⟩, rfl⟩
    intro x hx; rw [List.mem_singleton.1 hx]; exact ⟨rfl, rfl⟩
  | isStarted => exact .bind (L := []) .get fun _ => .pure _
  | isEnded => exact .bind (L := []) .get fun _ => .pure _
  | getCurrentState => exact .bind (L := []) .get fun _ => .pure _
  | note n => exact .emit trivial rfl rfl

theorem prog_ran (p : RProg) : Ran c (p.run c) [] := by
  induction p with
  | done => exact .pure _
  | thr x => exact .throw x _
  | call u k ih => exact .bind (L := []) (call_ran u) fun r => ih r

theorem callback_ran (k : Cb) (p : RProg) (h : failed [.cb k] = false) : Ran c (callback c k p) (libs [.cb k]) := by
  have := Ran.bind (c := c) (.emit (e := .cb k) trivial rfl h) fun _ => prog_ran p
  rw [List.append_nil] at this
  exact this

theorem notify_ran (complete : Bool) (f : Option St) (ev : Ev) (t : St) : Ran c (notifyListener c complete f ev t)
    ((called c).tell (if complete then .end_ 0 (f.getD c.res.noSt) ev t else .begin 0 (f.getD c.res.noSt) ev t)) := by
  unfold notifyListener
  cases hl : c.listener with
  | none => rw [show (called c).tell _ = [] by simp [Called.tell, called, hl]]; exact .pure _
  | some l =>
    have : ∀ k, (called c).tell k = [.cb k] := fun k => by simp [Called.tell, called, hl]
    rw [this]
    cases complete <;> exact callback_ran _ _ rfl

theorem runActs_ran (k : Kind) (oid : Nat) (ev : Ev) (as : List (Ev → RProg)) : ∀ i, Ran c (runActs c k oid ev i as)
    ((List.range' i as.length).map fun j => .cb (.action 0 k oid j ev)) := by
  induction as with
  | nil => exact fun _ => .pure _
  | cons a as ih =>
    intro i
    rw [List.length_cons, List.range'_succ, List.map_cons]
    exact .bind (L := [.cb (.action 0 k oid i ev)]) (callback_ran _ _ rfl) fun _ => ih _

theorem onState_ran (k : Kind) (s : St) (ev : Ev) : Ran c (onState c k s ev) ((called c).all k s ev) := by
  have := runActs_ran (c := c) k s.oid ev (c.acts k s.oid) 0
  rw [← List.range_eq_range'] at this
  exact this

theorem takeWhile_append_stop {l m : List Entry} : l.takeWhile notTaken = l → (l ++ m).takeWhile notTaken = l ++ m.takeWhile notTaken := by
  induction l with
  | nil => intro _; rfl
  | cons e l ih =>
    intro h
    rw [List.takeWhile_cons] at h
    split at h
    next he => rw [List.cons_append, List.takeWhile_cons, if_pos he, ih (List.cons.inj h).2]; rfl
    · cases h

theorem plain_libs {rs : Reserved} {us : List Entry} (h : ∀ e ∈ us, plain rs e) : us.takeWhile notTaken = us := by
  induction us with
  | nil => rfl
  | cons e us ih =>
    have he := h e (by simp)
    rw [List.takeWhile_cons, if_pos (by cases e <;> first | rfl | exact he.elim), ih fun x hx => h x (by simp [hx])]

theorem Ht.and {p : M α} {w : W} {Q Q' : α → W → Prop} {E E' : Exc → W → Prop} (h : Ht p w Q E) (h' : Ht p w Q' E') :
    Ht p w (fun a w' => Q a w' ∧ Q' a w') fun x w' => E x w' ∧ E' x w' := by
  unfold Ht at *
  split <;> simp_all

theorem report_pres (ev : Ev) (x : Exc) : Pres c (report c ev x) := by
  unfold report
  split
  next hx =>
    intro w hw
    have h1 : Whole c { w with log := w.log ++ [.cb (.flowEx 0 ev x)] } :=
      hw.snoc rfl (hw.good.mute rfl w.queue w.started) (by simp [startedOf]) (by simp [queuedOf, takenOf]) hx
    refine Ht.tryCatch (Ht.bind (Ht.emit (Ht.mono (Ht.and (prog_pres _ _ h1) (prog_ran _ _ h1.good)) (fun _ _ h => h.1) fun y w' ⟨h2, us, h3, _⟩ => ?_)))
    refine h2.snoc (w' := { w' with log := w'.log ++ [.uncaught y] }) rfl (h2.good.mute rfl w'.queue w'.started) (by simp [startedOf]) (by simp [queuedOf, takenOf]) fun _ => ?_
    have hl : w'.log = w.log ++ [.cb (.flowEx 0 ev x)] ++ us := h3.2.1
    have hu : us.reverse.takeWhile notTaken = us.reverse := plain_libs (rs := c.res) fun e he => h3.2.2.1 e (List.mem_reverse.1 he)
    unfold reported
    rw [hl, List.reverse_append, takeWhile_append_stop hu, List.reverse_append, List.any_append]
    have : ([Entry.cb (.flowEx 0 ev x)].reverse ++ w.log.reverse).takeWhile notTaken = .cb (.flowEx 0 ev x) :: w.log.reverse.takeWhile notTaken := rfl
    rw [this]
    simp
  next hx =>
    intro w hw
    exact hw.snoc (w' := { w with log := w.log ++ [.uncaught x] }) rfl (hw.good.mute rfl w.queue w.started) (by simp [startedOf]) (by simp [queuedOf, takenOf])
      fun h => absurd h hx

theorem start_pres {w : W} (hw : Whole c w) (s : St) (hs : w.started = false) (ht : AMap.get? w.cfg.table s.name ≠ none) :
    Whole c { w with started := true, cur := some s, log := w.log ++ [.started s] } := by
  refine hw.snoc (e := .started s) rfl (good_started hw.good s) (by simp [startedOf]) (by simp [queuedOf, takenOf]) ⟨?_, ?_⟩
  · rw [← hw.started]; exact hs
  · rw [← hw.good.cfg]; exact ht

theorem clear_pres {w : W} (hw : Whole c w) : Whole c { w with ended := false, log := w.log ++ [.cleared] } :=
  hw.snoc (e := .cleared) rfl (good_cleared hw.good) (by simp [startedOf]) (by simp [queuedOf, takenOf]) trivial

theorem step_pres {w w' : W} {x : Step} (hs : step c w x = some w') (hw : Whole c w) : Whole c w' := by
  cases x with
  | code p => cases hs; exact after_ht (prog_pres p w hw)
  | process =>
    simp only [step] at hs
    split at hs
    · cases hs
    next ev q hq =>
      cases hs
      refine after_ht (Ht.bind (Ht.emit ?_))
      have h1 : Whole c { w with queue := q, log := w.log ++ [.taken ev] } :=
        hw.snoc (e := .taken ev) rfl (hw.good.mute rfl q w.started) (by simp [startedOf]) (by simp [queuedOf, takenOf, hq]) trivial
      have h2 : Pres c (do
          if !(← get).ended then tryCatch (execute c ev) (report c ev)
          emit (.done ev)) := by
        refine .bind .get fun w => ?_
        have hd : Pres c (emit (.done ev)) := .emit rfl rfl rfl rfl fun _ => trivial
        split
        · exact .bind (fun w hw => Ht.tryCatch (Ht.mono (execute_pres ev w hw) (fun _ _ h => h) fun y w' h => report_pres ev y w' h)) fun _ => hd
        · exact hd
      exact h2 _ h1
  | startInState s =>
    cases hs
    refine after_ht (Ht.bind (Ht.get ?_))
    split
    next r s hr =>
      split
      · exact hw
      next hst =>
        have hr : AMap.get? w.cfg.table s.name = some r := hr
        have h1 := clear_pres (start_pres hw s (by simpa using hst) (by rw [hr]; simp))
        exact Ht.bind (Ht.modify (Ht.bind (Ht.emit (Ht.bind (Ht.modify (Ht.emit h1))))))
    · exact hw
  | start =>
    cases hs
    refine after_ht (Ht.bind (Ht.get ?_))
    split
    · exact hw
    · exact hw
    next i _ hi =>
      split
      · exact hw
      next hst =>
        have hinv : CInv c.res w.cfg := by rw [hw.good.cfg]; exact (CInv.empty _).run _
        refine Ht.bind (Ht.modify (Ht.bind (Ht.emit ?_)))
        have h1 := start_pres hw i (by simpa using hst) (hinv.initOk i hi).2
        refine Ht.bind (Ht.mono (notify_pres _ _ _ _ _ h1) (fun _ w1 h1 => ?_) fun _ _ h => h)
        refine Ht.bind (Ht.mono (runActs_pres _ _ _ _ _ _ h1) (fun _ w2 h2 => ?_) fun _ _ h => h)
        refine Ht.bind (Ht.mono (notify_pres _ _ _ _ _ h2) (fun _ w3 h3 => ?_) fun _ _ h => h)
        have h4 := clear_pres h3
        exact Ht.bind (Ht.modify (Ht.emit h4))

theorem runs_pres {xs : List Step} : ∀ {w w' : W}, runs c w xs = some w' → Whole c w → Whole c w' := by
  induction xs with
  | nil => intro w w' h h1; cases h; exact h1
  | cons x xs ih =>
    intro w w' h h1
    simp only [runs] at h
    split at h
    · cases h
    next w1 hs => exact ih h (step_pres hs h1)

theorem plain_state {rs : Reserved} {us : List Entry} : ∀ {a : List Entry}, (∀ e ∈ us, plain rs e) →
    stateOf (a ++ us) = stateOf a ∨ stateOf (a ++ us) = some rs.endSt ∧ stopped us = true := by
  induction us with
  | nil => intro a _; exact .inl (by simp)
  | cons e us ih =>
    intro a h
    have h1 : a ++ e :: us = a ++ [e] ++ us := by simp
    have h2 : stopped (e :: us) = (stopped [e] || stopped us) := stopped_append [e] us
    rw [h1, h2]
    rcases ih (a := a ++ [e]) fun x hx => h x (by simp [hx]) with h3 | ⟨h3, h4⟩
    · rw [h3, stateOf_snoc]
      have he := h e (by simp)
      cases e with
      | cur x u => obtain ⟨rfl, rfl⟩ := he; exact .inr ⟨rfl, rfl⟩
      | _ => first | exact he.elim | exact .inl rfl
    · exact .inr ⟨h3, by rw [h4, Bool.or_true]⟩

theorem plain_stopped {rs : Reserved} {us : List Entry} : ∀ {a : List Entry}, (∀ e ∈ us, plain rs e) → stopped us = true ∨ stateOf a = some rs.endSt →
    stateOf (a ++ us) = some rs.endSt := by
  induction us with
  | nil =>
    intro a _ h
    rcases h with h | h
    · cases h
    · rw [List.append_nil, h]
  | cons e us ih =>
    intro a h h1
    have h3 : a ++ e :: us = a ++ [e] ++ us := by simp
    have h4 : stopped (e :: us) = (stopped [e] || stopped us) := stopped_append [e] us
    rw [h3]
    refine ih (fun x hx => h x (by simp [hx])) ?_
    rw [stateOf_snoc]
    have he := h e (by simp)
    cases e with
    | cur x u => obtain ⟨rfl, rfl⟩ := he; exact .inr rfl
    | _ => first | exact he.elim | exact h1

theorem plain_ended {rs : Reserved} {us : List Entry} : ∀ {a : List Entry}, (∀ e ∈ us, plain rs e) → endedOf a = false →
    endedOf (a ++ us) = true → stopped us = true := by
  induction us with
  | nil => intro a _ h1 h2; simp [h1] at h2
  | cons e us ih =>
    intro a h h1 h2
    have h3 : a ++ e :: us = a ++ [e] ++ us := by simp
    have h4 : stopped (e :: us) = (stopped [e] || stopped us) := stopped_append [e] us
    rw [h3] at h2
    rw [h4]
    cases h5 : endedOf (a ++ [e]) with
    | false => rw [ih (fun x hx => h x (by simp [hx])) h5 h2, Bool.or_true]
    | true =>
      rw [endedOf_snoc] at h5
      have he := h e (by simp)
      cases e with
      | cur x u => obtain ⟨rfl, rfl⟩ := he; rfl
      | _ => first | exact he.elim | (rw [h1] at h5; cases h5)

/-- What has been called for an event. `bad`: something was thrown. -/
def Conducted (c : Code) (a : List Entry) (ev : Ev) (mid : List Entry) (bad : Bool) : Prop :=
  ∃ L, Plan (called c) c.res a ev mid L ∧ libs mid <+: L ∧ (bad = false → libs mid = L)

theorem plan_mono {n : Called} {rs : Reserved} {a mid mid' L : List Entry} {ev : Ev} (h : Plan n rs a ev mid L)
    (hs : stopped mid = true → stopped mid' = true) : Plan n rs a ev mid' L := by
  cases h with
  | nothing h => exact .nothing h
  | stays h1 h2 h3 h4 h5 => exact .stays h1 h2 h3 h4 (h5.imp id fun ⟨h, h'⟩ => ⟨h, hs h'⟩)
  | goes h1 h2 h3 h4 h5 h6 h7 h8 =>
    exact .goes h1 h2 h3 h4 (h5.imp id fun ⟨h, h'⟩ => ⟨h, hs h'⟩) (h6.imp id fun ⟨h, h'⟩ => ⟨h, hs h'⟩) (h7.imp id fun ⟨h, h'⟩ => ⟨h, hs h'⟩) h8

/-- After the calls `libs us = pre`, `q` makes the calls `L`. -/
theorem Ran.go {p : M α} {L : List Entry} (hp : Ran c p L) {w w1 : W} {us : List Entry} (h1 : More c w w1 us) {Q : α → W → Prop} {E : Exc → W → Prop}
    (hq : ∀ a w2 vs, More c w w2 (us ++ vs) → libs (us ++ vs) = libs us ++ L → Q a w2)
    (he : ∀ x w2 vs, More c w w2 (us ++ vs) → libs (us ++ vs) <+: libs us ++ L → E x w2) : Ht p w1 Q E := by
  refine Ht.mono (hp w1 h1.1) ?_ ?_
  · rintro a w2 ⟨vs, h2, h3⟩
    exact hq a w2 vs (h1.trans h2) (by rw [libs_append, h3])
  · rintro x w2 ⟨vs, h2, h3⟩
    exact he x w2 vs (h1.trans h2) (by rw [libs_append]; exact (List.prefix_append_right_inj _).2 h3)

/-- Entries made while an event is processed. -/
def inner : Entry → Bool
  | .done _ | .taken _ | .started _ | .cleared => false
  | _ => true

theorem plain_inner {rs : Reserved} {e : Entry} (h : plain rs e) : inner e = true := by
  cases e <;> first | rfl | exact h.elim

/-- What is known about the processing of `ev`, begun in `w`. -/
def Played (c : Code) (w : W) (ev : Ev) (bad : Bool) (w' : W) : Prop :=
  Good c w' ∧ ∃ mid, w'.log = w.log ++ mid ∧ (∀ e ∈ mid, inner e = true) ∧ Conducted c w.log ev mid bad

theorem More.played {w w' : W} {us : List Entry} {ev : Ev} {bad : Bool} (h : More c w w' us) (hc : Conducted c w.log ev us bad) : Played c w ev bad w' :=
  ⟨h.1, us, h.2.1, fun e he => plain_inner (h.2.2.1 e he), hc⟩

theorem execute_calls {w : W} (hw : Good c w) (ev : Ev) (he : endedOf w.log = false) :
    Ht (execute c ev) w (fun _ w' => Played c w ev false w') (fun _ w' => Played c w ev true w') := by
  unfold execute
  refine Ht.bind (Ht.get (Ht.bind ?_))
  have hl : lead (config c.res w.log) (stateOf w.log) ev = (w.cfg.table.row? w.cur).map fun r => r.target (some ev.key) := by
    rw [← hw.cfg, ← hw.cur]
    unfold lead Table.row?
    cases w.cur <;> rfl
  cases hr : w.cfg.table.row? w.cur with
  | none =>
    rw [hr] at hl
    exact (More.refl hw).played ⟨[], .nothing (.inr (.inl hl)), List.prefix_refl _, fun _ => rfl⟩
  | some row =>
    rw [hr] at hl
    refine Ht.pure ?_
    simp only [Option.map_some] at hl
    obtain ⟨s, hs⟩ : ∃ s, w.cur = some s := by
      cases h : w.cur with
      | none => rw [h] at hr; cases hr
      | some s => exact ⟨s, rfl⟩
    have hst : stateOf w.log = some s := by rw [← hw.cur, hs]
    cases ht : row.target (some ev.key) with
    | none =>
      rw [ht] at hl
      have hp : Plan (called c) c.res w.log ev [] [] := .nothing (.inr (.inr hl))
      refine (callback_ran (.unmapped 0 ev) _ rfl).go (More.refl hw) ?_ ?_
      · intro _ w2 vs h1 h2
        exact h1.played ⟨[], .nothing (.inr (.inr hl)), by rw [h2]; exact List.prefix_refl _, fun _ => h2⟩
      · intro _ w2 vs h1 h2
        exact h1.played ⟨[], .nothing (.inr (.inr hl)), h2, fun h => by cases h⟩
    | some to =>
      rw [ht] at hl
      simp only
      split
      next hn =>
        have hn : to.name = "_NOOP_" := by
          have : ("_NOOP_" == to.name) = true := hn
          exact (beq_iff_eq.1 this).symm
        refine Ht.bind (Ht.get (Ht.bind ?_))
        rw [hs]
        refine (notify_ran false (some s) ev to).go (More.refl hw) ?_ ?_
        · intro _ w1 us h1 h2
          simp only [List.nil_append] at h1 h2
          refine Ht.bind (Ht.get ?_)
          have hc1 : ∃ s', w1.cur = some s' ∧ (s' = s ∨ s' = c.res.endSt ∧ stopped us = true) := by
            rw [h1.1.cur, h1.2.1]
            rcases plain_state (a := w.log) h1.2.2.1 with h3 | ⟨h3, h4⟩
            · exact ⟨s, by rw [h3, hst], .inl rfl⟩
            · exact ⟨_, h3, .inr ⟨rfl, h4⟩⟩
          obtain ⟨s', hc1, hs'⟩ := hc1
          rw [hc1]
          have hp : ∀ vs, Plan (called c) c.res w.log ev (us ++ vs) ((called c).tell (.begin 0 s ev to) ++ (called c).tell (.end_ 0 s' ev to)) := fun vs =>
            .stays he hl hn hst (hs'.imp id fun ⟨h, h'⟩ => ⟨h, by rw [stopped_append, h']; rfl⟩)
          refine (notify_ran true (some s') ev to).go h1 ?_ ?_
          · intro _ w2 vs h3 h4
            rw [h2] at h4
            exact h3.played ⟨_, hp vs, by rw [h4]; exact List.prefix_refl _, fun _ => h4⟩
          · intro _ w2 vs h3 h4
            rw [h2] at h4
            exact h3.played ⟨_, hp vs, h4, fun h => by cases h⟩
        · intro _ w1 us h1 h2
          exact h1.played ⟨_, .stays he hl hn hst (.inl rfl), h2.trans (List.prefix_append ..), fun h => by cases h⟩
      next hn =>
        have hn : to.name ≠ "_NOOP_" := by
          intro h
          refine hn ?_
          show ("_NOOP_" == to.name) = true
          rw [h]; rfl
        unfold transition
        refine Ht.bind (Ht.get (Ht.bind ?_))
        rw [hs]
        refine (notify_ran false (some s) ev to).go (More.refl hw) ?_ ?_
        rotate_left
        · intro _ w1 us h1 h2
          refine h1.played ⟨_, .goes he hl hn hst (.inl rfl) (.inl rfl) (.inl rfl) (.inl rfl), ?_, fun h => by cases h⟩
          simp only [List.append_assoc]
          exact h2.trans (List.prefix_append ..)
        intro _ w1 us h1 h2
        have h2 : libs us = (called c).tell (.begin 0 s ev to) := h2
        simp only [List.nil_append] at h1
        have hc1 : ∃ x, w1.cur = some x ∧ (x = s ∨ x = c.res.endSt ∧ stopped us = true) := by
          rw [h1.1.cur, h1.2.1]
          rcases plain_state (a := w.log) h1.2.2.1 with h3 | ⟨h3, h4⟩
          · exact ⟨s, by rw [h3, hst], .inl rfl⟩
          · exact ⟨_, h3, .inr ⟨rfl, h4⟩⟩
        obtain ⟨x, hc1, hx⟩ := hc1
        refine Ht.bind (Ht.get (Ht.bind ?_))
        rw [hc1]
        refine Ht.pure (Ht.bind ((onState_ran .exit x ev).go h1 ?_ ?_))
        rotate_left
        · intro _ w2 vs h3 h4
          refine h3.played ⟨_, .goes he hl hn hst (hx.imp id fun ⟨h, h'⟩ => ⟨h, by rw [stopped_append, h']; rfl⟩) (.inl rfl) (.inl rfl) (.inl rfl), ?_, fun h => by cases h⟩
          rw [h2] at h4
          refine h4.trans ?_
          simp only [List.append_assoc]
          exact (List.prefix_append_right_inj _).2 (List.prefix_append ..)
        intro _ w2 vs h3 h4
        rw [h2] at h4
        have hx : x = s ∨ x = c.res.endSt ∧ stopped (us ++ vs) = true := hx.imp id fun ⟨h, h'⟩ => ⟨h, by rw [stopped_append, h']; rfl⟩
        generalize us ++ vs = us2 at h3 h4 hx
        -- after the state change, if there is one
        have tail : ∀ (w3 : W) (mv : List Entry) (y : St), Good c w3 → w3.log = w.log ++ (us2 ++ mv) → w3.cur = some y →
            (y = to ∨ y = c.res.endSt ∧ stopped us2 = true) → (mv = [.cur to false] ∨ mv = [] ∧ stopped us2 = true) →
            Ht (do
                onState c .entry (← deref (← get).cur) ev
                notifyListener c true (some s) ev to
                if isFinal (← get).cfg.table c.res to then stop c false) w3
              (fun _ w' => Played c w ev false w') (fun _ w' => Played c w ev true w') := by
          intro w3 mv y hg3 hl3 hc3 hy hmv
          have mvi : ∀ e ∈ mv, inner e = true := by
            rcases hmv with rfl | ⟨rfl, _⟩
            · intro e he; rw [List.mem_singleton.1 he]; rfl
            · intro e he; cases he
          have hlm : libs mv = mv := by rcases hmv with rfl | ⟨rfl, _⟩ <;> rfl
          have st : ∀ xs, stopped us2 = true → stopped (us2 ++ mv ++ xs) = true := fun xs h => by rw [stopped_append, stopped_append, h]; rfl
          have plan : ∀ xs ends, (ends = [] ∨ ends = [.cur c.res.endSt false]) → Plan (called c) c.res w.log ev (us2 ++ mv ++ xs)
              ((called c).tell (.begin 0 s ev to) ++ (called c).all .exit x ev ++ mv ++ (called c).all .entry y ev ++ (called c).tell (.end_ 0 s ev to) ++ ends) :=
            fun xs ends h => .goes he hl hn hst (hx.imp id fun ⟨h, h'⟩ => ⟨h, st _ h'⟩) (hy.imp id fun ⟨h, h'⟩ => ⟨h, st _ h'⟩)
              (hmv.imp id fun ⟨h, h'⟩ => ⟨h, st _ h'⟩) h
          have inn : ∀ xs w', More c w3 w' xs → ∀ e ∈ us2 ++ mv ++ xs, inner e = true := by
            intro xs w' hm e he
            rcases List.mem_append.1 he with h | h
            · rcases List.mem_append.1 h with h | h
              · exact plain_inner (h3.2.2.1 e h)
              · exact mvi e h
            · exact plain_inner (hm.2.2.1 e h)
          have lib0 : ∀ xs, libs (us2 ++ mv ++ xs) = (called c).tell (.begin 0 s ev to) ++ (called c).all .exit x ev ++ mv ++ libs xs := fun xs => by
            rw [libs_append, libs_append, h4, hlm]
          have lg : ∀ xs w', More c w3 w' xs → w'.log = w.log ++ (us2 ++ mv ++ xs) := fun xs w' hm => by
            rw [hm.2.1, hl3]; simp
          refine Ht.bind (Ht.get (Ht.bind ?_))
          rw [hc3]
          refine Ht.pure (Ht.bind ((onState_ran .entry y ev).go (More.refl hg3) ?_ ?_))
          rotate_left
          · intro _ w4 xs k1 k2
            simp only [List.nil_append] at k1 k2
            refine ⟨k1.1, us2 ++ mv ++ xs, lg _ _ k1, inn _ _ k1, _, plan xs [] (.inl rfl), ?_, fun h => by cases h⟩
            rw [lib0]
            simp only [List.append_assoc]
            exact (List.prefix_append_right_inj _).2 ((List.prefix_append_right_inj _).2 ((List.prefix_append_right_inj _).2 (k2.trans (List.prefix_append ..))))
          intro _ w4 xs k1 k2
          simp only [List.nil_append] at k1 k2
          refine Ht.bind ((notify_ran true (some s) ev to).go k1 ?_ ?_)
          rotate_left
          · intro _ w5 ys k3 k4
            refine ⟨k3.1, us2 ++ mv ++ (xs ++ ys), lg _ _ k3, inn _ _ k3, _, plan _ [] (.inl rfl), ?_, fun h => by cases h⟩
            rw [lib0]
            rw [k2] at k4
            simp only [List.append_assoc, List.append_nil]
            exact (List.prefix_append_right_inj _).2 ((List.prefix_append_right_inj _).2 ((List.prefix_append_right_inj _).2 k4))
          intro _ w5 ys k3 k4
          rw [k2] at k4
          have k4 : libs (xs ++ ys) = (called c).all .entry y ev ++ (called c).tell (.end_ 0 s ev to) := k4
          generalize xs ++ ys = zs at k3 k4
          have done : Played c w ev false w5 := by
            refine ⟨k3.1, us2 ++ mv ++ zs, lg _ _ k3, inn _ _ k3, _, plan _ [] (.inl rfl), ?_, fun _ => ?_⟩ <;>
            rw [lib0, k4] <;> simp only [List.append_assoc, List.append_nil]
            exact List.prefix_refl _
          refine Ht.bind (Ht.get ?_)
          split
          · refine update_ht _ _ k3.1 (fun _ => done) fun _ w6 j1 j2 _ => ?_
            have hz : libs (us2 ++ mv ++ (zs ++ [.cur c.res.endSt false])) = (called c).tell (.begin 0 s ev to) ++ (called c).all .exit x ev ++ mv ++ (called c).all .entry y ev ++ (called c).tell (.end_ 0 s ev to) ++ [.cur c.res.endSt false] := by
              rw [lib0, libs_append, k4]
              simp [libs, lib]
            refine ⟨j1, us2 ++ mv ++ (zs ++ [.cur c.res.endSt false]), ?_, ?_, _, plan _ _ (.inr rfl), ?_, fun _ => hz⟩
            · rw [j2, lg _ _ k3]; simp
            · intro e he
              rw [← List.append_assoc] at he
              rcases List.mem_append.1 he with h | h
              · exact inn _ _ k3 e h
              · rw [List.mem_singleton.1 h]; rfl
            · rw [hz]; exact List.prefix_refl _
          · exact done
        refine Ht.bind (update_ht to false h3.1 ?_ ?_)
        · intro hend
          rw [h3.1.ended, h3.2.1] at hend
          have hst2 : stopped us2 = true := plain_ended h3.2.2.1 he hend
          have hc3 : ∃ y, w2.cur = some y ∧ (y = to ∨ y = c.res.endSt ∧ stopped us2 = true) := by
            rw [h3.1.cur, h3.2.1]
            exact ⟨_, plain_stopped h3.2.2.1 (.inl hst2), .inr ⟨rfl, hst2⟩⟩
          obtain ⟨y, hc3, hy⟩ := hc3
          exact tail w2 [] y h3.1 (by rw [h3.2.1]; simp) hc3 hy (.inr ⟨rfl, hst2⟩)
        · intro _ w3 j1 j2 j3
          exact tail w3 [.cur to false] to j1 (by rw [j2, h3.2.1]; simp) j3 (.inl rfl) (.inl rfl)

theorem report_calls {w : W} (hw : Good c w) (ev : Ev) (x : Exc) :
    Ht (report c ev x) w (fun _ w' => ∃ us, Good c w' ∧ w'.log = w.log ++ us ∧ (∀ e ∈ us, inner e = true) ∧ failed us = true ∧ libs us = []) (fun _ _ => False) := by
  unfold report
  split
  · refine Ht.tryCatch (Ht.bind (Ht.emit (Ht.mono (prog_ran _ _ (hw.mute rfl w.queue w.started)) ?_ ?_)))
    · rintro _ w' ⟨us, ⟨h1, h2, h3, -⟩, h4⟩
      refine ⟨.cb (.flowEx 0 ev x) :: us, h1, by rw [h2, List.append_assoc]; rfl, ?_, rfl, h4⟩
      intro e he
      rcases List.mem_cons.1 he with rfl | h
      · rfl
      · exact plain_inner (h3 e h)
    · rintro y w' ⟨us, ⟨h1, h2, h3, -⟩, h4⟩
      have h4 : libs us = [] := List.prefix_nil.1 h4
      refine Ht.emit ⟨.cb (.flowEx 0 ev x) :: us ++ [.uncaught y], h1.mute rfl w'.queue w'.started, ?_, ?_, ?_, ?_⟩
      · show w'.log ++ _ = _
        rw [h2]; simp
      · intro e he
        rcases List.mem_append.1 he with h | h
        · rcases List.mem_cons.1 h with rfl | h
          · rfl
          · exact plain_inner (h3 e h)
        · rw [List.mem_singleton.1 h]; rfl
      · rfl
      · rw [libs_append]
        have : libs (.cb (.flowEx 0 ev x) :: us) = libs us := rfl
        rw [this, h4]; rfl
  · exact Ht.emit ⟨[.uncaught x], hw.mute rfl w.queue w.started, rfl, (fun e he => by rw [List.mem_singleton.1 he]; rfl), rfl, rfl⟩

/-- The processing of an event. -/
theorem process_calls {w : W} (hw : Good c w) (ev : Ev) :
    Ht (processOne c ev) w (fun _ w' => Good c w' ∧ ∃ mid, w'.log = w.log ++ .taken ev :: (mid ++ [.done ev]) ∧ (∀ e ∈ mid, inner e = true) ∧
      Conducted c (w.log ++ [.taken ev]) ev mid (failed mid)) (fun _ _ => False) := by
  unfold processOne
  refine Ht.bind (Ht.emit (Ht.bind (Ht.get ?_)))
  have hg : Good c { w with log := w.log ++ [.taken ev] } := hw.mute rfl w.queue w.started
  generalize hw1 : ({ w with log := w.log ++ [.taken ev] } : W) = w1 at hg
  have hl1 : w1.log = w.log ++ [.taken ev] := by rw [← hw1]
  have fin : ∀ w' : W, Good c w' → (∃ mid, w'.log = w1.log ++ mid ∧ (∀ e ∈ mid, inner e = true) ∧ Conducted c w1.log ev mid (failed mid)) →
      Ht (emit (.done ev)) w' (fun _ w' => Good c w' ∧ ∃ mid, w'.log = w.log ++ .taken ev :: (mid ++ [.done ev]) ∧ (∀ e ∈ mid, inner e = true) ∧
        Conducted c (w.log ++ [.taken ev]) ev mid (failed mid)) (fun _ _ => False) := by
    rintro w' h1 ⟨mid, h2, h3, h4⟩
    refine Ht.emit ⟨h1.mute rfl w'.queue w'.started, mid, ?_, h3, by rw [← hl1]; exact h4⟩
    show w'.log ++ _ = _
    rw [h2, hl1]; simp
  cases he : w1.ended with
  | true =>
    rw [hg.ended] at he
    exact fin w1 hg ⟨[], by simp, (fun _ h => by cases h), [], .nothing (.inl he), List.prefix_refl _, fun _ => rfl⟩
  | false =>
    rw [hg.ended] at he
    refine Ht.bind (Ht.tryCatch (Ht.mono (execute_calls hg ev he) ?_ ?_))
    · rintro _ w' ⟨h1, mid, h2, h3, L, h4, h5, h6⟩
      exact fin w' h1 ⟨mid, h2, h3, L, h4, h5, fun _ => h6 rfl⟩
    · rintro x w' ⟨h1, mid, h2, h3, L, h4, h5, -⟩
      refine Ht.mono (report_calls h1 ev x) ?_ fun _ _ h => h.elim
      rintro _ w2 ⟨us, g1, g2, g3, g4, g5⟩
      refine fin w2 g1 ⟨mid ++ us, by rw [g2, h2, List.append_assoc], ?_, L, plan_mono h4 ?_, ?_, ?_⟩
      · intro e he
        exact (List.mem_append.1 he).elim (h3 e) (g3 e)
      · intro h; rw [stopped_append, h]; rfl
      · rw [libs_append, g5, List.append_nil]; exact h5
      · intro h; rw [failed_append, g4, Bool.or_true] at h; cases h

/-- The story told as a sequence of events and everything else. -/
inductive Tale (c : Code) : List Entry → Prop
  | nil : Tale c []
  | other {a e} : Tale c a → (∀ ev, e ≠ .taken ev) → Tale c (a ++ [e])
  | event {a ev mid} : Tale c a → (∀ e ∈ mid, inner e = true) → Conducted c (a ++ [.taken ev]) ev mid (failed mid) → Tale c (a ++ .taken ev :: (mid ++ [.done ev]))

theorem Tale.more {a us : List Entry} (h : Tale c a) (hu : ∀ e ∈ us, ∀ ev, e ≠ .taken ev) : Tale c (a ++ us) := by
  induction us generalizing a with
  | nil => simpa using h
  | cons e us ih =>
    have : a ++ e :: us = a ++ [e] ++ us := by simp
    rw [this]
    exact ih (.other h (hu e (by simp))) fun x hx => hu x (by simp [hx])

theorem Tale.event_at {l : List Entry} (h : Tale c l) : ∀ {a r : List Entry} {ev : Ev}, l = a ++ .taken ev :: r →
    ∃ mid b, r = mid ++ .done ev :: b ∧ (∀ e ∈ mid, inner e = true) ∧ Conducted c (a ++ [.taken ev]) ev mid (failed mid) := by
  induction h with
  | nil => intro a r ev h; simp at h
  | @other l e _ he ih =>
    intro a r ev h
    rcases Ctx.snoc_cons h with ⟨_, h1, _⟩ | ⟨r', rfl, h'⟩
    · exact absurd h1.symm (he ev)
    · obtain ⟨mid, b, h1, h2⟩ := ih h'
      exact ⟨mid, b ++ [e], by rw [h1]; simp, h2⟩
  | @event l ev' mid' _ hi hh ih =>
    intro a r ev h
    rcases List.append_eq_append_iff.1 h with ⟨x, rfl, hx⟩ | ⟨x, rfl, hx⟩
    · cases x with
      | nil =>
        obtain ⟨h1, h2⟩ := List.cons.inj hx
        cases h1
        exact ⟨mid', [], h2.symm, hi, by simpa using hh⟩
      | cons y x =>
        obtain ⟨h1, h2⟩ := List.cons.inj hx
        have : .taken ev ∈ mid' ++ [.done ev'] := by rw [h2]; simp
        rcases List.mem_append.1 this with h3 | h3
        · cases hi _ h3
        · simp at h3
    · cases x with
      | nil =>
        obtain ⟨h1, h2⟩ := List.cons.inj hx
        cases h1
        exact ⟨mid', [], h2, hi, by simpa using hh⟩
      | cons y x =>
        obtain ⟨rfl, h2⟩ := List.cons.inj hx
        obtain ⟨mid, b, h3, h4⟩ := ih rfl
        exact ⟨mid, b ++ .taken ev' :: (mid' ++ [.done ev']), by rw [h2, h3]; simp, h4⟩

/-- What has been called by `start()`. -/
def Begun (c : Code) (log : List Entry) : Prop := ∀ a s r, log = a ++ .started s :: r →
  libs (r.takeWhile notTaken) <+: startPlan (called c) c.res s ∧
  (.cleared ∈ r → libs (r.takeWhile notTaken) = startPlan (called c) c.res s ∨ r.head? = some .cleared ∧ libs (r.takeWhile notTaken) = [])

/-- What happens after the start makes no calls before an event is taken. -/
theorem takeWhile_more {r us : List Entry} (hu : libs (us.takeWhile notTaken) = []) : libs ((r ++ us).takeWhile notTaken) = libs (r.takeWhile notTaken) := by
  induction r with
  | nil => exact hu
  | cons e r ih =>
    rw [List.cons_append, List.takeWhile_cons, List.takeWhile_cons]
    split
    · have hc : ∀ l, libs (e :: l) = libs [e] ++ libs l := fun l => libs_append [e] l
      rw [hc (List.takeWhile _ (r ++ us)), hc (List.takeWhile _ r), ih]
    · rfl

theorem Begun.more {l us : List Entry} (h : Begun c l) (hs : ∀ e ∈ us, (∀ s, e ≠ .started s) ∧ e ≠ .cleared)
    (hu : libs (us.takeWhile notTaken) = []) : Begun c (l ++ us) := by
  intro a s r he
  have key : ∀ x, us ≠ x ++ .started s :: r := fun x hx => (hs (.started s) (by rw [hx]; simp)).1 s rfl
  rcases List.append_eq_append_iff.1 he with ⟨x, rfl, hx⟩ | ⟨x, rfl, hx⟩
  · exact absurd hx (key x)
  · cases x with
    | nil => exact absurd hx.symm (key [])
    | cons y x =>
      obtain ⟨rfl, hr⟩ := List.cons.inj hx
      have hr : r = x ++ us := hr
      subst hr
      obtain ⟨h1, h2⟩ := h _ _ _ rfl
      rw [takeWhile_more hu]
      refine ⟨h1, fun hc => ?_⟩
      have hx : .cleared ∈ x := (List.mem_append.1 hc).elim id fun h => absurd rfl (hs _ h).2
      refine (h2 hx).imp id fun ⟨h3, h4⟩ => ⟨?_, h4⟩
      cases x with
      | nil => cases hx
      | cons y x => exact h3

theorem no_started {l : List Entry} (h : startedOf l = false) {a r : List Entry} {s : St} : l ≠ a ++ .started s :: r := by
  rintro rfl
  simp [startedOf] at h

/-- A new start. -/
theorem begun_start {l us z : List Entry} {i : St} (hn : startedOf l = false) (hu : ∀ e ∈ us, plain c.res e) (hz : z = [] ∨ z = [.cleared])
    (hp : libs us <+: startPlan (called c) c.res i) (hq : z = [.cleared] → libs us = startPlan (called c) c.res i ∨ us = []) :
    Begun c (l ++ .started i :: (us ++ z)) := by
  intro a s r he
  have ns : ∀ x, us ++ z ≠ x ++ .started s :: r := by
    intro x hx
    have hm : Entry.started s ∈ us ++ z := by rw [hx]; simp
    rcases List.mem_append.1 hm with h | h
    · exact hu _ h
    · rcases hz with rfl | rfl <;> simp at h
  have hr : l = a ∧ i = s ∧ us ++ z = r := by
    rcases List.append_eq_append_iff.1 he with ⟨x, rfl, hx⟩ | ⟨x, rfl, hx⟩
    · cases x with
      | nil => obtain ⟨h1, h2⟩ := List.cons.inj hx; cases h1; exact ⟨by simp, rfl, h2⟩
      | cons y x => obtain ⟨rfl, h2⟩ := List.cons.inj hx; exact absurd h2 (ns x)
    · cases x with
      | nil => obtain ⟨h1, h2⟩ := List.cons.inj hx; cases h1; exact ⟨by simp, rfl, h2.symm⟩
      | cons y x => obtain ⟨rfl, h2⟩ := List.cons.inj hx; exact absurd rfl (no_started hn)
  obtain ⟨-, rfl, rfl⟩ := hr
  have ht : libs ((us ++ z).takeWhile notTaken) = libs us := by
    rw [takeWhile_append_stop (plain_libs hu), libs_append]
    rcases hz with rfl | rfl <;> exact List.append_nil _
  rw [ht]
  refine ⟨hp, fun hc => ?_⟩
  have hz' : z = [.cleared] := by
    rcases hz with rfl | h
    · rw [List.append_nil] at hc; exact (hu _ hc).elim
    · exact h
  rcases hq hz' with h | rfl
  · exact .inl h
  · subst hz'; exact .inr ⟨rfl, rfl⟩

/-- Everything that is known about calls. -/
def Tells (c : Code) (w : W) : Prop := Whole c w ∧ Tale c w.log ∧ Begun c w.log

theorem plain_ne {rs : Reserved} {e : Entry} (h : plain rs e) : (∀ s, e ≠ .started s) ∧ e ≠ .cleared ∧ ∀ ev, e ≠ .taken ev :=
  ⟨(fun s hs => by rw [hs] at h; exact h), (fun hs => by rw [hs] at h; exact h), fun s hs => by rw [hs] at h; exact h⟩

theorem inner_ne {e : Entry} (h : inner e = true) : (∀ s, e ≠ .started s) ∧ e ≠ .cleared ∧ ∀ ev, e ≠ .taken ev :=
  ⟨(fun s hs => by rw [hs] at h; cases h), (fun hs => by rw [hs] at h; cases h), fun s hs => by rw [hs] at h; cases h⟩

theorem step_tells {w w' : W} {x : Step} (hs : step c w x = some w') (h : Tells c w) : Tells c w' := by
  refine ⟨step_pres hs h.1, ?_⟩
  obtain ⟨hw, ht, hb⟩ := h
  cases x with
  | code p =>
    cases hs
    refine after_ht (P := fun w' => Tale c w'.log ∧ Begun c w'.log) (Ht.mono (prog_ran p w hw.good) ?_ ?_)
    all_goals
      rintro _ w' ⟨us, h1, h2⟩
      rw [h1.2.1]
      refine ⟨ht.more fun e he => (plain_ne (h1.2.2.1 e he)).2.2, hb.more (fun e he => ⟨(plain_ne (h1.2.2.1 e he)).1, (plain_ne (h1.2.2.1 e he)).2.1⟩) ?_⟩
      rw [plain_libs h1.2.2.1]
      first | exact h2 | exact List.prefix_nil.1 h2
  | process =>
    simp only [step] at hs
    split at hs
    · cases hs
    next ev q hq =>
      cases hs
      refine after_ht (P := fun w' => Tale c w'.log ∧ Begun c w'.log)
        (Ht.mono (process_calls (w := { w with queue := q }) ⟨hw.good.cfg, hw.good.cur, hw.good.ended⟩ ev) ?_ fun _ _ h => h.elim)
      rintro _ w' ⟨-, mid, h2, h3, h4⟩
      rw [h2]
      refine ⟨.event ht h3 h4, hb.more ?_ rfl⟩
      intro e he
      rcases List.mem_cons.1 he with rfl | he
      · exact ⟨fun _ h => (by cases h), fun h => by cases h⟩
      · rcases List.mem_append.1 he with he | he
        · exact ⟨(inner_ne (h3 e he)).1, (inner_ne (h3 e he)).2.1⟩
        · rw [List.mem_singleton.1 he]
          exact ⟨fun _ h => (by cases h), fun h => by cases h⟩
  | startInState s =>
    cases hs
    refine after_ht (P := fun w' => Tale c w'.log ∧ Begun c w'.log) (Ht.bind (Ht.get ?_))
    split
    next r s hr =>
      split
      · exact ⟨ht, hb⟩
      next hst =>
        refine Ht.bind (Ht.modify (Ht.bind (Ht.emit (Ht.bind (Ht.modify (Ht.emit ?_))))))
        show Tale c (w.log ++ [.started s] ++ [.cleared]) ∧ Begun c (w.log ++ [.started s] ++ [.cleared])
        refine ⟨.other (.other ht fun _ h => by cases h) fun _ h => (by cases h), ?_⟩
        rw [List.append_assoc]
        exact begun_start (us := []) (by rw [← hw.started]; simpa using hst) (fun _ h => by cases h) (.inr rfl) List.nil_prefix fun _ => .inr rfl
    · exact ⟨ht, hb⟩
  | start =>
    cases hs
    refine after_ht (P := fun w' => Tale c w'.log ∧ Begun c w'.log) (Ht.bind (Ht.get ?_))
    split
    · exact ⟨ht, hb⟩
    · exact ⟨ht, hb⟩
    next i _ hi =>
      split
      · exact ⟨ht, hb⟩
      next hst =>
        have hn : startedOf w.log = false := by rw [← hw.started]; simpa using hst
        refine Ht.bind (Ht.modify (Ht.bind (Ht.emit ?_)))
        have hg := good_started hw.good i
        generalize hw1 : ({ w with started := true, cur := some i, log := w.log ++ [.started i] } : W) = w1 at hg
        have hl1 : w1.log = w.log ++ [.started i] := by rw [← hw1]
        have hp : Ran c (do
            notifyListener c false none immEv i
            onState c .entry i immEv
            notifyListener c true none immEv i) (startPlan (called c) c.res i) := by
          have := (notify_ran (c := c) false none immEv i).bind fun _ => (onState_ran .entry i immEv).bind fun _ => notify_ran true none immEv i
          rw [← List.append_assoc] at this
          exact this
        have tale : ∀ us : List Entry, (∀ e ∈ us, plain c.res e) → Tale c (w.log ++ .started i :: us) := fun us hu => by
          have : w.log ++ .started i :: us = w.log ++ [.started i] ++ us := by simp
          rw [this]
          exact (Tale.other ht fun _ h => by cases h).more fun e he => (plain_ne (hu e he)).2.2
        have := Ht.bind (p := do
            notifyListener c false none immEv i
            onState c .entry i immEv
            notifyListener c true none immEv i) (f := fun _ => do
          modify fun w => { w with ended := false }
          emit .cleared) (w := w1) (Q := fun _ w' => Tale c w'.log ∧ Begun c w'.log) (E := fun _ w' => Tale c w'.log ∧ Begun c w'.log)
          (Ht.mono (hp w1 hg) (fun _ w' ⟨us, h1, h2⟩ => by
            refine Ht.bind (Ht.modify (Ht.emit ?_))
            show Tale c (w'.log ++ [.cleared]) ∧ Begun c (w'.log ++ [.cleared])
            have hl : w'.log = w.log ++ .started i :: us := by rw [h1.2.1, hl1]; simp
            rw [hl]
            refine ⟨.other (tale us h1.2.2.1) fun _ h => (by cases h), ?_⟩
            rw [List.append_assoc]
            exact begun_start hn h1.2.2.1 (.inr rfl) (by rw [h2]; exact List.prefix_refl _) fun _ => .inl h2) fun _ w' ⟨us, h1, h2⟩ => by
            have hl : w'.log = w.log ++ .started i :: us := by rw [h1.2.1, hl1]; simp
            rw [hl]
            refine ⟨tale us h1.2.2.1, ?_⟩
            have := begun_start (c := c) (z := []) (i := i) hn h1.2.2.1 (.inl rfl) h2 fun h => by cases h
            rw [List.append_nil] at this
            exact this)
        simpa only [bind_assoc] using this

theorem runs_tells {xs : List Step} : ∀ {w w' : W}, runs c w xs = some w' → Tells c w → Tells c w' := by
  induction xs with
  | nil => intro w w' h h1; cases h; exact h1
  | cons x xs ih =>
    intro w w' h h1
    simp only [runs] at h
    split at h
    · cases h
    next w1 hs => exact ih h (step_tells hs h1)

theorem reach_tells {w : W} (h : Reach c w) : Tells c w := by
  obtain ⟨xs, h⟩ := h
  exact runs_tells h ⟨whole_init, .nil, fun a s r h => by cases a <;> cases h⟩

end Verif.Reconf
