import Verif.Spec.Reconf
/-
Proofs for C82: a Hoare logic for the programs of Model/Reconf.
-/

namespace Verif.Reconf
open Spec.Reconf

variable {c : Code} {α β : Type}

/-- From `w`, `p` returns normally with `Q` or throws with `E`. -/
def Ht (p : M α) (w : W) (Q : α → W → Prop) (E : Exc → W → Prop) : Prop :=
  match p w with
  | .ok a w' => Q a w'
  | .error x w' => E x w'

theorem Ht.mono {p : M α} {w : W} {Q Q' : α → W → Prop} {E E' : Exc → W → Prop} (h : Ht p w Q E)
    (hq : ∀ a w, Q a w → Q' a w) (he : ∀ x w, E x w → E' x w) : Ht p w Q' E' := by
  unfold Ht at *
  split <;> simp_all

theorem Ht.bind {p : M α} {f : α → M β} {w : W} {Q : β → W → Prop} {E : Exc → W → Prop}
    (h : Ht p w (fun a w' => Ht (f a) w' Q E) E) : Ht (p >>= f) w Q E := by
  unfold Ht at *
  show match EStateM.bind p f w with | .ok a w' => Q a w' | .error x w' => E x w'
  unfold EStateM.bind
  cases hp : p w with
  | ok a w' => simpa [hp] using h
  | error x w' => simpa [hp] using h

theorem Ht.pure {a : α} {w : W} {Q : α → W → Prop} {E : Exc → W → Prop} (h : Q a w) : Ht (Pure.pure a : M α) w Q E := h

theorem Ht.throw {x : Exc} {w : W} {Q : α → W → Prop} {E : Exc → W → Prop} (h : E x w) : Ht (MonadExcept.throw x : M α) w Q E := h

theorem Ht.get {w : W} {Q : W → W → Prop} {E : Exc → W → Prop} (h : Q w w) : Ht (MonadState.get : M W) w Q E := h

theorem Ht.modify {f : W → W} {w : W} {Q : Unit → W → Prop} {E : Exc → W → Prop} (h : Q () (f w)) : Ht (_root_.modify f : M Unit) w Q E := h

theorem Ht.emit {e : Entry} {w : W} {Q : Unit → W → Prop} {E : Exc → W → Prop} (h : Q () { w with log := w.log ++ [e] }) :
    Ht (Reconf.emit e) w Q E := h

theorem Ht.tryCatch {p : M α} {f : Exc → M α} {w : W} {Q : α → W → Prop} {E : Exc → W → Prop}
    (h : Ht p w Q fun x w' => Ht (f x) w' Q E) : Ht (MonadExcept.tryCatch p f) w Q E := by
  unfold Ht at *
  show match EStateM.tryCatch p f w with | .ok a w' => Q a w' | .error x w' => E x w'
  unfold EStateM.tryCatch
  cases hp : p w with
  | ok a w' => simpa [hp] using h
  | error x w' => rw [hp] at h; exact h

/-- The memory is what the history tells. -/
structure Good (c : Code) (w : W) : Prop where
  cfg : w.cfg = config c.res w.log
  cur : w.cur = stateOf w.log
  ended : w.ended = endedOf w.log

theorem calls_append (a b : List Entry) : calls (a ++ b) = calls a ++ calls b := by simp [calls]

theorem config_append (rs : Reserved) (a b : List Entry) : config rs (a ++ b) = cfgRun rs (calls b) (config rs a) := by
  simp [config, calls_append, cfgRun]

theorem stateOf_snoc (a : List Entry) (e : Entry) : stateOf (a ++ [e]) = match e with
    | .started x => some x
    | .cur x _ => some x
    | _ => stateOf a := by
  unfold stateOf
  rw [List.foldl_append]
  rfl

theorem endedOf_snoc (a : List Entry) (e : Entry) : endedOf (a ++ [e]) = match e with
    | .cur x _ => x.name == "_END_"
    | .cleared => false
    | _ => endedOf a := by
  unfold endedOf
  rw [List.foldl_append]
  rfl

theorem good_init : Good c .init := ⟨rfl, rfl, rfl⟩

/-- Entries that tell nothing about the memory. -/
def mute : Entry → Bool
  | .cfg .. | .started _ | .cleared | .cur .. => false
  | _ => true

theorem Good.mute {w : W} {e : Entry} (h : Good c w) (he : mute e = true) (q : List Ev) (b : Bool) :
    Good c { w with log := w.log ++ [e], queue := q, started := b } := by
  refine ⟨?_, ?_, ?_⟩
  · show w.cfg = _
    rw [h.cfg, config_append]
    cases e <;> first | (cases he; done) | rfl
  · show w.cur = _
    rw [h.cur, stateOf_snoc]
    cases e <;> first | (cases he; done) | rfl
  · show w.ended = _
    rw [h.ended, endedOf_snoc]
    cases e <;> first | (cases he; done) | rfl

/-- `w'` comes from `w` by user code. -/
def Ext (c : Code) (w : W) (w' : W) (us : List Entry) : Prop := Good c w' ∧ w'.log = w.log ++ us ∧ Users us

theorem users_nil : Users [] := fun _ h => by cases h

theorem users_append {a b : List Entry} (ha : Users a) (hb : Users b) : Users (a ++ b) := fun e h =>
  (List.mem_append.1 h).elim (ha e) (hb e)

theorem users_one {e : Entry} (h : user e = true) : Users [e] := fun x hx => by
  rw [List.mem_singleton.1 hx]; exact h

theorem Ext.refl {w : W} (h : Good c w) : Ext c w w [] := ⟨h, by simp, users_nil⟩

theorem Ext.trans {w w' w'' : W} {a b : List Entry} (h : Ext c w w' a) (h' : Ext c w' w'' b) : Ext c w w'' (a ++ b) :=
  ⟨h'.1, by rw [h'.2.1, h.2.1, List.append_assoc], users_append h.2.2 h'.2.2⟩

/-- User code, calls of it, and whatever else is done by entries of users only. `bad`: whether it may record an exception. -/
def UserOk (c : Code) (p : M α) : Prop :=
  ∀ w, Good c w → Ht p w (fun _ w' => ∃ us, Ext c w w' us ∧ failed us = false) (fun _ w' => ∃ us, Ext c w w' us ∧ failed us = false)

theorem failed_append (a b : List Entry) : failed (a ++ b) = (failed a || failed b) := by simp [failed]

theorem UserOk.bind {p : M α} {f : α → M β} (hp : UserOk c p) (hf : ∀ a, UserOk c (f a)) : UserOk c (p >>= f) := by
  intro w hw
  refine Ht.bind (Ht.mono (hp w hw) ?_ fun _ _ h => h)
  rintro a w1 ⟨us, h1, h2⟩
  refine Ht.mono (hf a w1 h1.1) ?_ ?_
  all_goals
    rintro _ w2 ⟨vs, h3, h4⟩
    exact ⟨us ++ vs, h1.trans h3, by rw [failed_append, h2, h4]; rfl⟩

theorem UserOk.pure (a : α) : UserOk c (Pure.pure a : M α) := fun _ hw => ⟨[], .refl hw, rfl⟩
theorem UserOk.throw (x : Exc) : UserOk c (MonadExcept.throw x : M α) := fun _ hw => ⟨[], .refl hw, rfl⟩
theorem UserOk.get : UserOk c (MonadState.get : M W) := fun _ hw => ⟨[], .refl hw, rfl⟩

theorem UserOk.emit {e : Entry} (h : user e = true) (hm : mute e = true) (hf : failed [e] = false) : UserOk c (Reconf.emit e) := fun w hw =>
  ⟨[e], ⟨hw.mute hm w.queue w.started, rfl, users_one h⟩, hf⟩

theorem eqv_end (s : St) (rs : Reserved) : s.eqv rs.endSt = (s.name == "_END_") := rfl

theorem update_ht {w : W} (s : St) (u : Bool) (hw : Good c w) {Q : Unit → W → Prop} {E : Exc → W → Prop}
    (h1 : w.ended = true → Q () w)
    (h2 : w.ended = false → ∀ w', Good c w' → w'.log = w.log ++ [.cur s u] → w'.cur = some s → Q () w') :
    Ht (updateCurrentState c s u) w Q E := by
  unfold updateCurrentState
  refine Ht.bind (Ht.get ?_)
  cases he : w.ended with
  | true => exact h1 he
  | false =>
    refine Ht.bind (Ht.modify (Ht.emit ?_))
    refine h2 he _ ⟨?_, ?_, ?_⟩ rfl rfl
    · show w.cfg = _
      rw [hw.cfg]
      simp [config_append, calls, cfgRun]
    · rw [stateOf_snoc]
    · rw [endedOf_snoc]; rfl

theorem stop_user : UserOk c (stop c true) := fun _ hw =>
  update_ht _ _ hw (fun _ => ⟨[], .refl hw, rfl⟩) fun _ _ h1 h2 _ => ⟨_, ⟨h1, h2, users_one rfl⟩, rfl⟩

theorem call_user (u : RCall) : UserOk c (u.run c) := by
  cases u with
  | cfg k =>
    intro w hw
    refine Ht.bind (Ht.get (Ht.bind (Ht.modify (Ht.bind (Ht.emit (Ht.pure ⟨[.cfg k (k.throws c.res w.cfg)], ⟨⟨?_, ?_, ?_⟩, rfl, users_one rfl⟩, rfl⟩))))))
    · show k.after c.res w.cfg = _
      rw [hw.cfg, config_append]
      rfl
    · show w.cur = _
      rw [hw.cur, stateOf_snoc]
    · show w.ended = _
      rw [hw.ended, endedOf_snoc]
  | fire ev =>
    refine UserOk.bind .get fun w => ?_
    split
    · exact .emit rfl rfl rfl
    · intro w hw
      exact Ht.bind (Ht.modify (Ht.emit ⟨[.queued ev], ⟨hw.mute rfl _ w.started, rfl, users_one rfl⟩, rfl⟩))
  | stop => exact stop_user
  | isStarted => exact .bind .get fun _ => .pure _
  | isEnded => exact .bind .get fun _ => .pure _
  | getCurrentState => exact .bind .get fun _ => .pure _
  | note n => exact .emit rfl rfl rfl

theorem prog_user (p : RProg) : UserOk c (p.run c) := by
  induction p with
  | done => exact .pure _
  | thr x => exact .throw x
  | call u k ih => exact .bind (call_user u) fun r => ih r

theorem callback_user (k : Cb) (p : RProg) (h : failed [.cb k] = false) : UserOk c (callback c k p) :=
  .bind (.emit rfl rfl h) fun _ => prog_user p

theorem notify_user (complete : Bool) (f : Option St) (ev : Ev) (t : St) : UserOk c (notifyListener c complete f ev t) := by
  unfold notifyListener
  split
  · exact .pure _
  · refine callback_user _ _ ?_
    split <;> rfl

theorem runActs_user (k : Kind) (oid : Nat) (ev : Ev) (as : List (Ev → RProg)) : ∀ i, UserOk c (runActs c k oid ev i as) := by
  induction as with
  | nil => exact fun _ => .pure _
  | cons a as ih => exact fun i => .bind (callback_user _ _ rfl) fun _ => ih _

theorem onState_user (k : Kind) (s : St) (ev : Ev) : UserOk c (onState c k s ev) := runActs_user _ _ _ _ _

theorem deref_user (o : Option α) : UserOk c (deref o) := by
  cases o
  · exact .throw _
  · exact .pure _

theorem isFinal_eq (cfg : CfgSt) (rs : Reserved) (to : St) : isFinal cfg.table rs to = final cfg to := by
  unfold isFinal final Table.row?
  simp only
  cases AMap.get? cfg.table to.name with
  | none => rfl
  | some r =>
    simp only [Row.target]
    show (match (AMap.get? r.ents (some immKey)).join with | none => false | some x => rs.endSt.eqv x) = _
    have : (some immKey : Option EvKey) = some ⟨0, "_immediate_"⟩ := rfl
    rw [this]
    cases (AMap.get? r.ents (some ⟨0, "_immediate_"⟩)).join with
    | none => rfl
    | some x => show ("_END_" == x.name) = (x.name == "_END_"); exact Bool.beq_comm

theorem endedOf_users {us : List Entry} : ∀ {a : List Entry}, endedOf a = true → Users us → endedOf (a ++ us) = true := by
  induction us with
  | nil => intro a h _; simpa using h
  | cons e us ih =>
    intro a h hu
    have : a ++ e :: us = a ++ [e] ++ us := by simp
    rw [this]
    refine ih ?_ fun x hx => hu x (by simp [hx])
    have he := hu e (by simp)
    rw [endedOf_snoc]
    cases e <;> first
      | exact h
      | (cases he; done)
      | skip
    simp only [user, Bool.and_eq_true] at he
    exact he.2

/-- The part of a transition after the state change. -/
def rest (c : Code) (from_ : Option St) (ev : Ev) (to : St) : M Unit := do
  onState c .entry (← deref (← get).cur) ev
  notifyListener c true from_ ev to

theorem rest_user (f : Option St) (ev : Ev) (to : St) : UserOk c (rest c f ev to) :=
  .bind .get fun _ => .bind (deref_user _) fun _ => .bind (onState_user _ _ _) fun _ => notify_user _ _ _ _

/-- The end of a transition. -/
def finish (c : Code) (to : St) : M Unit := do
  if isFinal (← get).cfg.table c.res to then
    stop c false

theorem rest_bind (f : Option St) (ev : Ev) (to : St) (k : Unit → M Unit) :
    (rest c f ev to >>= k) = (do
      onState c .entry (← deref (← get).cur) ev
      notifyListener c true f ev to
      k ()) := by
  unfold rest
  simp only [bind_assoc]

/-- What `execute` does if it returns normally, and if it throws. -/
theorem execute_ht {w : W} (hw : Good c w) (ev : Ev) (he : endedOf w.log = false) :
    Ht (execute c ev) w (fun _ w' => Good c w' ∧ ∃ mid, w'.log = w.log ++ mid ∧ Handled c.res w.log ev mid)
      (fun _ w' => Good c w' ∧ ∃ mid, w'.log = w.log ++ mid ∧ ∀ vs, Users vs → failed vs = true → Handled c.res w.log ev (mid ++ vs)) := by
  unfold execute
  refine Ht.bind (Ht.get (Ht.bind ?_))
  have hl : lead (config c.res w.log) (stateOf w.log) ev = (w.cfg.table.row? w.cur).map fun r => r.target (some ev.key) := by
    rw [← hw.cfg, ← hw.cur]
    unfold lead Table.row?
    cases w.cur <;> rfl
  cases hr : w.cfg.table.row? w.cur with
  | none =>
    rw [hr] at hl
    exact ⟨hw, [], by simp, fun _ h1 h2 => .lost he hl h1 h2⟩
  | some row =>
    rw [hr] at hl
    refine Ht.pure ?_
    simp only [Option.map_some] at hl
    cases ht : row.target (some ev.key) with
    | none =>
      rw [ht] at hl
      refine Ht.bind (Ht.emit (Ht.mono (prog_user _ _ (hw.mute rfl w.queue w.started)) ?_ ?_))
      · rintro _ w' ⟨us, ⟨h1, h2, h3⟩, -⟩
        exact ⟨h1, _, by rw [h2]; simp, .unmapped he hl h3⟩
      · rintro _ w' ⟨us, ⟨h1, h2, h3⟩, -⟩
        exact ⟨h1, .cb (.unmapped 0 ev) :: us, by rw [h2]; simp, fun vs h4 _ => .unmapped he hl (users_append h3 h4)⟩
    | some to =>
      rw [ht] at hl
      simp only
      split
      next hn =>
        have hn : to.name = "_NOOP_" := by
          have : ("_NOOP_" == to.name) = true := hn
          exact (beq_iff_eq.1 this).symm
        have hu : UserOk c (do notifyListener c false (← get).cur ev to; notifyListener c true (← get).cur ev to) :=
          .bind .get fun _ => .bind (notify_user _ _ _ _) fun _ => .bind .get fun _ => notify_user _ _ _ _
        refine Ht.mono (hu w hw) ?_ ?_
        · rintro _ w' ⟨us, ⟨h1, h2, h3⟩, -⟩
          exact ⟨h1, _, h2, .stays he hl hn h3⟩
        · rintro _ w' ⟨us, ⟨h1, h2, h3⟩, -⟩
          exact ⟨h1, _, h2, fun vs h4 _ => .stays he hl hn (users_append h3 h4)⟩
      next hn =>
        have hn : to.name ≠ "_NOOP_" := by
          intro h
          refine hn ?_
          show ("_NOOP_" == to.name) = true
          rw [h]; rfl
        unfold transition
        refine Ht.bind (Ht.get (Ht.bind (Ht.mono (notify_user _ _ _ _ w hw) ?_ ?_)))
        rotate_left
        · rintro _ w' ⟨us, ⟨h1, h2, h3⟩, h4⟩
          exact ⟨h1, _, h2, fun vs h5 h6 => .prevented he hl hn (users_append h3 h5) (.inl (by rw [failed_append, h6, Bool.or_true]))⟩
        rintro _ w1 ⟨us1, h1, f1⟩
        have hu : UserOk c (do onState c .exit (← deref (← get).cur) ev) := .bind .get fun _ => .bind (deref_user _) fun _ => onState_user _ _ _
        refine Ht.bind (Ht.get (Ht.bind (Ht.mono (deref_user _ w1 h1.1) ?_ ?_)))
        rotate_left
        · rintro _ w2 ⟨us2, h2, f2⟩
          obtain ⟨g1, g2, g3⟩ := h1.trans h2
          exact ⟨g1, _, g2, fun vs h5 h6 => .prevented he hl hn (users_append g3 h5) (.inl (by rw [failed_append, h6, Bool.or_true]))⟩
        rintro s w2 ⟨us2, h2, f2⟩
        have h2 := h1.trans h2
        refine Ht.bind (Ht.mono (onState_user _ _ _ w2 h2.1) ?_ ?_)
        rotate_left
        · rintro _ w3 ⟨us3, h3, f3⟩
          obtain ⟨g1, g2, g3⟩ := h2.trans h3
          exact ⟨g1, _, g2, fun vs h5 h6 => .prevented he hl hn (users_append g3 h5) (.inl (by rw [failed_append, h6, Bool.or_true]))⟩
        rintro _ w3 ⟨us3, h3, f3⟩
        have h3 := h2.trans h3
        generalize hus : us1 ++ us2 ++ us3 = us at h3
        refine Ht.bind (update_ht to false h3.1 ?_ ?_)
        · -- the machine has been stopped meanwhile
          intro hend
          rw [h3.1.ended, h3.2.1] at hend
          refine cast (congrArg (fun p => Ht p w3 _ _) (rest_bind (c := c) w.cur ev to fun _ => finish c to)) ?_
          refine Ht.bind (Ht.mono (rest_user _ _ _ w3 h3.1) ?_ ?_)
          · rintro _ w4 ⟨us4, h4, -⟩
            obtain ⟨g1, g2, g3⟩ := h3.trans h4
            have hend4 : endedOf (w.log ++ (us ++ us4)) = true := by
              rw [← List.append_assoc]; exact endedOf_users hend h4.2.2
            have done : Good c w4 ∧ ∃ mid, w4.log = w.log ++ mid ∧ Handled c.res w.log ev mid :=
              ⟨g1, _, g2, .prevented he hl hn g3 (.inr hend4)⟩
            refine Ht.bind (Ht.get ?_)
            split
            · refine update_ht _ _ g1 (fun _ => done) fun h => ?_
              rw [g1.ended, g2, hend4] at h
              cases h
            · exact done
          · rintro _ w4 ⟨us4, h4, -⟩
            obtain ⟨g1, g2, g3⟩ := h3.trans h4
            exact ⟨g1, _, g2, fun vs h5 h6 => .prevented he hl hn (users_append g3 h5) (.inl (by rw [failed_append, h6, Bool.or_true]))⟩
        · intro hend w4 hg4 hl4 hc4
          rw [h3.1.ended, h3.2.1] at hend
          rw [h3.2.1] at hl4
          refine cast (congrArg (fun p => Ht p w4 _ _) (rest_bind (c := c) w.cur ev to fun _ => finish c to)) ?_
          refine Ht.bind (Ht.mono (rest_user _ _ _ w4 hg4) ?_ ?_)
          · rintro _ w5 ⟨vs, ⟨g1, g2, g3⟩, f5⟩
            have hl5 : w5.log = w.log ++ us ++ .cur to false :: vs := by rw [g2, hl4]; simp
            refine Ht.bind (Ht.get ?_)
            rw [isFinal_eq]
            split
            next hf =>
              rw [g1.cfg, hl5] at hf
              refine update_ht _ _ g1 (fun h => ?_) fun h w6 k1 k2 _ => ?_
              · rw [g1.ended, hl5] at h
                exact ⟨g1, us ++ .cur to false :: vs, by rw [hl5]; simp, .moved he hl hn h3.2.2 g3 hend (.inr (.inl h))⟩
              · rw [g1.ended, hl5] at h
                exact ⟨k1, us ++ .cur to false :: (vs ++ [.cur c.res.endSt false]), by rw [k2, hl5]; simp,
                  .final he hl hn h3.2.2 g3 hend h f5 hf rfl⟩
            next hf =>
              rw [g1.cfg, hl5] at hf
              exact ⟨g1, us ++ .cur to false :: vs, by rw [hl5]; simp,
                .moved he hl hn h3.2.2 g3 hend (.inr (.inr (by simpa using hf)))⟩
          · rintro _ w5 ⟨vs, ⟨g1, g2, g3⟩, f5⟩
            refine ⟨g1, us ++ .cur to false :: vs, by rw [g2, hl4]; simp, fun vs' h5 h6 => ?_⟩
            have : us ++ .cur to false :: vs ++ vs' = us ++ .cur to false :: (vs ++ vs') := by simp
            rw [this]
            exact .moved he hl hn h3.2.2 (users_append g3 h5) hend (.inl (by rw [failed_append, h6, Bool.or_true]))

theorem report_ht {w : W} (hw : Good c w) (ev : Ev) (x : Exc) :
    Ht (report c ev x) w (fun _ w' => ∃ us, Ext c w w' us ∧ failed us = true) (fun _ _ => False) := by
  unfold report
  split
  · refine Ht.tryCatch (Ht.bind (Ht.emit (Ht.mono (prog_user _ _ (hw.mute rfl w.queue w.started)) ?_ ?_)))
    · rintro _ w' ⟨us, ⟨h1, h2, h3⟩, -⟩
      exact ⟨.cb (.flowEx 0 ev x) :: us, ⟨h1, by rw [h2, List.append_assoc]; rfl, users_append (users_one rfl) h3⟩, rfl⟩
    · rintro y w' ⟨us, ⟨h1, h2, h3⟩, -⟩
      refine Ht.emit ⟨.cb (.flowEx 0 ev x) :: us ++ [.uncaught y], ⟨h1.mute rfl w'.queue w'.started, ?_,
        users_append (users_append (users_one rfl) h3) (users_one rfl)⟩, ?_⟩
      · show w'.log ++ _ = _
        rw [h2]; simp
      · simp [failed]
  · exact Ht.emit ⟨[.uncaught x], ⟨hw.mute rfl w.queue w.started, rfl, users_one rfl⟩, rfl⟩

theorem process_ht {w : W} (hw : Good c w) (ev : Ev) :
    Ht (processOne c ev) w (fun _ w' => Good c w' ∧ ∃ mid, w'.log = w.log ++ .taken ev :: (mid ++ [.done ev]) ∧
      Handled c.res (w.log ++ [.taken ev]) ev mid) (fun _ _ => False) := by
  unfold processOne
  refine Ht.bind (Ht.emit (Ht.bind (Ht.get ?_)))
  have hg : Good c { w with log := w.log ++ [.taken ev] } := hw.mute rfl w.queue w.started
  generalize hw1 : ({ w with log := w.log ++ [.taken ev] } : W) = w1 at hg
  have hl1 : w1.log = w.log ++ [.taken ev] := by rw [← hw1]
  have fin : ∀ w' : W, (Good c w' ∧ ∃ mid, w'.log = w1.log ++ mid ∧ Handled c.res w1.log ev mid) →
      Ht (emit (.done ev)) w' (fun _ w' => Good c w' ∧ ∃ mid, w'.log = w.log ++ .taken ev :: (mid ++ [.done ev]) ∧
        Handled c.res (w.log ++ [.taken ev]) ev mid) (fun _ _ => False) := by
    rintro w' ⟨h1, mid, h2, h3⟩
    refine Ht.emit ⟨h1.mute rfl w'.queue w'.started, mid, ?_, by rw [← hl1]; exact h3⟩
    show w'.log ++ _ = _
    rw [h2, hl1]; simp
  cases he : w1.ended with
  | true =>
    rw [hg.ended] at he
    exact fin w1 ⟨hg, [], by simp, .ended he⟩
  | false =>
    rw [hg.ended] at he
    refine Ht.bind (Ht.tryCatch (Ht.mono (execute_ht hg ev he) (fun _ w' h => fin w' h) ?_))
    rintro x w' ⟨h1, mid, h2, h3⟩
    refine Ht.mono (report_ht h1 ev x) ?_ fun _ _ h => h.elim
    rintro _ w2 ⟨us, ⟨g1, g2, g3⟩, g4⟩
    exact fin w2 ⟨g1, mid ++ us, by rw [g2, h2, List.append_assoc], h3 us g3 g4⟩

theorem story_users {rs : Reserved} {us : List Entry} : ∀ {a : List Entry}, Story rs a → Users us → Story rs (a ++ us) := by
  induction us with
  | nil => intro a h _; simpa using h
  | cons e us ih =>
    intro a h hu
    have : a ++ e :: us = a ++ [e] ++ us := by simp
    rw [this]
    exact ih (.user h (hu e (by simp))) fun x hx => hu x (by simp [hx])

theorem after_ht {p : M α} {w : W} {P : W → Prop} (h : Ht p w (fun _ w' => P w') fun _ w' => P w') : P (after p w) := by
  unfold Ht at h
  unfold after
  split <;> simp_all

theorem ext_story {w w' : W} {us : List Entry} (h : Ext c w w' us) (hs : Story c.res w.log) : Good c w' ∧ Story c.res w'.log :=
  ⟨h.1, by rw [h.2.1]; exact story_users hs h.2.2⟩

theorem good_started {w : W} (hw : Good c w) (s : St) :
    Good c { w with started := true, cur := some s, log := w.log ++ [.started s] } := by
  refine ⟨?_, ?_, ?_⟩
  · show w.cfg = _
    rw [hw.cfg]
    simp [config_append, calls, cfgRun]
  · rw [stateOf_snoc]
  · show w.ended = _
    rw [hw.ended, endedOf_snoc]

theorem good_cleared {w : W} (hw : Good c w) : Good c { w with ended := false, log := w.log ++ [.cleared] } := by
  refine ⟨?_, ?_, ?_⟩
  · show w.cfg = _
    rw [hw.cfg]
    simp [config_append, calls, cfgRun]
  · show w.cur = _
    rw [hw.cur, stateOf_snoc]
  · rw [endedOf_snoc]

theorem step_story {w w' : W} {x : Step} (hs : step c w x = some w') (hw : Good c w) (h : Story c.res w.log) :
    Good c w' ∧ Story c.res w'.log := by
  have usr : ∀ {p : M Unit}, UserOk c p → Good c (after p w) ∧ Story c.res (after p w).log := by
    intro p hp
    exact after_ht (P := fun w' => Good c w' ∧ Story c.res w'.log)
      (Ht.mono (hp w hw) (fun _ _ ⟨_, h1, _⟩ => ext_story h1 h) fun _ _ ⟨_, h1, _⟩ => ext_story h1 h)
  cases x with
  | code p => cases hs; exact usr (prog_user p)
  | process =>
    simp only [step] at hs
    split at hs
    · cases hs
    next ev q hq =>
      cases hs
      refine after_ht (P := fun w' => Good c w' ∧ Story c.res w'.log) (Ht.mono (process_ht (w := { w with queue := q }) ⟨hw.cfg, hw.cur, hw.ended⟩ ev) ?_ fun _ _ h => h.elim)
      rintro _ w' ⟨h1, mid, h2, h3⟩
      exact ⟨h1, by rw [h2]; exact .event h h3⟩
  | startInState s =>
    cases hs
    refine after_ht (P := fun w' => Good c w' ∧ Story c.res w'.log) (Ht.bind (Ht.get ?_))
    split
    · split
      · exact ⟨hw, h⟩
      next s _ _ =>
        have hg := good_cleared (good_started hw s)
        exact Ht.bind (Ht.modify (Ht.bind (Ht.emit (Ht.bind (Ht.modify (Ht.emit ⟨hg, .cleared (.started h)⟩))))))
    · exact ⟨hw, h⟩
  | start =>
    cases hs
    refine after_ht (P := fun w' => Good c w' ∧ Story c.res w'.log) (Ht.bind (Ht.get ?_))
    split
    · exact ⟨hw, h⟩
    · exact ⟨hw, h⟩
    next i _ _ =>
      split
      · exact ⟨hw, h⟩
      · refine Ht.bind (Ht.modify (Ht.bind (Ht.emit ?_)))
        have hg := good_started hw i
        generalize hw1 : ({ w with started := true, cur := some i, log := w.log ++ [.started i] } : W) = w1 at hg
        have hs1 : Story c.res w1.log := by rw [← hw1]; exact .started h
        have hu : UserOk c (do
            notifyListener c false none immEv i
            onState c .entry i immEv
            notifyListener c true none immEv i) := .bind (notify_user _ _ _ _) fun _ => .bind (onState_user _ _ _) fun _ => notify_user _ _ _ _
        have := Ht.bind (p := do
            notifyListener c false none immEv i
            onState c .entry i immEv
            notifyListener c true none immEv i) (f := fun _ => do
          modify fun w => { w with ended := false }
          emit .cleared) (w := w1) (Q := fun _ w' => Good c w' ∧ Story c.res w'.log) (E := fun _ w' => Good c w' ∧ Story c.res w'.log)
          (Ht.mono (hu w1 hg) (fun _ w' ⟨_, h1, _⟩ => by
            obtain ⟨g1, g2⟩ := ext_story h1 hs1
            have hg := good_cleared g1
            exact Ht.bind (Ht.modify (Ht.emit ⟨hg, .cleared g2⟩))) fun _ _ ⟨_, h1, _⟩ => ext_story h1 hs1)
        simpa only [bind_assoc] using this

theorem runs_story {xs : List Step} : ∀ {w w' : W}, runs c w xs = some w' → Good c w → Story c.res w.log → Good c w' ∧ Story c.res w'.log := by
  induction xs with
  | nil => intro w w' h h1 h2; cases h; exact ⟨h1, h2⟩
  | cons x xs ih =>
    intro w w' h h1 h2
    simp only [runs] at h
    split at h
    · cases h
    next w1 hs =>
      obtain ⟨g1, g2⟩ := step_story hs h1 h2
      exact ih h g1 g2

end Verif.Reconf
