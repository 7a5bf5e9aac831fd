import Verif.Proofs.Walk
/-
The code follows the protocol: event processing, fire, start, stop, user code.
-/

namespace Verif
open Prog Proto
open Spec (Item)

variable {env : Env} {t : Tid}

theorem isFinal_desc (s : SId) (m : MId) (b : St) :
    isFinal (env.strat s).table (env.mach m).res b = (desc env s m).final b := by
  unfold isFinal Spec.Desc.final desc
  simp only
  cases (env.strat s).table.row? (some b) with
  | none => rfl
  | some r =>
    simp only
    cases r.target (some immKey) with
    | none => rfl
    | some x => simp only [St.eqv, Reserved.endSt]; grind

/-- End of event processing. -/
def PostE (ctx : Ph → List Frame) (r : Except Exc Unit) (l : List Frame) : Prop :=
  match r with
  | .ok _ => (∃ c l', l = ctx (.run [] c l')) ∨ l = ctx (.lame none)
  | .error x => l = ctx (.thrown x) ∨ (x = .npe ∧ l = ctx (.lame none))

theorem Post.toE {ctx : Ph → List Frame} {c : Option St} {l : Option LId} {r : Except Exc Unit} {fs : List Frame}
    (h : Post ctx (.run [] c l) r fs) : PostE ctx r fs := by
  cases r with
  | ok u => rcases h with h | h
            · exact Or.inl ⟨c, l, h⟩
            · exact Or.inr h
  | error x => exact h

section
variable {m : MId} {ev : Ev} {ctx : Ph → List Frame} {S : Op → Prop}

theorem lame_seq {G : Ph} {p : Prog Unit} {f : Unit → Prog Unit}
    (h1 : (proto env).Ok t p (ctx (.lame none)) (Post ctx (.lame none)))
    (h2 : (proto env).Ok t (f ()) (ctx (.lame none)) (Post ctx G)) :
    (proto env).Ok t (p >>= f) (ctx (.lame none)) (Post ctx G) := ok_seq h1 h2 h2

theorem lame_deref {α : Type} {G : Ph} {v : Option α} {f : α → Prog Unit}
    (h : ∀ a, (proto env).Ok t (f a) (ctx (.lame none)) (Post ctx G)) :
    (proto env).Ok t (deref v >>= f) (ctx (.lame none)) (Post ctx G) := by
  rw [ok_bind]
  cases v with
  | none => exact Or.inr ⟨rfl, rfl⟩
  | some a => exact h a

theorem ok_deref_some {α : Type} {a : α} {f : α → Prog Unit} {l : List Frame} {Q : Except Exc Unit → List Frame → Prop}
    (h : (proto env).Ok t (f a) l Q) : (proto env).Ok t (deref (some a) >>= f) l Q := h

/-- Code that is off its plan. -/
macro "lame" : tactic => `(tactic| repeat first
  | exact ok_notify_lame ‹_› (Full.toBasic ‹_›)
  | exact ok_onState_lame ‹_› (Full.toBasic ‹_›)
  | exact ok_update_lame ‹_› ‹_›
  | exact ok_callback_lame ‹_› (Full.toBasic ‹_›) (by intros; simp) ‹_› rfl
  | exact Or.inr rfl
  | refine lame_deref fun _ => ?_
  | refine ok_getCur_lame ‹_› ‹_› fun _ => ?_
  | refine ok_ite (fun _ => ?_) (fun _ => ?_)
  | refine lame_seq ?_ ?_)

theorem pendOf_acts (d : Spec.Desc) (k : Kind) (s : St) (ev : Ev) (n : Nat) (pl : List Item) (h : pendOf pl = none) :
    pendOf (d.actions k s ev 0 n ++ pl) = none := by
  cases n with
  | zero => exact h
  | succ n => simp [Spec.Desc.actions, List.range'_succ, pendOf]

theorem pendOf_note (b : Bool) (c : Cb) (pl : List Item) (h : pendOf pl = none) :
    pendOf (Spec.note b c ++ pl) = none := by
  cases b with
  | false => exact h
  | true => rfl

theorem isThr_acts (d : Spec.Desc) (k : Kind) (s : St) (ev : Ev) (n : Nat) (pl : List Item) (h : isThr pl = false) :
    isThr (d.actions k s ev 0 n ++ pl) = false := by
  cases n with
  | zero => exact h
  | succ n => simp [Spec.Desc.actions, List.range'_succ, isThr]

theorem isThr_note (b : Bool) (c : Cb) (pl : List Item) (h : isThr pl = false) :
    isThr (Spec.note b c ++ pl) = false := by
  cases b with
  | false => exact h
  | true => rfl

theorem ok_execute_lame (hx : PhCtx env m ev ctx S) (hf : Full S m ev) {s : SId}
    (hs : ∀ ph, callable (ctx ph) → lPre env (.unmapped s ev m) (ctx ph)) {G : Ph} (v : Option St) :
    (proto env).Ok t (do
      let row ← deref ((env.strat s).table.row? v)
      match row.target (some ev.key) with
      | none => callback (.unmapped m ev) (.unmapped s ev m)
      | some to =>
        if (env.mach m).res.noopSt.eqv to then
          notifyListener env m false (← lift (.getCur m)) ev (some to)
          notifyListener env m true (← lift (.getCur m)) ev (some to)
        else
          let from_ ← lift (.getCur m)
          notifyListener env m false from_ ev (some to)
          onState env .exit (← deref (← lift (.getCur m))) ev m
          updateCurrentState env m to false
          onState env .entry (← deref (← lift (.getCur m))) ev m
          notifyListener env m true from_ ev (some to)
          if isFinal (env.strat s).table (env.mach m).res to then
            stop env m false) (ctx (.lame none)) (Post ctx G) := by
  refine lame_deref fun row => ?_
  cases row.target (some ev.key) <;> lame

theorem ok_seqE {G1 : Ph} {p : Prog Unit} {f : Unit → Prog Unit} {l : List Frame}
    (h1 : (proto env).Ok t p l (Post ctx G1)) (h2 : (proto env).Ok t (f ()) (ctx G1) (PostE ctx))
    (h3 : (proto env).Ok t (f ()) (ctx (.lame none)) (Post ctx (.run [] none none))) :
    (proto env).Ok t (p >>= f) l (PostE ctx) := by
  rw [ok_bind]
  refine h1.mono ?_
  intro r l h
  cases r with
  | ok u => rcases h with rfl | rfl
            · exact h2
            · exact h3.mono fun _ _ => Post.toE
  | error x => exact h

theorem lameE {p : Prog Unit} (h : (proto env).Ok t p (ctx (.lame none)) (Post ctx (.run [] none none))) :
    (proto env).Ok t p (ctx (.lame none)) (PostE ctx) := h.mono fun _ _ => Post.toE

theorem ok_execute (hx : PhCtx env m ev ctx S) (hf : Full S m ev) {s : SId}
    (hs : ∀ ph, callable (ctx ph) → lPre env (.unmapped s ev m) (ctx ph)) (cur : Option St) (lst : Option LId) :
    (proto env).Ok t (execute env s ev m) (ctx (.run ((desc env s m).plan lst.isSome cur ev) cur lst)) (PostE ctx) := by
  have hb := hf.toBasic
  unfold execute
  have hd : (desc env s m).m = m := rfl
  have ht : (desc env s m).table = (env.strat s).table := rfl
  -- no current state, or one without a row
  have bad : (desc env s m).plan lst.isSome cur ev = [.thr .npe] → (env.strat s).table.row? cur = none →
      (proto env).Ok t (execute env s ev m)
      (ctx (.run ((desc env s m).plan lst.isSome cur ev) cur lst)) (PostE ctx) := by
    intro h hr
    rw [h]
    refine ok_getCur_thr hx hf ?_ (fun v => lameE (ok_execute_lame hx hf hs v))
    rw [hr]
    exact Or.inl rfl
  cases cur with
  | none => exact bad (by simp [Spec.Desc.plan]) (by simp [Table.row?])
  | some a =>
    cases hr : (env.strat s).table.row? (some a) with
    | none => exact bad (by simp [Spec.Desc.plan, ht, hr]) hr
    | some row =>
      clear bad
      cases hk : row.target (some ev.key) with
      | none =>
        have hp : (desc env s m).plan lst.isSome (some a) ev = [.cb (.unmapped m ev)] := by
          simp [Spec.Desc.plan, ht, hr, hk, hd]
        rw [hp]
        refine ok_getCur hx hf rfl rfl ?_ (fun v => lameE (ok_execute_lame hx hf hs v))
        rw [hr]; refine ok_deref_some ?_; simp only [hk]
        exact (ok_callback hx hb (by intros; simp) hs (by rfl) (by rfl)).mono fun _ _ => Post.toE
      | some to =>
        by_cases hn : (env.mach m).res.noopSt.eqv to = true
        · have hn' : to.name = resNoop := by
            simp [St.eqv, Reserved.noopSt] at hn; exact hn.symm
          have hp : (desc env s m).plan lst.isSome (some a) ev =
              Spec.note lst.isSome (.begin m a ev to) ++ (Spec.note lst.isSome (.end_ m a ev to) ++ []) := by
            simp [Spec.Desc.plan, ht, hr, hk, hd, hn']
          rw [hp]
          have p1 : pendOf (Spec.note lst.isSome (.end_ m a ev to) ++ []) = none := pendOf_note _ _ _ rfl
          have p2 : pendOf (Spec.note lst.isSome (.begin m a ev to) ++ (Spec.note lst.isSome (.end_ m a ev to) ++ [])) = none :=
            pendOf_note _ _ _ p1
          have q1 := isThr_note lst.isSome (.end_ m a ev to) [] rfl
          have q2 := isThr_note lst.isSome (.begin m a ev to) _ q1
          refine ok_getCur hx hf p2 q2 ?_ (fun v => lameE (ok_execute_lame hx hf hs v))
          rw [hr]; refine ok_deref_some ?_; simp only [hk]
          refine ok_ite (c := (env.mach m).res.noopSt.eqv to = true) (fun _ => ?_) (fun h => absurd hn h)
          refine ok_getCur hx hf p2 q2 ?_ (fun v => lameE (by lame))
          refine ok_seqE (ok_notify hx hb p1 (isThr_note _ _ _ rfl) (complete := false)) ?_ (by lame)
          refine ok_getCur hx hf p1 q1 ?_ (fun v => lameE (by lame))
          exact (ok_notify hx hb rfl rfl (complete := true)).mono fun _ _ => Post.toE
        · have hn' : to.name ≠ resNoop := by
            intro h; apply hn; simp [St.eqv, Reserved.noopSt, h]
          have he : to.eqv (env.mach m).res.endSt = (to.name == resEnd) := by
            simp only [St.eqv, Reserved.endSt]
          have hp : (desc env s m).plan lst.isSome (some a) ev =
              Spec.note lst.isSome (.begin m a ev to) ++ ((desc env s m).actions .exit a ev 0 ((desc env s m).nacts .exit a.oid) ++
              (.upd to (to.eqv (env.mach m).res.endSt) :: .cur to ::
              ((desc env s m).actions .entry to ev 0 ((desc env s m).nacts .entry to.oid) ++
              (Spec.note lst.isSome (.end_ m a ev to) ++
              (if (desc env s m).final to then [.halt (env.mach m).res.endSt, .cur (env.mach m).res.endSt] else []))))) := by
            simp [Spec.Desc.plan, hr, hk, hn', he, desc]
          rw [hp]
          have p0 : pendOf (if (desc env s m).final to then [Item.halt (env.mach m).res.endSt, .cur (env.mach m).res.endSt] else []) = none := by
            split <;> rfl
          have p1 := pendOf_note lst.isSome (.end_ m a ev to) _ p0
          have p2 := pendOf_acts (desc env s m) .entry to ev ((desc env s m).nacts .entry to.oid) _ p1
          have p3 : pendOf (.upd to (to.eqv (env.mach m).res.endSt) :: .cur to ::
              ((desc env s m).actions .entry to ev 0 ((desc env s m).nacts .entry to.oid) ++
              (Spec.note lst.isSome (.end_ m a ev to) ++
              (if (desc env s m).final to then [.halt (env.mach m).res.endSt, .cur (env.mach m).res.endSt] else [])))) = none := rfl
          have p4 := pendOf_acts (desc env s m) .exit a ev ((desc env s m).nacts .exit a.oid) _ p3
          have p5 := pendOf_note lst.isSome (.begin m a ev to) _ p4
          have q0 : isThr (if (desc env s m).final to then [Item.halt (env.mach m).res.endSt, .cur (env.mach m).res.endSt] else []) = false := by
            split <;> rfl
          have q1 := isThr_note lst.isSome (.end_ m a ev to) _ q0
          have q2 := isThr_acts (desc env s m) .entry to ev ((desc env s m).nacts .entry to.oid) _ q1
          have q4 := isThr_acts (desc env s m) .exit a ev ((desc env s m).nacts .exit a.oid) _
            (show isThr (.upd to (to.eqv (env.mach m).res.endSt) :: .cur to ::
              ((desc env s m).actions .entry to ev 0 ((desc env s m).nacts .entry to.oid) ++
              (Spec.note lst.isSome (.end_ m a ev to) ++
              (if (desc env s m).final to then [.halt (env.mach m).res.endSt, .cur (env.mach m).res.endSt] else [])))) = false from rfl)
          have q5 := isThr_note lst.isSome (.begin m a ev to) _ q4
          have main : (∀ l, Post ctx (.run (if (desc env s m).final to then [.halt (env.mach m).res.endSt, .cur (env.mach m).res.endSt] else []) (some to) lst) (.ok ()) l →
              (proto env).Ok t (if isFinal (env.strat s).table (env.mach m).res to then stop env m false else pure ()) l (PostE ctx)) →
              (proto env).Ok t (execute env s ev m) (ctx (.run (Spec.note lst.isSome (.begin m a ev to) ++ ((desc env s m).actions .exit a ev 0 ((desc env s m).nacts .exit a.oid) ++
              (.upd to (to.eqv (env.mach m).res.endSt) :: .cur to ::
              ((desc env s m).actions .entry to ev 0 ((desc env s m).nacts .entry to.oid) ++
              (Spec.note lst.isSome (.end_ m a ev to) ++
              (if (desc env s m).final to then [.halt (env.mach m).res.endSt, .cur (env.mach m).res.endSt] else [])))))) (some a) lst)) (PostE ctx) := by
            intro hlast
            unfold execute
            refine ok_getCur hx hf p5 q5 ?_ (fun v => lameE (ok_execute_lame hx hf hs v))
            rw [hr]; refine ok_deref_some ?_; simp only [hk]
            refine ok_ite (c := (env.mach m).res.noopSt.eqv to = true) (fun h => absurd h hn) (fun _ => ?_)
            refine ok_getCur hx hf p5 q5 ?_ (fun v => lameE (by lame))
            refine ok_seqE (ok_notify hx hb p4 (isThr_acts _ _ _ _ _ _ rfl) (complete := false)) ?_ (by lame)
            refine ok_getCur hx hf p4 q4 (ok_deref_some ?_) (fun v => lameE (by lame))
            refine ok_seqE (ok_onState hx hb hd rfl) ?_ (by lame)
            refine ok_seqE (ok_update hx hf) ?_ (by lame)
            refine ok_getCur hx hf p2 q2 (ok_deref_some ?_) (fun v => lameE (by lame))
            refine ok_seqE (ok_onState hx hb hd rfl) ?_ (by lame)
            rw [ok_bind]
            refine (ok_notify hx hb p0 (by split <;> rfl) (complete := true)).mono ?_
            intro r l h
            cases r with
            | ok u => exact hlast _ h
            | error x => exact h
          have hfin := isFinal_desc (env := env) s m to
          by_cases hfn : (desc env s m).final to = true
          · refine main ?_
            intro l hl
            rw [hfin, if_pos hfn]
            rcases hl with rfl | rfl
            · rw [if_pos hfn]
              have h := ok_halt (t := t) hx hf (pl := []) (cur := some to) (lst := lst)
              refine h.mono ?_
              rintro r l (h | ⟨rfl, rfl⟩)
              · exact h.toE
              · exact Or.inl ⟨_, _, rfl⟩
            · exact lameE (ok_update_lame hx hf)
          · refine main ?_
            intro l hl
            rw [hfin, if_neg hfn]
            rw [if_neg hfn] at hl
            exact hl.toE

end
end Verif
