import Verif.Spec.Undup
import Verif.Proofs.Checks
import Verif.Proofs.Stale
import Verif.Props.Queue
/-
C105. The program without the check waits while the other one checks.
-/

namespace Verif.Undup
open Verif.Spec.Undup Prog

/-- The first program does what the second does, but it may look at the queue and at pairs in between; or it is about to drop an event. -/
inductive L (env : Env) (D : SId → Bool) {α : Type} : Prog α → Prog α → Prop
  | ret (a : α) : L env D (.ret a) (.ret a)
  | thr (x : Exc) : L env D (.thr x) (.thr x)
  | op (o : Op) {k k' : o.Res → Prog α} (hk : ∀ r, L env D (k r) (k' r)) : L env D (.op o k) (.op o k')
  | call (c : Call) {k k' : Except Exc Unit → Prog α} (hk : ∀ r, L env D (k r) (k' r)) : L env D (.call c k) (.call c k')
  | snap (q : QId) {k : List PairId → Prog α} {o : Op} {k' : o.Res → Prog α} (hk : ∀ ps, L env D (k ps) (.op o k')) : L env D (.op (.qSnap q) k) (.op o k')
  | read (p : PairId) {k : Option (Ev × MId) → Prog α} {o : Op} {k' : o.Res → Prog α} (hk : ∀ x, L env D (k (some x)) (.op o k')) : L env D (.op (.getPair p) k) (.op o k')
  | drop (m : MId) (hm : D (env.mach m).strat = true) (ev : Ev) (k : Unit → Prog α) (p : Prog α) : L env D (.op (.emit (.dropped m ev)) k) p

variable {α β : Type} {env : Env} {D : SId → Bool}

theorem refl (p : Prog α) : L env D p p := by
  induction p with
  | ret a => exact .ret a
  | thr x => exact .thr x
  | op o k ih => exact .op o ih
  | call c k ih => exact .call c ih

theorem handle {p p' : Prog α} (h : L env D p p') {f f' : Except Exc α → Prog β} (hf : ∀ r, L env D (f r) (f' r)) : L env D (p.handle f) (p'.handle f') := by
  induction h with
  | ret a => exact hf _
  | thr x => exact hf _
  | op o _ ih => exact .op o ih
  | call c _ ih => exact .call c ih
  | snap q _ ih => exact .snap q ih
  | read p _ ih => exact .read p ih
  | drop m hm ev k p => exact .drop m hm ev _ _

theorem bind {p p' : Prog α} (h : L env D p p') {f f' : α → Prog β} (hf : ∀ r, L env D (f r) (f' r)) : L env D (p.bind f) (p'.bind f') :=
  handle h fun r => by
    cases r
    · exact .thr _
    · exact hf _

/-- The scan. -/
theorem l_scan {m : MId} (hm : D (env.mach m).strat = true) (ev ev' : Ev) {p : Prog Unit} {o : Op} {k' : o.Res → Prog Unit} (hp : L env D p (.op o k')) (ps : List PairId) :
    L env D ((anyEqual ev ps).bind fun b => if b then lift (.emit (.dropped m ev')) else p) (.op o k') := by
  induction ps with
  | nil => exact hp
  | cons a ps ih =>
    refine .read a fun x => ?_
    obtain ⟨en, m'⟩ := x
    show L env D ((if en.eqv ev = true then ret true else anyEqual ev ps).bind _) _
    split
    · exact .drop m hm ev' _ _
    · exact ih

theorem l_processEvent (s : SId) (ev : Ev) (m : MId) (hs : s = (env.mach m).strat) : L env D (processEvent env s ev m) (processEvent (undup env D) s ev m) := by
  have hd : processEventDefault (undup env D) s ev m = processEventDefault env s ev m := rfl
  unfold processEvent
  rw [hd]
  show L env D (if (env.strat s).dropDup = true then _ else _) (if ((env.strat s).dropDup && !D s) = true then _ else _)
  cases hdd : (env.strat s).dropDup with
  | false => exact refl _
  | true =>
    cases hD : D s with
    | false => exact refl _
    | true =>
      subst hs
      exact .snap _ fun ps => l_scan hD ev ev (refl _) ps

theorem l_fire (m : MId) (ev : Ev) : L env D (fire env m ev) (fire (undup env D) m ev) := by
  have jp : ∀ e : Bool, L env D (if e then callback (.flowAfter m ev) (.flowAfter (env.mach m).strat ev m) else processEvent env (env.mach m).strat ev m)
      (if e then callback (.flowAfter m ev) (.flowAfter (env.mach m).strat ev m) else processEvent (undup env D) (env.mach m).strat ev m) := fun e => by
    cases e
    · exact l_processEvent _ ev m rfl
    · exact refl _
  refine .op (.getStarted m) fun r => ?_
  cases r
  · exact refl _
  · refine .op (.getStarted m) fun r => ?_
    cases r
    · exact jp false
    · exact .op (.getEnded m) jp

theorem l_denote (u : UProg) : L env D (u.denote env) (u.denote (undup env D)) := by
  induction u with
  | done => exact refl _
  | thr x => exact refl _
  | call u k ih =>
    refine bind ?_ ih
    cases u with
    | fire m ev => exact bind (refl _) fun _ => bind (handle (l_fire m ev) fun _ => refl _) fun _ => refl _
    | _ => exact refl _

theorem l_body (c : Call) : L env D (body env c) (body (undup env D) c) := by
  cases c with
  | action k o i ev m =>
    show L env D (match (env.acts k o)[i]? with | some a => (a ev m).denote env | none => .ret ()) (match (env.acts k o)[i]? with | some a => (a ev m).denote (undup env D) | none => .ret ())
    cases (env.acts k o)[i]? with
    | none => exact refl _
    | some a => exact l_denote _
  | drain s m => exact refl _
  | _ => exact l_denote _

/-- Threads. -/
inductive TL (env : Env) (D : SId → Bool) : Option (Prog Unit) → Option (Prog Unit) → Prop
  | none : TL env D none none
  | some {p p' : Prog Unit} (h : L env D p p') : TL env D (some p) (some p')

structure Sim (env : Env) (D : SId → Bool) (c d : Conf) : Prop where
  w : d.w = c.w
  thr : ∀ t, TL env D (c.thr t) (d.thr t)

theorem sim_set {w : World} {f g : Tid → Option (Prog Unit)} (h : ∀ t, TL env D (f t) (g t)) (t : Tid) {x y : Option (Prog Unit)} (hx : TL env D x y) :
    Sim env D ⟨w, fset f t x⟩ ⟨w, fset g t y⟩ := ⟨rfl, fun u => by
  show TL env D (fset f t x u) (fset g t y u)
  by_cases hu : u = t
  · subst hu; rw [fset_same, fset_same]; exact hx
  · rw [fset_ne _ _ hu, fset_ne _ _ hu]; exact h u⟩

theorem sim_wait {w : World} {f g : Tid → Option (Prog Unit)} (h : ∀ t, TL env D (f t) (g t)) (t : Tid) {x : Option (Prog Unit)} (hx : TL env D x (g t)) :
    Sim env D ⟨w, fset f t x⟩ ⟨w, g⟩ := ⟨rfl, fun u => by
  show TL env D (fset f t x u) (g u)
  by_cases hu : u = t
  · subst hu; rw [fset_same]; exact hx
  · rw [fset_ne _ _ hu]; exact h u⟩

theorem pair_set {c : Conf} (hr : Reach env c) {t : Tid} {p : PairId} {k : (Op.getPair p).Res → Prog Unit} (hp : c.thr t = some (.op (.getPair p) k)) : ∃ x, c.w.pair p = some x := by
  obtain ⟨lst, ok, loc, hown⟩ := reach_own hr
  have h0 := ok t
  rw [hp] at h0
  rcases Verif.Checks.getPair_frame c.w h0.1 with ⟨m, ev, ps, rest, hl⟩ | ⟨s, cm, ev, m, rest, hl⟩
  · exact Option.isSome_iff_exists.1 (hown.fact t (.fire m ev (.scan (p :: ps))) (by rw [hl]; exact List.mem_cons_self) p List.mem_cons_self)
  · exact ⟨_, (hown.fact t (.drain s cm (.polled p ev m)) (by rw [hl]; exact List.mem_cons_self)).1⟩

theorem step_sim {c c' d : Conf} {x : Choice} (hr : Reach env c) (h : Sim env D c d) (hs : step env c x = some c') (hF : ∀ e ∈ c'.w.trace, ¬Dropped env D e) :
    Sim env D c' d ∨ ∃ d', step (undup env D) d x = some d' ∧ Sim env D c' d' := by
  obtain ⟨w, thr⟩ := d
  obtain ⟨rfl, h⟩ := h
  cases x with
  | begin k u =>
    have ht : TL env D (c.thr (.client k)) (thr (.client k)) := h (.client k)
    simp only [step] at hs ⊢
    generalize c.thr (.client k) = p at ht hs
    generalize thr (.client k) = q at ht ⊢
    cases ht with
    | some => cases hs
    | none =>
      cases hs
      exact .inr ⟨_, rfl, sim_set h _ (.some (l_denote u))⟩
  | run t =>
    have ht : TL env D (c.thr t) (thr t) := h t
    have hget := fun p k => pair_set hr (t := t) (p := p) (k := k)
    simp only [step] at hs ⊢
    generalize c.thr t = p at ht hs hget
    generalize hq : thr t = q at ht ⊢
    cases ht with
    | none => cases hs
    | some hp =>
      cases hp with
      | ret => cases hs; exact .inr ⟨_, rfl, sim_set h _ .none⟩
      | thr x => cases hs; exact .inr ⟨_, rfl, sim_set h _ .none⟩
      | call f hk => cases hs; exact .inr ⟨_, rfl, sim_set h _ (.some (handle (l_body f) hk))⟩
      | op o hk =>
        simp only [runThread] at hs ⊢
        split at hs
        · next hen =>
          cases hs
          rw [if_pos hen]
          exact .inr ⟨_, rfl, sim_set h _ (.some (hk _))⟩
        · cases hs
      | snap q hk =>
        cases hs
        refine .inl (sim_wait h t ?_)
        show TL env D _ (thr t)
        rw [hq]
        exact .some (hk _)
      | read p hk =>
        cases hs
        obtain ⟨x, hx⟩ := hget p _ rfl
        refine .inl (sim_wait h t ?_)
        have h1 := hk x
        rw [← hx] at h1
        show TL env D _ (thr t)
        rw [hq]
        exact .some h1
      | drop m hm ev k p =>
        exfalso
        simp only [runThread] at hs
        split at hs
        · cases hs
          exact hF (t, .dropped m ev) (by simp [exec, World.log]) hm
        · cases hs
  | dispatch e i j =>
    have ht : TL env D (c.thr (.worker e i)) (thr (.worker e i)) := h (.worker e i)
    simp only [step] at hs ⊢
    split at hs
    · next hi =>
      rw [if_pos (show i < (undup env D).width e from hi)]
      generalize c.thr (.worker e i) = p at ht hs
      generalize thr (.worker e i) = q at ht ⊢
      cases ht with
      | some => simp at hs
      | none =>
        cases hj : (c.w.tasks e)[j]? with
        | none => rw [hj] at hs; simp at hs
        | some sm =>
          rw [hj] at hs
          cases hs
          exact .inr ⟨_, rfl, sim_set h _ (.some (refl _))⟩
    · cases hs
  | interrupt t => cases hs; exact .inr ⟨_, rfl, rfl, h⟩
  | shutdown e now => cases hs; exact .inr ⟨_, rfl, rfl, h⟩

theorem runs_grows {c c' : Conf} {xs : List Choice} (h : runs env c xs = some c') : c.w.trace <+: c'.w.trace := by
  induction xs generalizing c with
  | nil => cases h; exact List.prefix_refl _
  | cons x xs ih =>
    simp only [runs] at h
    cases hs : step env c x with
    | none => rw [hs] at h; cases h
    | some c1 =>
      rw [hs] at h
      exact (Stale.step_grows hs).trans (ih h)

theorem runs_one {c c1 : Conf} {x : Choice} (h : step env c x = some c1) : runs env c [x] = some c1 := by simp only [runs, h]

theorem runs_sim {xs : List Choice} : ∀ {c c' d : Conf}, Reach env c → Sim env D c d → runs env c xs = some c' → (∀ e ∈ c'.w.trace, ¬Dropped env D e) →
    ∃ ys d', ys.Sublist xs ∧ runs (undup env D) d ys = some d' ∧ Sim env D c' d' := by
  induction xs with
  | nil => intro c c' d _ h hr _; cases hr; exact ⟨[], d, List.Sublist.refl _, rfl, h⟩
  | cons x xs ih =>
    intro c c' d hc h hr hF
    simp only [runs] at hr
    cases hs : step env c x with
    | none => rw [hs] at hr; cases hr
    | some c1 =>
      rw [hs] at hr
      have hc1 : Reach env c1 := by
        obtain ⟨c0, h0, zs, hz⟩ := hc
        exact ⟨c0, h0, zs ++ [x], by rw [runs_append, hz]; exact runs_one hs⟩
      rcases step_sim hc h hs (fun e he => hF e ((runs_grows hr).subset he)) with h1 | ⟨d1, h1, h2⟩
      · obtain ⟨ys, d', h3, h4, h5⟩ := ih hc1 h1 hr hF
        exact ⟨ys, d', h3.cons _, h4, h5⟩
      · obtain ⟨ys, d', h3, h4, h5⟩ := ih hc1 h2 hr hF
        exact ⟨x :: ys, d', h3.cons_cons _, by simp only [runs, h1]; exact h4, h5⟩

theorem sim_refl (c : Conf) : Sim env D c c := ⟨rfl, fun t => by
  cases c.thr t with
  | none => exact .none
  | some p => exact .some (refl p)⟩

theorem Sim.idle {c d : Conf} (h : Sim env D c d) (t : Tid) : (d.thr t).isNone = (c.thr t).isNone := by
  have := h.thr t
  generalize c.thr t = x at this
  generalize d.thr t = y at this
  cases this <;> rfl

end Verif.Undup
