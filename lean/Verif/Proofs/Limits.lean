import Verif.Spec.Limits
import Verif.Proofs.Stale
/-
C104. The two programs differ only in what they do after a queue has been looked at.
-/

namespace Verif.Limits
open Verif.Spec.Limits Prog

/-- Two programs that do the same as long as `H` holds for the sizes of queues they read; if `F`, the first may be about to refuse an event instead. -/
inductive L (H : QId → Nat → Prop) (F : Prop) {α : Type} : Prog α → Prog α → Prop
  | ret (a : α) : L H F (.ret a) (.ret a)
  | thr (x : Exc) : L H F (.thr x) (.thr x)
  | op (o : Op) {k k' : o.Res → Prog α} (hk : ∀ r, L H F (k r) (k' r)) : L H F (.op o k) (.op o k')
  | call (c : Call) {k k' : Except Exc Unit → Prog α} (hk : ∀ r, L H F (k r) (k' r)) : L H F (.call c k) (.call c k')
  | size (q : QId) {k k' : Nat → Prog α} (hk : ∀ n, H q n → L H F (k n) (k' n)) : L H F (.op (.qSize q) k) (.op (.qSize q) k')
  | full (hF : F) (m : MId) (ev : Ev) (k : Unit → Prog α) (p : Prog α) : L H F (.op (.emit (.cb (.flowFull m ev))) k) p

variable {H : QId → Nat → Prop} {F : Prop} {α β : Type} {env : Env} {b : SId → Int} {n : EId → Nat}

theorem refl (p : Prog α) : L H F p p := by
  induction p with
  | ret a => exact .ret a
  | thr x => exact .thr x
  | op o k ih => exact .op o ih
  | call c k ih => exact .call c ih

theorem handle {p p' : Prog α} (h : L H F p p') {f f' : Except Exc α → Prog β} (hf : ∀ r, L H F (f r) (f' r)) : L H F (p.handle f) (p'.handle f') := by
  induction h with
  | ret a => exact hf _
  | thr x => exact hf _
  | op o _ ih => exact .op o ih
  | call c _ ih => exact .call c ih
  | size q _ ih => exact .size q ih
  | full hF m ev k p => exact .full hF m ev _ _

theorem bind {p p' : Prog α} (h : L H F p p') {f f' : α → Prog β} (hf : ∀ r, L H F (f r) (f' r)) : L H F (p.bind f) (p'.bind f') :=
  handle h fun r => by
    cases r
    · exact .thr _
    · exact hf _

/-- What is needed of `H` and `F`: if the queue of a strategy has a size that `H` allows, the two bounds decide alike, or the first refuses and `F`. -/
def Fits (H : QId → Nat → Prop) (F : Prop) (env : Env) (b : SId → Int) : Prop :=
  ∀ s n, H (env.strat s).queue n → (IsFull (env.strat s).maxQ n ↔ IsFull (b s) n) ∨ (F ∧ IsFull (env.strat s).maxQ n)

theorem full_iff (a : Int) (n : Nat) : (decide (a > 0) && decide ((n : Int) ≥ a)) = true ↔ IsFull a n := by
  simp [IsFull]

variable (hf : Fits H F env b)
include hf

theorem l_default (s : SId) (ev : Ev) (m : MId) : L H F (processEventDefault env s ev m) (processEventDefault (limited env b n) s ev m) := by
  refine .size (env.strat s).queue fun k hk => ?_
  rcases hf s k hk with h | ⟨h1, h2⟩
  · have h' : (decide ((env.strat s).maxQ > 0) && decide ((k : Int) ≥ (env.strat s).maxQ)) = (decide (b s > 0) && decide ((k : Int) ≥ b s)) := by
      rw [Bool.eq_iff_iff, full_iff, full_iff]; exact h
    show L H F (if (decide ((env.strat s).maxQ > 0) && decide ((k : Int) ≥ (env.strat s).maxQ)) = true then _ else _)
      (if (decide (b s > 0) && decide ((k : Int) ≥ b s)) = true then _ else _)
    rw [h']
    exact refl _
  · show L H F (if (decide ((env.strat s).maxQ > 0) && decide ((k : Int) ≥ (env.strat s).maxQ)) = true then _ else _) _
    rw [if_pos ((full_iff _ _).2 h2)]
    exact .full h1 m ev _ _

theorem l_processEvent (s : SId) (ev : Ev) (m : MId) : L H F (processEvent env s ev m) (processEvent (limited env b n) s ev m) := by
  unfold processEvent
  show L H F (if (env.strat s).dropDup = true then _ else _) (if (env.strat s).dropDup = true then _ else _)
  split
  · refine bind (refl _) fun ps => bind (refl _) fun r => ?_
    cases r
    · exact l_default hf s ev m
    · exact refl _
  · exact l_default hf s ev m

theorem l_fire (m : MId) (ev : Ev) : L H F (fire env m ev) (fire (limited env b n) m ev) := by
  have jp : ∀ e : Bool, L H F (if e then callback (.flowAfter m ev) (.flowAfter (env.mach m).strat ev m) else processEvent env (env.mach m).strat ev m)
      (if e then callback (.flowAfter m ev) (.flowAfter (env.mach m).strat ev m) else processEvent (limited env b n) (env.mach m).strat ev m) := fun e => by
    cases e
    · exact l_processEvent hf _ ev m
    · exact refl _
  refine .op (.getStarted m) fun r => ?_
  cases r
  · exact refl _
  · refine .op (.getStarted m) fun r => ?_
    cases r
    · exact jp false
    · exact .op (.getEnded m) jp

theorem l_denote (u : UProg) : L H F (u.denote env) (u.denote (limited env b n)) := by
  induction u with
  | done => exact refl _
  | thr x => exact refl _
  | call u k ih =>
    refine bind ?_ ih
    cases u with
    | fire m ev => exact bind (refl _) fun _ => bind (handle (l_fire hf m ev) fun _ => refl _) fun _ => refl _
    | _ => exact refl _

theorem l_body (c : Call) : L H F (body env c) (body (limited env b n) c) := by
  cases c with
  | action k o i ev m =>
    show L H F (match (env.acts k o)[i]? with | some a => (a ev m).denote env | none => .ret ()) (match (env.acts k o)[i]? with | some a => (a ev m).denote (limited env b n) | none => .ret ())
    cases (env.acts k o)[i]? with
    | none => exact refl _
    | some a => exact l_denote hf _
  | drain s m => exact refl _
  | _ => exact l_denote hf _

omit hf

/-- Threads. -/
inductive TL (H : QId → Nat → Prop) (F : Prop) : Option (Prog Unit) → Option (Prog Unit) → Prop
  | none : TL H F none none
  | some {p p' : Prog Unit} (h : L H F p p') : TL H F (some p) (some p')

structure Sim (H : QId → Nat → Prop) (F : Prop) (c d : Conf) : Prop where
  w : d.w = c.w
  thr : ∀ t, TL H F (c.thr t) (d.thr t)

theorem sim_set {w : World} {f g : Tid → Option (Prog Unit)} (h : ∀ t, TL H F (f t) (g t)) (t : Tid) {x y : Option (Prog Unit)} (hx : TL H F x y) :
    Sim H F ⟨w, fset f t x⟩ ⟨w, fset g t y⟩ := ⟨rfl, fun u => by
  show TL H F (fset f t x u) (fset g t y u)
  by_cases hu : u = t
  · subst hu; rw [fset_same, fset_same]; exact hx
  · rw [fset_ne _ _ hu, fset_ne _ _ hu]; exact h u⟩

theorem step_sim (hf : Fits H F env b) {c c' d : Conf} {x : Choice} (h : Sim H F c d) (hs : step env c x = some c') (hH : ∀ s, H (env.strat s).queue (c.w.queue (env.strat s).queue).length)
    (hq : ∀ q n, (∀ s, (env.strat s).queue ≠ q) → H q n) (hF : F → ∀ e ∈ c'.w.trace, ¬Refused e) (hu : Uses n x) : ∃ d', step (limited env b n) d x = some d' ∧ Sim H F c' d' := by
  obtain ⟨w, thr⟩ := d
  obtain ⟨rfl, h⟩ := h
  cases x with
  | begin k u =>
    have ht : TL H F (c.thr (.client k)) (thr (.client k)) := h (.client k)
    simp only [step] at hs ⊢
    generalize c.thr (.client k) = p at ht hs
    generalize thr (.client k) = q at ht ⊢
    cases ht with
    | some => cases hs
    | none =>
      cases hs
      exact ⟨_, rfl, sim_set h _ (.some (l_denote hf u))⟩
  | run t =>
    have ht : TL H F (c.thr t) (thr t) := h t
    simp only [step] at hs ⊢
    generalize c.thr t = p at ht hs
    generalize thr t = q at ht ⊢
    cases ht with
    | none => cases hs
    | some hp =>
      cases hp with
      | ret => cases hs; exact ⟨_, rfl, sim_set h _ .none⟩
      | thr x => cases hs; exact ⟨_, rfl, sim_set h _ .none⟩
      | call f hk => cases hs; exact ⟨_, rfl, sim_set h _ (.some (handle (l_body hf f) hk))⟩
      | op o hk =>
        simp only [runThread] at hs ⊢
        split at hs
        · next hen =>
          cases hs
          rw [if_pos hen]
          exact ⟨_, rfl, sim_set h _ (.some (hk _))⟩
        · cases hs
      | size q hk =>
        simp only [runThread] at hs ⊢
        split at hs
        · next hen =>
          cases hs
          rw [if_pos hen]
          refine ⟨_, rfl, sim_set h _ (.some (hk _ ?_))⟩
          by_cases hs : ∃ s, (env.strat s).queue = q
          · obtain ⟨s, rfl⟩ := hs
            exact hH s
          · exact hq q _ fun s e => hs ⟨s, e⟩
        · cases hs
      | full hF' m ev k p =>
        exfalso
        simp only [runThread] at hs
        split at hs
        · cases hs
          exact hF hF' (t, .cb (.flowFull m ev)) (by simp [exec, World.log]) trivial
        · cases hs
  | dispatch e i j =>
    have ht : TL H F (c.thr (.worker e i)) (thr (.worker e i)) := h (.worker e i)
    simp only [step] at hs ⊢
    rw [if_pos (show i < (limited env b n).width e from hu)]
    split at hs
    · generalize c.thr (.worker e i) = p at ht hs
      generalize thr (.worker e i) = q at ht ⊢
      cases ht with
      | some => simp at hs
      | none =>
        cases hj : (c.w.tasks e)[j]? with
        | none => rw [hj] at hs; simp at hs
        | some sm =>
          rw [hj] at hs
          cases hs
          exact ⟨_, rfl, sim_set h _ (.some (refl _))⟩
    · cases hs
  | interrupt t => cases hs; exact ⟨_, rfl, rfl, h⟩
  | shutdown e now => cases hs; exact ⟨_, rfl, rfl, h⟩

theorem runs_grows {c c' : Conf} {xs : List Choice} (h : runs env c xs = some c') : c.w.trace <+: c'.w.trace := by
  induction xs generalizing c with
  | nil => cases h; exact List.prefix_refl _
  | cons x xs ih =>
    simp only [runs] at h
    cases hs : step env c x with
    | none => rw [hs] at h; cases h
    | some c1 =>
      rw [hs] at h
      exact (Stale.step_grows hs).trans (ih h)

theorem runs_sim (hf : Fits H F env b) (hq : ∀ q n, (∀ s, (env.strat s).queue ≠ q) → H q n) {xs : List Choice} : ∀ {c c' d : Conf}, Sim H F c d → runs env c xs = some c' →
    (∀ ys zs c1, xs = ys ++ zs → runs env c ys = some c1 → ∀ s, H (env.strat s).queue (c1.w.queue (env.strat s).queue).length) → (F → ∀ e ∈ c'.w.trace, ¬Refused e) →
    (∀ x ∈ xs, Uses n x) → ∃ d', runs (limited env b n) d xs = some d' ∧ Sim H F c' d' := by
  induction xs with
  | nil => intro c c' d h hr _ _ _; cases hr; exact ⟨d, rfl, h⟩
  | cons x xs ih =>
    intro c c' d h hr hH hF hu
    simp only [runs] at hr
    cases hs : step env c x with
    | none => rw [hs] at hr; cases hr
    | some c1 =>
      rw [hs] at hr
      obtain ⟨d1, h1, h2⟩ := step_sim hf h hs (hH [] _ c rfl rfl) hq (fun k e he => hF k e ((runs_grows hr).subset he)) (hu x (.head _))
      obtain ⟨d', h3, h4⟩ := ih h2 hr (fun ys zs c2 e h => hH (x :: ys) zs c2 (by rw [e]; rfl) (by simp only [runs, hs]; exact h)) hF fun y hy => hu y (.tail _ hy)
      exact ⟨d', by simp only [runs, h1]; exact h3, h4⟩

theorem runs_uses {c c' : Conf} {xs : List Choice} (h : runs env c xs = some c') (hn : ∀ e, env.width e ≤ n e) : ∀ x ∈ xs, Uses n x := by
  induction xs generalizing c with
  | nil => exact fun x hx => (nomatch hx)
  | cons x xs ih =>
    simp only [runs] at h
    cases hs : step env c x with
    | none => rw [hs] at h; cases h
    | some c1 =>
      rw [hs] at h
      intro y hy
      rcases List.mem_cons.1 hy with rfl | hy
      · cases y with
        | dispatch e i j =>
          simp only [step] at hs
          split at hs
          · next hi => exact Nat.lt_of_lt_of_le hi (hn e)
          · cases hs
        | _ => trivial
      · exact ih h y hy

theorem sim_refl (c : Conf) : Sim H F c c := ⟨rfl, fun t => by
  cases c.thr t with
  | none => exact .none
  | some p => exact .some (refl p)⟩

theorem Sim.idle {c d : Conf} (h : Sim H F c d) (t : Tid) : (d.thr t).isNone = (c.thr t).isNone := by
  have := h.thr t
  generalize c.thr t = x at this
  generalize d.thr t = y at this
  cases this <;> rfl

end Verif.Limits
