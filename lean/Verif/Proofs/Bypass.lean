import Verif.Model.Bypass
import Verif.Proofs.Loose
/-
Executions in which reads of isStarted and isEnded return anything at all: invariants that do not depend on these reads hold all the same.
-/

namespace Verif.Bypass
open Spec.HB Verif.Plain Verif.Checks Verif.Loose

theorem FRuns.two {env : Env} {M : Cell → Prop} [DecidablePred M] {a b c : Conf} (h : FRuns env M a b) (h' : FRuns env M b c) : FRuns env M a c := by
  induction h' with
  | refl => exact h
  | step _ hs ih => exact ih.step hs

theorem fset_fset {α β : Type} [DecidableEq α] (f : α → β) (a : α) (x y : β) : fset (fset f a x) a y = fset f a y := by
  funext b
  by_cases h : b = a
  · subst h; simp
  · simp [fset_ne _ _ h]

/-- A direct call is a call of `fire` in which the flags are read as they should be. -/
theorem direct_flags {env : Env} {M : Cell → Prop} [DecidablePred M] {c : Conf} {t : Tid} {m : MId} {ev : Ev} {k : Except Exc Unit → Prog Unit}
    (h : c.thr t = some ((fire env m ev).handle k)) :
    FRuns env M c { c with thr := fset c.thr t (some ((processEvent env (env.mach m).strat ev m).handle k)) } := by
  have h1 : FRuns env M c _ := .step (.refl c) (.started true h)
  have h2 := FRuns.step h1 (FStep.started true (fset_same ..))
  have h3 := FRuns.step h2 (FStep.ended false (fset_same ..))
  simp only [fset_fset] at h3
  exact h3

theorem bypass_flags {env : Env} {M : Cell → Prop} [DecidablePred M] {c d : Conf} (h : Runs env c d) : FRuns env M c d := by
  induction h with
  | refl => exact .refl _
  | step _ hs ih =>
    cases hs with
    | sched hs => exact ih.step (.plain (x := .sched _) hs)
    | direct hs => exact ih.two (direct_flags hs)

/-- Equal except for the machines and payloads. -/
def MSim (w w' : World) : Prop := ∃ mach payload, w' = { w with mach := mach, payload := payload }

theorem MSim.symm {w w' : World} (h : MSim w w') : MSim w' w := by
  obtain ⟨a, b, rfl⟩ := h
  exact ⟨w.mach, w.payload, rfl⟩

/-- Does not depend on what is read from flags. -/
structure Deaf {L : Type} (P : Proto L) (Inv : (Tid → L) → World → Prop) : Prop where
  know : ∀ lst w w' t, MSim w w' → Inv lst w → P.know (lst t) w'
  started : ∀ lst w w' t m, MSim w w' → Inv lst w → P.allowed (lst t) (.getStarted m) → Inv (fset lst t (P.nxt (lst t) (.getStarted m) w')) w
  ended : ∀ lst w w' t m, MSim w w' → Inv lst w → P.allowed (lst t) (.getEnded m) → Inv (fset lst t (P.nxt (lst t) (.getEnded m) w')) w

section
variable {L : Type} {env : Env} {P : Proto L} {l0 : L} {task : SId → MId → L} {fin : Tid → Except Exc Unit → L → Prop} {Inv : (Tid → L) → World → Prop}
  {M : Cell → Prop} [DecidablePred M]

/-- Invariants that do not speak about machines and payloads. -/
theorem Deaf.of_blind (hi : Invariant env P l0 task fin Inv) (hb : ∀ lst w w', MSim w w' → Inv lst w → Inv lst w') : Deaf P Inv where
  know := fun lst _ w' t hs h => hi.know lst w' t (hb _ _ _ hs h)
  started := fun lst _ w' t m hs h ha => hb _ _ _ hs.symm (hi.op lst w' t (.getStarted m) (hb _ _ _ hs h) ha rfl)
  ended := fun lst _ w' t m hs h ha => hb _ _ _ hs.symm (hi.op lst w' t (.getEnded m) (hb _ _ _ hs h) ha rfl)

theorem Deaf.and {A B : (Tid → L) → World → Prop} (ha : Deaf P A) (hb : ∀ lst lst' w, B lst w → B lst' w) : Deaf P fun lst w => A lst w ∧ B lst w where
  know := fun lst w w' t hs h => ha.know lst w w' t hs h.1
  started := fun lst w w' t m hs h hal => ⟨ha.started lst w w' t m hs h.1 hal, hb _ _ _ h.2⟩
  ended := fun lst w w' t m hs h hal => ⟨ha.ended lst w w' t m hs h.1 hal, hb _ _ _ h.2⟩

theorem flag_step (hc : Checked env P l0 task fin) (hi : Invariant env P l0 task fin Inv) (hb : Blind Inv) (hd : Deaf P Inv) (hM : ∀ p, ¬M (.pair p))
    {c c' : Conf} {lst : Tid → L} (ht : ThreadsOk P l0 fin lst c) (hI : Inv lst c.w) (hs : FStep env M c c') :
    ∃ lst', ThreadsOk P l0 fin lst' c' ∧ Inv lst' c'.w := by
  have upd : ∀ (t : Tid) (l : L) (p : Prog Unit), P.Ok t p l (fin t) → ThreadsOk P l0 fin (fset lst t l) ⟨c.w, fset c.thr t (some p)⟩ := by
    intro t l p hp u
    by_cases hu : u = t
    · subst hu; simp only [fset_same]; exact hp
    · simp only [fset_ne _ _ hu]; exact ht u
  cases hs with
  | plain hs => exact loose_step hc hi hb hM ht hI hs
  | @started t m k b hp =>
    have h0 := ht t
    rw [hp] at h0
    have hw : MSim c.w { c.w with mach := fun _ => ⟨b, b, none, none⟩ } := ⟨_, c.w.payload, rfl⟩
    exact ⟨_, upd t _ _ (h0.2 _ (hd.know _ _ _ t hw hI)), hd.started _ _ _ t m hw hI h0.1⟩
  | @ended t m k b hp =>
    have h0 := ht t
    rw [hp] at h0
    have hw : MSim c.w { c.w with mach := fun _ => ⟨b, b, none, none⟩ } := ⟨_, c.w.payload, rfl⟩
    exact ⟨_, upd t _ _ (h0.2 _ (hd.know _ _ _ t hw hI)), hd.ended _ _ _ t m hw hI h0.1⟩

theorem flag (hc : Checked env P l0 task fin) (hi : Invariant env P l0 task fin Inv) (hb : Blind Inv) (hd : Deaf P Inv) (hM : ∀ p, ¬M (.pair p))
    {c0 c : Conf} (h0 : Initial c0) (hI : Inv (fun _ => l0) c0.w) (hs : FRuns env M c0 c) : ∃ lst, ThreadsOk P l0 fin lst c ∧ Inv lst c.w := by
  induction hs with
  | refl => exact ⟨fun _ => l0, fun t => by rw [h0.idle t], hI⟩
  | step _ hs ih =>
    obtain ⟨lst, ht, h⟩ := ih
    exact flag_step hc hi hb hd hM ht h hs

end

variable {env : Env}

theorem own_deaf : ∀ lst w w', MSim w w' → Own env lst w → Own env lst w' := by
  rintro lst w _ ⟨_, _, rfl⟩ ⟨loc, h⟩
  exact ⟨loc, ⟨h.q, h.pl, h.ow, h.qn, h.pn, h.on, h.fresh, h.full, h.fact, h.fifo⟩⟩

theorem task_deaf : ∀ lst w w', MSim w w' → TaskInv env lst w → TaskInv env lst w' := by
  rintro lst w _ ⟨_, _, rfl⟩ h
  exact ⟨h.1, h.2, h.3, h.4⟩

theorem stacks_deaf : ∀ lst w w', MSim w w' → Stacks lst w → Stacks lst w' := by
  rintro lst w _ ⟨_, _, rfl⟩ h
  exact ⟨h.1, h.2⟩

theorem covered_deaf {q : QId} {e : EId} : ∀ lst w w', MSim w w' → Covered env q e lst w → Covered env q e lst w' := by
  rintro lst w _ ⟨_, _, rfl⟩ h
  exact h

theorem bounded_deaf {q : QId} {n : Nat} : ∀ lst w w', MSim w w' → Bounded env q n lst w → Bounded env q n lst w' := by
  rintro lst w _ ⟨_, _, rfl⟩ h
  exact h

theorem distinct_deaf {q : QId} {t : Tid} : ∀ lst w w', MSim w w' → Distinct env q t lst w → Distinct env q t lst w' := by
  rintro lst w _ ⟨_, _, rfl⟩ h h1 h2
  obtain ⟨g1, g2⟩ := h h1 h2
  refine ⟨g1, fun m ev f rest hl hq => ?_⟩
  have := g2 m ev f rest hl hq
  cases f <;> exact this

theorem inv_deaf : ∀ lst w w', MSim w w' → Loose.Inv env lst w → Loose.Inv env lst w' := by
  intro lst w w' hs h
  refine ⟨own_deaf _ _ _ hs h.own, task_deaf _ _ _ hs h.tasks, h.link, ?_⟩
  obtain ⟨_, _, rfl⟩ := hs
  exact h.steps

end Verif.Bypass
