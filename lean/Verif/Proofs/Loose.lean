import Verif.Proofs.Checks
import Verif.Props.Script
import Verif.Props.Calls
import Verif.Props.Stranded
import Verif.Props.Bounds
import Verif.Spec.Loose
/-
Executions in which reads of currentState, of listeners and of payloads return anything at all: invariants that do not speak about these fields hold all the same.
-/

namespace Verif.Loose
open Spec.HB Spec.Plain Verif.Plain Verif.Checks

/-- Equal except for currentState, listeners and payloads. -/
def Sim (w w' : World) : Prop := ∃ mach payload, w' = { w with mach := mach, payload := payload } ∧
  ∀ m, (mach m).started = (w.mach m).started ∧ (mach m).ended = (w.mach m).ended

theorem Sim.refl (w : World) : Sim w w := ⟨w.mach, w.payload, rfl, fun _ => ⟨rfl, rfl⟩⟩

theorem store_sim {w : World} {f : Cell} {v : Content} : Sim w (store w f v) := by
  unfold store
  split
  · rename_i m v
    refine ⟨_, w.payload, rfl, fun m' => ?_⟩
    by_cases h : m' = m
    · subst h; simp
    · simp [fset_ne _ _ h]
  · rename_i m v
    refine ⟨_, w.payload, rfl, fun m' => ?_⟩
    by_cases h : m' = m
    · subst h; simp
    · simp [fset_ne _ _ h]
  · exact ⟨w.mach, _, rfl, fun _ => ⟨rfl, rfl⟩⟩
  · exact Sim.refl w

theorem read_sim {t : Tid} {o : Op} {f : Cell} {v : Content} {w : World} {r : o.Res × World} (hf : source o = some f) (hp : ∀ p, f ≠ .pair p)
    (h : execRead t o v w = some r) : (exec t o (store w f v)).1 = r.1 ∧ Sim (exec t o (store w f v)).2 r.2 ∧ enabled t o (store w f v) = true := by
  refine ⟨(execRead_store hf hp h).1, ?_, by cases o <;> first | rfl | cases hf⟩
  cases o <;> simp only [source, Option.some.injEq, reduceCtorEq] at hf <;> subst hf <;> cases v <;> simp only [execRead, reduceCtorEq, Option.some.injEq] at h
  · subst h
    obtain ⟨a, b, e, g⟩ := store_sim (w := w) (f := .cur _) (v := .state _)
    simp only [exec]
    rw [e]
    exact ⟨w.mach, w.payload, rfl, fun m => ⟨(g m).1.symm, (g m).2.symm⟩⟩
  · subst h
    obtain ⟨a, b, e, g⟩ := store_sim (w := w) (f := .listener _) (v := .listener _)
    simp only [exec]
    rw [e]
    exact ⟨w.mach, w.payload, rfl, fun m => ⟨(g m).1.symm, (g m).2.symm⟩⟩
  · rename_i m c l
    have g := (store_sim (w := w) (f := .listener m) (v := .listener l))
    obtain ⟨a, b, e, g⟩ := g
    cases l <;> simp only [Option.some.injEq] at h <;> subst h
    · have : (exec t (.notify m c) (store w (.listener m) (.listener none))).2 = store w (.listener m) (.listener none) := by simp [exec, store]
      rw [this, e]
      exact ⟨w.mach, w.payload, rfl, fun m => ⟨(g m).1.symm, (g m).2.symm⟩⟩
    · rename_i l
      have : (exec t (.notify m c) (store w (.listener m) (.listener (some l)))).2 = (store w (.listener m) (.listener (some l))).log t (.cb c) := by simp [exec, store]
      rw [this, e]
      exact ⟨w.mach, w.payload, rfl, fun m => ⟨(g m).1.symm, (g m).2.symm⟩⟩
  · exact absurd rfl (hp _)
  · subst h
    exact ⟨w.mach, w.payload, rfl, fun m => ⟨rfl, rfl⟩⟩
  · subst h
    rename_i ev v
    refine ⟨w.mach, fset w.payload (.copy w.nextCopy) v, ?_, fun m => ⟨rfl, rfl⟩⟩
    simp [exec, store, World.log]

/-- Does not speak about currentState, listeners and payloads. -/
def Blind {L : Type} (Inv : (Tid → L) → World → Prop) : Prop := ∀ lst w w', Sim w w' → Inv lst w → Inv lst w'

theorem Blind.and {L : Type} {A B : (Tid → L) → World → Prop} (ha : Blind A) (hb : Blind B) : Blind fun lst w => A lst w ∧ B lst w :=
  fun lst w w' hs h => ⟨ha lst w w' hs h.1, hb lst w w' hs h.2⟩

section
variable {L : Type} {env : Env} {P : Proto L} {l0 : L} {task : SId → MId → L} {fin : Tid → Except Exc Unit → L → Prop} {Inv : (Tid → L) → World → Prop}
  {M : Cell → Prop} [DecidablePred M]

theorem loose_step (hc : Checked env P l0 task fin) (hi : Invariant env P l0 task fin Inv) (hb : Blind Inv) (hM : ∀ p, ¬M (.pair p))
    {c c' : Conf} {x : PChoice} {lst : Tid → L} (ht : ThreadsOk P l0 fin lst c) (hI : Inv lst c.w) (hs : Plain.step env M c x = some c') :
    ∃ lst', ThreadsOk P l0 fin lst' c' ∧ Inv lst' c'.w := by
  cases x with
  | sched x => exact sound_step hc hi ht hI hs
  | read t v =>
    simp only [Plain.step] at hs
    split at hs
    next o k hp =>
      split at hs
      next f hf =>
        split at hs
        next hMf =>
          obtain ⟨r, he, hs⟩ := Option.map_eq_some_iff.1 hs
          subst hs
          have hnp : ∀ p, f ≠ .pair p := fun p hfp => hM p (hfp ▸ hMf)
          obtain ⟨e1, e2, e3⟩ := read_sim hf hnp he
          have hI1 : Inv lst (store c.w f v) := hb _ _ _ store_sim hI
          have h0 := ht t
          rw [hp] at h0
          have h1 := h0.2 (store c.w f v) (hi.know _ _ t hI1)
          rw [e1] at h1
          refine ⟨fset lst t (P.nxt (lst t) o (store c.w f v)), fun u => ?_, hb _ _ _ e2 (hi.op _ _ _ _ hI1 h0.1 e3)⟩
          by_cases hu : u = t
          · subst hu; simpa using h1
          · simp only [fset_ne _ _ hu]; exact ht u
        · cases hs
      · cases hs
    · cases hs

theorem loose_runs (hc : Checked env P l0 task fin) (hi : Invariant env P l0 task fin Inv) (hb : Blind Inv) (hM : ∀ p, ¬M (.pair p))
    {c c' : Conf} {xs : List PChoice} {lst : Tid → L} (ht : ThreadsOk P l0 fin lst c) (hI : Inv lst c.w) (hs : Plain.runs env M c xs = some c') :
    ∃ lst', ThreadsOk P l0 fin lst' c' ∧ Inv lst' c'.w := by
  induction xs generalizing c lst with
  | nil => cases hs; exact ⟨lst, ht, hI⟩
  | cons x xs ih =>
    simp only [Plain.runs] at hs
    split at hs
    · cases hs
    next c1 h1 =>
      obtain ⟨l1, ht1, hI1⟩ := loose_step hc hi hb hM ht hI h1
      exact ih ht1 hI1 hs

theorem loose (hc : Checked env P l0 task fin) (hi : Invariant env P l0 task fin Inv) (hb : Blind Inv) (hM : ∀ p, ¬M (.pair p))
    {c0 c : Conf} {xs : List PChoice} (h0 : Initial c0) (hI : Inv (fun _ => l0) c0.w) (hs : Plain.runs env M c0 xs = some c) :
    ∃ lst, ThreadsOk P l0 fin lst c ∧ Inv lst c.w :=
  loose_runs hc hi hb hM (lst := fun _ => l0) (fun t => by rw [h0.idle t]) hI hs
end

variable {env : Env}

theorem own_blind : Blind (Own env) := by
  rintro lst w _ ⟨_, _, rfl, _⟩ ⟨loc, h⟩
  exact ⟨loc, ⟨h.q, h.pl, h.ow, h.qn, h.pn, h.on, h.fresh, h.full, h.fact, h.fifo⟩⟩

theorem task_blind : Blind (TaskInv env) := by
  rintro lst w _ ⟨_, _, rfl, _⟩ h
  exact ⟨h.1, h.2, h.3, h.4⟩

theorem stacks_blind : Blind Stacks := by
  rintro lst w _ ⟨_, _, rfl, _⟩ h
  exact ⟨h.1, h.2⟩

theorem covered_blind {q : QId} {e : EId} : Blind (Covered env q e) := by
  rintro lst w _ ⟨_, _, rfl, _⟩ h
  exact h

theorem bounded_blind {q : QId} {n : Nat} : Blind (Bounded env q n) := by
  rintro lst w _ ⟨_, _, rfl, _⟩ h
  exact h

theorem distinct_blind {q : QId} {t : Tid} : Blind (Distinct env q t) := by
  rintro lst w _ ⟨_, _, rfl, _⟩ h h1 h2
  obtain ⟨g1, g2⟩ := h h1 h2
  refine ⟨g1, fun m ev f rest hl hq => ?_⟩
  have := g2 m ev f rest hl hq
  cases f <;> exact this

/-! ### The flags -/

open Spec.Loose in
/-- The history tells the flags, and is legal. -/
structure Flags (w : World) : Prop where
  started : ∀ m, (w.mach m).started = started m w.trace
  ended : ∀ m, (w.mach m).ended = ended m w.trace
  legal : Legal w.trace

theorem legal_snoc {tr : List (Tid × Obs)} {u : Tid} {x : Obs} (h : Spec.Loose.Legal tr)
    (hx : (∀ m, x = .started m → Spec.Loose.started m tr = false) ∧ ∀ m s b k, x = .upd m s b k → Spec.Loose.ended m tr = false) :
    Spec.Loose.Legal (tr ++ [(u, x)]) := by
  intro pre u' x' post he
  rcases List.eq_nil_or_concat post with rfl | ⟨p, e, rfl⟩
  · obtain ⟨rfl, h2⟩ := List.append_inj' he rfl
    cases h2
    exact hx
  · rw [List.concat_eq_append, ← List.cons_append, ← List.append_assoc] at he
    obtain ⟨rfl, _⟩ := List.append_inj' he rfl
    exact h pre u' x' p rfl

theorem started_snoc {m : MId} {tr : List (Tid × Obs)} {u : Tid} {x : Obs} :
    Spec.Loose.started m (tr ++ [(u, x)]) = (Spec.Loose.started m tr || (match x with | .started m' => decide (m' = m) | _ => false)) := by
  simp only [Spec.Loose.started, List.any_append, List.any_cons, List.any_nil, Bool.or_false]
  cases x <;> rfl

theorem ended_snoc {m : MId} {tr : List (Tid × Obs)} {u : Tid} {x : Obs} :
    Spec.Loose.ended m (tr ++ [(u, x)]) = (match x with
      | .upd m' _ b _ => if m' = m then b else Spec.Loose.ended m tr
      | .cleared m' => if m' = m then false else Spec.Loose.ended m tr
      | _ => Spec.Loose.ended m tr) := by
  simp only [Spec.Loose.ended, List.foldl_append, List.foldl_cons, List.foldl_nil]
  cases x <;> rfl

/-- Entries that have to do with the flags. -/
def flagObs : Obs → Bool
  | .started _ | .upd .. | .cleared _ => true
  | _ => false

theorem Flags.neutral {w w' : World} {u : Tid} {x : Obs} (h : Flags w) (hx : flagObs x = false) (ht : w'.trace = w.trace ++ [(u, x)])
    (hm : ∀ m, (w'.mach m).started = (w.mach m).started ∧ (w'.mach m).ended = (w.mach m).ended) : Flags w' := by
  refine ⟨fun m => ?_, fun m => ?_, ?_⟩
  · rw [ht, started_snoc, (hm m).1, h.started]; cases x <;> first | (cases hx; done) | simp
  · rw [ht, ended_snoc, (hm m).2, h.ended]; cases x <;> first | rfl | cases hx
  · rw [ht]
    refine legal_snoc h.legal ⟨?_, ?_⟩
    · rintro m rfl; cases hx
    · rintro m s b k rfl; cases hx

theorem Flags.same {w w' : World} (h : Flags w) (ht : w'.trace = w.trace)
    (hm : ∀ m, (w'.mach m).started = (w.mach m).started ∧ (w'.mach m).ended = (w.mach m).ended) : Flags w' :=
  ⟨fun m => by rw [ht, (hm m).1, h.started], fun m => by rw [ht, (hm m).2, h.ended], by rw [ht]; exact h.legal⟩

theorem neutral_flag {x : Obs} (h : neutral x = true) : flagObs x = false := by cases x <;> first | rfl | cases h

/-- Operations that do not write machines and are not comments. -/
def other : Op → Bool
  | .casStarted _ | .casEnded .. | .clearEnded _ | .emit _ | .setCur .. | .setListener .. => false
  | _ => true

theorem mach_other {w : World} {t : Tid} {o : Op} (h : other o = true) (m : MId) :
    ((exec t o w).2.mach m).started = (w.mach m).started ∧ ((exec t o w).2.mach m).ended = (w.mach m).ended := by
  cases o <;> first | (cases h; done) | (simp only [exec]; (repeat' split) <;> first | exact ⟨rfl, rfl⟩ | exact ⟨trivial, trivial⟩)

theorem obs_other {w : World} {o : Op} {x : Obs} (h : other o = true) (hx : opObs o w = some x) : flagObs x = false := by
  cases o <;> first | (cases h; done) | skip
  all_goals simp only [opObs] at hx
  all_goals first
    | (cases hx; done)
    | (cases hx; rfl)
    | (obtain ⟨_, _, rfl⟩ := Option.map_eq_some_iff.1 hx; rfl)
    | (split at hx <;> first | (cases hx; done) | (cases hx; rfl) | (obtain ⟨_, _, rfl⟩ := Option.map_eq_some_iff.1 hx; rfl))

theorem Flags.other {w w' : World} {u : Tid} {o : Op} (h : Flags w) (_ : other o = true) (ht : w'.trace = w.trace ++ ((opObs o w).map fun x => (u, x)).toList)
    (hm : ∀ m, (w'.mach m).started = (w.mach m).started ∧ (w'.mach m).ended = (w.mach m).ended) (hx : ∀ {x}, opObs o w = some x → flagObs x = false) : Flags w' := by
  cases ho : opObs o w with
  | none => rw [ho] at ht; exact h.same (by simpa using ht) hm
  | some x => rw [ho] at ht; exact h.neutral (hx ho) (by simpa using ht) hm

theorem flags_op {w : World} {t : Tid} {o : Op} (h : Flags w) (ho : OpOk w o) : Flags (exec t o w).2 := by
  have ht := exec_trace t o w
  cases o with
  | casStarted m0 =>
    cases hs : (w.mach m0).started with
    | true => exact h.same (by simp [exec, hs]) (fun m => by simp [exec, hs])
    | false =>
      have hx : opObs (.casStarted m0) w = some (.started m0) := by simp [opObs, hs]
      rw [hx] at ht
      refine ⟨fun m => ?_, fun m => ?_, ?_⟩
      · rw [ht]
        simp only [Option.map_some, Option.toList_some, started_snoc]
        rw [← h.started]
        by_cases hm : m = m0
        · subst hm; simp [exec, hs, World.log]
        · simp [exec, hs, World.log, fset_ne _ _ hm, Ne.symm hm]
      · rw [ht]
        simp only [Option.map_some, Option.toList_some, ended_snoc]
        rw [← h.ended]
        by_cases hm : m = m0
        · subst hm; simp [exec, hs, World.log]
        · simp [exec, hs, World.log, fset_ne _ _ hm]
      · rw [ht]
        refine legal_snoc h.legal ⟨fun m hm => ?_, fun m s b k hm => by cases hm⟩
        cases hm
        rw [← h.started]; exact hs
  | casEnded m0 s b k =>
    cases hs : (w.mach m0).ended with
    | true => exact h.same (by simp [exec, hs]) (fun m => by simp [exec, hs])
    | false =>
      have hx : opObs (.casEnded m0 s b k) w = some (.upd m0 s b k) := by simp [opObs, hs]
      rw [hx] at ht
      refine ⟨fun m => ?_, fun m => ?_, ?_⟩
      · rw [ht]
        simp only [Option.map_some, Option.toList_some, started_snoc]
        rw [← h.started]
        by_cases hm : m = m0
        · subst hm; simp [exec, hs, World.log]
        · simp [exec, hs, World.log, fset_ne _ _ hm]
      · rw [ht]
        simp only [Option.map_some, Option.toList_some, ended_snoc]
        rw [← h.ended]
        by_cases hm : m = m0
        · subst hm; simp [exec, hs, World.log]
        · simp [exec, hs, World.log, fset_ne _ _ hm, Ne.symm hm]
      · rw [ht]
        refine legal_snoc h.legal ⟨(fun m hm => by cases hm), fun m s b k hm => ?_⟩
        cases hm
        rw [← h.ended]; exact hs
  | clearEnded m0 =>
    have hx : opObs (.clearEnded m0) w = some (.cleared m0) := rfl
    rw [hx] at ht
    refine ⟨fun m => ?_, fun m => ?_, ?_⟩
    · rw [ht]
      simp only [Option.map_some, Option.toList_some, started_snoc]
      rw [← h.started]
      by_cases hm : m = m0
      · subst hm; simp [exec, World.log]
      · simp [exec, World.log, fset_ne _ _ hm]
    · rw [ht]
      simp only [Option.map_some, Option.toList_some, ended_snoc]
      rw [← h.ended]
      by_cases hm : m = m0
      · subst hm; simp [exec, World.log]
      · simp [exec, World.log, fset_ne _ _ hm, Ne.symm hm]
    · rw [ht]
      exact legal_snoc h.legal ⟨(fun m hm => by cases hm), (fun m s b k hm => by cases hm)⟩
  | emit x => exact h.neutral (neutral_flag ho) ht (fun m => ⟨rfl, rfl⟩)
  | setCur m0 s k =>
    refine h.neutral (x := .cur m0 s k) rfl ht fun m => ?_
    by_cases hm : m = m0
    · subst hm; simp [exec, World.log]
    · simp [exec, World.log, fset_ne _ _ hm]
  | setListener m0 l =>
    refine h.neutral (x := .listener m0 l) rfl ht fun m => ?_
    by_cases hm : m = m0
    · subst hm; simp [exec, World.log]
    · simp [exec, World.log, fset_ne _ _ hm]
  | _ => exact h.other rfl ht (mach_other rfl) (obs_other rfl)

theorem flags_invariant (env : Env) : Preserved env (Own env) (fun _ w => Flags w) where
  op := fun lst w t o l' ho h hm _ => flags_op h (opOk_of_lmove ho hm)
  ret := fun lst w t _ h _ => h
  thr := fun lst w t x _ h _ => h.neutral (x := .uncaught x) rfl rfl fun _ => ⟨rfl, rfl⟩
  dispatch := fun lst w e i j s m _ h _ _ _ => h.same rfl fun _ => ⟨rfl, rfl⟩
  interrupt := fun lst w t _ h => h.same rfl fun _ => ⟨rfl, rfl⟩
  shutdown := fun lst w e _ h => h.same rfl fun _ => ⟨rfl, rfl⟩
  dropTasks := fun lst w e _ h => by
    have : ∀ (l : List (SId × MId)) (w : World), Flags w → Flags { w with trace := w.trace ++ l.map fun x => (Tid.env, Obs.taskDropped x.1 x.2) } := by
      intro l
      induction l with
      | nil => intro w h; exact h.same (by simp) fun _ => ⟨rfl, rfl⟩
      | cons x l ih =>
        intro w h
        have h1 : Flags (w.log .env (.taskDropped x.1 x.2)) := h.neutral (x := .taskDropped x.1 x.2) rfl rfl fun _ => ⟨rfl, rfl⟩
        exact (ih _ h1).same (by simp [World.log]) fun _ => ⟨rfl, rfl⟩
    exact (this _ w h).same rfl fun _ => ⟨rfl, rfl⟩

theorem flags_blind : Blind fun (_ : Tid → List Frame) w => Flags w := by
  rintro lst w _ ⟨_, _, rfl, hm⟩ h
  exact h.same rfl hm

theorem flags_initial {c : Conf} (h : Initial c) : Flags c.w := by
  refine ⟨fun m => ?_, fun m => ?_, ?_⟩
  · rw [h.trace, (h.mach m).1]; rfl
  · rw [h.trace, (h.mach m).2.1]; rfl
  · rw [h.trace]
    intro pre u x post he
    cases pre <;> cases he

/-! ### The course of a thread -/

open Course Spec.Course

structure Inv (env : Env) (lst : Tid → List Frame × Pos) (w : World) : Prop where
  own : Own env (fun t => (lst t).1) w
  tasks : TaskInv env (fun t => (lst t).1) w
  link : ∀ t, Link (lst t).1 (lst t).2
  steps : ∀ t, t ≠ .env → Steps (cfg env) t 0 .idle w.trace (lst t).2.1 (lst t).2.2.stage

theorem _root_.Verif.Course.Steps.trans {cfg : Cfg} {t : Tid} {d d' d'' : Nat} {st st' st'' : Stage} {tr tr' : List (Tid × Obs)}
    (h : Steps cfg t d st tr d' st') (h' : Steps cfg t d' st' tr' d'' st'') : Steps cfg t d st (tr ++ tr') d'' st'' := by
  induction h with
  | nil => exact h'
  | look hl _ ih => exact .look hl (ih h')
  | other hu _ ih => exact .other hu (ih h')
  | enter hc _ ih => exact .enter hc (ih h')
  | leave _ ih => exact .leave (ih h')
  | user h1 h2 _ ih => exact .user h1 h2 (ih h')
  | inner h1 h2 h3 _ ih => exact .inner h1 h2 h3 (ih h')
  | act ha _ ih => exact .act ha (ih h')

theorem steps_step {lst : Tid → List Frame × Pos} {w w' : World} {t : Tid} {x : Option Obs} {v : MId → Spec.Mon.Mem} {l : List Frame × Pos}
    (h : ∀ u, u ≠ .env → Steps (cfg env) u 0 .idle w.trace (lst u).2.1 (lst u).2.2.stage)
    (ht : w'.trace = w.trace ++ (x.map fun x => (t, x)).toList)
    (hs : Step1 (cfg env) t v (lst t).2.1 (lst t).2.2.stage x l.2.1 l.2.2.stage) :
    ∀ u, u ≠ .env → Steps (cfg env) u 0 .idle w'.trace (fset lst t l u).2.1 (fset lst t l u).2.2.stage := by
  intro u hu
  rw [ht]
  cases x with
  | none =>
    by_cases hut : u = t
    · subst hut; rw [fset_same]; exact (h u hu).trans (way_steps hs)
    · rw [fset_ne _ _ hut]; exact (h u hu).trans .nil
  | some x =>
    by_cases hut : u = t
    · subst hut; rw [fset_same]; exact (h u hu).trans (way_steps hs)
    · rw [fset_ne _ _ hut]; exact (h u hu).trans (.other (Ne.symm hut) .nil)

/-- The pair a thread has in its hands, as in the course of sequentially consistent executions. -/
theorem Inv.course {lst : Tid → List Frame × Pos} {w : World} (h : Inv env lst w) (t : Tid) : know (lst t).2 w := by
  obtain ⟨loc, ho⟩ := h.own
  refine ⟨fun q p hp => ?_, fun p ev m hi => ?_⟩
  · obtain ⟨ev, m, hpr, _⟩ := ho.full q p hp
    simp [hpr]
  · obtain ⟨b, hat, hb⟩ := h.link t
    exact item_known ho hat (hb.trans hi)

theorem invariant (env : Env) : Invariant env (proto2 env) idle2 task2 fin2 (Inv env) where
  know := fun lst w t h => ⟨(own_invariant env).know _ w t h.own, h.course t⟩
  op := fun lst w t o h ha he => by
    have hm := lmove_of_allowed (w := w) ha.1
    have ho := (own_invariant env).op (fun t => (lst t).1) w t o h.own ha.1 he
    refine ⟨?_, ?_, set_link h.link (link_op (h.link t) hm ha.2), ?_⟩
    · rw [fset_fst]; exact ho
    · rw [fset_fst]; exact (task_preserved env).op _ w t o _ h.own h.tasks hm he
    · exact steps_step h.steps (exec_trace t o w) (pos_step (h.course t) ha.2 (link_bare (h.link t) hm))
  ret := fun lst w t h hf => by
    refine ⟨?_, ?_, set_link h.link link_idle, ?_⟩
    · rw [fset_fst]; exact (own_invariant env).ret _ w t h.own hf.1
    · rw [fset_fst]; exact (task_preserved env).ret _ w t h.own h.tasks hf.1
    · refine steps_step (x := none) (v := memOf w) h.steps (by simp) ?_
      rcases hf.2 with ⟨h1, _⟩ | ⟨s, cm, h1⟩
      · rw [h1]; exact .stay
      · rw [h1]; exact .look .quit
  thr := fun lst w t x h hf => by
    refine ⟨?_, ?_, set_link h.link link_idle, ?_⟩
    · rw [fset_fst]; exact (own_invariant env).thr _ w t x h.own hf.1
    · rw [fset_fst]; exact (task_preserved env).thr _ w t x h.own h.tasks hf.1
    · refine steps_step (x := some (.uncaught x)) (v := memOf w) h.steps rfl ?_
      rcases hf.2 with ⟨h1, n, rfl⟩ | h1
      · rw [h1]; exact .act (.client rfl)
      · rw [h1]; exact .act .dies
  dispatch := fun lst w e i j s m h hl hi hj => by
    have hl1 : (fun t => (lst t).1) (.worker e i) = [] := by simp only [hl]
    refine ⟨?_, ?_, set_link h.link ⟨_, .drain rfl, rfl⟩, ?_⟩
    · rw [fset_fst]; exact (own_invariant env).dispatch _ w e i j s m h.own hl1 hi hj
    · rw [fset_fst]; exact (task_preserved env).dispatch _ w e i j s m h.own h.tasks hl1 hi hj
    · refine steps_step (x := none) (v := memOf w) h.steps (by simp) ?_
      obtain ⟨h1, h2⟩ := h.tasks.tasks e s m (List.mem_of_getElem? hj)
      rw [hl]
      exact .look (.begin (by rw [← h1]; rfl) h2)
  interrupt := fun lst w t h => ⟨(own_invariant env).interrupt _ w t h.own, (task_preserved env).interrupt _ w t h.own h.tasks, h.link, h.steps⟩
  shutdown := fun lst w e h => ⟨(own_invariant env).shutdown _ w e h.own, (task_preserved env).shutdown _ w e h.own h.tasks, h.link, h.steps⟩
  dropTasks := fun lst w e h => by
    refine ⟨(own_invariant env).dropTasks _ w e h.own, (task_preserved env).dropTasks _ w e h.own h.tasks, h.link, fun t ht => ?_⟩
    refine (h.steps t ht).trans ?_
    show Steps (cfg env) t _ _ ((w.tasks e).map _) _ _
    induction w.tasks e with
    | nil => exact .nil
    | cons x xs ih => exact .other (Ne.symm ht) ih

theorem inv_blind : Blind (Inv env) := by
  intro lst w w' hs h
  refine ⟨own_blind _ _ _ hs h.own, task_blind _ _ _ hs h.tasks, h.link, ?_⟩
  obtain ⟨_, _, rfl, _⟩ := hs
  exact h.steps

theorem initial {c : Conf} (h : Initial c) : Inv env (fun _ => idle2) c.w where
  own := own_initial env c h
  tasks := task_initial env c h
  link := fun _ => link_idle
  steps := fun t _ => by rw [h.trace]; exact .nil

theorem steps_all {M : Cell → Prop} [DecidablePred M] {c0 c : Conf} {xs : List PChoice} (hM : ∀ p, ¬M (.pair p)) (hi : Initial c0)
    (hr : Plain.runs env M c0 xs = some c) (t : Tid) (ht : t ≠ .env) : ∃ d st, Steps (cfg env) t 0 .idle c.w.trace d st := by
  obtain ⟨lst, _, h⟩ := loose (checked2 env) (invariant env) inv_blind hM hi (initial hi) hr
  exact ⟨_, _, h.steps t ht⟩

/-! ### Pairs

Without drop-duplicate strategies only the owner of a pair reads it, and gets what it contains. -/

section
variable {M : Cell → Prop} [DecidablePred M]

/-- The fields in `M` that are not in pairs. -/
def noPairs (M : Cell → Prop) : Cell → Prop
  | .pair _ => False
  | f => M f

instance : DecidablePred (noPairs M) := fun f => by cases f <;> unfold noPairs <;> infer_instance

omit [DecidablePred M] in
theorem noPairs_iff {f : Cell} (h : ∀ p, f ≠ .pair p) : noPairs M f ↔ M f := by
  cases f <;> first | exact Iff.rfl | exact absurd rfl (h _)

theorem snap_frame (w : World) {l : List Frame} {q : QId} (h : lAllowed env l (.qSnap q)) : ∃ m, (env.strat (env.mach m).strat).dropDup = true := by
  rcases h with ⟨_, h⟩ | ⟨f, rest, rfl, h⟩
  · exact h.elim
  · have hm := move_of_allowed (env := env) (w := w) h
    generalize f.nxt env (.qSnap q) w = f' at hm
    cases hm with
    | fSnap hd => exact ⟨_, hd⟩
    | stPh _ _ ha => cases phAllowed_op ha
    | drPh ha => cases phAllowed_op ha

/-- Nobody has looked into a queue. -/
def NoSnap (H : List Did) : Prop := ∀ t q l, .op t (.qSnap q) l ∉ H

theorem noSnap_act {A : List Act} {lst : Tid → List Frame} {c : Conf} {x : PChoice} (hd : ∀ m, (env.strat (env.mach m).strat).dropDup = false)
    (h : K env A lst c) (hn : NoSnap (dids A)) : NoSnap (dids (A ++ (act c x).toList)) := by
  intro t q l hm
  rw [dids_append] at hm
  rcases List.mem_append.1 hm with hm | hm
  · exact hn t q l hm
  · have : ∃ k, c.thr t = some (.op (.qSnap q) k) := by
      cases ha : act c x with
      | none => rw [ha] at hm; simp [dids] at hm
      | some y =>
        rw [ha] at hm
        simp [dids] at hm
        cases x with
        | sched x =>
          simp only [act, Option.map_eq_some_iff] at ha
          obtain ⟨d, hx, rfl⟩ := ha
          simp only at hm
          subst hm
          cases x with
          | run u =>
            simp only [Spec.HB.did] at hx
            split at hx
            · rename_i o k hk
              injection hx with hx
              injection hx with hu ho hr
              subst hu ho
              exact ⟨k, hk⟩
            · cases hx
          | dispatch e i j =>
            simp only [Spec.HB.did] at hx
            split at hx <;> cases hx
          | _ => cases hx
        | read u v =>
          simp only [act] at ha
          split at ha
          · rename_i o k hk
            rw [Option.map_eq_some_iff] at ha
            obtain ⟨r, hr, rfl⟩ := ha
            simp only at hm
            injection hm with hu ho
            subst hu ho
            exact ⟨k, hk⟩
          · cases ha
    obtain ⟨k, hk⟩ := this
    have h0 := h.ok t
    rw [hk] at h0
    obtain ⟨m, hm⟩ := snap_frame c.w h0.1
    rw [hd m] at hm
    cases hm

/-- A step with a weak read of a pair is a step without. -/
theorem pair_step {A B : List Act} {lst : Tid → List Frame} {c c' : Conf} {x : PChoice} (h : K env A lst c) (hn : NoSnap (dids A))
    (hs : Plain.step env M c x = some c') (hj : ∀ p, M (.pair p) → Justified false (.pair none none) (.pair p) (A ++ ((act c x).toList ++ B))) :
    ∃ y, Plain.step env (noPairs M) c y = some c' := by
  cases x with
  | sched x => exact ⟨.sched x, hs⟩
  | read t v =>
    have hs0 := hs
    simp only [Plain.step] at hs
    split at hs
    next o k hp =>
      split at hs
      next f hf =>
        split at hs
        next hm =>
          by_cases hfp : ∃ p, f = .pair p
          rotate_left
          · refine ⟨.read t v, ?_⟩
            simp only [Plain.step, hp, hf, (noPairs_iff (M := M) fun p hfp' => hfp ⟨p, hfp'⟩).2 hm, if_true]
            exact hs
          obtain ⟨p, rfl⟩ := hfp
          obtain rfl : o = .getPair p := by
            cases o <;> simp only [source, Option.some.injEq, reduceCtorEq, Cell.pair.injEq] at hf
            subst hf
            rfl
          cases v <;> simp only [execRead, Option.map_none, reduceCtorEq] at hs
          rename_i e m
          cases he : execRead t (.getPair p) (.pair e m) c.w with
          | none => simp only [execRead] at he; split at he <;> cases he
          | some r =>
            have hact : act c (.read t (.pair e m)) = some (.op t (.getPair p) r.1, some (.pair p, .pair e m)) := by simp [act, hp, he, source]
            have hj := hj _ hm
            rw [hact] at hj
            have h0 := h.ok t
            rw [hp] at h0
            rcases getPair_frame c.w h0.1 with ⟨m1, ev, ps, rest, hl⟩ | ⟨s, cm, ev, m1, rest, hl⟩
            · have hmk := h.j.1.mark t (.fire m1 ev (.scan (p :: ps))) (by rw [hl]; exact List.mem_cons_self)
              obtain ⟨s, l, g1, _⟩ := (hmk p List.mem_cons_self).2
              exact absurd (List.mem_of_getElem? g1) (hn _ _ _)
            · have hmine : p ∈ ownedL (lst t) := by rw [hl]; simp [Frame.owned]
              have hv : Content.pair e m = content c.w (.pair p) :=
                reads_last_of (r0 := (exec t (.getPair p) c.w).1) rfl (fun k d h1 h2 => Past.hb (x := .op t (.getPair p) _) (h.j.1.own t p hmine k d h1 h2))
                  (fun i j d d' h1 h2 h3 h4 h5 => HB.snoc (h.j.1.ww p i j d d' h1 h2 h3 h4 h5)) (h.last p) hj
              refine ⟨.sched (.run t), ?_⟩
              show Verif.step env c (.run t) = some c'
              rw [← hs]
              have hp' := (execRead_content (t := t) (o := .getPair p) (f := .pair p) (w := c.w) rfl)
              rw [← hv] at hp'
              simp only [execRead] at hp'
              rw [hp']
              simp [Verif.step, hp, runThread, enabled]
        · cases hs
      · cases hs
    · cases hs

theorem pair_runs {A : List Act} {lst : Tid → List Frame} {c c' : Conf} {xs : List PChoice} (hd : ∀ m, (env.strat (env.mach m).strat).dropDup = false)
    (h : K env A lst c) (hn : NoSnap (dids A))
    (hs : Plain.runs env M c xs = some c') (hj : ∀ p, M (.pair p) → Justified false (.pair none none) (.pair p) (A ++ acts env M c xs)) :
    ∃ ys, Plain.runs env (noPairs M) c ys = some c' := by
  induction xs generalizing c A lst with
  | nil => exact ⟨[], hs⟩
  | cons x xs ih =>
    simp only [Plain.runs] at hs
    split at hs
    · cases hs
    next c1 h1 =>
      have hh : acts env M c (x :: xs) = (act c x).toList ++ acts env M c1 xs := by simp only [acts, h1]
      rw [hh] at hj
      have key : ∃ lst', K env (A ++ (act c x).toList) lst' c1 := by
        cases x with
        | sched y => exact k_sched h h1
        | read t v => exact k_read h h1 hj
      obtain ⟨l1, h2⟩ := key
      obtain ⟨y, hy⟩ := pair_step h hn h1 hj
      rw [← List.append_assoc] at hj
      obtain ⟨ys, hys⟩ := ih h2 (noSnap_act hd h hn) hs hj
      exact ⟨y :: ys, by simp only [Plain.runs, hy]; exact hys⟩

end

end Verif.Loose
