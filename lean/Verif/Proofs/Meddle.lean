import Verif.Proofs.Loose
import Verif.Spec.Meddle
/-
Weak reads of listeners and payloads are one more client thread, which writes the values that are read and takes them back.
-/

namespace Verif.Meddle
open Spec.HB Spec.Plain Verif.Plain Verif.Checks Spec.Meddle

/-- The history does not influence what operations do. -/
theorem exec_tr (t : Tid) (o : Op) (w : World) (tr : List (Tid × Obs)) :
    exec t o { w with trace := tr } = ((exec t o w).1, { (exec t o w).2 with trace := tr ++ ((opObs o w).map fun x => (t, x)).toList }) := by
  cases o <;> simp only [exec, opObs] <;> (repeat' split) <;> simp_all [World.log]

theorem execRead_tr {t : Tid} {o : Op} {v : Content} {w : World} {r : o.Res × World} (tr : List (Tid × Obs)) (h : execRead t o v w = some r) :
    ∃ l, (∀ e ∈ l, e.1 = t) ∧ r.2.trace = w.trace ++ l ∧ execRead t o v { w with trace := tr } = some (r.1, { r.2 with trace := tr ++ l }) := by
  cases o <;> cases v <;> simp only [execRead, reduceCtorEq, Option.some.injEq] at h
  · subst h; exact ⟨[], by simp, by simp, by simp [execRead]⟩
  · subst h; exact ⟨[], by simp, by simp, by simp [execRead]⟩
  · split at h <;> cases h
    · exact ⟨[], by simp, by simp, by simp [execRead]⟩
    · exact ⟨[(t, .cb _)], by simp, by simp [World.log]; rfl, by simp [execRead, World.log]⟩
  · split at h <;> cases h
    · exact ⟨[], by simp, by simp, by simp [execRead]⟩
    · refine ⟨[], by simp, by simp, ?_⟩
      rename_i e m _ _
      simp only [List.append_nil]
      cases e <;> cases m <;> simp_all [execRead]
  · subst h; exact ⟨[], by simp, by simp, by simp [execRead]⟩
  · rename_i ev v
    subst h; exact ⟨[(t, .copied w.nextCopy ev v)], by simp, rfl, by simp [execRead, World.log]⟩

/-- `d` is `c` with one more client. -/
structure Rel (n : Nat) (c d : Conf) : Prop where
  w : d.w = { c.w with trace := d.w.trace }
  trace : without n d.w.trace = c.w.trace
  writes : ∀ e ∈ d.w.trace, e.1 = .client n → isWrite e.2
  thr : ∀ t, t ≠ .client n → d.thr t = c.thr t
  idle : c.thr (.client n) = none

theorem without_append {n : Nat} {a b : List (Tid × Obs)} : without n (a ++ b) = without n a ++ without n b := List.filter_append ..

theorem without_other {n : Nat} {a : List (Tid × Obs)} (h : ∀ e ∈ a, e.1 ≠ .client n) : without n a = a :=
  List.filter_eq_self.2 fun e he => by simpa using h e he

theorem Rel.grow {n : Nat} {c d : Conf} (h : Rel n c d) {w' : World} {l : List (Tid × Obs)} {thr thr' : Tid → Option (Prog Unit)} (hl : ∀ e ∈ l, e.1 ≠ .client n)
    (hw : w'.trace = c.w.trace ++ l) (ht : ∀ t, t ≠ .client n → thr' t = thr t) (hi : thr (.client n) = none) :
    Rel n ⟨w', thr⟩ ⟨{ w' with trace := d.w.trace ++ l }, thr'⟩ where
  w := rfl
  trace := by show without n (d.w.trace ++ l) = w'.trace; rw [without_append, h.trace, without_other hl, hw]
  writes := fun e he hn => by
    rcases List.mem_append.1 he with he | he
    · exact h.writes e he hn
    · exact absurd hn (hl e he)
  thr := ht
  idle := hi

theorem fset_agree {n : Nat} {a b : Tid → Option (Prog Unit)} (h : ∀ t, t ≠ .client n → a t = b t) (t : Tid) (x : Option (Prog Unit)) :
    ∀ u, u ≠ .client n → fset a t x u = fset b t x u := by
  intro u hu
  by_cases hut : u = t
  · subst hut; simp
  · simp [fset_ne _ _ hut, h u hu]

variable {env : Env} {M : Cell → Prop} [DecidablePred M]

theorem sched_sim {n : Nat} {c c' d : Conf} {x : Choice} (h : Rel n c d) (hx : ∀ u, x ≠ .begin n u) (hs : Verif.step env c x = some c') :
    ∃ d', Verif.step env d x = some d' ∧ Rel n c' d' ∧ d'.thr (.client n) = d.thr (.client n) := by
  obtain ⟨dw, dt⟩ := d
  obtain ⟨tr, hw⟩ : ∃ tr, dw = { c.w with trace := tr } := ⟨_, h.w⟩
  subst hw
  have hne : ∀ {t p}, c.thr t = some p → t ≠ .client n := by
    rintro t p hp rfl
    rw [h.idle] at hp; cases hp
  cases x with
  | begin k u =>
    have hk : Tid.client k ≠ .client n := by rintro ⟨⟩; exact hx u rfl
    simp only [Verif.step] at hs ⊢
    have := h.thr _ hk
    simp only at this
    rw [this]
    split at hs
    · cases hs
    · cases hs
      refine ⟨_, rfl, ?_, by simp [fset_ne _ _ hk.symm]⟩
      have := h.grow (w' := c.w) (l := []) (by simp) (by simp) (fset_agree h.thr (.client k) (some (u.denote env))) (by simp [fset_ne _ _ hk.symm, h.idle])
      simpa using this
  | run t =>
    simp only [Verif.step] at hs ⊢
    split at hs
    · cases hs
    next p hp =>
      have hn := hne hp
      have := h.thr t hn
      simp only at this
      rw [this, hp]
      cases p with
      | ret a =>
        cases hs
        refine ⟨_, rfl, ?_, by simp [fset_ne _ _ hn.symm]⟩
        have := h.grow (w' := c.w) (l := []) (by simp) (by simp) (fset_agree h.thr t none) (by simp [fset_ne _ _ hn.symm, h.idle])
        simpa using this
      | thr x =>
        cases hs
        refine ⟨_, rfl, ?_, by simp [fset_ne _ _ hn.symm]⟩
        exact h.grow (w' := c.w.log t (.uncaught x)) (l := [(t, .uncaught x)]) (by simpa using hn) (by simp [World.log]) (fset_agree h.thr t none)
          (by simp [fset_ne _ _ hn.symm, h.idle])
      | op o k =>
        simp only [runThread] at hs ⊢
        split at hs
        next he =>
          cases hs
          have he' : enabled t o { c.w with trace := tr } = true := by rw [← he]; cases o <;> rfl
          rw [if_pos he']
          refine ⟨_, rfl, ?_, by simp [fset_ne _ _ hn.symm]⟩
          rw [exec_tr t o c.w tr]
          exact h.grow (by
            intro e he
            cases ho : opObs o c.w <;> simp [ho] at he
            rw [he]; exact hn) (exec_trace t o c.w) (fset_agree h.thr t _) (by simp [fset_ne _ _ hn.symm, h.idle])
        · cases hs
      | call f k =>
        cases hs
        refine ⟨_, rfl, ?_, by simp [fset_ne _ _ hn.symm]⟩
        have := h.grow (w' := c.w) (l := []) (by simp) (by simp) (fset_agree h.thr t (some ((body env f).handle k))) (by simp [fset_ne _ _ hn.symm, h.idle])
        simpa using this
  | dispatch e i j =>
    simp only [Verif.step] at hs ⊢
    have := h.thr (.worker e i) (by simp)
    simp only at this
    rw [this]
    split at hs
    next hi =>
      rw [if_pos hi]
      split at hs
      next s m hn hj =>
        cases hs
        refine ⟨_, rfl, ?_, by simp [fset]⟩
        have := h.grow (w' := { c.w with tasks := fset c.w.tasks e ((c.w.tasks e).eraseIdx j) }) (l := []) (by simp) (by simp)
          (fset_agree h.thr (.worker e i) (some (drain env s m))) (by simp [fset, h.idle])
        simpa using this
      · cases hs
    · cases hs
  | interrupt t =>
    cases hs
    refine ⟨_, rfl, ?_, rfl⟩
    have := h.grow (w' := { c.w with intr := fset c.w.intr t true }) (l := []) (by simp) (by simp) h.thr h.idle
    simpa using this
  | shutdown e now =>
    cases hs
    refine ⟨_, rfl, ?_, rfl⟩
    cases now with
    | false =>
      have := h.grow (w' := { c.w with shut := fset c.w.shut e true }) (l := []) (by simp) (by simp) h.thr h.idle
      simpa using this
    | true =>
      exact h.grow (w' := ({ c.w with shut := fset c.w.shut e true } : World).dropTasks e)
        (l := (c.w.tasks e).map fun t => (Tid.env, Obs.taskDropped t.1 t.2)) (by
          intro x hx
          obtain ⟨y, _, rfl⟩ := List.mem_map.1 hx
          simp) rfl h.thr h.idle

/-- A write of the additional client. -/
def _root_.Verif.Spec.Meddle.Write.op : Write → Op
  | .listener m l => .setListener m l
  | .payload o v => .setPayload o v

def _root_.Verif.Spec.Meddle.Write.cell : Write → Cell
  | .listener m _ => .listener m
  | .payload o _ => .payload o

def _root_.Verif.Spec.Meddle.Write.val : Write → Content
  | .listener _ l => .listener l
  | .payload _ v => .payload v

def _root_.Verif.Spec.Meddle.Write.obs : Write → Obs
  | .listener m l => .listener m l
  | .payload o v => .payload o v

/-- One step of the additional client. -/
theorem write_step {n : Nat} (w : World) (tr : List (Tid × Obs)) {thr : Tid → Option (Prog Unit)} {x : Write} {ws : List Write}
    (h : thr (.client n) = some ((meddler (x :: ws)).denote env)) :
    Verif.step env ⟨{ w with trace := tr }, thr⟩ (.run (.client n)) =
      some ⟨{ store w x.cell x.val with trace := tr ++ [(.client n, x.obs)] }, fset thr (.client n) (some ((meddler ws).denote env))⟩ := by
  simp only [Verif.step, h]
  cases x <;> rfl

/-- Writing the value before it is read, and what should be there afterwards. -/
theorem read_back {t : Tid} {o : Op} {f : Cell} {v : Content} {w : World} {r : o.Res × World} (hf : source o = some f) (hp : (∃ m, f = .listener m) ∨ ∃ e, f = .payload e)
    (h : execRead t o v w = some r) :
    (exec t o (store w f v)).1 = r.1 ∧ store (exec t o (store w f v)).2 f (content r.2 f) = r.2 ∧ ∃ l, (∀ e ∈ l, e.1 = t) ∧ r.2.trace = w.trace ++ l ∧
      ((opObs o (store w f v)).map fun x => (t, x)).toList = l := by
  have hback : ∀ (m : MId) (v : Option LId), fset (fset w.mach m { w.mach m with listener := v }) m { w.mach m with listener := (w.mach m).listener } = w.mach := by
    intro m v
    funext m'
    by_cases hm : m' = m
    · subst hm; simp
    · simp [fset_ne _ _ hm]
  refine ⟨(execRead_store hf (by rcases hp with ⟨_, rfl⟩ | ⟨_, rfl⟩ <;> simp) h).1, ?_⟩
  cases o <;> simp only [source, Option.some.injEq, reduceCtorEq] at hf <;> subst hf <;> cases v <;> simp only [execRead, reduceCtorEq, Option.some.injEq] at h
  · rcases hp with ⟨_, hp⟩ | ⟨_, hp⟩ <;> cases hp
  · subst h
    refine ⟨?_, [], by simp, by simp, by simp [opObs]⟩
    simp only [exec, store, content, fset_same, hback]
  · rename_i m c l
    cases l <;> simp only [Option.some.injEq] at h <;> subst h
    · refine ⟨?_, [], by simp, by simp, by simp [opObs, store]⟩
      simp only [exec, store, content, fset_same, hback]
    · refine ⟨?_, [(t, .cb c)], by simp, rfl, by simp [opObs, store]⟩
      simp only [exec, store, content, fset_same, hback, World.log]
  · rcases hp with ⟨_, hp⟩ | ⟨_, hp⟩ <;> cases hp
  · subst h
    refine ⟨?_, [], by simp, by simp, by simp [opObs]⟩
    simp only [exec, store, content]
    congr 1
    funext o'
    simp only [fset]
    split <;> simp_all
  · rename_i ev v
    subst h
    refine ⟨?_, [(t, .copied w.nextCopy ev v)], by simp, rfl, by simp [opObs, store]⟩
    simp only [exec, store, content, World.log, fset_same]
    congr 1
    funext o'
    simp only [fset]
    split <;> simp_all

theorem plain_runs_append {N : Cell → Prop} [DecidablePred N] {a b d : Conf} {xs ys : List PChoice} (h1 : Plain.runs env N a xs = some b)
    (h2 : Plain.runs env N b ys = some d) : Plain.runs env N a (xs ++ ys) = some d := by
  induction xs generalizing a with
  | nil => cases h1; exact h2
  | cons x xs ih =>
    simp only [Plain.runs, List.cons_append] at h1 ⊢
    split at h1
    · cases h1
    · exact ih h1

theorem plain_one {N : Cell → Prop} [DecidablePred N] {a b : Conf} {x : PChoice} (h : Plain.step env N a x = some b) : Plain.runs env N a [x] = some b := by
  simp [Plain.runs, h]

theorem sched_one {N : Cell → Prop} [DecidablePred N] {a b : Conf} {x : Choice} (h : Verif.step env a x = some b) : Plain.runs env N a [.sched x] = some b :=
  plain_one h

/-- One step, with the writes it needs. -/
theorem plain_sim {n : Nat} {c c' : Conf} {x : PChoice} (hi : c.thr (.client n) = none) (hM : ∀ p, ¬M (.pair p)) (hx : ∀ u, x ≠ .sched (.begin n u))
    (hs : Plain.step env M c x = some c') :
    ∃ ms : List Write, ∀ (ws : List Write) (d : Conf), Rel n c d → d.thr (.client n) = some ((meddler (ms ++ ws)).denote env) →
      ∃ ys d', Plain.runs env (onlyCur M) d ys = some d' ∧ Rel n c' d' ∧ d'.thr (.client n) = some ((meddler ws).denote env) := by
  cases x with
  | sched x =>
    refine ⟨[], fun ws d h hd => ?_⟩
    obtain ⟨d', h1, h2, h3⟩ := sched_sim h (fun u hu => hx u (by rw [hu])) hs
    exact ⟨[.sched x], d', plain_one h1, h2, h3.trans hd⟩
  | read t v =>
    simp only [Plain.step] at hs
    split at hs
    next o k hp =>
      have hn : t ≠ .client n := by rintro rfl; rw [hi] at hp; cases hp
      split at hs
      next f hf =>
        split at hs
        next hMf =>
          obtain ⟨r, he, hs⟩ := Option.map_eq_some_iff.1 hs
          subst hs
          by_cases hc : ∃ m, f = .cur m
          · obtain ⟨m, rfl⟩ := hc
            refine ⟨[], fun ws d h hd => ?_⟩
            obtain ⟨dw, dt⟩ := d
            obtain ⟨tr, hw⟩ : ∃ tr, dw = { c.w with trace := tr } := ⟨_, h.w⟩
            subst hw
            obtain ⟨l, h1, h2, h3⟩ := execRead_tr tr he
            have hp' : dt t = some (.op o k) := (h.thr t hn).trans hp
            refine ⟨[.read t v], ⟨{ r.2 with trace := tr ++ l }, fset dt t (some (k r.1))⟩, plain_one ?_, ?_, ?_⟩
            · simp only [Plain.step, hp', hf]
              rw [if_pos (show onlyCur M (.cur m) from hMf), h3]
              rfl
            · exact h.grow (fun e he => by rw [h1 e he]; exact hn) h2 (fset_agree h.thr t _) (by simp [fset_ne _ _ hn.symm, hi])
            · simpa [fset_ne _ _ hn.symm] using hd
          · obtain ⟨a, b, ha, hb, hca, hcb⟩ : ∃ a b : Write, a.cell = f ∧ b.cell = f ∧ a.val = v ∧ b.val = content r.2 f := by
              cases f with
              | cur m => exact absurd ⟨m, rfl⟩ hc
              | pair p => exact absurd hMf (hM p)
              | listener m =>
                cases v with
                | listener v => exact ⟨.listener m v, .listener m (r.2.mach m).listener, rfl, rfl, rfl, rfl⟩
                | _ => cases o <;> simp_all [execRead, source]
              | payload e =>
                cases v with
                | payload v => exact ⟨.payload e v, .payload e (r.2.payload e), rfl, rfl, rfl, rfl⟩
                | _ => cases o <;> simp_all [execRead, source]
            have hlp : (∃ m, f = .listener m) ∨ ∃ e, f = .payload e := by
              cases a with
              | listener m _ => exact .inl ⟨m, ha.symm⟩
              | payload e _ => exact .inr ⟨e, ha.symm⟩
            obtain ⟨e1, e2, l, e3, e4, e5⟩ := read_back hf hlp he
            refine ⟨[a, b], fun ws d h hd => ?_⟩
            obtain ⟨dw, dt⟩ := d
            obtain ⟨tr, hw⟩ : ∃ tr, dw = { c.w with trace := tr } := ⟨_, h.w⟩
            subst hw
            have hp' : dt t = some (.op o k) := (h.thr t hn).trans hp
            have s1 := write_step (env := env) c.w tr hd
            rw [ha, hca] at s1
            have s2 : Verif.step env ⟨{ store c.w f v with trace := tr ++ [(.client n, a.obs)] }, fset dt (.client n) (some ((meddler (b :: ws)).denote env))⟩ (.run t) =
                some ⟨{ (exec t o (store c.w f v)).2 with trace := tr ++ [(.client n, a.obs)] ++ l },
                  fset (fset dt (.client n) (some ((meddler (b :: ws)).denote env))) t (some (k r.1))⟩ := by
              simp only [Verif.step, fset_ne _ _ hn, hp', runThread]
              have : ∀ w, enabled t o w = true := fun w => by cases o <;> first | rfl | cases hf
              rw [if_pos (this _), exec_tr t o (store c.w f v) _, e5, e1]
            have s3 := write_step (env := env) (n := n) (x := b) (ws := ws) (exec t o (store c.w f v)).2 (tr ++ [(.client n, a.obs)] ++ l)
              (thr := fset (fset dt (.client n) (some ((meddler (b :: ws)).denote env))) t (some (k r.1))) (by simp [fset_ne _ _ hn.symm])
            rw [hb, hcb, e2] at s3
            refine ⟨[.sched (.run (.client n)), .sched (.run t), .sched (.run (.client n))], ⟨{ r.2 with trace := tr ++ [(.client n, a.obs)] ++ l ++ [(.client n, b.obs)] },
              fset (fset (fset dt (.client n) (some ((meddler (b :: ws)).denote env))) t (some (k r.1))) (.client n) (some ((meddler ws).denote env))⟩, ?_, ?_, ?_⟩
            · exact plain_runs_append (sched_one s1) (plain_runs_append (sched_one s2) (sched_one s3))
            · refine ⟨rfl, ?_, ?_, ?_, by simp [fset_ne _ _ hn.symm, hi]⟩
              · have h1 := h.trace
                simp only at h1
                simp only [without_append, h1, e4]
                rw [without_other (a := l) fun e he => by rw [e3 e he]; exact hn]
                simp [without]
              · have h1 := h.writes
                simp only at h1
                have hob : ∀ x : Write, isWrite x.obs := fun x => by cases x <;> exact trivial
                intro e he hen
                simp only [List.mem_append, List.mem_singleton] at he
                rcases he with ((he | he) | he) | he
                · exact h1 e he hen
                · rw [he]; exact hob a
                · rw [e3 e he] at hen; exact absurd hen hn
                · rw [he]; exact hob b
              · intro u hu
                have h1 := h.thr u hu
                by_cases hut : u = t
                · subst hut; simp [fset_ne _ _ hu]
                · simp only at h1
                  simp [fset_ne _ _ hu, fset_ne _ _ hut, h1]
            · exact fset_same ..
        · cases hs
      · cases hs
    · cases hs

theorem plain_idle {n : Nat} {c c' : Conf} {x : PChoice} (hi : c.thr (.client n) = none) (hx : ∀ u, x ≠ .sched (.begin n u))
    (hs : Plain.step env M c x = some c') : c'.thr (.client n) = none := by
  have hfs : ∀ {t p q}, c.thr t = some p → fset c.thr t q (.client n) = none := by
    intro t p q hp
    have : Tid.client n ≠ t := by rintro rfl; rw [hi] at hp; cases hp
    rw [fset_ne _ _ this, hi]
  cases x with
  | sched x =>
    cases x with
    | begin k u =>
      simp only [Plain.step, Verif.step] at hs
      split at hs
      · cases hs
      · cases hs
        have : Tid.client n ≠ .client k := by rintro ⟨⟩; exact hx u rfl
        simp [fset_ne _ _ this, hi]
    | run t =>
      simp only [Plain.step, Verif.step] at hs
      split at hs
      · cases hs
      next p hp =>
        cases p with
        | op o k =>
          simp only [runThread] at hs
          split at hs
          · cases hs; exact hfs hp
          · cases hs
        | _ => cases hs; exact hfs hp
    | dispatch e i j =>
      simp only [Plain.step, Verif.step] at hs
      split at hs
      · split at hs
        · cases hs; simp [fset, hi]
        · cases hs
      · cases hs
    | interrupt t => cases hs; exact hi
    | shutdown e now => cases hs; exact hi
  | read t v =>
    simp only [Plain.step] at hs
    split at hs
    next o k hp =>
      split at hs
      · split at hs
        · obtain ⟨r, he, hs⟩ := Option.map_eq_some_iff.1 hs
          subst hs
          exact hfs hp
        · cases hs
      · cases hs
    · cases hs

theorem plain_runs_sim {n : Nat} {c c' : Conf} {xs : List PChoice} (hi : c.thr (.client n) = none) (hM : ∀ p, ¬M (.pair p)) (hx : ∀ u, .sched (.begin n u) ∉ xs)
    (hs : Plain.runs env M c xs = some c') :
    ∃ ms : List Write, ∀ d : Conf, Rel n c d → d.thr (.client n) = some ((meddler ms).denote env) →
      ∃ ys d', Plain.runs env (onlyCur M) d ys = some d' ∧ Rel n c' d' ∧ d'.thr (.client n) = some ((meddler []).denote env) := by
  induction xs generalizing c with
  | nil => cases hs; exact ⟨[], fun d h hd => ⟨[], d, rfl, h, hd⟩⟩
  | cons x xs ih =>
    simp only [Plain.runs] at hs
    split at hs
    · cases hs
    next c1 h1 =>
      have hx1 : ∀ u, x ≠ .sched (.begin n u) := fun u hu => hx u (by simp [hu])
      obtain ⟨ms1, g1⟩ := plain_sim hi hM hx1 h1
      obtain ⟨ms2, g2⟩ := ih (plain_idle hi hx1 h1) (fun u hu => hx u (by simp [hu])) hs
      refine ⟨ms1 ++ ms2, fun d h hd => ?_⟩
      obtain ⟨ys1, d1, a1, a2, a3⟩ := g1 ms2 d h hd
      obtain ⟨ys2, d2, b1, b2, b3⟩ := g2 d1 a2 a3
      exact ⟨ys1 ++ ys2, d2, plain_runs_append a1 b1, b2, b3⟩

/-- A client that has not been used. -/
def fresh : List PChoice → Nat
  | [] => 0
  | .sched (.begin n _) :: xs => max (n + 1) (fresh xs)
  | _ :: xs => fresh xs

theorem fresh_spec (xs : List PChoice) : ∀ n, fresh xs ≤ n → ∀ u, .sched (.begin n u) ∉ xs := by
  induction xs with
  | nil => intro _ _ _ h; cases h
  | cons x xs ih =>
    intro n hn u h
    rcases List.mem_cons.1 h with h | h
    · subst h
      simp only [fresh] at hn
      omega
    · refine ih n (Nat.le_trans ?_ hn) u h
      cases x with
      | sched x => cases x <;> simp only [fresh] <;> omega
      | read t v => simp [fresh]

/-! ### Weak reads of currentState -/

/-- Equal except for currentState. -/
def CurSim (w w' : World) : Prop := ∃ mach, w' = { w with mach := mach } ∧
  ∀ m, (mach m).started = (w.mach m).started ∧ (mach m).ended = (w.mach m).ended ∧ (mach m).listener = (w.mach m).listener

theorem CurSim.symm {w w' : World} : CurSim w w' → CurSim w' w := by
  rintro ⟨mach, rfl, h⟩
  exact ⟨w.mach, rfl, fun m => ⟨(h m).1.symm, (h m).2.1.symm, (h m).2.2.symm⟩⟩

theorem curSim_store {w : World} {m : MId} {v : Option St} : CurSim w (store w (.cur m) (.state v)) := by
  refine ⟨_, rfl, fun m' => ?_⟩
  by_cases h : m' = m
  · subst h; simp
  · simp [fset_ne _ _ h]

def CurBlind {L : Type} (Inv : (Tid → L) → World → Prop) : Prop := ∀ lst w w', CurSim w w' → Inv lst w → Inv lst w'

section
variable {L : Type} {P : Proto L} {l0 : L} {task : SId → MId → L} {fin : Tid → Except Exc Unit → L → Prop} {Inv : (Tid → L) → World → Prop}

theorem cur_step (hc : Checked env P l0 task fin) (hi : Invariant env P l0 task fin Inv) (hb : CurBlind Inv)
    {c c' : Conf} {x : PChoice} {lst : Tid → L} (ht : ThreadsOk P l0 fin lst c) (hI : Inv lst c.w) (hs : Plain.step env (onlyCur M) c x = some c') :
    ∃ lst', ThreadsOk P l0 fin lst' c' ∧ Inv lst' c'.w := by
  cases x with
  | sched x => exact sound_step hc hi ht hI hs
  | read t v =>
    simp only [Plain.step] at hs
    split at hs
    next o k hp =>
      split at hs
      next f hf =>
        split at hs
        next hMf =>
          obtain ⟨r, he, hs⟩ := Option.map_eq_some_iff.1 hs
          subst hs
          cases f with
          | cur m =>
            cases o <;> simp only [source, reduceCtorEq, Option.some.injEq, Cell.cur.injEq] at hf
            subst hf
            cases v <;> simp only [execRead, reduceCtorEq, Option.some.injEq] at he
            subst he
            rename_i m v
            have hI1 : Inv lst (store c.w (.cur m) (.state v)) := hb _ _ _ curSim_store hI
            have h0 := ht t
            rw [hp] at h0
            have h1 := h0.2 (store c.w (.cur m) (.state v)) (hi.know _ _ t hI1)
            have e1 : (exec t (.getCur m) (store c.w (.cur m) (.state v))).1 = v := by simp [exec, store]
            rw [e1] at h1
            refine ⟨fset lst t (P.nxt (lst t) (.getCur m) (store c.w (.cur m) (.state v))), fun u => ?_, hb _ _ _ curSim_store.symm (hi.op _ _ _ _ hI1 h0.1 rfl)⟩
            by_cases hu : u = t
            · subst hu; simpa using h1
            · simp only [fset_ne _ _ hu]; exact ht u
          | _ => exact hMf.elim
        · cases hs
      · cases hs
    · cases hs

theorem cur_runs (hc : Checked env P l0 task fin) (hi : Invariant env P l0 task fin Inv) (hb : CurBlind Inv)
    {c c' : Conf} {xs : List PChoice} {lst : Tid → L} (ht : ThreadsOk P l0 fin lst c) (hI : Inv lst c.w) (hs : Plain.runs env (onlyCur M) c xs = some c') :
    ∃ lst', ThreadsOk P l0 fin lst' c' ∧ Inv lst' c'.w := by
  induction xs generalizing c lst with
  | nil => cases hs; exact ⟨lst, ht, hI⟩
  | cons x xs ih =>
    simp only [Plain.runs] at hs
    split at hs
    · cases hs
    next c1 h1 =>
      obtain ⟨l1, ht1, hI1⟩ := cur_step hc hi hb ht hI h1
      exact ih ht1 hI1 hs

end

theorem calls_curBlind {g0 : Spec.Calls.G} : CurBlind fun lst w => Own env lst w ∧ CallsInv env g0 lst w := by
  rintro lst w _ ⟨mach, rfl, hm⟩ ⟨⟨loc, h⟩, g, hg, hc⟩
  refine ⟨⟨loc, ⟨h.q, h.pl, h.ow, h.qn, h.pn, h.on, h.fresh, h.full, h.fact, h.fifo⟩⟩, g, hg, ?_⟩
  have := hc.silent (w' := { w with mach := mach }) (t := .env) (l' := lst .env) ?_ (Evo.same (fun m hs => (hm m).1.trans hs) rfl rfl rfl fun _ _ _ => rfl)
    (fun m => (hm m).2.2) (hc.thr .env)
  · rwa [fset_self] at this
  · exact ⟨fun m => (hc.mem.started m).trans (hm m).1.symm, fun m => (hc.mem.ended m).trans (hm m).2.1.symm,
      fun m => by rw [hc.mem.lst m, (hm m).2.2], hc.mem.pay, hc.mem.waiting, hc.mem.tk, hc.mem.copies⟩

/-- Also then every history is accepted. -/
theorem cur_accepted {c0 c : Conf} {xs : List PChoice} (hi : Initial c0) (hr : Plain.runs env (onlyCur M) c0 xs = some c) :
    ∃ g, Spec.Calls.run (callsCfg env) (Spec.Calls.G.init c0.w.payload fun m => (c0.w.mach m).listener.isSome) c.w.trace = some g := by
  obtain ⟨lst, _, _, g, hg, _⟩ := cur_runs (checked env) ((own_invariant env).and (calls_preserved env _)) calls_curBlind (lst := fun _ => [])
    (fun t => by rw [hi.idle t]) ⟨own_initial env c0 hi, calls_initial env hi⟩ hr
  exact ⟨g, hg⟩

end Verif.Meddle

namespace Verif.Meddle
open Spec.Meddle Spec.Calls

/-! ### Histories with and without the additional client -/

/-- The same memory, except for listeners and payloads. -/
structure MemEq (x y : Mem) : Prop where
  started : x.started = y.started
  ended : x.ended = y.ended
  acc : x.acc = y.acc
  tk : x.tk = y.tk
  copies : x.copies = y.copies

theorem MemEq.refl (x : Mem) : MemEq x x := ⟨rfl, rfl, rfl, rfl, rfl⟩

theorem MemEq.step {x y : Mem} (h : MemEq x y) (o : Obs) : MemEq (x.step o) (y.step o) := by
  obtain ⟨h1, h2, h3, h4, h5⟩ := h
  cases o <;> simp only [Mem.step] <;> constructor <;> simp_all

theorem MemEq.write {x y : Mem} (h : MemEq x y) {o : Obs} (ho : isWrite o) : MemEq (x.step o) y := by
  cases o <;> first | exact ho.elim | exact ⟨h.1, h.2, h.3, h.4, h.5⟩

theorem memAt_without {n : Nat} {x y : Mem} {tr : List (Tid × Obs)} (h : MemEq x y) (hw : ∀ e ∈ tr, e.1 = .client n → isWrite e.2) :
    MemEq (memAt x tr) (memAt y (without n tr)) := by
  induction tr generalizing x y with
  | nil => exact h
  | cons e tr ih =>
    have hw' := fun e' (he : e' ∈ tr) => hw e' (List.mem_cons_of_mem _ he)
    by_cases hn : e.1 = .client n
    · have : without n (e :: tr) = without n tr := by simp [without, hn]
      rw [this]
      exact ih (h.write (hw e List.mem_cons_self hn)) hw'
    · have : without n (e :: tr) = e :: without n tr := by simp [without, hn]
      rw [this]
      exact ih (h.step e.2) hw'

theorem during_without {n : Nat} {x y : Mem} {mid : List (Tid × Obs)} {P Q : Mem → Prop} (h : MemEq x y) (hw : ∀ e ∈ mid, e.1 = .client n → isWrite e.2)
    (hPQ : ∀ x y, MemEq x y → P x → Q y) (hd : During x mid P) : During y (without n mid) Q := by
  obtain ⟨a, ⟨b, rfl⟩, hp⟩ := hd
  exact ⟨without n a, ⟨without n b, (without_append).symm⟩, hPQ _ _ (memAt_without h fun e he => hw e (List.mem_append_left _ he)) hp⟩

theorem own_without {n : Nat} {t : Tid} (ht : t ≠ .client n) (d : Nat) (tr : List (Tid × Obs)) : own t d (without n tr) = own t d tr := by
  induction tr generalizing d with
  | nil => rfl
  | cons e tr ih =>
    obtain ⟨u, o⟩ := e
    by_cases hn : u = .client n
    · have : without n ((u, o) :: tr) = without n tr := by simp [without, hn]
      rw [this, ih]
      have hut : u ≠ t := fun h => ht (h.symm.trans hn)
      simp [own, hut]
    · have : without n ((u, o) :: tr) = (u, o) :: without n tr := by simp [without, hn]
      rw [this]
      simp only [own, ih]

theorem without_split {n : Nat} {tr a b : List (Tid × Obs)} {e : Tid × Obs} (h : without n tr = a ++ e :: b) :
    ∃ a' b', tr = a' ++ e :: b' ∧ without n a' = a ∧ without n b' = b := by
  obtain ⟨a', b1, rfl, h1, h2⟩ := List.filter_eq_append_iff.1 h
  obtain ⟨a2, b2, rfl, h3, h4, h5⟩ := List.filter_eq_cons_iff.1 h2
  refine ⟨a' ++ a2, b2, by simp, ?_, h5⟩
  rw [without_append, show without n a2 = [] from List.filter_eq_nil_iff.2 h3, List.append_nil]
  exact h1

theorem without_mem {n : Nat} {tr : List (Tid × Obs)} {e : Tid × Obs} (h : e ∈ without n tr) : e ∈ tr ∧ e.1 ≠ .client n := by
  obtain ⟨h1, h2⟩ := List.mem_filter.1 h
  exact ⟨h1, by simpa using h2⟩

theorem isCall_without {n : Nat} {t : Tid} {k : Api} {tr tr' pre mid : List (Tid × Obs)} {os : List Obs} {r : Option Exc} (h : without n tr' = tr)
    (hc : IsCall tr t k pre mid os r) : ∃ pre' mid', IsCall tr' t k pre' mid' os r ∧ without n pre' = pre ∧ without n mid' = mid ∧
      (∀ e ∈ pre', e ∈ tr') ∧ ∀ e ∈ mid', e ∈ tr' := by
  subst h
  obtain ⟨⟨post, h1⟩, h2⟩ := hc
  have ht : t ≠ .client n := (without_mem (tr := tr') (e := (t, .enter k)) (by rw [h1]; simp)).2
  obtain ⟨a, b, rfl, h3, h4⟩ := without_split h1
  obtain ⟨a', b', rfl, h5, h6⟩ := without_split h4
  refine ⟨a, a', ⟨⟨b', rfl⟩, ?_⟩, h3, h5, fun e he => by simp [he], fun e he => by simp [he]⟩
  rw [← own_without ht, h5]
  exact h2

section
variable {cfg : Cfg} {x y : Mem} {n : Nat} {mid : List (Tid × Obs)} {m : MId} {ev : Ev} {os : List Obs} {r : Option Exc}

theorem isFull_eq (h : MemEq x y) : isFull cfg x m = isFull cfg y m := by
  unfold isFull Mem.waiting
  rw [h.acc, h.tk]

theorem noDup_without (h : MemEq x y) (hw : ∀ e ∈ mid, e.1 = .client n → isWrite e.2) (hd : During x mid (NoDup cfg x m ev)) :
    During y (without n mid) (NoDup cfg y m ev) :=
  during_without h hw (fun a b hab hp hdd e he => hp hdd e (by rw [h.acc, hab.tk]; exact he)) hd

theorem admitted_without (h : MemEq x y) (hw : ∀ e ∈ mid, e.1 = .client n → isWrite e.2) (ha : Admitted cfg x mid m ev) : Admitted cfg y (without n mid) m ev where
  started := during_without h hw (fun _ _ hab hp => by rw [← hab.started]; exact hp) ha.started
  alive := during_without h hw (fun _ _ hab hp => by rw [← hab.ended]; exact hp) ha.alive
  room := during_without h hw (fun _ _ hab hp => by rw [← isFull_eq hab]; exact hp) ha.room
  fresh := noDup_without h hw ha.fresh

theorem fire_without (h : MemEq x y) (hw : ∀ e ∈ mid, e.1 = .client n → isWrite e.2) (hf : FireFate cfg x mid m ev os r) :
    LooseFate cfg y (without n mid) m ev os r := by
  have hs : ∀ {b}, During x mid (fun mem => mem.started m = b) → During y (without n mid) fun mem => mem.started m = b :=
    during_without h hw fun _ _ hab hp => by rw [← hab.started]; exact hp
  have he : ∀ {b}, During x mid (fun mem => mem.ended m = b) → During y (without n mid) fun mem => mem.ended m = b :=
    during_without h hw fun _ _ hab hp => by rw [← hab.ended]; exact hp
  cases hf with
  | before h1 => exact .before (hs h1)
  | after h1 h2 => exact .after (hs h1) (he h2)
  | full h1 h2 h3 h4 => exact .full (hs h1) (he h2) (during_without h hw (fun _ _ hab hp => by rw [← isFull_eq hab]; exact hp) h3) (noDup_without h hw h4)
  | dropped h1 h2 h3 => exact .dropped h1 (hs h2) (he h3)
  | queued h1 _ => exact .queued (admitted_without h hw h1)
  | refused h1 _ => exact .refused (admitted_without h hw h1)
  | queuedCopy h1 _ h3 => exact .queuedCopy (admitted_without h hw h1) (during_without h hw (fun _ _ hab hp => by rw [← hab.copies]; exact hp.2) h3)
  | refusedCopy h1 _ h3 => exact .refusedCopy (admitted_without h hw h1) (during_without h hw (fun _ _ hab hp => by rw [← hab.copies]; exact hp.2) h3)

theorem stop_without (h : MemEq x y) (hw : ∀ e ∈ mid, e.1 = .client n → isWrite e.2) (hf : StopFate cfg x mid m os r) : StopFate cfg y (without n mid) m os r := by
  cases hf with
  | already h1 => exact .already (during_without h hw (fun _ _ hab hp => by rw [← hab.ended]; exact hp) h1)
  | ended => exact .ended

theorem startIn_without {s : Option St} (h : MemEq x y) (hw : ∀ e ∈ mid, e.1 = .client n → isWrite e.2) (hf : StartInFate cfg x mid m s os r) :
    StartInFate cfg y (without n mid) m s os r := by
  cases hf with
  | failed h1 => exact .failed h1
  | already h1 h2 => exact .already h1 (during_without h hw (fun _ _ hab hp => by rw [← hab.started]; exact hp) h2)
  | ok h1 h2 => exact .ok h1 h2

theorem tailObs_ran (pl : List Spec.Item) : ∀ o ∈ ran pl, tailObs m o := by
  induction pl with
  | nil => intro o h; cases h
  | cons it pl ih =>
    intro o ho
    cases it <;> simp only [ran] at ho
    case cb c =>
      rcases List.mem_cons.1 ho with rfl | ho
      · exact .inl ⟨_, rfl⟩
      · rcases List.mem_cons.1 ho with rfl | ho
        · exact .inr (.inl ⟨_, _, rfl⟩)
        · exact ih o ho
    all_goals exact ih o ho

theorem start_without (h : MemEq x y) (hw : ∀ e ∈ mid, e.1 = .client n → isWrite e.2) (hf : StartFate cfg x mid m os r) :
    LooseStart cfg y (without n mid) m os r := by
  cases hf with
  | failed h1 => exact .failed h1
  | already h1 h2 => exact .already h1 (during_without h hw (fun _ _ hab hp => by rw [← hab.started]; exact hp) h2)
  | ok h1 h2 _ =>
    refine .entered h1 h2 (fun o ho => ?_) fun _ => by simp
    rcases List.mem_append.1 ho with ho | ho
    · exact tailObs_ran _ o ho
    · rw [List.mem_singleton.1 ho]; exact .inr (.inr rfl)
  | threw h1 h2 _ _ =>
    refine .entered h1 h2 (fun o ho => ?_) fun h => by cases h
    rcases List.mem_append.1 ho with ho | ho
    · exact tailObs_ran _ o ho
    · simp only [List.mem_cons, List.not_mem_nil, or_false] at ho
      rcases ho with rfl | rfl
      · exact .inl ⟨_, rfl⟩
      · exact .inr (.inl ⟨_, _, rfl⟩)
  | swapped h1 h2 _ h4 h5 => exact .entered h1 h2 h4 h5

end
end Verif.Meddle
