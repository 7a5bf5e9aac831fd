import Verif.Proofs.Loose
/-
Executions in which the check for duplicates may find any events in the pairs it looks at: invariants that do not depend on what it finds hold all the same.
-/

namespace Verif.Stale
open Spec.HB Spec.Plain Verif.Plain Verif.Checks Verif.Loose

/-- What follows is not what a worker does after it has read its pair. -/
def Scanning {p : PairId} (k : (Op.getPair p).Res → Prog Unit) : Prop := ∀ (x : Ev × MId) m k', k (some x) ≠ .op (.getEnded m) k'

/-- A step of an execution with arbitrary reads of the fields in `M`, and of pairs in the check for duplicates; but a thread finds what it has put there itself. -/
inductive CStep (env : Env) (M : Cell → Prop) [DecidablePred M] : Conf → Conf → Prop
  | plain {c c' : Conf} {x : PChoice} : Plain.step env M c x = some c' → CStep env M c c'
  | check {c : Conf} {t : Tid} {p : PairId} {k : (Op.getPair p).Res → Prog Unit} (x : Ev × MId) : c.thr t = some (.op (.getPair p) k) → Scanning k →
      (∀ q, p ∈ c.w.queue q → OneProducer env q t c.w.trace → c.w.pair p = some x) → CStep env M c { c with thr := fset c.thr t (some (k (some x))) }

inductive CRuns (env : Env) (M : Cell → Prop) [DecidablePred M] : Conf → Conf → Prop
  | refl (c : Conf) : CRuns env M c c
  | step {a b c : Conf} : CStep env M a b → CRuns env M b c → CRuns env M a c

/-- The pair `p` with another content. -/
abbrev put (w : World) (p : PairId) (x : Ev × MId) : World := { w with pair := fset w.pair p (some x) }

variable {env : Env}

theorem scan_nxt {w : World} {m : MId} {ev : Ev} {p : PairId} {ps : List PairId} {rest : List Frame} (x : Ev × MId) :
    lNxt env (.fire m ev (.scan (p :: ps)) :: rest) (.getPair p) (put w p x) = .fire m ev (if x.1.eqv ev then .dup else .scan ps) :: rest := by
  simp [lNxt, Frame.nxt, fateNxt]

theorem scan_know {w : World} {m : MId} {ev : Ev} {p : PairId} {ps : List PairId} {rest : List Frame} (x : Ev × MId)
    (h : lKnow (.fire m ev (.scan (p :: ps)) :: rest) w) : lKnow (.fire m ev (.scan (p :: ps)) :: rest) (put w p x) := by
  refine ⟨fun q p' hp' => ?_, fun s cm p' ev' m' rest' hl' => (by cases hl'), fun m' ev' todo rest' hl' p' hp' => ?_⟩
  · by_cases hpp : p' = p
    · subst hpp; simp
    · simp only [fset_ne _ _ hpp]; exact h.1 q p' hp'
  · by_cases hpp : p' = p
    · subst hpp; simp
    · simp only [fset_ne _ _ hpp]; exact h.2.2 m' ev' todo rest' hl' p' hp'

/-- A check goes on with the next pair, or it is over. -/
theorem scanning_of_scan {t : Tid} {w : World} {m : MId} {ev : Ev} {p : PairId} {ps : List PairId} {rest : List Frame} {k : (Op.getPair p).Res → Prog Unit}
    {Q : Except Exc Unit → List Frame → Prop}
    (hk : lKnow (.fire m ev (.scan (p :: ps)) :: rest) w) (h : (proto env).Ok t (.op (.getPair p) k) (.fire m ev (.scan (p :: ps)) :: rest) Q) : Scanning k := by
  intro x m' k' he
  have h1 := h.2 (put w p x) (scan_know x hk)
  have h2 : (exec t (.getPair p) (put w p x)).1 = some x := by simp [exec]
  rw [h2, he] at h1
  have h3 : lAllowed env (lNxt env (.fire m ev (.scan (p :: ps)) :: rest) (.getPair p) (put w p x)) (.getEnded m') := h1.1
  rw [scan_nxt] at h3
  rcases h3 with ⟨h3, _⟩ | ⟨f, rest', h3, h4⟩
  · simp only [callable] at h3
    split at h3 <;> cases h3
  · cases h3
    split at h4
    · exact h4
    · cases ps <;> exact h4

/-- A protocol that includes the protocol of frames. -/
structure Over {L : Type} (env : Env) (P : Proto L) (fin : Tid → Except Exc Unit → L → Prop) (proj : L → List Frame) : Prop where
  allowed : ∀ l o, P.allowed l o → lAllowed env (proj l) o
  nxt : ∀ l o w, proj (P.nxt l o w) = lNxt env (proj l) o w
  know : ∀ l w, P.know l w → lKnow (proj l) w
  pre : ∀ c l, P.pre c l → lPre env c (proj l)
  fin : ∀ t r l, fin t r l → Verif.fin t r (proj l)

theorem over_self (env : Env) : Over env (proto env) Verif.fin id :=
  ⟨fun _ _ h => h, fun _ _ _ => rfl, fun _ _ h => h, fun _ _ h => h, fun _ _ _ h => h⟩

theorem over_course (env : Env) : Over env (Course.proto2 env) Course.fin2 Prod.fst :=
  ⟨fun _ _ h => h.1, fun _ _ _ => rfl, fun _ _ h => h.1, fun _ _ h => h.1, fun _ _ _ h => h.1⟩

/-- Does not depend on what a check for duplicates finds. -/
structure Rash {L : Type} (env : Env) (P : Proto L) (proj : L → List Frame) (Inv : (Tid → L) → World → Prop) : Prop where
  know : ∀ lst w t m ev p ps rest x, Inv lst w → proj (lst t) = .fire m ev (.scan (p :: ps)) :: rest → P.know (lst t) (put w p x)
  read : ∀ lst w t m ev p ps rest x, Inv lst w → proj (lst t) = .fire m ev (.scan (p :: ps)) :: rest → P.allowed (lst t) (.getPair p) →
    (∀ q, p ∈ w.queue q → OneProducer env q t w.trace → w.pair p = some x) → Inv (fset lst t (P.nxt (lst t) (.getPair p) (put w p x))) w

section
variable {L : Type} {P : Proto L} {l0 : L} {task : SId → MId → L} {fin : Tid → Except Exc Unit → L → Prop} {Inv : (Tid → L) → World → Prop}
  {proj : L → List Frame} {M : Cell → Prop} [DecidablePred M]

/-- A worker asks next whether the machine has ended. -/
theorem scan_of_scanning (ho : Over env P fin proj) {t : Tid} {w : World} {l : L} {p : PairId} {k : (Op.getPair p).Res → Prog Unit}
    (hk : P.know l w) (h : P.Ok t (.op (.getPair p) k) l (fin t)) (hs : Scanning k) : ∃ m ev ps rest, proj l = .fire m ev (.scan (p :: ps)) :: rest := by
  rcases getPair_frame w (ho.allowed _ _ h.1) with h1 | ⟨s, cm, ev, m, rest, hl⟩
  · exact h1
  · exfalso
    have h1 := h.2 w hk
    have h2 : (exec t (.getPair p) w).1 = some (ev, m) := (ho.know _ _ hk).2.1 s cm p ev m rest hl
    rw [h2] at h1
    have h3 : proj (P.nxt l (.getPair p) w) = .drain s cm (.known p ev m) :: rest := by rw [ho.nxt, hl]; rfl
    have hs := hs (ev, m)
    generalize k (some (ev, m)) = pr at h1 hs
    cases pr with
    | ret a =>
      have := ho.fin _ _ _ h1
      rw [h3] at this
      rcases this with ⟨_, h⟩ | ⟨_, _, h⟩ <;> cases h
    | thr x =>
      have := ho.fin _ _ _ h1
      rw [h3] at this
      rcases this with ⟨_, h⟩ | ⟨_, _, h⟩ <;> cases h
    | call c k' =>
      have := ho.pre _ _ h1.1
      rw [h3] at this
      by_cases hd : ∃ s m, c = .drain s m
      · obtain ⟨_, _, rfl⟩ := hd
        cases this
      · cases lPre_callable env this fun s m h => hd ⟨s, m, h⟩
    | op o k' =>
      have h4 := ho.allowed _ _ h1.1
      rw [h3] at h4
      have h5 : ∃ m', o = .getEnded m' := by
        have key : ∀ o, (callable (.drain s cm (.known p ev m) :: rest) ∧ userOp o) ∨
            (∃ f rest', Frame.drain s cm (.known p ev m) :: rest = f :: rest' ∧ f.allowed env o) → ∃ m', o = .getEnded m' := by
          rintro o (⟨h, _⟩ | ⟨f, rest', h, h'⟩)
          · cases h
          · cases h
            cases o <;> first | exact ⟨_, rfl⟩ | exact h'.elim
        unfold lAllowed at h4
        split at h4
        · cases h4
        · obtain ⟨_, _, he, hlv⟩ := h4
          cases he
          cases hlv
        · exact key _ h4
      obtain ⟨m', rfl⟩ := h5
      exact hs m' k' rfl

theorem stale_step (ho : Over env P fin proj) (hc : Checked env P l0 task fin) (hi : Invariant env P l0 task fin Inv) (hb : Blind Inv) (hr : Rash env P proj Inv)
    (hM : ∀ p, ¬M (.pair p)) {c c' : Conf} {lst : Tid → L} (ht : ThreadsOk P l0 fin lst c) (hI : Inv lst c.w) (hs : CStep env M c c') :
    ∃ lst', ThreadsOk P l0 fin lst' c' ∧ Inv lst' c'.w := by
  cases hs with
  | plain hs => exact loose_step hc hi hb hM ht hI hs
  | @check t p k x hp hsc hx =>
    have h0 := ht t
    rw [hp] at h0
    obtain ⟨m, ev, ps, rest, hl⟩ := scan_of_scanning ho (hi.know _ _ t hI) h0 hsc
    have h1 := h0.2 _ (hr.know _ _ t _ _ _ _ _ x hI hl)
    have h2 : (exec t (.getPair p) (put c.w p x)).1 = some x := by simp [exec]
    rw [h2] at h1
    refine ⟨_, fun u => ?_, hr.read _ _ t _ _ _ _ _ x hI hl h0.1 hx⟩
    by_cases hu : u = t
    · subst hu; simpa using h1
    · simp only [fset_ne _ _ hu]; exact ht u

theorem stale (ho : Over env P fin proj) (hc : Checked env P l0 task fin) (hi : Invariant env P l0 task fin Inv) (hb : Blind Inv) (hr : Rash env P proj Inv)
    (hM : ∀ p, ¬M (.pair p)) {c0 c : Conf} (h0 : Initial c0) (hI : Inv (fun _ => l0) c0.w) (hs : CRuns env M c0 c) :
    ∃ lst, ThreadsOk P l0 fin lst c ∧ Inv lst c.w := by
  have key : ∀ {a b : Conf}, CRuns env M a b → ∀ lst, ThreadsOk P l0 fin lst a → Inv lst a.w → ∃ lst', ThreadsOk P l0 fin lst' b ∧ Inv lst' b.w := by
    intro a b h
    induction h with
    | refl => exact fun lst h1 h2 => ⟨lst, h1, h2⟩
    | step hs _ ih =>
      intro lst h1 h2
      obtain ⟨l, h3, h4⟩ := stale_step ho hc hi hb hr hM h1 h2 hs
      exact ih l h3 h4
  exact key hs (fun _ => l0) (fun t => by rw [h0.idle t]) hI

end

/-! ### Invariants -/

/-- What may become of a check. -/
def Goes (env : Env) (w : World) (t : Tid) (ev : Ev) (p : PairId) (ps : List PairId) (g : Fate) : Prop :=
  g = .dup ∨ (g = .scan ps ∧ ∀ q, p ∈ w.queue q → OneProducer env q t w.trace → Clear w p ev)

theorem scan_frames {lst : Tid → List Frame} {t : Tid} {m : MId} {ev : Ev} {p : PairId} {ps : List PairId} {rest : List Frame} {w : World} (x : Ev × MId)
    (hl : lst t = .fire m ev (.scan (p :: ps)) :: rest) (hx : ∀ q, p ∈ w.queue q → OneProducer env q t w.trace → w.pair p = some x) :
    ∃ g, fset lst t ((proto env).nxt (lst t) (.getPair p) (put w p x)) = fset lst t (.fire m ev g :: rest) ∧ Goes env w t ev p ps g := by
  refine ⟨_, congrArg (fset lst t) (by rw [hl]; exact scan_nxt x), ?_⟩
  split
  · exact .inl rfl
  next hne =>
    refine .inr ⟨rfl, fun q h1 h2 en m' he => ?_⟩
    rw [hx q h1 h2] at he
    cases he
    simpa using hne

/-- Does not care how far a check has come. -/
def Numb (env : Env) (J : (Tid → List Frame) → World → Prop) : Prop := ∀ lst w t m ev p ps rest g, J lst w → lst t = .fire m ev (.scan (p :: ps)) :: rest →
  Goes env w t ev p ps g → J (fset lst t (.fire m ev g :: rest)) w

theorem Numb.and {A B : (Tid → List Frame) → World → Prop} (ha : Numb env A) (hb : Numb env B) : Numb env fun lst w => A lst w ∧ B lst w :=
  fun lst w t m ev p ps rest g h hl hg => ⟨ha lst w t m ev p ps rest g h.1 hl hg, hb lst w t m ev p ps rest g h.2 hl hg⟩

theorem Numb.rash {J : (Tid → List Frame) → World → Prop} (hj : Numb env J) (hk : ∀ lst w, J lst w → Own env lst w) : Rash env (proto env) id J where
  know := fun lst w t m ev p ps rest x h hl => by
    have h1 : lKnow (lst t) w := own_know t (hk _ _ h)
    have hl : lst t = _ := hl
    show lKnow (lst t) _
    rw [hl] at h1 ⊢
    exact scan_know x h1
  read := fun lst w t m ev p ps rest x h hl _ hx => by
    obtain ⟨g, h1, h2⟩ := scan_frames (env := env) (w := w) x hl hx
    rw [h1]
    exact hj lst w t m ev p ps rest g h hl h2

theorem own_numb : Numb env (Own env) := by
  rintro lst w t m ev p ps rest g ⟨loc, h⟩ hl hg
  have hown : (Frame.fire m ev g).owned = [] := by rcases hg with rfl | ⟨rfl, _⟩ <;> rfl
  refine ⟨loc, h.same (SameQ.refl _) (by rw [hl, ownedL_cons, ownedL_cons, hown]; rfl) fun f hf => ?_⟩
  rcases List.mem_cons.1 hf with rfl | hf
  · rcases hg with rfl | ⟨rfl, _⟩
    · trivial
    · intro p' hp'
      exact h.fact t (.fire m ev (.scan (p :: ps))) (by rw [hl]; exact List.mem_cons_self) p' (List.mem_cons_of_mem _ hp')
  · exact h.fact t f (by rw [hl]; exact List.mem_cons_of_mem _ hf)

theorem task_numb : Numb env (TaskInv env) := by
  rintro lst w t m ev p ps rest g h hl hg
  refine ⟨h.tasks, fun u f hf => ?_, fun u => ?_, h.taken⟩
  · by_cases hu : u = t
    · subst hu
      rw [fset_same] at hf
      rcases List.mem_cons.1 hf with rfl | hf
      · trivial
      · exact h.home u f (by rw [hl]; exact List.mem_cons_of_mem _ hf)
    · rw [fset_ne _ _ hu] at hf
      exact h.home u f hf
  · by_cases hu : u = t
    · subst hu
      rw [fset_same]
      obtain ⟨d, b, hat⟩ := h.shape u
      rw [hl] at hat
      cases hat with
      | drain hd => cases hd
      | cons _ hat => exact ⟨_, _, .cons rfl hat⟩
    · rw [fset_ne _ _ hu]
      exact h.shape u

theorem stacks_numb : Numb env Stacks := by
  rintro lst w t m ev p ps rest g h hl hg
  refine ⟨fun u f hf => ?_, fun u m' ev' f hf => ?_⟩
  · by_cases hu : u = t
    · subst hu
      rw [fset_same] at hf
      exact h.tail u f (by rw [hl]; exact hf)
    · rw [fset_ne _ _ hu] at hf
      exact h.tail u f hf
  · by_cases hu : u = t
    · subst hu
      rw [fset_same] at hf
      rcases List.mem_cons.1 hf with hf | hf
      · cases hf
        exact h.fired u m ev _ (by rw [hl]; exact List.mem_cons_self)
      · exact h.fired u m' ev' f (by rw [hl]; exact List.mem_cons_of_mem _ hf)
    · rw [fset_ne _ _ hu] at hf
      exact h.fired u m' ev' f hf

theorem covered_numb {q : QId} {e : EId} : Numb env (Covered env q e) := by
  rintro lst w t m ev p ps rest g h hl hg he
  obtain ⟨T, h1, h2, h3⟩ := h he
  refine ⟨T, h1, fun u hu => ?_, h3⟩
  by_cases hut : u = t
  · subst hut
    have := h2 u hu
    rw [hl] at this
    cases this
  · rw [fset_ne _ _ hut]
    exact h2 u hu

theorem bounded_numb {q : QId} {n : Nat} : Numb env (Bounded env q n) := by
  rintro lst w t m ev p ps rest g h hl hg hs P hP
  obtain ⟨I, h1, h2, h3⟩ := h hs P hP
  refine ⟨I, h1, fun u => ?_, h3⟩
  rw [h2 u]
  by_cases hut : u = t
  · subst hut
    rw [fset_same, hl]
    rcases hg with rfl | ⟨rfl, _⟩ <;> rfl
  · rw [fset_ne _ _ hut]

theorem distinct_numb {q : QId} {u : Tid} : Numb env (Distinct env q u) := by
  rintro lst w t m ev p ps rest g h hl hg hd ho
  obtain ⟨h1, h2⟩ := h hd ho
  refine ⟨h1, fun m' ev' f rest' hl' hq => ?_⟩
  by_cases hut : u = t
  · subst hut
    rw [fset_same] at hl'
    cases hl'
    have h3 := h2 _ _ _ _ hl hq
    rcases hg with rfl | ⟨rfl, hg⟩
    · trivial
    · intro p' hp'
      rcases h3 p' hp' with h4 | h4
      · rcases List.mem_cons.1 h4 with rfl | h4
        · exact .inr (hg q hp' ho)
        · exact .inl h4
      · exact .inr h4
  · rw [fset_ne _ _ hut] at hl'
    exact h2 _ _ _ _ hl' hq

theorem flags_numb : Numb env fun _ w => Flags w := fun _ _ _ _ _ _ _ _ _ h _ _ => h

/-! ### Justified reads of pairs -/

section
variable {M : Cell → Prop} [DecidablePred M]

/-- Pairs are written by threads that fire events. -/
def Writers (A : List Act) (w : World) : Prop := ∀ (k : Nat) t p ev m, (dids A)[k]? = some (.op t (.setPair p ev m) ()) → ∃ ev0, (t, .enter (.fire m ev0)) ∈ w.trace

/-- An action is what the thread is about to do. -/
theorem act_op {c : Conf} {x : PChoice} {y : Act} {t : Tid} {o : Op} {r : o.Res} (ha : act c x = some y) (hy : y.1 = .op t o r) : ∃ k, c.thr t = some (.op o k) := by
  cases x with
  | sched x =>
    simp only [act, Option.map_eq_some_iff] at ha
    obtain ⟨d, hx, rfl⟩ := ha
    simp only at hy
    subst hy
    cases x with
    | run u =>
      simp only [Spec.HB.did] at hx
      split at hx
      · rename_i o k hk
        injection hx with hx
        injection hx with hu ho hr
        subst hu ho
        exact ⟨k, hk⟩
      · cases hx
    | dispatch e i j =>
      simp only [Spec.HB.did] at hx
      split at hx <;> cases hx
    | _ => cases hx
  | read u v =>
    simp only [act] at ha
    split at ha
    · rename_i o k hk
      rw [Option.map_eq_some_iff] at ha
      obtain ⟨r, hr, rfl⟩ := ha
      simp only at hy
      injection hy with hu ho
      subst hu ho
      exact ⟨k, hk⟩
    · cases ha

theorem set_frame (w : World) {l : List Frame} {p : PairId} {ev : Ev} {m : MId} (h : lAllowed env l (.setPair p ev m)) : ∃ ev0 g rest, l = .fire m ev0 g :: rest := by
  rcases h with ⟨_, h⟩ | ⟨f, rest, rfl, h⟩
  · exact h.elim
  · have hm := move_of_allowed (env := env) (w := w) h
    generalize f.nxt env (.setPair p ev m) w = f' at hm
    cases hm with
    | fSetRaw => exact ⟨_, _, _, rfl⟩
    | fSetCopied => exact ⟨_, _, _, rfl⟩
    | stPh _ _ ha => cases phAllowed_op ha
    | drPh ha => cases phAllowed_op ha

omit [DecidablePred M] in
theorem writers_act {A : List Act} {lst : Tid → List Frame} {c c' : Conf} {x : PChoice} (ht : ThreadsOk (proto env) [] Verif.fin lst c) (hst : Stacks lst c.w)
    (hg : ∀ y ∈ c.w.trace, y ∈ c'.w.trace) (h : Writers A c.w) : Writers (A ++ (act c x).toList) c'.w := by
  intro k t p ev m hk
  rw [dids_append] at hk
  by_cases hkl : k < (dids A).length
  · rw [List.getElem?_append_left hkl] at hk
    obtain ⟨ev0, he⟩ := h k t p ev m hk
    exact ⟨ev0, hg _ he⟩
  · rw [List.getElem?_append_right (by omega)] at hk
    cases ha : act c x with
    | none => rw [ha] at hk; simp [dids] at hk
    | some y =>
      rw [ha] at hk
      have hy : y.1 = .op t (.setPair p ev m) () := by
        have := List.mem_of_getElem? hk
        simpa [dids, eq_comm] using this
      obtain ⟨k', hk'⟩ := act_op ha hy
      have h0 := ht t
      rw [hk'] at h0
      obtain ⟨ev0, g, rest, hl⟩ := set_frame c.w h0.1
      exact ⟨ev0, hg _ (hst.fired t m ev0 g (by rw [hl]; exact List.mem_cons_self))⟩

omit [DecidablePred M] in
/-- If only one thread fires events at a queue then it has written all that is in the queue. -/
theorem own_writes {A B : List Act} {lst : Tid → List Frame} {c : Conf} {t : Tid} {p : PairId} {k : (Op.getPair p).Res → Prog Unit} {r : (Op.getPair p).Res} {v : Content}
    (h : K env A lst c) (hw : Writers A c.w) (hp : c.thr t = some (.op (.getPair p) k))
    (hj : Justified false (.pair none none) (.pair p) (A ++ (.op t (.getPair p) r, some (.pair p, v)) :: B))
    {q : QId} (hq : p ∈ c.w.queue q) (ho : OneProducer env q t c.w.trace) : v = content c.w (.pair p) := by
  obtain ⟨ev, m, h1, j, ⟨y, hy, hpy⟩, h3⟩ := good_last h hp
  obtain ⟨loc, hown⟩ := h.own
  obtain ⟨ev1, m1, h4, h5⟩ := hown.full q p hq
  rw [h1] at h4
  cases h4
  have hy1 : y.1 = .op t (.setPair p ev m) () := by
    obtain ⟨d, z⟩ := y
    rw [show content c.w (.pair p) = .pair (some ev) (some m) by simp [content, h1]] at hpy
    cases d with
    | take => cases hpy
    | op u o r =>
      have : o = .setPair p ev m := by
        cases z <;> cases o <;> simp only [puts, Option.some.injEq, reduceCtorEq, Prod.mk.injEq, Cell.pair.injEq, Content.pair.injEq, false_and] at hpy <;>
          obtain ⟨rfl, rfl, rfl⟩ := hpy <;> rfl
      subst this
      obtain ⟨ev0, he⟩ := hw j u p ev m (dids_get hy)
      rw [(ho u m ev0 he h5).1]
  have hd := dids_get hy
  rw [hy1] at hd
  have hjr : ∀ r0, HB false (dids A ++ [.op t (.getPair p) r0]) j (dids A).length := fun r0 => .po (get_lt hd) (get_snoc hd) last_snoc rfl
  refine reads_last_of (r0 := r) rfl (fun k d g1 g2 => ?_) (fun i j d d' g1 g2 g3 g4 g5 => HB.snoc (h.j.1.ww p i j d d' g1 g2 g3 g4 g5)) (h.last p) hj
  have hle : k ≤ j := by
    obtain ⟨z, f1, f2⟩ : ∃ z, A[k]? = some z ∧ z.1 = d := by simpa [dids] using g1
    obtain ⟨ev', m', f3⟩ := puts_pair (a := z) (p := p) (by rw [f2]; exact g2)
    exact h3 k _ ⟨z, f1, f3⟩
  rcases Nat.lt_or_eq_of_le hle with hlt | rfl
  · exact .trans (HB.snoc (h.j.1.ww p k j d _ hlt g1 hd g2 rfl)) (hjr r)
  · exact hjr r

/-- A justified read of a pair returns what the pair contains, or it belongs to a check for duplicates. -/
theorem pair_step {A B : List Act} {lst : Tid → List Frame} {c c' : Conf} {x : PChoice} (h : K env A lst c) (hw : Writers A c.w)
    (hs : Plain.step env M c x = some c') (hj : ∀ p, M (.pair p) → Justified false (.pair none none) (.pair p) (A ++ ((act c x).toList ++ B))) :
    CStep env (noPairs M) c c' := by
  cases x with
  | sched x => exact .plain (x := .sched x) hs
  | read t v =>
    have hs0 := hs
    simp only [Plain.step] at hs
    split at hs
    next o k hp =>
      split at hs
      next f hf =>
        split at hs
        next hm =>
          by_cases hfp : ∃ p, f = .pair p
          rotate_left
          · refine .plain (x := .read t v) ?_
            simp only [Plain.step, hp, hf, (noPairs_iff (M := M) fun p hfp' => hfp ⟨p, hfp'⟩).2 hm, if_true]
            exact hs
          obtain ⟨p, rfl⟩ := hfp
          obtain rfl : o = .getPair p := by
            cases o <;> simp only [source, Option.some.injEq, reduceCtorEq, Cell.pair.injEq] at hf
            subst hf
            rfl
          cases v <;> simp only [execRead, Option.map_none, reduceCtorEq] at hs
          rename_i e m
          cases he : execRead t (.getPair p) (.pair e m) c.w with
          | none => simp only [execRead] at he; split at he <;> cases he
          | some r =>
            have hact : act c (.read t (.pair e m)) = some (.op t (.getPair p) r.1, some (.pair p, .pair e m)) := by simp [act, hp, he, source]
            have hj := hj _ hm
            rw [hact] at hj
            have h0 := h.ok t
            rw [hp] at h0
            rcases getPair_frame c.w h0.1 with ⟨m1, ev, ps, rest, hl⟩ | ⟨s, cm, ev, m1, rest, hl⟩
            · have hmk := h.j.1.mark t (.fire m1 ev (.scan (p :: ps))) (by rw [hl]; exact List.mem_cons_self)
              obtain ⟨e', m', rfl, rfl, j, hput⟩ := read_some (hmk p List.mem_cons_self).1 (h.j.1.ww p) h.j.2.2.2.1 hj
              have hx : ∀ q, p ∈ c.w.queue q → OneProducer env q t c.w.trace → c.w.pair p = some (e', m') := by
                intro q hq ho
                obtain ⟨ev1, m1, g1, _⟩ := good_last h hp
                have := own_writes h hw hp hj hq ho
                rw [g1]
                simpa [content, g1, eq_comm] using this
              cases he
              simp only [Option.map_some, Option.some.injEq] at hs
              subst hs
              have hkn : lKnow (lst t) c.w := own_know t h.own
              rw [hl] at hkn h0
              exact .check (e', m') hp (scanning_of_scan hkn h0) hx
            · have hmine : p ∈ ownedL (lst t) := by rw [hl]; simp [Frame.owned]
              have hv : Content.pair e m = content c.w (.pair p) :=
                reads_last_of (r0 := (exec t (.getPair p) c.w).1) rfl (fun k d h1 h2 => Past.hb (x := .op t (.getPair p) _) (h.j.1.own t p hmine k d h1 h2))
                  (fun i j d d' h1 h2 h3 h4 h5 => HB.snoc (h.j.1.ww p i j d d' h1 h2 h3 h4 h5)) (h.last p) hj
              refine .plain (x := .sched (.run t)) ?_
              show Verif.step env c (.run t) = some c'
              rw [← hs]
              have hp' := (execRead_content (t := t) (o := .getPair p) (f := .pair p) (w := c.w) rfl)
              rw [← hv] at hp'
              simp only [execRead] at hp'
              rw [hp']
              simp [Verif.step, hp, runThread, enabled]
        · cases hs
      · cases hs
    · cases hs

omit [DecidablePred M] in
theorem step_grows {c c' : Conf} {x : Choice} (hn : Verif.step env c x = some c') : c.w.trace <+: c'.w.trace := by
  cases x with
  | begin n u =>
    simp only [Verif.step] at hn
    split at hn
    · cases hn
    · cases hn; exact List.prefix_rfl
  | run u =>
    simp only [Verif.step] at hn
    split at hn
    · cases hn
    next q hq =>
      cases q with
      | ret a => cases hn; exact List.prefix_rfl
      | thr x => cases hn; exact ⟨_, rfl⟩
      | op o k =>
        simp only [runThread] at hn
        split at hn
        · cases hn; exact ⟨_, (exec_trace u o _).symm⟩
        · cases hn
      | call f k => cases hn; exact List.prefix_rfl
  | dispatch e' k' n =>
    simp only [Verif.step] at hn
    split at hn
    · split at hn
      · cases hn; exact List.prefix_rfl
      · cases hn
    · cases hn
  | interrupt u => cases hn; exact List.prefix_rfl
  | shutdown e now =>
    cases hn
    cases now with
    | false => exact List.prefix_rfl
    | true => exact ⟨_, rfl⟩

theorem read_grows {t : Tid} {o : Op} {v : Content} {w : World} {r : o.Res × World} (h : execRead t o v w = some r) : w.trace <+: r.2.trace := by
  cases o <;> cases v <;> simp only [execRead, reduceCtorEq] at h <;> first
    | (cases h; exact List.prefix_rfl)
    | (cases h; exact ⟨_, rfl⟩)
    | (split at h <;> cases h <;> first | exact List.prefix_rfl | exact ⟨_, rfl⟩)

theorem plain_grows {c c' : Conf} {x : PChoice} (h : Plain.step env M c x = some c') : c.w.trace <+: c'.w.trace := by
  cases x with
  | sched x => exact step_grows h
  | read t v =>
    simp only [Plain.step] at h
    split at h
    · split at h
      · split at h
        · obtain ⟨r, he, rfl⟩ := Option.map_eq_some_iff.1 h
          exact read_grows he
        · cases h
      · cases h
    · cases h

theorem pair_runs {A : List Act} {lst lst' : Tid → List Frame} {c c' : Conf} {xs : List PChoice} (h : K env A lst c)
    (ht : ThreadsOk (proto env) [] Verif.fin lst' c) (hI : Own env lst' c.w ∧ Stacks lst' c.w) (hw : Writers A c.w)
    (hs : Plain.runs env M c xs = some c') (hj : ∀ p, M (.pair p) → Justified false (.pair none none) (.pair p) (A ++ acts env M c xs)) :
    CRuns env (noPairs M) c c' := by
  induction xs generalizing c A lst lst' with
  | nil => cases hs; exact .refl _
  | cons x xs ih =>
    simp only [Plain.runs] at hs
    split at hs
    · cases hs
    next c1 h1 =>
      have hh : acts env M c (x :: xs) = (act c x).toList ++ acts env M c1 xs := by simp only [acts, h1]
      rw [hh] at hj
      have key : ∃ lst', K env (A ++ (act c x).toList) lst' c1 := by
        cases x with
        | sched y => exact k_sched h h1
        | read t v => exact k_read h h1 hj
      obtain ⟨l1, h2⟩ := key
      have hy := pair_step h hw h1 hj
      obtain ⟨l2, h3, h4⟩ := stale_step (over_self env) (checked env) ((own_invariant env).and (stacks_invariant env _)) (own_blind.and stacks_blind)
        ((own_numb.and stacks_numb).rash fun _ _ h => h.1) (fun _ h => h) ht hI hy
      rw [← List.append_assoc] at hj
      exact .step hy (ih h2 h3 h4 (writers_act ht hI.2 (fun y hm => (plain_grows h1).subset hm) hw) hs hj)

end


/-! ### The course of a thread -/

/-- A thread does not look at pairs it holds. -/
def Apart (lst : Tid → List Frame) (_ : World) : Prop := ∀ t m ev ps rest, lst t = .fire m ev (.scan ps) :: rest → ∀ p ∈ ps, p ∉ ownedL rest

theorem Apart.set {lst : Tid → List Frame} {w w' : World} {t : Tid} {l : List Frame} (h : Apart lst w)
    (hl : ∀ m ev ps rest, l = .fire m ev (.scan ps) :: rest → ∀ p ∈ ps, p ∉ ownedL rest) : Apart (fset lst t l) w' := by
  intro u m ev ps rest hu
  by_cases hut : u = t
  · subst hut; rw [fset_same] at hu; exact hl m ev ps rest hu
  · rw [fset_ne _ _ hut] at hu; exact h u m ev ps rest hu

/-- How a check begins and goes on. -/
theorem move_to_scan {w : World} {f : Frame} {o : Op} {m : MId} {ev : Ev} {ps : List PairId} (hm : Move env w f o (.fire m ev (.scan ps))) :
    (∃ q, ps = w.queue q) ∨ ∃ p, f = .fire m ev (.scan (p :: ps)) := by
  generalize hf : Frame.fire m ev (.scan ps) = f' at hm
  cases hm <;> first
    | (cases hf; exact Or.inl ⟨_, rfl⟩)
    | (cases hf; exact Or.inr ⟨_, rfl⟩)
    | (cases hf; done)
    | (rename_i hs; rcases hs.inv with ⟨rfl, _, _⟩ | ⟨rfl, _⟩ <;> cases hf)
    | (rename_i hs _ _; cases hs <;> cases hf)
    | (rename_i hs _; cases hs <;> cases hf)
    | (rename_i hs; cases hs <;> cases hf)

theorem apart_preserved (env : Env) : Preserved env (fun lst w => Own env lst w ∧ Stacks lst w) Apart where
  op := by
    rintro lst w t o l' ⟨⟨loc, ho⟩, hst⟩ h hm _
    refine h.set fun m ev ps rest hl => ?_
    subst hl
    have ht := hst.tail t
    generalize hlt : lst t = l at hm ht
    generalize hl' : Frame.fire m ev (.scan ps) :: rest = l' at hm
    cases hm with
    | @enter _ c _ => cases c <;> cases hl'
    | leave _ =>
      have := ht (.fire m ev (.scan ps)) (by rw [List.tail_cons, ← hl']; exact List.mem_cons_self)
      cases this
    | user hc _ =>
      subst hl'
      cases hc
    | @frame f f' rest' _ hm =>
      cases hl'
      rcases move_to_scan hm with ⟨q, rfl⟩ | ⟨p0, rfl⟩
      · intro p hp hown
        have h1 := (ho.q q p).1 hp
        have h2 := (ho.ow t p).1 (by rw [hlt, ownedL_cons]; exact List.mem_append_right _ hown)
        rw [h1] at h2
        cases h2
      · exact fun p hp => h t m ev (p0 :: ps) rest hlt p (List.mem_cons_of_mem _ hp)
  ret := fun lst w t _ h _ => h.set fun _ _ _ _ hl => (nomatch hl)
  thr := fun lst w t x _ h _ => h.set fun _ _ _ _ hl => (nomatch hl)
  dispatch := fun lst w e i j s m _ h _ _ _ => h.set fun _ _ _ _ hl => (nomatch hl)
  interrupt := fun lst w t _ h => h
  shutdown := fun lst w e _ h => h
  dropTasks := fun lst w e _ h => h

theorem apart_numb : Numb env Apart := by
  rintro lst w t m ev p ps rest g h hl hg
  refine h.set fun m' ev' ps' rest' he => ?_
  cases he
  rcases hg with hg | ⟨hg, _⟩
  · cases hg
  · cases hg
    exact fun p' hp' => h t m ev (p :: ps) rest hl p' (List.mem_cons_of_mem _ hp')

open Course Spec.Course in
/-- Invariants of frames, for frames with positions. -/
theorem lift_fst {I : (Tid → List Frame × Pos) → World → Prop} {A J : (Tid → List Frame) → World → Prop} (hi : Invariant env (proto2 env) idle2 task2 fin2 I)
    (hj : Preserved env A J) (ha : ∀ lst w, I lst w → J (fun t => (lst t).1) w → A (fun t => (lst t).1) w) :
    Invariant env (proto2 env) idle2 task2 fin2 fun lst w => I lst w ∧ J (fun t => (lst t).1) w where
  know := fun lst w t h => hi.know lst w t h.1
  op := fun lst w t o h hal he => ⟨hi.op lst w t o h.1 hal he, by
    rw [fset_fst]; exact hj.op _ w t o _ (ha _ _ h.1 h.2) h.2 (lmove_of_allowed (w := w) hal.1) he⟩
  ret := fun lst w t h hf => ⟨hi.ret lst w t h.1 hf, by rw [fset_fst]; exact hj.ret _ w t (ha _ _ h.1 h.2) h.2 hf.1⟩
  thr := fun lst w t x h hf => ⟨hi.thr lst w t x h.1 hf, by rw [fset_fst]; exact hj.thr _ w t x (ha _ _ h.1 h.2) h.2 hf.1⟩
  dispatch := fun lst w e i j s m h hl h1 h2 => ⟨hi.dispatch lst w e i j s m h.1 hl h1 h2, by
    have hl1 : (fun t => (lst t).1) (.worker e i) = [] := by simp only [hl]
    rw [fset_fst]; exact hj.dispatch _ w e i j s m (ha _ _ h.1 h.2) h.2 hl1 h1 h2⟩
  interrupt := fun lst w t h => ⟨hi.interrupt lst w t h.1, hj.interrupt _ w t (ha _ _ h.1 h.2) h.2⟩
  shutdown := fun lst w e h => ⟨hi.shutdown lst w e h.1, hj.shutdown _ w e (ha _ _ h.1 h.2) h.2⟩
  dropTasks := fun lst w e h => ⟨hi.dropTasks lst w e h.1, hj.dropTasks _ w e (ha _ _ h.1 h.2) h.2⟩

open Course Spec.Course

theorem item_owned {l : List Frame} {d : Nat} {b : Option Frame} {p : PairId} {ev : Ev} {m : MId} (hat : At l d b) (hb : botItem b = some (p, ev, m)) : p ∈ ownedL l := by
  induction hat with
  | nil => cases hb
  | @drain f hf =>
    rw [ownedL_cons, ownedL_nil, List.append_nil]
    cases f with
    | drain s cm dr => cases dr <;> cases hb <;> exact List.mem_cons_self
    | _ => cases hf
  | cons _ _ ih => rw [ownedL_cons]; exact List.mem_append_right _ (ih hb)

def Inv (env : Env) (lst : Tid → List Frame × Pos) (w : World) : Prop :=
  (Loose.Inv env lst w ∧ Stacks (fun t => (lst t).1) w) ∧ Apart (fun t => (lst t).1) w

theorem invariant (env : Env) : Invariant env (proto2 env) idle2 task2 fin2 (Inv env) :=
  lift_fst (lift_fst (Loose.invariant env) (stacks_invariant env fun _ _ => True) fun _ _ _ _ => trivial) (apart_preserved env) fun _ _ h _ => ⟨h.1.own, h.2⟩

theorem inv_blind : Blind (Inv env) := fun _ _ _ hs h => ⟨⟨Loose.inv_blind _ _ _ hs h.1.1, stacks_blind _ _ _ hs h.1.2⟩, h.2⟩

theorem inv_know {lst : Tid → List Frame × Pos} {w : World} {t : Tid} {m : MId} {ev : Ev} {p : PairId} {ps : List PairId} {rest : List Frame} (x : Ev × MId)
    (h : Inv env lst w) (hl : (lst t).1 = .fire m ev (.scan (p :: ps)) :: rest) : (proto2 env).know (lst t) (put w p x) := by
  have hk := (invariant env).know lst w t h
  refine ⟨?_, fun q p' hp' => ?_, fun p' ev' m' hi => ?_⟩
  · have h1 : lKnow (lst t).1 w := hk.1
    show lKnow (lst t).1 _
    rw [hl] at h1 ⊢
    exact scan_know x h1
  · by_cases hpp : p' = p
    · subst hpp; simp
    · simp only [fset_ne _ _ hpp]; exact hk.2.1 q p' hp'
  · have hne : p' ≠ p := by
      rintro rfl
      obtain ⟨b, hat, hb⟩ := h.1.1.link t
      rw [hl] at hat
      generalize (lst t).2.1 = d at hat
      cases hat with
      | drain hd => cases hd
      | cons _ hat => exact h.2 t m ev (p' :: ps) rest hl p' List.mem_cons_self (item_owned hat (hb.trans hi))
    simp only [fset_ne _ _ hne]
    exact hk.2.2 p' ev' m' hi

theorem inv_rash : Rash env (proto2 env) Prod.fst (Inv env) where
  know := fun lst w t m ev p ps rest x h hl => inv_know x h hl
  read := fun lst w t m ev p ps rest x h hl ha hx => by
    have ha1 : lAllowed env (lst t).1 (.getPair p) := ha.1
    have hm := lmove_of_allowed (w := put w p x) ha1
    have key : ∀ {J : (Tid → List Frame) → World → Prop}, Numb env J → J (fun t => (lst t).1) w →
        J (fun u => (fset lst t ((proto2 env).nxt (lst t) (.getPair p) (put w p x)) u).1) w := by
      intro J hj h
      rw [fset_fst]
      obtain ⟨g, h1, h2⟩ := scan_frames (lst := fun t => (lst t).1) (env := env) (w := w) x hl hx
      have h3 := hj _ w t m ev p ps rest g h hl h2
      rw [← h1] at h3
      exact h3
    refine ⟨⟨⟨key own_numb h.1.1.own, key task_numb h.1.1.tasks, set_link h.1.1.link (link_op (h.1.1.link t) hm ha.2), ?_⟩, key stacks_numb h.1.2⟩, key apart_numb h.2⟩
    have ha2 : Course.allowed env (lst t).2 (.getPair p) := ha.2
    exact steps_step (w := w) (w' := w) (x := none) h.1.1.steps (by simp) (pos_step (t := t) (inv_know x h hl).2 ha2 (link_bare (h.1.1.link t) hm))

theorem initial {c : Conf} (h : Initial c) : Inv env (fun _ => idle2) c.w :=
  ⟨⟨Loose.initial h, stacks_initial _⟩, fun _ _ _ _ _ hl => (nomatch hl)⟩

theorem steps_all {M : Cell → Prop} [DecidablePred M] {c0 c : Conf} (hM : ∀ p, ¬M (.pair p)) (hi : Initial c0)
    (hr : CRuns env M c0 c) (t : Tid) (ht : t ≠ .env) : ∃ d st, Steps (cfg env) t 0 .idle c.w.trace d st := by
  obtain ⟨lst, _, h⟩ := stale (over_course env) (checked2 env) (invariant env) inv_blind inv_rash hM hi (initial hi) hr
  exact ⟨_, _, h.1.1.steps t ht⟩

end Verif.Stale
