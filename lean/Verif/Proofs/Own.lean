import Verif.Proofs.Moves
import Verif.Spec.Trace
/-
Invariant: every pooled pair is in exactly one place; queues are FIFO.
-/

namespace Verif
open Spec (accepted taken)

/-- Where a pair is. -/
inductive Loc
  | fresh
  | queue (q : QId)
  | pool (s : SId)
  | own (t : Tid)

/-- Pairs held by a frame. -/
def Frame.owned : Frame → List PairId
  | .fire _ _ (.took p) | .fire _ _ (.cpy p) | .fire _ _ (.raw p) | .fire _ _ (.copied p _)
  | .fire _ _ (.loaded p _) => [p]
  | .drain _ _ (.polled p _ _) | .drain _ _ (.known p _ _) | .drain _ _ (.busy p _ _ _)
  | .drain _ _ (.flow p _ _ _) | .drain _ _ (.over p _ _ _) => [p]
  | _ => []

def ownedL (l : List Frame) : List PairId := l.flatMap Frame.owned

@[simp] theorem ownedL_nil : ownedL [] = [] := rfl
@[simp] theorem ownedL_cons (f : Frame) (l : List Frame) : ownedL (f :: l) = f.owned ++ ownedL l := rfl

/-- What a frame knows about contents of pairs. -/
def Frame.fact (env : Env) (pr : PairId → Option (Ev × MId)) : Frame → Prop
  | .fire m _ (.loaded p ev) => pr p = some (ev, m)
  | .fire _ _ (.scan todo) => ∀ p ∈ todo, (pr p).isSome = true
  | .drain s _ (.polled p ev m) | .drain s _ (.known p ev m) | .drain s _ (.busy p ev m _)
  | .drain s _ (.flow p ev m _) | .drain s _ (.over p ev m _) => pr p = some (ev, m) ∧ env.qm m = env.q s
  | _ => True

structure OwnAt (env : Env) (lst : Tid → List Frame) (w : World) (loc : PairId → Loc) : Prop where
  q : ∀ q p, p ∈ w.queue q ↔ loc p = .queue q
  pl : ∀ s p, p ∈ w.pool s ↔ loc p = .pool s
  ow : ∀ t p, p ∈ ownedL (lst t) ↔ loc p = .own t
  qn : ∀ q, (w.queue q).Nodup
  pn : ∀ s, (w.pool s).Nodup
  on : ∀ t, (ownedL (lst t)).Nodup
  fresh : ∀ p, w.nextPair ≤ p → loc p = .fresh
  full : ∀ q p, p ∈ w.queue q → ∃ ev m, w.pair p = some (ev, m) ∧ env.qm m = q
  fact : ∀ t, ∀ f ∈ lst t, f.fact env w.pair
  fifo : ∀ q, accepted q w.trace = taken q w.trace ++ (w.queue q).filterMap w.pair

def Own (env : Env) (lst : Tid → List Frame) (w : World) : Prop := ∃ loc, OwnAt env lst w loc

/-- Nothing about pairs has changed. -/
structure SameQ (w w' : World) : Prop where
  queue : w'.queue = w.queue
  pool : w'.pool = w.pool
  pair : w'.pair = w.pair
  next : w'.nextPair = w.nextPair
  acc : ∀ q, accepted q w'.trace = accepted q w.trace
  tak : ∀ q, taken q w'.trace = taken q w.trace

theorem SameQ.refl (w : World) : SameQ w w := ⟨rfl, rfl, rfl, rfl, fun _ => rfl, fun _ => rfl⟩

def Obs.quiet : Obs → Bool
  | .accepted .. | .taken .. => false
  | _ => true

theorem accepted_append (q : QId) (tr : Spec.Trace) (t : Tid) (o : Obs) (h : o.quiet = true) :
    accepted q (tr ++ [(t, o)]) = accepted q tr := by
  simp only [accepted, List.filterMap_append]
  cases o <;> first | (simp; done) | (cases h; done)

theorem taken_append (q : QId) (tr : Spec.Trace) (t : Tid) (o : Obs) (h : o.quiet = true) :
    taken q (tr ++ [(t, o)]) = taken q tr := by
  simp only [taken, List.filterMap_append]
  cases o <;> first | (simp; done) | (cases h; done)

theorem sameQ_log (w : World) (t : Tid) (o : Obs) (h : o.quiet = true) : SameQ w (w.log t o) :=
  ⟨rfl, rfl, rfl, rfl, fun q => accepted_append q _ t o h, fun q => taken_append q _ t o h⟩

def Op.quietQ : Op → Bool
  | .offer .. | .poll _ | .poolTake _ | .poolGive .. | .setPair .. => false
  | .emit o => o.quiet
  | _ => true

theorem exec_sameQ (t : Tid) (o : Op) (w : World) (h : o.quietQ = true) : SameQ w (exec t o w).2 := by
  cases o <;> try (exact SameQ.refl w) 
  all_goals try (exact sameQ_log _ t _ h)
  all_goals try (cases h; done)
  all_goals simp only [exec]
  all_goals try split
  all_goals first
    | exact SameQ.refl w
    | exact ⟨rfl, rfl, rfl, rfl, fun q => accepted_append q _ t _ rfl, fun q => taken_append q _ t _ rfl⟩
    | exact ⟨rfl, rfl, rfl, rfl, fun _ => rfl, fun _ => rfl⟩

theorem dropTasks_proj {α : Type} (g : Tid × Obs → Option α) (h : ∀ s m, g (Tid.env, .taskDropped s m) = none)
    (w : World) (e : EId) : (w.dropTasks e).trace.filterMap g = w.trace.filterMap g := by
  have : ∀ l : List (SId × MId), List.filterMap g (l.map (fun t => (Tid.env, Obs.taskDropped t.1 t.2))) = [] := by
    intro l
    induction l with
    | nil => rfl
    | cons a l ih => simp [h, ih]
  simp [World.dropTasks, this]

theorem sameQ_dropTasks (w : World) (e : EId) : SameQ w (w.dropTasks e) :=
  ⟨rfl, rfl, rfl, rfl, fun _ => dropTasks_proj _ (by simp) w e, fun _ => dropTasks_proj _ (by simp) w e⟩

theorem OwnAt.same {env : Env} {lst : Tid → List Frame} {w w' : World} {loc : PairId → Loc} (h : OwnAt env lst w loc)
    (hw : SameQ w w') {t : Tid} {l' : List Frame} (ho : ownedL l' = ownedL (lst t))
    (hf : ∀ f ∈ l', f.fact env w.pair) : OwnAt env (fset lst t l') w' loc := by
  have hl : ∀ u, ownedL (fset lst t l' u) = ownedL (lst u) := by
    intro u
    by_cases hu : u = t
    · subst hu; simp [ho]
    · simp [fset_ne _ _ hu]
  refine ⟨?_, ?_, ?_, ?_, ?_, ?_, ?_, ?_, ?_, ?_⟩
  · rw [hw.queue]; exact h.q
  · rw [hw.pool]; exact h.pl
  · intro u; rw [hl]; exact h.ow u
  · rw [hw.queue]; exact h.qn
  · rw [hw.pool]; exact h.pn
  · intro u; rw [hl]; exact h.on u
  · rw [hw.next]; exact h.fresh
  · rw [hw.queue, hw.pair]; exact h.full
  · intro u f hf'
    rw [hw.pair]
    by_cases hu : u = t
    · subst hu; simp only [fset_same] at hf'; exact hf f hf'
    · rw [fset_ne _ _ hu] at hf'; exact h.fact u f hf'
  · intro q; rw [hw.acc, hw.tak, hw.queue, hw.pair]; exact h.fifo q

theorem OwnAt.sameW {env : Env} {lst : Tid → List Frame} {w w' : World} {loc : PairId → Loc} (h : OwnAt env lst w loc)
    (hw : SameQ w w') : OwnAt env lst w' loc := by
  have := h.same hw (t := .env) rfl (h.fact .env)
  rwa [show fset lst .env (lst .env) = lst from by funext u; by_cases hu : u = .env <;> simp [fset, hu]] at this

theorem fin_own {t : Tid} {r : Except Exc Unit} {l : List Frame} (h : fin t r l) : ownedL l = [] := by
  cases r <;> rcases h with ⟨_, rfl⟩ | ⟨s, m, rfl⟩ <;> rfl

theorem quiet_of_user {o : Op} (h : userOp o) : o.quietQ = true := by
  unfold userOp at h
  split at h <;> first | rfl | exact h.elim

theorem quiet_of_phOp {m : MId} {o : Op} {ev : Ev} (h : PhOp m ev o) : o.quietQ = true := by cases h <;> rfl

/-- A step that moves pairs. -/
theorem OwnAt.step {env : Env} {lst : Tid → List Frame} {w w' : World} {loc : PairId → Loc} (h : OwnAt env lst w loc)
    {t : Tid} {l' : List Frame} (p : PairId) (x : Loc)
    (hq : ∀ q p', p' ∈ w'.queue q ↔ (p' ≠ p ∧ p' ∈ w.queue q) ∨ (p' = p ∧ x = .queue q))
    (hp : ∀ s p', p' ∈ w'.pool s ↔ (p' ≠ p ∧ p' ∈ w.pool s) ∨ (p' = p ∧ x = .pool s))
    (ho : ∀ p', p' ∈ ownedL l' ↔ (p' ≠ p ∧ p' ∈ ownedL (lst t)) ∨ (p' = p ∧ x = .own t))
    (hx : ∀ u, x = .own u → u = t) (hl : ∀ u, loc p = .own u → u = t)
    (qn : ∀ q, (w'.queue q).Nodup) (pn : ∀ s, (w'.pool s).Nodup) (on : (ownedL l').Nodup)
    (fr : w.nextPair ≤ w'.nextPair ∧ p < w'.nextPair)
    (hpr : w'.pair = w.pair)
    (hfull : ∀ q p', p' ∈ w'.queue q → ∃ ev m, w'.pair p' = some (ev, m) ∧ env.qm m = q)
    (hfact : ∀ f ∈ l', f.fact env w'.pair)
    (hfifo : ∀ q, accepted q w'.trace = taken q w'.trace ++ (w'.queue q).filterMap w'.pair) :
    OwnAt env (fset lst t l') w' (fset loc p x) := by
  refine ⟨?_, ?_, ?_, qn, pn, ?_, ?_, hfull, ?_, hfifo⟩
  · intro q p'
    rw [hq]
    by_cases he : p' = p
    · subst he; simp
    · simp [he, fset_ne _ _ he, h.q]
  · intro s p'
    rw [hp]
    by_cases he : p' = p
    · subst he; simp
    · simp [he, fset_ne _ _ he, h.pl]
  · intro u p'
    by_cases hu : u = t
    · subst hu
      rw [fset_same, ho]
      by_cases he : p' = p
      · subst he; simp
      · simp [he, fset_ne _ _ he, h.ow]
    · rw [fset_ne _ _ hu, h.ow]
      by_cases he : p' = p
      · subst he
        simp only [fset_same]
        exact ⟨fun h => absurd (hl u h) hu, fun h => absurd (hx u h) hu⟩
      · simp [fset_ne _ _ he]
  · intro u
    by_cases hu : u = t
    · subst hu; rw [fset_same]; exact on
    · rw [fset_ne _ _ hu]; exact h.on u
  · intro p' hp'
    by_cases he : p' = p
    · subst he; exact absurd (Nat.lt_of_lt_of_le fr.2 hp') (Nat.lt_irrefl _)
    · rw [fset_ne _ _ he]; exact h.fresh p' (Nat.le_trans fr.1 hp')
  · intro u f hf
    by_cases hu : u = t
    · subst hu; rw [fset_same] at hf; exact hfact f hf
    · rw [fset_ne _ _ hu] at hf; rw [hpr]; exact h.fact u f hf

theorem OwnAt.lt {env : Env} {lst : Tid → List Frame} {w : World} {loc : PairId → Loc} (h : OwnAt env lst w loc)
    {p : PairId} (hp : loc p ≠ .fresh) : p < w.nextPair := by
  rcases Nat.lt_or_ge p w.nextPair with h' | h'
  · exact h'
  · exact absurd (h.fresh p h') hp

/-- Facts survive a change of a pair they do not speak about. -/
theorem fact_setPair {env : Env} {pr : PairId → Option (Ev × MId)} {f : Frame} (h : f.fact env pr) {p : PairId}
    {v : Ev × MId} (hp : p ∉ f.owned) : f.fact env (fset pr p (some v)) := by
  unfold Frame.fact at h ⊢
  unfold Frame.owned at hp
  split <;> simp_all [fset]
  · intro he; subst he; simp_all
  · intro p' hp'
    split
    · rfl
    · exact h p' hp'
  all_goals intro he; subst he; simp_all

theorem accepted_accepted (q q' : QId) (tr : Spec.Trace) (t : Tid) (m : MId) (ev : Ev) :
    accepted q (tr ++ [(t, .accepted q' m ev)]) = accepted q tr ++ if q' = q then [(ev, m)] else [] := by
  simp only [accepted, List.filterMap_append]
  congr 1
  by_cases h : q' = q <;> simp [h]

theorem taken_taken (q q' : QId) (tr : Spec.Trace) (t : Tid) (m : MId) (ev : Ev) :
    taken q (tr ++ [(t, .taken q' m ev)]) = taken q tr ++ if q' = q then [(ev, m)] else [] := by
  simp only [taken, List.filterMap_append]
  congr 1
  by_cases h : q' = q <;> simp [h]

theorem accepted_taken (q q' : QId) (tr : Spec.Trace) (t : Tid) (m : MId) (ev : Ev) :
    accepted q (tr ++ [(t, .taken q' m ev)]) = accepted q tr := by simp [accepted]

theorem taken_accepted (q q' : QId) (tr : Spec.Trace) (t : Tid) (m : MId) (ev : Ev) :
    taken q (tr ++ [(t, .accepted q' m ev)]) = taken q tr := by simp [taken]

section
variable {env : Env} {lst : Tid → List Frame} {w : World} {loc : PairId → Loc} {t : Tid} {rest : List Frame}

/-- What a thread with top frame `f` that owns `p` knows. -/
theorem OwnAt.top (h : OwnAt env lst w loc) {f : Frame} {p : PairId} (hl : lst t = f :: rest) (ho : f.owned = [p]) :
    loc p = .own t ∧ p ∉ ownedL rest ∧ (ownedL rest).Nodup ∧ p < w.nextPair := by
  have h1 : loc p = .own t := (h.ow t p).1 (by rw [hl]; simp [ho])
  have h2 := h.on t
  rw [hl, ownedL_cons, ho] at h2
  simp only [List.singleton_append, List.nodup_cons] at h2
  exact ⟨h1, h2.1, h2.2, h.lt (by rw [h1]; simp)⟩

theorem OwnAt.setPair (h : OwnAt env lst w loc) {f f' : Frame} {p : PairId} {v : Ev × MId} (hl : lst t = f :: rest)
    (ho : f.owned = [p]) (ho' : f'.owned = [p]) (hf : f'.fact env (fset w.pair p (some v))) :
    OwnAt env (fset lst t (f' :: rest)) { w with pair := fset w.pair p (some v) } loc := by
  obtain ⟨hloc, hnr, hnd, hlt⟩ := h.top hl ho
  have hown : ∀ u, ownedL (fset lst t (f' :: rest) u) = ownedL (lst u) := by
    intro u
    by_cases hu : u = t
    · subst hu; rw [fset_same, hl]; simp [ho, ho']
    · simp [fset_ne _ _ hu]
  have hnq : ∀ q, p ∉ w.queue q := by intro q hq; rw [h.q, hloc] at hq; cases hq
  refine ⟨h.q, h.pl, ?_, h.qn, h.pn, ?_, h.fresh, ?_, ?_, ?_⟩
  · intro u; rw [hown]; exact h.ow u
  · intro u; rw [hown]; exact h.on u
  · intro q p' hp'
    have : p' ≠ p := by rintro rfl; exact hnq q hp'
    simp only [fset_ne _ _ this]
    exact h.full q p' hp'
  · intro u g hg
    by_cases hu : u = t
    · subst hu
      rw [fset_same] at hg
      rcases List.mem_cons.1 hg with rfl | hg
      · exact hf
      · refine fact_setPair (h.fact u g (by rw [hl]; simp [hg])) ?_
        intro hp; exact hnr (List.mem_flatMap.2 ⟨g, hg, hp⟩)
    · rw [fset_ne _ _ hu] at hg
      refine fact_setPair (h.fact u g hg) ?_
      intro hp
      have := (h.ow u p).1 (List.mem_flatMap.2 ⟨g, hg, hp⟩)
      rw [hloc] at this; cases this; exact hu rfl
  · intro q
    have : ∀ l : List PairId, (∀ x ∈ l, x ≠ p) → l.filterMap (fset w.pair p (some v)) = l.filterMap w.pair := by
      intro l hl
      induction l with
      | nil => rfl
      | cons a l ih =>
        simp only [List.filterMap_cons, fset_ne _ _ (hl a List.mem_cons_self),
          ih (fun x hx => hl x (List.mem_cons_of_mem _ hx))]
    rw [this]
    · exact h.fifo q
    · rintro x hx rfl; exact hnq q hx

theorem OwnAt.offer (h : OwnAt env lst w loc) {f f' : Frame} {p : PairId} {ev : Ev} {m : MId} (hl : lst t = f :: rest)
    (ho : f.owned = [p]) (ho' : f'.owned = []) (hf' : f'.fact env w.pair) (hpr : w.pair p = some (ev, m)) :
    ∃ loc', OwnAt env (fset lst t (f' :: rest)) (exec t (.offer (env.qm m) p) w).2 loc' := by
  obtain ⟨hloc, hnr, hnd, hlt⟩ := h.top hl ho
  have hnq : ∀ q, p ∉ w.queue q := by intro q hq; rw [h.q, hloc] at hq; cases hq
  have hnp : ∀ s, p ∉ w.pool s := by intro q hq; rw [h.pl, hloc] at hq; cases hq
  refine ⟨_, h.step p (.queue (env.qm m)) ?_ ?_ ?_ ?_ ?_ ?_ ?_ ?_ ?_ ?_ ?_ ?_ ?_⟩
  all_goals try simp only [exec, hpr, World.log]
  · intro q p'
    by_cases hq : q = env.qm m
    · subst hq
      simp only [fset_same, List.mem_append, List.mem_singleton]
      by_cases hp : p' = p
      · subst hp; simp
      · simp [hp]
    · simp only [fset_ne _ _ hq]
      by_cases hp : p' = p
      · subst hp; simp [hnq, Ne.symm hq]
      · simp [hp]
  · intro s p'
    by_cases hp : p' = p
    · subst hp; simp [hnp]
    · simp [hp]
  · intro p'
    rw [hl]
    simp only [ownedL_cons, ho, ho']
    by_cases hp : p' = p
    · subst hp; simp [hnr]
    · simp [hp]
  · intro u hu; cases hu
  · intro u hu; rw [hloc] at hu; cases hu; rfl
  · intro q
    by_cases hq : q = env.qm m
    · subst hq
      simp only [fset_same]
      rw [List.nodup_append]
      refine ⟨h.qn _, by simp, ?_⟩
      intro a ha b hb
      simp at hb; subst hb; rintro rfl; exact hnq _ ha
    · rw [fset_ne _ _ hq]; exact h.qn q
  · exact h.pn
  · simp [ho', hnd]
  · exact ⟨Nat.le_refl _, hlt⟩
  · intro q p' hp'
    by_cases hq : q = env.qm m
    · subst hq
      simp only [fset_same, List.mem_append, List.mem_singleton] at hp'
      rcases hp' with hp' | rfl
      · exact h.full _ _ hp'
      · exact ⟨ev, m, hpr, rfl⟩
    · rw [fset_ne _ _ hq] at hp'; exact h.full _ _ hp'
  · intro g hg
    rcases List.mem_cons.1 hg with rfl | hg
    · exact hf'
    · exact h.fact t g (by rw [hl]; simp [hg])
  · intro q
    rw [accepted_accepted, taken_accepted, h.fifo q]
    by_cases hq : q = env.qm m
    · subst hq; simp [hpr]
    · simp [fset_ne _ _ hq, Ne.symm hq]

theorem OwnAt.poll (h : OwnAt env lst w loc) {f f' : Frame} {q : QId} {p : PairId} {ps : List PairId} {ev : Ev} {m : MId}
    (hl : lst t = f :: rest) (hq : w.queue q = p :: ps)
    (ho : f.owned = []) (ho' : f'.owned = [p]) (hf' : f'.fact env w.pair) (hpr : w.pair p = some (ev, m)) :
    ∃ loc', OwnAt env (fset lst t (f' :: rest)) (exec t (.poll q) w).2 loc' := by
  have hloc : loc p = .queue q := (h.q q p).1 (by rw [hq]; simp)
  have hnp : ∀ s, p ∉ w.pool s := by intro q hq; rw [h.pl, hloc] at hq; cases hq
  have hno : p ∉ ownedL (lst t) := by intro hq; rw [h.ow, hloc] at hq; cases hq
  have hnd := h.qn q
  rw [hq, List.nodup_cons] at hnd
  have hon := h.on t
  refine ⟨_, h.step p (.own t) ?_ ?_ ?_ ?_ ?_ ?_ ?_ ?_ ?_ ?_ ?_ ?_ ?_⟩
  all_goals try simp only [exec, hq, hpr, World.log]
  · intro q' p'
    by_cases hq' : q' = q
    · subst hq'
      simp only [fset_same, hq, List.mem_cons]
      by_cases hp : p' = p
      · subst hp; simp [hnd.1]
      · simp [hp]
    · simp only [fset_ne _ _ hq']
      by_cases hp : p' = p
      · subst hp
        have : p' ∉ w.queue q' := by intro hm; rw [h.q, hloc] at hm; cases hm; exact hq' rfl
        simp [this]
      · simp [hp]
  · intro s p'
    by_cases hp : p' = p
    · subst hp; simp [hnp]
    · simp [hp]
  · intro p'
    rw [hl] at hno ⊢
    simp only [ownedL_cons, ho, ho', List.nil_append] at hno ⊢
    by_cases hp : p' = p
    · subst hp; simp
    · simp [hp]
  · intro u hu; cases hu; rfl
  · intro u hu; rw [hloc] at hu; cases hu
  · intro q'
    by_cases hq' : q' = q
    · subst hq'
      simp only [fset_same]; exact hnd.2
    · rw [fset_ne _ _ hq']; exact h.qn q'
  · exact h.pn
  · rw [hl] at hno hon
    simp only [ownedL_cons, ho, ho', List.nil_append] at hno hon ⊢
    simp [hno, hon]
  · exact ⟨Nat.le_refl _, h.lt (by rw [hloc]; simp)⟩
  · intro q' p' hp'
    by_cases hq' : q' = q
    · subst hq'
      simp only [fset_same] at hp'
      exact h.full _ _ (by rw [hq]; simp [hp'])
    · rw [fset_ne _ _ hq'] at hp'; exact h.full _ _ hp'
  · intro g hg
    rcases List.mem_cons.1 hg with rfl | hg
    · exact hf'
    · exact h.fact t g (by rw [hl]; simp [hg])
  · intro q'
    rw [accepted_taken, taken_taken, h.fifo q']
    by_cases hq' : q' = q
    · subst hq'; simp [hpr, hq]
    · simp [fset_ne _ _ hq', Ne.symm hq']

theorem OwnAt.take (h : OwnAt env lst w loc) {f f' : Frame} {s : SId} {p : PairId}
    (hl : lst t = f :: rest) (hp : p = (exec t (.poolTake s) w).1)
    (ho : f.owned = []) (ho' : f'.owned = [p]) (hf' : f'.fact env w.pair) :
    ∃ loc', OwnAt env (fset lst t (f' :: rest)) (exec t (.poolTake s) w).2 loc' := by
  have hon := h.on t
  cases hs : w.pool s with
  | nil =>
    simp only [exec, hs] at hp ⊢
    subst hp
    have hloc : loc w.nextPair = .fresh := h.fresh _ (Nat.le_refl _)
    have hnq : ∀ q, w.nextPair ∉ w.queue q := by intro q hq; rw [h.q, hloc] at hq; cases hq
    have hnp : ∀ s, w.nextPair ∉ w.pool s := by intro q hq; rw [h.pl, hloc] at hq; cases hq
    have hno : w.nextPair ∉ ownedL (lst t) := by intro hq; rw [h.ow, hloc] at hq; cases hq
    rw [hl] at hno hon
    simp only [ownedL_cons, ho, List.nil_append] at hno hon
    refine ⟨_, h.step w.nextPair (.own t) ?_ ?_ ?_ ?_ ?_ h.qn h.pn ?_ ?_ rfl h.full ?_ h.fifo⟩
    · intro q p'
      by_cases hp : p' = w.nextPair
      · subst hp; simp [hnq]
      · simp [hp]
    · intro q p'
      by_cases hp : p' = w.nextPair
      · subst hp; simp [hnp]
      · simp [hp]
    · intro p'
      rw [hl]
      simp only [ownedL_cons, ho, ho', List.nil_append]
      by_cases hp : p' = w.nextPair
      · subst hp; simp
      · simp [hp]
    · intro u hu; cases hu; rfl
    · intro u hu; rw [hloc] at hu; cases hu
    · simp [ho', hno, hon]
    · exact ⟨Nat.le_succ _, Nat.lt_succ_self _⟩
    · intro g hg
      rcases List.mem_cons.1 hg with rfl | hg
      · exact hf'
      · exact h.fact t g (by rw [hl]; simp [hg])
  | cons p0 ps =>
    simp only [exec, hs] at hp ⊢
    subst hp
    have hloc : loc p = .pool s := (h.pl s p).1 (by rw [hs]; simp)
    have hnq : ∀ q, p ∉ w.queue q := by intro q hq; rw [h.q, hloc] at hq; cases hq
    have hno : p ∉ ownedL (lst t) := by intro hq; rw [h.ow, hloc] at hq; cases hq
    have hnd := h.pn s
    rw [hs, List.nodup_cons] at hnd
    rw [hl] at hno hon
    simp only [ownedL_cons, ho, List.nil_append] at hno hon
    refine ⟨_, h.step p (.own t) ?_ ?_ ?_ ?_ ?_ h.qn ?_ ?_ ?_ rfl h.full ?_ h.fifo⟩
    · intro q p'
      by_cases hp : p' = p
      · subst hp; simp [hnq]
      · simp [hp]
    · intro s' p'
      by_cases hs' : s' = s
      · subst hs'
        simp only [fset_same, hs, List.mem_cons]
        by_cases hp : p' = p
        · subst hp; simp [hnd.1]
        · simp [hp]
      · simp only [fset_ne _ _ hs']
        by_cases hp : p' = p
        · subst hp
          have : p' ∉ w.pool s' := by intro hm; rw [h.pl, hloc] at hm; cases hm; exact hs' rfl
          simp [this]
        · simp [hp]
    · intro p'
      rw [hl]
      simp only [ownedL_cons, ho, ho', List.nil_append]
      by_cases hp : p' = p
      · subst hp; simp
      · simp [hp]
    · intro u hu; cases hu; rfl
    · intro u hu; rw [hloc] at hu; cases hu
    · intro s'
      by_cases hs' : s' = s
      · subst hs'; simp only [fset_same]; exact hnd.2
      · simp only [fset_ne _ _ hs']; exact h.pn s'
    · simp [ho', hno, hon]
    · exact ⟨Nat.le_refl _, h.lt (by rw [hloc]; simp)⟩
    · intro g hg
      rcases List.mem_cons.1 hg with rfl | hg
      · exact hf'
      · exact h.fact t g (by rw [hl]; simp [hg])

theorem OwnAt.give (h : OwnAt env lst w loc) {f f' : Frame} {s : SId} {p : PairId}
    (hl : lst t = f :: rest) (ho : f.owned = [p]) (ho' : f'.owned = []) (hf' : f'.fact env w.pair) :
    ∃ loc', OwnAt env (fset lst t (f' :: rest)) (exec t (.poolGive s p) w).2 loc' := by
  obtain ⟨hloc, hnr, hnd, hlt⟩ := h.top hl ho
  have hnq : ∀ q, p ∉ w.queue q := by intro q hq; rw [h.q, hloc] at hq; cases hq
  have hnp : ∀ s, p ∉ w.pool s := by intro q hq; rw [h.pl, hloc] at hq; cases hq
  have hW : ∃ tr, (exec t (.poolGive s p) w).2 = { w with pool := fset w.pool s (w.pool s ++ [p]), trace := tr } ∧
      (∀ q, accepted q tr = accepted q w.trace) ∧ (∀ q, taken q tr = taken q w.trace) := by
    simp only [exec]
    split
    · exact ⟨_, rfl, fun q => accepted_append _ _ _ _ rfl, fun q => taken_append _ _ _ _ rfl⟩
    · exact ⟨_, rfl, fun q => rfl, fun q => rfl⟩
  obtain ⟨tr, hW, ha, ht⟩ := hW
  rw [hW]
  refine ⟨_, h.step p (.pool s) ?_ ?_ ?_ ?_ ?_ h.qn ?_ ?_ ?_ rfl h.full ?_ ?_⟩
  · intro q p'
    by_cases hp : p' = p
    · subst hp; simp [hnq]
    · simp [hp]
  · intro q p'
    by_cases hq : q = s
    · subst hq
      simp only [fset_same, List.mem_append, List.mem_singleton]
      by_cases hp : p' = p
      · subst hp; simp
      · simp [hp]
    · simp only [fset_ne _ _ hq]
      by_cases hp : p' = p
      · subst hp; simp [hnp, Ne.symm hq]
      · simp [hp]
  · intro p'
    rw [hl]
    simp only [ownedL_cons, ho, ho']
    by_cases hp : p' = p
    · subst hp; simp [hnr]
    · simp [hp]
  · intro u hu; cases hu
  · intro u hu; rw [hloc] at hu; cases hu; rfl
  · intro q
    by_cases hq : q = s
    · subst hq
      simp only [fset_same]
      rw [List.nodup_append]
      refine ⟨h.pn _, by simp, ?_⟩
      intro a ha b hb
      simp at hb; subst hb; rintro rfl; exact hnp _ ha
    · simp only [fset_ne _ _ hq]; exact h.pn q
  · simp [ho', hnd]
  · exact ⟨Nat.le_refl _, hlt⟩
  · intro g hg
    rcases List.mem_cons.1 hg with rfl | hg
    · exact hf'
    · exact h.fact t g (by rw [hl]; simp [hg])
  · intro q
    simp only [ha, ht]
    exact h.fifo q

end

theorem own_move {env : Env} {lst : Tid → List Frame} {w : World} {loc : PairId → Loc} {t : Tid} {o : Op}
    {f f' : Frame} {rest : List Frame} (h : OwnAt env lst w loc) (hl : lst t = f :: rest) (hm : Move env w f o f') :
    Own env (fset lst t (f' :: rest)) (exec t o w).2 := by
  have hfact : f.fact env w.pair := h.fact t f (by rw [hl]; simp)
  have hrest : ∀ g ∈ rest, g.fact env w.pair := fun g hg => h.fact t g (by rw [hl]; simp [hg])
  have quiet : o.quietQ = true → f'.owned = f.owned → f'.fact env w.pair →
      Own env (fset lst t (f' :: rest)) (exec t o w).2 := by
    intro hq ho hf
    refine ⟨loc, h.same (exec_sameQ t o w hq) (by rw [hl]; simp [ho]) ?_⟩
    intro g hg
    rcases List.mem_cons.1 hg with rfl | hg
    · exact hf
    · exact hrest g hg
  cases hm with
  | fTakeNew hp => exact h.take hl (by simp [exec, hp]) rfl rfl trivial
  | fTakeOld hp => exact h.take hl (by simp [exec, hp]) rfl rfl trivial
  | fSetRaw => exact ⟨loc, h.setPair hl rfl rfl (by simp [Frame.fact])⟩
  | fSetCopied => exact ⟨loc, h.setPair hl rfl rfl (by simp [Frame.fact])⟩
  | fOffer => exact h.offer hl rfl rfl trivial hfact
  | fSnap hd =>
    refine quiet rfl rfl ?_
    intro p hp
    obtain ⟨ev, m, hpr, _⟩ := h.full _ p hp
    simp [hpr]
  | fScanNe h1 h2 => exact quiet rfl rfl (fun p hp => hfact p (by simp [hp]))
  | fSize hf _ => rcases hf with ⟨rfl, _⟩ | rfl <;> exact quiet rfl rfl trivial
  | fSizeFull hf _ => rcases hf with ⟨rfl, _⟩ | rfl <;> exact quiet rfl rfl trivial
  | stCas1 hf _ _ => cases hf <;> exact quiet rfl rfl trivial
  | stCas0 hf _ _ => cases hf <;> exact quiet rfl rfl trivial
  | stSet hf => rcases hf.inv with ⟨rfl, _, _⟩ | ⟨rfl, _⟩ <;> exact quiet rfl rfl trivial
  | stClear hf _ => cases hf <;> exact quiet rfl rfl trivial
  | stPh hf _ ha =>
    have hq := quiet_of_phOp (phAllowed_op ha)
    cases hf <;> exact quiet hq rfl trivial
  | drQuit hd _ => rcases hd with rfl | rfl <;> exact quiet rfl rfl trivial
  | drPoll0 hq =>
    simp only [exec, hq]
    exact ⟨loc, h.same (SameQ.refl w) (by rw [hl]; rfl) (by
      intro g hg
      rcases List.mem_cons.1 hg with rfl | hg
      · trivial
      · exact hrest g hg)⟩
  | drPollBad hq hn =>
    obtain ⟨ev, m, hpr, _⟩ := h.full _ _ (by rw [hq]; exact List.mem_cons_self)
    rw [hn] at hpr; cases hpr
  | drPoll hq hp =>
    refine h.poll hl hq rfl rfl ⟨hp, ?_⟩ hp
    obtain ⟨ev', m', hpr, hqm⟩ := h.full _ _ (by rw [hq]; exact List.mem_cons_self)
    rw [hp] at hpr; cases hpr; exact hqm
  | drPh ha => exact quiet (quiet_of_phOp (phAllowed_op ha)) rfl hfact
  | drGive _ => exact h.give hl rfl rfl trivial
  | drGiveErr _ => exact h.give hl rfl rfl trivial
  | drOver => exact h.give hl rfl rfl trivial
  | drOverErr => exact h.give hl rfl rfl trivial
  | drRead => exact quiet rfl rfl hfact
  | drSkip _ => exact quiet rfl rfl hfact
  | drBegin _ => exact quiet rfl rfl hfact
  | drFlow _ _ => exact quiet rfl rfl hfact
  | drFlowRet => exact quiet rfl rfl hfact
  | _ => exact quiet rfl rfl trivial

theorem own_know {env : Env} {lst : Tid → List Frame} {w : World} (t : Tid) (h : Own env lst w) : lKnow (lst t) w := by
  obtain ⟨loc, h⟩ := h
  refine ⟨?_, ?_, ?_⟩
  · intro q p hp
    obtain ⟨ev, m, hpr, _⟩ := h.full q p hp
    simp [hpr]
  · intro s cm p ev m rest hl
    exact (h.fact t (.drain s cm (.polled p ev m)) (by rw [hl]; simp)).1
  · intro m ev todo rest hl
    exact h.fact t (.fire m ev (.scan todo)) (by rw [hl]; simp)

theorem own_lmove {env : Env} {lst : Tid → List Frame} {w : World} {t : Tid} {o : Op}
    {l' : List Frame} (h : Own env lst w) (hm : LMove env w (lst t) o l') : Own env (fset lst t l') (exec t o w).2 := by
  obtain ⟨loc, h⟩ := h
  generalize hl : lst t = l at hm
  cases hm with
  | @enter _ c hc =>
    refine ⟨loc, h.same (exec_sameQ t _ w rfl) ?_ ?_⟩
    · rw [hl]; cases c <;> rfl
    · intro g hg
      rcases List.mem_cons.1 hg with rfl | hg
      · cases c <;> trivial
      · exact h.fact t g (by rw [hl]; exact hg)
  | @leave f rest c r hlv =>
    refine ⟨loc, h.same (exec_sameQ t _ w rfl) ?_ ?_⟩
    · rw [hl]
      unfold Frame.leaves at hlv
      split at hlv
      · obtain ⟨_, _, rfl⟩ := hlv; rfl
      · rfl
      · rfl
      · rfl
      · exact hlv.elim
    · exact fun g hg => h.fact t g (by rw [hl]; simp [hg])
  | user hc ho =>
    refine ⟨loc, h.same (exec_sameQ t _ w (quiet_of_user ho)) (by rw [hl]) ?_⟩
    exact fun g hg => h.fact t g (by rw [hl]; exact hg)
  | frame hm => exact own_move h hl hm

theorem own_invariant (env : Env) : Invariant env (proto env) [] task fin (Own env) := by
  refine .of_moves ?_ ?_ ?_ ?_ ?_ ?_ ?_ ?_
  · exact fun lst w t h => own_know t h
  · exact fun lst w t o l' h hm _ => own_lmove h hm
  · rintro lst w t ⟨loc, h⟩ hf
    exact ⟨loc, h.same (SameQ.refl w) (fin_own hf).symm (by simp)⟩
  · rintro lst w t x ⟨loc, h⟩ hf
    exact ⟨loc, h.same (sameQ_log w t _ rfl) (fin_own hf).symm (by simp)⟩
  · rintro lst w e i j s m ⟨loc, h⟩ hl _ _
    refine ⟨loc, h.same ?_ (by rw [hl]; rfl) ?_⟩
    · exact ⟨rfl, rfl, rfl, rfl, fun _ => rfl, fun _ => rfl⟩
    · simp [task, Frame.fact]
  · rintro lst w t ⟨loc, h⟩; refine ⟨loc, h.sameW ?_⟩; exact ⟨rfl, rfl, rfl, rfl, fun _ => rfl, fun _ => rfl⟩
  · rintro lst w t ⟨loc, h⟩; refine ⟨loc, h.sameW ?_⟩; exact ⟨rfl, rfl, rfl, rfl, fun _ => rfl, fun _ => rfl⟩
  · rintro lst w e ⟨loc, h⟩; exact ⟨loc, h.sameW (sameQ_dropTasks w e)⟩

theorem own_initial (env : Env) (c : Conf) (h : Initial c) : Own env (fun _ => []) c.w := by
  refine ⟨fun _ => .fresh, ?_, ?_, ?_, ?_, ?_, ?_, ?_, ?_, ?_, ?_⟩
  · intro q p; simp [h.queue]
  · intro q p; simp [h.pool]
  · intro q p; simp
  · intro q; simp [h.queue]
  · intro q; simp [h.pool]
  · intro q; simp
  · intros; rfl
  · intro q p; simp [h.queue]
  · intro t; simp
  · intro q; simp [h.queue, h.trace, accepted, taken]

end Verif
