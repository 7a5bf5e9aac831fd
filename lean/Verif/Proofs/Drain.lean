import Verif.Proofs.Fold
/-
Invariants about drain tasks: an only drain finds the queue as it left it, what kills a drain, what drains do with events
of machines that have ended.
-/

namespace Verif
open Spec (Item bare depthStep apiDepth)
open Spec.Calls (userObs)

/-! ### A drain that nobody competes with does not poll an empty queue -/

/-- Only one thread polls the queue of strategy `s`. -/
structure Sole (env : Env) (s : SId) : Prop where
  single : env.width (env.strat s).exec ≤ 1
  exec : ∀ s', env.q s' = env.q s → (env.strat s').exec = (env.strat s).exec

def NoNull (env : Env) (lst : Tid → List Frame) (w : World) : Prop :=
  ∀ t s cm b, Frame.drain s cm (.seen b) ∈ lst t → Sole env s → w.queue (env.q s) ≠ []

theorem queue_kept {t : Tid} {o : Op} {w : World} {q : QId} (h : w.queue q ≠ []) (ho : o ≠ .poll q) :
    (exec t o w).2.queue q ≠ [] := by
  cases o with
  | offer q' p =>
    simp only [exec]
    have : (fset w.queue q' (w.queue q' ++ [p])) q ≠ [] := by
      by_cases hq : q = q'
      · subst hq; simp
      · rw [fset_ne _ _ hq]; exact h
    split <;> exact this
  | poll q' =>
    have hq : q ≠ q' := by rintro rfl; exact ho rfl
    simp only [exec]
    split
    · exact h
    · split <;> (simp only [World.log, fset_ne _ _ hq]; exact h)
  | _ =>
    first
      | exact h
      | (simp only [exec]; (repeat' split) <;> exact h)

/-- The frame below all others. -/
theorem at_mem {l : List Frame} {d : Nat} {b : Option Frame} (h : At l d b) {f : Frame} (hf : f ∈ l) (hd : f.isDrain = true) :
    b = some f := by
  induction h with
  | nil => cases hf
  | drain _ => simp at hf; rw [hf]
  | cons h1 _ ih =>
    rcases List.mem_cons.1 hf with rfl | hf
    · rw [h1] at hd; cases hd
    · exact ih hf

theorem sole_worker {env : Env} {lst : Tid → List Frame} {w : World} (ht : TaskInv env lst w) {s s' : SId} {cm cm' : MId} {d d' : Dr}
    {t u : Tid} (hs : Sole env s) (h1 : Frame.drain s cm d ∈ lst t) (h2 : Frame.drain s' cm' d' ∈ lst u) (hq : env.q s' = env.q s) :
    t = u ∧ s' = s ∧ cm' = cm ∧ d' = d := by
  obtain ⟨⟨i, rfl, hi⟩, _⟩ := ht.home t _ h1
  obtain ⟨⟨j, rfl, hj⟩, _⟩ := ht.home u _ h2
  have he := hs.exec s' hq
  have h3 := hs.single
  rw [he] at hj h2
  have : i = 0 := by omega
  have : j = 0 := by omega
  subst i; subst j
  rw [he]
  obtain ⟨d1, b, ha⟩ := ht.shape (.worker (env.strat s).exec 0)
  have := at_mem ha h1 rfl
  have h4 := at_mem ha h2 rfl
  rw [this] at h4
  cases h4
  exact ⟨rfl, rfl, rfl, rfl⟩

theorem move_seen {env : Env} {w : World} {f f' : Frame} {o : Op} {s : SId} {cm : MId} {b : Bool} (h : Move env w f o f')
    (hf : f' = .drain s cm (.seen b)) : w.queue (env.q s) ≠ [] ∧ o ≠ .poll (env.q s) := by
  cases h with
  | drSeenF h => cases hf; exact ⟨h, by simp⟩
  | drSeenL h => cases hf; exact ⟨h, by simp⟩
  | stCas1 h _ _ => rcases h.inv with ⟨rfl, _⟩ | ⟨rfl, _⟩ <;> cases hf
  | stCas0 h _ _ => rcases h.inv with ⟨rfl, _⟩ | ⟨rfl, _⟩ <;> cases hf
  | stSet h => rcases h.inv with ⟨rfl, _⟩ | ⟨rfl, _⟩ <;> cases hf
  | stClear h _ => rcases h.inv with ⟨rfl, _⟩ | ⟨rfl, _⟩ <;> cases hf
  | stPh h _ _ => rcases h.inv with ⟨rfl, _⟩ | ⟨rfl, _⟩ <;> cases hf
  | _ => cases hf

theorem move_poll {env : Env} {w : World} {f f' : Frame} {q : QId} (h : Move env w f (.poll q) f') :
    ∃ s cm b d, f = .drain s cm (.seen b) ∧ f' = .drain s cm d ∧ env.q s = q ∧ (∀ b, d ≠ .seen b) ∧
      ∀ p ps ev m, w.queue q = p :: ps → w.pair p = some (ev, m) → d = .polled p ev m := by
  generalize ho : Op.poll q = o at h
  cases h with
  | drPoll0 h => cases ho; exact ⟨_, _, _, _, rfl, rfl, rfl, by simp, by simp [h]⟩
  | drPollBad h h' => cases ho; exact ⟨_, _, _, _, rfl, rfl, rfl, by simp, fun p ps ev m h1 h2 => by rw [h] at h1; cases h1; rw [h'] at h2; cases h2⟩
  | drPoll h h' => cases ho; exact ⟨_, _, _, _, rfl, rfl, rfl, by simp, fun p ps ev m h1 h2 => by rw [h] at h1; cases h1; rw [h'] at h2; cases h2; rfl⟩
  | stPh _ _ ha => subst ho; cases phAllowed_op ha
  | drPh ha => subst ho; cases phAllowed_op ha
  | _ => cases ho

theorem lmove_poll {env : Env} {w : World} {l l' : List Frame} {q : QId} (h : LMove env w l (.poll q) l') :
    ∃ s cm b d rest, l = .drain s cm (.seen b) :: rest ∧ l' = .drain s cm d :: rest ∧ env.q s = q ∧ ∀ b, d ≠ .seen b := by
  cases h with
  | user _ hu => exact hu.elim
  | frame hm =>
    obtain ⟨s, cm, b, d, rfl, rfl, h1, h2, _⟩ := move_poll hm
    exact ⟨s, cm, b, d, _, rfl, rfl, h1, h2⟩

theorem lmove_seen {env : Env} {w : World} {l l' : List Frame} {o : Op} (h : LMove env w l o l') {s : SId} {cm : MId} {b : Bool}
    (hf : .drain s cm (.seen b) ∈ l') : .drain s cm (.seen b) ∈ l ∨ (w.queue (env.q s) ≠ [] ∧ o ≠ .poll (env.q s)) := by
  cases h with
  | @enter _ c _ =>
    rcases List.mem_cons.1 hf with hf | hf
    · cases c <;> cases hf
    · exact Or.inl hf
  | leave _ => exact Or.inl (List.mem_cons_of_mem _ hf)
  | user _ _ => exact Or.inl hf
  | frame hm =>
    rcases List.mem_cons.1 hf with hf | hf
    · exact Or.inr (move_seen hm hf.symm)
    · exact Or.inl (List.mem_cons_of_mem _ hf)

theorem noNull_preserved (env : Env) : Preserved env (fun lst w => Own env lst w ∧ TaskInv env lst w) (NoNull env) where
  op := by
    intro lst w t o l' ha h hm _ u s cm b hf hs
    have hold : Frame.drain s cm (.seen b) ∈ lst u ∨ (w.queue (env.q s) ≠ [] ∧ o ≠ .poll (env.q s)) := by
      by_cases hu : u = t
      · subst hu; rw [fset_same] at hf; exact lmove_seen hm hf
      · rw [fset_ne _ _ hu] at hf; exact Or.inl hf
    rcases hold with hold | ⟨h1, h2⟩
    · refine queue_kept (h u s cm b hold hs) ?_
      rintro rfl
      obtain ⟨s', cm', b', d, rest, h1, h2, h3, h4⟩ := lmove_poll hm
      have hmem : Frame.drain s' cm' (.seen b') ∈ lst t := by rw [h1]; exact List.mem_cons_self
      obtain ⟨rfl, rfl, rfl, _⟩ := sole_worker ha.2 hs hold hmem h3
      rw [fset_same, h2] at hf
      rcases List.mem_cons.1 hf with hf | hf
      · cases hf; exact h4 _ rfl
      · obtain ⟨d1, bb, hat⟩ := ha.2.shape u
        rw [h1] at hat
        cases hat with
        | drain _ => cases hf
        | cons hx _ => cases hx
    · exact queue_kept h1 h2
  ret := by
    intro lst w t _ h _ u s cm b hf hs
    by_cases hu : u = t
    · subst hu; rw [fset_same] at hf; cases hf
    · rw [fset_ne _ _ hu] at hf; exact h u s cm b hf hs
  thr := by
    intro lst w t x _ h _ u s cm b hf hs
    by_cases hu : u = t
    · subst hu; rw [fset_same] at hf; cases hf
    · rw [fset_ne _ _ hu] at hf; exact h u s cm b hf hs
  dispatch := by
    intro lst w e i j s' m _ h _ _ _ u s cm b hf hs
    by_cases hu : u = .worker e i
    · subst hu; rw [fset_same] at hf; simp [task] at hf
    · rw [fset_ne _ _ hu] at hf; exact h u s cm b hf hs
  interrupt := fun lst w t _ h => h
  shutdown := fun lst w e _ h => h
  dropTasks := fun lst w e _ h => h

/-! ### What kills a drain -/

theorem bare_append (t : Tid) (d : Nat) (a b : List (Tid × Obs)) :
    bare t d (a ++ b) = bare t d a ++ bare t (a.foldl (depthStep t) d) b := by
  induction a generalizing d with
  | nil => rfl
  | cons e a ih =>
    obtain ⟨u, o⟩ := e
    simp only [List.cons_append, List.foldl_cons]
    by_cases hu : u = t
    · subst hu
      by_cases h1 : ∃ s m, o = .taskDropped s m
      · obtain ⟨s, m, rfl⟩ := h1; simp [bare, depthStep, ih]
      by_cases h2 : ∃ k, o = .enter k
      · obtain ⟨k, rfl⟩ := h2; simp [bare, depthStep, ih]
      by_cases h3 : ∃ k r, o = .leave k r
      · obtain ⟨k, r, rfl⟩ := h3; simp [bare, depthStep, ih]
      have h1 : ∀ s m, o ≠ .taskDropped s m := fun s m h => h1 ⟨s, m, h⟩
      have h2 : ∀ k, o ≠ .enter k := fun k h => h2 ⟨k, h⟩
      have h3 : ∀ k r, o ≠ .leave k r := fun k r h => h3 ⟨k, r, h⟩
      rw [bare_skip _ h1 h2 h3, bare_skip _ h1 h2 h3]
      have : depthStep u d (u, o) = d := by
        cases o <;> first | rfl | exact absurd rfl (h2 _) | exact absurd rfl (h3 _ _)
      rw [this]
      split
      · exact ih d
      · rw [ih d]; rfl
    · have : depthStep t d (u, o) = d := by
        cases o <;> first | rfl | simp [depthStep, hu]
      rw [this]
      simp only [bare, if_pos hu]
      exact ih d

/-- The drain has been killed by `x`: user code threw it while an event was processed, and it is not an `Exception`, or
it was the flow listener that threw it. -/
def Fatal (os : List Obs) (x : Exc) : Prop :=
  ∃ os' c m ev, os = os' ++ [.cbRet c (some x), .done m ev] ∧ (x.isException = false ∨ ∃ y, c = .flowEx m ev y)

/-- What is left of the plan. -/
def Ph.items : Ph → List Item
  | .run pl _ _ | .inCb _ pl _ _ => pl
  | _ => []

/-- What a drain has done last. -/
def Tail (env : Env) (os : List Obs) : Option Frame → Prop
  | some (.drain _ _ (.busy _ _ _ ph)) => (∀ y, Item.thr y ∈ ph.items → y = .npe) ∧
    ∀ x, ph = .thrown x → x.isException = false → ∃ os' c, os = os' ++ [.cbRet c (some x)]
  | some (.drain _ _ (.over _ ev m (some x))) => ∃ os' y, os = os' ++ [.cbRet (.flowEx m ev y) (some x)]
  | some (.drain s _ (.dead x)) => Fatal os x ∨ (x = .npe ∧ ¬ Sole env s)
  | _ => True

structure DeadInv (env : Env) (lst : Tid → List Frame) (w : World) : Prop where
  now : ∀ t, ∃ d b, At (lst t) d b ∧ apiDepth t w.trace = d ∧ Tail env (bare t 0 w.trace) b
  past : ∀ pre t x post, w.trace = pre ++ (t, .uncaught x) :: post → (∃ n, t = .client n) ∨ Fatal (bare t 0 pre) x ∨
    (x = .npe ∧ ∃ s i, t = .worker (env.strat s).exec i ∧ i < env.width (env.strat s).exec ∧ ¬ Sole env s)

theorem split_snoc {α : Type} {tr pre post : List α} {e x : α} (h : tr ++ [e] = pre ++ x :: post) :
    (post = [] ∧ pre = tr ∧ x = e) ∨ ∃ post', post = post' ++ [e] ∧ tr = pre ++ x :: post' := by
  rcases List.eq_nil_or_concat post with rfl | ⟨post', y, rfl⟩
  · left
    have : tr ++ [e] = pre ++ [x] := h
    have := List.append_inj' this rfl
    simp at this
    exact ⟨rfl, this.1.symm, this.2.symm⟩
  · right
    have : tr ++ [e] = (pre ++ x :: post') ++ [y] := by simp [h]
    have := List.append_inj' this rfl
    simp at this
    exact ⟨post', by simp [this.2], this.1⟩

/-- A move of a frame is neither a call nor a return. -/
theorem move_obs {env : Env} {w : World} {f f' : Frame} {o : Op} (h : Move env w f o f') {x : Obs} (hx : opObs o w = some x) :
    (∀ k, x ≠ .enter k) ∧ (∀ k r, x ≠ .leave k r) ∧ (∀ y, x ≠ .uncaught y) ∧ (∀ s m, x ≠ .taskDropped s m) ∧ userObs x = false := by
  have key : ∀ {m : MId} {ev : Ev} {ph : Ph}, phAllowed m ev ph o →
      (∀ k, x ≠ .enter k) ∧ (∀ k r, x ≠ .leave k r) ∧ (∀ y, x ≠ .uncaught y) ∧ (∀ s m, x ≠ .taskDropped s m) ∧ userObs x = false := by
    intro m ev ph ha
    cases phAllowed_op ha with
    | notify _ => simp only [opObs] at hx; split at hx <;> cases hx <;> simp [userObs]
    | cas => simp only [opObs] at hx; split at hx <;> cases hx <;> simp [userObs]
    | _ => cases hx <;> simp [userObs]
  cases h with
  | stPh _ _ ha => exact key ha
  | drPh ha => exact key ha
  | _ =>
    first
      | (cases hx; done)
      | (cases hx; simp [userObs]; done)
      | (simp only [opObs] at hx; split at hx <;> cases hx <;> simp [userObs]; done)
      | (simp only [opObs, Option.map_eq_some_iff] at hx; obtain ⟨_, _, rfl⟩ := hx; simp [userObs]; done)
      | (simp only [opObs] at hx; split at hx
         · cases hx
         · simp only [Option.map_eq_some_iff] at hx; obtain ⟨_, _, rfl⟩ := hx; simp [userObs])

theorem phNxt_items {m : MId} {ph : Ph} {o : Op} {w : World} {y : Item} (h : y ∈ (phNxt m ph o w).items) : y ∈ ph.items := by
  have htail : ∀ {pl : List Item}, y ∈ pl.tail → y ∈ pl := fun h => List.mem_of_mem_tail h
  unfold phNxt at h
  split at h
  · split at h
    · unfold Ph.seen at h
      split at h
      · cases h
      · exact h
    · cases h
  · split at h
    · exact h
    · cases h
  · split at h
    · cases h
    · split at h
      · exact htail h
      · cases h
  · exact htail h
  · split at h
    · split at h
      · exact List.mem_cons_of_mem _ (List.mem_cons_of_mem _ h)
      · cases h
    · exact htail h
  · exact htail h
  · split at h
    · exact h
    · cases h
  · split at h <;> cases h
  · cases h
  · split at h <;> cases h
  · cases h
  · split at h <;> cases h
  · exact h

theorem phNxt_thrown {m : MId} {ev : Ev} {ph : Ph} {o : Op} {w : World} {x : Exc} (ha : phAllowed m ev ph o)
    (h : phNxt m ph o w = .thrown x) (hx : x.isException = false)
    (hpl : ∀ y, Item.thr y ∈ ph.items → y = .npe) :
    ∃ c, o = .emit (.cbRet c (some x)) := by
  unfold phAllowed at ha
  split at ha
  · simp only [phNxt] at h
    split at h
    · simp only [Ph.seen] at h
      split at h
      · cases h
        have := hpl x (by simp [Ph.items])
        subst this
        cases hx
      · cases h
    · cases h
  · simp only [phNxt] at h
    split at h <;> cases h
  · simp only [phNxt] at h
    split at h
    · cases h
    · split at h <;> cases h
  · cases h
  · simp only [phNxt] at h
    split at h
    · split at h <;> cases h
    · cases h
  · cases h
  · simp only [phNxt] at h
    split at h
    · cases h
    · cases h; exact ⟨_, rfl⟩
  · cases h
  · cases h
  · simp only [phNxt] at h
    split at h <;> cases h
  · cases h
  · simp only [phNxt] at h
    split at h <;> cases h
  · cases h
  · simp only [phNxt] at h
    split at h
    · cases h
    · cases h; exact ⟨_, rfl⟩
  · exact ha.elim

/-- What a move of a drain adds to what it has done. -/
theorem tail_move {env : Env} {w : World} {s : SId} {cm : MId} {d : Dr} {o : Op} {f' : Frame} {os : List Obs}
    (hm : Move env w (.drain s cm d) o f') (h : Tail env os (some (.drain s cm d)))
    (hfact : (Frame.drain s cm d).fact env w.pair) (hall : ∀ q, ∀ p ∈ w.queue q, (w.pair p).isSome = true)
    (hnn : ∀ b, d = .seen b → Sole env s → w.queue (env.q s) ≠ []) :
    Tail env (os ++ (opObs o w).toList) (some f') := by
  generalize hf0 : Frame.drain s cm d = f0 at hm
  cases hm with
  | stCas1 hf _ _ => rcases hf.inv with ⟨rfl, _⟩ | ⟨rfl, _⟩ <;> cases hf0
  | stCas0 hf _ _ => rcases hf.inv with ⟨rfl, _⟩ | ⟨rfl, _⟩ <;> cases hf0
  | stSet hf => rcases hf.inv with ⟨rfl, _⟩ | ⟨rfl, _⟩ <;> cases hf0
  | stClear hf _ => rcases hf.inv with ⟨rfl, _⟩ | ⟨rfl, _⟩ <;> cases hf0
  | stPh hf _ _ => rcases hf.inv with ⟨rfl, _⟩ | ⟨rfl, _⟩ <;> cases hf0
  | drPoll0 hq =>
    cases hf0
    exact Or.inr ⟨rfl, fun hs => hnn _ rfl hs hq⟩
  | drPollBad hq hp =>
    cases hf0
    have := hall _ _ (by rw [hq]; exact List.mem_cons_self)
    rw [hp] at this; cases this
  | drBegin _ =>
    cases hf0
    refine ⟨fun y hy => ?_, fun x hx => by cases hx⟩
    have hy : Item.thr y ∈ (desc env s _).plan _ _ _ := hy
    have := thr_plan hy
    rw [this] at hy
    simpa using hy
  | drPh ha =>
    cases hf0
    refine ⟨fun y hy => h.1 y (phNxt_items hy), fun x hx hxe => ?_⟩
    obtain ⟨c, rfl⟩ := phNxt_thrown ha hx hxe h.1
    exact ⟨os, c, rfl⟩
  | @drGiveErr _ _ p ev m x hx =>
    cases hf0
    obtain ⟨os', c, rfl⟩ := h.2 _ rfl hx
    simp only [Frame.fact] at hfact
    exact Or.inl ⟨os', c, m, ev, by simp [opObs, hfact.1], Or.inl hx⟩
  | @drFlowRet _ _ p ev m x r =>
    cases hf0
    cases r with
    | none => trivial
    | some y => exact ⟨os, x, rfl⟩
  | @drOverErr _ _ p ev m x =>
    cases hf0
    obtain ⟨os', y, rfl⟩ := h
    simp only [Frame.fact] at hfact
    exact Or.inl ⟨os', _, m, ev, by simp [opObs, hfact.1], Or.inr ⟨y, rfl⟩⟩
  | _ => first | trivial | (cases hf0; done)

theorem depth_append (t : Tid) (a b : List (Tid × Obs)) : apiDepth t (a ++ b) = b.foldl (depthStep t) (apiDepth t a) := by
  simp [apiDepth, List.foldl_append]

/-- Entries of other threads. -/
theorem bare_other {t : Tid} {a b : List (Tid × Obs)} (h : ∀ e ∈ b, e.1 ≠ t ∨ ∃ s m, e.2 = .taskDropped s m) :
    apiDepth t (a ++ b) = apiDepth t a ∧ bare t 0 (a ++ b) = bare t 0 a := by
  rw [depth_append, bare_append]
  show b.foldl (depthStep t) (apiDepth t a) = _ ∧ bare t 0 a ++ bare t (apiDepth t a) b = _
  generalize apiDepth t a = d
  suffices b.foldl (depthStep t) d = d ∧ bare t d b = [] by simp [this.1, this.2]
  induction b with
  | nil => exact ⟨rfl, rfl⟩
  | cons e b ih =>
    obtain ⟨h1, h2⟩ := ih fun e he => h e (List.mem_cons_of_mem _ he)
    obtain ⟨u, o⟩ := e
    have hd : depthStep t d (u, o) = d := by
      rcases h _ List.mem_cons_self with hu | ⟨s, m, rfl⟩
      · cases o <;> first | rfl | (simp only [depthStep]; exact if_neg hu)
      · rfl
    have hb : bare t d ((u, o) :: b) = bare t d b := by
      rcases h _ List.mem_cons_self with hu | ⟨s, m, rfl⟩
      · simp only [bare]; rw [if_pos hu]
      · simp [bare]
    rw [hb, List.foldl_cons, hd]
    exact ⟨h1, h2⟩

theorem past_append {tr b : List (Tid × Obs)} {P : List (Tid × Obs) → Tid → Exc → Prop}
    (h : ∀ pre t x post, tr = pre ++ (t, .uncaught x) :: post → P pre t x) (hb : ∀ e ∈ b, ∀ x, e.2 ≠ .uncaught x) :
    ∀ pre t x post, tr ++ b = pre ++ (t, .uncaught x) :: post → P pre t x := by
  intro pre t x post hs
  rcases List.append_eq_append_iff.1 hs with ⟨a, rfl, h2⟩ | ⟨a, rfl, h2⟩
  · exact absurd rfl (hb (t, .uncaught x) (by rw [h2]; simp) x)
  · cases a with
    | nil =>
      simp at h2
      exact absurd rfl (hb (t, .uncaught x) (by rw [← h2]; simp) x)
    | cons y a =>
      simp at h2
      obtain ⟨rfl, _⟩ := h2
      exact h pre t x a rfl

theorem dead_preserved (env : Env) :
    Preserved env (fun lst w => (Own env lst w ∧ TaskInv env lst w) ∧ NoNull env lst w) (DeadInv env) where
  op := by
    intro lst w t o l' ha h hm _
    have hx : ∀ x, opObs o w = some x → ∀ y, x ≠ .uncaught y := by
      intro x hx y hy
      subst hy
      generalize lst t = l at hm
      cases hm with
      | enter _ => cases hx
      | leave _ => cases hx
      | user _ hu => unfold userOp at hu; split at hu <;> first | cases hx | exact hu.elim
      | frame hm => exact (move_obs hm hx).2.2.1 y rfl
    refine ⟨?_, ?_⟩
    · intro u
      rw [exec_trace]
      by_cases hu : u = t
      · subst hu
        rw [fset_same]
        obtain ⟨d, b, hat, hd, htl⟩ := h.now u
        have hown := ha.1.1
        have hnn := ha.2 u
        have hall := own_all hown
        obtain ⟨loc, hown⟩ := hown
        have hfact := hown.fact u
        generalize lst u = l at hm hat hnn hfact
        cases hm with
        | @enter _ c _ =>
          refine ⟨d + 1, b, .cons (by cases c <;> rfl) hat, ?_, ?_⟩
          · rw [depth_append, hd]; simp [opObs, depthStep]
          · rw [bare_append]; simpa [opObs, bare] using htl
        | leave hl =>
          have := leaves_isDrain hl
          cases hat with
          | drain hx => rw [this] at hx; cases hx
          | @cons _ _ d _ _ hat =>
            refine ⟨d, b, hat, ?_, ?_⟩
            · rw [depth_append, hd]; simp [opObs, depthStep]
            · rw [bare_append]; simpa [opObs, bare] using htl
        | user _ hu =>
          refine ⟨d, b, hat, ?_, ?_⟩
          · rw [depth_append, hd]
            unfold userOp at hu; split at hu <;> first | rfl | exact hu.elim
          · rw [bare_append]
            unfold userOp at hu; split at hu <;> first | exact hu.elim | simpa [opObs, bare, userObs] using htl
        | @frame f f' rest _ hm =>
          have hd' : apiDepth u (w.trace ++ ((opObs o w).map fun x => (u, x)).toList) = d := by
            rw [depth_append, hd]
            cases hx : opObs o w with
            | none => rfl
            | some x =>
              obtain ⟨h1, h2, _⟩ := move_obs hm hx
              cases x <;> first | rfl | exact absurd rfl (h1 _) | exact absurd rfl (h2 _ _)
          cases hat with
          | drain hdr =>
            refine ⟨0, some f', .drain ((move_isDrain hm).trans hdr), hd', ?_⟩
            have : bare u 0 (w.trace ++ ((opObs o w).map fun x => (u, x)).toList) = bare u 0 w.trace ++ (opObs o w).toList := by
              rw [bare_append]
              change _ ++ bare u (apiDepth u w.trace) _ = _
              rw [hd]
              cases hx : opObs o w with
              | none => rfl
              | some x =>
                obtain ⟨h1, h2, _, h4, h5⟩ := move_obs hm hx
                have := bare_skip (t := u) (d := 0) [] h4 h1 h2
                simp only [Option.map_some, Option.toList_some, this, h5]
                simp [bare]
            rw [this]
            cases f with
            | drain s cm dr =>
              refine tail_move hm htl (hfact _ List.mem_cons_self) hall ?_
              rintro b rfl hs
              exact hnn s cm b List.mem_cons_self hs
            | _ => cases hdr
          | @cons _ _ d _ h1 hat =>
            refine ⟨d + 1, b, .cons ((move_isDrain hm).trans h1) hat, hd', ?_⟩
            rw [bare_append]
            change Tail env (_ ++ bare u (apiDepth u w.trace) _) _
            rw [hd]
            cases hx : opObs o w with
            | none => simpa [bare] using htl
            | some x =>
              obtain ⟨h1, h2, _, h4, h5⟩ := move_obs hm hx
              have := bare_skip (t := u) (d := d + 1) [] h4 h1 h2
              simp only [Option.map_some, Option.toList_some, this]
              simpa [bare] using htl
      · rw [fset_ne _ _ hu]
        obtain ⟨d, b, hat, hd, htl⟩ := h.now u
        have := bare_other (t := u) (a := w.trace) (b := ((opObs o w).map fun x => (t, x)).toList) (by
          intro e he
          cases hx : opObs o w with
          | none => rw [hx] at he; cases he
          | some x => rw [hx] at he; simp at he; subst he; exact Or.inl (Ne.symm hu))
        exact ⟨d, b, hat, by rw [this.1]; exact hd, by rw [this.2]; exact htl⟩
    · rw [exec_trace]
      refine past_append h.past ?_
      intro e he x
      cases ho : opObs o w with
      | none => rw [ho] at he; cases he
      | some y => rw [ho] at he; simp at he; subst he; exact hx y ho x
  ret := by
    intro lst w t _ h hf
    refine ⟨fun u => ?_, h.past⟩
    by_cases hu : u = t
    · subst hu
      obtain ⟨d, b, hat, hd, htl⟩ := h.now u
      rw [fset_same]
      obtain ⟨rfl, _⟩ := at_fin hf hat
      exact ⟨0, none, .nil, hd, trivial⟩
    · rw [fset_ne _ _ hu]; exact h.now u
  thr := by
    intro lst w t x ha h hf
    refine ⟨fun u => ?_, ?_⟩
    · by_cases hu : u = t
      · subst hu
        obtain ⟨d, b, hat, hd, htl⟩ := h.now u
        rw [fset_same]
        obtain ⟨rfl, _⟩ := at_fin hf hat
        refine ⟨0, none, .nil, ?_, trivial⟩
        show apiDepth u (w.trace ++ [_]) = 0
        rw [depth_append, hd]
        rfl
      · rw [fset_ne _ _ hu]
        obtain ⟨d, b, hat, hd, htl⟩ := h.now u
        have := bare_other (t := u) (a := w.trace) (b := [(t, .uncaught x)]) (by simp [Ne.symm hu])
        exact ⟨d, b, hat, by simp only [World.log]; rw [this.1]; exact hd, by simp only [World.log]; rw [this.2]; exact htl⟩
    · intro pre u y post hs
      rcases split_snoc hs with ⟨rfl, rfl, he⟩ | ⟨post', rfl, h2⟩
      · cases he
        rcases hf with ⟨hn, _⟩ | ⟨s, m, hl⟩
        · exact Or.inl hn
        · simp only at hl
          right
          obtain ⟨d, b, hat, hd, htl⟩ := h.now t
          obtain ⟨⟨i, h1, h2⟩, _⟩ := ha.1.2.home t (.drain s m (.dead x)) (by rw [hl]; simp)
          rw [hl] at hat
          cases hat with
          | drain _ =>
            rcases htl with htl | ⟨h3, h4⟩
            · exact Or.inl htl
            · exact Or.inr ⟨h3, s, i, h1, h2, h4⟩
          | cons hx _ => cases hx
      · exact h.past _ _ _ _ h2
  dispatch := by
    intro lst w e i j s m _ h hl _ _
    refine ⟨fun u => ?_, h.past⟩
    by_cases hu : u = .worker e i
    · subst hu
      rw [fset_same]
      obtain ⟨d, b, hat, hd, htl⟩ := h.now (.worker e i)
      rw [hl] at hat
      cases hat
      exact ⟨0, _, .drain rfl, hd, trivial⟩
    · rw [fset_ne _ _ hu]; exact h.now u
  interrupt := fun lst w t _ h => ⟨h.now, h.past⟩
  shutdown := fun lst w e _ h => ⟨h.now, h.past⟩
  dropTasks := by
    intro lst w e _ h
    refine ⟨fun u => ?_, ?_⟩
    · obtain ⟨d, b, hat, hd, htl⟩ := h.now u
      have := bare_other (t := u) (a := w.trace) (b := (w.tasks e).map (fun t => (Tid.env, Obs.taskDropped t.1 t.2))) (by
        intro e he
        obtain ⟨x, _, rfl⟩ := List.mem_map.1 he
        exact Or.inr ⟨_, _, rfl⟩)
      exact ⟨d, b, hat, by simp only [World.dropTasks]; rw [this.1]; exact hd, by simp only [World.dropTasks]; rw [this.2]; exact htl⟩
    · refine past_append h.past ?_
      intro e he x
      obtain ⟨y, _, rfl⟩ := List.mem_map.1 he
      simp

theorem drain_invariant (env : Env) : Invariant env (proto env) [] task fin
    (fun lst w => ((Own env lst w ∧ TaskInv env lst w) ∧ NoNull env lst w) ∧ DeadInv env lst w) :=
  (((own_invariant env).and (task_preserved env)).and (noNull_preserved env)).and (dead_preserved env)

theorem drain_reach {env : Env} {c : Conf} (hr : Reach env c) : ∃ lst, ThreadsOk (proto env) [] fin lst c ∧
    ((Own env lst c.w ∧ TaskInv env lst c.w) ∧ NoNull env lst c.w) ∧ DeadInv env lst c.w := by
  refine (drain_invariant env).reach ?_ hr
  intro c hi
  refine ⟨⟨⟨own_initial env c hi, task_initial env c hi⟩, ?_⟩, ?_, ?_⟩
  · intro t s cm b hf; cases hf
  · intro t
    exact ⟨0, none, .nil, by rw [hi.trace]; rfl, trivial⟩
  · intro pre t x post hs
    rw [hi.trace] at hs
    simp at hs

/-! ### Events of machines that have ended -/

namespace Skip

/-- Has the machine ended? Which event of the ended machine has the thread taken? -/
structure G where
  ended : Bool
  skip : Option Ev

/-- Watch thread `t` and machine `m`. -/
def step (t : Tid) (m : MId) (g : G) (e : Tid × Obs) : Option G :=
  if e.1 = t ∧ g.skip.isSome then
    match e.2 with
    | .done m' ev => if m' = m ∧ g.skip = some ev then some ⟨g.ended, none⟩ else none
    | _ => none
  else match e.2 with
    | .taken _ m' ev => if e.1 = t ∧ m' = m ∧ g.ended then some ⟨g.ended, some ev⟩ else some g
    | .cleared m' => if m' = m then some ⟨false, none⟩ else some g
    | .upd m' _ b _ => if m' = m then some ⟨b, g.skip⟩ else some g
    | _ => some g

def run (t : Tid) (m : MId) : G → List (Tid × Obs) → Option G
  | g, [] => some g
  | g, e :: tr => match step t m g e with
    | none => none
    | some g' => run t m g' tr

theorem run_append (t : Tid) (m : MId) (g : G) (a b : List (Tid × Obs)) :
    run t m g (a ++ b) = match run t m g a with | none => none | some g' => run t m g' b := by
  induction a generalizing g with
  | nil => rfl
  | cons e a ih =>
    simp only [List.cons_append, run]
    split
    · rfl
    · exact ih _

end Skip

/-- Where a drain is with an event of an ended machine. -/
def SkipAt (m : MId) (ev : Ev) (l : List Frame) : Prop :=
  ∃ s p, l = [.drain s m (.polled p ev m)] ∨ l = [.drain s m (.known p ev m)] ∨ l = [.drain s m (.over p ev m none)]

def SkipInv (t : Tid) (m : MId) (lst : Tid → List Frame) (w : World) : Prop :=
  ∃ sk, Skip.run t m ⟨false, none⟩ w.trace = some ⟨(w.mach m).ended, sk⟩ ∧
    ∀ ev, sk = some ev → (w.mach m).ended = true ∧ SkipAt m ev (lst t)

theorem ended_exec {t : Tid} {o : Op} {w : World} {m : MId} (hok : OpOk w o) :
    ((exec t o w).2.mach m).ended = match opObs o w with
      | some (.cleared m') => if m' = m then false else (w.mach m).ended
      | some (.upd m' _ b _) => if m' = m then b else (w.mach m).ended
      | _ => (w.mach m).ended := by
  cases o with
  | clearEnded m' =>
    simp only [exec, opObs, World.log]
    by_cases h : m' = m
    · subst h; simp
    · rw [if_neg h, fset_ne _ _ (Ne.symm h)]
  | casEnded m' s b api =>
    simp only [exec, opObs]
    split
    · rfl
    · simp only [World.log]
      by_cases h : m' = m
      · subst h; simp
      · rw [if_neg h, fset_ne _ _ (Ne.symm h)]
  | casStarted m' =>
    simp only [exec, opObs]
    split
    · rfl
    · simp only [World.log]
      by_cases h : m = m'
      · subst h; simp
      · rw [fset_ne _ _ h]
  | setCur m' s api =>
    simp only [exec, opObs, World.log]
    by_cases h : m = m'
    · subst h; simp
    · rw [fset_ne _ _ h]
  | setListener m' l =>
    simp only [exec, opObs, World.log]
    by_cases h : m = m'
    · subst h; simp
    · rw [fset_ne _ _ h]
  | emit x =>
    simp only [exec, opObs, World.log]
    cases x <;> first | rfl | cases hok
  | submit e s m' => simp only [exec, opObs]; split <;> rfl
  | offer q p => simp only [exec, opObs]; cases w.pair p <;> rfl
  | poolGive s p => simp only [exec, opObs]; cases w.pair p <;> rfl
  | poll q =>
    simp only [exec, opObs]
    cases w.queue q with
    | nil => rfl
    | cons p ps => simp only; cases w.pair p <;> rfl
  | poolTake s => simp only [exec, opObs]; split <;> rfl
  | notify m' c => simp only [exec, opObs]; cases (w.mach m').listener <;> rfl
  | await n => simp only [exec, opObs]; split <;> rfl
  | _ => rfl

theorem skip_move {env : Env} {w : World} {m : MId} {ev : Ev} {l l' : List Frame} {o : Op} (hm : LMove env w l o l')
    (h : SkipAt m ev l) (hfact : ∀ f ∈ l, f.fact env w.pair) (he : (w.mach m).ended = true) :
    (opObs o w = none ∧ SkipAt m ev l') ∨ opObs o w = some (.done m ev) := by
  obtain ⟨s, p, h⟩ := h
  have hnc : ¬ callable l := by rcases h with rfl | rfl | rfl <;> simp [callable, Frame.calling]
  have hfact : w.pair p = some (ev, m) := by
    rcases h with rfl | rfl | rfl <;> exact (hfact _ List.mem_cons_self).1
  cases hm with
  | enter hc => exact absurd hc hnc
  | user hc _ => exact absurd hc hnc
  | leave hl =>
    have := leaves_isDrain hl
    rcases h with h | h | h <;> cases h <;> cases this
  | @frame f f' rest o hm =>
    have hf : rest = [] ∧ (f = .drain s m (.polled p ev m) ∨ f = .drain s m (.known p ev m) ∨ f = .drain s m (.over p ev m none)) := by
      rcases h with h | h | h <;> cases h <;> simp
    obtain ⟨rfl, hf⟩ := hf
    cases hm with
    | stCas1 hf' _ _ => rcases hf'.inv with ⟨rfl, _⟩ | ⟨rfl, _⟩ <;> simp at hf
    | stCas0 hf' _ _ => rcases hf'.inv with ⟨rfl, _⟩ | ⟨rfl, _⟩ <;> simp at hf
    | stSet hf' => rcases hf'.inv with ⟨rfl, _⟩ | ⟨rfl, _⟩ <;> simp at hf
    | stClear hf' _ => rcases hf'.inv with ⟨rfl, _⟩ | ⟨rfl, _⟩ <;> simp at hf
    | stPh hf' _ _ => rcases hf'.inv with ⟨rfl, _⟩ | ⟨rfl, _⟩ <;> simp at hf
    | drRead =>
      simp at hf
      obtain ⟨rfl, rfl, rfl, rfl, rfl⟩ := hf
      exact Or.inl ⟨rfl, _, _, Or.inr (Or.inl rfl)⟩
    | drSkip h1 =>
      simp at hf
      obtain ⟨rfl, rfl, rfl, rfl, rfl⟩ := hf
      exact Or.inl ⟨rfl, _, _, Or.inr (Or.inr rfl)⟩
    | drBegin h1 =>
      simp at hf
      obtain ⟨rfl, rfl, rfl, rfl, rfl⟩ := hf
      rw [he] at h1; cases h1
    | drOver =>
      simp at hf
      obtain ⟨rfl, rfl, rfl, rfl, rfl⟩ := hf
      exact Or.inr (by simp [opObs, hfact])
    | drQuit hd _ => rcases hd with rfl | rfl <;> simp at hf
    | _ => simp at hf

theorem skip_taken {env : Env} {lst : Tid → List Frame} {w : World} {m : MId} (hp : Private env m) (ho : Own env lst w)
    (ht : TaskInv env lst w) {t : Tid} {o : Op} {l' : List Frame} (hm : LMove env w (lst t) o l') {q : QId} {ev : Ev}
    (hx : opObs o w = some (.taken q m ev)) : SkipAt m ev l' := by
  have hok := opOk_of_lmove ho hm
  obtain ⟨d, b, hat⟩ := ht.shape t
  have hhome := ht.home t
  have hfull : ∀ q p, p ∈ w.queue q → ∃ ev m, w.pair p = some (ev, m) ∧ env.qm m = q := by obtain ⟨loc, ho⟩ := ho; exact ho.full
  generalize lst t = l at hm hat hhome
  cases hm with
  | enter _ => cases hx
  | leave _ => cases hx
  | user _ hu => unfold userOp at hu; split at hu <;> first | cases hx | exact hu.elim
  | @frame f f' rest _ hm =>
    obtain ⟨s, cm, dr, rfl, hq, _⟩ := move_taken hm hx
    have hrest : rest = [] := by
      cases hat with
      | drain _ => rfl
      | cons h _ => cases h
    subst hrest
    obtain ⟨_, hs⟩ := hhome _ List.mem_cons_self
    cases o with
    | poll q' =>
      obtain ⟨s', cm', b, d', h1, rfl, h3, _, h7⟩ := move_poll hm
      cases h1
      simp only [opObs] at hx
      split at hx
      · cases hx
      · rename_i p ps hq'
        simp at hx
        obtain ⟨ev', m', h4, rfl, rfl, rfl⟩ := hx
        obtain ⟨_, _, h5, h6⟩ := hfull q' p (by rw [hq']; exact List.mem_cons_self)
        rw [h4] at h5
        cases h5
        have : s = (env.mach m').strat := hp.queue s (by rw [h3, h6])
        subst this
        have := hp.mach cm hs
        subst this
        rw [h7 _ _ _ _ hq' h4]
        exact ⟨_, _, Or.inl rfl⟩
    | emit x => cases hx; cases hok
    | casStarted _ => simp only [opObs] at hx; split at hx <;> cases hx
    | casEnded _ _ _ _ => simp only [opObs] at hx; split at hx <;> cases hx
    | notify _ _ => simp only [opObs] at hx; split at hx <;> cases hx
    | submit _ _ _ => simp only [opObs] at hx; split at hx <;> cases hx
    | offer _ _ => simp [opObs] at hx
    | poolGive _ _ => simp [opObs] at hx
    | _ => cases hx

theorem skip_op {env : Env} {m : MId} (hp : Private env m) {t u : Tid} {lst : Tid → List Frame} {w : World} {o : Op} {l' : List Frame}
    (ho : Own env lst w) (ht : TaskInv env lst w) (h : SkipInv t m lst w) (hm : LMove env w (lst u) o l') :
    SkipInv t m (fset lst u l') (exec u o w).2 := by
  obtain ⟨sk, hrun, hsk⟩ := h
  have hok := opOk_of_lmove ho hm
  have hend := ended_exec (t := u) (m := m) hok
  unfold SkipInv
  rw [exec_trace, Skip.run_append, hrun]
  simp only
  rw [hend]
  have hfact : ∀ f ∈ lst u, f.fact env w.pair := by obtain ⟨loc, ho⟩ := ho; exact ho.fact u
  cases hx : opObs o w with
  | none =>
    refine ⟨sk, rfl, ?_⟩
    intro ev hev
    obtain ⟨h1, h2⟩ := hsk ev hev
    refine ⟨h1, ?_⟩
    by_cases hu : t = u
    · subst hu
      rw [fset_same]
      rcases skip_move hm h2 hfact h1 with ⟨_, h3⟩ | h3
      · exact h3
      · rw [hx] at h3; cases h3
    · rw [fset_ne _ _ hu]; exact h2
  | some x =>
    simp only [Option.map_some, Option.toList_some, Skip.run]
    by_cases hin : u = t ∧ sk.isSome = true
    · obtain ⟨rfl, hs⟩ := hin
      obtain ⟨ev, rfl⟩ := Option.isSome_iff_exists.1 hs
      obtain ⟨h1, h2⟩ := hsk ev rfl
      rcases skip_move hm h2 hfact h1 with ⟨h3, _⟩ | h3
      · rw [hx] at h3; cases h3
      · rw [hx] at h3
        cases h3
        refine ⟨none, ?_, fun ev h => by cases h⟩
        simp [Skip.step]
    · have hstep : Skip.step t m ⟨(w.mach m).ended, sk⟩ (u, x) = match x with
        | .taken _ m' ev => if u = t ∧ m' = m ∧ (w.mach m).ended then some ⟨(w.mach m).ended, some ev⟩ else some ⟨(w.mach m).ended, sk⟩
        | .cleared m' => if m' = m then some ⟨false, none⟩ else some ⟨(w.mach m).ended, sk⟩
        | .upd m' _ b _ => if m' = m then some ⟨b, sk⟩ else some ⟨(w.mach m).ended, sk⟩
        | _ => some ⟨(w.mach m).ended, sk⟩ := by
        simp only [Skip.step]
        rw [if_neg hin]
        cases x <;> rfl
      rw [hstep]
      have hkeep : ∀ ev, sk = some ev → (w.mach m).ended = true ∧ SkipAt m ev (fset lst u l' t) := by
        intro ev hev
        have hu : t ≠ u := by rintro rfl; exact hin ⟨rfl, by rw [hev]; rfl⟩
        rw [fset_ne _ _ hu]
        exact hsk ev hev
      cases x with
      | taken q m' ev =>
        simp only
        by_cases hc : u = t ∧ m' = m ∧ (w.mach m).ended = true
        · rw [if_pos hc]
          obtain ⟨rfl, rfl, he⟩ := hc
          refine ⟨some ev, rfl, ?_⟩
          intro ev' hev
          cases hev
          refine ⟨he, ?_⟩
          rw [fset_same]
          exact skip_taken hp ho ht hm hx
        · rw [if_neg hc]; exact ⟨sk, rfl, hkeep⟩
      | cleared m' =>
        simp only
        by_cases hc : m' = m
        · rw [if_pos hc, if_pos hc]; exact ⟨none, rfl, fun ev h => by cases h⟩
        · rw [if_neg hc, if_neg hc]; exact ⟨sk, rfl, hkeep⟩
      | upd m' s b api =>
        simp only
        by_cases hmm : m' = m
        · rw [if_pos hmm, if_pos hmm]
          refine ⟨sk, rfl, ?_⟩
          intro ev hev
          subst hmm
          have h1 := (hkeep ev hev).1
          -- a successful CAS
          exfalso
          cases o with
          | casEnded m2 _ _ _ =>
            simp only [opObs] at hx
            split at hx
            · cases hx
            · rename_i h2; cases hx; exact h2 h1
          | emit x => cases hx; cases hok
          | casStarted _ => simp only [opObs] at hx; split at hx <;> cases hx
          | notify _ _ => simp only [opObs] at hx; split at hx <;> cases hx
          | submit _ _ _ => simp only [opObs] at hx; split at hx <;> cases hx
          | offer _ _ => simp [opObs] at hx
          | poolGive _ _ => simp [opObs] at hx
          | poll q => simp only [opObs] at hx; split at hx <;> simp at hx
          | _ => cases hx
        · rw [if_neg hmm, if_neg hmm]; exact ⟨sk, rfl, hkeep⟩
      | _ => exact ⟨sk, rfl, hkeep⟩

theorem skip_log {t u : Tid} {m : MId} {w : World} {x : Exc} {sk : Option Ev} (hrun : Skip.run t m ⟨false, none⟩ w.trace = some ⟨(w.mach m).ended, sk⟩)
    (h : u = t → sk = none) :
    Skip.run t m ⟨false, none⟩ (w.log u (.uncaught x)).trace = some ⟨(w.mach m).ended, sk⟩ := by
  simp only [World.log]
  rw [Skip.run_append, hrun]
  simp only [Skip.run, Skip.step]
  have : ¬ (u = t ∧ sk.isSome = true) := by
    rintro ⟨h1, h2⟩
    rw [h h1] at h2; cases h2
  rw [if_neg this]

theorem skip_fin {t : Tid} {r : Except Exc Unit} {m : MId} {ev : Ev} {l : List Frame} (hf : fin t r l) (h : SkipAt m ev l) : False := by
  obtain ⟨s, p, h⟩ := h
  rcases hf with ⟨_, rfl⟩ | ⟨s', m', hf⟩
  · simp at h
  · cases r <;> (simp only at hf; subst hf; simp at h)

theorem skip_preserved {env : Env} {m : MId} (hp : Private env m) (t : Tid) :
    Preserved env (fun lst w => Own env lst w ∧ TaskInv env lst w) (SkipInv t m) where
  op := fun lst w u o l' ha h hm _ => skip_op hp ha.1 ha.2 h hm
  ret := by
    rintro lst w u _ ⟨sk, hrun, hsk⟩ hf
    refine ⟨sk, hrun, fun ev hev => ?_⟩
    obtain ⟨h1, h2⟩ := hsk ev hev
    by_cases hu : t = u
    · subst hu; exact (skip_fin hf h2).elim
    · rw [fset_ne _ _ hu]; exact ⟨h1, h2⟩
  thr := by
    rintro lst w u x _ ⟨sk, hrun, hsk⟩ hf
    refine ⟨sk, skip_log hrun ?_, fun ev hev => ?_⟩
    · rintro rfl
      cases sk with
      | none => rfl
      | some ev => exact (skip_fin hf (hsk ev rfl).2).elim
    · obtain ⟨h1, h2⟩ := hsk ev hev
      by_cases hu : t = u
      · subst hu; exact (skip_fin hf h2).elim
      · rw [fset_ne _ _ hu]; exact ⟨h1, h2⟩
  dispatch := by
    rintro lst w e i j s m' _ ⟨sk, hrun, hsk⟩ hl _ _
    refine ⟨sk, hrun, fun ev hev => ?_⟩
    obtain ⟨h1, h2⟩ := hsk ev hev
    by_cases hu : t = .worker e i
    · subst hu
      obtain ⟨s, p, h2⟩ := h2
      rw [hl] at h2; simp at h2
    · rw [fset_ne _ _ hu]; exact ⟨h1, h2⟩
  interrupt := fun lst w t _ h => h
  shutdown := fun lst w e _ h => h
  dropTasks := by
    rintro lst w e ha ⟨sk, hrun, hsk⟩
    refine ⟨sk, ?_, hsk⟩
    have hne : t = .env → sk = none := by
      rintro rfl
      cases sk with
      | none => rfl
      | some ev =>
        obtain ⟨_, s, p, h⟩ := hsk ev rfl
        have : ∃ d, Frame.drain s m d ∈ lst .env := by rcases h with h | h | h <;> (rw [h]; exact ⟨_, List.mem_cons_self⟩)
        obtain ⟨d, hd⟩ := this
        obtain ⟨⟨i, h, _⟩, _⟩ := ha.2.home _ _ hd
        cases h
    simp only [World.dropTasks]
    rw [Skip.run_append, hrun]
    generalize w.tasks e = l
    simp only
    induction l with
    | nil => rfl
    | cons x l ih =>
      simp only [List.map_cons, Skip.run, Skip.step]
      have : ¬ (Tid.env = t ∧ sk.isSome = true) := by
        rintro ⟨h1, h2⟩
        rw [hne h1.symm] at h2; cases h2
      rw [if_neg this]
      exact ih

theorem skip_reach {env : Env} {m : MId} (hp : Private env m) {c : Conf} (hr : Reach env c) (t : Tid) :
    ∃ g, Skip.run t m ⟨false, none⟩ c.w.trace = some g := by
  have hinv := ((own_invariant env).and (task_preserved env)).and (skip_preserved hp t)
  obtain ⟨lst, _, _, sk, h, _⟩ := hinv.reach (c := c) (fun c hi => ⟨⟨own_initial env c hi, task_initial env c hi⟩, none,
    by rw [hi.trace, (hi.mach m).2.1]; rfl, fun ev h => by cases h⟩) hr
  exact ⟨_, h⟩

theorem skip_split {t : Tid} {m : MId} {g g' : Skip.G} {a b : List (Tid × Obs)} (h : Skip.run t m g (a ++ b) = some g') :
    ∃ g1, Skip.run t m g a = some g1 ∧ Skip.run t m g1 b = some g' := by
  rw [Skip.run_append] at h
  split at h
  · cases h
  · exact ⟨_, ‹_›, h⟩

/-- The watcher knows whether the machine has ended. -/
theorem skip_ended {t : Tid} {m : MId} {g g' : Skip.G} {tr : List (Tid × Obs)} {mem : Spec.Mon.Mem} (h : Skip.run t m g tr = some g')
    (hg : g.ended = mem.ended) : g'.ended = (mem.after m tr).ended := by
  induction tr generalizing g mem with
  | nil => cases h; exact hg
  | cons e tr ih =>
    simp only [Skip.run] at h
    split at h
    · cases h
    · rename_i g1 hs
      refine ih (mem := mem.step m e.2) h ?_
      obtain ⟨u, x⟩ := e
      simp only [Skip.step] at hs
      split at hs
      · cases x <;> first | (cases hs; done) | skip
        simp only at hs
        split at hs
        · cases hs; exact hg
        · cases hs
      · cases x <;> simp only at hs <;> first | (cases hs; exact hg) | skip
        · split at hs <;> cases hs <;> simp_all [Spec.Mon.Mem.step]
        · split at hs <;> cases hs <;> simp_all [Spec.Mon.Mem.step]
        · cases hs; simp only [Spec.Mon.Mem.step]; split <;> exact hg
        · cases hs; simp only [Spec.Mon.Mem.step]; split <;> exact hg
        · split at hs <;> cases hs <;> simp_all [Spec.Mon.Mem.step]

/-- The first thing a thread does after it has taken an event of an ended machine is to give it back. -/
theorem skip_first {t : Tid} {m : MId} {g g' : Skip.G} {ev : Ev} {tr : List (Tid × Obs)} (h : Skip.run t m g tr = some g')
    (hg : g.skip = some ev) (hc : ∀ u, (u, .cleared m) ∉ tr) :
    ∀ e, (tr.filter fun e => e.1 = t).head? = some e → e = (t, .done m ev) := by
  induction tr generalizing g with
  | nil => intro e he; cases he
  | cons e tr ih =>
    obtain ⟨u, x⟩ := e
    simp only [Skip.run] at h
    split at h
    · cases h
    · rename_i g1 hs
      simp only [Skip.step, hg] at hs
      intro e he
      by_cases hu : u = t
      · subst hu
        simp at he
        subst he
        simp only [Option.isSome_some, and_self, if_true] at hs
        cases x <;> first | (cases hs; done) | skip
        simp only at hs
        split at hs
        · rename_i hh; obtain ⟨rfl, hh⟩ := hh; cases hh; rfl
        · cases hs
      · simp [hu] at he
        rw [if_neg (by simp [hu])] at hs
        refine ih h ?_ (fun v hv => hc v (List.mem_cons_of_mem _ hv)) e (by simpa using he)
        cases x <;> simp only at hs <;> first | (cases hs; exact hg) | skip
        · rename_i m'
          rw [if_neg (by rintro rfl; exact hc u List.mem_cons_self)] at hs
          cases hs; exact hg
        · split at hs <;> cases hs <;> simp_all
        · rw [if_neg (by simp [hu])] at hs; cases hs; exact hg

end Verif
