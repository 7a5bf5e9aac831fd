import Verif.Proofs.Tokens
/-
Bounded queues: how many events can pass the size check; duplicates in a queue with the drop-duplicates strategy.
-/

namespace Verif

/-- Below the top of a stack there are only frames which are in user code; frames of `fire` belong to calls of `fire`. -/
structure Stacks (lst : Tid → List Frame) (w : World) : Prop where
  tail : ∀ t, ∀ f ∈ (lst t).tail, f.calling = true
  fired : ∀ t m ev f, Frame.fire m ev f ∈ lst t → (t, Obs.enter (.fire m ev)) ∈ w.trace

theorem move_fire {env : Env} {w : World} {f f' : Frame} {o : Op} (h : Move env w f o f') {m : MId} {ev : Ev} {x : Fate}
    (he : f' = .fire m ev x) : ∃ y, f = .fire m ev y := by
  cases h <;> first
    | (cases he; exact ⟨_, rfl⟩)
    | cases he
    | (rename_i hf _ _; rcases hf.inv with ⟨rfl, _⟩ | ⟨rfl, _⟩ <;> cases he)
    | (rename_i hf _; rcases hf.inv with ⟨rfl, _⟩ | ⟨rfl, _⟩ <;> cases he)
    | (rename_i hf; rcases hf.inv with ⟨rfl, _⟩ | ⟨rfl, _⟩ <;> cases he)

theorem stacks_invariant (env : Env) (A : (Tid → List Frame) → World → Prop) : Preserved env A Stacks where
  op := by
    intro lst w t o l' _ h hm _
    have hmono : ∀ x ∈ w.trace, x ∈ (exec t o w).2.trace := fun x hx => by
      rw [exec_trace]; exact List.mem_append_left _ hx
    have old : ∀ u m ev f, Frame.fire m ev f ∈ lst u → (u, Obs.enter (.fire m ev)) ∈ (exec t o w).2.trace :=
      fun u m ev f hf => hmono _ (h.fired u m ev f hf)
    refine ⟨fun u f hf => ?_, fun u m ev f hf => ?_⟩
    · by_cases hu : u = t
      · subst hu
        rw [fset_same] at hf
        have ht := h.tail u
        generalize lst u = l at hm ht
        cases hm with
        | enter hc =>
          cases l with
          | nil => cases hf
          | cons g l =>
            rcases List.mem_cons.1 hf with rfl | hf
            · exact hc
            · exact ht f hf
        | leave _ => exact ht f (List.mem_of_mem_tail hf)
        | user _ _ => exact ht f hf
        | frame _ => exact ht f hf
      · rw [fset_ne _ _ hu] at hf; exact h.tail u f hf
    · by_cases hu : u = t
      · subst hu
        rw [fset_same] at hf
        have ho := old u
        generalize lst u = l at hm ho
        cases hm with
        | @enter _ c hc =>
          rcases List.mem_cons.1 hf with he | hf
          · cases c with
            | fire m' ev' =>
              simp only [Frame.ofApi, Frame.fire.injEq] at he
              obtain ⟨rfl, rfl, _⟩ := he
              rw [exec_trace]
              exact List.mem_append_right _ (by simp [opObs])
            | _ => cases he
          · exact ho m ev f hf
        | leave _ => exact ho m ev f (List.mem_cons_of_mem _ hf)
        | user _ _ => exact ho m ev f hf
        | frame hm =>
          rcases List.mem_cons.1 hf with he | hf
          · obtain ⟨y, rfl⟩ := move_fire hm he.symm
            exact ho m ev y List.mem_cons_self
          · exact ho m ev f (List.mem_cons_of_mem _ hf)
      · rw [fset_ne _ _ hu] at hf; exact old u m ev f hf
  ret := by
    intro lst w t _ h _
    refine ⟨fun u f hf => ?_, fun u m ev f hf => ?_⟩ <;> by_cases hu : u = t
    · subst hu; rw [fset_same] at hf; cases hf
    · rw [fset_ne _ _ hu] at hf; exact h.tail u f hf
    · subst hu; rw [fset_same] at hf; cases hf
    · rw [fset_ne _ _ hu] at hf; exact h.fired u m ev f hf
  thr := by
    intro lst w t x _ h _
    refine ⟨fun u f hf => ?_, fun u m ev f hf => ?_⟩ <;> by_cases hu : u = t
    · subst hu; rw [fset_same] at hf; cases hf
    · rw [fset_ne _ _ hu] at hf; exact h.tail u f hf
    · subst hu; rw [fset_same] at hf; cases hf
    · rw [fset_ne _ _ hu] at hf; exact List.mem_append_left _ (h.fired u m ev f hf)
  dispatch := by
    intro lst w e i j s m _ h hl hi hj
    refine ⟨fun u f hf => ?_, fun u m ev f hf => ?_⟩ <;> by_cases hu : u = .worker e i
    · subst hu; rw [fset_same] at hf; simp [task] at hf
    · rw [fset_ne _ _ hu] at hf; exact h.tail u f hf
    · subst hu; rw [fset_same] at hf; simp [task] at hf
    · rw [fset_ne _ _ hu] at hf; exact h.fired u m ev f hf
  interrupt := fun lst w t _ h => ⟨h.tail, h.fired⟩
  shutdown := fun lst w e _ h => ⟨h.tail, h.fired⟩
  dropTasks := fun lst w e _ h => ⟨h.tail, fun u m ev f hf => List.mem_append_left _ (h.fired u m ev f hf)⟩

theorem stacks_initial (w : World) : Stacks (fun _ => []) w :=
  ⟨fun _ _ h => (nomatch h), fun _ _ _ _ h => (nomatch h)⟩

/-- The call of `fire` has passed the size check and not enqueued its event yet. -/
def Fate.sure : Fate → Bool
  | .sized | .took _ | .cpy _ | .raw _ | .copied .. | .loaded .. => true
  | _ => false

section
variable (env : Env) (q : QId)

def inflight : List Frame → Bool
  | .fire m _ f :: _ => f.sure && decide (env.qm m = q)
  | _ => false

/-- `P` contains all threads which have called `fire` for queue `q`. -/
def Producers (P : List Tid) (tr : Spec.Trace) : Prop :=
  ∀ t m ev, (t, Obs.enter (.fire m ev)) ∈ tr → env.qm m = q → t ∈ P

def Bounded (n : Nat) (lst : Tid → List Frame) (w : World) : Prop :=
  (∀ s, env.q s = q → 0 < (env.strat s).maxQ ∧ (env.strat s).maxQ ≤ n) → ∀ P, Producers env q P w.trace →
    ∃ I : List Tid, I.Nodup ∧ (∀ t, t ∈ I ↔ inflight env q (lst t) = true) ∧
      ((w.queue q).length + I.length + 1 ≤ n + P.length ∨ (w.queue q).length + I.length = 0)
end

section
variable {env : Env} {q : QId}

theorem inflight_callable {l : List Frame} (h : callable l) : inflight env q l = false := by
  cases l with
  | nil => rfl
  | cons f l =>
    simp only [callable] at h
    unfold inflight
    split
    · rename_i h'; cases h'
      rename_i f'; cases f' <;> first | rfl | cases h
    · rfl

theorem callable_tail {l : List Frame} (h : ∀ f ∈ l, f.calling = true) : callable l := by
  cases l with
  | nil => trivial
  | cons f l => exact h f List.mem_cons_self

theorem inflight_leaves {f : Frame} {l : List Frame} {c : Api} {r : Option Exc} (h : f.leaves env c r) :
    inflight env q (f :: l) = false := by
  unfold inflight
  split
  · rename_i h'; cases h'; cases c <;> first | exact h.elim | (obtain ⟨_, _, rfl⟩ := h; rfl)
  · rfl

theorem inflight_ofApi (c : Api) (l : List Frame) : inflight env q (.ofApi c :: l) = false := by cases c <;> rfl

theorem nodup_length_le {α : Type} [DecidableEq α] {a b : List α} (h : a.Nodup) (hs : ∀ x ∈ a, x ∈ b) : a.length ≤ b.length := by
  induction a generalizing b with
  | nil => simp
  | cons x a ih =>
    obtain ⟨hx, hn⟩ := List.nodup_cons.1 h
    have hm := hs x List.mem_cons_self
    have : a.length ≤ (b.erase x).length := ih hn fun y hy => by
      refine (List.mem_erase_of_ne ?_).2 (hs y (List.mem_cons_of_mem _ hy))
      rintro rfl; exact hx hy
    have := List.length_erase_of_mem hm
    have := List.length_pos_of_mem hm
    simp only [List.length_cons]; omega

theorem Producers.mono {P : List Tid} {a b : Spec.Trace} (h : Producers env q P (a ++ b)) : Producers env q P a :=
  fun t m ev hm => h t m ev (List.mem_append_left _ hm)

/-- The set of threads in flight changes only at `t`. -/
theorem inflight_fset {lst : Tid → List Frame} {I : List Tid} {t : Tid} {l' : List Frame}
    (hI : ∀ u, u ∈ I ↔ inflight env q (lst u) = true) (h : inflight env q l' = inflight env q (lst t)) (u : Tid) :
    u ∈ I ↔ inflight env q (fset lst t l' u) = true := by
  by_cases hu : u = t
  · subst hu; rw [fset_same, h]; exact hI u
  · rw [fset_ne _ _ hu]; exact hI u

theorem inflight_fin {t : Tid} {r : Except Exc Unit} {l : List Frame} (h : fin t r l) : inflight env q l = false := by
  rcases h with ⟨_, rfl⟩ | ⟨s, m, h⟩
  · rfl
  · cases r <;> simp only at h <;> subst h <;> rfl

/-- Steps of one frame. -/
inductive Flight (w : World) (t : Tid) (l : List Frame) (o : Op) (l' : List Frame) : Prop
  | same : inflight env q l' = inflight env q l → ((exec t o w).2.queue q).length ≤ (w.queue q).length → Flight w t l o l'
  | go (m : MId) (ev : Ev) (f : Fate) : .fire m ev f ∈ l → env.qm m = q → inflight env q l = false →
      inflight env q l' = true → (exec t o w).2.queue q = w.queue q → env.full m (w.queue q).length = false → Flight w t l o l'
  | land : inflight env q l = true → inflight env q l' = false →
      ((exec t o w).2.queue q).length = (w.queue q).length + 1 → Flight w t l o l'

theorem flight_of_move {w : World} {l l' : List Frame} {o : Op} (t : Tid) (hs : ∀ f ∈ l.tail, f.calling = true)
    (hm : LMove env w l o l') : Flight (env := env) (q := q) w t l o l' := by
  have quiet : inflight env q l' = inflight env q l → (exec t o w).2.queue q = w.queue q → Flight (env := env) (q := q) w t l o l' :=
    fun h1 h2 => .same h1 (by rw [h2]; exact Nat.le_refl _)
  cases hm with
  | enter hc => exact quiet (by rw [inflight_callable hc, inflight_ofApi]) (exec_queue ..)
  | leave hl => exact quiet (by rw [inflight_leaves hl, inflight_callable (callable_tail (l := l') hs)]) (exec_queue ..)
  | user hc hu =>
    refine quiet rfl ?_
    rw [exec_queue]
    cases o <;> first | rfl | exact hu.elim
  | frame hm =>
    have size : ∀ {m : MId} {ev : Ev} {f : Fate}, (f = Fate.live ∧ (env.strat (env.mach m).strat).dropDup = false) ∨ f = .scan [] → f.sure = false := by
      rintro m ev f (⟨rfl, _⟩ | rfl) <;> rfl
    cases hm with
    | @fSize m ev f hf hfull =>
      have hs := size (ev := ev) hf
      by_cases h : env.qm m = q
      · subst h
        exact .go m ev f List.mem_cons_self rfl (by simp [inflight, hs]) (by simp [inflight, Fate.sure]) (exec_queue ..) hfull
      · exact quiet (by simp [inflight, h]) (exec_queue ..)
    | fSizeFull hf hfull => exact quiet (by rcases hf with ⟨rfl, _⟩ | rfl <;> rfl) (exec_queue ..)
    | @fOffer m ev p e =>
      by_cases h : env.qm m = q
      · subst h
        exact .land (by simp [inflight, Fate.sure]) (by simp [inflight, Fate.sure]) (by rw [exec_queue]; simp)
      · exact quiet (by simp [inflight, h]) (by rw [exec_queue]; simp [show ¬ q = env.qm m from fun h' => h h'.symm])
    | drPoll0 hq => exact .same rfl (by rw [exec_queue]; simp only; split <;> simp)
    | drPollBad hq hp => exact .same rfl (by rw [exec_queue]; simp only; split <;> simp)
    | drPoll hq hp => exact .same rfl (by rw [exec_queue]; simp only; split <;> simp)
    | stPh hf _ ha =>
      refine quiet ?_ ?_
      · rcases hf.inv with ⟨rfl, _⟩ | ⟨rfl, _⟩ <;> rfl
      · rw [exec_queue]; cases phAllowed_op ha <;> rfl
    | drPh ha =>
      refine quiet rfl ?_
      rw [exec_queue]; cases phAllowed_op ha <;> rfl
    | stCas1 hf _ _ => exact quiet (by rcases hf.inv with ⟨rfl, _⟩ | ⟨rfl, _⟩ <;> rfl) (exec_queue ..)
    | stCas0 hf _ _ => exact quiet (by rcases hf.inv with ⟨rfl, _⟩ | ⟨rfl, _⟩ <;> rfl) (exec_queue ..)
    | stSet hf => exact quiet (by rcases hf.inv with ⟨rfl, _⟩ | ⟨rfl, _⟩ <;> rfl) (exec_queue ..)
    | stClear hf _ => exact quiet (by rcases hf.inv with ⟨rfl, _⟩ | ⟨rfl, _⟩ <;> rfl) (exec_queue ..)
    | _ => exact quiet (by simp [inflight, Fate.sure]) (exec_queue ..)

theorem bounded_invariant (env : Env) (q : QId) (n : Nat) : Preserved env Stacks (Bounded env q n) where
  op := by
    intro lst w t o l' hst h hm _ hq P hP
    rw [exec_trace] at hP
    obtain ⟨I, hn, hI, hlen⟩ := h hq P hP.mono
    rcases flight_of_move (q := q) t (hst.tail t) hm with ⟨h1, h2⟩ | ⟨m, ev, f, hf, hqm, h1, h2, h3, h4⟩ | ⟨h1, h2, h3⟩
    · exact ⟨I, hn, inflight_fset hI h1, by omega⟩
    · have hnot : t ∉ I := fun hx => by rw [(hI t).1 hx] at h1; cases h1
      refine ⟨t :: I, List.nodup_cons.2 ⟨hnot, hn⟩, fun u => ?_, .inl ?_⟩
      · by_cases hu : u = t
        · subst hu; simp [h2]
        · rw [fset_ne _ _ hu, List.mem_cons]
          exact ⟨fun h => (hI u).1 (h.resolve_left hu), fun h => .inr ((hI u).2 h)⟩
      · have hle : (t :: I).length ≤ P.length := nodup_length_le (List.nodup_cons.2 ⟨hnot, hn⟩) fun u hu => by
          rcases List.mem_cons.1 hu with rfl | hu
          · exact hP.mono u m ev (hst.fired u m ev f hf) hqm
          · have hin := (hI u).1 hu
            have hst := hst.fired u
            generalize lst u = l at hin hst
            unfold inflight at hin
            split at hin
            · simp only [Bool.and_eq_true, decide_eq_true_eq] at hin
              exact hP.mono u _ _ (hst _ _ _ List.mem_cons_self) hin.2
            · cases hin
        have := hq _ hqm
        simp only [Env.full, Bool.and_eq_false_iff, decide_eq_false_iff_not] at h4
        rw [h3]
        omega
    · have hin := (hI t).2 h1
      refine ⟨I.erase t, hn.erase t, fun u => ?_, ?_⟩
      · rw [List.Nodup.mem_erase_iff hn]
        by_cases hu : u = t
        · subst hu; simp [h2]
        · rw [fset_ne _ _ hu, hI u]; simp [hu]
      · have := List.length_erase_of_mem hin
        have := List.length_pos_of_mem hin
        omega
  ret := by
    intro lst w t _ h hf hq P hP
    obtain ⟨I, hn, hI, hlen⟩ := h hq P hP
    exact ⟨I, hn, inflight_fset hI (by rw [inflight_fin hf]; rfl), hlen⟩
  thr := by
    intro lst w t x _ h hf hq P hP
    obtain ⟨I, hn, hI, hlen⟩ := h hq P hP.mono
    exact ⟨I, hn, inflight_fset hI (by rw [inflight_fin hf]; rfl), hlen⟩
  dispatch := by
    intro lst w e i j s m _ h hl hi hj hq P hP
    obtain ⟨I, hn, hI, hlen⟩ := h hq P hP
    exact ⟨I, hn, inflight_fset hI (by rw [hl]; rfl), hlen⟩
  interrupt := fun lst w t _ h hq P hP => h hq P hP
  shutdown := fun lst w t _ h hq P hP => h hq P hP
  dropTasks := fun lst w e _ h hq P hP => h hq P hP.mono

/-! #### No duplicates -/

/-- The pair does not hold an event equal to `ev`. -/
def Clear (w : World) (p : PairId) (ev : Ev) : Prop := ∀ en m, w.pair p = some (en, m) → en.eqv ev = false

/-- What a call of `fire` knows about the queue. -/
def Fate.clear (w : World) (ps : List PairId) (ev : Ev) : Fate → Prop
  | .scan todo => ∀ p ∈ ps, p ∈ todo ∨ Clear w p ev
  | .sized | .took _ | .cpy _ | .raw _ => ∀ p ∈ ps, Clear w p ev
  | .copied _ e | .loaded _ e => e.key = ev.key ∧ ∀ p ∈ ps, Clear w p ev
  | _ => True

/-- Only thread `u` fires at queue `q`, and only events of the library's class. -/
def OneProducer (env : Env) (q : QId) (u : Tid) (tr : Spec.Trace) : Prop :=
  ∀ t m ev, (t, Obs.enter (.fire m ev)) ∈ tr → env.qm m = q → t = u ∧ ev.cls = 0

def Distinct (env : Env) (q : QId) (u : Tid) (lst : Tid → List Frame) (w : World) : Prop :=
  (∀ s, env.q s = q → (env.strat s).dropDup = true) → OneProducer env q u w.trace →
    ((w.queue q).filterMap w.pair).Pairwise (fun x y => x.1.eqv y.1 = false) ∧
    (∀ m ev f rest, lst u = .fire m ev f :: rest → env.qm m = q → f.clear w (w.queue q) ev)

theorem OneProducer.mono {u : Tid} {a b : Spec.Trace} (h : OneProducer env q u (a ++ b)) : OneProducer env q u a :=
  fun t m ev hm => h t m ev (List.mem_append_left _ hm)

theorem Fate.clear_mono {w w' : World} {ps ps' : List PairId} {ev : Ev} {f : Fate} (h : f.clear w ps ev)
    (hs : ∀ p ∈ ps', p ∈ ps) (hp : ∀ p ∈ ps', w'.pair p = w.pair p) : f.clear w' ps' ev := by
  have hc : ∀ p ∈ ps', Clear w p ev → Clear w' p ev := fun p hm h en m he => h en m (by rw [← hp p hm]; exact he)
  cases f with
  | scan todo => exact fun p hm => (h p (hs p hm)).imp id (hc p hm)
  | sized => exact fun p hm => hc p hm (h p (hs p hm))
  | took _ => exact fun p hm => hc p hm (h p (hs p hm))
  | cpy _ => exact fun p hm => hc p hm (h p (hs p hm))
  | raw _ => exact fun p hm => hc p hm (h p (hs p hm))
  | copied _ e => exact ⟨h.1, fun p hm => hc p hm (h.2 p (hs p hm))⟩
  | loaded _ e => exact ⟨h.1, fun p hm => hc p hm (h.2 p (hs p hm))⟩
  | _ => trivial

theorem Fate.clear_calling {w : World} {ps : List PairId} {ev : Ev} {m : MId} {f : Fate}
    (h : (Frame.fire m ev f).calling = true) : f.clear w ps ev := by
  cases f <;> first | trivial | cases h

theorem exec_pair (t : Tid) (o : Op) (w : World) : (exec t o w).2.pair = match o with
    | .setPair p ev m => fset w.pair p (some (ev, m))
    | _ => w.pair := by
  cases o <;> simp only [exec] <;> (repeat' split) <;> rfl

theorem filterMap_congr {α β : Type} {f g : α → Option β} {l : List α} (h : ∀ x ∈ l, f x = g x) : l.filterMap f = l.filterMap g := by
  induction l with
  | nil => rfl
  | cons a l ih =>
    simp only [List.filterMap_cons, h a List.mem_cons_self, ih fun x hx => h x (List.mem_cons_of_mem _ hx)]

/-- What a step does to the events in a queue. -/
inductive QStep (env : Env) (q : QId) (w : World) (t : Tid) (l : List Frame) (o : Op) : Prop
  | less : ((exec t o w).2.queue q).Sublist (w.queue q) → (∀ p ∈ w.queue q, (exec t o w).2.pair p = w.pair p) → QStep env q w t l o
  | more (m : MId) (ev : Ev) (p : PairId) (e : Ev) (rest : List Frame) : l = .fire m ev (.loaded p e) :: rest → env.qm m = q →
      w.pair p = some (e, m) → (exec t o w).2.queue q = w.queue q ++ [p] → (exec t o w).2.pair = w.pair → QStep env q w t l o

theorem qstep {lst : Tid → List Frame} {w : World} {l' : List Frame} {o : Op} (t : Tid) (hown : Own env lst w)
    (hm : LMove env w (lst t) o l') : QStep env q w t (lst t) o := by
  obtain ⟨loc, h⟩ := hown
  generalize hl : lst t = l at hm
  have plain : (exec t o w).2.queue q = w.queue q → (exec t o w).2.pair = w.pair → QStep env q w t l o := fun h1 h2 =>
    .less (by rw [h1]; exact List.Sublist.refl _) (fun p _ => by rw [h2])
  have set : ∀ {f p ev m rest}, l = f :: rest → f.owned = [p] → o = .setPair p ev m → QStep env q w t l o := by
    rintro f p ev m rest hl' ho rfl
    rw [hl'] at hl
    obtain ⟨hloc, -⟩ := h.top hl ho
    refine .less (by rw [exec_queue]; exact List.Sublist.refl _) fun p' hp' => ?_
    rw [exec_pair]
    refine fset_ne _ _ ?_
    rintro rfl
    rw [h.q, hloc] at hp'; cases hp'
  have poll : ∀ {q'}, o = .poll q' → QStep env q w t l o := by
    rintro q' rfl
    refine .less ?_ (fun p _ => by rw [exec_pair])
    rw [exec_queue]
    simp only
    split
    · exact List.tail_sublist _
    · exact List.Sublist.refl _
  cases hm with
  | enter hc => exact plain (exec_queue ..) (exec_pair ..)
  | leave hl => exact plain (exec_queue ..) (exec_pair ..)
  | user hc hu =>
    refine plain ?_ ?_
    · rw [exec_queue]; cases o <;> first | rfl | exact hu.elim
    · rw [exec_pair]; cases o <;> first | rfl | exact hu.elim
  | frame hm =>
    cases hm with
    | fSetRaw => exact set rfl rfl rfl
    | fSetCopied => exact set rfl rfl rfl
    | @fOffer m ev p e =>
      by_cases hq : env.qm m = q
      · subst hq
        have : w.pair p = some (e, m) := h.fact t (.fire m ev (.loaded p e)) (by rw [hl]; simp)
        exact .more m ev p e _ rfl rfl this (by rw [exec_queue]; simp) (exec_pair ..)
      · exact plain (by rw [exec_queue]; simp [show ¬ q = env.qm m from fun h' => hq h'.symm]) (exec_pair ..)
    | drPoll0 hq => exact poll rfl
    | drPollBad hq hp => exact poll rfl
    | drPoll hq hp => exact poll rfl
    | stPh hf _ ha =>
      refine plain ?_ ?_
      · rw [exec_queue]; cases phAllowed_op ha <;> rfl
      · rw [exec_pair]; cases phAllowed_op ha <;> rfl
    | drPh ha =>
      refine plain ?_ ?_
      · rw [exec_queue]; cases phAllowed_op ha <;> rfl
      · rw [exec_pair]; cases phAllowed_op ha <;> rfl
    | _ => exact plain (exec_queue ..) (exec_pair ..)

theorem eqv_key {a b c : Ev} (h : b.key = c.key) : a.eqv b = a.eqv c := by simp only [Ev.eqv, h]

/-- What the producer knows after a step which adds nothing to the queue. -/
theorem clear_move {w : World} {l l' : List Frame} {o : Op} {u : Tid} (hs : ∀ f ∈ l.tail, f.calling = true)
    (hd : ∀ s, env.q s = q → (env.strat s).dropDup = true) (hcls : ∀ m ev f, .fire m ev f ∈ l → env.qm m = q → ev.cls = 0)
    (hk : ∀ m ev f rest, l = .fire m ev f :: rest → env.qm m = q → f.clear w (w.queue q) ev)
    (hm : LMove env w l o l') (h1 : ((exec u o w).2.queue q).Sublist (w.queue q))
    (h2 : ∀ p ∈ w.queue q, (exec u o w).2.pair p = w.pair p) :
    ∀ m ev f rest, l' = .fire m ev f :: rest → env.qm m = q → f.clear (exec u o w).2 ((exec u o w).2.queue q) ev := by
  intro m ev f rest hl' hq
  have mono : f.clear w (w.queue q) ev → f.clear (exec u o w).2 ((exec u o w).2.queue q) ev := fun h =>
    Fate.clear_mono h (fun p hp => h1.subset hp) (fun p hp => h2 p (h1.subset hp))
  apply mono
  cases hm with
  | @enter _ c hc => cases c <;> cases hl'; trivial
  | leave hlv =>
    subst hl'
    exact Fate.clear_calling (hs _ List.mem_cons_self)
  | user hc hu => exact hk m ev f rest hl' hq
  | frame hm =>
    cases hm with
    | fSnap hd => cases hl'; subst hq; exact fun p hp => .inl hp
    | @fScanNe _ _ p ps en m' hp he =>
      cases hl'
      intro p' hp'
      rcases hk _ _ _ _ rfl hq p' hp' with h | h
      · rcases List.mem_cons.1 h with rfl | h
        · right
          intro en' m'' h
          rw [hp] at h; cases h; exact he
        · exact .inl h
      · exact .inr h
    | fSize hf _ =>
      cases hl'
      rcases hf with ⟨rfl, hf⟩ | rfl
      · rw [hd _ hq] at hf; cases hf
      · intro p hp
        exact (hk _ _ _ _ rfl hq p hp).resolve_left (nomatch ·)
    | fTakeNew _ => cases hl'; exact fun p hp => hk _ _ _ _ rfl hq p hp
    | fTakeOld _ => cases hl'; exact fun p hp => hk _ _ _ _ rfl hq p hp
    | fPay1 _ => cases hl'; exact fun p hp => hk _ _ _ _ rfl hq p hp
    | fPay0 _ => cases hl'; exact fun p hp => hk _ _ _ _ rfl hq p hp
    | fCopy =>
      cases hl'
      refine ⟨?_, fun p hp => hk _ _ _ _ rfl hq p hp⟩
      simp only [Ev.key, hcls _ _ _ List.mem_cons_self hq]
    | fSetRaw => cases hl'; exact ⟨rfl, fun p hp => hk _ _ _ _ rfl hq p hp⟩
    | @fSetCopied m' ev' p e => cases hl'; exact hk m ev (.copied p e) rest rfl hq
    | stPh hf _ ha => rcases hf.inv with ⟨rfl, _⟩ | ⟨rfl, _⟩ <;> cases hl'
    | stCas1 hf _ _ => rcases hf.inv with ⟨rfl, _⟩ | ⟨rfl, _⟩ <;> cases hl'
    | stCas0 hf _ _ => rcases hf.inv with ⟨rfl, _⟩ | ⟨rfl, _⟩ <;> cases hl'
    | stSet hf => rcases hf.inv with ⟨rfl, _⟩ | ⟨rfl, _⟩ <;> cases hl'
    | stClear hf _ => rcases hf.inv with ⟨rfl, _⟩ | ⟨rfl, _⟩ <;> cases hl'
    | _ => cases hl' <;> trivial

theorem distinct_invariant (env : Env) (q : QId) (u : Tid) :
    Preserved env (fun lst w => Own env lst w ∧ Stacks lst w) (Distinct env q u) where
  op := by
    rintro lst w t o l' ⟨hown, hst⟩ h hm _ hd hP
    rw [exec_trace] at hP
    obtain ⟨hpw, hk⟩ := h hd hP.mono
    rcases qstep (q := q) t hown hm with ⟨h1, h2⟩ | ⟨m, ev, p, e, rest, hl, hq, hp, h1, h2⟩
    · refine ⟨?_, ?_⟩
      · rw [filterMap_congr (g := w.pair) fun p hp => h2 p (h1.subset hp)]
        exact hpw.sublist (h1.filterMap _)
      · by_cases ht : u = t
        · subst ht
          rw [fset_same]
          exact clear_move (hst.tail u) hd (fun m ev f hf hq => (hP.mono u m ev (hst.fired u m ev f hf) hq).2) hk hm h1 h2
        · rw [fset_ne _ _ ht]
          intro m ev f rest hl hq
          exact Fate.clear_mono (hk m ev f rest hl hq) (fun p hp => h1.subset hp) (fun p hp => h2 p (h1.subset hp))
    · obtain rfl : t = u := (hP.mono t m ev (hst.fired t m ev _ (by rw [hl]; exact List.mem_cons_self)) hq).1
      obtain ⟨hkey, hcl⟩ := hk m ev _ rest hl hq
      refine ⟨?_, ?_⟩
      · rw [h1, h2, List.filterMap_append, List.pairwise_append]
        refine ⟨hpw, by simp [hp], ?_⟩
        intro a ha b hb
        simp only [List.filterMap_cons, hp, List.filterMap_nil, List.mem_singleton] at hb
        subst hb
        obtain ⟨p', hp', ha⟩ := List.mem_filterMap.1 ha
        rw [eqv_key hkey]
        exact hcl p' hp' a.1 a.2 ha
      · rw [fset_same]
        rw [hl] at hm
        intro m' ev' f' rest' hl' hq'
        have hlen : (exec t o w).2.queue q ≠ w.queue q := by rw [h1]; simp
        generalize hg : Frame.fire m ev (.loaded p e) :: rest = l at hm
        cases hm with
        | enter hc => exact absurd (exec_queue ..) hlen
        | leave _ => exact absurd (exec_queue ..) hlen
        | user hc _ => subst hg; cases hc
        | frame hm =>
          have hg := List.cons.inj hg
          cases hm with
          | fOffer => cases hl'; trivial
          | stPh hf _ ha => rcases hf.inv with ⟨rfl, _⟩ | ⟨rfl, _⟩ <;> cases hg.1
          | stCas1 hf _ _ => rcases hf.inv with ⟨rfl, _⟩ | ⟨rfl, _⟩ <;> cases hg.1
          | stCas0 hf _ _ => rcases hf.inv with ⟨rfl, _⟩ | ⟨rfl, _⟩ <;> cases hg.1
          | stSet hf => rcases hf.inv with ⟨rfl, _⟩ | ⟨rfl, _⟩ <;> cases hg.1
          | stClear hf _ => rcases hf.inv with ⟨rfl, _⟩ | ⟨rfl, _⟩ <;> cases hg.1
          | fSize hf _ => exact absurd (exec_queue ..) hlen
          | fSizeFull hf _ => exact absurd (exec_queue ..) hlen
          | _ => cases hg.1
  ret := by
    rintro lst w t ⟨_, _⟩ h hf hd hP
    obtain ⟨hpw, hk⟩ := h hd hP
    refine ⟨hpw, fun m ev f rest hl hq => ?_⟩
    by_cases ht : u = t
    · subst ht; rw [fset_same] at hl; cases hl
    · rw [fset_ne _ _ ht] at hl; exact hk m ev f rest hl hq
  thr := by
    rintro lst w t x ⟨_, _⟩ h hf hd hP
    obtain ⟨hpw, hk⟩ := h hd hP.mono
    refine ⟨hpw, fun m ev f rest hl hq => ?_⟩
    by_cases ht : u = t
    · subst ht; rw [fset_same] at hl; cases hl
    · rw [fset_ne _ _ ht] at hl
      exact Fate.clear_mono (hk m ev f rest hl hq) (fun _ hp => hp) (fun _ _ => rfl)
  dispatch := by
    rintro lst w e i j s m ⟨_, _⟩ h hl hi hj hd hP
    obtain ⟨hpw, hk⟩ := h hd hP
    refine ⟨hpw, fun m ev f rest hl hq => ?_⟩
    by_cases ht : u = .worker e i
    · subst ht; rw [fset_same] at hl; cases hl
    · rw [fset_ne _ _ ht] at hl
      exact Fate.clear_mono (hk m ev f rest hl hq) (fun _ hp => hp) (fun _ _ => rfl)
  interrupt := by
    rintro lst w t ⟨_, _⟩ h hd hP
    obtain ⟨hpw, hk⟩ := h hd hP
    exact ⟨hpw, fun m ev f rest hl hq => Fate.clear_mono (hk m ev f rest hl hq) (fun _ hp => hp) (fun _ _ => rfl)⟩
  shutdown := by
    rintro lst w t ⟨_, _⟩ h hd hP
    obtain ⟨hpw, hk⟩ := h hd hP
    exact ⟨hpw, fun m ev f rest hl hq => Fate.clear_mono (hk m ev f rest hl hq) (fun _ hp => hp) (fun _ _ => rfl)⟩
  dropTasks := by
    rintro lst w e ⟨_, _⟩ h hd hP
    obtain ⟨hpw, hk⟩ := h hd hP.mono
    exact ⟨hpw, fun m ev f rest hl hq => Fate.clear_mono (hk m ev f rest hl hq) (fun _ hp => hp) (fun _ _ => rfl)⟩

end
end Verif
