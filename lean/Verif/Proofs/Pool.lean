import Verif.Proofs.Bounds
/-
How many pairs a strategy keeps.
-/

namespace Verif
open Spec (accepted taken)

theorem exec_pool (t : Tid) (o : Op) (w : World) (s : SId) : (exec t o w).2.pool s = match o with
    | .poolTake s' => if s = s' then (w.pool s).tail else w.pool s
    | .poolGive s' p => if s = s' then w.pool s ++ [p] else w.pool s
    | _ => w.pool s := by
  cases o with
  | poolTake s' =>
    simp only [exec]
    by_cases h : s = s'
    · subst h
      split
      · rename_i h; simp [h]
      · rename_i h; simp [h]
    · split
      · simp [h]
      · simp [h, fset_ne _ _ h]
  | poolGive s' p =>
    simp only [exec]
    by_cases h : s = s'
    · subst h; split <;> simp [World.log]
    · split <;> simp [World.log, h, fset_ne _ _ h]
  | _ => simp only [exec] <;> (repeat' split) <;> rfl

def Fate.holds : Fate → Bool
  | .took _ | .cpy _ | .raw _ | .copied .. | .loaded .. => true
  | _ => false

def Dr.holds : Dr → Bool
  | .polled .. | .known .. | .busy .. | .flow .. | .over .. => true
  | _ => false

section
variable (env : Env) (s : SId)

/-- The thread is in `fire` and has a pair of strategy `s`. -/
def firing : List Frame → Bool
  | .fire m _ f :: _ => f.holds && decide ((env.mach m).strat = s)
  | _ => false

def Frame.draining : Frame → Bool
  | .drain s' _ d => d.holds && decide (s' = s)
  | _ => false

/-- The thread processes an event and has its pair. -/
def draining (l : List Frame) : Bool := l.any (Frame.draining s)

end

section
variable {env : Env} {s : SId}

theorem firing_callable {l : List Frame} (h : callable l) : firing env s l = false := by
  cases l with
  | nil => rfl
  | cons f l =>
    simp only [callable] at h
    unfold firing
    split
    · rename_i h'; cases h'
      rename_i f'; cases f' <;> first | rfl | cases h
    · rfl

theorem firing_leaves {f : Frame} {l : List Frame} {c : Api} {r : Option Exc} (h : f.leaves env c r) :
    firing env s (f :: l) = false := by
  unfold firing
  split
  · rename_i h'; cases h'; cases c <;> first | exact h.elim | (obtain ⟨_, _, rfl⟩ := h; rfl)
  · rfl

theorem leaves_notDrain {f : Frame} {c : Api} {r : Option Exc} (h : f.leaves env c r) : f.draining s = false := by
  cases f <;> first | rfl | (cases c <;> exact h.elim)

/-- The number of pairs the strategy has. -/
def World.pairs (w : World) (env : Env) (s : SId) : Nat := (w.pool s).length + (w.queue (env.q s)).length

/-- Steps that do not create a pair for the strategy. -/
def Keeps (env : Env) (s : SId) (w w' : World) (l l' : List Frame) : Prop :=
  w'.pairs env s + (firing env s l').toNat + (draining s l').toNat ≤ w.pairs env s + (firing env s l).toNat + (draining s l).toNat

/-- A step that creates a pair. -/
structure Creates (env : Env) (s : SId) (w w' : World) (l l' : List Frame) : Prop where
  pool : w.pool s = []
  pool' : w'.pool s = []
  queue : w'.queue (env.q s) = w.queue (env.q s)
  no : firing env s l = false
  yes : firing env s l' = true
  drains : draining s l' = draining s l
  fire : ∃ m ev f, .fire m ev f ∈ l ∧ (env.mach m).strat = s

theorem pool_move (hs : ∀ s', env.q s' = env.q s → s' = s) {w : World} {l l' : List Frame} {o : Op} (t : Tid)
    (hd : ∃ d b, At l d b) (ht : ∀ f ∈ l.tail, f.calling = true) (hm : LMove env w l o l') :
    Keeps env s w (exec t o w).2 l l' ∨ Creates env s w (exec t o w).2 l l' := by
  have quiet : firing env s l' = firing env s l → draining s l' = draining s l → (exec t o w).2.pool s = w.pool s →
      (exec t o w).2.queue (env.q s) = w.queue (env.q s) → Keeps env s w (exec t o w).2 l l' := by
    intro h1 h2 h3 h4
    simp only [Keeps, World.pairs, h1, h2, h3, h4]
    exact Nat.le_refl _
  cases hm with
  | @enter _ c hc =>
    refine .inl (quiet ?_ ?_ (exec_pool ..) (exec_queue ..))
    · rw [firing_callable hc]; cases c <;> rfl
    · cases c <;> rfl
  | leave hl =>
    refine .inl (quiet ?_ ?_ (exec_pool ..) (exec_queue ..))
    · rw [firing_leaves hl, firing_callable (callable_tail (l := l') ht)]
    · simp [draining, leaves_notDrain hl]
  | user hc hu =>
    refine .inl (quiet rfl rfl ?_ ?_)
    · rw [exec_pool]; cases o <;> first | rfl | exact hu.elim
    · rw [exec_queue]; cases o <;> first | rfl | exact hu.elim
  | @frame f f' rest _ hm =>
    have hrest : f.isDrain = true → rest = [] := by
      intro h
      obtain ⟨d, b, hd⟩ := hd
      cases hd with
      | drain _ => rfl
      | cons h' _ => rw [h] at h'; cases h'
    cases hm with
    | @fTakeNew m ev hp =>
      by_cases h : (env.mach m).strat = s
      · subst h
        refine .inr ⟨hp, ?_, exec_queue .., rfl, by simp [firing, Fate.holds], rfl, m, ev, _, List.mem_cons_self, rfl⟩
        rw [exec_pool]; simp [hp]
      · refine .inl (quiet (by simp [firing, h]) rfl ?_ (exec_queue ..))
        rw [exec_pool]; simp [show ¬ s = (env.mach m).strat from fun h' => h h'.symm]
    | @fTakeOld m ev p ps hp =>
      by_cases h : (env.mach m).strat = s
      · subst h
        refine .inl ?_
        simp only [Keeps, World.pairs, exec_pool, exec_queue, if_true, hp, List.tail_cons, List.length_cons]
        simp [firing, Fate.holds, draining, Frame.draining]
        omega
      · refine .inl (quiet (by simp [firing, h]) rfl ?_ (exec_queue ..))
        rw [exec_pool]; simp [show ¬ s = (env.mach m).strat from fun h' => h h'.symm]
    | @fOffer m ev p e =>
      by_cases h : (env.mach m).strat = s
      · subst h
        refine .inl ?_
        simp only [Keeps, World.pairs, exec_pool, exec_queue, Env.qm, if_true]
        simp [firing, Fate.holds, draining, Frame.draining]
        omega
      · refine .inl (quiet (by simp [firing, h]) rfl (exec_pool ..) ?_)
        rw [exec_queue]
        simp [show ¬ env.q s = env.qm m from fun h' => h (hs _ h'.symm)]
    | @drPoll0 s' cm b hq =>
      refine .inl ?_
      simp only [Keeps, World.pairs, exec_pool, exec_queue]
      simp [firing, draining, Frame.draining, Dr.holds]
      split <;> simp <;> omega
    | @drPollBad s' cm b p ps hq hp =>
      refine .inl ?_
      simp only [Keeps, World.pairs, exec_pool, exec_queue]
      simp [firing, draining, Frame.draining, Dr.holds]
      split <;> simp <;> omega
    | @drPoll s' cm b p ps ev m hq hp =>
      have := hrest rfl
      subst this
      refine .inl ?_
      by_cases h : s' = s
      · subst h
        simp only [Keeps, World.pairs, exec_pool, exec_queue, if_true, hq, List.tail_cons, List.length_cons]
        simp [firing, draining, Frame.draining, Dr.holds]
        omega
      · refine quiet rfl (by simp [draining, Frame.draining, h]) (exec_pool ..) ?_
        rw [exec_queue]
        simp [show ¬ env.q s = env.q s' from fun h' => h (hs _ h'.symm)]
    | @drGive s' cm p ev m ph hph =>
      have := hrest rfl
      subst this
      refine .inl ?_
      by_cases h : s' = s
      · subst h
        simp only [Keeps, World.pairs, exec_pool, exec_queue, if_true]
        simp [firing, draining, Frame.draining, Dr.holds]
        omega
      · refine quiet rfl (by simp [draining, Frame.draining, h]) ?_ (exec_queue ..)
        rw [exec_pool]
        simp [show ¬ s = s' from fun h' => h h'.symm]
    | @drGiveErr s' cm p ev m ph hph =>
      have := hrest rfl
      subst this
      refine .inl ?_
      by_cases h : s' = s
      · subst h
        simp only [Keeps, World.pairs, exec_pool, exec_queue, if_true]
        simp [firing, draining, Frame.draining, Dr.holds]
        omega
      · refine quiet rfl (by simp [draining, Frame.draining, h]) ?_ (exec_queue ..)
        rw [exec_pool]
        simp [show ¬ s = s' from fun h' => h h'.symm]
    | @drOver s' cm p ev m =>
      have := hrest rfl
      subst this
      refine .inl ?_
      by_cases h : s' = s
      · subst h
        simp only [Keeps, World.pairs, exec_pool, exec_queue, if_true]
        simp [firing, draining, Frame.draining, Dr.holds]
        omega
      · refine quiet rfl (by simp [draining, Frame.draining, h]) ?_ (exec_queue ..)
        rw [exec_pool]
        simp [show ¬ s = s' from fun h' => h h'.symm]
    | @drOverErr s' cm p ev m x =>
      have := hrest rfl
      subst this
      refine .inl ?_
      by_cases h : s' = s
      · subst h
        simp only [Keeps, World.pairs, exec_pool, exec_queue, if_true]
        simp [firing, draining, Frame.draining, Dr.holds]
        omega
      · refine quiet rfl (by simp [draining, Frame.draining, h]) ?_ (exec_queue ..)
        rw [exec_pool]
        simp [show ¬ s = s' from fun h' => h h'.symm]
    | fSize hf hfull => exact .inl (quiet (by rcases hf with ⟨rfl, _⟩ | rfl <;> rfl) rfl (exec_pool ..) (exec_queue ..))
    | fSizeFull hf hfull => exact .inl (quiet (by rcases hf with ⟨rfl, _⟩ | rfl <;> rfl) rfl (exec_pool ..) (exec_queue ..))
    | stPh hf _ ha =>
      refine .inl (quiet ?_ ?_ ?_ ?_)
      · rcases hf.inv with ⟨rfl, _⟩ | ⟨rfl, _⟩ <;> rfl
      · rcases hf.inv with ⟨rfl, _⟩ | ⟨rfl, _⟩ <;> rfl
      · rw [exec_pool]; cases phAllowed_op ha <;> rfl
      · rw [exec_queue]; cases phAllowed_op ha <;> rfl
    | drPh ha =>
      refine .inl (quiet rfl rfl ?_ ?_)
      · rw [exec_pool]; cases phAllowed_op ha <;> rfl
      · rw [exec_queue]; cases phAllowed_op ha <;> rfl
    | stCas1 hf _ _ => rcases hf.inv with ⟨rfl, _⟩ | ⟨rfl, _⟩ <;> exact .inl (quiet rfl rfl (exec_pool ..) (exec_queue ..))
    | stCas0 hf _ _ => rcases hf.inv with ⟨rfl, _⟩ | ⟨rfl, _⟩ <;> exact .inl (quiet rfl rfl (exec_pool ..) (exec_queue ..))
    | stSet hf => rcases hf.inv with ⟨rfl, _⟩ | ⟨rfl, _⟩ <;> exact .inl (quiet rfl rfl (exec_pool ..) (exec_queue ..))
    | stClear hf _ => rcases hf.inv with ⟨rfl, _⟩ | ⟨rfl, _⟩ <;> exact .inl (quiet rfl rfl (exec_pool ..) (exec_queue ..))
    | drQuit h0 _ => rcases h0 with rfl | rfl <;> exact .inl (quiet rfl rfl (exec_pool ..) (exec_queue ..))
    | _ => exact .inl (quiet rfl rfl (exec_pool ..) (exec_queue ..))

/-- The set of threads changes only at `t`. -/
theorem set_change {b : List Frame → Bool} {lst : Tid → List Frame} {I : List Tid} {t : Tid} {l' : List Frame} (hn : I.Nodup)
    (hI : ∀ u, u ∈ I ↔ b (lst u) = true) :
    ∃ I' : List Tid, I'.Nodup ∧ (∀ u, u ∈ I' ↔ b (fset lst t l' u) = true) ∧
      I'.length + (b (lst t)).toNat = I.length + (b l').toNat := by
  cases h1 : b (lst t) with
  | true =>
    cases h2 : b l' with
    | true =>
      refine ⟨I, hn, fun u => ?_, rfl⟩
      by_cases hu : u = t
      · subst hu; rw [fset_same, h2, hI, h1]
      · rw [fset_ne _ _ hu]; exact hI u
    | false =>
      have hm := (hI t).2 h1
      refine ⟨I.erase t, hn.erase t, fun u => ?_, ?_⟩
      · rw [List.Nodup.mem_erase_iff hn]
        by_cases hu : u = t
        · subst hu; simp [h2]
        · rw [fset_ne _ _ hu, hI u]; simp [hu]
      · have := List.length_erase_of_mem hm
        have := List.length_pos_of_mem hm
        simp only [Bool.toNat_true, Bool.toNat_false]; omega
  | false =>
    have hnot : t ∉ I := fun hx => by rw [(hI t).1 hx] at h1; cases h1
    cases h2 : b l' with
    | true =>
      refine ⟨t :: I, List.nodup_cons.2 ⟨hnot, hn⟩, fun u => ?_, rfl⟩
      by_cases hu : u = t
      · subst hu; simp [h2]
      · rw [fset_ne _ _ hu, List.mem_cons]
        exact ⟨fun h => (hI u).1 (h.resolve_left hu), fun h => .inr ((hI u).2 h)⟩
    | false =>
      refine ⟨I, hn, fun u => ?_, rfl⟩
      by_cases hu : u = t
      · subst hu; rw [fset_same, h2, hI, h1]
      · rw [fset_ne _ _ hu]; exact hI u

/-- There were never more than `n` events waiting. -/
def Peak (q : QId) (n : Nat) (tr : Spec.Trace) : Prop := ∀ tr', tr' <+: tr → (accepted q tr').length ≤ (taken q tr').length + n

theorem Peak.mono {q : QId} {n : Nat} {a b : Spec.Trace} (h : Peak q n (a ++ b)) : Peak q n a :=
  fun tr hp => h tr (hp.trans (List.prefix_append _ _))

theorem Own.queue_length {lst : Tid → List Frame} {w : World} (h : Own env lst w) (q : QId) :
    (accepted q w.trace).length = (taken q w.trace).length + (w.queue q).length := by
  obtain ⟨loc, h⟩ := h
  rw [h.fifo q, List.length_append]
  have := h.full q
  generalize w.queue q = l at this
  congr 1
  induction l with
  | nil => rfl
  | cons p l ih =>
    obtain ⟨ev, m, hp, _⟩ := this p List.mem_cons_self
    simp [hp, ih fun p hm => this p (List.mem_cons_of_mem _ hm)]

def Pooled (env : Env) (s : SId) (lst : Tid → List Frame) (w : World) : Prop :=
  ∀ P n, Producers env (env.q s) P w.trace → Peak (env.q s) n w.trace →
    ∃ I J : List Tid, I.Nodup ∧ J.Nodup ∧ (∀ u, u ∈ I ↔ firing env s (lst u) = true) ∧ (∀ u, u ∈ J ↔ draining s (lst u) = true) ∧
      w.pairs env s + I.length + J.length ≤ n + P.length + env.width (env.strat s).exec

theorem Pooled.shift {lst : Tid → List Frame} {w w' : World} {t : Tid} {l' : List Frame} (h : Pooled env s lst w)
    (hk : Keeps env s w w' (lst t) l') (hp : w.trace <+: w'.trace) : Pooled env s (fset lst t l') w' := by
  obtain ⟨tr, hp⟩ := hp
  intro P n hP hN
  rw [← hp] at hP hN
  obtain ⟨I, J, h1, h2, h3, h4, h5⟩ := h P n hP.mono hN.mono
  obtain ⟨I', h6, h7, h8⟩ := set_change (b := firing env s) (t := t) (l' := l') h1 h3
  obtain ⟨J', h9, h10, h11⟩ := set_change (b := draining s) (t := t) (l' := l') h2 h4
  refine ⟨I', J', h6, h9, h7, h10, ?_⟩
  simp only [Keeps] at hk
  omega

theorem keeps_of {w w' : World} {l l' : List Frame} (h1 : firing env s l' = false) (h2 : draining s l' = false) (h3 : w'.pool = w.pool)
    (h4 : w'.queue = w.queue) : Keeps env s w w' l l' := by
  simp only [Keeps, World.pairs, h1, h2, h3, h4, Bool.toNat_false]; omega

theorem worker_list (e : EId) (k : Nat) {J : List Tid} (hn : J.Nodup) (h : ∀ u ∈ J, ∃ i, u = .worker e i ∧ i < k) : J.length ≤ k := by
  have := nodup_length_le (b := (List.range k).map (Tid.worker e)) hn fun u hu => by
    obtain ⟨i, rfl, hi⟩ := h u hu
    exact List.mem_map.2 ⟨i, List.mem_range.2 hi, rfl⟩
  simpa using this

theorem pooled_preserved (env : Env) (s : SId) (hs : ∀ s', env.q s' = env.q s → s' = s) :
    Preserved env (fun lst w => (Own env lst w ∧ TaskInv env lst w) ∧ Stacks lst w) (Pooled env s) where
  op := by
    rintro lst w t o l' ⟨⟨ho, ht⟩, hst⟩ h hm _
    rcases pool_move hs t (ht.shape t) (hst.tail t) hm with hk | hc
    · exact h.shift hk (by rw [exec_trace]; exact List.prefix_append _ _)
    · intro P n hP hN
      rw [exec_trace] at hP hN
      have hP := hP.mono
      obtain ⟨I, J, h1, h2, h3, h4, -⟩ := h P n hP hN.mono
      obtain ⟨I', h6, h7, h8⟩ := set_change (b := firing env s) (t := t) (l' := l') h1 h3
      obtain ⟨J', h9, h10, h11⟩ := set_change (b := draining s) (t := t) (l' := l') h2 h4
      refine ⟨I', J', h6, h9, h7, h10, ?_⟩
      have hI : I'.length ≤ P.length := by
        have fired : ∀ u m ev f, .fire m ev f ∈ lst u → (env.mach m).strat = s → u ∈ P := fun u m ev f hf hm =>
          hP u m ev (hst.fired u m ev f hf) (by rw [Env.qm, hm])
        refine nodup_length_le h6 fun u hu => ?_
        by_cases hut : u = t
        · subst hut
          obtain ⟨m, ev, f, hf, hm⟩ := hc.fire
          exact fired u m ev f hf hm
        · have hu := (h7 u).1 hu
          rw [fset_ne _ _ hut] at hu
          have fired := fired u
          generalize lst u = l at hu fired
          unfold firing at hu
          split at hu
          · simp only [Bool.and_eq_true, decide_eq_true_eq] at hu
            exact fired _ _ _ List.mem_cons_self hu.2
          · cases hu
      have hJ : J'.length ≤ env.width (env.strat s).exec := by
        have : J.length ≤ env.width (env.strat s).exec := worker_list (env.strat s).exec _ h2 fun u hu => by
          have hu := (h4 u).1 hu
          obtain ⟨f, hf, hd⟩ := List.any_eq_true.1 hu
          have := ht.home u f hf
          cases f with
          | drain s' cm d =>
            simp only [Frame.draining, Bool.and_eq_true, decide_eq_true_eq] at hd
            obtain ⟨_, rfl⟩ := hd
            exact this.1
          | _ => cases hd
        rw [hc.drains] at h11
        omega
      have hq := ho.queue_length (env.q s)
      have hN := hN.mono _ (List.prefix_refl _)
      simp only [World.pairs, hc.pool', hc.queue, List.length_nil]
      omega
  ret := fun lst w t _ h hf => h.shift (keeps_of rfl rfl rfl rfl) (List.prefix_refl _)
  thr := fun lst w t x _ h hf => h.shift (keeps_of rfl rfl rfl rfl) (List.prefix_append _ _)
  dispatch := fun lst w e i j s' m _ h hl hi hj => h.shift (keeps_of rfl rfl rfl rfl) (List.prefix_refl _)
  interrupt := fun lst w t _ h => h
  shutdown := fun lst w e _ h => h
  dropTasks := by
    intro lst w e _ h P n hP hN
    exact h P n hP.mono hN.mono

end
end Verif
