import Verif.Proofs.Calls
/-
Invariant: drain tasks run on the worker threads of their executor, at the bottom of the stack.
-/

namespace Verif

/-- A stack with `d` API calls on top of a drain, or of nothing. -/
inductive At : List Frame → Nat → Option Frame → Prop
  | nil : At [] 0 none
  | drain {f} : f.isDrain = true → At [f] 0 (some f)
  | cons {f l d b} : f.isDrain = false → At l d b → At (f :: l) (d + 1) b

/-- Where a drain frame may be. -/
def Frame.home (env : Env) (t : Tid) : Frame → Prop
  | .drain s cm _ => (∃ i, t = .worker (env.strat s).exec i ∧ i < env.width (env.strat s).exec) ∧ (env.mach cm).strat = s
  | _ => True

structure TaskInv (env : Env) (lst : Tid → List Frame) (w : World) : Prop where
  tasks : ∀ e s m, (s, m) ∈ w.tasks e → (env.strat s).exec = e ∧ (env.mach m).strat = s
  home : ∀ t, ∀ f ∈ lst t, f.home env t
  shape : ∀ t, ∃ d b, At (lst t) d b
  taken : ∀ t q m ev, (t, Obs.taken q m ev) ∈ w.trace →
    ∃ s i, t = .worker (env.strat s).exec i ∧ i < env.width (env.strat s).exec ∧ env.q s = q ∧ env.qm m = q

theorem exec_tasks {t : Tid} {o : Op} {w : World} {e : EId} {x : SId × MId} (h : x ∈ (exec t o w).2.tasks e) :
    x ∈ w.tasks e ∨ o = .submit e x.1 x.2 := by
  cases o with
  | submit e' s m =>
    simp only [exec] at h
    split at h
    · exact Or.inl h
    · simp only [World.log] at h
      by_cases he : e = e'
      · subst he
        simp only [fset_same, List.mem_append, List.mem_singleton] at h
        rcases h with h | rfl
        · exact Or.inl h
        · exact Or.inr rfl
      · rw [fset_ne _ _ he] at h; exact Or.inl h
  | _ =>
    left
    first
      | exact h
      | (simp only [exec] at h; (repeat' split at h) <;> exact h)

theorem move_isDrain {env : Env} {w : World} {f f' : Frame} {o : Op} (h : Move env w f o f') : f'.isDrain = f.isDrain := by
  cases h with
  | stCas1 hf _ _ => rcases hf.inv with ⟨rfl, _⟩ | ⟨rfl, _⟩ <;> rfl
  | stCas0 hf _ _ => rcases hf.inv with ⟨rfl, _⟩ | ⟨rfl, _⟩ <;> rfl
  | stSet hf => rcases hf.inv with ⟨rfl, _⟩ | ⟨rfl, _⟩ <;> rfl
  | stClear hf _ => rcases hf.inv with ⟨rfl, _⟩ | ⟨rfl, _⟩ <;> rfl
  | stPh hf _ _ => rcases hf.inv with ⟨rfl, _⟩ | ⟨rfl, _⟩ <;> rfl
  | _ => rfl

theorem move_home {env : Env} {w : World} {f f' : Frame} {o : Op} {t : Tid} (h : Move env w f o f') (hh : f.home env t) :
    f'.home env t := by
  cases h with
  | stCas1 hf _ _ => rcases hf.inv with ⟨rfl, _⟩ | ⟨rfl, _⟩ <;> trivial
  | stCas0 hf _ _ => rcases hf.inv with ⟨rfl, _⟩ | ⟨rfl, _⟩ <;> trivial
  | stSet hf => rcases hf.inv with ⟨rfl, _⟩ | ⟨rfl, _⟩ <;> trivial
  | stClear hf _ => rcases hf.inv with ⟨rfl, _⟩ | ⟨rfl, _⟩ <;> trivial
  | stPh hf _ _ => rcases hf.inv with ⟨rfl, _⟩ | ⟨rfl, _⟩ <;> trivial
  | _ => first | exact hh | trivial

theorem move_submit {env : Env} {w : World} {f f' : Frame} {e : EId} {s : SId} {m : MId}
    (h : Move env w f (.submit e s m) f') : (env.strat s).exec = e ∧ (env.mach m).strat = s := by
  cases h with
  | fSubmit => exact ⟨rfl, rfl⟩
  | stPh _ _ ha => cases phAllowed_op ha
  | drPh ha => cases phAllowed_op ha

theorem move_taken {env : Env} {w : World} {f f' : Frame} {o : Op} {q : QId} {m : MId} {ev : Ev} (h : Move env w f o f')
    (ho : opObs o w = some (.taken q m ev)) : ∃ s cm d, f = .drain s cm d ∧ env.q s = q ∧ ∃ p ∈ w.queue q, w.pair p = some (ev, m) := by
  cases h with
  | drPoll0 hq => simp [opObs, hq] at ho
  | drPollBad hq hp => simp [opObs, hq, hp] at ho
  | drPoll hq hp =>
    simp [opObs, hq, hp] at ho
    obtain ⟨rfl, rfl, rfl⟩ := ho
    exact ⟨_, _, _, rfl, rfl, _, by rw [hq]; exact List.mem_cons_self, hp⟩
  | stPh _ _ ha =>
    cases phAllowed_op ha with
    | notify _ => simp only [opObs] at ho; split at ho <;> cases ho
    | cas => simp only [opObs] at ho; split at ho <;> cases ho
    | _ => cases ho
  | drPh ha =>
    cases phAllowed_op ha with
    | notify _ => simp only [opObs] at ho; split at ho <;> cases ho
    | cas => simp only [opObs] at ho; split at ho <;> cases ho
    | _ => cases ho
  | drGive _ => simp [opObs] at ho
  | drGiveErr _ => simp [opObs] at ho
  | drOver => simp [opObs] at ho
  | drOverErr => simp [opObs] at ho
  | fOffer => simp [opObs] at ho
  | fSubmit => simp only [opObs] at ho; split at ho <;> cases ho
  | spCas1 _ => simp only [opObs] at ho; split at ho <;> cases ho
  | spCas0 _ => simp only [opObs] at ho; split at ho <;> cases ho
  | stCas1 _ _ _ => simp only [opObs] at ho; split at ho <;> cases ho
  | stCas0 _ _ _ => simp only [opObs] at ho; split at ho <;> cases ho
  | _ => cases ho

theorem leaves_isDrain {env : Env} {f : Frame} {c : Api} {r : Option Exc} (h : f.leaves env c r) : f.isDrain = false := by
  cases f <;> first | rfl | (cases c <;> exact h.elim)

theorem taskInv_op {env : Env} {lst : Tid → List Frame} {w : World} {t : Tid} {o : Op} {l' : List Frame}
    (hown : Own env lst w) (h : TaskInv env lst w) (hm : LMove env w (lst t) o l') : TaskInv env (fset lst t l') (exec t o w).2 := by
  refine ⟨?_, ?_, ?_, ?_⟩
  · intro e s m hx
    rcases exec_tasks hx with hx | rfl
    · exact h.tasks e s m hx
    · generalize lst t = l at hm
      cases hm with
      | user _ hu => exact hu.elim
      | frame hm => exact move_submit hm
  · intro u f hf
    by_cases hu : u = t
    · subst hu
      rw [fset_same] at hf
      have hh := h.home u
      generalize lst u = l at hm hh
      cases hm with
      | @enter l c _ =>
        rcases List.mem_cons.1 hf with rfl | hf
        · cases c <;> trivial
        · exact hh f hf
      | leave _ => exact hh f (List.mem_cons_of_mem _ hf)
      | user _ _ => exact hh f hf
      | frame hm =>
        rcases List.mem_cons.1 hf with rfl | hf
        · exact move_home hm (hh _ List.mem_cons_self)
        · exact hh f (List.mem_cons_of_mem _ hf)
    · rw [fset_ne _ _ hu] at hf; exact h.home u f hf
  · intro u
    by_cases hu : u = t
    · subst hu
      rw [fset_same]
      obtain ⟨d, b, hs⟩ := h.shape u
      generalize lst u = l at hm hs
      cases hm with
      | @enter l c _ => exact ⟨d + 1, b, .cons (by cases c <;> rfl) hs⟩
      | leave hl =>
        have := leaves_isDrain hl
        cases hs with
        | drain hd => rw [this] at hd; cases hd
        | cons _ hs => exact ⟨_, b, hs⟩
      | user _ _ => exact ⟨d, b, hs⟩
      | @frame f f' rest o hm =>
        cases hs with
        | drain hd => exact ⟨0, some f', .drain ((move_isDrain hm).trans hd)⟩
        | cons hd hs => exact ⟨_, b, .cons ((move_isDrain hm).trans hd) hs⟩
    · rw [fset_ne _ _ hu]; exact h.shape u
  · intro u q m ev hx
    rw [exec_trace] at hx
    rcases List.mem_append.1 hx with hx | hx
    · exact h.taken u q m ev hx
    · cases ho : opObs o w with
      | none => rw [ho] at hx; cases hx
      | some x =>
        rw [ho] at hx
        simp at hx
        obtain ⟨rfl, rfl⟩ := hx
        have hh := h.home u
        generalize lst u = l at hm hh
        cases hm with
        | enter _ => cases ho
        | leave _ => cases ho
        | user _ hu => unfold userOp at hu; split at hu <;> first | cases ho | exact hu.elim
        | frame hm =>
          obtain ⟨s, cm, d, rfl, hq, p, hp, hpr⟩ := move_taken hm ho
          obtain ⟨⟨i, h1, h2⟩, _⟩ := hh _ List.mem_cons_self
          obtain ⟨loc, hown⟩ := hown
          obtain ⟨ev', m', h3, h4⟩ := hown.full _ _ hp
          rw [hpr] at h3
          cases h3
          exact ⟨s, i, h1, h2, hq, h4⟩

theorem task_preserved (env : Env) : Preserved env (Own env) (TaskInv env) where
  op := fun lst w t o l' ho h hm _ => taskInv_op ho h hm
  ret := by
    intro lst w t _ h hf
    refine ⟨h.tasks, ?_, ?_, h.taken⟩
    · intro u f hf
      by_cases hu : u = t
      · subst hu; rw [fset_same] at hf; cases hf
      · rw [fset_ne _ _ hu] at hf; exact h.home u f hf
    · intro u
      by_cases hu : u = t
      · subst hu; rw [fset_same]; exact ⟨_, _, .nil⟩
      · rw [fset_ne _ _ hu]; exact h.shape u
  thr := by
    intro lst w t x _ h hf
    refine ⟨h.tasks, ?_, ?_, ?_⟩
    · intro u f hf
      by_cases hu : u = t
      · subst hu; rw [fset_same] at hf; cases hf
      · rw [fset_ne _ _ hu] at hf; exact h.home u f hf
    · intro u
      by_cases hu : u = t
      · subst hu; rw [fset_same]; exact ⟨_, _, .nil⟩
      · rw [fset_ne _ _ hu]; exact h.shape u
    · intro u q m ev hx
      simp only [World.log, List.mem_append, List.mem_singleton] at hx
      rcases hx with hx | hx
      · exact h.taken u q m ev hx
      · cases hx
  dispatch := by
    intro lst w e i j s m _ h hl hw hj
    have hmem : (s, m) ∈ w.tasks e := List.mem_of_getElem? hj
    obtain ⟨he, hs⟩ := h.tasks e s m hmem
    refine ⟨?_, ?_, ?_, h.taken⟩
    · intro e' s' m' hx
      simp only at hx
      by_cases hee : e' = e
      · subst hee; rw [fset_same] at hx; exact h.tasks _ _ _ (List.mem_of_mem_eraseIdx hx)
      · rw [fset_ne _ _ hee] at hx; exact h.tasks _ _ _ hx
    · intro u f hf
      by_cases hu : u = .worker e i
      · subst hu
        rw [fset_same] at hf
        simp only [task, List.mem_singleton] at hf
        subst hf
        exact ⟨⟨i, by rw [he], by rw [he]; exact hw⟩, hs⟩
      · rw [fset_ne _ _ hu] at hf; exact h.home u f hf
    · intro u
      by_cases hu : u = .worker e i
      · subst hu; rw [fset_same]; exact ⟨_, _, .drain rfl⟩
      · rw [fset_ne _ _ hu]; exact h.shape u
  interrupt := fun lst w t _ h => ⟨h.tasks, h.home, h.shape, h.taken⟩
  shutdown := fun lst w e _ h => ⟨h.tasks, h.home, h.shape, h.taken⟩
  dropTasks := by
    intro lst w e _ h
    refine ⟨?_, h.home, h.shape, ?_⟩
    · intro e' s m hx
      simp only [World.dropTasks] at hx
      by_cases hee : e' = e
      · subst hee; rw [fset_same] at hx; cases hx
      · rw [fset_ne _ _ hee] at hx; exact h.tasks _ _ _ hx
    · intro u q m ev hx
      simp only [World.dropTasks, List.mem_append, List.mem_map] at hx
      rcases hx with hx | ⟨_, _, hx⟩
      · exact h.taken u q m ev hx
      · cases hx

theorem task_initial (env : Env) (c : Conf) (h : Initial c) : TaskInv env (fun _ => []) c.w := by
  refine ⟨?_, ?_, ?_, ?_⟩
  · intro e s m hx; rw [h.tasks] at hx; cases hx
  · intro t f hf; cases hf
  · intro t; exact ⟨_, _, .nil⟩
  · intro t q m ev hx; rw [h.trace] at hx; cases hx

end Verif
