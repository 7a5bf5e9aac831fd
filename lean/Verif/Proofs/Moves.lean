import Verif.Logic.Moves
import Verif.Proofs.Walk3

namespace Verif

theorem lmove_of_allowed {env : Env} {w : World} {l : List Frame} {o : Op} (h : lAllowed env l o) :
    LMove env w l o (lNxt env l o w) := by
  by_cases hp : plainOp o = true
  · have h' : (callable l ∧ userOp o) ∨ ∃ f rest, l = f :: rest ∧ f.allowed env o := by
      cases o with
      | emit o => cases o <;> first | exact h | cases hp
      | _ => exact h
    rcases h' with ⟨hc, ho⟩ | ⟨f, rest, rfl, ha⟩
    · rw [lNxt_user hc ho]; exact .user hc ho
    · rw [lNxt_plain hp]; exact .frame (move_of_allowed ha)
  · cases o with
    | emit o =>
      cases o with
      | enter c => exact .enter h
      | leave c r => obtain ⟨f, rest, rfl, hl⟩ := h; exact .leave hl
      | _ => exact absurd rfl hp
    | _ => exact absurd rfl hp

/-- To show that an invariant is preserved it is enough to look at the possible moves. -/
theorem Invariant.of_moves {env : Env} {Inv : (Tid → List Frame) → World → Prop}
    (know : ∀ lst w t, Inv lst w → lKnow (lst t) w)
    (op : ∀ lst w t o l', Inv lst w → LMove env w (lst t) o l' → enabled t o w = true →
      Inv (fset lst t l') (exec t o w).2)
    (ret : ∀ lst w t, Inv lst w → fin t (.ok ()) (lst t) → Inv (fset lst t []) w)
    (thr : ∀ lst w t x, Inv lst w → fin t (.error x) (lst t) → Inv (fset lst t []) (w.log t (.uncaught x)))
    (dispatch : ∀ lst w e i j s m, Inv lst w → lst (.worker e i) = [] → i < env.width e → (w.tasks e)[j]? = some (s, m) →
      Inv (fset lst (.worker e i) (task s m)) { w with tasks := fset w.tasks e ((w.tasks e).eraseIdx j) })
    (interrupt : ∀ lst w t, Inv lst w → Inv lst { w with intr := fset w.intr t true })
    (shutdown : ∀ lst w e, Inv lst w → Inv lst { w with shut := fset w.shut e true })
    (dropTasks : ∀ lst w e, Inv lst w → Inv lst (w.dropTasks e)) :
    Invariant env (proto env) [] task fin Inv where
  know := know
  op := fun lst w t o h ha he => op lst w t o _ h (lmove_of_allowed ha) he
  ret := ret
  thr := thr
  dispatch := dispatch
  interrupt := interrupt
  shutdown := shutdown
  dropTasks := dropTasks

/-- `J` is preserved by all steps from states that satisfy `A`. -/
structure Preserved (env : Env) (A J : (Tid → List Frame) → World → Prop) : Prop where
  op : ∀ lst w t o l', A lst w → J lst w → LMove env w (lst t) o l' → enabled t o w = true →
    J (fset lst t l') (exec t o w).2
  ret : ∀ lst w t, A lst w → J lst w → fin t (.ok ()) (lst t) → J (fset lst t []) w
  thr : ∀ lst w t x, A lst w → J lst w → fin t (.error x) (lst t) → J (fset lst t []) (w.log t (.uncaught x))
  dispatch : ∀ lst w e i j s m, A lst w → J lst w → lst (.worker e i) = [] → i < env.width e →
    (w.tasks e)[j]? = some (s, m) →
    J (fset lst (.worker e i) (task s m)) { w with tasks := fset w.tasks e ((w.tasks e).eraseIdx j) }
  interrupt : ∀ lst w t, A lst w → J lst w → J lst { w with intr := fset w.intr t true }
  shutdown : ∀ lst w e, A lst w → J lst w → J lst { w with shut := fset w.shut e true }
  dropTasks : ∀ lst w e, A lst w → J lst w → J lst (w.dropTasks e)

theorem Preserved.mono {env : Env} {A A' J : (Tid → List Frame) → World → Prop} (h : Preserved env A J)
    (ha : ∀ lst w, A' lst w → A lst w) : Preserved env A' J where
  op := fun lst w t o l' a => h.op lst w t o l' (ha _ _ a)
  ret := fun lst w t a => h.ret lst w t (ha _ _ a)
  thr := fun lst w t x a => h.thr lst w t x (ha _ _ a)
  dispatch := fun lst w e i j s m a => h.dispatch lst w e i j s m (ha _ _ a)
  interrupt := fun lst w t a => h.interrupt lst w t (ha _ _ a)
  shutdown := fun lst w e a => h.shutdown lst w e (ha _ _ a)
  dropTasks := fun lst w e a => h.dropTasks lst w e (ha _ _ a)

/-- Invariants can be built one on top of the other. -/
theorem Invariant.and {env : Env} {A J : (Tid → List Frame) → World → Prop}
    (hA : Invariant env (proto env) [] task fin A) (hJ : Preserved env A J) :
    Invariant env (proto env) [] task fin (fun lst w => A lst w ∧ J lst w) where
  know := fun lst w t h => hA.know lst w t h.1
  op := fun lst w t o h ha he => ⟨hA.op lst w t o h.1 ha he, hJ.op lst w t o _ h.1 h.2 (lmove_of_allowed ha) he⟩
  ret := fun lst w t h hf => ⟨hA.ret lst w t h.1 hf, hJ.ret lst w t h.1 h.2 hf⟩
  thr := fun lst w t x h hf => ⟨hA.thr lst w t x h.1 hf, hJ.thr lst w t x h.1 h.2 hf⟩
  dispatch := fun lst w e i j s m h hl hi hj =>
    ⟨hA.dispatch lst w e i j s m h.1 hl hi hj, hJ.dispatch lst w e i j s m h.1 h.2 hl hi hj⟩
  interrupt := fun lst w t h => ⟨hA.interrupt lst w t h.1, hJ.interrupt lst w t h.1 h.2⟩
  shutdown := fun lst w e h => ⟨hA.shutdown lst w e h.1, hJ.shutdown lst w e h.1 h.2⟩
  dropTasks := fun lst w e h => ⟨hA.dropTasks lst w e h.1, hJ.dropTasks lst w e h.1 h.2⟩

/-- Every reachable configuration has control states which fit the threads and satisfy the invariant. -/
theorem Invariant.reach {env : Env} {A : (Tid → List Frame) → World → Prop}
    (hA : Invariant env (proto env) [] task fin A) (h0 : ∀ c, Initial c → A (fun _ => []) c.w) {c : Conf}
    (hr : Reach env c) : ∃ lst, ThreadsOk (proto env) [] fin lst c ∧ A lst c.w := sound (checked env) hA h0 hr

end Verif
