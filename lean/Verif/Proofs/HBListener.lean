import Verif.Proofs.HBCur
import Verif.Spec.Plain
/-
Accesses to the plain field `stateMachineListener`.
-/

namespace Verif
open Verif.Spec.HB Verif.Spec.Plain

section
variable {env : Env} {m : MId} {H : List Did} {lst : Tid → List Frame} {w : World} {t : Tid} {o : Op} {l' : List Frame} {f f' : Frame} {x : Did}

/-- Who reads the listener. -/
theorem move_listener (hm : Move env w f o f') (h : o = .getListener m ∨ ∃ c, o = .notify m c) :
    (∃ s cm p ev ph, f = .drain s cm (.busy p ev m ph)) ∨ isBusy m f := by
  cases hm with
  | drPh ha =>
    cases phAllowed_op ha with
    | getListener => rcases h with h | ⟨_, h⟩ <;> cases h; exact Or.inl ⟨_, _, _, _, _, rfl⟩
    | notify => rcases h with h | ⟨_, h⟩ <;> cases h; exact Or.inl ⟨_, _, _, _, _, rfl⟩
    | _ => rcases h with h | ⟨_, h⟩ <;> cases h
  | stPh hf hs ha =>
    cases phAllowed_op ha with
    | getListener =>
      rcases h with h | ⟨_, h⟩ <;> cases h
      rcases hf.inv with ⟨rfl, _⟩ | ⟨rfl, _⟩
      · exact Or.inr (Or.inl ⟨_, rfl⟩)
      · exact Or.inr (Or.inr ⟨_, _, rfl⟩)
    | notify =>
      rcases h with h | ⟨_, h⟩ <;> cases h
      rcases hf.inv with ⟨rfl, _⟩ | ⟨rfl, _⟩
      · exact Or.inr (Or.inl ⟨_, rfl⟩)
      · exact Or.inr (Or.inr ⟨_, _, rfl⟩)
    | _ => rcases h with h | ⟨_, h⟩ <;> cases h
  | _ => rcases h with h | ⟨_, h⟩ <;> cases h

/-- Who reads the listener knows that the machine has been started. -/
theorem listener_access (hx : OwnThread env m) (hown : Own env lst w) (ht : TaskInv env lst w) (h : CurInv env m H lst w)
    (hm : LMove env w (lst t) o l') (hc : o = .getListener m ∨ ∃ c, o = .notify m c) : (∃ i a, Foreign env m H i a) ∧ Knows env m H t := by
  generalize hl : lst t = l at hm
  cases hm with
  | enter _ => rcases hc with hc | ⟨_, hc⟩ <;> cases hc
  | leave _ => rcases hc with hc | ⟨_, hc⟩ <;> cases hc
  | user h1 h2 => rcases hc with rfl | ⟨_, rfl⟩ <;> exact h2.elim
  | @frame f f' rest o hm =>
    rcases move_listener hm hc with ⟨s, cm, p, ev, ph, rfl⟩ | hw
    · have hmem : Frame.drain s cm (.busy p ev m ph) ∈ lst t := by rw [hl]; exact List.mem_cons_self
      obtain ⟨loc, hown⟩ := hown
      have hf := hown.fact t _ hmem
      have hW := worker_of_queue hx ht hmem hf.2.symm
      subst hW
      have hp := h.holds _ hmem rfl (List.cons_ne_nil _ _)
      refine ⟨?_, h.polled hp⟩
      exact Classical.byContradiction fun hF => (h.first hF).2.1 hp
    · exact h.busy t f (by rw [hl]; exact List.mem_cons_self) hw

structure LisInv (env : Env) (m : MId) (H : List Did) : Prop where
  read : ∀ (i : Nat) a, H[i]? = some a → a.reads (.listener m) → ∃ k b, Foreign env m H k b
  rf : RaceFree false H (.listener m)

theorem Spec.Plain.Prepared.prefix {t0 W : Tid} (h : Prepared t0 W m (H ++ [x])) : Prepared t0 W m H :=
  ⟨fun i t l hi => h.sets i t l (get_snoc hi), fun i j t l u s api hi hj => h.before i j t l u s api (get_snoc hi) (get_snoc hj),
    fun j u s api hj => h.starts j u s api (get_snoc hj)⟩

theorem writes_listener {i : Nat} {a : Did} (hi : H[i]? = some a) (h : a.writes (.listener m)) : ∃ t l, H[i]? = some (.op t (.setListener m l) ()) ∧ a.tid = t := by
  cases a with
  | take => exact h.elim
  | op t o r => cases o <;> first | exact h.elim | (cases h; exact ⟨t, _, hi, rfl⟩) | cases h

/-- With discipline, the only access to the state by another thread than the worker is the one that starts the machine. -/
theorem foreign_start {t0 : Tid} {i : Nat} {a : Did} (hD : Disciplined (env.workerOf m) m H) (hP : Prepared t0 (env.workerOf m) m H) (h : Foreign env m H i a) :
    a.tid = t0 ∧ ∃ s api, H[i]? = some (.op t0 (.setCur m s api) ()) := by
  obtain ⟨h1, h2, h3⟩ := h
  cases a with
  | take => rcases h2 with h2 | h2 <;> exact h2.elim
  | op t o r =>
    rcases cur_touches h2 with rfl | ⟨s, api, rfl⟩
    · exact absurd (hD.reads i t r h1) h3
    · rcases hP.starts i t s api h1 with rfl | rfl
      · exact ⟨rfl, s, api, h1⟩
      · exact absurd rfl h3

theorem LisInv.snoc {t0 : Tid} (h : LisInv env m H) (hD : Disciplined (env.workerOf m) m (H ++ [x])) (hP : Prepared t0 (env.workerOf m) m (H ++ [x]))
    (hr : x.reads (.listener m) → (∃ i a, Foreign env m H i a) ∧ Knows env m H x.tid) : LisInv env m (H ++ [x]) := by
  have up : ∀ {k b}, Foreign env m H k b → Foreign env m (H ++ [x]) k b := fun h => foreign_snoc.2 (Or.inl h)
  have hD' := Disciplined.prefix hD
  have hP' := hP.prefix
  constructor
  · intro i a hi ha
    rcases snoc_get.1 hi with hi | ⟨rfl, rfl⟩
    · obtain ⟨k, b, hk⟩ := h.read i a hi ha
      exact ⟨k, b, up hk⟩
    · obtain ⟨⟨k, b, hk⟩, _⟩ := hr ha
      exact ⟨k, b, up hk⟩
  · intro i j a b hij hi hj ha hb hw
    rcases snoc_get.1 hi with hi' | ⟨rfl, rfl⟩
    · rcases snoc_get.1 hj with hj' | ⟨rfl, rfl⟩
      · exact HB.snoc (h.rf i j a b hij hi' hj' ha hb hw)
      · by_cases hbw : b.writes (.listener m)
        · -- the listener is set again
          obtain ⟨u, l, h1, h2⟩ := writes_listener hj hbw
          have hu := hP.sets _ u l h1
          rcases ha with ha | ha
          · obtain ⟨k, c, hk⟩ := h.read i a hi' ha
            obtain ⟨_, s, api, h3⟩ := foreign_start hD' hP' hk
            have := hP.before _ _ _ _ _ _ _ h1 (get_snoc h3)
            have := get_lt h3
            omega
          · obtain ⟨v, l', h3, h4⟩ := writes_listener hi ha
            have hv := hP.sets _ v l' h3
            exact .po hij hi hj (by rw [h4, h2, hu, hv])
        · have hbr := hb.resolve_right hbw
          have haw := hw.resolve_right hbw
          obtain ⟨⟨k, c, hk⟩, hkn⟩ := hr hbr
          obtain ⟨_, s, api, h3⟩ := foreign_start hD' hP' hk
          obtain ⟨v, l, h4, h5⟩ := writes_listener hi' haw
          have hv := hP'.sets _ v l h4
          have hlt := hP'.before _ _ _ _ _ _ _ h4 h3
          have h6 : HB false (H ++ [b]) i k := .po hlt hi (get_snoc h3) (by rw [h5, hv]; rfl)
          exact .trans h6 (Past.hb (hkn k c hk))
    · have := get_lt hj
      simp at this
      omega

end

theorem listener_hinv (env : Env) (m : MId) (t0 : Tid) (hx : OwnThread env m) :
    HInv env (fun lst w => (Own env lst w ∧ TaskInv env lst w) ∧ Stacks lst w)
      (fun H lst w => Disciplined (env.workerOf m) m H → CurInv env m H lst w ∧ (Prepared t0 (env.workerOf m) m H → LisInv env m H)) where
  op := by
    intro H lst w t o l' ha hj hm hb hD
    obtain ⟨⟨hown, ht⟩, hst⟩ := ha
    have hD' := Disciplined.prefix hD
    refine ⟨(cur_hinv env m hx).op H lst w t o l' ⟨⟨hown, ht⟩, hst⟩ (fun hD => (hj hD).1) hm hb hD, fun hP => ?_⟩
    refine ((hj hD').2 hP.prefix).snoc hD hP fun hr => listener_access hx hown ht (hj hD').1 hm ?_
    cases o with
    | getListener m' => cases hr; exact Or.inl rfl
    | notify m' c => cases hr; exact Or.inr ⟨c, rfl⟩
    | _ => first | exact hr.elim | cases hr
  ret := fun H lst w t ha hj hf hD => ⟨(cur_hinv env m hx).ret H lst w t ha (fun hD => (hj hD).1) hf hD, (hj hD).2⟩
  thr := fun H lst w t x ha hj hf hD => ⟨(cur_hinv env m hx).thr H lst w t x ha (fun hD => (hj hD).1) hf hD, (hj hD).2⟩
  dispatch := fun H lst w e i j s m' ha hj h1 h2 h3 hD =>
    ⟨(cur_hinv env m hx).dispatch H lst w e i j s m' ha (fun hD => (hj hD).1) h1 h2 h3 hD,
      fun hP => ((hj (Disciplined.prefix hD)).2 hP.prefix).snoc hD hP fun hr => hr.elim⟩
  interrupt := fun H lst w t ha hj hD => ⟨(cur_hinv env m hx).interrupt H lst w t ha (fun hD => (hj hD).1) hD, (hj hD).2⟩
  shutdown := fun H lst w t ha hj hD => ⟨(cur_hinv env m hx).shutdown H lst w t ha (fun hD => (hj hD).1) hD, (hj hD).2⟩
  dropTasks := fun H lst w t ha hj hD => ⟨(cur_hinv env m hx).dropTasks H lst w t ha (fun hD => (hj hD).1) hD, (hj hD).2⟩

theorem listener_raceFree {env : Env} {m : MId} {t0 : Tid} {c0 c : Conf} {xs : List Choice} (hx : OwnThread env m) (hi : Initial c0)
    (hr : runs env c0 xs = some c) (hd : Disciplined (env.workerOf m) m (history env c0 xs)) (hp : Prepared t0 (env.workerOf m) m (history env c0 xs)) :
    RaceFree false (history env c0 xs) (.listener m) := by
  obtain ⟨lst, _, h⟩ := hist_sound (((own_invariant env).and (task_preserved env)).and (stacks_invariant env _)) (listener_hinv env m t0 hx)
    (fun c h => ⟨⟨own_initial env c h, task_initial env c h⟩, stacks_initial c.w⟩)
    (fun c h _ => ⟨cur_initial env m c h, fun _ => ⟨(fun i a hi => by cases hi), (fun i j a b _ hi => by cases hi)⟩⟩) hi hr
  exact ((h hd).2 hp).rf

end Verif
