import Verif.Proofs.Reuse
import Verif.Spec.Cycle
/-
Nothing reads the history; and what the relation of Proofs/Reuse.lean needs to begin in the middle of two executions.
-/

namespace Verif.Cycle
open Verif.Reuse Verif.Spec.Cycle

/-- Another history. -/
def past (T : List (Tid × Obs)) (c : Conf) : Conf := { c with w := { c.w with trace := T } }

variable {env : Env} {c c' d : Conf}

theorem exec_past (t : Tid) (o : Op) (w : World) : ∃ l, (exec t o w).2.trace = w.trace ++ l ∧
    ∀ T, (exec t o { w with trace := T }) = ((exec t o w).1, { (exec t o w).2 with trace := T ++ l }) ∧ enabled t o { w with trace := T } = enabled t o w := by
  have nil : ∀ {r : o.Res} {w' : World}, w'.trace = w.trace → exec t o w = (r, w') → (∀ T, exec t o { w with trace := T } = (r, { w' with trace := T })) →
      ∃ l, (exec t o w).2.trace = w.trace ++ l ∧ ∀ T, exec t o { w with trace := T } = ((exec t o w).1, { (exec t o w).2 with trace := T ++ l }) := by
    intro r w' h0 h1 h2
    exact ⟨[], by rw [h1, List.append_nil, h0], fun T => by rw [h2, h1, List.append_nil]⟩
  have one : ∀ {r : o.Res} {w' : World} {e : Tid × Obs}, exec t o w = (r, { w' with trace := w.trace ++ [e] }) →
      (∀ T, exec t o { w with trace := T } = (r, { w' with trace := T ++ [e] })) →
      ∃ l, (exec t o w).2.trace = w.trace ++ l ∧ ∀ T, exec t o { w with trace := T } = ((exec t o w).1, { (exec t o w).2 with trace := T ++ l }) := by
    intro r w' e h1 h2
    exact ⟨[e], by rw [h1], fun T => by rw [h2, h1]⟩
  have h : ∃ l, (exec t o w).2.trace = w.trace ++ l ∧ ∀ T, exec t o { w with trace := T } = ((exec t o w).1, { (exec t o w).2 with trace := T ++ l }) := by
    cases o with
    | casStarted m => cases h : (w.mach m).started
                      · exact ⟨_, by simp only [exec, h]; rfl, fun T => by simp [exec, h, World.log]⟩
                      · exact ⟨[], by simp [exec, h], fun T => by simp [exec, h]⟩
    | casEnded m _ _ _ => cases h : (w.mach m).ended
                          · exact ⟨_, by simp only [exec, h]; rfl, fun T => by simp [exec, h, World.log]⟩
                          · exact ⟨[], by simp [exec, h], fun T => by simp [exec, h]⟩
    | notify m _ => cases h : (w.mach m).listener
                    · exact ⟨[], by simp [exec, h], fun T => by simp [exec, h]⟩
                    · exact ⟨_, by simp only [exec, h]; rfl, fun T => by simp [exec, h, World.log]⟩
    | offer _ p => cases h : w.pair p
                   · exact ⟨[], by simp [exec, h], fun T => by simp [exec, h]⟩
                   · exact ⟨_, by simp only [exec, h]; rfl, fun T => by simp [exec, h, World.log]⟩
    | poolGive _ p => cases h : w.pair p
                      · exact ⟨[], by simp [exec, h], fun T => by simp [exec, h]⟩
                      · exact ⟨_, by simp only [exec, h]; rfl, fun T => by simp [exec, h, World.log]⟩
    | poll q => cases h : w.queue q with
                | nil => exact ⟨[], by simp [exec, h], fun T => by simp [exec, h]⟩
                | cons p _ => cases h' : w.pair p
                              · exact ⟨[], by simp [exec, h, h'], fun T => by simp [exec, h, h']⟩
                              · exact ⟨_, by simp only [exec, h, h']; rfl, fun T => by simp [exec, h, h', World.log]⟩
    | poolTake s => cases h : w.pool s <;> exact ⟨[], by simp [exec, h], fun T => by simp [exec, h]⟩
    | submit e _ _ => cases h : w.shut e <;> exact ⟨_, by simp only [exec, h]; rfl, fun T => by simp [exec, h, World.log]⟩
    | await _ => cases h : w.intr t <;> exact ⟨[], by simp [exec, h], fun T => by simp [exec, h]⟩
    | _ => first
      | exact nil rfl rfl fun _ => rfl
      | exact one rfl fun _ => rfl
      | exact ⟨[], (List.append_nil _).symm, fun T => by rw [List.append_nil]; rfl⟩
  obtain ⟨l, h1, h2⟩ := h
  exact ⟨l, h1, fun T => ⟨h2 T, by cases o <;> rfl⟩⟩

theorem step_past {x : Choice} (h : Verif.step env c x = some d) :
    ∃ l, d.w.trace = c.w.trace ++ l ∧ ∀ T, Verif.step env (past T c) x = some (past (T ++ l) d) := by
  cases x with
  | begin n u =>
    simp only [Verif.step] at h
    split at h
    · cases h
    next hn => cases h; exact ⟨[], by simp, fun T => by simp [Verif.step, past, hn]⟩
  | run t =>
    simp only [Verif.step] at h
    split at h
    · cases h
    next p hp =>
      cases p with
      | ret u => cases h; exact ⟨[], by simp, fun T => by simp [Verif.step, past, hp, runThread]⟩
      | thr x => cases h; exact ⟨[(t, .uncaught x)], rfl, fun T => by simp [Verif.step, past, hp, runThread, World.log]⟩
      | op o k =>
        simp only [runThread] at h
        split at h
        next he =>
          cases h
          obtain ⟨l, h1, h2⟩ := exec_past t o c.w
          refine ⟨l, h1, fun T => ?_⟩
          obtain ⟨h3, h4⟩ := h2 T
          have h5 : (exec t o (past T c).w) = ((exec t o c.w).1, { (exec t o c.w).2 with trace := T ++ l }) := h3
          have h6 : enabled t o (past T c).w = true := h4.trans he
          have h7 : (past T c).thr t = some (.op o k) := hp
          simp only [Verif.step, h7, runThread, h6, if_true, h5]
          rfl
        · cases h
      | call f k => cases h; exact ⟨[], by simp, fun T => by simp [Verif.step, past, hp, runThread]⟩
  | dispatch e i j =>
    simp only [Verif.step] at h
    split at h
    next hw =>
      split at h
      next s m h1 h2 => cases h; exact ⟨[], by simp, fun T => by simp [Verif.step, past, hw, h1, h2]⟩
      · cases h
    · cases h
  | interrupt t => cases h; exact ⟨[], by simp, fun T => by simp [Verif.step, past]⟩
  | shutdown e now =>
    cases now
    · cases h; exact ⟨[], by simp, fun T => by simp [Verif.step, past]⟩
    · cases h; exact ⟨_, rfl, fun T => by simp [Verif.step, past, World.dropTasks]⟩

theorem runs_past {xs : List Choice} (h : Verif.runs env c xs = some d) :
    ∃ l, d.w.trace = c.w.trace ++ l ∧ ∀ T, Verif.runs env (past T c) xs = some (past (T ++ l) d) := by
  induction xs generalizing c with
  | nil => cases h; exact ⟨[], by simp, fun T => by simp [Verif.runs]⟩
  | cons x xs ih =>
    simp only [Verif.runs] at h
    split at h
    · cases h
    next c1 h1 =>
      obtain ⟨l, g1, g2⟩ := step_past h1
      obtain ⟨l', g3, g4⟩ := ih h
      exact ⟨l ++ l', by rw [g3, g1, List.append_assoc], fun T => by simp only [Verif.runs, g2, g4, List.append_assoc]⟩

/-- Every pair is in one place. -/
theorem side (hd : Plainly env) (hr : Reach env c) (hi : ∀ t, c.thr t = none) : Side (fun _ => []) c.w := by
  obtain ⟨c0, h0, ys, hy⟩ := hr
  rw [← runsBy_first] at hy
  obtain ⟨zs, hz, _⟩ := runs_of_runsBy hy
  obtain ⟨d, H, Q, _, h⟩ := runs_sim first_valid hd (rel_initial h0) hz
  have hH : (fun t => (H t).map (·.1)) = fun _ => [] := by
    funext t
    have ht := h.thr t
    rw [hi t] at ht
    cases hdt : d.thr t with
    | none => rw [hdt] at ht; rw [show H t = [] from ht]; rfl
    | some p => rw [hdt] at ht; cases ht
  have := h.left
  rw [hH] at this
  exact this

/-- The pairs in two queues. -/
def ents (l l' : List PairId) : List Ent := (l.zip l').map fun x => (x.1, x.2, true)

theorem rel_same (hd : Plainly env) (hr : Reach env c) (hr' : Reach env c') (hi : ∀ t, c.thr t = none) (h : Same c c') :
    Rel (fun _ => []) (fun q => ents (c.w.queue q) (c'.w.queue q)) c (past c.w.trace c') := by
  have hi' : ∀ t, c'.thr t = none := fun t => (h.idle t).2 (hi t)
  have hlen : ∀ q, (c'.w.queue q).length = (c.w.queue q).length := fun q => by simpa using congrArg List.length (h.waiting q)
  refine ⟨fun t => ?_, fun q => ?_, fun q => ?_, fun q e he => ?_, fun _ _ h => (by cases h), side hd hr hi, ?_, ⟨?_, hlen⟩⟩
  · rw [hi t, show (past c.w.trace c').thr t = none from hi' t]; rfl
  · simp only [ents, List.map_map]
    exact (List.map_fst_zip (Nat.le_of_eq (hlen q).symm)).symm
  · simp only [ents, List.map_map]
    exact (List.map_snd_zip (Nat.le_of_eq (hlen q))).symm
  · obtain ⟨⟨p, p'⟩, hx, rfl⟩ := List.mem_map.1 he
    obtain ⟨i, hl, hg⟩ := List.mem_iff_getElem.1 hx
    rw [List.getElem_zip] at hg
    have hw := congrArg (·[i]?) (h.waiting q)
    rw [List.length_zip] at hl
    have h1 : i < (c.w.queue q).length := by omega
    have h2 : i < (c'.w.queue q).length := by omega
    cases hg
    show c'.w.pair _ = c.w.pair _
    simpa [List.getElem?_map, List.getElem?_eq_getElem h1, List.getElem?_eq_getElem h2] using hw
  · exact (side hd hr' hi').other rfl rfl rfl
  · show ({ c'.w with trace := c.w.trace } : World) = _
    obtain ⟨⟨⟩, _⟩ := c
    obtain ⟨⟨⟩, _⟩ := c'
    obtain ⟨h1, h2, h3, h4, h5, h6, h7, h8, _, _⟩ := h
    simp only at h1 h2 h3 h4 h5 h6 h7 h8
    subst h1 h2 h3 h4 h5 h6 h7 h8
    rfl

theorem same_rel {H : Tid → List Ent} {Q : QId → List Ent} (h : Rel H Q c c') : Same c c' := by
  have he := h.alike.eq
  refine ⟨by rw [he], by rw [he], by rw [he], by rw [he], by rw [he], by rw [he], by rw [he], by rw [he], fun q => ?_, fun t => ?_⟩
  · rw [h.ql, h.qr, List.map_map, List.map_map]
    exact List.map_congr_left fun e he => h.vq q e he
  · have := h.thr t
    cases hc : c.thr t <;> cases hc' : c'.thr t <;> simp_all [ThrRel]

theorem same_runs {xs : List Choice} (hd : Plainly env) (hr : Reach env c) (hr' : Reach env c') (hi : ∀ t, c.thr t = none) (h : Same c c')
    (hs : Verif.runs env c xs = some d) : ∃ d' l, Verif.runs env c' xs = some d' ∧ Same d d' ∧ d.w.trace = c.w.trace ++ l ∧ d'.w.trace = c'.w.trace ++ l := by
  rw [← runsBy_first] at hs
  obtain ⟨ys, hy, hx⟩ := runs_of_runsBy hs
  rw [runsBy_first] at hs
  obtain ⟨d1, H, Q, h1, h2⟩ := runs_sim first_valid hd (rel_same hd hr hr' hi h) hy
  rw [hx, runsBy_first] at h1
  obtain ⟨l, h3, h4⟩ := runs_past h1
  have h5 := h4 c'.w.trace
  have ht : d1.w.trace = d.w.trace := by rw [h2.alike.eq]
  have hp : ∀ {a b : List (Tid × Obs)} {u : Conf}, past a (past b u) = past a u := rfl
  rw [hp, show past c'.w.trace c' = c' from rfl] at h5
  have hS := same_rel h2
  exact ⟨_, l, h5, ⟨hS.mach, hS.payload, hS.nextCopy, hS.tasks, hS.shut, hS.latch, hS.intr, hS.mem, hS.waiting, hS.idle⟩, ht.symm.trans h3, rfl⟩

end Verif.Cycle
