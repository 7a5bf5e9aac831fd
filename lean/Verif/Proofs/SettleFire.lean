import Verif.Proofs.Settle
import Verif.Props.Calls
/-
An event that the processing of an event fires on its own machine is accepted, unless there is a reason.
-/

namespace Verif.Settle
open Spec (Run Desc MSt bare meddles openEv openStep apiDepth depthStep takenOf IsEvent accepted taken)
open Spec.Mon
open Spec.Calls (IsCall FireFate During NoDup memAt)

section
variable {t : Tid}

/-- Within a call the depth does not fall below what it was at the beginning. -/
theorem own_depth {x y : List (Tid × Obs)} {d D : Nat} {os : List Obs} (h : Spec.Calls.own t d (x ++ y) = some os) :
    D ≤ x.foldl (depthStep t) (D + d) := by
  induction x generalizing d os with
  | nil => exact Nat.le_add_right D d
  | cons e x ih =>
    obtain ⟨u, o⟩ := e
    rw [List.foldl_cons]
    by_cases hu : u = t
    · subst hu
      by_cases h1 : ∃ k, o = .enter k
      · obtain ⟨k, rfl⟩ := h1
        simp only [List.cons_append, Spec.Calls.own, ne_eq, not_true_eq_false, if_false] at h
        have := ih h
        simpa [depthStep, Nat.add_assoc] using this
      · by_cases h2 : ∃ k r, o = .leave k r
        · obtain ⟨k, r, rfl⟩ := h2
          simp only [List.cons_append, Spec.Calls.own, ne_eq, not_true_eq_false, if_false] at h
          cases d with
          | zero => cases h
          | succ d =>
            have := ih (d := d) h
            have he : depthStep u (D + (d + 1)) (u, .leave k r) = D + d := by simp [depthStep]
            rw [he]; exact this
        · have hd : depthStep u (D + d) (u, o) = D + d := by
            cases o <;> first | rfl | exact absurd ⟨_, rfl⟩ h1 | exact absurd ⟨_, _, rfl⟩ h2
          rw [hd]
          have : ∃ os', Spec.Calls.own u d (x ++ y) = some os' := by
            rw [List.cons_append, Spec.Calls.own.eq_def] at h
            simp only [ne_eq, not_true_eq_false, if_false] at h
            split at h
            · exact absurd ⟨_, rfl⟩ h1
            · exact absurd ⟨_, _, rfl⟩ h2
            · exact ⟨_, h⟩
            · split at h
              · obtain ⟨os', h3, _⟩ := Option.map_eq_some_iff.1 h; exact ⟨os', h3⟩
              · exact ⟨_, h⟩
          obtain ⟨os', h3⟩ := this
          exact ih h3
    · have hd : depthStep t (D + d) (u, o) = D + d := by cases o <;> simp [depthStep, hu]
      rw [hd]
      simp only [List.cons_append, Spec.Calls.own, ne_eq, hu, not_false_eq_true, if_true] at h
      exact ih h

/-- The two ways to keep track of the end of a machine. -/
theorem ended_eq {c0 : Conf} {m : MId} (tr : List (Tid × Obs)) : (after c0 tr).ended m = (machAt c0 m tr).ended := by
  have : ∀ (mem : Spec.Calls.Mem) (mem' : Mem), mem.ended m = mem'.ended →
      (memAt mem tr).ended m = (Mem.after m mem' tr).ended := by
    induction tr with
    | nil => intro mem mem' h; exact h
    | cons e tr ih =>
      intro mem mem' h
      show (memAt (mem.step e.2) tr).ended m = (Mem.after m (mem'.step m e.2) tr).ended
      refine ih _ _ ?_
      obtain ⟨u, o⟩ := e
      cases o with
      | cleared m' =>
        by_cases hm : m' = m
        · subst hm; simp [Spec.Calls.Mem.step, Mem.step, fset]
        · simp [Spec.Calls.Mem.step, Mem.step, fset, hm, Ne.symm hm, h]
      | upd m' s b api =>
        by_cases hm : m' = m
        · subst hm; simp [Spec.Calls.Mem.step, Mem.step, fset]
        · simp [Spec.Calls.Mem.step, Mem.step, fset, hm, Ne.symm hm, h]
      | cur m' s api =>
        by_cases hm : m' = m
        · subst hm; simp [Spec.Calls.Mem.step, Mem.step, h]
        · simp [Spec.Calls.Mem.step, Mem.step, hm, h]
      | listener m' l =>
        by_cases hm : m' = m
        · subst hm; simp [Spec.Calls.Mem.step, Mem.step, h]
        · simp [Spec.Calls.Mem.step, Mem.step, hm, h]
      | _ => exact h
  exact this _ _ rfl

end

variable {env : Env} {c0 c : Conf} {t : Tid} {m : MId} {ev : Ev} {pre mid post : List (Tid × Obs)}

theorem bare_append {t : Tid} (a b : List (Tid × Obs)) (d : Nat) :
    ∃ d', bare t d (a ++ b) = bare t d a ++ bare t d' b := by
  induction a generalizing d with
  | nil => exact ⟨d, rfl⟩
  | cons e a ih =>
    obtain ⟨u, o⟩ := e
    by_cases hu : u = t
    · subst hu
      by_cases h1 : ∃ s m, o = .taskDropped s m
      · obtain ⟨s, m, rfl⟩ := h1
        obtain ⟨d', h⟩ := ih d
        exact ⟨d', by simpa [bare] using h⟩
      by_cases h2 : ∃ k, o = .enter k
      · obtain ⟨k, rfl⟩ := h2
        obtain ⟨d', h⟩ := ih (d + 1)
        exact ⟨d', by simpa [bare] using h⟩
      by_cases h3 : ∃ k r, o = .leave k r
      · obtain ⟨k, r, rfl⟩ := h3
        obtain ⟨d', h⟩ := ih (d - 1)
        exact ⟨d', by simpa [bare] using h⟩
      obtain ⟨d', h⟩ := ih d
      refine ⟨d', ?_⟩
      rw [List.cons_append, bare_skip _ (fun s m h => h1 ⟨s, m, h⟩) (fun k h => h2 ⟨k, h⟩) (fun k r h => h3 ⟨k, r, h⟩),
        bare_skip _ (fun s m h => h1 ⟨s, m, h⟩) (fun k h => h2 ⟨k, h⟩) (fun k r h => h3 ⟨k, r, h⟩)]
      split
      · exact h
      · rw [h]; rfl
    · obtain ⟨d', h⟩ := ih d
      exact ⟨d', by simpa [bare, hu] using h⟩

theorem ended_fold {os : List Obs} {mem : Mem} (h0 : mem.ended = false) (h : ∀ s api, Obs.upd m s true api ∉ os) :
    (os.foldl (Mem.step m) mem).ended = false := by
  induction os generalizing mem with
  | nil => exact h0
  | cons o os ih =>
    rw [List.foldl_cons]
    refine ih ?_ (fun s api hm => h s api (List.mem_cons_of_mem _ hm))
    cases o with
    | cleared m' => simp only [Mem.step]; split <;> first | rfl | exact h0
    | upd m' s b api =>
      simp only [Mem.step]
      split
      next hm =>
        subst hm
        cases b with
        | false => rfl
        | true => exact absurd List.mem_cons_self (h s api)
      · exact h0
    | cur m' s api => simp only [Mem.step]; split <;> exact h0
    | listener m' l => simp only [Mem.step]; split <;> exact h0
    | _ => exact h0

/-- The machine does not end while an event is processed that does not end it. -/
theorem not_ended (h : Processing env c0 c t m ev pre mid post) (q : QId) (h0 : (machAt c0 m pre).ended = false)
    (hb : ∀ s api, Obs.upd m s true api ∉ bare t 0 mid) {x y : List (Tid × Obs)} (hx : mid = x ++ y) :
    (machAt c0 m (pre ++ (t, .taken q m ev) :: x)).ended = false := by
  have hu := h.undisturbed
  obtain ⟨⟨q', m', ev', hs⟩, _⟩ := h.event
  obtain ⟨_, g, _, _, _, g', h1⟩ := at_taken h.alone.priv h.init h.reach hs
  subst hx
  rw [List.append_assoc] at h1
  obtain ⟨g1, h2, _⟩ := mon_split h1
  have h3 := mem_undisturbed (cfg := monCfg env m) (fun e he => hu e (List.mem_append_left _ he)) h2
  rw [machAt_append]
  have h4 := mon_mem h2
  rw [h3] at h4
  have h5 : (machAt c0 m pre).after m ((t, .taken q m ev) :: x) = (bare t 0 x).foldl (Mem.step m) (machAt c0 m pre) := h4.symm
  rw [h5]
  refine ended_fold h0 fun s api hm => hb s api ?_
  obtain ⟨d', h6⟩ := bare_append (t := t) x y 0
  rw [h6]
  exact List.mem_append_left _ hm

/-- A call that returns while an event is in processing, and is made by the thread that processes it, has begun after the event was taken. -/
theorem call_inside (hp : Private env m) (hi : Initial c0) (hr : ReachFrom env c0 c) {q : QId} {k : Api} {r : Option Exc}
    (h : c.w.trace = pre ++ (t, .taken q m ev) :: (mid ++ (t, .leave k r) :: post)) :
    ∃ a b os, mid = a ++ (t, .enter k) :: b ∧
      IsCall c.w.trace t k (pre ++ (t, .taken q m ev) :: a) b os r := by
  obtain ⟨p, md, os, h1, h2⟩ := returns_are_calls hi hr (a := pre ++ (t, .taken q m ev) :: mid) (b := post) (k := k) (r := r) (t := t)
    (by rw [h]; simp)
  have hd : apiDepth t pre = 0 := by
    obtain ⟨_, g, h3, _, h4, _⟩ := at_taken hp hi hr h
    obtain ⟨g', h5, _, _, h6, _⟩ := history_open hp hi hr t h
    rw [h3] at h5; cases h5
    rw [← h6, h4]
  rcases List.append_eq_append_iff.1 h1 with ⟨a', h3, h4⟩ | ⟨a', h3, h4⟩
  · -- the call begins after `pre`
    cases a' with
    | nil => cases h4
    | cons e a' =>
      cases h4
      exact ⟨a', md, os, rfl, by rw [← h3]; exact h2⟩
  · cases a' with
    | nil => cases h4
    | cons e a' =>
      cases h4
      have h5 := own_depth (D := apiDepth t p + 1) (d := 0) (x := a') (y := (t, .taken q m ev) :: mid) h2.own
      have h6 : apiDepth t (p ++ (t, .enter k) :: a') = a'.foldl (depthStep t) (apiDepth t p + 1) := by
        simp [apiDepth, depthStep]
      rw [h3, h6] at hd
      simp only [Nat.add_zero] at h5
      omega

/-- Such a call of `fire` on the machine itself: the event is accepted. -/
theorem fire_accepted (hp : Private env m) (hi : Initial c0) (hr : ReachFrom env c0 c) {q : QId} {e : Ev}
    (h : c.w.trace = pre ++ (t, .taken q m ev) :: (mid ++ (t, .leave (.fire m e) none) :: post))
    {u : Tid} (hs : (u, Obs.started m) ∈ pre) (hmax : (env.strat (env.mach m).strat).maxQ ≤ 0)
    (hdup : (env.strat (env.mach m).strat).dropDup = false)
    (he : ∀ x y, mid = x ++ y → (machAt c0 m (pre ++ (t, .taken q m ev) :: x)).ended = false) :
    ∃ x e' y, mid = x ++ (t, .accepted (env.qm m) m e') :: y ∧ e'.name = e.name ∧ (e.cls = 0 → e'.key = e.key) := by
  obtain ⟨a, b, os, h1, h2⟩ := call_inside hp hi hr h
  have h3 := C12_one_fate hi hr h2
  have hstart : ∀ a', a' <+: b → (memAt (after c0 (pre ++ (t, .taken q m ev) :: a)) a').started m = true := by
    intro a' _
    refine memAt_started _ _ _ ?_
    exact started_of_mem (u := u) (List.mem_append_left _ hs)
  have hend : ∀ a', a' <+: b → (memAt (after c0 (pre ++ (t, .taken q m ev) :: a)) a').ended m = false := by
    rintro a' ⟨b', rfl⟩
    have h4 := he (a ++ (t, .enter (.fire m e)) :: a') b' (by rw [h1]; simp)
    rw [← ended_eq] at h4
    have h5 : after c0 (pre ++ (t, .taken q m ev) :: (a ++ (t, .enter (.fire m e)) :: a')) =
        memAt (after c0 (pre ++ (t, .taken q m ev) :: a)) a' := by
      unfold after memAt
      rw [← List.foldl_append]
      simp only [List.foldl_append, List.foldl_cons]
      rfl
    rw [← h5]; exact h4
  have key : ∀ e', (t, Obs.accepted (env.qm m) m e') ∈ b → e'.name = e.name → (e.cls = 0 → e'.key = e.key) →
      ∃ x e' y, mid = x ++ (t, .accepted (env.qm m) m e') :: y ∧ e'.name = e.name ∧ (e.cls = 0 → e'.key = e.key) := by
    intro e' hm hn hk
    obtain ⟨x, y, rfl⟩ := List.append_of_mem hm
    exact ⟨a ++ (t, .enter (.fire m e)) :: x, e', y, by rw [h1]; simp, hn, hk⟩
  have hown := own_mem h2.own
  generalize hr' : (none : Option Exc) = r' at h3
  cases h3 with
  | before h4 => obtain ⟨a', h5, h6⟩ := h4; rw [hstart a' h5] at h6; cases h6
  | after _ h4 => obtain ⟨a', h5, h6⟩ := h4; rw [hend a' h5] at h6; cases h6
  | full _ _ h4 =>
    obtain ⟨a', h5, h6⟩ := h4
    have h6 : Spec.Calls.isFull (callsCfg env) _ m = true := h6
    rw [Spec.Calls.isFull, Bool.and_eq_true] at h6
    have h7 : (env.strat (env.mach m).strat).maxQ > 0 := of_decide_eq_true h6.1
    omega
  | dropped h4 => rw [show (callsCfg env).dropDup m = false from hdup] at h4; cases h4
  | queued => exact key e (hown _ List.mem_cons_self) rfl (fun _ => rfl)
  | refused => cases hr'
  | @queuedCopy n v =>
    exact key (Spec.Calls.copyOf e n) (hown _ (List.mem_cons_of_mem _ List.mem_cons_self)) rfl (fun h => by simp [Spec.Calls.copyOf, Ev.key, h])
  | refusedCopy => cases hr'

end Verif.Settle
