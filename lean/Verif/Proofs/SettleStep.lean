import Verif.Proofs.SettleFire
import Verif.Props.Rest
/-
Transitions in executions in which a machine is looked after.
-/

namespace Verif.Settle
open Spec (Run Desc MSt bare meddles openEv openStep apiDepth takenOf IsEvent accepted taken Transition Notify Report Handles)
open Spec.Mon

variable {env : Env} {r : Run env} {m : MId}

/-- Somewhere in the execution, after the history `P`, the machine's worker takes event `ev` in state `s`, which leads to `b`; `mid`
happens until it has finished. -/
structure Step (r : Run env) (m : MId) (s : St) (ev : Ev) (b : St) (P mid : List (Tid × Obs)) : Prop where
  at_ : ∃ j rest, (r.conf j).w.trace = P ++ (env.workerOf m, .taken (env.qm m) m ev) :: (mid ++ (env.workerOf m, .done m ev) :: rest)
  done : ∀ m' ev', (env.workerOf m, Obs.done m' ev') ∉ mid
  alone : ∀ q m' ev', (env.workerOf m, Obs.taken q m' ev') ∉ mid
  state : (machAt (r.conf 0) m P).st = ⟨some s, false⟩
  goes : (env.desc m).reaction (some s) ev = .goes b

/-- The history when the event is finished. -/
def ends (env : Env) (m : MId) (ev : Ev) (P mid : List (Tid × Obs)) : List (Tid × Obs) :=
  P ++ (env.workerOf m, .taken (env.qm m) m ev) :: (mid ++ [(env.workerOf m, .done m ev)])

section
variable {s b : St} {ev : Ev} {P mid : List (Tid × Obs)}

theorem worker_ne {env : Env} {m : MId} : env.workerOf m ≠ .env := by simp [Env.workerOf]

theorem Step.index (h : Step r m s ev b P mid) : ∃ j, (r.conf j).w.trace = ends env m ev P mid := by
  obtain ⟨j, rest, h1⟩ := h.at_
  obtain ⟨j0, _, _, _, h2⟩ := Course.entry_time r j (pre := P ++ (env.workerOf m, .taken (env.qm m) m ev) :: mid) (x := .done m ev) (post := rest)
    (worker_ne (env := env) (m := m)) (by rw [h1]; simp)
  exact ⟨j0 + 1, by rw [h2]; simp [ends]⟩

theorem Step.processing (h : Step r m s ev b P mid) (ha : Alone env m) (hs : Smooth r m P) :
    ∃ j rest, Processing env (r.conf 0) (r.conf j) (env.workerOf m) m ev P mid rest := by
  obtain ⟨j, rest, h1⟩ := h.at_
  have := Settle.processing (a := []) ha hs (by simpa using h1) h.done
  rw [List.append_nil] at this
  exact ⟨j, rest, this⟩

theorem Step.bare (h : Step r m s ev b P mid) (ha : Alone env m) (hs : Smooth r m P) :
    bare (env.workerOf m) 0 mid = Spec.shown ((env.desc m).before (machAt (r.conf 0) m P).lst.isSome s ev b) ++ (env.desc m).change b ++
      Spec.shown ((env.desc m).afterwards (machAt (r.conf 0) m P).lst.isSome s ev b) ++ (env.desc m).ending b := by
  obtain ⟨j, rest, h1⟩ := h.at_
  have := completes (a := []) ha hs (by simpa using h1) h.done (by simpa using h.state) h.goes
  rwa [List.append_nil] at this

theorem Step.cur_mem (h : Step r m s ev b P mid) (ha : Alone env m) (hs : Smooth r m P) : (env.workerOf m, Obs.cur m b false) ∈ mid := by
  refine mem_bare (d := 0) ?_
  rw [h.bare ha hs]
  simp [Desc.change, Env.desc]

theorem Step.rest (_ : Step r m s ev b P mid) : openEv (env.workerOf m) m (ends env m ev P mid) = none := by
  unfold openEv ends
  rw [List.foldl_append, List.foldl_cons, List.foldl_append]
  simp [openStep]

theorem Step.rest_before (h : Step r m s ev b P mid) (ha : Alone env m) : openEv (env.workerOf m) m P = none := by
  obtain ⟨j, rest, h1⟩ := h.at_
  exact rest_taken ha r.init (r.reach_conf j) h1

theorem Step.only (h : Step r m s ev b P mid) (ha : Alone env m) : takenOf m mid = [] := by
  obtain ⟨j, rest, h1⟩ := h.at_
  rw [List.eq_nil_iff_forall_not_mem]
  intro e he
  obtain ⟨x, hx, hxe⟩ := List.mem_filterMap.1 he
  obtain ⟨u, o⟩ := x
  cases o with
  | taken q m' ev' =>
    simp only [Option.ite_none_right_eq_some, Option.some.injEq] at hxe
    obtain ⟨rfl, rfl⟩ := hxe
    have := taken_worker ha r.init (r.reach_conf j) (t := u) (q := q) (ev := ev') (by rw [h1]; simp [hx])
    rw [this] at hx
    exact h.alone _ _ _ hx
  | _ => cases hxe

theorem next_eq {d : Desc} (h : d.reaction (some s) ev = .goes b) (h1 : b.name ≠ resEnd) (h2 : d.final b = false) :
    d.next ⟨some s, false⟩ ev = ⟨some b, false⟩ := by
  unfold Desc.reaction at h
  cases hr : d.table.row? (some s) with
  | none => rw [hr] at h; cases h
  | some row =>
    rw [hr] at h
    simp only at h
    cases ht : row.target (some ev.key) with
    | none => rw [ht] at h; cases h
    | some b' =>
      rw [ht] at h
      simp only at h
      by_cases hb : b'.name = resNoop
      · rw [if_pos hb] at h; cases h
      · rw [if_neg hb] at h
        cases h
        simp [Desc.next, hr, ht, hb, h1, h2]

theorem Step.result (h : Step r m s ev b P mid) (ha : Alone env m) (hs : Smooth r m P) (h1 : b.name ≠ resEnd)
    (h2 : (env.desc m).final b = false) : (machAt (r.conf 0) m (ends env m ev P mid)).st = ⟨some b, false⟩ := by
  obtain ⟨j, hj⟩ := h.index
  have h3 := state_at ha hs (j := j) hj (h.rest_before ha) h.rest
  unfold ends
  rw [h3]
  have : takenOf m ((env.workerOf m, .taken (env.qm m) m ev) :: (mid ++ [(env.workerOf m, .done m ev)])) = [ev] := by
    have := h.only ha
    simp only [takenOf] at this ⊢
    simp [this]
  rw [this, h.state]
  exact next_eq h.goes h1 h2

/-- Events that are accepted after an event was taken are taken after it was finished. -/
theorem Step.late (h : Step r m s ev b P mid) (ha : Alone env m) {x : List (Tid × Obs)} :
    (taken (env.qm m) (ends env m ev P mid)).length ≤
      (accepted (env.qm m) (P ++ (env.workerOf m, .taken (env.qm m) m ev) :: x)).length := by
  obtain ⟨j, rest, h1⟩ := h.at_
  have h2 : (taken (env.qm m) mid) = [] := by
    have := takenOf_queue (tr := mid ++ (env.workerOf m, .done m ev) :: rest) (pre := P ++ [(env.workerOf m, .taken (env.qm m) m ev)])
      ha.priv r.init (r.reach_conf j) (by rw [h1]; simp)
    have h3 := h.only ha
    have h4 : takenOf m (mid ++ (env.workerOf m, .done m ev) :: rest) = takenOf m rest := by
      simp only [takenOf] at h3 ⊢
      simp [h3]
    have := takenOf_queue (tr := rest) (pre := P ++ (env.workerOf m, .taken (env.qm m) m ev) :: (mid ++ [(env.workerOf m, .done m ev)]))
      ha.priv r.init (r.reach_conf j) (by rw [h1]; simp)
    have h5 := congrArg List.length this
    rename_i h6
    have h6 := congrArg List.length h6
    rw [h4] at h6
    simp [taken] at h5 h6
    apply List.eq_nil_of_length_eq_zero
    simp only [taken]
    omega
  obtain ⟨j0, _, _, _, h3⟩ := Course.entry_time r j worker_ne h1
  have h4 := congrArg List.length (Course.pos_fifo r (j0 + 1) (env.qm m))
  rw [h3] at h4
  simp only [taken, accepted, ends, List.filterMap_append, List.filterMap_cons, List.filterMap_nil, List.length_append] at h2 h4 ⊢
  rw [h2]
  simp at h4 ⊢
  omega

end

/-- A state is left in the end if an event that is mapped in it has been accepted and not been taken before the state was entered. -/
theorem leaves_step (hv : Served r m) {P tr : List (Tid × Obs)} (hs : Smooth r m P) {i0 : Nat} (hP : (r.conf i0).w.trace = P ++ tr)
    (h0 : openEv (env.workerOf m) m P = none) {s b : St} (hst : (machAt (r.conf 0) m P).st = ⟨some s, false⟩)
    {i : Nat} {u : Tid} {ev : Ev} {past post : List (Tid × Obs)} (h : (r.conf i).w.trace = past ++ (u, .accepted (env.qm m) m ev) :: post)
    (hlate : (taken (env.qm m) P).length ≤ (accepted (env.qm m) past).length)
    (hg : (env.desc m).reaction (some s) ev = .goes b) (hb : b ≠ s) :
    ∃ a ev' b' mid, Step r m s ev' b' (P ++ a) mid := by
  obtain ⟨j, pre, mid, h1, h2⟩ := hv.processed h
  have hle : P.length ≤ pre.length := by
    refine Classical.byContradiction fun hn => ?_
    obtain ⟨c, hc⟩ := comparable (a := pre ++ [(env.workerOf m, .taken (env.qm m) m ev)]) (x := mid) (by rw [h1]; simp) hP (by simp; omega)
    rw [hc] at hlate
    simp [taken] at hlate h2
    omega
  obtain ⟨c, rfl⟩ := comparable hP h1 hle
  obtain ⟨a, ev', b0, h3, h4, h5⟩ := left_with hv.alone hs (j := j) (tr := c ++ (env.workerOf m, .taken (env.qm m) m ev) :: mid) (by rw [h1]; simp) h0
    (ev := ev) taken_mem (by rw [hst]; exact next_of_goes hg hb)
  rw [hst] at h4 h5
  obtain ⟨_, s', b', h6, h7⟩ := goes_of_next h5
  cases h6
  have h8 : (r.conf j).w.trace = (P ++ a) ++ (env.workerOf m, .taken (env.qm m) m ev') :: b0 := by
    rw [h1, List.append_assoc, h3]; simp
  obtain ⟨j', mid', rest, _, h9, h10, h11, _⟩ := is_event hv.alone h8 (hv.fair _) hv.returns
  exact ⟨a, ev', b', mid', ⟨j', rest, h9⟩, h10, h11, h4, h7⟩

/-- Entries that only event processing makes are not hidden in API calls. -/
theorem bare_of_drain {cfg : Cfg} {t : Tid} {tr : List (Tid × Obs)} {g g' : G} {x : Obs} (hr : run cfg t g tr = some g')
    (hx : onlyDrain x = true) (hm : (t, x) ∈ tr) : x ∈ bare t g.depth tr := by
  induction tr generalizing g with
  | nil => cases hm
  | cons e tr ih =>
    obtain ⟨g1, h1, h2⟩ := mon_cons hr
    obtain ⟨mem, d, md⟩ := g
    obtain ⟨mem1, d1, md1⟩ := g1
    obtain ⟨_, hs⟩ := mstep_of h1
    simp only at hs ih ⊢
    have ih' := fun h => ih (g := ⟨mem1, d1, md1⟩) h2 h
    simp only at ih'
    cases hs with
    | other hu =>
      rcases List.mem_cons.1 hm with h | h
      · cases h; exact absurd rfl hu
      · simpa [bare, hu] using ih' h
    | drop =>
      rcases List.mem_cons.1 hm with h | h
      · cases h; cases hx
      · simpa [bare] using ih' h
    | enter _ =>
      rcases List.mem_cons.1 hm with h | h
      · cases h; cases hx
      · simpa [bare] using ih' h
    | leave =>
      rcases List.mem_cons.1 hm with h | h
      · cases h; cases hx
      · simpa [bare] using ih' h
    | @api d _ x' n1 n2 n3 h3 =>
      rcases List.mem_cons.1 hm with h | h
      · cases h; rw [hx] at h3; cases h3
      · rw [bare_skip _ n1 n2 n3, if_pos (Or.inl (Nat.succ_pos d))]; exact ih' h
    | @user _ x' h3 _ =>
      rcases List.mem_cons.1 hm with h | h
      · cases h
        cases x <;> first | cases h3; done | cases hx; done
      · rw [bare_skip _ (by rintro _ _ rfl; cases h3) (by rintro _ rfl; cases h3) (by rintro _ _ rfl; cases h3), if_pos (Or.inr h3)]
        exact ih' h
    | @own _ x' _ n1 n2 n3 h3 _ =>
      rw [bare_skip _ n1 n2 n3, if_neg (by simp [h3])]
      rcases List.mem_cons.1 hm with h | h
      · cases h; exact List.mem_cons_self
      · exact List.mem_cons_of_mem _ (ih' h)

theorem open_from {t : Tid} {tr : List (Tid × Obs)} {ev : Ev} {y : Option Ev} (h : tr.foldl (openStep t m) y = some ev) :
    (y = some ev ∧ ∀ ev', (t, Obs.done m ev') ∉ tr) ∨ ∃ a q b, tr = a ++ (t, .taken q m ev) :: b ∧ ∀ ev', (t, Obs.done m ev') ∉ b := by
  induction tr generalizing y with
  | nil => exact .inl ⟨h, by simp⟩
  | cons e tr ih =>
    rw [List.foldl_cons] at h
    rcases ih h with ⟨h1, h2⟩ | ⟨a, q, b, h1, h2⟩
    · have keep : openStep t m y e = y → (∀ ev', e ≠ (t, Obs.done m ev')) → y = some ev ∧ ∀ ev', (t, Obs.done m ev') ∉ e :: tr := by
        intro h3 h4
        refine ⟨h3 ▸ h1, fun ev' hm => ?_⟩
        rcases List.mem_cons.1 hm with hm | hm
        · exact h4 ev' hm.symm
        · exact h2 ev' hm
      obtain ⟨u, o⟩ := e
      cases o with
      | taken q m' ev' =>
        simp only [openStep] at h1 keep
        split at h1
        next hc => cases h1; obtain ⟨rfl, rfl⟩ := hc; exact .inr ⟨[], q, tr, rfl, h2⟩
        next hc => exact .inl (keep (if_neg hc) (by simp))
      | done m' ev' =>
        simp only [openStep] at h1 keep
        split at h1
        · cases h1
        next hc => exact .inl (keep (if_neg hc) (fun ev'' he => by cases he; exact hc ⟨rfl, rfl⟩))
      | _ => exact .inl (keep rfl (by simp))
    · exact .inr ⟨e :: a, q, b, by rw [h1]; rfl, h2⟩

theorem open_split {t : Tid} {tr : List (Tid × Obs)} {ev : Ev} (h : openEv t m tr = some ev) :
    ∃ a q b, tr = a ++ (t, .taken q m ev) :: b ∧ ∀ ev', (t, Obs.done m ev') ∉ b := by
  rcases open_from h with ⟨h, _⟩ | h
  · cases h
  · exact h

theorem cur_notify {cs : List Cb} {ev : Ev} {os : List Obs} {x : Option Exc} {b : St} (h : Notify m ev cs os x) : Obs.cur m b false ∉ os := by
  have hs : ∀ cs : List Cb, Obs.cur m b false ∉ Spec.shown cs := by
    intro cs hm
    obtain ⟨c, _, hc⟩ := List.mem_flatMap.1 hm
    simp at hc
  cases h with
  | completed => exact hs cs
  | @failed cs1 c cs2 x' os' r _ hr =>
    intro hm
    simp only [List.mem_append, List.mem_cons, List.not_mem_nil, or_false] at hm
    rcases hm with (hm | hm) | hm
    · exact hs _ hm
    · rcases hm with hm | hm <;> cases hm
    · cases hr with
      | told _ => simp at hm
      | untold _ => cases hm

theorem drain_depth {cfg : Cfg} {t : Tid} {tr : List (Tid × Obs)} {g g' : G} {x : Obs} (hr : run cfg t g ((t, x) :: tr) = some g')
    (hx : onlyDrain x = true) : g.depth = 0 := by
  obtain ⟨g1, h4, _⟩ := mon_cons hr
  obtain ⟨mem, d, md⟩ := g
  obtain ⟨mem1, d1, md1⟩ := g1
  obtain ⟨_, hst⟩ := mstep_of h4
  simp only at hst ⊢
  generalize he : (t, x) = e at hst
  cases hst with
  | other hu => cases he; exact absurd rfl hu
  | drop => cases he; cases hx
  | enter _ => cases he; cases hx
  | leave => cases he; cases hx
  | api _ _ _ h5 => cases he; rw [hx] at h5; cases h5
  | user h5 => rfl
  | own => rfl

/-- Every state change of event processing is a state change of a transition. -/
theorem entered_any (hv : Served r m) {P : List (Tid × Obs)} (hs : Smooth r m P) (h0 : openEv (env.workerOf m) m P = none) {i : Nat}
    {u : Tid} {b : St} {tr post : List (Tid × Obs)} (h : (r.conf i).w.trace = P ++ tr ++ (u, .cur m b false) :: post) :
    ∃ a ev s b' mid p1 p2, Step r m s ev b' (P ++ a) mid ∧ u = env.workerOf m ∧
      tr = a ++ (env.workerOf m, .taken (env.qm m) m ev) :: p1 ∧ mid = p1 ++ (env.workerOf m, .cur m b false) :: p2 ∧
      (b = b' ∨ b = (env.mach m).res.endSt) := by
  have ha := hv.alone
  obtain ⟨g, h1, _, _, h2, _, g', h3⟩ := history_open ha.priv r.init (r.reach_conf i) u h
  have hd : apiDepth u (P ++ tr) = 0 := by rw [← h2]; exact drain_depth h3 rfl
  obtain ⟨rfl, ev, h4, _⟩ := C15_only_for_the_event ha r.init (r.reach_conf i) h hd rfl (by simp [concerns])
  obtain ⟨a0, q, p1, h5, h6⟩ := open_split h4
  have h7 : (r.conf i).w.trace = a0 ++ (env.workerOf m, .taken q m ev) :: (p1 ++ (env.workerOf m, .cur m b false) :: post) := by
    rw [h, h5]; simp
  obtain ⟨rfl, _⟩ := at_taken ha.priv r.init (r.reach_conf i) h7
  -- the event was taken after `P`
  obtain ⟨a, rfl⟩ : ∃ a, a0 = P ++ a := by
    rcases List.append_eq_append_iff.1 h5 with ⟨a', h8, h9⟩ | ⟨a', h8, h9⟩
    · exact ⟨a', h8⟩
    · cases a' with
      | nil => exact ⟨[], by simpa using h8.symm⟩
      | cons e a' =>
        obtain ⟨rfl, h10⟩ := List.cons.inj h9
        have h10 : p1 = a' ++ tr := h10
        exfalso
        rw [h8] at h0
        have : openEv (env.workerOf m) m (a0 ++ (env.workerOf m, .taken (env.qm m) m ev) :: a') = some ev := by
          have hn : ∀ ev', (env.workerOf m, Obs.done m ev') ∉ a' := fun ev' hm => h6 ev' (by rw [h10]; exact List.mem_append_left _ hm)
          have hgen : ∀ (l : List (Tid × Obs)), (∀ ev', (env.workerOf m, Obs.done m ev') ∉ l) → ∀ y : Option Ev, y.isSome = true →
              (l.foldl (openStep (env.workerOf m) m) y).isSome = true := by
            intro l
            induction l with
            | nil => intro _ y hy; exact hy
            | cons e l ih =>
              intro hl y hy
              refine ih (fun ev' hm => hl ev' (List.mem_cons_of_mem _ hm)) _ ?_
              obtain ⟨u, o⟩ := e
              cases o with
              | taken q m' ev' => simp only [openStep]; split <;> first | rfl | exact hy
              | done m' ev' =>
                simp only [openStep]
                split
                next hc => obtain ⟨rfl, rfl⟩ := hc; exact absurd List.mem_cons_self (hl ev')
                · exact hy
              | _ => exact hy
          have := hgen a' hn (some ev) rfl
          unfold openEv
          rw [List.foldl_append, List.foldl_cons]
          have he : openStep (env.workerOf m) m (List.foldl (openStep (env.workerOf m) m) none a0) (env.workerOf m, .taken (env.qm m) m ev) = some ev := by
            simp [openStep]
          rw [he]
          unfold openEv at h0
          rw [List.foldl_append, List.foldl_cons, he] at h0
          rw [h0] at this
          cases this
        rw [this] at h0
        cases h0
  have htr : tr = a ++ (env.workerOf m, .taken (env.qm m) m ev) :: p1 := by
    have := h5
    rw [List.append_assoc] at this
    exact List.append_cancel_left this
  obtain ⟨j, mid, rest, hij, h8, h9, h10, _⟩ := is_event ha h7 (hv.fair _) hv.returns
  -- it is finished after the state change
  obtain ⟨p2, hp2⟩ : ∃ p2, mid = p1 ++ (env.workerOf m, .cur m b false) :: p2 := by
    obtain ⟨z, hz⟩ := Course.grows_le r hij
    rw [h7, h8] at hz
    have hz : p1 ++ (env.workerOf m, Obs.cur m b false) :: (post ++ z) = mid ++ (env.workerOf m, Obs.done m ev) :: rest := by
      have : (P ++ a) ++ ((env.workerOf m, Obs.taken (env.qm m) m ev) :: (p1 ++ (env.workerOf m, Obs.cur m b false) :: (post ++ z))) =
          (P ++ a) ++ ((env.workerOf m, Obs.taken (env.qm m) m ev) :: (mid ++ (env.workerOf m, Obs.done m ev) :: rest)) := by
        rw [← hz]; simp
      exact (List.cons.inj (List.append_cancel_left this)).2
    rcases List.append_eq_append_iff.1 hz with ⟨a', h11, h12⟩ | ⟨a', h11, h12⟩
    · cases a' with
      | nil => cases h12
      | cons e a' => obtain ⟨rfl, h12⟩ := List.cons.inj h12; exact ⟨a', h11⟩
    · cases a' with
      | nil => cases h12
      | cons e a' =>
        obtain ⟨rfl, h12⟩ := List.cons.inj h12
        exact absurd (by rw [h11]; simp) (h6 ev)
  have hp := Settle.processing ha hs h8 h9
  have hbare : Obs.cur m b false ∈ bare (env.workerOf m) 0 mid := by
    obtain ⟨_, _, _, _, _, g', h11⟩ := at_taken ha.priv r.init (r.reach_conf j) h8
    obtain ⟨g1, h12, _⟩ := mon_split h11
    exact bare_of_drain h12 rfl (by rw [hp2]; simp)
  obtain ⟨x, hh, _⟩ := hp.handles
  generalize hos : bare (env.workerOf m) 0 mid = os at hh
  rw [hos] at hbare
  cases hh with
  | over => cases hbare
  | stays _ _ _ hn => exact absurd hbare (cur_notify hn)
  | unmapped _ _ _ hn => exact absurd hbare (cur_notify hn)
  | nowhere _ _ => simp at hbare
  | @moves s b' os x he hc hg _ =>
    have hst : (machAt (r.conf 0) m (P ++ a)).st = ⟨some s, false⟩ := by
      unfold Mem.st; rw [he, hc]
    have hbb := completes ha hs h8 h9 hst hg
    rw [← hos, hbb] at hbare
    have : b = b' ∨ b = (env.mach m).res.endSt := by
      have hsh : ∀ cs : List Cb, Obs.cur m b false ∉ Spec.shown cs := by
        intro cs hm
        obtain ⟨c, _, hc⟩ := List.mem_flatMap.1 hm
        simp at hc
      simp only [List.mem_append, hsh, false_or, or_false] at hbare
      rcases hbare with hm | hm
      · exact .inl (by simpa [Desc.change, Env.desc] using hm)
      · unfold Desc.ending at hm
        split at hm
        · simp [Env.desc] at hm; exact .inr hm
        · cases hm
    exact ⟨a, ev, s, b', mid, p1, p2, ⟨⟨j, rest, h8⟩, h9, h10, hst, hg⟩, rfl, htr, hp2, this⟩

theorem entered (hv : Served r m) {P : List (Tid × Obs)} (hs : Smooth r m P) (h0 : openEv (env.workerOf m) m P = none) {i : Nat}
    {u : Tid} {b : St} {tr post : List (Tid × Obs)} (h : (r.conf i).w.trace = P ++ tr ++ (u, .cur m b false) :: post)
    (hb : b ≠ (env.mach m).res.endSt) :
    ∃ a ev s mid p1 p2, Step r m s ev b (P ++ a) mid ∧ u = env.workerOf m ∧
      tr = a ++ (env.workerOf m, .taken (env.qm m) m ev) :: p1 ∧ mid = p1 ++ (env.workerOf m, .cur m b false) :: p2 := by
  obtain ⟨a, ev, s, b', mid, p1, p2, h1, h2, h3, h4, rfl | h5⟩ := entered_any hv hs h0 h
  · exact ⟨a, ev, s, mid, p1, p2, h1, h2, h3, h4⟩
  · exact absurd h5 hb

theorem shown_cur {cs : List Cb} {b : St} : Obs.cur m b false ∉ Spec.shown cs := by
  intro hm
  obtain ⟨c, _, hc⟩ := List.mem_flatMap.1 hm
  simp at hc

theorem split_unique {α : Type} {x : α} {a b c d : List α} (h : a ++ x :: b = c ++ x :: d) (hc : x ∉ c) (hd : x ∉ d) : a = c ∧ b = d := by
  rcases List.append_eq_append_iff.1 h with ⟨e, rfl, h2⟩ | ⟨e, rfl, h2⟩
  · cases e with
    | nil => simpa using h2
    | cons y e =>
      obtain ⟨rfl, -⟩ := List.cons.inj h2
      exact absurd (by simp) hc
  · cases e with
    | nil => simpa [eq_comm] using h2
    | cons y e =>
      have h3 : d = e ++ x :: b := (List.cons.inj h2).2
      exact absurd (by rw [h3]; simp) hd

/-- What happens after the state change. -/
theorem Step.bare_after {s b : St} {ev : Ev} {P p1 p2 : List (Tid × Obs)} (h : Step r m s ev b P (p1 ++ (env.workerOf m, .cur m b false) :: p2))
    (ha : Alone env m) (hs : Smooth r m P) (h2 : (env.desc m).final b = false) :
    Spec.bare (env.workerOf m) 0 p2 = Spec.shown ((env.desc m).afterwards (machAt (r.conf 0) m P).lst.isSome s ev b) := by
  obtain ⟨j, rest, h3⟩ := h.at_
  obtain ⟨_, g, _, _, _, g', h4⟩ := at_taken ha.priv r.init (r.reach_conf j) h3
  rw [List.append_assoc] at h4
  obtain ⟨g1, h5, h6⟩ := mon_split h4
  have hd := drain_depth h6 rfl
  have hok : ModeOk (monCfg env m).d.m (.busy ev (planNow (monCfg env m).d (machAt (r.conf 0) m P) ev) false) := fun c hc => planNow_for hc
  have h7 := (run_open (cfg := monCfg env m) hok h5).2.2
  rw [hd] at h7
  have h8 := h.bare ha hs
  rw [Verif.bare_append, ← h7] at h8
  have h9 : Spec.bare (env.workerOf m) 0 ((env.workerOf m, Obs.cur m b false) :: p2) = .cur m b false :: Spec.bare (env.workerOf m) 0 p2 := by
    simp [Spec.bare, Spec.Calls.userObs]
  rw [h9] at h8
  have h10 : (env.desc m).ending b = [] := by unfold Desc.ending; simp [h2]
  rw [h10, List.append_nil] at h8
  have h11 := split_unique (x := Obs.cur m b false) (c := Spec.shown ((env.desc m).before (machAt (r.conf 0) m P).lst.isSome s ev b) ++
    [.upd m b (b.name == resEnd) false]) (d := Spec.shown ((env.desc m).afterwards (machAt (r.conf 0) m P).lst.isSome s ev b))
    (by rw [h8]; simp [Desc.change, Env.desc]) (by simp [shown_cur]) shown_cur
  exact h11.2

/-- Not more events are taken than have been accepted. -/
theorem taken_le (ha : Alone env m) {i : Nat} {P tr : List (Tid × Obs)} (h : (r.conf i).w.trace = P ++ tr) :
    (taken (env.qm m) P).length ≤ (accepted (env.qm m) P).length := by
  generalize hn : P.length = n
  induction n generalizing P tr with
  | zero => rw [List.eq_nil_of_length_eq_zero hn]; simp [taken]
  | succ n ih =>
    obtain ⟨Q, ⟨t, x⟩, rfl⟩ : ∃ Q e, P = Q ++ [e] := ⟨P.dropLast, P.getLast (by rintro rfl; cases hn), (List.dropLast_concat_getLast _).symm⟩
    by_cases ht : t = .env
    · subst ht
      have h1 := ih (P := Q) (tr := (.env, x) :: tr) (by rw [h]; simp) (by simpa using hn)
      have h2 : taken (env.qm m) [(.env, x)] = [] := by
        cases x with
        | taken q m' ev' =>
          by_cases hq : q = env.qm m
          · subst hq
            have h3 := taken_own ha.priv r.init (r.reach_conf i) (e := (ev', m')) (pre := Q) (tr := (.env, .taken (env.qm m) m' ev') :: tr) (by rw [h]; simp)
              (by simp [taken])
            simp only at h3
            rw [h3] at h
            have := taken_worker ha r.init (r.reach_conf i) (t := .env) (q := env.qm m) (ev := ev') (by rw [h]; simp)
            cases this
          · simp [taken, hq]
        | _ => rfl
      simp only [taken, accepted, List.filterMap_append, List.length_append] at h1 h2 ⊢
      rw [h2]
      simp only [List.length_nil]
      omega
    · obtain ⟨j, _, _, _, h1⟩ := Course.entry_time r i (pre := Q) (x := x) (post := tr) ht (by rw [h]; simp)
      have := congrArg List.length (Course.pos_fifo r (j + 1) (env.qm m))
      rw [h1] at this
      simp only [List.length_append] at this
      omega

end Verif.Settle
