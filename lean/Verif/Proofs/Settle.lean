import Verif.Props.Live
import Verif.Props.Lifecycle
/-
An accepted event that is mapped in the current state makes the machine leave that state in the end.
-/

namespace Verif.Settle
open Spec (Run Desc MSt bare meddles openEv openStep apiDepth takenOf IsEvent accepted taken)
open Spec.Mon

variable {env : Env} {r : Run env} {m : MId}

/-- From the history `P` on, nobody starts or stops the machine or replaces its listener, and its user code does not throw. -/
structure Smooth (r : Run env) (m : MId) (P : List (Tid × Obs)) : Prop where
  calm : ∀ j tr, (r.conf j).w.trace = P ++ tr → ∀ e ∈ tr, meddles m e.2 = false
  quiet : ∀ j tr, (r.conf j).w.trace = P ++ tr → ∀ u c x, (u, Obs.cbRet c (some x)) ∈ tr → Spec.Calls.cbMach c ≠ some m

theorem Smooth.later {P Q : List (Tid × Obs)} (h : Smooth r m P) : Smooth r m (P ++ Q) where
  calm := fun j tr he e hm => h.calm j (Q ++ tr) (by rw [he]; simp) e (List.mem_append_right _ hm)
  quiet := fun j tr he u c x hm => h.quiet j (Q ++ tr) (by rw [he]; simp) u c x (List.mem_append_right _ hm)

/-- No event is in processing when one is taken. -/
theorem rest_taken (ha : Alone env m) {c0 c : Conf} (hi : Initial c0) (hr : ReachFrom env c0 c) {t : Tid} {q : QId} {ev : Ev}
    {pre post : List (Tid × Obs)} (h : c.w.trace = pre ++ (t, .taken q m ev) :: post) : openEv t m pre = none := by
  obtain ⟨_, g, h1, h2, _⟩ := at_taken ha.priv hi hr h
  obtain ⟨g', h3, _, h4, _⟩ := history_open ha.priv hi hr t h
  rw [h1] at h3; cases h3
  rw [← h4, h2]; rfl

/-- An event that was taken is finished. -/
theorem is_event (ha : Alone env m) {i : Nat} {t : Tid} {q : QId} {ev : Ev} {pre post : List (Tid × Obs)}
    (h : (r.conf i).w.trace = pre ++ (t, .taken q m ev) :: post) (hf : r.fair t) (hu : r.returns t) :
    ∃ j mid rest, i ≤ j ∧ (r.conf j).w.trace = pre ++ (t, .taken q m ev) :: (mid ++ (t, .done m ev) :: rest) ∧
      (∀ m' ev', (t, Obs.done m' ev') ∉ mid) ∧ (∀ q' m' ev', (t, Obs.taken q' m' ev') ∉ mid) ∧
      openEv t m (pre ++ (t, .taken q m ev) :: (mid ++ [(t, .done m ev)])) = none := by
  obtain ⟨j, mid, h1, h2, h3⟩ := C59_done h hf hu
  obtain ⟨m1, m2, rfl⟩ := List.append_of_mem h3
  have ht : t ≠ .env := by
    rintro rfl
    have := taken_worker ha r.init (r.reach_conf i) (t := .env) (q := q) (ev := ev) (by rw [h]; simp)
    cases this
  obtain ⟨j0, hj0, _, _, h4⟩ := Course.entry_time (pre := pre ++ (t, .taken q m ev) :: m1) (post := m2) (x := .done m ev) r j ht (by rw [h2]; simp)
  have h5 : (r.conf (j0 + 1)).w.trace = pre ++ (t, .taken q m ev) :: (m1 ++ [(t, .done m ev)]) := by rw [h4]; simp
  obtain ⟨_, g, _, _, _, g', h6⟩ := at_taken ha.priv r.init (r.reach_conf _) h5
  have hok : ModeOk (monCfg env m).d.m (.busy ev (planNow (monCfg env m).d (machAt (r.conf 0) m pre) ev) false) := fun c hc => planNow_for hc
  have h7 := (run_open (cfg := monCfg env m) hok h6).2.1
  obtain ⟨mid', post', h8, h9, h10, -⟩ := busy_done (cfg := monCfg env m) (ev := ev) hok rfl h6 (by
    rw [h7, List.foldl_append]
    show openStep t m _ (t, .done m ev) = none
    simp [openStep])
  obtain ⟨a, ha'⟩ := Course.grows_le r (show j0 + 1 ≤ j from hj0)
  refine ⟨j, mid', post' ++ a, h1, ?_, h10, h9, ?_⟩
  · rw [← ha', h5, h8]; simp [monCfg, desc]
  · unfold openEv
    rw [List.foldl_append, List.foldl_cons, List.foldl_append]
    simp [openStep]

/-- The state when no event is in processing. -/
theorem state_at (ha : Alone env m) {P tr : List (Tid × Obs)} (hs : Smooth r m P) {j : Nat} (h : (r.conf j).w.trace = P ++ tr)
    (h0 : openEv (env.workerOf m) m P = none) (h1 : openEv (env.workerOf m) m (P ++ tr) = none) :
    (machAt (r.conf 0) m (P ++ tr)).st = (takenOf m tr).foldl (env.desc m).next (machAt (r.conf 0) m P).st := by
  rw [← C17_fold ha r.init (r.reach_conf j) h rfl h0 h1 (hs.calm j tr h) (fun c x hm => hs.quiet j tr h _ c x hm)]
  have := world_mem (m0 := m) ha.priv r.init (r.reach_conf j)
  rw [← h, ← this]; rfl

theorem takenOf_split {m : MId} {tr : List (Tid × Obs)} {l1 l2 : List Ev} {ev : Ev} (h : takenOf m tr = l1 ++ ev :: l2) :
    ∃ a t q b, tr = a ++ (t, .taken q m ev) :: b ∧ takenOf m a = l1 := by
  induction tr generalizing l1 with
  | nil => cases l1 <;> cases h
  | cons e tr ih =>
    rw [takenOf_cons] at h
    cases hc : takenOf m [e] with
    | nil =>
      rw [hc] at h
      obtain ⟨a, t, q, b, h1, h2⟩ := ih h
      exact ⟨e :: a, t, q, b, by rw [h1]; rfl, by rw [takenOf_cons, hc, h2]; rfl⟩
    | cons x xs =>
      obtain ⟨u, o⟩ := e
      have hx : ∃ q, o = .taken q m x ∧ xs = [] := by
        cases o with
        | taken q m' ev' =>
          simp only [takenOf, List.filterMap_cons, List.filterMap_nil] at hc
          split at hc
          · cases hc
          next y hy =>
            split at hy
            next hm => cases hy; cases hc; exact ⟨q, by rw [hm], rfl⟩
            · cases hy
        | _ => cases hc
      obtain ⟨q, rfl, rfl⟩ := hx
      rw [hc] at h
      cases l1 with
      | nil => cases h; exact ⟨[], u, q, tr, rfl, rfl⟩
      | cons y l1 =>
        obtain ⟨rfl, h'⟩ := List.cons.inj h
        obtain ⟨a, t, q', b, h1, h2⟩ := ih h'
        exact ⟨(u, .taken q m x) :: a, t, q', b, by rw [h1]; rfl, by rw [takenOf_cons, hc, h2]; rfl⟩

/-- The first event of a list that changes the state. -/
theorem first_change {d : Desc} {x : MSt} {l : List Ev} {ev : Ev} (hm : ev ∈ l) (hc : d.next x ev ≠ x) :
    ∃ l1 e l2, l = l1 ++ e :: l2 ∧ l1.foldl d.next x = x ∧ d.next x e ≠ x := by
  induction l with
  | nil => cases hm
  | cons e l ih =>
    by_cases he : d.next x e = x
    · rcases List.mem_cons.1 hm with rfl | hm
      · exact absurd he hc
      · obtain ⟨l1, e', l2, h1, h2, h3⟩ := ih hm
        exact ⟨e :: l1, e', l2, by rw [h1]; rfl, by rw [List.foldl_cons, he, h2], h3⟩
    · exact ⟨[], e, l, rfl, rfl, he⟩

theorem taken_mem {t : Tid} {q : QId} {ev : Ev} {a b : List (Tid × Obs)} : ev ∈ takenOf m (a ++ (t, .taken q m ev) :: b) := by
  simp [takenOf]

/-- An event that would change the state has been taken: the state was left with some event. -/
theorem left_with (ha : Alone env m) {P tr : List (Tid × Obs)} (hs : Smooth r m P) {j : Nat} (h : (r.conf j).w.trace = P ++ tr)
    (h0 : openEv (env.workerOf m) m P = none) {ev : Ev} (hm : ev ∈ takenOf m tr)
    (hc : (env.desc m).next (machAt (r.conf 0) m P).st ev ≠ (machAt (r.conf 0) m P).st) :
    ∃ a ev' b, tr = a ++ (env.workerOf m, .taken (env.qm m) m ev') :: b ∧
      (machAt (r.conf 0) m (P ++ a)).st = (machAt (r.conf 0) m P).st ∧
      (env.desc m).next (machAt (r.conf 0) m P).st ev' ≠ (machAt (r.conf 0) m P).st := by
  obtain ⟨l1, e, l2, h1, h2, h3⟩ := first_change hm hc
  obtain ⟨a, t, q, b, h4, h5⟩ := takenOf_split h1
  have hw := taken_worker ha r.init (r.reach_conf j) (t := t) (q := q) (ev := e) (by rw [h, h4]; simp)
  subst hw
  have h6 : (r.conf j).w.trace = (P ++ a) ++ (env.workerOf m, .taken q m e) :: b := by rw [h, h4]; simp
  obtain ⟨rfl, _⟩ := at_taken ha.priv r.init (r.reach_conf j) h6
  obtain ⟨j0, _, _, h7, _⟩ := Course.entry_time r j (by simp [Env.workerOf]) h6
  have h8 := state_at ha hs h7 h0 (rest_taken ha r.init (r.reach_conf j) h6)
  exact ⟨a, e, b, h4, by rw [h8, h5, h2], h3⟩

/-- What the table says, from the change of the state. -/
theorem goes_of_next {d : Desc} {x : MSt} {ev : Ev} (h : d.next x ev ≠ x) :
    x.ended = false ∧ ∃ a b, x.cur = some a ∧ d.reaction (some a) ev = .goes b := by
  unfold Desc.next at h
  cases he : x.ended with
  | true => rw [he] at h; exact absurd rfl h
  | false =>
    rw [he] at h
    cases hc : x.cur with
    | none => rw [hc] at h; exact absurd rfl h
    | some a =>
      rw [hc] at h
      refine ⟨rfl, a, ?_⟩
      simp only [Bool.false_eq_true, if_false] at h
      unfold Desc.reaction
      cases hr : d.table.row? (some a) with
      | none => rw [hr] at h; exact absurd rfl h
      | some row =>
        rw [hr] at h
        simp only at h ⊢
        cases ht : row.target (some ev.key) with
        | none => rw [ht] at h; exact absurd rfl h
        | some b =>
          rw [ht] at h
          simp only at h ⊢
          by_cases hb : b.name = resNoop
          · rw [if_pos hb] at h; exact absurd rfl h
          · exact ⟨b, trivial, by rw [if_neg hb]⟩

theorem next_of_goes {d : Desc} {a b : St} {ev : Ev} (h : d.reaction (some a) ev = .goes b) (hab : b ≠ a) :
    d.next ⟨some a, false⟩ ev ≠ ⟨some a, false⟩ := by
  unfold Desc.reaction at h
  cases hr : d.table.row? (some a) with
  | none => rw [hr] at h; cases h
  | some row =>
    rw [hr] at h
    simp only at h
    cases ht : row.target (some ev.key) with
    | none => rw [ht] at h; cases h
    | some b' =>
      rw [ht] at h
      simp only at h
      by_cases hb : b'.name = resNoop
      · rw [if_pos hb] at h; cases h
      · rw [if_neg hb] at h
        cases h
        simp only [Desc.next, Bool.false_eq_true, if_false, hr, ht, if_neg hb]
        split
        · intro h; cases h
        · split
          · intro h; cases h
          · intro h; cases h; exact hab rfl

/-- The machine is looked after: its queue has an executor of its own, no thread is neglected, user code called in its worker returns,
and no task is refused or thrown away. -/
structure Served (r : Run env) (m : MId) : Prop where
  alone : Alone env m
  thread : 0 < env.width (env.strat (env.mach m).strat).exec
  own : ∀ s, (env.strat s).exec = (env.strat (env.mach m).strat).exec ↔ (env.strat s).queue = env.qm m
  fair : ∀ t, r.fair t
  executes : r.executes (env.strat (env.mach m).strat).exec
  returns : r.returns (env.workerOf m)
  kept : ∀ i, ∀ x ∈ (r.conf i).w.trace, ∀ s m', (env.strat s).queue = env.qm m → x.2 ≠ .rejected s m' ∧ x.2 ≠ .taskDropped s m'

theorem Served.processed (hv : Served r m) {i : Nat} {u : Tid} {ev : Ev} {past post : List (Tid × Obs)}
    (h : (r.conf i).w.trace = past ++ (u, .accepted (env.qm m) m ev) :: post) :
    ∃ j pre mid, (r.conf j).w.trace = pre ++ (env.workerOf m, .taken (env.qm m) m ev) :: mid ∧
      (taken (env.qm m) pre).length = (accepted (env.qm m) past).length := by
  obtain ⟨j, k, pre, mid, h1, h2, _⟩ := C59_processed hv.fair hv.executes hv.thread (fun k hk => by
    have := hv.alone.single
    obtain rfl : k = 0 := by omega
    exact hv.returns) hv.own hv.kept h
  have := taken_worker hv.alone r.init (r.reach_conf j) (q := env.qm m) (ev := ev) (t := .worker (env.strat (env.mach m).strat).exec k) (by rw [h1]; simp)
  rw [this] at h1
  exact ⟨j, pre, mid, h1, h2⟩

/-- Two pieces of histories of one execution. -/
theorem comparable {i j : Nat} {a b x y : List (Tid × Obs)} (h1 : (r.conf i).w.trace = a ++ x) (h2 : (r.conf j).w.trace = b ++ y)
    (hl : a.length ≤ b.length) : ∃ c, b = a ++ c := by
  obtain ⟨u, hu⟩ := Course.grows_le r (Nat.le_max_left i j)
  obtain ⟨v, hv⟩ := Course.grows_le r (Nat.le_max_right i j)
  rw [h1] at hu
  rw [h2] at hv
  have h3 : a <+: (r.conf (max i j)).w.trace := ⟨x ++ u, by rw [← hu]; simp⟩
  have h4 : b <+: (r.conf (max i j)).w.trace := ⟨y ++ v, by rw [← hv]; simp⟩
  obtain ⟨c, hc⟩ := List.prefix_of_prefix_length_le h3 h4 hl
  exact ⟨c, hc.symm⟩

/-- A state is left in the end if an event that is mapped in it has been accepted and not been taken before the state was entered. -/
theorem leaves (hv : Served r m) {P tr : List (Tid × Obs)} (hs : Smooth r m P) {i0 : Nat} (hP : (r.conf i0).w.trace = P ++ tr)
    (h0 : openEv (env.workerOf m) m P = none) {s b : St} (hst : (machAt (r.conf 0) m P).st = ⟨some s, false⟩)
    {i : Nat} {u : Tid} {ev : Ev} {past post : List (Tid × Obs)} (h : (r.conf i).w.trace = past ++ (u, .accepted (env.qm m) m ev) :: post)
    (hlate : (taken (env.qm m) P).length ≤ (accepted (env.qm m) past).length)
    (hg : (env.desc m).reaction (some s) ev = .goes b) (hb : b ≠ s) :
    ∃ j a ev' b' mid rest, (r.conf j).w.trace = P ++ a ++ (env.workerOf m, .taken (env.qm m) m ev') :: (mid ++ (env.workerOf m, .done m ev') :: rest) ∧
      (∀ m' ev', (env.workerOf m, Obs.done m' ev') ∉ mid) ∧ (machAt (r.conf 0) m (P ++ a)).st = ⟨some s, false⟩ ∧
      (env.desc m).reaction (some s) ev' = .goes b' ∧
      openEv (env.workerOf m) m (P ++ a ++ (env.workerOf m, .taken (env.qm m) m ev') :: (mid ++ [(env.workerOf m, .done m ev')])) = none := by
  obtain ⟨j, pre, mid, h1, h2⟩ := hv.processed h
  have hle : P.length ≤ pre.length := by
    refine Classical.byContradiction fun hn => ?_
    obtain ⟨c, hc⟩ := comparable (a := pre ++ [(env.workerOf m, .taken (env.qm m) m ev)]) (x := mid) (by rw [h1]; simp) hP (by simp; omega)
    rw [hc] at hlate
    simp [taken] at hlate h2
    omega
  obtain ⟨c, rfl⟩ := comparable hP h1 hle
  obtain ⟨a, ev', b0, h3, h4, h5⟩ := left_with hv.alone hs (j := j) (tr := c ++ (env.workerOf m, .taken (env.qm m) m ev) :: mid) (by rw [h1]; simp) h0
    (ev := ev) taken_mem (by rw [hst]; exact next_of_goes hg hb)
  rw [hst] at h4 h5
  obtain ⟨_, s', b', h6, h7⟩ := goes_of_next h5
  cases h6
  have h8 : (r.conf j).w.trace = (P ++ a) ++ (env.workerOf m, .taken (env.qm m) m ev') :: b0 := by
    rw [h1, List.append_assoc, h3]; simp
  obtain ⟨j', mid', rest, _, h9, h10, _, h11⟩ := is_event hv.alone h8 (hv.fair _) hv.returns
  exact ⟨j', a, ev', b', mid', rest, h9, h10, h4, h7, h11⟩

section
variable {P a mid rest : List (Tid × Obs)} {ev : Ev} {s b : St} {j : Nat}

theorem processing (ha : Alone env m) (hs : Smooth r m P)
    (h : (r.conf j).w.trace = P ++ a ++ (env.workerOf m, .taken (env.qm m) m ev) :: (mid ++ (env.workerOf m, .done m ev) :: rest))
    (hn : ∀ m' ev', (env.workerOf m, Obs.done m' ev') ∉ mid) :
    Processing env (r.conf 0) (r.conf j) (env.workerOf m) m ev (P ++ a) mid rest where
  alone := ha
  init := r.init
  reach := r.reach_conf j
  event := ⟨⟨_, _, _, h⟩, hn⟩
  calm := fun e he => hs.calm j (a ++ (env.workerOf m, .taken (env.qm m) m ev) :: (mid ++ (env.workerOf m, .done m ev) :: rest))
    (by rw [h]; simp) e (by simp [he])

theorem cb_of_before {d : Desc} {l : Bool} {c : Cb} (h : c ∈ d.before l s ev b) : Spec.Calls.cbMach c = some d.m := by
  unfold Desc.before at h
  rcases List.mem_append.1 h with h | h
  · split at h
    · rw [List.mem_singleton.1 h]; rfl
    · cases h
  · obtain ⟨i, _, rfl⟩ := List.mem_map.1 h; rfl

theorem cb_of_after {d : Desc} {l : Bool} {c : Cb} (h : c ∈ d.afterwards l s ev b) : Spec.Calls.cbMach c = some d.m := by
  unfold Desc.afterwards at h
  rcases List.mem_append.1 h with h | h
  · obtain ⟨i, _, rfl⟩ := List.mem_map.1 h; rfl
  · split at h
    · rw [List.mem_singleton.1 h]; rfl
    · cases h

/-- A transition in smooth circumstances. -/
theorem completes (ha : Alone env m) (hs : Smooth r m P)
    (h : (r.conf j).w.trace = P ++ a ++ (env.workerOf m, .taken (env.qm m) m ev) :: (mid ++ (env.workerOf m, .done m ev) :: rest))
    (hn : ∀ m' ev', (env.workerOf m, Obs.done m' ev') ∉ mid) (hst : (machAt (r.conf 0) m (P ++ a)).st = ⟨some s, false⟩)
    (hg : (env.desc m).reaction (some s) ev = .goes b) :
    bare (env.workerOf m) 0 mid = Spec.shown ((env.desc m).before (machAt (r.conf 0) m (P ++ a)).lst.isSome s ev b) ++ (env.desc m).change b ++
      Spec.shown ((env.desc m).afterwards (machAt (r.conf 0) m (P ++ a)).lst.isSome s ev b) ++ (env.desc m).ending b := by
  have hp := processing ha hs h hn
  obtain ⟨x, h1⟩ := C16_transition hp (show (machAt (r.conf 0) m (P ++ a)).st.ended = false by rw [hst])
    (show (machAt (r.conf 0) m (P ++ a)).st.cur = some s by rw [hst]) hg
  have hq : ∀ c x, Obs.cbRet c (some x) ∈ bare (env.workerOf m) 0 mid → Spec.Calls.cbMach c ≠ some m := fun c x hm =>
    hs.quiet j (a ++ (env.workerOf m, .taken (env.qm m) m ev) :: (mid ++ (env.workerOf m, .done m ev) :: rest)) (by rw [h]; simp)
      (env.workerOf m) c x (by simp [mem_bare hm])
  generalize bare (env.workerOf m) 0 mid = os at h1 hq
  cases h1 with
  | completed => rfl
  | @failedBefore cs k cs' x os r hcs hrep => exact absurd (cb_of_before (c := k) (by rw [hcs]; simp)) (hq k x (by simp))
  | @failedAfter cs k cs' x os r hcs hrep => exact absurd (cb_of_after (c := k) (by rw [hcs]; simp)) (hq k x (by simp))

end

end Verif.Settle
