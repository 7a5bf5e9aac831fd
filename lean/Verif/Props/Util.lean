import Verif.Model.Util
/-
C37 - C40: HandleExceptionAction, MultiConsumerStateMachineListener, LoggingStateMachineListener, Threads.
-/

namespace Verif

namespace Spec

/-- `Runs p l o`: user code `p` can make the calls `l` (with these results) and end with outcome `o`, for some results of the
calls. -/
inductive Runs : UProg → List (Σ u : UCall, u.Res) → Except Exc Unit → Prop
  | done : Runs .done [] (.ok ())
  | thr (x : Exc) : Runs (.thr x) [] (.error x)
  | call {u : UCall} {k : u.Res → UProg} (r : u.Res) {l o} : Runs (k r) l o → Runs (.call u k) (⟨u, r⟩ :: l) o

/-- Is `l` a listener after the history? The last call that changed something decides. -/
def member (l : LId) : List Multi.Ev → Bool
  | [] => false
  | h => h.foldl (fun b e => if e = .add l true then true else if e = .remove l true then false else b) false

/-- The calls of consumer `l` in a history. -/
def called (l : LId) (h : List Multi.Ev) : Nat := h.count (.call l)

/-- The stretch belongs to one notification. -/
def within (h : List Multi.Ev) : Prop := .begin ∉ h ∧ ∀ r, .end_ r ∉ h

end Spec

/-! ### C37 -/

theorem Spec.Runs.note {n : Mark} {p : UProg} {l : List (Σ u : UCall, u.Res)} {o : Except Exc Unit} (h : Spec.Runs p l o) :
    Spec.Runs (.note n p) (⟨.note n, ()⟩ :: l) o := @Spec.Runs.call (.note n) (fun _ => p) () l o h

theorem Spec.runs_handle {p : UProg} {f : Except Exc Unit → UProg} {l : List (Σ u : UCall, u.Res)} {o : Except Exc Unit} :
    Spec.Runs (p.handle f) l o ↔ ∃ l1 l2 r, Spec.Runs p l1 r ∧ Spec.Runs (f r) l2 o ∧ l = l1 ++ l2 := by
  induction p generalizing l with
  | done =>
    constructor
    · intro h; exact ⟨[], l, _, .done, h, rfl⟩
    · rintro ⟨l1, l2, r, h1, h2, rfl⟩; cases h1; exact h2
  | thr x =>
    constructor
    · intro h; exact ⟨[], l, _, .thr x, h, rfl⟩
    · rintro ⟨l1, l2, r, h1, h2, rfl⟩; cases h1; exact h2
  | call u k ih =>
    constructor
    · intro h
      cases h with
      | call r h =>
        obtain ⟨l1, l2, r', h1, h2, rfl⟩ := (ih r).1 h
        exact ⟨_, l2, r', .call r h1, h2, rfl⟩
    · rintro ⟨l1, l2, r, h1, h2, rfl⟩
      cases h1 with
      | call r' h1 => exact .call r' ((ih r').2 ⟨_, l2, r, h1, h2, rfl⟩)

/-- **C37.** A run of a HandleExceptionAction is a run of the wrapped action; if that throws an `Exception`, followed by exactly
one run of the handler for it, whose outcome is the outcome; an `Error` propagates and the handler does not run. -/
theorem C37_handle_exception (action : UProg) (handler : Exc → UProg) (l : List (Σ u : UCall, u.Res)) (o : Except Exc Unit) :
    Spec.Runs (handleException action handler) l o ↔
      (Spec.Runs action l (.ok ()) ∧ o = .ok ()) ∨
      (∃ x, x.isException = false ∧ Spec.Runs action l (.error x) ∧ o = .error x) ∨
      (∃ x l1 l2, x.isException = true ∧ Spec.Runs action l1 (.error x) ∧ Spec.Runs (handler x) l2 o ∧ l = l1 ++ l2) := by
  unfold handleException
  rw [Spec.runs_handle]
  constructor
  · rintro ⟨l1, l2, r, h1, h2, rfl⟩
    cases r with
    | ok u => cases h2; exact .inl ⟨by rw [List.append_nil]; exact h1, rfl⟩
    | error x =>
      simp only at h2
      split at h2
      next hx => exact .inr (.inr ⟨x, l1, l2, hx, h1, h2, rfl⟩)
      next hx => cases h2; exact .inr (.inl ⟨x, by simpa using hx, by rw [List.append_nil]; exact h1, rfl⟩)
  · rintro (⟨h, rfl⟩ | ⟨x, hx, h, rfl⟩ | ⟨x, l1, l2, hx, h1, h2, rfl⟩)
    · exact ⟨l, [], _, h, .done, (List.append_nil _).symm⟩
    · refine ⟨l, [], _, h, ?_, (List.append_nil _).symm⟩
      simp only [hx, Bool.false_eq_true, if_false]
      exact .thr x
    · refine ⟨l1, l2, _, h1, ?_, rfl⟩
      simp only [hx, if_true]
      exact h2

/-- The executions of a HandleExceptionAction are those of try/catch. -/
theorem C37_denote (env : Env) (action : UProg) (handler : Exc → UProg) :
    (handleException action handler).denote env = (action.denote env).handle fun
      | .ok _ => .ret ()
      | .error x => if x.isException then (handler x).denote env else .thr x := by
  unfold handleException
  rw [UProg.denote_handle]
  congr 1
  funext r
  cases r with
  | ok u => rfl
  | error x => simp only; split <;> rfl

/-- An action that notes 1 and throws; the handler notes 2: both are seen, nothing is thrown. -/
example : Spec.Runs (handleException (.note 1 (.thr (.user 7))) fun _ => .note 2 .done)
    [⟨.note 1, ()⟩, ⟨.note 2, ()⟩] (.ok ()) :=
  (C37_handle_exception _ _ _ _).2 (.inr (.inr ⟨.user 7, [⟨.note 1, ()⟩], [⟨.note 2, ()⟩], rfl, .note (.thr _), .note .done, rfl⟩))

/-- An `Error` is not handled. -/
example : ∀ l o, Spec.Runs (handleException (.thr (.err 7)) fun _ => .note 2 .done) l o → l = [] ∧ o = .error (.err 7) := by
  intro l o h
  rcases (C37_handle_exception _ _ _ _).1 h with ⟨h, _⟩ | ⟨x, _, h, rfl⟩ | ⟨x, l1, l2, hx, h, _⟩
  · cases h
  · cases h; exact ⟨rfl, rfl⟩
  · cases h; simp [Exc.isException] at hx

/-! ### C38 -/

namespace Multi
open Spec (member called)

theorem member_snoc {l : LId} {h : List Ev} {e : Ev} : member l (h ++ [e]) =
    if e = .add l true then true else if e = .remove l true then false else member l h := by
  cases h with
  | nil => simp [member]
  | cons a h => simp [member, List.foldl_append]

theorem runs_inv {s : State} (h : List Ev) (hr : Runs .new h s) : (∀ l, l ∈ s.consumers ↔ member l h = true) ∧ s.consumers.Nodup := by
  generalize hs : State.new = s0 at hr
  induction hr with
  | nil => subst hs; simp [State.new, member]
  | snoc hr hst ih =>
    obtain ⟨ih, hn⟩ := ih
    cases hst with
    | addNew hl =>
      rename_i l
      refine ⟨fun k => ?_, List.nodup_cons.2 ⟨hl, hn⟩⟩
      simp only [member_snoc, List.mem_cons, ih]
      by_cases hk : l = k
      · simp [hk]
      · have : ¬k = l := fun h => hk h.symm
        simp [hk, this]
    | addOld hl => exact ⟨fun k => by simp [member_snoc, ih], hn⟩
    | removeOld hl =>
      rename_i l
      refine ⟨fun k => ?_, hn.filter _⟩
      simp only [member_snoc, List.mem_filter, ih]
      by_cases hk : l = k
      · simp [hk]
      · have : ¬k = l := fun h => hk h.symm
        simp [hk, this]
    | removeNew hl => exact ⟨fun k => by simp [member_snoc, ih], hn⟩
    | _ => exact ⟨fun k => by simpa [member_snoc] using ih k, hn⟩

/-- Everything known about a running notification that began after `h0`. -/
structure Track (h0 mid : List Ev) (i : Iter) : Prop where
  seen : ∀ l, called l mid = i.seen.count l
  nodup : i.seen.Nodup
  may : ∀ l, l ∈ i.may → ∃ m1, m1 <+: mid ∧ member l (h0 ++ .begin :: m1) = true
  seenMay : ∀ l, l ∈ i.seen → l ∈ i.may
  must : ∀ l, (∀ m1, m1 <+: mid → member l (h0 ++ .begin :: m1) = true) → l ∈ i.must ∨ l ∈ i.seen

theorem runs_snoc_inv {s s2 : State} {h : List Ev} {e : Ev} (hr : Runs s (h ++ [e]) s2) : ∃ s1, Runs s h s1 ∧ Step s1 e s2 := by
  generalize hh : h ++ [e] = h' at hr
  cases hr with
  | nil => simp at hh
  | snoc hr hst => obtain ⟨rfl, rfl⟩ := List.append_inj' hh rfl |>.imp id (fun h => (List.cons.inj h).1); exact ⟨_, hr, hst⟩

/-- What the state of the notification means. -/
def Tracked (h0 mid : List Ev) : Notif → Prop
  | .none => False
  | .iter i => Track h0 mid i
  | .inCall i _ => Track h0 mid i
  | .raising _ => ∃ i, Track h0 mid i

theorem Track.other {h0 mid : List Ev} {i : Iter} (h : Track h0 mid i) {e : Ev} (hc : ∀ l, e ≠ .call l) : Track h0 (mid ++ [e]) i := by
  refine ⟨fun l => ?_, h.nodup, fun l hl => ?_, h.seenMay, fun l hl => h.must l fun m1 hm => hl m1 (hm.trans (List.prefix_append _ _))⟩
  · rw [← h.seen l]; simp [called, List.count_append, hc l]
  · obtain ⟨m1, hm, hl⟩ := h.may l hl; exact ⟨m1, hm.trans (List.prefix_append _ _), hl⟩

theorem Track.added {h0 mid : List Ev} {i : Iter} (h : Track h0 mid i) (l : LId) :
    Track h0 (mid ++ [.add l true]) { i with may := l :: i.may } := by
  have h' := h.other (e := .add l true) (by simp)
  refine ⟨h'.seen, h.nodup, fun k hk => ?_, fun k hk => List.mem_cons_of_mem _ (h.seenMay k hk), h'.must⟩
  rcases List.mem_cons.1 hk with rfl | hk
  · refine ⟨_, List.prefix_refl _, ?_⟩
    rw [← List.cons_append, ← List.append_assoc, member_snoc, if_pos rfl]
  · exact h'.may k hk

theorem Track.removed {h0 mid : List Ev} {i : Iter} (h : Track h0 mid i) (l : LId) :
    Track h0 (mid ++ [.remove l true]) { i with must := i.must.filter (· ≠ l) } := by
  have h' := h.other (e := .remove l true) (by simp)
  refine ⟨h'.seen, h.nodup, h'.may, h.seenMay, fun k hk => ?_⟩
  have hkl : k ≠ l := by
    rintro rfl
    have := hk _ (List.prefix_refl _)
    rw [← List.cons_append, ← List.append_assoc, member_snoc] at this
    simp at this
  rcases h'.must k hk with h1 | h1
  · exact .inl (List.mem_filter.2 ⟨h1, by simpa using hkl⟩)
  · exact .inr h1

theorem Track.call {h0 mid : List Ev} {i : Iter} (h : Track h0 mid i) {l : LId} (hm : l ∈ i.may) (hs : l ∉ i.seen) :
    Track h0 (mid ++ [.call l]) ⟨i.must.filter (· ≠ l), i.may, l :: i.seen⟩ := by
  refine ⟨fun k => ?_, List.nodup_cons.2 ⟨hs, h.nodup⟩, fun k hk => ?_, fun k hk => ?_, fun k hk => ?_⟩
  · have := h.seen k
    simp only [called, List.count_append, List.count_cons, List.count_nil] at this ⊢
    rw [this]
    by_cases hkl : l = k <;> simp [hkl]
  · obtain ⟨m1, hm, hl⟩ := h.may k hk; exact ⟨m1, hm.trans (List.prefix_append _ _), hl⟩
  · rcases List.mem_cons.1 hk with rfl | hk
    · exact hm
    · exact h.seenMay k hk
  · by_cases hkl : k = l
    · exact .inr (by simp [hkl])
    · rcases h.must k fun m1 hm => hk m1 (hm.trans (List.prefix_append _ _)) with h1 | h1
      · exact .inl (List.mem_filter.2 ⟨h1, by simpa using hkl⟩)
      · exact .inr (List.mem_cons_of_mem _ h1)

theorem tracked {h0 : List Ev} (mid : List Ev) {s : State} (hr : Runs .new (h0 ++ .begin :: mid) s) (hw : Spec.within mid) :
    Tracked h0 mid s.notif := by
  obtain ⟨n, hn⟩ : ∃ n, mid.length = n := ⟨_, rfl⟩
  induction n generalizing mid s with
  | zero =>
    cases List.length_eq_zero_iff.1 hn
    obtain ⟨s1, hr, hst⟩ := runs_snoc_inv hr
    have hmem := runs_inv _ hr
    cases hst
    refine ⟨fun l => by simp [called], List.nodup_nil, fun l hl => ⟨[], List.prefix_refl _, ?_⟩, by simp, fun l hl => .inl ?_⟩
    · have : h0 ++ [Ev.begin] = h0 ++ [.begin] := rfl
      rw [member_snoc]; simp only [reduceCtorEq, if_false]; exact (hmem.1 l).1 hl
    · have := hl [] (List.prefix_refl _)
      rw [member_snoc] at this
      simp only [reduceCtorEq, if_false] at this
      exact (hmem.1 l).2 this
  | succ n ih =>
    obtain ⟨mid, e, rfl⟩ : ∃ m e, mid = m ++ [e] := ⟨mid.dropLast, mid.getLast (by rintro rfl; simp at hn), (List.dropLast_concat_getLast _).symm⟩
    rw [← List.cons_append, ← List.append_assoc] at hr
    obtain ⟨s1, hr, hst⟩ := runs_snoc_inv hr
    have hw1 : Spec.within mid := ⟨fun h => hw.1 (by simp [h]), fun r h => hw.2 r (by simp [h])⟩
    have ht := ih mid hr hw1 (by simpa using hn)
    have oth : ∀ {n : Notif}, Tracked h0 mid n → ∀ e, (∀ l, e ≠ Ev.call l) → Tracked h0 (mid ++ [e]) n := by
      intro n ht e he
      cases n with
      | none => exact ht
      | iter i => exact Track.other ht he
      | inCall i l => exact Track.other ht he
      | raising x => obtain ⟨i, ht⟩ := ht; exact ⟨i, ht.other he⟩
    cases hst with
    | addNew hl =>
      rename_i l
      cases hnn : s1.notif with
      | none => rw [hnn] at ht; exact ht
      | iter i => rw [hnn] at ht; exact Track.added ht l
      | inCall i k => rw [hnn] at ht; exact Track.added ht l
      | raising x => rw [hnn] at ht; exact oth (n := .raising x) ht _ (by simp)
    | addOld hl => exact oth ht _ (by simp)
    | removeOld hl =>
      rename_i l
      cases hnn : s1.notif with
      | none => rw [hnn] at ht; exact ht
      | iter i => rw [hnn] at ht; exact Track.removed ht l
      | inCall i k => rw [hnn] at ht; exact Track.removed ht l
      | raising x => rw [hnn] at ht; exact oth (n := .raising x) ht _ (by simp)
    | removeNew hl => exact oth ht _ (by simp)
    | begin => exact absurd (List.mem_append_right mid List.mem_cons_self) hw.1
    | next h1 h2 => exact Track.call ht h1 h2
    | back => exact Track.other ht (by simp)
    | throws => exact ⟨_, Track.other ht (by simp)⟩
    | finish h => exact absurd (List.mem_append_right mid List.mem_cons_self) (hw.2 _)
    | raise => exact absurd (List.mem_append_right mid List.mem_cons_self) (hw.2 _)

end Multi
open Multi in
theorem Multi.runs_prefix (post : List Multi.Ev) {pre : List Multi.Ev} {s : State} (h : Runs .new (pre ++ post) s) :
    ∃ s1, Runs .new pre s1 := by
  induction post generalizing pre s with
  | nil => exact ⟨s, by simpa using h⟩
  | cons e post ih =>
    rw [List.append_cons] at h
    obtain ⟨s1, h1⟩ := ih h
    exact (runs_snoc_inv h1).imp fun _ h => h.1

open Multi in
/-- **C38.** After any history a listener is a consumer iff the last successful `add`/`remove` of it was an `add`, and `add`
and `remove` return whether they changed that. -/
theorem C38_set {h : List Multi.Ev} {s : Multi.State} (hr : Runs .new h s) (l : LId) :
    (l ∈ s.consumers ↔ Spec.member l h = true) ∧ s.consumers.Nodup ∧
    (∀ pre post b, h = pre ++ .add l b :: post → b = !Spec.member l pre) ∧
    (∀ pre post b, h = pre ++ .remove l b :: post → b = Spec.member l pre) := by
  refine ⟨(runs_inv h hr).1 l, (runs_inv h hr).2, ?_, ?_⟩
  all_goals
    intro pre post b he
    rw [he, List.append_cons] at hr
    obtain ⟨s1, h1⟩ := runs_prefix post hr
    obtain ⟨s0, h0, hst⟩ := runs_snoc_inv h1
    have hm := (runs_inv _ h0).1 l
    cases hst <;> simp_all

open Multi in
/-- **C38.** In a notification that ends normally, whatever `add`s and `remove`s go on at the same time, every listener is
called at most once, exactly once if it is a consumer throughout, and never if it is not a consumer at any moment. -/
theorem C38_notify {h0 mid : List Multi.Ev} {s : Multi.State} (hr : Runs .new (h0 ++ .begin :: mid ++ [.end_ none]) s)
    (hw : Spec.within mid) (l : LId) :
    Spec.called l mid ≤ 1 ∧
    ((∀ m1, m1 <+: mid → Spec.member l (h0 ++ .begin :: m1) = true) → Spec.called l mid = 1) ∧
    ((∀ m1, m1 <+: mid → Spec.member l (h0 ++ .begin :: m1) = false) → Spec.called l mid = 0) := by
  obtain ⟨s1, h1, hst⟩ := runs_snoc_inv hr
  have ht := tracked mid h1 hw
  cases hst with
  | finish hm =>
    rename_i i
    have ht : Track h0 mid i := ht
    refine ⟨?_, fun h => ?_, fun h => ?_⟩
    · rw [ht.seen l]; exact List.nodup_iff_count.1 ht.nodup l
    · rcases ht.must l h with h1 | h1
      · rw [hm] at h1; cases h1
      · rw [ht.seen l]
        have := List.nodup_iff_count.1 ht.nodup l
        have := List.count_pos_iff.2 h1
        omega
    · rw [ht.seen l, List.count_eq_zero]
      intro hl
      obtain ⟨m1, hm1, hl⟩ := ht.may l (ht.seenMay l hl)
      rw [h m1 hm1] at hl; cases hl

open Multi in
/-- Also in a notification that is still going on, or that a consumer has left with an exception: at most once, and only
listeners that have been consumers meanwhile. -/
theorem C38_at_most_once {h0 mid : List Multi.Ev} {s : Multi.State} (hr : Runs .new (h0 ++ .begin :: mid) s)
    (hw : Spec.within mid) (l : LId) :
    Spec.called l mid ≤ 1 ∧
    ((∀ m1, m1 <+: mid → Spec.member l (h0 ++ .begin :: m1) = false) → Spec.called l mid = 0) := by
  have ht := tracked mid hr hw
  obtain ⟨i, ht⟩ : ∃ i, Track h0 mid i := by
    cases hn : s.notif with
    | none => rw [hn] at ht; exact ht.elim
    | iter i => rw [hn] at ht; exact ⟨i, ht⟩
    | inCall i l => rw [hn] at ht; exact ⟨i, ht⟩
    | raising x => rw [hn] at ht; exact ht
  refine ⟨?_, fun h => ?_⟩
  · rw [ht.seen l]; exact List.nodup_iff_count.1 ht.nodup l
  · rw [ht.seen l, List.count_eq_zero]
    intro hl
    obtain ⟨m1, hm1, hl⟩ := ht.may l (ht.seenMay l hl)
    rw [h m1 hm1] at hl; cases hl

open Multi in
/-- Listeners are not independent of each other, in spite of the comment in MultiConsumerStateMachineListener.java:15-18: once a
consumer has thrown, the notification calls no further consumer. -/
theorem C38_negation_independent {h0 m1 m2 : List Multi.Ev} {s : Multi.State} {l : LId} {x : Exc}
    (hr : Runs .new (h0 ++ .begin :: m1 ++ [.ret l (some x)] ++ m2) s) (hw : Spec.within m2) (k : LId) :
    Spec.called k m2 = 0 := by
  have key : ∀ (m2 : List Multi.Ev) {s}, Runs .new (h0 ++ .begin :: m1 ++ [.ret l (some x)] ++ m2) s → Spec.within m2 →
      s.notif = .raising x ∧ Spec.called k m2 = 0 := by
    intro m2
    obtain ⟨n, hn⟩ : ∃ n, m2.length = n := ⟨_, rfl⟩
    induction n generalizing m2 with
    | zero =>
      cases List.length_eq_zero_iff.1 hn
      intro s hr _
      rw [List.append_nil] at hr
      obtain ⟨s1, hr, hst⟩ := runs_snoc_inv hr
      cases hst
      exact ⟨rfl, rfl⟩
    | succ n ih =>
      intro s hr hw
      obtain ⟨m2, e, rfl⟩ : ∃ m e, m2 = m ++ [e] :=
        ⟨m2.dropLast, m2.getLast (by rintro rfl; simp at hn), (List.dropLast_concat_getLast _).symm⟩
      rw [← List.append_assoc] at hr
      obtain ⟨s1, hr, hst⟩ := runs_snoc_inv hr
      obtain ⟨h1, h2⟩ := ih m2 (by simpa using hn) hr ⟨fun h => hw.1 (by simp [h]), fun r h => hw.2 r (by simp [h])⟩
      cases hst with
      | raise => exact absurd (List.mem_append_right m2 List.mem_cons_self) (hw.2 _)
      | _ => simp_all [Spec.called, Notif.added, Notif.removed, Spec.within]
  exact (key m2 hr hw).2

/-- Two listeners; the first one called throws: the second one is not called, although it has been a consumer throughout. -/
example : ∃ s, Multi.Runs .new [.add 1 true, .add 2 true, .begin, .call 1, .ret 1 (some (.user 7)), .end_ (some (.user 7))] s := by
  have r0 : Multi.Runs .new [] .new := .nil
  have r1 := r0.snoc (.addNew (l := 1) (by decide))
  have r2 := r1.snoc (.addNew (l := 2) (by decide))
  have r3 := r2.snoc .begin
  have r4 := r3.snoc (.next (l := 1) (by decide) (by decide))
  have r5 := r4.snoc (.throws (x := .user 7))
  exact ⟨_, r5.snoc .raise⟩

/-- A notification with a concurrent `add` and `remove`: listener 1 stays and is called, 2 is removed before its turn, 3 comes in
time. -/
example : ∃ s, Multi.Runs .new [.add 1 true, .add 2 true, .add 2 false, .begin, .remove 2 true, .call 1, .add 3 true, .ret 1 none,
    .call 3, .ret 3 none, .end_ none] s := by
  have r0 : Multi.Runs .new [] .new := .nil
  have r1 := r0.snoc (.addNew (l := 1) (by decide))
  have r2 := r1.snoc (.addNew (l := 2) (by decide))
  have r3 := r2.snoc (.addOld (l := 2) (by decide))
  have r4 := r3.snoc .begin
  have r5 := r4.snoc (.removeOld (l := 2) (by decide))
  have r6 := r5.snoc (.next (l := 1) (by decide) (by decide))
  have r7 := r6.snoc (.addNew (l := 3) (by decide))
  have r8 := r7.snoc .back
  have r9 := r8.snoc (.next (l := 3) (by decide) (by decide))
  have r10 := r9.snoc .back
  exact ⟨_, r10.snoc (.finish (by decide))⟩

/-! ### C39 -/

namespace Spec

/-- The documented lines. -/
def logLine (name : Option String) (complete : Bool) (f ev t : String) : String :=
  if name.getD "" = "" then
    if complete then "Transitioned to " ++ t else "Begin transition: " ++ f ++ " + " ++ ev ++ " = " ++ t
  else
    if complete then name.getD "" ++ " transitioned to " ++ t
    else "Begin " ++ name.getD "" ++ " transition: " ++ f ++ " + " ++ ev ++ " = " ++ t

end Spec

theorem Logging.fmt_beginPlain (a b c : String) : (Logging.line Logging.beginPlain [a, b, c]).toList =
    "Begin transition: ".toList ++ (a.toList ++ (" + ".toList ++ (b.toList ++ (" = ".toList ++ (c.toList ++ []))))) := by
  rw [Logging.line, String.toList_ofList]; rfl

theorem Logging.fmt_beginNamed (n a b c : String) : (Logging.line Logging.beginNamed [n, a, b, c]).toList =
    "Begin ".toList ++ (n.toList ++ (" transition: ".toList ++ (a.toList ++ (" + ".toList ++ (b.toList ++ (" = ".toList ++
      (c.toList ++ []))))))) := by
  rw [Logging.line, String.toList_ofList]; rfl

theorem Logging.fmt_endPlain (c : String) : (Logging.line Logging.endPlain [c]).toList = "Transitioned to ".toList ++ (c.toList ++ []) := by
  rw [Logging.line, String.toList_ofList]; rfl

theorem Logging.fmt_endNamed (n c : String) : (Logging.line Logging.endNamed [n, c]).toList =
    n.toList ++ (" transitioned to ".toList ++ (c.toList ++ [])) := by
  rw [Logging.line, String.toList_ofList]; rfl

/-- **C39.** Whatever the names, a callback of a LoggingStateMachineListener writes exactly the documented line to the log and
returns normally. -/
theorem C39_line (name : Option String) (complete : Bool) (f : St) (ev : Ev) (t : St) (l : List (Σ u : UCall, u.Res))
    (o : Except Exc Unit) :
    Spec.Runs (Logging.logChange name complete f ev t) l o ↔
      l = [⟨.note (.log (Spec.logLine name complete f.name ev.name t.name)), ()⟩] ∧ o = .ok () := by
  have one : ∀ s s' : String, s = s' →
      (Spec.Runs (.note (.log s) .done) l o ↔ l = [⟨.note (.log s'), ()⟩] ∧ o = .ok ()) := by
    rintro s _ rfl
    constructor
    · intro h
      cases h with
      | call r h => cases h; exact ⟨rfl, rfl⟩
    · rintro ⟨rfl, rfl⟩
      exact .note .done
  have plain : ∀ n, (n = none ∨ n = some "") →
      (Spec.Runs (Logging.logChange none complete f ev t) l o ↔
        l = [⟨.note (.log (Spec.logLine n complete f.name ev.name t.name)), ()⟩] ∧ o = .ok ()) := by
    intro n hn
    have hn : n.getD "" = "" := by rcases hn with rfl | rfl <;> rfl
    have e1 : Spec.logLine n false f.name ev.name t.name = "Begin transition: " ++ f.name ++ " + " ++ ev.name ++ " = " ++ t.name := by
      rw [Spec.logLine, if_pos hn, if_neg (by decide)]
    have e2 : Spec.logLine n true f.name ev.name t.name = "Transitioned to " ++ t.name := by
      rw [Spec.logLine, if_pos hn, if_pos rfl]
    cases complete
    · rw [e1]
      refine one (Logging.line Logging.beginPlain [f.name, ev.name, t.name]) _ (String.ext ?_)
      simp only [Logging.fmt_beginPlain, String.toList_append, List.append_assoc, List.append_nil]
    · rw [e2]
      refine one (Logging.line Logging.endPlain [t.name]) _ (String.ext ?_)
      simp only [Logging.fmt_endPlain, String.toList_append, List.append_nil]
  cases name with
  | none => exact plain none (.inl rfl)
  | some n =>
    by_cases hn : n = ""
    · subst hn
      exact plain (some "") (.inr rfl)
    · simp only [Logging.logChange, ne_eq, hn, not_false_eq_true, if_true]
      have hn' : ¬(some n).getD "" = "" := hn
      cases complete
      · have e : Spec.logLine (some n) false f.name ev.name t.name =
            "Begin " ++ n ++ " transition: " ++ f.name ++ " + " ++ ev.name ++ " = " ++ t.name := by
          rw [Spec.logLine, if_neg hn', if_neg (by decide)]; rfl
        rw [e]
        refine one (Logging.line Logging.beginNamed [n, f.name, ev.name, t.name]) _ (String.ext ?_)
        simp only [Logging.fmt_beginNamed, String.toList_append, List.append_assoc, List.append_nil]
      · have e : Spec.logLine (some n) true f.name ev.name t.name = n ++ " transitioned to " ++ t.name := by
          rw [Spec.logLine, if_neg hn', if_pos rfl]; rfl
        rw [e]
        refine one (Logging.line Logging.endNamed [n, t.name]) _ (String.ext ?_)
        simp only [Logging.fmt_endNamed, String.toList_append, List.append_assoc, List.append_nil]

theorem split_at {c : Char} {a b a' b' : List Char} (ha : c ∉ a) (ha' : c ∉ a') (h : a ++ c :: b = a' ++ c :: b') : a = a' ∧ b = b' := by
  induction a generalizing a' with
  | nil =>
    cases a' with
    | nil => simpa using h
    | cons x a' => simp at h; exact absurd h.1 (by simp at ha'; exact ha'.1)
  | cons x a ih =>
    cases a' with
    | nil => simp at h; exact absurd h.1.symm (by simp at ha; exact ha.1)
    | cons y a' =>
      simp at h ha ha'
      obtain ⟨h1, h2⟩ := ih ha.2 ha'.2 h.2
      exact ⟨by rw [h.1, h1], h2⟩

/-- **C39.** The begin lines of one listener tell transitions apart, if no `+` occurs in the names of the old states and no
`=` in the names of the events. -/
theorem C39_distinct (name : Option String) {f ev t f' ev' t' : String} (hf : '+' ∉ f.toList) (hf' : '+' ∉ f'.toList)
    (he : '=' ∉ ev.toList) (he' : '=' ∉ ev'.toList)
    (h : Spec.logLine name false f ev t = Spec.logLine name false f' ev' t') : f = f' ∧ ev = ev' ∧ t = t' := by
  have key : ∀ p : List Char, p ++ f.toList ++ " + ".toList ++ ev.toList ++ " = ".toList ++ t.toList =
      p ++ f'.toList ++ " + ".toList ++ ev'.toList ++ " = ".toList ++ t'.toList → f = f' ∧ ev = ev' ∧ t = t' := by
    intro p h
    simp only [List.append_assoc] at h
    have h := List.append_cancel_left h
    have h : (f.toList ++ [' ']) ++ '+' :: (' ' :: (ev.toList ++ (" = ".toList ++ t.toList))) =
        (f'.toList ++ [' ']) ++ '+' :: (' ' :: (ev'.toList ++ (" = ".toList ++ t'.toList))) := by
      simpa using h
    obtain ⟨h1, h2⟩ := split_at (by simpa using hf) (by simpa using hf') h
    have h2 : (ev.toList ++ [' ']) ++ '=' :: (' ' :: t.toList) = (ev'.toList ++ [' ']) ++ '=' :: (' ' :: t'.toList) := by
      simpa using h2
    obtain ⟨h3, h4⟩ := split_at (by simpa using he) (by simpa using he') h2
    exact ⟨String.ext (List.append_cancel_right h1), String.ext (List.append_cancel_right h3), String.ext (by simpa using h4)⟩
  by_cases hn : name.getD "" = ""
  · rw [Spec.logLine, Spec.logLine, if_pos hn, if_pos hn, if_neg (by decide), if_neg (by decide)] at h
    have h := congrArg String.toList h
    simp only [String.toList_append] at h
    exact key _ h
  · rw [Spec.logLine, Spec.logLine, if_neg hn, if_neg hn, if_neg (by decide), if_neg (by decide)] at h
    have h := congrArg String.toList h
    simp only [String.toList_append] at h
    exact key _ h

/-- Without that, two different transitions can give the same line. -/
theorem C39_negation_separators : ∃ f ev t f' ev' t' : String, (f, ev, t) ≠ (f', ev', t') ∧
    Spec.logLine none false f ev t = Spec.logLine none false f' ev' t' :=
  ⟨"a", "+ b", "c", "a +", "b", "c", by decide, by decide⟩

example : Spec.logLine (some "door") false "open" "close" "shut" = "Begin door transition: open + close = shut" := by decide
example : '+' ∉ "open".toList ∧ '=' ∉ "close".toList := by decide

/-! ### C40 -/

namespace Threads

theorem digitChar_toNat {d : Nat} (h : d < 10) : (Char.ofNat (48 + d)).toNat = 48 + d := by
  have : ∀ d : Fin 10, (Char.ofNat (48 + d.1)).toNat = 48 + d.1 := by decide
  exact this ⟨d, h⟩

/-- The number a digit sequence stands for. -/
def value (l : List Char) : Nat := l.foldl (fun n c => 10 * n + (c.toNat - 48)) 0

theorem value_digits (n : Nat) : value (digits n) = n := by
  induction n using digits.induct with
  | case1 n h => rw [digits, if_pos h]; simp [value, digitChar_toNat h]
  | case2 n h ih =>
    rw [digits, if_neg h]
    simp only [value, List.foldl_append] at ih ⊢
    rw [ih]
    simp only [List.foldl_cons, List.foldl_nil, digitChar_toNat (Nat.mod_lt n (by omega : 10 > 0))]
    omega

theorem dash_digits (n : Nat) : '-' ∉ digits n := by
  have hd : ∀ d, d < 10 → '-' ≠ Char.ofNat (48 + d) := by
    intro d h
    have : ∀ d : Fin 10, '-' ≠ Char.ofNat (48 + d.1) := by decide
    exact this ⟨d, h⟩
  induction n using digits.induct with
  | case1 n h => rw [digits, if_pos h]; simpa using hd n h
  | case2 n h ih => rw [digits, if_neg h]; simpa using ⟨ih, hd _ (Nat.mod_lt n (by omega))⟩

theorem asInt_small {n : Nat} (h : n < 2 ^ 31) : asInt n = n := by
  unfold asInt
  rw [BitVec.toInt_eq_toNat_of_lt (by simp; omega), BitVec.toNat_ofNat, Nat.mod_eq_of_lt (by omega)]

/-- A name shows its number. -/
theorem name_inj {b b' : List Char} {n n' : Nat} (h : b ++ '-' :: showInt (n : Int) = b' ++ '-' :: showInt (n' : Int)) :
    b = b' ∧ n = n' := by
  have hs : ∀ n : Nat, showInt (n : Int) = digits n := fun n => by
    unfold showInt; rw [if_neg (by omega), Int.natAbs_natCast]
  rw [hs, hs] at h
  have h := congrArg List.reverse h
  simp only [List.reverse_append, List.reverse_cons, List.append_assoc, List.cons_append, List.nil_append] at h
  obtain ⟨h1, h2⟩ := split_at (by simpa using dash_digits n) (by simpa using dash_digits n') h
  exact ⟨List.reverse_inj.1 h2, by rw [← value_digits n, List.reverse_inj.1 h1, value_digits]⟩

/-- Numbers in use: each below the counter, no number twice. -/
structure Inv (bases : List (List Char)) (s : State) (A B : List (List Char × Nat)) : Prop where
  inside : s.inside = A.map fun p => (p.1, asInt p.2)
  threads : s.threads = B.map fun p => ⟨p.1 ++ '-' :: showInt (asInt p.2), true⟩
  below : ∀ p ∈ A ++ B, p.2 < s.count ∧ p.1 ∈ bases
  distinct : ((A ++ B).map Prod.snd).Nodup

/-- The factory names of a history. -/
def bases (xs : List Step) : List (List Char) := xs.filterMap fun
  | .take b => some b
  | .finish _ => none

theorem eraseIdx_perm {α : Type} (l : List α) (i : Nat) (h : i < l.length) : l.Perm (l[i] :: l.eraseIdx i) := by
  induction l generalizing i with
  | nil => simp at h
  | cons a l ih =>
    cases i with
    | zero => exact List.Perm.refl _
    | succ i => exact ((ih i (by simpa using h)).cons a).trans (List.Perm.swap _ _ _)

theorem map_eraseIdx {α β : Type} (f : α → β) (l : List α) (i : Nat) : (l.map f).eraseIdx i = (l.eraseIdx i).map f := by
  induction l generalizing i with
  | nil => simp
  | cons a l ih => cases i <;> simp [ih]

theorem inv_run (xs : List Step) : ∃ A B, Inv (bases xs) (run ⟨0, [], []⟩ xs) A B ∧ (run ⟨0, [], []⟩ xs).count = (bases xs).length := by
  obtain ⟨n, hn⟩ : ∃ n, xs.length = n := ⟨_, rfl⟩
  induction n generalizing xs with
  | zero =>
    cases List.length_eq_zero_iff.1 hn
    exact ⟨[], [], ⟨rfl, rfl, by simp, by simp⟩, rfl⟩
  | succ n ih =>
    obtain ⟨xs, x, rfl⟩ : ∃ m e, xs = m ++ [e] :=
      ⟨xs.dropLast, xs.getLast (by rintro rfl; simp at hn), (List.dropLast_concat_getLast _).symm⟩
    obtain ⟨A, B, h, hc⟩ := ih xs (by simpa using hn)
    have hr : run ⟨0, [], []⟩ (xs ++ [x]) = step (run ⟨0, [], []⟩ xs) x := by simp [run]
    rw [hr]
    generalize run ⟨0, [], []⟩ xs = s at h hc
    cases x with
    | take b =>
      have hb : bases (xs ++ [.take b]) = bases xs ++ [b] := by simp [bases]
      rw [hb]
      refine ⟨A ++ [(b, s.count)], B, ⟨?_, h.threads, fun p hp => ?_, ?_⟩, ?_⟩
      · simp [step, h.inside]
      · simp only [List.mem_append, List.mem_cons, List.not_mem_nil, or_false] at hp
        have : (p ∈ A ++ B) ∨ p = (b, s.count) := by simp only [List.mem_append]; grind
        rcases this with hp | rfl
        · exact ⟨Nat.lt_succ_of_lt (h.below p hp).1, by simp [(h.below p hp).2]⟩
        · exact ⟨Nat.lt_succ_self _, by simp⟩
      · have hnew : s.count ∉ (A ++ B).map Prod.snd := by
          intro hm
          obtain ⟨p, hp, he⟩ := List.mem_map.1 hm
          have := (h.below p hp).1
          omega
        have hd := h.distinct
        simp only [List.map_append, List.map_cons, List.map_nil, List.append_assoc] at hd hnew ⊢
        rw [List.Perm.nodup_iff (List.Perm.append_left _ List.perm_append_comm), ← List.append_assoc]
        refine List.nodup_append.2 ⟨hd, by simp, ?_⟩
        intro a ha c hc he
        simp at hc
        subst hc he
        exact hnew ha
      · simp [step, hc]
    | finish i =>
      have hb : bases (xs ++ [.finish i]) = bases xs := by simp [bases]
      rw [hb]
      cases hi : s.inside[i]? with
      | none => exact ⟨A, B, by simpa [step, hi] using h, by simpa [step, hi] using hc⟩
      | some p =>
        obtain ⟨b, z⟩ := p
        rw [h.inside, List.getElem?_map] at hi
        obtain ⟨q, hq, he⟩ := Option.map_eq_some_iff.1 hi
        have hst : step s (.finish i) = { s with inside := s.inside.eraseIdx i, threads := s.threads ++ [⟨b ++ '-' :: showInt z, true⟩] } := by
          simp only [step, h.inside, List.getElem?_map, hq, Option.map_some, he]
        rw [hst]
        obtain ⟨hlt, hqi⟩ := List.getElem?_eq_some_iff.1 hq
        have hperm : A.Perm (q :: A.eraseIdx i) := by rw [← hqi]; exact eraseIdx_perm A i hlt
        refine ⟨A.eraseIdx i, B ++ [q], ⟨?_, ?_, fun p hp => h.below p ?_, ?_⟩, hc⟩
        · simp [h.inside, map_eraseIdx]
        · simp only [h.threads, List.map_append, List.map_cons, List.map_nil]
          cases he; rfl
        · rw [List.mem_append, hperm.mem_iff, List.mem_cons]
          simp only [List.mem_append, List.mem_cons, List.not_mem_nil, or_false] at hp
          rcases hp with hp | hp | hp
          · exact .inl (.inr hp)
          · exact .inr hp
          · exact .inl (.inl hp)
        · have : (A.eraseIdx i ++ (B ++ [q])).Perm (A ++ B) := by
            refine List.Perm.trans ?_ (hperm.append_right B).symm
            rw [← List.append_assoc]
            exact List.perm_append_comm
          exact ((this.map Prod.snd).nodup_iff).2 h.distinct

end Threads

/-- **C40.** After any interleaving of calls of `newThread` of any factories, with less than 2^31 threads created: all threads
are daemon threads, their names are pairwise different, and each is the name of one of the factories, a dash and a number. -/
theorem C40_thread_names (xs : List Threads.Step) (hx : (Threads.bases xs).length ≤ 2 ^ 31) :
    ((Threads.run ⟨0, [], []⟩ xs).threads.map Threads.Thread.name).Nodup ∧
    ∀ t ∈ (Threads.run ⟨0, [], []⟩ xs).threads, t.daemon = true ∧
      ∃ b ∈ Threads.bases xs, ∃ n : Nat, t.name = b ++ '-' :: Threads.digits n := by
  obtain ⟨A, B, h, hc⟩ := Threads.inv_run xs
  have hs : ∀ p ∈ B, Threads.showInt (Threads.asInt p.2) = Threads.digits p.2 := fun p hp => by
    have := (h.below p (List.mem_append_right _ hp)).1
    rw [Threads.asInt_small (by omega)]
    unfold Threads.showInt
    rw [if_neg (by omega), Int.natAbs_natCast]
  refine ⟨?_, fun t ht => ?_⟩
  · rw [h.threads, List.map_map]
    have hd : (B.map Prod.snd).Nodup := by
      have := h.distinct
      rw [List.map_append] at this
      exact (List.nodup_append.1 this).2.1
    clear hc
    have hb := fun p hp => (h.below p (List.mem_append_right _ hp)).1
    clear h
    induction B with
    | nil => simp
    | cons p B ih =>
      simp only [List.map_cons, List.nodup_cons] at hd ⊢
      refine ⟨fun hm => ?_, ih (fun q hq => hs q (List.mem_cons_of_mem _ hq)) hd.2 fun q hq => hb q (List.mem_cons_of_mem _ hq)⟩
      obtain ⟨q, hq, he⟩ := List.mem_map.1 hm
      simp only [Function.comp_apply] at he
      rw [hs q (List.mem_cons_of_mem _ hq), hs p List.mem_cons_self] at he
      have h0 : ∀ n : Nat, Threads.showInt (n : Int) = Threads.digits n := fun n => by
        unfold Threads.showInt; rw [if_neg (by omega), Int.natAbs_natCast]
      rw [← h0, ← h0] at he
      have := (Threads.name_inj he).2
      exact hd.1 (List.mem_map.2 ⟨q, hq, this⟩)
  · rw [h.threads] at ht
    obtain ⟨p, hp, rfl⟩ := List.mem_map.1 ht
    exact ⟨rfl, p.1, (h.below p (List.mem_append_right _ hp)).2, p.2, by simp only [hs p hp]⟩

/-- Two factories, three threads; the second call gets its number before the first one is finished. -/
example : (Threads.run ⟨0, [], []⟩ [.take "a".toList, .take "a-1".toList, .finish 1, .finish 0, .take "a".toList, .finish 0]).threads =
    [⟨"a-1-1".toList, true⟩, ⟨"a-0".toList, true⟩, ⟨"a-2".toList, true⟩] := by decide +kernel

/-- After 2^31 threads the numbers are negative, and factories `a` and `a-` can give the same name. -/
theorem C40_negation_overflow : "a".toList ++ '-' :: Threads.showInt (Threads.asInt (2 ^ 32 - 5)) =
    "a-".toList ++ '-' :: Threads.showInt (Threads.asInt 5) := by decide +kernel

end Verif
