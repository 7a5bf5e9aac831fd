import Verif.Proofs.Config
/-
C01-C08: the configuration DSL. "Every history" is every finite list of configuration calls, with arbitrary
arguments, where calls that throw are caught by the client and the calls go on.
-/

namespace Verif
open AMap

/-- The configuration after a history. -/
abbrev hist (rs : Reserved) (ks : List CfgCall) : CfgSt := cfgRun rs ks CfgSt.empty

/-- What an event leads to in a state; `none`: nothing configured. This is the lookup that event processing
does (TransitionTask.java:28-29). -/
def leadsTo (c : CfgSt) (s : String) (k : Option EvKey) : Option St :=
  match get? c.table s with
  | none => none
  | some r => r.target k

theorem leadsTo_eq (c : CfgSt) (s : String) (k : Option EvKey) : leadsTo c s k = (c.entry s k).join := by
  unfold leadsTo CfgSt.entry Row.target
  cases get? c.table s <;> simp

/-! #### Shared examples: a small concrete machine A --e--> B, B ends. -/
namespace Ex
def rs : Reserved := ⟨100, 101, 102⟩
def A : St := ⟨"A", 1⟩
def B : St := ⟨"B", 2⟩
def e : Ev := ⟨0, "e", .client 1⟩
def f : Ev := ⟨0, "f", .client 2⟩
def calls : List CfgCall :=
  [.initialSate (some A), .receives (some e), .itTransitionsTo (some B), .when_ (some B), .itEnds]
end Ex

/-! #### C01 -/

/-- Whether a call of the history has been an accepted `initialSate`. -/
def initAccepted (rs : Reserved) : List CfgCall → CfgSt → Prop
  | [], _ => False
  | k :: ks, c => (∃ s, k = .initialSate s ∧ k.throws rs c = none) ∨ initAccepted rs ks (k.after rs c)

theorem throws_none_iff {rs : Reserved} {c : CfgSt} (k : CfgCall) :
    k.throws rs c = none ↔ ∃ c', k.run rs c = .ok () c' := by
  unfold CfgCall.throws; split <;> simp_all

theorem init_changes_only_by_initialSate {rs : Reserved} {c : CfgSt} (h : CInv rs c) (k : CfgCall) :
    (k.after rs c).init = c.init ∨
      c.init = none ∧ ∃ s, k = .initialSate (some s) ∧ k.throws rs c = none ∧ (k.after rs c).init = some s := by
  have hstep := (h.step k).1
  unfold CfgCall.after CfgCall.throws
  cases hr : k.run rs c with
  | error e c' => left; simp [hstep _ _ hr]
  | ok u c' =>
    simp only
    cases k with
    | initialSate s =>
      cases s with
      | none => simp [run_initialSate_none] at hr
      | some s =>
        rw [run_initialSate h] at hr
        split at hr
        · cases hr
        split at hr
        · cases hr
        · rename_i hi; right; cases hr; simp at hi; simp [hi]
    | when_ s =>
      cases s with
      | none => simp [run_when_none] at hr
      | some s =>
        rw [run_when] at hr
        split at hr
        · cases hr
        split at hr
        · cases hr
        split at hr
        · cases hr
        · cases hr; simp
    | receives e =>
      cases e with
      | none => simp [run_receives_none] at hr
      | some s =>
        rw [run_receives h] at hr
        split at hr
        · cases hr
        split at hr
        · cases hr
        split at hr
        · cases hr
        · cases hr; simp
    | itEnds => left; rw [run_itEnds h] at hr; exact outcome_init hr
    | itTransitionsTo s =>
      cases s with
      | none => simp [run_itTransitionsTo_none] at hr
      | some s =>
        rw [run_itTransitionsTo h] at hr
        split at hr
        · cases hr
        · left; exact outcome_init hr
    | itDoesNotTransition => left; rw [run_itDoesNotTransition h] at hr; exact outcome_init hr

theorem initAccepted_iff {rs : Reserved} (ks : List CfgCall) {c : CfgSt} (h : CInv rs c) (hc : c.init = none) :
    initAccepted rs ks c ↔ (cfgRun rs ks c).init ≠ none := by
  induction ks generalizing c with
  | nil => simp [initAccepted, cfgRun, hc]
  | cons k ks ih =>
    simp only [initAccepted, cfgRun, List.foldl_cons]
    rcases init_changes_only_by_initialSate h k with hk | ⟨-, s, rfl, ht, hs⟩
    · rw [hc] at hk
      have : ¬ ∃ s, k = CfgCall.initialSate s ∧ k.throws rs c = none := by
        rintro ⟨s, rfl, ht⟩
        obtain ⟨c', hr⟩ := (throws_none_iff _).1 ht
        unfold CfgCall.after at hk
        rw [hr] at hk
        cases s with
        | none => simp [run_initialSate_none] at hr
        | some s => rw [run_initialSate h] at hr; grind
      simp only [this, false_or]
      exact ih (h.after k) hk
    · have : ∀ ks c, CInv rs c → c.init = some s → (cfgRun rs ks c).init = some s := by
        intro ks
        induction ks with
        | nil => intro c _ h; exact h
        | cons k ks ih =>
          intro c h hc
          refine ih _ (h.after k) ?_
          rcases init_changes_only_by_initialSate h k with hk | ⟨hn, -⟩
          · rw [hk, hc]
          · simp [hc] at hn
      have h2 := this ks _ (h.after _) hs
      simp only [cfgRun] at h2
      simp [h2, ht]

/-- C01: before an `initialSate` call has been accepted, every other configuration call throws (an
IllegalStateException for non-null, non-reserved arguments) and so does `start()`. -/
theorem C01_initial_state_first (rs : Reserved) (ks : List CfgCall) (h : ¬ initAccepted rs ks CfgSt.empty) :
    (∀ k : CfgCall, (∀ s, k ≠ .initialSate s) → k.throws rs (hist rs ks) ≠ none) ∧
    (∀ s, Spec.usableState s → (CfgCall.when_ (some s)).throws rs (hist rs ks) = some (.ise .noInit)) ∧
    (∀ s, Spec.usableState s → (CfgCall.itTransitionsTo (some s)).throws rs (hist rs ks) = some (.ise .noInit)) ∧
    (∀ e, Spec.usableEvent e → (CfgCall.receives (some e)).throws rs (hist rs ks) = some (.ise .noInit)) ∧
    CfgCall.itEnds.throws rs (hist rs ks) = some (.ise .noInit) ∧
    CfgCall.itDoesNotTransition.throws rs (hist rs ks) = some (.ise .noInit) ∧
    startChecks (hist rs ks).init (hist rs ks).table = some (.ise .noInit) := by
  have hinv := (CInv.empty rs).run ks
  rw [initAccepted_iff ks (CInv.empty rs) rfl] at h
  have hi : (hist rs ks).init = none := by simpa using h
  refine ⟨?_, ?_, ?_, ?_, ?_, ?_, ?_⟩
  · intro k hk
    cases k with
    | initialSate s => exact absurd rfl (hk s)
    | when_ s => cases s <;> simp [CfgCall.throws, run_when_none, run_when, hi]; grind
    | receives e => cases e <;> simp [CfgCall.throws, run_receives_none, run_receives hinv, hi]; grind
    | itEnds => simp [CfgCall.throws, run_itEnds hinv, outcomeResult, hi]
    | itTransitionsTo s =>
      cases s <;> simp [CfgCall.throws, run_itTransitionsTo_none, run_itTransitionsTo hinv, outcomeResult, hi]; grind
    | itDoesNotTransition => simp [CfgCall.throws, run_itDoesNotTransition hinv, outcomeResult, hi]
  · intro s hs; rw [usable_iff] at hs; simp [CfgCall.throws, run_when, hi, hs]
  · intro s hs; rw [usable_iff] at hs; simp [CfgCall.throws, run_itTransitionsTo hinv, outcomeResult, hi, hs]
  · intro e he; rw [usableEv_iff] at he; simp [CfgCall.throws, run_receives hinv, hi, he]
  · simp [CfgCall.throws, run_itEnds hinv, outcomeResult, hi]
  · simp [CfgCall.throws, run_itDoesNotTransition hinv, outcomeResult, hi]
  · simp [startChecks, hi]

example : ¬ initAccepted Ex.rs [.when_ (some Ex.A), .initialSate (some ⟨"_END_", 3⟩)] CfgSt.empty := by
  rintro (⟨s, h, -⟩ | ⟨s, ⟨⟩, h⟩ | h)
  · cases h
  · revert h; decide +kernel
  · exact h

/-- C01, second half: once an `initialSate` call has been accepted the initial state never changes, whatever is called
next, and every further `initialSate` with a usable state throws IllegalStateException. -/
theorem C01_initial_state_once (rs : Reserved) (ks : List CfgCall) (i : St) (h : (hist rs ks).init = some i)
    (more : List CfgCall) :
    (hist rs (ks ++ more)).init = some i ∧
    ∀ s, Spec.usableState s → (CfgCall.initialSate (some s)).throws rs (hist rs (ks ++ more)) = some (.ise .initExists) := by
  have hinv := (CInv.empty rs).run ks
  have h1 : ∀ more c, CInv rs c → c.init = some i → (cfgRun rs more c).init = some i := by
    intro ks
    induction ks with
    | nil => intro c _ h; exact h
    | cons k ks ih =>
      intro c h hc
      refine ih _ (h.after k) ?_
      rcases init_changes_only_by_initialSate h k with hk | ⟨hn, -⟩
      · rw [hk, hc]
      · simp [hc] at hn
  have h2 : hist rs (ks ++ more) = cfgRun rs more (hist rs ks) := by simp [hist, cfgRun]
  have h3 := h1 more _ hinv h
  rw [h2]
  refine ⟨h3, fun s hs => ?_⟩
  rw [usable_iff] at hs
  have hinv2 := hinv.run more
  simp only [CfgCall.throws, run_initialSate hinv2, hs, if_false, h3]; simp

example : (hist Ex.rs Ex.calls).init = some Ex.A := by decide +kernel
example : initAccepted Ex.rs Ex.calls CfgSt.empty := Or.inl ⟨some Ex.A, rfl, by decide +kernel⟩

/-! #### C02 -/

/-- C02: reserved names are rejected by every call that takes a state or an event. -/
theorem C02_reserved_rejected (rs : Reserved) (ks : List CfgCall) (s : St) (e : Ev) :
    (¬ Spec.usableState s →
      (CfgCall.initialSate (some s)).throws rs (hist rs ks) = some (.ise .reservedState) ∧
      (CfgCall.when_ (some s)).throws rs (hist rs ks) = some (.ise .reservedState) ∧
      (CfgCall.itTransitionsTo (some s)).throws rs (hist rs ks) = some (.ise .reservedState)) ∧
    (¬ Spec.usableEvent e → (CfgCall.receives (some e)).throws rs (hist rs ks) = some (.ise .reservedEvent)) := by
  have hinv := (CInv.empty rs).run ks
  constructor
  · intro h
    rw [usable_iff, Classical.not_not] at h
    simp [CfgCall.throws, run_initialSate hinv, run_when, run_itTransitionsTo hinv, h]
  · intro h
    rw [usableEv_iff] at h
    simp only [ne_eq, Classical.not_not] at h
    simp [CfgCall.throws, run_receives hinv, h]

/-- C02: after any history, no transition leaves a reserved state, every target is a usable state or the machine's own
END or NOOP object, and the reserved event only leads to END. -/
theorem C02_reserved_never_configured (rs : Reserved) (ks : List CfgCall) (s : String) (k : Option EvKey) (t : St)
    (h : leadsTo (hist rs ks) s k = some t) :
    (s ≠ "_END_" ∧ s ≠ "_UNINITIALISED_" ∧ s ≠ "_NOOP_") ∧
    (Spec.usableState t ∨ t = rs.endSt ∨ t = rs.noopSt) ∧
    (∀ k', k = some k' → k'.name = "_immediate_" → t = rs.endSt) := by
  have hinv := (CInv.empty rs).run ks
  rw [leadsTo_eq, Option.join_eq_some_iff] at h
  unfold CfgSt.entry at h
  obtain ⟨r, hg, hk⟩ := Option.bind_eq_some_iff.1 h
  have h1 : ¬ isRes s := by
    intro hs
    have hi : (hist rs ks).init ≠ none := by
      intro hi; have := (hinv.noinit hi).1; simp [this] at hg
    have := hinv.res hi s hs
    rw [this] at hg; cases hg; simp at hk
  refine ⟨?_, ?_, ?_⟩
  · exact (usable_iff ⟨s, 0⟩).2 h1
  · rw [usable_iff]; exact hinv.targets _ _ _ _ hg hk
  · rintro k' rfl hk'
    have := (hinv.imm _ _ _ _ hg hk hk').2
    cases this; rfl

example : leadsTo (hist Ex.rs Ex.calls) "A" (some Ex.e.key) = some Ex.B := by decide +kernel
example : leadsTo (hist Ex.rs Ex.calls) "B" (some immKey) = some Ex.rs.endSt := by decide +kernel

/-! #### C03 -/

/-- C03: a call that throws leaves the configuration exactly as it was. -/
theorem C03_rejected_call_changes_nothing (rs : Reserved) (ks : List CfgCall) (k : CfgCall) (x : Exc)
    (h : k.throws rs (hist rs ks) = some x) : k.after rs (hist rs ks) = hist rs ks := by
  have hstep := (((CInv.empty rs).run ks).step k).1
  unfold CfgCall.throws at h
  unfold CfgCall.after
  cases hr : k.run rs (hist rs ks) with
  | ok u c' => simp [hr] at h
  | error e c' => exact hstep _ _ hr

example : CfgCall.itEnds.throws Ex.rs (hist Ex.rs (Ex.calls ++ [.when_ (some Ex.A)])) = some (.ise .mappingsExist) := by
  decide +kernel

/-! #### C04 -/

theorem entry_after_receives {rs : Reserved} {c c' : CfgSt} (hinv : CInv rs c) {s : St} {e : Ev}
    (hm : c.marked = some s) (hr : (CfgCall.receives (some e)).run rs c = .ok () c') :
    CInv rs c' ∧ c'.marked = some s ∧ c'.markedEv = some e ∧
    ∀ n k, c'.entry n k = if n = s.name ∧ k = some e.key then some none else c.entry n k := by
  have hinv' := (hinv.step _).2 _ _ hr
  rw [run_receives hinv, hm] at hr
  split at hr
  · cases hr
  split at hr
  · cases hr
  cases hr
  obtain ⟨r, hg⟩ := Option.ne_none_iff_exists'.1 (hinv.markedOk s hm).2.2
  refine ⟨hinv', rfl, rfl, ?_⟩
  intro n k
  simp only [CfgSt.entry, get?_put, hg, Option.getD_some]
  by_cases hn : n = s.name
  · subst hn
    by_cases hk : k = some e.key
    · simp [hk]
    · simp [get?_put, hk, hg, Ne.symm hk]
  · simp [hn, Ne.symm hn]

theorem entry_after_outcome {rs : Reserved} {c c' : CfgSt} (hinv : CInv rs c) {s : St} {e : Ev} {k f v}
    (hm : c.marked = some s) (he : c.markedEv = some e) (hr : outcomeResult c k f v = .ok () c') :
    ∀ n k, c'.entry n k = if n = s.name ∧ k = some e.key then some (some v) else c.entry n k := by
  obtain ⟨r, hg⟩ := Option.ne_none_iff_exists'.1 (hinv.markedOk s hm).2.2
  have hi := (hinv.markedOk s hm).1
  simp only [outcomeResult, hi, hm, he, hg, if_false, Option.getD_some] at hr
  cases hr
  intro n k'
  exact entry_putClose hg _ _ n k'

/-- The outcome a call gives to a clause. -/
def givenOutcome (rs : Reserved) : CfgCall → Option St
  | .itTransitionsTo (some t) => some t
  | .itEnds => some rs.endSt
  | .itDoesNotTransition => some rs.noopSt
  | _ => none

theorem outcome_run {rs : Reserved} {c : CfgSt} (h : CInv rs c) {o : CfgCall} {t : St} (ho : givenOutcome rs o = some t)
    {c'} (hr : o.run rs c = .ok () c') : ∃ k f, outcomeResult c k f t = .ok () c' := by
  cases o with
  | itEnds => cases ho; rw [run_itEnds h] at hr; exact ⟨_, _, hr⟩
  | itDoesNotTransition => cases ho; rw [run_itDoesNotTransition h] at hr; exact ⟨_, _, hr⟩
  | itTransitionsTo s =>
    cases s with
    | none => cases ho
    | some s =>
      cases ho
      rw [run_itTransitionsTo h] at hr
      split at hr
      · cases hr
      · exact ⟨_, _, hr⟩
  | _ => simp [givenOutcome] at ho

/-- C04: after `when(A).receives(e)` and an outcome were accepted, e in A leads to that outcome and everything else is
as it was. -/
theorem C04_clause_sets_one_transition (rs : Reserved) (ks : List CfgCall) (A : St) (e : Ev) (o : CfgCall) (t : St)
    (ho : givenOutcome rs o = some t) (c1 c2 c3 : CfgSt)
    (h1 : (CfgCall.when_ (some A)).run rs (hist rs ks) = .ok () c1)
    (h2 : (CfgCall.receives (some e)).run rs c1 = .ok () c2)
    (h3 : o.run rs c2 = .ok () c3) :
    leadsTo c3 A.name (some e.key) = some t ∧
    ∀ s k, (s, k) ≠ (A.name, some e.key) → leadsTo c3 s k = leadsTo (hist rs ks) s k := by
  have hinv := (CInv.empty rs).run ks
  have hinv1 := (hinv.step _).2 _ _ h1
  have hm : c1.marked = some A ∧ ∀ n k, c1.entry n k = (hist rs ks).entry n k := by
    rw [run_when] at h1
    split at h1
    · cases h1
    split at h1
    · cases h1
    split at h1
    · cases h1
    cases h1
    refine ⟨rfl, fun n k => ?_⟩
    simp only [CfgSt.entry, get?_putIfAbsent]
    split
    · rename_i hn; subst hn; cases get? (hist rs ks).table A.name <;> simp
    · rfl
  obtain ⟨hinv2, hm2, he2, hent2⟩ := entry_after_receives hinv1 hm.1 h2
  obtain ⟨k, f, h3⟩ := outcome_run hinv2 ho h3
  have hent3 := entry_after_outcome hinv2 hm2 he2 h3
  constructor
  · rw [leadsTo_eq, hent3]; simp
  · intro s k hsk
    have : ¬ (s = A.name ∧ k = some e.key) := by rintro ⟨rfl, rfl⟩; exact hsk rfl
    rw [leadsTo_eq, leadsTo_eq, hent3, if_neg this, hent2, if_neg this, hm.2]

example : ∃ c1 c2 c3, (CfgCall.when_ (some Ex.A)).run Ex.rs (hist Ex.rs Ex.calls) = .ok () c1 ∧
    (CfgCall.receives (some Ex.f)).run Ex.rs c1 = .ok () c2 ∧ CfgCall.itDoesNotTransition.run Ex.rs c2 = .ok () c3 :=
  ⟨_, _, _, rfl, rfl, rfl⟩

/-! #### C05 -/

/-- C05 is false of the code: a pair that already has an outcome can be given another one, and the last one wins. The
reason is that `receives` resets the mapping to null (GenericStateMachine.java:94) before `assertEventNotMapped` looks
at it. This holds for every complete configuration and every mapped pair, not just for an example. -/
theorem C05_remapping_is_accepted (rs : Reserved) (ks : List CfgCall) (A : St) (e : Ev) (old new : St)
    (hmapped : leadsTo (hist rs ks) A.name (some e.key) = some old)
    (hclosed : (hist rs ks).marked = none) (he : Spec.usableEvent e) (hnew : Spec.usableState new) :
    let more := [CfgCall.when_ (some A), .receives (some e), .itTransitionsTo (some new)]
    (∀ n, n < 3 → (more[n]?.map fun k => k.throws rs (hist rs (ks ++ more.take n))) = some none) ∧
    leadsTo (hist rs (ks ++ more)) A.name (some e.key) = some new := by
  have hinv := (CInv.empty rs).run ks
  have hA : ¬ isRes A.name := (usable_iff ⟨A.name, 0⟩).1 (C02_reserved_never_configured rs ks _ _ _ hmapped).1
  have hi : (hist rs ks).init ≠ none := by
    intro hi; have := (hinv.noinit hi).1; simp [leadsTo, this] at hmapped
  have hr1 : ∃ c1, (CfgCall.when_ (some A)).run rs (hist rs ks) = .ok () c1 ∧ c1.marked = some A ∧ c1.init ≠ none := by
    rw [run_when]; simp only [hA, hi, hclosed, if_false]; simp [hi]
  obtain ⟨c1, hr1, hm1, hi1⟩ := hr1
  have hinv1 := (hinv.step _).2 _ _ hr1
  have hr2 : ∃ c2, (CfgCall.receives (some e)).run rs c1 = .ok () c2 ∧ c2.init ≠ none := by
    rw [usableEv_iff] at he
    rw [run_receives hinv1]; simp [he, hi1, hm1]
  obtain ⟨c2, hr2, hi2⟩ := hr2
  obtain ⟨hinv2, hm2, he2, -⟩ := entry_after_receives hinv1 hm1 hr2
  have hr3 : ∃ c3, (CfgCall.itTransitionsTo (some new)).run rs c2 = .ok () c3 := by
    rw [usable_iff] at hnew
    rw [run_itTransitionsTo hinv2]; simp [hnew, outcomeResult, hi2, hm2, he2]
  obtain ⟨c3, hr3⟩ := hr3
  have e1 : (CfgCall.when_ (some A)).after rs (hist rs ks) = c1 := by simp [CfgCall.after, hr1]
  have e2 : (CfgCall.receives (some e)).after rs c1 = c2 := by simp [CfgCall.after, hr2]
  have e3 : (CfgCall.itTransitionsTo (some new)).after rs c2 = c3 := by simp [CfgCall.after, hr3]
  have hh : ∀ l, hist rs (ks ++ l) = cfgRun rs l (hist rs ks) := fun l => cfgRun_append _ _
  refine ⟨?_, ?_⟩
  · intro n hn
    rw [hh]
    match n, hn with
    | 0, _ => simp [cfgRun_nil, CfgCall.throws, hr1]
    | 1, _ => simp [cfgRun_cons, cfgRun_nil, e1, CfgCall.throws, hr2]
    | 2, _ => simp [cfgRun_cons, cfgRun_nil, e1, e2, CfgCall.throws, hr3]
  · rw [hh]
    simp only [cfgRun_cons, cfgRun_nil, e1, e2, e3]
    exact (C04_clause_sets_one_transition rs ks A e (.itTransitionsTo (some new)) new rfl c1 c2 c3 hr1 hr2 hr3).1

example : leadsTo (hist Ex.rs Ex.calls) "A" (some Ex.e.key) = some Ex.B ∧ (hist Ex.rs Ex.calls).marked = none ∧
    Spec.usableEvent Ex.e ∧ Spec.usableState Ex.A := by decide +kernel

/-- The property as stated, refuted by a concrete history: e in A, mapped to B, is mapped again without any exception. -/
theorem C05_negation : ¬ ∀ (rs : Reserved) (ks : List CfgCall) (A : St) (e : Ev) (old new : St),
    leadsTo (hist rs ks) A.name (some e.key) = some old →
    ∃ (n : Nat) (k : CfgCall), [CfgCall.when_ (some A), .receives (some e), .itTransitionsTo (some new)][n]? = some k ∧
      k.throws rs (hist rs (ks ++ [CfgCall.when_ (some A), .receives (some e), .itTransitionsTo (some new)].take n)) ≠ none := by
  intro h
  obtain ⟨n, k, hk, ht⟩ := h Ex.rs Ex.calls Ex.A Ex.e Ex.B Ex.A (by decide +kernel)
  have := (C05_remapping_is_accepted Ex.rs Ex.calls Ex.A Ex.e Ex.B Ex.A (by decide +kernel) (by decide +kernel)
    (by decide +kernel) (by decide +kernel)).1
  match n with
  | 0 => have := this 0 (by omega); simp at hk; subst hk; simp at this; exact ht this
  | 1 => have := this 1 (by omega); simp at hk; subst hk; simp at this; exact ht this
  | 2 => have := this 2 (by omega); simp at hk; subst hk; simp at this; exact ht this
  | n + 3 => simp at hk

/-- What is left of C05: an outcome without an event (`when(A).itTransitionsTo(B)`) cannot be given twice; the second
attempt is rejected and changes nothing, though with a NullPointerException instead of the intended
IllegalStateException, because the message dereferences the missing event (GenericStateMachine.java:156). -/
theorem C05_remapping_partial (rs : Reserved) (ks : List CfgCall) (A : St) (old new : St)
    (hm : (hist rs ks).marked = some A) (he : (hist rs ks).markedEv = none)
    (hmapped : leadsTo (hist rs ks) A.name none = some old) (hnew : Spec.usableState new) :
    (CfgCall.itTransitionsTo (some new)).throws rs (hist rs ks) = some .npe ∧
    CfgCall.itDoesNotTransition.throws rs (hist rs ks) = some .npe ∧
    CfgCall.itEnds.throws rs (hist rs ks) = some (.ise .mappingsExist) := by
  have hinv := (CInv.empty rs).run ks
  obtain ⟨hi, -, hg⟩ := hinv.markedOk A hm
  obtain ⟨r, hg⟩ := Option.ne_none_iff_exists'.1 hg
  rw [usable_iff] at hnew
  have ht : r.target none = some old := by simpa [leadsTo, hg] using hmapped
  have hne : r.ents ≠ [] := by intro h; simp [Row.target, h] at ht
  simp [CfgCall.throws, run_itTransitionsTo hinv, run_itDoesNotTransition hinv, run_itEnds hinv, hnew, outcomeResult,
    hi, hm, he, hg, ht, hne]

example : let ks : List CfgCall := [.initialSate (some Ex.A), .itTransitionsTo (some Ex.B), .when_ (some Ex.A)]
    (hist Ex.rs ks).marked = some Ex.A ∧ (hist Ex.rs ks).markedEv = none ∧
    leadsTo (hist Ex.rs ks) Ex.A.name none = some Ex.B := by decide +kernel

/-! #### C06 -/

/-- Some `receives(e)` was never given an outcome: the specification says so (last word of the history on that pair). -/
def someDangling (ks : List CfgCall) : Prop :=
  ∃ s k, (Spec.Dsl.run .empty ks).trans s k = some .pending

theorem absEmpty (rs : Reserved) : absCfg rs CfgSt.empty = Spec.Dsl.empty := by
  simp [absCfg, CfgSt.empty, Spec.Dsl.empty, absPhase, CfgSt.entry]

theorem dangling_iff {rs : Reserved} {c : CfgSt} (h : CInv rs c) :
    (c.table.any (fun r => r.2.ents.any (fun e => e.2.isNone))) = true ↔ ∃ s k, c.entry s k = some none := by
  simp only [List.any_eq_true]
  constructor
  · rintro ⟨⟨n, r⟩, hr, ⟨k, v⟩, hk, hv⟩
    have h1 := h.keyed.get?_of_mem hr
    have h2 := (h.keyedRow _ _ h1).get?_of_mem hk
    simp only [Option.isNone_iff_eq_none] at hv
    refine ⟨n, k, ?_⟩
    simp [CfgSt.entry, h1, h2, hv]
  · rintro ⟨n, k, hk⟩
    obtain ⟨r, hg, hk⟩ := Option.bind_eq_some_iff.1 hk
    exact ⟨(n, r), AMap.get?_some_mem hg, (k, none), AMap.get?_some_mem hk, rfl⟩

/-- C06: the checks of `start()` pass exactly when there is an initial state and no `receives(e)` was left without an
outcome; otherwise the exception is an IllegalStateException. -/
theorem C06_start_accepts_complete (rs : Reserved) (ks : List CfgCall) :
    (startChecks (hist rs ks).init (hist rs ks).table = none ↔
      initAccepted rs ks CfgSt.empty ∧ ¬ someDangling ks) ∧
    (∀ x, startChecks (hist rs ks).init (hist rs ks).table = some x → ∃ i, x = .ise i) := by
  have hinv := (CInv.empty rs).run ks
  have habs := abs_run (CInv.empty rs) ks
  rw [absEmpty] at habs
  have hd : someDangling ks ↔ ∃ s k, (hist rs ks).entry s k = some none := by
    unfold someDangling
    rw [← habs]
    simp only [absCfg]
    refine exists_congr fun s => exists_congr fun k => ?_
    rcases hk : (cfgRun rs ks CfgSt.empty).entry s k with _ | (_ | t)
    · simp
    · simp [absOutcome]
    · simp only [Option.map_some, absOutcome]; grind
  rw [initAccepted_iff ks (CInv.empty rs) rfl, hd, ← dangling_iff hinv]
  unfold startChecks
  constructor
  · by_cases hi : (hist rs ks).init = none
    · simp [hi]
    · have ht : (hist rs ks).table ≠ [] := by
        obtain ⟨i, hi'⟩ := Option.ne_none_iff_exists'.1 hi
        intro h; exact (hinv.initOk i hi').2 (by simp [h])
      obtain ⟨i, hi'⟩ := Option.ne_none_iff_exists'.1 hi
      simp only [hi', Option.isNone_some]
      simp [ht]
  · intro x; grind

example : initAccepted Ex.rs Ex.calls CfgSt.empty ∧ startChecks (hist Ex.rs Ex.calls).init (hist Ex.rs Ex.calls).table = none :=
  ⟨Or.inl ⟨some Ex.A, rfl, by decide +kernel⟩, by decide +kernel⟩
example : startChecks (hist Ex.rs (Ex.calls ++ [.when_ (some Ex.A), .receives (some Ex.f)])).init
    (hist Ex.rs (Ex.calls ++ [.when_ (some Ex.A), .receives (some Ex.f)])).table = some (.ise .dangling) := by decide +kernel

/-! #### C07 -/

/-- C07: with a clause for S open and no event named, `itEnds()` is accepted exactly when no event (named or not) has
been configured for S, not even one waiting for its outcome; and then S is a state in which the machine ends. -/
theorem C07_immediate_end (rs : Reserved) (ks : List CfgCall) (S : St)
    (hm : (hist rs ks).marked = some S) (he : (hist rs ks).markedEv = none) :
    (CfgCall.itEnds.throws rs (hist rs ks) = none ↔ ∀ k, (Spec.Dsl.run .empty ks).trans S.name k = none) ∧
    (CfgCall.itEnds.throws rs (hist rs ks) = none →
      leadsTo (CfgCall.itEnds.after rs (hist rs ks)) S.name (some immKey) = some rs.endSt) ∧
    (CfgCall.itEnds.throws rs (hist rs ks) ≠ none →
      CfgCall.itEnds.throws rs (hist rs ks) = some (.ise .mappingsExist)) := by
  have hinv := (CInv.empty rs).run ks
  have habs := abs_run (CInv.empty rs) ks
  rw [absEmpty] at habs
  obtain ⟨hi, -, hg⟩ := hinv.markedOk S hm
  obtain ⟨r, hg⟩ := Option.ne_none_iff_exists'.1 hg
  have hent : r.ents = [] ↔ ∀ k, (Spec.Dsl.run .empty ks).trans S.name k = none := by
    rw [← habs, eq_nil_iff_get?]
    simp [absCfg, CfgSt.entry, hg]
  rw [← hent]
  unfold CfgCall.throws CfgCall.after
  rw [run_itEnds hinv]
  by_cases hr : r.ents = []
  · simp only [outcomeResult, hi, hm, he, hg, hr, if_false, if_true, Option.getD_some]
    simp only [leadsTo_eq, entry_putClose hg]
    simp
  · simp [outcomeResult, hi, hm, he, hg, hr]

example : (hist Ex.rs (Ex.calls.take 4)).marked = some Ex.B ∧ (hist Ex.rs (Ex.calls.take 4)).markedEv = none ∧
    CfgCall.itEnds.throws Ex.rs (hist Ex.rs (Ex.calls.take 4)) = none := by decide +kernel

/-! #### C08 -/

/-- C08: the DSL accepts exactly the calls of the specification automaton `Spec.Dsl.step`, after every history, and
does to the configuration what the specification says. -/
theorem C08_grammar (rs : Reserved) (ks : List CfgCall) (k : CfgCall) :
    (k.throws rs (hist rs ks) = none ↔ ((Spec.Dsl.run .empty ks).step k).isSome) ∧
    absCfg rs (hist rs ks) = Spec.Dsl.run .empty ks := by
  have hinv := (CInv.empty rs).run ks
  have habs := abs_run (CInv.empty rs) ks
  rw [absEmpty] at habs
  refine ⟨?_, habs⟩
  have hs := abs_step hinv k
  rw [habs] at hs
  unfold CfgCall.throws
  cases hr : k.run rs (hist rs ks) with
  | ok u c' => rw [hr] at hs; simp [hs]
  | error e c' => rw [hr] at hs; simp [hs]

example : (CfgCall.when_ (some Ex.A)).throws Ex.rs (hist Ex.rs Ex.calls) = none ∧
    CfgCall.itEnds.throws Ex.rs (hist Ex.rs Ex.calls) = some (.ise .noMarked) := by decide +kernel

end Verif
