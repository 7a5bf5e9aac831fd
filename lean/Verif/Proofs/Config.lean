import Verif.Spec.Config
/-
Invariants of the configuration methods and a closed form for every call.
-/

namespace Verif
open AMap

/-- A name is reserved. -/
def isRes (n : String) : Prop := n = resEnd ∨ n = resUninit ∨ n = resNoop

instance (n : String) : Decidable (isRes n) := by unfold isRes; infer_instance

structure CInv (rs : Reserved) (c : CfgSt) : Prop where
  noinit : c.init = none → c.table = [] ∧ c.marked = none ∧ c.markedEv = none
  res : c.init ≠ none → ∀ n, isRes n → get? c.table n = some ⟨true, []⟩
  nonres : ∀ n r, ¬ isRes n → get? c.table n = some r → r.ro = false
  initOk : ∀ i, c.init = some i → ¬ isRes i.name ∧ get? c.table i.name ≠ none
  markedOk : ∀ s, c.marked = some s → c.init ≠ none ∧ ¬ isRes s.name ∧ get? c.table s.name ≠ none
  markedEvOk : ∀ e, c.markedEv = some e → e.name ≠ resImmediate ∧
    ∃ s r, c.marked = some s ∧ get? c.table s.name = some r ∧ get? r.ents (some e.key) = some none
  targets : ∀ n r k t, get? c.table n = some r → get? r.ents k = some (some t) →
    ¬ isRes t.name ∨ t = rs.endSt ∨ t = rs.noopSt
  imm : ∀ n r k v, get? c.table n = some r → get? r.ents (some k) = some v → k.name = resImmediate →
    k = immKey ∧ v = some rs.endSt
  nullKey : ∀ n r, get? c.table n = some r → get? r.ents none ≠ some none
  keyed : Keyed c.table
  keyedRow : ∀ n r, get? c.table n = some r → Keyed r.ents

theorem CInv.empty (rs : Reserved) : CInv rs CfgSt.empty := by
  constructor <;> simp [CfgSt.empty, Keyed]

theorem any_reserved (n : String) : (reservedStateNames.any (fun r => r == n)) = decide (isRes n) := by
  rw [Bool.eq_iff_iff]
  simp [reservedStateNames, isRes, eq_comm (a := n)]
  grind

section
variable {rs : Reserved} {c : CfgSt}

/-- The configuration after an outcome is given. -/
def CfgSt.putClose (c : CfgSt) (s : St) (r : Row) (k : Option EvKey) (v : Option St) : CfgSt :=
  ⟨c.init, none, none, put c.table s.name ⟨r.ro, put r.ents k v⟩⟩

macro "cfg_simp" : tactic => `(tactic|
  simp [bind, EStateM.bind, pure, EStateM.pure, throw, throwThe, MonadExceptOf.throw, EStateM.throw, get, getThe,
    MonadStateOf.get, EStateM.get, modify, modifyGet, MonadStateOf.modifyGet, EStateM.modifyGet, *])

theorem run_initialSate_none : (CfgCall.initialSate none).run rs c = .error .npe c := rfl
theorem run_when_none : (CfgCall.when_ none).run rs c = .error .npe c := rfl
theorem run_receives_none : (CfgCall.receives none).run rs c = .error .npe c := rfl
theorem run_itTransitionsTo_none : (CfgCall.itTransitionsTo none).run rs c = .error .npe c := rfl

theorem run_when (s : St) : (CfgCall.when_ (some s)).run rs c =
    if isRes s.name then .error (.ise .reservedState) c
    else if c.init = none then .error (.ise .noInit) c
    else if c.marked ≠ none then .error (.ise .marked) c
    else .ok () { c with table := putIfAbsent c.table s.name ⟨false, []⟩, marked := some s } := by
  unfold CfgCall.run when_ assertNotReservedState assertInitStateDefined assertMarkedStateDefined
  simp only [any_reserved]
  by_cases h1 : isRes s.name
  · cfg_simp
  · obtain ⟨i, m, e, t⟩ := c
    cases i <;> cases m <;> cfg_simp

theorem run_initialSate (h : CInv rs c) (s : St) : (CfgCall.initialSate (some s)).run rs c =
    if isRes s.name then .error (.ise .reservedState) c
    else if c.init ≠ none then .error (.ise .initExists) c
    else .ok () ⟨some s, some s, none, [(s.name, ⟨false, []⟩), (resEnd, ⟨true, []⟩), (resUninit, ⟨true, []⟩),
      (resNoop, ⟨true, []⟩)]⟩ := by
  unfold CfgCall.run initialSate when_ assertNotReservedState assertInitStateDefined assertMarkedStateDefined
  simp only [any_reserved]
  by_cases h1 : isRes s.name
  · cfg_simp
  · obtain ⟨i, m, e, t⟩ := c
    cases i with
    | some i => cfg_simp
    | none =>
      obtain ⟨rfl, rfl, rfl⟩ : t = [] ∧ m = none ∧ e = none := h.noinit rfl
      have h2 : ¬ s.name = resEnd := fun hh => h1 (Or.inl hh)
      have h3 : ¬ s.name = resUninit := fun hh => h1 (Or.inr (Or.inl hh))
      have h4 : ¬ s.name = resNoop := fun hh => h1 (Or.inr (Or.inr hh))
      have h5 : ¬ resEnd = resUninit := by decide
      have h6 : ¬ resEnd = resNoop := by decide
      have h7 : ¬ resUninit = resNoop := by decide
      cfg_simp
      simp [put, putIfAbsent, get?, Reserved.endSt, Reserved.noSt, Reserved.noopSt, *]

theorem run_receives (h : CInv rs c) (e : Ev) : (CfgCall.receives (some e)).run rs c =
    if e.name = resImmediate then .error (.ise .reservedEvent) c
    else if c.init = none then .error (.ise .noInit) c
    else match c.marked with
      | none => .error (.ise .noMarked) c
      | some s => .ok () ⟨c.init, c.marked, some e, put c.table s.name
          ⟨false, put ((get? c.table s.name).getD ⟨false, []⟩).ents (some e.key) none⟩⟩ := by
  unfold CfgCall.run receives assertNotReservedStateEvent assertInitStateDefined assertMarkedStateDefined putMarked
    markedRow Table.row?
  by_cases h1 : e.name = resImmediate
  · cfg_simp
  · have h1' : ¬ resImmediate = e.name := fun hh => h1 hh.symm
    obtain ⟨i, m, me, t⟩ := c
    cases i with
    | none => cfg_simp
    | some i =>
      cases m with
      | none => cfg_simp
      | some s =>
        obtain ⟨-, hr, hs⟩ := h.markedOk s rfl
        cases hg : get? t s.name with
        | none => exact absurd hg hs
        | some r =>
          have := h.nonres _ _ hr hg
          cfg_simp

/-- Closed form of the three outcome methods, given the outcome. -/
def outcomeResult (c : CfgSt) (k : Option EvKey → Option EvKey) (okNoEv : Row → Option Exc) (v : St) :
    EStateM.Result Exc CfgSt Unit :=
  if c.init = none then .error (.ise .noInit) c
  else match c.marked with
    | none => .error (.ise .noMarked) c
    | some s =>
      let r := (get? c.table s.name).getD ⟨false, []⟩
      match c.markedEv with
      | some e => .ok () (c.putClose s r (some e.key) (some v))
      | none => match okNoEv r with
        | some e => .error e c
        | none => .ok () (c.putClose s r (k none) (some v))

theorem outcome_init {k f v u c'} (h : outcomeResult c k f v = .ok u c') : c'.init = c.init := by
  unfold outcomeResult at h
  split at h
  · cases h
  split at h
  · cases h
  simp only at h
  split at h
  · cases h; rfl
  split at h
  · cases h
  · cases h; rfl

theorem run_outcome_aux (h : CInv rs c) (v : St) :
    (do assertInitStateDefined true
        assertMarkedStateDefined true
        assertEventNotMapped
        putMarked ((← get).markedEv.map Ev.key) (some v)
        clearMarked : CfgM Unit) c =
      outcomeResult c id (fun r => if r.target none = none then none else some .npe) v := by
  unfold assertInitStateDefined assertMarkedStateDefined assertEventNotMapped putMarked
    markedRow Table.row? clearMarked outcomeResult
  obtain ⟨i, m, me, t⟩ := c
  cases i with
  | none => cfg_simp
  | some i =>
    cases m with
    | none => cfg_simp
    | some s =>
      obtain ⟨-, hr, hs⟩ := h.markedOk s rfl
      cases hg : get? t s.name with
      | none => exact absurd hg hs
      | some r =>
        have hro := h.nonres _ _ hr hg
        cases me with
        | none =>
          cases ht : r.target none with
          | none => cfg_simp; simp [CfgSt.putClose, hro]
          | some x => cfg_simp
        | some e =>
          obtain ⟨-, s', r', hs', hg', he⟩ := h.markedEvOk e rfl
          cases hs'
          rw [hg] at hg'; cases hg'
          have : r.target (some e.key) = none := by simp [Row.target, he]
          cfg_simp
          simp [CfgSt.putClose, hro]

theorem run_itDoesNotTransition (h : CInv rs c) : CfgCall.itDoesNotTransition.run rs c =
    outcomeResult c id (fun r => if r.target none = none then none else some .npe) rs.noopSt :=
  run_outcome_aux h rs.noopSt

theorem run_itTransitionsTo (h : CInv rs c) (s : St) : (CfgCall.itTransitionsTo (some s)).run rs c =
    if isRes s.name then .error (.ise .reservedState) c
    else outcomeResult c id (fun r => if r.target none = none then none else some .npe) s := by
  rw [← run_outcome_aux h s]
  unfold CfgCall.run itTransitionsTo assertNotReservedState
  simp only [any_reserved]
  by_cases h1 : isRes s.name
  · cfg_simp
  · simp [h1]

theorem run_itEnds (h : CInv rs c) : CfgCall.itEnds.run rs c =
    outcomeResult c (fun _ => some immKey) (fun r => if r.ents = [] then none else some (.ise .mappingsExist))
      rs.endSt := by
  unfold CfgCall.run itEnds assertInitStateDefined assertMarkedStateDefined assertEventNotMapped putMarked
    assertNoMappingsExistAtEnd markedRow Table.row? clearMarked outcomeResult
  obtain ⟨i, m, me, t⟩ := c
  cases i with
  | none => cfg_simp
  | some i =>
    cases m with
    | none => cfg_simp
    | some s =>
      obtain ⟨-, hr, hs⟩ := h.markedOk s rfl
      cases hg : get? t s.name with
      | none => exact absurd hg hs
      | some r =>
        have hro := h.nonres _ _ hr hg
        cases me with
        | none =>
          cases ht : r.ents with
          | nil => cfg_simp; simp [CfgSt.putClose, hro, ht]
          | cons x l => cfg_simp
        | some e =>
          obtain ⟨-, s', r', hs', hg', he⟩ := h.markedEvOk e rfl
          cases hs'
          rw [hg] at hg'; cases hg'
          have : r.target (some e.key) = none := by simp [Row.target, he]
          cfg_simp
          simp [CfgSt.putClose, hro]

theorem isRes_noop : isRes resNoop := Or.inr (Or.inr rfl)
theorem isRes_end : isRes resEnd := Or.inl rfl

/-- Writing one entry in the row of the marked state. -/
theorem CInv.putMarked (h : CInv rs c) {s : St} (hm : c.marked = some s) {r : Row} (hg : get? c.table s.name = some r)
    {k : Option EvKey} {v : Option St} {m' : Option St} {me' : Option Ev}
    (hmk : m' = none ∧ me' = none ∨ m' = c.marked ∧ ∃ e, me' = some e ∧ e.name ≠ resImmediate ∧ k = some e.key ∧ v = none)
    (ht : ∀ t, v = some t → ¬ isRes t.name ∨ t = rs.endSt ∨ t = rs.noopSt)
    (hi : ∀ k', k = some k' → k'.name = resImmediate → k' = immKey ∧ v = some rs.endSt)
    (hn : k = none → v ≠ none) :
    CInv rs ⟨c.init, m', me', put c.table s.name ⟨false, put r.ents k v⟩⟩ := by
  obtain ⟨hi0, hres, hg0⟩ := h.markedOk s hm
  constructor
  · intro hh; exact absurd hh hi0
  · intro _ n hn'
    have : s.name ≠ n := by rintro rfl; exact hres hn'
    simpa [get?_put, this] using h.res hi0 n hn'
  · intro n r' hn' hg'
    simp only [get?_put] at hg'
    split at hg'
    · cases hg'; rfl
    · exact h.nonres n r' hn' hg'
  · intro i hi'
    refine ⟨(h.initOk i hi').1, ?_⟩
    simp only [get?_put]
    split
    · simp
    · exact (h.initOk i hi').2
  · intro s' hs'
    rcases hmk with hmk | hmk
    · simp [hmk.1] at hs'
    · simp only [hmk.1, hm] at hs'
      cases hs'
      exact ⟨hi0, hres, by simp⟩
  · intro e he
    rcases hmk with hmk | ⟨hmk, e', he', hne, rfl, rfl⟩
    · simp [hmk.2] at he
    · simp only [he'] at he; cases he
      exact ⟨hne, s, _, by simp [hmk, hm], by simp; rfl, by simp⟩
  · intro n r' k' t hg' ht'
    simp only [get?_put] at hg'
    split at hg'
    · cases hg'
      simp only [get?_put] at ht'
      split at ht'
      · cases ht'; exact ht t rfl
      · exact h.targets _ _ _ _ hg ht'
    · exact h.targets _ _ _ _ hg' ht'
  · intro n r' k' v' hg' hv' hk'
    simp only [get?_put] at hg'
    split at hg'
    · cases hg'
      simp only [get?_put] at hv'
      split at hv'
      · cases hv'; rename_i hkk; exact hi k' hkk hk'
      · exact h.imm _ _ _ _ hg hv' hk'
    · exact h.imm _ _ _ _ hg' hv' hk'
  · intro n r' hg'
    simp only [get?_put] at hg'
    split at hg'
    · cases hg'
      simp only [get?_put]
      split
      · rename_i hk; simpa using hn hk
      · exact h.nullKey _ _ hg
    · exact h.nullKey _ _ hg'
  · exact h.keyed.put _ _
  · intro n r' hg'
    simp only [get?_put] at hg'
    split at hg'
    · cases hg'; exact (h.keyedRow _ _ hg).put _ _
    · exact h.keyedRow _ _ hg'

theorem CInv.outcome (h : CInv rs c) {k okNoEv v}
    (hv : ¬ isRes v.name ∨ v = rs.endSt ∨ v = rs.noopSt)
    (hk : k none = none ∨ (k none = some immKey ∧ v = rs.endSt)) :
    (∀ e c', outcomeResult c k okNoEv v = .error e c' → c' = c) ∧
    (∀ u c', outcomeResult c k okNoEv v = .ok u c' → CInv rs c') := by
  unfold outcomeResult
  split
  · refine ⟨?_, ?_⟩ <;> rintro _ _ ⟨⟩; rfl
  · split
    · refine ⟨?_, ?_⟩ <;> rintro _ _ ⟨⟩; rfl
    · rename_i hinit _ s hs
      obtain ⟨hi0, hres, hg0⟩ := h.markedOk s hs
      obtain ⟨r, hg⟩ := Option.ne_none_iff_exists'.1 hg0
      have hro := h.nonres _ _ hres hg
      simp only [hg, Option.getD_some]
      split
      · refine ⟨?_, ?_⟩ <;> rintro _ _ ⟨⟩
        rename_i e he
        unfold CfgSt.putClose; rw [hro]
        refine h.putMarked hs hg (Or.inl ⟨rfl, rfl⟩) ?_ ?_ ?_
        · rintro t ⟨⟩; exact hv
        · rintro k' ⟨⟩ hk'; exact absurd hk' (h.markedEvOk e he).1
        · simp
      · split
        · refine ⟨?_, ?_⟩ <;> rintro _ _ ⟨⟩; rfl
        · refine ⟨?_, ?_⟩ <;> rintro _ _ ⟨⟩
          unfold CfgSt.putClose; rw [hro]
          refine h.putMarked hs hg (Or.inl ⟨rfl, rfl⟩) ?_ ?_ ?_
          · rintro t ⟨⟩; exact hv
          · intro k' hk' hk''
            rcases hk with hk | ⟨hk, rfl⟩
            · simp [hk] at hk'
            · rw [hk] at hk'; cases hk'; simp
          · simp

/-- Every call keeps the invariant, and a call that throws changes nothing. -/
theorem CInv.step (h : CInv rs c) (k : CfgCall) :
    (∀ e c', k.run rs c = .error e c' → c' = c) ∧ (∀ u c', k.run rs c = .ok u c' → CInv rs c') := by
  cases k with
  | initialSate s =>
    cases s with
    | none => rw [run_initialSate_none]; refine ⟨?_, ?_⟩ <;> rintro _ _ ⟨⟩; rfl
    | some s =>
      rw [run_initialSate h]
      split
      · refine ⟨?_, ?_⟩ <;> rintro _ _ ⟨⟩; rfl
      · split
        · refine ⟨?_, ?_⟩ <;> rintro _ _ ⟨⟩; rfl
        · refine ⟨?_, ?_⟩ <;> rintro _ _ ⟨⟩
          rename_i h1 _
          have h2 : ¬ s.name = resEnd := fun hh => h1 (Or.inl hh)
          have h3 : ¬ s.name = resUninit := fun hh => h1 (Or.inr (Or.inl hh))
          have h4 : ¬ s.name = resNoop := fun hh => h1 (Or.inr (Or.inr hh))
          have h5 : ¬ resEnd = resUninit := by decide
          have h6 : ¬ resEnd = resNoop := by decide
          have h7 : ¬ resUninit = resNoop := by decide
          have hr : ∀ n r, get? [(s.name, (⟨false, []⟩ : Row)), (resEnd, ⟨true, []⟩), (resUninit, ⟨true, []⟩),
              (resNoop, ⟨true, []⟩)] n = some r → r.ents = [] ∧ (¬ isRes n → r.ro = false) := by
            intro n r; unfold isRes
            simp only [get?]
            grind
          constructor
          · simp
          · intro _ n hn
            rcases hn with rfl | rfl | rfl <;> simp [get?, *]
          · intro n r hn hg; exact (hr n r hg).2 hn
          · rintro i ⟨⟩; simp [get?, h1]
          · rintro i ⟨⟩; simp [get?, h1]
          · simp
          · intro n r k t hg; simp [(hr n r hg).1]
          · intro n r k t hg; simp [(hr n r hg).1]
          · intro n r hg; simp [(hr n r hg).1]
          · simp [Keyed, *]
          · intro n r hg; simp [(hr n r hg).1, Keyed]
  | when_ s =>
    cases s with
    | none => rw [run_when_none]; refine ⟨?_, ?_⟩ <;> rintro _ _ ⟨⟩; rfl
    | some s =>
      rw [run_when]
      split
      · refine ⟨?_, ?_⟩ <;> rintro _ _ ⟨⟩; rfl
      split
      · refine ⟨?_, ?_⟩ <;> rintro _ _ ⟨⟩; rfl
      split
      · refine ⟨?_, ?_⟩ <;> rintro _ _ ⟨⟩; rfl
      refine ⟨?_, ?_⟩ <;> rintro _ _ ⟨⟩
      rename_i h1 h2 h3
      have h3 : c.marked = none := by simpa using h3
      have hr : ∀ n r, get? (putIfAbsent c.table s.name (⟨false, []⟩ : Row)) n = some r →
          get? c.table n = some r ∨ n = s.name ∧ r = ⟨false, []⟩ := by
        intro n r
        rw [get?_putIfAbsent]
        split
        · rename_i hn; subst hn
          cases hg : get? c.table s.name <;> simp <;> rintro rfl <;> simp
        · exact Or.inl
      have hr' : ∀ n r, get? c.table n = some r → get? (putIfAbsent c.table s.name (⟨false, []⟩ : Row)) n = some r := by
        intro n r hg
        rw [get?_putIfAbsent]
        split
        · rename_i hn; subst hn; simp [hg]
        · exact hg
      constructor
      · intro hh; exact absurd hh h2
      · intro _ n hn; exact hr' _ _ (h.res h2 n hn)
      · intro n r hn hg
        rcases hr _ _ hg with hg | ⟨-, rfl⟩
        · exact h.nonres _ _ hn hg
        · rfl
      · intro i hi
        obtain ⟨r, hg⟩ := Option.ne_none_iff_exists'.1 (h.initOk i hi).2
        exact ⟨(h.initOk i hi).1, by simp [hr' _ _ hg]⟩
      · rintro i ⟨⟩
        exact ⟨h2, h1, by simp [get?_putIfAbsent]⟩
      · intro e he
        obtain ⟨-, s', r', hs', -⟩ := h.markedEvOk e he
        simp [h3] at hs'
      · intro n r k t hg ht
        rcases hr _ _ hg with hg | ⟨-, rfl⟩
        · exact h.targets _ _ _ _ hg ht
        · simp at ht
      · intro n r k t hg ht
        rcases hr _ _ hg with hg | ⟨-, rfl⟩
        · exact h.imm _ _ _ _ hg ht
        · simp at ht
      · intro n r hg
        rcases hr _ _ hg with hg | ⟨-, rfl⟩
        · exact h.nullKey _ _ hg
        · simp
      · unfold putIfAbsent; split
        · exact h.keyed
        · exact h.keyed.put _ _
      · intro n r hg
        rcases hr _ _ hg with hg | ⟨-, rfl⟩
        · exact h.keyedRow _ _ hg
        · simp [Keyed]
  | receives e =>
    cases e with
    | none => rw [run_receives_none]; refine ⟨?_, ?_⟩ <;> rintro _ _ ⟨⟩; rfl
    | some e =>
      rw [run_receives h]
      split
      · refine ⟨?_, ?_⟩ <;> rintro _ _ ⟨⟩; rfl
      split
      · refine ⟨?_, ?_⟩ <;> rintro _ _ ⟨⟩; rfl
      split
      · refine ⟨?_, ?_⟩ <;> rintro _ _ ⟨⟩; rfl
      refine ⟨?_, ?_⟩ <;> rintro _ _ ⟨⟩
      rename_i h1 h2 _ s hs
      obtain ⟨r, hg⟩ := Option.ne_none_iff_exists'.1 (h.markedOk s hs).2.2
      simp only [hg, Option.getD_some]
      refine h.putMarked hs hg (Or.inr ⟨rfl, e, rfl, h1, rfl, rfl⟩) ?_ ?_ ?_
      · simp
      · rintro k' ⟨⟩ hk'; exact absurd hk' h1
      · simp
  | itEnds =>
    rw [run_itEnds h]
    exact h.outcome (Or.inr (Or.inl rfl)) (Or.inr ⟨rfl, rfl⟩)
  | itTransitionsTo s =>
    cases s with
    | none => rw [run_itTransitionsTo_none]; refine ⟨?_, ?_⟩ <;> rintro _ _ ⟨⟩; rfl
    | some s =>
      rw [run_itTransitionsTo h]
      split
      · refine ⟨?_, ?_⟩ <;> rintro _ _ ⟨⟩; rfl
      · rename_i h1; exact h.outcome (Or.inl h1) (Or.inl rfl)
  | itDoesNotTransition =>
    rw [run_itDoesNotTransition h]
    exact h.outcome (Or.inr (Or.inr rfl)) (Or.inl rfl)

theorem CInv.after (h : CInv rs c) (k : CfgCall) : CInv rs (k.after rs c) := by
  have := h.step k
  unfold CfgCall.after
  split
  · exact this.2 _ _ ‹_›
  · rename_i heq; rw [this.1 _ _ heq]; exact h

theorem cfgRun_nil : cfgRun rs [] c = c := rfl
theorem cfgRun_cons (k : CfgCall) (ks : List CfgCall) : cfgRun rs (k :: ks) c = cfgRun rs ks (k.after rs c) := rfl
theorem cfgRun_append (ks ks' : List CfgCall) : cfgRun rs (ks ++ ks') c = cfgRun rs ks' (cfgRun rs ks c) := by
  simp [cfgRun]

theorem CInv.run (h : CInv rs c) (ks : List CfgCall) : CInv rs (cfgRun rs ks c) := by
  induction ks generalizing c with
  | nil => exact h
  | cons k ks ih => exact ih (h.after k)

/-! ### Refinement to the specification of the DSL -/

open Spec in
def absOutcome (rs : Reserved) : Option St → Outcome
  | none => .pending
  | some t => if t = rs.endSt then .ends else if t = rs.noopSt then .stays else .goesTo t

open Spec in
def absPhase (c : CfgSt) : Phase :=
  match c.init, c.marked, c.markedEv with
  | none, _, _ => .fresh
  | some _, none, _ => .closed
  | some _, some s, none => .on s.name
  | some _, some s, some e => .onEv s.name e.key

/-- What the table holds for a pair. -/
def CfgSt.entry (c : CfgSt) (n : String) (k : Option EvKey) : Option (Option St) :=
  (get? c.table n).bind (fun r => get? r.ents k)

open Spec in
def absCfg (rs : Reserved) (c : CfgSt) : Dsl :=
  ⟨absPhase c, fun n k => (c.entry n k).map (absOutcome rs)⟩

theorem usable_iff (s : St) : Spec.usableState s ↔ ¬ isRes s.name := by
  unfold Spec.usableState isRes resEnd resUninit resNoop; grind

theorem usableEv_iff (e : Ev) : Spec.usableEvent e ↔ e.name ≠ resImmediate := Iff.rfl

theorem absOutcome_user {s : St} (h : ¬ isRes s.name) : absOutcome rs (some s) = .goesTo s := by
  have h1 : s ≠ rs.endSt := by rintro rfl; exact h isRes_end
  have h2 : s ≠ rs.noopSt := by rintro rfl; exact h isRes_noop
  simp [absOutcome, h1, h2]

theorem endSt_ne_noopSt : rs.endSt ≠ rs.noopSt := by
  intro h; have : resEnd = resNoop := congrArg St.name h; revert this; decide

theorem entry_putClose {s : St} {r : Row} (hg : get? c.table s.name = some r) (k : Option EvKey) (v : Option St)
    (n : String) (k' : Option EvKey) :
    (c.putClose s r k v).entry n k' = if n = s.name ∧ k' = k then some v else c.entry n k' := by
  simp only [CfgSt.entry, CfgSt.putClose, get?_put]
  by_cases hn : n = s.name
  · subst hn
    by_cases hk : k' = k
    · simp [hk]
    · simp [get?_put, hk, hg, Ne.symm hk]
  · simp [hn, Ne.symm hn]

open Spec in
theorem abs_outcome (h : CInv rs c) {k okNoEv v} :
    match outcomeResult c k okNoEv v with
    | .ok _ c' => ∃ s r, c.init ≠ none ∧ c.marked = some s ∧ get? c.table s.name = some r ∧
        ((∃ e, c.markedEv = some e ∧
            absCfg rs c' = (absCfg rs c).set .closed s.name (some e.key) (absOutcome rs (some v))) ∨
         (c.markedEv = none ∧ okNoEv r = none ∧
            absCfg rs c' = (absCfg rs c).set .closed s.name (k none) (absOutcome rs (some v))))
    | .error _ _ => c.init = none ∨ c.marked = none ∨
        ∃ s r, c.init ≠ none ∧ c.marked = some s ∧ get? c.table s.name = some r ∧ c.markedEv = none ∧ okNoEv r ≠ none := by
  have key : ∀ s r k', c.init ≠ none → get? c.table s.name = some r →
      absCfg rs (c.putClose s r k' (some v)) = (absCfg rs c).set .closed s.name k' (absOutcome rs (some v)) := by
    intro s r k' hi hg
    simp only [absCfg, Dsl.set, Dsl.mk.injEq]
    constructor
    · cases hc : c.init <;> simp_all [absPhase, CfgSt.putClose]
    · funext n k''
      simp only [entry_putClose hg]
      split <;> simp
  by_cases hi : c.init = none
  · simp [outcomeResult, hi]
  · cases hm : c.marked with
    | none => simp [outcomeResult, hi, hm]
    | some s =>
      obtain ⟨r, hg⟩ := Option.ne_none_iff_exists'.1 (h.markedOk s hm).2.2
      cases he : c.markedEv with
      | some e =>
        simp only [outcomeResult, hi, hm, he, hg, if_false, Option.getD_some]
        exact ⟨s, r, hi, rfl, hg, Or.inl ⟨e, rfl, key s r _ hi hg⟩⟩
      | none =>
        cases hne : okNoEv r with
        | some e =>
          simp only [outcomeResult, hi, hm, he, hg, hne, if_false, Option.getD_some]
          exact Or.inr (Or.inr ⟨s, r, hi, rfl, hg, trivial, by simp [hne]⟩)
        | none =>
          simp only [outcomeResult, hi, hm, he, hg, hne, if_false, Option.getD_some]
          exact ⟨s, r, hi, rfl, hg, Or.inr ⟨trivial, hne, key s r _ hi hg⟩⟩

theorem entry_null (h : CInv rs c) {n : String} {r : Row} (hg : get? c.table n = some r) :
    r.target none = none ↔ c.entry n none = none := by
  have := h.nullKey _ _ hg
  simp only [Row.target, CfgSt.entry, hg, Option.bind_some]
  rcases hk : get? r.ents none with _ | (_ | t) <;> simp_all

open Spec in
theorem abs_outcome' (h : CInv rs c) {v : St} :
    match outcomeResult c id (fun r => if r.target none = none then none else some .npe) v with
    | .ok _ c' => (absCfg rs c).outcome (absOutcome rs (some v)) = some (absCfg rs c')
    | .error _ _ => (absCfg rs c).outcome (absOutcome rs (some v)) = none := by
  have ho := abs_outcome h (k := id) (okNoEv := fun r => if r.target none = none then none else some .npe) (v := v)
  cases hr : outcomeResult c id (fun r => if r.target none = none then none else some .npe) v with
  | ok u c' =>
    rw [hr] at ho
    obtain ⟨s, r, hi, hm, hg, ho⟩ := ho
    obtain ⟨i, hi⟩ := Option.ne_none_iff_exists'.1 hi
    rcases ho with ⟨e, he, ho⟩ | ⟨he, hne, ho⟩
    · have hp : (absCfg rs c).phase = .onEv s.name e.key := by simp [absCfg, absPhase, hi, hm, he]
      simp [Dsl.outcome, hp, ho]
    · have hp : (absCfg rs c).phase = .on s.name := by simp [absCfg, absPhase, hi, hm, he]
      have : r.target none = none := by simpa using hne
      have : (absCfg rs c).trans s.name none = none := by simp [absCfg, (entry_null h hg).1 this]
      simp [Dsl.outcome, hp, this, ho]
  | error e c' =>
    rw [hr] at ho
    rcases ho with hi | hm | ⟨s, r, hi, hm, hg, he, hne⟩
    · simp [Dsl.outcome, absCfg, absPhase, hi]
    · cases hi : c.init <;> simp [Dsl.outcome, absCfg, absPhase, hi, hm]
    · obtain ⟨i, hi⟩ := Option.ne_none_iff_exists'.1 hi
      have hp : (absCfg rs c).phase = .on s.name := by simp [absCfg, absPhase, hi, hm, he]
      have hne : ¬ r.target none = none := by simpa using hne
      rw [entry_null h hg] at hne
      have : (absCfg rs c).trans s.name none ≠ none := by simpa [absCfg] using hne
      simp [Dsl.outcome, hp, this]

open Spec in
/-- One call of the code is one step of the specification. -/
theorem abs_step (h : CInv rs c) (k : CfgCall) :
    match k.run rs c with
    | .ok _ c' => (absCfg rs c).step k = some (absCfg rs c')
    | .error _ _ => (absCfg rs c).step k = none := by
  cases k with
  | initialSate s =>
    cases s with
    | none => simp [run_initialSate_none, Dsl.step]
    | some s =>
      rw [run_initialSate h]
      by_cases h1 : isRes s.name
      · simp [h1, Dsl.step, usable_iff]
      · by_cases h2 : c.init = none
        · simp only [h1, h2, if_false, ne_eq, not_true_eq_false]
          obtain ⟨h3, h4, h5⟩ := h.noinit h2
          have h6 : (absCfg rs c).phase = .fresh := by simp [absCfg, absPhase, h2]
          simp only [Dsl.step, h6, usable_iff, h1, not_false_eq_true, and_self, if_true, Option.some.injEq]
          simp only [absCfg, Dsl.mk.injEq]
          refine ⟨by simp [absPhase], ?_⟩
          funext n k
          simp only [CfgSt.entry, h3, get?]
          grind [AMap.get?_nil]
        · have h6 : (absCfg rs c).phase ≠ .fresh := by
            simp only [absCfg, absPhase]; split <;> simp_all
          simp [h1, h2, Dsl.step, h6]
  | when_ s =>
    cases s with
    | none => simp [run_when_none, Dsl.step]
    | some s =>
      rw [run_when]
      by_cases h1 : isRes s.name
      · simp [h1, Dsl.step, usable_iff]
      · by_cases h2 : c.init = none
        · simp [h1, h2, Dsl.step, absCfg, absPhase]
        · by_cases h3 : c.marked = none
          · obtain ⟨i, hi⟩ := Option.ne_none_iff_exists'.1 h2
            have h5 : c.markedEv = none := by
              cases he : c.markedEv with
              | none => rfl
              | some e =>
                obtain ⟨-, s', r', hs', -⟩ := h.markedEvOk e he
                simp [h3] at hs'
            have h6 : (absCfg rs c).phase = .closed := by simp [absCfg, absPhase, hi, h3]
            simp only [h1, h2, h3, if_false, ne_eq, not_true_eq_false]
            simp only [Dsl.step, h6, usable_iff, h1, not_false_eq_true, and_self, if_true, Option.some.injEq]
            simp only [absCfg, Dsl.mk.injEq]
            refine ⟨by simp [absPhase, hi, h5], ?_⟩
            funext n k
            simp only [CfgSt.entry, get?_putIfAbsent]
            split
            · rename_i hn; subst hn
              cases get? c.table s.name <;> simp
            · rfl
          · have h6 : (absCfg rs c).phase ≠ .closed := by
              simp only [absCfg, absPhase]; split <;> simp_all
            simp [h1, h2, h3, Dsl.step, h6]
  | receives e =>
    cases e with
    | none => simp [run_receives_none, Dsl.step]
    | some e =>
      rw [run_receives h]
      by_cases h1 : e.name = resImmediate
      · simp [h1, Dsl.step, usableEv_iff]
      · by_cases h2 : c.init = none
        · simp [h1, h2, Dsl.step, absCfg, absPhase]
        · obtain ⟨i, hi⟩ := Option.ne_none_iff_exists'.1 h2
          cases h3 : c.marked with
          | none => simp [h1, Dsl.step, absCfg, absPhase, hi, h3]
          | some s =>
            obtain ⟨r, hg⟩ := Option.ne_none_iff_exists'.1 (h.markedOk s h3).2.2
            simp only [h1, h2, if_false, hg, Option.getD_some]
            have hx : (absCfg rs c).phase = .on s.name ∨ ∃ e', (absCfg rs c).phase = .onEv s.name e' := by
              cases h4 : c.markedEv <;> simp [absCfg, absPhase, hi, h3, h4]
            have hy : (absCfg rs c).set (.onEv s.name e.key) s.name (some e.key) .pending =
                absCfg rs ⟨c.init, some s, some e, put c.table s.name ⟨false, put r.ents (some e.key) none⟩⟩ := by
              simp only [absCfg, Dsl.set, Dsl.mk.injEq]
              refine ⟨by simp [absPhase, hi], ?_⟩
              funext n k
              simp only [CfgSt.entry, get?_put]
              by_cases hn : n = s.name
              · subst hn
                by_cases hk : k = some e.key
                · simp [hk, absOutcome]
                · simp [get?_put, hk, hg, Ne.symm hk]
              · simp [hn, Ne.symm hn]
            rcases hx with hx | ⟨e', hx⟩ <;> simp [Dsl.step, usableEv_iff, h1, hx, hy]
  | itEnds =>
    rw [run_itEnds h]
    have ho := abs_outcome h (k := fun _ => some immKey)
      (okNoEv := fun r => if r.ents = [] then none else some (Exc.ise Ise.mappingsExist)) (v := rs.endSt)
    have hent : ∀ s r, get? c.table s = some r → (r.ents = [] ↔ ∀ k, (absCfg rs c).trans s k = none) := by
      intro s r hg
      rw [eq_nil_iff_get?]; simp [absCfg, CfgSt.entry, hg]
    cases hr : outcomeResult c (fun _ => some immKey)
        (fun r => if r.ents = [] then none else some (Exc.ise Ise.mappingsExist)) rs.endSt with
    | ok u c' =>
      rw [hr] at ho
      obtain ⟨s, r, hi, hm, hg, ho⟩ := ho
      obtain ⟨i, hi⟩ := Option.ne_none_iff_exists'.1 hi
      rcases ho with ⟨e, he, ho⟩ | ⟨he, hne, ho⟩
      · have hp : (absCfg rs c).phase = .onEv s.name e.key := by simp [absCfg, absPhase, hi, hm, he]
        simp [Dsl.step, hp, ho, absOutcome]
      · have hp : (absCfg rs c).phase = .on s.name := by simp [absCfg, absPhase, hi, hm, he]
        have : r.ents = [] := by simpa using hne
        have := (hent _ _ hg).1 this
        simp [Dsl.step, hp, this, ho, absOutcome, immKey, resImmediate]
    | error e c' =>
      rw [hr] at ho
      rcases ho with hi | hm | ⟨s, r, hi, hm, hg, he, hne⟩
      · simp [Dsl.step, absCfg, absPhase, hi]
      · cases hi : c.init <;> simp [Dsl.step, absCfg, absPhase, hi, hm]
      · obtain ⟨i, hi⟩ := Option.ne_none_iff_exists'.1 hi
        have hp : (absCfg rs c).phase = .on s.name := by simp [absCfg, absPhase, hi, hm, he]
        have : ¬ r.ents = [] := by simpa using hne
        rw [hent _ _ hg] at this
        simp only [Dsl.step, hp, this, if_false]
  | itTransitionsTo s =>
    cases s with
    | none => simp [run_itTransitionsTo_none, Dsl.step]
    | some t =>
      rw [run_itTransitionsTo h]
      by_cases h1 : isRes t.name
      · simp [h1, Dsl.step, usable_iff]
      · simp only [h1, if_false, Dsl.step, usable_iff, not_false_eq_true, if_true]
        rw [← absOutcome_user h1]
        exact abs_outcome' h
  | itDoesNotTransition =>
    rw [run_itDoesNotTransition h]
    have : Outcome.stays = absOutcome rs (some rs.noopSt) := by
      simp [absOutcome, endSt_ne_noopSt.symm]
    simp only [Dsl.step, this]
    exact abs_outcome' h

open Spec in
theorem abs_run (h : CInv rs c) (ks : List CfgCall) :
    absCfg rs (cfgRun rs ks c) = (absCfg rs c).run ks := by
  induction ks generalizing c with
  | nil => rfl
  | cons k ks ih =>
    simp only [cfgRun, Dsl.run, List.foldl_cons]
    have hs := abs_step h k
    have hc := (h.step k).1
    have : ((absCfg rs c).step k).getD (absCfg rs c) = absCfg rs (k.after rs c) := by
      unfold CfgCall.after
      cases hr : k.run rs c with
      | ok u c' => rw [hr] at hs; simp [hs]
      | error e c' => rw [hr] at hs; simp [hs, hc _ _ hr]
    rw [this]
    exact ih (h.after k)

end
end Verif
