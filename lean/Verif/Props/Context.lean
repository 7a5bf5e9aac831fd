import Verif.Proofs.Context
/-
C84: the subsystems an app starts and stops, when the list of subsystems is replaced or changed while the app runs.
-/

namespace Verif.Ctx
open Spec.Ctx

/-! ### What a phase works on -/

/-- A phase takes the list given last, and begins with the elements it has at that moment. -/
theorem C84_begin {w : W} (hw : Reach w) {a r : List Entry} {up : Bool} {l : Option LRef} {xs : List (Option Sub)}
    (h : w.log = a ++ .begun up l xs :: r) : l = listNow a ∧ xs = l.elim [] (elems a) :=
  (inv hw).log.beg _ _ _ _ _ h

/-- Phases do not overlap: the next thing that begins or ends after the beginning of a phase is the end of this phase. -/
theorem C84_alone {w : W} (hw : Reach w) {a mid rest r : List Entry} {up : Bool} {l : Option LRef} {xs : List (Option Sub)} {e : Entry}
    (h : During w.log a up l xs mid rest) (hr : rest = e :: r) (he : bound e = true) : e = .finished up ∨ e = .aborted up := by
  obtain ⟨h1, h2⟩ := h
  subst hr
  cases e with
  | begun up' l' xs' =>
    refine absurd ⟨rfl, h2⟩ ((inv hw).log.nest (a ++ .begun up l xs :: mid) (.begun up' l' xs') r (by rw [h1]; simp) a up l xs mid)
  | finished u => rw [((inv hw).log.fin _ _ _ _ _ _ _ h1 h2).1]; exact .inl rfl
  | aborted u => rw [((inv hw).log.abt _ _ _ _ _ _ _ h1 h2).1]; exact .inr rfl
  | _ => cases he

/-- Subsystems are started in phases of starting and stopped in phases of stopping only. -/
theorem C84_within {w : W} (hw : Reach w) {p r : List Entry} {up : Bool} {x : Sub} (h : w.log = p ++ .call up x :: r) :
    ∃ a l xs mid, During w.log a up l xs mid (.call up x :: r) := by
  obtain ⟨a, l, xs, mid, h1, h2⟩ := (inv hw).log.nest _ _ _ h
  exact ⟨a, l, xs, mid, by rw [h, h1]; simp, h2⟩

/-- Whenever the app comes to STARTING a phase of starting begins, whenever it comes to STOPPING a phase of stopping; and phases begin at no other time. -/
theorem C84_states {w : W} (hw : Reach w) (up : Bool) :
    (∀ p r, w.log = p ++ .state (if up then STATE_STARTING else STATE_STOPPING) :: r → ∃ l xs r', r = .begun up l xs :: r') ∧
    (∀ p l xs r, w.log = p ++ .begun up l xs :: r → ∃ p', p = p' ++ [.state (if up then STATE_STARTING else STATE_STOPPING)]) :=
  ⟨fun _ _ h => (pairs hw).state h, fun _ _ _ _ h => (pairs hw).begun h⟩

/-- Events are taken in the order in which they were fired, by clients or by the loops of phases (`complete` at the end, `error` when aborted); none is lost. -/
theorem C84_fifo {w : W} (hw : Reach w) : eventsOf w.log = takenOf w.log ++ w.queue := (told hw).fifo

/-- The app is in the state to which the events taken lead (the lifecycle of C41). It comes to a state when an event leads to it, and at no other time. -/
theorem C84_state {w : W} (hw : Reach w) : w.state = leads (takenOf w.log) ∧
    (∀ p s r, w.log = p ++ .state s :: r → ∃ p' ev, p = p' ++ [.taken ev] ∧ next (leads (takenOf p')) ev = some s) ∧
    ∀ p ev r s, w.log = p ++ .taken ev :: r → next (leads (takenOf p)) ev = some s → ∃ r', r = .state s :: r' :=
  ⟨(told hw).state, (told hw).states, (told hw).all⟩

/-! ### How a phase ends -/

/-- A phase that finishes had a list, every subsystem it called returned normally, and if nobody changed the list meanwhile it called every element of
the list, each as often as it is there, in the order of the list (starting) or in the reverse order (stopping). -/
theorem C84_finished {w : W} (hw : Reach w) {a mid r : List Entry} {up : Bool} {l : Option LRef} {xs : List (Option Sub)}
    (h : During w.log a up l xs mid (.finished up :: r)) :
    ∃ l0, l = some l0 ∧
      ((∀ e ∈ mid, touched l0 e = false) → (called up mid).map some = if up then xs else xs.reverse) ∧
      (∀ u x ok, .ret u x ok ∈ mid → u = up ∧ ok = true) ∧
      mid.filterMap (fun | .ret _ x _ => some x | _ => none) = called up mid ∧ called (!up) mid = [] := by
  obtain ⟨-, l0, h1, h2, h3, h4, h5, -⟩ := (inv hw).log.fin _ _ _ _ _ _ _ h.1 h.2
  exact ⟨l0, h1, h2, h3, h5, h4⟩

/-- Whatever is done to the list meanwhile: a phase of starting that finishes has called as many subsystems as the list has in the end, a phase of stopping
as many as it had in the beginning. -/
theorem C84_count {w : W} (hw : Reach w) {a mid r : List Entry} {up : Bool} {l0 : LRef} {xs : List (Option Sub)}
    (h : During w.log a up (some l0) xs mid (.finished up :: r)) :
    (called up mid).length = (if up then elems (a ++ .begun up (some l0) xs :: mid) l0 else xs).length := by
  obtain ⟨-, l1, h1, -, -, -, -, h2⟩ := (inv hw).log.fin _ _ _ _ _ _ _ h.1 h.2
  cases h1
  exact h2

/-- A phase is aborted for one of four reasons: no list, a subsystem threw, the list object was changed, there is a null in it. What had been called by then
(unless the list was changed) is a beginning of the list (of its reverse). -/
theorem C84_aborted {w : W} (hw : Reach w) {a mid r : List Entry} {up : Bool} {l : Option LRef} {xs : List (Option Sub)}
    (h : During w.log a up l xs mid (.aborted up :: r)) :
    (l = none ∧ mid = []) ∨
    ∃ l0, l = some l0 ∧
      ((∀ e ∈ mid, touched l0 e = false) → (called up mid).map some <+: if up then xs else xs.reverse) ∧ called (!up) mid = [] ∧
      ((∃ m' x, mid = m' ++ [.ret up x false]) ∨ (∃ ys, .changed l0 ys ∈ mid) ∨ none ∈ elems (a ++ .begun up l xs :: mid) l0) := by
  obtain ⟨-, h1⟩ := (inv hw).log.abt _ _ _ _ _ _ _ h.1 h.2
  rcases h1 with h1 | ⟨l0, h1, h2, h3, h4⟩
  · exact .inl h1
  · refine .inr ⟨l0, h1, h2, h3, h4.imp_right (Or.imp_left fun ⟨e, he, hc⟩ => ?_)⟩
    cases e with
    | changed l' ys =>
      have : l' = l0 := of_decide_eq_true hc
      subst this
      exact ⟨ys, he⟩
    | _ => cases hc

/-- Once the list of a phase has been changed, the phase calls nothing any more. -/
theorem C84_changed {w : W} (hw : Reach w) {a p q r : List Entry} {up : Bool} {l : LRef} {xs ys : List (Option Sub)}
    (h : During w.log a up (some l) xs (p ++ .changed l ys :: q) r) : ∀ u x, .call u x ∉ q :=
  (inv hw).log.chg a up l xs p ys q r (by rw [h.1]; simp) (fun e he => h.2 e (by simp [he])) (fun e he => h.2 e (by simp [he]))

/-! ### Start and stop -/

theorem listNow_same (a b : List Entry) (h : ∀ e ∈ b, ∀ l, e ≠ .given l) : listNow (a ++ b) = listNow a := by
  induction b generalizing a with
  | nil => simp
  | cons e b ih =>
    rw [show a ++ e :: b = a ++ [e] ++ b by simp, ih _ fun x hx => h x (by simp [hx]), listNow_snoc]
    have := h e (by simp)
    cases e <;> simp_all

theorem elems_same (a b : List Entry) (l : LRef) (h : ∀ e ∈ b, touched l e = false) : elems (a ++ b) l = elems a l := by
  induction b generalizing a with
  | nil => simp
  | cons e b ih =>
    rw [show a ++ e :: b = a ++ [e] ++ b by simp, ih _ fun x hx => h x (by simp [hx]), elems_snoc]
    have := h e (by simp)
    cases e <;> simp_all [touched]

/-- An app that started and then stopped its subsystems without errors, while nobody gave it another list or changed the list, stopped exactly those it had
started, in the reverse order. -/
theorem C84_mirror {w : W} (hw : Reach w) {a m1 b m2 r : List Entry} {l0 : LRef} {l' : Option LRef} {xs xs' : List (Option Sub)}
    (h1 : During w.log a true (some l0) xs m1 (.finished true :: b ++ .begun false l' xs' :: (m2 ++ .finished false :: r)))
    (h2 : ∀ e ∈ m2, bound e = false)
    (hg : ∀ e ∈ m1 ++ b, ∀ l, e ≠ .given l) (ht : ∀ e ∈ m1 ++ b ++ m2, touched l0 e = false) :
    called false m2 = (called true m1).reverse := by
  have hb1 := C84_begin hw h1.1
  have hsplit : w.log = (a ++ .begun true (some l0) xs :: (m1 ++ .finished true :: b)) ++ .begun false l' xs' :: (m2 ++ .finished false :: r) := by
    rw [h1.1]; simp
  have hb2 := C84_begin hw hsplit
  have hl : listNow (a ++ .begun true (some l0) xs :: (m1 ++ .finished true :: b)) = listNow a := by
    refine listNow_same _ _ fun e he l hel => ?_
    subst hel
    simp only [List.mem_cons, List.mem_append, reduceCtorEq, false_or] at he
    exact hg _ (List.mem_append.2 he) l rfl
  rw [hl, ← hb1.1] at hb2
  obtain ⟨rfl, hxs⟩ := hb2
  have hx : xs' = xs := by
    rw [hxs, hb1.2]
    refine elems_same _ _ _ fun e he => ?_
    simp only [List.mem_cons, List.mem_append] at he
    rcases he with rfl | he | rfl | he
    · rfl
    · exact ht _ (by simp [he])
    · rfl
    · exact ht _ (by simp [he])
  subst hx
  obtain ⟨l1, e1, f1, -⟩ := C84_finished hw (a := a) (up := true) (l := some l0) (xs := xs') (mid := m1) (r := b ++ .begun false (some l0) xs' :: (m2 ++ .finished false :: r)) ⟨by rw [h1.1]; simp, h1.2⟩
  cases e1
  obtain ⟨l2, e2, f2, -⟩ := C84_finished hw (r := r) ⟨hsplit, h2⟩
  cases e2
  have g1 := f1 fun e he => ht e (by simp [he])
  have g2 := f2 fun e he => ht e (by simp [he])
  simp only [if_true, Bool.false_eq_true, if_false] at g1 g2
  have g3 : (called false m2).map some = ((called true m1).reverse).map some := by rw [g2, List.map_reverse, g1]
  exact (List.map_inj_right (fun _ _ h => Option.some.inj h)).1 g3

/-! ### Runs -/

/-- Subsystems 1 and 2 in a list, the app is started and stopped. -/
def calm : List Step :=
  [.changed 7 [some 1, some 2], .given (some 7), .fire evtStart, .take, .turn, .ret true, .turn, .ret true, .turn, .take,
   .fire evtStop, .take, .turn, .ret true, .turn, .ret true, .turn, .take]

/-- The list is replaced between start and stop. -/
def replaced : List Step :=
  [.changed 7 [some 1], .changed 8 [some 2], .given (some 7), .fire evtStart, .take, .turn, .ret true, .turn, .take, .given (some 8),
   .fire evtStop, .take, .turn, .ret true, .turn, .take]

/-- Subsystem 1 takes itself off the list when it is started. -/
def leaving : List Step :=
  [.changed 7 [some 1, some 2], .given (some 7), .fire evtStart, .take, .turn, .changed 7 [some 2], .ret true, .turn, .take]

/-- Subsystem 1 adds subsystem 3 when it is started. -/
def adding : List Step :=
  [.changed 7 [some 1, some 2], .given (some 7), .fire evtStart, .take, .turn, .changed 7 [some 1, some 2, some 3], .ret true, .turn, .take]

def after (xs : List Step) : W := (runs .init xs).getD .init

def calmStart : List Entry := [.call true 1, .ret true 1 true, .call true 2, .ret true 2 true]
def calmStop : List Entry := [.call false 2, .ret false 2 true, .call false 1, .ret false 1 true]
def calmLog : List Entry :=
  [.changed 7 [some 1, some 2], .given (some 7), .fired evtStart, .taken evtStart, .state STATE_STARTING, .begun true (some 7) [some 1, some 2]] ++ calmStart ++
  [.finished true, .taken evtComplete, .state STATE_STARTED, .fired evtStop, .taken evtStop, .state STATE_STOPPING, .begun false (some 7) [some 1, some 2]] ++ calmStop ++
  [.finished false, .taken evtComplete, .state STATE_STOPPED]

theorem reach_after {xs : List Step} (h : (runs .init xs).isSome = true) : Reach (after xs) := ⟨xs, by
  unfold after
  cases hr : runs .init xs with
  | none => rw [hr] at h; cases h
  | some w => rfl⟩

theorem calm_reach : Reach (after calm) := reach_after (by decide +kernel)
theorem calm_log : (after calm).log = calmLog := by decide +kernel

/-- `C84_begin` and `C84_within` speak about this run. -/
example : (some 7 : Option LRef) = listNow (calmLog.take 5) ∧ [some 1, some 2] = (some 7 : Option LRef).elim [] (elems (calmLog.take 5)) :=
  C84_begin calm_reach (r := calmLog.drop 6) (up := true) (by rw [calm_log]; rfl)
example : ∃ a l xs mid, During (after calm).log a true l xs mid (.call true 2 :: calmLog.drop 9) :=
  C84_within calm_reach (p := calmLog.take 8) (by rw [calm_log]; rfl)

example : ∃ l xs r', calmLog.drop 16 = .begun false l xs :: r' :=
  (C84_states calm_reach false).1 (calmLog.take 15) _ (by rw [calm_log]; rfl)

theorem calm_start : During (after calm).log (calmLog.take 5) true (some 7) [some 1, some 2] calmStart (calmLog.drop 10) :=
  ⟨by rw [calm_log]; rfl, by decide +kernel⟩

example : Entry.finished true = .finished true ∨ Entry.finished true = .aborted true :=
  C84_alone calm_reach calm_start (r := calmLog.drop 11) rfl rfl

/-- `C84_finished`: nobody changed the list. -/
example : ((called true calmStart).map some = [some 1, some 2]) := by
  obtain ⟨l0, h1, h2, -⟩ := C84_finished calm_reach (r := calmLog.drop 11) calm_start
  cases h1
  exact h2 (by decide +kernel)

/-- `C84_fifo` and `C84_state` speak about this run. -/
example : takenOf calmLog ++ [] = [evtStart, evtComplete, evtStop, evtComplete] ∧ STATE_STOPPED = leads (takenOf calmLog) := by
  have h1 := C84_fifo calm_reach
  have h2 := (C84_state calm_reach).1
  have h3 : (after calm).queue = [] ∧ (after calm).state = STATE_STOPPED := by decide +kernel
  rw [calm_log, h3.1] at h1
  rw [calm_log, h3.2] at h2
  exact ⟨h1.symm.trans (by decide +kernel), h2⟩
example : ∃ r', calmLog.drop 4 = .state STATE_STARTING :: r' :=
  (C84_state calm_reach).2.2 (calmLog.take 3) evtStart _ _ (by rw [calm_log]; rfl) (by decide +kernel)

/-- `C84_mirror` speaks about this run. -/
example : called false calmStop = (called true calmStart).reverse := by
  have h := C84_mirror calm_reach (a := calmLog.take 5) (m1 := calmStart) (b := [.taken evtComplete, .state STATE_STARTED, .fired evtStop, .taken evtStop, .state STATE_STOPPING]) (m2 := calmStop)
    (r := [.taken evtComplete, .state STATE_STOPPED]) (l0 := 7) (l' := some 7) (xs := [some 1, some 2]) (xs' := [some 1, some 2]) calm_start (by decide +kernel)
    (fun e he l hl => by subst hl; revert he; simp [calmStart]) (by decide +kernel)
  exact h

def addingMid : List Entry := [.call true 1, .changed 7 [some 1, some 2, some 3], .ret true 1 true]
theorem adding_reach : Reach (after adding) := reach_after (by decide +kernel)
theorem adding_during : During (after adding).log [.changed 7 [some 1, some 2], .given (some 7), .fired evtStart, .taken evtStart, .state STATE_STARTING] true (some 7) [some 1, some 2]
    addingMid [.aborted true, .taken evtError, .state STATE_STOPPED] := ⟨by decide +kernel, by decide +kernel⟩

/-- `C84_aborted` and `C84_changed`: a subsystem changes the list during its start. -/
example : ∃ ys, Entry.changed 7 ys ∈ addingMid := by
  rcases C84_aborted adding_reach adding_during with ⟨h, -⟩ | ⟨l0, h1, -, -, h2⟩
  · cases h
  · cases h1
    rcases h2 with ⟨m', x, hm⟩ | h2 | h2
    · have := congrArg List.getLast? hm
      rw [List.getLast?_append] at this
      revert this
      simp [addingMid]
    · exact h2
    · exact absurd h2 (by decide +kernel)
example : ∀ u x, Entry.call u x ∉ [Entry.ret true 1 true] :=
  C84_changed adding_reach (p := [.call true 1]) (q := [.ret true 1 true]) adding_during

/-! ### What does not hold -/

/-- An app may come to STOPPED without any error, while a subsystem it has started was never stopped, and one it stopped was never started: the list was
replaced in between. -/
theorem C84_negation_replaced : ∃ w, Reach w ∧ w.state = STATE_STOPPED ∧ w.it = none ∧ w.queue = [] ∧ (∀ u, .aborted u ∉ w.log) ∧
    called true w.log = [1] ∧ called false w.log = [2] :=
  ⟨after replaced, reach_after (by decide +kernel), by decide +kernel, by decide +kernel, by decide +kernel, fun u => by cases u <;> decide +kernel,
    by decide +kernel, by decide +kernel⟩

/-- An app may come to STARTED without any error, although a subsystem that was on the list all the time was never started: the one before it took itself off
the list, and the iterator of ArrayList takes that for the end. -/
theorem C84_negation_skipped : ∃ w a xs mid r, Reach w ∧ w.state = STATE_STARTED ∧ w.it = none ∧ w.queue = [] ∧
    During w.log a true (some 7) xs mid (.finished true :: r) ∧ some 2 ∈ xs ∧ (∀ ys, .changed 7 ys ∈ mid → some 2 ∈ ys) ∧ 2 ∉ called true w.log := by
  refine ⟨after leaving, [.changed 7 [some 1, some 2], .given (some 7), .fired evtStart, .taken evtStart, .state STATE_STARTING], [some 1, some 2],
    [.call true 1, .changed 7 [some 2], .ret true 1 true], [.taken evtComplete, .state STATE_STARTED], reach_after (by decide +kernel), by decide +kernel, by decide +kernel,
    by decide +kernel, ⟨by decide +kernel, by decide +kernel⟩, by decide +kernel, fun ys h => ?_, by decide +kernel⟩
  simp at h
  subst h
  decide

/-- `C84_count` speaks about this run: one subsystem was called, one is left on the list. -/
example : ([1] : List Sub).length = ([some 2] : List (Option Sub)).length := by
  have h := C84_count (reach_after (xs := leaving) (by decide +kernel)) (a := [.changed 7 [some 1, some 2], .given (some 7), .fired evtStart, .taken evtStart, .state STATE_STARTING])
    (mid := [.call true 1, .changed 7 [some 2], .ret true 1 true]) (up := true) (l0 := 7) (xs := [some 1, some 2]) (r := [.taken evtComplete, .state STATE_STARTED])
    ⟨by decide +kernel, by decide +kernel⟩
  exact h

/-- A list changed during the start: the app stops, and what it has started already is never stopped. -/
theorem C84_negation_aborted : ∃ w, Reach w ∧ w.state = STATE_STOPPED ∧ w.it = none ∧ w.queue = [] ∧
    .ret true 1 true ∈ w.log ∧ called false w.log = [] :=
  ⟨after adding, adding_reach, by decide +kernel, by decide +kernel, by decide +kernel, by decide +kernel, by decide +kernel⟩

end Verif.Ctx
