import Verif.Proofs.Scan
/-
C87: the drop-duplicate strategy, with an iteration over the queue that is not atomic.
-/

namespace Verif.Scan
open Spec.Scan
open Verif.Ctx (snoc_split snoc_cons)

variable {eqv : Tok → Tok → Bool} {w : W}

/-! ### One call of fire -/

/-- When a call of `fire` returns, its event has either been accepted or been dropped, not both. -/
theorem C87_fate (hw : Reach eqv w) {a r : List Entry} {p : Nat} {t : Tok} (h : w.log = a ++ .ret p t :: r) : a.countP (decides t) = 1 ∧ .fire p t ∈ a :=
  ⟨((inv hw).each _ _ _ h).1, ((inv hw).each _ _ _ h).2.1⟩

/-- The iteration never finds a pair without an event. -/
theorem C87_npe (hw : Reach eqv w) (p : Nat) (t : Tok) : .npe p t ∉ w.log := fun hm => by
  obtain ⟨a, r, he⟩ := List.append_of_mem hm
  exact (inv hw).each _ _ _ he

theorem passed_not_dropped (h : Inv eqv w) {t : Tok} (hP : Passed w t) (p : Nat) : .drop p t ∉ w.log := fun hm => by
  rcases hP with hacc | ⟨p', x, hx⟩
  · obtain ⟨a, r, he⟩ := List.append_of_mem hm
    have hm2 := mem_accepted.1 hacc
    rw [he] at hm2
    rcases List.mem_append.1 hm2 with hm2 | hm2
    · have := List.countP_eq_zero.1 (h.each _ _ _ he).1 _ hm2
      simp [decides] at this
    · rcases List.mem_cons.1 hm2 with hm2 | hm2
      · cases hm2
      · obtain ⟨b, r', rfl⟩ := List.append_of_mem hm2
        have h1 := (h.each (a ++ .drop p t :: b) (.accept t) r' (by rw [he]; simp)).1
        have := List.countP_eq_zero.1 h1 (.drop p t) (by simp)
        simp [decides] at this
  · have ha := h.at_ p'
    rw [hx] at ha
    have := List.countP_eq_zero.1 ha.1.1 _ hm
    simp [decides] at this

/-- An event is dropped only in favour of another event that is equal to it, that had not been taken when this call of `fire` began, and that is never dropped itself. -/
theorem C87_dropped (hw : Reach eqv w) {b r : List Entry} {p : Nat} {t : Tok} (h : w.log = b ++ .drop p t :: r) :
    ∃ a m t', b = a ++ .fire p t :: m ∧ eqv t' t = true ∧ t' ≠ t ∧ (∃ p', .fire p' t' ∈ b) ∧ (∀ k, .take k t' ∉ a) ∧ ∀ p', .drop p' t' ∉ w.log := by
  obtain ⟨a, m, t', g1, g2, g3, g4, g5, g6⟩ := (inv hw).drops b p t r h
  exact ⟨a, m, t', g1, g2, g3, g4, fun k hk => g5 (mem_taken.2 ⟨k, hk⟩), passed_not_dropped (inv hw) g6⟩

/-- So when all calls of `fire` have returned, for every dropped event an equal one has been accepted, and is waiting or was taken after the call for the dropped one
had begun. -/
theorem C87_covered (hw : Reach eqv w) (hr : ∀ p, w.prod p = .idle) {b r : List Entry} {p : Nat} {t : Tok} (h : w.log = b ++ .drop p t :: r) :
    ∃ a m t', w.log = a ++ .fire p t :: m ∧ eqv t' t = true ∧ .accept t' ∈ w.log ∧ (t' ∈ waiting w.log ∨ ∃ k, .take k t' ∈ m) := by
  have hi := inv hw
  obtain ⟨a, m, t', g1, g2, -, -, g5, g6⟩ := hi.drops b p t r h
  have hacc : t' ∈ accepted w.log := by
    rcases g6 with g6 | ⟨p', x, hx⟩
    · exact g6
    · rw [hr] at hx; cases hx
  have hl : w.log = a ++ .fire p t :: (m ++ .drop p t :: r) := by rw [h, g1]; simp
  refine ⟨a, m ++ .drop p t :: r, t', hl, g2, mem_accepted.1 hacc, ?_⟩
  have hsplit : accepted w.log = taken w.log ++ waiting w.log := by
    unfold waiting
    rw [taken_len hi]
    conv => lhs; rw [← List.take_append_drop w.head (accepted w.log)]
    rw [hi.tk]
  rw [hsplit] at hacc
  rcases List.mem_append.1 hacc with hm | hm
  · obtain ⟨k, hk⟩ := mem_taken.1 hm
    rw [hl] at hk
    rcases List.mem_append.1 hk with hk | hk
    · exact absurd (mem_taken.2 ⟨k, hk⟩) g5
    · rcases List.mem_cons.1 hk with hk | hk
      · cases hk
      · exact .inr ⟨k, hk⟩
  · exact .inl hm

theorem each_prefix {a r : List Entry} (h : ∀ b e s, a ++ r = b ++ e :: s → Cond eqv b e) : ∀ b e s, a = b ++ e :: s → Cond eqv b e :=
  fun b e s he => h b e (s ++ r) (by rw [he]; simp)

theorem taken_prefix : ∀ {log : List Entry}, (∀ b e s, log = b ++ e :: s → Cond eqv b e) → taken log = (accepted log).take (taken log).length ∧ (accepted log).Nodup := by
  have key : ∀ rl : List Entry, (∀ b e s, rl.reverse = b ++ e :: s → Cond eqv b e) →
      taken rl.reverse = (accepted rl.reverse).take (taken rl.reverse).length ∧ (accepted rl.reverse).Nodup := by
    intro rl
    induction rl with
    | nil => exact fun _ => ⟨rfl, List.nodup_nil⟩
    | cons e rl ih =>
      intro h
      rw [List.reverse_cons] at h ⊢
      obtain ⟨h1, h2⟩ := ih (each_prefix h)
      have he := h rl.reverse e [] rfl
      rw [taken_snoc, accepted_snoc]
      cases e with
      | accept t =>
        have hn : t ∉ accepted rl.reverse := fun hm => by
          have := List.countP_eq_zero.1 he.1 _ (mem_accepted.1 hm)
          simp [decides] at this
        have hle : (taken rl.reverse).length ≤ (accepted rl.reverse).length := by
          rw [h1, List.length_take]; exact Nat.min_le_right _ _
        refine ⟨?_, ?_⟩
        · simp only [List.append_nil]
          rw [List.take_append_of_le_length hle]; exact h1
        · rw [List.nodup_append]
          exact ⟨h2, by simp, fun y hy z hz => by simp only [List.mem_singleton] at hz; subst hz; rintro rfl; exact hn hy⟩
      | take k t =>
        have he' : (accepted rl.reverse)[(taken rl.reverse).length]? = some t := he
        refine ⟨?_, by simpa using h2⟩
        simp only [List.append_nil, List.length_append, List.length_singleton]
        rw [List.take_add_one, he', ← h1]; rfl
      | _ => simpa using ⟨h1, h2⟩
  intro log h
  have := key log.reverse (by rw [List.reverse_reverse]; exact h)
  rwa [List.reverse_reverse] at this

/-- An event is accepted only if no event that was in the queue all the time, from the call of `fire` on, is equal to it. -/
theorem C87_kept (hw : Reach eqv w) {a r : List Entry} {t : Tok} (h : w.log = a ++ .accept t :: r) :
    ∃ p b m, a = b ++ .fire p t :: m ∧ ∀ t', .accept t' ∈ b → (∀ k, .take k t' ∉ a) → eqv t' t = false := by
  have hi := inv hw
  obtain ⟨-, p, b, m, g1, g2⟩ := hi.each _ _ _ h
  refine ⟨p, b, m, g1, fun t' hb hk => ?_⟩
  obtain ⟨i, hil, hit⟩ := List.getElem_of_mem (mem_accepted.2 hb)
  have hacc : accepted a = accepted b ++ accepted (.fire p t :: m) := by rw [g1]; exact List.filterMap_append ..
  have hi2 : (accepted a)[i]? = some t' := by
    rw [hacc, List.getElem?_append_left hil, ← hit]; exact List.getElem?_eq_getElem _
  refine g2.2 i t' ?_ hil hi2
  rcases Nat.lt_or_ge i (taken a).length with hlt | hge
  · have h3 := (taken_prefix (eqv := eqv) (log := a) (fun b e s he => hi.each b e (s ++ .accept t :: r) (by rw [h, he]; simp))).1
    have : t' ∈ taken a := by
      rw [h3]
      refine List.mem_of_getElem? (i := i) ?_
      rw [List.getElem?_take_of_lt hlt]; exact hi2
    obtain ⟨k, hk'⟩ := mem_taken.1 this
    exact absurd hk' (hk k)
  · exact hge

/-! ### The queue -/

/-- Events are taken in the order in which they were accepted; none is invented or lost. -/
theorem C87_fifo (hw : Reach eqv w) : taken w.log ++ waiting w.log = accepted w.log ∧ (accepted w.log).Nodup := by
  have hi := inv hw
  refine ⟨?_, hi.nodup⟩
  unfold waiting
  rw [taken_len hi]
  conv => rhs; rw [← List.take_append_drop w.head (accepted w.log)]
  rw [hi.tk]

/-- The event that a worker reads out of a pair is the one that was in it when it took the pair: pairs are not filled again while they are in use. -/
theorem C87_content (hw : Reach eqv w) {a r : List Entry} {k : Nat} {t : Tok} (h : w.log = a ++ .process k t :: r) : (takenBy k a).getLast? = some t :=
  (inv hw).each _ _ _ h

theorem waiting_snoc {log : List Entry} (h : ∀ b e s, log = b ++ e :: s → Cond eqv b e) (e : Entry) :
    waiting (log ++ [e]) = match e with | .accept t => waiting log ++ [t] | .take _ _ => (waiting log).tail | _ => waiting log := by
  unfold waiting
  rw [accepted_snoc, taken_snoc]
  have hle : (taken log).length ≤ (accepted log).length := by
    rw [(taken_prefix h).1, List.length_take]; exact Nat.min_le_right _ _
  cases e with
  | accept t => simp only [List.append_nil]; rw [List.drop_append_of_le_length hle]
  | take k t => simp only [List.append_nil, List.length_append, List.length_singleton]; rw [List.tail_drop]
  | _ => simp

theorem not_taken_of_waiting {log : List Entry} (h : ∀ b e s, log = b ++ e :: s → Cond eqv b e) {t : Tok} (ht : t ∈ waiting log) : .accept t ∈ log ∧ ∀ k, .take k t ∉ log := by
  obtain ⟨h1, h2⟩ := taken_prefix h
  have hd : accepted log = taken log ++ waiting log := by
    unfold waiting
    conv => lhs; rw [← List.take_append_drop (taken log).length (accepted log)]
    rw [← h1]
  refine ⟨mem_accepted.1 (by rw [hd]; exact List.mem_append_right _ ht), fun k hk => ?_⟩
  rw [hd, List.nodup_append] at h2
  exact h2.2.2 t (mem_taken.2 ⟨k, hk⟩) t ht rfl

/-- If events are fired one after the other, no two events in the queue are equal. -/
theorem C87_alone (hw : Reach eqv w) (ha : Alone w.log) : (waiting w.log).Pairwise fun t' t => eqv t' t = false := by
  have hi := inv hw
  have key : ∀ rl : List Entry, ∀ s, w.log = rl.reverse ++ s → (waiting rl.reverse).Pairwise fun t' t => eqv t' t = false := by
    intro rl
    induction rl with
    | nil => exact fun _ _ => List.Pairwise.nil
    | cons e rl ih =>
      intro s hs
      rw [List.reverse_cons] at hs ⊢
      have hs' : w.log = rl.reverse ++ e :: s := by rw [hs]; simp
      have hp := ih (e :: s) hs'
      have hev : ∀ b e' s', rl.reverse = b ++ e' :: s' → Cond eqv b e' := fun b e' s' he => hi.each b e' (s' ++ e :: s) (by rw [hs', he]; simp)
      rw [waiting_snoc hev]
      cases e with
      | accept t =>
        refine List.pairwise_append.2 ⟨hp, by simp, fun t' ht' x hx => ?_⟩
        simp only [List.mem_singleton] at hx; subst hx
        obtain ⟨h1, h2⟩ := not_taken_of_waiting hev ht'
        obtain ⟨h0, -⟩ := hi.each _ _ _ hs'
        obtain ⟨p, b, m, g1, g2⟩ := C87_kept hw hs'
        refine g2 t' ?_ h2
        rw [g1] at h1
        rcases List.mem_append.1 h1 with h1 | h1
        · exact h1
        · rcases List.mem_cons.1 h1 with h1 | h1
          · cases h1
          · obtain ⟨m1, m2, rfl⟩ := List.append_of_mem h1
            have hl : w.log = b ++ .fire p x :: (m1 ++ .accept t' :: (m2 ++ .accept x :: s)) := by rw [hs', g1]; simp
            obtain ⟨c0, p', b', m', g3, -⟩ := hi.each (b ++ .fire p x :: m1) (.accept t') (m2 ++ .accept x :: s) (by rw [hl]; simp)
            have hmem : .fire p' t' ∈ b ++ .fire p x :: m1 := by rw [g3]; simp
            rcases List.mem_append.1 hmem with hm | hm
            · obtain ⟨b1, b2, rfl⟩ := List.append_of_mem hm
              have hret := ha b1 p' t' b2 p x _ (by rw [hl]; simp; rfl)
              obtain ⟨c1, c2, rfl⟩ := List.append_of_mem hret
              have h3 := (hi.each (b1 ++ .fire p' t' :: c1) (.ret p' t') _ (by rw [hl]; simp; rfl)).1
              have h4 : 0 < (b1 ++ .fire p' t' :: c1).countP (decides t') := by rw [h3]; exact Nat.one_pos
              obtain ⟨y, hy, hyd⟩ := List.countP_pos_iff.1 h4
              have := List.countP_eq_zero.1 c0 y (by simp at hy ⊢; rcases hy with hy | hy | hy <;> simp [hy])
              exact absurd hyd this
            · rcases List.mem_cons.1 hm with hm | hm
              · cases hm
                have := List.countP_eq_zero.1 h0 (.accept t') (by rw [g1]; simp)
                simp [decides] at this
              · obtain ⟨c1, c2, rfl⟩ := List.append_of_mem hm
                have hret := ha b p x c1 p' t' _ (by rw [hl]; simp; rfl)
                obtain ⟨d1, d2, rfl⟩ := List.append_of_mem hret
                have h3 := (hi.each (b ++ .fire p x :: d1) (.ret p x) _ (by rw [hl]; simp; rfl)).1
                have h4 : 0 < (b ++ .fire p x :: d1).countP (decides x) := by rw [h3]; exact Nat.one_pos
                obtain ⟨y, hy, hyd⟩ := List.countP_pos_iff.1 h4
                have := List.countP_eq_zero.1 h0 y (by rw [g1]; simp at hy ⊢; rcases hy with hy | hy | hy <;> simp [hy])
                exact absurd hyd this
      | take k t => exact hp.sublist (List.tail_sublist _)
      | _ => exact hp
  have := key w.log.reverse [] (by simp)
  rwa [List.reverse_reverse] at this

/-! ### What does not hold -/

theorem reach_after {w w' : W} (xs : List Act) (hw : Reach eqv w) (h : runs eqv w xs = some w') : Reach eqv w' := by
  obtain ⟨ys, hy⟩ := hw
  refine ⟨ys ++ xs, ?_⟩
  have : ∀ w0, runs eqv w0 ys = some w → runs eqv w0 (ys ++ xs) = some w' := by
    clear hy
    induction ys with
    | nil => intro w0 h0; rw [← Option.some.inj h0] at h; exact h
    | cons y ys ih =>
      intro w0 h0
      simp only [runs, List.cons_append] at h0 ⊢
      cases hs : step eqv w0 y with
      | none => simp [hs] at h0
      | some w1 => simp only [hs] at h0 ⊢; exact ih w1 h0
  exact this _ hy

theorem reach_log {xs : List Act} {l : List Entry} (h : (runs eqv .init xs).map (·.log) = some l) : ∃ w, Reach eqv w ∧ w.log = l := by
  cases hr : runs eqv .init xs with
  | none => rw [hr] at h; cases h
  | some w => rw [hr] at h; exact ⟨w, ⟨xs, hr⟩, Option.some.inj h⟩

/-- An event is dropped although every other event there ever was has been processed completely. -/
theorem C87_negation_stale : ∃ w b p t, Reach (fun _ _ => true) w ∧ w.log = b ++ [.drop p t] ∧ waiting b = [] ∧ ∀ p' t', .fire p' t' ∈ b → t' = t ∨ ∃ k, .done k t' ∈ b := by
  obtain ⟨w, hw, hl⟩ := reach_log (eqv := fun _ _ => true) (xs := [.fire 0, .look 0, .pair 0, .write 0, .offer 0, .ret 0, .fire 0, .look 0, .poll 0, .read 0, .give 0, .compare 0])
    (l := [.fire 0 0, .accept 0, .ret 0 0, .fire 0 1, .take 0 0, .process 0 0, .done 0 0, .drop 0 1]) rfl
  refine ⟨w, [.fire 0 0, .accept 0, .ret 0 0, .fire 0 1, .take 0 0, .process 0 0, .done 0 0], 0, 1, hw, hl, rfl, fun p' t' h => ?_⟩
  simp only [List.mem_cons, Entry.fire.injEq, reduceCtorEq, List.not_mem_nil, or_false, false_or] at h
  rcases h with ⟨-, rfl⟩ | ⟨-, rfl⟩
  · exact .inr ⟨0, by simp⟩
  · exact .inl rfl

/-- An event is dropped although no equal event has ever been in the queue: the iteration reads a pair that has been filled again. -/
theorem C87_negation_reused : ∃ eqv w b p t, Reach eqv w ∧ w.log = b ++ [.drop p t] ∧ ∀ t', .accept t' ∈ b → eqv t' t = false := by
  obtain ⟨w, hw, hl⟩ := reach_log (eqv := fun t' t => (t' == 0) == (t == 0))
    (xs := [.fire 0, .look 0, .pair 0, .write 0, .offer 0, .ret 0, .fire 0, .look 0, .poll 0, .read 0, .give 0, .fire 1, .look 1, .pair 1, .write 1, .compare 0])
    (l := [.fire 0 0, .accept 0, .ret 0 0, .fire 0 1, .take 0 0, .process 0 0, .done 0 0, .fire 1 2, .drop 0 1]) rfl
  refine ⟨_, w, [.fire 0 0, .accept 0, .ret 0 0, .fire 0 1, .take 0 0, .process 0 0, .done 0 0, .fire 1 2], 0, 1, hw, hl, fun t' h => ?_⟩
  simp only [List.mem_cons, Entry.accept.injEq, reduceCtorEq, List.not_mem_nil, or_false, false_or] at h
  subst h; rfl

/-- If events are fired at the same time, equal events get into the queue. -/
theorem C87_negation_twice : ∃ w, Reach (fun _ _ => true) w ∧ waiting w.log = [0, 1] := by
  obtain ⟨w, hw, hl⟩ := reach_log (eqv := fun _ _ => true) (xs := [.fire 0, .look 0, .fire 1, .look 1, .pair 0, .write 0, .offer 0, .pair 1, .write 1, .offer 1])
    (l := [.fire 0 0, .fire 1 1, .accept 0, .accept 1]) rfl
  exact ⟨w, hw, by rw [hl]; rfl⟩

/-! ### Examples -/

/-- Three events, the second equal to the first: the first and the third are accepted, one after the other. -/
def actsEx : List Act :=
  [.fire 0, .look 0, .pair 0, .write 0, .offer 0, .ret 0, .fire 1, .look 1, .compare 1, .ret 1, .fire 0, .look 0, .compare 0, .look 0, .pair 0, .write 0, .offer 0, .ret 0]

def logEx : List Entry := [.fire 0 0, .accept 0, .ret 0 0, .fire 1 1, .drop 1 1, .ret 1 1, .fire 0 2, .accept 2, .ret 0 2]

def eqvEx (t' t : Tok) : Bool := (t' ≤ 1) == (t ≤ 1)

theorem ex_run : ∃ w, Reach eqvEx w ∧ w.log = logEx ∧ ∀ p, w.prod p = .idle := by
  cases hr : runs eqvEx .init actsEx with
  | none => exact absurd hr (by decide +kernel)
  | some w =>
    refine ⟨w, ⟨actsEx, hr⟩, ?_, ?_⟩
    · have h : (runs eqvEx .init actsEx).map (·.log) = some logEx := by decide +kernel
      rw [hr] at h; exact Option.some.inj h
    · have h0 : (runs eqvEx .init actsEx).map (fun w => (w.prod 0, w.prod 1)) = some (.idle, .idle) := by decide +kernel
      have h1 : ∀ p, (runs eqvEx .init actsEx).map (fun w => w.prod (p + 2)) = some .idle := fun p => rfl
      rw [hr] at h0
      have h0' := Prod.mk.inj (Option.some.inj h0)
      intro p
      match p with
      | 0 => exact h0'.1
      | 1 => exact h0'.2
      | p + 2 => have := h1 p; rw [hr] at this; exact Option.some.inj this

example : ∃ w, Reach eqvEx w ∧ w.log = logEx ∧ ∃ a m t', ([.fire 0 0, .accept 0, .ret 0 0, .fire 1 1] : List Entry) = a ++ .fire 1 1 :: m ∧ eqvEx t' 1 = true ∧ t' ≠ 1 ∧ ∀ p', .drop p' t' ∉ w.log := by
  obtain ⟨w, hw, hl, -⟩ := ex_run
  obtain ⟨a, m, t', g1, g2, g3, -, -, g6⟩ := C87_dropped hw (b := [.fire 0 0, .accept 0, .ret 0 0, .fire 1 1]) (p := 1) (t := 1) (r := [.ret 1 1, .fire 0 2, .accept 2, .ret 0 2]) hl
  exact ⟨w, hw, hl, a, m, t', g1, g2, g3, g6⟩

example : ∃ w, Reach eqvEx w ∧ w.log = logEx ∧ ∃ a m t', w.log = a ++ .fire 1 1 :: m ∧ eqvEx t' 1 = true ∧ .accept t' ∈ w.log ∧ (t' ∈ waiting w.log ∨ ∃ k, .take k t' ∈ m) := by
  obtain ⟨w, hw, hl, hr⟩ := ex_run
  exact ⟨w, hw, hl, C87_covered hw hr (b := [.fire 0 0, .accept 0, .ret 0 0, .fire 1 1]) (p := 1) (t := 1) (r := [.ret 1 1, .fire 0 2, .accept 2, .ret 0 2]) hl⟩

example : ∃ w, Reach eqvEx w ∧ w.log = logEx ∧ waiting w.log = [0, 2] ∧ ([.fire 0 0, .accept 0, .ret 0 0] : List Entry).countP (decides 0) = 1 := by
  obtain ⟨w, hw, hl, -⟩ := ex_run
  exact ⟨w, hw, hl, by rw [hl]; rfl, rfl⟩

/-- A test for `Alone`. -/
def turns : Option (Nat × Tok) → List Entry → Bool
  | _, [] => true
  | none, .fire p t :: r => turns (some (p, t)) r
  | some _, .fire _ _ :: _ => false
  | some (p, t), .ret p' t' :: r => turns (if p = p' ∧ t = t' then none else some (p, t)) r
  | s, _ :: r => turns s r

theorem turns_open {p p' : Nat} {t t' : Tok} {m r : List Entry} (h : turns (some (p, t)) (m ++ .fire p' t' :: r) = true) : .ret p t ∈ m := by
  induction m with
  | nil => cases h
  | cons e m ih =>
    cases e with
    | fire => cases h
    | ret p1 t1 =>
      simp only [List.cons_append, turns] at h
      split at h
      · next heq => rw [heq.1, heq.2]; simp
      · exact List.mem_cons_of_mem _ (ih h)
    | _ => exact List.mem_cons_of_mem _ (ih h)

theorem turns_at {s : Option (Nat × Tok)} {p : Nat} {t : Tok} {a r : List Entry} (h : turns s (a ++ .fire p t :: r) = true) : turns (some (p, t)) r = true := by
  induction a generalizing s with
  | nil => cases s with
    | none => exact h
    | some x => cases h
  | cons e a ih =>
    cases s with
    | none => cases e <;> exact ih h
    | some x => cases e <;> first | exact ih h | (cases h; done)

theorem alone_of {log : List Entry} (h : turns none log = true) : Alone log := by
  intro a p t m p' t' r he
  rw [he] at h
  exact turns_open (turns_at h)

example : ∃ w, Reach eqvEx w ∧ w.log = logEx ∧ (waiting w.log).Pairwise fun t' t => eqvEx t' t = false := by
  obtain ⟨w, hw, hl, -⟩ := ex_run
  exact ⟨w, hw, hl, C87_alone hw (by rw [hl]; exact alone_of (by decide +kernel))⟩

example : ∃ w, Reach eqvEx w ∧ ∃ p b m, logEx.take 7 = b ++ .fire p 2 :: m ∧ ∀ t', .accept t' ∈ b → (∀ k, .take k t' ∉ logEx.take 7) → eqvEx t' 2 = false := by
  obtain ⟨w, hw, hl, -⟩ := ex_run
  exact ⟨w, hw, C87_kept hw (r := [.ret 0 2]) hl⟩

/-- An event that is processed after its pair has been used before. -/
example : ∃ w, Reach (fun _ _ => false) w ∧ (takenBy 1 [.fire 0 0, .accept 0, .ret 0 0, .take 0 0, .process 0 0, .done 0 0, .fire 0 1, .accept 1, .ret 0 1, .take 1 1]).getLast? = some 1 := by
  obtain ⟨w, hw, hl⟩ := reach_log (eqv := fun _ _ => false)
    (xs := [.fire 0, .look 0, .pair 0, .write 0, .offer 0, .ret 0, .poll 0, .read 0, .give 0, .fire 0, .look 0, .pair 0, .write 0, .offer 0, .ret 0, .poll 1, .read 1])
    (l := [.fire 0 0, .accept 0, .ret 0 0, .take 0 0, .process 0 0, .done 0 0, .fire 0 1, .accept 1, .ret 0 1, .take 1 1, .process 1 1]) rfl
  exact ⟨w, hw, C87_content hw (r := []) hl⟩

end Verif.Scan
