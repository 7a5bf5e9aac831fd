import Verif.Spec.Queues
import Verif.Proofs.Context
/-
Proofs for C85: what is known of an entry when it is written (`Cond`), and of a thread that fires (`At`).
-/

namespace Verif.Qs
open Spec.Qs
open Verif.Ctx (snoc_split snoc_cons)

theorem accepted_snoc (a : List Entry) (e : Entry) : accepted (a ++ [e]) = accepted a ++ (match e with | .accept t => [t] | _ => []) := by
  unfold accepted; rw [List.filterMap_append]; cases e <;> rfl
theorem taken_snoc (a : List Entry) (e : Entry) : taken (a ++ [e]) = taken a ++ (match e with | .take _ t => [t] | _ => []) := by
  unfold taken; rw [List.filterMap_append]; cases e <;> rfl
theorem inQueue_snoc (a : List Entry) (e : Entry) :
    inQueue (a ++ [e]) = match e with | .accept t => inQueue a ++ [t] | .take _ t => (inQueue a).erase t | _ => inQueue a := by
  unfold inQueue; rw [List.foldl_append]; cases e <;> rfl

/-- Few enough elements were in the queue. -/
def Small (c : Cfg) (p : Nat) (t : Tok) (log : List Entry) : Prop :=
  ∃ a m1 m2, log = a ++ .fire p t :: (m1 ++ m2) ∧ (0 < c.max → (stayed a (a ++ .fire p t :: m1) : Int) < c.max)

/-- Too many elements were in the queue. -/
def Large (c : Cfg) (p : Nat) (t : Tok) (log : List Entry) : Prop :=
  ∃ a m, log = a ++ .fire p t :: m ∧ 0 < c.max ∧ c.max ≤ (((inQueue a).length + (accepted m).length : Nat) : Int)

/-- When may an entry follow? -/
def Cond (c : Cfg) (a : List Entry) : Entry → Prop
  | .fire _ t => (∀ p, .fire p t ∉ a) ∧ a.countP (decides t) = 0
  | .rejected p t => a.countP (decides t) = 0 ∧ Large c p t a
  | .accept t => a.countP (decides t) = 0 ∧ c.offerOk (inQueue a) true = true ∧ ∃ p, Small c p t a
  | .refuse t => a.countP (decides t) = 0 ∧ c.offerOk (inQueue a) false = true ∧ ∃ p, Small c p t a
  | .ret p t => a.countP (decides t) = 1 ∧ .fire p t ∈ a ∧ .ret p t ∉ a
  | .take _ t => ∃ i, c.pickOk (inQueue a) i = true ∧ (inQueue a)[i]? = some t
  | .done k t => .take k t ∈ a
  | .died _ => inQueue a = []

/-- What is known of a thread that fires. -/
def At (c : Cfg) (log : List Entry) (p : Nat) : PC → Prop
  | .idle => True
  | .sizing t at0 n0 => log.countP (decides t) = 0 ∧ .ret p t ∉ log ∧ ∃ a m, log = a ++ .fire p t :: m ∧ at0 = inQueue a ∧ n0 = (accepted a).length
  | .passed t => log.countP (decides t) = 0 ∧ .ret p t ∉ log ∧ Small c p t log
  | .full t => log.countP (decides t) = 0 ∧ .ret p t ∉ log ∧ Large c p t log
  | .offered t | .over t => log.countP (decides t) = 1 ∧ .ret p t ∉ log ∧ .fire p t ∈ log

def tok : PC → Option Tok
  | .idle => none
  | .sizing t .. | .passed t | .full t | .offered t | .over t => some t

theorem Small.on {c : Cfg} {p : Nat} {t : Tok} {log : List Entry} (h : Small c p t log) (e : Entry) : Small c p t (log ++ [e]) := by
  obtain ⟨a, m1, m2, rfl, h⟩ := h
  exact ⟨a, m1, m2 ++ [e], by simp, h⟩

theorem Large.on {c : Cfg} {p : Nat} {t : Tok} {log : List Entry} (h : Large c p t log) (e : Entry) : Large c p t (log ++ [e]) := by
  obtain ⟨a, m, rfl, h1, h⟩ := h
  refine ⟨a, m ++ [e], by simp, h1, ?_⟩
  rw [accepted_snoc, List.length_append]
  omega

theorem At.fired {c : Cfg} {log : List Entry} {p : Nat} {pc : PC} (h : At c log p pc) {t : Tok} (ht : tok pc = some t) : .fire p t ∈ log ∧ .ret p t ∉ log := by
  cases pc <;> cases ht
  · obtain ⟨-, h1, a, m, rfl, -⟩ := h; exact ⟨by simp, h1⟩
  · obtain ⟨-, h1, a, m, m', rfl, -⟩ := h; exact ⟨by simp, h1⟩
  · exact ⟨h.2.2, h.2.1⟩
  · obtain ⟨-, h1, a, m, rfl, -⟩ := h; exact ⟨by simp, h1⟩
  · exact ⟨h.2.2, h.2.1⟩

theorem At.on {c : Cfg} {log : List Entry} {p : Nat} {pc : PC} (h : At c log p pc) {e : Entry}
    (h1 : ∀ t, tok pc = some t → decides t e = false ∧ e ≠ .ret p t) : At c (log ++ [e]) p pc := by
  have hc : ∀ t, tok pc = some t → (log ++ [e]).countP (decides t) = log.countP (decides t) := fun t ht => by
    rw [List.countP_append]; simp [(h1 t ht).1]
  have hr : ∀ t, tok pc = some t → .ret p t ∉ log → .ret p t ∉ log ++ [e] := fun t ht hn hm => by
    rcases List.mem_append.1 hm with hm | hm
    · exact hn hm
    · simp only [List.mem_singleton] at hm; exact (h1 t ht).2 hm.symm
  cases pc with
  | idle => trivial
  | sizing t at0 n0 =>
    obtain ⟨g1, g2, a, m, rfl, g3⟩ := h
    exact ⟨(hc t rfl).trans g1, hr t rfl g2, a, m ++ [e], by simp, g3⟩
  | passed t => exact ⟨(hc t rfl).trans h.1, hr t rfl h.2.1, h.2.2.on e⟩
  | full t => exact ⟨(hc t rfl).trans h.1, hr t rfl h.2.1, h.2.2.on e⟩
  | offered t => exact ⟨(hc t rfl).trans h.1, hr t rfl h.2.1, by simp [h.2.2]⟩
  | over t => exact ⟨(hc t rfl).trans h.1, hr t rfl h.2.1, by simp [h.2.2]⟩

structure Inv (c : Cfg) (w : W) : Prop where
  each : ∀ a e r, w.log = a ++ e :: r → Cond c a e
  q : w.q = inQueue w.log
  nodup : (inQueue w.log).Nodup
  offers : w.offers = (accepted w.log).length
  at_ : ∀ p, At c w.log p (w.prod p)
  fresh : ∀ p t, .fire p t ∈ w.log → t < w.fresh
  fired : ∀ t, 0 < w.log.countP (decides t) → t < w.fresh
  mem : ∀ t ∈ inQueue w.log, .accept t ∈ w.log
  busy : ∀ k t, w.work k = .busy t → .take k t ∈ w.log
  drain : w.q ≠ [] → 0 < w.pending ∨ (∃ k, w.work k ≠ .idle) ∨ ∃ p t, w.prod p = .offered t

theorem inv_init (c : Cfg) : Inv c .init where
  each := fun a e r h => by cases a <;> cases h
  q := rfl
  nodup := List.nodup_nil
  offers := rfl
  at_ := fun _ => trivial
  fresh := fun _ _ h => by cases h
  fired := fun _ h => by cases h
  mem := fun _ h => by cases h
  busy := fun _ _ h => by cases h
  drain := fun h => absurd rfl h

/-- A call of `fire` has one thread. -/
theorem fire_inj {c : Cfg} {log : List Entry} (h : ∀ a e r, log = a ++ e :: r → Cond c a e) {p p' : Nat} {t : Tok} (h1 : .fire p t ∈ log) (h2 : .fire p' t ∈ log) :
    p = p' := by
  obtain ⟨a, r, rfl⟩ := List.append_of_mem h1
  rcases List.mem_append.1 h2 with h2 | h2
  · exact absurd h2 ((h _ _ _ rfl).1 p')
  · rcases List.mem_cons.1 h2 with h2 | h2
    · cases h2; rfl
    · obtain ⟨a', r', rfl⟩ := List.append_of_mem h2
      have := (h (a ++ .fire p t :: a') (.fire p' t) r' (by simp)).1 p
      exact absurd (by simp) this

theorem each_snoc {c : Cfg} {log : List Entry} {e : Entry} (h : ∀ a e r, log = a ++ e :: r → Cond c a e) (he : Cond c log e) :
    ∀ a e' r, log ++ [e] = a ++ e' :: r → Cond c a e' := by
  intro a e' r heq
  rcases snoc_cons heq with ⟨-, rfl, rfl⟩ | ⟨r', -, h'⟩
  · exact he
  · exact h _ _ _ h'

/-- Entries about the event of thread `p` say nothing about the others. -/
theorem Inv.others {c : Cfg} {w : W} (h : Inv c w) {p : Nat} {t : Tok} (ht : tok (w.prod p) = some t) {e : Entry}
    (he : e = .accept t ∨ e = .refuse t ∨ e = .rejected p t ∨ e = .ret p t) {p' : Nat} (hp : p' ≠ p) : At c (w.log ++ [e]) p' (w.prod p') := by
  refine (h.at_ p').on fun t' ht' => ?_
  have hne : t ≠ t' := fun heq => hp (fire_inj h.each ((h.at_ p').fired ht').1 (heq ▸ ((h.at_ p).fired ht).1))
  rcases he with rfl | rfl | rfl | rfl <;> simp [decides, hne]

theorem at_fset {c : Cfg} {log : List Entry} {f : Nat → PC} {p : Nat} {pc : PC} (h : At c log p pc) (ho : ∀ p', p' ≠ p → At c log p' (f p')) :
    ∀ p', At c log p' (fset f p pc p') := by
  intro p'
  unfold fset
  split
  · next hp => rw [hp]; exact h
  · next hp => exact ho p' hp

/-- Only the thread goes on. -/
theorem Inv.move {c : Cfg} {w : W} (h : Inv c w) {p : Nat} {pc : PC} (ha : At c w.log p pc) (hno : ∀ t, w.prod p ≠ .offered t) :
    Inv c { w with prod := fset w.prod p pc } where
  each := h.each
  q := h.q
  nodup := h.nodup
  offers := h.offers
  at_ := at_fset ha fun p' _ => h.at_ p'
  fresh := h.fresh
  fired := h.fired
  mem := h.mem
  busy := h.busy
  drain := fun hq => by
    rcases h.drain hq with h1 | h1 | ⟨p', t, h1⟩
    · exact .inl h1
    · exact .inr (.inl h1)
    · refine .inr (.inr ⟨p', t, ?_⟩)
      show fset w.prod p _ p' = _
      rw [fset_ne]
      · exact h1
      · rintro rfl; exact hno t h1

/-- An entry that does not change the queue. -/
theorem inQueue_quiet {a : List Entry} {e : Entry} (h : (∀ t, e ≠ .accept t) ∧ ∀ k t, e ≠ .take k t) : inQueue (a ++ [e]) = inQueue a := by
  rw [inQueue_snoc]; cases e <;> simp_all
theorem accepted_quiet {a : List Entry} {e : Entry} (h : ∀ t, e ≠ .accept t) : accepted (a ++ [e]) = accepted a := by
  rw [accepted_snoc]; cases e <;> simp_all

theorem inv_fire {c : Cfg} {w : W} (h : Inv c w) {p : Nat} (hp : w.prod p = .idle) :
    Inv c { w with fresh := w.fresh + 1, prod := fset w.prod p (.sizing w.fresh w.q w.offers), log := w.log ++ [.fire p w.fresh] } := by
  have hq : inQueue (w.log ++ [.fire p w.fresh]) = inQueue w.log := inQueue_quiet (by simp)
  have hd : ∀ t, (w.log ++ [Entry.fire p w.fresh]).countP (decides t) = w.log.countP (decides t) := fun t => by
    rw [List.countP_append]; simp [decides]
  have h0 : w.log.countP (decides w.fresh) = 0 := by
    rcases Nat.eq_zero_or_pos (w.log.countP (decides w.fresh)) with h0 | h0
    · exact h0
    · exact absurd (h.fired _ h0) (Nat.lt_irrefl _)
  have hc : Cond c w.log (.fire p w.fresh) := ⟨fun p' hm => absurd (h.fresh _ _ hm) (Nat.lt_irrefl _), h0⟩
  have hr : .ret p w.fresh ∉ w.log := fun hm => by
    obtain ⟨a, r, he⟩ := List.append_of_mem hm
    have := (h.each _ _ _ he).2.1
    exact absurd (h.fresh p w.fresh (by rw [he]; simp [this])) (Nat.lt_irrefl _)
  refine ⟨each_snoc h.each hc, h.q.trans hq.symm, ?_, ?_, at_fset ?_ fun p' hp' => ?_, ?_, ?_, ?_, ?_, ?_⟩
  · rw [hq]; exact h.nodup
  · rw [accepted_quiet (by simp)]; exact h.offers
  · refine ⟨by rw [hd]; exact h0, by simpa using hr, w.log, [], rfl, h.q, h.offers⟩
  · exact (h.at_ p').on fun t _ => ⟨rfl, by simp⟩
  · intro p' t hm
    rcases List.mem_append.1 hm with hm | hm
    · exact Nat.lt_succ_of_lt (h.fresh _ _ hm)
    · simp only [List.mem_singleton, Entry.fire.injEq] at hm; rw [hm.2]; exact Nat.lt_succ_self _
  · intro t ht
    rw [hd] at ht
    exact Nat.lt_succ_of_lt (h.fired t ht)
  · intro t ht
    rw [hq] at ht
    exact List.mem_append_left _ (h.mem t ht)
  · exact fun k t hk => List.mem_append_left _ (h.busy k t hk)
  · intro hne
    rcases h.drain hne with h1 | h1 | ⟨p', t, h1⟩
    · exact .inl h1
    · exact .inr (.inl h1)
    · refine .inr (.inr ⟨p', t, ?_⟩)
      show fset w.prod p _ p' = _
      rw [fset_ne]
      · exact h1
      · rintro rfl; rw [hp] at h1; cases h1

/-- An entry of the thread that fires, other than an accepted event. -/
theorem Inv.say {c : Cfg} {w : W} (h : Inv c w) {p : Nat} {t : Tok} (ht : tok (w.prod p) = some t) {e : Entry} {pc : PC} {n : Nat}
    (he : e = .refuse t ∨ e = .rejected p t ∨ e = .ret p t) (hc : Cond c w.log e) (ha : At c (w.log ++ [e]) p pc)
    (hn : w.pending ≤ n) (hdr : ∀ t, w.prod p = .offered t → 0 < n) :
    Inv c { w with pending := n, prod := fset w.prod p pc, log := w.log ++ [e] } := by
  have hq : inQueue (w.log ++ [e]) = inQueue w.log := inQueue_quiet (by rcases he with rfl | rfl | rfl <;> simp)
  have hf := ((h.at_ p).fired ht).1
  refine ⟨each_snoc h.each hc, h.q.trans hq.symm, ?_, ?_, at_fset ha fun p' hp' => h.others ht (.inr he) hp', ?_, ?_, ?_, ?_, ?_⟩
  · rw [hq]; exact h.nodup
  · rw [accepted_quiet (by rcases he with rfl | rfl | rfl <;> simp)]; exact h.offers
  · intro p' t' hm
    rcases List.mem_append.1 hm with hm | hm
    · exact h.fresh _ _ hm
    · simp only [List.mem_singleton] at hm; rcases he with rfl | rfl | rfl <;> cases hm
  · intro t' ht'
    rw [List.countP_append] at ht'
    by_cases h0 : 0 < w.log.countP (decides t')
    · exact h.fired t' h0
    · have : decides t' e = true := by
        cases hd : decides t' e
        · simp [hd] at ht'; obtain ⟨x, hx⟩ := ht'; exact absurd (List.countP_pos_iff.2 ⟨x, hx⟩) h0
        · rfl
      have : t = t' := by
        rcases he with rfl | rfl | rfl
        · simpa [decides] using this
        · simpa [decides] using this
        · cases this
      rw [← this]; exact h.fresh _ _ hf
  · intro t' ht'
    rw [hq] at ht'
    exact List.mem_append_left _ (h.mem t' ht')
  · exact fun k t hk => List.mem_append_left _ (h.busy k t hk)
  · intro hne
    rcases h.drain hne with h1 | h1 | ⟨p', t', h1⟩
    · exact .inl (Nat.lt_of_lt_of_le h1 hn)
    · exact .inr (.inl h1)
    · by_cases hp' : p' = p
      · subst hp'; exact .inl (hdr t' h1)
      · refine .inr (.inr ⟨p', t', ?_⟩)
        show fset w.prod p _ p' = _
        rw [fset_ne _ _ hp']
        exact h1

theorem inv_accept {c : Cfg} {w : W} (h : Inv c w) {p : Nat} {t : Tok} (hp : w.prod p = .passed t) (hok : c.offerOk w.q true = true) :
    Inv c { w with q := w.q ++ [t], offers := w.offers + 1, prod := fset w.prod p (.offered t), log := w.log ++ [.accept t] } := by
  have ha := h.at_ p
  rw [hp] at ha
  have hf := (ha.fired rfl).1
  have hq : inQueue (w.log ++ [.accept t]) = inQueue w.log ++ [t] := inQueue_snoc _ _
  have hc : Cond c w.log (.accept t) := ⟨ha.1, h.q ▸ hok, p, ha.2.2⟩
  have hnew : t ∉ inQueue w.log := fun hm => by
    have := List.countP_eq_zero.1 ha.1 _ (h.mem t hm)
    simp [decides] at this
  refine ⟨each_snoc h.each hc, ?_, ?_, ?_, at_fset ?_ fun p' hp' => h.others (t := t) (by rw [hp]; rfl) (.inl rfl) hp', ?_, ?_, ?_, ?_, ?_⟩
  · rw [hq, ← h.q]
  · rw [hq, List.nodup_append]
    exact ⟨h.nodup, by simp, fun x hx y hy => by simp only [List.mem_singleton] at hy; subst hy; rintro rfl; exact hnew hx⟩
  · show w.offers + 1 = _
    rw [accepted_snoc, List.length_append, h.offers]; rfl
  · refine ⟨?_, ?_, List.mem_append_left _ hf⟩
    · rw [List.countP_append, ha.1]; simp [decides]
    · simpa using ha.2.1
  · intro p' t' hm
    rcases List.mem_append.1 hm with hm | hm
    · exact h.fresh _ _ hm
    · simp at hm
  · intro t' ht'
    rw [List.countP_append] at ht'
    by_cases h0 : 0 < w.log.countP (decides t')
    · exact h.fired t' h0
    · have hz := Nat.eq_zero_of_not_pos h0
      by_cases htt : t = t'
      · rw [← htt]; exact h.fresh _ _ hf
      · rw [hz] at ht'; simp [decides, htt] at ht'
  · intro t' ht'
    rw [hq] at ht'
    rcases List.mem_append.1 ht' with ht' | ht'
    · exact List.mem_append_left _ (h.mem t' ht')
    · simp only [List.mem_singleton] at ht'; subst ht'; simp
  · exact fun k t hk => List.mem_append_left _ (h.busy k t hk)
  · exact fun _ => .inr (.inr ⟨p, t, fset_same ..⟩)

/-- An entry of a worker. -/
theorem Inv.work {c : Cfg} {w : W} (h : Inv c w) {k : Nat} {kc : KC} {e : Entry} {q : List Tok} (he : (∃ t, e = .take k t) ∨ (∃ t, e = .done k t) ∨ e = .died k)
    (hc : Cond c w.log e) (hq : q = inQueue (w.log ++ [e])) (hb : ∀ t, kc = .busy t → e = .take k t) (hk : kc = .idle → q = []) :
    Inv c { w with q := q, work := fset w.work k kc, log := w.log ++ [e] } := by
  have hsub : ∀ t, t ∈ inQueue (w.log ++ [e]) → t ∈ inQueue w.log := fun t ht => by
    rw [inQueue_snoc] at ht
    rcases he with ⟨t', rfl⟩ | ⟨t', rfl⟩ | rfl
    · exact List.mem_of_mem_erase ht
    · exact ht
    · exact ht
  have hd : ∀ t, decides t e = false := fun t => by rcases he with ⟨t', rfl⟩ | ⟨t', rfl⟩ | rfl <;> rfl
  have hna : ∀ t, e ≠ .accept t := fun t => by rcases he with ⟨t', rfl⟩ | ⟨t', rfl⟩ | rfl <;> simp
  refine ⟨each_snoc h.each hc, hq, ?_, ?_, fun p => (h.at_ p).on fun t _ => ⟨hd t, ?_⟩, ?_, ?_, ?_, ?_, ?_⟩
  · show (inQueue (w.log ++ [e])).Nodup
    rw [inQueue_snoc]
    rcases he with ⟨t', rfl⟩ | ⟨t', rfl⟩ | rfl
    · exact h.nodup.erase _
    · exact h.nodup
    · exact h.nodup
  · rw [accepted_quiet hna]; exact h.offers
  · rcases he with ⟨t', rfl⟩ | ⟨t', rfl⟩ | rfl <;> simp
  · intro p t hm
    rcases List.mem_append.1 hm with hm | hm
    · exact h.fresh _ _ hm
    · simp only [List.mem_singleton] at hm; rcases he with ⟨t', rfl⟩ | ⟨t', rfl⟩ | rfl <;> cases hm
  · intro t ht
    rw [List.countP_append] at ht
    refine h.fired t ?_
    have : [e].countP (decides t) = 0 := by simp [hd]
    rw [this] at ht; exact ht
  · exact fun t ht => List.mem_append_left _ (h.mem t (hsub t ht))
  · intro k' t hk'
    have hk2 : fset w.work k kc k' = .busy t := hk'
    unfold fset at hk2
    split at hk2
    · next hkk => subst hkk; rw [hb t hk2]; simp
    · exact List.mem_append_left _ (h.busy k' t hk2)
  · intro hne
    have hkc : kc ≠ .idle := fun hi => hne (hk hi)
    exact .inr (.inl ⟨k, by show fset w.work k kc k ≠ _; rw [fset_same]; exact hkc⟩)

theorem erase_eq {q : List Tok} (hn : q.Nodup) {i : Nat} {t : Tok} (h : q[i]? = some t) : q.eraseIdx i = q.erase t := by
  induction q generalizing i with
  | nil => cases h
  | cons x q ih =>
    cases i with
    | zero => cases h; simp
    | succ i =>
      have h' : q[i]? = some t := h
      have hx : x ≠ t := fun hx => by
        subst hx
        exact (List.nodup_cons.1 hn).1 (List.mem_of_getElem? h')
      rw [List.eraseIdx_cons_succ, ih (List.nodup_cons.1 hn).2 h', List.erase_cons_tail (by simpa using hx)]

theorem inv_step {c : Cfg} {w w' : W} (h : Inv c w) {x : Act} (hs : step c w x = some w') : Inv c w' := by
  cases x with
  | fire p =>
    simp only [step] at hs
    split at hs
    · next hp => cases hs; exact inv_fire h hp
    · cases hs
  | size p r =>
    simp only [step] at hs
    split at hs
    · next t at0 n0 hp =>
      have ha := h.at_ p
      rw [hp] at ha
      obtain ⟨h1, h2, a, m, h3, rfl, rfl⟩ := ha
      split at hs
      · next hr =>
        have hno : ∀ t, w.prod p ≠ .offered t := fun t' => by rw [hp]; simp
        split at hs
        · next hm =>
          cases hs
          refine h.move ⟨h1, h2, a, m, h3, hm.1, ?_⟩ hno
          have := hr.2
          rw [h.offers, h3] at this
          have h5 : (accepted (a ++ .fire p t :: m)).length = (accepted a).length + (accepted m).length := by
            simp [accepted]
          rw [h5] at this
          have := hm.2
          omega
        · next hm =>
          cases hs
          refine h.move ⟨h1, h2, a, m, [], by rw [h3]; simp, fun h0 => ?_⟩ hno
          have hst : w.stayed (inQueue a) = stayed a (a ++ .fire p t :: m) := by
            unfold W.stayed stayed; rw [h.q, h3]
          rw [← hst]
          have := hr.1
          have : ¬ ((r : Int) ≥ c.max) := fun h6 => hm ⟨h0, h6⟩
          omega
      · cases hs
    · cases hs
  | report p =>
    simp only [step] at hs
    split at hs
    · next t hp =>
      cases hs
      have ha := h.at_ p
      rw [hp] at ha
      refine h.say (t := t) (n := w.pending) (by rw [hp]; rfl) (.inr (.inl rfl)) ⟨ha.1, ha.2.2⟩ ⟨?_, ?_, List.mem_append_left _ (ha.fired rfl).1⟩ (Nat.le_refl _) (fun t' h' => by rw [hp] at h'; cases h')
      · rw [List.countP_append, ha.1]; simp [decides]
      · simpa using ha.2.1
    · cases hs
  | ret p =>
    simp only [step] at hs
    split at hs
    · next t hp =>
      cases hs
      have ha := h.at_ p
      rw [hp] at ha
      exact h.say (t := t) (n := w.pending) (by rw [hp]; rfl) (.inr (.inr rfl)) ⟨ha.1, ha.2.2, ha.2.1⟩ trivial (Nat.le_refl _) (fun t' h' => by rw [hp] at h'; cases h')
    · cases hs
  | offer p ok =>
    simp only [step] at hs
    split at hs
    · next t hp =>
      split at hs
      · next hok =>
        cases ok
        · cases hs
          have ha := h.at_ p
          rw [hp] at ha
          refine h.say (t := t) (n := w.pending) (by rw [hp]; rfl) (.inl rfl) ⟨ha.1, h.q ▸ hok, p, ha.2.2⟩ ⟨?_, ?_, List.mem_append_left _ (ha.fired rfl).1⟩ (Nat.le_refl _) (fun t' h' => by rw [hp] at h'; cases h')
          · rw [List.countP_append, ha.1]; simp [decides]
          · simpa using ha.2.1
        · cases hs
          exact inv_accept h hp hok
      · cases hs
    · cases hs
  | execute p =>
    simp only [step] at hs
    split at hs
    · next t hp =>
      cases hs
      have ha := h.at_ p
      rw [hp] at ha
      exact h.say (t := t) (n := w.pending + 1) (by rw [hp]; rfl) (.inr (.inr rfl)) ⟨ha.1, ha.2.2, ha.2.1⟩ trivial (Nat.le_succ _) (fun _ _ => Nat.succ_pos _)
    · cases hs
  | begin k =>
    simp only [step] at hs
    split at hs
    · next hk =>
      split at hs
      · cases hs
        refine ⟨h.each, h.q, h.nodup, h.offers, h.at_, h.fresh, h.fired, h.mem, fun k' t hk' => ?_, fun hne => .inr (.inl ⟨k, ?_⟩)⟩
        · have hk2 : fset w.work k .loop k' = .busy t := hk'
          unfold fset at hk2
          split at hk2
          · cases hk2
          · exact h.busy k' t hk2
        · show fset w.work k .loop k ≠ _
          rw [fset_same]; simp
      · cases hs
    · cases hs
  | check k =>
    simp only [step] at hs
    split at hs
    · next hk =>
      cases hs
      refine ⟨h.each, h.q, h.nodup, h.offers, h.at_, h.fresh, h.fired, h.mem, fun k' t hk' => ?_, fun hne => .inr (.inl ⟨k, ?_⟩)⟩
      · have hk2 : fset w.work k (if w.q = [] then .idle else .polling) k' = .busy t := hk'
        unfold fset at hk2
        split at hk2
        · split at hk2 <;> cases hk2
        · exact h.busy k' t hk2
      · show fset w.work k (if w.q = [] then .idle else .polling) k ≠ _
        rw [fset_same, if_neg hne]; simp
    · cases hs
  | poll k i =>
    simp only [step] at hs
    split at hs
    · next hk =>
      split at hs
      · next hq =>
        cases hs
        have h1 : inQueue w.log = [] := by rw [← h.q, hq]
        have := h.work (k := k) (kc := .idle) (e := .died k) (q := w.q) (.inr (.inr rfl)) h1 (by rw [inQueue_quiet (by simp)]; exact h.q) (fun _ h' => by cases h') (fun _ => hq)
        exact this
      · next y q hq =>
        split at hs
        · next hok =>
          split at hs
          · next t ht =>
            cases hs
            rw [← hq] at ht ⊢
            have hn : w.q.Nodup := h.q ▸ h.nodup
            refine h.work (k := k) (.inl ⟨t, rfl⟩) ⟨i, h.q ▸ hok, h.q ▸ ht⟩ ?_ (fun t' h' => by cases h'; rfl) (fun h' => by cases h')
            rw [inQueue_snoc, erase_eq hn ht, h.q]
          · cases hs
        · cases hs
    · cases hs
  | done k =>
    simp only [step] at hs
    split at hs
    · next t hk =>
      cases hs
      exact h.work (k := k) (.inr (.inl ⟨t, rfl⟩)) (h.busy k t hk) (by rw [inQueue_quiet (by simp)]; exact h.q) (fun _ h' => by cases h') (fun h' => by cases h')
    · cases hs

theorem inv {c : Cfg} {w : W} (h : Reach c w) : Inv c w := by
  obtain ⟨xs, hs⟩ := h
  have : ∀ (xs : List Act) (w0 : W), Inv c w0 → runs c w0 xs = some w → Inv c w := by
    intro xs
    induction xs with
    | nil => intro w0 h0 h1; cases h1; exact h0
    | cons x xs ih =>
      intro w0 h0 h1
      simp only [runs] at h1
      split at h1
      · cases h1
      · next w1 h2 => exact ih w1 (inv_step h0 h2) h1
  exact this xs _ (inv_init c) hs

/-! ### What came in and what went out -/

theorem perm {c : Cfg} (log : List Entry) (h : ∀ a e r, log = a ++ e :: r → Cond c a e) : (accepted log).Perm (taken log ++ inQueue log) := by
  rcases List.eq_nil_or_concat log with rfl | ⟨a, e, rfl⟩
  · exact .nil
  · rw [List.concat_eq_append] at h ⊢
    have ih := perm a fun a' e' r' he => h a' e' (r' ++ [e]) (by rw [he]; simp)
    have hc := h a e [] rfl
    rw [accepted_snoc, taken_snoc, inQueue_snoc]
    cases e with
    | accept t => simpa only [List.append_nil, ← List.append_assoc] using ih.append_right [t]
    | take k t =>
      obtain ⟨i, -, hi⟩ := hc
      have hm : t ∈ inQueue a := List.mem_of_getElem? hi
      simp only [List.append_nil, List.append_assoc, List.singleton_append]
      exact ih.trans (List.Perm.append_left _ (List.perm_cons_erase hm))
    | _ => simpa using ih
termination_by log.length
decreasing_by simp_all

theorem fifo {c : Cfg} (hf : ∀ xs i, c.pickOk xs i = true → i = 0) (log : List Entry) (h : ∀ a e r, log = a ++ e :: r → Cond c a e) :
    taken log ++ inQueue log = accepted log := by
  rcases List.eq_nil_or_concat log with rfl | ⟨a, e, rfl⟩
  · rfl
  · rw [List.concat_eq_append] at h ⊢
    have ih := fifo hf a fun a' e' r' he => h a' e' (r' ++ [e]) (by rw [he]; simp)
    have hc := h a e [] rfl
    rw [accepted_snoc, taken_snoc, inQueue_snoc]
    cases e with
    | accept t => rw [← ih]; simp
    | take k t =>
      obtain ⟨i, h1, hi⟩ := hc
      rw [hf _ _ h1] at hi
      dsimp only
      cases hq : inQueue a with
      | nil => rw [hq] at hi; cases hi
      | cons x q => rw [hq] at hi ih; cases hi; rw [← ih]; simp
    | _ => simpa using ih
termination_by log.length
decreasing_by simp_all

/-! ### Events that are fired one after the other -/

theorem Alone.left {a b : List Entry} (h : Alone (a ++ b)) : Alone a :=
  fun a' p t m p' t' r he => h a' p t m p' t' (r ++ b) (by rw [he]; simp)

structure Bnd (c : Cfg) (w : W) : Prop where
  one : ∀ p p', w.prod p ≠ .idle → w.prod p' ≠ .idle → p = p'
  siz : ∀ p t at0 n0, w.prod p = .sizing t at0 n0 → w.q.Sublist at0
  pas : ∀ p t, w.prod p = .passed t → (w.q.length : Int) < c.max
  len : (w.q.length : Int) ≤ c.max

theorem tok_none {pc : PC} (h : tok pc = none) : pc = .idle := by cases pc <;> first | rfl | cases h

theorem bnd_fset {c : Cfg} {w : W} (h : Bnd c w) {p : Nat} {pc : PC} (hp : w.prod p ≠ .idle) (log : List Entry) (off n : Nat)
    (h1 : ∀ t at0 n0, pc ≠ .sizing t at0 n0) (h2 : ∀ t, pc = .passed t → (w.q.length : Int) < c.max) :
    Bnd c { w with prod := fset w.prod p pc, log := log, offers := off, pending := n } where
  one := fun p1 p2 g1 g2 => by
    have g1' : fset w.prod p pc p1 ≠ .idle := g1
    have g2' : fset w.prod p pc p2 ≠ .idle := g2
    have aux : ∀ p', fset w.prod p pc p' ≠ .idle → p' = p := fun p' g => by
      unfold fset at g
      split at g
      · assumption
      · exact h.one _ _ g hp
    rw [aux _ g1', aux _ g2']
  siz := fun p' t at0 n0 g => by
    have g' : fset w.prod p pc p' = _ := g
    unfold fset at g'
    split at g'
    · exact absurd g' (h1 _ _ _)
    · exact h.siz _ _ _ _ g'
  pas := fun p' t g => by
    have g' : fset w.prod p pc p' = _ := g
    unfold fset at g'
    split at g'
    · exact h2 t g'
    · exact h.pas _ _ g'
  len := h.len

/-- Workers only take away. -/
theorem bnd_less {c : Cfg} {w : W} (h : Bnd c w) {q : List Tok} (hq : q.Sublist w.q) (log : List Entry) (n : Nat) (f : Nat → KC) :
    Bnd c { w with q := q, log := log, work := f, pending := n } where
  one := h.one
  siz := fun p t at0 n0 g => hq.trans (h.siz p t at0 n0 g)
  pas := fun p t g => by
    have := h.pas p t g
    have := hq.length_le
    show (q.length : Int) < c.max
    omega
  len := by
    have := h.len
    have := hq.length_le
    show (q.length : Int) ≤ c.max
    omega

theorem bnd_step {c : Cfg} {w w' : W} (hi : Inv c w) (h0 : 0 < c.max) (h : Alone w.log → Bnd c w) {x : Act} (hs : step c w x = some w')
    (ha : Alone w'.log) : Bnd c w' := by
  cases x with
  | fire p =>
    simp only [step] at hs
    split at hs
    · next hp =>
      cases hs
      have ha' : Alone (w.log ++ [.fire p w.fresh]) := ha
      have hb := h (Alone.left ha')
      have hidle : ∀ p', w.prod p' = .idle := fun p' => by
        cases ht : tok (w.prod p') with
        | none => exact tok_none ht
        | some t =>
          obtain ⟨g1, g2⟩ := (hi.at_ p').fired ht
          obtain ⟨a, m, he⟩ := List.append_of_mem g1
          have := ha' a p' t m p w.fresh [] (by rw [he]; simp)
          exact absurd (by rw [he]; simp [this]) g2
      refine ⟨fun p1 p2 g1 g2 => ?_, fun p' t at0 n0 g => ?_, fun p' t g => ?_, hb.len⟩
      · have aux : ∀ p', fset w.prod p (.sizing w.fresh w.q w.offers) p' ≠ .idle → p' = p := fun p' g => by
          unfold fset at g
          split at g
          · assumption
          · exact absurd (hidle p') g
        rw [aux _ g1, aux _ g2]
      · have g' : fset w.prod p _ p' = _ := g
        unfold fset at g'
        split at g'
        · cases g'; exact List.Sublist.refl _
        · rw [hidle] at g'; cases g'
      · have g' : fset w.prod p _ p' = _ := g
        unfold fset at g'
        split at g'
        · cases g'
        · rw [hidle] at g'; cases g'
    · cases hs
  | size p r =>
    simp only [step] at hs
    split at hs
    · next t at0 n0 hp =>
      split at hs
      · next hr =>
        split at hs
        · cases hs
          exact bnd_fset (h ha) (by rw [hp]; simp) w.log w.offers w.pending (by simp) (fun _ h' => by cases h')
        · next hm =>
          cases hs
          refine bnd_fset (h ha) (by rw [hp]; simp) w.log w.offers w.pending (by simp) (fun _ _ => ?_)
          have h1 := (h ha).siz p t at0 n0 hp
          have h2 : w.q.length ≤ w.stayed at0 := by
            have := (h1.filter (· ∈ w.q)).length_le
            rwa [List.filter_eq_self.2 (by simp)] at this
          have h3 : ¬ ((r : Int) ≥ c.max) := fun h6 => hm ⟨h0, h6⟩
          omega
      · cases hs
    · cases hs
  | report p =>
    simp only [step] at hs
    split at hs
    · next t hp =>
      cases hs
      exact bnd_fset (h (Alone.left ha)) (by rw [hp]; simp) _ w.offers w.pending (by simp) (fun _ h' => by cases h')
    · cases hs
  | ret p =>
    simp only [step] at hs
    split at hs
    · next t hp =>
      cases hs
      exact bnd_fset (h (Alone.left ha)) (by rw [hp]; simp) _ w.offers w.pending (by simp) (fun _ h' => by cases h')
    · cases hs
  | offer p ok =>
    simp only [step] at hs
    split at hs
    · next t hp =>
      split at hs
      · cases ok
        · cases hs
          exact bnd_fset (h (Alone.left ha)) (by rw [hp]; simp) _ w.offers w.pending (by simp) (fun _ h' => by cases h')
        · cases hs
          have hb := h (Alone.left ha)
          have aux : ∀ p' pc, pc ≠ .offered t → pc ≠ .idle → fset w.prod p (.offered t) p' ≠ pc := fun p' pc g1 g2 g => by
            unfold fset at g
            split at g
            · exact g1 g.symm
            · next hne => exact hne (hb.one p' p (by rw [g]; exact g2) (by rw [hp]; simp))
          refine ⟨fun p1 p2 g1 g2 => ?_, fun p' t' at0 n0 g => absurd g (aux p' _ (by simp) (by simp)), fun p' t' g => absurd g (aux p' _ (by simp) (by simp)), ?_⟩
          · have aux2 : ∀ p', fset w.prod p (.offered t) p' ≠ .idle → p' = p := fun p' g => by
              unfold fset at g
              split at g
              · assumption
              · exact hb.one _ _ g (by rw [hp]; simp)
            rw [aux2 _ g1, aux2 _ g2]
          · have := hb.pas p t hp
            show ((w.q ++ [t]).length : Int) ≤ c.max
            rw [List.length_append, List.length_singleton]
            omega
      · cases hs
    · cases hs
  | execute p =>
    simp only [step] at hs
    split at hs
    · next t hp =>
      cases hs
      exact bnd_fset (h (Alone.left ha)) (by rw [hp]; simp) _ w.offers (w.pending + 1) (by simp) (fun _ h' => by cases h')
    · cases hs
  | begin k =>
    simp only [step] at hs
    split at hs
    · split at hs
      · cases hs; exact bnd_less (h ha) (List.Sublist.refl _) _ _ _
      · cases hs
    · cases hs
  | check k =>
    simp only [step] at hs
    split at hs
    · cases hs; exact bnd_less (h ha) (List.Sublist.refl _) _ w.pending _
    · cases hs
  | poll k i =>
    simp only [step] at hs
    split at hs
    · split at hs
      · cases hs; exact bnd_less (h (Alone.left ha)) (List.Sublist.refl _) _ w.pending _
      · next y q hq =>
        split at hs
        · split at hs
          · cases hs
            rw [← hq]
            exact bnd_less (h (Alone.left ha)) (List.eraseIdx_sublist ..) _ w.pending _
          · cases hs
        · cases hs
    · cases hs
  | done k =>
    simp only [step] at hs
    split at hs
    · cases hs; exact bnd_less (h (Alone.left ha)) (List.Sublist.refl _) _ w.pending _
    · cases hs

theorem bnd {c : Cfg} {w : W} (h : Reach c w) (h0 : 0 < c.max) : Alone w.log → Bnd c w := by
  obtain ⟨xs, hs⟩ := h
  have : ∀ (xs : List Act) (w0 : W), Inv c w0 → (Alone w0.log → Bnd c w0) → runs c w0 xs = some w → Alone w.log → Bnd c w := by
    intro xs
    induction xs with
    | nil => intro w0 _ h0 h1; cases h1; exact h0
    | cons x xs ih =>
      intro w0 hi hb h1
      simp only [runs] at h1
      split at h1
      · cases h1
      · next w1 h2 => exact ih w1 (inv_step hi h2) (bnd_step hi h0 hb h2) h1
  refine this xs _ (inv_init c) (fun _ => ⟨fun _ _ g => absurd rfl g, (fun _ _ _ _ g => by cases g), (fun _ _ g => by cases g), ?_⟩) hs
  show (0 : Int) ≤ c.max
  omega

/-! ### One worker -/

structure Sing (w : W) : Prop where
  zero : ∀ k, w.work k ≠ .idle → k = 0
  poll : ∀ k, w.work k = .polling → w.q ≠ []
  died : ∀ k, .died k ∉ w.log

theorem sing_work {w : W} (h : Sing w) {k : Nat} {kc : KC} {q : List Tok} {log : List Entry} {n : Nat} (hk : k = 0) (hp : kc = .polling → q ≠ [])
    (hl : ∀ k, .died k ∉ log) : Sing { w with q := q, work := fset w.work k kc, log := log, pending := n } where
  zero := fun k' g => by
    have g' : fset w.work k kc k' ≠ .idle := g
    unfold fset at g'
    split at g'
    · next h' => rw [h', hk]
    · exact h.zero k' g'
  poll := fun k' g => by
    have g' : fset w.work k kc k' = .polling := g
    unfold fset at g'
    split at g'
    · exact hp g'
    · next h' => exact absurd (h.zero k' (by rw [g']; simp)) (by rw [← hk]; exact h')
  died := hl

theorem sing_step {c : Cfg} (h1 : c.workers ≤ 1) {w w' : W} (h : Sing w) {x : Act} (hs : step c w x = some w') : Sing w' := by
  have hd : ∀ {e : Entry}, (∀ k, e ≠ .died k) → ∀ k, .died k ∉ w.log ++ [e] := fun he k hm => by
    rcases List.mem_append.1 hm with hm | hm
    · exact h.died k hm
    · simp only [List.mem_singleton] at hm; exact he k hm.symm
  cases x with
  | fire p =>
    simp only [step] at hs
    split at hs
    · cases hs; exact ⟨h.zero, h.poll, hd (by simp)⟩
    · cases hs
  | size p r =>
    simp only [step] at hs
    split at hs
    · split at hs
      · split at hs
        · cases hs; exact ⟨h.zero, h.poll, h.died⟩
        · cases hs; exact ⟨h.zero, h.poll, h.died⟩
      · cases hs
    · cases hs
  | report p =>
    simp only [step] at hs
    split at hs
    · cases hs; exact ⟨h.zero, h.poll, hd (by simp)⟩
    · cases hs
  | ret p =>
    simp only [step] at hs
    split at hs
    · cases hs; exact ⟨h.zero, h.poll, hd (by simp)⟩
    · cases hs
  | offer p ok =>
    simp only [step] at hs
    split at hs
    · split at hs
      · cases ok
        · cases hs; exact ⟨h.zero, h.poll, hd (by simp)⟩
        · cases hs; exact ⟨h.zero, fun k _ => by simp, hd (by simp)⟩
      · cases hs
    · cases hs
  | execute p =>
    simp only [step] at hs
    split at hs
    · cases hs; exact ⟨h.zero, h.poll, hd (by simp)⟩
    · cases hs
  | begin k =>
    simp only [step] at hs
    split at hs
    · split at hs
      · next hk => cases hs; exact sing_work h (by omega) (fun g => by cases g) h.died
      · cases hs
    · cases hs
  | check k =>
    simp only [step] at hs
    split at hs
    · next hk =>
      cases hs
      refine sing_work (n := w.pending) h (h.zero k (by rw [hk]; simp)) (fun g hq => ?_) h.died
      rw [if_pos hq] at g; cases g
    · cases hs
  | poll k i =>
    simp only [step] at hs
    split at hs
    · next hk =>
      split at hs
      · next hq => exact absurd hq (h.poll k hk)
      · split at hs
        · split at hs
          · cases hs
            exact sing_work (n := w.pending) h (h.zero k (by rw [hk]; simp)) (fun g => by cases g) (hd (by simp))
          · cases hs
        · cases hs
    · cases hs
  | done k =>
    simp only [step] at hs
    split at hs
    · next hk =>
      cases hs
      exact sing_work (n := w.pending) h (h.zero k (by rw [hk]; simp)) (fun g => by cases g) (hd (by simp))
    · cases hs

theorem sing {c : Cfg} (h1 : c.workers ≤ 1) {w : W} (h : Reach c w) : Sing w := by
  obtain ⟨xs, hs⟩ := h
  have : ∀ (xs : List Act) (w0 : W), Sing w0 → runs c w0 xs = some w → Sing w := by
    intro xs
    induction xs with
    | nil => intro w0 h0 h1; cases h1; exact h0
    | cons x xs ih =>
      intro w0 h0 h2
      simp only [runs] at h2
      split at h2
      · cases h2
      · next w1 h3 => exact ih w1 (sing_step h1 h0 h3) h2
  exact this xs _ ⟨fun _ g => absurd rfl g, (fun _ g => by cases g), (fun _ g => by cases g)⟩ hs

end Verif.Qs
