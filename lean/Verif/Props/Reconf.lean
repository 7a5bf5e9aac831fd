import Verif.Proofs.Reconf
import Verif.Props.Config
/-
C82: configuration of a running machine.
-/

namespace Verif
open AMap

namespace Reconf
open Spec.Reconf

/-! ### The configuration only grows -/

section
variable {rs : Reserved} {c : CfgSt}

theorem outcome_keeps (h : CInv rs c) {k f v u c'} (ho : outcomeResult c k f v = .ok u c') :
    (∀ n, get? c.table n ≠ none → get? c'.table n ≠ none) ∧ ∀ n q, c.entry n q ≠ none → c'.entry n q ≠ none := by
  unfold outcomeResult at ho
  split at ho
  · cases ho
  split at ho
  · cases ho
  next s hs =>
    obtain ⟨r, hg⟩ := Option.ne_none_iff_exists'.1 (h.markedOk s hs).2.2
    simp only [hg, Option.getD_some] at ho
    have key : ∀ q v, (∀ n, get? c.table n ≠ none → get? (c.putClose s r q v).table n ≠ none) ∧
        ∀ n q', c.entry n q' ≠ none → (c.putClose s r q v).entry n q' ≠ none := by
      intro q v
      refine ⟨fun n hn => ?_, fun n q' hn => ?_⟩
      · simp only [CfgSt.putClose, get?_put]
        split <;> simp_all
      · rw [entry_putClose hg]
        split <;> simp_all
    split at ho
    · cases ho; exact key _ _
    split at ho
    · cases ho
    · cases ho; exact key _ _

theorem call_keeps (h : CInv rs c) (k : CfgCall) :
    (∀ n, get? c.table n ≠ none → get? (k.after rs c).table n ≠ none) ∧ ∀ n q, c.entry n q ≠ none → (k.after rs c).entry n q ≠ none := by
  have hstep := (h.step k).1
  unfold CfgCall.after
  cases hr : k.run rs c with
  | error e c' => simp only; rw [hstep _ _ hr]; exact ⟨fun _ => id, fun _ _ => id⟩
  | ok u c' =>
    simp only
    cases k with
    | initialSate s =>
      cases s with
      | none => simp [run_initialSate_none] at hr
      | some s =>
        rw [run_initialSate h] at hr
        split at hr
        · cases hr
        split at hr
        · cases hr
        next hi =>
          have := (h.noinit (by simpa using hi)).1
          refine ⟨fun n hn => ?_, fun n q hn => ?_⟩
          · rw [this] at hn; exact absurd rfl hn
          · simp [CfgSt.entry, this] at hn
    | when_ s =>
      cases s with
      | none => simp [run_when_none] at hr
      | some s =>
        rw [run_when] at hr
        split at hr
        · cases hr
        split at hr
        · cases hr
        split at hr
        · cases hr
        cases hr
        have key : ∀ n, get? c.table n ≠ none → get? (putIfAbsent c.table s.name ⟨false, []⟩) n = get? c.table n := by
          intro n hn
          rw [get?_putIfAbsent]
          split
          next hs =>
            obtain ⟨r, hr⟩ := Option.ne_none_iff_exists'.1 hn
            rw [hs, hr]; rfl
          · rfl
        refine ⟨fun n hn => by rw [key n hn]; exact hn, fun n q hn => ?_⟩
        have hn' : get? c.table n ≠ none := by
          intro h; simp [CfgSt.entry, h] at hn
        simpa [CfgSt.entry, key n hn'] using hn
    | receives e =>
      cases e with
      | none => simp [run_receives_none] at hr
      | some e =>
        rw [run_receives h] at hr
        split at hr
        · cases hr
        split at hr
        · cases hr
        split at hr
        · cases hr
        next s hs =>
          obtain ⟨r, hg⟩ := Option.ne_none_iff_exists'.1 (h.markedOk s hs).2.2
          cases hr
          simp only [hg, Option.getD_some]
          refine ⟨fun n hn => ?_, fun n q hn => ?_⟩
          · simp only [get?_put]
            split <;> simp_all
          · simp only [CfgSt.entry, get?_put] at hn ⊢
            by_cases hns : s.name = n
            · subst hns
              simp only [hg, Option.bind_some] at hn
              simp only [if_true, Option.bind_some, get?_put]
              split <;> simp_all
            · simpa [hns] using hn
    | itEnds => rw [run_itEnds h] at hr; exact outcome_keeps h hr
    | itTransitionsTo s =>
      cases s with
      | none => simp [run_itTransitionsTo_none] at hr
      | some s =>
        rw [run_itTransitionsTo h] at hr
        split at hr
        · cases hr
        · exact outcome_keeps h hr
    | itDoesNotTransition => rw [run_itDoesNotTransition h] at hr; exact outcome_keeps h hr

theorem run_keeps (ks : List CfgCall) : ∀ {c : CfgSt}, CInv rs c →
    (∀ n, get? c.table n ≠ none → get? (cfgRun rs ks c).table n ≠ none) ∧ ∀ n q, c.entry n q ≠ none → (cfgRun rs ks c).entry n q ≠ none := by
  induction ks with
  | nil => exact fun _ => ⟨fun _ => id, fun _ _ => id⟩
  | cons k ks ih =>
    intro c h
    obtain ⟨h1, h2⟩ := call_keeps h k
    obtain ⟨h3, h4⟩ := ih (h.after k)
    exact ⟨fun n hn => h3 n (h1 n hn), fun n q hn => h4 n q (h2 n q hn)⟩

end

/-! ### Finding an entry in a story -/

variable {rs : Reserved}

theorem handled_no_taken {a mid : List Entry} {ev : Ev} (h : Handled rs a ev mid) : ∀ e, .taken e ∉ mid := by
  have hu : ∀ {us : List Entry}, Users us → ∀ e, .taken e ∉ us := fun h e he => by cases h _ he
  cases h with
  | ended => simp
  | lost _ _ h => exact hu h
  | unmapped _ _ h => intro e; simp [hu h e]
  | stays _ _ _ h => exact hu h
  | prevented _ _ _ h => exact hu h
  | moved _ _ _ h h' => intro e; simp [hu h e, hu h' e]
  | final _ _ _ h h' => intro e; simp [hu h e, hu h' e]

theorem snoc_inv {α : Type} {l a r : List α} {e x : α} (h : l ++ [e] = a ++ x :: r) :
    (l = a ∧ e = x ∧ r = []) ∨ ∃ r', r = r' ++ [e] ∧ l = a ++ x :: r' := by
  rcases List.eq_nil_or_concat r with rfl | ⟨r', y, rfl⟩
  · obtain ⟨h1, h2⟩ := List.append_inj' h rfl
    cases h2
    exact .inl ⟨h1, rfl, rfl⟩
  · have : a ++ x :: (r'.concat y) = (a ++ x :: r') ++ [y] := by simp
    rw [this] at h
    obtain ⟨h1, h2⟩ := List.append_inj' h rfl
    cases h2
    exact .inr ⟨r', by simp, h1⟩

/-- Every event that is taken is handled. -/
theorem story_event {l : List Entry} (h : Story rs l) : ∀ {a r : List Entry} {ev : Ev}, l = a ++ .taken ev :: r →
    ∃ mid b, r = mid ++ .done ev :: b ∧ Handled rs (a ++ [.taken ev]) ev mid := by
  induction h with
  | nil => intro a r ev h; simp at h
  | @user l e _ he ih =>
    intro a r ev h
    rcases snoc_inv h with ⟨_, rfl, _⟩ | ⟨r', rfl, h'⟩
    · cases he
    · obtain ⟨mid, b, h1, h2⟩ := ih h'
      exact ⟨mid, b ++ [e], by rw [h1]; simp, h2⟩
  | @started l s _ ih =>
    intro a r ev h
    rcases snoc_inv h with ⟨_, h, _⟩ | ⟨r', rfl, h'⟩
    · cases h
    · obtain ⟨mid, b, h1, h2⟩ := ih h'
      exact ⟨mid, b ++ [.started s], by rw [h1]; simp, h2⟩
  | @cleared l _ ih =>
    intro a r ev h
    rcases snoc_inv h with ⟨_, h, _⟩ | ⟨r', rfl, h'⟩
    · cases h
    · obtain ⟨mid, b, h1, h2⟩ := ih h'
      exact ⟨mid, b ++ [.cleared], by rw [h1]; simp, h2⟩
  | @event l ev' mid' _ hh ih =>
    intro a r ev h
    rcases List.append_eq_append_iff.1 h with ⟨x, rfl, hx⟩ | ⟨x, rfl, hx⟩
    · cases x with
      | nil =>
        obtain ⟨h1, h2⟩ := List.cons.inj hx
        cases h1
        exact ⟨mid', [], h2.symm, by simpa using hh⟩
      | cons y x =>
        obtain ⟨h1, h2⟩ := List.cons.inj hx
        have : .taken ev ∈ mid' ++ [.done ev'] := by rw [h2]; simp
        rcases List.mem_append.1 this with h3 | h3
        · exact absurd h3 (handled_no_taken hh _)
        · simp at h3
    · cases x with
      | nil =>
        obtain ⟨h1, h2⟩ := List.cons.inj hx
        cases h1
        exact ⟨mid', [], h2, by simpa using hh⟩
      | cons y x =>
        obtain ⟨rfl, h2⟩ := List.cons.inj hx
        obtain ⟨mid, b, h3, h4⟩ := ih rfl
        exact ⟨mid, b ++ .taken ev' :: (mid' ++ [.done ev']), by rw [h2, h3]; simp, h4⟩

/-- Every state change that is not due to a call of `stop()` is part of the handling of an event. -/
theorem story_cur {l : List Entry} (h : Story rs l) : ∀ {a b : List Entry} {s : St}, l = a ++ .cur s false :: b →
    ∃ a1 ev u v, a = a1 ++ .taken ev :: u ∧ Handled rs (a1 ++ [.taken ev]) ev (u ++ .cur s false :: v) := by
  induction h with
  | nil => intro a r ev h; simp at h
  | @user l e _ he ih =>
    intro a r ev h
    rcases snoc_inv h with ⟨_, rfl, _⟩ | ⟨r', rfl, h'⟩
    · simp [user] at he
    · exact ih h'
  | @started l s _ ih =>
    intro a r ev h
    rcases snoc_inv h with ⟨_, h, _⟩ | ⟨r', rfl, h'⟩
    · cases h
    · exact ih h'
  | @cleared l _ ih =>
    intro a r ev h
    rcases snoc_inv h with ⟨_, h, _⟩ | ⟨r', rfl, h'⟩
    · cases h
    · exact ih h'
  | @event l ev mid _ hh ih =>
    intro a b s h
    have hin : ∀ x, .taken ev :: (mid ++ [.done ev]) = x ++ .cur s false :: b → ∃ u v, x = .taken ev :: u ∧ mid = u ++ .cur s false :: v := by
      intro x hx
      cases x with
      | nil => cases hx
      | cons y x =>
        obtain ⟨rfl, h2⟩ := List.cons.inj hx
        rcases snoc_inv h2 with ⟨_, h3, _⟩ | ⟨v, rfl, h3⟩
        · cases h3
        · exact ⟨x, v, rfl, h3⟩
    rcases List.append_eq_append_iff.1 h with ⟨x, rfl, hx⟩ | ⟨x, rfl, hx⟩
    · obtain ⟨u, v, rfl, rfl⟩ := hin x hx
      exact ⟨l, ev, u, v, rfl, hh⟩
    · cases x with
      | nil =>
        obtain ⟨u, v, h1, _⟩ := hin [] (by simpa using hx.symm)
        cases h1
      | cons y x =>
        obtain ⟨rfl, h2⟩ := List.cons.inj hx
        exact ih rfl

end Reconf

open Reconf Spec.Reconf
variable {c : Code} {w : W}

/-- C82: the story of a machine that may be configured at any time; state, end flag and configuration are what the story tells. -/
theorem C82_story (h : Reach c w) : Story c.res w.log ∧ w.cur = stateOf w.log ∧ w.ended = endedOf w.log ∧ w.cfg = config c.res w.log := by
  obtain ⟨xs, h⟩ := h
  obtain ⟨h1, h2⟩ := runs_story h good_init .nil
  exact ⟨h2, h1.cur, h1.ended, h1.cfg⟩

/-- C82: what is done for an event is what the configuration says at the moment when the event is taken, except that it is at the end of a transition
that the machine looks whether the state is final (`Handled`). -/
theorem C82_event (h : Reach c w) {a r : List Entry} {ev : Ev} (hl : w.log = a ++ .taken ev :: r) :
    ∃ mid b, r = mid ++ .done ev :: b ∧ Handled c.res (a ++ [.taken ev]) ev mid :=
  story_event (C82_story h).1 hl

/-- C82: every state change made by event processing is one that was configured when the event was taken, or ends the machine because
the state it has just entered is final now. -/
theorem C82_target (h : Reach c w) {a b : List Entry} {s : St} (hl : w.log = a ++ .cur s false :: b) :
    ∃ a1 ev a2 to, a = a1 ++ .taken ev :: a2 ∧ (∀ e, .done e ∉ a2) ∧ lead (config c.res a1) (stateOf a1) ev = some (some to) ∧
      (s = to ∧ Users a2 ∨ s.name = "_END_" ∧ .cur to false ∈ a2 ∧ final (config c.res a) to = true) := by
  obtain ⟨a1, ev, u, v, rfl, hh⟩ := story_cur (C82_story h).1 hl
  have hc : config c.res (a1 ++ [.taken ev]) = config c.res a1 := by rw [config_append]; rfl
  have hs : stateOf (a1 ++ [.taken ev]) = stateOf a1 := by rw [stateOf_snoc]
  have nou : ∀ {us : List Entry}, Users us → .cur s false ∉ us := fun h he => by have := h _ he; simp [user] at this
  have nod : ∀ {us : List Entry}, Users us → ∀ e, .done e ∉ us := fun h e he => by cases h _ he
  have mem : Entry.cur s false ∈ u ++ Entry.cur s false :: v := by simp
  -- the first of two lists in which it occurs
  have first : ∀ {us vs : List Entry} {to : St}, Users us → u ++ .cur s false :: v = us ++ .cur to false :: vs →
      (u = us ∧ s = to ∧ v = vs) ∨ ∃ x, u = us ++ .cur to false :: x ∧ vs = x ++ .cur s false :: v := by
    intro us vs to hus he
    rcases List.append_eq_append_iff.1 he with ⟨x, rfl, hx⟩ | ⟨x, rfl, hx⟩
    · cases x with
      | nil => obtain ⟨h1, rfl⟩ := List.cons.inj hx; cases h1; exact .inl ⟨by simp, rfl, rfl⟩
      | cons y x => obtain ⟨rfl, h2⟩ := List.cons.inj hx; exact absurd (by simp) (nou hus)
    · cases x with
      | nil => obtain ⟨h1, rfl⟩ := List.cons.inj hx; cases h1; exact .inl ⟨by simp, rfl, rfl⟩
      | cons y x => obtain ⟨rfl, h2⟩ := List.cons.inj hx; exact .inr ⟨x, rfl, h2⟩
  generalize hm : u ++ Entry.cur s false :: v = mid at hh
  rw [hm] at mem
  cases hh with
  | ended => cases mem
  | lost _ _ h => exact absurd mem (nou h)
  | unmapped _ _ h =>
    rcases List.mem_cons.1 mem with h1 | h1
    · cases h1
    · exact absurd h1 (nou h)
  | stays _ _ _ h => exact absurd mem (nou h)
  | prevented _ _ _ h => exact absurd mem (nou h)
  | @moved us vs to he hl' _ hu hv =>
    rw [hc, hs] at hl'
    rcases first hu hm with ⟨rfl, rfl, _⟩ | ⟨x, _, hx⟩
    · exact ⟨a1, ev, u, s, rfl, nod hu, hl', .inl ⟨rfl, hu⟩⟩
    · exact absurd (by rw [hx]; simp) (nou hv)
  | @final us vs to e he hl' _ hu hv _ _ _ hf hend =>
    rw [hc, hs] at hl'
    rcases first hu hm with ⟨rfl, rfl, _⟩ | ⟨x, rfl, hx⟩
    · exact ⟨a1, ev, u, s, rfl, nod hu, hl', .inl ⟨rfl, hu⟩⟩
    · rcases snoc_inv hx with ⟨rfl, h2, _⟩ | ⟨r', _, h2⟩
      · cases h2
        refine ⟨a1, ev, us ++ .cur to false :: vs, to, rfl, fun e => ?_, hl', .inr ⟨hend, by simp, ?_⟩⟩
        · simp [nod hu e, nod hv e]
        · simpa using hf
      · exact absurd (by rw [h2]; simp) (nou hv)

/-- C82: a transition to a state that is final when everything else has been done ends the machine, unless user code throws. -/
theorem C82_ends (h : Reach c w) {a mid b : List Entry} {ev : Ev} (hl : w.log = a ++ .taken ev :: (mid ++ .done ev :: b)) (hm : ∀ e, .done e ∉ mid)
    {to : St} (ht : lead (config c.res a) (stateOf a) ev = some (some to)) (hto : .cur to false ∈ mid)
    (hx : failed mid = false) (hf : final (config c.res (a ++ .taken ev :: mid)) to = true) : endedOf (a ++ .taken ev :: mid) = true := by
  obtain ⟨mid', b', he, hh⟩ := C82_event h hl
  have hmm : mid = mid' := by
    have nod : ∀ {us : List Entry}, Users us → ∀ e, .done e ∉ us := fun h e he => by cases h _ he
    have hm' : ∀ e, .done e ∉ mid' := by
      intro e
      cases hh with
      | ended => simp
      | lost _ _ h => exact nod h e
      | unmapped _ _ h => simp [nod h e]
      | stays _ _ _ h => exact nod h e
      | prevented _ _ _ h => exact nod h e
      | moved _ _ _ h h' => simp [nod h e, nod h' e]
      | final _ _ _ h h' => simp [nod h e, nod h' e]
    rcases List.append_eq_append_iff.1 he with ⟨x, rfl, hy⟩ | ⟨x, rfl, hy⟩
    · cases x with
      | nil => simp
      | cons y x => obtain ⟨rfl, _⟩ := List.cons.inj hy; exact absurd (by simp) (hm' ev)
    · cases x with
      | nil => simp
      | cons y x => obtain ⟨rfl, _⟩ := List.cons.inj hy; exact absurd (by simp) (hm ev)
  subst hmm
  have hc : config c.res (a ++ [.taken ev]) = config c.res a := by rw [config_append]; rfl
  have hs : stateOf (a ++ [.taken ev]) = stateOf a := by rw [stateOf_snoc]
  have nou : ∀ {us : List Entry}, Users us → .cur to false ∉ us := fun h he => by have := h _ he; simp [user] at this
  generalize hA : a ++ [.taken ev] = A at hh hc hs
  have hA' : ∀ x, a ++ .taken ev :: x = A ++ x := fun x => by rw [← hA]; simp
  rw [hA'] at hf ⊢
  cases hh with
  | ended => cases hto
  | lost _ _ h => exact absurd hto (nou h)
  | unmapped _ _ h =>
    rcases List.mem_cons.1 hto with h1 | h1
    · cases h1
    · exact absurd h1 (nou h)
  | stays _ _ _ h => exact absurd hto (nou h)
  | prevented _ _ _ h => exact absurd hto (nou h)
  | @moved us vs to' _ hl' _ _ _ _ hor =>
    rw [hc, hs, ht] at hl'
    cases hl'
    simp only [List.append_assoc] at hor
    rcases hor with h1 | h1 | h1
    · rw [failed_append] at hx
      have h2 : failed (.cur to false :: vs) = failed vs := rfl
      rw [h2, h1, Bool.or_true] at hx
      cases hx
    · exact h1
    · rw [h1] at hf; cases hf
  | @final us vs to' e _ _ _ _ _ _ _ _ _ hend =>
    have : A ++ (us ++ .cur to' false :: (vs ++ [.cur e false])) = A ++ (us ++ .cur to' false :: vs) ++ [.cur e false] := by simp
    rw [this, endedOf_snoc]
    simpa using hend

/-- C82: a state that is configured stays configured; an event for which there is an entry keeps one; a state that ends immediately always does. -/
theorem C82_grows (h : Reach c w) {a b : List Entry} (hl : w.log = a ++ b) (n : String) :
    (get? (config c.res a).table n ≠ none → get? w.cfg.table n ≠ none) ∧
    (∀ q, (config c.res a).entry n q ≠ none → w.cfg.entry n q ≠ none) ∧
    (leadsTo (config c.res a) n (some immKey) = some c.res.endSt → leadsTo w.cfg n (some immKey) = some c.res.endSt) := by
  have hinv : CInv c.res (config c.res a) := (CInv.empty _).run _
  have hk := run_keeps (calls b) hinv
  have hw : w.cfg = cfgRun c.res (calls b) (config c.res a) := by
    rw [(C82_story h).2.2.2, hl, config_append]
  rw [← hw] at hk
  refine ⟨hk.1 n, hk.2 n, fun h1 => ?_⟩
  have hinv' : CInv c.res w.cfg := by rw [hw]; exact hinv.run _
  rw [leadsTo_eq] at h1 ⊢
  have h2 := hk.2 n (some immKey) (by intro h; rw [h] at h1; cases h1)
  obtain ⟨v, h2⟩ := Option.ne_none_iff_exists'.1 h2
  rw [h2]
  unfold CfgSt.entry at h2
  cases hg : get? w.cfg.table n with
  | none => rw [hg] at h2; cases h2
  | some r =>
    rw [hg] at h2
    rw [(hinv'.imm n r immKey v hg h2 rfl).2]
    rfl

/-! ### Examples and what does not hold -/

namespace Reconf.Ex
open Verif.Ex (rs A B e f)

def cfg (ks : List CfgCall) : RProg := ks.foldr (fun k p => .call (.cfg k) fun _ => p) .done

/-- A --e--> B; B is not configured. -/
def calls : List CfgCall := [.initialSate (some A), .receives (some e), .itTransitionsTo (some B)]

def quiet : Code := ⟨rs, fun _ _ => [], none, fun _ => .done, fun _ _ => .done⟩

/-- The entry action of B begins to configure B. -/
def begins : Code := { quiet with
  acts := fun k oid => match k, oid with
    | .entry, 2 => [fun _ => cfg [.when_ (some B)]]
    | _, _ => [] }

def got (c : Code) (xs : List Step) : W := (runs c .init xs).getD .init

theorem got_reach {c : Code} {xs : List Step} (h : (runs c .init xs).isSome = true) : Reach c (got c xs) := by
  refine ⟨xs, ?_⟩
  unfold got
  cases hr : runs c .init xs with
  | none => rw [hr] at h; cases h
  | some w => rfl

def fired (ev : Ev) : Step := .code (.call (.fire ev) fun _ => .done)

/-- `e` is processed; B is final. -/
def plain : W := got quiet [.code (cfg calls), .start, fired e, .process]
/-- `e` is given a new target, and then processed. -/
def remapped : W := got quiet [.code (cfg calls), .start, .code (cfg [.when_ (some A), .receives (some e), .itTransitionsTo (some A)]), fired e, .process]
/-- `e` is processed while somebody is about to give it a new target. -/
def halfway : W := got quiet [.code (cfg calls), .start, .code (cfg [.when_ (some A), .receives (some e)]), fired e, .process]
/-- The entry action of B says `when(B)`. -/
def stuck : W := got begins [.code (cfg calls), .start, fired e, .process]

theorem plain_reach : Reach quiet plain := got_reach (by decide +kernel)
theorem remapped_reach : Reach quiet remapped := got_reach (by decide +kernel)
theorem halfway_reach : Reach quiet halfway := got_reach (by decide +kernel)
theorem stuck_reach : Reach begins stuck := got_reach (by decide +kernel)

end Reconf.Ex

open Verif.Ex (rs A B e)

/-- C82_story: all four runs; the machine is ended in the first, not in the last. -/
example : Story rs Ex.plain.log ∧ Ex.plain.ended = true ∧ Ex.stuck.ended = false ∧ Ex.stuck.cur = some B :=
  ⟨(C82_story Ex.plain_reach).1, by decide +kernel, by decide +kernel, by decide +kernel⟩

/-- C82_event: an event that is taken while its new target is being configured is not mapped. -/
example : ∃ a b, Ex.halfway.log = a ++ .taken e :: b ∧ lead (config rs a) (stateOf a) e = some none ∧ b.head? = some (.cb (.unmapped 0 e)) :=
  ⟨Ex.halfway.log.take 8, Ex.halfway.log.drop 9, by decide +kernel, by decide +kernel, by decide +kernel⟩

/-- C82_target: a new target that is configured before the event is taken counts. -/
example : ∃ a b, Ex.remapped.log = a ++ .cur A false :: b ∧ Ex.plain.log = Ex.plain.log.take 7 ++ .cur B false :: Ex.plain.log.drop 8 :=
  ⟨Ex.remapped.log.take 10, Ex.remapped.log.drop 11, by decide +kernel, by decide +kernel⟩

/-- C82_ends: the hypotheses hold in the first run. -/
example : ∃ a mid b, Ex.plain.log = a ++ .taken e :: (mid ++ .done e :: b) ∧ (∀ x, .done x ∉ mid) ∧
    lead (config rs a) (stateOf a) e = some (some B) ∧ .cur B false ∈ mid ∧ failed mid = false ∧
    final (config rs (a ++ .taken e :: mid)) B = true := by
  refine ⟨Ex.plain.log.take 6, [.cur B false, .cur rs.endSt false], [], by decide +kernel, ?_, by decide +kernel, by decide +kernel, by decide +kernel, by decide +kernel⟩
  intro x hx
  simp at hx

/-- C82_grows: the table before and after the new configuration calls. -/
example : ∃ a b, Ex.halfway.log = a ++ b ∧ (config rs a).entry "A" (some e.key) ≠ none ∧ config rs a ≠ Ex.halfway.cfg :=
  ⟨Ex.halfway.log.take 5, Ex.halfway.log.drop 5, by decide +kernel, by decide +kernel, by decide +kernel⟩

/-- Not so: a transition into a state that is final when the event is taken ends the machine, unless something is thrown. In the witness the entry
action of the final state says `when(B)`: now B is a configured state in which no event is mapped and which does not end. -/
theorem C82_negation_final : ¬ ∀ (c : Code) (w : W) (a mid b : List Entry) (ev : Ev) (to : St), Reach c w →
    w.log = a ++ .taken ev :: (mid ++ .done ev :: b) → (∀ e, .done e ∉ mid) → lead (config c.res a) (stateOf a) ev = some (some to) →
    .cur to false ∈ mid → failed mid = false → final (config c.res a) to = true → endedOf (a ++ .taken ev :: mid) = true := by
  intro h
  have := h Ex.begins Ex.stuck (Ex.stuck.log.take 6) ((Ex.stuck.log.drop 7).take 3) [] e B Ex.stuck_reach (by decide +kernel)
    (by
      have : (Ex.stuck.log.drop 7).take 3 = [.cur B false, .cb (.action 0 .entry 2 0 e), .cfg (.when_ (some B)) none] := by decide +kernel
      rw [this]; intro x hx; simp at hx)
    (by decide +kernel) (by decide +kernel) (by decide +kernel) (by decide +kernel)
  exact absurd this (by decide +kernel)

/-- Not so: an event that has a target when the machine is started has one ever after. `receives` takes the target away until `itTransitionsTo` (or
another call) sets it again, and an event that is taken meanwhile goes to the handler of unmapped events. -/
theorem C82_negation_target : ¬ ∀ (c : Code) (w : W) (a b : List Entry) (s : St) (ev : Ev), Reach c w → w.log = a ++ .started s :: b →
    (∃ to, lead (config c.res a) (some s) ev = some (some to)) → .cb (.unmapped 0 ev) ∉ b ∨ stateOf w.log ≠ some s := by
  intro h
  rcases h Ex.quiet Ex.halfway (Ex.halfway.log.take 3) (Ex.halfway.log.drop 4) A e Ex.halfway_reach (by decide +kernel)
    ⟨B, by decide +kernel⟩ with h | h
  · exact absurd (by decide +kernel) h
  · exact absurd (by decide +kernel) h

end Verif
