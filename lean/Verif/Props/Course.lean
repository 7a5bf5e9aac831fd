import Verif.Proofs.CourseInv
import Verif.Proofs.Honest
import Verif.Demo.Races
/-
C57: what a thread does, in any environment: machines may share queues, strategies and executors, executors may have several
threads, and anybody may call anything at any time.
-/

namespace Verif
open Spec.Course
open Spec.Mon (Mem)

variable {env : Env} {c0 c : Conf} {t : Tid}

/-- C57: every thread has a way through the history, as described by the automaton `Way`. -/
theorem C57_course (hi : Initial c0) (hr : ReachFrom env c0 c) (ht : t ≠ .env) :
    ∃ d st, Way (Course.cfg env) t (fun m => machAt c0 m []) 0 .idle c.w.trace (fun m => machAt c0 m c.w.trace) d st := by
  obtain ⟨d, st, h⟩ := Course.way hi hr t ht
  have : memOf c.w = fun m => machAt c0 m c.w.trace := by
    funext m
    obtain ⟨_, _, _, h⟩ := Verif.control hi hr
    exact h m
  rw [this] at h
  exact ⟨d, st, h⟩

/-! ### Reasons -/

namespace Course

section
variable {cfg : Cfg} {hv : MId → List (Tid × Obs) → Mem}

/-- The thread is in a drain task for strategy `s` and machine `cm`. -/
def Home (cfg : Cfg) (t : Tid) (s : SId) (cm : MId) : Prop := (∃ i, t = .worker (cfg.exec s) i) ∧ cfg.strat cm = s

def OkCb (cfg : Cfg) (t : Tid) (hv : MId → List (Tid × Obs) → Mem) (pre mid : List (Tid × Obs)) (s : SId) (m : MId) (ev : Ev)
    (c : Cb) : Prop :=
  (∃ k a i to, c = .action m k a.oid i ev ∧ Was cfg t hv pre mid s m ev (fun mem => mem.cur = some a) ∧
    i < (cfg.desc s m).nacts k a.oid ∧ Was cfg t hv pre mid s m ev (leads cfg s m ev to) ∧ to.name ≠ resNoop) ∨
  (c = .unmapped m ev ∧ Was cfg t hv pre mid s m ev
    (fun mem => ∃ row, (cfg.desc s m).table.row? mem.cur = some row ∧ row.target (some ev.key) = none))

def OkNote (cfg : Cfg) (t : Tid) (hv : MId → List (Tid × Obs) → Mem) (pre mid : List (Tid × Obs)) (s : SId) (m : MId) (ev : Ev)
    (c : Cb) : Prop :=
  ∃ b a to, c = note m b a ev to ∧ Was cfg t hv pre mid s m ev (fun mem => mem.cur.getD (cfg.noSt m) = a) ∧
    Was cfg t hv pre mid s m ev (leads cfg s m ev to)

def OkSet (cfg : Cfg) (t : Tid) (hv : MId → List (Tid × Obs) → Mem) (pre mid : List (Tid × Obs)) (s : SId) (m : MId) (ev : Ev)
    (b : St) : Prop :=
  ∃ to, Was cfg t hv pre mid s m ev (leads cfg s m ev to) ∧ to.name ≠ resNoop ∧
    (b = to ∨ (b = (cfg.desc s m).endSt ∧ (cfg.desc s m).final to = true))

/-- Things to do have a reason. -/
def Fine (cfg : Cfg) (t : Tid) (hv : MId → List (Tid × Obs) → Mem) (pre mid : List (Tid × Obs)) (s : SId) (m : MId) (ev : Ev) :
    Todo → Prop
  | .check | .decide => True
  | .say _ to => Was cfg t hv pre mid s m ev (leads cfg s m ev to)
  | .move to => Was cfg t hv pre mid s m ev (leads cfg s m ev to) ∧ to.name ≠ resNoop
  | .tell c => OkNote cfg t hv pre mid s m ev c
  | .told c => OkNote cfg t hv pre mid s m ev c ∧ Was cfg t hv pre mid s m ev (fun mem => mem.lst.isSome = true)
  | .acts _ => ∃ to, Was cfg t hv pre mid s m ev (leads cfg s m ev to) ∧ to.name ≠ resNoop
  | .call c => OkCb cfg t hv pre mid s m ev c
  | .ret c => (t, .cb c) ∈ mid
  | .set b => OkSet cfg t hv pre mid s m ev b
  | .write b => (t, .upd m b (b.name == resEnd) false) ∈ mid

def Failed (cfg : Cfg) (t : Tid) (hv : MId → List (Tid × Obs) → Mem) (pre mid : List (Tid × Obs)) (s : SId) (m : MId) (ev : Ev)
    (x : Exc) : Prop :=
  (∃ c, (t, .cbRet c (some x)) ∈ mid) ∨ (x = .npe ∧
    (Was cfg t hv pre mid s m ev (fun mem => (cfg.desc s m).table.row? mem.cur = none) ∨ ∃ u, (u, .listener m none) ∈ mid))

def Good (cfg : Cfg) (t : Tid) (hv : MId → List (Tid × Obs) → Mem) (past : List (Tid × Obs)) : Stage → Prop
  | .idle => True
  | .loop s cm => Home cfg t s cm
  | .busy s cm m ev td => Home cfg t s cm ∧ ∃ pre mid, Open cfg t past pre mid s m ev ∧ ∀ x ∈ td, Fine cfg t hv pre mid s m ev x
  | .thrown s cm m ev x => Home cfg t s cm ∧ ∃ pre mid, Open cfg t past pre mid s m ev ∧ Failed cfg t hv pre mid s m ev x
  | .flow s cm m ev x => Home cfg t s cm ∧ ∃ pre mid, Open cfg t past pre mid s m ev ∧ (t, .cb (.flowEx m ev x)) ∈ mid
  | .over s cm m ev r => Home cfg t s cm ∧ ∃ pre mid, Open cfg t past pre mid s m ev ∧
      ∀ x, r = some x → ∃ c, (t, .cbRet c (some x)) ∈ mid
  | .dead x => x = .npe ∨ ∃ c, (t, .cbRet c (some x)) ∈ past

variable {past pre mid : List (Tid × Obs)} {s : SId} {m : MId} {ev : Ev} {e : Tid × Obs}

theorem was_snoc {P : Mem → Prop} (h : Was cfg t hv pre mid s m ev P) : Was cfg t hv pre (mid ++ [e]) s m ev P := by
  obtain ⟨a, b, rfl, h⟩ := h
  exact ⟨a, b ++ [e], by simp, h⟩

theorem was_now {P : Mem → Prop} (ho : Open cfg t past pre mid s m ev) (h : P (hv m past)) : Was cfg t hv pre mid s m ev P :=
  ⟨mid, [], by simp, by rw [← ho.split]; exact h⟩

theorem open_snoc (ho : Open cfg t past pre mid s m ev) (h1 : ∀ q m' ev', e ≠ (t, .taken q m' ev')) (h2 : ∀ m' ev', e ≠ (t, .done m' ev')) :
    Open cfg t (past ++ [e]) pre (mid ++ [e]) s m ev := by
  refine ⟨by rw [ho.split]; simp, fun q m' ev' h => ?_, fun m' ev' h => ?_⟩
  · rcases List.mem_append.1 h with h | h
    · exact ho.last q m' ev' h
    · exact h1 q m' ev' (List.mem_singleton.1 h).symm
  · rcases List.mem_append.1 h with h | h
    · exact ho.undone m' ev' h
    · exact h2 m' ev' (List.mem_singleton.1 h).symm

theorem fine_snoc {x : Todo} (h : Fine cfg t hv pre mid s m ev x) : Fine cfg t hv pre (mid ++ [e]) s m ev x := by
  cases x with
  | check => trivial
  | decide => trivial
  | say b to => exact was_snoc h
  | move to => exact ⟨was_snoc h.1, h.2⟩
  | tell c => obtain ⟨b, a, to, h1, h2, h3⟩ := h; exact ⟨b, a, to, h1, was_snoc h2, was_snoc h3⟩
  | told c => obtain ⟨⟨b, a, to, h1, h2, h3⟩, h4⟩ := h; exact ⟨⟨b, a, to, h1, was_snoc h2, was_snoc h3⟩, was_snoc h4⟩
  | acts k => obtain ⟨to, h1, h2⟩ := h; exact ⟨to, was_snoc h1, h2⟩
  | call c =>
    rcases h with ⟨k, a, i, to, h1, h2, h3, h4, h5⟩ | ⟨h1, h2⟩
    · exact Or.inl ⟨k, a, i, to, h1, was_snoc h2, h3, was_snoc h4, h5⟩
    · exact Or.inr ⟨h1, was_snoc h2⟩
  | ret c => exact List.mem_append_left _ h
  | set b => obtain ⟨to, h1, h2⟩ := h; exact ⟨to, was_snoc h1, h2⟩
  | write b => exact List.mem_append_left _ h

theorem failed_snoc {x : Exc} (h : Failed cfg t hv pre mid s m ev x) : Failed cfg t hv pre (mid ++ [e]) s m ev x := by
  rcases h with ⟨c, h⟩ | ⟨h1, h2 | ⟨u, h2⟩⟩
  · exact Or.inl ⟨c, List.mem_append_left _ h⟩
  · exact Or.inr ⟨h1, Or.inl (was_snoc h2)⟩
  · exact Or.inr ⟨h1, Or.inr ⟨u, List.mem_append_left _ h2⟩⟩

/-- A listener that is not there any more was removed. -/
theorem lst_removed (hstep : ∀ m tr (e : Tid × Obs), hv m (tr ++ [e]) = (hv m tr).step m e.2) {tr b : List (Tid × Obs)}
    (h1 : (hv m tr).lst.isSome = true) (h2 : (hv m (tr ++ b)).lst = none) : ∃ u, (u, .listener m none) ∈ b := by
  induction b generalizing tr with
  | nil => rw [List.append_nil] at h2; rw [h2] at h1; cases h1
  | cons e b ih =>
    rw [show tr ++ e :: b = (tr ++ [e]) ++ b by simp] at h2
    cases h : (hv m (tr ++ [e])).lst with
    | some l =>
      obtain ⟨u, hu⟩ := ih (tr := tr ++ [e]) (by rw [h]; rfl) h2
      exact ⟨u, List.mem_cons_of_mem _ hu⟩
    | none =>
      obtain ⟨u, x⟩ := e
      rw [hstep] at h
      refine ⟨u, ?_⟩
      cases x <;> simp only [Mem.step] at h <;>
        first
        | (rw [h] at h1; cases h1; done)
        | (split at h
           · first
             | (rw [h] at h1; cases h1; done)
             | (subst h; rename_i hm; rw [hm]; exact List.mem_cons_self)
           · rw [h] at h1; cases h1)

theorem good_snoc {st : Stage} (h : Good cfg t hv past st) (h1 : ∀ q m' ev', e ≠ (t, .taken q m' ev'))
    (h2 : ∀ m' ev', e ≠ (t, .done m' ev')) : Good cfg t hv (past ++ [e]) st := by
  cases st with
  | idle => trivial
  | loop s cm => exact h
  | busy s cm m ev td =>
    obtain ⟨hh, pre, mid, ho, hf⟩ := h
    exact ⟨hh, pre, _, open_snoc ho h1 h2, fun x hx => fine_snoc (hf x hx)⟩
  | thrown s cm m ev x =>
    obtain ⟨hh, pre, mid, ho, hf⟩ := h
    exact ⟨hh, pre, _, open_snoc ho h1 h2, failed_snoc hf⟩
  | flow s cm m ev x =>
    obtain ⟨hh, pre, mid, ho, hf⟩ := h
    exact ⟨hh, pre, _, open_snoc ho h1 h2, List.mem_append_left _ hf⟩
  | over s cm m ev r =>
    obtain ⟨hh, pre, mid, ho, hf⟩ := h
    refine ⟨hh, pre, _, open_snoc ho h1 h2, fun x hx => ?_⟩
    obtain ⟨c, hc⟩ := hf x hx
    exact ⟨c, List.mem_append_left _ hc⟩
  | dead x =>
    rcases h with h | ⟨c, h⟩
    · exact Or.inl h
    · exact Or.inr ⟨c, List.mem_append_left _ h⟩

theorem good_look {v : MId → Mem} {st st' : Stage} (hd : ∀ s m, (cfg.desc s m).m = m)
    (hstep : ∀ m tr (e : Tid × Obs), hv m (tr ++ [e]) = (hv m tr).step m e.2) (hvv : ∀ m, v m = hv m past)
    (h : Good cfg t hv past st) (hl : Look cfg t v st st') : Good cfg t hv past st' := by
  cases hl with
  | begin h1 h2 => exact ⟨⟨_, h1⟩, h2⟩
  | quit => trivial
  | robbed => exact Or.inl rfl
  | skip _ => obtain ⟨hh, pre, mid, ho, hf⟩ := h; exact ⟨hh, pre, mid, ho, by simp⟩
  | check _ => obtain ⟨hh, pre, mid, ho, hf⟩ := h; exact ⟨hh, pre, mid, ho, fun x hx => hf x (List.mem_cons_of_mem _ hx)⟩
  | @decide s cm m ev td l hc =>
    obtain ⟨hh, pre, mid, ho, hf⟩ := h
    refine ⟨hh, pre, mid, ho, fun x hx => ?_⟩
    rcases List.mem_append.1 hx with hx | hx
    · rw [hvv] at hc
      simp only [choice, Option.map_eq_some_iff] at hc
      obtain ⟨row, hrow, hl⟩ := hc
      cases htg : row.target (some ev.key) with
      | none =>
        rw [htg] at hl
        subst hl
        rw [List.mem_singleton.1 hx, hd]
        exact Or.inr ⟨rfl, was_now ho ⟨row, hrow, htg⟩⟩
      | some b =>
        rw [htg] at hl
        have hw : Was cfg t hv pre mid s m ev (leads cfg s m ev b) := was_now ho ⟨row, hrow, htg⟩
        simp only at hl
        split at hl <;> subst hl
        · simp only [List.mem_cons, List.not_mem_nil, or_false] at hx
          rcases hx with rfl | rfl <;> exact hw
        · rw [List.mem_singleton.1 hx]
          exact ⟨hw, ‹_›⟩
    · exact hf x (List.mem_cons_of_mem _ hx)
  | @norow s cm m ev td hc =>
    obtain ⟨hh, pre, mid, ho, hf⟩ := h
    rw [hvv] at hc
    simp only [choice, Option.map_eq_none_iff] at hc
    exact ⟨hh, pre, mid, ho, Or.inr ⟨rfl, Or.inl (was_now ho hc)⟩⟩
  | @say s cm m ev td b to =>
    obtain ⟨hh, pre, mid, ho, hf⟩ := h
    refine ⟨hh, pre, mid, ho, fun x hx => ?_⟩
    rcases List.mem_cons.1 hx with rfl | hx
    · exact ⟨b, _, to, rfl, was_now ho (by rw [hvv]), hf (.say b to) List.mem_cons_self⟩
    · exact hf x (List.mem_cons_of_mem _ hx)
  | @move s cm m ev td to =>
    obtain ⟨hh, pre, mid, ho, hf⟩ := h
    have hto := hf (.move to) List.mem_cons_self
    refine ⟨hh, pre, mid, ho, fun x hx => ?_⟩
    rcases List.mem_append.1 hx with hx | hx
    · have hn : ∀ b, OkNote cfg t hv pre mid s m ev (note (cfg.desc s m).m b ((v m).cur.getD (cfg.noSt m)) ev to) := by
        intro b
        rw [hd]
        exact ⟨b, _, to, rfl, was_now ho (by rw [hvv]), hto.1⟩
      simp only [steps, List.cons_append, List.nil_append, List.mem_cons] at hx
      rcases hx with rfl | rfl | rfl | rfl | rfl | hx
      · exact hn _
      · exact ⟨to, hto⟩
      · exact ⟨to, hto.1, hto.2, Or.inl rfl⟩
      · exact ⟨to, hto⟩
      · exact hn _
      · split at hx
        · rw [List.mem_singleton.1 hx]
          exact ⟨to, hto.1, hto.2, Or.inr ⟨rfl, ‹_›⟩⟩
        · cases hx
    · exact hf x (List.mem_cons_of_mem _ hx)
  | silent _ => obtain ⟨hh, pre, mid, ho, hf⟩ := h; exact ⟨hh, pre, mid, ho, fun x hx => hf x (List.mem_cons_of_mem _ hx)⟩
  | @listens s cm m ev td c hs =>
    rw [hvv] at hs
    obtain ⟨hh, pre, mid, ho, hf⟩ := h
    refine ⟨hh, pre, mid, ho, fun x hx => ?_⟩
    rcases List.mem_cons.1 hx with rfl | hx
    · exact ⟨hf (.tell c) List.mem_cons_self, was_now ho hs⟩
    · exact hf x (List.mem_cons_of_mem _ hx)
  | gone hl =>
    obtain ⟨hh, pre, mid, ho, hf⟩ := h
    rw [hvv, ho.split] at hl
    obtain ⟨_, a, b, rfl, h1⟩ := hf (.told _) List.mem_cons_self
    rw [← List.cons_append, ← List.append_assoc] at hl
    obtain ⟨u, hu⟩ := lst_removed hstep h1 hl
    exact ⟨hh, pre, _, ho, Or.inr ⟨rfl, Or.inr ⟨u, List.mem_append_right _ hu⟩⟩⟩
  | @acts s cm m ev td k a hc =>
    obtain ⟨hh, pre, mid, ho, hf⟩ := h
    refine ⟨hh, pre, mid, ho, fun x hx => ?_⟩
    rw [hvv] at hc
    rcases List.mem_append.1 hx with hx | hx
    · obtain ⟨i, hi, rfl⟩ := List.mem_map.1 hx
      obtain ⟨to, h1, h2⟩ := hf (.acts k) List.mem_cons_self
      rw [hd]
      exact Or.inl ⟨k, a, i, to, rfl, was_now ho hc, List.mem_range.1 hi, h1, h2⟩
    · exact hf x (List.mem_cons_of_mem _ hx)
  | noState hc =>
    obtain ⟨hh, pre, mid, ho, hf⟩ := h
    rw [hvv] at hc
    exact ⟨hh, pre, mid, ho, Or.inr ⟨rfl, Or.inl (was_now ho (by rw [hc]; rfl))⟩⟩
  | ended _ => obtain ⟨hh, pre, mid, ho, hf⟩ := h; exact ⟨hh, pre, mid, ho, fun x hx => hf x (List.mem_cons_of_mem _ hx)⟩

theorem good_act {v : MId → Mem} {st st' : Stage} {x : Obs}
    (h : Good cfg t hv past st) (ha : Act cfg t v st x st') : Good cfg t hv (past ++ [(t, x)]) st' := by
  have mem_last : ∀ {l : List (Tid × Obs)} {e}, e ∈ l ++ [e] := by simp
  cases ha with
  | @taken s cm m ev =>
    refine ⟨h, past, [], ⟨rfl, by simp, by simp⟩, ?_⟩
    simp [Fine]
  | @told s cm m ev td c _ =>
    obtain ⟨hh, pre, mid, ho, hf⟩ := h
    refine ⟨hh, pre, _, open_snoc ho (by simp) (by simp), fun x hx => ?_⟩
    rcases List.mem_cons.1 hx with rfl | hx
    · exact mem_last
    · exact fine_snoc (hf x (List.mem_cons_of_mem _ hx))
  | @call s cm m ev td c =>
    obtain ⟨hh, pre, mid, ho, hf⟩ := h
    refine ⟨hh, pre, _, open_snoc ho (by simp) (by simp), fun x hx => ?_⟩
    rcases List.mem_cons.1 hx with rfl | hx
    · exact mem_last
    · exact fine_snoc (hf x (List.mem_cons_of_mem _ hx))
  | ret =>
    obtain ⟨hh, pre, mid, ho, hf⟩ := h
    exact ⟨hh, pre, _, open_snoc ho (by simp) (by simp), fun x hx => fine_snoc (hf x (List.mem_cons_of_mem _ hx))⟩
  | throws =>
    obtain ⟨hh, pre, mid, ho, hf⟩ := h
    exact ⟨hh, pre, _, open_snoc ho (by simp) (by simp), Or.inl ⟨_, mem_last⟩⟩
  | @set s cm m ev td a _ =>
    obtain ⟨hh, pre, mid, ho, hf⟩ := h
    refine ⟨hh, pre, _, open_snoc ho (by simp) (by simp), fun x hx => ?_⟩
    rcases List.mem_cons.1 hx with rfl | hx
    · exact mem_last
    · exact fine_snoc (hf x (List.mem_cons_of_mem _ hx))
  | write =>
    obtain ⟨hh, pre, mid, ho, hf⟩ := h
    exact ⟨hh, pre, _, open_snoc ho (by simp) (by simp), fun x hx => fine_snoc (hf x (List.mem_cons_of_mem _ hx))⟩
  | done => exact h.1
  | report _ =>
    obtain ⟨hh, pre, mid, ho, hf⟩ := h
    exact ⟨hh, pre, _, open_snoc ho (by simp) (by simp), mem_last⟩
  | error _ =>
    obtain ⟨hh, pre, mid, ho, ⟨c, hf⟩ | ⟨rfl, _⟩⟩ := h
    · refine Or.inr ⟨c, ?_⟩
      rw [ho.split]
      simp [hf]
    · exact Or.inl rfl
  | reported =>
    obtain ⟨hh, pre, mid, ho, hf⟩ := h
    refine ⟨hh, pre, _, open_snoc ho (by simp) (by simp), ?_⟩
    rintro x rfl
    exact ⟨_, mem_last⟩
  | over => exact h.1
  | overErr =>
    obtain ⟨hh, pre, mid, ho, hf⟩ := h
    obtain ⟨c, hc⟩ := hf _ rfl
    refine Or.inr ⟨c, ?_⟩
    rw [ho.split]
    simp [hc]
  | dies => trivial
  | client _ => trivial

theorem act_reason {v : MId → Mem} {st st' : Stage} {x : Obs} (hvv : ∀ m, v m = hv m past) (h0 : inCalls t past = 0)
    (h : Good cfg t hv past st) (ha : Act cfg t v st x st') : Reason cfg t hv past x := by
  cases ha with
  | taken => obtain ⟨⟨i, h1⟩, h2⟩ := h; exact .taken h0 h1 h2
  | told hl =>
    obtain ⟨⟨⟨i, h1⟩, h2⟩, pre, mid, ho, hf⟩ := h
    obtain ⟨⟨b, a, to, rfl, h3, h4⟩, _⟩ := hf (.told _) List.mem_cons_self
    rw [hvv] at hl
    exact .event h0 h1 h2 ho (.note h3 h4 hl)
  | call =>
    obtain ⟨⟨⟨i, h1⟩, h2⟩, pre, mid, ho, hf⟩ := h
    rcases hf (.call _) List.mem_cons_self with ⟨k, a, j, to, rfl, h3, h4, h5, h6⟩ | ⟨rfl, h3⟩
    · exact .event h0 h1 h2 ho (.action h3 h4 h5 h6)
    · exact .event h0 h1 h2 ho (.unmapped h3)
  | ret =>
    obtain ⟨⟨⟨i, h1⟩, h2⟩, pre, mid, ho, hf⟩ := h
    exact .event h0 h1 h2 ho (.ret (hf (.ret _) List.mem_cons_self))
  | throws =>
    obtain ⟨⟨⟨i, h1⟩, h2⟩, pre, mid, ho, hf⟩ := h
    exact .event h0 h1 h2 ho (.ret (hf (.ret _) List.mem_cons_self))
  | @set s cm m ev td b he =>
    obtain ⟨⟨⟨i, h1⟩, h2⟩, pre, mid, ho, hf⟩ := h
    rw [hvv] at he
    obtain ⟨to, h3, h4, rfl | ⟨rfl, h5⟩⟩ := hf (.set b) List.mem_cons_self
    · exact .event h0 h1 h2 ho (.enter h3 h4 he)
    · exact .event h0 h1 h2 ho (.halt h3 h4 h5 he)
  | write =>
    obtain ⟨⟨⟨i, h1⟩, h2⟩, pre, mid, ho, hf⟩ := h
    exact .event h0 h1 h2 ho (.write (hf (.write _) List.mem_cons_self))
  | done => obtain ⟨⟨⟨i, h1⟩, h2⟩, pre, mid, ho, hf⟩ := h; exact .event h0 h1 h2 ho .done
  | report hx =>
    obtain ⟨⟨⟨i, h1⟩, h2⟩, pre, mid, ho, ⟨c, hf⟩ | ⟨rfl, hf | ⟨u, hf⟩⟩⟩ := h
    · exact .event h0 h1 h2 ho (.threw hx hf)
    · exact .event h0 h1 h2 ho (.norow hf)
    · exact .event h0 h1 h2 ho (.removed hf)
  | error _ => obtain ⟨⟨⟨i, h1⟩, h2⟩, pre, mid, ho, hf⟩ := h; exact .event h0 h1 h2 ho .done
  | reported => obtain ⟨⟨⟨i, h1⟩, h2⟩, pre, mid, ho, hf⟩ := h; exact .event h0 h1 h2 ho (.ret hf)
  | over => obtain ⟨⟨⟨i, h1⟩, h2⟩, pre, mid, ho, hf⟩ := h; exact .event h0 h1 h2 ho .done
  | overErr => obtain ⟨⟨⟨i, h1⟩, h2⟩, pre, mid, ho, hf⟩ := h; exact .event h0 h1 h2 ho .done
  | dies => exact .uncaught h0 (Or.inr h)
  | client h1 => exact .uncaught h0 (Or.inl ⟨_, h1⟩)

theorem inCalls_snoc (t : Tid) (tr : List (Tid × Obs)) (e : Tid × Obs) : inCalls t (tr ++ [e]) = callStep t (inCalls t tr) e := by
  simp [inCalls]

theorem way_reason {v v' : MId → Mem} {d d' : Nat} {st st' : Stage} {tr tr1 tr2 : List (Tid × Obs)} {x : Obs}
    (hd : ∀ s m, (cfg.desc s m).m = m) (hstep : ∀ m tr (e : Tid × Obs), hv m (tr ++ [e]) = (hv m tr).step m e.2)
    (hw : Way cfg t v d st tr v' d' st') (hvv : ∀ m, v m = hv m past) (h0 : inCalls t past = d)
    (h : Good cfg t hv past st) (hs : tr = tr1 ++ (t, x) :: tr2) : Reason cfg t hv (past ++ tr1) x := by
  have hafter : ∀ {v : MId → Mem} {past : List (Tid × Obs)} {e : Tid × Obs}, (∀ m, v m = hv m past) →
      ∀ m, after v e.2 m = hv m (past ++ [e]) := by
    intro v past e hvv m
    rw [hstep, ← hvv]
    rfl
  induction hw generalizing past tr1 with
  | nil => cases tr1 <;> cases hs
  | look hl _ ih => exact ih hvv h0 (good_look hd hstep hvv h hl) hs
  | @other v d st u y tr _ _ _ hu _ ih =>
    cases tr1 with
    | nil => cases hs; exact absurd rfl hu
    | cons e tr1 =>
      cases hs
      have := ih (past := past ++ [(u, y)]) (tr1 := tr1) (hafter (e := (u, y)) hvv)
        (by rw [inCalls_snoc, callStep, if_neg hu]; exact h0)
        (good_snoc h (fun _ _ _ he => hu (congrArg Prod.fst he)) (fun _ _ he => hu (congrArg Prod.fst he))) rfl
      simpa using this
  | @enter v d st k tr _ _ _ hc _ ih =>
    cases tr1 with
    | nil => cases hs; exact .enter
    | cons e tr1 =>
      cases hs
      have := ih (past := past ++ [(t, .enter k)]) (tr1 := tr1) (hafter (e := (t, .enter k)) hvv)
        (by rw [inCalls_snoc, callStep, if_pos rfl, h0]) (good_snoc h (by simp) (by simp)) rfl
      simpa using this
  | @leave v d st k r tr _ _ _ _ ih =>
    cases tr1 with
    | nil => cases hs; exact .inner (by rw [List.append_nil, h0]; exact Nat.succ_pos d) rfl
    | cons e tr1 =>
      cases hs
      have := ih (past := past ++ [(t, .leave k r)]) (tr1 := tr1) (hafter (e := (t, .leave k r)) hvv)
        (by rw [inCalls_snoc, callStep, if_pos rfl, h0]; rfl) (good_snoc h (by simp) (by simp)) rfl
      simpa using this
  | @user v d st y tr _ _ _ hc hu _ ih =>
    cases tr1 with
    | nil => cases hs; exact .user hu
    | cons e tr1 =>
      cases hs
      have := ih (past := past ++ [(t, y)]) (tr1 := tr1) (hafter (e := (t, y)) hvv)
        (by rw [inCalls_snoc, callStep, if_pos rfl, h0]; cases y <;> first | rfl | cases hu)
        (good_snoc h (by rintro q m' ev' ⟨⟩; cases hu) (by rintro m' ev' ⟨⟩; cases hu)) rfl
      simpa using this
  | @inner v d st y tr _ _ _ h1 h2 hb _ ih =>
    cases tr1 with
    | nil => cases hs; exact .inner (by rw [List.append_nil, h0]; exact Nat.succ_pos d) hb
    | cons e tr1 =>
      cases hs
      have := ih (past := past ++ [(t, y)]) (tr1 := tr1) (hafter (e := (t, y)) hvv)
        (by rw [inCalls_snoc, callStep, if_pos rfl, h0]
            cases y <;> first | rfl | exact absurd rfl (h1 _) | exact absurd rfl (h2 _ _))
        (good_snoc h (by rintro q m' ev' ⟨⟩; cases hb) (by rintro m' ev' ⟨⟩; cases hb)) rfl
      simpa using this
  | @act v st y st' tr _ _ _ ha _ ih =>
    cases tr1 with
    | nil => cases hs; rw [List.append_nil]; exact act_reason hvv h0 h ha
    | cons e tr1 =>
      cases hs
      have := ih (past := past ++ [(t, y)]) (tr1 := tr1) (hafter (e := (t, y)) hvv)
        (by rw [inCalls_snoc, callStep, if_pos rfl, h0]; cases ha <;> rfl) (good_act h ha) rfl
      simpa using this

end
end Course

/-- C57, entry by entry: whatever a thread writes to the history has a reason. -/
theorem C57_reasons (hi : Initial c0) (hr : ReachFrom env c0 c) (ht : t ≠ .env) {past post : List (Tid × Obs)} {x : Obs}
    (h : c.w.trace = past ++ (t, x) :: post) : Reason (Course.cfg env) t (machAt c0) past x := by
  obtain ⟨d, st, hw⟩ := C57_course hi hr ht
  exact Course.way_reason (hv := machAt c0) (past := []) (fun _ _ => rfl) (fun m tr e => by simp [machAt, Mem.after]) hw
    (fun _ => rfl) rfl trivial h

/-- Two machines that share queue and executor: the drain task submitted by machine 0 takes the event of machine 1. -/
example : ∃ past post, (Demo.both Demo.go Demo.go).w.trace = past ++ (.worker 0 0, .taken 0 1 Demo.go) :: post ∧
    Reason (Course.cfg Demo.sharing) (.worker 0 0) (machAt Demo.conf) past (.taken 0 1 Demo.go) := by
  have hmem : (Tid.worker 0 0, Obs.taken 0 1 Demo.go) ∈ (Demo.both Demo.go Demo.go).w.trace := by decide +kernel
  obtain ⟨past, post, h⟩ := List.append_of_mem hmem
  exact ⟨past, post, h, C57_reasons (Demo.conf_initial _) (Demo.both_reach _ _) (by simp) h⟩

/-- `stop()` while an event is processed: even the false statement to the listener has its reason, the current state was the
end state at some moment, and the table led to B at some other. -/
example : ∃ past post, (Demo.torn 5).w.trace = past ++ (.worker 0 0, .cb (.end_ 0 Demo.rs.endSt Demo.go Demo.B)) :: post ∧
    Reason (Course.cfg (Demo.env Demo.acts)) (.worker 0 0) (machAt (Demo.conf true)) past (.cb (.end_ 0 Demo.rs.endSt Demo.go Demo.B)) := by
  have hmem : (Tid.worker 0 0, Obs.cb (.end_ 0 Demo.rs.endSt Demo.go Demo.B)) ∈ (Demo.torn 5).w.trace := by decide +kernel
  obtain ⟨past, post, h⟩ := List.append_of_mem hmem
  exact ⟨past, post, h, C57_reasons (Demo.conf_initial _) (Demo.torn_reach _) (by simp) h⟩

end Verif
