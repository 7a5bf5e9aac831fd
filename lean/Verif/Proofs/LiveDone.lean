import Verif.Proofs.LiveQueue
/-
Events that have been taken are finished.
-/

namespace Verif.Course
open Spec.Course Spec

variable {env : Env} (r : Run env)

/-- What a step adds to the history. -/
theorem adds (i : Nat) : ∃ ys, (r.conf (i + 1)).w.trace = (r.conf i).w.trace ++ ys ∧
    (ys = [] ∨ (∃ t x, ys = [(t, x)] ∧ r.pick i = some (.run t)) ∨ ∀ y ∈ ys, y.1 = .env) := by
  have hn := r.next i
  cases hx : r.pick i with
  | none => rw [hx] at hn; simp only at hn; rw [hn]; exact ⟨[], by simp, .inl rfl⟩
  | some x =>
    rw [hx] at hn
    simp only at hn
    cases x with
    | begin n u =>
      simp only [step] at hn
      split at hn
      · cases hn
      · have hn := Option.some.inj hn; rw [← hn]; exact ⟨[], by simp, .inl rfl⟩
    | run u =>
      simp only [step] at hn
      split at hn
      · cases hn
      next q hq =>
        cases q with
        | ret a => have hn := Option.some.inj hn; rw [← hn]; exact ⟨[], by simp, .inl rfl⟩
        | thr x => have hn := Option.some.inj hn; rw [← hn]; exact ⟨_, rfl, .inr (.inl ⟨u, _, rfl, rfl⟩)⟩
        | op o k =>
          simp only [runThread] at hn
          split at hn
          · have hn := Option.some.inj hn
            rw [← hn]
            refine ⟨_, exec_trace u o _, ?_⟩
            cases opObs o (r.conf i).w with
            | none => exact .inl rfl
            | some y => exact .inr (.inl ⟨u, y, rfl, rfl⟩)
          · cases hn
        | call f k => have hn := Option.some.inj hn; rw [← hn]; exact ⟨[], by simp, .inl rfl⟩
    | dispatch e' k' n =>
      simp only [step] at hn
      split at hn
      · split at hn
        · have hn := Option.some.inj hn; rw [← hn]; exact ⟨[], by simp, .inl rfl⟩
        · cases hn
      · cases hn
    | interrupt u => have hn := Option.some.inj hn; rw [← hn]; exact ⟨[], by simp, .inl rfl⟩
    | shutdown e now =>
      have hn := Option.some.inj hn
      rw [← hn]
      cases now with
      | false => exact ⟨[], by simp, .inl rfl⟩
      | true =>
        refine ⟨_, rfl, .inr (.inr fun y hy => ?_)⟩
        obtain ⟨_, _, rfl⟩ := List.mem_map.1 hy
        rfl

/-- When an entry was made. -/
theorem entry_time (i : Nat) {pre post : List (Tid × Obs)} {t : Tid} {x : Obs} (ht : t ≠ .env)
    (h : (r.conf i).w.trace = pre ++ (t, x) :: post) :
    ∃ i0, i0 < i ∧ r.pick i0 = some (.run t) ∧ (r.conf i0).w.trace = pre ∧ (r.conf (i0 + 1)).w.trace = pre ++ [(t, x)] := by
  induction i generalizing post with
  | zero => rw [r.init.trace] at h; cases pre <;> cases h
  | succ i ih =>
    obtain ⟨ys, h1, h2⟩ := adds r i
    rw [h1] at h
    rcases List.append_eq_append_iff.1 h with ⟨a, h3, h4⟩ | ⟨a, h3, h4⟩
    · -- the entry is among the new ones
      rcases h2 with rfl | ⟨u, y, rfl, hx⟩ | h2
      · cases a <;> cases h4
      · cases a with
        | nil =>
          cases h4
          simp only [List.append_nil] at h3
          exact ⟨i, Nat.lt_succ_self i, hx, h3.symm, by rw [h1, h3]⟩
        | cons b a => cases a <;> cases h4
      · exact absurd (h2 (t, x) (by rw [h4]; simp)) ht
    · cases a with
      | nil =>
        simp only [List.append_nil, List.nil_append] at h3 h4
        rcases h2 with rfl | ⟨u, y, rfl, hx⟩ | h2
        · cases h4
        · cases h4
          exact ⟨i, Nat.lt_succ_self i, hx, h3, by rw [h1, h3]⟩
        · exact absurd (h2 (t, x) (by rw [← h4]; simp)) ht
      | cons b a =>
        cases h4
        obtain ⟨i0, h5, h6⟩ := ih h3
        exact ⟨i0, by omega, h6⟩

/-- A thread that has an event in its hands keeps it until it is done. -/
theorem item_next {i : Nat} {t : Tid} {q : Prog Unit} {p : PairId} {ev : Ev} {m : MId} (hp : (r.conf i).thr t = some q)
    (hi : (pos r i t).2.2.item = some (p, ev, m)) :
    (pos r (i + 1) t).2.2.item = some (p, ev, m) ∨ (r.conf (i + 1)).w.trace = (r.conf i).w.trace ++ [(t, .done m ev)] := by
  by_cases hx : r.pick i = some (.run t)
  · have hs := own_step r hx hp
    obtain ⟨hok, hinv⟩ := pos_ok r i
    have hok := hok t
    rw [hp] at hok
    have hkn := hinv.know t
    generalize hl : pos r i t = fl at *
    obtain ⟨fr, d, l⟩ := fl
    simp only at hi hs hkn
    have hfin : ∀ x, ¬ fin t x (d, l) := by
      rintro x (⟨h1, _⟩ | h1)
      · cases h1; cases hi
      · cases x with
        | ok a => obtain ⟨s, cm, h1⟩ := h1; cases h1; cases hi
        | error x => cases h1; cases hi
    cases q with
    | ret a => exact absurd hok.2 (hfin _)
    | thr x => exact absurd hok.2 (hfin _)
    | call f k => left; rw [hs.2.2]; exact hi
    | op o k =>
      have hal : allowed env (d, l) o := hok.1.2
      by_cases hne : (∀ c, o ≠ .emit (.enter c)) ∧ ∀ c r, o ≠ .emit (.leave c r)
      · have hpl := nxt_plain (env := env) (d := d) (l := l) (w := (r.conf i).w) hne.1 hne.2
        cases d with
        | succ d => left; rw [hs.2.2]; simp only [hpl]; exact hi
        | zero =>
          rcases allowed_plain hne.1 hne.2 hal with ha | ⟨hcal, ha⟩ | ha
          · exact absurd ha (Nat.lt_irrefl 0)
          · left; rw [hs.2.2, nxt_user hcal ha]; exact hi
          · have hit := item_loc (w := (r.conf i).w) ha
            rw [hi] at hit
            have hcase : (∃ s p', o = .poolGive s p') ∨ (∃ q, o = .poll q) ∨ itemStep (r.conf i).w (some (p, ev, m)) o = some (p, ev, m) := by
              cases o with
              | poolGive s p' => exact .inl ⟨s, p', rfl⟩
              | poll q => exact .inr (.inl ⟨q, rfl⟩)
              | _ => exact .inr (.inr rfl)
            rcases hcase with ⟨s, p', rfl⟩ | ⟨q, rfl⟩ | hcase
            · right
              have hp' : p' = p := by
                cases l with
                | at_ s' cm p0 ev' m' td =>
                  cases hi
                  cases td with
                  | nil => exact ha.2
                  | cons a td => cases a <;> exact (show False from ha).elim
                | thrown s' cm p0 ev' m' x => cases hi; exact ha.2.2
                | over s' cm p0 ev' m' x => cases hi; exact ha.2
                | _ => exact (show False from ha).elim
              subst hp'
              rw [hs.1, exec_trace]
              simp [opObs, hkn.2 _ _ _ hi]
            · exact (show False by
                cases l with
                | seen s' cm => cases hi
                | at_ s' cm p0 ev' m' td =>
                  cases td with
                  | nil => exact ha
                  | cons a td => cases a <;> exact ha
                | _ => exact ha).elim
            · left
              rw [hs.2.2]
              simp only [hpl]
              rw [hit]
              exact hcase
      · left
        rw [hs.2.2]
        by_cases h1 : ∃ c, o = .emit (.enter c)
        · obtain ⟨c, rfl⟩ := h1; exact hi
        · by_cases h2 : ∃ c r, o = .emit (.leave c r)
          · obtain ⟨c, x, rfl⟩ := h2; exact hi
          · exact absurd ⟨fun c hc => h1 ⟨c, hc⟩, fun c r hc => h2 ⟨c, r, hc⟩⟩ hne
  · left; rw [(stays r i hp hx).2]; exact hi

/-- Only drain tasks take events. -/
theorem taken_step {i : Nat} {t : Tid} {q : QId} {m : MId} {ev : Ev} (ht : t ≠ .env) (hx : r.pick i = some (.run t))
    (h : (r.conf (i + 1)).w.trace = (r.conf i).w.trace ++ [(t, .taken q m ev)]) :
    (∃ s k, q = env.q s ∧ t = .worker (env.strat s).exec k) ∧ (∃ p, (r.conf (i + 1)).thr t = some p) ∧
      ∃ p, (pos r (i + 1) t).2.2.item = some (p, ev, m) := by
  have hn := r.next i
  cases hp : (r.conf i).thr t with
  | none => rw [hx] at hn; simp [step, hp] at hn
  | some p =>
    rw [hx] at hn
    simp only [step, hp] at hn
    obtain ⟨hok, hinv⟩ := pos_ok r i
    have hok := hok t
    rw [hp] at hok
    cases p with
    | ret a => have hn := Option.some.inj hn; rw [← hn] at h; simp at h
    | thr x => have hn := Option.some.inj hn; rw [← hn] at h; simp [World.log] at h
    | call f k => have hn := Option.some.inj hn; rw [← hn] at h; simp at h
    | op o k =>
      have hs := own_step r hx hp
      have hm := lmove_of_allowed (env := env) (w := (r.conf i).w) (l := (pos r i t).1) (o := o) hok.1.1
      have hopok := opOk_of_lmove (lst := fun t => (pos r i t).1) hinv.own hm
      have hal : allowed env (pos r i t).2 o := hok.1.2
      rw [hs.1, exec_trace] at h
      have hob : opObs o (r.conf i).w = some (.taken q m ev) := by
        cases hy : opObs o (r.conf i).w with
        | none => rw [hy] at h; simp at h
        | some y => rw [hy] at h; simpa using h
      have ho : ∃ q', o = .poll q' := by
        cases o with
        | poll q' => exact ⟨q', rfl⟩
        | emit y => cases hob; cases hopok
        | offer _ _ => simp only [opObs, Option.map_eq_some_iff] at hob; obtain ⟨_, _, h⟩ := hob; cases h
        | poolGive _ _ => simp only [opObs, Option.map_eq_some_iff] at hob; obtain ⟨_, _, h⟩ := hob; cases h
        | _ => first | (cases hob; done) | (simp only [opObs] at hob; split at hob <;> cases hob)
      obtain ⟨q', rfl⟩ := ho
      have hsane := pos_sane r i ht
      have hlink := hinv.link t
      have hkn := hinv.know t
      refine ⟨?_, ⟨_, hs.2.1⟩, ?_⟩
      all_goals
        have hpos := hs.2.2
        generalize pos r i t = fl at *
        obtain ⟨fr, d, l⟩ := fl
        obtain ⟨b, hat, _⟩ := hlink
        have hd : d = 0 := by
          simp only at hm hat
          generalize lNxt env fr _ _ = l' at hm
          cases hm with
          | user _ h => exact h.elim
          | frame hm =>
            have : ∀ {f f' w}, Move env w f (.poll q') f' → f.isDrain = true := by
              intro f f' w hm
              cases hm with
              | drPoll0 _ => rfl
              | drPoll _ _ => rfl
              | drPollBad _ _ => rfl
              | drPh ha => rfl
              | stPh _ _ ha => cases phAllowed_op ha
            have hdr := this hm
            cases hat with
            | drain _ => rfl
            | cons h _ => rw [hdr] at h; cases h
        subst hd
        have hq' : ∃ s cm, l = .seen s cm ∧ q' = env.q s := by
          rcases hal with hal | ⟨_, hal⟩ | hal
          · exact absurd hal (Nat.lt_irrefl 0)
          · exact hal.elim
          · cases l with
            | seen s cm => exact ⟨s, cm, rfl, hal⟩
            | at_ s cm p ev m td =>
              cases td with
              | nil => exact (show False from hal).elim
              | cons a td => cases a <;> exact (show False from hal).elim
            | _ => exact (show False from hal).elim
        obtain ⟨s, cm, rfl, rfl⟩ := hq'
        simp only [opObs] at hob
        cases hq : (r.conf i).w.queue (env.q s) with
        | nil => rw [hq] at hob; cases hob
        | cons p ps =>
          rw [hq] at hob
          simp only [Option.map_eq_some_iff] at hob
          obtain ⟨⟨ev', m'⟩, hpair, he⟩ := hob
          cases he
          first
            | (obtain ⟨k, hk⟩ := hsane.home s rfl; exact ⟨s, k, rfl, hk⟩)
            | exact ⟨p, by rw [hpos]; simp only [nxt, Loc.nxt, hq, hpair]; rfl⟩

/-- A thread that has taken an event finishes it. -/
theorem finishes {i : Nat} {e : EId} {k : Nat} (hf : r.fair (.worker e k)) (hu : r.returns (.worker e k)) {p : PairId} {ev : Ev} {m : MId}
    (hi : (pos r i (.worker e k)).2.2.item = some (p, ev, m)) :
    ∃ j, i ≤ j ∧ (r.conf (j + 1)).w.trace = (r.conf j).w.trace ++ [(.worker e k, .done m ev)] := by
  refine Classical.byContradiction fun hn => ?_
  have hit : ∀ n, (pos r (i + n) (.worker e k)).2.2.item = some (p, ev, m) := by
    intro n
    induction n with
    | zero => exact hi
    | succ n ih =>
      cases hp : (r.conf (i + n)).thr (.worker e k) with
      | none =>
        have := (pos_ok r (i + n)).1 (.worker e k)
        rw [hp] at this
        rw [this] at ih
        cases ih
      | some q =>
        rcases item_next r hp ih with h | h
        · exact h
        · exact absurd ⟨i + n, Nat.le_add_right _ _, h⟩ hn
  obtain ⟨j, hj, hc⟩ := comes_to_poll r hf hu i
  have := hit (j - i)
  rw [show i + (j - i) = j by omega] at this
  rcases hc with hc | ⟨_, s, cm, _, hc, _⟩
  · have h0 := (pos_ok r j).1 (.worker e k)
    rw [hc] at h0
    rw [h0] at this
    cases this
  · rw [hc] at this
    cases this

end Verif.Course
