import Verif.Proofs.Drain
/-
Pieces of history with several events.
-/

namespace Verif
open Spec (Item Desc MSt bare meddles shows shown Behaves Report Transition Notify Reaction Handles Events begins openStep openEv
  apiDepth takenOf IsEvent)
open Spec.Mon
open Spec.Calls (userObs)

theorem handles_of_behaves {d : Desc} {mem : Mem} {ev : Ev} {os : List Obs} {r : Option Exc}
    (h : Behaves d.m ev (planNow d mem ev) os r) : Handles d mem ev os r := by
  by_cases hend : mem.ended = true
  · rw [planNow, if_pos hend] at h
    obtain ⟨rfl, rfl⟩ := behaves_nil h
    exact .over hend
  have hend : mem.ended = false := by simpa using hend
  have hpl : planNow d mem ev = d.plan mem.lst.isSome mem.cur ev := by simp [planNow, hend]
  rw [hpl] at h
  cases hrow : d.table.row? mem.cur with
  | none =>
    rw [behaves_lost h hrow]
    refine .nowhere hend ?_
    unfold Desc.reaction
    rw [hrow]
    cases mem.cur <;> rfl
  | some row =>
    cases hc : mem.cur with
    | none => rw [hc] at hrow; cases hrow
    | some a =>
      rw [hc] at hrow h
      cases htgt : row.target (some ev.key) with
      | none => exact .unmapped hend hc (by simp [Desc.reaction, hrow, htgt]) (behaves_unmapped h hrow htgt)
      | some b =>
        by_cases hb : b.name = resNoop
        · exact .stays hend hc (by simp [Desc.reaction, hrow, htgt, hb]) (behaves_noop h hrow htgt hb)
        · exact .moves hend hc (by simp [Desc.reaction, hrow, htgt, hb]) (behaves_transition h hrow htgt hb)

/-- In an undisturbed piece of history the worker alone changes the state of the machine. -/
theorem mem_undisturbed {cfg : Cfg} {t : Tid} {tr : List (Tid × Obs)} {g g' : G} (hun : Undisturbed t cfg.d.m tr)
    (hr : run cfg t g tr = some g') : g'.mem = (bare t g.depth tr).foldl (Mem.step cfg.d.m) g.mem := by
  induction tr generalizing g with
  | nil => cases hr; rfl
  | cons e tr ih =>
    obtain ⟨g1, h1, h2⟩ := mon_cons hr
    obtain ⟨mem, d, md⟩ := g
    obtain ⟨mem1, d1, md1⟩ := g1
    obtain ⟨hm, hs⟩ := mstep_of h1
    simp only at hm hs
    rw [ih (fun e he => hun e (List.mem_cons_of_mem _ he)) h2]
    rcases undist_step (hun e List.mem_cons_self) hs with ⟨hx, rfl, hb⟩ | ⟨x, rfl, rfl, rfl, ho, hb⟩
    · rw [step_touch hx] at hm
      simp only [hb, hm]
    · simp only [hb, List.foldl_cons, hm]

/-- The rest of an event, and what follows. -/
theorem events_run {cfg : Cfg} {t : Tid} {tr : List (Tid × Obs)} {g g' : G} (hun : Undisturbed t cfg.d.m tr)
    (hok : ModeOk cfg.d.m g.mode) (hr : run cfg t g tr = some g') (hend : Mode.ev g'.mode = none) :
    (Mode.ev g.mode = none → Events cfg.d cfg.q g.mem (bare t g.depth tr) g'.mem) ∧
    (∀ ev mem0 os0, Prog1 cfg.d.m ev (planNow cfg.d mem0 ev) g.mem g.mode os0 → g.mem = os0.foldl (Mem.step cfg.d.m) mem0 →
      ∃ os r rest, bare t g.depth tr = os ++ .done cfg.d.m ev :: rest ∧
        Behaves cfg.d.m ev (planNow cfg.d mem0 ev) (os0 ++ os) r ∧
        Events cfg.d cfg.q ((os0 ++ os).foldl (Mem.step cfg.d.m) mem0) rest g'.mem) := by
  induction tr generalizing g with
  | nil =>
    cases hr
    refine ⟨fun _ => .nil, fun ev mem0 os0 hp _ => ?_⟩
    rw [prog_ev hp] at hend; cases hend
  | cons e tr ih =>
    obtain ⟨g1, h1, h2⟩ := mon_cons hr
    obtain ⟨mem, d, md⟩ := g
    obtain ⟨mem1, d1, md1⟩ := g1
    obtain ⟨hm, hs⟩ := mstep_of h1
    simp only at hm hs hok ⊢
    obtain ⟨hok1, hev1, _⟩ := mstep_open hok hs
    obtain ⟨ih1, ih2⟩ := ih (fun e he => hun e (List.mem_cons_of_mem _ he)) hok1 h2
    simp only at ih1 ih2
    rcases undist_step (hun e List.mem_cons_self) hs with ⟨hx, rfl, hb⟩ | ⟨x, rfl, rfl, rfl, ho, hb⟩
    · rw [step_touch hx] at hm
      subst hm
      rw [hb]
      exact ⟨ih1, ih2⟩
    · rw [hb]
      have hoe := (own_ev hok ho).2
      refine ⟨fun hnone => ?_, fun ev mem0 os0 hp hmem => ?_⟩
      · by_cases ht : ∃ q ev, x = .taken q cfg.d.m ev
        · obtain ⟨q, ev, rfl⟩ := ht
          obtain ⟨_, hmd, hq, hg1⟩ := step_taken h1
          simp only at hmd
          cases hg1
          obtain ⟨os, r, rest, h3, h4, h5⟩ := ih2 ev mem [] prog_start rfl
          rw [h3, hq]
          exact .event (handles_of_behaves h4) h5
        · have hnb : begins cfg.d.m x = false := by
            cases x <;> first | rfl | skip
            simp only [begins, decide_eq_false_iff_not]
            rintro rfl
            exact ht ⟨_, _, rfl⟩
          have hnc : concerns cfg.d.m x = false := by
            cases hc : concerns cfg.d.m x with
            | false => rfl
            | true =>
              cases x <;> first | (cases hc; done) | skip
              · have h6 : Mode.ev md1 = Mode.ev md ∧ _ := hoe
                rcases h6.2 with h6 | ⟨ev, h6, _⟩
                · rw [hc] at h6; cases h6
                · rw [hnone] at h6; cases h6
              all_goals
                first
                  | (have h6 : Mode.ev md1 = Mode.ev md ∧ _ := hoe
                     have h7 := h6.2 hc
                     rw [hnone] at h7; cases h7; done)
                  | skip
              rcases hoe with ⟨_, h6, _⟩ | ⟨h6, _⟩
              · rw [hnone] at h6; cases h6
              · simp [concerns] at hc; exact absurd hc h6
          have hev : Mode.ev md1 = none := by
            rw [hev1, hnone]
            cases x <;> first | rfl | skip
            · simp only [openStep]; rw [if_neg]; rintro ⟨_, rfl⟩; exact ht ⟨_, _, rfl⟩
            · simp only [openStep]; split <;> rfl
          have hmm : mem1 = mem := by
            rw [hm]
            apply step_touch
            cases hx : touches cfg.d.m x with
            | false => rfl
            | true =>
              have hmed := (hun _ List.mem_cons_self hx).2
              simp only at hmed
              exfalso
              cases x <;> first | (cases hx; done) | skip
              all_goals simp [touches] at hx
              all_goals subst hx
              all_goals first | (simp [meddles] at hmed; done) | (simp [concerns] at hnc; done)
          rw [← hmm]
          exact .other hnc hnb (ih1 hev)
      · rcases prog_own (fun x hx => thr_planNow hx) hp ho with ⟨m', ev', rfl, rfl, rfl, r, hb', hmd⟩ | ⟨_, h8⟩
        · refine ⟨[], r, _, rfl, by simpa using hb', ?_⟩
          have hmm : mem1 = mem := by rw [hm]; rfl
          rw [List.append_nil, ← hmem, ← hmm]
          exact ih1 (by rw [hmd]; cases r <;> rfl)
        · obtain ⟨os, r, rest, h3, h4, h5⟩ := ih2 ev mem0 (os0 ++ [x]) (by rw [hm]; exact h8) (by rw [hm, hmem]; simp)
          refine ⟨x :: os, r, rest, by rw [h3]; rfl, by simpa using h4, by simpa using h5⟩

/-- A thread which has finished an event has given its pair back. -/
theorem busy_done {cfg : Cfg} {t : Tid} {tr : List (Tid × Obs)} {g g' : G} {ev : Ev} (hok : ModeOk cfg.d.m g.mode)
    (hev : Mode.ev g.mode = some ev) (hr : run cfg t g tr = some g') (hend : Mode.ev g'.mode = none) :
    ∃ mid post, tr = mid ++ (t, .done cfg.d.m ev) :: post ∧ (∀ q m ev', (t, Obs.taken q m ev') ∉ mid) ∧
      (∀ m ev', (t, Obs.done m ev') ∉ mid) ∧
      ∃ g1, run cfg t g1 post = some g' ∧ ModeOk cfg.d.m g1.mode ∧ Mode.ev g1.mode = none ∧ g1.depth = 0 := by
  induction tr generalizing g with
  | nil => cases hr; rw [hev] at hend; cases hend
  | cons e tr ih =>
    obtain ⟨g1, h1, h2⟩ := mon_cons hr
    obtain ⟨mem, d, md⟩ := g
    obtain ⟨mem1, d1, md1⟩ := g1
    obtain ⟨hm, hs⟩ := mstep_of h1
    simp only at hm hs hok hev
    obtain ⟨hok1, hev1, hd1⟩ := mstep_open hok hs
    -- the entry is not the end of the event
    have hkeep : Mode.ev md1 = some ev → (∀ q m ev', e ≠ (t, Obs.taken q m ev')) → (∀ m ev', e ≠ (t, Obs.done m ev')) →
        ∃ mid post, e :: tr = mid ++ (t, .done cfg.d.m ev) :: post ∧ (∀ q m ev', (t, Obs.taken q m ev') ∉ mid) ∧
          (∀ m ev', (t, Obs.done m ev') ∉ mid) ∧
          ∃ g1, run cfg t g1 post = some g' ∧ ModeOk cfg.d.m g1.mode ∧ Mode.ev g1.mode = none ∧ g1.depth = 0 := by
      intro h3 h4 h5
      obtain ⟨mid, post, rfl, h6, h7, h8⟩ := ih hok1 h3 h2
      refine ⟨e :: mid, post, rfl, ?_, ?_, h8⟩
      · intro q m ev' h
        rcases List.mem_cons.1 h with h | h
        · exact h4 q m ev' h.symm
        · exact h6 q m ev' h
      · intro m ev' h
        rcases List.mem_cons.1 h with h | h
        · exact h5 m ev' h.symm
        · exact h7 m ev' h
    cases hs with
    | @other _ _ u x hu =>
      refine hkeep (by rw [disturbIf_ev]; exact hev) ?_ ?_
      · rintro q m ev' h; cases h; exact hu rfl
      · rintro m ev' h; cases h; exact hu rfl
    | drop => exact hkeep hev (by simp) (by simp)
    | enter _ => exact hkeep hev (by simp) (by simp)
    | leave => exact hkeep hev (by simp) (by simp)
    | api _ _ _ h3 =>
      refine hkeep (by rw [disturbIf_ev]; exact hev) ?_ ?_
      · rintro q m ev' h; cases h; cases h3
      · rintro m ev' h; cases h; cases h3
    | user h3 =>
      refine hkeep (by rw [disturbIf_ev]; exact hev) ?_ ?_
      · rintro q m ev' h; cases h; cases h3
      · rintro m ev' h; cases h; cases h3
    | @own _ x _ _ _ _ _ ho =>
      have hoe := (own_ev hok ho).2
      cases x with
      | taken q m ev' =>
        obtain ⟨rfl, _⟩ := hoe
        cases hev
      | done m ev' =>
        rcases hoe with ⟨rfl, h3, h4⟩ | ⟨_, rfl, _⟩
        · rw [hev] at h3; cases h3
          exact ⟨[], tr, rfl, by simp, by simp, _, h2, hok1, h4, rfl⟩
        · cases hev
      | _ =>
        refine hkeep ?_ (by simp) (by simp)
        rw [hev1, hev]
        rfl

/-- Nothing that concerns the machine happens outside events. -/
theorem idle_concerns {cfg : Cfg} {t : Tid} {g g' : G} {x : Obs} (hok : ModeOk cfg.d.m g.mode) (hd : g.depth = 0)
    (hx : userObs x = false) (hc : concerns cfg.d.m x = true) (hs : Spec.Mon.step cfg t g (t, x) = some g') :
    ∃ ev, Mode.ev g.mode = some ev ∧ (∀ c, x = .cb c → cbFor cfg.d.m ev c) ∧ (∀ m ev', x = .done m ev' → ev' = ev) := by
  obtain ⟨mem, d, md⟩ := g
  obtain ⟨mem1, d1, md1⟩ := g'
  obtain ⟨hm, hs⟩ := mstep_of hs
  simp only at hm hs hok hd ⊢
  generalize he : (t, x) = e at hs
  cases hs with
  | other hu => cases he; exact absurd rfl hu
  | drop => cases he; cases hc
  | enter _ => cases he; cases hc
  | leave => cases he; cases hc
  | api _ _ _ h3 => cases hd
  | user h3 => cases he; rw [h3] at hx; cases hx
  | @own _ x _ _ _ _ _ ho =>
    cases he
    have hoe := (own_ev hok ho).2
    cases x with
    | done m ev' =>
      rcases hoe with ⟨rfl, h3, h4⟩ | ⟨h3, _⟩
      · exact ⟨ev', h3, by simp, by rintro _ _ h; cases h; rfl⟩
      · simp [concerns] at hc; exact absurd hc h3
    | cb c =>
      rcases hoe.2 with h | ⟨ev, h3, h4⟩
      · rw [hc] at h; cases h
      · exact ⟨ev, h3, by rintro _ h; cases h; exact h4, by simp⟩
    | _ =>
      first
        | (simp [concerns] at hc; done)
        | (have h3 := hoe.2 hc
           obtain ⟨ev, h3⟩ := Option.isSome_iff_exists.1 h3
           exact ⟨ev, h3, by simp, by simp⟩)

/-- The last words of a dying thread. -/
theorem dying_concerns {cfg : Cfg} {t : Tid} {tr : List (Tid × Obs)} {g g' : G} {y : Exc} (hg : g.mode = .dying y) (hd : g.depth = 0)
    (hnt : ∀ q ev, (t, Obs.taken q cfg.d.m ev) ∉ tr) (hr : run cfg t g tr = some g') :
    ∀ x ∈ bare t 0 tr, concerns cfg.d.m x = false := by
  induction tr generalizing g with
  | nil => simp [bare]
  | cons e tr ih =>
    obtain ⟨g1, h1, h2⟩ := mon_cons hr
    have hnt' : ∀ q ev, (t, Obs.taken q cfg.d.m ev) ∉ tr := fun q ev h => hnt q ev (List.mem_cons_of_mem _ h)
    obtain ⟨mem, d, md⟩ := g
    obtain ⟨mem1, d1, md1⟩ := g1
    obtain ⟨_, hs⟩ := mstep_of h1
    simp only at hg hd hs
    subst hg hd
    cases hs with
    | @other _ _ u x hu =>
      have : disturbIf (touches cfg.d.m x) (.dying y) = .dying y := by cases touches cfg.d.m x <;> rfl
      rw [show bare t 0 ((u, x) :: tr) = bare t 0 tr by simp [bare, hu]]
      exact ih this rfl hnt' h2
    | drop =>
      rw [show ∀ s m, bare t 0 ((t, .taskDropped s m) :: tr) = bare t 0 tr by intros; simp [bare]]
      exact ih rfl rfl hnt' h2
    | enter hc => rcases hc with hc | hc <;> cases hc
    | user _ hc => cases hc
    | @own _ x _ h3 h4 h5 h6 ho =>
      have hx : x = .uncaught y ∧ md1 = .idle := by
        cases x <;> first | (cases ho; done) | skip
        simp only [Spec.Mon.own] at ho
        split at ho
        · rename_i h7; cases ho; rw [h7]; exact ⟨rfl, rfl⟩
        · cases ho
      obtain ⟨rfl, rfl⟩ := hx
      rw [show bare t 0 ((t, .uncaught y) :: tr) = .uncaught y :: bare t 0 tr by simp [bare, userObs]]
      intro x hx
      rcases List.mem_cons.1 hx with rfl | hx
      · rfl
      · exact (run_idle rfl hnt' h2).2.2 x hx

section
variable {d : Desc} {mem : Mem} {ev : Ev} {os : List Obs} {r : Option Exc} {a b : St}

theorem handles_goes (h : Handles d mem ev os r) (he : mem.ended = false) (hc : mem.cur = some a)
    (hb : d.reaction (some a) ev = .goes b) : Transition d mem.lst.isSome a ev b os r := by
  cases h with
  | over h => rw [he] at h; cases h
  | moves _ h2 h3 h4 =>
    rw [hc] at h2; cases h2
    rw [hb] at h3; cases h3
    exact h4
  | stays _ h2 h3 _ => rw [hc] at h2; cases h2; rw [hb] at h3; cases h3
  | unmapped _ h2 h3 _ => rw [hc] at h2; cases h2; rw [hb] at h3; cases h3
  | nowhere _ h3 => rw [hc, hb] at h3; cases h3

theorem handles_stays (h : Handles d mem ev os r) (he : mem.ended = false) (hc : mem.cur = some a)
    (hb : d.reaction (some a) ev = .stays b) :
    Notify d.m ev (if mem.lst.isSome then [.begin d.m a ev b, .end_ d.m a ev b] else []) os r := by
  cases h with
  | over h => rw [he] at h; cases h
  | stays _ h2 h3 h4 =>
    rw [hc] at h2; cases h2
    rw [hb] at h3; cases h3
    exact h4
  | moves _ h2 h3 _ => rw [hc] at h2; cases h2; rw [hb] at h3; cases h3
  | unmapped _ h2 h3 _ => rw [hc] at h2; cases h2; rw [hb] at h3; cases h3
  | nowhere _ h3 => rw [hc, hb] at h3; cases h3

theorem handles_unmapped (h : Handles d mem ev os r) (he : mem.ended = false) (hc : mem.cur = some a)
    (hb : d.reaction (some a) ev = .unmapped) : Notify d.m ev [.unmapped d.m ev] os r := by
  cases h with
  | over h => rw [he] at h; cases h
  | unmapped _ h2 h3 h4 => exact h4
  | moves _ h2 h3 _ => rw [hc] at h2; cases h2; rw [hb] at h3; cases h3
  | stays _ h2 h3 _ => rw [hc] at h2; cases h2; rw [hb] at h3; cases h3
  | nowhere _ h3 => rw [hc, hb] at h3; cases h3

theorem transition_ok {l : Bool} (h : Transition d l a ev b os r) (hok : ∀ c x, Obs.cbRet c (some x) ∉ os) :
    os = shown (d.before l a ev b) ++ d.change b ++ shown (d.afterwards l a ev b) ++ d.ending b ∧ r = none := by
  cases h with
  | completed => exact ⟨rfl, rfl⟩
  | @failedBefore cs c cs' x => exact absurd (by simp) (hok c x)
  | @failedAfter cs c cs' x => exact absurd (by simp) (hok c x)

theorem notify_ok {m : MId} {cs : List Cb} (h : Notify m ev cs os r) (hok : ∀ c x, Obs.cbRet c (some x) ∉ os) :
    os = shown cs ∧ r = none := by
  cases h with
  | completed => exact ⟨rfl, rfl⟩
  | @failed cs c cs' x => exact absurd (by simp) (hok c x)

end
end Verif
