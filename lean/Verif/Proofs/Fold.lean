import Verif.Proofs.Outcome
/-
The state of a machine is the fold of its table over the events taken.
-/

namespace Verif
open Spec (Item Desc MSt bare meddles shows shown Behaves Report Transition Notify openStep openEv apiDepth takenOf)
open Spec.Mon

theorem mem_shows {m : MId} {e : Bool} {pl : List Item} {c : Cb} (h : Obs.cb c ∈ shows m e pl) : Item.cb c ∈ pl := by
  induction pl generalizing e with
  | nil => cases h
  | cons it pl ih =>
    cases it with
    | cb c' =>
      simp [shows] at h
      rcases h with rfl | h
      · exact List.mem_cons_self
      · exact List.mem_cons_of_mem _ (ih h)
    | upd s b => simp [shows] at h; exact List.mem_cons_of_mem _ (ih h)
    | cur s => simp [shows] at h; exact List.mem_cons_of_mem _ (ih h)
    | halt s =>
      simp only [shows] at h
      split at h
      · cases h
      · simp at h; exact List.mem_cons_of_mem _ (ih h)
    | thr x => cases h

/-- No user code called for an event of machine `m` throws. -/
def Calm (m : MId) (o : Obs) : Prop := ∀ c x, o = .cbRet c (some x) → Spec.Calls.cbMach c ≠ some m

theorem Transition.mem_completed {d : Desc} {lst : Bool} {a b : St} {ev : Ev} (mem : Mem) :
    (shown (d.before lst a ev b) ++ d.change b ++ shown (d.afterwards lst a ev b) ++ d.ending b).foldl (Mem.step d.m) mem =
      if d.final b = true ∧ b.name ≠ Verif.resEnd then { mem with cur := some d.endSt, ended := true }
      else { mem with cur := some b, ended := b.name == Verif.resEnd } := by
  simp only [List.foldl_append]
  rw [step_cbs mem quiet_shown, mem_change, step_cbs _ quiet_shown]
  simp only [Desc.ending]
  split <;> simp [Mem.step]

/-- A completed event moves the machine along its table. -/
theorem behaves_next {d : Desc} {mem : Mem} {ev : Ev} {os : List Obs} {r : Option Exc}
    (h : Behaves d.m ev (planNow d mem ev) os r) (hok : ∀ o ∈ os, Calm d.m o) :
    (os.foldl (Mem.step d.m) mem).st = d.next mem.st ev := by
  have hbad : ∀ {a b : List Obs} {c : Cb}, shows d.m false (planNow d mem ev) = a ++ .cb c :: .cbRet c none :: b →
      Spec.Calls.cbMach c = some d.m := by
    intro a b c h
    exact (planNow_cb (mem_shows (e := false) (m := d.m) (pl := planNow d mem ev) (c := c) (by rw [h]; simp))).1
  have hthrow : ∀ {a b : List Obs} {c : Cb} {x : Exc}, shows d.m false (planNow d mem ev) = a ++ .cb c :: .cbRet c none :: b →
      Obs.cbRet c (some x) ∉ os := fun h1 h2 => hok _ h2 _ _ rfl (hbad h1)
  by_cases hend : mem.ended = true
  · rw [planNow, if_pos hend] at h
    rw [(behaves_nil h).1]
    simp [Desc.next, Mem.st, hend]
  have hend : mem.ended = false := by simpa using hend
  have hpl : planNow d mem ev = d.plan mem.lst.isSome mem.cur ev := by simp [planNow, hend]
  rw [hpl] at h hthrow
  have hst : ∀ m1 : Mem, m1.cur = mem.cur → m1.ended = mem.ended → m1.st = mem.st := by
    intro m1 h1 h2; simp [Mem.st, h1, h2]
  cases hrow : d.table.row? mem.cur with
  | none =>
    have := behaves_lost h hrow
    rw [this, step_cbs]
    · simp only [Desc.next, Mem.st, hend]
      cases hc : mem.cur with
      | none => rfl
      | some a => rw [hc] at hrow; simp [hrow]
    · intro o ho; simp at ho; rcases ho with rfl | rfl <;> rfl
  | some row =>
    cases hc : mem.cur with
    | none => rw [hc] at hrow; cases hrow
    | some a =>
      rw [hc] at hrow h hthrow
      simp only [Desc.next, Mem.st, hend, hc, hrow]
      cases htgt : row.target (some ev.key) with
      | none =>
        rw [mem_notify mem (behaves_unmapped h hrow htgt)]
        simp [hc, hend]
      | some b =>
        by_cases hb : b.name = resNoop
        · rw [mem_notify mem (behaves_noop h hrow htgt hb)]
          simp [hc, hend, hb]
        · have hs : shows d.m false (d.plan mem.lst.isSome (some a) ev) = shown (d.before mem.lst.isSome a ev b) ++ d.change b ++
              shown (d.afterwards mem.lst.isSome a ev b) ++ d.ending b := by
            apply shows_transition
            simp only [Desc.plan, hrow, htgt, if_neg hb]
          have hos : os = shown (d.before mem.lst.isSome a ev b) ++ d.change b ++
              shown (d.afterwards mem.lst.isSome a ev b) ++ d.ending b := by
            rw [← hs]
            cases h with
            | completed _ => rfl
            | @failed _ _ _ x _ h1 _ => exact absurd (by simp) (hthrow (x := x) h1)
            | @killed _ _ _ x h1 _ => exact absurd (by simp) (hthrow (x := x) h1)
            | lost hp =>
              simp only [Desc.plan, hrow, htgt, if_neg hb] at hp
              have : Item.upd b (b.name == Verif.resEnd) ∈ [Item.thr .npe] := by rw [← hp]; simp
              simp at this
          rw [hos, Transition.mem_completed]
          simp only [if_neg hb]
          by_cases hr : b.name = Verif.resEnd
          · simp [hr]
          · by_cases hf : d.final b = true
            · simp [hr, hf]
            · simp [hr, hf]

/-- Where the machine is in a run of its worker: `evs` have been taken since it was in state `s0`. -/
inductive Along (cfg : Cfg) (s0 : MSt) : List Ev → G → Prop
  | rest {evs g} : Mode.ev g.mode = none → g.mem.st = evs.foldl cfg.d.next s0 → Along cfg s0 evs g
  | amid {evs ev mem os g} : mem.st = evs.foldl cfg.d.next s0 → Prog1 cfg.d.m ev (planNow cfg.d mem ev) g.mem g.mode os →
      g.mem = os.foldl (Mem.step cfg.d.m) mem → (∀ o ∈ os, Calm cfg.d.m o) → ModeOk cfg.d.m g.mode → Along cfg s0 (evs ++ [ev]) g

theorem prog_ev {m : MId} {ev : Ev} {plan : List Item} {mem : Mem} {md : Mode} {os : List Obs} (h : Prog1 m ev plan mem md os) :
    Mode.ev md = some ev := by
  cases md with
  | idle => exact h.elim
  | dying _ => exact h.elim
  | _ => rw [Mode.ev, h.1]

theorem takenOf_cons (m : MId) (e : Tid × Obs) (tr : List (Tid × Obs)) : takenOf m (e :: tr) = takenOf m [e] ++ takenOf m tr := by
  show List.filterMap _ ([e] ++ tr) = _
  rw [List.filterMap_append]
  rfl

theorem along_run {cfg : Cfg} {t : Tid} {s0 : MSt} {tr : List (Tid × Obs)} {g g' : G} {evs : List Ev}
    (hun : Undisturbed t cfg.d.m tr) (hcalm : ∀ x, (t, x) ∈ tr → Calm cfg.d.m x)
    (hw : ∀ u q ev, (u, Obs.taken q cfg.d.m ev) ∈ tr → u = t)
    (h : Along cfg s0 evs g) (hr : run cfg t g tr = some g') : Along cfg s0 (evs ++ takenOf cfg.d.m tr) g' := by
  induction tr generalizing g evs with
  | nil => cases hr; simpa [takenOf] using h
  | cons e tr ih =>
    obtain ⟨g1, h1, h2⟩ := mon_cons hr
    obtain ⟨mem, d, md⟩ := g
    obtain ⟨mem1, d1, md1⟩ := g1
    obtain ⟨hm, hs⟩ := mstep_of h1
    simp only at hm hs
    have hun' : Undisturbed t cfg.d.m tr := fun e he => hun e (List.mem_cons_of_mem _ he)
    rw [takenOf_cons, ← List.append_assoc]
    refine ih hun' (fun x hx => hcalm x (List.mem_cons_of_mem _ hx)) (fun u q ev hx => hw u q ev (List.mem_cons_of_mem _ hx)) ?_ h2
    have htk : ∀ q ev, e.2 = .taken q cfg.d.m ev → md = .idle ∧ md1 = .busy ev (planNow cfg.d mem ev) false := by
      intro q ev he
      obtain ⟨u, x⟩ := e
      simp only at he
      subst he
      have := hw u q ev List.mem_cons_self
      subst this
      obtain ⟨_, h3, _, h4⟩ := step_taken h1
      cases h4
      exact ⟨h3, rfl⟩
    have hnt : (∀ q ev, e.2 ≠ .taken q cfg.d.m ev) → takenOf cfg.d.m [e] = [] := by
      intro h
      simp only [takenOf, List.filterMap_cons, List.filterMap_nil]
      split
      · rfl
      · rename_i hx
        split at hx
        · rename_i m' ev' hx'
          split at hx
          · rename_i hmm; subst hmm; exact absurd hx' (h _ _)
          · cases hx
        · cases hx
    rcases undist_step (hun e List.mem_cons_self) hs with ⟨hx, rfl, hb⟩ | ⟨x, rfl, rfl, rfl, ho, hb⟩
    · rw [step_touch hx] at hm
      subst hm
      have : takenOf cfg.d.m [e] = [] := by
        refine hnt fun q ev he => ?_
        obtain ⟨h3, h4⟩ := htk q ev he
        rw [h3] at h4; cases h4
      rw [this, List.append_nil]
      cases h with
      | rest h3 h4 => exact .rest h3 h4
      | amid h3 h4 h5 h6 h7 => exact .amid h3 h4 h5 h6 h7
    · have hcx := hcalm x List.mem_cons_self
      cases h with
      | rest h3 h4 =>
        simp only at h3 h4
        by_cases ht : ∃ q ev, x = .taken q cfg.d.m ev
        · obtain ⟨q, ev, rfl⟩ := ht
          obtain ⟨rfl, rfl⟩ := htk q ev rfl
          have hmm : mem1 = mem := by rw [hm]; rfl
          subst hmm
          have : takenOf cfg.d.m [(t, Obs.taken q cfg.d.m ev)] = [ev] := by simp [takenOf]
          rw [this]
          exact .amid h4 prog_start rfl (by simp) (fun c hc => planNow_for hc)
        · rw [hnt fun q ev he => ht ⟨q, ev, he⟩, List.append_nil]
          have hok : ModeOk cfg.d.m md := by
            rcases idle_of_none h3 with rfl | ⟨y, rfl⟩ <;> trivial
          have h5 := (own_ev hok ho).2
          have h6 := (mstep_open hok hs).2.1
          have h7 : Mode.ev md1 = none := by
            rw [h6, h3]
            cases x <;> first | rfl | skip
            · simp only [openStep]; rw [if_neg]; rintro ⟨_, rfl⟩; exact ht ⟨_, _, rfl⟩
            · simp only [openStep]; split <;> rfl
          refine .rest h7 ?_
          rw [hm]
          cases hx : touches cfg.d.m x with
          | false => rw [step_touch hx]; exact h4
          | true =>
            have hmed := (hun _ List.mem_cons_self hx).2
            simp only at hmed
            exfalso
            cases x <;> first | (cases hx; done) | skip
            all_goals simp [touches] at hx
            all_goals subst hx
            all_goals first | (simp [meddles] at hmed; done) | skip
            all_goals
              have := h5.2 (by simp [concerns])
              rw [h3] at this
              cases this
      | @amid evs ev memT os _ h3 h4 h5 h6 h7 =>
        simp only at h4 h5 h7
        have : takenOf cfg.d.m [(t, x)] = [] := by
          refine hnt fun q ev he => ?_
          obtain ⟨h8, _⟩ := htk q ev he
          rw [h8] at h4; exact h4
        rw [this, List.append_nil]
        have hplan : ∀ x, Item.thr x ∈ planNow cfg.d memT ev → _ := fun x hx => thr_planNow hx
        rcases prog_own hplan h4 ho with ⟨m', ev', rfl, rfl, rfl, r, hb, hmd⟩ | ⟨_, h8⟩
        · refine .rest (by rw [hmd]; cases r <;> rfl) ?_
          rw [hm]
          show mem.st = _
          rw [h5, behaves_next hb h6, h3]
          simp
        · refine .amid h3 (by rw [hm]; exact h8) (by rw [hm, h5]; simp) ?_ ?_
          · intro o ho'
            rcases List.mem_append.1 ho' with ho' | ho'
            · exact h6 o ho'
            · simp at ho'; rw [ho']; exact hcx
          · exact (own_ev h7 ho).1

end Verif
