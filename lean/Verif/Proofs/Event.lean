import Verif.Proofs.Monitor
import Verif.Spec.Event
/-
From the event processing automaton to statements about histories.
-/

namespace Verif
open Spec (Item Desc bare meddles shows Behaves openStep openEv depthStep apiDepth)
open Spec.Mon
open Spec.Calls (userObs)

/-! ### Reading histories -/

section
variable {cfg : Cfg} {t : Tid} {g g' : G} {a b : List (Tid × Obs)}

theorem mon_split (h : run cfg t g (a ++ b) = some g') : ∃ g1, run cfg t g a = some g1 ∧ run cfg t g1 b = some g' := by
  rw [mon_run_append] at h
  cases h1 : run cfg t g a with
  | none => rw [h1] at h; cases h
  | some g1 => rw [h1] at h; exact ⟨g1, rfl, h⟩

theorem mon_cons {e : Tid × Obs} (h : run cfg t g (e :: b) = some g') :
    ∃ g1, Spec.Mon.step cfg t g e = some g1 ∧ run cfg t g1 b = some g' := by
  simp only [run] at h
  split at h
  · cases h
  · exact ⟨_, ‹_›, h⟩

/-- The steps of the automaton, sorted. -/
inductive MStep (cfg : Cfg) (t : Tid) (mem : Mem) : Nat → Mode → Tid × Obs → Nat → Mode → Prop
  | other {d md u x} : u ≠ t → MStep cfg t mem d md (u, x) d (disturbIf (touches cfg.d.m x) md)
  | drop {d md s m} : MStep cfg t mem d md (t, .taskDropped s m) d md
  | enter {d md k} : d > 0 ∨ md.callable = true → MStep cfg t mem d md (t, .enter k) (d + 1) md
  | leave {d md k r} : MStep cfg t mem (d + 1) md (t, .leave k r) d md
  | api {d md x} : (∀ s m, x ≠ .taskDropped s m) → (∀ k, x ≠ .enter k) → (∀ k r, x ≠ .leave k r) → onlyDrain x = false →
      MStep cfg t mem (d + 1) md (t, x) (d + 1) (disturbIf (touches cfg.d.m x) md)
  | user {md x} : userObs x = true → md.callable = true → MStep cfg t mem 0 md (t, x) 0 (disturbIf (touches cfg.d.m x) md)
  | own {md x md'} : (∀ s m, x ≠ .taskDropped s m) → (∀ k, x ≠ .enter k) → (∀ k r, x ≠ .leave k r) → userObs x = false →
      own cfg mem md x = some md' → MStep cfg t mem 0 md (t, x) 0 md'

theorem mstep_of {mem : Mem} {d : Nat} {md : Mode} {e : Tid × Obs} (h : Spec.Mon.step cfg t ⟨mem, d, md⟩ e = some g') :
    g'.mem = mem.step cfg.d.m e.2 ∧ MStep cfg t mem d md e g'.depth g'.mode := by
  obtain ⟨u, x⟩ := e
  by_cases hu : u = t
  · subst hu
    by_cases h1 : ∃ s m, x = .taskDropped s m
    · obtain ⟨s, m, rfl⟩ := h1
      simp [Spec.Mon.step] at h
      subst h
      exact ⟨rfl, .drop⟩
    by_cases h2 : ∃ k, x = .enter k
    · obtain ⟨k, rfl⟩ := h2
      simp [Spec.Mon.step] at h
      obtain ⟨h, rfl⟩ := h
      exact ⟨rfl, .enter h⟩
    by_cases h3 : ∃ k r, x = .leave k r
    · obtain ⟨k, r, rfl⟩ := h3
      simp [Spec.Mon.step] at h
      obtain ⟨h, rfl⟩ := h
      refine ⟨rfl, ?_⟩
      cases d with
      | zero => omega
      | succ d => exact .leave
    have h1' : ∀ s m, x ≠ .taskDropped s m := fun s m h => h1 ⟨s, m, h⟩
    have h2' : ∀ k, x ≠ .enter k := fun k h => h2 ⟨k, h⟩
    have h3' : ∀ k r, x ≠ .leave k r := fun k r h => h3 ⟨k, r, h⟩
    have hs : Spec.Mon.step cfg u ⟨mem, d, md⟩ (u, x) =
        (if d > 0 then
          if onlyDrain x then none else some ⟨mem.step cfg.d.m x, d, disturbIf (touches cfg.d.m x) md⟩
        else if userObs x then
          if md.callable then some ⟨mem.step cfg.d.m x, 0, disturbIf (touches cfg.d.m x) md⟩ else none
        else (own cfg mem md x).map fun md => ⟨mem.step cfg.d.m x, 0, md⟩) := by
      cases x <;> first | (exact absurd rfl (h1' _ _)) | (exact absurd rfl (h2' _)) | (exact absurd rfl (h3' _ _)) |
        (simp [Spec.Mon.step]; done)
    rw [hs] at h
    split at h
    · rename_i hd
      split at h
      · cases h
      · rename_i ho
        cases h
        cases d with
        | zero => omega
        | succ d => exact ⟨rfl, .api h1' h2' h3' (by simpa using ho)⟩
    · have hd : d = 0 := by omega
      subst hd
      split at h
      · split at h
        · cases h
          exact ⟨rfl, .user ‹_› ‹_›⟩
        · cases h
      · rename_i hu
        cases ho : own cfg mem md x with
        | none => rw [ho] at h; cases h
        | some md' =>
          rw [ho] at h
          cases h
          exact ⟨rfl, .own h1' h2' h3' (by simpa using hu) ho⟩
  · simp [Spec.Mon.step, hu] at h
    subst h
    exact ⟨rfl, .other hu⟩

theorem mon_mem (h : run cfg t g a = some g') : g'.mem = g.mem.after cfg.d.m a := by
  induction a generalizing g with
  | nil => cases h; rfl
  | cons e a ih =>
    obtain ⟨g1, h1, h2⟩ := mon_cons h
    rw [ih h2]
    rw [(mstep_of (mem := g.mem) (d := g.depth) (md := g.mode) h1).1]
    rfl

end

/-- History of reachable configurations. -/
theorem mon_accepted {env : Env} {m0 : MId} (hp : Private env m0) {c0 c : Conf} (hi : Initial c0) (hr : ReachFrom env c0 c) (t : Tid) :
    ∃ lst, ThreadsOk (proto env) [] fin lst c ∧ (Own env lst c.w ∧ TaskInv env lst c.w) ∧
      MonInv env m0 t (G.init (c0.w.mach m0).listener) lst c.w := by
  obtain ⟨xs, hx⟩ := hr
  refine sound_runs (checked env) (((own_invariant env).and (task_preserved env)).and (mon_preserved hp t _))
    (lst := fun _ => []) ?_ ⟨⟨own_initial env c0 hi, task_initial env c0 hi⟩, ?_⟩ hx
  · intro t
    rw [hi.idle t]
  · refine ⟨0, .idle, none, ?_, .nil, rfl⟩
    rw [hi.trace]
    obtain ⟨h1, h2, h3⟩ := hi.mach m0
    simp [run, G.init, memOf, h2, h3]

/-! ### One event -/

theorem thr_plan {d : Desc} {lst : Bool} {a : Option St} {ev : Ev} {x : Exc} (h : Item.thr x ∈ d.plan lst a ev) :
    d.plan lst a ev = [.thr .npe] := by
  unfold Desc.plan at h ⊢
  split at h
  · split at h
    · simp at h
    · have hn : ∀ b c, Item.thr x ∉ Spec.note b c := by intro b c; cases b <;> simp [Spec.note]
      have ha : ∀ k s n, Item.thr x ∉ d.actions k s ev 0 n := by intro k s n; simp [Desc.actions]
      split at h
      · simp [hn] at h
      · simp only [List.mem_append, hn, ha, false_or, or_false] at h
        rcases h with h | h
        · simp at h
        · split at h <;> simp at h
  · rfl

theorem thr_planNow {d : Desc} {mem : Mem} {ev : Ev} {x : Exc} (h : Item.thr x ∈ planNow d mem ev) :
    planNow d mem ev = [.thr .npe] := by
  unfold planNow at h ⊢
  split at h
  · cases h
  · rename_i he; rw [if_neg he]; exact thr_plan h

/-- The parts of a plan that have been carried out. -/
structure Done (m : MId) (plan : List Item) (e : Bool) (pl : List Item) (os : List Obs) : Prop where
  shown : os ++ shows m e pl = shows m false plan
  rest : ∃ p, plan = p ++ pl ∧ ∀ x, Item.thr x ∉ p

/-- What the thread has done for an event when it is in this mode. -/
def Prog1 (m : MId) (ev : Ev) (plan : List Item) (mem : Mem) : Mode → List Obs → Prop
  | .busy ev' pl off, os => ev' = ev ∧ off = false ∧ Done m plan mem.ended pl os
  | .inCb ev' c pl off, os => ev' = ev ∧ off = false ∧ (∃ a, os = a ++ [.cb c]) ∧ Done m plan mem.ended pl (os ++ [.cbRet c none])
  | .thrown ev' x, os => ev' = ev ∧ ∃ a b c, os = a ++ [.cb c, .cbRet c (some x)] ∧
    shows m false plan = a ++ .cb c :: .cbRet c none :: b
  | .flow ev' x, os => ev' = ev ∧ ∀ r, Behaves m ev plan (os ++ [.cbRet (.flowEx m ev x) r]) r
  | .over ev' r, os => ev' = ev ∧ Behaves m ev plan os r
  | _, _ => False

/-- Nobody else changes the machine. -/
def Undisturbed (t : Tid) (m : MId) (tr : List (Tid × Obs)) : Prop :=
  ∀ e ∈ tr, touches m e.2 = true → e.1 = t ∧ meddles m e.2 = false

section
variable {cfg : Cfg} {t : Tid} {ev : Ev} {plan : List Item} {mem : Mem} {md md' : Mode} {os : List Obs} {x : Obs}

theorem Done.next {m : MId} {e e' : Bool} {it : Item} {pl : List Item} (h : Done m plan e (it :: pl) os)
    {o : List Obs} (ho : shows m e (it :: pl) = o ++ shows m e' pl) (hn : ∀ x, it ≠ .thr x) : Done m plan e' pl (os ++ o) := by
  obtain ⟨h1, p, h2, h3⟩ := h
  refine ⟨by rw [List.append_assoc, ← ho]; exact h1, p ++ [it], by rw [h2]; simp, ?_⟩
  intro x hx
  rcases List.mem_append.1 hx with hx | hx
  · exact h3 x hx
  · simp at hx; exact hn x hx.symm

/-- Steps of event processing. -/
theorem prog_own (hplan : ∀ x, Item.thr x ∈ plan → plan = [.thr .npe]) (h : Prog1 cfg.d.m ev plan mem md os)
    (ho : own cfg mem md x = some md') :
    (∃ m' ev', x = .done m' ev' ∧ m' = cfg.d.m ∧ ev' = ev ∧ ∃ r, Behaves cfg.d.m ev plan os r ∧
      md' = (match r with | none => .idle | some x => .dying x)) ∨
    ((∀ m ev, x ≠ .done m ev) ∧ Prog1 cfg.d.m ev plan (mem.step cfg.d.m x) md' (os ++ [x])) := by
  cases md with
  | idle => exact h.elim
  | dying x => exact h.elim
  | busy ev' pl off =>
    obtain ⟨rfl, rfl, hd⟩ := h
    have hflow : ∀ m' ev'' y, x = .cb (.flowEx m' ev'' y) → ((∀ m ev, x ≠ .done m ev) ∧ Prog1 cfg.d.m ev' plan (mem.step cfg.d.m x) md' (os ++ [x])) := by
      rintro m' ev'' y rfl
      refine ⟨(by intro _ _ h; cases h), ?_⟩
      simp only [own] at ho
      split at ho
      · rename_i hc
        obtain ⟨rfl, rfl, rfl, hpl⟩ := hc
        cases ho
        have hpl : pl = [.thr .npe] := by simpa using hpl
        subst hpl
        obtain ⟨h1, p, h2, h3⟩ := hd
        have hp := hplan .npe (by rw [h2]; simp)
        refine ⟨rfl, fun r => ?_⟩
        rw [hp] at h1
        have : os = [] := by simpa [shows] using h1
        subst this
        exact .lost hp
      · cases ho
    cases x with
    | cb c =>
      by_cases hf : ∃ m' ev'' y, c = .flowEx m' ev'' y
      · obtain ⟨m', ev'', y, rfl⟩ := hf
        exact Or.inr (hflow m' ev'' y rfl)
      · right
        refine ⟨(by intro _ _ h; cases h), ?_⟩
        have h3 : own cfg mem (.busy ev' pl false) (.cb c) =
            if pl.head? = some (.cb c) ∨ (false ∧ pl = [] ∧ Spec.Calls.cbMach c = some cfg.d.m ∧ cbEv c = some ev') then
              some (.inCb ev' c pl.tail false) else none := by
          cases c <;> first | rfl | exact absurd ⟨_, _, _, rfl⟩ hf
        rw [h3] at ho
        split at ho
        · rename_i hc
          cases ho
          cases pl with
          | nil => simp at hc
          | cons it pl =>
            have : it = .cb c := by simpa using hc
            subst this
            refine ⟨rfl, rfl, ⟨os, rfl⟩, ?_⟩
            have := hd.next (e' := mem.ended) (o := [.cb c, .cbRet c none]) rfl (by intro x hx; cases hx)
            simpa [Mem.step] using this
        · cases ho
    | upd m' s b api =>
      right
      refine ⟨(by intro _ _ h; cases h), ?_⟩
      simp only [own] at ho
      split at ho
      · rename_i hc
        obtain ⟨rfl, rfl, he, hc⟩ := hc
        cases ho
        cases pl with
        | nil => simp at hc
        | cons it pl =>
          simp at hc
          rcases hc with rfl | ⟨rfl, rfl⟩
          · refine ⟨rfl, rfl, ?_⟩
            have := hd.next (e' := b) (o := [.upd cfg.d.m s b false]) rfl (by intro x hx; cases hx)
            simpa [Mem.step] using this
          · refine ⟨rfl, rfl, ?_⟩
            have := hd.next (e' := true) (o := [.upd cfg.d.m s true false]) (by simp [shows, he]) (by intro x hx; cases hx)
            simpa [Mem.step] using this
      · split at ho
        · rename_i hc; simp at hc
        · cases ho
    | cur m' s api =>
      right
      refine ⟨(by intro _ _ h; cases h), ?_⟩
      simp only [own] at ho
      split at ho
      · rename_i hc
        obtain ⟨rfl, rfl, hc⟩ := hc
        cases ho
        cases pl with
        | nil => simp at hc
        | cons it pl =>
          simp at hc
          subst hc
          refine ⟨rfl, rfl, ?_⟩
          have := hd.next (e' := mem.ended) (o := [.cur cfg.d.m s false]) rfl (by intro x hx; cases hx)
          simpa [Mem.step] using this
      · cases ho
    | done m' ev'' =>
      left
      simp only [own] at ho
      split at ho
      · rename_i hc
        obtain ⟨rfl, rfl, hc⟩ := hc
        cases ho
        refine ⟨_, _, rfl, rfl, rfl, none, ?_, rfl⟩
        obtain ⟨h1, p, h2, h3⟩ := hd
        have hnil : shows cfg.d.m mem.ended pl = [] := by
          unfold finished at hc
          split at hc
          · rfl
          · simp [shows, hc]
          · cases hc
        rw [hnil, List.append_nil] at h1
        rw [h1]
        refine .completed ?_
        intro y hy
        rw [h2] at hy
        rcases List.mem_append.1 hy with hy | hy
        · exact h3 y hy
        · unfold finished at hc
          split at hc
          · cases hy
          · simp at hy
          · cases hc
      · cases ho
    | _ => cases ho
  | inCb ev' c pl off =>
    obtain ⟨rfl, rfl, ⟨a, rfl⟩, hd⟩ := h
    right
    cases x with
    | cbRet c' r =>
      refine ⟨(by intro _ _ h; cases h), ?_⟩
      simp only [own] at ho
      split at ho
      · rename_i hc
        subst hc
        cases r with
        | none => cases ho; exact ⟨rfl, rfl, hd⟩
        | some y =>
          cases ho
          refine ⟨rfl, a, shows cfg.d.m mem.ended pl, c', by simp, ?_⟩
          rw [← hd.shown]; simp
      · cases ho
    | _ => cases ho
  | thrown ev' y =>
    obtain ⟨rfl, a, b, c, rfl, hs⟩ := h
    cases x with
    | cb c' =>
      right
      refine ⟨(by intro _ _ h; cases h), ?_⟩
      cases c' with
      | flowEx m' ev'' y' =>
        simp only [own] at ho
        split at ho
        · rename_i hc
          obtain ⟨rfl, rfl, rfl, hy⟩ := hc
          cases ho
          refine ⟨rfl, fun r => ?_⟩
          have := Behaves.failed (m := cfg.d.m) (ev := ev'') (r := r) hs hy
          simpa using this
        · cases ho
      | _ => cases ho
    | done m' ev'' =>
      left
      simp only [own] at ho
      split at ho
      · rename_i hc
        obtain ⟨rfl, rfl, hy⟩ := hc
        cases ho
        exact ⟨_, _, rfl, rfl, rfl, some y, .killed hs hy, rfl⟩
      · cases ho
    | _ => cases ho
  | flow ev' y =>
    obtain ⟨rfl, h⟩ := h
    right
    cases x with
    | cbRet c r =>
      refine ⟨(by intro _ _ h; cases h), ?_⟩
      simp only [own] at ho
      split at ho
      · rename_i hc
        cases ho
        rw [hc]
        exact ⟨rfl, h r⟩
      · cases ho
    | _ => cases ho
  | over ev' r =>
    obtain ⟨rfl, h⟩ := h
    left
    cases x with
    | done m' ev'' =>
      simp only [own] at ho
      split at ho
      · rename_i hc
        obtain ⟨rfl, rfl⟩ := hc
        refine ⟨_, _, rfl, rfl, rfl, r, h, ?_⟩
        cases r <;> cases ho <;> rfl
      · cases ho
    | _ => cases ho

theorem prog_mem {mem' : Mem} (he : mem' = mem) (h : Prog1 cfg.d.m ev plan mem md os) : Prog1 cfg.d.m ev plan mem' md os := by
  rw [he]; exact h

theorem bare_skip {t : Tid} {d : Nat} {x : Obs} (tr : List (Tid × Obs)) (h1 : ∀ s m, x ≠ .taskDropped s m)
    (h2 : ∀ k, x ≠ .enter k) (h3 : ∀ k r, x ≠ .leave k r) :
    bare t d ((t, x) :: tr) = if d > 0 ∨ userObs x then bare t d tr else x :: bare t d tr := by
  cases x <;> first | (exact absurd rfl (h1 _ _)) | (exact absurd rfl (h2 _)) | (exact absurd rfl (h3 _ _)) |
    (simp [bare]; done)

/-- A step which does not disturb the machine: nothing happens to it, or it is a step of event processing. -/
theorem undist_step {d d1 : Nat} {md1 : Mode} {e : Tid × Obs}
    (hu : touches cfg.d.m e.2 = true → e.1 = t ∧ meddles cfg.d.m e.2 = false) (hs : MStep cfg t mem d md e d1 md1) :
    (touches cfg.d.m e.2 = false ∧ md1 = md ∧ ∀ tr, bare t d (e :: tr) = bare t d1 tr) ∨
    (∃ x, e = (t, x) ∧ d = 0 ∧ d1 = 0 ∧ own cfg mem md x = some md1 ∧ ∀ tr, bare t 0 (e :: tr) = x :: bare t 0 tr) := by
  cases hs with
  | @other _ _ u x hu' =>
    have hx : touches cfg.d.m x = false := by
      cases hx : touches cfg.d.m x with
      | false => rfl
      | true => exact absurd (hu hx).1 hu'
    exact Or.inl ⟨hx, (by rw [hx]; rfl), fun tr => by simp [bare, hu']⟩
  | drop => exact Or.inl ⟨rfl, rfl, fun tr => by simp [bare]⟩
  | enter _ => exact Or.inl ⟨rfl, rfl, fun tr => by simp [bare]⟩
  | leave => exact Or.inl ⟨rfl, rfl, fun tr => by simp [bare]⟩
  | @api d _ x h3 h4 h5 h6 =>
    have hx : touches cfg.d.m x = false := by
      cases hx : touches cfg.d.m x with
      | false => rfl
      | true =>
        have := (hu hx).2
        cases x <;> first | (cases hx; done) | (simp [touches] at hx; simp [meddles, hx] at this)
        all_goals
          subst this; cases h6
    exact Or.inl ⟨hx, (by rw [hx]; rfl), fun tr => by rw [bare_skip tr h3 h4 h5]; simp⟩
  | @user _ x h3 _ =>
    have hx : touches cfg.d.m x = false := by
      cases hx : touches cfg.d.m x with
      | false => rfl
      | true =>
        have := (hu hx).2
        cases x <;> first | (cases h3; done) | (cases hx; done) | (simp [touches] at hx; simp [meddles, hx] at this)
    refine Or.inl ⟨hx, (by rw [hx]; rfl), fun tr => ?_⟩
    rw [bare_skip tr (by rintro s m rfl; cases h3) (by rintro s rfl; cases h3) (by rintro s r rfl; cases h3)]
    simp [h3]
  | @own _ x _ h3 h4 h5 h6 h7 =>
    exact Or.inr ⟨x, rfl, rfl, rfl, h7, fun tr => by rw [bare_skip tr h3 h4 h5]; simp [h6]⟩

/-- Processing an event, over a piece of history in which it is not finished. -/
theorem prog_run (hplan : ∀ x, Item.thr x ∈ plan → plan = [.thr .npe]) {tr : List (Tid × Obs)} {g g' : G} {os : List Obs}
    (hun : Undisturbed t cfg.d.m tr)
    (hnd : ∀ m ev, (t, Obs.done m ev) ∉ tr) (h : Prog1 cfg.d.m ev plan g.mem g.mode os) (hr : run cfg t g tr = some g') :
    Prog1 cfg.d.m ev plan g'.mem g'.mode (os ++ bare t g.depth tr) := by
  induction tr generalizing g os with
  | nil => cases hr; simpa [bare] using h
  | cons e tr ih =>
    obtain ⟨g1, h1, h2⟩ := mon_cons hr
    obtain ⟨mem, d, md⟩ := g
    obtain ⟨mem1, d1, md1⟩ := g1
    obtain ⟨hm, hs⟩ := mstep_of h1
    simp only at hm hs
    have hun' : Undisturbed t cfg.d.m tr := fun e he => hun e (List.mem_cons_of_mem _ he)
    have hnd' : ∀ m ev, (t, Obs.done m ev) ∉ tr := fun m ev he => hnd m ev (List.mem_cons_of_mem _ he)
    rcases undist_step (hun e List.mem_cons_self) hs with ⟨hx, rfl, hb⟩ | ⟨x, rfl, rfl, rfl, ho, hb⟩
    · rw [step_touch hx] at hm
      subst hm
      rw [hb tr]
      exact ih (g := ⟨mem1, d1, md1⟩) hun' hnd' h h2
    · rcases prog_own hplan h ho with ⟨m', ev', rfl, _⟩ | ⟨_, h8⟩
      · exact absurd List.mem_cons_self (hnd m' ev')
      · rw [← hm] at h8
        have := ih hun' hnd' h8 h2
        rw [hb tr]
        simpa using this

/-- The state of the machine changes only through what its worker does itself. -/
theorem bare_mem {tr : List (Tid × Obs)} {g g' : G} (hun : Undisturbed t cfg.d.m tr) (hr : run cfg t g tr = some g') :
    g'.mem = (bare t g.depth tr).foldl (Mem.step cfg.d.m) g.mem := by
  induction tr generalizing g with
  | nil => cases hr; rfl
  | cons e tr ih =>
    obtain ⟨g1, h1, h2⟩ := mon_cons hr
    obtain ⟨mem, d, md⟩ := g
    obtain ⟨mem1, d1, md1⟩ := g1
    obtain ⟨hm, hs⟩ := mstep_of h1
    simp only at hm hs
    have := ih (fun e he => hun e (List.mem_cons_of_mem _ he)) h2
    rcases undist_step (hun e List.mem_cons_self) hs with ⟨hx, rfl, hb⟩ | ⟨x, rfl, rfl, rfl, ho, hb⟩
    · rw [step_touch hx] at hm
      subst hm
      rw [this, ← hb tr]
    · rw [this, hb tr, hm]; rfl

theorem behaves_of_prog (hplan : ∀ x, Item.thr x ∈ plan → plan = [.thr .npe]) (h : Prog1 cfg.d.m ev plan mem md os) :
    ∃ rest r, Behaves cfg.d.m ev plan (os ++ rest) r := by
  have hdone : ∀ {e pl os}, Done cfg.d.m plan e pl os → ∃ rest r, Behaves cfg.d.m ev plan (os ++ rest) r := by
    rintro e pl os ⟨h1, p, h2, h3⟩
    by_cases ht : ∃ x, Item.thr x ∈ plan
    · obtain ⟨x, hx⟩ := ht
      have hp := hplan x hx
      have : os = [] := by rw [hp] at h1; simp [shows] at h1; exact h1.1
      subst this
      exact ⟨_, none, .lost hp⟩
    · refine ⟨shows cfg.d.m e pl, none, ?_⟩
      rw [h1]
      exact .completed (fun x hx => ht ⟨x, hx⟩)
  cases md with
  | idle => exact h.elim
  | dying x => exact h.elim
  | busy ev' pl off => exact hdone h.2.2
  | inCb ev' c pl off =>
    obtain ⟨_, _, _, hd⟩ := h
    obtain ⟨rest, r, hb⟩ := hdone hd
    exact ⟨.cbRet c none :: rest, r, by simpa using hb⟩
  | thrown ev' x =>
    obtain ⟨rfl, a, b, c, rfl, hs⟩ := h
    by_cases hx : x.isException = true
    · refine ⟨[.cb (.flowEx cfg.d.m ev' x), .cbRet (.flowEx cfg.d.m ev' x) none], none, ?_⟩
      have := Behaves.failed (m := cfg.d.m) (ev := ev') (r := none) hs hx
      simpa using this
    · exact ⟨[], some x, by simpa using Behaves.killed hs (by simpa using hx)⟩
  | flow ev' x => exact ⟨_, none, h.2 none⟩
  | over ev' r => exact ⟨[], r, by simpa using h.2⟩

end

/-! ### Which event is in processing -/

def Mode.ev : Mode → Option Ev
  | .busy ev .. | .inCb ev .. | .thrown ev _ | .flow ev _ | .over ev _ => some ev
  | .idle | .dying _ => none

theorem disturbIf_ev (b : Bool) (md : Mode) : Mode.ev (disturbIf b md) = Mode.ev md := by
  cases b <;> cases md <;> rfl

section
variable {cfg : Cfg} {t : Tid} {mem : Mem} {md md' : Mode}

/-- Does the callback belong to the processing of `ev` in machine `m`? -/
def cbFor (m : MId) (ev : Ev) : Cb → Prop
  | .flowEx m' ev' _ => m' = m ∧ ev' = ev
  | c => Spec.Calls.cbMach c = some m ∧ cbEv c = some ev

/-- The remaining callbacks concern the event. -/
def ModeOk (m : MId) : Mode → Prop
  | .busy ev pl _ => ∀ c, Item.cb c ∈ pl → cbFor m ev c
  | .inCb ev c pl _ => cbFor m ev c ∧ ∀ c, Item.cb c ∈ pl → cbFor m ev c
  | _ => True

theorem planNow_cb {d : Desc} {ev : Ev} {c : Cb} (h : Item.cb c ∈ planNow d mem ev) :
    Spec.Calls.cbMach c = some d.m ∧ cbEv c = some ev := by
  unfold planNow at h
  split at h
  · cases h
  · have ha : ∀ k s n, Item.cb c ∈ d.actions k s ev 0 n → (Spec.Calls.cbMach c = some d.m ∧ cbEv c = some ev) := by
      intro k s n h
      simp only [Desc.actions, List.mem_map] at h
      obtain ⟨j, _, hj⟩ := h
      cases hj
      exact ⟨rfl, rfl⟩
    have hn : ∀ b c', (Spec.Calls.cbMach c' = some d.m ∧ cbEv c' = some ev) → Item.cb c ∈ Spec.note b c' → (Spec.Calls.cbMach c = some d.m ∧ cbEv c = some ev) := by
      intro b c' hc h
      cases b
      · cases h
      · simp [Spec.note] at h; rw [h]; exact hc
    have hb : ∀ a b, Spec.Calls.cbMach (.begin d.m a ev b) = some d.m ∧ cbEv (.begin d.m a ev b) = some ev := fun _ _ => ⟨rfl, rfl⟩
    have he : ∀ a b, Spec.Calls.cbMach (.end_ d.m a ev b) = some d.m ∧ cbEv (.end_ d.m a ev b) = some ev := fun _ _ => ⟨rfl, rfl⟩
    unfold Desc.plan at h
    split at h
    · split at h
      · simp at h; rw [h]; exact ⟨rfl, rfl⟩
      · split at h
        · rcases List.mem_append.1 h with h | h
          · exact hn _ _ (hb _ _) h
          · exact hn _ _ (he _ _) h
        · simp only [List.mem_append] at h
          rcases h with ((((h | h) | h) | h) | h) | h
          · exact hn _ _ (hb _ _) h
          · exact ha _ _ _ h
          · simp at h
          · exact ha _ _ _ h
          · exact hn _ _ (he _ _) h
          · split at h <;> simp at h
    · simp at h

theorem planNow_for {d : Desc} {ev : Ev} {c : Cb} (h : Item.cb c ∈ planNow d mem ev) : cbFor d.m ev c := by
  have := planNow_cb h
  cases c <;> first | exact this | (cases this.1; done)

theorem modeOk_disturb {m : MId} {b : Bool} (h : ModeOk m md) : ModeOk m (disturbIf b md) := by
  cases b with
  | false => exact h
  | true =>
    cases md with
    | busy ev pl off =>
      intro c hc
      cases pl with
      | nil => cases hc
      | cons it pl => cases it <;> simp [trim] at hc
    | inCb ev c pl off => exact ⟨h.1, fun c hc => by cases hc⟩
    | _ => trivial

/-- Steps of event processing: `taken` needs an idle thread, everything else about the machine needs an event. -/
theorem own_ev {x : Obs} (hok : ModeOk cfg.d.m md) (h : own cfg mem md x = some md') :
    ModeOk cfg.d.m md' ∧ match x with
    | .taken q m ev => (md = .idle) ∧ (q = cfg.q ↔ m = cfg.d.m) ∧
        md' = (if m = cfg.d.m then .busy ev (planNow cfg.d mem ev) false else .idle)
    | .done m ev => (m = cfg.d.m ∧ Mode.ev md = some ev ∧ Mode.ev md' = none) ∨ (m ≠ cfg.d.m ∧ md = .idle ∧ md' = .idle)
    | .cb c => Mode.ev md' = Mode.ev md ∧ (concerns cfg.d.m x = false ∨ ∃ ev, Mode.ev md = some ev ∧ cbFor cfg.d.m ev c)
    | x => Mode.ev md' = Mode.ev md ∧ (concerns cfg.d.m x = true → (Mode.ev md).isSome = true) := by
  have htail : ∀ {ev : Ev} {pl : List Item}, (∀ c, Item.cb c ∈ pl → cbFor cfg.d.m ev c) → ∀ c, Item.cb c ∈ pl.tail → cbFor cfg.d.m ev c :=
    fun h c hc => h c (List.mem_of_mem_tail hc)
  cases md with
  | idle =>
    cases x with
    | taken q m ev =>
      simp only [own] at h
      split at h
      · rename_i hc; cases h; exact ⟨fun c hc => planNow_for hc, rfl, by simp [hc], by simp [hc]⟩
      · split at h
        · cases h
        · rename_i hc; cases h
          simp only [not_or] at hc
          exact ⟨trivial, rfl, by simp [hc], by simp [hc]⟩
    | done m ev =>
      simp only [own] at h
      split at h
      · cases h
      · rename_i hc; cases h
        exact ⟨trivial, Or.inr ⟨(by simpa [concerns] using hc), rfl, rfl⟩⟩
    | cb c =>
      simp only [own] at h
      split at h
      · cases h
      · rename_i hc; cases h
        exact ⟨trivial, rfl, Or.inl (by simpa using hc)⟩
    | _ =>
      simp only [own] at h
      split at h
      · cases h
      · rename_i hc; cases h
        exact ⟨trivial, rfl, fun hc' => absurd hc' hc⟩
  | busy ev pl off =>
    cases x with
    | cb c =>
      by_cases hf : ∃ m' ev'' y, c = .flowEx m' ev'' y
      · obtain ⟨m', ev'', y, rfl⟩ := hf
        simp only [own] at h
        split at h
        · rename_i hc
          cases h
          exact ⟨trivial, rfl, Or.inr ⟨ev, rfl, hc.1, hc.2.1⟩⟩
        · cases h
      · have h3 : own cfg mem (.busy ev pl off) (.cb c) =
            if pl.head? = some (.cb c) ∨ (off ∧ pl = [] ∧ Spec.Calls.cbMach c = some cfg.d.m ∧ cbEv c = some ev) then
              some (.inCb ev c pl.tail off) else none := by
          cases c <;> first | rfl | exact absurd ⟨_, _, _, rfl⟩ hf
        rw [h3] at h
        split at h
        · rename_i hc
          cases h
          have hcf : cbFor cfg.d.m ev c := by
            rcases hc with hc | ⟨_, _, h4, h5⟩
            · exact hok c (List.mem_of_mem_head? hc)
            · cases c <;> first | exact ⟨h4, h5⟩ | exact absurd ⟨_, _, _, rfl⟩ hf
          exact ⟨⟨hcf, htail hok⟩, rfl, Or.inr ⟨ev, rfl, hcf⟩⟩
        · cases h
    | upd m s b api =>
      simp only [own] at h
      split at h
      · cases h; exact ⟨htail hok, rfl, fun _ => rfl⟩
      · split at h
        · cases h; exact ⟨(by intro c hc; simp at hc), rfl, fun _ => rfl⟩
        · cases h
    | cur m s api =>
      simp only [own] at h
      split at h
      · cases h; exact ⟨htail hok, rfl, fun _ => rfl⟩
      · cases h
    | done m ev' =>
      simp only [own] at h
      split at h
      · rename_i hc; cases h; exact ⟨trivial, Or.inl ⟨hc.1, (by rw [hc.2.1]; rfl), rfl⟩⟩
      · cases h
    | _ => cases h
  | inCb ev c pl off =>
    cases x with
    | cbRet c' r =>
      simp only [own] at h
      split at h
      · cases r with
        | none => cases h; exact ⟨hok.2, rfl, fun _ => rfl⟩
        | some y => cases h; exact ⟨trivial, rfl, fun _ => rfl⟩
      · cases h
    | _ => cases h
  | thrown ev x' =>
    cases x with
    | cb c =>
      cases c with
      | flowEx m' ev'' y' =>
        simp only [own] at h
        split at h
        · rename_i hc; cases h; exact ⟨trivial, rfl, Or.inr ⟨ev, rfl, hc.1, hc.2.1⟩⟩
        · cases h
      | _ => cases h
    | done m ev' =>
      simp only [own] at h
      split at h
      · rename_i hc; cases h; exact ⟨trivial, Or.inl ⟨hc.1, (by rw [hc.2.1]; rfl), rfl⟩⟩
      · cases h
    | _ => cases h
  | flow ev x' =>
    cases x with
    | cbRet c' r =>
      simp only [own] at h
      split at h
      · cases h; exact ⟨trivial, rfl, fun _ => rfl⟩
      · cases h
    | _ => cases h
  | over ev r =>
    cases x with
    | done m ev' =>
      simp only [own] at h
      split at h
      · rename_i hc
        refine ⟨(by cases r <;> cases h <;> trivial), Or.inl ⟨hc.1, (by rw [hc.2]; rfl), ?_⟩⟩
        cases r <;> cases h <;> rfl
      · cases h
    | _ => cases h
  | dying x' =>
    cases x with
    | uncaught y =>
      simp only [own] at h
      split at h
      · cases h; exact ⟨trivial, rfl, fun h => by cases h⟩
      · cases h
    | _ => cases h

theorem mstep_open {d d1 : Nat} {e : Tid × Obs} (hok : ModeOk cfg.d.m md) (hs : MStep cfg t mem d md e d1 md') :
    ModeOk cfg.d.m md' ∧ Mode.ev md' = openStep t cfg.d.m (Mode.ev md) e ∧ d1 = depthStep t d e := by
  have hq : ∀ {x : Obs} {r : Option Ev}, (∀ q m ev, x ≠ .taken q m ev) → (∀ m ev, x ≠ .done m ev) →
      openStep t cfg.d.m r (t, x) = r := by
    intro x r h1 h2
    cases x <;> first | rfl | exact absurd rfl (h1 _ _ _) | exact absurd rfl (h2 _ _)
  have hd : ∀ {x : Obs} {d : Nat}, (∀ k, x ≠ .enter k) → (∀ k r, x ≠ .leave k r) → d = depthStep t d (t, x) := by
    intro x d h1 h2
    cases x <;> first | rfl | exact absurd rfl (h1 _) | exact absurd rfl (h2 _ _)
  cases hs with
  | @other _ _ u x hu' =>
    refine ⟨modeOk_disturb hok, ?_, ?_⟩
    · rw [disturbIf_ev]
      cases x <;> first | rfl | simp [openStep, hu']
    · cases x <;> first | rfl | simp [depthStep, hu']
  | drop => exact ⟨hok, rfl, rfl⟩
  | enter _ => exact ⟨hok, rfl, by simp [depthStep]⟩
  | leave => exact ⟨hok, rfl, by simp [depthStep]⟩
  | @api d _ x h3 h4 h5 h6 =>
    refine ⟨modeOk_disturb hok, ?_, hd h4 h5⟩
    rw [disturbIf_ev, hq]
    · rintro q m ev rfl; cases h6
    · rintro q m rfl; cases h6
  | @user _ x h3 _ =>
    refine ⟨modeOk_disturb hok, ?_, ?_⟩
    · rw [disturbIf_ev, hq]
      · rintro q m ev rfl; cases h3
      · rintro q m rfl; cases h3
    · refine hd ?_ ?_
      · rintro k rfl; cases h3
      · rintro k r rfl; cases h3
  | @own _ x _ h3 h4 h5 h6 h7 =>
    obtain ⟨h8, h9⟩ := own_ev hok h7
    refine ⟨h8, ?_, hd h4 h5⟩
    cases x with
    | taken q m ev =>
      obtain ⟨rfl, _, rfl⟩ := h9
      by_cases hm : m = cfg.d.m <;> simp [openStep, hm, Mode.ev]
    | done m ev =>
      rcases h9 with ⟨rfl, _, h9⟩ | ⟨hm, rfl, rfl⟩
      · simp [openStep, h9]
      · simp [openStep, hm]
    | _ => exact h9.1

theorem run_open {g g' : G} {tr : List (Tid × Obs)} (hok : ModeOk cfg.d.m g.mode) (hr : run cfg t g tr = some g') :
    ModeOk cfg.d.m g'.mode ∧ Mode.ev g'.mode = tr.foldl (openStep t cfg.d.m) (Mode.ev g.mode) ∧
      g'.depth = tr.foldl (depthStep t) g.depth := by
  induction tr generalizing g with
  | nil => cases hr; exact ⟨hok, rfl, rfl⟩
  | cons e tr ih =>
    obtain ⟨g1, h1, h2⟩ := mon_cons hr
    obtain ⟨h3, h4, h5⟩ := mstep_open hok (mstep_of (mem := g.mem) (d := g.depth) (md := g.mode) h1).2
    obtain ⟨h6, h7, h8⟩ := ih h3 h2
    exact ⟨h6, by rw [h7, h4]; rfl, by rw [h8, h5]; rfl⟩

/-- Taking an event of the machine. -/
theorem step_taken {g g' : G} {q : QId} {ev : Ev} (h : Spec.Mon.step cfg t g (t, .taken q cfg.d.m ev) = some g') :
    g.depth = 0 ∧ g.mode = .idle ∧ q = cfg.q ∧ g' = ⟨g.mem, 0, .busy ev (planNow cfg.d g.mem ev) false⟩ := by
  obtain ⟨mem, d, md⟩ := g
  obtain ⟨mem', d', md'⟩ := g'
  obtain ⟨h1, h2⟩ := mstep_of h
  generalize he : (t, Obs.taken q cfg.d.m ev) = e at h2
  simp only at h1 h2
  cases h2 with
  | other hu => cases he; exact absurd rfl hu
  | drop => cases he
  | enter _ => cases he
  | leave => cases he
  | api _ _ _ h3 => cases he; cases h3
  | user h3 => cases he; cases h3
  | @own md x md' h3 h4 h5 h6 h7 =>
    cases he
    cases md with
    | idle =>
      simp only [own] at h7
      split at h7
      · rename_i hc; cases h7; subst h1; exact ⟨rfl, rfl, hc.1, rfl⟩
      · split at h7
        · cases h7
        · rename_i hc; simp at hc
    | _ => cases h7

/-- A thread which takes no event of the machine does nothing to it, except in API calls. -/
theorem run_idle {g g' : G} {tr : List (Tid × Obs)} (hg : g.mode = .idle) (hnt : ∀ q ev, (t, Obs.taken q cfg.d.m ev) ∉ tr)
    (hr : run cfg t g tr = some g') :
    g'.mode = .idle ∧ (∀ x, (t, x) ∈ tr → touches cfg.d.m x = true → meddles cfg.d.m x = true) ∧
      ∀ x ∈ bare t g.depth tr, concerns cfg.d.m x = false := by
  induction tr generalizing g with
  | nil => cases hr; exact ⟨hg, (by simp), (by simp [bare])⟩
  | cons e tr ih =>
    obtain ⟨g1, h1, h2⟩ := mon_cons hr
    have hnt' : ∀ q ev, (t, Obs.taken q cfg.d.m ev) ∉ tr := fun q ev h => hnt q ev (List.mem_cons_of_mem _ h)
    obtain ⟨mem, d, md⟩ := g
    obtain ⟨mem1, d1, md1⟩ := g1
    obtain ⟨_, hs⟩ := mstep_of h1
    simp only at hg hs
    subst hg
    have key : md1 = .idle ∧ (e.1 = t → touches cfg.d.m e.2 = true → meddles cfg.d.m e.2 = true) ∧
        (bare t d (e :: tr) = bare t d1 tr ∨ ∃ x, bare t d (e :: tr) = x :: bare t d1 tr ∧ concerns cfg.d.m x = false) := by
      cases hs with
      | @other _ _ u x hu => exact ⟨(by cases touches cfg.d.m x <;> rfl), fun h => absurd h hu, Or.inl (by simp [bare, hu])⟩
      | drop => exact ⟨rfl, (fun _ h => by cases h), Or.inl (by simp [bare])⟩
      | enter _ => exact ⟨rfl, (fun _ h => by cases h), Or.inl (by simp [bare])⟩
      | leave => exact ⟨rfl, (fun _ h => by cases h), Or.inl (by simp [bare])⟩
      | @api d _ x h3 h4 h5 h6 =>
        refine ⟨(by cases touches cfg.d.m x <;> rfl), fun _ h => ?_, Or.inl (by rw [bare_skip tr h3 h4 h5]; simp)⟩
        cases x <;> first | (cases h; done) | (simp [touches] at h; simp [onlyDrain] at h6; simp [meddles, h, h6]) | (simp [touches] at h; simp [meddles, h])
      | @user _ x h3 _ =>
        refine ⟨(by cases touches cfg.d.m x <;> rfl), fun _ h => ?_, Or.inl ?_⟩
        · cases x <;> first | (cases h3; done) | (cases h; done) | (simp [touches] at h; simp [meddles, h])
        · rw [bare_skip tr (by rintro s m rfl; cases h3) (by rintro s rfl; cases h3) (by rintro s r rfl; cases h3)]
          simp [h3]
      | @own _ x _ h3 h4 h5 h6 h7 =>
        have hx : concerns cfg.d.m x = false ∧ md1 = .idle := by
          cases x with
          | taken q m ev =>
            have := (own_ev (md := .idle) trivial h7).2
            simp only at this
            refine ⟨rfl, ?_⟩
            rw [this.2.2, if_neg]
            rintro rfl
            exact hnt q ev List.mem_cons_self
          | _ =>
            simp only [own] at h7
            split at h7
            · cases h7
            · rename_i hc; cases h7; exact ⟨by simpa using hc, rfl⟩
        refine ⟨hx.2, fun _ h => ?_, Or.inr ⟨x, by rw [bare_skip tr h3 h4 h5]; simp [h6], hx.1⟩⟩
        have hx := hx.1
        cases x <;> first | (cases h; done) | (simp [touches] at h; simp [concerns, h] at hx; done) | (simp [touches] at h; simp [meddles, h])
    obtain ⟨h3, h4, h5⟩ := key
    obtain ⟨h6, h7, h8⟩ := ih h3 hnt' h2
    refine ⟨h6, ?_, ?_⟩
    · intro x hx
      rcases List.mem_cons.1 hx with hx | hx
      · subst hx; exact h4 rfl
      · exact h7 x hx
    · rcases h5 with h5 | ⟨x, h5, hx⟩
      · rw [h5]; exact h8
      · rw [h5]
        intro y hy
        rcases List.mem_cons.1 hy with rfl | hy
        · exact hx
        · exact h8 y hy

end

end Verif
