import Verif.Props.Config
import Verif.Props.Events
import Verif.Demo.App
/-
C41, C47: the state machine of an app.
-/

namespace Verif
open Spec (Dsl Outcome usableState usableEvent)

/-- A clause `when(s).receives(e)` and its outcome; `none`: `itEnds()`. -/
abbrev Clause := St × Ev × Option St

def Clause.outcome (c : Clause) : CfgCall := match c.2.2 with
  | some t => .itTransitionsTo (some t)
  | none => .itEnds

def Clause.means (c : Clause) : Outcome := match c.2.2 with
  | some t => .goesTo t
  | none => .ends

def Clause.calls (c : Clause) : List CfgCall := [.when_ (some c.1), .receives (some c.2.1), c.outcome]

def Clause.Usable (c : Clause) : Prop := usableState c.1 ∧ usableEvent c.2.1 ∧ ∀ t, c.2.2 = some t → usableState t

/-- All calls are accepted, one after the other. -/
def Accepts : Dsl → List CfgCall → Dsl → Prop
  | d, [], d' => d = d'
  | d, k :: ks, d' => ∃ d1, d.step k = some d1 ∧ Accepts d1 ks d'

theorem Accepts.append {d d1 d2 : Dsl} {ks ks' : List CfgCall} (h : Accepts d ks d1) (h' : Accepts d1 ks' d2) :
    Accepts d (ks ++ ks') d2 := by
  induction ks generalizing d with
  | nil => cases h; exact h'
  | cons k ks ih => obtain ⟨d3, h1, h2⟩ := h; exact ⟨d3, h1, ih h2⟩

theorem Accepts.run {d d' : Dsl} {ks : List CfgCall} (h : Accepts d ks d') : Dsl.run d ks = d' := by
  induction ks generalizing d with
  | nil => exact h
  | cons k ks ih =>
    obtain ⟨d3, h1, h2⟩ := h
    have : Dsl.run d (k :: ks) = Dsl.run d3 ks := by simp [Dsl.run, h1]
    rw [this]; exact ih h2

theorem Accepts.split {d d' : Dsl} {ks ks' : List CfgCall} (h : Accepts d (ks ++ ks') d') :
    ∃ d1, Accepts d ks d1 ∧ Accepts d1 ks' d' := by
  induction ks generalizing d with
  | nil => exact ⟨d, rfl, h⟩
  | cons k ks ih =>
    obtain ⟨d3, h1, h2⟩ := h
    obtain ⟨d4, h3, h4⟩ := ih h2
    exact ⟨d4, ⟨d3, h1, h3⟩, h4⟩

/-- The clause `c` on top of what is configured already. -/
def over (tr : String → Option EvKey → Option Outcome) (c : Clause) : String → Option EvKey → Option Outcome :=
  fun s k => if s = c.1.name ∧ k = some c.2.1.key then some c.means else tr s k

theorem accepts_tail {s : String} {tr : String → Option EvKey → Option Outcome} {c : Clause} (hc : c.Usable) (hs : c.1.name = s) :
    Accepts ⟨.on s, tr⟩ [.receives (some c.2.1), c.outcome] ⟨.closed, over tr c⟩ := by
  obtain ⟨x, e, o⟩ := c
  obtain ⟨-, h2, h3⟩ := hc
  subst hs
  refine ⟨_, by simp only [Dsl.step, if_pos h2]; rfl, ?_⟩
  cases o with
  | none =>
    refine ⟨_, rfl, ?_⟩
    simp only [Dsl.set, Accepts]
    congr 1
    funext s k
    by_cases h : s = x.name ∧ k = some e.key <;> simp [over, Clause.means, h]
  | some t =>
    have h3 := h3 t rfl
    refine ⟨_, by simp only [Clause.outcome, Dsl.step]; rw [if_pos h3]; rfl, ?_⟩
    simp only [Dsl.set, Accepts]
    congr 1
    funext s k
    by_cases h : s = x.name ∧ k = some e.key <;> simp [over, Clause.means, h]

theorem accepts_clauses {tr : String → Option EvKey → Option Outcome} {l : List Clause} (h : ∀ c ∈ l, c.Usable) :
    Accepts ⟨.closed, tr⟩ (l.flatMap Clause.calls) ⟨.closed, l.foldl over tr⟩ := by
  induction l generalizing tr with
  | nil => rfl
  | cons c l ih =>
    have hc := h c (List.mem_cons_self ..)
    refine Accepts.append (d1 := ⟨.closed, over tr c⟩) ?_ (ih fun c' hc' => h c' (List.mem_cons_of_mem _ hc'))
    exact ⟨⟨.on c.1.name, tr⟩, by simp [Dsl.step, hc.1], accepts_tail hc rfl⟩

theorem fold_over {l : List Clause} {tr : String → Option EvKey → Option Outcome}
    (hd : (l.map fun c => (c.1.name, c.2.1.key)).Nodup) (s : String) (k : Option EvKey) (o : Outcome) :
    l.foldl over tr s k = some o ↔
      (∃ c ∈ l, c.1.name = s ∧ some c.2.1.key = k ∧ c.means = o) ∨
      ((∀ c ∈ l, ¬ (c.1.name = s ∧ some c.2.1.key = k)) ∧ tr s k = some o) := by
  induction l generalizing tr with
  | nil => simp
  | cons c l ih =>
    simp only [List.map_cons, List.nodup_cons] at hd
    obtain ⟨h1, h2⟩ := hd
    rw [List.foldl_cons, ih h2]
    simp only [over]
    by_cases hc : s = c.1.name ∧ k = some c.2.1.key
    · have hn : ∀ c' ∈ l, ¬ (c'.1.name = s ∧ some c'.2.1.key = k) := by
        rintro c' hm ⟨h3, h4⟩
        refine h1 (List.mem_map.2 ⟨c', hm, ?_⟩)
        rw [h3, hc.1]
        rw [hc.2] at h4
        rw [Option.some.inj h4]
      rw [if_pos hc]
      constructor
      · rintro (⟨c', hm, h3, h4, -⟩ | ⟨-, h3⟩)
        · exact absurd ⟨h3, h4⟩ (hn c' hm)
        · exact Or.inl ⟨c, List.mem_cons_self .., hc.1.symm, hc.2.symm, Option.some.inj h3⟩
      · rintro (⟨c', hm, h3, h4, h5⟩ | ⟨h3, -⟩)
        · rcases List.mem_cons.1 hm with rfl | hm
          · exact Or.inr ⟨hn, by rw [h5]⟩
          · exact absurd ⟨h3, h4⟩ (hn c' hm)
        · exact absurd ⟨hc.1.symm, hc.2.symm⟩ (h3 c (List.mem_cons_self ..))
    · rw [if_neg hc]
      have hc' : ¬ (c.1.name = s ∧ some c.2.1.key = k) := fun h => hc ⟨h.1.symm, h.2.symm⟩
      constructor
      · rintro (⟨c', hm, h3⟩ | ⟨h3, h4⟩)
        · exact Or.inl ⟨c', List.mem_cons_of_mem _ hm, h3⟩
        · refine Or.inr ⟨fun c' hm => ?_, h4⟩
          rcases List.mem_cons.1 hm with rfl | hm
          · exact hc'
          · exact h3 c' hm
      · rintro (⟨c', hm, h3⟩ | ⟨h3, h4⟩)
        · rcases List.mem_cons.1 hm with rfl | hm
          · exact absurd ⟨h3.1, h3.2.1⟩ hc'
          · exact Or.inl ⟨c', hm, h3⟩
        · exact Or.inr ⟨fun c' hm => h3 c' (List.mem_cons_of_mem _ hm), h4⟩

/-- The documented transitions of an app. -/
def lifecycle (uninitialised starting started stopping stopped : St) : List Clause :=
  [(uninitialised, evtStart, some starting),
   (starting, evtComplete, some started),
   (starting, evtError, some stopped),
   (started, evtStop, some stopping),
   (started, evtError, some stopped),
   (stopping, evtComplete, some stopped),
   (stopping, evtError, some stopped),
   (stopped, evtStart, some starting),
   (stopped, evtStop, none)]

section
variable {u s1 s2 s3 s4 : St}

theorem lifecycle_accepts (hu : ∀ s ∈ [u, s1, s2, s3, s4], usableState s) :
    Accepts .empty (lifecycleCalls u s1 s2 s3 s4) ⟨.closed, (lifecycle u s1 s2 s3 s4).foldl over fun _ _ => none⟩ := by
  have hu' : ∀ c ∈ lifecycle u s1 s2 s3 s4, c.Usable := by
    have he : usableEvent evtStart ∧ usableEvent evtStop ∧ usableEvent evtComplete ∧ usableEvent evtError := by decide +kernel
    simp only [List.mem_cons, List.not_mem_nil, or_false, forall_eq_or_imp, forall_eq] at hu
    intro c hc
    simp only [lifecycle, List.mem_cons, List.not_mem_nil, or_false] at hc
    rcases hc with rfl | rfl | rfl | rfl | rfl | rfl | rfl | rfl | rfl <;>
      (unfold Clause.Usable; simp_all)
  have hcalls : lifecycleCalls u s1 s2 s3 s4 = CfgCall.initialSate (some u) ::
      ([.receives (some evtStart), .itTransitionsTo (some s1)] ++ (lifecycle u s1 s2 s3 s4).tail.flatMap Clause.calls) := rfl
  rw [hcalls]
  refine ⟨⟨.on u.name, fun _ _ => none⟩, ?_, ?_⟩
  · simp [Dsl.step, Dsl.empty, hu u (by simp)]
  · exact (accepts_tail (hu' (u, evtStart, some s1) (by simp [lifecycle])) rfl).append
      (accepts_clauses fun c hc => hu' c (List.mem_of_mem_tail hc))

theorem lifecycle_nodup (hn : ([u, s1, s2, s3, s4].map (·.name)).Nodup) :
    ((lifecycle u s1 s2 s3 s4).map fun c => (c.1.name, c.2.1.key)).Nodup := by
  simp only [List.map_cons, List.map_nil, List.nodup_cons, List.mem_cons, List.not_mem_nil, or_false, not_or] at hn
  have hk : evtStart.key ≠ evtStop.key ∧ evtComplete.key ≠ evtError.key ∧ evtStop.key ≠ evtError.key := by decide +kernel
  obtain ⟨⟨h1, h2, h3, h4⟩, ⟨h5, h6, h7⟩, ⟨h8, h9⟩, h10, -⟩ := hn
  simp only [lifecycle, List.map_cons, List.map_nil, List.nodup_cons, List.mem_cons, List.not_mem_nil, or_false, not_or, Prod.mk.injEq, not_and]
  simp_all

variable (rs : Reserved)

/-- C41: for any five usable states with different names, every call of `configureAppStateMachine` is accepted, the machine has
the first state as initial state, is ready to be started, and has exactly the nine documented transitions. -/
theorem C41_lifecycle (hu : ∀ s ∈ [u, s1, s2, s3, s4], usableState s) (hn : ([u, s1, s2, s3, s4].map (·.name)).Nodup) :
    (∀ pre k post, lifecycleCalls u s1 s2 s3 s4 = pre ++ k :: post → k.throws rs (hist rs pre) = none) ∧
    (hist rs (lifecycleCalls u s1 s2 s3 s4)).init = some u ∧
    startChecks (hist rs (lifecycleCalls u s1 s2 s3 s4)).init (hist rs (lifecycleCalls u s1 s2 s3 s4)).table = none ∧
    ∀ s k t, leadsTo (hist rs (lifecycleCalls u s1 s2 s3 s4)) s k = some t ↔
      ∃ c ∈ lifecycle u s1 s2 s3 s4, c.1.name = s ∧ some c.2.1.key = k ∧ t = c.2.2.getD rs.endSt := by
  have hacc := lifecycle_accepts hu
  have hrun := hacc.run
  have hkeys := fold_over (tr := fun _ _ => none) (lifecycle_nodup hn)
  simp only [reduceCtorEq, and_false, or_false] at hkeys
  have hthr : ∀ pre k post, lifecycleCalls u s1 s2 s3 s4 = pre ++ k :: post → k.throws rs (hist rs pre) = none := by
    intro pre k post h
    rw [h] at hacc
    obtain ⟨d1, h1, d2, h2, -⟩ := hacc.split
    refine ((C08_grammar rs pre k).1).2 ?_
    rw [h1.run, h2]; rfl
  have hinit : initAccepted rs (lifecycleCalls u s1 s2 s3 s4) .empty :=
    Or.inl ⟨some u, rfl, hthr [] _ _ rfl⟩
  have habs := (C08_grammar rs (lifecycleCalls u s1 s2 s3 s4) .itEnds).2
  rw [hrun] at habs
  have hent : ∀ s k, ((hist rs (lifecycleCalls u s1 s2 s3 s4)).entry s k).map (absOutcome rs) =
      (lifecycle u s1 s2 s3 s4).foldl over (fun _ _ => none) s k := fun s k => congrFun (congrFun (congrArg Dsl.trans habs) s) k
  refine ⟨hthr, ?_, ?_, ?_⟩
  · have h1 : (hist rs [CfgCall.initialSate (some u)]).init = some u := by
      rcases init_changes_only_by_initialSate (CInv.empty rs) (.initialSate (some u)) with h | ⟨-, s, hs, -, h⟩
      · exact absurd h (by
          have := (initAccepted_iff [CfgCall.initialSate (some u)] (CInv.empty rs) rfl).1 (Or.inl ⟨some u, rfl, hthr [] _ _ rfl⟩)
          intro h; exact this (h.trans rfl))
      · cases hs; exact h
    exact (C01_initial_state_once rs [CfgCall.initialSate (some u)] u h1 (lifecycleCalls u s1 s2 s3 s4).tail).1
  · refine (C06_start_accepts_complete rs _).1.2 ⟨hinit, ?_⟩
    rintro ⟨s, k, h⟩
    rw [hrun] at h
    obtain ⟨c, -, -, -, h⟩ := (hkeys s k _).1 h
    unfold Clause.means at h
    split at h <;> cases h
  · intro s k t
    rw [leadsTo_eq]
    have hc := hkeys s k
    simp only [← hent] at hc
    have hus : ∀ c ∈ lifecycle u s1 s2 s3 s4, ∀ t, c.2.2 = some t → ¬ isRes t.name := by
      simp only [List.mem_cons, List.not_mem_nil, or_false, forall_eq_or_imp, forall_eq] at hu
      simp only [usable_iff] at hu
      intro c hc t ht
      simp only [lifecycle, List.mem_cons, List.not_mem_nil, or_false] at hc
      rcases hc with rfl | rfl | rfl | rfl | rfl | rfl | rfl | rfl | rfl <;> (cases ht; try simp_all)
    constructor
    · intro h
      have h1 : (hist rs (lifecycleCalls u s1 s2 s3 s4)).entry s k = some (some t) := by
        cases h2 : (hist rs (lifecycleCalls u s1 s2 s3 s4)).entry s k with
        | none => rw [h2] at h; cases h
        | some o => rw [h2] at h; cases o with
          | none => cases h
          | some t' => cases h; rfl
      obtain ⟨c, hm, h2, h3, h4⟩ := (hc (absOutcome rs (some t))).1 (by rw [h1]; rfl)
      refine ⟨c, hm, h2, h3, ?_⟩
      obtain ⟨x, e, o⟩ := c
      cases o with
      | none =>
        simp only [Clause.means, absOutcome] at h4
        split at h4
        next ht => exact ht
        · split at h4 <;> cases h4
      | some t' =>
        have := absOutcome_user (rs := rs) (hus _ hm t' rfl)
        simp only [Clause.means, absOutcome] at h4
        split at h4
        · cases h4
        · split at h4
          · cases h4
          · cases h4; rfl
    · rintro ⟨c, hm, h2, h3, rfl⟩
      have h1 := (hc c.means).2 ⟨c, hm, h2, h3, rfl⟩
      obtain ⟨o, h4, h5⟩ := Option.map_eq_some_iff.1 h1
      rw [h4]
      obtain ⟨x, e, o'⟩ := c
      cases o with
      | none => simp only [absOutcome, Clause.means] at h5; split at h5 <;> cases h5
      | some t =>
        show some t = _
        cases o' with
        | none =>
          simp only [Clause.means, absOutcome] at h5
          split at h5
          next ht => rw [ht]; rfl
          · split at h5 <;> cases h5
        | some t' =>
          simp only [Clause.means, absOutcome] at h5
          split at h5
          · cases h5
          · split at h5
            · cases h5
            · cases h5; rfl


/-- The five states of LifecycleStateMachineUtil meet the hypotheses. -/
def Demo.five : St × St × St × St × St :=
  (⟨STATE_UNINITIALISED, 1⟩, ⟨STATE_STARTING, 2⟩, ⟨STATE_STARTED, 3⟩, ⟨STATE_STOPPING, 4⟩, ⟨STATE_STOPPED, 5⟩)

example : leadsTo (hist Ex.rs (lifecycleCalls Demo.five.1 Demo.five.2.1 Demo.five.2.2.1 Demo.five.2.2.2.1 Demo.five.2.2.2.2)) "STARTED"
    (some evtError.key) = some Demo.five.2.2.2.2 :=
  ((C41_lifecycle (u := Demo.five.1) (s1 := Demo.five.2.1) (s2 := Demo.five.2.2.1) (s3 := Demo.five.2.2.2.1) (s4 := Demo.five.2.2.2.2) Ex.rs
    (by decide +kernel) (by decide +kernel)).2.2.2 _ _ _).2
    ⟨(Demo.five.2.2.1, evtError, some Demo.five.2.2.2.2), by decide +kernel, rfl, rfl, rfl⟩

end

/-! ### The machine of an app -/

namespace App
open Spec
variable {a : App} {env : Env}

/-- The transitions of the app's machine. -/
def clauses (a : App) : List Clause := lifecycle a.uninit a.starting a.started a.stopping a.stopped

/-- The states of the app's machine. -/
def states (a : App) : List St := [a.uninit, a.starting, a.started, a.stopping, a.stopped]

theorem Wired.usable (ha : a.Wired env) : ∀ s ∈ a.states, usableState s := by
  obtain ⟨h1, h2, h3, h4, h5⟩ := ha.names
  intro s hs
  simp only [states, List.mem_cons, List.not_mem_nil, or_false] at hs
  unfold usableState
  rcases hs with rfl | rfl | rfl | rfl | rfl <;> (simp only [h1, h2, h3, h4, h5]; decide +kernel)

theorem Wired.nodup (ha : a.Wired env) : (a.states.map (·.name)).Nodup := by
  obtain ⟨h1, h2, h3, h4, h5⟩ := ha.names
  simp only [states, List.map_cons, List.map_nil, h1, h2, h3, h4, h5]
  decide +kernel

theorem Wired.leads (ha : a.Wired env) (s : String) (k : Option EvKey) (t : St) :
    (((env.mach a.m).table.row? (some ⟨s, 0⟩)).bind fun r => r.target k) = some t ↔
      ∃ c ∈ a.clauses, c.1.name = s ∧ some c.2.1.key = k ∧ t = c.2.2.getD (env.mach a.m).res.endSt := by
  rw [ha.table]
  refine Iff.trans ?_ ((C41_lifecycle (env.mach a.m).res ha.usable ha.nodup).2.2.2 s k t)
  have : ∀ x : Option Row, ((x.bind fun r => r.target k) = some t) = ((match x with | none => none | some r => r.target k) = some t) := by
    intro x; cases x <;> rfl
  exact iff_of_eq (this _)

theorem Wired.row (ha : a.Wired env) {s : St} (hs : s ∈ a.states) : ∃ r, (env.mach a.m).table.row? (some s) = some r := by
  obtain ⟨c, hc, hn⟩ : ∃ c ∈ a.clauses, c.1 = s := by
    simp only [states, List.mem_cons, List.not_mem_nil, or_false] at hs
    rcases hs with rfl | rfl | rfl | rfl | rfl
    · exact ⟨_, List.mem_cons_self .., rfl⟩
    · exact ⟨_, .tail _ (.head _), rfl⟩
    · exact ⟨_, .tail _ (.tail _ (.tail _ (.head _))), rfl⟩
    · exact ⟨_, .tail _ (.tail _ (.tail _ (.tail _ (.tail _ (.head _))))), rfl⟩
    · exact ⟨_, .tail _ (.tail _ (.tail _ (.tail _ (.tail _ (.tail _ (.tail _ (.head _))))))), rfl⟩
  have := (ha.leads s.name (some c.2.1.key) _).2 ⟨c, hc, by rw [hn], rfl, rfl⟩
  obtain ⟨r, hr, -⟩ := Option.bind_eq_some_iff.1 this
  exact ⟨r, hr⟩

/-- Every event that has a transition in a state leads there. -/
theorem Wired.goes (ha : a.Wired env) {c : Clause} (hc : c ∈ a.clauses) {ev : Ev} (he : ev.key = c.2.1.key) :
    (env.desc a.m).reaction (some c.1) ev = .goes (c.2.2.getD (env.mach a.m).res.endSt) := by
  have := (ha.leads c.1.name (some ev.key) _).2 ⟨c, hc, rfl, by rw [he], rfl⟩
  obtain ⟨r, hr, ht⟩ := Option.bind_eq_some_iff.1 this
  have hr : (env.desc a.m).table.row? (some c.1) = some r := hr
  unfold Desc.reaction
  rw [hr]
  simp only [ht]
  rw [if_neg]
  have hu := ha.usable
  intro hno
  cases ht : c.2.2 with
  | none => rw [ht] at hno; exact absurd (show resEnd = resNoop from hno) (by decide +kernel)
  | some t =>
    have : t ∈ a.states := by
      simp only [clauses, lifecycle, List.mem_cons, List.not_mem_nil, or_false] at hc
      rcases hc with rfl | rfl | rfl | rfl | rfl | rfl | rfl | rfl | rfl <;> (cases ht; try simp [states])
    rw [ht] at hno
    exact (hu t this).2.2 hno

/-- Every other event is unmapped. -/
theorem Wired.unmappedIn (ha : a.Wired env) {s : St} (hs : s ∈ a.states) {ev : Ev}
    (hn : ∀ c ∈ a.clauses, c.1 = s → c.2.1.key ≠ ev.key) : (env.desc a.m).reaction (some s) ev = .unmapped := by
  obtain ⟨r, hr⟩ := ha.row hs
  have hr' : (env.desc a.m).table.row? (some s) = some r := hr
  unfold Desc.reaction
  rw [hr']
  cases ht : r.target (some ev.key) with
  | none => simp only [ht]
  | some t =>
    obtain ⟨c, hc, h1, h2, -⟩ := (ha.leads s.name (some ev.key) t).1 (by rw [show (env.mach a.m).table.row? (some ⟨s.name, 0⟩) = some r from hr]; exact ht)
    refine absurd (Option.some.inj h2) (hn c hc ?_)
    have hd := ha.nodup
    have hcs : c.1 ∈ a.states := by
      simp only [clauses, lifecycle, List.mem_cons, List.not_mem_nil, or_false] at hc
      rcases hc with rfl | rfl | rfl | rfl | rfl | rfl | rfl | rfl | rfl <;> simp [states]
    exact inj_of_nodup hd hcs hs h1
where
  inj_of_nodup {l : List St} (h : (l.map (·.name)).Nodup) {x y : St} (hx : x ∈ l) (hy : y ∈ l) (hxy : x.name = y.name) : x = y := by
    induction l with
    | nil => cases hx
    | cons z l ih =>
      rw [List.map_cons, List.nodup_cons] at h
      rcases List.mem_cons.1 hx with rfl | hx'
      · rcases List.mem_cons.1 hy with rfl | hy
        · rfl
        · exact absurd (List.mem_map.2 ⟨y, hy, hxy.symm⟩) h.1
      · rcases List.mem_cons.1 hy with rfl | hy
        · exact (h.1 (List.mem_map.2 ⟨x, hx', hxy⟩)).elim
        · exact ih h.2 hx' hy

/-- None of the five states is final. -/
theorem Wired.notFinal (ha : a.Wired env) {s : St} (hs : s ∈ a.states) : (env.desc a.m).final s = false := by
  obtain ⟨r, hr⟩ := ha.row hs
  unfold Desc.final
  rw [show (env.desc a.m).table.row? (some s) = some r from hr]
  simp only
  cases ht : r.target (some immKey) with
  | none => rfl
  | some t =>
    obtain ⟨c, hc, -, h2, -⟩ := (ha.leads s.name (some immKey) t).1 (by rw [show (env.mach a.m).table.row? (some ⟨s.name, 0⟩) = some r from hr]; exact ht)
    have : ∀ c ∈ a.clauses, c.2.1.key ≠ immKey := by
      have hk : evtStart.key ≠ immKey ∧ evtComplete.key ≠ immKey ∧ evtStop.key ≠ immKey ∧ evtError.key ≠ immKey := by decide +kernel
      intro c hc
      simp only [clauses, lifecycle, List.mem_cons, List.not_mem_nil, or_false] at hc
      rcases hc with rfl | rfl | rfl | rfl | rfl | rfl | rfl | rfl | rfl <;> first | exact hk.1 | exact hk.2.1 | exact hk.2.2.1 | exact hk.2.2.2
    exact absurd (Option.some.inj h2) (this c hc)

end App

section
open Spec Mon
variable {a : App} {env : Env} {c0 c : Conf} {t : Tid} {ev : Ev} {pre mid post : List (Tid × Obs)}

/-- C47, all transitions: an event that has a transition in the current state of an app leads to the state it should, and the
machine of the app ends exactly if that is `_END_`. This holds even if the app's actions, the end callback or the flow listener
throw; an exception of the begin callback of a listener prevents it. -/
theorem C47_step (ha : a.Wired env) (h : Processing env c0 c t a.m ev pre mid post) {k : Clause} (hk : k ∈ a.clauses)
    (hev : ev.key = k.2.1.key) (he : (machAt c0 a.m pre).ended = false) (hc : (machAt c0 a.m pre).cur = some k.1)
    (hb : ∀ s s' x, Obs.cbRet (.begin a.m s ev s') (some x) ∉ bare t 0 mid) (q : QId) :
    (machAt c0 a.m (pre ++ (t, .taken q a.m ev) :: mid)).st =
      ⟨some (k.2.2.getD (env.mach a.m).res.endSt), k.2.2 = none⟩ := by
  have hg := ha.goes hk hev
  obtain ⟨r, h1⟩ := C16_transition h he hc hg
  rw [h.state]
  have hks : k.1 ∈ a.states := by
    simp only [App.clauses, lifecycle, List.mem_cons, List.not_mem_nil, or_false] at hk
    rcases hk with rfl | rfl | rfl | rfl | rfl | rfl | rfl | rfl | rfl <;> simp [App.states]
  have hb' : (env.desc a.m).before (machAt c0 a.m pre).lst.isSome k.1 ev (k.2.2.getD (env.mach a.m).res.endSt) =
      if (machAt c0 a.m pre).lst.isSome then [.begin a.m k.1 ev (k.2.2.getD (env.mach a.m).res.endSt)] else [] := by
    have : (env.desc a.m).nacts .exit k.1.oid = 0 := by
      show (env.acts .exit k.1.oid).length = 0
      rw [ha.exit _ hks]; rfl
    unfold Desc.before
    rw [this]; simp; rfl
  have hend : ((k.2.2.getD (env.mach a.m).res.endSt).name == resEnd) = decide (k.2.2 = none) ∧
      ¬ ((env.desc a.m).final (k.2.2.getD (env.mach a.m).res.endSt) = true ∧ (k.2.2.getD (env.mach a.m).res.endSt).name ≠ resEnd) := by
    cases ht : k.2.2 with
    | none => exact ⟨rfl, fun h => h.2 rfl⟩
    | some s =>
      have hs : s ∈ a.states := by
        simp only [App.clauses, lifecycle, List.mem_cons, List.not_mem_nil, or_false] at hk
        rcases hk with rfl | rfl | rfl | rfl | rfl | rfl | rfl | rfl | rfl <;> (cases ht; try simp [App.states])
      refine ⟨?_, fun h => by rw [Option.getD_some, ha.notFinal hs] at h; cases h.1⟩
      have := (ha.usable s hs).1
      simp only [Option.getD_some, reduceCtorEq, decide_false, beq_eq_false_iff_ne]
      exact this
  generalize ho : bare t 0 mid = os at h1 hb
  cases h1 with
  | completed =>
    have := Transition.mem_completed (d := env.desc a.m) (lst := (machAt c0 a.m pre).lst.isSome) (a := k.1) (ev := ev)
      (b := k.2.2.getD (env.mach a.m).res.endSt) (machAt c0 a.m pre)
    rw [if_neg hend.2, hend.1, show (env.desc a.m).m = a.m from rfl] at this
    rw [this]; rfl
  | @failedBefore cs k' cs' x' os r hcs hrep =>
    rw [hb'] at hcs
    split at hcs
    · cases cs with
      | nil => cases hcs; exact absurd (by simp) (hb k.1 (k.2.2.getD (env.mach a.m).res.endSt) x')
      | cons _ cs => cases cs <;> cases hcs
    · cases cs <;> cases hcs
  | @failedAfter cs k' cs' x' os r hcs hrep =>
    rw [List.append_assoc, List.append_assoc, List.append_assoc, List.foldl_append, List.foldl_append]
    rw [step_cbs (m := a.m) (machAt c0 a.m pre) (quiet_shown (m := a.m)
      (cs := (env.desc a.m).before (machAt c0 a.m pre).lst.isSome k.1 ev (k.2.2.getD (env.mach a.m).res.endSt)))]
    have h2 := mem_change (d := env.desc a.m) (b := k.2.2.getD (env.mach a.m).res.endSt) (machAt c0 a.m pre)
    rw [show (env.desc a.m).m = a.m from rfl] at h2
    rw [h2]
    have h3 := mem_failed (ev := ev) (m := a.m) (cs := cs) (c := k')
      (mem := { machAt c0 a.m pre with cur := some (k.2.2.getD (env.mach a.m).res.endSt), ended := (k.2.2.getD (env.mach a.m).res.endSt).name == resEnd }) hrep
    rw [List.append_assoc] at h3
    have h3' := h3.trans rfl
    rw [show (env.desc a.m).m = a.m from rfl] at *
    rw [h3, hend.1]; rfl

/-- C47: an `error` event that is processed in STARTING, STARTED or STOPPING leads to STOPPED. -/
theorem C47_error_stops (ha : a.Wired env) (h : Processing env c0 c t a.m ev pre mid post) (hev : ev.key = evtError.key)
    (he : (machAt c0 a.m pre).ended = false) {s : St} (hc : (machAt c0 a.m pre).cur = some s)
    (hs : s = a.starting ∨ s = a.started ∨ s = a.stopping)
    (hb : ∀ s s' x, Obs.cbRet (.begin a.m s ev s') (some x) ∉ bare t 0 mid) (q : QId) :
    (machAt c0 a.m (pre ++ (t, .taken q a.m ev) :: mid)).st = ⟨some a.stopped, false⟩ := by
  have hk : (s, evtError, some a.stopped) ∈ a.clauses := by
    rcases hs with rfl | rfl | rfl <;> simp [App.clauses, lifecycle]
  exact C47_step ha h hk hev he hc hb q

/-- C47: in UNINITIALISED and STOPPED, an `error` event is ignored: the handler of unmapped events is called, and nothing
changes. -/
theorem C47_error_ignored (ha : a.Wired env) (h : Processing env c0 c t a.m ev pre mid post) (hev : ev.key = evtError.key)
    (he : (machAt c0 a.m pre).ended = false) {s : St} (hc : (machAt c0 a.m pre).cur = some s)
    (hs : s = a.uninit ∨ s = a.stopped) :
    (∃ r, Notify a.m ev [.unmapped a.m ev] (bare t 0 mid) r) ∧
    ∀ q, machAt c0 a.m (pre ++ (t, .taken q a.m ev) :: mid) = machAt c0 a.m pre := by
  refine C19_unmapped h he hc (ha.unmappedIn ?_ ?_)
  · rcases hs with rfl | rfl <;> simp [App.states]
  · have hd := ha.oids
    simp only [List.nodup_cons, List.mem_cons, List.not_mem_nil, or_false, not_or] at hd
    obtain ⟨⟨h1, h2, h3, h4⟩, ⟨h5, h6, h7⟩, ⟨h8, h9⟩, h10, -⟩ := hd
    have hkey : evtStart.key ≠ evtError.key ∧ evtStop.key ≠ evtError.key := by decide +kernel
    intro k hk hks
    rw [hev]
    simp only [App.clauses, lifecycle, List.mem_cons, List.not_mem_nil, or_false] at hk
    rcases hs with rfl | rfl <;> rcases hk with rfl | rfl | rfl | rfl | rfl | rfl | rfl | rfl | rfl <;>
      first
      | exact hkey.1
      | exact hkey.2
      | exact absurd (congrArg St.oid hks) (by first | exact h1 | exact h2 | exact h3 | exact h4 | exact Ne.symm h1 | exact Ne.symm h2 | exact Ne.symm h3 | exact Ne.symm h4 | exact h7 | exact h9 | exact h10)

/-! ### Examples -/

namespace Demo

/-- In the demo app whose second subsystem cannot be started, event `error` is processed in STARTING. -/
theorem p_error : Processing (appEnv (app true badSub)) appConf faulty w0 0 evtError (faulty.w.trace.take 25)
    ((faulty.w.trace.drop 26).take 9) (faulty.w.trace.drop 36) :=
  processing_of 25 9 (q := 0) (m' := 0) (ev' := evtError) (app_alone _) appConf_initial (drive_reach _ _ _) rfl (by decide +kernel)
    (by decide +kernel) (by decide +kernel)

/-- In the restartable app, event `error` is processed in STOPPED. -/
theorem p_error_stopped : Processing (appEnv (app false calmSub)) appConf idle w0 0 evtError (idle.w.trace.take 66)
    ((idle.w.trace.drop 67).take 2) (idle.w.trace.drop 70) :=
  processing_of 66 2 (q := 0) (m' := 0) (ev' := evtError) (app_alone _) appConf_initial (drive_reach _ _ _) rfl (by decide +kernel)
    (by decide +kernel) (by decide +kernel)

/-- In the restartable app, event `stop` ends the machine in STOPPED. -/
theorem p_stop_stopped : Processing (appEnv (app false calmSub)) appConf idle w0 0 evtStop (idle.w.trace.take 76)
    ((idle.w.trace.drop 77).take 2) (idle.w.trace.drop 80) :=
  processing_of 76 2 (q := 0) (m' := 0) (ev' := evtStop) (app_alone _) appConf_initial (drive_reach _ _ _) rfl (by decide +kernel)
    (by decide +kernel) (by decide +kernel)

theorem no_begin {t : Tid} {mid : List (Tid × Obs)}
    (h : (bare t 0 mid).all (fun o => match o with | .cbRet (.begin ..) _ => false | _ => true) = true) {m : MId} {ev : Ev} :
    ∀ s s' x, Obs.cbRet (.begin m s ev s') (some x) ∉ bare t 0 mid := by
  intro s s' x hm
  have := List.all_eq_true.1 h _ hm
  simp at this

example : (machAt appConf 0 (faulty.w.trace.take 25 ++ (w0, .taken 0 0 evtError) :: (faulty.w.trace.drop 26).take 9)).st =
    ⟨some ⟨STATE_STOPPED, 15⟩, false⟩ :=
  C47_error_stops (a := app true badSub) (app_wired _ _ (bad_outside true)) p_error rfl (by decide +kernel) (s := ⟨STATE_STARTING, 12⟩)
    (by decide +kernel) (Or.inl rfl) (no_begin (by decide +kernel)) 0

example : (machAt appConf 0 (idle.w.trace.take 76 ++ (w0, .taken 0 0 evtStop) :: (idle.w.trace.drop 77).take 2)).st =
    ⟨some rs.endSt, true⟩ :=
  C47_step (a := app false calmSub) (app_wired _ _ (calm_outside false)) p_stop_stopped (k := (⟨STATE_STOPPED, 15⟩, evtStop, none))
    (by decide +kernel) rfl (by decide +kernel) (by decide +kernel) (no_begin (by decide +kernel)) 0

example := C47_error_ignored (a := app false calmSub) (app_wired _ _ (calm_outside false)) p_error_stopped rfl (by decide +kernel)
  (s := ⟨STATE_STOPPED, 15⟩) (by decide +kernel) (Or.inr rfl)

end Demo

end
end Verif
