import Verif.Proofs.Factory
import Verif.Spec.Wiring
/-
What becomes of configs and strategies while a program makes strategies and machines.
-/

namespace Verif
open Spec

namespace Wiring

/-- A setting that was missing can have been filled with something made for the config. -/
def Fills (S : Setup) (k : Nat) (c c' : FConfig) : Prop :=
  c'.maxQ = c.maxQ ∧ (c'.exec = c.exec ∨ c.exec = none ∧ ∃ e : Nat, c'.exec = some e ∧ S.execs[e]? = some (some k, 1)) ∧
  (c'.queue = c.queue ∨ c.queue = none ∧ ∃ q : Nat, c'.queue = some q ∧ S.queues[q]? = some (some k))

def conf (S : Setup) (k : Nat) : FConfig := (S.configs[k]?).getD {}

theorem conf_set {S : Setup} {l : List FConfig} {k i : Nat} {x : FConfig} {c : FConfig} (hl : l = S.configs) (hc : S.configs[k]? = some c) :
    ((l.set k x)[i]?).getD {} = if i = k then x else conf S i := by
  subst hl
  by_cases h : i = k
  · subst h; rw [get_set_same hc]; simp
  · rw [get_set_ne h]; simp [h, conf]

/-- What every call does, apart from the `with..` calls of configs. -/
structure Grow (S S' : Setup) : Prop where
  execs : ∀ (i : Nat) x, S.execs[i]? = some x → S'.execs[i]? = some x
  queues : ∀ (i : Nat) x, S.queues[i]? = some x → S'.queues[i]? = some x
  len : S.configs.length ≤ S'.configs.length
  conf : ∀ k, Fills S' k (conf S k) (conf S' k)
  strats : ∀ (s : Nat) t, S.strats[s]? = some t → ∃ o, S'.strats[s]? = some { t with owner := o }

theorem Fills.refl {S : Setup} {k : Nat} {c : FConfig} : Fills S k c c := ⟨rfl, .inl rfl, .inl rfl⟩

theorem Grow.refl {S : Setup} : Grow S S :=
  ⟨fun _ _ h => h, fun _ _ h => h, Nat.le_refl _, fun _ => .refl, fun _ t h => ⟨t.owner, h⟩⟩

theorem Grow.trans {S S' S'' : Setup} (h : Grow S S') (h' : Grow S' S'') : Grow S S'' := by
  refine ⟨fun i x hx => h'.execs i x (h.execs i x hx), fun i x hx => h'.queues i x (h.queues i x hx), Nat.le_trans h.len h'.len, ?_, ?_⟩
  · intro k
    obtain ⟨a1, a2, a3⟩ := h.conf k
    obtain ⟨b1, b2, b3⟩ := h'.conf k
    refine ⟨b1.trans a1, ?_, ?_⟩
    · rcases b2 with b2 | ⟨b2, b4⟩
      · rcases a2 with a2 | ⟨a2, e, a4, a5⟩
        · exact .inl (b2.trans a2)
        · exact .inr ⟨a2, e, b2.trans a4, h'.execs _ _ a5⟩
      · rcases a2 with a2 | ⟨a2, e, a4, a5⟩
        · exact .inr ⟨a2 ▸ b2, b4⟩
        · rw [a4] at b2; cases b2
    · rcases b3 with b2 | ⟨b2, b4⟩
      · rcases a3 with a2 | ⟨a2, e, a4, a5⟩
        · exact .inl (b2.trans a2)
        · exact .inr ⟨a2, e, b2.trans a4, h'.queues _ _ a5⟩
      · rcases a3 with a2 | ⟨a2, e, a4, a5⟩
        · exact .inr ⟨a2 ▸ b2, b4⟩
        · rw [a4] at b2; cases b2
  · intro s t ht
    obtain ⟨o, h1⟩ := h.strats s t ht
    obtain ⟨o', h2⟩ := h'.strats s _ h1
    exact ⟨o', h2⟩

theorem grow_exec {S : Setup} {k : Nat} {c : FConfig} (hc : S.configs[k]? = some c) :
    Grow S (S.getExecutor k c).2 ∧ (S.getExecutor k c).2.configs[k]? = some { c with exec := some (S.getExecutor k c).1 } ∧
      (S.getExecutor k c).2.strats = S.strats ∧ (S.getExecutor k c).2.builders = S.builders ∧ (S.getExecutor k c).2.machines = S.machines := by
  unfold Setup.getExecutor
  cases he : c.exec with
  | some e =>
    refine ⟨.refl, ?_, rfl, rfl, rfl⟩
    simp only [hc]; rw [show ({ c with exec := some e } : FConfig) = c by rw [← he]]
  | none =>
    refine ⟨⟨fun _ _ h => get_append h, fun _ _ h => h, by simp, fun i => ?_, fun _ t h => ⟨t.owner, h⟩⟩, get_set_same hc, rfl, rfl, rfl⟩
    unfold Wiring.conf
    simp only
    rw [conf_set rfl hc]
    split
    · rename_i h; subst h
      rw [hc]
      exact ⟨rfl, .inr ⟨he, S.execs.length, rfl, get_last⟩, .inl rfl⟩
    · exact .refl

theorem grow_queue {S : Setup} {k : Nat} {c : FConfig} (hc : S.configs[k]? = some c) :
    Grow S (S.getEventQueue k c).2 ∧ (S.getEventQueue k c).2.configs[k]? = some { c with queue := some (S.getEventQueue k c).1 } ∧
      (S.getEventQueue k c).2.strats = S.strats ∧ (S.getEventQueue k c).2.builders = S.builders ∧ (S.getEventQueue k c).2.machines = S.machines := by
  unfold Setup.getEventQueue
  cases he : c.queue with
  | some e =>
    refine ⟨.refl, ?_, rfl, rfl, rfl⟩
    simp only [hc]; rw [show ({ c with queue := some e } : FConfig) = c by rw [← he]]
  | none =>
    refine ⟨⟨fun _ _ h => h, fun _ _ h => get_append h, by simp, fun i => ?_, fun _ t h => ⟨t.owner, h⟩⟩, get_set_same hc, rfl, rfl, rfl⟩
    unfold Wiring.conf
    simp only
    rw [conf_set rfl hc]
    split
    · rename_i h; subst h
      rw [hc]
      exact ⟨rfl, .inl rfl, .inr ⟨he, S.queues.length, rfl, get_last⟩⟩
    · exact .refl

theorem create_spec {S : Setup} {k : Nat} {c : FConfig} (b : Bool) (hc : S.configs[k]? = some c) :
    Grow S (S.create k b) ∧ (S.create k b).builders = S.builders ∧ (S.create k b).machines = S.machines ∧
    ∃ q e, (S.create k b).configs[k]? = some { c with exec := some e, queue := some q } ∧
      (S.create k b).strats = S.strats ++ [⟨k, q, e, c.maxQ, b, none⟩] := by
  obtain ⟨h1, h2, h3, h4, h5⟩ := grow_exec hc
  unfold Setup.create
  simp only [hc, h2]
  obtain ⟨g1, g2, g3, g4, g5⟩ := grow_queue h2
  refine ⟨h1.trans (g1.trans ⟨fun _ _ h => h, fun _ _ h => h, Nat.le_refl _, fun _ => .refl, fun _ t h => ⟨t.owner, get_append h⟩⟩),
    g4.trans h4, g5.trans h5, _, _, g2, ?_⟩
  simp only [g3, h3]

theorem grow_machine {S : Setup} {s : SId} : Grow S (S.machine s) := by
  unfold Setup.machine
  split
  · exact .refl
  · rename_i t ht
    refine ⟨fun _ _ h => h, fun _ _ h => h, Nat.le_refl _, fun _ => .refl, fun s' t' h => ?_⟩
    by_cases hs : s' = s
    · subst hs; rw [ht] at h; cases h; exact ⟨_, get_set_same ht⟩
    · exact ⟨t'.owner, (get_set_ne hs).trans h⟩

/-- A call that is no `with..` call. -/
def plain : SetupCmd → Bool
  | .withExecutor .. | .withEventQueue .. | .withMaxQueueSize .. => false
  | _ => true

theorem config_of_lt {S : Setup} {k : Nat} (h : k < S.configs.length) : ∃ c, S.configs[k]? = some c := ⟨_, List.getElem?_eq_getElem h⟩

theorem grow_create {S : Setup} {k : Nat} {b : Bool} : Grow S (S.create k b) := by
  cases hc : S.configs[k]? with
  | some c => exact (create_spec b hc).1
  | none => unfold Setup.create; simp only [hc]; exact .refl

theorem grow_builders {S : Setup} {l : List (Option SId)} : Grow S { S with builders := l } :=
  ⟨fun _ _ h => h, fun _ _ h => h, Nat.le_refl _, fun _ => .refl, fun _ t h => ⟨t.owner, h⟩⟩

theorem grow_step {S : Setup} {cmd : SetupCmd} (hp : plain cmd = true) : Grow S (S.step cmd) := by
  cases cmd with
  | newQueue => exact ⟨fun _ _ h => h, fun _ _ h => get_append h, Nat.le_refl _, fun _ => .refl, fun _ t h => ⟨t.owner, h⟩⟩
  | newExecutor n => exact ⟨fun _ _ h => get_append h, fun _ _ h => h, Nat.le_refl _, fun _ => .refl, fun _ t h => ⟨t.owner, h⟩⟩
  | newConfig =>
    refine ⟨fun _ _ h => h, fun _ _ h => h, by simp [Setup.step], fun k => ?_, fun _ t h => ⟨t.owner, h⟩⟩
    have : conf (S.step .newConfig) k = conf S k := by
      unfold conf
      simp only [Setup.step]
      by_cases hk : k < S.configs.length
      · rw [List.getElem?_append_left hk]
      · rw [List.getElem?_append_right (by omega), List.getElem?_eq_none (l := S.configs) (by omega)]
        cases hk' : k - S.configs.length <;> simp
    rw [this]; exact .refl
  | withExecutor | withEventQueue | withMaxQueueSize => cases hp
  | createDefault k => exact grow_create
  | createDropDuplicate k => exact grow_create
  | newBuilder => exact grow_builders
  | setStrategy b s =>
    simp only [Setup.step]
    split
    · exact grow_builders
    · exact .refl
  | build b =>
    simp only [Setup.step]
    split
    · exact .refl
    · exact grow_machine
    · exact grow_create.trans (grow_builders.trans grow_machine)

/-- No call forgets a strategy or changes what it got. -/
theorem strats_step {S : Setup} {cmd : SetupCmd} {s : SId} {t : FStrat} (h : S.strats[s]? = some t) :
    ∃ o, (S.step cmd).strats[s]? = some { t with owner := o } := by
  cases hp : plain cmd with
  | true => exact (grow_step hp).strats s t h
  | false =>
    refine ⟨t.owner, ?_⟩
    cases cmd <;> simp only [plain, Bool.true_eq_false] at hp <;> simp only [Setup.step] <;> (repeat' split) <;> exact h

theorem run_append (a b : List SetupCmd) : Setup.run (a ++ b) = b.foldl Setup.step (Setup.run a) := by simp [Setup.run]

theorem strats_run {pre post : List SetupCmd} {s : SId} {t : FStrat} (h : (Setup.run pre).strats[s]? = some t) :
    ∃ o, (Setup.run (pre ++ post)).strats[s]? = some { t with owner := o } := by
  induction post generalizing pre t with
  | nil => exact ⟨t.owner, by simpa using h⟩
  | cons x post ih =>
    obtain ⟨o, h1⟩ := strats_step (cmd := x) h
    have h2 : (Setup.run (pre ++ [x])).strats[s]? = some { t with owner := o } := by rw [run_append]; exact h1
    obtain ⟨o', h3⟩ := ih h2
    exact ⟨o', by simpa using h3⟩

/-- Executors and queues never go away. -/
theorem made_step {S : Setup} {cmd : SetupCmd} : (∀ (i : Nat) x, S.execs[i]? = some x → (S.step cmd).execs[i]? = some x) ∧
    (∀ (i : Nat) x, S.queues[i]? = some x → (S.step cmd).queues[i]? = some x) := by
  cases hp : plain cmd with
  | true => exact ⟨(grow_step hp).execs, (grow_step hp).queues⟩
  | false =>
    refine ⟨fun i x h => ?_, fun i x h => ?_⟩ <;>
    cases cmd <;> simp only [plain, Bool.true_eq_false] at hp <;> simp only [Setup.step] <;> (repeat' split) <;> exact h

theorem made_later {pre post : List SetupCmd} :
    (∀ (i : Nat) x, (Setup.run pre).execs[i]? = some x → (Setup.run (pre ++ post)).execs[i]? = some x) ∧
    (∀ (i : Nat) x, (Setup.run pre).queues[i]? = some x → (Setup.run (pre ++ post)).queues[i]? = some x) := by
  rw [run_append]
  generalize Setup.run pre = S
  induction post generalizing S with
  | nil => exact ⟨fun _ _ h => h, fun _ _ h => h⟩
  | cons x post ih =>
    exact ⟨fun i y h => (ih (S.step x)).1 i y (made_step.1 i y h), fun i y h => (ih (S.step x)).2 i y (made_step.2 i y h)⟩

/-- What a config holds: what it was given last, or something made for it. -/
structure Holds (pre : List SetupCmd) (S : Setup) (k : Nat) : Prop where
  size : (conf S k).maxQ = lastSize k pre
  exec : ∀ e, lastExec k pre = some e → (conf S k).exec = some e
  exec' : lastExec k pre = none → ∀ e : Nat, (conf S k).exec = some e → S.execs[e]? = some (some k, 1)
  queue : ∀ q, lastQueue k pre = some q → (conf S k).queue = some q
  queue' : lastQueue k pre = none → ∀ q : Nat, (conf S k).queue = some q → S.queues[q]? = some (some k)

theorem Holds.grow {pre : List SetupCmd} {S S' : Setup} {k : Nat} {cmd : SetupCmd} (h : Holds pre S k) (hg : Grow S S')
    (hp : plain cmd = true) : Holds (pre ++ [cmd]) S' k := by
  have l1 : lastSize k (pre ++ [cmd]) = lastSize k pre := by cases cmd <;> simp_all [lastSize, plain]
  have l2 : lastExec k (pre ++ [cmd]) = lastExec k pre := by cases cmd <;> simp_all [lastExec, plain]
  have l3 : lastQueue k (pre ++ [cmd]) = lastQueue k pre := by cases cmd <;> simp_all [lastQueue, plain]
  obtain ⟨g1, g2, g3⟩ := hg.conf k
  constructor
  · rw [l1, g1]; exact h.size
  · intro e he; rw [l2] at he
    have := h.exec e he
    rcases g2 with g2 | ⟨g2, _⟩
    · rw [g2]; exact this
    · rw [this] at g2; cases g2
  · intro he e hc; rw [l2] at he
    rcases g2 with g2 | ⟨g2, e', g4, g5⟩
    · exact hg.execs _ _ (h.exec' he e (g2 ▸ hc))
    · rw [g4] at hc; cases hc; exact g5
  · intro e he; rw [l3] at he
    have := h.queue e he
    rcases g3 with g2 | ⟨g2, _⟩
    · rw [g2]; exact this
    · rw [this] at g2; cases g2
  · intro he e hc; rw [l3] at he
    rcases g3 with g2 | ⟨g2, e', g4, g5⟩
    · exact hg.queues _ _ (h.queue' he e (g2 ▸ hc))
    · rw [g4] at hc; cases hc; exact g5

theorem Holds.step {pre : List SetupCmd} {S : Setup} {k : Nat} {cmd : SetupCmd} (h : Holds pre S k) (hr : Refers S cmd) :
    Holds (pre ++ [cmd]) (S.step cmd) k := by
  cases hp : plain cmd with
  | true => exact h.grow (grow_step hp) hp
  | false =>
    cases cmd with
    | withMaxQueueSize k' n =>
      obtain ⟨h0, h1⟩ := hr
      obtain ⟨c, hc⟩ := config_of_lt h1
      have e : S.step (.withMaxQueueSize k' n) = { S with configs := S.configs.set k' { c with maxQ := n } } := by
        simp [Setup.step, hc, h0]
      have l1 : lastSize k (pre ++ [.withMaxQueueSize k' n]) = if k' = k then n else lastSize k pre := by simp [lastSize]
      have l2 : lastExec k (pre ++ [.withMaxQueueSize k' n]) = lastExec k pre := by simp [lastExec]
      have l3 : lastQueue k (pre ++ [.withMaxQueueSize k' n]) = lastQueue k pre := by simp [lastQueue]
      have hk : conf (S.step (.withMaxQueueSize k' n)) k = if k = k' then { c with maxQ := n } else conf S k := by
        rw [e]; unfold conf; simp only; exact conf_set rfl hc
      have hx : (S.step (.withMaxQueueSize k' n)).execs = S.execs := by rw [e]
      have hq : (S.step (.withMaxQueueSize k' n)).queues = S.queues := by rw [e]
      by_cases hkk : k = k'
      · subst hkk
        have hc' : conf S k = c := by simp [conf, hc]
        simp only [if_true] at hk l1
        exact ⟨by rw [hk, l1], fun e he => by rw [hk]; exact hc' ▸ h.exec e (l2 ▸ he), fun he e hce => by
          rw [hx]; rw [hk] at hce; exact h.exec' (l2 ▸ he) e (hc' ▸ hce), fun e he => by rw [hk]; exact hc' ▸ h.queue e (l3 ▸ he),
          fun he e hce => by rw [hq]; rw [hk] at hce; exact h.queue' (l3 ▸ he) e (hc' ▸ hce)⟩
      · rw [if_neg hkk] at hk
        rw [if_neg (fun h => hkk h.symm)] at l1
        exact ⟨by rw [hk, l1, h.size], fun e he => by rw [hk]; exact h.exec e (l2 ▸ he), fun he e hce => by
          rw [hx]; rw [hk] at hce; exact h.exec' (l2 ▸ he) e hce, fun e he => by rw [hk]; exact h.queue e (l3 ▸ he),
          fun he e hce => by rw [hq]; rw [hk] at hce; exact h.queue' (l3 ▸ he) e hce⟩
    | withExecutor k' n =>
      obtain ⟨h0, h1, hw⟩ := hr
      obtain ⟨⟨x, w⟩, hw, rfl⟩ := Option.map_eq_some_iff.1 hw
      obtain ⟨c, hc⟩ := config_of_lt h1
      have e : S.step (.withExecutor k' n) = { S with configs := S.configs.set k' { c with exec := some n } } := by
        simp [Setup.step, hc, h0, hw]
      have l1 : lastSize k (pre ++ [.withExecutor k' n]) = lastSize k pre := by simp [lastSize]
      have l2 : lastExec k (pre ++ [.withExecutor k' n]) = if k' = k then some n else lastExec k pre := by simp [lastExec]
      have l3 : lastQueue k (pre ++ [.withExecutor k' n]) = lastQueue k pre := by simp [lastQueue]
      have hk : conf (S.step (.withExecutor k' n)) k = if k = k' then { c with exec := some n } else conf S k := by
        rw [e]; unfold conf; simp only; exact conf_set rfl hc
      have hx : (S.step (.withExecutor k' n)).execs = S.execs := by rw [e]
      have hq : (S.step (.withExecutor k' n)).queues = S.queues := by rw [e]
      by_cases hkk : k = k'
      · subst hkk
        have hc' : conf S k = c := by simp [conf, hc]
        simp only [if_true] at hk l2
        exact ⟨by rw [hk, l1, ← h.size, hc'], fun e he => by rw [hk]; exact l2.symm.trans he, fun he e hce => (by rw [l2] at he; cases he), fun e he => by rw [hk]; exact hc' ▸ h.queue e (l3 ▸ he),
          fun he e hce => by rw [hq]; rw [hk] at hce; exact h.queue' (l3 ▸ he) e (hc' ▸ hce)⟩
      · rw [if_neg hkk] at hk
        rw [if_neg (fun h => hkk h.symm)] at l2
        exact ⟨by rw [hk, l1, h.size], fun e he => by rw [hk]; exact h.exec e (l2 ▸ he), fun he e hce => by
          rw [hx]; rw [hk] at hce; exact h.exec' (l2 ▸ he) e hce, fun e he => by rw [hk]; exact h.queue e (l3 ▸ he),
          fun he e hce => by rw [hq]; rw [hk] at hce; exact h.queue' (l3 ▸ he) e hce⟩
    | withEventQueue k' n =>
      obtain ⟨h0, h1, hw⟩ := hr
      obtain ⟨c, hc⟩ := config_of_lt h1
      have e : S.step (.withEventQueue k' n) = { S with configs := S.configs.set k' { c with queue := some n } } := by
        simp [Setup.step, hc, h0, hw]
      have l1 : lastSize k (pre ++ [.withEventQueue k' n]) = lastSize k pre := by simp [lastSize]
      have l2 : lastExec k (pre ++ [.withEventQueue k' n]) = lastExec k pre := by simp [lastExec]
      have l3 : lastQueue k (pre ++ [.withEventQueue k' n]) = if k' = k then some n else lastQueue k pre := by simp [lastQueue]
      have hk : conf (S.step (.withEventQueue k' n)) k = if k = k' then { c with queue := some n } else conf S k := by
        rw [e]; unfold conf; simp only; exact conf_set rfl hc
      have hx : (S.step (.withEventQueue k' n)).execs = S.execs := by rw [e]
      have hq : (S.step (.withEventQueue k' n)).queues = S.queues := by rw [e]
      by_cases hkk : k = k'
      · subst hkk
        have hc' : conf S k = c := by simp [conf, hc]
        simp only [if_true] at hk l3
        exact ⟨by rw [hk, l1, ← h.size, hc'], fun e he => by rw [hk]; exact hc' ▸ h.exec e (l2 ▸ he),
          fun he e hce => by rw [hx]; rw [hk] at hce; exact h.exec' (l2 ▸ he) e (hc' ▸ hce),
          fun e he => by rw [hk]; exact l3.symm.trans he, fun he e hce => (by rw [l3] at he; cases he)⟩
      · rw [if_neg hkk] at hk
        rw [if_neg (fun h => hkk h.symm)] at l3
        exact ⟨by rw [hk, l1, h.size], fun e he => by rw [hk]; exact h.exec e (l2 ▸ he), fun he e hce => by
          rw [hx]; rw [hk] at hce; exact h.exec' (l2 ▸ he) e hce, fun e he => by rw [hk]; exact h.queue e (l3 ▸ he),
          fun he e hce => by rw [hq]; rw [hk] at hce; exact h.queue' (l3 ▸ he) e hce⟩
    | _ => cases hp

theorem Writable.init {a b : List SetupCmd} (h : Writable (a ++ b)) : Writable a :=
  fun pre cmd post he => h pre cmd (post ++ b) (by rw [he]; simp)

theorem writable_iff {cmds : List SetupCmd} :
    Writable cmds ↔ ∀ i (h : i < cmds.length), Refers (Setup.run (cmds.take i)) cmds[i] := by
  refine ⟨fun hw i h => hw (cmds.take i) cmds[i] (cmds.drop (i + 1)) (by simp), fun hw pre cmd post he => ?_⟩
  subst he
  have := hw pre.length (by simp)
  simpa using this

instance (S : Setup) (cmd : SetupCmd) : Decidable (Refers S cmd) := by
  cases cmd <;> unfold Refers <;> infer_instance

instance (cmds : List SetupCmd) : Decidable (Writable cmds) := decidable_of_iff _ writable_iff.symm

theorem holds_run {cmds : List SetupCmd} (hw : Writable cmds) (k : Nat) : Holds cmds (Setup.run cmds) k := by
  have : ∀ n, n ≤ cmds.length → Holds (cmds.take n) (Setup.run (cmds.take n)) k := by
    intro n
    induction n with
    | zero =>
      intro _
      have : conf (Setup.run []) k = {} := by
        unfold conf
        cases k <;> rfl
      refine ⟨?_, ?_, ?_, ?_, ?_⟩ <;> simp only [List.take_zero, this]
      · rfl
      · intro e he; cases he
      · intro _ e he; cases he
      · intro e he; cases he
      · intro _ e he; cases he
    | succ n ih =>
      intro hn
      have h1 := ih (by omega)
      have h2 := hw (cmds.take n) cmds[n] (cmds.drop (n + 1)) (by simp)
      have h3 := h1.step h2
      rw [show cmds.take (n + 1) = cmds.take n ++ [cmds[n]] by simp, run_append]
      exact h3
  simpa using this cmds.length (Nat.le_refl _)

end Wiring
end Verif
