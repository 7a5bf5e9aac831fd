import Verif.Proofs.Wiring
import Verif.Props.Factory
/-
C72: what a strategy gets from its config. C73: what a machine gets from its builder, and builders that are used twice.
-/

namespace Verif
open Spec

namespace Wiring
variable {S : Setup} {cmd : SetupCmd} {k : Nat}

theorem queue_kept {q : Nat} (h : (conf S k).queue = some q) (hc : ∀ q', cmd ≠ .withEventQueue k q') : (conf (S.step cmd) k).queue = some q := by
  cases hp : plain cmd with
  | true =>
    obtain ⟨_, _, h1 | ⟨h1, _⟩⟩ := (grow_step (S := S) hp).conf k
    · exact h1.trans h
    · rw [h] at h1; cases h1
  | false =>
    cases cmd <;> simp only [plain, Bool.true_eq_false] at hp <;> simp only [Setup.step] <;> (repeat' split) <;> first
      | exact h
      | (rename_i hx _
         unfold conf
         simp only
         rw [conf_set rfl (by assumption)]
         split
         · rename_i hk; subst hk
           first
             | exact absurd rfl (hc _)
             | (simp only [conf] at h; simp_all)
         · exact h)

theorem exec_kept {e : Nat} (h : (conf S k).exec = some e) (hc : ∀ e', cmd ≠ .withExecutor k e') : (conf (S.step cmd) k).exec = some e := by
  cases hp : plain cmd with
  | true =>
    obtain ⟨_, h1 | ⟨h1, _⟩, _⟩ := (grow_step (S := S) hp).conf k
    · exact h1.trans h
    · rw [h] at h1; cases h1
  | false =>
    cases cmd <;> simp only [plain, Bool.true_eq_false] at hp <;> simp only [Setup.step] <;> (repeat' split) <;> first
      | exact h
      | (rename_i hx _
         unfold conf
         simp only
         rw [conf_set rfl (by assumption)]
         split
         · rename_i hk; subst hk
           first
             | exact absurd rfl (hc _)
             | (simp only [conf] at h; simp_all)
         · exact h)

theorem kept_run {P : Setup → Prop} {pre mid : List SetupCmd} (hP : ∀ S cmd, cmd ∈ mid → P S → P (S.step cmd)) (h : P (Setup.run pre)) :
    P (Setup.run (pre ++ mid)) := by
  rw [run_append]
  generalize Setup.run pre = S at h
  induction mid generalizing S with
  | nil => exact h
  | cons x mid ih => exact ih (fun S c hc => hP S c (List.mem_cons_of_mem _ hc)) _ (hP S x List.mem_cons_self h)

/-- What a factory method does. -/
theorem makes_spec {b : Bool} (hk : makes cmd = some (k, b)) (hr : Refers S cmd) :
    ∃ q e, (conf (S.step cmd) k).queue = some q ∧ (conf (S.step cmd) k).exec = some e ∧ (conf (S.step cmd) k).maxQ = (conf S k).maxQ ∧
      (S.step cmd).strats = S.strats ++ [⟨k, q, e, (conf S k).maxQ, b, none⟩] := by
  have : S.step cmd = S.create k b ∧ k < S.configs.length := by
    cases cmd <;> simp only [makes, Option.some.injEq, Prod.mk.injEq, reduceCtorEq] at hk <;> obtain ⟨rfl, rfl⟩ := hk <;> exact ⟨rfl, hr⟩
  rw [this.1]
  obtain ⟨c, hc⟩ := config_of_lt this.2
  obtain ⟨_, _, _, q, e, h1, h2⟩ := create_spec b hc
  have hc1 : conf S k = c := by simp [conf, hc]
  have hc2 : conf (S.create k b) k = { c with exec := some e, queue := some q } := by simp [conf, h1]
  exact ⟨q, e, by rw [hc2], by rw [hc2], by rw [hc2, hc1], by rw [h2, hc1]⟩

theorem wire_full {s : SId} {t : FStrat} {env : Env} (h : S.strats[s]? = some t) :
    ((S.wire env).strat s).queue = t.queue ∧ ((S.wire env).strat s).exec = t.exec ∧ ((S.wire env).strat s).maxQ = t.maxQ ∧
      ((S.wire env).strat s).dropDup = t.dropDup := by
  simp [Setup.wire, h]

/-- What became of the strategy made by a call of a factory method. -/
theorem made_strategy {pre post : List SetupCmd} {b : Bool} (hw : Writable (pre ++ cmd :: post)) (hk : makes cmd = some (k, b)) (env : Env) :
    ∃ q e, (conf (Setup.run (pre ++ [cmd])) k).queue = some q ∧ (conf (Setup.run (pre ++ [cmd])) k).exec = some e ∧
      let str := ((Setup.run (pre ++ cmd :: post)).wire env).strat (Setup.run pre).strats.length
      str.queue = q ∧ str.exec = e ∧ str.maxQ = (conf (Setup.run pre) k).maxQ ∧ str.dropDup = b := by
  obtain ⟨q, e, h1, h2, _, h4⟩ := makes_spec hk (hw pre cmd post rfl)
  have h5 : Setup.run (pre ++ [cmd]) = (Setup.run pre).step cmd := by rw [run_append]; rfl
  have h6 : (Setup.run (pre ++ [cmd])).strats[(Setup.run pre).strats.length]? = some ⟨k, q, e, (conf (Setup.run pre) k).maxQ, b, none⟩ := by
    rw [h5, h4]; exact get_last
  obtain ⟨o, h7⟩ := strats_run (post := post) h6
  rw [show pre ++ [cmd] ++ post = pre ++ cmd :: post by simp] at h7
  exact ⟨q, e, h5 ▸ h1, h5 ▸ h2, wire_full h7⟩

end Wiring

section
variable {env : Env} {pre mid post : List SetupCmd} {cmd cmd' : SetupCmd} {k : Nat} {b b' : Bool}

/-- C72: a strategy made from config `k` has the maximal queue size, the executor and the queue that the config was given last
before; later calls do not change this. Without a size the queue is unbounded (-1), without an executor the strategy has a
single-threaded one. -/
theorem C72_settings (hw : Writable (pre ++ cmd :: post)) (hk : makes cmd = some (k, b)) :
    let E := (Setup.run (pre ++ cmd :: post)).wire env
    let str := E.strat (Setup.run pre).strats.length
    str.maxQ = lastSize k pre ∧ str.dropDup = b ∧ (∀ e, lastExec k pre = some e → str.exec = e) ∧
    (∀ q, lastQueue k pre = some q → str.queue = q) ∧ (lastExec k pre = none → E.width str.exec = 1) := by
  obtain ⟨q, e, h1, h2, h3, h4, h5, h6⟩ := Wiring.made_strategy hw hk env
  have hh := Wiring.holds_run (Wiring.Writable.init hw) k
  have hh' := Wiring.holds_run (Wiring.Writable.init (b := post) (by simpa using hw) : Writable (pre ++ [cmd])) k
  have l1 : lastExec k (pre ++ [cmd]) = lastExec k pre := by cases cmd <;> simp_all [lastExec, makes]
  have l2 : lastQueue k (pre ++ [cmd]) = lastQueue k pre := by cases cmd <;> simp_all [lastQueue, makes]
  refine ⟨h5.trans hh.size, h6, fun e' he => ?_, fun q' hq => ?_, fun hn => ?_⟩
  · have := hh'.exec e' (l1.trans he)
    rw [h2] at this
    exact h4.trans (Option.some.inj this)
  · have := hh'.queue q' (l2.trans hq)
    rw [h1] at this
    exact h3.trans (Option.some.inj this)
  · have := (Wiring.made_later (post := post)).1 _ _ (hh'.exec' (l1.trans hn) e h2)
    rw [show pre ++ [cmd] ++ post = pre ++ cmd :: post by simp] at this
    rw [h4]
    simp [Setup.wire, this]

/-- C72: two strategies made from one config share the queue, unless the config was given another one in between. -/
theorem C72_shared_queue (hw : Writable (pre ++ cmd :: (mid ++ cmd' :: post))) (hk : makes cmd = some (k, b)) (hk' : makes cmd' = some (k, b'))
    (hm : ∀ q, .withEventQueue k q ∉ mid) :
    let E := (Setup.run (pre ++ cmd :: (mid ++ cmd' :: post))).wire env
    (E.strat (Setup.run pre).strats.length).queue = (E.strat (Setup.run (pre ++ cmd :: mid)).strats.length).queue := by
  obtain ⟨q, e, h1, _, h3, _⟩ := Wiring.made_strategy hw hk env
  obtain ⟨q', e', h1', _, h3', _⟩ := Wiring.made_strategy (pre := pre ++ cmd :: mid) (cmd := cmd') (post := post) (by simpa using hw) hk' env
  have h2 : (Wiring.conf (Setup.run (pre ++ [cmd] ++ (mid ++ [cmd']))) k).queue = some q := by
    refine Wiring.kept_run (P := fun S => (Wiring.conf S k).queue = some q) (fun S c hc h => Wiring.queue_kept h ?_) h1
    intro q' h
    subst h
    rcases List.mem_append.1 hc with h | h
    · exact hm _ h
    · simp at h; subst h; cases hk'
  rw [show pre ++ [cmd] ++ (mid ++ [cmd']) = pre ++ cmd :: mid ++ [cmd'] by simp, h1'] at h2
  rw [show pre ++ cmd :: mid ++ cmd' :: post = pre ++ cmd :: (mid ++ cmd' :: post) by simp] at h3'
  exact h3.trans ((Option.some.inj h2).symm.trans h3'.symm)

/-- C72: and the executor. -/
theorem C72_shared_executor (hw : Writable (pre ++ cmd :: (mid ++ cmd' :: post))) (hk : makes cmd = some (k, b)) (hk' : makes cmd' = some (k, b'))
    (hm : ∀ q, .withExecutor k q ∉ mid) :
    let E := (Setup.run (pre ++ cmd :: (mid ++ cmd' :: post))).wire env
    (E.strat (Setup.run pre).strats.length).exec = (E.strat (Setup.run (pre ++ cmd :: mid)).strats.length).exec := by
  obtain ⟨q, e, _, h1, _, h3, _⟩ := Wiring.made_strategy hw hk env
  obtain ⟨q', e', _, h1', _, h3', _⟩ := Wiring.made_strategy (pre := pre ++ cmd :: mid) (cmd := cmd') (post := post) (by simpa using hw) hk' env
  have h2 : (Wiring.conf (Setup.run (pre ++ [cmd] ++ (mid ++ [cmd']))) k).exec = some e := by
    refine Wiring.kept_run (P := fun S => (Wiring.conf S k).exec = some e) (fun S c hc h => Wiring.exec_kept h ?_) h1
    intro q' h
    subst h
    rcases List.mem_append.1 hc with h | h
    · exact hm _ h
    · simp at h; subst h; cases hk'
  rw [show pre ++ [cmd] ++ (mid ++ [cmd']) = pre ++ cmd :: mid ++ [cmd'] by simp, h1'] at h2
  rw [show pre ++ cmd :: mid ++ cmd' :: post = pre ++ cmd :: (mid ++ cmd' :: post) by simp] at h3'
  exact h3.trans ((Option.some.inj h2).symm.trans h3'.symm)

end

/-! Builders. -/

namespace Wiring
variable {S : Setup} {b : Nat} {s : SId}

theorem machine_spec {t : FStrat} (h : S.strats[s]? = some t) :
    (S.machine s).builders = S.builders ∧ (S.machine s).machines = S.machines ++ [s] ∧
    (S.machine s).strats = S.strats.set s { t with owner := some S.machines.length } := by
  simp [Setup.machine, h]

/-- What `build()` does. -/
theorem build_spec (hb : b < S.builders.length) (hm : Made S) (h0 : ∃ c, S.configs[0]? = some c) :
    ∃ s, (S.step (.build b)).builders[b]? = some (some s) ∧ (S.step (.build b)).machines = S.machines ++ [s] ∧
      (∀ s', S.builders[b]? = some (some s') → s = s') ∧
      (∃ t, (S.step (.build b)).strats[s]? = some t ∧ t.owner = some S.machines.length) := by
  obtain ⟨o, ho⟩ : ∃ o, S.builders[b]? = some o := ⟨_, List.getElem?_eq_getElem hb⟩
  simp only [Setup.step, ho]
  cases o with
  | some s =>
    obtain ⟨t, ht⟩ := hm.bs b s ho
    obtain ⟨h1, h2, h3⟩ := machine_spec ht
    exact ⟨s, (by simp only [h1, ho]), (by simp only [h2]), (fun s' h => by cases h; rfl), _, (by simp only [h3]; exact get_set_same ht), rfl⟩
  | none =>
    obtain ⟨c, hc⟩ := h0
    obtain ⟨_, h4, h5, q, e, _, h6⟩ := create_spec false hc
    generalize hS : ({ S.create 0 false with builders := (S.create 0 false).builders.set b (some S.strats.length) } : Setup) = S'
    have e1 : S'.strats = S.strats ++ [⟨0, q, e, c.maxQ, false, none⟩] := by rw [← hS]; exact h6
    have e2 : S'.builders = S.builders.set b (some S.strats.length) := by rw [← hS]; simp only [h4]
    have e3 : S'.machines = S.machines := by rw [← hS]; exact h5
    have ht : S'.strats[S.strats.length]? = some ⟨0, q, e, c.maxQ, false, none⟩ := by rw [e1]; exact get_last
    obtain ⟨h1, h2, h3⟩ := machine_spec ht
    refine ⟨S.strats.length, ?_, ?_, (fun s' h => by cases h), ?_⟩
    · rw [h1, e2]; exact get_set_same ho
    · rw [h2, e3]
    · rw [h3, e3]; exact ⟨_, get_set_same ht, rfl⟩

theorem config0 (cmds : List SetupCmd) : ∃ c, (Setup.run cmds).configs[0]? = some c := by
  have : ∀ cmds : List SetupCmd, 0 < (Setup.run cmds).configs.length := by
    intro cmds
    have h := kept_run (P := fun S => 0 < S.configs.length) (pre := []) (mid := cmds) (fun S cmd _ h => ?_) (by decide)
    · simpa using h
    · cases hp : plain cmd with
      | true => exact Nat.lt_of_lt_of_le h (grow_step hp).len
      | false =>
        cases cmd <;> simp only [plain, Bool.true_eq_false] at hp <;> simp only [Setup.step] <;> (repeat' split) <;> simpa using h
  exact ⟨_, List.getElem?_eq_getElem (this cmds)⟩

/-- Machines never get another strategy. -/
theorem machines_kept {cmd : SetupCmd} {m : Nat} (h : S.machines[m]? = some s) : (S.step cmd).machines[m]? = some s := by
  have hc : ∀ k b, (S.create k b).machines = S.machines := by
    intro k b
    cases hc : S.configs[k]? with
    | some c => exact (create_spec b hc).2.2.1
    | none => unfold Setup.create; simp [hc]
  have hmm : ∀ (S' : Setup) s', S'.machines = S.machines → (S'.machine s').machines[m]? = some s := by
    intro S' s' hs
    unfold Setup.machine
    split
    · rw [hs]; exact h
    · simp only [hs]; exact get_append h
  cases cmd <;> simp only [Setup.step] <;> (repeat' split) <;> first
    | exact h
    | (rw [hc]; exact h)
    | exact hmm _ _ rfl
    | exact hmm _ _ (hc _ _)

/-- A builder that has a strategy keeps it. -/
theorem builder_kept {cmd : SetupCmd} (h : S.builders[b]? = some (some s)) (hc : ∀ s', cmd ≠ .setStrategy b s') :
    (S.step cmd).builders[b]? = some (some s) := by
  have hcr : ∀ k b, (S.create k b).builders = S.builders := by
    intro k b
    cases hc : S.configs[k]? with
    | some c => exact (create_spec b hc).2.1
    | none => unfold Setup.create; simp [hc]
  have hmm : ∀ (S' : Setup) s', (S'.machine s').builders = S'.builders := by
    intro S' s'
    unfold Setup.machine
    split <;> rfl
  cases cmd with
  | setStrategy b' s' =>
    simp only [Setup.step]
    split
    · have : b ≠ b' := fun hb => hc s' (by rw [hb])
      simp only [get_set_ne this]; exact h
    · exact h
  | build b' =>
    simp only [Setup.step]
    split
    · exact h
    · rw [hmm]; exact h
    · rename_i h1
      rw [hmm]
      have : b ≠ b' := fun hb => by subst hb; rw [h] at h1; cases h1
      simp only [hcr, get_set_ne this]; exact h
  | newBuilder => exact get_append h
  | createDefault k => simp only [Setup.step, hcr]; exact h
  | createDropDuplicate k => simp only [Setup.step, hcr]; exact h
  | newQueue | newExecutor | newConfig => exact h
  | withExecutor | withEventQueue | withMaxQueueSize => simp only [Setup.step]; (repeat' split) <;> exact h

theorem wire_mach {m : Nat} {env : Env} (h : S.machines[m]? = some s) : ((S.wire env).mach m).strat = s := by simp [Setup.wire, h]

/-- The machine made by a `build()`. -/
theorem built {pre post : List SetupCmd} (hw : Writable (pre ++ .build b :: post)) :
    ∃ s, (Setup.run (pre ++ [.build b])).builders[b]? = some (some s) ∧
      (∀ env, (((Setup.run (pre ++ .build b :: post)).wire env).mach (Setup.run pre).machines.length).strat = s) ∧
      (∀ s', (Setup.run pre).builders[b]? = some (some s') → s = s') ∧ (Setup.run (pre ++ [.build b])).machines = (Setup.run pre).machines ++ [s] := by
  obtain ⟨s, h1, h2, h3, _⟩ := build_spec (b := b) (hw pre _ post rfl) (made_run pre) (config0 pre)
  have h5 : Setup.run (pre ++ [.build b]) = (Setup.run pre).step (.build b) := by rw [run_append]; rfl
  refine ⟨s, h5 ▸ h1, fun env => ?_, h3, h5 ▸ h2⟩
  have := kept_run (P := fun S => S.machines[(Setup.run pre).machines.length]? = some s) (pre := pre ++ [.build b]) (mid := post)
    (fun S c _ h => machines_kept h) (by rw [h5, h2]; exact get_last)
  rw [show pre ++ [.build b] ++ post = pre ++ .build b :: post by simp] at this
  exact wire_mach this

/-- The strategy knows the table of the last machine built with it. -/
theorem owner_run (cmds : List SetupCmd) : ∀ (m s : Nat), (Setup.run cmds).machines[m]? = some s →
    (∀ m' : Nat, m < m' → (Setup.run cmds).machines[m']? ≠ some s) → ∃ t : FStrat, (Setup.run cmds).strats[s]? = some t ∧ t.owner = some m := by
  intro m s h1 h2
  obtain ⟨t, m', h3, h4⟩ := (made_run cmds).owned m s h1
  have h5 := kept_run (P := fun S => ∀ (s : Nat) (t : FStrat) (m m' : Nat), S.strats[s]? = some t → t.owner = some m' →
    S.machines[m]? = some s → m ≤ m') (pre := []) (mid := cmds) ?_ ?_
  · have h6 : m ≤ m' := h5 s t m m' (by simpa using h3) h4 (by simpa using h1)
    have h7 := (made_run cmds).own s t m' h3 h4
    refine ⟨t, h3, ?_⟩
    rw [h4]
    rcases Nat.lt_or_ge m m' with h | h
    · exact absurd h7 (h2 m' h)
    · rw [Nat.le_antisymm h6 h]
  · intro S cmd _ ih
    have hcr : ∀ (k : Nat) (b : Bool), ∀ (s : Nat) (t : FStrat) (m m' : Nat), (S.create k b).strats[s]? = some t → t.owner = some m' →
        (S.create k b).machines[m]? = some s → m ≤ m' := by
      intro k b s t m m' ha hb hc'
      cases hc : S.configs[k]? with
      | some c =>
        obtain ⟨_, _, h5, q, e, _, h6⟩ := create_spec b hc
        rw [h6] at ha; rw [h5] at hc'
        rcases get_append_inv ha with ha | ⟨_, rfl⟩
        · exact ih s t m m' ha hb hc'
        · cases hb
      | none =>
        have : S.create k b = S := by unfold Setup.create; simp [hc]
        rw [this] at ha hc'; exact ih s t m m' ha hb hc'
    have hmm : ∀ (S' : Setup) (s' : Nat), (∀ (s : Nat) (t : FStrat) (m m' : Nat), S'.strats[s]? = some t → t.owner = some m' →
        S'.machines[m]? = some s → m ≤ m') → ∀ (s : Nat) (t : FStrat) (m m' : Nat), (S'.machine s').strats[s]? = some t → t.owner = some m' →
        (S'.machine s').machines[m]? = some s → m ≤ m' := by
      intro S' s' ih s t m m' ha hb hc'
      unfold Setup.machine at ha hc'
      split at ha
      · rename_i h; simp only [h] at hc'; exact ih s t m m' ha hb hc'
      · rename_i t0 h
        simp only [h] at hc'
        rcases get_set_inv ha with ⟨rfl, rfl⟩ | ⟨hn, ha⟩
        · cases hb
          rcases get_append_inv hc' with h | ⟨h, _⟩
          · obtain ⟨hl, _⟩ := List.getElem?_eq_some_iff.1 h; omega
          · omega
        · rcases get_append_inv hc' with h | ⟨_, h⟩
          · exact ih s t m m' ha hb h
          · exact absurd h hn
    cases cmd <;> simp only [Setup.step] <;> (repeat' split) <;> first
      | exact ih
      | exact hcr _ _
      | exact hmm _ _ ih
      | exact hmm _ _ (hcr _ _)
  · intro s t m m' h; simp [Setup.run] at h

end Wiring

section
variable {env : Env} {pre mid post : List SetupCmd} {b : Nat} {s : SId}

/-- C73: a machine has the strategy its builder was given last. -/
theorem C73_given (hw : Writable (pre ++ .setStrategy b s :: (mid ++ .build b :: post))) (hm : ∀ s', .setStrategy b s' ∉ mid) :
    let E := (Setup.run (pre ++ .setStrategy b s :: (mid ++ .build b :: post))).wire env
    (E.mach (Setup.run (pre ++ .setStrategy b s :: mid)).machines.length).strat = s := by
  obtain ⟨s', _, h2, h3, _⟩ := Wiring.built (pre := pre ++ .setStrategy b s :: mid) (b := b) (post := post) (by simpa using hw)
  have hr := hw pre _ _ rfl
  obtain ⟨o, ho⟩ : ∃ o, (Setup.run pre).builders[b]? = some o := ⟨_, List.getElem?_eq_getElem hr.1⟩
  obtain ⟨t, ht⟩ : ∃ t, (Setup.run pre).strats[s]? = some t := ⟨_, List.getElem?_eq_getElem hr.2⟩
  have h4 : (Setup.run (pre ++ [.setStrategy b s])).builders[b]? = some (some s) := by
    rw [Wiring.run_append]
    simp only [List.foldl_cons, List.foldl_nil, Setup.step, ho, ht]
    exact get_set_same ho
  have h5 := Wiring.kept_run (P := fun S => S.builders[b]? = some (some s)) (mid := mid)
    (fun S c hc h => Wiring.builder_kept h (fun s' h => hm s' (h ▸ hc))) h4
  rw [show pre ++ [.setStrategy b s] ++ mid = pre ++ .setStrategy b s :: mid by simp] at h5
  have := h2 env
  rw [show pre ++ .setStrategy b s :: mid ++ .build b :: post = pre ++ .setStrategy b s :: (mid ++ .build b :: post) by simp, h3 _ h5] at this
  exact this

/-- C73: two machines built by one builder, which was not given another strategy in between, have one strategy; so events of each
are in the way of the other: the hypothesis under which machines are independent is false for both. -/
theorem C73_shared (hw : Writable (pre ++ .build b :: (mid ++ .build b :: post))) (hm : ∀ s', .setStrategy b s' ∉ mid) :
    let E := (Setup.run (pre ++ .build b :: (mid ++ .build b :: post))).wire env
    let m1 := (Setup.run pre).machines.length
    let m2 := (Setup.run (pre ++ .build b :: mid)).machines.length
    m1 < m2 ∧ (E.mach m1).strat = (E.mach m2).strat ∧ ¬ Private E m1 ∧ ¬ Private E m2 := by
  obtain ⟨s1, a1, a2, _, a4⟩ := Wiring.built hw
  obtain ⟨s2, _, b2, b3, _⟩ := Wiring.built (pre := pre ++ .build b :: mid) (b := b) (post := post) (by simpa using hw)
  have h5 := Wiring.kept_run (P := fun S => S.builders[b]? = some (some s1)) (mid := mid)
    (fun S c hc h => Wiring.builder_kept h (fun s' h => hm s' (h ▸ hc))) a1
  have h6 := Wiring.kept_run (P := fun S => S.machines[(Setup.run pre).machines.length]? = some s1) (mid := mid)
    (fun S c hc h => Wiring.machines_kept h) (by rw [a4]; exact get_last)
  rw [show pre ++ [.build b] ++ mid = pre ++ .build b :: mid by simp] at h5 h6
  have hlt := (List.getElem?_eq_some_iff.1 h6).1
  have e2 := b2 env
  rw [show pre ++ .build b :: mid ++ .build b :: post = pre ++ .build b :: (mid ++ .build b :: post) by simp, b3 _ h5] at e2
  have heq := (a2 env).trans e2.symm
  exact ⟨hlt, heq, fun hp => Nat.ne_of_lt hlt (hp.mach _ heq.symm).symm, fun hp => Nat.ne_of_lt hlt (hp.mach _ heq)⟩

/-- C73: a strategy used for several machines works with the transition table of the one built last. -/
theorem C73_last_table {cmds : List SetupCmd} {m : MId} (h1 : (Setup.run cmds).machines[m]? = some s)
    (h2 : ∀ m' : Nat, m < m' → (Setup.run cmds).machines[m']? ≠ some s) :
    (((Setup.run cmds).wire env).strat s).table = (env.mach m).table := by
  obtain ⟨t, h3, h4⟩ := Wiring.owner_run cmds m s h1 h2
  simp [Setup.wire, h3, h4]

end

namespace Demo

/-- A config with a bounded queue, whose bound is changed between the two strategies made from it; then a builder that is given the
first strategy and used twice. -/
def reuse : List SetupCmd :=
  [.newConfig, .newExecutor 3, .withMaxQueueSize 1 5, .createDefault 1, .withExecutor 1 0, .withMaxQueueSize 1 7, .createDropDuplicate 1,
   .newBuilder, .setStrategy 0 0, .build 0, .build 0]

theorem reuse_writable : Writable reuse := by decide +kernel

/-- Machine 0 has the demo table, machine 1 the table `cfgD`. -/
def reused : Env := (Setup.run reuse).wire twoTables

/-- Machine 0 is started and `go` is fired; nobody does anything with machine 1. -/
def misled : Conf :=
  drive reused conf ([.begin 0 (.call (.start 0) fun _ => .call (.fire 0 go) fun _ => .done)] ++ runN (.client 0) 100 ++
    [.dispatch 1 0 0] ++ runN (.worker 1 0) 200)

theorem misled_reach : ReachFrom reused conf misled := drive_reach _ _ _

end Demo

/-- The hypotheses hold for both strategies made from the config. -/
example : (Demo.reused.strat 0).maxQ = 5 ∧ (Demo.reused.strat 0).dropDup = false ∧ Demo.reused.width (Demo.reused.strat 0).exec = 1 := by
  obtain ⟨h1, h2, _, _, h3⟩ := C72_settings (env := Demo.twoTables) (pre := Demo.reuse.take 3) (cmd := .createDefault 1)
    (post := Demo.reuse.drop 4) Demo.reuse_writable rfl
  exact ⟨h1, h2, h3 rfl⟩
example : (Demo.reused.strat 1).maxQ = 7 ∧ (Demo.reused.strat 1).dropDup = true ∧ (Demo.reused.strat 1).exec = (0 : Nat) := by
  obtain ⟨h1, h2, h3, _, _⟩ := C72_settings (env := Demo.twoTables) (pre := Demo.reuse.take 6) (cmd := .createDropDuplicate 1)
    (post := Demo.reuse.drop 7) Demo.reuse_writable rfl
  exact ⟨h1, h2, h3 0 rfl⟩
example : (Demo.reused.strat 0).queue = (Demo.reused.strat 1).queue :=
  C72_shared_queue (env := Demo.twoTables) (pre := Demo.reuse.take 3) (cmd := .createDefault 1) (mid := [.withExecutor 1 0, .withMaxQueueSize 1 7])
    (cmd' := .createDropDuplicate 1) (post := Demo.reuse.drop 7) (k := 1) Demo.reuse_writable rfl rfl (by simp)
example (env : Env) : let E := (Setup.run [.newConfig, .createDefault 1, .createDefault 1]).wire env
    (E.strat 0).exec = (E.strat 1).exec :=
  C72_shared_executor (pre := [.newConfig]) (cmd := .createDefault 1) (mid := []) (cmd' := .createDefault 1) (post := []) (k := 1)
    (by decide +kernel) rfl rfl (by simp)
example : (Demo.reused.mach 0).strat = (0 : Nat) :=
  C73_given (env := Demo.twoTables) (pre := Demo.reuse.take 8) (b := 0) (s := (0 : Nat)) (mid := []) (post := [.build 0])
    Demo.reuse_writable (by simp)
example : ¬ Private Demo.reused 0 ∧ ¬ Private Demo.reused 1 :=
  (C73_shared (env := Demo.twoTables) (pre := Demo.reuse.take 9) (b := 0) (mid := []) (post := []) Demo.reuse_writable (by simp)).2.2
example : (Demo.reused.strat 0).table = Demo.cfgD.table :=
  C73_last_table (env := Demo.twoTables) (cmds := Demo.reuse) (m := (1 : Nat)) (s := (0 : Nat)) (by decide +kernel) (fun m' h => by
    rw [show (Setup.run Demo.reuse).machines = [0, 0] by decide +kernel]
    match m', h with
    | n + 2, _ => simp)

/-- The claim that machines built by one builder work on their own is false: an execution with two such machines of which nobody ever
touches the second one; the first one, configured to go from A to B when it receives `go`, goes to D, a state it was never configured
with, because its strategy has the transition table of the second machine. -/
theorem C73_negation : ∃ env0 c0 c, let env := (Setup.run Demo.reuse).wire env0
    Initial c0 ∧ ReachFrom env c0 c ∧ (env.desc 0).reaction (some Demo.A) Demo.go = .goes Demo.B ∧
    (∀ ev, (env.desc 0).reaction (some Demo.D) ev = .nowhere) ∧
    (∀ e ∈ c.w.trace, Spec.Mon.concerns 1 e.2 = false) ∧
    takenOf 0 c.w.trace = [Demo.go] ∧ (c.w.mach 0).cur = some Demo.D :=
  ⟨Demo.twoTables, Demo.conf, Demo.misled, Demo.conf_initial _, Demo.misled_reach, (by decide +kernel), (fun _ => rfl),
    (fun e he => by
      have := (by decide +kernel : Demo.misled.w.trace.all (fun e => !Spec.Mon.concerns 1 e.2) = true)
      simpa using List.all_eq_true.1 this _ he), (by decide +kernel), (by decide +kernel)⟩

end Verif
