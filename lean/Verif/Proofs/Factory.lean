import Verif.Model.Factory
/-
Which strategies share queues and executors.
-/

namespace Verif

section
variable {α : Type} {l : List α} {x a : α} {i k : Nat}

theorem get_append (h : l[i]? = some a) : (l ++ [x])[i]? = some a := by
  obtain ⟨hi, _⟩ := List.getElem?_eq_some_iff.1 h
  rw [List.getElem?_append_left hi, h]

theorem get_append_inv (h : (l ++ [x])[i]? = some a) : l[i]? = some a ∨ (i = l.length ∧ a = x) := by
  by_cases hi : i < l.length
  · rw [List.getElem?_append_left hi] at h; exact .inl h
  · rw [List.getElem?_append_right (by omega)] at h
    obtain ⟨h1, h2⟩ := List.getElem?_eq_some_iff.1 h
    simp at h1 h2
    exact .inr ⟨by omega, h2.symm⟩

theorem get_last : (l ++ [x])[l.length]? = some x := by simp

theorem get_set_inv (h : (l.set k x)[i]? = some a) : (i = k ∧ a = x) ∨ (i ≠ k ∧ l[i]? = some a) := by
  rw [List.getElem?_set] at h
  split at h
  · split at h
    · cases h; exact .inl ⟨by omega, rfl⟩
    · cases h
  · exact .inr ⟨by omega, h⟩

theorem get_set_same {b : α} (h : l[k]? = some b) : (l.set k x)[k]? = some x := by
  obtain ⟨hi, _⟩ := List.getElem?_eq_some_iff.1 h
  simp [hi]

theorem get_set_ne (h : i ≠ k) : (l.set k x)[i]? = l[i]? := by
  rw [List.getElem?_set, if_neg (by omega)]

theorem get_fresh (h : l[i]? = some a) : i ≠ l.length := by
  obtain ⟨hi, _⟩ := List.getElem?_eq_some_iff.1 h; omega

end

/-- Queues and executors are made by user code or by the one config that hands them out. -/
structure Made (S : Setup) : Prop where
  cq : ∀ (k : Nat) (c : FConfig) (q : Nat), S.configs[k]? = some c → c.queue = some q → S.queues[q]? = some none ∨ S.queues[q]? = some (some k)
  ce : ∀ (k : Nat) (c : FConfig) (e : Nat), S.configs[k]? = some c → c.exec = some e → (∃ n, S.execs[e]? = some (none, n)) ∨ S.execs[e]? = some (some k, 1)
  sq : ∀ (s : Nat) (t : FStrat), S.strats[s]? = some t → S.queues[t.queue]? = some none ∨ S.queues[t.queue]? = some (some t.cfg)
  se : ∀ (s : Nat) (t : FStrat), S.strats[s]? = some t → (∃ n, S.execs[t.exec]? = some (none, n)) ∨ S.execs[t.exec]? = some (some t.cfg, 1)
  bs : ∀ (b s : Nat), S.builders[b]? = some (some s) → ∃ t : FStrat, S.strats[s]? = some t
  own : ∀ (s : Nat) (t : FStrat) (m : Nat), S.strats[s]? = some t → t.owner = some m → S.machines[m]? = some s
  owned : ∀ (m s : Nat), S.machines[m]? = some s → ∃ (t : FStrat) (m' : Nat), S.strats[s]? = some t ∧ t.owner = some m'

/-- Config `k` was never given a queue. -/
structure LazyQ (k : Nat) (S : Setup) : Prop where
  c : ∀ (c : FConfig) (q : Nat), S.configs[k]? = some c → c.queue = some q → S.queues[q]? = some (some k)
  s : ∀ (s : Nat) (t : FStrat), S.strats[s]? = some t → t.cfg = k → ∃ c : FConfig, S.configs[k]? = some c ∧ c.queue = some t.queue

/-- Config `k` was never given an executor. -/
structure LazyE (k : Nat) (S : Setup) : Prop where
  c : ∀ (c : FConfig) (e : Nat), S.configs[k]? = some c → c.exec = some e → S.execs[e]? = some (some k, 1)
  s : ∀ (s : Nat) (t : FStrat), S.strats[s]? = some t → t.cfg = k → ∃ c : FConfig, S.configs[k]? = some c ∧ c.exec = some t.exec

/-- What one step can do. The label tells which config is given an executor (`false`) or a queue (`true`). -/
inductive Prim (S : Setup) : Option (Nat × Bool) → Setup → Prop
  | newQueue : Prim S none { S with queues := S.queues ++ [none] }
  | newExec {n} : Prim S none { S with execs := S.execs ++ [(none, n)] }
  | newConfig : Prim S none { S with configs := S.configs ++ [{}] }
  | giveExec {k c e n} : S.configs[k]? = some c → S.execs[e]? = some (none, n) → k ≠ 0 →
      Prim S (some (k, false)) { S with configs := S.configs.set k { c with exec := some e } }
  | giveQueue {k c q} : S.configs[k]? = some c → S.queues[q]? = some none → k ≠ 0 →
      Prim S (some (k, true)) { S with configs := S.configs.set k { c with queue := some q } }
  | giveMax {k c n} : S.configs[k]? = some c → Prim S none { S with configs := S.configs.set k { c with maxQ := n } }
  | makeExec {k c} : S.configs[k]? = some c → c.exec = none → Prim S none { S with
      execs := S.execs ++ [(some k, 1)], configs := S.configs.set k { c with exec := some S.execs.length } }
  | makeQueue {k c} : S.configs[k]? = some c → c.queue = none → Prim S none { S with
      queues := S.queues ++ [some k], configs := S.configs.set k { c with queue := some S.queues.length } }
  | newStrat {k c q e n b} : S.configs[k]? = some c → c.queue = some q → c.exec = some e →
      Prim S none { S with strats := S.strats ++ [⟨k, q, e, n, b, none⟩] }
  | newBuilder : Prim S none { S with builders := S.builders ++ [none] }
  | setBuilder {b s t} : S.strats[s]? = some t → Prim S none { S with builders := S.builders.set b (some s) }
  | machine {s t} : S.strats[s]? = some t → Prim S none { S with
      machines := S.machines ++ [s], strats := S.strats.set s { t with owner := some S.machines.length } }

theorem Made.prim {S S' : Setup} {lb : Option (Nat × Bool)} (h : Made S) (hp : Prim S lb S') : Made S' := by
  cases hp with
  | newQueue =>
    exact { h with
      cq := fun k c q h1 h2 => (h.cq k c q h1 h2).imp get_append get_append
      sq := fun s t h1 => (h.sq s t h1).imp get_append get_append }
  | newExec =>
    exact { h with
      ce := fun k c q h1 h2 => (h.ce k c q h1 h2).imp (fun ⟨n, h⟩ => ⟨n, get_append h⟩) get_append
      se := fun s t h1 => (h.se s t h1).imp (fun ⟨n, h⟩ => ⟨n, get_append h⟩) get_append }
  | newConfig =>
    refine { h with cq := ?_, ce := ?_ }
    · intro k c q h1 h2
      rcases get_append_inv h1 with h1 | ⟨_, rfl⟩
      · exact h.cq k c q h1 h2
      · cases h2
    · intro k c q h1 h2
      rcases get_append_inv h1 with h1 | ⟨_, rfl⟩
      · exact h.ce k c q h1 h2
      · cases h2
  | giveExec hc he _ =>
    refine { h with cq := ?_, ce := ?_ }
    · intro k c q h1 h2
      rcases get_set_inv h1 with ⟨rfl, rfl⟩ | ⟨_, h1⟩
      · exact h.cq _ _ q hc h2
      · exact h.cq k c q h1 h2
    · intro k c q h1 h2
      rcases get_set_inv h1 with ⟨rfl, rfl⟩ | ⟨_, h1⟩
      · cases h2; exact .inl ⟨_, he⟩
      · exact h.ce k c q h1 h2
  | giveQueue hc he _ =>
    refine { h with cq := ?_, ce := ?_ }
    · intro k c q h1 h2
      rcases get_set_inv h1 with ⟨rfl, rfl⟩ | ⟨_, h1⟩
      · cases h2; exact .inl he
      · exact h.cq k c q h1 h2
    · intro k c q h1 h2
      rcases get_set_inv h1 with ⟨rfl, rfl⟩ | ⟨_, h1⟩
      · exact h.ce _ _ q hc h2
      · exact h.ce k c q h1 h2
  | giveMax hc =>
    refine { h with cq := ?_, ce := ?_ }
    · intro k c q h1 h2
      rcases get_set_inv h1 with ⟨rfl, rfl⟩ | ⟨_, h1⟩
      · exact h.cq _ _ q hc h2
      · exact h.cq k c q h1 h2
    · intro k c q h1 h2
      rcases get_set_inv h1 with ⟨rfl, rfl⟩ | ⟨_, h1⟩
      · exact h.ce _ _ q hc h2
      · exact h.ce k c q h1 h2
  | makeExec hc he =>
    refine { h with cq := ?_, ce := ?_, se := ?_ }
    · intro k c q h1 h2
      rcases get_set_inv h1 with ⟨rfl, rfl⟩ | ⟨_, h1⟩
      · exact h.cq _ _ q hc h2
      · exact h.cq k c q h1 h2
    · intro k c q h1 h2
      rcases get_set_inv h1 with ⟨rfl, rfl⟩ | ⟨_, h1⟩
      · cases h2; exact .inr get_last
      · exact (h.ce k c q h1 h2).imp (fun ⟨n, h⟩ => ⟨n, get_append h⟩) get_append
    · exact fun s t h1 => (h.se s t h1).imp (fun ⟨n, h⟩ => ⟨n, get_append h⟩) get_append
  | makeQueue hc he =>
    refine { h with cq := ?_, ce := ?_, sq := ?_ }
    · intro k c q h1 h2
      rcases get_set_inv h1 with ⟨rfl, rfl⟩ | ⟨_, h1⟩
      · cases h2; exact .inr get_last
      · exact (h.cq k c q h1 h2).imp get_append get_append
    · intro k c q h1 h2
      rcases get_set_inv h1 with ⟨rfl, rfl⟩ | ⟨_, h1⟩
      · exact h.ce _ _ q hc h2
      · exact h.ce k c q h1 h2
    · exact fun s t h1 => (h.sq s t h1).imp get_append get_append
  | newStrat hc hq he =>
    refine { h with sq := ?_, se := ?_, bs := ?_, own := ?_, owned := ?_ }
    · intro s t h1
      rcases get_append_inv h1 with h1 | ⟨_, rfl⟩
      · exact h.sq s t h1
      · exact h.cq _ _ _ hc hq
    · intro s t h1
      rcases get_append_inv h1 with h1 | ⟨_, rfl⟩
      · exact h.se s t h1
      · exact h.ce _ _ _ hc he
    · intro b s h1
      obtain ⟨t, h2⟩ := h.bs b s h1
      exact ⟨t, get_append h2⟩
    · intro s t m h1 h2
      rcases get_append_inv h1 with h1 | ⟨_, rfl⟩
      · exact h.own s t m h1 h2
      · cases h2
    · intro m s h1
      obtain ⟨t, m', h2, h3⟩ := h.owned m s h1
      exact ⟨t, m', get_append h2, h3⟩
  | newBuilder =>
    refine { h with bs := ?_ }
    intro b s h1
    rcases get_append_inv h1 with h1 | ⟨_, h1⟩
    · exact h.bs b s h1
    · cases h1
  | setBuilder hs =>
    refine { h with bs := ?_ }
    intro b s h1
    rcases get_set_inv h1 with ⟨_, h1⟩ | ⟨_, h1⟩
    · cases h1; exact ⟨_, hs⟩
    · exact h.bs b s h1
  | machine hs =>
    rename_i s0 t0
    refine { h with sq := ?_, se := ?_, bs := ?_, own := ?_, owned := ?_ }
    · intro s t h1
      rcases get_set_inv h1 with ⟨rfl, rfl⟩ | ⟨_, h1⟩
      · exact h.sq _ t0 hs
      · exact h.sq s t h1
    · intro s t h1
      rcases get_set_inv h1 with ⟨rfl, rfl⟩ | ⟨_, h1⟩
      · exact h.se _ t0 hs
      · exact h.se s t h1
    · intro b s h1
      obtain ⟨t, h2⟩ := h.bs b s h1
      by_cases hn : s = s0
      · subst hn; exact ⟨_, get_set_same h2⟩
      · exact ⟨t, (get_set_ne hn).trans h2⟩
    · intro s t m h1 h2
      rcases get_set_inv h1 with ⟨rfl, rfl⟩ | ⟨_, h1⟩
      · cases h2; exact get_last
      · exact get_append (h.own s t m h1 h2)
    · intro m s h1
      by_cases hn : s = s0
      · subst hn; exact ⟨_, _, get_set_same hs, rfl⟩
      · rcases get_append_inv h1 with h1 | ⟨_, rfl⟩
        · obtain ⟨t, m', h2, h3⟩ := h.owned m s h1
          exact ⟨t, m', (get_set_ne hn).trans h2, h3⟩
        · exact absurd rfl hn

/-- A step that does not give config `k` a queue. -/
theorem LazyQ.prim' {S S' : Setup} {k : Nat} {lb : Option (Nat × Bool)} (h : LazyQ k S) (hp : Prim S lb S')
    (hno : ∀ (c' : FConfig) (q : Nat), S'.configs[k]? = some c' → c'.queue = some q → (∃ c : FConfig, S.configs[k]? = some c ∧ c.queue = some q) ∨
      S'.queues[q]? = some (some k))
    (hkeep : ∀ (c : FConfig) (q : Nat), S.configs[k]? = some c → c.queue = some q → ∃ c' : FConfig, S'.configs[k]? = some c' ∧ c'.queue = some q) : LazyQ k S' := by
  have hq : ∀ (q : Nat) o, S.queues[q]? = some o → S'.queues[q]? = some o := by
    intro q o h
    cases hp <;> first | exact h | exact get_append h
  refine ⟨?_, ?_⟩
  · intro c' q h1 h2
    rcases hno c' q h1 h2 with ⟨c, h3, h4⟩ | h3
    · exact hq _ _ (h.c c q h3 h4)
    · exact h3
  · have hs : ∀ (s : Nat) (t : FStrat), S'.strats[s]? = some t → t.cfg = k → (∃ (s : Nat) (t0 : FStrat), S.strats[s]? = some t0 ∧ t0.cfg = k ∧ t0.queue = t.queue) ∨
        ∃ c : FConfig, S'.configs[k]? = some c ∧ c.queue = some t.queue := by
      intro s t h1 h2
      cases hp with
      | newStrat hc hq' he =>
        rcases get_append_inv h1 with h1 | ⟨_, rfl⟩
        · exact .inl ⟨s, t, h1, h2, rfl⟩
        · subst h2; exact .inr ⟨_, hc, hq'⟩
      | machine hs =>
        rcases get_set_inv h1 with ⟨rfl, rfl⟩ | ⟨_, h1⟩
        · exact .inl ⟨_, _, hs, h2, rfl⟩
        · exact .inl ⟨s, t, h1, h2, rfl⟩
      | _ => exact .inl ⟨s, t, h1, h2, rfl⟩
    intro s t h1 h2
    rcases hs s t h1 h2 with ⟨s', t0, h3, h4, h5⟩ | h3
    · obtain ⟨c, h6, h7⟩ := h.s s' t0 h3 h4
      rw [← h5]
      exact hkeep c _ h6 h7
    · exact h3

theorem LazyE.prim' {S S' : Setup} {k : Nat} {lb : Option (Nat × Bool)} (h : LazyE k S) (hp : Prim S lb S')
    (hno : ∀ (c' : FConfig) (q : Nat), S'.configs[k]? = some c' → c'.exec = some q → (∃ c : FConfig, S.configs[k]? = some c ∧ c.exec = some q) ∨
      S'.execs[q]? = some (some k, 1))
    (hkeep : ∀ (c : FConfig) (q : Nat), S.configs[k]? = some c → c.exec = some q → ∃ c' : FConfig, S'.configs[k]? = some c' ∧ c'.exec = some q) : LazyE k S' := by
  have hq : ∀ (q : Nat) o, S.execs[q]? = some o → S'.execs[q]? = some o := by
    intro q o h
    cases hp <;> first | exact h | exact get_append h
  refine ⟨?_, ?_⟩
  · intro c' q h1 h2
    rcases hno c' q h1 h2 with ⟨c, h3, h4⟩ | h3
    · exact hq _ _ (h.c c q h3 h4)
    · exact h3
  · have hs : ∀ (s : Nat) (t : FStrat), S'.strats[s]? = some t → t.cfg = k → (∃ (s : Nat) (t0 : FStrat), S.strats[s]? = some t0 ∧ t0.cfg = k ∧ t0.exec = t.exec) ∨
        ∃ c : FConfig, S'.configs[k]? = some c ∧ c.exec = some t.exec := by
      intro s t h1 h2
      cases hp with
      | newStrat hc hq he =>
        rcases get_append_inv h1 with h1 | ⟨_, rfl⟩
        · exact .inl ⟨s, t, h1, h2, rfl⟩
        · subst h2; exact .inr ⟨_, hc, he⟩
      | machine hs =>
        rcases get_set_inv h1 with ⟨rfl, rfl⟩ | ⟨_, h1⟩
        · exact .inl ⟨_, _, hs, h2, rfl⟩
        · exact .inl ⟨s, t, h1, h2, rfl⟩
      | _ => exact .inl ⟨s, t, h1, h2, rfl⟩
    intro s t h1 h2
    rcases hs s t h1 h2 with ⟨s', t0, h3, h4, h5⟩ | h3
    · obtain ⟨c, h6, h7⟩ := h.s s' t0 h3 h4
      rw [← h5]
      exact hkeep c _ h6 h7
    · exact h3

theorem LazyQ.prim {S S' : Setup} {k : Nat} {lb : Option (Nat × Bool)} (h : LazyQ k S) (hp : Prim S lb S')
    (hl : lb ≠ some (k, true)) : LazyQ k S' := by
  refine h.prim' hp ?_ ?_
  · intro c' q h1 h2
    cases hp with
    | newConfig =>
      rcases get_append_inv h1 with h1 | ⟨_, rfl⟩
      · exact .inl ⟨c', h1, h2⟩
      · cases h2
    | giveExec hc _ _ =>
      rcases get_set_inv h1 with ⟨rfl, rfl⟩ | ⟨_, h1⟩
      · exact .inl ⟨_, hc, h2⟩
      · exact .inl ⟨c', h1, h2⟩
    | giveQueue hc _ _ =>
      rcases get_set_inv h1 with ⟨rfl, rfl⟩ | ⟨_, h1⟩
      · exact absurd rfl hl
      · exact .inl ⟨c', h1, h2⟩
    | giveMax hc =>
      rcases get_set_inv h1 with ⟨rfl, rfl⟩ | ⟨_, h1⟩
      · exact .inl ⟨_, hc, h2⟩
      · exact .inl ⟨c', h1, h2⟩
    | makeExec hc _ =>
      rcases get_set_inv h1 with ⟨rfl, rfl⟩ | ⟨_, h1⟩
      · exact .inl ⟨_, hc, h2⟩
      · exact .inl ⟨c', h1, h2⟩
    | makeQueue hc _ =>
      rcases get_set_inv h1 with ⟨rfl, rfl⟩ | ⟨_, h1⟩
      · cases h2; exact .inr get_last
      · exact .inl ⟨c', h1, h2⟩
    | _ => exact .inl ⟨c', h1, h2⟩
  · intro c q h1 h2
    cases hp with
    | newConfig => exact ⟨c, get_append h1, h2⟩
    | @giveExec k' c' _ _ hc _ _ =>
      by_cases hk : k = k'
      · subst hk; rw [hc] at h1; cases h1; exact ⟨_, get_set_same hc, h2⟩
      · exact ⟨c, (get_set_ne hk).trans h1, h2⟩
    | @giveQueue k' _ _ hc _ _ =>
      by_cases hk : k = k'
      · subst hk; exact absurd rfl hl
      · exact ⟨c, (get_set_ne hk).trans h1, h2⟩
    | @giveMax k' _ _ hc =>
      by_cases hk : k = k'
      · subst hk; rw [hc] at h1; cases h1; exact ⟨_, get_set_same hc, h2⟩
      · exact ⟨c, (get_set_ne hk).trans h1, h2⟩
    | @makeExec k' _ hc _ =>
      by_cases hk : k = k'
      · subst hk; rw [hc] at h1; cases h1; exact ⟨_, get_set_same hc, h2⟩
      · exact ⟨c, (get_set_ne hk).trans h1, h2⟩
    | @makeQueue k' _ hc hn =>
      by_cases hk : k = k'
      · subst hk; rw [hc] at h1; cases h1; rw [hn] at h2; cases h2
      · exact ⟨c, (get_set_ne hk).trans h1, h2⟩
    | _ => exact ⟨c, h1, h2⟩

theorem LazyE.prim {S S' : Setup} {k : Nat} {lb : Option (Nat × Bool)} (h : LazyE k S) (hp : Prim S lb S')
    (hl : lb ≠ some (k, false)) : LazyE k S' := by
  refine h.prim' hp ?_ ?_
  · intro c' q h1 h2
    cases hp with
    | newConfig =>
      rcases get_append_inv h1 with h1 | ⟨_, rfl⟩
      · exact .inl ⟨c', h1, h2⟩
      · cases h2
    | giveExec hc _ _ =>
      rcases get_set_inv h1 with ⟨rfl, rfl⟩ | ⟨_, h1⟩
      · exact absurd rfl hl
      · exact .inl ⟨c', h1, h2⟩
    | giveQueue hc _ _ =>
      rcases get_set_inv h1 with ⟨rfl, rfl⟩ | ⟨_, h1⟩
      · exact .inl ⟨_, hc, h2⟩
      · exact .inl ⟨c', h1, h2⟩
    | giveMax hc =>
      rcases get_set_inv h1 with ⟨rfl, rfl⟩ | ⟨_, h1⟩
      · exact .inl ⟨_, hc, h2⟩
      · exact .inl ⟨c', h1, h2⟩
    | makeExec hc _ =>
      rcases get_set_inv h1 with ⟨rfl, rfl⟩ | ⟨_, h1⟩
      · cases h2; exact .inr get_last
      · exact .inl ⟨c', h1, h2⟩
    | makeQueue hc _ =>
      rcases get_set_inv h1 with ⟨rfl, rfl⟩ | ⟨_, h1⟩
      · exact .inl ⟨_, hc, h2⟩
      · exact .inl ⟨c', h1, h2⟩
    | _ => exact .inl ⟨c', h1, h2⟩
  · intro c q h1 h2
    cases hp with
    | newConfig => exact ⟨c, get_append h1, h2⟩
    | @giveExec k' _ _ _ hc _ _ =>
      by_cases hk : k = k'
      · subst hk; exact absurd rfl hl
      · exact ⟨c, (get_set_ne hk).trans h1, h2⟩
    | @giveQueue k' _ _ hc _ _ =>
      by_cases hk : k = k'
      · subst hk; rw [hc] at h1; cases h1; exact ⟨_, get_set_same hc, h2⟩
      · exact ⟨c, (get_set_ne hk).trans h1, h2⟩
    | @giveMax k' _ _ hc =>
      by_cases hk : k = k'
      · subst hk; rw [hc] at h1; cases h1; exact ⟨_, get_set_same hc, h2⟩
      · exact ⟨c, (get_set_ne hk).trans h1, h2⟩
    | @makeExec k' _ hc hn =>
      by_cases hk : k = k'
      · subst hk; rw [hc] at h1; cases h1; rw [hn] at h2; cases h2
      · exact ⟨c, (get_set_ne hk).trans h1, h2⟩
    | @makeQueue k' _ hc _ =>
      by_cases hk : k = k'
      · subst hk; rw [hc] at h1; cases h1; exact ⟨_, get_set_same hc, h2⟩
      · exact ⟨c, (get_set_ne hk).trans h1, h2⟩
    | _ => exact ⟨c, h1, h2⟩

/-- A property kept by all primitive steps with allowed labels is kept by all calls. -/
inductive Prims (ok : Option (Nat × Bool) → Prop) (S : Setup) : Setup → Prop
  | refl : Prims ok S S
  | tail {lb S' S''} : Prims ok S S' → ok lb → Prim S' lb S'' → Prims ok S S''

theorem Prims.keep {ok : Option (Nat × Bool) → Prop} {P : Setup → Prop} (hP : ∀ S lb S', ok lb → Prim S lb S' → P S → P S')
    {S S' : Setup} (h : Prims ok S S') (h0 : P S) : P S' := by
  induction h with
  | refl => exact h0
  | tail _ h1 h2 ih => exact hP _ _ _ h1 h2 ih

theorem Prims.trans {ok : Option (Nat × Bool) → Prop} {S S' S'' : Setup} (h : Prims ok S S') (h2 : Prims ok S' S'') : Prims ok S S'' := by
  induction h2 with
  | refl => exact h
  | tail _ h1 h2 ih => exact .tail ih h1 h2

theorem prims_create {ok : Option (Nat × Bool) → Prop} (hok : ok none) (S : Setup) (k : Nat) (b : Bool) :
    Prims ok S (S.create k b) ∧ (∀ c, S.configs[k]? = some c → ∃ t, (S.create k b).strats = S.strats ++ [t] ∧ t.cfg = k) ∧
    (S.create k b).builders = S.builders ∧ (S.create k b).machines = S.machines := by
  unfold Setup.create
  cases hc : S.configs[k]? with
  | none => exact ⟨.refl, fun _ h => by simp at h, rfl, rfl⟩
  | some c =>
    simp only
    have h1 : Prims ok S (S.getExecutor k c).2 ∧ (S.getExecutor k c).2.configs[k]? = some { c with exec := some (S.getExecutor k c).1 } ∧
        (S.getExecutor k c).2.strats = S.strats ∧ (S.getExecutor k c).2.builders = S.builders ∧
        (S.getExecutor k c).2.machines = S.machines := by
      unfold Setup.getExecutor
      split
      · rename_i e he
        refine ⟨.refl, ?_, rfl, rfl, rfl⟩
        rw [hc]
        cases c; cases he; rfl
      · rename_i he
        exact ⟨.tail .refl hok (.makeExec hc he), get_set_same hc, rfl, rfl, rfl⟩
    generalize hS1 : (S.getExecutor k c).2 = S1 at h1
    obtain ⟨h1, h2, h3, h3b, h3m⟩ := h1
    simp only [h2]
    have h4 : Prims ok S1 (S1.getEventQueue k { c with exec := some (S.getExecutor k c).1 }).2 ∧
        (S1.getEventQueue k { c with exec := some (S.getExecutor k c).1 }).2.configs[k]? =
          some { c with exec := some (S.getExecutor k c).1, queue := some (S1.getEventQueue k { c with exec := some (S.getExecutor k c).1 }).1 } ∧
        (S1.getEventQueue k { c with exec := some (S.getExecutor k c).1 }).2.strats = S1.strats ∧
        (S1.getEventQueue k { c with exec := some (S.getExecutor k c).1 }).2.builders = S1.builders ∧
        (S1.getEventQueue k { c with exec := some (S.getExecutor k c).1 }).2.machines = S1.machines := by
      unfold Setup.getEventQueue
      split
      · rename_i q hq
        refine ⟨.refl, ?_, rfl, rfl, rfl⟩
        rw [h2]
        cases c; cases hq; rfl
      · rename_i hq
        exact ⟨.tail .refl hok (.makeQueue h2 hq), get_set_same h2, rfl, rfl, rfl⟩
    generalize (S1.getEventQueue k { c with exec := some (S.getExecutor k c).1 }).2 = S2 at h4 ⊢
    obtain ⟨h4, h5, h6, h6b, h6m⟩ := h4
    refine ⟨.tail (h1.trans h4) hok (.newStrat h5 rfl rfl), fun c' _ => ⟨_, by rw [h6, h3], rfl⟩, by rw [h6b, h3b], by rw [h6m, h3m]⟩

theorem prims_step {ok : Option (Nat × Bool) → Prop} (hok : ok none) {S : Setup} {cmd : SetupCmd} (h0 : ∃ c, S.configs[0]? = some c)
    (hc : ∀ k e, cmd = .withExecutor k e → k ≠ 0 → ok (some (k, false)))
    (hq : ∀ k q, cmd = .withEventQueue k q → k ≠ 0 → ok (some (k, true))) : Prims ok S (S.step cmd) := by
  have hmach : ∀ S1 : Setup, ∀ s, Prims ok S1 (S1.machine s) := by
    intro S1 s
    unfold Setup.machine
    split
    · exact .refl
    · rename_i h; exact .tail .refl hok (.machine h)
  cases cmd with
  | newQueue => exact .tail .refl hok .newQueue
  | newExecutor n => exact .tail .refl hok .newExec
  | newConfig => exact .tail .refl hok .newConfig
  | withExecutor k e =>
    simp only [Setup.step]
    split
    · rename_i h1 h2
      split
      · exact .refl
      · rename_i hk; exact .tail .refl (hc _ _ rfl hk) (.giveExec h1 h2 hk)
    · exact .refl
  | withEventQueue k e =>
    simp only [Setup.step]
    split
    · rename_i h1 h2
      split
      · exact .refl
      · rename_i hk; exact .tail .refl (hq _ _ rfl hk) (.giveQueue h1 h2 hk)
    · exact .refl
  | withMaxQueueSize k e =>
    simp only [Setup.step]
    split
    · rename_i h1
      split
      · exact .refl
      · exact .tail .refl hok (.giveMax h1)
    · exact .refl
  | createDefault k => exact (prims_create hok S k false).1
  | createDropDuplicate k => exact (prims_create hok S k true).1
  | newBuilder => exact .tail .refl hok .newBuilder
  | setStrategy b s =>
    simp only [Setup.step]
    split
    · rename_i h1; exact .tail .refl hok (.setBuilder h1)
    · exact .refl
  | build b =>
    simp only [Setup.step]
    split
    · exact .refl
    · exact hmach _ _
    · obtain ⟨h1, h2, -⟩ := prims_create hok S 0 false
      obtain ⟨c, hc⟩ := h0
      obtain ⟨t, h2, -⟩ := h2 c hc
      refine (h1.tail hok (.setBuilder (b := b) (s := S.strats.length) (t := t) ?_)).trans (hmach _ _)
      rw [h2]; exact get_last

theorem prim_config0 {S S' : Setup} {lb : Option (Nat × Bool)} (h : Prim S lb S') (h0 : ∃ c, S.configs[0]? = some c) :
    ∃ c, S'.configs[0]? = some c := by
  obtain ⟨c, h0⟩ := h0
  have hset : ∀ (k : Nat) (x : FConfig), ∃ c, (S.configs.set k x)[0]? = some c := by
    intro k x
    by_cases hk : 0 = k
    · subst hk; exact ⟨_, get_set_same h0⟩
    · exact ⟨c, (get_set_ne hk).trans h0⟩
  cases h with
  | newConfig => exact ⟨c, get_append h0⟩
  | giveExec _ _ _ => exact hset _ _
  | giveQueue _ _ _ => exact hset _ _
  | giveMax _ => exact hset _ _
  | makeExec _ _ => exact hset _ _
  | makeQueue _ _ => exact hset _ _
  | _ => exact ⟨c, h0⟩

/-- A program none of whose calls is excluded. -/
theorem run_keep {ok : Option (Nat × Bool) → Prop} {P : Setup → Prop} (hok : ok none)
    (hP : ∀ S lb S', ok lb → Prim S lb S' → P S → P S') (h0 : P {}) (cmds : List SetupCmd)
    (hc : ∀ k e, .withExecutor k e ∈ cmds → k ≠ 0 → ok (some (k, false)))
    (hq : ∀ k q, .withEventQueue k q ∈ cmds → k ≠ 0 → ok (some (k, true))) : P (Setup.run cmds) := by
  suffices ∀ S : Setup, (∃ c, S.configs[0]? = some c) ∧ P S → (∃ c, (cmds.foldl Setup.step S).configs[0]? = some c) ∧
      P (cmds.foldl Setup.step S) from (this {} ⟨⟨_, rfl⟩, h0⟩).2
  induction cmds with
  | nil => exact fun S h => h
  | cons x cmds ih =>
    intro S h
    refine ih (fun k e hm => hc k e (by simp [hm])) (fun k q hm => hq k q (by simp [hm])) _ ?_
    refine Prims.keep (P := fun S => (∃ c, S.configs[0]? = some c) ∧ P S) (fun S lb S' h1 h2 h3 => ⟨prim_config0 h2 h3.1, hP S lb S' h1 h2 h3.2⟩)
      (prims_step hok h.1 (fun k e hx => hc k e (by simp [hx])) (fun k q hx => hq k q (by simp [hx]))) h

theorem made_run (cmds : List SetupCmd) : Made (Setup.run cmds) := by
  refine run_keep (ok := fun _ => True) trivial (fun S lb S' _ hp h => h.prim hp) ?_ cmds (fun _ _ _ _ => trivial) (fun _ _ _ _ => trivial)
  refine ⟨?_, ?_, ?_, ?_, ?_, ?_, ?_⟩
  · intro k c q h1 h2
    cases k with
    | zero => simp at h1; subst h1; cases h2
    | succ k => simp at h1
  · intro k c q h1 h2
    cases k with
    | zero => simp at h1; subst h1; cases h2
    | succ k => simp at h1
  all_goals simp

theorem lazyQ_run {cmds : List SetupCmd} {k : Nat} (h : k = 0 ∨ ∀ q, .withEventQueue k q ∉ cmds) : LazyQ k (Setup.run cmds) := by
  refine run_keep (ok := fun lb => lb ≠ some (k, true)) (by simp) (fun S lb S' hl hp h => h.prim hp hl) ?_ cmds (by simp) ?_
  · refine ⟨?_, by simp⟩
    intro c q h1 h2
    cases k with
    | zero => simp at h1; subst h1; cases h2
    | succ k => simp at h1
  · intro k' q hm hk heq
    cases heq
    rcases h with h | h
    · exact hk h
    · exact h q hm

theorem lazyE_run {cmds : List SetupCmd} {k : Nat} (h : k = 0 ∨ ∀ q, .withExecutor k q ∉ cmds) : LazyE k (Setup.run cmds) := by
  refine run_keep (ok := fun lb => lb ≠ some (k, false)) (by simp) (fun S lb S' hl hp h => h.prim hp hl) ?_ cmds ?_ (by simp)
  · refine ⟨?_, by simp⟩
    intro c q h1 h2
    cases k with
    | zero => simp at h1; subst h1; cases h2
    | succ k => simp at h1
  · intro k' q hm hk heq
    cases heq
    rcases h with h | h
    · exact hk h
    · exact h q hm

end Verif
