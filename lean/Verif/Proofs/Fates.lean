import Verif.Proofs.Paths
/-
What every complete API call does.
-/

namespace Verif
open Spec.Calls
open Spec (Item)

section
variable {cfg : Cfg} {t : Tid} {mem : Mem} {mid : List (Tid × Obs)} {os : List Obs} {r : Option Exc}

theorem Admitted.more {a b : List (Tid × Obs)} {m : MId} {ev : Ev} (h : Admitted cfg mem a m ev) : Admitted cfg mem (a ++ b) m ev :=
  ⟨h.started.more, h.alive.more, h.room.more, h.fresh.more⟩

theorem FireFate.more {a b : List (Tid × Obs)} {m : MId} {ev : Ev} (h : FireFate cfg mem a m ev os r) :
    FireFate cfg mem (a ++ b) m ev os r := by
  cases h with
  | before h => exact .before h.more
  | after h1 h2 => exact .after h1.more h2.more
  | full h1 h2 h3 h4 => exact .full h1.more h2.more h3.more h4.more
  | dropped h1 h2 h3 => exact .dropped h1 h2.more h3.more
  | queued h1 h2 => exact .queued (Admitted.more h1) h2.more
  | refused h1 h2 => exact .refused (Admitted.more h1) h2.more
  | queuedCopy h1 h2 h3 => exact .queuedCopy (Admitted.more h1) h2.more h3.more
  | refusedCopy h1 h2 h3 => exact .refusedCopy (Admitted.more h1) h2.more h3.more

/-- Stages of `fire`. -/
def FireI (cfg : Cfg) (mem : Mem) (m : MId) (ev : Ev) (a : List (Tid × Obs)) (os : List Obs) : Stage → Prop
  | .called => os = []
  | .copied e => ∃ n v, e = copyOf ev n ∧ os = [.copied n ev v] ∧ During mem a (fun mem => (mem.pay ev.oid).isSome = true) ∧
      During mem a (fun mem => mem.pay ev.oid = v ∧ mem.copies = n)
  | .queued => Admitted cfg mem a m ev ∧
      ((os = [.accepted (cfg.queue m) m ev] ∧ During mem a (fun mem => mem.pay ev.oid = none)) ∨
       (∃ n v, os = [.copied n ev v, .accepted (cfg.queue m) m (copyOf ev n)] ∧
          During mem a (fun mem => (mem.pay ev.oid).isSome = true) ∧
          During mem a (fun mem => mem.pay ev.oid = v ∧ mem.copies = n)))
  | .inCb c _ => ∀ r, os = [.cb c] ∧ FireFate cfg mem a m ev [.cb c, .cbRet c r] r
  | .done r => FireFate cfg mem a m ev os r
  | _ => False

theorem FireI.more {a b : List (Tid × Obs)} {m : MId} {ev : Ev} {st : Stage} (h : FireI cfg mem m ev a os st) :
    FireI cfg mem m ev (a ++ b) os st := by
  cases st with
  | called => exact h
  | copied e => obtain ⟨n, v, h1, h2, h3, h4⟩ := h; exact ⟨n, v, h1, h2, h3.more, h4.more⟩
  | queued =>
    obtain ⟨h1, h2⟩ := h
    refine ⟨Admitted.more h1, ?_⟩
    rcases h2 with ⟨h2, h3⟩ | ⟨n, v, h2, h3, h4⟩
    · exact Or.inl ⟨h2, h3.more⟩
    · exact Or.inr ⟨n, v, h2, h3.more, h4.more⟩
  | inCb c pl => exact fun r => ⟨(h r).1, FireFate.more (h r).2⟩
  | done r => exact FireFate.more (show FireFate cfg mem a m ev os r from h)
  | _ => exact h.elim

/-- The condition on duplicates, in terms of the memory in the beginning. -/
theorem noDup_during {a : List (Tid × Obs)} {c : Spec.Calls.Call} {m : MId} {ev : Ev}
    (hs : c.since = (mem.acc (cfg.queue m)).length) (h : noDup cfg (memAt mem a) c m ev = true) :
    During mem a (NoDup cfg mem m ev) := by
  refine .now ?_
  intro hd e he
  simp only [noDup, hd, Bool.not_true, Bool.false_or, List.all_eq_true] at h
  obtain ⟨x, hx⟩ := memAt_acc mem a (cfg.queue m)
  rw [hs, hx, List.take_left] at h
  simpa using h e he

theorem fire_step {a : List (Tid × Obs)} {c : Spec.Calls.Call} {o : Obs} {st : Stage} {m : MId} {ev : Ev}
    (ha : c.api = .fire m ev) (hn : c.since = (mem.acc (cfg.queue m)).length)
    (hs : SeenOk cfg mem a (.fire m ev) c.seen) (hi : FireI cfg mem m ev a os c.st)
    (hx : next cfg (memAt mem a) c o = some st) : FireI cfg mem m ev (a ++ [(t, o)]) (os ++ [o]) st := by
  apply FireI.more
  unfold next at hx
  have hadm : admissible cfg (memAt mem a) c m ev = true → Admitted cfg mem a m ev := by
    intro h
    simp only [admissible, Bool.and_eq_true] at h
    obtain ⟨⟨⟨h1, h2⟩, h3⟩, h4⟩ := h
    exact ⟨hs.started h1, hs.alive h2, hs.room h3, noDup_during hn h4⟩
  split at hx
  all_goals first | (cases hx; done) | skip
  all_goals (rename_i hapi hst; rw [ha] at hapi)
  all_goals first | (cases hapi; done) | skip
  all_goals (cases hapi; rw [hst] at hi)
  · split at hx <;> cases hx
    rename_i h; obtain ⟨rfl, rfl, h⟩ := h
    rw [show os = [] from hi]
    exact fun r => ⟨rfl, .before (hs.unstarted h)⟩
  · split at hx <;> cases hx
    rename_i h; obtain ⟨rfl, rfl, h1, h2⟩ := h
    rw [show os = [] from hi]
    exact fun r => ⟨rfl, .after (hs.started h1) (hs.ended h2)⟩
  · split at hx <;> cases hx
    rename_i h; obtain ⟨rfl, rfl, h1, h2, h3, h4⟩ := h
    rw [show os = [] from hi]
    exact fun r => ⟨rfl, .full (hs.started h1) (hs.alive h2) (hs.full h3) (noDup_during hn h4)⟩
  · split at hx <;> cases hx
    rename_i h; obtain ⟨rfl, rfl, h1, h2, h3⟩ := h
    rw [show os = [] from hi]
    exact .dropped h3 (hs.started h1) (hs.alive h2)
  · split at hx <;> cases hx
    rename_i h; obtain ⟨rfl, rfl, rfl, h1⟩ := h
    rw [show os = [] from hi]
    exact ⟨_, _, rfl, rfl, hs.value h1 _ _ rfl, .now ⟨rfl, rfl⟩⟩
  · split at hx <;> cases hx
    rename_i h; obtain ⟨rfl, rfl, rfl, h1, h2⟩ := h
    rw [show os = [] from hi]
    exact ⟨hadm h2, Or.inl ⟨rfl, hs.null h1 _ _ rfl⟩⟩
  · split at hx <;> cases hx
    rename_i h; obtain ⟨rfl, rfl, rfl, h2⟩ := h
    obtain ⟨n, v, rfl, rfl, h3, h4⟩ := hi
    exact ⟨hadm h2, Or.inr ⟨n, v, rfl, h3, h4⟩⟩
  · split at hx <;> cases hx
    rename_i h; obtain ⟨rfl, rfl⟩ := h
    obtain ⟨h1, ⟨rfl, h2⟩ | ⟨n, v, rfl, h2, h3⟩⟩ := hi
    · exact .queued h1 h2
    · exact .queuedCopy h1 h2 h3
  · split at hx <;> cases hx
    rename_i h; obtain ⟨rfl, rfl⟩ := h
    obtain ⟨h1, ⟨rfl, h2⟩ | ⟨n, v, rfl, h2, h3⟩⟩ := hi
    · exact .refused h1 h2
    · exact .refusedCopy h1 h2 h3
  · split at hx <;> cases hx
    rename_i h; subst h
    obtain ⟨rfl, h⟩ := hi ‹_›
    exact h

/-- Stages of `stop`. -/
def StopI (cfg : Cfg) (m : MId) (os : List Obs) : Stage → Prop
  | .called => os = []
  | .ending => os = [.upd m (cfg.endSt m) true true]
  | .done r => r = none ∧ os = [.upd m (cfg.endSt m) true true, .cur m (cfg.endSt m) true]
  | _ => False

theorem stop_step {mem' : Mem} {c : Spec.Calls.Call} {o : Obs} {st : Stage} {m : MId}
    (ha : c.api = .stop m) (hi : StopI cfg m os c.st) (hx : next cfg mem' c o = some st) : StopI cfg m (os ++ [o]) st := by
  unfold next at hx
  split at hx
  all_goals first | (cases hx; done) | skip
  all_goals (rename_i hapi hst; rw [ha] at hapi)
  all_goals first | (cases hapi; done) | skip
  all_goals (cases hapi; rw [hst] at hi)
  · split at hx <;> cases hx
    rename_i h; obtain ⟨rfl, rfl, h1, h2⟩ := h
    rw [show os = [] from hi]
    subst h1; subst h2; rfl
  · split at hx <;> cases hx
    rename_i h; obtain ⟨rfl, rfl, h1⟩ := h
    rw [show os = _ from hi]
    subst h1; exact ⟨rfl, rfl⟩

/-- Stages of `startInState`. -/
def StartInI (cfg : Cfg) (m : MId) (s : Option St) (os : List Obs) : Stage → Prop
  | .called => os = []
  | .won => os = [.started m] ∧ cfg.fail (.startInState m s) = none
  | .entered _ => ∃ s', s = some s' ∧ os = [.started m, .cur m s' true] ∧ cfg.fail (.startInState m s) = none
  | .done r => ∃ s', r = none ∧ s = some s' ∧ os = [.started m, .cur m s' true, .cleared m] ∧ cfg.fail (.startInState m s) = none
  | _ => False

theorem startIn_step {mem' : Mem} {c : Spec.Calls.Call} {o : Obs} {st : Stage} {m : MId} {s : Option St}
    (ha : c.api = .startInState m s) (hi : StartInI cfg m s os c.st) (hx : next cfg mem' c o = some st) :
    StartInI cfg m s (os ++ [o]) st := by
  unfold next at hx
  split at hx
  all_goals first | (cases hx; done) | skip
  all_goals (rename_i hapi hst; rw [ha] at hapi)
  all_goals first | (cases hapi; done) | skip
  all_goals (cases hapi; rw [hst] at hi)
  · split at hx <;> cases hx
    rename_i h; obtain ⟨rfl, h1⟩ := h
    rw [show os = [] from hi]
    exact ⟨rfl, h1⟩
  · split at hx <;> cases hx
    rename_i h; obtain ⟨rfl, rfl, rfl⟩ := h
    obtain ⟨rfl, h2⟩ := hi
    exact ⟨_, rfl, rfl, h2⟩
  · split at hx <;> cases hx
    rename_i h; subst h
    obtain ⟨s', rfl, rfl, h2⟩ := hi
    exact ⟨_, rfl, rfl, rfl, h2⟩

theorem ran_append (a b : List Item) : ran (a ++ b) = ran a ++ ran b := by
  induction a with
  | nil => rfl
  | cons it a ih => cases it <;> simp [ran, ih]

/-- The state has been entered. -/
def _root_.Verif.Spec.Calls.Stage.entry : Stage → Bool
  | .entered _ | .inCb .. | .thrown _ | .done _ => true
  | _ => false

/-- Stages of `start`. -/
def StartI (cfg : Cfg) (mem : Mem) (m : MId) (a : List (Tid × Obs)) (os : List Obs) (st : Stage) : Prop :=
  (st = .called ∧ os = []) ∨
  (st = .won ∧ os = [.started m] ∧ cfg.fail (.start m) = none) ∨
  (cfg.fail (.start m) = none ∧ ∃ s rest, cfg.init m = some s ∧ os = .started m :: .cur m s true :: rest ∧
    (∀ o ∈ rest, tailObs m o) ∧ (∀ r, st = .done r → r = none ∧ .cleared m ∈ rest) ∧
    st.entry = true ∧
    ((∃ u l, (u, .listener m l) ∈ a) ∨
     ∃ lst dn, During mem a (fun mem => mem.lst m = lst) ∧
       ((∃ pl, st = .entered pl ∧ cfg.plan m lst s = dn ++ pl ∧ rest = ran dn) ∨
        (∃ c pl, st = .inCb c pl ∧ cfg.plan m lst s = dn ++ .cb c :: pl ∧ rest = ran dn ++ [.cb c]) ∨
        (∃ c pl x, st = .thrown x ∧ cfg.plan m lst s = dn ++ .cb c :: pl ∧ rest = ran dn ++ [.cb c, .cbRet c (some x)]) ∨
        (∃ r, st = .done r ∧ cfg.plan m lst s = dn ∧ rest = ran dn ++ [.cleared m]))))

theorem StartI.more {a b : List (Tid × Obs)} {m : MId} {st : Stage} (h : StartI cfg mem m a os st) :
    StartI cfg mem m (a ++ b) os st := by
  rcases h with h | h | ⟨h1, s, rest, h2, h3, h4, h5, h6, h7⟩
  · exact Or.inl h
  · exact Or.inr (Or.inl h)
  · refine Or.inr (Or.inr ⟨h1, s, rest, h2, h3, h4, h5, h6, ?_⟩)
    rcases h7 with ⟨u, l, h7⟩ | ⟨lst, dn, h7, h8⟩
    · exact Or.inl ⟨u, l, List.mem_append_left _ h7⟩
    · exact Or.inr ⟨lst, dn, h7.more, h8⟩

theorem start_step {a : List (Tid × Obs)} {c : Spec.Calls.Call} {o : Obs} {st : Stage} {m : MId}
    (ha : c.api = .start m) (hs : SeenOk cfg mem a (.start m) c.seen) (hi : StartI cfg mem m a os c.st)
    (hx : next cfg (memAt mem a) c o = some st) : StartI cfg mem m (a ++ [(t, o)]) (os ++ [o]) st := by
  apply StartI.more
  unfold next at hx
  split at hx
  all_goals first | (cases hx; done) | skip
  all_goals (rename_i hapi hst; rw [ha] at hapi)
  all_goals first | (cases hapi; done) | skip
  all_goals (cases hapi; rw [hst] at hi)
  · split at hx <;> cases hx
    rename_i h; obtain ⟨rfl, h1⟩ := h
    rcases hi with ⟨_, rfl⟩ | ⟨h, _⟩ | ⟨_, s, rest, _, _, _, _, h, _⟩
    · exact Or.inr (Or.inl ⟨rfl, rfl, h1⟩)
    · cases h
    · cases h
  · split at hx <;> cases hx
    rename_i s' _ h; obtain ⟨rfl, h1, rfl⟩ := h
    rcases hi with ⟨h, _⟩ | ⟨_, rfl, h2⟩ | ⟨_, s, rest, _, _, _, _, h, _⟩
    · cases h
    · refine Or.inr (Or.inr ⟨h2, s', [], h1, rfl, (by intro o ho; cases ho), (by intro r hr; cases hr), rfl, ?_⟩)
      exact Or.inr ⟨_, [], .now rfl, Or.inl ⟨_, rfl, rfl, rfl⟩⟩
    · cases h
  · rename_i pl c'
    split at hx <;> cases hx
    rename_i h
    rcases hi with ⟨h, _⟩ | ⟨h, _⟩ | ⟨h1, s, rest, h2, rfl, h4, h5, h6, h7⟩
    · cases h
    · cases h
    · refine Or.inr (Or.inr ⟨h1, s, rest ++ [.cb c'], h2, by simp, ?_, (by intro r hr; cases hr), rfl, ?_⟩)
      · intro o ho
        rcases List.mem_append.1 ho with ho | ho
        · exact h4 o ho
        · exact Or.inl ⟨c', by simpa using ho⟩
      · rcases h7 with h7 | ⟨lst, dn, h7, ⟨pl', hp, h8, rfl⟩ | ⟨_, _, hp, _⟩ | ⟨_, _, _, hp, _⟩ | ⟨_, hp, _⟩⟩
        · exact Or.inl h7
        · cases hp
          rcases h with h | ⟨h, _⟩
          · cases pl with
            | nil => cases h
            | cons it pl =>
              cases h
              exact Or.inr ⟨lst, dn, h7, Or.inr (Or.inl ⟨c', pl, rfl, h8, rfl⟩)⟩
          · exact Or.inl (hs.swapped h)
        all_goals cases hp
  · rename_i c' pl c'' r'
    split at hx
    case isFalse => cases hx
    rename_i h; subst h
    rcases hi with ⟨h, _⟩ | ⟨h, _⟩ | ⟨h1, s, rest, h2, rfl, h4, h5, h6, h7⟩
    · cases h
    · cases h
    · have ht : ∀ o ∈ rest ++ [Obs.cbRet c'' r'], tailObs m o := by
        intro o ho
        rcases List.mem_append.1 ho with ho | ho
        · exact h4 o ho
        · exact Or.inr (Or.inl ⟨c'', r', by simpa using ho⟩)
      rcases h7 with h7 | ⟨lst, dn, h7, ⟨pl', hp, _⟩ | ⟨_, _, hp, h8, rfl⟩ | ⟨_, _, _, hp, _⟩ | ⟨_, hp, _⟩⟩
      · refine Or.inr (Or.inr ⟨h1, s, _, h2, by simp, ht, ?_, ?_, Or.inl h7⟩)
        · intro r hr; subst hr; cases r' <;> cases hx
        · cases r' <;> cases hx <;> rfl
      · cases hp
      · cases hp
        cases r' with
        | none =>
          cases hx
          refine Or.inr (Or.inr ⟨h1, s, _, h2, by simp, ht, (by intro r hr; cases hr), rfl, Or.inr ⟨lst, dn ++ [.cb c''], h7, Or.inl ⟨pl, rfl, by simp [h8], ?_⟩⟩⟩)
          simp [ran_append, ran]
        | some x =>
          cases hx
          exact Or.inr (Or.inr ⟨h1, s, _, h2, by simp, ht, (by intro r hr; cases hr), rfl, Or.inr ⟨lst, dn, h7, Or.inr (Or.inr (Or.inl ⟨c'', pl, x, rfl, h8, by simp⟩))⟩⟩)
      · cases hp
      · cases hp
  · rename_i pl m'
    split at hx <;> cases hx
    rename_i h; obtain ⟨rfl, h⟩ := h
    rcases hi with ⟨h, _⟩ | ⟨h, _⟩ | ⟨h1, s, rest, h2, rfl, h4, h5, h6, h7⟩
    · cases h
    · cases h
    · refine Or.inr (Or.inr ⟨h1, s, rest ++ [.cleared m'], h2, by simp, ?_, (by intro r hr; cases hr; exact ⟨rfl, by simp⟩), rfl, ?_⟩)
      · intro o ho
        rcases List.mem_append.1 ho with ho | ho
        · exact h4 o ho
        · exact Or.inr (Or.inr (by simpa using ho))
      · rcases h7 with h7 | ⟨lst, dn, h7, ⟨pl', hp, h8, rfl⟩ | ⟨_, _, hp, _⟩ | ⟨_, _, _, hp, _⟩ | ⟨_, hp, _⟩⟩
        · exact Or.inl h7
        · cases hp
          rcases h with rfl | h
          · exact Or.inr ⟨lst, dn, h7, Or.inr (Or.inr (Or.inr ⟨none, rfl, by simpa using h8, rfl⟩))⟩
          · exact Or.inl (hs.swapped h)
        all_goals cases hp

end

/-- The memory in an initial configuration. -/
def initMem (c0 : Conf) : Mem := (G.init c0.w.payload fun m => (c0.w.mach m).listener.isSome).mem

theorem calls_initial {c0 : Conf} (env : Env) (h : Initial c0) :
    CallsInv env (G.init c0.w.payload fun m => (c0.w.mach m).listener.isSome) (fun _ => []) c0.w := by
  refine ⟨_, by rw [h.trace]; rfl, ⟨?_, ?_, ?_, rfl, ?_, ?_, h.nextCopy.symm⟩, ?_, ?_⟩
  · intro m; exact (h.mach m).1.symm
  · intro m; exact (h.mach m).2.1.symm
  · intro m; rfl
  · intro q; simp [Mem.waiting, G.init, World.evs, h.queue]
  · intro q; exact Nat.zero_le _
  · intro t c hc; cases hc
  · intro t; exact rfl

theorem own_initial' {c0 : Conf} (env : Env) (h : Initial c0) : Own env (fun _ => []) c0.w := own_initial env c0 h

/-- Every history is accepted by the automaton. -/
theorem history_accepted {env : Env} {c0 c : Conf} (hi : Initial c0) (hr : ReachFrom env c0 c) :
    ∃ lst, ThreadsOk (proto env) [] fin lst c ∧ Own env lst c.w ∧
      CallsInv env (G.init c0.w.payload fun m => (c0.w.mach m).listener.isSome) lst c.w := by
  obtain ⟨xs, hx⟩ := hr
  refine sound_runs (checked env) ((own_invariant env).and (calls_preserved env _)) (lst := fun _ => []) ?_
    ⟨own_initial env c0 hi, calls_initial env hi⟩ hx
  intro t
  rw [hi.idle t]

theorem seenOk_begin (cfg : Cfg) (mem : Mem) (k : Api) (n : Nat) :
    SeenOk cfg mem [] k ((⟨k, .called, {}, n⟩ : Spec.Calls.Call).look cfg mem (.enter k)).seen := by
  have h : SeenOk cfg mem [] k ({} : Seen) := by
    constructor <;> (intro h; cases h)
  exact seenOk_look (cfg := cfg) (mem := mem) (a := []) (b := []) (x := .enter k) (c := ⟨k, .called, {}, n⟩) h
    (by intro l hl; cases hl)

section
variable {env : Env} {c0 c : Conf} {t : Tid} {tr pre mid : List (Tid × Obs)} {os : List Obs} {r : Option Exc}

theorem fire_fate_of {m : MId} {ev : Ev} {g : G} (hg : Spec.Calls.run (callsCfg env) (G.init c0.w.payload fun m => (c0.w.mach m).listener.isSome) tr = some g)
    (hc : IsCall tr t (.fire m ev) pre mid os r) :
    FireFate (callsCfg env) (memAt (initMem c0) pre) mid m ev os r := by
  obtain ⟨mem', c', hw, hapi, hret⟩ := walk_of_call hg hc
  obtain ⟨-, hs, h⟩ := walk_induct (I := FireI (callsCfg env) (memAt (initMem c0) pre) m ev)
    (mem0 := memAt (initMem c0) pre) (k := .fire m ev)
    (fun a b os st h => FireI.more h)
    (fun a os c o st ha hn hs hI hx => fire_step ha hn hs hI hx) hw (a := []) (os0 := []) rfl rfl rfl
    (seenOk_begin _ _ _ _) rfl
  simp only [List.nil_append] at h
  simp only [returns, hapi] at hret
  split at hret
  · rename_i r' hst
    rw [hst] at h
    have : r = r' := by simpa using hret
    subst this
    exact h
  all_goals first | (rename_i hk _; cases hk; done) | cases hret

theorem stop_fate_of {m : MId} {g : G} (hg : Spec.Calls.run (callsCfg env) (G.init c0.w.payload fun m => (c0.w.mach m).listener.isSome) tr = some g) (hc : IsCall tr t (.stop m) pre mid os r) :
    StopFate (callsCfg env) (memAt (initMem c0) pre) mid m os r := by
  obtain ⟨mem', c', hw, hapi, hret⟩ := walk_of_call hg hc
  obtain ⟨-, hs, h⟩ := walk_induct (I := fun _ => StopI (callsCfg env) m)
    (mem0 := memAt (initMem c0) pre) (k := .stop m)
    (fun a b os st h => h)
    (fun a os c o st ha hn hs hI hx => stop_step ha hI hx) hw (a := []) (os0 := []) rfl rfl rfl
    (seenOk_begin _ _ _ _) rfl
  simp only [List.nil_append] at h hs
  simp only [returns, hapi] at hret
  split at hret
  · rename_i r' hst
    rw [hst] at h
    have : r = r' := by simpa using hret
    subst this
    obtain ⟨rfl, rfl⟩ := h
    exact .ended
  · rename_i hst
    rw [hst] at h
    rw [show os = [] from h]
    simp at hret
    obtain ⟨h1, rfl⟩ := hret
    exact .already (hs.ended h1)
  all_goals first | (rename_i hk _; cases hk; done) | cases hret

theorem startIn_fate_of {m : MId} {s : Option St} {g : G} (hg : Spec.Calls.run (callsCfg env) (G.init c0.w.payload fun m => (c0.w.mach m).listener.isSome) tr = some g)
    (hc : IsCall tr t (.startInState m s) pre mid os r) :
    StartInFate (callsCfg env) (memAt (initMem c0) pre) mid m s os r := by
  obtain ⟨mem', c', hw, hapi, hret⟩ := walk_of_call hg hc
  obtain ⟨-, hs, h⟩ := walk_induct (I := fun _ => StartInI (callsCfg env) m s)
    (mem0 := memAt (initMem c0) pre) (k := .startInState m s)
    (fun a b os st h => h)
    (fun a os c o st ha hn hs hI hx => startIn_step ha hI hx) hw (a := []) (os0 := []) rfl rfl rfl
    (seenOk_begin _ _ _ _) rfl
  simp only [List.nil_append] at h hs
  simp only [returns, hapi] at hret
  split at hret
  · rename_i r' hst
    rw [hst] at h
    have : r = r' := by simpa using hret
    subst this
    obtain ⟨s', rfl, rfl, rfl, h⟩ := h
    exact .ok h rfl
  · rename_i hk _; cases hk
  · rename_i hk _; cases hk
  · rename_i hst
    rw [hst] at h
    rw [show os = [] from h]
    split at hret
    · rename_i x hf
      have : r = some x := by simpa using hret
      subst this
      exact .failed hf
    · rename_i hf
      simp at hret
      obtain ⟨h1, rfl⟩ := hret
      exact .already hf (hs.started h1)
  all_goals first | (rename_i hk _; cases hk; done) | cases hret

theorem start_fate_of {m : MId} {g : G} (hg : Spec.Calls.run (callsCfg env) (G.init c0.w.payload fun m => (c0.w.mach m).listener.isSome) tr = some g)
    (hc : IsCall tr t (.start m) pre mid os r) :
    StartFate (callsCfg env) (memAt (initMem c0) pre) mid m os r := by
  obtain ⟨mem', c', hw, hapi, hret⟩ := walk_of_call hg hc
  obtain ⟨-, hs, h⟩ := walk_induct (I := StartI (callsCfg env) (memAt (initMem c0) pre) m)
    (mem0 := memAt (initMem c0) pre) (k := .start m)
    (fun a b os st h => StartI.more h)
    (fun a os c o st ha hn hs hI hx => start_step ha hs hI hx) hw (a := []) (os0 := []) rfl rfl rfl
    (seenOk_begin _ _ _ _) (Or.inl ⟨rfl, rfl⟩)
  simp only [List.nil_append] at h hs
  simp only [returns, hapi] at hret
  rcases h with ⟨hst, rfl⟩ | ⟨hst, _⟩ | ⟨h1, s, rest, h2, rfl, h4, h5, h6, h7⟩
  · rw [hst] at hret
    simp only at hret
    split at hret
    · rename_i x hf
      have : r = some x := by simpa using hret
      subst this
      exact .failed hf
    · rename_i hf
      simp at hret
      obtain ⟨h1, rfl⟩ := hret
      exact .already hf (hs.started h1)
  · rw [hst] at hret; cases hret
  · rcases h7 with ⟨u, l, h7⟩ | ⟨lst, dn, h7, ⟨pl, hst, h8, rfl⟩ | ⟨c, pl, hst, h8, rfl⟩ | ⟨c, pl, x, hst, h8, rfl⟩ | ⟨r', hst, h8, rfl⟩⟩
    · refine .swapped h1 h2 h7 h4 ?_
      rintro rfl
      split at hret
      · rename_i r' hst
        have : none = r' := by simpa using hret
        subst this
        exact (h5 _ hst).2
      all_goals first | (rename_i hk _; cases hk; done) | (rename_i hst; rw [hst] at h6; cases h6; done) | (simp at hret; done) | cases hret
    · rw [hst] at hret
      simp at hret
      obtain ⟨hsw, rfl⟩ := hret
      obtain ⟨u, l, h7⟩ := hs.swapped hsw
      exact .swapped h1 h2 h7 h4 (by intro h; cases h)
    · rw [hst] at hret; cases hret
    · rw [hst] at hret
      have : r = some x := by simpa using hret
      subst this
      exact .threw h1 h2 h7 h8
    · obtain ⟨rfl, _⟩ := h5 _ hst
      rw [hst] at hret
      have : r = none := by simpa using hret
      subst this; subst h8
      exact .ok h1 h2 h7

theorem fire_fate {m : MId} {ev : Ev} (hi : Initial c0) (hr : ReachFrom env c0 c)
    (hc : IsCall c.w.trace t (.fire m ev) pre mid os r) :
    FireFate (callsCfg env) (memAt (initMem c0) pre) mid m ev os r := by
  obtain ⟨lst, _, _, g, hg, _⟩ := history_accepted hi hr
  exact fire_fate_of hg hc

theorem stop_fate {m : MId} (hi : Initial c0) (hr : ReachFrom env c0 c) (hc : IsCall c.w.trace t (.stop m) pre mid os r) :
    StopFate (callsCfg env) (memAt (initMem c0) pre) mid m os r := by
  obtain ⟨lst, _, _, g, hg, _⟩ := history_accepted hi hr
  exact stop_fate_of hg hc

theorem startIn_fate {m : MId} {s : Option St} (hi : Initial c0) (hr : ReachFrom env c0 c)
    (hc : IsCall c.w.trace t (.startInState m s) pre mid os r) :
    StartInFate (callsCfg env) (memAt (initMem c0) pre) mid m s os r := by
  obtain ⟨lst, _, _, g, hg, _⟩ := history_accepted hi hr
  exact startIn_fate_of hg hc

theorem start_fate {m : MId} (hi : Initial c0) (hr : ReachFrom env c0 c)
    (hc : IsCall c.w.trace t (.start m) pre mid os r) :
    StartFate (callsCfg env) (memAt (initMem c0) pre) mid m os r := by
  obtain ⟨lst, _, _, g, hg, _⟩ := history_accepted hi hr
  exact start_fate_of hg hc

end
end Verif
