import Verif.Proofs.Mem
/-
Every history is accepted by the automaton of Spec/Calls.lean.
-/

namespace Verif
open Spec.Calls
open Spec (Item)

/-- The parameters of the specification for an environment. -/
def callsCfg (env : Env) : Cfg where
  queue := env.qm
  strat := fun m => (env.mach m).strat
  maxQ := fun m => (env.strat (env.mach m).strat).maxQ
  dropDup := fun m => (env.strat (env.mach m).strat).dropDup
  endSt := fun m => (env.mach m).res.endSt
  init := fun m => (env.mach m).init
  fail := fun
    | .start m => env.startFail m
    | .startInState m s => env.startInFail m s
    | _ => none
  plan := fun m lst s => (desc env (env.mach m).strat m).startPlan (env.mach m).res.noSt lst s

section
variable (env : Env) (w : World) (mem : Mem)

def NoDupC (c : Spec.Calls.Call) (m : MId) (ev : Ev) : Prop :=
  (env.strat (env.mach m).strat).dropDup = true →
    ∀ e ∈ ((mem.acc (env.qm m)).take c.since).drop (mem.tk (env.qm m)), e.eqv ev = false

def Adm (c : Spec.Calls.Call) (m : MId) (ev : Ev) : Prop :=
  c.seen.started = true ∧ c.seen.alive = true ∧ c.seen.room = true ∧ NoDupC env mem c m ev

def ScanOk (c : Spec.Calls.Call) (m : MId) (ev : Ev) (todo : List PairId) : Prop :=
  ∀ i p e m', i + mem.tk (env.qm m) < c.since → (w.queue (env.qm m))[i]? = some p → w.pair p = some (e, m') →
    e.eqv ev = true → p ∈ todo

def FateRel (c : Spec.Calls.Call) (m : MId) (ev : Ev) : Fate → Prop
  | .pre => c.st = .called
  | .st1 | .st2 => c.st = .called ∧ (w.mach m).started = true ∧ c.seen.started = true
  | .before => c.st = .called ∧ c.seen.unstarted = true
  | .after => c.st = .called ∧ c.seen.started = true ∧ c.seen.ended = true
  | .live => c.st = .called ∧ c.seen.started = true ∧ c.seen.alive = true
  | .scan todo => c.st = .called ∧ c.seen.started = true ∧ c.seen.alive = true ∧
      (env.strat (env.mach m).strat).dropDup = true ∧ ScanOk env w mem c m ev todo
  | .dup => c.st = .called ∧ c.seen.started = true ∧ c.seen.alive = true ∧ (env.strat (env.mach m).strat).dropDup = true
  | .sized => c.st = .called ∧ Adm env mem c m ev
  | .took _ => c.st = .called ∧ Adm env mem c m ev
  | .cpy _ => c.st = .called ∧ Adm env mem c m ev ∧ c.seen.value = true
  | .raw _ => c.st = .called ∧ Adm env mem c m ev ∧ c.seen.null = true
  | .copied _ e => c.st = .copied e ∧ Adm env mem c m ev
  | .loaded _ e => ((c.st = .called ∧ c.seen.null = true ∧ e = ev) ∨ c.st = .copied e) ∧ Adm env mem c m ev
  | .full => c.st = .called ∧ c.seen.started = true ∧ c.seen.alive = true ∧ c.seen.full = true ∧ NoDupC env mem c m ev
  | .owing => c.st = .queued
  | .cb c' => c.st = .inCb c' []
  | .fin r => c.st = .done r

/-- A plan of `start()`: callbacks of this machine. -/
def StPlan (m : MId) (lst : Option LId) (pl : List Item) : Prop :=
  ∀ it ∈ pl, ∃ c, it = .cb c ∧ c.tMach = some (m, immEv) ∧ (c.isNote = true → lst.isSome = true)

def PhRel (c : Spec.Calls.Call) (m : MId) (silent : Bool) : Ph → Prop
  | .run pl _ lst =>
    ∃ pl', c.st = .entered pl' ∧ (c.seen.swapped = false → pl' = pl ∧ (w.mach m).listener = lst) ∧ StPlan m lst pl ∧
      (silent = true → pl = [])
  | .thrown x => c.st = .thrown x ∧ silent = false
  | .inCb c' pl _ lst => ∃ pl', c.st = .inCb c' pl' ∧ (c.seen.swapped = false → pl' = pl ∧ (w.mach m).listener = lst) ∧
      StPlan m lst pl ∧ silent = false
  | .lame none => ∃ pl', c.st = .entered pl' ∧ c.seen.swapped = true ∧ silent = false
  | .lame (some _) => False
  | .lameCb c' => ∃ pl', c.st = .inCb c' pl' ∧ c.seen.swapped = true ∧ silent = false

def StRel (c : Spec.Calls.Call) (m : MId) (silent : Bool) : StPh → Prop
  | .pre => c.st = .called
  | .lost => c.st = .called ∧ c.seen.started = true ∧ (callsCfg env).fail c.api = none
  | .won => c.st = .won
  | .busy ph => PhRel w c m silent ph
  | .fin => c.st = .done none

def FrameRel (f : Frame) (c : Spec.Calls.Call) : Prop :=
  match f with
  | .fire m ev f => c.api = .fire m ev ∧ c.since ≤ (mem.acc (env.qm m)).length ∧ FateRel env w mem c m ev f
  | .stop m .pre => c.api = .stop m ∧ c.st = .called
  | .stop m .won => c.api = .stop m ∧ c.st = .ending
  | .stop m .fin => c.api = .stop m ∧ (c.st = .done none ∨ (c.st = .called ∧ c.seen.ended = true))
  | .start m ph => c.api = .start m ∧ StRel env w c m false ph
  | .startIn m s ph => c.api = .startInState m s ∧ StRel env w c m true ph
  | .drain .. => False

def Frame.isDrain : Frame → Bool
  | .drain .. => true
  | _ => false

def MatchL : List Frame → List Spec.Calls.Call → Prop
  | [], cs => cs = []
  | f :: fs, [] => fs = [] ∧ f.isDrain = true
  | f :: fs, c :: cs => FrameRel env w mem f c ∧ MatchL fs cs

end

/-- `c'` is `c`, later. -/
structure CallLe (w w' : World) (c c' : Spec.Calls.Call) : Prop where
  api : c'.api = c.api
  st : c'.st = c.st
  since : c'.since = c.since
  unstarted : c.seen.unstarted = true → c'.seen.unstarted = true
  started : c.seen.started = true → c'.seen.started = true
  ended : c.seen.ended = true → c'.seen.ended = true
  alive : c.seen.alive = true → c'.seen.alive = true
  null : c.seen.null = true → c'.seen.null = true
  value : c.seen.value = true → c'.seen.value = true
  full : c.seen.full = true → c'.seen.full = true
  room : c.seen.room = true → c'.seen.room = true
  swapped : c.seen.swapped = true → c'.seen.swapped = true
  lst : c'.seen.swapped = false → (w'.mach (apiMach c.api)).listener = (w.mach (apiMach c.api)).listener

section
variable {env : Env} {w w' : World} {mem mem' : Mem} {c c' : Spec.Calls.Call}

theorem noDup_mono {m : MId} {ev : Ev} (h4 : NoDupC env mem c m ev) (he : Evo w mem w' mem') (hc : CallLe w w' c c')
    (hs : c.since ≤ (mem.acc (env.qm m)).length) : NoDupC env mem' c' m ev := by
  intro hd e hm
  refine h4 hd e ?_
  obtain ⟨x, hx⟩ := he.acc (env.qm m)
  rw [hc.since, hx, List.take_append_of_le_length hs] at hm
  obtain ⟨k, hk⟩ := Nat.exists_eq_add_of_le (he.tk (env.qm m))
  rw [hk, ← List.drop_drop] at hm
  exact List.mem_of_mem_drop hm

theorem adm_mono {m : MId} {ev : Ev} (h : Adm env mem c m ev) (he : Evo w mem w' mem') (hc : CallLe w w' c c')
    (hs : c.since ≤ (mem.acc (env.qm m)).length) : Adm env mem' c' m ev := by
  obtain ⟨h1, h2, h3, h4⟩ := h
  exact ⟨hc.started h1, hc.alive h2, hc.room h3, noDup_mono h4 he hc hs⟩

theorem fateRel_mono {m : MId} {ev : Ev} {f : Fate} (h : FateRel env w mem c m ev f) (he : Evo w mem w' mem')
    (hc : CallLe w w' c c') (hs : c.since ≤ (mem.acc (env.qm m)).length) : FateRel env w' mem' c' m ev f := by
  cases f with
  | pre => exact hc.st.trans h
  | st1 => exact ⟨hc.st.trans h.1, he.started _ h.2.1, hc.started h.2.2⟩
  | st2 => exact ⟨hc.st.trans h.1, he.started _ h.2.1, hc.started h.2.2⟩
  | before => exact ⟨hc.st.trans h.1, hc.unstarted h.2⟩
  | after => exact ⟨hc.st.trans h.1, hc.started h.2.1, hc.ended h.2.2⟩
  | live => exact ⟨hc.st.trans h.1, hc.started h.2.1, hc.alive h.2.2⟩
  | scan todo =>
    obtain ⟨h1, h2, h3, h4, h5⟩ := h
    refine ⟨hc.st.trans h1, hc.started h2, hc.alive h3, h4, ?_⟩
    intro i p e m' hi hp hpr heq
    rw [hc.since] at hi
    obtain ⟨hpp, j, hj, hpj⟩ := he.pos _ i p (Nat.lt_of_lt_of_le hi hs) hp
    exact h5 j p e m' (by omega) hpj (by rw [← hpp]; exact hpr) heq
  | dup => exact ⟨hc.st.trans h.1, hc.started h.2.1, hc.alive h.2.2.1, h.2.2.2⟩
  | sized => exact ⟨hc.st.trans h.1, adm_mono h.2 he hc hs⟩
  | took _ => exact ⟨hc.st.trans h.1, adm_mono h.2 he hc hs⟩
  | cpy _ => exact ⟨hc.st.trans h.1, adm_mono h.2.1 he hc hs, hc.value h.2.2⟩
  | raw _ => exact ⟨hc.st.trans h.1, adm_mono h.2.1 he hc hs, hc.null h.2.2⟩
  | copied _ _ => exact ⟨hc.st.trans h.1, adm_mono h.2 he hc hs⟩
  | loaded _ _ =>
    refine ⟨?_, adm_mono h.2 he hc hs⟩
    rcases h.1 with ⟨h1, h2, h3⟩ | h1
    · exact Or.inl ⟨hc.st.trans h1, hc.null h2, h3⟩
    · exact Or.inr (hc.st.trans h1)
  | full => exact ⟨hc.st.trans h.1, hc.started h.2.1, hc.alive h.2.2.1, hc.full h.2.2.2.1, noDup_mono h.2.2.2.2 he hc hs⟩
  | owing => exact hc.st.trans h
  | cb _ => exact hc.st.trans h
  | fin _ => exact hc.st.trans h

theorem not_swapped (hc : CallLe w w' c c') (h : c'.seen.swapped = false) : c.seen.swapped = false := by
  cases hs : c.seen.swapped with
  | false => rfl
  | true => rw [hc.swapped hs] at h; cases h

theorem phRel_mono {m : MId} {silent : Bool} {ph : Ph} (hm : apiMach c.api = m) (h : PhRel w c m silent ph)
    (hc : CallLe w w' c c') : PhRel w' c' m silent ph := by
  subst hm
  cases ph with
  | run pl cur lst =>
    obtain ⟨pl', h1, h2, h3⟩ := h
    refine ⟨pl', hc.st.trans h1, fun hs => ?_, h3⟩
    obtain ⟨h4, h5⟩ := h2 (not_swapped hc hs)
    exact ⟨h4, (hc.lst hs).trans h5⟩
  | thrown x => exact ⟨hc.st.trans h.1, h.2⟩
  | inCb c' pl cur lst =>
    obtain ⟨pl', h1, h2, h3⟩ := h
    refine ⟨pl', hc.st.trans h1, fun hs => ?_, h3⟩
    obtain ⟨h4, h5⟩ := h2 (not_swapped hc hs)
    exact ⟨h4, (hc.lst hs).trans h5⟩
  | lame p =>
    cases p with
    | none => obtain ⟨pl', h1, h2, h3⟩ := h; exact ⟨pl', hc.st.trans h1, hc.swapped h2, h3⟩
    | some s => exact h
  | lameCb c' => obtain ⟨pl', h1, h2, h3⟩ := h; exact ⟨pl', hc.st.trans h1, hc.swapped h2, h3⟩

theorem stRel_mono {m : MId} {silent : Bool} {ph : StPh} (hm : apiMach c.api = m) (h : StRel env w c m silent ph)
    (hc : CallLe w w' c c') : StRel env w' c' m silent ph := by
  cases ph with
  | pre => exact hc.st.trans h
  | lost => exact ⟨hc.st.trans h.1, hc.started h.2.1, by rw [hc.api]; exact h.2.2⟩
  | won => exact hc.st.trans h
  | busy ph => exact phRel_mono hm h hc
  | fin => exact hc.st.trans h

theorem frameRel_mono {f : Frame} (h : FrameRel env w mem f c) (he : Evo w mem w' mem') (hc : CallLe w w' c c') :
    FrameRel env w' mem' f c' := by
  cases f with
  | fire m ev f =>
    obtain ⟨h1, h2, h3⟩ := h
    refine ⟨hc.api.trans h1, ?_, fateRel_mono h3 he hc h2⟩
    obtain ⟨x, hx⟩ := he.acc (env.qm m)
    rw [hc.since, hx, List.length_append]; omega
  | stop m ph =>
    cases ph with
    | pre => exact ⟨hc.api.trans h.1, hc.st.trans h.2⟩
    | won => exact ⟨hc.api.trans h.1, hc.st.trans h.2⟩
    | fin =>
      refine ⟨hc.api.trans h.1, ?_⟩
      rcases h.2 with h | ⟨h1, h2⟩
      · exact Or.inl (hc.st.trans h)
      · exact Or.inr ⟨hc.st.trans h1, hc.ended h2⟩
  | start m ph => exact ⟨hc.api.trans h.1, stRel_mono (by rw [h.1]; rfl) h.2 hc⟩
  | startIn m s ph => exact ⟨hc.api.trans h.1, stRel_mono (by rw [h.1]; rfl) h.2 hc⟩
  | drain _ _ _ => exact h.elim

theorem matchL_map {g : Spec.Calls.Call → Spec.Calls.Call} {fs : List Frame} {cs : List Spec.Calls.Call}
    (h : MatchL env w mem fs cs) (he : Evo w mem w' mem') (hc : ∀ c, CallLe w w' c (g c)) :
    MatchL env w' mem' fs (cs.map g) := by
  induction fs generalizing cs with
  | nil => rw [show cs = [] from h]; rfl
  | cons f fs ih =>
    cases cs with
    | nil => exact h
    | cons c cs => exact ⟨frameRel_mono h.1 he (hc c), ih h.2⟩

theorem CallLe.refl (w : World) (c : Spec.Calls.Call) : CallLe w w c c :=
  ⟨rfl, rfl, rfl, id, id, id, id, id, id, id, id, id, fun _ => rfl⟩

theorem CallLe.same (h : ∀ m, (w'.mach m).listener = (w.mach m).listener) (c : Spec.Calls.Call) : CallLe w w' c c :=
  ⟨rfl, rfl, rfl, id, id, id, id, id, id, id, id, id, fun _ => h _⟩

theorem CallLe.look {cfg : Cfg} {x : Obs} (h : ∀ m, (∀ l, x ≠ .listener m l) → (w'.mach m).listener = (w.mach m).listener)
    (c : Spec.Calls.Call) : CallLe w w' c (c.look cfg mem x) := by
  refine ⟨rfl, rfl, rfl, ?_, ?_, ?_, ?_, ?_, ?_, ?_, ?_, ?_, ?_⟩
  all_goals try (intro h; simp [Spec.Calls.Call.look, Seen.look, h]; done)
  intro hs
  apply h
  rintro l rfl
  simp [Spec.Calls.Call.look] at hs

end

/-- A call that has looked at the memory. -/
def Now (cfg : Cfg) (mem : Mem) (c : Spec.Calls.Call) : Prop := c.seen.look cfg mem c.api = c.seen

theorem now_look {cfg : Cfg} {mem : Mem} {x : Obs} (c : Spec.Calls.Call) : Now cfg mem (c.look cfg mem x) := by
  simp only [Now, Spec.Calls.Call.look, Seen.look]
  simp

section
variable {env : Env} {w : World} {mem : Mem} {c : Spec.Calls.Call}

theorem Now.started_ {m : MId} (h : Now (callsCfg env) mem c) (hr : MemRel w mem) (ha : apiMach c.api = m)
    (hs : (w.mach m).started = true) : c.seen.started = true := by
  rw [← h]; simp [Seen.look, ha, hr.started, hs]

theorem Now.unstarted_ {m : MId} (h : Now (callsCfg env) mem c) (hr : MemRel w mem) (ha : apiMach c.api = m)
    (hs : (w.mach m).started = false) : c.seen.unstarted = true := by
  rw [← h]; simp [Seen.look, ha, hr.started, hs]

theorem Now.ended_ {m : MId} (h : Now (callsCfg env) mem c) (hr : MemRel w mem) (ha : apiMach c.api = m)
    (hs : (w.mach m).ended = true) : c.seen.ended = true := by
  rw [← h]; simp [Seen.look, ha, hr.ended, hs]

theorem Now.alive_ {m : MId} (h : Now (callsCfg env) mem c) (hr : MemRel w mem) (ha : apiMach c.api = m)
    (hs : (w.mach m).ended = false) : c.seen.alive = true := by
  rw [← h]; simp [Seen.look, ha, hr.ended, hs]

theorem Now.null_ {m : MId} {ev : Ev} (h : Now (callsCfg env) mem c) (hr : MemRel w mem) (ha : c.api = .fire m ev)
    (hs : w.payload ev.oid = none) : c.seen.null = true := by
  rw [← h]; simp [Seen.look, ha, hr.pay, hs]

theorem Now.value_ {m : MId} {ev : Ev} (h : Now (callsCfg env) mem c) (hr : MemRel w mem) (ha : c.api = .fire m ev)
    (hs : (w.payload ev.oid).isSome = true) : c.seen.value = true := by
  rw [← h]; simp [Seen.look, ha, hr.pay, hs]

theorem isFull_eq {m : MId} (hr : MemRel w mem) (hall : ∀ q, ∀ p ∈ w.queue q, (w.pair p).isSome = true) :
    isFull (callsCfg env) mem m = env.full m (w.queue (env.qm m)).length := by
  have : (mem.waiting (env.qm m)).length = (w.queue (env.qm m)).length := by
    rw [hr.waiting, evs_length (hall _)]
  simp only [isFull, callsCfg, Env.full, this]
  rfl

theorem Now.full_ {m : MId} (h : Now (callsCfg env) mem c) (ha : apiMach c.api = m)
    (hs : isFull (callsCfg env) mem m = true) : c.seen.full = true := by
  rw [← h]; simp [Seen.look, ha, hs]

theorem Now.room_ {m : MId} (h : Now (callsCfg env) mem c) (ha : apiMach c.api = m)
    (hs : isFull (callsCfg env) mem m = false) : c.seen.room = true := by
  rw [← h]; simp [Seen.look, ha, hs]

/-- What the top call of a thread does when the top frame moves. -/
def Top (env : Env) (w : World) (mem : Mem) (c : Spec.Calls.Call) (o : Op) (f' : Frame) : Prop :=
  (opObs o w = none ∧ FrameRel env w mem f' c) ∨
  (∃ x st, opObs o w = some x ∧ next (callsCfg env) mem c x = some st ∧ userObs x = false ∧
    FrameRel env w mem f' { c with st := st })

theorem cbMach_eq {c : Cb} {m : MId} {ev : Ev} (h : c.tMach = some (m, ev)) : cbMach c = some m := by
  cases c <;> first | (cases h; rfl) | cases h

theorem stPlan_tail {m : MId} {lst : Option LId} {pl : List Item} (h : StPlan m lst pl) : StPlan m lst pl.tail :=
  fun it hi => h it (List.mem_of_mem_tail hi)

theorem startPlan_ok (m : MId) (lst : Option LId) (s : St) :
    StPlan m lst ((callsCfg env).plan m lst.isSome s) := by
  intro it hi
  simp only [callsCfg, Spec.Desc.startPlan, Spec.note, Spec.Desc.actions, desc, List.mem_append, List.mem_map] at hi
  rcases hi with (hi | ⟨j, _, rfl⟩) | hi
  · split at hi
    · simp only [List.mem_singleton] at hi
      subst hi
      exact ⟨_, rfl, rfl, fun _ => ‹_›⟩
    · cases hi
  · exact ⟨_, rfl, rfl, fun h => by cases h⟩
  · split at hi
    · simp only [List.mem_singleton] at hi
      subst hi
      exact ⟨_, rfl, rfl, fun _ => ‹_›⟩
    · cases hi

theorem noDup_noDup {m : MId} {ev : Ev} (h4 : NoDupC env mem c m ev) : noDup (callsCfg env) mem c m ev = true := by
  simp only [noDup, callsCfg]
  cases hd : (env.strat (env.mach m).strat).dropDup with
  | false => rfl
  | true =>
    simp only [Bool.not_true, Bool.false_or, List.all_eq_true]
    intro e he
    simp [h4 hd e he]

theorem adm_admissible {m : MId} {ev : Ev} (h : Adm env mem c m ev) : admissible (callsCfg env) mem c m ev = true := by
  obtain ⟨h1, h2, h3, h4⟩ := h
  simp only [admissible, h1, h2, h3, noDup_noDup h4, Bool.true_and]

/-- Nothing equal is waiting when the scan is through. -/
theorem scan_done {m : MId} {ev : Ev} (hr : MemRel w mem) (hall : ∀ q, ∀ p ∈ w.queue q, (w.pair p).isSome = true)
    (h : ScanOk env w mem c m ev []) :
    ∀ e ∈ ((mem.acc (env.qm m)).take c.since).drop (mem.tk (env.qm m)), e.eqv ev = false := by
  intro e he
  obtain ⟨i, hi⟩ := List.getElem?_of_mem he
  rw [List.getElem?_drop] at hi
  have hlt : mem.tk (env.qm m) + i < c.since := by
    have := (List.getElem?_eq_some_iff.1 hi).1
    rw [List.length_take] at this; omega
  rw [List.getElem?_take_of_lt hlt, ← List.getElem?_drop] at hi
  have hw : (w.evs (env.qm m))[i]? = some e := by rw [← hr.waiting]; exact hi
  have key : ∀ (l : List PairId) (i : Nat), (∀ p ∈ l, (w.pair p).isSome = true) →
      ((l.filterMap w.pair).map Prod.fst)[i]? = some e → ∃ p m', l[i]? = some p ∧ w.pair p = some (e, m') := by
    intro l
    induction l with
    | nil => intro i _ h; simp at h
    | cons a l ih =>
      intro i hl h
      obtain ⟨⟨e', m'⟩, hx⟩ := Option.isSome_iff_exists.1 (hl a (by simp))
      simp only [List.filterMap_cons, hx, List.map_cons] at h
      cases i with
      | zero => simp only [List.getElem?_cons_zero, Option.some.injEq] at h; subst h; exact ⟨a, m', rfl, hx⟩
      | succ i =>
        rw [List.getElem?_cons_succ] at h
        obtain ⟨p, m', h1, h2⟩ := ih i (fun p hp => hl p (by simp [hp])) h
        exact ⟨p, m', by rw [List.getElem?_cons_succ]; exact h1, h2⟩
  obtain ⟨p, m', hp, hpr⟩ := key _ i (hall _) hw
  cases heq : e.eqv ev with
  | false => rfl
  | true => cases h i p e m' (by omega) hp hpr heq

theorem move_top {f f' : Frame} {o : Op} (hm : Move env w f o f') (h : FrameRel env w mem f c)
    (hn : Now (callsCfg env) mem c) (hr : MemRel w mem) (hall : ∀ q, ∀ p ∈ w.queue q, (w.pair p).isSome = true)
    (hfact : f.fact env w.pair) : Top env w mem c o f' := by
  cases hm with
  | fPre1 hs =>
    obtain ⟨ha, hl, h⟩ := h
    exact Or.inl ⟨rfl, ha, hl, h, hs, hn.started_ hr (by rw [ha]; rfl) hs⟩
  | fPre0 hs =>
    obtain ⟨ha, hl, h⟩ := h
    exact Or.inl ⟨rfl, ha, hl, h, hn.unstarted_ hr (by rw [ha]; rfl) hs⟩
  | fSt1 hs => exact Or.inl ⟨rfl, h⟩
  | fSt0 hs => obtain ⟨ha, hl, h1, h2, h3⟩ := h; rw [hs] at h2; cases h2
  | fEnd1 hs =>
    obtain ⟨ha, hl, h1, h2, h3⟩ := h
    exact Or.inl ⟨rfl, ha, hl, h1, h3, hn.ended_ hr (by rw [ha]; rfl) hs⟩
  | fEnd0 hs =>
    obtain ⟨ha, hl, h1, h2, h3⟩ := h
    exact Or.inl ⟨rfl, ha, hl, h1, h3, hn.alive_ hr (by rw [ha]; rfl) hs⟩
  | fBefore =>
    obtain ⟨ha, hl, h1, h2⟩ := h
    exact Or.inr ⟨_, .inCb (.flowBefore _ _) [], rfl, by simp [next, ha, h1, h2], rfl, ha, hl, rfl⟩
  | fAfter =>
    obtain ⟨ha, hl, h1, h2, h3⟩ := h
    exact Or.inr ⟨_, .inCb (.flowAfter _ _) [], rfl, by simp [next, ha, h1, h2, h3], rfl, ha, hl, rfl⟩
  | fSnap hd =>
    obtain ⟨ha, hl, h1, h2, h3⟩ := h
    refine Or.inl ⟨rfl, ha, hl, h1, h2, h3, hd, ?_⟩
    intro i p e m' _ hp _ _
    exact List.mem_of_getElem? hp
  | fScanEq hp he =>
    obtain ⟨ha, hl, h1, h2, h3, h4, h5⟩ := h
    exact Or.inl ⟨rfl, ha, hl, h1, h2, h3, h4⟩
  | fScanNe hp he =>
    obtain ⟨ha, hl, h1, h2, h3, h4, h5⟩ := h
    refine Or.inl ⟨rfl, ha, hl, h1, h2, h3, h4, ?_⟩
    intro i p' e m' hi hp' hpr heq
    rcases List.mem_cons.1 (h5 i p' e m' hi hp' hpr heq) with rfl | h
    · rw [hp] at hpr; cases hpr; rw [he] at heq; cases heq
    · exact h
  | fScanNone hp =>
    have := hfact _ List.mem_cons_self
    rw [hp] at this; cases this
  | @fSize m ev f hf hs =>
    rcases hf with ⟨rfl, hd⟩ | rfl
    · obtain ⟨ha, hl, h1, h2, h3⟩ := h
      refine Or.inl ⟨rfl, ha, hl, h1, h2, h3, hn.room_ (m := m) (by rw [ha]; exact rfl) (by rw [isFull_eq hr hall]; exact hs), ?_⟩
      intro hd'; rw [hd] at hd'; cases hd'
    · obtain ⟨ha, hl, h1, h2, h3, h4, h5⟩ := h
      exact Or.inl ⟨rfl, ha, hl, h1, h2, h3, hn.room_ (m := m) (by rw [ha]; exact rfl) (by rw [isFull_eq hr hall]; exact hs),
        fun _ => scan_done hr hall h5⟩
  | @fSizeFull m ev f hf hs =>
    rcases hf with ⟨rfl, hd⟩ | rfl
    · obtain ⟨ha, hl, h1, h2, h3⟩ := h
      exact Or.inl ⟨rfl, ha, hl, h1, h2, h3, hn.full_ (m := m) (by rw [ha]; exact rfl) (by rw [isFull_eq hr hall]; exact hs),
        fun hd' => by rw [hd] at hd'; cases hd'⟩
    · obtain ⟨ha, hl, h1, h2, h3, h4, h5⟩ := h
      exact Or.inl ⟨rfl, ha, hl, h1, h2, h3, hn.full_ (m := m) (by rw [ha]; exact rfl) (by rw [isFull_eq hr hall]; exact hs),
        fun _ => scan_done hr hall h5⟩
  | fDup =>
    obtain ⟨ha, hl, h1, h2, h3, h4⟩ := h
    exact Or.inr ⟨_, .done none, rfl, by simp [next, ha, h1, h2, h3, h4, callsCfg], rfl, ha, hl, rfl⟩
  | fFull =>
    obtain ⟨ha, hl, h1, h2, h3, h4, h5⟩ := h
    exact Or.inr ⟨_, .inCb (.flowFull _ _) [], rfl, by simp [next, ha, h1, h2, h3, h4, noDup_noDup h5], rfl, ha, hl, rfl⟩
  | fTakeNew _ => exact Or.inl ⟨rfl, h⟩
  | fTakeOld _ => exact Or.inl ⟨rfl, h⟩
  | fPay1 hp =>
    obtain ⟨ha, hl, h1, h2⟩ := h
    exact Or.inl ⟨rfl, ha, hl, h1, h2, hn.value_ hr ha hp⟩
  | fPay0 hp =>
    obtain ⟨ha, hl, h1, h2⟩ := h
    exact Or.inl ⟨rfl, ha, hl, h1, h2, hn.null_ hr ha hp⟩
  | fCopy =>
    obtain ⟨ha, hl, h1, h2, h3⟩ := h
    refine Or.inr ⟨_, .copied ⟨0, _, .copy w.nextCopy⟩, rfl, ?_, rfl, ha, hl, rfl, h2⟩
    simp [next, ha, h1, h3, hr.copies, hr.pay]
  | fSetRaw =>
    obtain ⟨ha, hl, h1, h2, h3⟩ := h
    exact Or.inl ⟨rfl, ha, hl, Or.inl ⟨h1, h3, rfl⟩, h2⟩
  | fSetCopied =>
    obtain ⟨ha, hl, h1, h2⟩ := h
    exact Or.inl ⟨rfl, ha, hl, Or.inr h1, h2⟩
  | @fOffer m ev p e =>
    obtain ⟨ha, hl, h1, h2⟩ := h
    simp only [Frame.fact] at hfact
    refine Or.inr ⟨.accepted (env.qm m) m e, .queued, by simp only [opObs, hfact, Option.map_some], ?_, rfl, ha, hl, rfl⟩
    have := adm_admissible h2
    rcases h1 with ⟨h1, h3, rfl⟩ | h1
    · simp [next, ha, h1, h3, callsCfg]; exact this
    · simp [next, ha, h1, callsCfg]; exact this
  | fSubmit =>
    obtain ⟨ha, hl, h1⟩ := h
    replace h1 : c.st = .queued := h1
    simp only [Top, opObs]
    split
    · exact Or.inr ⟨_, .done (some .rejected), rfl, by simp [next, ha, h1, callsCfg], rfl, ha, hl, rfl⟩
    · exact Or.inr ⟨_, .done none, rfl, by simp [next, ha, h1, callsCfg], rfl, ha, hl, rfl⟩
  | @fRet m ev c' r =>
    obtain ⟨ha, hl, h1⟩ := h
    replace h1 : c.st = .inCb c' [] := h1
    exact Or.inr ⟨_, .done r, rfl, by simp [next, ha, h1], rfl, ha, hl, rfl⟩
  | spCas1 hs =>
    obtain ⟨ha, h1⟩ := h
    exact Or.inl ⟨by simp [opObs, hs], ha, Or.inr ⟨h1, hn.ended_ hr (by rw [ha]; rfl) hs⟩⟩
  | spCas0 hs =>
    obtain ⟨ha, h1⟩ := h
    exact Or.inr ⟨_, .ending, by simp [opObs, hs]; rfl, by simp [next, ha, h1, callsCfg], rfl, ha, rfl⟩
  | spSet =>
    obtain ⟨ha, h1⟩ := h
    exact Or.inr ⟨_, .done none, rfl, by simp [next, ha, h1, callsCfg], rfl, ha, Or.inl rfl⟩
  | stCas1 hf hfail hs =>
    rcases hf.inv with ⟨rfl, rfl, rfl⟩ | ⟨rfl, rfl⟩
    · obtain ⟨ha, h1⟩ := h
      exact Or.inl ⟨by simp [opObs, hs], ha, h1, hn.started_ hr (by rw [ha]; rfl) hs, by rw [ha]; exact hfail⟩
    · obtain ⟨ha, h1⟩ := h
      exact Or.inl ⟨by simp [opObs, hs], ha, h1, hn.started_ hr (by rw [ha]; rfl) hs, by rw [ha]; exact hfail⟩
  | stCas0 hf hfail hs =>
    rcases hf.inv with ⟨rfl, rfl, rfl⟩ | ⟨rfl, rfl⟩
    · obtain ⟨ha, h1⟩ := h
      replace h1 : c.st = .called := h1
      exact Or.inr ⟨_, .won, by simp [opObs, hs]; rfl, by simp only [next, ha, h1]; exact if_pos ⟨trivial, hfail⟩, rfl, ha, rfl⟩
    · obtain ⟨ha, h1⟩ := h
      replace h1 : c.st = .called := h1
      exact Or.inr ⟨_, .won, by simp [opObs, hs]; rfl, by simp only [next, ha, h1]; exact if_pos ⟨trivial, hfail⟩, rfl, ha, rfl⟩
  | @stSet m s b sf hf =>
    rcases hf.inv with ⟨rfl, hi, rfl⟩ | ⟨rfl, rfl⟩
    · obtain ⟨ha, h1⟩ := h
      replace h1 : c.st = .won := h1
      refine Or.inr ⟨_, .entered ((callsCfg env).plan m (mem.lst m) s), rfl, ?_, rfl, ha, _, rfl, ?_, ?_, ?_⟩
      · simp [next, ha, h1, callsCfg, ← hi]
      · intro _; rw [hr.lst]; exact ⟨rfl, rfl⟩
      · exact startPlan_ok m _ s
      · intro h; cases h
    · obtain ⟨ha, h1⟩ := h
      replace h1 : c.st = .won := h1
      refine Or.inr ⟨_, .entered [], rfl, ?_, rfl, ha, _, rfl, ?_, ?_, ?_⟩
      · simp [next, ha, h1]
      · intro _; exact ⟨rfl, rfl⟩
      · intro it hi; cases hi
      · intro _; rfl
  | @stClear m i b sf ph hf hph =>
    have hst : ∀ silent, PhRel w c m silent ph → ∃ pl', c.st = .entered pl' ∧ (pl' = [] ∨ c.seen.swapped = true) := by
      intro silent h
      rcases hph with ⟨cu, l, rfl⟩ | rfl
      · rcases h with ⟨pl', h1, h2, -⟩
        · refine ⟨pl', h1, ?_⟩
          cases hsw : c.seen.swapped with
          | true => exact Or.inr rfl
          | false => exact Or.inl (h2 hsw).1
      · obtain ⟨pl', h1, h2, -⟩ := h; exact ⟨pl', h1, Or.inr h2⟩
    rcases hf.inv with ⟨rfl, hi, rfl⟩ | ⟨rfl, rfl⟩
    · obtain ⟨ha, h⟩ := h
      obtain ⟨pl', h1, h2⟩ := hst _ h
      exact Or.inr ⟨_, .done none, rfl, by simp [next, ha, h1, h2], rfl, ha, rfl⟩
    · obtain ⟨ha, h⟩ := h
      obtain ⟨pl', h1, h2⟩ := hst _ h
      exact Or.inr ⟨_, .done none, rfl, by simp [next, ha, h1], rfl, ha, rfl⟩
  | @stPh m i sf ph o hf ho hpa =>
    have hsf : sf = .start m := by
      rcases hf.inv with ⟨h, -, -⟩ | ⟨-, hb⟩
      · exact h
      · cases hb
    subst hsf
    obtain ⟨ha, h⟩ := h
    replace h : PhRel w c m false ph := h
    unfold phAllowed at hpa
    split at hpa
    · cases ho
    · obtain ⟨rfl, hth⟩ := hpa
      refine Or.inl ⟨rfl, ha, ?_⟩
      rcases h with ⟨pl', h1, h2, h3, h4⟩
      · simp only [phNxt]
        split
        · exact ⟨pl', h1, h2, h3, h4⟩
        · rename_i pl _ lst _ hne
          have hsw : c.seen.swapped = true := by
            cases hsw : c.seen.swapped with
            | true => rfl
            | false => exact absurd (h2 hsw).2 hne
          have : pendOf pl = none := by
            cases pl with
            | nil => rfl
            | cons it pl => obtain ⟨c', rfl, _⟩ := h3 _ List.mem_cons_self; rfl
          rw [this]
          exact ⟨pl', h1, hsw, rfl⟩
    · rename_i pl cu lst m' c'
      obtain ⟨rfl, hno, htm, hhd⟩ := hpa
      rcases h with ⟨pl', h1, h2, h3, h4⟩
      · have hls : lst.isSome = true := by
          cases pl with
          | nil => cases hhd
          | cons it pl =>
            cases hhd
            obtain ⟨c'', hc'', _, h⟩ := h3 _ List.mem_cons_self
            cases hc''; exact h hno
        cases hwl : (w.mach m').listener with
        | none =>
          refine Or.inl ⟨by simp [opObs, hwl], ha, ?_⟩
          simp only [phNxt, hwl]
          refine ⟨pl', h1, ?_, rfl⟩
          cases hsw : c.seen.swapped with
          | true => rfl
          | false => have := (h2 hsw).2; rw [hwl] at this; rw [← this] at hls; cases hls
        | some l =>
          refine Or.inr ⟨.cb c', .inCb c' pl'.tail, by simp [opObs, hwl], ?_, rfl, ha, ?_⟩
          · simp only [next, ha, h1]
            rw [if_pos]
            cases hsw : c.seen.swapped with
            | true => exact Or.inr ⟨rfl, cbMach_eq htm⟩
            | false => rw [(h2 hsw).1]; exact Or.inl hhd
          · simp only [phNxt, hwl]
            split
            · refine ⟨pl'.tail, rfl, ?_, stPlan_tail h3, rfl⟩
              intro hsw
              obtain ⟨h5, h6⟩ := h2 hsw
              exact ⟨by rw [h5], h6⟩
            · rename_i hne
              refine ⟨pl'.tail, rfl, ?_, rfl⟩
              cases hsw : c.seen.swapped with
              | true => rfl
              | false => exact absurd ((hwl.symm.trans (h2 hsw).2)) hne
    · rename_i pl cu lst c'
      obtain ⟨hno, htm, hhd⟩ := hpa
      rcases h with ⟨pl', h1, h2, h3, h4⟩
      · refine Or.inr ⟨.cb c', .inCb c' pl'.tail, rfl, ?_, rfl, ha, ?_⟩
        · simp only [next, ha, h1]
          rw [if_pos]
          cases hsw : c.seen.swapped with
          | true => exact Or.inr ⟨rfl, cbMach_eq htm⟩
          | false => rw [(h2 hsw).1]; exact Or.inl hhd
        · simp only [phNxt]
          refine ⟨pl'.tail, rfl, ?_, stPlan_tail h3, rfl⟩
          intro hsw
          obtain ⟨h5, h6⟩ := h2 hsw
          exact ⟨by rw [h5], h6⟩
    · cases ho
    · cases ho
    · rename_i c' pl cu lst c'' r
      subst hpa
      obtain ⟨pl', h1, h2, h3, h4⟩ := h
      cases r with
      | none =>
        refine Or.inr ⟨_, .entered pl', rfl, by simp [next, ha, h1], rfl, ha, ?_⟩
        exact ⟨pl', rfl, h2, h3, fun h => by cases h⟩
      | some x =>
        refine Or.inr ⟨_, .thrown x, rfl, by simp [next, ha, h1], rfl, ha, ?_⟩
        exact ⟨rfl, rfl⟩
    · cases ho
    · refine Or.inl ⟨rfl, ha, ?_⟩
      exact h
    · rename_i m' c'
      obtain ⟨rfl, htm⟩ := hpa
      obtain ⟨pl', h1, h2, h3⟩ := h
      cases hwl : (w.mach m').listener with
      | none =>
        refine Or.inl ⟨by simp [opObs, hwl], ha, ?_⟩
        simp only [phNxt, hwl]
        exact ⟨pl', h1, h2, rfl⟩
      | some l =>
        refine Or.inr ⟨.cb c', .inCb c' pl'.tail, by simp [opObs, hwl], ?_, rfl, ha, ?_⟩
        · simp only [next, ha, h1]
          rw [if_pos]
          exact Or.inr ⟨h2, cbMach_eq htm⟩
        · simp only [phNxt, hwl]
          exact ⟨pl'.tail, rfl, h2, rfl⟩
    · rename_i c'
      obtain ⟨pl', h1, h2, h3⟩ := h
      refine Or.inr ⟨.cb c', .inCb c' pl'.tail, rfl, ?_, rfl, ha, ?_⟩
      · simp only [next, ha, h1]
        rw [if_pos]
        exact Or.inr ⟨h2, by rw [cbMach_eq]; exact hpa⟩
      · exact ⟨pl'.tail, rfl, h2, rfl⟩
    · cases ho
    · cases ho
    · rename_i c' c'' r
      subst hpa
      obtain ⟨pl', h1, h2, h3⟩ := h
      cases r with
      | none =>
        exact Or.inr ⟨_, .entered pl', rfl, by simp [next, ha, h1], rfl, ha, pl', rfl, h2, rfl⟩
      | some x =>
        exact Or.inr ⟨_, .thrown x, rfl, by simp [next, ha, h1], rfl, ha, rfl, rfl⟩
    · exact hpa.elim
  | _ => exact h.elim

end

/-! ### The invariant -/

theorem run_append (cfg : Cfg) (g : G) (tr1 tr2 : List (Tid × Obs)) :
    Spec.Calls.run cfg g (tr1 ++ tr2) = (Spec.Calls.run cfg g tr1).bind fun g => Spec.Calls.run cfg g tr2 := by
  induction tr1 generalizing g with
  | nil => rfl
  | cons e tr ih =>
    simp only [List.cons_append, Spec.Calls.run]
    split
    · rfl
    · exact ih _

structure CI (env : Env) (lst : Tid → List Frame) (w : World) (g : G) : Prop where
  mem : MemRel w g.mem
  now : ∀ t, ∀ c ∈ g.calls t, Now (callsCfg env) g.mem c
  thr : ∀ t, MatchL env w g.mem (lst t) (g.calls t)

def CallsInv (env : Env) (g0 : G) (lst : Tid → List Frame) (w : World) : Prop :=
  ∃ g, Spec.Calls.run (callsCfg env) g0 w.trace = some g ∧ CI env lst w g

section
variable {env : Env} {w w' : World} {mem : Mem} {c : Spec.Calls.Call} {lst : Tid → List Frame} {g g0 : G}

/-- A step that the history does not show. -/
theorem CI.silent (h : CI env lst w g) (hr : MemRel w' g.mem) (he : Evo w g.mem w' g.mem)
    (hl : ∀ m, (w'.mach m).listener = (w.mach m).listener) {t : Tid} {l' : List Frame}
    (ht : MatchL env w g.mem l' (g.calls t)) : CI env (fset lst t l') w' g where
  mem := hr
  now := h.now
  thr := by
    intro u
    have hm : ∀ l, MatchL env w g.mem l (g.calls u) → MatchL env w' g.mem l (g.calls u) := by
      intro l hl'
      have := matchL_map (g := id) hl' he (fun c => CallLe.same hl c)
      rwa [List.map_id] at this
    by_cases hu : u = t
    · subst hu; simp only [fset_same]; exact hm _ ht
    · simp only [fset_ne _ _ hu]; exact hm _ (h.thr u)

/-- A step that the history shows. -/
theorem CI.emit (h : CI env lst w g) {t : Tid} {x : Obs} {l' : List Frame} {cs : List Spec.Calls.Call}
    (hlegal : g.mem.legal x = true) (hr : MemRel w' (g.mem.step x)) (he : Evo w g.mem w' (g.mem.step x))
    (hl : ∀ m, (∀ l, x ≠ .listener m l) → (w'.mach m).listener = (w.mach m).listener)
    (hs : stack (callsCfg env) g.mem (g.calls t) x = some cs) (ht : MatchL env w g.mem l' cs) :
    ∃ g', Spec.Calls.step (callsCfg env) g (t, x) = some g' ∧ CI env (fset lst t l') w' g' := by
  refine ⟨_, by simp only [Spec.Calls.step, hlegal, hs]; rfl, hr, ?_, ?_⟩
  · intro u c hc
    simp only [List.mem_map] at hc
    obtain ⟨c, _, rfl⟩ := hc
    exact now_look c
  · intro u
    refine matchL_map ?_ he (fun c => CallLe.look hl c)
    by_cases hu : u = t
    · subst hu; simp only [fset_same]; exact ht
    · simp only [fset_ne _ _ hu]; exact h.thr u

theorem stack_next {cfg : Cfg} {x : Obs} {st : Stage} {cs : List Spec.Calls.Call} (hn : next cfg mem c x = some st)
    (hu : userObs x = false) : stack cfg mem (c :: cs) x = some ({ c with st := st } :: cs) := by
  have hno : ∀ x, (match x with | .enter _ | .leave .. | .taskDropped .. => True | _ => False) → next cfg mem c x = none := by
    intro x hx
    unfold next
    split <;> first | cases hx | rfl
  cases x <;> first
    | (rw [hno _ trivial] at hn; cases hn)
    | simp [stack, hu, hn]

theorem calling_of_rel {f : Frame} (h : FrameRel env w mem f c) (hc : f.calling = true) : c.st.calling = true := by
  cases f with
  | fire m ev f =>
    cases f <;> first | cases hc | skip
    obtain ⟨_, _, h⟩ := h
    rw [show c.st = _ from h]; rfl
  | stop m ph => cases hc
  | start m ph =>
    cases ph <;> first | cases hc | skip
    rename_i ph
    obtain ⟨_, h⟩ := h
    cases ph <;> first | cases hc | skip
    · obtain ⟨pl', h, _⟩ := h; rw [h]; rfl
    · obtain ⟨pl', h, _⟩ := h; rw [h]; rfl
  | startIn m s ph => cases hc
  | drain _ _ _ => exact h.elim

theorem returns_of_rel {f : Frame} (h : FrameRel env w mem f c) {k : Api} {r : Option Exc} (hl : f.leaves env k r) :
    c.api = k ∧ returns (callsCfg env) c r = true := by
  have hst : ∀ {m : MId} {silent : Bool} {ph : StPh} {fail : Option Exc}, StRel env w c m silent ph →
      (callsCfg env).fail c.api = fail → ph.leaves fail r →
      ((c.api = .start m ∧ silent = false) ∨ ((∃ s, c.api = .startInState m s) ∧ silent = true)) →
      returns (callsCfg env) c r = true := by
    clear hl
    intro m silent ph fail h hf hl ha
    cases ph with
    | pre =>
      obtain ⟨h1, h2⟩ := hl
      subst h1
      replace h : c.st = .called := h
      cases r with
      | none => exact absurd rfl h2
      | some x => rcases ha with ⟨ha, _⟩ | ⟨⟨s, ha⟩, _⟩ <;> (rw [ha] at hf; simp [returns, ha, h, hf])
    | lost =>
      obtain ⟨h1, h2, h3⟩ := h
      replace hl : r = _ := hl
      rcases ha with ⟨ha, _⟩ | ⟨⟨s, ha⟩, _⟩ <;> (rw [ha] at h3; simp [returns, ha, h1, h2, h3, hl])
    | won => exact hl.elim
    | busy ph =>
      obtain ⟨x, rfl, hl⟩ := hl
      rcases hl with rfl | ⟨rfl, rfl⟩
      · obtain ⟨h2, h3⟩ := h
        rcases ha with ⟨ha, _⟩ | ⟨_, hb⟩
        · simp [returns, ha, h2]
        · rw [hb] at h3; cases h3
      · obtain ⟨pl', h1, h2, h3⟩ := h
        rcases ha with ⟨ha, _⟩ | ⟨_, hb⟩
        · simp [returns, ha, h1, h2]
        · rw [hb] at h3; cases h3
    | fin =>
      replace hl : r = none := hl
      replace h : c.st = _ := h
      simp [returns, h, hl]
  cases f with
  | fire m ev f =>
    cases k <;> first | exact hl.elim | skip
    obtain ⟨rfl, rfl, rfl⟩ := hl
    obtain ⟨ha, _, h⟩ := h
    replace h : c.st = .done r := h
    refine ⟨ha, ?_⟩
    simp [returns, h]
  | stop m ph =>
    cases k <;> first | exact hl.elim | skip
    obtain ⟨rfl, rfl, rfl⟩ := hl
    obtain ⟨ha, h⟩ := h
    refine ⟨ha, ?_⟩
    rcases h with h | ⟨h1, h2⟩
    · simp [returns, h]
    · simp [returns, ha, h1, h2]
  | start m ph =>
    cases k <;> first | exact hl.elim | skip
    obtain ⟨rfl, hl⟩ := hl
    obtain ⟨ha, h⟩ := h
    exact ⟨ha, hst h (by rw [ha]; rfl) hl (Or.inl ⟨ha, rfl⟩)⟩
  | startIn m s ph =>
    cases k <;> first | exact hl.elim | skip
    obtain ⟨rfl, rfl, hl⟩ := hl
    obtain ⟨ha, h⟩ := h
    exact ⟨ha, hst h (by rw [ha]; rfl) hl (Or.inr ⟨⟨_, ha⟩, rfl⟩)⟩
  | drain _ _ _ => exact h.elim

theorem user_obs {o : Op} (ho : userOp o) {x : Obs} (hx : opObs o w = some x) :
    userObs x = true := by
  unfold userOp at ho
  split at ho <;> first | (cases hx; done) | (cases hx; rfl) | exact ho.elim

theorem stack_user {cfg : Cfg} {x : Obs} (hx : userObs x = true) {cs : List Spec.Calls.Call}
    (hc : ∀ c ∈ cs.head?, c.st.calling = true) : stack cfg mem cs x = some cs := by
  cases cs with
  | nil => cases x <;> first | rfl | cases hx
  | cons c cs =>
    have := hc c rfl
    cases x <;> first | (cases hx; done) | simp [stack, this, userObs]

theorem phOp_background {m : MId} {o : Op} {ev : Ev} (h : PhOp m ev o) {x : Obs} (hx : opObs o w = some x) :
    background x = true ∧ stack cfg mem [] x = some [] := by
  cases h with
  | getCur => cases hx
  | getListener => cases hx
  | notify ht =>
    simp only [opObs] at hx
    split at hx
    · cases hx
      rename_i c _
      cases c <;> first | exact ⟨rfl, rfl⟩ | cases ht
    · cases hx
  | cb ht =>
    cases hx
    rename_i c
    cases c <;> first | exact ⟨rfl, rfl⟩ | cases ht
  | cbRet => cases hx; exact ⟨rfl, rfl⟩
  | cas =>
    simp only [opObs] at hx
    split at hx <;> cases hx
    exact ⟨rfl, rfl⟩
  | setCur => cases hx; exact ⟨rfl, rfl⟩

theorem drain_move {cfg : Cfg} {f f' : Frame} {o : Op} (hm : Move env w f o f') (hd : f.isDrain = true) :
    f'.isDrain = true ∧ ∀ x, opObs o w = some x → stack cfg mem [] x = some [] := by
  have give : ∀ s p x, opObs (.poolGive s p) w = some x → stack cfg mem [] x = some [] := by
    intro s p x hx
    simp only [opObs] at hx
    cases hp : w.pair p with
    | none => rw [hp] at hx; cases hx
    | some v => rw [hp] at hx; cases hx; rfl
  have poll : ∀ q x, opObs (.poll q) w = some x → stack cfg mem [] x = some [] := by
    intro q x hx
    simp only [opObs] at hx
    split at hx
    · cases hx
    · cases hp : w.pair ‹_› with
      | none => rw [hp] at hx; cases hx
      | some v => rw [hp] at hx; cases hx; rfl
  have silent : ∀ o, opObs o w = none → ∀ x, opObs o w = some x → stack cfg mem [] x = some [] := by
    intro o h x hx; rw [h] at hx; cases hx
  cases hm with
  | drPh ha => exact ⟨rfl, fun x hx => (phOp_background (phAllowed_op ha) hx).2⟩
  | stCas1 hf _ _ => rcases hf.inv with ⟨rfl, _⟩ | ⟨rfl, _⟩ <;> cases hd
  | stCas0 hf _ _ => rcases hf.inv with ⟨rfl, _⟩ | ⟨rfl, _⟩ <;> cases hd
  | stSet hf => rcases hf.inv with ⟨rfl, _⟩ | ⟨rfl, _⟩ <;> cases hd
  | stClear hf _ => rcases hf.inv with ⟨rfl, _⟩ | ⟨rfl, _⟩ <;> cases hd
  | stPh hf _ _ => rcases hf.inv with ⟨rfl, _⟩ | ⟨rfl, _⟩ <;> cases hd
  | drFlow _ _ => exact ⟨rfl, fun x hx => by cases hx; rfl⟩
  | drFlowRet => exact ⟨rfl, fun x hx => by cases hx; rfl⟩
  | drGive _ => exact ⟨rfl, give _ _⟩
  | drGiveErr _ => exact ⟨rfl, give _ _⟩
  | drOver => exact ⟨rfl, give _ _⟩
  | drOverErr => exact ⟨rfl, give _ _⟩
  | drPoll0 _ => exact ⟨rfl, poll _⟩
  | drPollBad _ _ => exact ⟨rfl, poll _⟩
  | drPoll _ _ => exact ⟨rfl, poll _⟩
  | _ => first | (cases hd; done) | exact ⟨rfl, silent _ rfl⟩

theorem own_all (h : Own env lst w) : ∀ q, ∀ p ∈ w.queue q, (w.pair p).isSome = true := by
  obtain ⟨loc, h⟩ := h
  intro q p hp
  obtain ⟨ev, m, hpr, _⟩ := h.full q p hp
  simp [hpr]

theorem callsInv_op {t : Tid} {o : Op} {l' : List Frame} (ho : Own env lst w) (h : CallsInv env g0 lst w)
    (hm : LMove env w (lst t) o l') : CallsInv env g0 (fset lst t l') (exec t o w).2 := by
  obtain ⟨g, hg, h⟩ := h
  have hok := opOk_of_lmove ho hm
  have hall := own_all ho
  obtain ⟨hlegal, hr, he⟩ := mem_exec (t := t) h.mem hok hall
  have htr := exec_trace t o w
  -- it is enough to say what happens to the open calls of the thread
  have key : (opObs o w = none → MatchL env w g.mem l' (g.calls t)) →
      (∀ x, opObs o w = some x → ∃ cs, stack (callsCfg env) g.mem (g.calls t) x = some cs ∧ MatchL env w g.mem l' cs) →
      CallsInv env g0 (fset lst t l') (exec t o w).2 := by
    intro h1 h2
    cases hx : opObs o w with
    | none =>
      rw [hx] at htr hr he
      refine ⟨g, by rw [htr]; simpa using hg, h.silent hr he ?_ (h1 hx)⟩
      intro m; exact listener_exec m (by rw [hx]; intro l; simp)
    | some x =>
      rw [hx] at htr hr he
      obtain ⟨cs, hs, hml⟩ := h2 x hx
      obtain ⟨g', hg', hci⟩ := h.emit (t := t) (hlegal x hx) hr he
        (fun m hml => listener_exec m (by rw [hx]; intro l hc; cases hc; exact hml l rfl)) hs hml
      refine ⟨g', ?_, hci⟩
      rw [htr, run_append, hg]
      simp [Spec.Calls.run, hg']
  have hml := h.thr t
  generalize hl : lst t = l at hm hml
  generalize hcs : g.calls t = cs at hml key
  cases hm with
  | @enter l k hc =>
    refine key (fun hx => by cases hx) ?_
    intro x hx
    cases hx
    have hnew : FrameRel env w g.mem (.ofApi k) ⟨k, .called, {}, (g.mem.acc ((callsCfg env).queue (apiMach k))).length⟩ := by
      cases k with
      | fire m ev => exact ⟨rfl, Nat.le_refl _, rfl⟩
      | stop m => exact ⟨rfl, rfl⟩
      | start m => exact ⟨rfl, rfl⟩
      | startInState m s => exact ⟨rfl, rfl⟩
    cases cs with
    | nil => exact ⟨[_], rfl, hnew, hml⟩
    | cons c cs =>
      have : c.st.calling = true := by
        cases l with
        | nil => cases hml
        | cons f fs => exact calling_of_rel hml.1 hc
      exact ⟨_ :: c :: cs, by simp only [stack, this, if_true], hnew, hml⟩
  | @leave f rest k r hlv =>
    refine key (fun hx => by cases hx) ?_
    intro x hx
    cases hx
    cases cs with
    | nil =>
      obtain ⟨_, hd⟩ := hml
      cases f <;> first | (cases k <;> exact hlv.elim) | cases hd
    | cons c cs => exact ⟨cs, by simp only [stack]; exact if_pos (returns_of_rel hml.1 hlv), hml.2⟩
  | user hc hu =>
    refine key (fun _ => hml) ?_
    intro x hx
    refine ⟨cs, stack_user (user_obs hu hx) ?_, hml⟩
    intro c hcm
    cases cs with
    | nil => cases hcm
    | cons c' cs =>
      cases hcm
      cases l' with
      | nil => cases hml
      | cons f fs => exact calling_of_rel hml.1 hc
  | @frame f f' rest o hmv =>
    cases cs with
    | nil =>
      obtain ⟨h1, h2⟩ := hml
      obtain ⟨h3, h4⟩ := drain_move (cfg := callsCfg env) (mem := g.mem) hmv h2
      exact key (fun _ => ⟨h1, h3⟩) (fun x hx => ⟨[], h4 x hx, h1, h3⟩)
    | cons c cs =>
      have hfact : f.fact env w.pair := by
        obtain ⟨loc, ho⟩ := ho
        exact ho.fact t f (by rw [hl]; simp)
      have htop := move_top hmv hml.1 (h.now t c (by rw [hcs]; simp)) h.mem hall hfact
      rcases htop with ⟨hx, hf⟩ | ⟨x, st, hx, hn, hu, hf⟩
      · exact key (fun _ => ⟨hf, hml.2⟩) (fun y hy => by rw [hx] at hy; cases hy)
      · refine key (fun hy => by rw [hx] at hy; cases hy) ?_
        intro y hy
        rw [hx] at hy; cases hy
        exact ⟨_, stack_next hn hu, hf, hml.2⟩

theorem CI.same (h : CI env lst w g) (h1 : w'.mach = w.mach) (h2 : w'.payload = w.payload) (h3 : w'.queue = w.queue)
    (h4 : w'.pair = w.pair) (h5 : w'.nextCopy = w.nextCopy) {t : Tid} {l' : List Frame}
    (ht : MatchL env w g.mem l' (g.calls t)) : CI env (fset lst t l') w' g := by
  refine h.silent ?_ (Evo.same ?_ rfl rfl h3 ?_) ?_ ht
  · refine ⟨?_, ?_, ?_, ?_, ?_, h.mem.tk, ?_⟩
    · rw [h1]; exact h.mem.started
    · rw [h1]; exact h.mem.ended
    · rw [h1]; exact h.mem.lst
    · rw [h2]; exact h.mem.pay
    · intro q; rw [h.mem.waiting q]; simp only [World.evs, h3, h4]
    · rw [h5]; exact h.mem.copies
  · rw [h1]; exact fun _ h => h
  · rw [h4]; intros; rfl
  · rw [h1]; intro; rfl

theorem fset_self {α β : Type} [DecidableEq α] (f : α → β) (a : α) : fset f a (f a) = f := by
  funext u; by_cases h : u = a <;> simp [fset, h]

theorem CI.same' (h : CI env lst w g) (h1 : w'.mach = w.mach) (h2 : w'.payload = w.payload) (h3 : w'.queue = w.queue)
    (h4 : w'.pair = w.pair) (h5 : w'.nextCopy = w.nextCopy) : CI env lst w' g := by
  have := h.same h1 h2 h3 h4 h5 (h.thr .env)
  rwa [fset_self] at this

theorem look_now {cfg : Cfg} {x : Obs} (h : Now cfg mem c) (hx : ∀ m l, x ≠ .listener m l) : c.look cfg mem x = c := by
  have h' : c.seen.look cfg mem c.api = c.seen := h
  simp only [Spec.Calls.Call.look, h']
  cases x <;> first | (exact absurd rfl (hx _ _)) | (simp; done)

/-- An entry that changes nothing. -/
theorem step_idle (hn : ∀ t, ∀ c ∈ g.calls t, Now (callsCfg env) g.mem c) {t : Tid} {x : Obs}
    (hx : ∀ m l, x ≠ .listener m l) (hmem : g.mem.step x = g.mem) (hleg : g.mem.legal x = true)
    (hs : stack (callsCfg env) g.mem (g.calls t) x = some (g.calls t)) : Spec.Calls.step (callsCfg env) g (t, x) = some g := by
  simp only [Spec.Calls.step, hleg, if_true, hs, hmem, fset_self, Option.some.injEq]
  have : (fun t => (g.calls t).map (Spec.Calls.Call.look (callsCfg env) g.mem x)) = g.calls := by
    funext u
    have : ∀ l : List Spec.Calls.Call, (∀ c ∈ l, Now (callsCfg env) g.mem c) →
        l.map (Spec.Calls.Call.look (callsCfg env) g.mem x) = l := by
      intro l
      induction l with
      | nil => intro _; rfl
      | cons c l ih =>
        intro h
        simp only [List.map_cons]
        rw [look_now (h c (by simp)) hx, ih (fun c hc => h c (by simp [hc]))]
    exact this _ (hn u)
  cases g
  simp only at this ⊢
  rw [this]

theorem matchL_fin {t : Tid} {r : Except Exc Unit} {l : List Frame} {cs : List Spec.Calls.Call} (hf : fin t r l)
    (h : MatchL env w mem l cs) : cs = [] := by
  have hd : ∀ s m d, MatchL env w mem [.drain s m d] cs → cs = [] := by
    intro s m d h
    cases cs with
    | nil => rfl
    | cons c cs => exact h.1.elim
  rcases hf with ⟨_, rfl⟩ | ⟨s, m, hf⟩
  · exact h
  · cases r with
    | ok _ => cases hf; exact hd _ _ _ h
    | error x => cases hf; exact hd _ _ _ h

theorem calls_preserved (env : Env) (g0 : G) : Preserved env (Own env) (CallsInv env g0) where
  op := fun lst w t o l' ho h hm _ => callsInv_op ho h hm
  ret := by
    rintro lst w t - ⟨g, hg, h⟩ hf
    refine ⟨g, hg, h.same rfl rfl rfl rfl rfl ?_⟩
    exact matchL_fin hf (h.thr t)
  thr := by
    rintro lst w t x - ⟨g, hg, h⟩ hf
    have hnil : g.calls t = [] := matchL_fin hf (h.thr t)
    refine ⟨g, ?_, CI.same (w' := w.log t (.uncaught x)) (t := t) (l' := []) h rfl rfl rfl rfl rfl hnil⟩
    have hst := step_idle h.now (t := t) (x := .uncaught x) (by intro m l hc; cases hc) rfl rfl (by rw [hnil]; rfl)
    simp only [World.log, run_append, hg, Option.bind_some, Spec.Calls.run, hst]
  dispatch := by
    rintro lst w e i j s m - ⟨g, hg, h⟩ hl _ _
    have hnil : g.calls (.worker e i) = [] := by have := h.thr (.worker e i); rw [hl] at this; exact this
    have ht : MatchL env w g.mem (task s m) (g.calls (.worker e i)) := by rw [hnil]; exact ⟨rfl, rfl⟩
    refine ⟨g, hg, ?_⟩
    apply h.same (t := .worker e i) (l' := task s m) <;> first | rfl | exact ht
  interrupt := by
    rintro lst w t - ⟨g, hg, h⟩
    exact ⟨g, hg, h.same' rfl rfl rfl rfl rfl⟩
  shutdown := by
    rintro lst w t - ⟨g, hg, h⟩
    exact ⟨g, hg, h.same' rfl rfl rfl rfl rfl⟩
  dropTasks := by
    rintro lst w e - ⟨g, hg, h⟩
    refine ⟨g, ?_, h.same' rfl rfl rfl rfl rfl⟩
    simp only [World.dropTasks, run_append, hg, Option.bind_some]
    generalize w.tasks e = l
    induction l with
    | nil => rfl
    | cons a l ih =>
      have hst := step_idle h.now (t := Tid.env) (x := .taskDropped a.1 a.2) (by intro m l hc; cases hc) rfl rfl
        (by simp [stack])
      simp only [List.map_cons, Spec.Calls.run, hst]
      exact ih

end

end Verif
