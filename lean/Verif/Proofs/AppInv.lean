import Verif.Proofs.AppOk
/-
The invariant of programs with an app.
-/

namespace Verif
open Prog Spec.App

namespace Svc
variable {a : App} {t : Tid} {lst : Tid → Ctl} {tr : List (Tid × Obs)} {cur : Option St} {st : Bool × Bool} {la : Nat}

def ownType (a : App) : Obs → Bool
  | .enter (.fire m _) | .leave (.fire m _) _ | .enter (.start m) | .leave (.start m) _ => m == a.m
  | .user (.app i _) | .user (.appRet i _ _) | .user (.intr i) => i == a.id
  | _ => false

theorem own_append (x y : List (Tid × Obs)) : ownEntries a t (x ++ y) = ownEntries a t x ++ ownEntries a t y := by
  simp [ownEntries, ofThread]

theorem own_one {u : Tid} {x : Obs} : ownEntries a t [(u, x)] = if u = t ∧ ownType a x = true then [x] else [] := by
  by_cases hu : u = t
  · simp only [ownEntries, ofThread, List.filterMap_cons, List.filterMap_nil, hu, if_true, List.filter_cons, List.filter_nil, true_and]
    congr 1
  · simp [ownEntries, ofThread, hu]

theorem ownType_priv {x : Obs} (h : ownType a x = true) : privObs a x = true := by
  unfold ownType at h; unfold privObs
  split at h <;> simp_all

/-- What is known about the entries before a read. -/
def Seen (a : App) (tr : List (Tid × Obs)) (pos : Nat) (s : Option St) (n : Nat) : Prop :=
  pos < n ∧ n ≤ tr.length ∧ curOf a.m (tr.take n) = s

def Seen2 (a : App) (tr : List (Tid × Obs)) (pos : Nat) (s : Option St) (n : Nat) (b : Bool) (n2 : Nat) : Prop :=
  Seen a tr pos s n ∧ n ≤ n2 ∧ n2 ≤ tr.length ∧ startedOf a.m (tr.take n2) = b

def Why (a : App) (tr : List (Tid × Obs)) (pos : Nat) (c : AppCall) (ev : Ev) (s : Option St) (n n2 : Nat) : Prop :=
  match c with
  | .stop => onStop a.exitOnStop (nm s) = .fire ∧ ev = evtStop ∧ Seen a tr pos s n
  | .error => ev = evtError
  | .start => onStart a.exitOnStop (nm s) = .fire ∧ ev = evtStart ∧ Seen2 a tr pos s n true n2

def upTo (a : App) (nested : List Obs) : List Obs := .enter (.start a.m) :: nested ++
  [.leave (.start a.m) none, .enter (.fire a.m evtStart), .leave (.fire a.m evtStart) none]

def woke (a : App) (tr : List (Tid × Obs)) (i : Bool) : Prop := i = false → ∃ u, (u, Obs.latch a.latch) ∈ tr

/-- The ended flag was read after the entries `l`. -/
def Tested (a : App) (t : Tid) (tr : List (Tid × Obs)) (pos : Nat) (l : List Obs) (b : Bool) : Prop :=
  ∃ n, n ≤ tr.length ∧ ownEntries a t ((tr.take n).drop (pos + 1)) = l ∧ endedOf a.m (tr.take n) = b

def note (a : App) (i : Bool) : List Obs := if i then [.user (.intr a.id)] else []

def PhFact (a : App) (t : Tid) (tr : List (Tid × Obs)) (own : List Obs) (pos : Nat) (c : AppCall) : Ph → Prop
  | .begin => own = []
  | .read s n => own = [] ∧ Seen a tr pos s n
  | .known s n b n2 => own = [] ∧ c = .start ∧ Seen2 a tr pos s n b n2
  | .firing ev s n n2 => own = [.enter (.fire a.m ev)] ∧ Why a tr pos c ev s n n2
  | .fired ev s n n2 r => own = [.enter (.fire a.m ev), .leave (.fire a.m ev) r] ∧ Why a tr pos c ev s n n2
  | .starting s n n2 => c = .start ∧ Seen2 a tr pos s n false n2 ∧ ∃ k, own = .enter (.start a.m) :: k
  | .noStart s n n2 x => c = .start ∧ Seen2 a tr pos s n false n2 ∧
    ∃ k, own = .enter (.start a.m) :: k ++ [.leave (.start a.m) (some x)]
  | .started s n n2 => c = .start ∧ Seen2 a tr pos s n false n2 ∧
    ∃ k, own = .enter (.start a.m) :: k ++ [.leave (.start a.m) none]
  | .firing1 s n n2 => c = .start ∧ Seen2 a tr pos s n false n2 ∧
    ∃ k, own = .enter (.start a.m) :: k ++ [.leave (.start a.m) none, .enter (.fire a.m evtStart)]
  | .noFire s n n2 x => c = .start ∧ Seen2 a tr pos s n false n2 ∧
    ∃ k, own = .enter (.start a.m) :: k ++
      [.leave (.start a.m) none, .enter (.fire a.m evtStart), .leave (.fire a.m evtStart) (some x)]
  | .waiting s n n2 | .awake s n n2 => c = .start ∧ Seen2 a tr pos s n false n2 ∧ ∃ k, own = upTo a k
  | .finish s n n2 i => c = .start ∧ Seen2 a tr pos s n false n2 ∧ woke a tr i ∧ ∃ k, own = upTo a k ++ note a i
  | .toStop s n n2 i => c = .start ∧ Seen2 a tr pos s n false n2 ∧ woke a tr i ∧
    ∃ k, Tested a t tr pos (upTo a k ++ note a i) false ∧ own = upTo a k ++ note a i
  | .clean s n n2 i => c = .start ∧ Seen2 a tr pos s n false n2 ∧ woke a tr i ∧
    ∃ k, Tested a t tr pos (upTo a k ++ note a i) true ∧ own = upTo a k ++ note a i
  | .inStop s n n2 i => c = .start ∧ Seen2 a tr pos s n false n2 ∧ woke a tr i ∧
    ∃ k k', Tested a t tr pos (upTo a k ++ note a i) false ∧ own = upTo a k ++ note a i ++ .user (.app a.id .stop) :: k'
  | .over s n n2 i r => c = .start ∧ Seen2 a tr pos s n false n2 ∧ woke a tr i ∧
    ∃ k k', Tested a t tr pos (upTo a k ++ note a i) false ∧ own = upTo a k ++ note a i ++ (.user (.app a.id .stop) :: k' ++ [.user (.appRet a.id .stop r)])

def FF (a : App) (t : Tid) (tr : List (Tid × Obs)) (f : Frame) : Prop :=
  tr[f.pos]? = some (t, .user (.app a.id f.c)) ∧ PhFact a t tr (ownEntries a t (tr.drop (f.pos + 1))) f.pos f.c f.ph

/-- A call returned `r` at the end of `tr`. -/
def RetFact (a : App) (t : Tid) (tr : List (Tid × Obs)) (c : AppCall) (r : Option Exc) : Prop :=
  ∃ pos rest, openCalls a t tr = (pos, c) :: rest ∧ tr[pos]? = some (t, .user (.app a.id c)) ∧ CallDone a t tr pos r c

def stable : Ph → Bool
  | .starting .. | .inStop .. => true
  | _ => false

def isInStop : Ph → Bool
  | .inStop .. => true
  | _ => false

/-- Calls that are not the innermost one. -/
def Below : AppCall → List Frame → Prop
  | _, [] => True
  | c, f :: ms => stable f.ph = true ∧ (isInStop f.ph = true → c = .stop) ∧ Below f.c ms

theorem Below.stable {c : AppCall} {ms : List Frame} (h : Below c ms) : ∀ f ∈ ms, Svc.stable f.ph = true := by
  induction ms generalizing c with
  | nil => intro f hf; cases hf
  | cons g ms ih =>
    intro f hf
    rcases List.mem_cons.1 hf with rfl | hf
    · exact h.1
    · exact ih h.2.2 f hf

def quietAct (act : Option (Cb × Act)) : Prop := ∀ p, act = some p → p.2.isInSub = true

def Wf (l : Ctl) : Prop := ∀ f ms, l.meths = f :: ms → quietAct l.act ∧ Below f.c ms

structure InvT (a : App) (lst : Tid → Ctl) (tr : List (Tid × Obs)) (cur : Option St) (st : Bool × Bool) (la : Nat) : Prop where
  run : ∀ t, Spec.App.run a none (ofThread t tr) = some (lst t).act
  calls : ∀ t, openCalls a t tr = (lst t).meths.map fun f => (f.pos, f.c)
  wf : ∀ t, Wf (lst t)
  frames : ∀ t, ∀ f ∈ (lst t).meths, FF a t tr f
  cur : curOf a.m tr = cur
  started : (startedOf a.m tr, endedOf a.m tr) = st
  latch : la = 0 → ∃ u, (u, Obs.latch a.latch) ∈ tr
  rets : ∀ (i : Nat) u c r, tr[i]? = some (u, .user (.appRet a.id c r)) → RetFact a u (tr.take i) c r

/-! ### Extending the history -/

theorem Seen.mono {pos n : Nat} {s : Option St} (h : Seen a tr pos s n) (e : List (Tid × Obs)) : Seen a (tr ++ e) pos s n := by
  obtain ⟨h1, h2, h3⟩ := h
  refine ⟨h1, by simp; omega, ?_⟩
  rw [List.take_append_of_le_length h2]; exact h3

theorem Seen2.mono {pos n n2 : Nat} {s : Option St} {b : Bool} (h : Seen2 a tr pos s n b n2) (e : List (Tid × Obs)) :
    Seen2 a (tr ++ e) pos s n b n2 := by
  obtain ⟨h1, h2, h3, h4⟩ := h
  refine ⟨h1.mono e, h2, by simp; omega, ?_⟩
  rw [List.take_append_of_le_length h3]; exact h4

theorem Why.mono {pos n n2 : Nat} {c : AppCall} {ev : Ev} {s : Option St} (h : Why a tr pos c ev s n n2) (e : List (Tid × Obs)) :
    Why a (tr ++ e) pos c ev s n n2 := by
  cases c with
  | start => exact ⟨h.1, h.2.1, h.2.2.mono e⟩
  | stop => exact ⟨h.1, h.2.1, h.2.2.mono e⟩
  | error => exact h

theorem woke.mono {i : Bool} (h : woke a tr i) (e : List (Tid × Obs)) : woke a (tr ++ e) i := fun hi =>
  let ⟨u, hu⟩ := h hi; ⟨u, List.mem_append_left _ hu⟩

theorem Tested.mono {pos : Nat} {l : List Obs} {b : Bool} (h : Tested a t tr pos l b) (e : List (Tid × Obs)) :
    Tested a t (tr ++ e) pos l b := by
  obtain ⟨n, h1, h2, h3⟩ := h
  refine ⟨n, by simp; omega, ?_, ?_⟩ <;> rw [List.take_append_of_le_length h1] <;> assumption

theorem PhFact.mono {own : List Obs} {pos : Nat} {c : AppCall} {ph : Ph} (h : PhFact a t tr own pos c ph) (e : List (Tid × Obs)) :
    PhFact a t (tr ++ e) own pos c ph := by
  cases ph with
  | begin => exact h
  | read s n => exact ⟨h.1, h.2.mono e⟩
  | known s n b n2 => exact ⟨h.1, h.2.1, h.2.2.mono e⟩
  | firing ev s n n2 => exact ⟨h.1, h.2.mono e⟩
  | fired ev s n n2 r => exact ⟨h.1, h.2.mono e⟩
  | starting | noStart | started | firing1 | noFire | waiting | awake => exact ⟨h.1, h.2.1.mono e, h.2.2⟩
  | finish => exact ⟨h.1, h.2.1.mono e, h.2.2.1.mono e, h.2.2.2⟩
  | toStop | clean =>
    obtain ⟨h1, h2, h3, k, h4, h5⟩ := h
    exact ⟨h1, h2.mono e, h3.mono e, k, h4.mono e, h5⟩
  | inStop | over =>
    obtain ⟨h1, h2, h3, k, k', h4, h5⟩ := h
    exact ⟨h1, h2.mono e, h3.mono e, k, k', h4.mono e, h5⟩

theorem drop_ext {tr : List (Tid × Obs)} {pos : Nat} {x : Tid × Obs} (h : tr[pos]? = some x) (e : List (Tid × Obs)) :
    (tr ++ e).drop (pos + 1) = tr.drop (pos + 1) ++ e := by
  have : pos < tr.length := by
    rcases Nat.lt_or_ge pos tr.length with h1 | h1
    · exact h1
    · rw [List.getElem?_eq_none h1] at h; cases h
  rw [List.drop_append_of_le_length (by omega)]

theorem get_ext {tr : List (Tid × Obs)} {pos : Nat} {x : Tid × Obs} (h : tr[pos]? = some x) (e : List (Tid × Obs)) :
    (tr ++ e)[pos]? = some x := by
  have : pos < tr.length := by
    rcases Nat.lt_or_ge pos tr.length with h1 | h1
    · exact h1
    · rw [List.getElem?_eq_none h1] at h; cases h
  rw [List.getElem?_append_left this]; exact h

/-- Entries of other threads, and entries that are not the app's. -/
theorem FF.quiet {f : Frame} (h : FF a t tr f) {u : Tid} {x : Obs} (hx : ¬ (u = t ∧ ownType a x = true)) :
    FF a t (tr ++ [(u, x)]) f := by
  refine ⟨get_ext h.1 _, ?_⟩
  rw [drop_ext h.1, own_append, own_one, if_neg hx, List.append_nil]
  exact h.2.mono _

/-- Own entries. -/
theorem FF.loud {f : Frame} (h : FF a t tr f) {x : Obs} (hx : ownType a x = true) {ph : Ph}
    (hp : PhFact a t (tr ++ [(t, x)]) (ownEntries a t (tr.drop (f.pos + 1)) ++ [x]) f.pos f.c ph) :
    FF a t (tr ++ [(t, x)]) { f with ph := ph } := by
  refine ⟨get_ext h.1 _, ?_⟩
  simp only
  rw [drop_ext h.1, own_append, own_one, if_pos ⟨rfl, hx⟩]
  exact hp

theorem FF.below {f : Frame} (h : FF a t tr f) (hs : stable f.ph = true) {x : Obs} (hx : ownType a x = true) :
    FF a t (tr ++ [(t, x)]) f := by
  refine h.loud (ph := f.ph) hx ?_
  have h2 := h.2.mono [(t, x)]
  revert h2
  generalize ownEntries a t (tr.drop (f.pos + 1)) = own
  cases hf : f.ph with
  | starting s n n2 =>
    rintro ⟨h1, h2, k, rfl⟩
    exact ⟨h1, h2, k ++ [x], by simp⟩
  | inStop s n n2 i =>
    rintro ⟨h1, h2, h3, k, k', h4, rfl⟩
    exact ⟨h1, h2, h3, k, k' ++ [x], h4, by simp⟩
  | _ => rw [hf] at hs; cases hs

theorem ofThread_append (x y : List (Tid × Obs)) : ofThread t (x ++ y) = ofThread t x ++ ofThread t y := by simp [ofThread]

theorem run_append (s : Option (Cb × Act)) (x y : List Obs) :
    Spec.App.run a s (x ++ y) = (Spec.App.run a s x).bind fun s => Spec.App.run a s y := by
  induction x generalizing s with
  | nil => rfl
  | cons o x ih =>
    simp only [List.cons_append, Spec.App.run]
    cases Spec.App.step a s o with
    | none => rfl
    | some s' => exact ih s'

theorem run_snoc {s s' : Option (Cb × Act)} {x : Obs} (h : Spec.App.run a none (ofThread t tr) = some s) (hs : Spec.App.step a s x = some s') :
    Spec.App.run a none (ofThread t (tr ++ [(t, x)])) = some s' := by
  rw [ofThread_append, run_append, h]
  simp [ofThread, Spec.App.run, hs]

theorem run_other {s : Option (Cb × Act)} {u : Tid} {x : Obs} (h : Spec.App.run a none (ofThread t tr) = some s) (hu : u ≠ t) :
    Spec.App.run a none (ofThread t (tr ++ [(u, x)])) = some s := by
  rw [ofThread_append, run_append, h]
  simp [ofThread, Spec.App.run, hu]

theorem callsFrom_snoc (u : Tid) (x : Obs) (n : Nat) (l : List (Nat × AppCall)) :
    callsFrom a t n l (tr ++ [(u, x)]) =
      if u = t then callsStep a (n + tr.length) x (callsFrom a t n l tr) else callsFrom a t n l tr := by
  induction tr generalizing n l with
  | nil => rfl
  | cons e tr ih =>
    simp only [List.cons_append, callsFrom, ih, List.length_cons]
    rw [Nat.add_right_comm]; rfl

theorem openCalls_snoc (u : Tid) (x : Obs) :
    openCalls a t (tr ++ [(u, x)]) = if u = t then callsStep a tr.length x (openCalls a t tr) else openCalls a t tr := by
  unfold openCalls
  rw [callsFrom_snoc, Nat.zero_add]

theorem callsStep_quiet {n : Nat} {x : Obs} (h : privObs a x = false) (l : List (Nat × AppCall)) : callsStep a n x l = l := by
  unfold callsStep
  split
  next i c => simp [privObs] at h; rw [if_neg h]
  next i c r => simp [privObs] at h; rw [if_neg h]
  · rfl

theorem relevant_priv {s : Option (Cb × Act)} {x : Obs} (h : relevant a s x = true) : privObs a x = true := by
  unfold relevant at h; unfold privObs
  split at h <;> simp_all

theorem step_quiet {s : Option (Cb × Act)} {x : Obs} (h : privObs a x = false) : Spec.App.step a s x = some s := by
  unfold Spec.App.step
  rw [if_neg]
  intro hr
  rw [relevant_priv hr] at h; cases h

def curStep (a : App) (cur : Option St) : Obs → Option St
  | .cur m s _ => if m = a.m then some s else cur
  | _ => cur

def stStep (a : App) (st : Bool × Bool) (x : Obs) : Bool × Bool := (st.1 || x == .started a.m,
  match x with
  | .cleared m' => if m' = a.m then false else st.2
  | .upd m' _ b' _ => if m' = a.m then b' else st.2
  | _ => st.2)

theorem curOf_snoc (u : Tid) (x : Obs) : curOf a.m (tr ++ [(u, x)]) = curStep a (curOf a.m tr) x := by
  unfold curOf
  rw [List.foldl_append]
  rfl

theorem startedOf_snoc (u : Tid) (x : Obs) :
    (startedOf a.m (tr ++ [(u, x)]), endedOf a.m (tr ++ [(u, x)])) = stStep a (startedOf a.m tr, endedOf a.m tr) x := by
  unfold endedOf
  rw [List.foldl_append]
  simp only [startedOf, stStep, List.any_append, List.any_cons, List.any_nil, Bool.or_false]
  rfl

/-- The earlier returns stay what they were. -/
theorem rets_snoc {u : Tid} {x : Obs}
    (h : ∀ (i : Nat) u c r, tr[i]? = some (u, .user (.appRet a.id c r)) → RetFact a u (tr.take i) c r)
    (hx : ∀ c r, x = .user (.appRet a.id c r) → RetFact a u tr c r) :
    ∀ (i : Nat) v c r, (tr ++ [(u, x)])[i]? = some (v, .user (.appRet a.id c r)) → RetFact a v ((tr ++ [(u, x)]).take i) c r := by
  intro i v c r hi
  rcases Nat.lt_trichotomy i tr.length with hl | hl | hl
  · rw [List.getElem?_append_left hl] at hi
    rw [List.take_append_of_le_length (by omega)]
    exact h i v c r hi
  · subst hl
    rw [List.getElem?_append_right (Nat.le_refl _)] at hi
    simp only [Nat.sub_self, List.getElem?_cons_zero, Option.some.injEq, Prod.mk.injEq] at hi
    obtain ⟨rfl, hi⟩ := hi
    rw [List.take_left]
    exact hx c r hi
  · rw [List.getElem?_append_right (by omega), List.getElem?_eq_none (by simp; omega)] at hi
    cases hi

/-- An entry that has nothing to do with the app. -/
theorem InvT.quiet (h : InvT a lst tr cur st la) {u : Tid} {x : Obs} (hx : privObs a x = false) :
    InvT a lst (tr ++ [(u, x)]) (curStep a cur x) (stStep a st x) la where
  run t := by
    by_cases hu : u = t
    · subst hu; exact run_snoc (h.run _) (step_quiet hx)
    · exact run_other (h.run _) hu
  calls t := by
    rw [openCalls_snoc, callsStep_quiet hx, ite_self]; exact h.calls t
  wf := h.wf
  frames t f hf := (h.frames t f hf).quiet fun h => by rw [ownType_priv h.2] at hx; cases hx
  cur := by rw [curOf_snoc, h.cur]
  started := by rw [startedOf_snoc, h.started]
  latch h0 := let ⟨u, hu⟩ := h.latch h0; ⟨u, List.mem_append_left _ hu⟩
  rets := rets_snoc h.rets fun c r h => by subst h; simp [privObs] at hx


theorem stStep_other {st : Bool × Bool} {x : Obs} (h : x ≠ .started a.m) (h1 : x ≠ .cleared a.m) (h2 : ∀ s b i, x ≠ .upd a.m s b i) :
    stStep a st x = st := by
  unfold stStep
  rw [beq_eq_false_iff_ne.2 h, Bool.or_false]
  split
  next m => rw [if_neg fun hm => h1 (by rw [hm])]
  next m s b i => rw [if_neg fun hm => h2 s b i (by rw [hm])]
  · rfl

theorem priv_cur {x : Obs} (h : privObs a x = true) : curStep a cur x = cur ∧ stStep a st x = st := by
  cases x <;> first | (cases h; done) | exact ⟨rfl, stStep_other (by intro h; cases h) (by intro h; cases h) (by intro s b i h; cases h)⟩

/-- An entry of the app by thread `t`. -/
theorem InvT.loud (h : InvT a lst tr cur st la) {l' : Ctl} {x : Obs} {la' : Nat} (hx : privObs a x = true)
    (hrun : Spec.App.step a (lst t).act x = some l'.act)
    (hcalls : callsStep a tr.length x ((lst t).meths.map fun f => (f.pos, f.c)) = l'.meths.map fun f => (f.pos, f.c))
    (hwf : Wf l') (hfr : ∀ f ∈ l'.meths, FF a t (tr ++ [(t, x)]) f)
    (hret : ∀ c r, x = .user (.appRet a.id c r) → RetFact a t tr c r)
    (hla : la' = 0 → la = 0 ∨ x = .latch a.latch) :
    InvT a (fset lst t l') (tr ++ [(t, x)]) cur st la' where
  run u := by
    by_cases hu : u = t
    · subst hu; rw [fset_same]; exact run_snoc (h.run _) hrun
    · rw [fset_ne _ _ hu]; exact run_other (h.run _) (Ne.symm hu)
  calls u := by
    rw [openCalls_snoc, h.calls]
    by_cases hu : u = t
    · subst hu; rw [if_pos rfl, fset_same]; exact hcalls
    · rw [if_neg (Ne.symm hu), fset_ne _ _ hu]
  wf u := by
    by_cases hu : u = t
    · subst hu; rw [fset_same]; exact hwf
    · rw [fset_ne _ _ hu]; exact h.wf u
  frames u f hf := by
    by_cases hu : u = t
    · subst hu; rw [fset_same] at hf; exact hfr f hf
    · rw [fset_ne _ _ hu] at hf; exact (h.frames u f hf).quiet fun h => hu h.1.symm
  cur := by rw [curOf_snoc, h.cur, (priv_cur (st := st) hx).1]
  started := by rw [startedOf_snoc, h.started, (priv_cur (cur := cur) hx).2]
  latch h0 := by
    rcases hla h0 with h1 | rfl
    · obtain ⟨u, hu⟩ := h.latch h1; exact ⟨u, List.mem_append_left _ hu⟩
    · exact ⟨t, by simp⟩
  rets := rets_snoc h.rets hret

/-- The innermost call goes on. -/
theorem InvT.retop (h : InvT a lst tr cur st la) {act : Option (Cb × Act)} {c : AppCall} {p : Nat} {ph ph' : Ph} {ms : List Frame}
    (hl : lst t = ⟨act, ⟨c, p, ph⟩ :: ms⟩)
    (hf : PhFact a t tr (ownEntries a t (tr.drop (p + 1))) p c ph → PhFact a t tr (ownEntries a t (tr.drop (p + 1))) p c ph') :
    InvT a (fset lst t ⟨act, ⟨c, p, ph'⟩ :: ms⟩) tr cur st la where
  run u := by
    by_cases hu : u = t
    · subst hu; rw [fset_same]; have := h.run u; rw [hl] at this; exact this
    · rw [fset_ne _ _ hu]; exact h.run u
  calls u := by
    by_cases hu : u = t
    · subst hu; rw [fset_same]; have := h.calls u; rw [hl] at this; exact this
    · rw [fset_ne _ _ hu]; exact h.calls u
  wf u := by
    by_cases hu : u = t
    · subst hu; rw [fset_same]; have := h.wf u; rw [hl] at this
      intro f ms' hm; cases hm; exact this ⟨c, p, ph⟩ _ rfl
    · rw [fset_ne _ _ hu]; exact h.wf u
  frames u f hm := by
    by_cases hu : u = t
    · subst hu; rw [fset_same] at hm; have := h.frames u; rw [hl] at this
      rcases List.mem_cons.1 hm with rfl | hm
      · have h1 := this _ (List.mem_cons_self ..)
        exact ⟨h1.1, hf h1.2⟩
      · exact this _ (List.mem_cons_of_mem _ hm)
    · rw [fset_ne _ _ hu] at hm; exact h.frames u f hm
  cur := h.cur
  started := h.started
  latch := h.latch
  rets := h.rets

theorem FF.pos_lt {f : Frame} (h : FF a t tr f) : f.pos < tr.length := by
  rcases Nat.lt_or_ge f.pos tr.length with h1 | h1
  · exact h1
  · have := h.1; rw [List.getElem?_eq_none h1] at this; cases this

/-- Reads. -/
theorem InvT.read (h : InvT a lst tr cur st la) {act : Option (Cb × Act)} {f : Frame} {ms : List Frame}
    (hl : lst t = ⟨act, f :: ms⟩) (o : Op) (w : World) (hw : w.trace = tr) (hc : (w.mach a.m).cur = cur) (hs : ((w.mach a.m).started, (w.mach a.m).ended) = st) :
    InvT a (fset lst t ⟨act, readFrame a f o w :: ms⟩) tr cur st la := by
  have hff : FF a t tr f := h.frames t f (by rw [hl]; exact List.mem_cons_self ..)
  have hp := hff.pos_lt
  have same : InvT a (fset lst t ⟨act, f :: ms⟩) tr cur st la := h.retop hl id
  unfold readFrame
  split
  next m hph =>
    split
    next hm =>
      subst hm
      refine h.retop hl fun h1 => ?_
      rw [hph] at h1
      refine ⟨h1, hw ▸ hp, by rw [hw]; exact Nat.le_refl _, ?_⟩
      rw [hw, List.take_length, h.cur, hc]
    · exact same
  next m s n hph =>
    split
    next hm =>
      obtain ⟨rfl, hm⟩ := hm
      refine h.retop hl fun h1 => ?_
      rw [hph] at h1
      refine ⟨h1.1, hm, h1.2, hw ▸ h1.2.2.1, by rw [hw]; exact Nat.le_refl _, ?_⟩
      rw [hw, List.take_length]
      exact congrArg Prod.fst (h.started.trans hs.symm)
    · exact same
  next m s n n2 i hph =>
    split
    next hm =>
      subst hm
      refine h.retop hl fun h1 => ?_
      rw [hph] at h1
      obtain ⟨h1, h2, h3, k, h4⟩ := h1
      have ht : Tested a t tr f.pos (upTo a k ++ note a i) (w.mach a.m).ended :=
        ⟨tr.length, Nat.le_refl _, by rw [List.take_length]; exact h4, by
          rw [List.take_length]; exact congrArg Prod.snd (h.started.trans hs.symm)⟩
      split
      next he => rw [he] at ht; exact ⟨h1, h2, h3, k, ht, h4⟩
      next he => rw [Bool.eq_false_iff.2 he] at ht; exact ⟨h1, h2, h3, k, ht, h4⟩
    · exact same
  · exact same

/-- Steps of entry actions. -/
theorem InvT.act (h : InvT a lst tr cur st la) {l : Ctl} {x : Obs} {s' : Option (Cb × Act)} {la' : Nat} (hl : lst t = l) (hm : l.meths = [])
    (hx : relevant a l.act x = true) (hs : Spec.App.step a l.act x = some s') (hla : la' = 0 → la = 0 ∨ x = .latch a.latch) :
    InvT a (fset lst t { l with act := s' }) (tr ++ [(t, x)]) cur st la' := by
  subst hl
  refine h.loud (relevant_priv hx) hs ?_ (fun f ms hf => ?_) (fun f hf => ?_) (fun c r hc => ?_) hla
  · simp only [hm, List.map_nil]
    unfold callsStep
    split
    next => simp [relevant] at hx
    next => simp [relevant] at hx
    · rfl
  · rw [show (_ : Ctl).meths = _ from hm] at hf; cases hf
  · rw [show (_ : Ctl).meths = _ from hm] at hf; cases hf
  · subst hc; simp [relevant] at hx

theorem step_own {s : Option (Cb × Act)} {x : Obs} (hq : quietAct s) (hx : ownType a x = true) : Spec.App.step a s x = some s := by
  unfold Spec.App.step
  rw [if_neg]
  intro hr
  have hs : s.elim false (fun p => !p.2.isInSub) = false := by
    cases s with
    | none => rfl
    | some p => simp [hq p rfl]
  unfold relevant at hr
  unfold ownType at hx
  split at hr <;> simp_all

/-- Steps of the innermost method call. -/
theorem InvT.meth (h : InvT a lst tr cur st la) {act : Option (Cb × Act)} {c : AppCall} {p : Nat} {ph ph' : Ph} {ms : List Frame}
    (hl : lst t = ⟨act, ⟨c, p, ph⟩ :: ms⟩) {x : Obs} (hx : ownType a x = true) (hn : ∀ i c, x ≠ .user (.app i c))
    (hn2 : ∀ i c r, x ≠ .user (.appRet i c r))
    (hf : ∀ own, PhFact a t tr own p c ph → PhFact a t tr (own ++ [x]) p c ph') :
    InvT a (fset lst t ⟨act, ⟨c, p, ph'⟩ :: ms⟩) (tr ++ [(t, x)]) cur st la := by
  have hwf := h.wf t
  rw [hl] at hwf
  have hfr := h.frames t
  rw [hl] at hfr
  refine h.loud (ownType_priv hx) ?_ ?_ ?_ ?_ ?_ (fun h => Or.inl h)
  · rw [hl]; exact step_own (hwf _ _ rfl).1 hx
  · rw [hl]
    unfold callsStep
    split
    next => exact absurd rfl (hn _ _)
    next => exact absurd rfl (hn2 _ _ _)
    · rfl
  · intro f ms' hm; cases hm; exact hwf ⟨c, p, ph⟩ _ rfl
  · intro f hm
    rcases List.mem_cons.1 hm with rfl | hm
    · have h1 := hfr _ (List.mem_cons_self ..)
      exact h1.loud hx ((hf _ h1.2).mono _)
    · exact (hfr _ (List.mem_cons_of_mem _ hm)).below ((hwf _ _ rfl).2.stable f hm) hx
  · intro c r hc; exact absurd hc (hn2 _ _ _)

/-- A new call, from the innermost method call, which is in phase `ph'` from now on. -/
theorem InvT.push (h : InvT a lst tr cur st la) {act : Option (Cb × Act)} {c : AppCall} {p : Nat} {ph ph' : Ph} {ms : List Frame}
    (hl : lst t = ⟨act, ⟨c, p, ph⟩ :: ms⟩) (c' : AppCall) (hst : stable ph' = true) (hi : isInStop ph' = true → c' = .stop)
    (hf : ∀ own, PhFact a t tr own p c ph → PhFact a t tr (own ++ [.user (.app a.id c')]) p c ph') :
    InvT a (fset lst t ⟨act, ⟨c', tr.length, .begin⟩ :: ⟨c, p, ph'⟩ :: ms⟩) (tr ++ [(t, .user (.app a.id c'))]) cur st la := by
  have hwf := h.wf t
  rw [hl] at hwf
  have hfr := h.frames t
  rw [hl] at hfr
  have hx : ownType a (.user (.app a.id c')) = true := by simp [ownType]
  refine h.loud (ownType_priv hx) ?_ ?_ ?_ ?_ ?_ (fun h => Or.inl h)
  · rw [hl]; exact step_own (hwf _ _ rfl).1 hx
  · rw [hl]; simp [callsStep]
  · intro f ms' hm; cases hm
    exact ⟨(hwf _ _ rfl).1, hst, hi, (hwf _ _ rfl).2⟩
  · intro f hm
    rcases List.mem_cons.1 hm with rfl | hm
    · refine ⟨by simp, ?_⟩
      simp only
      rw [List.drop_eq_nil_of_le (by simp)]
      rfl
    rcases List.mem_cons.1 hm with rfl | hm
    · have h1 := hfr _ (List.mem_cons_self ..)
      exact h1.loud hx ((hf _ h1.2).mono _)
    · exact (hfr _ (List.mem_cons_of_mem _ hm)).below ((hwf _ _ rfl).2.stable f hm) hx
  · intro c r hc; cases hc

/-- A new call, from outside the app's methods. -/
theorem InvT.push0 (h : InvT a lst tr cur st la) {act : Option (Cb × Act)} (hl : lst t = ⟨act, []⟩) (hq : quietAct act) (c' : AppCall) :
    InvT a (fset lst t ⟨act, [⟨c', tr.length, .begin⟩]⟩) (tr ++ [(t, .user (.app a.id c'))]) cur st la := by
  have hx : ownType a (.user (.app a.id c')) = true := by simp [ownType]
  refine h.loud (ownType_priv hx) ?_ ?_ ?_ ?_ ?_ (fun h => Or.inl h)
  · rw [hl]; exact step_own hq hx
  · rw [hl]; simp [callsStep]
  · intro f ms' hm; cases hm
    exact ⟨hq, trivial⟩
  · intro f hm
    rcases List.mem_cons.1 hm with rfl | hm
    · refine ⟨by simp, ?_⟩
      simp only
      rw [List.drop_eq_nil_of_le (by simp)]
      rfl
    · cases hm
  · intro c r hc; cases hc

/-- A call that may return has done what it had to. -/
theorem callDone {f : Frame} {r : Option Exc} (h : FF a t tr f) (hr : mayReturn a f r) : CallDone a t tr f.pos r f.c := by
  obtain ⟨c, p, ph⟩ := f
  have h2 := h.2
  simp only at h2
  unfold CallDone
  simp only
  revert h2
  generalize ownEntries a t (tr.drop (p + 1)) = own
  intro h2
  cases ph with
  | read s n =>
    obtain ⟨h2, h3, h4, h5⟩ := h2
    cases c with
    | stop =>
      refine ⟨n, h3, h4, ?_⟩
      rw [h5]
      simp only [mayReturn] at hr
      change match onStop a.exitOnStop (nm s) with | .fire => _ | .ignore => _ | .refuse => _
      rcases hr with ⟨h6, rfl⟩ | ⟨h6, rfl⟩ <;> rw [h6] <;> exact ⟨h2, rfl⟩
    | start => exact hr.elim
    | error => exact hr.elim
  | known s n b n2 =>
    obtain ⟨h2, hc, ⟨h3, h4, h5⟩, h6, h7, h8⟩ := h2
    subst hc
    cases b with
    | false => exact hr.elim
    | true =>
      refine ⟨n, n2, h3, h6, h7, ?_⟩
      rw [if_pos h8, h5]
      change match onStart a.exitOnStop (nm s) with | .fire => _ | _ => _
      simp only [mayReturn] at hr
      simp only [hr.1]
      exact ⟨h2, hr.2⟩
  | fired ev s n n2 r' =>
    have hr : r = r' := by cases c <;> exact hr
    subst hr
    obtain ⟨h2, h3⟩ := h2
    cases c with
    | stop =>
      obtain ⟨h3, rfl, h4, h5, h6⟩ := h3
      refine ⟨n, h4, h5, ?_⟩
      rw [h6]
      change match onStop a.exitOnStop (nm s) with | .fire => _ | .ignore => _ | .refuse => _
      simp only [h3]; exact h2
    | error =>
      simp only [Why] at h3
      subst h3; exact h2
    | start =>
      obtain ⟨h3, rfl, ⟨h4, h5, h6⟩, h7, h8, h9⟩ := h3
      refine ⟨n, n2, h4, h7, h8, ?_⟩
      rw [if_pos h9, h6]
      change match onStart a.exitOnStop (nm s) with | .fire => _ | _ => _
      simp only [h3]; exact h2
  | noStart s n n2 x =>
    obtain ⟨hc, ⟨⟨h4, h5, h6⟩, h7, h8, h9⟩, k, h10⟩ := h2
    subst hc
    refine ⟨n, n2, h4, h7, h8, ?_⟩
    rw [if_neg (by simp [h9])]
    exact ⟨k, Or.inl ⟨x, hr, h10⟩⟩
  | noFire s n n2 x =>
    obtain ⟨hc, ⟨⟨h4, h5, h6⟩, h7, h8, h9⟩, k, h10⟩ := h2
    subst hc
    refine ⟨n, n2, h4, h7, h8, ?_⟩
    rw [if_neg (by simp [h9])]
    exact ⟨k, Or.inr (Or.inl ⟨x, hr, h10⟩)⟩
  | clean s n n2 i =>
    obtain ⟨hc, ⟨⟨h4, h5, h6⟩, h7, h8, h9⟩, hw, k, ⟨j, hj, ho, hb⟩, h10⟩ := h2
    subst hc
    refine ⟨n, n2, h4, h7, h8, ?_⟩
    rw [if_neg (by simp [h9])]
    refine ⟨k, Or.inr (Or.inr ⟨i, _, [], j, by rw [List.append_nil]; exact h10, rfl, hw, hj, ho, ?_⟩)⟩
    rw [if_pos hb]; exact ⟨rfl, hr⟩
  | over s n n2 i r' =>
    obtain ⟨hc, ⟨⟨h4, h5, h6⟩, h7, h8, h9⟩, hw, k, k', ⟨j, hj, ho, hb⟩, h10⟩ := h2
    subst hc
    have hr : r = r' := hr
    subst hr
    refine ⟨n, n2, h4, h7, h8, ?_⟩
    rw [if_neg (by simp [h9])]
    refine ⟨k, Or.inr (Or.inr ⟨i, _, _, j, h10, rfl, hw, hj, ho, ?_⟩)⟩
    rw [if_neg (by simp [hb])]; exact ⟨k', rfl⟩
  | _ => cases c <;> exact hr.elim

/-- A call returns. -/
theorem InvT.pop (h : InvT a lst tr cur st la) {act : Option (Cb × Act)} {f : Frame} {ms : List Frame}
    (hl : lst t = ⟨act, f :: ms⟩) {r : Option Exc} (hr : mayReturn a f r) :
    InvT a (fset lst t ⟨act, Svc.pop ms r⟩) (tr ++ [(t, .user (.appRet a.id f.c r))]) cur st la := by
  have hwf := h.wf t
  rw [hl] at hwf
  have hfr := h.frames t
  rw [hl] at hfr
  have hx : ownType a (.user (.appRet a.id f.c r)) = true := by simp [ownType]
  have hb := hwf _ _ rfl
  have hret : ∀ c r', Obs.user (.appRet a.id f.c r) = .user (.appRet a.id c r') → RetFact a t tr c r' := by
    intro c r' hc; cases hc
    have h1 := hfr f (List.mem_cons_self ..)
    exact ⟨f.pos, _, by rw [h.calls, hl]; rfl, h1.1, callDone h1 hr⟩
  have hms : ∀ g ∈ ms, FF a t (tr ++ [(t, .user (.appRet a.id f.c r))]) g := fun g hg =>
    (hfr g (List.mem_cons_of_mem _ hg)).below (hb.2.stable g hg) hx
  by_cases hi : ∃ c p s n n2 i ms', ms = ⟨c, p, .inStop s n n2 i⟩ :: ms'
  · obtain ⟨c, p, s, n, n2, i, ms', rfl⟩ := hi
    have hc : f.c = .stop := hb.2.2.1 rfl
    refine h.loud (ownType_priv hx) ?_ ?_ ?_ ?_ hret (fun h => Or.inl h)
    · rw [hl]; exact step_own hb.1 hx
    · rw [hl]; simp [callsStep, Svc.pop]
    · intro g ms'' hm
      cases hm
      exact ⟨hb.1, hb.2.2.2⟩
    · intro g hg
      rcases List.mem_cons.1 hg with rfl | hg
      · have h1 := hfr ⟨c, p, .inStop s n n2 i⟩ (List.mem_cons_of_mem _ (List.mem_cons_self ..))
        refine h1.loud (ph := .over s n n2 i r) hx ?_
        obtain ⟨h2, h3, h4, k, k', h6, h5⟩ := h1.2
        refine PhFact.mono (ph := .over s n n2 i r) ⟨h2, h3, h4, k, k', h6, ?_⟩ _
        rw [h5, hc]; simp
      · exact hms g (List.mem_cons_of_mem _ hg)
  · have hp : Svc.pop ms r = ms := by
      unfold Svc.pop
      split
      next c p s n n2 i ms' => exact absurd ⟨c, p, s, n, n2, i, ms', rfl⟩ hi
      · rfl
    rw [hp]
    refine h.loud (ownType_priv hx) ?_ ?_ ?_ hms hret (fun h => Or.inl h)
    · rw [hl]; exact step_own hb.1 hx
    · rw [hl]; simp [callsStep]
    · intro g ms' hm
      cases hm
      exact ⟨hb.1, hb.2.2.2⟩


/-! ### The invariant holds -/

def Inv (a : App) (lst : Tid → Ctl) (w : World) : Prop :=
  InvT a lst w.trace (w.mach a.m).cur ((w.mach a.m).started, (w.mach a.m).ended) (w.latch a.latch)

theorem opObs_quiet {o : Op} {w : World} {x : Obs} (ho : opOk o = true) (hp : priv a o = false) (hx : opObs o w = some x) :
    privObs a x = false := by
  cases o with
  | emit y => cases hx; exact hp
  | countDown n => cases hx; exact hp
  | notify m c =>
    simp only [opObs] at hx
    split at hx
    · cases hx; cases c <;> first | rfl | cases ho
    · cases hx
  | poll q =>
    simp only [opObs] at hx
    split at hx
    · cases hx
    · obtain ⟨y, -, rfl⟩ := Option.map_eq_some_iff.1 hx; rfl
  | offer q p => obtain ⟨y, -, rfl⟩ := Option.map_eq_some_iff.1 hx; rfl
  | poolGive s p => obtain ⟨y, -, rfl⟩ := Option.map_eq_some_iff.1 hx; rfl
  | casStarted m => simp only [opObs] at hx; split at hx <;> cases hx; rfl
  | casEnded m s b api => simp only [opObs] at hx; split at hx <;> cases hx; rfl
  | submit e s m => simp only [opObs] at hx; split at hx <;> cases hx <;> rfl
  | _ => cases hx <;> rfl

theorem exec_latch {o : Op} (w : World) (hp : priv a o = false) : (exec t o w).2.latch a.latch = w.latch a.latch := by
  cases o with
  | countDown n =>
    simp only [exec, World.log]
    rw [fset_ne]
    intro h; subst h; simp [priv] at hp
  | _ => simp only [exec] <;> (repeat' split) <;> rfl

theorem exec_cur {o : Op} (w : World) (ho : opOk o = true) :
    ((exec t o w).2.mach a.m).cur = match opObs o w with | none => (w.mach a.m).cur | some x => curStep a (w.mach a.m).cur x := by
  cases o with
  | setCur m s api =>
    simp only [exec, opObs, World.log, curStep]
    by_cases h : m = a.m
    · rw [if_pos h, h, fset_same]
    · rw [if_neg h, fset_ne _ _ (Ne.symm h)]
  | emit x => simp only [exec, opObs, World.log]; cases x <;> first | rfl | cases ho
  | casStarted m =>
    simp only [exec, opObs]
    split
    · rfl
    · by_cases h : a.m = m
      · subst h; simp only [World.log, fset_same]; rfl
      · simp only [World.log, fset_ne _ _ h]; rfl
  | clearEnded m =>
    simp only [exec, opObs]
    by_cases h : a.m = m
    · subst h; simp only [World.log, fset_same]; rfl
    · simp only [World.log, fset_ne _ _ h]; rfl
  | casEnded m s b api =>
    simp only [exec, opObs]
    split
    · rfl
    · by_cases h : a.m = m
      · subst h; simp only [World.log, fset_same]; rfl
      · simp only [World.log, fset_ne _ _ h]; rfl
  | setListener m l =>
    simp only [exec, opObs]
    by_cases h : a.m = m
    · subst h; simp only [World.log, fset_same]; rfl
    · simp only [World.log, fset_ne _ _ h]; rfl
  | notify m c => simp only [exec, opObs]; cases (w.mach m).listener <;> rfl
  | poll q =>
    simp only [exec, opObs]
    cases w.queue q with
    | nil => rfl
    | cons p ps => simp only; cases w.pair p <;> rfl
  | offer q p => simp only [exec, opObs]; cases w.pair p <;> rfl
  | poolGive s p => simp only [exec, opObs]; cases w.pair p <;> rfl
  | submit e s m => simp only [exec, opObs]; cases w.shut e <;> rfl
  | poolTake s => simp only [exec, opObs]; cases w.pool s <;> rfl
  | await n => simp only [exec, opObs]; cases w.intr t <;> rfl
  | _ => rfl

theorem exec_started {o : Op} (w : World) (ho : opOk o = true) :
    (((exec t o w).2.mach a.m).started, ((exec t o w).2.mach a.m).ended) = match opObs o w with
      | none => ((w.mach a.m).started, (w.mach a.m).ended)
      | some x => stStep a ((w.mach a.m).started, (w.mach a.m).ended) x := by
  cases o with
  | setCur m s api =>
    simp only [exec, opObs, World.log]
    rw [stStep_other (by intro h; cases h) (by intro h; cases h) (by intro s b i h; cases h)]
    by_cases h : a.m = m
    · subst h; rw [fset_same]
    · rw [fset_ne _ _ h]
  | emit x =>
    simp only [exec, opObs, World.log]
    rw [stStep_other (by intro h; subst h; cases ho) (by intro h; subst h; cases ho) (by intro s b i h; subst h; cases ho)]
  | casStarted m =>
    simp only [exec, opObs]
    split
    · rfl
    · by_cases h : a.m = m
      · subst h; simp only [World.log, fset_same]; simp [stStep]
      · simp only [World.log, fset_ne _ _ h]; rw [stStep_other (by intro h'; cases h'; exact h rfl) (by intro h; cases h) (by intro s b i h; cases h)]
  | clearEnded m =>
    simp only [exec, opObs]
    by_cases h : a.m = m
    · subst h; simp [World.log, fset_same, stStep]
    · simp [World.log, fset_ne _ _ h, stStep, Ne.symm h]
  | casEnded m s b api =>
    simp only [exec, opObs]
    split
    · rfl
    · by_cases h : a.m = m
      · subst h; simp [World.log, fset_same, stStep]
      · simp [World.log, fset_ne _ _ h, stStep, Ne.symm h]
  | setListener m l =>
    simp only [exec, opObs]
    rw [stStep_other (by intro h; cases h) (by intro h; cases h) (by intro s b i h; cases h)]
    by_cases h : a.m = m
    · subst h; simp only [World.log, fset_same]
    · simp only [World.log, fset_ne _ _ h]
  | notify m c =>
    simp only [exec, opObs]
    cases (w.mach m).listener with
    | none => rfl
    | some l => exact (stStep_other (by intro h; cases h) (by intro h; cases h) (by intro s b i h; cases h)).symm
  | poll q =>
    simp only [exec, opObs]
    cases w.queue q with
    | nil => rfl
    | cons p ps =>
      simp only
      cases w.pair p with
      | none => rfl
      | some x => exact (stStep_other (by intro h; cases h) (by intro h; cases h) (by intro s b i h; cases h)).symm
  | offer q p =>
    simp only [exec, opObs]
    cases w.pair p with
    | none => rfl
    | some x => exact (stStep_other (by intro h; cases h) (by intro h; cases h) (by intro s b i h; cases h)).symm
  | poolGive s p =>
    simp only [exec, opObs]
    cases w.pair p with
    | none => rfl
    | some x => exact (stStep_other (by intro h; cases h) (by intro h; cases h) (by intro s b i h; cases h)).symm
  | submit e s m => simp only [exec, opObs]; cases w.shut e <;> exact (stStep_other (by intro h; cases h) (by intro h; cases h) (by intro s b i h; cases h)).symm
  | poolTake s => simp only [exec, opObs]; cases w.pool s <;> rfl
  | await n => simp only [exec, opObs]; cases w.intr t <;> rfl
  | setPayload | newCopy | countDown => exact (stStep_other (by intro h; cases h) (by intro h; cases h) (by intro s b i h; cases h)).symm
  | _ => rfl

theorem inv_quiet {w : World} {o : Op} (h : Inv a lst w) (ho : opOk o = true) (hp : priv a o = false) :
    Inv a (fset lst t (nxt a t (lst t) o w)) (exec t o w).2 := by
  have h1 : InvT a (fset lst t (nxt a t (lst t) o w)) w.trace (w.mach a.m).cur ((w.mach a.m).started, (w.mach a.m).ended) (w.latch a.latch) := by
    unfold nxt
    rw [if_neg (by simp [hp])]
    split
    · have : fset lst t (lst t) = lst := by funext u; by_cases hu : u = t <;> simp [fset, hu]
      rw [this]; exact h
    next f ms hm => exact InvT.read (act := (lst t).act) (f := f) (ms := ms) h (by rw [← hm]) o w rfl rfl rfl
  unfold Inv
  rw [exec_latch w hp, exec_trace, exec_cur w ho, exec_started w ho]
  cases hx : opObs o w with
  | none => simp only [Option.map_none, Option.toList_none, List.append_nil]; exact h1
  | some x => exact h1.quiet (opObs_quiet ho hp hx)

theorem opObs_obsOf {o : Op} {w : World} {x : Obs} (h : obsOf o = some x) : opObs o w = some x := by
  cases o <;> first | exact h | cases h

theorem exec_priv {o : Op} (w : World) (hp : priv a o = true) : (exec t o w).2.mach = w.mach ∧
    (exec t o w).2.trace = w.trace ++ ((obsOf o).map fun x => (t, x)).toList ∧
    ((exec t o w).2.latch a.latch = 0 → w.latch a.latch = 0 ∨ obsOf o = some (.latch a.latch)) := by
  cases o with
  | emit x => exact ⟨rfl, rfl, Or.inl⟩
  | await n =>
    simp only [exec, obsOf]
    split <;> exact ⟨rfl, by simp, Or.inl⟩
  | countDown n =>
    have : n = a.latch := by simpa [priv] using hp
    subst this
    exact ⟨rfl, rfl, fun _ => Or.inr rfl⟩
  | _ => cases hp

theorem inv_priv {w : World} {o : Op} (h : Inv a lst w) (hp : priv a o = true) (he : enabled t o w = true) {l' : Ctl}
    (hs : privStep a t (lst t) o w = some l') : Inv a (fset lst t l') (exec t o w).2 := by
  obtain ⟨hmach, htr, hla⟩ := exec_priv (t := t) w hp
  unfold Inv
  rw [hmach, htr]
  generalize hl : lst t = l at hs
  obtain ⟨act, ms⟩ := l
  cases ms with
  | nil =>
    simp only [privStep] at hs
    split at hs
    next i c =>
      have hi : i = a.id := by simpa [priv, privObs] using hp
      subst hi
      split at hs
      next ho =>
        cases hs
        refine InvT.push0 h hl ?_ c
        intro p hp'; subst hp'; exact ho
      · cases hs
    · split at hs
      · cases hs
      next x hx =>
        split at hs
        next hr =>
          obtain ⟨s', hs', rfl⟩ := Option.map_eq_some_iff.1 hs
          rw [hx]
          refine InvT.act (l := ⟨act, []⟩) h hl rfl hr hs' fun h0 => ?_
          rcases hla h0 with h1 | h1
          · exact Or.inl h1
          · rw [hx] at h1; cases h1; exact Or.inr rfl
        · cases hs
  | cons f ms =>
    obtain ⟨c, p, ph⟩ := f
    simp only [privStep] at hs
    obtain ⟨ms', hq, rfl⟩ := Option.map_eq_some_iff.1 hs
    clear hs
    have hs := hq
    clear hq
    clear hla
    have hla' : (∀ n, o ≠ .countDown n) → (exec t o w).2.latch a.latch = w.latch a.latch := by
      intro hn
      cases o with
      | countDown n => exact absurd rfl (hn n)
      | await n => simp only [exec]; split <;> rfl
      | emit x => rfl
      | _ => cases hp
    unfold methStep at hs
    split at hs
    next m ev =>
      have hm : m = a.m := by simpa [priv, privObs] using hp
      subst hm
      obtain ⟨ph', hph, rfl⟩ := Option.map_eq_some_iff.1 hs
      rw [hla' (by intro n hn; cases hn)]
      refine InvT.meth h hl (by simp [ownType]) (fun _ _ h => by cases h) (fun _ _ _ h => by cases h) fun own hf => ?_
      unfold enterFire at hph
      split at hph
      next s n hc hph' =>
        split at hph
        next hv =>
          cases hph
          simp only at hc hph'
          subst hc hph'
          exact ⟨by rw [hf.1, hv.2]; rfl, hv.1, hv.2, hf.2⟩
        · cases hph
      next hc hph' =>
        split at hph
        next hv =>
          cases hph
          simp only at hc hph'
          subst hc hph'
          have hf : own = [] := hf
          exact ⟨by rw [hf, hv]; rfl, hv⟩
        · cases hph
      next s n n2 hc hph' =>
        split at hph
        next hv =>
          cases hph
          simp only at hc hph'
          subst hc hph'
          exact ⟨by rw [hf.1, hv.2]; rfl, hv.1, hv.2, hf.2.2⟩
        · cases hph
      next s n n2 hc hph' =>
        split at hph
        next hv =>
          cases hph
          simp only at hc hph'
          subst hc hph'
          obtain ⟨h1, h2, k, rfl⟩ := hf
          exact ⟨h1, h2, k, by rw [hv]; simp⟩
        · cases hph
      · cases hph
    next m ev r ev' s n n2 hph =>
      have hm : m = a.m := by simpa [priv, privObs] using hp
      subst hm
      simp only at hph
      subst hph
      split at hs
      next hev =>
        cases hs
        rw [hla' (by intro n hn; cases hn)]
        refine InvT.meth h hl (by simp [ownType]) (fun _ _ h => by cases h) (fun _ _ _ h => by cases h) fun own hf => ?_
        rw [hev]
        exact ⟨by rw [hf.1]; rfl, hf.2⟩
      · cases hs
    next m ev r s n n2 hph =>
      have hm : m = a.m := by simpa [priv, privObs] using hp
      subst hm
      simp only at hph
      subst hph
      split at hs
      next hev =>
        cases hs
        rw [hla' (by intro n hn; cases hn)]
        refine InvT.meth h hl (by simp [ownType]) (fun _ _ h => by cases h) (fun _ _ _ h => by cases h) fun own hf => ?_
        obtain ⟨h1, h2, k, rfl⟩ := hf
        rw [hev]
        cases r with
        | none => exact ⟨h1, h2, k, by simp [upTo]⟩
        | some x => exact ⟨h1, h2, k, by simp⟩
      · cases hs
    next m s n n2 hph =>
      have hm : m = a.m := by simpa [priv, privObs] using hp
      subst hm
      simp only at hph
      subst hph
      split at hs
      next hev =>
        cases hs
        rw [hla' (by intro n hn; cases hn)]
        refine InvT.meth h hl (by simp [ownType]) (fun _ _ h => by cases h) (fun _ _ _ h => by cases h) fun own hf => ?_
        exact ⟨hf.2.1, hf.2.2, [], by rw [hf.1]; rfl⟩
      · cases hs
    next m r s n n2 hph =>
      have hm : m = a.m := by simpa [priv, privObs] using hp
      subst hm
      simp only at hph
      subst hph
      cases hs
      rw [hla' (by intro n hn; cases hn)]
      refine InvT.meth h hl (by simp [ownType]) (fun _ _ h => by cases h) (fun _ _ _ h => by cases h) fun own hf => ?_
      obtain ⟨h1, h2, k, rfl⟩ := hf
      cases r <;> exact ⟨h1, h2, k, by simp⟩
    next nn s n n2 hph =>
      have hm : nn = a.latch := by simpa [priv] using hp
      subst hm
      simp only at hph
      subst hph
      cases hs
      rw [hla' (by intro n hn; cases hn)]
      simp only [obsOf, Option.map_none, Option.toList_none, List.append_nil]
      refine InvT.retop h hl fun hf => ?_
      split
      · exact hf
      next hi =>
        refine ⟨hf.1, hf.2.1, fun _ => ?_, ?_⟩
        · refine h.latch ?_
          simpa [enabled, hi] using he
        · obtain ⟨k, hk⟩ := hf.2.2
          exact ⟨k, by rw [hk]; simp [note]⟩
    next i s n n2 hph =>
      have hi : i = a.id := by simpa [priv, privObs] using hp
      subst hi
      simp only at hph
      subst hph
      cases hs
      rw [hla' (by intro n hn; cases hn)]
      refine InvT.meth h hl (by simp [ownType]) (fun _ _ h => by cases h) (fun _ _ _ h => by cases h) fun own hf => ?_
      obtain ⟨h1, h2, k, rfl⟩ := hf
      exact ⟨h1, h2, (fun h => by cases h), k, by simp [note]⟩
    next i c' s n n2 hph =>
      have hi : i = a.id := by simpa [priv, privObs] using hp
      subst hi
      simp only at hph
      subst hph
      cases hs
      rw [hla' (by intro n hn; cases hn)]
      refine InvT.push h hl c' rfl (fun h => by cases h) fun own hf => ?_
      obtain ⟨h1, h2, k, rfl⟩ := hf
      exact ⟨h1, h2, k ++ [.user (.app a.id c')], by simp⟩
    next i c' s n n2 ii hph =>
      have hi : i = a.id := by simpa [priv, privObs] using hp
      subst hi
      simp only at hph
      subst hph
      split at hs
      next hc =>
        cases hs
        rw [hla' (by intro n hn; cases hn)]
        refine InvT.push h hl c' (ph' := .inStop s n n2 ii) rfl (fun _ => hc) fun own hf => ?_
        obtain ⟨h1, h2, h3, k, h4, rfl⟩ := hf
        exact ⟨h1, h2, h3, k, [], h4, by rw [hc]⟩
      · cases hs
    next i c' r =>
      have hi : i = a.id := by simpa [priv, privObs] using hp
      subst hi
      split at hs
      next hc =>
        cases hs
        rw [hla' (by intro n hn; cases hn)]
        obtain ⟨rfl, hr⟩ := hc
        exact InvT.pop h hl hr
      · cases hs
    · cases hs

theorem invariant (env : Env) : OInvariant (proto a env) (Inv a) where
  op lst w t o h ha he := by
    show Inv a (fset lst t (nxt a t (lst t) o w)) _
    cases hp : priv a o with
    | false => exact inv_quiet h ha.1 hp
    | true =>
      obtain ⟨l', hl'⟩ := Option.isSome_iff_exists.1 (ha.2 hp t w)
      have : nxt a t (lst t) o w = l' := by unfold nxt; rw [if_pos hp, hl']; rfl
      rw [this]
      exact inv_priv h hp he hl'
  thr lst w t x h := by
    have := InvT.quiet (u := t) (x := .uncaught x) h rfl
    rw [show curStep a _ (.uncaught x) = (w.mach a.m).cur from rfl, stStep_other (by intro h; cases h) (by intro h; cases h) (by intro s b i h; cases h)] at this
    exact this
  dispatch lst w e q h := h
  interrupt lst w t h := h
  shutdown lst w e h := h
  dropTasks lst w e h := by
    show InvT a lst (w.trace ++ (w.tasks e).map _) (w.mach a.m).cur ((w.mach a.m).started, (w.mach a.m).ended) (w.latch a.latch)
    have h : InvT a lst w.trace (w.mach a.m).cur ((w.mach a.m).started, (w.mach a.m).ended) (w.latch a.latch) := h
    revert h
    generalize w.trace = tr
    induction w.tasks e generalizing tr with
    | nil => intro h; simpa using h
    | cons x l ih =>
      intro h
      have := InvT.quiet (u := .env) (x := .taskDropped x.1 x.2) h rfl
      rw [show curStep a _ (.taskDropped x.1 x.2) = (w.mach a.m).cur from rfl, stStep_other (by intro h; cases h) (by intro h; cases h) (by intro s b i h; cases h)] at this
      have := ih _ this
      rw [List.append_assoc] at this
      exact this

/-- Executions from `c0` in which client threads are outside code. -/
def Execution (a : App) (env : Env) (c0 c : Conf) : Prop :=
  ∃ xs, (∀ x ∈ xs, Choice.within a.Outside x) ∧ runs env c0 xs = some c

/-- The invariant holds in every execution. -/
theorem inv {env : Env} (ha : a.Wired env) {c0 c : Conf} (h0 : Initial c0) (hl : c0.w.latch a.latch ≠ 0)
    (hr : Execution a env c0 c) : ∃ lst, Inv a lst c.w := by
  obtain ⟨xs, hx, hr⟩ := hr
  have hI : Inv a (fun _ => l0) c0.w := by
    have hm := h0.mach a.m
    unfold Inv
    refine ⟨fun t => ?_, fun t => ?_, (fun t f ms hf => by cases hf), (fun t f hf => by cases hf), ?_, ?_, fun h => absurd h hl,
      fun i u c r h => ?_⟩
    · rw [h0.trace]; rfl
    · rw [h0.trace]; rfl
    · rw [h0.trace, hm.2.2]; rfl
    · rw [h0.trace, hm.1, hm.2.1]; rfl
    · rw [h0.trace] at h; cases i <;> cases h
  obtain ⟨lst, -, h⟩ := osound (checked ha) (invariant env) hx (lst := fun _ => l0) (fun t => by rw [h0.idle t]) hI hr
  exact ⟨lst, h⟩

end Svc
end Verif
