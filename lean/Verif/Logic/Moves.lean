import Verif.Logic.Frames
/-
The steps of a frame, one by one.
-/

namespace Verif
open Spec (Item)

/-- How the checks at the beginning of a method fail. -/
def Frame.fail (env : Env) : Frame → Option Exc
  | .start m _ => env.startFail m
  | .startIn m s _ => env.startInFail m s
  | _ => none

/-- The frames of `start` and `startInState`: machine, state to be entered, silent or not. -/
inductive StFrame (env : Env) : MId → Option St → Bool → (StPh → Frame) → Prop
  | start (m : MId) : StFrame env m (env.mach m).init false (.start m)
  | startIn (m : MId) (s : Option St) : StFrame env m s true (.startIn m s)

theorem StFrame.inv {env : Env} {m : MId} {i : Option St} {b : Bool} {sf : StPh → Frame} (h : StFrame env m i b sf) :
    (sf = .start m ∧ i = (env.mach m).init ∧ b = false) ∨ (sf = .startIn m i ∧ b = true) := by
  cases h
  · exact Or.inl ⟨rfl, rfl, rfl⟩
  · exact Or.inr ⟨rfl, rfl⟩

/-- Is the queue full, for a `fire` on `m` that sees `n` events? -/
def Env.full (env : Env) (m : MId) (n : Nat) : Bool :=
  (env.strat (env.mach m).strat).maxQ > 0 && (n : Int) ≥ (env.strat (env.mach m).strat).maxQ

/-- The plan of `start()`/`startInState()`. -/
def Env.startPlan (env : Env) (silent : Bool) (m : MId) (lst : Bool) (s : St) : List Item :=
  if silent then [] else (desc env (env.mach m).strat m).startPlan (env.mach m).res.noSt lst s

inductive Move (env : Env) (w : World) : Frame → Op → Frame → Prop
  | fPre1 {m ev} : (w.mach m).started = true → Move env w (.fire m ev .pre) (.getStarted m) (.fire m ev .st1)
  | fPre0 {m ev} : (w.mach m).started = false → Move env w (.fire m ev .pre) (.getStarted m) (.fire m ev .before)
  | fSt1 {m ev} : (w.mach m).started = true → Move env w (.fire m ev .st1) (.getStarted m) (.fire m ev .st2)
  | fSt0 {m ev} : (w.mach m).started = false → Move env w (.fire m ev .st1) (.getStarted m) (.fire m ev .live)
  | fEnd1 {m ev} : (w.mach m).ended = true → Move env w (.fire m ev .st2) (.getEnded m) (.fire m ev .after)
  | fEnd0 {m ev} : (w.mach m).ended = false → Move env w (.fire m ev .st2) (.getEnded m) (.fire m ev .live)
  | fBefore {m ev} : Move env w (.fire m ev .before) (.emit (.cb (.flowBefore m ev))) (.fire m ev (.cb (.flowBefore m ev)))
  | fAfter {m ev} : Move env w (.fire m ev .after) (.emit (.cb (.flowAfter m ev))) (.fire m ev (.cb (.flowAfter m ev)))
  | fSnap {m ev} : (env.strat (env.mach m).strat).dropDup = true →
      Move env w (.fire m ev .live) (.qSnap (env.qm m)) (.fire m ev (.scan (w.queue (env.qm m))))
  | fScanEq {m ev p ps en m'} : w.pair p = some (en, m') → en.eqv ev = true →
      Move env w (.fire m ev (.scan (p :: ps))) (.getPair p) (.fire m ev .dup)
  | fScanNe {m ev p ps en m'} : w.pair p = some (en, m') → en.eqv ev = false →
      Move env w (.fire m ev (.scan (p :: ps))) (.getPair p) (.fire m ev (.scan ps))
  | fScanNone {m ev p ps} : w.pair p = none → Move env w (.fire m ev (.scan (p :: ps))) (.getPair p) (.fire m ev (.fin (some .npe)))
  | fSize {m ev f} : (f = .live ∧ (env.strat (env.mach m).strat).dropDup = false) ∨ f = .scan [] →
      env.full m (w.queue (env.qm m)).length = false →
      Move env w (.fire m ev f) (.qSize (env.qm m)) (.fire m ev .sized)
  | fSizeFull {m ev f} : (f = .live ∧ (env.strat (env.mach m).strat).dropDup = false) ∨ f = .scan [] →
      env.full m (w.queue (env.qm m)).length = true →
      Move env w (.fire m ev f) (.qSize (env.qm m)) (.fire m ev .full)
  | fDup {m ev} : Move env w (.fire m ev .dup) (.emit (.dropped m ev)) (.fire m ev (.fin none))
  | fFull {m ev} : Move env w (.fire m ev .full) (.emit (.cb (.flowFull m ev))) (.fire m ev (.cb (.flowFull m ev)))
  | fTakeNew {m ev} : w.pool (env.mach m).strat = [] →
      Move env w (.fire m ev .sized) (.poolTake (env.mach m).strat) (.fire m ev (.took w.nextPair))
  | fTakeOld {m ev p ps} : w.pool (env.mach m).strat = p :: ps →
      Move env w (.fire m ev .sized) (.poolTake (env.mach m).strat) (.fire m ev (.took p))
  | fPay1 {m ev p} : (w.payload ev.oid).isSome = true → Move env w (.fire m ev (.took p)) (.getPayload ev.oid) (.fire m ev (.cpy p))
  | fPay0 {m ev p} : w.payload ev.oid = none → Move env w (.fire m ev (.took p)) (.getPayload ev.oid) (.fire m ev (.raw p))
  | fCopy {m ev p} : Move env w (.fire m ev (.cpy p)) (.newCopy ev) (.fire m ev (.copied p ⟨0, ev.name, .copy w.nextCopy⟩))
  | fSetRaw {m ev p} : Move env w (.fire m ev (.raw p)) (.setPair p ev m) (.fire m ev (.loaded p ev))
  | fSetCopied {m ev p e} : Move env w (.fire m ev (.copied p e)) (.setPair p e m) (.fire m ev (.loaded p e))
  | fOffer {m ev p e} : Move env w (.fire m ev (.loaded p e)) (.offer (env.qm m) p) (.fire m ev .owing)
  | fSubmit {m ev} : Move env w (.fire m ev .owing)
      (.submit (env.strat (env.mach m).strat).exec (env.mach m).strat m)
      (.fire m ev (.fin (if w.shut (env.strat (env.mach m).strat).exec then some .rejected else none)))
  | fRet {m ev c r} : Move env w (.fire m ev (.cb c)) (.emit (.cbRet c r)) (.fire m ev (.fin r))
  | spCas1 {m} : (w.mach m).ended = true →
      Move env w (.stop m .pre) (.casEnded m (env.mach m).res.endSt true true) (.stop m .fin)
  | spCas0 {m} : (w.mach m).ended = false →
      Move env w (.stop m .pre) (.casEnded m (env.mach m).res.endSt true true) (.stop m .won)
  | spSet {m} : Move env w (.stop m .won) (.setCur m (env.mach m).res.endSt true) (.stop m .fin)
  | stCas1 {m i b sf} : StFrame env m i b sf → (sf .pre).fail env = none → (w.mach m).started = true → Move env w (sf .pre) (.casStarted m) (sf .lost)
  | stCas0 {m i b sf} : StFrame env m i b sf → (sf .pre).fail env = none → (w.mach m).started = false → Move env w (sf .pre) (.casStarted m) (sf .won)
  | stSet {m s b sf} : StFrame env m (some s) b sf → Move env w (sf .won) (.setCur m s true)
      (sf (.busy (.run (env.startPlan b m (w.mach m).listener.isSome s) (some s) (w.mach m).listener)))
  | stClear {m i b sf ph} : StFrame env m i b sf → (∃ c l, ph = .run [] c l) ∨ ph = .lame none →
      Move env w (sf (.busy ph)) (.clearEnded m) (sf .fin)
  | stPh {m i sf ph o} : StFrame env m i false sf → startOp o = true → phAllowed m immEv ph o →
      Move env w (sf (.busy ph)) o (sf (.busy (phNxt m ph o w)))
  | drQuit {s cm d} : d = .fresh ∨ d = .loop → w.queue (env.q s) = [] →
      Move env w (.drain s cm d) (.qIsEmpty (env.q s)) (.drain s cm .quit)
  | drSeenF {s cm} : w.queue (env.q s) ≠ [] →
      Move env w (.drain s cm .fresh) (.qIsEmpty (env.q s)) (.drain s cm (.seen true))
  | drSeenL {s cm} : w.queue (env.q s) ≠ [] →
      Move env w (.drain s cm .loop) (.qIsEmpty (env.q s)) (.drain s cm (.seen false))
  | drPoll0 {s cm b} : w.queue (env.q s) = [] →
      Move env w (.drain s cm (.seen b)) (.poll (env.q s)) (.drain s cm (.dead .npe))
  | drPollBad {s cm b p ps} : w.queue (env.q s) = p :: ps → w.pair p = none →
      Move env w (.drain s cm (.seen b)) (.poll (env.q s)) (.drain s cm (.dead .npe))
  | drPoll {s cm b p ps ev m} : w.queue (env.q s) = p :: ps → w.pair p = some (ev, m) →
      Move env w (.drain s cm (.seen b)) (.poll (env.q s)) (.drain s cm (.polled p ev m))
  | drRead {s cm p ev m} : Move env w (.drain s cm (.polled p ev m)) (.getPair p) (.drain s cm (.known p ev m))
  | drSkip {s cm p ev m} : (w.mach cm).ended = true →
      Move env w (.drain s cm (.known p ev m)) (.getEnded cm) (.drain s cm (.over p ev m none))
  | drBegin {s cm p ev m} : (w.mach cm).ended = false →
      Move env w (.drain s cm (.known p ev m)) (.getEnded cm) (.drain s cm (.busy p ev m
        (.run ((desc env s m).plan (w.mach m).listener.isSome (w.mach m).cur ev) (w.mach m).cur (w.mach m).listener)))
  | drPh {s cm p ev m ph o} : phAllowed m ev ph o →
      Move env w (.drain s cm (.busy p ev m ph)) o (.drain s cm (.busy p ev m (phNxt m ph o w)))
  | drFlow {s cm p ev m ph x} : x.isException = true → ph = .thrown x ∨ (ph = .lame none ∧ x = .npe) →
      Move env w (.drain s cm (.busy p ev m ph)) (.emit (.cb (.flowEx m ev x))) (.drain s cm (.flow p ev m x))
  | drGive {s cm p ev m ph} : (∃ c l, ph = .run [] c l) ∨ ph = .lame none →
      Move env w (.drain s cm (.busy p ev m ph)) (.poolGive s p) (.drain s cm .loop)
  | drGiveErr {s cm p ev m x} : x.isException = false →
      Move env w (.drain s cm (.busy p ev m (.thrown x))) (.poolGive s p) (.drain s cm (.dead x))
  | drFlowRet {s cm p ev m x r} :
      Move env w (.drain s cm (.flow p ev m x)) (.emit (.cbRet (.flowEx m ev x) r)) (.drain s cm (.over p ev m r))
  | drOver {s cm p ev m} : Move env w (.drain s cm (.over p ev m none)) (.poolGive s p) (.drain s cm .loop)
  | drOverErr {s cm p ev m x} : Move env w (.drain s cm (.over p ev m (some x))) (.poolGive s p) (.drain s cm (.dead x))

/-- Operations on a plan. -/
inductive PhOp (m : MId) (ev : Ev) : Op → Prop
  | getCur : PhOp m ev (.getCur m)
  | getListener : PhOp m ev (.getListener m)
  | notify {c} : c.tMach = some (m, ev) → PhOp m ev (.notify m c)
  | cb {c} : c.tMach = some (m, ev) → PhOp m ev (.emit (.cb c))
  | cbRet {c r} : PhOp m ev (.emit (.cbRet c r))
  | cas {s b} : PhOp m ev (.casEnded m s b false)
  | setCur {s} : PhOp m ev (.setCur m s false)

theorem phAllowed_op {m : MId} {ev : Ev} {ph : Ph} {o : Op} (h : phAllowed m ev ph o) : PhOp m ev o := by
  unfold phAllowed at h
  split at h
  · cases h; exact .getCur
  · obtain ⟨rfl, _⟩ := h; exact .getListener
  · obtain ⟨rfl, _, h, _⟩ := h; exact .notify h
  · exact .cb h.2.1
  · obtain ⟨rfl, rfl, h | ⟨rfl, h⟩⟩ := h <;> exact .cas
  · obtain ⟨rfl, rfl, _⟩ := h; exact .setCur
  · exact .cbRet
  · cases h; exact .getCur
  · cases h; exact .getListener
  · obtain ⟨rfl, h⟩ := h; exact .notify h
  · exact .cb h
  · obtain ⟨rfl, rfl⟩ := h; exact .cas
  · obtain ⟨rfl, rfl, rfl⟩ := h; exact .setCur
  · exact .cbRet
  · exact h.elim

theorem move_fate {env : Env} {w : World} {m : MId} {ev : Ev} {f : Fate} {o : Op} (h : fateAllowed env m ev f o) :
    Move env w (.fire m ev f) o (.fire m ev (fateNxt env m ev f o w)) := by
  unfold fateAllowed at h
  split at h
  · subst h; simp only [fateNxt]; split
    · exact .fPre1 ‹_›
    · exact .fPre0 (by rename_i hz; simpa using hz)
  · subst h; simp only [fateNxt]; split
    · exact .fSt1 ‹_›
    · exact .fSt0 (by rename_i hz; simpa using hz)
  · subst h; simp only [fateNxt]; split
    · exact .fEnd1 ‹_›
    · exact .fEnd0 (by rename_i hz; simpa using hz)
  · subst h; exact .fBefore
  · subst h; exact .fAfter
  · obtain ⟨rfl, h⟩ := h; exact .fSnap h
  · obtain ⟨rfl, h⟩ := h; simp only [fateNxt]; split
    · exact .fSizeFull (Or.inl ⟨rfl, h⟩) ‹_›
    · exact .fSize (Or.inl ⟨rfl, h⟩) (by rename_i hz; simpa only [Env.full, Bool.not_eq_true] using hz)
  · subst h; simp only [fateNxt]; split
    · split
      · exact .fScanEq ‹_› ‹_›
      · exact .fScanNe ‹_› (by rename_i hz; simpa using hz)
    · exact .fScanNone ‹_›
  · subst h; simp only [fateNxt]; split
    · exact .fSizeFull (Or.inr rfl) ‹_›
    · exact .fSize (Or.inr rfl) (by rename_i hz; simpa only [Env.full, Bool.not_eq_true] using hz)
  · subst h; exact .fDup
  · subst h; exact .fFull
  · subst h; simp only [fateNxt]; split
    · exact .fTakeNew ‹_›
    · exact .fTakeOld ‹_›
  · subst h; simp only [fateNxt]; split
    · exact .fPay1 ‹_›
    · exact .fPay0 (by rename_i hz; simpa using hz)
  · subst h; exact .fCopy
  · obtain ⟨rfl, rfl, rfl⟩ := h; exact .fSetRaw
  · obtain ⟨rfl, rfl, rfl⟩ := h; exact .fSetCopied
  · obtain ⟨rfl, rfl⟩ := h; exact .fOffer
  · obtain ⟨rfl, rfl, rfl⟩ := h; exact .fSubmit
  · subst h; exact .fRet
  · exact h.elim

theorem move_st {env : Env} {w : World} {m : MId} {i : Option St} {b : Bool} {sf : StPh → Frame} {ph : StPh} {o : Op}
    (hf : StFrame env m i b sf) (h : stAllowed b m ((sf .pre).fail env) i ph o) : Move env w (sf ph) o (sf (stNxt env b m ph o w)) := by
  unfold stAllowed at h
  split at h
  · obtain ⟨rfl, h⟩ := h; simp only [stNxt]; split
    · exact .stCas1 hf h ‹_›
    · exact .stCas0 hf h (by rename_i hz; simpa using hz)
  · obtain ⟨rfl, rfl, rfl⟩ := h; exact .stSet hf
  · obtain ⟨rfl, h⟩ := h; exact .stClear hf h
  · have : stNxt env b m (.busy ‹_›) o w = .busy (phNxt m ‹_› o w) := by
      cases o with
      | clearEnded m' => exact absurd h.2.1 (by simp [startOp])
      | _ => rfl
    rw [this]
    obtain ⟨rfl, h1, h2⟩ := h
    exact .stPh hf h1 h2
  · exact h.elim

theorem move_dr {env : Env} {w : World} {s : SId} {cm : MId} {d : Dr} {o : Op} (h : drAllowed env s cm d o) :
    Move env w (.drain s cm d) o (.drain s cm (drNxt env s d o w)) := by
  unfold drAllowed at h
  split at h
  · subst h; simp only [drNxt]; split
    · exact .drQuit (Or.inl rfl) (by rename_i hz; simpa using hz)
    · exact .drSeenF (by rename_i hz; simpa using hz)
  · subst h; simp only [drNxt]; split
    · exact .drQuit (Or.inr rfl) (by rename_i hz; simpa using hz)
    · exact .drSeenL (by rename_i hz; simpa using hz)
  · subst h; simp only [drNxt]; split
    · exact .drPoll0 ‹_›
    · split
      · exact .drPoll ‹_› ‹_›
      · exact .drPollBad ‹_› ‹_›
  · subst h; exact .drRead
  · subst h; simp only [drNxt]; split
    · exact .drSkip ‹_›
    · exact .drBegin (by rename_i hz; simpa using hz)
  · rcases h with h | ⟨x, hx, rfl, h⟩ | ⟨rfl, h⟩
    · rename_i p ev m ph
      have : drNxt env s (.busy p ev m ph) o w = .busy p ev m (phNxt m ph o w) := by
        have h' := phAllowed_op h
        cases h' with
        | @cb c hc => cases c <;> first | rfl | cases hc
        | _ => rfl
      rw [this]
      exact .drPh h
    · exact .drFlow hx h
    · rcases h with ⟨c, l, rfl⟩ | ⟨x, hx, rfl⟩ | rfl
      · exact .drGive (Or.inl ⟨c, l, rfl⟩)
      · exact .drGiveErr hx
      · exact .drGive (Or.inr rfl)
  · subst h; exact .drFlowRet
  · obtain ⟨rfl, rfl⟩ := h
    rename_i x _ _
    cases x with
    | none => exact .drOver
    | some x => exact .drOverErr
  · exact h.elim

theorem move_of_allowed {env : Env} {w : World} {f : Frame} {o : Op} (h : f.allowed env o) :
    Move env w f o (f.nxt env o w) := by
  cases f with
  | fire m ev f => exact move_fate h
  | stop m ph =>
    simp only [Frame.allowed] at h
    unfold spAllowed at h
    split at h
    · obtain ⟨rfl, rfl, rfl, rfl⟩ := h
      simp only [Frame.nxt, spNxt]; split
      · exact .spCas1 ‹_›
      · exact .spCas0 (by rename_i hz; simpa using hz)
    · obtain ⟨rfl, rfl, rfl⟩ := h; exact .spSet
    · exact h.elim
  | start m ph => exact move_st (.start m) h
  | startIn m s ph => exact move_st (.startIn m s) h
  | drain s cm d => exact move_dr h

/-- The steps of a thread. -/
inductive LMove (env : Env) (w : World) : List Frame → Op → List Frame → Prop
  | enter {l c} : callable l → LMove env w l (.emit (.enter c)) (.ofApi c :: l)
  | leave {f rest c r} : f.leaves env c r → LMove env w (f :: rest) (.emit (.leave c r)) rest
  | user {l o} : callable l → userOp o → LMove env w l o l
  | frame {f f' rest o} : Move env w f o f' → LMove env w (f :: rest) o (f' :: rest)

end Verif
