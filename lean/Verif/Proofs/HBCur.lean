import Verif.Proofs.HB
import Verif.Proofs.Bounds
/-
The state of a machine which is used with discipline is accessed without data races.
-/

namespace Verif
open Spec.HB

/-! Steps of frames. -/

def isWon (m : MId) (f : Frame) : Prop := f = .start m .won ∨ ∃ s, f = .startIn m s .won
def isBusy (m : MId) (f : Frame) : Prop := (∃ ph, f = .start m (.busy ph)) ∨ ∃ s ph, f = .startIn m s (.busy ph)

def Fate.early : Fate → Bool
  | .pre | .st1 | .st2 => true
  | _ => false

def Fate.deep : Fate → Bool
  | .live | .scan _ | .sized | .took _ | .cpy _ | .raw _ | .copied .. | .loaded .. => true
  | _ => false

section
variable {env : Env} {w : World} {f f' : Frame} {o : Op} {m : MId}

theorem move_isWon (hm : Move env w f o f') (h : isWon m f') : o = .casStarted m ∧ (w.mach m).started = false := by
  cases hm with
  | stCas1 hf _ _ => rcases hf.inv with ⟨rfl, _⟩ | ⟨rfl, _⟩ <;> rcases h with h | ⟨s, h⟩ <;> cases h
  | stCas0 hf _ hs => rcases hf.inv with ⟨rfl, _⟩ | ⟨rfl, _⟩ <;> rcases h with h | ⟨s, h⟩ <;> cases h <;> exact ⟨rfl, hs⟩
  | stSet hf => rcases hf.inv with ⟨rfl, _⟩ | ⟨rfl, _⟩ <;> rcases h with h | ⟨s, h⟩ <;> cases h
  | stClear hf _ => rcases hf.inv with ⟨rfl, _⟩ | ⟨rfl, _⟩ <;> rcases h with h | ⟨s, h⟩ <;> cases h
  | stPh hf _ _ => rcases hf.inv with ⟨rfl, _⟩ | ⟨rfl, _⟩ <;> rcases h with h | ⟨s, h⟩ <;> cases h
  | _ => rcases h with h | ⟨s, h⟩ <;> cases h

theorem move_isBusy (hm : Move env w f o f') (h : isBusy m f') : isBusy m f ∨ (isWon m f ∧ ∃ s, o = .setCur m s true) := by
  cases hm with
  | stCas1 hf _ _ => rcases hf.inv with ⟨rfl, _⟩ | ⟨rfl, _⟩ <;> rcases h with ⟨_, h⟩ | ⟨s, _, h⟩ <;> cases h
  | stCas0 hf _ hs => rcases hf.inv with ⟨rfl, _⟩ | ⟨rfl, _⟩ <;> rcases h with ⟨_, h⟩ | ⟨s, _, h⟩ <;> cases h
  | stSet hf =>
    rcases hf.inv with ⟨rfl, _⟩ | ⟨rfl, _⟩ <;> rcases h with ⟨_, h⟩ | ⟨s, _, h⟩ <;> cases h
    · exact Or.inr ⟨Or.inl rfl, _, rfl⟩
    · exact Or.inr ⟨Or.inr ⟨_, rfl⟩, _, rfl⟩
  | stClear hf _ => rcases hf.inv with ⟨rfl, _⟩ | ⟨rfl, _⟩ <;> rcases h with ⟨_, h⟩ | ⟨s, _, h⟩ <;> cases h
  | stPh hf _ _ =>
    rcases hf.inv with ⟨rfl, _⟩ | ⟨rfl, _⟩ <;> rcases h with ⟨_, h⟩ | ⟨s, _, h⟩ <;> cases h
    · exact Or.inl (Or.inl ⟨_, rfl⟩)
    · exact Or.inl (Or.inr ⟨_, _, rfl⟩)
  | _ => rcases h with ⟨_, h⟩ | ⟨s, _, h⟩ <;> cases h

theorem move_early {ev : Ev} {y : Fate} (hm : Move env w f o f') (h : f' = .fire m ev y) (hy : y.early = true) :
    ∃ x, f = .fire m ev x ∧ x.early = true ∧ ((y = .st1 ∨ y = .st2) → (w.mach m).started = true) := by
  cases hm with
  | stCas1 hf _ _ => rcases hf.inv with ⟨rfl, _⟩ | ⟨rfl, _⟩ <;> cases h
  | stCas0 hf _ _ => rcases hf.inv with ⟨rfl, _⟩ | ⟨rfl, _⟩ <;> cases h
  | stSet hf => rcases hf.inv with ⟨rfl, _⟩ | ⟨rfl, _⟩ <;> cases h
  | stClear hf _ => rcases hf.inv with ⟨rfl, _⟩ | ⟨rfl, _⟩ <;> cases h
  | stPh hf _ _ => rcases hf.inv with ⟨rfl, _⟩ | ⟨rfl, _⟩ <;> cases h
  | fPre1 hs => cases h; exact ⟨_, rfl, rfl, fun _ => hs⟩
  | fSt1 hs => cases h; exact ⟨_, rfl, rfl, fun _ => hs⟩
  | _ => cases h <;> cases hy

theorem move_deep {ev : Ev} {y : Fate} (hm : Move env w f o f') (h : f' = .fire m ev y) (hy : y.deep = true) :
    ∃ x, f = .fire m ev x ∧ (x.deep = true ∨ (x = .st1 ∧ (w.mach m).started = false) ∨ (x = .st2 ∧ o = .getEnded m)) := by
  cases hm with
  | stCas1 hf _ _ => rcases hf.inv with ⟨rfl, _⟩ | ⟨rfl, _⟩ <;> cases h
  | stCas0 hf _ _ => rcases hf.inv with ⟨rfl, _⟩ | ⟨rfl, _⟩ <;> cases h
  | stSet hf => rcases hf.inv with ⟨rfl, _⟩ | ⟨rfl, _⟩ <;> cases h
  | stClear hf _ => rcases hf.inv with ⟨rfl, _⟩ | ⟨rfl, _⟩ <;> cases h
  | stPh hf _ _ => rcases hf.inv with ⟨rfl, _⟩ | ⟨rfl, _⟩ <;> cases h
  | fSt0 hs => cases h; exact ⟨_, rfl, Or.inr (Or.inl ⟨rfl, hs⟩)⟩
  | fEnd0 hs => cases h; exact ⟨_, rfl, Or.inr (Or.inr ⟨rfl, rfl⟩)⟩
  | fSize hf _ => cases h; rcases hf with ⟨rfl, _⟩ | rfl <;> exact ⟨_, rfl, Or.inl rfl⟩
  | fSnap _ => cases h; exact ⟨_, rfl, Or.inl rfl⟩
  | fScanNe _ _ => cases h; exact ⟨_, rfl, Or.inl rfl⟩
  | fTakeNew _ => cases h; exact ⟨_, rfl, Or.inl rfl⟩
  | fTakeOld _ => cases h; exact ⟨_, rfl, Or.inl rfl⟩
  | fPay1 _ => cases h; exact ⟨_, rfl, Or.inl rfl⟩
  | fPay0 _ => cases h; exact ⟨_, rfl, Or.inl rfl⟩
  | fCopy => cases h; exact ⟨_, rfl, Or.inl rfl⟩
  | fSetRaw => cases h; exact ⟨_, rfl, Or.inl rfl⟩
  | fSetCopied => cases h; exact ⟨_, rfl, Or.inl rfl⟩
  | _ => cases h <;> cases hy

theorem move_stop {ph : SpPh} (hm : Move env w f o f') (h : f' = .stop m ph) : ∃ ph', f = .stop m ph' := by
  cases hm with
  | stCas1 hf _ _ => rcases hf.inv with ⟨rfl, _⟩ | ⟨rfl, _⟩ <;> cases h
  | stCas0 hf _ _ => rcases hf.inv with ⟨rfl, _⟩ | ⟨rfl, _⟩ <;> cases h
  | stSet hf => rcases hf.inv with ⟨rfl, _⟩ | ⟨rfl, _⟩ <;> cases h
  | stClear hf _ => rcases hf.inv with ⟨rfl, _⟩ | ⟨rfl, _⟩ <;> cases h
  | stPh hf _ _ => rcases hf.inv with ⟨rfl, _⟩ | ⟨rfl, _⟩ <;> cases h
  | _ => cases h <;> exact ⟨_, rfl⟩

theorem move_holds (hm : Move env w f o f') (hd : f'.isDrain = true) (h : f'.owned ≠ []) :
    f.owned ≠ [] ∨ ∃ s cm d p ps, f = .drain s cm d ∧ o = .poll (env.q s) ∧ w.queue (env.q s) = p :: ps := by
  cases hm with
  | stCas1 hf _ _ => rcases hf.inv with ⟨rfl, _⟩ | ⟨rfl, _⟩ <;> cases hd
  | stCas0 hf _ _ => rcases hf.inv with ⟨rfl, _⟩ | ⟨rfl, _⟩ <;> cases hd
  | stSet hf => rcases hf.inv with ⟨rfl, _⟩ | ⟨rfl, _⟩ <;> cases hd
  | stClear hf _ => rcases hf.inv with ⟨rfl, _⟩ | ⟨rfl, _⟩ <;> cases hd
  | stPh hf _ _ => rcases hf.inv with ⟨rfl, _⟩ | ⟨rfl, _⟩ <;> cases hd
  | drPoll hq _ => exact Or.inr ⟨_, _, _, _, _, rfl, rfl, hq⟩
  | drQuit _ _ => exact absurd rfl h
  | drSeenF _ => exact absurd rfl h
  | drSeenL _ => exact absurd rfl h
  | drPoll0 _ => exact absurd rfl h
  | drPollBad _ _ => exact absurd rfl h
  | drGive _ => exact absurd rfl h
  | drGiveErr _ => exact absurd rfl h
  | drOver => exact absurd rfl h
  | drOverErr => exact absurd rfl h
  | drRead => exact Or.inl (List.cons_ne_nil _ _)
  | drSkip _ => exact Or.inl (List.cons_ne_nil _ _)
  | drBegin _ => exact Or.inl (List.cons_ne_nil _ _)
  | drPh _ => exact Or.inl (List.cons_ne_nil _ _)
  | drFlow _ _ => exact Or.inl (List.cons_ne_nil _ _)
  | drFlowRet => exact Or.inl (List.cons_ne_nil _ _)
  | _ => cases hd

/-- Who accesses `currentState`. -/
theorem move_cur (hm : Move env w f o f') (h : o = .getCur m ∨ ∃ s api, o = .setCur m s api) :
    (∃ s cm p ev ph, f = .drain s cm (.busy p ev m ph)) ∨ (∃ ph, f = .stop m ph) ∨ (isWon m f ∧ ∃ s, o = .setCur m s true) := by
  cases hm with
  | drPh ha =>
    cases phAllowed_op ha with
    | getCur => rcases h with h | ⟨_, _, h⟩ <;> cases h; exact Or.inl ⟨_, _, _, _, _, rfl⟩
    | setCur => rcases h with h | ⟨_, _, h⟩ <;> cases h; exact Or.inl ⟨_, _, _, _, _, rfl⟩
    | _ => rcases h with h | ⟨_, _, h⟩ <;> cases h
  | stPh hf hs ha =>
    rcases h with rfl | ⟨_, _, rfl⟩ <;> cases hs
  | spSet => rcases h with h | ⟨_, _, h⟩ <;> cases h; exact Or.inr (Or.inl ⟨_, rfl⟩)
  | stSet hf =>
    rcases h with h | ⟨_, _, h⟩ <;> cases h
    rcases hf.inv with ⟨rfl, _⟩ | ⟨rfl, _⟩
    · exact Or.inr (Or.inr ⟨Or.inl rfl, _, rfl⟩)
    · exact Or.inr (Or.inr ⟨Or.inr ⟨_, rfl⟩, _, rfl⟩)
  | _ => rcases h with h | ⟨_, _, h⟩ <;> cases h

theorem move_clear (hm : Move env w f (.clearEnded m) f') : isBusy m f := by
  generalize ho : Op.clearEnded m = o at hm
  cases hm with
  | drPh ha => subst ho; cases phAllowed_op ha
  | stPh hf hs ha => subst ho; cases hs
  | stClear hf _ =>
    cases ho
    rcases hf.inv with ⟨rfl, _⟩ | ⟨rfl, _⟩
    · exact Or.inl ⟨_, rfl⟩
    · exact Or.inr ⟨_, _, rfl⟩
  | _ => cases ho

theorem move_offer {q : QId} {p : PairId} (hm : Move env w f (.offer q p) f') :
    ∃ m' ev e, f = .fire m' ev (.loaded p e) ∧ q = env.qm m' := by
  generalize ho : Op.offer q p = o at hm
  cases hm with
  | drPh ha => subst ho; cases phAllowed_op ha
  | stPh hf hs ha => subst ho; cases hs
  | fOffer => cases ho; exact ⟨_, _, _, rfl, rfl⟩
  | _ => cases ho

theorem move_poll' {q : QId} (hm : Move env w f (.poll q) f') : ∃ s cm d, f = .drain s cm d ∧ q = env.q s := by
  generalize ho : Op.poll q = o at hm
  cases hm with
  | drPh ha => subst ho; cases phAllowed_op ha
  | stPh hf hs ha => subst ho; cases hs
  | drPoll0 _ => cases ho; exact ⟨_, _, _, rfl, rfl⟩
  | drPoll _ _ => cases ho; exact ⟨_, _, _, rfl, rfl⟩
  | drPollBad _ _ => cases ho; exact ⟨_, _, _, rfl, rfl⟩
  | _ => cases ho

theorem calling_owned (hd : f.isDrain = true) (h : f.calling = true) : f.owned ≠ [] := by
  cases f with
  | drain s cm d => cases d <;> first | exact List.cons_ne_nil _ _ | cases h
  | _ => cases hd

theorem at_bottom {l : List Frame} {d : Nat} {b : Option Frame} (h : At l d b) {g : Frame} (hb : b = some g) : g ∈ l ∧ g.isDrain = true := by
  induction h with
  | nil => cases hb
  | drain hd => cases hb; exact ⟨List.mem_cons_self, hd⟩
  | cons _ _ ih => exact ⟨List.mem_cons_of_mem _ (ih hb).1, (ih hb).2⟩

end

theorem exec_started {t : Tid} {o : Op} {w : World} {m : MId} (h : (w.mach m).started = true) :
    ((exec t o w).2.mach m).started = true := by
  cases o <;> simp only [exec] <;> (try exact h) <;> (repeat' split) <;> (try exact h) <;>
    (simp only [World.log, fset]; split <;> simp_all)

theorem cur_touches {t : Tid} {o : Op} {r : o.Res} {m : MId} (h : Did.reads (.op t o r) (.cur m) ∨ Did.writes (.op t o r) (.cur m)) :
    o = .getCur m ∨ ∃ s api, o = .setCur m s api := by
  cases o <;> simp [Did.reads, Did.writes] at h ⊢ <;> exact h.symm

/-! The invariant. -/

section
variable (env : Env) (m : MId)

/-- An access by a thread other than the worker. -/
def Foreign (H : List Did) (i : Nat) (a : Did) : Prop :=
  H[i]? = some a ∧ (a.reads (.cur m) ∨ a.writes (.cur m)) ∧ a.tid ≠ env.workerOf m

def Knows (H : List Did) (t : Tid) : Prop := ∀ i a, Foreign env m H i a → Past false H i t

def Polled (H : List Did) : Prop := ∃ (k : Nat) (p : PairId), H[k]? = some (.op (env.workerOf m) (.poll (env.qm m)) (some p))

structure CurInv (H : List Did) (lst : Tid → List Frame) (w : World) : Prop where
  polled : Polled env m H → Knows env m H (env.workerOf m)
  holds : ∀ f ∈ lst (env.workerOf m), f.isDrain = true → f.owned ≠ [] → Polled env m H
  worker : ∀ (i : Nat) a, H[i]? = some a → (a.reads (.cur m) ∨ a.writes (.cur m)) → a.tid = env.workerOf m → Polled env m H
  que : ∀ p ∈ w.queue (env.qm m), ∃ o t, H[o]? = some (.op t (.offer (env.qm m) p) ()) ∧
    (∀ k v, o < k → H[k]? ≠ some (.op v (.poll (env.qm m)) (some p))) ∧ ∀ i a, Foreign env m H i a → HB false H i o
  first : (¬∃ i a, Foreign env m H i a) → w.queue (env.qm m) = [] ∧ ¬Polled env m H ∧ ∀ t, ∀ f ∈ lst t, ∀ ev x, f ≠ .fire m ev x
  won : ∀ t, ∀ f ∈ lst t, isWon m f → t ≠ env.workerOf m ∧ (w.mach m).started = true ∧ ¬∃ i a, Foreign env m H i a
  one : ∀ t u, ∀ f ∈ lst t, ∀ g ∈ lst u, isWon m f → isWon m g → t = u
  started : (∃ i a, Foreign env m H i a) → (w.mach m).started = true
  busy : ∀ t, ∀ f ∈ lst t, isBusy m f → (∃ i a, Foreign env m H i a) ∧ Knows env m H t
  cleared : ∀ (k : Nat) t, H[k]? = some (.op t (.clearEnded m) ()) → (∃ i a, Foreign env m H i a) ∧
    ∀ i a, Foreign env m H i a → HB false H i k
  early : ∀ t, ∀ f ∈ lst t, ∀ ev x, f = .fire m ev x → x.early = true → t = env.workerOf m ∨
    ∃ k : Nat, (∃ u, H[k]? = some (.op u (.clearEnded m) ())) ∨ ∃ s, H[k]? = some (.op t (.setCur m s true) ())
  st : ∀ t, ∀ f ∈ lst t, ∀ ev x, f = .fire m ev x → (x = .st1 ∨ x = .st2) → (w.mach m).started = true
  deep : ∀ t, ∀ f ∈ lst t, ∀ ev x, f = .fire m ev x → x.deep = true → Knows env m H t
  uniq : ∀ i j a b, Foreign env m H i a → Foreign env m H j b → i = j
  stop : ∀ t, ∀ f ∈ lst t, ∀ ph, f = .stop m ph → t = env.workerOf m
  rf : RaceFree false H (.cur m)


end

section
variable {env : Env} {m : MId} {H : List Did} {x : Did} {i : Nat} {a : Did} {t : Tid}

theorem foreign_snoc : Foreign env m (H ++ [x]) i a ↔ Foreign env m H i a ∨
    (i = H.length ∧ a = x ∧ (x.reads (.cur m) ∨ x.writes (.cur m)) ∧ x.tid ≠ env.workerOf m) := by
  unfold Foreign
  rw [snoc_get]
  constructor
  · rintro ⟨h1 | ⟨h1, rfl⟩, h2, h3⟩
    · exact Or.inl ⟨h1, h2, h3⟩
    · exact Or.inr ⟨h1, rfl, h2, h3⟩
  · rintro (⟨h1, h2, h3⟩ | ⟨h1, rfl, h2, h3⟩)
    · exact ⟨Or.inl h1, h2, h3⟩
    · exact ⟨Or.inr ⟨h1, rfl⟩, h2, h3⟩

/-- `x` is not an access by another thread than the worker. -/
def Homed (env : Env) (m : MId) (x : Did) : Prop := ¬((x.reads (.cur m) ∨ x.writes (.cur m)) ∧ x.tid ≠ env.workerOf m)

theorem Homed.foreign (h : Homed env m x) : Foreign env m (H ++ [x]) i a ↔ Foreign env m H i a := by
  rw [foreign_snoc]
  constructor
  · rintro (h1 | ⟨_, _, h1⟩)
    · exact h1
    · exact absurd h1 h
  · exact Or.inl

theorem Homed.some (h : Homed env m x) : (∃ i a, Foreign env m (H ++ [x]) i a) ↔ ∃ i a, Foreign env m H i a := by
  simp only [h.foreign]

theorem Homed.knows (h : Homed env m x) (hk : Knows env m H t) : Knows env m (H ++ [x]) t :=
  fun i a hf => Past.snoc (hk i a (h.foreign.1 hf))

theorem Polled.snoc (h : Polled env m H) : Polled env m (H ++ [x]) := by
  obtain ⟨k, p, h⟩ := h
  exact ⟨k, p, get_snoc h⟩

theorem new_frames {w : World} {l l' : List Frame} {o : Op} (hm : LMove env w l o l') {f : Frame} (hf : f ∈ l') :
    f ∈ l ∨ (∃ c, o = .emit (.enter c) ∧ f = .ofApi c ∧ callable l) ∨ (∃ g rest, l = g :: rest ∧ Move env w g o f) := by
  cases hm with
  | enter hc =>
    rcases List.mem_cons.1 hf with rfl | hf
    · exact Or.inr (Or.inl ⟨_, rfl, rfl, hc⟩)
    · exact Or.inl hf
  | leave _ => exact Or.inl (List.mem_cons_of_mem _ hf)
  | user _ _ => exact Or.inl hf
  | frame hm =>
    rcases List.mem_cons.1 hf with rfl | hf
    · exact Or.inr (Or.inr ⟨_, _, rfl, hm⟩)
    · exact Or.inl (List.mem_cons_of_mem _ hf)

/-- The machine's executor serves no other strategy. -/
structure OwnThread (env : Env) (m : MId) : Prop where
  alone : Alone env m
  exec : ∀ s, (env.strat s).exec = (env.strat (env.mach m).strat).exec → s = (env.mach m).strat

theorem Disciplined.prefix {W : Tid} (h : Disciplined W m (H ++ [x])) : Disciplined W m H := by
  refine ⟨fun i t r hi => h.reads i t r (get_snoc hi), fun i t hi => h.stops i t (get_snoc hi), fun i t ev hi => ?_⟩
  rcases h.fires i t ev (get_snoc hi) with h1 | ⟨k, hk, h2⟩
  · exact Or.inl h1
  · have hl := get_lt hi
    have back : ∀ a, (H ++ [x])[k]? = some a → H[k]? = some a := by
      intro a ha
      rcases snoc_get.1 ha with ha | ⟨rfl, _⟩
      · exact ha
      · omega
    refine Or.inr ⟨k, hk, ?_⟩
    rcases h2 with ⟨u, h2⟩ | ⟨s, h2⟩
    · exact Or.inl ⟨u, back _ h2⟩
    · exact Or.inr ⟨s, back _ h2⟩

end

section
variable {env : Env} {m : MId} {H : List Did} {lst : Tid → List Frame} {w : World} {t : Tid} {o : Op} {l' : List Frame}

theorem worker_strat (hx : OwnThread env m) (ht : TaskInv env lst w) {s : SId} {cm : MId} {d : Dr}
    (h : Frame.drain s cm d ∈ lst (env.workerOf m)) : s = (env.mach m).strat := by
  obtain ⟨⟨i, h1, _⟩, _⟩ := ht.home _ _ h
  unfold Env.workerOf at h1
  injection h1 with h1
  exact hx.exec s h1.symm

theorem worker_of_queue (hx : OwnThread env m) (ht : TaskInv env lst w) {s : SId} {cm : MId} {d : Dr}
    (h : Frame.drain s cm d ∈ lst t) (hq : env.q s = env.qm m) : t = env.workerOf m := by
  have := hx.alone.priv.queue s hq
  subst this
  obtain ⟨⟨i, h1, h2⟩, _⟩ := ht.home _ _ h
  have := hx.alone.single
  have : i = 0 := by omega
  subst this
  exact h1

/-- When the worker runs user code or a method of the API it is processing an event of the machine. -/
theorem worker_polled (hst : Stacks lst w) (h : CurInv env m H lst w) (hb : Busy (env.workerOf m) (lst (env.workerOf m)))
    (hc : callable (lst (env.workerOf m)) ∨ ∃ f rest, lst (env.workerOf m) = f :: rest ∧ f.isDrain = false) : Polled env m H := by
  obtain ⟨d, b, hb⟩ := hb
  obtain ⟨hm, hd⟩ := at_bottom hb rfl
  refine h.holds b hm hd (calling_owned hd ?_)
  have htail := hst.tail (env.workerOf m)
  cases hl : lst (env.workerOf m) with
  | nil => rw [hl] at hm; cases hm
  | cons f rest =>
    rw [hl] at hm hc htail
    rcases List.mem_cons.1 hm with rfl | hm
    · rcases hc with hc | ⟨f', rest', he, hc⟩
      · exact hc
      · cases he; rw [hd] at hc; cases hc
    · exact htail b hm

/-- Accesses to `currentState`. -/
theorem cur_access (hx : OwnThread env m) (hown : Own env lst w) (ht : TaskInv env lst w) (hst : Stacks lst w)
    (h : CurInv env m H lst w) (hm : LMove env w (lst t) o l') (hb : Busy t (lst t))
    (hread : ∀ r, Did.op t o (exec t o w).1 = .op t (.getCur m) r → t = env.workerOf m)
    (hc : o = .getCur m ∨ ∃ s api, o = .setCur m s api) :
    (t = env.workerOf m ∧ Polled env m H) ∨
      ∃ f f' rest, lst t = f :: rest ∧ l' = f' :: rest ∧ Move env w f o f' ∧ isWon m f ∧ ∃ s, o = .setCur m s true := by
  generalize hl : lst t = l at hm
  cases hm with
  | enter _ => rcases hc with hc | ⟨_, _, hc⟩ <;> cases hc
  | leave _ => rcases hc with hc | ⟨_, _, hc⟩ <;> cases hc
  | user h1 h2 =>
    rcases hc with rfl | ⟨_, _, rfl⟩
    · have := hread _ rfl
      subst this
      exact Or.inl ⟨rfl, worker_polled hst h hb (Or.inl (by rw [hl]; exact h1))⟩
    · exact h2.elim
  | @frame f f' rest o hm =>
    rcases move_cur hm hc with ⟨s, cm, p, ev, ph, rfl⟩ | ⟨ph, rfl⟩ | ⟨hw, hs⟩
    · have hmem : Frame.drain s cm (.busy p ev m ph) ∈ lst t := by rw [hl]; exact List.mem_cons_self
      obtain ⟨loc, hown⟩ := hown
      have hf := hown.fact t _ hmem
      have hW := worker_of_queue hx ht hmem hf.2.symm
      subst hW
      exact Or.inl ⟨rfl, h.holds _ hmem rfl (List.cons_ne_nil _ _)⟩
    · have hW := h.stop t _ (by rw [hl]; exact List.mem_cons_self) ph rfl
      subst hW
      exact Or.inl ⟨rfl, worker_polled hst h hb (Or.inr ⟨_, _, hl, rfl⟩)⟩
    · exact Or.inr ⟨f, f', rest, rfl, rfl, hm, hw, hs⟩

theorem won_top (hst : Stacks lst w) {f : Frame} (hf : f ∈ (lst t).tail) : ¬isWon m f := by
  have := hst.tail t f hf
  rintro (rfl | ⟨s, rfl⟩) <;> cases this

/-- A step that is not the first access to `currentState`. -/
theorem curInv_home (hx : OwnThread env m) (hown : Own env lst w) (ht : TaskInv env lst w) (hst : Stacks lst w)
    (h : CurInv env m H lst w) (hm : LMove env w (lst t) o l') (hb : Busy t (lst t))
    (hD : Disciplined (env.workerOf m) m (H ++ [.op t o (exec t o w).1]))
    (hh : Homed env m (.op t o (exec t o w).1))
    (hacc : (o = .getCur m ∨ ∃ s api, o = .setCur m s api) → t = env.workerOf m ∧ Polled env m H) :
    CurInv env m (H ++ [.op t o (exec t o w).1]) (fset lst t l') (exec t o w).2 := by
  have hnf := fun {f : Frame} => @new_frames env w (lst t) l' o hm f
  -- frames of the new stacks
  have frames : ∀ {u : Tid} {f : Frame}, f ∈ fset lst t l' u → f ∈ lst u ∨ (u = t ∧ ((∃ c, o = .emit (.enter c) ∧ f = .ofApi c ∧ callable (lst t)) ∨
      ∃ g rest, lst t = g :: rest ∧ Move env w g o f)) := by
    intro u f hf
    by_cases hu : u = t
    · subst hu
      rw [fset_same] at hf
      rcases hnf hf with h1 | h1
      · exact Or.inl h1
      · exact Or.inr ⟨rfl, h1⟩
    · rw [fset_ne _ _ hu] at hf; exact Or.inl hf
  have top : ∀ {g : Frame} {rest : List Frame}, lst t = g :: rest → g ∈ lst t := by
    intro g rest hl; rw [hl]; exact List.mem_cons_self
  have hfst : (¬∃ i a, Foreign env m H i a) → ¬Polled env m H := fun hn => (h.first hn).2.1
  have polledF : Polled env m H → ∃ i a, Foreign env m H i a := fun hp => Classical.byContradiction fun hn => hfst hn hp
  -- the queue
  have hq : ∀ p ∈ (exec t o w).2.queue (env.qm m), (p ∈ w.queue (env.qm m) ∧ ∀ v, Did.op t o (exec t o w).1 ≠ .op v (.poll (env.qm m)) (some p)) ∨
      (o = .offer (env.qm m) p ∧ ∃ g rest ev e, lst t = g :: rest ∧ g = .fire m ev (.loaded p e)) := by
    intro p hp
    obtain ⟨loc, hown⟩ := hown
    by_cases hqo : o.quietQ = true
    · rw [(exec_sameQ t o w hqo).queue] at hp
      refine Or.inl ⟨hp, fun v hc => ?_⟩
      injection hc with _ hc; subst hc; cases hqo
    · generalize hl : lst t = l at hm
      cases hm with
      | enter _ => exact absurd rfl hqo
      | leave _ => exact absurd rfl hqo
      | user _ hu => exact absurd (quiet_of_user hu) hqo
      | @frame f f' rest _ hm =>
        cases o with
        | offer q p' =>
          obtain ⟨m', ev, e, rfl, rfl⟩ := move_offer hm
          have hpr : w.pair p' = some (e, m') := hown.fact t (.fire m' ev (.loaded p' e)) (by rw [hl]; exact List.mem_cons_self)
          simp only [exec, hpr, World.log] at hp
          by_cases hqq : env.qm m = env.qm m'
          · have := hx.alone.priv.eq hqq.symm
            subst this
            rw [fset_same] at hp
            rcases List.mem_append.1 hp with hp | hp
            · exact Or.inl ⟨hp, fun v hc => by injection hc with _ hc; cases hc⟩
            · simp at hp; subst hp
              exact Or.inr ⟨rfl, _, _, _, _, rfl, rfl⟩
          · rw [fset_ne _ _ hqq] at hp
            exact Or.inl ⟨hp, fun v hc => by injection hc with _ hc; cases hc⟩
        | poll q =>
          cases hqc : w.queue q with
          | nil =>
            have he : exec t (.poll q) w = (none, w) := by simp [exec, hqc]
            rw [he] at hp ⊢
            refine Or.inl ⟨hp, fun v hc => ?_⟩
            injection hc with _ hc hr
            injection hc with hc
            subst hc
            cases hr
          | cons p0 ps =>
            obtain ⟨ev0, m0, hp0, _⟩ := hown.full q p0 (by rw [hqc]; exact List.mem_cons_self)
            have he : (exec t (.poll q) w).1 = some p0 ∧ (exec t (.poll q) w).2.queue = fset w.queue q ps := by
              simp [exec, hqc, hp0, World.log]
            rw [he.1]
            rw [he.2] at hp
            have hn := hown.qn q
            rw [hqc, List.nodup_cons] at hn
            refine Or.inl ⟨?_, fun v hc => ?_⟩
            · by_cases hqq : env.qm m = q
              · subst hqq; rw [fset_same] at hp; rw [hqc]; exact List.mem_cons_of_mem _ hp
              · rwa [fset_ne _ _ hqq] at hp
            · injection hc with _ hc hr
              injection hc with hc
              subst hc
              injection hr with hr
              subst hr
              rw [fset_same] at hp
              exact hn.1 hp
        | poolTake s =>
          refine Or.inl ⟨?_, fun v hc => by injection hc with _ hc; cases hc⟩
          simp only [exec] at hp; split at hp <;> exact hp
        | poolGive s p' =>
          refine Or.inl ⟨?_, fun v hc => by injection hc with _ hc; cases hc⟩
          simp only [exec] at hp; split at hp <;> exact hp
        | setPair p' ev m' => exact Or.inl ⟨hp, fun v hc => by injection hc with _ hc; cases hc⟩
        | emit ob =>
          refine Or.inl ⟨hp, fun v hc => by injection hc with _ hc; cases hc⟩
        | _ => exact absurd rfl hqo
  -- polls of the worker
  have hpoll : Polled env m (H ++ [.op t o (exec t o w).1]) → Polled env m H ∨
      (t = env.workerOf m ∧ o = .poll (env.qm m) ∧ ∃ p ps, w.queue (env.qm m) = p :: ps ∧
        Did.op t o (exec t o w).1 = .op (env.workerOf m) (.poll (env.qm m)) (some p)) := by
    rintro ⟨k, p, hk⟩
    rcases snoc_get.1 hk with hk | ⟨_, hk⟩
    · exact Or.inl ⟨k, p, hk⟩
    · refine Or.inr ?_
      have hk' := hk
      injection hk with h1 h2 h3
      subst h2
      refine ⟨h1.symm, rfl, ?_⟩
      cases hqc : w.queue (env.qm m) with
      | nil => simp [exec, hqc] at h3
      | cons p0 ps =>
        obtain ⟨loc, hown⟩ := hown
        obtain ⟨ev0, m0, hp0, _⟩ := hown.full _ p0 (by rw [hqc]; exact List.mem_cons_self)
        have : (exec t (.poll (env.qm m)) w).1 = some p0 := by simp [exec, hqc, hp0]
        rw [this] at h3
        injection h3 with h3
        subst h3
        exact ⟨_, _, rfl, hk'.symm⟩
  refine ⟨?_, ?_, ?_, ?_, ?_, ?_, ?_, ?_, ?_, ?_, ?_, ?_, ?_, ?_, ?_, ?_⟩
  · -- polled
    intro hp
    rcases hpoll hp with hp | ⟨rfl, rfl, p, ps, hqc, hxe⟩
    · exact hh.knows (h.polled hp)
    · obtain ⟨k, u, h1, h2, h3⟩ := h.que p (by rw [hqc]; exact List.mem_cons_self)
      intro i a hf
      have hs : Sync false (H ++ [.op (env.workerOf m) (.poll (env.qm m)) (exec (env.workerOf m) (.poll (env.qm m)) w).1]) k H.length := by
        rw [hxe]
        refine .queue (get_lt h1) (get_snoc h1) (Or.inl last_snoc) ?_
        intro k' v hk hk' hg
        rcases snoc_get.1 hg with hg | ⟨rfl, _⟩
        · exact h2 k' v hk hg
        · omega
      exact Past.of_hb (x := .op (env.workerOf m) (.poll (env.qm m)) _) (.trans (HB.snoc (h3 i a (hh.foreign.1 hf))) (.sync hs))
  · -- holds
    intro f hf hd ho
    rcases frames hf with hf | ⟨hu, ⟨c, _, rfl, _⟩ | ⟨g, rest, hl, hmv⟩⟩
    · exact (h.holds f hf hd ho).snoc
    · cases c <;> cases hd
    · subst hu
      rcases move_holds hmv hd ho with ho' | ⟨s, cm, d, p, ps, rfl, rfl, hqc⟩
      · exact (h.holds g (top hl) ((move_isDrain hmv).symm.trans hd) ho').snoc
      · have := worker_strat hx ht (top hl)
        subst this
        obtain ⟨loc, hown⟩ := hown
        obtain ⟨ev0, m0, hp0, _⟩ := hown.full _ p (by rw [hqc]; exact List.mem_cons_self)
        have he : (exec (env.workerOf m) (.poll (env.q (env.mach m).strat)) w).1 = some p := by simp [exec, hqc, hp0]
        refine ⟨H.length, p, ?_⟩
        rw [he]
        exact last_snoc
  · -- worker
    intro i a hi hta hw
    rcases snoc_get.1 hi with hi | ⟨_, rfl⟩
    · exact (h.worker i a hi hta hw).snoc
    · exact (hacc (cur_touches hta)).2.snoc
  · -- que
    intro p hp
    rcases hq p hp with ⟨hp, hnp⟩ | ⟨rfl, g, rest, ev, e, hl, rfl⟩
    · obtain ⟨k, u, h1, h2, h3⟩ := h.que p hp
      refine ⟨k, u, get_snoc h1, ?_, fun i a hf => HB.snoc (h3 i a (hh.foreign.1 hf))⟩
      intro k' v hk hg
      rcases snoc_get.1 hg with hg | ⟨_, hg⟩
      · exact h2 k' v hk hg
      · exact hnp v hg.symm
    · refine ⟨H.length, t, last_snoc, ?_, ?_⟩
      · intro k' v hk hg
        rcases snoc_get.1 hg with hg | ⟨rfl, _⟩
        · have := get_lt hg; omega
        · omega
      · intro i a hf
        exact Past.hb (x := .op t (.offer (env.qm m) p) _) (h.deep t _ (top hl) ev _ rfl rfl i a (hh.foreign.1 hf))
  · -- first
    intro hn
    rw [hh.some] at hn
    obtain ⟨h1, h2, h3⟩ := h.first hn
    refine ⟨?_, ?_, ?_⟩
    · cases hqe : (exec t o w).2.queue (env.qm m) with
      | nil => rfl
      | cons p ps =>
        rcases hq p (by rw [hqe]; exact List.mem_cons_self) with ⟨hp, _⟩ | ⟨_, g, rest, ev, e, hl, rfl⟩
        · rw [h1] at hp; cases hp
        · exact absurd rfl (h3 t _ (top hl) ev _)
    · intro hp
      rcases hpoll hp with hp | ⟨_, _, p, ps, hqc, _⟩
      · exact h2 hp
      · rw [h1] at hqc; cases hqc
    · rintro u f hf ev y rfl
      rcases frames hf with hf | ⟨rfl, ⟨c, rfl, hc, hcl⟩ | ⟨g, rest, hl, hmv⟩⟩
      · exact h3 u _ hf ev y rfl
      · cases c <;> cases hc
        rcases hD.fires H.length u ev last_snoc with rfl | ⟨k, hk, ⟨v, hk'⟩ | ⟨s, hk'⟩⟩
        · exact h2 (worker_polled hst h hb (Or.inl hcl))
        · rcases snoc_get.1 hk' with hk' | ⟨rfl, _⟩
          · exact hn (h.cleared k v hk').1
          · omega
        · rcases snoc_get.1 hk' with hk' | ⟨rfl, _⟩
          · by_cases hu : u = env.workerOf m
            · subst hu; exact h2 (worker_polled hst h hb (Or.inl hcl))
            · exact hn ⟨k, _, hk', Or.inr rfl, hu⟩
          · omega
      · obtain ⟨y', rfl⟩ := move_fire hmv rfl
        exact h3 u _ (top hl) ev y' rfl
  · -- won
    intro u f hf hwon
    rcases frames hf with hf | ⟨rfl, ⟨c, rfl, rfl, hcl⟩ | ⟨g, rest, hl, hmv⟩⟩
    · obtain ⟨h1, h2, h3⟩ := h.won u f hf hwon
      exact ⟨h1, exec_started h2, by rw [hh.some]; exact h3⟩
    · cases c <;> rcases hwon with hwon | ⟨_, hwon⟩ <;> cases hwon
    · obtain ⟨rfl, hs⟩ := move_isWon hmv hwon
      have hnF : ¬∃ i a, Foreign env m H i a := fun hF => by rw [h.started hF] at hs; cases hs
      refine ⟨?_, ?_, by rw [hh.some]; exact hnF⟩
      · rintro rfl
        refine hfst hnF (worker_polled hst h hb (Or.inr ⟨g, rest, hl, ?_⟩))
        rw [← move_isDrain hmv]
        rcases hwon with rfl | ⟨_, rfl⟩ <;> rfl
      · simp [exec, hs, World.log]
  · -- one
    intro u v f hf g hg hwf hwg
    rcases frames hf with hf1 | ⟨rfl, ⟨c, rfl, rfl, hcl⟩ | ⟨f0, rest, hl, hmv⟩⟩
    · rcases frames hg with hg1 | ⟨rfl, ⟨c, rfl, rfl, hcl⟩ | ⟨g0, rest, hl, hmv⟩⟩
      · exact h.one u v f hf1 g hg1 hwf hwg
      · cases c <;> rcases hwg with hwg | ⟨_, hwg⟩ <;> cases hwg
      · obtain ⟨rfl, hs⟩ := move_isWon hmv hwg
        have := (h.won u f hf1 hwf).2.1
        rw [hs] at this; cases this
    · cases c <;> rcases hwf with hwf | ⟨_, hwf⟩ <;> cases hwf
    · obtain ⟨rfl, hs⟩ := move_isWon hmv hwf
      rcases frames hg with hg1 | ⟨rfl, ⟨c, he, rfl, hcl⟩ | ⟨g0, rest, hl, hmv⟩⟩
      · have := (h.won v g hg1 hwg).2.1
        rw [hs] at this; cases this
      · cases he
      · rfl
  · -- started
    intro hF
    exact exec_started (h.started (hh.some.1 hF))
  · -- busy
    intro u f hf hbz
    have old : isBusy m f → f ∈ lst u → _ := fun hbz hf => h.busy u f hf hbz
    rcases frames hf with hf | ⟨rfl, ⟨c, rfl, rfl, hcl⟩ | ⟨g, rest, hl, hmv⟩⟩
    · obtain ⟨h1, h2⟩ := old hbz hf
      exact ⟨hh.some.2 h1, hh.knows h2⟩
    · cases c <;> rcases hbz with ⟨_, hbz⟩ | ⟨_, _, hbz⟩ <;> cases hbz
    · rcases move_isBusy hmv hbz with hbz' | ⟨hwon, s, rfl⟩
      · obtain ⟨h1, h2⟩ := h.busy u g (top hl) hbz'
        exact ⟨hh.some.2 h1, hh.knows h2⟩
      · exact absurd (hacc (Or.inr ⟨s, true, rfl⟩)).1 (h.won u g (top hl) hwon).1
  · -- cleared
    intro k u hk
    rcases snoc_get.1 hk with hk1 | ⟨rfl, hk1⟩
    · obtain ⟨h1, h2⟩ := h.cleared k u hk1
      exact ⟨hh.some.2 h1, fun i a hf => HB.snoc (h2 i a (hh.foreign.1 hf))⟩
    · injection hk1 with hk1 hk2
      subst hk1 hk2
      clear hk
      generalize hl : lst u = l at hm
      cases hm with
      | user _ hu => exact hu.elim
      | frame hmv =>
        obtain ⟨h1, h2⟩ := h.busy u _ (top hl) (move_clear hmv)
        exact ⟨hh.some.2 h1, fun i a hf => Past.hb (x := .op u (.clearEnded m) _) (h2 i a (hh.foreign.1 hf))⟩
  · -- early
    rintro u f hf ev y rfl hy
    have later : (u = env.workerOf m ∨ ∃ k : Nat, (∃ v, H[k]? = some (.op v (.clearEnded m) ())) ∨ ∃ s, H[k]? = some (.op u (.setCur m s true) ())) →
        u = env.workerOf m ∨ ∃ k : Nat, (∃ v, (H ++ [Did.op t o (exec t o w).1])[k]? = some (.op v (.clearEnded m) ())) ∨
          ∃ s, (H ++ [Did.op t o (exec t o w).1])[k]? = some (.op u (.setCur m s true) ()) := by
      rintro (h1 | ⟨k, ⟨v, h1⟩ | ⟨s, h1⟩⟩)
      · exact Or.inl h1
      · exact Or.inr ⟨k, Or.inl ⟨v, get_snoc h1⟩⟩
      · exact Or.inr ⟨k, Or.inr ⟨s, get_snoc h1⟩⟩
    rcases frames hf with hf | ⟨rfl, ⟨c, rfl, hc, hcl⟩ | ⟨g, rest, hl, hmv⟩⟩
    · exact later (h.early u _ hf ev y rfl hy)
    · cases c <;> cases hc
      rcases hD.fires H.length u ev last_snoc with h1 | ⟨k, hk, h1⟩
      · exact Or.inl h1
      · exact Or.inr ⟨k, h1⟩
    · obtain ⟨y', rfl, hy', _⟩ := move_early hmv rfl hy
      exact later (h.early u _ (top hl) ev y' rfl hy')
  · -- st
    rintro u f hf ev y rfl hy
    rcases frames hf with hf | ⟨rfl, ⟨c, rfl, hc, hcl⟩ | ⟨g, rest, hl, hmv⟩⟩
    · exact exec_started (h.st u _ hf ev y rfl hy)
    · cases c <;> cases hc
      rcases hy with hy | hy <;> cases hy
    · obtain ⟨y', rfl, hy', hs⟩ := move_early hmv rfl (by rcases hy with rfl | rfl <;> rfl)
      exact exec_started (hs hy)
  · -- deep
    rintro u f hf ev y rfl hy
    rcases frames hf with hf | ⟨rfl, ⟨c, rfl, hc, hcl⟩ | ⟨g, rest, hl, hmv⟩⟩
    · exact hh.knows (h.deep u _ hf ev y rfl hy)
    · cases c <;> cases hc
      cases hy
    · obtain ⟨y', rfl, hy' | ⟨rfl, hs⟩ | ⟨rfl, rfl⟩⟩ := move_deep hmv rfl hy
      · exact hh.knows (h.deep u _ (top hl) ev y' rfl hy')
      · have := h.st u _ (top hl) ev _ rfl (Or.inl rfl)
        rw [hs] at this; cases this
      · intro i a hf
        have hf' := hh.foreign.1 hf
        rcases h.early u _ (top hl) ev _ rfl rfl with rfl | ⟨k, ⟨v, hk⟩ | ⟨s, hk⟩⟩
        · exact Past.snoc (h.polled (worker_polled hst h hb (Or.inr ⟨_, _, hl, rfl⟩)) i a hf')
        · have hs : Sync false (H ++ [.op u (.getEnded m) (exec u (.getEnded m) w).1]) k H.length :=
            .ended (get_lt hk) (Or.inl (get_snoc hk)) (Or.inl ⟨_, last_snoc⟩)
          exact Past.of_hb (x := .op u (.getEnded m) _) (.trans (HB.snoc ((h.cleared k v hk).2 i a hf')) (.sync hs))
        · by_cases hu : u = env.workerOf m
          · subst hu
            exact Past.snoc (h.polled (worker_polled hst h hb (Or.inr ⟨_, _, hl, rfl⟩)) i a hf')
          · have := h.uniq i k a _ hf' ⟨hk, Or.inr rfl, hu⟩
            subst this
            exact Past.snoc ⟨i, _, hk, rfl, Or.inl rfl⟩
  · -- uniq
    intro i j a b hi hj
    exact h.uniq i j a b (hh.foreign.1 hi) (hh.foreign.1 hj)
  · -- stop
    rintro u f hf ph rfl
    rcases frames hf with hf | ⟨rfl, ⟨c, rfl, hc, hcl⟩ | ⟨g, rest, hl, hmv⟩⟩
    · exact h.stop u _ hf ph rfl
    · cases c <;> cases hc
      exact hD.stops H.length u last_snoc
    · obtain ⟨ph', rfl⟩ := move_stop hmv rfl
      exact h.stop u _ (top hl) ph' rfl
  · -- rf
    refine raceFree_snoc h.rf (fun hta => ?_)
    obtain ⟨hW, hp⟩ := hacc (cur_touches hta)
    intro i a hi ha
    show Past false H i t
    by_cases hw : a.tid = env.workerOf m
    · exact ⟨i, a, hi, hw.trans hW.symm, Or.inl rfl⟩
    · rw [hW]; exact h.polled hp i a ⟨hi, ha, hw⟩


/-- The first access to `currentState`: `start()` writes the initial state. -/
theorem curInv_first (hst : Stacks lst w) (h : CurInv env m H lst w) {f f' : Frame} {rest : List Frame} {s : St}
    (hl : lst t = f :: rest) (hm : Move env w f (.setCur m s true) f') (hwon : isWon m f) :
    CurInv env m (H ++ [.op t (.setCur m s true) ()]) (fset lst t (f' :: rest)) (exec t (.setCur m s true) w).2 := by
  obtain ⟨htW, hs, hnF⟩ := h.won t f (by rw [hl]; exact List.mem_cons_self) hwon
  obtain ⟨hq, hnp, hnf⟩ := h.first hnF
  have hnp' : ¬Polled env m (H ++ [.op t (.setCur m s true) ()]) := by
    rintro ⟨k, p, hk⟩
    rcases snoc_get.1 hk with hk | ⟨_, hk⟩
    · exact hnp ⟨k, p, hk⟩
    · injection hk with _ hk; cases hk
  have hfor : ∀ {i a}, Foreign env m (H ++ [.op t (.setCur m s true) ()]) i a → i = H.length := by
    intro i a hf
    rcases foreign_snoc.1 hf with hf | ⟨hi, _⟩
    · exact absurd ⟨i, a, hf⟩ hnF
    · exact hi
  have hF : ∃ i a, Foreign env m (H ++ [.op t (.setCur m s true) ()]) i a := ⟨H.length, _, last_snoc, Or.inr rfl, htW⟩
  have frames : ∀ {u : Tid} {g : Frame}, g ∈ fset lst t (f' :: rest) u → g ∈ lst u ∨ (u = t ∧ g = f') := by
    intro u g hg
    by_cases hu : u = t
    · subst hu
      rw [fset_same] at hg
      rcases List.mem_cons.1 hg with rfl | hg
      · exact Or.inr ⟨rfl, rfl⟩
      · rw [hl]; exact Or.inl (List.mem_cons_of_mem _ hg)
    · rw [fset_ne _ _ hu] at hg; exact Or.inl hg
  have hnw : ∀ u, ∀ g ∈ fset lst t (f' :: rest) u, ¬isWon m g := by
    intro u g hg hw
    by_cases hu : u = t
    · subst hu
      rw [fset_same] at hg
      rcases List.mem_cons.1 hg with rfl | hg
      · cases (move_isWon hm hw).1
      · exact won_top hst (t := u) (by rw [hl]; exact hg) hw
    · rw [fset_ne _ _ hu] at hg
      exact hu (h.one u t g hg f (by rw [hl]; exact List.mem_cons_self) hw hwon)
  have hfd : f.isDrain = false := by rcases hwon with rfl | ⟨_, rfl⟩ <;> rfl
  have hq' : (exec t (.setCur m s true) w).2.queue (env.qm m) = [] := hq
  refine ⟨fun hp => absurd hp hnp', ?_, ?_, ?_, fun hn => absurd hF hn, ?_, ?_, fun _ => exec_started hs, ?_, ?_, ?_, ?_, ?_, ?_, ?_, ?_⟩
  · intro g hg hd ho
    rcases frames hg with hg | ⟨rfl, rfl⟩
    · exact absurd (h.holds g hg hd ho) hnp
    · exact absurd rfl htW
  · intro i a hi hta hw
    rcases snoc_get.1 hi with hi | ⟨_, rfl⟩
    · exact absurd (h.worker i a hi hta hw) hnp
    · exact absurd hw htW
  · intro p hp; rw [hq'] at hp; cases hp
  · intro u g hg hw; exact absurd hw (hnw u g hg)
  · intro u v g hg g' _ hw _; exact absurd hw (hnw u g hg)
  · intro u g hg hbz
    refine ⟨hF, ?_⟩
    rcases frames hg with hg | ⟨rfl, rfl⟩
    · exact absurd (h.busy u g hg hbz).1 hnF
    · intro i a hf
      rw [hfor hf]
      exact Past.self (x := .op u (.setCur m s true) ())
  · intro k u hk
    rcases snoc_get.1 hk with hk | ⟨_, hk⟩
    · exact absurd (h.cleared k u hk).1 hnF
    · injection hk with _ hk; cases hk
  · intro u g hg ev y he hy
    rcases frames hg with hg | ⟨rfl, rfl⟩
    · exact absurd he (hnf u g hg ev y)
    · obtain ⟨y', rfl, _⟩ := move_early hm he hy
      exact absurd rfl (hnf u _ (by rw [hl]; exact List.mem_cons_self) ev y')
  · intro u g hg ev y he hy
    rcases frames hg with hg | ⟨rfl, rfl⟩
    · exact absurd he (hnf u g hg ev y)
    · obtain ⟨y', rfl⟩ := move_fire hm he
      exact absurd rfl (hnf u _ (by rw [hl]; exact List.mem_cons_self) ev y')
  · intro u g hg ev y he hy
    rcases frames hg with hg | ⟨rfl, rfl⟩
    · exact absurd he (hnf u g hg ev y)
    · obtain ⟨y', rfl⟩ := move_fire hm he
      exact absurd rfl (hnf u _ (by rw [hl]; exact List.mem_cons_self) ev y')
  · intro i j a b hi hj
    rw [hfor hi, hfor hj]
  · intro u g hg ph he
    rcases frames hg with hg | ⟨rfl, rfl⟩
    · exact h.stop u g hg ph he
    · obtain ⟨ph', rfl⟩ := move_stop hm he
      exact h.stop u _ (by rw [hl]; exact List.mem_cons_self) ph' rfl
  · refine raceFree_snoc h.rf (fun _ => ?_)
    intro i a hi ha
    by_cases hw : a.tid = env.workerOf m
    · exact absurd (h.worker i a hi ha hw) hnp
    · exact absurd ⟨i, a, hi, ha, hw⟩ hnF

/-- Fewer frames, nothing done. -/
theorem CurInv.sub {lst' : Tid → List Frame} {w' : World} (h : CurInv env m H lst w)
    (hl : ∀ u, ∀ f ∈ lst' u, f ∈ lst u ∨ ∃ s cm, f = .drain s cm .fresh) (hq : w'.queue (env.qm m) = w.queue (env.qm m))
    (hs : (w'.mach m).started = (w.mach m).started) : CurInv env m H lst' w' := by
  refine ⟨h.polled, ?_, h.worker, by rw [hq]; exact h.que, ?_, ?_, ?_, by rw [hs]; exact h.started, ?_, h.cleared, ?_, ?_, ?_, h.uniq, ?_, h.rf⟩
  · intro f hf hd ho
    rcases hl _ f hf with hf | ⟨s, cm, rfl⟩
    · exact h.holds f hf hd ho
    · exact absurd rfl ho
  · intro hn
    obtain ⟨h1, h2, h3⟩ := h.first hn
    refine ⟨by rw [hq]; exact h1, h2, fun t f hf ev x he => ?_⟩
    rcases hl _ f hf with hf | ⟨s, cm, rfl⟩
    · exact h3 t f hf ev x he
    · cases he
  · intro t f hf hw
    rcases hl _ f hf with hf | ⟨s, cm, rfl⟩
    · rw [hs]; exact h.won t f hf hw
    · rcases hw with hw | ⟨_, hw⟩ <;> cases hw
  · intro t u f hf g hg hwf hwg
    rcases hl _ f hf with hf | ⟨s, cm, rfl⟩
    · rcases hl _ g hg with hg | ⟨s, cm, rfl⟩
      · exact h.one t u f hf g hg hwf hwg
      · rcases hwg with hw | ⟨_, hw⟩ <;> cases hw
    · rcases hwf with hw | ⟨_, hw⟩ <;> cases hw
  · intro t f hf hw
    rcases hl _ f hf with hf | ⟨s, cm, rfl⟩
    · exact h.busy t f hf hw
    · rcases hw with ⟨_, hw⟩ | ⟨_, _, hw⟩ <;> cases hw
  · intro t f hf ev x he
    rcases hl _ f hf with hf | ⟨s, cm, rfl⟩
    · exact h.early t f hf ev x he
    · cases he
  · intro t f hf ev x he
    rcases hl _ f hf with hf | ⟨s, cm, rfl⟩
    · rw [hs]; exact h.st t f hf ev x he
    · cases he
  · intro t f hf ev x he
    rcases hl _ f hf with hf | ⟨s, cm, rfl⟩
    · exact h.deep t f hf ev x he
    · cases he
  · intro t f hf ph he
    rcases hl _ f hf with hf | ⟨s, cm, rfl⟩
    · exact h.stop t f hf ph he
    · cases he

theorem CurInv.take {u : Tid} {e : EId} {s : SId} {m' : MId} (h : CurInv env m H lst w) : CurInv env m (H ++ [.take u e s m']) lst w := by
  have hh : Homed env m (.take u e s m') := by rintro ⟨h | h, _⟩ <;> exact h
  have hp : Polled env m (H ++ [.take u e s m']) → Polled env m H := by
    rintro ⟨k, p, hk⟩
    rcases snoc_get.1 hk with hk | ⟨_, hk⟩
    · exact ⟨k, p, hk⟩
    · cases hk
  have hop : ∀ {k : Nat} {t o r}, (H ++ [.take u e s m'])[k]? = some (.op t o r) → H[k]? = some (.op t o r) := by
    intro k t o r hk
    rcases snoc_get.1 hk with hk | ⟨_, hk⟩
    · exact hk
    · cases hk
  refine ⟨fun hp' => hh.knows (h.polled (hp hp')), fun f hf hd ho => (h.holds f hf hd ho).snoc, ?_, ?_, ?_, ?_, h.one,
    fun hF => h.started (hh.some.1 hF), ?_, ?_, ?_, h.st, fun t f hf ev x he hd => hh.knows (h.deep t f hf ev x he hd), ?_, h.stop, ?_⟩
  · intro i a hi hta hw
    rcases snoc_get.1 hi with hi | ⟨_, rfl⟩
    · exact (h.worker i a hi hta hw).snoc
    · rcases hta with hta | hta <;> exact hta.elim
  · intro p hpq
    obtain ⟨k, t, h1, h2, h3⟩ := h.que p hpq
    exact ⟨k, t, get_snoc h1, fun k' v hk hg => h2 k' v hk (hop hg), fun i a hf => HB.snoc (h3 i a (hh.foreign.1 hf))⟩
  · intro hn
    rw [hh.some] at hn
    obtain ⟨h1, h2, h3⟩ := h.first hn
    exact ⟨h1, fun hc => h2 (hp hc), h3⟩
  · intro t f hf hw
    rw [hh.some]; exact h.won t f hf hw
  · intro t f hf hw
    obtain ⟨h1, h2⟩ := h.busy t f hf hw
    exact ⟨hh.some.2 h1, hh.knows h2⟩
  · intro k t hk
    obtain ⟨h1, h2⟩ := h.cleared k t (hop hk)
    exact ⟨hh.some.2 h1, fun i a hf => HB.snoc (h2 i a (hh.foreign.1 hf))⟩
  · intro t f hf ev x he hx
    rcases h.early t f hf ev x he hx with h1 | ⟨k, ⟨v, h1⟩ | ⟨s, h1⟩⟩
    · exact Or.inl h1
    · exact Or.inr ⟨k, Or.inl ⟨v, get_snoc h1⟩⟩
    · exact Or.inr ⟨k, Or.inr ⟨s, get_snoc h1⟩⟩
  · intro i j a b hi hj
    exact h.uniq i j a b (hh.foreign.1 hi) (hh.foreign.1 hj)
  · exact raceFree_snoc h.rf (fun hta => by rcases hta with hta | hta <;> exact hta.elim)

end

theorem cur_hinv (env : Env) (m : MId) (hx : OwnThread env m) :
    HInv env (fun lst w => (Own env lst w ∧ TaskInv env lst w) ∧ Stacks lst w)
      (fun H lst w => Disciplined (env.workerOf m) m H → CurInv env m H lst w) where
  op := by
    rintro H lst w t o l' ⟨⟨hown, ht⟩, hst⟩ hj hm hb hD
    have h := hj (Disciplined.prefix hD)
    by_cases hc : o = .getCur m ∨ ∃ s api, o = .setCur m s api
    · rcases cur_access hx hown ht hst h hm hb (fun r he => hD.reads H.length t r (by rw [he]; exact last_snoc)) hc with
        hW | ⟨f, f', rest, hl, rfl, hmv, hwon, s, rfl⟩
      · exact curInv_home hx hown ht hst h hm hb hD (fun hF => hF.2 hW.1) (fun _ => hW)
      · exact curInv_first hst h hl hmv hwon
    · exact curInv_home hx hown ht hst h hm hb hD (fun hF => hc (cur_touches hF.1)) (fun hc' => absurd hc' hc)
  ret := by
    intro H lst w t _ hj _ hD
    refine (hj hD).sub ?_ rfl rfl
    intro u f hf
    by_cases hu : u = t
    · subst hu; rw [fset_same] at hf; cases hf
    · rw [fset_ne _ _ hu] at hf; exact Or.inl hf
  thr := by
    intro H lst w t x _ hj _ hD
    refine (hj hD).sub ?_ rfl rfl
    intro u f hf
    by_cases hu : u = t
    · subst hu; rw [fset_same] at hf; cases hf
    · rw [fset_ne _ _ hu] at hf; exact Or.inl hf
  dispatch := by
    intro H lst w e i j s m' _ hj _ _ _ hD
    refine (hj (Disciplined.prefix hD)).take.sub ?_ rfl rfl
    intro u f hf
    by_cases hu : u = .worker e i
    · subst hu; rw [fset_same] at hf; simp [task] at hf; exact Or.inr ⟨s, m', hf⟩
    · rw [fset_ne _ _ hu] at hf; exact Or.inl hf
  interrupt := fun H lst w t _ hj hD => (hj hD).sub (fun _ _ hf => Or.inl hf) rfl rfl
  shutdown := fun H lst w t _ hj hD => (hj hD).sub (fun _ _ hf => Or.inl hf) rfl rfl
  dropTasks := fun H lst w t _ hj hD => (hj hD).sub (fun _ _ hf => Or.inl hf) rfl rfl

theorem cur_initial (env : Env) (m : MId) (c : Conf) (h : Initial c) : CurInv env m [] (fun _ => []) c.w := by
  have hp : ¬Polled env m [] := by rintro ⟨k, p, hk⟩; cases hk
  have hF : ¬∃ i a, Foreign env m [] i a := by rintro ⟨i, a, hi, _⟩; cases hi
  refine ⟨fun h' => absurd h' hp, ?_, ?_, ?_, ?_, ?_, ?_, fun h' => absurd h' hF, ?_, ?_, ?_, ?_, ?_, ?_, ?_, ?_⟩
  · intro f hf; cases hf
  · intro i a hi; cases hi
  · intro p hp; rw [h.queue] at hp; cases hp
  · intro _; exact ⟨h.queue _, hp, fun t f hf => by cases hf⟩
  · intro t f hf; cases hf
  · intro t u f hf; cases hf
  · intro t f hf; cases hf
  · intro k t hk; cases hk
  · intro t f hf; cases hf
  · intro t f hf; cases hf
  · intro t f hf; cases hf
  · intro i j a b hi; exact absurd ⟨i, a, hi⟩ hF
  · intro t f hf; cases hf
  · intro i j a b _ hi; cases hi

end Verif
