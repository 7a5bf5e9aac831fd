import Verif.Proofs.HBWrites
/-
An event that is stored for the queue of a strategy that drops duplicates has passed the check.
-/

namespace Verif.Checks
open Spec.HB

/-- Progress of `fire` before the event is stored in a pair. -/
def pend : Fate → Bool
  | .pre | .st1 | .st2 | .live | .scan _ | .sized | .took _ | .cpy _ | .raw _ | .copied .. => true
  | _ => false

def pendF : Frame → Bool
  | .fire _ _ g => pend g
  | _ => false

/-- Thread `t` calls `fire`, in action `c`, and since then has neither called anything else nor stored anything. -/
def Called (H : List Did) (t : Tid) (m : MId) (ev : Ev) (c : Nat) : Prop :=
  H[c]? = some (.op t (.emit (.enter (.fire m ev))) ()) ∧
  ∀ (k : Nat) o r, c < k → H[k]? = some (.op t o r) → (∀ a, o ≠ .emit (.enter a)) ∧ ∀ p e m', o ≠ .setPair p e m'

/-- After action `s`, thread `t` has read from `p` an event that is not equal to `ev`. -/
def Differs (H : List Did) (s : Nat) (t : Tid) (p : PairId) (ev : Ev) : Prop :=
  ∃ k, s < k ∧ ∃ en m', H[k]? = some (.op t (.getPair p) (some (en, m'))) ∧ en.eqv ev = false

/-- The queue has been looked at since the call, and all pairs but those in `todo` have been found different. -/
def Passed (env : Env) (H : List Did) (t : Tid) (m : MId) (ev : Ev) (c : Nat) (todo : List PairId) : Prop :=
  ∃ s l, c < s ∧ H[s]? = some (.op t (.qSnap (env.qm m)) l) ∧ ∀ p ∈ l, p ∈ todo ∨ Differs H s t p ev

def Sofar (env : Env) (H : List Did) (t : Tid) (m : MId) (ev : Ev) (c : Nat) : Fate → Prop
  | .scan ps => Passed env H t m ev c ps
  | .sized | .took _ | .cpy _ | .raw _ => Passed env H t m ev c []
  | .copied _ e => Passed env H t m ev c [] ∧ e.name = ev.name
  | _ => True

structure Pass (env : Env) (H : List Did) (lst : Tid → List Frame) : Prop where
  top : ∀ t m ev g rest, lst t = .fire m ev g :: rest → pend g = true → (env.strat (env.mach m).strat).dropDup = true →
    ∃ c, Called H t m ev c ∧ Sofar env H t m ev c g
  tail : ∀ t, ∀ f ∈ (lst t).tail, pendF f = false

/-- Whatever is stored has been fired, and has passed the check if there is one. -/
def Passes (env : Env) (H : List Did) : Prop := ∀ (i : Nat) t p e m, H[i]? = some (.op t (.setPair p e m) ()) →
  (env.strat (env.mach m).strat).dropDup = true →
  ∃ c ev s l, c < s ∧ s < i ∧ H[c]? = some (.op t (.emit (.enter (.fire m ev))) ()) ∧
    (∀ (k : Nat) o r, c < k → k < i → H[k]? = some (.op t o r) → (∀ a, o ≠ .emit (.enter a)) ∧ ∀ p e m', o ≠ .setPair p e m') ∧
    H[s]? = some (.op t (.qSnap (env.qm m)) l) ∧ e.name = ev.name ∧
    ∀ p ∈ l, ∃ k, s < k ∧ k < i ∧ ∃ en m', H[k]? = some (.op t (.getPair p) (some (en, m'))) ∧ en.eqv ev = false

variable {env : Env} {H : List Did} {x : Did}

theorem Called.snoc {t : Tid} {m : MId} {ev : Ev} {c : Nat} (h : Called H t m ev c)
    (hx : ∀ o r, x = .op t o r → (∀ a, o ≠ .emit (.enter a)) ∧ ∀ p e m', o ≠ .setPair p e m') : Called (H ++ [x]) t m ev c := by
  refine ⟨get_snoc h.1, fun k o r hk hg => ?_⟩
  rcases snoc_get.1 hg with hg | ⟨_, hg⟩
  · exact h.2 k o r hk hg
  · exact hx o r hg.symm

theorem Called.last {t : Tid} {m : MId} {ev : Ev} : Called (H ++ [.op t (.emit (.enter (.fire m ev))) ()]) t m ev H.length := by
  refine ⟨last_snoc, fun k o r hk hg => ?_⟩
  have := get_lt hg
  simp at this
  omega

theorem Passed.snoc {t : Tid} {m : MId} {ev : Ev} {c : Nat} {a b : List PairId} (h : Passed env H t m ev c a)
    (hab : ∀ p ∈ a, p ∈ b ∨ ∃ en m', x = .op t (.getPair p) (some (en, m')) ∧ en.eqv ev = false) : Passed env (H ++ [x]) t m ev c b := by
  obtain ⟨s, l, h1, h2, h3⟩ := h
  refine ⟨s, l, h1, get_snoc h2, fun p hp => ?_⟩
  rcases h3 p hp with h4 | ⟨k, hk, en, m', h4, h5⟩
  · rcases hab p h4 with h4 | ⟨en, m', rfl, h5⟩
    · exact Or.inl h4
    · exact Or.inr ⟨_, get_lt h2, en, m', last_snoc, h5⟩
  · exact Or.inr ⟨k, hk, en, m', get_snoc h4, h5⟩

theorem Sofar.snoc {t : Tid} {m : MId} {ev : Ev} {c : Nat} {g : Fate} (h : Sofar env H t m ev c g) : Sofar env (H ++ [x]) t m ev c g := by
  cases g with
  | scan ps => exact Passed.snoc h fun p hp => Or.inl hp
  | sized => exact Passed.snoc h fun p hp => Or.inl hp
  | took _ => exact Passed.snoc h fun p hp => Or.inl hp
  | cpy _ => exact Passed.snoc h fun p hp => Or.inl hp
  | raw _ => exact Passed.snoc h fun p hp => Or.inl hp
  | copied _ e => exact ⟨Passed.snoc h.1 fun p hp => Or.inl hp, h.2⟩
  | _ => trivial

theorem Pass.snoc {lst : Tid → List Frame} {t : Tid} {l' : List Frame} (h : Pass env H lst) (hx : x.tid = t)
    (h1 : ∀ m ev g rest, l' = .fire m ev g :: rest → pend g = true → (env.strat (env.mach m).strat).dropDup = true →
      ∃ c, Called (H ++ [x]) t m ev c ∧ Sofar env (H ++ [x]) t m ev c g) (h2 : ∀ f ∈ l'.tail, pendF f = false) :
    Pass env (H ++ [x]) (fset lst t l') := by
  refine ⟨fun u m ev g rest hu hg hd => ?_, fun u f hf => ?_⟩
  · by_cases ht : u = t
    · subst ht
      rw [fset_same] at hu
      exact h1 m ev g rest hu hg hd
    · rw [fset_ne _ _ ht] at hu
      obtain ⟨c, h3, h4⟩ := h.top u m ev g rest hu hg hd
      refine ⟨c, h3.snoc fun o r he => ?_, h4.snoc⟩
      subst he
      exact absurd hx ht
  · by_cases ht : u = t
    · subst ht
      rw [fset_same] at hf
      exact h2 f hf
    · rw [fset_ne _ _ ht] at hf
      exact h.tail u f hf

theorem Pass.nil {lst : Tid → List Frame} {t : Tid} (h : Pass env H lst) : Pass env H (fset lst t []) := by
  refine ⟨fun u m ev g rest hu hg hd => ?_, fun u f hf => ?_⟩
  · by_cases ht : u = t
    · subst ht; rw [fset_same] at hu; cases hu
    · rw [fset_ne _ _ ht] at hu; exact h.top u m ev g rest hu hg hd
  · by_cases ht : u = t
    · subst ht; rw [fset_same] at hf; cases hf
    · rw [fset_ne _ _ ht] at hf; exact h.tail u f hf

/-- Steps on the way. -/
theorem move_pend {w : World} {f f' : Frame} {o : Op} {t : Tid} {m : MId} {ev : Ev} {y : Fate} (hm : Move env w f o f') (h : f' = .fire m ev y)
    (hy : pend y = true) (hd : (env.strat (env.mach m).strat).dropDup = true) :
    ((∀ a, o ≠ .emit (.enter a)) ∧ ∀ p e m', o ≠ .setPair p e m') ∧ ∃ g, f = .fire m ev g ∧ pend g = true ∧
      ∀ c, c < H.length → Sofar env H t m ev c g → Sofar env (H ++ [.op t o (exec t o w).1]) t m ev c y := by
  cases hm with
  | stCas1 hf _ _ => rcases hf.inv with ⟨rfl, _⟩ | ⟨rfl, _⟩ <;> cases h
  | stCas0 hf _ _ => rcases hf.inv with ⟨rfl, _⟩ | ⟨rfl, _⟩ <;> cases h
  | stSet hf => rcases hf.inv with ⟨rfl, _⟩ | ⟨rfl, _⟩ <;> cases h
  | stClear hf _ => rcases hf.inv with ⟨rfl, _⟩ | ⟨rfl, _⟩ <;> cases h
  | stPh hf _ _ => rcases hf.inv with ⟨rfl, _⟩ | ⟨rfl, _⟩ <;> cases h
  | fPre1 _ => cases h; exact ⟨by simp, _, rfl, rfl, fun _ _ _ => trivial⟩
  | fSt1 _ => cases h; exact ⟨by simp, _, rfl, rfl, fun _ _ _ => trivial⟩
  | fSt0 _ => cases h; exact ⟨by simp, _, rfl, rfl, fun _ _ _ => trivial⟩
  | fEnd0 _ => cases h; exact ⟨by simp, _, rfl, rfl, fun _ _ _ => trivial⟩
  | fSnap _ => cases h; exact ⟨by simp, _, rfl, rfl, fun _ hc _ => ⟨_, _, hc, last_snoc, fun p hp => Or.inl hp⟩⟩
  | fScanNe h1 h2 =>
    cases h
    refine ⟨by simp, _, rfl, rfl, fun c _ hs => Passed.snoc hs fun p hp => ?_⟩
    rcases List.mem_cons.1 hp with rfl | hp
    · exact Or.inr ⟨_, _, by simp only [exec, h1]; rfl, h2⟩
    · exact Or.inl hp
  | fSize hf _ =>
    cases h
    rcases hf with ⟨rfl, hf⟩ | rfl
    · rw [hd] at hf; cases hf
    · exact ⟨by simp, _, rfl, rfl, fun c _ hs => Passed.snoc hs fun p hp => Or.inl hp⟩
  | fTakeNew _ => cases h; exact ⟨by simp, _, rfl, rfl, fun c _ hs => Passed.snoc hs fun p hp => Or.inl hp⟩
  | fTakeOld _ => cases h; exact ⟨by simp, _, rfl, rfl, fun c _ hs => Passed.snoc hs fun p hp => Or.inl hp⟩
  | fPay1 _ => cases h; exact ⟨by simp, _, rfl, rfl, fun c _ hs => Passed.snoc hs fun p hp => Or.inl hp⟩
  | fPay0 _ => cases h; exact ⟨by simp, _, rfl, rfl, fun c _ hs => Passed.snoc hs fun p hp => Or.inl hp⟩
  | fCopy => cases h; exact ⟨by simp, _, rfl, rfl, fun c _ hs => ⟨Passed.snoc hs fun p hp => Or.inl hp, rfl⟩⟩
  | _ => cases h <;> cases hy

theorem calling_pend {f : Frame} (h : f.calling = true) : pendF f = false := by
  cases f with
  | fire m ev g => cases g <;> first | rfl | cases h
  | _ => rfl

theorem pass_op {lst : Tid → List Frame} {w : World} {t : Tid} {o : Op} {l' : List Frame} (h : Pass env H lst) (hm : LMove env w (lst t) o l') :
    Pass env (H ++ [.op t o (exec t o w).1]) (fset lst t l') := by
  have ht := h.tail t
  have htop := h.top t
  generalize hl : lst t = l at hm ht htop
  have hc : callable l → ∀ f ∈ l, pendF f = false := by
    intro hc f hf
    cases l with
    | nil => cases hf
    | cons g l =>
      rcases List.mem_cons.1 hf with rfl | hf
      · exact calling_pend hc
      · exact ht f hf
  cases hm with
  | @enter _ c hcl =>
    refine h.snoc rfl (fun m ev g rest he hg hd => ?_) (hc hcl)
    injection he with he _
    cases c <;> simp only [Frame.ofApi, reduceCtorEq] at he
    cases he
    exact ⟨_, Called.last, trivial⟩
  | leave _ =>
    refine h.snoc rfl (fun m ev g rest' he hg hd => ?_) (fun g hg => ht g (List.mem_of_mem_tail hg))
    have := ht (.fire m ev g) (by rw [List.tail_cons, he]; exact List.mem_cons_self)
    rw [pendF, hg] at this
    cases this
  | user hcl _ =>
    refine h.snoc rfl (fun m ev g rest' he hg hd => ?_) ht
    have := hc hcl (.fire m ev g) (by rw [he]; exact List.mem_cons_self)
    rw [pendF, hg] at this
    cases this
  | @frame f f' rest _ hm =>
    refine h.snoc rfl (fun m ev g rest' he hg hd => ?_) ht
    injection he with he _
    obtain ⟨h1, g0, rfl, h3, h4⟩ := move_pend (H := H) (t := t) hm he hg hd
    obtain ⟨c, h5, h6⟩ := htop m ev g0 rest rfl h3 hd
    refine ⟨c, h5.snoc fun o' r he => ?_, h4 c (get_lt h5.1) h6⟩
    injection he with _ he
    subst he
    exact h1

theorem Passes.snoc (h : Passes env H) (hx : ∀ t p e m, x = .op t (.setPair p e m) () → (env.strat (env.mach m).strat).dropDup = true →
    ∃ c ev, Called H t m ev c ∧ Passed env H t m ev c [] ∧ e.name = ev.name) : Passes env (H ++ [x]) := by
  intro i t p e m hi hd
  rcases snoc_get.1 hi with hi | ⟨rfl, he⟩
  · obtain ⟨c, ev, s, l, h1, h2, h3, h4, h5, h6, h7⟩ := h i t p e m hi hd
    have hlt := get_lt hi
    refine ⟨c, ev, s, l, h1, h2, get_snoc h3, fun k o r hk hki hg => ?_, get_snoc h5, h6, fun p hp => ?_⟩
    · rcases snoc_get.1 hg with hg | ⟨rfl, _⟩
      · exact h4 k o r hk hki hg
      · omega
    · obtain ⟨k, g1, g2, en, m', g3, g4⟩ := h7 p hp
      exact ⟨k, g1, g2, en, m', get_snoc g3, g4⟩
  · obtain ⟨c, ev, h1, ⟨s, l, h2, h3, h4⟩, h5⟩ := hx t p e m he.symm hd
    refine ⟨c, ev, s, l, h2, get_lt h3, get_snoc h1.1, fun k o r hk hki hg => ?_, get_snoc h3, h5, fun p hp => ?_⟩
    · rcases snoc_get.1 hg with hg | ⟨rfl, _⟩
      · exact h1.2 k o r hk hg
      · omega
    · obtain ⟨k, g1, en, m', g3, g4⟩ := (h4 p hp).resolve_left (by simp)
      exact ⟨k, g1, get_lt g3, en, m', get_snoc g3, g4⟩

theorem passes_op {lst : Tid → List Frame} {w : World} {t : Tid} {o : Op} {l' : List Frame} (h : Pass env H lst) (hp : Passes env H)
    (hm : LMove env w (lst t) o l') : Passes env (H ++ [.op t o (exec t o w).1]) := by
  refine hp.snoc fun u p e m hx hd => ?_
  injection hx with hu hx
  subst hu hx
  have htop := h.top t
  generalize lst t = l at hm htop
  cases hm with
  | user _ hu => exact hu.elim
  | @frame f f' rest _ hm =>
    cases hm with
    | fSetRaw =>
      obtain ⟨c, h1, h2⟩ := htop _ _ _ _ rfl rfl hd
      exact ⟨c, _, h1, h2, rfl⟩
    | fSetCopied =>
      obtain ⟨c, h1, h2⟩ := htop _ _ _ _ rfl rfl hd
      exact ⟨c, _, h1, h2.1, h2.2⟩
    | stPh _ _ ha => cases phAllowed_op ha
    | drPh ha => cases phAllowed_op ha

end Verif.Checks
