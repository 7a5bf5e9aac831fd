import Verif.Proofs.HB
/-
Pooled pairs are handed from thread to thread by synchronised queues: all accesses to a pair are ordered, as long as nobody
looks into queued pairs (which is what the drop-duplicate strategy does).
-/

namespace Verif
open Spec.HB

/-- `p` has been put into queue `q`, after everything done to it. -/
def InQ (H : List Did) (q : QId) (p : PairId) : Prop :=
  ∃ o t, H[o]? = some (.op t (.offer q p) ()) ∧ (∀ k v, o < k → H[k]? ≠ some (.op v (.poll q) (some p))) ∧ Upto H (.pair p) o

/-- `p` has been given to pool `s`, after everything done to it. -/
def InP (H : List Did) (s : SId) (p : PairId) : Prop :=
  ∃ o t, H[o]? = some (.op t (.poolGive s p) ()) ∧ (∀ k v, o < k → H[k]? ≠ some (.op v (.poolTake s) p)) ∧ Upto H (.pair p) o

def Did.touches (x : Did) (p : PairId) : Prop := x.reads (.pair p) ∨ x.writes (.pair p)

def isScan : Frame → Bool
  | .fire _ _ (.scan _) => true
  | _ => false

structure PairInv (H : List Did) (lst : Tid → List Frame) (w : World) : Prop where
  own : ∀ t p, p ∈ ownedL (lst t) → Sees H (.pair p) t
  que : ∀ q p, p ∈ w.queue q → InQ H q p
  pool : ∀ s p, p ∈ w.pool s → InP H s p
  fresh : ∀ p, w.nextPair ≤ p → ∀ (i : Nat) a, H[i]? = some a → ¬Did.touches a p
  rf : ∀ p, RaceFree false H (.pair p)
  scan : ∀ t, ∀ f ∈ lst t, isScan f = false

variable {env : Env} {H : List Did} {x : Did}

theorem InQ.snoc {q : QId} {p : PairId} (h : InQ H q p) (hx : ¬Did.touches x p) (hp : ∀ v, x ≠ .op v (.poll q) (some p)) :
    InQ (H ++ [x]) q p := by
  obtain ⟨o, t, h1, h2, h3⟩ := h
  refine ⟨o, t, get_snoc h1, ?_, h3.snoc hx⟩
  intro k v hk hg
  rcases snoc_get.1 hg with h | ⟨_, h⟩
  · exact h2 k v hk h
  · exact hp v h.symm

theorem InP.snoc {s : SId} {p : PairId} (h : InP H s p) (hx : ¬Did.touches x p) (hp : ∀ v, x ≠ .op v (.poolTake s) p) :
    InP (H ++ [x]) s p := by
  obtain ⟨o, t, h1, h2, h3⟩ := h
  refine ⟨o, t, get_snoc h1, ?_, h3.snoc hx⟩
  intro k v hk hg
  rcases snoc_get.1 hg with h | ⟨_, h⟩
  · exact h2 k v hk h
  · exact hp v h.symm

theorem take_untouched {t : Tid} {e : EId} {s : SId} {m : MId} {p : PairId} : ¬Did.touches (.take t e s m) p := by
  rintro (h | h) <;> exact h

theorem op_touches {t : Tid} {o : Op} {r : o.Res} {p : PairId} (h : Did.touches (.op t o r) p) :
    o = .getPair p ∨ ∃ ev m, o = .setPair p ev m := by
  cases o <;> simp [Did.touches, Did.reads, Did.writes] at h ⊢ <;> exact h.symm

/-- A step that touches no pair, moves none and queues none. -/
theorem PairInv.quiet {lst : Tid → List Frame} {w w' : World} {t : Tid} {l' : List Frame} (h : PairInv H lst w)
    (hq : w'.queue = w.queue) (hp : w'.pool = w.pool) (hn : w'.nextPair = w.nextPair)
    (ho : ∀ p ∈ ownedL l', p ∈ ownedL (lst t)) (hsc : ∀ f ∈ l', isScan f = false)
    (hx : ∀ p, ¬Did.touches x p) (hx1 : ∀ v q p, x ≠ .op v (.poll q) (some p)) (hx2 : ∀ v s p, x ≠ .op v (.poolTake s) p) :
    PairInv (H ++ [x]) (fset lst t l') w' := by
  refine ⟨?_, ?_, ?_, ?_, ?_, ?_⟩
  · intro u p hpu
    refine Sees.snoc (h.own u p ?_) (hx p)
    by_cases hu : u = t
    · subst hu; rw [fset_same] at hpu; exact ho p hpu
    · rwa [fset_ne _ _ hu] at hpu
  · intro q p hpq
    rw [hq] at hpq
    exact (h.que q p hpq).snoc (hx p) (fun v => hx1 v q p)
  · intro s p hps
    rw [hp] at hps
    exact (h.pool s p hps).snoc (hx p) (fun v => hx2 v s p)
  · intro p hnp i a hi
    rw [hn] at hnp
    rcases snoc_get.1 hi with hi | ⟨_, rfl⟩
    · exact h.fresh p hnp i a hi
    · exact hx p
  · intro p
    exact raceFree_snoc (h.rf p) (fun hxp => absurd hxp (hx p))
  · intro u f hf
    by_cases hu : u = t
    · subst hu; rw [fset_same] at hf; exact hsc f hf
    · rw [fset_ne _ _ hu] at hf; exact h.scan u f hf

/-- Nothing done, some frames forgotten. -/
theorem PairInv.same {lst : Tid → List Frame} {w w' : World} {t : Tid} {l' : List Frame} (h : PairInv H lst w)
    (hq : w'.queue = w.queue) (hp : w'.pool = w.pool) (hn : w'.nextPair = w.nextPair)
    (ho : ∀ p ∈ ownedL l', p ∈ ownedL (lst t)) (hsc : ∀ f ∈ l', isScan f = false) :
    PairInv H (fset lst t l') w' := by
  refine ⟨?_, by rw [hq]; exact h.que, by rw [hp]; exact h.pool, by rw [hn]; exact h.fresh, h.rf, ?_⟩
  · intro u p hpu
    by_cases hu : u = t
    · subst hu; rw [fset_same] at hpu; exact h.own u p (ho p hpu)
    · rw [fset_ne _ _ hu] at hpu; exact h.own u p hpu
  · intro u f hf
    by_cases hu : u = t
    · subst hu; rw [fset_same] at hf; exact hsc f hf
    · rw [fset_ne _ _ hu] at hf; exact h.scan u f hf

theorem PairInv.world {lst : Tid → List Frame} {w w' : World} (h : PairInv H lst w)
    (hq : w'.queue = w.queue) (hp : w'.pool = w.pool) (hn : w'.nextPair = w.nextPair) : PairInv H lst w' :=
  ⟨h.own, by rw [hq]; exact h.que, by rw [hp]; exact h.pool, by rw [hn]; exact h.fresh, h.rf, h.scan⟩

section
variable {lst : Tid → List Frame} {w w' : World} {loc : PairId → Loc} {t : Tid} {f f' : Frame} {rest : List Frame} {p : PairId}

/-- The owner touches its pair. -/
theorem PairInv.touch (h : PairInv H lst w) (hown : OwnAt env lst w loc) (hl : lst t = f :: rest) (hf : f.owned = [p])
    (hf' : f'.owned = [p]) (hsc : isScan f' = false) (hxt : x.tid = t) (hx : ∀ p', Did.touches x p' → p' = p)
    (hx1 : ∀ v q p, x ≠ .op v (.poll q) (some p)) (hx2 : ∀ v s p, x ≠ .op v (.poolTake s) p)
    (hq : w'.queue = w.queue) (hp : w'.pool = w.pool) (hn : w'.nextPair = w.nextPair) :
    PairInv (H ++ [x]) (fset lst t (f' :: rest)) w' := by
  obtain ⟨hloc, _, _, hlt⟩ := hown.top hl hf
  have hmine : p ∈ ownedL (lst t) := by rw [hl]; simp [hf]
  have hs : Sees H (.pair p) x.tid := by rw [hxt]; exact h.own t p hmine
  refine ⟨?_, ?_, ?_, ?_, ?_, ?_⟩
  · intro u p' hpu
    have hpu' : p' ∈ ownedL (lst u) := by
      by_cases hu : u = t
      · subst hu; rw [fset_same] at hpu; rw [hl]; simpa [hf, hf'] using hpu
      · rwa [fset_ne _ _ hu] at hpu
    by_cases hpp : p' = p
    · subst hpp
      have : u = t := by
        have := (hown.ow u p').1 hpu'
        rw [hloc] at this; cases this; rfl
      subst this
      have := hs.own
      rwa [hxt] at this
    · exact Sees.snoc (h.own u p' hpu') (fun hc => hpp (hx p' hc))
  · intro q p' hpq
    rw [hq] at hpq
    have hpp : p' ≠ p := by rintro rfl; rw [hown.q, hloc] at hpq; cases hpq
    exact (h.que q p' hpq).snoc (fun hc => hpp (hx p' hc)) (fun v => hx1 v q p')
  · intro s p' hps
    rw [hp] at hps
    have hpp : p' ≠ p := by rintro rfl; rw [hown.pl, hloc] at hps; cases hps
    exact (h.pool s p' hps).snoc (fun hc => hpp (hx p' hc)) (fun v => hx2 v s p')
  · intro p' hnp i a hi
    rw [hn] at hnp
    rcases snoc_get.1 hi with hi | ⟨_, rfl⟩
    · exact h.fresh p' hnp i a hi
    · intro hc; have := hx p' hc; subst this; exact absurd (Nat.lt_of_lt_of_le hlt hnp) (Nat.lt_irrefl _)
  · intro p'
    refine raceFree_snoc (h.rf p') (fun hxp => ?_)
    have := hx p' hxp
    subst this
    exact hs
  · intro u g hg
    by_cases hu : u = t
    · subst hu
      rw [fset_same] at hg
      rcases List.mem_cons.1 hg with rfl | hg
      · exact hsc
      · exact h.scan u g (by rw [hl]; simp [hg])
    · rw [fset_ne _ _ hu] at hg; exact h.scan u g hg

/-- A step that moves pairs, and touches none. -/
theorem PairInv.move {l' : List Frame} (h : PairInv H lst w) (hx : ∀ p', ¬Did.touches x p')
    (hsc : ∀ g ∈ l', isScan g = false) (hn : w.nextPair ≤ w'.nextPair)
    (ho : ∀ p' ∈ ownedL l', Sees (H ++ [x]) (.pair p') t)
    (hq : ∀ q, ∀ p' ∈ w'.queue q, InQ (H ++ [x]) q p') (hp : ∀ s, ∀ p' ∈ w'.pool s, InP (H ++ [x]) s p') :
    PairInv (H ++ [x]) (fset lst t l') w' := by
  refine ⟨?_, hq, hp, ?_, ?_, ?_⟩
  · intro u p' hpu
    by_cases hu : u = t
    · subst hu; rw [fset_same] at hpu; exact ho p' hpu
    · rw [fset_ne _ _ hu] at hpu; exact Sees.snoc (h.own u p' hpu) (hx p')
  · intro p' hnp i a hi
    rcases snoc_get.1 hi with hi | ⟨_, rfl⟩
    · exact h.fresh p' (Nat.le_trans hn hnp) i a hi
    · exact hx p'
  · intro p'
    exact raceFree_snoc (h.rf p') (fun hxp => absurd hxp (hx p'))
  · intro u g hg
    by_cases hu : u = t
    · subst hu; rw [fset_same] at hg; exact hsc g hg
    · rw [fset_ne _ _ hu] at hg; exact h.scan u g hg

end

theorem pairInv_move {lst : Tid → List Frame} {w : World} {loc : PairId → Loc} {t : Tid} {o : Op} {f f' : Frame} {rest : List Frame}
    (hd : ∀ m, (env.strat (env.mach m).strat).dropDup = false)
    (hown : OwnAt env lst w loc) (h : PairInv H lst w) (hl : lst t = f :: rest) (hm : Move env w f o f') :
    PairInv (H ++ [.op t o (exec t o w).1]) (fset lst t (f' :: rest)) (exec t o w).2 := by
  have hrest : ∀ g ∈ rest, isScan g = false := fun g hg => h.scan t g (by rw [hl]; simp [hg])
  have hf0 : isScan f = false := h.scan t f (by rw [hl]; simp)
  have hsc : isScan f' = false → ∀ g ∈ f' :: rest, isScan g = false := by
    intro h1 g hg
    rcases List.mem_cons.1 hg with rfl | hg
    · exact h1
    · exact hrest g hg
  have hro : ∀ p ∈ ownedL rest, p ∈ ownedL (lst t) := by intro p hp; rw [hl]; simp [hp]
  have quiet : o.quietQ = true → (∀ p, o ≠ .getPair p) → f'.owned = f.owned → isScan f' = false →
      PairInv (H ++ [.op t o (exec t o w).1]) (fset lst t (f' :: rest)) (exec t o w).2 := by
    intro hq hg ho hf
    have hw := exec_sameQ t o w hq
    refine h.quiet hw.queue hw.pool hw.next ?_ (hsc hf) ?_ ?_ ?_
    · intro p hp; rw [hl]; simpa [ho] using hp
    · intro p hp
      rcases op_touches hp with rfl | ⟨ev, m, rfl⟩
      · exact hg p rfl
      · cases hq
    · intro v q p he; injection he with _ he; subst he; cases hq
    · intro v q p he; injection he with _ he; subst he; cases hq
  have moved : (∀ p ev m, o ≠ .setPair p ev m) → (∀ p, o ≠ .getPair p) → ∀ p', ¬Did.touches (.op t o (exec t o w).1) p' := by
    intro h1 h2 p' hc
    rcases op_touches hc with h | ⟨ev, m, h⟩
    · exact h2 _ h
    · exact h1 _ _ _ h
  have give : ∀ s p, f.owned = [p] → f'.owned = [] → isScan f' = false → o = .poolGive s p →
      PairInv (H ++ [.op t o (exec t o w).1]) (fset lst t (f' :: rest)) (exec t o w).2 := by
    intro s p ho ho' hf he
    subst he
    have hmine : p ∈ ownedL (lst t) := by rw [hl]; simp [ho]
    have hx := moved (by simp) (by simp)
    have hw : (exec t (.poolGive s p) w).2.queue = w.queue ∧ (exec t (.poolGive s p) w).2.nextPair = w.nextPair ∧
        (exec t (.poolGive s p) w).2.pool = fset w.pool s (w.pool s ++ [p]) := by
      simp only [exec]; split <;> exact ⟨rfl, rfl, rfl⟩
    obtain ⟨hw1, hw2, hw3⟩ := hw
    refine h.move hx (hsc hf) (by rw [hw2]; exact Nat.le_refl _) ?_ ?_ ?_
    · intro p' hp'
      exact Sees.snoc (h.own t p' (hro p' (by simpa [ho'] using hp'))) (hx p')
    · intro q p' hp'
      rw [hw1] at hp'
      exact (h.que q p' hp').snoc (hx p') (by intro v hc; injection hc with _ hc; cases hc)
    · intro s' p' hp'
      have old : p' ∈ w.pool s' → InP (H ++ [.op t (.poolGive s p) (exec t (.poolGive s p) w).1]) s' p' := fun hp' =>
        (h.pool s' p' hp').snoc (hx p') (by intro v hc; injection hc with _ hc; cases hc)
      rw [hw3] at hp'
      by_cases hs : s' = s
      · subst hs
        rw [fset_same] at hp'
        rcases List.mem_append.1 hp' with hp' | hp'
        · exact old hp'
        · simp at hp'
          subst hp'
          refine ⟨_, t, last_snoc, ?_, Sees.upto (h.own t p' hmine) (hx p')⟩
          intro k v hk hg
          rcases snoc_get.1 hg with hg | ⟨rfl, _⟩
          · have := get_lt hg; omega
          · omega
      · rw [fset_ne _ _ hs] at hp'; exact old hp'
  have touched : ∀ p, (o = .getPair p ∨ ∃ ev m, o = .setPair p ev m) →
      (∀ p', Did.touches (.op t o (exec t o w).1) p' → p' = p) := by
    intro p ho p' hp'
    rcases op_touches hp' with h1 | ⟨ev, m, h1⟩ <;> rcases ho with h2 | ⟨ev', m', h2⟩ <;> rw [h1] at h2 <;> cases h2 <;> rfl
  cases hm with
  | fSnap h1 => rw [hd] at h1; cases h1
  | fScanEq _ _ => cases hf0
  | fScanNe _ _ => cases hf0
  | fScanNone _ => cases hf0
  | fTakeNew hp =>
    rename_i m ev
    have hx := moved (by simp) (by simp)
    have hw : (exec t (.poolTake (env.mach m).strat) w) = (w.nextPair, { w with nextPair := w.nextPair + 1 }) := by
      simp [exec, hp]
    rw [hw] at hx ⊢
    refine h.move hx (hsc rfl) (Nat.le_succ _) ?_ ?_ ?_
    · intro p' hp'
      simp only [ownedL_cons, Frame.owned, List.singleton_append, List.mem_cons] at hp'
      rcases hp' with rfl | hp'
      · intro i a hi ha
        rcases snoc_get.1 hi with hi | ⟨_, rfl⟩
        · exact absurd ha (h.fresh _ (Nat.le_refl _) i a hi)
        · exact absurd ha (hx _)
      · exact Sees.snoc (h.own t p' (hro p' hp')) (hx p')
    · intro q p' hp'
      exact (h.que q p' hp').snoc (hx p') (by intro v hc; injection hc with _ hc; cases hc)
    · intro s p' hp'
      refine (h.pool s p' hp').snoc (hx p') ?_
      intro v hc
      injection hc with _ hc hr
      injection hc with hc
      subst hc
      have := hr
      subst this
      have h1 := hown.fresh _ (Nat.le_refl _)
      rw [hown.pl] at hp'
      simp only at hp'
      rw [h1] at hp'; cases hp'
  | fTakeOld hp =>
    rename_i m ev p ps
    have hx := moved (by simp) (by simp)
    have hw : (exec t (.poolTake (env.mach m).strat) w) = (p, { w with pool := fset w.pool (env.mach m).strat ps }) := by
      simp [exec, hp]
    rw [hw] at hx ⊢
    refine h.move hx (hsc rfl) (Nat.le_refl _) ?_ ?_ ?_
    · intro p' hp'
      simp only [ownedL_cons, Frame.owned, List.singleton_append, List.mem_cons] at hp'
      rcases hp' with rfl | hp'
      · obtain ⟨o, u, h1, h2, h3⟩ := h.pool _ p' (by rw [hp]; exact List.mem_cons_self)
        refine h3.sees (.pool (get_lt h1) (get_snoc h1) last_snoc ?_) (hx _)
        intro k v hk hk' hg
        rcases snoc_get.1 hg with hg | ⟨rfl, _⟩
        · exact h2 k v hk hg
        · omega
      · exact Sees.snoc (h.own t p' (hro p' hp')) (hx p')
    · intro q p' hp'
      exact (h.que q p' hp').snoc (hx p') (by intro v hc; injection hc with _ hc; cases hc)
    · intro s p' hp'
      have hmem : p' ∈ w.pool s ∧ (s = (env.mach m).strat → p' ≠ p) := by
        by_cases hs : s = (env.mach m).strat
        · subst hs
          simp only [fset_same] at hp'
          have := hown.pn (env.mach m).strat
          rw [hp, List.nodup_cons] at this
          exact ⟨by rw [hp]; exact List.mem_cons_of_mem _ hp', fun _ hc => this.1 (hc ▸ hp')⟩
        · simp only [fset_ne _ _ hs] at hp'; exact ⟨hp', fun hc => absurd hc hs⟩
      refine (h.pool s p' hmem.1).snoc (hx p') ?_
      intro v hc
      injection hc with _ hc hr
      injection hc with hc
      subst hc
      exact hmem.2 rfl hr.symm
  | fSetRaw =>
    exact h.touch hown hl rfl rfl rfl rfl (touched _ (Or.inr ⟨_, _, rfl⟩)) (by intro v q p hc; injection hc with _ hc; cases hc)
      (by intro v q p hc; injection hc with _ hc; cases hc) rfl rfl rfl
  | fSetCopied =>
    exact h.touch hown hl rfl rfl rfl rfl (touched _ (Or.inr ⟨_, _, rfl⟩)) (by intro v q p hc; injection hc with _ hc; cases hc)
      (by intro v q p hc; injection hc with _ hc; cases hc) rfl rfl rfl
  | drRead =>
    exact h.touch hown hl rfl rfl rfl rfl (touched _ (Or.inl rfl)) (by intro v q p hc; injection hc with _ hc; cases hc)
      (by intro v q p hc; injection hc with _ hc; cases hc) rfl rfl rfl
  | fOffer =>
    rename_i m ev p e
    have hx := moved (by simp) (by simp)
    have hmine : p ∈ ownedL (lst t) := by rw [hl]; simp [Frame.owned]
    have hpr : w.pair p = some (e, m) := hown.fact t (.fire m ev (.loaded p e)) (by rw [hl]; exact List.mem_cons_self)
    have hw : (exec t (.offer (env.qm m) p) w).2.queue = fset w.queue (env.qm m) (w.queue (env.qm m) ++ [p]) ∧
        (exec t (.offer (env.qm m) p) w).2.nextPair = w.nextPair ∧ (exec t (.offer (env.qm m) p) w).2.pool = w.pool := by
      simp [exec, hpr, World.log]
    obtain ⟨hw1, hw2, hw3⟩ := hw
    refine h.move hx (hsc rfl) (by rw [hw2]; exact Nat.le_refl _) ?_ ?_ ?_
    · intro p' hp'
      exact Sees.snoc (h.own t p' (hro p' (by simpa [Frame.owned] using hp'))) (hx p')
    · intro q p' hp'
      have old : p' ∈ w.queue q → InQ (H ++ [.op t (.offer (env.qm m) p) (exec t (.offer (env.qm m) p) w).1]) q p' := fun hp' =>
        (h.que q p' hp').snoc (hx p') (by intro v hc; injection hc with _ hc; cases hc)
      rw [hw1] at hp'
      by_cases hs : q = env.qm m
      · subst hs
        rw [fset_same] at hp'
        rcases List.mem_append.1 hp' with hp' | hp'
        · exact old hp'
        · simp at hp'
          subst hp'
          refine ⟨_, t, last_snoc, ?_, Sees.upto (h.own t p' hmine) (hx p')⟩
          intro k v hk hg
          rcases snoc_get.1 hg with hg | ⟨rfl, _⟩
          · have := get_lt hg; omega
          · omega
      · rw [fset_ne _ _ hs] at hp'; exact old hp'
    · intro s p' hp'
      rw [hw3] at hp'
      exact (h.pool s p' hp').snoc (hx p') (by intro v hc; injection hc with _ hc; cases hc)
  | drPoll0 hq =>
    rename_i s cm b
    have hw : exec t (.poll (env.q s)) w = (none, w) := by simp [exec, hq]
    rw [hw]
    refine h.quiet rfl rfl rfl ?_ (hsc rfl) ?_ ?_ ?_
    · intro p hp; exact hro p (by simpa [Frame.owned] using hp)
    · intro p hp
      rcases op_touches hp with h1 | ⟨_, _, h1⟩ <;> cases h1
    · intro v q p hc; injection hc with _ hc hr; injection hc with hc; subst hc; cases hr
    · intro v q p hc; injection hc with _ hc; cases hc
  | drPollBad hq hp =>
    obtain ⟨ev, m, hpr, _⟩ := hown.full _ _ (by rw [hq]; exact List.mem_cons_self)
    rw [hp] at hpr; cases hpr
  | drPoll hq hp =>
    rename_i s cm b p ps ev m
    have hx := moved (by simp) (by simp)
    have hw : (exec t (.poll (env.q s)) w).1 = some p ∧ (exec t (.poll (env.q s)) w).2.queue = fset w.queue (env.q s) ps ∧
        (exec t (.poll (env.q s)) w).2.nextPair = w.nextPair ∧ (exec t (.poll (env.q s)) w).2.pool = w.pool := by
      simp [exec, hq, hp, World.log]
    obtain ⟨hw0, hw1, hw2, hw3⟩ := hw
    rw [hw0] at hx ⊢
    refine h.move hx (hsc rfl) (by rw [hw2]; exact Nat.le_refl _) ?_ ?_ ?_
    · intro p' hp'
      simp only [ownedL_cons, Frame.owned, List.singleton_append, List.mem_cons] at hp'
      rcases hp' with rfl | hp'
      · obtain ⟨o, u, h1, h2, h3⟩ := h.que _ p' (by rw [hq]; exact List.mem_cons_self)
        refine h3.sees (.queue (get_lt h1) (get_snoc h1) (Or.inl last_snoc) ?_) (hx _)
        intro k v hk hk' hg
        rcases snoc_get.1 hg with hg | ⟨rfl, _⟩
        · exact h2 k v hk hg
        · omega
      · exact Sees.snoc (h.own t p' (hro p' hp')) (hx p')
    · intro q p' hp'
      rw [hw1] at hp'
      have hmem : p' ∈ w.queue q ∧ (q = env.q s → p' ≠ p) := by
        by_cases hs : q = env.q s
        · subst hs
          simp only [fset_same] at hp'
          have := hown.qn (env.q s)
          rw [hq, List.nodup_cons] at this
          exact ⟨by rw [hq]; exact List.mem_cons_of_mem _ hp', fun _ hc => this.1 (hc ▸ hp')⟩
        · simp only [fset_ne _ _ hs] at hp'; exact ⟨hp', fun hc => absurd hc hs⟩
      refine (h.que q p' hmem.1).snoc (hx p') ?_
      intro v hc
      injection hc with _ hc hr
      injection hc with hc
      subst hc
      have := hr
      injection this with this
      exact hmem.2 rfl this.symm
    · intro s' p' hp'
      rw [hw3] at hp'
      exact (h.pool s' p' hp').snoc (hx p') (by intro v hc; injection hc with _ hc; cases hc)
  | drGive _ => exact give _ _ rfl rfl rfl rfl
  | drGiveErr _ => exact give _ _ rfl rfl rfl rfl
  | drOver => exact give _ _ rfl rfl rfl rfl
  | drOverErr => exact give _ _ rfl rfl rfl rfl
  | fSize hf _ => rcases hf with ⟨rfl, _⟩ | rfl <;> first | exact quiet rfl (by simp) rfl rfl | cases hf0
  | fSizeFull hf _ => rcases hf with ⟨rfl, _⟩ | rfl <;> first | exact quiet rfl (by simp) rfl rfl | cases hf0
  | stCas1 hf _ _ => cases hf <;> exact quiet rfl (by simp) rfl rfl
  | stCas0 hf _ _ => cases hf <;> exact quiet rfl (by simp) rfl rfl
  | stSet hf => rcases hf.inv with ⟨rfl, _, _⟩ | ⟨rfl, _⟩ <;> exact quiet rfl (by simp) rfl rfl
  | stClear hf _ => cases hf <;> exact quiet rfl (by simp) rfl rfl
  | stPh hf _ ha =>
    have hq := phAllowed_op ha
    cases hf <;> exact quiet (quiet_of_phOp hq) (by rintro p rfl; cases hq) rfl rfl
  | drPh ha =>
    have hq := phAllowed_op ha
    exact quiet (quiet_of_phOp hq) (by rintro p rfl; cases hq) rfl rfl
  | drQuit hd _ => rcases hd with rfl | rfl <;> exact quiet rfl (by simp) rfl rfl
  | _ => exact quiet rfl (by simp) rfl rfl

theorem ofApi_owned (c : Api) : (Frame.ofApi c).owned = [] ∧ isScan (.ofApi c) = false := by cases c <;> exact ⟨rfl, rfl⟩

theorem pair_hinv (env : Env) (hd : ∀ m, (env.strat (env.mach m).strat).dropDup = false) : HInv env (Own env) PairInv where
  op := by
    rintro H lst w t o l' ⟨loc, hown⟩ h hm _
    have quietOp : o.quietQ = true → (∀ p, o ≠ .getPair p) → (∀ p ∈ ownedL l', p ∈ ownedL (lst t)) → (∀ f ∈ l', isScan f = false) →
        PairInv (H ++ [.op t o (exec t o w).1]) (fset lst t l') (exec t o w).2 := by
      intro hq hg ho hf
      have hw := exec_sameQ t o w hq
      refine h.quiet hw.queue hw.pool hw.next ho hf ?_ ?_ ?_
      · intro p hp
        rcases op_touches hp with rfl | ⟨ev, m, rfl⟩
        · exact hg p rfl
        · cases hq
      · intro v q p he; injection he with _ he; subst he; cases hq
      · intro v q p he; injection he with _ he; subst he; cases hq
    have hsc := h.scan t
    generalize hl : lst t = l at hm hsc quietOp
    cases hm with
    | @enter _ c _ =>
      refine quietOp rfl (by simp) ?_ ?_
      · intro p hp; simpa [(ofApi_owned c).1] using hp
      · intro f hf
        rcases List.mem_cons.1 hf with rfl | hf
        · exact (ofApi_owned c).2
        · exact hsc f hf
    | leave _ => exact quietOp rfl (by simp) (fun p hp => by simp [hp]) (fun f hf => hsc f (List.mem_cons_of_mem _ hf))
    | user _ hu => exact quietOp (quiet_of_user hu) (by rintro p rfl; exact hu) (fun _ hp => hp) hsc
    | frame hm => exact pairInv_move hd hown h hl hm
  ret := by
    intro H lst w t _ h _
    exact h.same rfl rfl rfl (by simp) (by simp)
  thr := by
    intro H lst w t x _ h _
    exact h.same rfl rfl rfl (by simp) (by simp)
  dispatch := by
    intro H lst w e i j s m _ h _ _ _
    refine h.quiet rfl rfl rfl ?_ ?_ (fun _ => take_untouched) (by simp) (by simp)
    · simp [task, Frame.owned]
    · simp [task, isScan]
  interrupt := fun H lst w t _ h => h.world rfl rfl rfl
  shutdown := fun H lst w t _ h => h.world rfl rfl rfl
  dropTasks := fun H lst w t _ h => h.world rfl rfl rfl

theorem pair_initial (c : Conf) (h : Initial c) : PairInv [] (fun _ => []) c.w := by
  refine ⟨?_, ?_, ?_, ?_, ?_, ?_⟩
  · intro t p hp; cases hp
  · intro q p hp; rw [h.queue] at hp; cases hp
  · intro q p hp; rw [h.pool] at hp; cases hp
  · intro p _ i a hi; cases hi
  · intro p i j a b _ hi; cases hi
  · intro t f hf; cases hf

end Verif
