import Verif.Proofs.HBPairs
/-
Writes to pooled pairs are ordered, whatever the strategy: only the thread that has taken a pair from the pool writes to it. With the drop-duplicate strategy queued
pairs are read by other threads; such reads come after at least one write.
-/

namespace Verif
open Spec.HB

/-- Every write to pair `p` comes before what `t` does next. -/
def SeesW (H : List Did) (p : PairId) (t : Tid) : Prop := ∀ (i : Nat) a, H[i]? = some a → Did.writes a (.pair p) → Past false H i t

/-- Every write to pair `p` comes before action `o`. -/
def UptoW (H : List Did) (p : PairId) (o : Nat) : Prop := ∀ (i : Nat) a, H[i]? = some a → Did.writes a (.pair p) → HB false H i o

/-- Some write to pair `p` comes before what `t` does next. -/
def Wrote (H : List Did) (p : PairId) (t : Tid) : Prop := ∃ (k : Nat) (a : Did), H[k]? = some a ∧ Did.writes a (.pair p) ∧ Past false H k t

/-- All writes to pair `p` are ordered. -/
def Ordered (H : List Did) (p : PairId) : Prop :=
  ∀ (i j : Nat) a b, i < j → H[i]? = some a → H[j]? = some b → Did.writes a (.pair p) → Did.writes b (.pair p) → HB false H i j

/-- `p` has been put into queue `q`, after all writes, and after at least one. -/
def InQW (H : List Did) (q : QId) (p : PairId) : Prop :=
  ∃ o t, H[o]? = some (.op t (.offer q p) ()) ∧ (∀ k v, o < k → H[k]? ≠ some (.op v (.poll q) (some p))) ∧ UptoW H p o ∧
    ∃ (k : Nat) (a : Did), H[k]? = some a ∧ Did.writes a (.pair p)

/-- `p` has been given to pool `s`, after all writes. -/
def InPW (H : List Did) (s : SId) (p : PairId) : Prop :=
  ∃ o t, H[o]? = some (.op t (.poolGive s p) ()) ∧ (∀ k v, o < k → H[k]? ≠ some (.op v (.poolTake s) p)) ∧ UptoW H p o

/-- Thread `t` has seen pair `p` in the queue of the strategy of machine `m`. -/
def Looked (env : Env) (H : List Did) (t : Tid) (m : MId) (p : PairId) : Prop := ∃ (s : Nat) (l : List PairId), H[s]? = some (.op t (.qSnap (env.qm m)) l) ∧ p ∈ l

/-- What a frame says about the history. -/
def Marks (env : Env) (H : List Did) (t : Tid) : Frame → Prop
  | .fire _ _ (.loaded p _) => Wrote H p t
  | .fire m _ (.scan ps) => ∀ p ∈ ps, Wrote H p t ∧ Looked env H t m p
  | .fire m ev .dup => ∃ (k : Nat) (p : PairId) (en : Ev) (m' : MId), H[k]? = some (.op t (.getPair p) (some (en, m'))) ∧ en.eqv ev = true ∧
      ∃ s < k, ∃ l, H[s]? = some (.op t (.qSnap (env.qm m)) l) ∧ p ∈ l
  | _ => True

structure PairW (env : Env) (H : List Did) (lst : Tid → List Frame) (w : World) : Prop where
  own : ∀ t p, p ∈ ownedL (lst t) → SeesW H p t
  que : ∀ q p, p ∈ w.queue q → InQW H q p
  pool : ∀ s p, p ∈ w.pool s → InPW H s p
  fresh : ∀ p, w.nextPair ≤ p → ∀ (i : Nat) a, H[i]? = some a → ¬Did.writes a (.pair p)
  ww : ∀ p, Ordered H p
  mark : ∀ t, ∀ f ∈ lst t, Marks env H t f

variable {env : Env} {H : List Did} {x : Did}

theorem Wrote.snoc {p : PairId} {t : Tid} (h : Wrote H p t) : Wrote (H ++ [x]) p t := by
  obtain ⟨k, a, h1, h2, h3⟩ := h
  exact ⟨k, a, get_snoc h1, h2, h3.snoc⟩

theorem Looked.snoc {t : Tid} {m : MId} {p : PairId} (h : Looked env H t m p) : Looked env (H ++ [x]) t m p := by
  obtain ⟨s, l, h1, h2⟩ := h
  exact ⟨s, l, get_snoc h1, h2⟩

theorem Marks.snoc {t : Tid} {f : Frame} (h : Marks env H t f) : Marks env (H ++ [x]) t f := by
  cases f with
  | fire m ev g =>
    cases g with
    | loaded p e => exact Wrote.snoc h
    | scan ps => exact fun p hp => ⟨(h p hp).1.snoc, (h p hp).2.snoc⟩
    | dup => obtain ⟨k, p, en, m', h1, h2, s, hs, l, h3⟩ := h; exact ⟨k, p, en, m', get_snoc h1, h2, s, hs, l, get_snoc h3.1, h3.2⟩
    | _ => trivial
  | _ => trivial

theorem SeesW.snoc {p : PairId} {t : Tid} (h : SeesW H p t) (hx : ¬Did.writes x (.pair p)) : SeesW (H ++ [x]) p t := by
  intro i a hi ha
  rcases snoc_get.1 hi with h' | ⟨_, rfl⟩
  · exact Past.snoc (h i a h' ha)
  · exact absurd ha hx

theorem SeesW.own {p : PairId} (h : SeesW H p x.tid) : SeesW (H ++ [x]) p x.tid := by
  intro i a hi ha
  rcases snoc_get.1 hi with h' | ⟨rfl, rfl⟩
  · exact Past.snoc (h i a h' ha)
  · exact Past.self

theorem UptoW.snoc {p : PairId} {o : Nat} (h : UptoW H p o) (hx : ¬Did.writes x (.pair p)) : UptoW (H ++ [x]) p o := by
  intro i a hi ha
  rcases snoc_get.1 hi with h' | ⟨_, rfl⟩
  · exact HB.snoc (h i a h' ha)
  · exact absurd ha hx

theorem SeesW.upto {p : PairId} (h : SeesW H p x.tid) (hx : ¬Did.writes x (.pair p)) : UptoW (H ++ [x]) p H.length := by
  intro i a hi ha
  rcases snoc_get.1 hi with h' | ⟨_, rfl⟩
  · exact Past.hb (h i a h' ha)
  · exact absurd ha hx

theorem UptoW.sees {p : PairId} {o : Nat} (h : UptoW H p o) (hs : Sync false (H ++ [x]) o H.length) (hx : ¬Did.writes x (.pair p)) :
    SeesW (H ++ [x]) p x.tid := by
  intro i a hi ha
  rcases snoc_get.1 hi with h' | ⟨_, rfl⟩
  · exact Past.of_hb (.trans (HB.snoc (h i a h' ha)) (.sync hs))
  · exact absurd ha hx

theorem ww_snoc {p : PairId} (h : Ordered H p) (hx : Did.writes x (.pair p) → SeesW H p x.tid) : Ordered (H ++ [x]) p := by
  intro i j a b hij hi hj ha hb
  rcases snoc_get.1 hi with hi' | ⟨rfl, rfl⟩
  · rcases snoc_get.1 hj with hj' | ⟨rfl, rfl⟩
    · exact HB.snoc (h i j a b hij hi' hj' ha hb)
    · exact Past.hb (hx hb i a hi' ha)
  · have := get_lt hj
    simp at this
    omega

theorem InQW.snoc {q : QId} {p : PairId} (h : InQW H q p) (hx : ¬Did.writes x (.pair p)) (hp : ∀ v, x ≠ .op v (.poll q) (some p)) :
    InQW (H ++ [x]) q p := by
  obtain ⟨o, t, h1, h2, h3, k, a, h4, h5⟩ := h
  refine ⟨o, t, get_snoc h1, ?_, h3.snoc hx, k, a, get_snoc h4, h5⟩
  intro k v hk hg
  rcases snoc_get.1 hg with h | ⟨_, h⟩
  · exact h2 k v hk h
  · exact hp v h.symm

theorem InPW.snoc {s : SId} {p : PairId} (h : InPW H s p) (hx : ¬Did.writes x (.pair p)) (hp : ∀ v, x ≠ .op v (.poolTake s) p) :
    InPW (H ++ [x]) s p := by
  obtain ⟨o, t, h1, h2, h3⟩ := h
  refine ⟨o, t, get_snoc h1, ?_, h3.snoc hx⟩
  intro k v hk hg
  rcases snoc_get.1 hg with h | ⟨_, h⟩
  · exact h2 k v hk h
  · exact hp v h.symm

theorem take_wr {t : Tid} {e : EId} {s : SId} {m : MId} {p : PairId} : ¬Did.writes (.take t e s m) (.pair p) := id

theorem op_wr {t : Tid} {o : Op} {r : o.Res} {p : PairId} (h : Did.writes (.op t o r) (.pair p)) : ∃ ev m, o = .setPair p ev m := by
  cases o <;> simp [Did.writes] at h ⊢ <;> exact h.symm

/-- A step that touches no pair, moves none and queues none. -/
theorem PairW.quiet {lst : Tid → List Frame} {w w' : World} {t : Tid} {l' : List Frame} (h : PairW env H lst w)
    (hq : w'.queue = w.queue) (hp : w'.pool = w.pool) (hn : w'.nextPair = w.nextPair)
    (ho : ∀ p ∈ ownedL l', p ∈ ownedL (lst t)) (hsc : ∀ f ∈ l', Marks env (H ++ [x]) t f)
    (hx : ∀ p, ¬Did.writes x (.pair p)) (hx1 : ∀ v q p, x ≠ .op v (.poll q) (some p)) (hx2 : ∀ v s p, x ≠ .op v (.poolTake s) p) :
    PairW env (H ++ [x]) (fset lst t l') w' := by
  refine ⟨?_, ?_, ?_, ?_, ?_, ?_⟩
  · intro u p hpu
    refine SeesW.snoc (h.own u p ?_) (hx p)
    by_cases hu : u = t
    · subst hu; rw [fset_same] at hpu; exact ho p hpu
    · rwa [fset_ne _ _ hu] at hpu
  · intro q p hpq
    rw [hq] at hpq
    exact (h.que q p hpq).snoc (hx p) (fun v => hx1 v q p)
  · intro s p hps
    rw [hp] at hps
    exact (h.pool s p hps).snoc (hx p) (fun v => hx2 v s p)
  · intro p hnp i a hi
    rw [hn] at hnp
    rcases snoc_get.1 hi with hi | ⟨_, rfl⟩
    · exact h.fresh p hnp i a hi
    · exact hx p
  · intro p
    exact ww_snoc (h.ww p) (fun hxp => absurd hxp (hx p))
  · intro u f hf
    by_cases hu : u = t
    · subst hu; rw [fset_same] at hf; exact hsc f hf
    · rw [fset_ne _ _ hu] at hf; exact (h.mark u f hf).snoc

/-- Nothing done, some frames forgotten. -/
theorem PairW.same {lst : Tid → List Frame} {w w' : World} {t : Tid} {l' : List Frame} (h : PairW env H lst w)
    (hq : w'.queue = w.queue) (hp : w'.pool = w.pool) (hn : w'.nextPair = w.nextPair)
    (ho : ∀ p ∈ ownedL l', p ∈ ownedL (lst t)) (hsc : ∀ f ∈ l', Marks env H t f) :
    PairW env H (fset lst t l') w' := by
  refine ⟨?_, by rw [hq]; exact h.que, by rw [hp]; exact h.pool, by rw [hn]; exact h.fresh, h.ww, ?_⟩
  · intro u p hpu
    by_cases hu : u = t
    · subst hu; rw [fset_same] at hpu; exact h.own u p (ho p hpu)
    · rw [fset_ne _ _ hu] at hpu; exact h.own u p hpu
  · intro u f hf
    by_cases hu : u = t
    · subst hu; rw [fset_same] at hf; exact hsc f hf
    · rw [fset_ne _ _ hu] at hf; exact h.mark u f hf

theorem PairW.world {lst : Tid → List Frame} {w w' : World} (h : PairW env H lst w)
    (hq : w'.queue = w.queue) (hp : w'.pool = w.pool) (hn : w'.nextPair = w.nextPair) : PairW env H lst w' :=
  ⟨h.own, by rw [hq]; exact h.que, by rw [hp]; exact h.pool, by rw [hn]; exact h.fresh, h.ww, h.mark⟩

section
variable {lst : Tid → List Frame} {w w' : World} {loc : PairId → Loc} {t : Tid} {f f' : Frame} {rest : List Frame} {p : PairId}

/-- The owner touches its pair. -/
theorem PairW.touch (h : PairW env H lst w) (hown : OwnAt env lst w loc) (hl : lst t = f :: rest) (hf : f.owned = [p])
    (hf' : f'.owned = [p]) (hsc : Marks env (H ++ [x]) t f') (hxt : x.tid = t) (hx : ∀ p', Did.writes x (.pair p') → p' = p)
    (hx1 : ∀ v q p, x ≠ .op v (.poll q) (some p)) (hx2 : ∀ v s p, x ≠ .op v (.poolTake s) p)
    (hq : w'.queue = w.queue) (hp : w'.pool = w.pool) (hn : w'.nextPair = w.nextPair) :
    PairW env (H ++ [x]) (fset lst t (f' :: rest)) w' := by
  obtain ⟨hloc, _, _, hlt⟩ := hown.top hl hf
  have hmine : p ∈ ownedL (lst t) := by rw [hl]; simp [hf]
  have hs : SeesW H p x.tid := by rw [hxt]; exact h.own t p hmine
  refine ⟨?_, ?_, ?_, ?_, ?_, ?_⟩
  · intro u p' hpu
    have hpu' : p' ∈ ownedL (lst u) := by
      by_cases hu : u = t
      · subst hu; rw [fset_same] at hpu; rw [hl]; simpa [hf, hf'] using hpu
      · rwa [fset_ne _ _ hu] at hpu
    by_cases hpp : p' = p
    · subst hpp
      have : u = t := by
        have := (hown.ow u p').1 hpu'
        rw [hloc] at this; cases this; rfl
      subst this
      have := hs.own
      rwa [hxt] at this
    · exact SeesW.snoc (h.own u p' hpu') (fun hc => hpp (hx p' hc))
  · intro q p' hpq
    rw [hq] at hpq
    have hpp : p' ≠ p := by rintro rfl; rw [hown.q, hloc] at hpq; cases hpq
    exact (h.que q p' hpq).snoc (fun hc => hpp (hx p' hc)) (fun v => hx1 v q p')
  · intro s p' hps
    rw [hp] at hps
    have hpp : p' ≠ p := by rintro rfl; rw [hown.pl, hloc] at hps; cases hps
    exact (h.pool s p' hps).snoc (fun hc => hpp (hx p' hc)) (fun v => hx2 v s p')
  · intro p' hnp i a hi
    rw [hn] at hnp
    rcases snoc_get.1 hi with hi | ⟨_, rfl⟩
    · exact h.fresh p' hnp i a hi
    · intro hc; have := hx p' hc; subst this; exact absurd (Nat.lt_of_lt_of_le hlt hnp) (Nat.lt_irrefl _)
  · intro p'
    refine ww_snoc (h.ww p') (fun hxp => ?_)
    have := hx p' hxp
    subst this
    exact hs
  · intro u g hg
    by_cases hu : u = t
    · subst hu
      rw [fset_same] at hg
      rcases List.mem_cons.1 hg with rfl | hg
      · exact hsc
      · exact (h.mark u g (by rw [hl]; simp [hg])).snoc
    · rw [fset_ne _ _ hu] at hg; exact (h.mark u g hg).snoc

/-- A step that moves pairs, and touches none. -/
theorem PairW.move {l' : List Frame} (h : PairW env H lst w) (hx : ∀ p', ¬Did.writes x (.pair p'))
    (hsc : ∀ g ∈ l', Marks env (H ++ [x]) t g) (hn : w.nextPair ≤ w'.nextPair)
    (ho : ∀ p' ∈ ownedL l', SeesW (H ++ [x]) p' t)
    (hq : ∀ q, ∀ p' ∈ w'.queue q, InQW (H ++ [x]) q p') (hp : ∀ s, ∀ p' ∈ w'.pool s, InPW (H ++ [x]) s p') :
    PairW env (H ++ [x]) (fset lst t l') w' := by
  refine ⟨?_, hq, hp, ?_, ?_, ?_⟩
  · intro u p' hpu
    by_cases hu : u = t
    · subst hu; rw [fset_same] at hpu; exact ho p' hpu
    · rw [fset_ne _ _ hu] at hpu; exact SeesW.snoc (h.own u p' hpu) (hx p')
  · intro p' hnp i a hi
    rcases snoc_get.1 hi with hi | ⟨_, rfl⟩
    · exact h.fresh p' (Nat.le_trans hn hnp) i a hi
    · exact hx p'
  · intro p'
    exact ww_snoc (h.ww p') (fun hxp => absurd hxp (hx p'))
  · intro u g hg
    by_cases hu : u = t
    · subst hu; rw [fset_same] at hg; exact hsc g hg
    · rw [fset_ne _ _ hu] at hg; exact (h.mark u g hg).snoc

end

theorem pairW_move {lst : Tid → List Frame} {w : World} {loc : PairId → Loc} {t : Tid} {o : Op} {f f' : Frame} {rest : List Frame}
    (hown : OwnAt env lst w loc) (h : PairW env H lst w) (hl : lst t = f :: rest) (hm : Move env w f o f') :
    PairW env (H ++ [.op t o (exec t o w).1]) (fset lst t (f' :: rest)) (exec t o w).2 := by
  have hrest : ∀ {x}, ∀ g ∈ rest, Marks env (H ++ [x]) t g := fun g hg => (h.mark t g (by rw [hl]; simp [hg])).snoc
  have hf0 : Marks env H t f := h.mark t f (by rw [hl]; simp)
  have hsc : ∀ {x}, Marks env (H ++ [x]) t f' → ∀ g ∈ f' :: rest, Marks env (H ++ [x]) t g := by
    intro x h1 g hg
    rcases List.mem_cons.1 hg with rfl | hg
    · exact h1
    · exact hrest g hg
  have hro : ∀ p ∈ ownedL rest, p ∈ ownedL (lst t) := by intro p hp; rw [hl]; simp [hp]
  have quiet : o.quietQ = true → f'.owned = f.owned → Marks env (H ++ [.op t o (exec t o w).1]) t f' →
      PairW env (H ++ [.op t o (exec t o w).1]) (fset lst t (f' :: rest)) (exec t o w).2 := by
    intro hq ho hf
    have hw := exec_sameQ t o w hq
    refine h.quiet hw.queue hw.pool hw.next ?_ (hsc hf) ?_ ?_ ?_
    · intro p hp; rw [hl]; simpa [ho] using hp
    · intro p hp
      obtain ⟨ev, m, rfl⟩ := op_wr hp
      cases hq
    · intro v q p he; injection he with _ he; subst he; cases hq
    · intro v q p he; injection he with _ he; subst he; cases hq
  have moved : (∀ p ev m, o ≠ .setPair p ev m) → ∀ p', ¬Did.writes (.op t o (exec t o w).1) (.pair p') := by
    intro h1 p' hc
    obtain ⟨ev, m, h⟩ := op_wr hc
    exact h1 _ _ _ h
  have give : ∀ s p, f.owned = [p] → f'.owned = [] → (∀ x, Marks env (H ++ [x]) t f') → o = .poolGive s p →
      PairW env (H ++ [.op t o (exec t o w).1]) (fset lst t (f' :: rest)) (exec t o w).2 := by
    intro s p ho ho' hf he
    subst he
    have hmine : p ∈ ownedL (lst t) := by rw [hl]; simp [ho]
    have hx := moved (by simp)
    have hw : (exec t (.poolGive s p) w).2.queue = w.queue ∧ (exec t (.poolGive s p) w).2.nextPair = w.nextPair ∧
        (exec t (.poolGive s p) w).2.pool = fset w.pool s (w.pool s ++ [p]) := by
      simp only [exec]; split <;> exact ⟨rfl, rfl, rfl⟩
    obtain ⟨hw1, hw2, hw3⟩ := hw
    refine h.move hx (hsc (hf _)) (by rw [hw2]; exact Nat.le_refl _) ?_ ?_ ?_
    · intro p' hp'
      exact SeesW.snoc (h.own t p' (hro p' (by simpa [ho'] using hp'))) (hx p')
    · intro q p' hp'
      rw [hw1] at hp'
      exact (h.que q p' hp').snoc (hx p') (by intro v hc; injection hc with _ hc; cases hc)
    · intro s' p' hp'
      have old : p' ∈ w.pool s' → InPW (H ++ [.op t (.poolGive s p) (exec t (.poolGive s p) w).1]) s' p' := fun hp' =>
        (h.pool s' p' hp').snoc (hx p') (by intro v hc; injection hc with _ hc; cases hc)
      rw [hw3] at hp'
      by_cases hs : s' = s
      · subst hs
        rw [fset_same] at hp'
        rcases List.mem_append.1 hp' with hp' | hp'
        · exact old hp'
        · simp at hp'
          subst hp'
          refine ⟨_, t, last_snoc, ?_, SeesW.upto (h.own t p' hmine) (hx p')⟩
          intro k v hk hg
          rcases snoc_get.1 hg with hg | ⟨rfl, _⟩
          · have := get_lt hg; omega
          · omega
      · rw [fset_ne _ _ hs] at hp'; exact old hp'
  have touched : ∀ p, (∃ ev m, o = .setPair p ev m) →
      (∀ p', Did.writes (.op t o (exec t o w).1) (.pair p') → p' = p) := by
    intro p ho p' hp'
    obtain ⟨ev, m, h1⟩ := op_wr hp'
    obtain ⟨ev', m', h2⟩ := ho
    rw [h1] at h2
    cases h2
    rfl
  cases hm with
  | @fSnap m ev h1 =>
    refine quiet rfl rfl ?_
    intro p hp
    obtain ⟨o, u, g1, g2, g3, k, a, g4, g5⟩ := h.que _ p hp
    refine ⟨⟨k, a, get_snoc g4, g5, Past.of_hb (.trans (HB.snoc (g3 k a g4 g5)) (.sync (.queue (get_lt g1) (get_snoc g1) (Or.inr ⟨_, last_snoc, hp⟩) ?_)))⟩,
      _, _, last_snoc, hp⟩
    intro k v hk hk' hg
    rcases snoc_get.1 hg with hg | ⟨rfl, _⟩
    · exact g2 k v hk hg
    · omega
  | @fScanEq m ev p ps en m' h1 h2 =>
    refine quiet rfl rfl ?_
    obtain ⟨s, l, h3, h4⟩ := (hf0 p List.mem_cons_self).2
    refine ⟨_, p, en, m', last_snoc.trans ?_, h2, s, get_lt h3, l, get_snoc h3, h4⟩
    simp [exec, h1]
  | fScanNe _ _ => exact quiet rfl rfl (fun p hp => (hf0 p (List.mem_cons_of_mem _ hp)).imp Wrote.snoc Looked.snoc)
  | fScanNone _ => exact quiet rfl rfl trivial
  | fTakeNew hp =>
    rename_i m ev
    have hx := moved (by simp)
    have hw : (exec t (.poolTake (env.mach m).strat) w) = (w.nextPair, { w with nextPair := w.nextPair + 1 }) := by
      simp [exec, hp]
    rw [hw] at hx ⊢
    refine h.move hx (hsc trivial) (Nat.le_succ _) ?_ ?_ ?_
    · intro p' hp'
      simp only [ownedL_cons, Frame.owned, List.singleton_append, List.mem_cons] at hp'
      rcases hp' with rfl | hp'
      · intro i a hi ha
        rcases snoc_get.1 hi with hi | ⟨_, rfl⟩
        · exact absurd ha (h.fresh _ (Nat.le_refl _) i a hi)
        · exact absurd ha (hx _)
      · exact SeesW.snoc (h.own t p' (hro p' hp')) (hx p')
    · intro q p' hp'
      exact (h.que q p' hp').snoc (hx p') (by intro v hc; injection hc with _ hc; cases hc)
    · intro s p' hp'
      refine (h.pool s p' hp').snoc (hx p') ?_
      intro v hc
      injection hc with _ hc hr
      injection hc with hc
      subst hc
      have := hr
      subst this
      have h1 := hown.fresh _ (Nat.le_refl _)
      rw [hown.pl] at hp'
      simp only at hp'
      rw [h1] at hp'; cases hp'
  | fTakeOld hp =>
    rename_i m ev p ps
    have hx := moved (by simp)
    have hw : (exec t (.poolTake (env.mach m).strat) w) = (p, { w with pool := fset w.pool (env.mach m).strat ps }) := by
      simp [exec, hp]
    rw [hw] at hx ⊢
    refine h.move hx (hsc trivial) (Nat.le_refl _) ?_ ?_ ?_
    · intro p' hp'
      simp only [ownedL_cons, Frame.owned, List.singleton_append, List.mem_cons] at hp'
      rcases hp' with rfl | hp'
      · obtain ⟨o, u, h1, h2, h3⟩ := h.pool _ p' (by rw [hp]; exact List.mem_cons_self)
        refine h3.sees (.pool (get_lt h1) (get_snoc h1) last_snoc ?_) (hx _)
        intro k v hk hk' hg
        rcases snoc_get.1 hg with hg | ⟨rfl, _⟩
        · exact h2 k v hk hg
        · omega
      · exact SeesW.snoc (h.own t p' (hro p' hp')) (hx p')
    · intro q p' hp'
      exact (h.que q p' hp').snoc (hx p') (by intro v hc; injection hc with _ hc; cases hc)
    · intro s p' hp'
      have hmem : p' ∈ w.pool s ∧ (s = (env.mach m).strat → p' ≠ p) := by
        by_cases hs : s = (env.mach m).strat
        · subst hs
          simp only [fset_same] at hp'
          have := hown.pn (env.mach m).strat
          rw [hp, List.nodup_cons] at this
          exact ⟨by rw [hp]; exact List.mem_cons_of_mem _ hp', fun _ hc => this.1 (hc ▸ hp')⟩
        · simp only [fset_ne _ _ hs] at hp'; exact ⟨hp', fun hc => absurd hc hs⟩
      refine (h.pool s p' hmem.1).snoc (hx p') ?_
      intro v hc
      injection hc with _ hc hr
      injection hc with hc
      subst hc
      exact hmem.2 rfl hr.symm
  | fSetRaw =>
    exact h.touch hown hl rfl rfl ⟨_, _, last_snoc, rfl, Past.self⟩ rfl (touched _ ⟨_, _, rfl⟩) (by intro v q p hc; injection hc with _ hc; cases hc)
      (by intro v q p hc; injection hc with _ hc; cases hc) rfl rfl rfl
  | fSetCopied =>
    exact h.touch hown hl rfl rfl ⟨_, _, last_snoc, rfl, Past.self⟩ rfl (touched _ ⟨_, _, rfl⟩) (by intro v q p hc; injection hc with _ hc; cases hc)
      (by intro v q p hc; injection hc with _ hc; cases hc) rfl rfl rfl
  | fOffer =>
    rename_i m ev p e
    have hx := moved (by simp)
    have hmine : p ∈ ownedL (lst t) := by rw [hl]; simp [Frame.owned]
    have hpr : w.pair p = some (e, m) := hown.fact t (.fire m ev (.loaded p e)) (by rw [hl]; exact List.mem_cons_self)
    have hw : (exec t (.offer (env.qm m) p) w).2.queue = fset w.queue (env.qm m) (w.queue (env.qm m) ++ [p]) ∧
        (exec t (.offer (env.qm m) p) w).2.nextPair = w.nextPair ∧ (exec t (.offer (env.qm m) p) w).2.pool = w.pool := by
      simp [exec, hpr, World.log]
    obtain ⟨hw1, hw2, hw3⟩ := hw
    refine h.move hx (hsc trivial) (by rw [hw2]; exact Nat.le_refl _) ?_ ?_ ?_
    · intro p' hp'
      exact SeesW.snoc (h.own t p' (hro p' (by simpa [Frame.owned] using hp'))) (hx p')
    · intro q p' hp'
      have old : p' ∈ w.queue q → InQW (H ++ [.op t (.offer (env.qm m) p) (exec t (.offer (env.qm m) p) w).1]) q p' := fun hp' =>
        (h.que q p' hp').snoc (hx p') (by intro v hc; injection hc with _ hc; cases hc)
      rw [hw1] at hp'
      by_cases hs : q = env.qm m
      · subst hs
        rw [fset_same] at hp'
        rcases List.mem_append.1 hp' with hp' | hp'
        · exact old hp'
        · simp at hp'
          subst hp'
          obtain ⟨k0, a0, h5, h6, _⟩ : Wrote H p' t := hf0
          refine ⟨_, t, last_snoc, ?_, SeesW.upto (h.own t p' hmine) (hx p'), k0, a0, get_snoc h5, h6⟩
          intro k v hk hg
          rcases snoc_get.1 hg with hg | ⟨rfl, _⟩
          · have := get_lt hg; omega
          · omega
      · rw [fset_ne _ _ hs] at hp'; exact old hp'
    · intro s p' hp'
      rw [hw3] at hp'
      exact (h.pool s p' hp').snoc (hx p') (by intro v hc; injection hc with _ hc; cases hc)
  | drPoll0 hq =>
    rename_i s cm b
    have hw : exec t (.poll (env.q s)) w = (none, w) := by simp [exec, hq]
    rw [hw]
    refine h.quiet rfl rfl rfl ?_ (hsc trivial) ?_ ?_ ?_
    · intro p hp; exact hro p (by simpa [Frame.owned] using hp)
    · intro p hp
      obtain ⟨_, _, h1⟩ := op_wr hp
      cases h1
    · intro v q p hc; injection hc with _ hc hr; injection hc with hc; subst hc; cases hr
    · intro v q p hc; injection hc with _ hc; cases hc
  | drPollBad hq hp =>
    obtain ⟨ev, m, hpr, _⟩ := hown.full _ _ (by rw [hq]; exact List.mem_cons_self)
    rw [hp] at hpr; cases hpr
  | drPoll hq hp =>
    rename_i s cm b p ps ev m
    have hx := moved (by simp)
    have hw : (exec t (.poll (env.q s)) w).1 = some p ∧ (exec t (.poll (env.q s)) w).2.queue = fset w.queue (env.q s) ps ∧
        (exec t (.poll (env.q s)) w).2.nextPair = w.nextPair ∧ (exec t (.poll (env.q s)) w).2.pool = w.pool := by
      simp [exec, hq, hp, World.log]
    obtain ⟨hw0, hw1, hw2, hw3⟩ := hw
    rw [hw0] at hx ⊢
    refine h.move hx (hsc trivial) (by rw [hw2]; exact Nat.le_refl _) ?_ ?_ ?_
    · intro p' hp'
      simp only [ownedL_cons, Frame.owned, List.singleton_append, List.mem_cons] at hp'
      rcases hp' with rfl | hp'
      · obtain ⟨o, u, h1, h2, h3, _⟩ := h.que _ p' (by rw [hq]; exact List.mem_cons_self)
        refine h3.sees (.queue (get_lt h1) (get_snoc h1) (Or.inl last_snoc) ?_) (hx _)
        intro k v hk hk' hg
        rcases snoc_get.1 hg with hg | ⟨rfl, _⟩
        · exact h2 k v hk hg
        · omega
      · exact SeesW.snoc (h.own t p' (hro p' hp')) (hx p')
    · intro q p' hp'
      rw [hw1] at hp'
      have hmem : p' ∈ w.queue q ∧ (q = env.q s → p' ≠ p) := by
        by_cases hs : q = env.q s
        · subst hs
          simp only [fset_same] at hp'
          have := hown.qn (env.q s)
          rw [hq, List.nodup_cons] at this
          exact ⟨by rw [hq]; exact List.mem_cons_of_mem _ hp', fun _ hc => this.1 (hc ▸ hp')⟩
        · simp only [fset_ne _ _ hs] at hp'; exact ⟨hp', fun hc => absurd hc hs⟩
      refine (h.que q p' hmem.1).snoc (hx p') ?_
      intro v hc
      injection hc with _ hc hr
      injection hc with hc
      subst hc
      have := hr
      injection this with this
      exact hmem.2 rfl this.symm
    · intro s' p' hp'
      rw [hw3] at hp'
      exact (h.pool s' p' hp').snoc (hx p') (by intro v hc; injection hc with _ hc; cases hc)
  | drGive _ => exact give _ _ rfl rfl (fun _ => trivial) rfl
  | drGiveErr _ => exact give _ _ rfl rfl (fun _ => trivial) rfl
  | drOver => exact give _ _ rfl rfl (fun _ => trivial) rfl
  | drOverErr => exact give _ _ rfl rfl (fun _ => trivial) rfl
  | fSize hf _ => rcases hf with ⟨rfl, _⟩ | rfl <;> exact quiet rfl rfl trivial
  | fSizeFull hf _ => rcases hf with ⟨rfl, _⟩ | rfl <;> exact quiet rfl rfl trivial
  | stCas1 hf _ _ => cases hf <;> exact quiet rfl rfl trivial
  | stCas0 hf _ _ => cases hf <;> exact quiet rfl rfl trivial
  | stSet hf => rcases hf.inv with ⟨rfl, _, _⟩ | ⟨rfl, _⟩ <;> exact quiet rfl rfl trivial
  | stClear hf _ => cases hf <;> exact quiet rfl rfl trivial
  | stPh hf _ ha =>
    have hq := phAllowed_op ha
    cases hf <;> exact quiet (quiet_of_phOp hq) rfl trivial
  | drPh ha =>
    have hq := phAllowed_op ha
    exact quiet (quiet_of_phOp hq) rfl trivial
  | drQuit hd _ => rcases hd with rfl | rfl <;> exact quiet rfl rfl trivial
  | _ => exact quiet rfl rfl trivial

theorem ofApi_marks (t : Tid) (c : Api) : Marks env H t (.ofApi c) := by cases c <;> trivial

theorem pairW_hinv (env : Env) : HInv env (Own env) (PairW env) where
  op := by
    rintro H lst w t o l' ⟨loc, hown⟩ h hm _
    have quietOp : o.quietQ = true → (∀ p ∈ ownedL l', p ∈ ownedL (lst t)) →
        (∀ f ∈ l', Marks env (H ++ [.op t o (exec t o w).1]) t f) →
        PairW env (H ++ [.op t o (exec t o w).1]) (fset lst t l') (exec t o w).2 := by
      intro hq ho hf
      have hw := exec_sameQ t o w hq
      refine h.quiet hw.queue hw.pool hw.next ho hf ?_ ?_ ?_
      · intro p hp
        obtain ⟨ev, m, rfl⟩ := op_wr hp
        cases hq
      · intro v q p he; injection he with _ he; subst he; cases hq
      · intro v q p he; injection he with _ he; subst he; cases hq
    have hsc := h.mark t
    generalize hl : lst t = l at hm hsc quietOp
    cases hm with
    | @enter _ c _ =>
      refine quietOp rfl ?_ ?_
      · intro p hp; simpa [(ofApi_owned c).1] using hp
      · intro f hf
        rcases List.mem_cons.1 hf with rfl | hf
        · exact ofApi_marks t c
        · exact (hsc f hf).snoc
    | leave _ => exact quietOp rfl (fun p hp => by simp [hp]) (fun f hf => (hsc f (List.mem_cons_of_mem _ hf)).snoc)
    | user _ hu => exact quietOp (quiet_of_user hu) (fun _ hp => hp) (fun f hf => (hsc f hf).snoc)
    | frame hm => exact pairW_move hown h hl hm
  ret := by
    intro H lst w t _ h _
    exact h.same rfl rfl rfl (by simp) (by simp)
  thr := by
    intro H lst w t x _ h _
    exact h.same rfl rfl rfl (by simp) (by simp)
  dispatch := by
    intro H lst w e i j s m _ h _ _ _
    refine h.quiet rfl rfl rfl ?_ ?_ (fun _ => take_wr) (by simp) (by simp)
    · simp [task, Frame.owned]
    · simp [task, Marks]
  interrupt := fun H lst w t _ h => h.world rfl rfl rfl
  shutdown := fun H lst w t _ h => h.world rfl rfl rfl
  dropTasks := fun H lst w t _ h => h.world rfl rfl rfl

theorem pairW_initial (c : Conf) (h : Initial c) : PairW env [] (fun _ => []) c.w := by
  refine ⟨?_, ?_, ?_, ?_, ?_, ?_⟩
  · intro t p hp; cases hp
  · intro q p hp; rw [h.queue] at hp; cases hp
  · intro q p hp; rw [h.pool] at hp; cases hp
  · intro p _ i a hi; cases hi
  · intro p i j a b _ hi; cases hi
  · intro t f hf; cases hf

end Verif
