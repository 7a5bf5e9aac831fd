import Verif.Proofs.Checks
import Verif.Props.Plain
/-
C92: the check for duplicates, under weak memory. Pooled pairs are plain objects, and with the drop-duplicate strategy they are read while they are in a queue, or
have just been removed and used again: C61 and C89 exclude that. All strategies here. Reads of other plain fields may return anything at all: for these nothing is
assumed, except that they are in `M`.
-/

namespace Verif
open Spec.HB Spec.Plain Spec.Checks Plain

variable {env : Env} {M : Cell → Prop} [DecidablePred M] {c0 c : Conf} {xs : List PChoice}

theorem Checks.known (hi : Initial c0) (hw : Plain.runs env M c0 xs = some c)
    (hj : ∀ p, M (.pair p) → Justified false (content c0.w (.pair p)) (.pair p) (acts env M c0 xs)) : ∃ lst, Checks.K env (acts env M c0 xs) lst c := by
  have := Checks.k_runs (A := []) (Checks.k_initial hi) hw (fun p hp => by
    have := hj p hp
    simp only [content, hi.pair, Option.map_none] at this
    simpa using this)
  simpa using this

/-- Reads of pairs never fail, and their results are not older than what the pair contained when it was seen in the queue. The worker that removes a pair from the
queue gets what has been written last. -/
theorem C92_reads (hi : Initial c0) (hw : Plain.runs env M c0 xs = some c)
    (hj : ∀ p, M (.pair p) → Justified false (content c0.w (.pair p)) (.pair p) (acts env M c0 xs)) : GoodReads (acts env M c0 xs) := by
  obtain ⟨_, h⟩ := Checks.known hi hw hj
  exact h.good

/-- An event is dropped only if an equal event was in the queue when the thread looked, or has been put into the same pair later. -/
theorem C92_drops (hi : Initial c0) (hw : Plain.runs env M c0 xs = some c)
    (hj : ∀ p, M (.pair p) → Justified false (content c0.w (.pair p)) (.pair p) (acts env M c0 xs)) : GoodDrops env (acts env M c0 xs) := by
  obtain ⟨_, h⟩ := Checks.known hi hw hj
  exact Checks.drops_good h.j.2.2.1 h.good

/-- No event passes the check unless each pair that was in the queue at that time contained something else, or has been used for something else since. -/
theorem C92_passes (hi : Initial c0) (hw : Plain.runs env M c0 xs = some c)
    (hj : ∀ p, M (.pair p) → Justified false (content c0.w (.pair p)) (.pair p) (acts env M c0 xs)) : GoodPasses env (acts env M c0 xs) := by
  obtain ⟨_, h⟩ := Checks.known hi hw hj
  exact Checks.passes_good h.j.2.2.2.2.2 h.good

/-- So an event that is in the queue when a thread that fires an equal event looks, in a pair that is not used again, is noticed. -/
theorem C92_noticed (hi : Initial c0) (hw : Plain.runs env M c0 xs = some c)
    (hj : ∀ p, M (.pair p) → Justified false (content c0.w (.pair p)) (.pair p) (acts env M c0 xs)) {a s i j : Nat} {t : Tid} {m m' : MId} {ev en e : Ev}
    {p' : PairId} {l : List PairId} {p : PairId} (has : a < s) (hjs : j < s) (hsi : s < i) (ha : (dids (acts env M c0 xs))[a]? = some (.op t (.emit (.enter (.fire m ev))) ()))
    (hs : (dids (acts env M c0 xs))[s]? = some (.op t (.qSnap (env.strat (env.mach m).strat).queue) l)) (hp : p ∈ l)
    (hput : Puts (acts env M c0 xs) (.pair p) j (.pair (some en) (some m'))) (hlast : ∀ k u, Puts (acts env M c0 xs) (.pair p) k u → k < i → k ≤ j)
    (heq : en.eqv ev = true) (hd : (env.strat (env.mach m).strat).dropDup = true)
    (honly : ∀ (k : Nat) o r, a < k → k < i → (dids (acts env M c0 xs))[k]? = some (.op t o r) → (∀ b, o ≠ .emit (.enter b)) ∧ ∀ q, k ≠ s → o ≠ .qSnap q) :
    (dids (acts env M c0 xs))[i]? ≠ some (.op t (.setPair p' e m) ()) := by
  intro hset
  obtain ⟨c1, s1, ev1, l1, g1, g2, g3, g4, g5, g6, g7⟩ := C92_passes hi hw hj i t p' e m hset hd
  have hca : c1 = a := by
    rcases Nat.lt_trichotomy c1 a with h | h | h
    · exact absurd rfl ((g4 a _ _ h (by omega) ha).1 _)
    · exact h
    · exact absurd rfl ((honly c1 _ _ h (by omega) g3).1 _)
  subst hca
  rw [ha] at g3
  cases g3
  have hss : s1 = s := by
    refine Classical.byContradiction fun hne => ?_
    exact absurd rfl ((honly s1 _ _ g1 (by omega) g5).2 _ hne)
  subst hss
  rw [hs] at g5
  cases g5
  obtain ⟨k, en', hk, ⟨⟨m1, hk1⟩, hk2⟩, hne⟩ := g7 p hp
  have : k = j := Nat.le_antisymm (hlast k _ hk1 hk) (hk2 j _ hput hjs)
  subst this
  obtain ⟨y, f1, f2⟩ := hk1
  obtain ⟨y', f3, f4⟩ := hput
  rw [f1] at f3
  cases f3
  rw [f2] at f4
  cases f4
  rw [heq] at hne
  cases hne

/-- Any two writes to a pair are ordered. -/
theorem C92_writes (hi : Initial c0) (hw : Plain.runs env M c0 xs = some c)
    (hj : ∀ p, M (.pair p) → Justified false (content c0.w (.pair p)) (.pair p) (acts env M c0 xs)) {p : PairId} {i j : Nat} {a b : Did} (hij : i < j)
    (ha : (dids (acts env M c0 xs))[i]? = some a) (hb : (dids (acts env M c0 xs))[j]? = some b) (hwa : a.writes (.pair p)) (hwb : b.writes (.pair p)) :
    HB false (dids (acts env M c0 xs)) i j := by
  obtain ⟨_, h⟩ := Checks.known hi hw hj
  exact h.j.1.ww p i j a b hij ha hb hwa hwb

namespace Demo

/-- go is in the queue when client 1 fires go and looks into the queue. Then go is processed, and client 2 uses the pair for back. Then client 1 reads the pair; it
reads go, although the memory contains back. -/
def reuseX : List PChoice :=
  ([Choice.begin 0 (client 0 [go])] ++ runN (.client 0) 100 ++ [Choice.begin 1 (.call (.fire 0 go) fun _ => .done)] ++ runN (.client 1) 5 ++
    [Choice.dispatch 0 0 0] ++ runN w0 100 ++ [Choice.begin 2 (.call (.fire 0 back) fun _ => .done)] ++ runN (.client 2) 100).map .sched ++
  [.read (.client 1) (.pair (some go) (some 0))] ++ (runN (.client 1) 100).map .sched

def reuseEnv : Env := Demo.env payActs 0 true

def reuseH : List Act := phist reuseEnv (· = .pair 0) conf reuseX

end Demo

open Demo in
/-- C92: the event is dropped because of what has been in the pair when client 1 looked. -/
example : ∃ xs c, Plain.runs reuseEnv (· = .pair 0) conf xs = some c ∧ (let H := acts reuseEnv (· = .pair 0) conf xs
    Justified false (content conf.w (.pair 0)) (.pair 0) H ∧ Looks (dids H) 23 (.client 1) 0 0 ∧
    (dids H)[50]? = some (.op (.client 2) (.setPair 0 back 0) ()) ∧ (dids H)[54]? = some (.op (.client 1) (.getPair 0) (some (go, 0))) ∧
    (dids H)[55]? = some (.op (.client 1) (.emit (.dropped 0 go)) ()) ∧ (c.w.pair 0) = some (back, 0) ∧
    Taken (dids H) 27 0 ∧ Newest H 27 0 (.pair (some go) (some 0)) ∧
    ∃ s p en j, s < 55 ∧ j < 55 ∧ Looks (dids H) s (.client 1) 0 p ∧ Since H s j p en ∧ en.eqv go = true) := by
  obtain ⟨xs, h1, h2⟩ := phist_real reuseEnv (· = .pair 0) conf reuseX
  have h2 : acts reuseEnv (· = .pair 0) conf xs = reuseH := h2
  have hj : Justified false (content conf.w (.pair 0)) (.pair 0) reuseH := pjustified_of (by decide +kernel)
  have hj' : ∀ p, Cell.pair p = .pair 0 → Justified false (content conf.w (.pair p)) (.pair p) (acts reuseEnv (· = .pair 0) conf xs) := by
    rintro p hp
    cases hp
    rw [h2]
    exact hj
  have hd : (dids reuseH)[55]? = some (.op (.client 1) (.emit (.dropped 0 go)) ()) := rfl
  have ht : Taken (dids reuseH) 27 0 := by
    refine ⟨26, by omega, w0, 0, .op w0 (.getPair 0) (some (go, 0)), rfl, rfl, rfl, fun j d h3 h4 => by omega⟩
  have hg := C92_reads (conf_initial _) h1 hj'
  have hr := C92_drops (conf_initial _) h1 hj'
  rw [h2] at hg hr
  refine ⟨xs, _, h1, ?_⟩
  rw [h2]
  refine ⟨hj, ⟨[0], rfl, by simp⟩, rfl, rfl, hd, ?_, ht, (hg 27 w0 0 _ _ rfl).2 ht, hr 55 (.client 1) 0 go hd⟩
  decide +kernel

namespace Demo

/-- go is in the queue when client 1 fires back, and then go. -/
def passX : List PChoice :=
  ([Choice.begin 0 (client 0 [go])] ++ runN (.client 0) 100 ++ [Choice.begin 1 (.call (.fire 0 back) fun _ => .call (.fire 0 go) fun _ => .done)] ++
    runN (.client 1) 100).map .sched

def passH : List Act := phist reuseEnv (· = .pair 0) conf passX

end Demo

open Demo in
/-- C92: back passes the check because the pair contains go; go does not. -/
example : ∃ xs c, Plain.runs reuseEnv (· = .pair 0) conf xs = some c ∧ (let H := acts reuseEnv (· = .pair 0) conf xs
    Justified false (content conf.w (.pair 0)) (.pair 0) H ∧ (dids H)[28]? = some (.op (.client 1) (.setPair 1 back 0) ()) ∧
    (∃ j en, j < 28 ∧ Since H 23 j 0 en ∧ en.eqv back = false) ∧
    (dids H)[36]? = some (.op (.client 1) (.qSnap 0) [0, 1]) ∧ ∀ p e, (dids H)[38]? ≠ some (.op (.client 1) (.setPair p e 0) ())) := by
  obtain ⟨xs, h1, h2⟩ := phist_real reuseEnv (· = .pair 0) conf passX
  have h2 : acts reuseEnv (· = .pair 0) conf xs = passH := h2
  have hj : Justified false (content conf.w (.pair 0)) (.pair 0) passH := pjustified_of (by decide +kernel)
  have hj' : ∀ p, Cell.pair p = .pair 0 → Justified false (content conf.w (.pair p)) (.pair p) (acts reuseEnv (· = .pair 0) conf xs) := by
    rintro p hp
    cases hp
    rw [h2]
    exact hj
  have hg := C92_passes (conf_initial _) h1 hj'
  have hn := fun p e => C92_noticed (conf_initial _) h1 hj' (a := 32) (s := 36) (i := 38) (j := 15) (t := .client 1) (m := 0) (m' := 0) (ev := go) (en := go) (e := e) (p' := p)
    (p := 0) (l := [0, 1])
  rw [h2] at hg hn
  refine ⟨xs, _, h1, ?_⟩
  rw [h2]
  refine ⟨hj, rfl, ?_, rfl, fun p e => hn p e (by omega) (by omega) (by omega) rfl rfl (by simp) ⟨_, rfl, rfl⟩ ?_ (by decide) rfl ?_⟩
  · obtain ⟨c, s, ev, l, g1, g2, g3, g4, g5, g6, g7⟩ := hg 28 (.client 1) 1 back 0 rfl rfl
    have hc : c = 19 := by
      rcases Nat.lt_trichotomy c 19 with h | h | h
      · exact absurd rfl ((g4 19 _ _ h (by omega) rfl).1 _)
      · exact h
      · have : ∀ k < 28, 19 < k → ∀ ev, (dids passH)[k]? ≠ some (.op (.client 1) (.emit (.enter (.fire 0 ev))) ()) := by
          intro k h1 h2 ev
          obtain rfl | rfl | rfl | rfl | rfl | rfl | rfl | rfl : k = 20 ∨ k = 21 ∨ k = 22 ∨ k = 23 ∨ k = 24 ∨ k = 25 ∨ k = 26 ∨ k = 27 := by omega
          all_goals intro h; cases h
        exact absurd g3 (this c (by omega) h ev)
    subst hc
    cases g3
    have hs : s = 23 := by
      obtain rfl | rfl | rfl | rfl | rfl | rfl | rfl | rfl : s = 20 ∨ s = 21 ∨ s = 22 ∨ s = 23 ∨ s = 24 ∨ s = 25 ∨ s = 26 ∨ s = 27 := by omega
      all_goals first | rfl | cases g5
    subst hs
    cases g5
    exact g7 0 (by decide)
  · rintro k u ⟨y, f1, f2⟩ hk
    refine Classical.byContradiction fun hlt => ?_
    have : ∀ k < 38, 15 < k → ((passH[k]?).bind puts).map (·.1) ≠ some (.pair 0) := by decide +kernel
    exact this k hk (by omega) (by simp [f1, f2])
  · intro k o r h1 h2 h3
    obtain rfl | rfl | rfl | rfl | rfl : k = 33 ∨ k = 34 ∨ k = 35 ∨ k = 36 ∨ k = 37 := by omega
    all_goals cases h3; simp

end Verif
