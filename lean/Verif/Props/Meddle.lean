import Verif.Proofs.Meddle
import Verif.Props.Loose
/-
C95: weak reads of listeners and payloads are no more than one more client thread, which sets listeners and payloads. What API calls do does not depend on them, and
not on currentState either.
-/

namespace Verif
open Verif.Spec.HB Verif.Spec.Plain Verif.Plain Verif.Loose Verif.Meddle Verif.Spec.Meddle Verif.Spec.Calls

section
variable {env : Env} {M : Cell → Prop} [DecidablePred M] {c0 c : Conf} {xs : List PChoice}

theorem plain_mono {N N' : Cell → Prop} [DecidablePred N] [DecidablePred N'] (h : ∀ f, N f → N' f) {c : Conf} (hr : Plain.runs env N c0 xs = some c) :
    Plain.runs env N' c0 xs = some c := by
  induction xs generalizing c0 with
  | nil => exact hr
  | cons x xs ih =>
    simp only [Plain.runs] at hr ⊢
    split at hr
    · cases hr
    next c1 h1 =>
      have : Plain.step env N' c0 x = some c1 := by
        cases x with
        | sched x => exact h1
        | read t v =>
          simp only [Plain.step] at h1 ⊢
          split at h1
          next o k hp =>
            split at h1
            next f hf =>
              split at h1
              next hN => rw [if_pos (h f hN)]; exact h1
              · cases h1
            · cases h1
          · cases h1
      rw [this]
      exact ih hr

theorem pairs_gone' (hM : PairsOk env M c0 xs) (hi : Initial c0) (hr : Plain.runs env M c0 xs = some c) :
    ∃ (M' : Cell → Prop) (_ : DecidablePred M') (ys : List PChoice), (∀ p, ¬M' (.pair p)) ∧ (∀ m, M' (.cur m) → M (.cur m)) ∧ Plain.runs env M' c0 ys = some c := by
  rcases hM with hM | ⟨hd, hj⟩
  · exact ⟨M, inferInstance, xs, hM, fun _ h => h, hr⟩
  · obtain ⟨ys, h⟩ := pair_runs (A := []) hd (Checks.k_initial hi) (fun _ _ _ h => by cases h) hr (fun p hp => by
      have := hj p hp
      simp only [content, hi.pair, Option.map_none] at this
      simpa using this)
    exact ⟨noPairs M, inferInstance, ys, fun _ h => h, fun _ h => h, h⟩

/-- C95. What a weak read is: any value can be read, and the thread goes on, and leaves the rest of the memory, as if the field contained it. -/
theorem C95_reads {t : Tid} {o : Op} {k : o.Res → Prog Unit} {f : Cell} {v : Content} (hp : c.thr t = some (.op o k)) (hf : source o = some f) (hM : M f)
    (hv : Fits f v) : ∃ c', Plain.step env M c (.read t v) = some c' ∧ c'.thr = fset c.thr t (some (k (exec t o (put c.w f v)).1)) ∧
      c'.w = put (exec t o (put c.w f v)).2 f (content c'.w f) := by
  have key : ∃ r, execRead t o v c.w = some r ∧ r.1 = (exec t o (put c.w f v)).1 ∧ r.2 = put (exec t o (put c.w f v)).2 f (content r.2 f) := by
    have hback : ∀ m v, fset (fset c.w.mach m { c.w.mach m with cur := v }) m { c.w.mach m with cur := (c.w.mach m).cur } = c.w.mach := by
      intro m v
      funext m'
      by_cases hm : m' = m
      · subst hm; simp
      · simp [fset_ne _ _ hm]
    have hlp : (∃ m, f = .listener m) ∨ (∃ e, f = .payload e) → ∀ r, execRead t o v c.w = some r →
        r.1 = (exec t o (put c.w f v)).1 ∧ r.2 = put (exec t o (put c.w f v)).2 f (content r.2 f) := by
      intro h r hr
      obtain ⟨h1, h2, _⟩ := read_back hf h hr
      have hst : ∀ w v, Checks.store w f v = put w f v := by
        intro w v
        rcases h with ⟨_, rfl⟩ | ⟨_, rfl⟩ <;> cases v <;> rfl
      rw [hst, hst] at h2
      rw [hst] at h1
      exact ⟨h1.symm, h2.symm⟩
    cases o <;> simp only [source, Option.some.injEq, reduceCtorEq] at hf <;> subst hf <;> cases v <;> simp only [Fits] at hv
    · refine ⟨_, rfl, by simp [exec, put], ?_⟩
      simp only [exec, put, content, fset_same, hback]
    · exact ⟨_, rfl, hlp (.inl ⟨_, rfl⟩) _ rfl⟩
    · rename_i m cb l
      cases l
      · exact ⟨_, rfl, hlp (.inl ⟨_, rfl⟩) _ rfl⟩
      · exact ⟨_, rfl, hlp (.inl ⟨_, rfl⟩) _ rfl⟩
    · rename_i p e m
      have hpb : ∀ x, put { c.w with pair := fset c.w.pair p x } (.pair p) (content c.w (.pair p)) = c.w := by
        intro x
        have : fset (fset c.w.pair p x) p (c.w.pair p) = c.w.pair := by
          funext q
          by_cases hq : q = p
          · subst hq; simp
          · simp [fset_ne _ _ hq]
        cases hc : c.w.pair p with
        | none => rw [hc] at this; simp only [content, hc, put, Option.map_none, this]
        | some y => rw [hc] at this; simp only [content, hc, put, Option.map_some, this]
      cases e <;> cases m <;> exact ⟨_, rfl, by simp [exec, put], (hpb _).symm⟩
    · exact ⟨_, rfl, hlp (.inr ⟨_, rfl⟩) _ rfl⟩
    · exact ⟨_, rfl, hlp (.inr ⟨_, rfl⟩) _ rfl⟩
  obtain ⟨r, h1, h2, h3⟩ := key
  refine ⟨⟨r.2, fset c.thr t (some (k r.1))⟩, ?_, by rw [← h2], h3⟩
  simp only [Plain.step, hp, hf, if_pos hM, h1, Option.map_some]

/-- `d` is `c`, with one more client thread which has only set listeners and payloads, so that in the end they are the same. -/
structure Meddled (n : Nat) (c d : Conf) : Prop where
  world : d.w = { c.w with trace := d.w.trace }
  trace : without n d.w.trace = c.w.trace
  writes : ∀ e ∈ d.w.trace, e.1 = .client n → isWrite e.2
  threads : ∀ t, t ≠ .client n → d.thr t = c.thr t

/-- C95. Whatever reads of listeners and payloads (and pairs) return: the execution is one in which they return what was written last, with one more client. -/
theorem C95_meddler (hM : PairsOk env M c0 xs) (hi : Initial c0) (hr : Plain.runs env M c0 xs = some c) :
    ∃ (n : Nat) (ws : List Write) (ys : List PChoice) (d : Conf),
      Plain.runs env (onlyCur M) c0 (.sched (.begin n (meddler ws)) :: ys) = some d ∧ Meddled n c d := by
  obtain ⟨M', _, zs, hM', hcur, hr'⟩ := pairs_gone' hM hi hr
  obtain ⟨ws, h⟩ := plain_runs_sim (n := fresh zs) (hi.idle _) hM' (fresh_spec zs _ (Nat.le_refl _)) hr'
  have hb : Verif.step env c0 (.begin (fresh zs) (meddler ws)) = some ⟨c0.w, fset c0.thr (.client (fresh zs)) (some ((meddler ws).denote env))⟩ := by
    simp only [Verif.step, hi.idle]
  obtain ⟨ys, d, h1, h2, _⟩ := h ⟨c0.w, fset c0.thr (.client (fresh zs)) (some ((meddler ws).denote env))⟩
    ⟨rfl, by rw [hi.trace]; rfl, (by rw [hi.trace]; intro e he; cases he), fun t ht => by simp [fset_ne _ _ ht], hi.idle _⟩ (fset_same ..)
  refine ⟨fresh zs, ws, ys, d, ?_, h2.w, h2.trace, h2.writes, h2.thr⟩
  have h3 := plain_mono (N' := onlyCur M) (fun f hf => by cases f <;> first | exact hf.elim | exact hcur _ hf) h1
  simp only [Plain.runs, Plain.step, hb]
  exact h3

/-- C95. If currentState is read as it was written last (C89 says when), then all theorems about sequentially consistent executions apply, with one more client. -/
theorem C95_strong (hM : PairsOk env M c0 xs) (hcur : ∀ m, ¬M (.cur m)) (hi : Initial c0) (hr : Plain.runs env M c0 xs = some c) :
    ∃ n d, ReachFrom env c0 d ∧ Meddled n c d := by
  obtain ⟨n, ws, ys, d, h, hd⟩ := C95_meddler hM hi hr
  refine ⟨n, d, ?_, hd⟩
  generalize PChoice.sched (.begin n (meddler ws)) :: ys = zs at h
  clear hr hd hi hM
  induction zs generalizing c0 with
  | nil => cases h; exact ⟨[], rfl⟩
  | cons x zs ih =>
    simp only [Plain.runs] at h
    split at h
    · cases h
    next c1 h1 =>
      obtain ⟨as, ha⟩ := ih h
      cases x with
      | sched x => exact ⟨x :: as, by simp only [Verif.runs]; rw [show Verif.step env c0 x = some c1 from h1]; exact ha⟩
      | read t v =>
        simp only [Plain.step] at h1
        split at h1
        · split at h1
          next f _ =>
            split at h1
            next hf => cases f <;> first | exact hf.elim | exact absurd hf (hcur _)
            · cases h1
          · cases h1
        · cases h1

theorem meddled_run (hM : PairsOk env M c0 xs) (hi : Initial c0) (hr : Plain.runs env M c0 xs = some c) :
    ∃ n tr g, Spec.Calls.run (callsCfg env) (G.init c0.w.payload fun m => (c0.w.mach m).listener.isSome) tr = some g ∧ without n tr = c.w.trace ∧
      ∀ e ∈ tr, e.1 = .client n → isWrite e.2 := by
  obtain ⟨n, ws, ys, d, h, hd⟩ := C95_meddler hM hi hr
  obtain ⟨g, hg⟩ := cur_accepted hi h
  exact ⟨n, d.w.trace, g, hg, hd.trace, hd.writes⟩

variable {t : Tid} {pre mid : List (Tid × Obs)} {os : List Obs} {r : Option Exc} {m : MId}

/-- C95. Every `fire(ev)` that has returned has done exactly one of the things that it should do. -/
theorem C95_fire {ev : Ev} (hM : PairsOk env M c0 xs) (hi : Initial c0) (hr : Plain.runs env M c0 xs = some c)
    (hc : IsCall c.w.trace t (.fire m ev) pre mid os r) : LooseFate (callsCfg env) (after c0 pre) mid m ev os r := by
  obtain ⟨n, tr, g, hg, h1, h2⟩ := meddled_run hM hi hr
  obtain ⟨pre', mid', hc', rfl, rfl, h3, h4⟩ := isCall_without h1 hc
  exact fire_without (memAt_without (.refl _) fun e he => h2 e (h3 e he)) (fun e he => h2 e (h4 e he)) (fire_fate_of hg hc')

/-- C95. The same for `stop()` … -/
theorem C95_stop (hM : PairsOk env M c0 xs) (hi : Initial c0) (hr : Plain.runs env M c0 xs = some c)
    (hc : IsCall c.w.trace t (.stop m) pre mid os r) : StopFate (callsCfg env) (after c0 pre) mid m os r := by
  obtain ⟨n, tr, g, hg, h1, h2⟩ := meddled_run hM hi hr
  obtain ⟨pre', mid', hc', rfl, rfl, h3, h4⟩ := isCall_without h1 hc
  exact stop_without (memAt_without (.refl _) fun e he => h2 e (h3 e he)) (fun e he => h2 e (h4 e he)) (stop_fate_of hg hc')

/-- … for `startInState()` … -/
theorem C95_start_in_state {s : Option St} (hM : PairsOk env M c0 xs) (hi : Initial c0) (hr : Plain.runs env M c0 xs = some c)
    (hc : IsCall c.w.trace t (.startInState m s) pre mid os r) : StartInFate (callsCfg env) (after c0 pre) mid m s os r := by
  obtain ⟨n, tr, g, hg, h1, h2⟩ := meddled_run hM hi hr
  obtain ⟨pre', mid', hc', rfl, rfl, h3, h4⟩ := isCall_without h1 hc
  exact startIn_without (memAt_without (.refl _) fun e he => h2 e (h3 e he)) (fun e he => h2 e (h4 e he)) (startIn_fate_of hg hc')

/-- … and for `start()`. -/
theorem C95_start (hM : PairsOk env M c0 xs) (hi : Initial c0) (hr : Plain.runs env M c0 xs = some c)
    (hc : IsCall c.w.trace t (.start m) pre mid os r) : LooseStart (callsCfg env) (after c0 pre) mid m os r := by
  obtain ⟨n, tr, g, hg, h1, h2⟩ := meddled_run hM hi hr
  obtain ⟨pre', mid', hc', rfl, rfl, h3, h4⟩ := isCall_without h1 hc
  exact start_without (memAt_without (.refl _) fun e he => h2 e (h3 e he)) (fun e he => h2 e (h4 e he)) (start_fate_of hg hc')

/-- C95. No two calls of `start()` or `startInState()` of a machine return normally. -/
theorem C95_one_start (hM : PairsOk env M c0 xs) (hi : Initial c0) (hr : Plain.runs env M c0 xs = some c) {k k' : Api} (hk : k.starts m = true)
    (hk' : k'.starts m = true) {u v : Tid} {x y z : List (Tid × Obs)} :
    c.w.trace ≠ x ++ (u, .leave k none) :: (y ++ (v, .leave k' none) :: z) := by
  intro htr
  obtain ⟨n, tr, g, hg, h1, h2⟩ := meddled_run hM hi hr
  rw [htr] at h1
  obtain ⟨a, b, rfl, _, h3⟩ := without_split h1
  obtain ⟨a', b', rfl, _, _⟩ := without_split h3
  exact once_of_weight (weight_ok m) (fun _ => rfl) hg hk hk'

/-- C95. Calls and returns match: the theorems above speak about all calls that have returned. -/
theorem C95_returns (hM : PairsOk env M c0 xs) (hi : Initial c0) (hr : Plain.runs env M c0 xs = some c) {k : Api} {a b : List (Tid × Obs)}
    (h : c.w.trace = a ++ (t, .leave k r) :: b) : ∃ pre mid os, a = pre ++ (t, .enter k) :: mid ∧ IsCall c.w.trace t k pre mid os r := by
  obtain ⟨n, tr, g, hg, h1, h2⟩ := meddled_run hM hi hr
  rw [h] at h1
  obtain ⟨a', b', rfl, rfl, rfl⟩ := without_split h1
  obtain ⟨pre, mid, os, rfl, ho⟩ := leave_isCall (fun _ => rfl) hg
  have ht : t ≠ .client n := (without_mem (tr := pre ++ (t, .enter k) :: mid ++ (t, .leave k r) :: b') (e := (t, .leave k r)) (by rw [h1]; simp)).2
  have he : ∀ (o : Obs) (l : List (Tid × Obs)), without n ((t, o) :: l) = (t, o) :: without n l := fun o l => by simp [without, ht]
  refine ⟨without n pre, without n mid, os, by rw [without_append, he], ⟨without n b', ?_⟩, by rw [own_without ht]; exact ho⟩
  rw [h, without_append, he]
  simp

end

namespace Demo

/-- The event has no payload. The client finds one, then none; the worker finds the machine in C, where it never was, and a listener, which there is not. -/
def meddledX : List PChoice :=
  ([Choice.begin 0 (client 0 [go])] ++ runN (.client 0) 13).map .sched ++ [.read (.client 0) (.payload (some 9)), .read (.client 0) (.payload none)] ++
    (runN (.client 0) 30 ++ [Choice.dispatch 0 0 0] ++ runN w0 5).map .sched ++
    [.read w0 (.state (some C)), .read w0 (.listener (some 5)), .read w0 (.listener (some 5))] ++ (runN w0 100).map .sched

def meddledC : Conf := pdrive (env payActs) Any conf meddledX

end Demo

open Demo in
/-- C95: `fire` has made a copy that was not needed. Otherwise it is as it should be. The execution is also one of an additional client that sets these things. -/
example : ∃ xs, Plain.runs (env payActs) Any conf xs = some meddledC ∧ PairsOk (env payActs) Any conf xs ∧
    (∃ pre mid, IsCall meddledC.w.trace (.client 0) (.fire 0 go) pre mid
        [.copied 0 go none, .accepted 0 0 ⟨0, go.name, .copy 0⟩, .submitted 0 0] none ∧
      LooseFate (callsCfg (env payActs)) (after conf pre) mid 0 go [.copied 0 go none, .accepted 0 0 ⟨0, go.name, .copy 0⟩, .submitted 0 0] none) ∧
    (∃ x, (w0, Obs.cb (.begin 0 C x B)) ∈ meddledC.w.trace) ∧
    ∃ n ws ys d, Plain.runs (env payActs) (onlyCur Any) conf (.sched (.begin n (meddler ws)) :: ys) = some d ∧ Meddled n meddledC d := by
  obtain ⟨xs, h1, _⟩ := phist_real (env payActs) Any conf meddledX
  have hp : PairsOk (env payActs) Any conf xs := .inl fun _ h => h
  have hc : IsCall meddledC.w.trace (.client 0) (.fire 0 go) (meddledC.w.trace.take 5) ((meddledC.w.trace.drop 6).take 3)
    [.copied 0 go none, .accepted 0 0 ⟨0, go.name, .copy 0⟩, .submitted 0 0] none := isCall_of (by decide +kernel)
  exact ⟨xs, h1, hp, ⟨_, _, hc, C95_fire hp (conf_initial _) h1 hc⟩, ⟨⟨0, go.name, .copy 0⟩, by decide +kernel⟩, C95_meddler hp (conf_initial _) h1⟩

open Demo in
/-- C95: the client that reads the payload of its event, which it has not got, can read 9. -/
example : ∃ c k, c.thr (.client 0) = some (.op (.getPayload go.oid) k) ∧ c.w.payload go.oid = none ∧
    ∃ c', Plain.step (env payActs) Any c (.read (.client 0) (.payload (some 9))) = some c' ∧ c'.thr (.client 0) = some (k (some 9)) := by
  have h : (match (drive (env payActs) conf ([Choice.begin 0 (client 0 [go])] ++ runN (.client 0) 13)).thr (.client 0) with
    | some (.op (.getPayload o) _) => o == go.oid
    | _ => false) = true := by decide +kernel
  split at h
  case h_2 => cases h
  rename_i o k hk
  obtain rfl : o = go.oid := by simpa using h
  obtain ⟨c', h1, h2, _⟩ := C95_reads (env := env payActs) (M := Any) (v := .payload (some 9)) hk rfl trivial trivial
  exact ⟨_, k, hk, by decide +kernel, c', h1, by rw [h2]; simp [exec, put]⟩

open Demo in
/-- C95: with currentState read as it was written, the execution is sequentially consistent, with one more client. -/
example : ∃ (M : Cell → Prop) (_ : DecidablePred M) (xs : List PChoice) (c : Conf), Plain.runs (env payActs) M conf xs = some c ∧ (∃ x, (w0, Obs.cb (.begin 0 A x B)) ∈ c.w.trace) ∧
    (conf.w.mach 0).listener = none ∧ (∀ e ∈ c.w.trace, match e.2 with | .listener .. => False | _ => True) ∧ ∃ n d, ReachFrom (env payActs) conf d ∧ Meddled n c d := by
  let X : List PChoice := ([Choice.begin 0 (client 0 [go])] ++ runN (.client 0) 100 ++ [Choice.dispatch 0 0 0] ++ runN w0 6).map .sched ++
    [.read w0 (.listener (some 5)), .read w0 (.listener (some 5))] ++ (runN w0 100).map .sched
  obtain ⟨xs, h1, _⟩ := phist_real (env payActs) (· = .listener 0) conf X
  refine ⟨_, _, xs, _, h1, ⟨go, by decide +kernel⟩, rfl, ?_, C95_strong (.inl fun _ h => by cases h) (fun _ h => by cases h) (conf_initial _) h1⟩
  have := List.all_eq_true.1 (by decide +kernel : (pdrive (env payActs) (· = .listener 0) conf X).w.trace.all (fun e => match e.2 with | .listener .. => false | _ => true) = true)
  intro e he
  have := this e he
  revert this
  cases e.2 <;> simp

end Verif
