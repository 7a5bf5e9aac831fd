import Verif.Proofs.Own
import Verif.Proofs.Mem
import Verif.Spec.Dup
/-
Invariant: a `fire` that finds an equal event has a reason.
-/

namespace Verif
open Spec (accepted taken waiting copyOf)

/-- The queue a frame works for. -/
def Frame.homeQ (env : Env) : Frame → Option QId
  | .fire m .. => some (env.qm m)
  | .drain s .. => some (env.q s)
  | _ => none

/-- A pair stays with one queue: in the queue, in a pool of it, or held by a thread working for it. -/
def Home (env : Env) (lst : Tid → List Frame) (w : World) (p : PairId) (q : QId) : Prop :=
  p ∈ w.queue q ∨ (∃ s, env.q s = q ∧ p ∈ w.pool s) ∨ ∃ t f, f ∈ lst t ∧ p ∈ f.owned ∧ f.homeQ env = some q

section
variable {env : Env} {lst : Tid → List Frame} {w : World} {t : Tid}

theorem Home.frames {p : PairId} {q : QId} {l' : List Frame} {w' : World} (h : Home env lst w p q)
    (hq : ∀ q p, p ∈ w.queue q → p ∈ w'.queue q) (hp : ∀ s p, p ∈ w.pool s → p ∈ w'.pool s)
    (hf : ∀ f ∈ lst t, p ∈ f.owned → f.homeQ env = some q → Home env (fset lst t l') w' p q) : Home env (fset lst t l') w' p q := by
  rcases h with h | ⟨s, h1, h2⟩ | ⟨u, f, h1, h2, h3⟩
  · exact Or.inl (hq _ _ h)
  · exact Or.inr (Or.inl ⟨s, h1, hp _ _ h2⟩)
  · by_cases hu : u = t
    · subst hu; exact hf f h1 h2 h3
    · exact Or.inr (Or.inr ⟨u, f, by rwa [fset_ne _ _ hu], h2, h3⟩)

/-- A step that keeps queues and pools. -/
theorem Home.quiet {p : PairId} {q : QId} {l' : List Frame} {w' : World} (h : Home env lst w p q)
    (hw : SameQ w w') (hf : ∀ f ∈ lst t, p ∈ f.owned → f.homeQ env = some q → ∃ f' ∈ l', p ∈ f'.owned ∧ f'.homeQ env = some q) :
    Home env (fset lst t l') w' p q :=
  h.frames (by rw [hw.queue]; exact fun _ _ => id) (by rw [hw.pool]; exact fun _ _ => id) fun f h1 h2 h3 => by
    obtain ⟨f', h4, h5, h6⟩ := hf f h1 h2 h3
    exact Or.inr (Or.inr ⟨t, f', by rwa [fset_same], h5, h6⟩)

theorem Home.top {p : PairId} {q : QId} {f f' : Frame} {rest : List Frame} {w' : World} (h : Home env lst w p q)
    (hl : lst t = f :: rest) (hq : ∀ q p, p ∈ w.queue q → p ∈ w'.queue q) (hp : ∀ s p, p ∈ w.pool s → p ∈ w'.pool s)
    (hf : p ∈ f.owned → f.homeQ env = some q → Home env (fset lst t (f' :: rest)) w' p q) :
    Home env (fset lst t (f' :: rest)) w' p q :=
  h.frames hq hp fun g h1 h2 h3 => by
    rw [hl] at h1
    rcases List.mem_cons.1 h1 with rfl | h1
    · exact hf h2 h3
    · exact Or.inr (Or.inr ⟨t, g, by rw [fset_same]; simp [h1], h2, h3⟩)

theorem home_move {p : PairId} {q : QId} {f f' : Frame} {rest : List Frame} {o : Op} (hown : Own env lst w)
    (h : Home env lst w p q) (hl : lst t = f :: rest) (hm : Move env w f o f') : Home env (fset lst t (f' :: rest)) (exec t o w).2 p q := by
  by_cases hq : o.quietQ = true
  · refine h.top hl (by rw [(exec_sameQ t o w hq).queue]; exact fun _ _ => id) (by rw [(exec_sameQ t o w hq).pool]; exact fun _ _ => id) ?_
    intro h1 h2
    refine Or.inr (Or.inr ⟨t, f', by simp [fset_same], ?_⟩)
    have hst : ∀ {m i b sf ph}, StFrame env m i b sf → p ∈ (sf ph).owned → False := fun hf h => by cases hf <;> cases h
    cases hm <;> first
      | exact ⟨h1, h2⟩
      | (cases hq; done)
      | exact (hst ‹_› h1).elim
      | (rename_i hf _; obtain ⟨rfl, _⟩ | rfl := hf <;> cases h1; done)
      | (cases h1; done)
  · obtain ⟨loc, ho⟩ := hown
    cases hm with
    | fTakeNew hpl =>
      refine h.top hl (by simp only [exec, hpl]; exact fun _ _ => id) (by simp only [exec, hpl]; exact fun _ _ => id) ?_
      intro h1; cases h1
    | @fTakeOld m ev p' ps hpl =>
      rcases h with h | ⟨s, h1, h2⟩ | ⟨u, g, h1, h2, h3⟩
      · exact Or.inl (by simpa only [exec, hpl] using h)
      · by_cases hs : s = (env.mach m).strat
        · subst hs
          rw [hpl] at h2
          rcases List.mem_cons.1 h2 with rfl | h2
          · exact Or.inr (Or.inr ⟨t, .fire m ev (.took p), by rw [fset_same]; exact List.mem_cons_self, List.mem_singleton.2 rfl, congrArg some h1⟩)
          · exact Or.inr (Or.inl ⟨_, h1, by simpa only [exec, hpl, fset_same] using h2⟩)
        · exact Or.inr (Or.inl ⟨s, h1, by simpa only [exec, hpl, fset_ne _ _ hs] using h2⟩)
      · by_cases hu : u = t
        · subst hu
          rw [hl] at h1
          rcases List.mem_cons.1 h1 with rfl | h1
          · cases h2
          · exact Or.inr (Or.inr ⟨u, g, by rw [fset_same]; simp [h1], h2, h3⟩)
        · exact Or.inr (Or.inr ⟨u, g, by rwa [fset_ne _ _ hu], h2, h3⟩)
    | @fSetRaw m ev p' =>
      refine h.top hl (fun _ _ => id) (fun _ _ => id) ?_
      intro h1 h2; exact Or.inr (Or.inr ⟨t, .fire m ev (.loaded p' ev), by rw [fset_same]; exact List.mem_cons_self, h1, h2⟩)
    | @fSetCopied m ev p' e =>
      refine h.top hl (fun _ _ => id) (fun _ _ => id) ?_
      intro h1 h2; exact Or.inr (Or.inr ⟨t, .fire m ev (.loaded p' e), by rw [fset_same]; exact List.mem_cons_self, h1, h2⟩)
    | @fOffer m ev p' e =>
      have hque : ∀ q, (exec t (.offer (env.qm m) p') w).2.queue q = fset w.queue (env.qm m) (w.queue (env.qm m) ++ [p']) q := by
        intro q; simp only [exec]; split <;> rfl
      have hpo : ∀ s, (exec t (.offer (env.qm m) p') w).2.pool s = w.pool s := by intro s; simp only [exec]; split <;> rfl
      refine h.top hl ?_ ?_ ?_
      · intro q p h
        rw [hque]
        by_cases hq : q = env.qm m
        · subst hq; simp [h]
        · rwa [fset_ne _ _ hq]
      · intro s p h; rwa [hpo]
      · intro h1 h2
        cases h2
        cases List.mem_singleton.1 h1
        exact Or.inl (by rw [hque]; simp)
    | @drPoll0 s cm b he =>
      refine h.top hl (by simp only [exec, he]; exact fun _ _ => id) (by simp only [exec, he]; exact fun _ _ => id) ?_
      intro h1; cases h1
    | @drPollBad s cm b p' ps he hn =>
      obtain ⟨ev, m, h1, _⟩ := ho.full (env.q s) p' (by rw [he]; simp)
      rw [hn] at h1; cases h1
    | @drPoll s cm b p' ps ev m he hp =>
      rcases h with h | ⟨s, h1, h2⟩ | ⟨u, g, h1, h2, h3⟩
      · by_cases hq : q = env.q s
        · subst hq
          rw [he] at h
          rcases List.mem_cons.1 h with rfl | h
          · exact Or.inr (Or.inr ⟨t, _, by rw [fset_same]; exact List.mem_cons_self, List.mem_singleton.2 rfl, rfl⟩)
          · exact Or.inl (by simpa only [exec, he, hp, World.log, fset_same] using h)
        · exact Or.inl (by simpa only [exec, he, hp, World.log, fset_ne _ _ hq] using h)
      · exact Or.inr (Or.inl ⟨s, h1, by simpa only [exec, he, hp, World.log] using h2⟩)
      · by_cases hu : u = t
        · subst hu
          rw [hl] at h1
          rcases List.mem_cons.1 h1 with rfl | h1
          · cases h2
          · exact Or.inr (Or.inr ⟨u, g, by rw [fset_same]; simp [h1], h2, h3⟩)
        · exact Or.inr (Or.inr ⟨u, g, by rwa [fset_ne _ _ hu], h2, h3⟩)
    | drPh ha => exact absurd (quiet_of_phOp (phAllowed_op ha)) hq
    | stPh hf hs ha => exact absurd (quiet_of_phOp (phAllowed_op ha)) hq
    | @drGive s cm p' ev m ph hph => exact give h hl rfl rfl
    | @drGiveErr s cm p' ev m x hx => exact give h hl rfl rfl
    | @drOver s cm p' ev m => exact give h hl rfl rfl
    | @drOverErr s cm p' ev m x => exact give h hl rfl rfl
    | _ => exact absurd rfl hq
where
  give {p : PairId} {q : QId} {f f' : Frame} {rest : List Frame} {s : SId} {p' : PairId} (h : Home env lst w p q)
      (hl : lst t = f :: rest) (hf : f.owned = [p']) (hh : f.homeQ env = some (env.q s)) :
      Home env (fset lst t (f' :: rest)) (exec t (.poolGive s p') w).2 p q := by
    have hque : ∀ q, (exec t (.poolGive s p') w).2.queue q = w.queue q := by intro q; simp only [exec]; split <;> rfl
    have hpo : ∀ s', (exec t (.poolGive s p') w).2.pool s' = fset w.pool s (w.pool s ++ [p']) s' := by
      intro s'; simp only [exec]; split <;> rfl
    refine h.top hl ?_ ?_ ?_
    · intro q p h; rwa [hque]
    · intro s' p h
      rw [hpo]
      by_cases hs : s' = s
      · subst hs; simp [h]
      · rwa [fset_ne _ _ hs]
    · intro h1 h2
      rw [hf] at h1
      cases List.mem_singleton.1 h1
      rw [hh] at h2
      exact Or.inr (Or.inl ⟨s, by simpa using h2, by rw [hpo]; simp⟩)

theorem home_lmove {p : PairId} {q : QId} {l' : List Frame} {o : Op} (hown : Own env lst w)
    (h : Home env lst w p q) (hm : LMove env w (lst t) o l') : Home env (fset lst t l') (exec t o w).2 p q := by
  generalize hl : lst t = l at hm
  cases hm with
  | @enter l c hc =>
    refine h.quiet (exec_sameQ t _ w rfl) fun f h1 h2 h3 => ⟨f, ?_, h2, h3⟩
    rw [hl] at h1; simp [h1]
  | @leave f rest c r hf =>
    refine h.quiet (exec_sameQ t _ w rfl) fun g h1 h2 h3 => ⟨g, ?_, h2, h3⟩
    rw [hl] at h1
    rcases List.mem_cons.1 h1 with rfl | h1
    · exfalso
      unfold Frame.leaves at hf
      split at hf
      · obtain ⟨_, _, rfl⟩ := hf; cases h2
      all_goals first | (cases h2; done) | exact hf
    · exact h1
  | user hc ho =>
    refine h.quiet (exec_sameQ t _ w (quiet_of_user ho)) fun f h1 h2 h3 => ⟨f, ?_, h2, h3⟩
    rw [hl] at h1; exact h1
  | frame hm => exact home_move hown h hl hm

/-- Only one queue. -/
theorem Home.unique {p : PairId} {q : QId} {f : Frame} {rest : List Frame} (h : Home env lst w p q) (hown : Own env lst w)
    (hl : lst t = f :: rest) (ho : f.owned = [p]) : f.homeQ env = some q := by
  obtain ⟨loc, h0⟩ := hown
  obtain ⟨h1, h2, -, -⟩ := h0.top hl ho
  rcases h with h | ⟨s, _, h⟩ | ⟨u, g, h3, h4, h5⟩
  · rw [h0.q, h1] at h; cases h
  · rw [h0.pl, h1] at h; cases h
  · have := (h0.ow u p).1 (List.mem_flatMap.2 ⟨g, h3, h4⟩)
    rw [h1] at this; cases this
    rw [hl] at h3
    rcases List.mem_cons.1 h3 with rfl | h3
    · exact h5
    · exact absurd (List.mem_flatMap.2 ⟨g, h3, h4⟩) h2

end

/-! #### The invariant -/

/-- `Spec.Firing`, for proper threads (not the environment). -/
def Firing (tr : Spec.Trace) (t : Tid) (m : MId) (ev : Ev) : Prop :=
  ∃ pre post, tr = pre ++ (t, .enter (.fire m ev)) :: post ∧ (t ≠ .env → ∀ e ∈ post, e.1 = t → ∃ n src v, e.2 = .copied n src v)

/-- `Spec.Reason`. -/
def Reason (queue : MId → QId) (q : QId) (tr : Spec.Trace) (t : Tid) (ev : Ev) : Prop :=
  (∃ x ∈ waiting q tr, x.1.eqv ev = true) ∨
  ∃ t' m' ev', t' ≠ t ∧ queue m' = q ∧ Firing tr t' m' ev' ∧ (ev'.eqv ev = true ∨ ∃ n, (copyOf ev' n).eqv ev = true)

/-- The last thing thread `t` did was to enter `k`; `a` is what happened before, `b` what happened since. -/
def Since (tr : Spec.Trace) (t : Tid) (k : Api) (a b : Spec.Trace) : Prop :=
  tr = a ++ (t, .enter k) :: b ∧ (t ≠ .env → ∀ e ∈ b, e.1 ≠ t)

/-- There was a reason at some moment since. -/
def Found (env : Env) (t : Tid) (m : MId) (ev : Ev) (a b : Spec.Trace) : Prop :=
  ∃ b1 b2, b = b1 ++ b2 ∧ Reason env.qm (env.qm m) (a ++ (t, .enter (.fire m ev)) :: b1) t ev

def Frame.dupInv (env : Env) (lst : Tid → List Frame) (w : World) (t : Tid) : Frame → Prop
  | .fire m ev (.scan ps) => ∃ a b, Since w.trace t (.fire m ev) a b ∧
      ∀ p ∈ ps, Home env lst w p (env.qm m) ∧ ∀ en m', w.pair p = some (en, m') → en.eqv ev = true → Found env t m ev a b
  | .fire m ev .dup => ∃ a b, Since w.trace t (.fire m ev) a b ∧ Found env t m ev a b
  | .fire m ev (.copied _ e) => Firing w.trace t m ev ∧ ∃ n, e = copyOf ev n
  | .fire _ _ (.loaded ..) | .fire _ _ .owing | .fire _ _ (.cb _) | .fire _ _ (.fin _) => True
  | .fire m ev _ => ∃ a b, Since w.trace t (.fire m ev) a b
  | _ => True

def stackInv (env : Env) (lst : Tid → List Frame) (w : World) (t : Tid) : List Frame → Prop
  | [] => True
  | f :: rest => f.dupInv env lst w t ∧ ∀ g ∈ rest, g.calling = true

/-- Every drop so far had a reason. -/
def Dropped (env : Env) (tr : Spec.Trace) : Prop :=
  ∀ pre t m ev post, tr = pre ++ (t, .dropped m ev) :: post → ∃ a b, Since pre t (.fire m ev) a b ∧ Found env t m ev a b

structure DupInv (env : Env) (lst : Tid → List Frame) (w : World) : Prop where
  st : ∀ t, stackInv env lst w t (lst t)
  dr : Dropped env w.trace

section
variable {env : Env} {lst lst' : Tid → List Frame} {w w' : World} {t : Tid}

theorem calling_inv {f : Frame} (h : f.calling = true) : f.dupInv env lst w t := by
  cases f with
  | fire m ev f => cases f <;> first | trivial | cases h
  | _ => trivial

theorem Found.mono {m : MId} {ev : Ev} {a b x : Spec.Trace} (h : Found env t m ev a b) : Found env t m ev a (b ++ x) := by
  obtain ⟨b1, b2, rfl, h⟩ := h
  exact ⟨b1, b2 ++ x, by rw [List.append_assoc], h⟩

theorem Since.mono {tr x a b : Spec.Trace} {k : Api} (h : Since tr t k a b) (hx : t ≠ .env → ∀ e ∈ x, e.1 ≠ t) : Since (tr ++ x) t k a (b ++ x) := by
  refine ⟨by rw [h.1]; simp, fun ht e he => ?_⟩
  rcases List.mem_append.1 he with he | he
  · exact h.2 ht e he
  · exact hx ht e he

theorem firing_mono {tr x : Spec.Trace} {m : MId} {ev : Ev} (h : Firing tr t m ev) (hx : t ≠ .env → ∀ e ∈ x, e.1 ≠ t) : Firing (tr ++ x) t m ev := by
  obtain ⟨a, b, h1, h2⟩ := h
  refine ⟨a, b ++ x, by rw [h1]; simp, fun ht e he het => ?_⟩
  rcases List.mem_append.1 he with he | he
  · exact h2 ht e he het
  · exact absurd het (hx ht e he)

theorem Since.firing {tr a b : Spec.Trace} {m : MId} {ev : Ev} (h : Since tr t (.fire m ev) a b) : Firing tr t m ev :=
  ⟨a, b, h.1, fun ht e he het => absurd het (h.2 ht e he)⟩

/-- What a thread knows survives steps of others that do not change pairs. -/
theorem dupInv_mono {f : Frame} (h : f.dupInv env lst w t) {x : Spec.Trace} (htr : w'.trace = w.trace ++ x)
    (hx : t ≠ .env → ∀ e ∈ x, e.1 ≠ t) (hpr : w'.pair = w.pair) (hh : ∀ p q, Home env lst w p q → Home env lst' w' p q) :
    f.dupInv env lst' w' t := by
  have hs : ∀ {m ev}, (∃ a b, Since w.trace t (.fire m ev) a b) → ∃ a b, Since w'.trace t (.fire m ev) a b := by
    rintro m ev ⟨a, b, h⟩
    exact ⟨a, b ++ x, by rw [htr]; exact h.mono hx⟩
  cases f with
  | fire m ev f =>
    cases f with
    | scan ps =>
      obtain ⟨a, b, h1, h2⟩ := h
      refine ⟨a, b ++ x, by rw [htr]; exact h1.mono hx, fun p hp => ⟨hh _ _ (h2 p hp).1, fun en m' he hv => ?_⟩⟩
      rw [hpr] at he
      exact ((h2 p hp).2 en m' he hv).mono
    | dup =>
      obtain ⟨a, b, h1, h2⟩ := h
      exact ⟨a, b ++ x, by rw [htr]; exact h1.mono hx, h2.mono⟩
    | copied p e => exact ⟨by rw [htr]; exact firing_mono h.1 hx, h.2⟩
    | _ => first | trivial | exact hs h
  | _ => trivial

/-- The pair `p` has been loaded with `e` by a thread that is just firing. -/
theorem dupInv_set {f : Frame} (h : f.dupInv env lst w t) {u : Tid} {p : PairId} {m : MId} {ev e : Ev}
    (hw : w' = { w with pair := fset w.pair p (some (e, m)) }) (hu : u ≠ t) (hf : Firing w.trace u m ev)
    (he : e = ev ∨ ∃ n, e = copyOf ev n) (hq : ∀ q, Home env lst w p q → env.qm m = q)
    (hh : ∀ p q, Home env lst w p q → Home env lst' w' p q) : f.dupInv env lst' w' t := by
  subst hw
  cases f with
  | fire m0 ev0 f =>
    cases f with
    | scan ps =>
      obtain ⟨a, b, h1, h2⟩ := h
      refine ⟨a, b, h1, fun p' hp => ⟨hh _ _ (h2 p' hp).1, fun en m' hen hv => ?_⟩⟩
      by_cases hpp : p' = p
      · subst hpp
        simp only [fset_same, Option.some.injEq, Prod.mk.injEq] at hen
        obtain ⟨rfl, rfl⟩ := hen
        refine ⟨b, [], by simp, Or.inr ⟨u, m, ev, hu, hq _ (h2 p' hp).1, by rw [← h1.1]; exact hf, ?_⟩⟩
        rcases he with rfl | ⟨n, rfl⟩
        · exact Or.inl hv
        · exact Or.inr ⟨n, hv⟩
      · simp only [fset_ne _ _ hpp] at hen
        exact (h2 p' hp).2 en m' hen hv
    | _ => first | trivial | exact h
  | _ => trivial

theorem stackInv_imp {l : List Frame} (h : stackInv env lst w t l) (hi : ∀ f : Frame, f.dupInv env lst w t → f.dupInv env lst' w' t) :
    stackInv env lst' w' t l := by
  cases l with
  | nil => trivial
  | cons f rest => exact ⟨hi f h.1, h.2⟩

theorem stackInv_rest {f : Frame} {rest : List Frame} (h : stackInv env lst w t (f :: rest)) : stackInv env lst' w' t rest := by
  cases rest with
  | nil => trivial
  | cons g rest => exact ⟨calling_inv (h.2 g (by simp)), fun g' h' => h.2 g' (by simp [h'])⟩

theorem stackInv_callable {l : List Frame} (h : stackInv env lst w t l) (hc : callable l) : stackInv env lst' w' t l := by
  cases l with
  | nil => trivial
  | cons g rest => exact ⟨calling_inv hc, h.2⟩

theorem Dropped.log {tr : Spec.Trace} (h : Dropped env tr) {o : Obs}
    (ho : ∀ m ev, o = .dropped m ev → ∃ a b, Since tr t (.fire m ev) a b ∧ Found env t m ev a b) : Dropped env (tr ++ [(t, o)]) := by
  intro pre u m ev post he
  rcases List.eq_nil_or_concat post with rfl | ⟨l, x, rfl⟩
  · obtain ⟨rfl, h2⟩ := List.append_inj' he rfl
    cases h2
    exact ho m ev rfl
  · rw [List.concat_eq_append] at he
    have h2 : tr ++ [(t, o)] = (pre ++ (u, .dropped m ev) :: l) ++ [x] := by simpa using he
    exact h _ _ _ _ _ (List.append_inj' h2 rfl).1

theorem Dropped.logs {tr x : Spec.Trace} (h : Dropped env tr) (hx : ∀ e ∈ x, ∀ m ev, e.2 ≠ .dropped m ev) : Dropped env (tr ++ x) := by
  induction x generalizing tr with
  | nil => simpa using h
  | cons e x ih =>
    rw [show tr ++ e :: x = (tr ++ [(e.1, e.2)]) ++ x by simp]
    exact ih (h.log fun m ev he => absurd he (hx e (by simp) m ev)) fun e' he' => hx e' (by simp [he'])

theorem waiting_own (h : Own env lst w) (q : QId) : waiting q w.trace = (w.queue q).filterMap w.pair := by
  obtain ⟨_, h⟩ := h
  rw [waiting, h.fifo q]; simp

theorem pair_exec {o : Op} (h : ∀ p e m, o ≠ .setPair p e m) : (exec t o w).2.pair = w.pair := by
  cases o <;> simp only [exec] <;> (repeat' split) <;> first | rfl | exact absurd rfl (h _ _ _)

theorem silent {o : Op} (h : opObs o w = none) : (exec t o w).2.trace = w.trace := by rw [exec_trace, h]; simp

theorem dupInv_move {f f' : Frame} {o : Op} {rest : List Frame} (hown : Own env lst w) (hl : lst t = f :: rest)
    (h : f.dupInv env lst w t) (hm : Move env w f o f') : f'.dupInv env (fset lst t (f' :: rest)) (exec t o w).2 t := by
  have hh := fun p q (hp : Home env lst w p q) => home_move hown hp hl hm
  cases hm with
  | @fSnap m ev hd =>
    obtain ⟨a, b, h1⟩ := h
    refine ⟨a, b, h1, fun p hp => ⟨Or.inl hp, fun en m' he hv => ⟨b, [], by simp, Or.inl ⟨(en, m'), ?_, hv⟩⟩⟩⟩
    rw [← h1.1, waiting_own hown]
    exact List.mem_filterMap.2 ⟨p, hp, he⟩
  | fScanEq he hv =>
    obtain ⟨a, b, h1, h2⟩ := h
    exact ⟨a, b, h1, (h2 _ (by simp)).2 _ _ he hv⟩
  | fScanNe he hv =>
    obtain ⟨a, b, h1, h2⟩ := h
    exact ⟨a, b, h1, fun p hp => ⟨hh _ _ (h2 p (by simp [hp])).1, (h2 p (by simp [hp])).2⟩⟩
  | fSize hf _ =>
    rcases hf with ⟨rfl, _⟩ | rfl
    · exact h
    · obtain ⟨a, b, h1, _⟩ := h; exact ⟨a, b, h1⟩
  | fSizeFull hf _ =>
    rcases hf with ⟨rfl, _⟩ | rfl
    · exact h
    · obtain ⟨a, b, h1, _⟩ := h; exact ⟨a, b, h1⟩
  | fTakeNew hp => simp only [Frame.dupInv, silent (o := .poolTake _) (t := t) (w := w) rfl]; exact h
  | fTakeOld hp => simp only [Frame.dupInv, silent (o := .poolTake _) (t := t) (w := w) rfl]; exact h
  | @fCopy m ev p =>
    obtain ⟨a, b, h1⟩ := h
    refine ⟨⟨a, b ++ [(t, .copied w.nextCopy ev (w.payload ev.oid))], by simp [exec, World.log, h1.1], fun ht e he het => ?_⟩, _, rfl⟩
    rcases List.mem_append.1 he with he | he
    · exact absurd het (h1.2 ht e he)
    · rw [List.mem_singleton.1 he]; exact ⟨_, _, _, rfl⟩
  | stCas1 hf => cases hf <;> trivial
  | stCas0 hf => cases hf <;> trivial
  | stSet hf => rcases hf.inv with ⟨rfl, _⟩ | ⟨rfl, _⟩ <;> trivial
  | stClear hf => cases hf <;> trivial
  | stPh hf => cases hf <;> trivial
  | _ => first | trivial | exact h

theorem dup_preserved (env : Env) : Preserved env (Own env) (DupInv env) where
  op := by
    intro lst w t o l' hown hj hm _
    have hh := fun p q (hp : Home env lst w p q) => home_lmove hown hp hm
    constructor
    · intro u
      by_cases hu : u = t
      · subst hu
        rw [fset_same]
        have hst := hj.st u
        generalize hl : lst u = l at hm hst
        cases hm with
        | @enter _ c hc =>
          refine ⟨?_, ?_⟩
          · cases c with
            | fire m ev => exact ⟨w.trace, [], rfl, by simp⟩
            | _ => trivial
          · intro g hg
            cases l with
            | nil => cases hg
            | cons f rest =>
              rcases List.mem_cons.1 hg with rfl | hg
              · exact hc
              · exact hst.2 g hg
        | leave hf => exact stackInv_rest hst
        | user hc ho => exact stackInv_callable hst hc
        | frame hm => exact ⟨dupInv_move hown hl hst.1 hm, hst.2⟩
      · rw [fset_ne _ _ hu]
        refine stackInv_imp (hj.st u) fun f hf => ?_
        by_cases hs : ∃ p e m, o = .setPair p e m
        · obtain ⟨p, e, m, rfl⟩ := hs
          generalize hl : lst t = l at hm
          have hst := hj.st t
          rw [hl] at hst
          cases hm with
          | user hc ho => exact ho.elim
          | frame hm =>
            cases hm with
            | fSetRaw =>
              obtain ⟨a, b, h1⟩ := hst.1
              exact dupInv_set hf rfl (Ne.symm hu) h1.firing (Or.inl rfl)
                (fun q hq => by have := hq.unique hown hl rfl; simpa [Frame.homeQ] using this) hh
            | fSetCopied =>
              exact dupInv_set hf rfl (Ne.symm hu) hst.1.1 (Or.inr hst.1.2)
                (fun q hq => by have := hq.unique hown hl rfl; simpa [Frame.homeQ] using this) hh
            | stPh _ _ ha => cases phAllowed_op ha
            | drPh ha => cases phAllowed_op ha
        · refine dupInv_mono hf (exec_trace t o w) ?_ (pair_exec fun p e m h => hs ⟨p, e, m, h⟩) hh
          intro _ e he
          simp only [Option.mem_toList, Option.map_eq_some_iff] at he
          obtain ⟨_, _, rfl⟩ := he
          exact Ne.symm hu
    · rw [exec_trace]
      cases ho : opObs o w with
      | none => simpa using hj.dr
      | some x =>
        refine hj.dr.log ?_
        rintro m ev rfl
        generalize hl : lst t = l at hm
        have hst := hj.st t
        rw [hl] at hst
        cases hm with
        | enter => cases ho
        | leave => cases ho
        | user hc h =>
          unfold userOp at h
          split at h <;> first | (cases ho; done) | exact h.elim
        | frame hm =>
          cases hm <;> first
            | (cases ho; done)
            | (cases ho; exact hst.1)
            | (simp only [opObs] at ho; (repeat' split at ho) <;> cases ho; done)
            | (rename_i ha; cases phAllowed_op ha <;> simp only [opObs] at ho <;> (repeat' split at ho) <;> cases ho; done)
            | (simp only [opObs, Option.map_eq_some_iff] at ho; (repeat' split at ho) <;> simp at ho; done)
  ret := by
    intro lst w t _ hj hf
    have hl := fin_own hf
    have hh : ∀ p q, Home env lst w p q → Home env (fset lst t []) w p q := fun p q h =>
      h.quiet (SameQ.refl w) fun f h1 h2 _ => by
        have : p ∈ ownedL (lst t) := List.mem_flatMap.2 ⟨f, h1, h2⟩
        rw [hl] at this; cases this
    refine ⟨fun u => ?_, hj.dr⟩
    by_cases hu : u = t
    · subst hu; rw [fset_same]; trivial
    · rw [fset_ne _ _ hu]; exact stackInv_imp (hj.st u) fun f hf => dupInv_mono (x := []) hf (by simp) (by simp) rfl hh
  thr := by
    intro lst w t x _ hj hf
    have hl := fin_own hf
    have hh : ∀ p q, Home env lst w p q → Home env (fset lst t []) (w.log t (.uncaught x)) p q := fun p q h =>
      h.quiet (sameQ_log w t _ rfl) fun f h1 h2 _ => by
        have : p ∈ ownedL (lst t) := List.mem_flatMap.2 ⟨f, h1, h2⟩
        rw [hl] at this; cases this
    refine ⟨fun u => ?_, hj.dr.log fun _ _ h => by cases h⟩
    by_cases hu : u = t
    · subst hu; rw [fset_same]; trivial
    · rw [fset_ne _ _ hu]
      exact stackInv_imp (hj.st u) fun f hf => dupInv_mono hf rfl (by simpa using fun _ h => hu h.symm) rfl hh
  dispatch := by
    intro lst w e i j s m _ hj hl _ _
    refine ⟨fun u => ?_, hj.dr⟩
    by_cases hu : u = .worker e i
    · subst hu; rw [fset_same]; exact ⟨trivial, fun _ h => by cases h⟩
    · rw [fset_ne _ _ hu]
      refine stackInv_imp (hj.st u) fun f hf => dupInv_mono (x := []) hf (by simp) (by simp) rfl fun p q h => ?_
      refine h.frames (w' := { w with tasks := _ }) (fun _ _ => id) (fun _ _ => id) fun f hf => ?_
      rw [hl] at hf; cases hf
  interrupt := by
    intro lst w t _ hj
    exact ⟨fun u => stackInv_imp (hj.st u) fun f hf => dupInv_mono (x := []) hf (by simp) (by simp) rfl fun p q h => h, hj.dr⟩
  shutdown := by
    intro lst w t _ hj
    exact ⟨fun u => stackInv_imp (hj.st u) fun f hf => dupInv_mono (x := []) hf (by simp) (by simp) rfl fun p q h => h, hj.dr⟩
  dropTasks := by
    intro lst w e _ hj
    refine ⟨fun u => stackInv_imp (hj.st u) fun f hf => ?_, hj.dr.logs ?_⟩
    · refine dupInv_mono hf rfl ?_ rfl fun p q h => h
      intro hu e' he
      obtain ⟨x, _, rfl⟩ := List.mem_map.1 he
      exact Ne.symm hu
    · intro e' he m ev h
      obtain ⟨x, _, rfl⟩ := List.mem_map.1 he
      cases h

end
end Verif
