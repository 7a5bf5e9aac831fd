import Verif.Proofs.Fates
/-
Consequences of the acceptance of histories: what is permanent, what happens at most once, calls and returns match.
-/

namespace Verif
open Spec.Calls
open Spec (Item)

section
variable {cfg : Cfg} {g g' : G} {tr a b : List (Tid × Obs)}

theorem run_split (h : Spec.Calls.run cfg g (a ++ b) = some g') :
    ∃ g1, Spec.Calls.run cfg g a = some g1 ∧ Spec.Calls.run cfg g1 b = some g' := by
  rw [run_append] at h
  cases h1 : Spec.Calls.run cfg g a with
  | none => rw [h1] at h; cases h
  | some g1 => rw [h1] at h; exact ⟨g1, rfl, h⟩

theorem run_cons {e : Tid × Obs} (h : Spec.Calls.run cfg g (e :: tr) = some g') :
    ∃ cs, g.mem.legal e.2 = true ∧ stack cfg g.mem (g.calls e.1) e.2 = some cs ∧
      Spec.Calls.run cfg ⟨g.mem.step e.2, fun t => ((fset g.calls e.1 cs) t).map (Call.look cfg (g.mem.step e.2) e.2)⟩ tr = some g' := by
  simp only [Spec.Calls.run] at h
  split at h
  · cases h
  next g1 hs =>
    simp only [Spec.Calls.step] at hs
    split at hs
    · split at hs
      · cases hs
      · cases hs
        exact ⟨_, ‹_›, ‹_›, h⟩
    · cases hs

/-! ### Permanent facts -/

theorem step_started (mem : Mem) (o : Obs) (m : MId) (h : mem.started m = true) : (mem.step o).started m = true := by
  cases o <;> simp only [Mem.step] <;> first | exact h | skip
  simp only [fset]; split
  · rfl
  · exact h

theorem memAt_started (mem : Mem) (a : List (Tid × Obs)) (m : MId) (h : mem.started m = true) :
    (memAt mem a).started m = true := by
  induction a generalizing mem with
  | nil => exact h
  | cons e a ih => exact ih _ (step_started _ _ _ h)

theorem started_of_mem {mem : Mem} {m : MId} {u : Tid} (h : (u, .started m) ∈ a) : (memAt mem a).started m = true := by
  induction a generalizing mem with
  | nil => cases h
  | cons e a ih =>
    rcases List.mem_cons.1 h with h | h
    · subst h
      exact memAt_started (mem.step (.started m)) a m (by simp [Mem.step])
    · exact ih h

theorem mem_of_started {mem : Mem} {m : MId} (h0 : mem.started m = false) (h : (memAt mem a).started m = true) :
    ∃ u, (u, .started m) ∈ a := by
  induction a generalizing mem with
  | nil => exact absurd (h0.symm.trans h) (by simp)
  | cons e a ih =>
    obtain ⟨t, o⟩ := e
    by_cases ho : o = .started m
    · subst ho; exact ⟨t, List.mem_cons_self⟩
    · have : (mem.step o).started m = false := by
        cases o <;> simp only [Mem.step] <;> first | exact h0 | skip
        rename_i m'
        have : m ≠ m' := by rintro rfl; exact ho rfl
        rw [fset_ne _ _ this]; exact h0
      obtain ⟨u, hu⟩ := ih this h
      exact ⟨u, List.mem_cons_of_mem _ hu⟩

theorem step_tk (mem : Mem) (o : Obs) (q : QId) : mem.tk q ≤ (mem.step o).tk q := by
  cases o <;> simp only [Mem.step] <;> first | exact Nat.le_refl _ | skip
  simp only [fset]; split
  · subst_vars; omega
  · exact Nat.le_refl _

theorem memAt_tk (mem : Mem) (a : List (Tid × Obs)) (q : QId) : mem.tk q ≤ (memAt mem a).tk q := by
  induction a generalizing mem with
  | nil => exact Nat.le_refl _
  | cons e a ih => exact Nat.le_trans (step_tk _ _ _) (ih _)

/-- `ended` is permanent as long as nobody clears it. -/
theorem run_ended {m : MId} (h : Spec.Calls.run cfg g tr = some g') (he : g.mem.ended m = true)
    (hn : ∀ u, (u, .cleared m) ∉ tr) : g'.mem.ended m = true := by
  induction tr generalizing g with
  | nil => cases h; exact he
  | cons e tr ih =>
    obtain ⟨cs, hl, hs, h'⟩ := run_cons h
    clear h
    obtain ⟨t, o⟩ := e
    refine ih h' ?_ (fun u hu => hn u (List.mem_cons_of_mem _ hu))
    show (g.mem.step o).ended m = true
    cases o <;> simp only [Mem.step] <;> first | exact he | skip
    · rename_i m'
      have : m ≠ m' := by rintro rfl; exact hn t List.mem_cons_self
      rw [fset_ne _ _ this]; exact he
    · rename_i m' _ _ _
      have : m ≠ m' := by
        rintro rfl
        simp only [Mem.legal, he] at hl; cases hl
      rw [fset_ne _ _ this]; exact he

theorem run_ended_upd {m : MId} {u : Tid} {s : St} {k : Bool} (h : Spec.Calls.run cfg g tr = some g')
    (hm : (u, .upd m s true k) ∈ tr) (hn : ∀ u, (u, .cleared m) ∉ tr) : g'.mem.ended m = true := by
  obtain ⟨a, b, rfl⟩ := List.append_of_mem hm
  obtain ⟨g1, h1, h2⟩ := run_split h
  obtain ⟨cs, hl, hs, h⟩ := run_cons h2
  refine run_ended h ?_ (fun u hu => hn u (by simp [hu]))
  simp [Mem.step]

/-- No machine is started twice. -/
theorem run_started_once {m : MId} {u v : Tid} {c : List (Tid × Obs)}
    (h : Spec.Calls.run cfg g (a ++ (u, .started m) :: (b ++ (v, .started m) :: c)) = some g') : False := by
  obtain ⟨g1, h1, h2⟩ := run_split h
  obtain ⟨cs, hl, hs, h3⟩ := run_cons h2
  obtain ⟨g2, h4, h5⟩ := run_split h3
  obtain ⟨cs', hl', hs', h6⟩ := run_cons h5
  have := run_mem h4
  rw [this] at hl'
  simp only [Mem.legal] at hl'
  rw [memAt_started _ _ _ (by simp [Mem.step])] at hl'
  cases hl'

/-! ### Counting -/

/-- Entries of thread `t` with property `P`. -/
def cnt (P : Obs → Bool) (t : Tid) (tr : List (Tid × Obs)) : Nat := tr.countP fun e => decide (e.1 = t) && P e.2

theorem cnt_append (P : Obs → Bool) (t : Tid) : cnt P t (a ++ b) = cnt P t a + cnt P t b := List.countP_append ..

theorem cnt_cons (P : Obs → Bool) (t u : Tid) (o : Obs) :
    cnt P t ((u, o) :: tr) = cnt P t tr + (if u = t then (P o).toNat else 0) := by
  simp only [cnt, List.countP_cons]
  by_cases h : u = t
  · cases P o <;> simp [h]
  · simp [h]

theorem cnt_pos {P : Obs → Bool} {t : Tid} {o : Obs} (h : (t, o) ∈ tr) (hp : P o = true) : 1 ≤ cnt P t tr :=
  List.countP_pos_iff.2 ⟨_, h, by simp [hp]⟩

theorem cnt_mem {P : Obs → Bool} {t : Tid} (h : 1 ≤ cnt P t tr) : ∃ o, (t, o) ∈ tr ∧ P o = true := by
  obtain ⟨e, he, hp⟩ := List.countP_pos_iff.1 h
  simp at hp
  obtain ⟨rfl, hp⟩ := hp
  exact ⟨e.2, he, hp⟩

theorem cnt_two {P : Obs → Bool} {t : Tid} (h : 2 ≤ cnt P t tr) :
    ∃ a o b o' c, tr = a ++ (t, o) :: (b ++ (t, o') :: c) ∧ P o = true ∧ P o' = true := by
  induction tr with
  | nil => simp [cnt] at h
  | cons e tr ih =>
    obtain ⟨u, o⟩ := e
    rw [cnt_cons] at h
    by_cases h2 : 2 ≤ cnt P t tr
    · obtain ⟨a, o1, b, o2, c, rfl, h1, h2⟩ := ih h2
      exact ⟨(u, o) :: a, o1, b, o2, c, rfl, h1, h2⟩
    · by_cases hu : u = t
      · subst hu
        rw [if_pos rfl] at h
        cases hp : P o with
        | false => rw [hp] at h; simp at h; omega
        | true =>
          rw [hp] at h; simp at h
          obtain ⟨o', ho', hp'⟩ := cnt_mem (P := P) (t := u) (tr := tr) (by omega)
          obtain ⟨b, c, rfl⟩ := List.append_of_mem ho'
          exact ⟨[], o, b, o', c, rfl, hp, hp'⟩
      · rw [if_neg hu] at h; omega

/-- Something every call can contribute to `δ` at most once, and only if it has done `σ` before. -/
structure Weight (cfg : Cfg) (δ σ : Obs → Bool) (φ : Api → Stage → Nat) : Prop where
  enter : ∀ k, (δ (.enter k)).toNat + φ k .called ≤ (σ (.enter k)).toNat
  leave : ∀ c r, returns cfg c r = true → (δ (.leave c.api r)).toNat ≤ φ c.api c.st + (σ (.leave c.api r)).toNat
  next : ∀ mem c o st, next cfg mem c o = some st → (δ o).toNat + φ c.api st ≤ φ c.api c.st + (σ o).toNat
  other : ∀ o, userObs o = true ∨ background o = true ∨ (∃ s m, o = .taskDropped s m) → (δ o).toNat ≤ (σ o).toNat

def weight (φ : Api → Stage → Nat) (cs : List Spec.Calls.Call) : Nat := (cs.map fun c => φ c.api c.st).sum

theorem weight_look (φ : Api → Stage → Nat) (mem : Mem) (o : Obs) (cs : List Spec.Calls.Call) :
    weight φ (cs.map (Call.look cfg mem o)) = weight φ cs := by
  induction cs with
  | nil => rfl
  | cons c cs ih => simp only [weight, List.map_cons, List.sum_cons] at ih ⊢; rw [ih]; rfl

theorem weight_stack {δ σ : Obs → Bool} {φ : Api → Stage → Nat} (hw : Weight cfg δ σ φ) {mem : Mem}
    {cs cs' : List Spec.Calls.Call} {o : Obs} (h : stack cfg mem cs o = some cs') :
    (δ o).toNat + weight φ cs' ≤ weight φ cs + (σ o).toNat := by
  unfold stack at h
  split at h
  · cases h; rename_i s m; have := hw.other (.taskDropped s m) (Or.inr (Or.inr ⟨_, _, rfl⟩)); omega
  · cases h; rename_i k; have := hw.enter k; simp only [weight, List.map_cons, List.map_nil, List.sum_cons, List.sum_nil]; omega
  · split at h <;> cases h
    rename_i k c cs _; have := hw.enter k; simp only [weight, List.map_cons, List.sum_cons]; omega
  · split at h <;> cases h
    rename_i h; obtain ⟨rfl, h⟩ := h
    have := hw.leave _ _ h
    simp only [weight, List.map_cons, List.sum_cons] at *; omega
  · cases h
  · split at h <;> cases h
    have := hw.other _ (Or.inr (Or.inl ‹_›)); omega
  · split at h
    · cases h
      rename_i h
      have := hw.other _ (Or.inl h.2); omega
    · split at h <;> cases h
      have := hw.next _ _ _ _ ‹_›
      simp only [weight, List.map_cons, List.sum_cons] at *; omega

theorem weight_run {δ σ : Obs → Bool} {φ : Api → Stage → Nat} (hw : Weight cfg δ σ φ)
    (h : Spec.Calls.run cfg g tr = some g') (t : Tid) :
    cnt δ t tr + weight φ (g'.calls t) ≤ weight φ (g.calls t) + cnt σ t tr := by
  induction tr generalizing g with
  | nil => cases h; simp [cnt]
  | cons e tr ih =>
    obtain ⟨cs, hl, hs, h⟩ := run_cons h
    obtain ⟨u, o⟩ := e
    have := ih h
    rw [weight_look] at this
    rw [cnt_cons, cnt_cons]
    by_cases hu : u = t
    · subst hu
      rw [fset_same] at this
      have := weight_stack hw hs
      simp only [if_pos] at *
      omega
    · rw [fset_ne _ _ (Ne.symm hu)] at this
      simp only [if_neg hu] at *
      omega

/-- `start` or `startInState` of machine `m`. -/
def _root_.Verif.Api.starts (m : MId) : Api → Bool
  | .start m' | .startInState m' _ => m' = m
  | _ => false

def _root_.Verif.Obs.isStarted (m : MId) : Obs → Bool
  | .started m' => m' = m
  | _ => false
def _root_.Verif.Obs.isCleared (m : MId) : Obs → Bool
  | .cleared m' => m' = m
  | _ => false
/-- Normal return of `start` or `startInState` of machine `m`. -/
def _root_.Verif.Obs.isStartOk (m : MId) : Obs → Bool
  | .leave k none => k.starts m
  | _ => false
def _root_.Verif.Obs.entersStart (m : MId) : Obs → Bool
  | .enter k => k.starts m
  | _ => false
def _root_.Verif.Obs.leavesStart (m : MId) : Obs → Bool
  | .leave k _ => k.starts m
  | _ => false

def okφ (m : MId) (k : Api) : Stage → Nat
  | .won | .entered _ | .inCb .. | .done none => (k.starts m).toNat
  | _ => 0

def clrφ (m : MId) (k : Api) : Stage → Nat
  | .won | .entered _ | .inCb .. => (k.starts m).toNat
  | _ => 0

theorem weight_ok (m : MId) : Weight cfg (Obs.isStartOk m) (Obs.isStarted m) (okφ m) where
  enter k := by simp [Obs.isStartOk, okφ]
  leave c r h := by
    cases r with
    | some x => simp [Obs.isStartOk]
    | none =>
      unfold returns at h
      split at h
      · rename_i r' hst
        have : none = r' := by simpa using h
        subst this
        simp [hst, okφ, Obs.isStartOk]
      · rename_i hk hst; simp [hk, Obs.isStartOk, Api.starts]
      · split at h
        · simp at h
        · simp at h
      · split at h
        · simp at h
        · simp at h
      · simp at h
      · simp at h
      · cases h
  next mem c o st h := by
    unfold next at h
    split at h
    all_goals first | (cases h; done) | skip
    all_goals (rename_i hapi hst; simp only [hapi, hst])
    all_goals split at h
    all_goals first | (cases h; done) | skip
    all_goals first | (split at h <;> cases h) | cases h
    all_goals rename_i hc
    all_goals simp_all [okφ, Obs.isStartOk, Obs.isStarted, Api.starts]
    all_goals (try split) <;> simp
  other o h := by
    cases o <;> simp [Obs.isStartOk]
    rename_i k r
    rcases h with h | h | ⟨s, m', h⟩
    · cases h
    · cases h
    · cases h

theorem weight_clr (m : MId) : Weight cfg (Obs.isCleared m) (Obs.isStarted m) (clrφ m) where
  enter k := by simp [Obs.isCleared, clrφ]
  leave c r h := by simp [Obs.isCleared]
  next mem c o st h := by
    unfold next at h
    split at h
    all_goals first | (cases h; done) | skip
    all_goals (rename_i hapi hst; simp only [hapi, hst])
    all_goals split at h
    all_goals first | (cases h; done) | skip
    all_goals first | (split at h <;> cases h) | cases h
    all_goals rename_i hc
    all_goals simp_all [clrφ, Obs.isCleared, Obs.isStarted, Api.starts]
  other o h := by
    cases o <;> simp [Obs.isCleared]
    rcases h with h | h | ⟨s, m', h⟩ <;> cases h

theorem weight_open (m : MId) : Weight cfg (Obs.leavesStart m) (Obs.entersStart m) (fun k _ => (k.starts m).toNat) where
  enter k := by simp [Obs.leavesStart, Obs.entersStart]
  leave c r h := by simp [Obs.leavesStart]
  next mem c o st h := by
    unfold next at h
    split at h
    all_goals first | (cases h; done) | simp [Obs.leavesStart]
  other o h := by
    cases o <;> simp [Obs.leavesStart]
    rcases h with h | h | ⟨s, m', h⟩ <;> cases h

/-! ### Calls and returns match -/

theorem own_nil (t : Tid) : own t 0 [] = some [] := rfl

theorem own_other {t : Tid} {o : Obs} (n1 : ∀ k, o ≠ .enter k) (n2 : ∀ k r, o ≠ .leave k r)
    (n3 : ∀ s m, o ≠ .taskDropped s m) (d : Nat) (tr : List (Tid × Obs)) : own t d ((t, o) :: tr) =
      if d = 0 ∧ userObs o = false then (own t d tr).map (o :: ·) else own t d tr := by
  cases o <;> first | exact absurd rfl (n1 _) | exact absurd rfl (n2 _ _) | exact absurd rfl (n3 _ _) | simp [own]

/-- Entries of one thread that are inside a closed segment do not show. -/
theorem own_append {t : Tid} : ∀ {e : Nat} {a : List (Tid × Obs)} {os : List Obs}, own t e a = some os →
    (∀ b, own t e (a ++ b) = (own t 0 b).map (os ++ ·)) ∧
    (∀ d b, own t (e + d + 1) (a ++ b) = own t (d + 1) b) := by
  intro e a
  induction a generalizing e with
  | nil =>
    intro os h
    simp only [own] at h
    split at h <;> cases h
    subst_vars
    refine ⟨fun b => ?_, fun d b => ?_⟩
    · show own t 0 b = _
      cases own t 0 b <;> rfl
    · simp
  | cons x a ih =>
    obtain ⟨u, o⟩ := x
    intro os h
    simp only [own] at h
    split at h
    · rename_i hu
      obtain ⟨h1, h2⟩ := ih h
      refine ⟨fun b => ?_, fun d b => ?_⟩
      · simp only [List.cons_append, own, if_pos hu]; exact h1 b
      · simp only [List.cons_append, own, if_pos hu]; exact h2 d b
    · rename_i hu
      split at h
      · obtain ⟨h1, h2⟩ := ih h
        refine ⟨fun b => ?_, fun d b => ?_⟩
        · simp only [List.cons_append, own, if_neg hu]; exact h1 b
        · simp only [List.cons_append, own, if_neg hu]
          have := h2 d b
          rw [show e + d + 1 + 1 = e + 1 + d + 1 by omega]; exact this
      · split at h
        · cases h
        · rename_i e'
          obtain ⟨h1, h2⟩ := ih h
          refine ⟨fun b => ?_, fun d b => ?_⟩
          · simp only [List.cons_append, own, if_neg hu]; exact h1 b
          · rw [show e'.succ + d + 1 = (e' + d + 1) + 1 by omega]
            simp only [List.cons_append, own, if_neg hu]
            exact h2 d b
      · obtain ⟨h1, h2⟩ := ih h
        refine ⟨fun b => ?_, fun d b => ?_⟩
        · simp only [List.cons_append, own, if_neg hu]; exact h1 b
        · simp only [List.cons_append, own, if_neg hu]; exact h2 d b
      · rename_i n1 n2 n3
        have hu : u = t := by simpa using hu
        subst hu
        split at h
        · rename_i hc
          cases ho : own u e a with
          | none => rw [ho] at h; cases h
          | some os' =>
            rw [ho] at h
            cases h
            obtain ⟨h1, h2⟩ := ih ho
            refine ⟨fun b => ?_, fun d b => ?_⟩
            · rw [List.cons_append, own_other n1 n2 n3, if_pos hc, h1 b]; cases own u 0 b <;> rfl
            · rw [List.cons_append, own_other n1 n2 n3, if_neg (by omega), h2 d b]
        · rename_i hc
          obtain ⟨h1, h2⟩ := ih h
          refine ⟨fun b => ?_, fun d b => ?_⟩
          · rw [List.cons_append, own_other n1 n2 n3, if_neg hc]; exact h1 b
          · rw [List.cons_append, own_other n1 n2 n3, if_neg (by omega)]; exact h2 d b

/-- The open calls of thread `t` after history `tr`: where they were entered. -/
inductive Opens (t : Tid) : List (Tid × Obs) → List Spec.Calls.Call → Prop
  | nil {tr : List (Tid × Obs)} : Opens t tr []
  | cons {pre mid os c cs} : Opens t pre cs → own t 0 mid = some os → Opens t (pre ++ (t, .enter c.api) :: mid) (c :: cs)

theorem Opens.map {t : Tid} {cs : List Spec.Calls.Call} {f : Spec.Calls.Call → Spec.Calls.Call}
    (hf : ∀ c, (f c).api = c.api) (h : Opens t tr cs) : Opens t tr (cs.map f) := by
  induction h with
  | nil => exact .nil
  | cons h1 h2 ih => rename_i c cs; rw [← hf c]; exact .cons ih h2

/-- An entry that neither opens nor closes a call of `t`. -/
theorem Opens.snoc {t u : Tid} {o : Obs} {cs : List Spec.Calls.Call}
    (ho : u = t → (∀ k, o ≠ .enter k) ∧ (∀ k r, o ≠ .leave k r)) (h : Opens t tr cs) : Opens t (tr ++ [(u, o)]) cs := by
  cases h with
  | nil => exact .nil
  | @cons pre mid os c cs h1 h2 =>
    have : ∃ os', own t 0 (mid ++ [(u, o)]) = some os' := by
      rw [(own_append h2).1]
      by_cases hu : u = t
      · obtain ⟨n1, n2⟩ := ho hu
        subst hu
        simp only [own]
        cases o <;> simp <;> first | exact absurd rfl (n1 _) | exact absurd rfl (n2 _ _) | skip
        all_goals (split <;> simp)
      · simp [own, hu]
    obtain ⟨os', hos⟩ := this
    rw [List.append_assoc, List.cons_append]
    exact .cons h1 hos

theorem opens_run {t : Tid} {pre : List (Tid × Obs)} (h : Spec.Calls.run cfg g tr = some g') (h0 : Opens t pre (g.calls t)) :
    Opens t (pre ++ tr) (g'.calls t) := by
  induction tr generalizing g pre with
  | nil => cases h; simpa using h0
  | cons e tr ih =>
    obtain ⟨cs, hl, hs, h'⟩ := run_cons h
    clear h
    obtain ⟨u, o⟩ := e
    rw [show pre ++ (u, o) :: tr = (pre ++ [(u, o)]) ++ tr by simp]
    refine ih h' ?_
    refine Opens.map (fun _ => rfl) ?_
    by_cases hu : u = t
    case neg =>
      rw [fset_ne _ _ (Ne.symm hu)]
      exact h0.snoc (fun h => absurd h hu)
    subst hu
    rw [fset_same]
    simp only at hs
    unfold stack at hs
    split at hs
    · cases hs; exact h0.snoc (fun _ => ⟨fun _ => Obs.noConfusion, fun _ _ => Obs.noConfusion⟩)
    · cases hs
      rename_i hc
      rw [hc] at h0
      exact .cons (c := ⟨_, .called, {}, _⟩) h0 (own_nil _)
    · split at hs <;> cases hs
      rename_i hc _
      rw [hc] at h0
      exact .cons (c := ⟨_, .called, {}, _⟩) h0 (own_nil _)
    · rename_i k r c cs' hc
      rw [hc] at h0
      split at hs
      case isFalse => cases hs
      rename_i hk
      obtain ⟨rfl, _⟩ := hk
      have hs : cs' = cs := by simpa using hs
      subst hs
      generalize hcs : c :: cs' = x at h0
      cases h0 with
      | nil => cases hcs
      | @cons pre' mid os c' cs'' h1 h2 =>
        cases hcs
        cases h1 with
        | nil => exact .nil
        | @cons pre'' mid' os' c'' cs''' h3 h4 =>
          have h5 : own u 0 (mid' ++ (u, .enter c.api) :: (mid ++ [(u, .leave c.api r)])) = some (os' ++ []) := by
            rw [(own_append h4).1]
            simp only [own, ne_eq, not_true, if_false]
            have := (own_append h2).2 0 [(u, .leave c.api r)]
            simp only [Nat.zero_add] at this
            rw [this]
            simp [own]
          have := Opens.cons (c := c'') h3 h5
          simpa using this
    · cases hs
    · split at hs <;> cases hs
      exact .nil
    · rename_i o _ _ c cs' n1 n2 n3 hc
      rw [hc] at h0
      have hsn : Opens u (pre ++ [(u, o)]) (c :: cs') := h0.snoc (fun _ => ⟨fun k h => n2 k h, fun k r h => n3 k r h⟩)
      split at hs
      · cases hs; exact hsn
      · split at hs <;> cases hs
        rename_i st _
        generalize pre ++ [(u, o)] = y at hsn ⊢
        generalize hcs : c :: cs' = x at hsn
        cases hsn with
        | nil => cases hcs
        | cons h1 h2 =>
          cases hcs
          exact Opens.cons (c := { c with st := st }) h1 h2

/-- Every return belongs to a call. -/
theorem leave_isCall {t : Tid} {k : Api} {r : Option Exc} (h0 : ∀ t, g.calls t = [])
    (h : Spec.Calls.run cfg g (a ++ (t, .leave k r) :: b) = some g') :
    ∃ pre mid os, a = pre ++ (t, .enter k) :: mid ∧ own t 0 mid = some os := by
  obtain ⟨g1, h1, h2⟩ := run_split h
  obtain ⟨cs, hl, hs, h3⟩ := run_cons h2
  have ho := opens_run (t := t) (pre := []) h1 (by rw [h0]; exact .nil)
  simp only [List.nil_append] at ho
  cases hc : g1.calls t with
  | nil => rw [hc] at hs; cases hs
  | cons c cs' =>
    rw [hc] at hs ho
    simp only [stack] at hs
    split at hs
    case isFalse => cases hs
    rename_i hk
    generalize hcs : c :: cs' = x at ho
    cases ho with
    | nil => cases hcs
    | cons h1 h2 =>
      cases hcs
      rw [← hk.1]
      exact ⟨_, _, _, rfl, h2⟩

/-- The entries of a call itself are part of the history. -/
theorem own_mem {t : Tid} : ∀ {d : Nat} {os : List Obs}, own t d a = some os → ∀ o ∈ os, (t, o) ∈ a := by
  induction a with
  | nil =>
    intro d os h o ho
    simp only [own] at h
    split at h <;> cases h
    cases ho
  | cons e a ih =>
    obtain ⟨u, x⟩ := e
    intro d os h o ho
    by_cases hu : u = t
    case neg =>
      simp only [own, if_pos (show u ≠ t from hu)] at h
      exact List.mem_cons_of_mem _ (ih h o ho)
    subst hu
    simp only [own, ne_eq, not_true, if_false] at h
    split at h
    · exact List.mem_cons_of_mem _ (ih h o ho)
    · split at h
      · cases h
      · exact List.mem_cons_of_mem _ (ih h o ho)
    · exact List.mem_cons_of_mem _ (ih h o ho)
    · split at h
      · cases hs : own u d a with
        | none => rw [hs] at h; cases h
        | some os' =>
          rw [hs] at h; cases h
          rcases List.mem_cons.1 ho with rfl | ho
          · exact List.mem_cons_self
          · exact List.mem_cons_of_mem _ (ih hs o ho)
      · exact List.mem_cons_of_mem _ (ih h o ho)

/-! ### Payloads -/

theorem memAt_copies (mem : Mem) (a : List (Tid × Obs)) : mem.copies ≤ (memAt mem a).copies := by
  induction a generalizing mem with
  | nil => exact Nat.le_refl _
  | cons e a ih =>
    refine Nat.le_trans ?_ (ih (mem.step e.2))
    cases e.2 <;> simp [Mem.step]

/-- Copies are numbered, and take the payload of their original. -/
theorem run_copied {t : Tid} {n : Nat} {src : Ev} {v : Option Val}
    (h : Spec.Calls.run cfg g ((t, .copied n src v) :: tr) = some g') : n = g.mem.copies ∧ v = g.mem.pay src.oid := by
  obtain ⟨cs, hl, hs, h'⟩ := run_cons h
  simp only at hs
  cases hc : g.calls t with
  | nil => rw [hc] at hs; simp [stack, background, userObs] at hs
  | cons c cs' =>
    rw [hc] at hs
    simp only [stack, userObs, Bool.false_eq_true, and_false, if_false] at hs
    split at hs
    · rename_i hn
      obtain ⟨api, st, seen, since⟩ := c
      cases st <;> cases api <;> simp [next] at hn
      obtain ⟨⟨rfl, h1, h2, -⟩, -⟩ := hn
      exact ⟨h1, h2⟩
    · cases hs

/-- The payload of a copy changes only when somebody sets it. -/
theorem run_copy_pay {n : Nat} (h : Spec.Calls.run cfg g tr = some g') (hn : n < g.mem.copies)
    (hp : ∀ u v, (u, .payload (.copy n) v) ∉ tr) : g'.mem.pay (.copy n) = g.mem.pay (.copy n) := by
  induction tr generalizing g with
  | nil => cases h; rfl
  | cons e tr ih =>
    obtain ⟨u, o⟩ := e
    have hc : ∀ n' src v, o = .copied n' src v → n' = g.mem.copies := by
      rintro n' src v rfl; exact (run_copied h).1
    obtain ⟨cs, hl, hs, h'⟩ := run_cons h
    rw [ih h' (Nat.lt_of_lt_of_le hn (memAt_copies g.mem [(u, o)])) (fun u v hu => hp u v (List.mem_cons_of_mem _ hu))]
    show (g.mem.step o).pay (.copy n) = _
    clear h h' ih hs hl
    cases o <;> simp only [Mem.step]
    · rename_i n' src v
      have := hc _ _ _ rfl
      rw [fset_ne]
      intro he; cases he; omega
    · rename_i o' v
      rw [fset_ne]
      rintro rfl
      exact hp u v List.mem_cons_self

end
end Verif
