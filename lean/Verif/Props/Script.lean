import Verif.Props.Course
import Verif.Spec.Script
/-
C60: order and number of the things done for an event, in any environment.
-/

namespace Verif
open Spec.Course
open Spec (Desc)
open Spec.Mon (Mem)

namespace Course

/-! ### What is left to do -/

/-- What a single thing to do may amount to. -/
def Exp (d : Desc) (ev : Ev) : Todo → List Deed → Prop
  | .check, l => l = []
  | .decide, l => Script d ev l
  | .say b to, l => ∃ a, Maybe (.call (note d.m b a ev to)) l
  | .move b, l => ∃ a x y l1 l2 l3 l4, Maybe (.call (.begin d.m a ev b)) l1 ∧ Maybe (.enter d.m b) l2 ∧ Maybe (.call (.end_ d.m a ev b)) l3 ∧
      Maybe (.enter d.m d.endSt) l4 ∧ (l4 ≠ [] → d.final b = true) ∧
      l = l1 ++ allActions d .exit x ev ++ l2 ++ allActions d .entry y ev ++ l3 ++ l4
  | .tell c, l | .told c, l => Maybe (.call c) l
  | .acts k, l => ∃ x, l = allActions d k x ev
  | .call c, l => l = [.call c]
  | .ret _, l | .write _, l => l = []
  | .set b, l => Maybe (.enter d.m b) l

def Rest (d : Desc) (ev : Ev) : List Todo → List Deed → Prop
  | [], l => l = []
  | .check :: td, l => l = [] ∨ Rest d ev td l
  | x :: td, l => ∃ l1 l2, Exp d ev x l1 ∧ Rest d ev td l2 ∧ l = l1 ++ l2

variable {d : Desc} {ev : Ev}

theorem maybe_nil {x : Deed} : Maybe x [] := .inl rfl
theorem maybe_one {x : Deed} : Maybe x [x] := .inr rfl

theorem exp_some (x : Todo) : ∃ l, Exp d ev x l := by
  cases x with
  | check => exact ⟨_, rfl⟩
  | decide => exact ⟨_, Script.skipped⟩
  | say b to => exact ⟨[], d.endSt, .inl rfl⟩
  | move b => exact ⟨_, d.endSt, d.endSt, d.endSt, [], [], [], [], .inl rfl, .inl rfl, .inl rfl, .inl rfl, fun h => absurd rfl h, rfl⟩
  | tell c => exact ⟨[], .inl rfl⟩
  | told c => exact ⟨[], .inl rfl⟩
  | acts k => exact ⟨_, d.endSt, rfl⟩
  | call c => exact ⟨_, rfl⟩
  | ret c => exact ⟨_, rfl⟩
  | set b => exact ⟨[], .inl rfl⟩
  | write b => exact ⟨_, rfl⟩

theorem rest_cons {x : Todo} {td : List Todo} {l1 l2 : List Deed} (h1 : Exp d ev x l1) (h2 : Rest d ev td l2) : Rest d ev (x :: td) (l1 ++ l2) := by
  cases x <;> first | exact ⟨l1, l2, h1, h2, rfl⟩ | (cases h1; exact .inr h2)

theorem rest_some (td : List Todo) : ∃ l, Rest d ev td l := by
  induction td with
  | nil => exact ⟨[], rfl⟩
  | cons x td ih =>
    obtain ⟨l2, h2⟩ := ih
    obtain ⟨l1, h1⟩ := exp_some (d := d) (ev := ev) x
    exact ⟨_, rest_cons h1 h2⟩

theorem rest_inv {x : Todo} {td : List Todo} {l : List Deed} (hx : x ≠ .check) (h : Rest d ev (x :: td) l) :
    ∃ l1 l2, Exp d ev x l1 ∧ Rest d ev td l2 ∧ l = l1 ++ l2 := by
  cases x <;> first | exact absurd rfl hx | exact h

theorem rest_calls {k : Kind} {a : St} {td : List Todo} {l : List Deed} (h : Rest d ev (calls d k a ev ++ td) l) :
    ∃ l2, Rest d ev td l2 ∧ l = allActions d k a ev ++ l2 := by
  unfold calls at h
  unfold allActions
  generalize List.range (d.nacts k a.oid) = is at h
  induction is generalizing l with
  | nil => exact ⟨l, h, rfl⟩
  | cons i is ih =>
    obtain ⟨l1, l2, rfl, h2, rfl⟩ := rest_inv (by simp) h
    obtain ⟨l3, h3, rfl⟩ := ih h2
    exact ⟨l3, h3, rfl⟩

theorem rest_steps {a b : St} {td : List Todo} {l : List Deed} (h : Rest d ev (steps d a ev b ++ td) l) : Rest d ev (.move b :: td) l := by
  unfold steps at h
  simp only [List.cons_append, List.nil_append] at h
  obtain ⟨l1, r1, h1, g1, rfl⟩ := rest_inv (by simp) h
  obtain ⟨_, r2, ⟨x, rfl⟩, g2, rfl⟩ := rest_inv (by simp) g1
  obtain ⟨l2, r3, h2, g3, rfl⟩ := rest_inv (by simp) g2
  obtain ⟨_, r4, ⟨y, rfl⟩, g4, rfl⟩ := rest_inv (by simp) g3
  obtain ⟨l3, r5, h3, g5, rfl⟩ := rest_inv (by simp) g4
  have h1 : Maybe (.call (.begin d.m a ev b)) l1 := h1
  have h3 : Maybe (.call (.end_ d.m a ev b)) l3 := h3
  by_cases hf : d.final b = true
  · rw [if_pos hf] at g5
    obtain ⟨l4, r6, h4, g6, rfl⟩ := rest_inv (by simp) g5
    refine ⟨_, r6, ⟨a, x, y, l1, l2, l3, l4, h1, h2, h3, h4, fun _ => hf, rfl⟩, g6, by simp⟩
  · rw [if_neg hf] at g5
    refine ⟨_, r5, ⟨a, x, y, l1, l2, l3, [], h1, h2, h3, .inl rfl, fun h => absurd rfl h, rfl⟩, g5, by simp⟩

theorem rest_choice {a : Option St} {td : List Todo} {l0 : List Todo} {l : List Deed} (hc : choice d a ev = some l0)
    (h : Rest d ev (l0 ++ td) l) : Rest d ev (.decide :: td) l := by
  simp only [choice, Option.map_eq_some_iff] at hc
  obtain ⟨row, hrow, hc⟩ := hc
  cases ht : row.target (some ev.key) with
  | none =>
    rw [ht] at hc
    subst hc
    obtain ⟨l1, l2, rfl, h2, rfl⟩ := rest_inv (by simp) h
    exact ⟨_, l2, .unmapped, h2, rfl⟩
  | some b =>
    rw [ht] at hc
    have htar : aims d ev b := ⟨a, row, hrow, ht⟩
    simp only at hc
    split at hc <;> subst hc
    · obtain ⟨l1, r1, ⟨a1, h1⟩, g1, rfl⟩ := rest_inv (by simp) h
      obtain ⟨l2, r2, ⟨a2, h2⟩, g2, rfl⟩ := rest_inv (by simp) g1
      exact ⟨_, r2, .stays htar ‹_› h1 h2, g2, by simp⟩
    · obtain ⟨l1, r1, ⟨a1, x, y, m1, m2, m3, m4, h1, h2, h3, h4, h5, rfl⟩, g1, rfl⟩ := rest_inv (by simp) h
      exact ⟨_, r1, .moves htar ‹_› h1 h2 h3 h4 h5, g1, rfl⟩

/-! ### The deeds so far -/

/-- After `p`, exception `x` was thrown and reported. -/
def Report (thr : Exc → Prop) (d : Desc) (ev : Ev) (x : Exc) (L : List Deed) : Prop :=
  x.isException = true ∧ (x = .npe ∨ thr x) ∧ ∃ full p, Script d ev full ∧ p <+: full ∧ L = p ++ [.call (.flowEx d.m ev x)]

/-- The thread is at event `ev` of machine `m` for strategy `s`, and has done `L` for it. -/
def Doing (thr : Exc → Prop) (cfg : Cfg) (s : SId) (m : MId) (ev : Ev) (L : List Deed) : Stage → Prop
  | .busy s' _ m' ev' td => s' = s ∧ m' = m ∧ ev' = ev ∧ ∀ l, Rest (cfg.desc s m) ev td l → Script (cfg.desc s m) ev (L ++ l)
  | .thrown s' _ m' ev' x => s' = s ∧ m' = m ∧ ev' = ev ∧ (x = .npe ∨ thr x) ∧ ∃ full, Script (cfg.desc s m) ev full ∧ L <+: full
  | .flow s' _ m' ev' x => s' = s ∧ m' = m ∧ ev' = ev ∧ Report thr (cfg.desc s m) ev x L
  | .over s' _ m' ev' _ => s' = s ∧ m' = m ∧ ev' = ev ∧ ∃ x, Report thr (cfg.desc s m) ev x L
  | _ => False

variable {thr : Exc → Prop} {cfg : Cfg} {s : SId} {m : MId} {L : List Deed} {t : Tid}

theorem doing_prefix {s' : SId} {cm m' : MId} {ev' : Ev} {td : List Todo} (h : Doing thr cfg s m ev L (.busy s' cm m' ev' td)) :
    ∃ full, Script (cfg.desc s m) ev full ∧ L <+: full := by
  obtain ⟨_, _, _, h⟩ := h
  obtain ⟨l, hl⟩ := rest_some (d := cfg.desc s m) (ev := ev) td
  exact ⟨_, h l hl, List.prefix_append _ _⟩

theorem doing_look {v : MId → Mem} {st st' : Stage} (hd : ∀ s m, (cfg.desc s m).m = m) (h : Doing thr cfg s m ev L st) (hl : Look cfg t v st st') : Doing thr cfg s m ev L st' := by
  cases hl with
  | begin _ _ => exact h.elim
  | quit => exact h.elim
  | robbed => exact h.elim
  | skip _ => obtain ⟨rfl, rfl, rfl, h⟩ := h; exact ⟨rfl, rfl, rfl, fun l hl => h l (.inl hl)⟩
  | check _ => obtain ⟨rfl, rfl, rfl, h⟩ := h; exact ⟨rfl, rfl, rfl, fun l hl => h l (.inr hl)⟩
  | decide hc => obtain ⟨rfl, rfl, rfl, h⟩ := h; exact ⟨rfl, rfl, rfl, fun l hl => h l (rest_choice hc hl)⟩
  | norow _ => have hp := doing_prefix h; obtain ⟨rfl, rfl, rfl, h⟩ := h; exact ⟨rfl, rfl, rfl, .inl rfl, hp⟩
  | say =>
    obtain ⟨rfl, rfl, rfl, h⟩ := h
    refine ⟨rfl, rfl, rfl, fun l hl => h l ?_⟩
    obtain ⟨l1, l2, h1, h2, rfl⟩ := rest_inv (by simp) hl
    rename_i m0 _ _ b to
    refine rest_cons (x := .say b to) ⟨(v m0).cur.getD (cfg.noSt m0), ?_⟩ h2
    rw [hd]
    exact h1
  | move =>
    obtain ⟨rfl, rfl, rfl, h⟩ := h
    exact ⟨rfl, rfl, rfl, fun l hl => h l (rest_steps hl)⟩
  | silent _ => obtain ⟨rfl, rfl, rfl, h⟩ := h; exact ⟨rfl, rfl, rfl, fun l hl => h l (rest_cons (l1 := []) maybe_nil hl)⟩
  | listens _ =>
    obtain ⟨rfl, rfl, rfl, h⟩ := h
    refine ⟨rfl, rfl, rfl, fun l hl => h l ?_⟩
    obtain ⟨l1, l2, h1, h2, rfl⟩ := rest_inv (by simp) hl
    exact rest_cons h1 h2
  | gone _ => have hp := doing_prefix h; obtain ⟨rfl, rfl, rfl, h⟩ := h; exact ⟨rfl, rfl, rfl, .inl rfl, hp⟩
  | acts _ =>
    obtain ⟨rfl, rfl, rfl, h⟩ := h
    refine ⟨rfl, rfl, rfl, fun l hl => h l ?_⟩
    obtain ⟨l2, h2, rfl⟩ := rest_calls hl
    exact rest_cons ⟨_, rfl⟩ h2
  | noState _ => have hp := doing_prefix h; obtain ⟨rfl, rfl, rfl, h⟩ := h; exact ⟨rfl, rfl, rfl, .inl rfl, hp⟩
  | ended _ => obtain ⟨rfl, rfl, rfl, h⟩ := h; exact ⟨rfl, rfl, rfl, fun l hl => h l (rest_cons (l1 := []) maybe_nil hl)⟩

/-- What a single entry adds. -/
def deed : Obs → List Deed
  | .cb c => [.call c]
  | .upd m s _ false => [.enter m s]
  | _ => []

theorem doing_act {v : MId → Mem} {st st' : Stage} {x : Obs} (hd : ∀ s m, (cfg.desc s m).m = m) (hx : ∀ m ev, x ≠ .done m ev)
    (hthr : ∀ c y, x = .cbRet c (some y) → thr y)
    (h : Doing thr cfg s m ev L st) (ha : Act cfg t v st x st') : Doing thr cfg s m ev (L ++ deed x) st' := by
  cases ha with
  | taken => exact h.elim
  | told _ =>
    obtain ⟨rfl, rfl, rfl, h⟩ := h
    refine ⟨rfl, rfl, rfl, fun l hl => ?_⟩
    obtain ⟨l1, l2, rfl, h2, rfl⟩ := rest_inv (by simp) hl
    have := h _ (rest_cons (x := .told _) maybe_one h2)
    simpa [deed] using this
  | call =>
    obtain ⟨rfl, rfl, rfl, h⟩ := h
    refine ⟨rfl, rfl, rfl, fun l hl => ?_⟩
    obtain ⟨l1, l2, rfl, h2, rfl⟩ := rest_inv (by simp) hl
    have := h _ (rest_cons (x := .call _) rfl h2)
    simpa [deed] using this
  | ret =>
    obtain ⟨rfl, rfl, rfl, h⟩ := h
    refine ⟨rfl, rfl, rfl, fun l hl => ?_⟩
    have := h _ (rest_cons (x := .ret _) rfl hl)
    simpa [deed] using this
  | throws =>
    have hp := doing_prefix h
    obtain ⟨rfl, rfl, rfl, h⟩ := h
    rw [show deed (.cbRet _ (some _)) = [] from rfl, List.append_nil]
    exact ⟨rfl, rfl, rfl, .inr (hthr _ _ rfl), hp⟩
  | set _ =>
    obtain ⟨rfl, rfl, rfl, h⟩ := h
    refine ⟨rfl, rfl, rfl, fun l hl => ?_⟩
    obtain ⟨l1, l2, rfl, h2, rfl⟩ := rest_inv (by simp) hl
    rename_i a _
    have := h _ (rest_cons (x := .set a) maybe_one h2)
    simpa [deed, hd] using this
  | write =>
    obtain ⟨rfl, rfl, rfl, h⟩ := h
    refine ⟨rfl, rfl, rfl, fun l hl => ?_⟩
    rename_i a
    have := h _ (rest_cons (x := .write a) rfl hl)
    simpa [deed] using this
  | done => exact absurd rfl (hx _ _)
  | report hex =>
    obtain ⟨rfl, rfl, rfl, ht, full, hf, hp⟩ := h
    exact ⟨rfl, rfl, rfl, hex, ht, full, L, hf, hp, by rw [hd]; rfl⟩
  | error _ => exact absurd rfl (hx _ _)
  | reported =>
    obtain ⟨rfl, rfl, rfl, h⟩ := h
    rw [show deed (.cbRet _ _) = [] from rfl, List.append_nil]
    exact ⟨rfl, rfl, rfl, _, h⟩
  | over => exact absurd rfl (hx _ _)
  | overErr => exact absurd rfl (hx _ _)
  | dies => exact h.elim
  | client _ => exact h.elim

theorem deeds_other {n : Nat} {u : Tid} {x : Obs} {tr : List (Tid × Obs)} (hu : u ≠ t) : deeds t n ((u, x) :: tr) = deeds t n tr := by
  simp [deeds, callStep, hu]

theorem deeds_zero {x : Obs} {tr : List (Tid × Obs)} : deeds t 0 ((t, x) :: tr) = deed x ++ deeds t (callStep t 0 (t, x)) tr := by
  cases x <;> simp [deeds, deed]
  rename_i b
  cases b <;> rfl

theorem deeds_succ {n : Nat} {x : Obs} {tr : List (Tid × Obs)} : deeds t (n + 1) ((t, x) :: tr) = deeds t (callStep t (n + 1) (t, x)) tr := by
  simp [deeds]

theorem callStep_act {v : MId → Mem} {st st' : Stage} {x : Obs} (h : Act cfg t v st x st') : callStep t 0 (t, x) = 0 := by
  cases h <;> simp [callStep]

theorem callStep_user {x : Obs} {n : Nat} (h : Spec.Calls.userObs x = true) : callStep t n (t, x) = n ∧ deed x = [] := by
  cases x <;> simp [callStep, deed] <;> cases h

/-- The thread's way, without the memory: at every moment it may see anything. -/
inductive Steps (cfg : Cfg) (t : Tid) : Nat → Stage → List (Tid × Obs) → Nat → Stage → Prop
  | nil {d st} : Steps cfg t d st [] d st
  | look {v st st' tr d' st''} : Look cfg t v st st' → Steps cfg t 0 st' tr d' st'' → Steps cfg t 0 st tr d' st''
  | other {d st u x tr d' st'} : u ≠ t → Steps cfg t d st tr d' st' → Steps cfg t d st ((u, x) :: tr) d' st'
  | enter {d st k tr d' st'} : st.calling = true → Steps cfg t (d + 1) st tr d' st' → Steps cfg t d st ((t, .enter k) :: tr) d' st'
  | leave {d st k r tr d' st'} : Steps cfg t d st tr d' st' → Steps cfg t (d + 1) st ((t, .leave k r) :: tr) d' st'
  | user {d st x tr d' st'} : st.calling = true → Spec.Calls.userObs x = true → Steps cfg t d st tr d' st' → Steps cfg t d st ((t, x) :: tr) d' st'
  | inner {d st x tr d' st'} : (∀ k, x ≠ .enter k) → (∀ k r, x ≠ .leave k r) → bare x = false →
      Steps cfg t (d + 1) st tr d' st' → Steps cfg t (d + 1) st ((t, x) :: tr) d' st'
  | act {v st x st' tr d' st''} : Act cfg t v st x st' → Steps cfg t 0 st' tr d' st'' → Steps cfg t 0 st ((t, x) :: tr) d' st''

theorem way_steps {v v' : MId → Mem} {n n' : Nat} {st st' : Stage} {tr : List (Tid × Obs)} (hw : Way cfg t v n st tr v' n' st') : Steps cfg t n st tr n' st' := by
  induction hw with
  | nil => exact .nil
  | look hl _ ih => exact .look hl ih
  | other hu _ ih => exact .other hu ih
  | enter hc _ ih => exact .enter hc ih
  | leave _ ih => exact .leave ih
  | user h1 h2 _ ih => exact .user h1 h2 ih
  | inner h1 h2 h3 _ ih => exact .inner h1 h2 h3 ih
  | act ha _ ih => exact .act ha ih

/-- Following the thread from `taken` on. -/
theorem steps_doing {n n' : Nat} {st st' : Stage} {tr : List (Tid × Obs)} (hd : ∀ s m, (cfg.desc s m).m = m)
    (hw : Steps cfg t n st tr n' st') : ∀ {L}, (∀ m ev, (t, .done m ev) ∉ tr) → (∀ c y, (t, .cbRet c (some y)) ∈ tr → thr y) → Doing thr cfg s m ev L st →
    Doing thr cfg s m ev (L ++ deeds t n tr) st' := by
  induction hw with
  | nil => intro L _ _ h; simpa [deeds] using h
  | look hl _ ih => intro L hx ht h; exact ih hx ht (doing_look hd h hl)
  | other hu _ ih =>
    intro L hx ht h
    rw [deeds_other hu]
    exact ih (fun m ev hm => hx m ev (.tail _ hm)) (fun c y hm => ht c y (.tail _ hm)) h
  | @enter d st k tr d' st' _ _ ih =>
    intro L hx ht h
    have : deeds t d ((t, .enter k) :: tr) = deeds t (d + 1) tr := by
      cases d <;> simp [deeds, callStep]
    rw [this]
    exact ih (fun m ev hm => hx m ev (.tail _ hm)) (fun c y hm => ht c y (.tail _ hm)) h
  | @leave d st k r tr d' st' _ ih =>
    intro L hx ht h
    rw [deeds_succ]
    simp only [callStep, if_true, Nat.add_sub_cancel]
    exact ih (fun m ev hm => hx m ev (.tail _ hm)) (fun c y hm => ht c y (.tail _ hm)) h
  | @user d st x tr d' st' _ hu _ ih =>
    intro L hx ht h
    obtain ⟨h1, h2⟩ := callStep_user (t := t) (n := d) hu
    have : deeds t d ((t, x) :: tr) = deeds t d tr := by
      cases d with
      | zero => rw [deeds_zero, h1, h2]; rfl
      | succ d => rw [deeds_succ, h1]
    rw [this]
    exact ih (fun m ev hm => hx m ev (.tail _ hm)) (fun c y hm => ht c y (.tail _ hm)) h
  | @inner d st x tr d' st' h1 h2 _ _ ih =>
    intro L hx ht h
    rw [deeds_succ]
    have : callStep t (d + 1) (t, x) = d + 1 := by
      cases x <;> simp [callStep]
      · exact absurd rfl (h1 _)
      · exact absurd rfl (h2 _ _)
    rw [this]
    exact ih (fun m ev hm => hx m ev (.tail _ hm)) (fun c y hm => ht c y (.tail _ hm)) h
  | act ha _ ih =>
    intro L hx ht h
    rw [deeds_zero, callStep_act ha, ← List.append_assoc]
    exact ih (fun m ev hm => hx m ev (.tail _ hm)) (fun c y hm => ht c y (.tail _ hm)) (doing_act hd (fun m ev hm => hx m ev (by rw [hm]; exact .head _)) (fun c y hm => ht c y (by rw [hm]; exact .head _)) h ha)

theorem steps_split {n n' : Nat} {st st' : Stage} {b tr : List (Tid × Obs)} (hw : Steps cfg t n st tr n' st') :
    ∀ {a}, tr = a ++ b → ∃ n1 st1, Steps cfg t n st a n1 st1 ∧ Steps cfg t n1 st1 b n' st' := by
  induction hw with
  | nil =>
    intro a h
    obtain ⟨rfl, rfl⟩ := List.append_eq_nil_iff.1 h.symm
    exact ⟨_, _, .nil, .nil⟩
  | look hl _ ih =>
    intro a h
    obtain ⟨n1, st1, h1, h2⟩ := ih h
    exact ⟨n1, st1, .look hl h1, h2⟩
  | other hu hw ih =>
    intro a h
    cases a with
    | nil => subst h; exact ⟨_, _, .nil, .other hu hw⟩
    | cons e a =>
      obtain ⟨rfl, rfl⟩ := List.cons.inj h
      obtain ⟨n1, st1, h1, h2⟩ := ih rfl
      exact ⟨n1, st1, .other hu h1, h2⟩
  | enter hc hw ih =>
    intro a h
    cases a with
    | nil => subst h; exact ⟨_, _, .nil, .enter hc hw⟩
    | cons e a =>
      obtain ⟨rfl, rfl⟩ := List.cons.inj h
      obtain ⟨n1, st1, h1, h2⟩ := ih rfl
      exact ⟨n1, st1, .enter hc h1, h2⟩
  | leave hw ih =>
    intro a h
    cases a with
    | nil => subst h; exact ⟨_, _, .nil, .leave hw⟩
    | cons e a =>
      obtain ⟨rfl, rfl⟩ := List.cons.inj h
      obtain ⟨n1, st1, h1, h2⟩ := ih rfl
      exact ⟨n1, st1, .leave h1, h2⟩
  | user hc hu hw ih =>
    intro a h
    cases a with
    | nil => subst h; exact ⟨_, _, .nil, .user hc hu hw⟩
    | cons e a =>
      obtain ⟨rfl, rfl⟩ := List.cons.inj h
      obtain ⟨n1, st1, h1, h2⟩ := ih rfl
      exact ⟨n1, st1, .user hc hu h1, h2⟩
  | inner g1 g2 g3 hw ih =>
    intro a h
    cases a with
    | nil => subst h; exact ⟨_, _, .nil, .inner g1 g2 g3 hw⟩
    | cons e a =>
      obtain ⟨rfl, rfl⟩ := List.cons.inj h
      obtain ⟨n1, st1, h1, h2⟩ := ih rfl
      exact ⟨n1, st1, .inner g1 g2 g3 h1, h2⟩
  | act ha hw ih =>
    intro a h
    cases a with
    | nil => subst h; exact ⟨_, _, .nil, .act ha hw⟩
    | cons e a =>
      obtain ⟨rfl, rfl⟩ := List.cons.inj h
      obtain ⟨n1, st1, h1, h2⟩ := ih rfl
      exact ⟨n1, st1, .act ha h1, h2⟩

/-- The entries of event processing are made by `Act`, at depth 0. -/
theorem steps_bare {n n' : Nat} {st st' : Stage} {x : Obs} {tr tr' : List (Tid × Obs)} (hx : bare x = true)
    (hw : Steps cfg t n st tr' n' st') : tr' = (t, x) :: tr →
    ∃ v1 st1 st2, Steps cfg t n st [] 0 st1 ∧ Act cfg t v1 st1 x st2 ∧ Steps cfg t 0 st2 tr n' st' := by
  induction hw with
  | nil => intro h; cases h
  | look hl _ ih =>
    intro h
    obtain ⟨v1, st1, st2, h1, h2, h3⟩ := ih h
    exact ⟨v1, st1, st2, .look hl h1, h2, h3⟩
  | other hu _ _ => intro h; obtain ⟨h, _⟩ := List.cons.inj h; cases h; exact absurd rfl hu
  | enter _ _ _ => intro h; obtain ⟨h, _⟩ := List.cons.inj h; cases h; cases hx
  | leave _ _ => intro h; obtain ⟨h, _⟩ := List.cons.inj h; cases h; cases hx
  | user _ hu _ _ => intro h; obtain ⟨h, _⟩ := List.cons.inj h; cases h; cases x <;> first | (cases hx; done) | (cases hu; done)
  | inner _ _ hb _ _ => intro h; obtain ⟨h, _⟩ := List.cons.inj h; cases h; rw [hb] at hx; cases hx
  | act ha hw _ =>
    intro h
    obtain ⟨h, h'⟩ := List.cons.inj h
    cases h; subst h'
    exact ⟨_, _, _, .nil, ha, hw⟩

theorem steps_taken {n n' : Nat} {st st' : Stage} {q : QId} {m : MId} {ev : Ev} {tr : List (Tid × Obs)}
    (hw : Steps cfg t n st ((t, .taken q m ev) :: tr) n' st') :
    ∃ s cm, q = cfg.queue s ∧ Steps cfg t 0 (.busy s cm m ev [.check, .decide]) tr n' st' := by
  obtain ⟨v1, st1, st2, _, h2, h3⟩ := steps_bare rfl hw rfl
  cases h2
  exact ⟨_, _, rfl, h3⟩

theorem doing_start {cm : MId} : Doing thr cfg s m ev [] (.busy s cm m ev [.check, .decide]) := by
  refine ⟨rfl, rfl, rfl, fun l hl => ?_⟩
  rcases hl with rfl | ⟨l1, l2, h1, rfl, rfl⟩
  · exact .skipped
  · rw [List.nil_append, List.append_nil]; exact h1

theorem doing_part {st : Stage} (h : Doing thr cfg s m ev L st) : Part (cfg.desc s m) ev L := by
  cases st with
  | idle => exact h.elim
  | loop _ _ => exact h.elim
  | dead _ => exact h.elim
  | busy _ _ _ _ _ => obtain ⟨full, h1, h2⟩ := doing_prefix h; exact ⟨full, L, h1, h2, .inl rfl⟩
  | thrown _ _ _ _ _ => obtain ⟨_, _, _, _, full, h1, h2⟩ := h; exact ⟨full, L, h1, h2, .inl rfl⟩
  | flow _ _ _ _ x => obtain ⟨_, _, _, _, _, full, p, h1, h2, h3⟩ := h; exact ⟨full, p, h1, h2, .inr ⟨x, h3⟩⟩
  | over _ _ _ _ _ => obtain ⟨_, _, _, x, _, _, full, p, h1, h2, h3⟩ := h; exact ⟨full, p, h1, h2, .inr ⟨x, h3⟩⟩

theorem doing_looks {n n' : Nat} {st st' : Stage} (hd : ∀ s m, (cfg.desc s m).m = m)
    (hw : Steps cfg t n st [] n' st') (h : Doing thr cfg s m ev L st) : Doing thr cfg s m ev L st' := by
  have := steps_doing hd hw (by simp) (by simp) h
  simpa [deeds] using this

theorem doing_done {v : MId → Mem} {st st' : Stage} {m' : MId} {ev' : Ev} (h : Doing thr cfg s m ev L st)
    (ha : Act cfg t v st (.done m' ev') st') : m' = m ∧ ev' = ev ∧ Finished (cfg.desc s m) ev thr L := by
  cases ha with
  | done =>
    obtain ⟨_, rfl, rfl, h⟩ := h
    exact ⟨rfl, rfl, .whole (by simpa using h [] rfl)⟩
  | error hx =>
    obtain ⟨_, rfl, rfl, ht, full, h1, h2⟩ := h
    refine ⟨rfl, rfl, .error h1 h2 (ht.resolve_left ?_) hx⟩
    rintro rfl
    cases hx
  | over =>
    obtain ⟨_, rfl, rfl, x, h1, h2, full, p, h3, h4, h5⟩ := h
    exact ⟨rfl, rfl, .reported h3 h4 h5 h1 h2⟩
  | overErr =>
    obtain ⟨_, rfl, rfl, x, h1, h2, full, p, h3, h4, h5⟩ := h
    exact ⟨rfl, rfl, .reported h3 h4 h5 h1 h2⟩

theorem steps_script {n : Nat} {st : Stage} {tr pre mid post : List (Tid × Obs)} {q : QId} (hd : ∀ s m, (cfg.desc s m).m = m) (hw : Steps cfg t 0 .idle tr n st)
    (h : tr = pre ++ (t, .taken q m ev) :: (mid ++ post)) (hmid : ∀ m' ev', (t, .done m' ev') ∉ mid) :
    ∃ s, q = cfg.queue s ∧ Part (cfg.desc s m) ev (deeds t 0 mid) := by
  obtain ⟨_, _, _, h2⟩ := steps_split hw h
  obtain ⟨s, cm, hq, h3⟩ := steps_taken h2
  obtain ⟨_, _, h4, _⟩ := steps_split h3 rfl
  have := steps_doing (thr := fun _ => True) hd h4 hmid (fun _ _ _ => trivial) doing_start
  exact ⟨s, hq, by simpa using doing_part this⟩

theorem steps_finished {n : Nat} {st : Stage} {tr pre mid post : List (Tid × Obs)} {q : QId} {m' : MId} {ev' : Ev} (hd : ∀ s m, (cfg.desc s m).m = m)
    (hw : Steps cfg t 0 .idle tr n st) (h : tr = pre ++ (t, .taken q m ev) :: (mid ++ (t, .done m' ev') :: post)) (hmid : ∀ m' ev', (t, .done m' ev') ∉ mid) :
    m' = m ∧ ev' = ev ∧ ∃ s, q = cfg.queue s ∧ Finished (cfg.desc s m) ev (fun x => ∃ c, (t, .cbRet c (some x)) ∈ mid) (deeds t 0 mid) := by
  obtain ⟨_, _, _, h2⟩ := steps_split hw h
  obtain ⟨s, cm, hq, h3⟩ := steps_taken h2
  obtain ⟨_, _, h4, h5⟩ := steps_split h3 rfl
  have h6 := steps_doing (thr := fun x => ∃ c, (t, .cbRet c (some x)) ∈ mid) hd h4 hmid (fun c y hm => ⟨c, hm⟩) doing_start
  obtain ⟨v2, st1, st2, h7, h8, _⟩ := steps_bare rfl h5 rfl
  obtain ⟨e1, e2, e3⟩ := doing_done (doing_looks hd h7 h6) h8
  exact ⟨e1, e2, s, hq, by simpa using e3⟩

end Course

variable {env : Env} {c0 c : Conf} {t : Tid} {pre mid post : List (Tid × Obs)} {q : QId} {m m' : MId} {ev ev' : Ev}

/-- C60: from the moment a thread has taken an event until it is done with it, its callbacks and its changes of the state
are part of a script: nothing is done twice, nothing in the wrong order, and the listener hears about one transition. -/
theorem C60_script (hi : Initial c0) (hr : ReachFrom env c0 c) (ht : t ≠ .env)
    (h : c.w.trace = pre ++ (t, .taken q m ev) :: (mid ++ post)) (hmid : ∀ m' ev', (t, .done m' ev') ∉ mid) :
    ∃ s, q = (env.strat s).queue ∧ Part ((Course.cfg env).desc s m) ev (deeds t 0 mid) := by
  obtain ⟨d, st, hw⟩ := C57_course hi hr ht
  exact Course.steps_script (fun _ _ => rfl) (Course.way_steps hw) h hmid

/-- C60, complete events: when the thread is done with the event it has followed a script to its end, or it was interrupted
by an exception, which was reported, or by an error. -/
theorem C60_finished (hi : Initial c0) (hr : ReachFrom env c0 c) (ht : t ≠ .env)
    (h : c.w.trace = pre ++ (t, .taken q m ev) :: (mid ++ (t, .done m' ev') :: post)) (hmid : ∀ m' ev', (t, .done m' ev') ∉ mid) :
    m' = m ∧ ev' = ev ∧ ∃ s, q = (env.strat s).queue ∧
      Finished ((Course.cfg env).desc s m) ev (fun x => ∃ c, (t, .cbRet c (some x)) ∈ mid) (deeds t 0 mid) := by
  obtain ⟨d, st, hw⟩ := C57_course hi hr ht
  exact Course.steps_finished (fun _ _ => rfl) (Course.way_steps hw) h hmid

namespace Course

theorem calledOf_append (a b : List Deed) : calledOf (a ++ b) = calledOf a ++ calledOf b := by simp [calledOf]

theorem called_maybe {c : Cb} {l : List Deed} (h : Maybe (.call c) l) : calledOf l = [] ∨ calledOf l = [c] := by
  rcases h with rfl | rfl
  · exact .inl rfl
  · exact .inr rfl

theorem called_enter {m : MId} {s : St} {l : List Deed} (h : Maybe (.enter m s) l) : calledOf l = [] := by
  rcases h with rfl | rfl <;> rfl

theorem called_all (d : Desc) (k : Kind) (x : St) (ev : Ev) : calledOf (allActions d k x ev) =
    (List.range (d.nacts k x.oid)).map fun i => .action d.m k x.oid i ev := by
  simp [calledOf, allActions, List.filterMap_map]
  rw [← List.filterMap_eq_map]
  rfl

theorem nodup_all (d : Desc) (k : Kind) (x : St) (ev : Ev) : (calledOf (allActions d k x ev)).Nodup := by
  rw [called_all]
  refine List.Pairwise.map _ (fun a b h he => h ?_) List.nodup_range
  simpa using he

theorem script_nodup {d : Desc} {ev : Ev} {l : List Deed} (h : Script d ev l) :
    (calledOf l).Nodup ∧ ∀ x, Cb.flowEx d.m ev x ∉ calledOf l := by
  cases h with
  | skipped => exact ⟨List.nodup_nil, by simp [calledOf]⟩
  | unmapped => exact ⟨by simp [calledOf], by simp [calledOf]⟩
  | stays _ _ h1 h2 =>
    rw [calledOf_append]
    rcases called_maybe h1 with h1 | h1 <;> rcases called_maybe h2 with h2 | h2 <;> rw [h1, h2] <;> simp
  | @moves a b x y l1 l2 l3 l4 _ _ h1 h2 h3 h4 _ =>
    have hx := nodup_all d .exit x ev
    have hy := nodup_all d .entry y ev
    simp only [calledOf_append, called_enter h2, called_enter h4, List.append_nil]
    rw [called_all] at hx hy ⊢
    rw [called_all]
    rcases called_maybe h1 with h1 | h1 <;> rcases called_maybe h3 with h3 | h3 <;> rw [h1, h3] <;>
      simp [List.nodup_append, hx, hy, List.nodup_cons] <;> (rintro i _ _ (⟨j, _, rfl⟩ | rfl) <;> simp)

theorem part_nodup {d : Desc} {ev : Ev} {l : List Deed} (h : Part d ev l) : (calledOf l).Nodup := by
  obtain ⟨full, p, h1, ⟨r, rfl⟩, h⟩ := h
  have h2 := script_nodup h1
  rw [calledOf_append] at h2
  have h3 := (List.nodup_append.1 h2.1).1
  rcases h with rfl | ⟨x, rfl⟩
  · exact h3
  · rw [calledOf_append, List.nodup_append]
    refine ⟨h3, by simp [calledOf], ?_⟩
    intro a ha b hb
    have : b = .flowEx d.m ev x := by simpa [calledOf] using hb
    subst this
    rintro rfl
    exact h2.2 x (List.mem_append_left _ ha)

end Course

/-- C60: no callback is made twice for one event. -/
theorem C60_once (hi : Initial c0) (hr : ReachFrom env c0 c) (ht : t ≠ .env)
    (h : c.w.trace = pre ++ (t, .taken q m ev) :: (mid ++ post)) (hmid : ∀ m' ev', (t, .done m' ev') ∉ mid) :
    (calledOf (deeds t 0 mid)).Nodup := by
  obtain ⟨s, _, h⟩ := C60_script hi hr ht h hmid
  exact Course.part_nodup h

/-- `stop()` while the worker processes `stay`: `begin` and `end` are called once each, with different states. -/
example : ∃ pre mid post, Demo.stayed.w.trace = pre ++ (.worker 0 0, .taken 0 0 Demo.stay) :: (mid ++ (.worker 0 0, .done 0 Demo.stay) :: post) ∧
    deeds (.worker 0 0) 0 mid = [.call (.begin 0 Demo.B Demo.stay Demo.rs.noopSt), .call (.end_ 0 Demo.rs.endSt Demo.stay Demo.rs.noopSt)] ∧
    Finished ((Course.cfg (Demo.env Demo.acts)).desc 0 0) Demo.stay (fun x => ∃ c, (.worker 0 0, .cbRet c (some x)) ∈ mid) (deeds (.worker 0 0) 0 mid) := by
  have h : Demo.stayed.w.trace = Demo.stayed.w.trace.take 37 ++ (.worker 0 0, .taken 0 0 Demo.stay) ::
      ((Demo.stayed.w.trace.drop 38).take 8 ++ (.worker 0 0, .done 0 Demo.stay) :: []) := by decide +kernel
  have hm : ∀ m' ev', (Tid.worker 0 0, Obs.done m' ev') ∉ (Demo.stayed.w.trace.drop 38).take 8 := by
    intro m' ev' hmem
    have := List.all_eq_true.1 (by decide +kernel : ((Demo.stayed.w.trace.drop 38).take 8).all
        (fun e => match e.2 with | .done .. => false | _ => true) = true) _ hmem
    simp at this
  refine ⟨_, _, _, h, by decide +kernel, ?_⟩
  obtain ⟨_, _, s, hs, hf⟩ := C60_finished (Demo.conf_initial _) Demo.stayed_reach (by simp) h hm
  have : 0 = s := hs
  subst this
  exact hf

end Verif
