import Verif.Proofs.Course
import Verif.Proofs.Monitor
import Verif.Proofs.Processing
/-
The way of a thread through the history, as an invariant of all executions.
-/

namespace Verif.Course
open Spec.Course
open Spec.Mon (Mem)

variable {env : Env}

/-! ### Ways -/

theorem _root_.Verif.Spec.Course.Way.trans {cfg : Cfg} {t : Tid} {v v' v'' : MId → Mem} {d d' d'' : Nat} {st st' st'' : Stage}
    {tr tr' : List (Tid × Obs)} (h : Way cfg t v d st tr v' d' st') (h' : Way cfg t v' d' st' tr' v'' d'' st'') :
    Way cfg t v d st (tr ++ tr') v'' d'' st'' := by
  induction h with
  | nil => exact h'
  | look hl _ ih => exact .look hl (ih h')
  | other hu _ ih => exact .other hu (ih h')
  | enter hc _ ih => exact .enter hc (ih h')
  | leave _ ih => exact .leave (ih h')
  | user h1 h2 _ ih => exact .user h1 h2 (ih h')
  | inner h1 h2 h3 _ ih => exact .inner h1 h2 h3 (ih h')
  | act ha _ ih => exact .act ha (ih h')

/-- One operation in the eyes of the thread that does it. -/
def Step1 (cfg : Cfg) (t : Tid) (v : MId → Mem) (d : Nat) (st : Stage) (x : Option Obs) (d' : Nat) (st' : Stage) : Prop :=
  match x with
  | none => Way cfg t v d st [] v d' st'
  | some x => Way cfg t v d st [(t, x)] (after v x) d' st'

theorem Step1.stay {cfg : Cfg} {t : Tid} {v : MId → Mem} {d : Nat} {st : Stage} : Step1 cfg t v d st none d st := Way.nil
theorem Step1.look {cfg : Cfg} {t : Tid} {v : MId → Mem} {st st' : Stage} (h : Look cfg t v st st') :
    Step1 cfg t v 0 st none 0 st' := Way.look h .nil
theorem Step1.act {cfg : Cfg} {t : Tid} {v : MId → Mem} {st st' : Stage} {x : Obs} (h : Act cfg t v st x st') :
    Step1 cfg t v 0 st (some x) 0 st' := Way.act h .nil

theorem opObs_enter {o : Op} {w : World} {k : Api} (h : opObs o w = some (.enter k)) : o = .emit (.enter k) := by
  cases o <;> simp only [opObs, reduceCtorEq, Option.some.injEq, Option.map_eq_some_iff, and_false, exists_false] at h <;>
    first | (subst h; rfl) | (split at h <;> simp at h)

theorem opObs_leave {o : Op} {w : World} {k : Api} {r : Option Exc} (h : opObs o w = some (.leave k r)) :
    o = .emit (.leave k r) := by
  cases o <;> simp only [opObs, reduceCtorEq, Option.some.injEq, Option.map_eq_some_iff, and_false, exists_false] at h <;>
    first | (subst h; rfl) | (split at h <;> simp at h)

theorem userOp_obs {o : Op} {w : World} {x : Obs} (hu : userOp o) (h : opObs o w = some x) : Spec.Calls.userObs x = true := by
  unfold userOp at hu
  split at hu <;> first | exact hu.elim | cases h | skip
  all_goals rfl

theorem loc_step {t : Tid} {w : World} {l : Loc} {o : Op} (hk : know (0, l) w) (ha : l.allowed env o) :
    Step1 (cfg env) t (memOf w) 0 l.stage (opObs o w) 0 (l.nxt env o w).stage := by
  have hpair : ∀ {p ev m}, l.item = some (p, ev, m) → w.pair p = some (ev, m) := fun h => hk.2 _ _ _ h
  unfold Loc.allowed at ha
  split at ha
  · simp only [Loc.nxt]
    split <;> exact .stay
  · subst ha
    simp only [Loc.nxt, opObs]
    cases hq : w.queue _ with
    | nil => exact .look .robbed
    | cons p ps =>
      have := hk.1 _ p (by rw [hq]; exact List.mem_cons_self)
      cases hp : w.pair p with
      | none => rw [hp] at this; cases this
      | some e => simp only [hp]; exact .act .taken
  · exact .stay
  · obtain ⟨rfl, rfl⟩ := ha
    simp only [opObs, hpair rfl]
    exact .act .done
  · subst ha
    simp only [Loc.nxt, opObs]
    split
    · exact .look (.skip ‹_›)
    · exact .look (.check (by rename_i h; simpa [memOf] using h))
  · subst ha
    simp only [Loc.nxt, opObs]
    split
    · exact .look (.decide ‹_›)
    · exact .look (.norow ‹_›)
  · subst ha; exact .look .say
  · subst ha; exact .look .move
  · subst ha
    simp only [Loc.nxt, opObs]
    split
    · exact .look (.acts ‹_›)
    · exact .look (.noState ‹_›)
  · subst ha
    simp only [Loc.nxt, opObs]
    split
    · exact .look (.listens ‹_›)
    · exact .look (.silent (by rename_i h; simpa [memOf] using h))
  · obtain ⟨rfl, rfl⟩ := ha
    simp only [Loc.nxt, opObs]
    split
    · exact .act (.told ‹_›)
    · exact .look (.gone (by rename_i h; simpa [memOf] using h))
  · subst ha; exact .act .call
  · subst ha
    rename_i r
    cases r with
    | none => exact .act .ret
    | some x => exact .act .throws
  · obtain ⟨rfl, rfl, rfl, rfl⟩ := ha
    simp only [Loc.nxt, opObs]
    split
    · exact .look (.ended ‹_›)
    · exact .act (.set (by rename_i h; simpa [memOf] using h))
  · obtain ⟨rfl, rfl, rfl⟩ := ha; exact .act .write
  · obtain ⟨h1, rfl⟩ := ha; exact .act (.report h1)
  · obtain ⟨h1, rfl, rfl⟩ := ha
    simp only [opObs, hpair rfl]
    exact .act (.error h1)
  · subst ha; exact .act .reported
  · obtain ⟨rfl, rfl⟩ := ha
    simp only [opObs, hpair rfl]
    rename_i r _ _
    cases r with
    | none => exact .act .over
    | some x => exact .act .overErr
  · exact ha.elim

theorem pos_step {t : Tid} {w : World} {l : Pos} {o : Op} (hk : know l w) (ha : allowed env l o)
    (hb : 0 < l.1 → ∀ x, opObs o w = some x → bare x = false) :
    Step1 (cfg env) t (memOf w) l.1 l.2.stage (opObs o w) (nxt env l o w).1 (nxt env l o w).2.stage := by
  obtain ⟨d, l⟩ := l
  have hplain : (∀ c, o ≠ .emit (.enter c)) → (∀ c r, o ≠ .emit (.leave c r)) →
      0 < d ∨ (callable (d, l) ∧ userOp o) ∨ l.allowed env o →
      Step1 (cfg env) t (memOf w) d l.stage (opObs o w) (nxt env (d, l) o w).1 (nxt env (d, l) o w).2.stage := by
    intro h1 h2 h
    have hn : nxt env (d, l) o w = match ((d, l) : Pos) with | (0, l) => (0, l.nxt env o w) | l => l := by
      unfold nxt
      split
      · exact absurd rfl (h1 _)
      · exact absurd rfl (h2 _ _)
      · rfl
    cases d with
    | succ d =>
      rw [hn]
      cases hx : opObs o w with
      | none => exact .stay
      | some x =>
        exact Way.inner (fun k hk => h1 k (opObs_enter (by rw [hx, hk]))) (fun k r hk => h2 k r (opObs_leave (by rw [hx, hk])))
          (hb (Nat.succ_pos d) x hx) .nil
    | zero =>
      rcases h with h | ⟨hc, hu⟩ | h
      · exact absurd h (Nat.lt_irrefl 0)
      · rw [nxt_user hc hu]
        cases hx : opObs o w with
        | none => exact .stay
        | some x => exact Way.user hc (userOp_obs hu hx) .nil
      · rw [hn]
        exact loc_step hk h
  unfold allowed at ha
  split at ha
  · exact Way.enter ha .nil
  · cases d with
    | zero => exact absurd ha (Nat.lt_irrefl 0)
    | succ d => exact Way.leave .nil
  · rename_i h1 h2
    exact hplain h1 h2 ha

/-! ### The pair in the hands of a thread -/

def drItem : Dr → Option (PairId × Ev × MId)
  | .polled p ev m | .known p ev m | .busy p ev m _ | .flow p ev m _ | .over p ev m _ => some (p, ev, m)
  | _ => none

def botItem : Option Frame → Option (PairId × Ev × MId)
  | some (.drain _ _ d) => drItem d
  | _ => none

def itemStep (w : World) (i : Option (PairId × Ev × MId)) : Op → Option (PairId × Ev × MId)
  | .poll q => match w.queue q with
    | [] => none
    | p :: _ => (w.pair p).map fun x => (p, x.1, x.2)
  | .poolGive .. => none
  | _ => i

theorem itemStep_user {w : World} {i : Option (PairId × Ev × MId)} {o : Op} (h : userOp o) : itemStep w i o = i := by
  unfold userOp at h
  split at h <;> first | rfl | exact h.elim

theorem item_loc {w : World} {l : Loc} {o : Op} (ha : l.allowed env o) : (l.nxt env o w).item = itemStep w l.item o := by
  unfold Loc.allowed at ha
  split at ha
  all_goals first
    | exact ha.elim
    | (simp only [Loc.nxt, itemStep]; repeat' split)
  all_goals simp_all [Loc.item]

theorem item_dr {w : World} {f f' : Frame} {o : Op} (h : Move env w f o f') (hf : f.isDrain = true) :
    botItem (some f') = itemStep w (botItem (some f)) o := by
  cases h with
  | drPh ha => cases phAllowed_op ha <;> rfl
  | drPoll hq hp => simp [botItem, itemStep, hq, hp, drItem]
  | drPoll0 hq => simp [botItem, itemStep, hq, drItem]
  | drPollBad hq hp => simp [botItem, itemStep, hq, hp, drItem]
  | drQuit hd _ => rcases hd with rfl | rfl <;> rfl
  | stCas1 hs _ _ => rcases hs.inv with ⟨rfl, _⟩ | ⟨rfl, _⟩ <;> cases hf
  | stCas0 hs _ _ => rcases hs.inv with ⟨rfl, _⟩ | ⟨rfl, _⟩ <;> cases hf
  | stSet hs => rcases hs.inv with ⟨rfl, _⟩ | ⟨rfl, _⟩ <;> cases hf
  | stClear hs _ => rcases hs.inv with ⟨rfl, _⟩ | ⟨rfl, _⟩ <;> cases hf
  | stPh hs _ _ => rcases hs.inv with ⟨rfl, _⟩ | ⟨rfl, _⟩ <;> cases hf
  | _ => first | rfl | cases hf

theorem move_plain {w : World} {f f' : Frame} {o : Op} (h : Move env w f o f') :
    (∀ c, o ≠ .emit (.enter c)) ∧ ∀ c r, o ≠ .emit (.leave c r) := by
  cases h with
  | drPh ha => cases phAllowed_op ha <;> simp
  | stPh _ _ ha => cases phAllowed_op ha <;> simp
  | _ => simp

/-! ### The invariant -/

/-- The two descriptions of what a thread does agree. -/
def Link (l : List Frame) (p : Pos) : Prop := ∃ b, At l p.1 b ∧ botItem b = p.2.item

theorem nxt_plain {d : Nat} {l : Loc} {o : Op} {w : World} (h1 : ∀ c, o ≠ .emit (.enter c)) (h2 : ∀ c r, o ≠ .emit (.leave c r)) :
    nxt env (d, l) o w = match ((d, l) : Pos) with | (0, l) => (0, l.nxt env o w) | l => l := by
  unfold nxt
  split
  · exact absurd rfl (h1 _)
  · exact absurd rfl (h2 _ _)
  · rfl

theorem allowed_plain {d : Nat} {l : Loc} {o : Op} (h1 : ∀ c, o ≠ .emit (.enter c)) (h2 : ∀ c r, o ≠ .emit (.leave c r))
    (h : allowed env (d, l) o) : 0 < d ∨ (callable (d, l) ∧ userOp o) ∨ l.allowed env o := by
  unfold allowed at h
  split at h
  · exact absurd rfl (h1 _)
  · exact absurd rfl (h2 _ _)
  · exact h

theorem link_op {w : World} {l l' : List Frame} {p : Pos} {o : Op} (h : Link l p) (hm : LMove env w l o l')
    (ha : allowed env p o) : Link l' (nxt env p o w) := by
  obtain ⟨b, hat, hb⟩ := h
  obtain ⟨d, p⟩ := p
  cases hm with
  | @enter l c _ => exact ⟨b, .cons (by cases c <;> rfl) hat, hb⟩
  | leave hl =>
    have := leaves_isDrain hl
    cases hat with
    | drain hd => rw [this] at hd; cases hd
    | cons _ hs => exact ⟨b, hs, hb⟩
  | user _ hu =>
    obtain ⟨h1, h2⟩ := userOp_plain hu
    rw [nxt_plain h1 h2]
    cases d with
    | succ d => exact ⟨b, hat, hb⟩
    | zero =>
      refine ⟨b, hat, ?_⟩
      rw [hb]
      rcases allowed_plain h1 h2 ha with h | ⟨hc, _⟩ | h
      · exact absurd h (Nat.lt_irrefl 0)
      · have := nxt_user (env := env) (w := w) hc hu
        rw [nxt_plain h1 h2] at this
        exact (congrArg (fun p : Pos => p.2.item) this).symm
      · simp only [item_loc h, itemStep_user hu]
  | @frame f f' rest o hm =>
    obtain ⟨h1, h2⟩ := move_plain hm
    rw [nxt_plain h1 h2]
    cases hat with
    | cons hd hs => exact ⟨b, .cons ((move_isDrain hm).trans hd) hs, hb⟩
    | drain hd =>
      refine ⟨some f', .drain ((move_isDrain hm).trans hd), ?_⟩
      rw [item_dr hm hd, hb]
      rcases allowed_plain h1 h2 ha with h | ⟨hc, hu⟩ | h
      · exact absurd h (Nat.lt_irrefl 0)
      · have := nxt_user (env := env) (w := w) hc hu
        rw [nxt_plain h1 h2] at this
        rw [itemStep_user hu]
        exact (congrArg (fun p : Pos => p.2.item) this).symm
      · simp only [item_loc h]

/-- API calls do not do what only event processing does. -/
theorem move_bare {w : World} {f f' : Frame} {o : Op} {x : Obs} (hm : Move env w f o f') (hd : f.isDrain = false)
    (ho : opObs o w = some x) : bare x = false := by
  cases hm with
  | stCas1 hs _ _ => simp only [opObs] at ho; split at ho <;> first | (cases ho; done) | (cases ho; rfl)
  | stCas0 hs _ _ => simp only [opObs] at ho; split at ho <;> first | (cases ho; done) | (cases ho; rfl)
  | spCas1 _ => simp only [opObs] at ho; split at ho <;> first | (cases ho; done) | (cases ho; rfl)
  | spCas0 _ => simp only [opObs] at ho; split at ho <;> first | (cases ho; done) | (cases ho; rfl)
  | stPh hs hs' ha =>
    cases phAllowed_op ha with
    | notify _ => simp only [opObs] at ho; split at ho <;> first | (cases ho; done) | (cases ho; rfl)
    | cas => cases hs'
    | setCur => cases hs'
    | _ => first | (cases ho; rfl) | cases ho
  | fOffer => simp only [opObs, Option.map_eq_some_iff] at ho; obtain ⟨_, _, rfl⟩ := ho; rfl
  | fSubmit => simp only [opObs] at ho; split at ho <;> cases ho <;> rfl
  | _ => first | (cases ho; rfl) | cases ho | cases hd

theorem link_bare {w : World} {l l' : List Frame} {p : Pos} {o : Op} (h : Link l p) (hm : LMove env w l o l') :
    0 < p.1 → ∀ x, opObs o w = some x → bare x = false := by
  intro hp x hx
  obtain ⟨b, hat, _⟩ := h
  cases hm with
  | enter _ => cases hx; rfl
  | leave _ => cases hx; rfl
  | user _ hu =>
    have := userOp_obs hu hx
    cases x <;> first | rfl | cases this
  | frame hm =>
    generalize hd : p.1 = d at hat hp
    cases hat with
    | drain _ => exact absurd hp (Nat.lt_irrefl 0)
    | cons h1 _ => exact move_bare hm h1 hx

abbrev proto2 (env : Env) := (Verif.proto env).prod (proto env)
abbrev idle2 : List Frame × Pos := ([], (0, .idle))
def task2 (s : SId) (m : MId) : List Frame × Pos := (Verif.task s m, task s m)
def fin2 (t : Tid) (r : Except Exc Unit) (l : List Frame × Pos) : Prop := Verif.fin t r l.1 ∧ fin t r l.2

theorem checked2 (env : Env) : Checked env (proto2 env) idle2 task2 fin2 := (Verif.checked env).prod checked

structure Inv (env : Env) (v0 : MId → Mem) (lst : Tid → List Frame × Pos) (w : World) : Prop where
  own : Own env (fun t => (lst t).1) w
  tasks : TaskInv env (fun t => (lst t).1) w
  link : ∀ t, Link (lst t).1 (lst t).2
  way : ∀ t, t ≠ .env → Way (cfg env) t v0 0 .idle w.trace (memOf w) (lst t).2.1 (lst t).2.2.stage

theorem fset_fst (lst : Tid → List Frame × Pos) (t : Tid) (l : List Frame × Pos) :
    (fun u => (fset lst t l u).1) = fset (fun u => (lst u).1) t l.1 := by
  funext u
  by_cases hu : u = t
  · subst hu; simp [fset_same]
  · simp [fset_ne _ _ hu]

theorem item_known {lst : Tid → List Frame} {w : World} {loc : PairId → Verif.Loc} {t : Tid} {d : Nat} {b : Option Frame} {p : PairId} {ev : Ev} {m : MId}
    (ho : OwnAt env lst w loc) (hat : At (lst t) d b) (hb : botItem b = some (p, ev, m)) : w.pair p = some (ev, m) := by
  have hmem : ∀ {l d}, At l d b → ∃ f ∈ l, b = some f := by
    intro l d hat
    induction hat with
    | nil => cases hb
    | @drain f _ => exact ⟨f, by simp, rfl⟩
    | cons _ _ ih => obtain ⟨f, hf, he⟩ := ih (by assumption) hb; exact ⟨f, List.mem_cons_of_mem _ hf, he⟩
  obtain ⟨f, hf, rfl⟩ := hmem hat
  have hfact := ho.fact t f hf
  cases f with
  | drain s cm d => cases d <;> simp_all [botItem, drItem, Frame.fact]
  | _ => cases hb

theorem Inv.know {v0 : MId → Mem} {lst : Tid → List Frame × Pos} {w : World} (h : Inv env v0 lst w) (t : Tid) :
    know (lst t).2 w := by
  obtain ⟨loc, ho⟩ := h.own
  refine ⟨fun q p hp => ?_, fun p ev m hi => ?_⟩
  · obtain ⟨ev, m, hpr, _⟩ := ho.full q p hp
    simp [hpr]
  · obtain ⟨b, hat, hb⟩ := h.link t
    exact item_known ho hat (hb.trans hi)

/-- A step of thread `t` that adds at most one entry to the history. -/
theorem way_step {v0 : MId → Mem} {lst : Tid → List Frame × Pos} {w w' : World} {t : Tid} {x : Option Obs} {l : List Frame × Pos}
    (h : ∀ u, u ≠ .env → Way (cfg env) u v0 0 .idle w.trace (memOf w) (lst u).2.1 (lst u).2.2.stage)
    (ht : w'.trace = w.trace ++ (x.map fun x => (t, x)).toList) (hmem : ∀ m, memOf w' m = monMem m (memOf w m) x)
    (hs : Step1 (cfg env) t (memOf w) (lst t).2.1 (lst t).2.2.stage x l.2.1 l.2.2.stage) :
    ∀ u, u ≠ .env → Way (cfg env) u v0 0 .idle w'.trace (memOf w') (fset lst t l u).2.1 (fset lst t l u).2.2.stage := by
  intro u hu
  rw [ht]
  cases x with
  | none =>
    have : memOf w' = memOf w := funext hmem
    rw [this]
    by_cases hut : u = t
    · subst hut; rw [fset_same]; exact (h u hu).trans hs
    · rw [fset_ne _ _ hut]; exact (h u hu).trans .nil
  | some x =>
    have : memOf w' = after (memOf w) x := funext hmem
    rw [this]
    by_cases hut : u = t
    · subst hut; rw [fset_same]; exact (h u hu).trans hs
    · rw [fset_ne _ _ hut]; exact (h u hu).trans (.other (Ne.symm hut) .nil)

theorem set_link {lst : Tid → List Frame × Pos} {t : Tid} {l : List Frame × Pos} (h : ∀ t, Link (lst t).1 (lst t).2)
    (hl : Link l.1 l.2) : ∀ u, Link (fset lst t l u).1 (fset lst t l u).2 := by
  intro u
  by_cases hu : u = t
  · subst hu; rw [fset_same]; exact hl
  · rw [fset_ne _ _ hu]; exact h u

theorem link_idle : Link [] (0, .idle) := ⟨none, .nil, rfl⟩

theorem invariant (env : Env) (v0 : MId → Mem) : Invariant env (proto2 env) idle2 task2 fin2 (Inv env v0) where
  know := fun lst w t h => ⟨(own_invariant env).know _ w t h.own, h.know t⟩
  op := fun lst w t o h ha he => by
    have hm := lmove_of_allowed (w := w) ha.1
    have ho := (own_invariant env).op (fun t => (lst t).1) w t o h.own ha.1 he
    refine ⟨?_, ?_, set_link h.link (link_op (h.link t) hm ha.2), ?_⟩
    · rw [fset_fst]; exact ho
    · rw [fset_fst]; exact (task_preserved env).op _ w t o _ h.own h.tasks hm he
    · exact way_step h.way (exec_trace t o w) (fun m => memOf_exec m (opOk_of_lmove (lst := fun t => (lst t).1) h.own hm))
        (pos_step (h.know t) ha.2 (link_bare (h.link t) hm))
  ret := fun lst w t h hf => by
    refine ⟨?_, ?_, set_link h.link link_idle, ?_⟩
    · rw [fset_fst]; exact (own_invariant env).ret _ w t h.own hf.1
    · rw [fset_fst]; exact (task_preserved env).ret _ w t h.own h.tasks hf.1
    · refine way_step (x := none) h.way (by simp) (fun m => rfl) ?_
      rcases hf.2 with ⟨h1, _⟩ | ⟨s, cm, h1⟩
      · rw [h1]; exact .stay
      · rw [h1]; exact .look .quit
  thr := fun lst w t x h hf => by
    refine ⟨?_, ?_, set_link h.link link_idle, ?_⟩
    · rw [fset_fst]; exact (own_invariant env).thr _ w t x h.own hf.1
    · rw [fset_fst]; exact (task_preserved env).thr _ w t x h.own h.tasks hf.1
    · refine way_step (x := some (.uncaught x)) h.way rfl (fun m => rfl) ?_
      rcases hf.2 with ⟨h1, n, rfl⟩ | h1
      · rw [h1]; exact .act (.client rfl)
      · rw [h1]; exact .act .dies
  dispatch := fun lst w e i j s m h hl hi hj => by
    have hl1 : (fun t => (lst t).1) (.worker e i) = [] := by simp only [hl]
    refine ⟨?_, ?_, set_link h.link ⟨_, .drain rfl, rfl⟩, ?_⟩
    · rw [fset_fst]; exact (own_invariant env).dispatch _ w e i j s m h.own hl1 hi hj
    · rw [fset_fst]; exact (task_preserved env).dispatch _ w e i j s m h.own h.tasks hl1 hi hj
    · refine way_step (x := none) h.way (by simp) (fun m => rfl) ?_
      obtain ⟨h1, h2⟩ := h.tasks.tasks e s m (List.mem_of_getElem? hj)
      rw [hl]
      exact .look (.begin (by rw [← h1]; rfl) h2)
  interrupt := fun lst w t h => ⟨(own_invariant env).interrupt _ w t h.own, (task_preserved env).interrupt _ w t h.own h.tasks, h.link, h.way⟩
  shutdown := fun lst w e h => ⟨(own_invariant env).shutdown _ w e h.own, (task_preserved env).shutdown _ w e h.own h.tasks, h.link, h.way⟩
  dropTasks := fun lst w e h => by
    refine ⟨(own_invariant env).dropTasks _ w e h.own, (task_preserved env).dropTasks _ w e h.own h.tasks, h.link, fun t ht => ?_⟩
    refine (h.way t ht).trans ?_
    show Way (cfg env) t (memOf w) _ _ ((w.tasks e).map _) (memOf w) _ _
    induction w.tasks e with
    | nil => exact .nil
    | cons x xs ih => exact .other (Ne.symm ht) ih

theorem initial (env : Env) {c : Conf} (h : Initial c) : Inv env (fun m => Mem.init (c.w.mach m).listener) (fun _ => idle2) c.w where
  own := own_initial env c h
  tasks := task_initial env c h
  link := fun _ => link_idle
  way := fun t _ => by
    rw [h.trace]
    have : memOf c.w = fun m => Mem.init (c.w.mach m).listener := by
      funext m
      simp [memOf, Mem.init, h.mach]
    rw [this]
    exact .nil

/-- Every thread has a way through the history. -/
theorem way {c0 c : Conf} (hi : Initial c0) (hr : ReachFrom env c0 c) (t : Tid) (ht : t ≠ .env) :
    ∃ d st, Way (cfg env) t (fun m => machAt c0 m []) 0 .idle c.w.trace (memOf c.w) d st := by
  obtain ⟨xs, hx⟩ := hr
  obtain ⟨lst, _, h⟩ := sound_runs (checked2 env) (invariant env _) (lst := fun _ => idle2)
    (fun t => by rw [hi.idle t]) (initial env hi) hx
  exact ⟨_, _, h.way t ht⟩

end Verif.Course
