import Verif.Logic.Track
import Verif.Proofs.CourseInv
/-
Threads that process events make progress: a measure which every step outside user code decreases.
-/

namespace Verif.Course
open Spec.Course Spec
open Spec.Mon (Mem)

/-! ### Which thread is where -/

/-- The drain task. -/
def _root_.Verif.Spec.Course.Stage.home : Stage → Option SId
  | .loop s _ | .busy s _ _ _ _ | .thrown s _ _ _ _ | .flow s _ _ _ _ | .over s _ _ _ _ => some s
  | _ => none

structure Sane (cfg : Cfg) (t : Tid) (u : Nat × Bool) (d : Nat) (st : Stage) : Prop where
  depth : u.1 = d
  deep : 0 < d → st.calling = true
  flag : u.2 = (st.calling && decide (st ≠ .idle))
  neat : ∀ s cm m ev td, st = .busy s cm m ev td → ∀ c, Todo.ret c ∉ td.tail
  home : ∀ s, st.home = some s → ∃ i, t = .worker (cfg.exec s) i

section
variable {cfg : Cfg} {t : Tid} {u : Nat × Bool}

theorem Sane.noret {s : SId} {cm m : MId} {ev : Ev} {td : List Todo} (hu : u = (0, false)) (hh : ∃ i, t = .worker (cfg.exec s) i)
    (h : ∀ c, Todo.ret c ∉ td) : Sane cfg t u 0 (.busy s cm m ev td) := by
  subst hu
  refine ⟨rfl, fun h => absurd h (Nat.lt_irrefl 0), ?_, ?_, fun _ h => by cases h; exact hh⟩
  · cases td with
    | nil => rfl
    | cons a td => cases a <;> first | rfl | exact absurd List.mem_cons_self (h _)
  · rintro _ _ _ _ _ ⟨⟩ c hc
    exact h c (List.mem_of_mem_tail hc)

theorem Sane.quiet {st : Stage} (h : Sane cfg t u 0 st) (hs : st.calling = false) : u = (0, false) := by
  have h1 := h.flag
  rw [hs] at h1
  exact Prod.ext h.depth h1

/-- What is left to do contains no running user code except at the very beginning. -/
theorem Sane.tail {s : SId} {cm m : MId} {ev : Ev} {a : Todo} {td : List Todo} {d : Nat} (h : Sane cfg t u d (.busy s cm m ev (a :: td))) (c : Cb) :
    Todo.ret c ∉ td := h.neat _ _ _ _ _ rfl c

theorem calls_noret {d : Desc} {k : Kind} {s : St} {ev : Ev} {c : Cb} : Todo.ret c ∉ calls d k s ev := by
  simp [calls]

theorem steps_noret {d : Desc} {a b : St} {ev : Ev} {c : Cb} : Todo.ret c ∉ steps d a ev b := by
  unfold steps
  split <;> simp

theorem choice_noret {d : Desc} {a : Option St} {ev : Ev} {l : List Todo} {c : Cb} (h : choice d a ev = some l) : Todo.ret c ∉ l := by
  simp only [choice, Option.map_eq_some_iff] at h
  obtain ⟨row, _, h⟩ := h
  split at h
  · subst h; simp
  · split at h <;> subst h <;> simp

theorem sane_look {v : MId → Mem} {st st' : Stage} (h : Sane cfg t u 0 st) (hl : Look cfg t v st st') : Sane cfg t u 0 st' := by
  have happ : ∀ {l td : List Todo}, (∀ c, Todo.ret c ∉ l) → (∀ c, Todo.ret c ∉ td) → ∀ c, Todo.ret c ∉ l ++ td :=
    fun h1 h2 c hc => (List.mem_append.1 hc).elim (h1 c) (h2 c)
  have hcons : ∀ {a : Todo} {td : List Todo}, (∀ c, a ≠ .ret c) → (∀ c, Todo.ret c ∉ td) → ∀ c, Todo.ret c ∉ a :: td :=
    fun h1 h2 c hc => (List.mem_cons.1 hc).elim (fun h => h1 c h.symm) (h2 c)
  have plain : ∀ {st' : Stage}, u = (0, false) → st'.calling = false → (∀ s cm m ev td, st' ≠ .busy s cm m ev td) →
      (∀ s, st'.home = some s → ∃ i, t = .worker (cfg.exec s) i) → Sane cfg t u 0 st' := by
    intro st' hu h1 h2 h3
    subst hu
    exact ⟨rfl, fun h => absurd h (Nat.lt_irrefl 0), by rw [h1]; rfl, fun _ _ _ _ _ h => absurd h (h2 _ _ _ _ _), h3⟩
  cases hl with
  | begin h1 h2 =>
    exact plain (Prod.ext h.depth h.flag) rfl (by simp) (fun s hs => by cases hs; exact ⟨_, h1⟩)
  | quit =>
    have := h.quiet rfl
    subst this
    exact ⟨rfl, fun h => absurd h (Nat.lt_irrefl 0), rfl, by simp, fun s hs => by cases hs⟩
  | robbed => exact plain (h.quiet rfl) rfl (by simp) (fun s hs => by cases hs)
  | skip _ => exact .noret (h.quiet rfl) (h.home _ rfl) (by simp)
  | check _ => exact .noret (h.quiet rfl) (h.home _ rfl) h.tail
  | decide hc => exact .noret (h.quiet rfl) (h.home _ rfl) (happ (fun _ => choice_noret hc) h.tail)
  | norow _ => exact plain (h.quiet rfl) rfl (by simp) (fun s hs => by cases hs; exact h.home _ rfl)
  | say => exact .noret (h.quiet rfl) (h.home _ rfl) (hcons (by simp) h.tail)
  | move => exact .noret (h.quiet rfl) (h.home _ rfl) (happ (fun _ => steps_noret) h.tail)
  | silent _ => exact .noret (h.quiet rfl) (h.home _ rfl) h.tail
  | listens _ => exact .noret (h.quiet rfl) (h.home _ rfl) (hcons (by simp) h.tail)
  | gone _ => exact plain (h.quiet rfl) rfl (by simp) (fun s hs => by cases hs; exact h.home _ rfl)
  | acts _ => exact .noret (h.quiet rfl) (h.home _ rfl) (happ (fun _ => calls_noret) h.tail)
  | noState _ => exact plain (h.quiet rfl) rfl (by simp) (fun s hs => by cases hs; exact h.home _ rfl)
  | ended _ => exact .noret (h.quiet rfl) (h.home _ rfl) h.tail

theorem sane_act {v : MId → Mem} {st st' : Stage} {x : Obs} (h : Sane cfg t u 0 st) (ha : Act cfg t v st x st') :
    Sane cfg t (userStep t u (t, x)) 0 st' := by
  obtain ⟨u1, u2⟩ := u
  have hd : u1 = 0 := h.depth
  subst hd
  have hcons : ∀ {a : Todo} {td : List Todo}, (∀ c, a ≠ .ret c) → (∀ c, Todo.ret c ∉ td) → ∀ c, Todo.ret c ∉ a :: td :=
    fun h1 h2 c hc => (List.mem_cons.1 hc).elim (fun h => h1 c h.symm) (h2 c)
  have plain : ∀ {u : Nat × Bool} {st' : Stage}, u = (0, st'.calling && decide (st' ≠ .idle)) →
      (∀ s cm m ev td, st' = .busy s cm m ev td → ∀ c, Todo.ret c ∉ td.tail) →
      (∀ s, st'.home = some s → ∃ i, t = .worker (cfg.exec s) i) → Sane cfg t u 0 st' := by
    intro u st' hu h2 h3
    subst hu
    exact ⟨rfl, fun h => absurd h (Nat.lt_irrefl 0), rfl, h2, h3⟩
  have back : ∀ {st' : Stage} {s cm m ev c td}, st' = Stage.busy s cm m ev (.ret c :: td) → (∀ c, Todo.ret c ∉ td) →
      ∀ s cm m ev td, st' = .busy s cm m ev td → ∀ c, Todo.ret c ∉ td.tail := by
    rintro _ _ _ _ _ _ _ rfl h _ _ _ _ _ ⟨⟩ c hc
    exact h c hc
  have q : st.calling = false → u2 = false := fun hc => congrArg Prod.snd (h.quiet hc)
  cases ha with
  | taken =>
    have := q rfl; subst this
    exact .noret (by simp [userStep]) (h.home _ rfl) (by simp)
  | told _ => exact plain (by simp [userStep, Stage.calling]) (back rfl h.tail) (fun s hs => by cases hs; exact h.home _ rfl)
  | call => exact plain (by simp [userStep, Stage.calling]) (back rfl h.tail) (fun s hs => by cases hs; exact h.home _ rfl)
  | ret => exact .noret (by simp [userStep]) (h.home _ rfl) h.tail
  | throws => exact plain (by simp [userStep, Stage.calling]) (by simp) (fun s hs => by cases hs; exact h.home _ rfl)
  | set _ =>
    have := q rfl; subst this
    exact .noret (by simp [userStep]) (h.home _ rfl) (hcons (by simp) h.tail)
  | write =>
    have := q rfl; subst this
    exact .noret (by simp [userStep]) (h.home _ rfl) h.tail
  | done =>
    have := q rfl; subst this
    exact plain (by simp [userStep, Stage.calling]) (by simp) (fun s hs => by cases hs; exact h.home _ rfl)
  | report _ => exact plain (by simp [userStep, Stage.calling]) (by simp) (fun s hs => by cases hs; exact h.home _ rfl)
  | error _ =>
    have := q rfl; subst this
    exact plain (by simp [userStep, Stage.calling]) (by simp) (fun s hs => by cases hs)
  | reported => exact plain (by simp [userStep, Stage.calling]) (by simp) (fun s hs => by cases hs; exact h.home _ rfl)
  | over =>
    have := q rfl; subst this
    exact plain (by simp [userStep, Stage.calling]) (by simp) (fun s hs => by cases hs; exact h.home _ rfl)
  | overErr =>
    have := q rfl; subst this
    exact plain (by simp [userStep, Stage.calling]) (by simp) (fun s hs => by cases hs)
  | dies =>
    have := q rfl; subst this
    exact plain (by simp [userStep, Stage.calling]) (by simp) (fun s hs => by cases hs)
  | client _ =>
    have : u2 = false := h.flag
    subst this
    exact plain (by simp [userStep, Stage.calling]) (by simp) (fun s hs => by cases hs)

theorem sane_way {v v' : MId → Mem} {d d' : Nat} {st st' : Stage} {tr : List (Tid × Obs)} (hw : Way cfg t v d st tr v' d' st')
    (h : Sane cfg t u d st) : Sane cfg t (tr.foldl (userStep t) u) d' st' := by
  induction hw generalizing u with
  | nil => exact h
  | look hl _ ih => exact ih (sane_look h hl)
  | other hu _ ih => exact ih (by rw [userStep, if_neg hu]; exact h)
  | enter hc _ ih => exact ih (by rw [userStep, if_pos rfl]; exact ⟨congrArg (· + 1) h.depth, fun _ => hc, h.flag, h.neat, h.home⟩)
  | leave _ ih =>
    exact ih (by rw [userStep, if_pos rfl]; exact ⟨congrArg (· - 1) h.depth, fun _ => h.deep (Nat.succ_pos _), h.flag, h.neat, h.home⟩)
  | @user _ _ _ x _ _ _ _ hc hu _ ih =>
    refine ih ?_
    have : userStep t u (t, x) = u := by rw [userStep, if_pos rfl]; cases x <;> first | rfl | cases hu
    rw [this]; exact h
  | @inner _ d _ x _ _ _ _ h1 h2 _ _ ih =>
    refine ih ?_
    have h0 : u.1 ≠ 0 := by rw [h.depth]; exact Nat.succ_ne_zero d
    have : userStep t u (t, x) = u := by
      rw [userStep, if_pos rfl]
      cases x <;> first | rfl | exact absurd rfl (h1 _) | exact absurd rfl (h2 _ _) | exact if_neg h0
    rw [this]; exact h
  | act ha _ ih => exact ih (sane_act h ha)

end

/-! ### The measure -/

section
variable {env : Env}

def Todo.pot : Todo → Nat
  | .decide => 4
  | .move _ => 3
  | .acts _ => 1
  | _ => 0

def Todo.wt : Todo → Nat
  | .say .. => 4
  | .tell _ => 3
  | .told _ | .call _ | .set _ => 2
  | .ret _ | .write _ | .check => 1
  | _ => 0

def Loc.rank : Loc → Nat
  | .polled .. => 10
  | .at_ _ _ _ _ _ td => 5 + (td.map Todo.pot).sum
  | .thrown .. => 4
  | .flow .. => 3
  | .over .. => 2
  | .top .. => 1
  | _ => 0

def Loc.wt : Loc → Nat
  | .at_ _ _ _ _ _ td => (td.map Todo.wt).sum
  | _ => 0

theorem sum_wt (l : List Todo) (f : Todo → Nat) : ∀ td, ((l ++ td).map f).sum = (l.map f).sum + (td.map f).sum := by
  intro td; simp

theorem pot_calls {d : Desc} {k : Kind} {s : St} {ev : Ev} : ((calls d k s ev).map Todo.pot).sum = 0 := by
  unfold calls
  generalize List.range _ = l
  induction l with
  | nil => rfl
  | cons a l ih => simpa [Todo.pot] using ih

theorem pot_steps {d : Desc} {a b : St} {ev : Ev} : ((steps d a ev b).map Todo.pot).sum = 2 := by
  unfold steps
  split <;> simp [Todo.pot]

theorem pot_choice {d : Desc} {a : Option St} {ev : Ev} {l : List Todo} (h : choice d a ev = some l) : (l.map Todo.pot).sum ≤ 3 := by
  simp only [choice, Option.map_eq_some_iff] at h
  obtain ⟨row, _, h⟩ := h
  split at h
  · subst h; simp [Todo.pot]
  · split at h <;> subst h <;> simp [Todo.pot]

def Loc.less (l' l : Loc) : Prop := l'.rank < l.rank ∨ (l'.rank = l.rank ∧ l'.wt < l.wt)

theorem loc_less {l : Loc} {o : Op} {w : World} (ha : l.allowed env o) (hs : ∀ s cm, l ≠ .seen s cm) : (l.nxt env o w).less l := by
  unfold Loc.allowed at ha
  split at ha
  · simp only [Loc.nxt]
    split <;> exact .inl Nat.zero_lt_one
  · exact absurd rfl (hs _ _)
  · exact .inl (by simp [Loc.nxt, Loc.rank, Todo.pot])
  · exact .inl (by simp [Loc.nxt, Loc.rank])
  · simp only [Loc.nxt]
    split
    · exact if h : ((List.map Todo.pot ‹List Todo›).sum) = 0
        then .inr (by simp [Loc.rank, Loc.wt, Todo.pot, Todo.wt, h]; omega)
        else .inl (by simp [Loc.rank, Todo.pot]; omega)
    · exact .inr (by simp [Loc.rank, Loc.wt, Todo.pot, Todo.wt])
  · simp only [Loc.nxt]
    split
    · next h => have := pot_choice h; exact .inl (by simp only [Loc.rank, sum_wt, List.map_cons, List.sum_cons, Todo.pot]; omega)
    · exact .inl (by simp [Loc.rank]; omega)
  · exact .inr (by simp [Loc.nxt, Loc.rank, Loc.wt, Todo.pot, Todo.wt])
  · exact .inl (by simp only [Loc.nxt, Loc.rank, sum_wt, List.map_cons, List.sum_cons, Todo.pot, pot_steps]; omega)
  · simp only [Loc.nxt]
    split
    · exact .inl (by simp only [Loc.rank, sum_wt, List.map_cons, List.sum_cons, Todo.pot, pot_calls]; omega)
    · exact .inl (by simp [Loc.rank]; omega)
  · simp only [Loc.nxt]
    split <;> exact .inr (by simp [Loc.rank, Loc.wt, Todo.pot, Todo.wt])
  · simp only [Loc.nxt]
    split
    · exact .inr (by simp [Loc.rank, Loc.wt, Todo.pot, Todo.wt])
    · exact .inl (by simp [Loc.rank]; omega)
  · exact .inr (by simp [Loc.nxt, Loc.rank, Loc.wt, Todo.pot, Todo.wt])
  · simp only [Loc.nxt]
    split
    · exact .inr (by simp [Loc.rank, Loc.wt, Todo.pot, Todo.wt])
    · exact .inl (by simp [Loc.rank]; omega)
  · simp only [Loc.nxt]
    split <;> exact .inr (by simp [Loc.rank, Loc.wt, Todo.pot, Todo.wt])
  · exact .inr (by simp [Loc.nxt, Loc.rank, Loc.wt, Todo.pot, Todo.wt])
  · exact .inl (by simp [Loc.nxt, Loc.rank])
  · exact .inl (by simp [Loc.nxt, Loc.rank])
  · exact .inl (by simp [Loc.nxt, Loc.rank])
  · simp only [Loc.nxt]
    split <;> exact .inl (by simp [Loc.rank])
  · exact ha.elim

end

/-! ### Steps along an execution -/

section
variable {env : Env} (r : Run env)

/-- Where the threads are. -/
def pos (i : Nat) : Tid → List Frame × Pos := r.ctl (proto2 env) idle2 task2 i

theorem pos_ok (i : Nat) : ThreadsOk (proto2 env) idle2 fin2 (pos r i) (r.conf i) ∧
    Inv env (fun m => Mem.init ((r.conf 0).w.mach m).listener) (pos r i) (r.conf i).w :=
  r.ctl_ok (checked2 env) (invariant env _) (initial env r.init) i

theorem pos_sane (i : Nat) {t : Tid} (ht : t ≠ .env) :
    Sane (cfg env) t ((r.conf i).w.trace.foldl (userStep t) (0, false)) (pos r i t).2.1 (pos r i t).2.2.stage :=
  sane_way ((pos_ok r i).2.way t ht) ⟨rfl, fun h => absurd h (Nat.lt_irrefl 0), rfl, by simp, fun s hs => by cases hs⟩

/-- A thread that is not picked stays where it is. -/
theorem stays (i : Nat) {t : Tid} {p : Prog Unit} (hp : (r.conf i).thr t = some p) (h : r.pick i ≠ some (.run t)) :
    (r.conf (i + 1)).thr t = some p ∧ pos r (i + 1) t = pos r i t := by
  have hn := r.next i
  show _ ∧ track (proto2 env) idle2 task2 (pos r i) (r.conf i) (r.pick i) t = _
  cases hx : r.pick i with
  | none => rw [hx] at hn; simp only at hn; rw [hn]; exact ⟨hp, rfl⟩
  | some x =>
    rw [hx] at hn h
    simp only at hn
    cases x with
    | begin n u =>
      simp only [step] at hn
      split at hn
      · cases hn
      next hc =>
        have hne : t ≠ .client n := by rintro rfl; rw [hc] at hp; cases hp
        have hn := Option.some.inj hn
        rw [← hn]
        exact ⟨by simp only [fset_ne _ _ hne]; exact hp, rfl⟩
    | run u =>
      have hne : t ≠ u := by rintro rfl; exact h rfl
      simp only [step] at hn
      split at hn
      · cases hn
      next q hq =>
        simp only [track, hq]
        cases q with
        | ret a => have hn := Option.some.inj hn; rw [← hn]; simp only [fset_ne _ _ hne]; exact ⟨hp, trivial⟩
        | thr x => have hn := Option.some.inj hn; rw [← hn]; simp only [fset_ne _ _ hne]; exact ⟨hp, trivial⟩
        | op o k =>
          simp only [runThread] at hn
          split at hn
          · have hn := Option.some.inj hn; rw [← hn]; simp only [fset_ne _ _ hne]; exact ⟨hp, trivial⟩
          · cases hn
        | call f k => have hn := Option.some.inj hn; rw [← hn]; simp only [fset_ne _ _ hne]; exact ⟨hp, trivial⟩
    | dispatch e k n =>
      simp only [step] at hn
      split at hn
      · split at hn
        next s m hc hj =>
          have hne : t ≠ .worker e k := by rintro rfl; rw [hc] at hp; cases hp
          have hn := Option.some.inj hn
          rw [← hn]
          simp only [track, hj, fset_ne _ _ hne]; exact ⟨hp, trivial⟩
        · cases hn
      · cases hn
    | interrupt u => have hn := Option.some.inj hn; rw [← hn]; exact ⟨hp, rfl⟩
    | shutdown e now => have hn := Option.some.inj hn; rw [← hn]; exact ⟨hp, rfl⟩

/-- Programs that can do a step at any time. -/
def ready : Prog Unit → Bool
  | .op (.await _) _ => false
  | _ => true

theorem ready_step {c : Conf} {t : Tid} {p : Prog Unit} (hp : c.thr t = some p) (h : ready p = true) :
    (step env c (.run t)).isSome = true := by
  simp only [step, hp]
  cases p with
  | op o k => cases o <;> first | rfl | cases h
  | _ => rfl

theorem first_of {P : Nat → Prop} {i j : Nat} (hij : i ≤ j) (h : P j) : ∃ k, i ≤ k ∧ P k ∧ ∀ l, i ≤ l → l < k → ¬ P l := by
  obtain ⟨n, rfl⟩ := Nat.le.dest hij
  clear hij
  induction n using Nat.strongRecOn with
  | ind n ih =>
    by_cases hx : ∃ m, m < n ∧ P (i + m)
    · obtain ⟨m, hm, hpm⟩ := hx
      exact ih m hm hpm
    · refine ⟨i + n, Nat.le_add_right _ _, h, fun l h1 h2 hl => hx ⟨l - i, by omega, ?_⟩⟩
      rwa [show i + (l - i) = l by omega]

theorem stays_until {i j : Nat} (hij : i ≤ j) {t : Tid} {p : Prog Unit} (hp : (r.conf i).thr t = some p)
    (h : ∀ l, i ≤ l → l < j → r.pick l ≠ some (.run t)) : (r.conf j).thr t = some p ∧ pos r j t = pos r i t := by
  obtain ⟨n, rfl⟩ := Nat.le.dest hij
  clear hij
  induction n with
  | zero => exact ⟨hp, rfl⟩
  | succ n ih =>
    obtain ⟨h1, h2⟩ := ih (fun l a b => h l a (by omega))
    obtain ⟨h3, h4⟩ := stays r (i + n) h1 (h _ (Nat.le_add_right _ _) (by omega))
    exact ⟨h3, h4.trans h2⟩

/-- A thread that can do a step at any time does one. -/
theorem goes {t : Tid} (hf : r.fair t) {i : Nat} {p : Prog Unit} (hp : (r.conf i).thr t = some p) (hr : ready p = true) :
    ∃ j, i ≤ j ∧ r.pick j = some (.run t) ∧ (r.conf j).thr t = some p ∧ pos r j t = pos r i t := by
  have : ∃ j, i ≤ j ∧ r.pick j = some (.run t) := Classical.byContradiction fun hn => by
    have hnot : ∀ l, i ≤ l → r.pick l ≠ some (.run t) := fun l h1 h2 => hn ⟨l, h1, h2⟩
    exact hn (hf i fun j hj => ready_step (stays_until r hj hp (fun l a _ => hnot l a)).1 hr)
  obtain ⟨j, hj, hj2⟩ := this
  obtain ⟨k, h1, h2, h3⟩ := first_of (P := fun j => r.pick j = some (.run t)) hj hj2
  exact ⟨k, h1, h2, stays_until r h1 hp h3⟩

/-- A step of thread `t`. -/
theorem own_step {i : Nat} {t : Tid} {p : Prog Unit} (h : r.pick i = some (.run t)) (hp : (r.conf i).thr t = some p) :
    match p with
    | .ret _ | .thr _ => (r.conf (i + 1)).thr t = none ∧ (pos r (i + 1) t) = idle2
    | .op o k => (r.conf (i + 1)).w = (exec t o (r.conf i).w).2 ∧ (r.conf (i + 1)).thr t = some (k (exec t o (r.conf i).w).1) ∧
        pos r (i + 1) t = (lNxt env (pos r i t).1 o (r.conf i).w, nxt env (pos r i t).2 o (r.conf i).w)
    | .call f k => (r.conf (i + 1)).w = (r.conf i).w ∧ (r.conf (i + 1)).thr t = some ((body env f).handle k) ∧ pos r (i + 1) t = pos r i t := by
  have hn := r.next i
  have hpos : pos r (i + 1) t = track (proto2 env) idle2 task2 (pos r i) (r.conf i) (r.pick i) t := rfl
  rw [h] at hn hpos
  simp only [step, hp] at hn
  rw [hpos]
  simp only [track, hp]
  cases p with
  | ret a => have hn := Option.some.inj hn; rw [← hn]; simp only [fset_same]; exact ⟨trivial, trivial⟩
  | thr x => have hn := Option.some.inj hn; rw [← hn]; simp only [fset_same]; exact ⟨trivial, trivial⟩
  | op o k =>
    simp only [runThread] at hn
    split at hn
    · have hn := Option.some.inj hn; rw [← hn]; simp only [fset_same]; exact ⟨trivial, trivial, rfl⟩
    · cases hn
  | call f k => have hn := Option.some.inj hn; rw [← hn]; simp only [fset_same]; exact ⟨trivial, trivial, trivial⟩

theorem loc_nxt_idle {l : Loc} {o : Op} {w : World} (h : l ≠ .idle) : l.nxt env o w ≠ .idle := by
  unfold Loc.nxt
  split <;> first | exact h | simp | skip
  all_goals (repeat' split) <;> simp

theorem nxt_idle {l : Pos} {o : Op} {w : World} (h : l.2 ≠ .idle) : (nxt env l o w).2 ≠ .idle := by
  obtain ⟨d, l⟩ := l
  unfold nxt
  split
  · exact h
  · exact h
  · cases d with
    | zero => exact loc_nxt_idle h
    | succ d => exact h

/-- The beginning of a drain task. -/
theorem dispatched {i : Nat} {e : EId} {k n : Nat} (h : r.pick i = some (.dispatch e k n)) :
    ∃ s m, (s, m) ∈ (r.conf i).w.tasks e ∧ (r.conf (i + 1)).thr (.worker e k) = some (drain env s m) ∧
      pos r (i + 1) (.worker e k) = task2 s m ∧ (r.conf (i + 1)).w.queue = (r.conf i).w.queue := by
  have hn := r.next i
  have hpos : pos r (i + 1) (.worker e k) = track (proto2 env) idle2 task2 (pos r i) (r.conf i) (r.pick i) (.worker e k) := rfl
  rw [h] at hn hpos
  rw [hpos]
  simp only [step] at hn
  split at hn
  · split at hn
    next s m hc hj =>
      have hn := Option.some.inj hn
      refine ⟨s, m, List.mem_of_getElem? hj, ?_, ?_, ?_⟩
      · rw [← hn]; simp only [fset_same]
      · simp only [track, hj, fset_same]
      · rw [← hn]
    · cases hn
  · cases hn

/-- Only a dispatch makes an idle worker busy. -/
theorem idle_stays {i : Nat} {e : EId} {k : Nat} (h : (r.conf i).thr (.worker e k) = none)
    (hd : ∀ n, r.pick i ≠ some (.dispatch e k n)) : (r.conf (i + 1)).thr (.worker e k) = none := by
  have hn := r.next i
  cases hx : r.pick i with
  | none => rw [hx] at hn; simp only at hn; rw [hn]; exact h
  | some x =>
    rw [hx] at hn hd
    simp only at hn
    cases x with
    | begin n u =>
      simp only [step] at hn
      split at hn
      · cases hn
      · have hn := Option.some.inj hn; rw [← hn]; simp only [fset_ne _ _ (show Tid.worker e k ≠ .client n by simp)]; exact h
    | run u =>
      simp only [step] at hn
      split at hn
      · cases hn
      next q hq =>
        have hne : Tid.worker e k ≠ u := by rintro rfl; rw [h] at hq; cases hq
        cases q with
        | ret a => have hn := Option.some.inj hn; rw [← hn]; simp only [fset_ne _ _ hne]; exact h
        | thr x => have hn := Option.some.inj hn; rw [← hn]; simp only [fset_ne _ _ hne]; exact h
        | op o k =>
          simp only [runThread] at hn
          split at hn
          · have hn := Option.some.inj hn; rw [← hn]; simp only [fset_ne _ _ hne]; exact h
          · cases hn
        | call f k => have hn := Option.some.inj hn; rw [← hn]; simp only [fset_ne _ _ hne]; exact h
    | dispatch e' k' n =>
      simp only [step] at hn
      split at hn
      · split at hn
        next s m hc hj =>
          have hne : Tid.worker e k ≠ .worker e' k' := by rintro ⟨⟩; exact hd n rfl
          have hn := Option.some.inj hn
          rw [← hn]
          simp only [fset_ne _ _ hne]; exact h
        · cases hn
      · cases hn
    | interrupt u => have hn := Option.some.inj hn; rw [← hn]; exact h
    | shutdown e now => have hn := Option.some.inj hn; rw [← hn]; exact h

/-- Workers that are busy are in a drain task. -/
theorem worker_loc (i : Nat) (e : EId) (k : Nat) (h : (r.conf i).thr (.worker e k) ≠ none) : (pos r i (.worker e k)).2.2 ≠ .idle := by
  induction i with
  | zero => exact absurd (r.init.idle _) h
  | succ i ih =>
    cases hp : (r.conf i).thr (.worker e k) with
    | none =>
      by_cases hd : ∃ n, r.pick i = some (.dispatch e k n)
      · obtain ⟨n, hd⟩ := hd
        obtain ⟨s, m, _, _, h3, _⟩ := dispatched r hd
        rw [h3]; simp [task2, task]
      · exact absurd (idle_stays r hp fun n hn => hd ⟨n, hn⟩) h
    | some p =>
      have ih := ih (by rw [hp]; simp)
      by_cases hx : r.pick i = some (.run (.worker e k))
      · have := own_step r hx hp
        cases p with
        | ret a => exact absurd this.1 h
        | thr a => exact absurd this.1 h
        | op o k => rw [this.2.2]; exact nxt_idle ih
        | call f k => rw [this.2.2]; exact ih
      · rw [(stays r i hp hx).2]; exact ih

/-! ### Progress -/

/-- Second part of the measure: a call of the drain loop is a step, too. -/
def callBit : Prog Unit → Nat
  | .call _ _ => 1
  | _ => 0

def val (l : Loc) (p : Prog Unit) : Nat := if l.stage.calling then 2 * l.wt else 2 * l.wt + callBit p

theorem callBit_le (p : Prog Unit) : callBit p ≤ 1 := by cases p <;> simp [callBit]

theorem val_less {l l' : Loc} {p p' : Prog Unit} (h : l'.less l) : l'.rank < l.rank ∨ (l'.rank = l.rank ∧ val l' p' < val l p) := by
  rcases h with h | ⟨h1, h2⟩
  · exact .inl h
  · refine .inr ⟨h1, ?_⟩
    have := callBit_le p'
    have : 2 * l.wt ≤ val l p := by unfold val; split <;> omega
    have : val l' p' ≤ 2 * l'.wt + 1 := by unfold val; split <;> omega
    omega

theorem drain_handle {α : Type} (s : SId) (cm : MId) (k : Except Exc Unit → Prog α) :
    ∃ k', (drain env s cm).handle k = .op (.qIsEmpty (env.strat s).queue) k' := ⟨_, rfl⟩

/-- A step outside user code. -/
theorem step_out {i : Nat} {t : Tid} {p : Prog Unit} (h : r.pick i = some (.run t)) (hp : (r.conf i).thr t = some p)
    (hd : (pos r i t).2.1 = 0) (hc : (pos r i t).2.2.stage.calling = false) :
    (r.conf (i + 1)).thr t = none ∨ (∃ s cm k, (pos r i t).2.2 = .seen s cm ∧ p = .op (.poll (env.q s)) k) ∨
    ∃ p', (r.conf (i + 1)).thr t = some p' ∧ ((pos r (i + 1) t).2.2.rank < (pos r i t).2.2.rank ∨
      ((pos r (i + 1) t).2.2.rank = (pos r i t).2.2.rank ∧ val (pos r (i + 1) t).2.2 p' < val (pos r i t).2.2 p)) := by
  have hs := own_step r h hp
  have hok := (pos_ok r i).1 t
  rw [hp] at hok
  generalize hl : pos r i t = fl at *
  obtain ⟨fr, d, l⟩ := fl
  simp only at hd hc hs ⊢
  subst hd
  cases p with
  | ret a => exact .inl hs.1
  | thr x => exact .inl hs.1
  | call f k =>
    have hpre : pre f (0, l) := hok.1.2
    cases f with
    | drain s cm =>
      have hl' : ((0, l) : Pos) = (0, .top s cm) := hpre
      cases hl'
      obtain ⟨k', hk'⟩ := drain_handle (env := env) s cm k
      refine .inr (.inr ⟨_, hs.2.1, .inr ?_⟩)
      rw [hs.2.2]
      refine ⟨rfl, ?_⟩
      show val _ ((drain env s cm).handle k) < _
      rw [hk']
      simp [val, Loc.stage, Stage.calling, callBit]
    | _ => exact absurd (show l.stage.calling = true from hpre) (by rw [hc]; simp)
  | op o k =>
    have hal : allowed env (0, l) o := hok.1.2
    have hla : l.allowed env o := by
      unfold allowed at hal
      split at hal
      · exact absurd (show l.stage.calling = true from hal) (by rw [hc]; simp)
      · exact absurd hal (Nat.lt_irrefl 0)
      · rcases hal with hal | hal | hal
        · exact absurd hal (Nat.lt_irrefl 0)
        · exact absurd (show l.stage.calling = true from hal.1) (by rw [hc]; simp)
        · exact hal
    have hne : (∀ c, o ≠ .emit (.enter c)) ∧ ∀ c r, o ≠ .emit (.leave c r) := by
      constructor <;> (intros; rintro rfl; unfold Loc.allowed at hla; split at hla <;> simp_all)
    by_cases hseen : ∃ s cm, l = .seen s cm
    · obtain ⟨s, cm, rfl⟩ := hseen
      refine .inr (.inl ⟨s, cm, ?_⟩)
      cases o with
      | poll q =>
        have : q = env.q s := hla
        subst this
        exact ⟨k, rfl, rfl⟩
      | emit x => exact (show False by cases x <;> exact hla).elim
      | _ => exact (show False from hla).elim
    · refine .inr (.inr ⟨_, hs.2.1, ?_⟩)
      rw [hs.2.2]
      simp only [nxt_plain hne.1 hne.2]
      exact val_less (loc_less hla fun s cm he => hseen ⟨s, cm, he⟩)

/-- A step in user code. -/
theorem step_in {i : Nat} {t : Tid} {p : Prog Unit} (h : r.pick i = some (.run t)) (hp : (r.conf i).thr t = some p)
    (hi : (pos r i t).2.2 ≠ .idle) (hc : (pos r i t).2.2.stage.calling = true) :
    ∃ p', (r.conf (i + 1)).thr t = some p' ∧ ((pos r (i + 1) t).2.2 = (pos r i t).2.2 ∨
      ((pos r (i + 1) t).2.2.rank < (pos r i t).2.2.rank ∨
      ((pos r (i + 1) t).2.2.rank = (pos r i t).2.2.rank ∧ val (pos r (i + 1) t).2.2 p' < val (pos r i t).2.2 p))) := by
  have hs := own_step r h hp
  have hok := (pos_ok r i).1 t
  rw [hp] at hok
  generalize hl : pos r i t = fl at *
  obtain ⟨fr, d, l⟩ := fl
  simp only at hi hc hs ⊢
  have hfin : ∀ x, ¬ fin t x (d, l) := by
    rintro x (⟨h1, _⟩ | h1)
    · cases h1; exact hi rfl
    · cases x with
      | ok a => obtain ⟨s, cm, h1⟩ := h1; cases h1; cases hc
      | error x => cases h1; cases hc
  cases p with
  | ret a => exact absurd hok.2 (hfin _)
  | thr x => exact absurd hok.2 (hfin _)
  | call f k => exact ⟨_, hs.2.1, .inl (by rw [hs.2.2])⟩
  | op o k =>
    have hal : allowed env (d, l) o := hok.1.2
    refine ⟨_, hs.2.1, ?_⟩
    rw [hs.2.2]
    by_cases hne : (∀ c, o ≠ .emit (.enter c)) ∧ ∀ c r, o ≠ .emit (.leave c r)
    · have hpl := nxt_plain (env := env) (d := d) (l := l) (w := (r.conf i).w) hne.1 hne.2
      cases d with
      | succ d => exact .inl (by simp only [hpl])
      | zero =>
        rcases allowed_plain hne.1 hne.2 hal with ha | ⟨hcal, ha⟩ | ha
        · exact absurd ha (Nat.lt_irrefl 0)
        · exact .inl (by rw [nxt_user hcal ha])
        · refine .inr ?_
          simp only [hpl]
          refine val_less (loc_less ha ?_)
          rintro s cm rfl
          cases hc
    · refine .inl ?_
      by_cases h1 : ∃ c, o = .emit (.enter c)
      · obtain ⟨c, rfl⟩ := h1; rfl
      · by_cases h2 : ∃ c r, o = .emit (.leave c r)
        · obtain ⟨c, x, rfl⟩ := h2; rfl
        · exact absurd ⟨fun c hc => h1 ⟨c, hc⟩, fun c r hc => h2 ⟨c, r, hc⟩⟩ hne

/-- Outside user code a thread never waits for another one. -/
theorem ready_out {i : Nat} {t : Tid} {p : Prog Unit} (hp : (r.conf i).thr t = some p)
    (hd : (pos r i t).2.1 = 0) (hc : (pos r i t).2.2.stage.calling = false) : ready p = true := by
  have hok := (pos_ok r i).1 t
  rw [hp] at hok
  generalize hl : pos r i t = fl at *
  obtain ⟨fr, d, l⟩ := fl
  simp only at hd hc
  subst hd
  cases p with
  | op o k =>
    cases o with
    | await n =>
      have hal : allowed env (0, l) (.await n) := hok.1.2
      rcases hal with hal | hal | hal
      · exact absurd hal (Nat.lt_irrefl 0)
      · exact absurd (show l.stage.calling = true from hal.1) (by rw [hc]; simp)
      · cases l with
        | at_ s cm p ev m td =>
          cases td with
          | nil => exact (show False from hal).elim
          | cons a td => cases a <;> exact (show False from hal).elim
        | _ => exact (show False from hal).elim
    | _ => rfl
  | _ => rfl

def mu (i : Nat) (t : Tid) : Nat × Nat := match (r.conf i).thr t with
  | some p => ((pos r i t).2.2.rank, val (pos r i t).2.2 p)
  | none => (0, 0)

def lex (a b : Nat × Nat) : Prop := a.1 < b.1 ∨ (a.1 = b.1 ∧ a.2 < b.2)

theorem lex_wf : WellFounded lex := by
  refine ⟨fun a => ?_⟩
  obtain ⟨a, b⟩ := a
  induction a using Nat.strongRecOn generalizing b with
  | ind a iha =>
    induction b using Nat.strongRecOn with
    | ind b ihb =>
      refine ⟨_, fun ⟨c, d⟩ h => ?_⟩
      rcases h with h | ⟨h1, h2⟩
      · exact iha c h d
      · simp only at h1 h2
        subst h1
        exact ihb d h2

theorem lex_irrefl {a : Nat × Nat} : ¬ lex a a := by
  rintro (h | ⟨_, h⟩) <;> exact absurd h (Nat.lt_irrefl _)

/-- A sequence that never increases is constant in the end. -/
theorem settles (f : Nat → Nat × Nat) (i : Nat) (h : ∀ j, i ≤ j → f (j + 1) = f j ∨ lex (f (j + 1)) (f j)) :
    ∃ i', i ≤ i' ∧ ∀ j, i' ≤ j → f j = f i' := by
  generalize hx : f i = x
  induction x using lex_wf.induction generalizing i with
  | _ x ih =>
    by_cases hc : ∀ j, i ≤ j → f j = f i
    · exact ⟨i, Nat.le_refl i, hc⟩
    · have : ∃ j, i ≤ j ∧ lex (f j) x := Classical.byContradiction fun hn => hc fun j hj => by
        obtain ⟨n, rfl⟩ := Nat.le.dest hj
        clear hj
        induction n with
        | zero => rfl
        | succ n ih =>
          rcases h (i + n) (Nat.le_add_right _ _) with h1 | h1
          · exact h1.trans ih
          · exact absurd ⟨i + n + 1, by omega, by rw [ih, hx] at h1; exact h1⟩ hn
      obtain ⟨j, hj, hl⟩ := this
      obtain ⟨i', h1, h2⟩ := ih (f j) hl j (fun k hk => h k (Nat.le_trans hj hk)) rfl
      exact ⟨i', Nat.le_trans hj h1, h2⟩

/-- The thread polls the queue of `s`. -/
def polls (i : Nat) (t : Tid) : Prop :=
  r.pick i = some (.run t) ∧ ∃ s cm k, (pos r i t).2 = (0, .seen s cm) ∧ (r.conf i).thr t = some (.op (.poll (env.q s)) k)

/-- C59, core: a worker does not do the same event forever. -/
theorem comes_to_poll {e : EId} {k : Nat} (hf : r.fair (.worker e k)) (hu : r.returns (.worker e k)) (i : Nat) :
    ∃ j, i ≤ j ∧ ((r.conf j).thr (.worker e k) = none ∨ polls r j (.worker e k)) := by
  refine Classical.byContradiction fun hn => ?_
  have hne : ∀ j, i ≤ j → (r.conf j).thr (.worker e k) ≠ none := fun j hj h => hn ⟨j, hj, .inl h⟩
  have hnp : ∀ j, i ≤ j → ¬ polls r j (.worker e k) := fun j hj h => hn ⟨j, hj, .inr h⟩
  have hout : ∀ j, i ≤ j → (pos r j (.worker e k)).2.2.stage.calling = false → (pos r j (.worker e k)).2.1 = 0 := by
    intro j _ hc
    refine Classical.byContradiction fun h0 => ?_
    have := (pos_sane r j (t := .worker e k) (by simp)).deep (Nat.pos_of_ne_zero h0)
    rw [hc] at this
    cases this
  have hdown : ∀ j, i ≤ j → (pos r j (.worker e k)).2.2.stage.calling = false → r.pick j = some (.run (.worker e k)) →
      lex (mu r (j + 1) (.worker e k)) (mu r j (.worker e k)) := by
    intro j hj hc hx
    cases hp : (r.conf j).thr (.worker e k) with
    | none => exact absurd hp (hne j hj)
    | some p =>
      rcases step_out r hx hp (hout j hj hc) hc with h1 | ⟨s, cm, k', h1, rfl⟩ | ⟨p', h1, h2⟩
      · exact absurd h1 (hne _ (by omega))
      · exact absurd ⟨hx, s, cm, k', Prod.ext (hout j hj hc) h1, hp⟩ (hnp j hj)
      · unfold mu; rw [h1, hp]; exact h2
  obtain ⟨i', hi', hconst⟩ := settles (fun j => mu r j (.worker e k)) i (fun j hj => by
    cases hp : (r.conf j).thr (.worker e k) with
    | none => exact absurd hp (hne j hj)
    | some p =>
      by_cases hx : r.pick j = some (.run (.worker e k))
      · cases hc : (pos r j (.worker e k)).2.2.stage.calling with
        | false => exact .inr (hdown j hj hc hx)
        | true =>
          obtain ⟨p', h1, h2⟩ := step_in r hx hp (worker_loc r j e k (hne j hj)) hc
          rcases h2 with h2 | h2
          · left
            show mu r _ _ = mu r _ _
            unfold mu
            rw [h1, hp]
            simp only [h2, val, hc, if_true]
          · right
            show lex (mu r _ _) (mu r _ _)
            unfold mu; rw [h1, hp]; exact h2
      · left
        obtain ⟨h1, h2⟩ := stays r j hp hx
        show mu r _ _ = mu r _ _
        unfold mu
        rw [h1, hp, h2])
  obtain ⟨j, hj, hflag⟩ := hu i'
  have hs := (pos_sane r j (t := .worker e k) (by simp)).flag
  have hij : i ≤ j := Nat.le_trans hi' hj
  have hc : (pos r j (.worker e k)).2.2.stage.calling = false := by
    have hidle : (pos r j (.worker e k)).2.2.stage ≠ .idle := by
      have := worker_loc r j e k (hne j hij)
      generalize (pos r j (.worker e k)).2.2 = l at this ⊢
      cases l <;> first | exact absurd rfl this | simp [Loc.stage]
    unfold inUser at hflag
    rw [hflag] at hs
    simpa [hidle] using hs.symm
  cases hp : (r.conf j).thr (.worker e k) with
  | none => exact hne j hij hp
  | some p =>
    obtain ⟨j', h1, h2, h3, h4⟩ := goes r hf hp (ready_out r hp (hout j hij hc) hc)
    have := hdown j' (Nat.le_trans hij h1) (by rw [h4]; exact hc) h2
    rw [show mu r (j' + 1) (.worker e k) = mu r i' (.worker e k) from hconst _ (by omega),
      show mu r j' (.worker e k) = mu r i' (.worker e k) from hconst _ (by omega)] at this
    exact lex_irrefl this

end
end Verif.Course
