import Verif.Proofs.Tokens
import Verif.Demo.Races
/-
C14: no accepted event is stranded.
-/

namespace Verif

/-- The operation is a step towards processing a waiting event of queue `q`: a look at the queue, a poll, or the submission
of a drain task for it. -/
def Op.serves (env : Env) (q : QId) : Op → Bool
  | .qIsEmpty q' | .poll q' => q' = q
  | .submit _ s _ => (env.strat s).queue = q
  | _ => false

/-- The next thing thread `t` does is such an operation. -/
def Conf.serves (env : Env) (q : QId) (c : Conf) (t : Tid) : Prop := ∃ o k, c.thr t = some (.op o k) ∧ o.serves env q = true

/-- Number of drain tasks for queue `q` that are pending in executor `e`. -/
def Conf.pending (env : Env) (q : QId) (e : EId) (c : Conf) : Nat := (c.w.tasks e).countP fun x => (env.strat x.1).queue = q

/-- Number of drain tasks for queue `q` that an executor has refused or thrown away. -/
def Conf.lost (env : Env) (q : QId) (c : Conf) : Nat := c.w.trace.countP fun x => match x.2 with
  | .rejected s _ | .taskDropped s _ => (env.strat s).queue = q
  | _ => false

section
variable {env : Env} {c : Conf} {q : QId} {e : EId}

theorem serves_of_waits {lst : Tid → List Frame} (ht : ThreadsOk (proto env) [] fin lst c) {t : Tid}
    (h : waits env q (lst t) = true) : c.serves env q t := by
  have h0 := ht t
  cases hp : c.thr t with
  | none => rw [hp] at h0; rw [h0] at h; cases h
  | some p =>
    rw [hp] at h0
    cases p with
    | ret a => have : fin t (.ok a) (lst t) := h0; rw [waits_fin this] at h; cases h
    | thr x => have : fin t (.error x) (lst t) := h0; rw [waits_fin this] at h; cases h
    | call f k =>
      have hpre : lPre env f (lst t) := h0.1
      cases f with
      | drain s m => simp only [lPre] at hpre; rw [hpre] at h; cases h
      | unmapped => rw [waits_callable hpre.1] at h; cases h
      | flowEx => rw [waits_callable hpre.1] at h; cases h
      | _ => rw [waits_callable hpre] at h; cases h
    | op o k =>
      refine ⟨o, k, hp, ?_⟩
      have hm := lmove_of_allowed (w := c.w) h0.1
      generalize lNxt env (lst t) o c.w = l' at hm
      generalize lst t = l at hm h
      cases hm with
      | enter hc => rw [waits_callable hc] at h; cases h
      | leave hl => rw [waits_leaves hl] at h; cases h
      | user hc _ => rw [waits_callable hc] at h; cases h
      | frame hm =>
        cases hm with
        | fSubmit => exact h
        | drQuit hd _ =>
          rcases hd with rfl | rfl
          · simpa [waits, Op.serves, Env.q] using h
          · cases h
        | drSeenF _ => simpa [waits, Op.serves, Env.q] using h
        | @drPoll0 s cm b _ => cases b <;> first | (cases h; done) | simpa [waits, Op.serves, Env.q] using h
        | @drPollBad s cm b _ => cases b <;> first | (cases h; done) | simpa [waits, Op.serves, Env.q] using h
        | @drPoll s cm b _ => cases b <;> first | (cases h; done) | simpa [waits, Op.serves, Env.q] using h
        | stCas1 hf _ _ => rcases hf.inv with ⟨rfl, _⟩ | ⟨rfl, _⟩ <;> cases h
        | stCas0 hf _ _ => rcases hf.inv with ⟨rfl, _⟩ | ⟨rfl, _⟩ <;> cases h
        | stSet hf => rcases hf.inv with ⟨rfl, _⟩ | ⟨rfl, _⟩ <;> cases h
        | stClear hf _ => rcases hf.inv with ⟨rfl, _⟩ | ⟨rfl, _⟩ <;> cases h
        | stPh hf _ _ => rcases hf.inv with ⟨rfl, _⟩ | ⟨rfl, _⟩ <;> cases h
        | fSize hf _ => rcases hf with ⟨rfl, _⟩ | rfl <;> cases h
        | fSizeFull hf _ => rcases hf with ⟨rfl, _⟩ | rfl <;> cases h
        | _ => cases h

/-- C14: every waiting event has somebody who will see to it. For a queue that belongs to one executor, the number of
waiting events is at most the number of pending drain tasks for the queue, plus the number of threads which are just about
to look at the queue, to poll it, or to submit a drain task for it, plus the number of drain tasks that the executor refused
or threw away because it was shut down. This holds at any time, whatever user code does, in particular if it throws
`Error`s that kill drain tasks. -/
theorem C14_covered (hr : Reach env c) (he : ∀ s, (env.strat s).queue = q → (env.strat s).exec = e) :
    ∃ T : List Tid, T.Nodup ∧ (∀ t ∈ T, c.serves env q t) ∧
      (c.w.queue q).length ≤ T.length + c.pending env q e + c.lost env q := by
  obtain ⟨lst, ht, ⟨_, _⟩, h⟩ := Invariant.reach
    (((own_invariant env).and (task_preserved env)).and ((covered_invariant env q e).mono fun _ _ h => h.2))
    (fun c hi => ⟨⟨own_initial env c hi, task_initial env c hi⟩, fun _ =>
      ⟨[], List.nodup_nil, fun _ h => (nomatch h), by rw [hi.queue]; exact Nat.zero_le _⟩⟩) hr
  obtain ⟨T, h1, h2, h3⟩ := h he
  refine ⟨T, h1, fun t htT => serves_of_waits ht (h2 t htT), Nat.le_trans h3 (Nat.le_of_eq ?_)⟩
  unfold ntasks Conf.pending Conf.lost
  congr 1
  refine List.countP_congr fun x _ => ?_
  obtain ⟨u, o⟩ := x
  cases o <;> first | exact Iff.rfl | simp [lostTask]

/-- C14: if an event is waiting and no drain task has been refused or thrown away, then there is a pending drain task for the
queue, or a thread which is about to look at the queue, to poll it, or to submit a drain task for it. -/
theorem C14_waiting (hr : Reach env c) (he : ∀ s, (env.strat s).queue = q → (env.strat s).exec = e) (hq : c.w.queue q ≠ [])
    (hl : ∀ x ∈ c.w.trace, ∀ s m, (env.strat s).queue = q → x.2 ≠ .rejected s m ∧ x.2 ≠ .taskDropped s m) :
    (∃ s m, (s, m) ∈ c.w.tasks e ∧ (env.strat s).queue = q) ∨ ∃ t, c.serves env q t := by
  obtain ⟨T, _, h2, h3⟩ := C14_covered hr he
  have h0 : c.lost env q = 0 := by
    refine List.countP_eq_zero.2 ?_
    rintro ⟨u, o⟩ hx
    cases o with
    | rejected s m => simpa using fun h => (hl _ hx s m h).1 rfl
    | taskDropped s m => simpa using fun h => (hl _ hx s m h).2 rfl
    | _ => simp
  have hpos := List.length_pos_iff.2 hq
  cases T with
  | cons t T => exact .inr ⟨t, h2 t List.mem_cons_self⟩
  | nil =>
    left
    have : 0 < c.pending env q e := by simp only [List.length_nil] at h3; omega
    obtain ⟨x, hx, hxq⟩ := List.countP_pos_iff.1 this
    exact ⟨x.1, x.2, hx, by simpa using hxq⟩

/-- C14: when all threads are idle, the executor has no task for the queue and has not refused or thrown away one, then the
queue is empty, and all events that were ever accepted have been taken. -/
theorem C14_all_taken (hr : Reach env c) (he : ∀ s, (env.strat s).queue = q → (env.strat s).exec = e)
    (hidle : ∀ t, c.thr t = none) (hp : ∀ s m, (s, m) ∈ c.w.tasks e → (env.strat s).queue ≠ q)
    (hl : ∀ x ∈ c.w.trace, ∀ s m, (env.strat s).queue = q → x.2 ≠ .rejected s m ∧ x.2 ≠ .taskDropped s m) :
    c.w.queue q = [] ∧ Spec.taken q c.w.trace = Spec.accepted q c.w.trace := by
  have h0 : c.w.queue q = [] := Classical.byContradiction fun hq => by
    rcases C14_waiting hr he hq hl with ⟨s, m, h1, h2⟩ | ⟨t, o, k, h, _⟩
    · exact hp s m h1 h2
    · rw [hidle t] at h; cases h
  refine ⟨h0, ?_⟩
  obtain ⟨lst, -, loc, h⟩ := (own_invariant env).reach (own_initial env) hr
  have := h.fifo q
  rw [h0] at this
  simpa using this.symm

namespace Demo

/-- The exit action of A throws an `Error`, which kills the first drain task. The second one finds the other event. -/
def revived : Conf :=
  drive (Demo.env errExit) (conf true) ([.begin 0 (client 0 [go, stay])] ++ runN (.client 0) 100 ++ [.dispatch 0 0 0] ++ runN (.worker 0 0) 200 ++
    [.dispatch 0 0 0] ++ runN (.worker 0 0) 200)

theorem revived_reach : ReachFrom (Demo.env errExit) (conf true) revived := drive_reach _ _ _

theorem revived_idle : ∀ t, revived.thr t = none := by
  unfold revived
  exact idle_of (fun _ => rfl) [.client 0, .worker 0 0] (by decide +kernel) (by decide +kernel)

/-- Nothing has been refused or thrown away. -/
theorem nothing_lost {env : Env} {q : QId} {c : Conf}
    (h : c.w.trace.all (fun x => match x.2 with | .rejected .. | .taskDropped .. => false | _ => true) = true) :
    ∀ x ∈ c.w.trace, ∀ s m, (env.strat s).queue = q → x.2 ≠ .rejected s m ∧ x.2 ≠ .taskDropped s m := by
  intro x hx s m _
  have := List.all_eq_true.1 h x hx
  constructor <;> intro h' <;> rw [h'] at this <;> cases this

/-- The executor is shut down between `start()` and `fire(go)`. -/
def refused : Conf :=
  drive (Demo.env acts) (conf false) ([.begin 0 (client 0 [])] ++ runN (.client 0) 100 ++ [.shutdown 0 false] ++
    [.begin 0 (.call (.fire 0 go) fun _ => .done)] ++ runN (.client 0) 100)

theorem refused_reach : ReachFrom (Demo.env acts) (conf false) refused := drive_reach _ _ _

theorem refused_idle : ∀ t, refused.thr t = none := by
  unfold refused
  exact idle_of (fun _ => rfl) [.client 0] (by decide +kernel) (by decide +kernel)

end Demo

/-- After the first drain task was killed by an `Error`, one event is waiting, and there is a task for it. -/
example : (∃ s m, (s, m) ∈ Demo.dies.w.tasks 0 ∧ ((Demo.env Demo.errExit).strat s).queue = 0) ∨
    ∃ t, Demo.dies.serves (Demo.env Demo.errExit) 0 t :=
  C14_waiting (c := Demo.dies) (q := 0) (e := 0) ⟨_, Demo.conf_initial true, Demo.dies_reach⟩ (fun s h => h) (by decide +kernel)
    (Demo.nothing_lost (by decide +kernel))

/-- Both drain tasks have been executed, the first one was killed by an `Error`: both events have been taken. -/
example : Demo.revived.w.queue 0 = [] ∧ Spec.taken 0 Demo.revived.w.trace = Spec.accepted 0 Demo.revived.w.trace :=
  C14_all_taken (c := Demo.revived) (q := 0) (e := 0) ⟨_, Demo.conf_initial true, Demo.revived_reach⟩ (fun s h => h) Demo.revived_idle
    (fun s m h => by rw [show Demo.revived.w.tasks 0 = [] by decide +kernel] at h; cases h) (Demo.nothing_lost (by decide +kernel))

example : Spec.taken 0 Demo.revived.w.trace = [(Demo.go, 0), (Demo.stay, 0)] ∧ (Demo.w0, .uncaught (.err 9)) ∈ Demo.revived.w.trace := by
  decide +kernel

/-- Without the restriction on the executor C14 is false: if it refuses the drain task, `fire` throws, but the event remains
in the queue. -/
theorem C14_refused_event_stays : ∃ env c, Reach env c ∧ (∀ t, c.thr t = none) ∧ c.w.tasks 0 = [] ∧
    (.client 0, .leave (.fire 0 Demo.go) (some .rejected)) ∈ c.w.trace ∧
    Spec.taken 0 c.w.trace = [] ∧ Spec.accepted 0 c.w.trace = [(Demo.go, 0)] ∧ (c.w.queue 0).length = 1 :=
  ⟨Demo.env Demo.acts, Demo.refused, ⟨_, Demo.conf_initial _, Demo.refused_reach⟩, Demo.refused_idle,
    by decide +kernel, by decide +kernel, by decide +kernel, by decide +kernel, by decide +kernel⟩

end
end Verif
