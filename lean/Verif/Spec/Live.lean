import Verif.Model.Sem
/-
Specification: infinite executions, fairness, termination of user code.
-/

namespace Verif.Spec

/-- An infinite execution. At each moment the scheduler picks something, or nothing happens (so executions that come to rest
are infinite, too). -/
structure Run (env : Env) where
  conf : Nat → Conf
  pick : Nat → Option Choice
  init : Initial (conf 0)
  next : ∀ i, match pick i with
    | none => conf (i + 1) = conf i
    | some x => step env (conf i) x = some (conf (i + 1))

variable {env : Env}

/-- Thread `t` is not neglected: if from some moment on it could always do a step, it does one. -/
def Run.fair (r : Run env) (t : Tid) : Prop :=
  ∀ i, (∀ j, i ≤ j → (step env (r.conf j) (.run t)).isSome = true) → ∃ j, i ≤ j ∧ r.pick j = some (.run t)

/-- Executor `e` is not lazy: if from some moment on there is always a task and an idle worker, a task is begun. -/
def Run.executes (r : Run env) (e : EId) : Prop :=
  ∀ i, (∀ j, i ≤ j → ∃ k n, (step env (r.conf j) (.dispatch e k n)).isSome = true) → ∃ j k n, i ≤ j ∧ r.pick j = some (.dispatch e k n)

/-- How an entry changes: number of API calls that are open in thread `t`; is `t` in user code called by event processing? -/
def userStep (t : Tid) (s : Nat × Bool) (e : Tid × Obs) : Nat × Bool :=
  if e.1 = t then
    match e.2 with
    | .enter _ => (s.1 + 1, s.2)
    | .leave .. => (s.1 - 1, s.2)
    | .cb _ => if s.1 = 0 then (s.1, true) else s
    | .cbRet .. => if s.1 = 0 then (s.1, false) else s
    | _ => s
  else s

/-- Thread `t` is in user code called by event processing (an action, a listener, ..). -/
def inUser (t : Tid) (tr : List (Tid × Obs)) : Bool := (tr.foldl (userStep t) (0, false)).2

/-- User code called by event processing in thread `t` always returns. -/
def Run.returns (r : Run env) (t : Tid) : Prop := ∀ i, ∃ j, i ≤ j ∧ inUser t (r.conf j).w.trace = false

/-- How an entry changes: number of callbacks, number of API calls that are open in thread `t`. -/
def levelStep (t : Tid) (s : Nat × Nat) (e : Tid × Obs) : Nat × Nat :=
  if e.1 = t then
    match e.2 with
    | .cb _ => (s.1 + 1, s.2)
    | .cbRet .. => (s.1 - 1, s.2)
    | .enter _ => (s.1, s.2 + 1)
    | .leave .. => (s.1, s.2 - 1)
    | _ => s
  else s

/-- Number of callbacks and number of API calls that are open in thread `t` after a history. -/
def level (t : Tid) (tr : List (Tid × Obs)) : Nat × Nat := tr.foldl (levelStep t) (0, 0)

def nestStep (t : Tid) (s : List Bool) (e : Tid × Obs) : List Bool :=
  if e.1 = t then
    match e.2 with
    | .cb _ => false :: s
    | .enter _ => true :: s
    | .cbRet .. | .leave .. => s.tail
    | _ => s
  else s

/-- What is open in thread `t` after a history, innermost first: API calls (`true`) and callbacks (`false`). -/
def nest (t : Tid) (tr : List (Tid × Obs)) : List Bool := tr.foldl (nestStep t) []

/-- The API call `k` made by thread `t` after `pre` returns, with outcome `o`, as the last entry of the history `tr`. -/
def Returned (t : Tid) (k : Api) (pre : List (Tid × Obs)) (o : Option Exc) (tr : List (Tid × Obs)) : Prop :=
  ∃ mid, tr = pre ++ (t, .enter k) :: mid ++ [(t, .leave k o)] ∧
    ∀ mid', mid' <+: mid → (level t pre).2 < (level t (pre ++ (t, .enter k) :: mid')).2

/-- The API call made by thread `t` after `pre` never returns: from some moment on, the thread is for ever in user code that the call
has called. -/
def Run.hangs (r : Run env) (t : Tid) (pre : List (Tid × Obs)) : Prop :=
  ∃ i, ∀ j, i ≤ j → (level t pre).1 < (level t (r.conf j).w.trace).1 ∧ (level t pre).2 < (level t (r.conf j).w.trace).2

end Verif.Spec
