import Verif.Model.Sem
/-
Specification: happens-before and data races, in the sense of the Java memory model (JLS 17.4.5, and the memory consistency
properties documented for java.util.concurrent). Histories of actions with their results, synchronisation between actions,
happens-before as the transitive closure of program order and synchronisation.
-/

namespace Verif.Spec.HB

/-- What a thread does: an operation with its result, or it begins with a task. -/
inductive Did
  | op (t : Tid) (o : Op) (r : o.Res)
  | take (t : Tid) (e : EId) (s : SId) (m : MId)

def Did.tid : Did → Tid
  | .op t .. | .take t .. => t

/-- What a choice of the scheduler makes a thread do. -/
def did (c : Conf) : Choice → Option Did
  | .run t => match c.thr t with
    | some (.op o _) => some (.op t o (exec t o c.w).1)
    | _ => none
  | .dispatch e i j => match (c.w.tasks e)[j]? with
    | some (s, m) => some (.take (.worker e i) e s m)
    | none => none
  | _ => none

/-- All actions of an execution. -/
def history (env : Env) (c : Conf) : List Choice → List Did
  | [] => []
  | x :: xs => match step env c x with
    | none => []
    | some c' => (did c x).toList ++ history env c' xs

/-- Action `i` of the history synchronizes with action `j`. If `wide`, also where it might, for all we know: tasks are
identified by strategy and machine only, and memory of user code is taken to be volatile. -/
inductive Sync (wide : Bool) (H : List Did) (i j : Nat) : Prop
  /-- `isStarted` is written, then read -/
  | started {m t u} : i < j → H[i]? = some (.op t (.casStarted m) true) →
      ((∃ r, H[j]? = some (.op u (.getStarted m) r)) ∨ ∃ r, H[j]? = some (.op u (.casStarted m) r)) → Sync wide H i j
  /-- `isEnded` is written, then read -/
  | ended {m t u} : i < j →
      (H[i]? = some (.op t (.clearEnded m) ()) ∨ ∃ s b api, H[i]? = some (.op t (.casEnded m s b api) true)) →
      ((∃ r, H[j]? = some (.op u (.getEnded m) r)) ∨ ∃ s b api r, H[j]? = some (.op u (.casEnded m s b api) r)) → Sync wide H i j
  /-- a pair is put into a queue, then seen or removed there -/
  | queue {q p t u} : i < j → H[i]? = some (.op t (.offer q p) ()) →
      (H[j]? = some (.op u (.poll q) (some p)) ∨ ∃ l, H[j]? = some (.op u (.qSnap q) l) ∧ p ∈ l) →
      (∀ k v, i < k → k < j → H[k]? ≠ some (.op v (.poll q) (some p))) → Sync wide H i j
  /-- a pair is given to the pool, then taken -/
  | pool {s p t u} : i < j → H[i]? = some (.op t (.poolGive s p) ()) → H[j]? = some (.op u (.poolTake s) p) →
      (∀ k v, i < k → k < j → H[k]? ≠ some (.op v (.poolTake s) p)) → Sync wide H i j
  /-- `countDown()`, then a successful `await()` -/
  | latch {n t u} : i < j → H[i]? = some (.op t (.countDown n) ()) → H[j]? = some (.op u (.await n) false) → Sync wide H i j
  /-- a task is submitted, then begins -/
  | task {e s m t u} : wide = true → i < j → H[i]? = some (.op t (.submit e s m) true) → H[j]? = some (.take u e s m) → Sync wide H i j
  /-- user code writes, then reads -/
  | mem {a v t u r} : wide = true → i < j → H[i]? = some (.op t (.setMem a v) ()) → H[j]? = some (.op u (.getMem a) r) → Sync wide H i j

inductive HB (wide : Bool) (H : List Did) : Nat → Nat → Prop
  /-- program order -/
  | po {i j a b} : i < j → H[i]? = some a → H[j]? = some b → a.tid = b.tid → HB wide H i j
  | sync {i j} : Sync wide H i j → HB wide H i j
  | trans {i j k} : HB wide H i j → HB wide H j k → HB wide H i k

/-- Memory cells without synchronisation of their own: plain fields. -/
inductive Cell
  | cur (m : MId)                     -- GenericStateMachine.currentState
  | listener (m : MId)                -- GenericStateMachine.stateMachineListener
  | pair (p : PairId)                 -- fields of an EventMachinePair
  | payload (o : EvOid)               -- NamedStateEvent.payload
deriving DecidableEq

def Did.reads : Did → Cell → Prop
  | .op _ (.getCur m) _, c => c = .cur m
  | .op _ (.getListener m) _, c | .op _ (.notify m _) _, c => c = .listener m
  | .op _ (.getPair p) _, c => c = .pair p
  | .op _ (.getPayload o) _, c => c = .payload o
  | .op _ (.newCopy ev) _, c => c = .payload ev.oid
  | _, _ => False

def Did.writes : Did → Cell → Prop
  | .op _ (.setCur m _ _) _, c => c = .cur m
  | .op _ (.setListener m _) _, c => c = .listener m
  | .op _ (.setPair p _ _) _, c => c = .pair p
  | .op _ (.setPayload o _) _, c => c = .payload o
  | .op _ (.newCopy _) ev, c => c = .payload ev.oid
  | _, _ => False

/-- All conflicting accesses to the cell are ordered. -/
def RaceFree (wide : Bool) (H : List Did) (c : Cell) : Prop :=
  ∀ i j a b, i < j → H[i]? = some a → H[j]? = some b → (a.reads c ∨ a.writes c) → (b.reads c ∨ b.writes c) →
    (a.writes c ∨ b.writes c) → HB wide H i j

/-- A discipline for the use of machine `m`, whose events are processed by thread `W`: the state is asked for and `stop()` is called
on `W` only, that is in callbacks; no thread fires before `start()` is about to return, except `W` and the thread that starts the
machine. -/
structure Disciplined (W : Tid) (m : MId) (H : List Did) : Prop where
  reads : ∀ (i : Nat) t r, H[i]? = some (.op t (.getCur m) r) → t = W
  stops : ∀ (i : Nat) t, H[i]? = some (.op t (.emit (.enter (.stop m))) ()) → t = W
  fires : ∀ (i : Nat) t ev, H[i]? = some (.op t (.emit (.enter (.fire m ev))) ()) →
    t = W ∨ ∃ k < i, (∃ u, H[k]? = some (.op u (.clearEnded m) ())) ∨ ∃ s, H[k]? = some (.op t (.setCur m s true) ())

end Verif.Spec.HB
