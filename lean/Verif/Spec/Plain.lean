import Verif.Model.Plain
/-
Specification: what a read of a plain field may return (JLS 17.4.5, happens-before consistency), for all plain fields: the initial value, if no write to the field
happens before the read; or what an earlier action writes to the field, if no other write comes in between in the sense of happens-before. "Earlier" is in the order
of the execution: executions in which reads and writes justify each other in a circle are not considered.
-/

namespace Verif.Spec.Plain
open Verif.Plain Verif.Spec.HB

/-- An action, with what it reads and from which field. -/
abbrev Act := Did × Option (Cell × Content)

/-- What a thread does. -/
def act (c : Conf) : PChoice → Option Act
  | .sched x => (HB.did c x).map fun d => (d, match d with
    | .op _ o _ => (source o).map fun f => (f, content c.w f)
    | .take .. => none)
  | .read t v => match c.thr t with
    | some (.op o _) => (execRead t o v c.w).map fun r => (.op t o r.1, (source o).map fun f => (f, v))
    | _ => none

def acts (env : Env) (M : Cell → Prop) [DecidablePred M] (c : Conf) : List PChoice → List Act
  | [] => []
  | x :: xs => match Plain.step env M c x with
    | none => []
    | some c' => (act c x).toList ++ acts env M c' xs

/-- Without what has been read. -/
def dids (H : List Act) : List Did := H.map (·.1)

/-- Contents of a single field: the two fields of a pair are separate. -/
inductive Part
  | whole (v : Content)
  | event (e : Option Ev)
  | machine (m : Option MId)
deriving DecidableEq

def part (first : Bool) : Content → Part
  | .pair e m => if first then .event e else .machine m
  | v => .whole v

/-- What an action writes, and to which field. -/
def puts : Act → Option (Cell × Content)
  | (.op _ (.setCur m s _) _, _) => some (.cur m, .state (some s))
  | (.op _ (.setListener m l) _, _) => some (.listener m, .listener l)
  | (.op _ (.setPair p ev m) _, _) => some (.pair p, .pair (some ev) (some m))
  | (.op _ (.setPayload o v) _, _) => some (.payload o, .payload v)
  | (.op _ (.newCopy _) ev, some (_, v)) => some (.payload ev.oid, v)
  | _ => none

/-- Action `k` writes `v` to `f`. -/
def Puts (H : List Act) (f : Cell) (k : Nat) (v : Content) : Prop := ∃ a, H[k]? = some a ∧ puts a = some (f, v)

/-- Every value read from `f`, whose initial contents are `v0`, is allowed. -/
def Justified (wide : Bool) (v0 : Content) (f : Cell) (H : List Act) : Prop :=
  ∀ (i : Nat) d v, H[i]? = some (d, some (f, v)) → ∀ b,
    (part b v = part b v0 ∧ ∀ k u, Puts H f k u → ¬HB wide (dids H) k i) ∨
    ∃ j < i, (∃ u, Puts H f j u ∧ part b v = part b u) ∧ ∀ k u, Puts H f k u → HB wide (dids H) j k → ¬HB wide (dids H) k i

/-- A history `A`, with a last action that may have got another result in `H`. -/
def Begins (A H : List Did) : Prop := ∃ P t o r r' Q, A = P ++ [.op t o r] ∧ H = P ++ .op t o r' :: Q ∧
  ∀ f, (Did.op t o r).writes f → (Did.op t o r').writes f

/-- The listener of machine `m` is set by thread `t0` only, before the machine has a state. Apart from the worker `W`, only `t0` gives it a state, that is starts it. -/
structure Prepared (t0 W : Tid) (m : MId) (H : List Did) : Prop where
  sets : ∀ (i : Nat) t l, H[i]? = some (.op t (.setListener m l) ()) → t = t0
  before : ∀ (i j : Nat) t l u s api, H[i]? = some (.op t (.setListener m l) ()) → H[j]? = some (.op u (.setCur m s api) ()) → i < j
  starts : ∀ (j : Nat) u s api, H[j]? = some (.op u (.setCur m s api) ()) → u = t0 ∨ u = W

/-- Event object `o` belongs to thread `t0`. Other threads use its payload after they have got the event from a queue. Its payload is not changed any more when it has
been put into a queue. -/
structure Handed (t0 : Tid) (o : EvOid) (H : List Did) : Prop where
  uses : ∀ (i : Nat) d, H[i]? = some d → d.reads (.payload o) ∨ d.writes (.payload o) →
    d.tid = t0 ∨ ∃ k < i, ∃ p ev m, H[k]? = some (.op d.tid (.getPair p) (some (ev, m))) ∧ ev.oid = o
  sets : ∀ (i j : Nat) d u p ev m, H[i]? = some d → d.writes (.payload o) → H[j]? = some (.op u (.setPair p ev m) ()) → ev.oid = o → d.tid = t0 ∧ i < j

end Verif.Spec.Plain
