import Verif.Spec.Effects
/-
Specification of everything a machine does, as a function of the events it takes. What user code throws is given by a function of the callbacks
made so far (the last one is the one that throws).
-/

namespace Verif.Spec

/-- Callbacks of event processing for machine `m`. -/
def cbOf (m : MId) : Obs → Option Cb
  | .cb (.flowEx m' ev x) => if m' = m then some (.flowEx m' ev x) else none
  | .cb c => if Calls.cbMach c = some m then some c else none
  | _ => none

def cbsOf (m : MId) (os : List Obs) : List Cb := os.filterMap (cbOf m)

/-- The user code of machine `m` behaves as `thr` says. -/
def Obeys (m : MId) (thr : List Cb → Option Exc) (past : List Cb) (os : List Obs) : Prop :=
  ∀ p c r q, os = p ++ .cbRet c r :: q → Calls.cbMach c = some m → r = thr (past ++ cbsOf m p)

/-- Callbacks `cs` are to be made, until one throws. Did one? -/
def cut (thr : List Cb → Option Exc) (m : MId) (ev : Ev) : List Cb → List Cb → List Cb × Bool
  | _, [] => ([], false)
  | past, c :: cs => match thr (past ++ [c]) with
    | none => (c :: (cut thr m ev (past ++ [c]) cs).1, (cut thr m ev (past ++ [c]) cs).2)
    | some x => (c :: if x.isException then [.flowEx m ev x] else [], true)

/-- What is done for an event: the callbacks, and the state afterwards. `lst`: is there a listener? -/
def Desc.deed (d : Desc) (thr : List Cb → Option Exc) (lst : Bool) (past : List Cb) (x : MSt) (ev : Ev) : List Cb × MSt :=
  if x.ended then ([], x) else
  match x.cur, d.reaction x.cur ev with
  | some a, .goes b =>
    let p := cut thr d.m ev past (d.before lst a ev b)
    if p.2 then (p.1, x) else
    let q := cut thr d.m ev (past ++ p.1) (d.afterwards lst a ev b)
    (p.1 ++ q.1, if q.2 then ⟨some b, b.name == resEnd⟩ else d.next x ev)
  | some a, .stays b => ((cut thr d.m ev past (if lst then [.begin d.m a ev b, .end_ d.m a ev b] else [])).1, x)
  | some _, .unmapped => ((cut thr d.m ev past [.unmapped d.m ev]).1, x)
  | _, _ => ([.flowEx d.m ev .npe], x)

/-- What is done for a list of events. -/
def Desc.deeds (d : Desc) (thr : List Cb → Option Exc) (lst : Bool) : List Cb → MSt → List Ev → List Cb × MSt
  | _, x, [] => ([], x)
  | past, x, ev :: evs =>
    let p := d.deed thr lst past x ev
    let q := d.deeds thr lst (past ++ p.1) p.2 evs
    (p.1 ++ q.1, q.2)

end Verif.Spec
