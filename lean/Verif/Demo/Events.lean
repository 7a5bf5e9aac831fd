import Verif.Proofs.Stretch
import Verif.Demo.Calls
/-
Concrete executions in which events are processed, for examples.
-/

namespace Verif
open Spec (IsEvent bare)

namespace Demo

/-- A client starts machine 0 and fires events; afterwards the worker does `n` steps. -/
def worked (env : Env) (evs : List Ev) (n : Nat := 200) (lst : Bool := true) : Conf :=
  drive env (conf lst) ([.begin 0 (client 0 evs)] ++ runN (.client 0) 100 ++ [.dispatch 0 0 0] ++ runN (.worker 0 0) n)

theorem worked_reach (env : Env) (evs : List Ev) (n : Nat) (lst : Bool) : ReachFrom env (conf lst) (worked env evs n lst) :=
  drive_reach _ _ _

/-- The one worker of machine 0. -/
def w0 : Tid := .worker 0 0

theorem alone (a : Kind → Nat → List (Ev → MId → UProg)) (maxQ : Int) (dd : Bool) : Alone (env a maxQ dd) 0 where
  priv := ⟨fun _ h => h, fun _ h => h⟩
  single := Nat.le_refl 1
  wired := rfl

/-- A to B, no transition, back to A, to B again. -/
def tour : Conf := worked (env acts) [go, stay, back, go]
/-- An unmapped event, then into the final state C, then one event too many. -/
def quits : Conf := worked (env acts) [stay, quit, go]
/-- Into B, then an event that ends the machine. -/
def ends : Conf := worked (env acts) [go, quit]
/-- The second exit action of A throws. -/
def badExit : Kind → Nat → List (Ev → MId → UProg)
  | .exit, 1 => [fun _ _ => noteP 10, fun _ _ => .thr (.user 5), fun _ _ => noteP 12]
  | _, _ => []
/-- The first entry action of B and of C throws. -/
def badEntry : Kind → Nat → List (Ev → MId → UProg)
  | .entry, 2 | .entry, 3 => [fun _ _ => .thr (.user 6), fun _ _ => noteP 21]
  | _, _ => []
/-- The exit action of A throws an `Error`. -/
def errExit : Kind → Nat → List (Ev → MId → UProg)
  | .exit, 1 => [fun _ _ => .thr (.err 9)]
  | _, _ => []
def failsBefore : Conf := worked (env badExit) [go, stay]
def failsAfter : Conf := worked (env badEntry) [quit]
def dies : Conf := worked (env errExit) [go, stay]

theorem tour_reach : ReachFrom (env acts) (conf true) tour := drive_reach _ _ _
theorem quits_reach : ReachFrom (env acts) (conf true) quits := drive_reach _ _ _
theorem ends_reach : ReachFrom (env acts) (conf true) ends := drive_reach _ _ _
theorem failsBefore_reach : ReachFrom (env badExit) (conf true) failsBefore := drive_reach _ _ _
theorem failsAfter_reach : ReachFrom (env badEntry) (conf true) failsAfter := drive_reach _ _ _
theorem dies_reach : ReachFrom (env errExit) (conf true) dies := drive_reach _ _ _

end Demo

/-- The event taken at position `i` of the history and finished after `n` further entries. -/
theorem isEvent_of {tr : List (Tid × Obs)} {t : Tid} {m m' : MId} {q : QId} {ev ev' : Ev} (i n : Nat)
    (h : tr = tr.take i ++ (t, .taken q m ev) :: ((tr.drop (i + 1)).take n ++ (t, .done m' ev') :: tr.drop (i + n + 2)))
    (hnd : ((tr.drop (i + 1)).take n).all (fun e => match e with | (u, .done ..) => u != t | _ => true) = true) :
    IsEvent tr t m ev (tr.take i) ((tr.drop (i + 1)).take n) (tr.drop (i + n + 2)) := by
  refine ⟨⟨q, m', ev', h⟩, ?_⟩
  intro m2 ev2 hmem
  have := List.all_eq_true.1 hnd _ hmem
  simp at this

end Verif
