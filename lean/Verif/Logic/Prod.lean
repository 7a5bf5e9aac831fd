import Verif.Logic.Proto
/-
Two protocols at the same time.
-/

namespace Verif
open Prog

namespace Proto
variable {L1 L2 : Type}

def prod (P1 : Proto L1) (P2 : Proto L2) : Proto (L1 × L2) where
  allowed l o := P1.allowed l.1 o ∧ P2.allowed l.2 o
  know l w := P1.know l.1 w ∧ P2.know l.2 w
  nxt l o w := (P1.nxt l.1 o w, P2.nxt l.2 o w)
  pre c l := P1.pre c l.1 ∧ P2.pre c l.2
  post c l r l' := P1.post c l.1 r l'.1 ∧ P2.post c l.2 r l'.2

theorem ok_prod {P1 : Proto L1} {P2 : Proto L2} {t : Tid} {α : Type} {p : Prog α} {l1 : L1} {l2 : L2}
    {Q1 : Except Exc α → L1 → Prop} {Q2 : Except Exc α → L2 → Prop} (h1 : P1.Ok t p l1 Q1) (h2 : P2.Ok t p l2 Q2) :
    (prod P1 P2).Ok t p (l1, l2) (fun r l => Q1 r l.1 ∧ Q2 r l.2) := by
  induction p generalizing l1 l2 with
  | ret a => exact ⟨h1, h2⟩
  | thr x => exact ⟨h1, h2⟩
  | op o k ih => exact ⟨⟨h1.1, h2.1⟩, fun w hw => ih _ (h1.2 w hw.1) (h2.2 w hw.2)⟩
  | call c k ih => exact ⟨⟨h1.1, h2.1⟩, fun r l' hp => ih r (h1.2 r l'.1 hp.1) (h2.2 r l'.2 hp.2)⟩

end Proto

theorem Checked.prod {L1 L2 : Type} {env : Env} {P1 : Proto L1} {P2 : Proto L2} {l1 : L1} {l2 : L2} {task1 : SId → MId → L1}
    {task2 : SId → MId → L2} {fin1 : Tid → Except Exc Unit → L1 → Prop} {fin2 : Tid → Except Exc Unit → L2 → Prop}
    (h1 : Checked env P1 l1 task1 fin1) (h2 : Checked env P2 l2 task2 fin2) :
    Checked env (P1.prod P2) (l1, l2) (fun s m => (task1 s m, task2 s m)) (fun t r l => fin1 t r l.1 ∧ fin2 t r l.2) where
  body := fun t c l hp => Proto.ok_prod (h1.body t c l.1 hp.1) (h2.body t c l.2 hp.2)
  client := fun n u => Proto.ok_prod (h1.client n u) (h2.client n u)
  drain := fun t s m => Proto.ok_prod (h1.drain t s m) (h2.drain t s m)

end Verif
