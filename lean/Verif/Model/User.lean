import Verif.Model.Code
/-
Structured user code: sequencing, try/catch, the library's HandleExceptionAction, and the possible runs of a piece of
user code for arbitrary results of the calls it makes.
-/

namespace Verif

namespace UProg

/-- Run `p`, then continue with its outcome. -/
def handle : UProg → (Except Exc Unit → UProg) → UProg
  | done, f => f (.ok ())
  | thr x, f => f (.error x)
  | call u k, f => call u (fun r => (k r).handle f)

/-- `p; q`. -/
def andThen (p q : UProg) : UProg := p.handle fun
  | .ok _ => q
  | .error x => thr x

/-- Re-raise an outcome. -/
def ofRes : Except Exc Unit → UProg
  | .ok _ => done
  | .error x => thr x

/-- `u;` for a call that may throw. -/
def api (u : UCall) (h : u.Res = Except Exc Unit) : UProg := .call u fun r => ofRes (h ▸ r)

/-- A step that returns nothing of interest. -/
@[reducible] def note (n : Mark) (p : UProg) : UProg := .call (.note n) fun _ => p

end UProg

/-- HandleExceptionAction.java:30-36: `try { action } catch (Exception e) { handler }`. -/
def handleException (action : UProg) (handler : Exc → UProg) : UProg :=
  action.handle fun
    | .ok _ => .done
    | .error x => if x.isException then handler x else .thr x

/-- A program that does not throw. -/
def Prog.Safe {α : Type} : Prog α → Prop
  | .ret _ => True
  | .thr _ => False
  | .op _ k => ∀ r, (k r).Safe
  | .call _ k => ∀ r, (k r).Safe

theorem Prog.Safe.handle {α β : Type} {p : Prog α} {f : Except Exc α → Prog β} (h : ∀ r, (f r).Safe) : (p.handle f).Safe := by
  induction p with
  | ret a => exact h _
  | thr x => exact h _
  | op o k ih => exact fun r => ih r
  | call c k ih => exact fun r => ih r

theorem Prog.Safe.bind {α β : Type} {p : Prog α} {f : α → Prog β} (hp : p.Safe) (h : ∀ a, (f a).Safe) : (p >>= f).Safe := by
  induction p with
  | ret a => exact h a
  | thr x => exact hp
  | op o k ih => exact fun r => ih r (hp r)
  | call c k ih => exact fun r => ih r (hp r)

theorem Prog.Safe.congr {α β : Type} {p : Prog α} (h : p.Safe) {f g : Except Exc α → Prog β} (hfg : ∀ a, f (.ok a) = g (.ok a)) :
    p.handle f = p.handle g := by
  induction p with
  | ret a => exact hfg a
  | thr x => cases h
  | op o k ih => simp only [Prog.handle]; congr 1; funext r; exact ih r (h r)
  | call c k ih => simp only [Prog.handle]; congr 1; funext r; exact ih r (h r)

theorem Prog.handle_handle {α β γ : Type} (q : Prog α) (g : Except Exc α → Prog β) (h : Except Exc β → Prog γ) :
    (q.handle g).handle h = q.handle fun r => (g r).handle h := by
  induction q with
  | ret a => rfl
  | thr x => rfl
  | op o k ih => simp only [Prog.handle, ih]
  | call c k ih => simp only [Prog.handle, ih]

/-- The calls of user code hand exceptions over as values. -/
theorem UCall.safe (env : Env) (u : UCall) : (u.prog env).Safe := by
  have hapi : ∀ c p, (Verif.api c p).Safe := fun c p =>
    Prog.Safe.bind (fun _ => trivial) fun _ => Prog.Safe.bind (Prog.Safe.handle fun _ => trivial) fun _ =>
      Prog.Safe.bind (fun _ => trivial) fun _ => trivial
  cases u <;> first | exact hapi _ _ | exact fun _ => trivial | exact fun r => by cases r <;> exact trivial

/-- The meaning of a composition is the composition of the meanings. -/
theorem UProg.denote_handle (env : Env) (p : UProg) (f : Except Exc Unit → UProg) :
    (p.handle f).denote env = (p.denote env).handle fun r => (f r).denote env := by
  induction p with
  | done => rfl
  | thr x => rfl
  | call u k ih =>
    simp only [handle, denote, Prog.bind, ih, Prog.handle_handle]
    exact (UCall.safe env u).congr fun a => rfl

end Verif
