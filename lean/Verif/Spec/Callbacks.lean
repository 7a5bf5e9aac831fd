import Verif.Model.Code
import Verif.Spec.Calls
import Verif.Spec.Monitor
/-
Specification: the user code that belongs to a callback, and the answers of the getters.
-/

namespace Verif.Spec

/-- The machine a callback belongs to. -/
def machOf : Cb → MId
  | .begin m .. | .end_ m .. | .action m .. | .unmapped m .. | .flowEx m .. | .flowFull m .. | .flowAfter m .. | .flowBefore m .. => m

/-- `Code env l cb u`: with listener `l` installed in the machine, callback `cb` stands for running the user code `u`.
Handlers belong to strategies; a strategy processes the events of the machines whose strategy has the same queue. -/
inductive Code (env : Env) (l : Option LId) : Cb → UProg → Prop
  | begin {m f ev t x} : l = some x → Code env l (.begin m f ev t) (env.listener x false f ev t)
  | end_ {m f ev t x} : l = some x → Code env l (.end_ m f ev t) (env.listener x true f ev t)
  | action {m k oid i ev a} : (env.acts k oid)[i]? = some a → Code env l (.action m k oid i ev) (a ev m)
  | unmapped {m ev s} : (env.strat s).queue = (env.strat (env.mach m).strat).queue →
      Code env l (.unmapped m ev) (env.unmapped s ev m)
  | flowEx {m ev x s} : (env.strat s).queue = (env.strat (env.mach m).strat).queue →
      Code env l (.flowEx m ev x) (env.flowEx s ev m x)
  | flowFull {m ev} : Code env l (.flowFull m ev) (env.flowEx (env.mach m).strat ev m (.ise .queueFull))
  | flowAfter {m ev} : Code env l (.flowAfter m ev) (env.flowAfter (env.mach m).strat ev m)
  | flowBefore {m ev} : Code env l (.flowBefore m ev) (env.flowBefore (env.mach m).strat ev m)

/-- The answer of a getter, from the memory `mem` of all machines, and the state `mach` of each. -/
def answer (env : Env) (mem : Calls.Mem) (mach : MId → Mon.Mem) : (u : UCall) → Option u.Res
  | .isStarted m => some (mem.started m)
  | .isEnded m => some (mem.ended m)
  | .getCurrentState m => some (mach m).cur
  | .getEventQueueSize m => some (mem.waiting (env.strat (env.mach m).strat).queue).length
  | .getPayload o => some (mem.pay o)
  | _ => none

end Verif.Spec
