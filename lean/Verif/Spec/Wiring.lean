import Verif.Model.Factory
/-
Specification of what strategies and machines get from configs and builders: the setting made last.
-/

namespace Verif.Spec

/-- The call can be written: it refers to objects that exist, and does not configure the private `basicConfig`. -/
def Refers (S : Setup) : SetupCmd → Prop
  | .withExecutor k e => k ≠ 0 ∧ k < S.configs.length ∧ (S.execs[e]?).map Prod.fst = some none
  | .withEventQueue k q => k ≠ 0 ∧ k < S.configs.length ∧ S.queues[q]? = some none
  | .withMaxQueueSize k _ => k ≠ 0 ∧ k < S.configs.length
  | .createDefault k | .createDropDuplicate k => k < S.configs.length
  | .setStrategy b s => b < S.builders.length ∧ s < S.strats.length
  | .build b => b < S.builders.length
  | .newQueue | .newExecutor _ | .newConfig | .newBuilder => True

def Writable (cmds : List SetupCmd) : Prop := ∀ pre cmd post, cmds = pre ++ cmd :: post → Refers (Setup.run pre) cmd

/-- The maximal queue size of config `k`: the one set last, or else -1. -/
def lastSize (k : Nat) (cmds : List SetupCmd) : Int :=
  cmds.foldl (fun r x => match x with | .withMaxQueueSize k' n => if k' = k then n else r | _ => r) (-1)

/-- The executor that config `k` was given last, if any. -/
def lastExec (k : Nat) (cmds : List SetupCmd) : Option EId :=
  cmds.foldl (fun r x => match x with | .withExecutor k' e => if k' = k then some e else r | _ => r) none

/-- The queue that config `k` was given last, if any. -/
def lastQueue (k : Nat) (cmds : List SetupCmd) : Option QId :=
  cmds.foldl (fun r x => match x with | .withEventQueue k' q => if k' = k then some q else r | _ => r) none

/-- A call of a factory method: the config, and whether the strategy drops duplicates. -/
def makes : SetupCmd → Option (Nat × Bool)
  | .createDefault k => some (k, false)
  | .createDropDuplicate k => some (k, true)
  | _ => none

end Verif.Spec
