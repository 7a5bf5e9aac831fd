import Verif.Spec.Event
import Verif.Spec.Notes
import Verif.Spec.Trace
import Verif.Spec.Config
import Verif.Spec.Fate
import Verif.Demo.Base
import Verif.Model.Factory
/-
Random tests of the statements of the theorems. Used by tools/oracle.py on mutated copies of the model: an oracle is the
executable form of the conclusion of a group of theorems; if it fails, the theorems are false of the mutated model.
On the unchanged model no oracle may fail.
-/

namespace Verif.Oracle
open Verif Verif.Spec

abbrev R := StateM StdGen
def rnd (n : Nat) : R Nat := do
  let g ← get
  let (x, g) := randNat g 0 (n - 1)
  set g
  return x
def pick {α} [Inhabited α] (l : List α) : R α := do return l.getD (← rnd l.length) default
def chance (p : Nat) : R Bool := do return (← rnd 100) < p

instance : Inhabited St := ⟨⟨"A", 1⟩⟩
instance : Inhabited Ev := ⟨⟨0, "e", .client 1⟩⟩
instance : Inhabited UProg := ⟨.done⟩
instance : Inhabited CfgCall := ⟨.itEnds⟩
instance : Inhabited Tid := ⟨.env⟩

def states : List St := [⟨"A", 1⟩, ⟨"B", 2⟩, ⟨"C", 3⟩, ⟨"D", 4⟩]
def events : List Ev := [⟨0, "e", .client 1⟩, ⟨0, "f", .client 2⟩, ⟨0, "g", .client 3⟩, ⟨1, "e", .client 4⟩, ⟨0, "e", .client 5⟩]
def rs0 : Reserved := ⟨100, 101, 102⟩

/-- A random configuration call, mostly sensible. -/
def rcfg : R CfgCall := do
  let s ← (do if ← chance 92 then return some (← pick states) else pick [none, some ⟨resEnd, 9⟩, some ⟨resNoop, 9⟩, some ⟨resUninit, 9⟩])
  let e ← (do if ← chance 92 then return some (← pick events) else pick [none, some ⟨0, resImmediate, .client 9⟩, some ⟨1, resImmediate, .client 9⟩])
  match ← rnd 12 with
  | 0 => return .initialSate s
  | 1 | 2 => return .when_ s
  | 3 | 4 | 5 => return .receives e
  | 6 | 7 | 8 | 9 => return .itTransitionsTo s
  | 10 => return .itDoesNotTransition
  | _ => return .itEnds

def rtable : R CfgSt := do
  let mut ks : List CfgCall := []
  for s in states.take 3 do
    for e in events.take 4 do
      if ← chance 60 then
        let o ← (do match ← rnd 8 with
          | 0 => return CfgCall.itEnds
          | 1 => return .itDoesNotTransition
          | _ => return .itTransitionsTo (some (← pick states)))
        ks := ks ++ [.when_ (some s), .receives (some e), o]
  if ← chance 20 then ks := ks ++ [.when_ (some ⟨"D", 4⟩), .itEnds]
  let first := if ks.isEmpty then [.itEnds] else [.receives (some default), .itTransitionsTo (some ⟨"B", 2⟩)]
  return cfgRun rs0 (.initialSate (some ⟨"A", 1⟩) :: first ++ ks) .empty

/-- Random user code. -/
def rprog (heavy : Bool) : Nat → R UProg
  | 0 => return .done
  | n + 1 => do
    let k ← rprog heavy n
    let m ← rnd 2
    match ← rnd (if heavy then 16 else 40) with
    | 0 | 1 | 2 | 3 | 4 | 5 => let e ← pick events; return .call (.fire m e) fun _ => k
    | 6 => return .call (.stop m) fun _ => k
    | 7 | 8 => return .call (.start m) fun r => match r with | .ok _ => k | .error x => .call (.note (.num 1)) fun _ => if x == .npe then .thr x else k
    | 9 => let s ← pick states; return .call (.startInState m (some s)) fun _ => k
    | 10 => let l ← rnd 2; return .call (.setListener m (if l == 0 then none else some 0)) fun _ => k
    | 11 => let e ← pick events; let v ← rnd 3; return .call (.setPayload e.oid (if v == 0 then none else some v)) fun _ => k
    | 12 => return .call (.isEnded m) fun b => if b then k else .done
    | 13 => return .call (.getCurrentState m) fun s => if s.isSome then k else .done
    | 14 => let b ← rnd 12; return .thr (if b == 0 then .err 1 else .user 2)
    | _ => return .call (.note (.num 7)) fun _ => k

structure Setting where
  env : Env
  nexec : Nat
  priv : Bool
  width : Nat

def rsetting : R Setting := do
  let c0 ← rtable
  let c1 ← rtable
  let priv ← chance 75
  let width := if ← chance 80 then 1 else 2
  let maxQ : Int := [0, 0, 1, 2, -1].getD (← rnd 5) 0
  let dd ← chance 35
  let calm ← chance 40
  let light ← (do if ← chance 50 then rprog false 2 else return .done)
  let mut acts : List (Nat × List UProg) := []
  for o in List.range 10 do
    let n ← rnd 3
    let mut l := []
    for _ in List.range n do
      l := l ++ [← (do if calm then return UProg.call (.note (.num o)) fun _ => .done else rprog false 2)]
    acts := acts ++ [(o, l)]
  let actl := acts
  let lst ← (do if calm then return UProg.done else rprog false 1)
  let table := fun (m : Nat) => if m == 1 then c1 else c0
  let env : Env := {
    mach := fun m => ⟨if priv then m else 0, (table m).table, (table m).init, rs0⟩
    strat := fun s => ⟨if priv then s else 0, if priv then s else 0, maxQ, dd, (table s).table⟩
    width := fun _ => width
    acts := fun k o => if o < 5 then (((actl.lookup (if k == .entry then o else o + 5)).getD []).map fun p _ _ => p) else []
    listener := fun _ _ _ _ _ => lst
    unmapped := fun _ _ _ => light
    flowEx := fun _ _ _ _ => light
    flowAfter := fun _ _ _ => light
    flowBefore := fun _ _ _ => light
    proc := fun _ => .done }
  return ⟨env, if priv then 2 else 1, priv, width⟩

def tids (s : Setting) : List Tid :=
  (List.range 3).map .client ++ (List.range s.nexec).flatMap fun e => (List.range s.width).map fun i => .worker e i

def tab {α} [Inhabited α] (n : Nat) (f : Nat → α) : Array α := Array.ofFn (n := n) fun i => f i
def at_ {α} (a : Array α) (d : α) (i : Nat) : α := (a[i]?).getD d

instance : Inhabited Mach := ⟨⟨false, false, none, none⟩⟩

/-- Replace chains of updates by tables. -/
@[noinline] def compact (s : Setting) (c : Conf) : Conf :=
  let ts := tids s
  let thr := ts.map c.thr
  let intr := ts.map c.w.intr
  let pc := tab 8 fun i => c.w.payload (.client i)
  let pp := tab (c.w.nextCopy + 1) fun i => c.w.payload (.copy i)
  let mach := tab 4 c.w.mach
  let pair := tab (c.w.nextPair + 1) c.w.pair
  let queue := tab 4 c.w.queue
  let pool := tab 4 c.w.pool
  let tasks := tab 4 c.w.tasks
  let shut := tab 4 c.w.shut
  { thr := fun t => match ts.idxOf? t with | some i => (thr[i]?).join | none => none
    w := { c.w with
      mach := at_ mach default
      payload := fun o => match o with | .client i => at_ pc none i | .copy i => at_ pp none i
      pair := at_ pair none
      queue := at_ queue []
      pool := at_ pool []
      tasks := at_ tasks []
      shut := at_ shut false
      intr := fun t => match ts.idxOf? t with | some i => (intr[i]?).getD false | none => false } }

def rstep (s : Setting) (c : Conf) : R Conf := do
  let x ← (do match ← rnd 100 with
    | 0 => if ← chance 5 then return Choice.shutdown (← rnd s.nexec) (← chance 50) else return .interrupt (.client 0)
    | 1 | 2 | 3 | 4 | 5 | 6 => return .begin (← rnd 3) (← rprog true 4)
    | 7 | 8 | 9 | 10 | 11 | 12 | 13 | 14 =>
      let e ← rnd s.nexec
      return .dispatch e (← rnd s.width) (← rnd (max 1 (c.w.tasks e).length))
    | _ => return .run (← pick (tids s)))
  return tryStep s.env c x

def qmOf (env : Env) (m : MId) : QId := (env.strat (env.mach m).strat).queue

def descOf (env : Env) (m : MId) : Desc where
  m := m
  table := (env.strat (env.mach m).strat).table
  endSt := (env.mach m).res.endSt
  nacts := fun k o => (env.acts k o).length

/-- As `callsCfg` in Proofs/Calls.lean. -/
def ccfg (env : Env) : Calls.Cfg where
  queue := qmOf env
  strat := fun m => (env.mach m).strat
  maxQ := fun m => (env.strat (env.mach m).strat).maxQ
  dropDup := fun m => (env.strat (env.mach m).strat).dropDup
  endSt := fun m => (env.mach m).res.endSt
  init := fun m => (env.mach m).init
  fail := fun
    | .start m => match startChecks (env.mach m).init (env.mach m).table, (env.mach m).init with
      | some x, _ => some x
      | none, none => some .npe
      | none, some _ => none
    | .startInState m s => match (env.mach m).table.row? s, s with
      | some _, some _ => none
      | _, _ => some (.ise .notConfigured)
    | _ => none
  plan := fun m lst s => (descOf env m).startPlan (env.mach m).res.noSt lst s

def wait (q : QId) (tr : Trace) : List (Ev × MId) := (accepted q tr).drop (taken q tr).length

def nodup {α} [BEq α] : List α → Bool
  | [] => true
  | x :: l => !l.contains x && nodup l

def bracketed (cut : Bool) : List Cb → Bool
  | [] => true
  | .begin m f e t :: .end_ m' f' e' t' :: l =>
    (m == m' && f == f' && e == e' && t == t' && bracketed cut l) || (cut && bracketed cut (.end_ m' f' e' t' :: l))
  | .begin .. :: l => cut && bracketed cut l
  | _ => false

/-- The part of a history after the last entry that satisfies `p`, and the part before. -/
def splitLast (p : Tid × Obs → Bool) (tr : Trace) : Trace × Trace :=
  let post := (tr.reverse.takeWhile fun e => !p e).reverse
  (tr.take (tr.length - post.length), post)

def servesOp (env : Env) (q : QId) : Op → Bool
  | .qIsEmpty q' | .poll q' => q' = q
  | .submit _ s _ => (env.strat s).queue = q
  | _ => false

/-- The oracles, with the theorems they belong to. -/
def oracles (s : Setting) (c0 c : Conf) : List (String × Bool) :=
  let env := s.env
  let tr := c.w.trace
  let ts := tids s
  let init : Calls.G := .init c0.w.payload fun m => (c0.w.mach m).listener.isSome
  let mem := Calls.memAt init.mem tr
  let ms := [0, 1]
  let qs := if s.priv then [0, 1] else [0]
  let alone := s.priv && s.width == 1
  let worker (m : MId) : Tid := .worker m 0
  let nofail (m : MId) (l : Trace) := l.all fun e => match e.2 with
    | .cbRet k (some _) => !(e.1 == worker m && Calls.cbMach k == some m)
    | _ => true
  [ ("calls: C09 C10 C11 C12 C27 C28 C29 C30_full C31_dup C49", (Calls.run (ccfg env) init tr).isSome),
    ("memory: memory_of_history", ms.all fun m => mem.started m == (c.w.mach m).started && mem.ended m == (c.w.mach m).ended &&
      (mem.acc (qmOf env m)).drop (mem.tk (qmOf env m)) == ((c.w.queue (qmOf env m)).filterMap c.w.pair).map Prod.fst),
    ("events: C15 C16 C17 C18 C19 C20 C21 C22 C23 C24", !s.priv || ms.all fun m => ts.all fun t =>
      (Mon.run ⟨qmOf env m, descOf env m⟩ t (Mon.G.init (c0.w.mach m).listener) tr).isSome),
    ("worker: C15_only_for_the_event", !alone || ms.all fun m => tr.all fun e => match e.2 with
      | .taken _ m' _ => m' != m || e.1 == worker m
      | _ => true),
    ("fold: C17_fold", !alone || ms.all fun m =>
      let (pre, post) := splitLast (fun e => meddles m e.2) tr
      !((openEv (worker m) m pre).isNone && (openEv (worker m) m tr).isNone && nofail m post) ||
        (⟨(c.w.mach m).cur, (c.w.mach m).ended⟩ : MSt) ==
          (takenOf m post).foldl (descOf env m).next (pre.foldl (fun mem e => mem.step m e.2) (Mon.Mem.init (c0.w.mach m).listener)).st),
    ("brackets: C36_brackets", !alone || ms.all fun m =>
      let (pre, post) := splitLast (fun e => meddles m e.2 || (match e.2 with | .leave (.start m') _ => m' == m | _ => false)) tr
      !((openEv (worker m) m pre).isNone && (openEv (worker m) m tr).isNone && pre.any (fun e => e.2 == .cleared m) &&
          (pre.filter fun e => match e.2 with | .enter (.start m') => m' == m | _ => false).length ==
            (pre.filter fun e => match e.2 with | .leave (.start m') _ => m' == m | _ => false).length) ||
        (bracketed true (notes m post) &&
          (!(post.all fun e => match e.2 with | .cbRet _ (some _) => e.1 != worker m | _ => true) || bracketed false (notes m post)))),
    ("fifo: C13_fifo", qs.all fun q => (taken q tr).isPrefixOf (accepted q tr) &&
      accepted q tr == taken q tr ++ (c.w.queue q).filterMap c.w.pair),
    ("pairs: C32_pairs_never_shared", nodup (qs.flatMap c.w.queue ++ qs.flatMap c.w.pool)),
    ("size: C33_queue_size", qs.all fun q => (c.w.queue q).length + (taken q tr).length == (accepted q tr).length),
    ("covered: C14", qs.all fun q =>
      let e := q
      let serving := (ts.filter fun t => match c.thr t with | some (.op o _) => servesOp env q o | _ => false).length
      let lost := (tr.filter fun x => match x.2 with | .rejected s _ | .taskDropped s _ => (env.strat s).queue = q | _ => false).length
      (c.w.queue q).length ≤ serving + (c.w.tasks e).length + lost),
    ("cleared: C25_cleared_once", ms.all fun m => (tr.filter fun e => e.2 == .cleared m).length ≤ 1),
    ("started: C09_started_once", ms.all fun m => (tr.filter fun e => e.2 == .started m).length ≤ 1),
    ("bound: C30_bound", qs.all fun q =>
      let n := (env.strat q).maxQ
      let P := (tr.filterMap fun e => match e.2 with | .enter (.fire m _) => if qmOf env m = q then some e.1 else none | _ => none).eraseDups
      n ≤ 0 || ((wait q tr).length : Int) ≤ n + (P.length : Int) - 1 || (wait q tr).isEmpty),
    ("distinct: C31_no_duplicates", qs.all fun q =>
      let F := tr.filterMap fun e => match e.2 with | .enter (.fire m ev) => if qmOf env m = q then some (e.1, ev.cls) else none | _ => none
      !(env.strat q).dropDup || !(F.all fun x => x == F.head!) || F.any (fun x => x.2 != 0) || nodup ((wait q tr).map fun x => x.1.key)),
    ("fatal: C22 (uncaught only errors and flow listeners)", s.width != 1 || tr.all fun e => match e with
      | (.worker .., .uncaught x) => !x.isException || tr.any fun e' => match e' with | (t, .cbRet (.flowEx ..) (some x')) => t == e.1 && x' == x | _ => false
      | _ => true),
    ("npe: C35_no_npe", !(s.priv && s.width == 1) || ts.all fun t => match c.thr t with | some (.op (.poll q) _) => !(c.w.queue q).isEmpty | _ => true) ]

/-- Executable copy of `Spec.Dsl` over the names that occur. -/
def keys : List (Option EvKey) := none :: some ⟨0, resImmediate⟩ :: some ⟨1, resImmediate⟩ :: events.map fun e => some e.key
def dslStep (d : Dsl) : CfgCall → Option Dsl
  | .initialSate (some s) => if d.phase = .fresh ∧ usableState s then some { d with phase := .on s.name } else none
  | .when_ (some s) => if d.phase = .closed ∧ usableState s then some { d with phase := .on s.name } else none
  | .receives (some e) =>
    if usableEvent e then
      match d.phase with
      | .on s => some (d.set (.onEv s e.key) s (some e.key) .pending)
      | .onEv s _ => some (d.set (.onEv s e.key) s (some e.key) .pending)
      | _ => none
    else none
  | .itTransitionsTo (some t) => if usableState t then d.outcome (.goesTo t) else none
  | .itDoesNotTransition => d.outcome .stays
  | .itEnds =>
    match d.phase with
    | .onEv s e => some (d.set .closed s (some e) .ends)
    | .on s => if keys.all fun k => d.trans s k = none then some (d.set .closed s (some ⟨0, "_immediate_"⟩) .ends) else none
    | _ => none
  | _ => none

def outcomeOf (c : CfgSt) (s : String) (k : Option EvKey) : Option Outcome :=
  match AMap.get? c.table s with
  | none => none
  | some r => match AMap.get? r.ents k with
    | none => none
    | some none => some .pending
    | some (some t) => some (if t.name = resEnd then .ends else if t.name = resNoop then .stays else .goesTo t)

def cfgOracles : R (List (String × Bool)) := do
  let n ← rnd 14
  let mut ks := []
  for i in List.range n do
    ks := ks ++ [← (do if i == 0 then (if ← chance 90 then return CfgCall.initialSate (some ⟨"A", 1⟩) else rcfg) else rcfg)]
  let mut c := CfgSt.empty
  let mut d := Dsl.empty
  let mut ok8 := true
  let mut ok3 := true
  let mut ok4 := true
  for k in ks do
    let d' := dslStep d k
    let x := k.throws rs0 c
    if x.isSome != d'.isNone then ok8 := false
    let c' := k.after rs0 c
    if x.isSome && c' != c then ok3 := false
    c := c'
    d := d'.getD d
    for s in states do
      for k in keys do
        if outcomeOf c s.name k != d.trans s.name k then ok4 := false
  let names := states.map (·.name)
  let complete := d.phase != .fresh && names.all fun s => keys.all fun k => d.trans s k != some .pending
  let ok6 := (startChecks c.init c.table).isNone == complete
  let ok2 := c.table.all (fun r => r.2.ents.all fun e => (e.1 != some ⟨1, resImmediate⟩) && match e.2 with
    | some t => !(t.name == resUninit) && (t.name != resEnd || t == rs0.endSt) && (t.name != resNoop || t == rs0.noopSt)
    | none => true)
  return [("grammar: C01 C02 C05 C07 C08", ok8), ("unchanged: C03", ok3), ("clauses: C04 C08", ok4), ("complete: C06", ok6), ("reserved: C02", ok2)]

def test (args : List String) : IO Unit := do
  let n := (args.head?.bind String.toNat?).getD 500
  let steps := ((args.drop 1).head?.bind String.toNat?).getD 160
  let mut fails : List (String × Nat × Nat) := []
  let mut g := mkStdGen 42
  let mut total := 0
  for i in List.range n do
    let (s, g1) := rsetting.run g
    let (pay, g1') := (rnd 3 : R Nat).run g1
    let l := (i % 3 != 0 : Bool)
    let c0 := { Demo.conf l with w := { (Demo.conf l).w with payload := fun o => if o == .client 2 && pay == 0 then some 5 else if o == .client 4 && pay != 2 then some 6 else none } }
    let mut c := c0
    g := g1'
    for j in List.range steps do
      let (c', g2) := (rstep s c).run g
      c := if j % 8 == 7 then compact s c' else c'
      g := g2
      if j % 10 == 9 || j + 1 == steps then
        for (nm, ok) in oracles s c0 c do
          if !ok then
            match fails.find? (·.1 == nm) with
            | some _ => fails := fails.map fun f => if f.1 == nm then (f.1, f.2.1 + 1, f.2.2) else f
            | none => fails := fails ++ [(nm, 1, i)]
    total := total + c.w.trace.length
  for _ in List.range (n * 10) do
    let (r, g2) := cfgOracles.run g
    g := g2
    for (nm, ok) in r do
      if !ok then
        match fails.find? (·.1 == nm) with
        | some _ => fails := fails.map fun f => if f.1 == nm then (f.1, f.2.1 + 1, f.2.2) else f
        | none => fails := fails ++ [(nm, 1, 0)]
  IO.println s!"runs {n}, history entries {total}"
  for (nm, k, i) in fails do
    IO.println s!"FAIL {nm} | {k} times, first in run {i}"

end Verif.Oracle

def main (args : List String) : IO Unit := Verif.Oracle.test args
