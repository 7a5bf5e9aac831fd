import Verif.Proofs.Reuse
import Verif.Spec.Reuse
import Verif.Props.Dup
/-
C94: the pool of pairs (EventMachinePairPool) cannot be observed, unless duplicates are dropped; and what `fire(null)` does.
-/

namespace Verif
open Verif.Reuse Verif.Spec.Reuse

section
variable {env : Env} {c0 c : Conf}

theorem Reuse.Rel.equal {H : Tid → List Ent} {Q : QId → List Ent} {c' : Conf} (h : Rel H Q c c') : Equal c c' := by
  have he := h.alike.eq
  refine ⟨by rw [he], by rw [he], by rw [he], by rw [he], by rw [he], by rw [he], by rw [he], by rw [he], fun q => ?_, fun t => ?_⟩
  · rw [h.ql, h.qr, List.map_map, List.map_map]
    exact List.map_congr_left fun e he => h.vq q e he
  · have := h.thr t
    cases hc : c.thr t <;> cases hc' : c'.thr t <;> simp_all [ThrRel]

/-- C94. Whichever pairs are taken, and however many are lost: with the same schedule, and any other way of taking pairs, the same happens. -/
theorem C94_any {xs : List RChoice} (hd : ∀ m, (env.strat (env.mach m).strat).dropDup = false) (hi : Initial c0) (hr : Reuse.runs env c0 xs = some c)
    {f : Pick} (hf : f.Valid) : ∃ c', runsBy env f c0 (xs.filterMap RChoice.forget) = some c' ∧ Equal c c' := by
  obtain ⟨c', H, Q, h1, h2⟩ := runs_sim hf hd (rel_initial hi) hr
  exact ⟨c', h1, h2.equal⟩

theorem Reuse.runsBy_any {xs : List Choice} (hd : ∀ m, (env.strat (env.mach m).strat).dropDup = false) (hi : Initial c0) {f g : Pick} (hg : g.Valid)
    (hr : runsBy env f c0 xs = some c) : ∃ c', runsBy env g c0 xs = some c' ∧ Equal c c' := by
  obtain ⟨ys, h1, rfl⟩ := runs_of_runsBy hr
  exact C94_any hd hi h1 hg

/-- C94. The library with its pool, and the library that makes a new pair for every event. -/
theorem C94_no_pool {xs : List Choice} (hd : ∀ m, (env.strat (env.mach m).strat).dropDup = false) (hi : Initial c0) :
    (∀ c, Verif.runs env c0 xs = some c → ∃ c', runsBy env Pick.new c0 xs = some c' ∧ Equal c c') ∧
    (∀ c, runsBy env Pick.new c0 xs = some c → ∃ c', Verif.runs env c0 xs = some c' ∧ Equal c c') := by
  refine ⟨fun c hc => ?_, fun c hc => ?_⟩
  · rw [← runsBy_first] at hc
    exact runsBy_any hd hi new_valid hc
  · simp only [← runsBy_first]
    exact runsBy_any hd hi first_valid hc

/-- C94. Pairs that get lost do no harm: what holds of all executions of the library holds also when `fire(null)` is called now and then. -/
theorem C94_wasted {xs : List RChoice} {P : List (Tid × Obs) → Prop} (hd : ∀ m, (env.strat (env.mach m).strat).dropDup = false) (hi : Initial c0)
    (hP : ∀ c, ReachFrom env c0 c → P c.w.trace) (hr : Reuse.runs env c0 xs = some c) : P c.w.trace := by
  obtain ⟨c', h1, h2⟩ := C94_any hd hi hr first_valid
  rw [runsBy_first] at h1
  rw [← h2.trace]
  exact hP c' ⟨_, h1⟩

end

/-! ### `fire(null)` -/

namespace Reuse
variable {α β : Type}

/-- Only history entries. -/
def Quiet (os : List Op) : Prop := ∀ o ∈ os, ∀ t w, ∃ l, (exec t o w).2 = { w with trace := w.trace ++ l }
/-- Only reads. -/
def Idle (os : List Op) : Prop := ∀ o ∈ os, ∀ t w, (exec t o w).2 = w

theorem Idle.quiet {os : List Op} (h : Idle os) : Quiet os := fun o ho t w => ⟨[], by rw [h o ho t w]; simp⟩

theorem Quiet.append {a b : List Op} (ha : Quiet a) (hb : Quiet b) : Quiet (a ++ b) := fun o ho => by
  rcases List.mem_append.1 ho with h | h
  · exact ha o h
  · exact hb o h

theorem Idle.append {a b : List Op} (ha : Idle a) (hb : Idle b) : Idle (a ++ b) := fun o ho => by
  rcases List.mem_append.1 ho with h | h
  · exact ha o h
  · exact hb o h

theorem path_handle {p : Prog α} {f : Except Exc α → Prog β} {os : List Op} {x : Except Exc β} (h : Path (p.handle f) os x) :
    ∃ os1 os2 r, os = os1 ++ os2 ∧ Path p os1 r ∧ Path (f r) os2 x := by
  induction p generalizing os with
  | ret a => exact ⟨[], os, .ok a, rfl, .ret a, h⟩
  | thr y => exact ⟨[], os, .error y, rfl, .thr y, h⟩
  | op o k ih =>
    cases h with
    | op h =>
      obtain ⟨a, b, r, rfl, h1, h2⟩ := ih _ h
      exact ⟨o :: a, b, r, rfl, .op h1, h2⟩
  | call c k ih =>
    cases h with
    | call h =>
      obtain ⟨a, b, r, rfl, h1, h2⟩ := ih _ h
      exact ⟨a, b, r, rfl, .call h1, h2⟩

theorem path_bind {p : Prog α} {f : α → Prog β} {os : List Op} {x : Except Exc β} (h : Path (p >>= f) os x) :
    (∃ y, Path p os (.error y) ∧ x = .error y) ∨ ∃ os1 os2 a, os = os1 ++ os2 ∧ Path p os1 (.ok a) ∧ Path (f a) os2 x := by
  obtain ⟨a, b, r, rfl, h1, h2⟩ := path_handle h
  cases r with
  | ok r => exact .inr ⟨a, b, r, rfl, h1, h2⟩
  | error y => cases h2; exact .inl ⟨y, by simpa using h1, rfl⟩

theorem path_lift {o : Op} {os : List Op} {x : Except Exc o.Res} (h : Path (Prog.lift o) os x) : os = [o] ∧ ∃ r, x = .ok r := by
  cases h with
  | op h => cases h; exact ⟨rfl, _, rfl⟩

theorem path_callback {c : Cb} {k : Call} {os : List Op} {x : Except Exc Unit} (h : Path (callback c k) os x) : Quiet os := by
  have emit : ∀ o, Quiet [.emit o] := fun o o' ho t w => by
    cases List.mem_singleton.1 ho
    exact ⟨[(t, o)], rfl⟩
  have nil : Quiet [] := fun _ h => by cases h
  rcases path_bind h with ⟨_, h, _⟩ | ⟨a, b, _, rfl, h1, h2⟩
  · obtain ⟨rfl, _⟩ := path_lift h
    exact emit _
  · obtain ⟨rfl, _⟩ := path_lift h1
    refine (emit _).append ?_
    cases h2 with
    | call h2 =>
      rename_i r
      cases r <;> (cases h2 with
        | op h2 => cases h2; exact emit _)

theorem idle_one {o : Op} (h : ∀ t w, (exec t o w).2 = w) : Idle [o] := fun o' ho => by
  cases List.mem_singleton.1 ho
  exact h

theorem idle_nil : Idle [] := fun _ h => by cases h

theorem path_noneEqual {ps : List PairId} {os : List Op} {x : Except Exc Unit} (h : Path (noneEqual ps) os x) : Idle os := by
  induction ps generalizing os with
  | nil => cases h; exact idle_nil
  | cons p ps ih =>
    cases h with
    | op h =>
      rename_i os r
      refine Idle.append (a := [_]) (idle_one fun _ _ => rfl) ?_
      cases r with
      | none => cases h; exact idle_nil
      | some _ => exact ih h

/-- What `processEvent(null)` does. -/
theorem path_processNull {env : Env} {nul : Ev} {s : SId} {m : MId} {os : List Op} {x : Except Exc Unit} (h : Path (processNull env nul s m) os x) :
    Quiet os ∨ ∃ pre, os = pre ++ [.poolTake s] ∧ Idle pre ∧ x = .error .npe := by
  have key : ∀ os, Path (do
      let queueSize ← Prog.lift (.qSize (env.strat s).queue)
      if (env.strat s).maxQ > 0 && (queueSize : Int) ≥ (env.strat s).maxQ then callback (.flowFull m nul) (.flowEx s nul m (.ise .queueFull))
      else do
        let _ ← Prog.lift (.poolTake s)
        Prog.thr .npe : Prog Unit) os x → Quiet os ∨ ∃ pre, os = pre ++ [.poolTake s] ∧ Idle pre ∧ x = .error .npe := by
    intro os h
    cases h with
    | op h =>
      rename_i os n
      have hq : Idle [Op.qSize (env.strat s).queue] := idle_one fun _ _ => rfl
      change Path (if _ then _ else _) os x at h
      split at h
      · exact .inl (hq.quiet.append (path_callback h))
      · cases h with
        | op h => cases h; exact .inr ⟨[_], rfl, hq, rfl⟩
  unfold processNull at h
  dsimp only at h
  split at h
  · rcases path_bind h with ⟨_, h1, rfl⟩ | ⟨a, b, _, rfl, h1, h2⟩
    · obtain ⟨rfl, r, hr⟩ := path_lift h1
      cases hr
    · obtain ⟨rfl, _⟩ := path_lift h1
      have h0 : Idle [Op.qSnap (env.strat s).queue] := idle_one fun _ _ => rfl
      rcases path_bind h2 with ⟨_, h3, _⟩ | ⟨a', b', _, rfl, h3, h4⟩
      · exact .inl (h0.append (path_noneEqual h3)).quiet
      · have h5 := h0.append (path_noneEqual h3)
        rcases key _ h4 with h6 | ⟨pre, rfl, h6, rfl⟩
        · left
          rw [← List.append_assoc]
          exact h5.quiet.append h6
        · exact .inr ⟨_, by rw [← List.append_assoc, ← List.append_assoc], h5.append h6, rfl⟩
  · exact key _ h

end Reuse

/-- C94. `fire(null)` reports to the flow listener or throws; at most it takes a pair away from the pool, and then it throws a NullPointerException without having
done anything else. It never changes the queue, a pair, a machine or an executor. -/
theorem C94_fire_null {env : Env} {nul : Ev} {m : MId} {os : List Op} {r : Except Exc Unit} (h : Path (fireNull env nul m) os r) :
    (∀ o ∈ os, ∀ t w, ∃ l, (exec t o w).2 = { w with trace := w.trace ++ l }) ∨
    ∃ pre, os = pre ++ [.poolTake (env.mach m).strat] ∧ (∀ o ∈ pre, ∀ t w, (exec t o w).2 = w) ∧ r = .error .npe := by
  have key : ∀ (b : Bool) os, Path (if b = true then callback (.flowAfter m nul) (.flowAfter (env.mach m).strat nul m)
      else processNull env nul (env.mach m).strat m) os r → Quiet os ∨ ∃ pre, os = pre ++ [.poolTake (env.mach m).strat] ∧ Idle pre ∧ r = .error .npe := by
    intro b os h
    split at h
    · exact .inl (path_callback h)
    · exact path_processNull h
  have more : ∀ {os pre : List Op}, Idle pre → (Quiet os ∨ ∃ pre, os = pre ++ [.poolTake (env.mach m).strat] ∧ Idle pre ∧ r = .error .npe) →
      Quiet (pre ++ os) ∨ ∃ pre', pre ++ os = pre' ++ [.poolTake (env.mach m).strat] ∧ Idle pre' ∧ r = .error .npe := by
    rintro os pre hp (h | ⟨p, rfl, h, h'⟩)
    · exact .inl (hp.quiet.append h)
    · exact .inr ⟨_, by rw [← List.append_assoc], hp.append h, h'⟩
  cases h with
  | op h =>
    rename_i os b
    refine more (pre := [_]) (idle_one fun _ _ => rfl) ?_
    change Path (if _ then _ else _) os r at h
    split at h
    · exact .inl (path_callback h)
    · cases h with
      | op h =>
        rename_i os b
        refine more (pre := [_]) (idle_one fun _ _ => rfl) ?_
        change Path (if _ then _ else _) os r at h
        split at h
        · cases h with
          | op h =>
            rename_i os b
            exact more (pre := [_]) (idle_one fun _ _ => rfl) (key b os h)
        · exact key false os h

/-! #### Examples -/

namespace Demo

/-- The choices that are possible. -/
def trim (env : Env) (c : Conf) : List Choice → List Choice
  | [] => []
  | x :: xs => match step env c x with
    | none => trim env c xs
    | some c' => x :: trim env c' xs

theorem trim_runs (env : Env) (c : Conf) (xs : List Choice) : runs env c (trim env c xs) = some (drive env c xs) := by
  induction xs generalizing c with
  | nil => rfl
  | cons x xs ih =>
    simp only [trim]
    cases h : step env c x with
    | none => simpa [drive, tryStep, h] using ih c
    | some c' => simpa [drive, tryStep, h, runs] using ih c'

/-- The choices that are possible. -/
def trimR (env : Env) (c : Conf) : List RChoice → List RChoice
  | [] => []
  | x :: xs => match Reuse.step env c x with
    | none => trimR env c xs
    | some c' => x :: trimR env c' xs

/-- Start, `stay`; it is processed, its pair goes back to the pool. Then `go` takes a new pair, a pair is lost, and `go` is processed. -/
def wastefulX : List RChoice :=
  trimR (env acts) conf (([Choice.begin 0 (client 0 [stay])] ++ runN (.client 0) 100 ++ [Choice.dispatch 0 0 0] ++ runN w0 100 ++ [Choice.begin 0 (fireP go)] ++
    runN (.client 0) 5).map .sched ++ [.take (.client 0) none, .waste 0 (some 0)] ++
    (runN (.client 0) 100 ++ [Choice.dispatch 0 0 0] ++ runN w0 100).map .sched)

end Demo

/-- An execution in which a pair is taken that is not the one the library takes, and a pair is lost: both events are processed. -/
example : (match Reuse.runs (Demo.env Demo.acts) Demo.conf Demo.wastefulX with
    | none => false
    | some c => c.w.nextPair = 2 ∧ c.w.pool 0 = [1] ∧ (c.w.mach 0).cur = some Demo.B) = true := by decide +kernel

example : ∀ m, ((Demo.env Demo.acts).strat ((Demo.env Demo.acts).mach m).strat).dropDup = false := fun _ => rfl

/-- `fire(null)` at a machine that is running. -/
example : Path (fireNull (Demo.env Demo.acts) Demo.go 0) [.getStarted 0, .getStarted 0, .getEnded 0, .qSize 0, .poolTake 0] (.error .npe) := by
  refine .op (r := true) ?_
  refine .op (r := true) ?_
  refine .op (r := false) ?_
  refine .op (r := (0 : Nat)) ?_
  refine .op (r := (0 : Nat)) ?_
  exact .thr .npe

/-- C94 fails for strategies that drop duplicates: with the same schedule, an event is dropped because a pair has been used again, which would be
accepted otherwise. -/
theorem C94_negation_duplicates : ∃ env c0 xs c c', Initial c0 ∧ (∀ s, (env.strat s).dropDup = true) ∧ runs env c0 xs = some c ∧ runsBy env Pick.new c0 xs = some c' ∧
    (Tid.client 1, Obs.dropped 0 Demo.go) ∈ c.w.trace ∧ (Tid.client 1, Obs.dropped 0 Demo.go) ∉ c'.w.trace := by
  let env := Demo.env Demo.acts 0 true
  let xs := Demo.trim env Demo.conf ([.begin 0 (Demo.client 0 [Demo.stay])] ++ Demo.runN (.client 0) 100 ++ [.begin 1 (Demo.fireP Demo.go)] ++ Demo.runN (.client 1) 5 ++
    [.dispatch 0 0 0] ++ Demo.runN Demo.w0 100 ++ [.begin 2 (Demo.fireP Demo.go)] ++ Demo.runN (.client 2) 9 ++ Demo.runN (.client 1) 2)
  have h : (match runsBy env Pick.new Demo.conf xs with
      | none => false
      | some c => decide ((Tid.client 1, Obs.dropped 0 Demo.go) ∉ c.w.trace)) = true := by decide +kernel
  cases hc : runsBy env Pick.new Demo.conf xs with
  | none => rw [hc] at h; cases h
  | some c' =>
    rw [hc] at h
    exact ⟨env, Demo.conf, xs, Demo.ghost, c', Demo.conf_initial _, fun _ => rfl, Demo.trim_runs _ _ _, hc, by decide +kernel, by simpa using h⟩

end Verif
