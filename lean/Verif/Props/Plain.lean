import Verif.Proofs.HBListener
import Verif.Proofs.HBPayload
import Verif.Demo.Plain
/-
C89: weak memory, for all plain fields. C90: handing over listeners and payloads.
-/

namespace Verif
open Verif.Spec.HB Verif.Spec.Plain Verif.Plain

/-- C90. The listener of a machine with a thread of its own is not in a data race, if the machine is used with discipline and the listener is set before `start()`,
by the thread that calls `start()`. -/
theorem C90_listener {env : Env} {m : MId} {t0 : Tid} {c0 c : Conf} {xs : List Choice} (hx : OwnThread env m) (hi : Initial c0) (hr : runs env c0 xs = some c)
    (hd : Disciplined (env.workerOf m) m (history env c0 xs)) (hp : Prepared t0 (env.workerOf m) m (history env c0 xs)) :
    RaceFree false (history env c0 xs) (.listener m) := listener_raceFree hx hi hr hd hp

/-- C90. The payload of an event is not in a data race, if only its owner writes it, not after the event has been put into a queue, and other threads use it after they
have got the event from a queue. In any environment without drop-duplicate strategies; the event may be fired again by those who receive it. -/
theorem C90_payload {env : Env} {o : EvOid} {t0 : Tid} {c0 c : Conf} {xs : List Choice} (hd : ∀ m, (env.strat (env.mach m).strat).dropDup = false) (hi : Initial c0)
    (hr : runs env c0 xs = some c) (hh : Handed t0 o (history env c0 xs)) : RaceFree false (history env c0 xs) (.payload o) := by
  obtain ⟨lst, _, h⟩ := hist_sound (own_invariant env) (pay_hinv env _) (own_initial env) pay_initial hi hr
  exact payload_rf h (fun p => C61_pairs hd hi hr p) hh

/-- C89. The library with weak memory: if no execution with sequentially consistent memory that begins like this one has a data race on the weak fields, then this
execution is sequentially consistent: same actions, same values read, same end. -/
theorem C89_drf {env : Env} {M : Cell → Prop} [DecidablePred M] {wide : Bool} {c0 c : Conf} {xs : List PChoice} (hw : Plain.runs env M c0 xs = some c)
    (hrf : ∀ f, M f → ∀ ys c1, Verif.runs env c0 ys = some c1 → Begins (history env c0 ys) (dids (acts env M c0 xs)) → RaceFree wide (history env c0 ys) f)
    (hj : ∀ f, M f → Justified wide (content c0.w f) f (acts env M c0 xs)) :
    ∃ ys, Verif.runs env c0 ys = some c ∧ acts env M c0 (ys.map .sched) = acts env M c0 xs :=
  drf (zs := []) rfl (fun _ => last_nil) hw hrf hj

/-- The rules for the use of a weak field. For pairs there are none. -/
def KeepsRules (env : Env) (H : List Did) : Cell → Prop
  | .cur m => OwnThread env m ∧ Disciplined (env.workerOf m) m H
  | .listener m => OwnThread env m ∧ Disciplined (env.workerOf m) m H ∧ ∃ t0, Prepared t0 (env.workerOf m) m H
  | .pair _ => True
  | .payload o => ∃ t0, Handed t0 o H

/-- C89. All plain fields may be weak: executions that keep to the rules are sequentially consistent. -/
theorem C89_library {env : Env} {M : Cell → Prop} [DecidablePred M] {c0 c : Conf} {xs : List PChoice}
    (hd : ∀ m, (env.strat (env.mach m).strat).dropDup = false) (hi : Initial c0) (hw : Plain.runs env M c0 xs = some c)
    (hk : ∀ f, M f → KeepsRules env (dids (acts env M c0 xs)) f) (hj : ∀ f, M f → Justified false (content c0.w f) f (acts env M c0 xs)) :
    ∃ ys, Verif.runs env c0 ys = some c ∧ acts env M c0 (ys.map .sched) = acts env M c0 xs := by
  refine C89_drf hw (fun f hf ys c1 hr hb => ?_) hj
  have h := hk f hf
  obtain ⟨P, t, o, r, r', Q, h1, h2, h3⟩ := hb
  rw [h2] at h
  cases f with
  | cur m => exact C62_current_state h.1 hi hr (by rw [h1]; exact swap_disciplined h.2)
  | listener m =>
    obtain ⟨g1, g2, t0, g3⟩ := h
    exact C90_listener (t0 := t0) g1 hi hr (by rw [h1]; exact swap_disciplined g2) (by rw [h1]; exact swap_prepared g3)
  | pair p => exact C61_pairs hd hi hr p
  | payload oid =>
    obtain ⟨t0, g⟩ := h
    exact C90_payload (t0 := t0) hd hi hr (by rw [h1]; exact swap_handed h3 g)

/-- C89. Sequentially consistent executions are among the weak ones. -/
theorem C89_allowed {env : Env} (M : Cell → Prop) [DecidablePred M] {wide : Bool} {c0 c : Conf} {ys : List Choice} (hr : Verif.runs env c0 ys = some c) :
    (∃ xs, Plain.runs env M c0 xs = some c ∧ acts env M c0 xs = acts env M c0 (ys.map .sched)) ∧
    dids (acts env M c0 (ys.map .sched)) = history env c0 ys ∧ ∀ f, Justified wide (content c0.w f) f (acts env M c0 (ys.map .sched)) := by
  refine ⟨weaken_runs hr, dids_sched, fun f => ?_⟩
  have := fresh_runs (M := M) (A := []) (v0 := content c0.w f) (f := f) (fun i d v hi => by simp at hi) last_nil hr
  exact Fresh.justified (by simpa using this)

namespace Demo

/-- When B is entered, the payload is read. -/
def payActs : Kind → Nat → List (Ev → MId → UProg)
  | .entry, 2 => [fun ev _ => .call (.getPayload ev.oid) fun v => if v = some 7 then noteP 7 else .done]
  | _, _ => []

/-- The fields of machine 0, the pairs, the payload of the event fired and of its copy. -/
def Mem (f : Cell) : Prop := match f with
  | .cur m | .listener m => m = 0
  | .pair _ => True
  | .payload o => o = go.oid ∨ o = .copy 0

instance : DecidablePred Mem := fun f => by cases f <;> unfold Mem <;> infer_instance

/-- Client 0 sets the listener, starts the machine, fires an event with payload 7 and sets another payload. -/
def payX : List Choice :=
  [.begin 0 (.call (.setListener 0 (some 0)) fun _ => .call (.setPayload go.oid (some 7)) fun _ => .call (.start 0) fun _ => .call (.fire 0 go) fun _ =>
    .call (.setPayload go.oid (some 8)) fun _ => .done)] ++ runN (.client 0) 100 ++ [.dispatch 0 0 0] ++ runN w0 100

def payH : List Did := hist (env payActs) conf payX

/-- The machine has been started and go fired; afterwards client 1 sets a listener. When the worker processes go it finds the listener (`!= null`), and when it calls
it, it finds null. -/
def lateX : List PChoice :=
  ([Choice.begin 0 (client 0 [go])] ++ runN (.client 0) 100 ++ [Choice.begin 1 (.call (.setListener 0 (some 0)) fun _ => .done)] ++ runN (.client 1) 10 ++
    [Choice.dispatch 0 0 0] ++ runN w0 7).map .sched ++ [.read w0 (.listener none)] ++ (runN w0 100).map .sched

def lateH : List Act := phist (env payActs) (· = .listener 0) conf lateX

def setsOk (H : List Did) : Bool := H.all fun d => match d with
  | .op _ (.setListener _ l) _ => l.isSome
  | _ => true

theorem sets_of {H : List Did} (h : setsOk H = true) {k : Nat} {t : Tid} {m : MId} {l : Option LId} (hk : H[k]? = some (.op t (.setListener m l) ())) : l ≠ none := by
  have := List.all_eq_true.1 h _ (List.mem_of_getElem? hk)
  intro hl
  simp [hl] at this

theorem pay_rules : Disciplined w0 0 payH ∧ Prepared (.client 0) w0 0 payH ∧ Handed (.client 0) go.oid payH ∧ Handed (.client 0) (.copy 0) payH :=
  ⟨disciplined_of (by decide +kernel) (by decide +kernel) (by decide +kernel), prepared_of (by decide +kernel), handed_of (by decide +kernel),
    handed_of (by decide +kernel)⟩

end Demo

open Demo in
/-- C90: client 0 sets the listener, the worker calls it. Client 0 makes the copy with payload 7, the worker reads it. -/
example : ∃ xs c, runs (env payActs) conf xs = some c ∧ (let H := history (env payActs) conf xs
    Disciplined w0 0 H ∧ Prepared (.client 0) w0 0 H ∧ Handed (.client 0) go.oid H ∧ Handed (.client 0) (.copy 0) H ∧
    conflicts H (.listener 0) = true ∧ conflicts H (.payload (.copy 0)) = true ∧ H[41]? = some (.op w0 (.getPayload (.copy 0)) (some 7)) ∧
    RaceFree false H (.listener 0) ∧ RaceFree false H (.payload (.copy 0))) := by
  obtain ⟨xs, h1, h2, _⟩ := hist_real (env payActs) conf payX
  obtain ⟨g1, g2, g3, g4⟩ := pay_rules
  have h2 : history (env payActs) conf xs = payH := h2
  refine ⟨xs, _, h1, by rw [h2]; exact g1, by rw [h2]; exact g2, by rw [h2]; exact g3, by rw [h2]; exact g4, ?_, ?_, ?_,
    C90_listener (t0 := .client 0) (ownThread _ _ _) (conf_initial _) h1 (by rw [h2]; exact g1) (by rw [h2]; exact g2),
    C90_payload (t0 := .client 0) (fun _ => rfl) (conf_initial _) h1 (by rw [h2]; exact g4)⟩ <;> rw [h2]
  · decide +kernel
  · decide +kernel
  · rfl

open Demo in
/-- C89: an execution with weak reads of all these fields that keeps to the rules. -/
example : ∃ xs c, Plain.runs (env payActs) Mem conf xs = some c ∧ (∀ f, Mem f → KeepsRules (env payActs) (dids (acts (env payActs) Mem conf xs)) f) ∧
    (∀ f, Mem f → Justified false (content conf.w f) f (acts (env payActs) Mem conf xs)) ∧ dids (acts (env payActs) Mem conf xs) = payH ∧
    ∃ ys, Verif.runs (env payActs) conf ys = some c := by
  obtain ⟨zs, h1, h2, _⟩ := hist_real (env payActs) conf payX
  obtain ⟨g1, g2, g3, g4⟩ := pay_rules
  obtain ⟨⟨xs, h3, h4⟩, h5, h6⟩ := C89_allowed (wide := false) Mem h1
  have h7 : dids (acts (env payActs) Mem conf xs) = payH := by rw [h4, h5]; exact h2
  have hk : ∀ f, Mem f → KeepsRules (env payActs) (dids (acts (env payActs) Mem conf xs)) f := by
    intro f hf
    rw [h7]
    cases f with
    | cur m => obtain rfl : m = 0 := hf; exact ⟨ownThread _ _ _, g1⟩
    | listener m => obtain rfl : m = 0 := hf; exact ⟨ownThread _ _ _, g1, _, g2⟩
    | pair p => trivial
    | payload o =>
      rcases hf with rfl | rfl
      · exact ⟨_, g3⟩
      · exact ⟨_, g4⟩
  have hj : ∀ f, Mem f → Justified false (content conf.w f) f (acts (env payActs) Mem conf xs) := by rw [h4]; exact fun f _ => h6 f
  obtain ⟨ys, g, _⟩ := C89_library (fun _ => rfl) (conf_initial _) h3 hk hj
  exact ⟨xs, _, h3, hk, hj, h7, ys, g⟩

/-- If a listener is set by another thread while the machine is running, `stateMachineListener != null` may be true and the call of the listener right after that throw
a `NullPointerException`, although nobody ever sets the listener to null: the event is not processed. -/
theorem C89_negation_listener : ∃ env c0 xs c, Initial c0 ∧ OwnThread env 0 ∧ (∀ m, (env.strat (env.mach m).strat).dropDup = false) ∧
    Plain.runs env (· = .listener 0) c0 xs = some c ∧ (let H := acts env (· = .listener 0) c0 xs
    Disciplined (env.workerOf 0) 0 (dids H) ∧ Justified true (content c0.w (.listener 0)) (.listener 0) H ∧
    (∀ (k : Nat) t l, (dids H)[k]? = some (.op t (.setListener 0 l) ()) → l ≠ none) ∧
    (dids H)[26]? = some (.op (env.workerOf 0) (.getListener 0) (some 0)) ∧ (∃ cb, (dids H)[27]? = some (.op (env.workerOf 0) (.notify 0 cb) none)) ∧
    (dids H)[28]? = some (.op (env.workerOf 0) (.emit (.cb (.flowEx 0 Demo.go .npe))) ()) ∧ (c.w.mach 0).cur = some Demo.A) := by
  obtain ⟨xs, h1, h2⟩ := Demo.phist_real (Demo.env Demo.payActs) (· = .listener 0) Demo.conf Demo.lateX
  refine ⟨_, _, xs, _, Demo.conf_initial _, Demo.ownThread _ _ _, fun _ => rfl, h1, ?_⟩
  rw [h2]
  refine ⟨?_, ?_, ?_, ?_, ?_, ?_, ?_⟩
  · exact Demo.disciplined_of (by decide +kernel) (by decide +kernel) (by decide +kernel)
  · exact Demo.pjustified_of (by decide +kernel)
  · exact fun k t l hk => Demo.sets_of (by decide +kernel) hk
  · rfl
  · exact ⟨.begin 0 Demo.A Demo.go Demo.B, by rfl⟩
  · rfl
  · decide +kernel

end Verif
