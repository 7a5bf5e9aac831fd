import Verif.Proofs.Groups
import Verif.Props.Watch
/-
C102: machines that share nothing with the rest of the program do what they would do if the rest of the program did not exist.
-/

namespace Verif
open Verif.Spec.Groups

section
variable {G : Group} {env : Env} {c0 c c' : Conf} {xs xs' : List Choice}

/-- C102. Leave out everything that the rest of the program does: what remains can be done, and it makes no difference to the group. Its history is the same (its copies
of events may be other objects); so are the states, flags and listeners of its machines, its queues, tasks, latches, memory and payloads, and what its threads have finished. -/
theorem C102_alone (he : G.Env AllStates env) (hr : G.rest.Env AllStates env) (hc : Initial c0) (h1 : G.Start c0.w) (h2 : G.rest.Start c0.w) (hb : ∀ x ∈ xs, G.Begins x ∧ G.rest.Begins x)
    (hx : runs env c0 xs = some c) : ∃ f : Nat → Nat, (∀ a b, f a = f b → a = b) ∧ ∃ d, runs env c0 (xs.filter G.choice) = some d ∧
      d.w.trace = (c.w.trace.filter G.entry).map (fun e => (e.1, renObs f e.2)) ∧
      (∀ m, G.mach m = true → d.w.mach m = c.w.mach m) ∧
      (∀ q, G.queue q = true → (d.w.queue q).map (fun p => d.w.pair p) = (c.w.queue q).map fun p => (c.w.pair p).map fun x => (renEv f x.1, x.2)) ∧
      (∀ e, G.exec e = true → d.w.tasks e = c.w.tasks e ∧ d.w.shut e = c.w.shut e) ∧
      (∀ n, G.latch n = true → d.w.latch n = c.w.latch n) ∧
      (∀ a, G.mem a = true → d.w.mem a = c.w.mem a) ∧
      (∀ n, G.obj n = true → d.w.payload (.client n) = c.w.payload (.client n)) ∧
      (∀ t, G.tid t = true → (d.thr t).isNone = (c.thr t).isNone ∧ d.w.intr t = c.w.intr t) := by
  obtain ⟨K, d, rfl, hi, h3, h4⟩ := Groups.alone he hr hc h1 h2 hb hx
  refine ⟨K.f, hi.f, d, h3, h4.trace, h4.mem.mach, fun q hq => ?_, fun e h => ⟨h4.mem.tasks e h, h4.mem.shut e h⟩, h4.mem.latch, h4.mem.mem,
    fun n hn => h4.mem.payload (.client n) hn, fun t ht => ⟨?_, h4.mem.intr t ht⟩⟩
  · rw [h4.mem.queue q hq, List.map_map]
    exact List.map_congr_left fun p hp => h4.mem.pair p (h4.own.queue q hq p hp)
  · have := h4.thr t ht
    generalize d.thr t = y at this
    generalize c.thr t = x at this
    cases this <;> rfl

/-- C102. Two executions in which the group does the same: whatever the rest of the program does in one and in the other, the group cannot tell. -/
theorem C102_whatever (he : G.Env AllStates env) (hr : G.rest.Env AllStates env) (hc : Initial c0) (h1 : G.Start c0.w) (h2 : G.rest.Start c0.w) (hb : ∀ x ∈ xs, G.Begins x ∧ G.rest.Begins x)
    (hb' : ∀ x ∈ xs', G.Begins x ∧ G.rest.Begins x) (hx : runs env c0 xs = some c) (hx' : runs env c0 xs' = some c') (hs : xs.filter G.choice = xs'.filter G.choice) :
    (∃ f f' : Nat → Nat, (∀ a b, f a = f b → a = b) ∧ (∀ a b, f' a = f' b → a = b) ∧
      (c.w.trace.filter G.entry).map (fun e => (e.1, renObs f e.2)) = (c'.w.trace.filter G.entry).map fun e => (e.1, renObs f' e.2)) ∧
    (∀ m, G.mach m = true → c.w.mach m = c'.w.mach m) ∧ (∀ a, G.mem a = true → c.w.mem a = c'.w.mem a) := by
  obtain ⟨f, hf, d, h3, h4, h5, _, _, _, h6, _⟩ := C102_alone he hr hc h1 h2 hb hx
  obtain ⟨f', hf', d', h3', h4', h5', _, _, _, h6', _⟩ := C102_alone he hr hc h1 h2 hb' hx'
  rw [hs, h3'] at h3
  cases h3
  exact ⟨⟨f, f', hf, hf', h4.symm.trans h4'⟩, fun m hm => (h5 m hm).symm.trans (h5' m hm), fun m hm => (h6 m hm).symm.trans (h6' m hm)⟩

theorem rest_rest (G : Group) : G.rest.rest = G := by
  simp [Group.rest]

/-- C102. The same holds for the rest: both parts can be looked at separately. -/
theorem C102_parts (he : G.Env AllStates env) (hr : G.rest.Env AllStates env) (hc : Initial c0) (h1 : G.Start c0.w) (h2 : G.rest.Start c0.w) (hb : ∀ x ∈ xs, G.Begins x ∧ G.rest.Begins x)
    (hx : runs env c0 xs = some c) : ∃ d e, runs env c0 (xs.filter G.choice) = some d ∧ runs env c0 (xs.filter G.rest.choice) = some e ∧
      ∀ m, c.w.mach m = if G.mach m = true then d.w.mach m else e.w.mach m := by
  obtain ⟨_, _, d, h3, _, h4, _⟩ := C102_alone he hr hc h1 h2 hb hx
  obtain ⟨_, _, e, h5, _, h6, _⟩ := C102_alone (G := G.rest) hr (by rw [rest_rest]; exact he) hc h2 (by rw [rest_rest]; exact h1)
    (fun x h => by rw [rest_rest]; exact ⟨(hb x h).2, (hb x h).1⟩) hx
  refine ⟨d, e, h3, h5, fun m => ?_⟩
  split
  · next h => exact (h4 m h).symm
  · next h => exact (h6 m (by simpa [Group.rest] using h)).symm

/-- C102. Nobody is in the way: if the group can do its part and the rest can do its part, both can be done in any order. -/
theorem C102_together {d e : Conf} (he : G.Env AllStates env) (hr : G.rest.Env AllStates env) (hc : Initial c0) (h1 : G.Start c0.w) (h2 : G.rest.Start c0.w)
    (hb : ∀ x ∈ xs, G.Begins x ∧ G.rest.Begins x) (hp : ∀ x ∈ xs, G.choice x = true ∨ G.rest.choice x = true) (hd : runs env c0 (xs.filter G.choice) = some d)
    (he' : runs env c0 (xs.filter G.rest.choice) = some e) : ∃ c, runs env c0 xs = some c ∧ ∀ m, c.w.mach m = if G.mach m = true then d.w.mach m else e.w.mach m := by
  rcases Groups.runs_cut (env := env) (c := c0) xs with ⟨c, h⟩ | ⟨a, x, b, c', rfl, h3, h4⟩
  · obtain ⟨d', e', h5, h6, h7⟩ := C102_parts he hr hc h1 h2 hb h
    rw [hd] at h5
    rw [he'] at h6
    cases h5
    cases h6
    exact ⟨c, h, h7⟩
  · exfalso
    have hb' : ∀ x ∈ a, G.Begins x ∧ G.rest.Begins x := fun x h => hb x (List.mem_append_left _ h)
    rcases hp x (by simp) with hx | hx
    · obtain ⟨K, d1, rfl, _, h6, h7⟩ := Groups.alone he hr hc h1 h2 hb' h3
      rw [List.filter_append, List.filter_cons_of_pos hx, Groups.runs_stuck h6 (Groups.step_back (Groups.agree_refl _ _ _) h7 hx h4)] at hd
      cases hd
    · obtain ⟨K, d1, hK, _, h6, h7⟩ := Groups.alone (G := G.rest) hr (by rw [rest_rest]; exact he) hc h2 (by rw [rest_rest]; exact h1)
        (fun x h => by rw [rest_rest]; exact ⟨(hb' x h).2, (hb' x h).1⟩) h3
      rw [List.filter_append, List.filter_cons_of_pos hx, Groups.runs_stuck h6 (Groups.step_back (Groups.agree_refl _ _ _) h7 (by rw [hK]; exact hx) h4)] at he'
      cases he'

end

namespace Demo

/-- Machine, strategy, queue, executor, client, memory 0 and so on, and the event go. -/
def zeroG : Group where
  mach x := x == 0
  strat x := x == 0
  queue x := x == 0
  exec x := x == 0
  lst x := x == 0
  client x := x == 0
  obj x := x == 1
  mem x := x == 0
  latch x := x == 0
  proc x := x == 0

/-- Entering B: remember the payload of the event. -/
def rememberP (ev : Ev) (m : MId) : UProg :=
  if ev.name = "go" then .call (.getPayload ev.oid) fun v => .call (.setMem m (v.getD 0)) fun _ => .done else .done

def zeroEnv : Env := env fun k o => match k, o with
  | .entry, 2 => [rememberP]
  | _, _ => []

theorem remember_code (G : Group) (m : MId) (h : G.mem m = true) : G.Code fun ev => rememberP ev m where
  own D ev hev := by
    unfold rememberP
    split
    · next hn =>
      have : G.Oid D ev.oid := by
        rcases hev with rfl | h
        · exact absurd hn (by decide)
        · exact h
      exact .call _ this fun _ => .call _ h fun _ => .done
    · exact .done
  same f ev := by
    unfold rememberP
    by_cases h : ev.name = "go"
    · rw [if_pos (show (renEv f ev).name = "go" from h), if_pos h]; rfl
    · rw [if_neg (show ¬(renEv f ev).name = "go" from h), if_neg h]; rfl

theorem done_code (G : Group) : G.Code fun _ => .done := ⟨fun _ _ _ => .done, fun _ _ => rfl⟩

theorem zero_env (G : Group) (h1 : ∀ m, G.mach m = true → G.strat m = true) (h2 : ∀ m, G.strat m = true → G.queue m = true) (h3 : ∀ m, G.strat m = true → G.exec m = true)
    (h4 : ∀ m, G.mach m = true → G.mem m = true) : G.Env AllStates zeroEnv where
  strat := h1
  queue := h2
  exec := h3
  acts k o _ a ha m hm := by
    simp only [zeroEnv, env] at ha
    split at ha
    · rw [List.mem_singleton.1 ha]; exact remember_code G m (h4 m hm)
    · cases ha
  listener _ _ _ _ _ := done_code G
  unmapped _ _ _ _ := done_code G
  flowEx _ _ _ _ _ := done_code G
  flowAfter _ _ _ _ := done_code G
  flowBefore _ _ _ _ := done_code G
  proc _ _ := done_code G

theorem zero_in : zeroG.Env AllStates zeroEnv := zero_env _ (fun _ h => h) (fun _ h => h) (fun _ h => h) (fun _ h => h)
theorem zero_out : zeroG.rest.Env AllStates zeroEnv := zero_env _ (fun _ h => h) (fun _ h => h) (fun _ h => h) (fun _ h => h)

/-- Start machine `m` and fire go with a payload. -/
def carryP (m : MId) (o : Nat) (v : Val) : UProg :=
  .call (.start m) fun _ => .call (.setPayload (.client o) (some v)) fun _ => .call (.fire m ⟨0, "go", .client o⟩) fun _ => .done

/-- Two clients and two machines, interleaved. The copy made for machine 1 is made first. -/
def zeroX : List Choice :=
  [Choice.begin 0 (carryP 0 1 5), .begin 1 (carryP 1 11 7)] ++ runN (.client 0) 6 ++ runN (.client 1) 60 ++ runN (.client 0) 60 ++ [.interrupt .env] ++
    [.dispatch 1 0 0, .dispatch 0 0 0] ++ runN (.worker 1 0) 20 ++ runN (.worker 0 0) 80 ++ runN (.worker 1 0) 80

theorem carry_user (G : Group) (m : MId) (o : Nat) (v : Val) (h1 : G.mach m = true) (h2 : G.obj o = true) : G.User (fun _ => False) (carryP m o v) :=
  .call _ h1 fun _ => .call _ h2 fun _ => .call _ ⟨h1, h2⟩ fun _ => .done

theorem zero_begins : ∀ x ∈ zeroX, zeroG.Begins x ∧ zeroG.rest.Begins x := by
  have hrun : ∀ t n x, x ∈ runN t n → zeroG.Begins x ∧ zeroG.rest.Begins x := fun t n x h => by rw [List.eq_of_mem_replicate h]; exact ⟨trivial, trivial⟩
  intro x hx
  simp only [zeroX, List.mem_append, List.mem_cons, List.not_mem_nil, or_false] at hx
  rcases hx with ((((((((rfl | rfl) | h) | h) | h) | rfl) | rfl | rfl) | h) | h) | h
  · exact ⟨fun _ => carry_user _ _ _ _ rfl rfl, fun h => by cases h⟩
  · exact ⟨fun h => (by cases h), fun _ => carry_user _ _ _ _ rfl rfl⟩
  · exact hrun _ _ _ h
  · exact hrun _ _ _ h
  · exact hrun _ _ _ h
  · exact ⟨trivial, trivial⟩
  · exact ⟨trivial, trivial⟩
  · exact ⟨trivial, trivial⟩
  · exact hrun _ _ _ h
  · exact hrun _ _ _ h
  · exact hrun _ _ _ h

theorem zero_start (G : Group) : G.Start (conf false).w := ⟨fun _ _ _ h => (by cases h), fun _ => rfl⟩

/-- The two machines together. -/
def zeroC : Conf := drive zeroEnv (conf false) zeroX

theorem zero_runs : ∃ ys, (∀ y ∈ ys, y ∈ zeroX) ∧ runs zeroEnv (conf false) ys = some zeroC := eyes_runs _ _ _

theorem zero_zero : zeroC.w.mach 0 = ⟨true, false, some B, none⟩ ∧ zeroC.w.mem 0 = 5 ∧ zeroC.w.mach 1 ≠ (conf false).w.mach 1 := by decide +kernel

end Demo

/-- Machine 0 goes to B without machine 1, too. -/
example : ∃ ys d, (∀ y ∈ ys, Demo.zeroG.choice y = true) ∧ runs Demo.zeroEnv (Demo.conf false) ys = some d ∧ d.w.mach 0 = ⟨true, false, some Demo.B, none⟩ ∧ d.w.mem 0 = 5 := by
  obtain ⟨ys, h1, h2⟩ := Demo.zero_runs
  obtain ⟨_, _, d, h3, _, h4, _, _, _, h5, _⟩ := C102_alone Demo.zero_in Demo.zero_out (Demo.conf_initial false) (Demo.zero_start _) (Demo.zero_start _)
    (fun y hy => Demo.zero_begins y (h1 y hy)) h2
  refine ⟨_, d, fun y hy => (List.mem_filter.1 hy).2, h3, ?_, ?_⟩
  · rw [h4 0 rfl]
    exact Demo.zero_zero.1
  · rw [h5 0 rfl]
    exact Demo.zero_zero.2.1

/-- Its copy of the event is another object: the second that is made if machine 1 is there, the first if it is alone. -/
example : (Tid.client 0, .copied 1 Demo.go (some 5)) ∈ Demo.zeroC.w.trace ∧
    (Tid.client 0, .copied 0 Demo.go (some 5)) ∈ (drive Demo.zeroEnv (Demo.conf false) (Demo.zeroX.filter Demo.zeroG.choice)).w.trace := by
  decide +kernel

/-- One after the other instead of interleaved. -/
example : ∃ ys zs c, runs Demo.zeroEnv (Demo.conf false) (ys ++ zs) = some c ∧ (∀ y ∈ ys, Demo.zeroG.choice y = true) ∧ (∀ z ∈ zs, Demo.zeroG.rest.choice z = true) ∧
    c.w.mach 0 = Demo.zeroC.w.mach 0 ∧ c.w.mach 1 = Demo.zeroC.w.mach 1 := by
  obtain ⟨ys, h1, h2⟩ := Demo.zero_runs
  have hb := fun y hy => Demo.zero_begins y (h1 y hy)
  obtain ⟨d, e, h3, h4, h5⟩ := C102_parts Demo.zero_in Demo.zero_out (Demo.conf_initial false) (Demo.zero_start _) (Demo.zero_start _) hb h2
  have no : ∀ x, Demo.zeroG.choice x = true → Demo.zeroG.rest.choice x = true → False := fun x h h' => by
    cases x with
    | «begin» n u => exact Groups.not_rest h' h
    | run t => exact Groups.rest_tid _ t h' h
    | dispatch => exact Groups.not_rest h' h
    | interrupt t => exact Groups.rest_tid _ t h' h
    | shutdown => exact Groups.not_rest h' h
  have f1 : (ys.filter Demo.zeroG.choice ++ ys.filter Demo.zeroG.rest.choice).filter Demo.zeroG.choice = ys.filter Demo.zeroG.choice := by
    rw [List.filter_append, List.filter_filter, (List.filter_eq_nil_iff (l := ys.filter Demo.zeroG.rest.choice)).2 fun x hx h => no x h (List.mem_filter.1 hx).2]
    simp
  have f2 : (ys.filter Demo.zeroG.choice ++ ys.filter Demo.zeroG.rest.choice).filter Demo.zeroG.rest.choice = ys.filter Demo.zeroG.rest.choice := by
    rw [List.filter_append, List.filter_filter, (List.filter_eq_nil_iff (l := ys)).2 fun x hx h => by
      have := Bool.and_eq_true_iff.1 h
      exact no x this.2 this.1]
    simp
  obtain ⟨c, h6, h7⟩ := C102_together (xs := ys.filter Demo.zeroG.choice ++ ys.filter Demo.zeroG.rest.choice) Demo.zero_in Demo.zero_out (Demo.conf_initial false)
    (Demo.zero_start _) (Demo.zero_start _) (fun y hy => by
      rcases List.mem_append.1 hy with h | h <;> exact hb y (List.mem_filter.1 h).1)
    (fun y hy => by
      rcases List.mem_append.1 hy with h | h
      · exact .inl (List.mem_filter.1 h).2
      · exact .inr (List.mem_filter.1 h).2)
    (by rw [f1]; exact h3) (by rw [f2]; exact h4)
  exact ⟨_, _, c, h6, fun y hy => (List.mem_filter.1 hy).2, fun y hy => (List.mem_filter.1 hy).2, (h7 0).trans (h5 0).symm, (h7 1).trans (h5 1).symm⟩

/-- Whatever client 1 does. -/
example : ∃ ys ys' c c', runs Demo.zeroEnv (Demo.conf false) ys = some c ∧ runs Demo.zeroEnv (Demo.conf false) ys' = some c' ∧
    ys.filter Demo.zeroG.choice = ys'.filter Demo.zeroG.choice ∧ c.w.mach 1 ≠ c'.w.mach 1 ∧ c.w.mach 0 = c'.w.mach 0 := by
  obtain ⟨ys, h1, h2⟩ := Demo.zero_runs
  have hb := fun y hy => Demo.zero_begins y (h1 y hy)
  obtain ⟨_, _, d, h3, _⟩ := C102_alone Demo.zero_in Demo.zero_out (Demo.conf_initial false) (Demo.zero_start _) (Demo.zero_start _) hb h2
  have hf : (ys.filter Demo.zeroG.choice).filter Demo.zeroG.choice = ys.filter Demo.zeroG.choice := by simp
  have h4 := C102_whatever Demo.zero_in Demo.zero_out (Demo.conf_initial false) (Demo.zero_start _) (Demo.zero_start _) hb (fun y hy => hb y (List.mem_filter.1 hy).1) h2 h3 hf.symm
  obtain ⟨_, e, _, h6, h7⟩ := C102_parts Demo.zero_in Demo.zero_out (Demo.conf_initial false) (Demo.zero_start _) (Demo.zero_start _)
    (fun y hy => hb y (List.mem_filter.1 hy).1) h3
  have h8 : (ys.filter Demo.zeroG.choice).filter Demo.zeroG.rest.choice = [] := by
    rw [List.filter_eq_nil_iff]
    intro y hy h
    have h' := (List.mem_filter.1 hy).2
    cases y with
    | «begin» n u => exact Groups.not_rest h h'
    | run t => exact Groups.rest_tid _ t h h'
    | dispatch => exact Groups.not_rest h h'
    | interrupt t => exact Groups.rest_tid _ t h h'
    | shutdown => exact Groups.not_rest h h'
  rw [h8] at h6
  cases h6
  refine ⟨ys, _, _, d, h2, h3, hf.symm, ?_, h4.2.1 0 rfl⟩
  rw [h7 1]
  exact Demo.zero_zero.2.2

/-- Both parts may have listeners: here every machine has one of its own. -/
def Demo.zeroL : Conf := { Demo.conf false with w := { (Demo.conf false).w with mach := fun m => ⟨false, false, none, some m⟩ } }

theorem Demo.zeroL_start (G : Group) (h : ∀ m, G.mach m = true → G.lst m = true) : G.Start Demo.zeroL.w := ⟨fun m hm l e => (by cases e; exact h m hm), fun _ => rfl⟩

example : ∃ ys c d, runs Demo.zeroEnv Demo.zeroL ys = some c ∧ runs Demo.zeroEnv Demo.zeroL (ys.filter Demo.zeroG.choice) = some d ∧ d.w.mach 0 = c.w.mach 0 ∧
    c.w.mach 0 = ⟨true, false, some Demo.B, some 0⟩ ∧ c.w.mach 1 = ⟨true, false, some Demo.B, some 1⟩ := by
  obtain ⟨ys, h1, h2⟩ := Demo.eyes_runs Demo.zeroEnv Demo.zeroL (Demo.zeroX ++ Demo.runN (.worker 0 0) 80)
  have hc : Initial Demo.zeroL := ⟨fun _ => rfl, fun _ => ⟨rfl, rfl, rfl⟩, fun _ => rfl, rfl, rfl, fun _ => rfl, fun _ => rfl, fun _ => rfl, rfl⟩
  obtain ⟨_, _, d, h3, _, h4, _⟩ := C102_alone Demo.zero_in Demo.zero_out hc (Demo.zeroL_start _ fun _ h => h) (Demo.zeroL_start _ fun _ h => h) (fun y hy => by
    rcases List.mem_append.1 (h1 y hy) with h | h
    · exact Demo.zero_begins y h
    · rw [List.eq_of_mem_replicate h]; exact ⟨trivial, trivial⟩) h2
  have h5 : (drive Demo.zeroEnv Demo.zeroL (Demo.zeroX ++ Demo.runN (.worker 0 0) 80)).w.mach 0 = ⟨true, false, some Demo.B, some 0⟩ ∧
      (drive Demo.zeroEnv Demo.zeroL (Demo.zeroX ++ Demo.runN (.worker 0 0) 80)).w.mach 1 = ⟨true, false, some Demo.B, some 1⟩ := by decide +kernel
  exact ⟨ys, _, d, h2, h3, h4 0 rfl, h5⟩

end Verif
