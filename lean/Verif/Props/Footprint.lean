import Verif.Proofs.Footprint
import Verif.Demo.HB
/-
C91: the library does only what user code asks for.
-/

namespace Verif
open Verif.Spec.HB Verif.Spec.Footprint

variable {env : Env} {A : Tid → UCall → Prop} {c0 c : Conf} {xs : List Choice}

/-- C91. Whatever any thread does is licensed by the calls that user code may make. -/
theorem C91_licensed (ho : Obeys env A xs) (hi : Initial c0) : ∀ d ∈ history env c0 xs, Licensed env A d :=
  Footprint.licensed_runs ho (fun _ h => h) (Footprint.ok_initial hi)

namespace Footprint

/-- What stays as it is if no action changes it. -/
theorem kept {α : Type} (f : World → α) (B : Did → Prop) (hop : ∀ t o w, ¬B (.op t o (exec t o w).1) → f (exec t o w).2 = f w)
    (hlog : ∀ w t x, f (w.log t x) = f w) (hto : ∀ (w : World) x, f { w with tasks := x } = f w) (hin : ∀ (w : World) x, f { w with intr := x } = f w)
    (hsh : ∀ (w : World) x, f { w with shut := x } = f w) (htr : ∀ (w : World) x y, f { w with tasks := x, trace := y } = f w) :
    ∀ {xs : List Choice} {c0 c : Conf}, runs env c0 xs = some c → (∀ d ∈ history env c0 xs, ¬B d) → f c.w = f c0.w
  | [], c0, c, hr, _ => by cases hr; rfl
  | x :: xs, c0, c, hr, hh => by
    simp only [runs] at hr
    cases hs : step env c0 x with
    | none => rw [hs] at hr; cases hr
    | some c1 =>
      rw [hs] at hr
      simp only [history, hs, List.mem_append, Option.mem_toList] at hh
      rw [kept f B hop hlog hto hin hsh htr hr fun d hd => hh d (.inr hd)]
      cases x with
      | begin n u =>
        simp only [step] at hs
        split at hs <;> cases hs
        rfl
      | run t =>
        simp only [step] at hs
        split at hs
        · cases hs
        next p hp =>
          cases p with
          | ret a => cases hs; rfl
          | thr x => cases hs; exact hlog ..
          | call g k => cases hs; rfl
          | op o k =>
            simp only [runThread] at hs
            split at hs
            · cases hs
              exact hop t o _ (hh _ (.inl (by simp [did, hp])))
            · cases hs
      | dispatch e i j =>
        simp only [step] at hs
        split at hs
        · split at hs <;> cases hs
          exact hto ..
        · cases hs
      | interrupt t => cases hs; exact hin ..
      | shutdown e now =>
        cases hs
        cases now
        · exact hsh ..
        · exact (htr ..).trans (hsh ..)

end Footprint

/-- C91. The listener of a machine changes only if user code sets it. -/
theorem C91_listener {m : MId} (ho : Obeys env A xs) (hi : Initial c0) (hr : runs env c0 xs = some c) (ha : ∀ t l, ¬A t (.setListener m l)) :
    (c.w.mach m).listener = (c0.w.mach m).listener := by
  refine Footprint.kept (fun w => (w.mach m).listener) (fun d => ∃ t l r, d = .op t (.setListener m l) r) ?_ (fun _ _ _ => rfl) (fun _ _ => rfl) (fun _ _ => rfl)
    (fun _ _ => rfl) (fun _ _ _ => rfl) hr ?_
  · intro t o w h
    cases o with
    | setListener m' l =>
      have : m' ≠ m := fun h' => h ⟨t, l, (), by rw [h']⟩
      simp [exec, World.log, fset_ne _ _ (Ne.symm this)]
    | casStarted m' => simp only [exec]; split <;> simp [World.log, fset]; split <;> simp_all
    | clearEnded m' => simp only [exec, World.log, fset]; split <;> simp_all
    | setCur m' s api => simp only [exec, World.log, fset]; split <;> simp_all
    | casEnded m' s b api => simp only [exec]; split <;> simp [World.log, fset]; split <;> simp_all
    | _ => simp only [exec] <;> (try split) <;> (try split) <;> rfl
  · rintro d hd ⟨t, l, r, rfl⟩
    exact ha t l (C91_licensed ho hi _ hd)

/-- C91. A machine that user code neither starts nor stops and to which it fires nothing keeps its fields, whatever it shares with other machines; nothing is ever called on
its behalf. -/
theorem C91_untouched {m : MId} (ho : Obeys env A xs) (hi : Initial c0) (hr : runs env c0 xs = some c)
    (hm : ∀ t, ¬Starts A t m ∧ ¬A t (.stop m) ∧ ∀ ev, ¬A t (.fire m ev)) :
    (c.w.mach m).started = false ∧ (c.w.mach m).ended = false ∧ (c.w.mach m).cur = none ∧
    ∀ t r k oid i f ev s x, ∀ cb ∈ [Cb.begin m f ev s, .end_ m f ev s, .action m k oid i ev, .unmapped m ev, .flowEx m ev x, .flowFull m ev, .flowAfter m ev, .flowBefore m ev],
      .op t (.emit (.cb cb)) r ∉ history env c0 xs ∧ ∀ l, .op t (.notify m cb) l ∉ history env c0 xs := by
  have hl := C91_licensed ho hi
  have hf : ∀ ev, ¬Fired A m ev := fun ev ⟨t, e, h, _⟩ => (hm t).2.2 e h
  have hst : ∀ t, ¬Starts A t m := fun t => (hm t).1
  have key : ∀ t (o : Op) r, .op t o r ∈ history env c0 xs → o ≠ .casStarted m ∧ o ≠ .clearEnded m ∧ (∀ s api, o ≠ .setCur m s api) ∧
      ∀ s b api, o ≠ .casEnded m s b api := by
    intro t o r hd
    have h := hl _ hd
    refine ⟨?_, ?_, ?_, ?_⟩
    · rintro rfl; exact hst t h
    · rintro rfl; exact hst t h
    · rintro s api rfl
      cases api
      · obtain ⟨ev, h⟩ := h; exact hf ev h
      · exact h.elim (hst t) (hm t).2.1
    · rintro s b api rfl
      cases api
      · obtain ⟨ev, h⟩ := h; exact hf ev h
      · exact h.elim (hst t) (hm t).2.1
  have h1 : ((c.w.mach m).started, (c.w.mach m).ended, (c.w.mach m).cur) = ((c0.w.mach m).started, (c0.w.mach m).ended, (c0.w.mach m).cur) := by
    refine Footprint.kept (fun w => ((w.mach m).started, (w.mach m).ended, (w.mach m).cur))
      (fun d => ∃ t o r, d = .op t o r ∧ ¬(o ≠ .casStarted m ∧ o ≠ .clearEnded m ∧ (∀ s api, o ≠ .setCur m s api) ∧ ∀ s b api, o ≠ .casEnded m s b api))
      ?_ (fun _ _ _ => rfl) (fun _ _ => rfl) (fun _ _ => rfl) (fun _ _ => rfl) (fun _ _ _ => rfl) hr ?_
    · intro t o w h
      have h : o ≠ .casStarted m ∧ o ≠ .clearEnded m ∧ (∀ s api, o ≠ .setCur m s api) ∧ ∀ s b api, o ≠ .casEnded m s b api :=
        Classical.byContradiction fun g => h ⟨t, o, _, rfl, g⟩
      obtain ⟨g1, g2, g3, g4⟩ := h
      have hset : ∀ {m' : MId} {v : Mach}, m' ≠ m → fset w.mach m' v m = w.mach m := fun h => fset_ne _ _ (Ne.symm h)
      cases o with
      | casStarted m' =>
        have : m' ≠ m := fun h => g1 (by rw [h])
        simp only [exec]; split <;> simp [World.log, hset this]
      | clearEnded m' =>
        have : m' ≠ m := fun h => g2 (by rw [h])
        simp [exec, World.log, hset this]
      | setCur m' s api =>
        have : m' ≠ m := fun h => g3 s api (by rw [h])
        simp [exec, World.log, hset this]
      | casEnded m' s b api =>
        have : m' ≠ m := fun h => g4 s b api (by rw [h])
        simp only [exec]; split <;> simp [World.log, hset this]
      | setListener m' l =>
        by_cases h : m' = m
        · subst h; simp [exec, World.log]
        · simp [exec, World.log, hset h]
      | _ => simp only [exec] <;> (try split) <;> (try split) <;> rfl
    · rintro d hd ⟨t, o, r, rfl, h⟩
      exact h (key t o r hd)
  obtain ⟨i1, i2, i3⟩ := hi.mach m
  simp only [Prod.mk.injEq, i1, i2, i3] at h1
  refine ⟨h1.1, h1.2.1, h1.2.2, ?_⟩
  · intro t r k oid i f ev s x cb hcb
    refine ⟨fun hd => ?_, fun l hd => ?_⟩
    · have h : Called A t cb := hl _ hd
      simp only [List.mem_cons, List.not_mem_nil, or_false] at hcb
      rcases hcb with rfl | rfl | rfl | rfl | rfl | rfl | rfl | rfl
      · exact h.elim (fun h => hst t h.1) (hf ev)
      · exact h.elim (fun h => hst t h.1) (hf ev)
      · exact h.elim (fun h => hst t h.1) (hf ev)
      · exact hf ev h
      · exact hf ev h
      all_goals exact (hm t).2.2 ev h
    · exact (hl _ hd).2.elim (hst t) fun ⟨ev, h⟩ => hf ev h

/-- C91. The payload of an event that a client has made changes only if user code sets it: not by firing and processing the event, nor by copying it. -/
theorem C91_payload {o : EvOid} (ho : Obeys env A xs) (hi : Initial c0) (hr : runs env c0 xs = some c) (hc : ∀ n, o ≠ .copy n) (ha : ∀ t v, ¬A t (.setPayload o v)) :
    c.w.payload o = c0.w.payload o := by
  refine Footprint.kept (fun w => w.payload o) (fun d => ∃ t v r, d = .op t (.setPayload o v) r) ?_ (fun _ _ _ => rfl) (fun _ _ => rfl) (fun _ _ => rfl)
    (fun _ _ => rfl) (fun _ _ _ => rfl) hr ?_
  · intro t op w h
    cases op with
    | setPayload o' v =>
      have : o' ≠ o := fun h' => h ⟨t, v, (), by rw [h']⟩
      simp [exec, World.log, fset_ne _ _ (Ne.symm this)]
    | newCopy ev => simp [exec, World.log, fset_ne _ _ (hc _)]
    | _ => simp only [exec] <;> (try split) <;> (try split) <;> rfl
  · rintro d hd ⟨t, v, r, rfl⟩
    exact ha t v (C91_licensed ho hi _ hd)

namespace Demo

/-- Start machine 0, fire to it, record something. -/
def Asks : Tid → UCall → Prop
  | .client 0, .start m | .client 0, .fire m _ => m = 0
  | _, .note _ => True
  | _, _ => False

/-- All events have payload 7. -/
def conf7 : Conf := ⟨{ conf.w with payload := fun _ => some 7 }, conf.thr⟩

theorem conf7_initial : Initial conf7 :=
  ⟨fun _ => rfl, fun _ => ⟨rfl, rfl, rfl⟩, fun _ => rfl, rfl, rfl, fun _ => rfl, fun _ => rfl, fun _ => rfl, rfl⟩

def footX : List Choice := [.begin 0 (client 0 [go])] ++ runN (.client 0) 100 ++ [.dispatch 0 0 0] ++ runN (.worker 0 0) 100

theorem asks_zero {t : Tid} {u : UCall} (h : Asks t u) : (∃ m, u = .start m ∧ m = 0) ∨ (∃ m ev, u = .fire m ev ∧ m = 0) ∨ ∃ n, u = .note n := by
  unfold Asks at h
  split at h
  · exact .inl ⟨_, rfl, h⟩
  · exact .inr (.inl ⟨_, _, rfl, h⟩)
  · exact .inr (.inr ⟨_, rfl⟩)
  · cases h

theorem note_within (t : Tid) (n : Nat) : Within (Asks t) (noteP n) := by
  refine ⟨?_, fun _ => trivial⟩
  cases t with
  | client i => cases i <;> trivial
  | _ => trivial

theorem obeys_asks {xs : List Choice} (h : ∀ x ∈ xs, x ∈ footX) : Obeys (Demo.env acts) Asks xs := by
  refine ⟨?_, fun _ _ _ _ _ _ => trivial, fun _ _ _ _ => trivial, fun _ _ _ _ _ => trivial, fun _ _ _ _ => trivial, fun _ _ _ _ => trivial, fun _ _ => trivial, ?_⟩
  · intro t k oid a ha ev m
    simp only [Demo.env, acts] at ha
    split at ha
    · simp only [List.mem_cons, List.not_mem_nil, or_false] at ha
      rcases ha with rfl | rfl <;> exact note_within t _
    · simp only [List.mem_cons, List.not_mem_nil, or_false] at ha
      rcases ha with rfl | rfl <;> exact note_within t _
    · cases ha
  · intro n u hu
    have hu := h _ hu
    simp only [footX, runN, List.mem_append, List.mem_cons, List.not_mem_nil, or_false, List.mem_replicate, reduceCtorEq, and_false, Choice.begin.injEq] at hu
    obtain ⟨rfl, rfl⟩ := hu
    exact ⟨rfl, fun _ => ⟨rfl, fun _ => trivial⟩⟩

end Demo

open Demo in
/-- C91: client 0 starts machine 0 and fires an event with a payload, which is copied; the copy is processed. Machine 1 is left alone, and so is the payload of the event. -/
example : ∃ xs c, runs (Demo.env acts) conf7 xs = some c ∧ Obeys (Demo.env acts) Asks xs ∧ (∀ d ∈ history (Demo.env acts) conf7 xs, Licensed (Demo.env acts) Asks d) ∧
    (c.w.mach 0).cur = some B ∧ c.w.nextCopy = 1 ∧ (c.w.mach 1).started = false ∧ c.w.payload go.oid = some 7 := by
  obtain ⟨xs, h1, _, h3⟩ := hist_real (Demo.env acts) conf7 footX
  have ho := obeys_asks h3
  refine ⟨xs, _, h1, ho, C91_licensed ho conf7_initial, by decide +kernel, by decide +kernel, (C91_untouched (m := 1) ho conf7_initial h1 fun t => ?_).1, ?_⟩
  · refine ⟨?_, fun h => ?_, fun ev h => ?_⟩
    · rintro (h | ⟨s, h⟩) <;> rcases asks_zero h with ⟨m, h, h'⟩ | ⟨m, ev, h, h'⟩ | ⟨n, h⟩ <;> cases h
      cases h'
    · rcases asks_zero h with ⟨m, h, h'⟩ | ⟨m, ev, h, h'⟩ | ⟨n, h⟩ <;> cases h
    · rcases asks_zero h with ⟨m, h, h'⟩ | ⟨m, ev, h, h'⟩ | ⟨n, h⟩ <;> cases h
      cases h'
  · rw [C91_payload (o := go.oid) ho conf7_initial h1 (fun n h => by cases h) (fun t v h => by
      rcases asks_zero h with ⟨m, h, h'⟩ | ⟨m, ev, h, h'⟩ | ⟨n, h⟩ <;> cases h)]
    rfl

end Verif
