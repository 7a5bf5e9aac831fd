import Verif.Proofs.Weak
import Verif.Props.DataRaces
/-
Weak memory: a machine that is used with discipline is sequentially consistent.
-/

namespace Verif.Weak
open Verif.Spec.HB Verif.Spec.Weak

variable {env : Env} {M : MId → Prop} [DecidablePred M] {wide : Bool} {m : MId}

/-! ### Another value for a read -/

section
variable {A B : List Did} {t : Tid} {v v' : Option St}

theorem swap_get {i : Nat} {d : Did} (h : (A ++ [.op t (.getCur m) v])[i]? = some d) :
    (A ++ .op t (.getCur m) v' :: B)[i]? = some d ∨ (i = A.length ∧ d = .op t (.getCur m) v) := by
  rcases snoc_get.1 h with h | h
  · exact Or.inl (by rw [List.getElem?_append_left (get_lt h)]; exact h)
  · exact Or.inr h

theorem swap_keep {i : Nat} {d : Did} (h : (A ++ [.op t (.getCur m) v])[i]? = some d) (hd : d ≠ .op t (.getCur m) v) :
    (A ++ .op t (.getCur m) v' :: B)[i]? = some d := (swap_get h).resolve_right fun h' => hd h'.2

theorem swap_back {i j : Nat} {d x : Did} (hj : (A ++ [.op t (.getCur m) v])[j]? = some x) (hij : i < j)
    (h : (A ++ .op t (.getCur m) v' :: B)[i]? = some d) : (A ++ [.op t (.getCur m) v])[i]? = some d := by
  have := get_lt hj
  simp at this
  have hi : i < A.length := by omega
  rw [List.getElem?_append_left hi] at h ⊢
  exact h

theorem swap_sync {i j : Nat} (h : Sync wide (A ++ [.op t (.getCur m) v]) i j) : Sync wide (A ++ .op t (.getCur m) v' :: B) i j := by
  cases h with
  | started hl h1 h2 =>
    exact .started hl (swap_keep h1 (by simp)) (h2.imp (fun ⟨r, h⟩ => ⟨r, swap_keep h (by simp)⟩) (fun ⟨r, h⟩ => ⟨r, swap_keep h (by simp)⟩))
  | ended hl h1 h2 =>
    exact .ended hl (h1.imp (fun h => swap_keep h (by simp)) (fun ⟨s, b, api, h⟩ => ⟨s, b, api, swap_keep h (by simp)⟩))
      (h2.imp (fun ⟨r, h⟩ => ⟨r, swap_keep h (by simp)⟩) (fun ⟨s, b, api, r, h⟩ => ⟨s, b, api, r, swap_keep h (by simp)⟩))
  | queue hl h1 h2 h3 =>
    rcases h2 with h2 | ⟨l, h2, hl'⟩
    · exact .queue hl (swap_keep h1 (by simp)) (Or.inl (swap_keep h2 (by simp))) fun k u hk hk' h => h3 k u hk hk' (swap_back h2 hk' h)
    · exact .queue hl (swap_keep h1 (by simp)) (Or.inr ⟨l, swap_keep h2 (by simp), hl'⟩) fun k u hk hk' h => h3 k u hk hk' (swap_back h2 hk' h)
  | pool hl h1 h2 h3 => exact .pool hl (swap_keep h1 (by simp)) (swap_keep h2 (by simp)) fun k u hk hk' h => h3 k u hk hk' (swap_back h2 hk' h)
  | latch hl h1 h2 => exact .latch hl (swap_keep h1 (by simp)) (swap_keep h2 (by simp))
  | task hw hl h1 h2 => exact .task hw hl (swap_keep h1 (by simp)) (swap_keep h2 (by simp))
  | mem hw hl h1 h2 => exact .mem hw hl (swap_keep h1 (by simp)) (swap_keep h2 (by simp))

theorem swap_hb {i j : Nat} (h : HB wide (A ++ [.op t (.getCur m) v]) i j) : HB wide (A ++ .op t (.getCur m) v' :: B) i j := by
  induction h with
  | @po i j a b hl h1 h2 h3 =>
    have key : ∀ {i : Nat} {d : Did}, (A ++ [.op t (.getCur m) v])[i]? = some d →
        ∃ d', (A ++ .op t (.getCur m) v' :: B)[i]? = some d' ∧ d'.tid = d.tid := by
      intro i d h
      rcases swap_get (v' := v') (B := B) h with h | ⟨rfl, rfl⟩
      · exact ⟨d, h, rfl⟩
      · exact ⟨.op t (.getCur m) v', by simp, rfl⟩
    obtain ⟨a', g1, g2⟩ := key h1
    obtain ⟨b', g3, g4⟩ := key h2
    exact .po hl g1 g3 (g2.trans (h3.trans g4.symm))
  | sync h => exact .sync (swap_sync h)
  | trans _ _ h1 h2 => exact .trans h1 h2

theorem swap_disciplined {W : Tid} (h : Disciplined W m (A ++ .op t (.getCur m) v' :: B)) : Disciplined W m (A ++ [.op t (.getCur m) v]) where
  reads i u r hi := by
    rcases swap_get (v' := v') (B := B) hi with h' | ⟨_, h'⟩
    · exact h.reads i u r h'
    · cases h'
      exact h.reads A.length t v' (by simp)
  stops i u hi := h.stops i u (swap_keep hi (by simp))
  fires i u ev hi := by
    rcases h.fires i u ev (swap_keep hi (by simp)) with h' | ⟨k, hk, h'⟩
    · exact Or.inl h'
    · exact Or.inr ⟨k, hk, h'.imp (fun ⟨w, h'⟩ => ⟨w, swap_back hi hk h'⟩) (fun ⟨s, h'⟩ => ⟨s, swap_back hi hk h'⟩)⟩

end

/-! ### The field contains what has been written last -/

def Last (m : MId) (A : List Did) (o : Option St) : Prop :=
  (o = none ∧ ∀ k s, ¬Writes A m k s) ∨ ∃ j s, o = some s ∧ Writes A m j s ∧ ∀ k s', Writes A m k s' → k ≤ j

theorem writes_snoc {A : List Did} {x : Did} {k : Nat} {s : St} (h : Writes (A ++ [x]) m k s) : Writes A m k s ∨ (k = A.length ∧ ∃ t api, x = .op t (.setCur m s api) ()) := by
  obtain ⟨t, api, h⟩ := h
  rcases snoc_get.1 h with h | ⟨h1, h2⟩
  · exact Or.inl ⟨t, api, h⟩
  · exact Or.inr ⟨h1, t, api, h2.symm⟩

theorem Last.keep {A : List Did} {x : Did} {o : Option St} (h : Last m A o) (hx : ∀ t s api, x ≠ .op t (.setCur m s api) ()) : Last m (A ++ [x]) o := by
  have hw : ∀ k s, Writes (A ++ [x]) m k s → Writes A m k s := fun k s hk => (writes_snoc hk).resolve_right fun ⟨_, t, api, h⟩ => hx t s api h
  rcases h with ⟨h1, h2⟩ | ⟨j, s, h1, ⟨t, api, h2⟩, h3⟩
  · exact Or.inl ⟨h1, fun k s hk => h2 k s (hw k s hk)⟩
  · exact Or.inr ⟨j, s, h1, ⟨t, api, get_snoc h2⟩, fun k s' hk => h3 k s' (hw k s' hk)⟩

theorem exec_cur {t : Tid} {o : Op} {w : World} (h : ∀ s api, o ≠ .setCur m s api) : ((exec t o w).2.mach m).cur = (w.mach m).cur := by
  cases o <;> simp only [exec] <;> (try rfl) <;> (repeat' split) <;> (try rfl) <;> simp only [World.log, fset] <;> split <;> simp_all

theorem last_op {A : List Did} {w : World} {t : Tid} {o : Op} (h : Last m A (w.mach m).cur) :
    Last m (A ++ [.op t o (exec t o w).1]) ((exec t o w).2.mach m).cur := by
  by_cases ho : ∃ s api, o = .setCur m s api
  · obtain ⟨s, api, rfl⟩ := ho
    refine Or.inr ⟨A.length, s, by simp [exec, World.log], ⟨t, api, last_snoc⟩, fun k s' ⟨_, _, hk⟩ => ?_⟩
    have := get_lt hk
    simp at this
    omega
  · rw [exec_cur fun s api hs => ho ⟨s, api, hs⟩]
    refine h.keep fun u s api hx => ?_
    cases hx
    exact ho ⟨s, api, rfl⟩

theorem last_step {A : List Did} {c c' : Conf} {x : Choice} (h : Last m A (c.w.mach m).cur) (hs : Verif.step env c x = some c') :
    Last m (A ++ (Spec.HB.did c x).toList) (c'.w.mach m).cur := by
  cases x with
  | begin n u =>
    simp only [Verif.step] at hs
    split at hs
    · cases hs
    · cases hs; simpa [Spec.HB.did] using h
  | run t =>
    simp only [Verif.step] at hs
    split at hs
    · cases hs
    next p hp =>
      cases p with
      | ret a => cases hs; simpa [Spec.HB.did, hp] using h
      | thr e => cases hs; simpa [Spec.HB.did, hp, World.log] using h
      | op o k =>
        simp only [runThread] at hs
        split at hs
        · cases hs
          simpa [Spec.HB.did, hp] using last_op h
        · cases hs
      | call f k => cases hs; simpa [Spec.HB.did, hp] using h
  | dispatch e i j =>
    simp only [Verif.step] at hs
    split at hs
    · split at hs
      next s m' hn hj =>
        cases hs
        simpa [Spec.HB.did, hj] using h.keep (x := .take (.worker e i) e s m') (fun _ _ _ hx => by cases hx)
      · cases hs
    · cases hs
  | interrupt t => cases hs; simpa [Spec.HB.did] using h
  | shutdown e now => cases hs; cases now <;> simpa [Spec.HB.did, World.dropTasks] using h

/-! ### Sequential consistency -/

theorem runs_append {c c1 c2 : Conf} {xs ys : List Choice} (h1 : Verif.runs env c xs = some c1) (h2 : Verif.runs env c1 ys = some c2) :
    Verif.runs env c (xs ++ ys) = some c2 ∧ Spec.HB.history env c (xs ++ ys) = Spec.HB.history env c xs ++ Spec.HB.history env c1 ys := by
  induction xs generalizing c with
  | nil => cases h1; exact ⟨h2, rfl⟩
  | cons x xs ih =>
    simp only [Verif.runs] at h1
    split at h1
    · cases h1
    next c' hs =>
      obtain ⟨g1, g2⟩ := ih h1
      refine ⟨by simpa [Verif.runs, hs] using g1, ?_⟩
      simp only [List.cons_append, Spec.HB.history, hs, g2, List.append_assoc]

/-- A read that comes after everything in a sequentially consistent execution returns the contents of the field. -/
theorem reads_last {c0 c : Conf} {zs : List Choice} {t : Tid} {v : Option St} {k : Option St → Prog Unit} {B : List Did} (hx : OwnThread env m) (hi : Initial c0)
    (hr : Verif.runs env c0 zs = some c) (hl : Last m (Spec.HB.history env c0 zs) (c.w.mach m).cur) (hp : c.thr t = some (.op (.getCur m) k))
    (hd : Disciplined (env.workerOf m) m (Spec.HB.history env c0 zs ++ .op t (.getCur m) v :: B))
    (hj : Justified false true m (Spec.HB.history env c0 zs ++ .op t (.getCur m) v :: B)) : v = (c.w.mach m).cur := by
  have hs : Verif.step env c (.run t) = some ⟨c.w, fset c.thr t (some (k (c.w.mach m).cur))⟩ := by
    simp [Verif.step, hp, runThread, enabled, exec]
  obtain ⟨h1, h2⟩ := runs_append hr (show Verif.runs env c [.run t] = some ⟨c.w, fset c.thr t (some (k (c.w.mach m).cur))⟩ by simp only [Verif.runs, hs])
  have h3 : Spec.HB.history env c [.run t] = [.op t (.getCur m) (c.w.mach m).cur] := by
    simp only [Spec.HB.history, hs, Spec.HB.did, hp]
    rfl
  rw [h3] at h2
  have hrf := C62_current_state hx hi h1 (by rw [h2]; exact swap_disciplined hd)
  rw [h2] at hrf
  generalize hA : Spec.HB.history env c0 zs = A at *
  have hb : ∀ k s, Writes A m k s → HB false (A ++ .op t (.getCur m) v :: B) k A.length := fun k s ⟨u, api, hk⟩ =>
    swap_hb (hrf k A.length _ _ (get_lt hk) (get_snoc hk) last_snoc (Or.inr rfl) (Or.inl rfl) (Or.inl rfl))
  have hup : ∀ k s, Writes A m k s → Writes (A ++ .op t (.getCur m) v :: B) m k s := fun k s ⟨u, api, hk⟩ =>
    ⟨u, api, by rw [List.getElem?_append_left (get_lt hk)]; exact hk⟩
  rcases hj A.length t v (by simp) with ⟨rfl, h⟩ | ⟨j, s, rfl, hw, hsees, hlt⟩
  · rcases hl with ⟨h1, _⟩ | ⟨j, s, _, hw, _⟩
    · exact h1.symm
    · exact absurd (hb j s hw) (h j s (hup j s hw))
  · have hja : j < A.length := hlt rfl
    obtain ⟨u, api, hw⟩ := hw
    rw [List.getElem?_append_left hja] at hw
    rcases hl with ⟨_, h2⟩ | ⟨j', s', h1, ⟨u', api', hw'⟩, h3⟩
    · exact absurd ⟨u, api, hw⟩ (h2 j s)
    · have hle := h3 j s ⟨u, api, hw⟩
      rcases Nat.lt_or_ge j j' with hlt' | hge
      · have := swap_hb (v' := some s) (B := B) (hrf j j' _ _ hlt' (get_snoc hw) (get_snoc hw') (Or.inr rfl) (Or.inr rfl) (Or.inl rfl))
        exact absurd (hb j' s' ⟨u', api', hw'⟩) (hsees.2 j' s' (hup j' s' ⟨u', api', hw'⟩) this)
      · obtain rfl : j = j' := by omega
        rw [hw] at hw'
        cases hw'
        exact h1.symm

theorem sequential {c0 c c' : Conf} {zs : List Choice} {xs : List WChoice} (hi : Initial c0) (hr : Verif.runs env c0 zs = some c)
    (hl : ∀ m, Last m (Spec.HB.history env c0 zs) (c.w.mach m).cur) (hw : Weak.runs env M c xs = some c')
    (hM : ∀ m, M m → OwnThread env m ∧ Disciplined (env.workerOf m) m (Spec.HB.history env c0 zs ++ Spec.Weak.history env M c xs) ∧
      Justified false true m (Spec.HB.history env c0 zs ++ Spec.Weak.history env M c xs)) :
    ∃ ys, Verif.runs env c ys = some c' ∧ Spec.HB.history env c ys = Spec.Weak.history env M c xs := by
  induction xs generalizing c zs with
  | nil => cases hw; exact ⟨[], rfl, rfl⟩
  | cons x xs ih =>
    simp only [Weak.runs] at hw
    split at hw
    · cases hw
    next c1 h1 =>
      have hh : Spec.Weak.history env M c (x :: xs) = (Spec.Weak.did c x).toList ++ Spec.Weak.history env M c1 xs := by simp only [Spec.Weak.history, h1]
      -- the step is a step of the scheduler
      have key : ∃ y, Verif.step env c y = some c1 ∧ Spec.HB.did c y = Spec.Weak.did c x := by
        cases x with
        | sched y => exact ⟨y, h1, rfl⟩
        | read t v =>
          have h1' := h1
          simp only [Weak.step] at h1
          split at h1
          next m k hp =>
            split at h1
            next hm =>
              cases h1
              have hdid : Spec.Weak.did c (.read t v) = some (.op t (.getCur m) v) := by simp [Spec.Weak.did, hp]
              obtain ⟨g1, g2, g3⟩ := hM m hm
              rw [hh, hdid] at g2 g3
              have hv := reads_last g1 hi hr (hl m) hp g2 g3
              subst hv
              refine ⟨.run t, ?_, ?_⟩
              · simp [Verif.step, hp, runThread, enabled, exec]
              · rw [hdid]; simp [Spec.HB.did, hp, exec]
            · cases h1
          · cases h1
      obtain ⟨y, hy, hd⟩ := key
      obtain ⟨r1, r2⟩ := runs_append hr (show Verif.runs env c [y] = some c1 by simp only [Verif.runs, hy])
      have h3 : Spec.HB.history env c [y] = (Spec.HB.did c y).toList := by simp only [Spec.HB.history, hy, List.append_nil]
      have h4 : Spec.HB.history env c0 (zs ++ [y]) ++ Spec.Weak.history env M c1 xs = Spec.HB.history env c0 zs ++ Spec.Weak.history env M c (x :: xs) := by
        rw [r2, h3, hd, hh, List.append_assoc]
      obtain ⟨ys, g1, g2⟩ := ih r1 (fun m => by rw [r2, h3]; exact last_step (hl m) hy) hw (fun m hm => by rw [h4]; exact hM m hm)
      refine ⟨y :: ys, by simp only [Verif.runs, hy, g1], ?_⟩
      rw [hh, ← hd, ← g2]
      simp only [Spec.HB.history, hy]

/-! ### Sequentially consistent reads are allowed -/

/-- Every read returns what has been written last before it. -/
def Fresh (m : MId) (A : List Did) : Prop := ∀ (i : Nat) t v, A[i]? = some (.op t (.getCur m) v) → Last m (A.take i) v

theorem Fresh.snoc {A : List Did} {x : Did} (h : Fresh m A) (hx : ∀ t v, x = .op t (.getCur m) v → Last m A v) : Fresh m (A ++ [x]) := by
  intro i t v hi
  rcases snoc_get.1 hi with hi | ⟨rfl, hi⟩
  · rw [List.take_append_of_le_length (Nat.le_of_lt (get_lt hi))]
    exact h i t v hi
  · rw [List.take_append_of_le_length (Nat.le_refl _), List.take_length]
    exact hx t v (by simpa using hi)

theorem did_read {c : Conf} {x : Choice} {t : Tid} {v : Option St} (h : Spec.HB.did c x = some (.op t (.getCur m) v)) : v = (c.w.mach m).cur := by
  cases x with
  | run u =>
    simp only [Spec.HB.did] at h
    split at h
    · cases h; rfl
    · cases h
  | dispatch e i j =>
    simp only [Spec.HB.did] at h
    split at h <;> cases h
  | begin n u => cases h
  | interrupt t => cases h
  | shutdown e now => cases h

theorem fresh_runs {A : List Did} {c c' : Conf} {xs : List Choice} (hf : Fresh m A) (hl : Last m A (c.w.mach m).cur) (hr : Verif.runs env c xs = some c') :
    Fresh m (A ++ Spec.HB.history env c xs) := by
  induction xs generalizing A c with
  | nil => simpa [Spec.HB.history] using hf
  | cons x xs ih =>
    simp only [Verif.runs] at hr
    split at hr
    · cases hr
    next c1 hs =>
      simp only [Spec.HB.history, hs]
      rw [← List.append_assoc]
      refine ih ?_ (last_step hl hs) hr
      cases hd : Spec.HB.did c x with
      | none => simpa using hf
      | some d =>
        simp only [Option.toList]
        refine hf.snoc fun t v hx => ?_
        subst hx
        rw [did_read hd]
        exact hl

theorem writes_take {A : List Did} {i k : Nat} {s : St} : Writes (A.take i) m k s ↔ k < i ∧ Writes A m k s := by
  constructor
  · rintro ⟨t, api, h⟩
    have h1 := get_lt h
    rw [List.length_take] at h1
    have h2 : k < i := by omega
    rw [List.getElem?_take_of_lt h2] at h
    exact ⟨h2, t, api, h⟩
  · rintro ⟨h1, t, api, h2⟩
    exact ⟨t, api, by rw [List.getElem?_take_of_lt h1]; exact h2⟩

theorem Fresh.justified {A : List Did} (h : Fresh m A) : Justified wide true m A := by
  intro i t v hi
  rcases h i t v hi with ⟨h1, h2⟩ | ⟨j, s, h1, h2, h3⟩
  · exact Or.inl ⟨h1, fun k s hk hb => h2 k s (writes_take.2 ⟨HB.lt hb, hk⟩)⟩
  · obtain ⟨h4, h5⟩ := writes_take.1 h2
    refine Or.inr ⟨j, s, h1, h5, ⟨fun hb => ?_, fun k s' hk hjk hki => ?_⟩, fun _ => h4⟩
    · have := HB.lt hb; omega
    · have h6 := h3 k s' (writes_take.2 ⟨HB.lt hki, hk⟩)
      have := HB.lt hjk; omega

theorem last_initial {c : Conf} (h : (c.w.mach m).cur = none) : Last m [] (c.w.mach m).cur := Or.inl ⟨h, fun k s ⟨t, api, hk⟩ => by simp at hk⟩

end Verif.Weak
