import Verif.Proofs.Own
import Verif.Spec.Calls
/-
What every operation writes to the history, and that the memory can be reconstructed from the history.
-/

namespace Verif
open Spec.Calls (Mem)

/-- The history entry written by an operation, if any. -/
def opObs (o : Op) (w : World) : Option Obs :=
  match o with
  | .casStarted m => if (w.mach m).started then none else some (.started m)
  | .clearEnded m => some (.cleared m)
  | .casEnded m s b api => if (w.mach m).ended then none else some (.upd m s b api)
  | .setCur m s api => some (.cur m s api)
  | .notify m c => if (w.mach m).listener.isSome then some (.cb c) else none
  | .setListener m l => some (.listener m l)
  | .offer q p => (w.pair p).map fun x => .accepted q x.2 x.1
  | .poll q => match w.queue q with
    | [] => none
    | p :: _ => (w.pair p).map fun x => .taken q x.2 x.1
  | .poolGive _ p => (w.pair p).map fun x => .done x.2 x.1
  | .setPayload o v => some (.payload o v)
  | .newCopy ev => some (.copied w.nextCopy ev (w.payload ev.oid))
  | .submit e s m => if w.shut e then some (.rejected s m) else some (.submitted s m)
  | .emit o => some o
  | .countDown n => some (.latch n)
  | _ => none

theorem exec_trace (t : Tid) (o : Op) (w : World) :
    (exec t o w).2.trace = w.trace ++ ((opObs o w).map fun x => (t, x)).toList := by
  cases o <;> simp only [exec, opObs] <;> (repeat' split) <;>
    simp_all [World.log]

/-- History entries without an effect on the memory. -/
def neutral : Obs → Bool
  | .enter _ | .leave .. | .cb _ | .cbRet .. | .dropped .. | .user _ => true
  | _ => false

/-- Side conditions on operations that hold in every execution. -/
def OpOk (w : World) : Op → Prop
  | .emit x => neutral x = true
  | .setPair p _ _ => ∀ q, p ∉ w.queue q
  | .offer _ p => (w.pair p).isSome = true
  | .poll q => ∀ p ∈ w.queue q, (w.pair p).isSome = true
  | _ => True

theorem opOk_of_lmove {env : Env} {lst : Tid → List Frame} {w : World} {t : Tid} {o : Op} {l' : List Frame}
    (h : Own env lst w) (hm : LMove env w (lst t) o l') : OpOk w o := by
  obtain ⟨loc, h⟩ := h
  have hpoll : ∀ q, ∀ p ∈ w.queue q, (w.pair p).isSome = true := by
    intro q p hp
    obtain ⟨ev, m, hpr, _⟩ := h.full q p hp
    simp [hpr]
  generalize hl : lst t = l at hm
  cases hm with
  | enter _ => rfl
  | leave _ => rfl
  | user _ hu => unfold userOp at hu; split at hu <;> first | trivial | rfl | exact hu.elim
  | @frame f f' rest o hm =>
    have hnq : ∀ p, f.owned = [p] → ∀ q, p ∉ w.queue q := by
      intro p ho q hq
      have := (h.top hl ho).1
      rw [h.q, this] at hq; cases hq
    have hfact : f.fact env w.pair := h.fact t f (by rw [hl]; simp)
    cases hm with
    | fSetRaw => exact hnq _ rfl
    | fSetCopied => exact hnq _ rfl
    | fOffer => simp only [Frame.fact] at hfact; simp [OpOk, hfact]
    | stPh _ _ ha => cases phAllowed_op ha <;> first | trivial | rfl
    | drPh ha => cases phAllowed_op ha <;> first | trivial | rfl
    | drPoll0 _ => exact hpoll _
    | drPollBad _ _ => exact hpoll _
    | drPoll _ _ => exact hpoll _
    | _ => first | trivial | rfl

/-- The events in a queue. -/
def World.evs (w : World) (q : QId) : List Ev := ((w.queue q).filterMap w.pair).map Prod.fst

structure MemRel (w : World) (mem : Mem) : Prop where
  started : ∀ m, mem.started m = (w.mach m).started
  ended : ∀ m, mem.ended m = (w.mach m).ended
  lst : ∀ m, mem.lst m = (w.mach m).listener.isSome
  pay : mem.pay = w.payload
  waiting : ∀ q, mem.waiting q = w.evs q
  tk : ∀ q, mem.tk q ≤ (mem.acc q).length
  copies : mem.copies = w.nextCopy

/-- How the memory can change. -/
structure Evo (w : World) (mem : Mem) (w' : World) (mem' : Mem) : Prop where
  started : ∀ m, (w.mach m).started = true → (w'.mach m).started = true
  acc : ∀ q, ∃ x, mem'.acc q = mem.acc q ++ x
  tk : ∀ q, mem.tk q ≤ mem'.tk q
  pos : ∀ q i p, i + mem'.tk q < (mem.acc q).length → (w'.queue q)[i]? = some p →
    w'.pair p = w.pair p ∧ ∃ j, j + mem.tk q = i + mem'.tk q ∧ (w.queue q)[j]? = some p

theorem Evo.same {w w' : World} {mem mem' : Mem} (h1 : ∀ m, (w.mach m).started = true → (w'.mach m).started = true)
    (h2 : mem'.acc = mem.acc) (h3 : mem'.tk = mem.tk) (h4 : w'.queue = w.queue)
    (h5 : ∀ q, ∀ p ∈ w.queue q, w'.pair p = w.pair p) : Evo w mem w' mem' where
  started := h1
  acc := fun q => ⟨[], by rw [h2]; simp⟩
  tk := fun q => by rw [h3]; exact Nat.le_refl _
  pos := by
    intro q i p _ hp
    rw [h4] at hp
    exact ⟨h5 q p (List.mem_of_getElem? hp), i, by rw [h3], hp⟩

theorem evs_length {w : World} {q : QId} (h : ∀ p ∈ w.queue q, (w.pair p).isSome = true) :
    (w.evs q).length = (w.queue q).length := by
  unfold World.evs
  generalize w.queue q = l at h
  rw [List.length_map]
  induction l with
  | nil => rfl
  | cons a l ih =>
    obtain ⟨x, hx⟩ := Option.isSome_iff_exists.1 (h a (by simp))
    simp [hx, ih (fun p hp => h p (by simp [hp]))]

theorem MemRel.len {w : World} {mem : Mem} (h : MemRel w mem) {q : QId} (hq : ∀ p ∈ w.queue q, (w.pair p).isSome = true) :
    (mem.acc q).length = mem.tk q + (w.queue q).length := by
  have h1 := congrArg List.length (h.waiting q)
  rw [evs_length hq, Mem.waiting, List.length_drop] at h1
  have := h.tk q
  omega

theorem filterMap_pair_congr {l : List PairId} {f g : PairId → Option (Ev × MId)} (h : ∀ p ∈ l, g p = f p) :
    l.filterMap g = l.filterMap f := by
  induction l with
  | nil => rfl
  | cons a l ih =>
    simp only [List.filterMap_cons, h a List.mem_cons_self, ih (fun p hp => h p (List.mem_cons_of_mem _ hp))]

/-- `mem'` is the memory after the entry. -/
def memAfter (mem : Mem) : Option Obs → Mem
  | none => mem
  | some x => mem.step x

theorem mem_neutral {x : Obs} (h : neutral x = true) (mem : Mem) : mem.step x = mem ∧ mem.legal x = true := by
  cases x <;> first | exact ⟨rfl, rfl⟩ | cases h

/-- Reconstruction of the memory, one operation. -/
theorem mem_exec {w : World} {mem : Mem} {t : Tid} {o : Op} (h : MemRel w mem) (ho : OpOk w o)
    (hall : ∀ q, ∀ p ∈ w.queue q, (w.pair p).isSome = true) :
    (∀ x, opObs o w = some x → mem.legal x = true) ∧
    MemRel (exec t o w).2 (memAfter mem (opObs o w)) ∧
    Evo w mem (exec t o w).2 (memAfter mem (opObs o w)) := by
  have same : ∀ w' : World, w'.mach = w.mach → w'.payload = w.payload → w'.queue = w.queue → w'.pair = w.pair →
      w'.nextCopy = w.nextCopy → MemRel w' mem ∧ Evo w mem w' mem := by
    intro w' h1 h2 h3 h4 h5
    refine ⟨⟨?_, ?_, ?_, ?_, ?_, h.tk, ?_⟩, Evo.same ?_ rfl rfl h3 ?_⟩
    · rw [h1]; exact h.started
    · rw [h1]; exact h.ended
    · rw [h1]; exact h.lst
    · rw [h2]; exact h.pay
    · intro q; rw [h.waiting q]; simp only [World.evs, h3, h4]
    · rw [h5]; exact h.copies
    · rw [h1]; exact fun _ h => h
    · rw [h4]; intros; rfl
  cases o with
  | emit x =>
    obtain ⟨h1, h2⟩ := mem_neutral ho mem
    refine ⟨?_, ?_⟩
    · intro y hy; cases hy; exact h2
    · simp only [opObs, memAfter, h1]
      exact same _ rfl rfl rfl rfl rfl
  | casStarted m =>
    simp only [opObs, exec]
    by_cases hs : (w.mach m).started = true
    · simp only [hs, if_true, memAfter]
      exact ⟨fun x hx => by simp at hx, same w rfl rfl rfl rfl rfl⟩
    · simp only [hs, if_false, memAfter, Bool.false_eq_true]
      refine ⟨?_, ?_, ?_⟩
      · intro x hx
        cases hx
        simp only [Mem.legal, h.started]
        simpa using hs
      · refine ⟨?_, ?_, ?_, h.pay, h.waiting, h.tk, h.copies⟩
        · intro m'
          simp only [Mem.step, World.log, fset]
          split
          · rfl
          · exact h.started m'
        · intro m'
          simp only [Mem.step, World.log, fset]
          split
          · rename_i he; subst he; exact h.ended m'
          · exact h.ended m'
        · intro m'
          simp only [Mem.step, World.log, fset]
          split
          · rename_i he; subst he; exact h.lst m'
          · exact h.lst m'
      · refine Evo.same ?_ rfl rfl rfl (fun _ _ _ => rfl)
        intro m' hm'
        simp only [World.log, fset]
        split
        · rfl
        · exact hm'
  | clearEnded m =>
    simp only [opObs, exec, memAfter]
    refine ⟨fun x hx => by cases hx; rfl, ?_, ?_⟩
    · refine ⟨?_, ?_, ?_, h.pay, h.waiting, h.tk, h.copies⟩ <;>
      · intro m'
        simp only [Mem.step, World.log, fset]
        split
        · rename_i he; subst he
          first | rfl | exact h.started m' | exact h.lst m'
        · first | exact h.started m' | exact h.ended m' | exact h.lst m'
    · refine Evo.same ?_ rfl rfl rfl (fun _ _ _ => rfl)
      intro m' hm'
      simp only [World.log, fset]
      split
      · rename_i he; subst he; exact hm'
      · exact hm'
  | casEnded m s b api =>
    simp only [opObs, exec]
    by_cases hs : (w.mach m).ended = true
    · simp only [hs, if_true, memAfter]
      exact ⟨fun x hx => by simp at hx, same w rfl rfl rfl rfl rfl⟩
    · simp only [hs, if_false, memAfter, Bool.false_eq_true]
      refine ⟨?_, ?_, ?_⟩
      · intro x hx
        cases hx
        simp only [Mem.legal, h.ended]
        simpa using hs
      · refine ⟨?_, ?_, ?_, h.pay, h.waiting, h.tk, h.copies⟩ <;>
        · intro m'
          simp only [Mem.step, World.log, fset]
          split
          · rename_i he; subst he
            first | rfl | exact h.started m' | exact h.lst m'
          · first | exact h.started m' | exact h.ended m' | exact h.lst m'
      · refine Evo.same ?_ rfl rfl rfl (fun _ _ _ => rfl)
        intro m' hm'
        simp only [World.log, fset]
        split
        · rename_i he; subst he; exact hm'
        · exact hm'
  | setCur m s api =>
    simp only [opObs, exec, memAfter]
    refine ⟨fun x hx => by cases hx; rfl, ?_, ?_⟩
    · refine ⟨?_, ?_, ?_, h.pay, h.waiting, h.tk, h.copies⟩ <;>
      · intro m'
        simp only [Mem.step, World.log, fset]
        split
        · rename_i he; subst he
          first | exact h.started m' | exact h.ended m' | exact h.lst m'
        · first | exact h.started m' | exact h.ended m' | exact h.lst m'
    · refine Evo.same ?_ rfl rfl rfl (fun _ _ _ => rfl)
      intro m' hm'
      simp only [World.log, fset]
      split
      · rename_i he; subst he; exact hm'
      · exact hm'
  | setListener m l =>
    simp only [opObs, exec, memAfter]
    refine ⟨fun x hx => by cases hx; rfl, ?_, ?_⟩
    · refine ⟨?_, ?_, ?_, h.pay, h.waiting, h.tk, h.copies⟩ <;>
      · intro m'
        simp only [Mem.step, World.log, fset]
        split
        · rename_i he; subst he
          first | rfl | exact h.started m' | exact h.ended m'
        · first | exact h.started m' | exact h.ended m' | exact h.lst m'
    · refine Evo.same ?_ rfl rfl rfl (fun _ _ _ => rfl)
      intro m' hm'
      simp only [World.log, fset]
      split
      · rename_i he; subst he; exact hm'
      · exact hm'
  | notify m c =>
    simp only [opObs, exec]
    cases hl : (w.mach m).listener with
    | none =>
      simp only [Option.isSome_none, Bool.false_eq_true, if_false, memAfter]
      exact ⟨fun x hx => by simp at hx, same w rfl rfl rfl rfl rfl⟩
    | some l =>
      simp only [Option.isSome_some, if_true, memAfter]
      exact ⟨fun x hx => by cases hx; rfl, same _ rfl rfl rfl rfl rfl⟩
  | submit e s m =>
    simp only [opObs, exec]
    split
    · simp only [memAfter]
      exact ⟨fun x hx => by cases hx; rfl, same _ rfl rfl rfl rfl rfl⟩
    · simp only [memAfter]
      exact ⟨fun x hx => by cases hx; rfl, same _ rfl rfl rfl rfl rfl⟩
  | countDown n =>
    simp only [opObs, exec, memAfter]
    exact ⟨fun x hx => by cases hx; rfl, same _ rfl rfl rfl rfl rfl⟩
  | poolTake s =>
    simp only [opObs, exec, memAfter]
    refine ⟨fun x hx => (by cases hx), ?_⟩
    split <;> exact same _ rfl rfl rfl rfl rfl
  | poolGive s p =>
    simp only [opObs, exec]
    cases hp : w.pair p with
    | none =>
      exact ⟨fun x hx => (by cases hx), same _ rfl rfl rfl rfl rfl⟩
    | some v =>
      refine ⟨fun x hx => (by cases hx; rfl), ?_⟩
      exact same _ rfl rfl rfl rfl rfl
  | setPair p ev m =>
    simp only [opObs, exec, memAfter]
    refine ⟨fun x hx => (by cases hx), ⟨h.started, h.ended, h.lst, h.pay, ?_, h.tk, h.copies⟩, ?_⟩
    · intro q
      rw [h.waiting q]
      simp only [World.evs]
      rw [filterMap_pair_congr (f := fset w.pair p (some (ev, m))) (g := w.pair)]
      intro p' hp'
      rw [fset_ne]
      rintro rfl; exact ho q hp'
    · refine Evo.same (fun _ h => h) rfl rfl rfl ?_
      intro q p' hp'
      simp only
      rw [fset_ne]
      rintro rfl; exact ho q hp'
  | setPayload o v =>
    simp only [opObs, exec, memAfter]
    refine ⟨fun x hx => (by cases hx; rfl), ⟨h.started, h.ended, h.lst, ?_, h.waiting, h.tk, h.copies⟩, ?_⟩
    · simp only [Mem.step, World.log, h.pay]
    · exact Evo.same (fun _ h => h) rfl rfl rfl (fun _ _ _ => rfl)
  | newCopy ev =>
    simp only [opObs, exec, memAfter]
    refine ⟨fun x hx => (by cases hx; rfl), ⟨h.started, h.ended, h.lst, ?_, h.waiting, h.tk, ?_⟩, ?_⟩
    · simp only [Mem.step, World.log, h.pay]
    · simp only [Mem.step, World.log, h.copies]
    · exact Evo.same (fun _ h => h) rfl rfl rfl (fun _ _ _ => rfl)
  | offer q p =>
    obtain ⟨⟨ev, m⟩, hp⟩ := Option.isSome_iff_exists.1 (show (w.pair p).isSome = true from ho)
    simp only [opObs, exec, hp, Option.map_some, memAfter]
    have hlen := h.len (hall q)
    refine ⟨fun x hx => (by cases hx; rfl), ⟨h.started, h.ended, h.lst, h.pay, ?_, ?_, h.copies⟩, ⟨fun _ h => h, ?_, ?_, ?_⟩⟩
    · intro q'
      have hw := h.waiting q'
      simp only [Mem.waiting, World.evs, Mem.step, World.log] at hw ⊢
      by_cases hq : q' = q
      · subst hq
        simp only [fset_same, List.filterMap_append, List.map_append]
        rw [List.drop_append_of_le_length (h.tk q'), hw]
        simp [hp]
      · simp only [fset_ne _ _ hq]; exact hw
    · intro q'
      simp only [Mem.step]
      by_cases hq : q' = q
      · subst hq; simp only [fset_same, List.length_append]; have := h.tk q'; omega
      · simp only [fset_ne _ _ hq]; exact h.tk q'
    · intro q'
      simp only [Mem.step]
      by_cases hq : q' = q
      · subst hq; simp only [fset_same]; exact ⟨_, rfl⟩
      · simp only [fset_ne _ _ hq]; exact ⟨[], by simp⟩
    · intro q'; exact Nat.le_refl _
    · intro q' i p' hi hp'
      simp only [Mem.step, World.log] at hi hp' ⊢
      refine ⟨trivial, i, rfl, ?_⟩
      by_cases hq : q' = q
      · subst hq
        simp only [fset_same] at hp'
        rw [List.getElem?_append_left (by omega)] at hp'
        exact hp'
      · simp only [fset_ne _ _ hq] at hp'; exact hp'
  | poll q =>
    simp only [opObs, exec]
    cases hq : w.queue q with
    | nil => exact ⟨fun x hx => (by cases hx), same w rfl rfl rfl rfl rfl⟩
    | cons p ps =>
      obtain ⟨⟨ev, m⟩, hp⟩ := Option.isSome_iff_exists.1 (hall q p (by rw [hq]; simp))
      have hw := h.waiting q
      simp only [World.evs, hq, List.filterMap_cons, hp, List.map_cons] at hw
      have hlen := h.len (hall q)
      rw [hq] at hlen
      simp only [List.length_cons] at hlen
      simp only [hp, Option.map_some, memAfter]
      refine ⟨?_, ⟨h.started, h.ended, h.lst, h.pay, ?_, ?_, h.copies⟩, ⟨fun _ h => h, ?_, ?_, ?_⟩⟩
      · intro x hx; cases hx
        simp [Mem.legal, hw]
      · intro q'
        have hw' := h.waiting q'
        simp only [Mem.waiting, World.evs, Mem.step, World.log] at hw hw' ⊢
        by_cases hq' : q' = q
        · subst hq'
          simp only [fset_same]
          rw [← List.drop_drop, hw]; rfl
        · simp only [fset_ne _ _ hq']; exact hw'
      · intro q'
        simp only [Mem.step]
        by_cases hq' : q' = q
        · subst hq'; simp only [fset_same]; omega
        · simp only [fset_ne _ _ hq']; exact h.tk q'
      · intro q'; exact ⟨[], by simp [Mem.step]⟩
      · intro q'
        simp only [Mem.step]
        by_cases hq' : q' = q
        · subst hq'; simp only [fset_same]; omega
        · simp only [fset_ne _ _ hq']; exact Nat.le_refl _
      · intro q' i p' hi hp'
        simp only [Mem.step, World.log] at hi hp' ⊢
        by_cases hq' : q' = q
        · subst hq'
          simp only [fset_same] at hp' hi ⊢
          refine ⟨trivial, i + 1, by omega, ?_⟩
          rw [hq]; simpa using hp'
        · simp only [fset_ne _ _ hq'] at hp' ⊢
          exact ⟨trivial, i, rfl, hp'⟩
  | await n =>
    simp only [opObs, exec, memAfter]
    refine ⟨fun x hx => (by cases hx), ?_⟩
    split <;> exact same _ rfl rfl rfl rfl rfl
  | _ => exact ⟨fun x hx => (by cases hx), same _ rfl rfl rfl rfl rfl⟩

/-- Listeners change only when the history says so. -/
theorem listener_exec {w : World} {t : Tid} {o : Op} (m : MId) (h : ∀ l, opObs o w ≠ some (.listener m l)) :
    ((exec t o w).2.mach m).listener = (w.mach m).listener := by
  cases o with
  | setListener m' l =>
    simp only [exec, World.log]
    rw [fset_ne]
    rintro rfl; exact h l rfl
  | _ =>
    first
      | rfl
      | (simp only [exec]; done)
      | (simp only [exec]; (repeat' split) <;> first | rfl | (simp only [World.log, fset]; split <;> first | rfl | (rename_i he; subst he; rfl)))

end Verif
