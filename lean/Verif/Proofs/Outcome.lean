import Verif.Proofs.Processing
/-
The possible behaviours of an event, spelled out for each kind of event.
-/

namespace Verif
open Spec (Item Desc shows shown Behaves Report Transition Notify)
open Spec.Mon

@[simp] theorem shown_nil : shown [] = [] := rfl
@[simp] theorem shown_cons (c : Cb) (cs : List Cb) : shown (c :: cs) = .cb c :: .cbRet c none :: shown cs := rfl
@[simp] theorem shown_append (a b : List Cb) : shown (a ++ b) = shown a ++ shown b := by simp [shown]

theorem shows_cbs (m : MId) (e : Bool) (cs : List Cb) (pl : List Item) :
    shows m e (cs.map Item.cb ++ pl) = shown cs ++ shows m e pl := by
  induction cs with
  | nil => rfl
  | cons c cs ih => simp [shows, ih]

/-- Where in a list of callbacks an exception happened. -/
theorem shown_split {L : List Cb} {R a b : List Obs} {c : Cb} (h : shown L ++ R = a ++ .cb c :: .cbRet c none :: b) :
    (∃ cs cs', L = cs ++ c :: cs' ∧ a = shown cs ∧ b = shown cs' ++ R) ∨
    (∃ a', a = shown L ++ a' ∧ R = a' ++ .cb c :: .cbRet c none :: b) := by
  induction L generalizing a with
  | nil => exact Or.inr ⟨a, rfl, h⟩
  | cons c' L ih =>
    cases a with
    | nil =>
      simp at h
      obtain ⟨rfl, h⟩ := h
      exact Or.inl ⟨[], L, rfl, rfl, h.symm⟩
    | cons o a =>
      simp at h
      obtain ⟨rfl, h⟩ := h
      cases a with
      | nil => simp at h
      | cons o' a =>
        simp at h
        obtain ⟨rfl, h⟩ := h
        rcases ih h with ⟨cs, cs', rfl, rfl, rfl⟩ | ⟨a', rfl, rfl⟩
        · exact Or.inl ⟨c' :: cs, cs', rfl, rfl, rfl⟩
        · exact Or.inr ⟨a', by simp, rfl⟩

section
variable (d : Desc) (lst : Bool) (a : St) (ev : Ev) (b : St)

theorem note_map (c : Cb) : Spec.note lst c = (if lst then [c] else []).map Item.cb := by cases lst <;> rfl

theorem actions_map (k : Kind) (s : St) :
    d.actions k s ev 0 (d.nacts k s.oid) = ((List.range (d.nacts k s.oid)).map fun i => Cb.action d.m k s.oid i ev).map Item.cb := by
  simp [Desc.actions, List.range_eq_range', Function.comp_def]

/-- What the history shows for a transition. -/
theorem shows_transition (pl : List Item) (hpl : pl = Spec.note lst (.begin d.m a ev b) ++ d.actions .exit a ev 0 (d.nacts .exit a.oid) ++
        [.upd b (b.name == Verif.resEnd), .cur b] ++
        d.actions .entry b ev 0 (d.nacts .entry b.oid) ++ Spec.note lst (.end_ d.m a ev b) ++
        (if d.final b then [.halt d.endSt, .cur d.endSt] else [])) :
    shows d.m false pl = shown (d.before lst a ev b) ++ d.change b ++ shown (d.afterwards lst a ev b) ++ d.ending b := by
  subst hpl
  rw [note_map, note_map, actions_map, actions_map]
  have h1 : ∀ X : List Item, List.map Item.cb (if lst then [Cb.begin d.m a ev b] else []) ++
      List.map Item.cb ((List.range (d.nacts .exit a.oid)).map fun i => Cb.action d.m .exit a.oid i ev) ++ X =
      (d.before lst a ev b).map Item.cb ++ X := by
    intro X; simp [Desc.before]
  have h2 : ∀ X : List Item, List.map Item.cb ((List.range (d.nacts .entry b.oid)).map fun i => Cb.action d.m .entry b.oid i ev) ++
      (List.map Item.cb (if lst then [Cb.end_ d.m a ev b] else []) ++ X) = (d.afterwards lst a ev b).map Item.cb ++ X := by
    intro X; simp [Desc.afterwards]
  simp only [List.append_assoc] at h1 ⊢
  rw [h1, shows_cbs]
  simp only [List.cons_append, List.nil_append]
  rw [h2]
  simp only [shows]
  rw [shows_cbs]
  simp only [Desc.change, Desc.ending]
  by_cases hf : d.final b = true
  · by_cases hn : b.name = Verif.resEnd
    · simp [hf, hn, shows]
    · simp [hf, hn, shows]
  · simp [hf, shows]

variable {d lst a ev b}

theorem no_cb_change {a' : List Obs} {c : Cb} {b' R : List Obs} (h : d.change b ++ R = a' ++ .cb c :: .cbRet c none :: b') :
    ∃ a'', a' = d.change b ++ a'' ∧ R = a'' ++ .cb c :: .cbRet c none :: b' := by
  simp only [Desc.change, List.cons_append, List.nil_append] at h ⊢
  cases a' with
  | nil => simp at h
  | cons o a' =>
    cases a' with
    | nil => simp at h
    | cons o' a' =>
      simp at h
      obtain ⟨rfl, rfl, h⟩ := h
      exact ⟨a', rfl, h⟩

theorem no_cb_ending {a' : List Obs} {c : Cb} {b' : List Obs} (h : d.ending b = a' ++ .cb c :: .cbRet c none :: b') : False := by
  have : Obs.cb c ∈ d.ending b := by rw [h]; simp
  simp only [Desc.ending] at this
  split at this <;> simp at this

/-- An event with a configured transition. -/
theorem behaves_transition {row : Row} {os : List Obs} {r : Option Exc}
    (h : Behaves d.m ev (d.plan lst (some a) ev) os r) (hrow : d.table.row? (some a) = some row)
    (htgt : row.target (some ev.key) = some b) (hb : b.name ≠ resNoop) : Transition d lst a ev b os r := by
  have hs : shows d.m false (d.plan lst (some a) ev) =
      shown (d.before lst a ev b) ++ d.change b ++ shown (d.afterwards lst a ev b) ++ d.ending b := by
    apply shows_transition
    simp only [Desc.plan, hrow, htgt, if_neg hb]
  have split : ∀ {a' b' : List Obs} {c : Cb} {x : Exc} {os : List Obs} {r : Option Exc},
      shows d.m false (d.plan lst (some a) ev) = a' ++ .cb c :: .cbRet c none :: b' → Report d.m ev x os r →
      Transition d lst a ev b (a' ++ [.cb c, .cbRet c (some x)] ++ os) r := by
    intro a' b' c x os r h1 hrep
    rw [hs] at h1
    simp only [List.append_assoc] at h1
    rcases shown_split h1 with ⟨cs, cs', h2, rfl, _⟩ | ⟨a'', rfl, h2⟩
    · exact .failedBefore h2 hrep
    · obtain ⟨a3, rfl, h3⟩ := no_cb_change h2
      rcases shown_split h3 with ⟨cs, cs', h4, rfl, _⟩ | ⟨a4, rfl, h4⟩
      · have := Transition.failedAfter (a := a) (lst := lst) h4 hrep
        simpa using this
      · exact (no_cb_ending h4).elim
  cases h with
  | completed _ => rw [hs]; exact .completed
  | failed h1 hx => simpa using split h1 (.told hx)
  | killed h1 hx => simpa using split h1 (.untold hx)
  | lost hp =>
    simp only [Desc.plan, hrow, htgt, if_neg hb] at hp
    have : Item.upd b (b.name == Verif.resEnd) ∈ [Item.thr .npe] := by rw [← hp]; simp
    simp at this

theorem behaves_notify {m : MId} {cs : List Cb} {os : List Obs} {r : Option Exc}
    (h : Behaves m ev (cs.map Item.cb) os r) : Notify m ev cs os r := by
  have hs : shows m false (cs.map Item.cb) = shown cs := by
    have := shows_cbs m false cs []
    simpa [shows] using this
  have split : ∀ {a' b' : List Obs} {c : Cb} {x : Exc} {os : List Obs} {r : Option Exc},
      shows m false (cs.map Item.cb) = a' ++ .cb c :: .cbRet c none :: b' → Report m ev x os r →
      Notify m ev cs (a' ++ [.cb c, .cbRet c (some x)] ++ os) r := by
    intro a' b' c x os r h1 hrep
    rw [hs, ← List.append_nil (shown cs)] at h1
    rcases shown_split h1 with ⟨cs1, cs2, h2, rfl, _⟩ | ⟨a'', rfl, h2⟩
    · exact .failed h2 hrep
    · simp at h2
  cases h with
  | completed _ => rw [hs]; exact .completed
  | failed h1 hx => simpa using split h1 (.told hx)
  | killed h1 hx => simpa using split h1 (.untold hx)
  | lost hp =>
    have : Item.thr .npe ∈ cs.map Item.cb := by rw [hp]; simp
    simp at this

theorem behaves_noop {row : Row} {os : List Obs} {r : Option Exc}
    (h : Behaves d.m ev (d.plan lst (some a) ev) os r) (hrow : d.table.row? (some a) = some row)
    (htgt : row.target (some ev.key) = some b) (hb : b.name = resNoop) :
    Notify d.m ev (if lst then [.begin d.m a ev b, .end_ d.m a ev b] else []) os r := by
  apply behaves_notify
  simp only [Desc.plan, hrow, htgt, if_pos hb, note_map] at h
  cases lst <;> exact h

theorem behaves_unmapped {row : Row} {os : List Obs} {r : Option Exc}
    (h : Behaves d.m ev (d.plan lst (some a) ev) os r) (hrow : d.table.row? (some a) = some row)
    (htgt : row.target (some ev.key) = none) : Notify d.m ev [.unmapped d.m ev] os r := by
  apply behaves_notify
  simp only [Desc.plan, hrow, htgt] at h
  exact h

theorem behaves_lost {cur : Option St} {os : List Obs} {r : Option Exc}
    (h : Behaves d.m ev (d.plan lst cur ev) os r) (hrow : d.table.row? cur = none) :
    os = [.cb (.flowEx d.m ev .npe), .cbRet (.flowEx d.m ev .npe) r] := by
  have hp : d.plan lst cur ev = [.thr .npe] := by
    unfold Desc.plan
    rw [hrow]
    cases cur <;> rfl
  rw [hp] at h
  cases h with
  | completed h => exact absurd List.mem_cons_self (h .npe)
  | failed h1 => simp [shows] at h1
  | killed h1 => simp [shows] at h1
  | lost _ => rfl

theorem behaves_nil {m : MId} {os : List Obs} {r : Option Exc} (h : Behaves m ev [] os r) : os = [] ∧ r = none := by
  cases h with
  | completed h => exact ⟨rfl, rfl⟩
  | failed h1 => simp [shows] at h1
  | killed h1 => simp [shows] at h1
  | lost h => cases h

/-! ### The state of the machine afterwards -/

theorem step_cbs {m : MId} (mem : Mem) {os : List Obs} (h : ∀ o ∈ os, touches m o = false) : os.foldl (Mem.step m) mem = mem := by
  induction os generalizing mem with
  | nil => rfl
  | cons o os ih =>
    simp only [List.foldl_cons]
    rw [step_touch (h o List.mem_cons_self)]
    exact ih mem fun o ho => h o (List.mem_cons_of_mem _ ho)

theorem quiet_shown {m : MId} {cs : List Cb} : ∀ o ∈ shown cs, touches m o = false := by
  intro o ho
  simp only [shown, List.mem_flatMap] at ho
  obtain ⟨c, _, hc⟩ := ho
  simp at hc
  rcases hc with rfl | rfl <;> rfl

theorem quiet_report {m : MId} {x : Exc} {os : List Obs} {r : Option Exc} (h : Report m ev x os r) : ∀ o ∈ os, touches m o = false := by
  intro o ho
  cases h with
  | told _ => simp at ho; rcases ho with rfl | rfl <;> rfl
  | untold _ => cases ho

theorem mem_failed {m : MId} (mem : Mem) {cs : List Cb} {c : Cb} {x : Exc} {os : List Obs} {r : Option Exc} (h : Report m ev x os r) :
    (shown cs ++ [Obs.cb c, Obs.cbRet c (some x)] ++ os).foldl (Mem.step m) mem = mem := by
  apply step_cbs
  intro o ho
  simp only [List.mem_append] at ho
  rcases ho with (ho | ho) | ho
  · exact quiet_shown o ho
  · simp at ho; rcases ho with rfl | rfl <;> rfl
  · exact quiet_report h o ho

theorem mem_notify {m : MId} (mem : Mem) {cs : List Cb} {os : List Obs} {r : Option Exc} (h : Notify m ev cs os r) :
    os.foldl (Mem.step m) mem = mem := by
  cases h with
  | completed => exact step_cbs mem quiet_shown
  | failed _ h => exact mem_failed mem h

theorem mem_change (mem : Mem) : (d.change b).foldl (Mem.step d.m) mem = { mem with cur := some b, ended := b.name == Verif.resEnd } := by
  simp [Desc.change, Mem.step]

end

end Verif
