import Verif.Spec.Notes
import Verif.Proofs.Stretch
import Verif.Props.Calls
/-
Who calls the listener of a machine.
-/

namespace Verif
open Spec (Item Desc bare shown Report Transition Notify Handles Events notes note? Bracketed apiDepth depthStep openEv)
open Spec.Calls

section
variable {cfg : Spec.Calls.Cfg} {g g' : Spec.Calls.G} {tr : List (Tid × Obs)}

/-! ### Calls that are open -/

theorem calls_depth (h : Spec.Calls.run cfg g tr = some g') (t : Tid) :
    (g'.calls t).length = tr.foldl (depthStep t) (g.calls t).length := by
  induction tr generalizing g with
  | nil => cases h; rfl
  | cons e tr ih =>
    obtain ⟨cs, hl, hs, h⟩ := run_cons h
    obtain ⟨u, o⟩ := e
    rw [ih h]
    simp only [List.foldl_cons, List.length_map]
    congr 1
    by_cases hu : t = u
    · subst hu
      rw [fset_same]
      simp only at hs
      generalize g.calls t = l at hs
      unfold stack at hs
      split at hs
      · cases hs; simp_all [depthStep]
      · cases hs; simp_all [depthStep]
      · split at hs <;> cases hs; simp_all [depthStep]
      · split at hs <;> cases hs; simp_all [depthStep]
      · cases hs
      · split at hs <;> cases hs
        simp_all [depthStep]
      · split at hs
        · cases hs
          simp_all [depthStep]
        · split at hs <;> cases hs
          simp_all [depthStep]
    · rw [fset_ne _ _ hu]
      have hu' : ¬ u = t := fun h => hu h.symm
      simp only [depthStep]
      split <;> simp [hu']

/-- What remains to be done in a call concerns its machine. -/
def OwnPlan (c : Spec.Calls.Call) : Prop :=
  ∀ pl, (c.st = .entered pl ∨ ∃ k, c.st = .inCb k pl) → ∀ k, Item.cb k ∈ pl → cbMach k = some (apiMach c.api)

theorem next_plan {mem : Mem} {c : Spec.Calls.Call} {o : Obs} {st : Stage} (hp : ∀ m b s k, Item.cb k ∈ cfg.plan m b s → cbMach k = some m)
    (h : next cfg mem c o = some st) (hc : OwnPlan c) : OwnPlan { c with st := st } := by
  obtain ⟨k, st0, sn, n⟩ := c
  intro pl hpl i hi
  simp only at hpl
  unfold next at h
  split at h
  all_goals first | (cases h; done) | skip
  all_goals (rename_i hapi hst; simp only at hapi hst; subst hapi; subst hst)
  all_goals split at h
  all_goals first | (cases h; done) | skip
  all_goals first | (split at h <;> cases h) | cases h
  all_goals rcases hpl with hpl | ⟨k, hpl⟩
  all_goals first | (cases hpl; done) | skip
  all_goals cases hpl
  all_goals first | (cases hi; done) | skip
  · exact hp _ _ _ _ hi
  · exact hc _ (.inl rfl) _ (List.mem_of_mem_tail hi)
  · exact hc _ (.inr ⟨_, rfl⟩) _ hi

theorem ownPlan_run (hp : ∀ m b s k, Item.cb k ∈ cfg.plan m b s → cbMach k = some m) (h : Spec.Calls.run cfg g tr = some g')
    (hg : ∀ t, ∀ c ∈ g.calls t, OwnPlan c) : ∀ t, ∀ c ∈ g'.calls t, OwnPlan c := by
  induction tr generalizing g with
  | nil => cases h; exact hg
  | cons e tr ih =>
    obtain ⟨cs, hl, hs, h⟩ := run_cons h
    obtain ⟨u, o⟩ := e
    refine ih h ?_
    intro t c hc
    obtain ⟨c', hc', rfl⟩ := List.mem_map.1 hc
    suffices OwnPlan c' from this
    have hnew : ∀ k n, OwnPlan ⟨k, .called, {}, n⟩ := by
      rintro k n pl (h | ⟨_, h⟩) <;> cases h
    by_cases hu : t = u
    · subst hu
      rw [fset_same] at hc'
      have hg := hg t
      simp only at hs
      generalize g.calls t = l at hs hg
      unfold stack at hs
      split at hs
      · cases hs; exact hg _ hc'
      · cases hs
        simp only [List.mem_singleton] at hc'
        subst hc'
        exact hnew _ _
      · split at hs <;> cases hs
        rcases List.mem_cons.1 hc' with rfl | hc'
        · exact hnew _ _
        · exact hg _ hc'
      · split at hs <;> cases hs
        exact hg _ (List.mem_cons_of_mem _ hc')
      · cases hs
      · split at hs <;> cases hs
        cases hc'
      · split at hs
        · cases hs; exact hg _ hc'
        · split at hs <;> cases hs
          rename_i hn
          rcases List.mem_cons.1 hc' with rfl | hc'
          · exact next_plan hp hn (hg _ List.mem_cons_self)
          · exact hg _ (List.mem_cons_of_mem _ hc')
    · rw [fset_ne _ _ hu] at hc'
      exact hg t c' hc'

/-- Inside API calls, callbacks that belong to transitions of machine `m` are made by a `start()` that has started the
machine and has not returned. -/
theorem call_note {mem : Mem} {cs cs' : List Spec.Calls.Call} {k : Cb} {m : MId} (h : stack cfg mem cs (.cb k) = some cs')
    (hc : ∀ c ∈ cs, OwnPlan c) (hk : cbMach k = some m) (hne : cs ≠ []) : 0 < weight (clrφ m) cs := by
  cases cs with
  | nil => exact absurd rfl hne
  | cons c cs =>
    have hc := hc c List.mem_cons_self
    obtain ⟨a, st, sn, n⟩ := c
    simp only [stack, userObs, Bool.false_eq_true, and_false, if_false] at h
    split at h <;> cases h
    rename_i st' hn
    unfold next at hn
    split at hn
    all_goals first | (cases hn; done) | skip
    all_goals (rename_i hapi hst ho; simp only at hapi hst; subst hapi; subst hst; cases ho)
    all_goals first | (cases hk; done) | skip
    split at hn <;> cases hn
    rename_i m' pl _ hor
    have : cbMach k = some m' := by
      rcases hor with h | ⟨_, h⟩
      · refine hc pl (.inl rfl) k ?_
        cases pl with
        | nil => cases h
        | cons i pl => cases h; exact List.mem_cons_self
      · exact h
    rw [hk] at this
    cases this
    simp [weight, clrφ, Api.starts]
    omega

end

section
variable {env : Env} {c0 c : Conf} {m : MId}

theorem startPlan_cb {d : Desc} {no : St} {b : Bool} {s : St} {k : Cb} (h : Item.cb k ∈ d.startPlan no b s) : cbMach k = some d.m := by
  simp only [Desc.startPlan, Desc.actions, Spec.note, List.mem_append, List.mem_map] at h
  rcases h with (h | ⟨j, _, h⟩) | h
  · split at h <;> simp at h; subst h; rfl
  · cases h; rfl
  · split at h <;> simp at h; subst h; rfl

/-- After a `start()` that started the machine has returned, no API call makes callbacks that belong to transitions. -/
theorem no_note_in_call (hi : Initial c0) (hr : ReachFrom env c0 c) {pre mid post : List (Tid × Obs)} {u : Tid} {k : Cb}
    (h : c.w.trace = pre ++ mid ++ (u, .cb k) :: post) (hs : (after c0 pre).started m = true)
    (hopen : ∀ t, cnt (Obs.entersStart m) t pre = cnt (Obs.leavesStart m) t pre) (hk : cbMach k = some m) :
    apiDepth u (pre ++ mid) = 0 := by
  obtain ⟨g, hg, hrel, -⟩ := run_of_reach hi hr
  rw [h] at hg
  obtain ⟨g2, h1, h2⟩ := run_split hg
  obtain ⟨g1, h3, h4⟩ := run_split h1
  obtain ⟨cs, _, h5, _⟩ := run_cons h2
  have hd := calls_depth h1 u
  refine Classical.byContradiction fun hn => ?_
  have hne : g2.calls u ≠ [] := by
    intro h0
    rw [h0] at hd
    exact hn hd.symm
  have hpl := ownPlan_run (cfg := callsCfg env) (fun m b s k => startPlan_cb) h1 (by intro t c hc; cases hc)
  have hpos : 0 < weight (clrφ m) (g2.calls u) := call_note h5 (hpl u) hk hne
  have hw := weight_run (weight_clr m) h4 u
  have ho := weight_run (weight_open m) h3 u
  rw [hopen u] at ho
  have h0 : weight (fun k _ => (k.starts m).toNat) ((G.init c0.w.payload fun m => (c0.w.mach m).listener.isSome).calls u) = 0 := rfl
  have hz := clr_le_open m (g1.calls u)
  obtain ⟨o, h6, h7⟩ := cnt_mem (P := Obs.isStarted m) (t := u) (tr := mid) (by omega)
  cases o <;> simp [Obs.isStarted] at h7
  subst h7
  obtain ⟨w, hw⟩ := mem_of_started (mem := initMem c0) rfl hs
  obtain ⟨x, y, rfl⟩ := List.append_of_mem hw
  obtain ⟨x', y', rfl⟩ := List.append_of_mem h6
  rw [show ∀ m, (x ++ (w, Obs.started m) :: y) ++ (x' ++ (u, .started m) :: y') =
    x ++ (w, .started m) :: ((y ++ x') ++ (u, .started m) :: y') by simp] at h1
  exact run_started_once h1

end

/-! ### What the listener sees of one event -/

section
variable {d : Desc} {cut : Bool}

theorem Bracketed.append {m : MId} {a b : List Cb} (ha : Bracketed m cut a) (hb : Bracketed m cut b) : Bracketed m cut (a ++ b) := by
  induction ha with
  | nil => exact hb
  | pair _ ih => exact .pair ih
  | lone hc _ ih => exact .lone hc ih

theorem notes_shown (m : MId) : ∀ cs, (shown cs).filterMap (note? m) = cs.filterMap fun c => note? m (.cb c)
  | [] => rfl
  | c :: cs => by
    have : shown (c :: cs) = .cb c :: .cbRet c none :: shown cs := rfl
    rw [this]
    simp only [List.filterMap_cons, notes_shown m cs]
    cases note? m (.cb c) <;> simp [note?]

theorem notes_before (lst : Bool) (a : St) (ev : Ev) (b : St) :
    (d.before lst a ev b).filterMap (fun c => note? d.m (.cb c)) = if lst then [.begin d.m a ev b] else [] := by
  have : ∀ l : List Nat, (l.map fun i => Cb.action d.m .exit a.oid i ev).filterMap (fun c => note? d.m (.cb c)) = [] := by
    intro l; induction l <;> simp_all [note?]
  rw [Desc.before, List.filterMap_append, this]
  cases lst <;> simp [note?]

theorem notes_afterwards (lst : Bool) (a : St) (ev : Ev) (b : St) :
    (d.afterwards lst a ev b).filterMap (fun c => note? d.m (.cb c)) = if lst then [.end_ d.m a ev b] else [] := by
  have : ∀ l : List Nat, (l.map fun i => Cb.action d.m .entry b.oid i ev).filterMap (fun c => note? d.m (.cb c)) = [] := by
    intro l; induction l <;> simp_all [note?]
  rw [Desc.afterwards, List.filterMap_append, this]
  cases lst <;> simp [note?]

theorem notes_report {m : MId} {ev : Ev} {x : Exc} {os : List Obs} {r : Option Exc} (h : Report m ev x os r) :
    os.filterMap (note? m) = [] := by
  cases h <;> simp [note?]

theorem notes_rest (b : St) : (d.change b).filterMap (note? d.m) = [] ∧ (d.ending b).filterMap (note? d.m) = [] := by
  constructor
  · simp [Desc.change, note?]
  · unfold Desc.ending; split <;> simp [note?]

/-- The listener has seen `cs` when user code throws in `c`. -/
theorem notes_cut {m : MId} {cs cs' l : List Cb} {c : Cb} (x : Exc) (h : (cs ++ c :: cs').filterMap (fun c => note? m (.cb c)) = l) :
    ∃ l', l = (shown cs ++ [Obs.cb c, Obs.cbRet c (some x)]).filterMap (note? m) ++ l' := by
  rw [List.filterMap_append, List.filterMap_cons] at h
  refine ⟨cs'.filterMap fun c => note? m (.cb c), ?_⟩
  rw [← h, List.filterMap_append, notes_shown]
  cases hn : note? m (.cb c) with
  | none => simp [hn, show note? m (.cbRet c (some x)) = none from rfl]
  | some y => simp [hn, show note? m (.cbRet c (some x)) = none from rfl]

theorem append_single {α : Type} {a b : List α} {x : α} (h : [x] = a ++ b) : a = [] ∨ a = [x] := by
  cases a with
  | nil => exact .inl rfl
  | cons y a =>
    simp only [List.cons_append, List.cons.injEq] at h
    obtain ⟨rfl, h⟩ := h
    cases a with
    | nil => exact .inr rfl
    | cons => cases h

theorem transition_brackets {lst : Bool} {a : St} {ev : Ev} {b : St} {os : List Obs} {r : Option Exc}
    (h : Transition d lst a ev b os r) (hcut : cut = false → ∀ c x, .cbRet c (some x) ∉ os) :
    Bracketed d.m cut (os.filterMap (note? d.m)) := by
  have hr := notes_rest (d := d) b
  cases h with
  | completed =>
    simp only [List.filterMap_append, notes_shown, notes_before, notes_afterwards, hr.1, hr.2]
    cases lst
    · exact .nil
    · exact .pair .nil
  | @failedBefore cs c cs' x os r h1 h2 =>
    have hc : cut = true := by
      cases cut
      · exact absurd (by simp) (hcut rfl c x)
      · rfl
    obtain ⟨l', hl⟩ := notes_cut x (m := d.m) (by rw [← h1, notes_before])
    rw [List.filterMap_append, notes_report h2, List.append_nil]
    cases lst with
    | false =>
      rw [show (if false = true then [Cb.begin d.m a ev b] else []) = [] from rfl] at hl
      rw [(List.append_eq_nil_iff.1 hl.symm).1]
      exact .nil
    | true =>
      rcases append_single (x := Cb.begin d.m a ev b) hl with h | h
      · rw [h]; exact .nil
      · rw [h]; exact .lone hc .nil
  | @failedAfter cs c cs' x os r h1 h2 =>
    have hc : cut = true := by
      cases cut
      · exact absurd (by simp) (hcut rfl c x)
      · rfl
    obtain ⟨l', hl⟩ := notes_cut x (m := d.m) (by rw [← h1, notes_afterwards])
    rw [List.filterMap_append, notes_report h2, List.append_nil, List.append_assoc _ (shown cs), List.filterMap_append,
      List.filterMap_append, hr.1, notes_shown, notes_before, List.append_nil]
    cases lst with
    | false =>
      rw [show (if false = true then [Cb.end_ d.m a ev b] else []) = [] from rfl] at hl
      rw [(List.append_eq_nil_iff.1 hl.symm).1]
      exact .nil
    | true =>
      rcases append_single (x := Cb.end_ d.m a ev b) hl with h | h
      · rw [h]; exact .lone hc .nil
      · rw [h]; exact .pair .nil

theorem notify_brackets {m : MId} {ev : Ev} {cs : List Cb} {os : List Obs} {r : Option Exc} (h : Notify m ev cs os r)
    (hcs : cs.filterMap (fun c => note? m (.cb c)) = [] ∨
      ∃ a b, cs.filterMap (fun c => note? m (.cb c)) = [.begin m a ev b, .end_ m a ev b])
    (hcut : cut = false → ∀ c x, .cbRet c (some x) ∉ os) : Bracketed m cut (os.filterMap (note? m)) := by
  cases h with
  | completed =>
    rw [notes_shown]
    rcases hcs with h | ⟨a, b, h⟩ <;> rw [h]
    · exact .nil
    · exact .pair .nil
  | @failed cs1 c cs2 x os r h1 h2 =>
    have hc : cut = true := by
      cases cut
      · exact absurd (by simp) (hcut rfl c x)
      · rfl
    rw [List.filterMap_append, notes_report h2, List.append_nil]
    rcases hcs with h | ⟨a, b, h⟩
    · obtain ⟨l', hl⟩ := notes_cut x (m := m) (by rw [← h1, h])
      rw [(List.append_eq_nil_iff.1 hl.symm).1]
      exact .nil
    · obtain ⟨l', hl⟩ := notes_cut x (m := m) (by rw [← h1, h])
      generalize List.filterMap (note? m) (shown cs1 ++ [Obs.cb c, Obs.cbRet c (some x)]) = l at hl
      rcases l with _ | ⟨y, _ | ⟨z, _ | ⟨_, _⟩⟩⟩
      · exact .nil
      · cases hl; exact .lone hc .nil
      · cases hl; exact .pair .nil
      · cases hl

theorem handles_brackets {mem : Spec.Mon.Mem} {ev : Ev} {os : List Obs} {r : Option Exc} (h : Handles d mem ev os r)
    (hcut : cut = false → ∀ c x, .cbRet c (some x) ∉ os) : Bracketed d.m cut (os.filterMap (note? d.m)) := by
  cases h with
  | over => exact .nil
  | moves _ _ _ h => exact transition_brackets h hcut
  | @stays a b _ _ _ _ _ h =>
    refine notify_brackets h ?_ hcut
    split
    · exact .inr ⟨a, b, by simp [note?]⟩
    · exact .inl rfl
  | unmapped _ _ _ h => exact notify_brackets h (.inl (by simp [note?])) hcut
  | nowhere => simp only [List.filterMap_cons, note?, List.filterMap_nil]; exact .nil

theorem events_brackets {q : QId} {mem mem' : Spec.Mon.Mem} {os : List Obs} (h : Events d q mem os mem')
    (hcut : cut = false → ∀ c x, .cbRet c (some x) ∉ os) : Bracketed d.m cut (os.filterMap (note? d.m)) := by
  induction h with
  | nil => exact .nil
  | @other mem x os mem' h1 _ _ ih =>
    have : note? d.m x = none := by
      cases x with
      | cb c => cases c <;> simp_all [note?, Spec.Mon.concerns, cbMach]
      | _ => rfl
    rw [List.filterMap_cons, this]
    exact ih fun hc c x hm => hcut hc c x (List.mem_cons_of_mem _ hm)
  | @event mem ev os r rest mem' h1 _ ih =>
    rw [List.filterMap_cons, List.filterMap_append, List.filterMap_cons]
    simp only [note?]
    exact Bracketed.append (handles_brackets h1 fun hc c x hm => hcut hc c x (by simp [hm]))
      (ih fun hc c x hm => hcut hc c x (by simp [hm]))

end

/-! ### From threads to a thread -/

theorem notes_bare {m : MId} (w : Tid) (tr : List (Tid × Obs)) (d : Nat)
    (h : ∀ a u k b, tr = a ++ (u, .cb k) :: b → (note? m (.cb k)).isSome = true → u = w ∧ a.foldl (depthStep w) d = 0) :
    notes m tr = (bare w d tr).filterMap (note? m) := by
  induction tr generalizing d with
  | nil => rfl
  | cons e tr ih =>
    obtain ⟨u, o⟩ := e
    have ih' := ih (depthStep w d (u, o)) fun a u' k b hab hn => by
      have := h ((u, o) :: a) u' k b (by rw [hab]; rfl) hn
      exact this
    by_cases hn : (note? m o).isSome = true
    · obtain ⟨k, rfl⟩ : ∃ k, o = .cb k := by
        cases o <;> first | exact ⟨_, rfl⟩ | cases hn
      obtain ⟨rfl, hd⟩ := h [] u k tr rfl hn
      simp only [List.foldl_nil] at hd
      subst hd
      have : bare u 0 ((u, Obs.cb k) :: tr) = .cb k :: bare u 0 tr := by simp [bare, userObs]
      rw [this]
      simp only [notes, List.filterMap_cons] at ih' ⊢
      rw [ih']
      rfl
    · have hn : note? m o = none := by simpa using hn
      have h1 : notes m ((u, o) :: tr) = notes m tr := by simp [notes, hn]
      rw [h1, ih']
      by_cases hu : u = w
      · subst hu
        cases o <;> simp only [bare, depthStep, ne_eq, not_true_eq_false, if_false, if_true] <;> first | rfl | skip
        all_goals split
        all_goals first | rfl | (rw [List.filterMap_cons, hn])
      · have h2 : bare w d ((u, o) :: tr) = bare w d tr := by simp [bare, hu]
        have h3 : depthStep w d (u, o) = d := by cases o <;> simp [depthStep, hu]
        rw [h2, h3]

end Verif
