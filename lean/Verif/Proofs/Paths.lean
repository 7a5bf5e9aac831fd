import Verif.Proofs.Calls
import Verif.Spec.Fate
/-
From the automaton over the whole history to single calls.
-/

namespace Verif
open Spec.Calls
open Spec (Item)

/-- The way of one call through the history. -/
inductive Walk (cfg : Cfg) (t : Tid) : Nat → Mem → Spec.Calls.Call → List (Tid × Obs) → List Obs → Mem → Spec.Calls.Call → Prop
  | nil {mem c} : Walk cfg t 0 mem c [] [] mem c
  | other {d d' mem c u o tr os mem' c'} :
      Walk cfg t d' (mem.step o) (c.look cfg (mem.step o) o) tr os mem' c' →
      Walk cfg t d mem c ((u, o) :: tr) os mem' c'
  | own {mem c o tr st os mem' c'} : next cfg mem c o = some st →
      Walk cfg t 0 (mem.step o) (({ c with st := st } : Spec.Calls.Call).look cfg (mem.step o) o) tr os mem' c' →
      Walk cfg t 0 mem c ((t, o) :: tr) (o :: os) mem' c'

theorem walk_of_run {cfg : Cfg} {t : Tid} {tr : List (Tid × Obs)} : ∀ {d : Nat} {g g' : G} {inner rest : List Spec.Calls.Call}
    {c : Spec.Calls.Call} {os : List Obs}, Spec.Calls.run cfg g tr = some g' → g.calls t = inner ++ c :: rest →
    inner.length = d → own t d tr = some os →
    ∃ c' rest', Walk cfg t d g.mem c tr os g'.mem c' ∧ g'.calls t = c' :: rest' := by
  induction tr with
  | nil =>
    intro d g g' inner rest c os hr hc hl ho
    cases hr
    simp only [own] at ho
    split at ho
    · rename_i hd
      subst hd
      cases ho
      have : inner = [] := List.length_eq_zero_iff.1 hl
      subst this
      exact ⟨c, rest, .nil, hc⟩
    · cases ho
  | cons e tr ih =>
    intro d g g' inner rest c os hr hc hl ho
    obtain ⟨u, o⟩ := e
    simp only [Spec.Calls.run] at hr
    split at hr
    · cases hr
    next g1 hs =>
      simp only [Spec.Calls.step] at hs
      split at hs
      · split at hs
        · cases hs
        next cs hst =>
          cases hs
          by_cases hu : u = t
          · subst hu
            simp only [own, ne_eq, not_true_eq_false, if_false] at ho
            have hcall : ∀ l : List Spec.Calls.Call, (fset g.calls u l u).map (Spec.Calls.Call.look cfg (g.mem.step o) o) =
                l.map (Spec.Calls.Call.look cfg (g.mem.step o) o) := by intro l; simp
            -- the general case: not enter, not leave
            have plain : (∀ k, o ≠ .enter k) → (∀ k r, o ≠ .leave k r) → (∀ s m, o ≠ .taskDropped s m) →
                (if d = 0 ∧ userObs o = false then (own u d tr).map (o :: ·) else own u d tr) = some os →
                ∃ c' rest', Walk cfg u d g.mem c ((u, o) :: tr) os g'.mem c' ∧ g'.calls u = c' :: rest' := by
              intro h1 h2 h3 ho
              have hst' : ∀ c1 cs1, g.calls u = c1 :: cs1 → (if c1.st.calling ∧ userObs o then some (c1 :: cs1)
                  else match next cfg g.mem c1 o with
                    | some st => some ({ c1 with st := st } :: cs1)
                    | none => none) = some cs := by
                intro c1 cs1 he
                rw [he] at hst
                cases o <;> first
                  | exact hst
                  | (exact absurd rfl (h1 _))
                  | (exact absurd rfl (h2 _ _))
                  | (exact absurd rfl (h3 _ _))
              split at ho
              · rename_i hd
                obtain ⟨hd, hu⟩ := hd
                subst hd
                have : inner = [] := List.length_eq_zero_iff.1 hl
                subst this
                have hst := hst' c rest hc
                simp only [hu, Bool.false_eq_true, and_false, if_false] at hst
                split at hst
                · rename_i st hn
                  cases hst
                  cases ho' : own u 0 tr with
                  | none => rw [ho'] at ho; cases ho
                  | some os' =>
                    rw [ho'] at ho; cases ho
                    obtain ⟨c', rest', hw, hc'⟩ := ih (inner := []) hr (by simp only [hcall]; rfl) rfl ho'
                    exact ⟨c', rest', .own hn hw, hc'⟩
                · cases hst
              · rename_i hd
                cases inner with
                | nil =>
                  have hd0 : d = 0 := by simpa using hl.symm
                  have hu : userObs o = true := by
                    cases h : userObs o with
                    | true => rfl
                    | false => exact absurd ⟨hd0, h⟩ hd
                  have hst := hst' c rest hc
                  split at hst
                  · cases hst
                    obtain ⟨c', rest', hw, hc'⟩ := ih (inner := []) hr (by simp only [hcall]; rfl) hl ho
                    exact ⟨c', rest', .other hw, hc'⟩
                  · have : next cfg g.mem c o = none := by
                      unfold next
                      split <;> first | rfl | (cases hu; done)
                    rw [this] at hst; cases hst
                | cons c1 inner =>
                  have hst := hst' c1 (inner ++ c :: rest) hc
                  have : ∃ c2, cs = c2 :: (inner ++ c :: rest) := by
                    split at hst
                    · cases hst; exact ⟨_, rfl⟩
                    · split at hst
                      · cases hst; exact ⟨_, rfl⟩
                      · cases hst
                  obtain ⟨c2, rfl⟩ := this
                  obtain ⟨c', rest', hw, hc'⟩ := ih (inner := (c2 :: inner).map (Spec.Calls.Call.look cfg (g.mem.step o) o)) hr
                    (by simp only [hcall, List.map_cons, List.map_append, List.cons_append]; rfl) (by simpa using hl) ho
                  exact ⟨c', rest', .other hw, hc'⟩
            cases o with
            | enter k =>
              have hcs : ∃ c1, cs = c1 :: (inner ++ c :: rest) := by
                rw [hc] at hst
                cases inner with
                | nil =>
                  simp only [List.nil_append, stack] at hst
                  split at hst
                  · cases hst; exact ⟨_, rfl⟩
                  · cases hst
                | cons c1 inner =>
                  simp only [List.cons_append, stack] at hst
                  split at hst
                  · cases hst; exact ⟨_, rfl⟩
                  · cases hst
              obtain ⟨c1, rfl⟩ := hcs
              obtain ⟨c', rest', hw, hc'⟩ := ih (inner := (c1 :: inner).map (Spec.Calls.Call.look cfg (g.mem.step (.enter k)) (.enter k))) hr
                (by simp only [hcall, List.map_cons, List.map_append, List.cons_append]; rfl) (by simpa using hl) ho
              exact ⟨c', rest', .other hw, hc'⟩
            | leave k r =>
              cases d with
              | zero => cases ho
              | succ d =>
                cases inner with
                | nil => cases hl
                | cons c1 inner =>
                  rw [hc] at hst
                  simp only [List.cons_append, stack] at hst
                  split at hst
                  · cases hst
                    obtain ⟨c', rest', hw, hc'⟩ := ih (inner := inner.map (Spec.Calls.Call.look cfg (g.mem.step (.leave k r)) (.leave k r))) hr
                      (by simp only [hcall, List.map_append, List.map_cons]; rfl) (by simpa using hl) ho
                    exact ⟨c', rest', .other hw, hc'⟩
                  · cases hst
            | taskDropped s m =>
              have : cs = g.calls u := by
                simp only [stack] at hst
                cases hst; rfl
              subst this
              obtain ⟨c', rest', hw, hc'⟩ := ih (inner := inner.map (Spec.Calls.Call.look cfg (g.mem.step (.taskDropped s m)) (.taskDropped s m))) hr
                (by simp only [hcall, hc, List.map_append, List.map_cons]; rfl) (by simpa using hl) ho
              exact ⟨c', rest', .other hw, hc'⟩
            | _ => exact plain (by intro k h; cases h) (by intro k r h; cases h) (by intro s m h; cases h) ho
          · simp only [own, ne_eq, hu, not_false_eq_true, if_true] at ho
            obtain ⟨c', rest', hw, hc'⟩ := ih (inner := inner.map (Spec.Calls.Call.look cfg (g.mem.step o) o)) hr
              (by simp only [fset_ne _ _ (Ne.symm hu), hc, List.map_append, List.map_cons]; rfl) (by simpa using hl) ho
            exact ⟨c', rest', .other hw, hc'⟩
      · cases hs

theorem memAt_append (mem : Mem) (a b : List (Tid × Obs)) : memAt mem (a ++ b) = memAt (memAt mem a) b := by
  simp [memAt, List.foldl_append]

theorem run_mem {cfg : Cfg} {tr : List (Tid × Obs)} : ∀ {g g' : G}, Spec.Calls.run cfg g tr = some g' →
    g'.mem = memAt g.mem tr := by
  induction tr with
  | nil => intro g g' h; cases h; rfl
  | cons e tr ih =>
    intro g g' h
    simp only [Spec.Calls.run] at h
    split at h
    · cases h
    next g1 hs =>
      simp only [Spec.Calls.step] at hs
      split at hs
      · split at hs
        · cases hs
        · cases hs
          exact ih h
      · cases hs

/-- The walk of a complete call. -/
theorem walk_of_call {cfg : Cfg} {g0 g : G} {tr pre mid : List (Tid × Obs)} {t : Tid} {k : Api} {os : List Obs} {r : Option Exc}
    (hr : Spec.Calls.run cfg g0 tr = some g) (hc : IsCall tr t k pre mid os r) :
    ∃ mem' c', Walk cfg t 0 (memAt g0.mem pre)
      ((⟨k, .called, {}, ((memAt g0.mem pre).acc (cfg.queue (apiMach k))).length⟩ : Spec.Calls.Call).look cfg (memAt g0.mem pre) (.enter k))
      mid os mem' c' ∧ c'.api = k ∧ returns cfg c' r = true := by
  obtain ⟨⟨post, rfl⟩, ho⟩ := hc
  rw [run_append] at hr
  cases h1 : Spec.Calls.run cfg g0 pre with
  | none => rw [h1] at hr; cases hr
  | some g1 =>
    rw [h1] at hr
    simp only [Option.bind_some, Spec.Calls.run] at hr
    have hm1 := run_mem h1
    split at hr
    · cases hr
    next g2 hs =>
      simp only [Spec.Calls.step] at hs
      split at hs
      · split at hs
        · cases hs
        next cs hst =>
          cases hs
          have : ∃ rest, cs = ⟨k, .called, {}, (g1.mem.acc (cfg.queue (apiMach k))).length⟩ :: rest := by
            cases hct : g1.calls t with
            | nil => rw [hct] at hst; cases hst; exact ⟨[], rfl⟩
            | cons c0 cs0 =>
              rw [hct] at hst
              simp only [stack] at hst
              split at hst
              · cases hst; exact ⟨_, rfl⟩
              · cases hst
          obtain ⟨rest, rfl⟩ := this
          rw [run_append] at hr
          cases h3 : Spec.Calls.run cfg ⟨g1.mem.step (.enter k), fun u => (fset g1.calls t (⟨k, .called, {}, (g1.mem.acc (cfg.queue (apiMach k))).length⟩ :: rest) u).map (Spec.Calls.Call.look cfg (g1.mem.step (.enter k)) (.enter k))⟩ mid with
          | none => rw [h3] at hr; cases hr
          | some g3 =>
            rw [h3] at hr
            obtain ⟨c', rest', hw, hc'⟩ := walk_of_run (inner := []) h3 (by simp only [fset_same, List.map_cons, List.nil_append]; rfl) rfl ho
            rw [hm1] at hw
            refine ⟨g3.mem, c', hw, ?_⟩
            simp only [Option.bind_some, Spec.Calls.run] at hr
            split at hr
            · cases hr
            next g4 hs =>
              simp only [Spec.Calls.step] at hs
              split at hs
              · split at hs
                · cases hs
                next cs' hst' =>
                  rw [hc'] at hst'
                  simp only [stack] at hst'
                  split at hst'
                  · assumption
                  · cases hst'
              · cases hs
      · cases hs

/-! ### Moments of a call -/

theorem _root_.Verif.Spec.Calls.During.now {mem : Mem} {a : List (Tid × Obs)} {P : Mem → Prop} (h : P (memAt mem a)) : During mem a P :=
  ⟨a, List.prefix_refl a, h⟩

theorem _root_.Verif.Spec.Calls.During.more {mem : Mem} {a b : List (Tid × Obs)} {P : Mem → Prop} (h : During mem a P) : During mem (a ++ b) P := by
  obtain ⟨x, hx, hp⟩ := h
  exact ⟨x, hx.trans (List.prefix_append a b), hp⟩

theorem _root_.Verif.Spec.Calls.During.imp {mem : Mem} {a : List (Tid × Obs)} {P Q : Mem → Prop} (h : During mem a P) (hpq : ∀ x, P x → Q x) :
    During mem a Q := by
  obtain ⟨x, hx, hp⟩ := h
  exact ⟨x, hx, hpq _ hp⟩

theorem mem_step_acc (mem : Mem) (o : Obs) (q : QId) : ∃ x, (mem.step o).acc q = mem.acc q ++ x := by
  cases o with
  | accepted q' m ev =>
    by_cases h : q = q'
    · subst h; simp [Mem.step]
    · exact ⟨[], by simp [Mem.step, fset_ne _ _ h]⟩
  | _ => exact ⟨[], by simp [Mem.step]⟩

theorem memAt_acc (mem : Mem) (a : List (Tid × Obs)) (q : QId) : ∃ x, (memAt mem a).acc q = mem.acc q ++ x := by
  induction a generalizing mem with
  | nil => exact ⟨[], by simp [memAt]⟩
  | cons e a ih =>
    obtain ⟨x, hx⟩ := mem_step_acc mem e.2 q
    obtain ⟨y, hy⟩ := ih (mem.step e.2)
    exact ⟨x ++ y, by
      show (memAt (mem.step e.2) a).acc q = _
      rw [hy, hx, List.append_assoc]⟩

theorem memAt_snoc (mem : Mem) (a : List (Tid × Obs)) (e : Tid × Obs) : memAt mem (a ++ [e]) = (memAt mem a).step e.2 := by
  simp [memAt]

/-- The flags of a call tell the truth. -/
structure SeenOk (cfg : Cfg) (mem : Mem) (a : List (Tid × Obs)) (k : Api) (s : Seen) : Prop where
  unstarted : s.unstarted = true → During mem a fun mem => mem.started (apiMach k) = false
  started : s.started = true → During mem a fun mem => mem.started (apiMach k) = true
  ended : s.ended = true → During mem a fun mem => mem.ended (apiMach k) = true
  alive : s.alive = true → During mem a fun mem => mem.ended (apiMach k) = false
  null : s.null = true → ∀ m ev, k = .fire m ev → During mem a fun mem => mem.pay ev.oid = none
  value : s.value = true → ∀ m ev, k = .fire m ev → During mem a fun mem => (mem.pay ev.oid).isSome = true
  full : s.full = true → During mem a fun mem => isFull cfg mem (apiMach k) = true
  room : s.room = true → During mem a fun mem => isFull cfg mem (apiMach k) = false
  swapped : s.swapped = true → ∃ u l, (u, .listener (apiMach k) l) ∈ a

theorem seenOk_look {cfg : Cfg} {mem : Mem} {a b : List (Tid × Obs)} {x : Obs} {c : Spec.Calls.Call}
    (h : SeenOk cfg mem a c.api c.seen) (hx : ∀ l, x = .listener (apiMach c.api) l → ∃ u, (u, x) ∈ b) :
    SeenOk cfg mem (a ++ b) c.api (c.look cfg (memAt mem (a ++ b)) x).seen := by
  constructor
  all_goals simp only [Spec.Calls.Call.look, Seen.look, Bool.or_eq_true]
  · rintro (h' | h')
    · exact (h.unstarted h').more
    · exact .now (by simpa using h')
  · rintro (h' | h')
    · exact (h.started h').more
    · exact .now h'
  · rintro (h' | h')
    · exact (h.ended h').more
    · exact .now h'
  · rintro (h' | h')
    · exact (h.alive h').more
    · exact .now (by simpa using h')
  · rintro (h' | h') m ev hk
    · exact (h.null h' m ev hk).more
    · rw [hk] at h'; exact .now (by simpa using h')
  · rintro (h' | h') m ev hk
    · exact (h.value h' m ev hk).more
    · rw [hk] at h'; exact .now h'
  · rintro (h' | h')
    · exact (h.full h').more
    · exact .now h'
  · rintro (h' | h')
    · exact (h.room h').more
    · exact .now (by simpa using h')
  · rintro (h' | h')
    · obtain ⟨u, l, hm⟩ := h.swapped h'
      exact ⟨u, l, List.mem_append_left _ hm⟩
    · split at h'
      · rename_i m l
        have : m = apiMach c.api := by simpa using h'
        subst this
        obtain ⟨u, hu⟩ := hx l rfl
        exact ⟨u, l, List.mem_append_right _ hu⟩
      · cases h'

/-- Follow a call. `I` says how the stage depends on what the call has done. -/
theorem walk_induct {cfg : Cfg} {t : Tid} {mem0 : Mem} {k : Api} {n : Nat}
    {I : List (Tid × Obs) → List Obs → Stage → Prop}
    (mono : ∀ a b os st, I a os st → I (a ++ b) os st)
    (step : ∀ a os c o st, c.api = k → c.since = n → SeenOk cfg mem0 a k c.seen → I a os c.st →
      next cfg (memAt mem0 a) c o = some st → I (a ++ [(t, o)]) (os ++ [o]) st)
    {d : Nat} {mem mem' : Mem} {c c' : Spec.Calls.Call} {tr : List (Tid × Obs)} {os : List Obs}
    (hw : Walk cfg t d mem c tr os mem' c') : ∀ {a os0}, mem = memAt mem0 a → c.api = k → c.since = n →
    SeenOk cfg mem0 a k c.seen → I a os0 c.st →
    c'.api = k ∧ SeenOk cfg mem0 (a ++ tr) k c'.seen ∧ I (a ++ tr) (os0 ++ os) c'.st := by
  induction hw with
  | nil => intro a os0 _ h1 _ h2 h3; simp only [List.append_nil]; exact ⟨h1, h2, h3⟩
  | @other d d' mem c u o tr os mem' c' _ ih =>
    intro a os0 hm h1 hn h2 h3
    have hm' : mem.step o = memAt mem0 (a ++ [(u, o)]) := by rw [memAt_snoc, hm]
    have := ih (a := a ++ [(u, o)]) (os0 := os0) hm' h1 hn (by
      rw [hm']; subst h1; exact seenOk_look h2 (fun l hl => ⟨u, by simp⟩)) (mono _ _ _ _ h3)
    simpa using this
  | @own mem c o tr st os mem' c' hnx _ ih =>
    intro a os0 hm h1 hn h2 h3
    have hm' : mem.step o = memAt mem0 (a ++ [(t, o)]) := by rw [memAt_snoc, hm]
    have := ih (a := a ++ [(t, o)]) (os0 := os0 ++ [o]) hm' h1 hn (by
      rw [hm']; subst h1
      exact seenOk_look (c := { c with st := st }) h2 (fun l hl => ⟨t, by simp⟩))
      (step a os0 c o st h1 hn h2 h3 (by rw [← hm]; exact hnx))
    simpa using this

end Verif
