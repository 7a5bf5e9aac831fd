import Verif.Proofs.Passes
import Verif.Proofs.Plain
import Verif.Spec.Checks
/-
Reads of pooled pairs under weak memory, for all strategies.
-/

namespace Verif.Checks
open Spec.HB Spec.Plain Spec.Checks Verif.Plain

variable {env : Env} {H : List Did} {x : Did}

/-- The last action of `t` does not remove a pair from a queue. -/
def NoPoll (H : List Did) (t : Tid) : Prop := ∃ (k : Nat) (a : Did), H[k]? = some a ∧ a.tid = t ∧ (∀ (j : Nat) b, k < j → H[j]? = some b → b.tid ≠ t) ∧
  ∀ u q p, a ≠ .op u (.poll q) (some p)

theorem NoPoll.snoc {t : Tid} (h : NoPoll H t) (hx : x.tid ≠ t) : NoPoll (H ++ [x]) t := by
  obtain ⟨k, a, h1, h2, h3, h4⟩ := h
  refine ⟨k, a, get_snoc h1, h2, fun j b hj hb => ?_, h4⟩
  rcases snoc_get.1 hb with hb | ⟨_, rfl⟩
  · exact h3 j b hj hb
  · exact hx

theorem NoPoll.last (h : ∀ u q p, x ≠ .op u (.poll q) (some p)) : NoPoll (H ++ [x]) x.tid := by
  refine ⟨_, _, last_snoc, rfl, fun j b hj hb => ?_, h⟩
  have := get_lt hb
  simp at this
  omega

structure Top (H : List Did) (lst : Tid → List Frame) : Prop where
  top : ∀ t f rest, lst t = f :: rest → isScan f = true → NoPoll H t
  tail : ∀ t, ∀ f ∈ (lst t).tail, isScan f = false

theorem Top.snoc {lst : Tid → List Frame} {t : Tid} {l' : List Frame} (h : Top H lst) (hx : x.tid = t)
    (h1 : ∀ f rest, l' = f :: rest → isScan f = true → ∀ u q p, x ≠ .op u (.poll q) (some p)) (h2 : ∀ f ∈ l'.tail, isScan f = false) :
    Top (H ++ [x]) (fset lst t l') := by
  subst hx
  refine ⟨fun u f rest hu hf => ?_, fun u f hf => ?_⟩
  · by_cases ht : u = x.tid
    · subst ht
      rw [fset_same] at hu
      exact NoPoll.last (h1 f rest hu hf)
    · rw [fset_ne _ _ ht] at hu
      exact (h.top u f rest hu hf).snoc (Ne.symm ht)
  · by_cases ht : u = x.tid
    · subst ht
      rw [fset_same] at hf
      exact h2 f hf
    · rw [fset_ne _ _ ht] at hf
      exact h.tail u f hf

theorem Top.nil {lst : Tid → List Frame} {t : Tid} (h : Top H lst) : Top H (fset lst t []) := by
  refine ⟨fun u f rest hu hf => ?_, fun u f hf => ?_⟩
  · by_cases ht : u = t
    · subst ht; rw [fset_same] at hu; cases hu
    · rw [fset_ne _ _ ht] at hu; exact h.top u f rest hu hf
  · by_cases ht : u = t
    · subst ht; rw [fset_same] at hf; cases hf
    · rw [fset_ne _ _ ht] at hf; exact h.tail u f hf

theorem move_scan {w : World} {f f' : Frame} {o : Op} (hm : Move env w f o f') (hf : isScan f' = true) : (∃ q, o = .qSnap q) ∨ ∃ p, o = .getPair p := by
  cases hm <;> first
    | (rename_i hs; rcases hs.inv with ⟨rfl, _, _⟩ | ⟨rfl, _⟩ <;> cases hf)
    | exact Or.inl ⟨_, rfl⟩
    | exact Or.inr ⟨_, rfl⟩
    | cases hf
    | (rename_i hs _ _; cases hs <;> cases hf)
    | (rename_i hs _; cases hs <;> cases hf)
    | (rename_i hs; cases hs <;> cases hf)

theorem calling_scan {f : Frame} (h : f.calling = true) : isScan f = false := by
  cases f with
  | fire m ev g => cases g <;> first | rfl | cases h
  | _ => rfl

theorem top_op {lst : Tid → List Frame} {w : World} {t : Tid} {o : Op} {l' : List Frame} (h : Top H lst) (hm : LMove env w (lst t) o l') :
    Top (H ++ [.op t o (exec t o w).1]) (fset lst t l') := by
  have ht := h.tail t
  generalize hl : lst t = l at hm ht
  have hc : callable l → ∀ f ∈ l, isScan f = false := by
    intro hc f hf
    cases l with
    | nil => cases hf
    | cons g l =>
      rcases List.mem_cons.1 hf with rfl | hf
      · exact calling_scan hc
      · exact ht f hf
  cases hm with
  | @enter _ c hcl =>
    refine h.snoc rfl (fun f rest he hf => ?_) (hc hcl)
    cases he
    rw [(ofApi_owned c).2] at hf
    cases hf
  | leave _ =>
    refine h.snoc rfl (fun g rest' he hf => ?_) (fun g hg => ht g (List.mem_of_mem_tail hg))
    have := ht g (by rw [List.tail_cons, he]; exact List.mem_cons_self)
    rw [hf] at this
    cases this
  | user hcl _ =>
    refine h.snoc rfl (fun g rest' he hf => ?_) ht
    have := hc hcl g (by rw [he]; exact List.mem_cons_self)
    rw [hf] at this
    cases this
  | frame hm =>
    refine h.snoc rfl (fun g rest' he hf u q p hx => ?_) ht
    cases he
    injection hx with _ hx
    subst hx
    rcases move_scan hm hf with ⟨_, h⟩ | ⟨_, h⟩ <;> cases h

/-- An event is dropped as a duplicate only if the same thread has looked into the queue, and has read an equal event. -/
def Drops (env : Env) (H : List Did) : Prop := ∀ (i : Nat) t m ev, H[i]? = some (.op t (.emit (.dropped m ev)) ()) →
  ∃ k < i, ∃ p en m', H[k]? = some (.op t (.getPair p) (some (en, m'))) ∧ en.eqv ev = true ∧
    ∃ s < k, ∃ l, H[s]? = some (.op t (.qSnap (env.qm m)) l) ∧ p ∈ l

/-- When a pair is seen in a queue, everything written to it has been written before that. -/
def Snap (H : List Did) : Prop := ∀ (s : Nat) t q p, Looks H s t q p → ∀ (k : Nat) a, k < s → H[k]? = some a → Did.writes a (.pair p) → HB false H k s

theorem Snap.snoc (h : Snap H) (hx : ∀ t q l, x = .op t (.qSnap q) l → ∀ p ∈ l, ∀ (k : Nat) a, H[k]? = some a → Did.writes a (.pair p) → HB false (H ++ [x]) k H.length) :
    Snap (H ++ [x]) := by
  rintro s t q p ⟨l, hl, hp⟩ k a hk ha hw
  rcases snoc_get.1 ha with ha | ⟨rfl, _⟩
  · rcases snoc_get.1 hl with hl | ⟨rfl, he⟩
    · exact HB.snoc (h s t q p ⟨l, hl, hp⟩ k a hk ha hw)
    · exact hx t q l he.symm p hp k a ha hw
  · have := get_lt hl
    simp at this
    omega

theorem drops_snoc (h : Drops env H) (hx : ∀ t m ev, x = .op t (.emit (.dropped m ev)) () →
    ∃ (k : Nat) (p : PairId) (en : Ev) (m' : MId), H[k]? = some (.op t (.getPair p) (some (en, m'))) ∧ en.eqv ev = true ∧
      ∃ s < k, ∃ l, H[s]? = some (.op t (.qSnap (env.qm m)) l) ∧ p ∈ l) : Drops env (H ++ [x]) := by
  intro i t m ev hi
  rcases snoc_get.1 hi with hi | ⟨rfl, he⟩
  · obtain ⟨k, hk, p, en, m', h1, h2, s, hs, l, h3, h4⟩ := h i t m ev hi
    exact ⟨k, hk, p, en, m', get_snoc h1, h2, s, hs, l, get_snoc h3, h4⟩
  · obtain ⟨k, p, en, m', h1, h2, s, hs, l, h3, h4⟩ := hx t m ev he.symm
    exact ⟨k, get_lt h1, p, en, m', get_snoc h1, h2, s, hs, l, get_snoc h3, h4⟩

def J (env : Env) (H : List Did) (lst : Tid → List Frame) (w : World) : Prop := PairW env H lst w ∧ Top H lst ∧ Drops env H ∧ Snap H ∧ Pass env H lst ∧ Passes env H

theorem j_hinv (env : Env) : HInv env (Own env) (J env) where
  op := by
    intro H lst w t o l' ha hj hm hb
    refine ⟨(pairW_hinv env).op H lst w t o l' ha hj.1 hm hb, top_op hj.2.1 hm, drops_snoc hj.2.2.1 fun u m ev hx => ?_,
      hj.2.2.2.1.snoc fun u q l hx p hp k a hk hw => ?_, pass_op hj.2.2.2.2.1 hm, passes_op hj.2.2.2.2.1 hj.2.2.2.2.2 hm⟩
    rotate_left
    · injection hx with hu hx hl
      subst hu hx
      have hl := eq_of_heq hl
      subst hl
      have hq : p ∈ w.queue q := hp
      obtain ⟨o, u, g1, g2, g3, _⟩ := hj.1.que q p hq
      refine .trans (HB.snoc (g3 k a hk hw)) (.sync (.queue (get_lt g1) (get_snoc g1) (Or.inr ⟨_, last_snoc, hp⟩) ?_))
      intro k v hk hk' hg
      rcases snoc_get.1 hg with hg | ⟨rfl, _⟩
      · exact g2 k v hk hg
      · omega
    injection hx with hu hx
    subst hu hx
    have hmk := hj.1.mark t
    generalize lst t = l at hm hmk
    cases hm with
    | user _ hu => exact hu.elim
    | @frame f f' rest _ hm =>
      have key : f = .fire m ev .dup := by
        cases hm with
        | fDup => rfl
        | stPh _ _ ha => cases phAllowed_op ha
        | drPh ha => cases phAllowed_op ha
      exact hmk (.fire m ev .dup) (by rw [key]; exact List.mem_cons_self)
  ret := fun H lst w t ha hj hf => ⟨(pairW_hinv env).ret H lst w t ha hj.1 hf, hj.2.1.nil, hj.2.2.1, hj.2.2.2.1, hj.2.2.2.2.1.nil, hj.2.2.2.2.2⟩
  thr := fun H lst w t x ha hj hf => ⟨(pairW_hinv env).thr H lst w t x ha hj.1 hf, hj.2.1.nil, hj.2.2.1, hj.2.2.2.1, hj.2.2.2.2.1.nil, hj.2.2.2.2.2⟩
  dispatch := by
    intro H lst w e i j s m ha hj h1 h2 h3
    refine ⟨(pairW_hinv env).dispatch H lst w e i j s m ha hj.1 h1 h2 h3, hj.2.1.snoc rfl (fun f rest he hf => ?_) ?_, drops_snoc hj.2.2.1 ?_, hj.2.2.2.1.snoc ?_,
      hj.2.2.2.2.1.snoc rfl (fun m ev g rest he => ?_) ?_, hj.2.2.2.2.2.snoc ?_⟩
    · cases he
      cases hf
    · simp [task]
    · intro t m ev h
      cases h
    · intro t q l h
      cases h
    · cases he
    · simp [task]
    · intro t p e m h
      cases h
  interrupt := fun H lst w t ha hj => ⟨(pairW_hinv env).interrupt H lst w t ha hj.1, hj.2⟩
  shutdown := fun H lst w t ha hj => ⟨(pairW_hinv env).shutdown H lst w t ha hj.1, hj.2⟩
  dropTasks := fun H lst w t ha hj => ⟨(pairW_hinv env).dropTasks H lst w t ha hj.1, hj.2⟩

theorem j_initial (env : Env) (c : Conf) (h : Initial c) : J env [] (fun _ => []) c.w := by
  refine ⟨pairW_initial c h, ⟨?_, ?_⟩, ?_, ?_, ⟨?_, ?_⟩, ?_⟩
  · intro t f rest h; cases h
  · intro t f h; cases h
  · intro i t m ev h; cases h
  · rintro s t q p ⟨l, h, _⟩; cases h
  · intro t m ev g rest h; cases h
  · intro t f h; cases h
  · intro i t p e m h; cases h

/-! ### Weak memory -/

/-- Who reads a pair. -/
theorem getPair_frame (w : World) {l : List Frame} {p : PairId} (h : lAllowed env l (.getPair p)) :
    (∃ m ev ps rest, l = .fire m ev (.scan (p :: ps)) :: rest) ∨ ∃ s cm ev m rest, l = .drain s cm (.polled p ev m) :: rest := by
  rcases h with ⟨_, h⟩ | ⟨f, rest, rfl, h⟩
  · exact h.elim
  · have hm := move_of_allowed (env := env) (w := w) h
    generalize f.nxt env (.getPair p) w = f' at hm
    cases hm with
    | fScanEq => exact Or.inl ⟨_, _, _, _, rfl⟩
    | fScanNe => exact Or.inl ⟨_, _, _, _, rfl⟩
    | fScanNone => exact Or.inl ⟨_, _, _, _, rfl⟩
    | stPh _ _ ha => cases phAllowed_op ha
    | drPh ha => cases phAllowed_op ha
    | drRead => exact Or.inr ⟨_, _, _, _, _, rfl⟩

theorem puts_pair {a : Act} {p : PairId} (h : a.1.writes (.pair p)) : ∃ ev m, puts a = some (.pair p, .pair (some ev) (some m)) := by
  obtain ⟨d, r⟩ := a
  cases d with
  | take => exact h.elim
  | op t o x =>
    obtain ⟨ev, m, rfl⟩ := op_wr h
    exact ⟨ev, m, rfl⟩

theorem puts_pair_some {a : Act} {p : PairId} {v : Content} (h : puts a = some (.pair p, v)) : ∃ ev m, v = .pair (some ev) (some m) := by
  obtain ⟨ev, m, h'⟩ := puts_pair (puts_writes h)
  rw [h] at h'
  cases h'
  exact ⟨ev, m, rfl⟩

theorem dids_append {A B : List Act} : dids (A ++ B) = dids A ++ dids B := by simp [dids]

theorem dids_length {A : List Act} : (dids A).length = A.length := by simp [dids]

theorem good_snoc {A : List Act} {y : Act} (h : GoodReads A) (hy : ∀ t p r v, y = (.op t (.getPair p) r, some (.pair p, v)) →
    (∃ ev m, r = some (ev, m) ∧ v = .pair (some ev) (some m) ∧ ∃ j, Since A 0 j p ev ∧ ∀ s q, Looks (dids A) s t q p → Since A s j p ev) ∧
    (Taken (dids A ++ [y.1]) A.length p → ∃ j, Puts A (.pair p) j v ∧ ∀ k u, Puts A (.pair p) k u → k ≤ j)) : GoodReads (A ++ [y]) := by
  intro i t p r v hi
  have hp : ∀ {k u}, Puts A (.pair p) k u → Puts (A ++ [y]) (.pair p) k u := fun h => puts_snoc.2 (Or.inl h)
  have hq : ∀ {k u}, Puts (A ++ [y]) (.pair p) k u → k < A.length → Puts A (.pair p) k u := fun h hk => (puts_snoc.1 h).resolve_right fun h' => by omega
  have hl : (dids A).length = A.length := dids_length
  have up : ∀ {s j ev}, s ≤ A.length → Since A s j p ev → Since (A ++ [y]) s j p ev := fun hs ⟨⟨m, h1⟩, h2⟩ =>
    ⟨⟨m, hp h1⟩, fun k u hk hks => h2 k u (hq hk (by omega)) hks⟩
  have down : ∀ {s q}, s < A.length → Looks (dids (A ++ [y])) s t q p → Looks (dids A) s t q p := fun hs ⟨l, h1, h2⟩ =>
    ⟨l, by rw [dids_append, List.getElem?_append_left (by omega)] at h1; exact h1, h2⟩
  by_cases hk : i < A.length
  · rw [List.getElem?_append_left hk] at hi
    obtain ⟨⟨ev, m, h1, h2, j, hj, h3, h3'⟩, h4⟩ := h i t p r v hi
    refine ⟨⟨ev, m, h1, h2, j, hj, up (by omega) h3, fun s q hs hl => up (by omega) (h3' s q hs (down (by omega) hl))⟩, fun ht => ?_⟩
    obtain ⟨k, hk', t', q, d, g1, g2, g3, g4⟩ := ht
    rw [dids_append] at g1 g2 g4
    rw [List.getElem?_append_left (by omega)] at g1 g2
    obtain ⟨j, hj, h5, h6⟩ := h4 ⟨k, hk', t', q, d, g1, g2, g3, fun j d' hj1 hj2 hd => g4 j d' hj1 hj2 (by rw [List.getElem?_append_left (by omega)]; exact hd)⟩
    exact ⟨j, hj, hp h5, fun k u hku hki => h6 k u (hq hku (by omega)) hki⟩
  · have hlt := (List.getElem?_eq_some_iff.1 hi).1
    simp at hlt
    obtain rfl : i = A.length := by omega
    obtain ⟨⟨ev, m, h1, h2, j, h3, h3'⟩, h4⟩ := hy t p r v (by simpa using hi)
    refine ⟨⟨ev, m, h1, h2, j, puts_lt h3.1.choose_spec, up (by omega) h3, fun s q hs hl => up (by omega) (h3' s q (down hs hl))⟩, fun ht => ?_⟩
    obtain ⟨j, h5, h6⟩ := h4 (by rw [dids_append] at ht; exact ht)
    exact ⟨j, puts_lt h5, hp h5, fun k u hku hki => h6 k u (hq hku hki)⟩

/-- Everything known about an execution. -/
structure K (env : Env) (A : List Act) (lst : Tid → List Frame) (c : Conf) : Prop where
  ok : ThreadsOk (proto env) [] Verif.fin lst c
  busy : ∀ t, c.thr t ≠ none → Busy t (lst t)
  own : Own env lst c.w
  j : J env (dids A) lst c.w
  last : ∀ p, Last (.pair none none) (.pair p) A (content c.w (.pair p))
  good : GoodReads A

/-- A read of what has been written last. -/
theorem good_last {A : List Act} {lst : Tid → List Frame} {c : Conf} {t : Tid} {p : PairId} {k : (Op.getPair p).Res → Prog Unit} (h : K env A lst c)
    (hp : c.thr t = some (.op (.getPair p) k)) : ∃ ev m, c.w.pair p = some (ev, m) ∧
      ∃ j, Puts A (.pair p) j (content c.w (.pair p)) ∧ ∀ k u, Puts A (.pair p) k u → k ≤ j := by
  have h0 := h.ok t
  rw [hp] at h0
  obtain ⟨loc, hown⟩ := h.own
  have hs : ∃ ev m, c.w.pair p = some (ev, m) := by
    rcases getPair_frame c.w h0.1 with ⟨m, ev, ps, rest, hl⟩ | ⟨s, cm, ev, m, rest, hl⟩
    · have := hown.fact t (.fire m ev (.scan (p :: ps))) (by rw [hl]; exact List.mem_cons_self) p List.mem_cons_self
      obtain ⟨⟨a, b⟩, hab⟩ := Option.isSome_iff_exists.1 this
      exact ⟨a, b, hab⟩
    · exact ⟨ev, m, (hown.fact t (.drain s cm (.polled p ev m)) (by rw [hl]; exact List.mem_cons_self)).1⟩
  obtain ⟨ev, m, hs⟩ := hs
  refine ⟨ev, m, hs, ?_⟩
  rcases h.last p with ⟨h1, _⟩ | h1
  · simp [content, hs] at h1
  · exact h1

variable {M : Cell → Prop} [DecidablePred M]

theorem k_sched {A : List Act} {lst : Tid → List Frame} {c c' : Conf} {x : Choice} (h : K env A lst c) (hs : Verif.step env c x = some c') :
    ∃ lst', K env (A ++ (act c (.sched x)).toList) lst' c' := by
  obtain ⟨lst', h1, h2, h3, h4⟩ := hist_step (own_invariant env) (j_hinv env) h.ok h.busy h.own h.j hs
  refine ⟨lst', h1, h2, h3, ?_, fun p => last_step (h.last p) hs, ?_⟩
  · rw [dids_append]
    rw [← did_act] at h4
    cases hd : act c (.sched x) with
    | none => simpa [hd, dids] using h4
    | some d => simpa [hd, dids] using h4
  · cases hd : act c (.sched x) with
    | none => simpa using h.good
    | some d =>
      refine good_snoc h.good fun t p r v hy => ?_
      subst hy
      have hv := act_read hd
      have hx : Spec.HB.did c x = some (.op t (.getPair p) r) := by rw [← did_act, hd]; rfl
      have hp : ∃ k, c.thr t = some (.op (.getPair p) k) ∧ r = c.w.pair p := by
        cases x with
        | run u =>
          simp only [Spec.HB.did] at hx
          split at hx
          · rename_i o k hk
            injection hx with hx
            injection hx with hu ho hr
            subst hu ho
            exact ⟨k, hk, (eq_of_heq hr).symm⟩
          · cases hx
        | dispatch e i j =>
          simp only [Spec.HB.did] at hx
          split at hx <;> cases hx
        | _ => cases hx
      obtain ⟨k, hp, hr⟩ := hp
      obtain ⟨ev, m, g1, j, g2, g3⟩ := good_last h hp
      rw [hv, hr]
      have : content c.w (.pair p) = .pair (some ev) (some m) := by simp [content, g1]
      have hs : ∀ s, Since A s j p ev := fun s => ⟨⟨m, by rw [← this]; exact g2⟩, fun k u hk _ => g3 k u hk⟩
      exact ⟨⟨ev, m, g1, this, j, hs 0, fun s _ _ => hs s⟩, fun _ => ⟨j, g2, g3⟩⟩

/-- A justified read of a pair that comes after some write. -/
theorem read_some {A B : List Act} {t : Tid} {p : PairId} {r : (Op.getPair p).Res} {e : Option Ev} {m : Option MId} (hw : Wrote (dids A) p t)
    (hww : Ordered (dids A) p) (hsn : Snap (dids A))
    (hj : Justified false (.pair none none) (.pair p) (A ++ (.op t (.getPair p) r, some (.pair p, .pair e m)) :: B)) :
    ∃ e' m', e = some e' ∧ m = some m' ∧ ∃ j, Since A 0 j p e' ∧ ∀ s q, Looks (dids A) s t q p → Since A s j p e' := by
  have hd : dids (A ++ (.op t (.getPair p) r, some (.pair p, .pair e m)) :: B) = dids A ++ .op t (.getPair p) r :: dids B := by simp [dids]
  obtain ⟨k, a, h1, h2, h3⟩ := hw
  have hk : k < A.length := by rw [← dids_length]; exact get_lt h1
  have emb : ∀ {i j}, HB false (dids A ++ [.op t (.getPair p) r]) i j → HB false (dids (A ++ (.op t (.getPair p) r, some (.pair p, .pair e m)) :: B)) i j := by
    intro i j h
    rw [hd]
    exact swap_hb (t := t) (o := .getPair p) (v := r) (v' := r) (by simp [source]) h
  have hb : HB false (dids (A ++ (.op t (.getPair p) r, some (.pair p, .pair e m)) :: B)) k A.length := by
    rw [← dids_length (A := A)]
    exact emb (Past.hb (x := .op t (.getPair p) r) h3)
  have hup : ∀ k u, Puts A (.pair p) k u → Puts (A ++ (.op t (.getPair p) r, some (.pair p, .pair e m)) :: B) (.pair p) k u := fun k u ⟨a, h1, h2⟩ =>
    ⟨a, by rw [List.getElem?_append_left (List.getElem?_eq_some_iff.1 h1).1]; exact h1, h2⟩
  have hp : ∃ u, Puts (A ++ (.op t (.getPair p) r, some (.pair p, .pair e m)) :: B) (.pair p) k u := by
    obtain ⟨y, g1, g2⟩ : ∃ y, A[k]? = some y ∧ y.1 = a := by simpa [dids] using h1
    obtain ⟨ev, m', g3⟩ := puts_pair (a := y) (p := p) (by rw [g2]; exact h2)
    exact ⟨_, y, by rw [List.getElem?_append_left hk]; exact g1, g3⟩
  obtain ⟨u0, hp⟩ := hp
  have key : ∀ b, ∃ j ev m', Puts A (.pair p) j (.pair (some ev) (some m')) ∧ part b (.pair e m) = part b (.pair (some ev) (some m')) ∧
      ∀ s q, Looks (dids A) s t q p → ∀ k u, Puts A (.pair p) k u → k < s → k ≤ j := by
    intro b
    rcases hj A.length (.op t (.getPair p) r) (.pair e m) (by simp) b with ⟨_, h⟩ | ⟨j, hja, ⟨u, ⟨y, g1, g2⟩, hu⟩, hs⟩
    · exact absurd hb (h k u0 hp)
    · obtain ⟨ev, m', rfl⟩ := puts_pair_some g2
      rw [List.getElem?_append_left hja] at g1
      refine ⟨j, ev, m', ⟨y, g1, g2⟩, hu, fun s q hl k' u hk' hks => ?_⟩
      rcases Nat.lt_or_ge j k' with hlt | hge
      · obtain ⟨z, f1, f2⟩ := hk'
        have o1 : HB false (dids A) j k' := hww j k' _ _ hlt (dids_get g1) (dids_get f1) (puts_writes g2) (puts_writes f2)
        have o2 : HB false (dids A) k' s := hsn s t q p hl k' _ hks (dids_get f1) (puts_writes f2)
        obtain ⟨l, f3, _⟩ := hl
        have o3 : HB false (dids A ++ [.op t (.getPair p) r]) k' A.length := by
          rw [← dids_length (A := A)]
          exact .trans (HB.snoc o2) (.po (get_lt f3) (get_snoc f3) last_snoc rfl)
        exact absurd (emb o3) (hs k' u (hup k' u ⟨z, f1, f2⟩) (emb (HB.snoc o1)))
      · exact hge
  obtain ⟨j, ev, m', h4, h5, h7⟩ := key true
  obtain ⟨_, _, m'', _, h6, _⟩ := key false
  simp only [part, if_true, Part.event.injEq] at h5
  simp only [part, Bool.false_eq_true, if_false, Part.machine.injEq] at h6
  exact ⟨ev, m'', h5, h6, j, ⟨⟨m', h4⟩, fun _ _ _ h => absurd h (Nat.not_lt_zero _)⟩, fun s q hl => ⟨⟨m', h4⟩, h7 s q hl⟩⟩

/-- `v` written to a field. -/
def store (w : World) (f : Cell) (v : Content) : World := match f, v with
  | .cur m, .state v => { w with mach := fset w.mach m { w.mach m with cur := v } }
  | .listener m, .listener v => { w with mach := fset w.mach m { w.mach m with listener := v } }
  | .payload o, .payload v => { w with payload := fset w.payload o v }
  | _, _ => w

theorem store_sameQ {w : World} {f : Cell} {v : Content} : SameQ w (store w f v) := by
  unfold store
  split <;> exact ⟨rfl, rfl, rfl, rfl, fun _ => rfl, fun _ => rfl⟩

/-- Reading `v` is as reading memory that contains it. -/
theorem execRead_store {t : Tid} {o : Op} {f : Cell} {v : Content} {w : World} {r : o.Res × World} (hf : source o = some f) (hp : ∀ p, f ≠ .pair p)
    (h : execRead t o v w = some r) : (exec t o (store w f v)).1 = r.1 ∧ SameQ (exec t o (store w f v)).2 r.2 := by
  cases o <;> simp only [source, Option.some.injEq, reduceCtorEq] at hf <;> subst hf <;> cases v <;> simp only [execRead, reduceCtorEq, Option.some.injEq] at h
  · subst h; exact ⟨by simp [exec, store], ⟨rfl, rfl, rfl, rfl, fun _ => rfl, fun _ => rfl⟩⟩
  · subst h; exact ⟨by simp [exec, store], ⟨rfl, rfl, rfl, rfl, fun _ => rfl, fun _ => rfl⟩⟩
  · rename_i l
    cases l <;> simp only [Option.some.injEq] at h <;> subst h <;> simp only [exec, store, fset_same] <;>
      exact ⟨trivial, ⟨rfl, rfl, rfl, rfl, fun _ => rfl, fun _ => rfl⟩⟩
  · exact absurd rfl (hp _)
  · subst h; exact ⟨by simp [exec, store], ⟨rfl, rfl, rfl, rfl, fun _ => rfl, fun _ => rfl⟩⟩
  · subst h; exact ⟨by simp [exec, store], ⟨rfl, rfl, rfl, rfl, fun _ => by simp [exec, store, World.log], fun _ => by simp [exec, store, World.log]⟩⟩

theorem own_same {lst : Tid → List Frame} {w w' : World} (h : Own env lst w) (hw : SameQ w w') : Own env lst w' := by
  obtain ⟨loc, h⟩ := h
  have := h.same hw (t := .env) (l' := lst .env) rfl (fun f hf => h.fact _ f hf)
  have e : fset lst .env (lst .env) = lst := by funext u; by_cases hu : u = .env <;> simp [fset, hu]
  rw [e] at this
  exact ⟨loc, this⟩

theorem j_same {lst : Tid → List Frame} {w w' : World} (h : J env H lst w) (hw : SameQ w w') : J env H lst w' :=
  ⟨h.1.world hw.queue hw.pool hw.next, h.2⟩

/-- Any other plain field may return anything. -/
theorem k_other {A : List Act} {lst : Tid → List Frame} {c : Conf} {t : Tid} {o : Op} {k : o.Res → Prog Unit} {f : Cell} {v : Content} {r : o.Res × World}
    (h : K env A lst c) (hp : c.thr t = some (.op o k)) (hf : source o = some f) (hn : ∀ p, f ≠ .pair p) (he : execRead t o v c.w = some r) :
    ∃ lst', K env (A ++ [(.op t o r.1, some (f, v))]) lst' ⟨r.2, fset c.thr t (some (k r.1))⟩ := by
  have h0 := h.ok t
  rw [hp] at h0
  have hbt : Busy t (lst t) := h.busy t (by rw [hp]; simp)
  obtain ⟨e1, e2⟩ := execRead_store hf hn he
  have o1 : Own env lst (store c.w f v) := own_same h.own store_sameQ
  have j1 : J env (dids A) lst (store c.w f v) := j_same h.j store_sameQ
  have hl : LMove env (store c.w f v) (lst t) o (lNxt env (lst t) o (store c.w f v)) := lmove_of_allowed h0.1
  have h1 : (proto env).Ok t (k (exec t o (store c.w f v)).1) (lNxt env (lst t) o (store c.w f v)) (Verif.fin t) := h0.2 _ (own_know t o1)
  have j2 := (j_hinv env).op _ _ _ _ _ _ o1 j1 hl hbt
  have o2 := own_same (own_lmove o1 hl) e2
  rw [e1] at h1 j2
  have hnp : ∀ p, o ≠ .getPair p := by
    rintro p rfl
    cases hf
    exact hn p rfl
  refine ⟨fset lst t (lNxt env (lst t) o (store c.w f v)), ?_, ?_, o2, ?_, ?_, ?_⟩
  · intro u
    by_cases hu : u = t
    · subst hu; simpa using h1
    · simp only [fset_ne _ _ hu]; exact h.ok u
  · intro u
    by_cases hu : u = t
    · subst hu
      simp only [fset_same]
      exact fun _ => busy_move hl hbt
    · simp only [fset_ne _ _ hu]; exact h.busy u
  · rw [dids_append]
    exact j_same j2 e2
  · intro p
    have hw : r.2.pair = c.w.pair := by rw [e2.pair, (exec_sameQ t o _ (by cases o <;> first | rfl | cases hf)).pair, store_sameQ.pair]
    have : content r.2 (.pair p) = content c.w (.pair p) := by simp [content, hw]
    rw [this]
    refine (h.last p).keep fun u hu => ?_
    have := puts_writes hu
    obtain ⟨_, _, ho⟩ := op_wr this
    subst ho
    cases hf
  · refine good_snoc h.good fun u p r' v' hy => ?_
    injection hy with hy _
    injection hy with _ hy
    exact absurd hy (hnp p)

theorem k_read {A B : List Act} {lst : Tid → List Frame} {c c' : Conf} {t : Tid} {v : Content} (h : K env A lst c)
    (hs : Plain.step env M c (.read t v) = some c') (hj : ∀ p, M (.pair p) → Justified false (.pair none none) (.pair p) (A ++ ((act c (.read t v)).toList ++ B))) :
    ∃ lst', K env (A ++ (act c (.read t v)).toList) lst' c' := by
  simp only [Plain.step] at hs
  split at hs
  next o k hp =>
    split at hs
    next f hf =>
      split at hs
      next hm =>
        by_cases hfp : ∃ p, f = .pair p
        rotate_left
        · cases he : execRead t o v c.w with
          | none => rw [he] at hs; cases hs
          | some r =>
            have hact : act c (.read t v) = some (.op t o r.1, some (f, v)) := by simp [act, hp, he, hf]
            rw [he] at hs
            cases hs
            rw [hact]
            exact k_other h hp hf (fun p hfp' => hfp ⟨p, hfp'⟩) he
        obtain ⟨p, rfl⟩ := hfp
        obtain rfl : o = .getPair p := by
          cases o <;> simp only [source, Option.some.injEq, reduceCtorEq, Cell.pair.injEq] at hf
          subst hf
          rfl
        cases v <;> simp only [execRead, Option.map_none, reduceCtorEq] at hs
        rename_i e m
        cases he : execRead t (.getPair p) (.pair e m) c.w with
        | none => simp only [execRead] at he; split at he <;> cases he
        | some r =>
          have hact : act c (.read t (.pair e m)) = some (.op t (.getPair p) r.1, some (.pair p, .pair e m)) := by simp [act, hp, he, source]
          have hj := hj _ hm
          rw [hact] at hj ⊢
          have h0 := h.ok t
          rw [hp] at h0
          have hbt : Busy t (lst t) := h.busy t (by rw [hp]; simp)
          rcases getPair_frame c.w h0.1 with ⟨m1, ev, ps, rest, hl⟩ | ⟨s, cm, ev, m1, rest, hl⟩
          · -- a check for duplicates
            have hmk := h.j.1.mark t (.fire m1 ev (.scan (p :: ps))) (by rw [hl]; exact List.mem_cons_self)
            obtain ⟨e', m', rfl, rfl, j, hput⟩ := read_some (hmk p List.mem_cons_self).1 (h.j.1.ww p) h.j.2.2.2.1 hj
            cases he
            simp only [Option.map_some, Option.some.injEq] at hs
            subst hs
            have hkn := own_know t h.own
            have h1 := h0.2 { c.w with pair := fset c.w.pair p (some (e', m')) } (by
              refine ⟨fun q p' hp' => ?_, fun s cm p' ev' m' rest' hl' => ?_, fun m' ev' todo rest' hl' p' hp' => ?_⟩
              · by_cases hpp : p' = p
                · subst hpp; simp
                · simp only [fset_ne _ _ hpp]; exact hkn.1 q p' hp'
              · rw [hl] at hl'; cases hl'
              · by_cases hpp : p' = p
                · subst hpp; simp
                · simp only [fset_ne _ _ hpp]; exact hkn.2.2 m' ev' todo rest' hl' p' hp')
            have h2 : (exec t (.getPair p) { c.w with pair := fset c.w.pair p (some (e', m')) }).1 = some (e', m') := by simp [exec]
            have h3 : lNxt env (lst t) (.getPair p) { c.w with pair := fset c.w.pair p (some (e', m')) } =
                .fire m1 ev (if e'.eqv ev then .dup else .scan ps) :: rest := by
              rw [hl]
              simp [lNxt, Frame.nxt, fateNxt]
            have hlm := lmove_of_allowed (w := { c.w with pair := fset c.w.pair p (some (e', m')) }) (env := env) (l := lst t) (o := .getPair p) h0.1
            rw [h2] at h1
            change (proto env).Ok t _ (lNxt env (lst t) (.getPair p) _) _ at h1
            rw [h3] at h1
            have hown' : (Frame.fire m1 ev (if e'.eqv ev then .dup else .scan ps)).owned = [] := by split <;> rfl
            have hrest : ∀ g ∈ rest, g ∈ lst t := fun g hg => by rw [hl]; exact List.mem_cons_of_mem _ hg
            refine ⟨fset lst t (.fire m1 ev (if e'.eqv ev then .dup else .scan ps) :: rest), ?_, ?_, ?_, ?_, ?_, ?_⟩
            · intro u
              by_cases hu : u = t
              · subst hu; simpa using h1
              · simp only [fset_ne _ _ hu]; exact h.ok u
            · intro u
              by_cases hu : u = t
              · subst hu
                simp only [fset_same]
                intro _
                have := busy_move (w := { c.w with pair := fset c.w.pair p (some (e', m')) }) (lmove_of_allowed (env := env) (l := lst u) (o := .getPair p) h0.1) hbt
                rwa [h3] at this
              · simp only [fset_ne _ _ hu]; exact h.busy u
            · obtain ⟨loc, hown⟩ := h.own
              refine ⟨loc, hown.same (SameQ.refl _) (by rw [hl, ownedL_cons, ownedL_cons, hown']; rfl) fun g hg => ?_⟩
              rcases List.mem_cons.1 hg with rfl | hg
              · split
                · trivial
                · intro p' hp'
                  exact hown.fact t (.fire m1 ev (.scan (p :: ps))) (by rw [hl]; exact List.mem_cons_self) p' (List.mem_cons_of_mem _ hp')
              · exact hown.fact t g (hrest g hg)
            · rw [dids_append]
              refine ⟨h.j.1.quiet rfl rfl rfl ?_ ?_ ?_ (by simp) (by simp), h.j.2.1.snoc rfl (by simp) ?_, drops_snoc h.j.2.2.1 (by simp), h.j.2.2.2.1.snoc (by simp), ?_, ?_⟩
              · intro p' hp'
                rw [ownedL_cons, hown'] at hp'
                rw [hl]
                simpa [Frame.owned] using hp'
              · intro g hg
                rcases List.mem_cons.1 hg with rfl | hg
                · split
                  next heq =>
                    obtain ⟨s, l, g1, g2⟩ := (hmk p List.mem_cons_self).2
                    exact ⟨_, p, e', m', last_snoc, heq, s, get_lt g1, l, get_snoc g1, g2⟩
                  · exact fun p' hp' => (hmk p' (List.mem_cons_of_mem _ hp')).imp Wrote.snoc Looked.snoc
                · exact (h.j.1.mark t g (hrest g hg)).snoc
              · intro p' hw
                obtain ⟨_, _, hw⟩ := op_wr hw
                cases hw
              · intro g hg
                exact h.j.2.1.tail t g (by rw [hl]; exact hg)
              · have := pass_op h.j.2.2.2.2.1 hlm
                rwa [h2, h3] at this
              · have := passes_op h.j.2.2.2.2.1 h.j.2.2.2.2.2 hlm
                rwa [h2] at this
            · intro p'
              exact (h.last p').keep (by simp [puts])
            · refine good_snoc h.good fun u p' r v hy => ?_
              cases hy
              refine ⟨⟨e', m', rfl, rfl, j, hput⟩, fun ht => ?_⟩
              obtain ⟨k', hk', u, q, d, g1, g2, g3, g4⟩ := ht
              exfalso
              obtain ⟨i, a, f1, f2, f3, f4⟩ := h.j.2.1.top t _ _ hl rfl
              have hlen : (dids A).length = A.length := dids_length
              rw [List.getElem?_append_left (by omega)] at g1
              rw [← hlen, last_snoc] at g2
              cases g2
              cases g3
              rcases Nat.lt_trichotomy i k' with hik | hik | hik
              · exact f3 k' _ hik g1 rfl
              · subst hik
                rw [f1] at g1
                cases g1
                exact f4 _ _ _ rfl
              · exact g4 i a hik (by have := get_lt f1; omega) (get_snoc f1) f2
          · -- the owner reads its pair
            have hmine : p ∈ ownedL (lst t) := by rw [hl]; simp [Frame.owned]
            have hv : Content.pair e m = content c.w (.pair p) :=
              reads_last_of (r0 := (exec t (.getPair p) c.w).1) rfl (fun k d h1 h2 => Past.hb (x := .op t (.getPair p) _) (h.j.1.own t p hmine k d h1 h2))
                (fun i j d d' h1 h2 h3 h4 h5 => HB.snoc (h.j.1.ww p i j d d' h1 h2 h3 h4 h5)) (h.last p) hj
            rw [hv] at he hact ⊢
            rw [execRead_content rfl] at he
            cases he
            have hs' : Verif.step env c (.run t) = some c' := by
              rw [← hs]
              have hp' := (execRead_content (t := t) (o := .getPair p) (f := .pair p) (w := c.w) rfl)
              rw [← hv] at hp'
              simp only [execRead] at hp'
              rw [hp']
              simp [Verif.step, hp, runThread, enabled]
            have := k_sched h hs'
            rw [act_run hp] at this
            exact this
      · cases hs
    · cases hs
  · cases hs

theorem k_runs {A : List Act} {lst : Tid → List Frame} {c c' : Conf} {xs : List PChoice} (h : K env A lst c)
    (hs : Plain.runs env M c xs = some c') (hj : ∀ p, M (.pair p) → Justified false (.pair none none) (.pair p) (A ++ acts env M c xs)) :
    ∃ lst', K env (A ++ acts env M c xs) lst' c' := by
  induction xs generalizing c A lst with
  | nil => cases hs; exact ⟨lst, by simpa [acts] using h⟩
  | cons x xs ih =>
    simp only [Plain.runs] at hs
    split at hs
    · cases hs
    next c1 h1 =>
      have hh : acts env M c (x :: xs) = (act c x).toList ++ acts env M c1 xs := by simp only [acts, h1]
      rw [hh] at hj ⊢
      have key : ∃ lst', K env (A ++ (act c x).toList) lst' c1 := by
        cases x with
        | sched y => exact k_sched h h1
        | read t v => exact k_read h h1 hj
      obtain ⟨l1, h2⟩ := key
      rw [← List.append_assoc] at hj ⊢
      exact ih h2 hs hj

/-- What is read is in the history. -/
theorem read_act {c : Conf} {x : PChoice} {y : Act} {t : Tid} {p : PairId} {r : (Op.getPair p).Res} (hy : act c x = some y)
    (h : y.1 = .op t (.getPair p) r) : ∃ v, y = (.op t (.getPair p) r, some (.pair p, v)) := by
  cases x with
  | sched x =>
    simp only [act, Option.map_eq_some_iff] at hy
    obtain ⟨d, _, rfl⟩ := hy
    cases h
    exact ⟨_, rfl⟩
  | read t' v =>
    simp only [act] at hy
    split at hy
    · rw [Option.map_eq_some_iff] at hy
      obtain ⟨d, _, rfl⟩ := hy
      injection h with h1 h2 h3
      subst h1 h2
      have := eq_of_heq h3
      exact ⟨v, by rw [this]; rfl⟩
    · cases hy

/-- All reads of pairs are in the history, with what they read. -/
theorem reads_acts {c : Conf} {xs : List PChoice} {i : Nat} {y : Act} {t : Tid} {p : PairId} {r : (Op.getPair p).Res} (hi : (acts env M c xs)[i]? = some y)
    (h : y.1 = .op t (.getPair p) r) : ∃ v, y = (.op t (.getPair p) r, some (.pair p, v)) := by
  have hm := List.mem_of_getElem? hi
  clear hi
  induction xs generalizing c with
  | nil => cases hm
  | cons x xs ih =>
    simp only [acts] at hm
    split at hm
    · cases hm
    · rcases List.mem_append.1 hm with hm | hm
      · cases ha : act c x with
        | none => rw [ha] at hm; cases hm
        | some z =>
          rw [ha] at hm
          simp at hm
          subst hm
          exact read_act ha h
      · exact ih hm

theorem drops_good {c : Conf} {xs : List PChoice} (h1 : Drops env (dids (acts env M c xs))) (h2 : GoodReads (acts env M c xs)) : GoodDrops env (acts env M c xs) := by
  intro i t m ev hi
  obtain ⟨k, hk, p, en, m', g1, g2, s, hs, l, g3, g4⟩ := h1 i t m ev hi
  obtain ⟨y, f1, f2⟩ : ∃ y, (acts env M c xs)[k]? = some y ∧ y.1 = .op t (.getPair p) (some (en, m')) := by simpa [dids] using g1
  obtain ⟨v, rfl⟩ := reads_acts f1 f2
  obtain ⟨⟨ev', m1, e1, _, j, hj, _, e2⟩, _⟩ := h2 k t p _ v f1
  cases e1
  exact ⟨s, p, en, j, by omega, by omega, ⟨l, g3, g4⟩, e2 s _ hs ⟨l, g3, g4⟩, g2⟩

theorem passes_good {c : Conf} {xs : List PChoice} (h1 : Passes env (dids (acts env M c xs))) (h2 : GoodReads (acts env M c xs)) : GoodPasses env (acts env M c xs) := by
  intro i t p e m hi hd
  obtain ⟨c0, ev, s, l, h3, h4, h5, h6, h7, h8, h9⟩ := h1 i t p e m hi hd
  refine ⟨c0, s, ev, l, h3, h4, h5, h6, h7, h8, fun p hp => ?_⟩
  obtain ⟨k, hk, hki, en, m', g1, g2⟩ := h9 p hp
  obtain ⟨y, f1, f2⟩ : ∃ y, (acts env M c xs)[k]? = some y ∧ y.1 = .op t (.getPair p) (some (en, m')) := by simpa [dids] using g1
  obtain ⟨v, rfl⟩ := reads_acts f1 f2
  obtain ⟨⟨ev', m1, e1, _, j, hj, _, e2⟩, _⟩ := h2 k t p _ v f1
  cases e1
  exact ⟨j, en, by omega, e2 s _ hk ⟨l, h7, hp⟩, g2⟩

theorem k_initial {c : Conf} (h : Initial c) : K env [] (fun _ => []) c where
  ok t := by rw [h.idle t]
  busy t ht := absurd (h.idle t) ht
  own := own_initial env c h
  j := j_initial env c h
  last p := Or.inl ⟨by simp [content, h.pair], fun k u hk => by obtain ⟨a, h, _⟩ := hk; cases h⟩
  good i t p r v hi := by cases hi

end Verif.Checks
