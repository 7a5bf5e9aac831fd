import Verif.Spec.Maps
/-
Proofs for C86: a hash map and an association list stand for the same function.
-/

namespace Verif.Maps
open Spec.Maps

variable {V : Type}

theorem objectsEquals_iff (a b : Option String) : objectsEquals a b = true ↔ a = b := by
  cases a <;> cases b <;> simp [objectsEquals]

theorem equals_iff (heap : Ref → Fields) (a b : Ref) : equals heap a (some b) = true ↔ heap a = heap b := by
  unfold equals
  by_cases h : a = b
  · simp [h]
  · simp only [h, if_false]
    by_cases hc : (heap a).cls = (heap b).cls
    · simp only [hc, ne_eq, not_true_eq_false, if_false, objectsEquals_iff]
      constructor
      · intro hn
        cases ha : heap a; cases hb : heap b
        rw [ha, hb] at hc hn
        simp_all
      · intro hh; rw [hh]
    · simp only [ne_eq, hc, not_false_eq_true, if_true, Bool.false_eq_true, false_iff]
      intro hh; exact hc (by rw [hh])

theorem contract_named (strHash : String → Nat) (heap : Ref → Fields) : Contract (named strHash heap) where
  refl := fun a => (equals_iff heap a a).2 rfl
  symm := fun a b h => (equals_iff heap b a).2 ((equals_iff heap a b).1 h).symm
  trans := fun a b c h1 h2 => (equals_iff heap a c).2 (((equals_iff heap a b).1 h1).trans ((equals_iff heap b c).1 h2))
  null := fun _ => rfl
  hash := fun a b h => by
    show hashCode strHash heap a = hashCode strHash heap b
    unfold hashCode
    rw [(equals_iff heap a b).1 h]

variable {ks : Keys}

theorem same_refl (hc : Contract ks) (a : Option Ref) : same ks a a = true := by
  cases a with
  | none => rfl
  | some a => exact hc.refl a
theorem same_symm (hc : Contract ks) {a b : Option Ref} (h : same ks a b = true) : same ks b a = true := by
  cases a <;> cases b <;> first | exact h | exact hc.symm _ _ h
theorem same_trans (hc : Contract ks) {a b c : Option Ref} (h1 : same ks a b = true) (h2 : same ks b c = true) : same ks a c = true := by
  cases a <;> cases b <;> cases c <;> first | rfl | (cases h1; done) | (cases h2; done) | exact hc.trans _ _ _ h1 h2
theorem same_hash (hc : Contract ks) {a b : Option Ref} (h : same ks a b = true) : ks.hashOf a = ks.hashOf b := by
  cases a <;> cases b <;> first | rfl | (cases h; done) | exact hc.hash _ _ h

theorem hits_iff (hc : Contract ks) {k : Option Ref} {n : Node V} (hn : n.hash = ks.hashOf n.key) : ks.hits k n = true ↔ same ks k n.key = true := by
  unfold Keys.hits
  constructor
  · intro h
    simp only [Bool.and_eq_true, Bool.or_eq_true, decide_eq_true_eq] at h
    rcases h.2 with h1 | h1
    · rw [h1]; exact same_refl hc k
    · cases k with
      | none => cases h1
      | some k =>
        cases hk : n.key with
        | none => rw [hk] at h1; have h2 : ks.equals k none = true := h1; rw [hc.null] at h2; cases h2
        | some k' => rw [hk] at h1; exact h1
  · intro h
    simp only [Bool.and_eq_true, Bool.or_eq_true, decide_eq_true_eq]
    refine ⟨by rw [hn, same_hash hc h], ?_⟩
    cases k with
    | none => cases hk : n.key with
      | none => exact .inl rfl
      | some k' => rw [hk] at h; cases h
    | some k => cases hk : n.key with
      | none => rw [hk] at h; cases h
      | some k' => rw [hk] at h; exact .inr h

/-- The nodes of a map stand for the function `f`. -/
structure Rel (ks : Keys) (idx : Nat → Nat → Nat) (m : HMap V) (f : Option Ref → Option (Option V)) : Prop where
  pos : 0 < m.cap
  wf : ∀ i, ∀ n ∈ m.bin i, n.hash = ks.hashOf n.key ∧ idx m.cap n.hash = i
  dist : ∀ i, (m.bin i).Pairwise fun a b => same ks a.key b.key = false
  cont : ∀ k v, (∃ i, ∃ n ∈ m.bin i, same ks k n.key = true ∧ n.val = v) ↔ f k = some v

variable {idx : Nat → Nat → Nat} {m : HMap V} {f : Option Ref → Option (Option V)}

theorem Rel.node (hc : Contract ks) (h : Rel ks idx m f) (k : Option Ref) : (m.node ks idx k).map (·.val) = f k := by
  unfold HMap.node
  cases hf : (m.bin (idx m.cap (ks.hashOf k))).find? (ks.hits k) with
  | some n =>
    have h1 := List.mem_of_find?_eq_some hf
    have h2 := List.find?_some hf
    exact ((h.cont k n.val).1 ⟨_, n, h1, (hits_iff hc (h.wf _ _ h1).1).1 h2, rfl⟩).symm
  | none =>
    cases hk : f k with
    | none => rfl
    | some v =>
      obtain ⟨i, n, hn, hs, -⟩ := (h.cont k v).2 hk
      obtain ⟨w1, w2⟩ := h.wf i n hn
      have hi : idx m.cap (ks.hashOf k) = i := by rw [same_hash hc hs, ← w1, w2]
      rw [hi] at hf
      exact absurd ((hits_iff hc w1).2 hs) (by simpa using List.find?_eq_none.1 hf n hn)

theorem mem_putBin {k : Option Ref} {v : Option V} {ns : List (Node V)} {n : Node V} (h : n ∈ putBin ks k v ns) :
    (n.key = k ∧ n.hash = ks.hashOf k) ∨ ∃ n0 ∈ ns, n.key = n0.key ∧ n.hash = n0.hash := by
  induction ns with
  | nil => simp only [putBin, List.mem_singleton] at h; subst h; exact .inl ⟨rfl, rfl⟩
  | cons x ns ih =>
    unfold putBin at h
    split at h
    · rcases List.mem_cons.1 h with rfl | h
      · exact .inr ⟨x, by simp, rfl, rfl⟩
      · exact .inr ⟨n, by simp [h], rfl, rfl⟩
    · rcases List.mem_cons.1 h with rfl | h
      · exact .inr ⟨n, by simp, rfl, rfl⟩
      · rcases ih h with h | ⟨n0, h0, h1⟩
        · exact .inl h
        · exact .inr ⟨n0, by simp [h0], h1⟩

theorem not_same_of {a b : Option Ref} (h : same ks a b ≠ true) : same ks a b = false := by simpa using h

theorem putBin_dist (hc : Contract ks) {k : Option Ref} {v : Option V} {ns : List (Node V)} (hw : ∀ n ∈ ns, n.hash = ks.hashOf n.key)
    (hd : ns.Pairwise fun a b => same ks a.key b.key = false) : (putBin ks k v ns).Pairwise fun a b => same ks a.key b.key = false := by
  induction ns with
  | nil => simp [putBin]
  | cons x ns ih =>
    have hd' := List.pairwise_cons.1 hd
    unfold putBin
    split
    · exact List.pairwise_cons.2 ⟨fun y hy => hd'.1 y hy, hd'.2⟩
    · next hh =>
      refine List.pairwise_cons.2 ⟨fun y hy => ?_, ih (fun n hn => hw n (by simp [hn])) hd'.2⟩
      rcases mem_putBin hy with ⟨h1, -⟩ | ⟨n0, h0, h1, -⟩
      · refine not_same_of fun hs => hh ((hits_iff hc (hw x (by simp))).2 ?_)
        rw [h1] at hs
        exact same_symm hc hs
      · rw [h1]; exact hd'.1 n0 h0

theorem putBin_cont (hc : Contract ks) {k : Option Ref} {v : Option V} {ns : List (Node V)} (hw : ∀ n ∈ ns, n.hash = ks.hashOf n.key)
    (hd : ns.Pairwise fun a b => same ks a.key b.key = false) (k' : Option Ref) (v' : Option V) :
    (∃ n ∈ putBin ks k v ns, same ks k' n.key = true ∧ n.val = v') ↔
      if same ks k k' = true then v' = v else ∃ n ∈ ns, same ks k' n.key = true ∧ n.val = v' := by
  induction ns with
  | nil =>
    simp only [putBin, List.mem_singleton, exists_eq_left, List.not_mem_nil, false_and, exists_false]
    split
    · next hs => exact ⟨fun h => h.2.symm, fun h => ⟨same_symm hc hs, h.symm⟩⟩
    · next hs => exact ⟨fun h => absurd (same_symm hc h.1) hs, False.elim⟩
  | cons x ns ih =>
    have hd' := List.pairwise_cons.1 hd
    have ih := ih (fun n hn => hw n (by simp [hn])) hd'.2
    have hx := hits_iff hc (k := k) (hw x (by simp))
    unfold putBin
    by_cases hh : ks.hits k x = true
    · rw [if_pos hh]
      have hkx := hx.1 hh
      simp only [List.mem_cons, exists_eq_or_imp]
      have hno : same ks k k' = true → ¬ ∃ n ∈ ns, same ks k' n.key = true ∧ n.val = v' := by
        rintro hs ⟨n, hn, h1, -⟩
        have := same_trans hc (same_symm hc hkx) (same_trans hc hs h1)
        rw [hd'.1 n hn] at this; cases this
      split
      · next hs =>
        constructor
        · rintro (⟨-, h⟩ | h)
          · exact h.symm
          · exact absurd h (hno hs)
        · exact fun h => .inl ⟨same_trans hc (same_symm hc hs) hkx, h.symm⟩
      · next hs =>
        have hk' : same ks k' x.key ≠ true := fun h => hs (same_trans hc hkx (same_symm hc h))
        constructor
        · rintro (⟨h, -⟩ | h)
          · exact absurd h hk'
          · exact .inr h
        · rintro (⟨h, -⟩ | h)
          · exact absurd h hk'
          · exact .inr h
    · rw [if_neg hh]
      have hkx : same ks k x.key ≠ true := fun h => hh (hx.2 h)
      simp only [List.mem_cons, exists_eq_or_imp, ih]
      split
      · next hs =>
        constructor
        · rintro (⟨h, -⟩ | h)
          · exact absurd (same_trans hc hs h) hkx
          · exact h
        · exact .inr
      · exact Iff.rfl

theorem Rel.put (hc : Contract ks) (h : Rel ks idx m f) (k : Option Ref) (v : Option V) :
    Rel ks idx (m.put ks idx k v) (fun k' => if same ks k k' then some v else f k') where
  pos := h.pos
  wf := fun i n hn => by
    have hn' : n ∈ (if i = idx m.cap (ks.hashOf k) then putBin ks k v (m.bin i) else m.bin i) := hn
    show n.hash = ks.hashOf n.key ∧ idx m.cap n.hash = i
    split at hn'
    · next hi =>
      rcases mem_putBin hn' with ⟨h1, h2⟩ | ⟨n0, h0, h1, h2⟩
      · exact ⟨by rw [h2, h1], by rw [h2, hi]⟩
      · rw [h1, h2]; exact h.wf i n0 h0
    · exact h.wf i n hn'
  dist := fun i => by
    show (if i = idx m.cap (ks.hashOf k) then putBin ks k v (m.bin i) else m.bin i).Pairwise _
    split
    · exact putBin_dist hc (fun n hn => (h.wf i n hn).1) (h.dist i)
    · exact h.dist i
  cont := fun k' v' => by
    have hp : ∀ i, _ := fun i => putBin_cont hc (k := k) (v := v) (fun n hn => (h.wf i n hn).1) (h.dist i) k' v'
    have hb : ∀ i, (m.put ks idx k v).bin i = if i = idx m.cap (ks.hashOf k) then putBin ks k v (m.bin i) else m.bin i := fun _ => rfl
    by_cases hs : same ks k k' = true
    · simp only [hs, if_true] at hp ⊢
      constructor
      · rintro ⟨i, n, hn, h1, h2⟩
        rw [hb] at hn
        split at hn
        · rw [(hp i).1 ⟨n, hn, h1, h2⟩]
        · next hi =>
          obtain ⟨w1, w2⟩ := h.wf i n hn
          exact absurd (by rw [← w2, w1, same_hash hc (same_trans hc hs h1)]) hi
      · intro hv
        obtain ⟨n, hn, h1⟩ := (hp (idx m.cap (ks.hashOf k))).2 (Option.some.inj hv).symm
        exact ⟨idx m.cap (ks.hashOf k), n, by rw [hb, if_pos rfl]; exact hn, h1⟩
    · simp only [hs, if_false, Bool.false_eq_true] at hp ⊢
      rw [← h.cont k' v']
      constructor
      · rintro ⟨i, n, hn, h1⟩
        rw [hb] at hn
        split at hn
        · exact ⟨i, (hp i).1 ⟨n, hn, h1⟩⟩
        · exact ⟨i, n, hn, h1⟩
      · rintro ⟨i, hn⟩
        by_cases hi : i = idx m.cap (ks.hashOf k)
        · obtain ⟨n, hn, h1⟩ := (hp i).2 hn
          exact ⟨i, n, by rw [hb, if_pos hi]; exact hn, h1⟩
        · obtain ⟨n, hn, h1⟩ := hn
          exact ⟨i, n, by rw [hb, if_neg hi]; exact hn, h1⟩

theorem Rel.mem_nodes (hidx : ∀ cap h, 0 < cap → idx cap h < cap) (h : Rel ks idx m f) (n : Node V) : n ∈ m.nodes ↔ ∃ i, n ∈ m.bin i := by
  unfold HMap.nodes
  simp only [List.mem_flatMap, List.mem_range]
  constructor
  · rintro ⟨i, -, hn⟩; exact ⟨i, hn⟩
  · rintro ⟨i, hn⟩
    exact ⟨i, by rw [← (h.wf i n hn).2]; exact hidx _ _ h.pos, hn⟩

theorem Rel.resize (hc : Contract ks) (hidx : ∀ cap h, 0 < cap → idx cap h < cap) (h : Rel ks idx m f) {cap : Nat} (hcap : m.cap ≤ cap) :
    Rel ks idx (m.resize idx cap) f where
  pos := Nat.lt_of_lt_of_le h.pos hcap
  wf := fun i n hn => by
    have hn' : n ∈ m.nodes.filter fun n => idx cap n.hash = i := hn
    obtain ⟨h1, h2⟩ := List.mem_filter.1 hn'
    obtain ⟨j, hj⟩ := (h.mem_nodes hidx n).1 h1
    exact ⟨(h.wf j n hj).1, of_decide_eq_true h2⟩
  dist := fun i => by
    refine List.Pairwise.filter _ ?_
    refine List.pairwise_flatMap.2 ⟨fun i _ => h.dist i, ?_⟩
    refine List.Pairwise.imp (fun {a b} (hab : a < b) x hx y hy => ?_) List.pairwise_lt_range
    refine not_same_of fun hs => ?_
    obtain ⟨w1, w2⟩ := h.wf a x hx
    obtain ⟨w3, w4⟩ := h.wf b y hy
    rw [w1, same_hash hc hs, ← w3, w4] at w2
    omega
  cont := fun k v => by
    rw [← h.cont k v]
    constructor
    · rintro ⟨i, n, hn, h1⟩
      have hn' : n ∈ m.nodes.filter fun n => idx cap n.hash = i := hn
      obtain ⟨j, hj⟩ := (h.mem_nodes hidx n).1 (List.mem_filter.1 hn').1
      exact ⟨j, n, hj, h1⟩
    · rintro ⟨i, n, hn, h1⟩
      exact ⟨idx cap n.hash, n, List.mem_filter.2 ⟨(h.mem_nodes hidx n).2 ⟨i, hn⟩, by simp⟩, h1⟩

theorem rel_new {cap : Nat} (h : 0 < cap) : Rel ks idx (HMap.new cap : HMap V) (fun _ => none) where
  pos := h
  wf := fun _ _ hn => by cases hn
  dist := fun _ => List.Pairwise.nil
  cont := fun k v => ⟨(fun ⟨_, _, hn, _⟩ => by cases hn), (fun h => by cases h)⟩

/-- Every key that has a value is that of a node. -/
theorem Rel.keys (hc : Contract ks) (hidx : ∀ cap h, 0 < cap → idx cap h < cap) (h : Rel ks idx m f) (n : Node V) (hn : n ∈ m.nodes) : f n.key = some n.val := by
  obtain ⟨i, hi⟩ := (h.mem_nodes hidx n).1 hn
  exact (h.cont _ _).1 ⟨i, n, hi, same_refl hc _, rfl⟩

theorem bind_val (o : Option (Node V)) : o.bind (·.val) = (o.map (·.val)).join := by cases o <;> rfl

theorem hstep (hc : Contract ks) (hidx : ∀ cap h, 0 < cap → idx cap h < cap) (h : Rel ks idx m f) (o : MOp V) :
    Rel ks idx (m.step ks idx o).1 (after ks f o) ∧ Answer f o (m.step ks idx o).2 := by
  have hnode := h.node hc
  cases o with
  | get k => exact ⟨h, by show Res.val _ = Res.val _; rw [bind_val, hnode]⟩
  | containsKey k =>
    refine ⟨h, _, rfl, ?_⟩
    rw [← hnode k]
    cases m.node ks idx k <;> simp
  | put k v => exact ⟨h.put hc k v, rfl⟩
  | putIfAbsent k v =>
    have hb : (m.node ks idx k).bind (·.val) = (f k).join := by rw [bind_val, hnode]
    have hput := h.put hc k v
    simp only [HMap.step]
    split
    · next x hx =>
      rw [hb] at hx
      refine ⟨?_, rfl⟩
      have : after ks f (.putIfAbsent k v) = f := by
        funext k'; show (if (f k).join = none ∧ _ then _ else _) = _
        rw [if_neg (by rw [hx]; simp)]
      rw [this]; exact h
    · next hx =>
      rw [hb] at hx
      refine ⟨?_, rfl⟩
      have : after ks f (.putIfAbsent k v) = fun k' => if same ks k k' then some v else f k' := by
        funext k'; show (if (f k).join = none ∧ same ks k k' = true then _ else _) = _
        simp [hx]
      rw [this]; exact hput
  | isEmpty =>
    refine ⟨h, _, rfl, ?_⟩
    rw [List.isEmpty_iff]
    constructor
    · intro hn k
      cases hk : f k with
      | none => rfl
      | some v =>
        obtain ⟨i, n, hi, -⟩ := (h.cont k v).2 hk
        have := (h.mem_nodes hidx n).2 ⟨i, hi⟩
        rw [hn] at this; cases this
    · intro hk
      refine List.eq_nil_iff_forall_not_mem.2 fun n hn => ?_
      have := h.keys hc hidx n hn
      rw [hk] at this; cases this
  | hasNull =>
    refine ⟨h, _, rfl, ?_⟩
    rw [List.any_eq_true]
    constructor
    · rintro ⟨n, hn, hv⟩
      refine ⟨n.key, ?_⟩
      rw [h.keys hc hidx n hn]
      cases hx : n.val with
      | none => rfl
      | some _ => rw [hx] at hv; cases hv
    · rintro ⟨k, hk⟩
      obtain ⟨i, n, hi, -, hv⟩ := (h.cont k none).2 hk
      exact ⟨n, (h.mem_nodes hidx n).2 ⟨i, hi⟩, by rw [hv]; rfl⟩
  | resize cap =>
    refine ⟨?_, rfl⟩
    simp only [HMap.step]
    split
    · next hcap => exact h.resize hc hidx hcap
    · exact h

theorem hresults (hc : Contract ks) (hidx : ∀ cap h, 0 < cap → idx cap h < cap) (h : Rel ks idx m f) (os : List (MOp V)) :
    Answers ks f os (m.results ks idx os) := by
  induction os generalizing m f with
  | nil => rfl
  | cons o os ih =>
    obtain ⟨h1, h2⟩ := hstep hc hidx h o
    exact ⟨_, _, rfl, h2, ih h1⟩

/-! ### Association lists -/

variable {N : Type} [DecidableEq N] {name : Option Ref → N} {a : AMap N (Option V)}

structure ARel (name : Option Ref → N) (a : AMap N (Option V)) (f : Option Ref → Option (Option V)) : Prop where
  get : ∀ k, f k = AMap.get? a (name k)
  keyed : AMap.Keyed a
  named : ∀ e ∈ a, ∃ k, name k = e.1

theorem named_put {k : Option Ref} {v : Option V} (h : ∀ e ∈ a, ∃ k, name k = e.1) : ∀ e ∈ AMap.put a (name k) v, ∃ k, name k = e.1 := by
  induction a with
  | nil => intro e he; simp only [AMap.put, List.mem_singleton] at he; subst he; exact ⟨k, rfl⟩
  | cons x l ih =>
    intro e he
    obtain ⟨x1, x2⟩ := x
    simp only [AMap.put] at he
    split at he
    · next hx =>
      rcases List.mem_cons.1 he with rfl | he
      · exact ⟨k, hx.symm⟩
      · exact h e (by simp [he])
    · rcases List.mem_cons.1 he with rfl | he
      · exact h _ (by simp)
      · exact ih (fun e he => h e (by simp [he])) e he

theorem ARel.put (hname : ∀ k k', name k = name k' ↔ same ks k k' = true) (h : ARel name a f) (k : Option Ref) (v : Option V) :
    ARel name (AMap.put a (name k) v) (fun k' => if same ks k k' then some v else f k') where
  get := fun k' => by
    rw [AMap.get?_put, h.get]
    by_cases hs : same ks k k' = true
    · simp [hs, (hname k k').2 hs]
    · have : name k ≠ name k' := fun hn => hs ((hname k k').1 hn)
      simp [hs, this]
  keyed := h.keyed.put _ _
  named := named_put h.named

theorem astep (hname : ∀ k k', name k = name k' ↔ same ks k k' = true) (h : ARel name a f) (o : MOp V) :
    ARel name (aStep name a o).1 (after ks f o) ∧ Answer f o (aStep name a o).2 := by
  cases o with
  | get k => exact ⟨h, by show Res.val _ = Res.val _; rw [h.get]⟩
  | containsKey k =>
    refine ⟨h, _, rfl, ?_⟩
    rw [h.get k]
    cases AMap.get? a (name k) <;> simp
  | put k v => exact ⟨h.put hname k v, rfl⟩
  | putIfAbsent k v =>
    have hput := h.put hname k v
    simp only [aStep]
    split
    · next x hx =>
      rw [← h.get] at hx
      refine ⟨?_, rfl⟩
      have : after ks f (.putIfAbsent k v) = f := by
        funext k'; show (if (f k).join = none ∧ _ then _ else _) = _
        rw [if_neg (by rw [hx]; simp)]
      rw [this]; exact h
    · next hx =>
      rw [← h.get] at hx
      refine ⟨?_, rfl⟩
      have : after ks f (.putIfAbsent k v) = fun k' => if same ks k k' then some v else f k' := by
        funext k'; show (if (f k).join = none ∧ same ks k k' = true then _ else _) = _
        simp [hx]
      rw [this]; exact hput
  | isEmpty =>
    refine ⟨h, _, rfl, ?_⟩
    rw [List.isEmpty_iff]
    constructor
    · intro hn k
      rw [h.get, hn]; rfl
    · intro hk
      refine List.eq_nil_iff_forall_not_mem.2 fun e he => ?_
      obtain ⟨k, hke⟩ := h.named e he
      have := h.keyed.get?_of_mem (x := e.1) (v := e.2) he
      rw [← hke, ← h.get, hk] at this; cases this
  | hasNull =>
    refine ⟨h, _, rfl, ?_⟩
    rw [List.any_eq_true]
    constructor
    · rintro ⟨e, he, hv⟩
      obtain ⟨k, hke⟩ := h.named e he
      have := h.keyed.get?_of_mem (x := e.1) (v := e.2) he
      rw [← hke, ← h.get] at this
      refine ⟨k, ?_⟩
      rw [this]
      cases hx : e.2 with
      | none => rfl
      | some _ => rw [hx] at hv; cases hv
    · rintro ⟨k, hk⟩
      rw [h.get] at hk
      exact ⟨_, AMap.get?_some_mem hk, rfl⟩
  | resize cap => exact ⟨h, rfl⟩

theorem aresults (hname : ∀ k k', name k = name k' ↔ same ks k k' = true) (h : ARel name a f) (os : List (MOp V)) :
    Answers ks f os (aResults name a os) := by
  induction os generalizing a f with
  | nil => rfl
  | cons o os ih =>
    obtain ⟨h1, h2⟩ := astep hname h o
    exact ⟨_, _, rfl, h2, ih h1⟩

/-- There is only one right answer. -/
theorem answer_unique {o : MOp V} {r r' : Res V} (h : Answer f o r) (h' : Answer f o r') : r = r' := by
  cases o with
  | containsKey k => obtain ⟨b, rfl, h1⟩ := h; obtain ⟨b', rfl, h2⟩ := h'; rw [Bool.eq_iff_iff.2 (h1.trans h2.symm)]
  | isEmpty => obtain ⟨b, rfl, h1⟩ := h; obtain ⟨b', rfl, h2⟩ := h'; rw [Bool.eq_iff_iff.2 (h1.trans h2.symm)]
  | hasNull => obtain ⟨b, rfl, h1⟩ := h; obtain ⟨b', rfl, h2⟩ := h'; rw [Bool.eq_iff_iff.2 (h1.trans h2.symm)]
  | _ => exact Eq.trans h (Eq.symm h')

theorem answers_unique {os : List (MOp V)} {rs rs' : List (Res V)} (h : Answers ks f os rs) (h' : Answers ks f os rs') : rs = rs' := by
  induction os generalizing f rs rs' with
  | nil => exact Eq.trans h (Eq.symm h')
  | cons o os ih =>
    obtain ⟨r, rs1, rfl, h1, h2⟩ := h
    obtain ⟨r', rs2, rfl, h3, h4⟩ := h'
    rw [answer_unique h1 h3, ih h2 h4]

end Verif.Maps
