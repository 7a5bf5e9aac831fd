import Verif.Proofs.HBPairs
import Verif.Proofs.HBCur
import Verif.Spec.Plain
/-
Accesses to payloads of events.
-/

namespace Verif
open Verif.Spec.HB Verif.Spec.Plain

/-- Before a thread puts an event into a pair, it reads the payload of that event, or makes the event as a copy. What is read from pairs has been put there. -/
structure PayInv (H : List Did) (lst : Tid → List Frame) (w : World) : Prop where
  raw : ∀ t, ∀ f ∈ lst t, ∀ m ev p, f = .fire m ev (.raw p) → ∃ (k : Nat) (d : Did), H[k]? = some d ∧ d.tid = t ∧ d.reads (.payload ev.oid)
  copied : ∀ t, ∀ f ∈ lst t, ∀ m ev p e, f = .fire m ev (.copied p e) → ∃ (k : Nat) (d : Did), H[k]? = some d ∧ d.tid = t ∧ d.writes (.payload e.oid)
  set : ∀ (j : Nat) t p ev m, H[j]? = some (.op t (.setPair p ev m) ()) →
    ∃ k < j, ∃ d, H[k]? = some d ∧ d.tid = t ∧ (d.reads (.payload ev.oid) ∨ d.writes (.payload ev.oid))
  pair : ∀ p ev m, w.pair p = some (ev, m) → ∃ (j : Nat) (u : Tid), H[j]? = some (.op u (.setPair p ev m) ())
  get : ∀ (k : Nat) t p ev m, H[k]? = some (.op t (.getPair p) (some (ev, m))) → ∃ j < k, ∃ u m', H[j]? = some (.op u (.setPair p ev m') ())

section
variable {env : Env} {H : List Did} {lst : Tid → List Frame} {w : World} {t : Tid} {o : Op} {l' : List Frame} {f f' : Frame}

theorem move_raw {m : MId} {ev : Ev} {p : PairId} (hm : Move env w f o f') (h : f' = .fire m ev (.raw p)) : o = .getPayload ev.oid := by
  cases hm with
  | fPay0 _ => cases h; rfl
  | stCas1 hf _ _ => rcases hf.inv with ⟨rfl, _⟩ | ⟨rfl, _⟩ <;> cases h
  | stCas0 hf _ _ => rcases hf.inv with ⟨rfl, _⟩ | ⟨rfl, _⟩ <;> cases h
  | stSet hf => rcases hf.inv with ⟨rfl, _⟩ | ⟨rfl, _⟩ <;> cases h
  | stClear hf _ => rcases hf.inv with ⟨rfl, _⟩ | ⟨rfl, _⟩ <;> cases h
  | stPh hf _ _ => rcases hf.inv with ⟨rfl, _⟩ | ⟨rfl, _⟩ <;> cases h
  | _ => cases h

theorem move_copied {m : MId} {ev : Ev} {p : PairId} {e : Ev} (hm : Move env w f o f') (h : f' = .fire m ev (.copied p e)) :
    o = .newCopy ev ∧ e = ⟨0, ev.name, .copy w.nextCopy⟩ := by
  cases hm with
  | fCopy => cases h; exact ⟨rfl, rfl⟩
  | stCas1 hf _ _ => rcases hf.inv with ⟨rfl, _⟩ | ⟨rfl, _⟩ <;> cases h
  | stCas0 hf _ _ => rcases hf.inv with ⟨rfl, _⟩ | ⟨rfl, _⟩ <;> cases h
  | stSet hf => rcases hf.inv with ⟨rfl, _⟩ | ⟨rfl, _⟩ <;> cases h
  | stClear hf _ => rcases hf.inv with ⟨rfl, _⟩ | ⟨rfl, _⟩ <;> cases h
  | stPh hf _ _ => rcases hf.inv with ⟨rfl, _⟩ | ⟨rfl, _⟩ <;> cases h
  | _ => cases h

theorem move_setPair {p : PairId} {ev : Ev} {m : MId} (hm : Move env w f (.setPair p ev m) f') :
    (f = .fire m ev (.raw p)) ∨ ∃ ev0, f = .fire m ev0 (.copied p ev) := by
  generalize ho : Op.setPair p ev m = o at hm
  cases hm with
  | drPh ha => subst ho; cases phAllowed_op ha
  | stPh hf hs ha => subst ho; cases hs
  | fSetRaw => cases ho; exact Or.inl rfl
  | fSetCopied => cases ho; exact Or.inr ⟨_, rfl⟩
  | _ => cases ho

theorem PayInv.sub {lst' : Tid → List Frame} {w' : World} (h : PayInv H lst w) (hl : ∀ t, ∀ f ∈ lst' t, f ∈ lst t ∨ f.isDrain = true) (hw : w'.pair = w.pair) :
    PayInv H lst' w' := by
  refine ⟨fun t f hf m ev p he => ?_, fun t f hf m ev p e he => ?_, h.set, by rw [hw]; exact h.pair, h.get⟩
  · rcases hl t f hf with hf | hf
    · exact h.raw t f hf m ev p he
    · subst he; cases hf
  · rcases hl t f hf with hf | hf
    · exact h.copied t f hf m ev p e he
    · subst he; cases hf

theorem exec_pairs (h : ∀ p ev m, o ≠ .setPair p ev m) : (exec t o w).2.pair = w.pair := by
  cases o <;> simp only [exec] <;> (try rfl) <;> (repeat' split) <;> (try rfl)
  exact absurd rfl (h _ _ _)

end

theorem pay_hinv (env : Env) (A : (Tid → List Frame) → World → Prop) : HInv env A (fun H lst w => PayInv H lst w) where
  op := by
    intro H lst w t o l' _ h hm _
    have hf : ∀ u, ∀ f ∈ fset lst t l' u, f ∈ lst u ∨ (u = t ∧ ((∃ c, f = .ofApi c) ∨ ∃ g rest, lst t = g :: rest ∧ Move env w g o f)) := by
      intro u f hf
      by_cases hu : u = t
      · subst hu
        rw [fset_same] at hf
        rcases new_frames hm hf with h1 | ⟨c, _, h1, _⟩ | h1
        · exact Or.inl h1
        · exact Or.inr ⟨rfl, Or.inl ⟨c, h1⟩⟩
        · exact Or.inr ⟨rfl, Or.inr h1⟩
      · rw [fset_ne _ _ hu] at hf
        exact Or.inl hf
    refine ⟨?_, ?_, ?_, ?_, ?_⟩
    · intro u f hfu m ev p he
      rcases hf u f hfu with h1 | ⟨rfl, ⟨c, h1⟩ | ⟨g, rest, _, h1⟩⟩
      · obtain ⟨k, d, h2, h3⟩ := h.raw u f h1 m ev p he
        exact ⟨k, d, get_snoc h2, h3⟩
      · subst he; cases c <;> cases h1
      · have ho := move_raw h1 he
        subst ho
        exact ⟨H.length, _, last_snoc, rfl, rfl⟩
    · intro u f hfu m ev p e he
      rcases hf u f hfu with h1 | ⟨rfl, ⟨c, h1⟩ | ⟨g, rest, _, h1⟩⟩
      · obtain ⟨k, d, h2, h3⟩ := h.copied u f h1 m ev p e he
        exact ⟨k, d, get_snoc h2, h3⟩
      · subst he; cases c <;> cases h1
      · obtain ⟨ho, rfl⟩ := move_copied h1 he
        subst ho
        exact ⟨H.length, _, last_snoc, rfl, rfl⟩
    · intro j u p ev m hj
      rcases snoc_get.1 hj with hj | ⟨rfl, he⟩
      · obtain ⟨k, hk, d, h1, h2⟩ := h.set j u p ev m hj
        exact ⟨k, hk, d, get_snoc h1, h2⟩
      · clear hj
        cases he
        generalize hl : lst t = l at hm
        cases hm with
        | user _ h2 => exact h2.elim
        | @frame f f' rest o hm =>
          have hmem : f ∈ lst t := by rw [hl]; exact List.mem_cons_self
          rcases move_setPair hm with rfl | ⟨ev0, rfl⟩
          · obtain ⟨k, d, h1, h2, h3⟩ := h.raw t _ hmem m ev p rfl
            exact ⟨k, get_lt h1, d, get_snoc h1, h2, Or.inl h3⟩
          · obtain ⟨k, d, h1, h2, h3⟩ := h.copied t _ hmem m ev0 p ev rfl
            exact ⟨k, get_lt h1, d, get_snoc h1, h2, Or.inr h3⟩
    · intro p ev m hp
      by_cases ho : ∃ p ev m, o = .setPair p ev m
      · obtain ⟨p', ev', m', rfl⟩ := ho
        simp only [exec] at hp
        by_cases hpp : p = p'
        · subst hpp
          rw [fset_same] at hp
          cases hp
          exact ⟨H.length, t, last_snoc⟩
        · rw [fset_ne _ _ hpp] at hp
          obtain ⟨j, u, hj⟩ := h.pair p ev m hp
          exact ⟨j, u, get_snoc hj⟩
      · rw [exec_pairs fun p ev m he => ho ⟨p, ev, m, he⟩] at hp
        obtain ⟨j, u, hj⟩ := h.pair p ev m hp
        exact ⟨j, u, get_snoc hj⟩
    · intro k u p ev m hk
      rcases snoc_get.1 hk with hk | ⟨rfl, he⟩
      · obtain ⟨j, hj, v, m', h1⟩ := h.get k u p ev m hk
        exact ⟨j, hj, v, m', get_snoc h1⟩
      · injection he with h1 h2 h3
        subst h2
        have h3 := eq_of_heq h3
        obtain ⟨j, v, hj⟩ := h.pair p ev m h3.symm
        exact ⟨j, get_lt hj, v, m, get_snoc hj⟩
  ret := by
    intro H lst w t _ h _
    refine h.sub (fun u f hf => ?_) rfl
    by_cases hu : u = t
    · subst hu; rw [fset_same] at hf; cases hf
    · rw [fset_ne _ _ hu] at hf; exact Or.inl hf
  thr := by
    intro H lst w t x _ h _
    refine h.sub (fun u f hf => ?_) rfl
    by_cases hu : u = t
    · subst hu; rw [fset_same] at hf; cases hf
    · rw [fset_ne _ _ hu] at hf; exact Or.inl hf
  dispatch := by
    intro H lst w e i j s m _ h _ _ _
    have h' : PayInv (H ++ [.take (.worker e i) e s m]) lst w := by
      refine ⟨fun t f hf m ev p he => ?_, fun t f hf m ev p e' he => ?_, fun j' t p ev m' hj => ?_, fun p ev m' hp => ?_, fun k t p ev m' hk => ?_⟩
      · obtain ⟨k, d, h1, h2⟩ := h.raw t f hf m ev p he
        exact ⟨k, d, get_snoc h1, h2⟩
      · obtain ⟨k, d, h1, h2⟩ := h.copied t f hf m ev p e' he
        exact ⟨k, d, get_snoc h1, h2⟩
      · rcases snoc_get.1 hj with hj | ⟨_, hj⟩
        · obtain ⟨k, hk, d, h1, h2⟩ := h.set j' t p ev m' hj
          exact ⟨k, hk, d, get_snoc h1, h2⟩
        · cases hj
      · obtain ⟨j', u, hj⟩ := h.pair p ev m' hp
        exact ⟨j', u, get_snoc hj⟩
      · rcases snoc_get.1 hk with hk | ⟨_, hk⟩
        · obtain ⟨j', hj, v, m2, h1⟩ := h.get k t p ev m' hk
          exact ⟨j', hj, v, m2, get_snoc h1⟩
        · cases hk
    refine h'.sub (fun u f hf => ?_) rfl
    by_cases hu : u = .worker e i
    · subst hu; rw [fset_same] at hf; simp [task] at hf; subst hf; exact Or.inr rfl
    · rw [fset_ne _ _ hu] at hf; exact Or.inl hf
  interrupt := fun H lst w t _ h => h.sub (fun _ _ hf => Or.inl hf) rfl
  shutdown := fun H lst w t _ h => h.sub (fun _ _ hf => Or.inl hf) rfl
  dropTasks := fun H lst w t _ h => h.sub (fun _ _ hf => Or.inl hf) rfl

theorem pay_initial (c : Conf) (h : Initial c) : PayInv [] (fun _ => []) c.w := by
  refine ⟨fun t f hf => ?_, fun t f hf => ?_, fun j t p ev m hj => ?_, fun p ev m hp => ?_, fun k t p ev m hk => ?_⟩
  · cases hf
  · cases hf
  · cases hj
  · rw [h.pair] at hp; cases hp
  · cases hk

/-- As `Handed`, for a certain way to get the event. -/
structure Via (R : Nat → PairId → Prop) (t0 : Tid) (o : EvOid) (H : List Did) : Prop where
  uses : ∀ (i : Nat) d, H[i]? = some d → d.reads (.payload o) ∨ d.writes (.payload o) →
    d.tid = t0 ∨ ∃ k < i, ∃ p ev m, H[k]? = some (.op d.tid (.getPair p) (some (ev, m))) ∧ R k p ∧ ev.oid = o
  sets : ∀ (i j : Nat) d u p ev m, H[i]? = some d → d.writes (.payload o) → H[j]? = some (.op u (.setPair p ev m) ()) → ev.oid = o → d.tid = t0 ∧ i < j

/-- Every use of the payload by another thread than the owner comes after everything that the owner has written, in the sense of happens-before. -/
theorem via_after {R : Nat → PairId → Prop} {H : List Did} {lst : Tid → List Frame} {w : World} {t0 : Tid} {oid : EvOid} (h : PayInv H lst w)
    (hrf : ∀ (l k : Nat) p a b, l < k → H[l]? = some a → Did.writes a (.pair p) → H[k]? = some b → Did.reads b (.pair p) → R k p → HB false H l k)
    (hh : Via R t0 oid H) {i j : Nat} {a b : Did} (hi : H[i]? = some a) (ha : a.writes (.payload oid))
    (hj : H[j]? = some b) (hb : b.reads (.payload oid) ∨ b.writes (.payload oid)) (hne : b.tid ≠ t0) : HB false H i j := by
  induction j using Nat.strongRecOn generalizing b with
  | ind j ih =>
    rcases hh.uses j b hj hb with h1 | ⟨k, hk, p, ev, m, h1, hR, rfl⟩
    · exact absurd h1 hne
    · obtain ⟨l, hl, u, m', h2⟩ := h.get k _ p ev m h1
      obtain ⟨h3, h4⟩ := hh.sets i l a u p ev m' hi ha h2 rfl
      have h5 : HB false H l k := hrf l k p _ _ hl h2 rfl h1 rfl hR
      have h6 : HB false H k j := .po hk h1 hj rfl
      by_cases hu : u = t0
      · subst hu
        exact .trans (.po h4 hi h2 h3) (.trans h5 h6)
      · obtain ⟨n, hn, d, h7, h8, h9⟩ := h.set l u p ev m' h2
        have h10 := ih n (by omega) h7 h9 (by rw [h8]; exact hu)
        exact .trans h10 (.trans (.po hn h7 h2 (by rw [h8]; rfl)) (.trans h5 h6))

theorem via_rf {R : Nat → PairId → Prop} {H : List Did} {lst : Tid → List Frame} {w : World} {t0 : Tid} {oid : EvOid} (h : PayInv H lst w)
    (hrf : ∀ (l k : Nat) p a b, l < k → H[l]? = some a → Did.writes a (.pair p) → H[k]? = some b → Did.reads b (.pair p) → R k p → HB false H l k)
    (hh : Via R t0 oid H) : RaceFree false H (.payload oid) := by
  -- a use by another thread: something has been put into a queue before
  have hset : ∀ (j : Nat) b, H[j]? = some b → b.reads (.payload oid) ∨ b.writes (.payload oid) → b.tid ≠ t0 →
      ∃ l < j, ∃ u p ev m, H[l]? = some (.op u (.setPair p ev m) ()) ∧ ev.oid = oid := by
    intro j b hj hb hne
    rcases hh.uses j b hj hb with h1 | ⟨k, hk, p, ev, m, h1, _, h1'⟩
    · exact absurd h1 hne
    · obtain ⟨l, hl, u, m', h2⟩ := h.get k _ p ev m h1
      exact ⟨l, by omega, u, p, ev, m', h2, h1'⟩
  intro i j a b hij hi hj ha hb hw
  by_cases hbt : b.tid = t0
  · by_cases hat : a.tid = t0
    · exact .po hij hi hj (hat.trans hbt.symm)
    · -- the owner writes after another thread has used the payload: impossible
      obtain ⟨l, hl, u, p, ev, m, h1, h2⟩ := hset i a hi ha hat
      rcases hw with hw | hw
      · exact absurd (hh.sets i l a u p ev m hi hw h1 h2).1 hat
      · have := (hh.sets j l b u p ev m hj hw h1 h2).2
        omega
  · rcases hw with hw | hw
    · exact via_after h hrf hh hi hw hj hb hbt
    · obtain ⟨l, hl, u, p, ev, m, h1, h2⟩ := hset j b hj hb hbt
      exact absurd (hh.sets j l b u p ev m hj hw h1 h2).1 hbt

theorem payload_rf {H : List Did} {lst : Tid → List Frame} {w : World} {t0 : Tid} {oid : EvOid} (h : PayInv H lst w)
    (hrf : ∀ p, RaceFree false H (.pair p)) (hh : Handed t0 oid H) : RaceFree false H (.payload oid) :=
  via_rf (R := fun _ _ => True) h (fun l k p a b hlk h1 h2 h3 h4 _ => hrf p l k a b hlk h1 h3 (Or.inr h2) (Or.inl h4) (Or.inl h2))
    ⟨fun i d hi hd => (hh.uses i d hi hd).imp id fun ⟨k, hk, p, ev, m, h1, h2⟩ => ⟨k, hk, p, ev, m, h1, trivial, h2⟩, hh.sets⟩

end Verif
