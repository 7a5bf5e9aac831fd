import Verif.Proofs.Plain
import Verif.Demo.Weak
/-
Concrete executions with reads of plain fields that are not sequentially consistent; checks.
-/

namespace Verif.Demo
open Verif.Spec.HB Verif.Spec.Plain Verif.Plain

variable (env : Env) (M : Cell → Prop) [DecidablePred M]

/-- Follow a schedule, skipping impossible steps. -/
def pdrive (c : Conf) : List PChoice → Conf
  | [] => c
  | x :: xs => match Plain.step env M c x with
    | none => pdrive c xs
    | some c' => pdrive c' xs

def phist (c : Conf) : List PChoice → List Act
  | [] => []
  | x :: xs => match Plain.step env M c x with
    | none => phist c xs
    | some c' => (act c x).toList ++ phist c' xs

theorem phist_real (c : Conf) (xs : List PChoice) : ∃ ys, Plain.runs env M c ys = some (pdrive env M c xs) ∧ Spec.Plain.acts env M c ys = phist env M c xs := by
  induction xs generalizing c with
  | nil => exact ⟨[], rfl, rfl⟩
  | cons x xs ih =>
    cases h : Plain.step env M c x with
    | none =>
      obtain ⟨ys, h1, h2⟩ := ih c
      exact ⟨ys, by rw [h1]; simp [pdrive, h], by rw [h2]; simp [phist, h]⟩
    | some c' =>
      obtain ⟨ys, h1, h2⟩ := ih c'
      refine ⟨x :: ys, ?_, ?_⟩
      · simp only [Plain.runs, h, h1]; simp [pdrive, h]
      · simp [Spec.Plain.acts, phist, h, h2]

/-- No write to `f` from `j` on may happen before `i`. -/
def popenB (f : Cell) (H : List Act) (j i : Nat) : Bool :=
  (List.range i).all fun k => k < j || (match H[k]? with | some a => ((puts a).all fun x => x.1 != f) || !may (dids H) k i | none => true)

theorem popen_of {wide : Bool} {H : List Act} {f : Cell} {j i k : Nat} {u : Content} (h : popenB f H j i = true) (hk : Puts H f k u) (hj : j ≤ k) :
    ¬HB wide (dids H) k i := by
  intro hb
  obtain ⟨a, h1, h2⟩ := hk
  have := List.all_eq_true.1 h k (List.mem_range.2 (HB.lt hb))
  simp only [h1, h2, may_of hb (dids_get h1)] at this
  simp at this
  omega

def pjustB (v0 : Content) (f : Cell) (H : List Act) (i : Nat) (v : Content) (b : Bool) : Bool :=
  (part b v == part b v0 && popenB f H 0 i) ||
  (List.range i).any fun j => (match H[j]? with | some a => ((puts a).any fun x => x.1 == f && part b v == part b x.2) | none => false) && popenB f H (j + 1) i

def pjustifiedB (v0 : Content) (f : Cell) (H : List Act) : Bool :=
  (List.range H.length).all fun i => match H[i]? with
    | some (_, some (g, v)) => g != f || (pjustB v0 f H i v true && pjustB v0 f H i v false)
    | _ => true

theorem pjustified_of {wide : Bool} {v0 : Content} {f : Cell} {H : List Act} (h : pjustifiedB v0 f H = true) : Justified wide v0 f H := by
  intro i d v hi b
  have := List.all_eq_true.1 h i (List.mem_range.2 (List.getElem?_eq_some_iff.1 hi).1)
  simp only [hi, bne_self_eq_false, Bool.false_or, Bool.and_eq_true] at this
  have this : pjustB v0 f H i v b = true := by cases b; exact this.2; exact this.1
  simp only [pjustB, Bool.or_eq_true, Bool.and_eq_true, beq_iff_eq] at this
  rcases this with ⟨h1, h2⟩ | h1
  · exact Or.inl ⟨h1, fun k u hk => popen_of h2 hk (Nat.zero_le _)⟩
  · obtain ⟨j, hj, h1⟩ := List.any_eq_true.1 h1
    have hj := List.mem_range.1 hj
    simp only [Bool.and_eq_true] at h1
    obtain ⟨h1, h2⟩ := h1
    split at h1
    next a ha =>
      cases hp : puts a with
      | none => rw [hp] at h1; cases h1
      | some x =>
        obtain ⟨g, u⟩ := x
        rw [hp] at h1
        simp only [Option.any_some, Bool.and_eq_true, beq_iff_eq] at h1
        obtain ⟨rfl, h3⟩ := h1
        exact Or.inr ⟨j, hj, ⟨u, ⟨a, ha, hp⟩, h3⟩, fun k u' hk hjk => popen_of h2 hk (HB.lt hjk)⟩
    · cases h1

/-! Checks of the rules. -/

def handedB (t0 : Tid) (o : EvOid) (H : List Did) : Bool :=
  (List.range H.length).all fun i => match H[i]? with
    | some d => (!(readsB d (.payload o) || writesB d (.payload o)) || d.tid == t0 || (H.take i).any fun e => match e with
        | .op u (.getPair _) (some (ev, _)) => u == d.tid && ev.oid == o
        | _ => false) &&
      (!writesB d (.payload o) || d.tid == t0 && (H.take (i + 1)).all fun e => match e with
        | .op _ (.setPair _ ev _) _ => ev.oid != o
        | _ => true)
    | none => true

theorem readsB_of {d : Did} {c : Cell} (h : d.reads c) : readsB d c = true := by
  cases d with
  | take => exact h.elim
  | op t o r => cases o <;> first | exact h.elim | (cases h; simp [readsB])

theorem writesB_of {d : Did} {c : Cell} (h : d.writes c) : writesB d c = true := by
  cases d with
  | take => exact h.elim
  | op t o r => cases o <;> first | exact h.elim | (cases h; simp [writesB])

theorem handed_of {t0 : Tid} {o : EvOid} {H : List Did} (h : handedB t0 o H = true) : Handed t0 o H where
  uses i d hi hd := by
    have := List.all_eq_true.1 h i (List.mem_range.2 (get_lt hi))
    simp only [hi, Bool.and_eq_true] at this
    have h1 := this.1
    have hd' : (readsB d (.payload o) || writesB d (.payload o)) = true := by
      rcases hd with hd | hd
      · simp [readsB_of hd]
      · simp [writesB_of hd]
    simp only [hd', Bool.not_true, Bool.false_or, Bool.or_eq_true, beq_iff_eq] at h1
    refine h1.imp id fun h2 => ?_
    obtain ⟨e, he, h2⟩ := List.any_eq_true.1 h2
    obtain ⟨k, hk⟩ := List.mem_iff_getElem?.1 he
    have hlt := (List.getElem?_eq_some_iff.1 hk).1
    rw [List.length_take] at hlt
    rw [List.getElem?_take_of_lt (by omega)] at hk
    split at h2
    next u p ev m =>
      simp only [Bool.and_eq_true, beq_iff_eq] at h2
      obtain ⟨rfl, rfl⟩ := h2
      exact ⟨k, by omega, p, ev, m, hk, rfl⟩
    · cases h2
  sets i j d u p ev m hi hd hj he := by
    have := List.all_eq_true.1 h i (List.mem_range.2 (get_lt hi))
    simp only [hi, Bool.and_eq_true] at this
    have h1 := this.2
    simp only [writesB_of hd, Bool.not_true, Bool.false_or, Bool.and_eq_true, beq_iff_eq] at h1
    refine ⟨h1.1, Classical.byContradiction fun hij => ?_⟩
    have hm : Did.op u (.setPair p ev m) () ∈ H.take (i + 1) := by
      refine List.mem_of_getElem? (i := j) ?_
      rw [List.getElem?_take_of_lt (by omega)]
      exact hj
    have := List.all_eq_true.1 h1.2 _ hm
    simp [he] at this

def preparedB (t0 W : Tid) (m : MId) (H : List Did) : Bool :=
  (List.range H.length).all fun i => match H[i]? with
    | some (.op t (.setListener m' _) _) => m' != m || (t == t0 && (H.take i).all fun e => match e with
        | .op _ (.setCur m' _ _) _ => m' != m
        | _ => true)
    | some (.op t (.setCur m' _ _) _) => m' != m || t == t0 || t == W
    | _ => true

theorem prepared_of {t0 W : Tid} {m : MId} {H : List Did} (h : preparedB t0 W m H = true) : Prepared t0 W m H where
  sets i t l hi := by
    have := List.all_eq_true.1 h i (List.mem_range.2 (get_lt hi))
    simp only [hi, bne_self_eq_false, Bool.false_or, Bool.and_eq_true, beq_iff_eq] at this
    exact this.1
  before i j t l u s api hi hj := by
    have := List.all_eq_true.1 h i (List.mem_range.2 (get_lt hi))
    simp only [hi, bne_self_eq_false, Bool.false_or, Bool.and_eq_true, beq_iff_eq] at this
    refine Classical.byContradiction fun hij => ?_
    have hne : j ≠ i := by rintro rfl; rw [hi] at hj; cases hj
    have hm : Did.op u (.setCur m s api) () ∈ H.take i := by
      refine List.mem_of_getElem? (i := j) ?_
      rw [List.getElem?_take_of_lt (by omega)]
      exact hj
    have := List.all_eq_true.1 this.2 _ hm
    simp at this
  starts j u s api hj := by
    have := List.all_eq_true.1 h j (List.mem_range.2 (get_lt hj))
    simp only [hj, bne_self_eq_false, Bool.false_or, Bool.or_eq_true, beq_iff_eq] at this
    exact this

end Verif.Demo
