import Verif.Spec.Plain
import Verif.Proofs.WeakSC
/-
Weak memory for all plain fields: without data races, executions are sequentially consistent.
-/

namespace Verif.Plain
open Verif.Spec.HB Verif.Spec.Plain

variable {env : Env} {M : Cell → Prop} [DecidablePred M] {wide : Bool} {f : Cell}

/-! ### Another result of a read -/

section
variable {A B : List Did} {t : Tid} {o : Op} {v v' : o.Res}

theorem swap_get {i : Nat} {d : Did} (h : (A ++ [.op t o v])[i]? = some d) :
    (A ++ .op t o v' :: B)[i]? = some d ∨ (i = A.length ∧ d = .op t o v) := by
  rcases snoc_get.1 h with h | h
  · exact Or.inl (by rw [List.getElem?_append_left (get_lt h)]; exact h)
  · exact Or.inr h

theorem swap_keep {i : Nat} {d : Did} (h : (A ++ [.op t o v])[i]? = some d) (hd : d ≠ .op t o v) :
    (A ++ .op t o v' :: B)[i]? = some d := (swap_get h).resolve_right fun h' => hd h'.2

theorem swap_keep_op {i : Nat} {u : Tid} {p : Op} {r : p.Res} (ho : source o ≠ none) (h : (A ++ [.op t o v])[i]? = some (.op u p r)) (hp : source p = none) :
    (A ++ .op t o v' :: B)[i]? = some (.op u p r) := swap_keep h (by intro h'; cases h'; exact ho hp)

theorem swap_keep_take {i : Nat} {u : Tid} {e : EId} {s : SId} {m : MId} (h : (A ++ [.op t o v])[i]? = some (.take u e s m)) :
    (A ++ .op t o v' :: B)[i]? = some (.take u e s m) := swap_keep h (by intro h'; cases h')

theorem swap_back {i j : Nat} {d x : Did} (hj : (A ++ [.op t o v])[j]? = some x) (hij : i < j)
    (h : (A ++ .op t o v' :: B)[i]? = some d) : (A ++ [.op t o v])[i]? = some d := by
  have := get_lt hj
  simp at this
  have hi : i < A.length := by omega
  rw [List.getElem?_append_left hi] at h ⊢
  exact h

theorem swap_sync {i j : Nat} (ho : source o ≠ none) (h : Sync wide (A ++ [.op t o v]) i j) : Sync wide (A ++ .op t o v' :: B) i j := by
  cases h with
  | started hl h1 h2 =>
    exact .started hl (swap_keep_op ho h1 rfl) (h2.imp (fun ⟨r, h⟩ => ⟨r, swap_keep_op ho h rfl⟩) (fun ⟨r, h⟩ => ⟨r, swap_keep_op ho h rfl⟩))
  | ended hl h1 h2 =>
    exact .ended hl (h1.imp (fun h => swap_keep_op ho h rfl) (fun ⟨s, b, api, h⟩ => ⟨s, b, api, swap_keep_op ho h rfl⟩))
      (h2.imp (fun ⟨r, h⟩ => ⟨r, swap_keep_op ho h rfl⟩) (fun ⟨s, b, api, r, h⟩ => ⟨s, b, api, r, swap_keep_op ho h rfl⟩))
  | queue hl h1 h2 h3 =>
    rcases h2 with h2 | ⟨l, h2, hl'⟩
    · exact .queue hl (swap_keep_op ho h1 rfl) (Or.inl (swap_keep_op ho h2 rfl)) fun k u hk hk' h => h3 k u hk hk' (swap_back h2 hk' h)
    · exact .queue hl (swap_keep_op ho h1 rfl) (Or.inr ⟨l, swap_keep_op ho h2 rfl, hl'⟩) fun k u hk hk' h => h3 k u hk hk' (swap_back h2 hk' h)
  | pool hl h1 h2 h3 => exact .pool hl (swap_keep_op ho h1 rfl) (swap_keep_op ho h2 rfl) fun k u hk hk' h => h3 k u hk hk' (swap_back h2 hk' h)
  | latch hl h1 h2 => exact .latch hl (swap_keep_op ho h1 rfl) (swap_keep_op ho h2 rfl)
  | task hw hl h1 h2 => exact .task hw hl (swap_keep_op ho h1 rfl) (swap_keep_take h2)
  | mem hw hl h1 h2 => exact .mem hw hl (swap_keep_op ho h1 rfl) (swap_keep_op ho h2 rfl)

theorem swap_hb {i j : Nat} (ho : source o ≠ none) (h : HB wide (A ++ [.op t o v]) i j) : HB wide (A ++ .op t o v' :: B) i j := by
  induction h with
  | @po i j a b hl h1 h2 h3 =>
    have key : ∀ {i : Nat} {d : Did}, (A ++ [.op t o v])[i]? = some d →
        ∃ d', (A ++ .op t o v' :: B)[i]? = some d' ∧ d'.tid = d.tid := by
      intro i d h
      rcases swap_get (v' := v') (B := B) h with h | ⟨rfl, rfl⟩
      · exact ⟨d, h, rfl⟩
      · exact ⟨.op t o v', by simp, rfl⟩
    obtain ⟨a', g1, g2⟩ := key h1
    obtain ⟨b', g3, g4⟩ := key h2
    exact .po hl g1 g3 (g2.trans (h3.trans g4.symm))
  | sync h => exact .sync (swap_sync ho h)
  | trans _ _ h1 h2 => exact .trans h1 h2

theorem swap_unit {i : Nat} {u : Tid} {p : Op} {r : p.Res} (hu : ∀ x y : p.Res, x = y) (h : (A ++ [.op t o v])[i]? = some (.op u p r)) :
    (A ++ .op t o v' :: B)[i]? = some (.op u p r) := by
  rcases swap_get (v' := v') (B := B) h with h | ⟨rfl, he⟩
  · exact h
  · clear h
    cases he
    rw [hu v v']
    simp

theorem swap_prepared {t0 W : Tid} {m : MId} (h : Prepared t0 W m (A ++ .op t o v' :: B)) : Prepared t0 W m (A ++ [.op t o v]) where
  sets i u l hi := h.sets i u l (swap_unit (fun _ _ => rfl) hi)
  before i j u l u' s api hi hj := h.before i j u l u' s api (swap_unit (fun _ _ => rfl) hi) (swap_unit (fun _ _ => rfl) hj)
  starts j u s api hj := h.starts j u s api (swap_unit (fun _ _ => rfl) hj)

theorem reads_any {f : Cell} (h : (Did.op t o v).reads f) : (Did.op t o v').reads f := by
  cases o <;> exact h

theorem swap_handed {t0 : Tid} {oid : EvOid} (hw : ∀ f, (Did.op t o v).writes f → (Did.op t o v').writes f) (h : Handed t0 oid (A ++ .op t o v' :: B)) :
    Handed t0 oid (A ++ [.op t o v]) where
  uses i d hi hd := by
    have key : d.tid = t0 ∨ ∃ k < i, ∃ p ev m, (A ++ .op t o v' :: B)[k]? = some (.op d.tid (.getPair p) (some (ev, m))) ∧ ev.oid = oid := by
      rcases swap_get (v' := v') (B := B) hi with hi | ⟨rfl, rfl⟩
      · exact h.uses i d hi hd
      · exact h.uses A.length (.op t o v') (by simp) (hd.imp reads_any (hw _))
    refine key.imp id fun ⟨k, hk, p, ev, m, h1, h2⟩ => ⟨k, hk, p, ev, m, swap_back hi hk h1, h2⟩
  sets i j d u p ev m hi hd hj he := by
    have hj' := swap_unit (v' := v') (B := B) (fun _ _ => rfl) hj
    rcases swap_get (v' := v') (B := B) hi with hi | ⟨rfl, rfl⟩
    · exact h.sets i j d u p ev m hi hd hj' he
    · exact h.sets A.length j (.op t o v') u p ev m (by simp) (hw _ hd) hj' he

theorem swap_disciplined {W : Tid} {m : MId} (h : Disciplined W m (A ++ .op t o v' :: B)) : Disciplined W m (A ++ [.op t o v]) where
  reads i u r hi := by
    rcases swap_get (v' := v') (B := B) hi with h' | ⟨_, h'⟩
    · exact h.reads i u r h'
    · cases h'
      exact h.reads A.length t v' (by simp)
  stops i u hi := by
    rcases swap_get (v' := v') (B := B) hi with h' | ⟨_, h'⟩
    · exact h.stops i u h'
    · cases h'
      exact h.stops A.length t (by simp)
  fires i u ev hi := by
    have h1 : (A ++ .op t o v' :: B)[i]? = some (.op u (.emit (.enter (.fire m ev))) ()) := by
      rcases swap_get (v' := v') (B := B) hi with h' | ⟨h1, h'⟩
      · exact h'
      · cases h'
        subst h1
        simp
    rcases h.fires i u ev h1 with h' | ⟨k, hk, h'⟩
    · exact Or.inl h'
    · exact Or.inr ⟨k, hk, h'.imp (fun ⟨w, h'⟩ => ⟨w, swap_back hi hk h'⟩) (fun ⟨s, h'⟩ => ⟨s, swap_back hi hk h'⟩)⟩

end

/-! ### Reads and writes -/

theorem part_ext {v u : Content} (h : ∀ b, part b v = part b u) : v = u := by
  have h1 := h true
  have h2 := h false
  cases v <;> cases u <;> simp_all [part]

theorem execRead_content {t : Tid} {o : Op} {w : World} (h : source o = some f) : execRead t o (content w f) w = some (exec t o w) := by
  cases o <;> simp only [source, Option.some.injEq, reduceCtorEq] at h <;> subst h <;> simp only [execRead, content, exec]
  · cases (w.mach _).listener <;> rfl
  · cases h : w.pair _ <;> simp

/-- Whatever is read, the same fields are written. -/
theorem execRead_writes {t : Tid} {o : Op} {v : Content} {w : World} {r : o.Res × World} (h : execRead t o v w = some r)
    (hw : (Did.op t o (exec t o w).1).writes f) : (Did.op t o r.1).writes f := by
  cases o <;> first | exact hw.elim | skip
  all_goals cases v <;> simp only [execRead, reduceCtorEq, Option.some.injEq] at h
  subst h
  exact hw

theorem source_reads {t : Tid} {o : Op} {r : o.Res} (h : source o = some f) : (Did.op t o r).reads f := by
  cases o <;> simp only [source, Option.some.injEq, reduceCtorEq] at h <;> subst h <;> exact rfl

theorem puts_writes {a : Act} {v : Content} (h : puts a = some (f, v)) : a.1.writes f := by
  obtain ⟨d, r⟩ := a
  cases d with
  | take => cases h
  | op t o x =>
    cases r <;> cases o <;> simp only [puts, Option.some.injEq, reduceCtorEq, Prod.mk.injEq] at h <;> obtain ⟨rfl, rfl⟩ := h <;> exact rfl

/-- What a sequentially consistent operation is in the history. -/
def Done (t : Tid) (o : Op) (w : World) : Act := (.op t o (exec t o w).1, (source o).map fun f => (f, content w f))

theorem content_exec {t : Tid} {o : Op} {w : World} : content (exec t o w).2 f = match puts (Done t o w) with
    | some (g, v) => if g = f then v else content w f
    | none => content w f := by
  cases o <;> simp only [Done, source, Option.map, puts] <;> cases f <;> simp only [exec] <;> (try rfl) <;> (repeat' split) <;> (try rfl) <;>
    (try simp_all [World.log, content, fset]) <;> (repeat' split) <;> (try simp_all) <;> (intro h; exact absurd h.symm (by assumption))

/-- The contents of field `f`, `v0` initially, are `v`: what has been written last. -/
def Last (v0 : Content) (f : Cell) (A : List Act) (v : Content) : Prop :=
  (v = v0 ∧ ∀ k u, ¬Puts A f k u) ∨ ∃ j, Puts A f j v ∧ ∀ k u, Puts A f k u → k ≤ j

theorem puts_snoc {A : List Act} {x : Act} {k : Nat} {v : Content} : Puts (A ++ [x]) f k v ↔ Puts A f k v ∨ (k = A.length ∧ puts x = some (f, v)) := by
  constructor
  · rintro ⟨a, h1, h2⟩
    by_cases hk : k < A.length
    · rw [List.getElem?_append_left hk] at h1
      exact Or.inl ⟨a, h1, h2⟩
    · rw [List.getElem?_append_right (by omega)] at h1
      cases hn : k - A.length with
      | zero =>
        rw [hn] at h1
        cases h1
        exact Or.inr ⟨by omega, h2⟩
      | succ n => rw [hn] at h1; simp at h1
  · rintro (⟨a, h1, h2⟩ | ⟨rfl, h⟩)
    · refine ⟨a, ?_, h2⟩
      rw [List.getElem?_append_left]
      · exact h1
      · exact (List.getElem?_eq_some_iff.1 h1).1
    · exact ⟨x, by simp, h⟩

theorem puts_lt {A : List Act} {k : Nat} {v : Content} (h : Puts A f k v) : k < A.length := by
  obtain ⟨a, h, _⟩ := h
  exact (List.getElem?_eq_some_iff.1 h).1

theorem Last.keep {A : List Act} {x : Act} {v0 v : Content} (h : Last v0 f A v) (hx : ∀ u, puts x ≠ some (f, u)) : Last v0 f (A ++ [x]) v := by
  have hw : ∀ k u, Puts (A ++ [x]) f k u → Puts A f k u := fun k u hk => (puts_snoc.1 hk).resolve_right fun h' => hx u h'.2
  rcases h with ⟨h1, h2⟩ | ⟨j, h1, h2⟩
  · exact Or.inl ⟨h1, fun k u hk => h2 k u (hw k u hk)⟩
  · exact Or.inr ⟨j, puts_snoc.2 (Or.inl h1), fun k u hk => h2 k u (hw k u hk)⟩

theorem last_op {A : List Act} {w : World} {t : Tid} {o : Op} {v0 : Content} (h : Last v0 f A (content w f)) :
    Last v0 f (A ++ [Done t o w]) (content (exec t o w).2 f) := by
  rw [content_exec]
  cases hp : puts (Done t o w) with
  | none => exact h.keep fun u hu => by rw [hp] at hu; cases hu
  | some x =>
    obtain ⟨g, v⟩ := x
    by_cases hg : g = f
    · subst hg
      refine Or.inr ⟨A.length, puts_snoc.2 (Or.inr ⟨rfl, by simp [hp]⟩), fun k u hk => ?_⟩
      have := puts_lt hk
      simp at this
      omega
    · simp only [hg, if_false]
      refine h.keep fun u hu => hg ?_
      rw [hp] at hu
      cases hu
      rfl

theorem act_run {c : Conf} {t : Tid} {o : Op} {k : o.Res → Prog Unit} (h : c.thr t = some (.op o k)) : act c (.sched (.run t)) = some (Done t o c.w) := by
  simp [act, Spec.HB.did, h, Done]

theorem content_eq {w w' : World} (h1 : w'.mach = w.mach) (h2 : w'.pair = w.pair) (h3 : w'.payload = w.payload) : content w' f = content w f := by
  cases f <;> simp [content, h1, h2, h3]

theorem Last.same {A : List Act} {v0 : Content} {w w' : World} (h : Last v0 f A (content w f)) (h1 : w'.mach = w.mach) (h2 : w'.pair = w.pair)
    (h3 : w'.payload = w.payload) : Last v0 f A (content w' f) := by rw [content_eq h1 h2 h3]; exact h

theorem last_step {A : List Act} {c c' : Conf} {x : Choice} {v0 : Content} (h : Last v0 f A (content c.w f)) (hs : Verif.step env c x = some c') :
    Last v0 f (A ++ (act c (.sched x)).toList) (content c'.w f) := by
  cases x with
  | begin n u =>
    simp only [Verif.step] at hs
    split at hs
    · cases hs
    · cases hs; simpa [act, Spec.HB.did] using h
  | run t =>
    simp only [Verif.step] at hs
    split at hs
    · cases hs
    next p hp =>
      cases p with
      | ret a => cases hs; simpa [act, Spec.HB.did, hp] using h
      | thr e =>
        cases hs
        have : content (c.w.log t (.uncaught e)) f = content c.w f := content_eq rfl rfl rfl
        simpa [act, Spec.HB.did, hp, this] using h
      | op o k =>
        simp only [runThread] at hs
        split at hs
        · cases hs
          rw [act_run hp]
          exact last_op h
        · cases hs
      | call g k => cases hs; simpa [act, Spec.HB.did, hp] using h
  | dispatch e i j =>
    simp only [Verif.step] at hs
    split at hs
    · split at hs
      next s m' hn hj =>
        cases hs
        have h' : act c (.sched (.dispatch e i j)) = some (.take (.worker e i) e s m', none) := by simp [act, Spec.HB.did, hj]
        rw [h']
        exact (h.keep (fun u hu => by cases hu)).same rfl rfl rfl
      · cases hs
    · cases hs
  | interrupt t =>
    cases hs
    simp only [act, Spec.HB.did, Option.map_none, Option.toList_none, List.append_nil]
    exact h.same rfl rfl rfl
  | shutdown e now =>
    cases hs
    simp only [act, Spec.HB.did, Option.map_none, Option.toList_none, List.append_nil]
    cases now <;> exact h.same rfl rfl rfl

/-! ### Sequentially consistent executions -/

theorem runs_sched {c : Conf} {ys : List Choice} : Plain.runs env M c (ys.map .sched) = Verif.runs env c ys := by
  induction ys generalizing c with
  | nil => rfl
  | cons y ys ih =>
    simp only [List.map, Plain.runs, Verif.runs, Plain.step]
    cases Verif.step env c y with
    | none => rfl
    | some c' => exact ih

theorem did_act {c : Conf} {x : Choice} : (act c (.sched x)).map (·.1) = Spec.HB.did c x := by
  simp [act, Option.map_map, Function.comp_def]

theorem dids_sched {c : Conf} {ys : List Choice} : dids (acts env M c (ys.map .sched)) = Spec.HB.history env c ys := by
  induction ys generalizing c with
  | nil => rfl
  | cons y ys ih =>
    simp only [List.map, acts, Spec.HB.history, Plain.step]
    cases Verif.step env c y with
    | none => rfl
    | some c' =>
      simp only [dids, List.map_append]
      rw [← did_act]
      congr 1
      · cases act c (.sched y) <;> rfl
      · exact ih

theorem acts_append {c c1 : Conf} {xs ys : List PChoice} (h : Plain.runs env M c xs = some c1) : acts env M c (xs ++ ys) = acts env M c xs ++ acts env M c1 ys := by
  induction xs generalizing c with
  | nil => cases h; rfl
  | cons x xs ih =>
    simp only [Plain.runs] at h
    split at h
    · cases h
    next c' hs => simp only [List.cons_append, acts, hs, ih h, List.append_assoc]

/-! ### Without data races -/

theorem dids_get {H : List Act} {k : Nat} {a : Act} (h : H[k]? = some a) : (dids H)[k]? = some a.1 := by simp [dids, h]

/-- A justified read that comes after all writes, which are ordered, returns the contents of the field. -/
theorem reads_last_of {A B : List Act} {t : Tid} {o : Op} {r r0 : o.Res} {v0 v v1 : Content} (ho : source o = some f)
    (hrd : ∀ (k : Nat) d, (dids A)[k]? = some d → d.writes f → HB wide (dids A ++ [.op t o r0]) k (dids A).length)
    (hww : ∀ (i j : Nat) d d', i < j → (dids A)[i]? = some d → (dids A)[j]? = some d' → d.writes f → d'.writes f → HB wide (dids A ++ [.op t o r0]) i j)
    (hl : Last v0 f A v1) (hj : Justified wide v0 f (A ++ (.op t o r, some (f, v)) :: B)) : v = v1 := by
  have hne : source o ≠ none := by rw [ho]; simp
  have hd : dids (A ++ (.op t o r, some (f, v)) :: B) = dids A ++ .op t o r :: dids B := by simp [dids]
  have hlen : (dids A).length = A.length := by simp [dids]
  have hget : ∀ {k u}, Puts A f k u → ∃ d, d.writes f ∧ (dids A)[k]? = some d := fun {k u} ⟨a, h1, h2⟩ => ⟨a.1, puts_writes h2, dids_get h1⟩
  have hb : ∀ k u, Puts A f k u → HB wide (dids (A ++ (.op t o r, some (f, v)) :: B)) k A.length := by
    intro k u hk
    obtain ⟨d, h1, h2⟩ := hget hk
    rw [hd]
    rw [← hlen]
    exact swap_hb hne (hrd k d h2 h1)
  have hup : ∀ k u, Puts A f k u → Puts (A ++ (.op t o r, some (f, v)) :: B) f k u := fun k u ⟨a, h1, h2⟩ =>
    ⟨a, by rw [List.getElem?_append_left (List.getElem?_eq_some_iff.1 h1).1]; exact h1, h2⟩
  refine part_ext fun b => ?_
  rcases hj A.length (.op t o r) v (by simp) b with ⟨h1, h2⟩ | ⟨j, hja, ⟨u, hw, hu⟩, hs⟩
  · rcases hl with ⟨rfl, _⟩ | ⟨j, hw, _⟩
    · exact h1
    · exact absurd (hb j v1 hw) (h2 j v1 (hup j v1 hw))
  · have hw : Puts A f j u := by
      obtain ⟨a, h1, h2⟩ := hw
      rw [List.getElem?_append_left hja] at h1
      exact ⟨a, h1, h2⟩
    rcases hl with ⟨_, h2⟩ | ⟨j', hw', h3⟩
    · exact absurd hw (h2 j u)
    · have hle := h3 j u hw
      rcases Nat.lt_or_ge j j' with hlt' | hge
      · obtain ⟨d, g1, g2⟩ := hget hw
        obtain ⟨d', g3, g4⟩ := hget hw'
        have := swap_hb (v' := r) (B := dids B) hne (hww j j' _ _ hlt' g2 g4 g1 g3)
        rw [← hd] at this
        exact absurd (hb j' v1 hw') (hs j' v1 (hup j' v1 hw') this)
      · obtain rfl : j = j' := by omega
        obtain ⟨a, g1, g2⟩ := hw
        obtain ⟨a', g3, g4⟩ := hw'
        rw [g1] at g3
        cases g3
        rw [g2] at g4
        cases g4
        exact hu

/-- A justified read that comes after everything in a sequentially consistent execution returns the contents of the field. -/
theorem reads_last {A B : List Act} {t : Tid} {o : Op} {r r0 : o.Res} {v0 v v1 : Content} (ho : source o = some f)
    (hrf : RaceFree wide (dids A ++ [.op t o r0]) f) (hl : Last v0 f A v1)
    (hj : Justified wide v0 f (A ++ (.op t o r, some (f, v)) :: B)) : v = v1 :=
  reads_last_of ho (fun k _ h1 h2 => hrf k _ _ _ (get_lt h1) (get_snoc h1) last_snoc (Or.inr h2) (Or.inl (source_reads ho)) (Or.inl h2))
    (fun i j _ _ h1 h2 h3 h4 h5 => hrf i j _ _ h1 (get_snoc h2) (get_snoc h3) (Or.inr h4) (Or.inr h5) (Or.inl h4)) hl hj

theorem drf {c0 c c' : Conf} {zs : List Choice} {xs : List PChoice} (hr : Verif.runs env c0 zs = some c)
    (hl : ∀ f, Last (content c0.w f) f (acts env M c0 (zs.map .sched)) (content c.w f)) (hw : Plain.runs env M c xs = some c')
    (hrf : ∀ f, M f → ∀ ys c1, Verif.runs env c0 ys = some c1 →
      Begins (Spec.HB.history env c0 ys) (dids (acts env M c0 (zs.map .sched) ++ acts env M c xs)) → RaceFree wide (Spec.HB.history env c0 ys) f)
    (hj : ∀ f, M f → Justified wide (content c0.w f) f (acts env M c0 (zs.map .sched) ++ acts env M c xs)) :
    ∃ ys, Verif.runs env c ys = some c' ∧ acts env M c (ys.map .sched) = acts env M c xs := by
  induction xs generalizing c zs with
  | nil => cases hw; exact ⟨[], rfl, rfl⟩
  | cons x xs ih =>
    simp only [Plain.runs] at hw
    split at hw
    · cases hw
    next c1 h1 =>
      have hh : acts env M c (x :: xs) = (act c x).toList ++ acts env M c1 xs := by simp only [acts, h1]
      -- the step is a step of the scheduler
      have key : ∃ y, Verif.step env c y = some c1 ∧ act c (.sched y) = act c x := by
        cases x with
        | sched y => exact ⟨y, h1, rfl⟩
        | read t v =>
          simp only [Plain.step] at h1
          split at h1
          next o k hp =>
            split at h1
            next f hf =>
              split at h1
              next hm =>
                cases he : execRead t o v c.w with
                | none => rw [he] at h1; cases h1
                | some r =>
                  rw [he] at h1
                  have hact : act c (.read t v) = some (.op t o r.1, some (f, v)) := by simp [act, hp, he, hf]
                  rw [hh, hact] at hrf hj
                  have hen : enabled t o c.w = true := by cases o <;> first | rfl | cases hf
                  have hs : Verif.step env c (.run t) = some ⟨(exec t o c.w).2, fset c.thr t (some (k (exec t o c.w).1))⟩ := by
                    simp [Verif.step, hp, runThread, hen]
                  obtain ⟨q1, q2⟩ := Weak.runs_append hr (show Verif.runs env c [.run t] = some _ by simp only [Verif.runs, hs]; rfl)
                  have q3 : Spec.HB.history env c [.run t] = [.op t o (exec t o c.w).1] := by
                    simp only [Spec.HB.history, hs, Spec.HB.did, hp]
                    rfl
                  rw [q3] at q2
                  have q4 := hrf f hm _ _ q1 ⟨Spec.HB.history env c0 zs, t, o, (exec t o c.w).1, r.1, dids (acts env M c1 xs), q2, by
                    simp only [dids, List.map_append, Option.toList, List.singleton_append, List.map_cons]
                    rw [← dids_sched (M := M)]
                    rfl, fun g => execRead_writes he⟩
                  rw [q2, ← dids_sched (M := M)] at q4
                  have hv := reads_last hf q4 (hl f) (hj f hm)
                  subst hv
                  rw [execRead_content hf] at he
                  cases he
                  refine ⟨.run t, ?_, ?_⟩
                  · rw [hs]; exact h1
                  · rw [hact, act_run hp]; simp [Done, hf]
              · cases h1
            · cases h1
          · cases h1
      obtain ⟨y, hy, hd⟩ := key
      obtain ⟨r1, _⟩ := Weak.runs_append hr (show Verif.runs env c [y] = some c1 by simp only [Verif.runs, hy])
      have h3 : acts env M c ([y].map .sched) = (act c (.sched y)).toList := by simp only [List.map, acts, Plain.step, hy, List.append_nil]
      have r2 : acts env M c0 ((zs ++ [y]).map .sched) = acts env M c0 (zs.map .sched) ++ (act c (.sched y)).toList := by
        rw [List.map_append, acts_append (c1 := c) (by rw [runs_sched]; exact hr), h3]
      have h4 : acts env M c0 ((zs ++ [y]).map .sched) ++ acts env M c1 xs = acts env M c0 (zs.map .sched) ++ acts env M c (x :: xs) := by
        rw [r2, hd, hh, List.append_assoc]
      obtain ⟨ys, g1, g2⟩ := ih r1 (fun f => by rw [r2]; exact last_step (hl f) hy) hw (by rw [h4]; exact hrf) (by rw [h4]; exact hj)
      refine ⟨y :: ys, by simp only [Verif.runs, hy, g1], ?_⟩
      rw [hh, ← hd, ← g2]
      simp only [List.map, acts, Plain.step, hy]

/-! ### Sequentially consistent reads are allowed -/

/-- Every read returns what has been written last before it. -/
def Fresh (v0 : Content) (f : Cell) (A : List Act) : Prop := ∀ (i : Nat) d v, A[i]? = some (d, some (f, v)) → Last v0 f (A.take i) v

theorem Fresh.snoc {A : List Act} {x : Act} {v0 : Content} (h : Fresh v0 f A) (hx : ∀ d v, x = (d, some (f, v)) → Last v0 f A v) : Fresh v0 f (A ++ [x]) := by
  intro i d v hi
  by_cases hk : i < A.length
  · rw [List.take_append_of_le_length (Nat.le_of_lt hk)]
    rw [List.getElem?_append_left hk] at hi
    exact h i d v hi
  · have hlt := (List.getElem?_eq_some_iff.1 hi).1
    simp at hlt
    obtain rfl : i = A.length := by omega
    rw [List.take_append_of_le_length (Nat.le_refl _), List.take_length]
    exact hx d v (by simpa using hi)

theorem act_read {c : Conf} {x : Choice} {d : Did} {v : Content} (h : act c (.sched x) = some (d, some (f, v))) : v = content c.w f := by
  simp only [act, Option.map_eq_some_iff, Prod.mk.injEq] at h
  obtain ⟨d', _, rfl, h⟩ := h
  split at h
  · rw [Option.map_eq_some_iff] at h
    obtain ⟨g, _, h⟩ := h
    cases h
    rfl
  · cases h

theorem fresh_runs {A : List Act} {c c' : Conf} {xs : List Choice} {v0 : Content} (hf : Fresh v0 f A) (hl : Last v0 f A (content c.w f))
    (hr : Verif.runs env c xs = some c') : Fresh v0 f (A ++ acts env M c (xs.map .sched)) := by
  induction xs generalizing A c with
  | nil => simpa [acts] using hf
  | cons x xs ih =>
    simp only [Verif.runs] at hr
    split at hr
    · cases hr
    next c1 hs =>
      simp only [List.map, acts, Plain.step, hs]
      rw [← List.append_assoc]
      refine ih ?_ (last_step hl hs) hr
      cases hd : act c (.sched x) with
      | none => simpa using hf
      | some d =>
        simp only [Option.toList]
        refine hf.snoc fun d' v hx => ?_
        subst hx
        rw [act_read hd]
        exact hl

theorem puts_take {A : List Act} {i k : Nat} {v : Content} : Puts (A.take i) f k v ↔ k < i ∧ Puts A f k v := by
  constructor
  · rintro ⟨a, h, h'⟩
    have h1 := (List.getElem?_eq_some_iff.1 h).1
    rw [List.length_take] at h1
    have h2 : k < i := by omega
    rw [List.getElem?_take_of_lt h2] at h
    exact ⟨h2, a, h, h'⟩
  · rintro ⟨h1, a, h2, h3⟩
    exact ⟨a, by rw [List.getElem?_take_of_lt h1]; exact h2, h3⟩

theorem Fresh.justified {A : List Act} {v0 : Content} (h : Fresh v0 f A) : Justified wide v0 f A := by
  intro i d v hi b
  rcases h i d v hi with ⟨h1, h2⟩ | ⟨j, h2, h3⟩
  · exact Or.inl ⟨by rw [h1], fun k u hk hb => h2 k u (puts_take.2 ⟨HB.lt hb, hk⟩)⟩
  · obtain ⟨h4, h5⟩ := puts_take.1 h2
    refine Or.inr ⟨j, h4, ⟨v, h5, rfl⟩, fun k u hk hjk hki => ?_⟩
    have h6 := h3 k u (puts_take.2 ⟨HB.lt hki, hk⟩)
    have := HB.lt hjk
    omega

/-- The weak choice that does what the scheduler would do. -/
def weaken (M : Cell → Prop) [DecidablePred M] (c : Conf) : Choice → PChoice
  | .run t => match c.thr t with
    | some (.op o _) => match source o with
      | some f => if M f then .read t (content c.w f) else .sched (.run t)
      | none => .sched (.run t)
    | _ => .sched (.run t)
  | x => .sched x

theorem weaken_step {c c' : Conf} {x : Choice} (h : Verif.step env c x = some c') :
    Plain.step env M c (weaken M c x) = some c' ∧ act c (weaken M c x) = act c (.sched x) := by
  cases x with
  | run t =>
    unfold weaken
    dsimp only
    split
    next o k hp =>
      split
      next f hf =>
        split
        next hm =>
          have hen : enabled t o c.w = true := by cases o <;> first | rfl | cases hf
          simp only [Verif.step, hp, runThread, hen, if_true] at h
          refine ⟨?_, ?_⟩
          · simp only [Plain.step, hp, hf, hm, if_true, execRead_content hf, Option.map_some]
            exact h
          · rw [act_run hp]
            simp [act, hp, hf, execRead_content hf, Done]
        · exact ⟨h, rfl⟩
      · exact ⟨h, rfl⟩
    · exact ⟨h, rfl⟩
  | _ => exact ⟨h, rfl⟩

theorem weaken_runs {c c' : Conf} {ys : List Choice} (h : Verif.runs env c ys = some c') :
    ∃ xs, Plain.runs env M c xs = some c' ∧ acts env M c xs = acts env M c (ys.map .sched) := by
  induction ys generalizing c with
  | nil => cases h; exact ⟨[], rfl, rfl⟩
  | cons y ys ih =>
    simp only [Verif.runs] at h
    split at h
    · cases h
    next c1 hs =>
      obtain ⟨xs, h1, h2⟩ := ih h
      obtain ⟨h3, h4⟩ := weaken_step (M := M) hs
      refine ⟨weaken M c y :: xs, by simp only [Plain.runs, h3, h1], ?_⟩
      have h5 : Plain.step env M c (.sched y) = some c1 := hs
      simp only [List.map, acts, h3, h4, h2, h5]

theorem last_nil {v0 : Content} : Last v0 f [] v0 := Or.inl ⟨rfl, fun k u ⟨a, h, _⟩ => by simp at h⟩

end Verif.Plain
