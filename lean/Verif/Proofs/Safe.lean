import Verif.Proofs.Stale
import Verif.Proofs.HBListener
import Verif.Proofs.HBPayload
import Verif.Spec.Safe
import Verif.Proofs.Processing
/-
Weak memory and strategies that drop duplicates: what the checks for duplicates find does not lead to data races on the state of machines or on their listeners.
-/

namespace Verif.Safe
open Spec.HB Spec.Plain Spec.Checks Spec.Safe Verif.Plain Verif.Checks Verif.Stale

variable {env : Env}

/-! ### A check for duplicates, in histories -/

section
variable {m : MId} {H : List Did} {lst : Tid → List Frame} {w : World}

/-- A read of a pair. -/
theorem CurInv.look {u : Tid} {p : PairId} {r : (Op.getPair p).Res} (h : CurInv env m H lst w) : CurInv env m (H ++ [.op u (.getPair p) r]) lst w := by
  have hn : ¬(Did.reads (.op u (.getPair p) r) (.cur m) ∨ Did.writes (.op u (.getPair p) r) (.cur m)) := by rintro (h | h) <;> cases h
  have hh : Homed env m (.op u (.getPair p) r) := fun h => hn h.1
  have hop : ∀ {k : Nat} {t : Tid} {o : Op} {r'}, (∀ p, o ≠ .getPair p) → (H ++ [Did.op u (.getPair p) r])[k]? = some (.op t o r') → H[k]? = some (.op t o r') := by
    intro k t o r' ho hk
    rcases snoc_get.1 hk with hk | ⟨_, hk⟩
    · exact hk
    · cases hk
      exact absurd rfl (ho _)
  have hp : Polled env m (H ++ [.op u (.getPair p) r]) → Polled env m H := by
    rintro ⟨k, p', hk⟩
    exact ⟨k, p', hop (fun _ h => (nomatch h)) hk⟩
  refine ⟨fun hp' => hh.knows (h.polled (hp hp')), fun f hf hd ho => (h.holds f hf hd ho).snoc, ?_, ?_, ?_, ?_, h.one,
    fun hF => h.started (hh.some.1 hF), ?_, ?_, ?_, h.st, fun t f hf ev x he hd => hh.knows (h.deep t f hf ev x he hd), ?_, h.stop, ?_⟩
  · intro i a hi hta hw
    rcases snoc_get.1 hi with hi | ⟨_, rfl⟩
    · exact (h.worker i a hi hta hw).snoc
    · exact absurd hta hn
  · intro p hpq
    obtain ⟨k, t, h1, h2, h3⟩ := h.que p hpq
    exact ⟨k, t, get_snoc h1, fun k' v hk hg => h2 k' v hk (hop (fun _ h => (nomatch h)) hg), fun i a hf => HB.snoc (h3 i a (hh.foreign.1 hf))⟩
  · intro hn
    rw [hh.some] at hn
    obtain ⟨h1, h2, h3⟩ := h.first hn
    exact ⟨h1, fun hc => h2 (hp hc), h3⟩
  · intro t f hf hw
    rw [hh.some]; exact h.won t f hf hw
  · intro t f hf hw
    obtain ⟨h1, h2⟩ := h.busy t f hf hw
    exact ⟨hh.some.2 h1, hh.knows h2⟩
  · intro k t hk
    obtain ⟨h1, h2⟩ := h.cleared k t (hop (fun _ h => (nomatch h)) hk)
    exact ⟨hh.some.2 h1, fun i a hf => HB.snoc (h2 i a (hh.foreign.1 hf))⟩
  · intro t f hf ev x he hx
    rcases h.early t f hf ev x he hx with h1 | ⟨k, ⟨v, h1⟩ | ⟨s, h1⟩⟩
    · exact Or.inl h1
    · exact Or.inr ⟨k, Or.inl ⟨v, get_snoc h1⟩⟩
    · exact Or.inr ⟨k, Or.inr ⟨s, get_snoc h1⟩⟩
  · intro i j a b hi hj
    exact h.uniq i j a b (hh.foreign.1 hi) (hh.foreign.1 hj)
  · exact raceFree_snoc h.rf (fun hta => absurd hta hn)

/-- A check has found something. -/
theorem CurInv.goes {t : Tid} {m' : MId} {ev : Ev} {p : PairId} {ps : List PairId} {rest : List Frame} {g : Fate} (h : CurInv env m H lst w)
    (hl : lst t = .fire m' ev (.scan (p :: ps)) :: rest) (hg : g = .dup ∨ g = .scan ps) : CurInv env m H (fset lst t (.fire m' ev g :: rest)) w := by
  have key : ∀ u, ∀ f ∈ fset lst t (.fire m' ev g :: rest) u, f ∈ lst u ∨ (u = t ∧ f = .fire m' ev g) := by
    intro u f hf
    by_cases hu : u = t
    · subst hu
      rw [fset_same] at hf
      rcases List.mem_cons.1 hf with rfl | hf
      · exact Or.inr ⟨rfl, rfl⟩
      · exact Or.inl (by rw [hl]; exact List.mem_cons_of_mem _ hf)
    · rw [fset_ne _ _ hu] at hf; exact Or.inl hf
  have hmem : Frame.fire m' ev (.scan (p :: ps)) ∈ lst t := by rw [hl]; exact List.mem_cons_self
  have hnw : ¬isWon m (.fire m' ev g) := by rcases hg with rfl | rfl <;> (rintro (h | ⟨_, h⟩) <;> cases h)
  have hnb : ¬isBusy m (.fire m' ev g) := by rcases hg with rfl | rfl <;> (rintro (⟨_, h⟩ | ⟨_, _, h⟩) <;> cases h)
  refine ⟨h.polled, ?_, h.worker, h.que, ?_, ?_, ?_, h.started, ?_, h.cleared, ?_, ?_, ?_, h.uniq, ?_, h.rf⟩
  · intro f hf hd ho
    rcases key _ f hf with hf | ⟨_, rfl⟩
    · exact h.holds f hf hd ho
    · cases hd
  · intro hn
    obtain ⟨h1, h2, h3⟩ := h.first hn
    refine ⟨h1, h2, fun u f hf ev' x he => ?_⟩
    rcases key _ f hf with hf | ⟨rfl, rfl⟩
    · exact h3 u f hf ev' x he
    · cases he
      exact h3 _ _ hmem _ _ rfl
  · intro u f hf hw
    rcases key _ f hf with hf | ⟨rfl, rfl⟩
    · exact h.won u f hf hw
    · exact absurd hw hnw
  · intro u v f hf f' hf' hwf hwg
    rcases key _ f hf with hf | ⟨rfl, rfl⟩
    · rcases key _ f' hf' with hf' | ⟨rfl, rfl⟩
      · exact h.one u v f hf f' hf' hwf hwg
      · exact absurd hwg hnw
    · exact absurd hwf hnw
  · intro u f hf hw
    rcases key _ f hf with hf | ⟨rfl, rfl⟩
    · exact h.busy u f hf hw
    · exact absurd hw hnb
  · intro u f hf ev' x he hx
    rcases key _ f hf with hf | ⟨rfl, rfl⟩
    · exact h.early u f hf ev' x he hx
    · cases he
      rcases hg with rfl | rfl
      · cases hx
      · exact h.early _ _ hmem _ _ rfl hx
  · intro u f hf ev' x he hx
    rcases key _ f hf with hf | ⟨rfl, rfl⟩
    · exact h.st u f hf ev' x he hx
    · cases he
      rcases hg with rfl | rfl <;> rcases hx with hx | hx <;> cases hx
  · intro u f hf ev' x he hx
    rcases key _ f hf with hf | ⟨rfl, rfl⟩
    · exact h.deep u f hf ev' x he hx
    · cases he
      rcases hg with rfl | rfl
      · cases hx
      · exact h.deep _ _ hmem _ _ rfl hx
  · intro u f hf ph he
    rcases key _ f hf with hf | ⟨rfl, rfl⟩
    · exact h.stop u f hf ph he
    · cases he

end

/-! ### Everything known about an execution -/

/-- The rules for the use of a field: the state of a machine is used by its worker and before the machine runs, its listener is set before it is started, payloads go
with the events. Nothing is asked about the pairs, which belong to the library. -/
def Rules (env : Env) (H : List Did) : Cell → Prop
  | .cur m => OwnThread env m ∧ Disciplined (env.workerOf m) m H
  | .listener m => OwnThread env m ∧ Disciplined (env.workerOf m) m H ∧ ∃ t0, Prepared t0 (env.workerOf m) m H
  | .pair _ => True
  | .payload o => ∃ t0, Delivered t0 o H

def J (env : Env) (H : List Did) (lst : Tid → List Frame) (w : World) : Prop := ∀ m, OwnThread env m → ∀ t0, Disciplined (env.workerOf m) m H →
  CurInv env m H lst w ∧ (Prepared t0 (env.workerOf m) m H → LisInv env m H)

def Base (env : Env) (lst : Tid → List Frame) (w : World) : Prop := (Own env lst w ∧ TaskInv env lst w) ∧ Stacks lst w

theorem base_invariant (env : Env) : Invariant env (proto env) [] task Verif.fin (Base env) :=
  ((own_invariant env).and (task_preserved env)).and (stacks_invariant env _)

theorem base_numb : Numb env (Base env) := (own_numb.and task_numb).and stacks_numb

theorem j_hinv (env : Env) : HInv env (Base env) (J env) where
  op := fun H lst w t o l' ha hj hm hb m hx t0 => (listener_hinv env m t0 hx).op H lst w t o l' ha (hj m hx t0) hm hb
  ret := fun H lst w t ha hj hf m hx t0 => (listener_hinv env m t0 hx).ret H lst w t ha (hj m hx t0) hf
  thr := fun H lst w t x ha hj hf m hx t0 => (listener_hinv env m t0 hx).thr H lst w t x ha (hj m hx t0) hf
  dispatch := fun H lst w e i j s m' ha hj h1 h2 h3 m hx t0 => (listener_hinv env m t0 hx).dispatch H lst w e i j s m' ha (hj m hx t0) h1 h2 h3
  interrupt := fun H lst w t ha hj m hx t0 => (listener_hinv env m t0 hx).interrupt H lst w t ha (hj m hx t0)
  shutdown := fun H lst w t ha hj m hx t0 => (listener_hinv env m t0 hx).shutdown H lst w t ha (hj m hx t0)
  dropTasks := fun H lst w t ha hj m hx t0 => (listener_hinv env m t0 hx).dropTasks H lst w t ha (hj m hx t0)

theorem jp_hinv (env : Env) : HInv env (Base env) (fun H lst w => J env H lst w ∧ PayInv H lst w) where
  op := fun H lst w t o l' ha hj hm hb => ⟨(j_hinv env).op H lst w t o l' ha hj.1 hm hb, (pay_hinv env (Base env)).op H lst w t o l' ha hj.2 hm hb⟩
  ret := fun H lst w t ha hj hf => ⟨(j_hinv env).ret H lst w t ha hj.1 hf, (pay_hinv env (Base env)).ret H lst w t ha hj.2 hf⟩
  thr := fun H lst w t x ha hj hf => ⟨(j_hinv env).thr H lst w t x ha hj.1 hf, (pay_hinv env (Base env)).thr H lst w t x ha hj.2 hf⟩
  dispatch := fun H lst w e i j s m' ha hj h1 h2 h3 => ⟨(j_hinv env).dispatch H lst w e i j s m' ha hj.1 h1 h2 h3, (pay_hinv env (Base env)).dispatch H lst w e i j s m' ha hj.2 h1 h2 h3⟩
  interrupt := fun H lst w t ha hj => ⟨(j_hinv env).interrupt H lst w t ha hj.1, (pay_hinv env (Base env)).interrupt H lst w t ha hj.2⟩
  shutdown := fun H lst w t ha hj => ⟨(j_hinv env).shutdown H lst w t ha hj.1, (pay_hinv env (Base env)).shutdown H lst w t ha hj.2⟩
  dropTasks := fun H lst w t ha hj => ⟨(j_hinv env).dropTasks H lst w t ha hj.1, (pay_hinv env (Base env)).dropTasks H lst w t ha hj.2⟩

theorem j_goes {H : List Did} {lst : Tid → List Frame} {w : World} {t : Tid} {m : MId} {ev : Ev} {p : PairId} {ps : List PairId} {rest : List Frame} {g : Fate}
    {r : (Op.getPair p).Res} (h : J env H lst w) (hl : lst t = .fire m ev (.scan (p :: ps)) :: rest) (hg : g = .dup ∨ g = .scan ps) :
    J env (H ++ [.op t (.getPair p) r]) (fset lst t (.fire m ev g :: rest)) w := by
  intro m' hx t0 hD
  have h1 := h m' hx t0 (Disciplined.prefix hD)
  exact ⟨CurInv.goes (CurInv.look h1.1) hl hg, fun hP => (h1.2 hP.prefix).snoc hD hP fun hr => (by cases hr)⟩

theorem j_initial {c : Conf} (h : Initial c) : J env [] (fun _ => []) c.w :=
  fun m _ _ _ => ⟨cur_initial env m c h, fun _ => ⟨(fun i a hi => by cases hi), (fun i j a b _ hi => by cases hi)⟩⟩

/-- A thread that reads a pair it has removed from a queue gets what has been written last. -/
def Fresh (H : List Did) : Prop := ∀ (l k : Nat) p a b, l < k → H[l]? = some a → a.writes (.pair p) → H[k]? = some b → b.reads (.pair p) → Taken H k p → HB false H l k

theorem taken_snoc {H : List Did} {x : Did} {k : Nat} {p : PairId} (hk : k < H.length) (h : Taken (H ++ [x]) k p) : Taken H k p := by
  obtain ⟨n, hn, t, q, d, h1, h2, h3, h4⟩ := h
  rw [List.getElem?_append_left (by omega)] at h1 h2
  exact ⟨n, hn, t, q, d, h1, h2, h3, fun j d' hj1 hj2 hd => h4 j d' hj1 hj2 (get_snoc hd)⟩

theorem fresh_snoc {H : List Did} {x : Did} (h : Fresh H)
    (hx : ∀ l p a, H[l]? = some a → a.writes (.pair p) → x.reads (.pair p) → Taken (H ++ [x]) H.length p → HB false (H ++ [x]) l H.length) : Fresh (H ++ [x]) := by
  intro l k p a b hlk h1 h2 h3 h4 h5
  rcases snoc_get.1 h3 with h3' | ⟨rfl, rfl⟩
  · have := get_lt h3'
    rw [List.getElem?_append_left (by omega)] at h1
    exact HB.snoc (h l k p a b hlk h1 h2 h3' h4 (taken_snoc this h5))
  · rw [List.getElem?_append_left hlk] at h1
    exact hx l p a h1 h2 h4 h5

/-- As `swap_handed`. -/
theorem swap_delivered {A B : List Did} {t : Tid} {o : Op} {v v' : o.Res} {t0 : Tid} {oid : EvOid} (hw : ∀ f, (Did.op t o v).writes f → (Did.op t o v').writes f)
    (h : Delivered t0 oid (A ++ .op t o v' :: B)) : Delivered t0 oid (A ++ [.op t o v]) where
  uses i d hi hd := by
    have key : d.tid = t0 ∨ ∃ k < i, ∃ p ev m, (A ++ .op t o v' :: B)[k]? = some (.op d.tid (.getPair p) (some (ev, m))) ∧ Taken (A ++ .op t o v' :: B) k p ∧ ev.oid = oid := by
      rcases Plain.swap_get (v' := v') (B := B) hi with hi | ⟨rfl, rfl⟩
      · exact h.uses i d hi hd
      · exact h.uses A.length (.op t o v') (by simp) (hd.imp reads_any (hw _))
    refine key.imp id fun ⟨k, hk, p, ev, m, h1, ⟨n, hn, u, q, d', h2, h3, h4, h5⟩, h6⟩ => ⟨k, hk, p, ev, m, Plain.swap_back hi hk h1,
      ⟨n, hn, u, q, d', Plain.swap_back hi (by omega) h2, Plain.swap_back hi hk h3, h4, fun j d2 hj1 hj2 hd2 => h5 j d2 hj1 hj2 ?_⟩, h6⟩
    have hil := get_lt hi
    simp at hil
    rw [List.getElem?_append_left (by omega)] at hd2 ⊢
    exact hd2
  sets i j d u p ev m hi hd hj he := by
    have hj' := swap_unit (v' := v') (B := B) (fun _ _ => rfl) hj
    rcases Plain.swap_get (v' := v') (B := B) hi with hi | ⟨rfl, rfl⟩
    · exact h.sets i j d u p ev m hi hd hj' he
    · exact h.sets A.length j (.op t o v') u p ev m (by simp) (hw _ hd) hj' he

theorem pay_goes {H : List Did} {lst : Tid → List Frame} {w : World} {t : Tid} {m : MId} {ev : Ev} {p : PairId} {ps : List PairId} {rest : List Frame} {g : Fate}
    {x : Ev × MId} (h : PayInv H lst w) (hl : lst t = .fire m ev (.scan (p :: ps)) :: rest) (hg : g = .dup ∨ g = .scan ps)
    (hx : ∃ (j : Nat) (u : Tid) (m' : MId), H[j]? = some (.op u (.setPair p x.1 m') ())) :
    PayInv (H ++ [.op t (.getPair p) (some x)]) (fset lst t (.fire m ev g :: rest)) w := by
  have key : ∀ u, ∀ f ∈ fset lst t (.fire m ev g :: rest) u, f ∈ lst u ∨ f = .fire m ev g := by
    intro u f hf
    by_cases hu : u = t
    · subst hu
      rw [fset_same] at hf
      rcases List.mem_cons.1 hf with rfl | hf
      · exact Or.inr rfl
      · exact Or.inl (by rw [hl]; exact List.mem_cons_of_mem _ hf)
    · rw [fset_ne _ _ hu] at hf; exact Or.inl hf
  refine ⟨?_, ?_, ?_, ?_, ?_⟩
  · intro u f hf m' ev' p' he
    rcases key u f hf with hf | rfl
    · obtain ⟨k, d, h1, h2⟩ := h.raw u f hf m' ev' p' he
      exact ⟨k, d, get_snoc h1, h2⟩
    · rcases hg with rfl | rfl <;> cases he
  · intro u f hf m' ev' p' e he
    rcases key u f hf with hf | rfl
    · obtain ⟨k, d, h1, h2⟩ := h.copied u f hf m' ev' p' e he
      exact ⟨k, d, get_snoc h1, h2⟩
    · rcases hg with rfl | rfl <;> cases he
  · intro j u p' ev' m' hj
    rcases snoc_get.1 hj with hj | ⟨_, hj⟩
    · obtain ⟨k, hk, d, h1, h2⟩ := h.set j u p' ev' m' hj
      exact ⟨k, hk, d, get_snoc h1, h2⟩
    · cases hj
  · intro p' ev' m' hp
    obtain ⟨j, u, h1⟩ := h.pair p' ev' m' hp
    exact ⟨j, u, get_snoc h1⟩
  · intro k u p' ev' m' hk
    rcases snoc_get.1 hk with hk | ⟨rfl, he⟩
    · obtain ⟨j, hj, v, m2, h1⟩ := h.get k u p' ev' m' hk
      exact ⟨j, hj, v, m2, get_snoc h1⟩
    · clear hk
      cases he
      obtain ⟨j, v, m2, h1⟩ := hx
      exact ⟨j, get_lt h1, v, m2, get_snoc h1⟩

structure S (env : Env) (v0 : Cell → Content) (A : List Act) (lst : Tid → List Frame) (c : Conf) : Prop where
  ok : ThreadsOk (proto env) [] Verif.fin lst c
  busy : ∀ t, c.thr t ≠ none → Busy t (lst t)
  base : Base env lst c.w
  j : J env (dids A) lst c.w
  pay : PayInv (dids A) lst c.w
  fresh : Fresh (dids A)
  last : ∀ f, Last (v0 f) f A (content c.w f)

section
variable {v0 : Cell → Content} {A B : List Act} {lst lst' : Tid → List Frame} {c c' : Conf}

theorem fresh_act {x : PChoice} (hk : K env A lst c) (h : Fresh (dids A)) : Fresh (dids (A ++ (act c x).toList)) := by
  cases ha : act c x with
  | none => simpa using h
  | some y =>
    have hd : dids (A ++ (some y).toList) = dids A ++ [y.1] := by simp [dids]
    rw [hd]
    refine fresh_snoc h fun l p a h1 h2 h3 h4 => ?_
    obtain ⟨d, z⟩ := y
    cases d with
    | take => cases h3
    | op t o r =>
      obtain rfl : o = .getPair p := by
        cases o <;> simp [Did.reads] at h3 ⊢
        exact h3.symm
      obtain ⟨k, hp⟩ := act_op ha rfl
      have h0 := hk.ok t
      rw [hp] at h0
      rcases getPair_frame c.w h0.1 with ⟨m1, ev, ps, rest, hl⟩ | ⟨s, cm, ev, m1, rest, hl⟩
      · obtain ⟨n, b, g1, g2, g3, g4⟩ := hk.j.2.1.top t _ rest hl rfl
        obtain ⟨n', hn', u, q, d, f1, f2, f3, f4⟩ := h4
        rw [last_snoc] at f2
        cases f2
        obtain rfl : t = u := f3
        have f1' : (dids A)[n']? = some (.op t (.poll q) (some p)) := by
          rw [List.getElem?_append_left hn'] at f1; exact f1
        rcases Nat.lt_trichotomy n n' with h5 | h5 | h5
        · exact absurd rfl (g3 n' _ h5 f1')
        · subst h5
          rw [f1'] at g1
          cases g1
          exact absurd rfl (g4 _ _ _)
        · exact absurd g2 (f4 n b h5 (get_lt g1) (get_snoc g1))
      · exact Past.hb (x := .op t (.getPair p) r) (hk.j.1.own t p (by rw [hl]; simp [Frame.owned]) l a h1 h2)

theorem s_sched {x : Choice} (hk : K env A lst' c) (h : S env v0 A lst c) (hs : Verif.step env c x = some c') : ∃ lst', S env v0 (A ++ (act c (.sched x)).toList) lst' c' := by
  obtain ⟨lst', h1, h2, h3, h4, h5⟩ := hist_step (base_invariant env) (jp_hinv env) h.ok h.busy h.base ⟨h.j, h.pay⟩ hs
  refine ⟨lst', h1, h2, h3, ?_, ?_, fresh_act hk h.fresh, fun f => last_step (h.last f) hs⟩
  · rw [dids_append]
    rw [← did_act] at h4
    cases hd : act c (.sched x) with
    | none => simpa [hd, dids] using h4
    | some d => simpa [hd, dids] using h4
  · rw [dids_append]
    rw [← did_act] at h5
    cases hd : act c (.sched x) with
    | none => simpa [hd, dids] using h5
    | some d => simpa [hd, dids] using h5

theorem s_check {t : Tid} {p : PairId} {k : (Op.getPair p).Res → Prog Unit} {x : Ev × MId} {v : Content} (hk' : K env A lst' c) (h : S env v0 A lst c)
    (ha : act c (.read t v) = some (.op t (.getPair p) (some x), some (.pair p, v)))
    (hset : ∃ (j : Nat) (u : Tid) (m' : MId), (dids A)[j]? = some (.op u (.setPair p x.1 m') ()))
    (hp : c.thr t = some (.op (.getPair p) k)) (hsc : Scanning k) (hx : ∀ q, p ∈ c.w.queue q → OneProducer env q t c.w.trace → c.w.pair p = some x) :
    ∃ lst', S env v0 (A ++ [(.op t (.getPair p) (some x), some (.pair p, v))]) lst' { c with thr := fset c.thr t (some (k (some x))) } := by
  have h0 := h.ok t
  rw [hp] at h0
  obtain ⟨m, ev, ps, rest, hl⟩ := scan_of_scanning (over_self env) ((base_invariant env).know _ _ t h.base) h0 hsc
  have hl : lst t = _ := hl
  have hk : lKnow (lst t) (put c.w p x) := by
    have := (base_invariant env).know _ _ t h.base
    have h1 : lKnow (lst t) c.w := this
    rw [hl] at h1 ⊢
    exact scan_know x h1
  have h1 := h0.2 _ hk
  have h2 : (exec t (.getPair p) (put c.w p x)).1 = some x := by simp [exec]
  rw [h2] at h1
  obtain ⟨g, h3, h4⟩ := scan_frames (env := env) (w := c.w) x hl hx
  refine ⟨fset lst t (.fire m ev g :: rest), fun u => ?_, fun u => ?_, base_numb _ _ _ _ _ _ _ _ _ h.base hl h4, ?_, ?_, ?_, fun f => ?_⟩
  · rw [← h3]
    by_cases hu : u = t
    · subst hu; simpa using h1
    · simp only [fset_ne _ _ hu]; exact h.ok u
  · rw [← h3]
    by_cases hu : u = t
    · subst hu
      simp only [fset_same]
      exact fun _ => busy_move (w := put c.w p x) (lmove_of_allowed h0.1) (h.busy u (by rw [hp]; simp))
    · simp only [fset_ne _ _ hu]; exact h.busy u
  · rw [dids_append]
    exact j_goes h.j hl (h4.imp id fun h => h.1)
  · rw [dids_append]
    exact pay_goes h.pay hl (h4.imp id fun h => h.1) hset
  · have := fresh_act (x := .read t v) hk' h.fresh
    rw [ha] at this
    exact this
  · exact (h.last f).keep fun u hu => by cases hu

theorem puts_set {j : Nat} {y : Act} {p : PairId} {e : Ev} {m : MId} (h1 : A[j]? = some y) (h2 : puts y = some (.pair p, .pair (some e) (some m))) :
    ∃ (u : Tid) (m' : MId), (dids A)[j]? = some (.op u (.setPair p e m') ()) := by
  obtain ⟨d, z⟩ := y
  cases d with
  | take => cases h2
  | op u o r =>
    have : o = .setPair p e m := by
      cases z <;> cases o <;> simp only [puts, Option.some.injEq, reduceCtorEq, Prod.mk.injEq, Cell.pair.injEq, Content.pair.injEq, false_and] at h2 <;>
        (obtain ⟨rfl, rfl, rfl⟩ := h2; rfl)
    subst this
    exact ⟨u, m, dids_get h1⟩

/-- A justified read of a pair that is not about to be used. -/
theorem pair_case {M : Cell → Prop} [DecidablePred M] {t : Tid} {v : Content} {p : PairId} {k : (Op.getPair p).Res → Prog Unit} (h : K env A lst c) (hw : Writers A c.w)
    (hp : c.thr t = some (.op (.getPair p) k)) (hs : Plain.step env M c (.read t v) = some c')
    (hj : Justified false (.pair none none) (.pair p) (A ++ ((act c (.read t v)).toList ++ B))) :
    (Verif.step env c (.run t) = some c' ∧ act c (.sched (.run t)) = act c (.read t v)) ∨
    ∃ x : Ev × MId, Scanning k ∧ (∃ (j : Nat) (u : Tid) (m' : MId), (dids A)[j]? = some (.op u (.setPair p x.1 m') ())) ∧ (∀ q, p ∈ c.w.queue q → OneProducer env q t c.w.trace → c.w.pair p = some x) ∧
      c' = { c with thr := fset c.thr t (some (k (some x))) } ∧ act c (.read t v) = some (.op t (.getPair p) (some x), some (.pair p, v)) := by
  simp only [Plain.step, hp, source] at hs
  split at hs
  rotate_left
  · cases hs
  cases v <;> simp only [execRead, Option.map_none, reduceCtorEq] at hs
  rename_i e m
  cases he : execRead t (.getPair p) (.pair e m) c.w with
  | none => simp only [execRead] at he; split at he <;> cases he
  | some r =>
    have hact : act c (.read t (.pair e m)) = some (.op t (.getPair p) r.1, some (.pair p, .pair e m)) := by simp [act, hp, he, source]
    rw [hact] at hj
    have h0 := h.ok t
    rw [hp] at h0
    rcases getPair_frame c.w h0.1 with ⟨m1, ev, ps, rest, hl⟩ | ⟨s, cm, ev, m1, rest, hl⟩
    · have hmk := h.j.1.mark t (.fire m1 ev (.scan (p :: ps))) (by rw [hl]; exact List.mem_cons_self)
      obtain ⟨e', m', rfl, rfl, j, ⟨⟨m2, y, hy1, hy2⟩, _⟩, _⟩ := read_some (hmk p List.mem_cons_self).1 (h.j.1.ww p) h.j.2.2.2.1 hj
      have hx : ∀ q, p ∈ c.w.queue q → OneProducer env q t c.w.trace → c.w.pair p = some (e', m') := by
        intro q hq ho
        obtain ⟨ev1, m1, g1, _⟩ := good_last h hp
        have := own_writes h hw hp hj hq ho
        rw [g1]
        simpa [content, g1, eq_comm] using this
      cases he
      simp only [Option.map_some, Option.some.injEq] at hs
      subst hs
      have hkn : lKnow (lst t) c.w := own_know t h.own
      rw [hl] at hkn h0
      exact Or.inr ⟨(e', m'), scanning_of_scan hkn h0, ⟨j, puts_set hy1 hy2⟩, hx, rfl, hact⟩
    · have hmine : p ∈ ownedL (lst t) := by rw [hl]; simp [Frame.owned]
      have hv : Content.pair e m = content c.w (.pair p) :=
        reads_last_of (r0 := (exec t (.getPair p) c.w).1) rfl (fun k d h1 h2 => Past.hb (x := .op t (.getPair p) _) (h.j.1.own t p hmine k d h1 h2))
          (fun i j d d' h1 h2 h3 h4 h5 => HB.snoc (h.j.1.ww p i j d d' h1 h2 h3 h4 h5)) (h.last p) hj
      refine Or.inl ⟨?_, ?_⟩
      · rw [← hs]
        have hp' := (execRead_content (t := t) (o := .getPair p) (f := .pair p) (w := c.w) rfl)
        rw [← hv] at hp'
        simp only [execRead] at hp'
        rw [hp']
        simp [Verif.step, hp, runThread, enabled]
      · have hp' := (execRead_content (t := t) (o := .getPair p) (f := .pair p) (w := c.w) rfl)
        rw [← hv, he] at hp'
        cases hp'
        rw [hact, act_run hp, hv]
        rfl

/-- A read that returns what the field contains is a step of the scheduler. -/
theorem read_current {M : Cell → Prop} [DecidablePred M] {t : Tid} {o : Op} {k : o.Res → Prog Unit} {f : Cell} (hp : c.thr t = some (.op o k)) (hf : source o = some f)
    (hs : Plain.step env M c (.read t (content c.w f)) = some c') :
    Verif.step env c (.run t) = some c' ∧ act c (.sched (.run t)) = act c (.read t (content c.w f)) := by
  have hen : enabled t o c.w = true := by cases o <;> first | rfl | cases hf
  simp only [Plain.step, hp, hf] at hs
  split at hs
  · rw [execRead_content hf] at hs
    refine ⟨?_, ?_⟩
    · simp only [Verif.step, hp, runThread, hen, if_true]; exact hs
    · rw [act_run hp]; simp [act, hp, execRead_content hf, Plain.Done, hf]
  · cases hs

/-- Without data races on a field of a machine, a justified read of it returns what it contains. -/
theorem read_case {t : Tid} {o : Op} {k : o.Res → Prog Unit} {f : Cell} {v : Content} {r : o.Res} (hk : K env A lst' c) (h : S env v0 A lst c)
    (hp : c.thr t = some (.op o k)) (hf : source o = some f)
    (hnp : ¬Pairs f) (hr : Rules env (dids (A ++ (.op t o r, some (f, v)) :: B)) f)
    (hj : Justified false (v0 f) f (A ++ (.op t o r, some (f, v)) :: B)) (hwr : ∀ g, (Did.op t o (exec t o c.w).1).writes g → (Did.op t o r).writes g) : v = content c.w f := by
  have hen : enabled t o c.w = true := by cases o <;> first | rfl | cases hf
  have hs : Verif.step env c (.run t) = some ⟨(exec t o c.w).2, fset c.thr t (some (k (exec t o c.w).1))⟩ := by
    simp [Verif.step, hp, runThread, hen]
  obtain ⟨l, h1⟩ := s_sched hk h hs
  have h2 := h1.j
  have h3 := h1.pay
  have h4 := h1.fresh
  rw [act_run hp] at h2 h3 h4
  have hd : dids (A ++ (some (Plain.Done t o c.w)).toList) = dids A ++ [.op t o (exec t o c.w).1] := by simp [dids, Plain.Done]
  rw [hd] at h2 h3 h4
  have hd' : dids (A ++ (.op t o r, some (f, v)) :: B) = dids A ++ .op t o r :: dids B := by simp [dids]
  rw [hd'] at hr
  have hrf : RaceFree false (dids A ++ [.op t o (exec t o c.w).1]) f := by
    cases f with
    | cur m => exact (h2 m hr.1 .env (Plain.swap_disciplined hr.2)).1.rf
    | listener m =>
      obtain ⟨g1, g2, t0, g3⟩ := hr
      exact ((h2 m g1 t0 (Plain.swap_disciplined g2)).2 (swap_prepared g3)).rf
    | pair p => exact absurd trivial hnp
    | payload oid =>
      obtain ⟨t0, hr⟩ := hr
      have := swap_delivered hwr hr
      exact via_rf (R := fun k p => Taken (dids A ++ [Did.op t o (exec t o c.w).1]) k p) h3 h4 ⟨this.uses, this.sets⟩
  exact reads_last hf hrf (h.last f) hj

/-- If the rules are kept, only checks for duplicates read something else than what has been written last. -/
theorem safe {M : Cell → Prop} [DecidablePred M] {xs : List PChoice} (hv : ∀ p, v0 (.pair p) = .pair none none) (hk : K env A lst c) (hw : Writers A c.w)
    (h : S env v0 A lst' c) (hs : Plain.runs env M c xs = some c') (hr : ∀ f, M f → Rules env (dids (A ++ acts env M c xs)) f)
    (hj : ∀ f, M f → Justified false (v0 f) f (A ++ acts env M c xs)) :
    (∃ ys, Plain.runs env Pairs c ys = some c' ∧ acts env Pairs c ys = acts env M c xs) ∧ CRuns env (fun _ => False) c c' ∧
      ∃ lst, S env v0 (A ++ acts env M c xs) lst c' := by
  induction xs generalizing c A lst lst' with
  | nil => cases hs; exact ⟨⟨[], rfl, rfl⟩, .refl _, lst', by simpa [acts] using h⟩
  | cons x xs ih =>
    simp only [Plain.runs] at hs
    split at hs
    · cases hs
    next c1 h1 =>
      have hh : acts env M c (x :: xs) = (act c x).toList ++ acts env M c1 xs := by simp only [acts, h1]
      rw [hh] at hr hj ⊢
      have hw1 : Writers (A ++ (act c x).toList) c1.w := writers_act h.ok h.base.2 (fun y hm => (plain_grows h1).subset hm) hw
      have hk1 : ∃ lst, K env (A ++ (act c x).toList) lst c1 := by
        cases x with
        | sched y => exact k_sched hk h1
        | read t v => exact k_read hk h1 fun p hp => by rw [← hv p]; exact hj _ hp
      obtain ⟨l1, hk1⟩ := hk1
      -- the step, with weak pairs only
      have key : ∃ y, Plain.step env Pairs c y = some c1 ∧ act c y = act c x ∧ CStep env (fun _ => False) c c1 ∧ ∃ lst, S env v0 (A ++ (act c x).toList) lst c1 := by
        have done : ∀ t, Verif.step env c (.run t) = some c1 → act c (.sched (.run t)) = act c x →
            ∃ y, Plain.step env Pairs c y = some c1 ∧ act c y = act c x ∧ CStep env (fun _ => False) c c1 ∧ ∃ lst, S env v0 (A ++ (act c x).toList) lst c1 :=
          fun t g1 g2 => ⟨.sched (.run t), g1, g2, .plain (x := .sched (.run t)) g1, g2 ▸ s_sched hk h g1⟩
        cases x with
        | sched y => exact ⟨.sched y, h1, rfl, .plain (x := .sched y) h1, s_sched hk h h1⟩
        | read t v =>
          have h1' := h1
          simp only [Plain.step] at h1
          split at h1
          next o k hp =>
            split at h1
            next f hf =>
              split at h1
              next hm =>
                obtain ⟨r, he, rfl⟩ := Option.map_eq_some_iff.1 h1
                have hact : act c (.read t v) = some (.op t o r.1, some (f, v)) := by simp [act, hp, he, hf]
                by_cases hfp : Pairs f
                · obtain ⟨p, rfl⟩ : ∃ p, f = .pair p := by cases f <;> first | exact hfp.elim | exact ⟨_, rfl⟩
                  obtain rfl : o = .getPair p := by
                    cases o <;> simp only [source, Option.some.injEq, reduceCtorEq, Cell.pair.injEq] at hf
                    subst hf
                    rfl
                  rcases pair_case hk hw hp h1' (by rw [← hv p]; exact hj _ hm) with ⟨g1, g2⟩ | ⟨x, g1, g0, g2, g3, g4⟩
                  · exact done t g1 g2
                  · refine ⟨.read t v, ?_, rfl, g3 ▸ .check x hp g1 g2, ?_⟩
                    · simp only [Plain.step, hp, hf, hfp, if_true]; exact h1
                    · rw [g4, g3]
                      exact s_check hk h g4 g0 hp g1 g2
                · have hr := hr f hm
                  have hj := hj f hm
                  rw [hact] at hr hj
                  have hvv := read_case hk h hp hf hfp hr hj fun g => execRead_writes he
                  subst hvv
                  obtain ⟨g1, g2⟩ := read_current hp hf h1'
                  exact done t g1 g2
              · cases h1
            · cases h1
          · cases h1
      obtain ⟨y, g1, g2, g0, l2, g3⟩ := key
      rw [← List.append_assoc] at hr hj ⊢
      obtain ⟨⟨ys, g4, g5⟩, g7, g6⟩ := ih hk1 hw1 g3 hs hr hj
      refine ⟨⟨y :: ys, by simp only [Plain.runs, g1]; exact g4, ?_⟩, .step g0 g7, g6⟩
      simp only [acts, g1, g2, g5]

end

theorem s_initial {c : Conf} (h : Initial c) : S env (fun f => content c.w f) [] (fun _ => []) c where
  ok := fun t => by rw [h.idle t]
  busy := fun t ht => absurd (h.idle t) ht
  base := ⟨⟨own_initial env c h, task_initial env c h⟩, stacks_initial _⟩
  j := j_initial h
  pay := ⟨(fun _ _ hf => by cases hf), (fun _ _ hf => by cases hf), (fun _ _ _ _ _ hf => by cases hf), (fun p ev m hp => by rw [h.pair] at hp; cases hp), fun _ _ _ _ _ hf => by cases hf⟩
  fresh := fun _ _ _ _ _ _ h1 => by cases h1
  last := fun f => Or.inl ⟨rfl, fun _ _ ⟨_, h1, _⟩ => by cases h1⟩

/-- Every read of a field other than a pair returns what has been written last. -/
theorem last_reads {v0 : Cell → Content} {A : List Act} {c c' : Conf} {ys : List PChoice} (hs : Plain.runs env Pairs c ys = some c') (hl : ∀ f, Last (v0 f) f A (content c.w f))
    {i : Nat} {d : Did} {f : Cell} {v : Content} (hi : (A ++ acts env Pairs c ys)[i]? = some (d, some (f, v))) (hn : ¬Pairs f) (hA : A.length ≤ i) :
    Last (v0 f) f ((A ++ acts env Pairs c ys).take i) v := by
  induction ys generalizing c A with
  | nil =>
    have := (List.getElem?_eq_some_iff.1 hi).1
    simp [acts] at this
    omega
  | cons x ys ih =>
    simp only [Plain.runs] at hs
    split at hs
    · cases hs
    next c1 h1 =>
      have hh : acts env Pairs c (x :: ys) = (act c x).toList ++ acts env Pairs c1 ys := by simp only [acts, h1]
      rw [hh] at hi ⊢
      have h2 : ∀ f, Last (v0 f) f (A ++ (act c x).toList) (content c1.w f) := by
        intro g
        cases x with
        | sched y => exact last_step (hl g) h1
        | read t u =>
          simp only [Plain.step] at h1
          split at h1
          next o k hp =>
            split at h1
            next f' hf =>
              split at h1
              next hm =>
                obtain ⟨r, he, rfl⟩ := Option.map_eq_some_iff.1 h1
                obtain ⟨p, rfl⟩ : ∃ p, f' = .pair p := by cases f' <;> first | exact hm.elim | exact ⟨_, rfl⟩
                obtain rfl : o = .getPair p := by
                  cases o <;> simp only [source, Option.some.injEq, reduceCtorEq, Cell.pair.injEq] at hf
                  subst hf
                  rfl
                have hact : act c (.read t u) = some (.op t (.getPair p) r.1, some (.pair p, u)) := by simp [act, hp, he, source]
                rw [hact]
                have hw : r.2 = c.w := by
                  cases u <;> simp only [execRead, reduceCtorEq] at he
                  rename_i e m
                  cases e <;> cases m <;> simp only [Option.some.injEq] at he <;> subst he <;> rfl
                show Last (v0 g) g _ (content r.2 g)
                rw [hw]
                exact (hl g).keep fun u hu => by cases hu
              · cases h1
            · cases h1
          · cases h1
      by_cases hiA : i = A.length
      · subst hiA
        cases ha : act c x with
        | none =>
          rw [ha] at hi h2
          simp only [Option.toList_none, List.append_nil, List.nil_append] at hi h2 ⊢
          exact ih hs h2 hi (Nat.le_refl _)
        | some y =>
          rw [ha] at hi
          have hy : y = (d, some (f, v)) := by simpa using hi
          have hv : v = content c.w f := by
            subst hy
            cases x with
            | sched z => exact act_read ha
            | read t u =>
              exfalso
              simp only [Plain.step] at h1
              split at h1
              next o k hp =>
                split at h1
                next f' hf =>
                  split at h1
                  next hm =>
                    obtain ⟨r, he, rfl⟩ := Option.map_eq_some_iff.1 h1
                    simp [act, hp, he, hf] at ha
                    exact hn (ha.2.1 ▸ hm)
                  · cases h1
                · cases h1
              · cases h1
          simp only [List.take_left']
          rw [hv]
          exact hl f
      · rw [← List.append_assoc] at hi ⊢
        refine ih hs h2 hi ?_
        cases act c x <;> simp <;> omega

/-! ### Executions in which only checks go wrong -/

section
variable {L : Type} {P : Proto L} {l0 : L} {task : SId → MId → L} {fin : Tid → Except Exc Unit → L → Prop} {Inv : (Tid → L) → World → Prop}
  {proj : L → List Frame} {M : Cell → Prop} [DecidablePred M]

theorem tame_step (ho : Over env P fin proj) (hc : Checked env P l0 task fin) (hi : Invariant env P l0 task fin Inv) (hr : Rash env P proj Inv)
    (hM : ∀ f, ¬M f) {c c' : Conf} {lst : Tid → L} (ht : ThreadsOk P l0 fin lst c) (hI : Inv lst c.w) (hs : CStep env M c c') :
    ∃ lst', ThreadsOk P l0 fin lst' c' ∧ Inv lst' c'.w := by
  cases hs with
  | @plain _ x hs =>
    cases x with
    | sched y => exact sound_step hc hi ht hI hs
    | read t v =>
      simp only [Plain.step, hM, if_false] at hs
      split at hs
      · split at hs <;> cases hs
      · cases hs
  | @check t p k x hp hsc hx =>
    have h0 := ht t
    rw [hp] at h0
    obtain ⟨m, ev, ps, rest, hl⟩ := scan_of_scanning ho (hi.know _ _ t hI) h0 hsc
    have h1 := h0.2 _ (hr.know _ _ t _ _ _ _ _ x hI hl)
    have h2 : (exec t (.getPair p) (put c.w p x)).1 = some x := by simp [exec]
    rw [h2] at h1
    refine ⟨_, fun u => ?_, hr.read _ _ t _ _ _ _ _ x hI hl h0.1 hx⟩
    by_cases hu : u = t
    · subst hu; simpa using h1
    · simp only [fset_ne _ _ hu]; exact ht u

theorem tame (ho : Over env P fin proj) (hc : Checked env P l0 task fin) (hi : Invariant env P l0 task fin Inv) (hr : Rash env P proj Inv)
    (hM : ∀ f, ¬M f) {c0 c : Conf} (h0 : Initial c0) (hI : Inv (fun _ => l0) c0.w) (hs : CRuns env M c0 c) :
    ∃ lst, ThreadsOk P l0 fin lst c ∧ Inv lst c.w := by
  have key : ∀ {a b : Conf}, CRuns env M a b → ∀ lst, ThreadsOk P l0 fin lst a → Inv lst a.w → ∃ lst', ThreadsOk P l0 fin lst' b ∧ Inv lst' b.w := by
    intro a b h
    induction h with
    | refl => exact fun lst h1 h2 => ⟨lst, h1, h2⟩
    | step hs _ ih =>
      intro lst h1 h2
      obtain ⟨l, h3, h4⟩ := tame_step ho hc hi hr hM h1 h2 hs
      exact ih l h3 h4
  exact key hs (fun _ => l0) (fun t => by rw [h0.idle t]) hI

end

/-! ### Processing of events -/

open Spec.Mon in
theorem mon_numb {m0 : MId} {t0 : Tid} {g0 : G} : Numb env (MonInv env m0 t0 g0) := by
  rintro lst w t m ev p ps rest g ⟨d, md, b, h1, h2, h3⟩ hl hg
  refine ⟨d, md, b, h1, ?_, h3⟩
  by_cases hu : t0 = t
  · subst hu
    rw [hl] at h2
    rw [fset_same]
    cases h2 with
    | drain hd => cases hd
    | cons hd h2 => exact .cons (by rcases hg with rfl | ⟨rfl, _⟩ <;> rfl) h2
  · rw [fset_ne _ _ hu]; exact h2

end Verif.Safe
