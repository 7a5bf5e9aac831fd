import Verif.Spec.Names
/-
Programs that correspond to each other up to names behave alike (C100).
-/

namespace Verif.Names
open Verif.Spec.Names Prog

variable {N : Naming} {env env' : Verif.Env} {α α' β β' : Type}

/-! ### Lists and options -/

theorem Opt.isSome {R : α → α' → Prop} {a : Option α} {b : Option α'} (h : Opt R a b) : a.isSome = b.isSome := by cases h <;> rfl

theorem Opt.isNone {R : α → α' → Prop} {a : Option α} {b : Option α'} (h : Opt R a b) : a.isNone = b.isNone := by cases h <;> rfl

theorem All.length {R : α → α' → Prop} {l : List α} {l' : List α'} (h : All R l l') : l.length = l'.length := by
  induction h with
  | nil => rfl
  | cons _ _ ih => simp [ih]

theorem All.get {R : α → α' → Prop} {l : List α} {l' : List α'} (h : All R l l') : ∀ i : Nat, Opt R l[i]? l'[i]? := by
  induction h with
  | nil => intro i; simpa using Opt.none
  | cons h _ ih => intro i; cases i with
    | zero => simpa using Opt.some h
    | succ i => simpa using ih i

theorem All.append {R : α → α' → Prop} {l k : List α} {l' k' : List α'} (h : All R l l') (h2 : All R k k') : All R (l ++ k) (l' ++ k') := by
  induction h with
  | nil => exact h2
  | cons h _ ih => exact .cons h ih

theorem All.any {R : α → α' → Prop} {l : List α} {l' : List α'} {p : α → Bool} {p' : α' → Bool} (h : All R l l') (hp : ∀ a b, R a b → p a = p' b) : l.any p = l'.any p' := by
  induction h with
  | nil => rfl
  | cons h _ ih => simp [ih, hp _ _ h]

theorem All.mono {R S : α → α' → Prop} {l : List α} {l' : List α'} (h : All R l l') (hs : ∀ a b, R a b → S a b) : All S l l' := by
  induction h with
  | nil => exact .nil
  | cons h _ ih => exact .cons (hs _ _ h) ih

theorem All.refl {R : α → α → Prop} {l : List α} (h : ∀ a ∈ l, R a a) : All R l l := by
  induction l with
  | nil => exact .nil
  | cons a l ih => exact .cons (h a (by simp)) (ih fun b hb => h b (by simp [hb]))

theorem All.flip {R : α → α' → Prop} {l : List α} {l' : List α'} (h : All R l l') : All (fun a b => R b a) l' l := by
  induction h with
  | nil => exact .nil
  | cons h _ ih => exact .cons h ih

theorem Opt.flip {R : α → α' → Prop} {a : Option α} {b : Option α'} (h : Opt R a b) : Opt (fun a b => R b a) b a := by
  cases h with
  | none => exact .none
  | some h => exact .some h

theorem Opt.mono {R S : α → α' → Prop} {a : Option α} {b : Option α'} (h : Opt R a b) (hs : ∀ a b, R a b → S a b) : Opt S a b := by
  cases h with
  | none => exact .none
  | some h => exact .some (hs _ _ h)

/-! ### Tables -/

theorem get_rel [DecidableEq α] [DecidableEq α'] {K : α → α' → Prop} {V : β → β' → Prop} {l : AMap α β} {l' : AMap α' β'}
    (h : All (fun e e' => K e.1 e'.1 ∧ V e.2 e'.2) l l') (hK : ∀ a a' b b', K a a' → K b b' → (a = b ↔ a' = b')) {x : α} {x' : α'} (hx : K x x') :
    Opt V (AMap.get? l x) (AMap.get? l' x') := by
  induction h with
  | nil => exact .none
  | @cons a b l l' h _ ih =>
    obtain ⟨k, v⟩ := a
    obtain ⟨k', v'⟩ := b
    have := hK _ _ _ _ h.1 hx
    simp only [AMap.get?]
    by_cases h1 : k = x
    · rw [if_pos h1, if_pos (this.1 h1)]; exact .some h.2
    · rw [if_neg h1, if_neg (fun h2 => h1 (this.2 h2))]; exact ih

theorem row_rel (hN : N.Ok) {t t' : Table} (h : N.Table t t') {s s' : Option St} (hs : Opt N.St s s') : Opt N.Row (t.row? s) (t'.row? s') := by
  cases hs with
  | none => exact .none
  | some hs => exact get_rel h (fun _ _ _ _ => hN.st) hs.1

theorem key_inj (hN : N.Ok) (a a' b b' : Option EvKey) (h : Opt N.Key a a') (h2 : Opt N.Key b b') : a = b ↔ a' = b' := by
  cases h with
  | none => cases h2 with
    | none => simp
    | some _ => simp
  | @some x x' h => cases h2 with
    | none => simp
    | @some y y' h2 =>
      have := hN.ev h.2 h2.2
      obtain ⟨c, n⟩ := x
      obtain ⟨c', n'⟩ := x'
      obtain ⟨d, p⟩ := y
      obtain ⟨d', p'⟩ := y'
      obtain ⟨h1, _⟩ := h
      obtain ⟨h3, _⟩ := h2
      simp only at h1 h3 this
      subst h1 h3
      simp [this]

theorem target_rel (hN : N.Ok) {r r' : Row} (h : N.Row r r') {k k' : Option EvKey} (hk : Opt N.Key k k') : Opt N.St (r.target k) (r'.target k') := by
  have := get_rel h.2 (key_inj hN) hk
  unfold Row.target
  generalize AMap.get? r.ents k = a at this
  generalize AMap.get? r'.ents k' = b at this
  cases this with
  | none => exact .none
  | some h => exact h

theorem key_rel {ev ev' : Ev} (h : N.Ev ev ev') : Opt N.Key (some ev.key) (some ev'.key) := .some ⟨h.1, h.2.1⟩

theorem eqv_rel (hN : N.Ok) {a a' b b' : St} (h : N.St a a') (h2 : N.St b b') : a.eqv b = a'.eqv b' := by
  have := hN.st h.1 h2.1
  unfold St.eqv
  by_cases h3 : a.name = b.name
  · simp [h3, this.1 h3]
  · simp [beq_eq_false_iff_ne.2 h3, beq_eq_false_iff_ne.2 fun h4 => h3 (this.2 h4)]

theorem ev_eqv_rel (hN : N.Ok) {a a' b b' : Ev} (h : N.Ev a a') (h2 : N.Ev b b') : a.eqv b = a'.eqv b' := by
  have := key_inj hN _ _ _ _ (key_rel h) (key_rel h2)
  simp only [Option.some.injEq] at this
  unfold Ev.eqv
  by_cases h3 : a.key = b.key
  · simp [h3, this.1 h3]
  · simp [beq_eq_false_iff_ne.2 h3, beq_eq_false_iff_ne.2 fun h4 => h3 (this.2 h4)]

theorem end_rel (hN : N.Ok) (he : N.Env env env') (m : MId) : N.St (env.mach m).res.endSt (env'.mach m).res.endSt :=
  ⟨hN.reserved resEnd (by simp [reservedStateNames]), (he.res m).1⟩

theorem no_rel (hN : N.Ok) (he : N.Env env env') (m : MId) : N.St (env.mach m).res.noSt (env'.mach m).res.noSt :=
  ⟨hN.reserved resUninit (by simp [reservedStateNames]), (he.res m).2.1⟩

theorem noop_rel (hN : N.Ok) (he : N.Env env env') (m : MId) : N.St (env.mach m).res.noopSt (env'.mach m).res.noopSt :=
  ⟨hN.reserved resNoop (by simp [reservedStateNames]), (he.res m).2.2⟩

theorem imm_rel (hN : N.Ok) : N.Ev immEv immEv := ⟨rfl, hN.immediate, rfl⟩

theorem final_rel (hN : N.Ok) {t t' : Table} (h : N.Table t t') {r r' : Reserved} (hr : N.St r.endSt r'.endSt) {s s' : St} (hs : N.St s s') :
    isFinal t r s = isFinal t' r' s' := by
  have h1 := row_rel hN h (.some hs)
  unfold isFinal
  generalize t.row? (some s) = a at h1
  generalize t'.row? (some s') = b at h1
  cases h1 with
  | none => rfl
  | @some a b h1 =>
    have h2 := target_rel hN h1 (k := some immKey) (k' := some immKey) (.some ⟨rfl, hN.immediate⟩)
    simp only
    generalize a.target (some immKey) = x at h2
    generalize b.target (some immKey) = y at h2
    cases h2 with
    | none => rfl
    | some h2 => exact eqv_rel hN hr h2

theorem checks_rel {t t' : Table} (h : N.Table t t') {s s' : Option St} (hs : Opt N.St s s') : startChecks s t = startChecks s' t' := by
  unfold startChecks
  rw [Opt.isNone hs, All.any (p' := fun r => r.2.ents.any fun e => e.2.isNone) h fun a b hab => All.any hab.2.2 fun _ _ h => Opt.isNone h.2]
  have : t.isEmpty = t'.isEmpty := by cases h <;> rfl
  rw [this]

/-! ### Configuration -/

theorem put_rel [DecidableEq α] [DecidableEq α'] {K : α → α' → Prop} {V : β → β' → Prop} {l : AMap α β} {l' : AMap α' β'}
    (h : All (fun e e' => K e.1 e'.1 ∧ V e.2 e'.2) l l') (hK : ∀ a a' b b', K a a' → K b b' → (a = b ↔ a' = b')) {x : α} {x' : α'} (hx : K x x')
    {v : β} {v' : β'} (hv : V v v') : All (fun e e' => K e.1 e'.1 ∧ V e.2 e'.2) (AMap.put l x v) (AMap.put l' x' v') := by
  induction h with
  | nil => exact .cons ⟨hx, hv⟩ .nil
  | @cons a b l l' h hl ih =>
    obtain ⟨k, w⟩ := a
    obtain ⟨k', w'⟩ := b
    have := hK _ _ _ _ h.1 hx
    simp only [AMap.put]
    by_cases h1 : k = x
    · rw [if_pos h1, if_pos (this.1 h1)]; exact .cons ⟨h.1, hv⟩ hl
    · rw [if_neg h1, if_neg (fun h2 => h1 (this.2 h2))]; exact .cons h ih

inductive ER (N : Naming) (R : α → β → Prop) : EStateM.Result Exc CfgSt α → EStateM.Result Exc CfgSt β → Prop
  | ok {a b c c'} : R a b → N.Cfg c c' → ER N R (.ok a c) (.ok b c')
  | error (x : Exc) {c c'} : N.Cfg c c' → ER N R (.error x c) (.error x c')

/-- Configuration methods correspond. -/
def MR (N : Naming) (R : α → β → Prop) (p : CfgM α) (p' : CfgM β) : Prop := ∀ c c', N.Cfg c c' → ER N R (p c) (p' c')

theorem mr_bind {R : α → β → Prop} {S : α' → β' → Prop} {p : CfgM α} {p' : CfgM β} {f : α → CfgM α'} {f' : β → CfgM β'} (h : MR N R p p')
    (hf : ∀ a b, R a b → MR N S (f a) (f' b)) : MR N S (p >>= f) (p' >>= f') := by
  intro c c' hc
  have := h c c' hc
  show ER N S (EStateM.bind p f c) (EStateM.bind p' f' c')
  unfold EStateM.bind
  generalize p c = x at this
  generalize p' c' = x' at this
  cases this with
  | ok hr hc => exact hf _ _ hr _ _ hc
  | error x hc => exact .error x hc

theorem mr_pure {R : α → β → Prop} {a : α} {b : β} (h : R a b) : MR N R (pure a) (pure b) := fun _ _ hc => .ok h hc

theorem mr_throw {R : α → β → Prop} (x : Exc) : MR N R (throw x) (throw x) := fun _ _ hc => .error x hc

theorem mr_get : MR N N.Cfg get get := fun _ _ hc => .ok hc hc

theorem mr_modify {f f' : CfgSt → CfgSt} (h : ∀ c c', N.Cfg c c' → N.Cfg (f c) (f' c')) : MR N Eq (modify f) (modify f') := fun c c' hc => .ok rfl (h c c' hc)

theorem mr_then {S : α' → β' → Prop} {p p' : CfgM Unit} {f : Unit → CfgM α'} {f' : Unit → CfgM β'} (h : MR N Eq p p') (hf : MR N S (f ()) (f' ())) :
    MR N S (p >>= f) (p' >>= f') := mr_bind h fun _ _ _ => hf

section
variable (hN : N.Ok)
include hN

theorem reserved_rel {a a' : String} (h : N.st a a') : (reservedStateNames.any fun r => r == a) = reservedStateNames.any fun r => r == a' := by
  have : ∀ n ∈ reservedStateNames, (n == a) = (n == a') := fun n hn => by
    have := hN.st (hN.reserved n hn) h
    by_cases h1 : n = a
    · rw [beq_iff_eq.2 h1, beq_iff_eq.2 (this.1 h1)]
    · rw [beq_eq_false_iff_ne.2 h1, beq_eq_false_iff_ne.2 fun h2 => h1 (this.2 h2)]
  generalize reservedStateNames = l at this
  induction l with
  | nil => rfl
  | cons n l ih => simp only [List.any_cons]; rw [this n (by simp), ih fun k hk => this k (by simp [hk])]

theorem mr_notReserved {s s' : Option St} (h : Opt N.St s s') : MR N N.St (assertNotReservedState s) (assertNotReservedState s') := by
  cases h with
  | none => exact mr_throw _
  | some h =>
    simp only [assertNotReservedState]
    rw [reserved_rel hN h.1]
    split
    · exact mr_throw _
    · exact mr_pure h

theorem mr_notReservedEv {e e' : Option Ev} (h : Opt N.Ev e e') : MR N N.Ev (assertNotReservedStateEvent e) (assertNotReservedStateEvent e') := by
  cases h with
  | none => exact mr_throw _
  | @some e e' h =>
    have := hN.ev hN.immediate h.2.1
    simp only [assertNotReservedStateEvent]
    by_cases h1 : resImmediate = e.name
    · rw [beq_iff_eq.2 h1, beq_iff_eq.2 (this.1 h1)]; exact mr_throw _
    · rw [beq_eq_false_iff_ne.2 h1, beq_eq_false_iff_ne.2 fun h2 => h1 (this.2 h2)]; exact mr_pure h

omit hN in
theorem mr_init (b : Bool) : MR N Eq (assertInitStateDefined b) (assertInitStateDefined b) := by
  refine mr_bind mr_get fun c c' hc => ?_
  rw [Opt.isNone hc.init, Opt.isSome hc.init]
  split
  · exact mr_throw _
  · split
    · exact mr_throw _
    · exact mr_pure rfl

omit hN in
theorem mr_marked (b : Bool) : MR N Eq (assertMarkedStateDefined b) (assertMarkedStateDefined b) := by
  refine mr_bind mr_get fun c c' hc => ?_
  rw [Opt.isNone hc.marked, Opt.isSome hc.marked]
  split
  · exact mr_throw _
  · split
    · exact mr_throw _
    · exact mr_pure rfl

theorem mr_markedRow : MR N N.Row markedRow markedRow := by
  refine mr_bind mr_get fun c c' hc => ?_
  have := row_rel hN hc.table hc.marked
  generalize c.table.row? c.marked = x at this
  generalize c'.table.row? c'.marked = x' at this
  cases this with
  | none => exact mr_throw _
  | some h => exact mr_pure h

omit hN in
theorem key_map {e e' : Option Ev} (h : Opt N.Ev e e') : Opt N.Key (e.map Ev.key) (e'.map Ev.key) := by
  cases h with
  | none => exact .none
  | some h => exact key_rel h

theorem mr_notMapped : MR N Eq assertEventNotMapped assertEventNotMapped := by
  refine mr_bind (mr_markedRow hN) fun r r' hr => mr_bind mr_get fun c c' hc => ?_
  have := target_rel hN hr (key_map hc.markedEv)
  generalize r.target (c.markedEv.map Ev.key) = x at this
  generalize r'.target (c'.markedEv.map Ev.key) = x' at this
  cases this with
  | none => exact mr_pure rfl
  | some h =>
    simp only
    rw [Opt.isNone hc.markedEv]
    split
    · exact mr_throw _
    · exact mr_throw _

theorem mr_noMappings : MR N Eq assertNoMappingsExistAtEnd assertNoMappingsExistAtEnd := by
  refine mr_bind (mr_markedRow hN) fun r r' hr => ?_
  have : r.ents.isEmpty = r'.ents.isEmpty := by
    have := hr.2
    generalize r.ents = l at this
    generalize r'.ents = l' at this
    cases this <;> rfl
  rw [this]
  split
  · exact mr_throw _
  · exact mr_pure rfl

theorem mr_put {k k' : Option EvKey} {v v' : Option St} (hk : Opt N.Key k k') (hv : Opt N.St v v') : MR N Eq (putMarked k v) (putMarked k' v') := by
  refine mr_bind (mr_markedRow hN) fun r r' hr => ?_
  rw [hr.1]
  have tail : MR N Eq (modify fun c => match c.marked with
      | none => c
      | some s => { c with table := AMap.put c.table s.name { r with ents := AMap.put r.ents k v } }) (modify fun c => match c.marked with
      | none => c
      | some s => { c with table := AMap.put c.table s.name { r' with ents := AMap.put r'.ents k' v' } }) := mr_modify fun c c' hc => by
    obtain ⟨i, mk, me, t⟩ := c
    obtain ⟨i', mk', me', t'⟩ := c'
    have := hc.marked
    simp only at this
    cases this with
    | none => exact hc
    | some h => exact { hc with table := put_rel hc.table (fun _ _ _ _ => hN.st) h.1 ⟨hr.1, put_rel hr.2 (key_inj hN) hk hv⟩ }
  rw [hr.1] at tail
  split
  · exact mr_bind (R := Eq) (mr_throw _) fun _ _ _ => tail
  · exact tail

omit hN in
theorem mr_clear : MR N Eq clearMarked clearMarked := mr_modify fun _ _ hc => { hc with marked := .none, markedEv := .none }

theorem mr_when {s s' : Option St} (h : Opt N.St s s') : MR N Eq (when_ s) (when_ s') := by
  refine mr_bind (mr_notReserved hN h) fun s s' hs => mr_then (mr_init true) (mr_then (mr_marked false) (mr_then (mr_modify fun c c' hc => ?_) (mr_modify fun c c' hc => ?_)))
  · refine { hc with table := ?_ }
    have := get_rel hc.table (fun _ _ _ _ => hN.st) hs.1
    unfold AMap.putIfAbsent
    generalize AMap.get? c.table s.name = x at this
    generalize AMap.get? c'.table s'.name = x' at this
    cases this with
    | none => exact put_rel hc.table (fun _ _ _ _ => hN.st) hs.1 ⟨rfl, .nil⟩
    | some _ => exact hc.table
  · exact { hc with marked := .some hs }

variable {rs rs' : Reserved} (hr : N.Res rs rs')

theorem mr_initialSate {s s' : Option St} (h : Opt N.St s s') : MR N Eq (initialSate rs s) (initialSate rs' s') := by
  have put : ∀ {n n' : String} (b : Bool), N.st n n' → ∀ c c' : CfgSt, N.Cfg c c' → N.Cfg { c with table := AMap.put c.table n ⟨b, []⟩ } { c' with table := AMap.put c'.table n' ⟨b, []⟩ } :=
    fun b hn c c' hc => { hc with table := put_rel hc.table (fun _ _ _ _ => hN.st) hn ⟨rfl, .nil⟩ }
  exact mr_bind (mr_notReserved hN h) fun s s' hs => mr_then (mr_init false) (mr_then (mr_modify fun c c' hc => { hc with init := .some hs })
    (mr_then (mr_modify (put false hs.1)) (mr_then (mr_modify (put true (hN.reserved resEnd (by simp [reservedStateNames]))))
      (mr_then (mr_modify (put true (hN.reserved resUninit (by simp [reservedStateNames])))) (mr_then (mr_modify (put true (hN.reserved resNoop (by simp [reservedStateNames]))))
        (mr_when hN (.some hs)))))))

theorem mr_receives {e e' : Option Ev} (h : Opt N.Ev e e') : MR N Eq (receives e) (receives e') :=
  mr_bind (mr_notReservedEv hN h) fun _ _ he => mr_then (mr_init true) (mr_then (mr_marked true) (mr_then (mr_modify fun _ _ hc => { hc with markedEv := .some he })
    (mr_put hN (key_rel he) .none)))

include hr in
theorem mr_itEnds : MR N Eq (itEnds rs) (itEnds rs') := by
  have he : N.St rs.endSt rs'.endSt := ⟨hN.reserved resEnd (by simp [reservedStateNames]), hr.1⟩
  refine mr_then (mr_init true) (mr_then (mr_marked true) (mr_bind mr_get fun c c' hc => ?_))
  have := hc.markedEv
  generalize c.markedEv = x at this
  generalize c'.markedEv = x' at this
  cases this with
  | none => exact mr_then (mr_noMappings hN) (mr_then (mr_put hN (.some ⟨rfl, hN.immediate⟩) (.some he)) mr_clear)
  | some h => exact mr_then (mr_notMapped hN) (mr_then (mr_put hN (key_rel h) (.some he)) mr_clear)

theorem mr_itTransitionsTo {s s' : Option St} (h : Opt N.St s s') : MR N Eq (itTransitionsTo s) (itTransitionsTo s') :=
  mr_bind (mr_notReserved hN h) fun _ _ hs => mr_then (mr_init true) (mr_then (mr_marked true) (mr_then (mr_notMapped hN) (mr_bind mr_get fun _ _ hc =>
    mr_then (mr_put hN (key_map hc.markedEv) (.some hs)) mr_clear)))

include hr in
theorem mr_itDoesNotTransition : MR N Eq (itDoesNotTransition rs) (itDoesNotTransition rs') :=
  mr_then (mr_init true) (mr_then (mr_marked true) (mr_then (mr_notMapped hN) (mr_bind mr_get fun _ _ hc =>
    mr_then (mr_put hN (key_map hc.markedEv) (.some ⟨hN.reserved resNoop (by simp [reservedStateNames]), hr.2.2⟩)) mr_clear)))

include hr in
theorem mr_call {k k' : CfgCall} (h : N.CfgCall k k') : MR N Eq (k.run rs) (k'.run rs') := by
  cases h with
  | initialSate h => exact mr_initialSate hN h
  | when_ h => exact mr_when hN h
  | receives h => exact mr_receives hN h
  | itEnds => exact mr_itEnds hN hr
  | itTransitionsTo h => exact mr_itTransitionsTo hN h
  | itDoesNotTransition => exact mr_itDoesNotTransition hN hr

include hr in
theorem cfg_call {k k' : CfgCall} (h : N.CfgCall k k') {c c' : CfgSt} (hc : N.Cfg c c') : k.throws rs c = k'.throws rs' c' ∧ N.Cfg (k.after rs c) (k'.after rs' c') := by
  have := mr_call hN hr h c c' hc
  unfold CfgCall.throws CfgCall.after
  generalize k.run rs c = x at this
  generalize k'.run rs' c' = x' at this
  cases this with
  | ok _ h => exact ⟨rfl, h⟩
  | error x h => exact ⟨rfl, h⟩

include hr in
theorem cfg_run {ks ks' : List CfgCall} (h : All N.CfgCall ks ks') {c c' : CfgSt} (hc : N.Cfg c c') : N.Cfg (cfgRun rs ks c) (cfgRun rs' ks' c') := by
  induction h generalizing c c' with
  | nil => exact hc
  | cons h _ ih => exact ih (cfg_call hN hr h hc).2

end

/-! ### Programs -/

/-- Operations without names of states and events, in arguments and results. -/
def Same : Op → Bool
  | .casEnded .. | .getCur _ | .setCur .. | .notify .. | .setPair .. | .getPair _ | .newCopy _ | .emit _ => false
  | _ => true

inductive CallR (N : Naming) : Call → Call → Prop
  | action (k : Kind) {o o' : Nat} (i : Nat) {ev ev' : Ev} (m : MId) : N.ob o o' → N.Ev ev ev' → CallR N (.action k o i ev m) (.action k o' i ev' m)
  | listener (l : LId) (b : Bool) {f f' t t' : St} {ev ev' : Ev} : N.St f f' → N.Ev ev ev' → N.St t t' → CallR N (.listener l b f ev t) (.listener l b f' ev' t')
  | unmapped (s : SId) {ev ev' : Ev} (m : MId) : N.Ev ev ev' → CallR N (.unmapped s ev m) (.unmapped s ev' m)
  | flowEx (s : SId) {ev ev' : Ev} (m : MId) (x : Exc) : N.Ev ev ev' → CallR N (.flowEx s ev m x) (.flowEx s ev' m x)
  | flowAfter (s : SId) {ev ev' : Ev} (m : MId) : N.Ev ev ev' → CallR N (.flowAfter s ev m) (.flowAfter s ev' m)
  | flowBefore (s : SId) {ev ev' : Ev} (m : MId) : N.Ev ev ev' → CallR N (.flowBefore s ev m) (.flowBefore s ev' m)
  | proc (i : Nat) : CallR N (.proc i) (.proc i)
  | drain (s : SId) (m : MId) : CallR N (.drain s m) (.drain s m)

/-- Programs correspond. -/
inductive PR (N : Naming) (R : α → β → Prop) : Prog α → Prog β → Prop
  | ret {a b} : R a b → PR N R (.ret a) (.ret b)
  | thr (x : Exc) : PR N R (.thr x) (.thr x)
  | same (o : Op) {k : o.Res → Prog α} {k' : o.Res → Prog β} (ho : Same o = true) (hk : ∀ r, PR N R (k r) (k' r)) : PR N R (.op o k) (.op o k')
  | casEnded (m : MId) {s s' : St} (b api : Bool) {k : Bool → Prog α} {k' : Bool → Prog β} (hs : N.St s s') (hk : ∀ r, PR N R (k r) (k' r)) :
      PR N R (.op (.casEnded m s b api) k) (.op (.casEnded m s' b api) k')
  | getCur (m : MId) {k : Option St → Prog α} {k' : Option St → Prog β} (hk : ∀ r r', Opt N.St r r' → PR N R (k r) (k' r')) :
      PR N R (.op (.getCur m) k) (.op (.getCur m) k')
  | setCur (m : MId) {s s' : St} (api : Bool) {k : Unit → Prog α} {k' : Unit → Prog β} (hs : N.St s s') (hk : ∀ r, PR N R (k r) (k' r)) :
      PR N R (.op (.setCur m s api) k) (.op (.setCur m s' api) k')
  | notify (m : MId) {c c' : Cb} {k : Option LId → Prog α} {k' : Option LId → Prog β} (hs : N.Cb c c') (hk : ∀ r, PR N R (k r) (k' r)) :
      PR N R (.op (.notify m c) k) (.op (.notify m c') k')
  | setPair (p : PairId) {ev ev' : Ev} (m : MId) {k : Unit → Prog α} {k' : Unit → Prog β} (he : N.Ev ev ev') (hk : ∀ r, PR N R (k r) (k' r)) :
      PR N R (.op (.setPair p ev m) k) (.op (.setPair p ev' m) k')
  | getPair (p : PairId) {k : Option (Ev × MId) → Prog α} {k' : Option (Ev × MId) → Prog β}
      (hk : ∀ r r', Opt (fun x x' : Ev × MId => N.Ev x.1 x'.1 ∧ x.2 = x'.2) r r' → PR N R (k r) (k' r')) : PR N R (.op (.getPair p) k) (.op (.getPair p) k')
  | newCopy {ev ev' : Ev} {k : Ev → Prog α} {k' : Ev → Prog β} (he : N.Ev ev ev') (hk : ∀ r r', N.Ev r r' → PR N R (k r) (k' r')) :
      PR N R (.op (.newCopy ev) k) (.op (.newCopy ev') k')
  | emit {o o' : Obs} {k : Unit → Prog α} {k' : Unit → Prog β} (ho : N.Obs o o') (hk : ∀ r, PR N R (k r) (k' r)) : PR N R (.op (.emit o) k) (.op (.emit o') k')
  | call {c c' : Call} {k : Except Exc Unit → Prog α} {k' : Except Exc Unit → Prog β} (hc : CallR N c c') (hk : ∀ r, PR N R (k r) (k' r)) :
      PR N R (.call c k) (.call c' k')

inductive Res (R : α → β → Prop) : Except Exc α → Except Exc β → Prop
  | ok {a b} : R a b → Res R (.ok a) (.ok b)
  | error (x : Exc) : Res R (.error x) (.error x)

theorem pr_handle {R : α → β → Prop} {S : α' → β' → Prop} {p : Prog α} {p' : Prog β} {f : Except Exc α → Prog α'} {f' : Except Exc β → Prog β'} (h : PR N R p p')
    (hf : ∀ r r', Res R r r' → PR N S (f r) (f' r')) : PR N S (p.handle f) (p'.handle f') := by
  induction h with
  | ret h => exact hf _ _ (.ok h)
  | thr x => exact hf _ _ (.error x)
  | same o ho _ ih => exact .same o ho fun r => ih r
  | casEnded m b api hs _ ih => exact .casEnded m b api hs fun r => ih r
  | getCur m _ ih => exact .getCur m fun r r' h => ih r r' h
  | setCur m api hs _ ih => exact .setCur m api hs fun r => ih r
  | notify m hs _ ih => exact .notify m hs fun r => ih r
  | setPair p m he _ ih => exact .setPair p m he fun r => ih r
  | getPair p _ ih => exact .getPair p fun r r' h => ih r r' h
  | newCopy he _ ih => exact .newCopy he fun r r' h => ih r r' h
  | emit ho _ ih => exact .emit ho fun r => ih r
  | call hc _ ih => exact .call hc fun r => ih r

theorem pr_bind {R : α → β → Prop} {S : α' → β' → Prop} {p : Prog α} {p' : Prog β} {f : α → Prog α'} {f' : β → Prog β'} (h : PR N R p p')
    (hf : ∀ r r', R r r' → PR N S (f r) (f' r')) : PR N S (p >>= f) (p' >>= f') :=
  pr_handle h fun r r' hr => by
    cases hr with
    | ok h => exact hf _ _ h
    | error x => exact .thr x

/-- The first of two programs that return nothing. -/
theorem pr_then {S : α' → β' → Prop} {p p' : Prog Unit} {f : Unit → Prog α'} {f' : Unit → Prog β'} (h : PR N Eq p p') (hf : PR N S (f ()) (f' ())) :
    PR N S (p >>= f) (p' >>= f') := pr_bind h fun _ _ _ => hf

theorem pr_attempt {R : α → β → Prop} {p : Prog α} {p' : Prog β} (h : PR N R p p') : PR N (Res R) p.attempt p'.attempt := pr_handle h fun _ _ h => .ret h

theorem pr_same {o : Op} (ho : Same o = true) : PR N Eq (lift o) (lift o) := .same o ho fun _ => .ret rfl

theorem pr_getCur {m : MId} : PR N (Opt N.St) (lift (.getCur m)) (lift (.getCur m)) := .getCur m fun _ _ h => .ret h

theorem pr_emit {o o' : Obs} (ho : N.Obs o o') : PR N Eq (lift (.emit o)) (lift (.emit o')) := .emit ho fun _ => .ret rfl

theorem pr_except {R : α → β → Prop} {r : Except Exc α} {r' : Except Exc β} (h : Res R r r') : PR N R (ofExcept r) (ofExcept r') := by
  cases h with
  | ok h => exact .ret h
  | error x => exact .thr x

theorem pr_invoke {c c' : Call} (h : CallR N c c') : PR N Eq (invoke c) (invoke c') := .call h fun r => by
  cases r with
  | ok u => exact .ret rfl
  | error x => exact .thr x

theorem res_outcome {R : α → β → Prop} {r : Except Exc α} {r' : Except Exc β} (h : Res R r r') : outcome r = outcome r' := by cases h <;> rfl

theorem res_eq {r r' : Except Exc α} (h : Res Eq r r') : r = r' := by
  cases h with
  | ok h => rw [h]
  | error => rfl

theorem pr_deref {R : α → β → Prop} {a : Option α} {b : Option β} (h : Opt R a b) : PR N R (deref a) (deref b) := by
  cases h with
  | none => exact .thr _
  | some h => exact .ret h

theorem pr_userCall {c c' : Cb} {k k' : Call} (hc : N.Cb c c') (hk : CallR N k k') : PR N Eq (userCall c k) (userCall c' k') :=
  pr_bind (pr_attempt (pr_invoke hk)) fun r r' hr => by
    rw [res_outcome hr]
    exact pr_then (pr_emit (.cbRet _ hc)) (pr_except hr)

theorem pr_callback {c c' : Cb} {k k' : Call} (hc : N.Cb c c') (hk : CallR N k k') : PR N Eq (callback c k) (callback c' k') :=
  pr_then (pr_emit (.cb hc)) (pr_userCall hc hk)

theorem getD_rel {s s' : Option St} {d d' : St} (h : Opt N.St s s') (hd : N.St d d') : N.St (s.getD d) (s'.getD d') := by
  cases h with
  | none => exact hd
  | some h => exact h

section
variable (hN : N.Ok) (he : N.Env env env')
include hN he

theorem pr_notify (m : MId) (b : Bool) {f f' t t' : Option St} {ev ev' : Ev} (hf : Opt N.St f f') (hev : N.Ev ev ev') (ht : Opt N.St t t') :
    PR N Eq (notifyListener env m b f ev t) (notifyListener env' m b f' ev' t') := by
  refine pr_bind (pr_same rfl) fun r r' hr => ?_
  subst hr
  by_cases h : r.isSome
  · simp only [h, if_true]
    have h1 := getD_rel hf (no_rel hN he m)
    have h2 := getD_rel ht (no_rel hN he m)
    have hc : N.Cb (if b then .end_ m (f.getD (env.mach m).res.noSt) ev (t.getD (env.mach m).res.noSt) else .begin m (f.getD (env.mach m).res.noSt) ev (t.getD (env.mach m).res.noSt))
        (if b then .end_ m (f'.getD (env'.mach m).res.noSt) ev' (t'.getD (env'.mach m).res.noSt) else .begin m (f'.getD (env'.mach m).res.noSt) ev' (t'.getD (env'.mach m).res.noSt)) := by
      cases b
      · exact .begin m h1 hev h2
      · exact .end_ m h1 hev h2
    refine pr_bind (R := Eq) (.notify m hc fun _ => .ret rfl) fun l l' hl => ?_
    subst hl
    cases l with
    | none => exact .thr _
    | some l => exact pr_userCall hc (.listener l b h1 hev h2)
  · simp only [h]
    exact .ret rfl

omit hN he in
theorem pr_runActs (m : MId) (k : Kind) {o o' : Nat} (ho : N.ob o o') {ev ev' : Ev} (hev : N.Ev ev ev') (n : Nat) :
    ∀ i, PR N Eq (runActs m k o ev i n) (runActs m k o' ev' i n) := by
  induction n with
  | zero => intro i; exact .ret rfl
  | succ n ih => intro i; exact pr_then (pr_callback (.action m k i ho hev) (.action k i m ho hev)) (ih (i + 1))

omit hN in
theorem pr_onState (k : Kind) {s s' : St} (hs : N.St s s') {ev ev' : Ev} (hev : N.Ev ev ev') (m : MId) : PR N Eq (onState env k s ev m) (onState env' k s' ev' m) := by
  unfold onState
  rw [All.length (he.acts k _ _ hs.2)]
  exact pr_runActs m k hs.2 hev _ 0

theorem pr_update (m : MId) {s s' : St} (hs : N.St s s') (api : Bool) : PR N Eq (updateCurrentState env m s api) (updateCurrentState env' m s' api) := by
  unfold updateCurrentState
  rw [eqv_rel hN hs (end_rel hN he m)]
  refine pr_bind (R := Eq) (.casEnded m _ api hs fun _ => .ret rfl) fun r r' hr => ?_
  subst hr
  cases r
  · exact .ret rfl
  · exact .setCur m api hs fun _ => .ret rfl

theorem pr_stop (m : MId) (api : Bool) : PR N Eq (stop env m api) (stop env' m api) := pr_update hN he m (end_rel hN he m) api

theorem pr_execute (s : SId) {ev ev' : Ev} (hev : N.Ev ev ev') (m : MId) : PR N Eq (execute env s ev m) (execute env' s ev' m) := by
  refine pr_bind pr_getCur fun c c' hc => pr_bind (pr_deref (row_rel hN (he.stable s) hc)) fun row row' hrow => ?_
  have ht := target_rel hN hrow (key_rel hev)
  generalize row.target (some ev.key) = to at ht
  generalize row'.target (some ev'.key) = to' at ht
  cases ht with
  | none => exact pr_callback (.unmapped m hev) (.unmapped s m hev)
  | @some to to' ht =>
    simp only
    rw [eqv_rel hN (noop_rel hN he m) ht]
    split
    · exact pr_bind pr_getCur fun _ _ h1 => pr_then (pr_notify hN he m false h1 hev (.some ht)) (pr_bind pr_getCur fun _ _ h2 => pr_notify hN he m true h2 hev (.some ht))
    · refine pr_bind pr_getCur fun _ _ h1 => pr_then (pr_notify hN he m false h1 hev (.some ht)) (pr_bind pr_getCur fun _ _ h2 => pr_bind (pr_deref h2) fun _ _ h3 =>
        pr_then (pr_onState he .exit h3 hev m) (pr_then (pr_update hN he m ht false) (pr_bind pr_getCur fun _ _ h4 => pr_bind (pr_deref h4) fun _ _ h5 =>
          pr_then (pr_onState he .entry h5 hev m) (pr_then (pr_notify hN he m true h1 hev (.some ht)) ?_))))
      rw [final_rel hN (he.stable s) (end_rel hN he m) ht]
      split
      · exact pr_stop hN he m false
      · exact .ret rfl

theorem pr_processOne (s : SId) (cm : MId) (p : PairId) {ev ev' : Ev} (hev : N.Ev ev ev') (m : MId) :
    PR N Eq (processOne env s cm p ev m) (processOne env' s cm p ev' m) := by
  refine pr_bind (R := Res Eq) (pr_attempt (R := Eq) (pr_bind (pr_same rfl) fun r r' hr => ?_)) fun r r' hr => ?_
  · subst hr
    cases r
    · exact pr_execute hN he s hev m
    · exact .ret rfl
  · have jp : ∀ r r' : Except Exc Unit, Res Eq r r' → PR N Eq (do lift (.poolGive s p); ofExcept r) (do lift (.poolGive s p); ofExcept r') := fun r r' hr =>
      pr_then (.same (.poolGive s p) rfl fun _ => .ret rfl) (pr_except hr)
    cases hr with
    | ok h => exact jp _ _ (.ok h)
    | error x =>
      dsimp only
      split
      · exact pr_bind (pr_attempt (pr_callback (.flowEx m x hev) (.flowEx s m x hev))) jp
      · exact jp _ _ (.error x)

theorem pr_drain (s : SId) (cm : MId) : PR N Eq (drain env s cm) (drain env' s cm) := by
  unfold drain
  rw [he.queue s]
  refine pr_bind (pr_same rfl) fun r r' hr => ?_
  subst hr
  cases r
  · refine pr_bind (pr_same rfl) fun p p' hp => ?_
    subst hp
    refine pr_bind (R := Eq) (pr_deref (by cases p with | none => exact .none | some p => exact .some rfl)) fun p p' hp => ?_
    subst hp
    refine pr_bind (.getPair p fun _ _ h => .ret h) fun x x' hx => pr_bind (pr_deref hx) fun y y' hy => ?_
    obtain ⟨ev, m⟩ := y
    obtain ⟨ev', m'⟩ := y'
    obtain ⟨h1, h2⟩ := hy
    simp only at h1 h2
    subst h2
    exact pr_then (pr_processOne hN he s cm p h1 m) (pr_invoke (.drain s cm))
  · exact .ret rfl

omit he in
theorem pr_anyEqual {ev ev' : Ev} (hev : N.Ev ev ev') (ps : List PairId) : PR N Eq (anyEqual ev ps) (anyEqual ev' ps) := by
  induction ps with
  | nil => exact .ret rfl
  | cons p ps ih =>
    refine pr_bind (.getPair p fun _ _ h => .ret h) fun x x' hx => pr_bind (pr_deref hx) fun y y' hy => ?_
    obtain ⟨en, m⟩ := y
    obtain ⟨en', m'⟩ := y'
    simp only
    rw [ev_eqv_rel hN hy.1 hev]
    split
    · exact .ret rfl
    · exact ih

omit hN in
theorem pr_default (s : SId) {ev ev' : Ev} (hev : N.Ev ev ev') (m : MId) : PR N Eq (processEventDefault env s ev m) (processEventDefault env' s ev' m) := by
  unfold processEventDefault
  dsimp only
  rw [he.queue s, he.maxQ s, he.exec s, hev.2.2]
  have tail : PR N Eq (do lift (.submit (env'.strat s).exec s m) >>= fun r => if (!r) = true then thr .rejected else pure ())
      (do lift (.submit (env'.strat s).exec s m) >>= fun r => if (!r) = true then thr .rejected else (pure () : Prog Unit)) :=
    pr_bind (pr_same rfl) fun r r' hr => by
      subst hr
      cases r
      · exact .thr _
      · exact .ret rfl
  refine pr_bind (pr_same rfl) fun n n' hn => ?_
  subst hn
  split
  · exact pr_callback (.flowFull m hev) (.flowEx s m _ hev)
  · refine pr_bind (pr_same rfl) fun p p' hp => ?_
    subst hp
    refine pr_bind (pr_same rfl) fun v v' hv => ?_
    subst hv
    split
    · refine pr_bind (.newCopy hev fun _ _ h => .ret h) fun e e' h => ?_
      exact pr_then (.setPair p m h fun _ => .ret rfl) (pr_then (.same (.offer _ p) rfl fun _ => .ret rfl) tail)
    · exact pr_then (.setPair p m hev fun _ => .ret rfl) (pr_then (.same (.offer _ p) rfl fun _ => .ret rfl) tail)

theorem pr_processEvent (s : SId) {ev ev' : Ev} (hev : N.Ev ev ev') (m : MId) : PR N Eq (processEvent env s ev m) (processEvent env' s ev' m) := by
  unfold processEvent
  rw [he.dropDup s, he.queue s]
  split
  · refine pr_bind (pr_same rfl) fun ps ps' hp => ?_
    subst hp
    refine pr_bind (pr_anyEqual hN hev ps) fun b b' hb => ?_
    subst hb
    cases b
    · exact pr_default he s hev m
    · exact pr_emit (.dropped m hev)
  · exact pr_default he s hev m

theorem pr_fire (m : MId) {ev ev' : Ev} (hev : N.Ev ev ev') : PR N Eq (fire env m ev) (fire env' m ev') := by
  unfold fire
  rw [he.strat m]
  refine pr_bind (pr_same rfl) fun r r' hr => ?_
  subst hr
  cases r
  · exact pr_callback (.flowBefore m hev) (.flowBefore _ m hev)
  · refine pr_bind (pr_same rfl) fun r r' hr => ?_
    subst hr
    have jp : ∀ e : Bool, PR N Eq (if e = true then callback (.flowAfter m ev) (.flowAfter (env'.mach m).strat ev m) else processEvent env (env'.mach m).strat ev m)
        (if e = true then callback (.flowAfter m ev') (.flowAfter (env'.mach m).strat ev' m) else processEvent env' (env'.mach m).strat ev' m) := fun e => by
      cases e
      · exact pr_processEvent hN he _ hev m
      · exact pr_callback (.flowAfter m hev) (.flowAfter _ m hev)
    cases r
    · exact jp false
    · exact .same (.getEnded m) rfl jp

theorem pr_start (m : MId) : PR N Eq (start env m) (start env' m) := by
  unfold start
  simp only
  rw [checks_rel (he.table m) (he.init m)]
  have hi := he.init m
  generalize (env.mach m).init = i at hi
  generalize (env'.mach m).init = i' at hi
  generalize startChecks i' (env'.mach m).table = x
  cases x with
  | some x => cases hi <;> exact .thr x
  | none =>
    cases hi with
    | none => exact .thr _
    | some hi =>
      refine pr_bind (pr_same rfl) fun r r' hr => ?_
      subst hr
      cases r
      · exact .thr _
      · exact pr_then (.setCur m true hi fun _ => .ret rfl) (pr_then (pr_notify hN he m false (.some (no_rel hN he m)) (imm_rel hN) (.some hi))
          (pr_then (pr_onState he .entry hi (imm_rel hN) m) (pr_then (pr_notify hN he m true (.some (no_rel hN he m)) (imm_rel hN) (.some hi)) (.same (.clearEnded m) rfl fun _ => .ret rfl))))

theorem pr_startInState (m : MId) {s s' : Option St} (hs : Opt N.St s s') : PR N Eq (startInState env m s) (startInState env' m s') := by
  unfold startInState
  have hr := row_rel hN (he.table m) hs
  generalize (env.mach m).table.row? s = x at hr
  generalize (env'.mach m).table.row? s' = x' at hr
  cases hr with
  | none => cases hs <;> exact .thr _
  | some hr =>
    cases hs with
    | none => exact .thr _
    | some hs =>
      refine pr_bind (pr_same rfl) fun r r' hr => ?_
      subst hr
      cases r
      · exact .thr _
      · exact pr_then (.setCur m true hs fun _ => .ret rfl) (.same (.clearEnded m) rfl fun _ => .ret rfl)

omit hN he in
theorem pr_api {c c' : Api} {p p' : Prog Unit} (hc : N.Api c c') (hp : PR N Eq p p') : PR N Eq (api c p) (api c' p') := by
  refine pr_then (pr_emit (.enter hc)) (pr_bind (pr_attempt hp) fun r r' hr => ?_)
  have := res_eq hr
  subst this
  exact pr_then (pr_emit (.leave _ hc)) (.ret rfl)

theorem pr_prog (u : UCall) (hu : Nameless u = true) : PR N Eq (u.prog env) (u.prog env') := by
  cases u with
  | fire => cases hu
  | stop m => exact pr_api (.stop m) (pr_stop hN he m true)
  | start m => exact pr_api (.start m) (pr_start hN he m)
  | startInState => cases hu
  | getCurrentState => cases hu
  | getEventQueueSize m => simp only [UCall.prog]; rw [he.strat m, he.queue]; exact .same _ rfl fun _ => .ret rfl
  | proc i => exact .call (.proc i) fun r => by cases r <;> exact .ret rfl
  | note n => exact pr_emit (.plain _ rfl)
  | _ => exact .same _ rfl fun _ => .ret rfl

theorem pr_denote {u u' : UProg} (h : N.User u u') : PR N Eq (u.denote env) (u'.denote env') := by
  induction h with
  | done => exact .ret rfl
  | thr x => exact .thr x
  | call u hu _ ih => exact pr_bind (pr_prog hN he u hu) fun r r' hr => by subst hr; exact ih r
  | fire m hev _ ih => exact pr_bind (pr_api (.fire m hev) (pr_fire hN he m hev)) fun r r' hr => by subst hr; exact ih r
  | startInState m hs _ ih => exact pr_bind (pr_api (.startInState m hs) (pr_startInState hN he m hs)) fun r r' hr => by subst hr; exact ih r
  | getCurrentState m _ ih => exact pr_bind pr_getCur fun r r' hr => ih r r' hr

theorem pr_body {c c' : Call} (h : CallR N c c') : PR N Eq (body env c) (body env' c') := by
  cases h with
  | action k i m ho hev =>
    have := All.get (he.acts k _ _ ho) i
    simp only [body]
    split
    all_goals rename_i h1
    all_goals rw [h1] at this
    all_goals cases h2 : (env'.acts k _)[i]? <;> rw [h2] at this <;> cases this
    · rename_i h3; exact pr_denote hN he (h3 _ _ m hev)
    · exact .ret rfl
  | listener l b hf hev ht => exact pr_denote hN he (he.listener l b _ _ _ _ _ _ hf hev ht)
  | unmapped s m hev => exact pr_denote hN he (he.unmapped s _ _ m hev)
  | flowEx s m x hev => exact pr_denote hN he (he.flowEx s _ _ m x hev)
  | flowAfter s m hev => exact pr_denote hN he (he.flowAfter s _ _ m hev)
  | flowBefore s m hev => exact pr_denote hN he (he.flowBefore s _ _ m hev)
  | proc i => exact pr_denote hN he (he.proc i)
  | drain s m => exact pr_drain hN he s m

end

/-! ### Steps -/

section
variable {w w' : World}

theorem w_log (h : N.World w w') (t : Tid) {o o' : Obs} (ho : N.Obs o o') : N.World (w.log t o) (w'.log t o') :=
  { h with trace := All.append h.trace (.cons ⟨rfl, ho⟩ .nil) }

theorem w_mach (h : N.World w w') (m : MId) {x x' : Mach} (hx : x.started = x'.started ∧ x.ended = x'.ended ∧ Opt N.St x.cur x'.cur ∧ x.listener = x'.listener) :
    N.World { w with mach := fset w.mach m x } { w' with mach := fset w'.mach m x' } :=
  { h with mach := fun n => (by
      by_cases hn : n = m
      · subst hn; simpa using hx
      · simp only [fset_ne _ _ hn]; exact h.mach n) }

theorem w_pair (h : N.World w w') (t : Tid) (p : PairId) {g : MId → Ev → Obs} (hg : ∀ m ev ev', N.Ev ev ev' → N.Obs (g m ev) (g m ev')) {v v' : World}
    (hv : N.World v v') :
    N.World (match w.pair p with | some (ev, m) => v.log t (g m ev) | none => v) (match w'.pair p with | some (ev, m) => v'.log t (g m ev) | none => v') := by
  have := h.pair p
  generalize w.pair p = x at this
  generalize w'.pair p = x' at this
  cases this with
  | none => exact hv
  | @some a b hab =>
    obtain ⟨ev, m⟩ := a
    obtain ⟨ev', m'⟩ := b
    obtain ⟨h1, h2⟩ := hab
    simp only at h1 h2
    subst h2
    exact w_log hv t (hg _ _ _ h1)

/-- Operations without names have the same result and corresponding effects. -/
theorem same_exec (h : N.World w w') (t : Tid) (o : Op) (ho : Same o = true) : (exec t o w).1 = (exec t o w').1 ∧ N.World (exec t o w).2 (exec t o w').2 := by
  cases o with
  | casEnded | getCur | setCur | notify | setPair | getPair | newCopy | emit => cases ho
  | getStarted m => exact ⟨(h.mach m).1, h⟩
  | casStarted m =>
    have := (h.mach m).1
    simp only [exec]
    rw [← this]
    split
    · exact ⟨rfl, h⟩
    · exact ⟨rfl, w_log (w_mach h m (by exact ⟨rfl, (h.mach m).2⟩)) t (.plain _ rfl)⟩
  | getEnded m => exact ⟨(h.mach m).2.1, h⟩
  | clearEnded m => exact ⟨rfl, w_log (w_mach h m (by exact ⟨(h.mach m).1, rfl, (h.mach m).2.2⟩)) t (.plain _ rfl)⟩
  | getListener m => exact ⟨(h.mach m).2.2.2, h⟩
  | setListener m l => exact ⟨rfl, w_log (w_mach h m (by exact ⟨(h.mach m).1, (h.mach m).2.1, (h.mach m).2.2.1, rfl⟩)) t (.plain _ rfl)⟩
  | qSize q => exact ⟨by simp [exec, h.queue], h⟩
  | qSnap q => exact ⟨by simp [exec, h.queue], h⟩
  | qIsEmpty q => exact ⟨by simp [exec, h.queue], h⟩
  | offer q p => exact ⟨rfl, w_pair h t p (g := fun m ev => .accepted q m ev) (fun m ev ev' he => .accepted q m he) { h with queue := by rw [h.queue] }⟩
  | poll q =>
    simp only [exec]
    rw [← h.queue]
    cases hq : w.queue q with
    | nil => exact ⟨rfl, h⟩
    | cons p ps => exact ⟨rfl, w_pair h t p (g := fun m ev => .taken q m ev) (fun m ev ev' he => .taken q m he) { h with queue := by rw [h.queue] }⟩
  | poolTake s =>
    simp only [exec]
    rw [← h.pool]
    cases hq : w.pool s with
    | nil => exact ⟨h.nextPair, { h with nextPair := by simp [h.nextPair], pool := rfl }⟩
    | cons p ps => exact ⟨rfl, { h with pool := rfl }⟩
  | poolGive s p => exact ⟨rfl, w_pair h t p (g := fun m ev => .done m ev) (fun m ev ev' he => .done m he) { h with pool := by rw [h.pool] }⟩
  | getPayload o => exact ⟨by simp [exec, h.payload], h⟩
  | setPayload o v => exact ⟨rfl, w_log (by exact { h with payload := by simp [h.payload] }) t (.plain _ rfl)⟩
  | submit e s m =>
    simp only [exec]
    rw [← h.shut]
    split
    · exact ⟨rfl, w_log h t (.plain _ rfl)⟩
    · exact ⟨rfl, w_log (by exact { h with tasks := by simp [h.tasks], shut := rfl }) t (.plain _ rfl)⟩
  | getMem a => exact ⟨by simp [exec, h.mem], h⟩
  | setMem a v => exact ⟨rfl, { h with mem := by simp [exec, h.mem] }⟩
  | await n =>
    simp only [exec]
    rw [← h.intr]
    split
    · exact ⟨rfl, { h with intr := rfl }⟩
    · exact ⟨rfl, h⟩
  | countDown n => exact ⟨rfl, w_log (by exact { h with latch := by simp [h.latch] }) t (.plain _ rfl)⟩
  | setIntr => exact ⟨rfl, { h with intr := by simp [exec, h.intr] }⟩

theorem same_enabled (h : N.World w w') (t : Tid) (o : Op) : enabled t o w = enabled t o w' := by
  cases o <;> simp [enabled, h.intr, h.latch]

end

/-- Configurations correspond. -/
structure CR (N : Naming) (c c' : Conf) : Prop where
  w : N.World c.w c'.w
  thr : ∀ t, Opt (PR N Eq) (c.thr t) (c'.thr t)

theorem cr_set {c c' : Conf} (h : CR N c c') {w w' : World} (hw : N.World w w') (t : Tid) {p p' : Option (Prog Unit)} (hp : Opt (PR N Eq) p p') :
    CR N { w := w, thr := fset c.thr t p } { w := w', thr := fset c'.thr t p' } :=
  ⟨hw, fun u => by
    by_cases hu : u = t
    · subst hu; simpa using hp
    · simp only [fset_ne _ _ hu]; exact h.thr u⟩

section
variable (hN : N.Ok) (he : N.Env env env')
include hN he

theorem run_rel {c c' : Conf} (h : CR N c c') (t : Tid) {p p' : Prog Unit} (hp : PR N Eq p p') : Opt (CR N) (runThread env c t p) (runThread env' c' t p') := by
  cases hp with
  | ret => exact .some (cr_set h h.w t .none)
  | thr x => exact .some (cr_set h (w_log h.w t (.plain _ rfl)) t .none)
  | same o ho hk =>
    simp only [runThread]
    rw [same_enabled h.w t o]
    split
    · obtain ⟨h1, h2⟩ := same_exec h.w t o ho
      refine .some (cr_set h h2 t (.some ?_))
      rw [h1]
      exact hk _
    · exact .none
  | casEnded m b api hs hk =>
    simp only [runThread, enabled, if_true, exec]
    rw [← (h.w.mach m).2.1]
    split
    · exact .some (cr_set h h.w t (.some (hk _)))
    · exact .some (cr_set h (w_log (w_mach h.w m (by exact ⟨(h.w.mach m).1, rfl, (h.w.mach m).2.2⟩)) t (.upd m b api hs)) t (.some (hk _)))
  | getCur m hk => exact .some (cr_set h h.w t (.some (hk _ _ (h.w.mach m).2.2.1)))
  | setCur m api hs hk => exact .some (cr_set h (w_log (w_mach h.w m (by exact ⟨(h.w.mach m).1, (h.w.mach m).2.1, .some hs, (h.w.mach m).2.2.2⟩)) t (.cur m api hs)) t (.some (hk _)))
  | notify m hc hk =>
    simp only [runThread, enabled, if_true, exec]
    rw [← (h.w.mach m).2.2.2]
    cases (c.w.mach m).listener with
    | none => exact .some (cr_set h h.w t (.some (hk _)))
    | some l => exact .some (cr_set h (w_log h.w t (.cb hc)) t (.some (hk _)))
  | @setPair p ev ev' m k k' hev hk =>
    have hw : N.World (exec t (.setPair p ev m) c.w).2 (exec t (.setPair p ev' m) c'.w).2 := { h.w with pair := fun q => (by
      simp only [exec]
      by_cases hq : q = p
      · subst hq; simp only [fset_same]; exact .some ⟨hev, rfl⟩
      · simp only [fset_ne _ _ hq]; exact h.w.pair q) }
    exact .some (cr_set h hw t (.some (hk _)))
  | getPair p hk => exact .some (cr_set h h.w t (.some (hk _ _ (h.w.pair p))))
  | @newCopy ev ev' k k' hev hk =>
    refine .some (cr_set h ?_ t (.some (hk _ _ ⟨rfl, hev.2.1, ?_⟩)))
    · rw [← h.w.nextCopy, ← h.w.payload, hev.2.2]
      exact w_log (by exact { h.w with nextCopy := rfl, payload := rfl }) t (.copied _ _ hev)
    · simp [h.w.nextCopy]
  | emit ho hk => exact .some (cr_set h (w_log h.w t ho) t (.some (hk _)))
  | call hc hk => exact .some (cr_set h h.w t (.some (pr_handle (pr_body hN he hc) fun r r' hr => by rw [res_eq hr]; exact hk _)))

theorem step_rel {c c' : Conf} (h : CR N c c') {x x' : Choice} (hx : N.Choice x x') : Opt (CR N) (step env c x) (step env' c' x') := by
  cases hx with
  | «begin» n hu =>
    have := h.thr (.client n)
    simp only [step]
    generalize c.thr (.client n) = p at this
    generalize c'.thr (.client n) = p' at this
    cases this with
    | none => exact .some (cr_set h h.w _ (.some (pr_denote hN he hu)))
    | some _ => exact .none
  | run t =>
    have := h.thr t
    simp only [step]
    generalize c.thr t = p at this
    generalize c'.thr t = p' at this
    cases this with
    | none => exact .none
    | some hp => exact run_rel hN he h t hp
  | dispatch e i j =>
    have := h.thr (.worker e i)
    simp only [step]
    rw [he.width e]
    split
    · rw [← h.w.tasks]
      generalize c.thr (.worker e i) = p at this
      generalize c'.thr (.worker e i) = p' at this
      cases this with
      | some _ => exact .none
      | none =>
        cases (c.w.tasks e)[j]? with
        | none => exact .none
        | some y => exact .some (cr_set h (by exact { h.w with tasks := rfl }) _ (.some (pr_drain hN he _ _)))
    · exact .none
  | interrupt t => exact .some ⟨{ h.w with intr := by simp [h.w.intr] }, h.thr⟩
  | shutdown e now =>
    refine .some ⟨?_, h.thr⟩
    have h1 : N.World { c.w with shut := fset c.w.shut e true } { c'.w with shut := fset c'.w.shut e true } := { h.w with shut := by simp [h.w.shut] }
    cases now
    · exact h1
    · refine { h1 with tasks := ?_, trace := ?_ }
      · simp [World.dropTasks, h.w.tasks]
      · simp only [World.dropTasks, if_true, ← h.w.tasks]
        refine All.append h.w.trace (All.refl fun a ha => ?_)
        obtain ⟨y, _, rfl⟩ := List.mem_map.1 ha
        exact ⟨rfl, .plain _ rfl⟩

theorem runs_rel {c c' : Conf} (h : CR N c c') {xs xs' : List Choice} (hx : All N.Choice xs xs') : Opt (CR N) (runs env c xs) (runs env' c' xs') := by
  induction hx generalizing c c' with
  | nil => exact .some h
  | @cons x x' xs xs' hx _ ih =>
    have := step_rel hN he h hx
    simp only [runs]
    generalize step env c x = d at this
    generalize step env' c' x' = d' at this
    cases this with
    | none => exact .none
    | some h => exact ih h

end

end Verif.Names
