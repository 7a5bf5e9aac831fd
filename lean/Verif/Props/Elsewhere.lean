import Verif.Props.Groups
/-
C103: what a group of machines does depends only on how the group is configured. The rest of the program can be replaced.
-/

namespace Verif
open Verif.Spec.Groups

section
variable {G : Group} {S T T' : Nat → Prop} {env env' : Env} {c0 c0' c c' : Conf} {xs xs' : List Choice}

/-- C103. Take the group into another program that agrees with the first on the group: there it can do what it did (whatever the rest of the first program was), and its
history, machines, queues, tasks, latches, memory and payloads are the same. -/
theorem C103_elsewhere (he : G.Env S env) (hW : G.Within S env) (hA : G.Agree S env env') (hr : G.rest.Env T env) (hV : G.rest.Within T env) (hc : Initial c0)
    (hc' : Initial c0') (h1 : G.Start c0.w) (h2 : G.rest.Start c0.w) (ha : G.Alike c0.w c0'.w)
    (hb : ∀ x ∈ xs, (G.Begins x ∧ G.rest.Begins x) ∧ G.BeginsIn S x ∧ G.rest.BeginsIn T x) (hx : runs env c0 xs = some c) :
    ∃ f : Nat → Nat, (∀ a b, f a = f b → a = b) ∧ ∃ d, runs env' c0' (xs.filter G.choice) = some d ∧
      d.w.trace = (c.w.trace.filter G.entry).map (fun e => (e.1, renObs f e.2)) ∧
      (∀ m, G.mach m = true → d.w.mach m = c.w.mach m) ∧
      (∀ q, G.queue q = true → (d.w.queue q).map (fun p => d.w.pair p) = (c.w.queue q).map fun p => (c.w.pair p).map fun x => (renEv f x.1, x.2)) ∧
      (∀ e, G.exec e = true → d.w.tasks e = c.w.tasks e ∧ d.w.shut e = c.w.shut e) ∧
      (∀ n, G.latch n = true → d.w.latch n = c.w.latch n) ∧
      (∀ a, G.mem a = true → d.w.mem a = c.w.mem a) ∧
      (∀ n, G.obj n = true → d.w.payload (.client n) = c.w.payload (.client n)) ∧
      (∀ t, G.tid t = true → (d.thr t).isNone = (c.thr t).isNone ∧ d.w.intr t = c.w.intr t) := by
  obtain ⟨K, d, rfl, hi, h3, h4⟩ := Groups.elsewhere he hW hA hr hV hc hc' h1 h2 ha hb hx
  refine ⟨K.f, hi.f, d, h3, h4.trace, h4.mem.mach, fun q hq => ?_, fun e h => ⟨h4.mem.tasks e h, h4.mem.shut e h⟩, h4.mem.latch, h4.mem.mem,
    fun n hn => h4.mem.payload (.client n) hn, fun t ht => ⟨?_, h4.mem.intr t ht⟩⟩
  · rw [h4.mem.queue q hq, List.map_map]
    exact List.map_congr_left fun p hp => h4.mem.pair p (h4.own.queue q hq p hp)
  · have := h4.thr t ht
    generalize d.thr t = y at this
    generalize c.thr t = x at this
    cases this <;> rfl

/-- C103. Two programs agree on the group, and the group does the same in an execution of each: it cannot tell in which program it is. -/
theorem C103_programs (he : G.Env S env) (hW : G.Within S env) (hA : G.Agree S env env') (hr : G.rest.Env T env) (hV : G.rest.Within T env) (hr' : G.rest.Env T' env')
    (hV' : G.rest.Within T' env') (hc : Initial c0) (hc' : Initial c0') (h1 : G.Start c0.w) (h2 : G.rest.Start c0.w) (h2' : G.rest.Start c0'.w) (ha : G.Alike c0.w c0'.w)
    (hb : ∀ x ∈ xs, (G.Begins x ∧ G.rest.Begins x) ∧ G.BeginsIn S x ∧ G.rest.BeginsIn T x)
    (hb' : ∀ x ∈ xs', (G.Begins x ∧ G.rest.Begins x) ∧ G.BeginsIn S x ∧ G.rest.BeginsIn T' x)
    (hx : runs env c0 xs = some c) (hx' : runs env' c0' xs' = some c') (hs : xs.filter G.choice = xs'.filter G.choice) :
    (∃ f f' : Nat → Nat, (∀ a b, f a = f b → a = b) ∧ (∀ a b, f' a = f' b → a = b) ∧
      (c.w.trace.filter G.entry).map (fun e => (e.1, renObs f e.2)) = (c'.w.trace.filter G.entry).map fun e => (e.1, renObs f' e.2)) ∧
    (∀ m, G.mach m = true → c.w.mach m = c'.w.mach m) ∧ (∀ a, G.mem a = true → c.w.mem a = c'.w.mem a) := by
  obtain ⟨f, hf, d, h3, h4, h5, _, _, _, h6, _⟩ := C103_elsewhere he hW hA hr hV hc hc' h1 h2 ha hb hx
  have h1' := Groups.alike_start h1 ha
  obtain ⟨f', hf', d', h3', h4', h5', _, _, _, h6', _⟩ := C103_elsewhere (Groups.agree_env hA he) (Groups.agree_within hA hW) (Groups.agree_refl G S env') hr' hV' hc' hc' h1' h2'
    (Groups.alike_refl h1') hb' hx'
  rw [hs, h3'] at h3
  cases h3
  exact ⟨⟨f, f', hf, hf', h4.symm.trans h4'⟩, fun m hm => (h5 m hm).symm.trans (h5' m hm), fun m hm => (h6 m hm).symm.trans (h6' m hm)⟩

/-- C103. What the group does in one program it can do in the other, in any order with whatever the rest of the other program can do there. -/
theorem C103_replaced {e : Conf} {zs : List Choice} (he : G.Env S env) (hW : G.Within S env) (hA : G.Agree S env env') (hr : G.rest.Env T env) (hV : G.rest.Within T env)
    (hr' : G.rest.Env T' env') (hV' : G.rest.Within T' env') (hc : Initial c0) (hc' : Initial c0') (h1 : G.Start c0.w) (h2 : G.rest.Start c0.w) (h2' : G.rest.Start c0'.w)
    (ha : G.Alike c0.w c0'.w) (hb : ∀ x ∈ xs, (G.Begins x ∧ G.rest.Begins x) ∧ G.BeginsIn S x ∧ G.rest.BeginsIn T x)
    (hb' : ∀ x ∈ zs, (G.Begins x ∧ G.rest.Begins x) ∧ G.BeginsIn S x ∧ G.rest.BeginsIn T' x) (hp : ∀ x ∈ zs, G.choice x = true ∨ G.rest.choice x = true)
    (hx : runs env c0 xs = some c) (hs : zs.filter G.choice = xs.filter G.choice) (hz : runs env' c0' (zs.filter G.rest.choice) = some e) :
    ∃ c', runs env' c0' zs = some c' ∧ (∀ m, c'.w.mach m = if G.mach m = true then c.w.mach m else e.w.mach m) ∧
      ∀ a, c'.w.mem a = if G.mem a = true then c.w.mem a else e.w.mem a := by
  have h1' := Groups.alike_start h1 ha
  have he' := Groups.agree_env hA he
  have hW' := Groups.agree_within hA hW
  obtain ⟨_, _, d, h3, _, h4, _, _, _, h4', _⟩ := C103_elsewhere he hW hA hr hV hc hc' h1 h2 ha hb hx
  rw [← hs] at h3
  have bsw : ∀ zs : List Choice, (∀ x ∈ zs, (G.Begins x ∧ G.rest.Begins x) ∧ G.BeginsIn S x ∧ G.rest.BeginsIn T' x) →
      ∀ x ∈ zs, (G.rest.Begins x ∧ G.rest.rest.Begins x) ∧ G.rest.BeginsIn T' x ∧ G.rest.rest.BeginsIn S x := fun zs h x hx => by
    rw [rest_rest]; exact ⟨⟨(h x hx).1.2, (h x hx).1.1⟩, (h x hx).2.2, (h x hx).2.1⟩
  rcases Groups.runs_cut (env := env') (c := c0') zs with ⟨c', h⟩ | ⟨a, x, b, c', rfl, h5, h6⟩
  · obtain ⟨_, _, d', k1, _, k2, _, _, _, k3, _⟩ := C103_elsewhere he' hW' (Groups.agree_refl G S env') hr' hV' hc' hc' h1' h2' (Groups.alike_refl h1') hb' h
    obtain ⟨_, _, e', k4, _, k5, _, _, _, k6, _⟩ := C103_elsewhere (G := G.rest) hr' hV' (Groups.agree_refl _ T' env') (by rw [rest_rest]; exact he')
      (by rw [rest_rest]; exact hW') hc' hc' h2' (by rw [rest_rest]; exact h1') (Groups.alike_refl h2') (bsw _ hb') h
    rw [h3] at k1
    rw [hz] at k4
    cases k1
    cases k4
    refine ⟨c', h, fun m => ?_, fun m => ?_⟩
    · split
      · next hm => exact (k2 m hm).symm.trans (h4 m hm)
      · next hm => exact (k5 m (by simpa [Group.rest] using hm)).symm
    · split
      · next hm => exact (k3 m hm).symm.trans (h4' m hm)
      · next hm => exact (k6 m (by simpa [Group.rest] using hm)).symm
  · exfalso
    have hb'' : ∀ x ∈ a, (G.Begins x ∧ G.rest.Begins x) ∧ G.BeginsIn S x ∧ G.rest.BeginsIn T' x := fun x h => hb' x (List.mem_append_left _ h)
    rcases hp x (by simp) with hx | hx
    · obtain ⟨K, d1, rfl, _, h7, h8⟩ := Groups.elsewhere he' hW' (Groups.agree_refl G S env') hr' hV' hc' hc' h1' h2' (Groups.alike_refl h1') hb'' h5
      rw [List.filter_append, List.filter_cons_of_pos hx, Groups.runs_stuck h7 (Groups.step_back (Groups.agree_refl _ _ _) h8 hx h6)] at h3
      cases h3
    · obtain ⟨K, d1, hK, _, h7, h8⟩ := Groups.elsewhere (G := G.rest) hr' hV' (Groups.agree_refl _ T' env') (by rw [rest_rest]; exact he')
        (by rw [rest_rest]; exact hW') hc' hc' h2' (by rw [rest_rest]; exact h1') (Groups.alike_refl h2') (bsw _ hb'') h5
      rw [List.filter_append, List.filter_cons_of_pos hx, Groups.runs_stuck h7 (Groups.step_back (Groups.agree_refl _ _ _) h8 (by rw [hK]; exact hx) h6)] at hz
      cases hz

end

namespace Demo

/-- A state of machine 1 in the other program. -/
def elseZ : St := ⟨"Z", 20⟩

/-- The other program: machine 1 starts in Z, and the entry action of Z writes to memory 1, whatever machine enters Z. -/
def elseEnv : Env := { zeroEnv with
  mach := fun m => if m = 1 then ⟨1, cfg.table, some elseZ, rs⟩ else zeroEnv.mach m
  acts := fun k o => if o = 20 then [fun _ _ => .call (.setMem 1 99) fun _ => .done] else zeroEnv.acts k o }

/-- The states of machine 0. -/
def elseS : Nat → Prop := fun o => o ≠ 20

theorem get_mem {α β : Type} [DecidableEq α] {l : AMap α β} {x : α} {v : β} (h : AMap.get? l x = some v) : (x, v) ∈ l := by
  induction l with
  | nil => cases h
  | cons p l ih =>
    obtain ⟨a, b⟩ := p
    simp only [AMap.get?] at h
    split at h
    · next e => cases h; rw [e]; exact .head _
    · exact .tail _ (ih h)

theorem else_targets : ∀ x row k to, Table.row? cfg.table x = some row → row.target k = some to → elseS to.oid := by
  intro x row k to h1 h2
  cases x with
  | none => cases h1
  | some x =>
    have h3 : AMap.get? row.ents k = some (some to) := Option.join_eq_some_iff.1 h2
    have h5 : (cfg.table.all fun r => r.2.ents.all fun e => e.2.all fun t => t.oid != 20) = true := by decide +kernel
    have h6 := List.all_eq_true.1 (List.all_eq_true.1 h5 _ (get_mem h1)) _ (get_mem h3)
    simpa [elseS] using h6

theorem else_in : zeroG.Env elseS zeroEnv := { zero_in with acts := fun k o _ => zero_in.acts k o trivial }

theorem remember_stays (S : Nat → Prop) (ev : Ev) (m : MId) : Stays S (rememberP ev m) := by
  unfold rememberP
  split
  · exact .call _ trivial fun _ => .call _ trivial fun _ => .done
  · exact .done

theorem else_within : zeroG.Within elseS zeroEnv where
  init m _ s hs := by
    have : s = A := Option.some.inj (hs.symm.trans (show cfg.init = some A by decide +kernel))
    subst this
    exact by simp [elseS, A]
  end_ _ _ := by show rs.endOid ≠ 20; decide
  table _ _ := else_targets
  acts k o _ a ha ev m _ := by
    simp only [zeroEnv, env] at ha
    split at ha
    · rw [List.mem_singleton.1 ha]; exact remember_stays _ ev m
    · cases ha
  listener _ _ _ _ _ _ := .done
  unmapped _ _ _ _ _ := .done
  flowEx _ _ _ _ _ _ := .done
  flowAfter _ _ _ _ _ := .done
  flowBefore _ _ _ _ _ := .done
  proc _ _ := .done

theorem else_agree : zeroG.Agree elseS zeroEnv elseEnv where
  mach m hm := by
    have : m = 0 := by simpa [zeroG] using hm
    subst this
    rfl
  strat _ _ := rfl
  width _ _ := rfl
  acts k o ho m _ := by simp only [elseEnv, if_neg (show ¬o = 20 from ho)]
  listener _ _ := rfl
  unmapped _ _ _ _ _ := rfl
  flowEx _ _ _ _ _ _ := rfl
  flowAfter _ _ _ _ _ := rfl
  flowBefore _ _ _ _ _ := rfl
  proc _ _ := rfl

theorem else_out : zeroG.rest.Env AllStates elseEnv where
  strat m hm := by
    simp only [elseEnv]
    split
    · rfl
    · exact zero_out.strat m hm
  queue := zero_out.queue
  exec := zero_out.exec
  acts k o _ a ha m hm := by
    simp only [elseEnv] at ha
    split at ha
    · rw [List.mem_singleton.1 ha]; exact ⟨fun _ _ _ => .call _ rfl fun _ => .done, fun _ _ => rfl⟩
    · exact zero_out.acts k o trivial a ha m hm
  listener := zero_out.listener
  unmapped := zero_out.unmapped
  flowEx := zero_out.flowEx
  flowAfter := zero_out.flowAfter
  flowBefore := zero_out.flowBefore
  proc := zero_out.proc

/-- Client 1 starts machine 1. -/
def elseX : List Choice := Choice.begin 1 (.call (.start 1) fun _ => .done) :: runN (.client 1) 40

def elseC : Conf := drive elseEnv (conf false) elseX

theorem else_runs : ∃ ys, (∀ y ∈ ys, y ∈ elseX) ∧ runs elseEnv (conf false) ys = some elseC := eyes_runs _ _ _

theorem else_facts : elseC.w.mach 1 = ⟨true, false, some elseZ, none⟩ ∧ elseC.w.mem 1 = 99 ∧ zeroC.w.mach 1 ≠ elseC.w.mach 1 := by decide +kernel

theorem else_begins : ∀ x ∈ elseX, (zeroG.Begins x ∧ zeroG.rest.Begins x) ∧ zeroG.BeginsIn elseS x ∧ zeroG.rest.BeginsIn AllStates x := by
  intro x hx
  rcases List.mem_cons.1 hx with rfl | hx
  · exact ⟨⟨fun h => (by cases h), fun _ => .call _ rfl fun _ => .done⟩, fun h => (by cases h), fun _ => Groups.stays_all _⟩
  · rw [List.eq_of_mem_replicate hx]; exact ⟨⟨trivial, trivial⟩, trivial, trivial⟩

theorem carry_stays (S : Nat → Prop) (m : MId) (o : Nat) (v : Val) : Stays S (carryP m o v) :=
  .call _ trivial fun _ => .call _ trivial fun _ => .call _ trivial fun _ => .done

theorem zero_stays : ∀ x ∈ zeroX, (zeroG.Begins x ∧ zeroG.rest.Begins x) ∧ zeroG.BeginsIn elseS x ∧ zeroG.rest.BeginsIn AllStates x := by
  refine fun x hx => ⟨zero_begins x hx, ?_, Groups.begins_all _ x⟩
  have hrun : ∀ t n x, x ∈ runN t n → zeroG.BeginsIn elseS x := fun t n x h => by rw [List.eq_of_mem_replicate h]; trivial
  simp only [zeroX, List.mem_append, List.mem_cons, List.not_mem_nil, or_false] at hx
  rcases hx with ((((((((rfl | rfl) | h) | h) | h) | rfl) | rfl | rfl) | h) | h) | h
  · exact fun _ => carry_stays _ _ _ _
  · exact fun _ => carry_stays _ _ _ _
  · exact hrun _ _ _ h
  · exact hrun _ _ _ h
  · exact hrun _ _ _ h
  · trivial
  · trivial
  · trivial
  · exact hrun _ _ _ h
  · exact hrun _ _ _ h
  · exact hrun _ _ _ h

theorem alike_conf (G : Group) : G.Alike (conf false).w (conf false).w := Groups.alike_refl (zero_start G)

theorem else_disjoint (x : Choice) (h : zeroG.choice x = true) (h' : zeroG.rest.choice x = true) : False := by
  cases x with
  | «begin» n u => exact Groups.not_rest h' h
  | run t => exact Groups.rest_tid _ t h' h
  | dispatch => exact Groups.not_rest h' h
  | interrupt t => exact Groups.rest_tid _ t h' h
  | shutdown => exact Groups.not_rest h' h

end Demo

/-- Machine 0 goes to B in the other program, too. -/
example : ∃ ys d, (∀ y ∈ ys, Demo.zeroG.choice y = true) ∧ runs Demo.elseEnv (Demo.conf false) ys = some d ∧ d.w.mach 0 = ⟨true, false, some Demo.B, none⟩ ∧ d.w.mem 0 = 5 := by
  obtain ⟨ys, h1, h2⟩ := Demo.zero_runs
  obtain ⟨_, _, d, h3, _, h4, _, _, _, h5, _⟩ := C103_elsewhere Demo.else_in Demo.else_within Demo.else_agree Demo.zero_out (Groups.within_all _ _) (Demo.conf_initial false)
    (Demo.conf_initial false) (Demo.zero_start _) (Demo.zero_start _) (Demo.alike_conf _) (fun y hy => Demo.zero_stays y (h1 y hy)) h2
  refine ⟨_, d, fun y hy => (List.mem_filter.1 hy).2, h3, ?_, ?_⟩
  · rw [h4 0 rfl]
    exact Demo.zero_zero.1
  · rw [h5 0 rfl]
    exact Demo.zero_zero.2.1

/-- In the other program machine 1 gets to Z; machine 0 does not notice. -/
example : ∃ ys zs c', runs Demo.zeroEnv (Demo.conf false) ys = some Demo.zeroC ∧ runs Demo.elseEnv (Demo.conf false) zs = some c' ∧
    c'.w.mach 1 = ⟨true, false, some Demo.elseZ, none⟩ ∧ c'.w.mem 1 = 99 ∧ Demo.zeroC.w.mach 1 ≠ c'.w.mach 1 ∧ Demo.zeroC.w.mach 0 = c'.w.mach 0 ∧ Demo.zeroC.w.mem 0 = c'.w.mem 0 := by
  obtain ⟨ys, h1, h2⟩ := Demo.zero_runs
  obtain ⟨ws, h3, h4⟩ := Demo.else_runs
  have hw : ∀ w ∈ ws, Demo.zeroG.rest.choice w = true := fun w h => by
    have := h3 w h
    rcases List.mem_cons.1 this with rfl | h
    · rfl
    · rw [List.eq_of_mem_replicate h]; rfl
  have f1 : (ys.filter Demo.zeroG.choice ++ ws).filter Demo.zeroG.choice = ys.filter Demo.zeroG.choice := by
    rw [List.filter_append, (List.filter_eq_nil_iff (l := ws)).2 fun x hx h => Demo.else_disjoint x h (hw x hx)]
    simp
  have f2 : (ys.filter Demo.zeroG.choice ++ ws).filter Demo.zeroG.rest.choice = ws := by
    rw [List.filter_append, List.filter_filter, (List.filter_eq_nil_iff (l := ys)).2 fun x hx h => by
      have := Bool.and_eq_true_iff.1 h
      exact Demo.else_disjoint x this.2 this.1]
    exact List.filter_eq_self.2 hw
  have hb : ∀ y ∈ ys, _ := fun y hy => Demo.zero_stays y (h1 y hy)
  have hb' : ∀ y ∈ ys.filter Demo.zeroG.choice ++ ws, (Demo.zeroG.Begins y ∧ Demo.zeroG.rest.Begins y) ∧ Demo.zeroG.BeginsIn Demo.elseS y ∧ Demo.zeroG.rest.BeginsIn AllStates y :=
    fun y hy => by
      rcases List.mem_append.1 hy with h | h
      · exact hb y (List.mem_filter.1 h).1
      · exact Demo.else_begins y (h3 y h)
  obtain ⟨c', h5, h6, h7⟩ := C103_replaced (zs := ys.filter Demo.zeroG.choice ++ ws) Demo.else_in Demo.else_within Demo.else_agree Demo.zero_out (Groups.within_all _ _) Demo.else_out
    (Groups.within_all _ _) (Demo.conf_initial false) (Demo.conf_initial false) (Demo.zero_start _) (Demo.zero_start _) (Demo.zero_start _) (Demo.alike_conf _) hb hb'
    (fun y hy => by
      rcases List.mem_append.1 hy with h | h
      · exact .inl (List.mem_filter.1 h).2
      · exact .inr (hw y h)) h2 f1 (by rw [f2]; exact h4)
  have h8 := C103_programs Demo.else_in Demo.else_within Demo.else_agree Demo.zero_out (Groups.within_all _ _) Demo.else_out (Groups.within_all _ _) (Demo.conf_initial false)
    (Demo.conf_initial false) (Demo.zero_start _) (Demo.zero_start _) (Demo.zero_start _) (Demo.alike_conf _) hb hb' h2 h5 f1.symm
  have h9 : c'.w.mach 1 = Demo.elseC.w.mach 1 := (h6 1).trans (if_neg (by decide))
  have h10 : c'.w.mem 1 = Demo.elseC.w.mem 1 := (h7 1).trans (if_neg (by decide))
  refine ⟨ys, _, c', h2, h5, h9.trans Demo.else_facts.1, h10.trans Demo.else_facts.2.1, ?_, h8.2.1 0 rfl, h8.2.2 0 rfl⟩
  rw [h9]
  exact Demo.else_facts.2.2

/-- Not so if machine 0 could get to Z: the action of Z writes to what does not belong to machine 0. -/
example : ¬Demo.zeroG.Env AllStates Demo.elseEnv := fun h => by
  have := (h.acts .entry 20 trivial _ (List.mem_singleton.2 rfl) 0 rfl).own (fun _ => False) immEv (.inl rfl)
  cases this with
  | call _ hu => cases hu

end Verif
