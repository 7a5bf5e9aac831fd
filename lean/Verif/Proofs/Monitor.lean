import Verif.Proofs.Tasks
import Verif.Spec.Monitor
/-
Every history is accepted by the event processing automaton.
-/

namespace Verif
open Spec (Item Desc)
open Spec.Mon

/-! ### Plans -/

/-- Shape of plans. -/
def Wf (m : MId) (ev : Ev) : List Item → Prop
  | [] => True
  | .cb c :: pl => c.tMach = some (m, ev) ∧ trim pl = [] ∧ Wf m ev pl
  | .cur _ :: pl => trim pl = [] ∧ Wf m ev pl
  | .upd s _ :: pl => trim pl = [.cur s] ∧ (∀ s b, Item.upd s b ∉ pl) ∧ Wf m ev pl
  | .halt s :: pl => pl = [.cur s]
  | .thr x :: pl => pl = [] ∧ x = .npe

theorem wf_cb {m : MId} {ev : Ev} {c : Cb} {pl : List Item} (hc : c.tMach = some (m, ev)) (ht : trim pl = []) (h : Wf m ev pl) :
    Wf m ev (.cb c :: pl) := ⟨hc, ht, h⟩

/-- Well-formed, and does not start with the entry of a state. -/
def Wf0 (m : MId) (ev : Ev) (pl : List Item) : Prop := Wf m ev pl ∧ trim pl = []

theorem wf0_note {m : MId} {ev : Ev} {b : Bool} {c : Cb} {pl : List Item} (hc : c.tMach = some (m, ev)) (h : Wf0 m ev pl) :
    Wf0 m ev (Spec.note b c ++ pl) := by
  cases b
  · exact h
  · exact ⟨⟨hc, h.2, h.1⟩, rfl⟩

theorem wf0_actions {d : Desc} {k : Kind} {s : St} {ev : Ev} {pl : List Item} (n : Nat) (h : Wf0 d.m ev pl) :
    ∀ i, Wf0 d.m ev (d.actions k s ev i n ++ pl) := by
  induction n with
  | zero => intro i; exact h
  | succ n ih =>
    intro i
    have := ih (i + 1)
    exact ⟨⟨rfl, this.2, this.1⟩, rfl⟩

theorem noUpd_note {b : Bool} {c : Cb} {s : St} {e : Bool} : Item.upd s e ∉ Spec.note b c := by
  cases b <;> simp [Spec.note]

theorem noUpd_actions {d : Desc} {k : Kind} {a : St} {ev : Ev} {i n : Nat} {s : St} {e : Bool} :
    Item.upd s e ∉ d.actions k a ev i n := by
  simp [Desc.actions]

theorem wf_plan (d : Desc) (lst : Bool) (a : Option St) (ev : Ev) : Wf0 d.m ev (d.plan lst a ev) := by
  unfold Desc.plan
  split
  · rename_i a row _
    split
    · exact ⟨⟨rfl, rfl, trivial⟩, rfl⟩
    · rename_i b _
      split
      · refine wf0_note rfl ?_
        have : Wf0 d.m ev (Spec.note lst (.end_ d.m a ev b) ++ []) := wf0_note rfl ⟨trivial, rfl⟩
        rwa [List.append_nil] at this
      · have he : Wf0 d.m ev (if d.final b then [.halt d.endSt, .cur d.endSt] else []) := by
          split
          · exact ⟨rfl, rfl⟩
          · exact ⟨trivial, rfl⟩
        have h1 : Wf0 d.m ev (d.actions .entry b ev 0 (d.nacts .entry b.oid) ++ (Spec.note lst (.end_ d.m a ev b) ++
            (if d.final b then [.halt d.endSt, .cur d.endSt] else []))) := wf0_actions _ (wf0_note rfl he) 0
        have h2 : Wf0 d.m ev (.upd b (b.name == resEnd) :: .cur b :: (d.actions .entry b ev 0 (d.nacts .entry b.oid) ++
            (Spec.note lst (.end_ d.m a ev b) ++ (if d.final b then [.halt d.endSt, .cur d.endSt] else [])))) := by
          refine ⟨⟨rfl, ?_, h1.2, h1.1⟩, rfl⟩
          intro s e hm
          simp only [List.mem_cons, List.mem_append, reduceCtorEq, false_or] at hm
          rcases hm with hm | hm | hm
          · exact noUpd_actions hm
          · exact noUpd_note hm
          · split at hm <;> simp at hm
        have h3 := wf0_note (b := lst) (c := .begin d.m a ev b) rfl (wf0_actions (k := .exit) (s := a) (d.nacts .exit a.oid) h2 0)
        simpa only [List.append_assoc, List.cons_append, List.nil_append] using h3
  · exact ⟨⟨rfl, rfl⟩, rfl⟩

theorem note_plan {d : Desc} {lst : Bool} {a : Option St} {ev : Ev} {c : Cb} (h : Item.cb c ∈ d.plan lst a ev)
    (hn : c.isNote = true) : lst = true := by
  cases lst with
  | true => rfl
  | false =>
    have ha : ∀ k s n, Item.cb c ∉ d.actions k s ev 0 n := by
      intro k s n hm
      simp only [Desc.actions, List.mem_map, Item.cb.injEq] at hm
      obtain ⟨_, _, rfl⟩ := hm
      cases hn
    unfold Desc.plan at h
    split at h
    · split at h
      · simp at h; subst h; cases hn
      · split at h
        · simp [Spec.note] at h
        · simp only [Spec.note, Bool.false_eq_true, if_false, List.nil_append, List.append_nil, List.mem_append] at h
          rcases h with (((h | h) | h) | h)
          · exact absurd h (ha _ _ _)
          · simp at h
          · exact absurd h (ha _ _ _)
          · split at h <;> simp at h
    · simp at h

/-- What holds as long as nobody interferes. -/
structure Good (mem : Mem) (pl : List Item) (cur : Option St) (lst : Option LId) : Prop where
  hcur : cur = mem.cur
  hlst : lst = mem.lst
  note : ∀ c, Item.cb c ∈ pl → c.isNote = true → lst.isSome = true
  upd : mem.ended = true → ∀ s b, Item.upd s b ∉ pl

theorem Good.tail {mem : Mem} {pl : List Item} {cur : Option St} {lst : Option LId} (h : Good mem pl cur lst) :
    Good mem pl.tail cur lst :=
  ⟨h.hcur, h.hlst, fun c hc => h.note c (List.mem_of_mem_tail hc), fun he s b hm => h.upd he s b (List.mem_of_mem_tail hm)⟩

theorem Wf.tail {m : MId} {ev : Ev} {pl : List Item} (h : Wf m ev pl) : Wf m ev pl.tail := by
  cases pl with
  | nil => trivial
  | cons it pl =>
    cases it with
    | cb c => exact h.2.2
    | upd s b => exact h.2.2
    | halt s => cases h; exact ⟨rfl, trivial⟩
    | cur s => exact h.2
    | thr x => cases h.1; trivial

/-! ### Control states and modes -/

section
variable (m : MId) (ev : Ev) (mem : Mem)

def PhMode : Ph → Mode → Prop
  | .run pl cur lst, md =>
    Wf m ev pl ∧ ((md = .busy ev pl false ∧ Good mem pl cur lst) ∨ md = .busy ev (trim pl) true ∨
      (pl = [] ∧ mem.ended = true ∧ Good mem pl cur lst ∧ ∃ s, md = .busy ev [.halt s, .cur s] false))
  | .inCb c pl cur lst, md => Wf m ev pl ∧ trim pl = [] ∧
    ((md = .inCb ev c pl false ∧ Good mem pl cur lst) ∨ md = .inCb ev c [] true)
  | .lame pend, md => md = .busy ev (pend.map Item.cur).toList true
  | .lameCb c, md => md = .inCb ev c [] true
  | .thrown x, md => md = .thrown ev x ∨ (x = .npe ∧ (md = .busy ev [.thr .npe] false ∨ md = .busy ev [] true))

end

def DrMode (d : Desc) (mem : Mem) : Dr → Mode → Prop
  | .fresh, md | .loop, md | .seen _, md | .quit, md => md = .idle
  | .polled _ ev _, md | .known _ ev _, md => md = .busy ev (planNow d mem ev) false ∨ md = .busy ev [] true
  | .busy _ ev _ ph, md => PhMode d.m ev mem ph md
  | .flow _ ev _ x, md => md = .flow ev x
  | .over _ ev _ r, md => md = .over ev r ∨ (r = none ∧ ∃ off, md = .busy ev [] off)
  | .dead x, md => md = .dying x ∨ md = .idle

def BotMode (d : Desc) (s0 : SId) (mem : Mem) : Option Frame → Mode → Prop
  | none, md => md = .idle
  | some (.drain s _ dr), md => if s = s0 then DrMode d mem dr md else md = .idle
  | some _, _ => False

theorem trim_eq (pl : List Item) : trim pl = ((pendOf pl).map Item.cur).toList := by
  cases pl with
  | nil => rfl
  | cons it pl => cases it <;> rfl

theorem trim_trim (pl : List Item) : trim (trim pl) = trim pl := by
  cases pl with
  | nil => rfl
  | cons it pl => cases it <;> rfl

theorem trim_planNow (d : Desc) (mem : Mem) (ev : Ev) : trim (planNow d mem ev) = [] := by
  unfold planNow
  split
  · rfl
  · exact (wf_plan _ _ _ _).2

theorem phMode_disturb {m : MId} {ev : Ev} {mem mem' : Mem} {ph : Ph} {md : Mode} (h : PhMode m ev mem ph md) :
    PhMode m ev mem' ph md.disturb := by
  cases ph with
  | run pl cur lst =>
    obtain ⟨hw, ⟨rfl, _⟩ | rfl | ⟨rfl, _, _, s, rfl⟩⟩ := h
    · exact ⟨hw, Or.inr (Or.inl rfl)⟩
    · exact ⟨hw, Or.inr (Or.inl (by simp [Mode.disturb, trim_trim]))⟩
    · exact ⟨hw, Or.inr (Or.inl rfl)⟩
  | inCb c pl cur lst =>
    obtain ⟨hw, ht, ⟨rfl, _⟩ | rfl⟩ := h <;> exact ⟨hw, ht, Or.inr rfl⟩
  | lame p =>
    cases h
    cases p <;> rfl
  | lameCb c => cases h; rfl
  | thrown x =>
    rcases h with rfl | ⟨rfl, rfl | rfl⟩
    · exact Or.inl rfl
    · exact Or.inr ⟨rfl, Or.inr rfl⟩
    · exact Or.inr ⟨rfl, Or.inr rfl⟩

theorem drMode_disturb {d : Desc} {mem mem' : Mem} {dr : Dr} {md : Mode} (h : DrMode d mem dr md) :
    DrMode d mem' dr md.disturb := by
  cases dr with
  | busy p ev m ph => exact phMode_disturb h
  | polled p ev m =>
    rcases h with rfl | rfl
    · exact Or.inr (by simp [Mode.disturb, trim_planNow])
    · exact Or.inr rfl
  | known p ev m =>
    rcases h with rfl | rfl
    · exact Or.inr (by simp [Mode.disturb, trim_planNow])
    · exact Or.inr rfl
  | over p ev m r =>
    rcases h with rfl | ⟨rfl, off, rfl⟩
    · exact Or.inl rfl
    · exact Or.inr ⟨rfl, true, rfl⟩
  | dead x => rcases h with rfl | rfl <;> simp [DrMode, Mode.disturb]
  | flow p ev m x => cases h; rfl
  | _ => cases h; rfl

theorem botMode_disturb {d : Desc} {s0 : SId} {mem mem' : Mem} {b : Option Frame} {md : Mode} (h : BotMode d s0 mem b md) :
    BotMode d s0 mem' b md.disturb := by
  cases b with
  | none => cases h; rfl
  | some f =>
    cases f with
    | drain s cm dr =>
      simp only [BotMode] at h ⊢
      split
      · rename_i hs; rw [if_pos hs] at h; exact drMode_disturb h
      · rename_i hs; rw [if_neg hs] at h; cases h; rfl
    | _ => exact h.elim

/-! ### Memory -/

def memOf (w : World) (m : MId) : Mem := ⟨(w.mach m).cur, (w.mach m).ended, (w.mach m).listener⟩

def monMem (m : MId) (mem : Mem) : Option Obs → Mem
  | none => mem
  | some x => mem.step m x

theorem memOf_exec {w : World} {t : Tid} {o : Op} (m : MId) (h : OpOk w o) :
    memOf (exec t o w).2 m = monMem m (memOf w m) (opObs o w) := by
  cases o with
  | emit x => cases x <;> first | rfl | cases h
  | casStarted m' =>
    simp only [exec, opObs]
    split
    · rfl
    · simp only [World.log, memOf, fset, monMem, Mem.step]
      split
      · rename_i he; subst he; rfl
      · rfl
  | clearEnded m' =>
    simp only [exec, opObs, World.log, memOf, fset, monMem, Mem.step, eq_comm (a := m)]
    split
    · rename_i he; subst he; rfl
    · rfl
  | casEnded m' s b api =>
    simp only [exec, opObs]
    split
    · rfl
    · simp only [World.log, memOf, fset, monMem, Mem.step, eq_comm (a := m)]
      split
      · rename_i he; subst he; rfl
      · rfl
  | setCur m' s api =>
    simp only [exec, opObs, World.log, memOf, fset, monMem, Mem.step, eq_comm (a := m)]
    split
    · rename_i he; subst he; rfl
    · rfl
  | setListener m' l =>
    simp only [exec, opObs, World.log, memOf, fset, monMem, Mem.step, eq_comm (a := m)]
    split
    · rename_i he; subst he; rfl
    · rfl
  | notify m' c =>
    simp only [exec, opObs]
    split <;> rename_i he <;> simp [he, monMem, Mem.step, memOf, World.log]
  | offer q p =>
    simp only [exec, opObs]
    cases hp : w.pair p <;> rfl
  | poll q =>
    simp only [exec, opObs]
    cases hq : w.queue q with
    | nil => rfl
    | cons p ps => cases hp : w.pair p <;> simp [hp, monMem, Mem.step, memOf, World.log]
  | poolGive s p =>
    simp only [exec, opObs]
    cases hp : w.pair p <;> rfl
  | poolTake s =>
    simp only [exec, opObs]
    split <;> rfl
  | submit e s m' =>
    simp only [exec, opObs]
    split <;> rfl
  | await n =>
    simp only [exec, opObs]
    split <;> rfl
  | _ => rfl

theorem step_touch {m : MId} {mem : Mem} {x : Obs} (h : touches m x = false) : mem.step m x = mem := by
  cases x <;> first | rfl | (simp [touches] at h; simp [Mem.step, h])

/-! ### Steps of a drain -/

/-- The automaton follows: `x` is the entry that was written, if any. -/
def Follows (cfg : Cfg) (mem : Mem) (md : Mode) (x : Option Obs) (P : Mem → Mode → Prop) : Prop :=
  match x with
  | none => P mem md
  | some x => ∃ md', own cfg mem md x = some md' ∧ P (mem.step cfg.d.m x) md'

theorem own_cb {cfg : Cfg} {mem : Mem} {ev : Ev} {pl : List Item} {off : Bool} {c : Cb} (hc : c.tMach = some (cfg.d.m, ev))
    (h : pl.head? = some (.cb c) ∨ (off = true ∧ pl = [])) :
    own cfg mem (.busy ev pl off) (.cb c) = some (.inCb ev c pl.tail off) := by
  have h1 : Spec.Calls.cbMach c = some cfg.d.m := cbMach_eq hc
  have h2 : cbEv c = some ev := by
    unfold Cb.tMach at hc
    split at hc <;> cases hc <;> rfl
  have h3 : own cfg mem (.busy ev pl off) (.cb c) =
      if pl.head? = some (.cb c) ∨ (off ∧ pl = [] ∧ Spec.Calls.cbMach c = some cfg.d.m ∧ cbEv c = some ev) then
        some (.inCb ev c pl.tail off) else none := by
    cases c <;> first | rfl | cases hc
  rw [h3, if_pos]
  rcases h with h | h
  · exact Or.inl h
  · exact Or.inr ⟨h.1, h.2, h1, h2⟩

theorem good_mem {mem mem' : Mem} {pl : List Item} {cur : Option St} {lst : Option LId} (h : Good mem pl cur lst)
    (he : mem' = mem) : Good mem' pl cur lst := by rw [he]; exact h

theorem ph_follows {cfg : Cfg} {w : World} {ev : Ev} {ph : Ph} {o : Op} {md : Mode}
    (ha : phAllowed cfg.d.m ev ph o) (h : PhMode cfg.d.m ev (memOf w cfg.d.m) ph md) :
    Follows cfg (memOf w cfg.d.m) md (opObs o w) (fun mem' => PhMode cfg.d.m ev mem' (phNxt cfg.d.m ph o w)) := by
  unfold phAllowed at ha
  split at ha
  · -- getCur
    rename_i pl cur lst m'
    subst ha
    obtain ⟨hw, h⟩ := h
    simp only [Follows, opObs, phNxt]
    split
    · cases pl with
      | nil => exact ⟨hw, h⟩
      | cons it pl =>
        cases it with
        | thr x =>
          obtain ⟨rfl, rfl⟩ := hw
          rcases h with ⟨rfl, _⟩ | rfl | ⟨hn, _⟩
          · exact Or.inr ⟨rfl, Or.inl rfl⟩
          · exact Or.inr ⟨rfl, Or.inr rfl⟩
          · cases hn
        | _ => exact ⟨hw, h⟩
    · rename_i hne
      rcases h with ⟨rfl, hg⟩ | rfl | ⟨_, _, hg, _⟩
      · exact absurd hg.hcur.symm hne
      · exact congrArg (fun x => Mode.busy ev x true) (trim_eq pl)
      · exact absurd hg.hcur.symm hne
  · -- getListener
    rename_i pl cur lst m'
    obtain ⟨rfl, _⟩ := ha
    obtain ⟨hw, h⟩ := h
    simp only [Follows, opObs, phNxt]
    split
    · exact ⟨hw, h⟩
    · rename_i hne
      rcases h with ⟨rfl, hg⟩ | rfl | ⟨_, _, hg, _⟩
      · exact absurd hg.hlst.symm hne
      · exact congrArg (fun x => Mode.busy ev x true) (trim_eq pl)
      · exact absurd hg.hlst.symm hne
  · -- notify
    rename_i pl cur lst m' c
    obtain ⟨rfl, hno, hc, hhd⟩ := ha
    obtain ⟨hw, h⟩ := h
    cases pl with
    | nil => cases hhd
    | cons it pl =>
      cases hhd
      cases hl : (w.mach cfg.d.m).listener with
      | none =>
        simp only [Follows, opObs, phNxt, hl]
        rcases h with ⟨rfl, hg⟩ | rfl | ⟨hn, _⟩
        · have := hg.note c List.mem_cons_self hno
          rw [hg.hlst] at this
          simp only [memOf, hl] at this
          cases this
        · rfl
        · cases hn
      | some l =>
        simp only [Follows, opObs, phNxt, hl, Option.isSome_some, if_true]
        rcases h with ⟨rfl, hg⟩ | rfl | ⟨hn, _⟩
        · have : some l = lst := by rw [hg.hlst]; exact hl.symm
          rw [if_pos this]
          exact ⟨_, own_cb hc (Or.inl rfl), hw.2.2, hw.2.1, Or.inl ⟨rfl, hg.tail⟩⟩
        · split
          · exact ⟨_, own_cb hc (Or.inr ⟨rfl, rfl⟩), hw.2.2, hw.2.1, Or.inr rfl⟩
          · exact ⟨_, own_cb hc (Or.inr ⟨rfl, rfl⟩), rfl⟩
        · cases hn
  · -- cb
    rename_i pl cur lst c
    obtain ⟨hno, hc, hhd⟩ := ha
    obtain ⟨hw, h⟩ := h
    cases pl with
    | nil => cases hhd
    | cons it pl =>
      cases hhd
      simp only [Follows, opObs, phNxt]
      rcases h with ⟨rfl, hg⟩ | rfl | ⟨hn, _⟩
      · exact ⟨_, own_cb hc (Or.inl rfl), hw.2.2, hw.2.1, Or.inl ⟨rfl, hg.tail⟩⟩
      · exact ⟨_, own_cb hc (Or.inr ⟨rfl, rfl⟩), hw.2.2, hw.2.1, Or.inr rfl⟩
      · cases hn
  · -- casEnded
    rename_i pl cur lst m' s b api
    obtain ⟨rfl, rfl, hhd⟩ := ha
    obtain ⟨hw, h⟩ := h
    cases pl with
    | nil => rcases hhd with hhd | ⟨_, hhd⟩ <;> cases hhd
    | cons it pl =>
      by_cases he : (w.mach cfg.d.m).ended = true
      · simp only [Follows, opObs, phNxt, he, if_true]
        rcases hhd with hhd | ⟨rfl, hhd⟩
        · cases hhd
          rcases h with ⟨rfl, hg⟩ | rfl | ⟨hn, _⟩
          · exact absurd List.mem_cons_self (hg.upd he s b)
          · rfl
          · cases hn
        · cases hhd
          cases hw
          rcases h with ⟨rfl, hg⟩ | rfl | ⟨hn, _⟩
          · exact ⟨trivial, Or.inr (Or.inr ⟨rfl, he, hg.tail.tail, s, rfl⟩)⟩
          · exact ⟨trivial, Or.inr (Or.inl rfl)⟩
          · cases hn
      · have he' : (w.mach cfg.d.m).ended = false := by simpa using he
        simp only [Follows, opObs, phNxt, he', Bool.false_eq_true, if_false, List.tail_cons]
        rcases hhd with hhd | ⟨rfl, hhd⟩
        · cases hhd
          rcases h with ⟨rfl, hg⟩ | rfl | ⟨hn, _⟩
          · refine ⟨.busy ev pl false, ?_, hw.2.2, Or.inl ⟨rfl, ?_⟩⟩
            · simp [own, memOf, he']
            · have := hg.tail
              refine ⟨?_, ?_, this.note, fun _ => hw.2.1⟩
              · simpa [Mem.step] using this.hcur
              · simpa [Mem.step] using this.hlst
          · refine ⟨.busy ev [.cur s] true, ?_, hw.2.2, Or.inr (Or.inl (by rw [hw.1]))⟩
            simp [own, memOf, he', trim]
          · cases hn
        · cases hhd
          cases hw
          rcases h with ⟨rfl, hg⟩ | rfl | ⟨hn, _⟩
          · refine ⟨.busy ev [.cur s] false, ?_, ⟨rfl, trivial⟩, Or.inl ⟨rfl, ?_⟩⟩
            · simp [own, memOf, he']
            · have := hg.tail
              refine ⟨?_, ?_, this.note, fun _ s b hm => by simp at hm⟩
              · simpa [Mem.step] using this.hcur
              · simpa [Mem.step] using this.hlst
          · refine ⟨.busy ev [.cur s] true, ?_, ⟨rfl, trivial⟩, Or.inr (Or.inl rfl)⟩
            simp [own, memOf, he', trim]
          · cases hn
  · -- setCur
    rename_i pl cur lst m' s api
    obtain ⟨rfl, rfl, hhd⟩ := ha
    obtain ⟨hw, h⟩ := h
    cases pl with
    | nil => cases hhd
    | cons it pl =>
      cases hhd
      simp only [Follows, opObs, phNxt, List.tail_cons]
      rcases h with ⟨rfl, hg⟩ | rfl | ⟨hn, _⟩
      · refine ⟨.busy ev pl false, by simp [own], hw.2, Or.inl ⟨rfl, ?_⟩⟩
        have := hg.tail
        refine ⟨by simp [Mem.step], ?_, this.note, ?_⟩
        · simpa [Mem.step] using this.hlst
        · simpa [Mem.step] using this.upd
      · refine ⟨.busy ev [] true, by simp [own, trim], hw.2, Or.inr (Or.inl (by rw [hw.1]))⟩
      · cases hn
  · -- cbRet
    rename_i c pl cur lst c' r
    subst ha
    obtain ⟨hw, ht, h⟩ := h
    simp only [Follows, opObs]
    rcases h with ⟨rfl, hg⟩ | rfl
    · cases r with
      | none => exact ⟨.busy ev pl false, by simp [own], hw, Or.inl ⟨rfl, hg⟩⟩
      | some x => exact ⟨.thrown ev x, by simp [own], Or.inl rfl⟩
    · cases r with
      | none => exact ⟨.busy ev [] true, by simp [own], hw, Or.inr (Or.inl (by rw [ht]))⟩
      | some x => exact ⟨.thrown ev x, by simp [own], Or.inl rfl⟩
  · cases h; rfl
  · cases h; rfl
  · -- lame notify
    rename_i m' c
    obtain ⟨rfl, hc⟩ := ha
    cases h
    cases hl : (w.mach cfg.d.m).listener with
    | none => simp only [Follows, opObs, phNxt, hl]; rfl
    | some l =>
      simp only [Follows, opObs, phNxt, hl, Option.isSome_some, if_true]
      exact ⟨_, own_cb hc (Or.inr ⟨rfl, rfl⟩), rfl⟩
  · rename_i c
    cases h
    exact ⟨_, own_cb ha (Or.inr ⟨rfl, rfl⟩), rfl⟩
  · -- lame cas
    rename_i m' s b api
    obtain ⟨rfl, rfl⟩ := ha
    cases h
    by_cases he : (w.mach cfg.d.m).ended = true
    · simp only [Follows, opObs, phNxt, he, if_true]; rfl
    · have he' : (w.mach cfg.d.m).ended = false := by simpa using he
      simp only [Follows, opObs, phNxt, he', Bool.false_eq_true, if_false]
      exact ⟨.busy ev [.cur s] true, by simp [own, memOf, he'], rfl⟩
  · rename_i s m' s' api
    obtain ⟨rfl, rfl, rfl⟩ := ha
    cases h
    exact ⟨.busy ev [] true, by simp [own], rfl⟩
  · rename_i c c' r
    subst ha
    cases h
    simp only [Follows, opObs]
    cases r with
    | none => exact ⟨.busy ev [] true, by simp [own], rfl⟩
    | some x => exact ⟨.thrown ev x, by simp [own], Or.inl rfl⟩
  · exact ha.elim

/-- Machine `m0` has a strategy and a queue of its own. -/
structure Private (env : Env) (m0 : MId) : Prop where
  queue : ∀ s, env.q s = env.qm m0 → s = (env.mach m0).strat
  mach : ∀ m, (env.mach m).strat = (env.mach m0).strat → m = m0

def monCfg (env : Env) (m0 : MId) : Cfg := ⟨env.qm m0, desc env (env.mach m0).strat m0⟩

theorem Private.eq {env : Env} {m0 m : MId} (hp : Private env m0) (h : env.qm m = env.qm m0) : m = m0 :=
  hp.mach m (hp.queue _ h)

section
variable {env : Env} {m0 : MId} {w : World}

/-- Entries of a drain. -/
def drainObs : Obs → Bool
  | .taken .. | .done .. | .cb _ | .cbRet .. | .upd .. | .cur .. => true
  | _ => false

theorem follows_idle {cfg : Cfg} {mem : Mem} {x : Option Obs} {P : Mem → Mode → Prop}
    (hx : ∀ y, x = some y → concerns cfg.d.m y = false ∧ (∀ q m ev, y = .taken q m ev → q ≠ cfg.q ∧ m ≠ cfg.d.m))
    (h : P (monMem cfg.d.m mem x) .idle) : Follows cfg mem .idle x P := by
  cases x with
  | none => exact h
  | some y =>
    obtain ⟨h1, h2⟩ := hx y rfl
    refine ⟨.idle, ?_, h⟩
    cases y with
    | taken q m ev =>
      obtain ⟨h3, h4⟩ := h2 q m ev rfl
      simp [own, h3, h4]
    | _ => simp only [own, h1]; rfl

/-- Steps of the drains of the machine. -/
theorem drain_follows (hp : Private env m0) {cm : MId} {dr : Dr} {o : Op} {f' : Frame} {md : Mode}
    (hm : Move env w (.drain (env.mach m0).strat cm dr) o f')
    (hfact : Frame.fact env w.pair (.drain (env.mach m0).strat cm dr)) (hcm : (env.mach cm).strat = (env.mach m0).strat)
    (hall : ∀ q, ∀ p ∈ w.queue q, ∃ ev m, w.pair p = some (ev, m) ∧ env.qm m = q)
    (h : DrMode (monCfg env m0).d (memOf w m0) dr md) :
    ∃ dr', f' = .drain (env.mach m0).strat cm dr' ∧ (∀ x, opObs o w = some x → drainObs x = true) ∧
      Follows (monCfg env m0) (memOf w m0) md (opObs o w) (fun mem' => DrMode (monCfg env m0).d mem' dr') := by
  have hcm' : cm = m0 := hp.mach cm hcm
  subst hcm'
  have hown : ∀ {p ev m}, w.pair p = some (ev, m) ∧ env.qm m = env.q (env.mach cm).strat → w.pair p = some (ev, cm) ∧ m = cm := by
    rintro p ev m ⟨h1, h2⟩
    have := hp.eq h2
    subst this
    exact ⟨h1, rfl⟩
  generalize hf0 : Frame.drain (env.mach cm).strat cm dr = f0 at hm
  cases hm with
  | drQuit hd _ =>
    cases hf0
    refine ⟨_, rfl, fun x hx => (by cases hx), ?_⟩
    rcases hd with rfl | rfl <;> exact h
  | drSeenF _ =>
    cases hf0
    exact ⟨_, rfl, fun x hx => (by cases hx), h⟩
  | drSeenL _ =>
    cases hf0
    exact ⟨_, rfl, fun x hx => (by cases hx), h⟩
  | drPoll0 hq =>
    cases hf0
    have ho : opObs (.poll (env.q (env.mach cm).strat)) w = none := by simp [opObs, hq]
    rw [ho]
    exact ⟨_, rfl, fun x hx => (by cases hx), Or.inr h⟩
  | drPollBad hq hpr =>
    cases hf0
    obtain ⟨ev, m, h1, _⟩ := hall _ _ (by rw [hq]; exact List.mem_cons_self)
    rw [hpr] at h1; cases h1
  | @drPoll _ _ _ p ps ev m hq hpr =>
    cases hf0
    obtain ⟨ev', m', h1, h2⟩ := hall _ _ (by rw [hq]; exact List.mem_cons_self)
    rw [hpr] at h1; cases h1
    have := hp.eq h2
    subst this
    have ho : opObs (.poll (env.q (env.mach m).strat)) w = some (.taken (env.qm m) m ev) := by
      simp [opObs, hq, hpr]; rfl
    rw [ho]
    cases h
    refine ⟨_, rfl, fun x hx => (by cases hx; rfl), .busy ev (planNow (monCfg env m).d (memOf w m) ev) false, ?_, Or.inl rfl⟩
    simp [own, monCfg, desc]
  | drRead =>
    cases hf0
    exact ⟨_, rfl, fun x hx => (by cases hx), h⟩
  | drSkip he =>
    cases hf0
    refine ⟨_, rfl, fun x hx => (by cases hx), ?_⟩
    rcases h with rfl | rfl
    · refine Or.inr ⟨rfl, false, ?_⟩
      simp [planNow, memOf, he]
    · exact Or.inr ⟨rfl, true, rfl⟩
  | @drBegin _ _ p ev m he =>
    cases hf0
    obtain ⟨_, rfl⟩ := hown hfact
    refine ⟨_, rfl, fun x hx => (by cases hx), ?_⟩
    have hw := wf_plan (desc env (env.mach m).strat m) (w.mach m).listener.isSome (w.mach m).cur ev
    rcases h with rfl | rfl
    · refine ⟨hw.1, Or.inl ⟨?_, rfl, rfl, ?_, ?_⟩⟩
      · simp [planNow, memOf, he, monCfg]
      · intro c hc hn; exact note_plan hc hn
      · intro he'; simp only [memOf] at he'; rw [he] at he'; cases he'
    · refine ⟨hw.1, Or.inr (Or.inl ?_)⟩
      rw [hw.2]
  | @drPh _ _ p ev m ph o ha =>
    cases hf0
    obtain ⟨_, rfl⟩ := hown hfact
    refine ⟨_, rfl, ?_, ph_follows (cfg := monCfg env m) ha h⟩
    intro x hx
    cases phAllowed_op ha with
    | notify _ => simp only [opObs] at hx; split at hx <;> cases hx; rfl
    | cas => simp only [opObs] at hx; split at hx <;> cases hx; rfl
    | _ => cases hx <;> rfl
  | @drFlow _ _ p ev m ph x hx hph =>
    cases hf0
    obtain ⟨_, rfl⟩ := hown hfact
    refine ⟨_, rfl, fun x hx => (by cases hx; rfl), .flow ev x, ?_, rfl⟩
    rcases hph with rfl | ⟨rfl, rfl⟩
    · rcases h with rfl | ⟨rfl, rfl | rfl⟩
      · simp [own, monCfg, desc, hx]
      · simp [own, monCfg, desc]
      · simp [own, monCfg, desc]
    · cases h
      simp [own, monCfg, desc]
  | @drGive _ _ p ev m ph hph =>
    cases hf0
    obtain ⟨hpr, rfl⟩ := hown hfact
    have ho : opObs (.poolGive (env.mach m).strat p) w = some (.done m ev) := by simp [opObs, hpr]
    rw [ho]
    refine ⟨_, rfl, fun x hx => (by cases hx; rfl), .idle, ?_, rfl⟩
    rcases hph with ⟨c, l, rfl⟩ | rfl
    · obtain ⟨_, ⟨rfl, _⟩ | rfl | ⟨_, he, _, s, rfl⟩⟩ := h
      · simp [own, monCfg, desc, finished]
      · simp [own, monCfg, desc, finished, trim]
      · simp [own, monCfg, desc, finished, he]
    · cases h
      simp [own, monCfg, desc, finished]
  | @drGiveErr _ _ p ev m x hx =>
    cases hf0
    obtain ⟨hpr, rfl⟩ := hown hfact
    have ho : opObs (.poolGive (env.mach m).strat p) w = some (.done m ev) := by simp [opObs, hpr]
    rw [ho]
    refine ⟨_, rfl, fun x hx => (by cases hx; rfl), .dying x, ?_, Or.inl rfl⟩
    rcases h with rfl | ⟨rfl, _⟩
    · simp [own, monCfg, desc, hx]
    · cases hx
  | @drFlowRet _ _ p ev m x r =>
    cases hf0
    obtain ⟨hpr, rfl⟩ := hown hfact
    cases h
    exact ⟨_, rfl, fun x hx => (by cases hx; rfl), .over ev r, by simp [own, monCfg, desc], Or.inl rfl⟩
  | @drOver _ _ p ev m =>
    cases hf0
    obtain ⟨hpr, rfl⟩ := hown hfact
    have ho : opObs (.poolGive (env.mach m).strat p) w = some (.done m ev) := by simp [opObs, hpr]
    rw [ho]
    refine ⟨_, rfl, fun x hx => (by cases hx; rfl), .idle, ?_, rfl⟩
    rcases h with rfl | ⟨_, off, rfl⟩
    · simp [own, monCfg, desc]
    · simp [own, monCfg, desc, finished]
  | @drOverErr _ _ p ev m x =>
    cases hf0
    obtain ⟨hpr, rfl⟩ := hown hfact
    have ho : opObs (.poolGive (env.mach m).strat p) w = some (.done m ev) := by simp [opObs, hpr]
    rw [ho]
    refine ⟨_, rfl, fun x hx => (by cases hx; rfl), .dying x, ?_, Or.inl rfl⟩
    rcases h with rfl | ⟨hn, _⟩
    · simp [own, monCfg, desc]
    · cases hn
  | stCas1 hf _ _ => rcases hf.inv with ⟨rfl, _⟩ | ⟨rfl, _⟩ <;> cases hf0
  | stCas0 hf _ _ => rcases hf.inv with ⟨rfl, _⟩ | ⟨rfl, _⟩ <;> cases hf0
  | stSet hf => rcases hf.inv with ⟨rfl, _⟩ | ⟨rfl, _⟩ <;> cases hf0
  | stClear hf _ => rcases hf.inv with ⟨rfl, _⟩ | ⟨rfl, _⟩ <;> cases hf0
  | stPh hf _ _ => rcases hf.inv with ⟨rfl, _⟩ | ⟨rfl, _⟩ <;> cases hf0
  | _ => cases hf0

/-- Steps of other drains. -/
theorem foreign_obs (hp : Private env m0) {s : SId} (hs : s ≠ (env.mach m0).strat) {cm : MId} {dr : Dr} {o : Op} {f' : Frame}
    (hm : Move env w (.drain s cm dr) o f') (hfact : Frame.fact env w.pair (.drain s cm dr))
    (hall : ∀ q, ∀ p ∈ w.queue q, ∃ ev m, w.pair p = some (ev, m) ∧ env.qm m = q) :
    (∃ dr', f' = .drain s cm dr') ∧ ∀ x, opObs o w = some x → drainObs x = true ∧ concerns m0 x = false ∧
      touches m0 x = false ∧ ∀ q m ev, x = .taken q m ev → q ≠ env.qm m0 ∧ m ≠ m0 := by
  have hq0 : env.q s ≠ env.qm m0 := fun h => hs (hp.queue s h)
  have hown : ∀ {p ev m}, w.pair p = some (ev, m) ∧ env.qm m = env.q s → m ≠ m0 := by
    rintro p ev m ⟨h1, h2⟩ rfl
    exact hq0 h2.symm
  generalize hf0 : Frame.drain s cm dr = f0 at hm
  cases hm with
  | drPoll0 hq => cases hf0; exact ⟨⟨_, rfl⟩, fun x hx => by simp [opObs, hq] at hx⟩
  | drPollBad hq hpr => cases hf0; exact ⟨⟨_, rfl⟩, fun x hx => by simp [opObs, hq, hpr] at hx⟩
  | @drPoll _ _ _ p ps ev m hq hpr =>
    cases hf0
    obtain ⟨ev', m', h1, h2⟩ := hall _ _ (by rw [hq]; exact List.mem_cons_self)
    rw [hpr] at h1; cases h1
    refine ⟨⟨_, rfl⟩, fun x hx => ?_⟩
    simp [opObs, hq, hpr] at hx
    subst hx
    refine ⟨rfl, rfl, rfl, ?_⟩
    rintro q m' ev' he
    cases he
    exact ⟨hq0, hown ⟨hpr, h2⟩⟩
  | @drPh _ _ p ev m ph o ha =>
    cases hf0
    have hne := hown hfact
    refine ⟨⟨_, rfl⟩, ?_⟩
    have hcb : ∀ {c : Cb}, c.tMach = some (m, ev) → concerns m0 (.cb c) = false := by
      intro c hc
      cases c <;> cases hc <;> simp [concerns, Spec.Calls.cbMach, hne]
    intro x hx
    cases phAllowed_op ha with
    | notify hc =>
      simp only [opObs] at hx
      split at hx <;> cases hx
      exact ⟨rfl, hcb hc, rfl, fun _ _ _ h => by cases h⟩
    | cas =>
      simp only [opObs] at hx
      split at hx <;> cases hx
      exact ⟨rfl, by simp [concerns, hne], by simp [touches, hne], fun _ _ _ h => by cases h⟩
    | setCur => cases hx; exact ⟨rfl, by simp [concerns, hne], by simp [touches, hne], fun _ _ _ h => by cases h⟩
    | cb hc => cases hx; exact ⟨rfl, hcb hc, rfl, fun _ _ _ h => by cases h⟩
    | cbRet => cases hx; exact ⟨rfl, rfl, rfl, fun _ _ _ h => by cases h⟩
    | getCur => cases hx
    | getListener => cases hx
  | @drFlow _ _ p ev m ph x hx hph =>
    cases hf0
    have hne := hown hfact
    refine ⟨⟨_, rfl⟩, fun x hx => ?_⟩
    cases hx
    exact ⟨rfl, by simp [concerns, hne], rfl, fun _ _ _ h => by cases h⟩
  | @drGive _ _ p ev m ph hph =>
    cases hf0
    have hne := hown hfact
    refine ⟨⟨_, rfl⟩, fun x hx => ?_⟩
    simp [opObs, hfact.1] at hx
    subst hx
    exact ⟨rfl, by simp [concerns, hne], rfl, fun _ _ _ h => by cases h⟩
  | @drGiveErr _ _ p ev m x hx =>
    cases hf0
    have hne := hown hfact
    refine ⟨⟨_, rfl⟩, fun x hx => ?_⟩
    simp [opObs, hfact.1] at hx
    subst hx
    exact ⟨rfl, by simp [concerns, hne], rfl, fun _ _ _ h => by cases h⟩
  | @drFlowRet _ _ p ev m x r =>
    cases hf0
    refine ⟨⟨_, rfl⟩, fun x hx => ?_⟩
    cases hx
    exact ⟨rfl, rfl, rfl, fun _ _ _ h => by cases h⟩
  | @drOver _ _ p ev m =>
    cases hf0
    have hne := hown hfact
    refine ⟨⟨_, rfl⟩, fun x hx => ?_⟩
    simp [opObs, hfact.1] at hx
    subst hx
    exact ⟨rfl, by simp [concerns, hne], rfl, fun _ _ _ h => by cases h⟩
  | @drOverErr _ _ p ev m x =>
    cases hf0
    have hne := hown hfact
    refine ⟨⟨_, rfl⟩, fun x hx => ?_⟩
    simp [opObs, hfact.1] at hx
    subst hx
    exact ⟨rfl, by simp [concerns, hne], rfl, fun _ _ _ h => by cases h⟩
  | stCas1 hf _ _ => rcases hf.inv with ⟨rfl, _⟩ | ⟨rfl, _⟩ <;> cases hf0
  | stCas0 hf _ _ => rcases hf.inv with ⟨rfl, _⟩ | ⟨rfl, _⟩ <;> cases hf0
  | stSet hf => rcases hf.inv with ⟨rfl, _⟩ | ⟨rfl, _⟩ <;> cases hf0
  | stClear hf _ => rcases hf.inv with ⟨rfl, _⟩ | ⟨rfl, _⟩ <;> cases hf0
  | stPh hf _ _ => rcases hf.inv with ⟨rfl, _⟩ | ⟨rfl, _⟩ <;> cases hf0
  | _ =>
    cases hf0
    try exact ⟨⟨_, rfl⟩, fun x hx => by cases hx⟩

/-- Entries of API calls. -/
def apiObs : Obs → Bool
  | .enter _ | .leave .. | .taskDropped .. | .taken .. | .done .. | .uncaught _ => false
  | .upd _ _ _ api | .cur _ _ api => api
  | _ => true

theorem api_obs {f f' : Frame} {o : Op} (hm : Move env w f o f') (hd : f.isDrain = false) {x : Obs} (hx : opObs o w = some x) :
    apiObs x = true := by
  cases hm with
  | fOffer =>
    simp only [opObs] at hx
    cases hp : w.pair ‹_› with
    | none => simp [hp] at hx
    | some v => simp [hp] at hx; subst hx; rfl
  | fSubmit => simp only [opObs] at hx; split at hx <;> cases hx <;> rfl
  | spCas1 _ => simp only [opObs] at hx; split at hx <;> cases hx <;> rfl
  | spCas0 _ => simp only [opObs] at hx; split at hx <;> cases hx <;> rfl
  | stCas1 _ _ _ => simp only [opObs] at hx; split at hx <;> cases hx <;> rfl
  | stCas0 _ _ _ => simp only [opObs] at hx; split at hx <;> cases hx <;> rfl
  | stPh _ hs ha =>
    cases phAllowed_op ha with
    | notify hc => simp only [opObs] at hx; split at hx <;> cases hx <;> rfl
    | cas => cases hs
    | setCur => cases hs
    | _ => cases hx <;> rfl
  | _ => first | (cases hx; done) | (cases hx; rfl) | (cases hd; done)

/-! ### The invariant -/

theorem mon_run_append (cfg : Cfg) (t0 : Tid) (g : G) (a b : List (Tid × Obs)) :
    run cfg t0 g (a ++ b) = (run cfg t0 g a).bind fun g' => run cfg t0 g' b := by
  induction a generalizing g with
  | nil => rfl
  | cons e a ih =>
    simp only [List.cons_append, run]
    cases Spec.Mon.step cfg t0 g e with
    | none => rfl
    | some g' => exact ih g'

def MonInv (env : Env) (m0 : MId) (t0 : Tid) (g0 : G) (lst : Tid → List Frame) (w : World) : Prop :=
  ∃ d md b, run (monCfg env m0) t0 g0 w.trace = some ⟨memOf w m0, d, md⟩ ∧ At (lst t0) d b ∧
    BotMode (monCfg env m0).d (env.mach m0).strat (memOf w m0) b md

/-- A thread that may run user code. -/
theorem mode_callable {l : List Frame} {d : Nat} {b : Option Frame} {dd : Desc} {s0 : SId} {mem : Mem} {md : Mode}
    (ha : At l d b) (hb : BotMode dd s0 mem b md) (hc : callable l) : d > 0 ∨ md.callable = true := by
  cases ha with
  | nil => cases hb; exact Or.inr rfl
  | cons _ _ => exact Or.inl (Nat.succ_pos _)
  | @drain f hd =>
    right
    cases f with
    | drain s cm dr =>
      simp only [BotMode] at hb
      split at hb
      · cases dr with
        | busy p ev m ph =>
          cases ph with
          | inCb c pl cur lst => obtain ⟨_, _, ⟨rfl, _⟩ | rfl⟩ := hb <;> rfl
          | lameCb c => cases hb; rfl
          | _ => cases hc
        | flow p ev m x => cases hb; rfl
        | _ => cases hc
      · cases hb; rfl
    | _ => cases hd

theorem botMode_step {d : Desc} {s0 : SId} {mem : Mem} {b : Option Frame} {md : Mode} (h : BotMode d s0 mem b md) (x : Obs) :
    BotMode d s0 (mem.step d.m x) b (disturbIf (touches d.m x) md) := by
  cases ht : touches d.m x with
  | true => exact botMode_disturb h
  | false => rw [step_touch ht]; exact h

theorem monInv_op {t0 : Tid} {g0 : G} {lst : Tid → List Frame} {t : Tid} {o : Op} {l' : List Frame} (hp : Private env m0)
    (ho : Own env lst w) (hti : TaskInv env lst w) (h : MonInv env m0 t0 g0 lst w) (hm : LMove env w (lst t) o l') :
    MonInv env m0 t0 g0 (fset lst t l') (exec t o w).2 := by
  have hok := opOk_of_lmove ho hm
  have hmem := memOf_exec (t := t) m0 hok
  obtain ⟨loc, hown⟩ := ho
  have hall := hown.full
  obtain ⟨d, md, b, hrun, hat, hbot⟩ := h
  have key : ∀ d' md' b', At (fset lst t l' t0) d' b' →
      (match opObs o w with
        | none => d' = d ∧ md' = md
        | some x => Spec.Mon.step (monCfg env m0) t0 ⟨memOf w m0, d, md⟩ (t, x) = some ⟨(memOf w m0).step m0 x, d', md'⟩) →
      BotMode (monCfg env m0).d (env.mach m0).strat (monMem m0 (memOf w m0) (opObs o w)) b' md' →
      MonInv env m0 t0 g0 (fset lst t l') (exec t o w).2 := by
    intro d' md' b' h1 h2 h3
    refine ⟨d', md', b', ?_, h1, by rw [hmem]; exact h3⟩
    rw [exec_trace, hmem, mon_run_append, hrun]
    cases hx : opObs o w with
    | none => rw [hx] at h2; obtain ⟨rfl, rfl⟩ := h2; rfl
    | some x => rw [hx] at h2; simp [run, h2, monMem]
  by_cases ht : t = t0
  · subst ht
    have hfs : fset lst t l' t = l' := fset_same _ _ _
    have hfacts := hown.fact t
    have hhome := hti.home t
    generalize lst t = l at hm hat hfacts hhome
    cases hm with
    | @enter l c hc =>
      refine key (d + 1) md b (by rw [hfs]; exact .cons (by cases c <;> rfl) hat) ?_ hbot
      simp [opObs, Spec.Mon.step, mode_callable hat hbot hc, monCfg, desc]
    | @leave f rest c r hl =>
      cases hat with
      | drain hd => rw [leaves_isDrain hl] at hd; cases hd
      | @cons _ _ d' _ _ hat =>
        refine key d' md b (by rw [hfs]; exact hat) ?_ hbot
        simp [opObs, Spec.Mon.step, monCfg, desc]
    | @user l o hc hu =>
      cases hx : opObs o w with
      | none => refine key d md b (by rw [hfs]; exact hat) (by rw [hx]; exact ⟨rfl, rfl⟩) (by rw [hx]; exact hbot)
      | some x =>
        have hux : Spec.Calls.userObs x = true := by
          unfold userOp at hu
          split at hu <;> first | (cases hx; done) | (cases hx; rfl) | exact hu.elim
        refine key d (disturbIf (touches m0 x) md) b (by rw [hfs]; exact hat) ?_ ?_
        · rw [hx]
          have hcall := mode_callable hat hbot hc
          cases x <;> first | (cases hux; done) | skip
          all_goals
            by_cases hd : d > 0
            · simp [Spec.Mon.step, hd, onlyDrain, monCfg, desc]
            · have hd0 : d = 0 := by omega
              subst hd0
              simp [Spec.Mon.step, Spec.Calls.userObs, hcall.resolve_left hd, monCfg, desc]
        · rw [hx]; exact botMode_step hbot x
    | @frame f f' rest o hm =>
      cases hat with
      | @cons _ _ d' _ hd hat =>
        have hat' : At (fset lst t (f' :: rest) t) (d' + 1) b := by
          rw [hfs]; exact .cons ((move_isDrain hm).trans hd) hat
        cases hx : opObs o w with
        | none => exact key _ md b hat' (by rw [hx]; exact ⟨rfl, rfl⟩) (by rw [hx]; exact hbot)
        | some x =>
          have hax := api_obs hm hd hx
          refine key _ (disturbIf (touches m0 x) md) b hat' ?_ (by rw [hx]; exact botMode_step hbot x)
          rw [hx]
          cases x <;> first | (cases hax; done) | simp [Spec.Mon.step, onlyDrain, monCfg, desc]
          all_goals exact hax
      | drain hd =>
        have hfact := hfacts f List.mem_cons_self
        have hh := hhome f List.mem_cons_self
        cases f with
        | drain s cm dr =>
          have hstep : ∀ {x md'}, drainObs x = true → own (monCfg env m0) (memOf w m0) md x = some md' →
              Spec.Mon.step (monCfg env m0) t ⟨memOf w m0, 0, md⟩ (t, x) = some ⟨(memOf w m0).step m0 x, 0, md'⟩ := by
            intro x md' hx ho
            cases x <;> first | (cases hx; done) | (simp [Spec.Mon.step, Spec.Calls.userObs, ho]; rfl)
          by_cases hs : s = (env.mach m0).strat
          · subst hs
            simp only [BotMode, if_true] at hbot
            obtain ⟨dr', rfl, hdo, hfol⟩ := drain_follows hp hm hfact hh.2 hall hbot
            cases hx : opObs o w with
            | none =>
              rw [hx] at hfol
              exact key 0 md _ (by rw [hfs]; exact .drain rfl) (by rw [hx]; exact ⟨rfl, rfl⟩)
                (by rw [hx]; simp only [BotMode, if_true]; exact hfol)
            | some x =>
              rw [hx] at hfol
              obtain ⟨md', h1, h2⟩ := hfol
              exact key 0 md' _ (by rw [hfs]; exact .drain rfl) (by rw [hx]; exact hstep (hdo x hx) h1)
                (by rw [hx]; simp only [BotMode, if_true]; exact h2)
          · simp only [BotMode, if_neg hs] at hbot
            subst hbot
            obtain ⟨⟨dr', rfl⟩, hobs⟩ := foreign_obs hp hs hm hfact hall
            refine key 0 .idle _ (by rw [hfs]; exact .drain rfl) ?_ (by simp only [BotMode, if_neg hs])
            cases hx : opObs o w with
            | none => exact ⟨rfl, rfl⟩
            | some x =>
              obtain ⟨h1, h2, _, h3⟩ := hobs x hx
              refine hstep h1 ?_
              cases x with
              | taken q m ev =>
                obtain ⟨h4, h5⟩ := h3 q m ev rfl
                simp [own, monCfg, desc, h4, h5]
              | _ => simp only [own, monCfg, desc, h2]; rfl
        | _ => cases hd
  · have hfs : fset lst t l' t0 = lst t0 := fset_ne _ _ (Ne.symm ht)
    cases hx : opObs o w with
    | none => exact key d md b (by rw [hfs]; exact hat) (by rw [hx]; exact ⟨rfl, rfl⟩) (by rw [hx]; exact hbot)
    | some x =>
      refine key d (disturbIf (touches m0 x) md) b (by rw [hfs]; exact hat) ?_ (by rw [hx]; exact botMode_step hbot x)
      rw [hx]
      simp [Spec.Mon.step, ht, monCfg, desc]

theorem at_fin {t : Tid} {r : Except Exc Unit} {l : List Frame} {d : Nat} {b : Option Frame} (hf : fin t r l) (h : At l d b) :
    d = 0 ∧ ((b = none ∧ ∃ n, t = .client n) ∨ ∃ s m dr, b = some (.drain s m dr) ∧ dr = (match r with | .ok _ => Dr.quit | .error x => .dead x)) := by
  rcases hf with ⟨hc, rfl⟩ | ⟨s, m, hf⟩
  · cases h; exact ⟨rfl, Or.inl ⟨rfl, hc⟩⟩
  · cases r with
    | ok _ =>
      subst hf
      cases h with
      | drain _ => exact ⟨rfl, Or.inr ⟨s, m, _, rfl, rfl⟩⟩
      | cons hd _ => cases hd
    | error x =>
      subst hf
      cases h with
      | drain _ => exact ⟨rfl, Or.inr ⟨s, m, _, rfl, rfl⟩⟩
      | cons hd _ => cases hd

theorem mon_preserved (hp : Private env m0) (t0 : Tid) (g0 : G) :
    Preserved env (fun lst w => Own env lst w ∧ TaskInv env lst w) (MonInv env m0 t0 g0) where
  op := fun lst w t o l' ho h hm _ => monInv_op hp ho.1 ho.2 h hm
  ret := by
    rintro lst w t - ⟨d, md, b, hrun, hat, hbot⟩ hf
    by_cases ht : t = t0
    · subst ht
      obtain ⟨rfl, hb⟩ := at_fin hf hat
      refine ⟨0, md, none, hrun, by rw [fset_same]; exact .nil, ?_⟩
      rcases hb with ⟨rfl, _⟩ | ⟨s, m, dr, rfl, rfl⟩
      · exact hbot
      · simp only [BotMode] at hbot
        split at hbot <;> exact hbot
    · exact ⟨d, md, b, hrun, by rw [fset_ne _ _ (Ne.symm ht)]; exact hat, hbot⟩
  thr := by
    rintro lst w t x - ⟨d, md, b, hrun, hat, hbot⟩ hf
    by_cases ht : t = t0
    · subst ht
      obtain ⟨rfl, hb⟩ := at_fin hf hat
      refine ⟨0, .idle, none, ?_, by rw [fset_same]; exact .nil, rfl⟩
      have hmd : md = .dying x ∨ md = .idle := by
        rcases hb with ⟨rfl, _⟩ | ⟨s, m, dr, rfl, rfl⟩
        · exact Or.inr hbot
        · simp only [BotMode] at hbot
          split at hbot
          · exact hbot
          · exact Or.inr hbot
      simp only [World.log, mon_run_append, hrun, Option.bind_some, run]
      rcases hmd with rfl | rfl <;>
        simp [Spec.Mon.step, Spec.Calls.userObs, own, concerns, Mem.step, memOf]
    · refine ⟨d, md, b, ?_, by rw [fset_ne _ _ (Ne.symm ht)]; exact hat, hbot⟩
      simp only [World.log, mon_run_append, hrun, Option.bind_some, run]
      simp [Spec.Mon.step, ht, touches, disturbIf, Mem.step, memOf]
  dispatch := by
    rintro lst w e i j s m - ⟨d, md, b, hrun, hat, hbot⟩ hl _ _
    by_cases ht : Tid.worker e i = t0
    · subst ht
      rw [hl] at hat
      cases hat
      cases hbot
      refine ⟨0, .idle, _, hrun, by rw [fset_same]; exact .drain rfl, ?_⟩
      simp only [BotMode]
      split <;> trivial
    · exact ⟨d, md, b, hrun, by rw [fset_ne _ _ (Ne.symm ht)]; exact hat, hbot⟩
  interrupt := fun lst w t _ h => h
  shutdown := fun lst w t _ h => h
  dropTasks := by
    rintro lst w e - ⟨d, md, b, hrun, hat, hbot⟩
    refine ⟨d, md, b, ?_, hat, hbot⟩
    simp only [World.dropTasks, mon_run_append, hrun, Option.bind_some]
    show run (monCfg env m0) t0 ⟨memOf w m0, d, md⟩ _ = some ⟨memOf w m0, d, md⟩
    generalize w.tasks e = l
    induction l with
    | nil => rfl
    | cons a l ih =>
      have : Spec.Mon.step (monCfg env m0) t0 ⟨memOf w m0, d, md⟩ (Tid.env, Obs.taskDropped a.1 a.2) =
          some ⟨memOf w m0, d, md⟩ := by
        by_cases ht : Tid.env = t0
        · simp [Spec.Mon.step, ht]
        · simp [Spec.Mon.step, ht, touches, disturbIf, Mem.step]
      simp only [List.map_cons, run, this]
      exact ih

end

end Verif
