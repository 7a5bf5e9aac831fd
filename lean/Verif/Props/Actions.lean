import Verif.Model.Actions
/-
C68: action lists of states.
-/

namespace Verif.Actions

/-- One after the other, from the first: the action is run; the next ones are run only if it returns normally and the list is what it was.
`Course code l as h h' r`: the actions `as` of the list `l`. -/
inductive Course (code : AId → Code) (l : LRef) : List AId → Heap → Heap → Res → Prop
  | all {h} : Course code l [] h h (.ok ())
  | next {a as h h1 h' r} : Exec code (.code (code a)) h h1 (.ok ()) → h1.items l = h.items l → Course code l as h1 h' r →
      Course code l (a :: as) h h' r
  | throws {a as h h1 e} : Exec code (.code (code a)) h h1 (.error e) → Course code l (a :: as) h h1 (.error e)
  | appended {a as h h1} : Exec code (.code (code a)) h h1 (.ok ()) → h1.items l ≠ h.items l → Course code l (a :: as) h h1 (.error .cme)

theorem add_items (h : Heap) (l x : LRef) (a : AId) : (h.add l a).items x = h.items x ++ if x = l then [a] else [] := by
  unfold Heap.add; by_cases hx : x = l <;> simp [hx]

/-- Appending adds the actions that are not null, in order, to one list only. -/
theorem append_items (h : Heap) (l : LRef) (as : Option (List (Option AId))) (x : LRef) :
    (append h l as).1.items x = h.items x ++ if x = l then (as.getD []).filterMap id else [] := by
  cases as with
  | none => simp [append]
  | some as =>
    simp only [append, Option.getD_some]
    induction as generalizing h with
    | nil => simp
    | cons a as ih =>
      cases a with
      | none => simpa using ih h
      | some a =>
        simp only [Option.isSome_some, List.filter_cons_of_pos, List.foldl_cons, ih, add_items]
        by_cases hx : x = l <;> simp [hx]

theorem append_mod (h : Heap) (l : LRef) (as : Option (List (Option AId))) (x : LRef) :
    (append h l as).1.mod x = h.mod x + if x = l then ((as.getD []).filterMap id).length else 0 := by
  cases as with
  | none => simp [append]
  | some as =>
    simp only [append, Option.getD_some]
    induction as generalizing h with
    | nil => simp
    | cons a as ih =>
      cases a with
      | none => simpa using ih h
      | some a =>
        simp only [Option.isSome_some, List.filter_cons_of_pos, List.foldl_cons, ih]
        by_cases hx : x = l
        · simp [hx, Heap.add]; omega
        · simp [hx, Heap.add]

/-- Lists only grow, at the end, and `modCount` counts how much. -/
theorem exec_grows {code : AId → Code} {j : Job} {h h' : Heap} {r : Res} (he : Exec code j h h' r) (x : LRef) :
    ∃ new, h'.items x = h.items x ++ new ∧ h'.mod x = h.mod x + new.length := by
  induction he with
  | done | thr | changed | finished => exact ⟨[], by simp, by simp⟩
  | append _ ih =>
    obtain ⟨n, h1, h2⟩ := ih
    rw [append_items, List.append_assoc] at h1
    rw [append_mod] at h2
    refine ⟨_, h1, ?_⟩
    rw [h2]
    split <;> simp <;> omega
  | run _ _ ih1 ih2 | next _ _ _ _ ih1 ih2 =>
    obtain ⟨n1, h1, h2⟩ := ih1
    obtain ⟨n2, h3, h4⟩ := ih2
    exact ⟨n1 ++ n2, by rw [h3, h1, List.append_assoc], by rw [h4, h2, List.length_append]; omega⟩
  | failed _ _ _ ih => exact ih

theorem exec_mod {code : AId → Code} {j : Job} {h h' : Heap} {r : Res} (he : Exec code j h h' r) (x : LRef) :
    h'.mod x = h.mod x ↔ h'.items x = h.items x := by
  obtain ⟨n, h1, h2⟩ := exec_grows he x
  rw [h1, h2]
  cases n <;> simp

/-- C68: `onEntry` and `onExit` run the actions of the list, in the order in which they were appended. An action that throws is the last
one, and what it throws is thrown. An action during which something was appended to the list is the last one, too:
`ConcurrentModificationException`. -/
theorem C68_course {code : AId → Code} {l : LRef} {h h' : Heap} {r : Res} : Calls code l h h' r ↔ Course code l (h.items l) h h' r := by
  constructor
  · intro he
    have key : ∀ j h h' r, Exec code j h h' r → ∀ es m i, j = .loop l es m i → h.mod l = m → Course code l (es.drop i) h h' r := by
      intro j h h' r he
      induction he with
      | done | thr | append | run => intro es m i hj; cases hj
      | changed hc => intro es m i hj hm; cases hj; exact absurd hm hc
      | finished _ hl =>
        intro es m i hj hm; cases hj
        rw [List.drop_eq_nil_of_le hl]; exact .all
      | @failed h l' es m i a h1 e hm ha he _ =>
        intro es m i hj _; cases hj
        obtain ⟨hl, rfl⟩ := List.getElem?_eq_some_iff.1 ha
        rw [List.drop_eq_getElem_cons hl]
        exact .throws he
      | @next h l' es m i a h1 h' r hm ha he hr _ ih =>
        intro es m i hj _; cases hj
        obtain ⟨hl, rfl⟩ := List.getElem?_eq_some_iff.1 ha
        rw [List.drop_eq_getElem_cons hl]
        by_cases hc : h1.mod l = m
        · exact .next he ((exec_mod he l).1 (hc.trans hm.symm)) (ih es m (i + 1) rfl hc)
        · have hi : h1.items l ≠ h.items l := fun hi => hc (((exec_mod he l).2 hi).trans hm)
          cases hr with
          | changed => exact .appended he hi
          | finished h2 => exact absurd h2 hc
          | next h2 => exact absurd h2 hc
          | failed h2 => exact absurd h2 hc
    exact key _ _ _ _ he _ _ 0 rfl rfl
  · intro hc
    have key : ∀ as h h' r, Course code l as h h' r → ∀ es m i, es.drop i = as → h.mod l = m → Exec code (.loop l es m i) h h' r := by
      intro as h h' r hc
      induction hc with
      | all => intro es m i hd hm; exact .finished hm (List.drop_eq_nil_iff.1 hd)
      | @next a as h h1 h' r he hi _ ih =>
        intro es m i hd hm
        have h2 : es[i]? = some a := by rw [← List.head?_drop, hd]; rfl
        refine .next hm h2 he (ih es m (i + 1) ?_ (((exec_mod he l).2 hi).trans hm))
        rw [← List.tail_drop, hd]; rfl
      | @throws a as h h1 e he =>
        intro es m i hd hm
        exact .failed hm (by rw [← List.head?_drop, hd]; rfl) he
      | @appended a as h h1 he hi =>
        intro es m i hd hm
        exact .next hm (by rw [← List.head?_drop, hd]; rfl) he (.changed fun h2 => hi ((exec_mod he l).1 (h2.trans hm.symm)))
    exact key _ _ _ _ hc _ _ 0 rfl rfl

/-- C68: what actions do with states: the actions of a list that are run from inside an action (of the same list or of another) run in the same way, and the
action goes on with the outcome, whatever it is; so it does after appending. -/
theorem C68_nested {code : AId → Code} {h h' : Heap} {r : Res} (l : LRef) :
    (∀ k, Exec code (.code (.run l k)) h h' r ↔ ∃ h1 r1, Course code l (h.items l) h h1 r1 ∧ Exec code (.code (k r1)) h1 h' r) ∧
    (∀ as k, Exec code (.code (.append l as k)) h h' r ↔
      Exec code (.code (k (if as.isSome then .ok () else .error .npe))) (append h l as).1 h' r) := by
  refine ⟨fun k => ⟨fun he => ?_, fun ⟨h1, r1, hc, he⟩ => .run (C68_course.2 hc) he⟩, fun as k => ?_⟩
  · cases he with
    | run he1 he2 => exact ⟨_, _, C68_course.1 he1, he2⟩
  · have hr : (append h l as).2 = if as.isSome then .ok () else .error .npe := by cases as <;> rfl
    rw [← hr]
    exact ⟨fun he => by cases he with | append he => exact he, .append⟩

/-- C68: appending a null array throws and changes nothing; null elements are skipped (so they do not disturb a list that is being run
either); the others are added at the end, in order; no other list changes. -/
theorem C68_append (h : Heap) (l : LRef) :
    append h l none = (h, .error .npe) ∧
    ∀ as, (append h l (some as)).2 = .ok () ∧ (append h l (some as)).1.items l = h.items l ++ as.filterMap id ∧
      (∀ x, x ≠ l → (append h l (some as)).1.items x = h.items x) ∧ ((∀ a ∈ as, a = none) → (append h l (some as)).1 = h) := by
  refine ⟨rfl, fun as => ⟨rfl, by simp [append_items], fun x hx => by simp [append_items, hx], fun hn => ?_⟩⟩
  have : as.filter (·.isSome) = [] := List.filter_eq_nil_iff.2 fun a ha => by rw [hn a ha]; simp
  simp [append, this]

/-- C68: whatever is run, lists only grow at the end. -/
theorem C68_grows {code : AId → Code} {l : LRef} {h h' : Heap} {r : Res} (he : Calls code l h h' r) (x : LRef) : h.items x <+: h'.items x := by
  obtain ⟨n, h1, -⟩ := exec_grows he x
  exact ⟨n, h1.symm⟩

/-- Executions are determined by their beginning. -/
theorem exec_unique {code : AId → Code} {j : Job} {h h1 h2 : Heap} {r1 r2 : Res} (he1 : Exec code j h h1 r1) (he2 : Exec code j h h2 r2) :
    h1 = h2 ∧ r1 = r2 := by
  induction he1 generalizing h2 r2 with
  | done => cases he2; exact ⟨rfl, rfl⟩
  | thr => cases he2; exact ⟨rfl, rfl⟩
  | append _ ih => cases he2; rename_i h3; exact ih h3
  | run _ _ ih1 ih2 =>
    cases he2; rename_i h3 h4
    obtain ⟨rfl, rfl⟩ := ih1 h3
    exact ih2 h4
  | changed hc => cases he2 <;> first | exact ⟨rfl, rfl⟩ | contradiction
  | finished hm hl =>
    cases he2 with
    | changed hc => contradiction
    | finished => exact ⟨rfl, rfl⟩
    | next _ ha => rw [List.getElem?_eq_none hl] at ha; cases ha
    | failed _ ha => rw [List.getElem?_eq_none hl] at ha; cases ha
  | next hm ha _ _ ih1 ih2 =>
    cases he2 with
    | changed hc => contradiction
    | finished _ hl => rw [List.getElem?_eq_none hl] at ha; cases ha
    | next _ ha' h3 h4 => rw [ha] at ha'; cases ha'; obtain ⟨rfl, -⟩ := ih1 h3; exact ih2 h4
    | failed _ ha' h3 => rw [ha] at ha'; cases ha'; exact nomatch (ih1 h3).2
  | failed hm ha _ ih =>
    cases he2 with
    | changed hc => contradiction
    | finished _ hl => rw [List.getElem?_eq_none hl] at ha; cases ha
    | next _ ha' h3 h4 => rw [ha] at ha'; cases ha'; exact nomatch (ih h3).2
    | failed _ ha' h3 => rw [ha] at ha'; cases ha'; exact ih h3

/-- C68: `onEntry` (`onExit`) never returns normally if the list has been appended to meanwhile, by whatever action and however
indirectly; not even if it was the last action that did so. -/
theorem C68_appended {code : AId → Code} {l : LRef} {h h' : Heap} {r : Res} (hc : Calls code l h h' r) (hn : h'.items l ≠ h.items l) :
    ∃ e, r = .error e := by
  have key : ∀ as h h' r, Course code l as h h' r → h'.items l ≠ h.items l → ∃ e, r = .error e := by
    intro as h h' r hc
    induction hc with
    | all => exact fun hn => absurd rfl hn
    | next _ hi _ ih => exact fun hn => ih (by rwa [hi])
    | throws => exact fun _ => ⟨_, rfl⟩
    | appended => exact fun _ => ⟨_, rfl⟩
  exact key _ _ _ _ (C68_course.1 hc) hn

/-- C68: after the configuration phase, an action list consists of the non-null actions appended to it, in order. -/
theorem C68_configured (cs : List (LRef × Option (List (Option AId)))) (l : LRef) :
    (cs.foldl (fun h c => (append h c.1 c.2).1) Heap.new).items l =
      cs.flatMap fun c => if c.1 = l then (c.2.getD []).filterMap id else [] := by
  suffices ∀ h : Heap, (cs.foldl (fun h c => (append h c.1 c.2).1) h).items l =
      h.items l ++ cs.flatMap fun c => if c.1 = l then (c.2.getD []).filterMap id else [] from this Heap.new
  induction cs with
  | nil => simp
  | cons c cs ih =>
    intro h
    rw [List.foldl_cons, ih, append_items, List.flatMap_cons, List.append_assoc]
    by_cases hc : l = c.1
    · simp [hc]
    · simp [hc, Ne.symm hc]

namespace Demo

/-- The entry and exit actions of a state. -/
def ins : LRef := ⟨1, true⟩
def outs : LRef := ⟨1, false⟩

/-- Action 1 appends action 3 to the entry actions, action 4 to the exit actions; action 5 runs the entry actions and ignores what they throw;
action 6 appends nulls. -/
def code : AId → Code
  | 1 => .append ins (some [some 3, none]) fun _ => .done
  | 4 => .append outs (some [some 3]) fun _ => .done
  | 5 => .run ins fun _ => .done
  | 6 => .append ins (some [none, none]) fun _ => .done
  | 7 => .thr (.user (.user 1))
  | _ => .done

def setup (as : List AId) : Heap := (append Heap.new ins (some (as.map some))).1

theorem setup_items (as : List AId) : (setup as).items ins = as := by simp [setup, append_items, Heap.new]

def grown : Heap := (append (setup [0, 1, 2]) ins (some [some 3, none])).1

/-- Action 2 is not run, action 3 is appended, `ConcurrentModificationException`. -/
theorem first_call : Calls code ins (setup [0, 1, 2]) grown (.error .cme) := by
  rw [C68_course, setup_items]
  exact .next (a := 0) .done rfl (.appended (a := 1) (.append .done) (by
    show grown.items ins ≠ _
    simp [grown, append_items, setup_items]))

/-- The same again: appended once more. -/
example : ∃ h, Calls code ins grown h (.error .cme) ∧ h.items ins = [0, 1, 2, 3, 3] := by
  refine ⟨(append grown ins (some [some 3, none])).1, C68_course.2 ?_, ?_⟩
  · rw [show grown.items ins = [0, 1, 2, 3] by simp [grown, append_items, setup_items]]
    exact .next (a := 0) .done rfl (.appended (a := 1) (.append .done) (by simp [append_items, grown, setup_items]))
  · simp [append_items, grown, setup_items]

example : ∃ e, (Except.error Err.cme : Res) = .error e := C68_appended first_call (by simp [grown, append_items, setup_items])
example : (setup [0, 1, 2]).items outs <+: grown.items outs := C68_grows first_call outs

/-- An exit action runs the entry actions, of which the second throws, and goes on. -/
example : ∃ h, Exec code (.code (code 5)) (setup [0, 7, 1]) h (.ok ()) := by
  refine ⟨_, ((C68_nested ins).1 _).2 ⟨setup [0, 7, 1], .error (.user (.user 1)), ?_, .done⟩⟩
  rw [setup_items]
  exact .next (a := 0) .done rfl (.throws (a := 7) .thr)

/-- Appending nulls, or to the exit actions, does no harm. -/
example : ∃ h, Calls code ins (setup [6, 4, 0]) h (.ok ()) ∧ h.items outs = [3] := by
  refine ⟨(append (append (setup [6, 4, 0]) ins (some [none, none])).1 outs (some [some 3])).1, C68_course.2 ?_, ?_⟩
  · rw [setup_items]
    exact .next (a := 6) (.append .done) (by simp [append_items]) (.next (a := 4) (.append .done) (by simp [append_items, ins, outs])
      (.next (a := 0) .done rfl .all))
  · simp [append_items, setup, Heap.new, ins, outs]

/-- An action that throws is the last one. -/
example : Calls code ins (setup [0, 7, 1]) (setup [0, 7, 1]) (.error (.user (.user 1))) := by
  rw [C68_course, setup_items]
  exact .next (a := 0) .done rfl (.throws (a := 7) .thr)

example : ([(ins, some [some 1, none, some 2]), (outs, some [some 5]), (ins, none), (ins, some [some 3])].foldl
    (fun h c => (append h c.1 c.2).1) Heap.new).items ins = [1, 2, 3] := by
  rw [C68_configured]; rfl

end Demo
end Verif.Actions
