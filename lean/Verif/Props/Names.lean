import Verif.Proofs.Names
import Verif.Demo.Base
/-
C100: names do not matter. If a program is changed so that it uses other names for states and events, consistently, and other objects for states, it behaves the same up
to names, in configuration and in every execution.
-/

namespace Verif
open Verif.Spec.Names Verif.Names

section
variable {N : Naming} {env env' : Env} {c0 c0' c : Conf} {xs xs' : List Choice}

/-- C100. Corresponding calls of configuration methods throw the same exceptions and leave corresponding configurations. -/
theorem C100_config (hN : N.Ok) {rs rs' : Reserved} (hr : N.Res rs rs') {ks ks' : List CfgCall} (hks : All N.CfgCall ks ks') :
    N.Cfg (cfgRun rs ks .empty) (cfgRun rs' ks' .empty) ∧
    ∀ k k', N.CfgCall k k' → k.throws rs (cfgRun rs ks .empty) = k'.throws rs' (cfgRun rs' ks' .empty) := by
  have h : N.Cfg (cfgRun rs ks .empty) (cfgRun rs' ks' .empty) := cfg_run hN hr hks ⟨.none, .none, .none, .nil⟩
  exact ⟨h, fun k k' hk => (cfg_call hN hr hk h).1⟩

/-- C100. Corresponding programs do corresponding things: whatever one can do, the other can do, and histories, states, flags, queues and everything else correspond. -/
theorem C100_run (hN : N.Ok) (he : N.Env env env') (hi : ∀ t, c0.thr t = none) (hi' : ∀ t, c0'.thr t = none) (hw : N.World c0.w c0'.w) (hx : All N.Choice xs xs')
    (hr : runs env c0 xs = some c) : ∃ c', runs env' c0' xs' = some c' ∧ N.World c.w c'.w ∧ ∀ t, (c.thr t).isSome = (c'.thr t).isSome := by
  have := runs_rel hN he ⟨hw, fun t => by rw [hi, hi']; exact .none⟩ hx
  rw [hr] at this
  generalize h : runs env' c0' xs' = d at this
  cases this with
  | some h1 => exact ⟨_, rfl, h1.w, fun t => Opt.isSome (h1.thr t)⟩

/-- C100. What one program cannot do, the other cannot do. -/
theorem C100_impossible (hN : N.Ok) (he : N.Env env env') (hi : ∀ t, c0.thr t = none) (hi' : ∀ t, c0'.thr t = none) (hw : N.World c0.w c0'.w) (hx : All N.Choice xs xs')
    (hr : runs env c0 xs = none) : runs env' c0' xs' = none := by
  have := runs_rel hN he ⟨hw, fun t => by rw [hi, hi']; exact .none⟩ hx
  rw [hr] at this
  generalize h : runs env' c0' xs' = d at this
  cases this
  rfl

end

/-! #### Renaming -/

section
variable {f : Renaming} {env : Env} {c0 c : Conf} {xs : List Choice}

theorem naming_ok (hf : f.Ok) : f.naming.Ok where
  st {a a' b b'} h h2 := by
    simp only [Renaming.naming] at h h2
    subst h h2
    exact ⟨fun h => by rw [h], fun h => by rw [← hf.st a, h, hf.st]⟩
  ev {a a' b b'} h h2 := by
    simp only [Renaming.naming] at h h2
    subst h h2
    exact ⟨fun h => by rw [h], fun h => by rw [← hf.ev a, h, hf.ev]⟩
  reserved n hn := (hf.reserved n hn).symm
  immediate := hf.immediate.symm

theorem naming_st {s s' : St} : f.naming.St s s' ↔ s' = f.stOf s := by
  obtain ⟨n, o⟩ := s
  obtain ⟨n', o'⟩ := s'
  simp [Naming.St, Renaming.naming, Renaming.stOf]

theorem naming_ev {e e' : Ev} : f.naming.Ev e e' ↔ e' = f.evOf e := by
  obtain ⟨c, n, o⟩ := e
  obtain ⟨c', n', o'⟩ := e'
  simp only [Naming.Ev, Renaming.naming, Renaming.evOf, Ev.mk.injEq]
  exact ⟨fun ⟨h1, h2, h3⟩ => ⟨h1.symm, h2, h3.symm⟩, fun ⟨h1, h2, h3⟩ => ⟨h1.symm, h2, h3.symm⟩⟩

theorem naming_opt {s s' : Option St} : Opt f.naming.St s s' ↔ s' = s.map f.stOf := by
  constructor
  · intro h
    cases h with
    | none => rfl
    | some h => rw [naming_st.1 h]; rfl
  · rintro rfl
    cases s with
    | none => exact .none
    | some s => exact .some (naming_st.2 rfl)

theorem st_back (hf : f.Ok) (s : St) : f.stBack (f.stOf s) = s := by simp [Renaming.stBack, Renaming.stOf, hf.st, hf.ob]

theorem ev_back (hf : f.Ok) (e : Ev) : f.evBack (f.evOf e) = e := by simp [Renaming.evBack, Renaming.evOf, hf.ev]

theorem naming_user (hf : f.Ok) (u : UProg) : f.naming.User u (f.userOf u) := by
  induction u with
  | done => exact .done
  | thr x => exact .thr x
  | call u k ih =>
    cases u with
    | fire m ev => exact .fire m (naming_ev.2 rfl) ih
    | startInState m s => exact .startInState m (naming_opt.2 rfl) ih
    | getCurrentState m =>
      refine .getCurrentState m fun r r' hr => ?_
      rw [naming_opt.1 hr]
      have : (r.map f.stOf).map f.stBack = r := by cases r <;> simp [st_back hf]
      rw [this]
      exact ih r
    | _ => exact .call _ rfl ih

theorem all_map {α β : Type} {R : α → β → Prop} {g : α → β} {l : List α} (h : ∀ a ∈ l, R a (g a)) : All R l (l.map g) := by
  induction l with
  | nil => exact .nil
  | cons a l ih => exact .cons (h a (by simp)) (ih fun b hb => h b (by simp [hb]))

theorem naming_table (t : Table) : f.naming.Table t (f.tableOf t) :=
  all_map fun r _ => ⟨rfl, rfl, all_map fun e _ => ⟨by
    cases e.1 with
    | none => exact .none
    | some k => exact .some ⟨rfl, rfl⟩, naming_opt.2 rfl⟩⟩

theorem naming_env (hf : f.Ok) (env : Env) : f.naming.Env env (f.envOf env) where
  strat _ := rfl
  table m := naming_table _
  init m := naming_opt.2 rfl
  res m := ⟨rfl, rfl, rfl⟩
  queue _ := rfl
  exec _ := rfl
  maxQ _ := rfl
  dropDup _ := rfl
  stable s := naming_table _
  width _ := rfl
  acts k o o' ho := by
    obtain rfl : o' = f.ob o := ho
    simp only [Renaming.envOf, hf.ob]
    exact all_map fun a _ ev ev' m hev => by rw [naming_ev.1 hev, ev_back hf]; exact naming_user hf _
  listener l b s s' ev ev' t t' hs hev ht := by
    rw [naming_st.1 hs, naming_ev.1 hev, naming_st.1 ht]
    simp only [Renaming.envOf, st_back hf, ev_back hf]
    exact naming_user hf _
  unmapped s ev ev' m hev := by rw [naming_ev.1 hev]; simp only [Renaming.envOf, ev_back hf]; exact naming_user hf _
  flowEx s ev ev' m x hev := by rw [naming_ev.1 hev]; simp only [Renaming.envOf, ev_back hf]; exact naming_user hf _
  flowAfter s ev ev' m hev := by rw [naming_ev.1 hev]; simp only [Renaming.envOf, ev_back hf]; exact naming_user hf _
  flowBefore s ev ev' m hev := by rw [naming_ev.1 hev]; simp only [Renaming.envOf, ev_back hf]; exact naming_user hf _
  proc i := naming_user hf _

theorem naming_choice (hf : f.Ok) (x : Choice) : f.naming.Choice x (f.choiceOf x) := by
  cases x with
  | «begin» n u => exact .begin n (naming_user hf u)
  | run t => exact .run t
  | dispatch e i j => exact .dispatch e i j
  | interrupt t => exact .interrupt t
  | shutdown e now => exact .shutdown e now

theorem naming_cb {c c' : Cb} (h : f.naming.Cb c c') : c' = f.cbOf c := by
  cases h with
  | «begin» m h1 h2 h3 => rw [naming_st.1 h1, naming_ev.1 h2, naming_st.1 h3]; rfl
  | end_ m h1 h2 h3 => rw [naming_st.1 h1, naming_ev.1 h2, naming_st.1 h3]; rfl
  | action m k i h1 h2 => rw [show _ = f.ob _ from h1, naming_ev.1 h2]; rfl
  | unmapped m h | flowEx m _ h | flowFull m h | flowAfter m h | flowBefore m h => rw [naming_ev.1 h]; rfl

theorem naming_api {c c' : Api} (h : f.naming.Api c c') : c' = f.apiOf c := by
  cases h <;> simp only [Renaming.apiOf] <;> simp_all [naming_ev, naming_opt]

theorem naming_obs {o o' : Obs} (h : f.naming.Obs o o') : o' = f.obsOf o := by
  cases h with
  | plain _ h => cases o <;> first | rfl | cases h
  | enter h => simp only [Renaming.obsOf]; rw [naming_api h]
  | leave r h => simp only [Renaming.obsOf]; rw [naming_api h]
  | cb h => simp only [Renaming.obsOf]; rw [naming_cb h]
  | cbRet r h => simp only [Renaming.obsOf]; rw [naming_cb h]
  | upd m b api h => simp only [Renaming.obsOf]; rw [naming_st.1 h]
  | cur m api h => simp only [Renaming.obsOf]; rw [naming_st.1 h]
  | dropped m h => simp only [Renaming.obsOf]; rw [naming_ev.1 h]
  | accepted q m h => simp only [Renaming.obsOf]; rw [naming_ev.1 h]
  | taken q m h => simp only [Renaming.obsOf]; rw [naming_ev.1 h]
  | done m h => simp only [Renaming.obsOf]; rw [naming_ev.1 h]
  | copied n v h => simp only [Renaming.obsOf]; rw [naming_ev.1 h]

theorem naming_trace {tr tr' : List (Tid × Obs)} (h : f.naming.Trace tr tr') : tr' = tr.map fun e => (e.1, f.obsOf e.2) := by
  induction h with
  | nil => rfl
  | @cons a b _ _ h _ ih =>
    obtain ⟨t, o⟩ := a
    obtain ⟨t', o'⟩ := b
    obtain ⟨h1, h2⟩ := h
    simp only at h1 h2
    subst h1
    rw [ih, naming_obs h2]
    rfl

theorem naming_initial (hi : Initial c0) : f.naming.World c0.w c0.w where
  mach m := ⟨rfl, rfl, by rw [(hi.mach m).2.2]; exact .none, rfl⟩
  payload := rfl
  pair p := by rw [hi.pair p]; exact .none
  nextPair := rfl
  nextCopy := rfl
  queue := rfl
  pool := rfl
  tasks := rfl
  shut := rfl
  latch := rfl
  intr := rfl
  mem := rfl
  trace := by rw [hi.trace]; exact .nil

/-- C100. Every program can be renamed. The renamed program has the same executions, renamed: same history, same states, same flags, same queues. -/
theorem C100_rename (hf : f.Ok) (hi : Initial c0) (hr : runs env c0 xs = some c) : ∃ c', runs (f.envOf env) c0 (xs.map f.choiceOf) = some c' ∧
    c'.w.trace = c.w.trace.map (fun e => (e.1, f.obsOf e.2)) ∧
    (∀ m, c'.w.mach m = ⟨(c.w.mach m).started, (c.w.mach m).ended, (c.w.mach m).cur.map f.stOf, (c.w.mach m).listener⟩) ∧
    c'.w.queue = c.w.queue ∧ ∀ t, (c'.thr t).isSome = (c.thr t).isSome := by
  obtain ⟨c', h1, h2, h3⟩ := C100_run (naming_ok hf) (naming_env hf env) hi.idle hi.idle (naming_initial hi) (all_map fun x _ => naming_choice hf x) hr
  refine ⟨c', h1, naming_trace h2.trace, fun m => ?_, h2.queue.symm, fun t => (h3 t).symm⟩
  obtain ⟨g1, g2, g3, g4⟩ := h2.mach m
  rw [g1, g2, g4, ← naming_opt.1 g3]

end

/-! #### Executions -/

namespace Demo

def swap (a b n : String) : String := if n = a then b else if n = b then a else n

theorem swap_swap (a b n : String) : swap a b (swap a b n) = n := by
  unfold swap
  by_cases h1 : n = a
  · subst h1
    by_cases h2 : b = n
    · simp [h2]
    · simp [h2]
  · by_cases h2 : n = b
    · subst h2; simp
    · simp [h1, h2]

/-- A is called B and B is called A, go is called back and back is called go; all states are other objects. -/
def swapped : Renaming := ⟨swap "A" "B", (· + 1), swap "go" "back", swap "A" "B", (· - 1), swap "go" "back"⟩

theorem swapped_ok : swapped.Ok := ⟨swap_swap _ _, fun _ => rfl, swap_swap _ _, by decide +kernel, by decide +kernel⟩

/-- A client starts the machine and fires go; in A the actions of A and B are run. -/
def goX : List Choice := [Choice.begin 0 (client 0 [go])] ++ runN (.client 0) 40 ++ [Choice.dispatch 0 0 0] ++ runN (.worker 0 0) 60

def goD : Conf := drive (env acts) (conf true) goX

/-- The machine goes to B. Renamed, it goes to the state that is called A now, and is another object. -/
example : (goD.w.mach 0).cur = some B ∧ ∃ c' : Conf, ReachFrom (swapped.envOf (env acts)) (conf true) c' ∧ (c'.w.mach 0).cur = some ⟨"A", 3⟩ ∧
    (.worker 0 0, .taken 0 0 ⟨0, "back", .client 1⟩) ∈ c'.w.trace ∧ (.worker 0 0, .cb (.action 0 .entry 3 1 ⟨0, "back", .client 1⟩)) ∈ c'.w.trace := by
  obtain ⟨xs, hx⟩ := drive_reach (env acts) (conf true) goX
  obtain ⟨c', h1, h2, h3, _⟩ := C100_rename swapped_ok (conf_initial true) hx
  refine ⟨by decide +kernel, c', ⟨_, h1⟩, ?_, ?_, ?_⟩
  · rw [h3]; decide +kernel
  · rw [h2]; decide +kernel
  · rw [h2]; decide +kernel

/-- No names are changed, but object 7 may stand for object 2. -/
def twinN : Naming := ⟨Eq, fun o o' => (o ≠ 7 ∧ o' = o) ∨ (o = 2 ∧ o' = 7), Eq⟩

theorem twins_ok : twinN.Ok := ⟨fun h h2 => by cases h; cases h2; rfl, fun h h2 => by cases h; cases h2; rfl, fun _ _ => rfl, rfl⟩

/-- State B, another object. -/
def B' : St := ⟨"B", 7⟩

/-- The calls of `calls`, but itTransitionsTo is called with the other object. -/
def twinCalls : List CfgCall := calls.map fun k => if k = .itTransitionsTo (some B) then .itTransitionsTo (some B') else k

theorem twin_calls : All twinN.CfgCall calls twinCalls := by
  have st : ∀ s : St, s.oid ≠ 7 → Opt twinN.St (some s) (some s) := fun s hs => .some ⟨rfl, .inl ⟨hs, rfl⟩⟩
  have ev : ∀ e : Ev, Opt twinN.Ev (some e) (some e) := fun e => .some ⟨rfl, rfl, rfl⟩
  refine all_map fun k hk => ?_
  split
  · rename_i h; subst h; exact .itTransitionsTo (.some ⟨rfl, .inr ⟨rfl, rfl⟩⟩)
  · simp only [calls, List.mem_cons, List.not_mem_nil, or_false] at hk
    rcases hk with rfl | rfl | rfl | rfl | rfl | rfl | rfl | rfl | rfl | rfl | rfl | rfl | rfl | rfl | rfl <;>
      first | exact .initialSate (st _ (by decide)) | exact .when_ (st _ (by decide)) | exact .receives (ev _) | exact .itEnds | exact .itTransitionsTo (st _ (by decide)) | exact .itDoesNotTransition

/-- The actions of object 2 are those of object 7 too. -/
def twinActs : Kind → Nat → List (Ev → MId → UProg) := fun k o => acts k (if o = 7 then 2 else o)

def twinEnv : Env :=
  { env twinActs with
    mach := fun m => ⟨m, (cfgRun rs twinCalls .empty).table, (cfgRun rs twinCalls .empty).init, rs⟩
    strat := fun s => ⟨s, s, 0, false, (cfgRun rs twinCalls .empty).table⟩ }

theorem twin_res : twinN.Res rs rs := ⟨.inl ⟨by decide, rfl⟩, .inl ⟨by decide, rfl⟩, .inl ⟨by decide, rfl⟩⟩

theorem twin_cfg : twinN.Cfg cfg (cfgRun rs twinCalls .empty) := (C100_config twins_ok (rs := rs) twin_res twin_calls).1

theorem note_user (N : Naming) (n : Nat) : N.User (noteP n) (noteP n) := .call _ rfl fun _ => .done

theorem twin_env : twinN.Env (env acts) twinEnv where
  strat _ := rfl
  table _ := twin_cfg.table
  init _ := twin_cfg.init
  res _ := twin_res
  queue _ := rfl
  exec _ := rfl
  maxQ _ := rfl
  dropDup _ := rfl
  stable _ := twin_cfg.table
  width _ := rfl
  acts k o o' ho := by
    have h : twinEnv.acts k o' = acts k o := by
      rcases ho with ⟨h, rfl⟩ | ⟨rfl, rfl⟩
      · simp [twinEnv, env, twinActs, h]
      · rfl
    rw [h]
    refine All.refl fun a ha ev ev' m _ => ?_
    change a ∈ acts k o at ha
    unfold acts at ha
    split at ha
    · simp only [List.mem_cons, List.not_mem_nil, or_false] at ha
      rcases ha with rfl | rfl <;> exact note_user _ _
    · simp only [List.mem_cons, List.not_mem_nil, or_false] at ha
      rcases ha with rfl | rfl <;> exact note_user _ _
    · cases ha
  listener _ _ _ _ _ _ _ _ _ _ _ := .done
  unmapped _ _ _ _ _ := .done
  flowEx _ _ _ _ _ _ := .done
  flowAfter _ _ _ _ _ := .done
  flowBefore _ _ _ _ _ := .done
  proc _ := .done

theorem go_choices : ∀ x ∈ goX, twinN.Choice x x := by
  intro x hx
  simp only [goX, List.mem_append, List.mem_cons, List.not_mem_nil, or_false, runN] at hx
  rcases hx with ((rfl | h) | rfl) | h
  · exact .begin 0 (.call _ rfl fun _ => .fire 0 ⟨rfl, rfl, rfl⟩ fun _ => .done)
  · rw [List.eq_of_mem_replicate h]; exact .run _
  · exact .dispatch 0 0 0
  · rw [List.eq_of_mem_replicate h]; exact .run _

/-- A schedule of choices that are possible. -/
def trimTo (env : Env) : Conf → List Choice → List Choice
  | _, [] => []
  | c, x :: xs => match step env c x with
    | none => trimTo env c xs
    | some c' => x :: trimTo env c' xs

theorem trimTo_runs (env : Env) (c : Conf) (xs : List Choice) : runs env c (trimTo env c xs) = some (drive env c xs) ∧ ∀ x ∈ trimTo env c xs, x ∈ xs := by
  induction xs generalizing c with
  | nil => exact ⟨rfl, fun _ h => h⟩
  | cons x xs ih =>
    unfold trimTo
    simp only [drive, List.foldl_cons, tryStep]
    cases h : step env c x with
    | none => exact ⟨(ih c).1, fun y hy => List.mem_cons_of_mem _ ((ih c).2 y hy)⟩
    | some c' =>
      simp only [runs, h, Option.getD_some]
      exact ⟨(ih c').1, fun y hy => by
        rcases List.mem_cons.1 hy with rfl | hy
        · exact List.mem_cons_self
        · exact List.mem_cons_of_mem _ ((ih c').2 y hy)⟩

/-- With the other object the machine does the same, and ends up in B, the other object. -/
example : ∃ xs c', runs (env acts) (conf true) xs = some goD ∧ runs twinEnv (conf true) xs = some c' ∧ twinN.World goD.w c'.w := by
  obtain ⟨h1, h2⟩ := trimTo_runs (env acts) (conf true) goX
  obtain ⟨c', h3, h4, _⟩ := C100_run twins_ok twin_env (c0 := conf true) (c0' := conf true) (fun _ => rfl) (fun _ => rfl)
    { (naming_initial (f := swapped) (conf_initial true)) with mach := fun _ => ⟨rfl, rfl, .none, rfl⟩, pair := fun _ => .none, trace := .nil }
    (All.refl fun x hx => go_choices x (h2 x hx)) h1
  exact ⟨_, c', h1, h3, h4⟩

example : (twinEnv.mach 0).table ≠ ((env acts).mach 0).table ∧ ((drive twinEnv (conf true) goX).w.mach 0).cur = some B' := by decide +kernel

/-- A worker cannot take a task if there is none. -/
example : runs twinEnv (conf true) [.dispatch 0 0 0] = none :=
  C100_impossible twins_ok twin_env (c0 := conf true) (c0' := conf true) (fun _ => rfl) (fun _ => rfl)
    { (naming_initial (f := swapped) (conf_initial true)) with mach := fun _ => ⟨rfl, rfl, .none, rfl⟩, pair := fun _ => .none, trace := .nil }
    (.cons (.dispatch 0 0 0) .nil) rfl

end Demo

end Verif
