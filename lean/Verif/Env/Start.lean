import Verif.Bytes

/-!
# Starting the enclave on SGX: `enclave/ecalls/ecalls.cc`

On SGX the host calls `svr2_init` and `svr2_input_message` from as many threads as it likes (ecalls.cc:43-94). Atomic
operations and the sections between them are steps; threads take turns in any order. `global_core` is not atomic: two
threads at it at the same time, one of them writing, is a data race. Parsing and `Core::Create` succeed or fail.
-/

namespace Svr.Start

/-- `GlobalCoreState` (enclave/ecalls/ecalls.cc:32-37). -/
inductive G | uninitiated | initiating | initiated
deriving DecidableEq

/-- Where a thread is. -/
inductive Pc
  | idle
  /-- `svr2_init`: parsing (ecalls.cc:55-59), `env::Init` and seeding (64-65), `Core::Create` (68), going back after an error (57, 70),
  assigning `global_core` (73), copying its id (74-75), the last store (76) -/
  | parse | env | create | undo | assign | copy | finish
  /-- `svr2_input_message`: parsing (89-92), `Receive` (93) -/
  | message | receive
deriving DecidableEq

/-- What calls return: `failed` is `Core_ConfigProtobufParse` or the error of `Core::Create`. -/
inductive Ret | reInit | parse | failed | started | noInit | received (core : Nat)
deriving DecidableEq

/-- The enclave. `core` is `global_core`: null, or a number for the object; `made` counts them. -/
structure St where
  g : G
  core : Option Nat
  pc : Nat → Pc
  made : Nat
  rets : List Ret

def St.init : St := ⟨.uninitiated, none, fun _ => .idle, 0, []⟩

/-- Thread `t` goes on at `p`. -/
def St.go (s : St) (t : Nat) (p : Pc) : St := { s with pc := fun u => if u = t then p else s.pc u }

/-- Thread `t` returns `r`. -/
def St.ret (s : St) (t : Nat) (r : Ret) : St := { s.go t .idle with rets := s.rets ++ [r] }

/-- A step of thread `t`. `init` says whether an idle thread calls `svr2_init` or `svr2_input_message`, `good` whether what it does
next succeeds (enclave/ecalls/ecalls.cc:43-94). -/
def step (s : St) (t : Nat) (init good : Bool) : Out St :=
  match s.pc t with
  | .idle =>
    if init then
      -- ecalls.cc:49-53
      if s.g = .uninitiated then .ok ({ s with g := .initiating }.go t .parse) else .ok (s.ret t .reInit)
    -- ecalls.cc:86-88
    else if s.g = .initiated then .ok (s.go t .message) else .ok (s.ret t .noInit)
  | .parse => .ok (s.go t (if good then .env else .undo))
  | .env => .ok (s.go t .create)
  | .create => .ok (if good then { s with made := s.made + 1 }.go t .assign else s.go t .undo)
  | .undo => .ok ({ s with g := .uninitiated }.ret t .failed)
  | .assign => .ok ({ s with core := some s.made }.go t .copy)
  | .copy => if s.core = none then .ub else .ok (s.go t .finish)
  | .finish => .ok ({ s with g := .initiated }.ret t .started)
  | .message => .ok (if good then s.go t .receive else s.ret t .parse)
  | .receive =>
    match s.core with
    | none => .ub
    | some c => .ok (s.ret t (.received c))

/-- Does a thread there write `global_core`, or use it? -/
def Pc.writes : Pc → Bool
  | .assign => true
  | _ => false
@[inherit_doc Pc.writes] def Pc.uses : Pc → Bool
  | .assign | .copy | .receive => true
  | _ => false

/-- A data race on `global_core`. -/
def Race (s : St) : Prop := ∃ t u, t ≠ u ∧ (s.pc t).writes = true ∧ (s.pc u).uses = true

/-- A step, which is undefined behaviour if there is a race. -/
noncomputable def stepR (s : St) (t : Nat) (init good : Bool) : Out St :=
  open Classical in if Race s then .ub else step s t init good

/-- Many steps. -/
noncomputable def run : St → List (Nat × Bool × Bool) → Out St
  | s, [] => .ok s
  | s, (t, i, g) :: es => do let s' ← stepR s t i g; run s' es

/-! ## Facts -/

/-- In `svr2_init`, past the exchange. -/
def Pc.inInit : Pc → Bool
  | .parse | .env | .create | .undo | .assign | .copy | .finish => true
  | _ => false

/-- How many calls of `svr2_init` returned `error::OK`. -/
def starts (l : List Ret) : Nat := l.countP (· = .started)

structure Inv (s : St) : Prop where
  busy : ∀ t, (s.pc t).inInit = true → s.g = .initiating
  one : ∀ t u, (s.pc t).inInit = true → (s.pc u).inInit = true → t = u
  quiet : s.g ≠ .initiated → ∀ t, s.pc t ≠ .message ∧ s.pc t ≠ .receive
  before : s.g ≠ .initiated → (∀ t, s.pc t ≠ .copy ∧ s.pc t ≠ .finish) → s.core = none
  late : (∃ t, s.pc t = .copy ∨ s.pc t = .finish) ∨ s.g = .initiated → s.core = some s.made
  ret : starts s.rets = if s.g = .initiated then 1 else 0
  got : ∀ c, .received c ∈ s.rets → s.g = .initiated ∧ s.core = some c
  held : s.g = .initiating → ∃ t, (s.pc t).inInit = true

theorem inv_init : Inv .init :=
  ⟨(fun t h => by cases h), (fun t u h => by cases h), (fun _ t => ⟨by simp [St.init], by simp [St.init]⟩), fun _ _ => rfl,
    (fun h => by rcases h with ⟨t, h | h⟩ | h <;> cases h), rfl, (fun c h => by cases h), (fun h => by cases h)⟩

theorem no_race {s : St} (i : Inv s) : ¬ Race s := by
  rintro ⟨t, u, hne, hw, hu⟩
  have ht : s.pc t = .assign := by
    revert hw; cases s.pc t <;> simp [Pc.writes]
  have hti : (s.pc t).inInit = true := by rw [ht]; rfl
  have hg := i.busy t hti
  have hui : (s.pc u).inInit = true := by
    have hq := (i.quiet (by rw [hg]; decide) u).2
    revert hu hq; cases s.pc u <;> simp [Pc.uses, Pc.inInit]
  exact hne (i.one t u hti hui)

theorem go_pc (s : St) (t : Nat) (p : Pc) (u : Nat) : (s.go t p).pc u = if u = t then p else s.pc u := rfl

theorem ret_pc (s : St) (t : Nat) (r : Ret) (u : Nat) : (s.ret t r).pc u = if u = t then .idle else s.pc u := rfl

/-- Nobody else is in `svr2_init`. -/
theorem Inv.alone {s : St} (i : Inv s) {t : Nat} (h : (s.pc t).inInit = true) {u : Nat} (hu : u ≠ t) : (s.pc u).inInit = false := by
  cases e : (s.pc u).inInit with
  | false => rfl
  | true => exact absurd (i.one u t e h) hu

theorem starts_append (l : List Ret) (r : Ret) : starts (l ++ [r]) = starts l + if r = .started then 1 else 0 := by
  simp only [starts, List.countP_append, List.countP_singleton, decide_eq_true_eq]

/-- A thread that is not in `svr2_init` goes on outside of it. -/
theorem Inv.outside {s : St} (i : Inv s) (t : Nat) (p : Pc) (h : (s.pc t).inInit = false) (hp : p.inInit = false)
    (hm : p = .message ∨ p = .receive → s.g = .initiated) (rs : List Ret) (hs : ∀ r ∈ rs, r ≠ .started)
    (hr : ∀ c, .received c ∈ rs → s.g = .initiated ∧ s.core = some c) : Inv { s.go t p with rets := s.rets ++ rs } where
  busy u hu := by
    simp only [go_pc] at hu
    split at hu
    · rw [hp] at hu; cases hu
    · exact i.busy u hu
  one u v hu hv := by
    simp only [go_pc] at hu hv
    split at hu
    · rw [hp] at hu; cases hu
    · split at hv
      · rw [hp] at hv; cases hv
      · exact i.one u v hu hv
  quiet hg u := by
    simp only [go_pc]
    split
    · exact ⟨fun e => hg (hm (Or.inl e)), fun e => hg (hm (Or.inr e))⟩
    · exact i.quiet hg u
  before hg hu := i.before hg fun u => by
    have := hu u
    simp only [go_pc] at this
    split at this
    · rename_i e
      subst e
      constructor <;> (intro e; rw [e] at h; cases h)
    · exact this
  late hu := i.late (hu.imp_left fun ⟨u, hu⟩ => by
    simp only [go_pc] at hu
    split at hu
    · rcases hu with e | e <;> (rw [e] at hp; cases hp)
    · exact ⟨u, hu⟩)
  ret := by
    have h0 : starts rs = 0 := by
      simp only [starts, List.countP_eq_zero, decide_eq_true_eq]
      exact hs
    have : starts (s.rets ++ rs) = starts s.rets + starts rs := List.countP_append ..
    simp only
    rw [this, h0, Nat.add_zero]
    exact i.ret
  got c hc := by
    rcases List.mem_append.mp hc with hc | hc
    · exact i.got c hc
    · exact hr c hc
  held hg := by
    obtain ⟨u, hu⟩ := i.held hg
    refine ⟨u, ?_⟩
    simp only [go_pc]
    rw [if_neg (by rintro rfl; rw [h] at hu; cases hu)]
    exact hu

/-- The thread in `svr2_init` goes on there, before it assigns `global_core`. -/
theorem Inv.early {s : St} (i : Inv s) (t : Nat) (p : Pc) (h : (s.pc t).inInit = true) (hc : s.pc t ≠ .copy ∧ s.pc t ≠ .finish)
    (hp : p.inInit = true) (hq : p ≠ .copy ∧ p ≠ .finish) (m : Nat) : Inv { s.go t p with made := m } := by
  have hg := i.busy t h
  have hn : s.g ≠ .initiated := by rw [hg]; decide
  have hcore : s.core = none := i.before hn fun u => by
    by_cases e : u = t
    · subst e; exact hc
    · have := i.alone h e
      constructor <;> (intro e; rw [e] at this; cases this)
  refine ⟨fun u hu => hg, fun u v hu hv => ?_, fun _ u => ?_, fun _ _ => hcore, fun hu => ?_, ?_, fun c hc => i.got c hc, fun _ => ⟨t, by simp only [go_pc, if_pos]; exact hp⟩⟩
  · simp only [go_pc] at hu hv
    split at hu <;> split at hv
    · simp_all
    · exact absurd hv (by rw [i.alone h (by assumption)]; decide)
    · exact absurd hu (by rw [i.alone h (by assumption)]; decide)
    · exact i.one u v hu hv
  · simp only [go_pc]
    split
    · constructor <;> (intro e; rw [e] at hp; cases hp)
    · exact i.quiet hn u
  · rcases hu with ⟨u, hu⟩ | hu
    · simp only [go_pc] at hu
      split at hu
      · rcases hu with e | e
        · exact absurd e hq.1
        · exact absurd e hq.2
      · rename_i ne
        have := i.alone h ne
        rcases hu with e | e <;> (rw [e] at this; cases this)
    · exact absurd hu hn
  · exact i.ret

theorem inv_step {s : St} (i : Inv s) (t : Nat) (init good : Bool) : ∃ s', step s t init good = .ok s' ∧ Inv s' := by
  unfold step
  cases hpc : s.pc t with
  | idle =>
    have h : (s.pc t).inInit = false := by rw [hpc]; rfl
    simp only
    split
    · split
      · rename_i hg
        have hn : s.g ≠ .initiated := by rw [hg]; decide
        have none : ∀ u, (s.pc u).inInit = false := fun u => by
          cases e : (s.pc u).inInit with
          | false => rfl
          | true => have := i.busy u e; rw [hg] at this; cases this
        have hcore : s.core = .none := i.before hn fun u => by
          have := none u
          constructor <;> (intro e; rw [e] at this; cases this)
        refine ⟨_, rfl, fun u hu => rfl, fun u v hu hv => ?_, fun _ u => ?_, fun _ _ => hcore, fun hu => ?_, ?_, fun c hc => ?_,
          fun _ => ⟨t, by simp only [go_pc, if_pos]; rfl⟩⟩
        · simp only [go_pc] at hu hv
          split at hu
          · split at hv
            · simp_all
            · rw [none v] at hv; cases hv
          · rw [none u] at hu; cases hu
        · simp only [go_pc]
          split
          · exact ⟨by decide, by decide⟩
          · exact i.quiet hn u
        · rcases hu with ⟨u, hu⟩ | hu
          · simp only [go_pc] at hu
            split at hu
            · rcases hu with e | e <;> cases e
            · have := none u
              rcases hu with e | e <;> (rw [e] at this; cases this)
          · cases hu
        · have := i.ret
          rw [if_neg hn] at this
          rw [if_neg (by simp [St.go])]
          exact this
        · exact absurd (i.got c hc).1 hn
      · exact ⟨_, rfl, i.outside t .idle h rfl (by simp) [.reInit] (by simp) (by simp)⟩
    · split
      · rename_i hg
        have := i.outside t .message h rfl (fun _ => hg) [] (by simp) (by simp)
        rw [List.append_nil] at this
        exact ⟨_, rfl, this⟩
      · exact ⟨_, rfl, i.outside t .idle h rfl (by simp) [.noInit] (by simp) (by simp)⟩
  | parse =>
    refine ⟨_, rfl, i.early t _ (by rw [hpc]; rfl) (by rw [hpc]; exact ⟨by decide, by decide⟩) ?_ ?_ s.made⟩
    · split <;> rfl
    · split <;> exact ⟨by decide, by decide⟩
  | env => exact ⟨_, rfl, i.early t _ (by rw [hpc]; rfl) (by rw [hpc]; exact ⟨by decide, by decide⟩) rfl ⟨by decide, by decide⟩ s.made⟩
  | create =>
    simp only
    refine ⟨_, rfl, ?_⟩
    split
    · exact i.early t .assign (by rw [hpc]; rfl) (by rw [hpc]; exact ⟨by decide, by decide⟩) rfl ⟨by decide, by decide⟩ (s.made + 1)
    · exact i.early t .undo (by rw [hpc]; rfl) (by rw [hpc]; exact ⟨by decide, by decide⟩) rfl ⟨by decide, by decide⟩ s.made
  | undo =>
    have h : (s.pc t).inInit = true := by rw [hpc]; rfl
    have hg := i.busy t h
    have hn : s.g ≠ .initiated := by rw [hg]; decide
    have others : ∀ u, u ≠ t → (s.pc u).inInit = false := fun u hu => i.alone h hu
    have hcore : s.core = none := i.before hn fun u => by
      by_cases e : u = t
      · subst e; rw [hpc]; exact ⟨by decide, by decide⟩
      · have := others u e
        constructor <;> (intro e; rw [e] at this; cases this)
    refine ⟨_, rfl, fun u hu => ?_, fun u v hu hv => ?_, fun _ u => ?_, fun _ _ => hcore, fun hu => ?_, ?_, fun c hc => ?_,
      (fun h => by cases h)⟩
    · simp only [ret_pc] at hu
      split at hu
      · cases hu
      · rename_i ne; rw [others u ne] at hu; cases hu
    · simp only [ret_pc] at hu
      split at hu
      · cases hu
      · rename_i ne; rw [others u ne] at hu; cases hu
    · simp only [ret_pc]
      split
      · exact ⟨by decide, by decide⟩
      · exact i.quiet hn u
    · rcases hu with ⟨u, hu⟩ | hu
      · simp only [ret_pc] at hu
        split at hu
        · rcases hu with e | e <;> cases e
        · rename_i ne
          have := others u ne
          rcases hu with e | e <;> (rw [e] at this; cases this)
      · cases hu
    · have := i.ret
      rw [if_neg hn] at this
      simp only [St.ret, starts_append, this, St.go]
      decide
    · simp only [St.ret, List.mem_append, List.mem_singleton] at hc
      rcases hc with hc | hc
      · exact absurd (i.got c hc).1 hn
      · cases hc
  | assign =>
    have h : (s.pc t).inInit = true := by rw [hpc]; rfl
    have hg := i.busy t h
    have hn : s.g ≠ .initiated := by rw [hg]; decide
    have others : ∀ u, u ≠ t → (s.pc u).inInit = false := fun u hu => i.alone h hu
    refine ⟨_, rfl, fun u hu => hg, fun u v hu hv => ?_, fun _ u => ?_, fun _ hu => ?_, fun hu => rfl, ?_, fun c hc => absurd (i.got c hc).1 hn,
      fun _ => ⟨t, by simp only [go_pc, if_pos]; rfl⟩⟩
    · simp only [go_pc] at hu hv
      split at hu <;> split at hv
      · simp_all
      · rename_i ne; rw [others v ne] at hv; cases hv
      · rename_i ne _; rw [others u ne] at hu; cases hu
      · exact i.one u v hu hv
    · simp only [go_pc]
      split
      · exact ⟨by decide, by decide⟩
      · exact i.quiet hn u
    · have := (hu t).1
      simp [go_pc] at this
    · exact i.ret
  | copy =>
    have h : (s.pc t).inInit = true := by rw [hpc]; rfl
    have hg := i.busy t h
    have hn : s.g ≠ .initiated := by rw [hg]; decide
    have hcore := i.late (Or.inl ⟨t, Or.inl hpc⟩)
    have others : ∀ u, u ≠ t → (s.pc u).inInit = false := fun u hu => i.alone h hu
    simp only
    rw [if_neg (by rw [hcore]; simp)]
    refine ⟨_, rfl, fun u hu => hg, fun u v hu hv => ?_, fun _ u => ?_, fun _ hu => ?_, fun hu => hcore, i.ret, fun c hc => absurd (i.got c hc).1 hn,
      fun _ => ⟨t, by simp only [go_pc, if_pos]; rfl⟩⟩
    · simp only [go_pc] at hu hv
      split at hu <;> split at hv
      · simp_all
      · rename_i ne; rw [others v ne] at hv; cases hv
      · rename_i ne _; rw [others u ne] at hu; cases hu
      · exact i.one u v hu hv
    · simp only [go_pc]
      split
      · exact ⟨by decide, by decide⟩
      · exact i.quiet hn u
    · have := (hu t).2
      simp [go_pc] at this
  | finish =>
    have h : (s.pc t).inInit = true := by rw [hpc]; rfl
    have hg := i.busy t h
    have hn : s.g ≠ .initiated := by rw [hg]; decide
    have hcore := i.late (Or.inl ⟨t, Or.inr hpc⟩)
    have others : ∀ u, u ≠ t → (s.pc u).inInit = false := fun u hu => i.alone h hu
    refine ⟨_, rfl, fun u hu => ?_, fun u v hu hv => ?_, fun x => absurd rfl x, fun x => absurd rfl x, fun _ => hcore, ?_,
      fun c hc => ?_, (fun h => by cases h)⟩
    · simp only [ret_pc] at hu
      split at hu
      · cases hu
      · rename_i ne; rw [others u ne] at hu; cases hu
    · simp only [ret_pc] at hu
      split at hu
      · cases hu
      · rename_i ne; rw [others u ne] at hu; cases hu
    · have := i.ret
      rw [if_neg hn] at this
      simp only [St.ret, starts_append, this, St.go]
      decide
    · simp only [St.ret, List.mem_append, List.mem_singleton] at hc
      rcases hc with hc | hc
      · exact absurd (i.got c hc).1 hn
      · cases hc
  | message =>
    have h : (s.pc t).inInit = false := by rw [hpc]; rfl
    have hg : s.g = .initiated := Decidable.byContradiction fun x => (i.quiet x t).1 hpc
    simp only
    refine ⟨_, rfl, ?_⟩
    split
    · have := i.outside t .receive h rfl (fun _ => hg) [] (by simp) (by simp)
      rw [List.append_nil] at this
      exact this
    · exact i.outside t .idle h rfl (by simp) [.parse] (by simp) (by simp)
  | receive =>
    have h : (s.pc t).inInit = false := by rw [hpc]; rfl
    have hg : s.g = .initiated := Decidable.byContradiction fun x => (i.quiet x t).2 hpc
    have hcore := i.late (Or.inr hg)
    simp only [hcore]
    exact ⟨_, rfl, i.outside t .idle h rfl (by simp) [.received s.made] (by simp) (fun c hc => by
      simp only [List.mem_singleton, Ret.received.injEq] at hc
      subst hc
      exact ⟨hg, hcore⟩)⟩

theorem inv_run : ∀ (es : List (Nat × Bool × Bool)) {s : St}, Inv s → ∃ s', run s es = .ok s' ∧ Inv s'
  | [], s, i => ⟨s, rfl, i⟩
  | (t, a, b) :: es, s, i => by
    obtain ⟨s1, e1, i1⟩ := inv_step i t a b
    obtain ⟨s2, e2, i2⟩ := inv_run es i1
    refine ⟨s2, ?_, i2⟩
    rw [run, stepR, if_neg (no_race i), e1, Out.bind_ok, e2]

/-- Many steps, without looking for races: to compute with. -/
def runC : St → List (Nat × Bool × Bool) → Out St
  | s, [] => .ok s
  | s, (t, i, g) :: es => do let s' ← step s t i g; runC s' es

theorem run_eq : ∀ (es : List (Nat × Bool × Bool)) {s : St}, Inv s → run s es = runC s es
  | [], _, _ => rfl
  | (t, a, b) :: es, s, i => by
    obtain ⟨s1, e1, i1⟩ := inv_step i t a b
    rw [run, runC, stepR, if_neg (no_race i), e1, Out.bind_ok, Out.bind_ok, run_eq es i1]

end Svr.Start
