import Verif.OMap
import Verif.Bytes
import Mathlib.Data.Int.Order.Basic

/-!
# Model of `enclave/timeout/timeout.{h,cc}`

`F` stands for the registered callbacks. Every method holds `mu_` throughout, except that `TimerTick`
runs the callbacks after unlocking: a step is one critical section, the output of a tick is the set of
callbacks it goes on to run. Calls made by those callbacks are later steps.
-/

namespace Svr.Timeout

/-- Largest `util::Ticks` (`int64_t`, enclave/util/ticks.h:12). -/
def I64MAX : Int := 2^63 - 1
/-- Smallest `int64_t`. -/
def I64MIN : Int := -2^63

/-- Signed 64-bit addition: overflow is undefined behaviour. -/
def add64 (a b : Int) : Out Int := if a + b > I64MAX ∨ a + b < I64MIN then .ub else .ok (a + b)

/-- `Cancel` (enclave/timeout/timeout.h:18-26). -/
structure Cancel where
  atTick : Int
  cancelId : Int
deriving DecidableEq

/-- `Timeout` (enclave/timeout/timeout.h:56-60). The two levels of `unordered_map` are ordered maps here;
the order in which the callbacks of one tick run is not specified by the code. -/
structure St (F : Type) where
  ticks : Int
  gen : Int
  timeouts : OMap Int (OMap Int F)

/-- `Timeout::Timeout` (enclave/timeout/timeout.cc:9). -/
def init (F : Type) : St F := ⟨0, 0, OMap.empty⟩

/-- `Timeout::TimerTick` (enclave/timeout/timeout.cc:11-28): the callbacks it runs, with their ids. -/
def timerTick {F : Type} (s : St F) : Out (St F × List (Int × F)) := do
  let t ← add64 s.ticks 1
  match s.timeouts.find t with
  | none => pure ({ s with ticks := t }, [])
  | some ts => pure ({ s with ticks := t, timeouts := s.timeouts.erase t }, ts.list)

/-- `Timeout::SetTimeout` (enclave/timeout/timeout.cc:30-58). -/
def setTimeout {F : Type} (s : St F) (n : Int) (f : F) : Out (St F × Cancel) := do
  let sum ← add64 n s.ticks
  let n' := if sum ≤ s.ticks then 1 else n
  let t ← add64 n' s.ticks
  Out.check (decide (t > s.ticks))
  let g ← add64 s.gen 1
  let inner := match s.timeouts.find t with
    | none => OMap.empty
    | some ts => ts
  pure ({ s with gen := g, timeouts := s.timeouts.insert t (inner.insert g f) }, ⟨t, g⟩)

/-- `Timeout::CancelTimeout` (enclave/timeout/timeout.cc:60-70). -/
def cancelTimeout {F : Type} (s : St F) (tc : Cancel) : St F :=
  match s.timeouts.find tc.atTick with
  | none => s
  | some ts => { s with timeouts := s.timeouts.insert tc.atTick (ts.erase tc.cancelId) }

/-- One critical section. -/
inductive Op (F : Type) where
  | set (n : Int) (f : F)
  | cancel (tc : Cancel)
  | tick

/-- One step; for a tick, also the callbacks run. -/
def step {F : Type} (s : St F) : Op F → Out (St F × Option (List (Int × F)))
  | .set n f => do let (s', _) ← setTimeout s n f; pure (s', none)
  | .cancel tc => pure (cancelTimeout s tc, none)
  | .tick => do let (s', l) ← timerTick s; pure (s', some l)

/-- A sequence of steps; the outputs of its ticks in order. -/
def run {F : Type} : St F → List (Op F) → Out (St F × List (List (Int × F)))
  | s, [] => .ok (s, [])
  | s, o :: os => do
    let (s1, out) ← step s o
    let (s2, outs) ← run s1 os
    pure (s2, out.toList ++ outs)

/-! ### Lemmas -/
variable {F : Type}

/-- The callback stored for tick `t` and id `g`. -/
def look (s : St F) (t g : Int) : Option F := (s.timeouts.find t).bind (fun m => m.find g)

/-- Everything stored is in the future and has an id already given out. -/
def Inv (s : St F) : Prop := ∀ t g f, look s t g = some f → s.ticks < t ∧ g ≤ s.gen

theorem inv_init : Inv (init F) := by intro t g f h; simp [look, init] at h

theorem add64_ok {a b c : Int} (h : add64 a b = .ok c) : c = a + b := by
  unfold add64 at h; split at h
  · cases h
  · cases h; rfl

theorem tick_spec {s s' : St F} {out : List (Int × F)} (h : timerTick s = .ok (s', out)) :
    s'.ticks = s.ticks + 1 ∧ s'.gen = s.gen ∧
    (∀ t g, look s' t g = if t = s.ticks + 1 then none else look s t g) ∧
    (∀ g, out.filter (fun p => p.1 = g) = ((look s (s.ticks + 1) g).map (fun f => (g, f))).toList) := by
  unfold timerTick at h
  cases ha : add64 s.ticks 1 with
  | abort => rw [ha] at h; simp at h
  | ub => rw [ha] at h; simp at h
  | ok t =>
    rw [ha] at h
    have ht := add64_ok ha
    subst ht
    simp only [Out.bind_ok] at h
    cases hf : s.timeouts.find (s.ticks + 1) with
    | none =>
      rw [hf] at h
      simp only [Out.pure_eq, Out.ok.injEq, Prod.mk.injEq] at h
      obtain ⟨rfl, rfl⟩ := h
      refine ⟨rfl, rfl, ?_, ?_⟩
      · intro t g
        split
        · rename_i e; subst e; simp [look, hf]
        · rfl
      · intro g; simp [look, hf]
    | some ts =>
      rw [hf] at h
      simp only [Out.pure_eq, Out.ok.injEq, Prod.mk.injEq] at h
      obtain ⟨rfl, rfl⟩ := h
      refine ⟨rfl, rfl, ?_, ?_⟩
      · intro t g
        simp only [look]
        split
        · rename_i e; subst e; simp
        · rename_i e; rw [OMap.find_erase_ne _ (fun e' => e e'.symm)]
      · intro g
        simp only [look, hf, Option.bind_some]
        exact OMap.filter_key ts g

theorem set_spec {s s' : St F} {n : Int} {f : F} {tc : Cancel} (h : setTimeout s n f = .ok (s', tc)) :
    s'.ticks = s.ticks ∧ s'.gen = s.gen + 1 ∧ tc = ⟨s.ticks + max 1 n, s.gen + 1⟩ ∧
    ∀ t g, look s' t g = if t = tc.atTick ∧ g = tc.cancelId then some f else look s t g := by
  unfold setTimeout at h
  cases h1 : add64 n s.ticks with
  | abort => rw [h1] at h; simp at h
  | ub => rw [h1] at h; simp at h
  | ok sum =>
    rw [h1] at h
    have e1 := add64_ok h1
    simp only [Out.bind_ok] at h
    cases h2 : add64 (if sum ≤ s.ticks then 1 else n) s.ticks with
    | abort => rw [h2] at h; simp at h
    | ub => rw [h2] at h; simp at h
    | ok t =>
      rw [h2] at h
      have e2 : t = s.ticks + max 1 n := by
        have := add64_ok h2
        split at this <;> omega
      simp only [Out.bind_ok] at h
      cases hc : decide (t > s.ticks) with
      | false => rw [hc] at h; simp at h
      | true =>
        rw [hc] at h
        simp only [Out.check_true, Out.bind_ok] at h
        cases h3 : add64 s.gen 1 with
        | abort => rw [h3] at h; simp at h
        | ub => rw [h3] at h; simp at h
        | ok g =>
          rw [h3] at h
          have e3 := add64_ok h3
          simp only [Out.bind_ok, Out.pure_eq, Out.ok.injEq, Prod.mk.injEq] at h
          obtain ⟨rfl, rfl⟩ := h
          refine ⟨rfl, e3, by rw [e2, e3], ?_⟩
          intro t' g'
          simp only [look]
          by_cases ht : t' = t
          · subst ht
            rw [OMap.find_insert_self]
            simp only [Option.bind_some, true_and, OMap.find_insert]
            cases hf : s.timeouts.find t' with
            | none => simp only [OMap.find_empty, Option.bind_none, eq_comm]
            | some ts => simp only [Option.bind_some, eq_comm]
          · rw [OMap.find_insert_ne _ _ (fun e => ht e.symm), if_neg (fun e => ht e.1)]

theorem cancel_spec (s : St F) (tc : Cancel) :
    (cancelTimeout s tc).ticks = s.ticks ∧ (cancelTimeout s tc).gen = s.gen ∧
    ∀ t g, look (cancelTimeout s tc) t g = if t = tc.atTick ∧ g = tc.cancelId then none else look s t g := by
  unfold cancelTimeout
  cases hf : s.timeouts.find tc.atTick with
  | none =>
    refine ⟨rfl, rfl, ?_⟩
    intro t g
    by_cases h : t = tc.atTick ∧ g = tc.cancelId
    · rw [if_pos h]; simp only [look, h.1, hf]; rfl
    · rw [if_neg h]
  | some ts =>
    refine ⟨rfl, rfl, ?_⟩
    intro t g
    simp only [look]
    by_cases ht : t = tc.atTick
    · subst ht
      rw [OMap.find_insert_self, hf]
      simp only [Option.bind_some, true_and, OMap.find_erase, eq_comm]
    · rw [OMap.find_insert_ne _ _ (fun e => ht e.symm), if_neg (fun e => ht e.1)]

theorem step_inv {s s' : St F} {o : Op F} {out} (hi : Inv s) (h : step s o = .ok (s', out)) :
    Inv s' ∧ s.ticks ≤ s'.ticks ∧ s.gen ≤ s'.gen := by
  cases o with
  | set n f =>
    simp only [step] at h
    cases h1 : setTimeout s n f with
    | abort => rw [h1] at h; simp at h
    | ub => rw [h1] at h; simp at h
    | ok q =>
      obtain ⟨s1, tc⟩ := q
      rw [h1] at h
      simp only [Out.bind_ok, Out.pure_eq, Out.ok.injEq, Prod.mk.injEq] at h
      obtain ⟨rfl, _⟩ := h
      obtain ⟨e1, e2, e3, e4⟩ := set_spec h1
      refine ⟨?_, by omega, by omega⟩
      intro t g f' hl
      rw [e4] at hl
      split at hl
      · rename_i he
        rw [he.1, he.2, e3, e1, e2]
        simp only
        omega
      · have := hi t g f' hl
        omega
  | cancel tc =>
    simp only [step, Out.pure_eq, Out.ok.injEq, Prod.mk.injEq] at h
    obtain ⟨rfl, _⟩ := h
    obtain ⟨e1, e2, e3⟩ := cancel_spec s tc
    refine ⟨?_, by omega, by omega⟩
    intro t g f' hl
    rw [e3] at hl
    split at hl
    · cases hl
    · have := hi t g f' hl; omega
  | tick =>
    simp only [step] at h
    cases h1 : timerTick s with
    | abort => rw [h1] at h; simp at h
    | ub => rw [h1] at h; simp at h
    | ok q =>
      obtain ⟨s1, l⟩ := q
      rw [h1] at h
      simp only [Out.bind_ok, Out.pure_eq, Out.ok.injEq, Prod.mk.injEq] at h
      obtain ⟨rfl, _⟩ := h
      obtain ⟨e1, e2, e3, _⟩ := tick_spec h1
      refine ⟨?_, by omega, by omega⟩
      intro t g f' hl
      rw [e3] at hl
      split at hl
      · cases hl
      · have := hi t g f' hl; omega

theorem run_cons {s s' : St F} {o : Op F} {os : List (Op F)} {outs : List (List (Int × F))}
    (h : run s (o :: os) = .ok (s', outs)) :
    ∃ s1 out outs', step s o = .ok (s1, out) ∧ run s1 os = .ok (s', outs') ∧ outs = out.toList ++ outs' := by
  unfold run at h
  cases h1 : step s o with
  | abort => rw [h1] at h; simp at h
  | ub => rw [h1] at h; simp at h
  | ok q =>
    obtain ⟨s1, out⟩ := q
    rw [h1] at h
    simp only [Out.bind_ok] at h
    cases h2 : run s1 os with
    | abort => rw [h2] at h; simp at h
    | ub => rw [h2] at h; simp at h
    | ok q =>
      obtain ⟨s2, outs'⟩ := q
      rw [h2] at h
      simp only [Out.bind_ok, Out.pure_eq, Out.ok.injEq, Prod.mk.injEq] at h
      obtain ⟨rfl, rfl⟩ := h
      exact ⟨s1, out, outs', rfl, h2, rfl⟩

theorem run_inv {s s' : St F} {os : List (Op F)} {outs} (hi : Inv s) (h : run s os = .ok (s', outs)) : Inv s' := by
  induction os generalizing s outs with
  | nil => simp only [run, Out.ok.injEq, Prod.mk.injEq] at h; rw [← h.1]; exact hi
  | cons o os ih =>
    obtain ⟨s1, out, outs', h1, h2, _⟩ := run_cons h
    exact ih (step_inv hi h1).1 h2

theorem run_append {s s' : St F} {a b : List (Op F)} {outs} (h : run s (a ++ b) = .ok (s', outs)) :
    ∃ s1 o1 o2, run s a = .ok (s1, o1) ∧ run s1 b = .ok (s', o2) ∧ outs = o1 ++ o2 := by
  induction a generalizing s outs with
  | nil => exact ⟨s, [], outs, rfl, h, rfl⟩
  | cons x a ih =>
    obtain ⟨s1, out, outs', h1, h2, rfl⟩ := run_cons h
    obtain ⟨s2, o1, o2, h3, h4, rfl⟩ := ih h2
    refine ⟨s2, out.toList ++ o1, o2, ?_, h4, by simp⟩
    simp [run, h1, h3]

/-- Number of ticks in a sequence. -/
def ticksIn (os : List (Op F)) : Nat := os.countP (fun o => match o with | .tick => true | _ => false)

/-- An id not stored and already given out never runs. -/
theorem never {s s' : St F} {os : List (Op F)} {outs} {g : Int} (hg : g ≤ s.gen) (hn : ∀ t, look s t g = none)
    (h : run s os = .ok (s', outs)) : ∀ o ∈ outs, o.filter (fun p => p.1 = g) = [] := by
  induction os generalizing s outs with
  | nil => simp only [run, Out.ok.injEq, Prod.mk.injEq] at h; rw [← h.2]; simp
  | cons x os ih =>
    obtain ⟨s1, out, outs', h1, h2, rfl⟩ := run_cons h
    have key : (∀ t, look s1 t g = none) ∧ g ≤ s1.gen ∧ ∀ o ∈ out.toList, o.filter (fun p => p.1 = g) = [] := by
      cases x with
      | set n f =>
        simp only [step] at h1
        cases h3 : setTimeout s n f with
        | abort => rw [h3] at h1; simp at h1
        | ub => rw [h3] at h1; simp at h1
        | ok q =>
          obtain ⟨s2, tc⟩ := q
          rw [h3] at h1
          simp only [Out.bind_ok, Out.pure_eq, Out.ok.injEq, Prod.mk.injEq] at h1
          obtain ⟨rfl, rfl⟩ := h1
          obtain ⟨e1, e2, e3, e4⟩ := set_spec h3
          refine ⟨?_, by omega, by simp⟩
          intro t
          rw [e4, if_neg]
          · exact hn t
          · rintro ⟨_, hx⟩
            rw [e3] at hx
            simp only at hx
            omega
      | cancel tc =>
        simp only [step, Out.pure_eq, Out.ok.injEq, Prod.mk.injEq] at h1
        obtain ⟨rfl, rfl⟩ := h1
        obtain ⟨e1, e2, e3⟩ := cancel_spec s tc
        refine ⟨?_, by omega, by simp⟩
        intro t
        rw [e3]
        split
        · rfl
        · exact hn t
      | tick =>
        simp only [step] at h1
        cases h3 : timerTick s with
        | abort => rw [h3] at h1; simp at h1
        | ub => rw [h3] at h1; simp at h1
        | ok q =>
          obtain ⟨s2, l⟩ := q
          rw [h3] at h1
          simp only [Out.bind_ok, Out.pure_eq, Out.ok.injEq, Prod.mk.injEq] at h1
          obtain ⟨rfl, rfl⟩ := h1
          obtain ⟨e1, e2, e3, e4⟩ := tick_spec h3
          refine ⟨?_, by omega, ?_⟩
          · intro t
            rw [e3]
            split
            · rfl
            · exact hn t
          · intro o ho
            simp at ho
            subst ho
            rw [e4, hn]; rfl
    obtain ⟨k1, k2, k3⟩ := key
    have := ih k2 k1 h2
    intro o ho
    rcases List.mem_append.mp ho with ho | ho
    · exact k3 o ho
    · exact this o ho

end Svr.Timeout
