import Verif.Bytes

/-!
# Measuring processor time (`enclave/context/context.cc`)

`Context` keeps a list of `CPUMeasurement`s, linked by `parent_`; each is on the stack of the thread that made it. A clock is
read once when a measurement begins (context.cc:16) and once when it ends (23). Both are `uint64_t`, as are the counters, and
wrap around. `MEASURE_CPU` names a counter, `IGNORE_CPU` none (context.h:83-90). C++ destroys objects of automatic storage in the
reverse order, so that the innermost measurement ends first; `cpu_top_` ends with the `Context`.
-/

namespace Svr.Ticks

/-- A `CPUMeasurement`: `counter_` and `ticks_`. -/
structure Meas where
  counter : Option Nat
  ticks : UInt64
deriving DecidableEq

/-- The measurements of a `Context`, innermost first, and the counters (enclave/metrics/metrics.cc:47-49). -/
structure St where
  stack : List Meas
  counters : Nat → UInt64

/-- `Counter::IncrementBy`, if there is one. -/
def bump (f : Nat → UInt64) (c : Option Nat) (v : UInt64) : Nat → UInt64 :=
  match c with
  | none => f
  | some i => fun j => if j = i then f j + v else f j

/-- `CPUMeasurement::CPUMeasurement` and `SetContext` (enclave/context/context.cc:15-20, 33-44). -/
def enter (s : St) (c : Option Nat) (now : UInt64) : St :=
  match s.stack with
  | [] => { s with stack := [⟨c, now⟩] }
  | p :: r => ⟨⟨c, now⟩ :: p :: r, bump s.counters p.counter (now - p.ticks)⟩

/-- `CPUMeasurement::~CPUMeasurement` (enclave/context/context.cc:22-31). -/
def leave (s : St) (now : UInt64) : St :=
  match s.stack with
  | [] => s
  | m :: r =>
    ⟨match r with | [] => [] | p :: r' => { p with ticks := now } :: r', bump s.counters m.counter (now - m.ticks)⟩

/-- What happens: a measurement begins or ends, at a time. -/
inductive Ev
  | enter (c : Option Nat)
  | leave
deriving DecidableEq

def step (s : St) (e : Ev × UInt64) : St :=
  match e.1 with
  | .enter c => enter s c e.2
  | .leave => leave s e.2

def run : St → List (Ev × UInt64) → St
  | s, [] => s
  | s, e :: es => run (step s e) es

/-! ## Specification -/

/-- Who is being measured: the counters named by the measurements that have begun and not ended, innermost first. -/
def active : List (Option Nat) → List Ev → List (Option Nat)
  | a, [] => a
  | a, .enter c :: es => active (c :: a) es
  | a, .leave :: es => active a.tail es

/-- The time that counter `i` should get: that between one event and the next, if `i` is the innermost one in between. -/
def due (i : Nat) : List (Option Nat) → UInt64 → List (Ev × UInt64) → UInt64
  | _, _, [] => 0
  | a, last, (e, now) :: es =>
    (if a.head? = some (some i) then now - last else 0) + due i (active a [e]) now es

/-! ## Facts -/

/-- The innermost measurement was touched by the last event. -/
def Good (s : St) (a : List (Option Nat)) (last : UInt64) : Prop :=
  s.stack.map (·.counter) = a ∧ ∀ m ∈ s.stack.head?, m.ticks = last

theorem bump_eq (f : Nat → UInt64) (c : Option Nat) (v : UInt64) (i : Nat) : bump f c v i = f i + if c = some i then v else 0 := by
  unfold bump
  cases c with
  | none => simp
  | some k =>
    simp only [Option.some.injEq]
    by_cases h : i = k
    · simp [h]
    · simp [h, Ne.symm h]

theorem step_good {s : St} {a : List (Option Nat)} {last : UInt64} (g : Good s a last) (e : Ev) (now : UInt64) (i : Nat) :
    Good (step s (e, now)) (active a [e]) now ∧
      (step s (e, now)).counters i = s.counters i + if a.head? = some (some i) then now - last else 0 := by
  obtain ⟨g1, g2⟩ := g
  obtain ⟨st, f⟩ := s
  simp only at g1 g2
  subst g1
  cases e with
  | enter c =>
    cases st with
    | nil => simp [step, enter, Good, active]
    | cons p r =>
      have hp : p.ticks = last := g2 p (by simp)
      simp [step, enter, Good, active, bump_eq, hp]
  | leave =>
    cases st with
    | nil => simp [step, leave, Good, active]
    | cons p r =>
      have hp : p.ticks = last := g2 p (by simp)
      cases r with
      | nil => simp [step, leave, Good, active, bump_eq, hp]
      | cons q r => simp [step, leave, Good, active, bump_eq, hp]

theorem run_counters (i : Nat) : ∀ (es : List (Ev × UInt64)) {s : St} {a : List (Option Nat)} {last : UInt64}, Good s a last →
    (run s es).counters i = s.counters i + due i a last es
  | [], _, _, _, _ => by simp [run, due]
  | (e, now) :: es, s, a, last, g => by
    obtain ⟨g', h⟩ := step_good g e now i
    rw [run, run_counters i es g', h, due, UInt64.add_assoc]

end Svr.Ticks
