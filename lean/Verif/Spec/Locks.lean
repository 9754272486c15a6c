import Mathlib.Logic.Relation

/-!
Specification for C65: waiting for mutexes.

Stated without the model of the code: there are threads, there are mutexes, a thread may be waiting to lock a
mutex, and a mutex may be held by a thread.
-/

namespace Svr.Spec.Locks

variable {T L : Type}

/-- Thread `t` is waiting for thread `u`: it is about to lock a mutex which `u` holds.  Nothing says that `t` and
`u` differ: locking a `std::mutex` one holds already is waiting for oneself. -/
def WaitsFor (wants : T → L → Prop) (holder : L → Option T) (t u : T) : Prop :=
  ∃ l, wants t l ∧ holder l = some u

/-- There is a deadlock: some thread waits for a thread that waits for ... that waits for the first one.  The
circle may consist of one thread only. -/
def Deadlock (wants : T → L → Prop) (holder : L → Option T) : Prop :=
  ∃ t, Relation.TransGen (WaitsFor wants holder) t t

/-- Whoever waits, waits in the end for a thread that can go on: `t` itself can go on, or it waits for a thread
that waits for ... a thread that can. -/
def SomeoneGoesOn (wants : T → L → Prop) (holder : L → Option T) (canGo : T → Prop) (t : T) : Prop :=
  ∃ u, Relation.ReflTransGen (WaitsFor wants holder) t u ∧ canGo u

end Svr.Spec.Locks
