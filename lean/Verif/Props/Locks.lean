import Verif.Locks.Ranks

/-!
C65: threads in the enclave never wait for each other in a circle.

`Reach body entries true` are the states the code can get into, with any number of threads.  In
`Reach body entries false` one thing does not happen: that a push of replicated state fails to be sent, and between
the two looks its callback takes at `sent_response` (core.cc:1331 and 1333) another thread sets that flag.
-/

namespace Svr.Props.Locks

open Svr.Locks Svr.Spec.Locks

/-- Without that race there is no deadlock, whatever messages arrive and however the threads take turns: nobody
waits for a mutex held by someone who waits for ... a mutex held by the first, and nobody for a mutex of their own. -/
theorem C65_no_deadlock_partial {s : St Fn Act} (r : Reach body entries false s) : ¬ Deadlock s.wants s.owner :=
  no_deadlock rank lim (inv_reach rank lim ok_body r)

/-- And every message gets on: a thread that is at work can go on, or waits for one that waits for ... one that
can. -/
theorem C65_someone_goes_on_partial {s : St Fn Act} (r : Reach body entries false s) (t : Nat)
    (h : s.stack t ≠ []) : SomeoneGoesOn s.wants s.owner (canGo body entries true s) t :=
  someone_goes_on rank lim rank_le (inv_reach rank lim ok_body r) h

/-- A thread that is done with its message holds no mutex. -/
theorem C65_nothing_left_locked_partial {s : St Fn Act} (r : Reach body entries false s) (t : Nat)
    (h : s.stack t = []) (m : Lock) : s.owner m ≠ some t := by
  intro ho
  have := ((inv_reach rank lim ok_body r).own t m).mp ho
  rw [h] at this
  cases this

/-- A schedule of one thread. -/
def by' (t : Nat) (l : List Nat) : List (Nat × Nat) := l.map fun n => (t, n)

/-- Thread 0 answers peer 7, which asked for replication: it locks `raft_.mu` and sends the first push, which is
stored as waiting for an answer; it is about to send the second. -/
def first : List (Nat × Nat) :=
  by' 0 [0,0,1,1,1,0,7,0,0,0,1,1,1,0,0,0,0,1,0,0,0,0,0,0,0,1,0,1,0,0,0,0,1,1,0,0,0,0,0,0,0,1,0,0,0,0,0,0,1,0,0,0,0,0,0,0,
    1,0,0,0,0,0,0,0,1,0,0,0,0,0,0,0,0,0,1,0,0,0,0,0,0,0,0,0,0,0,0,0,0,0,0,0,0,0,0,0,0,0,0,0,0,0,0]

/-- Thread 1 resets peer 7 for the host: it takes the stored callback out, disconnects the peer and runs the callback
with an error.  The flag is not set yet. -/
def second : List (Nat × Nat) :=
  by' 1 [0,0,1,1,0,7,0,0,0,0,1,0,0,0,0,0,0,0,0,0,0,0,0,0,0,0,0,0,0,1,0,0,0,0,0,0,0,0,0,0,0,0,1,0,0]

/-- Thread 0 fails to send the second push, the peer being disconnected, and runs its callback at once.  The flag is
not set yet. -/
def third : List (Nat × Nat) :=
  by' 0 [1,0,0,0,0,0,0,0,1,0,0,0,0,0,0,0,0,0,0,0,0,0,0,0,0,0,1,0,0,0,0,0,0,1,0,0,0,0]

/-- Thread 1 sets the flag; thread 0 finds it set, goes past the `else if` and locks `raft_.mu`, which it holds. -/
def race : List (Nat × Nat) := first ++ second ++ third ++ [(1, 0)] ++ by' 0 [0, 0, 0]

/-- What to see at the end of a schedule: is thread `t` inside `lock()` of `m`, and who holds `m`. -/
def sees (l : Bool) (sch : List (Nat × Nat)) (t : Nat) (m : Lock) (u : Nat) : Bool :=
  match exec body entries l sch St.init with
  | none => false
  | some s => (match s.stack t with | .want m' _ :: _ => decide (m' = m) | _ => false) && decide (s.owner m = some u)

theorem sees_spec {l : Bool} {sch : List (Nat × Nat)} {t u : Nat} {m : Lock} (h : sees l sch t m u = true) :
    ∃ s, Reach body entries l s ∧ WaitsFor s.wants s.owner t u := by
  unfold sees at h
  cases e : exec body entries l sch St.init with
  | none => rw [e] at h; cases h
  | some s =>
    rw [e] at h
    simp only [Bool.and_eq_true, decide_eq_true_eq] at h
    refine ⟨s, exec_reach sch .init e, m, ?_, h.2⟩
    have h1 := h.1
    cases e2 : s.stack t with
    | nil => rw [e2] at h1; cases h1
    | cons it k =>
      rw [e2] at h1
      cases it with
      | run c => cases h1
      | rel m' => cases h1
      | want m' a =>
        have : m' = m := by simpa using h1
        subst this
        exact ⟨a, k, e2⟩

/-- With the race there is a deadlock: a thread of the enclave waits for itself, holding `raft_.mu`, without which
nothing more can be done. -/
theorem C65_deadlock_in_replication : ∃ s : St Fn Act, Reach body entries true s ∧ Deadlock s.wants s.owner := by
  obtain ⟨s, r, w⟩ := sees_spec (l := true) (sch := race) (t := 0) (u := 0) (m := ⟨.raft, 0⟩) (by decide +kernel)
  exact ⟨s, r, 0, .single w⟩

/-- Waiting does occur without the race: while thread 0 sends replicated state, thread 1 is told by the host to create
a group, and waits for `raft_.mu`. -/
example : ∃ s : St Fn Act, Reach body entries false s ∧ WaitsFor s.wants s.owner 1 0 ∧ s.stack 1 ≠ [] := by
  obtain ⟨s, r, w⟩ := sees_spec (l := false) (sch := first ++ by' 1 [0, 0, 0, 0, 1, 1, 1, 1, 0, 0, 0])
    (t := 1) (u := 0) (m := ⟨.raft, 0⟩) (by decide +kernel)
  refine ⟨s, r, w, ?_⟩
  obtain ⟨m, ⟨a, k, e⟩, _⟩ := w
  rw [e]
  exact fun h => by cases h

end Svr.Props.Locks
