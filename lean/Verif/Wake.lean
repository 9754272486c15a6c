import Verif.Bytes

/-!
# Model of the waiting and waking in `WriteQueue` (enclave/socketwrap/socket.cc)

`Verif.Socket` models which bytes are written; here only their number counts, and what is added are the threads that sleep on
the condition variables `to_write_` and `written_`: the writing thread and any number of threads calling `WritePB`,
`FlushIfAble` and `KillThread`. What a thread does while it has `mu_` is one step, except where the code reads `done_`, which
is written without the lock, and then sleeps. Notifications are steps of their own, as the code notifies without the lock.
A sleeping thread may also wake up for no reason.
-/

namespace Svr.Wake

/-- Where the thread in `WriteQueue::WriteThread` is (enclave/socketwrap/socket.cc:147-202). -/
inductive WPc
  /-- about to notify `written_` -/
  | top
  /-- about to lock `mu_` to get a buffer, first or after being woken -/
  | lock
  /-- has `mu_`, has seen an empty buffer and `done_` false, about to sleep -/
  | doze
  /-- asleep on `to_write_` -/
  | asleep
  /-- in `WriteAll` -/
  | sending
  /-- about to lock `mu_` to clear the buffer -/
  | finish
  /-- returned -/
  | stopped
deriving DecidableEq

/-- Where another thread is. -/
inductive CPc
  | out
  /-- in `WritePB` with a message of `k` bytes, about to lock `mu_` -/
  | write (k : Nat)
  /-- about to notify `to_write_` -/
  | writeNote
  | flush
  /-- asleep on `written_`; `w` is `wait_for_writes` -/
  | flushWait (w : Nat)
  /-- woken, by the time-out or not, about to lock `mu_` again -/
  | flushBack (w : Nat) (late : Bool)
  /-- in `KillThread`, about to store -/
  | kill
  | killNote
deriving DecidableEq

/-- `curr` and `other` are the sizes of `*current_buffer_` and of the other buffer; `done`, `writes` are `done_`, `writes_`. -/
structure St where
  curr : Nat
  other : Nat
  done : Bool
  writes : Nat
  wpc : WPc
  threads : List CPc

/-- `WriteQueue::WriteQueue` (enclave/socketwrap/socket.cc:99-103), a writing thread that starts, and `n` other threads. -/
def St.init (n : Nat) : St := ⟨0, 0, false, 0, .top, List.replicate n .out⟩

/-- A thread that sleeps on `written_` is woken. -/
def wakeFlush : CPc → CPc
  | .flushWait w => .flushBack w false
  | p => p

/-- `to_write_.notify_all()`. -/
def wakeWriter : WPc → WPc
  | .asleep => .lock
  | w => w

/-- The next step of the writing thread (enclave/socketwrap/socket.cc:152-202); `fails` says that `WriteAll` returns an error. The two
buffers change places when the thread takes one, and here their sizes do. -/
def writer (fails : Bool) (s : St) : Option (Out St) :=
  match s.wpc with
  | .top => some (.ok { s with wpc := .lock, threads := s.threads.map wakeFlush })
  | .lock =>
    if s.curr = 0 ∧ s.done = false then some (.ok { s with wpc := .doze })
    else if s.done = true ∧ s.curr = 0 then some (.ok { s with wpc := .stopped })
    else some (do
      Out.check (decide (s.other = 0))
      Out.check (decide (s.curr > 0))
      .ok { s with curr := s.other, other := s.curr, wpc := .sending })
  | .doze => some (.ok { s with wpc := .asleep })
  | .sending => some (.ok { s with wpc := if fails then .stopped else .finish })
  | .finish => some (.ok { s with other := 0, writes := s.writes + 1, wpc := .top })
  | .asleep | .stopped => none

/-- `FlushIfAble`, what it waits for (enclave/socketwrap/socket.cc:211-215). -/
def flushTarget (s : St) : Nat := s.writes + (if s.curr ≠ 0 then 1 else 0) + (if s.other ≠ 0 then 1 else 0)

/-- The predicate of `FlushIfAble` and what follows (enclave/socketwrap/socket.cc:216-219). -/
def flushTest (s : St) (w : Nat) (late : Bool) : CPc := if s.writes ≥ w ∨ late = true then .out else .flushWait w

/-- The next step of another thread: `WritePB` (enclave/socketwrap/socket.cc:113-133), `FlushIfAble` (209-220), `KillThread`
(204-207). Those that need `mu_` wait while the writing thread has it. -/
def client (s : St) (p : CPc) : Option (St × CPc) :=
  match p with
  | .write k => if s.wpc = .doze then none else some ({ s with curr := s.curr + (k + 4) }, .writeNote)
  | .writeNote => some ({ s with wpc := wakeWriter s.wpc }, .out)
  | .flush => if s.wpc = .doze then none else some (s, flushTest s (flushTarget s) false)
  | .flushBack w late => if s.wpc = .doze then none else some (s, flushTest s w late)
  | .kill => some ({ s with done := true }, .killNote)
  | .killNote => some ({ s with wpc := wakeWriter s.wpc }, .out)
  | .out | .flushWait _ => none

/-- A step of a thread that goes on by itself. -/
inductive Run (s : St) : Out St → Prop
  | writer {fails : Bool} {o : Out St} (h : writer fails s = some o) : Run s o
  | client {a b : List CPc} {p p' : CPc} {s' : St} (h : s.threads = a ++ p :: b) (hc : client s p = some (s', p')) :
      Run s (.ok { s' with threads := a ++ p' :: b })

/-- What comes from outside; `killed` says whether `KillThread`, which exists for tests, is called. -/
inductive Ext (killed : Bool) (s : St) : St → Prop
  | call {a b : List CPc} {p : CPc} (h : s.threads = a ++ .out :: b)
      (hp : (∃ k, p = .write k) ∨ p = .flush ∨ (killed = true ∧ p = .kill)) : Ext killed s { s with threads := a ++ p :: b }
  | late {a b : List CPc} {w : Nat} (h : s.threads = a ++ .flushWait w :: b) :
      Ext killed s { s with threads := a ++ .flushBack w true :: b }
  | wake {a b : List CPc} {p : CPc} (h : s.threads = a ++ p :: b) : Ext killed s { s with threads := a ++ wakeFlush p :: b }
  | wakeW : Ext killed s { s with wpc := wakeWriter s.wpc }

inductive Reach (killed : Bool) (n : Nat) : Out St → Prop
  | init : Reach killed n (.ok (St.init n))
  | run {s : St} {o : Out St} (h : Reach killed n (.ok s)) (hs : Run s o) : Reach killed n o
  | ext {s s' : St} (h : Reach killed n (.ok s)) (hs : Ext killed s s') : Reach killed n (.ok s')

end Svr.Wake
