import Verif.Bytes

/-!
# Model of the queue between threads (enclave/queue/queue.h)

Any number of threads call `Push`, `Pop` and `Flush` of one `Queue<T>`. What a thread does between locking `mu_` and
unlocking it, or waiting, is one step. Waiting unlocks `mu_` and puts the thread to sleep at once, as condition variables do;
a sleeping thread is woken by a notification, by its time-out (`Flush` only), or for no reason. Notifications are steps of
their own, since the code notifies after unlocking.
-/

namespace Svr.Queue

/-- The fields `d_` and `popped_` (enclave/queue/queue.h:45-50); `popped` is `none` while it is indeterminate. -/
structure Q (T : Type) where
  d : List T
  popped : Option UInt64

/-- `Queue::Queue` (enclave/queue/queue.h:17). It does not mention `popped_`, which is zero only in objects with static
storage. -/
def Q.new (T : Type) (isStatic : Bool) : Q T := ⟨[], if isStatic then some 0 else none⟩

/-- What a call returned. -/
inductive Res (T : Type)
  | void
  | got (v : T)
  | flushed (b : Bool)

/-- Where a thread is. -/
inductive Pc (T : Type)
  /-- outside of the queue, with what its last call returned -/
  | out (r : Res T)
  /-- in `Push`, about to lock `mu_` -/
  | push (v : T)
  /-- asleep on `notfull_` in `Push` -/
  | pushWait (v : T)
  /-- in `Push` after unlocking, about to notify -/
  | pushNote
  | pop
  /-- asleep on `full_` -/
  | popWait
  | popNote (v : T)
  | flush
  /-- asleep on `notfull_` in `Flush`; `w` is `wait_for` -/
  | flushWait (w : UInt64)
  /-- woken in `Flush`, by its time-out or not, about to lock `mu_` again -/
  | flushBack (w : UInt64) (late : Bool)

variable {T : Type}

/-- `Queue::Push` from locking to unlocking or sleeping (enclave/queue/queue.h:20-23). -/
def lockPush (max : Nat) (q : Q T) (v : T) : Q T × Pc T :=
  if q.d.length < max then ({ q with d := q.d ++ [v] }, .pushNote) else (q, .pushWait v)

/-- `Queue::Pop` from locking to unlocking or sleeping (enclave/queue/queue.h:28-33). -/
def lockPop (q : Q T) : Out (Q T × Pc T) :=
  match q.d with
  | [] => .ok (q, .popWait)
  | v :: r => match q.popped with
    | none => .ub
    | some n => .ok (⟨r, some (n + 1)⟩, .popNote v)

/-- The predicate of `Queue::Flush` (enclave/queue/queue.h:41) after locking, and what follows. -/
def flushTest (q : Q T) (w : UInt64) (late : Bool) : Out (Pc T) :=
  match q.popped with
  | none => .ub
  | some n => .ok (if n ≥ w then .out (.flushed true) else if late then .out (.flushed false) else .flushWait w)

/-- `Queue::Flush` from locking to returning or sleeping (enclave/queue/queue.h:39-41). -/
def lockFlush (q : Q T) : Out (Pc T) :=
  match q.popped with
  | none => .ub
  | some n => flushTest q (n + UInt64.ofNat q.d.length) false

/-- What a thread that is about to lock `mu_` does. -/
def locked (max : Nat) (q : Q T) : Pc T → Option (Out (Q T × Pc T))
  | .push v => some (.ok (lockPush max q v))
  | .pop => some (lockPop q)
  | .flush => some (do let p ← lockFlush q; .ok (q, p))
  | .flushBack w late => some (do let p ← flushTest q w late; .ok (q, p))
  | _ => none

/-- A thread that sleeps on `notfull_` is woken. -/
def wakeNotFull : Pc T → Pc T
  | .pushWait v => .push v
  | .flushWait w => .flushBack w false
  | p => p

/-- The queue, its threads, and what was put in and taken out by which thread, oldest first. -/
structure St (T : Type) where
  q : Q T
  threads : List (Pc T)
  ins : List (Nat × T)
  outs : List (Nat × T)

/-- Any number of threads that have not called yet. -/
def St.init (T : Type) (isStatic : Bool) (n : Nat) : St T := ⟨Q.new T isStatic, List.replicate n (.out .void), [], []⟩

/-- What the step of thread `i` from `p` to `p'` adds to `ins`. -/
def insOf (i : Nat) : Pc T → Pc T → List (Nat × T)
  | .push v, .pushNote => [(i, v)]
  | _, _ => []

/-- What it adds to `outs`. -/
def outsOf (i : Nat) : Pc T → Pc T → List (Nat × T)
  | .pop, .popNote v => [(i, v)]
  | _, _ => []

/-- One step of a thread that goes on by itself. -/
inductive Run (max : Nat) (s : St T) : Out (St T) → Prop
  /-- a thread locks `mu_` and runs up to unlocking it or sleeping -/
  | lock {a b : List (Pc T)} {p p' : Pc T} {q' : Q T} (h : s.threads = a ++ p :: b)
      (hl : locked max s.q p = some (.ok (q', p'))) :
      Run max s (.ok ⟨q', a ++ p' :: b, s.ins ++ insOf a.length p p', s.outs ++ outsOf a.length p p'⟩)
  /-- the same with undefined behaviour -/
  | bad {a b : List (Pc T)} {p : Pc T} (h : s.threads = a ++ p :: b) (hl : locked max s.q p = some .ub) : Run max s .ub
  /-- `full_.notify_one()` (enclave/queue/queue.h:24) finds nobody asleep -/
  | noteNone {a b : List (Pc T)} (h : s.threads = a ++ .pushNote :: b) (hn : .popWait ∉ a ++ b) :
      Run max s (.ok { s with threads := a ++ .out .void :: b })
  /-- `full_.notify_one()` wakes one of those asleep -/
  | noteOne {a b a' b' : List (Pc T)} (h : s.threads = a ++ .pushNote :: b)
      (hw : a ++ .out .void :: b = a' ++ .popWait :: b') : Run max s (.ok { s with threads := a' ++ .pop :: b' })
  /-- `notfull_.notify_all()` and the return (enclave/queue/queue.h:34-35) -/
  | noteAll {a b : List (Pc T)} {v : T} (h : s.threads = a ++ .popNote v :: b) :
      Run max s (.ok { s with threads := a.map wakeNotFull ++ .out (.got v) :: b.map wakeNotFull })

/-- What comes from outside. -/
inductive Ext (s : St T) : St T → Prop
  /-- a thread calls one of the functions -/
  | call {a b : List (Pc T)} {r : Res T} {p : Pc T} (h : s.threads = a ++ .out r :: b)
      (hp : (∃ v, p = .push v) ∨ p = .pop ∨ p = .flush) : Ext s { s with threads := a ++ p :: b }
  /-- the time is over -/
  | late {a b : List (Pc T)} {w : UInt64} (h : s.threads = a ++ .flushWait w :: b) :
      Ext s { s with threads := a ++ .flushBack w true :: b }
  /-- a thread wakes up for no reason -/
  | wake {a b : List (Pc T)} {p : Pc T} (h : s.threads = a ++ p :: b) :
      Ext s { s with threads := a ++ (match p with | .popWait => .pop | p => wakeNotFull p) :: b }

/-- What can happen next. -/
inductive Next (max : Nat) (s : St T) : Out (St T) → Prop
  | run {o : Out (St T)} (h : Run max s o) : Next max s o
  | ext {s' : St T} (h : Ext s s') : Next max s (.ok s')

/-- The states of a queue of size `max` used by `n` threads. -/
inductive Reach (max : Nat) (isStatic : Bool) (n : Nat) : Out (St T) → Prop
  | init : Reach max isStatic n (.ok (St.init T isStatic n))
  | step {s : St T} {o : Out (St T)} (h : Reach max isStatic n (.ok s)) (hs : Next max s o) : Reach max isStatic n o

end Svr.Queue
