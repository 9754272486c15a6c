/-!
Threads that lock mutexes: the language in which `Locks/Code.lean` writes down what the enclave's functions do with
their mutexes, and how several threads run such programs at the same time.

What the functions compute is left out.  What is kept of each function is: which mutexes it locks and for how
long, which functions it calls meanwhile, which callbacks it stores and which stored callbacks it runs, and what it
does with the one atomic flag that decides whether a mutex is locked.  A branch on anything else is a free choice
(`alt`), a loop runs any number of times (`loop`).
-/

namespace Svr.Locks

/-- The classes of mutexes in the enclave:
`raft` core/internal.h:73, `logTx` core/core.h:293, `e2e` core/core.h:305, `config` core/core.h:241,
`timeout` timeout/timeout.h:56, `peers` (`PeerManager::mu_`) peers/peers.h:260, `peer` (`Peer::mu_`) peers/peers.h:141,
`minimums` minimums/minimums.h:52, `clock` groupclock/groupclock.h:30, `clients` (`ClientManager::mu_`)
client/client.h:84, `client` (`Client::mu_`) client/client.h:54, `cstate` (`DB4::ClientState::mu_`) db/db4.h:57,
`out` (`WriteQueue::mu_`), `wr` and `rd` (`Socket::write_mu_`, `read_mu_`) socketwrap/socket.h:49, 79-80. -/
inductive Cls
  | raft | logTx | e2e | peers | peer | minimums | timeout | config | clients | client | cstate | clock | rd | wr | out
  deriving DecidableEq, Repr

/-- One mutex: its class, and which object of that class it belongs to (0 where there is only one). -/
structure Lock where
  cls : Cls
  inst : Nat := 0
  deriving DecidableEq, Repr

/-- Programs over functions `F` and stored callbacks `A`. -/
inductive Cmd (F A : Type) where
  | skip
  | seq (a b : Cmd F A)
  /-- A branch on something the model leaves out. -/
  | alt (a b : Cmd F A)
  /-- Any number of rounds. -/
  | loop (a : Cmd F A)
  /-- Some number (which peer, which client, ...), chosen freely. -/
  | any (g : Nat → Cmd F A)
  /-- `ACQUIRE_LOCK` (context/context.h:95-105): lock, run, unlock on the way out.  `util::mutex` is a plain
  `std::mutex` (util/mutex.h:17-33), so locking it twice in one thread is undefined; here the thread waits for itself. -/
  | locked (l : Lock) (a : Cmd F A)
  | call (f : F)
  /-- Store a callback in the map of its kind. -/
  | put (x : A)
  /-- Take a stored callback which `p` accepts out of its map and go on with `k`; or find none. -/
  | take (p : A → Bool) (k : A → Cmd F A)
  /-- `flag.load()`. -/
  | load (x : Nat) (set unset : Cmd F A)
  /-- `flag.exchange(true)`, then a branch on the old value. -/
  | exchange (x : Nat) (set unset : Cmd F A)
  /-- Marks the branch of C65's counterexample; runs `a`. -/
  | lost (a : Cmd F A)

/-- What a thread has yet to do. -/
inductive Item (F A : Type) where
  | run (c : Cmd F A)
  /-- Inside `mutex::lock()`, not yet through. -/
  | want (l : Lock) (a : Cmd F A)
  /-- The destructor of a `unique_lock` (util/mutex.h:40). -/
  | rel (l : Lock)

/-- The enclave: what each thread has yet to do, which thread holds each mutex, the stored callbacks, the flags. -/
structure St (F A : Type) where
  stack : Nat → List (Item F A)
  owner : Lock → Option Nat
  pool : List A
  flag : Nat → Bool

/-- Nothing runs, nothing is locked. -/
def St.init {F A : Type} : St F A := ⟨fun _ => [], fun _ => none, [], fun _ => false⟩

/-- A function with one value changed. -/
def upd {α β : Type} [DecidableEq α] (f : α → β) (a : α) (b : β) : α → β := fun x => if x = a then b else f x

section
variable {F A : Type} [DecidableEq A]

/-- What a thread does next when it stands before `c` (with `k` to do after): its new stack, the stored callbacks and
the flags; `n` is the free choice.  `none`: not done in this run (`lost` when `l` is false). -/
def runCmd (body : F → Cmd F A) (l : Bool) (n : Nat) (pool : List A) (flag : Nat → Bool) (c : Cmd F A)
    (k : List (Item F A)) : Option (List (Item F A) × List A × (Nat → Bool)) :=
  match c with
  | .skip => some (k, pool, flag)
  | .seq a b => some (.run a :: .run b :: k, pool, flag)
  | .alt a b => some (.run (if n = 0 then a else b) :: k, pool, flag)
  | .loop a => some (if n = 0 then k else .run a :: .run (.loop a) :: k, pool, flag)
  | .any g => some (.run (g n) :: k, pool, flag)
  | .locked m a => some (.want m a :: k, pool, flag)
  | .call f => some (.run (body f) :: k, pool, flag)
  | .put x => some (k, x :: pool, flag)
  | .take p g =>
    match (pool.filter p)[n]? with
    | none => some (k, pool, flag)
    | some x => some (.run (g x) :: k, pool.erase x, flag)
  | .load x a b => some (.run (if flag x then a else b) :: k, pool, flag)
  | .exchange x a b => some (.run (if flag x then a else b) :: k, pool, upd flag x true)
  | .lost a => if l then some (.run a :: k, pool, flag) else none

/-- One step of thread `t` with free choice `n`.  An idle thread begins one of the `entries`.  A thread inside
`lock()` gets through only if nobody holds the mutex.  `none`: the thread cannot go on. -/
def step (body : F → Cmd F A) (entries : List F) (l : Bool) (s : St F A) (t n : Nat) : Option (St F A) :=
  match s.stack t with
  | [] => (entries[n]?).map fun f => { s with stack := upd s.stack t [.run (.call f)] }
  | .run c :: k =>
    (runCmd body l n s.pool s.flag c k).map fun r => { s with stack := upd s.stack t r.1, pool := r.2.1, flag := r.2.2 }
  | .want m a :: k =>
    if s.owner m = none then
      some { s with stack := upd s.stack t (.run a :: .rel m :: k), owner := upd s.owner m (some t) }
    else none
  | .rel m :: k => some { s with stack := upd s.stack t k, owner := upd s.owner m none }

/-- States reached by any number of steps of any threads. -/
inductive Reach (body : F → Cmd F A) (entries : List F) (l : Bool) : St F A → Prop
  | init : Reach body entries l St.init
  | step {s s' : St F A} (t n : Nat) : Reach body entries l s → step body entries l s t n = some s' →
      Reach body entries l s'

/-- Thread `t` is inside `lock()` of `m`. -/
def St.wants (s : St F A) (t : Nat) (m : Lock) : Prop := ∃ a k, s.stack t = .want m a :: k

/-- Run a schedule: pairs of a thread and its free choice. -/
def exec (body : F → Cmd F A) (entries : List F) (l : Bool) : List (Nat × Nat) → St F A → Option (St F A)
  | [], s => some s
  | (t, n) :: r, s => (step body entries l s t n).bind (exec body entries l r)

end

end Svr.Locks
