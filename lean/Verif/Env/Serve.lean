import Verif.Env.Log

/-!
# Serving messages off SGX: `enclave/socketmain/socketmain.cc`

On Nitro and SEV-SNP the enclave is a process. It accepts one connection, reads an init message from it, and then has 32 threads
that read messages, hand them to the core, and queue the answers. Framing and the queue are in `Verif.Socket`.
-/

namespace Svr.Serve

/-- What comes of `accept4`: an interruption (`EINTR` or `ECONNABORTED`), another error, or a connection, of which `recv` then
says: an error, the end, or a byte. Descriptors that `accept4` returns are not 0. -/
inductive Came
  | interrupted
  | failed
  | conn (first : Option (Option UInt8))
deriving DecidableEq

/-- The loop of `AcceptSocket` (enclave/socketmain/socketmain.cc:79-103): `none` if it goes on, otherwise which attempt gave the
connection, or an error. After an interruption `*afd` is -1, and `recv` on it fails. Closing the listener and setting options
(104-127) are left out. -/
def accept : List Came → Option (Option Nat)
  | [] => none
  | .failed :: _ => some none
  | .interrupted :: _ => some none
  | .conn none :: _ => some none
  | .conn (some none) :: r =>
    match accept r with
    | none => none
    | some x => some (x.map (· + 1))
  | .conn (some (some b)) :: _ => if b = 'N'.toNat.toUInt8 then some (some 0) else some none

/-- What `ReadPB` gives (shared/proto/socketmain.proto): an error, an init message with a log level, a message that parses, one that does not. -/
inductive In (M : Type)
  | error
  | init (level : Int)
  | msg (id : Nat) (m : M)
  | garbage (id : Nat)

/-- The process. `threads` are those of lines 197-201: `none` is at `ReadPB`. `called` is what the core has been given, `out` what
has been queued: message ids with a status. -/
structure St (M : Type) where
  inbox : List (In M)
  threads : List (Option (Nat × M))
  called : List M
  out : List (Nat × Nat)

/-- A step of thread `t` in `RunServerThread` (enclave/socketmain/socketmain.cc:132-151): it reads a message and calls `Receive`, or
`Receive` has returned `status` and it queues the answer. An error ends the process (199): the object of `LOG(FATAL)` was made
before the thread came to wait for messages, so that the level no longer matters. Answers are small: `SendOutboundMessage`
accepts them. Without a message `ReadPB` waits. -/
def step (s : St M) (t status : Nat) : Out (St M) :=
  match s.threads[t]? with
  | none => .ok s
  | some none =>
    match s.inbox with
    | [] => .ok s
    | .msg id m :: r => .ok { s with inbox := r, threads := s.threads.set t (some (id, m)), called := s.called ++ [m] }
    | _ :: _ => .abort
  | some (some (id, _)) => .ok { s with threads := s.threads.set t none, out := s.out ++ [(id, status)] }

def run : St M → List (Nat × Nat) → Out (St M)
  | s, [] => .ok s
  | s, (t, st) :: es => do let s' ← step s t st; run s' es

/-- `RunServer` after `AcceptSocket` (enclave/socketmain/socketmain.cc:154-206): the first message must be an init message, with which
`Core::Create` succeeds (`good`); otherwise the process ends, with `std::terminate` if not before, since the thread that sends has not been joined. The
call of `RunServerThread` is an operand of `LOG(FATAL)` (199): if the level of the init message is too low for that, the threads end at once. -/
def start (inbox : List (In M)) (good : Bool) : Out (St M) :=
  match inbox with
  | .init level :: r =>
    if good then .ok ⟨r, if Log.fatalLevel ≤ Log.atInit Log.first level then List.replicate 32 none else [], [], []⟩ else .abort
  | _ => .abort

/-! ## Facts -/

/-- What is in progress. -/
def busy (s : St M) : List (Nat × M) := s.threads.filterMap id

theorem filterMap_set_some {l : List (Option α)} {t : Nat} (h : l[t]? = some none) (x : α) :
    ((l.set t (some x)).filterMap id).Perm (x :: l.filterMap id) := by
  induction l generalizing t with
  | nil => simp at h
  | cons a l ih =>
    cases t with
    | zero =>
      simp only [List.getElem?_cons_zero, Option.some.injEq] at h
      subst h
      simp
    | succ t =>
      simp only [List.getElem?_cons_succ] at h
      cases a with
      | none => simpa using ih h
      | some a =>
        simp only [List.set_cons_succ, List.filterMap_cons, id_eq]
        exact ((ih h).cons a).trans (List.Perm.swap x a _)

theorem filterMap_set_none {l : List (Option α)} {t : Nat} {x : α} (h : l[t]? = some (some x)) :
    (l.filterMap id).Perm (x :: (l.set t none).filterMap id) := by
  induction l generalizing t with
  | nil => simp at h
  | cons a l ih =>
    cases t with
    | zero =>
      simp only [List.getElem?_cons_zero, Option.some.injEq] at h
      subst h
      simp
    | succ t =>
      simp only [List.getElem?_cons_succ] at h
      cases a with
      | none => simpa using ih h
      | some a =>
        simp only [List.set_cons_succ, List.filterMap_cons, id_eq]
        exact ((ih h).cons a).trans (List.Perm.swap x a _)

/-- The message in what was read. -/
def In.asMsg : In M → Option (Nat × M)
  | .msg i m => some (i, m)
  | _ => none

/-- What has been read. -/
structure Inv (all : List (In M)) (s : St M) (read : List (Nat × M)) : Prop where
  split : all = read.map (fun x => In.msg x.1 x.2) ++ s.inbox
  called : s.called = read.map (·.2)
  size : s.threads.length ≤ 32
  perm : (read.map (·.1)).Perm (s.out.map (·.1) ++ (busy s).map (·.1))

theorem inv_step {all : List (In M)} {s s' : St M} {read : List (Nat × M)} (i : Inv all s read) {t st : Nat} (h : step s t st = .ok s') :
    ∃ read', Inv all s' read' := by
  obtain ⟨i1, i2, i3, i4⟩ := i
  unfold step at h
  split at h
  · cases h; exact ⟨read, i1, i2, i3, i4⟩
  · rename_i ht
    split at h
    · cases h; exact ⟨read, i1, i2, i3, i4⟩
    · rename_i id m r hi
      cases h
      refine ⟨read ++ [(id, m)], ?_, ?_, ?_, ?_⟩
      · simp [i1, hi]
      · simp [i2]
      · simpa using i3
      · simp only [busy, List.map_append, List.map_cons, List.map_nil]
        refine (i4.append_right _).trans ?_
        rw [List.append_assoc]
        refine List.Perm.append_left _ ?_
        have := (filterMap_set_some ht (id, m)).map (·.1)
        exact List.perm_append_comm.trans this.symm
    · cases h
  · rename_i id m ht
    cases h
    refine ⟨read, i1, i2, by simpa using i3, ?_⟩
    simp only [busy, List.map_append, List.map_cons, List.map_nil]
    rw [List.append_assoc]
    refine i4.trans (List.Perm.append_left _ ?_)
    have := (filterMap_set_none ht).map (·.1)
    simpa [busy] using this

theorem inv_run {all : List (In M)} : ∀ (es : List (Nat × Nat)) {s s' : St M} {read : List (Nat × M)}, Inv all s read → run s es = .ok s' →
    ∃ read', Inv all s' read'
  | [], s, s', read, i, h => by cases h; exact ⟨read, i⟩
  | (t, st) :: es, s, s', read, i, h => by
    obtain ⟨s1, h1, h2⟩ := Out.bind_eq_ok.mp h
    obtain ⟨r1, i1⟩ := inv_step i h1
    exact inv_run es i1 h2

theorem step_abort {s : St M} {t st : Nat} : step s t st = .abort ↔
    s.threads[t]? = some none ∧ ∃ x r, s.inbox = x :: r ∧ x.asMsg = none := by
  unfold step
  split
  · rename_i h; simp [h]
  · rename_i h
    split
    · rename_i e; simp [e]
    · rename_i e; simp [e, In.asMsg]
    · rename_i x r hx e
      simp only [h, true_and, e, List.cons.injEq, true_iff]
      exact ⟨x, r, ⟨rfl, rfl⟩, by cases x <;> first | rfl | exact (hx _ _ _ rfl rfl).elim | exact (hx _ _ rfl).elim⟩
  · rename_i h; simp [h]

theorem step_no_ub (s : St M) (t st : Nat) : step s t st ≠ .ub := by
  unfold step
  split <;> try split
  all_goals simp

end Svr.Serve
