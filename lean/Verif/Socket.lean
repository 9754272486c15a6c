import Verif.Bytes

/-!
# `enclave/socketwrap`: framing messages over a byte stream

One `WriteQueue` with its writing thread at one end of a stream, one reader calling `ReadPB` at the other end.
Writers, the writing thread and the reader take turns in any order. A step is a critical section of `mu_`, or one
`send`/`recv` call of the operating system, which may transfer fewer bytes than asked. Interrupted calls (`EINTR`) do
nothing and are left out. Messages are of a type `M`, `ser` and `par` are the protobuf library
(`SerializeWithCachedSizesToArray`, `ParseFromArray`); `IsInitialized` always holds of the proto3 messages in use.
Metrics, capacities of vectors and timing are left out. `read_mu_` and `write_mu_` admit one reader and one writing
thread, which is the situation modelled.
-/

namespace Svr.Socket
variable {M : Type}

/-- `INT32_MAX`. -/
def int32Max : Nat := 2147483647

/-- `util::BigEndian32FromBytes` (enclave/util/endian.h:20-25). -/
def ofBe32 : Bytes → Nat
  | [a, b, c, d] => a.toNat * 2^24 + b.toNat * 2^16 + c.toNat * 2^8 + d.toNat
  | _ => 0

/-- Writing bytes into a vector at a position: outside of it is undefined behaviour. -/
def putAt (buf : Bytes) (pos : Nat) (x : Bytes) : Out Bytes :=
  if pos + x.length ≤ buf.length then .ok (buf.take pos ++ x ++ buf.drop (pos + x.length)) else .ub

/-- Where the writing thread is: waiting for a buffer to send, sending a buffer of which some bytes are sent, or returned. -/
inductive WPhase where
  | idle
  | sending (b : Bool) (pos : Nat)
  | stopped
deriving DecidableEq, Repr

inductive RErr where
  | eof | read | tooBig | parse
deriving DecidableEq, Repr

/-- Where the reader is: in the length, in the body, or returned with an error. -/
inductive RPhase where
  | hdr (pos : Nat)
  | body (size pos : Nat)
  | closed (e : RErr)
deriving DecidableEq, Repr

/-- The two ends and the stream between them. `written` and `sent` record what happened: the messages that `WritePB`
accepted and all bytes given to the stream. -/
structure Sys (M : Type) where
  buf0 : Bytes
  buf1 : Bytes
  cur : Bool
  done : Bool
  wph : WPhase
  writes : Nat
  wire : Bytes
  hbuf : Bytes
  rbuf : Bytes
  rph : RPhase
  delivered : List M
  written : List M
  sent : Bytes
deriving DecidableEq, Repr

/-- `buffers_[b]` -/
def Sys.buf (s : Sys M) (b : Bool) : Bytes := if b then s.buf1 else s.buf0

def Sys.setBuf (s : Sys M) (b : Bool) (x : Bytes) : Sys M := if b then { s with buf1 := x } else { s with buf0 := x }

/-- `WriteQueue::WriteQueue` (enclave/socketwrap/socket.cc:99-103) and a reader about to call `ReadPB`
(`uint32_buf` is zeroed in each call, line 77). -/
def Sys.init : Sys M where
  buf0 := []
  buf1 := []
  cur := true
  done := false
  wph := .idle
  writes := 0
  wire := []
  hbuf := zeros 4
  rbuf := []
  rph := .hdr 0
  delivered := []
  written := []
  sent := []

/-- `WriteQueue::WritePB` (enclave/socketwrap/socket.cc:105-134). The flag tells success. -/
def writePB (ser : M → Bytes) (s : Sys M) (m : M) : Out (Sys M × Bool) :=
  let size := (ser m).length
  if size > int32Max then .ok (s, false) else do
    let start := (s.buf s.cur).length
    let b := s.buf s.cur ++ zeros (size + 4)
    let b ← putAt b start (be32 size)
    let b ← putAt b (start + 4) (ser m)
    Out.check (start + 4 + size == b.length)
    .ok ({ s.setBuf s.cur b with written := s.written ++ [m] }, true)

/-- `WriteQueue::WriteThread`, the first critical section (enclave/socketwrap/socket.cc:155-180): choose a buffer.
Nothing happens while there is nothing to write. -/
def takeBuf (s : Sys M) : Out (Sys M) :=
  match s.wph with
  | .idle =>
    if s.buf s.cur = [] then .ok (if s.done then { s with wph := .stopped } else s) else do
      Out.check (decide ((s.buf (!s.cur)).length = 0))
      Out.check (decide (0 < (s.buf s.cur).length))
      .ok { s with cur := !s.cur, wph := .sending s.cur 0 }
  | _ => .ok s

/-- `Socket::WriteAll`, one `send` of `k` bytes (enclave/socketwrap/socket.cc:47-65). -/
def sendSome (k : Nat) (s : Sys M) : Sys M :=
  match s.wph with
  | .sending b pos =>
    let x := ((s.buf b).drop pos).take k
    { s with wire := s.wire ++ x, sent := s.sent ++ x, wph := .sending b (pos + x.length) }
  | _ => s

/-- `Socket::WriteAll` fails (enclave/socketwrap/socket.cc:51-58, 182). -/
def sendErr (s : Sys M) : Sys M :=
  match s.wph with
  | .sending _ _ => { s with wph := .stopped }
  | _ => s

/-- `WriteQueue::WriteThread`, the second critical section, after all is sent (enclave/socketwrap/socket.cc:186-202). -/
def clearBuf (s : Sys M) : Sys M :=
  match s.wph with
  | .sending b pos =>
    if pos < (s.buf b).length then s else { s.setBuf b [] with wph := .idle, writes := s.writes + 1 }
  | _ => s

/-- `WriteQueue::KillThread` (enclave/socketwrap/socket.cc:204-207). -/
def kill (s : Sys M) : Sys M := { s with done := true }

/-- `Socket::ReadPB`, after all of the body is read (enclave/socketwrap/socket.cc:90-96); the reader then calls it again. -/
def endBody (par : Bytes → Option M) (s : Sys M) (size : Nat) : Out (Sys M) :=
  if s.rbuf.length < size then .ub else
  match par (s.rbuf.take size) with
  | none => .ok { s with rph := .closed .parse }
  | some m => .ok { s with rph := .hdr 0, hbuf := zeros 4, delivered := s.delivered ++ [m] }

/-- `Socket::ReadPB`, after all of the length is read (enclave/socketwrap/socket.cc:79-87). -/
def endHdr (par : Bytes → Option M) (s : Sys M) : Out (Sys M) :=
  let size := ofBe32 s.hbuf
  if size > int32Max then .ok { s with rph := .closed .tooBig } else
  let s := { s with rbuf := if s.rbuf.length < size then s.rbuf ++ zeros (size - s.rbuf.length) else s.rbuf }
  if size = 0 then endBody par s size else .ok { s with rph := .body size 0 }

/-- `Socket::ReadAll`, one `recv` that gives `k` bytes, or all that is asked for or there
(enclave/socketwrap/socket.cc:24-45); `recv` waits while there is nothing. -/
def recvSome (par : Bytes → Option M) (k : Nat) (s : Sys M) : Out (Sys M) :=
  match s.rph with
  | .hdr pos => do
    let x := s.wire.take (min k (4 - pos))
    let h ← putAt s.hbuf pos x
    let s := { s with wire := s.wire.drop x.length, hbuf := h, rph := .hdr (pos + x.length) }
    if pos + x.length = 4 then endHdr par s else .ok s
  | .body size pos => do
    let x := s.wire.take (min k (size - pos))
    let r ← putAt s.rbuf pos x
    let s := { s with wire := s.wire.drop x.length, rbuf := r, rph := .body size (pos + x.length) }
    if pos + x.length = size then endBody par s size else .ok s
  | .closed _ => .ok s

/-- `recv` fails or finds the end of the stream (enclave/socketwrap/socket.cc:28-38). -/
def recvErr (e : RErr) (s : Sys M) : Sys M :=
  match s.rph with
  | .closed _ => s
  | _ => { s with rph := .closed e }

/-- What can happen. -/
inductive Ev (M : Type) where
  | write (m : M)
  | take
  | send (k : Nat)
  | sendErr
  | clear
  | kill
  | recv (k : Nat)
  | recvErr (eof : Bool)

def step (ser : M → Bytes) (par : Bytes → Option M) (s : Sys M) : Ev M → Out (Sys M)
  | .write m => do .ok (← writePB ser s m).1
  | .take => takeBuf s
  | .send k => .ok (sendSome k s)
  | .sendErr => .ok (sendErr s)
  | .clear => .ok (clearBuf s)
  | .kill => .ok (kill s)
  | .recv k => recvSome par k s
  | .recvErr eof => .ok (recvErr (if eof then .eof else .read) s)

def run (ser : M → Bytes) (par : Bytes → Option M) : Sys M → List (Ev M) → Out (Sys M)
  | s, [] => .ok s
  | s, e :: es => do run ser par (← step ser par s e) es

/-- `WriteQueue::FlushIfAble` (enclave/socketwrap/socket.cc:209-220): the number of writes it waits for. `writes_` is a
`uint64_t`, taken not to wrap. -/
def flushTarget (s : Sys M) : Nat :=
  s.writes + (if 0 < (s.buf s.cur).length then 1 else 0) + (if 0 < (s.buf (!s.cur)).length then 1 else 0)

/-! ## Facts -/

theorem ofBe32_be32 {n : Nat} (h : n < 2^32) : ofBe32 (be32 n) = n := by
  simp only [be32, ofBe32, UInt8.toNat_ofNat']
  omega

theorem putAt_ok {buf x : Bytes} {pos : Nat} (h : pos + x.length ≤ buf.length) :
    putAt buf pos x = .ok (buf.take pos ++ x ++ buf.drop (pos + x.length)) := if_pos h

/-- A message on the wire. -/
def frame (ser : M → Bytes) (m : M) : Bytes := be32 (ser m).length ++ ser m

def frames (ser : M → Bytes) (ms : List M) : Bytes := ms.flatMap (frame ser)

theorem frames_append (ser : M → Bytes) (a b : List M) : frames ser (a ++ b) = frames ser a ++ frames ser b := by simp [frames]

theorem writePB_eq (ser : M → Bytes) (s : Sys M) (m : M) : writePB ser s m =
    if (ser m).length > int32Max then .ok (s, false)
    else .ok ({ s.setBuf s.cur (s.buf s.cur ++ frame ser m) with written := s.written ++ [m] }, true) := by
  unfold writePB
  simp only
  split
  · rfl
  · have e1 : putAt (s.buf s.cur ++ zeros ((ser m).length + 4)) (s.buf s.cur).length (be32 (ser m).length) =
        .ok (s.buf s.cur ++ be32 (ser m).length ++ zeros (ser m).length) := by
      rw [putAt_ok (by simp [zeros, be32_length]), List.take_left, List.drop_append]
      rw [List.drop_eq_nil_of_le (by omega), List.nil_append, be32_length]
      congr 1
      congr 1
      rw [show (s.buf s.cur).length + 4 - (s.buf s.cur).length = 4 by omega]
      simp [zeros]
    rw [e1, Out.bind_ok]
    have e2 : putAt (s.buf s.cur ++ be32 (ser m).length ++ zeros (ser m).length) ((s.buf s.cur).length + 4) (ser m) =
        .ok (s.buf s.cur ++ frame ser m) := by
      have hl : (s.buf s.cur).length + 4 = (s.buf s.cur ++ be32 (ser m).length).length := by simp [be32_length]
      rw [putAt_ok (by simp [zeros, be32_length]; omega), hl, List.take_left, List.drop_eq_nil_of_le (by simp [zeros, be32_length]; omega)]
      simp [frame]
    rw [e2, Out.bind_ok]
    have e3 : ((s.buf s.cur).length + 4 + (ser m).length == (s.buf s.cur ++ frame ser m).length) = true := by
      simp [frame, be32_length]; omega
    rw [e3]
    rfl

@[simp] theorem setBuf_buf (s : Sys M) (b : Bool) (x : Bytes) : (s.setBuf b x).buf b = x := by cases b <;> rfl
@[simp] theorem setBuf_other (s : Sys M) (b : Bool) (x : Bytes) : (s.setBuf b x).buf (!b) = s.buf (!b) := by cases b <;> rfl
@[simp] theorem setBuf_other' (s : Sys M) (b : Bool) (x : Bytes) : (s.setBuf (!b) x).buf b = s.buf b := by cases b <;> rfl

/-- The bytes in the buffers that are still to be sent, in the order in which they will be. -/
def rest (s : Sys M) : Bytes :=
  match s.wph with
  | .sending b pos => (s.buf b).drop pos
  | _ => []

/-- Bytes that the reader took for the message it is reading. -/
def partialMsg (s : Sys M) : Bytes :=
  match s.rph with
  | .hdr pos => s.hbuf.take pos
  | .body size pos => be32 size ++ s.rbuf.take pos
  | .closed _ => []

def isClosed (s : Sys M) : Bool := match s.rph with | .closed _ => true | _ => false

/-- The invariant: no byte is lost or out of order. -/
structure Inv (ser : M → Bytes) (s : Sys M) : Prop where
  fits : ∀ m ∈ s.written, (ser m).length ≤ int32Max
  wr : s.wph ≠ .stopped → frames ser s.written = s.sent ++ rest s ++ s.buf s.cur
  wr' : ∃ t, frames ser s.written = s.sent ++ t
  idle : s.wph = .idle → s.buf (!s.cur) = []
  snd : ∀ b pos, s.wph = .sending b pos → b = !s.cur ∧ pos ≤ (s.buf b).length ∧ s.buf b ≠ []
  rd : ∃ u, s.sent = frames ser s.delivered ++ u ∧ (isClosed s = false → u = partialMsg s ++ s.wire)
  dl : s.delivered <+: s.written
  hd : ∀ pos, s.rph = .hdr pos → pos ≤ 4 ∧ s.hbuf.length = 4
  bd : ∀ size pos, s.rph = .body size pos → pos ≤ size ∧ size ≤ s.rbuf.length ∧ size ≤ int32Max
  err : ∀ e, s.rph = .closed e → e = .eof ∨ e = .read

theorem Inv.init {ser : M → Bytes} : Inv ser (Sys.init : Sys M) := by
  refine ⟨by simp [Sys.init], fun _ => rfl, ⟨[], rfl⟩, fun _ => rfl, ?_, ⟨[], rfl, fun _ => rfl⟩, List.prefix_refl _, ?_, ?_, ?_⟩
  · intro b pos h; cases h
  · intro pos h; cases h; exact ⟨by decide, rfl⟩
  · intro a b h; cases h
  · intro e h; cases h

/-- The next message on the wire is the next one written. -/
theorem next_msg {ser : M → Bytes} {s : Sys M} (hi : Inv ser s) {x : Bytes} (hx : x ≠ [])
    (h : ∃ t, frames ser s.written = frames ser s.delivered ++ (x ++ t)) :
    ∃ m more, s.written = s.delivered ++ m :: more ∧ ∃ t, frame ser m ++ frames ser more = x ++ t := by
  obtain ⟨more, hm⟩ := hi.dl
  obtain ⟨t, ht⟩ := h
  rw [← hm, frames_append] at ht
  have ht := List.append_cancel_left ht
  match more, hm, ht with
  | [], _, ht => exact absurd (List.append_eq_nil_iff.mp ht.symm).1 hx
  | m :: more, hm, ht => exact ⟨m, more, hm.symm, t, by rw [← ht]; rfl⟩

/-- The steps of the writers keep the invariant. -/
theorem Inv.write {ser : M → Bytes} {s : Sys M} (hi : Inv ser s) (m : M) : ∃ s' ok, writePB ser s m = .ok (s', ok) ∧ Inv ser s' := by
  rw [writePB_eq]
  split
  · exact ⟨_, _, rfl, hi⟩
  · rename_i hf
    refine ⟨_, _, rfl, ?_⟩
    obtain ⟨s', hs'⟩ : ∃ s' : Sys M, s' = { s.setBuf s.cur (s.buf s.cur ++ frame ser m) with written := s.written ++ [m] } := ⟨_, rfl⟩
    rw [← hs']
    have h0 : s'.buf s.cur = s.buf s.cur ++ frame ser m := by
      rw [hs']; exact setBuf_buf s s.cur _
    have h0' : s'.buf (!s.cur) = s.buf (!s.cur) := by rw [hs']; exact setBuf_other s s.cur _
    obtain ⟨h1, h2, h3, h4, h5, h6, h7, h8⟩ : s'.wph = s.wph ∧ s'.sent = s.sent ∧ s'.cur = s.cur ∧ s'.rph = s.rph ∧ s'.hbuf = s.hbuf ∧
        s'.rbuf = s.rbuf ∧ s'.delivered = s.delivered ∧ s'.wire = s.wire := by
      rw [hs']; unfold Sys.setBuf; cases s.cur <;> exact ⟨rfl, rfl, rfl, rfl, rfl, rfl, rfl, rfl⟩
    have h9 : s'.written = s.written ++ [m] := by rw [hs']
    have hrest : rest s' = rest s := by
      unfold rest
      rw [h1]
      cases hw : s.wph with
      | sending b pos =>
        obtain ⟨rfl, _⟩ := hi.snd b pos hw
        simp only [h0']
      | idle => rfl
      | stopped => rfl
    have hpart : partialMsg s' = partialMsg s := by
      unfold partialMsg; rw [h4, h5, h6]
    have hclosed : isClosed s' = isClosed s := by
      unfold isClosed; rw [h4]
    clear hs'
    refine ⟨?_, ?_, ?_, ?_, ?_, ?_, ?_, ?_, ?_, ?_⟩
    · intro x hx
      rw [h9] at hx
      rcases List.mem_append.mp hx with e | e
      · exact hi.fits x e
      · rw [List.mem_singleton.mp e]; omega
    · intro hw
      rw [h1] at hw
      rw [hrest, h2, h3, h0, h9, frames_append, hi.wr hw]
      simp [frames]
    · obtain ⟨t, ht⟩ := hi.wr'
      exact ⟨t ++ frame ser m, by rw [h2, h9, frames_append, ht]; simp [frames]⟩
    · intro hw
      rw [h1] at hw
      rw [h3, h0']
      exact hi.idle hw
    · intro b pos hw
      rw [h1] at hw
      obtain ⟨rfl, b2⟩ := hi.snd b pos hw
      rw [h3, h0']
      exact ⟨rfl, b2⟩
    · rw [hpart, hclosed, h2, h7, h8]
      exact hi.rd
    · rw [h7, h9]
      exact hi.dl.trans (List.prefix_append _ _)
    · rw [h4, h5]; exact hi.hd
    · rw [h4, h6]; exact hi.bd
    · rw [h4]; exact hi.err

theorem Inv.take {ser : M → Bytes} {s : Sys M} (hi : Inv ser s) : ∃ s', takeBuf s = .ok s' ∧ Inv ser s' := by
  unfold takeBuf
  cases hw : s.wph with
  | idle =>
    simp only
    split
    · split
      · refine ⟨_, rfl, hi.fits, fun h => absurd rfl h, hi.wr', ?_, ?_, hi.rd, hi.dl, hi.hd, hi.bd, hi.err⟩
        · intro h; cases h
        · intro b pos h; cases h
      · exact ⟨_, rfl, hi⟩
    · rename_i hne
      have h0 := hi.idle hw
      have hl : 0 < (s.buf s.cur).length := List.length_pos_of_ne_nil hne
      rw [h0]
      simp only [List.length_nil, hl, decide_true, Out.check_true, Out.bind_ok]
      refine ⟨_, rfl, hi.fits, ?_, hi.wr', ?_, ?_, hi.rd, hi.dl, hi.hd, hi.bd, hi.err⟩
      · intro _
        have := hi.wr (by rw [hw]; simp)
        unfold rest at this ⊢
        rw [hw] at this
        simp only at this ⊢
        rw [List.append_nil] at this
        rw [this]
        change _ = s.sent ++ List.drop 0 (s.buf s.cur) ++ s.buf (!s.cur)
        rw [h0]; simp
      · intro h; cases h
      · intro b pos h
        cases h
        exact ⟨by simp, Nat.zero_le _, hne⟩
  | sending b pos => exact ⟨_, rfl, hi⟩
  | stopped => exact ⟨_, rfl, hi⟩

theorem Inv.sendSome {ser : M → Bytes} {s : Sys M} (hi : Inv ser s) (k : Nat) : Inv ser (sendSome k s) := by
  unfold Socket.sendSome
  cases hw : s.wph with
  | idle => exact hi
  | stopped => exact hi
  | sending b pos =>
    obtain ⟨h1, h2, h3⟩ := hi.snd b pos hw
    have hwr := hi.wr (by rw [hw]; simp)
    unfold rest at hwr
    rw [hw] at hwr
    simp only at hwr ⊢
    have hsplit : (s.buf b).drop pos = ((s.buf b).drop pos).take k ++ ((s.buf b).drop (pos + (((s.buf b).drop pos).take k).length)) := by
      rw [← List.drop_drop]
      conv_lhs => rw [← List.take_append_drop k ((s.buf b).drop pos)]
      congr 1
      rw [List.length_take]
      by_cases hk : k ≤ ((s.buf b).drop pos).length
      · rw [Nat.min_eq_left hk]
      · rw [List.drop_eq_nil_of_le (by omega), List.drop_eq_nil_of_le (by omega)]
    have hle : pos + (((s.buf b).drop pos).take k).length ≤ (s.buf b).length := by
      rw [List.length_take, List.length_drop]; omega
    generalize hx : ((s.buf b).drop pos).take k = x at *
    refine ⟨hi.fits, ?_, ?_, ?_, ?_, ?_, hi.dl, hi.hd, hi.bd, hi.err⟩
    · intro _
      unfold rest
      simp only
      change frames ser s.written = s.sent ++ x ++ (s.buf b).drop (pos + x.length) ++ s.buf s.cur
      rw [hwr, hsplit]
      simp only [List.append_assoc]
    · refine ⟨(s.buf b).drop (pos + x.length) ++ s.buf s.cur, ?_⟩
      simp only
      rw [hwr, hsplit]
      simp only [List.append_assoc]
    · intro h; cases h
    · intro b' pos' h
      cases h
      exact ⟨h1, hle, h3⟩
    · obtain ⟨u, hu1, hu2⟩ := hi.rd
      refine ⟨u ++ x, ?_, ?_⟩
      · simp only
        rw [hu1, List.append_assoc]
      · intro hc
        rw [hu2 hc]
        change partialMsg s ++ s.wire ++ x = partialMsg s ++ (s.wire ++ x)
        rw [List.append_assoc]

theorem Inv.sendErr {ser : M → Bytes} {s : Sys M} (hi : Inv ser s) : Inv ser (sendErr s) := by
  unfold Socket.sendErr
  split
  · refine ⟨hi.fits, fun h => absurd rfl h, hi.wr', ?_, ?_, hi.rd, hi.dl, hi.hd, hi.bd, hi.err⟩
    · intro h; cases h
    · intro b pos h; cases h
  · exact hi

theorem Inv.clear {ser : M → Bytes} {s : Sys M} (hi : Inv ser s) : Inv ser (clearBuf s) := by
  unfold clearBuf
  cases hw : s.wph with
  | idle => exact hi
  | stopped => exact hi
  | sending b pos =>
    simp only
    split
    · exact hi
    · rename_i hp
      obtain ⟨rfl, h2, h3⟩ := hi.snd b pos hw
      have hwr := hi.wr (by rw [hw]; simp)
      unfold rest at hwr
      rw [hw] at hwr
      simp only at hwr
      rw [List.drop_eq_nil_of_le (by omega), List.append_nil] at hwr
      have hst : (s.setBuf (!s.cur) []).sent = s.sent ∧ (s.setBuf (!s.cur) []).cur = s.cur ∧
        (s.setBuf (!s.cur) []).rph = s.rph ∧ (s.setBuf (!s.cur) []).hbuf = s.hbuf ∧ (s.setBuf (!s.cur) []).rbuf = s.rbuf ∧
        (s.setBuf (!s.cur) []).delivered = s.delivered ∧ (s.setBuf (!s.cur) []).wire = s.wire ∧
        (s.setBuf (!s.cur) []).written = s.written := by
        unfold Sys.setBuf; cases s.cur <;> exact ⟨rfl, rfl, rfl, rfl, rfl, rfl, rfl, rfl⟩
      obtain ⟨g1, g2, g3, g4, g5, g6, g7, g8⟩ := hst
      refine ⟨by simpa only [g8] using hi.fits, ?_, by simpa only [g8, g1] using hi.wr', ?_, ?_, ?_, by simpa only [g8, g6] using hi.dl,
        by simpa only [g3, g4] using hi.hd, by simpa only [g3, g5] using hi.bd, by simpa only [g3] using hi.err⟩
      · intro _
        simp only [g8, g1, g2]
        change frames ser s.written = s.sent ++ [] ++ (s.setBuf (!s.cur) []).buf s.cur
        rw [setBuf_other', List.append_nil, hwr]
      · intro _
        simp only [g2]
        change (s.setBuf (!s.cur) []).buf (!s.cur) = []
        rw [setBuf_buf]
      · intro b pos h; cases h
      · obtain ⟨u, hu1, hu2⟩ := hi.rd
        refine ⟨u, by simpa only [g1, g6] using hu1, ?_⟩
        intro hc
        unfold isClosed at hc hu2
        unfold partialMsg at hu2 ⊢
        simp only [g3, g4, g5, g7] at hc ⊢
        exact hu2 hc

theorem Inv.recvErr {ser : M → Bytes} {s : Sys M} (hi : Inv ser s) {e : RErr} (he : e = .eof ∨ e = .read) : Inv ser (recvErr e s) := by
  have key : Inv ser { s with rph := .closed e } := by
    refine ⟨hi.fits, hi.wr, hi.wr', hi.idle, hi.snd, ?_, hi.dl, ?_, ?_, ?_⟩
    · obtain ⟨u, h1, _⟩ := hi.rd
      exact ⟨u, h1, fun h => by cases h⟩
    · intro pos h; cases h
    · intro a b h; cases h
    · intro e' h; cases h; exact he
  unfold Socket.recvErr
  split
  · exact hi
  · exact key

/-- What the reader has so far, and what is still to come. -/
theorem Inv.ahead {ser : M → Bytes} {s : Sys M} (hi : Inv ser s) (hc : isClosed s = false) :
    ∃ t, frames ser s.written = frames ser s.delivered ++ (partialMsg s ++ t) := by
  obtain ⟨t, ht⟩ := hi.wr'
  obtain ⟨u, h1, h2⟩ := hi.rd
  rw [h2 hc] at h1
  exact ⟨s.wire ++ t, by rw [ht, h1]; simp only [List.append_assoc]⟩

/-- A complete length is the length of the next message. -/
theorem next_hdr {ser : M → Bytes} {s : Sys M} (hi : Inv ser s) (hc : isClosed s = false) {h x : Bytes} (hl : h.length = 4)
    (hp : partialMsg s = h ++ x) :
    ∃ m more, s.written = s.delivered ++ m :: more ∧ h = be32 (ser m).length ∧ (ser m).length ≤ int32Max ∧
      ∃ t, ser m ++ frames ser more = x ++ t := by
  obtain ⟨t, ht⟩ := hi.ahead hc
  rw [hp] at ht
  obtain ⟨m, more, h1, t', h2⟩ := next_msg hi (x := h ++ x) (by intro e; rw [(List.append_eq_nil_iff.mp e).1] at hl; cases hl) ⟨t, ht⟩
  unfold frame at h2
  rw [List.append_assoc, List.append_assoc] at h2
  obtain ⟨e1, e2⟩ := List.append_inj h2 (by simp [be32_length, hl])
  exact ⟨m, more, h1, e1.symm, hi.fits m (by rw [h1]; simp), t', e2⟩

theorem Inv.endBody {ser : M → Bytes} {par : Bytes → Option M} (hsp : ∀ m, par (ser m) = some m) {s : Sys M} (hi : Inv ser s) {size : Nat}
    (hr : s.rph = .body size size) : ∃ s', endBody par s size = .ok s' ∧ Inv ser s' := by
  have hc : isClosed s = false := by unfold isClosed; rw [hr]
  obtain ⟨_, hb1, hb2⟩ := hi.bd size size hr
  have hp : partialMsg s = be32 size ++ s.rbuf.take size := by unfold partialMsg; rw [hr]
  obtain ⟨m, more, h1, h2, h3, t, h4⟩ := next_hdr hi hc (be32_length size) hp
  have hsz : size = (ser m).length := be32_inj (by unfold int32Max at hb2; omega) (by unfold int32Max at h3; omega) h2
  obtain ⟨e1, _⟩ := List.append_inj h4 (by rw [List.length_take]; omega)
  unfold Socket.endBody
  rw [if_neg (by omega), ← e1, hsp]
  refine ⟨_, rfl, hi.fits, hi.wr, hi.wr', hi.idle, hi.snd, ?_, ⟨more, by rw [h1]; simp⟩, ?_, ?_, ?_⟩
  · obtain ⟨u, hu1, hu2⟩ := hi.rd
    refine ⟨s.wire, ?_, fun _ => ?_⟩
    · simp only
      rw [hu1, hu2 hc, hp, ← e1, frames_append, hsz]
      simp [frames, frame]
    · unfold partialMsg; simp
  · intro pos h
    cases h
    exact ⟨by omega, rfl⟩
  · intro a b h; cases h
  · intro e h; cases h

theorem Inv.endHdr {ser : M → Bytes} {par : Bytes → Option M} (hsp : ∀ m, par (ser m) = some m) {s : Sys M} (hi : Inv ser s)
    (hr : s.rph = .hdr 4) : ∃ s', endHdr par s = .ok s' ∧ Inv ser s' := by
  have hc : isClosed s = false := by unfold isClosed; rw [hr]
  obtain ⟨_, hb1⟩ := hi.hd 4 hr
  have hp : partialMsg s = s.hbuf ++ [] := by unfold partialMsg; rw [hr]; simp [← hb1]
  obtain ⟨m, more, h1, h2, h3, t, h4⟩ := next_hdr hi hc hb1 hp
  have hsz : ofBe32 s.hbuf = (ser m).length := by rw [h2, ofBe32_be32 (by unfold int32Max at h3; omega)]
  unfold Socket.endHdr
  simp only [hsz]
  rw [if_neg (by omega)]
  generalize hR : (if s.rbuf.length < (ser m).length then s.rbuf ++ zeros ((ser m).length - s.rbuf.length) else s.rbuf) = R
  have hRl : (ser m).length ≤ R.length := by
    rw [← hR]; split
    · simp [zeros]; omega
    · omega
  have key : Inv ser { s with rbuf := R, rph := .body (ser m).length 0 } := by
    refine ⟨hi.fits, hi.wr, hi.wr', hi.idle, hi.snd, ?_, hi.dl, ?_, ?_, ?_⟩
    · obtain ⟨u, hu1, hu2⟩ := hi.rd
      refine ⟨u, hu1, fun _ => ?_⟩
      rw [hu2 hc, hp, h2]
      unfold partialMsg
      simp
    · intro pos h; cases h
    · intro a b h
      cases h
      exact ⟨Nat.zero_le _, hRl, h3⟩
    · intro e h; cases h
  split
  · rename_i h0
    have := Inv.endBody hsp key (size := (ser m).length) (by simp only [h0])
    unfold Socket.endBody at this ⊢
    simp only [h0] at this ⊢
    exact this
  · exact ⟨_, rfl, key⟩

theorem recv_split {w x : Bytes} {k : Nat} (hx : x = w.take k) : w = x ++ w.drop x.length := by
  subst hx
  conv_lhs => rw [← List.take_append_drop k w]
  congr 1
  rw [List.length_take]
  by_cases hk : k ≤ w.length
  · rw [Nat.min_eq_left hk]
  · rw [List.drop_eq_nil_of_le (by omega), List.drop_eq_nil_of_le (by omega)]

theorem put_take {buf x : Bytes} {pos : Nat} (h : pos + x.length ≤ buf.length) :
    (buf.take pos ++ x ++ buf.drop (pos + x.length)).take (pos + x.length) = buf.take pos ++ x := by
  have : pos + x.length = (buf.take pos ++ x).length := by simp; omega
  rw [this, List.take_left]

theorem put_len {buf x : Bytes} {pos : Nat} (h : pos + x.length ≤ buf.length) :
    (buf.take pos ++ x ++ buf.drop (pos + x.length)).length = buf.length := by
  simp; omega

theorem Inv.recvSome {ser : M → Bytes} {par : Bytes → Option M} (hsp : ∀ m, par (ser m) = some m) {s : Sys M} (hi : Inv ser s) (k : Nat) :
    ∃ s', recvSome par k s = .ok s' ∧ Inv ser s' := by
  obtain ⟨u, hu1, hu2⟩ := hi.rd
  unfold Socket.recvSome
  cases hr : s.rph with
  | closed e => exact ⟨_, rfl, hi⟩
  | hdr pos =>
    have hc : isClosed s = false := by unfold isClosed; rw [hr]
    obtain ⟨h1, h2⟩ := hi.hd pos hr
    simp only
    have hs := recv_split (w := s.wire) (k := min k (4 - pos)) rfl
    have hl : (s.wire.take (min k (4 - pos))).length ≤ 4 - pos := by rw [List.length_take]; omega
    generalize s.wire.take (min k (4 - pos)) = x at hs hl ⊢
    have hp : pos + x.length ≤ s.hbuf.length := by omega
    rw [putAt_ok hp, Out.bind_ok]
    have key : Inv ser { s with wire := s.wire.drop x.length, hbuf := s.hbuf.take pos ++ x ++ s.hbuf.drop (pos + x.length), rph := .hdr (pos + x.length) } := by
      refine ⟨hi.fits, hi.wr, hi.wr', hi.idle, hi.snd, ⟨u, hu1, fun _ => ?_⟩, hi.dl, ?_, ?_, ?_⟩
      · rw [hu2 hc]
        unfold partialMsg
        simp only [hr, put_take hp]
        rw [List.append_assoc, ← hs]
      · intro p h
        cases h
        exact ⟨by omega, by rw [put_len hp, h2]⟩
      · intro a b h; cases h
      · intro e h; cases h
    split
    · rename_i h4
      exact Inv.endHdr hsp key (by simp only [h4])
    · exact ⟨_, rfl, key⟩
  | body size pos =>
    have hc : isClosed s = false := by unfold isClosed; rw [hr]
    obtain ⟨h1, h2, h3⟩ := hi.bd size pos hr
    simp only
    have hs := recv_split (w := s.wire) (k := min k (size - pos)) rfl
    have hl : (s.wire.take (min k (size - pos))).length ≤ size - pos := by rw [List.length_take]; omega
    generalize s.wire.take (min k (size - pos)) = x at hs hl ⊢
    have hp : pos + x.length ≤ s.rbuf.length := by omega
    rw [putAt_ok hp, Out.bind_ok]
    have key : Inv ser { s with wire := s.wire.drop x.length, rbuf := s.rbuf.take pos ++ x ++ s.rbuf.drop (pos + x.length), rph := .body size (pos + x.length) } := by
      refine ⟨hi.fits, hi.wr, hi.wr', hi.idle, hi.snd, ⟨u, hu1, fun _ => ?_⟩, hi.dl, ?_, ?_, ?_⟩
      · rw [hu2 hc]
        unfold partialMsg
        simp only [hr, put_take hp]
        conv_lhs => rw [hs]
        simp only [List.append_assoc]
      · intro p h; cases h
      · intro a b h
        cases h
        exact ⟨by omega, by rw [put_len hp]; exact h2, h3⟩
      · intro e h; cases h
    split
    · rename_i h4
      exact Inv.endBody hsp key (by simp only [h4])
    · exact ⟨_, rfl, key⟩

theorem Inv.step {ser : M → Bytes} {par : Bytes → Option M} (hsp : ∀ m, par (ser m) = some m) {s : Sys M} (hi : Inv ser s) (e : Ev M) :
    ∃ s', step ser par s e = .ok s' ∧ Inv ser s' := by
  cases e with
  | write m =>
    obtain ⟨s', ok, h1, h2⟩ := hi.write m
    exact ⟨s', by simp [Socket.step, h1], h2⟩
  | take => exact hi.take
  | send k => exact ⟨_, rfl, hi.sendSome k⟩
  | sendErr => exact ⟨_, rfl, hi.sendErr⟩
  | clear => exact ⟨_, rfl, hi.clear⟩
  | kill => exact ⟨_, rfl, hi.fits, hi.wr, hi.wr', hi.idle, hi.snd, hi.rd, hi.dl, hi.hd, hi.bd, hi.err⟩
  | recv k => exact hi.recvSome hsp k
  | recvErr b => exact ⟨_, rfl, hi.recvErr (by cases b <;> simp)⟩

theorem Inv.run {ser : M → Bytes} {par : Bytes → Option M} (hsp : ∀ m, par (ser m) = some m) : ∀ (es : List (Ev M)) {s : Sys M}, Inv ser s →
    ∃ s', run ser par s es = .ok s' ∧ Inv ser s'
  | [], s, hi => ⟨s, rfl, hi⟩
  | e :: es, s, hi => by
    obtain ⟨s1, h1, h2⟩ := hi.step hsp e
    obtain ⟨s2, h3, h4⟩ := Inv.run hsp es h2
    exact ⟨s2, by unfold Socket.run; rw [h1, Out.bind_ok, h3], h4⟩

end Svr.Socket
