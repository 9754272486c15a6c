import Verif.Bytes

/-!
# Model of `enclave/raft/log.h` and `enclave/raft/log.cc`

`entries_` (a `std::deque`) is a list. Indexes and byte counts are natural numbers: the counters of the log itself are
assumed not to reach 2^64 (the log is held in memory, and `max_bytes_` is far below).
-/

namespace Svr.Raft

/-- The `inner` field of `LogEntry` (enclave/proto/raft.proto, `LogEntry`). A `ReplicaGroup` is the list of its
replicas, each a `peer_id` string and a `voting` flag. -/
inductive Inner
  | notSet
  | data (b : Bytes)
  | membership (g : List (Bytes × Bool))
  | minimums (b : Bytes)
deriving DecidableEq

/-- `LogEntry` (enclave/proto/raft.proto). -/
structure Entry where
  term : Nat
  inner : Inner
  hash : Bytes
deriving DecidableEq

/-- A default constructed `LogEntry`. -/
def Entry.dflt : Entry := ⟨0, .notSet, []⟩

/-- The sizes the code takes from the compiler and the protobuf library. -/
structure Sizes where
  /-- `sizeof(LogEntry)`, `sizeof(std::string)`, `sizeof(ReplicaGroup)`, `sizeof(Replica)`, `sizeof(PeerID)`. -/
  entry : Nat
  str : Nat
  group : Nat
  replica : Nat
  peer : Nat
  /-- `LogEntry::ByteSizeLong`. -/
  bytes : Entry → Nat

/-- `Log::logentry_bytes_in_log` (enclave/raft/log.cc:14-36). `e.data()` is empty unless `data` is set. -/
def memSize (z : Sizes) (e : Entry) : Nat :=
  (match e.inner with
    | .membership g => z.group + g.length * (z.peer + z.replica)
    | _ => 0) +
  (if e.hash.length ≠ 0 then e.hash.length + z.str else 0) +
  z.entry + z.str +
  (match e.inner with
    | .data b => b.length
    | _ => 0)

/-- `Log` (enclave/raft/log.h:112-115). -/
structure Log where
  entries : List Entry
  oldest : Nat
  curr : Nat
  max : Nat
deriving DecidableEq

inductive LogErr
  | cancelingBeforeFirst | appendWithoutTerm | noHashChain | outOfSpace | tooLarge | setNextOnNonempty
deriving DecidableEq

namespace Log

/-- `Log::Log` (enclave/raft/log.cc:38-41). -/
def new (max : Nat) : Log := ⟨[], 1, 0, max⟩

/-- `std::deque::resize`: keeps a prefix, or fills up with default constructed entries. -/
def resize (n : Nat) (l : List Entry) : List Entry := l.take n ++ List.replicate (n - l.length) Entry.dflt

/-- `Log::CancelFrom` (enclave/raft/log.cc:43-50). `curr_bytes_` is not changed by the code. -/
def cancelFrom (l : Log) (frm : Nat) : Log × Option LogErr :=
  if frm < l.oldest then (l, some .cancelingBeforeFirst)
  else ({ l with entries := resize (frm - l.oldest) l.entries }, none)

/-- `Log::At` (enclave/raft/log.cc:52-55): the position in the deque an iterator starts with. -/
def pos (l : Log) (idx : Nat) : Nat := if idx < l.oldest then l.entries.length else idx - l.oldest

/-- `Iterator::Entry` of an iterator at a deque position (enclave/raft/log.cc:62-69). -/
def entryAt (l : Log) (di : Nat) : Option Entry := l.entries[di]?

/-- `log.At(idx).Entry()`; the iterator is `Valid()` exactly when this is not `none`. -/
def at? (l : Log) (idx : Nat) : Option Entry := l.entryAt (l.pos idx)

/-- `log.At(idx).Term()` (enclave/raft/log.cc:71-74). -/
def termAt (l : Log) (idx : Nat) : Nat :=
  match l.at? idx with
  | none => 0
  | some e => e.term

/-- `Iterator::Index` (enclave/raft/log.cc:57-60). -/
def indexAt (l : Log) (di : Nat) : Nat := if di < l.entries.length then l.oldest + di else 0

/-- `Iterator::Next` (enclave/raft/log.cc:91-93). -/
def next (l : Log) (di : Nat) : Nat := if di < l.entries.length then di + 1 else di

/-- `Iterator::Prev` (enclave/raft/log.cc:95-97): the `size_t` wraps around below zero. -/
def prev (l : Log) (di : Nat) : Nat :=
  if di < l.entries.length then (if di = 0 then 2 ^ 64 - 1 else di - 1) else di

/-- `Log::oldest_stored_idx` (enclave/raft/log.cc:99-102). -/
def oldestIdx (l : Log) : Nat := if l.entries.length = 0 then 0 else l.oldest

/-- `Log::last_idx` (enclave/raft/log.cc:104-107). -/
def lastIdx (l : Log) : Nat := if l.entries.length = 0 then 0 else l.oldest + l.entries.length - 1

/-- `Log::last_term` (enclave/raft/log.cc:109-112). -/
def lastTerm (l : Log) : Nat := if l.entries.length = 0 then 0 else l.termAt l.lastIdx

/-- `Log::next_idx` (enclave/raft/log.h:63). -/
def nextIdx (l : Log) : Nat := l.lastIdx + 1

/-- `Log::RemoveOldestLogOlderThan` (enclave/raft/log.cc:143-150): `none` when it returns false. `front()` of an empty
deque is undefined behaviour. The subtraction is on `size_t`; `Wf` below shows it does not wrap. -/
def removeOldest (z : Sizes) (l : Log) (trunc : Nat) : Out (Option Log) :=
  if l.oldest ≥ trunc then .ok none
  else match l.entries with
    | [] => .ub
    | e :: t => .ok (some { l with entries := t, oldest := l.oldest + 1, curr := l.curr - memSize z e })

/-- The loop of `Log::Append` (enclave/raft/log.cc:122-126). The flag says whether space was found. Each iteration
removes an entry, so their number bounds the iterations (one more for the last test). -/
def makeSpace (z : Sizes) (mem trunc : Nat) : Nat → Log → Out (Log × Bool)
  | 0, l => .ok (l, false)
  | n + 1, l =>
    if l.curr + mem > l.max then
      match removeOldest z l trunc with
      | .ok none => .ok (l, false)
      | .ok (some l') => makeSpace z mem trunc n l'
      | .abort => .abort
      | .ub => .ub
    else .ok (l, true)

/-- `INT_MAX`. -/
def intMax : Nat := 2 ^ 31 - 1

/-- `Log::Append` (enclave/raft/log.cc:114-141). -/
def append (z : Sizes) (l : Log) (e : Entry) (trunc : Nat) : Out (Log × Option LogErr) :=
  if e.term = 0 then .ok (l, some .appendWithoutTerm)
  else if e.hash.length ≠ 32 then .ok (l, some .noHashChain)
  else do
    let (l, found) ← makeSpace z (memSize z e) trunc (l.entries.length + 2) l
    if !found then .ok (l, some .outOfSpace)
    else if z.bytes e > intMax then .ok (l, some .tooLarge)
    else .ok ({ l with entries := l.entries ++ [e], curr := l.curr + memSize z e }, none)

/-- `Log::MostRecentHash` (enclave/raft/log.cc:160-168): newest entry whose hash has 32 bytes; `none` leaves the
caller's zero bytes. -/
def mostRecentHash (l : Log) : Option Bytes :=
  (l.entries.reverse.find? (fun e => e.hash.length == 32)).map (·.hash)

/-- `Log::SetNextIdx` (enclave/raft/log.cc:170-176). -/
def setNextIdx (l : Log) (idx : Nat) : Log × Option LogErr :=
  if l.entries.length ≠ 0 then (l, some .setNextOnNonempty) else ({ l with oldest := idx }, none)

/-! ### Facts -/

/-- Bytes of the stored entries. -/
def bytesOf (z : Sizes) (es : List Entry) : Nat := (es.map (memSize z)).sum

theorem at?_eq (l : Log) (idx : Nat) : l.at? idx = if idx < l.oldest then none else l.entries[idx - l.oldest]? := by
  unfold at? entryAt pos
  split
  · simp
  · rfl

theorem at?_some_iff (l : Log) (idx : Nat) :
    (l.at? idx).isSome ↔ l.oldest ≤ idx ∧ idx < l.oldest + l.entries.length := by
  rw [at?_eq]
  by_cases h : idx < l.oldest
  · rw [if_pos h]; simp; omega
  · rw [if_neg h]
    rw [Option.isSome_iff_ne_none, ne_eq, List.getElem?_eq_none_iff]
    omega

/-- What the space making loop may do: drop entries from the front, below the limit, only while over the byte limit,
with the byte counter following. -/
theorem makeSpace_spec (z : Sizes) (mem trunc : Nat) : ∀ (n : Nat) (l l' : Log) (b : Bool),
    makeSpace z mem trunc n l = .ok (l', b) → bytesOf z l.entries ≤ l.curr →
    ∃ k, k ≤ l.entries.length ∧ l'.entries = l.entries.drop k ∧ l'.oldest = l.oldest + k ∧ l'.max = l.max ∧
      (k = 0 ∨ l.oldest + k ≤ trunc) ∧
      l'.curr + bytesOf z (l.entries.take k) = l.curr ∧
      bytesOf z l'.entries ≤ l'.curr ∧
      (∀ j < k, l.curr - bytesOf z (l.entries.take j) + mem > l.max) ∧
      (b = true → l'.curr + mem ≤ l.max)
  | 0, l, l', b, h, hb => by
    simp only [makeSpace, Out.ok.injEq, Prod.mk.injEq] at h
    obtain ⟨rfl, rfl⟩ := h
    exact ⟨0, by omega, rfl, rfl, rfl, .inl rfl, rfl, hb, by omega, by simp⟩
  | n + 1, l, l', b, h, hb => by
    rw [makeSpace] at h
    by_cases hc : l.curr + mem > l.max
    · rw [if_pos hc] at h
      unfold removeOldest at h
      by_cases ho : l.oldest ≥ trunc
      · rw [if_pos ho] at h
        simp only [Out.ok.injEq, Prod.mk.injEq] at h
        obtain ⟨rfl, rfl⟩ := h
        exact ⟨0, by omega, rfl, rfl, rfl, .inl rfl, rfl, hb, by omega, by simp⟩
      · rw [if_neg ho] at h
        cases he : l.entries with
        | nil => rw [he] at h; cases h
        | cons e t =>
          rw [he] at h
          simp only at h
          have hbe : bytesOf z l.entries = memSize z e + bytesOf z t := by
            rw [he]; simp [bytesOf]
          have ih := makeSpace_spec z mem trunc n _ l' b h (by simp only; omega)
          obtain ⟨k, h1, h2, h3, h4, h5, h6, h6', h7, h8⟩ := ih
          simp only at h1 h2 h3 h4 h5 h6 h6' h7 h8
          refine ⟨k + 1, by simp; omega, by simpa using h2, by omega, h4, .inr (by omega), ?_, h6', ?_, h8⟩
          · have : bytesOf z ((e :: t).take (k + 1)) = memSize z e + bytesOf z (t.take k) := by simp [bytesOf]
            omega
          · intro j hj
            cases j with
            | zero => simp [bytesOf]; omega
            | succ j =>
              have h9 := h7 j (by omega)
              have : bytesOf z ((e :: t).take (j + 1)) = memSize z e + bytesOf z (t.take j) := by simp [bytesOf]
              omega
    · rw [if_neg hc] at h
      simp only [Out.ok.injEq, Prod.mk.injEq] at h
      obtain ⟨rfl, rfl⟩ := h
      exact ⟨0, by omega, rfl, rfl, rfl, .inl rfl, rfl, hb, by omega, by intro; omega⟩

/-- If space is not found, everything below the limit is gone and it is still too much. -/
theorem makeSpace_false (z : Sizes) (mem trunc : Nat) : ∀ (n : Nat) (l l' : Log),
    makeSpace z mem trunc n l = .ok (l', false) → l.entries.length + 2 ≤ n →
    l'.oldest ≥ trunc ∧ l'.curr + mem > l'.max
  | 0, _, _, _, hn => by omega
  | n + 1, l, l', h, hn => by
    rw [makeSpace] at h
    by_cases hc : l.curr + mem > l.max
    · rw [if_pos hc] at h
      unfold removeOldest at h
      by_cases ho : l.oldest ≥ trunc
      · rw [if_pos ho] at h
        simp only [Out.ok.injEq, Prod.mk.injEq] at h
        obtain ⟨rfl, -⟩ := h
        exact ⟨ho, hc⟩
      · rw [if_neg ho] at h
        cases he : l.entries with
        | nil => rw [he] at h; cases h
        | cons e t =>
          rw [he] at h
          exact makeSpace_false z mem trunc n _ l' h (by rw [he] at hn; simp at hn ⊢; omega)
    · rw [if_neg hc] at h
      simp only [Out.ok.injEq, Prod.mk.injEq] at h
      exact absurd h.2 (by simp)

theorem makeSpace_total (z : Sizes) (mem trunc : Nat) : ∀ (n : Nat) (l : Log),
    trunc ≤ l.oldest + l.entries.length → ∃ r, makeSpace z mem trunc n l = .ok r
  | 0, l, _ => ⟨_, rfl⟩
  | n + 1, l, h => by
    rw [makeSpace]
    by_cases hc : l.curr + mem > l.max
    · rw [if_pos hc]
      unfold removeOldest
      by_cases ho : l.oldest ≥ trunc
      · rw [if_pos ho]; exact ⟨_, rfl⟩
      · rw [if_neg ho]
        cases he : l.entries with
        | nil => rw [he] at h; simp at h; omega
        | cons e t =>
          simp only
          exact makeSpace_total z mem trunc n _ (by rw [he] at h; simp at h ⊢; omega)
    · rw [if_neg hc]; exact ⟨_, rfl⟩

theorem resize_le (n : Nat) (l : List Entry) (h : n ≤ l.length) : resize n l = l.take n := by
  simp [resize, Nat.sub_eq_zero_of_le h]

theorem bytesOf_take_le (z : Sizes) (l : List Entry) (n : Nat) : bytesOf z (l.take n) ≤ bytesOf z l := by
  have : bytesOf z l = bytesOf z (l.take n) + bytesOf z (l.drop n) := by
    conv_lhs => rw [← List.take_append_drop n l]
    unfold bytesOf
    rw [List.map_append, List.sum_append]
  omega

end Log

end Svr.Raft
