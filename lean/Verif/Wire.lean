import Verif.Raft.Node

/-!
# The wire format of Raft messages and log entries

The encoding of protobuf version 3, for the messages of enclave/proto/raft.proto: serialization as the generated code does it, fields in order of their
numbers and without those that have the default value, and parsing that merges what it finds into a message, skips unknown fields, and takes the last of
repeated values. Groups (wire types 3 and 4) are refused, while the library skips groups that are unknown and complete.
-/

namespace Svr.Wire

/-- A number in base 128, least digit first, with the high bit set in all but the last byte; the first argument bounds the number of digits. -/
def varintGo : Nat → Nat → Bytes
  | 0, n => [UInt8.ofNat n]
  | k + 1, n => if n < 128 then [UInt8.ofNat n] else UInt8.ofNat (n % 128 + 128) :: varintGo k (n / 128)

def varint (n : Nat) : Bytes := varintGo n n

/-- Reads a number: its value, how many bytes it has, and what follows. -/
def readVarint : Bytes → Option (Nat × Nat × Bytes)
  | [] => none
  | b :: t =>
    if b.toNat < 128 then some (b.toNat, 1, t)
    else match readVarint t with
      | none => none
      | some (v, c, r) => some (b.toNat - 128 + 128 * v, c + 1, r)

/-- The value of a field as it is on the wire. -/
inductive Raw
  | num (n : Nat)
  | fix64 (b : Bytes)
  | len (b : Bytes)
  | fix32 (b : Bytes)
deriving DecidableEq

/-- Fields with their numbers. -/
abbrev Fields := List (Nat × Raw)

def field : Nat × Raw → Bytes
  | (f, .num n) => varint (8 * f) ++ varint n
  | (f, .fix64 b) => varint (8 * f + 1) ++ b
  | (f, .len b) => varint (8 * f + 2) ++ (varint b.length ++ b)
  | (f, .fix32 b) => varint (8 * f + 5) ++ b

def enc (fs : Fields) : Bytes := fs.flatMap field

/-- The largest length of a field. -/
def maxLen : Nat := 2 ^ 31 - 17

/-- Reads a field after its tag. With `lim` the limits of the library are kept: ten bytes for a number, of which 64 bits count, and `maxLen`. -/
def readRaw (lim : Bool) (wt : Nat) (bs : Bytes) : Option (Raw × Bytes) :=
  if wt = 0 then
    match readVarint bs with
    | none => none
    | some (v, c, r) => if lim then (if c ≤ 10 then some (.num (v % 2 ^ 64), r) else none) else some (.num v, r)
  else if wt = 1 then (if 8 ≤ bs.length then some (.fix64 (bs.take 8), bs.drop 8) else none)
  else if wt = 2 then
    match readVarint bs with
    | none => none
    | some (v, c, r) =>
      if lim = true ∧ (5 < c ∨ maxLen < v) then none
      else if v ≤ r.length then some (.len (r.take v), r.drop v) else none
  else if wt = 5 then (if 4 ≤ bs.length then some (.fix32 (bs.take 4), bs.drop 4) else none)
  else none

/-- Reads fields; the second argument bounds their number. Tags have at most five bytes and 32 bits, and no field has number 0. -/
def splitGo (lim : Bool) : Nat → Bytes → Option Fields
  | 0, _ => none
  | k + 1, bs =>
    if bs = [] then some []
    else match readVarint bs with
      | none => none
      | some (v, c, r) =>
        if v / 8 = 0 ∨ (lim = true ∧ (5 < c ∨ 2 ^ 32 ≤ v)) then none
        else match readRaw lim (v % 8) r with
          | none => none
          | some (x, r) => match splitGo lim k r with
            | none => none
            | some fs => some ((v / 8, x) :: fs)

def split (lim : Bool) (bs : Bytes) : Option Fields := splitGo lim (bs.length + 1) bs

/-! ## Serialization -/

def fNum (f n : Nat) : Fields := if n = 0 then [] else [(f, .num n)]
def fBool (f : Nat) (b : Bool) : Fields := if b then [(f, .num 1)] else []
def fBytes (f : Nat) (b : Bytes) : Fields := if b = [] then [] else [(f, .len b)]

open Svr.Raft Svr.Raft.Node

/-- `Replica` (enclave/proto/raft.proto:9-12). -/
def replicaF (r : Bytes × Bool) : Fields := fBytes 1 r.1 ++ fBool 2 r.2

/-- `ReplicaGroup` (enclave/proto/raft.proto:23-25). -/
def groupF (g : List (Bytes × Bool)) : Fields := g.map fun r => (1, .len (enc (replicaF r)))

/-- `LogEntry` (enclave/proto/raft.proto:66-76): members of a oneof are written even if they have the default value. -/
def entryF (e : Entry) : Fields :=
  fNum 1 e.term ++
  (match e.inner with
    | .data b => [(2, .len b)]
    | .membership g => [(3, .len (enc (groupF g)))]
    | _ => []) ++
  fBytes 4 e.hash ++
  (match e.inner with
    | .minimums b => [(5, .len b)]
    | _ => [])

/-- `VoteRequest`, `VoteResponse`, `AppendRequest` and `AppendResponse` (enclave/proto/raft.proto:39-64), and the field of `RaftMessage` they are in. -/
def bodyF : Body → Fields
  | .voteReq i t h => [(3, .len (enc (fNum 1 i ++ fNum 2 t ++ fBytes 3 h)))]
  | .voteResp g => [(4, .len (enc (fBool 1 g)))]
  | .appReq pi pt ph es c a => [(5, .len (enc (fNum 1 pi ++ fNum 2 pt ++ fNum 3 c ++ es.map (fun e => (4, .len (enc (entryF e)))) ++ fNum 5 a ++ fBytes 6 ph)))]
  | .appResp s m l a h => [(6, .len (enc (fBool 1 s ++ fNum 2 m ++ fNum 3 l ++ fNum 4 a ++ fBytes 5 h)))]
  | .timeoutNow => [(7, .num 1)]
  | .notSet => []

/-- `RaftMessage` (enclave/proto/raft.proto:27-37). -/
def msgF (m : Msg) : Fields := fNum 1 m.group ++ fNum 2 m.term ++ bodyF m.body

/-! ## Parsing -/

def replicaStep (r : Bytes × Bool) : Nat × Raw → Bytes × Bool
  | (1, .len b) => (b, r.2)
  | (2, .num n) => (r.1, decide (n ≠ 0))
  | _ => r

def groupStep (lim : Bool) (g : List (Bytes × Bool)) : Nat × Raw → Option (List (Bytes × Bool))
  | (1, .len b) => (split lim b).map fun fs => g ++ [fs.foldl replicaStep ([], false)]
  | _ => some g

/-- A field of a oneof replaces another, and is merged with an earlier value of the same. -/
def entryStep (lim : Bool) (e : Entry) : Nat × Raw → Option Entry
  | (1, .num n) => some { e with term := n }
  | (2, .len b) => some { e with inner := .data b }
  | (3, .len b) =>
    (split lim b).bind fun fs => (fs.foldlM (groupStep lim) (match e.inner with | .membership g => g | _ => [])).map fun g =>
      { e with inner := .membership g }
  | (4, .len b) => some { e with hash := b }
  | (5, .len b) => some { e with inner := .minimums b }
  | _ => some e

def voteReqStep (x : Nat × Nat × Bytes) : Nat × Raw → Nat × Nat × Bytes
  | (1, .num n) => (n, x.2.1, x.2.2)
  | (2, .num n) => (x.1, n, x.2.2)
  | (3, .len b) => (x.1, x.2.1, b)
  | _ => x

def voteRespStep (x : Bool) : Nat × Raw → Bool
  | (1, .num n) => decide (n ≠ 0)
  | _ => x

/-- The fields of an `AppendRequest`. -/
structure App where
  pi : Nat := 0
  pt : Nat := 0
  ph : Bytes := []
  es : List Entry := []
  c : Nat := 0
  a : Nat := 0

def appStep (lim : Bool) (x : App) : Nat × Raw → Option App
  | (1, .num n) => some { x with pi := n }
  | (2, .num n) => some { x with pt := n }
  | (3, .num n) => some { x with c := n }
  | (4, .len b) => (split lim b).bind fun fs => (fs.foldlM (entryStep lim) Entry.dflt).map fun e => { x with es := x.es ++ [e] }
  | (5, .num n) => some { x with a := n }
  | (6, .len b) => some { x with ph := b }
  | _ => some x

/-- The fields of an `AppendResponse`. -/
structure Ack where
  s : Bool := false
  m : Nat := 0
  l : Nat := 0
  a : Nat := 0
  h : Bytes := []

def ackStep (x : Ack) : Nat × Raw → Ack
  | (1, .num n) => { x with s := decide (n ≠ 0) }
  | (2, .num n) => { x with m := n }
  | (3, .num n) => { x with l := n }
  | (4, .num n) => { x with a := n }
  | (5, .len b) => { x with h := b }
  | _ => x

def msgStep (lim : Bool) (m : Msg) : Nat × Raw → Option Msg
  | (1, .num n) => some { m with group := n }
  | (2, .num n) => some { m with term := n }
  | (3, .len b) => (split lim b).map fun fs =>
    let x := fs.foldl voteReqStep (match m.body with | .voteReq i t h => (i, t, h) | _ => (0, 0, []))
    { m with body := .voteReq x.1 x.2.1 x.2.2 }
  | (4, .len b) => (split lim b).map fun fs =>
    { m with body := .voteResp (fs.foldl voteRespStep (match m.body with | .voteResp g => g | _ => false)) }
  | (5, .len b) => (split lim b).bind fun fs =>
    (fs.foldlM (appStep lim) (match m.body with | .appReq pi pt ph es c a => ⟨pi, pt, ph, es, c, a⟩ | _ => {})).map fun x =>
      { m with body := .appReq x.pi x.pt x.ph x.es x.c x.a }
  | (6, .len b) => (split lim b).map fun fs =>
    let x := fs.foldl ackStep (match m.body with | .appResp s m l a h => ⟨s, m, l, a, h⟩ | _ => {})
    { m with body := .appResp x.s x.m x.l x.a x.h }
  | (7, .num _) => some { m with body := .timeoutNow }
  | _ => some m

/-- `ParseFromString` for the messages of enclave/proto/raft.proto. -/
def decReplica (lim : Bool) (b : Bytes) : Option (Bytes × Bool) := (split lim b).map fun fs => fs.foldl replicaStep ([], false)
def decGroup (lim : Bool) (b : Bytes) : Option (List (Bytes × Bool)) := (split lim b).bind fun fs => fs.foldlM (groupStep lim) []
def decEntry (lim : Bool) (b : Bytes) : Option Entry := (split lim b).bind fun fs => fs.foldlM (entryStep lim) Entry.dflt
def decMsg (lim : Bool) (b : Bytes) : Option Msg := (split lim b).bind fun fs => fs.foldlM (msgStep lim) ⟨0, 0, .notSet⟩

/-- `SerializeAsString`. -/
def encGroup (g : List (Bytes × Bool)) : Bytes := enc (groupF g)
def encEntry (e : Entry) : Bytes := enc (entryF e)
def encMsg (m : Msg) : Bytes := enc (msgF m)

end Svr.Wire
