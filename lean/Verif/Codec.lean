import Verif.Bytes
import Mathlib.Data.Nat.Bitwise

/-!
# Models of `enclave/util/hex.cc`, `enclave/util/base64.cc` and the string conversions of `enclave/peerid/peerid.cc`

Arithmetic is on `Nat` with the truncations of the C++ assignments written out.
-/

namespace Svr.Codec

/-- `nibbles` (enclave/util/hex.cc:25). -/
def nibbles : Bytes := [48, 49, 50, 51, 52, 53, 54, 55, 56, 57, 97, 98, 99, 100, 101, 102]

/-- `HexCharToNibble` (enclave/util/hex.cc:10-20). A `char` of 0x80 or more is negative and falls in the
last branch, as here. -/
def hexCharToNibble (c : UInt8) : Nat :=
  if c.toNat ≥ 48 ∧ c.toNat ≤ 57 then c.toNat - 48
  else if c.toNat ≥ 97 ∧ c.toNat ≤ 102 then 0xa + (c.toNat - 97)
  else if c.toNat ≥ 65 ∧ c.toNat ≤ 70 then 0xa + (c.toNat - 65)
  else 0xFF

/-- `BytesToHex` (enclave/util/hex.cc:24-32); reading the table out of range would be undefined. -/
def bytesToHex : Bytes → Out Bytes
  | [] => .ok []
  | b :: t =>
    match nibbles[(b.toNat &&& 0xf0) >>> 4]?, nibbles[(b.toNat &&& 0x0f) >>> 0]? with
    | some h, some l => do let r ← bytesToHex t; pure (h :: l :: r)
    | _, _ => .ub

inductive HexErr | size | char
deriving DecidableEq

/-- The loop of `HexToBytes` (enclave/util/hex.cc:39-46), on an even number of characters; `out.append`
of a `char` truncates to eight bits. -/
def hexLoop : Bytes → Bytes → Except HexErr Bytes
  | c1 :: c2 :: t, out =>
    let n1 := hexCharToNibble c1
    let n2 := hexCharToNibble c2
    if n1 = 0xFF ∨ n2 = 0xFF then .error .char
    else hexLoop t (out ++ [UInt8.ofNat ((n1 <<< 4) ||| n2)])
  | _, out => .ok out

/-- `HexToBytes` (enclave/util/hex.cc:34-48). -/
def hexToBytes (s : Bytes) : Except HexErr Bytes :=
  if s.length % 2 ≠ 0 then .error .size else hexLoop s []

/-- `PeerID::FromString` (enclave/peerid/peerid.cc:25-31); `none` is `Peers_InvalidID`. -/
def peerFromString (s : Bytes) : Option Bytes := if s.length ≠ 32 then none else some (s.take 32)
/-- `PeerID::ToString` (enclave/peerid/peerid.cc:36-39): the 32 bytes of the identifier. -/
def peerToString (id : Bytes) : Bytes := id.take 32

/-- `Base64Encoding` (enclave/util/base64.h:12-15). -/
structure Encoding where
  decode : List Int
  encode : Bytes

/-- `B64STD_` (enclave/util/base64.cc:11-31). -/
def b64std : Encoding where
  decode := [-1, -1, -1, -1, -1, -1, -1, -1, -1, -1, -1, -1, -1, -1, -1, -1,
   -1, -1, -1, -1, -1, -1, -1, -1, -1, -1, -1, -1, -1, -1, -1, -1,
   -1, -1, -1, -1, -1, -1, -1, -1, -1, -1, -1, 62, -1, -1, -1, 63,
   52, 53, 54, 55, 56, 57, 58, 59, 60, 61, -1, -1, -1, -1, -1, -1,
   -1, 0, 1, 2, 3, 4, 5, 6, 7, 8, 9, 10, 11, 12, 13, 14,
   15, 16, 17, 18, 19, 20, 21, 22, 23, 24, 25, -1, -1, -1, -1, -1,
   -1, 26, 27, 28, 29, 30, 31, 32, 33, 34, 35, 36, 37, 38, 39, 40,
   41, 42, 43, 44, 45, 46, 47, 48, 49, 50, 51, -1, -1, -1, -1, -1,
   -1, -1, -1, -1, -1, -1, -1, -1, -1, -1, -1, -1, -1, -1, -1, -1,
   -1, -1, -1, -1, -1, -1, -1, -1, -1, -1, -1, -1, -1, -1, -1, -1,
   -1, -1, -1, -1, -1, -1, -1, -1, -1, -1, -1, -1, -1, -1, -1, -1,
   -1, -1, -1, -1, -1, -1, -1, -1, -1, -1, -1, -1, -1, -1, -1, -1,
   -1, -1, -1, -1, -1, -1, -1, -1, -1, -1, -1, -1, -1, -1, -1, -1,
   -1, -1, -1, -1, -1, -1, -1, -1, -1, -1, -1, -1, -1, -1, -1, -1,
   -1, -1, -1, -1, -1, -1, -1, -1, -1, -1, -1, -1, -1, -1, -1, -1,
   -1, -1, -1, -1, -1, -1, -1, -1, -1, -1, -1, -1, -1, -1, -1, -1]
  encode := [65, 66, 67, 68, 69, 70, 71, 72, 73, 74, 75, 76, 77, 78, 79, 80,
   81, 82, 83, 84, 85, 86, 87, 88, 89, 90, 97, 98, 99, 100, 101, 102,
   103, 104, 105, 106, 107, 108, 109, 110, 111, 112, 113, 114, 115, 116, 117, 118,
   119, 120, 121, 122, 48, 49, 50, 51, 52, 53, 54, 55, 56, 57, 43, 47]

/-- `B64URL_` (enclave/util/base64.cc:33-53). -/
def b64url : Encoding where
  decode := [-1, -1, -1, -1, -1, -1, -1, -1, -1, -1, -1, -1, -1, -1, -1, -1,
   -1, -1, -1, -1, -1, -1, -1, -1, -1, -1, -1, -1, -1, -1, -1, -1,
   -1, -1, -1, -1, -1, -1, -1, -1, -1, -1, -1, -1, -1, 62, -1, -1,
   52, 53, 54, 55, 56, 57, 58, 59, 60, 61, -1, -1, -1, -1, -1, -1,
   -1, 0, 1, 2, 3, 4, 5, 6, 7, 8, 9, 10, 11, 12, 13, 14,
   15, 16, 17, 18, 19, 20, 21, 22, 23, 24, 25, -1, -1, -1, -1, 63,
   -1, 26, 27, 28, 29, 30, 31, 32, 33, 34, 35, 36, 37, 38, 39, 40,
   41, 42, 43, 44, 45, 46, 47, 48, 49, 50, 51, -1, -1, -1, -1, -1,
   -1, -1, -1, -1, -1, -1, -1, -1, -1, -1, -1, -1, -1, -1, -1, -1,
   -1, -1, -1, -1, -1, -1, -1, -1, -1, -1, -1, -1, -1, -1, -1, -1,
   -1, -1, -1, -1, -1, -1, -1, -1, -1, -1, -1, -1, -1, -1, -1, -1,
   -1, -1, -1, -1, -1, -1, -1, -1, -1, -1, -1, -1, -1, -1, -1, -1,
   -1, -1, -1, -1, -1, -1, -1, -1, -1, -1, -1, -1, -1, -1, -1, -1,
   -1, -1, -1, -1, -1, -1, -1, -1, -1, -1, -1, -1, -1, -1, -1, -1,
   -1, -1, -1, -1, -1, -1, -1, -1, -1, -1, -1, -1, -1, -1, -1, -1,
   -1, -1, -1, -1, -1, -1, -1, -1, -1, -1, -1, -1, -1, -1, -1, -1]
  encode := [65, 66, 67, 68, 69, 70, 71, 72, 73, 74, 75, 76, 77, 78, 79, 80,
   81, 82, 83, 84, 85, 86, 87, 88, 89, 90, 97, 98, 99, 100, 101, 102,
   103, 104, 105, 106, 107, 108, 109, 110, 111, 112, 113, 114, 115, 116, 117, 118,
   119, 120, 121, 122, 48, 49, 50, 51, 52, 53, 54, 55, 56, 57, 45, 95]

/-- `padding` (enclave/util/base64.cc:58). -/
def pad : UInt8 := 61

inductive B64Err | padding | char
deriving DecidableEq

/-- Loop of `B64DecodeInline` (enclave/util/base64.cc:61-88), at position `i` with `out` the bytes already
written. The code writes in place; `CHECK(j <= i)` (`j` is `out.length`) makes sure that only characters
already read are overwritten, so the unread rest is unaffected. `char` is signed on the platform, and
`(size_t) next` of a negative `char` indexes far outside the 256-entry table. -/
def decodeLoop (E : Encoding) : Bytes → Nat → Nat → Nat → Bytes → Out (Except B64Err Bytes)
  | [], _, _, _, out => .ok (.ok out)
  | next :: rest, i, acc, bits, out =>
    if next = pad then
      if rest.all (· = pad) then .ok (.ok out) else .ok (.error .padding)
    else if next.toNat ≥ 128 then .ub
    else match E.decode[next.toNat]? with
    | none => .ub
    | some c =>
      if c = -1 then .ok (.error .char)
      else
        let acc := ((acc <<< 6) ||| c.toNat) % 65536
        let bits := (bits + 6) % 65536
        if bits ≥ 8 then do
          Out.check (decide (out.length ≤ i))
          decodeLoop E rest (i + 1) acc (bits - 8) (out ++ [UInt8.ofNat (acc >>> (bits - 8))])
        else decodeLoop E rest (i + 1) acc bits out

/-- `B64DecodeInline` (enclave/util/base64.cc:60-91). -/
def b64Decode (E : Encoding) (s : Bytes) : Out (Except B64Err Bytes) := decodeLoop E s 0 0 0 []

/-- The inner loop of `Base64Encode` (enclave/util/base64.cc:102-106); `fuel` bounds the iterations, three
are never exceeded since `bits < 14`. -/
def emit (E : Encoding) : Nat → Nat → Nat → Out (Nat × Bytes)
  | 0, _, bits => .ok (bits, [])
  | fuel + 1, work, bits =>
    if bits ≥ 6 then
      match E.encode[(work >>> (bits - 6)) &&& 0x3f]? with
      | none => .ub
      | some c => do
        let (b, r) ← emit E fuel work (bits - 6)
        pure (b, c :: r)
    else .ok (bits, [])

/-- Outer loop of `Base64Encode` (enclave/util/base64.cc:98-115). -/
def encodeLoop (E : Encoding) (padding : Bool) : Bytes → Nat → Nat → Out Bytes
  | [], work, bits =>
    if bits ≠ 0 then
      match E.encode[((work <<< (6 - bits)) % 65536) &&& 0x3f]? with
      | none => .ub
      | some c => .ok (c :: (if padding then (if bits = 2 then [pad, pad] else [pad]) else []))
    else .ok []
  | b :: t, work, bits => do
    let work := ((work <<< 8) ||| b.toNat) % 65536
    let (bits, cs) ← emit E 3 work (bits + 8)
    let r ← encodeLoop E padding t work bits
    pure (cs ++ r)

/-- `Base64Encode` (enclave/util/base64.cc:93-117). -/
def b64Encode (E : Encoding) (padding : Bool) (s : Bytes) : Out Bytes := encodeLoop E padding s 0 0

end Svr.Codec
