import Verif.Spec.Cbor
import Verif.Spec.Base64
import Verif.Attest.Lib
import Mathlib.Data.List.Forall2

/-!
# Specification: attestation documents of AWS Nitro enclaves

After RFC 8152 (COSE) and the description of attestation documents by AWS. Nothing here refers to the code under verification.
-/

namespace Svr.Spec.Nitro

open Svr.Spec

/-- A byte string; null counts as the empty one. -/
def AsBytes (i : Item) (b : Bytes) : Prop := i = .bytes b ∨ (i = .null ∧ b = [])

/-- A `COSE_Sign1` structure without unprotected headers. -/
def Cose (i : Item) (header payload signature : Bytes) : Prop :=
  ∃ h p s, i = .arr (some 4) [h, .map [], p, s] ∧ AsBytes h header ∧ AsBytes p payload ∧ AsBytes s signature

/-- The protected header of AWS: the algorithm is ES384. -/
def es384 : Item := .map [.int 1, .int (-35)]

/-- Data that begins with the header of an item, if there is any. -/
def Readable (l : List Item) : Prop := ∀ t, l ≠ .bad :: t

/-- A map whose first key and value are integers of 64 bits. -/
def FirstPair (i : Item) (key val : Int) (rest : List Item) : Prop :=
  i = .map (.int key :: .int val :: rest) ∧ (-2^63 ≤ key ∧ key < 2^63) ∧ (-2^63 ≤ val ∧ val < 2^63) ∧ Readable rest

/-- The protected header is a map. If it begins with a pair of integers, it is that of AWS, the message is not empty, and the signature
has the right size. -/
def HeaderPasses (cbor : Bytes → Item) (header payload signature : Bytes) : Prop :=
  (∃ m, cbor header = .map m ∧ Readable m) ∧
  ∀ key val rest, FirstPair (cbor header) key val rest → cbor header = es384 ∧ payload ≠ [] ∧ signature.length = 96

/-- The `Sig_structure` that is signed. -/
def sigStructure (header payload : Bytes) : Bytes :=
  0x84 :: (cborText (ascii "Signature1".toList) ++ cborBytes header ++ cborBytes [] ++ cborBytes payload)

/-- The list of items in a map of these pairs. -/
def flat (ps : List (Item × Item)) : List Item := ps.flatMap fun p => [p.1, p.2]

/-- An integer of 64 bits. -/
def Int64 (n : Int) : Prop := -2^63 ≤ n ∧ n < 2^63

/-- Registers: a map from integers to byte strings. -/
def Registers (i : Item) (ps : List (Int × Item)) : Prop :=
  i = .map (flat (ps.map fun p => (.int p.1, p.2))) ∧ ∀ p ∈ ps, Int64 p.1 ∧ ∃ b, AsBytes p.2 b

/-- A field of a document has a known name and a value of its type. -/
def Field (name : Bytes) (v : Item) : Prop :=
  (name ∈ [ascii "module_id".toList, ascii "digest".toList] ∧ ∃ b, v = .text b) ∨
  (name ∈ [ascii "certificate".toList, ascii "public_key".toList, ascii "user_data".toList, ascii "nonce".toList] ∧ ∃ b, AsBytes v b) ∨
  (name = ascii "pcrs".toList ∧ ∃ ps, Registers v ps) ∨
  (name = ascii "cabundle".toList ∧ ∃ len l, v = .arr len l ∧ ∀ i ∈ l, ∃ b, AsBytes i b) ∨
  (name = ascii "timestamp".toList ∧ ∃ n, Int64 n ∧ v = .int n)

/-- A document with these fields. -/
def Document (i : Item) (fs : List (Bytes × Item)) : Prop :=
  i = .map (flat (fs.map fun f => (.text f.1, f.2))) ∧ ∀ f ∈ fs, Field f.1 f.2

/-- The value of a field; the last one counts. -/
def value (fs : List (Bytes × Item)) (name : List Char) : Option Item := (fs.reverse.find? (·.1 = ascii name)).map (·.2)

def bytesOf : Option Item → Bytes
  | some (.bytes b) => b
  | _ => []

def textOf : Option Item → Bytes
  | some (.text b) => b
  | _ => []

def intOf : Option Item → Int
  | some (.int n) => n
  | _ => 0

/-- Key and value of each pair in a map with integers as keys. -/
def intPairs : List Item → List (Int × Item)
  | .int n :: v :: l => (n, v) :: intPairs l
  | _ => []

/-- All registers of a document, in order. -/
def registers (fs : List (Bytes × Item)) : List (Int × Item) :=
  fs.flatMap fun f => if f.1 = ascii "pcrs".toList then (match f.2 with | .map l => intPairs l | _ => []) else []

/-- The value of a register. Numbers of registers are told apart by their low 32 bits, and the last one counts. -/
def register (fs : List (Bytes × Item)) (i : Int) : Option Bytes :=
  if -2^31 ≤ i ∧ i < 2^31 then ((registers fs).reverse.find? (fun p => p.1 % 2^32 = i % 2^32)).map fun p => bytesOf (some p.2)
  else none

/-- All certificates in the bundle. -/
def bundle (fs : List (Bytes × Item)) : List Bytes :=
  fs.flatMap fun f => if f.1 = ascii "cabundle".toList then (match f.2 with | .arr _ l => l.map fun i => bytesOf (some i) | _ => []) else []

/-- What AWS says about the fields. -/
structure Lawful (fs : List (Bytes × Item)) : Prop where
  moduleId : textOf (value fs "module_id".toList) ≠ []
  digest : textOf (value fs "digest".toList) = ascii "SHA384".toList
  timestamp : 0 < intOf (value fs "timestamp".toList)
  some_register : ∃ i b, register fs i = some b
  register : ∀ i b, register fs i = some b → (0 ≤ i ∧ i < 32) ∧ (b.length = 32 ∨ b.length = 48 ∨ b.length = 64)
  certificate : 1 ≤ (bytesOf (value fs "certificate".toList)).length ∧ (bytesOf (value fs "certificate".toList)).length ≤ 1024
  some_bundle : bundle fs ≠ []
  bundle : ∀ c ∈ bundle fs, 1 ≤ c.length ∧ c.length ≤ 1024
  publicKey : (bytesOf (value fs "public_key".toList)).length ≤ 1024
  userData : (bytesOf (value fs "user_data".toList)).length ≤ 512
  nonce : (bytesOf (value fs "nonce".toList)).length ≤ 512

/-- A certificate that takes up all of the buffer. -/
def Whole (L : Attest.Lib) (b : Bytes) (c : L.Cert) : Prop := L.d2i b = some (c, b.length)

/-- The certificate chains to a root, at the time or an hour before or after, and its key signed the message. The two numbers of the signature are
big endian. -/
def Signed (L : Attest.Lib) (roots : List L.Cert) (now : Int) (certificate : Bytes) (bundle : List Bytes)
    (header payload signature : Bytes) : Prop :=
  ∃ c cs k, Whole L certificate c ∧ List.Forall₂ (Whole L) bundle cs ∧
    (∃ t, (t = now + 3600 ∨ t = now ∨ t = now - 3600) ∧ L.chain roots cs c t = true) ∧ L.pub c = some (.ec k) ∧ signature.length = 96 ∧
    L.ecdsa k (L.sha384 (sigStructure header payload)) (number 256 ((signature.take 48).map (·.toNat)))
      (number 256 ((signature.drop 48).map (·.toNat))) = true

/-- What the Nitro security module puts into a document. -/
structure Doc where
  moduleId : Bytes
  digest : Bytes
  timestamp : Int
  pcrs : List (Nat × Bytes)
  certificate : Bytes
  cabundle : List Bytes
  publicKey : Option Bytes
  userData : Option Bytes
  nonce : Option Bytes

/-- A byte string or null. -/
def optional : Option Bytes → Item
  | some b => .bytes b
  | none => .null

/-- The document's fields in AWS's order. -/
def Doc.fields (d : Doc) : List (Bytes × Item) :=
  [(ascii "module_id".toList, .text d.moduleId), (ascii "digest".toList, .text d.digest), (ascii "timestamp".toList, .int d.timestamp),
   (ascii "pcrs".toList, .map (flat (d.pcrs.map fun p => (.int p.1, .bytes p.2)))), (ascii "certificate".toList, .bytes d.certificate),
   (ascii "cabundle".toList, .arr (some d.cabundle.length) (d.cabundle.map .bytes)), (ascii "public_key".toList, optional d.publicKey),
   (ascii "user_data".toList, optional d.userData), (ascii "nonce".toList, optional d.nonce)]

def Doc.item (d : Doc) : Item := .map (flat (d.fields.map fun f => (.text f.1, f.2)))

end Svr.Spec.Nitro
