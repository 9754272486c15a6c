import Verif.Bytes

/-!
# Specification: CBOR data items (RFC 8949)

The data model, and how lengths are written. Nothing here refers to the code under verification.
-/

namespace Svr.Spec

/-- What is at a position of encoded data. Only the header of a string says how long it is; `cut` strings are those whose contents the data
ends before, so that nothing follows them. -/
inductive Item
  | int (n : Int)
  | bytes (b : Bytes)
  | bytesCut (length : Nat)
  | text (b : Bytes)
  | textCut (length : Nat)
  /-- an array, with its length unless that is indefinite -/
  | arr (length : Option Nat) (l : List Item)
  /-- a map: key, value, key, value, … -/
  | map (l : List Item)
  | null
  /-- anything else, including strings of indefinite length -/
  | other
  /-- not a header of a data item -/
  | bad

/-- The shortest header of a data item of a major type with an argument (RFC 8949, 3 and 4.2.1). -/
def cborHead (major n : Nat) : Bytes :=
  if n < 24 then [UInt8.ofNat (major * 32 + n)]
  else if n < 2^8 then [UInt8.ofNat (major * 32 + 24), UInt8.ofNat n]
  else if n < 2^16 then [UInt8.ofNat (major * 32 + 25), UInt8.ofNat (n / 2^8), UInt8.ofNat n]
  else if n < 2^32 then
    [UInt8.ofNat (major * 32 + 26), UInt8.ofNat (n / 2^24), UInt8.ofNat (n / 2^16), UInt8.ofNat (n / 2^8), UInt8.ofNat n]
  else UInt8.ofNat (major * 32 + 27) :: (List.range 8).map fun i => UInt8.ofNat (n / 2^(8 * (7 - i)))

/-- A byte string (major type 2) and a text (major type 3). -/
def cborBytes (b : Bytes) : Bytes := cborHead 2 b.length ++ b
def cborText (b : Bytes) : Bytes := cborHead 3 b.length ++ b

end Svr.Spec
