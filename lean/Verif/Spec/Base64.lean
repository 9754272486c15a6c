import Mathlib.Data.List.Forall2
import Verif.Bytes

/-!
# Specification: base64 (RFC 4648, 4 and 5)

Each character stands for six bits, and the bytes are the bits in order, as far as they make up whole bytes. Nothing here refers to the code
under verification.
-/

namespace Svr.Spec

/-- Bytes of ASCII characters. -/
def ascii (s : List Char) : Bytes := s.map fun c => UInt8.ofNat c.toNat

def base64Std : Bytes := ascii "ABCDEFGHIJKLMNOPQRSTUVWXYZabcdefghijklmnopqrstuvwxyz0123456789+/".toList
def base64Url : Bytes := ascii "ABCDEFGHIJKLMNOPQRSTUVWXYZabcdefghijklmnopqrstuvwxyz0123456789-_".toList

/-- The number with these digits, the most significant first. -/
def number (base : Nat) (ds : List Nat) : Nat := ds.foldl (fun a d => a * base + d) 0

/-- A text of characters of the alphabet and then any number of `=` stands for these bytes; left over bits are dropped. -/
def Base64 (alphabet text bytes : Bytes) : Prop :=
  ∃ chars ds n, text = chars ++ List.replicate n 61 ∧ List.Forall₂ (fun c d => alphabet[d]? = some c) chars ds ∧
    bytes.length = 6 * ds.length / 8 ∧ number 256 (bytes.map (·.toNat)) = number 64 ds / 2 ^ (6 * ds.length % 8)

end Svr.Spec
