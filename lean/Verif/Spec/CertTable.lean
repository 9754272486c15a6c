import Verif.Bytes

/-!
# Specification: the table of certificates that a hypervisor hands to a guest

From AMD's "SEV-ES Guest-Hypervisor Communication Block Standardization", 4.1.8.1: entries of a GUID, an offset and a length, ended by an
entry of zeros; the offsets are from the beginning of the buffer. Nothing here refers to the code under verification.
-/

namespace Svr.Spec

/-- A 32-bit number in little endian order. -/
def le32 (n : UInt32) : Bytes := [UInt8.ofNat n.toNat, UInt8.ofNat (n.toNat / 2^8), UInt8.ofNat (n.toNat / 2^16), UInt8.ofNat (n.toNat / 2^24)]

structure CertEntry where
  guid : Bytes
  offset : UInt32
  length : UInt32

def CertEntry.wire (e : CertEntry) : Bytes := e.guid ++ le32 e.offset ++ le32 e.length

/-- The certificate of an entry. -/
def CertEntry.cert (certs : Bytes) (e : CertEntry) : Bytes := (certs.drop e.offset.toNat).take e.length.toNat

/-- The first `size` bytes of `certs` are a table with these entries, whose certificates lie within them. -/
structure CertTable (certs : Bytes) (size : Nat) (es : List CertEntry) : Prop where
  guid : ∀ e ∈ es, e.guid.length = 16
  live : ∀ e ∈ es, e.wire ≠ zeros 24
  inside : ∀ e ∈ es, e.offset.toNat + e.length.toNat ≤ size
  room : 24 * (es.length + 1) ≤ size
  bytes : ∃ rest, certs = (es.map CertEntry.wire).flatten ++ (zeros 24 ++ rest)

/-- The certificate for a GUID: that of the last entry, and what was there before if there is none. -/
def certFor (certs : Bytes) (es : List CertEntry) (guid old : Bytes) : Bytes :=
  match (es.filter fun e => e.guid = guid).getLast? with
  | some e => e.cert certs
  | none => old

end Svr.Spec
