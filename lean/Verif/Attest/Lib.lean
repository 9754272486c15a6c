import Verif.Bytes
import Verif.Minimums

/-!
# The libraries that attestation code calls

BoringSSL (certificates, signatures, hashes) and protobuf are not in the repository's C++ sources; what the enclave gets back from
them is a parameter here. No assumption is made about them except the size of a hash.
-/

namespace Svr.Attest

open Minimums (Values)

/-- What `X509_get_pubkey` returns, told apart by `EVP_PKEY_get0_EC_KEY` and `EVP_PKEY_get0_RSA`. -/
inductive Pub (Ec Rsa : Type)
  | ec (k : Ec)
  | rsa (k : Rsa)
  | other

/-- `attestation::AttestationData` (shared/proto/attestation.proto), the two fields that callers of `Attest` use. -/
structure Data where
  key : Bytes
  values : Values

/-- Allocation in these libraries is taken to succeed. -/
structure Lib where
  Cert : Type
  Ec : Type
  Rsa : Type
  sha256 : Bytes → Bytes
  sha256_length : ∀ b, (sha256 b).length = 32
  sha384 : Bytes → Bytes
  /-- `d2i_X509`: the certificate at the front of the buffer, and how many bytes it took -/
  d2i : Bytes → Option (Cert × Nat)
  /-- `X509_verify_cert`, with trusted certificates, untrusted ones, the certificate and the time -/
  chain : List Cert → List Cert → Cert → Int → Bool
  /-- `X509_get_pubkey` -/
  pub : Cert → Option (Pub Ec Rsa)
  /-- `ECDSA_do_verify` with a digest and the two numbers of the signature -/
  ecdsa : Ec → Bytes → Nat → Nat → Bool
  /-- `RSA_verify` with `NID_sha256`, a digest and a signature -/
  rsaVerify : Rsa → Bytes → Bytes → Bool
  /-- `RSA_get0_e`, `RSA_get0_n` -/
  rsaE : Rsa → Nat
  rsaN : Rsa → Nat
  /-- `AttestationData::ParseFromString` -/
  parseData : Bytes → Option Data

/-- The number that bytes are in big endian order (`util::BigEndian16FromBytes`, `BigEndian32FromBytes`, `BigEndian64FromBytes`,
enclave/util/endian.h:9-30; `BN_bin2bn`). -/
def be (x : Bytes) : Nat := x.foldl (fun a c => a * 256 + c.toNat) 0

/-- The number that bytes are in little endian order (integers in a `struct` on the platform; `BN_le2bn`). -/
def le (x : Bytes) : Nat := be x.reverse

/-- Bytes at a position of a buffer; past the end is undefined behaviour. -/
def rd (b : Bytes) (off n : Nat) : Out Bytes := if off + n ≤ b.length then .ok ((b.drop off).take n) else .ub

end Svr.Attest
