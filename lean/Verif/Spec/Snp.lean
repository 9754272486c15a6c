import Verif.Attest.Tpm2Snp
import Verif.Spec.Quote
import Verif.Spec.Base64

/-!
# Specification: what evidence from a virtual machine with a TPM and SEV-SNP has to show

The records for evidence, endorsements, JSON documents and libraries are those of the model; none of its functions are used. The offsets are
those of AMD's "SEV Secure Nested Paging Firmware ABI Specification", table 22.
-/

namespace Svr.Spec

open Attest (Lib Data Pub)
open Attest.Tpm2Snp (Evidence Endorsements Json Formats)

/-- What C code sees of a string: all, or what precedes the first zero. -/
def CStr (t s : Bytes) : Prop := (0 : UInt8) ∉ s ∧ (t = s ∨ ∃ u, t = s ++ 0 :: u)

/-- The member of an object with a name; if there are several, the first. -/
def Member (j : Json) (name : List Char) (v : Json) : Prop :=
  ∃ pre post, j = .obj (pre ++ (ascii name, v) :: post) ∧ ∀ p ∈ pre, p.1 ≠ ascii name

/-- A member that is a string. -/
def Text (j : Json) (name : List Char) (s : Bytes) : Prop := ∃ t, Member j name (.str t) ∧ CStr t s

/-- A key that says that it is the RSA attestation key. -/
def IsAkPub (j : Json) : Prop := Text j "kid".toList (ascii "HCLAkPub".toList) ∧ Text j "kty".toList (ascii "RSA".toList)

/-- The shortest big endian form of a number. -/
def BigEndian (b : Bytes) (n : Nat) : Prop := number 256 (b.map (·.toNat)) = n ∧ b.head? ≠ some 0

/-- A text is the base64 of a number. -/
def Number64 (text : Bytes) (n : Nat) : Prop := ∃ b, Base64 base64Url text b ∧ BigEndian b n

/-- A document names the attestation key with this exponent and modulus: among its keys, all of them objects up to there, the first that says
so. -/
def NamesKey (doc : Json) (e n : Nat) : Prop :=
  ∃ pre key post te tn, Member doc "keys".toList (.arr (pre ++ key :: post)) ∧ (∀ k ∈ pre, (∃ l, k = .obj l) ∧ ¬ IsAkPub k) ∧
    IsAkPub key ∧ Text key "e".toList te ∧ Number64 te e ∧ Text key "n".toList tn ∧ Number64 tn n

/-- Bytes in reverse as a number. -/
def littleEndian (b : Bytes) : Nat := number 256 (b.reverse.map (·.toNat))

/-- The evidence shows that at `now` an SNP platform whose key AMD certified signed the report `r`, which commits to a document that names `k`;
that one of `roots` certified `k`; and that `k` signed the quote `q` of the registers `ps`, whose nonce commits to the attestation data. -/
structure Shows (L : Lib) (F : Formats) (amd roots : List L.Cert) (now : Int) (ev : Evidence) (en : Endorsements)
    (k : L.Rsa) (r : Bytes) (q : Quote) (ps : List Bytes) : Prop where
  ak : ∃ c n, L.d2i ev.akcert = some (c, n) ∧ L.pub c = some (.rsa k) ∧
    ∃ i m, L.d2i en.intermediate = some (i, m) ∧ L.chain roots [i] c now = true
  platform : ∃ c n e, L.d2i en.vcek = some (c, n) ∧ L.pub c = some (.ec e) ∧
    (∃ i m, L.d2i en.ask = some (i, m) ∧ L.chain amd [i] c now = true) ∧
    L.ecdsa e (L.sha384 (r.take 672)) (littleEndian ((r.drop 672).take 48)) (littleEndian ((r.drop 744).take 48)) = true
  report : r.length = 1184 ∧ r <+: ev.snpReport
  commits : (r.drop 80).take 32 = L.sha256 ev.runtimeData
  names : ∃ s doc, CStr ev.runtimeData s ∧ F.json s = some doc ∧ NamesKey doc (L.rsaE k) (L.rsaN k)
  wf : q.Wf
  quote : ev.msg = q.wire
  signed : ∃ s, s.length = 256 ∧ ev.sig = sigWire s ∧ L.rsaVerify k (L.sha256 q.wire) s = true
  registers : ps.length = 24 ∧ (∀ p ∈ ps, p.length = 32) ∧ ev.pcrs = ps.flatten ∧ q.digest = L.sha256 ps.flatten
  nonce : q.nonce = L.sha256 ev.attestationData

/-- The values that a report has for the minimums, and which byte each is. -/
def reportValues : List (List Char × Nat) :=
  [("snp_platform_version_boot_loader".toList, 56), ("snp_platform_version_tee".toList, 57), ("snp_platform_version_snp".toList, 62),
    ("snp_platform_version_microcode".toList, 63), ("snp_reported_tcb_boot_loader".toList, 384), ("snp_reported_tcb_tee".toList, 385),
    ("snp_reported_tcb_snp".toList, 390), ("snp_reported_tcb_microcode".toList, 391)]

/-- The value of a report under a name. -/
def reportValue (r name : Bytes) : Option Bytes :=
  (reportValues.find? fun p => ascii p.1 = name).map fun p => (r.drop p.2).take 1

/-- The lower of two values; one that is missing does not count. -/
def lowerValue : Option Bytes → Option Bytes → Option Bytes
  | some a, some b => some (min a b)
  | some a, none => some a
  | none, b => b

/-- The registers that have to be the same (boot loader, kernel, command line, initial file system, secure boot state, ...). -/
def sameRegisters : List Nat := [2, 3, 4, 7, 8, 9, 11, 12, 13, 14]

end Svr.Spec
