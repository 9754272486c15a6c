import Verif.Attest.Lib

/-!
# Model of `enclave/attestation/tpm2/tpm2.cc`

A pointer into the buffer of a report is modelled by what is left of the buffer from there on: `d + n > e` is
`d.length < n`. The code forms `d + n` before it compares, which may point past the end of the buffer; that is not modelled
(on the platform it is a comparison of addresses).
-/

namespace Svr.Attest.Tpm2

/-- A big endian integer of `n` bytes at a pointer; past the end is undefined behaviour. -/
def beAt (n : Nat) (d : Bytes) : Out Nat := if d.length < n then .ub else .ok (be (d.take n))

/-- `Clock` (enclave/attestation/tpm2/tpm2.h:28-33). -/
structure Clock where
  millis : Nat
  resets : Nat
  restarts : Nat
  safe : Bool

/-- `Report` (enclave/attestation/tpm2/tpm2.h:65-71): offsets into `data`. -/
structure Report where
  data : Bytes
  keyOff : Nat
  nonceOff : Nat
  clock : Clock
  firmware : Nat
  pcrOff : Nat

/-- `Report::Parse`, `Report::FromString` (enclave/attestation/tpm2/tpm2.cc:22-118); `none` is `false`. -/
def Report.parse (data : Bytes) : Out (Option Report) := do
  let d := data
  if d.length < 4 then return none
  if (← beAt 4 d) ≠ 0xff544347 then return none
  let d := d.drop 4
  if d.length < 2 then return none
  if (← beAt 2 d) ≠ 0x8018 then return none
  let d := d.drop 2
  if d.length < 32 + 2 + 2 then return none
  if (← beAt 2 d) ≠ 2 + 32 then return none
  if (← beAt 2 (d.drop 2)) ≠ 0x000b then return none
  let d := d.drop (2 + 2)
  let keyOff := data.length - d.length
  let d := d.drop 32
  if d.length < 2 then return none
  if (← beAt 2 d) ≠ 32 then return none
  let d := d.drop 2
  if d.length < 32 then return none
  let nonceOff := data.length - d.length
  let d := d.drop 32
  if d.length < 17 then return none
  let millis ← beAt 8 d
  let d := d.drop 8
  let resets ← beAt 4 d
  let d := d.drop 4
  let restarts ← beAt 4 d
  let d := d.drop 4
  let safe ← beAt 1 d
  let d := d.drop 1
  if d.length < 8 then return none
  let firmware ← beAt 8 d
  let d := d.drop 8
  if d.length < 4 then return none
  if (← beAt 4 d) ≠ 1 then return none
  let d := d.drop 4
  if d.length < 2 then return none
  if (← beAt 2 d) ≠ 0x000b then return none
  let d := d.drop 2
  if d.length < 4 then return none
  if (← beAt 4 d) ≠ 0x03ffffff then return none
  let d := d.drop 4
  if d.length < 2 then return none
  if (← beAt 2 d) ≠ 32 then return none
  let d := d.drop 2
  if d.length < 32 then return none
  let pcrOff := data.length - d.length
  let d := d.drop 32
  if d ≠ [] then return none
  return some { data, keyOff, nonceOff, clock := { millis, resets, restarts, safe := safe == 1 }, firmware, pcrOff }

/-- `Report::key_hash`, `nonce`, `pcr_digest` (enclave/attestation/tpm2/tpm2.h:43-51). -/
def Report.keyHash (r : Report) : Out Bytes := rd r.data r.keyOff 32
@[inherit_doc Report.keyHash] def Report.nonce (r : Report) : Out Bytes := rd r.data r.nonceOff 32
@[inherit_doc Report.keyHash] def Report.pcrDigest (r : Report) : Out Bytes := rd r.data r.pcrOff 32

/-- `PCRsFromString` (enclave/attestation/tpm2/tpm2.cc:134-144): the 24 values, or the error. -/
def pcrsFromString (data : Bytes) : Option (List Bytes) :=
  if data.length ≠ 24 * 32 then none
  else some ((List.range 24).map fun i => (data.drop (32 * i)).take 32)

/-- `Report::VerifyPCRs` (enclave/attestation/tpm2/tpm2.cc:120-132). -/
def Report.verifyPCRs (L : Lib) (r : Report) (pcrs : List Bytes) : Out Bool := do
  let digest := L.sha256 pcrs.flatten
  let want ← r.pcrDigest
  return ctEqBytes digest want 32 0 == 0

/-- `Signature::Parse`, `Signature::FromString` (enclave/attestation/tpm2/tpm2.cc:171-195): the 256 bytes of the signature. -/
def sigParse (data : Bytes) : Out (Option Bytes) := do
  if data.length ≠ 262 then return none
  if (← beAt 2 data) ≠ 0x0014 then return none
  if (← beAt 2 (data.drop 2)) ≠ 0x000b then return none
  if (← beAt 2 (data.drop 4)) ≠ 0x0100 then return none
  return some (← rd data 6 256)

/-- What `Signature::VerifyReport` returns. -/
inductive SigErr | allocate | notRsa | verify
deriving DecidableEq

/-- `Signature::VerifyReport` (enclave/attestation/tpm2/tpm2.cc:197-216). -/
def verifyReport (L : Lib) (sig : Bytes) (r : Report) (cert : L.Cert) : Except SigErr Unit :=
  match L.pub cert with
  | none => .error .allocate
  | some (.rsa k) => if L.rsaVerify k (L.sha256 r.data) sig then .ok () else .error .verify
  | some _ => .error .notRsa

end Svr.Attest.Tpm2
