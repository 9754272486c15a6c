import Verif.Attest.Lib

/-!
# Model of `enclave/attestation/sev/sev.cc`

`attestation_report` comes from the submodule `enclave/sev-guest`, which is not in the repository. Its layout and the constants
`POLICY_MIGRATE_MA_MASK`, `POLICY_DEBUG_MASK` and `SIG_ALGO_ECDSA_P384_SHA384` are taken from AMD's "SEV Secure Nested Paging Firmware ABI
Specification" (tables 9, 22 and 139); the size of 1184 bytes agrees with enclave/attestation/tpm2snp/tpm2snp.cc:134.
-/

namespace Svr.Attest.Sev

open Minimums (Values)

/-- The errors of this file (shared/proto/error.proto:260-276), as far as they can occur. -/
inductive Err
  | entryTooLarge | certTooLarge | evidenceTooSmall | parseEndorsements | badCert | unsupported | allocate | signature | chain
  | hostData | measurement | debug | migration
deriving DecidableEq

/-- `attestation_report`: its 1184 bytes. -/
structure Report where
  raw : Bytes

/-- Bytes of a report. -/
def Report.at (r : Report) (off n : Nat) : Bytes := (r.raw.drop off).take n

def Report.version (r : Report) : Nat := le (r.at 0 4)
def Report.policy (r : Report) : Nat := le (r.at 8 8)
def Report.signatureAlgo (r : Report) : Nat := le (r.at 52 4)
def Report.platformVersion (r : Report) : Bytes := r.at 56 8
def Report.flags (r : Report) : Nat := le (r.at 72 4)
def Report.reportData (r : Report) : Bytes := r.at 80 64
def Report.measurement (r : Report) : Bytes := r.at 144 48
def Report.hostData (r : Report) : Bytes := r.at 192 32
def Report.reportedTcb (r : Report) : Bytes := r.at 384 8
/-- All that precedes the signature. -/
def Report.signed (r : Report) : Bytes := r.at 0 672
def Report.sigR (r : Report) : Nat := le (r.at 672 48)
def Report.sigS (r : Report) : Nat := le (r.at 744 48)

/-- `ValidateReport` (enclave/attestation/sev/sev.cc:148-160). -/
def validateReport (r : Report) : Except Err Unit :=
  if r.policy.testBit 18 then .error .migration
  else if r.policy.testBit 19 then .error .debug
  else if r.version ≠ 2 ∨ r.signatureAlgo ≠ 1 ∨ r.flags &&& (0x04 ||| 0x08) ≠ 0 then .error .unsupported
  else .ok ()

/-- `AllowRemote` (enclave/attestation/sev/sev.cc:162-170). -/
def allowRemote (loc rem : Report) : Except Err Unit := do
  validateReport rem
  if ctEqBytes loc.measurement rem.measurement 48 0 ≠ 0 then .error .measurement
  else if ctEqBytes loc.hostData rem.hostData 32 0 ≠ 0 then .error .hostData
  else .ok ()

/-- `ReportFromUnverifiedBuffer` (enclave/attestation/sev/sev.cc:172-180). -/
def reportFromBuffer (b : Bytes) : Except Err Report :=
  if b.length < 1184 then .error .evidenceTooSmall else .ok ⟨b.take 1184⟩

/-- The bytes of a C string literal. -/
def str (s : String) : Bytes := s.toList.map fun c => UInt8.ofNat c.toNat

/-- `Minimums::U8` (enclave/minimums/minimums.h:39-42) of a byte of a version. -/
def u8 (v : Bytes) (i : Nat) : Bytes := (v.drop i).take 1

/-- `MinimumsFromReport` (enclave/attestation/sev/sev.cc:184-196). The bytes of a version are those of `union tcb_version`: boot loader,
TEE, four that are reserved, SNP, microcode. -/
def minimumsFromReport (r : Report) : Values :=
  (((((((OMap.empty.insert (str "snp_platform_version_boot_loader") (u8 r.platformVersion 0)).insert
    (str "snp_platform_version_tee") (u8 r.platformVersion 1)).insert
    (str "snp_platform_version_snp") (u8 r.platformVersion 6)).insert
    (str "snp_platform_version_microcode") (u8 r.platformVersion 7)).insert
    (str "snp_reported_tcb_boot_loader") (u8 r.reportedTcb 0)).insert
    (str "snp_reported_tcb_tee") (u8 r.reportedTcb 1)).insert
    (str "snp_reported_tcb_snp") (u8 r.reportedTcb 6)).insert
    (str "snp_reported_tcb_microcode") (u8 r.reportedTcb 7)

/-! ## The table of certificates of the hypervisor -/

/-- `SevSnpEndorsements` (shared/proto/sev.proto). -/
structure Endorsements where
  vcek : Bytes
  ask : Bytes
  ark : Bytes
  vlek : Bytes
  crl : Bytes
deriving DecidableEq

/-- The GUIDs (enclave/attestation/sev/sev.cc:41-45). -/
def uuidVcek : Bytes := [0x63, 0xda, 0x75, 0x8d, 0xe6, 0x64, 0x45, 0x64, 0xad, 0xc5, 0xf4, 0xb9, 0x3b, 0xe8, 0xac, 0xcd]
@[inherit_doc uuidVcek] def uuidAsk : Bytes := [0x4a, 0xb7, 0xb3, 0x79, 0xbb, 0xac, 0x4f, 0xe4, 0xa0, 0x2f, 0x05, 0xae, 0xf3, 0x27, 0xc7, 0x82]
@[inherit_doc uuidVcek] def uuidArk : Bytes := [0xc0, 0xb4, 0x06, 0xa4, 0xa8, 0x03, 0x49, 0x52, 0x97, 0x43, 0x3f, 0xb6, 0x01, 0x4c, 0xd0, 0xae]
@[inherit_doc uuidVcek] def uuidVlek : Bytes := [0xa8, 0x07, 0x4b, 0xc2, 0xa2, 0x5a, 0x48, 0x3e, 0xaa, 0xe6, 0x39, 0xc0, 0x45, 0xa0, 0xb8, 0xa1]
@[inherit_doc uuidVcek] def uuidCrl : Bytes := [0x92, 0xf8, 0x1b, 0xc3, 0x58, 0x11, 0x4d, 0x3d, 0x97, 0xff, 0xd1, 0x9f, 0x88, 0xdc, 0x67, 0xea]

/-- The `switch` on the GUID (enclave/attestation/sev/sev.cc:255-276). It is on the first byte, and then the whole is compared; the first
bytes differ. -/
def setCert (e : Endorsements) (uuid cert : Bytes) : Endorsements :=
  if uuid = uuidVcek then { e with vcek := cert }
  else if uuid = uuidAsk then { e with ask := cert }
  else if uuid = uuidArk then { e with ark := cert }
  else if uuid = uuidVlek then { e with vlek := cert }
  else if uuid = uuidCrl then { e with crl := cert }
  else e

/-- The loop of `CertificatesToEndorsements` (enclave/attestation/sev/sev.cc:230-279) from entry `i` on. `certs` is the buffer, `size` the
argument `certs_size`. `entry_end` and `cert_end` are `uint32_t`. Reading outside of the buffer is undefined behaviour; memory for the
copy of a certificate is taken to suffice. `n` bounds the iterations; each one that goes on has read another 24 bytes of the buffer, so
that `certs.length / 24 + 1` are enough. -/
def table (certs : Bytes) (size : Nat) : Nat → Nat → Endorsements → Out (Except Err Endorsements)
  | 0, _, _ => .ub
  | n + 1, i, e =>
    if 24 * (i + 1) % 2^32 > size then .ok (.error .entryTooLarge)
    else do
      let entry ← rd certs (24 * i) 24
      if entry = zeros 24 then pure (.ok e)
      else do
        let offset := le ((entry.drop 16).take 4)
        let length := le ((entry.drop 20).take 4)
        if offset > size ∨ (offset + length) % 2^32 > size then pure (.error .certTooLarge)
        else do
          let cert ← rd certs offset length
          table certs size n (i + 1) (setCert e (entry.take 16) cert)

/-- `CertificatesToEndorsements` (enclave/attestation/sev/sev.cc:230-279). -/
def certificatesToEndorsements (certs : Bytes) (size : Nat) (e : Endorsements) : Out (Except Err Endorsements) :=
  table certs size (certs.length / 24 + 1) 0 e

/-! ## Verification -/

/-- `ReportFromVerifiedBuffer` (enclave/attestation/sev/sev.cc:285-364), with AMD's root certificates. `EVP_PKEY_get0_EC_KEY` of a key that is
not an elliptic curve key is the null pointer, which `ECDSA_do_verify` dereferences. -/
def reportFromVerifiedBuffer (L : Lib) (roots : List L.Cert) (buffer vcekDer askDer : Bytes) (now : Int) : Out (Except Err Report) :=
  match reportFromBuffer buffer with
  | .error e => .ok (.error e)
  | .ok report =>
    match L.d2i vcekDer, L.d2i askDer with
    | some (vcek, _), some (ask, _) =>
      match L.pub vcek with
      | none => .ok (.error .allocate)
      | some pub =>
        if L.chain roots [ask] vcek now = false then .ok (.error .chain)
        else match pub with
          | .ec k =>
            if L.ecdsa k (L.sha384 report.signed) report.sigR report.sigS then .ok (.ok report) else .ok (.error .signature)
          | _ => .ub
    | _, _ => .ok (.error .badCert)

/-- `DataFromVerifiedAttestation` (enclave/attestation/sev/sev.cc:366-384), with the parser of its endorsements. Only tests call it. -/
def dataFromVerifiedAttestation (L : Lib) (roots : List L.Cert) (parse : Bytes → Option Endorsements) (loc : Report)
    (evidence endorsements : Bytes) (now : Int) : Out (Except Err Data) :=
  match parse endorsements with
  | none => .ok (.error .parseEndorsements)
  | some en => do
    match ← reportFromVerifiedBuffer L roots evidence en.vcek en.ask now with
    | .error e => pure (.error e)
    | .ok report =>
      match allowRemote loc report with
      | .error e => pure (.error e)
      | .ok () => pure (.ok { key := report.reportData.take 32, values := Minimums.combineValues (minimumsFromReport report) OMap.empty })

end Svr.Attest.Sev
