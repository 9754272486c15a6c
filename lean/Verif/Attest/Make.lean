import Verif.Attest.Tpm2Snp
import Verif.Attest.Nitro
import Verif.Attest.Sgx
import Verif.Env.Log

/-!
# Model of `Evidence` and `Init` of the environments: how evidence is made

Commands, devices, the TPM, the security module and OpenEnclave are parameters: for each call there is one that says what it gives. The texts that
protobuf makes of messages are given (`Wire`); that this succeeds, and that messages are not larger than protobuf allows, is taken for granted.
Logging is left out, but not that `LOG(FATAL)` stops the enclave (`abort`) only if the level that is written, `lvl`, is high enough; `CHECK` always does.
-/

namespace Svr.Attest.Make

open Tpm2Snp (Evidence Endorsements Formats)

/-- Errors of `Evidence`. -/
inductive MErr
  | openFile | tmpDir | getEvidence | tool | parseEvidence | parseEndorsements | ioctl | firmware | reportSize | sev (e : Sev.Err)
  | attestationFailure | customClaims
deriving DecidableEq

/-- What opening and reading a file gives: the result of `open`, and those of the calls of `read`, with `none` for an error. Once the list is at its
end, `read` returns 0. -/
structure File where
  fd : Int
  reads : List (Option Bytes)

/-- The loop of `FileContents` (enclave/fs/fs.cc:28-30) and the check after it. -/
def readAll : List (Option Bytes) → Bytes → Except MErr Bytes
  | [], out => .ok out
  | none :: _, _ => .error .openFile
  | some [] :: _, out => .ok out
  | some (b :: bs) :: l, out => readAll l (out ++ b :: bs)

/-- `FileContents` (enclave/fs/fs.cc:20-39). A descriptor of 0 is taken for an error. -/
def File.contents (f : File) : Except MErr Bytes :=
  if f.fd ≤ 0 then .error .openFile else readAll f.reads []

/-- `SerializeToString` of the messages that evidence consists of. -/
structure Wire where
  evidence : Evidence → Bytes
  endorsements : Endorsements → Bytes

/-- The members of the environments for Azure and GCP (enclave/env/azuresnp/azuresnp.cc:239-241, enclave/env/gcpsnp/gcpsnp.cc:271-273). -/
structure Env where
  evidence : Evidence
  endorsements : Endorsements
  loc : List Bytes

/-- What a call that returns an error or a value does when it succeeds. -/
def andThen (x : Except MErr α) (f : α → Out (Except MErr β)) : Out (Except MErr β) :=
  match x with
  | .ok a => f a
  | .error e => .ok (.error e)

/-- What a call in `Init` does when it succeeds; otherwise there is a `CHECK`. -/
def orDie (x : Except ε α) (f : α → Out β) : Out β :=
  match x with
  | .ok a => f a
  | .error _ => .abort

/-- What a call in `Init` does when it succeeds; otherwise there is a `LOG(FATAL)`, and if that does not stop the enclave, it goes on with what the
call has left, `left`. -/
def orLog (lvl : Int) (x : Except ε α) (left : α) (f : α → Out β) : Out β :=
  match x with
  | .ok a => f a
  | .error _ => Log.fatal lvl >>= fun _ => f left

/-! ## Azure -/

/-- The files that `tpm2_quote` writes. -/
structure Quoted where
  msg : File
  sig : File
  pcrs : File

/-- What a call of `CurrentEvidence` finds: whether the temporary directory can be made, and what `tpm2_quote` writes given what follows `-q`, if
its exit status is 0. -/
structure QuoteRun where
  tmp : Bool
  quote : Bytes → Option Quoted

/-- `CurrentEvidence` (enclave/env/azuresnp/azuresnp.cc:197-237), with the serialized attestation data. `evidence` is an empty message before
`MergeFrom`. -/
def azureCurrent (L : Lib) (run : QuoteRun) (base : Evidence) (serialized : Bytes) : Out (Except MErr Evidence) :=
  if run.tmp = false then .ok (.error .tmpDir)
  else Codec.bytesToHex (L.sha256 serialized) >>= fun hex =>
    match run.quote hex with
    | none => .ok (.error .getEvidence)
    | some o =>
      andThen o.msg.contents fun msg =>
      andThen o.sig.contents fun sig =>
      andThen o.pcrs.contents fun pcrs =>
      .ok (.ok { base with attestationData := serialized, pcrs := pcrs, msg := msg, sig := sig })

/-- `Evidence` (enclave/env/azuresnp/azuresnp.cc:44-64) when not simulated: evidence and endorsements. -/
def azureEvidence (L : Lib) (S : Wire) (run : QuoteRun) (A : Env) (serialized : Bytes) : Out (Except MErr (Bytes × Bytes)) :=
  azureCurrent L run A.evidence serialized >>= fun
  | .error e => .ok (.error e)
  | .ok ev => .ok (.ok (S.evidence ev, S.endorsements A.endorsements))

/-- What `Init` finds on Azure: for each command whether a try of it has exit status 0, and the files that they write. `junk` is what `local_pcrs_`
holds if nothing is stored in it: it is not initialised, and reading it is undefined behaviour in the strict sense. -/
structure AzureWorld where
  tmp : Bool
  commands : List (Nat → Bool)
  report : File
  akcert : File
  intermediate : File
  vcek : File
  ask : File
  first : QuoteRun
  second : QuoteRun
  junk : List Bytes

/-- The check of `Init` that its own evidence is accepted (enclave/env/azuresnp/azuresnp.cc:182-186, enclave/env/gcpsnp/gcpsnp.cc:145-150). -/
def selfCheck (L : Lib) (F : Formats) (amd roots : List L.Cert) (lvl now : Int) (A : Env) (x : Except MErr (Bytes × Bytes)) : Out Env :=
  match x with
  | .error _ => Log.fatal lvl >>= fun _ => .ok A
  | .ok a => Tpm2Snp.attest L F amd roots A.loc now a.1 a.2 >>= fun
    | .error _ => Log.fatal lvl >>= fun _ => .ok A
    | .ok _ => .ok A

/-- What `local_pcrs_` is set to: `pcrs` if there are such and they have the right size, and otherwise it stays what it was. -/
def ownPcrs (lvl : Int) (pcrs : Option Bytes) (junk : List Bytes) : Out (List Bytes) :=
  match pcrs.bind Tpm2.pcrsFromString with
  | none => Log.fatal lvl >>= fun _ => .ok junk
  | some loc => .ok loc

/-- `Init` (enclave/env/azuresnp/azuresnp.cc:94-193) when not simulated, at the time `now`, when the level that is written is `lvl`. Each command is
tried up to six times. Calls that fail leave an empty string. The event log is only logged. -/
def azureInit (L : Lib) (F : Formats) (amd roots : List L.Cert) (S : Wire) (w : AzureWorld) (lvl now : Int) : Out Env :=
  (if w.tmp = false then Log.fatal lvl else .ok ()) >>= fun _ =>
  (if ¬ w.commands.all fun ok => (List.range 6).any ok then Log.fatal lvl else .ok ()) >>= fun _ =>
  orLog lvl w.report.contents [] fun report =>
  orLog lvl w.akcert.contents [] fun akcert =>
  orLog lvl w.intermediate.contents [] fun intermediate =>
  orLog lvl w.vcek.contents [] fun vcek =>
  orLog lvl w.ask.contents [] fun ask =>
  orLog lvl (Tpm2Snp.snpReportOfAzure report) [] fun snp =>
  orLog lvl (Tpm2Snp.runtimeDataOfAzure report) [] fun runtime =>
  let base : Evidence := { attestationData := [], pcrs := [], msg := [], sig := [], snpReport := snp, runtimeData := runtime, akcert := akcert }
  azureCurrent L w.first base [] >>= fun x =>
  ownPcrs lvl (x.toOption.map (·.pcrs)) w.junk >>= fun loc =>
  let A : Env := ⟨base, ⟨intermediate, vcek, ask⟩, loc⟩
  azureEvidence L S w.second A [] >>= selfCheck L F amd roots lvl now A

/-! ## GCP -/

/-- What a call of `GcpEvidenceAndEndorsements` finds: whether the temporary directory can be made, and the files that `svr3gcp` writes given what
follows `--nonce_hex=`, if its exit status is 0. -/
structure ToolRun where
  tmp : Bool
  tool : Bytes → Option (File × File)

/-- `GcpEvidenceAndEndorsements` (enclave/env/gcpsnp/gcpsnp.cc:178-208); `both` is whether endorsements are asked for too. -/
def gcpTool (F : Formats) (run : ToolRun) (nonce : Bytes) (both : Bool) : Out (Except MErr (Evidence × Endorsements)) :=
  if run.tmp = false then .ok (.error .tmpDir)
  else Codec.bytesToHex nonce >>= fun hex =>
    match run.tool hex with
    | none => .ok (.error .tool)
    | some o =>
      andThen o.1.contents fun b =>
      match F.evidence b with
      | none => .ok (.error .parseEvidence)
      | some ev =>
        if both = false then .ok (.ok (ev, ⟨[], [], []⟩))
        else andThen o.2.contents fun b =>
          match F.endorsements b with
          | none => .ok (.error .parseEndorsements)
          | some en => .ok (.ok (ev, en))

/-- A field of a message after `MergeFrom`: a field that is empty in the other message is left as it is. -/
def mergeField (a b : Bytes) : Bytes := if b.isEmpty then a else b

/-- `TPM2SNPEvidence::MergeFrom` (protobuf). -/
def merge (a b : Evidence) : Evidence where
  attestationData := mergeField a.attestationData b.attestationData
  pcrs := mergeField a.pcrs b.pcrs
  msg := mergeField a.msg b.msg
  sig := mergeField a.sig b.sig
  snpReport := mergeField a.snpReport b.snpReport
  runtimeData := mergeField a.runtimeData b.runtimeData
  akcert := mergeField a.akcert b.akcert

/-- `Evidence` (enclave/env/gcpsnp/gcpsnp.cc:50-78) when not simulated: evidence and endorsements. -/
def gcpEvidence (L : Lib) (F : Formats) (S : Wire) (run : ToolRun) (A : Env) (serialized : Bytes) : Out (Except MErr (Bytes × Bytes)) :=
  gcpTool F run (L.sha256 serialized) false >>= fun
  | .error e => .ok (.error e)
  | .ok (cur, _) => .ok (.ok (S.evidence { merge A.evidence cur with attestationData := serialized }, S.endorsements A.endorsements))

/-- What the SEV device answers: the result of `ioctl`, the two errors, the status and size in the response, the report, and the buffer
for certificates with the length that the request says it has. -/
structure SnpAnswer where
  ioctl : Int
  fwError : Nat
  vmmError : Nat
  status : Nat
  size : Nat
  report : Bytes
  certs : Bytes
  certsLen : Nat

/-- What `SnpReport` finds: the results of opening the devices, and the answer to the 64 bytes of user data. -/
structure SnpRun where
  fds : List Int
  answer : Bytes → SnpAnswer

/-- `SnpReport` (enclave/env/gcpsnp/gcpsnp.cc:210-269): the report and the certificates. The user data is the nonce and zeros. -/
def snpReport (run : SnpRun) (nonce : Bytes) : Out (Except MErr (Bytes × Sev.Endorsements)) :=
  if ¬ 64 ≥ nonce.length then .abort
  else if ¬ run.fds.any (fun fd => fd > 0) then .abort
  else
    let a := run.answer (nonce ++ zeros (64 - nonce.length))
    if a.ioctl < 0 then .ok (.error .ioctl)
    else if a.fwError ≠ 0 ∨ a.vmmError ≠ 0 ∨ a.status ≠ 0 then .ok (.error .firmware)
    else if a.size ≠ 1184 then .ok (.error .reportSize)
    else Sev.certificatesToEndorsements a.certs a.certsLen ⟨[], [], [], [], []⟩ >>= fun
      | .error e => .ok (.error (.sev e))
      | .ok en => .ok (.ok (a.report, en))

/-- What `Init` finds on GCP. The nonce of its first quote is not initialised before it is read, which is undefined behaviour in the strict sense;
here it is whatever the bytes are. So it is with `local_pcrs_` (`junk`), should nothing be stored in it. `left` and `leftSnp` are what the tool and the
device leave in case of an error. -/
structure GcpWorld where
  nonce : Bytes
  first : ToolRun
  snp : SnpRun
  second : ToolRun
  junk : List Bytes
  left : Evidence × Endorsements
  leftSnp : Sev.Endorsements

/-- The runtime data for a certificate (enclave/env/gcpsnp/gcpsnp.cc:115-123). `X509_get_pubkey` gives no key for a null pointer. -/
def gcpRuntime (L : Lib) (lvl : Int) (akcert : Bytes) : Out (Except Tpm2Snp.Err Bytes) :=
  match L.d2i akcert with
  | none => Log.fatal lvl >>= fun _ => .ok (.error .akPubKey)
  | some (ak, _) => Tpm2Snp.azureRuntimeData L ak

/-- `Init` (enclave/env/gcpsnp/gcpsnp.cc:106-161) when not simulated, at the time `now`, when the level that is written is `lvl`. The event log is only
logged. -/
def gcpInit (L : Lib) (F : Formats) (amd roots : List L.Cert) (S : Wire) (w : GcpWorld) (lvl now : Int) : Out Env :=
  gcpTool F w.first w.nonce true >>= fun x => orLog lvl x w.left fun (ev, en) =>
  gcpRuntime L lvl ev.akcert >>= fun y => orLog lvl y [] fun runtime =>
  snpReport w.snp (L.sha256 runtime) >>= fun z => orLog lvl z ([], w.leftSnp) fun (report, sev) =>
  let base : Evidence := { ev with runtimeData := runtime, snpReport := report }
  ownPcrs lvl (some base.pcrs) w.junk >>= fun loc =>
  let A : Env := ⟨base, { en with vcek := sev.vcek, ask := sev.ask }, loc⟩
  gcpEvidence L F S w.second A [] >>= selfCheck L F amd roots lvl now A

/-! ## Nitro -/

/-- `Evidence` (enclave/env/nsm/nsm.cc:37-63) when not simulated; `nsm` is `nsm_get_attestation_doc` with the user data. -/
def nitroEvidence (nsm : Bytes → Option Bytes) (serialized : Bytes) : Except MErr Bytes :=
  match nsm serialized with
  | none => .error .attestationFailure
  | some doc => .ok doc

/-- `Init` (enclave/env/nsm/nsm.cc:121-142) when not simulated: the own registers. `zeroKey` is the attestation data with a key of zeros. Neither the
signature nor the certificate is verified. -/
def nitroInit (W : Nitro.World) (nsm : Bytes → Option Bytes) (zeroKey : Bytes) : Out (OMap Int Bytes) :=
  orDie (nitroEvidence nsm zeroKey) fun evidence =>
  Nitro.Cose.parse W evidence >>= fun x => orDie x fun cose =>
  Nitro.Doc.parse W cose.payload >>= fun y => orDie y fun doc => .ok doc.pcrs

/-! ## SGX -/

/-- OpenEnclave's functions that make evidence. -/
structure Oe where
  /-- `oe_serialize_custom_claims` -/
  serialize : List Sgx.Claim → Option Bytes
  /-- `oe_get_evidence`: evidence and endorsements -/
  get : Bytes → Option (Bytes × Bytes)
  /-- `oe_verify_evidence` without a policy -/
  verify : Bytes → Bytes → Option (List Sgx.Claim)

/-- `Evidence` (enclave/env/sgx/sgx.cc:57-127) when not simulated, with the key and the serialized configuration and limits. -/
def sgxEvidence (O : Oe) (key config limits : Bytes) : Except MErr (Bytes × Bytes) :=
  match O.serialize [⟨Sev.str "pk", key⟩, ⟨Sev.str "config", config⟩, ⟨Sev.str "minimum_limits", limits⟩] with
  | none => .error .customClaims
  | some claims =>
    match O.get claims with
    | none => .error .getEvidence
    | some e => .ok e

/-- The constructor and `GetMRENCLAVE` (enclave/env/sgx/sgx.cc:34-48, 247-274) with `VerifyAndReadClaims`
(enclave/attestation/oe/attestation.cc:83-101): the own MRENCLAVE. -/
def sgxInit (O : Oe) : Out Bytes :=
  orDie (sgxEvidence O (zeros 32) [] []) fun (evidence, endorsements) =>
  match O.verify evidence endorsements with
  | none => .abort
  | some claims =>
    match Sgx.findClaim claims "unique_id" with
    | none => .abort
    | some v => .ok v

/-! ## Simulated environments -/

/-- `SimulatedEvidence` (enclave/env/socket/socket.cc:131-137, enclave/env/sgx/sgx.cc:62-65); the text before the data differs. -/
def simulatedEvidence (tag serialized : Bytes) : Bytes := tag ++ serialized

/-- `SimulatedAttest` (enclave/env/socket/socket.cc:139-152, enclave/env/sgx/sgx.cc:149-159). -/
def simulatedAttest (L : Lib) (tag evidence : Bytes) : Option Data :=
  if evidence.take tag.length ≠ tag then none else L.parseData (evidence.drop tag.length)

end Svr.Attest.Make
