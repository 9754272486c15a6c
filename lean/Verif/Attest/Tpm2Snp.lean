import Verif.Attest.Tpm2
import Verif.Attest.Sev
import Verif.Codec
import Mathlib.Data.Nat.Digits.Defs

/-!
# Model of `enclave/attestation/tpm2snp/tpm2snp.cc`, and of `Attest` on Azure and GCP
-/

namespace Svr.Attest.Tpm2Snp

open Minimums (Values)

/-- `TPM2SNPEvidence` (shared/proto/tpm2snp.proto). -/
structure Evidence where
  attestationData : Bytes
  pcrs : Bytes
  msg : Bytes
  sig : Bytes
  snpReport : Bytes
  runtimeData : Bytes
  akcert : Bytes

/-- `TPM2SNPEndorsements` (shared/proto/tpm2snp.proto). -/
structure Endorsements where
  intermediate : Bytes
  vcek : Bytes
  ask : Bytes

/-- A JSON document as rapidjson has it: objects keep the order of their members. -/
inductive Json
  | null
  | bool (b : Bool)
  | num (n : Int)
  | str (s : Bytes)
  | arr (l : List Json)
  | obj (l : List (Bytes × Json))

/-- Parsers that are libraries. -/
structure Formats where
  /-- `rapidjson::Document::Parse` of a C string -/
  json : Bytes → Option Json
  evidence : Bytes → Option Evidence
  endorsements : Bytes → Option Endorsements

inductive Err
  | akcert | intermediate | akChain | reportData | runtimeJson | akPubKey | akMismatch | pcrs | dataHash | bufferTooSmall
  | base64 (e : Codec.B64Err)
  | sev (e : Sev.Err)
  | parseSignature | parseReport | parsePcrs | verifyReport (e : Tpm2.SigErr) | verifyPcrs
  | parseEvidence | parseEndorsements | simulated
deriving DecidableEq

/-- `SNPReportBufferFromAzureBuffer` (enclave/attestation/tpm2snp/tpm2snp.cc:130-135). -/
def snpReportOfAzure (b : Bytes) : Except Err Bytes :=
  if b.length < 1236 then .error .bufferTooSmall else .ok ((b.drop 32).take 1184)

/-- A string up to its first zero byte (`strnlen`, `c_str()` of a `std::string`, `GetString()`). -/
def cstr (s : Bytes) : Bytes := s.takeWhile (· ≠ 0)

/-- `RuntimeDataBufferFromAzureBuffer` (enclave/attestation/tpm2snp/tpm2snp.cc:137-147). -/
def runtimeDataOfAzure (b : Bytes) : Except Err Bytes :=
  if b.length < 1236 then .error .bufferTooSmall else .ok (cstr (b.drop 1236))

/-- `HasMember(name)` and `[name]`: the first member of that name. On what is not an object rapidjson fails an assertion. -/
def member (j : Json) (name : Bytes) : Out (Option Json) :=
  match j with
  | .obj l => .ok ((l.find? fun p => p.1 = name).map (·.2))
  | _ => .abort

/-- `HasMember(name) && [name].IsString()`, with the C string if so. -/
def memberStr (j : Json) (name : Bytes) : Out (Option Bytes) := do
  match ← member j name with
  | some (.str s) => pure (some (cstr s))
  | _ => pure none

/-- The condition of the loop over the keys (enclave/attestation/tpm2snp/tpm2snp.cc:214-219). -/
def isAkPub (j : Json) : Out Bool := do
  match ← memberStr j (Sev.str "kid") with
  | none => pure false
  | some kid =>
    if kid ≠ Sev.str "HCLAkPub" then pure false
    else do
      match ← memberStr j (Sev.str "kty") with
      | none => pure false
      | some kty => pure (kty == Sev.str "RSA")

/-- The loop over the keys (enclave/attestation/tpm2snp/tpm2snp.cc:211-225): the first that is the attestation key. -/
def findAkPub : List Json → Out (Option Json)
  | [] => .ok none
  | j :: l => do if ← isAkPub j then pure (some j) else findAkPub l

/-- `BN_bn2bin` into a string of `BN_num_bytes`: big endian, without leading zeros. -/
def bn2bin (n : Nat) : Bytes := (Nat.digits 256 n).reverse.map UInt8.ofNat

/-- The part of `VerifyAKCert` that reads the runtime data (enclave/attestation/tpm2snp/tpm2snp.cc:201-237): exponent and modulus. -/
def runtimeKey (F : Formats) (runtime : Bytes) : Out (Except Err (Bytes × Bytes)) :=
  match F.json (cstr runtime) with
  | none => .ok (.error .runtimeJson)
  | some doc => do
    match ← member doc (Sev.str "keys") with
    | some (.arr keys) =>
      if keys.length < 1 then pure (.error .runtimeJson)
      else do
        match ← findAkPub keys with
        | none => pure (.error .runtimeJson)
        | some key =>
          match ← memberStr key (Sev.str "e") with
          | none => pure (.error .runtimeJson)
          | some rte =>
            match ← memberStr key (Sev.str "n") with
            | none => pure (.error .runtimeJson)
            | some rtn =>
              match ← Codec.b64Decode Codec.b64url rte with
              | .error e => pure (.error (.base64 e))
              | .ok rte =>
                match ← Codec.b64Decode Codec.b64url rtn with
                | .error e => pure (.error (.base64 e))
                | .ok rtn => pure (.ok (rte, rtn))
    | _ => pure (.error .runtimeJson)

/-- `VerifyAKCert` (enclave/attestation/tpm2snp/tpm2snp.cc:149-257): the minimum values, or the error. -/
def verifyAKCert (L : Lib) (F : Formats) (amd roots : List L.Cert) (ev : Evidence) (en : Endorsements) (now : Int) :
    Out (Except Err Values) :=
  match L.d2i ev.akcert with
  | none => .ok (.error .akcert)
  | some (ak, _) =>
    match L.d2i en.intermediate with
    | none => .ok (.error .intermediate)
    | some (inter, _) =>
      if L.chain roots [inter] ak now = false then .ok (.error .akChain)
      else do
        match ← Sev.reportFromVerifiedBuffer L amd ev.snpReport en.vcek en.ask now with
        | .error e => pure (.error (.sev e))
        | .ok report =>
          if ctEqBytes (L.sha256 ev.runtimeData) report.reportData 32 0 ≠ 0 then pure (.error .reportData)
          else do
            match ← runtimeKey F ev.runtimeData with
            | .error e => pure (.error e)
            | .ok (rte, rtn) =>
              match L.pub ak with
              | some (.rsa k) =>
                if ctEq rte (bn2bin (L.rsaE k)) && ctEq rtn (bn2bin (L.rsaN k)) then
                  pure (.ok (Minimums.combineValues (Sev.minimumsFromReport report) OMap.empty))
                else pure (.error .akMismatch)
              | _ => pure (.error .akPubKey)

/-- The registers that `CheckRemotePCRs` compares (enclave/attestation/tpm2snp/tpm2snp.cc:272-289). -/
def comparedPCRs : List Nat := [2, 3, 4, 7, 8, 9, 11, 12, 13, 14]

/-- `ConstantTimeEquals(local[i], remote[i])` (enclave/attestation/tpm2snp/tpm2snp.cc:291). Both are arrays of 24 arrays, so that the last
case does not occur. -/
def sameAt (loc rem : List Bytes) (i : Nat) : Bool :=
  match loc[i]?, rem[i]? with
  | some a, some b => ctEq a b
  | _, _ => false

/-- `CheckRemotePCRs` (enclave/attestation/tpm2snp/tpm2snp.cc:259-297). -/
def checkRemotePCRs (loc rem : List Bytes) : Bool := comparedPCRs.foldl (fun eq i => eq && sameAt loc rem i) true

/-- `VerifyTPM2` (enclave/attestation/tpm2snp/tpm2snp.cc:321-345): nonce and registers. -/
def verifyTPM2 (L : Lib) (ev : Evidence) : Out (Except Err (Bytes × List Bytes)) := do
  match ← Tpm2.sigParse ev.sig with
  | none => pure (.error .parseSignature)
  | some sig =>
    match ← Tpm2.Report.parse ev.msg with
    | none => pure (.error .parseReport)
    | some msg =>
      match Tpm2.pcrsFromString ev.pcrs with
      | none => pure (.error .parsePcrs)
      | some pcrs =>
        match L.d2i ev.akcert with
        | none => pure (.error .parseEvidence)
        | some (ak, _) =>
          match Tpm2.verifyReport L sig msg ak with
          | .error e => pure (.error (.verifyReport e))
          | .ok () =>
            if ← msg.verifyPCRs L pcrs then return .ok (← msg.nonce, pcrs)
            else pure (.error .verifyPcrs)

/-- `CompleteVerification` (enclave/attestation/tpm2snp/tpm2snp.cc:347-377). -/
def completeVerification (L : Lib) (F : Formats) (amd roots : List L.Cert) (loc : List Bytes) (ev : Evidence) (en : Endorsements)
    (now : Int) : Out (Except Err Data) := do
  match ← verifyAKCert L F amd roots ev en now with
  | .error e => pure (.error e)
  | .ok mins =>
    match ← verifyTPM2 L ev with
    | .error e => pure (.error e)
    | .ok (nonce, pcrs) =>
      if checkRemotePCRs loc pcrs = false then pure (.error .pcrs)
      else if ctEq (L.sha256 ev.attestationData) nonce = false then pure (.error .dataHash)
      else match L.parseData ev.attestationData with
        | none => pure (.error .parseEvidence)
        | some d => pure (.ok { d with values := Minimums.combineValues mins d.values })

/-- `Attest` of the environments for Azure and GCP that are not simulated (enclave/env/azuresnp/azuresnp.cc:66-88,
enclave/env/gcpsnp/gcpsnp.cc:81-100); they differ in `roots`. -/
def attest (L : Lib) (F : Formats) (amd roots : List L.Cert) (loc : List Bytes) (now : Int) (evidence endorsements : Bytes) :
    Out (Except Err Data) :=
  match F.evidence evidence with
  | none => .ok (.error .parseEvidence)
  | some ev =>
    match F.endorsements endorsements with
    | none => .ok (.error .parseEndorsements)
    | some en => completeVerification L F amd roots loc ev en now

/-- `AzureRuntimeDataFromCert` (enclave/attestation/tpm2snp/tpm2snp.cc:299-319). -/
def azureRuntimeData (L : Lib) (cert : L.Cert) : Out (Except Err Bytes) :=
  match L.pub cert with
  | some (.rsa k) => do
    let e ← Codec.b64Encode Codec.b64url false (bn2bin (L.rsaE k))
    let n ← Codec.b64Encode Codec.b64url false (bn2bin (L.rsaN k))
    pure (.ok (Sev.str "{\"keys\":[{\"kid\":\"HCLAkPub\",\"kty\":\"RSA\",\"e\":\"" ++ e ++ Sev.str "\",\"n\":\"" ++ n ++ Sev.str "\"}]}"))
  | _ => .ok (.error .akPubKey)

end Svr.Attest.Tpm2Snp
