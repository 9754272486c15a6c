import Verif.Attest.Tpm2Snp

/-!
# Model of `Attest` on SGX: `enclave/env/sgx/sgx.cc` and `enclave/attestation/oe/attestation.cc`

OpenEnclave verifies the evidence and returns claims; this is a parameter. The names of its standard claims are those of its headers, which are
not in the repository; only that they differ matters.
-/

namespace Svr.Attest.Sgx

open Minimums (Values)
open Tpm2Snp (Json member)
open Sev (str)

/-- `oe_claim_t`. -/
structure Claim where
  name : Bytes
  value : Bytes

/-- `struct tm`, and `oe_datetime_t`. -/
structure Time where
  year : Int
  month : Int
  day : Int
  hours : Int
  minutes : Int
  seconds : Int
deriving DecidableEq

/-- What is outside of the enclave's code. -/
structure World where
  /-- `gmtime_r`, which fails if the year does not fit an `int` -/
  gmtime : Int → Option Time
  /-- `oe_verify_evidence` at a time: evidence and endorsements to claims -/
  verify : Time → Bytes → Bytes → Option (List Claim)
  /-- `oe_deserialize_custom_claims` -/
  custom : Bytes → Option (List Claim)
  /-- `rapidjson::Document::Parse` of a buffer -/
  json : Bytes → Option Json

inductive Err
  | verify | missingMrenclave | wrongMrenclave | tcbInfo | customMissing | customDeserialize | keyMissing | keySize
deriving DecidableEq

/-- `SecsToOEDatetime` (enclave/env/sgx/sgx.cc:297-313). If `gmtime_r` fails its result is read uninitialised. -/
def datetime (W : World) (secs : Int) : Out Time :=
  match W.gmtime secs with
  | none => .ub
  | some t => .ok { t with year := t.year + 1900, month := t.month + 1 }

/-- `FindClaim` (enclave/attestation/oe/attestation.cc:33-39). -/
def findClaim (claims : List Claim) (name : String) : Option Bytes :=
  (claims.find? fun c => c.name == str name).map (·.value)

/-- `ValidateStandardClaims` (enclave/env/sgx/sgx.cc:276-295). -/
def validateClaims (expected : Bytes) (claims : List Claim) : Except Err Unit :=
  match findClaim claims "unique_id" with
  | none => .error .missingMrenclave
  | some v => if ctEq v expected then .ok () else .error .wrongMrenclave

/-- `TcbEvaluationDataNumber` (enclave/attestation/oe/attestation.cc:103-130): an `int` that becomes a `uint64_t`. -/
def tcbNumber (W : World) (claims : List Claim) : Out (Except Err Nat) :=
  match findClaim claims "sgx_tcb_info" with
  | none => .ok (.error .tcbInfo)
  | some v =>
    match W.json v with
    | none => .ok (.error .tcbInfo)
    | some d => member d (str "tcbInfo") >>= fun
      | some (.obj l) => member (.obj l) (str "tcbEvaluationDataNumber") >>= fun
        | some (.num n) => if -2^31 ≤ n ∧ n < 2^31 then .ok (.ok (n % 2^64).toNat) else .ok (.error .tcbInfo)
        | _ => .ok (.error .tcbInfo)
      | _ => .ok (.error .tcbInfo)

/-- `ReadKeyFromVerifiedClaims` (enclave/attestation/oe/attestation.cc:41-81). The first custom claim is read without a check that there is one. -/
def readKey (W : World) (claims : List Claim) : Out (Except Err Bytes) :=
  match findClaim claims "custom_claims_buffer" with
  | none => .ok (.error .customMissing)
  | some v =>
    match W.custom v with
    | none => .ok (.error .customDeserialize)
    | some [] => .ub
    | some (c :: _) =>
      if c.name ≠ str "pk" then .ok (.error .keyMissing)
      else if c.value.length ≠ 32 then .ok (.error .keySize)
      else .ok (.ok c.value)

/-- `Attest` (enclave/env/sgx/sgx.cc:141-207) when not simulated. `expected` is the own MRENCLAVE. -/
def attest (W : World) (expected : Bytes) (now : Int) (evidence endorsements : Bytes) : Out (Except Err Data) :=
  datetime W now >>= fun t =>
  match W.verify t evidence endorsements with
  | none => .ok (.error .verify)
  | some claims =>
  match validateClaims expected claims with
  | .error e => .ok (.error e)
  | .ok _ => tcbNumber W claims >>= fun
    | .error e => .ok (.error e)
    | .ok n => readKey W claims >>= fun
      | .error e => .ok (.error e)
      | .ok key => .ok (.ok ⟨key, OMap.empty.insert (str "sgx_tcb_evaluation_data_number") (be64 n)⟩)

end Svr.Attest.Sgx
