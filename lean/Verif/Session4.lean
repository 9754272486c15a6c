import Verif.DB4

/-!
# Model of a SVR4 client session (`DB4::ClientState`, enclave/db/db4.{h,cc})
-/

namespace Svr.DB4

/-- `DB4::ClientState` (enclave/db/db4.h:35-59) with the fields inherited from `DB::ClientState`
(enclave/db/db.h): the authenticated id, the handshake hash and `restore2_`. -/
structure Session where
  id : Bytes
  handshake : Bytes
  restore2 : Option R2State
deriving DecidableEq

/-- The default protobuf `Effect4::Restore2State`. -/
def R2State.default : R2State := ⟨[], [], [], 0, 0, []⟩

/-- `DB4::ClientState::Restore2` (enclave/db/db4.cc:625-674). -/
def restore2 (P : Prims4) (authPoint authScalar : Bytes) (version : UInt32) (st : R2State) (handshake : Bytes) : Resp :=
  if okScalar P authScalar = false then .restore2 .error []
  else match P.mulBase authScalar with
  | none => .restore2 .error []
  | some lhs1 =>
    let scalarHash := P.challenge authPoint st.blinded handshake
    if okPoint P st.auth = false then .restore2 .error []
    else match P.smul scalarHash st.auth with
    | none => .restore2 .error []
    | some rhs1 =>
      if okPoint P authPoint = false then .restore2 .error []
      else match P.padd authPoint rhs1 with
      | none => .restore2 .error []
      | some rhs2 =>
        if !ctEq lhs1 rhs2 then .restore2 .error []
        else if version.toUInt64 = st.version then .restore2 .ok st.enc
        else if version.toUInt64 = st.newVersion then .restore2 .ok st.newEnc
        else .restore2 .error []

/-- `DB4::ClientState::ResponseFromRequest` (enclave/db/db4.cc:107-151). `ok none` means: continue with
`LogFromRequest`. -/
def responseFromRequest (P : Prims4) (s : Session) (req : Req) : Session × Except Err (Option Resp) :=
  let st := s.restore2
  let s' := { s with restore2 := none }
  match req with
  | .restore2 ap sc version =>
    if s.id.length ≠ BACKUP_ID_SIZE then (s', .error .backupIDSize)
    else match st with
    | none => (s', .ok (some (.restore2 .restore1Missing [])))
    | some st =>
      if okScalar P sc = false ∨ okPoint P ap = false then (s', .ok (some (.restore2 .invalidRequest [])))
      else (s', .ok (some (restore2 P ap sc version st s.handshake)))
  | _ => (s', .ok none)

/-- `DB4::ClientState::ResponseFromEffect` (enclave/db/db4.cc:153-169). -/
def responseFromEffect (s : Session) (e : Effect) : Session × Resp :=
  match e.resp with
  | .restore1 .ok _ _ => ({ s with restore2 := some (e.r2.getD R2State.default) }, e.resp)
  | _ => (s, e.resp)

/-- What the rest of the enclave feeds to a session: decrypted requests (enclave/core/core.cc:390-441)
and effects of committed entries (enclave/core/core.cc:1619-1676), in any order. -/
inductive SEv where
  | request (r : Req)
  | effect (e : Effect)
deriving DecidableEq

/-- What the client is sent for the event, if anything is sent at that point. -/
def stepS (P : Prims4) (s : Session) : SEv → Session × Option Resp
  | .request r => match responseFromRequest P s r with
    | (s', .ok o) => (s', o)
    | (s', .error _) => (s', none)
  | .effect e => ((responseFromEffect s e).1, some (responseFromEffect s e).2)

def runS (P : Prims4) : Session → List SEv → Session × List (Option Resp)
  | s, [] => (s, [])
  | s, e :: es => ((runS P (stepS P s e).1 es).1, (stepS P s e).2 :: (runS P (stepS P s e).1 es).2)

end Svr.DB4
