import Verif.Locks.Code
import Verif.Locks.Order

/-!
The order in which the enclave locks its mutexes, and that every function keeps to it.
-/

namespace Svr.Locks

open Prog

/-- The place of each class of mutexes in the order. -/
def rank : Cls → Nat
  | .raft => 1 | .logTx => 2 | .e2e => 3 | .peers => 4 | .peer => 5 | .minimums => 6 | .timeout => 7 | .config => 8
  | .clients => 9 | .client => 10 | .cstate => 11 | .clock => 12 | .rd => 13 | .wr => 14 | .out => 15

/-- The highest rank a caller of the function may hold. -/
def lim : Fn → Nat
  | .send => 14
  | .timerTick => 0 | .setTimeout _ => 6 | .cancelTimeout => 6 | .fire _ => 0
  | .setRemoteTime => 11 | .getTime => 11
  | .updateLimits _ => 5 | .checkValues _ => 5 | .currentLimits _ => 5
  | .config => 7
  | .peerSend _ => 4 | .peerRecv _ => 4 | .peerConnect _ => 4 | .peerAccept _ => 4 | .peerDisconnect _ => 4
  | .peerState _ => 4 | .peerTooOld _ => 4 | .peerStatus _ => 4 | .peerMinimums .. => 4
  | .pmState _ => 3 | .pmInit => 3 | .pmRefresh => 3 | .pmCreate => 3 | .pmGet => 3 | .pmGetOrRst => 3 | .pmArgs => 3
  | .pmConnect _ => 3 | .pmReset _ => 3 | .pmSend _ => 3 | .pmRecv _ => 3 | .pmConnected => 3 | .pmAll => 3
  | .pmSetTime => 3 | .pmMinimums => 3 | .pmCheckMinimums _ => 3 | .pmStatus _ => 3
  | .cInit _ => 9 | .cStart _ => 9 | .cHandshaking _ => 9 | .cFinish _ => 9 | .cDecrypt _ => 9
  | .cEncrypt _ => 9 | .csRequest _ => 10 | .csEffect _ => 10
  | .cmNew _ => 8 | .cmGet => 8 | .cmRemove => 8 | .cmRotate => 8 | .cmRefresh => 8 | .cmArgs => 8
  | .joinFromFirst _ => 2 | .requestReplication _ => 2 | .promote => 2 | .requestMembership => 2
  | .groupTimeLocked => 3 | .connectToMembers => 3 | .sendNext .. => 2
  | .raftStep => 1 | .raftSend => 3 | .addLog _ => 1 | .sendTimestamp _ => 2 | .timestampToAll => 2
  | .e2eError _ => 3 | .committed => 1 | .membershipChange => 1 | .minimumsChange => 3 | .logTransactions => 1
  | .sendTxn .. => 2
  | .writeThread => 0 | .readPB => 0
  | _ => 0

theorem ok_onLog (cb : LogCb) : OkCmd rank lim 2 (onLog cb) := by
  cases cb <;> simp [onLog, alts, opt, OkCmd, lim]

theorem ok_onErr (cb : Cb) : OkCmd rank lim 2 (onErr true cb) ∧ OkCmd rank lim 0 (onErr false cb) := by
  cases cb <;> simp [onErr, mark, pushLocked, alts, opt, OkCmd, lim, rank, one]
  next cb => exact ⟨ok_onLog cb, OkCmd.mono rank lim (by omega) (ok_onLog cb)⟩

theorem ok_onOk (cb : Cb) : OkCmd rank lim 0 (onOk cb) := by
  cases cb <;> simp [onOk, pushLocked, alts, opt, OkCmd, lim, rank, one]
  next cb => exact OkCmd.mono rank lim (by omega) (ok_onLog cb)

theorem ok_body (f : Fn) : OkCmd rank lim (lim f) (body f) := by
  cases f
  case fire t =>
    cases t <;> simp [body, alts, opt, OkCmd, lim, rank, one]
    constructor
    · rintro (_ | _ | _ | _ | _) h <;> first | (simp [OkCmd]; done) | cases h
    · rintro (_ | ⟨_, cb⟩ | _ | _ | _) h <;> first | exact (ok_onErr cb).2 | cases h
  case timerTick =>
    simp only [body, OkCmd, lim, rank, one]
    refine ⟨⟨by omega, ?_⟩, ?_⟩
    · rintro (_ | _ | _ | _ | _) h <;> first | (simp [OkCmd]; done) | cases h
    · rintro (_ | _ | _ | _ | _) h <;> first | (simp [OkCmd, lim]; done) | cases h
  case handleE2E p =>
    simp only [body, alts, opt, OkCmd, lim, rank, one]
    refine ⟨by omega, ⟨by omega, by omega, trivial⟩, by omega, ⟨⟨by omega, ?_⟩, ?_⟩, trivial⟩
    · rintro (_ | _ | _ | _ | _) h <;> first | (simp [OkCmd, lim]; done) | cases h
    · rintro (_ | ⟨_, cb⟩ | _ | _ | _) h <;> first | exact ⟨(ok_onErr cb).2, ok_onOk cb⟩ | cases h
  case resetPeer p =>
    simp only [body, OkCmd, lim, rank, one]
    refine ⟨⟨by omega, ?_⟩, by omega, ?_⟩
    · rintro (_ | _ | _ | _ | _) h <;> first | (simp [OkCmd, lim]; done) | cases h
    · rintro (_ | ⟨_, cb⟩ | _ | _ | _) h <;> first | exact (ok_onErr cb).2 | cases h
  case membershipChange =>
    simp only [body, opt, OkCmd, lim, rank, one]
    refine ⟨⟨⟨by omega, ?_⟩, trivial⟩, by omega⟩
    rintro (_ | _ | cb | _ | _) h <;> first | exact ok_onLog cb | cases h
  case logTransactions =>
    simp only [body, OkCmd, lim, rank, one]
    refine ⟨by omega, ?_⟩
    rintro (_ | _ | cb | _ | _) h <;> first | exact ok_onLog cb | cases h
  case sendTxn p cb =>
    simp only [body, alts, opt, OkCmd, lim, rank, one]
    exact ⟨⟨⟨by omega, by omega⟩, (ok_onErr cb).1⟩, by omega, by omega, ⟨⟨by omega, by omega⟩, trivial⟩, trivial⟩
  all_goals simp [body, alts, opt, OkCmd, lim, rank, one]

theorem rank_le (c : Cls) : rank c ≤ 20 := by cases c <;> simp [rank]

end Svr.Locks
