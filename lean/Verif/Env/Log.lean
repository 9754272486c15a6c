import Verif.Bytes

/-!
# Fatal log lines: `enclave/util/log.h`, `enclave/util/log.cc`, `enclave/util/macros.h`

`LOG(x)` is a statement that is only executed if the level `x` is not above the one that is written, and what stops the process is the destructor of
the object that it makes. The level that is written is chosen by the host. What is logged, and where to, is left out.
-/

namespace Svr.Log

/-- `LOG_LEVEL_FATAL` (shared/proto/enclaveconfig.proto:14). Levels are integers: in proto3, an enumeration holds any value of 32 bits. -/
def fatalLevel : Int := 1

/-- `log_level_to_write` at the start of the process (enclave/util/log.cc:12-17): `LOG_LEVEL_INFO`. -/
def first : Int := 4

/-- `LOG(FATAL)` (enclave/util/log.h:47) and `~Log` (enclave/util/log.cc:23-29) when the level that is written is `lvl`. -/
def fatal (lvl : Int) : Out Unit := if fatalLevel ≤ lvl then .abort else .ok ()

/-- `CHECK` (enclave/util/macros.h:13-18): after `LOG(FATAL)` there is an `abort()` of its own. -/
def check (lvl : Int) (x : Bool) : Out Unit :=
  if ¬ x then fatal lvl >>= fun _ => .abort else .ok ()

/-- The level in an init message (enclave/socketmain/socketmain.cc:165-167, enclave/ecalls/ecalls.cc:60-62): `LOG_LEVEL_NONE`, which is 0, leaves
it as it is. -/
def atInit (lvl asked : Int) : Int := if asked ≠ 0 then asked else lvl

/-- A request of the host (enclave/core/core.cc:320-327): the level after it, and whether it is accepted. 7 is `LOG_LEVEL_MAX`. -/
def set (lvl asked : Int) : Int × Bool := if asked ≥ 7 then (lvl, false) else (asked, true)

/-- The level after an init message and requests. -/
def after (lvl : Int) : List Int → Int
  | [] => lvl
  | a :: as => after (set lvl a).1 as

/-- `LogFatalSignalHandler` (enclave/env/socket/socket.cc:23-25), for `SIGSEGV`, `SIGFPE` and `SIGILL`. If it returns, so does the instruction that
raised the signal. -/
def onSignal (lvl : Int) : Out Unit := fatal lvl

end Svr.Log
