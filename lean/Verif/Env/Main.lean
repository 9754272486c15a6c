import Verif.Env.Log

/-!
# The arguments of the server process: `main` of `enclave/socketmain/socketmain.cc`

Arguments are texts without zero bytes, without the name of the program.
-/

namespace Svr.Main

/-- The bytes of a text. -/
def str (s : String) : Bytes := s.toList.map fun c => c.toNat.toUInt8

/-- `isspace` (C standard, in the C locale). -/
def isSpace (c : UInt8) : Bool := c == 32 || (9 ≤ c && c ≤ 13)

/-- `isdigit` (C standard). -/
def isDigit (c : UInt8) : Bool := 48 ≤ c && c ≤ 57

/-- The value of digits, the first of which is the highest. -/
def value (ds : Bytes) : Nat := ds.foldl (fun n c => 10 * n + (c.toNat - 48)) 0

/-- `atoi` (C standard): spaces, a sign, digits, and anything after that. A value that is not one of `int` is undefined behaviour. -/
def atoi (t : Bytes) : Out Int :=
  let t := t.dropWhile isSpace
  let neg := t.head? = some 45
  let t := if t.head? = some 45 ∨ t.head? = some 43 then t.drop 1 else t
  let n : Int := value (t.takeWhile isDigit)
  let v := if neg then -n else n
  if -2147483648 ≤ v ∧ v ≤ 2147483647 then .ok v else .ub

/-- `AF_INET` and `AF_VSOCK`. -/
inductive Sock
  | inet | vsock
deriving DecidableEq

/-- An argument (enclave/socketmain/socketmain.cc:216-232), with `port` and `sock_type`, which is 0 (`none`) at first. While arguments are read the
log level is that of the start. -/
def arg (s : Int × Option Sock) (a : Bytes) : Out (Int × Option Sock) :=
  if str "--port=" <+: a then
    atoi (a.drop (str "--port=").length) >>= fun p =>
      if p > 0 ∧ p < 65536 then .ok (p, s.2) else Log.fatal Log.first >>= fun _ => .ok (p, s.2)
  else if a = str "--sock_type=af_inet" then .ok (s.1, some .inet)
  else if a = str "--sock_type=af_vsock" then .ok (s.1, some .vsock)
  else Log.fatal Log.first >>= fun _ => .ok s

/-- The loop over the arguments (enclave/socketmain/socketmain.cc:215-232). -/
def args (s : Int × Option Sock) : List Bytes → Out (Int × Option Sock)
  | [] => .ok s
  | a :: as => arg s a >>= fun s' => args s' as

/-- `main` up to the call of `RunServer` (enclave/socketmain/socketmain.cc:211-236): what that is called with. Without a socket type, should `LOG(FATAL)`
not stop the process, `RunServer` is called with 0, of which there is no case here: the level is that of the start. -/
def main (as : List Bytes) : Out (Int × Option Sock) :=
  args (27427, none) as >>= fun s =>
    match s.2 with
    | none => Log.fatal Log.first >>= fun _ => .ok s
    | some _ => .ok s

end Svr.Main
