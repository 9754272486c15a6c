import Verif.Env.Random

/-!
# What is done with random bytes

The callers of `RandomBytes`: libsodium (enclave/env/env.cc:59-72), Noise (enclave/noisewrap/wrap.cc:11-14), SipHash (enclave/sip/hasher.cc:19-21, 42-44), the
Merkle tree (enclave/merkle/merkle.cc:20-26), the id of a group (enclave/core/core.cc:451-458), that of a replication (enclave/core/core.cc:615-617), the seed of
`rand` (enclave/ecalls/ecalls.cc:22-28) and the name of a directory (enclave/fs/fs.cc:45-50). `mem` is what the memory holds before that is to be filled. It has
not been initialised; C++ leaves undefined what reading it does, and here it yields what is there.
-/

namespace Svr.Env

/-- Which `RandomBytes` is called: before `env::Init`, or that of an environment. The simulated Nitro enclave is not among them, of which C68 is false. -/
inductive Kind
  | unset | simulated | rdrand | nsm | sgx
deriving DecidableEq

/-- `env::environment->RandomBytes` for all of `mem` (enclave/env/env.cc:35-38; the others in `Random.lean`). -/
def randomBytes (k : Kind) (src : List (Option Bytes)) (mem : Bytes) : Out Filled :=
  match k with
  | .unset => .abort
  | .simulated => fillGetrandom src mem 0 mem.length
  | .rdrand => fillRdrand src mem 0 mem.length
  | .nsm => fillNsm src mem 0 mem.length
  | .sgx => match src with
    | [] => .ok none
    | x :: _ => fillSgx x mem mem.length

/-- What a caller does: it still waits for `RandomBytes`, it gives up with an error, or it goes on with a value. -/
inductive Use (α : Type)
  | waits
  | refuses
  | uses (a : α)
deriving DecidableEq

/-- `CHECK(error::OK == ...RandomBytes(...))`: for libsodium (enclave/env/env.cc:65-67), for Noise (enclave/noisewrap/wrap.cc:12-14), and for the keys of `sip::Half`
and `sip::Full` (enclave/sip/hasher.cc:19-21, 42-44). -/
def checkedBytes (k : Kind) (src : List (Option Bytes)) (mem : Bytes) : Out (Use Bytes) := do
  match ← randomBytes k src mem with
  | none => .ok .waits
  | some (ok, b) => do
    Out.check ok
    .ok (.uses b)

/-- `uint32_t` in memory, on a little endian machine. -/
def le32 : Bytes → Out Nat
  | [a, b, c, d] => .ok (a.toNat ||| b.toNat <<< 8 ||| c.toNat <<< 16 ||| d.toNat <<< 24)
  | _ => .ub

/-- `util::BigEndian64FromBytes` (enclave/util/endian.h:9-18). -/
def fromBe64 : Bytes → Out Nat
  | [a, b, c, d, e, f, g, h] => .ok (a.toNat <<< 56 ||| b.toNat <<< 48 ||| c.toNat <<< 40 ||| d.toNat <<< 32 ||| e.toNat <<< 24 ||| f.toNat <<< 16 |||
      g.toNat <<< 8 ||| h.toNat <<< 0)
  | _ => .ub

/-- `env_randombytes_uint32` (enclave/env/env.cc:60-64). -/
def sodiumU32 (k : Kind) (src : List (Option Bytes)) (mem : Bytes) : Out (Use Nat) := do
  match ← checkedBytes k src mem with
  | .uses b => do
    let n ← le32 b
    .ok (.uses n)
  | .waits => .ok .waits
  | .refuses => .ok .refuses

/-- The id of a new group (enclave/core/core.cc:451-458): with an error the host gets that as the answer. -/
def groupId (k : Kind) (src : List (Option Bytes)) (mem : Bytes) : Out (Use Nat) := do
  match ← randomBytes k src mem with
  | none => .ok .waits
  | some (false, _) => .ok .refuses
  | some (true, b) => do
    let n ← fromBe64 b
    .ok (.uses n)

/-- The bytes of the name of a directory (enclave/fs/fs.cc:45-50). -/
def tmpName (k : Kind) (src : List (Option Bytes)) (mem : Bytes) : Out (Use Bytes) := do
  match ← randomBytes k src mem with
  | none => .ok .waits
  | some (false, _) => .ok .refuses
  | some (true, b) => .ok (.uses b)

/-- `SetSIPKey` (enclave/merkle/merkle.cc:20-26). The error is not looked at. -/
def merkleKey (k : Kind) (src : List (Option Bytes)) (mem : Bytes) : Out (Use Bytes) := do
  match ← randomBytes k src mem with
  | none => .ok .waits
  | some (_, b) => .ok (.uses b)

/-- The id of a replication (enclave/core/core.cc:615-617). The error is not looked at. -/
def replicationId (k : Kind) (src : List (Option Bytes)) (mem : Bytes) : Out (Use Nat) := do
  match ← randomBytes k src mem with
  | none => .ok .waits
  | some (_, b) => do
    let n ← fromBe64 b
    .ok (.uses n)

/-- `SeedWeakRandom` (enclave/ecalls/ecalls.cc:22-28): the argument of `srand`, which is an `unsigned int`. The error is not looked at. -/
def weakSeed (k : Kind) (src : List (Option Bytes)) (mem : Bytes) : Out (Use Nat) := do
  match ← randomBytes k src mem with
  | none => .ok .waits
  | some (_, b) => do
    let n ← fromBe64 b
    .ok (.uses (n % 2 ^ 32))

end Svr.Env
