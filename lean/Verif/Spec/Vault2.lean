import Verif.DB2

/-!
# Specification of one SVR2 account

A few lines, independent of the implementation's rows, hashes and integer widths: an account is empty
or holds a secret under a PIN with a number of guesses left, restorable only once exposed.
Only the request and response *types* are shared with the model.
-/

namespace Svr.Spec2
open DB2

/-- What a user knows about their account. -/
structure Vault where
  secret : Bytes
  pin : Bytes
  left : Nat
  exposed : Bool
deriving DecidableEq, Repr

/-- One request against one account. -/
def vstep : Option Vault → Req → Option Vault × Resp
  | _, .backup d p n => (some ⟨d, p, n.toNat, false⟩, .backup)
  | none, .restore _ => (none, .restore .missing [] 0)
  | some v, .restore g =>
    if v.exposed = false then (some v, .restore .missing [] 0)
    else if g = v.pin then (some v, .restore .ok v.secret v.left)
    else if v.left ≤ 1 then (none, .restore .missing [] 0)
    else (some { v with left := v.left - 1 }, .restore .pinMismatch [] (v.left - 1))
  | _, .delete => (none, .delete)
  | none, .expose _ => (none, .expose false)
  | some v, .expose d =>
    if v.secret <+: d then (some { v with exposed := true }, .expose true)
    else (some v, .expose false)
  | none, .tries => (none, .tries false 0 false)
  | some v, .tries => (some v, .tries true v.left v.exposed)
  | o, .unset => (o, .empty)

/-- The per-account machine as a keyed machine (every account behaves alike). -/
def machine : KMachine Bytes Vault Req Resp := ⟨fun _ o q => vstep o q⟩

/-- Run one account through a list of requests. -/
def vrun : Option Vault → List Req → Option Vault × List Resp
  | o, [] => (o, [])
  | o, q :: qs => ((vrun (vstep o q).1 qs).1, (vstep o q).2 :: (vrun (vstep o q).1 qs).2)

end Svr.Spec2
