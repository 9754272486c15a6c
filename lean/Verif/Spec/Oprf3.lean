import Verif.DB3

/-!
# Specification of one SVR3 account

Empty, or a key with a number of evaluations left. Only request/response types are shared with the
model.
-/

namespace Svr.Spec3
open DB3

structure Acct where
  key : Bytes
  left : Nat
deriving DecidableEq, Repr

/-- One entry against one account; `mul` is the group operation. -/
def astep (mul : Bytes → Bytes → Option Bytes) (o : Option Acct) (l : Log) : Option Acct × Resp :=
  match l.req with
  | .create n b => match mul l.privkey b with
    | none => (o, .create .error [])
    | some e => (some ⟨l.privkey, n.toNat⟩, .create .ok e)
  | .evaluate b => match o with
    | none => (none, .evaluate .missing [] 0)
    | some v => match mul v.key b with
      | none => (some v, .evaluate .error [] 0)
      | some e =>
        if v.left ≤ 1 then (none, .evaluate .ok e 0)
        else (some { v with left := v.left - 1 }, .evaluate .ok e (v.left - 1))
  | .remove => (none, .remove)
  | .query => match o with
    | none => (none, .query false 0)
    | some v => (some v, .query true v.left)
  | .unset => (o, .remove)

end Svr.Spec3
