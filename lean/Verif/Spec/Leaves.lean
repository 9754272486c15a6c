import Verif.Merkle

/-!
# What a user of a Merkle tree sees

A table of leaf objects: their address, and the hash last given to `Update`. It knows nothing of nodes.
-/

namespace Svr.Merkle

/-- A leaf object. -/
inductive Life (α : Type) where
  /-- Made, but `Update` was not called yet. -/
  | fresh
  /-- `Update` was called, last with this hash. -/
  | val (h : α)
  /-- Its content was moved to another object. -/
  | moved
deriving DecidableEq, Repr

abbrev Table (α : Type) := Nat → Option (Life α)

/-- The table after an operation; `none` if the caller may not do it: an address in use, no object there, or one moved from. -/
def Table.step {α : Type} (s : Table α) : Op α → Option (Table α)
  | .create l =>
    match s l with
    | none => some (upd s l (some .fresh))
    | some _ => none
  | .update l h =>
    match s l with
    | some .fresh => some (upd s l (some (.val h)))
    | some (.val _) => some (upd s l (some (.val h)))
    | _ => none
  | .move a b =>
    match s a, s b with
    | some .fresh, none => some (upd (upd s b (some .fresh)) a (some .moved))
    | some (.val h), none => some (upd (upd s b (some (.val h))) a (some .moved))
    | _, _ => none
  | .destroy l =>
    match s l with
    | some _ => some (upd s l none)
    | none => none

def Table.run {α : Type} : Table α → List (Op α) → Option (Table α)
  | s, [] => some s
  | s, o :: os =>
    match s.step o with
    | some s' => Table.run s' os
    | none => none

def Table.empty {α : Type} : Table α := fun _ => none

/-- Every leaf was updated after it was made, as enclave/merkle/merkle.h:117-121 asks. -/
def Table.settled {α : Type} (s : Table α) : Prop := ∀ l, s l ≠ some .fresh

end Svr.Merkle
