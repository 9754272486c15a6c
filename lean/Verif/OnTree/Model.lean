import Verif.Merkle
import Verif.OMap

/-!
# A database whose rows have their leaves in the Merkle tree

The models of the databases (Verif/DB2.lean, …) keep the hash of a row's leaf in the row, and get told by a function `path`
whether the walk from the leaf to the root of the tree (enclave/merkle/merkle.cc:157-163) finds nothing wrong. Here the
hashes are in the tree of Verif/Merkle.lean and the walk is that of the tree.

Rows own their leaf (`merkle_leaf_`: enclave/db/db2.h:107, db3.h:113, db4.h:130, db5.h:99). It is made with the row
(db2.cc:163-165 and 316, db3.cc:283, db4.cc:500, db5.cc:134-137), updated by the call that made it, and destroyed when the row
is erased. A row received from another replica is a local variable of `LoadRowsFromProtos` (db2.cc:343, db3.cc:185, db4.cc:374,
db5.cc:235), whose leaf is updated, moved into the row of the map (db2.cc:358, db3.cc:197, db4.cc:403, db5.cc:246), and destroyed.

Other users of the same tree are Raft (`commit_leaf_`, `promise_leaf_`: enclave/raft/raft.h:279-283, raft.cc:36-46, 1467-1485) and
`db_last_applied_log_leaf` (enclave/core/core.cc:478, 667, 1976-1993). They appear as operations on leaves at other addresses.
-/

namespace Svr.OnTree
open Svr.Merkle

/-- What can be called: `Run` of a log entry, `LoadRowsFromProtos`, and replacing the database by a new one
(`NewDB`, enclave/core/core.cc:476, 584, after `ClearState` destroyed the former one). -/
inductive Call (L R : Type) where
  | run (log : L)
  | load (rows : List R)
  | renew

/-- A database as it is modelled elsewhere: its calls, the leaf field of each row, and the same database with other leaf
fields. -/
structure Face (D L R A : Type) where
  call : (Bytes → Bool) → D → Call L R → Out (D × A)
  leaves : D → OMap Bytes Bytes
  see : D → (Bytes → Bytes) → D

/-- The database, the addresses of the leaves of its rows, and the tree. For an id without row the address means nothing. -/
structure St (D : Type) where
  db : D
  loc : Bytes → Nat
  tree : Tree Bytes

/-- The hash kept for a leaf. -/
def read (t : Tree Bytes) (l : Nat) : Out Bytes := do
  let r ← getLeaf t l
  let hp ← deref r.hp
  rd t hp

/-- The loop of `Leaf::Verify` (enclave/merkle/merkle.cc:157-163) for a leaf. -/
def walk (H : List Bytes → Bytes) (t : Tree Bytes) (l : Nat) : Out Bool := do
  let r ← getLeaf t l
  verifyUp H (t.height + 2) t r.parent

/-- Can the leaves of these rows be read and verified at all? A call looks only at the row of one account; asking it of all rows
can only add undefined behaviour. -/
def sound (H : List Bytes → Bytes) (t : Tree Bytes) (loc : Bytes → Nat) : List (Bytes × Bytes) → Out Unit
  | [] => .ok ()
  | (id, _) :: xs => do
    let _ ← read t (loc id)
    let _ ← walk H t (loc id)
    sound H t loc xs

/-- The hash that a row finds in its leaf; for rows that passed `sound` the second case does not arise. -/
def leafOf (t : Tree Bytes) (loc : Bytes → Nat) (id : Bytes) : Bytes :=
  match read t (loc id) with
  | .ok x => x
  | _ => []

/-- Does the walk from a row's leaf find nothing wrong? -/
def pathOf (H : List Bytes → Bytes) (t : Tree Bytes) (loc : Bytes → Nat) (id : Bytes) : Bool :=
  match walk H t (loc id) with
  | .ok b => b
  | _ => false

/-- What a call does to the tree on account of a row that had a leaf before. An update with the hash that is already there is left
out: it would set every hash on the path to what it is. -/
def opsOld (new : OMap Bytes Bytes) (loc : Bytes → Nat) (p : Bytes × Bytes) : List (Op Bytes) :=
  match new.find p.1 with
  | none => [.destroy (loc p.1)]
  | some h => if h = p.2 then [] else [.update (loc p.1) h]

/-- Making a row: in its place, or as a local variable at `temp` that is moved to its place. -/
def mkLeaf (temp : Option Nat) (l : Nat) (h : Bytes) : List (Op Bytes) :=
  match temp with
  | none => [.create l, .update l h]
  | some x => [.create x, .update x h, .move x l, .destroy x]

/-- What a call does to the tree on account of a row there is after the call. -/
def opsNew (old : OMap Bytes Bytes) (fresh : Bytes → Nat) (temp : Option Nat) (p : Bytes × Bytes) : List (Op Bytes) :=
  match old.find p.1 with
  | none => mkLeaf temp (fresh p.1) p.2
  | some _ => []

/-- What a call does to the tree, given the leaf fields before and after it. `fresh` are the addresses that new rows get. -/
def ops (old new : OMap Bytes Bytes) (loc fresh : Bytes → Nat) (temp : Option Nat) : List (Op Bytes) :=
  old.list.flatMap (opsOld new loc) ++ new.list.flatMap (opsNew old fresh temp)

/-- Where the rows are after a call. -/
def place (old : OMap Bytes Bytes) (loc fresh : Bytes → Nat) (id : Bytes) : Nat :=
  match old.find id with
  | none => fresh id
  | some _ => loc id

section
variable {D L R A : Type} (F : Face D L R A) (H : List Bytes → Bytes) (zero : Bytes)

/-- The database with the leaf fields that are in the tree. -/
def seen (s : St D) : D := F.see s.db (leafOf s.tree s.loc)

/-- What a call of the database makes of the rows and the tree: the new rows and the answer. -/
def consult (s : St D) (c : Call L R) : Out (D × A) := do
  sound H s.tree s.loc (F.leaves s.db).list
  F.call (pathOf H s.tree s.loc) (seen F s) c

/-- A call of the database. The tree is changed after the last look at it: all calls verify, if at all, before their first update. -/
def call (s : St D) (c : Call L R) (fresh : Bytes → Nat) (temp : Option Nat) : Out (St D × A) := do
  let (d', a) ← consult F H s c
  let t ← run H zero s.tree (ops (F.leaves (seen F s)) (F.leaves d') s.loc fresh temp)
  .ok (⟨d', place (F.leaves (seen F s)) s.loc fresh, t⟩, a)

/-- What happens to database and tree. -/
inductive Ev (L R : Type) where
  /-- A call of the database. -/
  | call (c : Call L R) (fresh : Bytes → Nat) (temp : Option Nat)
  /-- Another user of the tree makes, updates, moves or destroys a leaf. -/
  | other (o : Op Bytes)
  /-- Another user verifies a leaf. -/
  | check (l : Nat) (h : Bytes)

/-- What comes back. -/
inductive Ans (A : Type) where
  | db (a : A)
  | none
  | check (b : Bool)
deriving DecidableEq, Repr

def step (s : St D) : Ev L R → Out (St D × Ans A)
  | .call c fresh temp => do
    let (s', a) ← call F H zero s c fresh temp
    .ok (s', .db a)
  | .other o => do .ok ({ s with tree := ← Merkle.step H zero s.tree o }, .none)
  | .check l h => do .ok (s, .check (← verify H s.tree l h))

def steps : St D → List (Ev L R) → Out (St D × List (Ans A))
  | s, [] => .ok (s, [])
  | s, e :: es => do
    let (s', a) ← step F H zero s e
    let (s'', as) ← steps s' es
    .ok (s'', a :: as)

/-- An empty database `d` and a new tree (enclave/core/core.h:255). -/
def start (d : D) : Out (St D) := do .ok ⟨d, fun _ => 0, ← newTree H zero⟩

end

end Svr.OnTree
