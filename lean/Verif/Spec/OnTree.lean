import Verif.Spec.Leaves
import Verif.OnTree.Model

/-!
# A database that needs no tree

What the users of a database and of a tree of hashes expect: every check of a row's walk succeeds, and every other leaf
verifies with exactly the hash it was last given. No tree here. Addresses are only there to say that memory which is in use is
not handed out again.
-/

namespace Svr.OnTree
open Svr.Merkle

/-- The database, the addresses of its rows, and the leaves of others. -/
structure Want (D : Type) where
  db : D
  loc : Bytes → Nat
  others : Table Bytes

variable {D L R A : Type}

/-- An address in use. -/
def Want.used (F : Face D L R A) (w : Want D) (x : Nat) : Prop :=
  w.others x ≠ none ∨ ∃ id, (F.leaves w.db).find id ≠ none ∧ w.loc id = x

/-- The addresses an operation on other leaves takes or touches. -/
def takes : Op Bytes → Nat → Prop
  | .create l, x => x = l
  | .update l _, x => x = l
  | .move a b, x => x = a ∨ x = b
  | .destroy l, x => x = l

/-- What is expected of an event. -/
inductive Want.Step (F : Face D L R A) : Want D → Ev L R → Want D → Ans A → Prop
  /-- A call of the database gives what it gives with a tree that never complains, if all leaves of others were updated, and
  the memory for new rows is free and distinct. -/
  | call (w : Want D) (c : Call L R) (fresh : Bytes → Nat) (temp : Option Nat) (d : D) (a : A)
      (hset : w.others.settled)
      (hfree : ∀ id, (F.leaves w.db).find id = none → (F.leaves d).find id ≠ none → ¬ w.used F (fresh id))
      (hdist : ∀ id id', (F.leaves w.db).find id = none → (F.leaves w.db).find id' = none → (F.leaves d).find id ≠ none →
        (F.leaves d).find id' ≠ none → fresh id = fresh id' → id = id')
      (htemp : ∀ x ∈ temp, ¬ w.used F x ∧ ∀ id, (F.leaves w.db).find id = none → (F.leaves d).find id ≠ none → fresh id ≠ x)
      (h : F.call (fun _ => true) w.db c = .ok (d, a)) :
      Step F w (.call c fresh temp) ⟨d, fun id => match (F.leaves w.db).find id with | none => fresh id | some _ => w.loc id, w.others⟩ (.db a)
  /-- Another user's operation on its leaves. -/
  | other (w : Want D) (o : Op Bytes) (u : Table Bytes) (h : w.others.step o = some u)
      (hrow : ∀ x, takes o x → ∀ id, (F.leaves w.db).find id ≠ none → w.loc id ≠ x) : Step F w (.other o) { w with others := u } .none
  /-- A leaf verifies with the hash of its last update and no other. -/
  | check (w : Want D) (l : Nat) (x h : Bytes) (hset : w.others.settled) (hl : w.others l = some (.val x)) :
      Step F w (.check l h) w (.check (decide (h = x)))

/-- What is expected of a sequence of events. -/
inductive Want.Steps (F : Face D L R A) : Want D → List (Ev L R) → Want D → List (Ans A) → Prop
  | nil (w : Want D) : Steps F w [] w []
  | cons (w w' w'' : Want D) (e : Ev L R) (es : List (Ev L R)) (a : Ans A) (as : List (Ans A))
      (h : Want.Step F w e w' a) (hs : Steps F w' es w'' as) : Steps F w (e :: es) w'' (a :: as)

/-- At the start. -/
def Want.start (d : D) : Want D := ⟨d, fun _ => 0, Table.empty⟩

end Svr.OnTree
