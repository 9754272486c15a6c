import Verif.Raft.Node

/-!
# Specification: what the proposer of a log entry is told

A proposer was promised index `idx` in term `term`, with chain hash `hash` (empty if not known). The answer is decided by the first
of two things: the group commits an entry at `idx`, or it commits a membership that leaves the proposer's replica out while it
belongs to the group.
-/

namespace Svr.Spec
open Raft (Entry Inner)

inductive Answer
  | success (e : Entry)   -- this entry was committed as promised
  | otherTerm             -- an entry of another term was committed there
  | otherHash             -- the entry committed there has another chain hash
  | removed               -- the replica left the group before
deriving DecidableEq

/-- The membership in an entry, if any, lacks `me`. -/
def Excludes (me : Bytes) (e : Entry) : Prop := ∃ g, e.inner = .membership g ∧ ∀ b, (me, b) ∉ g

/-- The membership in an entry, if any, has `me`. -/
def Includes (me : Bytes) (e : Entry) : Prop := ∃ g b, e.inner = .membership g ∧ (me, b) ∈ g

/-- `Fate me term hash idx m l a`: having committed the entries `l` (with their indexes), a replica that was a member of the group
(`m`) or not at the beginning has to answer `a` (`none`: nothing yet). -/
inductive Fate (me : Bytes) (term : Nat) (hash : Bytes) (idx : Nat) : Bool → List (Nat × Entry) → Option Answer → Prop
  | waiting (m) : Fate me term hash idx m [] none
  | left (i e l) (h : Excludes me e) : Fate me term hash idx true ((i, e) :: l) (some .removed)
  | success (m e l) (h : ¬ (m = true ∧ Excludes me e)) (ht : e.term = term) (hh : hash = [] ∨ hash = e.hash) :
    Fate me term hash idx m ((idx, e) :: l) (some (.success e))
  | term (m e l) (h : ¬ (m = true ∧ Excludes me e)) (ht : e.term ≠ term) : Fate me term hash idx m ((idx, e) :: l) (some .otherTerm)
  | hash (m e l) (h : ¬ (m = true ∧ Excludes me e)) (ht : e.term = term) (hh : hash ≠ []) (hn : hash ≠ e.hash) :
    Fate me term hash idx m ((idx, e) :: l) (some .otherHash)
  | stay (i e l a) (h : ¬ Excludes me e) (hi : i ≠ idx) (k : Fate me term hash idx true l a) :
    Fate me term hash idx true ((i, e) :: l) a
  | outside (i e l a) (h : ¬ Includes me e) (hi : i ≠ idx) (k : Fate me term hash idx false l a) :
    Fate me term hash idx false ((i, e) :: l) a
  | back (i e l a) (h : Includes me e) (hi : i ≠ idx) (k : Fate me term hash idx true l a) :
    Fate me term hash idx false ((i, e) :: l) a

end Svr.Spec
