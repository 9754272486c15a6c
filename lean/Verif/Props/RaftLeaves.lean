import Verif.Raft.Guarded
import Verif.Props.RaftGroup

/-!
# C52: rolled-back indexes are noticed

The commit and promise index of a replica are guarded by two leaves of the integrity tree (enclave/raft/raft.h,
`commit_idx_merkle_leaf_` and `promise_idx_merkle_leaf_`). Specification: a leaf is *right* if it holds the first eight
bytes of the hash of the entry at the index, or zeros if there is none.
-/

namespace Svr.Props.RaftLeaves
open Raft Raft.Node Raft.Play Svr.Props.RaftGroup

variable {P : Type} [LinearOrder P]

/-- What a leaf for the entry should hold. -/
def expected : Option Entry → Bytes
  | none => List.replicate 8 0
  | some e => e.hash.take 8

def CommitRight (s : Node P) : Prop := s.commitLeaf = expected (s.log.at? s.commit)
def PromiseRight (s : Node P) : Prop := s.promiseLeaf = expected (s.log.at? s.promise)

theorem merkleHash_expected {o : Option Entry} {c : Bytes} (h : merkleHash o = .ok c) : c = expected o := by
  cases o with
  | none => simp only [merkleHash, Out.ok.injEq] at h; rw [← h]; rfl
  | some e =>
    obtain ⟨_, _, h⟩ := Out.bind_eq_ok.mp h
    simp only [Out.ok.injEq] at h
    exact h.symm

theorem off_of {s : Node P} {i : Nat} {leaf : Bytes} (h1 : i ≤ s.log.lastIdx) (h2 : i ≤ max s.commit s.promise)
    (h3 : leaf ≠ expected (s.log.at? i)) (h4 : s.lastApplied ≤ i ∨ leaf ≠ List.replicate 8 0) : s.Off i leaf :=
  ⟨h1, h2, fun h => h3 (merkleHash_expected h), h4⟩

/-- **C52**: a replica with a wrong leaf never moves its commit index nor its promise index again, whatever calls
follow and however they turn out. The state is arbitrary, in particular not one the replica could reach by itself:
somebody may have changed its memory. It only has to have the shape calls rely on (`Shaped`: the log is a window that
reaches the applied entries), and the two indexes have to be in it. Where the indexes are out of order, the leaves
must not be zero: an entry below the applied ones may be dropped, and a missing entry counts as zeros. -/
theorem C52_frozen {v : Env P} {s s' : Node P} {tr : List (Op P × Obs P)} (hs : s.Shaped v) (hc : s.commit ≤ s.log.lastIdx)
    (hp : s.promise ≤ s.log.lastIdx) (hw : ¬ CommitRight s ∨ ¬ PromiseRight s)
    (hz : (s.lastApplied ≤ s.commit ∧ s.commit ≤ s.promise) ∨
      (s.commitLeaf ≠ List.replicate 8 0 ∧ s.promiseLeaf ≠ List.replicate 8 0))
    (h : Run v s tr s') : s'.commit = s.commit ∧ s'.promise = s.promise := by
  have hk : s.Stuck := by
    rcases hw with hw | hw
    · exact .inl (off_of hc (le_max_left _ _) hw (hz.imp And.left And.left))
    · exact .inr (off_of hp (le_max_right _ _) hw (hz.imp (fun h => le_trans h.1 h.2) And.right))
  obtain ⟨h1, _⟩ := h.stuck hs hk (hz.imp And.right And.right)
  exact ⟨h1.commit, h1.promise⟩

/-- **C52**: the same if the leaves themselves were changed, so that no walk from a leaf to the root succeeds. -/
theorem C52_severed {v : Env P} {s s' : Node P} {tr : List (Op P × Obs P)} (hs : s.Shaped v) (hp : ∀ w, v.path w = false)
    (h : Run v s tr s') : s'.commit = s.commit ∧ s'.promise = s.promise := by
  obtain ⟨h1, _⟩ := h.severed hs hp
  exact ⟨h1.commit, h1.promise⟩

/-- **C52**, no false alarms: in a group nobody tampers with, the leaves of every replica are right, and the check
succeeds if the walks to the root do. -/
theorem C52_right {g : Setting P} {W : World P} (h : Reachable g W) (hn : NoCollision g.v W.Hashed) (hser : SerInj g.v) {p : P}
    {s : Node P} (hp : W.node p = some s) : CommitRight s ∧ PromiseRight s ∧
    ∀ (v : Env P), (∀ w, v.path w = true) → ∃ s', s.verifyMerkle v = .ok (s', true) := by
  have ha := Reachable.agree h (K := fun _ => True) (fun x hx => hx) (fun _ _ => trivial) hn hser p s hp
  refine ⟨merkleHash_expected ha.1, merkleHash_expected ha.2, fun v hv => ?_⟩
  exact ⟨{ s with walks := s.walks + 2 }, by simp [verifyMerkle, ha.1, ha.2, hv]⟩

/-- **C52** for a rollback: whoever sets the indexes of a replica back to earlier values gets a replica that never
moves them again, provided one of the two entries differs from the one it replaces in the first eight bytes of the
hash. -/
theorem C52_rollback {g : Setting P} {W : World P} (h : Reachable g W) (hn : NoCollision g.v W.Hashed) (hser : SerInj g.v) {p : P}
    {s : Node P} (hp : W.node p = some s) {b c a : Nat} (hb : s.log.oldest = 1 ∨ s.log.oldest ≤ b) (hbc : b ≤ c) (hca : c ≤ a)
    (ha : a ≤ s.promise)
    (hd : expected (s.log.at? c) ≠ expected (s.log.at? s.commit) ∨ expected (s.log.at? a) ≠ expected (s.log.at? s.promise))
    {rand : Nat → Nat} {path : Nat → Bool} {tr : List (Op P × Obs P)} {s' : Node P}
    (hr : Run (g.env rand path) { s with lastApplied := b, commit := c, promise := a } tr s') :
    s'.commit = c ∧ s'.promise = a := by
  obtain ⟨σ, hi⟩ := h.inv (K := fun _ => True) (fun x hx => hx) (fun _ _ => trivial) hn hser
  obtain ⟨F, hF⟩ := hi.get hp
  have ok := hi.ok _ _ _ hF
  have hl := ok.log.lastIdx
  have h1 := ok.promise
  obtain ⟨r1, r2, _⟩ := C52_right h hn hser hp
  have hsh : Shape g.v.z s.log s.lastApplied (max s.commit s.promise) := ok.shaped
  refine C52_frozen (v := g.env rand path) (s := { s with lastApplied := b, commit := c, promise := a })
    ⟨hsh.one, hsh.empty, hb, ?_, ?_, hsh.bytes⟩ ?_ ?_ ?_ (.inl ⟨hbc, hca⟩) hr
  · exact le_trans hbc (le_max_left _ _)
  · show b ≤ s.log.lastIdx; omega
  · show c ≤ s.log.lastIdx; omega
  · show a ≤ s.log.lastIdx; omega
  · refine hd.imp (fun hd hx => hd ?_) (fun hd hx => hd ?_)
    · have : s.commitLeaf = expected (s.log.at? c) := hx
      rw [← this]; exact r1
    · have : s.promiseLeaf = expected (s.log.at? a) := hx
      rw [← this]; exact r2

/-! ### A case -/

/-- Replica 2 of `trio` committed two entries. -/
def twoCommitted (T : Table) : Bool :=
  match look 2 T.rows with
  | some (s, _) => decide (s.commit = 2) && decide (s.promise = 2) && decide (s.log.oldest = 1) &&
      decide (expected (s.log.at? 1) ≠ expected (s.log.at? 2))
  | none => false

set_option maxRecDepth 100000 in
/-- `C52_rollback` has a case: replica 2 can be set back from index 2 to index 1. -/
example : ∃ (W : World Nat) (s : Node Nat), Reachable trio W ∧ NoCollision trio.v W.Hashed ∧ SerInj trio.v ∧ W.node 2 = some s ∧
    (s.log.oldest = 1 ∨ s.log.oldest ≤ 1) ∧ 1 ≤ s.promise ∧ 1 < s.commit ∧
    expected (s.log.at? 1) ≠ expected (s.log.at? s.commit) := by
  obtain ⟨T, h1, h2, h3⟩ := outcome_spec (g := trio) (as := trioActs) (f := twoCommitted) rfl (by decide +kernel)
  unfold twoCommitted at h3
  split at h3
  · rename_i s A hl
    simp only [Bool.and_eq_true, decide_eq_true_eq] at h3
    obtain ⟨⟨⟨k1, k2⟩, k3⟩, k4⟩ := h3
    exact ⟨T.world, s, h1, h2, serInj_steady, by simp [Table.world, hl], .inl k3, by omega, by omega, by rw [k1]; exact k4⟩
  · cases h3

end Svr.Props.RaftLeaves
