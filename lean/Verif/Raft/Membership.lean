import Mathlib.Order.Defs.LinearOrder
import Mathlib.Data.Finset.SDiff
import Mathlib.Data.Finset.Card
import Mathlib.Data.Finset.Sort
import Mathlib.Order.RelClasses

/-!
# Models of `enclave/raft/membership.cc` and of the quorum size of `enclave/raft/raft.cc`

`std::set<PeerID>` is a strictly sorted list. Peer identifiers are any linearly ordered type; a `peer_id` string
that is not 32 bytes long is `none`.
-/

namespace Svr.Raft

/-- 2^64, the range of `size_t`. -/
def SZ : Nat := 2 ^ 64

/-- `Raft::quorum_size` (enclave/raft/raft.cc:59-63), with the wrap-around of `size_t`. -/
def quorumSize (voting superMajority : Nat) : Nat :=
  min voting ((((voting + SZ - superMajority) % SZ) / 2 + 1 + superMajority) % SZ)

variable {P : Type} [LinearOrder P]

/-- `std::set::insert`. -/
def sinsert (p : P) : List P → List P
  | [] => [p]
  | q :: t => if p < q then p :: q :: t else if q < p then q :: sinsert p t else q :: t

/-- `Membership` (enclave/raft/membership.h:44-47). -/
structure Membership (P : Type) where
  all : List P
  voting : List P
deriving DecidableEq

inductive MemErr
  | peerId | duplicate | superMajorityLost | emptySet | tooMany | noChange | leaderNotVoting | leaderNotAll | notSubset
deriving DecidableEq

/-- `Membership::FromProto` (enclave/raft/membership.cc:11-27). -/
def fromProtoLoop : List (Option P × Bool) → Membership P → Except MemErr (Membership P)
  | [], m => .ok m
  | (none, _) :: _, _ => .error .peerId
  | (some p, v) :: t, m =>
    if p ∈ m.all then .error .duplicate
    else fromProtoLoop t { all := sinsert p m.all, voting := if v then sinsert p m.voting else m.voting }

def fromProto (g : List (Option P × Bool)) : Except MemErr (Membership P) := fromProtoLoop g ⟨[], []⟩

/-- `Membership::First` (enclave/raft/membership.cc:29-34). -/
def Membership.first (me : P) : Membership P := ⟨[me], [me]⟩

/-- `Membership::AsProto` (enclave/raft/membership.cc:106-116). -/
def Membership.asProto (m : Membership P) : List (Option P × Bool) :=
  m.all.map fun p => (some p, decide (p ∈ m.voting))

/-- Loop of `SetDiffSize` (enclave/raft/membership.cc:37-56); each iteration advances one of the two iterators, so
the sum of the sizes bounds their number. -/
def setDiffLoop : Nat → List P → List P → Nat
  | 0, _, _ => 0
  | _ + 1, [], _ => 0
  | n + 1, _ :: as, [] => 1 + setDiffLoop n as []
  | n + 1, a :: as, b :: bs =>
    if a < b then 1 + setDiffLoop n as (b :: bs)
    else if b < a then setDiffLoop n (a :: as) bs
    else setDiffLoop n as bs

def setDiffSize (a b : List P) : Nat := setDiffLoop (a.length + b.length) a b

/-- `Membership::ValidProgressionForLeader` (enclave/raft/membership.cc:58-104); `none` is `error::OK`.
`std::set_difference` is the library's: the elements of the first set that are not in the second, in order. -/
def validProgression (leader : P) (frm dst : Membership P) (superMajority : Nat) : Option MemErr :=
  if frm.voting.length > superMajority ∧ dst.voting.length ≤ superMajority then some .superMajorityLost
  else
    let votingAdditions := setDiffSize dst.voting frm.voting
    let votingRemovals := frm.voting.filter (fun p => decide (p ∉ dst.voting))
    let allAdditions := setDiffSize dst.all frm.all
    let allRemovals := frm.all.filter (fun p => decide (p ∉ dst.all))
    let allChanges := votingAdditions + votingRemovals.length + allAdditions + allRemovals.length
    if dst.voting.length = 0 ∨ dst.all.length = 0 then some .emptySet
    else if ¬ (allChanges = 2 ∧ votingRemovals.length = 1 ∧ allRemovals.length = 1 ∧ votingRemovals[0]? = allRemovals[0]?)
        ∧ allChanges > 1 then some .tooMany
    else if allChanges = 0 then some .noChange
    else if leader ∉ dst.voting then some .leaderNotVoting
    else if leader ∉ dst.all then some .leaderNotAll
    else if setDiffSize dst.all dst.voting ≠ (dst.all.length + SZ - dst.voting.length) % SZ then some .notSubset
    else none

/-- Strictly sorted, as a `std::set` iterates. -/
def SSorted (l : List P) : Prop := l.Pairwise (· < ·)

structure Membership.Wf (m : Membership P) : Prop where
  all : SSorted m.all
  voting : SSorted m.voting

theorem mem_sinsert (p x : P) : ∀ l : List P, x ∈ sinsert p l ↔ x = p ∨ x ∈ l
  | [] => by simp [sinsert]
  | q :: t => by
    simp only [sinsert]
    by_cases h1 : p < q
    · rw [if_pos h1]; simp
    · rw [if_neg h1]
      by_cases h2 : q < p
      · rw [if_pos h2]; simp only [List.mem_cons, mem_sinsert p x t]; tauto
      · rw [if_neg h2]
        have : p = q := le_antisymm (not_lt.mp h2) (not_lt.mp h1)
        subst this; simp

theorem sinsert_sorted (p : P) : ∀ l : List P, SSorted l → SSorted (sinsert p l)
  | [], _ => by simp [sinsert, SSorted]
  | q :: t, h => by
    have h' := List.pairwise_cons.mp h
    simp only [sinsert]
    by_cases h1 : p < q
    · rw [if_pos h1]
      refine List.pairwise_cons.mpr ⟨?_, h⟩
      intro x hx
      rcases List.mem_cons.mp hx with rfl | hx
      · exact h1
      · exact h1.trans (h'.1 x hx)
    · rw [if_neg h1]
      by_cases h2 : q < p
      · rw [if_pos h2]
        refine List.pairwise_cons.mpr ⟨?_, sinsert_sorted p t h'.2⟩
        intro x hx
        rcases (mem_sinsert p x t).mp hx with rfl | hx
        · exact h2
        · exact h'.1 x hx
      · rw [if_neg h2]; exact h

theorem SSorted.nodup {l : List P} (h : SSorted l) : l.Nodup := h.imp (fun h => ne_of_lt h)

/-- A group with identifiers `g` in it is built of sorted sets, voters being members. -/
theorem fromProtoLoop_ok : ∀ (g : List (Option P × Bool)) (m m' : Membership P), m.Wf → m.voting ⊆ m.all →
    fromProtoLoop g m = .ok m' → m'.Wf ∧ m'.voting ⊆ m'.all ∧
      (∀ x, x ∈ m'.all ↔ x ∈ m.all ∨ ∃ v, (some x, v) ∈ g) ∧
      (∀ x, x ∈ m'.voting ↔ x ∈ m.voting ∨ (some x, true) ∈ g)
  | [], m, m', hw, hs, h => by cases h; exact ⟨hw, hs, by simp, by simp⟩
  | (none, _) :: t, m, m', _, _, h => by cases h
  | (some p, v) :: t, m, m', hw, hs, h => by
    simp only [fromProtoLoop] at h
    by_cases hm : p ∈ m.all
    · rw [if_pos hm] at h; cases h
    rw [if_neg hm] at h
    obtain ⟨h1, h2, h3, h4⟩ := fromProtoLoop_ok t _ m' ⟨sinsert_sorted p _ hw.all, by
      show SSorted (if v = true then sinsert p m.voting else m.voting)
      by_cases hv : v = true
      · rw [if_pos hv]; exact sinsert_sorted p _ hw.voting
      · rw [if_neg hv]; exact hw.voting⟩ (by
      intro x hx
      rw [mem_sinsert]
      by_cases hv : v = true
      · simp only [hv, if_true, mem_sinsert] at hx
        rcases hx with hx | hx
        · exact .inl hx
        · exact .inr (hs hx)
      · simp only [hv] at hx; exact .inr (hs (by simpa using hx))) h
    refine ⟨h1, h2, ?_, ?_⟩
    · intro x
      rw [h3, mem_sinsert]
      simp only [List.mem_cons, Prod.mk.injEq, Option.some.injEq]
      constructor
      · rintro ((rfl | h) | ⟨w, h⟩)
        · exact .inr ⟨v, .inl ⟨rfl, rfl⟩⟩
        · exact .inl h
        · exact .inr ⟨w, .inr h⟩
      · rintro (h | ⟨w, ⟨rfl, rfl⟩ | h⟩)
        · exact .inl (.inr h)
        · exact .inl (.inl rfl)
        · exact .inr ⟨w, h⟩
    · intro x
      rw [h4]
      simp only [List.mem_cons, Prod.mk.injEq, Option.some.injEq]
      by_cases hv : v = true
      · simp only [hv, if_true, mem_sinsert]; tauto
      · have : v = false := by simpa using hv
        subst this; simp

theorem setDiffLoop_eq : ∀ (n : Nat) (a b : List P), a.length + b.length ≤ n → SSorted a → SSorted b →
    setDiffLoop n a b = (a.filter (fun p => decide (p ∉ b))).length
  | 0, a, b, h, _, _ => by
    have : a = [] := List.length_eq_zero_iff.mp (by omega)
    subst this; rfl
  | n + 1, [], b, _, _, _ => rfl
  | n + 1, a :: as, [], h, ha, hb => by
    simp only [setDiffLoop]
    rw [setDiffLoop_eq n as [] (by simp at h ⊢; omega) (List.pairwise_cons.mp ha).2 hb]
    simp; omega
  | n + 1, a :: as, b :: bs, h, ha, hb => by
    have ha' := List.pairwise_cons.mp ha
    have hb' := List.pairwise_cons.mp hb
    simp only [setDiffLoop]
    by_cases h1 : a < b
    · rw [if_pos h1, setDiffLoop_eq n as (b :: bs) (by simp at h ⊢; omega) ha'.2 hb]
      have : a ∉ b :: bs := by
        intro hm
        rcases List.mem_cons.mp hm with rfl | hm
        · exact lt_irrefl _ h1
        · exact lt_irrefl _ (h1.trans (hb'.1 a hm))
      rw [List.filter_cons_of_pos (by simpa using this)]
      simp; omega
    · rw [if_neg h1]
      by_cases h2 : b < a
      · rw [if_pos h2, setDiffLoop_eq n (a :: as) bs (by simp at h ⊢; omega) ha hb'.2]
        congr 1
        apply List.filter_congr
        intro x hx
        have : x ≠ b := by
          rcases List.mem_cons.mp hx with rfl | hx
          · exact ne_of_gt h2
          · exact ne_of_gt (h2.trans (ha'.1 x hx))
        simp [this]
      · rw [if_neg h2]
        have hab : a = b := le_antisymm (not_lt.mp h2) (not_lt.mp h1)
        subst hab
        rw [setDiffLoop_eq n as bs (by simp at h ⊢; omega) ha'.2 hb'.2]
        rw [List.filter_cons_of_neg (by simp)]
        congr 1
        apply List.filter_congr
        intro x hx
        have : x ≠ a := ne_of_gt (ha'.1 x hx)
        simp [this]

theorem setDiffSize_card {a b : List P} (ha : SSorted a) (hb : SSorted b) :
    setDiffSize a b = (a.toFinset \ b.toFinset).card := by
  unfold setDiffSize
  rw [setDiffLoop_eq _ a b (le_refl _) ha hb]
  rw [← List.toFinset_card_of_nodup (ha.nodup.filter _)]
  congr 1
  ext x; simp

theorem filter_card {a : List P} (ha : SSorted a) (b : List P) :
    (a.filter (fun p => decide (p ∉ b))).length = (a.toFinset \ b.toFinset).card := by
  rw [← List.toFinset_card_of_nodup (ha.nodup.filter _)]
  congr 1
  ext x; simp

end Svr.Raft
