import Verif.Core.Members

/-!
# Model of the changes a leader makes to its group by itself (enclave/core/core.cc)

`Core::NextReplicaGroup`, called on every timer tick of the leader.
-/

namespace Svr.Core
open Raft Raft.Node
variable {P : Type} [LinearOrder P]

/-- The fields of `RaftGroupConfig` concerned (shared/proto/enclaveconfig.proto). -/
structure GroupCfg where
  minVoting : Nat
  maxVoting : Nat
  superMajority : Nat

/-- `ValidateRaftGroupConfig` (enclave/core/core.cc:52-60), without the checks of the attestation timeout and of the database version. -/
def GroupCfg.validate (c : GroupCfg) : Bool :=
  if c.minVoting > c.maxVoting then false
  else if c.minVoting < 1 then false
  else true

/-- The fields of `RaftConfig` concerned: `election_ticks`, `replica_voting_timeout_ticks`, `replica_membership_timeout_ticks`. -/
structure RegroupCfg where
  election : Nat
  voting : Nat
  membership : Nat

/-- `Raft::last_seen_ticks` (enclave/raft/raft.cc:1431-1436). -/
def lastSeen (s : Node P) (p : P) : Int :=
  if s.role ≠ .leader then invalidTicks
  else match s.followers.find p with
    | none => invalidTicks
    | some r => r.lastSeen

/-- The search for the spare replica seen last (enclave/core/core.cc:1034-1042). Ids are not empty strings, so `peer_id != ""` says that
one was found. -/
def bestSpare (s : Node P) : List P → Option P → Int → Option P × Int
  | [], best, least => (best, least)
  | p :: ps, best, least =>
    if lastSeen s p < least ∧ p ∉ s.membership.voting then bestSpare s ps (some p) (lastSeen s p)
    else bestSpare s ps best least

/-- The loops that set `voting` of the first replica with an id (enclave/core/core.cc:1046-1051, 1061-1066); `none` if there is none. -/
def setVoting (id : Bytes) (v : Bool) : List (Bytes × Bool) → Option (List (Bytes × Bool))
  | [] => none
  | r :: rs => if r.1 = id then some ((r.1, v) :: rs) else (setVoting id v rs).map (r :: ·)

/-- Erasing the first replica with an id (enclave/core/core.cc:1077-1083). -/
def eraseReplica (id : Bytes) : List (Bytes × Bool) → Option (List (Bytes × Bool))
  | [] => none
  | r :: rs => if r.1 = id then some rs else (eraseReplica id rs).map (r :: ·)

/-- The first part of `Core::NextReplicaGroup` (enclave/core/core.cc:1030-1054). -/
def promotion (str : P → Bytes) (gc : GroupCfg) (rc : RegroupCfg) (s : Node P) : Option (List (Bytes × Bool)) :=
  if s.membership.voting.length < gc.maxVoting ∧ s.membership.all.length > s.membership.voting.length then
    match bestSpare s s.membership.all none invalidTicks with
    | (some p, least) => if least < rc.election then setVoting (str p) true (protoOf str s.membership) else none
    | (none, _) => none
  else none

/-- The second part (enclave/core/core.cc:1055-1069). -/
def demotion (str : P → Bytes) (gc : GroupCfg) (rc : RegroupCfg) (s : Node P) : Option (List (Bytes × Bool)) :=
  if s.membership.voting.length > gc.minVoting then
    s.membership.voting.findSome? fun p =>
      if lastSeen s p ≠ invalidTicks ∧ lastSeen s p > rc.voting then setVoting (str p) false (protoOf str s.membership) else none
  else none

/-- The third part (enclave/core/core.cc:1070-1085). -/
def removal (str : P → Bytes) (rc : RegroupCfg) (s : Node P) : Option (List (Bytes × Bool)) :=
  if s.membership.all.length > s.membership.voting.length then
    s.membership.all.findSome? fun p =>
      if p ∈ s.membership.voting then none
      else if lastSeen s p ≠ invalidTicks ∧ lastSeen s p > rc.membership then eraseReplica (str p) (protoOf str s.membership) else none
  else none

/-- `Core::NextReplicaGroup` (enclave/core/core.cc:1023-1087); `member` says that the state is `RAFTSTATE_LOADED_PART_OF_GROUP`. -/
def nextReplicaGroup (str : P → Bytes) (gc : GroupCfg) (rc : RegroupCfg) (member : Bool) (s : Node P) : Option (List (Bytes × Bool)) :=
  if member = false then none
  else if s.leader = none then none
  else match promotion str gc rc s with
    | some g => some g
    | none => match demotion str gc rc s with
      | some g => some g
      | none => removal str rc s

/-! ### Lemmas -/

theorem setVoting_eq {id : Bytes} {v : Bool} : ∀ {l : List (Bytes × Bool)}, (l.map (·.1)).Nodup → id ∈ l.map (·.1) →
    setVoting id v l = some (l.map fun r => if r.1 = id then (r.1, v) else r)
  | [], _, h => by cases h
  | r :: rs, hn, h => by
    obtain ⟨h1, h2⟩ := List.nodup_cons.mp hn
    simp only [setVoting, List.map_cons]
    by_cases hr : r.1 = id
    · rw [if_pos hr, if_pos hr]
      congr 2
      have : ∀ x ∈ rs, (fun r : Bytes × Bool => if r.1 = id then (r.1, v) else r) x = x := by
        intro x hx
        have : x.1 ≠ id := by
          rintro e
          apply h1
          show r.1 ∈ _
          rw [hr, ← e]
          exact List.mem_map_of_mem hx
        simp only [this, if_false]
      rw [List.map_congr_left this, List.map_id']
    · rw [if_neg hr, if_neg hr]
      have : id ∈ rs.map (·.1) := by
        rcases List.mem_cons.mp h with e | e
        · exact absurd e.symm hr
        · exact e
      rw [setVoting_eq h2 this]
      rfl

theorem eraseReplica_eq {id : Bytes} : ∀ {l : List (Bytes × Bool)}, (l.map (·.1)).Nodup → id ∈ l.map (·.1) →
    eraseReplica id l = some (l.filter fun r => decide (r.1 ≠ id))
  | [], _, h => by cases h
  | r :: rs, hn, h => by
    obtain ⟨h1, h2⟩ := List.nodup_cons.mp hn
    simp only [eraseReplica]
    by_cases hr : r.1 = id
    · rw [if_pos hr, List.filter_cons_of_neg (by simp [hr])]
      congr 1
      symm
      apply List.filter_eq_self.mpr
      intro x hx
      simp only [ne_eq, decide_eq_true_eq]
      intro e
      apply h1
      show r.1 ∈ _
      rw [hr, ← e]
      exact List.mem_map_of_mem hx
    · rw [if_neg hr, List.filter_cons_of_pos (by simp [hr])]
      have : id ∈ rs.map (·.1) := by
        rcases List.mem_cons.mp h with e | e
        · exact absurd e.symm hr
        · exact e
      rw [eraseReplica_eq h2 this]
      rfl

theorem bestSpare_spec (s : Node P) : ∀ (l : List P) (best : Option P) (least : Int) (seen : List P),
    (match best with
      | some x => x ∈ seen ∧ x ∉ s.membership.voting ∧ least = lastSeen s x
      | none => least = invalidTicks) →
    (∀ y ∈ seen, y ∉ s.membership.voting → least ≤ lastSeen s y) →
    (match (bestSpare s l best least).1 with
      | some x => x ∈ seen ++ l ∧ x ∉ s.membership.voting ∧ (bestSpare s l best least).2 = lastSeen s x
      | none => (bestSpare s l best least).2 = invalidTicks) ∧
    ∀ y ∈ seen ++ l, y ∉ s.membership.voting → (bestSpare s l best least).2 ≤ lastSeen s y
  | [], best, least, seen, h1, h2 => by
    simp only [bestSpare, List.append_nil]
    exact ⟨h1, h2⟩
  | p :: l, best, least, seen, h1, h2 => by
    simp only [bestSpare]
    by_cases hp : lastSeen s p < least ∧ p ∉ s.membership.voting
    · rw [if_pos hp]
      have := bestSpare_spec s l (some p) (lastSeen s p) (seen ++ [p]) ⟨by simp, hp.2, rfl⟩ (by
        intro y hy hv
        rcases List.mem_append.mp hy with hy | hy
        · have := h2 y hy hv; omega
        · rw [List.mem_singleton.mp hy])
      simpa only [List.append_assoc, List.singleton_append] using this
    · rw [if_neg hp]
      have := bestSpare_spec s l best least (seen ++ [p]) (by
        cases best with
        | none => exact h1
        | some x => exact ⟨List.mem_append_left _ h1.1, h1.2⟩) (by
        intro y hy hv
        rcases List.mem_append.mp hy with hy | hy
        · exact h2 y hy hv
        · rw [List.mem_singleton.mp hy] at hv ⊢
          by_contra hc
          exact hp ⟨by omega, hv⟩)
      simpa only [List.append_assoc, List.singleton_append] using this

end Svr.Core
