import Verif.Core.TownPlay
import Verif.Props.Grid

/-!
# Joining again breaks C26, C28 and C36

`Core::HandleJoinRaft` (enclave/core/core.cc:487-517) refuses only a replica in `RAFTSTATE_LOADED_PART_OF_GROUP`. A replica is in
that state when, in the log it has applied so far, it is a member. The leader however counts it according to the end of the log. A
replica that is behind can therefore be a voter of the group and yet be told by its host to join again; it then forgets its term,
its vote and what it promised, and keeps its id.

`Town` (Verif/Core/Members.lean) has exactly the requests `core.cc` makes. In the schedule below messages between two replicas
arrive in order; they may be late or, when the receiver is not loaded, ignored. Replica 3's host is the only one that does anything
unusual: it has replica 3 removed, asks for a vote, and has it join again twice.
-/

namespace Svr.Props.Rejoin
open Core Core.Play Raft Raft.Node Raft.Play Spec
open Svr.Props.RaftGroup Svr.Props.Grid

def say (p : Nat) : TAct := .act (.call p .takeSendable)
def give (p k : Nat) : TAct := .act (.give p k)
def com (p : Nat) : TAct := .act (.call p .takeCommitted)
def tick (p : Nat) : TAct := .act (.call p .tick)
def ask (p : Nat) (b : UInt8) : TAct := .act (.call p (.request (.data [b])))

def pinY : Bytes := List.replicate 32 9

/-- 1: backup with two tries; 2: expose; 3 and 4: two different wrong guesses. -/
def rq2 : Bytes → Option Svr.DB2.Log
  | [4] => some ⟨DB2.ida, .restore pinY⟩
  | b => rq b

/-- A group created by replica 1, with no super majority, running SVR2. -/
def town : Site Nat Svr.DB2.DB Svr.DB2.Log Svr.DB2.Resp :=
  ⟨⟨steady, 5, 0, Membership.first 1⟩, svr2 DB2.P0 rq2, fun _ => none, fun p => [UInt8.ofNat p]⟩

/-- One entry per append request. -/
def slow : RaftCfg := ⟨1, 1, 1, 100⟩

/-- Replica 1 creates the group and stores a backup; 2 joins and becomes a voter; 3 joins, asking 1 and 2 for membership; the request
to 2 is late. 3 is added and removed again by 1. 2 is elected in term 2 and gets 3's request: 3 is a member again, then, as it
asks for it, a voter. 1 is elected in term 4 by 1 and 3, and sends 3 the entry that removed it. 3 is told to join again, from 2, which
is still in term 3. Now 2 is elected in term 4, by 2 and 3, and commits a guess with 3. 3 is told to join again, from 1, and 1
commits another guess with 3. -/
def twiceActs : List TAct :=
  [.act (.start 1), com 1, ask 1 1, ask 1 2, com 1, com 1, .act (.join 2 1), .send 2 1 .member, .serve 2 1 .member, say 1,
   give 2 0, say 2, give 1 1, say 1, give 2 2, say 2, give 1 3, say 1, give 2 4, com 1, com 2, .send 2 1 .voter,
   .serve 2 1 .voter, say 1, give 2 5, say 2, give 1 6, give 1 7, say 1, give 2 8, say 2, give 1 9, say 1, give 2 10, say 2,
   give 1 11, com 1, com 2, .act (.join 3 1), .send 3 1 .member, .send 3 2 .member, .serve 3 1 .member, say 1, give 2 12,
   say 2, give 1 14, give 3 13, say 3, give 1 15, say 1, give 2 16, say 2, give 1 19, give 3 17, give 3 18, say 3, give 1 20,
   give 1 21, say 1, give 2 22, say 2, give 1 26, give 3 23, give 3 24, give 3 25, say 3, give 1 27, give 1 28, give 1 29,
   say 1, say 2, say 3, com 1, com 2, com 3, .send 3 1 .removal, .serve 3 1 .removal, say 1, give 2 30, say 2, give 1 31,
   say 1, give 2 32, say 2, give 1 33, say 1, give 2 34, say 2, give 1 35, com 1, com 2, tick 2, say 2, give 1 36, say 1,
   give 2 37, say 2, give 1 38, say 1, give 2 39, say 2, give 1 40, say 1, give 2 41, say 2, give 1 42, say 1, give 2 43,
   com 1, com 2, .serve 3 2 .member, say 2, give 1 44, say 1, give 2 46, say 2, give 1 47, say 1, give 2 49, say 2, give 1 50,
   say 1, give 2 52, com 1, com 2, give 3 45, .send 3 2 .voter, .serve 3 2 .voter, say 2, give 1 54, say 1, give 2 56, say 2,
   give 1 57, say 1, give 2 59, say 2, give 1 60, say 1, give 2 62, com 1, com 2, tick 1, say 1, give 2 63, tick 1, say 1,
   give 3 64, say 3, give 1 66, say 1, give 3 68, say 3, give 1 69, say 1, give 3 70, say 3, give 1 71, say 1, give 3 72,
   com 3, say 2, .rejoin 3 2, tick 2, say 2, give 3 75, say 3, give 2 76, ask 2 4, say 2, give 3 78, give 3 80, say 3,
   give 2 81, give 2 82, say 2, give 3 84, give 3 86, say 3, give 2 87, give 2 88, say 2, give 3 90, give 3 92, say 3,
   give 2 93, give 2 94, say 2, say 3, com 2, com 2, say 3, .rejoin 3 1, ask 1 3, say 1, give 3 96, say 3, give 1 97, say 1,
   give 3 98, say 3, give 1 99, say 1, give 3 100, say 3, give 1 101, say 1, give 3 102, say 3, give 1 103, say 1, give 3 105,
   say 3, give 1 106, say 1, give 3 108, say 3, give 1 109, say 1, give 3 111, say 3, give 1 112, say 1, say 3, com 1, com 1]

def memberOf (Y : TTab Svr.DB2.DB Svr.DB2.Resp) (p : Nat) : Bool :=
  match lookS p Y.X.sides with
  | some a => a.member
  | none => false

def twiceOk (Y : TTab Svr.DB2.DB Svr.DB2.Resp) : Bool :=
  noColl (hashedBy Y.X.T) && leadsIn Y.X.T 1 4 && leadsIn Y.X.T 2 4 && decide (committedAt Y.X.T 1 12 = some (.data [3])) &&
  decide (committedAt Y.X.T 2 12 = some (.data [4])) && decide ((1, 12, some (.restore .pinMismatch [] 1)) ∈ Y.X.out) &&
  decide ((2, 12, some (.restore .pinMismatch [] 1)) ∈ Y.X.out) && memberOf Y 1 && memberOf Y 2

set_option maxRecDepth 100000 in
theorem twice : (tplay town slow twiceActs TTab.none).any twiceOk = true := by decide +kernel

theorem proper_town : Proper town.raft :=
  ⟨⟨by simp [town, SSorted, Membership.first], by simp [town, SSorted, Membership.first]⟩, by simp [town, Membership.first],
    by simp [town, Membership.first], by simp [town]⟩

theorem memberOf_spec {Y : TTab Svr.DB2.DB Svr.DB2.Resp} {p : Nat} (h : memberOf Y p = true) :
    ∃ a, Y.town.G.side p = some a ∧ a.member = true := by
  unfold memberOf at h
  split at h
  · rename_i a ha
    exact ⟨a, ha, h⟩
  · cases h

theorem twice_spec : ∃ X : Town Nat Svr.DB2.DB Svr.DB2.Resp, TReach town true X ∧ NoCollision town.raft.v X.G.W.Hashed ∧
    Leads X.G.W 1 4 ∧ Leads X.G.W 2 4 ∧ (∃ e, Committed X.G.W 1 12 e ∧ e.inner = .data [3]) ∧
    (∃ e, Committed X.G.W 2 12 e ∧ e.inner = .data [4]) ∧ (1, 12, some (.restore .pinMismatch [] 1)) ∈ X.G.out ∧
    (2, 12, some (.restore .pinMismatch [] 1)) ∈ X.G.out ∧ (∃ a, X.G.side 1 = some a ∧ a.member = true) ∧
    (∃ a, X.G.side 2 = some a ∧ a.member = true) := by
  have h := twice
  rw [Option.any_eq_true] at h
  obtain ⟨Y, h1, h2⟩ := h
  simp only [twiceOk, Bool.and_eq_true, decide_eq_true_eq] at h2
  obtain ⟨⟨⟨⟨⟨⟨⟨⟨k1, k2⟩, k3⟩, k4⟩, k5⟩, k6⟩, k7⟩, k8⟩, k9⟩ := h2
  exact ⟨Y.town, tplay_reach (.inl rfl) h1 .empty, noColl_table k1, leadsIn_spec k2, leadsIn_spec k3, committedAt_spec k4, committedAt_spec k5,
    k6, k7, memberOf_spec k8, memberOf_spec k9⟩

/-- **C26 fails when replicas join again**: two leaders of one term. -/
theorem C26_false_with_rejoin : ∃ (c : Site Nat Svr.DB2.DB Svr.DB2.Log Svr.DB2.Resp) (X : Town Nat Svr.DB2.DB Svr.DB2.Resp) (p q t : Nat),
    Proper c.raft ∧ SerInj c.raft.v ∧ TReach c true X ∧ NoCollision c.raft.v X.G.W.Hashed ∧ Leads X.G.W p t ∧ Leads X.G.W q t ∧ p ≠ q := by
  obtain ⟨X, h1, h2, h3, h4, _⟩ := twice_spec
  exact ⟨town, X, 1, 2, 4, proper_town, serInj_steady, h1, h2, h3, h4, by decide⟩

/-- **C28 fails when replicas join again**: two replicas, both members in good standing, have committed different entries at one
index. -/
theorem C28_false_with_rejoin : ∃ (c : Site Nat Svr.DB2.DB Svr.DB2.Log Svr.DB2.Resp) (X : Town Nat Svr.DB2.DB Svr.DB2.Resp)
    (p q i : Nat) (e e' : Entry), Proper c.raft ∧ SerInj c.raft.v ∧ TReach c true X ∧ NoCollision c.raft.v X.G.W.Hashed ∧
    (∃ a, X.G.side p = some a ∧ a.member = true) ∧ (∃ a, X.G.side q = some a ∧ a.member = true) ∧
    Committed X.G.W p i e ∧ Committed X.G.W q i e' ∧ e.inner ≠ e'.inner := by
  obtain ⟨X, h1, h2, _, _, ⟨e, h3, h4⟩, ⟨e', h5, h6⟩, _, _, h7, h8⟩ := twice_spec
  exact ⟨town, X, 1, 2, 12, e, e', proper_town, serInj_steady, h1, h2, h7, h8, h3, h5, by rw [h4, h6]; decide⟩

/-- **C36 fails when replicas join again**: a backup allows two tries, so at most one guess may be answered with PIN_MISMATCH (the
second wrong one erases the backup). Two different guesses are. -/
theorem C36_false_with_rejoin : ∃ (X : Town Nat Svr.DB2.DB Svr.DB2.Resp) (p q i : Nat) (e e' : Entry) (g g' : Bytes),
    town.pr = svr2 DB2.P0 rq2 ∧ (∀ l b, rq2 b = some l → Spec2.isBackup l.req = true → ∃ s pin, l = ⟨DB2.ida, .backup s pin 2⟩) ∧
    TReach town true X ∧ NoCollision town.raft.v X.G.W.Hashed ∧
    Committed X.G.W p i e ∧ request town.pr e = some ⟨DB2.ida, .restore g⟩ ∧ (p, i, some (.restore .pinMismatch [] 1)) ∈ X.G.out ∧
    Committed X.G.W q i e' ∧ request town.pr e' = some ⟨DB2.ida, .restore g'⟩ ∧ (q, i, some (.restore .pinMismatch [] 1)) ∈ X.G.out ∧
    g ≠ g' := by
  obtain ⟨X, h1, h2, _, _, ⟨e, h3, h4⟩, ⟨e', h5, h6⟩, h7, h8, _⟩ := twice_spec
  refine ⟨X, 1, 2, 12, e, e', DB2.pinX, pinY, rfl, ?_, h1, h2, h3, ?_, h7, h5, ?_, h8, by decide⟩
  · intro l b h hb
    unfold rq2 rq at h
    split at h
    · cases h; simp [Spec2.isBackup] at hb
    · split at h
      · cases h; exact ⟨_, _, rfl⟩
      · cases h; simp [Spec2.isBackup] at hb
      · cases h; simp [Spec2.isBackup] at hb
      · cases h
  · unfold request; rw [h4]; decide
  · unfold request; rw [h6]; decide

/-- **C51**, as long as nobody joins again: through all requests `core.cc` makes for membership, votes and removal, what replicas
have committed at an index is the same entry. Missing: joining again (`C28_false_with_rejoin`) and a super majority of 0
(`C29_false_without_super_majority`). -/
theorem C51_agree_partial {P : Type} [LinearOrder P] {D L E : Type} {c : Site P D L E} (hg : Proper c.raft) {X : Town P D E}
    (h : TReach c false X) (hn : NoCollision c.raft.v X.G.W.Hashed) (hser : SerInj c.raft.v) (hv : Changing c.raft X.G.W)
    {p q : P} {i : Nat} {e e' : Entry} (hp : Committed X.G.W p i e) (hq : Committed X.G.W q i e') : e = e' :=
  C29_committed_agree_partial hg h.grid.raft .now hn hser hv hp hq

/-- Replica 1 creates a group, 2 joins, becomes a member and a voter, and both commit an entry; all as `core.cc` does it. -/
def joinActs : List TAct :=
  [.act (.start 1), com 1, .act (.join 2 1), .send 2 1 .member, .serve 2 1 .member, say 1, give 2 0, say 2, give 1 1, say 1,
   give 2 2, say 2, give 1 3, say 1, give 2 4, com 2, com 1, .send 2 1 .voter, .serve 2 1 .voter, ask 1 1, say 1, give 2 5, give 2 6,
   say 2, give 1 9, say 1, give 2 10, say 2, give 1 11, say 1, give 2 12, com 1, com 1, com 2, com 2]

def calm : Site Nat Svr.DB2.DB Svr.DB2.Log Svr.DB2.Resp := { town with raft := { town.raft with sm := 1 } }

def joinOk (Y : TTab Svr.DB2.DB Svr.DB2.Resp) : Bool :=
  noColl (hashedBy Y.X.T) && decide (committedAt Y.X.T 1 4 = some (.data [1])) && decide (committedAt Y.X.T 2 4 = some (.data [1])) &&
  requests Y.X.T (fun m => decide (m.all.length ≤ 2) && decide (m.voting.length ≤ 2))

set_option maxRecDepth 100000 in
/-- What C51 speaks about happens. -/
example : ∃ X : Town Nat Svr.DB2.DB Svr.DB2.Resp, Proper calm.raft ∧ SerInj calm.raft.v ∧ TReach calm false X ∧
    NoCollision calm.raft.v X.G.W.Hashed ∧ Changing calm.raft X.G.W ∧ (∃ e, Committed X.G.W 1 4 e ∧ e.inner = .data [1]) ∧
    ∃ e, Committed X.G.W 2 4 e ∧ e.inner = .data [1] := by
  have h : (tplay calm fast joinActs TTab.none).any joinOk = true := by decide +kernel
  rw [Option.any_eq_true] at h
  obtain ⟨Y, h1, h2⟩ := h
  simp only [joinOk, Bool.and_eq_true, decide_eq_true_eq] at h2
  obtain ⟨⟨⟨k1, k2⟩, k3⟩, k4⟩ := h2
  refine ⟨Y.town, ⟨⟨by simp [calm, town, SSorted, Membership.first], by simp [calm, town, SSorted, Membership.first]⟩,
    by simp [calm, town, Membership.first], by simp [calm, town, Membership.first], by simp [calm]⟩, serInj_steady,
    tplay_reach (.inr rfl) h1 .empty, noColl_table k1, ⟨le_rfl, fun m hm => ?_, .inl rfl⟩, committedAt_spec k2, committedAt_spec k3⟩
  have := requests_spec (g := calm.raft) rfl k4 hm
  simp only [Bool.and_eq_true, decide_eq_true_eq] at this
  omega

end Svr.Props.Rejoin
