import Verif.Core.Write
import Verif.Props.RaftNode
import Verif.Wire.Proof

/-!
# C107: when a write enters the log of a leader

The specification looks at the log of a replica that has been reached by any calls, before and after the write.
-/

namespace Svr.Props.Write
open Svr Svr.Raft Svr.Raft.Node Svr.Props.RaftNode
open Svr.Core (Keeper WErr Wrote)
variable {P : Type} [LinearOrder P] {v : Env P} {G0 : Bytes × Bytes → Prop}

/-- The entry with this content is in the log of `s'`, at the place that is named, behind all that was in the log of the leader `s`, and has the leader's term. -/
structure Entered (s s' : Node P) (i : Inner) (loc : Loc) : Prop where
  leads : s.role = .leader
  term : loc.term = s.term
  behind : loc.idx = s.log.lastIdx + 1
  there : s'.log.at? loc.idx = some ⟨s.term, i, loc.hash⟩

/-- A member that may take writes: it is part of a group, has the least number of voters and, if `clock`, knows the time of a quorum. -/
structure Ready (k : Keeper P) (clock : Bool) : Prop where
  part : k.part = true
  voters : k.least ≤ k.node.membership.voting.length
  timed : clock = true → k.timed = true

theorem entered {s s' : Node P} {i : Inner} {loc : Loc} (hs : Reached v G0 s) (h : s.logRequest v i = .ok (s', .ok loc)) : Entered s s' i loc := by
  obtain ⟨_, hs⟩ := hs.solo
  obtain ⟨a, b, c, _, _, d, _⟩ := logRequest_spec hs.shaped h
  exact ⟨a, b, c, d⟩

/-- **C107, forwarded writes**: a write of another member is taken only by a leader that is part of a group, has the least number of voters and knows the time of
a quorum. The content of the entry is what was sent, and the place that the sender is told is where the entry is. -/
theorem C107_forwarded {k : Keeper P} (hs : Reached v G0 k.node) {data : Bytes} {s' : Node P} {loc : Loc} (h : k.handleWrite v data = .ok (s', .ok loc)) :
    Ready k true ∧ ∃ e, Wire.decEntry true data = some e ∧ Entered k.node s' e.inner loc := by
  unfold Keeper.handleWrite at h
  split at h
  · cases h
  rename_i h1
  split at h
  · cases h
  rename_i h2
  split at h
  · cases h
  rename_i h3
  cases hd : Wire.decEntry true data with
  | none => rw [hd] at h; cases h
  | some e =>
    rw [hd] at h
    obtain ⟨⟨s1, r⟩, h4, h⟩ := Out.bind_eq_ok.mp h
    cases r with
    | error x => cases h
    | ok l =>
      cases h
      exact ⟨⟨by simpa using h1, by omega, fun _ => by simpa using h3⟩, e, rfl, entered hs h4⟩

/-- **C107, writes of a member's own clients, as far as it holds**: they are taken only by a leader that is part of a group and has the least number of voters.
Missing: that it knows the time of a quorum (`C107_own_without_time`). -/
theorem C107_own_partial {k : Keeper P} (hs : Reached v G0 k.node) {e : Entry} {s' : Node P} {loc : Loc} (h : k.write v e = .ok (s', .taken loc)) :
    Ready k false ∧ Entered k.node s' e.inner loc := by
  unfold Keeper.write at h
  split at h
  · cases h
  rename_i h1
  split at h
  · split at h
    · cases h
    rename_i h2
    obtain ⟨⟨s1, r⟩, h4, h⟩ := Out.bind_eq_ok.mp h
    cases r with
    | error x => cases h
    | ok l =>
      cases h
      exact ⟨⟨by simpa using h1, by omega, fun h => by cases h⟩, entered hs h4⟩
  · split at h
    · split at h <;> cases h
    · cases h

/-- **C107, the way of a write**: what a member forwards to the leader is entered there with the content that its own client gave it. -/
theorem C107_same_content {k l : Keeper P} (hl : Reached v G0 l.node) {e : Entry} (ht : e.term < 2 ^ 64) {p : P} {data : Bytes} {s s' : Node P} {loc : Loc}
    (h : k.write v e = .ok (s, .forwarded p data)) (h' : l.handleWrite v data = .ok (s', .ok loc)) :
    k.part = true ∧ k.node.leader = some p ∧ s = k.node ∧ Ready l true ∧ Entered l.node s' e.inner loc := by
  obtain ⟨r, e', hd, he⟩ := C107_forwarded hl h'
  unfold Keeper.write at h
  split at h
  · cases h
  rename_i h1
  split at h
  · split at h
    · cases h
    obtain ⟨⟨s1, r⟩, h4, h⟩ := Out.bind_eq_ok.mp h
    cases r <;> cases h
  · cases hq : k.node.leader with
    | none => rw [hq] at h; cases h
    | some q =>
      rw [hq] at h
      dsimp only at h
      split at h
      · rename_i hm
        cases h
        rw [Wire.decEntry_encEntry (fun _ => ht) fun _ => hm] at hd
        cases hd
        exact ⟨by simpa using h1, rfl, rfl, r, he⟩
      · cases h

/-- A forwarded write is refused, and nothing changes, as long as the time of a quorum is not known. -/
theorem C107_forwarded_needs_time {k : Keeper P} (ht : k.timed = false) (data : Bytes) :
    ∃ e, k.handleWrite v data = .ok (k.node, .error e) := by
  unfold Keeper.handleWrite
  split
  · exact ⟨_, rfl⟩
  split
  · exact ⟨_, rfl⟩
  rw [if_pos (by simp [ht])]
  exact ⟨_, rfl⟩

/-! ### Witnesses -/

/-- A replica that is elected leader of three. -/
def elected : List (Op Nat) := [.tick, .receive 2 ⟨5, 1, .voteResp true⟩]

/-- Whether the write was taken. -/
def took : Out (Node Nat × Wrote Nat) → Bool
  | .ok (_, .taken _) => true
  | _ => false

/-- Whether the forwarded write was taken. -/
def passed : Out (Node Nat × Except WErr Loc) → Bool
  | .ok (_, .ok _) => true
  | _ => false

/-- The membership of three with the third demoted. -/
def demoted : Entry := ⟨0, .membership [([1], true), ([2], true), ([3], false)], []⟩

set_option maxRecDepth 100000 in
theorem facts : ∃ s : Node Nat, Reached toy (fun _ => False) s ∧ s.role = .leader ∧ took ((Keeper.mk true s 3 false).write toy ⟨0, .data [7], []⟩) = true ∧
    passed ((Keeper.mk true s 3 true).handleWrite toy (Wire.encEntry ⟨0, .data [7], []⟩)) = true ∧
    passed ((Keeper.mk true s 3 true).handleWrite toy (Wire.encEntry demoted)) = true := by
  obtain ⟨s0, s, tr, h1, h2, h3⟩ := holds_run (mem := three) (cfg := fast) (ops := elected)
    (f := fun s _ => decide (s.role = .leader) && (took ((Keeper.mk true s 3 false).write toy ⟨0, .data [7], []⟩) &&
      (passed ((Keeper.mk true s 3 true).handleWrite toy (Wire.encEntry ⟨0, .data [7], []⟩)) &&
      passed ((Keeper.mk true s 3 true).handleWrite toy (Wire.encEntry demoted))))) (by decide) (by decide +kernel)
  simp only [Bool.and_eq_true, decide_eq_true_eq] at h3
  exact ⟨s, ⟨_, s0, tr, h1, h2⟩, h3⟩

/-- **C107 fails for a leader's own clients**: their writes are taken though the leader does not know the time of a quorum, in which case it takes nobody
else's (`C107_forwarded_needs_time`). -/
theorem C107_own_without_time : ∃ (k : Keeper Nat) (e : Entry) (s' : Node Nat) (loc : Loc), Reached toy (fun _ => False) k.node ∧ k.timed = false ∧
    k.write toy e = .ok (s', .taken loc) ∧ Entered k.node s' e.inner loc := by
  obtain ⟨s, hs, _, h, _⟩ := facts
  unfold took at h
  split at h
  · rename_i s' loc h'
    exact ⟨⟨true, s, 3, false⟩, _, s', loc, hs, rfl, h', (C107_own_partial (k := ⟨true, s, 3, false⟩) hs h').2⟩
  · cases h

/-- What is forwarded need not be the request of a client: a leader takes a change of the membership from any member that sends one, here the demotion of a voter. -/
theorem C107_member_may_change_membership : ∃ (k : Keeper Nat) (data : Bytes) (s' : Node Nat) (loc : Loc), Reached toy (fun _ => False) k.node ∧
    k.handleWrite toy data = .ok (s', .ok loc) ∧ Entered k.node s' demoted.inner loc := by
  obtain ⟨s, hs, _, _, _, h⟩ := facts
  unfold passed at h
  split at h
  · rename_i s' loc h'
    obtain ⟨_, e, he, h2⟩ := C107_forwarded (k := ⟨true, s, 3, true⟩) hs h'
    rw [Wire.decEntry_encEntry (fun _ => by decide) (fun _ => by decide)] at he
    cases he
    exact ⟨⟨true, s, 3, true⟩, _, s', loc, hs, h', h2⟩
  · cases h

/-- The hypotheses of `C107_same_content` are met: replica 2, which follows 1, forwards an entry that 1 takes. -/
example : ∃ (k l : Keeper Nat) (data : Bytes) (s s' : Node Nat) (loc : Loc), Reached toy (fun _ => False) l.node ∧
    k.write toy ⟨0, .data [7], []⟩ = .ok (s, .forwarded 1 data) ∧ l.handleWrite toy data = .ok (s', .ok loc) := by
  obtain ⟨s, hs, _, _, h, _⟩ := facts
  unfold passed at h
  split at h
  · rename_i s' loc h'
    exact ⟨⟨true, { base 5 2 three (Log.new 1000) fast false 0 with fLeader := some 1 }, 3, true⟩, ⟨true, s, 3, true⟩, _, _, s', loc, hs, rfl, h'⟩
  · cases h

end Svr.Props.Write
