import Verif.Raft.Among
import Verif.Raft.Settled

/-!
# How a replica gets elected
-/

namespace Svr.Raft
open Node
variable {P : Type} [LinearOrder P]

namespace Node
variable {v : Env P} {s s' : Node P}

/-- What does not change while a leader is being elected. -/
structure Akin (s s' : Node P) : Prop where
  me : s'.me = s.me
  group : s'.group = s.group
  log : s'.log = s.log
  mem : s'.mem = s.mem
  unc : s'.uncommitted = s.uncommitted
  sm : s'.superMajority = s.superMajority
  cfg : s'.cfg = s.cfg
  commit : s'.commit = s.commit
  promise : s'.promise = s.promise
  agrees : s.Agrees → s'.Agrees

theorem Akin.refl (s : Node P) : Akin s s := ⟨rfl, rfl, rfl, rfl, rfl, rfl, rfl, rfl, rfl, id⟩

theorem Akin.trans {s1 s2 s3 : Node P} (h : Akin s1 s2) (k : Akin s2 s3) : Akin s1 s3 :=
  ⟨k.me.trans h.me, k.group.trans h.group, k.log.trans h.log, k.mem.trans h.mem, k.unc.trans h.unc, k.sm.trans h.sm, k.cfg.trans h.cfg,
    k.commit.trans h.commit, k.promise.trans h.promise, k.agrees ∘ h.agrees⟩

theorem Akin.membership (h : Akin s s') : s'.membership = s.membership := by unfold Node.membership; rw [h.unc, h.mem]
theorem Akin.quorum (h : Akin s s') : s'.quorum = s.quorum := by unfold Node.quorum; rw [h.membership, h.sm]
theorem Akin.voting (h : Akin s s') : s'.voting = s.voting := by unfold Node.voting; rw [h.membership, h.me]

/-! ### A candidate lacks votes -/

/-- As long as a replica is a candidate it has too few votes. -/
def Lacking (s : Node P) : Prop := s.role = .candidate → s.votes.length < s.quorum

theorem Alike.lacking (h : Alike s s') (hs : Lacking s) : Lacking s' :=
  fun hr => by rw [h.votes, h.quorum]; exact hs (h.role ▸ hr)

theorem verifyAndAdvance_lacking (hs : Lacking s) (k : s.verifyAndAdvance v = .ok s') : Lacking s' := by
  obtain ⟨⟨s1, ok⟩, h1, k⟩ := Out.bind_eq_ok.mp k
  obtain ⟨w, rfl⟩ := verifyMerkle_eq h1
  simp only at k
  split at k
  · obtain ⟨s2, h2, k⟩ := Out.bind_eq_ok.mp k
    obtain ⟨c, p, _, _, rfl⟩ := updateMerkle_eq k
    obtain ⟨r1, r2⟩ := maybeAdvance_rest h2
    intro hr
    have hr' : s.role = .candidate := r1.symm.trans hr
    have e2 := maybeAdvance_still (fun h => by rw [show s.role = .leader from h] at hr'; cases hr') h2
    subst e2
    exact hs hr'
  · cases k
    exact (walks_alike s w).lacking hs

theorem maybeChangeState_lacking (k : s.maybeChangeState v = .ok s') : Lacking s' := by
  obtain ⟨s1, h1, k⟩ := Out.bind_eq_ok.mp k
  obtain ⟨s2, h2, k⟩ := Out.bind_eq_ok.mp k
  obtain ⟨s3, h3, k⟩ := Out.bind_eq_ok.mp k
  have st : Lacking s3 := (sendAll_alike h3).lacking (verifyAndAdvance_lacking (maybeBecomeLeader_votes h1) h2)
  split at k
  · unfold tryToRelinquish at k
    split at k
    · cases k; exact st
    · obtain ⟨s4, h4, k⟩ := Out.bind_eq_ok.mp k
      obtain ⟨⟨t, s5⟩, h5, k⟩ := Out.bind_eq_ok.mp k
      cases k
      have := randomElection_eq h5
      subst this
      exact fun h => by cases h
  · cases k; exact st

theorem Op.lacking {op : Op P} {o : Obs P} (hs : Lacking s) (k : op.run v s = .ok (s', o)) : Lacking s' := by
  cases op with
  | receive frm m =>
    obtain ⟨s1, k1, e⟩ := Out.bind_eq_ok.mp k
    cases e
    clear k
    rename' k1 => k
    obtain ⟨q, h0, k⟩ := Out.bind_eq_ok.mp k
    cases q with
    | some e => simp only [Out.ok.injEq] at k; subst k; exact hs
    | none =>
      simp only at k
      obtain ⟨s2, h2, k⟩ := Out.bind_eq_ok.mp k
      obtain ⟨s3, h3, k⟩ := Out.bind_eq_ok.mp k
      exact maybeChangeState_lacking k
  | tick =>
    obtain ⟨s1, k1, e⟩ := Out.bind_eq_ok.mp k
    cases e
    clear k
    rename' k1 => k
    obtain ⟨s2, h2, k⟩ := Out.bind_eq_ok.mp k
    exact maybeChangeState_lacking k
  | reset id =>
    obtain ⟨s1, k1, e⟩ := Out.bind_eq_ok.mp k
    cases e
    clear k
    rename' k1 => k
    unfold resetPeer at k
    split at k
    · cases k; exact hs
    split at k
    · cases k; exact hs
    · obtain ⟨m, _, k⟩ := Out.bind_eq_ok.mp k
      exact (addSendable_alike k).lacking hs
    · split at k
      · cases k; exact hs
      · cases k; exact hs
  | reconfigure c => cases k; exact hs
  | relinquish =>
    obtain ⟨s1, k1, e⟩ := Out.bind_eq_ok.mp k
    cases e
    clear k
    rename' k1 => k
    unfold relinquishLeadership at k
    split at k
    · cases k; exact hs
    · obtain ⟨⟨s2, r⟩, h2, k⟩ := Out.bind_eq_ok.mp k
      exact maybeChangeState_lacking k
  | request i =>
    obtain ⟨⟨s1, r⟩, k1, e⟩ := Out.bind_eq_ok.mp k
    cases e
    clear k
    rename' k1 => k
    unfold logRequest at k
    split at k
    · cases k; exact hs
    · obtain ⟨⟨s2, r⟩, h2, k⟩ := Out.bind_eq_ok.mp k
      obtain ⟨s3, h3, k⟩ := Out.bind_eq_ok.mp k
      cases k
      exact maybeChangeState_lacking h3
  | takeCommitted =>
    obtain ⟨⟨s1, r⟩, k1, e⟩ := Out.bind_eq_ok.mp k
    cases e
    clear k
    rename' k1 => k
    unfold takeCommittedLog at k
    split at k
    · cases k; exact hs
    · simp only at k
      split at k
      · cases k
      · cases k; exact hs
  | takeSendable => cases k; exact hs

theorem new_lacking {group : Nat} {me : P} {mem : Membership P} {log : Log} {cfg : RaftCfg} {cl : Bool} {sm : Nat}
    (h : new v group me mem log cfg cl sm = .ok s) : Lacking s := by
  obtain ⟨⟨t, s1⟩, h1, h⟩ := Out.bind_eq_ok.mp h
  obtain ⟨s2, h2, h⟩ := Out.bind_eq_ok.mp h
  have e1 := randomElection_eq h1
  obtain ⟨c, p, _, _, e2⟩ := updateMerkle_eq h2
  split at h
  · obtain ⟨s3, h3, h⟩ := Out.bind_eq_ok.mp h
    obtain ⟨s4, h4, h⟩ := Out.bind_eq_ok.mp h
    obtain ⟨_, _, h⟩ := Out.bind_eq_ok.mp h
    cases h
    exact maybeChangeState_lacking h4
  · cases h
    rw [e2, e1]
    exact fun h => by cases h

/-! ### Becoming a candidate -/

/-- The ticks until the next election. -/
def clock (s : Node P) : Nat := match s.role with
  | .follower => s.fElection.toNat
  | .candidate => s.cElection.toNat
  | .leader => 0

/-- The request for votes. -/
def asksVotes (s : Node P) : Msg := ⟨s.group, s.term, .voteReq s.log.lastIdx s.log.lastTerm
    (match s.log.at? s.log.lastIdx with
      | some e => e.hash
      | none => [])⟩

theorem electionTimeout_campaigns (hr : s.role ≠ .leader) (hv : s.voting = true) (ha : s.membership.all.length ≠ 1) (ht : s.term + 1 < SZ)
    (h : s.electionTimeout v = .ok s') :
    Akin s s' ∧ s'.role = .candidate ∧ s'.term = s.term + 1 ∧ s'.votes = [s.me] ∧ (none, asksVotes s') ∈ s'.sendable := by
  have hw : wadd s.term 1 = s.term + 1 := wadd_of_lt ht
  unfold electionTimeout at h
  rw [if_neg (by simp [hv])] at h
  split at h
  · rename_i hl; exact absurd hl hr
  · obtain ⟨⟨t, s1⟩, h1, h⟩ := Out.bind_eq_ok.mp h
    have e := randomElection_eq h1
    subst e
    obtain ⟨m, h2, h⟩ := Out.bind_eq_ok.mp h
    obtain ⟨_, _, h2⟩ := Out.bind_eq_ok.mp h2
    cases h2
    unfold addSendable at h
    simp only at h
    rw [if_neg (fun hx => ha hx.1)] at h
    cases h
    refine ⟨⟨rfl, rfl, rfl, rfl, rfl, rfl, rfl, rfl, rfl, id⟩, rfl, hw, rfl, ?_⟩
    exact List.mem_append_right _ (List.mem_singleton.mpr rfl)

/-- A tick of a voter that does not lead: its clock runs down, or it asks for votes in the next term. -/
theorem timerTick_waits (hr : s.role ≠ .leader) (hs : Lacking s) (hv : s.voting = true) (ha : s.membership.all.length ≠ 1)
    (hq : 2 ≤ s.quorum) (ht : s.term + 1 < SZ) (h : s.timerTick v = .ok s') :
    Akin s s' ∧ s'.role ≠ .leader ∧ ((s'.term = s.term ∧ s'.clock < s.clock) ∨
      (s'.term = s.term + 1 ∧ s'.role = .candidate ∧ s'.votes = [s.me] ∧ (none, asksVotes s') ∈ s'.sendable)) := by
  obtain ⟨s1, h1, h⟩ := Out.bind_eq_ok.mp h
  have campaign : ∀ s0 : Node P, Akin s s0 → s0.role = s.role → s0.term = s.term → s0.electionTimeout v = .ok s1 →
      Akin s s' ∧ s'.role ≠ .leader ∧ ((s'.term = s.term ∧ s'.clock < s.clock) ∨
        (s'.term = s.term + 1 ∧ s'.role = .candidate ∧ s'.votes = [s.me] ∧ (none, asksVotes s') ∈ s'.sendable)) := by
    intro s0 a e1 e2 k
    obtain ⟨b1, b2, b3, b4, b5⟩ := electionTimeout_campaigns (by rw [e1]; exact hr) (by rw [a.voting]; exact hv)
      (by rw [a.membership]; exact ha) (by rw [e2]; exact ht) k
    have b := a.trans b1
    obtain ⟨w, x, y, rfl, ag⟩ := maybeChangeState_idle (by rw [b2]; simp) (fun _ => by rw [b4, b.quorum]; exact hq) h
    refine ⟨⟨b.me, b.group, b.log, b.mem, b.unc, b.sm, b.cfg, b.commit, b.promise, ag ∘ b.agrees⟩, by simp [b2], .inr ⟨by rw [← e2]; exact b3, b2, ?_, b5⟩⟩
    rw [← a.me]; exact b4
  unfold tickRole at h1
  split at h1
  · rename_i hx
    simp only at h1
    split at h1
    · exact campaign { s with fElection := s.fElection - 1 } ⟨rfl, rfl, rfl, rfl, rfl, rfl, rfl, rfl, rfl, id⟩ rfl rfl h1
    · rename_i hc
      cases h1
      obtain ⟨w, x, y, rfl, ag⟩ := maybeChangeState_idle (s := { s with fElection := s.fElection - 1 }) hr hs h
      refine ⟨⟨rfl, rfl, rfl, rfl, rfl, rfl, rfl, rfl, rfl, ag⟩, hr, .inl ⟨rfl, ?_⟩⟩
      simp only [clock, hx]
      omega
  · rename_i hx
    simp only at h1
    split at h1
    · exact campaign { s with cElection := s.cElection - 1 } ⟨rfl, rfl, rfl, rfl, rfl, rfl, rfl, rfl, rfl, id⟩ rfl rfl h1
    · rename_i hc
      cases h1
      obtain ⟨w, x, y, rfl, ag⟩ := maybeChangeState_idle (s := { s with cElection := s.cElection - 1 }) hr hs h
      refine ⟨⟨rfl, rfl, rfl, rfl, rfl, rfl, rfl, rfl, rfl, ag⟩, hr, .inl ⟨rfl, ?_⟩⟩
      simp only [clock, hx]
      omega
  · rename_i hx
    exact absurd hx hr

/-! ### Getting votes -/

/-- A vote that nothing speaks against is granted. -/
theorem receive_grants {c : P} {T i t : Nat} {hh : Bytes} (hT : s.term < T) (hc : c ∈ s.membership.all) (hme : c ≠ s.me)
    (hk : s.checkLogHash i t hh = .ok none)
    (hl : t > s.log.lastTerm ∨ (t = s.log.lastTerm ∧ i ≥ s.log.lastIdx))
    (h : s.receive v ⟨s.group, T, .voteReq i t hh⟩ c = .ok s') :
    Akin s s' ∧ s'.role = .follower ∧ s'.term = T ∧ (some c, ⟨s.group, T, .voteResp true⟩) ∈ s'.sendable := by
  unfold receive at h
  obtain ⟨er, hval, h⟩ := Out.bind_eq_ok.mp h
  have e0 : er = none := by
    simp only [validate, ne_eq, not_true_eq_false, if_false, hc, hk, Out.ok.injEq] at hval
    exact hval.symm
  subst e0
  simp only at h
  obtain ⟨s1, h1, h⟩ := Out.bind_eq_ok.mp h
  have k1 : ∃ x r, s1 = { ({ s with term := T, rng := r } : Node P).setRole .follower with fElection := x, votedFor := none } := by
    unfold updateTerm at h1
    rw [if_neg (by omega)] at h1
    obtain ⟨⟨x, s2⟩, h2, h1⟩ := Out.bind_eq_ok.mp h1
    have : ∃ r, s2 = { s with term := T, rng := r } := by
      unfold keptTicks at h2
      split at h2
      · cases h2; exact ⟨_, rfl⟩
      · cases h2; exact ⟨_, rfl⟩
      · exact ⟨_, randomElection_eq h2⟩
    obtain ⟨r, rfl⟩ := this
    cases h1
    exact ⟨x, r, rfl⟩
  obtain ⟨x, r, rfl⟩ := k1
  obtain ⟨s2, h2, h⟩ := Out.bind_eq_ok.mp h
  unfold markSeen at h2
  rw [if_neg (by simp [setRole])] at h2
  simp only [dispatch] at h2
  unfold handleVoteRequest at h2
  rw [if_neg (by simp [setRole]), if_pos ?_] at h2
  · obtain ⟨s3, h3, h2⟩ := Out.bind_eq_ok.mp h2
    obtain ⟨⟨y, s4⟩, h4, h3⟩ := Out.bind_eq_ok.mp h3
    have e := randomElection_eq h4
    subst e
    cases h3
    rw [addSendable_one (by exact hme)] at h2
    cases h2
    obtain ⟨w, a, b, rfl, ag⟩ := maybeChangeState_idle (by simp [setRole]) (fun hx => by cases hx) h
    refine ⟨⟨rfl, rfl, rfl, rfl, rfl, rfl, rfl, rfl, rfl, ag⟩, rfl, rfl, ?_⟩
    exact List.mem_append_right _ (List.mem_singleton.mpr rfl)
  · simp only [grants, setRole, decide_true, Bool.true_and, Bool.and_true, Bool.or_eq_true, Bool.and_eq_true]
    exact hl.imp decide_eq_true (fun h => ⟨decide_eq_true h.1, decide_eq_true h.2⟩)

/-- A vote counts; with enough of them, the candidate leads. -/
theorem receive_counts {q : P} (hr : s.role = .candidate) (hq : q ∈ s.membership.voting) (ha : q ∈ s.membership.all)
    (h : s.receive v ⟨s.group, s.term, .voteResp true⟩ q = .ok s') :
    ({ s with votes := sinsert q s.votes } : Node P).maybeChangeState v = .ok s' := by
  unfold receive at h
  obtain ⟨er, hval, h⟩ := Out.bind_eq_ok.mp h
  have e0 : er = none := by
    simp only [validate, ne_eq, not_true_eq_false, if_false, ha, Out.ok.injEq] at hval
    exact hval.symm
  subst e0
  simp only at h
  obtain ⟨s1, h1, h⟩ := Out.bind_eq_ok.mp h
  have e1 : s1 = s := by
    unfold updateTerm at h1
    rw [if_pos (by simp)] at h1
    cases h1; rfl
  subst e1
  obtain ⟨s2, h2, h⟩ := Out.bind_eq_ok.mp h
  unfold markSeen at h2
  rw [if_neg (by simp [hr])] at h2
  simp only [dispatch, lt_irrefl, if_false, Out.ok.injEq] at h2
  unfold handleVoteResponse at h2
  rw [if_neg (by simp), if_neg (by simp [hr]), if_pos ⟨rfl, hq⟩] at h2
  rw [h2]
  exact h

end Node
end Svr.Raft
