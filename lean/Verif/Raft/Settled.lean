import Verif.Raft.Total

/-!
# A replica between two calls has nothing left to decide

Every call that could let a candidate win or a leader advance ends with `MaybeChangeStateAndSendMessages`, so that between
calls (with a working Merkle tree) no candidate has enough votes and no leader could advance an index. A message that
changes nothing before that function therefore changes nothing at all.
-/

namespace Svr.Raft.Node

variable {P : Type} [LinearOrder P]
variable {v : Env P} {inp : Inp P}

/-- What `MaybeAdvanceCommitIndex` reads of a follower. -/
def marks (r : Repl) : Nat × Nat := (r.mtch, r.promise)

/-- A leader could not move its indexes. -/
def Level (s : Node P) : Prop :=
  (∀ np, nth1 (sortDesc (s.votingFollowers.map (·.mtch) ++ [s.log.lastIdx])) s.quorum = .ok np → np ≤ s.promise) ∧
  ∀ nc, nth1 (sortDesc (s.votingFollowers.map (·.promise) ++ [s.promise])) s.quorum = .ok nc → nc ≤ s.commit

structure Settled (s : Node P) : Prop where
  votes : s.role = .candidate → s.votes.length < s.quorum
  level : s.role = .leader → s.Agrees → s.Level

/-- The two states agree on everything that decides about leadership and indexes. -/
structure Alike (s s' : Node P) : Prop where
  role : s'.role = s.role
  log : s'.log = s.log
  commit : s'.commit = s.commit
  promise : s'.promise = s.promise
  cleaf : s'.commitLeaf = s.commitLeaf
  pleaf : s'.promiseLeaf = s.promiseLeaf
  mem : s'.mem = s.mem
  unc : s'.uncommitted = s.uncommitted
  sm : s'.superMajority = s.superMajority
  term : s'.term = s.term
  vote : s'.votedFor = s.votedFor
  votes : s'.votes = s.votes
  marks : s'.followers.mapV (fun _ => marks) = s.followers.mapV (fun _ => marks)

theorem Alike.refl (s : Node P) : Alike s s := ⟨rfl, rfl, rfl, rfl, rfl, rfl, rfl, rfl, rfl, rfl, rfl, rfl, rfl⟩

theorem Alike.trans {a b c : Node P} (h : Alike a b) (k : Alike b c) : Alike a c :=
  ⟨k.1.trans h.1, k.2.trans h.2, k.3.trans h.3, k.4.trans h.4, k.5.trans h.5, k.6.trans h.6, k.7.trans h.7, k.8.trans h.8,
    k.9.trans h.9, k.10.trans h.10, k.11.trans h.11, k.12.trans h.12, k.13.trans h.13⟩

theorem Alike.membership {s s' : Node P} (h : Alike s s') : s'.membership = s.membership := by
  unfold Node.membership; rw [h.unc, h.mem]

theorem Alike.quorum {s s' : Node P} (h : Alike s s') : s'.quorum = s.quorum := by
  unfold Node.quorum; rw [h.membership, h.sm]

theorem Alike.agrees {s s' : Node P} (h : Alike s s') : s'.Agrees ↔ s.Agrees := by
  unfold Agrees; rw [h.log, h.commit, h.promise, h.cleaf, h.pleaf]

/-- What the voting followers reported, read off the table of marks. -/
theorem votingFollowers_marks (s : Node P) {α : Type} (g : Nat × Nat → α) :
    s.votingFollowers.map (fun r => g (Node.marks r)) =
      (((s.followers.mapV (fun _ => Node.marks)).list.filter (fun p => decide (p.1 ∈ s.membership.voting))).map (fun p => g p.2)) := by
  unfold votingFollowers OMap.mapV
  simp only [List.filter_map, List.map_map]
  rfl

theorem votingFollowers_alike {s s' : Node P} (hm : s'.membership = s.membership)
    (hf : s'.followers.mapV (fun _ => Node.marks) = s.followers.mapV (fun _ => Node.marks)) :
    s'.votingFollowers.map (·.mtch) = s.votingFollowers.map (·.mtch) ∧
    s'.votingFollowers.map (·.promise) = s.votingFollowers.map (·.promise) := by
  constructor
  · have h1 := votingFollowers_marks s' Prod.fst
    rw [hf, hm, ← votingFollowers_marks s] at h1
    exact h1
  · have h1 := votingFollowers_marks s' Prod.snd
    rw [hf, hm, ← votingFollowers_marks s] at h1
    exact h1

theorem Alike.level {s s' : Node P} (h : Alike s s') (hl : s.Level) : s'.Level := by
  obtain ⟨a, b⟩ := votingFollowers_alike h.membership h.marks
  unfold Level
  rw [a, b, h.log, h.quorum, h.promise, h.commit]
  exact hl

theorem Alike.settled {s s' : Node P} (h : Alike s s') (hs : Settled s) : Settled s' :=
  ⟨fun hr => by rw [h.votes, h.quorum]; exact hs.votes (h.role ▸ hr),
    fun hr ha => h.level (hs.level (h.role ▸ hr) (h.agrees.mp ha))⟩

/-- Changing a follower's row keeps the marks when its match and promise index stay. -/
theorem marks_insert {f : OMap P Repl} {p : P} {r r' : Repl} (hp : f.find p = some r) (h : marks r' = marks r) :
    (f.insert p r').mapV (fun _ => marks) = f.mapV (fun _ => marks) := by
  apply OMap.ext_find
  intro k
  rw [OMap.find_mapV, OMap.find_mapV, OMap.find_insert]
  split
  · rename_i e
    subst e
    rw [hp]
    simp only [Option.map_some, h]
  · rfl

theorem addSendable_alike {s s' : Node P} {d : Option P} {m : Msg} (h : s.addSendable d m = .ok s') : Alike s s' := by
  unfold addSendable at h
  split at h
  · split at h
    · cases h
    · cases h; exact ⟨rfl, rfl, rfl, rfl, rfl, rfl, rfl, rfl, rfl, rfl, rfl, rfl, rfl⟩
  · split at h
    · cases h; exact Alike.refl s
    · cases h; exact ⟨rfl, rfl, rfl, rfl, rfl, rfl, rfl, rfl, rfl, rfl, rfl, rfl, rfl⟩

theorem appendEntries_alike {s s' : Node P} {p : P} (h : s.appendEntries v p = .ok s') : Alike s s' := by
  unfold appendEntries at h
  split at h
  · cases h; exact Alike.refl s
  split at h
  · cases h; exact Alike.refl s
  rename_i r hr
  split at h
  · cases h; exact Alike.refl s
  split at h
  · cases h; exact Alike.refl s
  split at h
  · cases h; exact Alike.refl s
  · refine Alike.trans ?_ (addSendable_alike h)
    exact ⟨rfl, rfl, rfl, rfl, rfl, rfl, rfl, rfl, rfl, rfl, rfl, rfl, marks_insert hr rfl⟩

theorem sendAll_alike : ∀ {l : List P} {s s' : Node P}, sendAll v l s = .ok s' → Alike s s'
  | [], s, s', h => by simp only [sendAll, Out.ok.injEq] at h; subst h; exact Alike.refl s
  | p :: t, s, s', h => by
    simp only [sendAll] at h
    split at h
    · exact sendAll_alike h
    · obtain ⟨s1, h1, h⟩ := Out.bind_eq_ok.mp h
      exact (appendEntries_alike h1).trans (sendAll_alike h)

theorem foldl_same {f : OMap P Repl → P → OMap P Repl} (fs : OMap P Repl) : ∀ (l : List P), (∀ p ∈ l, f fs p = fs) → l.foldl f fs = fs
  | [], _ => rfl
  | p :: t, h => by
    rw [List.foldl_cons, h p List.mem_cons_self]
    exact foldl_same fs t (fun q hq => h q (List.mem_cons_of_mem _ hq))

/-- With a row for every member, `HandleMembershipChange` only drops rows of replicas that left. -/
theorem handleMembershipChange_marks {s : Node P} (hr : s.role = .leader) (ht : ∀ p ∈ s.membership.all, p ≠ s.me → (s.followers.find p).isSome) :
    s.handleMembershipChange.followers = s.followers.filterK (fun p => decide (p ∈ s.membership.all)) := by
  unfold handleMembershipChange
  rw [hr]
  simp only
  rw [foldl_same]
  intro p hp
  refine if_neg ?_
  rintro ⟨h1, h2⟩
  have := ht p hp h1
  rw [h2] at this
  cases this

/-- Rows of replicas outside the membership do not count. -/
theorem votingFollowers_filterK {s : Node P} (hg : s.membership.Good) :
    ({ s with followers := s.followers.filterK (fun p => decide (p ∈ s.membership.all)) } : Node P).votingFollowers = s.votingFollowers := by
  unfold votingFollowers
  congr 1
  show (s.followers.list.filter (fun x => decide (x.1 ∈ s.membership.all))).filter (fun p => decide (p.1 ∈ s.membership.voting)) = _
  rw [List.filter_filter]
  apply List.filter_congr
  intro x _
  by_cases hx : x.1 ∈ s.membership.voting
  · simp [hx, hg.sub hx]
  · simp [hx]

theorem maybeChange_marks {s : Node P} (hr : s.role = .leader) (hu : ∀ x ∈ s.uncommitted, x.1 ≤ s.log.lastIdx) (hg : s.membership.Good)
    (ht : ∀ p ∈ s.membership.all, p ≠ s.me → (s.followers.find p).isSome) :
    s.maybeChangeUncommitted.votingFollowers = s.votingFollowers := by
  have hmem := maybeChange_membership hu
  obtain ⟨u, m, f, h1, h2, h3, h4⟩ := maybeChange_spec s
  rw [h1] at hmem ⊢
  have hmem' : ({ s with uncommitted := u, mem := m } : Node P).membership = s.membership := hmem
  rcases h4 with rfl | rfl
  · unfold votingFollowers
    rw [hmem]
  · rw [handleMembershipChange_marks (s := { s with uncommitted := u, mem := m }) hr (by rw [hmem']; exact ht)]
    have := votingFollowers_filterK (s := { s with uncommitted := u, mem := m }) (by rw [hmem']; exact hg)
    refine this.trans ?_
    unfold votingFollowers
    rw [hmem']

theorem maybeAdvance_level {s s' : Node P} (h : Hale v s) (hr : s.role = .leader) (k : s.maybeAdvance = .ok s') : s'.Level := by
  obtain ⟨np, nc, h1, h2, s1, h3, h4⟩ := maybeAdvance_eq hr k
  have key : s1.votingFollowers = s.votingFollowers ∧ s1.membership = s.membership ∧ s1.log = s.log ∧ s1.superMajority = s.superMajority ∧
      s1.promise = max np s.promise ∧ s1.commit = max nc s.commit := by
    split at h3
    · have a1 := maybeChange_marks (s := { s with promise := max np s.promise, commit := nc, cfgs := s.cfgs ++ [s.membership] }) hr h.unc
        h.good (h.table hr)
      have a2 := maybeChange_membership (s := { s with promise := max np s.promise, commit := nc, cfgs := s.cfgs ++ [s.membership] }) h.unc
      rw [← h3] at a1 a2
      obtain ⟨u, m, f, e⟩ := maybeChangeUncommitted_eq ({ s with promise := max np s.promise, commit := nc, cfgs := s.cfgs ++ [s.membership] } : Node P)
      rw [← h3] at e
      refine ⟨a1, a2, ?_, ?_, ?_, ?_⟩ <;> rw [e]
      show nc = max nc s.commit
      omega
    · rw [h3]
      refine ⟨rfl, rfl, rfl, rfl, rfl, ?_⟩
      show s.commit = max nc s.commit
      omega
  obtain ⟨k1, k2, k3, k4, k5, k6⟩ := key
  have lev : s1.Level := by
    have hq : s1.quorum = s.quorum := by unfold quorum; rw [k2, k4]
    unfold Level
    rw [k1, k3, hq, k5, k6]
    refine ⟨fun x hx => ?_, fun x hx => ?_⟩
    · rw [h1] at hx; cases hx; omega
    · rw [h2] at hx; cases hx; omega
  rcases h4 with rfl | rfl
  · exact lev
  · refine Alike.level ?_ lev
    refine ⟨rfl, rfl, rfl, rfl, rfl, rfl, rfl, rfl, rfl, rfl, rfl, rfl, ?_⟩
    apply OMap.ext_find
    intro q
    rw [OMap.find_mapV, OMap.find_mapV, OMap.find_mapV, Option.map_map]
    rfl

/-- A leader with nothing to advance. -/
theorem maybeAdvance_still {s s' : Node P} (hl : s.role = .leader → s.Level) (k : s.maybeAdvance = .ok s') : s' = s := by
  by_cases hr : s.role = .leader
  · obtain ⟨l1, l2⟩ := hl hr
    simp only [maybeAdvance] at k
    rw [if_neg (by simp [hr])] at k
    obtain ⟨np, h1, k⟩ := Out.bind_eq_ok.mp k
    have e1 := l1 np h1
    rw [if_neg (show ¬ np > s.promise by omega)] at k
    obtain ⟨nc, h2, k⟩ := Out.bind_eq_ok.mp k
    have e2 := l2 nc h2
    rw [if_neg (show ¬ nc > s.commit by omega), if_neg ?_] at k
    · cases k; rfl
    · simp only [gt_iff_lt, Bool.or_eq_true, decide_eq_true_eq]; omega
  · simp only [maybeAdvance, if_pos (show s.role ≠ .leader from hr), Out.ok.injEq] at k
    exact k.symm

/-- With a working tree, verification fails only if a leaf does not match. -/
theorem verifyMerkle_false {s s' : Node P} (hp : ∀ n, v.path n = true) (h : s.verifyMerkle v = .ok (s', false)) : ¬ s.Agrees := by
  rintro ⟨a1, a2⟩
  obtain ⟨c, h1, h⟩ := Out.bind_eq_ok.mp h
  rw [a1] at h1
  cases h1
  rw [if_neg (by simp [hp])] at h
  obtain ⟨p, h2, h⟩ := Out.bind_eq_ok.mp h
  rw [a2] at h2
  cases h2
  rw [if_neg (by simp [hp])] at h
  simp at h

theorem walks_alike (s : Node P) (w : Nat) : Alike s { s with walks := w } :=
  ⟨rfl, rfl, rfl, rfl, rfl, rfl, rfl, rfl, rfl, rfl, rfl, rfl, rfl⟩

theorem maybeAdvance_rest {s s' : Node P} (k : s.maybeAdvance = .ok s') : s'.role = s.role ∧ s'.votes = s.votes := by
  by_cases hr : s.role = .leader
  · obtain ⟨np, nc, h1, h2, s1, h3, h4⟩ := maybeAdvance_eq hr k
    have : s1.role = s.role ∧ s1.votes = s.votes := by
      split at h3
      · obtain ⟨u, m, f, e⟩ := maybeChangeUncommitted_eq ({ s with promise := max np s.promise, commit := nc, cfgs := s.cfgs ++ [s.membership] } : Node P)
        rw [h3, e]; exact ⟨rfl, rfl⟩
      · rw [h3]; exact ⟨rfl, rfl⟩
    rcases h4 with rfl | rfl <;> exact this
  · rw [maybeAdvance_still (fun h => absurd h hr) k]; exact ⟨rfl, rfl⟩

theorem verifyAndAdvance_settles {s s' : Node P} (h : Hale v s) (hp : ∀ n, v.path n = true)
    (hv : s.role = .candidate → s.votes.length < s.quorum) (k : s.verifyAndAdvance v = .ok s') : Settled s' := by
  obtain ⟨⟨s1, ok⟩, h1, k⟩ := Out.bind_eq_ok.mp k
  obtain ⟨w, rfl⟩ := verifyMerkle_eq h1
  simp only at k
  cases ok with
  | false =>
    simp only [Bool.false_eq_true, if_false, Out.ok.injEq] at k
    subst k
    exact (walks_alike s w).settled ⟨hv, fun _ ha => absurd ha (verifyMerkle_false hp h1)⟩
  | true =>
    simp only [if_true] at k
    obtain ⟨s2, h2, k⟩ := Out.bind_eq_ok.mp k
    have e3 := updateMerkle_eq k
    obtain ⟨c, p, _, _, rfl⟩ := e3
    obtain ⟨r1, r2⟩ := maybeAdvance_rest h2
    have h' : Hale v ({ s with walks := w } : Node P) := h.ofEq h.shaped rfl rfl rfl rfl rfl h.voter h.table
    refine ⟨fun hr => ?_, fun hr _ => ?_⟩
    · have hr' : s.role = .candidate := r1.symm.trans hr
      have e2 := maybeAdvance_still (fun h => by rw [show s.role = .leader from h] at hr'; cases hr') h2
      subst e2
      exact hv hr'
    · have lev := maybeAdvance_level h' (r1.symm.trans hr) h2
      exact lev

theorem clientRequestInternal_role {s s' : Node P} {i : Inner} {r} (h : s.clientRequestInternal v i = .ok (s', r)) : s'.role = s.role := by
  simp only [clientRequestInternal] at h
  split at h
  · cases h; rfl
  · exact (logAppend_same h).1

theorem maybeBecomeLeader_votes {s s' : Node P} (k : s.maybeBecomeLeader v = .ok s') : s'.role = .candidate → s'.votes.length < s'.quorum := by
  unfold maybeBecomeLeader at k
  split at k
  · cases k
    rename_i h1
    exact fun h => absurd h h1
  split at k
  · cases k
    rename_i h1
    exact fun _ => h1
  · obtain ⟨⟨s1, r⟩, h1, k⟩ := Out.bind_eq_ok.mp k
    simp only [Out.ok.injEq] at k
    subst k
    intro hc
    rw [clientRequestInternal_role h1] at hc
    cases hc

theorem tryToRelinquish_settled {s s' : Node P} (hs : Settled s) (k : s.tryToRelinquish v = .ok s') : Settled s' := by
  unfold tryToRelinquish at k
  split at k
  · cases k; exact hs
  · obtain ⟨s1, h1, k⟩ := Out.bind_eq_ok.mp k
    obtain ⟨⟨t, s2⟩, h2, k⟩ := Out.bind_eq_ok.mp k
    cases k
    have := randomElection_eq h2
    subst this
    exact ⟨(fun h => by cases h), (fun h => by cases h)⟩

theorem maybeChangeState_settles {s s' : Node P} (h : Hale v s) (hp : ∀ n, v.path n = true)
    (k : s.maybeChangeState v = .ok s') : Settled s' := by
  obtain ⟨s1, h1, k⟩ := Out.bind_eq_ok.mp k
  obtain ⟨s2, h2, k⟩ := Out.bind_eq_ok.mp k
  obtain ⟨s3, h3, k⟩ := Out.bind_eq_ok.mp k
  have hale1 := (maybeBecomeLeader_course (inp := .none) h.shaped h1).1.hale h
  have st := (sendAll_alike h3).settled (verifyAndAdvance_settles hale1 hp (maybeBecomeLeader_votes h1) h2)
  split at k
  · exact tryToRelinquish_settled st k
  · cases k; exact st

/-- Without pending votes or acknowledgements the function only sends, or hands leadership over. -/
theorem maybeChangeState_still {s s' : Node P} (hs : Settled s) (k : s.maybeChangeState v = .ok s') :
    s'.log = s.log ∧ s'.commit = s.commit ∧ s'.promise = s.promise ∧ s'.term = s.term ∧ s'.votedFor = s.votedFor ∧
    s'.mem = s.mem ∧ s'.uncommitted = s.uncommitted ∧ (s'.role = s.role ∨ s.role = .leader ∧ s'.role = .follower) := by
  obtain ⟨s1, h1, k1⟩ := Out.bind_eq_ok.mp k
  obtain ⟨s2, h2, k2⟩ := Out.bind_eq_ok.mp k1
  obtain ⟨s3, h3, k3⟩ := Out.bind_eq_ok.mp k2
  have e1 : s1 = s := by
    unfold maybeBecomeLeader at h1
    split at h1
    · cases h1; rfl
    · rename_i hr
      rw [if_pos (hs.votes (not_not.mp hr))] at h1
      cases h1; rfl
  subst e1
  have a2 : Alike s1 s2 := by
    obtain ⟨⟨s4, ok⟩, h4, h2⟩ := Out.bind_eq_ok.mp h2
    simp only at h2
    cases ok with
    | false =>
      obtain ⟨w, rfl⟩ := verifyMerkle_eq h4
      simp only [Bool.false_eq_true, if_false, Out.ok.injEq] at h2
      subst h2
      exact walks_alike s1 w
    | true =>
      obtain ⟨ha, _⟩ := verifyMerkle_true h4
      obtain ⟨w, rfl⟩ := verifyMerkle_eq h4
      simp only [if_true] at h2
      obtain ⟨s5, h5, h2⟩ := Out.bind_eq_ok.mp h2
      have hl : ({ s1 with walks := w } : Node P).role = .leader → ({ s1 with walks := w } : Node P).Level := fun hr =>
        ((walks_alike s1 w).settled hs).level hr ha
      have e5 := maybeAdvance_still hl h5
      subst e5
      rw [updateMerkle_same ha h2]
      exact walks_alike s1 w
  have a3 := a2.trans (sendAll_alike h3)
  split at k3
  · rename_i hr
    unfold tryToRelinquish at k3
    split at k3
    · cases k3
      exact ⟨a3.log, a3.commit, a3.promise, a3.term, a3.vote, a3.mem, a3.unc, .inl a3.role⟩
    · obtain ⟨s6, h6, k4⟩ := Out.bind_eq_ok.mp k3
      obtain ⟨⟨t, s7⟩, h7, k5⟩ := Out.bind_eq_ok.mp k4
      simp only [Out.ok.injEq] at k5
      subst k5
      have a6 := a3.trans (addSendable_alike h6)
      have := randomElection_eq h7
      rw [this]
      exact ⟨a6.log, a6.commit, a6.promise, a6.term, a6.vote, a6.mem, a6.unc, .inr ⟨a3.role ▸ hr.1, rfl⟩⟩
  · cases k3
    exact ⟨a3.log, a3.commit, a3.promise, a3.term, a3.vote, a3.mem, a3.unc, .inl a3.role⟩

theorem markSeen_alike (s : Node P) (frm : P) : Alike s (s.markSeen frm) := by
  unfold markSeen
  split
  · split
    · rename_i r hr
      exact ⟨rfl, rfl, rfl, rfl, rfl, rfl, rfl, rfl, rfl, rfl, rfl, rfl, marks_insert hr rfl⟩
    · exact Alike.refl s
  · exact Alike.refl s

/-- A message of an old term is at most answered. -/
theorem dispatch_stale {s s' : Node P} {m : Msg} {frm : P} (ht : m.term < s.term) (k : s.dispatch v m frm = .ok s') : Alike s s' := by
  unfold dispatch at k
  cases hb : m.body with
  | voteReq i lt hh =>
    rw [hb] at k
    simp only [handleVoteRequest] at k
    rw [if_neg (by omega), if_neg (by unfold grants; simp; intro h; omega)] at k
    exact addSendable_alike k
  | voteResp g => rw [hb] at k; simp only [if_pos ht, Out.ok.injEq] at k; rw [k]; exact Alike.refl _
  | appReq pi pt ph es c p =>
    rw [hb] at k
    simp only [handleAppendRequest] at k
    rw [if_neg (by omega), if_neg (by omega)] at k
    unfold followAppend at k
    rw [if_pos (.inl ht)] at k
    exact addSendable_alike k
  | appResp ok mt l a h => rw [hb] at k; simp only [if_pos ht, Out.ok.injEq] at k; rw [k]; exact Alike.refl _
  | timeoutNow => rw [hb] at k; simp only [if_pos ht, Out.ok.injEq] at k; rw [k]; exact Alike.refl _
  | notSet => rw [hb] at k; simp only [Out.ok.injEq] at k; rw [k]; exact Alike.refl _

theorem receive_stale {s s' : Node P} {m : Msg} {frm : P} (hs : Settled s) (ht : m.term < s.term) (k : s.receive v m frm = .ok s') :
    s'.log = s.log ∧ s'.commit = s.commit ∧ s'.promise = s.promise ∧ s'.term = s.term ∧ s'.votedFor = s.votedFor ∧
    s'.mem = s.mem ∧ s'.uncommitted = s.uncommitted ∧ (s'.role = s.role ∨ s.role = .leader ∧ s'.role = .follower) := by
  obtain ⟨q, h0, k⟩ := Out.bind_eq_ok.mp k
  cases q with
  | some e =>
    simp only [Out.ok.injEq] at k
    subst k
    exact ⟨rfl, rfl, rfl, rfl, rfl, rfl, rfl, .inl rfl⟩
  | none =>
    simp only at k
    obtain ⟨s1, h1, k1⟩ := Out.bind_eq_ok.mp k
    obtain ⟨s2, h2, k2⟩ := Out.bind_eq_ok.mp k1
    have e1 := (updateTerm_same h1).2.1 (by omega)
    subst e1
    have a1 := (markSeen_alike s1 frm).trans (dispatch_stale (by rw [(markSeen_alike s1 frm).term]; exact ht) h2)
    obtain ⟨c1, c2, c3, c4, c5, c6, c7, c8⟩ := maybeChangeState_still (a1.settled hs) k2
    rw [a1.log] at c1
    rw [a1.commit] at c2
    rw [a1.promise] at c3
    rw [a1.term] at c4
    rw [a1.vote] at c5
    rw [a1.mem] at c6
    rw [a1.unc] at c7
    rw [a1.role] at c8
    exact ⟨c1, c2, c3, c4, c5, c6, c7, c8⟩

/-! ### Every call leaves the replica settled -/

theorem Op.settled {s s' : Node P} {op : Op P} {o : Obs P} (h : Hale v s) (hf : op.Fits s) (hp : ∀ n, v.path n = true)
    (hs : Settled s) (k : op.run v s = .ok (s', o)) : Settled s' := by
  cases op with
  | receive frm m =>
    obtain ⟨f1, f2, f3, _⟩ := hf
    obtain ⟨s1, k1, e⟩ := Out.bind_eq_ok.mp k
    cases e
    clear k
    rename' k1 => k
    obtain ⟨q, h0, k⟩ := Out.bind_eq_ok.mp k
    cases q with
    | some e => simp only [Out.ok.injEq] at k; subst k; exact hs
    | none =>
      simp only at k
      obtain ⟨s2, h2, k⟩ := Out.bind_eq_ok.mp k
      obtain ⟨s3, h3, k⟩ := Out.bind_eq_ok.mp k
      obtain ⟨a1, a2, a3, a4⟩ := updateTerm_course (inp := .msg frm m) rfl h2
      obtain ⟨b1, b2, b3, b4⟩ := markSeen_course (v := v) (inp := .msg frm m) s2 frm
      obtain ⟨c1, c2⟩ := dispatch_course (s0 := s) rfl (b1.shaped (a1.shaped h.shaped)) (by rw [b2, a2]; omega)
        (by rw [b4, a4]; omega) h0 (by rw [b2, a2]) (by rw [b3, a3]) h3
      exact maybeChangeState_settles (c1.hale (b1.hale (a1.hale h))) hp k
  | tick =>
    obtain ⟨s1, k1, e⟩ := Out.bind_eq_ok.mp k
    cases e
    clear k
    rename' k1 => k
    obtain ⟨s2, h2, k⟩ := Out.bind_eq_ok.mp k
    exact maybeChangeState_settles ((tickRole_course (inp := .none) hf.2 h2).1.hale h) hp k
  | reset id =>
    obtain ⟨s1, k1, e⟩ := Out.bind_eq_ok.mp k
    cases e
    clear k
    rename' k1 => k
    unfold resetPeer at k
    split at k
    · cases k; exact hs
    split at k
    · cases k; exact hs
    · obtain ⟨m, _, k⟩ := Out.bind_eq_ok.mp k
      exact (addSendable_alike k).settled hs
    · split at k
      · cases k; exact hs
      · rename_i r hr
        cases k
        refine Alike.settled (s := s) ?_ hs
        exact ⟨rfl, rfl, rfl, rfl, rfl, rfl, rfl, rfl, rfl, rfl, rfl, rfl, marks_insert hr rfl⟩
  | reconfigure c =>
    cases k
    refine Alike.settled (s := s) ?_ hs
    exact ⟨rfl, rfl, rfl, rfl, rfl, rfl, rfl, rfl, rfl, rfl, rfl, rfl, rfl⟩
  | relinquish =>
    obtain ⟨s1, k1, e⟩ := Out.bind_eq_ok.mp k
    cases e
    clear k
    rename' k1 => k
    unfold relinquishLeadership at k
    split at k
    · cases k; exact hs
    · obtain ⟨⟨s2, r⟩, h2, k⟩ := Out.bind_eq_ok.mp k
      obtain ⟨a, _⟩ := clientRequestInternal_course (inp := .none) h.shaped ⟨.inl rfl, fun _ _ h => by cases h⟩ h2
      have c : Course v .none s2 { s2 with relinquishing := true } := miscTo
      exact maybeChangeState_settles (c.hale (a.hale h)) hp k
  | request i =>
    obtain ⟨⟨s1, r⟩, k1, e⟩ := Out.bind_eq_ok.mp k
    cases e
    clear k
    rename' k1 => k
    unfold logRequest at k
    split at k
    · cases k; exact hs
    · rename_i hc
      obtain ⟨⟨s2, r⟩, h2, k⟩ := Out.bind_eq_ok.mp k
      obtain ⟨s3, h3, k⟩ := Out.bind_eq_ok.mp k
      cases k
      exact maybeChangeState_settles ((clientRequestInternal_course h.shaped (logRequestCheck_asked hc) h2).1.hale h) hp h3
  | takeCommitted =>
    obtain ⟨⟨s1, r⟩, k1, e⟩ := Out.bind_eq_ok.mp k
    cases e
    clear k
    rename' k1 => k
    unfold takeCommittedLog at k
    split at k
    · cases k; exact hs
    · simp only at k
      split at k
      · cases k
      · cases k
        refine Alike.settled (s := s) ?_ hs
        exact ⟨rfl, rfl, rfl, rfl, rfl, rfl, rfl, rfl, rfl, rfl, rfl, rfl, rfl⟩
  | takeSendable =>
    cases k
    refine Alike.settled (s := s) ?_ hs
    exact ⟨rfl, rfl, rfl, rfl, rfl, rfl, rfl, rfl, rfl, rfl, rfl, rfl, rfl⟩

theorem new_settled {group : Nat} {me : P} {mem : Membership P} {log : Log} {cfg : RaftCfg} {cl : Bool} {sm : Nat} {s : Node P}
    (hs : (base group me mem log cfg cl sm).Shaped v) (hm : mem.Good) (hsm : sm < 2 ^ 63)
    (hl : ∀ i e, log.at? i = some e → e.hash.length = 32) (hp : ∀ n, v.path n = true)
    (h : new v group me mem log cfg cl sm = .ok s) : Settled s := by
  obtain ⟨⟨t, s1⟩, h1, h⟩ := Out.bind_eq_ok.mp h
  obtain ⟨s2, h2, h⟩ := Out.bind_eq_ok.mp h
  have e1 := randomElection_eq h1
  obtain ⟨c, p, _, _, e2⟩ := updateMerkle_eq h2
  have e3 : s2 = { base group me mem log cfg cl sm with fElection := t, rng := s1.rng, commitLeaf := c, promiseLeaf := p } := by
    rw [e2, e1]; rfl
  have hh : Hale v s2 := by
    rw [e3]
    have hb := base_hale hs hm hsm hl
    exact hb.ofEq hb.shaped rfl rfl rfl rfl rfl hb.voter hb.table
  split at h
  · obtain ⟨s3, h3, h⟩ := Out.bind_eq_ok.mp h
    obtain ⟨s4, h4, h⟩ := Out.bind_eq_ok.mp h
    obtain ⟨_, _, h⟩ := Out.bind_eq_ok.mp h
    cases h
    obtain ⟨a, _⟩ := electionTimeout_course (inp := .none) (by rw [e3]; show 0 + 1 < SZ; decide) h3
    exact maybeChangeState_settles (a.hale hh) hp h4
  · cases h
    rw [e3]
    exact ⟨(fun h => by cases h), (fun h => by cases h)⟩

end Svr.Raft.Node
