import Verif.Raft.Hale

/-!
# The replica's functions finish
-/

namespace Svr.Raft.Node
variable {P : Type} [LinearOrder P] {v : Env P} {inp : Inp P}

theorem Steps.hale {s s' : Node P} (h : Steps v inp s s') (hs : Hale v s) : Hale v s' := by
  induction h with
  | refl => exact hs
  | tail _ k ih => exact k.hale ih

theorem Course.hale {s s' : Node P} (h : Course v inp s s') (hs : Hale v s) : Hale v s' := h.steps.hale hs

/-- Only `Reconfigure` changes the configuration. -/
theorem Atom.cfg {s s' : Node P} (h : Atom v inp s s') (hi : ∀ c, inp ≠ .config c) : s'.cfg = s.cfg := by
  cases h with
  | misc _ _ _ _ _ _ _ _ _ _ hc hf =>
    rcases hc with hc | hc
    · exact hc
    · exact absurd hc (hi _)
  | append _ e r hh hm hw h =>
    rcases logAppend_eq h with ⟨rfl, _⟩ | ⟨l, er, h1, rfl, _⟩ | ⟨l, h1, _, ⟨rfl, _⟩ | ⟨g, m, hg, hm', h3⟩⟩
    · rfl
    · rfl
    · rfl
    · obtain ⟨_, f, e2⟩ := addUncommitted_eq h3
      rw [e2]
  | cut idx hr hc hp ht =>
    obtain ⟨u, m, f, h1⟩ := maybeChangeUncommitted_eq ({ s with log := (s.log.cancelFrom idx).1 } : Node P)
    rw [h1]
  | advance _ hr h =>
    obtain ⟨np, nc, _, _, s1, h1, h2⟩ := maybeAdvance_eq hr h
    have k : s1.cfg = s.cfg := by
      split at h1
      · obtain ⟨u, m, f, h3⟩ := maybeChangeUncommitted_eq
          ({ s with promise := max np s.promise, commit := nc, cfgs := s.cfgs ++ [s.membership] } : Node P)
        rw [h1, h3]
      · rw [h1]
    rcases h2 with rfl | rfl
    · exact k
    · exact k
  | follow frm g t pi pt ph es c a lp hi hr hca hm =>
    rw [followLeader_flat]
    split
    · obtain ⟨u, m, f, h1⟩ := maybeChangeUncommitted_eq ({ s with promise := max (min a lp) s.promise, commit := min c lp } : Node P)
      rw [h1]
    · rfl
  | send _ dst m hso h =>
    rcases addSendable_eq h with rfl | ⟨rfl, _⟩ <;> rfl
  | _ => rfl

theorem Steps.cfg {s s' : Node P} (h : Steps v inp s s') (hi : ∀ c, inp ≠ .config c) : s'.cfg = s.cfg := by
  induction h with
  | refl => rfl
  | tail _ k ih => exact (k.cfg hi).trans ih

theorem Course.cfg {s s' : Node P} (h : Course v inp s s') (hi : ∀ c, inp ≠ .config c) : s'.cfg = s.cfg := h.steps.cfg hi

/-- A replica that can be called: a remainder by its election ticks is defined. -/
structure Ready (v : Env P) (s : Node P) : Prop where
  hale : Hale v s
  ticks : s.cfg.electionTicks ≠ 0

theorem Course.ready {s s' : Node P} (h : Course v inp s s') (hi : ∀ c, inp ≠ .config c) (hs : Ready v s) : Ready v s' :=
  ⟨h.hale hs.hale, by rw [h.cfg hi]; exact hs.ticks⟩

theorem randomElection_total {s : Node P} (h : s.cfg.electionTicks ≠ 0) :
    ∃ t, s.randomElection v = .ok (t, { s with rng := s.rng + 1 }) := by
  unfold randomElection Config.randomElectionTimeout
  rw [if_neg h]
  exact ⟨_, rfl⟩

theorem addSendable_all (s : Node P) (m : Msg) : ∃ s', s.addSendable none m = .ok s' := by
  unfold addSendable
  simp only
  split <;> exact ⟨_, rfl⟩

theorem addSendable_one {s : Node P} {d : P} (h : d ≠ s.me) (m : Msg) :
    s.addSendable (some d) m = .ok { s with sendable := s.sendable ++ [(some d, m)] } := by
  unfold addSendable
  simp only
  rw [if_neg h]

theorem electionTimeout_total {s : Node P} (h : s.cfg.electionTicks ≠ 0) : ∃ s', s.electionTimeout v = .ok s' := by
  unfold electionTimeout
  split
  · obtain ⟨t, h1⟩ := randomElection_total (v := v) h
    rw [h1]
    exact ⟨_, rfl⟩
  · split
    · exact ⟨_, rfl⟩
    · obtain ⟨t, h1⟩ := randomElection_total (v := v) (s := s.startCampaign) h
      rw [h1]
      simp only [Out.bind_ok]
      unfold requestVoteMessage
      simp only [startCampaign, setRole, beq_self_eq_true, Out.check, if_true, Out.bind_ok]
      exact addSendable_all _ _

theorem appendEntries_total (s : Node P) {p : P} (h : p ≠ s.me) : ∃ s', s.appendEntries v p = .ok s' := by
  unfold appendEntries
  split
  · exact ⟨_, rfl⟩
  split
  · exact ⟨_, rfl⟩
  split
  · exact ⟨_, rfl⟩
  split
  · exact ⟨_, rfl⟩
  split
  · exact ⟨_, rfl⟩
  · refine ⟨_, addSendable_one ?_ _⟩
    exact h

theorem addUncommitted_total {s : Node P} {i : Nat} {m : Membership P} (h : ∀ x ∈ s.uncommitted, x.1 < i) :
    ∃ s', s.addUncommitted i m = .ok s' := by
  unfold addUncommitted
  cases hl : s.uncommitted.getLast? with
  | none => exact ⟨_, rfl⟩
  | some x =>
    have : decide (x.1 < i) = true := decide_eq_true (h x (List.mem_of_getLast? hl))
    simp only [this]
    exact ⟨_, rfl⟩

theorem logAppend_total {s : Node P} (h : Hale v s) (e : Entry) : ∃ r, s.logAppend v e = .ok r := by
  unfold logAppend
  simp only
  split
  · exact ⟨_, rfl⟩
  · obtain ⟨⟨l, er⟩, h1⟩ := h.shaped.append_total e
    rw [h1]
    simp only [Out.bind_ok]
    split
    · exact ⟨_, rfl⟩
    · split
      · exact ⟨_, rfl⟩
      · rename_i m _
        obtain ⟨_, h2, _⟩ := Shape.append h.shaped h1
        rw [if_pos rfl] at h2
        obtain ⟨s', h3⟩ := addUncommitted_total (s := ({ s with log := l } : Node P)) (i := l.lastIdx) (m := m) (fun x hx => by
          have := h.unc x hx
          omega)
        rw [h3]
        exact ⟨_, rfl⟩

theorem clientRequestInternal_total {s : Node P} (h : Hale v s) (i : Inner) : ∃ r, s.clientRequestInternal v i = .ok r := by
  unfold clientRequestInternal
  obtain ⟨hh, s1, hq⟩ : ∃ hh s1, s.nextHash v s.term i = (hh, s1) := ⟨_, _, rfl⟩
  have hs1 : Hale v s1 := by
    have : s1 = { s with hashed := s.hashed ++ [(s.prevHash, hashInput v s.log.nextIdx s.term i)] } := by
      unfold nextHash at hq
      exact (Prod.mk.injEq .. ▸ hq).2.symm
    rw [this]
    exact (Atom.hash (v := v) (inp := .none) s _ _).hale h
  rw [hq]
  simp only
  split
  · exact ⟨_, rfl⟩
  · exact logAppend_total hs1 _

theorem maybeBecomeLeader_total {s : Node P} (h : Hale v s) : ∃ s', s.maybeBecomeLeader v = .ok s' := by
  unfold maybeBecomeLeader
  split
  · exact ⟨_, rfl⟩
  rename_i hr
  split
  · exact ⟨_, rfl⟩
  rename_i hq
  have a := (Atom.lead (v := v) (inp := .none) s (not_not.mp hr) (Nat.le_of_not_lt hq)).hale h
  obtain ⟨⟨s1, r⟩, h1⟩ := clientRequestInternal_total a .notSet
  refine ⟨s1, ?_⟩
  refine Out.bind_eq_ok.mpr ⟨(s1, r), h1, rfl⟩

theorem merkleHash_total {o : Option Entry} (h : ∀ e, o = some e → e.hash.length = 32) : ∃ c, merkleHash o = .ok c := by
  cases o with
  | none => exact ⟨_, rfl⟩
  | some e =>
    refine ⟨e.hash.take 8, ?_⟩
    unfold merkleHash
    simp only
    rw [show decide (e.hash.length ≥ 8) = true by rw [h e rfl]; rfl]
    rfl

theorem updateMerkle_total {s : Node P} (h : ∀ i e, s.log.at? i = some e → e.hash.length = 32) : ∃ s', s.updateMerkle = .ok s' := by
  obtain ⟨c, h1⟩ := merkleHash_total (o := s.log.at? s.commit) (h _)
  obtain ⟨p, h2⟩ := merkleHash_total (o := s.log.at? s.promise) (h _)
  unfold updateMerkle
  rw [h1, h2]
  exact ⟨_, rfl⟩

theorem verifyMerkle_total {s : Node P} (h : Hale v s) : ∃ r, s.verifyMerkle v = .ok r := by
  obtain ⟨c, h1⟩ := merkleHash_total (o := s.log.at? s.commit) (h.hashes _)
  obtain ⟨p, h2⟩ := merkleHash_total (o := s.log.at? s.promise) (h.hashes _)
  unfold verifyMerkle
  rw [h1, h2]
  simp only [Out.bind_ok]
  split
  · exact ⟨_, rfl⟩
  split <;> exact ⟨_, rfl⟩

theorem nth1_total {l : List Nat} {q : Nat} (h1 : 1 ≤ q) (h2 : q ≤ l.length) : ∃ x, nth1 (sortDesc l) q = .ok x := by
  have h3 : q - 1 < (sortDesc l).length := by rw [(sortDesc_perm l).length_eq]; omega
  unfold nth1
  rw [if_neg (by omega), List.getElem?_eq_getElem h3]
  exact ⟨_, rfl⟩

/-- The leader has a row for every other voter. -/
theorem Hale.rows {s : Node P} (h : Hale v s) (hr : s.role = .leader) : s.membership.voting.length ≤ s.votingFollowers.length + 1 := by
  have hv := h.voter (by rw [hr]; simp)
  have hnd : s.membership.voting.Nodup := h.good.wf.2.imp (fun h => ne_of_lt h)
  have h1 : (s.membership.voting.erase s.me) ⊆
      (s.followers.list.filter (fun p => decide (p.1 ∈ s.membership.voting))).map (·.1) := by
    intro p hp
    obtain ⟨hne, hp⟩ := (List.Nodup.mem_erase_iff hnd).mp hp
    obtain ⟨r, hf⟩ := Option.isSome_iff_exists.mp (h.table hr p (h.good.sub hp) hne)
    exact List.mem_map.mpr ⟨(p, r), List.mem_filter.mpr ⟨OMap.mem_list.mpr hf, by simpa using hp⟩, rfl⟩
  have h2 := ((hnd.erase s.me).subperm h1).length_le
  rw [List.length_erase_of_mem hv, List.length_map] at h2
  unfold votingFollowers
  rw [List.length_map]
  omega

theorem Hale.quorum {s : Node P} (h : Hale v s) (hr : s.role ≠ .follower) : 1 ≤ s.quorum ∧ s.quorum ≤ s.membership.voting.length := by
  have hv := List.length_pos_of_mem (h.voter hr)
  have hsm := h.sm
  unfold Node.quorum quorumSize
  refine ⟨?_, Nat.min_le_left _ _⟩
  have h1 : (s.membership.voting.length + SZ - s.superMajority) % SZ < SZ := Nat.mod_lt _ (by decide)
  unfold SZ at *
  omega

theorem maybeAdvance_total {s : Node P} (h : Hale v s) : ∃ s', s.maybeAdvance = .ok s' := by
  unfold maybeAdvance
  split
  · exact ⟨_, rfl⟩
  rename_i hr
  have hr := not_not.mp hr
  have h1 := h.rows hr
  obtain ⟨h2, h3⟩ := h.quorum (by rw [hr]; simp)
  obtain ⟨x, h4⟩ := nth1_total (l := s.votingFollowers.map (·.mtch) ++ [s.log.lastIdx]) h2 (by simp; omega)
  simp only
  rw [h4]
  simp only [Out.bind_ok]
  obtain ⟨y, h5⟩ := nth1_total (l := s.votingFollowers.map (·.promise) ++ [if x > s.promise then x else s.promise]) h2 (by simp; omega)
  rw [h5]
  simp only [Out.bind_ok]
  split <;> exact ⟨_, rfl⟩

theorem verifyAndAdvance_total {s : Node P} (h : Hale v s) : ∃ s', s.verifyAndAdvance v = .ok s' := by
  obtain ⟨⟨s1, ok⟩, h1⟩ := verifyMerkle_total h
  unfold verifyAndAdvance
  rw [h1]
  simp only [Out.bind_ok]
  have hs1 := (verifyMerkle_course (inp := .none) h1).hale h
  split
  · obtain ⟨s2, h2⟩ := maybeAdvance_total hs1
    rw [h2]
    simp only [Out.bind_ok]
    by_cases hr : s1.role = .leader
    · exact updateMerkle_total ((Atom.advance (v := v) (inp := .none) s1 s2 hr h2).hale hs1).hashes
    · unfold maybeAdvance at h2
      rw [if_pos hr] at h2
      cases h2
      exact updateMerkle_total hs1.hashes
  · exact ⟨_, rfl⟩

theorem sendAll_total : ∀ (l : List P) {s : Node P}, s.Shaped v → s.log.lastIdx + 1 < SZ → ∃ s', sendAll v l s = .ok s'
  | [], s, _, _ => ⟨s, rfl⟩
  | p :: t, s, hs, hb => by
    unfold sendAll
    split
    · exact sendAll_total t hs hb
    · rename_i hp
      obtain ⟨s1, h1⟩ := appendEntries_total (v := v) s hp
      rw [h1]
      simp only [Out.bind_ok]
      obtain ⟨a, b⟩ := appendEntries_course (inp := .none) hs hb h1
      exact sendAll_total t (a.shaped hs) (by rw [b]; exact hb)

theorem tryToRelinquish_total {s : Node P} (h : s.cfg.electionTicks ≠ 0) : ∃ s', s.tryToRelinquish v = .ok s' := by
  unfold tryToRelinquish
  split
  · exact ⟨_, rfl⟩
  · rename_i p hp
    have h1 := List.find?_some hp
    rw [Bool.and_eq_true, decide_eq_true_eq] at h1
    rw [addSendable_one h1.1]
    simp only [Out.bind_ok]
    obtain ⟨t, h2⟩ := randomElection_total (v := v)
      (s := ({ s with sendable := s.sendable ++ [(some p, ⟨s.group, s.term, .timeoutNow⟩)] } : Node P).setRole .follower) h
    rw [h2]
    exact ⟨_, rfl⟩

theorem maybeChangeState_total {s : Node P} (h : Ready v s) (hb : s.log.lastIdx + 2 < SZ) : ∃ s', s.maybeChangeState v = .ok s' := by
  obtain ⟨s1, h1⟩ := maybeBecomeLeader_total h.hale
  obtain ⟨a1, a2⟩ := maybeBecomeLeader_course (inp := .none) h.hale.shaped h1
  have r1 := a1.ready (by simp) h
  obtain ⟨s2, h2⟩ := verifyAndAdvance_total r1.hale
  obtain ⟨b1, b2⟩ := verifyAndAdvance_course (inp := .none) h2
  have r2 := b1.ready (by simp) r1
  have hb2 : s2.log.lastIdx + 1 < SZ := by rw [b2]; omega
  obtain ⟨s3, h3⟩ := sendAll_total (v := v) s2.membership.all r2.hale.shaped hb2
  obtain ⟨c1, c2⟩ := sendAll_course (inp := .none) r2.hale.shaped hb2 h3
  have r3 := c1.ready (by simp) r2
  unfold maybeChangeState
  rw [h1, Out.bind_ok, h2, Out.bind_ok, h3, Out.bind_ok]
  split
  · exact tryToRelinquish_total r3.ticks
  · exact ⟨_, rfl⟩

theorem tickRole_total {s : Node P} (h : s.cfg.electionTicks ≠ 0) : ∃ s', s.tickRole v = .ok s' := by
  unfold tickRole
  split
  · simp only
    split
    · exact electionTimeout_total h
    · exact ⟨_, rfl⟩
  · simp only
    split
    · exact electionTimeout_total h
    · exact ⟨_, rfl⟩
  · simp only
    split <;> exact ⟨_, rfl⟩

theorem timerTick_total {s : Node P} (h : Ready v s) (hb : s.log.lastIdx + 2 < SZ) (ht : s.term + 1 < SZ) :
    ∃ s', s.timerTick v = .ok s' := by
  obtain ⟨s1, h1⟩ := tickRole_total (v := v) h.ticks
  obtain ⟨a, b⟩ := tickRole_course (inp := .none) ht h1
  unfold timerTick
  rw [h1, Out.bind_ok]
  exact maybeChangeState_total (a.ready (by simp) h) (by rw [b]; exact hb)

theorem resetPeer_total {s : Node P} {id : P} (h : id ≠ s.me) : ∃ s', s.resetPeer id = .ok s' := by
  unfold resetPeer
  split
  · exact ⟨_, rfl⟩
  split
  · exact ⟨_, rfl⟩
  · rename_i hr
    unfold requestVoteMessage
    rw [hr]
    simp only [beq_self_eq_true, Out.check, if_true, Out.bind_ok]
    exact ⟨_, addSendable_one h _⟩
  · split <;> exact ⟨_, rfl⟩

theorem relinquishLeadership_total {s : Node P} (h : Ready v s) (hb : s.log.lastIdx + 3 < SZ) :
    ∃ s', s.relinquishLeadership v = .ok s' := by
  unfold relinquishLeadership
  split
  · exact ⟨_, rfl⟩
  · obtain ⟨⟨s1, r⟩, h1⟩ := clientRequestInternal_total h.hale .notSet
    rw [h1]
    simp only [Out.bind_ok]
    obtain ⟨a1, a2⟩ := clientRequestInternal_course (inp := .none) h.hale.shaped ⟨.inl rfl, fun _ _ h => by cases h⟩ h1
    have c : Course v (.none : Inp P) s1 { s1 with relinquishing := true } := miscTo
    exact maybeChangeState_total ((a1.trans c).ready (by simp) h) (by simp only; omega)

theorem logRequest_total {s : Node P} (h : Ready v s) (hb : s.log.lastIdx + 3 < SZ) (i : Inner) :
    ∃ r, s.logRequest v i = .ok r := by
  unfold logRequest
  cases hc : s.logRequestCheck v i with
  | some e => exact ⟨_, rfl⟩
  | none =>
    simp only
    obtain ⟨⟨s1, r⟩, h1⟩ := clientRequestInternal_total h.hale i
    rw [h1]
    simp only [Out.bind_ok]
    obtain ⟨a1, a2⟩ := clientRequestInternal_course (inp := .req i) h.hale.shaped (logRequestCheck_asked hc) h1
    obtain ⟨s2, h2⟩ := maybeChangeState_total (a1.ready (by simp) h) (by omega)
    rw [h2]
    exact ⟨_, rfl⟩

/-! ### Messages -/

theorem handleVoteRequest_total {s : Node P} {frm : P} (h : s.cfg.electionTicks ≠ 0) (hf : frm ≠ s.me) (mt i lt : Nat) :
    ∃ s', s.handleVoteRequest v mt i lt frm = .ok s' := by
  unfold handleVoteRequest
  split
  · exact ⟨_, rfl⟩
  split
  · obtain ⟨t, h1⟩ := randomElection_total (v := v)
      (s := ({ s with votedFor := some frm, cast := s.cast ++ [(s.term, frm)] } : Node P)) h
    unfold castVote
    rw [h1]
    simp only [Out.bind_ok]
    refine ⟨_, addSendable_one ?_ _⟩
    exact hf
  · exact ⟨_, addSendable_one hf _⟩

theorem logAppend_same {s s' : Node P} {e : Entry} {r} (h : s.logAppend v e = .ok (s', r)) :
    s'.role = s.role ∧ s'.me = s.me := by
  rcases logAppend_eq h with ⟨rfl, _⟩ | ⟨l, er, h1, rfl, _⟩ | ⟨l, h1, _, ⟨rfl, _⟩ | ⟨g, m, hg, hm', h3⟩⟩
  · exact ⟨rfl, rfl⟩
  · exact ⟨rfl, rfl⟩
  · exact ⟨rfl, rfl⟩
  · obtain ⟨_, f, e2⟩ := addUncommitted_eq h3
    rw [e2]
    exact ⟨rfl, rfl⟩

theorem cutConflict_me {s s1 : Node P} {idx term : Nat} (h : s.cutConflict idx term = some s1) : s1.me = s.me := by
  unfold cutConflict at h
  split at h
  · split at h
    · cases h
    · split at h
      · cases h
      · split at h
        · cases h
        · cases h
          rename_i l _
          obtain ⟨u, m, f, h1⟩ := maybeChangeUncommitted_eq ({ s with log := l } : Node P)
          rw [h1]
  · cases h
    rfl

theorem appendLoop_total : ∀ (es : List Entry) (idx lp : Nat) {s : Node P}, Hale v s → s.role = .follower →
    ∃ s' lp', appendLoop v es idx lp s = .ok (s', lp') ∧ Hale v s' ∧ s'.me = s.me
  | [], idx, lp, s, h, hr => ⟨s, lp, rfl, h, rfl⟩
  | e :: es, idx, lp, s, h, hr => by
    unfold appendLoop
    cases hc : s.cutConflict idx e.term with
    | none => exact ⟨s, lp, rfl, h, rfl⟩
    | some s1 =>
      obtain ⟨c1, c2, _⟩ := cutConflict_course (inp := .msg s.me ⟨0, s.term, .appReq (idx - 1) 0 [] [e] 0 0⟩) h.shaped hr
        (fun h1 h2 => ⟨_, _, _, _, _, _, _, _, e, rfl, by omega, by rw [show idx - (idx - 1) - 1 = 0 by omega]; rfl, h2⟩) hc
      have hm1 := cutConflict_me hc
      have h1 := c1.hale h
      simp only
      split
      · obtain ⟨hh, s2, hq⟩ : ∃ hh s2, s1.nextHash v e.term e.inner = (hh, s2) := ⟨_, _, rfl⟩
        have hq' := hq
        unfold nextHash at hq'
        obtain ⟨e1, e2⟩ := Prod.mk.inj hq'
        have a1 := Atom.hash (v := v) (inp := .msg s.me ⟨0, s1.term, .appReq s1.log.lastIdx 0 [] [e] 0 0⟩) s1 s1.prevHash
          (hashInput v s1.log.nextIdx e.term e.inner)
        rw [e2] at a1
        have h2 := a1.hale h1
        have hm2 : s2.me = s.me := by rw [← e2]; exact hm1
        rw [hq]
        simp only
        split
        · exact ⟨s2, lp, rfl, h2, hm2⟩
        · rename_i hct
          have hct : hh = e.hash := by simpa using hct
          obtain ⟨⟨s3, r⟩, h3⟩ := logAppend_total h2 e
          have a2 : Atom v (.msg s.me ⟨0, s1.term, .appReq s1.log.lastIdx 0 [] [e] 0 0⟩) s2 s3 := by
            refine Atom.append s2 s3 e r ?_ ?_ (.inr ⟨?_, s.me, 0, s1.term, s1.log.lastIdx, 0, [], [e], 0, 0, rfl, ?_, ?_⟩) h3 (fun _ => ⟨_, _, rfl, by rw [← e2]⟩)
            · rw [← hct, ← e1, ← e2]
              rfl
            · rw [← e2]
              exact List.mem_append_right _ (List.mem_singleton.mpr rfl)
            · rw [← e2]; exact c2
            · rw [← e2]
            · rw [← e2]
              show [e][s1.log.lastIdx - s1.log.lastIdx]? = some e
              rw [Nat.sub_self]
              rfl
          obtain ⟨d1, d2⟩ := logAppend_same h3
          rw [h3]
          simp only [Out.bind_ok]
          split
          · exact ⟨s3, lp, rfl, a2.hale h2, d2.trans hm2⟩
          · obtain ⟨s4, lp4, i1, i2, i3⟩ := appendLoop_total es (wadd idx 1) idx (a2.hale h2) (by rw [d1, ← e2]; exact c2)
            exact ⟨s4, lp4, i1, i2, i3.trans (d2.trans hm2)⟩
      · obtain ⟨s4, lp4, i1, i2, i3⟩ := appendLoop_total es (wadd idx 1) idx h1 c2
        exact ⟨s4, lp4, i1, i2, i3.trans hm1⟩

theorem acceptAppend_total {s : Node P} {frm : P} (hf : frm ≠ s.me) (lp : Nat) : ∃ s', s.acceptAppend lp frm = .ok s' :=
  ⟨_, addSendable_one hf _⟩

theorem finishAppend_total {s : Node P} {frm : P} (h : Hale v s) (hf : frm ≠ s.me) (lp c a : Nat) :
    ∃ s', s.finishAppend v lp c a frm = .ok s' := by
  unfold finishAppend
  split
  · obtain ⟨⟨s1, ok⟩, h1⟩ := verifyMerkle_total h
    rw [h1]
    obtain ⟨w, rfl⟩ := verifyMerkle_eq h1
    simp only [Out.bind_ok]
    split
    · exact ⟨_, rfl⟩
    · obtain ⟨u, m, f, heq⟩ := followLeader_eq { s with walks := w } (min c lp) (min a lp)
      obtain ⟨s2, h2⟩ := updateMerkle_total (s := followLeader { s with walks := w } (min c lp) (min a lp))
        (by rw [heq]; exact h.hashes)
      rw [h2]
      obtain ⟨_, _, _, _, h3⟩ := updateMerkle_eq h2
      simp only [Out.bind_ok]
      refine acceptAppend_total ?_ lp
      rw [h3, heq]
      exact hf
  · exact acceptAppend_total hf lp

theorem followAppend_total {s : Node P} {frm : P} (h : Hale v s) (hf : frm ≠ s.me) {mt : Nat} {lok : Bool}
    (hr : mt < s.term ∨ (mt = s.term ∧ s.role = .follower)) (pi : Nat) (es : List Entry) (c a : Nat) :
    ∃ s', s.followAppend v mt pi lok es c a frm = .ok s' := by
  unfold followAppend
  by_cases hc : mt < s.term ∨ (mt = s.term ∧ s.role = .follower ∧ lok = false)
  · rw [if_pos hc]
    exact ⟨_, addSendable_one hf _⟩
  · rw [if_neg hc]
    rcases hr with hr | ⟨hr1, hr2⟩
    · exact absurd (.inl hr) hc
    · have hl : lok = true := by
        cases lok with
        | true => rfl
        | false => exact absurd (.inr ⟨hr1, hr2, rfl⟩) hc
      rw [hr1, hr2, hl]
      simp only [decide_true, beq_self_eq_true, Out.check, if_true, Out.bind_ok]
      obtain ⟨s1, lp, h1, h2, h3⟩ := appendLoop_total es (wadd pi 1) pi h hr2
      rw [h1]
      exact finishAppend_total h2 (by rw [h3]; exact hf) lp c a

theorem handleAppendRequest_total {s : Node P} {frm : P} (h : Ready v s) (hf : frm ≠ s.me) (mt pi pt : Nat)
    (es : List Entry) (c a : Nat) : ∃ s', s.handleAppendRequest v mt pi pt es c a frm = .ok s' := by
  unfold handleAppendRequest
  split
  · exact ⟨_, rfl⟩
  rename_i h0
  split
  · rename_i h1
    unfold becomeFollower
    cases hr : s.role with
    | leader => exact ⟨_, rfl⟩
    | candidate =>
      obtain ⟨t, h2⟩ := randomElection_total (v := v) (s := s.setRole .follower) h.ticks
      simp only
      rw [h2]
      simp only [Out.bind_ok]
      refine followAppend_total ?_ ?_ (.inr ⟨?_, ?_⟩) pi es c a
      rotate_left
      · exact hf
      · exact h1
      · rfl
      exact ((Atom.demote s).course.trans (v := v) (Atom.course (Atom.misc (inp := .msg frm ⟨0, s.term, .appReq 0 0 [] [] 0 0⟩) _ _ _ _ _ _ _ _ _ _ _ (Or.inl rfl) (Or.inr ⟨frm, 0, 0, 0, [], [], 0, 0, rfl, rfl⟩)))).hale h.hale
    | follower =>
      obtain ⟨t, h2⟩ := randomElection_total (v := v) (s := s) h.ticks
      simp only
      rw [h2]
      simp only [Out.bind_ok]
      refine followAppend_total ?_ ?_ (.inr ⟨?_, ?_⟩) pi es c a
      rotate_left
      · exact hf
      · exact h1
      · exact hr
      exact (show Course v _ s _ from (Atom.course (Atom.misc (inp := .msg frm ⟨0, s.term, .appReq 0 0 [] [] 0 0⟩) _ _ _ _ _ _ _ _ _ _ _ (Or.inl rfl) (Or.inr ⟨frm, 0, 0, 0, [], [], 0, 0, rfl, rfl⟩)))).hale h.hale
  · exact followAppend_total h.hale hf (.inl (by omega)) pi es c a

/-- `HandleAppendResponse` finishes unless the leader is told of more entries than it has. -/
theorem handleAppendResponse_total {s : Node P} {frm : P} (hs : s.Shaped v) {mt : Nat} {ok : Bool} {mtch last promise : Nat}
    {hash : Bytes} (hchk : s.checkLogHash mtch 0 hash = .ok none)
    (hle : mt = s.term → s.role = .leader → ok = true → mtch ≤ s.log.lastIdx) :
    ∃ s', s.handleAppendResponse v mt ok mtch last promise hash frm = .ok s' := by
  unfold handleAppendResponse
  split
  · exact ⟨_, rfl⟩
  rename_i h0
  split
  · exact ⟨_, rfl⟩
  rename_i h1
  split
  · exact ⟨_, rfl⟩
  split
  · rename_i hok
    have hle := hle (not_not.mp h0) (not_not.mp h1) hok
    cases ha : s.log.at? mtch with
    | none =>
      simp only [decide_eq_true hle, Out.check, if_true, Out.bind_ok]
      exact ⟨_, rfl⟩
    | some e =>
      rcases checkLogHash_ok hchk with h2 | ⟨_, h2⟩
      · have := hs.le_last ha
        have := Shape.one hs
        omega
      · have : ctEq hash e.hash = true := (ctEq_iff _ _).mpr (h2 e ha (.inr rfl))
        simp only [this, Out.check, if_true, Out.bind_ok]
        exact ⟨_, rfl⟩
  · exact ⟨_, rfl⟩

theorem checkLogHash_total {s : Node P} (hs : s.Shaped v) (i t : Nat) (h : Bytes) : ∃ r, s.checkLogHash i t h = .ok r := by
  unfold checkLogHash
  split
  · exact ⟨_, rfl⟩
  split
  · exact ⟨_, rfl⟩
  rename_i h1
  split
  · exact ⟨_, rfl⟩
  rename_i h2
  obtain ⟨e, he⟩ := Option.isSome_iff_exists.mp ((Shape.at_iff hs i).mpr ⟨by
    unfold Log.oldestIdx at h1
    split at h1
    · rename_i h3
      have := Shape.empty hs (by simpa using h3)
      omega
    · omega, by omega⟩)
  rw [he]
  simp only
  split
  · exact ⟨_, rfl⟩
  split
  · exact ⟨_, rfl⟩
  split <;> exact ⟨_, rfl⟩

theorem checkEntries_total {s : Node P} (hs : s.Shaped v) : ∀ (es : List Entry) (i : Nat), ∃ r, s.checkEntries es i = .ok r
  | [], _ => ⟨_, rfl⟩
  | e :: es, i => by
    obtain ⟨q, h1⟩ := checkLogHash_total hs i e.term e.hash
    unfold checkEntries
    rw [h1]
    simp only [Out.bind_ok]
    cases q with
    | some _ => exact ⟨_, rfl⟩
    | none => exact checkEntries_total hs es _

theorem validate_total {s : Node P} (hs : s.Shaped v) (m : Msg) (frm : P) : ∃ r, s.validate m frm = .ok r := by
  unfold validate
  split
  · exact ⟨_, rfl⟩
  split
  · exact ⟨_, rfl⟩
  split
  · exact checkLogHash_total hs _ _ _
  · exact ⟨_, rfl⟩
  · rename_i pi pt ph es c a _
    obtain ⟨q, h1⟩ := checkLogHash_total hs pi pt ph
    rw [h1]
    simp only [Out.bind_ok]
    split
    · exact ⟨_, rfl⟩
    split
    · exact ⟨_, rfl⟩
    split
    · exact ⟨_, rfl⟩
    split
    · exact ⟨_, rfl⟩
    · exact checkEntries_total hs _ _
  · rename_i ok mt l a hh _
    obtain ⟨q, h1⟩ := checkLogHash_total hs mt 0 hh
    rw [h1]
    simp only [Out.bind_ok]
    split
    · exact ⟨_, rfl⟩
    split <;> exact ⟨_, rfl⟩
  · exact ⟨_, rfl⟩
  · exact ⟨_, rfl⟩

theorem keptTicks_total {s : Node P} (h : s.cfg.electionTicks ≠ 0) : ∃ r, s.keptTicks v = .ok r := by
  unfold keptTicks
  split
  · exact ⟨_, rfl⟩
  · exact ⟨_, rfl⟩
  · obtain ⟨x, h1⟩ := randomElection_total (v := v) h
    exact ⟨_, h1⟩

theorem updateTerm_total {s : Node P} (h : s.cfg.electionTicks ≠ 0) (t : Nat) : ∃ s', s.updateTerm v t = .ok s' := by
  unfold updateTerm
  split
  · exact ⟨_, rfl⟩
  · obtain ⟨⟨x, s1⟩, h1⟩ := keptTicks_total (v := v) (s := ({ s with term := t } : Node P)) h
    simp only
    rw [h1]
    exact ⟨_, rfl⟩

/-- The one kind of message that makes a replica abort: a success response of the leader's own term about entries the
leader does not have. -/
def Msg.Overclaims (s : Node P) (m : Msg) : Prop :=
  s.role = .leader ∧ m.term = s.term ∧ ∃ mt l a h, m.body = .appResp true mt l a h ∧ s.log.lastIdx < mt

theorem dispatch_total {s s0 : Node P} {m : Msg} {frm : P} (h : Ready v s) (hf : frm ≠ s.me)
    (hval : s0.validate m frm = .ok none) (hl : s.log = s0.log) (hp : s.promise = s0.promise) (ho : ¬ Msg.Overclaims s m) :
    ∃ s', s.dispatch v m frm = .ok s' := by
  unfold dispatch
  cases hbody : m.body with
  | voteReq i lt hh => exact handleVoteRequest_total h.ticks hf _ _ _
  | voteResp g =>
    simp only
    split <;> exact ⟨_, rfl⟩
  | appReq pi pt ph es c a => exact handleAppendRequest_total h hf _ _ _ _ _ _
  | appResp ok mt l a hh =>
    simp only
    split
    · exact ⟨_, rfl⟩
    · refine handleAppendResponse_total h.hale.shaped ?_ ?_
      · unfold validate at hval
        split at hval
        · cases hval
        split at hval
        · cases hval
        rw [hbody] at hval
        obtain ⟨q, h1, hval⟩ := Out.bind_eq_ok.mp hval
        cases q with
        | some _ => cases hval
        | none => rw [checkLogHash_congr hl hp]; exact h1
      · intro h1 h2 h3
        subst h3
        by_contra h4
        exact ho ⟨h2, h1, mt, l, a, hh, hbody, Nat.lt_of_not_ge h4⟩
  | timeoutNow =>
    simp only
    split
    · exact ⟨_, rfl⟩
    · exact electionTimeout_total h.ticks
  | notSet => exact ⟨_, rfl⟩

theorem markSeen_same (s : Node P) (frm : P) : (s.markSeen frm).role = s.role ∧ (s.markSeen frm).me = s.me := by
  unfold markSeen
  split
  · split <;> exact ⟨rfl, rfl⟩
  · exact ⟨rfl, rfl⟩

theorem updateTerm_same {s s' : Node P} {t : Nat} (h : s.updateTerm v t = .ok s') :
    s'.me = s.me ∧ (t ≤ s.term → s' = s) ∧ (s.term < t → s'.role = .follower) := by
  unfold updateTerm at h
  split at h
  · cases h
    rename_i h1
    exact ⟨rfl, fun _ => rfl, fun h2 => by omega⟩
  · obtain ⟨⟨x, s1⟩, h1, h⟩ := Out.bind_eq_ok.mp h
    cases h
    rename_i h2
    refine ⟨?_, fun h3 => absurd h3 h2, fun _ => rfl⟩
    show s1.me = s.me
    unfold keptTicks at h1
    split at h1
    · cases h1; rfl
    · cases h1; rfl
    · rw [randomElection_eq h1]

theorem receive_total {s : Node P} {m : Msg} {frm : P} (h : Ready v s) (hf : Fits s m) (hme : frm ≠ s.me)
    (ho : ¬ Msg.Overclaims s m) : ∃ s', s.receive v m frm = .ok s' := by
  obtain ⟨hf1, hf2, hf3⟩ := hf
  obtain ⟨q, h0⟩ := validate_total h.hale.shaped m frm
  unfold receive
  rw [h0]
  simp only [Out.bind_ok]
  cases q with
  | some e => exact ⟨_, rfl⟩
  | none =>
    simp only
    obtain ⟨s1, h1⟩ := updateTerm_total (v := v) h.ticks m.term
    obtain ⟨a1, a2, a3, a4⟩ := updateTerm_course (inp := .msg frm m) rfl h1
    obtain ⟨b1, b2, b3, b4⟩ := markSeen_course (v := v) (inp := .msg frm m) s1 frm
    obtain ⟨e1, e2, e3⟩ := updateTerm_same h1
    obtain ⟨e4, e5⟩ := markSeen_same s1 frm
    have r1 := (a1.trans b1).ready (by simp) h
    obtain ⟨s2, h2⟩ := dispatch_total (m := m) (frm := frm) (s0 := s) r1 (by rw [e5, e1]; exact hme) h0 (by rw [b2, a2])
      (by rw [b3, a3]) (by
        rintro ⟨o1, o2, o3⟩
        rw [e4] at o1
        by_cases hlt : s.term < m.term
        · rw [e3 hlt] at o1; cases o1
        · rw [e2 (by omega)] at o1 o2 o3 b4 b2
          rw [b4] at o2
          rw [b2] at o3
          exact ho ⟨o1, o2, o3⟩)
    rw [h1, Out.bind_ok, h2, Out.bind_ok]
    obtain ⟨c1, c2⟩ := dispatch_course (s0 := s) rfl r1.hale.shaped (by rw [b2, a2]; omega)
      (by rw [b4, a4]; omega) h0 (by rw [b2, a2]) (by rw [b3, a3]) h2
    rw [b2, a2] at c2
    exact maybeChangeState_total (c1.ready (by simp) r1) (by omega)

theorem takeCommittedLog_total {s : Node P} (h : s.Shaped v) (hc : s.commit ≤ s.log.lastIdx) : ∃ r, s.takeCommittedLog = .ok r := by
  unfold takeCommittedLog
  split
  · exact ⟨_, rfl⟩
  · rename_i h1
    obtain ⟨e, he⟩ := Option.isSome_iff_exists.mp ((Shape.at_iff h (s.lastApplied + 1)).mpr ⟨by
      rcases Shape.old h with h2 | h2 <;> omega, by omega⟩)
    simp only [he]
    exact ⟨_, rfl⟩

/-- What the caller has to see to: it never names the replica itself, and no message claims more than the leader has;
for `takeCommitted`, that what is committed is in the log. -/
def Op.Safe (s : Node P) : Op P → Prop
  | .receive frm m => frm ≠ s.me ∧ ¬ Msg.Overclaims s m
  | .reset id => id ≠ s.me
  | .takeCommitted => s.commit ≤ s.log.lastIdx
  | _ => True

theorem Op.total {s : Node P} {op : Op P} (h : Ready v s) (hf : op.Fits s) (hs : op.Safe s) : ∃ r, op.run v s = .ok r := by
  cases op with
  | receive frm m =>
    obtain ⟨f1, f2, f3, _⟩ := hf
    obtain ⟨s1, h1⟩ := receive_total h ⟨by omega, f2, f3⟩ hs.1 hs.2
    simp only [Op.run, h1]
    exact ⟨_, rfl⟩
  | tick =>
    obtain ⟨s1, h1⟩ := timerTick_total h (by have := hf.1; omega) hf.2
    simp only [Op.run, h1]
    exact ⟨_, rfl⟩
  | reset id =>
    obtain ⟨s1, h1⟩ := resetPeer_total (s := s) hs
    simp only [Op.run, h1]
    exact ⟨_, rfl⟩
  | reconfigure c => exact ⟨_, rfl⟩
  | relinquish =>
    obtain ⟨s1, h1⟩ := relinquishLeadership_total h hf.1
    simp only [Op.run, h1]
    exact ⟨_, rfl⟩
  | request i =>
    obtain ⟨⟨s1, r⟩, h1⟩ := logRequest_total h hf.1 i
    simp only [Op.run, h1]
    exact ⟨_, rfl⟩
  | takeCommitted =>
    obtain ⟨⟨s1, r⟩, h1⟩ := takeCommittedLog_total h.hale.shaped hs
    simp only [Op.run, h1]
    exact ⟨_, rfl⟩
  | takeSendable => exact ⟨_, rfl⟩

/-- Conversely such a message from a member does abort. -/
theorem receive_overclaims {s : Node P} {m : Msg} {frm : P} (h : Hale v s) (hme : frm ≠ s.me) (hg : m.group = s.group)
    (hf : frm ∈ s.membership.all) (hr : s.role = .leader) (ht : m.term = s.term) {mt l a : Nat} {hh : Bytes}
    (hb : m.body = .appResp true mt l a hh) (h1 : s.log.lastIdx < mt) (h2 : mt ≤ l) (h3 : a ≤ l) : s.receive v m frm = .abort := by
  have hv : s.validate m frm = .ok none := by
    unfold validate
    rw [if_neg (not_not.mpr hg), if_neg (not_not.mpr hf), hb]
    have hc : s.checkLogHash mt 0 hh = .ok none := by
      unfold checkLogHash
      rw [if_neg (by omega), if_neg ?_, if_pos h1]
      unfold Log.oldestIdx
      have h4 := Shape.lastIdx h.shaped
      split
      · omega
      · omega
    simp only [hc, Out.bind_ok]
    rw [if_neg (by omega)]
  obtain ⟨r, hrow⟩ := Option.isSome_iff_exists.mp (h.table hr frm hf hme)
  have hs : s.markSeen frm = { s with followers := s.followers.insert frm { r with lastSeen := 0 } } := by
    unfold markSeen
    rw [if_pos hr, hrow]
  unfold receive
  rw [hv]
  simp only [Out.bind_ok]
  unfold updateTerm
  rw [if_pos (by omega)]
  simp only [Out.bind_ok]
  rw [hs]
  have hat : s.log.at? mt = none := by
    cases hq : s.log.at? mt with
    | none => rfl
    | some e => exact absurd (h.shaped.le_last hq).2 (by omega)
  have hd : ({ s with followers := s.followers.insert frm { r with lastSeen := 0 } } : Node P).dispatch v m frm = .abort := by
    unfold dispatch
    rw [hb]
    simp only
    rw [if_neg (by omega)]
    unfold handleAppendResponse
    rw [if_neg (by simpa using ht), if_neg (by simpa using hr)]
    simp only [OMap.find_insert_self, if_true, hat]
    rw [show decide (mt ≤ s.log.lastIdx) = false by simp; omega]
    rfl
  rw [hd]
  rfl

/-- Only messages from members of the group about this group, and that claim something consistent, get that far. -/
theorem validate_ack {s : Node P} {m : Msg} {frm : P} (h : s.validate m frm = .ok none) {ok : Bool} {mt l a : Nat} {hh : Bytes}
    (hb : m.body = .appResp ok mt l a hh) : m.group = s.group ∧ frm ∈ s.membership.all ∧ mt ≤ l ∧ a ≤ l := by
  unfold validate at h
  split at h
  · cases h
  rename_i h1
  split at h
  · cases h
  rename_i h2
  rw [hb] at h
  simp only at h
  obtain ⟨q, _, h⟩ := Out.bind_eq_ok.mp h
  cases q with
  | some _ => cases h
  | none =>
    simp only at h
    split at h
    · cases h
    · rename_i h3
      exact ⟨not_not.mp h1, not_not.mp h2, by omega, by omega⟩

theorem receive_outcome {s : Node P} {m : Msg} {frm : P} (h : Ready v s) (hf : Fits s m) (hme : frm ≠ s.me) :
    (∃ s', s.receive v m frm = .ok s') ∨ (s.receive v m frm = .abort ∧ m.group = s.group ∧ frm ∈ s.membership.all ∧
      s.role = .leader ∧ m.term = s.term ∧ ∃ mt l a hh, m.body = .appResp true mt l a hh ∧ s.log.lastIdx < mt ∧ mt ≤ l ∧ a ≤ l) := by
  by_cases ho : Msg.Overclaims s m
  · obtain ⟨h1, h2, mt, l, a, hh, h3, h4⟩ := ho
    obtain ⟨q, hq⟩ := validate_total h.hale.shaped m frm
    cases q with
    | some e =>
      left
      unfold receive
      rw [hq]
      exact ⟨_, rfl⟩
    | none =>
      obtain ⟨a1, a2, a3, a4⟩ := validate_ack hq h3
      exact .inr ⟨receive_overclaims h.hale hme a1 a2 h1 h2 h3 h4 a3 a4, a1, a2, h1, h2, mt, l, a, hh, h3, h4, a3, a4⟩
  · exact .inl (receive_total h hf hme ho)

/-! ### Where such states come from -/

theorem base_hale {group : Nat} {me : P} {mem : Membership P} {log : Log} {cfg : RaftCfg} {cl : Bool} {sm : Nat}
    (hs : (base group me mem log cfg cl sm).Shaped v) (hm : mem.Good) (hsm : sm < 2 ^ 63)
    (hl : ∀ i e, log.at? i = some e → e.hash.length = 32) : Hale v (base group me mem log cfg cl sm) :=
  ⟨hs, hl, fun _ h => (by cases h), List.Pairwise.nil, hm, fun _ h => (by cases h), fun h => absurd rfl h,
    (fun h => by cases h), hsm⟩

theorem new_hale {group : Nat} {me : P} {mem : Membership P} {log : Log} {cfg : RaftCfg} {cl : Bool} {sm : Nat} {s : Node P}
    (hs : (base group me mem log cfg cl sm).Shaped v) (hb : log.lastIdx + 2 < SZ) (hm : mem.Good) (hsm : sm < 2 ^ 63)
    (hl : ∀ i e, log.at? i = some e → e.hash.length = 32) (h : new v group me mem log cfg cl sm = .ok s) : Hale v s :=
  (new_steps hs hb h).hale (base_hale hs hm hsm hl)

theorem Op.hale {s s' : Node P} {op : Op P} {o : Obs P} (h : Hale v s) (hf : op.Fits s) (k : op.run v s = .ok (s', o)) : Hale v s' := by
  have hsh : s'.Shaped v := Op.shaped h.shaped hf k
  rcases op.course h.shaped hf k with ⟨c, _⟩ | ⟨i, e, _, _, _, _, _, rfl⟩ | ⟨_, _, rfl⟩
  · exact c.hale h
  · exact h.ofEq hsh rfl rfl rfl rfl rfl h.voter h.table
  · exact h.ofEq hsh rfl rfl rfl rfl rfl h.voter h.table

theorem Hale.env {v' : Env P} {s : Node P} (h : Hale v s) (hz : v'.z = v.z) : Hale v' s :=
  ⟨by have := h.shaped; unfold Shaped at *; rw [hz]; exact this, h.hashes, h.unc, h.order, h.mem, h.mems, h.voter, h.table, h.sm⟩

end Svr.Raft.Node
