import Verif.Raft.Cluster

/-!
# What goes on among some of the replicas

The others are gone: a replica that crashed has lost its state for good. Messages of theirs that are still under way are lost with them.
-/

namespace Svr.Raft
open Node
variable {P : Type} [LinearOrder P]

/-- The message of a call comes from one of `A`, and was sent to this replica or to all. -/
def Op.DeliveredFrom (A : P → Prop) (W : World P) (p : P) : Op P → Prop
  | .receive frm m => A frm ∧ ∃ dst, (frm, dst, m) ∈ W.net ∧ (dst = none ∨ dst = some p)
  | _ => True

/-- Everything that can happen from `W` on when only the replicas of `A` go on running. -/
inductive Among (g : Setting P) (A : P → Prop) (W : World P) : World P → Prop
  | now : Among g A W W
  | next {W1 : World P} (h : Among g A W W1) (p : P) (s s' : Node P) (op : Op P) (o : Obs P) (rand : Nat → Nat) (path : Nat → Bool)
    (ha : A p) (hp : W1.node p = some s) (hd : Op.DeliveredFrom A W1 p op) (hf : op.Fits s)
    (hr : op.run (g.env rand path) s = .ok (s', o)) :
    Among g A W (W1.put p s' (W1.applied p ++ Obs.entries o) (Obs.messages p o) (Op.requests op))

theorem Among.future {g : Setting P} {A : P → Prop} {W W' : World P} (h : Among g A W W') : Future g W W' := by
  induction h with
  | now => exact .now
  | next h p s s' op o rand path ha hp hd hf hr ih =>
    refine ih.next (.call p s s' op o rand path hp ?_ hf hr)
    cases op with
    | receive frm m => exact hd.2
    | _ => trivial

theorem Among.trans {g : Setting P} {A : P → Prop} {W W1 W2 : World P} (h : Among g A W W1) (k : Among g A W1 W2) : Among g A W W2 := by
  induction k with
  | now => exact h
  | next _ p s s' op o rand path ha hp hd hf hr ih => exact ih.next p s s' op o rand path ha hp hd hf hr

/-- `q` never votes for `c`: the log of `c` is behind that of `q`, or the last entry of `c` has a higher term than an entry that `q`
promised to keep. -/
def Refuses (q c : Node P) : Prop :=
  c.log.lastTerm < q.log.lastTerm ∨ (c.log.lastTerm = q.log.lastTerm ∧ c.log.lastIdx < q.log.lastIdx) ∨
  (1 ≤ c.log.lastIdx ∧ c.log.lastIdx ≤ q.promise ∧ ∃ e, q.log.at? c.log.lastIdx = some e ∧ e.term < c.log.lastTerm)

namespace Node

/-- A message that does not change anything among the replicas of `A`, whose states are `N`. -/
def Vain (A : P → Prop) (N : P → Node P) (t0 : Nat) (src : P) (dst : Option P) (m : Msg) : Prop :=
  t0 ≤ m.term → match m.body with
    | .voteReq i t _ => i = (N src).log.lastIdx ∧ t = (N src).log.lastTerm
    | .voteResp true => ∃ d, dst = some d ∧ (A d → ¬ Refuses (N src) (N d))
    | .voteResp false => True
    | .appReq .. => False
    | _ => True

/-- `p` has what it had, does not lead, and only those vote for it who may. -/
structure Held (A : P → Prop) (N : P → Node P) (t0 : Nat) (p : P) (s : Node P) : Prop where
  me : s.me = p
  log : s.log = (N p).log
  promise : s.promise = (N p).promise
  commit : s.commit = (N p).commit
  mem : s.mem = (N p).mem
  unc : s.uncommitted = (N p).uncommitted
  sm : s.superMajority = (N p).superMajority
  role : s.role ≠ .leader
  term : t0 ≤ s.term
  sorted : SSorted s.votes
  votes : ∀ x ∈ s.votes, x = p ∨ A x ∧ ¬ Refuses (N x) (N p)
  out : ∀ d m, (d, m) ∈ s.sendable → Vain A N t0 p d m

/-- No quorum would vote for any of `A`. -/
def Short (A : P → Prop) (N : P → Node P) : Prop :=
  ∀ p, A p → ∀ V : List P, SSorted V → (∀ x ∈ V, x = p ∨ A x ∧ ¬ Refuses (N x) (N p)) → V.length < (N p).quorum

variable {A : P → Prop} {N : P → Node P} {t0 : Nat} {p : P} {s s' : Node P} {v : Env P}

theorem Held.quorum (h : Held A N t0 p s) : s.quorum = (N p).quorum := by
  unfold Node.quorum Node.membership
  rw [h.unc, h.mem, h.sm]

theorem Held.same (h : Held A N t0 p s) (me : s'.me = s.me) (log : s'.log = s.log) (pr : s'.promise = s.promise) (co : s'.commit = s.commit)
    (mem : s'.mem = s.mem) (unc : s'.uncommitted = s.uncommitted) (sm : s'.superMajority = s.superMajority) (role : s'.role ≠ .leader)
    (term : s.term ≤ s'.term) (votes : s'.votes = s.votes ∨ s'.votes = [] ∨ s'.votes = [p])
    (out : ∀ d m, (d, m) ∈ s'.sendable → (d, m) ∈ s.sendable ∨ Vain A N t0 p d m) : Held A N t0 p s' := by
  refine ⟨me.trans h.me, log.trans h.log, pr.trans h.promise, co.trans h.commit, mem.trans h.mem, unc.trans h.unc, sm.trans h.sm, role,
    h.term.trans term, ?_, ?_, fun d m hm => (out d m hm).elim (h.out d m) id⟩
  · rcases votes with e | e | e <;> rw [e]
    · exact h.sorted
    · exact List.Pairwise.nil
    · exact List.pairwise_singleton ..
  · intro x hx
    rcases votes with e | e | e <;> rw [e] at hx
    · exact h.votes x hx
    · cases hx
    · exact .inl (by simpa using hx)

theorem Held.send {d : Option P} {m : Msg} (h : Held A N t0 p s) (hm : Vain A N t0 p d m) (k : s.addSendable d m = .ok s') :
    Held A N t0 p s' := by
  rcases addSendable_eq k with rfl | ⟨rfl, _⟩
  · exact h
  · refine h.same rfl rfl rfl rfl rfl rfl rfl h.role le_rfl (.inl rfl) fun d' m' hx => ?_
    rcases List.mem_append.mp hx with hx | hx
    · exact .inl hx
    · simp only [List.mem_singleton, Prod.mk.injEq] at hx
      rw [hx.1, hx.2]
      exact .inr hm

theorem appendEntries_idle (hr : s.role ≠ .leader) (q : P) : s.appendEntries v q = .ok s := by
  unfold appendEntries
  rw [if_pos hr]

theorem sendAll_idle (hr : s.role ≠ .leader) : ∀ l : List P, sendAll v l s = .ok s
  | [] => rfl
  | q :: t => by
    unfold sendAll
    split
    · exact sendAll_idle hr t
    · rw [appendEntries_idle hr]
      exact sendAll_idle hr t

/-- A replica that does not lead and has too few votes stays as it is. -/
theorem maybeChangeState_idle (hr : s.role ≠ .leader) (hv : s.role = .candidate → s.votes.length < s.quorum) (h : s.maybeChangeState v = .ok s') :
    ∃ w c q, s' = { s with walks := w, commitLeaf := c, promiseLeaf := q } ∧ (s.Agrees → s'.Agrees) := by
  obtain ⟨s1, h1, h⟩ := Out.bind_eq_ok.mp h
  have e1 : s1 = s := by
    unfold maybeBecomeLeader at h1
    split at h1
    · cases h1; rfl
    · rename_i hc
      rw [if_pos (hv (by by_contra hx; exact hc hx))] at h1
      cases h1; rfl
  rw [e1] at h
  clear h1 e1
  obtain ⟨s2, h2, h⟩ := Out.bind_eq_ok.mp h
  have e2 : ∃ w c q, s2 = { s with walks := w, commitLeaf := c, promiseLeaf := q } ∧ (s.Agrees → s2.Agrees) := by
    obtain ⟨⟨s3, b⟩, k1, k2⟩ := Out.bind_eq_ok.mp h2
    obtain ⟨w, rfl⟩ := verifyMerkle_eq k1
    simp only at k2
    split at k2
    · obtain ⟨s4, k3, k4⟩ := Out.bind_eq_ok.mp k2
      have : s4 = { s with walks := w } := by
        unfold maybeAdvance at k3
        rw [if_pos hr] at k3
        cases k3; rfl
      subst this
      have ha := updateMerkle_agrees k4
      obtain ⟨c, q, _, _, rfl⟩ := updateMerkle_eq k4
      exact ⟨_, _, _, rfl, fun _ => ha⟩
    · cases k2
      exact ⟨w, _, _, rfl, id⟩
  obtain ⟨w, c, q, e2, ha⟩ := e2
  have hr2 : s2.role ≠ .leader := by rw [e2]; exact hr
  rw [sendAll_idle hr2] at h
  simp only [Out.bind_ok] at h
  rw [if_neg (by simp [hr2])] at h
  cases h
  exact ⟨_, _, _, e2, ha⟩

theorem Held.settle (hA : A p) (hS : Short A N) (h : Held A N t0 p s) (k : s.maybeChangeState v = .ok s') : Held A N t0 p s' := by
  obtain ⟨w, c, q, rfl, _⟩ := maybeChangeState_idle h.role (fun _ => by rw [h.quorum]; exact hS p hA _ h.sorted h.votes) k
  exact h.same rfl rfl rfl rfl rfl rfl rfl h.role le_rfl (.inl rfl) fun _ _ => .inl

theorem Held.voteReq (h : Held A N t0 p s) {m : Msg} (k : s.requestVoteMessage = .ok m) (d : Option P) : Vain A N t0 p d m := by
  obtain ⟨_, _, k⟩ := Out.bind_eq_ok.mp k
  cases k
  intro _
  exact ⟨by rw [h.log], by rw [h.log]⟩

theorem Held.election (h : Held A N t0 p s) (ht : s.term + 1 < SZ) (k : s.electionTimeout v = .ok s') : Held A N t0 p s' := by
  have hw : wadd s.term 1 = s.term + 1 := wadd_of_lt ht
  unfold electionTimeout at k
  split at k
  · obtain ⟨⟨t, s1⟩, k1, k⟩ := Out.bind_eq_ok.mp k
    have e := randomElection_eq k1
    subst e
    cases k
    exact h.same rfl rfl rfl rfl rfl rfl rfl h.role le_rfl (.inl rfl) fun _ _ => .inl
  · split at k
    · rename_i hr; exact absurd hr h.role
    · obtain ⟨⟨t, s1⟩, k1, k⟩ := Out.bind_eq_ok.mp k
      have e := randomElection_eq k1
      subst e
      obtain ⟨m, k2, k⟩ := Out.bind_eq_ok.mp k
      refine Held.send (s := { { s.startCampaign with rng := s.startCampaign.rng + 1 } with
        votes := [s.startCampaign.me], cElection := t }) ?_ ?_ k
      · exact h.same rfl rfl rfl rfl rfl rfl rfl (by simp [startCampaign, setRole])
          (by show s.term ≤ wadd s.term 1; omega) (.inr (.inr (by rw [← h.me]; rfl))) fun _ _ => .inl
      · obtain ⟨_, _, k2⟩ := Out.bind_eq_ok.mp k2
        cases k2
        intro _
        exact ⟨by rw [← h.log]; rfl, by rw [← h.log]; rfl⟩

theorem Held.newTerm (h : Held A N t0 p s) {t : Nat} (k : s.updateTerm v t = .ok s') : Held A N t0 p s' ∧ s'.term = max s.term t := by
  unfold updateTerm at k
  split at k
  · rename_i hle
    cases k
    exact ⟨h, by omega⟩
  · rename_i hle
    obtain ⟨⟨x, s1⟩, k1, k⟩ := Out.bind_eq_ok.mp k
    have e : s1 = { s with term := t } := by
      unfold keptTicks at k1
      split at k1
      · cases k1; rfl
      · cases k1; rfl
      · rename_i hr; exact absurd hr h.role
    subst e
    cases k
    refine ⟨h.same rfl rfl rfl rfl rfl rfl rfl (by simp [setRole]) ?_ (.inr (.inl rfl)) fun _ _ => .inl, ?_⟩
    · show s.term ≤ t; omega
    · show t = max s.term t; omega

theorem refused_of_check (h : Held A N t0 p s) {c : P} {hash : Bytes} (hrf : Refuses (N p) (N c))
    (hc : s.checkLogHash (N c).log.lastIdx (N c).log.lastTerm hash = .ok none) :
    ¬ ((N c).log.lastTerm > s.log.lastTerm ∨ ((N c).log.lastTerm = s.log.lastTerm ∧ (N c).log.lastIdx ≥ s.log.lastIdx)) := by
  rw [h.log]
  rcases hrf with hrf | hrf | ⟨h1, h2, e, h3, h4⟩
  · omega
  · omega
  · exfalso
    unfold checkLogHash at hc
    rw [h.log, h.promise] at hc
    have hs := (Log.at?_some_iff (N p).log (N c).log.lastIdx).mp (by rw [h3]; rfl)
    rw [if_neg (by omega)] at hc
    have ho : (N p).log.oldestIdx = (N p).log.oldest := by
      unfold Log.oldestIdx
      rw [if_neg]
      omega
    have hl : (N p).log.lastIdx = (N p).log.oldest + (N p).log.entries.length - 1 := by
      unfold Log.lastIdx
      rw [if_neg]
      omega
    rw [if_neg (by omega), if_neg (by omega), h3] at hc
    simp only at hc
    rw [if_pos (by omega), if_neg (by omega)] at hc
    cases hc


theorem Held.received (hA : A p) (hS : Short A N) (h : Held A N t0 p s) {frm : P} {d : Option P} {m : Msg} (hF : A frm)
    (hd : d = none ∨ d = some p) (hm : Vain A N t0 frm d m) (hf : s.term + 1 < SZ ∧ m.term + 1 < SZ)
    (k : s.receive v m frm = .ok s') : Held A N t0 p s' := by
  unfold receive at k
  obtain ⟨er, hval, k⟩ := Out.bind_eq_ok.mp k
  cases er with
  | some er => cases k; exact h
  | none =>
  simp only at k
  obtain ⟨s1, k1, k⟩ := Out.bind_eq_ok.mp k
  obtain ⟨h1, ht⟩ := h.newTerm k1
  have hseen : s1.markSeen frm = s1 := by
    unfold markSeen
    rw [if_neg h1.role]
  rw [hseen] at k
  obtain ⟨s2, k2, k⟩ := Out.bind_eq_ok.mp k
  refine Held.settle hA hS ?_ k
  unfold dispatch at k2
  cases hb : m.body with
  | voteReq i lt hh =>
    simp only [hb] at k2
    unfold handleVoteRequest at k2
    rw [if_neg (by omega)] at k2
    split at k2
    · rename_i hg
      unfold grants at hg
      simp only [Bool.and_eq_true, Bool.or_eq_true, decide_eq_true_eq] at hg
      obtain ⟨⟨g1, g2⟩, _⟩ := hg
      obtain ⟨s3, k3, k2⟩ := Out.bind_eq_ok.mp k2
      obtain ⟨⟨x, s4⟩, k4, k3⟩ := Out.bind_eq_ok.mp k3
      have e := randomElection_eq k4
      subst e
      cases k3
      refine Held.send (d := some frm) (m := ⟨s1.group, s1.term, .voteResp true⟩) (s := ({ s1 with
        votedFor := some frm, cast := s1.cast ++ [(s1.term, frm)], rng := s1.rng + 1, fElection := x } : Node P)) ?_ ?_ k2
      · exact h1.same rfl rfl rfl rfl rfl rfl rfl h1.role le_rfl (.inl rfl) fun _ _ => .inl
      · intro _
        refine ⟨frm, rfl, fun _ hrf => ?_⟩
        have hmt : t0 ≤ m.term := by rw [g1]; exact h1.term
        have hx := hm hmt
        rw [hb] at hx
        obtain ⟨rfl, rfl⟩ := hx
        unfold validate at hval
        split at hval
        · cases hval
        split at hval
        · cases hval
        rw [hb] at hval
        have e1 : s1.log = s.log := by rw [h1.log, h.log]
        exact refused_of_check h hrf hval (by rw [← e1]; exact g2)
    · exact h1.send (fun _ => trivial) k2
  | voteResp g =>
    simp only [hb] at k2
    split at k2
    · cases k2; exact h1
    · rename_i hlt
      cases k2
      unfold handleVoteResponse
      split
      · exact h1
      split
      · exact h1
      split
      · rename_i hterm hcand hg
        have hg1 : g = true := hg.1
        subst hg1
        have hx := hm (by have := h1.term; omega)
        rw [hb] at hx
        refine ⟨h1.me, h1.log, h1.promise, h1.commit, h1.mem, h1.unc, h1.sm, h1.role, h1.term, sinsert_sorted _ _ h1.sorted, ?_, h1.out⟩
        intro x hxm
        rcases (mem_sinsert frm x s1.votes).mp hxm with rfl | hxm
        · obtain ⟨d', hd', hx⟩ := hx
          rcases hd with rfl | rfl
          · cases hd'
          · cases hd'
            exact .inr ⟨hF, hx hA⟩
        · exact h1.votes x hxm
      · exact h1
  | appReq pi pt ph es c a =>
    simp only [hb] at k2
    have hstale : m.term < s1.term := by
      by_contra hge
      have hx := hm (by have := h1.term; omega)
      rw [hb] at hx
      exact hx
    unfold handleAppendRequest at k2
    rw [if_neg (by omega), if_neg (by omega)] at k2
    unfold followAppend at k2
    rw [if_pos (.inl hstale)] at k2
    exact h1.send (fun _ => trivial) k2
  | appResp ok mt l a hh =>
    simp only [hb] at k2
    split at k2
    · cases k2; exact h1
    · unfold handleAppendResponse at k2
      split at k2
      · cases k2; exact h1
      · rw [if_pos h1.role] at k2
        cases k2; exact h1
  | timeoutNow =>
    simp only [hb] at k2
    split at k2
    · cases k2; exact h1
    · exact h1.election (by omega) k2
  | notSet =>
    simp only [hb] at k2
    cases k2; exact h1


theorem Held.called (hA : A p) (hS : Short A N) (h : Held A N t0 p s) {op : Op P} {o : Obs P} {W : World P}
    (hd : Op.DeliveredFrom A W p op) (hn : ∀ q d m, (q, d, m) ∈ W.net → A q → Vain A N t0 q d m) (hf : op.Fits s)
    (k : op.run v s = .ok (s', o)) : Held A N t0 p s' ∧ ∀ x ∈ Obs.messages p o, x.1 = p ∧ Vain A N t0 p x.2.1 x.2.2 := by
  cases op with
  | receive frm m =>
    obtain ⟨s1, k1, k⟩ := Out.bind_eq_ok.mp k
    cases k
    obtain ⟨hF, d, hnet, hd⟩ := hd
    exact ⟨h.received hA hS hF hd (hn _ _ _ hnet hF) ⟨hf.2.1, hf.2.2.1⟩ k1, by simp [Obs.messages]⟩
  | tick =>
    obtain ⟨s1, k1, k⟩ := Out.bind_eq_ok.mp k
    cases k
    obtain ⟨s2, k2, k1⟩ := Out.bind_eq_ok.mp k1
    refine ⟨Held.settle hA hS ?_ k1, by simp [Obs.messages]⟩
    unfold tickRole at k2
    split at k2
    · simp only at k2
      have h1 : Held A N t0 p { s with fElection := s.fElection - 1 } :=
        h.same rfl rfl rfl rfl rfl rfl rfl h.role le_rfl (.inl rfl) fun _ _ => .inl
      split at k2
      · exact h1.election hf.2 k2
      · cases k2; exact h1
    · simp only at k2
      have h1 : Held A N t0 p { s with cElection := s.cElection - 1 } :=
        h.same rfl rfl rfl rfl rfl rfl rfl h.role le_rfl (.inl rfl) fun _ _ => .inl
      split at k2
      · exact h1.election hf.2 k2
      · cases k2; exact h1
    · rename_i hr; exact absurd hr h.role
  | reset id =>
    obtain ⟨s1, k1, k⟩ := Out.bind_eq_ok.mp k
    cases k
    refine ⟨?_, by simp [Obs.messages]⟩
    unfold resetPeer at k1
    split at k1
    · cases k1; exact h
    · split at k1
      · cases k1; exact h
      · obtain ⟨m, k2, k1⟩ := Out.bind_eq_ok.mp k1
        exact h.send (h.voteReq k2 _) k1
      · rename_i hr; exact absurd hr h.role
  | reconfigure c =>
    cases k
    exact ⟨h.same rfl rfl rfl rfl rfl rfl rfl h.role le_rfl (.inl rfl) fun _ _ => .inl, by simp [Obs.messages]⟩
  | relinquish =>
    obtain ⟨s1, k1, k⟩ := Out.bind_eq_ok.mp k
    cases k
    unfold relinquishLeadership at k1
    rw [if_pos (.inl h.role)] at k1
    cases k1
    exact ⟨h, by simp [Obs.messages]⟩
  | request i =>
    obtain ⟨⟨s1, r⟩, k1, k⟩ := Out.bind_eq_ok.mp k
    cases k
    refine ⟨?_, by simp [Obs.messages]⟩
    unfold logRequest at k1
    split at k1
    · cases k1; exact h
    · obtain ⟨⟨s2, r2⟩, k2, k1⟩ := Out.bind_eq_ok.mp k1
      obtain ⟨s3, k3, k1⟩ := Out.bind_eq_ok.mp k1
      cases k1
      refine Held.settle hA hS ?_ k3
      unfold clientRequestInternal nextHash at k2
      simp only at k2
      rw [if_pos (.inl h.role)] at k2
      cases k2
      exact h.same rfl rfl rfl rfl rfl rfl rfl h.role le_rfl (.inl rfl) fun _ _ => .inl
  | takeCommitted =>
    obtain ⟨⟨s1, r⟩, k1, k⟩ := Out.bind_eq_ok.mp k
    cases k
    refine ⟨?_, by simp [Obs.messages]⟩
    unfold takeCommittedLog at k1
    split at k1
    · cases k1; exact h
    · simp only at k1
      split at k1
      · cases k1
      · cases k1
        exact h.same rfl rfl rfl rfl rfl rfl rfl h.role le_rfl (.inl rfl) fun _ _ => .inl
  | takeSendable =>
    cases k
    refine ⟨h.same rfl rfl rfl rfl rfl rfl rfl h.role le_rfl (.inl rfl) (fun _ _ hx => by simp [takeSendable] at hx), ?_⟩
    intro x hx
    simp only [Obs.messages, takeSendable, List.mem_map] at hx
    obtain ⟨y, hy, rfl⟩ := hx
    exact ⟨rfl, h.out _ _ hy⟩

end Node

/-- A world in which the replicas of `A` are stuck. -/
structure StuckIn (A : P → Prop) (N : P → Node P) (t0 : Nat) (W : World P) : Prop where
  held : ∀ p, A p → ∃ s, W.node p = some s ∧ Held A N t0 p s
  net : ∀ q d m, (q, d, m) ∈ W.net → A q → Vain A N t0 q d m

theorem StuckIn.stays {g : Setting P} {A : P → Prop} {N : P → Node P} {t0 : Nat} {W W' : World P} (hS : Short A N)
    (h : StuckIn A N t0 W) (k : Among g A W W') : StuckIn A N t0 W' := by
  induction k with
  | now => exact h
  | @next W1 _ p s s' op o rand path ha hp hd hf hr ih =>
    obtain ⟨s0, e0, h0⟩ := ih.held p ha
    rw [hp] at e0
    cases e0
    obtain ⟨h1, h2⟩ := h0.called ha hS hd ih.net hf hr
    constructor
    · intro x hx
      by_cases e : x = p
      · subst e
        exact ⟨s', World.put_self .., h1⟩
      · obtain ⟨y, hy, hy2⟩ := ih.held x hx
        exact ⟨y, by rw [World.put_other _ _ _ _ _ e]; exact hy, hy2⟩
    · intro q d m hm hq
      rcases List.mem_append.mp hm with hm | hm
      · exact ih.net q d m hm hq
      · obtain ⟨e1, e2⟩ := h2 _ hm
        have : q = p := e1
        subst this
        exact e2

end Svr.Raft
