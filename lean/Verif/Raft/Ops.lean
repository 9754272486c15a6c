import Verif.Raft.Local

/-!
# What the rest of the enclave does with a replica
-/

namespace Svr.Raft.Node
variable {P : Type} [LinearOrder P] {v : Env P}

/-- The calls core.cc makes on a `Raft` object. -/
inductive Op (P : Type)
  | receive (frm : P) (m : Msg)
  | tick
  | reset (id : P)
  | reconfigure (c : RaftCfg)
  | relinquish
  | request (i : Inner)
  | takeCommitted
  | takeSendable

/-- What such a call returns. -/
inductive Obs (P : Type)
  | nothing
  | answer (r : Except RErr Loc)
  | committed (r : Option (Nat × Entry))
  | sent (l : List (Option P × Msg))

/-- One call. -/
def Op.run (v : Env P) (s : Node P) : Op P → Out (Node P × Obs P)
  | .receive frm m => do
    let s ← s.receive v m frm
    .ok (s, .nothing)
  | .tick => do
    let s ← s.timerTick v
    .ok (s, .nothing)
  | .reset id => do
    let s ← s.resetPeer id
    .ok (s, .nothing)
  | .reconfigure c => .ok (s.reconfigure c, .nothing)
  | .relinquish => do
    let s ← s.relinquishLeadership v
    .ok (s, .nothing)
  | .request i => do
    let (s, r) ← s.logRequest v i
    .ok (s, .answer r)
  | .takeCommitted => do
    let (s, r) ← s.takeCommittedLog
    .ok (s, .committed r)
  | .takeSendable => .ok (s.takeSendable.1, .sent s.takeSendable.2)

/-- The numbers involved stay below 2^64, and those in messages are `uint64`. -/
def Op.Fits (s : Node P) : Op P → Prop
  | .receive _ m => s.log.lastIdx + Msg.entryCount m + 3 < SZ ∧ s.term + 1 < SZ ∧ m.term + 1 < SZ ∧ Typed m
  | _ => s.log.lastIdx + 3 < SZ ∧ s.term + 1 < SZ

/-- The message or entry a call handles. -/
def Op.input : Op P → Inp P
  | .receive frm m => .msg frm m
  | .request i => .req i
  | .reconfigure c => .config c
  | _ => .none

theorem Op.fits_typed {s : Node P} {op : Op P} (h : op.Fits s) : ∀ p m, op.input = .msg p m → Typed m := by
  intro p m hi
  cases op <;> simp only [Op.input] at hi
  · cases hi; exact h.2.2.2
  all_goals cases hi

/-- A call is a sequence of atoms, or takes something out. -/
theorem Op.course {s s' : Node P} {op : Op P} {o : Obs P} (hs : s.Shaped v) (hf : op.Fits s) (h : op.run v s = .ok (s', o)) :
    (Course v op.input s s' ∧ (∀ r, o ≠ .committed (some r)) ∧ ∀ l, o ≠ .sent l) ∨
    (∃ i e, op = .takeCommitted ∧ o = .committed (some (i, e)) ∧ i = s.lastApplied + 1 ∧ i ≤ s.commit ∧ s.log.at? i = some e ∧
      s' = { s with lastApplied := i }) ∨
    (op = .takeSendable ∧ o = .sent s.sendable ∧ s' = { s with sendable := [] }) := by
  cases op with
  | receive frm m =>
    obtain ⟨s1, h1, h⟩ := Out.bind_eq_ok.mp h
    cases h
    obtain ⟨f1, f2, f3, _⟩ := hf
    exact .inl ⟨receive_course hs ⟨by omega, f2, f3⟩ h1, by simp, by simp⟩
  | tick =>
    obtain ⟨s1, h1, h⟩ := Out.bind_eq_ok.mp h
    cases h
    obtain ⟨f1, f2⟩ := hf
    exact .inl ⟨timerTick_course hs (by omega) (by omega) h1, by simp, by simp⟩
  | reset id =>
    obtain ⟨s1, h1, h⟩ := Out.bind_eq_ok.mp h
    cases h
    exact .inl ⟨resetPeer_course h1, by simp, by simp⟩
  | reconfigure c =>
    cases h
    exact .inl ⟨reconfigure_course s c, by simp, by simp⟩
  | relinquish =>
    obtain ⟨s1, h1, h⟩ := Out.bind_eq_ok.mp h
    cases h
    obtain ⟨f1, f2⟩ := hf
    exact .inl ⟨relinquishLeadership_course hs f1 h1, by simp, by simp⟩
  | request i =>
    obtain ⟨⟨s1, r⟩, h1, h⟩ := Out.bind_eq_ok.mp h
    cases h
    obtain ⟨f1, f2⟩ := hf
    exact .inl ⟨logRequest_course hs f1 h1, by simp, by simp⟩
  | takeCommitted =>
    obtain ⟨⟨s1, r⟩, h1, h⟩ := Out.bind_eq_ok.mp h
    cases h
    unfold takeCommittedLog at h1
    split at h1
    · cases h1
      exact .inl ⟨Course.refl _, by simp, by simp⟩
    · rename_i hc
      simp only at h1
      cases ha : s.log.at? (s.lastApplied + 1) with
      | none => rw [ha] at h1; cases h1
      | some e =>
        rw [ha] at h1
        cases h1
        exact .inr (.inl ⟨_, e, rfl, rfl, rfl, by omega, ha, rfl⟩)
  | takeSendable =>
    cases h
    exact .inr (.inr ⟨rfl, rfl, rfl⟩)

theorem Op.steps {s s' : Node P} {op : Op P} {o : Obs P} (hs : s.Shaped v) (hf : op.Fits s) (h : op.run v s = .ok (s', o)) :
    (Steps v op.input s s' ∧ (∀ r, o ≠ .committed (some r)) ∧ ∀ l, o ≠ .sent l) ∨
    (∃ i e, op = .takeCommitted ∧ o = .committed (some (i, e)) ∧ i = s.lastApplied + 1 ∧ i ≤ s.commit ∧ s.log.at? i = some e ∧
      s' = { s with lastApplied := i }) ∨
    (op = .takeSendable ∧ o = .sent s.sendable ∧ s' = { s with sendable := [] }) :=
  (op.course hs hf h).imp (fun h => ⟨h.1.steps, h.2⟩) id

/-- The state the constructor starts from. -/
def base (group : Nat) (me : P) (mem : Membership P) (log : Log) (cfg : RaftCfg) (committedLog : Bool)
    (superMajority : Nat) : Node P :=
  { group, me, mem, uncommitted := [], cfg, lastApplied := if committedLog then log.lastIdx else 0, term := 0,
    votedFor := none, role := .follower, fLeader := none, fElection := 0, votes := [], cElection := 0,
    followers := OMap.empty, heartbeat := 0, relinquishing := false, log, commitLeaf := zeros 8,
    commit := if committedLog then log.lastIdx else 0, promiseLeaf := zeros 8,
    promise := if committedLog then log.lastIdx else 0, sendable := [], superMajority, rng := 0, walks := 0, hashed := [],
    cast := [], led := [], cfgs := [] }

/-- The constructor records the indexes it starts with; the rest is a course. -/
theorem new_course {group : Nat} {me : P} {mem : Membership P} {log : Log} {cfg : RaftCfg} {cl : Bool} {sm : Nat} {s : Node P}
    (hs : (base group me mem log cfg cl sm).Shaped v) (hb : log.lastIdx + 2 < SZ)
    (h : new v group me mem log cfg cl sm = .ok s) :
    ∃ s2 fe rng c p, s2 = { base group me mem log cfg cl sm with fElection := fe, rng := rng, commitLeaf := c, promiseLeaf := p } ∧
      s2.Agrees ∧ Course v .none s2 s := by
  obtain ⟨⟨t, s1⟩, h1, h⟩ := Out.bind_eq_ok.mp h
  obtain ⟨s2, h2, h⟩ := Out.bind_eq_ok.mp h
  have e1 := randomElection_eq h1
  have ha := updateMerkle_agrees h2
  obtain ⟨c, p, _, _, e2⟩ := updateMerkle_eq h2
  have e3 : s2 = { base group me mem log cfg cl sm with fElection := t, rng := s1.rng, commitLeaf := c, promiseLeaf := p } := by
    rw [e2, e1]; rfl
  refine ⟨s2, t, s1.rng, c, p, e3, ha, ?_⟩
  have hs2 : s2.Shaped v := by rw [e3]; exact hs
  have l2 : s2.log = log ∧ s2.term = 0 := by rw [e3]; exact ⟨rfl, rfl⟩
  split at h
  · obtain ⟨s3, h3, h⟩ := Out.bind_eq_ok.mp h
    obtain ⟨s4, h4, h⟩ := Out.bind_eq_ok.mp h
    obtain ⟨_, _, h⟩ := Out.bind_eq_ok.mp h
    cases h
    obtain ⟨a, b⟩ := electionTimeout_course (inp := .none) (by rw [l2.2]; decide) h3
    exact a.trans (maybeChangeState_course (a.shaped hs2) (by rw [b, l2.1]; exact hb) h4)
  · cases h
    exact .refl _

theorem new_steps {group : Nat} {me : P} {mem : Membership P} {log : Log} {cfg : RaftCfg} {cl : Bool} {sm : Nat} {s : Node P}
    (hs : (base group me mem log cfg cl sm).Shaped v) (hb : log.lastIdx + 2 < SZ)
    (h : new v group me mem log cfg cl sm = .ok s) : Steps v .none (base group me mem log cfg cl sm) s := by
  obtain ⟨s2, fe, rng, c, p, e, _, k⟩ := new_course hs hb h
  subst e
  exact (Atom.steps (Atom.misc _ _ _ _ _ _ _ _ _ _ _ (.inl rfl) (.inl rfl))).trans k.steps

/-- Any calls, with any results, as long as no call aborts or is undefined. -/
inductive Run (v : Env P) : Node P → List (Op P × Obs P) → Node P → Prop
  | nil (s : Node P) : Run v s [] s
  | snoc {s s1 s2 : Node P} {tr : List (Op P × Obs P)} {op : Op P} {o : Obs P} (h : Run v s tr s1) (hf : op.Fits s1)
    (k : op.run v s1 = .ok (s2, o)) : Run v s (tr ++ [(op, o)]) s2

end Svr.Raft.Node
