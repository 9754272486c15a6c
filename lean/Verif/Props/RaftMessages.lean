import Verif.Raft.Settled
import Verif.Raft.Talk
import Verif.Props.RaftGroup
import Verif.Props.RaftNode

/-!
# C33: messages that are not for the replica, and messages that make it stop

`Raft::Receive` (enclave/raft/raft.cc:1257-1318) drops messages for another group, from replicas outside the membership, or
that contradict what the replica holds; a message of an old term is at most answered. "No message makes the replica
abort" is false of the code: a member can acknowledge an index above the leader's log, and two members together can make a
leader commit above its log. What is proved is that these are the only ways, and that none of them comes from replicas
that run this code.
-/

namespace Svr.Props.RaftMessages
open Svr Svr.Raft Svr.Raft.Node Svr.Props.RaftNode
variable {P : Type} [LinearOrder P] {v : Env P}

/-- The replica was created with a membership whose voters are members (empty log, or a log loaded from another replica),
and then called in any way, with any messages. -/
def Serving (v : Env P) (G0 : Bytes × Bytes → Prop) (s : Node P) : Prop :=
  ∃ group me mem log cfg cl sm full s0 tr, Loads v G0 log full ∧ (cl = true ∨ full = []) ∧ mem.Wf ∧ mem.voting ⊆ mem.all ∧
    sm < 2 ^ 63 ∧ new v group me mem log cfg cl sm = .ok s0 ∧ Run v s0 tr s

theorem loaded_hashes {G0 : Bytes × Bytes → Prop} {log : Log} {full : List Entry} (h : Loads v G0 log full) :
    ∀ i e, log.at? i = some e → e.hash.length = 32 := fun _ _ hi => (h.chain _ _ (h.window.at_some hi).2.2.2).len

theorem Serving.hale {G0 : Bytes × Bytes → Prop} {s : Node P} (h : Serving v G0 s) : Hale v s := by
  obtain ⟨group, me, mem, log, cfg, cl, sm, full, s0, tr, h1, h2, h3, h4, h5, h6, h7⟩ := h
  have h0 : Hale v s0 := new_hale (base_shaped h1.window h1.bytes h2) (by
    have := h1.window.lastIdx; have := h1.fits; omega) ⟨h3, h4⟩ h5 (loaded_hashes h1) h6
  clear h6
  induction h7 with
  | nil => exact h0
  | snoc _ hf k ih => exact Op.hale ih hf k

theorem Serving.settled {G0 : Bytes × Bytes → Prop} {s : Node P} (h : Serving v G0 s) (hp : ∀ n, v.path n = true) : Settled s := by
  obtain ⟨group, me, mem, log, cfg, cl, sm, full, s0, tr, h1, h2, h3, h4, h5, h6, h7⟩ := h
  have hs := base_shaped (v := v) (group := group) (me := me) (mem := mem) (cfg := cfg) (sm := sm) h1.window h1.bytes h2
  have hs0 : Settled s0 := new_settled hs ⟨h3, h4⟩ h5 (loaded_hashes h1) hp h6
  induction h7 with
  | nil => exact hs0
  | snoc hr hf k ih =>
    exact Op.settled (Serving.hale ⟨group, me, mem, log, cfg, cl, sm, full, _, _, h1, h2, h3, h4, h5, h6, hr⟩) hf hp ih k

/-! ## What is ignored -/

/-- A message for another group changes nothing at all. -/
theorem C33_other_group_ignored (s : Node P) (m : Msg) (frm : P) (h : m.group ≠ s.group) : s.receive v m frm = .ok s := by
  unfold receive validate
  rw [if_pos h]
  rfl

/-- A message from a replica outside the current membership changes nothing at all. -/
theorem C33_non_member_ignored (s : Node P) (m : Msg) (frm : P) (h : frm ∉ s.membership.all) : s.receive v m frm = .ok s := by
  unfold receive validate
  by_cases hg : m.group ≠ s.group
  · rw [if_pos hg]; rfl
  · rw [if_neg hg, if_pos h]; rfl

/-- A message of an old term, whatever else is in it, leaves the log, the vote, the term, the commit and promise indexes and
the memberships as they were. (The role can change only when a leader that was already giving up leadership hands it over.)
The Merkle tree must not have been tampered with: otherwise a decision that had to be put off can be made up for. -/
theorem C33_stale_term_changes_nothing {G0 : Bytes × Bytes → Prop} {s s' : Node P} (h : Serving v G0 s) (hp : ∀ n, v.path n = true)
    {m : Msg} {frm : P} (ht : m.term < s.term) (k : s.receive v m frm = .ok s') :
    s'.log = s.log ∧ s'.commit = s.commit ∧ s'.promise = s.promise ∧ s'.term = s.term ∧ s'.votedFor = s.votedFor ∧
    s'.mem = s.mem ∧ s'.uncommitted = s.uncommitted ∧ (s'.role = s.role ∨ s.role = .leader ∧ s'.role = .follower) :=
  receive_stale (h.settled hp) ht k

/-! ## What makes a replica stop -/

/-- **C33**, the part that holds whoever sends: nothing in a message leads to undefined behaviour, and the only message that
makes a replica abort is an acknowledgement to a leader, from a member and of the leader's term, of an index above the
leader's log (`CHECK` at enclave/raft/raft.cc:1060). It always does. The sender is not the replica itself, terms and indexes
stay below 2^64, and the configured election timeout is not 0.

Missing: that no message aborts, which is false (`C33_ack_beyond_log_aborts`). -/
theorem C33_no_message_aborts_partial {G0 : Bytes × Bytes → Prop} {s : Node P} (h : Serving v G0 s) {m : Msg} {frm : P}
    (hf : s.log.lastIdx + Msg.entryCount m + 2 < SZ) (ht : s.term + 1 < SZ) (hm : m.term + 1 < SZ) (hme : frm ≠ s.me)
    (he : s.cfg.electionTicks ≠ 0) :
    (∃ s', s.receive v m frm = .ok s') ∨
    (s.receive v m frm = .abort ∧ m.group = s.group ∧ frm ∈ s.membership.all ∧ s.role = .leader ∧ m.term = s.term ∧
      ∃ mt l a hh, m.body = .appResp true mt l a hh ∧ s.log.lastIdx < mt ∧ mt ≤ l ∧ a ≤ l) :=
  receive_outcome ⟨h.hale, he⟩ ⟨hf, ht, hm⟩ hme

/-- Such an acknowledgement always aborts. -/
theorem C33_overclaiming_ack_aborts {G0 : Bytes × Bytes → Prop} {s : Node P} (h : Serving v G0 s) {m : Msg} {frm : P} (hme : frm ≠ s.me)
    (hg : m.group = s.group) (hf : frm ∈ s.membership.all) (hr : s.role = .leader) (ht : m.term = s.term) {mt l a : Nat} {hh : Bytes}
    (hb : m.body = .appResp true mt l a hh) (h1 : s.log.lastIdx < mt) (h2 : mt ≤ l) (h3 : a ≤ l) : s.receive v m frm = .abort :=
  receive_overclaims h.hale hme hg hf hr ht hb h1 h2 h3

/-- In a group whose replicas all run this code, no message that one of them sent makes another abort or behave in an
undefined way, nor does any other call: messages may be lost, delayed, repeated and reordered at will. -/
theorem C33_group_never_aborts {g : Setting P} {W : World P} (h : Reachable g W) (hw : g.m0.Wf) (hv : g.m0.voting ⊆ g.m0.all)
    (hsm : g.sm < 2 ^ 63) (hn : NoCollision g.v W.Hashed) (hser : SerInj g.v) {p : P} {s : Node P} (hp : W.node p = some s)
    (he : s.cfg.electionTicks ≠ 0) {op : Op P} (hd : Op.Delivered W p op) (hf : op.Fits s)
    (hself : ∀ m, op ≠ .receive p m) (hreset : op ≠ .reset p) (rand : Nat → Nat) (path : Nat → Bool) :
    ∃ s' o, op.run (g.env rand path) s = .ok (s', o) := by
  have T := Reachable.talk h ⟨hw, hv⟩ hsm
  have hme := T.me p s hp
  have hs : op.Safe s := by
    cases op with
    | receive frm m =>
      refine ⟨fun e => hself m ?_, T.honest hp hd⟩
      rw [e, hme]
    | reset id =>
      show id ≠ s.me
      intro e
      exact hreset (by rw [e, hme])
    | takeCommitted =>
      obtain ⟨_, a, b⟩ := RaftGroup.C30_indexes_in_order h hn hser hp
      exact a.trans b
    | _ => trivial
  obtain ⟨⟨s', o⟩, hr⟩ := Op.total (v := g.env rand path) ⟨(T.hale p s hp).env rfl, he⟩ hf hs
  exact ⟨s', o, hr⟩

/-- Why `C33_group_never_aborts` excludes it: a notice that the peer with the replica's own id has connected anew
(enclave/core/core.cc:1174) aborts exactly when the replica is a candidate that is in the group (`CHECK` at enclave/raft/raft.cc:1119). -/
theorem C33_reset_of_own_id (s : Node P) : s.resetPeer s.me = .abort ↔ s.me ∈ s.membership.all ∧ s.role = .candidate := by
  unfold resetPeer
  by_cases h : s.me ∈ s.membership.all
  · rw [if_neg (not_not.mpr h)]
    cases hr : s.role with
    | follower => simp
    | candidate => simp [requestVoteMessage, hr, Out.check, addSendable, h]
    | leader => cases hf : s.followers.find s.me <;> simp
  · rw [if_pos h]; simp [h]

/-! ## Witnesses -/

theorem serving {mem : Membership Nat} {cfg : RaftCfg} {ops : List (Op Nat)} {f : Node Nat → List (Op Nat × Obs Nat) → Bool}
    (hm : mem.Wf) (hv : mem.voting ⊆ mem.all) (h : good mem cfg ops = true) (hf : holds mem cfg ops f = true) :
    ∃ s tr, Serving toy (fun _ => False) s ∧ f s tr = true := by
  unfold good at h
  unfold holds after at hf
  split at h
  · rename_i s0 h0
    rw [h0] at hf
    simp only [Bool.and_eq_true] at h
    cases hr : runOps toy ops s0 with
    | ok r =>
      obtain ⟨s, tr⟩ := r
      simp only [Out.bind_ok, hr] at hf
      exact ⟨s, tr, ⟨5, 1, mem, Log.new 10000, cfg, false, 0, [], s0, tr,
        ⟨⟨by simp [Log.new], by simp [Log.new], rfl, fun _ => rfl⟩, Chain.nil, le_rfl, by decide⟩, .inr rfl, hm, hv, by decide, h0,
        runOps_run h.1 hr⟩, hf⟩
    | abort => rw [hr] at h; exact absurd h.2 (by decide)
    | ub => rw [hr] at h; exact absurd h.2 (by decide)
  · cases h

theorem three_wf : three.Wf := ⟨by simp [three, SSorted], by simp [three, SSorted]⟩

set_option maxRecDepth 100000 in
/-- A replica of three whose election timer ran out is in that state. -/
example : ∃ s : Node Nat, Serving toy (fun _ => False) s ∧ s.resetPeer s.me = .abort := by
  obtain ⟨s, tr, h1, h2⟩ := serving (mem := three) (cfg := RaftNode.fast) (ops := [.tick])
    (f := fun s _ => decide (s.role = .candidate) && decide (s.me ∈ s.membership.all)) three_wf (fun _ h => h) (by decide) (by decide)
  simp only [Bool.and_eq_true, decide_eq_true_eq] at h2
  exact ⟨s, h1, (C33_reset_of_own_id s).mpr ⟨h2.2, h2.1⟩⟩

/-- Replica 1 is elected by replica 2. -/
def electedOps : List (Op Nat) := [.tick, .receive 2 ⟨5, 1, .voteResp true⟩]

set_option maxRecDepth 100000 in
/-- A member of the group makes its leader abort by acknowledging an index the leader does not have: C33 as stated is false. -/
theorem C33_ack_beyond_log_aborts : ∃ s : Node Nat, Serving toy (fun _ => False) s ∧ s.role = .leader ∧
    ∃ m : Msg, Op.Fits s (.receive 2 m) ∧ 2 ∈ s.membership.all ∧ 2 ≠ s.me ∧ s.receive toy m 2 = .abort := by
  obtain ⟨s, tr, h1, h2⟩ := serving (mem := three) (cfg := RaftNode.fast) (ops := electedOps)
    (f := fun s _ => decide (s.role = .leader) && decide (s.group = 5) && decide (2 ∈ s.membership.all) && decide (s.term = 1) &&
      decide (s.log.lastIdx = 1) && decide (s.me = 1)) three_wf (fun _ h => h) (by decide) (by decide)
  simp only [Bool.and_eq_true, decide_eq_true_eq] at h2
  obtain ⟨⟨⟨⟨⟨a, b⟩, c⟩, d⟩, e⟩, f⟩ := h2
  refine ⟨s, h1, a, ⟨5, 1, .appResp true 9 9 0 []⟩, ?_, c, by omega, ?_⟩
  · refine ⟨?_, ?_, ?_, ?_⟩
    · rw [e]; decide
    · rw [d]; decide
    · decide
    · simp [Typed, SZ]
  · exact C33_overclaiming_ack_aborts h1 (by omega) b.symm c a d.symm rfl (by omega) (le_refl 9) (by omega)

set_option maxRecDepth 100000 in
/-- Two members that report a promise above the leader's log make it commit what nobody has, and the leader aborts when it
takes the committed entries (`CHECK` in `TakeCommittedLog`, enclave/raft/raft.cc:83-93). -/
theorem C33_two_lying_acks_abort : ∃ s : Node Nat, Serving toy (fun _ => False) s ∧
    ∃ s1, s.takeCommittedLog = .ok s1 ∧ s1.1.takeCommittedLog = .abort := by
  obtain ⟨s, tr, h1, h2⟩ := serving (mem := three) (cfg := RaftNode.fast) (ops := lieOps)
    (f := fun s _ => match s.takeCommittedLog with
      | .ok s1 => match s1.1.takeCommittedLog with
        | .abort => true
        | _ => false
      | _ => false) three_wf (fun _ h => h) (by decide) (by decide)
  refine ⟨s, h1, ?_⟩
  split at h2
  · rename_i s1 e1
    refine ⟨s1, e1, ?_⟩
    split at h2
    · assumption
    · cases h2
  · cases h2

set_option maxRecDepth 100000 in
/-- A message that claims to come from the replica itself makes it abort: the answer would go to itself
(`CHECK` in `AddSendableMessage`, enclave/raft/raft.cc:1116-1127). Nothing in `Receive` refuses it. -/
theorem C33_own_id_aborts : ∃ s : Node Nat, Serving toy (fun _ => False) s ∧
    ∃ m : Msg, Op.Fits s (.receive s.me m) ∧ s.receive toy m s.me = .abort := by
  obtain ⟨s, tr, h1, h2⟩ := serving (mem := three) (cfg := RaftNode.fast) (ops := electedOps)
    (f := fun s _ => decide (s.log.lastIdx = 1 ∧ s.term = 1) && (match s.receive toy ⟨5, 1, .voteReq 0 0 []⟩ s.me with
      | .abort => true
      | _ => false)) three_wf (fun _ h => h) (by decide) (by decide)
  simp only [Bool.and_eq_true, decide_eq_true_eq] at h2
  obtain ⟨⟨a, b⟩, c⟩ := h2
  refine ⟨s, h1, ⟨5, 1, .voteReq 0 0 []⟩, ⟨by rw [a]; decide, by rw [b]; decide, by decide, by simp [Typed, SZ]⟩, ?_⟩
  split at c
  · assumption
  · cases c

set_option maxRecDepth 100000 in
/-- The hypotheses of the theorems above are met by a leader with an entry in its log, for a message for another group, from
a stranger, and of an old term; the last is even answered. -/
example : ∃ s : Node Nat, Serving toy (fun _ => False) s ∧ (∀ n, toy.path n = true) ∧ s.role = .leader ∧ s.log.lastIdx = 1 ∧
    (∃ m : Msg, m.group ≠ s.group) ∧ (9 : Nat) ∉ s.membership.all ∧
    ∃ (m : Msg) (s' : Node Nat), m.term < s.term ∧ s.receive toy m 2 = .ok s' ∧ s'.sendable ≠ s.sendable := by
  obtain ⟨s, tr, h1, h2⟩ := serving (mem := three) (cfg := RaftNode.fast) (ops := electedOps)
    (f := fun s _ => decide (s.role = .leader ∧ s.log.lastIdx = 1 ∧ s.group = 5 ∧ 9 ∉ s.membership.all ∧ 0 < s.term) &&
      (match s.receive toy ⟨5, 0, .voteReq 0 0 []⟩ 2 with
        | .ok s' => decide (s'.sendable.length ≠ s.sendable.length)
        | _ => false)) three_wf (fun _ h => h) (by decide) (by decide)
  simp only [Bool.and_eq_true, decide_eq_true_eq] at h2
  obtain ⟨⟨a, b, c, d, e⟩, f⟩ := h2
  refine ⟨s, h1, fun _ => rfl, a, b, ⟨⟨6, 0, .timeoutNow⟩, by rw [c]; decide⟩, d, ⟨5, 0, .voteReq 0 0 []⟩, ?_⟩
  split at f
  · rename_i s' hs'
    exact ⟨s', e, hs', fun h => absurd (congrArg List.length h) (of_decide_eq_true f)⟩
  · cases f

set_option maxRecDepth 100000 in
/-- The hypotheses of `C33_group_never_aborts` are met: a leader of three, with a message on its way to it. -/
example : ∃ (W : World Nat) (s : Node Nat), Reachable RaftGroup.trio W ∧ RaftGroup.trio.m0.Wf ∧ NoCollision RaftGroup.trio.v W.Hashed ∧
    SerInj RaftGroup.trio.v ∧ W.node 1 = some s ∧ s.role = .leader ∧ s.cfg.electionTicks ≠ 0 ∧ Op.Fits s .takeCommitted ∧
    ∃ m, Op.Delivered W 1 (.receive 2 m) := by
  obtain ⟨T, h1, h2, h3⟩ := RaftGroup.outcome_spec (g := RaftGroup.trio) (as := RaftGroup.trioActs) (f := fun T =>
      (match Play.look 1 T.rows with
        | some (s, _) => decide (s.role = .leader ∧ s.cfg.electionTicks ≠ 0 ∧ s.log.lastIdx < 100 ∧ s.term < 100)
        | none => false) && (match T.net.find? (fun x => decide (x.1 = 2 ∧ x.2.1 = some 1)) with
        | some _ => true
        | none => false)) rfl (by decide +kernel)
  simp only [Bool.and_eq_true] at h3
  obtain ⟨h4, h5⟩ := h3
  split at h4
  · rename_i s A hl
    split at h5
    · rename_i x hx
      obtain ⟨a, b, c, d⟩ := of_decide_eq_true h4
      have hx1 : x.1 = 2 ∧ x.2.1 = some 1 := by simpa using List.find?_some hx
      have hx2 := List.mem_of_find?_eq_some hx
      refine ⟨T.world, s, h1, ⟨by simp [RaftGroup.trio, SSorted], by simp [RaftGroup.trio, SSorted]⟩, h2, RaftGroup.serInj_steady, ?_, a, b,
        ⟨?_, ?_⟩, x.2.2, some 1, ?_, .inr rfl⟩
      · show (Play.look 1 T.rows).map _ = some s
        rw [hl]; rfl
      · simp only [SZ]; omega
      · simp only [SZ]; omega
      · obtain ⟨p, q, m⟩ := x
        obtain ⟨rfl, rfl⟩ := hx1
        exact hx2
    · cases h5
  · cases h4

end Svr.Props.RaftMessages
