import Verif.Raft.Hand
import Verif.Props.RaftNode

/-!
# C103: to whom a leader hands over

The specification looks at the calls made on a replica and at the messages it leaves to be sent.
-/

namespace Svr.Props.Hand
open Svr Svr.Raft Svr.Raft.Node Svr.Props.RaftNode
variable {P : Type} [LinearOrder P] {v : Env P}

/-- Among the calls is the delivery of a message in which `p` says, in term `t`, that its log has an entry with hash `h` at
index `i`. -/
def Confirmed (ops : List (Op P)) (p : P) (t i : Nat) (h : Bytes) : Prop :=
  ∃ g l a, Op.receive p ⟨g, t, .appResp true i l a h⟩ ∈ ops

/-! ### Runs -/

theorem input_confirms {op : Op P} {frm : P} {g t mt l a : Nat} {hh : Bytes} (hi : op.input = .msg frm ⟨g, t, .appResp true mt l a hh⟩)
    {ops : List (Op P)} (hm : op ∈ ops) : Confirmed ops frm t mt hh := by
  refine ⟨g, l, a, ?_⟩
  cases op with
  | receive f m => simp only [Op.input, Inp.msg.injEq] at hi; obtain ⟨rfl, rfl⟩ := hi; exact hm
  | _ => simp [Op.input] at hi

/-- What the leader's table says was there before or was heard. -/
theorem run_rows {A : P → Nat → Nat → Bytes → Prop} {s0 s : Node P} {tr : List (Op P × Obs P)} {G0 : Bytes × Bytes → Prop} {full : List Entry}
    (hs : Solo v G0 s0 full) (R : Rows A s0) (k : Run v s0 tr s) :
    Rows (fun p t i h => A p t i h ∨ Confirmed (tr.map (·.1)) p t i h) s := by
  induction k with
  | nil => exact R.weaken fun _ _ _ _ h => .inl h
  | @snoc s1 s2 tr op o k hf run ih =>
    obtain ⟨f1, a1, _⟩ := k.solo hs
    have R1 : Rows (fun p t i h => A p t i h ∨ Confirmed ((tr ++ [(op, o)]).map (·.1)) p t i h) s1 :=
      ih.weaken fun p t i h x => x.imp id fun ⟨g, l, a, y⟩ =>
        ⟨g, l, a, by simp only [List.map_append, List.mem_append]; exact .inl y⟩
    rcases Op.steps a1.shaped hf run with ⟨st, _⟩ | ⟨i, e, _, _, _, _, _, rfl⟩ | ⟨_, _, rfl⟩
    · exact st.rows a1.shaped R1 fun _ _ _ _ _ _ _ hi => .inr (input_confirms hi (by simp))
    · exact R1
    · exact R1

/-- A leader looks for a successor only if it was asked to. -/
theorem run_asked {s0 s : Node P} {tr : List (Op P × Obs P)} {G0 : Bytes × Bytes → Prop} {full : List Entry}
    (hs : Solo v G0 s0 full) (hr : s0.relinquishing = false) (k : Run v s0 tr s) :
    s.relinquishing = true → Op.relinquish ∈ tr.map (·.1) := by
  induction k with
  | nil => exact fun h => by rw [hr] at h; cases h
  | @snoc s1 s2 tr op o k hf run ih =>
    obtain ⟨f1, a1, _⟩ := k.solo hs
    intro hrel
    simp only [List.map_append, List.mem_append, List.map_cons, List.map_nil, List.mem_singleton]
    by_cases ho : ∃ l, o = .sent l
    · obtain ⟨l, rfl⟩ := ho
      rcases Op.steps a1.shaped hf run with ⟨_, _, h⟩ | ⟨_, _, _, h, _⟩ | ⟨_, _, rfl⟩
      · exact absurd rfl (h l)
      · cases h
      · exact .inl (ih hrel)
    · obtain ⟨s3, _, b2, _, b4⟩ := Op.hand a1.shaped hf run (fun l e => ho ⟨l, e⟩)
      rcases b4 with rfl | ⟨p, hp⟩
      · rcases b2 hrel with h | h
        · exact .inl (ih h)
        · exact .inr h.symm
      · rw [hp.2.2.2.2.2.2.2.1] at hrel
        cases hrel

/-- One call that asks someone to take over. -/
theorem handed {A : P → Nat → Nat → Bytes → Prop} {s s' : Node P} (hs : s.Shaped v) (R : Rows A s) {op : Op P} {o : Obs P}
    (hA : ∀ frm g t mt l a hh, op.input = .msg frm ⟨g, t, .appResp true mt l a hh⟩ → A frm t mt hh) (hf : op.Fits s)
    (run : op.run v s = .ok (s', o)) {l : List (Option P × Msg)} (hl : s'.sendable = s.sendable ++ l) {dst : Option P} {m : Msg}
    (hm : (dst, m) ∈ l) (hb : m.body = .timeoutNow) :
    l.getLast? = some (dst, m) ∧ (s.relinquishing = true ∨ op = .relinquish) ∧ s'.role = .follower ∧ m.term = s'.term ∧
    ∃ p, dst = some p ∧ p ∈ s'.membership.voting ∧ p ≠ s'.me ∧
      (s'.log.lastIdx = 0 ∨ ∃ hash, A p s'.term s'.log.lastIdx hash ∧ ∀ e, s'.log.at? s'.log.lastIdx = some e → e.hash = hash) := by
  have hin : (dst, m) ∈ nows l := by
    unfold nows
    exact List.mem_filter.mpr ⟨hm, by simp [hb, isNow]⟩
  have hno : ∀ x, o ≠ .sent x := by
    intro x hx
    subst hx
    rcases Op.steps hs hf run with ⟨_, _, h⟩ | ⟨_, _, _, h, _⟩ | ⟨_, _, rfl⟩
    · exact h x rfl
    · cases h
    · simp only [List.nil_eq, List.append_eq_nil_iff] at hl
      rw [hl.2] at hm
      cases hm
  obtain ⟨s1, b1, b2, ⟨n, b3⟩, b4⟩ := Op.hand hs hf run hno
  have hsplit : nows s'.sendable = nows s.sendable ++ nows l := by rw [hl]; exact List.filter_append ..
  rcases b4 with rfl | ⟨p, q1, q2, q3, q4, ⟨r, q5, q6⟩, q7, q8, _, q9, q10, q11, q12, q13⟩
  · rw [b1] at hsplit
    have : nows l = [] := by simpa using hsplit
    rw [this] at hin
    cases hin
  have e1 : nows l = [(some p, ⟨s1.group, s1.term, .timeoutNow⟩)] := by
    rw [q7] at hsplit
    have : nows (s1.sendable ++ [(some p, (⟨s1.group, s1.term, .timeoutNow⟩ : Msg))]) =
        nows s1.sendable ++ [(some p, ⟨s1.group, s1.term, .timeoutNow⟩)] := by simp [nows, isNow]
    rw [this, b1] at hsplit
    exact (List.append_cancel_left hsplit).symm
  rw [e1, List.mem_singleton] at hin
  have e2 : dst = some p ∧ m = ⟨s1.group, s1.term, .timeoutNow⟩ := by
    simpa [Prod.ext_iff] using hin
  have hlast : l.getLast? = some (dst, m) := by
    have hne : l ≠ [] := by intro h; rw [h] at hm; cases hm
    have : (s.sendable ++ l).getLast? = (s1.sendable ++ [(some p, (⟨s1.group, s1.term, .timeoutNow⟩ : Msg))]).getLast? := by
      rw [← hl, q7]
    rw [List.getLast?_append_of_ne_nil _ hne] at this
    rw [this, hin]
    simp
  refine ⟨hlast, b2 q2, q8, by rw [e2.2, q9], p, e2.1, by rw [q12]; exact q3, by rw [q13]; exact q4, ?_⟩
  rw [q11, q9, ← q6]
  rcases b3.rows hs R hA q1 p r q5 with h0 | ⟨_, hh, x1, x2⟩
  · exact .inl h0
  · exact .inr ⟨hh, x1, x2⟩

/-- A replica that was just created has heard from nobody, and is not looking for a successor. -/
theorem created_rows {G0 : Bytes × Bytes → Prop} {s0 : Node P} {full : List Entry} (h : Created v G0 full s0) :
    (∃ f, Solo v G0 s0 f) ∧ (∀ A, Rows A s0) ∧ s0.relinquishing = false := by
  obtain ⟨g, me, mem, log, cfg, cl, sm, h1, h2, h3⟩ := h
  obtain ⟨f1, h5, _⟩ := new_solo h1 h2 h3
  have hb := base_solo (group := g) (me := me) (mem := mem) (cfg := cfg) (sm := sm) h1 h2
  have st := new_steps hb.shaped (by rw [h1.window.lastIdx]; exact h1.fits) h3
  refine ⟨⟨f1, h5⟩, fun A => st.rows hb.shaped (.vacuous (by simp [base])) (by simp), ?_⟩
  obtain ⟨⟨t, s1⟩, k1, k⟩ := Out.bind_eq_ok.mp h3
  obtain ⟨s2, k2, k⟩ := Out.bind_eq_ok.mp k
  have p1 := Plain.random k1
  have p2 := Plain.updateMerkle k2
  have no : s2.relinquishing = true → False := fun x => by
    have := p1.rel (p2.rel x)
    cases this
  have hsh : s2.Shaped v := by
    obtain ⟨c, p, _, _, rfl⟩ := updateMerkle_eq k2
    rw [randomElection_eq k1]
    exact hb.shaped
  have hl : s2.log = log ∧ s2.term = 0 := by
    obtain ⟨c, p, _, _, rfl⟩ := updateMerkle_eq k2
    rw [randomElection_eq k1]
    exact ⟨rfl, rfl⟩
  cases hx : s0.relinquishing with
  | false => rfl
  | true =>
    exfalso
    split at k
    · obtain ⟨s3, k3, k⟩ := Out.bind_eq_ok.mp k
      obtain ⟨s4, k4, k⟩ := Out.bind_eq_ok.mp k
      obtain ⟨_, _, k⟩ := Out.bind_eq_ok.mp k
      cases k
      obtain ⟨a, b⟩ := electionTimeout_course (inp := .none) (by rw [hl.2]; decide) k3
      obtain ⟨s5, d1, _, d3⟩ := maybeChangeState_hand (inp := .none) (a.shaped hsh)
        (by rw [b, hl.1, h1.window.lastIdx]; exact h1.fits) k4
      rcases d3 with rfl | ⟨p, hp⟩
      · exact no ((Plain.election k3).rel (d1.rel hx))
      · rw [hp.2.2.2.2.2.2.2.1] at hx; cases hx
    · cases k; exact no hx

/-! ### C103 -/

/-- Whatever is done to a replica: if a call leaves a message telling someone to start an election at once, then it is the
last message the call leaves; the replica had been asked to give up leadership and now is a follower in the same term; the
message goes to another voter; and that voter has confirmed, in this term, the last entry of the replica's log (or the
log is empty). -/
theorem C103_successor_has_all {G0 : Bytes × Bytes → Prop} {s0 s s' : Node P} {full : List Entry} {tr : List (Op P × Obs P)}
    (h : Created v G0 full s0) (k : Run v s0 tr s) {op : Op P} {o : Obs P} (hf : op.Fits s) (run : op.run v s = .ok (s', o))
    {l : List (Option P × Msg)} (hl : s'.sendable = s.sendable ++ l) {dst : Option P} {m : Msg} (hm : (dst, m) ∈ l)
    (hb : m.body = .timeoutNow) :
    l.getLast? = some (dst, m) ∧ Op.relinquish ∈ tr.map (·.1) ++ [op] ∧ s'.role = .follower ∧ m.term = s'.term ∧
    ∃ p, dst = some p ∧ p ∈ s'.membership.voting ∧ p ≠ s'.me ∧
      (s'.log.lastIdx = 0 ∨ ∃ hash, Confirmed (tr.map (·.1) ++ [op]) p s'.term s'.log.lastIdx hash ∧
        ∀ e, s'.log.at? s'.log.lastIdx = some e → e.hash = hash) := by
  obtain ⟨⟨f0, c1⟩, c2, c3⟩ := created_rows h
  obtain ⟨f1, a1, _⟩ := k.solo c1
  have R : Rows (Confirmed (tr.map (·.1) ++ [op])) s := (run_rows c1 (c2 fun _ _ _ _ => False) k).weaken
    fun p t i hh x => x.elim False.elim fun ⟨g, l, a, y⟩ => ⟨g, l, a, List.mem_append_left _ y⟩
  obtain ⟨b1, b2, b3⟩ := handed a1.shaped R (fun _ _ _ _ _ _ _ hi => input_confirms hi (by simp)) hf run hl hm hb
  refine ⟨b1, ?_, b3⟩
  rcases b2 with h | rfl
  · exact List.mem_append_left _ (run_asked c1 c3 k h)
  · simp

/-- If the leader could append an entry when it was asked to give up leadership, then it hands over its log with that entry
only to a voter that confirmed the last entry after that: one that was still there. The calls `tr2` and `op` come after the
request. -/
theorem C103_successor_is_alive_partial {G0 : Bytes × Bytes → Prop} {s0 s s1 s2 s' : Node P} {full : List Entry}
    {tr tr2 : List (Op P × Obs P)} (h : Created v G0 full s0) (k : Run v s0 tr s) {o1 o : Obs P} (hf1 : (Op.relinquish : Op P).Fits s)
    (asked : Op.relinquish.run v s = .ok (s1, o1)) (k2 : Run v s1 tr2 s2) {op : Op P} (hf : op.Fits s2)
    (run : op.run v s2 = .ok (s', o)) {l : List (Option P × Msg)} (hl : s'.sendable = s2.sendable ++ l) {dst : Option P} {m : Msg}
    (hm : (dst, m) ∈ l) (hb : m.body = .timeoutNow) (grown : s.log.lastIdx < s'.log.lastIdx) :
    ∃ p hash, dst = some p ∧ Confirmed (tr2.map (·.1) ++ [op]) p s'.term s'.log.lastIdx hash ∧
      ∀ e, s'.log.at? s'.log.lastIdx = some e → e.hash = hash := by
  obtain ⟨⟨f0, c1⟩, c2, _⟩ := created_rows h
  obtain ⟨f1, a1, _⟩ := k.solo c1
  obtain ⟨f2, a2, _⟩ := Op.solo a1 hf1 asked
  obtain ⟨f3, a3, _⟩ := k2.solo a2
  have R0 : Rows (fun _ _ i _ => i ≤ s.log.lastIdx) s := by
    intro hr p r hp
    rcases run_rows c1 (c2 fun _ _ _ _ => False) k hr p r hp with h0 | ⟨b1, hh, _, b3⟩
    · exact .inl h0
    · exact .inr ⟨b1, hh, b1, b3⟩
  have R1 : Rows (fun _ _ i _ => i ≤ s.log.lastIdx) s1 := by
    rcases Op.steps a1.shaped hf1 asked with ⟨st, _⟩ | ⟨i, e, _, _, _, _, _, rfl⟩ | ⟨_, _, rfl⟩
    · exact st.rows a1.shaped R0 (by simp [Op.input])
    · exact R0
    · exact R0
  have R2 := (run_rows a2 R1 k2).weaken (B := fun p t i hh => i ≤ s.log.lastIdx ∨ Confirmed (tr2.map (·.1) ++ [op]) p t i hh)
    fun p t i hh x => x.imp id fun ⟨g, l, a, y⟩ => ⟨g, l, a, List.mem_append_left _ y⟩
  obtain ⟨_, _, _, _, p, b1, _, _, b2⟩ :=
    handed a3.shaped R2 (fun _ _ _ _ _ _ _ hi => .inr (input_confirms hi (by simp))) hf run hl hm hb
  rcases b2 with h0 | ⟨hash, x | x, y⟩
  · omega
  · omega
  · exact ⟨p, hash, b1, x, y⟩

/-- A leader that was asked to give up leadership takes no more requests. -/
theorem C103_takes_no_requests {s s' : Node P} {i : Inner} {r : Except RErr Loc} (hl : s.role = .leader)
    (hr : s.relinquishing = true) (h : s.logRequest v i = .ok (s', r)) : r = .error .notLeader ∧ s'.log = s.log := by
  unfold logRequest at h
  cases hc : s.logRequestCheck v i with
  | some e =>
    rw [hc] at h
    cases h
    refine ⟨?_, rfl⟩
    unfold logRequestCheck at hc
    split at hc
    · rw [if_pos (.inr hr)] at hc
      cases hc
      rfl
    · cases hc
  | none =>
    rw [hc] at h
    obtain ⟨⟨s1, r1⟩, h1, h⟩ := Out.bind_eq_ok.mp h
    obtain ⟨s2, h2, h⟩ := Out.bind_eq_ok.mp h
    cases h
    unfold clientRequestInternal at h1
    have e : (nextHash v s s.term i).2.role = .leader ∧ (nextHash v s s.term i).2.relinquishing = true ∧
        (nextHash v s s.term i).2.log = s.log := ⟨hl, hr, rfl⟩
    generalize nextHash v s s.term i = q at h1 e
    obtain ⟨hh, s3⟩ := q
    simp only at h1 e
    rw [if_pos (.inr e.2.1)] at h1
    cases h1
    refine ⟨rfl, ?_⟩
    clear h hc
    obtain ⟨s4, k1, h3⟩ := Out.bind_eq_ok.mp h2
    obtain ⟨s5, k2, h4⟩ := Out.bind_eq_ok.mp h3
    obtain ⟨s6, k3, h5⟩ := Out.bind_eq_ok.mp h4
    unfold maybeBecomeLeader at k1
    rw [if_pos (by rw [e.1]; decide)] at k1
    cases k1
    obtain ⟨_, b2⟩ := verifyAndAdvance_course (inp := .none) k2
    have b3 : s6.log = s5.log := sendAll_log k3
    have b4 : s'.log = s6.log := by
      split at h5
      · rename_i hx
        rcases tryToRelinquish_hand hx h5 with rfl | ⟨p, hp⟩
        · rfl
        · exact hp.2.2.2.2.2.2.2.2.2.2.1
      · cases h5; rfl
    rw [b4, b3, b2]
    exact e.2.2

/-! ### A replica that is elected, asked to give up leadership, and hands over to the first voter that is up to date -/

def hash1 : Bytes := toyHash (zeros 32) (hashInput toy 1 1 .notSet)
def hash2 : Bytes := toyHash hash1 (hashInput toy 2 1 .notSet)

/-- Replica 2 has confirmed the first entry only, 3 then confirms both. -/
def handOps : List (Op Nat) :=
  [.tick, .receive 2 ⟨5, 1, .voteResp true⟩, .receive 2 ⟨5, 1, .appResp true 1 1 1 hash1⟩, .relinquish]

def lastOp : Op Nat := .receive 3 ⟨5, 1, .appResp true 2 2 0 hash2⟩

set_option maxRecDepth 100000 in
example : ∃ (s0 s s' : Node Nat) (tr : List (Op Nat × Obs Nat)) (l : List (Option Nat × Msg)),
    Created toy (fun _ => False) [] s0 ∧ Run toy s0 tr s ∧ lastOp.Fits s ∧ lastOp.run toy s = .ok (s', .nothing) ∧
    s'.sendable = s.sendable ++ l ∧ (some 3, ⟨5, 1, .timeoutNow⟩) ∈ l ∧ s'.log.lastIdx = 2 ∧ s.role = .leader ∧
    s.relinquishing = true := by
  obtain ⟨s0, s, tr, h1, h2, h3⟩ := holds_run (mem := three) (cfg := fast) (ops := handOps)
    (f := fun s _ => (match lastOp.run toy s with
      | .ok (s', .nothing) => decide (s'.sendable = s.sendable ++ s'.sendable.drop s.sendable.length ∧
          (some 3, ⟨5, 1, .timeoutNow⟩) ∈ s'.sendable.drop s.sendable.length ∧ s'.log.lastIdx = 2 ∧ s.role = .leader ∧
          s.relinquishing = true ∧ s.log.lastIdx + 3 < SZ ∧ s.term + 1 < SZ)
      | _ => false)) (by decide) (by decide)
  split at h3
  · rename_i s' h4
    obtain ⟨a1, a2, a3, a4, a5, a6, a7⟩ := of_decide_eq_true h3
    exact ⟨s0, s, s', tr, _, h1, h2, ⟨a6, a7, by decide, by unfold Typed; decide⟩, h4, a1, a2, a3, a4, a5⟩
  · cases h3

set_option maxRecDepth 100000 in
/-- The same calls as one run, with the request in between, as `C103_successor_is_alive_partial` has them. -/
example : ∃ (s0 s s1 s' : Node Nat) (tr : List (Op Nat × Obs Nat)) (l : List (Option Nat × Msg)),
    Created toy (fun _ => False) [] s0 ∧ Run toy s0 tr s ∧ (Op.relinquish : Op Nat).Fits s ∧
    Op.relinquish.run toy s = .ok (s1, .nothing) ∧ lastOp.Fits s1 ∧ lastOp.run toy s1 = .ok (s', .nothing) ∧
    s'.sendable = s1.sendable ++ l ∧ (some 3, ⟨5, 1, .timeoutNow⟩) ∈ l ∧ s.log.lastIdx < s'.log.lastIdx := by
  obtain ⟨s0, s, tr, h1, h2, h3⟩ := holds_run (mem := three) (cfg := fast) (ops := handOps.take 3)
    (f := fun s _ => (match (Op.relinquish : Op Nat).run toy s with
      | .ok (s1, .nothing) => match lastOp.run toy s1 with
        | .ok (s', .nothing) => decide (s'.sendable = s1.sendable ++ s'.sendable.drop s1.sendable.length ∧
          (some 3, ⟨5, 1, .timeoutNow⟩) ∈ s'.sendable.drop s1.sendable.length ∧ s.log.lastIdx < s'.log.lastIdx ∧
          s.log.lastIdx + 3 < SZ ∧ s.term + 1 < SZ ∧ s1.log.lastIdx + 3 < SZ ∧ s1.term + 1 < SZ)
        | _ => false
      | _ => false)) (by decide) (by decide)
  split at h3
  · rename_i s1 h4
    split at h3
    · rename_i s' h5
      obtain ⟨a1, a2, a3, a4, a5, a6, a7⟩ := of_decide_eq_true h3
      exact ⟨s0, s, s1, s', tr, _, h1, h2, ⟨a4, a5⟩, h4, ⟨a6, a7, by decide, by unfold Typed; decide⟩, h5, a1, a2, a3⟩
    · cases h3
  · cases h3

/-! ### Where the full claim fails -/

/-- Replica 2 confirms the leader's only entry, and may be gone by the time of the request. -/
def fullOps : List (Op Nat) :=
  [.tick, .receive 2 ⟨5, 1, .voteResp true⟩, .receive 2 ⟨5, 1, .appResp true 1 1 1 hash1⟩, .takeSendable]

set_option maxRecDepth 100000 in
/-- When the log has no room for the entry, the request alone makes the leader hand over, to a replica that need not be
there any more, and is itself a follower then. -/
theorem C103_successor_may_be_gone : ∃ (s0 s s' : Node Nat) (tr : List (Op Nat × Obs Nat)), Created toy (fun _ => False) [] s0 ∧
    Run toy s0 tr s ∧ s.role = .leader ∧ (Op.relinquish : Op Nat).Fits s ∧ Op.relinquish.run toy s = .ok (s', .nothing) ∧
    s'.log.lastIdx = s.log.lastIdx ∧ s'.role = .follower ∧ s.sendable = [] ∧ s'.sendable = [(some 2, ⟨5, 1, .timeoutNow⟩)] := by
  have h : (match new toy 5 1 three (Log.new 40) fast false 0 with
    | .ok s0 => match runOps toy fullOps s0 with
      | .ok (s, _) => match (Op.relinquish : Op Nat).run toy s with
        | .ok (s', .nothing) => fitsAll toy fullOps s0 && decide (s.role = .leader ∧ s'.log.lastIdx = s.log.lastIdx ∧
          s'.role = .follower ∧ s.sendable = [] ∧ s'.sendable = [(some 2, ⟨5, 1, .timeoutNow⟩)] ∧ s.log.lastIdx + 3 < SZ ∧ s.term + 1 < SZ)
        | _ => false
      | _ => false
    | _ => false) = true := by decide
  split at h
  · rename_i s0 h0
    split at h
    · rename_i s tr h1
      split at h
      · rename_i s' h2
        simp only [Bool.and_eq_true] at h
        obtain ⟨a1, a2, a3, a4, a5, a6, a7⟩ := of_decide_eq_true h.2
        exact ⟨s0, s, s', tr, created_empty h0, runOps_run h.1 h1, a1, ⟨a6, a7⟩, h2, a2, a3, a4, a5⟩
      · cases h
    · cases h
  · cases h

end Svr.Props.Hand
