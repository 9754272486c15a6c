import Verif.Core.Status
import Verif.Raft.Named
import Verif.Props.RaftMessages

/-!
# C94: what an enclave reports about its group
-/

namespace Svr.Props.Status
open Svr Svr.Raft Svr.Raft.Node Svr.Core.Status Svr.Props.RaftNode Svr.Props.RaftMessages

variable {P : Type} [LinearOrder P] {v : Env P}

/-! ## Specification -/

/-- What a report should say. -/
structure Tells (own : P) (known : List P) (part : Option (Node P)) (l : List (Row P)) : Prop where
  /-- every known peer and the enclave itself is listed -/
  listed : ∀ p, (∃ r ∈ l, r.id = p) ↔ p = own ∨ p ∈ known
  /-- in order, and thus once -/
  sorted : (l.map Row.id).Pairwise (· < ·)
  me : ∀ r ∈ l, r.me = true ↔ r.id = own
  /-- members and voters of the current membership are marked as such, and no others -/
  inRaft : ∀ r ∈ l, r.inRaft = true ↔ ∃ s, part = some s ∧ r.id ∈ s.membership.all
  voting : ∀ r ∈ l, r.voting = true ↔ ∃ s, part = some s ∧ r.id ∈ s.membership.voting
  /-- the leader is marked, if there is one, and nobody else -/
  leader : ∀ r ∈ l, r.leader = true ↔ ∃ s, part = some s ∧ s.leader = some r.id
  /-- the state of replication is there if, and only if, the replica leads and keeps a row for that peer -/
  repl : ∀ r ∈ l, ∀ x, r.repl = some x ↔ ∃ s f, part = some s ∧ s.role = .leader ∧ r.id ≠ own ∧ s.followers.find r.id = some f ∧
    x = ⟨f.next, f.mtch, f.inflight, f.probe⟩

/-- The replica was created as in `Serving`, and all messages it took in came from others. That they do is C93. -/
def Foreign (v : Env P) (G0 : Bytes × Bytes → Prop) (s : Node P) : Prop :=
  ∃ group me mem log cfg cl sm full s0 tr, Loads v G0 log full ∧ (cl = true ∨ full = []) ∧ mem.Wf ∧ mem.voting ⊆ mem.all ∧
    sm < 2 ^ 63 ∧ new v group me mem log cfg cl sm = .ok s0 ∧ Run v s0 tr s ∧ ∀ m o, (Op.receive me m, o) ∉ tr

theorem Foreign.serving {G0 : Bytes × Bytes → Prop} {s : Node P} (h : Foreign v G0 s) : Serving v G0 s := by
  obtain ⟨a, b, c, d, e, f, g, i, j, k, h1, h2, h3, h4, h5, h6, h7, -⟩ := h
  exact ⟨a, b, c, d, e, f, g, i, j, k, h1, h2, h3, h4, h5, h6, h7⟩

/-- Such a replica does not take itself for a leader it follows. -/
theorem Foreign.not_self {G0 : Bytes × Bytes → Prop} {s : Node P} (h : Foreign v G0 s) : s.fLeader ≠ some s.me := by
  obtain ⟨group, me, mem, log, cfg, cl, sm, full, s0, tr, h1, h2, h3, h4, h5, h6, h7, h8⟩ := h
  have hb : (base group me mem log cfg cl sm).Shaped v := base_shaped h1.window h1.bytes h2
  have st := new_steps hb (by have := h1.window.lastIdx; have := h1.fits; omega) h6
  have hme : s0.me = me := st.mono.me
  have h0 : s0.fLeader ≠ some me := by
    intro hq
    rcases st.fLeader hq with ⟨h1, -⟩ | ⟨_, _, _, _, _, _, _, h1⟩
    · cases h1
    · cases h1
  have key : s.me = me ∧ s.fLeader ≠ some me := by
    induction h7 with
    | nil => exact ⟨hme, h0⟩
    | @snoc s1 s2 tr op o hr hf k ih =>
      obtain ⟨i1, i2⟩ := ih (fun m o h => h8 m o (List.mem_append_left _ h))
      have hs : s1.Shaped v :=
        (Serving.hale (G0 := G0) ⟨group, me, mem, log, cfg, cl, sm, full, s0, _, h1, h2, h3, h4, h5, h6, hr⟩).shaped
      rcases Op.steps hs hf k with ⟨st, -, -⟩ | ⟨i, e, _, _, _, _, _, rfl⟩ | ⟨_, _, rfl⟩
      · refine ⟨st.mono.me.trans i1, fun hq => ?_⟩
        rcases st.fLeader hq with ⟨h1, -⟩ | ⟨g', pi, pt, ph, es, c, a, h1⟩
        · exact i2 h1
        · cases op with
          | receive frm m =>
            simp only [Op.input, Inp.msg.injEq] at h1
            obtain ⟨rfl, -⟩ := h1
            exact h8 m o (List.mem_append_right _ (List.mem_singleton.mpr rfl))
          | _ => simp [Op.input] at h1
      · exact ⟨i1, i2⟩
      · exact ⟨i1, i2⟩
  rw [key.1]
  exact key.2

theorem Foreign.leads {G0 : Bytes × Bytes → Prop} {s : Node P} (h : Foreign v G0 s) : s.leader = some s.me ↔ s.role = .leader := by
  unfold Node.leader
  cases hr : s.role with
  | follower => simpa using h.not_self
  | candidate => simp
  | leader => simp

/-! ## Helpers -/

theorem row_ok {me leader : P} {part : Option (Node P)} (h : leader = me → ∃ s, part = some s ∧ s.role = .leader) (p : P) :
    row me leader part p = .ok ⟨p, decide (p ∈ (sets part).1), decide (p ∈ (sets part).2),
      decide (p = leader), decide (p = me),
      if leader = me ∧ p ≠ me then part.bind fun s => (s.followers.find p).map fun f => ⟨f.next, f.mtch, f.inflight, f.probe⟩ else none⟩ := by
  unfold row replOf
  by_cases hl : leader = me ∧ p ≠ me
  · obtain ⟨s, rfl, hr⟩ := h hl.1
    rw [if_pos hl, if_pos hl]
    simp [follower, hr, Out.check]
  · rw [if_neg hl, if_neg hl]
    rfl

theorem sets_all (part : Option (Node P)) (p : P) : p ∈ (sets part).1 ↔ ∃ s, part = some s ∧ p ∈ s.membership.all := by
  cases part <;> simp [sets]

theorem sets_voting (part : Option (Node P)) (p : P) : p ∈ (sets part).2 ↔ ∃ s, part = some s ∧ p ∈ s.membership.voting := by
  cases part <;> simp [sets]

theorem rows_ok {me leader : P} {part : Option (Node P)} (h : leader = me → ∃ s, part = some s ∧ s.role = .leader) (l : List P) :
    ∃ r, rows me leader part l = .ok r ∧ r.map Row.id = l ∧ ∀ x ∈ r, row me leader part x.id = .ok x := by
  induction l with
  | nil => exact ⟨[], rfl, rfl, fun _ h => (by cases h)⟩
  | cons p t ih =>
    obtain ⟨r, h1, h2, h3⟩ := ih
    obtain ⟨x, hx, hi⟩ : ∃ x, row me leader part p = .ok x ∧ x.id = p := ⟨_, row_ok h p, rfl⟩
    refine ⟨x :: r, ?_, ?_, ?_⟩
    · unfold rows
      rw [hx, h1]
      rfl
    · simp [h2, hi]
    · intro y hy
      rcases List.mem_cons.mp hy with rfl | hy
      · rw [hi]; exact hx
      · exact h3 y hy

theorem tells_ok {me leader : P} {known : List P} {part : Option (Node P)} (hk : SSorted known)
    (h : leader = me → ∃ s, part = some s ∧ s.role = .leader)
    (hl : ∀ p, p = me ∨ p ∈ known → (p = leader ↔ ∃ s, part = some s ∧ s.leader = some p))
    (hm : ∀ s, part = some s → s.role = .leader → leader = me) :
    ∃ l, rows me leader part (sinsert me known) = .ok l ∧ Tells me known part l := by
  obtain ⟨l, h1, h2, h3⟩ := rows_ok h (sinsert me known)
  have hin : ∀ p, (∃ r ∈ l, r.id = p) ↔ p = me ∨ p ∈ known := by
    intro p
    rw [← mem_sinsert, ← h2, List.mem_map]
  refine ⟨l, h1, hin, by rw [h2]; exact sinsert_sorted _ _ hk, fun r hr => ?_, fun r hr => ?_, fun r hr => ?_, fun r hr => ?_, fun r hr x => ?_⟩
  all_goals
    have e := h3 r hr
    rw [row_ok h] at e
    injection e with e
  · rw [← congrArg Row.me e]; simp
  · rw [← congrArg Row.inRaft e]; simpa using sets_all part r.id
  · rw [← congrArg Row.voting e]; simpa using sets_voting part r.id
  · rw [← congrArg Row.leader e, decide_eq_true_eq]
    exact hl r.id ((hin r.id).mp ⟨r, hr, rfl⟩)
  · rw [← congrArg Row.repl e]
    simp only
    constructor
    · intro hx
      split at hx
      · rename_i hc
        obtain ⟨s, rfl, hs⟩ := h hc.1
        simp only [Option.bind_some, Option.map_eq_some_iff] at hx
        obtain ⟨f, hf, rfl⟩ := hx
        exact ⟨s, f, rfl, hs, hc.2, hf, rfl⟩
      · cases hx
    · rintro ⟨s, f, rfl, hs, hne, hf, rfl⟩
      rw [if_pos ⟨hm s rfl hs, hne⟩]
      simp [hf]

/-! ## Theorems -/

/-- **C94.** The report of an enclave that is part of a group is always given, without `CHECK`s failing, and says what it should. (That
the id of the enclave and of the peers it knows are not all zeros is needed: see `C94_zero_peer`.) -/
theorem C94_report {G0 : Bytes × Bytes → Prop} {s : Node P} (h : Foreign v G0 s) {zero : P} {known : List P} (hk : SSorted known)
    (hz : zero ≠ s.me) (hzk : zero ∉ known) : ∃ l, report zero s.me known (some s) = .ok l ∧ Tells s.me known (some s) l := by
  have hL := h.leads
  refine tells_ok (leader := s.leader.getD zero) hk (fun e => ⟨s, rfl, ?_⟩) (fun p hp => ?_) (fun s' e hr => ?_)
  · rw [← hL]
    cases hl : s.leader with
    | none => rw [hl] at e; exact absurd e hz
    | some q => rw [hl] at e; exact congrArg some e
  · have hne : p ≠ zero := by
      rintro rfl
      rcases hp with hp | hp
      · exact hz hp
      · exact hzk hp
    cases hl : s.leader with
    | none => simpa [hl] using hne
    | some q => simp [hl, eq_comm]
  · cases e
    rw [hL.mpr hr]
    rfl

/-- **C94.** Before the enclave is part of a group, the report is given too, with nobody marked; that is so also before `Init`, when the
id of the enclave is the id of zeros and no peers are known. -/
theorem C94_report_outside {zero me : P} {known : List P} (hk : SSorted known) (h : known = [] ∨ zero ≠ me) :
    ∃ l, report zero me known (none : Option (Node P)) = .ok l ∧ l.map Row.id = sinsert me known ∧
      ∀ r ∈ l, r.inRaft = false ∧ r.voting = false ∧ r.repl = none ∧ (r.me = true ↔ r.id = me) ∧ (r.leader = true ↔ r.id = zero) := by
  rcases h with rfl | h
  · by_cases hz : zero = me
    · subst hz
      refine ⟨[⟨zero, false, false, true, true, none⟩], by simp [report, rows, row, replOf, sets, sinsert], rfl, fun r hr => ?_⟩
      cases List.mem_singleton.mp hr
      simp
    · refine ⟨[⟨me, false, false, false, true, none⟩], by simp [report, rows, row, replOf, sets, sinsert, hz, Ne.symm hz], rfl, fun r hr => ?_⟩
      cases List.mem_singleton.mp hr
      simp [Ne.symm hz]
  · obtain ⟨l, h1, h2, h3⟩ := rows_ok (part := (none : Option (Node P))) (fun e : zero = me => absurd e h) (sinsert me known)
    refine ⟨l, h1, h2, fun r hr => ?_⟩
    have e := h3 r hr
    rw [row_ok (fun e => absurd e h)] at e
    injection e with e
    refine ⟨?_, ?_, ?_, ?_, ?_⟩
    · rw [← congrArg Row.inRaft e]; simp [sets]
    · rw [← congrArg Row.voting e]; simp [sets]
    · rw [← congrArg Row.repl e]; simp
    · rw [← congrArg Row.me e]; simp
    · rw [← congrArg Row.leader e]; simp

/-- **C94.** The report of a leader has the state of replication of each other member it knows, and of no other peer, unless it still
keeps a row for one; voters are members. -/
theorem C94_leader_sees_members {G0 : Bytes × Bytes → Prop} {s : Node P} (h : Foreign v G0 s) {known : List P} {l : List (Row P)}
    (hl : Tells s.me known (some s) l) (hr : s.role = .leader) :
    ∀ r ∈ l, (r.voting = true → r.inRaft = true) ∧ (r.inRaft = true → r.me = false → ∃ x, r.repl = some x) ∧
      (r.leader = true ↔ r.me = true) := by
  intro r hm
  have hh := h.serving.hale
  refine ⟨fun hv => ?_, fun hi hme => ?_, ?_⟩
  · obtain ⟨s', e, h1⟩ := (hl.voting r hm).mp hv
    cases e
    exact (hl.inRaft r hm).mpr ⟨s, rfl, hh.good.2 h1⟩
  · obtain ⟨s', e, h1⟩ := (hl.inRaft r hm).mp hi
    cases e
    have hne : r.id ≠ s.me := fun e => by
      rw [(hl.me r hm).mpr e] at hme
      cases hme
    obtain ⟨f, hf⟩ := Option.isSome_iff_exists.mp (hh.table hr r.id h1 hne)
    exact ⟨_, (hl.repl r hm _).mpr ⟨s, f, rfl, hr, hne, hf, rfl⟩⟩
  · rw [hl.leader r hm, hl.me r hm]
    constructor
    · rintro ⟨s', e, h1⟩
      cases e
      rw [h.leads.mpr hr] at h1
      exact (Option.some.inj h1).symm
    · rintro e
      exact ⟨s, rfl, by rw [e]; exact h.leads.mpr hr⟩

open Svr.Props.RaftGroup Svr.Raft.Play

/-- `q` became leader of term `t` at some time: `led` keeps every term that a replica became leader of. -/
def WasLeader (W : World P) (q : P) (t : Nat) : Prop := ∃ s m, W.node q = some s ∧ (t, m) ∈ s.led

/-- **C94.** In a group whose replicas run this code, the replica that is named as leader is one of them, and became leader of the very
term of the replica that names it. -/
theorem C94_named_leader_led {g : Setting P} {W : World P} (h : Reachable g W) {p q : P} {s : Node P} (hp : W.node p = some s)
    (hq : s.leader = some q) (hme : s.me = p) : WasLeader W q s.term := by
  have N := h.named
  unfold Node.leader at hq
  cases hr : s.role with
  | follower =>
    rw [hr] at hq
    exact N.named p s hp q hq
  | candidate => rw [hr] at hq; cases hq
  | leader =>
    rw [hr] at hq
    cases hq
    obtain ⟨m, hm⟩ := (N.signed p s hp).leads hr
    exact ⟨s, m, by rw [hme]; exact hp, hm⟩

/-- **C94.** With fixed voters, replicas of the same term never name different leaders, now or at any later time. -/
theorem C94_same_leader {g : Setting P} (hg : Proper g) {W W' : World P} (h : Reachable g W) (k : Future g W W')
    (hn : NoCollision g.v W'.Hashed) (hser : SerInj g.v) (hv : FixedVoters g W') {p p' q q' : P} {s s' : Node P}
    (hp : W.node p = some s) (hp' : W'.node p' = some s') (ht : s.term = s'.term) (hq : s.leader = some q) (hq' : s'.leader = some q') :
    q = q' := by
  obtain ⟨σ, σ', h1, h2, h3⟩ := two_times h k hn hser
  have hW' : Reachable g W' := h.future k
  obtain ⟨F, hF⟩ := h1.get hp
  obtain ⟨F', hF'⟩ := h2.get hp'
  obtain ⟨sq, m, a1, a2⟩ := C94_named_leader_led h hp hq (h1.ok _ _ _ hF).me
  obtain ⟨sq', m', b1, b2⟩ := C94_named_leader_led hW' hp' hq' (h2.ok _ _ _ hF').me
  obtain ⟨G, hG⟩ := h1.get a1
  obtain ⟨G', hG'⟩ := h2.get b1
  rw [← ht] at b2
  exact (((h1.ok _ _ _ hG).led _ _ a2).grows h3).unique hg.wf hg.ne (by have := hg.len; exact Nat.lt_of_succ_lt this) hg.sm (sameVoters hv)
    (fun x s F hx => (h2.ok x s F hx).voted) ((h2.ok _ _ _ hG').led _ _ b2)

/-- **C94.** In such a group, no leader reports that a replica has more entries than the leader itself. -/
theorem C94_match_in_log {g : Setting P} {W : World P} (h : Reachable g W) (hn : NoCollision g.v W.Hashed) (hser : SerInj g.v) {p : P}
    {s : Node P} (hp : W.node p = some s) {known : List P} {l : List (Row P)} (hl : Tells p known (some s) l) {r : Row P} (hr : r ∈ l)
    {x : Core.Status.Repl} (hx : r.repl = some x) : x.mtch ≤ s.log.lastIdx := by
  obtain ⟨σ, -, h1, -, -⟩ := two_times h .now hn hser
  obtain ⟨s', f, e, hs, -, hf, rfl⟩ := (hl.repl r hr x).mp hx
  cases e
  obtain ⟨F, hF⟩ := h1.get hp
  have ok := h1.ok _ _ _ hF
  rw [ok.log.lastIdx]
  exact (ok.rows hs _ _ hf).len

/-! ## Witnesses -/

/-- No message of the trace comes from replica 1. -/
def others (tr : List (Op Nat × Obs Nat)) : Bool :=
  tr.all fun x => match x.1 with
    | .receive frm _ => decide (frm ≠ 1)
    | _ => true

theorem foreign {mem : Membership Nat} {cfg : RaftCfg} {ops : List (Op Nat)} {f : Node Nat → Bool}
    (hm : mem.Wf) (hv : mem.voting ⊆ mem.all) (h : good mem cfg ops = true) (hf : holds mem cfg ops (fun s tr => others tr && f s) = true) :
    ∃ s, Foreign toy (fun _ => False) s ∧ f s = true := by
  unfold good at h
  unfold holds after at hf
  split at h
  · rename_i s0 h0
    rw [h0] at hf
    simp only [Bool.and_eq_true] at h
    cases hr : runOps toy ops s0 with
    | ok r =>
      obtain ⟨s, tr⟩ := r
      simp only [Out.bind_ok, hr, Bool.and_eq_true] at hf
      refine ⟨s, ⟨5, 1, mem, Log.new 10000, cfg, false, 0, [], s0, tr,
        ⟨⟨by simp [Log.new], by simp [Log.new], rfl, fun _ => rfl⟩, Chain.nil, le_rfl, by decide⟩, .inr rfl, hm, hv, by decide, h0,
        runOps_run h.1 hr, fun m o hx => ?_⟩, hf.2⟩
      have := List.all_eq_true.mp hf.1 _ hx
      simp at this
    | abort => rw [hr] at h; exact absurd h.2 (by decide)
    | ub => rw [hr] at h; exact absurd h.2 (by decide)
  · cases h

set_option maxRecDepth 100000 in
/-- The hypotheses of `C94_report` are met by a leader that knows the peers 2 and 9: it reports on 1, 2 and 9, and has the state of
replication of 2 (its first entry is on the way), but not of 9, which is no member. -/
example : ∃ s : Node Nat, Foreign toy (fun _ => False) s ∧ (0 : Nat) ≠ s.me ∧ s.role = .leader ∧
    report 0 s.me [2, 9] (some s) = .ok [⟨1, true, true, true, true, none⟩,
      ⟨2, true, true, false, false, some ⟨1, 0, some 1, false⟩⟩, ⟨9, false, false, false, false, none⟩] := by
  obtain ⟨s, h1, h2⟩ := foreign (mem := three) (cfg := RaftNode.fast) (ops := electedOps)
    (f := fun s => decide (s.me ≠ 0 ∧ s.role = .leader) && decide (report 0 s.me [2, 9] (some s) = .ok [⟨1, true, true, true, true, none⟩,
      ⟨2, true, true, false, false, some ⟨1, 0, some 1, false⟩⟩, ⟨9, false, false, false, false, none⟩]))
    three_wf (fun _ h => h) (by decide) (by decide)
  simp only [Bool.and_eq_true, decide_eq_true_eq] at h2
  exact ⟨s, h1, h2.1.1.symm, h2.1.2, h2.2⟩

set_option maxRecDepth 100000 in
/-- A peer whose id is all zeros is marked as the leader while there is no leader: `Tells` fails. An id is only checked for its length
(`PeerID::FromString`, enclave/peerid/peerid.cc:26-32). -/
theorem C94_zero_peer : ∃ (s : Node Nat) (l : List (Row Nat)), Foreign toy (fun _ => False) s ∧ s.leader = none ∧
    report 0 s.me [0] (some s) = .ok l ∧ ∃ r ∈ l, r.id = 0 ∧ r.leader = true := by
  obtain ⟨s, h1, h2⟩ := foreign (mem := three) (cfg := RaftNode.fast) (ops := [])
    (f := fun s => decide (s.leader = none) && decide (report 0 s.me [0] (some s) = .ok [⟨0, false, false, true, false, none⟩,
      ⟨1, true, true, false, true, none⟩])) three_wf (fun _ h => h) (by decide) (by decide)
  simp only [Bool.and_eq_true, decide_eq_true_eq] at h2
  exact ⟨s, _, h1, h2.1, h2.2, _, List.mem_cons_self, rfl, rfl⟩

/-- Replica 1 follows replica 2. -/
def followOps : List (Op Nat) := [.receive 2 ⟨5, 1, .appReq 0 0 [] [] 0 0⟩]

set_option maxRecDepth 100000 in
/-- Members that the peer manager does not know are left out, even the leader: the report of a follower of 2 then shows no leader. -/
theorem C94_leader_left_out : ∃ (s : Node Nat) (l : List (Row Nat)), Foreign toy (fun _ => False) s ∧ s.leader = some 2 ∧
    2 ∈ s.membership.all ∧ report 0 s.me [] (some s) = .ok l ∧ (∀ r ∈ l, r.leader = false) ∧ ∀ r ∈ l, r.id ≠ 2 := by
  obtain ⟨s, h1, h2⟩ := foreign (mem := three) (cfg := RaftNode.fast) (ops := followOps)
    (f := fun s => decide (s.leader = some 2 ∧ 2 ∈ s.membership.all) &&
      decide (report 0 s.me [] (some s) = .ok [⟨1, true, true, false, true, none⟩])) three_wf (fun _ h => h) (by decide) (by decide)
  simp only [Bool.and_eq_true, decide_eq_true_eq] at h2
  exact ⟨s, _, h1, h2.1.1, h2.1.2, h2.2, by simp, by simp⟩

/-- Who `p` names as leader, and its term. -/
def namedIn (T : Table) (p : Nat) : Option (Option Nat × Nat × List (Row Nat)) :=
  match look p T.rows with
  | some (s, _) => match report 0 p [1, 2, 3] (some s) with
    | .ok l => some (s.leader, s.term, l)
    | _ => none
  | none => none

theorem namedIn_spec {T : Table} {p : Nat} {q : Option Nat} {t : Nat} {l : List (Row Nat)} (h : namedIn T p = some (q, t, l)) :
    ∃ s, T.world.node p = some s ∧ s.leader = q ∧ s.term = t ∧ report 0 p [1, 2, 3] (some s) = .ok l := by
  unfold namedIn at h
  split at h
  · rename_i s A hl
    split at h
    · rename_i l' hl'
      simp only [Option.some.injEq, Prod.mk.injEq] at h
      exact ⟨s, by simp [Table.world, hl], h.1, h.2.1, by rw [hl', h.2.2]⟩
    · cases h
  · cases h

set_option maxRecDepth 100000 in
/-- The hypotheses of `C94_same_leader` and `C94_match_in_log` are met: 1 leads, 2 follows it in term 1, and 1 reports that 2 has both
entries. -/
example : ∃ (W : World Nat) (s s' : Node Nat), Proper trio ∧ Reachable trio W ∧ NoCollision trio.v W.Hashed ∧ SerInj trio.v ∧
    FixedVoters trio W ∧ W.node 1 = some s ∧ W.node 2 = some s' ∧ s.term = 1 ∧ s'.term = 1 ∧ s.leader = some 1 ∧ s'.leader = some 1 ∧
    ∃ l r x, report 0 1 [1, 2, 3] (some s) = .ok l ∧ r ∈ l ∧ r.id = 2 ∧ r.repl = some x ∧ x.mtch = 2 := by
  obtain ⟨T, h1, h2, h3⟩ := outcome_spec (g := trio) (as := trioActs) (f := fun T => (match namedIn T 1 with
      | some (some 1, 1, l) => l.any fun r => decide (r.id = 2) && (match r.repl with
        | some x => decide (x.mtch = 2)
        | none => false)
      | _ => false) && (match namedIn T 2 with
      | some (some 1, 1, _) => true
      | _ => false) && requests T (fun _ => false)) rfl (by decide +kernel)
  simp only [Bool.and_eq_true] at h3
  obtain ⟨⟨h4, h5⟩, h6⟩ := h3
  split at h4
  · rename_i l e1
    split at h5
    · rename_i l' e2
      obtain ⟨s, a1, a2, a3, a4⟩ := namedIn_spec e1
      obtain ⟨s', b1, b2, b3, -⟩ := namedIn_spec e2
      obtain ⟨r, c1, c2⟩ := List.any_eq_true.mp h4
      simp only [Bool.and_eq_true, decide_eq_true_eq] at c2
      obtain ⟨c2, c3⟩ := c2
      split at c3
      · rename_i x hx
        exact ⟨T.world, s, s', ⟨⟨by simp [trio, SSorted], by simp [trio, SSorted]⟩, by simp [trio], by simp [trio], by simp [trio]⟩, h1, h2,
          serInj_steady, fun m hm => absurd (requests_spec rfl h6 hm) (by decide), a1, b1, a3, b3, a2, b2, l, r, x, a4, c1, c2, hx,
          of_decide_eq_true c3⟩
      · cases c3
    · cases h5
  · cases h4

end Svr.Props.Status
