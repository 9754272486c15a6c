import Verif.Raft.Elect2
import Verif.Props.Matching

/-!
# C74: who can be elected

`C74_stuck_forever` says that a replica refused by too many is never elected. Here is the converse: a voter that a quorum does not refuse
can be elected by them, from every state.
-/

namespace Svr.Props.Elected
open Svr Svr.Raft Svr.Raft.Node Svr.Raft.Play Svr.Props.RaftGroup Svr.Props.Progress Svr.Props.Matching

variable {P : Type} [LinearOrder P]

/-- `q` runs, knows `c`, does not refuse it, and its log reaches back to the last entry of `c`. -/
structure Willing (W : World P) (c : P) (s : Node P) (q : P) (sq : Node P) : Prop where
  runs : W.node q = some sq
  knows : c ∈ sq.membership.all
  agrees : ¬ Refuses sq s
  reaches : s.log.lastIdx = 0 ∨ sq.log.oldestIdx ≤ s.log.lastIdx
  ticks : sq.cfg.electionTicks ≠ 0
  room : sq.log.lastIdx + 3 < SZ

theorem last_entry {l : Log} (h : l.lastIdx ≠ 0) (h1 : 1 ≤ l.oldest) : ∃ e, l.at? l.lastIdx = some e ∧ e.term = l.lastTerm := by
  have hn : l.entries.length ≠ 0 := by
    intro h0
    unfold Log.lastIdx at h
    rw [if_pos h0] at h
    exact h rfl
  have hl : l.lastIdx = l.oldest + l.entries.length - 1 := by
    unfold Log.lastIdx
    rw [if_neg hn]
  obtain ⟨e, he⟩ := Option.isSome_iff_exists.mp ((Log.at?_some_iff l l.lastIdx).mpr (by omega))
  refine ⟨e, he, ?_⟩
  unfold Log.lastTerm Log.termAt
  rw [if_neg hn, he]

/-- The request of `c` passes the check of a willing replica: where the two have an entry of one term at one index, it is the same entry. -/
theorem Willing.supports {g : Setting P} (hg : Proper g) {W : World P} (h : Reachable g W) (hn : NoCollision g.v W.Hashed) (hser : SerInj g.v)
    (hv : FixedVoters g W) {c q : P} {s sq : Node P} (hc : W.node c = some s) (hne : q ≠ c) (hq : q ∈ s.membership.voting)
    (w : Willing W c s q sq) : Supports c s q sq := by
  obtain ⟨σ, hi⟩ := h.inv (K := fun _ => True) (fun x hx => hx) (fun _ _ => trivial) hn hser
  obtain ⟨F, hF⟩ := hi.get hc
  obtain ⟨Fq, hFq⟩ := hi.get w.runs
  have ok := hi.ok _ _ _ hF
  have okq := hi.ok _ _ _ hFq
  have hr := w.agrees
  unfold Refuses at hr
  refine ⟨okq.me, hne, okq.group.trans ok.group.symm, w.knows, hq, w.ticks, w.room, ?_, by omega⟩
  intro hh hhh
  unfold checkLogHash
  split
  · rfl
  rename_i h0
  split
  · rename_i h1
    have := w.reaches
    omega
  rename_i h1
  split
  · rfl
  rename_i h2
  have hlt : s.log.lastIdx ≤ sq.log.lastIdx := not_lt.mp h2
  have hin : (sq.log.at? s.log.lastIdx).isSome := by
    rw [Log.at?_some_iff]
    have hnq : sq.log.entries.length ≠ 0 := by
      intro he
      have : sq.log.lastIdx = 0 := by
        unfold Log.lastIdx
        rw [if_pos he]
      omega
    have e1 : sq.log.oldestIdx = sq.log.oldest := by
      unfold Log.oldestIdx
      rw [if_neg hnq]
    have e2 : sq.log.lastIdx = sq.log.oldest + sq.log.entries.length - 1 := by
      unfold Log.lastIdx
      rw [if_neg hnq]
    omega
  obtain ⟨e, he⟩ := Option.isSome_iff_exists.mp hin
  obtain ⟨e', he', ht'⟩ := last_entry h0 ok.log.one
  rw [he]
  simp only
  split
  · rename_i h3
    rw [if_pos ?_]
    by_contra hp
    exact hr (.inr (.inr ⟨by omega, by omega, e, he, h3.2⟩))
  split
  · rfl
  rename_i h3 h4
  have hterm : e'.term = e.term := by
    have h5 : e'.term ≠ 0 := (ok.chain _ _ (ok.log.at_some he').2.2.2).term
    omega
  have := C75_one_entry_per_term hg h .now hn hser hv (.log c ⟨s, hc, he'⟩) (.log q ⟨sq, w.runs, he⟩) hterm
  rw [hhh e' he', this]
  rw [if_pos ((ctEq_iff _ _).mpr rfl)]

/-- The election itself. -/
theorem elect {g : Setting P} (hg : Proper g) (hsub : g.m0.voting ⊆ g.m0.all) {W : World P} (h : Reachable g W)
    (hn : NoCollision g.v W.Hashed) (hser : SerInj g.v) (hv : FixedVoters g W) {c : P} {s : Node P} (hc : W.node c = some s)
    (hvot : c ∈ s.membership.voting) (hrole : s.role ≠ .leader) (hticks : s.cfg.electionTicks ≠ 0) (hroom : s.log.lastIdx + 3 < SZ)
    {Q : List P} (hQ : Q.Nodup) (hcQ : c ∉ Q) (hQv : Q ⊆ s.membership.voting) (hlen : s.quorum ≤ Q.length + 1) (hq2 : 2 ≤ s.quorum) {T : Nat}
    (hT : s.term < T) (hTS : T + 1 < SZ) (hw : ∀ q ∈ Q, ∃ sq, Willing W c s q sq ∧ sq.term < T) :
    ∃ W' s0 s', Among g (fun p => p = c ∨ p ∈ Q) W W' ∧ W'.node c = some s' ∧ Akin s s0 ∧ s0.role = .candidate ∧ s0.term = T ∧
      s0.quorum ≤ s0.votes.length ∧ s0.maybeChangeState g.calm = .ok s' ∧
      ∀ q ∈ Q, ∀ sq, W.node q = some sq → ∃ sq', W'.node q = some sq' ∧ Voted T sq sq' := by
  have hgood : g.m0.Good := ⟨hg.wf, hsub⟩
  have hsm : g.sm < 2 ^ 63 := hg.sm
  have T0 := h.talk hgood hsm
  have good := (T0.hale c s hc).good
  have hall : s.membership.all.length ≠ 1 := by
    have h1 : s.membership.voting.length ≤ s.membership.all.length :=
      (List.Nodup.subperm (good.wf.2.imp (fun h => ne_of_lt h)) good.sub).length_le
    have h2 : s.quorum ≤ s.membership.voting.length := by
      unfold Node.quorum quorumSize
      exact Nat.min_le_left _ _
    omega
  have el : Eligible c s := ⟨T0.me c s hc, hrole, h.lacking c s hc, hvot, hall, hq2, hticks, hroom⟩
  have hA : (fun p => p = c ∨ p ∈ Q) c := .inl rfl
  obtain ⟨W1, s1, k1, n1, o1, a1, el1, r1, t1, v1, m1⟩ := Among.campaign h hgood hsm (.now (A := fun p => p = c ∨ p ∈ Q)) hA hc el hT (by omega)
  obtain ⟨W2, k2, u2⟩ := k1.flush hA n1 ⟨el1.room, by omega⟩
  have ak : Akin s { s1 with sendable := [] } := ⟨a1.me, a1.group, a1.log, a1.mem, a1.unc, a1.sm, a1.cfg, a1.commit, a1.promise, a1.agrees⟩
  have el2 : Eligible c { s1 with sendable := [] } := el1.akin ⟨rfl, rfl, rfl, rfl, rfl, rfl, rfl, rfl, rfl, id⟩ el1.role el1.lacking
  obtain ⟨W3, s0, s', k3, n3, b1, b2, b3, b4, b5, _, b6⟩ := Among.poll h hgood hsm hA hTS Q k2 u2.node el2 r1 t1
    (by
      rw [u2.net]
      exact List.mem_append_right _ (List.mem_map.mpr ⟨_, m1, rfl⟩)) hQ
    (by
      intro q hq hx
      rw [show ({ s1 with sendable := [] } : Node P).votes = [c] from v1] at hx
      exact hcQ (List.mem_singleton.mp hx ▸ hq))
    (by
      intro q hq
      obtain ⟨sq, w, ht⟩ := hw q hq
      have hne : q ≠ c := fun e => hcQ (e ▸ hq)
      refine ⟨.inr hq, sq, by rw [u2.other q hne, o1 q hne]; exact w.runs, ?_, ht⟩
      have h3 := w.supports hg h hn hser hv hc hne (hQv hq)
      exact ⟨h3.me, h3.ne, by rw [ak.group]; exact h3.group, h3.knows, by rw [ak.membership]; exact h3.known, h3.ticks, h3.room,
        by rw [ak.log]; exact h3.check, by rw [ak.log]; exact h3.log⟩)
    (by
      rw [ak.quorum, show ({ s1 with sendable := [] } : Node P).votes = [c] from v1]
      simp only [List.length_singleton]
      omega)
    (by rw [ak.membership]; exact good.sub)
  exact ⟨W3, s0, s', k3, n3, ak.trans b1, b2, b3, b4, b5, fun q hq sq hs => b6 q hq sq (by
    have hne : q ≠ c := fun e => hcQ (e ▸ hq)
    rw [u2.other q hne, o1 q hne]; exact hs)⟩

/-- **C74**, what is possible: with fixed voters, a voter that does not lead can be elected by a quorum of which none refuses it, in every
term above theirs, whatever state the group is in. -/
theorem C74_electable_partial {g : Setting P} (hg : Proper g) (hsub : g.m0.voting ⊆ g.m0.all) {W : World P} (h : Reachable g W)
    (hn : NoCollision g.v W.Hashed) (hser : SerInj g.v) (hv : FixedVoters g W) {c : P} {s : Node P} (hc : W.node c = some s)
    (hvot : c ∈ s.membership.voting) (hrole : s.role ≠ .leader) (hticks : s.cfg.electionTicks ≠ 0) (hroom : s.log.lastIdx + 3 < SZ)
    {Q : List P} (hQ : Q.Nodup) (hcQ : c ∉ Q) (hQv : Q ⊆ s.membership.voting) (hlen : s.quorum ≤ Q.length + 1) (hq2 : 2 ≤ s.quorum) {T : Nat}
    (hT : s.term < T) (hTS : T + 1 < SZ) (hw : ∀ q ∈ Q, ∃ sq, Willing W c s q sq ∧ sq.term < T) :
    ∃ W', Among g (fun p => p = c ∨ p ∈ Q) W W' ∧ Leads W' c T := by
  obtain ⟨W3, s0, s', k3, n3, _, b2, b3, b4, b5, _⟩ := elect hg hsub h hn hser hv hc hvot hrole hticks hroom hQ hcQ hQv hlen hq2 hT hTS hw
  obtain ⟨l1, l2⟩ := maybeChangeState_elected b2 b4 b5
  exact ⟨W3, k3, s', n3, l1, l2.trans b3⟩

/-! ## A case -/

/-- What the theorem asks of a replica of `heavyTrio` whose log has two entries, both of term 1. -/
def standing (T : Table) (p : Nat) : Bool := match look p T.rows with
  | some (s, _) => decide (s.log.lastIdx = 2) && decide (s.log.lastTerm = 1) && decide (s.log.oldestIdx = 1) &&
      decide ((s.log.at? 2).map (·.term) = some 1) && decide (s.quorum = 2) && decide (s.membership = ⟨[1, 2, 3], [1, 2, 3]⟩) &&
      decide (s.role = .follower) && decide (s.term = 1) && decide (s.cfg.electionTicks = 1)
  | none => false

theorem standing_spec {T : Table} {p : Nat} (h : standing T p = true) : ∃ s, T.world.node p = some s ∧ s.log.lastIdx = 2 ∧ s.log.lastTerm = 1 ∧
    s.log.oldestIdx = 1 ∧ (∃ e, s.log.at? 2 = some e ∧ e.term = 1) ∧ s.quorum = 2 ∧ s.membership = ⟨[1, 2, 3], [1, 2, 3]⟩ ∧
    s.role = .follower ∧ s.term = 1 ∧ s.cfg.electionTicks = 1 := by
  unfold standing at h
  split at h
  · rename_i s B hl
    simp only [Bool.and_eq_true, decide_eq_true_eq, Option.map_eq_some_iff] at h
    obtain ⟨⟨⟨⟨⟨⟨⟨⟨h1, h2⟩, h3⟩, h4⟩, h5⟩, h6⟩, h7⟩, h8⟩, h9⟩ := h
    exact ⟨s, by simp [Table.world, hl], h1, h2, h3, h4, h5, h6, h7, h8, h9⟩
  · cases h

set_option maxRecDepth 100000 in
/-- While replica 1 leads term 1 and all have committed the data `[5]`, replicas 2 and 3 can make 3 the leader of term 2. -/
example : ∃ W W' : World Nat, Reachable heavyTrio W ∧ Leads W 1 1 ∧ (∃ e, Committed W 3 2 e ∧ e.inner = .data [5]) ∧
    Among heavyTrio (fun p => p = 3 ∨ p ∈ [2]) W W' ∧ Leads W' 3 2 := by
  have h : (match play heavyTrio ⟨1, 1, 1024, 100⟩ (stuckActs.take 38) Table.none with
      | some T => noColl (hashedBy T) && standing T 2 && standing T 3 && leadsIn T 1 1 && asksNothing T &&
          decide (committedAt T 3 2 = some (.data [5]))
      | none => false) = true := by decide +kernel
  split at h
  · rename_i T hT
    simp only [Bool.and_eq_true, decide_eq_true_eq] at h
    obtain ⟨⟨⟨⟨⟨h1, h2⟩, h3⟩, h4⟩, h5⟩, h6⟩ := h
    obtain ⟨s2, a1, a2, a3, a4, ⟨e, a5, a6⟩, a7, a8, a9, a10, a11⟩ := standing_spec h2
    obtain ⟨s3, b1, b2, b3, b4, _, b7, b8, b9, b10, b11⟩ := standing_spec h3
    obtain ⟨W', k, l⟩ := C74_electable_partial (T := 2) (Q := [2]) heavyTrio_proper (by simp [heavyTrio]) (play_reachable hT) (noColl_table h1)
      serInj_steady (asksNothing_spec h5) b1 (by rw [b8]; simp) (by rw [b9]; simp) (by rw [b11]; simp) (by rw [b2]; decide) (by simp) (by simp)
      (by rw [b8]; simp) (by rw [b7]; simp) (by rw [b7]) (by rw [b10]; simp) (by decide) (by
        intro q hq
        cases List.mem_singleton.mp hq
        refine ⟨s2, ⟨a1, by rw [a8]; simp, ?_, .inr (by rw [a4, b2]; simp), by rw [a11]; simp, by rw [a2]; decide⟩, by rw [a10]; simp⟩
        unfold Refuses
        rw [a2, a3, b2, b3, a5]
        rintro (h | h | ⟨_, _, e', h, h'⟩)
        · omega
        · omega
        · cases h
          omega)
    exact ⟨T.world, W', play_reachable hT, leadsIn_spec h4, committedAt_spec h6, k, l⟩
  · cases h

end Svr.Props.Elected
