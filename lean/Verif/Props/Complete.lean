import Verif.Raft.Complete
import Verif.Props.Matching

/-!
# C76, where it holds: what a leader committed of its own term is in the log of every later leader

`C76_false_leader_lacks` (`Verif/Props/Matching.lean`) commits an entry of an earlier term. Here the last committed entry is of the term of the
leader that commits it, as it is when the leader's first entry, the empty one, is committed.
-/

namespace Svr.Props.Complete
open Svr Svr.Raft Svr.Raft.Node Svr.Raft.Play Svr.Props.RaftGroup Svr.Props.Progress Svr.Props.Matching

variable {P : Type} [LinearOrder P]

/-- `p` has `e` at index `i`: in its log or, if the log does not reach back to `i`, as entry `i` of what it gave to its database. -/
def Has (W : World P) (p : P) (i : Nat) (e : Entry) : Prop := ∃ s, W.node p = some s ∧ 1 ≤ i ∧
  (s.log.at? i = some e ∨ (i < s.log.oldest ∧ (W.applied p)[i - 1]? = some e))

/-- `Q` are different voters, and as many as a quorum needs. -/
structure Quorum (g : Setting P) (Q : List P) : Prop where
  nodup : Q.Nodup
  voters : ∀ x ∈ Q, x ∈ g.m0.voting
  enough : quorumSize g.m0.voting.length g.sm ≤ Q.length

theorem firm {g : Setting P} (hg : Proper g) {W : World P} {G : Bytes × Bytes → Prop} (hv : FixedVoters g W) : Firm (g.ctx G (· ∈ W.asked)) :=
  ⟨hg.wf, hg.ne, by have := hg.len; exact Nat.lt_of_succ_lt this, hg.sm, sameVoters hv⟩

/-- The tree of histories now and later. -/
theorem two_trees {g : Setting P} (hg : Proper g) {W W' : World P} (h : Reachable g W) (k : Future g W W')
    (hn : NoCollision g.v W'.Hashed) (hser : SerInj g.v) (hv : FixedVoters g W') :
    ∃ σ S σ' S', TInv (g.ctx W'.Hashed (· ∈ W'.asked)) W σ S ∧ TInv (g.ctx W'.Hashed (· ∈ W'.asked)) W' σ' S' ∧ ∀ x t L, S x t L → S' x t L := by
  have hle := k.le h.shaped
  obtain ⟨σ, S, h1⟩ := h.tree (G := W'.Hashed) (K := (· ∈ W'.asked)) (firm hg hv) (fun x hx => hle.hashed hx) (fun i hi => hle.asked.subset hi) hn hser
  obtain ⟨σ', S', h2, h3⟩ := h1.future k (firm hg hv) h.shaped (fun x hx => hx) (fun i hi => hi) hn hser
  exact ⟨σ, S, σ', S', h1, h2, h3⟩

/-- A history that a leader has. -/
theorem has_of_hist {c : Ctx P} {W : World P} {σ : St P} (h : GInv c W σ) {q : P} {s : Node P} {F : List Entry} (hq : σ q = some (s, F)) {i : Nat} {e : Entry}
    (hi : 1 ≤ i) (he : F[i - 1]? = some e) : Has W q i e := by
  have ok := h.ok _ _ _ hq
  have hn : W.node q = some s := by
    have := h.same q
    rw [hq] at this
    exact this.symm
  refine ⟨s, hn, hi, ?_⟩
  by_cases ho : s.log.oldest ≤ i
  · exact .inl (by rw [ok.log.at? ho]; exact he)
  · right
    refine ⟨by omega, ?_⟩
    rw [h.applied _ _ _ hq, List.getElem?_take]
    rcases ok.shaped.old with h1 | h1
    · omega
    · rw [if_pos (by omega)]; exact he

/-- What a quorum had in the term `T` of its last entry, leaders of `T` and of later terms have. -/
theorem leader_has {c : Ctx P} {W : World P} {σ : St P} {S : P → Nat → List Entry → Prop} (h : TInv c W σ S) {T U : Nat} {L : List Entry} {d : Entry} {Q : List P}
    (hd : L.getLast? = some d) (ht : d.term = T) (hQ : Quorate c.sm c.m0 Q) (hne : Q ≠ []) (hS : ∀ x ∈ Q, S x T L) {q : P} (hq : Leads W q U) (hU : T ≤ U) :
    ∃ s F, σ q = some (s, F) ∧ L <+: F := by
  obtain ⟨H, tr⟩ := h.tree
  obtain ⟨s, q1, q2, rfl⟩ := hq
  obtain ⟨F, hF⟩ := h.inv.get q1
  refine ⟨s, F, hF, ?_⟩
  obtain ⟨l1, l2⟩ := tr.lead _ _ _ hF q2
  obtain ⟨hpos, hld⟩ := getLast_get hd
  rcases Nat.lt_or_eq_of_le hU with hlt | heq
  · exact (tr.safe T L d Q hd ht hQ (fun x hx => .inl (hS x hx))).full _ _ hlt l1
  · obtain ⟨x, hx⟩ := List.exists_mem_of_ne_nil Q hne
    have := (tr.kept x T L (hS x hx)).2.2 _ _ hld
    rw [show L.length - 1 + 1 = L.length by omega, List.take_length, ht, heq] at this
    exact l2 L this

theorem getLast_take {F : List Entry} {i : Nat} {d : Entry} (hi : 1 ≤ i) (h : F[i - 1]? = some d) : (F.take i).getLast? = some d := by
  have hl := (List.getElem?_eq_some_iff.mp h).1
  rw [List.getLast?_eq_getElem?, List.length_take, Nat.min_eq_left (by omega), List.getElem?_take, if_pos (by omega)]
  exact h

/-- **C76**, for entries of the leader's own term: with fixed voters, if the leader of term `t` has committed index `c`, and its entry there is of
term `t`, then leaders of term `t` or a later one, at that moment or later, have all its entries up to `c`. Missing: the same when the entry at `c`
is of an earlier term, which is false (`C76_false_leader_lacks`). -/
theorem C76_leader_completeness_partial {g : Setting P} (hg : Proper g) {W W' : World P} (h : Reachable g W) (k : Future g W W')
    (hn : NoCollision g.v W'.Hashed) (hser : SerInj g.v) (hv : FixedVoters g W') {p q : P} {t u c i : Nat} {d e : Entry} (hp : Leads W p t)
    (hc : Committed W p c d) (hd : d.term = t) (hi : i ≤ c) (he : InLog W p i e) (hq : Leads W' q u) (hu : t ≤ u) : Has W' q i e := by
  obtain ⟨σ, S, σ', S', h1, h2, h3⟩ := two_trees hg h k hn hser hv
  obtain ⟨s, a1, a2, rfl⟩ := hp
  obtain ⟨_, b1, b2, b3⟩ := hc
  obtain ⟨_, e1, e2⟩ := he
  rw [a1] at b1 e1
  cases b1
  cases e1
  obtain ⟨F, hF⟩ := h1.inv.get a1
  have ok := h1.inv.ok _ _ _ hF
  obtain ⟨c1, _, c3, c4⟩ := ok.log.at_some b3
  obtain ⟨i1, _, _, i4⟩ := ok.log.at_some e2
  obtain ⟨H, tr⟩ := h1.tree
  obtain ⟨Q, q1, q2⟩ := tr.won _ _ _ hF a2 (c - 1) d (by omega) c4 hd
  rw [show c - 1 + 1 = c by omega] at q2
  have hne : Q ≠ [] := by
    rintro rfl
    obtain ⟨x, hx, _⟩ := (firm (G := W'.Hashed) hg hv).common q1 q1
    cases hx
  obtain ⟨sq, Fq, f1, f2⟩ := leader_has h2 (getLast_take c1 c4) hd q1 hne (fun x hx => h3 _ _ _ (q2 x hx)) hq hu
  refine has_of_hist h2.inv f1 i1 (prefix_get f2 ?_)
  rw [List.getElem?_take, if_pos (by omega)]
  exact i4

/-- **C76**, for what a quorum has: with fixed voters, if a quorum of voters, all in term `t`, have entries of term `t` at index `c`, then they
have the same entry there, and leaders of term `t` or a later one have it and all entries that a member of the quorum has before it. Nobody needs
to have committed it. Missing: as in `C76_leader_completeness_partial`. -/
theorem C76_quorum_completeness_partial {g : Setting P} (hg : Proper g) {W W' : World P} (h : Reachable g W) (k : Future g W W')
    (hn : NoCollision g.v W'.Hashed) (hser : SerInj g.v) (hv : FixedVoters g W') {q x : P} {t u c i : Nat} {e : Entry} {Q : List P} (hQ : Quorum g Q)
    (hall : ∀ x ∈ Q, ∃ s d, W.node x = some s ∧ s.term = t ∧ s.log.at? c = some d ∧ d.term = t) (hx : x ∈ Q) (hi : i ≤ c) (he : InLog W x i e)
    (hq : Leads W' q u) (hu : t ≤ u) : Has W' q i e := by
  obtain ⟨σ, S, σ', S', h1, h2, h3⟩ := two_trees hg h k hn hser hv
  obtain ⟨H, tr⟩ := h1.tree
  have key : ∀ y ∈ Q, ∃ s F d, W.node y = some s ∧ σ y = some (s, F) ∧ s.term = t ∧ 1 ≤ c ∧ c ≤ F.length ∧ F[c - 1]? = some d ∧ d.term = t ∧
      H t (F.take c) := by
    intro y hy
    obtain ⟨s, d, a1, a2, a3, a4⟩ := hall y hy
    obtain ⟨F, hF⟩ := h1.inv.get a1
    have ok := h1.inv.ok _ _ _ hF
    obtain ⟨c1, _, c3, c4⟩ := ok.log.at_some a3
    have := tr.hist _ _ _ hF _ _ c4
    rw [show c - 1 + 1 = c by omega, a4] at this
    exact ⟨s, F, d, a1, hF, a2, c1, c3, c4, a4, this⟩
  obtain ⟨s, F, d, a1, a2, a3, a4, a5, a6, a7, a8⟩ := key x hx
  have hS : ∀ y ∈ Q, S y t (F.take c) := by
    intro y hy
    obtain ⟨sy, Fy, dy, _, b2, b3, _, b5, _, _, b8⟩ := key y hy
    have heq : F.take c = Fy.take c := by
      have l1 : (F.take c).length = (Fy.take c).length := by rw [List.length_take, List.length_take]; omega
      rcases tr.cmp _ _ _ a8 b8 with h4 | h4
      · exact h4.eq_of_length l1
      · exact (h4.eq_of_length l1.symm).symm
    rw [heq, ← b3]
    exact tr.down _ _ _ _ (tr.now _ _ _ b2) (List.take_prefix _ _)
  have ok := h1.inv.ok _ _ _ a2
  obtain ⟨_, e1, e2⟩ := he
  rw [a1] at e1
  cases e1
  obtain ⟨i1, _, _, i4⟩ := ok.log.at_some e2
  obtain ⟨sq, Fq, f1, f2⟩ := leader_has h2 (getLast_take a4 a6) a7 (c := g.ctx W'.Hashed (· ∈ W'.asked)) ⟨hQ.nodup, hQ.voters, hQ.enough⟩
    (List.ne_nil_of_mem hx) (fun y hy => h3 _ _ _ (hS y hy)) hq hu
  refine has_of_hist h2.inv f1 i1 (prefix_get f2 ?_)
  rw [List.getElem?_take, if_pos (by omega)]
  exact i4

/-! ### The hypotheses are met -/

/-- Replica 1 leads term 1, and all commit its empty entry and the data `[5]`. Then it appends `[7]`. -/
def ledActs : List Act :=
  [.start 1, .start 2, .start 3, .call 1 .tick, flush 1, .give 2 0, flush 2, .give 1 1, .call 1 (.request (.data [5])), flush 1,
   .give 2 2, .give 2 4, .give 3 3, .give 3 5, flush 2, flush 3, .give 1 7, .give 1 9, flush 1,
   .give 2 10, .give 3 11, flush 2, flush 3, .give 1 12, .give 1 13, flush 1, .give 2 14, .give 3 15, flush 2, flush 3, .give 1 16, .give 1 17,
   .call 1 .takeCommitted, .call 1 .takeCommitted, .call 2 .takeCommitted, .call 2 .takeCommitted, .call 3 .takeCommitted, .call 3 .takeCommitted,
   .call 1 (.request (.data [7]))]

/-- Then replica 3 leads term 2 by the vote of replica 2. -/
def nextActs : List Act := [.call 3 .tick, flush 3, .give 2 18, flush 2, .give 3 19]

def termIs (T : Table) (p t : Nat) : Bool := match look p T.rows with
  | some (s, _) => decide (s.term = t)
  | none => false

theorem termIs_spec {T : Table} {p t : Nat} (h : termIs T p t = true) : ∃ s, T.world.node p = some s ∧ s.term = t := by
  unfold termIs at h
  split at h
  · rename_i s A hl
    exact ⟨s, by simp [Table.world, hl], of_decide_eq_true h⟩
  · cases h

theorem led_outcome : ∃ W W' : World Nat, Reachable heavyTrio W ∧ Future heavyTrio W W' ∧ NoCollision heavyTrio.v W'.Hashed ∧ FixedVoters heavyTrio W' ∧
    Leads W 1 1 ∧ Leads W' 3 2 ∧ (∃ e, Committed W 1 2 e ∧ e.inner = .data [5]) ∧ (∃ e, InLog W 1 2 e ∧ e.term = 1 ∧ e.inner = .data [5]) ∧
    (∃ e, InLog W 2 2 e ∧ e.term = 1 ∧ e.inner = .data [5]) ∧ (∃ s, W.node 1 = some s ∧ s.term = 1) ∧ ∃ s, W.node 2 = some s ∧ s.term = 1 := by
  have h : (match play heavyTrio ⟨1, 1, 1024, 100⟩ ledActs Table.none with
      | some T => leadsIn T 1 1 && decide (committedAt T 1 2 = some (.data [5])) && decide (logAt T 1 2 = some (1, .data [5])) &&
          decide (logAt T 2 2 = some (1, .data [5])) && termIs T 1 1 && termIs T 2 1 && (match play heavyTrio ⟨1, 1, 1024, 100⟩ nextActs T with
        | some T' => noColl (hashedBy T') && asksNothing T' && leadsIn T' 3 2
        | none => false)
      | none => false) = true := by
    set_option maxRecDepth 100000 in decide +kernel
  split at h
  · rename_i T hT
    simp only [Bool.and_eq_true, decide_eq_true_eq] at h
    obtain ⟨⟨⟨⟨⟨⟨h1, h2⟩, h3⟩, h4⟩, h5⟩, h6⟩, h7⟩ := h
    split at h7
    · rename_i T' hT'
      simp only [Bool.and_eq_true] at h7
      obtain ⟨⟨h7, h8⟩, h9⟩ := h7
      exact ⟨T.world, T'.world, play_reachable hT, play_future hT' .now, noColl_table h7, asksNothing_spec h8, leadsIn_spec h1, leadsIn_spec h9,
        committedAt_spec h2, logAt_spec h3, logAt_spec h4, termIs_spec h5, termIs_spec h6⟩
    · cases h7
  · cases h

/-- What C76 speaks about happens: replica 1 commits index 2 in its own term 1, as a quorum has it, and replica 3 leads term 2. -/
example : ∃ (W W' : World Nat) (d : Entry), Proper heavyTrio ∧ Reachable heavyTrio W ∧ Future heavyTrio W W' ∧ NoCollision heavyTrio.v W'.Hashed ∧
    SerInj heavyTrio.v ∧ FixedVoters heavyTrio W' ∧ Leads W 1 1 ∧ Committed W 1 2 d ∧ d.term = 1 ∧ d.inner = .data [5] ∧ InLog W 1 2 d ∧
    Leads W' 3 2 ∧ Quorum heavyTrio [1, 2] ∧
    (∀ x ∈ [1, 2], ∃ s d, W.node x = some s ∧ s.term = 1 ∧ s.log.at? 2 = some d ∧ d.term = 1) ∧ Has W' 3 2 d := by
  obtain ⟨W, W', h1, h2, h3, h4, h5, h6, ⟨e, h7, h8⟩, ⟨e1, i1, i2, i3⟩, ⟨e2, j1, j2, j3⟩, ⟨s1, k1, k2⟩, s2, l1, l2⟩ := led_outcome
  obtain ⟨s, a1, a2, a3⟩ := h7
  obtain ⟨s', b1, b2⟩ := i1
  obtain ⟨s3, c1, c2⟩ := j1
  rw [a1] at b1 k1
  replace b1 := Option.some.inj b1
  replace k1 := Option.some.inj k1
  rw [l1] at c1
  replace c1 := Option.some.inj c1
  rw [← b1] at b2
  rw [← k1] at k2
  rw [← c1] at c2
  obtain rfl : e = e1 := Option.some.inj (a3.symm.trans b2)
  refine ⟨W, W', e, heavyTrio_proper, h1, h2, h3, serInj_steady, h4, h5, ⟨s, a1, a2, a3⟩, i2, h8, ⟨s, a1, a3⟩, h6, ⟨by decide, ?_, ?_⟩, ?_,
    C76_leader_completeness_partial heavyTrio_proper h1 h2 h3 serInj_steady h4 h5 ⟨s, a1, a2, a3⟩ i2 le_rfl ⟨s, a1, a3⟩ h6 (by decide)⟩
  · intro x hx
    simp only [heavyTrio]
    rcases List.mem_cons.mp hx with rfl | hx
    · simp
    · rw [List.mem_singleton.mp hx]; simp
  · decide +kernel
  · intro x hx
    rcases List.mem_cons.mp hx with rfl | hx
    · exact ⟨s, e, a1, k2, a3, i2⟩
    · rw [List.mem_singleton.mp hx]
      exact ⟨s2, e2, l1, l2, c2, j2⟩

end Svr.Props.Complete
