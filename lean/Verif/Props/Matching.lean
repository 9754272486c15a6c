import Verif.Raft.Terms
import Verif.Props.Progress

/-!
# C75 and C76: an index and a term determine the entry and all before it; leaders may lack committed entries

Stated of `Reachable` worlds, as C26 and C28 are. An entry carries the term of the leader that made it. A leader appends an entry only at the
end of its own log, and a term has one leader, so that no two entries of a term are ever at one index.
-/

namespace Svr.Props.Matching
open Svr Svr.Raft Svr.Raft.Node Svr.Raft.Play Svr.Props.RaftGroup Svr.Props.Progress

variable {P : Type} [LinearOrder P]

/-- `p` has `e` at index `i` of its log. -/
def InLog (W : World P) (p : P) (i : Nat) (e : Entry) : Prop := ∃ s, W.node p = some s ∧ s.log.at? i = some e

/-- `e` is at index `i` somewhere: in a log, in a message sent at any time before, or among the entries handed to a database. -/
inductive Seen (W : World P) (i : Nat) (e : Entry) : Prop
  | log (p : P) (h : InLog W p i e)
  | message (frm : P) (dst : Option P) (m : Msg) (pi pt : Nat) (ph : Bytes) (es : List Entry) (c a j : Nat) (h : (frm, dst, m) ∈ W.net)
    (hb : m.body = .appReq pi pt ph es c a) (hj : es[j]? = some e) (hi : i = pi + 1 + j)
  | database (p : P) (hi : 1 ≤ i) (h : (W.applied p)[i - 1]? = some e)

theorem Seen.present {W : World P} {i : Nat} {e : Entry} (h : Seen W i e) : W.Present i e := by
  cases h with
  | log p h => obtain ⟨s, h1, h2⟩ := h; exact .inl ⟨p, s, h1, .inl h2⟩
  | message frm dst m pi pt ph es c a j h hb hj hi => exact .inr (.inl ⟨_, h, pi, pt, ph, es, c, a, j, hb, hj, hi⟩)
  | database p hi h => exact .inr (.inr ⟨p, hi, h⟩)

/-- **C75**: with fixed voters, entries seen anywhere at one index with one term, now or later, are the same entry. -/
theorem C75_one_entry_per_term {g : Setting P} (hg : Proper g) {W W' : World P} (h : Reachable g W) (k : Future g W W')
    (hn : NoCollision g.v W'.Hashed) (hser : SerInj g.v) (hv : FixedVoters g W') {i : Nat} {e e' : Entry} (he : Seen W i e)
    (he' : Seen W' i e') (ht : e.term = e'.term) : e = e' := by
  obtain ⟨σ, σ', h1, h2, h3⟩ := two_times h k hn hser
  let E : P → Nat → Prop := fun p t => ∃ m, Elected (g.ctx W'.Hashed (· ∈ W'.asked)) σ' p t m
  have hE : ∀ p p' t, E p t → E p' t → p = p' := fun p p' t ⟨_, a⟩ ⟨_, b⟩ =>
    a.unique hg.wf hg.ne (by have := hg.len; exact Nat.lt_of_succ_lt this) hg.sm (sameVoters hv) (fun x s F hx => (h2.ok x s F hx).voted) b
  have led' : ∀ p s, W'.node p = some s → ∀ t m, (t, m) ∈ s.led → E p t := by
    intro p s hp t m hm
    obtain ⟨F, hF⟩ := h2.get hp
    exact ⟨m, (h2.ok _ _ _ hF).led t m hm⟩
  have led : ∀ p s, W.node p = some s → ∀ t m, (t, m) ∈ s.led → E p t := by
    intro p s hp t m hm
    obtain ⟨F, hF⟩ := h1.get hp
    exact ⟨m, ((h1.ok _ _ _ hF).led t m hm).grows h3⟩
  have T := ((h.termed hE led).remember (Y := W.Present) (fun _ _ h => h)).future h.shaped k hE led'
  refine T.matched.uniq i e e' (.inr (.inr (.inr he.present))) ?_ ht
  rcases he'.present with h4 | h4 | h4
  · exact .inl h4
  · exact .inr (.inl h4)
  · exact .inr (.inr (.inl h4))

/-- **C75**, log matching: with fixed voters, if a log now and a log then have entries of one term at one index, they are the same up to
there. -/
theorem C75_log_matching {g : Setting P} (hg : Proper g) {W W' : World P} (h : Reachable g W) (k : Future g W W')
    (hn : NoCollision g.v W'.Hashed) (hser : SerInj g.v) (hv : FixedVoters g W') {p q : P} {i j : Nat} {e e' d d' : Entry}
    (he : InLog W p i e) (he' : InLog W' q i e') (ht : e.term = e'.term) (hj : j ≤ i) (hd : InLog W p j d) (hd' : InLog W' q j d') :
    d = d' := by
  obtain ⟨σ, σ', h1, h2, h3⟩ := two_times h k hn hser
  have hee := C75_one_entry_per_term hg h k hn hser hv (.log p he) (.log q he') ht
  obtain ⟨s, a1, a2⟩ := he
  obtain ⟨s', b1, b2⟩ := he'
  obtain ⟨_, c1, c2⟩ := hd
  obtain ⟨_, d1, d2⟩ := hd'
  rw [a1] at c1
  rw [b1] at d1
  cases c1
  cases d1
  obtain ⟨F, hF⟩ := h1.get a1
  obtain ⟨F', hF'⟩ := h2.get b1
  have ok := h1.ok _ _ _ hF
  have ok' := h2.ok _ _ _ hF'
  obtain ⟨i1, _, _, i2⟩ := ok.log.at_some a2
  obtain ⟨_, _, _, i3⟩ := ok'.log.at_some b2
  obtain ⟨j1, _, _, j2⟩ := ok.log.at_some c2
  obtain ⟨_, _, _, j3⟩ := ok'.log.at_some d2
  have := chain_inj hn hser ok.chain ok'.chain i2 i3 (by rw [hee])
  have l1 : (F.take (i - 1 + 1))[j - 1]? = some d := by rw [List.getElem?_take, if_pos (by omega)]; exact j2
  rw [this, List.getElem?_take, if_pos (by omega), j3] at l1
  exact (Option.some.inj l1).symm

/-! ## C76 -/

/-- **C76**, as far as it holds: with fixed voters, if a replica has at an index another entry than the one committed there, now or earlier,
it has not committed that index. Missing: a leader of a later term has the committed entries, which is false (`C76_false_leader_lacks`). -/
theorem C76_lacking_never_commits_partial {g : Setting P} (hg : Proper g) {W W' : World P} (h : Reachable g W) (k : Future g W W')
    (hn : NoCollision g.v W'.Hashed) (hser : SerInj g.v) (hv : FixedVoters g W') {p q : P} {i : Nat} {e e' : Entry} {s' : Node P}
    (hc : Committed W p i e) (hq : W'.node q = some s') (he' : s'.log.at? i = some e') (hne : e ≠ e') : s'.commit < i := by
  by_contra hlt
  exact hne (C28_committed_agree hg h k hn hser hv hc ⟨s', hq, by omega, he'⟩)

/-- As `Progress.stuckActs`, but replica 3 appended two entries in term 2, and replica 1 commits entry 3, of term 1. Then replica 3 leads term
4 by the vote of replica 2, which promised to keep entry 3: the last entry of replica 3 has a higher term than the last one of replica 2, and its
index is not in replica 2's log, so that `CheckLogHash` has nothing to compare. -/
def lackActs : List Act :=
  [.start 1, .start 2, .start 3, .call 1 .tick, flush 1, .give 2 0, flush 2, .give 1 1, .call 1 (.request (.data [5])), flush 1,
   .give 2 2, .give 2 4, .give 3 3, .give 3 5, flush 2, flush 3, .give 1 7, .give 1 9, flush 1,
   .give 2 10, .give 3 11, flush 2, flush 3, .give 1 12, .give 1 13, flush 1, .give 2 14, .give 3 15, flush 2, flush 3, .give 1 16, .give 1 17,
   .call 1 .takeCommitted, .call 1 .takeCommitted, .call 2 .takeCommitted, .call 2 .takeCommitted, .call 3 .takeCommitted, .call 3 .takeCommitted,
   .call 1 (.request (.data [7])), .call 3 .tick, flush 3, .give 2 18, flush 2, .give 3 19, .call 3 (.request (.data [9])), .give 1 18,
   .call 1 .tick, flush 1, .give 2 23, .give 3 23, flush 2, .give 1 24, flush 1, .give 2 25, flush 2, .give 1 27, flush 1, .give 2 28, flush 2,
   .give 1 29, flush 1, .give 2 30, flush 2, .give 1 31, flush 1, .call 1 (.reset 2), .call 1 .tick, flush 1, .give 2 34, flush 2, .give 1 35,
   flush 1, .give 2 36, flush 2, .give 1 37, flush 1, .give 2 38, flush 2, .give 1 39, .call 1 .takeCommitted, .call 3 .tick, flush 3,
   .give 2 45, flush 2, .give 3 46]

/-- What `p` has at `i`. -/
def logAt (T : Table) (p i : Nat) : Option (Nat × Inner) := match look p T.rows with
  | some (s, _) => (s.log.at? i).map fun e => (e.term, e.inner)
  | none => none

theorem logAt_spec {T : Table} {p i t : Nat} {x : Inner} (h : logAt T p i = some (t, x)) :
    ∃ e, InLog T.world p i e ∧ e.term = t ∧ e.inner = x := by
  unfold logAt at h
  split at h
  · rename_i s A hl
    obtain ⟨e, h1, h2⟩ := Option.map_eq_some_iff.mp h
    cases h2
    exact ⟨e, ⟨s, by simp [Table.world, hl], h1⟩, rfl, rfl⟩
  · cases h

def asksNothing (T : Table) : Bool := T.asked.all fun i => match i with
  | .membership _ => false
  | _ => true

theorem asksNothing_spec {g : Setting Nat} {T : Table} (h : asksNothing T = true) : FixedVoters g T.world := by
  rintro m ⟨gr, h1, _⟩
  have := List.all_eq_true.mp h _ h1
  cases this

theorem heavyTrio_proper : Proper heavyTrio :=
  ⟨⟨by simp [heavyTrio, SSorted], by simp [heavyTrio, SSorted]⟩, by simp [heavyTrio], by simp [heavyTrio], by simp [heavyTrio]⟩

theorem lack_outcome : ∃ W : World Nat, Reachable heavyTrio W ∧ NoCollision heavyTrio.v W.Hashed ∧ FixedVoters heavyTrio W ∧ Leads W 1 3 ∧
    Leads W 3 4 ∧ (∃ e, Committed W 1 3 e ∧ e.inner = .data [7]) ∧ (W.applied 1).map (·.inner) = [.notSet, .data [5], .data [7]] ∧
    (∃ e, InLog W 1 3 e ∧ e.term = 1 ∧ e.inner = .data [7]) ∧ (∃ e, InLog W 2 3 e ∧ e.term = 1 ∧ e.inner = .data [7]) ∧
    ∃ e, InLog W 3 3 e ∧ e.term = 2 ∧ e.inner = .notSet := by
  have h : (match play heavyTrio ⟨1, 1, 1024, 100⟩ lackActs Table.none with
      | some T => noColl (hashedBy T) && asksNothing T && leadsIn T 1 3 && leadsIn T 3 4 && decide (committedAt T 1 3 = some (.data [7])) &&
          decide (logAt T 1 3 = some (1, .data [7])) && decide (logAt T 2 3 = some (1, .data [7])) && decide (logAt T 3 3 = some (2, .notSet)) &&
          decide ((appliedOf (look 1 T.rows)).map (·.inner) = [.notSet, .data [5], .data [7]])
      | none => false) = true := by
    set_option maxRecDepth 100000 in decide +kernel
  split at h
  · rename_i T hT
    simp only [Bool.and_eq_true, decide_eq_true_eq] at h
    obtain ⟨⟨⟨⟨⟨⟨⟨⟨h1, h2⟩, h3⟩, h4⟩, h5⟩, h6⟩, h7⟩, h8⟩, h9⟩ := h
    refine ⟨T.world, play_reachable hT, noColl_table h1, asksNothing_spec h2, leadsIn_spec h3, leadsIn_spec h4, committedAt_spec h5, h9,
      logAt_spec h6, logAt_spec h7, logAt_spec h8⟩
  · cases h

/-- **C76** is false of the code: a replica leads term 4 with an entry at index 3 that is not the one committed there in term 3 and handed to a
database. No replica crashed, no message was forged and nobody asked for a change of the voters. -/
theorem C76_false_leader_lacks : ∃ (W : World Nat) (e e' : Entry), Proper heavyTrio ∧ Reachable heavyTrio W ∧
    NoCollision heavyTrio.v W.Hashed ∧ SerInj heavyTrio.v ∧ FixedVoters heavyTrio W ∧ Leads W 1 3 ∧ Leads W 3 4 ∧ Committed W 1 3 e ∧
    e.inner = .data [7] ∧ (W.applied 1).map (·.inner) = [.notSet, .data [5], .data [7]] ∧ InLog W 3 3 e' ∧ e ≠ e' := by
  obtain ⟨W, h1, h2, h3, h4, h5, ⟨e, h6, h7⟩, ha, _, _, e', h8, _, h9⟩ := lack_outcome
  exact ⟨W, e, e', heavyTrio_proper, h1, h2, serInj_steady, h3, h4, h5, h6, h7, ha, h8, fun he => by rw [he, h9] at h7; cases h7⟩

/-- What C75 and C76 speak about happens: two logs have an entry of term 1 at index 3, another has one of term 2 there, and one has committed
index 3. -/
example : ∃ (W : World Nat) (e e' d : Entry) (s : Node Nat), Proper heavyTrio ∧ Reachable heavyTrio W ∧ NoCollision heavyTrio.v W.Hashed ∧
    SerInj heavyTrio.v ∧ FixedVoters heavyTrio W ∧ InLog W 1 3 e ∧ InLog W 2 3 e' ∧ e.term = e'.term ∧ Committed W 1 3 e ∧
    W.node 3 = some s ∧ s.log.at? 3 = some d ∧ e ≠ d ∧ Seen W 3 e := by
  obtain ⟨W, h1, h2, h3, _, _, ⟨e, h4, h5⟩, _, ⟨e1, ⟨s1, i1, i2⟩, i3, i4⟩, ⟨e2, j1, j2, j3⟩, d, ⟨s, k1, k2⟩, k3, k4⟩ := lack_outcome
  obtain ⟨s', a1, a2, a3⟩ := h4
  rw [i1] at a1
  cases a1
  obtain rfl : e1 = e := Option.some.inj (i2.symm.trans a3)
  exact ⟨W, e1, e2, d, s, heavyTrio_proper, h1, h2, serInj_steady, h3, ⟨s1, i1, i2⟩, j1, by rw [i3, j2], ⟨s1, i1, a2, i2⟩, k1, k2,
    (fun he => by rw [he, k3] at i3; cases i3), .log 1 ⟨s1, i1, i2⟩⟩

end Svr.Props.Matching
