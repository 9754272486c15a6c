import Verif.Core.Relinquish
import Verif.Props.Complete

/-!
# C104: what a host learns when it asks for leadership to be handed over

The host of a leader is given the verdict of the handler that `awaited` describes on the entry which the replica commits at that
index (C37).
-/

namespace Svr.Props.Relinquish
open Svr Svr.Core Svr.Raft Svr.Raft.Node Svr.Raft.Play Svr.Props.RaftGroup Svr.Props.Progress Svr.Props.Matching Svr.Props.Complete

variable {P : Type} [LinearOrder P] {E : Type}

/-- Some replica has been the leader of term `t`. -/
def HadLeader (W : World P) (t : Nat) : Prop := ∃ q s m, W.node q = some s ∧ (t, m) ∈ s.led

/-- The group after replica `p` is asked to give up leadership. -/
structure Asked (g : Setting P) (W : World P) (p : P) (s s1 : Node P) (W1 : World P) : Prop where
  node : W.node p = some s
  leads : s.role = .leader
  fits : (Op.relinquish : Op P).Fits s
  run : ∃ rand path, Op.relinquish.run (g.env rand path) s = .ok (s1, .nothing)
  after : W1 = W.put p s1 (W.applied p) [] []

theorem Asked.next {g : Setting P} {W W1 : World P} {p : P} {s s1 : Node P} (h : Asked g W p s s1 W1) : Next g W W1 := by
  obtain ⟨rand, path, hr⟩ := h.run
  have := Next.call (g := g) (W := W) p s s1 .relinquish .nothing rand path h.node trivial h.fits hr
  rw [h.after]
  simpa [Obs.entries, Obs.messages, Op.requests] using this

/-- **C104, as far as it holds.** If the entry that the leader appends on the request found room, a host that is told of success
knows that the next term has had a leader, and that its replica does not lead the term any more in which it was asked. What is missing:
that the leader of the next term is another replica. -/
theorem C104_leadership_ended_partial {g : Setting P} (hg : Proper g) {W W1 W2 : World P} (h : Reachable g W) {p : P} {s s1 : Node P}
    (ha : Asked g W p s s1 W1) (hroom : s.log.lastIdx < s1.log.lastIdx) (k : Future g W1 W2) (hn : NoCollision g.v W2.Hashed)
    (hser : SerInj g.v) (hv : FixedVoters g W2) {e : Entry} {eff : Option E} {w : Nat} (hc : Committed W2 p (awaited s1 w).1 e)
    (ht : verdict e eff (awaited s1 w).2 = .success e eff) : HadLeader W2 (s.term + 1) ∧ ¬ Leads W2 p s.term := by
  have h1 : Reachable g W1 := h.next ha.next
  have hterm : e.term = s.term + 1 := by
    obtain ⟨rand, path, hr⟩ := ha.run
    obtain ⟨s2, hr, hx⟩ := Out.bind_eq_ok.mp hr
    cases hx
    have hl := relinquish_lastTerm (v := g.env rand path) (h.shaped p s ha.node) ha.leads hr hroom
    unfold verdict at ht
    split at ht
    · cases ht
    · rename_i hne
      have hf := ha.fits.2
      have he : wadd s1.log.lastTerm 1 = e.term := by simpa [awaited] using hne
      rw [hl, wadd, Nat.mod_eq_of_lt hf] at he
      exact he.symm
  obtain ⟨_, _, σ, S, _, h2, _⟩ := two_trees hg h1 k hn hser hv
  obtain ⟨s2, a1, _, a3⟩ := hc
  obtain ⟨F, hF⟩ := h2.inv.get a1
  obtain ⟨c1, _, _, c4⟩ := (h2.inv.ok _ _ _ hF).log.at_some a3
  obtain ⟨H, tr⟩ := h2.tree
  have hH := tr.hist _ _ _ hF _ _ c4
  constructor
  · obtain ⟨q, sq, Fq, m, b1, b2⟩ := tr.made _ _ hH
    refine ⟨q, sq, m, ?_, hterm ▸ b2⟩
    have := h2.inv.same q
    rw [b1] at this
    exact this.symm
  · rintro ⟨s3, d1, d2, d3⟩
    rw [a1] at d1
    cases d1
    have := (tr.sub _ _ (tr.lead _ _ _ hF d2).1 _ _ c4).2
    omega

/-! ### The hypotheses are met, and where the full claim fails -/

/-- Replica 1 leads term 1 and has its first entry everywhere; -/
def firstActs : List Act :=
  [.start 1, .start 2, .start 3, .call 1 .tick, flush 1, .give 2 0, .give 3 0, flush 2, flush 3, .give 1 1, .give 1 2, flush 1,
   .give 2 3, .give 3 4, flush 2, flush 3, .give 1 5, .give 1 6, flush 1, .give 2 7, .give 3 8, flush 2, flush 3, .give 1 9, .give 1 10]

/-- being asked, it hands over to replica 2, which has confirmed the new entry; -/
def handActs : List Act :=
  [flush 1, .give 2 11, .give 3 12, .give 2 13, .give 3 14, flush 2, flush 3, .give 1 15, .give 1 16, .give 1 17, .give 1 18, flush 1,
   .give 2 19, .give 3 20, flush 2, flush 3, .give 1 22, .give 1 23]

/-- the message that tells replica 2 so is lost, and replica 1 is elected again; -/
def againActs : List Act :=
  [.call 1 .tick, flush 1, .give 2 24, flush 2, .give 1 25, flush 1, .give 2 26, flush 2, .give 1 28, flush 1, .give 2 29, flush 2,
   .give 1 31, flush 1, .give 2 32, flush 2, .give 1 34]

/-- or replica 2 gets the message, is not elected in the next term, as its requests are lost, but is in the one after. -/
def laterActs : List Act :=
  [.give 2 21, flush 2, .call 2 .tick, flush 2, .give 1 25, flush 1, .give 2 26, flush 2, .give 1 27, flush 1, .give 2 29, flush 2,
   .give 1 30, flush 1, .give 2 32, flush 2, .give 1 33, flush 1, .give 2 35]

def quick : RaftCfg := ⟨1, 1, 1024, 100⟩

/-- `f` of the replica before and after the request, and of the group in the end. -/
def story (acts : List Act) (f : Node Nat → Node Nat → Node Nat → Table → Bool) : Bool :=
  match play heavyTrio quick firstActs Table.none with
  | some T => match look 1 T.rows, step heavyTrio quick T (.call 1 .relinquish) with
    | some (s, _), some T1 => match look 1 T1.rows, play heavyTrio quick (handActs ++ acts) T1 with
      | some (s1, _), some T2 => match look 1 T2.rows with
        | some (s2, _) => noColl (hashedBy T2) && asksNothing T2 && f s s1 s2 T2
        | none => false
      | _, _ => false
    | _, _ => false
  | none => false

set_option maxRecDepth 100000 in
theorem again_story : story againActs (fun s s1 s2 T => decide (s.role = .leader ∧ s.term = 1 ∧ s.log.lastIdx < s1.log.lastIdx ∧
    (awaited s1 0).1 ≤ s2.commit ∧ (s2.log.at? (awaited s1 0).1).map Entry.term = some (awaited s1 0).2.term) && leadsIn T 1 2) = true := by
  decide +kernel

set_option maxRecDepth 100000 in
theorem later_story : story laterActs (fun s s1 s2 T => decide (s.role = .leader ∧ s.term = 1 ∧ s.log.lastIdx < s1.log.lastIdx ∧
    (awaited s1 0).1 ≤ s2.commit ∧ (s2.log.at? (awaited s1 0).1).map Entry.term = some 3 ∧ (awaited s1 0).2.term = 2) && leadsIn T 2 3) = true := by
  decide +kernel

theorem step_asked {g : Setting Nat} {T T1 : Table} {s : Node Nat} {A : List Entry} (hl : look 1 T.rows = some (s, A)) (hr : s.role = .leader)
    (h : step g quick T (.call 1 .relinquish) = some T1) :
    ∃ s1 A1, look 1 T1.rows = some (s1, A1) ∧ Asked g T.world 1 s s1 T1.world := by
  simp only [step, isReceive, Bool.false_eq_true, if_false, callStep, hl] at h
  split at h
  · rename_i hf
    split at h
    · rename_i s1 o ho
      cases h
      obtain ⟨s2, h1, h2⟩ := Out.bind_eq_ok.mp ho
      cases h2
      have hA : T.world.applied 1 = A := by simp [Table.world, hl, appliedOf]
      refine ⟨s1, _, by rw [look_place, if_pos rfl], by simp [Table.world, hl], hr, Op.fits_iff hf, ⟨g.v.rand, g.v.path, ho⟩, ?_⟩
      rw [put_world, hA]
      simp [Obs.entries, Obs.messages, Op.requests]
    · cases h
  · cases h

/-- The request was made of a leader, in a group whose messages were sent by its replicas, and `f` holds. -/
theorem story_spec {acts : List Act} {f : Node Nat → Node Nat → Node Nat → Table → Bool} (h : story acts f = true)
    (hf : ∀ s s1 s2 T, f s s1 s2 T = true → s.role = .leader) :
    ∃ (W W1 : World Nat) (T2 : Table) (s s1 s2 : Node Nat), Reachable heavyTrio W ∧ Asked heavyTrio W 1 s s1 W1 ∧ Future heavyTrio W1 T2.world ∧
      NoCollision heavyTrio.v T2.world.Hashed ∧ FixedVoters heavyTrio T2.world ∧ T2.world.node 1 = some s2 ∧ f s s1 s2 T2 = true := by
  unfold story at h
  split at h
  · rename_i T hT
    split at h
    · rename_i s A T1 hl hT1
      split at h
      · rename_i s1 A1 T2 hl1 hT2
        split at h
        · rename_i s2 A2 hl2
          simp only [Bool.and_eq_true] at h
          obtain ⟨⟨h1, h2⟩, h3⟩ := h
          obtain ⟨s1', A1', k1, k2⟩ := step_asked hl (hf _ _ _ _ h3) hT1
          rw [hl1] at k1
          cases k1
          exact ⟨T.world, T1.world, T2, s, s1, s2, play_reachable hT, k2, play_future hT2 .now, noColl_table h1, asksNothing_spec h2,
            by simp [Table.world, hl2], h3⟩
        · cases h
      · cases h
    · cases h
  · cases h

theorem success_of_term {e : Entry} {eff : Option E} {t : LogTx} (h : e.term = t.term) (hh : t.hash = []) : verdict e eff t = .success e eff := by
  unfold verdict
  rw [if_neg (by rw [h]; simp), if_neg (by rw [hh]; simp)]

theorem cancelled_of_term {e : Entry} {eff : Option E} {t : LogTx} (h : e.term ≠ t.term) : verdict e eff t = .cancelled := by
  unfold verdict
  rw [if_pos (Ne.symm h)]

/-- **C104 is false of the code**: a host is told of success, though its own replica leads the group. All that
`C104_leadership_ended_partial` asks for holds. -/
theorem C104_still_leads : ∃ (W W1 W2 : World Nat) (s s1 : Node Nat) (e : Entry), Proper heavyTrio ∧ SerInj heavyTrio.v ∧ Reachable heavyTrio W ∧
    Asked heavyTrio W 1 s s1 W1 ∧ s.log.lastIdx < s1.log.lastIdx ∧ Future heavyTrio W1 W2 ∧ NoCollision heavyTrio.v W2.Hashed ∧
    FixedVoters heavyTrio W2 ∧ Committed W2 1 (awaited s1 0).1 e ∧ verdict e (none : Option Unit) (awaited s1 0).2 = .success e none ∧
    Leads W2 1 (s.term + 1) := by
  obtain ⟨W, W1, T2, s, s1, s2, h1, h2, h3, h4, h5, h6, h7⟩ := story_spec again_story (fun s s1 s2 T h => by
    simp only [Bool.and_eq_true, decide_eq_true_eq] at h; exact h.1.1)
  simp only [Bool.and_eq_true, decide_eq_true_eq] at h7
  obtain ⟨⟨a1, a2, a3, a4, a5⟩, a6⟩ := h7
  obtain ⟨e, b1, b2⟩ := Option.map_eq_some_iff.mp a5
  exact ⟨W, W1, T2.world, s, s1, e, heavyTrio_proper, serInj_steady, h1, h2, a3, h3, h4, h5, ⟨s2, h6, a4, b1⟩, success_of_term b2 rfl,
    by rw [a2]; exact leadsIn_spec a6⟩

/-- The other way round: the replica to which leadership was handed over leads, and the host is told of an error. -/
theorem C104_error_though_handed_over : ∃ (W W1 W2 : World Nat) (s s1 : Node Nat) (e : Entry), Proper heavyTrio ∧ SerInj heavyTrio.v ∧
    Reachable heavyTrio W ∧ Asked heavyTrio W 1 s s1 W1 ∧ s.log.lastIdx < s1.log.lastIdx ∧ Future heavyTrio W1 W2 ∧
    NoCollision heavyTrio.v W2.Hashed ∧ FixedVoters heavyTrio W2 ∧ Committed W2 1 (awaited s1 0).1 e ∧
    verdict e (none : Option Unit) (awaited s1 0).2 = .cancelled ∧ Leads W2 2 (s.term + 2) := by
  obtain ⟨W, W1, T2, s, s1, s2, h1, h2, h3, h4, h5, h6, h7⟩ := story_spec later_story (fun s s1 s2 T h => by
    simp only [Bool.and_eq_true, decide_eq_true_eq] at h; exact h.1.1)
  simp only [Bool.and_eq_true, decide_eq_true_eq] at h7
  obtain ⟨⟨a1, a2, a3, a4, a5, a7⟩, a6⟩ := h7
  obtain ⟨e, b1, b2⟩ := Option.map_eq_some_iff.mp a5
  exact ⟨W, W1, T2.world, s, s1, e, heavyTrio_proper, serInj_steady, h1, h2, a3, h3, h4, h5, ⟨s2, h6, a4, b1⟩,
    cancelled_of_term (by rw [b2, a7]; decide), by rw [a2]; exact leadsIn_spec a6⟩

end Svr.Props.Relinquish
