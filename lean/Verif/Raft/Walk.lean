import Verif.Raft.Shape

/-!
# Every function of the replica is a sequence of atoms
-/

namespace Svr.Raft.Node
variable {P : Type} [LinearOrder P]

/-- The sequence of atoms that leads to a state given by its fields. -/
macro "miscTo" : term => `(Atom.course (Atom.misc _ _ _ _ _ _ _ _ _ _ _ (Or.inl rfl) (Or.inl rfl)))

theorem wadd_of_lt {a b : Nat} (h : a + b < SZ) : wadd a b = a + b := Nat.mod_eq_of_lt h

theorem wsub_of_le {a b : Nat} (h : b ≤ a) (h2 : a < SZ + b) : wsub a b = a - b := by
  unfold wsub
  rw [if_pos h, Nat.mod_eq_of_lt (by omega)]

variable {v : Env P} {inp : Inp P}

theorem randomElection_eq {s s' : Node P} {t : Int} (h : s.randomElection v = .ok (t, s')) :
    s' = { s with rng := s.rng + 1 } := by
  obtain ⟨a, _, h⟩ := Out.bind_eq_ok.mp h
  simp only [Out.ok.injEq, Prod.mk.injEq] at h
  exact h.2.symm

theorem electionTimeout_course {s s' : Node P} (ht : s.term + 1 < SZ) (h : s.electionTimeout v = .ok s') :
    Course v inp s s' ∧ s'.log = s.log := by
  simp only [electionTimeout] at h
  by_cases hv : s.voting = true
  · rw [if_neg (by simp [hv])] at h
    have key : s.role ≠ .leader → ∀ (t : Int) (s1 : Node P) (m : Msg), s.startCampaign.randomElection v = .ok (t, s1) →
        requestVoteMessage ({ s1 with votes := [s1.me], cElection := t } : Node P) = .ok m →
        addSendable ({ s1 with votes := [s1.me], cElection := t } : Node P) none m = .ok s' →
        Course v inp s s' ∧ s'.log = s.log := by
      intro hr t s1 m h1 h2 h3
      have h4 := randomElection_eq h1
      subst h4
      unfold startCampaign at h2 h3
      rw [wadd_of_lt ht] at h2 h3
      refine ⟨((Atom.campaign s hv hr ht).course.trans miscTo).tail (Atom.send _ _ none m ?_ h3 ?_) (.send h3), ?_⟩
      · obtain ⟨_, _, h5⟩ := Out.bind_eq_ok.mp h2
        simp only [Out.ok.injEq] at h5
        subst h5
        exact ⟨rfl, rfl, rfl, rfl, rfl, rfl⟩
      · obtain ⟨_, _, h5⟩ := Out.bind_eq_ok.mp h2
        simp only [Out.ok.injEq] at h5
        subst h5
        trivial
      · rcases addSendable_eq h3 with h5 | ⟨h5, _⟩ <;> rw [h5] <;> rfl
    cases hr : s.role with
    | leader =>
      rw [hr] at h
      simp only [Out.ok.injEq] at h; subst h; exact ⟨Course.refl s, rfl⟩
    | follower =>
      rw [hr] at h
      obtain ⟨⟨t, s1⟩, h1, h⟩ := Out.bind_eq_ok.mp h
      obtain ⟨m, h2, h⟩ := Out.bind_eq_ok.mp h
      exact key (by simp [hr]) t s1 m h1 h2 h
    | candidate =>
      rw [hr] at h
      obtain ⟨⟨t, s1⟩, h1, h⟩ := Out.bind_eq_ok.mp h
      obtain ⟨m, h2, h⟩ := Out.bind_eq_ok.mp h
      exact key (by simp [hr]) t s1 m h1 h2 h
  · rw [if_pos (by simpa using hv)] at h
    obtain ⟨⟨t, s1⟩, h1, h⟩ := Out.bind_eq_ok.mp h
    have h2 := randomElection_eq h1
    subst h2
    simp only [Out.ok.injEq] at h
    subst h
    exact ⟨miscTo, rfl⟩

theorem gather_at {z : Sizes} {l : Log} {chunk : Nat} : ∀ {n idx total j : Nat} {e : Entry},
    (gather z l chunk n idx total)[j]? = some e → l.at? (idx + j) = some e
  | 0, idx, total, j, e, h => by simp [gather] at h
  | n + 1, idx, total, j, e, h => by
    rw [gather] at h
    cases ha : l.at? idx with
    | none => rw [ha] at h; simp at h
    | some o =>
      rw [ha] at h
      simp only at h
      split at h
      · cases j with
        | zero => simpa [ha] using h
        | succ j => simp at h
      · cases j with
        | zero => simpa [ha] using h
        | succ j =>
          simp only [List.getElem?_cons_succ] at h
          have := gather_at h
          rwa [show idx + (j + 1) = idx + 1 + j by omega]

theorem termAt_ne_zero {l : Log} {i : Nat} (h : l.termAt i ≠ 0) : ∃ o, l.at? i = some o ∧ o.term = l.termAt i := by
  unfold Log.termAt at *
  cases ha : l.at? i with
  | none => rw [ha] at h; exact absurd rfl h
  | some o => exact ⟨o, rfl, rfl⟩

theorem Shaped.le_last {s : Node P} (hs : s.Shaped v) {i : Nat} {o : Entry} (h : s.log.at? i = some o) :
    s.log.oldest ≤ i ∧ i ≤ s.log.lastIdx := (Shape.at_iff hs i).mp (by rw [h]; rfl)

theorem appendMessage_ok {s : Node P} {next le : Nat} {se : Bool} {m : Msg} {dst : Option P} (hs : s.Shaped v)
    (hb : s.log.lastIdx + 1 < SZ) (hr : s.role = .leader) (hse : se = true → next ≤ s.log.lastIdx)
    (h : s.appendMessage v next se = some (m, le)) : SendOk s dst m := by
  simp only [appendMessage] at h
  by_cases hp : (if wsub next 1 = 0 then 0 else s.log.termAt (wsub next 1)) = 0 ∧ wsub next 1 ≠ 0
  · rw [if_pos hp] at h; cases h
  rw [if_neg hp] at h
  simp only [Option.some.injEq, Prod.mk.injEq] at h
  obtain ⟨rfl, rfl⟩ := h
  have hprev : wsub next 1 = 0 ∨ ∃ o, s.log.at? (wsub next 1) = some o ∧ o.term = s.log.termAt (wsub next 1) := by
    by_cases h0 : wsub next 1 = 0
    · exact .inl h0
    · right
      rw [if_neg h0] at hp
      exact termAt_ne_zero (fun h => hp ⟨h, h0⟩)
  refine ⟨rfl, rfl, hr, ?_, ?_, Nat.min_le_left _ _, ?_⟩
  · rcases hprev with h0 | ⟨o, h1, h2⟩
    · exact .inl h0
    · by_cases h0 : wsub next 1 = 0
      · exact .inl h0
      · right
        refine ⟨o, h1, ?_, ?_⟩
        · rw [if_neg h0, h1]
        · rw [if_neg h0, h2]
  all_goals
    by_cases hse' : se = true
    swap
    · simp only [hse', Bool.false_eq_true, if_false]
      simp
    simp only [hse', if_true]
    have hn := hse hse'
    have hn1 : 1 ≤ next := by
      by_contra h0
      have h0 : next = 0 := by omega
      subst h0
      have h1 : wsub 0 1 = SZ - 1 := by
        decide
      rw [h1] at hprev
      rcases hprev with h2 | ⟨o, h2, _⟩
      · unfold SZ at h2; omega
      · have := (hs.le_last h2).2
        omega
    have hw : wsub next 1 = next - 1 := wsub_of_le hn1 (by omega)
    rw [hw]
  · intro j e he
    have := gather_at he
    rwa [show next - 1 + 1 + j = next + j by omega]
  · have hlen : next - 1 + (gather v.z s.log s.cfg.chunkBytes (s.log.lastIdx + 1 - next) next 0).length < SZ := by
      generalize hg : gather v.z s.log s.cfg.chunkBytes (s.log.lastIdx + 1 - next) next 0 = g
      cases hgl : g.length with
      | zero => omega
      | succ n =>
        obtain ⟨e, hget⟩ : ∃ e, g[n]? = some e := ⟨_, List.getElem?_eq_getElem (by omega)⟩
        rw [← hg] at hget
        have := (hs.le_last (gather_at hget)).2
        omega
    rw [wadd_of_lt hlen]
    exact Nat.min_le_right _ _

theorem SendOk.followers {s : Node P} {dst : Option P} {m : Msg} (f : OMap P Repl) (h : SendOk s dst m) :
    SendOk { s with followers := f } dst m := by
  obtain ⟨g, t, b⟩ := m
  cases b <;> exact h

theorem appendEntries_course {s s' : Node P} {p : P} (hs : s.Shaped v) (hb : s.log.lastIdx + 1 < SZ)
    (h : s.appendEntries v p = .ok s') : Course v inp s s' ∧ s'.log = s.log := by
  unfold appendEntries at h
  by_cases hr : s.role ≠ .leader
  · rw [if_pos hr] at h
    simp only [Out.ok.injEq] at h; subst h; exact ⟨Course.refl s, rfl⟩
  rw [if_neg hr] at h
  cases hf : s.followers.find p with
  | none => rw [hf] at h; simp only [Out.ok.injEq] at h; subst h; exact ⟨Course.refl s, rfl⟩
  | some r =>
    rw [hf] at h
    simp only at h
    have hse : s.sendsEntries r = true → nextToSend r ≤ s.log.lastIdx := by
      intro h
      simp only [sendsEntries, Bool.and_eq_true, decide_eq_true_eq] at h
      exact h.1
    cases b1 : s.hasMessage r with
    | false => rw [b1] at h; simp only [Bool.not_false, if_true, Out.ok.injEq] at h; subst h; exact ⟨Course.refl s, rfl⟩
    | true =>
      rw [b1] at h
      cases b2 : s.heldBack r with
      | true =>
        rw [b2] at h
        simp only [Bool.not_true, Bool.false_eq_true, if_false, if_true, Out.ok.injEq] at h
        subst h; exact ⟨Course.refl s, rfl⟩
      | false =>
        rw [b2] at h
        simp only [Bool.not_true, Bool.false_eq_true, if_false] at h
        cases ha : s.appendMessage v (nextToSend r) (s.sendsEntries r) with
        | none => rw [ha] at h; simp only [Out.ok.injEq] at h; subst h; exact ⟨Course.refl s, rfl⟩
        | some q =>
          obtain ⟨m, le⟩ := q
          rw [ha] at h
          simp only at h
          have hok := appendMessage_ok (dst := some p) hs hb (not_not.mp hr) hse ha
          have hans : ∀ q : Node P, Answers inp q (some p) m := by
            intro q
            simp only [appendMessage] at ha
            by_cases hp : (if wsub (nextToSend r) 1 = 0 then 0 else s.log.termAt (wsub (nextToSend r) 1)) = 0 ∧
                wsub (nextToSend r) 1 ≠ 0
            · rw [if_pos hp] at ha; cases ha
            · rw [if_neg hp, Option.some.injEq, Prod.mk.injEq] at ha
              rw [← ha.1]
              trivial
          refine ⟨?_, ?_⟩
          · refine (Atom.table s (s.followers.insert p
              { r with hb := false, upd := false, inflight := some le }) ?_).course.tail (Atom.send _ _ (some p) m (hok.followers _) h (hans _)) (.send h)
            intro q
            rw [OMap.find_insert]
            by_cases hq : p = q
            · subst hq
              rw [if_pos rfl]
              refine ⟨fun h0 => (by rw [hf] at h0; cases h0), fun r' hr' => ?_⟩
              rw [hf] at hr'
              cases hr'
              exact ⟨_, rfl, rfl, rfl⟩
            · rw [if_neg hq]
              exact ⟨fun h => h, fun r' hr' => ⟨r', hr', rfl, rfl⟩⟩
          · rcases addSendable_eq h with h5 | ⟨h5, _⟩ <;> rw [h5]

theorem prevHash_hashed (s : Node P) (l : List (Bytes × Bytes)) : ({ s with hashed := l } : Node P).prevHash = s.prevHash := rfl

theorem logAppend_last {s s' : Node P} {e : Entry} {r} (hs : s.Shaped v) (h : s.logAppend v e = .ok (s', r)) :
    ((∃ loc, r = .ok loc) ∧ s'.log.lastIdx = s.log.lastIdx + 1) ∨
    ((∃ er, r = .error er) ∧ s'.log.lastIdx = s.log.lastIdx) := by
  rcases logAppend_eq h with ⟨rfl, _, rfl⟩ | ⟨l, er, h1, rfl, rfl⟩ | ⟨l, h1, rfl, h2⟩
  · exact .inr ⟨⟨_, rfl⟩, rfl⟩
  · exact .inr ⟨⟨_, rfl⟩, (Shape.append hs h1).2.1⟩
  · have h3 := (Shape.append hs h1).2.1
    refine .inl ⟨⟨_, rfl⟩, ?_⟩
    rcases h2 with ⟨rfl, _⟩ | ⟨_, _, _, _, h4⟩
    · exact h3
    · obtain ⟨_, f, rfl⟩ := addUncommitted_eq h4
      exact h3

theorem clientRequestInternal_course {s s' : Node P} {i : Inner} {r} (hs : s.Shaped v)
    (hva : s.Asked v inp i) (h : s.clientRequestInternal v i = .ok (s', r)) : Course v inp s s' ∧ s'.log.lastIdx ≤ s.log.lastIdx + 1 := by
  simp only [clientRequestInternal] at h
  have a1 := Atom.hash (v := v) (inp := inp) s s.prevHash (hashInput v s.log.nextIdx s.term i)
  obtain ⟨hh, s1, hq⟩ : ∃ hh s1, s.nextHash v s.term i = (hh, s1) := ⟨_, _, rfl⟩
  rw [hq] at h
  simp only [nextHash, Prod.mk.injEq] at hq
  obtain ⟨rfl, hs1⟩ := hq
  rw [hs1] at a1
  have q1 : Quiet s s1 := by rw [← hs1]; exact ⟨rfl, rfl, rfl, rfl⟩
  simp only at h
  split at h
  · simp only [Out.ok.injEq, Prod.mk.injEq] at h
    obtain ⟨rfl, _⟩ := h
    exact ⟨a1.course q1, by rw [← hs1]; exact Nat.le_succ _⟩
  · rename_i hr
    have hr' : s1.role = .leader := by
      by_contra h0
      exact hr (.inl h0)
    refine ⟨(a1.course q1).tail (Atom.append _ _ _ r ?_ ?_ (.inl ⟨hr', rfl, by rw [← hs1]; exact hva⟩) h
      (fun h => by rw [hr'] at h; cases h)) (.append h), ?_⟩
    · rw [← hs1]; rfl
    · rw [← hs1]
      simp only [List.mem_append, List.mem_singleton]
      exact .inr rfl
    · have := logAppend_last (a1.shaped hs) h
      have h5 : s1.log = s.log := by rw [← hs1]
      rw [h5] at this
      omega

theorem maybeBecomeLeader_course {s s' : Node P} (hs : s.Shaped v) (h : s.maybeBecomeLeader v = .ok s') :
    Course v inp s s' ∧ s'.log.lastIdx ≤ s.log.lastIdx + 1 := by
  simp only [maybeBecomeLeader] at h
  by_cases hr : s.role ≠ .candidate
  · rw [if_pos hr] at h
    simp only [Out.ok.injEq] at h; subst h; exact ⟨Course.refl s, Nat.le_succ _⟩
  rw [if_neg hr] at h
  by_cases hq : s.votes.length < s.quorum
  · rw [if_pos hq] at h
    simp only [Out.ok.injEq] at h; subst h; exact ⟨Course.refl s, Nat.le_succ _⟩
  rw [if_neg hq] at h
  obtain ⟨⟨s1, r⟩, h1, h⟩ := Out.bind_eq_ok.mp h
  simp only [Out.ok.injEq] at h
  subst h
  have a := Atom.lead (v := v) (inp := inp) s (not_not.mp hr) (not_lt.mp hq)
  obtain ⟨c1, c2⟩ := clientRequestInternal_course (inp := inp) (a.shaped hs) ⟨.inl rfl, fun _ _ h => by cases h⟩ h1
  exact ⟨a.course.trans c1, c2⟩

theorem updateMerkle_eq {s s' : Node P} (h : s.updateMerkle = .ok s') :
    ∃ c p, merkleHash (s.log.at? s.commit) = .ok c ∧ merkleHash (s.log.at? s.promise) = .ok p ∧
      s' = { s with commitLeaf := c, promiseLeaf := p } := by
  obtain ⟨c, h1, h⟩ := Out.bind_eq_ok.mp h
  obtain ⟨p, h2, h⟩ := Out.bind_eq_ok.mp h
  simp only [Out.ok.injEq] at h
  exact ⟨c, p, h1, h2, h.symm⟩

theorem updateMerkle_atom {s s' : Node P} (h : s.updateMerkle = .ok s') : Atom v inp s s' := by
  obtain ⟨c, p, _, _, rfl⟩ := updateMerkle_eq h
  exact Atom.misc _ _ _ _ _ _ _ _ _ _ _ (.inl rfl) (.inl rfl)

/-- The indexes as they are, when `UpdateMerkleTree` is called with nothing changed. -/
theorem updateMerkle_agrees {s s' : Node P} (h : s.updateMerkle = .ok s') : s'.Agrees := by
  obtain ⟨c, p, h1, h2, rfl⟩ := updateMerkle_eq h
  exact ⟨h1, h2⟩

theorem updateMerkle_same {s s' : Node P} (ha : s.Agrees) (h : s.updateMerkle = .ok s') : s' = s := by
  obtain ⟨c, p, h1, h2, rfl⟩ := updateMerkle_eq h
  have e1 := h1.symm.trans ha.1
  have e2 := h2.symm.trans ha.2
  simp only [Out.ok.injEq] at e1 e2
  rw [e1, e2]

theorem verifyMerkle_eq {s s' : Node P} {b : Bool} (h : s.verifyMerkle v = .ok (s', b)) :
    ∃ w, s' = { s with walks := w } := by
  obtain ⟨c, _, h⟩ := Out.bind_eq_ok.mp h
  split at h
  · simp only [Out.ok.injEq, Prod.mk.injEq] at h; exact ⟨_, h.1.symm⟩
  · obtain ⟨p, _, h⟩ := Out.bind_eq_ok.mp h
    split at h
    · simp only [Out.ok.injEq, Prod.mk.injEq] at h; exact ⟨_, h.1.symm⟩
    · simp only [Out.ok.injEq, Prod.mk.injEq] at h; exact ⟨_, h.1.symm⟩

theorem verifyMerkle_course {s s' : Node P} {b : Bool} (h : s.verifyMerkle v = .ok (s', b)) : Course v inp s s' := by
  obtain ⟨w, rfl⟩ := verifyMerkle_eq h
  exact miscTo

theorem verifyMerkle_true {s s' : Node P} (h : s.verifyMerkle v = .ok (s', true)) :
    s'.Agrees ∧ ∃ w, v.path w = true := by
  obtain ⟨c, h1, h⟩ := Out.bind_eq_ok.mp h
  split at h
  · simp at h
  rename_i hc
  obtain ⟨p, h2, h⟩ := Out.bind_eq_ok.mp h
  split at h
  · simp at h
  rename_i hp
  simp only [Out.ok.injEq, Prod.mk.injEq, and_true] at h
  subst h
  simp only [Bool.not_eq_true', Bool.not_eq_false, Bool.and_eq_true, beq_iff_eq] at hc hp
  exact ⟨⟨by rw [hc.1]; exact h1, by rw [hp.1]; exact h2⟩, _, hc.2⟩

theorem maybeAdvance_log {s s' : Node P} (h : s.maybeAdvance = .ok s') : s'.log = s.log := by
  by_cases hr : s.role = .leader
  · obtain ⟨np, nc, _, _, s1, h1, h2⟩ := maybeAdvance_eq hr h
    have : s1.log = s.log := by
      split at h1
      · obtain ⟨u, m, f, h⟩ := maybeChangeUncommitted_eq
          ({ s with promise := max np s.promise, commit := nc, cfgs := s.cfgs ++ [s.membership] } : Node P)
        rw [h1, h]
      · rw [h1]
    rcases h2 with rfl | rfl
    · exact this
    · exact this
  · simp only [maybeAdvance, if_pos (show s.role ≠ .leader from hr), Out.ok.injEq] at h
    rw [h]

theorem verifyAndAdvance_course {s s' : Node P} (h : s.verifyAndAdvance v = .ok s') :
    Course v inp s s' ∧ s'.log = s.log := by
  obtain ⟨⟨s1, ok⟩, h1, h⟩ := Out.bind_eq_ok.mp h
  have e1 := verifyMerkle_eq h1
  simp only at h
  cases ok with
  | false =>
    simp only [Bool.false_eq_true, if_false, Out.ok.injEq] at h
    subst h
    obtain ⟨w, rfl⟩ := e1
    exact ⟨miscTo, rfl⟩
  | true =>
    simp only [if_true] at h
    obtain ⟨s2, h2, h⟩ := Out.bind_eq_ok.mp h
    have e2 := maybeAdvance_log h2
    obtain ⟨ha, w, hw⟩ := verifyMerkle_true h1
    have e3 := updateMerkle_eq h
    refine ⟨?_, ?_⟩
    · by_cases hr : s1.role = .leader
      · exact (verifyMerkle_course h1).moved (Atom.advance s1 s2 hr h2) e2 h (updateMerkle_atom h) ha w hw
      · simp only [maybeAdvance, if_pos (show s1.role ≠ .leader from hr), Out.ok.injEq] at h2
        subst h2
        rw [updateMerkle_same ha h]
        exact verifyMerkle_course h1
    · obtain ⟨c, p, _, _, rfl⟩ := e3
      obtain ⟨w, rfl⟩ := e1
      exact e2

theorem tryToRelinquish_course {s s' : Node P} (hr : s.role = .leader) (h : s.tryToRelinquish v = .ok s') :
    Course v inp s s' := by
  simp only [tryToRelinquish] at h
  split at h
  · simp only [Out.ok.injEq] at h; subst h; exact Course.refl s
  obtain ⟨s1, h1, h⟩ := Out.bind_eq_ok.mp h
  obtain ⟨⟨t, s2⟩, h2, h⟩ := Out.bind_eq_ok.mp h
  simp only [Out.ok.injEq] at h
  subst h
  have h3 := randomElection_eq h2
  subst h3
  exact (((Atom.send s s1 _ _ ⟨rfl, rfl, hr⟩ h1 trivial).course (.send h1)).tail (Atom.demote s1)).trans miscTo

theorem sendAll_course : ∀ {l : List P} {s s' : Node P}, s.Shaped v → s.log.lastIdx + 1 < SZ → sendAll v l s = .ok s' →
    Course v inp s s' ∧ s'.log = s.log
  | [], s, s', _, _, h => by simp only [sendAll, Out.ok.injEq] at h; subst h; exact ⟨Course.refl s, rfl⟩
  | p :: t, s, s', hs, hb, h => by
    simp only [sendAll] at h
    split at h
    · exact sendAll_course hs hb h
    · obtain ⟨s1, h1, h⟩ := Out.bind_eq_ok.mp h
      obtain ⟨a1, a2⟩ := appendEntries_course (inp := inp) hs hb h1
      obtain ⟨b1, b2⟩ := sendAll_course (a1.shaped hs) (by rw [a2]; exact hb) h
      exact ⟨a1.trans b1, b2.trans a2⟩

theorem maybeChangeState_course {s s' : Node P} (hs : s.Shaped v) (hb : s.log.lastIdx + 2 < SZ)
    (h : s.maybeChangeState v = .ok s') : Course v inp s s' := by
  obtain ⟨s1, h1, h⟩ := Out.bind_eq_ok.mp h
  obtain ⟨s2, h2, h⟩ := Out.bind_eq_ok.mp h
  obtain ⟨s3, h3, h⟩ := Out.bind_eq_ok.mp h
  obtain ⟨a1, a2⟩ := maybeBecomeLeader_course (inp := inp) hs h1
  obtain ⟨b1, b2⟩ := verifyAndAdvance_course (inp := inp) h2
  obtain ⟨c1, c2⟩ := sendAll_course (inp := inp) (b1.shaped (a1.shaped hs)) (by rw [b2]; omega) h3
  refine a1.trans (b1.trans (c1.trans ?_))
  split at h
  · rename_i hr
    exact tryToRelinquish_course hr.1 h
  · simp only [Out.ok.injEq] at h; subst h; exact Course.refl _

theorem tickRole_course {s s' : Node P} (ht : s.term + 1 < SZ) (h : s.tickRole v = .ok s') :
    Course v inp s s' ∧ s'.log = s.log := by
  simp only [tickRole] at h
  split at h
  · split at h
    · obtain ⟨a, b⟩ := electionTimeout_course (inp := inp) (by exact ht) h
      exact ⟨Course.trans miscTo a, b⟩
    · simp only [Out.ok.injEq] at h; subst h; exact ⟨miscTo, rfl⟩
  · split at h
    · obtain ⟨a, b⟩ := electionTimeout_course (inp := inp) (by exact ht) h
      exact ⟨Course.trans miscTo a, b⟩
    · simp only [Out.ok.injEq] at h; subst h; exact ⟨miscTo, rfl⟩
  · have ht1 : ∀ (s : Node P) (g : P → Repl → Repl), (∀ p r, (g p r).mtch = r.mtch ∧ (g p r).promise = r.promise) →
        Atom v inp s { s with followers := s.followers.mapV g } := by
      intro s g hg
      refine Atom.table s _ (fun p => ?_)
      rw [OMap.find_mapV]
      cases hf : s.followers.find p with
      | none => exact ⟨fun _ => rfl, fun r hr => (by cases hr)⟩
      | some r =>
        refine ⟨fun h => (by cases h), fun r' hr' => ?_⟩
        cases hr'
        exact ⟨_, rfl, hg p r⟩
    have a1 := ht1 s (fun _ (r : Repl) => if r.lastSeen ≠ invalidTicks then { r with lastSeen := r.lastSeen + 1 } else r)
      (by intro p r; split <;> exact ⟨rfl, rfl⟩)
    split at h
    · simp only [Out.ok.injEq] at h; subst h
      refine ⟨a1.course.trans ((ht1 _ (fun _ r => { r with hb := true }) (fun _ _ => ⟨rfl, rfl⟩)).course.trans miscTo), rfl⟩
    · simp only [Out.ok.injEq] at h; subst h
      exact ⟨a1.course.trans miscTo, rfl⟩

theorem timerTick_course {s s' : Node P} (hs : s.Shaped v) (hb : s.log.lastIdx + 2 < SZ) (ht : s.term + 1 < SZ)
    (h : s.timerTick v = .ok s') : Course v inp s s' := by
  obtain ⟨s1, h1, h⟩ := Out.bind_eq_ok.mp h
  obtain ⟨a, b⟩ := tickRole_course (inp := inp) ht h1
  exact a.trans (maybeChangeState_course (a.shaped hs) (by rw [b]; exact hb) h)

theorem resetPeer_course {s s' : Node P} {id : P} (h : s.resetPeer id = .ok s') : Course v inp s s' := by
  simp only [resetPeer] at h
  split at h
  · simp only [Out.ok.injEq] at h; subst h; exact Course.refl s
  split at h
  · simp only [Out.ok.injEq] at h; subst h; exact Course.refl s
  · rename_i hr
    obtain ⟨m, h1, h⟩ := Out.bind_eq_ok.mp h
    obtain ⟨_, _, h5⟩ := Out.bind_eq_ok.mp h1
    simp only [Out.ok.injEq] at h5
    subst h5
    refine (Atom.send s s' _ _ ?_ h trivial).course (.send h)
    exact ⟨rfl, rfl, hr, rfl, rfl, rfl⟩
  · split at h
    · simp only [Out.ok.injEq] at h; subst h; exact Course.refl s
    · rename_i r hf
      simp only [Out.ok.injEq] at h; subst h
      refine (Atom.table s _ (fun q => ?_)).course
      rw [OMap.find_insert]
      by_cases hq : id = q
      · subst hq
        rw [if_pos rfl]
        refine ⟨fun h0 => (by rw [hf] at h0; cases h0), fun r' hr' => ?_⟩
        rw [hf] at hr'
        cases hr'
        exact ⟨_, rfl, rfl, rfl⟩
      · rw [if_neg hq]
        exact ⟨fun h => h, fun r' hr' => ⟨r', hr', rfl, rfl⟩⟩

theorem reconfigure_course (s : Node P) (c : RaftCfg) : Course v (.config c) s (s.reconfigure c) :=
  Atom.course (Atom.misc _ _ _ _ _ _ _ _ _ _ _ (.inr rfl) (.inl rfl))

theorem relinquishLeadership_course {s s' : Node P} (hs : s.Shaped v) (hb : s.log.lastIdx + 3 < SZ)
    (h : s.relinquishLeadership v = .ok s') : Course v inp s s' := by
  simp only [relinquishLeadership] at h
  split at h
  · simp only [Out.ok.injEq] at h; subst h; exact Course.refl s
  obtain ⟨⟨s1, r⟩, h1, h⟩ := Out.bind_eq_ok.mp h
  obtain ⟨a, b⟩ := clientRequestInternal_course (inp := inp) hs ⟨.inl rfl, fun _ _ h => by cases h⟩ h1
  have c : Course v inp s1 { s1 with relinquishing := true } := miscTo
  exact a.trans (c.trans (maybeChangeState_course (c.shaped (a.shaped hs)) (by simp only; omega) h))

theorem validProgression_voting {leader : P} {a b : Membership P} {k : Nat} (h : validProgression leader a b k = none) :
    leader ∈ b.voting := by
  unfold validProgression at h
  by_contra hm
  simp only [hm, not_false_eq_true, if_true] at h
  repeat' split at h
  all_goals cases h

theorem logRequestCheck_asked {s : Node P} {i : Inner} (h : s.logRequestCheck v i = none) : s.Asked v (.req i) i := by
  refine ⟨.inr rfl, ?_⟩
  intro g m hi hm
  subst hi
  simp only [logRequestCheck] at h
  split at h
  · cases h
  split at h
  · cases h
  rename_i hu
  rw [hm] at h
  simp only [Option.map_eq_none_iff] at h
  exact ⟨List.eq_nil_of_length_eq_zero (not_not.mp hu), h, validProgression_voting h⟩

theorem logRequest_course {s s' : Node P} {i : Inner} {r} (hs : s.Shaped v) (hb : s.log.lastIdx + 3 < SZ)
    (h : s.logRequest v i = .ok (s', r)) : Course v (.req i) s s' := by
  simp only [logRequest] at h
  cases hchk : s.logRequestCheck v i with
  | some e =>
    rw [hchk] at h
    simp only [Out.ok.injEq, Prod.mk.injEq] at h
    obtain ⟨rfl, _⟩ := h; exact Course.refl s
  | none =>
    rw [hchk] at h
    simp only at h
    obtain ⟨⟨s1, r1⟩, h1, h⟩ := Out.bind_eq_ok.mp h
    obtain ⟨s2, h2, h⟩ := Out.bind_eq_ok.mp h
    simp only [Out.ok.injEq, Prod.mk.injEq] at h
    obtain ⟨rfl, _⟩ := h
    obtain ⟨a, b⟩ := clientRequestInternal_course hs (logRequestCheck_asked hchk) h1
    exact a.trans (maybeChangeState_course (a.shaped hs) (by simp only at *; omega) h2)

theorem handleVoteRequest_course {s s' : Node P} {frm : P} {m : Msg} {i lt : Nat} {hh : Bytes}
    (hi : inp = .msg frm m) (hm : m.body = .voteReq i lt hh)
    (h : s.handleVoteRequest v m.term i lt frm = .ok s') : Course v inp s s' ∧ s'.log = s.log := by
  simp only [handleVoteRequest] at h
  split at h
  · simp only [Out.ok.injEq] at h; subst h; exact ⟨Course.refl s, rfl⟩
  split at h
  · rename_i hg
    obtain ⟨s1, h1, h⟩ := Out.bind_eq_ok.mp h
    obtain ⟨⟨t', s2⟩, h2, h1⟩ := Out.bind_eq_ok.mp h1
    simp only [Out.ok.injEq] at h1
    subst h1
    have h3 := randomElection_eq h2
    subst h3
    simp only [grants, Bool.and_eq_true, Bool.or_eq_true, decide_eq_true_eq] at hg
    obtain ⟨⟨ht, hl⟩, hv⟩ := hg
    have hmm : m = ⟨m.group, s.term, .voteReq i lt hh⟩ := by rw [← ht, ← hm]
    have hv' : s.votedFor = none ∨ s.votedFor = some frm := by
      cases hvf : s.votedFor with
      | none => exact .inl rfl
      | some c =>
        rw [hvf] at hv
        simp only [decide_eq_true_eq] at hv
        exact .inr (by rw [hv])
    refine ⟨((Atom.grant s frm i lt hh m.group (by rw [hi, ← hmm]) hv' hl).course.trans miscTo).tail
      (Atom.send _ _ _ _ ?_ h trivial) (.send h), ?_⟩
    · exact ⟨rfl, rfl, fun _ => ⟨frm, rfl, rfl⟩⟩
    · rcases addSendable_eq h with h5 | ⟨h5, _⟩ <;> rw [h5]
  · refine ⟨(Atom.send _ _ _ _ ?_ h trivial).course (.send h), ?_⟩
    · exact ⟨rfl, rfl, fun h => by cases h⟩
    · rcases addSendable_eq h with h5 | ⟨h5, _⟩ <;> rw [h5]

theorem handleVoteResponse_course {s : Node P} {frm : P} {m : Msg} {g : Bool}
    (hi : inp = .msg frm m) (hm : m.body = .voteResp g) :
    Course v inp s (s.handleVoteResponse m.term g frm) ∧ (s.handleVoteResponse m.term g frm).log = s.log := by
  simp only [handleVoteResponse]
  by_cases ht : m.term ≠ s.term
  · rw [if_pos ht]; exact ⟨Course.refl s, rfl⟩
  rw [if_neg ht]
  by_cases hr : s.role ≠ .candidate
  · rw [if_pos hr]; exact ⟨Course.refl s, rfl⟩
  rw [if_neg hr]
  by_cases hg : g = true ∧ frm ∈ s.membership.voting
  · rw [if_pos hg]
    have hmm : m = ⟨m.group, s.term, .voteResp true⟩ := by
      rw [← not_not.mp ht, ← hg.1, ← hm]
    exact ⟨(Atom.voted s frm m.group (by rw [hi, ← hmm]) (not_not.mp hr) hg.2).course, rfl⟩
  · rw [if_neg hg]; exact ⟨Course.refl s, rfl⟩

end Svr.Raft.Node
