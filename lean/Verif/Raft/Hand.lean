import Verif.Raft.Ops

/-!
# Who is asked to take over

What a leader's table says about followers' logs, and which functions send `timeout_now`.
-/

namespace Svr.Raft.Node
variable {P : Type} [LinearOrder P] {v : Env P} {inp : Inp P}

/-! ### The leader's table -/

/-- The index in each row was acknowledged in this term, with the hash that the leader's log has there. -/
def Rows (A : P → Nat → Nat → Bytes → Prop) (s : Node P) : Prop :=
  s.role = .leader → ∀ p r, s.followers.find p = some r → r.mtch = 0 ∨ (r.mtch ≤ s.log.lastIdx ∧
    ∃ h, A p s.term r.mtch h ∧ ∀ e, s.log.at? r.mtch = some e → e.hash = h)

theorem fold_zero (f : OMap P Repl → P → OMap P Repl)
    (hf : ∀ fs q y r, (f fs q).find y = some r → fs.find y = some r ∨ r.mtch = 0) :
    ∀ (l : List P) (fs : OMap P Repl) (y : P) (r : Repl), (l.foldl f fs).find y = some r → fs.find y = some r ∨ r.mtch = 0
  | [], _, _, _, h => .inl h
  | q :: t, fs, y, r, h => by
    rcases fold_zero f hf t (f fs q) y r h with h1 | h1
    · exact hf fs q y r h1
    · exact .inr h1

theorem handleMembershipChange_zero {s : Node P} {y : P} {r : Repl}
    (h : s.handleMembershipChange.followers.find y = some r) : s.followers.find y = some r ∨ r.mtch = 0 := by
  unfold handleMembershipChange at h
  split at h
  · have h1 := OMap.mem_list.mp (List.mem_of_mem_filter (OMap.mem_list.mpr h))
    refine fold_zero _ ?_ _ _ y r h1
    intro fs q y r h2
    split at h2
    · rw [OMap.find_insert] at h2
      split at h2
      · cases h2; exact .inr rfl
      · exact .inl h2
    · exact .inl h2
  · exact .inl h

theorem maybeChange_zero {s : Node P} {y : P} {r : Repl}
    (h : s.maybeChangeUncommitted.followers.find y = some r) : s.followers.find y = some r ∨ r.mtch = 0 := by
  unfold maybeChangeUncommitted at h
  generalize promoteCommitted s.commit s.uncommitted s.mem = pr at h
  obtain ⟨u1, m⟩ := pr
  simp only at h
  split at h
  · have h1 := handleMembershipChange_zero h
    exact h1
  · exact .inl h

theorem Rows.vacuous {A : P → Nat → Nat → Bytes → Prop} {s : Node P} (h : s.role ≠ .leader) : Rows A s := fun k => absurd k h

theorem Rows.weaken {A B : P → Nat → Nat → Bytes → Prop} {s : Node P} (R : Rows A s) (h : ∀ p t i hh, A p t i hh → B p t i hh) :
    Rows B s := by
  intro hr p r hp
  rcases R hr p r hp with h0 | ⟨b1, hh, b2, b3⟩
  · exact .inl h0
  · exact .inr ⟨b1, hh, h _ _ _ _ b2, b3⟩

theorem Atom.heardRows {A : P → Nat → Nat → Bytes → Prop} {s s' : Node P} (h : Atom v inp s s') (hs : s.Shaped v) (R : Rows A s)
    (hA : ∀ frm g t mt l a hh, inp = .msg frm ⟨g, t, .appResp true mt l a hh⟩ → A frm t mt hh) : Rows A s' := by
  cases h with
  | misc => exact R
  | table f h =>
    intro hr p r hf
    cases h0 : s.followers.find p with
    | none => rw [(h p).1 h0] at hf; cases hf
    | some r0 =>
      obtain ⟨r1, h1, h2, _⟩ := (h p).2 r0 h0
      rw [h1] at hf
      cases hf
      rw [h2]
      exact R hr p r0 h0
  | demote => exact .vacuous (by simp [setRole])
  | raise => exact .vacuous (by simp [setRole])
  | campaign => exact .vacuous (by simp [setRole])
  | grant => exact R
  | voted => exact R
  | lead =>
    intro _ p r hf
    left
    rcases fold_zero _ (by
      intro fs q y r h2
      split at h2
      · exact .inl h2
      · rw [OMap.find_insert] at h2
        split at h2
        · cases h2; exact .inr rfl
        · exact .inl h2) _ _ p r hf with h1 | h1
    · cases h1
    · exact h1
  | hash => exact R
  | append _ e r hh hm hw h _ =>
    rcases logAppend_eq h with ⟨rfl, _⟩ | ⟨l, er, h1, rfl, _⟩ | ⟨l, h1, _, h2⟩
    · exact R
    · obtain ⟨_, a1, _, a2, _, _⟩ := Shape.append hs h1
      intro hr p r hf
      rcases R hr p r hf with h0 | ⟨b1, hb, b2, b3⟩
      · exact .inl h0
      · exact .inr ⟨by show _ ≤ l.lastIdx; omega, hb, b2, fun e he => b3 e (a2 _ _ b1 he)⟩
    · obtain ⟨_, a1, _, a2, _, _⟩ := Shape.append hs h1
      have key : Rows A ({ s with log := l } : Node P) := by
        intro hr p r hf
        rcases R hr p r hf with h0 | ⟨b1, hb, b2, b3⟩
        · exact .inl h0
        · exact .inr ⟨by show _ ≤ l.lastIdx; omega, hb, b2, fun e he => b3 e (a2 _ _ b1 he)⟩
      rcases h2 with ⟨rfl, _⟩ | ⟨_, m, _, _, h3⟩
      · exact key
      · obtain ⟨e1, f, e2⟩ := addUncommitted_eq h3
        intro hr p r hf
        have hl : s'.log = l ∧ s'.term = s.term ∧ s'.role = s.role := by rw [e2]; exact ⟨rfl, rfl, rfl⟩
        rw [hl.1, hl.2.1]
        rw [e1] at hf
        rcases handleMembershipChange_zero hf with h4 | h4
        · exact key (by rw [← hl.2.2]; exact hr) p r h4
        · exact .inl h4
  | cut idx hr =>
    obtain ⟨u, m, f, h⟩ := maybeChangeUncommitted_eq ({ s with log := (s.log.cancelFrom idx).1 } : Node P)
    rw [h]
    exact .vacuous (by simp [hr])
  | advance _ hr h =>
    obtain ⟨np, nc, _, _, s1, h1, h2⟩ := maybeAdvance_eq hr h
    have key : Rows A s1 ∧ s1.log = s.log ∧ s1.term = s.term := by
      split at h1
      · obtain ⟨u, m, f, h3⟩ := maybeChangeUncommitted_eq
          ({ s with promise := max np s.promise, commit := nc, cfgs := s.cfgs ++ [s.membership] } : Node P)
        have e : s1.log = s.log ∧ s1.term = s.term := by rw [h1, h3]; exact ⟨rfl, rfl⟩
        refine ⟨?_, e⟩
        intro _ p r hf
        rw [e.1, e.2]
        rw [h1] at hf
        rcases maybeChange_zero hf with h4 | h4
        · exact R hr p r h4
        · exact .inl h4
      · rw [h1]; exact ⟨R, rfl, rfl⟩
    rcases h2 with rfl | rfl
    · exact key.1
    · intro hr1 p r hf
      simp only [OMap.find_mapV] at hf
      cases h0 : s1.followers.find p with
      | none => rw [h0] at hf; cases hf
      | some r0 =>
        rw [h0] at hf
        cases hf
        exact key.1 hr1 p r0 h0
  | follow _ _ _ _ _ _ _ _ _ _ _ hr =>
    obtain ⟨u, m, f, h⟩ := followLeader_eq s _ _
    rw [h]
    exact .vacuous (by simp [hr])
  | ack frm g mt l a h r0 hi hr hf hm =>
    intro _ p r hp
    simp only at hp ⊢
    rw [OMap.find_insert] at hp
    split at hp
    · rename_i e
      subst e
      cases hp
      unfold replSuccess
      simp only
      split
      · rcases hm with h0 | ⟨e, h1, h2⟩
        · exact .inl h0
        · refine .inr ⟨((Shape.at_iff hs mt).mp (by rw [h1]; rfl)).2, h, hA _ _ _ _ _ _ _ hi, ?_⟩
          intro e' he'
          rw [h1] at he'
          cases he'
          exact h2
      · exact R hr _ r0 hf
    · exact R hr p r hp
  | send _ dst m hso h =>
    rcases addSendable_eq h with rfl | ⟨rfl, _⟩
    · exact R
    · exact R

theorem Steps.rows {A : P → Nat → Nat → Bytes → Prop} {s s' : Node P} (h : Steps v inp s s') (hs : s.Shaped v) (R : Rows A s)
    (hA : ∀ frm g t mt l a hh, inp = .msg frm ⟨g, t, .appResp true mt l a hh⟩ → A frm t mt hh) : Rows A s' := by
  induction h with
  | refl => exact R
  | tail h k ih => exact k.heardRows (h.shaped hs) ih hA

/-! ### Functions that ask nobody to take over -/

def isNow : Body → Bool
  | .timeoutNow => true
  | _ => false

def nows (l : List (Option P × Msg)) : List (Option P × Msg) := l.filter fun x => isNow x.2.body

/-- Nobody is asked to take over, and the leader does not begin to look for a successor. -/
structure Plain (s s' : Node P) : Prop where
  now : nows s'.sendable = nows s.sendable
  rel : s'.relinquishing = true → s.relinquishing = true

theorem Plain.refl (s : Node P) : Plain s s := ⟨rfl, id⟩

theorem Plain.trans {a b c : Node P} (h : Plain a b) (k : Plain b c) : Plain a c := ⟨k.now.trans h.now, fun x => h.rel (k.rel x)⟩

theorem Plain.of {s s' : Node P} (h : s'.sendable = s.sendable) (k : s'.relinquishing = s.relinquishing) : Plain s s' :=
  ⟨by rw [h], by rw [k]; exact id⟩

theorem Plain.role {s : Node P} {r : Role} : Plain s (s.setRole r) := ⟨rfl, fun h => by cases h⟩

theorem Plain.random {s s' : Node P} {t : Int} (h : s.randomElection v = .ok (t, s')) : Plain s s' := by
  rw [randomElection_eq h]; exact .of rfl rfl

theorem Plain.add {s s' : Node P} {d : Option P} {m : Msg} (hm : isNow m.body = false) (h : s.addSendable d m = .ok s') : Plain s s' := by
  rcases addSendable_eq h with rfl | ⟨rfl, _⟩
  · exact .refl _
  · exact ⟨by simp [nows, hm], id⟩

theorem Plain.uncommitted (s : Node P) : Plain s s.maybeChangeUncommitted := by
  obtain ⟨u, m, f, h⟩ := maybeChangeUncommitted_eq s
  rw [h]
  exact .of rfl rfl

theorem Plain.logAppend {s s' : Node P} {e : Entry} {r} (h : s.logAppend v e = .ok (s', r)) : Plain s s' := by
  rcases logAppend_eq h with ⟨rfl, _⟩ | ⟨l, er, _, rfl, _⟩ | ⟨l, _, _, h2⟩
  · exact .refl _
  · exact .of rfl rfl
  · rcases h2 with ⟨rfl, _⟩ | ⟨_, _, _, _, h4⟩
    · exact .of rfl rfl
    · obtain ⟨_, f, rfl⟩ := addUncommitted_eq h4
      exact .of rfl rfl

theorem Plain.request {s s' : Node P} {i : Inner} {r} (h : s.clientRequestInternal v i = .ok (s', r)) : Plain s s' := by
  unfold clientRequestInternal at h
  have k : Plain s (nextHash v s s.term i).2 := .of rfl rfl
  generalize nextHash v s s.term i = q at h k
  obtain ⟨hh, s1⟩ := q
  simp only at h k
  split at h
  · cases h; exact k
  · exact k.trans (Plain.logAppend h)

theorem Plain.election {s s' : Node P} (h : s.electionTimeout v = .ok s') : Plain s s' := by
  simp only [electionTimeout] at h
  have camp : ∀ {t : Int} {s1 s' : Node P} {m : Msg}, s.startCampaign.randomElection v = .ok (t, s1) →
      ({ s1 with votes := [s1.me], cElection := t } : Node P).requestVoteMessage = .ok m →
      ({ s1 with votes := [s1.me], cElection := t } : Node P).addSendable none m = .ok s' → Plain s s' := by
    intro t s1 s' m h1 h2 h3
    have a : Plain s s.startCampaign := ⟨rfl, fun h => by cases h⟩
    obtain ⟨_, _, h2⟩ := Out.bind_eq_ok.mp h2
    cases h2
    exact a.trans ((Plain.random h1).trans (Plain.trans (b := { s1 with votes := [s1.me], cElection := t }) (.of rfl rfl)
      (Plain.add rfl h3)))
  split at h
  · obtain ⟨⟨t, s1⟩, h1, h⟩ := Out.bind_eq_ok.mp h
    cases h
    exact (Plain.random h1).trans (.of rfl rfl)
  · split at h
    · cases h; exact .refl _
    · obtain ⟨⟨t, s1⟩, h1, h⟩ := Out.bind_eq_ok.mp h
      obtain ⟨m, h2, h⟩ := Out.bind_eq_ok.mp h
      exact camp h1 h2 h

theorem Plain.appendEntries {s s' : Node P} {p : P} (h : s.appendEntries v p = .ok s') : Plain s s' := by
  unfold Node.appendEntries at h
  split at h
  · cases h; exact .refl _
  split at h
  · cases h; exact .refl _
  split at h
  · cases h; exact .refl _
  split at h
  · cases h; exact .refl _
  split at h
  · cases h; exact .refl _
  rename_i r _ _ _ _ m le hm
  refine Plain.trans (b := { s with followers := s.followers.insert p { r with hb := false, upd := false, inflight := some le } })
    (.of rfl rfl) (Plain.add ?_ h)
  simp only [appendMessage] at hm
  generalize (if wsub (nextToSend r) 1 = 0 then 0 else s.log.termAt (wsub (nextToSend r) 1)) = pt at hm
  by_cases hq : pt = 0 ∧ wsub (nextToSend r) 1 ≠ 0
  · rw [if_pos hq] at hm; cases hm
  · rw [if_neg hq] at hm
    simp only [Option.some.injEq, Prod.mk.injEq] at hm
    rw [← hm.1]
    rfl

theorem Plain.sendAll : ∀ {l : List P} {s s' : Node P}, sendAll v l s = .ok s' → Plain s s'
  | [], s, s', h => by cases h; exact .refl _
  | p :: t, s, s', h => by
    simp only [Node.sendAll] at h
    split at h
    · exact Plain.sendAll h
    · obtain ⟨s1, h1, h⟩ := Out.bind_eq_ok.mp h
      exact (Plain.appendEntries h1).trans (Plain.sendAll h)

theorem appendEntries_log {s s' : Node P} {p : P} (h : s.appendEntries v p = .ok s') : s'.log = s.log := by
  unfold Node.appendEntries at h
  split at h
  · cases h; rfl
  split at h
  · cases h; rfl
  split at h
  · cases h; rfl
  split at h
  · cases h; rfl
  split at h
  · cases h; rfl
  rcases addSendable_eq h with rfl | ⟨rfl, _⟩ <;> rfl

theorem sendAll_log : ∀ {l : List P} {s s' : Node P}, Node.sendAll v l s = .ok s' → s'.log = s.log
  | [], s, s', h => by cases h; rfl
  | p :: t, s, s', h => by
    simp only [Node.sendAll] at h
    split at h
    · exact sendAll_log h
    · obtain ⟨s1, h1, h⟩ := Out.bind_eq_ok.mp h
      exact (sendAll_log h).trans (appendEntries_log h1)

theorem Plain.becomeLeader {s s' : Node P} (h : s.maybeBecomeLeader v = .ok s') : Plain s s' := by
  simp only [maybeBecomeLeader] at h
  split at h
  · cases h; exact .refl _
  split at h
  · cases h; exact .refl _
  obtain ⟨⟨s1, r⟩, h1, h⟩ := Out.bind_eq_ok.mp h
  cases h
  have k := Plain.request h1
  refine ⟨k.now, fun x => ?_⟩
  have := k.rel x
  simp [setRole] at this

theorem Plain.updateMerkle {s s' : Node P} (h : s.updateMerkle = .ok s') : Plain s s' := by
  obtain ⟨c, p, _, _, rfl⟩ := updateMerkle_eq h
  exact .of rfl rfl

theorem Plain.verifyMerkle {s s' : Node P} {b : Bool} (h : s.verifyMerkle v = .ok (s', b)) : Plain s s' := by
  obtain ⟨w, rfl⟩ := verifyMerkle_eq h
  exact .of rfl rfl

theorem Plain.verifyAndAdvance {s s' : Node P} (h : s.verifyAndAdvance v = .ok s') : Plain s s' := by
  obtain ⟨⟨s1, b⟩, h1, h⟩ := Out.bind_eq_ok.mp h
  have a := Plain.verifyMerkle h1
  simp only at h
  split at h
  · obtain ⟨s2, h2, h⟩ := Out.bind_eq_ok.mp h
    have b : Plain s1 s2 := by
      by_cases hr : s1.role = .leader
      · obtain ⟨_, _, _, _, _, _, rfl, _⟩ := advance_eq hr h2
        exact .of rfl rfl
      · unfold maybeAdvance at h2
        rw [if_pos hr] at h2
        cases h2
        exact .refl _
    exact a.trans (b.trans (Plain.updateMerkle h))
  · cases h; exact a

theorem Plain.tickRole {s s' : Node P} (h : s.tickRole v = .ok s') : Plain s s' := by
  simp only [Node.tickRole] at h
  split at h
  · split at h
    · exact Plain.trans (b := { s with fElection := s.fElection - 1 }) (.of rfl rfl) (Plain.election h)
    · cases h; exact .of rfl rfl
  · split at h
    · exact Plain.trans (b := { s with cElection := s.cElection - 1 }) (.of rfl rfl) (Plain.election h)
    · cases h; exact .of rfl rfl
  · split at h <;> cases h <;> exact .of rfl rfl

theorem Plain.resetPeer {s s' : Node P} {id : P} (h : s.resetPeer id = .ok s') : Plain s s' := by
  simp only [Node.resetPeer] at h
  split at h
  · cases h; exact .refl _
  split at h
  · cases h; exact .refl _
  · obtain ⟨m, h1, h⟩ := Out.bind_eq_ok.mp h
    obtain ⟨_, _, h1⟩ := Out.bind_eq_ok.mp h1
    cases h1
    exact Plain.add rfl h
  · split at h <;> cases h <;> exact .of rfl rfl

theorem Plain.voteRequest {s s' : Node P} {t i lt : Nat} {frm : P} (h : s.handleVoteRequest v t i lt frm = .ok s') : Plain s s' := by
  unfold handleVoteRequest at h
  split at h
  · cases h; exact .refl _
  split at h
  · obtain ⟨s1, h1, h⟩ := Out.bind_eq_ok.mp h
    obtain ⟨⟨t, s2⟩, h2, h1⟩ := Out.bind_eq_ok.mp h1
    cases h1
    exact Plain.trans (b := { s with votedFor := some frm, cast := s.cast ++ [(s.term, frm)] }) (.of rfl rfl)
      ((Plain.random h2).trans (Plain.trans (b := { s2 with fElection := t }) (.of rfl rfl) (Plain.add rfl h)))
  · exact Plain.add rfl h

theorem Plain.voteResponse {s : Node P} {t : Nat} {g : Bool} {frm : P} : Plain s (s.handleVoteResponse t g frm) := by
  unfold handleVoteResponse
  repeat' split
  all_goals exact .of rfl rfl

theorem Plain.cutConflict {s s' : Node P} {i t : Nat} (h : s.cutConflict i t = some s') : Plain s s' := by
  unfold Node.cutConflict at h
  split at h
  · split at h
    · cases h
    split at h
    · cases h
    split at h
    · cases h
    · rename_i l _
      cases h
      exact Plain.trans (b := { s with log := l }) (.of rfl rfl) (Plain.uncommitted _)
  · cases h; exact .refl _

theorem Plain.appendLoop : ∀ {es : List Entry} {i lp lp' : Nat} {s s' : Node P}, appendLoop v es i lp s = .ok (s', lp') → Plain s s'
  | [], _, _, _, s, s', h => by cases h; exact .refl _
  | e :: es, i, lp, lp', s, s', h => by
    simp only [Node.appendLoop] at h
    split at h
    · cases h; exact .refl _
    rename_i s1 h1
    have a := Plain.cutConflict h1
    split at h
    · have b : Plain s1 (s1.nextHash v e.term e.inner).2 := .of rfl rfl
      generalize s1.nextHash v e.term e.inner = q at h b
      obtain ⟨hh, s0⟩ := q
      simp only at h b
      split at h
      · cases h; exact a.trans b
      obtain ⟨⟨s2, r⟩, h2, h⟩ := Out.bind_eq_ok.mp h
      have c := a.trans (b.trans (Plain.logAppend h2))
      cases r with
      | error _ => cases h; exact c
      | ok _ => exact c.trans (Plain.appendLoop h)
    · exact a.trans (Plain.appendLoop h)

theorem Plain.accept {s s' : Node P} {lp : Nat} {frm : P} (h : s.acceptAppend lp frm = .ok s') : Plain s s' := Plain.add rfl h

theorem Plain.finish {s s' : Node P} {lp c a : Nat} {frm : P} (h : s.finishAppend v lp c a frm = .ok s') : Plain s s' := by
  unfold finishAppend at h
  split at h
  · obtain ⟨⟨s1, ok⟩, h1, h⟩ := Out.bind_eq_ok.mp h
    have k := Plain.verifyMerkle h1
    simp only at h
    split at h
    · cases h; exact k
    obtain ⟨s2, h2, h⟩ := Out.bind_eq_ok.mp h
    obtain ⟨u, m, f, e⟩ := followLeader_eq s1 (min c lp) (min a lp)
    have k2 : Plain s1 (s1.followLeader (min c lp) (min a lp)) := by rw [e]; exact .of rfl rfl
    exact k.trans (k2.trans ((Plain.updateMerkle h2).trans (Plain.accept h)))
  · exact Plain.accept h

theorem Plain.becomeFollower {s s' : Node P} {frm : P} (h : s.becomeFollower v frm = .ok (some s')) : Plain s s' := by
  unfold Node.becomeFollower at h
  split at h
  · obtain ⟨⟨t, s2⟩, h2, h⟩ := Out.bind_eq_ok.mp h
    cases h
    exact Plain.role.trans ((Plain.random h2).trans (.of rfl rfl))
  · obtain ⟨⟨t, s2⟩, h2, h⟩ := Out.bind_eq_ok.mp h
    cases h
    exact (Plain.random h2).trans (.of rfl rfl)
  · cases h

theorem Plain.followAppend {s s' : Node P} {t i : Nat} {ok : Bool} {es : List Entry} {c a : Nat} {frm : P}
    (h : s.followAppend v t i ok es c a frm = .ok s') : Plain s s' := by
  unfold Node.followAppend at h
  split at h
  · exact Plain.add rfl h
  obtain ⟨_, _, h⟩ := Out.bind_eq_ok.mp h
  obtain ⟨_, _, h⟩ := Out.bind_eq_ok.mp h
  obtain ⟨_, _, h⟩ := Out.bind_eq_ok.mp h
  obtain ⟨⟨s1, lp⟩, h1, h⟩ := Out.bind_eq_ok.mp h
  exact (Plain.appendLoop h1).trans (Plain.finish h)

theorem Plain.appendRequest {s s' : Node P} {t i pt : Nat} {es : List Entry} {c a : Nat} {frm : P}
    (h : s.handleAppendRequest v t i pt es c a frm = .ok s') : Plain s s' := by
  unfold handleAppendRequest at h
  split at h
  · cases h; exact .refl _
  split at h
  · obtain ⟨q, h1, h⟩ := Out.bind_eq_ok.mp h
    cases q with
    | none => cases h; exact .refl _
    | some s1 => exact (Plain.becomeFollower h1).trans (Plain.followAppend h)
  · exact Plain.followAppend h

theorem Plain.appendResponse {s s' : Node P} {t mt l a : Nat} {ok : Bool} {hh : Bytes} {frm : P}
    (h : s.handleAppendResponse v t ok mt l a hh frm = .ok s') : Plain s s' := by
  unfold handleAppendResponse at h
  split at h
  · cases h; exact .refl _
  split at h
  · cases h; exact .refl _
  split at h
  · cases h; exact .refl _
  split at h
  · obtain ⟨_, _, h⟩ := Out.bind_eq_ok.mp h
    cases h; exact .of rfl rfl
  · cases h; exact .of rfl rfl

theorem Plain.updateTerm {s s' : Node P} {t : Nat} (h : s.updateTerm v t = .ok s') : Plain s s' := by
  unfold Node.updateTerm at h
  split at h
  · cases h; exact .refl _
  obtain ⟨⟨k, s1⟩, h1, h⟩ := Out.bind_eq_ok.mp h
  cases h
  have a : Plain s s1 := by
    unfold keptTicks at h1
    split at h1
    · cases h1; exact .of rfl rfl
    · cases h1; exact .of rfl rfl
    · exact Plain.trans (b := { s with term := t }) (.of rfl rfl) (Plain.random h1)
  exact a.trans ⟨rfl, fun h => by cases h⟩

theorem Plain.seen (s : Node P) (frm : P) : Plain s (s.markSeen frm) := by
  unfold markSeen
  repeat' split
  all_goals exact .of rfl rfl

theorem Plain.dispatch {s s' : Node P} {m : Msg} {frm : P} (h : s.dispatch v m frm = .ok s') : Plain s s' := by
  unfold Node.dispatch at h
  split at h
  · exact Plain.voteRequest h
  · split at h
    · cases h; exact .refl _
    · cases h; exact Plain.voteResponse
  · exact Plain.appendRequest h
  · split at h
    · cases h; exact .refl _
    · exact Plain.appendResponse h
  · split at h
    · cases h; exact .refl _
    · exact Plain.election h
  · cases h; exact .refl _

/-! ### The end of a call -/

/-- In `s`, `p` is asked to take over; this leaves `s'`. -/
def Hand (s s' : Node P) (p : P) : Prop :=
  s.role = .leader ∧ s.relinquishing = true ∧ p ∈ s.membership.voting ∧ p ≠ s.me ∧
  (∃ r, s.followers.find p = some r ∧ r.mtch = s.log.lastIdx) ∧
  s'.sendable = s.sendable ++ [(some p, ⟨s.group, s.term, .timeoutNow⟩)] ∧ s'.role = .follower ∧ s'.relinquishing = false ∧
  s'.term = s.term ∧ s'.group = s.group ∧ s'.log = s.log ∧ s'.membership = s.membership ∧ s'.me = s.me

theorem tryToRelinquish_hand {s s' : Node P} (hr : s.role = .leader ∧ s.relinquishing = true) (h : s.tryToRelinquish v = .ok s') :
    s' = s ∨ ∃ p, Hand s s' p := by
  simp only [tryToRelinquish] at h
  split at h
  · cases h; exact .inl rfl
  rename_i p hp
  obtain ⟨s1, h1, h⟩ := Out.bind_eq_ok.mp h
  obtain ⟨⟨t, s2⟩, h2, h⟩ := Out.bind_eq_ok.mp h
  cases h
  have e2 := randomElection_eq h2
  have k := List.find?_some hp
  simp only [Bool.and_eq_true, decide_eq_true_eq] at k
  right
  refine ⟨p, hr.1, hr.2, List.mem_of_find?_eq_some hp, k.1, ?_, ?_⟩
  · cases hf : s.followers.find p with
    | none => rw [hf] at k; simp at k
    | some r => rw [hf] at k; exact ⟨r, rfl, by simpa using k.2⟩
  · unfold addSendable at h1
    simp only [if_neg k.1] at h1
    cases h1
    rw [e2]
    exact ⟨rfl, rfl, rfl, rfl, rfl, rfl, rfl, rfl⟩

theorem maybeChangeState_hand {s s' : Node P} (hs : s.Shaped v) (hb : s.log.lastIdx + 2 < SZ) (h : s.maybeChangeState v = .ok s') :
    ∃ s1, Plain s s1 ∧ Steps v inp s s1 ∧ (s' = s1 ∨ ∃ p, Hand s1 s' p) := by
  obtain ⟨s1, h1, h⟩ := Out.bind_eq_ok.mp h
  obtain ⟨s2, h2, h⟩ := Out.bind_eq_ok.mp h
  obtain ⟨s3, h3, h⟩ := Out.bind_eq_ok.mp h
  obtain ⟨a1, a2⟩ := maybeBecomeLeader_course (inp := inp) hs h1
  obtain ⟨b1, b2⟩ := verifyAndAdvance_course (inp := inp) h2
  obtain ⟨c1, c2⟩ := sendAll_course (inp := inp) (b1.shaped (a1.shaped hs)) (by rw [b2]; omega) h3
  refine ⟨s3, (Plain.becomeLeader h1).trans ((Plain.verifyAndAdvance h2).trans (Plain.sendAll h3)),
    (a1.trans (b1.trans c1)).steps, ?_⟩
  split at h
  · rename_i hr
    exact tryToRelinquish_hand hr h
  · cases h; exact .inl rfl

/-- A call asks nobody to take over, or one at its end. -/
theorem Op.hand {s s' : Node P} {op : Op P} {o : Obs P} (hs : s.Shaped v) (hf : op.Fits s) (h : op.run v s = .ok (s', o))
    (hn : ∀ l, o ≠ .sent l) :
    ∃ s1, nows s1.sendable = nows s.sendable ∧ (s1.relinquishing = true → s.relinquishing = true ∨ op = .relinquish) ∧
      (∃ n, Steps v op.input s { s1 with lastApplied := n }) ∧ (s' = s1 ∨ ∃ p, Hand s1 s' p) := by
  have done : ∀ {s1}, Plain s s1 → Steps v op.input s s1 → (s' = s1 ∨ ∃ p, Hand s1 s' p) →
      ∃ s1, nows s1.sendable = nows s.sendable ∧ (s1.relinquishing = true → s.relinquishing = true ∨ op = .relinquish) ∧
      (∃ n, Steps v op.input s { s1 with lastApplied := n }) ∧ (s' = s1 ∨ ∃ p, Hand s1 s' p) :=
    fun {s1} a b c => ⟨s1, a.now, fun k => .inl (a.rel k), ⟨s1.lastApplied, b⟩, c⟩
  cases op with
  | receive frm m =>
    obtain ⟨s1, h1, h⟩ := Out.bind_eq_ok.mp h
    cases h
    obtain ⟨f1, f2, f3, _⟩ := hf
    obtain ⟨q, h0, h⟩ := Out.bind_eq_ok.mp h1
    cases q with
    | some e => cases h; exact done (.refl _) (.refl _) (.inl rfl)
    | none =>
      simp only at h
      obtain ⟨s1, h1, h⟩ := Out.bind_eq_ok.mp h
      obtain ⟨s2, h2, h⟩ := Out.bind_eq_ok.mp h
      obtain ⟨a1, a2, a3, a4⟩ := updateTerm_course (inp := .msg frm m) rfl h1
      obtain ⟨b1, b2, b3, b4⟩ := markSeen_course (v := v) (inp := .msg frm m) s1 frm
      obtain ⟨c1, c2⟩ := dispatch_course (s0 := s) rfl (b1.shaped (a1.shaped hs)) (by rw [b2, a2]; omega)
        (by rw [b4, a4]; omega) h0 (by rw [b2, a2]) (by rw [b3, a3]) h2
      rw [b2, a2] at c2
      obtain ⟨s3, d1, d2, d3⟩ := maybeChangeState_hand (inp := .msg frm m) (c1.shaped (b1.shaped (a1.shaped hs))) (by omega) h
      exact done ((Plain.updateTerm h1).trans ((Plain.seen _ _).trans ((Plain.dispatch h2).trans d1)))
        (((a1.trans (b1.trans c1)).steps).trans d2) d3
  | tick =>
    obtain ⟨s1, h1, h⟩ := Out.bind_eq_ok.mp h
    cases h
    obtain ⟨f1, f2⟩ := hf
    obtain ⟨s2, h2, h1⟩ := Out.bind_eq_ok.mp h1
    obtain ⟨a1, a2⟩ := tickRole_course (inp := .none) f2 h2
    obtain ⟨s3, d1, d2, d3⟩ := maybeChangeState_hand (inp := .none) (a1.shaped hs) (by rw [a2]; omega) h1
    exact done ((Plain.tickRole h2).trans d1) (a1.steps.trans d2) d3
  | reset id =>
    obtain ⟨s1, h1, h⟩ := Out.bind_eq_ok.mp h
    cases h
    exact done (Plain.resetPeer h1) (resetPeer_course h1).steps (.inl rfl)
  | reconfigure c =>
    cases h
    exact done (s1 := s.reconfigure c) (.of rfl rfl) (reconfigure_course s c).steps (.inl rfl)
  | relinquish =>
    obtain ⟨s1, h1, h⟩ := Out.bind_eq_ok.mp h
    cases h
    obtain ⟨f1, f2⟩ := hf
    simp only [relinquishLeadership] at h1
    split at h1
    · cases h1; exact done (.refl _) (.refl _) (.inl rfl)
    obtain ⟨⟨s2, r⟩, h2, h1⟩ := Out.bind_eq_ok.mp h1
    obtain ⟨a, b⟩ := clientRequestInternal_course (inp := .none) hs ⟨.inl rfl, fun _ _ h => by cases h⟩ h2
    have c : Course v .none s2 { s2 with relinquishing := true } := miscTo
    obtain ⟨s3, d1, d2, d3⟩ := maybeChangeState_hand (inp := .none) (c.shaped (a.shaped hs)) (by simp only; omega) h1
    exact ⟨s3, d1.now.trans (Plain.request h2).now, fun _ => .inr rfl, ⟨s3.lastApplied, (a.trans c).steps.trans d2⟩, d3⟩
  | request i =>
    obtain ⟨⟨s1, r⟩, h1, h⟩ := Out.bind_eq_ok.mp h
    cases h
    obtain ⟨f1, f2⟩ := hf
    unfold logRequest at h1
    cases hc : s.logRequestCheck v i with
    | some e => rw [hc] at h1; cases h1; exact done (.refl _) (.refl _) (.inl rfl)
    | none =>
      rw [hc] at h1
      obtain ⟨⟨s2, r2⟩, h2, h1⟩ := Out.bind_eq_ok.mp h1
      obtain ⟨s4, h4, h1⟩ := Out.bind_eq_ok.mp h1
      cases h1
      obtain ⟨a, b⟩ := clientRequestInternal_course (inp := .req i) hs (logRequestCheck_asked hc) h2
      obtain ⟨s3, d1, d2, d3⟩ := maybeChangeState_hand (inp := .req i) (a.shaped hs) (by omega) h4
      exact done ((Plain.request h2).trans d1) (a.steps.trans d2) d3
  | takeCommitted =>
    obtain ⟨⟨s1, r⟩, h1, h⟩ := Out.bind_eq_ok.mp h
    cases h
    unfold takeCommittedLog at h1
    split at h1
    · cases h1; exact done (.refl _) (.refl _) (.inl rfl)
    · simp only at h1
      split at h1
      · cases h1
      · cases h1
        exact ⟨{ s with lastApplied := s.lastApplied + 1 }, rfl, .inl, ⟨s.lastApplied, .refl _⟩, .inl rfl⟩
  | takeSendable => cases h; exact absurd rfl (hn _)

end Svr.Raft.Node
