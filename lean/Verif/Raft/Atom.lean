import Verif.Raft.Node

/-!
# The replica's functions as sequences of small steps

Every function of the replica is shown to be a sequence of `Atom`s. An invariant then has to be looked at once per
atom. This file defines the atoms; the sequences are in `Verif/Raft/Walk.lean`.
-/

namespace Svr.Raft.Node
variable {P : Type} [LinearOrder P]

/-- The hash of entry `i` of an append request. -/
def hashIn (prevIdx : Nat) (prevHash : Bytes) (entries : List Entry) (i : Nat) : Option Bytes :=
  if i = prevIdx then some prevHash else entries[i - prevIdx - 1]?.map (·.hash)

/-- The replica's log has, at `lp`, the entry of the append request. -/
def Matches (s : Node P) (prevIdx : Nat) (prevHash : Bytes) (entries : List Entry) (lp : Nat) : Prop :=
  prevIdx ≤ lp ∧ lp ≤ prevIdx + entries.length ∧
  (lp = 0 ∨ lp ≤ s.lastApplied ∨
    ∃ o, s.log.at? lp = some o ∧ (o.term = 0 ∨ hashIn prevIdx prevHash entries lp = some o.hash))

def hashOr (l : Log) (i : Nat) : Bytes :=
  match l.at? i with
  | some e => e.hash
  | none => []

/-- What a call on a replica is given: a message and its sender, an entry to append, or a configuration. -/
inductive Inp (P : Type)
  | none
  | msg (frm : P) (m : Msg)
  | req (i : Inner)
  | config (c : RaftCfg)

/-- The leader was asked to append `i`, or `i` is the empty entry of a new leader; and if `i` is a membership, it is
a permitted next one. -/
def Asked (v : Env P) (inp : Inp P) (s : Node P) (i : Inner) : Prop :=
  (i = .notSet ∨ inp = .req i) ∧ ∀ g m, i = .membership g → fromProto (g.map fun r => (v.pid r.1, r.2)) = .ok m →
    s.uncommitted = [] ∧ validProgression s.me s.mem m s.superMajority = none ∧ s.me ∈ m.voting

/-- What a replica in state `s` may send. -/
def SendOk (s : Node P) (dst : Option P) (m : Msg) : Prop :=
  m.group = s.group ∧ m.term = s.term ∧ match m.body with
  | .voteReq i t h => s.role = .candidate ∧ i = s.log.lastIdx ∧ t = s.log.lastTerm ∧ h = hashOr s.log s.log.lastIdx
  | .voteResp g => g = true → ∃ frm, dst = some frm ∧ s.votedFor = some frm
  | .appReq prevIdx prevTerm prevHash entries commit _ =>
    s.role = .leader ∧
    (prevIdx = 0 ∨ ∃ o, s.log.at? prevIdx = some o ∧ o.hash = prevHash ∧ o.term = prevTerm) ∧
    (∀ j e, entries[j]? = some e → s.log.at? (prevIdx + 1 + j) = some e) ∧
    commit ≤ s.commit ∧ commit ≤ prevIdx + entries.length
  | .appResp ok mt l a h => l = s.log.lastIdx ∧ (ok = true → a ≤ s.promise ∧ a ≤ mt ∧ h = hashOr s.log mt)
  | .timeoutNow => s.role = .leader
  | .notSet => False

/-- A success response answers an append request of the same term: it goes to its sender, and acknowledges no more than
the request had. -/
def Answers (inp : Inp P) (s : Node P) (dst : Option P) (m : Msg) : Prop :=
  match m.body with
  | .appResp true mt _ _ _ => ∃ frm g pi pt ph es c a, inp = .msg frm ⟨g, s.term, .appReq pi pt ph es c a⟩ ∧
      dst = some frm ∧ mt ≤ pi + es.length
  | _ => True

/-- One step of a replica handling the message `inp` (if any). -/
inductive Atom (v : Env P) (inp : Inp P) : Node P → Node P → Prop
  /-- fields no other atom changes -/
  | misc (s : Node P) (cfg : RaftCfg) (fl : Option P) (fe ce hb : Int) (rel : Bool) (cl pl : Bytes) (rng walks : Nat)
    (hc : cfg = s.cfg ∨ inp = .config cfg)
    (hf : fl = s.fLeader ∨ ∃ frm g pi pt ph es c a, inp = .msg frm ⟨g, s.term, .appReq pi pt ph es c a⟩ ∧ fl = some frm) :
    Atom v inp s { s with cfg := cfg, fLeader := fl, fElection := fe, cElection := ce, heartbeat := hb,
                          relinquishing := rel, commitLeaf := cl, promiseLeaf := pl, rng := rng, walks := walks }
  /-- bookkeeping in the leader's table -/
  | table (s : Node P) (f : OMap P Repl)
    (h : ∀ p, (s.followers.find p = none → f.find p = none) ∧ ∀ r, s.followers.find p = some r →
      ∃ r', f.find p = some r' ∧ r'.mtch = r.mtch ∧ r'.promise = r.promise) :
    Atom v inp s { s with followers := f }
  | demote (s : Node P) : Atom v inp s (s.setRole .follower)
  | raise (s : Node P) (t : Nat) (h : s.term < t) (hi : ∃ p m, inp = .msg p m ∧ m.term = t) :
    Atom v inp s (({ s with term := t, votedFor := none } : Node P).setRole .follower)
  | campaign (s : Node P) (hv : s.voting = true) (hr : s.role ≠ .leader) (ht : s.term + 1 < SZ) :
    Atom v inp s { ({ s with term := s.term + 1, votedFor := some s.me,
                             cast := s.cast ++ [(s.term + 1, s.me)] } : Node P).setRole .candidate with votes := [s.me] }
  | grant (s : Node P) (frm : P) (i lt : Nat) (h : Bytes) (g : Nat) (hi : inp = .msg frm ⟨g, s.term, .voteReq i lt h⟩)
    (hv : s.votedFor = none ∨ s.votedFor = some frm)
    (hl : lt > s.log.lastTerm ∨ (lt = s.log.lastTerm ∧ i ≥ s.log.lastIdx)) :
    Atom v inp s { s with votedFor := some frm, cast := s.cast ++ [(s.term, frm)] }
  | voted (s : Node P) (frm : P) (g : Nat) (hi : inp = .msg frm ⟨g, s.term, .voteResp true⟩)
    (hr : s.role = .candidate) (hm : frm ∈ s.membership.voting) :
    Atom v inp s { s with votes := sinsert frm s.votes }
  | lead (s : Node P) (hr : s.role = .candidate) (hq : s.quorum ≤ s.votes.length) :
    Atom v inp s { s.setRole .leader with
      led := s.led ++ [(s.term, s.membership)]
      followers := s.membership.all.foldl (fun fs p =>
        if p = s.me then fs else fs.insert p { next := s.log.nextIdx }) OMap.empty }
  | hash (s : Node P) (k x : Bytes) : Atom v inp s { s with hashed := s.hashed ++ [(k, x)] }
  /-- appending to the log, successful or not -/
  | append (s s' : Node P) (e : Entry) (r : Except RErr Loc)
    (hh : e.hash = v.hmac s.prevHash (hashInput v s.log.nextIdx e.term e.inner))
    (hm : (s.prevHash, hashInput v s.log.nextIdx e.term e.inner) ∈ s.hashed)
    (hw : (s.role = .leader ∧ e.term = s.term ∧ s.Asked v inp e.inner) ∨ (s.role = .follower ∧
      ∃ frm g t pi pt ph es c a, inp = .msg frm ⟨g, t, .appReq pi pt ph es c a⟩ ∧ pi ≤ s.log.lastIdx ∧
        es[s.log.lastIdx - pi]? = some e))
    (h : s.logAppend v e = .ok (s', r)) (hy : s.role = .follower → ∃ frm m, inp = .msg frm m ∧ m.term = s.term) : Atom v inp s s'
  /-- removing conflicting entries -/
  | cut (s : Node P) (idx : Nat) (hr : s.role = .follower) (hc : s.commit < idx) (hp : s.promise < idx)
    (ht : s.log.termAt idx ≠ 0)
    (hx : ∃ frm g pi pt ph es c a e, inp = .msg frm ⟨g, s.term, .appReq pi pt ph es c a⟩ ∧ pi < idx ∧ es[idx - pi - 1]? = some e ∧
      s.log.termAt idx ≠ e.term) :
    Atom v inp s ({ s with log := (s.log.cancelFrom idx).1 } : Node P).maybeChangeUncommitted
  /-- the leader's new promise and commit index -/
  | advance (s s' : Node P) (hr : s.role = .leader) (h : s.maybeAdvance = .ok s') : Atom v inp s s'
  /-- the follower's new promise and commit index -/
  | follow (s : Node P) (frm : P) (g t pi pt : Nat) (ph : Bytes) (es : List Entry) (c a lp : Nat)
    (hi : inp = .msg frm ⟨g, t, .appReq pi pt ph es c a⟩) (hr : s.role = .follower) (hca : c ≤ a)
    (hm : s.Matches pi ph es lp) : Atom v inp s (s.followLeader (min c lp) (min a lp))
  /-- the leader notes a success response -/
  | ack (s : Node P) (frm : P) (g mt l a : Nat) (h : Bytes) (r : Repl)
    (hi : inp = .msg frm ⟨g, s.term, .appResp true mt l a h⟩) (hr : s.role = .leader)
    (hf : s.followers.find frm = some r)
    (hm : mt = 0 ∨ ∃ e, s.log.at? mt = some e ∧ e.hash = h) :
    Atom v inp s { s with followers := s.followers.insert frm (replSuccess r mt a) }
  | send (s s' : Node P) (dst : Option P) (m : Msg) (hs : SendOk s dst m) (h : s.addSendable dst m = .ok s')
    (ha : Answers inp s dst m) : Atom v inp s s'

/-- Zero or more atoms. -/
inductive Steps (v : Env P) (inp : Inp P) : Node P → Node P → Prop
  | refl (s : Node P) : Steps v inp s s
  | tail {a b c : Node P} (h : Steps v inp a b) (k : Atom v inp b c) : Steps v inp a c

theorem Steps.trans {v : Env P} {inp : Inp P} {a b c : Node P} (h : Steps v inp a b) (k : Steps v inp b c) :
    Steps v inp a c := by
  induction k with
  | refl => exact h
  | tail _ k ih => exact ih.tail k

theorem Atom.steps {v : Env P} {inp : Inp P} {a b : Node P} (h : Atom v inp a b) : Steps v inp a b :=
  (Steps.refl a).tail h

/-! ### Courses

A call is more than a sequence of atoms: the commit and promise indexes move only after `VerifyMerkleTree` accepted
the old ones, and `UpdateMerkleTree` follows. -/

/-- The leaves hold the hashes of the entries at the commit and promise index. -/
def Agrees (s : Node P) : Prop :=
  merkleHash (s.log.at? s.commit) = .ok s.commitLeaf ∧ merkleHash (s.log.at? s.promise) = .ok s.promiseLeaf

/-- Neither indexes nor leaves change. -/
structure Quiet (s s' : Node P) : Prop where
  commit : s'.commit = s.commit
  promise : s'.promise = s.promise
  commitLeaf : s'.commitLeaf = s.commitLeaf
  promiseLeaf : s'.promiseLeaf = s.promiseLeaf

/-- Atoms that leave the indexes and their leaves alone, or change both after a successful check. -/
inductive Course (v : Env P) (inp : Inp P) : Node P → Node P → Prop
  | refl (s : Node P) : Course v inp s s
  | quiet {a b c : Node P} (h : Course v inp a b) (k : Atom v inp b c) (q : Quiet b c) : Course v inp a c
  | moved {a b c d : Node P} (h : Course v inp a b) (k : Atom v inp b c) (hl : c.log = b.log) (u : c.updateMerkle = .ok d)
    (l : Atom v inp c d) (ok : b.Agrees) (w : Nat) (path : v.path w = true) : Course v inp a d

theorem Course.trans {v : Env P} {inp : Inp P} {a b c : Node P} (h : Course v inp a b) (k : Course v inp b c) :
    Course v inp a c := by
  induction k with
  | refl => exact h
  | quiet _ k q ih => exact ih.quiet k q
  | moved _ k hl u l ok w pa ih => exact ih.moved k hl u l ok w pa

theorem Course.steps {v : Env P} {inp : Inp P} {a b : Node P} (h : Course v inp a b) : Steps v inp a b := by
  induction h with
  | refl => exact .refl _
  | quiet _ k _ ih => exact ih.tail k
  | moved _ k _ _ l _ _ _ ih => exact (ih.tail k).tail l

/-! ### What the larger atoms change -/

theorem addSendable_eq {s s' : Node P} {d : Option P} {m : Msg} (h : s.addSendable d m = .ok s') :
    s' = s ∨ (s' = { s with sendable := s.sendable ++ [(d, m)] } ∧ d ≠ some s.me) := by
  unfold addSendable at h
  cases d with
  | some d =>
    simp only at h
    split at h
    · cases h
    · rename_i hd
      simp only [Out.ok.injEq] at h; exact .inr ⟨h.symm, by simpa using hd⟩
  | none =>
    simp only at h
    split at h
    · simp only [Out.ok.injEq] at h; exact .inl h.symm
    · simp only [Out.ok.injEq] at h; exact .inr ⟨h.symm, by simp⟩

theorem handleMembershipChange_eq (s : Node P) : ∃ f, s.handleMembershipChange = { s with followers := f } := by
  unfold handleMembershipChange
  split
  · exact ⟨_, rfl⟩
  · exact ⟨s.followers, rfl⟩

theorem maybeChangeUncommitted_eq (s : Node P) :
    ∃ u m f, s.maybeChangeUncommitted = { s with uncommitted := u, mem := m, followers := f } := by
  unfold maybeChangeUncommitted
  generalize promoteCommitted s.commit s.uncommitted s.mem = pr
  obtain ⟨u1, m⟩ := pr
  simp only
  split
  · obtain ⟨f, hf⟩ := handleMembershipChange_eq
      { s with uncommitted := (discardCut s.log.lastIdx u1.reverse).reverse, mem := m }
    exact ⟨_, _, f, hf⟩
  · exact ⟨_, _, s.followers, rfl⟩

theorem addUncommitted_eq {s s' : Node P} {i : Nat} {m : Membership P} (h : s.addUncommitted i m = .ok s') :
    s' = handleMembershipChange { s with uncommitted := s.uncommitted ++ [(i, m)] } ∧
    ∃ f, s' = { s with uncommitted := s.uncommitted ++ [(i, m)], followers := f } := by
  obtain ⟨_, _, h⟩ := Out.bind_eq_ok.mp h
  simp only [Out.ok.injEq] at h
  obtain ⟨f, hf⟩ := handleMembershipChange_eq { s with uncommitted := s.uncommitted ++ [(i, m)] }
  exact ⟨h.symm, f, by rw [← h, hf]⟩

theorem logAppend_eq {v : Env P} {s s' : Node P} {e : Entry} {r} (h : s.logAppend v e = .ok (s', r)) :
    (s' = s ∧ ∃ er, r = .error er) ∨
    (∃ l er, s.log.append v.z e s.lastApplied = .ok (l, some er) ∧ s' = { s with log := l } ∧ r = .error (.log er)) ∨
    (∃ l, s.log.append v.z e s.lastApplied = .ok (l, none) ∧ r = .ok ⟨s.term, l.lastIdx, e.hash⟩ ∧
      ((s' = { s with log := l } ∧ ∀ g, e.inner ≠ .membership g) ∨
       (∃ g m, e.inner = .membership g ∧ fromProto (g.map fun r => (v.pid r.1, r.2)) = .ok m ∧
        ({ s with log := l } : Node P).addUncommitted l.lastIdx m = .ok s'))) := by
  simp only [logAppend] at h
  split at h
  · rename_i er _
    simp only [Out.ok.injEq, Prod.mk.injEq] at h
    obtain ⟨rfl, rfl⟩ := h; exact .inl ⟨rfl, _, rfl⟩
  · rename_i nm hnm
    obtain ⟨⟨l, er⟩, h1, h⟩ := Out.bind_eq_ok.mp h
    simp only at h
    split at h
    · rename_i er'
      simp only [Out.ok.injEq, Prod.mk.injEq] at h
      obtain ⟨rfl, rfl⟩ := h; exact .inr (.inl ⟨l, _, h1, rfl, rfl⟩)
    · split at h
      · simp only [Out.ok.injEq, Prod.mk.injEq] at h
        obtain ⟨rfl, rfl⟩ := h
        refine .inr (.inr ⟨l, h1, rfl, .inl ⟨rfl, ?_⟩⟩)
        intro g hg
        rw [hg] at hnm
        simp only at hnm
        cases hp : fromProto (g.map fun r => (v.pid r.1, r.2)) with
        | error _ => rw [hp] at hnm; cases hnm
        | ok m => rw [hp] at hnm; cases hnm
      · rename_i m
        obtain ⟨s1, h2, h⟩ := Out.bind_eq_ok.mp h
        simp only [Out.ok.injEq, Prod.mk.injEq] at h
        obtain ⟨rfl, rfl⟩ := h
        refine .inr (.inr ⟨l, h1, rfl, .inr ?_⟩)
        cases hi : e.inner with
        | membership g =>
          rw [hi] at hnm
          simp only at hnm
          cases hp : fromProto (g.map fun r => (v.pid r.1, r.2)) with
          | error _ => rw [hp] at hnm; cases hnm
          | ok m' =>
            rw [hp] at hnm
            cases hnm
            exact ⟨g, _, rfl, hp, h2⟩
        | _ => rw [hi] at hnm; cases hnm

/-- A bind-free description of `maybeAdvance` for a leader. -/
theorem maybeAdvance_eq {s s' : Node P} (hr : s.role = .leader) (h : s.maybeAdvance = .ok s') :
    ∃ np nc, nth1 (sortDesc (s.votingFollowers.map (·.mtch) ++ [s.log.lastIdx])) s.quorum = .ok np ∧
      nth1 (sortDesc (s.votingFollowers.map (·.promise) ++ [max np s.promise])) s.quorum = .ok nc ∧
      ∃ s1 : Node P, s1 = (if nc > s.commit then
          ({ s with promise := max np s.promise, commit := nc, cfgs := s.cfgs ++ [s.membership] } : Node P).maybeChangeUncommitted
        else { s with promise := max np s.promise }) ∧
      (s' = s1 ∨ s' = { s1 with followers := s1.followers.mapV (fun _ r => { r with upd := true }) }) := by
  simp only [maybeAdvance] at h
  rw [if_neg (by simp [hr])] at h
  obtain ⟨np, h1, h⟩ := Out.bind_eq_ok.mp h
  have hmax : (if np > s.promise then np else s.promise) = max np s.promise := by
    split <;> omega
  rw [hmax] at h
  obtain ⟨nc, h2, h⟩ := Out.bind_eq_ok.mp h
  refine ⟨np, nc, h1, h2, _, rfl, ?_⟩
  simp only [membership] at h ⊢
  split at h
  · simp only [Out.ok.injEq] at h; exact .inr h.symm
  · simp only [Out.ok.injEq] at h; exact .inl h.symm

/-! ### Quiet atoms -/

theorem Quiet.send {s s' : Node P} {d : Option P} {m : Msg} (h : s.addSendable d m = .ok s') : Quiet s s' := by
  rcases addSendable_eq h with rfl | ⟨rfl, _⟩
  · exact ⟨rfl, rfl, rfl, rfl⟩
  · exact ⟨rfl, rfl, rfl, rfl⟩

theorem Quiet.append {v : Env P} {s s' : Node P} {e : Entry} {r} (h : s.logAppend v e = .ok (s', r)) : Quiet s s' := by
  rcases logAppend_eq h with ⟨rfl, _⟩ | ⟨l, er, _, rfl, _⟩ | ⟨l, _, _, ⟨rfl, _⟩ | ⟨g, m, _, _, h4⟩⟩
  · exact ⟨rfl, rfl, rfl, rfl⟩
  · exact ⟨rfl, rfl, rfl, rfl⟩
  · exact ⟨rfl, rfl, rfl, rfl⟩
  · obtain ⟨_, f, rfl⟩ := addUncommitted_eq h4
    exact ⟨rfl, rfl, rfl, rfl⟩

theorem Quiet.cut (s : Node P) (l : Log) : Quiet s ({ s with log := l } : Node P).maybeChangeUncommitted := by
  obtain ⟨u, m, f, h⟩ := maybeChangeUncommitted_eq ({ s with log := l } : Node P)
  rw [h]
  exact ⟨rfl, rfl, rfl, rfl⟩

theorem Course.tail {v : Env P} {inp : Inp P} {a b c : Node P} (h : Course v inp a b) (k : Atom v inp b c)
    (q : Quiet b c := by exact ⟨rfl, rfl, rfl, rfl⟩) : Course v inp a c := h.quiet k q

theorem Atom.course {v : Env P} {inp : Inp P} {a b : Node P} (h : Atom v inp a b) (q : Quiet a b := by exact ⟨rfl, rfl, rfl, rfl⟩) :
    Course v inp a b := (Course.refl a).quiet h q

end Svr.Raft.Node
