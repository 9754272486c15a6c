import Verif.Raft.Ops

/-!
# Invariants of one replica over any run, whatever messages it is given
-/

namespace Svr.Raft.Node
variable {P : Type} [LinearOrder P] {v : Env P} {inp : Inp P}

/-- The vote a message stands for: a granted request, or the candidate's own request. -/
def voteOf (me : P) : Option P × Msg → Option (Nat × P)
  | (some d, ⟨_, t, .voteResp true⟩) => some (t, d)
  | (_, ⟨_, t, .voteReq _ _ _⟩) => some (t, me)
  | _ => none

/-- Inputs of HMAC known at the start, or used by the replica. -/
def Known (G0 : Bytes × Bytes → Prop) (s : Node P) (x : Bytes × Bytes) : Prop := G0 x ∨ x ∈ s.hashed

structure Solo (v : Env P) (G0 : Bytes × Bytes → Prop) (s : Node P) (full : List Entry) : Prop where
  shaped : s.Shaped v
  log : LogOf s.log full
  chain : Chain v (Known G0 s) full
  term : s.term < SZ
  voted : Voted s
  cand : s.role = .candidate → s.votedFor = some s.me
  sends : ∀ x ∈ s.sendable, ∀ t c, voteOf s.me x = some (t, c) → (t, c) ∈ s.cast

theorem Atom.cand {s s' : Node P} (h : Atom v inp s s') (hs : s.role = .candidate → s.votedFor = some s.me) :
    s'.role = .candidate → s'.votedFor = some s'.me := by
  cases h with
  | misc => exact hs
  | table => exact hs
  | demote => intro h; cases h
  | raise => intro h; cases h
  | campaign => intro _; rfl
  | grant frm i lt hh g hi hv hl =>
    intro h
    have := hs h
    rcases hv with hv | hv
    · rw [hv] at this; cases this
    · rw [hv] at this; exact this
  | voted => exact hs
  | lead => intro h; cases h
  | hash => exact hs
  | append _ e r hh hm hw h =>
    obtain ⟨l, u, f, rfl⟩ := append_eq h
    exact hs
  | cut idx hr hc hp ht =>
    obtain ⟨u, m, f, h⟩ := maybeChangeUncommitted_eq ({ s with log := (s.log.cancelFrom idx).1 } : Node P)
    rw [h]
    exact hs
  | advance _ hr h =>
    obtain ⟨p, c, g, u, m, f, rfl, _⟩ := advance_eq hr h
    exact hs
  | follow =>
    obtain ⟨u, m, f, h⟩ := followLeader_eq s _ _
    rw [h]
    exact hs
  | ack => exact hs
  | send _ dst m hso h =>
    rcases addSendable_eq h with rfl | ⟨rfl, _⟩
    · exact hs
    · exact hs

theorem voteOf_sendOk {s : Node P} {dst : Option P} {m : Msg} {t : Nat} {c : P} (hv : Voted s)
    (hc : s.role = .candidate → s.votedFor = some s.me) (hs : SendOk s dst m) (h : voteOf s.me (dst, m) = some (t, c)) :
    (t, c) ∈ s.cast := by
  obtain ⟨_, h2, h3⟩ := hs
  obtain ⟨g, tm, b⟩ := m
  simp only at h2 h3
  cases b with
  | voteReq i lt hh =>
    have : (tm, s.me) = (t, c) := by cases dst <;> exact Option.some.inj h
    cases this
    rw [h2]
    exact (hv.cur s.me).mpr (hc h3.1)
  | voteResp gr =>
    cases gr with
    | false => cases dst <;> cases h
    | true =>
      obtain ⟨frm, h4, h5⟩ := h3 rfl
      rw [h4] at h
      have : (tm, frm) = (t, c) := Option.some.inj h
      cases this
      rw [h2]
      exact (hv.cur _).mpr h5
  | appReq => cases dst <;> cases h
  | appResp => cases dst <;> cases h
  | timeoutNow => cases dst <;> cases h
  | notSet => cases dst <;> cases h

/-- The messages an atom adds. -/
theorem Atom.sent {s s' : Node P} (h : Atom v inp s s') :
    s'.sendable = s.sendable ∨ ∃ x, s'.sendable = s.sendable ++ [x] ∧ SendOk s x.1 x.2 ∧ s'.cast = s.cast ∧ s'.term = s.term ∧
      s'.promise = s.promise ∧ s'.log = s.log ∧ s'.commit = s.commit ∧ x.1 ≠ some s.me := by
  cases h with
  | misc => exact .inl rfl
  | table => exact .inl rfl
  | demote => exact .inl rfl
  | raise => exact .inl rfl
  | campaign => exact .inl rfl
  | grant => exact .inl rfl
  | voted => exact .inl rfl
  | lead => exact .inl rfl
  | hash => exact .inl rfl
  | append _ e r hh hm hw h =>
    obtain ⟨l, u, f, rfl⟩ := append_eq h
    exact .inl rfl
  | cut idx hr hc hp ht =>
    obtain ⟨u, m, f, h⟩ := maybeChangeUncommitted_eq ({ s with log := (s.log.cancelFrom idx).1 } : Node P)
    rw [h]
    exact .inl rfl
  | advance _ hr h =>
    obtain ⟨p, c, g, u, m, f, rfl, _⟩ := advance_eq hr h
    exact .inl rfl
  | follow =>
    obtain ⟨u, m, f, h⟩ := followLeader_eq s _ _
    rw [h]
    exact .inl rfl
  | ack => exact .inl rfl
  | send _ dst m hso h =>
    rcases addSendable_eq h with rfl | ⟨rfl, hd⟩
    · exact .inl rfl
    · exact .inr ⟨(dst, m), rfl, hso, rfl, rfl, rfl, rfl, rfl, hd⟩

theorem Atom.solo {G0 : Bytes × Bytes → Prop} {s s' : Node P} {full : List Entry} (h : Atom v inp s s') (hs : Solo v G0 s full)
    (hty : ∀ p m, inp = .msg p m → Typed m) : ∃ full', Solo v G0 s' full' ∧ full.take (max s.commit s.promise) <+: full' := by
  have hm := h.mono
  have hknown : ∀ x, Known G0 s x → Known G0 s' x := fun x hx => hx.imp id (fun h => hm.hashed.subset h)
  obtain ⟨ht, full', h1, h2, h3, _, _⟩ := h.history (G := Known G0 s') hs.shaped hs.log (hs.chain.mono hknown)
    (fun x hx => hknown x (.inr hx)) hty hs.term
  refine ⟨full', ⟨h.shaped hs.shaped, h1, h2, ht, h.voted_inv hs.voted, h.cand hs.cand, ?_⟩, h3⟩
  intro x hx t c hv
  rw [hm.me] at hv
  rcases h.sent with h4 | ⟨y, h4, h5, h6, _⟩
  · rw [h4] at hx
    exact hm.cast.subset (hs.sends x hx t c hv)
  · rw [h4] at hx
    rcases List.mem_append.mp hx with hx | hx
    · exact hm.cast.subset (hs.sends x hx t c hv)
    · rw [List.mem_singleton] at hx
      subst hx
      rw [h6]
      exact voteOf_sendOk hs.voted hs.cand h5 hv

theorem take_prefix_trans {A B C : List Entry} {a b : Nat} (h : A.take a <+: B) (k : B.take b <+: C) (hab : a ≤ b) :
    A.take a <+: C := by
  refine List.IsPrefix.trans ?_ k
  rw [List.prefix_take_iff]
  exact ⟨h, by rw [List.length_take]; omega⟩

theorem Steps.solo {G0 : Bytes × Bytes → Prop} {s s' : Node P} {full : List Entry} (h : Steps v inp s s')
    (hs : Solo v G0 s full) (hty : ∀ p m, inp = .msg p m → Typed m) :
    ∃ full', Solo v G0 s' full' ∧ full.take (max s.commit s.promise) <+: full' := by
  induction h with
  | refl => exact ⟨full, hs, List.take_prefix _ _⟩
  | tail h k ih =>
    obtain ⟨f1, a1, a2⟩ := ih
    obtain ⟨f2, b1, b2⟩ := k.solo a1 hty
    exact ⟨f2, b1, take_prefix_trans a2 b2 (max_le_max h.mono.commit h.mono.promise)⟩

/-- One call keeps the invariant. -/
theorem Op.solo {G0 : Bytes × Bytes → Prop} {s s' : Node P} {full : List Entry} {op : Op P} {o : Obs P}
    (hs : Solo v G0 s full) (hf : op.Fits s) (h : op.run v s = .ok (s', o)) :
    ∃ full', Solo v G0 s' full' ∧ full.take (max s.commit s.promise) <+: full' := by
  rcases op.steps hs.shaped hf h with ⟨h1, _⟩ | ⟨i, e, _, _, h1, h2, h3, rfl⟩ | ⟨_, _, rfl⟩
  · exact h1.solo hs (Op.fits_typed hf)
  · refine ⟨full, ⟨?_, hs.log, hs.chain, hs.term, hs.voted.ofEq rfl rfl rfl, hs.cand, hs.sends⟩, List.take_prefix _ _⟩
    have h0 := hs.shaped
    unfold Shaped at h0 ⊢
    have := hs.shaped.le_last h3
    refine ⟨h0.one, h0.empty, ?_, ?_, ?_, h0.bytes⟩
    · rcases h0.old with h5 | h5
      · exact .inl h5
      · right; simp only; omega
    · exact le_trans h2 (le_max_left _ _)
    · exact this.2
  · exact ⟨full, ⟨hs.shaped, hs.log, hs.chain, hs.term, hs.voted.ofEq rfl rfl rfl, hs.cand, by simp⟩, List.take_prefix _ _⟩

/-- What a call does to the numbers. -/
theorem Op.grows {s s' : Node P} {op : Op P} {o : Obs P} (hs : s.Shaped v) (hf : op.Fits s) (h : op.run v s = .ok (s', o)) :
    s.term ≤ s'.term ∧ s.commit ≤ s'.commit ∧ s.promise ≤ s'.promise ∧ s.cast <+: s'.cast ∧ s'.me = s.me ∧ s.hashed <+: s'.hashed ∧
      s.led <+: s'.led ∧ s.cfgs <+: s'.cfgs ∧ s'.superMajority = s.superMajority ∧ s'.group = s.group := by
  rcases op.steps hs hf h with ⟨h1, _⟩ | ⟨i, e, _, _, h1, h2, h3, rfl⟩ | ⟨_, _, rfl⟩
  · have := h1.mono
    exact ⟨this.term, this.commit, this.promise, this.cast, this.me, this.hashed, this.led, this.cfgs, this.sm, this.group⟩
  · exact ⟨le_rfl, le_rfl, le_rfl, List.prefix_rfl, rfl, List.prefix_rfl, List.prefix_rfl, List.prefix_rfl, rfl, rfl⟩
  · exact ⟨le_rfl, le_rfl, le_rfl, List.prefix_rfl, rfl, List.prefix_rfl, List.prefix_rfl, List.prefix_rfl, rfl, rfl⟩

/-- Runs keep the invariant, grow the numbers, and keep what was promised. -/
theorem Run.solo {G0 : Bytes × Bytes → Prop} {s s' : Node P} {full : List Entry} {tr : List (Op P × Obs P)} (h : Run v s tr s')
    (hs : Solo v G0 s full) : ∃ full', Solo v G0 s' full' ∧ full.take (max s.commit s.promise) <+: full' ∧ s.term ≤ s'.term ∧
      s.commit ≤ s'.commit ∧ s.promise ≤ s'.promise ∧ s.cast <+: s'.cast ∧ s'.me = s.me ∧ s.hashed <+: s'.hashed := by
  induction h with
  | nil => exact ⟨full, hs, List.take_prefix _ _, le_rfl, le_rfl, le_rfl, List.prefix_rfl, rfl, List.prefix_rfl⟩
  | snoc _ hf k ih =>
    obtain ⟨f1, a1, a2, a3, a4, a5, a6, a7, a8⟩ := ih
    obtain ⟨f2, b1, b2⟩ := Op.solo a1 hf k
    obtain ⟨c1, c2, c3, c4, c5, c6, _⟩ := Op.grows a1.shaped hf k
    exact ⟨f2, b1, take_prefix_trans a2 b2 (max_le_max a4 a5), a3.trans c1, a4.trans c2, a5.trans c3, a6.trans c4, c5.trans a7, a8.trans c6⟩

theorem Run.append {s s1 s2 : Node P} {t1 t2 : List (Op P × Obs P)} (h : Run v s t1 s1) (k : Run v s1 t2 s2) :
    Run v s (t1 ++ t2) s2 := by
  induction k with
  | nil => simpa using h
  | snoc _ hf k ih => rw [← List.append_assoc]; exact ih.snoc hf k

/-- A log handed to a new replica: empty, or a window of a chain. -/
structure Loads (v : Env P) (G0 : Bytes × Bytes → Prop) (log : Log) (full : List Entry) : Prop where
  window : LogOf log full
  chain : Chain v G0 full
  bytes : Log.bytesOf v.z log.entries ≤ log.curr
  fits : full.length + 2 < SZ

theorem base_solo {G0 : Bytes × Bytes → Prop} {group : Nat} {me : P} {mem : Membership P} {log : Log} {cfg : RaftCfg} {cl : Bool}
    {sm : Nat} {full : List Entry} (hl : Loads v G0 log full) (hcl : cl = true ∨ full = []) :
    Solo v G0 (base group me mem log cfg cl sm) full := by
  have h1 := hl.window.lastIdx
  have h2 := hl.window.len
  have happ : (if cl then log.lastIdx else 0) = full.length := by
    rcases hcl with rfl | rfl
    · simpa using h1
    · rw [h1]; simp
  refine ⟨⟨hl.window.one, hl.window.empty, ?_, ?_, ?_, hl.bytes⟩, hl.window, hl.chain.mono (fun x h => .inl h), by show 0 < SZ; decide,
    ⟨by simp [base], by simp [base], by simp [base]⟩, (by intro h; cases h), by simp [base]⟩
  · show log.oldest = 1 ∨ log.oldest ≤ (if cl then log.lastIdx else 0)
    rw [happ]
    have h3 := hl.window.one
    by_cases h0 : log.entries = []
    · exact .inl (hl.window.empty h0)
    · have := List.length_pos_of_ne_nil h0
      right; omega
  · show (if cl then log.lastIdx else 0) ≤ max (if cl then log.lastIdx else 0) (if cl then log.lastIdx else 0)
    exact le_max_left _ _
  · show (if cl then log.lastIdx else 0) ≤ log.lastIdx
    rw [happ, h1]

theorem new_solo {G0 : Bytes × Bytes → Prop} {group : Nat} {me : P} {mem : Membership P} {log : Log} {cfg : RaftCfg} {cl : Bool}
    {sm : Nat} {full : List Entry} {s : Node P} (hl : Loads v G0 log full) (hcl : cl = true ∨ full = [])
    (h : new v group me mem log cfg cl sm = .ok s) : ∃ full', Solo v G0 s full' ∧ s.lastApplied = full.length ∧ s.me = me := by
  have hb := base_solo (group := group) (me := me) (mem := mem) (cfg := cfg) (sm := sm) hl hcl
  have st := new_steps hb.shaped (by rw [hl.window.lastIdx]; exact hl.fits) h
  obtain ⟨f, h1, h2⟩ := st.solo hb (fun p m h => by cases h)
  refine ⟨f, h1, ?_, st.mono.me⟩
  rw [st.mono.applied]
  show (if cl then log.lastIdx else 0) = full.length
  rcases hcl with rfl | rfl
  · simpa using hl.window.lastIdx
  · rw [hl.window.lastIdx]; simp

end Svr.Raft.Node
