import Verif.Raft.Chain
import Verif.Raft.Walk2

/-!
# What every atom keeps at one replica, whatever messages arrive
-/

namespace Svr.Raft.Node
variable {P : Type} [LinearOrder P] {v : Env P} {inp : Inp P}

/-- The numbers and records of a replica only grow. -/
structure Mono (s s' : Node P) : Prop where
  me : s'.me = s.me
  group : s'.group = s.group
  sm : s'.superMajority = s.superMajority
  applied : s'.lastApplied = s.lastApplied
  term : s.term ≤ s'.term
  commit : s.commit ≤ s'.commit
  promise : s.promise ≤ s'.promise
  hashed : s.hashed <+: s'.hashed
  cast : s.cast <+: s'.cast
  led : s.led <+: s'.led
  cfgs : s.cfgs <+: s'.cfgs
  sendable : s.sendable <+: s'.sendable

theorem Mono.refl (s : Node P) : Mono s s :=
  ⟨rfl, rfl, rfl, rfl, le_rfl, le_rfl, le_rfl, List.prefix_rfl, List.prefix_rfl, List.prefix_rfl, List.prefix_rfl, List.prefix_rfl⟩

theorem Mono.trans {a b c : Node P} (h : Mono a b) (k : Mono b c) : Mono a c :=
  ⟨k.me.trans h.me, k.group.trans h.group, k.sm.trans h.sm, k.applied.trans h.applied, le_trans h.term k.term,
   le_trans h.commit k.commit, le_trans h.promise k.promise, h.hashed.trans k.hashed, h.cast.trans k.cast, h.led.trans k.led,
   h.cfgs.trans k.cfgs, h.sendable.trans k.sendable⟩

/-- What an atom can do to the fields of `Mono`, and to the log. -/
theorem advance_eq {s s' : Node P} (hr : s.role = .leader) (h : s.maybeAdvance = .ok s') :
    ∃ p c g u m f, s' = { s with promise := p, commit := c, cfgs := g, uncommitted := u, mem := m, followers := f } ∧
      s.promise ≤ p ∧ s.commit ≤ c ∧ s.cfgs <+: g := by
  obtain ⟨np, nc, _, _, s1, h1, h2⟩ := maybeAdvance_eq hr h
  split at h1
  · rename_i hc
    obtain ⟨u, m, f, h3⟩ := maybeChangeUncommitted_eq
      ({ s with promise := max np s.promise, commit := nc, cfgs := s.cfgs ++ [s.membership] } : Node P)
    rw [h3] at h1
    rcases h2 with rfl | rfl
    · exact ⟨_, _, _, _, _, _, h1, le_max_right _ _, le_of_lt hc, List.prefix_append _ _⟩
    · exact ⟨max np s.promise, nc, s.cfgs ++ [s.membership], u, m, s1.followers.mapV (fun _ r => { r with upd := true }),
        by rw [h1], le_max_right np _, le_of_lt hc, List.prefix_append _ _⟩
  · rcases h2 with rfl | rfl
    · exact ⟨_, s.commit, s.cfgs, s.uncommitted, s.mem, s.followers, h1, le_max_right _ _, le_rfl, List.prefix_rfl⟩
    · exact ⟨max np s.promise, s.commit, s.cfgs, s.uncommitted, s.mem, s1.followers.mapV (fun _ r => { r with upd := true }),
        by rw [h1], le_max_right np _, le_rfl, List.prefix_rfl⟩

theorem append_eq {s s' : Node P} {e : Entry} {r} (h : s.logAppend v e = .ok (s', r)) :
    ∃ l u f, s' = { s with log := l, uncommitted := u, followers := f } := by
  rcases logAppend_eq h with ⟨rfl, _⟩ | ⟨l, er, _, rfl, _⟩ | ⟨l, _, _, h2⟩
  · exact ⟨s'.log, s'.uncommitted, s'.followers, rfl⟩
  · exact ⟨l, s.uncommitted, s.followers, rfl⟩
  · rcases h2 with ⟨rfl, _⟩ | ⟨_, _, _, _, h4⟩
    · exact ⟨l, s.uncommitted, s.followers, rfl⟩
    · obtain ⟨_, f, rfl⟩ := addUncommitted_eq h4
      exact ⟨l, _, f, rfl⟩

theorem Atom.mono {s s' : Node P} (h : Atom v inp s s') : Mono s s' := by
  have r := Mono.refl s
  cases h with
  | misc => exact { r with }
  | table => exact { r with }
  | demote => exact { r with }
  | raise t h hi => exact { r with term := le_of_lt h }
  | campaign hv hr ht => exact { r with term := Nat.le_succ _, cast := List.prefix_append _ _ }
  | grant => exact { r with cast := List.prefix_append _ _ }
  | voted => exact { r with }
  | lead => exact { r with led := List.prefix_append _ _ }
  | hash => exact { r with hashed := List.prefix_append _ _ }
  | append _ e r' hh hm hw h =>
    obtain ⟨l, u, f, rfl⟩ := append_eq h
    exact { r with }
  | cut idx hr hc hp ht =>
    obtain ⟨u, m, f, h⟩ := maybeChangeUncommitted_eq ({ s with log := (s.log.cancelFrom idx).1 } : Node P)
    rw [h]
    exact { r with }
  | advance _ hr h =>
    obtain ⟨p, c, g, u, m, f, rfl, h1, h2, h3⟩ := advance_eq hr h
    exact { r with promise := h1, commit := h2, cfgs := h3 }
  | follow =>
    obtain ⟨u, m, f, h⟩ := followLeader_eq s _ _
    rw [h]
    exact { r with promise := le_max_right _ _, commit := le_max_right _ _ }
  | ack => exact { r with }
  | send _ dst m hso h =>
    rcases addSendable_eq h with rfl | ⟨rfl, _⟩
    · exact r
    · exact { r with sendable := List.prefix_append _ _ }

theorem Steps.mono {s s' : Node P} (h : Steps v inp s s') : Mono s s' := by
  induction h with
  | refl => exact Mono.refl _
  | tail _ k ih => exact ih.trans k.mono

/-! ### Votes -/

/-- The record of votes agrees with the vote of the current term, and has one vote per term. -/
structure Voted (s : Node P) : Prop where
  cur : ∀ c, (s.term, c) ∈ s.cast ↔ s.votedFor = some c
  le : ∀ t c, (t, c) ∈ s.cast → t ≤ s.term
  one : ∀ t c c', (t, c) ∈ s.cast → (t, c') ∈ s.cast → c = c'

theorem Voted.ofEq {s s' : Node P} (h : Voted s) (ht : s'.term = s.term) (hv : s'.votedFor = s.votedFor) (hc : s'.cast = s.cast) :
    Voted s' := ⟨by rw [ht, hv, hc]; exact h.cur, by rw [ht, hc]; exact h.le, by rw [hc]; exact h.one⟩

theorem Atom.voted_inv {s s' : Node P} (h : Atom v inp s s') (hs : Voted s) : Voted s' := by
  cases h with
  | misc => exact hs.ofEq rfl rfl rfl
  | table => exact hs.ofEq rfl rfl rfl
  | demote => exact hs.ofEq rfl rfl rfl
  | raise t h hi =>
    refine ⟨fun c => ⟨fun hm => ?_, fun h => (by cases h)⟩, fun t' c hm => le_trans (hs.le t' c hm) (le_of_lt h), hs.one⟩
    have h1 := hs.le _ _ hm
    have : t ≤ s.term := h1
    omega
  | campaign hv hr ht =>
    have hnew : ∀ t c, (t, c) ∈ s.cast ++ [(s.term + 1, s.me)] → ((t, c) ∈ s.cast ∧ t ≤ s.term) ∨ (t = s.term + 1 ∧ c = s.me) := by
      intro t c hm
      rcases List.mem_append.mp hm with hm | hm
      · exact .inl ⟨hm, hs.le _ _ hm⟩
      · rw [List.mem_singleton] at hm
        cases hm; exact .inr ⟨rfl, rfl⟩
    refine ⟨fun c => ⟨fun hm => ?_, fun h => ?_⟩, fun t c hm => ?_, fun t c c' h1 h2 => ?_⟩
    · rcases hnew _ _ hm with ⟨_, h2⟩ | ⟨_, rfl⟩
      · have : s.term + 1 ≤ s.term := h2
        omega
      · rfl
    · have : s.me = c := Option.some.inj h
      subst this
      exact List.mem_append_right _ (List.mem_singleton.mpr rfl)
    · show t ≤ s.term + 1
      rcases hnew _ _ hm with ⟨_, h2⟩ | ⟨h2, _⟩ <;> omega
    · rcases hnew _ _ h1 with ⟨a1, a2⟩ | ⟨a1, a2⟩ <;> rcases hnew _ _ h2 with ⟨b1, b2⟩ | ⟨b1, b2⟩
      · exact hs.one t c c' a1 b1
      · omega
      · omega
      · rw [a2, b2]
  | grant frm i lt hh g hi hv hl =>
    have hnew : ∀ t c, (t, c) ∈ s.cast ++ [(s.term, frm)] → (t, c) ∈ s.cast ∨ (t = s.term ∧ c = frm) := by
      intro t c hm
      rcases List.mem_append.mp hm with hm | hm
      · exact .inl hm
      · rw [List.mem_singleton] at hm
        cases hm; exact .inr ⟨rfl, rfl⟩
    have hcur : ∀ c, (s.term, c) ∈ s.cast → c = frm := by
      intro c hm
      have := (hs.cur c).mp hm
      rcases hv with hv | hv
      · rw [hv] at this; cases this
      · rw [hv] at this; cases this; rfl
    refine ⟨fun c => ⟨fun hm => ?_, fun h => ?_⟩, fun t c hm => ?_, fun t c c' h1 h2 => ?_⟩
    · rcases hnew _ _ hm with h2 | ⟨_, rfl⟩
      · show some frm = some c
        rw [hcur c h2]
      · rfl
    · have : frm = c := Option.some.inj h
      subst this
      exact List.mem_append_right _ (List.mem_singleton.mpr rfl)
    · show t ≤ s.term
      rcases hnew _ _ hm with h2 | ⟨h2, _⟩
      · exact hs.le _ _ h2
      · omega
    · rcases hnew _ _ h1 with a | ⟨a1, a2⟩ <;> rcases hnew _ _ h2 with b | ⟨b1, b2⟩
      · exact hs.one t c c' a b
      · subst b1; rw [b2]; exact hcur c a
      · subst a1; rw [a2]; exact (hcur c' b).symm
      · rw [a2, b2]
  | voted => exact hs.ofEq rfl rfl rfl
  | lead => exact hs.ofEq rfl rfl rfl
  | hash => exact hs.ofEq rfl rfl rfl
  | append _ e r hh hm hw h =>
    obtain ⟨l, u, f, rfl⟩ := append_eq h
    exact hs.ofEq rfl rfl rfl
  | cut idx hr hc hp ht =>
    obtain ⟨u, m, f, h⟩ := maybeChangeUncommitted_eq ({ s with log := (s.log.cancelFrom idx).1 } : Node P)
    rw [h]
    exact hs.ofEq rfl rfl rfl
  | advance _ hr h =>
    obtain ⟨p, c, g, u, m, f, rfl, _⟩ := advance_eq hr h
    exact hs.ofEq rfl rfl rfl
  | follow =>
    obtain ⟨u, m, f, h⟩ := followLeader_eq s _ _
    rw [h]
    exact hs.ofEq rfl rfl rfl
  | ack => exact hs.ofEq rfl rfl rfl
  | send _ dst m hso h =>
    rcases addSendable_eq h with rfl | ⟨rfl, _⟩
    · exact hs
    · exact hs.ofEq rfl rfl rfl

theorem Steps.voted_inv {s s' : Node P} (h : Steps v inp s s') (hs : Voted s) : Voted s' := by
  induction h with
  | refl => exact hs
  | tail _ k ih => exact k.voted_inv ih

/-! ### History -/

/-- Terms in messages are `uint64`. -/
def Typed (m : Msg) : Prop :=
  m.term < SZ ∧ match m.body with
  | .appReq _ _ _ es _ _ => ∀ e ∈ es, e.term < SZ
  | _ => True

theorem prevHash_eq {s : Node P} {G : Bytes × Bytes → Prop} {full : List Entry} (h : LogOf s.log full) (hc : Chain v G full) :
    s.prevHash = prevOf full full.length := h.mostRecent hc

/-- The entry is the leader's own, or the next one of an append request. -/
def Came (v : Env P) (inp : Inp P) (s : Node P) (e : Entry) : Prop :=
  (s.role = .leader ∧ e.term = s.term ∧ s.Asked v inp e.inner) ∨ (s.role = .follower ∧
    ∃ frm g t pi pt ph es c a, inp = .msg frm ⟨g, t, .appReq pi pt ph es c a⟩ ∧ pi ≤ s.log.lastIdx ∧
      es[s.log.lastIdx - pi]? = some e)

/-- What an atom does to the history behind the log. -/
theorem Atom.history {s s' : Node P} {G : Bytes × Bytes → Prop} {full : List Entry} (h : Atom v inp s s')
    (hs : s.Shaped v) (hl : LogOf s.log full) (hc : Chain v G full) (hg : ∀ x ∈ s.hashed, G x)
    (hty : ∀ p m, inp = .msg p m → Typed m) (hterm : s.term < SZ) :
    s'.term < SZ ∧ ∃ full', LogOf s'.log full' ∧ Chain v G full' ∧ full.take (max s.commit s.promise) <+: full' ∧
      (s.role ≠ .follower → full <+: full') ∧
      ((s'.log = s.log ∧ full' = full) ∨ (∃ k, k ≤ s.log.lastIdx ∧ full' = full.take k) ∨ ∃ e, full' = full ++ [e] ∧
        Linked v G full full.length e ∧ s.Came v inp e) := by
  have keep : ∀ {s2 : Node P}, s2.term = s.term → s2.log = s.log → s2.term < SZ ∧ ∃ full', LogOf s2.log full' ∧ Chain v G full' ∧
      full.take (max s.commit s.promise) <+: full' ∧ (s.role ≠ .follower → full <+: full') ∧
      ((s2.log = s.log ∧ full' = full) ∨ (∃ k, k ≤ s.log.lastIdx ∧ full' = full.take k) ∨ ∃ e, full' = full ++ [e] ∧
        Linked v G full full.length e ∧ s.Came v inp e) := by
    intro s2 h1 h2
    exact ⟨by rw [h1]; exact hterm, full, by rw [h2]; exact hl, hc, List.take_prefix _ _, fun _ => List.prefix_rfl, .inl ⟨h2, rfl⟩⟩
  have hlen := hl.len
  cases h with
  | misc => exact keep rfl rfl
  | table => exact keep rfl rfl
  | demote => exact keep rfl rfl
  | raise t h hi =>
    obtain ⟨p, m, hi, ht⟩ := hi
    exact ⟨by show t < SZ; rw [← ht]; exact (hty p m hi).1, full, hl, hc, List.take_prefix _ _, fun _ => List.prefix_rfl, .inl ⟨rfl, rfl⟩⟩
  | campaign hv hr ht => exact ⟨ht, full, hl, hc, List.take_prefix _ _, fun _ => List.prefix_rfl, .inl ⟨rfl, rfl⟩⟩
  | grant => exact keep rfl rfl
  | voted => exact keep rfl rfl
  | lead => exact keep rfl rfl
  | hash => exact keep rfl rfl
  | append _ e r hh hm hw h =>
    have happ : ∀ {l' : Log} {er : Option LogErr}, s.log.append v.z e s.lastApplied = .ok (l', er) →
        LogOf l' (full ++ if er = none then [e] else []) ∧ (er = none → e.term ≠ 0 ∧ e.hash.length = 32) := by
      intro l' er ha
      obtain ⟨k, hk, ho, hd, he, hb, hen⟩ := Log.append_spec (Shape.bytes hs) ha
      have hsh := (Shape.append hs ha).1
      refine ⟨⟨hsh.one, ?_, ?_, hsh.empty⟩, hen⟩
      · rw [ho]
        simp only [List.length_append]
        omega
      · rw [he, hl.eq, ho, List.drop_drop]
        have h1 := hl.one
        rw [List.drop_append_of_le_length (by omega)]
        congr 2; omega
    have hterm' : e.term < SZ := by
      rcases hw with ⟨_, h1, _⟩ | ⟨_, frm, g, t, pi, pt, ph, es, c, a, hi, _, hmem⟩
      · rw [h1]; exact hterm
      · exact (hty _ _ hi).2 e (List.mem_of_getElem? hmem)
    have hnext : s.log.nextIdx = full.length + 1 := by unfold Log.nextIdx; rw [hl.lastIdx]
    have hlink : e.term ≠ 0 ∧ e.hash.length = 32 → Linked v G full full.length e := by
      rintro ⟨h1, h2⟩
      rw [prevHash_eq hl hc, hnext] at hh hm
      exact ⟨h1, hterm', h2, hh, hg _ hm⟩
    have hgrow : ∀ {s2 : Node P} {l : Log}, s.log.append v.z e s.lastApplied = .ok (l, none) → s2.log = l → s2.term = s.term →
        s2.term < SZ ∧ ∃ full', LogOf s2.log full' ∧ Chain v G full' ∧ full.take (max s.commit s.promise) <+: full' ∧
        (s.role ≠ .follower → full <+: full') ∧
        ((s2.log = s.log ∧ full' = full) ∨ (∃ k, k ≤ s.log.lastIdx ∧ full' = full.take k) ∨ ∃ e, full' = full ++ [e] ∧
          Linked v G full full.length e ∧ s.Came v inp e) := by
      intro s2 l ha h2 h3
      obtain ⟨h4, h5⟩ := happ ha
      have hk := hlink (h5 rfl)
      exact ⟨by rw [h3]; exact hterm, full ++ [e], by rw [h2]; simpa using h4, hc.append hk,
        (List.take_prefix _ _).trans (List.prefix_append _ _), fun _ => List.prefix_append _ _, .inr (.inr ⟨e, rfl, hk, hw⟩)⟩
    rcases logAppend_eq h with ⟨rfl, _⟩ | ⟨l, er, h1, rfl, _⟩ | ⟨l, h1, _, h2⟩
    · exact keep rfl rfl
    · refine ⟨hterm, full, by simpa using (happ h1).1, hc, List.take_prefix _ _, fun _ => List.prefix_rfl, .inr (.inl ⟨s.log.lastIdx, le_rfl, ?_⟩)⟩
      rw [hl.lastIdx, List.take_length]
    · rcases h2 with ⟨rfl, _⟩ | ⟨_, _, _, _, h4⟩
      · exact hgrow h1 rfl rfl
      · obtain ⟨_, f, rfl⟩ := addUncommitted_eq h4
        exact hgrow h1 rfl rfl
  | cut idx hr hcm hp ht =>
    obtain ⟨o, ho, _⟩ := termAt_ne_zero ht
    have hle := hs.le_last ho
    have ho1 := hl.one
    obtain ⟨c1, c2, c3, c4, _⟩ := Shape.cut hs (max_lt hcm hp) hle.2
    obtain ⟨u, m, f, h⟩ := maybeChangeUncommitted_eq ({ s with log := (s.log.cancelFrom idx).1 } : Node P)
    rw [h]
    have hli := hl.lastIdx
    refine ⟨hterm, full.take (idx - 1), ⟨by simpa using c1.one, ?_, ?_, by simpa using c1.empty⟩, hc.take _, ?_, ?_,
      .inr (.inl ⟨idx - 1, by omega, rfl⟩)⟩
    · simp only [c3, List.length_take]
      omega
    · simp only [c3]
      have : (s.log.cancelFrom idx).1.entries = s.log.entries.take (idx - s.log.oldest) := by
        unfold Log.cancelFrom
        rw [if_neg (by omega)]
        simp only
        rw [Log.resize_le _ _ (by omega)]
      rw [this, hl.eq, List.drop_take]
      congr 1; omega
    · rw [List.prefix_take_iff]
      refine ⟨List.take_prefix _ _, ?_⟩
      rw [List.length_take]
      omega
    · intro h0
      exact absurd hr h0
  | advance _ hr h =>
    obtain ⟨p, c, g, u, m, f, rfl, _⟩ := advance_eq hr h
    exact keep rfl rfl
  | follow =>
    obtain ⟨u, m, f, h⟩ := followLeader_eq s _ _
    rw [h]
    exact keep rfl rfl
  | ack => exact keep rfl rfl
  | send _ dst m hso h =>
    rcases addSendable_eq h with rfl | ⟨rfl, _⟩
    · exact keep rfl rfl
    · exact keep rfl rfl

end Svr.Raft.Node
