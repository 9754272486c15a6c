import Verif.Raft.Group

/-!
# Every atom keeps what holds of a replica in a group
-/

namespace Svr.Raft.Node
variable {P : Type} [LinearOrder P] {c : Ctx P} {inp : Inp P}

/-- The message handled was sent by a replica of the group to this one, or to all; an entry requested has the property. -/
structure InpOk (c : Ctx P) (σ : St P) (p : P) (inp : Inp P) : Prop where
  msg : ∀ frm m, inp = .msg frm m → ∃ dst, (dst = none ∨ dst = some p) ∧ MsgOk c σ frm dst m
  req : ∀ i, inp = .req i → c.K i

theorem InpOk.grows {σ σ' : St P} {p : P} (h : InpOk c σ p inp) (g : Grows σ σ') : InpOk c σ' p inp := by
  refine ⟨fun frm m hi => ?_, h.req⟩
  obtain ⟨d, h1, h2⟩ := h.msg frm m hi
  exact ⟨d, h1, h2.grows g⟩

theorem history_same {l : Log} {F F' : List Entry} {x : Entry → Prop} {last : Nat} (h : LogOf l F) (h' : LogOf l F')
    (hc : (F' = F) ∨ (∃ k, k ≤ last ∧ F' = F.take k) ∨ ∃ e, F' = F ++ [e] ∧ x e) : F' = F := by
  have h1 := h.lastIdx
  have h2 := h'.lastIdx
  rcases hc with h | ⟨k, _, h⟩ | ⟨e, h, _⟩
  · exact h
  · rw [h, List.length_take] at h2
    rw [h, List.take_of_length_le (by omega)]
  · rw [h, List.length_append, List.length_singleton] at h2
    omega

theorem leader_follower {r : Role} (h : r = .leader) (h' : r = .follower) : False := by rw [h] at h'; cases h'

/-- `followLeader` without nested updates. -/
theorem followLeader_flat (s : Node P) (c a : Nat) : s.followLeader c a =
    if c > s.commit then ({ s with promise := max a s.promise, commit := c } : Node P).maybeChangeUncommitted
    else { s with promise := max a s.promise } := by
  unfold followLeader
  simp only
  by_cases h : a > s.promise
  · rw [if_pos h, max_eq_left (by omega)]
  · rw [if_neg h, max_eq_right (by omega)]

section
variable {σ : St P} {p : P} {s s' : Node P} {F : List Entry}

/-- Updating the memberships after the commit index or the log changed. -/
theorem maybeChange_mems {s1 : Node P} {F F' : List Entry} {c0 k : Nat} (hm : s1.mem = memAt c.v c.m0 (F.take c0))
    (hu : s1.uncommitted = memsFrom c.v (c0 + 1) (F.drop c0)) (hc : c0 ≤ s1.commit) (hF : F' = F.take k) (hk : k ≤ F.length)
    (hck : s1.commit ≤ k) (hl : s1.log.lastIdx = k) : MemRel c s1.maybeChangeUncommitted F' := by
  obtain ⟨u, m, f, h1, h2, h3, _⟩ := maybeChange_spec s1
  have hpr := promote_mems c.v s1.commit (F.drop c0) (c0 + 1) s1.mem (by omega)
  rw [← hu, List.drop_drop, show c0 + (s1.commit + 1 - (c0 + 1)) = s1.commit by omega] at hpr
  rw [hpr] at h2 h3
  rw [h1]
  refine ⟨?_, ?_⟩
  · show m = memAt c.v c.m0 (F'.take s1.commit)
    rw [h3, hm, ← memAt_append, hF, List.take_take, Nat.min_eq_left hck]
    refine congrArg (memAt c.v c.m0) ?_
    have := List.take_add (i := c0) (j := s1.commit + 1 - (c0 + 1)) (l := F)
    rw [show c0 + (s1.commit + 1 - (c0 + 1)) = s1.commit by omega] at this
    exact this.symm
  · show u = memsFrom c.v (s1.commit + 1) (F'.drop s1.commit)
    have hsplit : F.drop s1.commit = F'.drop s1.commit ++ F.drop k := by
      conv_lhs => rw [← List.take_append_drop k F]
      rw [List.drop_append_of_le_length (by rw [List.length_take]; omega), hF]
    rw [h2, hl]
    simp only
    rw [hsplit]
    refine discard_mems c.v _ _ _ _ ?_
    rw [List.length_drop, hF, List.length_take]
    omega

theorem memOf_membership {v : Env P} {e : Entry} {g : List (Bytes × Bool)} {m : Membership P} (hg : e.inner = .membership g)
    (hm : fromProto (g.map fun r => (v.pid r.1, r.2)) = .ok m) : memOf v e = some m := by
  unfold memOf
  rw [hg]
  simp only
  rw [hm]

theorem memOf_other {v : Env P} {e : Entry} (h : ∀ g, e.inner ≠ .membership g) : memOf v e = none := by
  unfold memOf
  split
  · rename_i g hg
    exact absurd hg (h g)
  · rfl

theorem memOf_some {v : Env P} {e : Entry} {m : Membership P} (h : memOf v e = some m) :
    ∃ g, e.inner = .membership g ∧ fromProto (g.map fun r => (v.pid r.1, r.2)) = .ok m := by
  unfold memOf at h
  split at h
  · rename_i g hg
    split at h
    · rename_i m' hm
      cases h
      exact ⟨g, hg, hm⟩
    · cases h
  · cases h

/-- The memberships stay those of the history. -/
theorem Atom.mems {F' : List Entry} (h : Atom c.v inp s s') (ok : NodeOk c σ p s F) (hl' : LogOf s'.log F')
    (hcase : (s'.log = s.log ∧ F' = F) ∨ (∃ k, k ≤ s.log.lastIdx ∧ F' = F.take k) ∨ ∃ e, F' = F ++ [e] ∧
      Linked c.v c.G F F.length e ∧ s.Came c.v inp e)
    (hi : s'.promise ≤ F'.length) (hi' : s'.commit ≤ s'.promise) : MemRel c s' F' := by
  have hsame : s'.log.lastIdx = s.log.lastIdx → F' = F := by
    intro hl
    have h1 := ok.log.lastIdx
    have h2 := hl'.lastIdx
    rcases hcase with ⟨_, h⟩ | ⟨k, _, h⟩ | ⟨e, h, _⟩
    · exact h
    · rw [h, List.length_take] at h2
      rw [h, List.take_of_length_le (by omega)]
    · rw [h, List.length_append, List.length_singleton] at h2
      omega
  have same : s'.mem = s.mem → s'.uncommitted = s.uncommitted → s'.commit = s.commit → s'.log.lastIdx = s.log.lastIdx →
      MemRel c s' F' := by
    intro h1 h2 h3 h4
    rw [hsame h4]
    exact ⟨by rw [h1, h3]; exact ok.mems.mem, by rw [h2, h3]; exact ok.mems.unc⟩
  have hcl := ok.commit.trans ok.promise
  cases h with
  | misc => exact same rfl rfl rfl rfl
  | table => exact same rfl rfl rfl rfl
  | demote => exact same rfl rfl rfl rfl
  | raise => exact same rfl rfl rfl rfl
  | campaign => exact same rfl rfl rfl rfl
  | grant => exact same rfl rfl rfl rfl
  | voted => exact same rfl rfl rfl rfl
  | lead => exact same rfl rfl rfl rfl
  | hash => exact same rfl rfl rfl rfl
  | append _ e r hh hm hw h =>
    rcases logAppend_eq h with ⟨rfl, _⟩ | ⟨l, er, h1, rfl, _⟩ | ⟨l, h1, h1', h2⟩
    · exact same rfl rfl rfl rfl
    · refine same rfl rfl rfl ?_
      have := (Shape.append ok.shaped h1).2.1
      simpa using this
    · have hlast : l.lastIdx = s.log.lastIdx + 1 := by
        have := (Shape.append ok.shaped h1).2.1
        simpa using this
      have hat := ((Shape.append ok.shaped h1).2.2.2.2.1 rfl).1
      have hlog : s'.log = l := by
        rcases h2 with ⟨rfl, _⟩ | ⟨_, _, _, _, h4⟩
        · rfl
        · obtain ⟨_, f, rfl⟩ := addUncommitted_eq h4
          rfl
      have hlen := ok.log.lastIdx
      have hF : F' = F ++ [e] := by
        rw [hlog] at hl'
        have h2 := hl'.lastIdx
        obtain ⟨_, _, _, h5⟩ := hl'.at_some hat
        rcases hcase with ⟨_, h⟩ | ⟨k, _, h⟩ | ⟨e', h, _⟩
        · rw [h] at h2; omega
        · rw [h, List.length_take] at h2; omega
        · rw [h] at h5 ⊢
          rw [show s.log.lastIdx + 1 - 1 = F.length by omega, List.getElem?_append_right le_rfl, Nat.sub_self] at h5
          simp only [List.getElem?_cons_zero, Option.some.injEq] at h5
          rw [h5]
      subst hF
      have hd : (F ++ [e]).drop s.commit = F.drop s.commit ++ [e] := List.drop_append_of_le_length hcl
      have ht : (F ++ [e]).take s.commit = F.take s.commit := List.take_append_of_le_length hcl
      rcases h2 with ⟨rfl, h3⟩ | ⟨g, m, hg, hm, h4⟩
      · refine ⟨?_, ?_⟩
        · simp only [ht]; exact ok.mems.mem
        · simp only [hd, memsFrom_append, memsFrom, memOf_other h3, List.append_nil]
          exact ok.mems.unc
      · obtain ⟨_, f, rfl⟩ := addUncommitted_eq h4
        refine ⟨?_, ?_⟩
        · simp only [ht]; exact ok.mems.mem
        · simp only [hd, memsFrom_append, memsFrom, memOf_membership hg hm]
          rw [← ok.mems.unc, List.length_drop, hlast, hlen]
          congr 3; omega
  | cut idx hr hc hp ht =>
    obtain ⟨o, ho, _⟩ := termAt_ne_zero ht
    have hle := ok.shaped.le_last ho
    obtain ⟨c1, c2, c3, c4, _⟩ := Shape.cut ok.shaped (max_lt hc hp) hle.2
    obtain ⟨u, m, f, h1⟩ := maybeChangeUncommitted_eq ({ s with log := (s.log.cancelFrom idx).1 } : Node P)
    have hlog : ({ s with log := (s.log.cancelFrom idx).1 } : Node P).maybeChangeUncommitted.log = (s.log.cancelFrom idx).1 := by
      rw [h1]
    rw [hlog] at hl'
    have h2 := hl'.lastIdx
    have h3 := ok.log.lastIdx
    have hF : F' = F.take (idx - 1) := by
      rcases hcase with ⟨_, h⟩ | ⟨k, hk, h⟩ | ⟨e', h, _⟩
      · rw [h] at h2; omega
      · rw [h, List.length_take] at h2
        rw [h, show k = idx - 1 by omega]
      · rw [h, List.length_append, List.length_singleton] at h2; omega
    exact maybeChange_mems (k := idx - 1) ok.mems.mem ok.mems.unc (le_refl _) hF (by omega) (by simp only; omega) (by simp only; omega)
  | advance _ hr h =>
    obtain ⟨np, nc, _, _, s1, h1, h2⟩ := maybeAdvance_eq hr h
    have hlog : s'.log = s.log := by
      obtain ⟨_, _, _, _, _, _, rfl, _⟩ := advance_eq hr h
      rfl
    have hFF := hsame (by rw [hlog])
    subst hFF
    have key : MemRel c s1 F' := by
      split at h1
      · rename_i hlt
        have hcom : s'.commit = nc := by
          obtain ⟨u, m, f, h5⟩ := maybeChangeUncommitted_eq
            ({ s with promise := max np s.promise, commit := nc, cfgs := s.cfgs ++ [s.membership] } : Node P)
          rw [h5] at h1
          rcases h2 with rfl | rfl <;> rw [h1]
        rw [h1]
        refine maybeChange_mems (k := F'.length) (c0 := s.commit) ok.mems.mem ok.mems.unc (le_of_lt hlt) (List.take_length).symm le_rfl ?_
          ok.log.lastIdx
        simp only
        omega
      · rw [h1]; exact ⟨ok.mems.mem, ok.mems.unc⟩
    rcases h2 with rfl | rfl
    · exact key
    · exact ⟨key.mem, key.unc⟩
  | follow frm g t pi pt ph es cm a lp hi2 hr hca hm =>
    have hlog : (s.followLeader (min cm lp) (min a lp)).log = s.log := by
      obtain ⟨u, m, f, h⟩ := followLeader_eq s (min cm lp) (min a lp)
      rw [h]
    have hFF := hsame (by rw [hlog])
    subst hFF
    rw [followLeader_flat] at hi hi' ⊢
    split
    · rename_i hlt
      rw [if_pos hlt] at hi hi'
      refine maybeChange_mems (k := F'.length) (c0 := s.commit) ok.mems.mem ok.mems.unc (le_of_lt hlt) (List.take_length).symm le_rfl ?_
        ok.log.lastIdx
      obtain ⟨u, m, f, h⟩ := maybeChangeUncommitted_eq
        ({ s with promise := max (min a lp) s.promise, commit := min cm lp } : Node P)
      rw [h] at hi hi'
      simp only at hi hi' ⊢
      omega
    · exact ⟨ok.mems.mem, ok.mems.unc⟩
  | ack => exact same rfl rfl rfl rfl
  | send _ dst m hso h =>
    rcases addSendable_eq h with rfl | ⟨rfl, _⟩
    · exact same rfl rfl rfl rfl
    · exact same rfl rfl rfl rfl

/-- A candidate or leader keeps its place among the voters. -/
theorem Atom.voter (h : Atom c.v inp s s') (ok : NodeOk c σ p s F) : s'.role ≠ .follower → p ∈ s'.membership.voting := by
  cases h with
  | misc => exact ok.voter
  | table => exact ok.voter
  | demote => intro h; exact absurd rfl h
  | raise => intro h; exact absurd rfl h
  | campaign hv hr ht =>
    intro _
    have := of_decide_eq_true hv
    rw [ok.me] at this
    exact this
  | grant => exact ok.voter
  | voted => exact ok.voter
  | lead hr hq =>
    intro _
    exact ok.voter (by rw [hr]; simp)
  | hash => exact ok.voter
  | append _ e r hh hm hw h =>
    rcases logAppend_eq h with ⟨rfl, _⟩ | ⟨l, er, _, rfl, _⟩ | ⟨l, h1, h1', h2⟩
    · exact ok.voter
    · exact ok.voter
    · rcases h2 with ⟨rfl, _⟩ | ⟨g, m, hg, hm, h4⟩
      · exact ok.voter
      · obtain ⟨_, f, rfl⟩ := addUncommitted_eq h4
        intro hr
        rcases hw with ⟨_, _, h5⟩ | ⟨h5, _⟩
        · have := (h5.2 g m hg hm).2.2
          rw [ok.me] at this
          unfold membership
          simp only [List.getLast?_append, List.getLast?_singleton, Option.some_or]
          exact this
        · exact absurd h5 hr
  | cut idx hr hc hp ht =>
    intro h
    obtain ⟨u, m, f, h1⟩ := maybeChangeUncommitted_eq ({ s with log := (s.log.cancelFrom idx).1 } : Node P)
    rw [h1] at h
    exact absurd hr h
  | advance _ hr h =>
    intro _
    have h0 := ok.voter (by rw [hr]; simp)
    obtain ⟨np, nc, _, _, s1, h1, h2⟩ := maybeAdvance_eq hr h
    have key : s1.membership = s.membership := by
      split at h1
      · have := maybeChange_membership
          (s := ({ s with promise := max np s.promise, commit := nc, cfgs := s.cfgs ++ [s.membership] } : Node P)) ok.memLe
        rw [h1, this]; rfl
      · rw [h1]; rfl
    rcases h2 with rfl | rfl
    · rw [key]; exact h0
    · have : ({ s1 with followers := s1.followers.mapV (fun _ r => { r with upd := true }) } : Node P).membership = s1.membership := rfl
      rw [this, key]; exact h0
  | follow =>
    rename_i hr _ _
    intro h
    obtain ⟨u, m, f, h1⟩ := followLeader_eq s _ _
    rw [h1] at h
    exact absurd hr h
  | ack => exact ok.voter
  | send _ dst m hso h =>
    rcases addSendable_eq h with rfl | ⟨rfl, _⟩
    · exact ok.voter
    · exact ok.voter

theorem find_mapV' (m : OMap P Repl) (f : P → Repl → Repl) (y : P) (r : Repl) (h : (m.mapV f).find y = some r) :
    ∃ r0, m.find y = some r0 ∧ r = f y r0 := by
  rw [OMap.find_mapV] at h
  cases h0 : m.find y with
  | none => rw [h0] at h; cases h
  | some r0 => rw [h0] at h; exact ⟨r0, rfl, (Option.some.inj h).symm⟩

/-- What the acknowledged index proves about the follower. -/
theorem ack_row (ok : NodeOk c σ p s F) (hn : NoCollision c.v c.G) (hser : SerInj c.v) {frm : P} {g mt l a : Nat} {h : Bytes} {r : Repl}
    {dst : Option P} (hmsg : MsgOk c σ frm dst ⟨g, s.term, .appResp true mt l a h⟩) (hr : s.role = .leader)
    (hf : s.followers.find frm = some r) (hm : mt = 0 ∨ ∃ e, s.log.at? mt = some e ∧ e.hash = h) :
    RowOk σ p F frm (replSuccess r mt a) := by
  have h0 := ok.rows hr frm r hf
  obtain ⟨hle, h2⟩ := hmsg rfl
  have key : mt ≤ F.length ∧ (a = 0 ∨ Prom σ frm (F.take a)) := by
    rcases hm with rfl | ⟨e, he, heh⟩
    · exact ⟨Nat.zero_le _, .inl (by omega)⟩
    · obtain ⟨a1, _, a3, a4⟩ := ok.log.at_some he
      have hlen := (ok.chain _ _ a4).len
      rw [heh] at hlen
      obtain ⟨L, o, b1, b2, b3, b4, b5⟩ := h2 hlen
      have := chain_inj hn hser b1.chain ok.chain b3 a4 (by rw [b4, heh])
      rw [show mt - 1 + 1 = mt by omega] at this
      refine ⟨a3, .inr ?_⟩
      have e2 : F.take a = L.take a := by
        have h3 := congrArg (List.take a) this
        rw [List.take_take, List.take_take, Nat.min_eq_left hle] at h3
        exact h3.symm
      rw [e2]
      exact b5
  refine ⟨h0.other, ?_, ?_, ?_⟩
  · unfold replSuccess
    simp only
    have := h0.le
    split <;> split <;> omega
  · unfold replSuccess
    simp only
    have := h0.len
    split
    · exact key.1
    · exact this
  · unfold replSuccess
    simp only
    split
    · exact key.2
    · exact h0.prom

/-- The leader's table stays true. -/
theorem Atom.rows {F' : List Entry} {σ' : St P} (h : Atom c.v inp s s') (ok : NodeOk c σ p s F) (hin : InpOk c σ p inp)
    (hn : NoCollision c.v c.G) (hser : SerInj c.v) (hg : Grows σ σ') (hF : s.role ≠ .follower → F <+: F') :
    s'.role = .leader → ∀ y r, s'.followers.find y = some r → RowOk σ' p F' y r := by
  have same : ∀ {s2 : Node P}, s2.role = s.role → s2.followers = s.followers →
      s2.role = .leader → ∀ y r, s2.followers.find y = some r → RowOk σ' p F' y r := by
    intro s2 h1 h2 hr y r hf
    rw [h1] at hr
    rw [h2] at hf
    exact (ok.rows hr y r hf).grows hg (hF (by rw [hr]; simp)) rfl rfl
  cases h with
  | misc => exact same rfl rfl
  | table f h =>
    intro hr y r hf
    obtain ⟨h1, h2⟩ := h y
    cases h0 : s.followers.find y with
    | none =>
      have := h1 h0
      simp only at hf
      rw [this] at hf; cases hf
    | some r0 =>
      obtain ⟨r', h3, h4, h5⟩ := h2 r0 h0
      simp only at hf
      rw [h3] at hf
      cases hf
      exact (ok.rows hr y r0 h0).grows hg (hF (fun h => leader_follower hr h)) h4 h5
  | demote => intro h; cases h
  | raise => intro h; cases h
  | campaign => intro h; cases h
  | grant => exact same rfl rfl
  | voted => exact same rfl rfl
  | lead hr hq =>
    intro _ y r hf
    have := fold_rows (σ := σ') (F := F') (p := p) _ (by
      intro fs q y r h2
      split at h2
      · exact .inl h2
      · rename_i hq
        rw [OMap.find_insert] at h2
        split at h2
        · rename_i e
          cases h2
          exact .inr ⟨by rw [← e, ← ok.me]; exact hq, rfl, rfl⟩
        · exact .inl h2) s.membership.all OMap.empty y r hf
    rcases this with h1 | h1
    · cases h1
    · exact h1
  | hash => exact same rfl rfl
  | append _ e r' hh hm hw h =>
    rcases logAppend_eq h with ⟨rfl, _⟩ | ⟨l, er, _, rfl, _⟩ | ⟨l, h1, h1', h2⟩
    · exact same rfl rfl
    · exact same rfl rfl
    · rcases h2 with ⟨rfl, _⟩ | ⟨g, m, hg', hm, h4⟩
      · exact same rfl rfl
      · obtain ⟨h5, f, h6⟩ := addUncommitted_eq h4
        intro hr y r hf
        have hrole : s.role = .leader := by rw [h6] at hr; exact hr
        rw [h5] at hf
        rcases handleMembershipChange_rows (σ := σ') (F := F') (p := p)
          (s := ({ s with log := l, uncommitted := s.uncommitted ++ [(l.lastIdx, m)] } : Node P)) ok.me hf with h7 | h7
        · exact same (s2 := s) rfl rfl hrole y r h7
        · exact h7
  | cut idx hr hc hp ht =>
    intro h
    obtain ⟨u, m, f, h1⟩ := maybeChangeUncommitted_eq ({ s with log := (s.log.cancelFrom idx).1 } : Node P)
    rw [h1] at h
    exact absurd h (fun h => leader_follower h hr)
  | advance _ hr h =>
    intro _ y r hf
    obtain ⟨np, nc, _, _, s1, h1, h2⟩ := maybeAdvance_eq hr h
    have key : ∀ y r, s1.followers.find y = some r → RowOk σ' p F' y r := by
      intro y r hf
      split at h1
      · rw [h1] at hf
        rcases maybeChange_rows (σ := σ') (F := F') (p := p)
          (s := ({ s with promise := max np s.promise, commit := nc, cfgs := s.cfgs ++ [s.membership] } : Node P)) ok.me hf with h7 | h7
        · exact same (s2 := s) rfl rfl hr y r h7
        · exact h7
      · rw [h1] at hf
        exact same (s2 := s) rfl rfl hr y r hf
    rcases h2 with rfl | rfl
    · exact key y r hf
    · obtain ⟨r0, h3, rfl⟩ := find_mapV' _ _ y r hf
      have := key y r0 h3
      exact ⟨this.other, this.le, this.len, this.prom⟩
  | follow =>
    rename_i hr _ _
    intro h
    obtain ⟨u, m, f, h1⟩ := followLeader_eq s _ _
    rw [h1] at h
    exact absurd h (fun h => leader_follower h hr)
  | ack frm g mt l a hh r hi hr hf hm =>
    intro _ y r' hf'
    obtain ⟨dst, _, hmsg⟩ := hin.msg _ _ hi
    have h1 := ack_row ok hn hser hmsg hr hf hm
    simp only at hf'
    rw [OMap.find_insert] at hf'
    split at hf'
    · rename_i e
      subst e
      cases hf'
      exact h1.grows hg (hF (fun h => leader_follower hr h)) rfl rfl
    · exact same (s2 := s) rfl rfl hr y r' hf'
  | send _ dst m hso h =>
    rcases addSendable_eq h with rfl | ⟨rfl, _⟩
    · exact same rfl rfl
    · exact same rfl rfl

/-- Candidates count votes that were cast. -/
theorem Atom.votes {σ' : St P} (h : Atom c.v inp s s') (ok : NodeOk c σ p s F) (hin : InpOk c σ p inp)
    (hg : Grows σ σ') (hself : ∃ F', σ' p = some (s', F')) :
    s'.role = .candidate → SSorted s'.votes ∧ (∀ x ∈ s'.votes, x ∈ s'.membership.voting) ∧ ∀ x ∈ s'.votes, Cast σ' x s'.term p := by
  have same : ∀ {s2 : Node P}, s2.role = s.role → s2.votes = s.votes → s2.membership = s.membership → s2.term = s.term →
      s2.role = .candidate → SSorted s2.votes ∧ (∀ x ∈ s2.votes, x ∈ s2.membership.voting) ∧ ∀ x ∈ s2.votes, Cast σ' x s2.term p := by
    intro s2 h1 h2 h3 h4 hr
    rw [h1] at hr
    rw [h2, h3, h4]
    obtain ⟨a, b, c⟩ := ok.votes hr
    exact ⟨a, b, fun x hx => (c x hx).grows hg⟩
  cases h with
  | misc => exact same rfl rfl rfl rfl
  | table => exact same rfl rfl rfl rfl
  | demote => intro h; cases h
  | raise => intro h; cases h
  | campaign hv hr ht =>
    intro _
    have hv' := of_decide_eq_true hv
    obtain ⟨F', hF'⟩ := hself
    refine ⟨by simp [SSorted], ?_, ?_⟩
    · intro x hx
      rw [List.mem_singleton.mp hx]
      exact hv'
    · intro x hx
      rw [List.mem_singleton.mp hx, ok.me]
      refine ⟨_, F', hF', ?_⟩
      show (s.term + 1, p) ∈ s.cast ++ [(s.term + 1, s.me)]
      rw [ok.me]
      exact List.mem_append_right _ (List.mem_singleton.mpr rfl)
  | grant => exact same rfl rfl rfl rfl
  | voted frm g hi hr hm =>
    intro _
    obtain ⟨a, b, c⟩ := ok.votes hr
    obtain ⟨dst, hd, hmsg⟩ := hin.msg _ _ hi
    obtain ⟨d, h1, h2⟩ := hmsg rfl
    have hdp : d = p := by
      rcases hd with hd | hd
      · rw [hd] at h1; cases h1
      · rw [hd] at h1; cases h1; rfl
    subst hdp
    refine ⟨sinsert_sorted _ _ a, ?_, ?_⟩
    · intro x hx
      rcases (mem_sinsert _ _ _).mp hx with rfl | hx
      · exact hm
      · exact b x hx
    · intro x hx
      rcases (mem_sinsert _ _ _).mp hx with rfl | hx
      · exact h2.grows hg
      · exact (c x hx).grows hg
  | lead => intro h; cases h
  | hash => exact same rfl rfl rfl rfl
  | append _ e r hh hm hw h =>
    intro h'
    obtain ⟨l, u, f, rfl⟩ := append_eq h
    rcases hw with ⟨h5, _⟩ | ⟨h5, _⟩
    · have : s.role = .candidate := h'
      rw [h5] at this; cases this
    · have : s.role = .candidate := h'
      rw [h5] at this; cases this
  | cut idx hr hc hp ht =>
    intro h
    obtain ⟨u, m, f, h1⟩ := maybeChangeUncommitted_eq ({ s with log := (s.log.cancelFrom idx).1 } : Node P)
    rw [h1] at h
    have : s.role = .candidate := h
    rw [hr] at this; cases this
  | advance _ hr h =>
    intro h'
    obtain ⟨_, _, _, _, _, _, rfl, _⟩ := advance_eq hr h
    have : s.role = .candidate := h'
    rw [hr] at this; cases this
  | follow =>
    rename_i hr _ _
    intro h
    obtain ⟨u, m, f, h1⟩ := followLeader_eq s _ _
    rw [h1] at h
    have : s.role = .candidate := h
    rw [hr] at this; cases this
  | ack => exact same rfl rfl rfl rfl
  | send _ dst m hso h =>
    rcases addSendable_eq h with rfl | ⟨rfl, _⟩
    · exact same rfl rfl rfl rfl
    · exact same rfl rfl rfl rfl

/-- Leaders were elected. -/
theorem Atom.ledOk {σ' : St P} (h : Atom c.v inp s s') (ok : NodeOk c σ p s F) (hg : Grows σ σ') :
    (∀ t m, (t, m) ∈ s'.led → Elected c σ' p t m) ∧ (s'.role = .leader → ∃ m, (s'.term, m) ∈ s'.led) := by
  have same : ∀ {s2 : Node P}, s2.led = s.led → (s2.role = .leader → s2.role = s.role ∧ s2.term = s.term) →
      (∀ t m, (t, m) ∈ s2.led → Elected c σ' p t m) ∧ (s2.role = .leader → ∃ m, (s2.term, m) ∈ s2.led) := by
    intro s2 h1 h2
    refine ⟨fun t m hm => (ok.led t m (by rw [← h1]; exact hm)).grows hg, fun hr => ?_⟩
    obtain ⟨h3, h4⟩ := h2 hr
    rw [h4, h1]
    exact ok.leads (by rw [← h3]; exact hr)
  cases h with
  | misc => exact same rfl (fun _ => ⟨rfl, rfl⟩)
  | table => exact same rfl (fun _ => ⟨rfl, rfl⟩)
  | demote => exact same rfl (fun h => by cases h)
  | raise => exact same rfl (fun h => by cases h)
  | campaign => exact same rfl (fun h => by cases h)
  | grant => exact same rfl (fun _ => ⟨rfl, rfl⟩)
  | voted => exact same rfl (fun _ => ⟨rfl, rfl⟩)
  | lead hr hq =>
    refine ⟨?_, fun _ => ⟨s.membership, List.mem_append_right _ (List.mem_singleton.mpr rfl)⟩⟩
    intro t m hm
    rcases List.mem_append.mp hm with hm | hm
    · exact (ok.led t m hm).grows hg
    · rw [List.mem_singleton] at hm
      cases hm
      obtain ⟨a, b, d⟩ := ok.votes hr
      refine ⟨s.votes, F, ⟨a.nodup, b, ?_⟩, fun x hx => (d x hx).grows hg, ok.mems.membership, ok.hist.grows hg⟩
      unfold quorum at hq
      rw [ok.super] at hq
      exact hq
  | hash => exact same rfl (fun _ => ⟨rfl, rfl⟩)
  | append _ e r hh hm hw h =>
    obtain ⟨l, u, f, rfl⟩ := append_eq h
    exact same rfl (fun _ => ⟨rfl, rfl⟩)
  | cut idx hr hc hp ht =>
    obtain ⟨u, m, f, h1⟩ := maybeChangeUncommitted_eq ({ s with log := (s.log.cancelFrom idx).1 } : Node P)
    rw [h1]
    exact same rfl (fun _ => ⟨rfl, rfl⟩)
  | advance _ hr h =>
    obtain ⟨_, _, _, _, _, _, rfl, _⟩ := advance_eq hr h
    exact same rfl (fun _ => ⟨rfl, rfl⟩)
  | follow =>
    obtain ⟨u, m, f, h1⟩ := followLeader_eq s _ _
    rw [h1]
    exact same rfl (fun _ => ⟨rfl, rfl⟩)
  | ack => exact same rfl (fun _ => ⟨rfl, rfl⟩)
  | send _ dst m hso h =>
    rcases addSendable_eq h with rfl | ⟨rfl, _⟩
    · exact same rfl (fun _ => ⟨rfl, rfl⟩)
    · exact same rfl (fun _ => ⟨rfl, rfl⟩)

theorem SendOk.msgOk {σ' : St P} (ok : NodeOk c σ p s F) (hg : Grows σ σ') {dst : Option P} {m : Msg} (h : SendOk s dst m)
    (hself : σ p = some (s, F)) : MsgOk c σ' p dst m := by
  refine MsgOk.grows ?_ hg
  obtain ⟨_, h2, h3⟩ := h
  obtain ⟨g, t, b⟩ := m
  simp only at h2 h3
  cases b with
  | voteReq => trivial
  | voteResp gr =>
    intro hgr
    obtain ⟨frm, h4, h5⟩ := h3 hgr
    refine ⟨frm, h4, s, F, hself, ?_⟩
    simp only
    rw [h2]
    exact (ok.voted.cur frm).mpr h5
  | appReq pi pt ph es c a =>
    obtain ⟨_, h4, h5, h6, h7⟩ := h3
    have hpi : pi ≤ F.length := by
      rcases h4 with h4 | ⟨o, ho, _⟩
      · omega
      · exact (ok.log.at_some ho).2.2.1
    have hes : ∀ j e, es[j]? = some e → F[pi + j]? = some e := by
      intro j e hj
      obtain ⟨_, _, _, b4⟩ := ok.log.at_some (h5 j e hj)
      rwa [show pi + 1 + j - 1 = pi + j by omega] at b4
    have hlen : pi + es.length ≤ F.length := by
      rcases Nat.eq_zero_or_pos es.length with h0 | h0
      · omega
      · have := hes (es.length - 1) _ (List.getElem?_eq_getElem (by omega))
        have := (List.getElem?_eq_some_iff.mp this).1
        omega
    refine ⟨F.take (pi + es.length), ok.hist.take _, by rw [List.length_take]; omega, ?_, ?_, ?_⟩
    · apply List.ext_getElem?
      intro j
      rw [List.getElem?_drop, List.getElem?_take]
      by_cases hj : j < es.length
      · rw [if_pos (by omega), List.getElem?_eq_getElem hj]
        exact hes j _ (List.getElem?_eq_getElem hj)
      · rw [if_neg (by omega), List.getElem?_eq_none (by omega)]
    · rcases h4 with h4 | ⟨o, ho, hoh, _⟩
      · exact .inl h4
      · obtain ⟨b1, _, _, b4⟩ := ok.log.at_some ho
        exact .inr ⟨o, by rw [List.getElem?_take, if_pos (by omega)]; exact b4, hoh⟩
    · rw [List.take_take, Nat.min_eq_left h7]
      refine ok.com.prefix ?_
      rw [List.prefix_take_iff]
      exact ⟨List.take_prefix _ _, by rw [List.length_take]; omega⟩
  | appResp okb mt l a hh =>
    intro hok
    obtain ⟨h4, h5, h6⟩ := h3.2 hok
    refine ⟨h5, fun hl => ?_⟩
    unfold hashOr at h6
    cases ha : s.log.at? mt with
    | none => rw [ha] at h6; rw [h6] at hl; cases hl
    | some o =>
      rw [ha] at h6
      obtain ⟨b1, _, b3, b4⟩ := ok.log.at_some ha
      refine ⟨F.take mt, o, ok.hist.take _, by rw [List.length_take]; omega,
        by rw [List.getElem?_take, if_pos (by omega)]; exact b4, h6.symm, s, F, hself, ?_, ?_⟩
      · exact (List.take_prefix _ _).trans (List.take_prefix _ _)
      · rw [List.length_take]; omega
  | timeoutNow => trivial
  | notSet => trivial

/-- The match index the follower found is where its history and the sender's agree. -/
theorem matches_history (ok : NodeOk c σ p s F) (hn : NoCollision c.v c.G) (hser : SerInj c.v) {pi lp : Nat} {ph : Bytes}
    {es : List Entry} {L : List Entry} (hL : Chain c.v c.G L) (hlen : L.length = pi + es.length) (hd : L.drop pi = es)
    (hp : pi = 0 ∨ ∃ o, L[pi - 1]? = some o ∧ o.hash = ph) (hm : s.Matches pi ph es lp) :
    lp ≤ s.lastApplied ∨ (lp ≤ F.length ∧ F.take lp = L.take lp) := by
  obtain ⟨m1, m2, m3⟩ := hm
  rcases m3 with m3 | m3 | ⟨o, ho, m3⟩
  · left; omega
  · exact .inl m3
  · obtain ⟨b1, _, b3, b4⟩ := ok.log.at_some ho
    have hl := ok.chain _ _ b4
    rcases m3 with m3 | m3
    · exact absurd m3 hl.term
    right
    refine ⟨b3, ?_⟩
    have hLo : ∃ o', L[lp - 1]? = some o' ∧ o'.hash = o.hash := by
      unfold hashIn at m3
      split at m3
      · rename_i e
        subst e
        rcases hp with hp | ⟨o', ho', hoh⟩
        · omega
        · exact ⟨o', ho', by rw [hoh]; exact Option.some.inj m3⟩
      · cases he : es[lp - pi - 1]? with
        | none => rw [he] at m3; cases m3
        | some e =>
          rw [he] at m3
          refine ⟨e, ?_, Option.some.inj m3⟩
          rw [← hd, List.getElem?_drop] at he
          rwa [show pi + (lp - pi - 1) = lp - 1 by omega] at he
    obtain ⟨o', h1, h2⟩ := hLo
    have := chain_inj hn hser ok.chain hL b4 h1 h2.symm
    rwa [show lp - 1 + 1 = lp by omega] at this

/-! ### Promise and commit index -/

theorem row_of_voting {x : P × Repl} (ok : NodeOk c σ p s F) (hr : s.role = .leader)
    (hx : x ∈ s.followers.list.filter (fun y => decide (y.1 ∈ s.membership.voting))) :
    x.1 ∈ s.membership.voting ∧ RowOk σ p F x.1 x.2 := by
  obtain ⟨h1, h2⟩ := List.mem_filter.mp hx
  exact ⟨of_decide_eq_true h2, ok.rows hr _ _ (OMap.mem_list.mp h1)⟩

/-- The leader's new promise index is inside the log, its new commit index is not above it, and a quorum promised that much. -/
theorem advance_spec {np nc : Nat} (ok : NodeOk c σ p s F) (hr : s.role = .leader)
    (h1 : nth1 (sortDesc (s.votingFollowers.map (·.mtch) ++ [s.log.lastIdx])) s.quorum = .ok np)
    (h2 : nth1 (sortDesc (s.votingFollowers.map (·.promise) ++ [max np s.promise])) s.quorum = .ok nc) :
    max np s.promise ≤ F.length ∧ nc ≤ max np s.promise ∧
      (0 < nc → ∃ Q, Quorate c.sm s.membership Q ∧ ∀ x ∈ Q, x = p ∨ (x ≠ p ∧ Prom σ x (F.take nc))) := by
  obtain ⟨a1, _, a3⟩ := nth1_spec h1
  obtain ⟨_, b2, _⟩ := nth1_spec h2
  generalize hl : s.followers.list.filter (fun y => decide (y.1 ∈ s.membership.voting)) = l
  have hv : s.votingFollowers = l.map (·.2) := by rw [← hl]; rfl
  have hrow : ∀ x ∈ l, x.1 ∈ s.membership.voting ∧ RowOk σ p F x.1 x.2 := by
    intro x hx
    rw [← hl] at hx
    exact row_of_voting ok hr hx
  rw [hv, List.map_map] at a1 a3 b2
  have hlast := ok.log.lastIdx
  refine ⟨?_, ?_, ?_⟩
  · have : np ≤ F.length := by
      rcases List.mem_append.mp a1 with h | h
      · obtain ⟨x, hx, rfl⟩ := List.mem_map.mp h
        exact (hrow x hx).2.len
      · rw [List.mem_singleton.mp h, hlast]
    exact max_le this ok.promise
  · by_contra hlt
    rw [not_le] at hlt
    rw [List.countP_append, List.countP_map] at b2 a3
    have h0 : List.countP (fun y => decide (nc ≤ y)) [max np s.promise] = 0 := by
      rw [List.countP_eq_zero]
      intro a ha
      rw [List.mem_singleton.mp ha]
      simp only [decide_eq_true_eq]; omega
    rw [h0] at b2
    have hmono := List.countP_mono_left (l := l) (p := (fun y => decide (nc ≤ y)) ∘ ((fun r => r.promise) ∘ (fun x => x.2)))
      (q := (fun y => decide (np < y)) ∘ ((fun r => r.mtch) ∘ (fun x => x.2))) (by
        intro x hx h
        have := (hrow x hx).2.le
        simp only [Function.comp, decide_eq_true_eq] at h ⊢
        omega)
    have hz : 0 ≤ List.countP (fun y => decide (np < y)) [s.log.lastIdx] := Nat.zero_le _
    omega
  · intro hpos
    refine ⟨p :: (l.filter (fun x => decide (nc ≤ x.2.promise))).map (·.1), ⟨?_, ?_, ?_⟩, ?_⟩
    · refine List.nodup_cons.mpr ⟨?_, ?_⟩
      · intro h
        obtain ⟨x, hx, hxp⟩ := List.mem_map.mp h
        exact (hrow x (List.mem_filter.mp hx).1).2.other hxp
      · have hs : s.followers.list.Pairwise (fun a b => a.1 < b.1) := s.followers.sorted
        have : (l.filter (fun x => decide (nc ≤ x.2.promise))).Pairwise (fun a b => a.1 < b.1) := by
          rw [← hl]
          exact (hs.sublist List.filter_sublist).sublist List.filter_sublist
        exact List.pairwise_map.mpr (this.imp (fun h => ne_of_lt h))
    · intro x hx
      rcases List.mem_cons.mp hx with rfl | hx
      · exact ok.voter (fun h => leader_follower hr h)
      · obtain ⟨y, hy, rfl⟩ := List.mem_map.mp hx
        exact (hrow y (List.mem_filter.mp hy).1).1
    · rw [List.length_cons, List.length_map, ← List.countP_eq_length_filter]
      rw [List.countP_append, List.countP_map] at b2
      have h1 := List.countP_le_length (p := fun y => decide (nc ≤ y)) (l := [max np s.promise])
      simp only [List.length_singleton] at h1
      have h3 : s.quorum = quorumSize s.membership.voting.length c.sm := by
        unfold quorum
        rw [ok.super]
      rw [← h3]
      refine b2.trans (Nat.add_le_add (le_of_eq ?_) h1)
      rfl
    · intro x hx
      rcases List.mem_cons.mp hx with rfl | hx
      · exact .inl rfl
      · obtain ⟨y, hy, rfl⟩ := List.mem_map.mp hx
        obtain ⟨y1, y2⟩ := List.mem_filter.mp hy
        have hrw := (hrow y y1).2
        have hle := of_decide_eq_true y2
        refine .inr ⟨hrw.other, ?_⟩
        rcases hrw.prom with h | h
        · omega
        · refine h.prefix ?_
          rw [List.prefix_take_iff]
          exact ⟨List.take_prefix _ _, by rw [List.length_take]; omega⟩

theorem take_of_prefix {A B : List Entry} {n : Nat} (h : A.take n <+: B) (hn : n ≤ A.length) : B.take n = A.take n := by
  obtain ⟨t, rfl⟩ := h
  have : (A.take n).length = n := by rw [List.length_take]; omega
  rw [List.take_append_of_le_length (by omega), List.take_of_length_le (by omega)]

/-- The order of the indexes, and that what is committed was promised by a quorum. -/
theorem Atom.indexes {F' : List Entry} (h : Atom c.v inp s s') (ok : NodeOk c σ p s F) (hin : InpOk c σ p inp)
    (hn : NoCollision c.v c.G) (hser : SerInj c.v) (hself : σ p = some (s, F)) (hsame : s'.log = s.log → F' = F)
    (hF : F.take s.promise <+: F') (hg : Grows σ (upd σ p s' F')) :
    s'.lastApplied ≤ s'.commit ∧ s'.commit ≤ s'.promise ∧ s'.promise ≤ F'.length ∧ Com c (upd σ p s' F') (F'.take s'.commit) := by
  have same : s'.lastApplied = s.lastApplied → s'.commit = s.commit → s'.promise = s.promise →
      s'.lastApplied ≤ s'.commit ∧ s'.commit ≤ s'.promise ∧ s'.promise ≤ F'.length ∧ Com c (upd σ p s' F') (F'.take s'.commit) := by
    intro h1 h2 h3
    rw [h1, h2, h3]
    have hl := hF.length_le
    rw [List.length_take] at hl
    have := ok.promise
    refine ⟨ok.applied, ok.commit, by omega, ?_⟩
    have hc : F.take s.commit <+: F' := by
      refine List.IsPrefix.trans ?_ hF
      rw [List.prefix_take_iff]
      exact ⟨List.take_prefix _ _, by rw [List.length_take]; have := ok.commit; omega⟩
    rw [take_of_prefix hc (ok.commit.trans ok.promise)]
    exact ok.com.grows hg
  cases h with
  | misc => exact same rfl rfl rfl
  | table => exact same rfl rfl rfl
  | demote => exact same rfl rfl rfl
  | raise => exact same rfl rfl rfl
  | campaign => exact same rfl rfl rfl
  | grant => exact same rfl rfl rfl
  | voted => exact same rfl rfl rfl
  | lead => exact same rfl rfl rfl
  | hash => exact same rfl rfl rfl
  | append _ e r hh hm hw h =>
    obtain ⟨l, u, f, rfl⟩ := append_eq h
    exact same rfl rfl rfl
  | cut idx hr hc hp ht =>
    obtain ⟨u, m, f, h1⟩ := maybeChangeUncommitted_eq ({ s with log := (s.log.cancelFrom idx).1 } : Node P)
    rw [h1] at same ⊢
    exact same rfl rfl rfl
  | advance _ hr h =>
    obtain ⟨np, nc, h1, h2, s1, h3, h4⟩ := maybeAdvance_eq hr h
    obtain ⟨k1, k2, k3⟩ := advance_spec ok hr h1 h2
    have key : ∃ u m f g cm, s' = { s with promise := max np s.promise, commit := cm, uncommitted := u, mem := m, followers := f, cfgs := g } ∧
        ((cm = s.commit) ∨ (cm = nc ∧ s.commit < nc)) := by
      split at h3
      · rename_i hc
        obtain ⟨u, m, f, h5⟩ := maybeChangeUncommitted_eq
          ({ s with promise := max np s.promise, commit := nc, cfgs := s.cfgs ++ [s.membership] } : Node P)
        rw [h5] at h3
        subst h3
        rcases h4 with rfl | rfl
        · exact ⟨u, m, f, _, nc, rfl, .inr ⟨rfl, hc⟩⟩
        · exact ⟨u, m, _, _, nc, rfl, .inr ⟨rfl, hc⟩⟩
      · subst h3
        rcases h4 with rfl | rfl
        · exact ⟨s.uncommitted, s.mem, s.followers, s.cfgs, s.commit, rfl, .inl rfl⟩
        · exact ⟨s.uncommitted, s.mem, _, s.cfgs, s.commit, rfl, .inl rfl⟩
    obtain ⟨u, m, f, g, cm, rfl, hc⟩ := key
    have hFF := hsame rfl
    subst hFF
    refine ⟨?_, ?_, k1, ?_⟩
    · show s.lastApplied ≤ cm
      have := ok.applied
      omega
    · show cm ≤ max np s.promise
      have := ok.commit
      omega
    · rcases hc with rfl | ⟨rfl, hc⟩
      · exact ok.com.grows hg
      · obtain ⟨Q, q1, q2⟩ := k3 (by omega)
        refine .mk _ (F'.take cm) F' Q List.prefix_rfl (List.take_prefix _ _) ?_ ?_ ok.hist.changes ok.hist.kinds
          (ok.hist.settled.grows hg)
        · rw [← ok.mems.membership]; exact q1
        · intro x hx
          rcases q2 x hx with rfl | ⟨_, hx⟩
          · exact ⟨_, _, upd_self _ _ _ _, List.take_prefix _ _, by rw [List.length_take]; simp only; omega⟩
          · exact hx.grows hg
  | follow frm g t pi pt ph es cm a lp hi hr hca hm =>
    obtain ⟨dst, _, L, m1, m2, m3, m4, m5⟩ := hin.msg _ _ hi
    have h1 := matches_history ok hn hser m1.chain m2 m3 m4 hm
    obtain ⟨u, m, f, h2⟩ := followLeader_eq s (min cm lp) (min a lp)
    rw [h2] at same hsame hg ⊢
    have hFF := hsame rfl
    subst hFF
    have := ok.applied
    have := ok.commit
    have := ok.promise
    rcases h1 with h1 | ⟨h1, h3⟩
    · exact same rfl (by simp only; omega) (by simp only; omega)
    · refine ⟨by simp only; omega, by simp only; omega, by simp only; omega, ?_⟩
      refine Com.grows ?_ hg
      simp only
      by_cases hcc : min cm lp ≤ s.commit
      · rw [max_eq_right hcc]
        exact ok.com
      · rw [max_eq_left (by omega)]
        have : F'.take (min cm lp) <+: L.take cm := by
          have h4 := congrArg (List.take (min cm lp)) h3
          rw [List.take_take, List.take_take, Nat.min_eq_left (by omega)] at h4
          rw [h4, List.prefix_take_iff]
          exact ⟨List.take_prefix _ _, by rw [List.length_take]; omega⟩
        exact m5.prefix this
  | ack => exact same rfl rfl rfl
  | send _ dst m hso h =>
    rcases addSendable_eq h with rfl | ⟨rfl, _⟩
    · exact same rfl rfl rfl
    · exact same rfl rfl rfl

/-- An entry taken from an append request continues the history as the sender's does. -/
theorem next_entry (ok : NodeOk c σ p s F) (hn : NoCollision c.v c.G) (hser : SerInj c.v) {L : List Entry} {e : Entry}
    (hL : Chain c.v c.G L) (he : Linked c.v c.G F F.length e) (hLe : L[F.length]? = some e) : F ++ [e] = L.take (F.length + 1) := by
  have hLk := hL _ _ hLe
  have := hn _ _ he.known hLk.known (by simp only; rw [← he.hash, ← hLk.hash])
  simp only [Prod.mk.injEq] at this
  have hp := this.1
  have hF : F = L.take F.length := by
    rcases Nat.eq_zero_or_pos F.length with h0 | h0
    · rw [h0, List.take_zero]; exact List.eq_nil_of_length_eq_zero h0
    · have hlt := (List.getElem?_eq_some_iff.mp hLe).1
      unfold prevOf at hp
      rw [if_neg (by omega), if_neg (by omega)] at hp
      have e1 : F[F.length - 1]? = some F[F.length - 1] := List.getElem?_eq_getElem (by omega)
      have e2 : L[F.length - 1]? = some L[F.length - 1] := List.getElem?_eq_getElem (by omega)
      rw [e1, e2] at hp
      have := chain_inj hn hser ok.chain hL e1 e2 hp
      rw [show F.length - 1 + 1 = F.length by omega, List.take_length] at this
      exact this
  rw [List.take_add_one, hLe, ← hF]
  rfl

/-- Histories stay proper. -/
theorem Atom.hist {F' : List Entry} {σ' : St P} (_ : Atom c.v inp s s') (ok : NodeOk c σ p s F) (hin : InpOk c σ p inp)
    (hn : NoCollision c.v c.G) (hser : SerInj c.v) (hg : Grows σ σ')
    (hcase : (s'.log = s.log ∧ F' = F) ∨ (∃ k, k ≤ s.log.lastIdx ∧ F' = F.take k) ∨ ∃ e, F' = F ++ [e] ∧
      Linked c.v c.G F F.length e ∧ s.Came c.v inp e) : Hist c σ' F' := by
  refine Hist.grows ?_ hg
  rcases hcase with ⟨_, rfl⟩ | ⟨k, _, rfl⟩ | ⟨e, rfl, hl, hcame⟩
  · exact ok.hist
  · exact ok.hist.take k
  · rcases hcame with ⟨_, _, h1, h2⟩ | ⟨_, frm, g, t, pi, pt, ph, es, cm, a, hi, h1, h2⟩
    · have hlast : ∀ {i : Nat} {a : Entry}, (F ++ [e])[i]? = some a → (i < F.length ∧ F[i]? = some a) ∨ (i = F.length ∧ a = e) := by
        intro i a ha
        by_cases hi : i < F.length
        · rw [List.getElem?_append_left hi] at ha
          exact .inl ⟨hi, ha⟩
        · have := (List.getElem?_eq_some_iff.mp ha).1
          rw [List.length_append, List.length_singleton] at this
          have hi' : i = F.length := by omega
          subst hi'
          rw [List.getElem?_append_right le_rfl, Nat.sub_self] at ha
          exact .inr ⟨rfl, (Option.some.inj ha).symm⟩
      have hask : ∀ m, memOf c.v e = some m → s.uncommitted = [] ∧ ∃ ld, validProgression ld (memAt c.v c.m0 F) m c.sm = none := by
        intro m hm
        obtain ⟨g, hg1, hg2⟩ := memOf_some hm
        obtain ⟨a1, a2, _⟩ := h2 g m hg1 hg2
        refine ⟨a1, s.me, ?_⟩
        have hmem : s.membership = s.mem := by unfold membership; rw [a1]; rfl
        rw [← ok.mems.membership, hmem, ← ok.super]
        exact a2
      refine ⟨ok.chain.append hl, ?_, ?_, ?_⟩
      · intro i a m ha hm
        rcases hlast ha with ⟨hi, ha⟩ | ⟨rfl, rfl⟩
        · rw [List.take_append_of_le_length (by omega)]
          exact ok.hist.changes i a m ha hm
        · rw [List.take_append_of_le_length le_rfl, List.take_length]
          exact (hask m hm).2
      · intro i j a b hij ha hb hma hmb
        have hi : i < F.length ∧ F[i]? = some a := by
          rcases hlast ha with h | ⟨rfl, _⟩
          · exact h
          · rcases hlast hb with ⟨h, _⟩ | ⟨h, _⟩ <;> omega
        rw [List.take_append_of_le_length (by omega)]
        rcases hlast hb with ⟨_, hb⟩ | ⟨_, rfl⟩
        · exact ok.hist.settled i j a b hij hi.2 hb hma hmb
        · obtain ⟨m, hm⟩ := Option.isSome_iff_exists.mp hmb
          have hu := (hask m hm).1
          rw [ok.mems.unc] at hu
          have hnone := memsFrom_nil c.v _ _ hu
          have hic : i < s.commit := by
            by_contra hge
            have : a ∈ F.drop s.commit := by
              rw [List.mem_iff_getElem?]
              exact ⟨i - s.commit, by rw [List.getElem?_drop, show s.commit + (i - s.commit) = i by omega]; exact hi.2⟩
            rw [hnone a this] at hma
            cases hma
          refine ok.com.prefix ?_
          rw [List.prefix_take_iff]
          exact ⟨List.take_prefix _ _, by rw [List.length_take]; omega⟩
      · intro a ha
        rcases List.mem_append.mp ha with ha | ha
        · exact ok.hist.kinds a ha
        · rw [List.mem_singleton.mp ha]
          exact h1.imp id (fun h => hin.req _ h)
    · obtain ⟨dst, _, L, m1, m2, m3, _⟩ := hin.msg _ _ hi
      rw [ok.log.lastIdx] at h1 h2
      have hLe : L[F.length]? = some e := by
        rw [← m3, List.getElem?_drop, show pi + (F.length - pi) = F.length by omega] at h2
        exact h2
      rw [next_entry ok hn hser m1.chain hl hLe]
      exact m1.take _

/-- Every atom keeps `NodeOk`. -/
theorem Atom.group_step (h : Atom c.v inp s s') (ok : NodeOk c σ p s F) (hself : σ p = some (s, F)) (hin : InpOk c σ p inp)
    (hty : ∀ q m, inp = .msg q m → Typed m) (hh : ∀ x ∈ s'.hashed, c.G x) (hn : NoCollision c.v c.G) (hser : SerInj c.v) :
    ∃ F', NodeOk c (upd σ p s' F') p s' F' ∧ Grows σ (upd σ p s' F') ∧ (s'.log = s.log → F' = F) ∧
      ((s'.log = s.log ∧ F' = F) ∨ (∃ k, k ≤ s.log.lastIdx ∧ F' = F.take k) ∨ ∃ e, F' = F ++ [e] ∧ Linked c.v c.G F F.length e ∧
        s.Came c.v inp e) := by
  have hm := h.mono
  obtain ⟨ht, F', h1, h2, h3, h4, h5⟩ := h.history ok.shaped ok.log ok.chain ok.hashed hty ok.term
  have hsame : s'.log = s.log → F' = F := by
    intro hl
    rw [hl] at h1
    exact history_same ok.log h1 (h5.imp And.right id)
  rw [max_eq_right ok.commit] at h3
  have hg : Grows σ (upd σ p s' F') := upd_grows hself hm.promise h3 hm.cast hm.led
  obtain ⟨i1, i2, i3, i4⟩ := h.indexes ok hin hn hser hself hsame h3 hg
  have j1 := h.mems ok h1 h5 i3 i2
  obtain ⟨l1, l2⟩ := h.ledOk ok hg
  refine ⟨F', ⟨hm.me.trans ok.me, hm.sm.trans ok.super, hm.group.trans ok.group, h.shaped ok.shaped, h1, h.hist ok hin hn hser hg h5, hh, ht,
    h.voted_inv ok.voted, h.cand ok.cand, i1, i2, i3, i4, j1, h.voter ok, h.rows ok hin hn hser hg h4,
    h.votes ok hin hg ⟨F', upd_self _ _ _ _⟩, l1, l2, ?_⟩, hg, hsame, h5⟩
  intro x hx
  rcases h.sent with h6 | ⟨y, h6, h7, _⟩
  · rw [h6] at hx
    exact (ok.sends x hx).grows hg
  · rw [h6] at hx
    rcases List.mem_append.mp hx with hx | hx
    · exact (ok.sends x hx).grows hg
    · rw [List.mem_singleton.mp hx]
      exact h7.msgOk ok hg hself

theorem Atom.group_inv (h : Atom c.v inp s s') (ok : NodeOk c σ p s F) (hself : σ p = some (s, F)) (hin : InpOk c σ p inp)
    (hty : ∀ q m, inp = .msg q m → Typed m) (hh : ∀ x ∈ s'.hashed, c.G x) (hn : NoCollision c.v c.G) (hser : SerInj c.v) :
    ∃ F', NodeOk c (upd σ p s' F') p s' F' ∧ Grows σ (upd σ p s' F') := by
  obtain ⟨F', a, b, _⟩ := h.group_step ok hself hin hty hh hn hser
  exact ⟨F', a, b⟩

/-- So does every sequence of atoms. -/
theorem Steps.group_inv (h : Steps c.v inp s s') (ok : NodeOk c σ p s F) (hself : σ p = some (s, F)) (hin : InpOk c σ p inp)
    (hty : ∀ q m, inp = .msg q m → Typed m) (hh : ∀ x ∈ s'.hashed, c.G x) (hn : NoCollision c.v c.G) (hser : SerInj c.v) :
    ∃ F', NodeOk c (upd σ p s' F') p s' F' ∧ Grows σ (upd σ p s' F') := by
  induction h with
  | refl => exact ⟨F, by rw [upd_eq hself]; exact ok, by rw [upd_eq hself]; exact Grows.refl _⟩
  | tail h k ih =>
    obtain ⟨F1, a1, a2⟩ := ih (fun x hx => hh x (k.mono.hashed.subset hx))
    obtain ⟨F2, b1, b2⟩ := k.group_inv a1 (upd_self _ _ _ _) (hin.grows a2) hty hh hn hser
    rw [upd_upd] at b1 b2
    exact ⟨F2, b1, a2.trans b2⟩

end
end Svr.Raft.Node
