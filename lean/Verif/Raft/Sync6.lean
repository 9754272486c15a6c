import Verif.Raft.Sync5

/-!
# A leader brings a quorum up to date and commits its log
-/

namespace Svr.Raft
open Node
variable {P : Type} [LinearOrder P]
variable {v : Env P} {s s' : Node P} {L : List Entry}

theorem Lead.tick (h : Lead L s) (k : s.timerTick v = .ok s') : ∃ s1, s1.maybeChangeState v = .ok s' ∧ Lead L s1 ∧ Leads' s s1 ∧
    s1.promise = s.promise ∧ s1.commit = s.commit ∧ ∀ x, (s1.followers.find x).map course' = (s.followers.find x).map course' := by
  obtain ⟨s1, h1, h2⟩ := Out.bind_eq_ok.mp k
  have e : ∃ f b, s1 = { s with followers := f, heartbeat := b } ∧ ∀ x, (f.find x).map course' = (s.followers.find x).map course' := by
    unfold tickRole at h1
    split at h1
    · rename_i hx; rw [h.role] at hx; cases hx
    · rename_i hx; rw [h.role] at hx; cases hx
    rename_i hx
    clear hx
    simp only at h1
    split at h1
    · cases h1
      refine ⟨_, _, rfl, fun x => ?_⟩
      rw [OMap.find_mapV, OMap.find_mapV]
      cases s.followers.find x with
      | none => rfl
      | some r =>
        simp only [Option.map_some]
        split <;> rfl
    · cases h1
      refine ⟨_, _, rfl, fun x => ?_⟩
      rw [OMap.find_mapV]
      cases s.followers.find x with
      | none => rfl
      | some r =>
        simp only [Option.map_some]
        split <;> rfl
  obtain ⟨f, b, e, hf⟩ := e
  refine ⟨s1, h2, ?_, ?_, by rw [e], by rw [e], by rw [e]; exact hf⟩
  · rw [e]
    refine ⟨h.role, h.stays, h.log, h.unc, h.le, ?_, h.agrees⟩
    intro p r hr
    obtain ⟨r', b1, b2⟩ := course_find (fun z => (course_of_course' hf z).symm) hr
    have := h.marks p r' b1
    simp only [course, Prod.mk.injEq] at b2
    omega
  · rw [e]
    exact ⟨⟨rfl, rfl, rfl, rfl, rfl, rfl⟩, rfl, rfl, rfl, rfl⟩

theorem Lead.fits (h : Lead L s) : s.log.oldest ≤ max 1 L.length := by
  have h1 := h.log.len
  by_cases h0 : s.log.entries = []
  · have := h.log.empty h0
    omega
  · have : 0 < s.log.entries.length := List.length_pos_iff.mpr h0
    omega

/-- The leader brings one follower up to date. -/
theorem Among.sync {g : Setting P} {W0 : World P} {A : P → Prop} (hR : Reachable g W0) (hm : g.m0.Good) (hsm : g.sm < 2 ^ 63) {c q : P} (hA : A c)
    (hAq : A q) (hne : q ≠ c) {T P0 : Nat} (hTS : T + 1 < SZ) (hL : Line g.calm L) {W : World P} {sq : Node P} {F : List Entry}
    (k : Among g A W0 W) (hc : W.node c = some s) (hq : W.node q = some sq) (B : Boss L T c s) (hqa : q ∈ s.membership.all) (hP : P0 ≤ s.promise)
    (M : Mate g.calm L T c s.group s.log.oldest q sq F) : ∃ W', Among g A W0 W' ∧ Synced g.calm W c q L T P0 s.group s.log.oldest s sq W' := by
  have hsz := hL.size
  have hlast := B.lead.log.lastIdx
  have hpath : ∀ n, g.calm.path n = true := fun _ => rfl
  have hme : q ≠ s.me := by rw [B.me]; exact hne
  obtain ⟨r, hr⟩ := Option.isSome_iff_exists.mp
    (((Reachable.talk (Future.trans hR k.future) hm hsm).hale c s hc).table B.lead.role q hqa hme)
  -- the leader forgets what it knew about the follower
  obtain ⟨s1, o1, W1, hrun, k1, t1⟩ := k.act hR hm hsm hA hc B.ticks (.reset q) trivial
    ⟨by rw [hlast]; omega, by rw [B.term]; omega⟩ (fun m h => by cases h) (fun h => by cases h; exact hne rfl) (fun h => by cases h)
  obtain ⟨_, h2, e⟩ := Out.bind_eq_ok.mp hrun
  cases e
  unfold resetPeer at h2
  rw [if_neg (by simp only [not_not]; exact hqa)] at h2
  split at h2
  · rename_i hx; rw [B.lead.role] at hx; cases hx
  · rename_i hx; rw [B.lead.role] at hx; cases hx
  rename_i hx
  clear hx
  simp only [hr] at h2
  cases h2
  have h1 := B.lead.row (q := q) (r := { r with next := s.log.lastIdx + 1, probe := true, hb := true, upd := false, inflight := none })
    (B.lead.marks q r hr)
  -- and asks anew
  obtain ⟨s2, o2, W2, hrun, k2, t2⟩ := k1.act hR hm hsm hA t1.node B.ticks .tick trivial
    ⟨by show s.log.lastIdx + 3 < SZ; rw [hlast]; omega, by show s.term + 1 < SZ; rw [B.term]; omega⟩ (fun m h => by cases h)
    (fun h => by cases h) (fun h => by cases h)
  obtain ⟨_, h2, e⟩ := Out.bind_eq_ok.mp hrun
  cases e
  obtain ⟨s3, h3, l3, u3, p3, c3, f3⟩ := h1.tick h2
  obtain ⟨a1, a2, a3, a4, a5, a6, a7⟩ := l3.settle hL hpath h3
  have l2 : Leads' s s2 := Leads'.trans ⟨⟨u3.me, u3.group, u3.mem, u3.unc, u3.cfg, u3.sm⟩, u3.log, u3.term, u3.role, u3.stays⟩ a2
  have hrow := f3 q
  rw [show ({ s with followers := s.followers.insert q _ } : Node P).followers.find q = some _ from OMap.find_insert_self _ _ _] at hrow
  simp only [Option.map_some, Option.map_eq_some_iff] at hrow
  obtain ⟨r3, q1, q2⟩ := hrow
  simp only [course', course, Prod.mk.injEq] at q2
  obtain ⟨⟨q3, q4, q5, q6⟩, q7⟩ := q2
  have hss : ∀ {x : Node P}, Leads' s x → x.membership = s.membership := fun h => h.membership
  have ls3 : Leads' s s3 := ⟨⟨u3.me, u3.group, u3.mem, u3.unc, u3.cfg, u3.sm⟩, u3.log, u3.term, u3.role, u3.stays⟩
  obtain ⟨n, r', b1, b2, b3, b4, b5⟩ := a7 q r3 L.length (by rw [hss ls3]; exact B.nodup) (by rw [hss ls3]; exact hqa) (by rw [ls3.me]; exact hme) q1
    (by rw [q3, hlast]) q7 (.inl q6) (le_refl _) (by rw [ls3.log]; exact B.lead.fits)
  obtain ⟨r'', c1, c2⟩ := course_find a5 q1
  rw [b4] at c1
  cases c1
  simp only [course, Prod.mk.injEq] at c2
  have hprom : s.promise ≤ s2.promise := by
    rw [show s.promise = s3.promise from p3.symm]
    exact a3
  -- the request is sent
  obtain ⟨W3, k3, t3⟩ := k2.flush hA t2.node ⟨by rw [a1.log.lastIdx]; omega, by rw [l2.term, B.term]; omega⟩
  have hq3 : W3.node q = some sq := by rw [t3.other q hne, t2.other q hne, t1.other q hne]; exact hq
  have B2 := B.next a1 l2
  have e1 : ({ s2 with sendable := [] } : Node P).group = s.group := l2.group
  have e2 : ({ s2 with sendable := [] } : Node P).log.oldest = s.log.oldest := by show s2.log.oldest = _; rw [l2.log]
  have M2 := M
  rw [← e1, ← e2] at M2
  have hco : sq.commit ≤ L.length := le_trans M.near.le (le_of_take M.near.promised M.near.reach)
  obtain ⟨W', k5, S⟩ := Among.exchange hR hm hsm hA hAq hne hTS hL (distance L F r' L.length + 1) (Nat.lt_succ_self _) k3 t3.node hq3
    ⟨B2.lead.quiet, B2.term, B2.me, B2.ticks, B2.nodup⟩ (by show q ∈ s2.membership.all; rw [l2.membership]; exact hqa) (le_trans hP hprom) M2
    (i := L.length) (n := n) ⟨b4, by rw [c2.1, q3, hlast], b5, b2, by rw [c2.2.2.2, q6]; simp, min s2.commit (L.length + n), min s2.promise (L.length + n), by
      rw [t3.net]
      exact List.mem_append_right _ (List.mem_map.mpr ⟨_, b1, rfl⟩), min_le_min_right _ a1.le, min_le_right _ _, min_le_min_right _ (le_trans hP hprom)⟩ hco
  rw [e1, e2] at S
  refine ⟨W', k5, ?_, S.follower, ?_⟩
  · obtain ⟨s', r0, w1, w2, w3, w4, w5, w6, w7, w8⟩ := S.leader
    refine ⟨s', r0, w1, w2, l2.trans ⟨⟨w3.me, w3.group.trans l2.group.symm, w3.mem, w3.unc, w3.cfg, w3.sm⟩, w3.log, w3.term, w3.role, w3.stays⟩,
      le_trans hprom w4, w5, w6, w7, fun x hx => ?_⟩
    rw [w8 x hx]
    show (s2.followers.find x).map course = _
    rw [a5 x, course_of_course' f3 x]
    show ((s.followers.insert q _).find x).map course = _
    rw [OMap.find_insert_ne _ _ hx.symm]
  · intro x h1 h2
    rw [S.other x h1 h2, t3.other x h1, t2.other x h1, t1.other x h1]

/-- The leader brings all of `l` up to date. -/
theorem Among.round {g : Setting P} {W0 : World P} {A : P → Prop} (hR : Reachable g W0) (hm : g.m0.Good) (hsm : g.sm < 2 ^ 63) {c : P} (hA : A c)
    {T P0 G o : Nat} (hTS : T + 1 < SZ) (hL : Line g.calm L) : ∀ (l : List P) {W : World P} {s : Node P}, l.Nodup → c ∉ l → (∀ q ∈ l, A q) →
    Among g A W0 W → W.node c = some s → Boss L T c s → s.group = G → s.log.oldest = o → (∀ q ∈ l, q ∈ s.membership.all) → P0 ≤ s.promise →
    (∀ q ∈ l, ∃ sq F, W.node q = some sq ∧ Mate g.calm L T c G o q sq F) →
    ∃ W' s', Among g A W0 W' ∧ W'.node c = some s' ∧ Boss L T c s' ∧ Leads' s s' ∧ s.promise ≤ s'.promise ∧
      (∀ q ∈ l, ∃ r, s'.followers.find q = some r ∧ L.length ≤ r.mtch ∧ min P0 L.length ≤ r.promise) ∧
      (∀ x, x ∉ l → (s'.followers.find x).map course = (s.followers.find x).map course) ∧
      (∀ q ∈ l, ∃ sq F, W'.node q = some sq ∧ Mate g.calm L T c G o q sq F) ∧ ∀ x, x ≠ c → x ∉ l → W'.node x = W.node x
  | [], W, s, _, _, _, k, hc, B, _, _, _, _, _ => ⟨W, s, k, hc, B, Leads'.refl s, le_refl _, fun q h => (by cases h), fun _ _ => rfl,
      fun q h => (by cases h), fun _ _ _ => rfl⟩
  | q :: l, W, s, hnd, hcl, hAl, k, hc, B, hG, ho, hall, hP, hM => by
    obtain ⟨hql, hnd'⟩ := List.nodup_cons.mp hnd
    have hne : q ≠ c := fun e => hcl (e ▸ List.mem_cons_self)
    obtain ⟨sq, F, hq, M⟩ := hM q List.mem_cons_self
    rw [← hG, ← ho] at M
    obtain ⟨W1, k1, S⟩ := k.sync hR hm hsm hA (hAl q List.mem_cons_self) hne hTS hL hc hq B (hall q List.mem_cons_self) hP M
    obtain ⟨s1, r1, a1, a2, a3, a4, a5, a6, a7, a8⟩ := S.leader
    obtain ⟨sq1, F1, b1, b2, _⟩ := S.follower
    obtain ⟨W2, s2, c1, c2, c3, c4, c5, c6, c7, c8, c9⟩ := Among.round hR hm hsm hA hTS hL l hnd' (fun h => hcl (List.mem_cons_of_mem _ h))
      (fun x hx => hAl x (List.mem_cons_of_mem _ hx)) k1 a1 a2 (a3.group.trans hG) ((congrArg Log.oldest a3.log).trans ho)
      (fun x hx => by rw [a3.membership]; exact hall x (List.mem_cons_of_mem _ hx)) (le_trans hP a4)
      (fun x hx => by
        obtain ⟨sx, Fx, d1, d2⟩ := hM x (List.mem_cons_of_mem _ hx)
        exact ⟨sx, Fx, by rw [S.other x (fun e => hcl (e ▸ List.mem_cons_of_mem _ hx)) (fun e => hql (e ▸ hx))]; exact d1, d2⟩)
    refine ⟨W2, s2, c1, c2, c3, a3.trans c4, le_trans a4 c5, ?_, ?_, ?_, ?_⟩
    · intro x hx
      rcases List.mem_cons.mp hx with rfl | hx
      · have h1 := c7 x hql
        rw [a5] at h1
        simp only [Option.map_some, Option.map_eq_some_iff] at h1
        obtain ⟨r2, d1, d2⟩ := h1
        simp only [course, Prod.mk.injEq] at d2
        exact ⟨r2, d1, by omega, by omega⟩
      · exact c6 x hx
    · intro x hx
      rw [c7 x (fun h => hx (List.mem_cons_of_mem _ h)), a8 x (fun e => hx (e ▸ List.mem_cons_self))]
    · intro x hx
      rcases List.mem_cons.mp hx with rfl | hx
      · rw [hG, ho] at b2
        exact ⟨sq1, F1, by rw [c9 x hne hql]; exact b1, b2⟩
      · exact c8 x hx
    · intro x h1 h2
      rw [c9 x h1 (fun h => h2 (List.mem_cons_of_mem _ h)), S.other x h1 (fun e => h2 (e ▸ List.mem_cons_self))]

/-- A tick of the leader. -/
theorem Among.count {g : Setting P} {W0 : World P} {A : P → Prop} (hR : Reachable g W0) (hm : g.m0.Good) (hsm : g.sm < 2 ^ 63) {c : P} (hA : A c)
    {T : Nat} (hTS : T + 1 < SZ) (hL : Line g.calm L) {W : World P} (k : Among g A W0 W) (hc : W.node c = some s) (B : Boss L T c s)
    {Q : List P} (hQ : Q.Nodup) (hv : Q ⊆ s.membership.voting) (hlen : s.quorum ≤ Q.length + 1)
    (hr : ∀ q ∈ Q, ∃ r, s.followers.find q = some r ∧ L.length ≤ r.mtch) :
    ∃ W' s', Among g A W0 W' ∧ W'.node c = some s' ∧ Boss L T c s' ∧ Leads' s s' ∧ L.length ≤ s'.promise ∧
      ((∀ q ∈ Q, ∃ r, s.followers.find q = some r ∧ L.length ≤ r.promise) → L.length ≤ s'.commit) ∧ ∀ x, x ≠ c → W'.node x = W.node x := by
  have hsz := hL.size
  have hlast := B.lead.log.lastIdx
  obtain ⟨s2, o2, W2, hrun, k2, t2⟩ := k.act hR hm hsm hA hc B.ticks .tick trivial
    ⟨by rw [hlast]; omega, by rw [B.term]; omega⟩ (fun m h => by cases h) (fun h => by cases h) (fun h => by cases h)
  obtain ⟨_, h2, e⟩ := Out.bind_eq_ok.mp hrun
  cases e
  obtain ⟨s3, h3, l3, u3, p3, c3, f3⟩ := B.lead.tick h2
  obtain ⟨a1, a2, a3, a4, a5, a6, a7⟩ := l3.settle hL (fun _ => rfl) h3
  have rows : ∀ {q : P} {r : Repl}, s.followers.find q = some r → ∃ r', s3.followers.find q = some r' ∧ course r' = course r :=
    fun h => course_find (fun x => course_of_course' f3 x) h
  obtain ⟨b1, b2⟩ := a6 Q hQ (by rw [u3.membership]; exact hv) (by rw [u3.quorum]; exact hlen) L.length (by rw [u3.log, hlast]) (fun q hq => by
    obtain ⟨r, d1, d2⟩ := hr q hq
    obtain ⟨r', d3, d4⟩ := rows d1
    simp only [course, Prod.mk.injEq] at d4
    exact ⟨r', d3, by omega⟩)
  refine ⟨W2, s2, k2, t2.node, B.next a1 (u3.trans a2), u3.trans a2, b1, fun hp => b2 (fun q hq => ?_), t2.other⟩
  obtain ⟨r, d1, d2⟩ := hp q hq
  obtain ⟨r', d3, d4⟩ := rows d1
  simp only [course, Prod.mk.injEq] at d4
  exact ⟨r', d3, by omega⟩

/-- With a quorum in reach, the leader commits its whole log. -/
theorem Among.commits {g : Setting P} {W0 : World P} {A : P → Prop} (hR : Reachable g W0) (hm : g.m0.Good) (hsm : g.sm < 2 ^ 63) {c : P} (hA : A c)
    {T G o : Nat} (hTS : T + 1 < SZ) (hL : Line g.calm L) {W : World P} {Q : List P} (hQ : Q.Nodup) (hcQ : c ∉ Q) (hAQ : ∀ q ∈ Q, A q)
    (k : Among g A W0 W) (hc : W.node c = some s) (B : Boss L T c s) (hG : s.group = G) (ho : s.log.oldest = o) (hv : Q ⊆ s.membership.voting)
    (hsub : s.membership.voting ⊆ s.membership.all) (hlen : s.quorum ≤ Q.length + 1)
    (hM : ∀ q ∈ Q, ∃ sq F, W.node q = some sq ∧ Mate g.calm L T c G o q sq F) :
    ∃ W' s', Among g A W0 W' ∧ W'.node c = some s' ∧ Boss L T c s' ∧ Leads' s s' ∧ L.length ≤ s'.commit := by
  obtain ⟨W1, s1, a1, a2, a3, a4, a5, a6, _, a8, _⟩ := Among.round hR hm hsm hA hTS hL (P0 := 0) Q hQ hcQ hAQ k hc B hG ho
    (fun q hq => hsub (hv hq)) (Nat.zero_le _) hM
  obtain ⟨W2, s2, b1, b2, b3, b4, b5, _, b7⟩ := a1.count hR hm hsm hA hTS hL a2 a3 hQ (by rw [a4.membership]; exact hv)
    (by rw [a4.quorum]; exact hlen) (fun q hq => by
      obtain ⟨r, d1, d2, _⟩ := a6 q hq
      exact ⟨r, d1, d2⟩)
  have l2 := a4.trans b4
  obtain ⟨W3, s3, c1, c2, c3, c4, c5, c6, _⟩ := Among.round hR hm hsm hA hTS hL (P0 := L.length) Q hQ hcQ hAQ b1 b2 b3 (l2.group.trans hG)
    ((congrArg Log.oldest l2.log).trans ho) (fun q hq => by rw [l2.membership]; exact hsub (hv hq)) b5 (fun q hq => by
      obtain ⟨sq, F, d1, d2⟩ := a8 q hq
      exact ⟨sq, F, by rw [b7 q (fun e => hcQ (e ▸ hq))]; exact d1, d2⟩)
  have l3 := l2.trans c4
  obtain ⟨W4, s4, d1, d2, d3, d4, _, d6, _⟩ := c1.count hR hm hsm hA hTS hL c2 c3 hQ (by rw [l3.membership]; exact hv)
    (by rw [l3.quorum]; exact hlen) (fun q hq => by
      obtain ⟨r, e1, e2, _⟩ := c6 q hq
      exact ⟨r, e1, e2⟩)
  refine ⟨W4, s4, d1, d2, d3, l3.trans d4, d6 (fun q hq => ?_)⟩
  obtain ⟨r, e1, _, e3⟩ := c6 q hq
  exact ⟨r, e1, by rw [min_self] at e3; exact e3⟩

theorem fresh_rows (me : P) (n : Nat) : ∀ (l : List P) (f : OMap P Repl), (∀ p r, f.find p = some r → r.promise ≤ r.mtch) →
    ∀ p r, (l.foldl (fun fs p => if p = me then fs else fs.insert p { next := n }) f).find p = some r → r.promise ≤ r.mtch
  | [], _, h => h
  | x :: l, f, h => by
    rw [List.foldl_cons]
    refine fresh_rows me n l _ ?_
    intro p r hr
    split at hr
    · exact h p r hr
    · by_cases hx : x = p
      · rw [hx, OMap.find_insert_self] at hr
        cases hr
        exact le_refl _
      · rw [OMap.find_insert_ne _ _ hx] at hr
        exact h p r hr

/-- The candidate with enough votes leads, with an entry of its own at the end of its log. -/
theorem elected_lead {F : List Entry} {e : Entry} (hr : s.role = .candidate) (hq : s.quorum ≤ s.votes.length) (hL : Line v (F ++ [e]))
    (N : Close v (F ++ [e]) s F) (he : e = ⟨s.term, .notSet, (s.nextHash v s.term .notSet).1⟩) (h : s.maybeChangeState v = .ok s') :
    ∃ s1, s1.maybeChangeState v = .ok s' ∧ Lead (F ++ [e]) s1 ∧ Same s s1 ∧ s1.term = s.term ∧ s1.log.oldest = s.log.oldest := by
  obtain ⟨s1, h1, h2⟩ := Out.bind_eq_ok.mp h
  unfold maybeBecomeLeader at h1
  rw [if_neg (by simp [hr]), if_neg (by omega)] at h1
  obtain ⟨⟨s2, r⟩, k, h1⟩ := Out.bind_eq_ok.mp h1
  cases h1
  generalize hs0 : ({ s.setRole .leader with led := s.led ++ [(s.term, s.membership)], followers := s.membership.all.foldl (fun fs p =>
      if p = s.me then fs else fs.insert p { next := s.log.nextIdx }) OMap.empty } : Node P) = s0
  have k' : s0.clientRequestInternal v .notSet = .ok (s1, r) := by rw [← hs0]; exact k
  have N0 : Close v (F ++ [e]) s0 F := N.same (by rw [← hs0]; rfl) (by rw [← hs0]; rfl) (by rw [← hs0]; rfl) (by rw [← hs0]; rfl)
    (by rw [← hs0]; exact N.agrees)
  obtain ⟨l, x, a0, a1, a2, a3, a4⟩ := N0.append hL (e := e) (by rw [List.take_length, List.take_left]) (by rw [List.getElem?_append_right (le_refl _)]; simp)
  have ht : s0.term = s.term := by rw [← hs0]; rfl
  have e1 : e.term = s0.term := by rw [he, ht]
  have e2 : e.inner = .notSet := by rw [he]
  have ee : e = ⟨s0.term, .notSet, (s0.nextHash v s0.term .notSet).1⟩ := by
    rw [he, ht]
    congr 1
    rw [← hs0]
    rfl
  have e3 : s1 = { s0 with hashed := x, log := l } := by
    simp only [clientRequestInternal] at k'
    rw [if_neg (by rw [← hs0]; simp [nextHash, setRole])] at k'
    rw [e1, e2] at a2
    have : (s0.nextHash v s0.term .notSet).2 = { s0 with hashed := x } := by rw [a2]; rfl
    rw [this, show (⟨({ s0 with hashed := x } : Node P).term, .notSet, (s0.nextHash v s0.term .notSet).1⟩ : Entry) = e from ee.symm, a1] at k'
    cases k'
    rfl
  have lead : Lead (F ++ [e]) s1 := by
    rw [e3]
    refine ⟨by rw [← hs0]; rfl, by rw [← hs0]; rfl, a4.log, a4.unc, a4.le, ?_, a4.agrees⟩
    intro p r hr
    rw [← hs0] at hr
    exact fresh_rows _ _ _ _ (fun p r h => by cases h) p r hr
  have hmb : s1.maybeBecomeLeader v = .ok s1 := by
    unfold maybeBecomeLeader
    rw [if_pos (by simp [lead.role])]
  refine ⟨s1, ?_, lead, ?_, by rw [e3]; exact ht, ?_⟩
  · unfold maybeChangeState
    rw [hmb]
    exact h2
  · rw [e3, ← hs0]
    exact ⟨rfl, rfl, rfl, rfl, rfl, rfl⟩
  · rw [e3]
    show l.oldest = _
    rw [a0, ← hs0]
    rfl

end Svr.Raft
