import Verif.Raft.Elect
import Verif.Raft.Talk

/-!
# Electing a leader among some of the replicas
-/

namespace Svr.Raft
open Node
variable {P : Type} [LinearOrder P]

namespace Node
variable {v : Env P} {s s' : Node P}

theorem appendEntries_only {p : P} (h : s.appendEntries v p = .ok s') : ∃ f l, s' = { s with followers := f, sendable := l } := by
  unfold appendEntries at h
  split at h
  · cases h; exact ⟨_, _, rfl⟩
  split at h
  · cases h; exact ⟨_, _, rfl⟩
  split at h
  · cases h; exact ⟨_, _, rfl⟩
  split at h
  · cases h; exact ⟨_, _, rfl⟩
  split at h
  · cases h; exact ⟨_, _, rfl⟩
  · rcases addSendable_eq h with rfl | ⟨rfl, _⟩
    · exact ⟨_, _, rfl⟩
    · exact ⟨_, _, rfl⟩

theorem sendAll_only : ∀ {l : List P} {s s' : Node P}, sendAll v l s = .ok s' → ∃ f l, s' = { s with followers := f, sendable := l }
  | [], s, s', h => by
    simp only [sendAll, Out.ok.injEq] at h
    subst h
    exact ⟨_, _, rfl⟩
  | p :: t, s, s', h => by
    simp only [sendAll] at h
    split at h
    · exact sendAll_only h
    · obtain ⟨s1, h1, h⟩ := Out.bind_eq_ok.mp h
      obtain ⟨f, l, rfl⟩ := appendEntries_only h1
      obtain ⟨f', l', rfl⟩ := sendAll_only h
      exact ⟨_, _, rfl⟩

/-- A leader that is not about to give up leadership only advances its indexes and sends. -/
theorem maybeChangeState_leader (hr : s.role = .leader) (hq : s.relinquishing = false) (h : s.maybeChangeState v = .ok s') :
    ∃ s1, s.verifyAndAdvance v = .ok s1 ∧ sendAll v s1.membership.all s1 = .ok s' ∧ s1.role = .leader ∧ s1.relinquishing = false ∧
      s1.term = s.term ∧ s1.log = s.log := by
  obtain ⟨s1, h1, h⟩ := Out.bind_eq_ok.mp h
  have e1 : s1 = s := by
    unfold maybeBecomeLeader at h1
    rw [if_pos (by simp [hr])] at h1
    cases h1; rfl
  rw [e1] at h
  clear h1 e1
  obtain ⟨s2, h2, h⟩ := Out.bind_eq_ok.mp h
  have k2 : s2.role = .leader ∧ s2.relinquishing = false ∧ s2.term = s.term ∧ s2.log = s.log := by
    obtain ⟨⟨s3, b⟩, k1, k2⟩ := Out.bind_eq_ok.mp h2
    obtain ⟨w, rfl⟩ := verifyMerkle_eq k1
    simp only at k2
    split at k2
    · obtain ⟨s4, k3, k4⟩ := Out.bind_eq_ok.mp k2
      obtain ⟨_, _, _, _, _, _, rfl, _⟩ := advance_eq (s := { s with walks := w }) hr k3
      obtain ⟨c, q, _, _, rfl⟩ := updateMerkle_eq k4
      exact ⟨hr, hq, rfl, rfl⟩
    · cases k2
      exact ⟨hr, hq, rfl, rfl⟩
  obtain ⟨s3, h3, h⟩ := Out.bind_eq_ok.mp h
  obtain ⟨f, l, e3⟩ := sendAll_only h3
  rw [if_neg (by rw [e3]; simp [k2.2.1])] at h
  cases h
  exact ⟨s2, h2, h3, k2⟩

theorem clientRequestInternal_only {i : Inner} {r} (h : s.clientRequestInternal v i = .ok (s', r)) :
    ∃ l u f x, s' = { s with log := l, uncommitted := u, followers := f, hashed := x } := by
  simp only [clientRequestInternal] at h
  split at h
  · cases h; exact ⟨_, _, _, _, rfl⟩
  · obtain ⟨l, u, f, rfl⟩ := append_eq h
    exact ⟨_, _, _, _, rfl⟩

/-- A candidate with enough votes leads. -/
theorem maybeChangeState_elected (hr : s.role = .candidate) (hq : s.quorum ≤ s.votes.length) (h : s.maybeChangeState v = .ok s') :
    s'.role = .leader ∧ s'.term = s.term := by
  obtain ⟨s1, h1, h2⟩ := Out.bind_eq_ok.mp h
  have k1 : s1.role = .leader ∧ s1.relinquishing = false ∧ s1.term = s.term := by
    unfold maybeBecomeLeader at h1
    rw [if_neg (by simp [hr]), if_neg (by omega)] at h1
    obtain ⟨⟨s2, r⟩, k, h1⟩ := Out.bind_eq_ok.mp h1
    obtain ⟨l, u, f, x, e⟩ := clientRequestInternal_only k
    cases h1
    rw [e]
    exact ⟨rfl, rfl, rfl⟩
  have h3 : s1.maybeChangeState v = .ok s' := by
    have e : s1.maybeBecomeLeader v = .ok s1 := by
      unfold maybeBecomeLeader
      rw [if_pos (by simp [k1.1])]
    unfold maybeChangeState
    rw [e]
    exact h2
  obtain ⟨s2, _, h4, k2, _, k3, _⟩ := maybeChangeState_leader k1.1 k1.2.1 h3
  obtain ⟨f, l, rfl⟩ := sendAll_only h4
  exact ⟨k2, k3.trans k1.2.2⟩

end Node

/-- One call on `p`: its new state and what it sends. -/
structure Turn (W : World P) (p : P) (s' : Node P) (N : List (P × Option P × Msg)) (W' : World P) : Prop where
  node : W'.node p = some s'
  other : ∀ x, x ≠ p → W'.node x = W.node x
  net : W'.net = W.net ++ N

/-- The surroundings of the calls made here: nobody tampers with the tree. -/
def Setting.calm (g : Setting P) : Env P := g.env g.v.rand (fun _ => true)

theorem Among.act {g : Setting P} {W0 W : World P} {A : P → Prop} (hR : Reachable g W0) (hm : g.m0.Good) (hsm : g.sm < 2 ^ 63)
    (k : Among g A W0 W) {p : P} {s : Node P} (ha : A p) (hp : W.node p = some s) (he : s.cfg.electionTicks ≠ 0) (op : Op P)
    (hd : Op.DeliveredFrom A W p op) (hf : op.Fits s) (hself : ∀ m, op ≠ .receive p m) (hreset : op ≠ .reset p)
    (hnt : op ≠ .takeCommitted) :
    ∃ s' o W', op.run g.calm s = .ok (s', o) ∧ Among g A W0 W' ∧ Turn W p s' (Obs.messages p o) W' := by
  have T := Reachable.talk (Future.trans hR k.future) hm hsm
  have hme := T.me p s hp
  have hs : op.Safe s := by
    cases op with
    | receive frm m =>
      exact ⟨fun e => hself m (by rw [e, hme]), T.honest hp hd.2⟩
    | reset id =>
      show id ≠ s.me
      exact fun e => hreset (by rw [e, hme])
    | takeCommitted => exact absurd rfl hnt
    | _ => trivial
  obtain ⟨⟨s', o⟩, hr⟩ := Op.total (v := g.calm) ⟨(T.hale p s hp).env rfl, he⟩ hf hs
  exact ⟨s', o, _, hr, k.next p s s' op o _ _ ha hp hd hf hr,
    ⟨World.put_self _ _ _ _ _ _, fun x hx => World.put_other _ _ _ _ _ hx, rfl⟩⟩

/-- A replica hands over what it has to send. -/
theorem Among.flush {g : Setting P} {W0 W : World P} {A : P → Prop} (k : Among g A W0 W) {p : P} {s : Node P} (ha : A p)
    (hp : W.node p = some s) (hf : s.log.lastIdx + 3 < SZ ∧ s.term + 1 < SZ) :
    ∃ W', Among g A W0 W' ∧ Turn W p { s with sendable := [] } (s.sendable.map fun x => (p, x.1, x.2)) W' :=
  ⟨_, k.next p s _ .takeSendable _ g.v.rand (fun _ => true) ha hp trivial hf rfl,
    ⟨World.put_self _ _ _ _ _ _, fun _ hx => World.put_other _ _ _ _ _ hx, rfl⟩⟩

/-- `s` is ready to run for leader in a group of several. -/
structure Eligible (c : P) (s : Node P) : Prop where
  me : s.me = c
  role : s.role ≠ .leader
  lacking : Lacking s
  voting : c ∈ s.membership.voting
  all : s.membership.all.length ≠ 1
  quorum : 2 ≤ s.quorum
  ticks : s.cfg.electionTicks ≠ 0
  room : s.log.lastIdx + 3 < SZ

theorem Eligible.akin {c : P} {s s' : Node P} (h : Eligible c s) (a : Akin s s') (hr : s'.role ≠ .leader) (hl : Lacking s') : Eligible c s' :=
  ⟨a.me.trans h.me, hr, hl, by rw [a.membership]; exact h.voting, by rw [a.membership]; exact h.all, by rw [a.quorum]; exact h.quorum,
    by rw [a.cfg]; exact h.ticks, by rw [a.log]; exact h.room⟩

theorem Eligible.voter {c : P} {s : Node P} (h : Eligible c s) : s.voting = true := by
  unfold Node.voting
  rw [h.me]
  simpa using h.voting

/-- A voter that does not lead can ask for votes in any later term. -/
theorem Among.campaign {g : Setting P} {W0 W : World P} {A : P → Prop} (hR : Reachable g W0) (hm : g.m0.Good) (hsm : g.sm < 2 ^ 63)
    (k : Among g A W0 W) {c : P} {s : Node P} (hA : A c) (hc : W.node c = some s) (he : Eligible c s) {T : Nat} (hT : s.term < T) (hTS : T < SZ) :
    ∃ W' s', Among g A W0 W' ∧ W'.node c = some s' ∧ (∀ x, x ≠ c → W'.node x = W.node x) ∧ Akin s s' ∧ Eligible c s' ∧
      s'.role = .candidate ∧ s'.term = T ∧ s'.votes = [c] ∧ (none, asksVotes s') ∈ s'.sendable := by
  obtain ⟨s1, o, W1, hrun, k1, t1⟩ := k.act hR hm hsm hA hc he.ticks .tick trivial ⟨he.room, by omega⟩ (fun _ h => by cases h)
    (fun h => by cases h) (fun h => by cases h)
  have hl := Op.lacking he.lacking hrun
  obtain ⟨s2, h2, e⟩ := Out.bind_eq_ok.mp hrun
  cases e
  obtain ⟨a1, a2, a3⟩ := timerTick_waits he.role he.lacking he.voter he.all he.quorum (by omega) h2
  have he1 := he.akin a1 a2 hl
  by_cases hT1 : s1.term < T
  · obtain ⟨W', s', b1, b2, b3, b4, b5⟩ := k1.campaign hR hm hsm hA t1.node he1 hT1 hTS
    exact ⟨W', s', b1, b2, fun x hx => (b3 x hx).trans (t1.other x hx), a1.trans b4, b5⟩
  · rcases a3 with a3 | ⟨a3, a4, a5, a6⟩
    · omega
    · exact ⟨W1, s1, k1, t1.node, t1.other, a1, he1, a4, by omega, by rw [a5, he.me], a6⟩
termination_by (T - s.term, s.clock)
decreasing_by
  rcases a3 with a3 | a3
  · rw [a3.1]; exact Prod.Lex.right _ a3.2
  · rw [a3.1]; exact Prod.Lex.left _ _ (by omega)

/-- `q` in state `sq` would vote for `c` in state `s`, in a later term. -/
structure Supports (c : P) (s : Node P) (q : P) (sq : Node P) : Prop where
  me : sq.me = q
  ne : q ≠ c
  group : sq.group = s.group
  knows : c ∈ sq.membership.all
  known : q ∈ s.membership.voting
  ticks : sq.cfg.electionTicks ≠ 0
  room : sq.log.lastIdx + 3 < SZ
  check : ∀ h, (∀ e, s.log.at? s.log.lastIdx = some e → h = e.hash) → sq.checkLogHash s.log.lastIdx s.log.lastTerm h = .ok none
  log : s.log.lastTerm > sq.log.lastTerm ∨ (s.log.lastTerm = sq.log.lastTerm ∧ s.log.lastIdx ≥ sq.log.lastIdx)

theorem sinsert_length (p : P) : ∀ l : List P, p ∉ l → (sinsert p l).length = l.length + 1
  | [], _ => rfl
  | q :: t, h => by
    simp only [List.mem_cons, not_or] at h
    unfold sinsert
    split
    · rfl
    · split
      · simp [sinsert_length p t h.2]
      · exfalso
        rename_i h1 h2
        exact h.1 (le_antisymm (not_lt.mp h2) (not_lt.mp h1))

/-- The state of a voter after the election. -/
structure Voted (T : Nat) (sq sq' : Node P) : Prop where
  akin : Akin sq sq'
  term : sq'.term ≤ T
  role : sq'.role ≠ .leader ∨ sq'.term < T

/-- With enough supporters, `c` gets elected. -/
theorem Among.poll {g : Setting P} {W0 : World P} {A : P → Prop} (hR : Reachable g W0) (hm : g.m0.Good) (hsm : g.sm < 2 ^ 63) {c : P} (hA : A c)
    {T : Nat} (hTS : T + 1 < SZ) : ∀ (l : List P) {W : World P} {s : Node P}, Among g A W0 W → W.node c = some s →
    Eligible c s → s.role = .candidate → s.term = T → (c, none, asksVotes s) ∈ W.net → l.Nodup → (∀ q ∈ l, q ∉ s.votes) →
    (∀ q ∈ l, A q ∧ ∃ sq, W.node q = some sq ∧ Supports c s q sq ∧ sq.term < T) → s.quorum ≤ s.votes.length + l.length →
    s.membership.voting ⊆ s.membership.all →
    ∃ W' s0 s', Among g A W0 W' ∧ W'.node c = some s' ∧ Akin s s0 ∧ s0.role = .candidate ∧ s0.term = T ∧ s0.quorum ≤ s0.votes.length ∧
      s0.maybeChangeState g.calm = .ok s' ∧ (∀ q, q ≠ c → q ∉ l → W'.node q = W.node q) ∧
      ∀ q ∈ l, ∀ sq, W.node q = some sq → ∃ sq', W'.node q = some sq' ∧ Voted T sq sq'
  | [], W, s, k, hc, he, hr, hT, hnet, hnd, hv, hl, hq, hsub => by
    have := he.lacking hr
    simp only [List.length_nil] at hq
    omega
  | q :: l, W, s, k, hc, he, hr, hT, hnet, hnd, hv, hl, hq, hsub => by
    obtain ⟨hqA, sq, hqn, sup, hqT⟩ := hl q List.mem_cons_self
    obtain ⟨hql, hnd'⟩ := List.nodup_cons.mp hnd
    -- the request arrives
    have hcount : Msg.entryCount (asksVotes s) = 0 := rfl
    obtain ⟨sq1, o, W1, hrun, k1, t1⟩ := k.act hR hm hsm hqA hqn sup.ticks (.receive c (asksVotes s)) ⟨hA, none, hnet, .inl rfl⟩
      ⟨by rw [hcount]; exact sup.room, by omega, by show s.term + 1 < SZ; omega, by show s.term < SZ; omega, trivial⟩
      (fun m h => by cases h; exact sup.ne rfl) (fun h => by cases h) (fun h => by cases h)
    obtain ⟨_, h2, e⟩ := Out.bind_eq_ok.mp hrun
    cases e
    have hmsg : asksVotes s = ⟨sq.group, T, .voteReq s.log.lastIdx s.log.lastTerm
        (match s.log.at? s.log.lastIdx with
          | some e => e.hash
          | none => [])⟩ := by
      unfold asksVotes
      rw [sup.group, hT]
      cases s.log.at? s.log.lastIdx <;> rfl
    rw [hmsg] at h2
    obtain ⟨a1, a2, a3, a4⟩ := receive_grants hqT sup.knows (by rw [sup.me]; exact sup.ne.symm)
      (sup.check _ (fun e he => by rw [he])) sup.log h2
    -- the vote is sent
    obtain ⟨W2, k2, t2⟩ := k1.flush hqA t1.node ⟨by rw [a1.log]; exact sup.room, by omega⟩
    have hc2 : W2.node c = some s := by rw [t2.other c sup.ne.symm, t1.other c sup.ne.symm]; exact hc
    have hvote : (q, some c, (⟨s.group, s.term, .voteResp true⟩ : Msg)) ∈ W2.net := by
      rw [t2.net]
      refine List.mem_append_right _ (List.mem_map.mpr ⟨_, a4, ?_⟩)
      rw [sup.group, hT]
    -- and arrives
    obtain ⟨s1, o, W3, hrun, k3, t3⟩ := k2.act hR hm hsm hA hc2 he.ticks (.receive q ⟨s.group, s.term, .voteResp true⟩)
      ⟨hqA, some c, hvote, .inr rfl⟩
      ⟨by show s.log.lastIdx + 0 + 3 < SZ; exact he.room, by omega, by show s.term + 1 < SZ; omega, by show s.term < SZ; omega, trivial⟩
      (fun m h => by cases h; exact sup.ne rfl) (fun h => by cases h) (fun h => by cases h)
    have hl1 := Op.lacking he.lacking hrun
    obtain ⟨_, h3, e⟩ := Out.bind_eq_ok.mp hrun
    cases e
    have h4 := receive_counts hr sup.known (hsub sup.known) h3
    have hlen := sinsert_length q s.votes (hv q List.mem_cons_self)
    have back : ∀ x, x ≠ c → x ≠ q → W3.node x = W.node x := by
      intro x h1 h2
      rw [t3.other x h1, t2.other x h2, t1.other x h2]
    have hq3 : W3.node q = some { sq1 with sendable := [] } := by rw [t3.other q sup.ne]; exact t2.node
    have voted : Voted T sq { sq1 with sendable := [] } :=
      ⟨⟨a1.me, a1.group, a1.log, a1.mem, a1.unc, a1.sm, a1.cfg, a1.commit, a1.promise, a1.agrees⟩, le_of_eq a3, .inl (by show sq1.role ≠ _; rw [a2]; simp)⟩
    by_cases hfull : s.quorum ≤ (sinsert q s.votes).length
    · refine ⟨W3, { s with votes := sinsert q s.votes }, s1, k3, t3.node, ⟨rfl, rfl, rfl, rfl, rfl, rfl, rfl, rfl, rfl, id⟩, hr, hT, hfull, h4,
        fun x h1 h2 => back x h1 (fun e => h2 (e ▸ List.mem_cons_self)), ?_⟩
      intro x hx sx hsx
      rcases List.mem_cons.mp hx with rfl | hx
      · rw [hqn] at hsx
        cases hsx
        exact ⟨_, hq3, voted⟩
      · obtain ⟨_, sx', e, sup', hT'⟩ := hl x (List.mem_cons_of_mem _ hx)
        rw [hsx] at e
        cases e
        exact ⟨sx, by rw [back x sup'.ne (fun e => hql (e ▸ hx))]; exact hsx, Akin.refl _, le_of_lt hT', .inr hT'⟩
    · obtain ⟨w, x, y, e, ag⟩ := maybeChangeState_idle (s := { s with votes := sinsert q s.votes }) (by simp [hr])
        (fun _ => by exact not_le.mp hfull) h4
      have ak : Akin s s1 := by
        refine ⟨?_, ?_, ?_, ?_, ?_, ?_, ?_, ?_, ?_, ag⟩ <;> rw [e]
      have ev : s1.votes = sinsert q s.votes := by rw [e]
      have er : s1.role = .candidate := by rw [e]; exact hr
      have et : s1.term = T := by rw [e]; exact hT
      have ereq : asksVotes s1 = asksVotes s := by rw [e]; rfl
      obtain ⟨W', s0, s', b1, b2, b3, b4, b5, b6, b7, b8, b9⟩ := Among.poll hR hm hsm hA hTS l k3 t3.node (he.akin ak (by rw [er]; simp) hl1) er et
        (by rw [ereq, t3.net, t2.net, t1.net]; exact List.mem_append_left _ (List.mem_append_left _ (List.mem_append_left _ hnet))) hnd'
        (by
          intro x hx hxv
          rw [ev] at hxv
          rcases (mem_sinsert q x s.votes).mp hxv with rfl | hxv
          · exact hql hx
          · exact hv x (List.mem_cons_of_mem _ hx) hxv)
        (by
          intro x hx
          obtain ⟨h1, sx, h2, h3, h4⟩ := hl x (List.mem_cons_of_mem _ hx)
          refine ⟨h1, sx, by rw [back x h3.ne (fun e => hql (e ▸ hx))]; exact h2, ?_, h4⟩
          exact ⟨h3.me, h3.ne, by rw [ak.group]; exact h3.group, h3.knows, by rw [ak.membership]; exact h3.known, h3.ticks, h3.room,
            by rw [ak.log]; exact h3.check, by rw [ak.log]; exact h3.log⟩)
        (by rw [ak.quorum, ev, hlen]; simp only [List.length_cons] at hq; omega)
        (by rw [ak.membership]; exact hsub)
      refine ⟨W', s0, s', b1, b2, ak.trans b3, b4, b5, b6, b7, ?_, ?_⟩
      · intro x h1 h2
        rw [b8 x h1 (fun h => h2 (List.mem_cons_of_mem _ h)), back x h1 (fun e => h2 (e ▸ List.mem_cons_self))]
      · intro x hx sx hsx
        rcases List.mem_cons.mp hx with rfl | hx
        · rw [hqn] at hsx
          cases hsx
          exact ⟨_, by rw [b8 x sup.ne hql]; exact hq3, voted⟩
        · obtain ⟨_, sx', e, sup', hT'⟩ := hl x (List.mem_cons_of_mem _ hx)
          exact b9 x hx sx (by rw [back x sup'.ne (fun e => hql (e ▸ hx))]; exact hsx)

theorem Reachable.lacking {g : Setting P} {W : World P} (h : Reachable g W) : ∀ p s, W.node p = some s → Lacking s := by
  induction h with
  | now => exact fun p s h => by cases h
  | next _ k ih =>
    intro x sx hx
    cases k with
    | start p s r pa mx cfg hp h =>
      by_cases hxp : x = p
      · rw [hxp, World.put_self] at hx
        cases hx
        exact new_lacking h
      · rw [World.put_other _ _ _ _ _ hxp] at hx
        exact ih x sx hx
    | join p q s sq r pa log cfg hp hq ha hl hb hf h =>
      by_cases hxp : x = p
      · rw [hxp, World.put_self] at hx
        cases hx
        exact new_lacking h
      · rw [World.put_other _ _ _ _ _ hxp] at hx
        exact ih x sx hx
    | call p s s' op o r pa hp hd hf h =>
      by_cases hxp : x = p
      · rw [hxp, World.put_self] at hx
        cases hx
        exact Op.lacking (ih p s hp) h
      · rw [World.put_other _ _ _ _ _ hxp] at hx
        exact ih x sx hx

end Svr.Raft
