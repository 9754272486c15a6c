import Verif.Raft.Total

/-!
# In a group of replicas nothing aborts

A success response can only make a leader abort when it is about entries the leader does not have
(`Node.receive_outcome`). Replicas only send success responses to append requests of the same term, and a leader
never removes entries in the term in which it sent them.
-/

namespace Svr.Raft
open Node
variable {P : Type} [LinearOrder P]

namespace Node
variable {v : Env P} {inp : Inp P}

/-- The replica, having been leader in term `t` with `k` entries, still has them if it is leader of that term. -/
def Past (s : Node P) (t k : Nat) : Prop :=
  t < s.term ∨ (t = s.term ∧ (s.role = .follower ∨ (s.role = .leader ∧ k ≤ s.log.lastIdx)))

theorem Past.ofEq {s s' : Node P} {t k : Nat} (h : Past s t k) (ht : s'.term = s.term) (hr : s'.role = s.role) (hl : s'.log = s.log) :
    Past s' t k := by
  unfold Past at *
  rw [ht, hr, hl]
  exact h

theorem Atom.past {s s' : Node P} (h : Atom v inp s s') (hs : s.Shaped v) {t k : Nat} (hp : Past s t k) : Past s' t k := by
  cases h with
  | demote =>
    rcases hp with hp | ⟨hp, _⟩
    · exact .inl hp
    · exact .inr ⟨hp, .inl rfl⟩
  | raise t' ht hi =>
    left
    show t < t'
    rcases hp with hp | ⟨hp, _⟩ <;> omega
  | campaign hv hr ht =>
    left
    show t < s.term + 1
    rcases hp with hp | ⟨hp, _⟩ <;> omega
  | lead hr hq =>
    rcases hp with hp | ⟨hp, h1 | ⟨h1, _⟩⟩
    · exact .inl hp
    · rw [hr] at h1; cases h1
    · rw [hr] at h1; cases h1
  | append _ e r hh hm hw h =>
    have key : ∀ l er, s.log.append v.z e s.lastApplied = .ok (l, er) → s.log.lastIdx ≤ l.lastIdx := by
      intro l er h1
      obtain ⟨_, h2, _⟩ := Shape.append hs h1
      omega
    have k2 : s'.term = s.term ∧ s'.role = s.role ∧ s.log.lastIdx ≤ s'.log.lastIdx := by
      rcases logAppend_eq h with ⟨rfl, _⟩ | ⟨l, er, h1, rfl, _⟩ | ⟨l, h1, _, ⟨rfl, _⟩ | ⟨g, m, hg, hm', h3⟩⟩
      · exact ⟨rfl, rfl, le_rfl⟩
      · exact ⟨rfl, rfl, key _ _ h1⟩
      · exact ⟨rfl, rfl, key _ _ h1⟩
      · obtain ⟨_, f, e2⟩ := addUncommitted_eq h3
        rw [e2]
        exact ⟨rfl, rfl, key _ _ h1⟩
    obtain ⟨a, b, c⟩ := k2
    unfold Past at *
    rw [a, b]
    rcases hp with hp | ⟨hp, h1 | ⟨h1, h2⟩⟩
    · exact .inl hp
    · exact .inr ⟨hp, .inl h1⟩
    · exact .inr ⟨hp, .inr ⟨h1, by omega⟩⟩
  | cut idx hr hc hp' ht =>
    obtain ⟨u, m, f, h1⟩ := maybeChangeUncommitted_eq ({ s with log := (s.log.cancelFrom idx).1 } : Node P)
    rw [h1]
    rcases hp with hp | ⟨hp, _⟩
    · exact .inl hp
    · exact .inr ⟨hp, .inl hr⟩
  | advance _ hr h =>
    obtain ⟨p, c, g, u, m, f, h1, _⟩ := advance_eq hr h
    rw [h1]
    exact hp
  | follow frm g t pi pt ph es c a lp hi hr hca hm =>
    obtain ⟨p, u, m, h1⟩ := followLeader_eq s (min c lp) (min a lp)
    rw [h1]
    exact hp
  | send _ dst m hso h =>
    rcases addSendable_eq h with rfl | ⟨rfl, _⟩ <;> exact hp
  | _ => exact hp.ofEq rfl rfl rfl

theorem Steps.past {s s' : Node P} (h : Steps v inp s s') (hs : s.Shaped v) {t k : Nat} (hp : Past s t k) : Past s' t k := by
  induction h with
  | refl => exact hp
  | tail a k ih => exact k.past (a.shaped hs) ih

/-- The sender of an append request has all its entries. -/
theorem SendOk.past {s : Node P} {dst : Option P} {m : Msg} (hs : s.Shaped v) (h : SendOk s dst m) {pi pt c a : Nat} {ph : Bytes}
    {es : List Entry} (hb : m.body = .appReq pi pt ph es c a) : Past s m.term (pi + es.length) := by
  obtain ⟨_, ht, h⟩ := h
  rw [hb] at h
  obtain ⟨hr, h1, h2, _⟩ := h
  refine .inr ⟨ht, .inr ⟨hr, ?_⟩⟩
  cases hn : es.length with
  | zero =>
    rcases h1 with h1 | ⟨o, h1, _⟩
    · omega
    · have := (hs.le_last h1).2
      omega
  | succ n =>
    have h3 : n < es.length := by omega
    have := (hs.le_last (h2 n es[n] (List.getElem?_eq_getElem h3))).2
    omega

/-- What an atom adds to the messages to send. -/
theorem Atom.sendable {s s' : Node P} (h : Atom v inp s s') : s'.sendable = s.sendable ∨
    ∃ dst m, s'.sendable = s.sendable ++ [(dst, m)] ∧ SendOk s dst m ∧ Answers inp s dst m := by
  cases h with
  | append _ e r hh hm hw h =>
    obtain ⟨l, u, f, h1⟩ := append_eq h
    rw [h1]; exact .inl rfl
  | cut idx hr hc hp' ht =>
    obtain ⟨u, m, f, h1⟩ := maybeChangeUncommitted_eq ({ s with log := (s.log.cancelFrom idx).1 } : Node P)
    rw [h1]; exact .inl rfl
  | advance _ hr h =>
    obtain ⟨p, c, g, u, m, f, h1, _⟩ := advance_eq hr h
    rw [h1]; exact .inl rfl
  | follow frm g t pi pt ph es c a lp hi hr hca hm =>
    obtain ⟨p, u, m, h1⟩ := followLeader_eq s (min c lp) (min a lp)
    rw [h1]; exact .inl rfl
  | send _ dst m hso h ha =>
    rcases addSendable_eq h with rfl | ⟨rfl, _⟩
    · exact .inl rfl
    · exact .inr ⟨dst, m, rfl, hso, ha⟩
  | _ => exact .inl rfl

/-- The append requests a replica is about to send. -/
def Reqs (s : Node P) : Prop := ∀ dst m pi pt ph es c a, (dst, m) ∈ s.sendable → m.body = .appReq pi pt ph es c a →
  Past s m.term (pi + es.length)

theorem Steps.reqs {s s' : Node P} (h : Steps v inp s s') (hs : s.Shaped v) (hr : Reqs s) : Reqs s' := by
  induction h with
  | refl => exact hr
  | tail a k ih =>
    have hb := a.shaped hs
    intro dst m pi pt ph es c a hm hbody
    refine k.past hb ?_
    rcases k.sendable with h1 | ⟨d, m', h1, h2, _⟩
    · rw [h1] at hm
      exact ih dst m pi pt ph es c a hm hbody
    · rw [h1] at hm
      rcases List.mem_append.mp hm with hm | hm
      · exact ih dst m pi pt ph es c a hm hbody
      · cases List.mem_singleton.mp hm
        exact h2.past hb hbody

/-- A success response was there before or answers the message just received. -/
theorem Steps.acks {s s' : Node P} (h : Steps v inp s s') {dst : Option P} {m : Msg} {mt l a : Nat} {hh : Bytes}
    (hm : (dst, m) ∈ s'.sendable) (hb : m.body = .appResp true mt l a hh) : (dst, m) ∈ s.sendable ∨
    ∃ frm g pi pt ph es c a, inp = .msg frm ⟨g, m.term, .appReq pi pt ph es c a⟩ ∧ dst = some frm ∧ mt ≤ pi + es.length := by
  induction h with
  | refl => exact .inl hm
  | tail _ k ih =>
    rcases k.sendable with h1 | ⟨d, m', h1, h2, h3⟩
    · rw [h1] at hm
      exact ih hm
    · rw [h1] at hm
      rcases List.mem_append.mp hm with hm | hm
      · exact ih hm
      · cases List.mem_singleton.mp hm
        right
        unfold Answers at h3
        rw [hb] at h3
        rw [h2.2.1]
        exact h3

end Node

/-- What holds of the messages of a group. -/
structure Talk (g : Setting P) (W : World P) : Prop where
  me : ∀ p s, W.node p = some s → s.me = p
  hale : ∀ p s, W.node p = some s → Hale g.v s
  applied : ∀ p, ∀ e ∈ W.applied p, e.hash.length = 32
  reqs : ∀ p s, W.node p = some s → Reqs s
  sent : ∀ q dst m pi pt ph es c a, (q, dst, m) ∈ W.net → m.body = .appReq pi pt ph es c a →
    ∃ s, W.node q = some s ∧ Past s m.term (pi + es.length)
  acks : ∀ p s, W.node p = some s → ∀ dst m mt l a h, (dst, m) ∈ s.sendable → m.body = .appResp true mt l a h →
    ∃ frm dst' g' pi pt ph es c a, dst = some frm ∧ (frm, dst', ⟨g', m.term, .appReq pi pt ph es c a⟩) ∈ W.net ∧ mt ≤ pi + es.length
  acked : ∀ q dst m mt l a h, (q, dst, m) ∈ W.net → m.body = .appResp true mt l a h →
    ∃ frm dst' g' pi pt ph es c a, dst = some frm ∧ (frm, dst', ⟨g', m.term, .appReq pi pt ph es c a⟩) ∈ W.net ∧ mt ≤ pi + es.length

theorem Talk.fresh {g : Setting P} {W : World P} (h : Talk g W) {p : P} {s : Node P} {A : List Entry} {mem : Membership P} {log : Log}
    {cfg : RaftCfg} {cl : Bool} {r : Nat → Nat} {pa : Nat → Bool} (hp : W.node p = none) (hA : ∀ e ∈ A, e.hash.length = 32)
    (hl : LogOf log A) (hb : (base g.group p mem log cfg cl g.sm).Shaped g.v) (hf : log.lastIdx + 2 < SZ) (hm : mem.Good)
    (hsm : g.sm < 2 ^ 63) (hn : Node.new (g.env r pa) g.group p mem log cfg cl g.sm = .ok s) : Talk g (W.put p s A [] []) := by
  have st : Steps g.v .none (base g.group p mem log cfg cl g.sm) s := (new_steps (v := g.env r pa) hb hf hn).env
  have hat : ∀ i e, log.at? i = some e → e.hash.length = 32 := by
    intro i e he
    obtain ⟨_, _, _, h1⟩ := hl.at_some he
    exact hA e (List.mem_of_getElem? h1)
  have hs := st.hale (base_hale hb hm hsm hat)
  have hme : s.me = p := (st.mono).me
  have other : ∀ x sx, (W.put p s A [] []).node x = some sx → x = p ∧ sx = s ∨ W.node x = some sx := by
    intro x sx hx
    by_cases hxp : x = p
    · subst hxp
      rw [World.put_self] at hx
      cases hx
      exact .inl ⟨rfl, rfl⟩
    · rw [World.put_other _ _ _ _ _ hxp] at hx
      exact .inr hx
  have net : ∀ y, y ∈ (W.put p s A [] []).net ↔ y ∈ W.net := by intro y; simp [World.put]
  have keep : ∀ x sx, W.node x = some sx → (W.put p s A [] []).node x = some sx := by
    intro x sx hx
    rw [World.put_other _ _ _ _ _ (by rintro rfl; rw [hp] at hx; cases hx)]
    exact hx
  refine ⟨?_, ?_, ?_, ?_, ?_, ?_, ?_⟩
  · intro x sx hx
    rcases other x sx hx with ⟨rfl, rfl⟩ | hx
    · exact hme
    · exact h.me x sx hx
  · intro x sx hx
    rcases other x sx hx with ⟨rfl, rfl⟩ | hx
    · exact hs
    · exact h.hale x sx hx
  · intro x e he
    by_cases hxp : x = p
    · subst hxp
      rw [World.put_applied_self] at he
      exact hA e he
    · rw [World.put_applied_other _ _ _ _ _ hxp] at he
      exact h.applied x e he
  · intro x sx hx
    rcases other x sx hx with ⟨rfl, rfl⟩ | hx
    · exact st.reqs hb (fun _ _ _ _ _ _ _ _ hm => by cases hm)
    · exact h.reqs x sx hx
  · intro q dst m pi pt ph es c a hm hbody
    obtain ⟨sq, h1, h2⟩ := h.sent q dst m pi pt ph es c a ((net _).mp hm) hbody
    exact ⟨sq, keep q sq h1, h2⟩
  · intro x sx hx dst m mt l a hh hm hbody
    rcases other x sx hx with ⟨rfl, rfl⟩ | hx
    · rcases st.acks hm hbody with h1 | ⟨_, _, _, _, _, _, _, _, h1, _⟩
      · cases h1
      · cases h1
    · obtain ⟨frm, dst', g', pi, pt, ph, es, c, a, h1, h2, h3⟩ := h.acks x sx hx dst m mt l a hh hm hbody
      exact ⟨frm, dst', g', pi, pt, ph, es, c, a, h1, (net _).mpr h2, h3⟩
  · intro q dst m mt l a hh hm hbody
    obtain ⟨frm, dst', g', pi, pt, ph, es, c, a, h1, h2, h3⟩ := h.acked q dst m mt l a hh ((net _).mp hm) hbody
    exact ⟨frm, dst', g', pi, pt, ph, es, c, a, h1, (net _).mpr h2, h3⟩

/-- A call on one replica. -/
theorem Talk.called {g : Setting P} {W : World P} (h : Talk g W) {p : P} {s s' : Node P} {A : List Entry}
    {N : List (P × Option P × Msg)} {Q : List Inner} (hp : W.node p = some s) (hme : s'.me = s.me) (hs : Hale g.v s')
    (hA : ∀ e ∈ A, e.hash.length = 32) (hpast : ∀ t k, Past s t k → Past s' t k) (hr : Reqs s')
    (hN : ∀ y ∈ N, y.1 = p ∧ (y.2.1, y.2.2) ∈ s.sendable)
    (ha : ∀ dst m mt l a hh, (dst, m) ∈ s'.sendable → m.body = .appResp true mt l a hh → (dst, m) ∈ s.sendable ∨
      ∃ frm dst' g' pi pt ph es c a, dst = some frm ∧ (frm, dst', ⟨g', m.term, .appReq pi pt ph es c a⟩) ∈ W.net ∧ mt ≤ pi + es.length) :
    Talk g (W.put p s' A N Q) := by
  have other : ∀ x sx, (W.put p s' A N Q).node x = some sx → x = p ∧ sx = s' ∨ x ≠ p ∧ W.node x = some sx := by
    intro x sx hx
    by_cases hxp : x = p
    · subst hxp
      rw [World.put_self] at hx
      cases hx
      exact .inl ⟨rfl, rfl⟩
    · rw [World.put_other _ _ _ _ _ hxp] at hx
      exact .inr ⟨hxp, hx⟩
  have net : ∀ y, y ∈ (W.put p s' A N Q).net ↔ y ∈ W.net ∨ y ∈ N := by intro y; simp [World.put]
  have widen : ∀ {dst : Option P} {m : Msg} {mt : Nat},
      (∃ frm dst' g' pi pt ph es c a, dst = some frm ∧ (frm, dst', ⟨g', m.term, .appReq pi pt ph es c a⟩) ∈ W.net ∧ mt ≤ pi + es.length) →
      ∃ frm dst' g' pi pt ph es c a, dst = some frm ∧ (frm, dst', ⟨g', m.term, .appReq pi pt ph es c a⟩) ∈ (W.put p s' A N Q).net ∧
        mt ≤ pi + es.length := by
    rintro dst m mt ⟨frm, dst', g', pi, pt, ph, es, c, a, h1, h2, h3⟩
    exact ⟨frm, dst', g', pi, pt, ph, es, c, a, h1, (net _).mpr (.inl h2), h3⟩
  refine ⟨?_, ?_, ?_, ?_, ?_, ?_, ?_⟩
  · intro x sx hx
    rcases other x sx hx with ⟨rfl, rfl⟩ | ⟨_, hx⟩
    · rw [hme]; exact h.me x s hp
    · exact h.me x sx hx
  · intro x sx hx
    rcases other x sx hx with ⟨rfl, rfl⟩ | ⟨_, hx⟩
    · exact hs
    · exact h.hale x sx hx
  · intro x e he
    by_cases hxp : x = p
    · subst hxp
      rw [World.put_applied_self] at he
      exact hA e he
    · rw [World.put_applied_other _ _ _ _ _ hxp] at he
      exact h.applied x e he
  · intro x sx hx
    rcases other x sx hx with ⟨rfl, rfl⟩ | ⟨_, hx⟩
    · exact hr
    · exact h.reqs x sx hx
  · intro q dst m pi pt ph es c a hm hbody
    rcases (net _).mp hm with hm | hm
    · obtain ⟨sq, h1, h2⟩ := h.sent q dst m pi pt ph es c a hm hbody
      by_cases hqp : q = p
      · subst hqp
        rw [hp] at h1
        cases h1
        exact ⟨s', World.put_self .., hpast _ _ h2⟩
      · exact ⟨sq, by rw [World.put_other _ _ _ _ _ hqp]; exact h1, h2⟩
    · obtain ⟨h1, h2⟩ := hN _ hm
      have h1 : q = p := h1
      subst h1
      exact ⟨s', World.put_self .., hpast _ _ (h.reqs q s hp dst m pi pt ph es c a h2 hbody)⟩
  · intro x sx hx dst m mt l a hh hm hbody
    rcases other x sx hx with ⟨rfl, rfl⟩ | ⟨_, hx⟩
    · rcases ha dst m mt l a hh hm hbody with h1 | h1
      · exact widen (h.acks x s hp dst m mt l a hh h1 hbody)
      · exact widen h1
    · exact widen (h.acks x sx hx dst m mt l a hh hm hbody)
  · intro q dst m mt l a hh hm hbody
    rcases (net _).mp hm with hm | hm
    · exact widen (h.acked q dst m mt l a hh hm hbody)
    · obtain ⟨h1, h2⟩ := hN _ hm
      exact widen (h.acks p s hp dst m mt l a hh h2 hbody)

theorem Talk.next {g : Setting P} {W W' : World P} (h : Talk g W) (hm : g.m0.Good) (hsm : g.sm < 2 ^ 63) (k : Next g W W') : Talk g W' := by
  cases k with
  | start p s r pa mx cfg hp hn =>
    refine h.fresh hp (fun e he => by cases he) (logOf_new mx) ?_ (by simp [Log.new, Log.lastIdx, SZ]) hm hsm hn
    exact base_shaped (v := g.v) (logOf_new mx) (by simp [Log.new, Log.bytesOf]) (.inr rfl)
  | join p q s sq r pa log cfg hp hq ha hl hbb hf hn =>
    refine h.fresh hp (h.applied q) hl ?_ (by rw [hl.lastIdx]; exact hf) (h.hale q sq hq).mem hsm hn
    exact base_shaped (v := g.v) hl hbb (.inl rfl)
  | call p s s' op o r pa hp hd hf hrun =>
    have h0 := h.hale p s hp
    have h0' : Hale (g.env r pa) s := h0.env rfl
    have h1 : Hale g.v s' := (Op.hale h0' hf hrun).env rfl
    rcases Op.steps (v := g.env r pa) h0.shaped hf hrun with ⟨st, n1, n2⟩ | ⟨i, e, _, rfl, _, _, he, rfl⟩ | ⟨_, rfl, rfl⟩
    · have st := st.env
      have hN : Obs.messages p o = [] := by
        cases o with
        | sent l => exact absurd rfl (n2 l)
        | _ => rfl
      have hE : Obs.entries o = [] := by
        cases o with
        | committed x =>
          cases x with
          | none => rfl
          | some x => exact absurd rfl (n1 x)
        | _ => rfl
      rw [hN, hE, List.append_nil]
      refine h.called hp st.mono.me h1 (h.applied p) (fun t k => st.past h0.shaped) (st.reqs h0.shaped (h.reqs p s hp))
        (fun y hy => by cases hy) ?_
      intro dst m mt l a hh hm hb
      rcases st.acks hm hb with h2 | ⟨frm, g', pi, pt, ph, es, c, a, h2, h3, h4⟩
      · exact .inl h2
      · right
        cases op with
        | receive frm' m' =>
          simp only [Op.input, Inp.msg.injEq] at h2
          obtain ⟨rfl, rfl⟩ := h2
          obtain ⟨dst', h5, _⟩ := hd
          exact ⟨_, dst', g', pi, pt, ph, es, c, a, h3, h5, h4⟩
        | _ => simp [Op.input] at h2
    · refine h.called hp rfl h1 ?_ (fun t k h => h) (h.reqs p s hp) (fun y hy => by cases hy) (fun _ _ _ _ _ _ hm _ => .inl hm)
      intro x hx
      rcases List.mem_append.mp hx with hx | hx
      · exact h.applied p x hx
      · rw [List.mem_singleton.mp hx]
        exact h0.hashes _ _ he
    · refine h.called hp rfl h1 ?_ (fun t k h => h) (fun _ _ _ _ _ _ _ _ hm => by cases hm) ?_ (fun _ _ _ _ _ _ hm _ => by cases hm)
      · simpa [Obs.entries] using h.applied p
      · intro y hy
        obtain ⟨x, h2, rfl⟩ := List.mem_map.mp hy
        exact ⟨rfl, h2⟩

theorem Reachable.talk {g : Setting P} {W : World P} (h : Reachable g W) (hm : g.m0.Good) (hsm : g.sm < 2 ^ 63) : Talk g W := by
  induction h with
  | now => exact ⟨fun _ _ h => (by cases h), fun _ _ h => (by cases h), fun _ _ h => (by cases h), fun _ _ h => (by cases h),
      fun _ _ _ _ _ _ _ _ _ h => (by cases h), fun _ _ h => (by cases h), fun _ _ _ _ _ _ _ h => (by cases h)⟩
  | next _ k ih => exact ih.next hm hsm k

/-- A success response that reaches a leader of its own term is about entries the leader has. -/
theorem Talk.honest {g : Setting P} {W : World P} (h : Talk g W) {p : P} {s : Node P} (hp : W.node p = some s) {frm : P} {m : Msg}
    (hd : Op.Delivered W p (.receive frm m)) : ¬ Msg.Overclaims s m := by
  rintro ⟨hr, ht, mt, l, a, hh, hb, hlt⟩
  obtain ⟨dst, h1, h2⟩ := hd
  obtain ⟨d, dst', g', pi, pt, ph, es, c, a, h3, h4, h5⟩ := h.acked frm dst m mt l a hh h1 hb
  obtain rfl : d = p := by
    rcases h2 with h2 | h2
    · rw [h2] at h3; cases h3
    · rw [h2] at h3; cases h3; rfl
  obtain ⟨s1, h6, h7⟩ := h.sent d dst' _ pi pt ph es c a h4 rfl
  rw [hp] at h6
  cases h6
  rcases h7 with h7 | ⟨_, h7 | ⟨_, h7⟩⟩
  · simp only at h7; omega
  · rw [hr] at h7; cases h7
  · omega

end Svr.Raft
