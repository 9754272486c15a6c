import Verif.Raft.Talk

/-!
# Whom a follower takes for the leader
-/

namespace Svr.Raft
namespace Node
variable {P : Type} [LinearOrder P] {v : Env P} {inp : Inp P}

/-- A follower's leader changes with the term, or to the sender of an append request of its term. -/
theorem Atom.fLeader {s s' : Node P} (h : Atom v inp s s') : (s'.fLeader = s.fLeader ∧ s'.term = s.term) ∨ s'.fLeader = none ∨
    ∃ frm g pi pt ph es c a, inp = .msg frm ⟨g, s.term, .appReq pi pt ph es c a⟩ ∧ s'.fLeader = some frm ∧ s'.term = s.term := by
  cases h with
  | misc _ _ _ _ _ _ _ _ _ _ hc hf =>
    rcases hf with hf | ⟨frm, g, pi, pt, ph, es, c, a, h1, h2⟩
    · exact .inl ⟨hf, rfl⟩
    · exact .inr (.inr ⟨frm, g, pi, pt, ph, es, c, a, h1, h2, rfl⟩)
  | demote => exact .inr (.inl rfl)
  | raise => exact .inr (.inl rfl)
  | campaign => exact .inr (.inl rfl)
  | lead => exact .inr (.inl rfl)
  | append _ e r hh hm hw h =>
    obtain ⟨l, u, f, h1⟩ := append_eq h
    rw [h1]; exact .inl ⟨rfl, rfl⟩
  | cut idx hr hc hp' ht =>
    obtain ⟨u, m, f, h1⟩ := maybeChangeUncommitted_eq ({ s with log := (s.log.cancelFrom idx).1 } : Node P)
    rw [h1]; exact .inl ⟨rfl, rfl⟩
  | advance _ hr h =>
    obtain ⟨p, c, g, u, m, f, h1, _⟩ := advance_eq hr h
    rw [h1]; exact .inl ⟨rfl, rfl⟩
  | follow frm g t pi pt ph es c a lp hi hr hca hm =>
    obtain ⟨p, u, m, h1⟩ := followLeader_eq s (min c lp) (min a lp)
    rw [h1]; exact .inl ⟨rfl, rfl⟩
  | send _ dst m hso h ha =>
    rcases addSendable_eq h with rfl | ⟨rfl, _⟩ <;> exact .inl ⟨rfl, rfl⟩
  | _ => exact .inl ⟨rfl, rfl⟩

/-- The same for many atoms. -/
theorem Steps.fLeader {s s' : Node P} (h : Steps v inp s s') {p : P} (hp : s'.fLeader = some p) :
    (s.fLeader = some p ∧ s'.term = s.term) ∨
    ∃ g pi pt ph es c a, inp = .msg p ⟨g, s'.term, .appReq pi pt ph es c a⟩ := by
  induction h with
  | refl => exact .inl ⟨hp, rfl⟩
  | tail a k ih =>
    rcases k.fLeader with ⟨h1, h2⟩ | h1 | ⟨frm, g, pi, pt, ph, es, c, a, h1, h2, h3⟩
    · rw [h1] at hp
      rw [h2]
      exact ih hp
    · rw [hp] at h1; cases h1
    · rw [hp] at h2
      cases h2
      exact .inr ⟨g, pi, pt, ph, es, c, a, by rw [h3]; exact h1⟩

/-- Leaders lead a term they are recorded for, and so do the senders of append requests. -/
structure Signed (s : Node P) : Prop where
  leads : s.role = .leader → ∃ m, (s.term, m) ∈ s.led
  reqs : ∀ dst m pi pt ph es c a, (dst, m) ∈ s.sendable → m.body = .appReq pi pt ph es c a → ∃ x, (m.term, x) ∈ s.led

theorem Signed.ofEq {s s' : Node P} (h : Signed s) (h1 : s'.role = .leader → s.role = .leader) (h2 : s'.term = s.term)
    (h3 : s'.led = s.led) (h4 : s'.sendable = s.sendable) : Signed s' :=
  ⟨fun hr => (by rw [h2, h3]; exact h.leads (h1 hr)), by rw [h3, h4]; exact h.reqs⟩

theorem Atom.signed {s s' : Node P} (h : Atom v inp s s') (hs : Signed s) : Signed s' := by
  cases h with
  | demote => exact ⟨fun hr => (by cases hr), hs.reqs⟩
  | raise => exact ⟨fun hr => (by cases hr), hs.reqs⟩
  | campaign => exact ⟨fun hr => (by cases hr), hs.reqs⟩
  | lead =>
    refine ⟨fun _ => ⟨s.membership, List.mem_append_right _ (List.mem_singleton.mpr rfl)⟩, fun dst m pi pt ph es c a h1 h2 => ?_⟩
    obtain ⟨x, hx⟩ := hs.reqs dst m pi pt ph es c a h1 h2
    exact ⟨x, List.mem_append_left _ hx⟩
  | append _ e r hh hm hw h =>
    obtain ⟨l, u, f, h1⟩ := append_eq h
    rw [h1]; exact hs.ofEq id rfl rfl rfl
  | cut idx hr hc hp' ht =>
    obtain ⟨u, m, f, h1⟩ := maybeChangeUncommitted_eq ({ s with log := (s.log.cancelFrom idx).1 } : Node P)
    rw [h1]; exact hs.ofEq id rfl rfl rfl
  | advance _ hr h =>
    obtain ⟨p, c, g, u, m, f, h1, _⟩ := advance_eq hr h
    rw [h1]; exact hs.ofEq id rfl rfl rfl
  | follow frm g t pi pt ph es c a lp hi hr hca hm =>
    obtain ⟨p, u, m, h1⟩ := followLeader_eq s (min c lp) (min a lp)
    rw [h1]; exact hs.ofEq id rfl rfl rfl
  | send _ dst m hso h ha =>
    rcases addSendable_eq h with rfl | ⟨rfl, _⟩
    · exact hs
    · refine ⟨hs.leads, fun dst' m' pi pt ph es c a h1 h2 => ?_⟩
      rcases List.mem_append.mp h1 with h1 | h1
      · exact hs.reqs dst' m' pi pt ph es c a h1 h2
      · cases List.mem_singleton.mp h1
        obtain ⟨-, h3, h4⟩ := hso
        rw [h2] at h4
        rw [h3]
        exact hs.leads h4.1
  | _ => exact hs.ofEq id rfl rfl rfl

theorem Steps.signed {s s' : Node P} (h : Steps v inp s s') (hs : Signed s) : Signed s' := by
  induction h with
  | refl => exact hs
  | tail _ k ih => exact k.signed ih

theorem Steps.led {s s' : Node P} (h : Steps v inp s s') : s.led <+: s'.led := h.mono.led

end Node

variable {P : Type} [LinearOrder P]
open Node

/-- In a group: who is taken for the leader, and who sends append requests, led that term. -/
structure Named (W : World P) : Prop where
  signed : ∀ p s, W.node p = some s → Signed s
  sent : ∀ q dst m pi pt ph es c a, (q, dst, m) ∈ W.net → m.body = .appReq pi pt ph es c a →
    ∃ s x, W.node q = some s ∧ (m.term, x) ∈ s.led
  named : ∀ p s, W.node p = some s → ∀ q, s.fLeader = some q → ∃ sq x, W.node q = some sq ∧ (s.term, x) ∈ sq.led

/-- A replica changes, and keeps its record. -/
theorem Named.put {W : World P} (h : Named W) {p : P} {s' : Node P} {A : List Entry} {N : List (P × Option P × Msg)} {Q : List Inner}
    (hp : ∀ s, W.node p = some s → s.led <+: s'.led) (h1 : Signed s')
    (h2 : ∀ y ∈ N, ∀ pi pt ph es c a, y.2.2.body = .appReq pi pt ph es c a → y.1 = p ∧ ∃ x, (y.2.2.term, x) ∈ s'.led)
    (h3 : ∀ q, s'.fLeader = some q → ∃ sq x, W.node q = some sq ∧ (s'.term, x) ∈ sq.led) : Named (W.put p s' A N Q) := by
  have keep : ∀ q t, (∃ sq x, W.node q = some sq ∧ (t, x) ∈ sq.led) → ∃ sq x, (W.put p s' A N Q).node q = some sq ∧ (t, x) ∈ sq.led := by
    rintro q t ⟨sq, x, a, b⟩
    by_cases hq : q = p
    · subst hq
      exact ⟨s', x, World.put_self .., (hp sq a).subset b⟩
    · exact ⟨sq, x, by rw [World.put_other _ _ _ _ _ hq]; exact a, b⟩
  refine ⟨fun x sx hx => ?_, fun q dst m pi pt ph es c a hm hb => ?_, fun x sx hx q hq => ?_⟩
  · by_cases hxp : x = p
    · subst hxp; rw [World.put_self] at hx; cases hx; exact h1
    · rw [World.put_other _ _ _ _ _ hxp] at hx; exact h.signed x sx hx
  · rcases List.mem_append.mp (show (q, dst, m) ∈ W.net ++ N from hm) with hm | hm
    · exact keep q m.term (h.sent q dst m pi pt ph es c a hm hb)
    · obtain ⟨e, x, hx⟩ := h2 _ hm pi pt ph es c a hb
      have e : q = p := e
      subst e
      exact ⟨s', x, World.put_self .., hx⟩
  · by_cases hxp : x = p
    · subst hxp; rw [World.put_self] at hx; cases hx; exact keep q _ (h3 q hq)
    · rw [World.put_other _ _ _ _ _ hxp] at hx; exact keep q _ (h.named x sx hx q hq)

theorem Named.fresh {g : Setting P} {W : World P} (h : Named W) {p : P} {s : Node P} {A : List Entry} {mem : Membership P} {log : Log}
    {cfg : RaftCfg} {cl : Bool} {r : Nat → Nat} {pa : Nat → Bool} (hp : W.node p = none)
    (hb : (base g.group p mem log cfg cl g.sm).Shaped g.v) (hf : log.lastIdx + 2 < SZ)
    (hn : Node.new (g.env r pa) g.group p mem log cfg cl g.sm = .ok s) : Named (W.put p s A [] []) := by
  have st : Steps g.v .none (base g.group p mem log cfg cl g.sm) s := (new_steps (v := g.env r pa) hb hf hn).env
  refine h.put (fun s h => (by rw [hp] at h; cases h)) (st.signed ⟨fun hr => (by cases hr), fun _ _ _ _ _ _ _ _ h => (by cases h)⟩)
    (fun y hy => by cases hy) (fun q hq => ?_)
  rcases st.fLeader hq with ⟨h1, -⟩ | ⟨_, _, _, _, _, _, _, h1⟩
  · cases h1
  · cases h1

theorem Named.next {g : Setting P} {W W' : World P} (h : Named W) (hsh : ∀ p s, W.node p = some s → s.Shaped g.v)
    (k : Next g W W') : Named W' := by
  cases k with
  | start p s r pa mx cfg hp hn =>
    exact h.fresh hp (base_shaped (v := g.v) (logOf_new mx) (by simp [Log.new, Log.bytesOf]) (.inr rfl))
      (by simp [Log.new, Log.lastIdx, SZ]) hn
  | join p q s sq r pa log cfg hp hq ha hl hbb hf hn =>
    exact h.fresh hp (base_shaped (v := g.v) hl hbb (.inl rfl)) (by rw [hl.lastIdx]; exact hf) hn
  | call p s s' op o r pa hp hd hf hrun =>
    rcases Op.steps (v := g.env r pa) (hsh p s hp) hf hrun with ⟨st, n1, n2⟩ | ⟨i, e, _, rfl, _, _, he, rfl⟩ | ⟨_, rfl, rfl⟩
    · have st := st.env
      have hN : Obs.messages p o = [] := by
        cases o with
        | sent l => exact absurd rfl (n2 l)
        | _ => rfl
      rw [hN]
      refine h.put (fun s0 h0 => (by rw [hp] at h0; cases h0; exact st.led)) (st.signed (h.signed p s hp)) (fun y hy => by cases hy)
        (fun q hq => ?_)
      rcases st.fLeader hq with ⟨h1, h2⟩ | ⟨g', pi, pt, ph, es, c, a, h1⟩
      · rw [h2]; exact h.named p s hp q h1
      · cases op with
        | receive frm m =>
          simp only [Op.input, Inp.msg.injEq] at h1
          obtain ⟨rfl, rfl⟩ := h1
          obtain ⟨dst, h5, _⟩ := hd
          exact h.sent _ dst _ pi pt ph es c a h5 rfl
        | _ => simp [Op.input] at h1
    · exact h.put (fun s0 h0 => (by rw [hp] at h0; cases h0; exact List.prefix_rfl)) ((h.signed p s hp).ofEq id rfl rfl rfl)
        (fun y hy => by cases hy) (fun q hq => h.named p s hp q hq)
    · refine h.put (fun s0 h0 => (by rw [hp] at h0; cases h0; exact List.prefix_rfl)) ⟨(h.signed p s hp).leads, fun _ _ _ _ _ _ _ _ h => (by cases h)⟩
        (fun y hy pi pt ph es c a hb => ?_) (fun q hq => h.named p s hp q hq)
      obtain ⟨x, h2, rfl⟩ := List.mem_map.mp hy
      exact ⟨rfl, (h.signed p s hp).reqs x.1 x.2 pi pt ph es c a h2 hb⟩

theorem Reachable.named {g : Setting P} {W : World P} (h : Reachable g W) : Named W := by
  induction h with
  | now => exact ⟨fun _ _ h => (by cases h), fun _ _ _ _ _ _ _ _ _ h => (by cases h), fun _ _ h => (by cases h)⟩
  | next h k ih => exact ih.next (Reachable.shaped h) k

end Svr.Raft
