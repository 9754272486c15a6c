import Verif.Raft.Agree
import Verif.Raft.Cluster
import Verif.Raft.Sync

/-!
# What an atom does to a replica's term, role, votes, messages and history

One summary of all atoms, for invariants that look at several replicas at once.
-/

namespace Svr.Raft
open Node
variable {P : Type} [LinearOrder P]

/-- `s`, with history `F`, became `s'`, with history `F'`. -/
structure Moved (c : Ctx P) (inp : Inp P) (p : P) (s s' : Node P) (F F' : List Entry) : Prop where
  term : s.term ≤ s'.term
  leader : s'.role = .leader → s'.term = s.term ∧ F <+: F' ∧
    ((s.role = .leader ∧ (F' = F ∨ ∃ d, F' = F ++ [d] ∧ d.term = s.term)) ∨ (s.role = .candidate ∧ F' = F ∧ s'.cast = s.cast))
  cand : s'.role = .candidate → F' = F ∧ ((s.role = .candidate ∧ s'.term = s.term ∧ s'.log = s.log) ∨ s'.term = s.term + 1)
  cast : ∀ t q, (t, q) ∈ s'.cast → (t, q) ∈ s.cast ∨ (t = s'.term ∧ F' = F ∧ ((s'.term = s.term + 1 ∧ q = p) ∨ (s'.term = s.term ∧
    ∃ i lt h g, inp = .msg q ⟨g, s.term, .voteReq i lt h⟩ ∧ (lt > s.log.lastTerm ∨ (lt = s.log.lastTerm ∧ i ≥ s.log.lastIdx)))))
  sent : ∀ d m, (d, m) ∈ s'.sendable → (d, m) ∈ s.sendable ∨ (SendOk s d m ∧ s'.term = s.term ∧ s'.role = s.role ∧ s'.log = s.log ∧ F' = F)
  led : ∀ t m, (t, m) ∈ s'.led → (t, m) ∈ s.led ∨ (t = s.term ∧ s'.term = s.term ∧ s'.role = .leader)
  hist : F' = F ∨ (∃ d, F' = F ++ [d] ∧ Linked c.v c.G F F.length d ∧ s'.term = s.term ∧ ((s.role = .leader ∧ s'.role = .leader ∧ d.term = s.term) ∨
      ∃ frm g pi pt ph es cm a, inp = .msg frm ⟨g, s.term, .appReq pi pt ph es cm a⟩ ∧ pi ≤ F.length ∧ es[F.length - pi]? = some d)) ∨
    ∃ k, F' = F.take k ∧ s'.term = s.term ∧ ∃ frm g pi pt ph es cm a o d, inp = .msg frm ⟨g, s.term, .appReq pi pt ph es cm a⟩ ∧ pi ≤ k ∧
      es[k - pi]? = some d ∧ F[k]? = some o ∧ o.term ≠ d.term

theorem Moved.same {c : Ctx P} {inp : Inp P} {p : P} {s s' : Node P} {F F' : List Entry} (ht : s'.term = s.term)
    (hr : s'.role = s.role ∨ s'.role = .follower) (hc : s'.cast = s.cast) (hl : s'.led = s.led) (hs : ∀ x ∈ s'.sendable, x ∈ s.sendable)
    (hg : s.role = .candidate → s'.log = s.log) (hF : F' = F) : Moved c inp p s s' F F' := by
  refine ⟨by rw [ht], ?_, ?_, ?_, ?_, ?_, .inl hF⟩
  · intro h
    rcases hr with hr | hr
    · exact ⟨ht, by rw [hF], .inl ⟨by rw [← hr]; exact h, .inl hF⟩⟩
    · rw [hr] at h; cases h
  · intro h
    rcases hr with hr | hr
    · exact ⟨hF, .inl ⟨by rw [← hr]; exact h, ht, hg (by rw [← hr]; exact h)⟩⟩
    · rw [hr] at h; cases h
  · intro t q h
    rw [hc] at h; exact .inl h
  · intro d m h
    exact .inl (hs _ h)
  · intro t m h
    rw [hl] at h; exact .inl h

/-- The summary of one atom. -/
theorem Node.Atom.moved {c : Ctx P} {σ : St P} {inp : Inp P} {p : P} {s s' : Node P} {F F' : List Entry} (h : Atom c.v inp s s')
    (ok : NodeOk c σ p s F) (hl : LogOf s'.log F') (hsame : s'.log = s.log → F' = F)
    (h5 : (s'.log = s.log ∧ F' = F) ∨ (∃ k, k ≤ s.log.lastIdx ∧ F' = F.take k) ∨ ∃ e, F' = F ++ [e] ∧ Linked c.v c.G F F.length e ∧
      s.Came c.v inp e) : Moved c inp p s s' F F' := by
  have hlast := ok.log.lastIdx
  have hlast' := hl.lastIdx
  cases h with
  | demote => exact .same rfl (.inr rfl) rfl rfl (fun _ h => h) (fun _ => rfl) (hsame rfl)
  | raise t h hi =>
    exact ⟨Nat.le_of_lt h, fun h => (by cases h), fun h => (by cases h), fun _ _ h => .inl h, fun _ _ h => .inl h, fun _ _ h => .inl h,
      .inl (hsame rfl)⟩
  | campaign hv hr ht =>
    refine ⟨Nat.le_succ _, fun h => (by cases h), fun _ => ⟨hsame rfl, .inr rfl⟩, ?_, fun _ _ h => .inl h, fun _ _ h => .inl h, .inl (hsame rfl)⟩
    intro t q hq
    rcases List.mem_append.mp hq with hq | hq
    · exact .inl hq
    · cases List.mem_singleton.mp hq
      exact .inr ⟨rfl, hsame rfl, .inl ⟨rfl, ok.me⟩⟩
  | grant frm i lt hh g hi hv hu =>
    refine ⟨le_rfl, ?_, fun h => ⟨hsame rfl, .inl ⟨h, rfl, rfl⟩⟩, ?_, fun _ _ h => .inl h, fun _ _ h => .inl h, .inl (hsame rfl)⟩
    · intro h
      exact ⟨rfl, by rw [hsame rfl], .inl ⟨h, .inl (hsame rfl)⟩⟩
    · intro t q hq
      rcases List.mem_append.mp hq with hq | hq
      · exact .inl hq
      · cases List.mem_singleton.mp hq
        exact .inr ⟨rfl, hsame rfl, .inr ⟨rfl, i, lt, hh, g, hi, hu⟩⟩
  | lead hr hq =>
    refine ⟨le_rfl, fun _ => ⟨rfl, by rw [hsame rfl], .inr ⟨hr, hsame rfl, rfl⟩⟩, fun h => (by cases h), fun _ _ h => .inl h,
      fun _ _ h => .inl h, ?_, .inl (hsame rfl)⟩
    intro t m hm
    rcases List.mem_append.mp hm with hm | hm
    · exact .inl hm
    · cases List.mem_singleton.mp hm
      exact .inr ⟨rfl, rfl, rfl⟩
  | append _ e r hh hm hw h hy =>
    obtain ⟨l, u, f, e2⟩ := append_eq h
    have hnc : s.role ≠ .candidate := by
      intro hc
      rcases hw with ⟨w, _⟩ | ⟨w, _⟩ <;> rw [hc] at w <;> cases w
    have hlen : F.length ≤ F'.length := by
      rw [← hlast, ← hlast']
      rcases logAppend_eq h with ⟨h1, _⟩ | ⟨l, er, h1, h2, _⟩ | ⟨l, h1, _, ⟨h2, _⟩ | ⟨g, m, _, _, h3⟩⟩
      · rw [h1]
      · have := (Shape.append ok.shaped h1).2.1
        rw [h2]; show s.log.lastIdx ≤ l.lastIdx; omega
      · have := (Shape.append ok.shaped h1).2.1
        rw [h2]; show s.log.lastIdx ≤ l.lastIdx; omega
      · have := (Shape.append ok.shaped h1).2.1
        obtain ⟨_, f, e2⟩ := addUncommitted_eq h3
        rw [e2]; show s.log.lastIdx ≤ l.lastIdx; omega
    have ht : s'.term = s.term := by rw [e2]
    have hro : s'.role = s.role := by rw [e2]
    have hco : s'.cast = s.cast := by rw [e2]
    have hle : s'.led = s.led := by rw [e2]
    have hse : s'.sendable = s.sendable := by rw [e2]
    have fin : F' = F → Moved c inp p s s' F F' := fun hF =>
      .same ht (.inl hro) hco hle (by rw [hse]; exact fun _ h => h) (fun h => absurd h hnc) hF
    rcases h5 with ⟨_, h5⟩ | ⟨k, _, h5⟩ | ⟨d, h5, h6, h7⟩
    · exact fin h5
    · refine fin ?_
      rw [h5, List.length_take] at hlen
      rw [h5, List.take_of_length_le (by omega)]
    · refine ⟨by rw [ht], ?_, ?_, ?_, ?_, ?_, .inr (.inl ⟨d, h5, h6, ht, ?_⟩)⟩
      · intro hr
        rw [hro] at hr
        refine ⟨ht, by rw [h5]; exact List.prefix_append _ _, .inl ⟨hr, .inr ⟨d, h5, ?_⟩⟩⟩
        rcases h7 with ⟨_, h7, _⟩ | ⟨h7, _⟩
        · exact h7
        · rw [hr] at h7; cases h7
      · intro hr
        rw [hro] at hr
        exact absurd hr hnc
      · rw [hco]; exact fun _ _ h => .inl h
      · rw [hse]; exact fun _ _ h => .inl h
      · rw [hle]; exact fun _ _ h => .inl h
      · rcases h7 with ⟨h7, h8, _⟩ | ⟨h7, frm, g, t, pi, pt, ph, es, cm, a, h8, h9, h10⟩
        · exact .inl ⟨h7, by rw [hro]; exact h7, h8⟩
        · obtain ⟨frm', m', h11, h12⟩ := hy h7
          rw [h8] at h11
          cases h11
          rw [hlast] at h9 h10
          exact .inr ⟨frm, g, pi, pt, ph, es, cm, a, by rw [h8]; exact h12 ▸ rfl, h9, h10⟩
  | cut idx hr hc hp ht hx =>
    obtain ⟨u, m, f, e2⟩ := maybeChangeUncommitted_eq ({ s with log := (s.log.cancelFrom idx).1 } : Node P)
    have hsome : ∃ o, s.log.at? idx = some o := by
      unfold Log.termAt at ht
      cases h : s.log.at? idx with
      | none => rw [h] at ht; exact absurd rfl ht
      | some o => exact ⟨o, rfl⟩
    obtain ⟨o, ho⟩ := hsome
    obtain ⟨a1, _, a3, a4⟩ := ok.log.at_some ho
    obtain ⟨_, b2, _⟩ := Shape.cut ok.shaped (max_lt hc hp) (by rw [hlast]; exact a3)
    rw [e2] at hlast'
    have hlen : F'.length = idx - 1 := by rw [← hlast']; exact b2
    have hF : F' = F.take (idx - 1) := by
      rcases h5 with ⟨_, h5⟩ | ⟨k, _, h5⟩ | ⟨d, h5, _⟩
      · rw [h5] at hlen; omega
      · rw [h5, List.length_take] at hlen
        rcases Nat.le_total k F.length with hk | hk
        · rw [Nat.min_eq_left hk] at hlen; rw [h5, hlen]
        · omega
      · rw [h5, List.length_append] at hlen; simp only [List.length_singleton] at hlen; omega
    obtain ⟨frm, g, pi, pt, ph, es, cm, a, e, x1, x2, x3, x4⟩ := hx
    rw [e2]
    refine ⟨le_rfl, fun h => ?_, fun h => ?_, fun _ _ h => .inl h, fun _ _ h => .inl h, fun _ _ h => .inl h,
      .inr (.inr ⟨idx - 1, hF, rfl, frm, g, pi, pt, ph, es, cm, a, o, e, x1, by omega, ?_, a4, ?_⟩)⟩
    · have h : s.role = .leader := h
      rw [hr] at h; cases h
    · have h : s.role = .candidate := h
      rw [hr] at h; cases h
    · rw [show idx - 1 - pi = idx - pi - 1 by omega]; exact x3
    · unfold Log.termAt at x4
      rw [ho] at x4
      exact x4
  | advance _ hr h =>
    obtain ⟨p, c, g, u, m, f, e2, _⟩ := advance_eq hr h
    have hlog : s'.log = s.log := by rw [e2]
    exact .same (by rw [e2]) (.inl (by rw [e2])) (by rw [e2]) (by rw [e2]) (by rw [e2]; exact fun _ h => h) (fun _ => hlog) (hsame hlog)
  | follow frm g t pi pt ph es c a lp hi hr hca hm =>
    obtain ⟨u, m, f, e2⟩ := followLeader_eq s (min c lp) (min a lp)
    rw [e2] at hsame ⊢
    exact .same rfl (.inl rfl) rfl rfl (fun _ h => h) (fun _ => rfl) (hsame rfl)
  | send _ dst m hso h =>
    rcases addSendable_eq h with e2 | ⟨e2, _⟩
    · rw [e2] at hsame ⊢
      exact .same rfl (.inl rfl) rfl rfl (fun _ h => h) (fun _ => rfl) (hsame rfl)
    · rw [e2] at hsame ⊢
      refine ⟨le_rfl, ?_, fun h => ⟨hsame rfl, .inl ⟨h, rfl, rfl⟩⟩, fun _ _ h => .inl h, ?_, fun _ _ h => .inl h, .inl (hsame rfl)⟩
      · intro h
        exact ⟨rfl, by rw [hsame rfl], .inl ⟨h, .inl (hsame rfl)⟩⟩
      · intro d m' hm
        rcases List.mem_append.mp hm with hm | hm
        · exact .inl hm
        · cases List.mem_singleton.mp hm
          exact .inr ⟨hso, rfl, rfl, rfl, hsame rfl⟩
  | _ => exact .same rfl (.inl rfl) rfl rfl (fun _ h => h) (fun _ => rfl) (hsame rfl)

end Svr.Raft
