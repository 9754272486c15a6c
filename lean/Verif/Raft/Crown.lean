import Verif.Raft.Complete

/-!
# Two leaders never make the same history

With changes of the voters a term may have several leaders. But no two of them can make the same history: what they had when they
were elected would be the same, so would be the voters, and the quorums that elected them would meet. `Crown` is the invariant.
`H p t L` says that `p` had the history `L` while it led term `t`; it only grows. It needs that nobody joins with a log in which it
is a voter already: such a replica could be elected in a term of which it has entries.
-/

namespace Svr.Raft
open Node
variable {P : Type} [LinearOrder P]

structure Crown (c : Ctx P) (σ : St P) (R : P → Msg → Prop) (H : P → Nat → List Entry → Prop) : Prop where
  chain : ∀ p t L, H p t L → Chain c.v c.G L
  kinds : ∀ p t L, H p t L → Kinds c L
  sub : ∀ p t L, H p t L → ∀ (k : Nat) (d : Entry), L[k]? = some d → d.term ≤ t ∧ ∃ x, H x d.term (L.take (k + 1))
  hist : ∀ p s F, σ p = some (s, F) → ∀ (k : Nat) (d : Entry), F[k]? = some d → ∃ x, H x d.term (F.take (k + 1))
  lead : ∀ p s F, σ p = some (s, F) → s.role = .leader → H p s.term F ∧ ∀ L, H p s.term L → L <+: F
  past : ∀ p t L, H p t L → ∃ s F, σ p = some (s, F) ∧ t ≤ s.term ∧ (s.role = .candidate → t < s.term)
  start : ∀ p t L, H p t L → ∃ n, n ≤ L.length ∧ (∀ (k : Nat) (d : Entry), k < n → L[k]? = some d → d.term < t) ∧
    (∀ (k : Nat) (d : Entry), n ≤ k → L[k]? = some d → d.term = t) ∧ p ∈ (memAt c.v c.m0 (L.take n)).voting ∧
    ∃ Q, Quorate c.sm (memAt c.v c.m0 (L.take n)) Q ∧ ∀ x ∈ Q, Cast σ x t p
  req : ∀ frm m pi pt ph es cm a, Sent σ R frm m → m.body = .appReq pi pt ph es cm a →
    ∃ L, H frm m.term L ∧ ∀ (j : Nat) (d : Entry), es[j]? = some d → L[pi + j]? = some d
  old : ∀ p s F, σ p = some (s, F) → ∀ K, K <+: F → (∃ (k : Nat) (d : Entry), K[k]? = some d ∧ s.term < d.term) →
    p ∉ (memAt c.v c.m0 K).voting
  cand : ∀ p s F, σ p = some (s, F) → s.role = .candidate → ∀ (k : Nat) (d : Entry), F[k]? = some d → d.term < s.term

/-- What is needed of the sizes. -/
structure Small (c : Ctx P) : Prop where
  wf : c.m0.Wf
  len : c.m0.voting.length < 2 ^ 63
  sm : c.sm < 2 ^ 63
  size : ∀ e m, c.K e.inner → memOf c.v e = some m → m.voting.length < 2 ^ 63

theorem Small.memAt {c : Ctx P} (h : Small c) {L : List Entry} (hk : Kinds c L) : (memAt c.v c.m0 L).voting.length < 2 ^ 63 :=
  memAt_ind (fun m => m.voting.length < 2 ^ 63) L c.m0 h.len fun e he m hm => h.size e m (hk.K he hm) hm

section
variable {c : Ctx P} {σ : St P} {R : P → Msg → Prop} {H : P → Nat → List Entry → Prop}

/-- Leaders of one term that had histories one of which continues the other by an entry of this term, or is the same, are one. -/
theorem Crown.one (hs : Small c) (h : Crown c σ R H) (all : ∀ x s F, σ x = some (s, F) → NodeOk c σ x s F) {p q : P} {t : Nat} {L : List Entry} {d : Entry}
    (hp : H p t (L ++ [d])) (hd : d.term = t) (hq : H q t L ∨ H q t (L ++ [d])) : p = q := by
  obtain ⟨n, n1, n2, n3, n4, Q, n5, n6⟩ := h.start _ _ _ hp
  have hlast : (L ++ [d])[L.length]? = some d := by simp
  have hn : n ≤ L.length := by
    by_contra hlt
    have := n2 _ _ (Nat.lt_of_not_le hlt) hlast
    omega
  have low : ∀ (k : Nat) (e : Entry), L[k]? = some e → (L ++ [d])[k]? = some e := fun k e hk => prefix_get (List.prefix_append _ _) hk
  obtain ⟨L', hL', m, m1, m2, m3, m4, Q', m5, m6⟩ : ∃ L', (L' = L ∨ L' = L ++ [d]) ∧ ∃ m, m ≤ L'.length ∧ (∀ (k : Nat) (d : Entry), k < m → L'[k]? = some d → d.term < t) ∧
      (∀ (k : Nat) (d : Entry), m ≤ k → L'[k]? = some d → d.term = t) ∧ q ∈ (memAt c.v c.m0 (L'.take m)).voting ∧
      ∃ Q, Quorate c.sm (memAt c.v c.m0 (L'.take m)) Q ∧ ∀ x ∈ Q, Cast σ x t q := by
    rcases hq with hq | hq
    · exact ⟨L, .inl rfl, h.start _ _ _ hq⟩
    · exact ⟨_, .inr rfl, h.start _ _ _ hq⟩
  have hL'p : L' <+: L ++ [d] := by
    rcases hL' with rfl | rfl
    · exact List.prefix_append _ _
    · exact List.prefix_rfl
  have hL'q : L <+: L' := by
    rcases hL' with rfl | rfl
    · exact List.prefix_rfl
    · exact List.prefix_append _ _
  have hm : m ≤ L.length := by
    by_contra hlt
    have h1 : L.length < L'.length := by omega
    have := m2 _ _ (Nat.lt_of_not_le hlt) (prefix_get' hL'p h1 hlast)
    omega
  have hnm : n = m := by
    rcases Nat.lt_trichotomy n m with hlt | he | hlt
    · exfalso
      have hk : L[n]? = some L[n] := List.getElem?_eq_getElem (by omega)
      have a1 := n3 n _ le_rfl (low _ _ hk)
      have a2 := m2 n _ hlt (prefix_get hL'q hk)
      omega
    · exact he
    · exfalso
      have hk : L[m]? = some L[m] := List.getElem?_eq_getElem (by omega)
      have a1 := m3 m _ le_rfl (prefix_get hL'q hk)
      have a2 := n2 m _ hlt (low _ _ hk)
      omega
  subst hnm
  have e1 : (L ++ [d]).take n = L.take n := prefix_take (List.prefix_append _ _) hn
  have e2 : L'.take n = L.take n := prefix_take hL'q hn
  rw [e1] at n4 n5
  rw [e2] at m4 m5
  have hk : Kinds c (L.take n) := fun e he => h.kinds _ _ _ hp e (List.mem_append_left _ (List.mem_of_mem_take he))
  obtain ⟨x, x1, x2⟩ := common_voter (memAt_wf hs.wf (L.take n)) (memAt_wf hs.wf (L.take n)) rfl (List.ne_nil_of_mem n4) (hs.memAt hk) hs.sm n5 m5
  obtain ⟨sx, Fx, a1, a2⟩ := n6 x x1
  obtain ⟨sy, Fy, b1, b2⟩ := m6 x x2
  rw [a1] at b1
  cases b1
  exact (all x sx Fx a1).voted.one _ _ _ a2 b2

/-- Nobody ever had a history that continues a leader's by an entry of its term. -/
theorem Crown.top (hs : Small c) (h : Crown c σ R H) (all : ∀ x s F, σ x = some (s, F) → NodeOk c σ x s F) {p q : P} {s : Node P} {F : List Entry} {d : Entry}
    (hq : σ q = some (s, F)) (hr : s.role = .leader) (hd : d.term = s.term) : ¬ H p s.term (F ++ [d]) := by
  intro hp
  obtain ⟨a, b⟩ := h.lead _ _ _ hq hr
  have := h.one hs all hp hd (.inl a)
  subst this
  have := (b _ hp).length_le
  rw [List.length_append, List.length_singleton] at this
  omega

theorem Crown.rest {R' : P → Msg → Prop} (h : Crown c σ R H) (hR : ∀ frm m, Sent σ R' frm m → Sent σ R frm m) : Crown c σ R' H :=
  { h with req := fun frm m pi pt ph es cm a hs => h.req frm m pi pt ph es cm a (hR _ _ hs) }

theorem Crown.empty : Crown c (fun _ => none) (fun _ _ => False) (fun _ _ _ => False) := by
  have hs : ∀ frm m, ¬ Sent (fun _ => none) (fun _ _ => False) frm m (P := P) := by
    rintro frm m (h | ⟨_, _, _, h, _⟩)
    · exact h
    · cases h
  exact ⟨fun _ _ _ h => h.elim, fun _ _ _ h => h.elim, fun _ _ _ h => h.elim, fun _ _ _ h => (by cases h), fun _ _ _ h => (by cases h), fun _ _ _ h => h.elim,
    fun _ _ _ h => h.elim, fun _ _ _ _ _ _ _ _ h => absurd h (hs _ _), fun _ _ _ h => (by cases h), fun _ _ _ h => (by cases h)⟩

/-- One step of a replica. -/
theorem Crown.step {inp : Inp P} {p : P} {s s' : Node P} {F F' : List Entry} (hn : NoCollision c.v c.G) (hser : SerInj c.v)
    (h : Crown c σ R H) (all : ∀ x s F, σ x = some (s, F) → NodeOk c σ x s F) (hp : σ p = some (s, F)) (mv : Moved c inp p s s' F F')
    (ok' : NodeOk c (upd σ p s' F') p s' F') (hg : Grows σ (upd σ p s' F')) (hin : ∀ frm m, inp = .msg frm m → R frm m)
    (hwin : s'.role = .leader → s.role = .candidate → ∃ Q, Quorate c.sm (memAt c.v c.m0 F) Q ∧ ∀ x ∈ Q, Cast σ x s.term p) :
    ∃ H', Crown c (upd σ p s' F') R H' ∧ ∀ x t L, H x t L → H' x t L := by
  have ok := all p s F hp
  have hself : upd σ p s' F' p = some (s', F') := upd_self _ _ _ _
  -- a candidate that becomes leader has led no such term before
  have nobody : s'.role = .leader → s.role = .candidate → ∀ L, ¬ H p s.term L := by
    intro hr hc L hL
    obtain ⟨sx, Fx, a1, _, a3⟩ := h.past _ _ _ hL
    rw [hp] at a1
    cases a1
    exact absurd (a3 hc) (lt_irrefl _)
  have top : s'.role = .leader → ∀ L, H p s'.term L → L <+: F' := by
    intro hr L hL
    obtain ⟨e1, e2, e3⟩ := mv.leader hr
    rw [e1] at hL
    rcases e3 with ⟨e3, _⟩ | ⟨e3, _⟩
    · exact ((h.lead _ _ _ hp e3).2 L hL).trans e2
    · exact absurd hL (nobody hr e3 L)
  -- messages
  have sents : ∀ frm m, Sent (upd σ p s' F') R frm m → Sent σ R frm m ∨ (frm = p ∧ ∃ d, SendOk s d m ∧ s'.term = s.term ∧ s'.role = s.role ∧
      s'.log = s.log ∧ F' = F) := by
    rintro frm m (h1 | ⟨sx, Fx, d, h1, h2⟩)
    · exact .inl (.inl h1)
    · rcases upd_some h1 with ⟨rfl, rfl, rfl⟩ | ⟨_, h1⟩
      · rcases mv.sent d m h2 with h3 | h3
        · exact .inl (.inr ⟨s, F, d, hp, h3⟩)
        · exact .inr ⟨rfl, d, h3⟩
      · exact .inl (.inr ⟨sx, Fx, d, h1, h2⟩)
  have fill : ∀ frm m, inp = .msg frm m → ∀ pi pt ph es cm a, m.body = .appReq pi pt ph es cm a →
      ∃ L, H frm m.term L ∧ ∀ (j : Nat) (d : Entry), es[j]? = some d → L[pi + j]? = some d :=
    fun frm m hi pi pt ph es cm a hb => h.req frm m pi pt ph es cm a (.inl (hin frm m hi)) hb
  -- how the history changes
  have change : F' <+: F ∨ (∃ d, F' = F ++ [d] ∧ s'.term = s.term ∧ s.role = .leader ∧ s'.role = .leader ∧ d.term = s.term) ∨
      (s'.term = s.term ∧ ∃ x L, H x s.term L ∧ F' <+: L) := by
    rcases mv.hist with e | ⟨d, e1, e2, et, e3⟩ | ⟨n, e1, et, _⟩
    · exact .inl (by rw [e])
    · rcases e3 with ⟨e3, e4, e5⟩ | ⟨frm, g, pi, pt, ph, es, cm, a, e3, e4, e5⟩
      · exact .inr (.inl ⟨d, e1, et, e3, e4, e5⟩)
      · obtain ⟨L, l1, l2⟩ := fill _ _ e3 _ _ _ _ _ _ rfl
        have l3 := l2 _ _ e5
        rw [show pi + (F.length - pi) = F.length by omega] at l3
        have l4 := next_entry ok hn hser (h.chain _ _ _ l1) e2 l3
        exact .inr (.inr ⟨et, frm, L, l1, by rw [e1, l4]; exact List.take_prefix _ _⟩)
    · exact .inl (by rw [e1]; exact List.take_prefix _ _)
  let H' : P → Nat → List Entry → Prop := fun x t L => H x t L ∨ (x = p ∧ s'.role = .leader ∧ t = s'.term ∧ L = F')
  have hist' : ∀ (k : Nat) (d : Entry), F'[k]? = some d → ∃ x, H' x d.term (F'.take (k + 1)) := by
    intro k d hk
    have hlt := (List.getElem?_eq_some_iff.mp hk).1
    rcases change with e | ⟨e, e1, et, e2, e3, e4⟩ | ⟨_, x, L, l1, l2⟩
    · obtain ⟨x, hx⟩ := h.hist _ _ _ hp k d (prefix_get e hk)
      rw [prefix_take e (by omega)] at hx
      exact ⟨x, .inl hx⟩
    · by_cases hk' : k < F.length
      · rw [e1] at hk ⊢
        rw [List.getElem?_append_left hk'] at hk
        obtain ⟨x, hx⟩ := h.hist _ _ _ hp k d hk
        rw [List.take_append_of_le_length (by omega)]
        exact ⟨x, .inl hx⟩
      · rw [e1, List.length_append, List.length_singleton] at hlt
        have hkF : k = F.length := by omega
        subst hkF
        refine ⟨p, .inr ⟨rfl, e3, ?_, List.take_of_length_le (by rw [e1]; simp)⟩⟩
        rw [e1, List.getElem?_append_right le_rfl, Nat.sub_self] at hk
        cases (Option.some.inj hk)
        rw [et, e4]
    · obtain ⟨_, y, hy⟩ := h.sub _ _ _ l1 k d (prefix_get l2 hk)
      rw [prefix_take l2 (by omega)] at hy
      exact ⟨y, .inl hy⟩
  have start' : s'.role = .leader → ∃ n, n ≤ F'.length ∧ (∀ (k : Nat) (d : Entry), k < n → F'[k]? = some d → d.term < s'.term) ∧
      (∀ (k : Nat) (d : Entry), n ≤ k → F'[k]? = some d → d.term = s'.term) ∧ p ∈ (memAt c.v c.m0 (F'.take n)).voting ∧
      ∃ Q, Quorate c.sm (memAt c.v c.m0 (F'.take n)) Q ∧ ∀ x ∈ Q, Cast (upd σ p s' F') x s'.term p := by
    intro hr
    obtain ⟨e1, _, e3⟩ := mv.leader hr
    rw [e1]
    rcases e3 with ⟨e3, e4⟩ | ⟨e3, e4, _⟩
    · obtain ⟨n, n1, n2, n3, n4, Q, n5, n6⟩ := h.start _ _ _ (h.lead _ _ _ hp e3).1
      have n6' : ∀ x ∈ Q, Cast (upd σ p s' F') x s.term p := fun x hx => (n6 x hx).grows hg
      rcases e4 with e4 | ⟨d, e4, e5⟩
      · rw [e4] at n6' ⊢
        exact ⟨n, n1, n2, n3, n4, Q, n5, n6'⟩
      · rw [e4] at n6' ⊢
        refine ⟨n, by rw [List.length_append]; omega, ?_, ?_, ?_, Q, ?_, n6'⟩
        · intro k e hk he
          rw [List.getElem?_append_left (by omega)] at he
          exact n2 k e hk he
        · intro k e hk he
          by_cases hlt : k < F.length
          · rw [List.getElem?_append_left hlt] at he
            exact n3 k e hk he
          · have hl := (List.getElem?_eq_some_iff.mp he).1
            rw [List.length_append, List.length_singleton] at hl
            have : k = F.length := by omega
            subst this
            rw [List.getElem?_append_right le_rfl, Nat.sub_self] at he
            cases (Option.some.inj he)
            exact e5
        · rw [List.take_append_of_le_length n1]; exact n4
        · rw [List.take_append_of_le_length n1]; exact n5
    · obtain ⟨Q, q1, q2⟩ := hwin hr e3
      have q2' : ∀ x ∈ Q, Cast (upd σ p s' F') x s.term p := fun x hx => (q2 x hx).grows hg
      rw [e4] at q2' ⊢
      refine ⟨F.length, le_rfl, fun k d _ hk => h.cand _ _ _ hp e3 k d hk, ?_, ?_, Q, ?_, q2'⟩
      · intro k d hk hd
        have := (List.getElem?_eq_some_iff.mp hd).1
        omega
      · rw [List.take_length, ← ok.mems.membership]
        exact ok.voter (by rw [e3]; simp)
      · rw [List.take_length]; exact q1
  refine ⟨H', ?_, fun _ _ _ hh => .inl hh⟩
  refine ⟨?_, ?_, ?_, ?_, ?_, ?_, ?_, ?_, ?_, ?_⟩
  · rintro x t L (h1 | ⟨_, _, _, rfl⟩)
    · exact h.chain _ _ _ h1
    · exact ok'.chain
  · rintro x t L (h1 | ⟨_, _, _, rfl⟩)
    · exact h.kinds _ _ _ h1
    · exact ok'.hist.kinds
  · -- sub
    rintro x t L (h1 | ⟨rfl, hr, rfl, rfl⟩) k d hk
    · obtain ⟨a, y, hy⟩ := h.sub _ _ _ h1 k d hk
      exact ⟨a, y, .inl hy⟩
    · refine ⟨?_, hist' k d hk⟩
      obtain ⟨n, _, n2, n3, _⟩ := start' hr
      rcases Nat.lt_or_ge k n with hlt | hge
      · exact Nat.le_of_lt (n2 k d hlt hk)
      · exact Nat.le_of_eq (n3 k d hge hk)
  · -- hist
    intro x sx Fx hx k d hk
    rcases upd_some hx with ⟨rfl, rfl, rfl⟩ | ⟨_, hx⟩
    · exact hist' k d hk
    · obtain ⟨y, hy⟩ := h.hist x sx Fx hx k d hk
      exact ⟨y, .inl hy⟩
  · -- lead
    intro x sx Fx hx hr
    rcases upd_some hx with ⟨rfl, rfl, rfl⟩ | ⟨hne, hx0⟩
    · refine ⟨.inr ⟨rfl, hr, rfl, rfl⟩, ?_⟩
      rintro L (hL | ⟨_, _, _, rfl⟩)
      · exact top hr L hL
      · exact List.prefix_rfl
    · obtain ⟨a, b⟩ := h.lead x sx Fx hx0 hr
      refine ⟨.inl a, ?_⟩
      rintro L (hL | ⟨e, _⟩)
      · exact b L hL
      · exact absurd e hne
  · -- past
    rintro x t L (h1 | ⟨rfl, hr, rfl, rfl⟩)
    · obtain ⟨sx, Fx, a1, a2, a3⟩ := h.past _ _ _ h1
      by_cases e : x = p
      · subst e
        rw [hp] at a1
        cases a1
        refine ⟨s', F', hself, a2.trans mv.term, fun hc => ?_⟩
        rcases (mv.cand hc).2 with ⟨c1, c2, _⟩ | c2
        · have := a3 c1; omega
        · omega
      · exact ⟨sx, Fx, by rw [upd_other _ _ _ e]; exact a1, a2, a3⟩
    · exact ⟨s', _, hself, le_rfl, fun hc => by rw [hc] at hr; cases hr⟩
  · -- start
    rintro x t L (h1 | ⟨rfl, hr, rfl, rfl⟩)
    · obtain ⟨n, n1, n2, n3, n4, Q, n5, n6⟩ := h.start _ _ _ h1
      exact ⟨n, n1, n2, n3, n4, Q, n5, fun y hy => (n6 y hy).grows hg⟩
    · exact start' hr
  · -- req
    intro frm m pi pt ph es cm a hs hb
    rcases sents frm m hs with h1 | ⟨rfl, d, hso, _⟩
    · obtain ⟨L, l1, l2⟩ := h.req frm m pi pt ph es cm a h1 hb
      exact ⟨L, .inl l1, l2⟩
    · obtain ⟨_, e1, e2⟩ := hso
      rw [hb] at e2
      refine ⟨F, .inl (by rw [e1]; exact (h.lead _ _ _ hp e2.1).1), ?_⟩
      intro j d hj
      obtain ⟨b1, _, _, b4⟩ := ok.log.at_some (e2.2.2.1 j d hj)
      rwa [show pi + 1 + j - 1 = pi + j by omega] at b4
  · -- old
    intro x sx Fx hx K hK hold
    rcases upd_some hx with ⟨rfl, rfl, rfl⟩ | ⟨_, hx0⟩
    · obtain ⟨k, d, hk, hlt⟩ := hold
      have hkF := prefix_get hK hk
      rcases change with e | ⟨e, e1, et, e2, e3, e4⟩ | ⟨et, y, L, l1, l2⟩
      · exact h.old _ _ _ hp K (hK.trans e) ⟨k, d, hk, lt_of_le_of_lt mv.term hlt⟩
      · exfalso
        obtain ⟨n, _, n2, n3, _⟩ := start' e3
        rcases Nat.lt_or_ge k n with hlt' | hge
        · have := n2 k d hlt' hkF; omega
        · have := n3 k d hge hkF; omega
      · exfalso
        have := (h.sub _ _ _ l1 k d (prefix_get l2 hkF)).1
        omega
    · exact h.old x sx Fx hx0 K hK hold
  · -- cand
    intro x sx Fx hx hr k d hk
    rcases upd_some hx with ⟨rfl, rfl, rfl⟩ | ⟨_, hx0⟩
    · obtain ⟨e1, e2⟩ := mv.cand hr
      rw [e1] at hk
      rcases e2 with ⟨e2, e3, _⟩ | e2
      · rw [e3]; exact h.cand _ _ _ hp e2 k d hk
      · rw [e2]
        by_contra hlt
        refine h.old _ _ _ hp F List.prefix_rfl ⟨k, d, hk, by omega⟩ ?_
        have := ok'.voter (by rw [hr]; simp)
        rw [ok'.mems.membership, e1] at this
        exact this
    · exact h.cand x sx Fx hx0 hr k d hk

/-- The quorum behind a new leader. -/
theorem Node.Atom.win {inp : Inp P} {p : P} {s s' : Node P} {F : List Entry} (k : Atom c.v inp s s') (ok : NodeOk c σ p s F)
    (hr : s'.role = .leader) (hc : s.role = .candidate) : ∃ Q, Quorate c.sm (memAt c.v c.m0 F) Q ∧ ∀ x ∈ Q, Cast σ x s.term p := by
  have bad : s'.role = s.role → False := fun e => by rw [e, hc] at hr; cases hr
  cases k with
  | lead h1 hq =>
    obtain ⟨a, b, d⟩ := ok.votes h1
    refine ⟨s.votes, ⟨a.nodup, by rw [← ok.mems.membership]; exact b, ?_⟩, d⟩
    unfold quorum at hq
    rw [ok.super, ok.mems.membership] at hq
    exact hq
  | append _ e r hh hm hw h =>
    obtain ⟨l, u, f, rfl⟩ := append_eq h
    exact (bad rfl).elim
  | cut idx h1 h2 h3 ht =>
    obtain ⟨u, m, f, h1⟩ := maybeChangeUncommitted_eq ({ s with log := (s.log.cancelFrom idx).1 } : Node P)
    rw [h1] at bad
    exact (bad rfl).elim
  | advance _ h1 h =>
    obtain ⟨_, _, _, _, _, _, rfl, _⟩ := advance_eq h1 h
    exact (bad rfl).elim
  | follow =>
    obtain ⟨u, m, f, h1⟩ := followLeader_eq s _ _
    rw [h1] at bad
    exact (bad rfl).elim
  | send _ dst m hso h =>
    rcases addSendable_eq h with rfl | ⟨rfl, _⟩
    · exact (bad rfl).elim
    · exact (bad rfl).elim
  | demote => cases hr
  | raise => cases hr
  | campaign => cases hr
  | _ => exact (bad rfl).elim

/-- A new replica, in no term yet, which is in no membership of its log. -/
theorem Crown.fresh {p : P} {s : Node P} {F : List Entry} (h : Crown c σ R H)
    (hp : σ p = none) (hr : s.role = .follower) (hs : s.sendable = [])
    (hF : ∀ (k : Nat) (d : Entry), F[k]? = some d → ∃ x, H x d.term (F.take (k + 1)))
    (ho : ∀ K, K <+: F → K ≠ [] → p ∉ (memAt c.v c.m0 K).voting) : Crown c (upd σ p s F) R H := by
  have put : ∀ x sx Fx, σ x = some (sx, Fx) → upd σ p s F x = some (sx, Fx) := by
    intro x sx Fx hx
    rw [upd_other]
    · exact hx
    · rintro rfl
      rw [hp] at hx; cases hx
  have sents : ∀ frm m, Sent (upd σ p s F) R frm m → Sent σ R frm m := by
    rintro frm m (h1 | ⟨sx, Fx, d, h1, h2⟩)
    · exact .inl h1
    · rcases upd_some h1 with ⟨_, rfl, _⟩ | ⟨_, h1⟩
      · rw [hs] at h2; cases h2
      · exact .inr ⟨sx, Fx, d, h1, h2⟩
  refine ⟨h.chain, h.kinds, h.sub, ?_, ?_, ?_, ?_, ?_, ?_, ?_⟩
  · intro x sx Fx hx k d hk
    rcases upd_some hx with ⟨rfl, rfl, rfl⟩ | ⟨_, hx⟩
    · exact hF k d hk
    · exact h.hist x sx Fx hx k d hk
  · intro x sx Fx hx hrole
    rcases upd_some hx with ⟨rfl, rfl, rfl⟩ | ⟨_, hx⟩
    · rw [hr] at hrole; cases hrole
    · exact h.lead x sx Fx hx hrole
  · intro x t L hL
    obtain ⟨sx, Fx, a1, a2⟩ := h.past x t L hL
    exact ⟨sx, Fx, put _ _ _ a1, a2⟩
  · intro x t L hL
    obtain ⟨n, n1, n2, n3, n4, Q, n5, n6⟩ := h.start x t L hL
    refine ⟨n, n1, n2, n3, n4, Q, n5, fun y hy => ?_⟩
    obtain ⟨sy, Fy, a1, a2⟩ := n6 y hy
    exact ⟨sy, Fy, put _ _ _ a1, a2⟩
  · intro frm m pi pt ph es cm a hm
    exact h.req frm m pi pt ph es cm a (sents _ _ hm)
  · intro x sx Fx hx K hK hold
    rcases upd_some hx with ⟨rfl, rfl, rfl⟩ | ⟨_, hx⟩
    · refine ho K hK ?_
      rintro rfl
      obtain ⟨k, d, hk, _⟩ := hold
      simp at hk
    · exact h.old x sx Fx hx K hK hold
  · intro x sx Fx hx hrole
    rcases upd_some hx with ⟨rfl, rfl, rfl⟩ | ⟨_, hx⟩
    · rw [hr] at hrole; cases hrole
    · exact h.cand x sx Fx hx hrole

/-- The group's invariant and the crown. -/
structure Crowned (c : Ctx P) (σ : St P) (R : P → Msg → Prop) (H : P → Nat → List Entry → Prop) : Prop where
  all : ∀ x s F, σ x = some (s, F) → NodeOk c σ x s F
  crown : Crown c σ R H

theorem Crowned.atom {inp : Inp P} {p : P} {s s' : Node P} {F : List Entry} (hn : NoCollision c.v c.G) (hser : SerInj c.v)
    (h : Crowned c σ R H) (hp : σ p = some (s, F)) (k : Atom c.v inp s s') (hin : ∀ frm m, inp = .msg frm m → R frm m) (hi : InpOk c σ p inp)
    (hty : ∀ q m, inp = .msg q m → Typed m) (hh : ∀ x ∈ s'.hashed, c.G x) :
    ∃ F' H', Crowned c (upd σ p s' F') R H' ∧ Grows σ (upd σ p s' F') ∧ ∀ x t L, H x t L → H' x t L := by
  have ok := h.all p s F hp
  obtain ⟨F', ok', hg, hsame, h5⟩ := k.group_step ok hp hi hty hh hn hser
  have mv := k.moved ok ok'.log hsame h5
  obtain ⟨H', t1, t2⟩ := h.crown.step hn hser h.all hp mv ok' hg hin (k.win ok)
  refine ⟨F', H', ⟨?_, t1⟩, hg, t2⟩
  intro x sx Fx hx
  rcases upd_some hx with ⟨rfl, rfl, rfl⟩ | ⟨_, hx⟩
  · exact ok'
  · exact (h.all x sx Fx hx).grows hg

theorem Crowned.steps {inp : Inp P} {p : P} {s s' : Node P} {F : List Entry} (hn : NoCollision c.v c.G) (hser : SerInj c.v)
    (h : Crowned c σ R H) (hp : σ p = some (s, F)) (k : Steps c.v inp s s') (hin : ∀ frm m, inp = .msg frm m → R frm m) (hi : InpOk c σ p inp)
    (hty : ∀ q m, inp = .msg q m → Typed m) (hh : ∀ x ∈ s'.hashed, c.G x) :
    ∃ F' H', Crowned c (upd σ p s' F') R H' ∧ Grows σ (upd σ p s' F') ∧ ∀ x t L, H x t L → H' x t L := by
  induction k with
  | refl => exact ⟨F, H, by rw [upd_eq hp]; exact h, by rw [upd_eq hp]; exact Grows.refl _, fun _ _ _ hs => hs⟩
  | tail a k ih =>
    obtain ⟨F1, S1, g1, g2, g3⟩ := ih (fun x hx => hh x ((Atom.steps k).mono.hashed.subset hx))
    obtain ⟨F2, S2, k1, k2, k3⟩ := g1.atom hn hser (upd_self _ _ _ _) k hin (hi.grows g2) hty hh
    rw [upd_upd] at k1 k2
    exact ⟨F2, S2, k1, g2.trans k2, fun x t L hs => k3 x t L (g3 x t L hs)⟩

end

/-- Who is new in `W'` is a voter in no membership of the log it comes with, or comes with none. -/
def Outside (g : Setting P) (W W' : World P) : Prop :=
  ∀ p, W.node p = none → W'.node p ≠ none → ∀ K, K <+: W'.applied p → K ≠ [] → p ∉ (memAt g.v g.m0 K).voting

/-- The future in which nobody joins who is a voter already. -/
inductive Tidy (g : Setting P) (W : World P) : World P → Prop
  | now : Tidy g W W
  | next {W1 W2 : World P} (h : Tidy g W W1) (k : Next g W1 W2) (ho : Outside g W1 W2) : Tidy g W W2

theorem Tidy.future {g : Setting P} {W W' : World P} (h : Tidy g W W') : Future g W W' := by
  induction h with
  | now => exact .now
  | next _ k _ ih => exact .next ih k

theorem Tidy.trans {g : Setting P} {A B C : World P} (h : Tidy g A B) (k : Tidy g B C) : Tidy g A C := by
  induction k with
  | now => exact h
  | next _ k ho ih => exact .next ih k ho

/-- The invariant of the group with the crown. -/
structure CInv (c : Ctx P) (W : World P) (σ : St P) (H : P → Nat → List Entry → Prop) : Prop where
  inv : GInv c W σ
  crown : Crown c σ W.Sent H

theorem CInv.crowned {c : Ctx P} {W : World P} {σ : St P} {H : P → Nat → List Entry → Prop} (h : CInv c W σ H) : Crowned c σ W.Sent H :=
  ⟨h.inv.ok, h.crown⟩

theorem CInv.fresh {g : Setting P} {G : Bytes × Bytes → Prop} {K : Inner → Prop} {W : World P} {σ : St P} {H : P → Nat → List Entry → Prop} {p : P}
    {s : Node P} {mem : Membership P} {log : Log} {cfg : RaftCfg} {cl : Bool} {F : List Entry} {r : Nat → Nat} {pa : Nat → Bool}
    (hi : CInv (g.ctx G K) W σ H) (hp : W.node p = none) (hl : LogOf log F) (hb : Log.bytesOf g.v.z log.entries ≤ log.curr)
    (hf : F.length + 2 < SZ) (hcl : cl = true ∨ F = [])
    (h : Node.new (g.env r pa) g.group p mem log cfg cl g.sm = .ok s)
    (hh : Hist (g.ctx G K) σ F) (hc : Com (g.ctx G K) σ F) (hm : mem = memAt g.v g.m0 F)
    (hF : F = [] ∨ ∃ q sq Fq, σ q = some (sq, Fq) ∧ F <+: Fq) (ho : ∀ K, K <+: F → K ≠ [] → p ∉ (memAt g.v g.m0 K).voting)
    (hG : ∀ x ∈ s.hashed, G x) (hn : NoCollision g.v G) (hser : SerInj g.v) :
    ∃ σ' H', CInv (g.ctx G K) (W.put p s F [] []) σ' H' ∧ ∀ x t L, H x t L → H' x t L := by
  have hbs : (base g.group p mem log cfg cl g.sm).Shaped (g.env r pa) := base_shaped hl hb hcl
  have hst := (new_steps hbs (by rw [hl.lastIdx]; exact hf) h)
  have hg0 : Grows σ (upd σ p (base g.group p mem log cfg cl g.sm) F) := grows_fresh (hi.inv.absent hp)
  have hok : NodeOk (g.ctx G K) (upd σ p (base g.group p mem log cfg cl g.sm) F) p (base g.group p mem log cfg cl g.sm) F :=
    base_ok (c := g.ctx G K) hbs hl hcl (hh.grows hg0) (hc.grows hg0) hm
  have t1 := hi.crown.fresh (s := base g.group p mem log cfg cl g.sm) (F := F) (hi.inv.absent hp) rfl rfl (by
    intro k d hk
    rcases hF with rfl | ⟨q, sq, Fq, q1, q2⟩
    · simp at hk
    · obtain ⟨x, this⟩ := hi.crown.hist q sq Fq q1 k d (prefix_get q2 hk)
      rw [prefix_take q2 (by have := (List.getElem?_eq_some_iff.mp hk).1; omega)] at this
      exact ⟨x, this⟩) ho
  have g0 : Crowned (g.ctx G K) (upd σ p (base g.group p mem log cfg cl g.sm) F) W.Sent H := by
    refine ⟨?_, t1⟩
    intro x sx Fx hx
    rcases upd_some hx with ⟨rfl, rfl, rfl⟩ | ⟨_, hx⟩
    · exact hok
    · exact (hi.inv.ok x sx Fx hx).grows hg0
  obtain ⟨F', H', k1, k2, k3⟩ := g0.steps (c := g.ctx G K) hn hser (upd_self _ _ _ _) (hst.env (g := g)) (fun frm m h => (by cases h))
    ⟨fun frm m h => (by cases h), fun i h => (by cases h)⟩ (fun q m h => (by cases h)) hG
  rw [upd_upd] at k1 k2
  refine ⟨_, H', ⟨hi.inv.put (k1.all _ _ _ (upd_self _ _ _ _)) (hg0.trans k2) ?_ (by simp), ?_⟩, k3⟩
  · have hm2 := hst.mono
    obtain ⟨_, _, e1, e2, e3, _⟩ := k2 p _ F (upd_self _ _ _ _)
    rw [upd_self] at e1
    cases e1
    have happ : (if cl then log.lastIdx else 0) = F.length := by
      rcases hcl with rfl | rfl
      · simpa using hl.lastIdx
      · rw [hl.lastIdx]; simp
    have hla : s.lastApplied = F.length := hm2.applied.trans happ
    have hpr : (base g.group p mem log cfg cl g.sm).promise = F.length := happ
    rw [hpr, List.take_length] at e3
    rw [hla]
    exact List.prefix_iff_eq_take.mp e3
  · refine k1.crown.rest ?_
    rintro frm m (⟨d, h1⟩ | h1)
    · rcases List.mem_append.mp h1 with h1 | h1
      · exact .inl ⟨d, h1⟩
      · cases h1
    · exact .inr h1

/-- A call that changes nothing the crown speaks of. -/
theorem CInv.still {c : Ctx P} {W : World P} {σ : St P} {H : P → Nat → List Entry → Prop} {p : P} {s s' : Node P} {F A : List Entry}
    {N : List (P × Option P × Msg)} {Q : List Inner} (hn : NoCollision c.v c.G) (hser : SerInj c.v) (hi : CInv c W σ H) (hp : σ p = some (s, F)) (ok' : NodeOk c σ p s' F)
    (hprom : s'.promise = s.promise) (ht : s'.term = s.term)
    (hr : s'.role = s.role) (hc : s'.cast = s.cast) (hl : s'.led = s.led) (hlog : s'.log = s.log)
    (hA : A = F.take s'.lastApplied) (hN : ∀ x ∈ N, x.1 = p ∧ (x.2.1, x.2.2) ∈ s.sendable)
    (hs : ∀ x ∈ s'.sendable, x ∈ s.sendable) :
    ∃ σ' H', CInv c (W.put p s' A N Q) σ' H' ∧ ∀ x t L, H x t L → H' x t L := by
  have ok := hi.inv.ok _ _ _ hp
  have hg : Grows σ (upd σ p s' F) := upd_grows hp (by rw [hprom]) (List.take_prefix _ _) (by rw [hc]) (by rw [hl])
  have tr1 : Crown c σ (W.put p s' A N Q).Sent H := by
    refine hi.crown.rest ?_
    rintro frm m (⟨d, h1⟩ | h1)
    · rcases List.mem_append.mp h1 with h1 | h1
      · exact .inl ⟨d, h1⟩
      · obtain ⟨e1, e2⟩ := hN _ h1
        simp only at e1 e2
        subst e1
        exact .inr ⟨s, F, d, hp, e2⟩
    · exact .inr h1
  obtain ⟨H', t1, t2⟩ := tr1.step (inp := .none) hn hser hi.inv.ok hp (.same (c := c) (inp := .none) (p := p) ht (.inl hr) hc hl hs (fun _ => hlog) rfl)
    (ok'.grows hg) hg (fun frm m h => (by cases h)) (fun h1 h2 => by rw [hr, h2] at h1; cases h1)
  refine ⟨_, H', ⟨hi.inv.put (ok'.grows hg) hg hA ?_, t1⟩, t2⟩
  intro x hx
  obtain ⟨e1, e2⟩ := hN x hx
  have := (ok.sends _ e2).grows hg
  rw [e1]
  exact this

/-- The invariant is kept. -/
theorem CInv.next {g : Setting P} {G : Bytes × Bytes → Prop} {K : Inner → Prop} {W W' : World P} {σ : St P} {H : P → Nat → List Entry → Prop}
    (h : Next g W W') (ho : Outside g W W')
    (hi : CInv (g.ctx G K) W σ H) (hG : ∀ p s, W'.node p = some s → ∀ x ∈ s.hashed, G x) (hK : ∀ i ∈ W'.asked, K i)
    (hn : NoCollision g.v G) (hser : SerInj g.v) : ∃ σ' H', CInv (g.ctx G K) W' σ' H' ∧ ∀ x t L, H x t L → H' x t L := by
  cases h with
  | start p s r pa mx cfg hp h =>
    exact CInv.fresh hi hp (logOf_new mx) (by simp [Log.new, Log.bytesOf]) (by decide) (.inr rfl) h (Hist.nil _ _) .nil rfl (.inl rfl) (fun K hK hne => absurd (List.prefix_nil.mp hK) hne)
      (hG p s (World.put_self ..)) hn hser
  | join p q s sq r pa log cfg hp hq ha hl hbb hf h =>
    obtain ⟨F, hF⟩ := hi.inv.get hq
    have ok := hi.inv.ok _ _ _ hF
    have hA := hi.inv.applied _ _ _ hF
    rw [ha] at hA
    refine CInv.fresh hi hp hl hbb hf (.inl rfl) h ?_ ?_ ?_ (.inr ⟨q, sq, F, hF, ?_⟩)
      (fun K hK => ho p hp (by rw [World.put_self]; simp) K (by rw [World.put_applied_self]; exact hK)) (hG p s (World.put_self ..)) hn hser
    · rw [hA]; exact ok.hist.take _
    · rw [hA]; exact ok.com
    · rw [hA]; exact ok.mems.mem
    · rw [hA]; exact List.take_prefix _ _
  | call p s s' op o r pa hp hd hf h =>
    obtain ⟨F, hF⟩ := hi.inv.get hp
    have ok := hi.inv.ok _ _ _ hF
    have hA := hi.inv.applied _ _ _ hF
    have hG' := hG p s' (World.put_self ..)
    rcases op.steps (v := g.env r pa) ok.shaped hf h with ⟨h1, h2, h3⟩ | ⟨i, e, _, rfl, h1, h2, h3, rfl⟩ | ⟨_, rfl, rfl⟩
    · have hin : InpOk (g.ctx G K) σ p op.input := by
        refine ⟨?_, ?_⟩
        · intro frm m hm
          cases op with
          | receive f m' =>
            cases hm
            obtain ⟨dst, d1, d2⟩ := hd
            exact ⟨dst, d2, hi.inv.net _ d1⟩
          | _ => cases hm
        · intro i hm
          cases op with
          | request i' =>
            cases hm
            exact hK _ (List.mem_append_right _ (List.mem_singleton.mpr rfl))
          | _ => cases hm
      have hnet : ∀ frm m, op.input = .msg frm m → W.Sent frm m := by
        intro frm m hm
        cases op with
        | receive f m' =>
          cases hm
          obtain ⟨dst, d1, _⟩ := hd
          exact ⟨dst, d1⟩
        | _ => cases hm
      obtain ⟨F', H', k1, k2, k3⟩ := hi.crowned.steps (c := g.ctx G K) hn hser hF (h1.env (g := g)) hnet hin (Op.fits_typed hf) hG'
      have ho : Obs.entries o = [] := by
        cases o with
        | committed r =>
          cases r with
          | none => rfl
          | some x => exact absurd rfl (h2 x)
        | _ => rfl
      have ho' : Obs.messages p o = [] := by
        cases o with
        | sent l => exact absurd rfl (h3 l)
        | _ => rfl
      refine ⟨_, H', ⟨hi.inv.put (k1.all _ _ _ (upd_self _ _ _ _)) k2 ?_ (by rw [ho']; simp), ?_⟩, k3⟩
      · obtain ⟨_, _, e1, e2, e3, _⟩ := k2 p _ F hF
        rw [upd_self] at e1
        cases e1
        rw [ho, List.append_nil, hA, h1.mono.applied]
        have a1 := ok.applied
        have a2 := ok.commit
        have a3 := ok.promise
        have e4 : F.take s.lastApplied <+: F' := (List.take_prefix_take_left (by omega)).trans e3
        have e5 := List.prefix_iff_eq_take.mp e4
        rw [List.length_take, Nat.min_eq_left (by omega)] at e5
        exact e5
      · refine k1.crown.rest ?_
        rintro frm m (⟨d, h1⟩ | h1)
        · rw [ho'] at h1
          rcases List.mem_append.mp h1 with h1 | h1
          · exact .inl ⟨d, h1⟩
          · cases h1
        · exact .inr h1
    · have hok : NodeOk (g.ctx G K) σ p { s with lastApplied := i } F :=
        { ok with
          shaped := Op.shaped (v := g.env r pa) ok.shaped hf h
          applied := h2
          voted := ok.voted.ofEq rfl rfl rfl
          mems := ⟨ok.mems.mem, ok.mems.unc⟩ }
      refine hi.still hn hser hF hok rfl rfl rfl rfl rfl rfl ?_ (by simp [Obs.messages]) (fun _ h => h)
      rw [hA]
      obtain ⟨_, _, _, h6⟩ := ok.log.at_some h3
      subst h1
      show F.take s.lastApplied ++ [e] = F.take (s.lastApplied + 1)
      rw [List.take_add_one]
      rw [Nat.add_sub_cancel] at h6
      rw [h6]
      rfl
    · have hok : NodeOk (g.ctx G K) σ p { s with sendable := [] } F :=
        { ok with
          voted := ok.voted.ofEq rfl rfl rfl
          mems := ⟨ok.mems.mem, ok.mems.unc⟩
          sends := by simp }
      refine hi.still hn hser hF hok rfl rfl rfl rfl rfl rfl ?_ ?_ (fun x h => (by cases h))
      · simp only [Obs.entries, List.append_nil]; exact hA
      · intro x hx
        simp only [Obs.messages, List.mem_map] at hx
        obtain ⟨y, hy, rfl⟩ := hx
        exact ⟨rfl, hy⟩

theorem CInv.future {g : Setting P} {W W' : World P} {σ : St P} {H : P → Nat → List Entry → Prop} (h : Tidy g W W') {G : Bytes × Bytes → Prop} {K : Inner → Prop}
    (hs : W.Shaped g) (hi : CInv (g.ctx G K) W σ H) (hG : ∀ x, W'.Hashed x → G x) (hK : ∀ i ∈ W'.asked, K i) (hn : NoCollision g.v G)
    (hser : SerInj g.v) : ∃ σ' H', CInv (g.ctx G K) W' σ' H' ∧ ∀ x t L, H x t L → H' x t L := by
  induction h with
  | now => exact ⟨σ, H, hi, fun _ _ _ h => h⟩
  | next a k ho ih =>
    have hle := k.le (a.future.shaped hs)
    obtain ⟨σ1, S1, h1, h2⟩ := ih (fun x hx => hG x (hle.hashed hx)) (fun i hi => hK i (hle.asked.subset hi))
    obtain ⟨σ2, S2, h3, h4⟩ := h1.next k ho (fun p s h x hx => hG x ⟨p, s, h, hx⟩) hK hn hser
    exact ⟨σ2, S2, h3, fun x t L hx => h4 x t L (h2 x t L hx)⟩

theorem Tidy.crown {g : Setting P} {W : World P} (h : Tidy g World.empty W) {G : Bytes × Bytes → Prop} {K : Inner → Prop}
    (hG : ∀ x, W.Hashed x → G x) (hK : ∀ i ∈ W.asked, K i) (hn : NoCollision g.v G) (hser : SerInj g.v) :
    ∃ σ H, CInv (g.ctx G K) W σ H := by
  have h0 : GInv (g.ctx G K) World.empty (fun _ => none) :=
    ⟨fun p => rfl, fun p s F h => (by cases h), fun p s F h => (by cases h), fun x h => (by cases h)⟩
  have t0 : CInv (g.ctx G K) World.empty (fun _ => none) (fun _ _ _ => False) := by
    refine ⟨h0, Crown.empty.rest ?_⟩
    rintro frm m (⟨d, h1⟩ | h1)
    · cases h1
    · exact .inr h1
  obtain ⟨σ, S, h1, _⟩ := t0.future h (fun p s h => (by cases h)) hG hK hn hser
  exact ⟨σ, S, h1⟩

end Svr.Raft
