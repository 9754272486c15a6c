import Verif.Raft.Moved

/-!
# What a quorum has in the term of its leader stays

`Tree` is an invariant of a group with fixed voters. `H t L` says that the leader of term `t` had the history `L` while it led; `S x t L`
says that `x` had `L`, at the start of its history, while it was in term `t`. Both only grow.
-/

namespace Svr.Raft
open Node
variable {P : Type} [LinearOrder P]

/-- `frm` sent `m`, or is about to; `R` has the messages sent. -/
def Sent (σ : St P) (R : P → Msg → Prop) (frm : P) (m : Msg) : Prop := R frm m ∨ ∃ s F d, σ frm = some (s, F) ∧ (d, m) ∈ s.sendable

/-- All of `Q` had `L` in term `T`, or are not beyond `T` yet. -/
def Held (σ : St P) (S : P → Nat → List Entry → Prop) (Q : List P) (T : Nat) (L : List Entry) : Prop :=
  ∀ x ∈ Q, S x T L ∨ ∀ s F, σ x = some (s, F) → s.term ≤ T

/-- What follows from `Held` by a quorum, when the last entry of `L` is of term `T`: who had `L` still has it; later leaders had it; and
candidates of later terms with the vote of one of the quorum have it. -/
structure Kept (σ : St P) (H : Nat → List Entry → Prop) (S : P → Nat → List Entry → Prop) (Q : List P) (T : Nat) (L : List Entry) : Prop where
  still : ∀ x s F, S x T L → σ x = some (s, F) → L <+: F
  full : ∀ t K, T < t → H t K → L <+: K
  cand : ∀ x U q s F, x ∈ Q → Cast σ x U q → T < U → σ q = some (s, F) → s.term = U → s.role = .candidate → L <+: F

structure Tree (c : Ctx P) (σ : St P) (R : P → Msg → Prop) (H : Nat → List Entry → Prop) (S : P → Nat → List Entry → Prop) : Prop where
  chain : ∀ t L, H t L → Chain c.v c.G L
  cmp : ∀ t L L', H t L → H t L' → L <+: L' ∨ L' <+: L
  made : ∀ t L, H t L → ∃ p s F m, σ p = some (s, F) ∧ (t, m) ∈ s.led
  sub : ∀ t L, H t L → ∀ (k : Nat) (d : Entry), L[k]? = some d → H d.term (L.take (k + 1)) ∧ d.term ≤ t
  hist : ∀ p s F, σ p = some (s, F) → ∀ (k : Nat) (d : Entry), F[k]? = some d → H d.term (F.take (k + 1))
  lead : ∀ p s F, σ p = some (s, F) → s.role = .leader → H s.term F ∧ ∀ L, H s.term L → L <+: F
  past : ∀ p s F, σ p = some (s, F) → ∀ t m, (t, m) ∈ s.led → t ≤ s.term ∧ (s.role = .candidate → t < s.term)
  req : ∀ frm m pi pt ph es cm a, Sent σ R frm m → m.body = .appReq pi pt ph es cm a →
    ∃ L, H m.term L ∧ ∀ (j : Nat) (d : Entry), es[j]? = some d → L[pi + j]? = some d
  told : ∀ frm m, Sent σ R frm m → ∃ s F, σ frm = some (s, F) ∧ m.term ≤ s.term
  ask : ∀ frm m i lt h s F, Sent σ R frm m → m.body = .voteReq i lt h → σ frm = some (s, F) → s.term = m.term → s.role = .candidate →
    i = s.log.lastIdx ∧ lt = s.log.lastTerm
  cast : ∀ x t q, Cast σ x t q → ∃ s F, σ q = some (s, F) ∧ t ≤ s.term
  old : ∀ p s F, σ p = some (s, F) → ∀ (k : Nat) (d : Entry), F[k]? = some d → s.term < d.term →
    ∃ Q, Quorate c.sm c.m0 Q ∧ ∀ x ∈ Q, (∃ q, Cast σ x d.term q) ∧ ¬ Cast σ x s.term p
  kept : ∀ x t L, S x t L → (∃ s F, σ x = some (s, F) ∧ t ≤ s.term) ∧ Chain c.v c.G L ∧ ∀ (k : Nat) (d : Entry), L[k]? = some d → H d.term (L.take (k + 1))
  down : ∀ x t L K, S x t L → K <+: L → S x t K
  now : ∀ x s F, σ x = some (s, F) → S x s.term F
  acks : ∀ y m mt l a h, Sent σ R y m → m.body = .appResp true mt l a h → 0 < mt → h.length = 32 →
    ∃ (L : List Entry) (o : Entry), S y m.term L ∧ L.length = mt ∧ L[mt - 1]? = some o ∧ o.hash = h
  rows : ∀ p s F, σ p = some (s, F) → s.role = .leader → ∀ y r, s.followers.find y = some r → 0 < r.mtch → S y s.term (F.take r.mtch)
  won : ∀ p s F, σ p = some (s, F) → s.role = .leader → ∀ (k : Nat) (d : Entry), k < s.commit → F[k]? = some d → d.term = s.term →
    ∃ Q, Quorate c.sm c.m0 Q ∧ ∀ x ∈ Q, S x s.term (F.take (k + 1))
  safe : ∀ (T : Nat) (L : List Entry) (d : Entry) (Q : List P), L.getLast? = some d → d.term = T → Quorate c.sm c.m0 Q → Held σ S Q T L → Kept σ H S Q T L

/-- What `Tree` needs of the group. -/
structure Firm (c : Ctx P) : Prop where
  wf : c.m0.Wf
  ne : c.m0.voting ≠ []
  len : c.m0.voting.length < 2 ^ 63
  sm : c.sm < 2 ^ 63
  same : SameVoters c

theorem Quorate.base {c : Ctx P} (hf : Firm c) {L : List Entry} {Q : List P} (hk : Kinds c L) (h : Quorate c.sm (memAt c.v c.m0 L) Q) :
    Quorate c.sm c.m0 Q := by
  have e := voters_fixed hf.same hk
  exact ⟨h.nodup, fun x hx => by rw [← e]; exact h.sub x hx, by rw [← e]; exact h.size⟩

theorem Elected.base {c : Ctx P} {σ : St P} {p : P} {t : Nat} {m : Membership P} (hf : Firm c) (h : Elected c σ p t m) :
    ∃ Q, Quorate c.sm c.m0 Q ∧ ∀ x ∈ Q, Cast σ x t p := by
  obtain ⟨Q, L, h1, h2, rfl, h4⟩ := h
  exact ⟨Q, h1.base hf h4.kinds, h2⟩

theorem Firm.common {c : Ctx P} (hf : Firm c) {Q Q' : List P} (h : Quorate c.sm c.m0 Q) (h' : Quorate c.sm c.m0 Q') : ∃ x, x ∈ Q ∧ x ∈ Q' :=
  common_voter hf.wf hf.wf rfl hf.ne hf.len hf.sm h h'

theorem upd_some {σ : St P} {p x : P} {s' sx : Node P} {F' Fx : List Entry} (h : upd σ p s' F' x = some (sx, Fx)) :
    (x = p ∧ sx = s' ∧ Fx = F') ∨ (x ≠ p ∧ σ x = some (sx, Fx)) := by
  by_cases e : x = p
  · subst e
    rw [upd_self] at h
    cases h
    exact .inl ⟨rfl, rfl, rfl⟩
  · rw [upd_other _ _ _ e] at h
    exact .inr ⟨e, h⟩

/-- The last entry of a history, and the last term of the log. -/
theorem LogOf.lastTerm {l : Log} {F : List Entry} (h : LogOf l F) :
    (F = [] ∧ l.lastTerm = 0) ∨ ∃ d, F[F.length - 1]? = some d ∧ F ≠ [] ∧ l.lastTerm = d.term := by
  have hl := h.lastIdx
  have hlen := h.len
  have hone := h.one
  unfold Log.lastTerm
  by_cases h0 : l.entries.length = 0
  · rw [if_pos h0]
    have := h.empty (List.eq_nil_of_length_eq_zero h0)
    exact .inl ⟨List.eq_nil_of_length_eq_zero (by omega), rfl⟩
  · rw [if_neg h0]
    right
    have hpos : 0 < F.length := by omega
    refine ⟨F[F.length - 1], List.getElem?_eq_getElem (by omega), fun e => by rw [e] at hpos; exact absurd hpos (by simp), ?_⟩
    unfold Log.termAt
    rw [hl, h.at? (by omega), List.getElem?_eq_getElem (by omega)]

theorem prefix_get {L K : List Entry} (h : L <+: K) {k : Nat} {d : Entry} (hk : L[k]? = some d) : K[k]? = some d := by
  obtain ⟨t, rfl⟩ := h
  rw [List.getElem?_append_left (List.getElem?_eq_some_iff.mp hk).1]
  exact hk

theorem prefix_get' {L K : List Entry} (h : L <+: K) {k : Nat} (hl : k < L.length) {d : Entry} (hk : K[k]? = some d) : L[k]? = some d := by
  obtain ⟨t, rfl⟩ := h
  rwa [List.getElem?_append_left hl] at hk

theorem prefix_take {L K : List Entry} (h : L <+: K) {k : Nat} (hk : k ≤ L.length) : K.take k = L.take k := by
  obtain ⟨t, rfl⟩ := h
  rw [List.take_append_of_le_length hk]

theorem getLast_get {L : List Entry} {d : Entry} (h : L.getLast? = some d) : 0 < L.length ∧ L[L.length - 1]? = some d := by
  rw [List.getLast?_eq_getElem?] at h
  refine ⟨?_, h⟩
  by_contra h0
  have : L = [] := List.eq_nil_of_length_eq_zero (by omega)
  rw [this] at h
  cases h

section
variable {c : Ctx P} {σ : St P} {R : P → Msg → Prop} {H : Nat → List Entry → Prop} {S : P → Nat → List Entry → Prop}

/-- Two leaders of one term are one. -/
theorem Tree.one (hf : Firm c) (all : ∀ x s F, σ x = some (s, F) → NodeOk c σ x s F) {p q : P} {s s1 : Node P} {F F1 : List Entry} {t : Nat}
    {m m1 : Membership P} (hp : σ p = some (s, F)) (hq : σ q = some (s1, F1)) (h : (t, m) ∈ s.led) (h1 : (t, m1) ∈ s1.led) : p = q :=
  Elected.unique hf.wf hf.ne hf.len hf.sm hf.same (fun x s F hx => (all x s F hx).voted) ((all p s F hp).led t m h) ((all q s1 F1 hq).led t m1 h1)

/-- The history that a vote request speaks of, compared with one that the voter has. -/
theorem Tree.upto {T : Nat} {L F Fq : List Entry} {d : Entry} {i lt lx : Nat} (hd : L.getLast? = some d) (ht : d.term = T)
    (hHL : H T L) (hcmp : ∀ t L L', H t L → H t L' → L <+: L' ∨ L' <+: L) (hsub : ∀ t L, H t L → ∀ (k : Nat) (d : Entry), L[k]? = some d → H d.term (L.take (k + 1)) ∧ d.term ≤ t)
    (hfull : ∀ t K, T < t → H t K → L <+: K)
    (hF : L <+: F) (hhF : ∀ (k : Nat) (d : Entry), F[k]? = some d → H d.term (F.take (k + 1))) (hq : ∀ (k : Nat) (d : Entry), Fq[k]? = some d → H d.term (Fq.take (k + 1)))
    (hi : i = Fq.length) (hlt : (Fq = [] ∧ lt = 0) ∨ ∃ e, Fq[Fq.length - 1]? = some e ∧ Fq ≠ [] ∧ lt = e.term)
    (hlx : (F = [] ∧ lx = 0) ∨ ∃ e, F[F.length - 1]? = some e ∧ F ≠ [] ∧ lx = e.term)
    (hu : lt > lx ∨ (lt = lx ∧ i ≥ F.length)) (hz : d.term ≠ 0) : L <+: Fq := by
  obtain ⟨hpos, hld⟩ := getLast_get hd
  have hlen := hF.length_le
  -- the voter's last term is not below `T`
  obtain ⟨e, he, hne, hex⟩ : ∃ e, F[F.length - 1]? = some e ∧ F ≠ [] ∧ lx = e.term := by
    rcases hlx with ⟨h0, _⟩ | h
    · rw [h0] at hlen; simp at hlen; rw [hlen] at hpos; simp at hpos
    · exact h
  have hHF := hhF _ _ he
  rw [show F.length - 1 + 1 = F.length by omega, List.take_length] at hHF
  have hTx : T ≤ lx := by
    have := (hsub _ _ hHF _ _ (prefix_get hF hld)).2
    rw [hex, ← ht]; exact this
  have hqne : lt ≠ 0 := by omega
  obtain ⟨o, ho, hqe, hol⟩ : ∃ e, Fq[Fq.length - 1]? = some e ∧ Fq ≠ [] ∧ lt = e.term := by
    rcases hlt with ⟨_, h0⟩ | h
    · exact absurd h0 hqne
    · exact h
  have hqpos : 0 < Fq.length := List.length_pos_of_ne_nil hqe
  have hHq := hq _ _ ho
  rw [show Fq.length - 1 + 1 = Fq.length by omega, List.take_length, ← hol] at hHq
  by_cases hgt : T < lt
  · exact hfull _ _ hgt hHq
  · have e1 : lt = T := by omega
    have e2 : lx = lt := by omega
    have hi' : F.length ≤ Fq.length := by
      rcases hu with hu | ⟨_, hu⟩
      · omega
      · omega
    rw [e1] at hHq
    rcases hcmp _ _ _ hHL hHq with h | h
    · exact h
    · have := h.length_le
      rw [h.eq_of_length (by omega)]

/-- The messages sent may change, if each was sent, or was about to be, before. -/
theorem Tree.rest {R' : P → Msg → Prop} (h : Tree c σ R H S) (hR : ∀ frm m, Sent σ R' frm m → Sent σ R frm m) : Tree c σ R' H S :=
  { h with
    req := fun frm m pi pt ph es cm a hs => h.req frm m pi pt ph es cm a (hR _ _ hs)
    told := fun frm m hs => h.told frm m (hR _ _ hs)
    ask := fun frm m i lt hh s F hs => h.ask frm m i lt hh s F (hR _ _ hs)
    acks := fun y m mt l a hh hs => h.acks y m mt l a hh (hR _ _ hs) }

theorem Tree.empty : Tree c (fun _ => none) (fun _ _ => False) (fun _ _ => False) (fun _ _ _ => False) := by
  have hs : ∀ frm m, ¬ Sent (fun _ => none) (fun _ _ => False) frm m (P := P) := by
    rintro frm m (h | ⟨_, _, _, h, _⟩)
    · exact h
    · cases h
  refine ⟨fun _ _ h => h.elim, fun _ _ _ h => h.elim, fun _ _ h => h.elim, fun _ _ h => h.elim, fun _ _ _ h => (by cases h), fun _ _ _ h => (by cases h),
    fun _ _ _ h => (by cases h), fun _ _ _ _ _ _ _ _ h => absurd h (hs _ _), fun _ _ h => absurd h (hs _ _), fun _ _ _ _ _ _ _ h => absurd h (hs _ _), ?_,
    fun _ _ _ h => (by cases h), fun _ _ _ h => h.elim, fun _ _ _ _ h => h.elim, fun _ _ _ h => (by cases h), fun _ _ _ _ _ _ h => absurd h (hs _ _),
    fun _ _ _ h => (by cases h), fun _ _ _ h => (by cases h), ?_⟩
  · rintro x t q ⟨_, _, h, _⟩
    cases h
  · intro T L d Q _ _ _ _
    exact ⟨fun _ _ _ h => h.elim, fun _ _ _ h => h.elim, fun _ _ _ _ _ _ _ _ h => (by cases h)⟩

/-- One step of a replica. -/
theorem Tree.step {inp : Inp P} {p : P} {s s' : Node P} {F F' : List Entry} (hf : Firm c) (hn : NoCollision c.v c.G) (hser : SerInj c.v)
    (h : Tree c σ R H S) (all : ∀ x s F, σ x = some (s, F) → NodeOk c σ x s F) (hp : σ p = some (s, F)) (mv : Moved c inp p s s' F F')
    (ok' : NodeOk c (upd σ p s' F') p s' F') (hg : Grows σ (upd σ p s' F')) (hin : ∀ frm m, inp = .msg frm m → R frm m)
    (hrow : s'.role = .leader → ∀ y r, s'.followers.find y = some r → 0 < r.mtch → S y s'.term (F'.take r.mtch))
    (hwon : s'.role = .leader → ∀ (k : Nat) (d : Entry), k < s'.commit → F'[k]? = some d → d.term = s'.term →
      ∃ Q, Quorate c.sm c.m0 Q ∧ ∀ x ∈ Q, S x s'.term (F'.take (k + 1))) :
    ∃ H' S', Tree c (upd σ p s' F') R H' S' ∧ ∀ x t L, S x t L → S' x t L := by
  have ok := all p s F hp
  have hself : upd σ p s' F' p = some (s', F') := upd_self _ _ _ _
  have all' : ∀ x sx Fx, upd σ p s' F' x = some (sx, Fx) → NodeOk c (upd σ p s' F') x sx Fx := by
    intro x sx Fx hx
    rcases upd_some hx with ⟨rfl, rfl, rfl⟩ | ⟨_, hx⟩
    · exact ok'
    · exact (all x sx Fx hx).grows hg
  -- every replica is still there, and in no earlier term
  have later : ∀ x sx Fx, σ x = some (sx, Fx) → ∃ sy Fy, upd σ p s' F' x = some (sy, Fy) ∧ sx.term ≤ sy.term ∧ sx.led <+: sy.led := by
    intro x sx Fx hx
    by_cases e : x = p
    · subst e
      rw [hp] at hx
      cases hx
      obtain ⟨_, _, e1, _, _, _, e5⟩ := hg x s F hp
      rw [hself] at e1
      cases e1
      exact ⟨s', F', hself, mv.term, e5⟩
    · exact ⟨sx, Fx, by rw [upd_other _ _ _ e]; exact hx, le_rfl, List.prefix_rfl⟩
  have made' : ∀ t, (∃ q s F m, σ q = some (s, F) ∧ (t, m) ∈ s.led) → ∃ q s F m, upd σ p s' F' q = some (s, F) ∧ (t, m) ∈ s.led := by
    rintro t ⟨q, sq, Fq, m, a1, a2⟩
    obtain ⟨sy, Fy, b1, _, b3⟩ := later q sq Fq a1
    exact ⟨q, sy, Fy, m, b1, b3.subset a2⟩
  -- nobody led the term of a candidate that becomes leader
  have nobody : s'.role = .leader → s.role = .candidate → ∀ L, ¬ H s.term L := by
    intro hr hc L hL
    obtain ⟨q, sq, Fq, m, a1, a2⟩ := h.made _ _ hL
    obtain ⟨m', hm'⟩ := ok'.leads hr
    rw [(mv.leader hr).1] at hm'
    obtain ⟨sy, Fy, b1, _, b3⟩ := later q sq Fq a1
    have e := Tree.one hf all' b1 hself (b3.subset a2) hm'
    subst e
    rw [hp] at a1
    cases a1
    exact absurd ((h.past _ _ _ hp _ _ a2).2 hc) (lt_irrefl _)
  have top : s'.role = .leader → ∀ L, H s'.term L → L <+: F' := by
    intro hr L hL
    obtain ⟨e1, e2, e3⟩ := mv.leader hr
    rw [e1] at hL
    rcases e3 with ⟨e3, _⟩ | ⟨e3, _⟩
    · exact ((h.lead _ _ _ hp e3).2 L hL).trans e2
    · exact absurd hL (nobody hr e3 L)
  -- casts
  have casts : ∀ x t q, Cast (upd σ p s' F') x t q → Cast σ x t q ∨ (x = p ∧ t = s'.term ∧ F' = F ∧ ((s'.term = s.term + 1 ∧ q = p) ∨ (s'.term = s.term ∧
      ∃ i lt h g, inp = .msg q ⟨g, s.term, .voteReq i lt h⟩ ∧ (lt > s.log.lastTerm ∨ (lt = s.log.lastTerm ∧ i ≥ s.log.lastIdx))))) := by
    rintro x t q ⟨sx, Fx, a1, a2⟩
    rcases upd_some a1 with ⟨rfl, rfl, rfl⟩ | ⟨_, a1⟩
    · rcases mv.cast t q a2 with a3 | a3
      · exact .inl ⟨s, F, hp, a3⟩
      · exact .inr ⟨rfl, a3⟩
    · exact .inl ⟨sx, Fx, a1, a2⟩
  have castLe : ∀ t q, Cast σ p t q → t ≤ s.term := by
    rintro t q ⟨sx, Fx, a1, a2⟩
    rw [hp] at a1
    cases a1
    exact ok.voted.le t q a2
  -- the quorum that elected the new leader
  have elect : s'.role = .leader → s.role = .candidate → ∃ Q, Quorate c.sm c.m0 Q ∧ ∀ x ∈ Q, Cast σ x s.term p := by
    intro hr hc
    obtain ⟨e1, _, e3⟩ := mv.leader hr
    obtain ⟨m', hm'⟩ := ok'.leads hr
    obtain ⟨Q, q1, q2⟩ := (ok'.led _ _ hm').base hf
    refine ⟨Q, q1, fun x hx => ?_⟩
    obtain ⟨sx, Fx, a1, a2⟩ := q2 x hx
    rw [e1] at a2
    rcases upd_some a1 with ⟨rfl, rfl, rfl⟩ | ⟨_, a1⟩
    · rcases e3 with ⟨e3, _⟩ | ⟨_, _, e3⟩
      · rw [hc] at e3; cases e3
      · exact ⟨s, F, hp, by rw [← e3]; exact a2⟩
    · exact ⟨sx, Fx, a1, a2⟩
  -- messages
  have sents : ∀ frm m, Sent (upd σ p s' F') R frm m → Sent σ R frm m ∨ (frm = p ∧ ∃ d, SendOk s d m ∧ s'.term = s.term ∧ s'.role = s.role ∧
      s'.log = s.log ∧ F' = F) := by
    rintro frm m (h1 | ⟨sx, Fx, d, h1, h2⟩)
    · exact .inl (.inl h1)
    · rcases upd_some h1 with ⟨rfl, rfl, rfl⟩ | ⟨_, h1⟩
      · rcases mv.sent d m h2 with h3 | h3
        · exact .inl (.inr ⟨s, F, d, hp, h3⟩)
        · exact .inr ⟨rfl, d, h3⟩
      · exact .inl (.inr ⟨sx, Fx, d, h1, h2⟩)
  have fill : ∀ frm m, inp = .msg frm m → ∀ pi pt ph es cm a, m.body = .appReq pi pt ph es cm a →
      ∃ L, H m.term L ∧ ∀ (j : Nat) (d : Entry), es[j]? = some d → L[pi + j]? = some d :=
    fun frm m hi pi pt ph es cm a hb => h.req frm m pi pt ph es cm a (.inl (hin frm m hi)) hb
  -- where an entry of the new history comes from
  have entry : ∀ (k : Nat) (d : Entry), F'[k]? = some d → (F[k]? = some d ∧ F'.take (k + 1) = F.take (k + 1)) ∨
      (F'.take (k + 1) = F' ∧ s'.role = .leader ∧ d.term = s'.term) ∨ (s'.term = s.term ∧ H d.term (F'.take (k + 1)) ∧ d.term ≤ s.term) := by
    intro k d hk
    rcases mv.hist with e | ⟨e, e1, e2, et, e3⟩ | ⟨n, e1, et, _⟩
    · rw [e] at hk ⊢
      exact .inl ⟨hk, rfl⟩
    · rw [e1] at hk
      by_cases hlt : k < F.length
      · rw [List.getElem?_append_left hlt] at hk
        exact .inl ⟨hk, by rw [e1, List.take_append_of_le_length (by omega)]⟩
      · have hk' := (List.getElem?_eq_some_iff.mp hk).1
        rw [List.length_append, List.length_singleton] at hk'
        have hkF : k = F.length := by omega
        subst hkF
        rw [List.getElem?_append_right le_rfl, Nat.sub_self] at hk
        cases (Option.some.inj hk)
        have hall : (F ++ [d]).take (F.length + 1) = F ++ [d] := List.take_of_length_le (by simp)
        rcases e3 with ⟨e3, e4, e5⟩ | ⟨frm, g, pi, pt, ph, es, cm, a, e3, e4, e5⟩
        · exact .inr (.inl ⟨by rw [e1]; exact hall, e4, by rw [et]; exact e5⟩)
        · obtain ⟨L, l1, l2⟩ := fill _ _ e3 _ _ _ _ _ _ rfl
          have l3 := l2 _ _ e5
          rw [show pi + (F.length - pi) = F.length by omega] at l3
          have l4 := next_entry ok hn hser (h.chain _ _ l1) e2 l3
          obtain ⟨l5, l6⟩ := h.sub _ _ l1 _ _ l3
          exact .inr (.inr ⟨et, by rw [e1, hall, l4]; exact l5, l6⟩)
    · rw [e1] at hk ⊢
      rw [List.getElem?_take] at hk
      split at hk
      · rename_i hlt
        exact .inl ⟨hk, by rw [List.take_take, Nat.min_eq_left (by omega)]⟩
      · cases hk
  -- the new relations
  let H' : Nat → List Entry → Prop := fun t L => H t L ∨ (s'.role = .leader ∧ t = s'.term ∧ L = F')
  let S' : P → Nat → List Entry → Prop := fun x t L => S x t L ∨ (x = p ∧ t = s'.term ∧ L <+: F')
  have hist' : ∀ (k : Nat) (d : Entry), F'[k]? = some d → H' d.term (F'.take (k + 1)) := by
    intro k d hk
    rcases entry k d hk with ⟨a1, a2⟩ | ⟨a1, a2, a3⟩ | ⟨_, a1, _⟩
    · rw [a2]; exact .inl (h.hist _ _ _ hp k d a1)
    · exact .inr ⟨a2, a3, a1⟩
    · exact .inl a1
  have hist1 : ∀ K, K <+: F' → ∀ (k : Nat) (d : Entry), K[k]? = some d → H' d.term (K.take (k + 1)) := by
    intro K hK k d hk
    have := hist' k d (prefix_get hK hk)
    rwa [prefix_take hK (by have := (List.getElem?_eq_some_iff.mp hk).1; omega)] at this
  have termLe : s'.role = .leader → ∀ (k : Nat) (d : Entry), F'[k]? = some d → d.term ≤ s'.term := by
    intro hr k d hk
    obtain ⟨e1, _, e3⟩ := mv.leader hr
    rcases entry k d hk with ⟨a1, a2⟩ | ⟨_, _, a3⟩ | ⟨a1, _, a3⟩
    · rcases e3 with ⟨e3, _⟩ | ⟨e3, _, _⟩
      · rw [e1]; exact (h.sub _ _ (h.lead _ _ _ hp e3).1 k d a1).2
      · rw [e1]
        by_contra hlt
        obtain ⟨Q, q1, q2⟩ := h.old _ _ _ hp k d a1 (by omega)
        obtain ⟨Q2, q3, q4⟩ := elect hr e3
        obtain ⟨x, x1, x2⟩ := hf.common q1 q3
        exact (q2 x x1).2 (q4 x x2)
    · omega
    · omega
  refine ⟨H', S', ?_, fun _ _ _ hs => .inl hs⟩
  refine ⟨?_, ?_, ?_, ?_, ?_, ?_, ?_, ?_, ?_, ?_, ?_, ?_, ?_, ?_, ?_, ?_, ?_, ?_, ?_⟩
  · -- chain
    rintro t L (h1 | ⟨_, _, rfl⟩)
    · exact h.chain t L h1
    · exact ok'.chain
  · -- cmp
    rintro t L L' (h1 | ⟨r1, t1, rfl⟩) (h2 | ⟨r2, t2, rfl⟩)
    · exact h.cmp t L L' h1 h2
    · rw [t2] at h1; exact .inl (top r2 L h1)
    · rw [t1] at h2; exact .inr (top r1 L' h2)
    · exact .inl List.prefix_rfl
  · -- made
    rintro t L (h1 | ⟨r1, rfl, rfl⟩)
    · exact made' t (h.made t L h1)
    · obtain ⟨m, hm⟩ := ok'.leads r1
      exact ⟨p, s', L, m, hself, hm⟩
  · -- sub
    rintro t L (h1 | ⟨r1, rfl, rfl⟩) k d hk
    · obtain ⟨a, b⟩ := h.sub t L h1 k d hk
      exact ⟨.inl a, b⟩
    · exact ⟨hist' k d hk, termLe r1 k d hk⟩
  · -- hist
    intro x sx Fx hx k d hk
    rcases upd_some hx with ⟨rfl, rfl, rfl⟩ | ⟨_, hx⟩
    · exact hist' k d hk
    · exact .inl (h.hist x sx Fx hx k d hk)
  · -- lead
    intro x sx Fx hx hr
    rcases upd_some hx with ⟨rfl, rfl, rfl⟩ | ⟨hne, hx0⟩
    · refine ⟨.inr ⟨hr, rfl, rfl⟩, ?_⟩
      rintro L (hL | ⟨_, _, rfl⟩)
      · exact top hr L hL
      · exact List.prefix_rfl
    · obtain ⟨a, b⟩ := h.lead x sx Fx hx0 hr
      refine ⟨.inl a, ?_⟩
      rintro L (hL | ⟨r1, t1, rfl⟩)
      · exact b L hL
      · exfalso
        obtain ⟨m, hm⟩ := ok'.leads r1
        obtain ⟨m2, hm2⟩ := (all x sx Fx hx0).leads hr
        rw [t1] at hm2
        exact hne (Tree.one hf all' hx hself hm2 hm)
  · -- past
    intro x sx Fx hx t m hm
    rcases upd_some hx with ⟨rfl, rfl, rfl⟩ | ⟨_, hx⟩
    · rcases mv.led t m hm with h1 | ⟨h1, h2, h3⟩
      · obtain ⟨a, b⟩ := h.past _ _ _ hp t m h1
        refine ⟨a.trans mv.term, fun hc => ?_⟩
        rcases (mv.cand hc).2 with ⟨c1, c2, _⟩ | c2
        · have := b c1; omega
        · omega
      · exact ⟨by omega, fun hc => by rw [hc] at h3; cases h3⟩
    · exact h.past x sx Fx hx t m hm
  · -- req
    intro frm m pi pt ph es cm a hs hb
    rcases sents frm m hs with h1 | ⟨rfl, d, hso, _⟩
    · obtain ⟨L, l1, l2⟩ := h.req frm m pi pt ph es cm a h1 hb
      exact ⟨L, .inl l1, l2⟩
    · obtain ⟨_, e1, e2⟩ := hso
      rw [hb] at e2
      refine ⟨F, .inl (by rw [e1]; exact (h.lead _ _ _ hp e2.1).1), ?_⟩
      intro j d hj
      obtain ⟨b1, _, _, b4⟩ := ok.log.at_some (e2.2.2.1 j d hj)
      rwa [show pi + 1 + j - 1 = pi + j by omega] at b4
  · -- told
    intro frm m hs
    rcases sents frm m hs with h1 | ⟨rfl, d, hso, e1, _⟩
    · obtain ⟨sx, Fx, a1, a2⟩ := h.told frm m h1
      obtain ⟨sy, Fy, b1, b2, _⟩ := later frm sx Fx a1
      exact ⟨sy, Fy, b1, a2.trans b2⟩
    · exact ⟨s', F', hself, by rw [hso.2.1, e1]⟩
  · -- ask
    intro frm m i lt hh sx Fx hs hb hx ht hc
    rcases upd_some hx with ⟨rfl, rfl, rfl⟩ | ⟨hne, hx0⟩
    · rcases sents frm m hs with h1 | ⟨_, d, hso, e1, e2, e3, _⟩
      · rcases (mv.cand hc).2 with ⟨c1, c2, c3⟩ | c2
        · have := h.ask frm m i lt hh s F h1 hb hp (by rw [← c2]; exact ht) c1
          rw [c3]; exact this
        · obtain ⟨sy, Fy, a1, a2⟩ := h.told frm m h1
          rw [hp] at a1
          cases a1
          omega
      · obtain ⟨_, _, e4⟩ := hso
        rw [hb] at e4
        rw [e3]
        exact ⟨e4.2.1, e4.2.2.1⟩
    · rcases sents frm m hs with h1 | ⟨e, _⟩
      · exact h.ask frm m i lt hh sx Fx h1 hb hx0 ht hc
      · exact absurd e hne
  · -- cast
    intro x t q hc
    rcases casts x t q hc with h1 | ⟨_, h2, _, h3⟩
    · obtain ⟨sx, Fx, a1, a2⟩ := h.cast x t q h1
      obtain ⟨sy, Fy, b1, b2, _⟩ := later q sx Fx a1
      exact ⟨sy, Fy, b1, a2.trans b2⟩
    · rcases h3 with ⟨h3, rfl⟩ | ⟨h3, i, lt, hh, g, h4, _⟩
      · exact ⟨s', F', hself, by omega⟩
      · obtain ⟨sx, Fx, a1, a2⟩ := h.told _ _ (.inl (hin _ _ h4))
        obtain ⟨sy, Fy, b1, b2, _⟩ := later q sx Fx a1
        exact ⟨sy, Fy, b1, by rw [h2, h3]; exact le_trans a2 b2⟩
  · -- old
    intro x sx Fx hx k d hk hlt
    have key : ∃ sx0 Fx0, σ x = some (sx0, Fx0) ∧ Fx0[k]? = some d ∧ sx0.term ≤ sx.term := by
      rcases upd_some hx with ⟨rfl, rfl, rfl⟩ | ⟨_, hx0⟩
      · rcases entry k d hk with ⟨a1, _⟩ | ⟨_, _, a3⟩ | ⟨a1, _, a3⟩
        · exact ⟨s, F, hp, a1, mv.term⟩
        · omega
        · omega
      · exact ⟨sx, Fx, hx0, hk, le_rfl⟩
    obtain ⟨sx0, Fx0, b1, b2, b3⟩ := key
    obtain ⟨Q, q1, q2⟩ := h.old x sx0 Fx0 b1 k d b2 (by omega)
    refine ⟨Q, q1, fun y hy => ?_⟩
    obtain ⟨⟨q, hq⟩, hno⟩ := q2 y hy
    refine ⟨⟨q, hq.grows hg⟩, fun hc => ?_⟩
    rcases casts _ _ _ hc with h1 | ⟨rfl, h2, _, h3⟩
    · obtain ⟨sz, Fz, z1, z2⟩ := h.cast _ _ _ h1
      rw [b1] at z1
      cases z1
      have : sx.term = sx0.term := by omega
      rw [this] at h1
      exact hno h1
    · have := castLe _ _ hq
      have := mv.term
      omega
  · -- kept
    rintro x t L (h1 | ⟨rfl, rfl, h1⟩)
    · obtain ⟨⟨sx, Fx, a1, a2⟩, a3, a4⟩ := h.kept x t L h1
      obtain ⟨sy, Fy, b1, b2, _⟩ := later x sx Fx a1
      exact ⟨⟨sy, Fy, b1, a2.trans b2⟩, a3, fun k d hk => .inl (a4 k d hk)⟩
    · exact ⟨⟨s', F', hself, le_rfl⟩, ok'.chain.prefix h1, hist1 L h1⟩
  · -- down
    rintro x t L K (h1 | ⟨rfl, rfl, h1⟩) hK
    · exact .inl (h.down x t L K h1 hK)
    · exact .inr ⟨rfl, rfl, hK.trans h1⟩
  · -- now
    intro x sx Fx hx
    rcases upd_some hx with ⟨rfl, rfl, rfl⟩ | ⟨_, hx0⟩
    · exact .inr ⟨rfl, rfl, List.prefix_rfl⟩
    · exact .inl (h.now x sx Fx hx0)
  · -- acks
    intro y m mt l a hh hs hb hpos hlen
    rcases sents y m hs with h1 | ⟨rfl, d, hso, _⟩
    · obtain ⟨L, o, l1, l2⟩ := h.acks y m mt l a hh h1 hb hpos hlen
      exact ⟨L, o, .inl l1, l2⟩
    · obtain ⟨_, e1, e2⟩ := hso
      rw [hb] at e2
      obtain ⟨_, _, e3⟩ := e2.2 rfl
      unfold hashOr at e3
      cases ho : s.log.at? mt with
      | none => rw [ho] at e3; rw [e3] at hlen; cases hlen
      | some o =>
        rw [ho] at e3
        obtain ⟨b1, _, b3, b4⟩ := ok.log.at_some ho
        refine ⟨F.take mt, o, .inl (by rw [e1]; exact h.down _ _ _ _ (h.now _ _ _ hp) (List.take_prefix _ _)), by rw [List.length_take]; omega, ?_, e3.symm⟩
        rw [List.getElem?_take, if_pos (by omega)]
        exact b4
  · -- rows
    intro x sx Fx hx hr y r hy hpos
    rcases upd_some hx with ⟨rfl, rfl, rfl⟩ | ⟨_, hx0⟩
    · exact .inl (hrow hr y r hy hpos)
    · exact .inl (h.rows x sx Fx hx0 hr y r hy hpos)
  · -- won
    intro x sx Fx hx hr k d hk hd ht
    rcases upd_some hx with ⟨rfl, rfl, rfl⟩ | ⟨_, hx0⟩
    · obtain ⟨Q, q1, q2⟩ := hwon hr k d hk hd ht
      exact ⟨Q, q1, fun y hy => .inl (q2 y hy)⟩
    · obtain ⟨Q, q1, q2⟩ := h.won x sx Fx hx0 hr k d hk hd ht
      exact ⟨Q, q1, fun y hy => .inl (q2 y hy)⟩
  · -- safe
    intro T L d Q hd ht hQ hheld
    have hheld0 : Held σ S Q T L := by
      intro x hx
      rcases hheld x hx with (h1 | ⟨rfl, h1, _⟩) | h1
      · exact .inl h1
      · right
        intro sx Fx hx0
        rw [hp] at hx0
        cases hx0
        rw [h1]; exact mv.term
      · right
        intro sx Fx hx0
        obtain ⟨sy, Fy, b1, b2, _⟩ := later x sx Fx hx0
        exact b2.trans (h1 _ _ b1)
    obtain ⟨still, full, cand⟩ := h.safe T L d Q hd ht hQ hheld0
    obtain ⟨hpos, hld⟩ := getLast_get hd
    have hHL : ∀ x, S x T L → H T L := by
      intro x hx
      have := (h.kept x T L hx).2.2 _ _ hld
      rw [show L.length - 1 + 1 = L.length by omega, List.take_length, ht] at this
      exact this
    refine ⟨?_, ?_, ?_⟩
    · -- still
      rintro x sx Fx (h1 | ⟨rfl, h1, h2⟩) hx
      · rcases upd_some hx with ⟨rfl, rfl, rfl⟩ | ⟨_, hx0⟩
        · have hLF := still x s F h1 hp
          rcases mv.hist with e | ⟨e, e1, _⟩ | ⟨n, e1, _, frm, g, pi, pt, ph, es, cm, a, o, d', m1, m2, m3, m4, m5⟩
          · rw [e]; exact hLF
          · rw [e1]; exact hLF.trans (List.prefix_append _ _)
          · rw [e1]
            by_cases hle : L.length ≤ n
            · exact List.prefix_take_iff.mpr ⟨hLF, hle⟩
            exfalso
            obtain ⟨K, k1, k2⟩ := fill _ _ m1 _ _ _ _ _ _ rfl
            have k1 : H s.term K := k1
            have k3 := k2 _ _ m3
            rw [show pi + (n - pi) = n by omega] at k3
            have hLo := prefix_get' hLF (by omega) m4
            obtain ⟨⟨sy, Fy, y1, y2⟩, _, _⟩ := h.kept x T L h1
            rw [hp] at y1
            cases y1
            have hKo : K[n]? = some o := by
              by_cases hgt : T < s.term
              · exact prefix_get (full _ _ hgt k1) hLo
              · have e4 : s.term = T := by omega
                rw [e4] at k1
                rcases h.cmp _ _ _ (hHL x h1) k1 with h5 | h5
                · exact prefix_get h5 hLo
                · have := (List.getElem?_eq_some_iff.mp k3).1
                  exact prefix_get' h5 this hLo
            rw [hKo] at k3
            cases k3
            exact m5 rfl
        · exact still x sx Fx h1 hx0
      · rw [hself] at hx
        cases hx
        exact h2
    · -- full
      rintro t K hlt (h1 | ⟨r1, rfl, rfl⟩)
      · exact full t K hlt h1
      · obtain ⟨e1, e2, e3⟩ := mv.leader r1
        rw [e1] at hlt
        rcases e3 with ⟨e3, _⟩ | ⟨e3, e4, _⟩
        · exact (full _ _ hlt (h.lead _ _ _ hp e3).1).trans e2
        · obtain ⟨Q2, q3, q4⟩ := elect r1 e3
          obtain ⟨x, x1, x2⟩ := hf.common hQ q3
          exact (cand x s.term p s F x1 (q4 x x2) hlt hp rfl e3).trans e2
    · -- cand
      intro x U q sq Fq hx hc hlt hq hU hrole
      rcases casts x U q hc with h1 | ⟨rfl, h2, hF, h3⟩
      · rcases upd_some hq with ⟨rfl, rfl, rfl⟩ | ⟨_, hq0⟩
        · obtain ⟨c1, ⟨c2, c3, _⟩ | c3⟩ := mv.cand hrole
          · rw [c1]
            exact cand x U q s F hx h1 hlt hp (by omega) c2
          · exfalso
            obtain ⟨sy, Fy, y1, y2⟩ := h.cast _ _ _ h1
            rw [hp] at y1
            cases y1
            omega
        · exact cand x U q sq Fq hx h1 hlt hq0 hU hrole
      · have hSx : S x T L := by
          rcases hheld x hx with (h4 | ⟨_, h4, _⟩) | h4
          · exact h4
          · omega
          · have := h4 _ _ hself
            omega
        have hLF := still x s F hSx hp
        rcases upd_some hq with ⟨rfl, rfl, rfl⟩ | ⟨hqn, hq0⟩
        · rw [hF]; exact hLF
        · rcases h3 with ⟨_, h3⟩ | ⟨h3, i, lt, hh, g, h4, h5⟩
          · exact absurd h3 hqn
          · obtain ⟨a1, a2⟩ := h.ask q _ i lt hh sq Fq (.inl (hin _ _ h4)) rfl hq0 (by rw [hU, h2, h3]) hrole
            have okq := all q sq Fq hq0
            rw [ok.log.lastIdx] at h5
            refine Tree.upto hd ht (hHL x hSx) h.cmp h.sub full hLF (h.hist _ _ _ hp) (h.hist _ _ _ hq0) (by rw [a1, okq.log.lastIdx])
              (by rw [a2]; exact okq.log.lastTerm) ok.log.lastTerm h5 ?_
            exact ((h.kept x T L hSx).2.1 _ _ hld).term

/-- The leader's table. -/
theorem Node.Atom.treeRows {inp : Inp P} {p : P} {s s' : Node P} {F F' : List Entry} (hn : NoCollision c.v c.G) (hser : SerInj c.v)
    (k : Atom c.v inp s s') (h : Tree c σ R H S) (ok : NodeOk c σ p s F) (hp : σ p = some (s, F)) (hin : ∀ frm m, inp = .msg frm m → R frm m)
    (hpre : s'.role = .leader → s'.term = s.term ∧ F <+: F') :
    s'.role = .leader → ∀ y r, s'.followers.find y = some r → 0 < r.mtch → S y s'.term (F'.take r.mtch) := by
  intro hr
  obtain ⟨ht, hF⟩ := hpre hr
  rw [ht]
  have same : s.role = .leader → ∀ y (r r' : Repl), s.followers.find y = some r → r'.mtch = r.mtch → 0 < r'.mtch → S y s.term (F'.take r'.mtch) := by
    intro hl y r r' hf he hpos
    rw [he] at hpos ⊢
    rw [prefix_take hF (ok.rows hl y r hf).len]
    exact h.rows _ _ _ hp hl y r hf hpos
  have keep : s'.role = s.role → s'.followers = s.followers →
      ∀ y r, s'.followers.find y = some r → 0 < r.mtch → S y s.term (F'.take r.mtch) := by
    intro h1 h2 y r hf hpos
    rw [h2] at hf
    exact same (by rw [← h1]; exact hr) y r r hf rfl hpos
  cases k with
  | table f hx =>
    intro y r hf hpos
    obtain ⟨h1, h2⟩ := hx y
    cases h0 : s.followers.find y with
    | none =>
      have := h1 h0
      simp only at hf
      rw [this] at hf; cases hf
    | some r0 =>
      obtain ⟨r', h3, h4, h5⟩ := h2 r0 h0
      simp only at hf
      rw [h3] at hf
      cases hf
      exact same hr y r0 r h0 h4 hpos
  | demote => cases hr
  | raise => cases hr
  | campaign => cases hr
  | lead hr hq =>
    intro y r hf hpos
    have := fold_rows (σ := σ) (F := []) (p := p) _ (by
      intro fs q y r h2
      split at h2
      · exact .inl h2
      · rename_i hq
        rw [OMap.find_insert] at h2
        split at h2
        · rename_i e
          cases h2
          exact .inr ⟨by rw [← e, ← ok.me]; exact hq, rfl, rfl⟩
        · exact .inl h2) s.membership.all OMap.empty y r hf
    rcases this with h1 | h1
    · cases h1
    · have := h1.len
      simp only [List.length_nil] at this
      omega
  | append _ e r' hh hm hw hx =>
    rcases logAppend_eq hx with ⟨h1, _⟩ | ⟨l, er, _, h1, _⟩ | ⟨l, _, _, h2⟩
    · exact keep (by rw [h1]) (by rw [h1])
    · exact keep (by rw [h1]) (by rw [h1])
    · rcases h2 with ⟨h1, _⟩ | ⟨g, m, _, _, h4⟩
      · exact keep (by rw [h1]) (by rw [h1])
      · obtain ⟨h5, f, h6⟩ := addUncommitted_eq h4
        intro y r hf hpos
        have hrole : s.role = .leader := by rw [h6] at hr; exact hr
        rw [h5] at hf
        rcases handleMembershipChange_rows (σ := σ) (F := []) (p := p)
          (s := ({ s with log := l, uncommitted := s.uncommitted ++ [(l.lastIdx, m)] } : Node P)) ok.me hf with h7 | h7
        · exact same hrole y r r h7 rfl hpos
        · have := h7.len
          simp only [List.length_nil] at this
          omega
  | cut idx hr0 hc hp ht =>
    obtain ⟨u, m, f, h1⟩ := maybeChangeUncommitted_eq ({ s with log := (s.log.cancelFrom idx).1 } : Node P)
    rw [h1] at hr
    exact absurd hr (fun h => leader_follower h hr0)
  | advance _ hl hx =>
    intro y r hf hpos
    obtain ⟨np, nc, _, _, s1, h1, h2⟩ := maybeAdvance_eq hl hx
    have key : ∀ y (r r' : Repl), s1.followers.find y = some r → r'.mtch = r.mtch → 0 < r'.mtch → S y s.term (F'.take r'.mtch) := by
      intro y r r' hf he hpos
      split at h1
      · rw [h1] at hf
        rcases maybeChange_rows (σ := σ) (F := []) (p := p)
          (s := ({ s with promise := max np s.promise, commit := nc, cfgs := s.cfgs ++ [s.membership] } : Node P)) ok.me hf with h7 | h7
        · exact same hl y r r' h7 he hpos
        · have := h7.len
          simp only [List.length_nil] at this
          omega
      · rw [h1] at hf
        exact same hl y r r' hf he hpos
    rcases h2 with rfl | rfl
    · exact key y r r hf rfl hpos
    · obtain ⟨r0, h3, rfl⟩ := find_mapV' _ _ y r hf
      exact key y r0 _ h3 rfl hpos
  | follow frm g t pi pt ph es c a lp hi hr0 hca hm =>
    obtain ⟨u, m, f, h1⟩ := followLeader_eq s (min c lp) (min a lp)
    rw [h1] at hr
    exact absurd hr (fun h => leader_follower h hr0)
  | ack frm g mt l a hh r0 hi hl hf0 hm =>
    intro y r' hf' hpos
    simp only at hf'
    rw [OMap.find_insert] at hf'
    split at hf'
    · rename_i e
      subst e
      cases hf'
      by_cases hgt : mt > r0.mtch
      · have e1 : (replSuccess r0 mt a).mtch = mt := if_pos hgt
        rw [e1]
        rcases hm with hm | ⟨e, he, heh⟩
        · omega
        · obtain ⟨a1, _, a3, a4⟩ := ok.log.at_some he
          have hlen := (ok.chain _ _ a4).len
          rw [heh] at hlen
          obtain ⟨L, o, b1, b2, b3, b4⟩ := h.acks _ _ _ _ _ _ (.inl (hin _ _ hi)) rfl (by omega) hlen
          have := chain_inj hn hser (h.kept _ _ _ b1).2.1 ok.chain b3 a4 (by rw [b4, heh])
          rw [show mt - 1 + 1 = mt by omega, List.take_of_length_le (by omega)] at this
          rw [prefix_take hF a3, ← this]
          exact b1
      · exact same hl _ r0 _ hf0 (if_neg hgt) hpos
    · exact same hl y r' r' hf' rfl hpos
  | send _ dst m hso hx =>
    rcases addSendable_eq hx with h1 | ⟨h1, _⟩
    · exact keep (by rw [h1]) (by rw [h1])
    · exact keep (by rw [h1]) (by rw [h1])
  | _ => exact keep rfl rfl

/-- The quorum behind a leader's commit index. -/
theorem advance_quorum {s : Node P} {F : List Entry} {p : P} {np nc : Nat} (hf : Firm c) (h : Tree c σ R H S) (ok : NodeOk c σ p s F) (hp : σ p = some (s, F))
    (hr : s.role = .leader) (h2 : nth1 (sortDesc (s.votingFollowers.map (·.promise) ++ [max np s.promise])) s.quorum = .ok nc) (hpos : 0 < nc) :
    ∃ Q, Quorate c.sm c.m0 Q ∧ ∀ x ∈ Q, S x s.term (F.take nc) := by
  obtain ⟨_, b2, _⟩ := nth1_spec h2
  generalize hl : s.followers.list.filter (fun y => decide (y.1 ∈ s.membership.voting)) = l at *
  have hv : s.votingFollowers = l.map (·.2) := by rw [← hl]; rfl
  have hrow : ∀ x ∈ l, x.1 ∈ s.membership.voting ∧ RowOk σ p F x.1 x.2 ∧ s.followers.find x.1 = some x.2 := by
    intro x hx
    rw [← hl] at hx
    obtain ⟨a, b⟩ := row_of_voting ok hr hx
    exact ⟨a, b, OMap.mem_list.mp (List.mem_filter.mp hx).1⟩
  rw [hv, List.map_map] at b2
  refine ⟨p :: (l.filter (fun x => decide (nc ≤ x.2.promise))).map (·.1), ?_, ?_⟩
  · refine Quorate.base hf ok.hist.kinds (L := F) ?_
    rw [← ok.mems.membership]
    refine ⟨?_, ?_, ?_⟩
    · refine List.nodup_cons.mpr ⟨?_, ?_⟩
      · intro h
        obtain ⟨x, hx, hxp⟩ := List.mem_map.mp h
        exact (hrow x (List.mem_filter.mp hx).1).2.1.other hxp
      · have hs : s.followers.list.Pairwise (fun a b => a.1 < b.1) := s.followers.sorted
        have : (l.filter (fun x => decide (nc ≤ x.2.promise))).Pairwise (fun a b => a.1 < b.1) := by
          rw [← hl]
          exact (hs.sublist List.filter_sublist).sublist List.filter_sublist
        exact List.pairwise_map.mpr (this.imp (fun h => ne_of_lt h))
    · intro x hx
      rcases List.mem_cons.mp hx with rfl | hx
      · exact ok.voter (fun h => leader_follower hr h)
      · obtain ⟨y, hy, rfl⟩ := List.mem_map.mp hx
        exact (hrow y (List.mem_filter.mp hy).1).1
    · rw [List.length_cons, List.length_map, ← List.countP_eq_length_filter]
      rw [List.countP_append, List.countP_map] at b2
      have h1 := List.countP_le_length (p := fun y => decide (nc ≤ y)) (l := [max np s.promise])
      simp only [List.length_singleton] at h1
      have h3 : s.quorum = quorumSize s.membership.voting.length c.sm := by
        unfold quorum
        rw [ok.super]
      rw [← h3]
      refine b2.trans (Nat.add_le_add (le_of_eq ?_) h1)
      rfl
  · intro x hx
    rcases List.mem_cons.mp hx with rfl | hx
    · exact h.down _ _ _ _ (h.now _ _ _ hp) (List.take_prefix _ _)
    · obtain ⟨y, hy, rfl⟩ := List.mem_map.mp hx
      obtain ⟨y1, y2⟩ := List.mem_filter.mp hy
      obtain ⟨_, r1, r2⟩ := hrow y y1
      have hle := of_decide_eq_true y2
      have := r1.le
      refine h.down _ _ _ _ (h.rows _ _ _ hp hr _ _ r2 (by omega)) ?_
      rw [List.prefix_take_iff]
      exact ⟨List.take_prefix _ _, by rw [List.length_take]; omega⟩

/-- What the leader committed of its own term. -/
theorem Node.Atom.treeWon {inp : Inp P} {p : P} {s s' : Node P} {F F' : List Entry} (hf : Firm c)
    (k : Atom c.v inp s s') (h : Tree c σ R H S) (ok : NodeOk c σ p s F) (hp : σ p = some (s, F)) (hsame : s'.log = s.log → F' = F)
    (hpre : s'.role = .leader → s'.term = s.term ∧ F <+: F') (hnob : s'.role = .leader → s.role = .candidate → ∀ L, ¬ H s.term L) :
    s'.role = .leader → ∀ (k : Nat) (d : Entry), k < s'.commit → F'[k]? = some d → d.term = s'.term →
      ∃ Q, Quorate c.sm c.m0 Q ∧ ∀ x ∈ Q, S x s'.term (F'.take (k + 1)) := by
  intro hr
  obtain ⟨ht, hF⟩ := hpre hr
  rw [ht]
  have hlen : s.commit ≤ F.length := ok.commit.trans ok.promise
  have same : s.role = .leader → ∀ (k : Nat) (d : Entry), k < s.commit → F'[k]? = some d → d.term = s.term →
      ∃ Q, Quorate c.sm c.m0 Q ∧ ∀ x ∈ Q, S x s.term (F'.take (k + 1)) := by
    intro hl k d hk hd htd
    rw [prefix_take hF (by omega)]
    exact h.won _ _ _ hp hl k d hk (prefix_get' hF (by omega) hd) htd
  have keep : s'.role = s.role → s'.commit = s.commit → ∀ (k : Nat) (d : Entry), k < s'.commit → F'[k]? = some d → d.term = s.term →
      ∃ Q, Quorate c.sm c.m0 Q ∧ ∀ x ∈ Q, S x s.term (F'.take (k + 1)) := by
    intro h1 h2
    rw [h2]
    exact same (by rw [← h1]; exact hr)
  cases k with
  | demote => cases hr
  | raise => cases hr
  | campaign => cases hr
  | lead hc hq =>
    intro k d hk hd htd
    rw [hsame rfl] at hd
    have := h.hist _ _ _ hp k d hd
    rw [htd] at this
    exact absurd this (hnob rfl hc _)
  | append _ e r' hh hm hw hx =>
    obtain ⟨l, u, f, e2⟩ := append_eq hx
    exact keep (by rw [e2]) (by rw [e2])
  | cut idx hr0 hc hp ht =>
    obtain ⟨u, m, f, h1⟩ := maybeChangeUncommitted_eq ({ s with log := (s.log.cancelFrom idx).1 } : Node P)
    rw [h1] at hr
    exact absurd hr (fun h => leader_follower h hr0)
  | advance _ hl hx =>
    intro k d hk hd htd
    obtain ⟨np, nc, n1, n2, s1, h1, h2⟩ := maybeAdvance_eq hl hx
    have hFF : F' = F := hsame (by obtain ⟨_, _, _, _, _, _, e2, _⟩ := advance_eq hl hx; rw [e2])
    by_cases hlt : k < s.commit
    · exact same hl k d hlt hd htd
    · have hcm : s'.commit = s1.commit := by rcases h2 with h2 | h2 <;> rw [h2]
      rw [hcm] at hk
      by_cases hgt : nc > s.commit
      · rw [if_pos hgt] at h1
        obtain ⟨u, m, f, e2⟩ := maybeChangeUncommitted_eq
          ({ s with promise := max np s.promise, commit := nc, cfgs := s.cfgs ++ [s.membership] } : Node P)
        rw [e2] at h1
        rw [h1] at hk
        have hk : k < nc := hk
        obtain ⟨Q, q1, q2⟩ := advance_quorum hf h ok hp hl n2 (by omega)
        refine ⟨Q, q1, fun x hx => h.down _ _ _ _ (q2 x hx) ?_⟩
        rw [hFF]
        rw [List.prefix_take_iff]
        exact ⟨List.take_prefix _ _, by rw [List.length_take]; omega⟩
      · rw [if_neg hgt] at h1
        rw [h1] at hk
        exact absurd hk hlt
  | follow frm g t pi pt ph es c a lp hi hr0 hca hm =>
    obtain ⟨u, m, f, h1⟩ := followLeader_eq s (min c lp) (min a lp)
    rw [h1] at hr
    exact absurd hr (fun h => leader_follower h hr0)
  | send _ dst m hso hx =>
    rcases addSendable_eq hx with h1 | ⟨h1, _⟩
    · exact keep (by rw [h1]) (by rw [h1])
    · exact keep (by rw [h1]) (by rw [h1])
  | _ => exact keep rfl rfl

/-- A term that was led cannot be won by a candidate of that term. -/
theorem Tree.nobody {p : P} {s s' : Node P} {F F' : List Entry} (hf : Firm c) (h : Tree c σ R H S) (all : ∀ x s F, σ x = some (s, F) → NodeOk c σ x s F)
    (hp : σ p = some (s, F)) (ok' : NodeOk c (upd σ p s' F') p s' F') (hg : Grows σ (upd σ p s' F')) (ht : s'.role = .leader → s'.term = s.term) :
    s'.role = .leader → s.role = .candidate → ∀ L, ¬ H s.term L := by
  intro hr hc L hL
  obtain ⟨q, sq, Fq, m, a1, a2⟩ := h.made _ _ hL
  obtain ⟨m', hm'⟩ := ok'.leads hr
  rw [ht hr] at hm'
  obtain ⟨sy, Fy, b1, _, _, _, b3⟩ := hg q sq Fq a1
  have all' : ∀ x sx Fx, upd σ p s' F' x = some (sx, Fx) → NodeOk c (upd σ p s' F') x sx Fx := by
    intro x sx Fx hx
    rcases upd_some hx with ⟨rfl, rfl, rfl⟩ | ⟨_, hx⟩
    · exact ok'
    · exact (all x sx Fx hx).grows hg
  have e := Tree.one hf all' b1 (upd_self _ _ _ _) (b3.subset a2) hm'
  subst e
  rw [hp] at a1
  cases a1
  exact absurd ((h.past _ _ _ hp _ _ a2).2 hc) (lt_irrefl _)

/-- The replicas, with the tree of histories. -/
structure Grown (c : Ctx P) (σ : St P) (R : P → Msg → Prop) (S : P → Nat → List Entry → Prop) : Prop where
  all : ∀ x s F, σ x = some (s, F) → NodeOk c σ x s F
  tree : ∃ H, Tree c σ R H S

theorem Grown.atom {inp : Inp P} {p : P} {s s' : Node P} {F : List Entry} (hf : Firm c) (hn : NoCollision c.v c.G) (hser : SerInj c.v)
    (h : Grown c σ R S) (hp : σ p = some (s, F)) (k : Atom c.v inp s s') (hin : ∀ frm m, inp = .msg frm m → R frm m) (hi : InpOk c σ p inp)
    (hty : ∀ q m, inp = .msg q m → Typed m) (hh : ∀ x ∈ s'.hashed, c.G x) :
    ∃ F' S', Grown c (upd σ p s' F') R S' ∧ Grows σ (upd σ p s' F') ∧ ∀ x t L, S x t L → S' x t L := by
  have ok := h.all p s F hp
  obtain ⟨F', ok', hg, hsame, h5⟩ := k.group_step ok hp hi hty hh hn hser
  obtain ⟨H, ht⟩ := h.tree
  have mv := k.moved ok ok'.log hsame h5
  have hpre : s'.role = .leader → s'.term = s.term ∧ F <+: F' := fun hr => ⟨(mv.leader hr).1, (mv.leader hr).2.1⟩
  obtain ⟨H', S', t1, t2⟩ := ht.step hf hn hser h.all hp mv ok' hg hin (k.treeRows hn hser ht ok hp hin hpre)
    (k.treeWon hf ht ok hp hsame hpre (ht.nobody hf h.all hp ok' hg (fun hr => (hpre hr).1)))
  refine ⟨F', S', ⟨?_, H', t1⟩, hg, t2⟩
  intro x sx Fx hx
  rcases upd_some hx with ⟨rfl, rfl, rfl⟩ | ⟨_, hx⟩
  · exact ok'
  · exact (h.all x sx Fx hx).grows hg

theorem Grown.steps {inp : Inp P} {p : P} {s s' : Node P} {F : List Entry} (hf : Firm c) (hn : NoCollision c.v c.G) (hser : SerInj c.v)
    (h : Grown c σ R S) (hp : σ p = some (s, F)) (k : Steps c.v inp s s') (hin : ∀ frm m, inp = .msg frm m → R frm m) (hi : InpOk c σ p inp)
    (hty : ∀ q m, inp = .msg q m → Typed m) (hh : ∀ x ∈ s'.hashed, c.G x) :
    ∃ F' S', Grown c (upd σ p s' F') R S' ∧ Grows σ (upd σ p s' F') ∧ ∀ x t L, S x t L → S' x t L := by
  induction k with
  | refl => exact ⟨F, S, by rw [upd_eq hp]; exact h, by rw [upd_eq hp]; exact Grows.refl _, fun _ _ _ hs => hs⟩
  | tail a k ih =>
    obtain ⟨F1, S1, g1, g2, g3⟩ := ih (fun x hx => hh x ((Atom.steps k).mono.hashed.subset hx))
    obtain ⟨F2, S2, k1, k2, k3⟩ := g1.atom hf hn hser (upd_self _ _ _ _) k hin (hi.grows g2) hty hh
    rw [upd_upd] at k1 k2
    exact ⟨F2, S2, k1, g2.trans k2, fun x t L hs => k3 x t L (g3 x t L hs)⟩

/-- A new replica, in no term yet. -/
theorem Tree.fresh {p : P} {s : Node P} {F : List Entry} (hf : Firm c) (h : Tree c σ R H S) (all : ∀ x s F, σ x = some (s, F) → NodeOk c σ x s F)
    (hp : σ p = none) (ht : s.term = 0) (hr : s.role = .follower) (hc : s.cast = []) (hl : s.led = []) (hs : s.sendable = []) (hch : Chain c.v c.G F)
    (hF : ∀ (k : Nat) (d : Entry), F[k]? = some d → H d.term (F.take (k + 1))) :
    ∃ S', Tree c (upd σ p s F) R H S' ∧ ∀ x t L, S x t L → S' x t L := by
  have hself : upd σ p s F p = some (s, F) := upd_self _ _ _ _
  have old : ∀ x sx Fx, σ x = some (sx, Fx) → x ≠ p := by
    rintro x sx Fx hx rfl
    rw [hp] at hx; cases hx
  have put : ∀ x sx Fx, σ x = some (sx, Fx) → upd σ p s F x = some (sx, Fx) := by
    intro x sx Fx hx
    rw [upd_other _ _ _ (old x sx Fx hx)]; exact hx
  have casts : ∀ x t q, Cast (upd σ p s F) x t q → Cast σ x t q := by
    rintro x t q ⟨sx, Fx, a1, a2⟩
    rcases upd_some a1 with ⟨_, rfl, _⟩ | ⟨_, a1⟩
    · rw [hc] at a2; cases a2
    · exact ⟨sx, Fx, a1, a2⟩
  have noCast : ∀ x t, ¬ Cast σ x t p := by
    intro x t h1
    obtain ⟨sx, Fx, a1, _⟩ := h.cast x t p h1
    rw [hp] at a1; cases a1
  have sents : ∀ frm m, Sent (upd σ p s F) R frm m → Sent σ R frm m := by
    rintro frm m (h1 | ⟨sx, Fx, d, h1, h2⟩)
    · exact .inl h1
    · rcases upd_some h1 with ⟨_, rfl, _⟩ | ⟨_, h1⟩
      · rw [hs] at h2; cases h2
      · exact .inr ⟨sx, Fx, d, h1, h2⟩
  refine ⟨fun x t L => S x t L ∨ (x = p ∧ t = 0 ∧ L <+: F), ?_, fun _ _ _ hs => .inl hs⟩
  refine ⟨h.chain, h.cmp, ?_, h.sub, ?_, ?_, ?_, ?_, ?_, ?_, ?_, ?_, ?_, ?_, ?_, ?_, ?_, ?_, ?_⟩
  · intro t L hL
    obtain ⟨q, sq, Fq, m, a1, a2⟩ := h.made t L hL
    exact ⟨q, sq, Fq, m, put _ _ _ a1, a2⟩
  · intro x sx Fx hx k d hk
    rcases upd_some hx with ⟨rfl, rfl, rfl⟩ | ⟨_, hx⟩
    · exact hF k d hk
    · exact h.hist x sx Fx hx k d hk
  · intro x sx Fx hx hrole
    rcases upd_some hx with ⟨rfl, rfl, rfl⟩ | ⟨_, hx⟩
    · rw [hr] at hrole; cases hrole
    · exact h.lead x sx Fx hx hrole
  · intro x sx Fx hx t m hm
    rcases upd_some hx with ⟨rfl, rfl, rfl⟩ | ⟨_, hx⟩
    · rw [hl] at hm; cases hm
    · exact h.past x sx Fx hx t m hm
  · intro frm m pi pt ph es cm a hm
    exact h.req frm m pi pt ph es cm a (sents _ _ hm)
  · intro frm m hm
    obtain ⟨sx, Fx, a1, a2⟩ := h.told frm m (sents _ _ hm)
    exact ⟨sx, Fx, put _ _ _ a1, a2⟩
  · intro frm m i lt hh sx Fx hm hb hx
    rcases upd_some hx with ⟨rfl, rfl, rfl⟩ | ⟨_, hx⟩
    · intro _ hrole
      rw [hr] at hrole; cases hrole
    · exact h.ask frm m i lt hh sx Fx (sents _ _ hm) hb hx
  · intro x t q hq
    obtain ⟨sx, Fx, a1, a2⟩ := h.cast x t q (casts _ _ _ hq)
    exact ⟨sx, Fx, put _ _ _ a1, a2⟩
  · intro x sx Fx hx k d hk hlt
    have grow : ∀ y t q, Cast σ y t q → Cast (upd σ p s F) y t q := by
      rintro y t q ⟨sy, Fy, a1, a2⟩
      exact ⟨sy, Fy, put _ _ _ a1, a2⟩
    rcases upd_some hx with ⟨rfl, rfl, rfl⟩ | ⟨_, hx⟩
    · obtain ⟨q, sq, Fq, m, a1, a2⟩ := h.made _ _ (hF k d hk)
      obtain ⟨Q, q1, q2⟩ := ((all q sq Fq a1).led _ _ a2).base hf
      exact ⟨Q, q1, fun y hy => ⟨⟨q, grow _ _ _ (q2 y hy)⟩, fun hy => noCast _ _ (casts _ _ _ hy)⟩⟩
    · obtain ⟨Q, q1, q2⟩ := h.old x sx Fx hx k d hk hlt
      refine ⟨Q, q1, fun y hy => ?_⟩
      obtain ⟨⟨q, hq⟩, hno⟩ := q2 y hy
      exact ⟨⟨q, grow _ _ _ hq⟩, fun hy => hno (casts _ _ _ hy)⟩
  · rintro x t L (h1 | ⟨rfl, rfl, h1⟩)
    · obtain ⟨⟨sx, Fx, a1, a2⟩, a3⟩ := h.kept x t L h1
      exact ⟨⟨sx, Fx, put _ _ _ a1, a2⟩, a3⟩
    · refine ⟨⟨s, F, hself, Nat.zero_le _⟩, hch.prefix h1, fun k d hk => ?_⟩
      have := hF k d (prefix_get h1 hk)
      rwa [prefix_take h1 (by have := (List.getElem?_eq_some_iff.mp hk).1; omega)] at this
  · rintro x t L K (h1 | ⟨rfl, rfl, h1⟩) hK
    · exact .inl (h.down x t L K h1 hK)
    · exact .inr ⟨rfl, rfl, hK.trans h1⟩
  · intro x sx Fx hx
    rcases upd_some hx with ⟨rfl, rfl, rfl⟩ | ⟨_, hx⟩
    · exact .inr ⟨rfl, ht, List.prefix_rfl⟩
    · exact .inl (h.now x sx Fx hx)
  · intro y m mt l a hh hm hb hpos hlen
    obtain ⟨L, o, l1, l2⟩ := h.acks y m mt l a hh (sents _ _ hm) hb hpos hlen
    exact ⟨L, o, .inl l1, l2⟩
  · intro x sx Fx hx hrole
    rcases upd_some hx with ⟨rfl, rfl, rfl⟩ | ⟨_, hx⟩
    · rw [hr] at hrole; cases hrole
    · exact fun y r hy hpos => .inl (h.rows x sx Fx hx hrole y r hy hpos)
  · intro x sx Fx hx hrole
    rcases upd_some hx with ⟨rfl, rfl, rfl⟩ | ⟨_, hx⟩
    · rw [hr] at hrole; cases hrole
    · intro k d hk hd htd
      obtain ⟨Q, q1, q2⟩ := h.won x sx Fx hx hrole k d hk hd htd
      exact ⟨Q, q1, fun y hy => .inl (q2 y hy)⟩
  · intro T L d Q hd htd hQ hheld
    obtain ⟨still, full, cand⟩ := h.safe T L d Q hd htd hQ (by
      intro x hx
      rcases hheld x hx with (h1 | ⟨rfl, _⟩) | h1
      · exact .inl h1
      · right
        intro sx Fx hx0
        rw [hp] at hx0; cases hx0
      · right
        intro sx Fx hx0
        exact h1 _ _ (put _ _ _ hx0))
    refine ⟨?_, full, ?_⟩
    · rintro x sx Fx (h1 | ⟨rfl, _, h1⟩) hx
      · rcases upd_some hx with ⟨rfl, _⟩ | ⟨_, hx⟩
        · obtain ⟨⟨sy, Fy, a1, _⟩, _⟩ := h.kept _ _ _ h1
          rw [hp] at a1; cases a1
        · exact still x sx Fx h1 hx
      · rw [hself] at hx
        cases hx
        exact h1
    · intro x U q sq Fq hx hcs hlt hq hU hrole
      rcases upd_some hq with ⟨rfl, rfl, rfl⟩ | ⟨_, hq⟩
      · rw [hr] at hrole; cases hrole
      · exact cand x U q sq Fq hx (casts _ _ _ hcs) hlt hq hU hrole

end

/-- The messages of a world. -/
def World.Sent (W : World P) (frm : P) (m : Msg) : Prop := ∃ d, (frm, d, m) ∈ W.net

/-- The invariant of the group with the tree of histories. -/
structure TInv (c : Ctx P) (W : World P) (σ : St P) (S : P → Nat → List Entry → Prop) : Prop where
  inv : GInv c W σ
  tree : ∃ H, Tree c σ W.Sent H S

theorem TInv.grown {c : Ctx P} {W : World P} {σ : St P} {S : P → Nat → List Entry → Prop} (h : TInv c W σ S) : Grown c σ W.Sent S :=
  ⟨h.inv.ok, h.tree⟩

theorem TInv.fresh {g : Setting P} {G : Bytes × Bytes → Prop} {K : Inner → Prop} {W : World P} {σ : St P} {S : P → Nat → List Entry → Prop} {p : P}
    {s : Node P} {mem : Membership P} {log : Log} {cfg : RaftCfg} {cl : Bool} {F : List Entry} {r : Nat → Nat} {pa : Nat → Bool}
    (hfm : Firm (g.ctx G K)) (hi : TInv (g.ctx G K) W σ S) (hp : W.node p = none) (hl : LogOf log F) (hb : Log.bytesOf g.v.z log.entries ≤ log.curr)
    (hf : F.length + 2 < SZ) (hcl : cl = true ∨ F = [])
    (h : Node.new (g.env r pa) g.group p mem log cfg cl g.sm = .ok s)
    (hh : Hist (g.ctx G K) σ F) (hc : Com (g.ctx G K) σ F) (hm : mem = memAt g.v g.m0 F)
    (hF : F = [] ∨ ∃ q sq Fq, σ q = some (sq, Fq) ∧ F <+: Fq)
    (hG : ∀ x ∈ s.hashed, G x) (hn : NoCollision g.v G) (hser : SerInj g.v) :
    ∃ σ' S', TInv (g.ctx G K) (W.put p s F [] []) σ' S' ∧ ∀ x t L, S x t L → S' x t L := by
  have hbs : (base g.group p mem log cfg cl g.sm).Shaped (g.env r pa) := base_shaped hl hb hcl
  have hst := (new_steps hbs (by rw [hl.lastIdx]; exact hf) h)
  have hg0 : Grows σ (upd σ p (base g.group p mem log cfg cl g.sm) F) := grows_fresh (hi.inv.absent hp)
  have hok : NodeOk (g.ctx G K) (upd σ p (base g.group p mem log cfg cl g.sm) F) p (base g.group p mem log cfg cl g.sm) F :=
    base_ok (c := g.ctx G K) hbs hl hcl (hh.grows hg0) (hc.grows hg0) hm
  obtain ⟨H, ht⟩ := hi.tree
  obtain ⟨S0, t1, t2⟩ := ht.fresh (s := base g.group p mem log cfg cl g.sm) hfm hi.inv.ok (hi.inv.absent hp) rfl rfl rfl rfl rfl hh.chain (by
    intro k d hk
    rcases hF with rfl | ⟨q, sq, Fq, q1, q2⟩
    · simp at hk
    · have := ht.hist q sq Fq q1 k d (prefix_get q2 hk)
      rwa [prefix_take q2 (by have := (List.getElem?_eq_some_iff.mp hk).1; omega)] at this)
  have g0 : Grown (g.ctx G K) (upd σ p (base g.group p mem log cfg cl g.sm) F) W.Sent S0 := by
    refine ⟨?_, H, t1⟩
    intro x sx Fx hx
    rcases upd_some hx with ⟨rfl, rfl, rfl⟩ | ⟨_, hx⟩
    · exact hok
    · exact (hi.inv.ok x sx Fx hx).grows hg0
  obtain ⟨F', S', k1, k2, k3⟩ := g0.steps (c := g.ctx G K) hfm hn hser (upd_self _ _ _ _) (hst.env (g := g)) (fun frm m h => (by cases h))
    ⟨fun frm m h => (by cases h), fun i h => (by cases h)⟩ (fun q m h => (by cases h)) hG
  rw [upd_upd] at k1 k2
  refine ⟨_, S', ⟨hi.inv.put (k1.all _ _ _ (upd_self _ _ _ _)) (hg0.trans k2) ?_ (by simp), ?_⟩, fun x t L hs => k3 x t L (t2 x t L hs)⟩
  · have hm2 := hst.mono
    obtain ⟨_, _, e1, e2, e3, _⟩ := k2 p _ F (upd_self _ _ _ _)
    rw [upd_self] at e1
    cases e1
    have happ : (if cl then log.lastIdx else 0) = F.length := by
      rcases hcl with rfl | rfl
      · simpa using hl.lastIdx
      · rw [hl.lastIdx]; simp
    have hla : s.lastApplied = F.length := hm2.applied.trans happ
    have hpr : (base g.group p mem log cfg cl g.sm).promise = F.length := happ
    rw [hpr, List.take_length] at e3
    rw [hla]
    exact List.prefix_iff_eq_take.mp e3
  · obtain ⟨H', t3⟩ := k1.tree
    refine ⟨H', t3.rest ?_⟩
    rintro frm m (⟨d, h1⟩ | h1)
    · rcases List.mem_append.mp h1 with h1 | h1
      · exact .inl ⟨d, h1⟩
      · cases h1
    · exact .inr h1

/-- A call that changes nothing the tree speaks of. -/
theorem TInv.still {c : Ctx P} {W : World P} {σ : St P} {S : P → Nat → List Entry → Prop} {p : P} {s s' : Node P} {F A : List Entry}
    {N : List (P × Option P × Msg)} {Q : List Inner} (hfm : Firm c) (hn : NoCollision c.v c.G) (hser : SerInj c.v) (hi : TInv c W σ S) (hp : σ p = some (s, F)) (ok' : NodeOk c σ p s' F)
    (hprom : s'.promise = s.promise) (ht : s'.term = s.term)
    (hr : s'.role = s.role) (hc : s'.cast = s.cast) (hl : s'.led = s.led) (hlog : s'.log = s.log) (hfo : s'.followers = s.followers)
    (hcm : s'.commit = s.commit) (hA : A = F.take s'.lastApplied) (hN : ∀ x ∈ N, x.1 = p ∧ (x.2.1, x.2.2) ∈ s.sendable)
    (hs : ∀ x ∈ s'.sendable, x ∈ s.sendable) :
    ∃ σ' S', TInv c (W.put p s' A N Q) σ' S' ∧ ∀ x t L, S x t L → S' x t L := by
  have ok := hi.inv.ok _ _ _ hp
  have hg : Grows σ (upd σ p s' F) := upd_grows hp (by rw [hprom]) (List.take_prefix _ _) (by rw [hc]) (by rw [hl])
  obtain ⟨H, tr⟩ := hi.tree
  have tr1 : Tree c σ (W.put p s' A N Q).Sent H S := by
    refine tr.rest ?_
    rintro frm m (⟨d, h1⟩ | h1)
    · rcases List.mem_append.mp h1 with h1 | h1
      · exact .inl ⟨d, h1⟩
      · obtain ⟨e1, e2⟩ := hN _ h1
        simp only at e1 e2
        subst e1
        exact .inr ⟨s, F, d, hp, e2⟩
    · exact .inr h1
  obtain ⟨H', S', t1, t2⟩ := tr1.step (inp := .none) hfm hn hser hi.inv.ok hp (.same (c := c) (inp := .none) (p := p) ht (.inl hr) hc hl hs (fun _ => hlog) rfl)
    (ok'.grows hg) hg (fun frm m h => (by cases h))
    (by rw [hr, hfo, ht]; exact tr.rows _ _ _ hp) (by rw [hr, hcm, ht]; exact tr.won _ _ _ hp)
  refine ⟨_, S', ⟨hi.inv.put (ok'.grows hg) hg hA ?_, H', t1⟩, t2⟩
  intro x hx
  obtain ⟨e1, e2⟩ := hN x hx
  have := (ok.sends _ e2).grows hg
  rw [e1]
  exact this

/-- The invariant is kept. -/
theorem TInv.next {g : Setting P} {G : Bytes × Bytes → Prop} {K : Inner → Prop} {W W' : World P} {σ : St P} {S : P → Nat → List Entry → Prop}
    (hfm : Firm (g.ctx G K)) (h : Next g W W')
    (hi : TInv (g.ctx G K) W σ S) (hG : ∀ p s, W'.node p = some s → ∀ x ∈ s.hashed, G x) (hK : ∀ i ∈ W'.asked, K i)
    (hn : NoCollision g.v G) (hser : SerInj g.v) : ∃ σ' S', TInv (g.ctx G K) W' σ' S' ∧ ∀ x t L, S x t L → S' x t L := by
  cases h with
  | start p s r pa mx cfg hp h =>
    exact TInv.fresh hfm hi hp (logOf_new mx) (by simp [Log.new, Log.bytesOf]) (by decide) (.inr rfl) h (Hist.nil _ _) .nil rfl (.inl rfl)
      (hG p s (World.put_self ..)) hn hser
  | join p q s sq r pa log cfg hp hq ha hl hbb hf h =>
    obtain ⟨F, hF⟩ := hi.inv.get hq
    have ok := hi.inv.ok _ _ _ hF
    have hA := hi.inv.applied _ _ _ hF
    rw [ha] at hA
    refine TInv.fresh hfm hi hp hl hbb hf (.inl rfl) h ?_ ?_ ?_ (.inr ⟨q, sq, F, hF, ?_⟩) (hG p s (World.put_self ..)) hn hser
    · rw [hA]; exact ok.hist.take _
    · rw [hA]; exact ok.com
    · rw [hA]; exact ok.mems.mem
    · rw [hA]; exact List.take_prefix _ _
  | call p s s' op o r pa hp hd hf h =>
    obtain ⟨F, hF⟩ := hi.inv.get hp
    have ok := hi.inv.ok _ _ _ hF
    have hA := hi.inv.applied _ _ _ hF
    have hG' := hG p s' (World.put_self ..)
    rcases op.steps (v := g.env r pa) ok.shaped hf h with ⟨h1, h2, h3⟩ | ⟨i, e, _, rfl, h1, h2, h3, rfl⟩ | ⟨_, rfl, rfl⟩
    · have hin : InpOk (g.ctx G K) σ p op.input := by
        refine ⟨?_, ?_⟩
        · intro frm m hm
          cases op with
          | receive f m' =>
            cases hm
            obtain ⟨dst, d1, d2⟩ := hd
            exact ⟨dst, d2, hi.inv.net _ d1⟩
          | _ => cases hm
        · intro i hm
          cases op with
          | request i' =>
            cases hm
            exact hK _ (List.mem_append_right _ (List.mem_singleton.mpr rfl))
          | _ => cases hm
      have hnet : ∀ frm m, op.input = .msg frm m → W.Sent frm m := by
        intro frm m hm
        cases op with
        | receive f m' =>
          cases hm
          obtain ⟨dst, d1, _⟩ := hd
          exact ⟨dst, d1⟩
        | _ => cases hm
      obtain ⟨F', S', k1, k2, k3⟩ := hi.grown.steps (c := g.ctx G K) hfm hn hser hF (h1.env (g := g)) hnet hin (Op.fits_typed hf) hG'
      have ho : Obs.entries o = [] := by
        cases o with
        | committed r =>
          cases r with
          | none => rfl
          | some x => exact absurd rfl (h2 x)
        | _ => rfl
      have ho' : Obs.messages p o = [] := by
        cases o with
        | sent l => exact absurd rfl (h3 l)
        | _ => rfl
      refine ⟨_, S', ⟨hi.inv.put (k1.all _ _ _ (upd_self _ _ _ _)) k2 ?_ (by rw [ho']; simp), ?_⟩, k3⟩
      · obtain ⟨_, _, e1, e2, e3, _⟩ := k2 p _ F hF
        rw [upd_self] at e1
        cases e1
        rw [ho, List.append_nil, hA, h1.mono.applied]
        have a1 := ok.applied
        have a2 := ok.commit
        have a3 := ok.promise
        have e4 : F.take s.lastApplied <+: F' := (List.take_prefix_take_left (by omega)).trans e3
        have e5 := List.prefix_iff_eq_take.mp e4
        rw [List.length_take, Nat.min_eq_left (by omega)] at e5
        exact e5
      · obtain ⟨H', t3⟩ := k1.tree
        refine ⟨H', t3.rest ?_⟩
        rintro frm m (⟨d, h1⟩ | h1)
        · rw [ho'] at h1
          rcases List.mem_append.mp h1 with h1 | h1
          · exact .inl ⟨d, h1⟩
          · cases h1
        · exact .inr h1
    · have hok : NodeOk (g.ctx G K) σ p { s with lastApplied := i } F :=
        { ok with
          shaped := Op.shaped (v := g.env r pa) ok.shaped hf h
          applied := h2
          voted := ok.voted.ofEq rfl rfl rfl
          mems := ⟨ok.mems.mem, ok.mems.unc⟩ }
      refine hi.still hfm hn hser hF hok rfl rfl rfl rfl rfl rfl rfl rfl ?_ (by simp [Obs.messages]) (fun _ h => h)
      rw [hA]
      obtain ⟨_, _, _, h6⟩ := ok.log.at_some h3
      subst h1
      show F.take s.lastApplied ++ [e] = F.take (s.lastApplied + 1)
      rw [List.take_add_one]
      rw [Nat.add_sub_cancel] at h6
      rw [h6]
      rfl
    · have hok : NodeOk (g.ctx G K) σ p { s with sendable := [] } F :=
        { ok with
          voted := ok.voted.ofEq rfl rfl rfl
          mems := ⟨ok.mems.mem, ok.mems.unc⟩
          sends := by simp }
      refine hi.still hfm hn hser hF hok rfl rfl rfl rfl rfl rfl rfl rfl ?_ ?_ (fun x h => (by cases h))
      · simp only [Obs.entries, List.append_nil]; exact hA
      · intro x hx
        simp only [Obs.messages, List.mem_map] at hx
        obtain ⟨y, hy, rfl⟩ := hx
        exact ⟨rfl, hy⟩

theorem TInv.future {g : Setting P} {W W' : World P} {σ : St P} {S : P → Nat → List Entry → Prop} (h : Future g W W') {G : Bytes × Bytes → Prop} {K : Inner → Prop}
    (hfm : Firm (g.ctx G K)) (hs : W.Shaped g) (hi : TInv (g.ctx G K) W σ S) (hG : ∀ x, W'.Hashed x → G x) (hK : ∀ i ∈ W'.asked, K i) (hn : NoCollision g.v G)
    (hser : SerInj g.v) : ∃ σ' S', TInv (g.ctx G K) W' σ' S' ∧ ∀ x t L, S x t L → S' x t L := by
  induction h with
  | now => exact ⟨σ, S, hi, fun _ _ _ h => h⟩
  | next a k ih =>
    have hle := k.le (a.shaped hs)
    obtain ⟨σ1, S1, h1, h2⟩ := ih (fun x hx => hG x (hle.hashed hx)) (fun i hi => hK i (hle.asked.subset hi))
    obtain ⟨σ2, S2, h3, h4⟩ := h1.next hfm k (fun p s h x hx => hG x ⟨p, s, h, hx⟩) hK hn hser
    exact ⟨σ2, S2, h3, fun x t L hx => h4 x t L (h2 x t L hx)⟩

theorem Reachable.tree {g : Setting P} {W : World P} (h : Reachable g W) {G : Bytes × Bytes → Prop} {K : Inner → Prop}
    (hfm : Firm (g.ctx G K)) (hG : ∀ x, W.Hashed x → G x) (hK : ∀ i ∈ W.asked, K i) (hn : NoCollision g.v G) (hser : SerInj g.v) :
    ∃ σ S, TInv (g.ctx G K) W σ S := by
  have h0 : GInv (g.ctx G K) World.empty (fun _ => none) :=
    ⟨fun p => rfl, fun p s F h => (by cases h), fun p s F h => (by cases h), fun x h => (by cases h)⟩
  have t0 : TInv (g.ctx G K) World.empty (fun _ => none) (fun _ _ _ => False) := by
    refine ⟨h0, _, Tree.empty.rest ?_⟩
    rintro frm m (⟨d, h1⟩ | h1)
    · cases h1
    · exact .inr h1
  obtain ⟨σ, S, h1, _⟩ := t0.future h hfm (fun p s h => (by cases h)) hG hK hn hser
  exact ⟨σ, S, h1⟩

end Svr.Raft
