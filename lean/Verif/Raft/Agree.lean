import Verif.Raft.Cluster
import Verif.Props.Membership

/-!
# Committed histories agree

Two quorums share a replica, and a replica promised one history.
-/

namespace Svr.Raft
open Node Svr.Props.Membership
variable {P : Type} [LinearOrder P]

/-- Whatever holds of the first membership and of all in the history, holds of the last one. -/
theorem memAt_ind {v : Env P} (R : Membership P → Prop) : ∀ (L : List Entry) (m : Membership P), R m →
    (∀ e ∈ L, ∀ m, memOf v e = some m → R m) → R (memAt v m L)
  | [], m, h0, _ => h0
  | e :: t, m, h0, h => by
    have : memAt v m (e :: t) = memAt v (memAfter v m e) t := rfl
    rw [this]
    refine memAt_ind R t _ ?_ (fun e' he' => h e' (List.mem_cons_of_mem _ he'))
    unfold memAfter
    cases hm : memOf v e with
    | none => exact h0
    | some m' => exact h e List.mem_cons_self m' hm

theorem memOf_wf {v : Env P} {e : Entry} {m : Membership P} (h : memOf v e = some m) : m.Wf := by
  obtain ⟨g, _, hg⟩ := memOf_some h
  exact (fromProtoLoop_ok _ ⟨[], []⟩ m ⟨List.Pairwise.nil, List.Pairwise.nil⟩ (by simp) hg).1

theorem memAt_wf {v : Env P} {m : Membership P} (h : m.Wf) (L : List Entry) : (memAt v m L).Wf :=
  memAt_ind _ L m h (fun _ _ _ hm => memOf_wf hm)

theorem Quorate.quorum {sm : Nat} {m : Membership P} {Q : List P} (h : Quorate sm m Q) (hw : m.Wf) :
    Quorum sm m.voting.toFinset Q.toFinset := by
  refine ⟨?_, ?_⟩
  · intro x hx
    exact List.mem_toFinset.mpr (h.sub x (List.mem_toFinset.mp hx))
  · rw [List.toFinset_card_of_nodup h.nodup, List.toFinset_card_of_nodup hw.voting.nodup]
    exact h.size

/-- Two histories one replica promised. -/
theorem Prom.comparable {σ : St P} {x : P} {L L' : List Entry} (h : Prom σ x L) (h' : Prom σ x L') : L <+: L' ∨ L' <+: L := by
  obtain ⟨s, F, h1, h2, _⟩ := h
  obtain ⟨s', F', h1', h2', _⟩ := h'
  rw [h1] at h1'
  cases h1'
  exact List.prefix_or_prefix_of_prefix h2 h2'

theorem comparable_of_prefix {A B A' B' : List Entry} (h : A' <+: B' ∨ B' <+: A') (ha : A <+: A') (hb : B <+: B') :
    A <+: B ∨ B <+: A := by
  rcases h with h | h
  · exact List.prefix_or_prefix_of_prefix (ha.trans h) hb
  · exact List.prefix_or_prefix_of_prefix ha (hb.trans h)

/-- The voters are the same in all memberships. -/
def SameVoters (c : Ctx P) : Prop := ∀ e m, c.K e.inner → memOf c.v e = some m → m.voting = c.m0.voting

theorem voters_fixed {c : Ctx P} (hv : SameVoters c) {L : List Entry} (hk : Kinds c L) : (memAt c.v c.m0 L).voting = c.m0.voting := by
  refine memAt_ind (fun m => m.voting = c.m0.voting) L c.m0 rfl ?_
  intro e he m hm
  rcases hk e he with h | h
  · obtain ⟨g, hg, _⟩ := memOf_some hm
    rw [h] at hg; cases hg
  · exact hv e m h hm

/-- Two quorums of the same voters have a common member. -/
theorem common_voter {sm : Nat} {m m' : Membership P} {Q Q' : List P} (hw : m.Wf) (hw' : m'.Wf) (hv : m'.voting = m.voting)
    (hne : m.voting ≠ []) (hlen : m.voting.length < 2 ^ 63) (hsm : sm < 2 ^ 63) (h : Quorate sm m Q) (h' : Quorate sm m' Q') :
    ∃ x, x ∈ Q ∧ x ∈ Q' := by
  have h1 := h.quorum hw
  have h2 := h'.quorum hw'
  rw [hv] at h2
  have hc : m.voting.toFinset.card = m.voting.length := List.toFinset_card_of_nodup hw.voting.nodup
  have := C24_quorums_intersect (by rw [hc]; exact hlen) hsm h1 h2
  have hpos := List.length_pos_of_ne_nil hne
  have : 0 < (Q.toFinset ∩ Q'.toFinset).card := by
    rw [hc] at this
    omega
  obtain ⟨x, hx⟩ := Finset.card_pos.mp this
  rw [Finset.mem_inter, List.mem_toFinset, List.mem_toFinset] at hx
  exact ⟨x, hx⟩

/-- With fixed voters, committed histories are comparable. -/
theorem Com.agree_fixed {c : Ctx P} {σ : St P} {L L' : List Entry} (hw : c.m0.Wf) (hne : c.m0.voting ≠ [])
    (hlen : c.m0.voting.length < 2 ^ 63) (hsm : c.sm < 2 ^ 63) (hv : SameVoters c) (h : Com c σ L) (h' : Com c σ L') :
    L <+: L' ∨ L' <+: L := by
  cases h with
  | nil => exact .inl (List.nil_prefix)
  | mk _ L1 F Q hL hF hq hp hc hk hs =>
    cases h' with
    | nil => exact .inr (List.nil_prefix)
    | mk _ L1' F' Q' hL' hF' hq' hp' hc' hk' hs' =>
      have e1 := voters_fixed hv hk
      have e2 := voters_fixed hv hk'
      obtain ⟨x, hx, hx'⟩ := common_voter (memAt_wf hw F) (memAt_wf hw F') (e2.trans e1.symm) (by rw [e1]; exact hne)
        (by rw [e1]; exact hlen) hsm hq hq'
      exact comparable_of_prefix ((hp x hx).comparable (hp' x hx')) hL hL'

/-- With fixed voters, a term has one leader. -/
theorem Elected.unique {c : Ctx P} {σ : St P} {p q : P} {t : Nat} {m m' : Membership P} (hw : c.m0.Wf) (hne : c.m0.voting ≠ [])
    (hlen : c.m0.voting.length < 2 ^ 63) (hsm : c.sm < 2 ^ 63) (hv : SameVoters c)
    (hone : ∀ x s F, σ x = some (s, F) → Voted s) (h : Elected c σ p t m) (h' : Elected c σ q t m') : p = q := by
  obtain ⟨Q, L, h1, h2, rfl, h4⟩ := h
  obtain ⟨Q', L', h1', h2', rfl, h4'⟩ := h'
  have e1 := voters_fixed hv h4.kinds
  have e2 := voters_fixed hv h4'.kinds
  obtain ⟨x, hx, hx'⟩ := common_voter (memAt_wf hw L) (memAt_wf hw L') (e2.trans e1.symm) (by rw [e1]; exact hne)
    (by rw [e1]; exact hlen) hsm h1 h1'
  obtain ⟨s, F, a1, a2⟩ := h2 x hx
  obtain ⟨s', F', b1, b2⟩ := h2' x hx'
  rw [a1] at b1
  cases b1
  exact (hone x s F a1).one t p q a2 b2

/-! ### Membership changes -/

/-- One permitted change of the voters, or none. -/
inductive Near (s : Nat) (V V' : Finset P) : Prop
  | same (h : V' = V)
  | add (x : P) (hx : x ∉ V) (h : V' = insert x V)
  | drop (x : P) (hx : x ∈ V) (h : V' = V.erase x) (hne : V'.Nonempty) (hs : s < V.card → s < V'.card)

theorem near_card {s : Nat} {V W : Finset P} (hW : Near s V W) :
    (W.card = V.card ∨ W.card = V.card + 1 ∨ (W.card + 1 = V.card ∧ 1 ≤ W.card)) ∧ (s < V.card → s < W.card) := by
  cases hW with
  | same h => subst h; exact ⟨.inl rfl, id⟩
  | add x hx h =>
    subst h
    rw [Finset.card_insert_of_notMem hx]
    exact ⟨.inr (.inl rfl), fun h => by omega⟩
  | drop x hx h hne hs' =>
    have e := Finset.card_erase_of_mem hx
    have hp := Finset.card_pos.mpr ⟨_, hx⟩
    rw [← h] at e
    have := Finset.card_pos.mpr hne
    exact ⟨.inr (.inr ⟨by omega, by omega⟩), hs'⟩

theorem near_union {s : Nat} {V V1 V2 : Finset P} (h1 : Near s V V1) (h2 : Near s V V2) :
    2 * (V1 ∪ V2).card ≤ V1.card + V2.card + 2 := by
  cases h1 with
  | same h =>
    subst h
    cases h2 with
    | same h => subst h; rw [Finset.union_self]; omega
    | add x hx h =>
      subst h
      have := Finset.card_le_card (Finset.union_subset (Finset.subset_insert x V1) (Finset.Subset.refl (insert x V1)))
      have e := Finset.card_insert_of_notMem hx
      omega
    | drop x hx h _ _ =>
      subst h
      have := Finset.card_le_card (Finset.union_subset (Finset.Subset.refl V1) (Finset.erase_subset x V1))
      have e := Finset.card_erase_of_mem hx
      have hp := Finset.card_pos.mpr ⟨_, hx⟩
      omega
  | add x hx h =>
    subst h
    have e := Finset.card_insert_of_notMem hx
    cases h2 with
    | same h =>
      subst h
      have := Finset.card_le_card (Finset.union_subset (Finset.Subset.refl (insert x V2)) (Finset.subset_insert x V2))
      omega
    | add y hy h =>
      subst h
      have e' := Finset.card_insert_of_notMem hy
      have : insert x V ∪ insert y V ⊆ insert x (insert y V) := by
        intro z hz
        simp only [Finset.mem_union, Finset.mem_insert] at hz ⊢
        tauto
      have := Finset.card_le_card this
      have := Finset.card_insert_le x (insert y V)
      omega
    | drop y hy h _ _ =>
      subst h
      have e' := Finset.card_erase_of_mem hy
      have : insert x V ∪ V.erase y ⊆ insert x V := by
        intro z hz
        simp only [Finset.mem_union, Finset.mem_insert, Finset.mem_erase] at hz ⊢
        tauto
      have := Finset.card_le_card this
      omega
  | drop x hx h _ _ =>
    subst h
    have e := Finset.card_erase_of_mem hx
    have hp := Finset.card_pos.mpr ⟨_, hx⟩
    cases h2 with
    | same h =>
      subst h
      have := Finset.card_le_card (Finset.union_subset (Finset.erase_subset x V2) (Finset.Subset.refl V2))
      omega
    | add y hy h =>
      subst h
      have e' := Finset.card_insert_of_notMem hy
      have : V.erase x ∪ insert y V ⊆ insert y V := by
        intro z hz
        simp only [Finset.mem_union, Finset.mem_insert, Finset.mem_erase] at hz ⊢
        tauto
      have := Finset.card_le_card this
      omega
    | drop y hy h _ _ =>
      subst h
      have e' := Finset.card_erase_of_mem hy
      have := Finset.card_le_card (Finset.union_subset (Finset.erase_subset x V) (Finset.erase_subset y V))
      omega

/-- Quorums of two sets of voters that are each at most one change away from the same set have a common member, for a
super majority of at least 1. -/
theorem near_quorums {s : Nat} {V V1 V2 Q1 Q2 : Finset P} (hs1 : 1 ≤ s) (hs : s < 2 ^ 63) (hV : V.card + 1 < 2 ^ 63) (hne : V.Nonempty)
    (h1 : Near s V V1) (h2 : Near s V V2) (hq1 : Quorum s V1 Q1) (hq2 : Quorum s V2 Q2)
    (hpair : s = 1 ∨ ∃ a, (V1 ⊂ V → 2 ≤ V1.card ∨ V1 = {a}) ∧ (V2 ⊂ V → 2 ≤ V2.card ∨ V2 = {a})) : (Q1 ∩ Q2).Nonempty := by
  have hcard := Finset.card_union_add_card_inter Q1 Q2
  have hu : (Q1 ∪ Q2).card ≤ (V1 ∪ V2).card := Finset.card_le_card (Finset.union_subset_union hq1.sub hq2.sub)
  have hpos := Finset.card_pos.mpr hne
  have s1 := hq1.size
  have s2 := hq2.size
  rw [← Finset.card_pos]
  obtain ⟨f1, f1'⟩ := near_card h1
  obtain ⟨f2, f2'⟩ := near_card h2
  have hunion := near_union h1 h2
  by_cases hgt : s < V.card
  · rw [quorumSize_gt (f1' hgt) (by omega)] at s1
    rw [quorumSize_gt (f2' hgt) (by omega)] at s2
    have := f1' hgt
    have := f2' hgt
    omega
  · -- all voters are needed
    have full : ∀ w, w ≤ s + 1 → w < 2 ^ 63 → quorumSize w s = w := by
      intro w hw hw'
      by_cases hle : w ≤ s
      · exact quorumSize_le hle hs
      · rw [quorumSize_gt (by omega) hw']; omega
    rw [full _ (by omega) (by omega)] at s1 s2
    have e1 : Q1 = V1 := Finset.eq_of_subset_of_card_le hq1.sub s1
    have e2 : Q2 = V2 := Finset.eq_of_subset_of_card_le hq2.sub s2
    rw [e1, e2] at hcard hu ⊢
    rw [Finset.card_pos]
    obtain ⟨a, ha⟩ := hne
    cases h1 with
    | same h =>
      subst h
      cases h2 with
      | same h => subst h; exact ⟨a, by simpa using ha⟩
      | add y hy h => subst h; exact ⟨a, by simp [ha]⟩
      | drop y hy h hn _ =>
        obtain ⟨b, hb⟩ := hn
        exact ⟨b, Finset.mem_inter.mpr ⟨by rw [h] at hb; exact Finset.mem_of_mem_erase hb, hb⟩⟩
    | add x hx h =>
      subst h
      cases h2 with
      | same h => subst h; exact ⟨a, by simp [ha]⟩
      | add y hy h => subst h; exact ⟨a, by simp [ha]⟩
      | drop y hy h hn _ =>
        obtain ⟨b, hb⟩ := hn
        exact ⟨b, Finset.mem_inter.mpr ⟨Finset.mem_insert_of_mem (by rw [h] at hb; exact Finset.mem_of_mem_erase hb), hb⟩⟩
    | drop x hx h hn _ =>
      have hV1 : V1 ⊆ V := by rw [h]; exact Finset.erase_subset _ _
      cases h2 with
      | same h' =>
        obtain ⟨b, hb⟩ := hn
        exact ⟨b, Finset.mem_inter.mpr ⟨hb, by rw [h']; exact hV1 hb⟩⟩
      | add y hy h' =>
        obtain ⟨b, hb⟩ := hn
        exact ⟨b, Finset.mem_inter.mpr ⟨hb, by rw [h']; exact Finset.mem_insert_of_mem (hV1 hb)⟩⟩
      | drop y hy h' hn' _ =>
        have e := Finset.card_erase_of_mem hx
        rw [← h] at e
        have e' := Finset.card_erase_of_mem hy
        rw [← h'] at e'
        have hc1 := Finset.card_pos.mpr hn
        have hV2 : V2 ⊆ V := by rw [h']; exact Finset.erase_subset _ _
        have hu' : (V1 ∪ V2).card ≤ V.card := Finset.card_le_card (Finset.union_subset hV1 hV2)
        have l1 : V1 ⊂ V := ⟨hV1, fun hsub => by
          have := hsub hx
          rw [h] at this
          exact Finset.notMem_erase x V this⟩
        have l2 : V2 ⊂ V := ⟨hV2, fun hsub => by
          have := hsub hy
          rw [h'] at this
          exact Finset.notMem_erase y V this⟩
        rcases hpair with hs' | ⟨a, p1, p2⟩
        · rw [← Finset.card_pos]
          omega
        rcases p1 l1 with c1 | c1
        · rw [← Finset.card_pos]
          omega
        rcases p2 l2 with c2 | c2
        · rw [← Finset.card_pos]
          omega
        exact ⟨a, by simp [c1, c2]⟩

theorem near_of_progression {ld : P} {s : Nat} {m m' : Membership P} (hm : m.Wf) (hm' : m'.Wf) (hsz : m'.all.length < 2 ^ 64)
    (hsz' : m'.voting.length < 2 ^ 64) (h : validProgression ld m m' s = none) : Near s m.voting.toFinset m'.voting.toFinset := by
  have ha := (C25_progression_exact ld s m m' hm hm' hsz hsz').mp h
  have hsm := ha.superMajority
  have hne : m'.voting.toFinset.Nonempty := ⟨ld, ha.leaderVotes⟩
  cases ha.step with
  | join _ _ _ hv => exact .same hv
  | leave _ _ _ hv => exact .same hv
  | promote x h _ hv => exact .add x h hv
  | demote x h _ hv => exact .drop x h hv hne hsm
  | depart x _ h _ hv => exact .drop x h hv hne hsm

/-- Requested memberships are small, and with a super majority of 2 or more those with a single voter have the same one. -/
structure Sane (c : Ctx P) : Prop where
  wf : c.m0.Wf
  ne : c.m0.voting ≠ []
  len : c.m0.voting.length + 1 < 2 ^ 63
  one : 1 ≤ c.sm
  sm : c.sm < 2 ^ 63
  size : ∀ e m, c.K e.inner → memOf c.v e = some m → m.all.length < 2 ^ 64 ∧ m.voting.length + 1 < 2 ^ 63
  pair : c.sm = 1 ∨ ∃ a, ∀ e m, c.K e.inner → memOf c.v e = some m → 2 ≤ m.voting.length ∨ m.voting = [a]

theorem Kinds.K {c : Ctx P} {L : List Entry} (hk : Kinds c L) {e : Entry} (he : e ∈ L) {m : Membership P} (hm : memOf c.v e = some m) :
    c.K e.inner := by
  rcases hk e he with h | h
  · obtain ⟨g, hg, _⟩ := memOf_some hm
    rw [h] at hg; cases hg
  · exact h

/-- A committed history is backed by a quorum of a membership that is at most one change away from the one before a
given index. -/
theorem Com.record {c : Ctx P} {σ : St P} (hs : Sane c) {a : P}
    (hpair : c.sm = 1 ∨ ∀ e m, c.K e.inner → memOf c.v e = some m → 2 ≤ m.voting.length ∨ m.voting = [a]) {L : List Entry} (h : Com c σ L) : ∀ d, d < L.length →
    ∃ (L' : List Entry) (m : Membership P) (Q : List P), L.take (d + 1) <+: L' ∧ Quorate c.sm m Q ∧ m.Wf ∧ (∀ x ∈ Q, Prom σ x L') ∧
      Near c.sm (memAt c.v c.m0 (L.take d)).voting.toFinset m.voting.toFinset ∧
      (c.sm = 1 ∨ (m.voting.toFinset ⊂ (memAt c.v c.m0 (L.take d)).voting.toFinset → 2 ≤ m.voting.toFinset.card ∨ m.voting.toFinset = {a})) := by
  induction h with
  | nil => intro d hd; simp at hd
  | mk L L' F Q hL hF hq hp hc hk hset ih =>
    intro d hd
    have hLF : L <+: F := hL.trans hF
    have htake : ∀ n, n ≤ L.length → F.take n = L.take n := by
      intro n hn
      obtain ⟨t, rfl⟩ := hLF
      rw [List.take_append_of_le_length hn]
    by_cases htwo : ∃ i j x b, d ≤ i ∧ i < j ∧ F[i]? = some x ∧ F[j]? = some b ∧ (memOf c.v x).isSome ∧ (memOf c.v b).isSome
    · obtain ⟨i, j, x, b, hdi, hij, ha, hb, hma, hmb⟩ := htwo
      have hi : i < F.length := (List.getElem?_eq_some_iff.mp ha).1
      obtain ⟨L2, m, Q2, r1, r2, r3, r4, r5, r6⟩ := ih i j x b hij ha hb hma hmb d (by rw [List.length_take]; omega)
      rw [List.take_take, Nat.min_eq_left (by omega), htake _ (by omega)] at r1 r5
      rw [List.take_take, Nat.min_eq_left (by omega), htake _ (by omega)] at r6
      exact ⟨L2, m, Q2, r1, r2, r3, r4, r5, r6⟩
    · refine ⟨L', memAt c.v c.m0 F, Q, (List.take_prefix _ _).trans hL, hq, memAt_wf hs.wf F, hp, ?_⟩
      have hdF : d < F.length := lt_of_lt_of_le hd hLF.length_le
      by_cases hone : ∃ i x m, d ≤ i ∧ F[i]? = some x ∧ memOf c.v x = some m
      · obtain ⟨i, x, m, hdi, ha, hm⟩ := hone
        have hother : ∀ j b, d ≤ j → j ≠ i → F[j]? = some b → memOf c.v b = none := by
          intro j b hdj hji hb
          by_contra hn
          have hbs : (memOf c.v b).isSome := by
            cases hx : memOf c.v b with
            | none => exact absurd hx hn
            | some _ => rfl
          rcases Nat.lt_or_ge j i with h | h
          · exact htwo ⟨j, i, b, x, hdj, h, hb, ha, hbs, by rw [hm]; rfl⟩
          · exact htwo ⟨i, j, x, b, hdi, by omega, ha, hb, by rw [hm]; rfl, hbs⟩
        have hi : i < F.length := (List.getElem?_eq_some_iff.mp ha).1
        have hpre : memAt c.v c.m0 (F.take i) = memAt c.v c.m0 (L.take d) := by
          rw [← htake d (by omega)]
          have : F.take i = F.take d ++ (F.take i).drop d := by
            conv_lhs => rw [← List.take_append_drop d (F.take i)]
            rw [List.take_take, Nat.min_eq_left hdi]
          rw [this, memAt_append]
          refine memAt_of_none _ _ _ ?_
          intro e he
          obtain ⟨k, hk⟩ := List.mem_iff_getElem?.mp he
          rw [List.getElem?_drop, List.getElem?_take] at hk
          split at hk
          · exact hother (d + k) e (by omega) (by omega) hk
          · cases hk
        have hpost : memAt c.v c.m0 F = m := by
          have : F = F.take (i + 1) ++ F.drop (i + 1) := (List.take_append_drop _ _).symm
          rw [this, memAt_append, List.take_add_one, ha, memAt_append]
          rw [memAt_of_none _ (F.drop (i + 1))]
          · show memAfter c.v _ x = m
            unfold memAfter
            rw [hm]
          · intro e he
            obtain ⟨k, hk⟩ := List.mem_iff_getElem?.mp he
            rw [List.getElem?_drop] at hk
            exact hother (i + 1 + k) e (by omega) (by omega) hk
        obtain ⟨ld, hv⟩ := hc i x m ha hm
        rw [hpre] at hv
        have hK := hk.K (List.mem_of_getElem? ha) hm
        obtain ⟨z1, z2⟩ := hs.size x m hK hm
        rw [hpost]
        refine ⟨near_of_progression (memAt_wf hs.wf _) (memOf_wf hm) z1 (by omega) hv, ?_⟩
        rcases hpair with h | h
        · exact .inl h
        · refine .inr (fun _ => ?_)
          rw [List.toFinset_card_of_nodup (memOf_wf hm).voting.nodup]
          exact (h x m hK hm).imp_right (fun e => by simp [e])
      · have hnone : memAt c.v c.m0 F = memAt c.v c.m0 (L.take d) := by
          rw [← htake d (by omega)]
          conv_lhs => rw [← List.take_append_drop d F]
          rw [memAt_append]
          refine memAt_of_none _ _ _ ?_
          intro e he
          obtain ⟨k, hk⟩ := List.mem_iff_getElem?.mp he
          rw [List.getElem?_drop] at hk
          cases hm : memOf c.v e with
          | none => rfl
          | some m => exact absurd ⟨d + k, e, m, by omega, hk, hm⟩ hone
        rw [hnone]
        exact ⟨.same rfl, .inr (fun h => absurd h (ssubset_irrefl _))⟩

theorem Com.kinds {c : Ctx P} {σ : St P} {L : List Entry} (h : Com c σ L) : Kinds c L := by
  cases h with
  | nil => intro e he; cases he
  | mk _ L' F Q hL hF hq hp hc hk hs => exact fun e he => hk e ((hL.trans hF).subset he)

theorem Changes.prefix {c : Ctx P} {L F : List Entry} (h : Changes c F) (hp : L <+: F) : Changes c L := by
  intro i e m hi hm
  obtain ⟨t, rfl⟩ := hp
  have hi' := (List.getElem?_eq_some_iff.mp hi).1
  have := h i e m (by rw [List.getElem?_append_left hi']; exact hi) hm
  rw [List.take_append_of_le_length (by omega)] at this
  exact this

theorem Com.changes {c : Ctx P} {σ : St P} {L : List Entry} (h : Com c σ L) : Changes c L := by
  cases h with
  | nil => intro i e m hi; simp at hi
  | mk _ L' F Q hL hF hq hp hc hk hs => exact hc.prefix (hL.trans hF)

/-- Lists that are not comparable differ somewhere. -/
theorem differ {A B : List Entry} (h : ¬ (A <+: B ∨ B <+: A)) :
    ∃ d, d < A.length ∧ d < B.length ∧ A.take d = B.take d ∧ A.take (d + 1) ≠ B.take (d + 1) := by
  induction A generalizing B with
  | nil => exact absurd (.inl List.nil_prefix) h
  | cons a A ih =>
    cases B with
    | nil => exact absurd (.inr List.nil_prefix) h
    | cons b B =>
      by_cases hab : a = b
      · subst hab
        obtain ⟨d, h1, h2, h3, h4⟩ := ih (B := B) (fun hc => h (hc.imp (fun p => (List.prefix_cons_inj a).mpr p) (fun p => (List.prefix_cons_inj a).mpr p)))
        exact ⟨d + 1, by simpa using h1, by simpa using h2, by simp [h3], by simpa using h4⟩
      · exact ⟨0, by simp, by simp, by simp, by simpa using hab⟩

/-- Committed histories are comparable, also when the membership changes, for a super majority of at least 1. -/
theorem Com.agree {c : Ctx P} {σ : St P} {L L' : List Entry} (hs : Sane c) (h : Com c σ L) (h' : Com c σ L') : L <+: L' ∨ L' <+: L := by
  by_contra hn
  obtain ⟨d, h1, h2, h3, h4⟩ := differ hn
  obtain ⟨a, hpair⟩ : ∃ a, c.sm = 1 ∨ ∀ e m, c.K e.inner → memOf c.v e = some m → 2 ≤ m.voting.length ∨ m.voting = [a] := by
    rcases hs.pair with h | ⟨a, h⟩
    · obtain ⟨a, _⟩ := List.exists_mem_of_ne_nil _ hs.ne
      exact ⟨a, .inl h⟩
    · exact ⟨a, .inr h⟩
  obtain ⟨M, m, Q, r1, r2, r3, r4, r5, r6⟩ := h.record hs hpair d h1
  obtain ⟨M', m', Q', r1', r2', r3', r4', r5', r6'⟩ := h'.record hs hpair d h2
  rw [← h3] at r5' r6'
  have hk : Kinds c (L.take d) := (h.prefix (List.take_prefix d L)).kinds
  have hV : (memAt c.v c.m0 (L.take d)).voting.length + 1 < 2 ^ 63 :=
    memAt_ind (fun m => m.voting.length + 1 < 2 ^ 63) _ _ hs.len (fun e he m hm => (hs.size e m (hk.K he hm) hm).2)
  have hwf := memAt_wf (v := c.v) hs.wf (L.take d)
  have hnn : (memAt c.v c.m0 (L.take d)).voting.toFinset.Nonempty := by
    have hch : Changes c (L.take d) := (h.prefix (List.take_prefix d L)).changes
    -- the last membership is the first, or was accepted
    have : ∀ (R : List Entry), Changes c R → Kinds c R → (memAt c.v c.m0 R).voting ≠ [] := by
      intro R
      refine List.reverseRecOn R (fun _ _ => hs.ne) ?_
      intro R e ih hch hk
      rw [memAt_append]
      show (memAfter c.v _ e).voting ≠ []
      unfold memAfter
      cases hm : memOf c.v e with
      | none =>
        exact ih (hch.prefix (List.prefix_append _ _)) (fun x hx => hk x (List.mem_append_left _ hx))
      | some m =>
        obtain ⟨ld, hv⟩ := hch R.length e m (by simp) hm
        have z := hs.size e m (hk.K (by simp) hm) hm
        have := ((C25_progression_exact ld c.sm _ m (memAt_wf hs.wf _) (memOf_wf hm) z.1 (by omega)).mp hv).leaderVotes
        exact List.ne_nil_of_mem (List.mem_toFinset.mp this)
    have := this _ hch hk
    obtain ⟨x, hx⟩ := List.exists_mem_of_ne_nil _ this
    exact ⟨x, List.mem_toFinset.mpr hx⟩
  obtain ⟨x, hx⟩ := near_quorums hs.one hs.sm (by rw [List.toFinset_card_of_nodup hwf.voting.nodup]; exact hV) hnn r5 r5'
    (r2.quorum r3) (r2'.quorum r3')
    (r6.elim .inl (fun p => r6'.elim .inl (fun p' => .inr ⟨a, p, p'⟩)))
  rw [Finset.mem_inter, List.mem_toFinset, List.mem_toFinset] at hx
  have hcmp := comparable_of_prefix ((r4 x hx.1).comparable (r4' x hx.2)) r1 r1'
  have l1 : (L.take (d + 1)).length = d + 1 := by rw [List.length_take]; omega
  have l2 : (L'.take (d + 1)).length = d + 1 := by rw [List.length_take]; omega
  rcases hcmp with hc | hc
  · exact h4 (hc.eq_of_length (by rw [l1, l2]))
  · exact h4 (hc.eq_of_length (by rw [l1, l2])).symm

end Svr.Raft
