import Verif.Bytes
import Verif.Raft.Membership
import Mathlib.Algebra.Order.Group.Finset
import Mathlib.Tactic.Tauto

/-!
# C24, C25: quorums and membership changes

The specification is on finite sets.
-/

namespace Svr.Props.Membership

open Svr Svr.Raft

variable {P : Type} [LinearOrder P]

/-! ## C25 -/

/-- The permitted changes of a group `A` with voters `V`. -/
inductive OneStep (A V A' V' : Finset P) : Prop
  | join (x : P) (h : x ∉ A) (ha : A' = insert x A) (hv : V' = V)
  | leave (x : P) (h : x ∈ A) (ha : A' = A.erase x) (hv : V' = V)
  | promote (x : P) (h : x ∉ V) (ha : A' = A) (hv : V' = insert x V)
  | demote (x : P) (h : x ∈ V) (ha : A' = A) (hv : V' = V.erase x)
  | depart (x : P) (h : x ∈ A) (h' : x ∈ V) (ha : A' = A.erase x) (hv : V' = V.erase x)

/-- What a leader accepts. -/
structure Acceptable (leader : P) (s : Nat) (A V A' V' : Finset P) : Prop where
  step : OneStep A V A' V'
  leaderVotes : leader ∈ V'
  subset : V' ⊆ A'
  superMajority : s < V.card → s < V'.card

def Membership.A (m : Raft.Membership P) : Finset P := m.all.toFinset
def Membership.V (m : Raft.Membership P) : Finset P := m.voting.toFinset

theorem sdiff_same {X Y : Finset P} (h1 : (X \ Y).card = 0) (h2 : (Y \ X).card = 0) : X = Y :=
  Finset.Subset.antisymm (Finset.sdiff_eq_empty_iff_subset.mp (Finset.card_eq_zero.mp h1))
    (Finset.sdiff_eq_empty_iff_subset.mp (Finset.card_eq_zero.mp h2))

theorem sdiff_erase {X Y : Finset P} (h1 : (Y \ X).card = 0) (h2 : (X \ Y).card = 1) : ∃ x, X \ Y = {x} ∧ x ∈ X ∧ Y = X.erase x := by
  obtain ⟨x, hx⟩ := Finset.card_eq_one.mp h2
  have hsub := Finset.sdiff_eq_empty_iff_subset.mp (Finset.card_eq_zero.mp h1)
  have hxm : x ∈ X \ Y := by rw [hx]; simp
  have hxx := Finset.mem_sdiff.mp hxm
  refine ⟨x, hx, hxx.1, ?_⟩
  ext y
  rw [Finset.mem_erase]
  constructor
  · intro hy; exact ⟨fun h => hxx.2 (h ▸ hy), hsub hy⟩
  · rintro ⟨hne, hy⟩
    by_contra hc
    have : y ∈ X \ Y := Finset.mem_sdiff.mpr ⟨hy, hc⟩
    rw [hx] at this
    exact hne (Finset.mem_singleton.mp this)

theorem sdiff_insert {X Y : Finset P} (h1 : (X \ Y).card = 0) (h2 : (Y \ X).card = 1) : ∃ x, x ∉ X ∧ Y = insert x X := by
  obtain ⟨x, -, hx, he⟩ := sdiff_erase h1 h2
  refine ⟨x, ?_, ?_⟩
  · rw [he]; simp
  · rw [he, Finset.insert_erase hx]

theorem card_erase_sdiff {X : Finset P} {x : P} (h : x ∈ X) : (X \ X.erase x) = {x} := by
  ext y; simp only [Finset.mem_sdiff, Finset.mem_erase, Finset.mem_singleton]
  constructor
  · rintro ⟨h1, h2⟩; by_contra hc; exact h2 ⟨hc, h1⟩
  · rintro rfl; exact ⟨h, fun h => h.1 rfl⟩

theorem card_sdiff_erase {X : Finset P} {x : P} : (X.erase x \ X) = ∅ :=
  Finset.sdiff_eq_empty_iff_subset.mpr (Finset.erase_subset _ _)

theorem card_insert_sdiff {X : Finset P} {x : P} (h : x ∉ X) : (insert x X \ X) = {x} := by
  ext y; simp only [Finset.mem_sdiff, Finset.mem_insert, Finset.mem_singleton]
  constructor
  · rintro ⟨h1 | h1, h2⟩
    · exact h1
    · exact absurd h1 h2
  · rintro rfl; exact ⟨.inl rfl, h⟩

theorem card_sdiff_insert {X : Finset P} {x : P} : (X \ insert x X) = ∅ :=
  Finset.sdiff_eq_empty_iff_subset.mpr (Finset.subset_insert _ _)

/-- The counting rule of the code, on finite sets. -/
theorem oneStep_iff {A V A' V' : Finset P} :
    OneStep A V A' V' ↔
      ((V' \ V).card + (V \ V').card + (A' \ A).card + (A \ A').card = 1 ∨
        ((V' \ V).card + (V \ V').card + (A' \ A).card + (A \ A').card = 2 ∧ (V \ V').card = 1 ∧ (A \ A').card = 1 ∧ V \ V' = A \ A')) := by
  constructor
  · intro h
    cases h with
    | join x h ha hv => subst ha hv; left; simp [card_insert_sdiff h, card_sdiff_insert]
    | leave x h ha hv => subst ha hv; left; simp [card_erase_sdiff h, card_sdiff_erase]
    | promote x h ha hv => subst ha hv; left; simp [card_insert_sdiff h, card_sdiff_insert]
    | demote x h ha hv => subst ha hv; left; simp [card_erase_sdiff h, card_sdiff_erase]
    | depart x h h' ha hv => subst ha hv; right; simp [card_erase_sdiff h, card_erase_sdiff h', card_sdiff_erase]
  · rintro (h | ⟨h, h1, h2, h3⟩)
    · by_cases c1 : (V' \ V).card = 1
      · obtain ⟨x, hx, e⟩ := sdiff_insert (X := V) (Y := V') (by omega) c1
        exact .promote x hx (sdiff_same (by omega) (by omega)) e
      by_cases c2 : (V \ V').card = 1
      · obtain ⟨x, -, hx, e⟩ := sdiff_erase (X := V) (Y := V') (by omega) c2
        exact .demote x hx (sdiff_same (by omega) (by omega)) e
      by_cases c3 : (A' \ A).card = 1
      · obtain ⟨x, hx, e⟩ := sdiff_insert (X := A) (Y := A') (by omega) c3
        exact .join x hx e (sdiff_same (by omega) (by omega))
      obtain ⟨x, -, hx, e⟩ := sdiff_erase (X := A) (Y := A') (by omega) (by omega)
      exact .leave x hx e (sdiff_same (by omega) (by omega))
    · obtain ⟨x, e1, hx, e⟩ := sdiff_erase (X := A) (Y := A') (by omega) h2
      obtain ⟨y, e2, hy, e'⟩ := sdiff_erase (X := V) (Y := V') (by omega) h1
      have : x = y := by
        rw [e1, e2] at h3
        exact (Finset.singleton_injective h3).symm
      subst this
      exact .depart x hx hy e e'

theorem single_eq {a b : List P} (ha : a.length = 1) (hb : b.length = 1) : a[0]? = b[0]? ↔ a.toFinset = b.toFinset := by
  obtain ⟨x, rfl⟩ := List.length_eq_one_iff.mp ha
  obtain ⟨y, rfl⟩ := List.length_eq_one_iff.mp hb
  simp

theorem filter_toFinset (a b : List P) : (a.filter (fun p => decide (p ∉ b))).toFinset = a.toFinset \ b.toFinset := by
  ext x; simp

theorem iteSome {a : Prop} [Decidable a] {α : Type} {x : Option α} {e : α} :
    (if a then some e else x) = none ↔ ¬ a ∧ x = none := by
  by_cases ha : a <;> simp [ha]

/-- **C25**: a leader accepts a change of membership exactly when it is one of the five single-step changes, keeps
the leader a voter, keeps voters inside the group and does not lose the super majority. For memberships of less than
2^64 replicas. -/
theorem C25_progression_exact (leader : P) (s : Nat) (m m' : Raft.Membership P) (hm : m.Wf) (hm' : m'.Wf)
    (hsz : m'.all.length < 2 ^ 64) (hsz' : m'.voting.length < 2 ^ 64) :
    validProgression leader m m' s = none ↔ Acceptable leader s (Membership.A m) (Membership.V m) (Membership.A m') (Membership.V m') := by
  have cV : m.voting.length = (Membership.V m).card := (List.toFinset_card_of_nodup hm.voting.nodup).symm
  have cV' : m'.voting.length = (Membership.V m').card := (List.toFinset_card_of_nodup hm'.voting.nodup).symm
  have cA' : m'.all.length = (Membership.A m').card := (List.toFinset_card_of_nodup hm'.all.nodup).symm
  have d1 := setDiffSize_card hm'.voting hm.voting
  have d2 := filter_card hm.voting m'.voting
  have d3 := setDiffSize_card hm'.all hm.all
  have d4 := filter_card hm.all m'.all
  have d5 := setDiffSize_card hm'.all hm'.voting
  have hlast : (leader ∈ m'.voting) → ((setDiffSize m'.all m'.voting ≠ (m'.all.length + SZ - m'.voting.length) % SZ) ↔ ¬ (Membership.V m' ⊆ Membership.A m')) := by
    intro _
    rw [d5, cA', cV']
    rw [cA'] at hsz
    rw [cV'] at hsz'
    change (Membership.A m' \ Membership.V m').card ≠ _ ↔ _
    rw [not_iff_not]
    have e1 := Finset.card_sdiff_add_card_inter (Membership.A m') (Membership.V m')
    constructor
    · intro h
      have hle : (Membership.A m' ∩ Membership.V m').card ≤ (Membership.V m').card := Finset.card_le_card Finset.inter_subset_right
      have : (Membership.A m' ∩ Membership.V m').card = (Membership.V m').card := by
        by_cases hc : (Membership.V m').card ≤ (Membership.A m').card
        · have : ((Membership.A m').card + SZ - (Membership.V m').card) % SZ = (Membership.A m').card - (Membership.V m').card := by
            rw [show (Membership.A m').card + SZ - (Membership.V m').card = ((Membership.A m').card - (Membership.V m').card) + SZ by unfold SZ; omega,
              Nat.add_mod_right, Nat.mod_eq_of_lt (by unfold SZ; omega)]
          omega
        · have : ((Membership.A m').card + SZ - (Membership.V m').card) % SZ = (Membership.A m').card + SZ - (Membership.V m').card :=
            Nat.mod_eq_of_lt (by unfold SZ; omega)
          have : SZ = 2 ^ 64 := rfl
          omega
      have := Finset.eq_of_subset_of_card_le (Finset.inter_subset_right (s₁ := Membership.A m') (s₂ := Membership.V m')) (by omega)
      rw [← this]; exact Finset.inter_subset_left
    · intro h
      rw [Finset.inter_eq_right.mpr h] at e1
      rw [show (Membership.A m').card + SZ - (Membership.V m').card = ((Membership.A m').card - (Membership.V m').card) + SZ by unfold SZ; omega,
        Nat.add_mod_right, Nat.mod_eq_of_lt (by unfold SZ; omega)]
      omega
  have hmv : leader ∈ m'.voting ↔ leader ∈ Membership.V m' := by simp [Membership.V]
  have hma : leader ∈ m'.all ↔ leader ∈ Membership.A m' := by simp [Membership.A]
  have hfilt : (m.voting.filter (fun p => decide (p ∉ m'.voting))).length = 1 → (m.all.filter (fun p => decide (p ∉ m'.all))).length = 1 →
      ((m.voting.filter (fun p => decide (p ∉ m'.voting)))[0]? = (m.all.filter (fun p => decide (p ∉ m'.all)))[0]? ↔
        Membership.V m \ Membership.V m' = Membership.A m \ Membership.A m') := by
    intro ha hb
    rw [single_eq ha hb, filter_toFinset, filter_toFinset]; rfl
  have hstep := oneStep_iff (A := Membership.A m) (V := Membership.V m) (A' := Membership.A m') (V' := Membership.V m')
  unfold validProgression
  simp only [iteSome]
  rw [d2, d4] at hfilt
  rw [d1, d2, d3, d4]
  simp only [Membership.A, Membership.V] at *
  generalize (m'.voting.toFinset \ m.voting.toFinset).card = a1 at *
  generalize (m'.all.toFinset \ m.all.toFinset).card = a3 at *
  generalize (m.voting.toFinset \ m'.voting.toFinset).card = a2 at *
  generalize (m.all.toFinset \ m'.all.toFinset).card = a4 at *
  constructor
  · rintro ⟨h1, h2, h3, h4, h5, h6, h7, -⟩
    have h5' : leader ∈ m'.voting := by simpa using h5
    refine ⟨hstep.mpr ?_, hmv.mp h5', ?_, by omega⟩
    · by_cases hc : a1 + a2 + a3 + a4 = 1
      · exact .inl hc
      · right
        have : a1 + a2 + a3 + a4 = 2 ∧ a2 = 1 ∧ a4 = 1 ∧
            (m.voting.filter (fun p => decide (p ∉ m'.voting)))[0]? = (m.all.filter (fun p => decide (p ∉ m'.all)))[0]? := by
          by_contra hn
          exact h3 ⟨hn, by omega⟩
        exact ⟨this.1, this.2.1, this.2.2.1, (hfilt this.2.1 this.2.2.1).mp this.2.2.2⟩
    · by_contra hn
      exact h7 ((hlast h5').mpr hn)
  · intro h
    have hl := hmv.mpr h.leaderVotes
    have hla := hma.mpr (h.subset h.leaderVotes)
    have hs := hstep.mp h.step
    have hsm := h.superMajority
    refine ⟨by omega, ?_, ?_, ?_, by simpa using hl, by simpa using hla, ?_, trivial⟩
    · have := List.length_pos_of_mem hl
      have := List.length_pos_of_mem hla
      omega
    · rintro ⟨hn, hgt⟩
      apply hn
      rcases hs with h | ⟨h, ha, hb, hcc⟩
      · omega
      · exact ⟨h, ha, hb, (hfilt ha hb).mpr hcc⟩
    · rcases hs with h | ⟨h, -⟩ <;> omega
    · rw [hlast hl]; simpa using h.subset

/-- **C25**: groups read from the wire are well formed: voters are members, exactly the listed replicas. -/
theorem C25_fromProto (g : List (Option P × Bool)) (m : Raft.Membership P) (h : fromProto g = .ok m) :
    m.Wf ∧ Membership.V m ⊆ Membership.A m ∧ (∀ x, x ∈ Membership.A m ↔ ∃ v, (some x, v) ∈ g) ∧
      (∀ x, x ∈ Membership.V m ↔ (some x, true) ∈ g) := by
  obtain ⟨h1, h2, h3, h4⟩ := fromProtoLoop_ok g ⟨[], []⟩ m ⟨List.Pairwise.nil, List.Pairwise.nil⟩ (by simp) h
  refine ⟨h1, ?_, ?_, ?_⟩
  · intro x hx
    simp only [Membership.V, Membership.A, List.mem_toFinset] at *
    exact h2 hx
  · intro x; simpa [Membership.A] using h3 x
  · intro x; simpa [Membership.V] using h4 x

/-- Adding 3 as a non-voter is accepted; adding it as a voter at once is not; 2 may leave in one step. -/
example : validProgression (P := Nat) 1 ⟨[1, 2], [1, 2]⟩ ⟨[1, 2, 3], [1, 2]⟩ 0 = none ∧
    validProgression (P := Nat) 1 ⟨[1, 2], [1, 2]⟩ ⟨[1, 2, 3], [1, 2, 3]⟩ 0 = some .tooMany ∧
    validProgression (P := Nat) 1 ⟨[1, 2], [1, 2]⟩ ⟨[1], [1]⟩ 0 = none ∧
    validProgression (P := Nat) 1 ⟨[1, 2], [1, 2]⟩ ⟨[1], [1]⟩ 1 = some .superMajorityLost ∧
    validProgression (P := Nat) 2 ⟨[1, 2], [1, 2]⟩ ⟨[1, 2], [1]⟩ 0 = some .leaderNotVoting := by decide

/-! ## C24 -/

/-- The quorum size without machine arithmetic. -/
theorem quorumSize_gt {v s : Nat} (h : s < v) (hv : v < 2 ^ 63) : quorumSize v s = (v - s) / 2 + 1 + s := by
  unfold quorumSize
  have : SZ = 2 ^ 64 := rfl
  rw [show v + SZ - s = (v - s) + SZ by omega, Nat.add_mod_right, Nat.mod_eq_of_lt (show v - s < SZ by omega),
    Nat.mod_eq_of_lt (by omega)]
  omega

theorem quorumSize_le {v s : Nat} (h : v ≤ s) (hs : s < 2 ^ 63) : quorumSize v s = v := by
  unfold quorumSize
  have : SZ = 2 ^ 64 := rfl
  by_cases he : v = s
  · subst he
    rw [show v + SZ - v = 0 + SZ by omega, Nat.add_mod_right, Nat.mod_eq_of_lt (show 0 < SZ by omega),
      Nat.mod_eq_of_lt (by omega)]
    omega
  · rw [Nat.mod_eq_of_lt (show v + SZ - s < SZ by omega)]
    rw [Nat.mod_eq_of_lt (by omega)]
    omega

/-- `Q` is a quorum of the voters `V`. -/
structure Quorum (s : Nat) (V Q : Finset P) : Prop where
  sub : Q ⊆ V
  size : quorumSize V.card s ≤ Q.card

/-- **C24**: a quorum is never larger than the voters. -/
theorem C24_quorum_exists (v s : Nat) : quorumSize v s ≤ v := Nat.min_le_left _ _

/-- **C24**: two quorums of the same voters share more replicas than the super majority, or, when there are no more
voters than that, all of them. -/
theorem C24_quorums_intersect {s : Nat} {V Q Q' : Finset P} (hv : V.card < 2 ^ 63) (hs : s < 2 ^ 63)
    (h : Quorum s V Q) (h' : Quorum s V Q') : min (s + 1) V.card ≤ (Q ∩ Q').card := by
  have hu : (Q ∪ Q').card ≤ V.card := Finset.card_le_card (Finset.union_subset h.sub h'.sub)
  have hc := Finset.card_union_add_card_inter Q Q'
  have h1 := h.size
  have h2 := h'.size
  by_cases hgt : s < V.card
  · rw [quorumSize_gt hgt hv] at h1 h2; omega
  · rw [quorumSize_le (by omega) hs] at h1 h2; omega

/-- **C24**: quorums before and after an accepted change of membership share more replicas than the super majority;
when the old voters are no more than that, they share all old voters. -/
theorem C24_quorums_intersect_across_change {leader : P} {s : Nat} {A V A' V' Q Q' : Finset P} (hv : V.card + 1 < 2 ^ 63)
    (hs : s < 2 ^ 63) (hc : Acceptable leader s A V A' V') (h : Quorum s V Q) (h' : Quorum s V' Q') :
    (s < V.card → s + 1 ≤ (Q ∩ Q').card) ∧ (V.card ≤ s → min V.card V'.card ≤ (Q ∩ Q').card) := by
  have hcard := Finset.card_union_add_card_inter Q Q'
  have h1 := h.size
  have h2 := h'.size
  have hsm := hc.superMajority
  have key : (V' = V) ∨ (∃ x, x ∉ V ∧ V' = insert x V) ∨ (∃ x, x ∈ V ∧ V' = V.erase x) := by
    cases hc.step with
    | join _ _ _ hv => exact .inl hv
    | leave _ _ _ hv => exact .inl hv
    | promote x h _ hv => exact .inr (.inl ⟨x, h, hv⟩)
    | demote x h _ hv => exact .inr (.inr ⟨x, h, hv⟩)
    | depart x _ h _ hv => exact .inr (.inr ⟨x, h, hv⟩)
  rcases key with rfl | ⟨x, hx, rfl⟩ | ⟨x, hx, rfl⟩
  · have := C24_quorums_intersect (by omega) hs h h'
    omega
  · have e := Finset.card_insert_of_notMem hx
    have hu : (Q ∪ Q').card ≤ (insert x V).card :=
      Finset.card_le_card (Finset.union_subset (h.sub.trans (Finset.subset_insert _ _)) h'.sub)
    rw [e] at h2 hu
    refine ⟨fun hgt => ?_, fun hle => ?_⟩
    · rw [quorumSize_gt hgt (by omega)] at h1
      rw [quorumSize_gt (by omega) hv] at h2
      omega
    · rw [quorumSize_le hle hs] at h1
      by_cases h3 : V.card + 1 ≤ s
      · rw [quorumSize_le h3 hs] at h2; omega
      · rw [quorumSize_gt (by omega) hv] at h2; omega
  · have e := Finset.card_erase_of_mem hx
    have hpos := Finset.card_pos.mpr ⟨x, hx⟩
    have hu : (Q ∪ Q').card ≤ V.card :=
      Finset.card_le_card (Finset.union_subset h.sub (h'.sub.trans (Finset.erase_subset _ _)))
    refine ⟨fun hgt => ?_, fun hle => ?_⟩
    · have := hsm hgt
      rw [quorumSize_gt hgt (by omega)] at h1
      rw [quorumSize_gt this (by omega)] at h2
      omega
    · rw [quorumSize_le hle hs] at h1
      rw [quorumSize_le (by omega) hs] at h2
      omega

/-- Five voters with super majority 1 need four: any two quorums share three, though two are required. -/
example : quorumSize 5 1 = 4 ∧ quorumSize 4 1 = 3 ∧ quorumSize 5 0 = 3 ∧ quorumSize 2 3 = 2 := by decide

example : Quorum 1 ({1, 2, 3, 4} : Finset Nat) {1, 2, 3} ∧ Quorum 1 ({1, 2, 3, 4, 5} : Finset Nat) {2, 3, 4, 5} ∧
    Acceptable 1 1 ({1, 2, 3, 4, 5} : Finset Nat) {1, 2, 3, 4} {1, 2, 3, 4, 5} {1, 2, 3, 4, 5} := by
  refine ⟨⟨by decide, by decide⟩, ⟨by decide, by decide⟩, ⟨.promote 5 (by decide) rfl (by decide), by decide, by decide, by decide⟩⟩

end Svr.Props.Membership
