import Verif.MerkleInv

/-!
# Verification of a leaf, with the hashes in memory as they are or tampered with
-/

namespace Svr.Merkle
variable {α : Type} [DecidableEq α] {H : List α → α} {zero : α}
variable {lvl : Nat → Nat} {exc : Nat → Prop}

/-- The loop of `Leaf::Verify` ends, and returns whether all nodes on the way up match. -/
theorem verifyUp_spec : ∀ (f : Nat) {t : Tree α} {n : Nat} {r : Node}, Ok lvl t exc → t.nodes n = some r → t.height + 1 < lvl n + f →
    ∃ b, verifyUp H f t (some n) = .ok b ∧ (b = true ↔ ∀ m r, t.nodes m = some r → Up t.nodes n m → Clean H t.mem m r)
  | 0, t, n, r, hw, hn, hf => by have := hw.top n r hn; omega
  | f + 1, t, n, r, hw, hn, hf => by
    have hlv := hw.top n r hn
    have hv : rd t r.hp = .ok (t.mem r.hp) := by unfold rd; rw [if_pos (hw.valid_hp (fun _ _ h => h) hn)]
    unfold verifyUp
    rw [getNode_ok hn, Out.bind_ok, hv, Out.bind_ok]
    by_cases hc : H (hashes t n) = t.mem r.hp
    · rw [if_pos hc]
      cases hp : r.parent with
      | none =>
        obtain ⟨f', rfl⟩ : ∃ f', f = f' + 1 := ⟨f - 1, by omega⟩
        refine ⟨true, rfl, iff_of_true rfl ?_⟩
        intro m r' hm hu
        cases hu with
        | refl => rw [hn] at hm; cases hm; exact hc.symm
        | step a b c => rw [hn] at a; cases a; rw [hp] at b; cases b
      | some p =>
        have hne : n ≠ t.root := by
          rintro rfl
          obtain ⟨r0, z1, z2, _⟩ := hw.rootN
          rw [hn] at z1; cases z1
          rw [hp] at z2; cases z2
        obtain ⟨p', i, q, e1, e2, e3, e4, e5⟩ := hw.up n r hn hne
        rw [hp] at e1; cases e1
        obtain ⟨b, c1, c2⟩ := verifyUp_spec f hw e3 (by omega)
        refine ⟨b, c1, c2.trans ⟨?_, ?_⟩⟩
        · intro h m r' hm hu
          cases hu with
          | refl => rw [hn] at hm; cases hm; exact hc.symm
          | step a b c => rw [hn] at a; cases a; rw [hp] at b; cases b; exact h m r' hm c
        · intro h m r' hm hu
          exact h m r' hm (Up.step hn hp hu)
    · rw [if_neg hc]
      refine ⟨false, rfl, iff_of_false (by simp) ?_⟩
      intro h
      exact hc (h n r hn (Up.refl _)).symm

/-- `Leaf::Verify` returns whether the leaf's hash and all nodes on the way up match. -/
theorem verify_spec {t : Tree α} {l p : Nat} {hp : HPtr} (hw : Ok lvl t exc) (hl : t.leaves l = some ⟨some p, some hp⟩) (h : α) :
    ∃ b, verify H t l h = .ok b ∧ (b = true ↔ h = t.mem hp ∧ ∀ m r, t.nodes m = some r → Up t.nodes p m → Clean H t.mem m r) := by
  obtain ⟨i, q, a1, a2, a3, a4, a5⟩ := hw.leafAt hl
  subst a1
  unfold verify getLeaf
  rw [hl]
  simp only [Out.bind_ok, deref, rd, valid, a2, a4, Option.isSome_some, decide_true, Bool.and_true, if_true]
  by_cases e : h = t.mem (.slot p i)
  · rw [if_pos e]
    obtain ⟨b, c1, c2⟩ := verifyUp_spec (H := H) (t.height + 2) hw a2 (by omega)
    exact ⟨b, c1, c2.trans ⟨fun h => ⟨e, h⟩, fun h => h.2⟩⟩
  · rw [if_neg e]
    exact ⟨false, rfl, iff_of_false (by simp) (fun h => e h.1)⟩

/-- With the root hash intact and no collision, nodes that verify hold what they should. -/
theorem untouched {t : Tree α} {mem' : HPtr → α} (hw : Ok lvl t exc) (hroot : mem' .root = t.mem .root) : ∀ (k : Nat) {n : Nat} {r : Node},
    t.nodes n = some r → t.height ≤ lvl n + k →
    (∀ m r, t.nodes m = some r → Up t.nodes n m → Clean H t.mem m r) →
    (∀ m r, t.nodes m = some r → Up t.nodes n m → Clean H mem' m r) →
    (∀ m, Up t.nodes n m → H (hashesIn mem' m) = H (hashesIn t.mem m) → hashesIn mem' m = hashesIn t.mem m) →
    hashesIn mem' n = hashesIn t.mem n := by
  intro k
  induction k with
  | zero =>
    intro n r hn hk h1 h2 h3
    have hnr : n = t.root := by
      by_contra hne
      obtain ⟨p, i, q, _, _, e3, _, e5⟩ := hw.up n r hn hne
      have := hw.top p q e3
      omega
    obtain ⟨r0, z1, _, z3⟩ := hw.rootN
    rw [← hnr, hn] at z1; cases z1
    have c1 := h1 n r hn (Up.refl _)
    have c2 := h2 n r hn (Up.refl _)
    unfold Clean at c1 c2
    rw [z3] at c1 c2
    exact h3 n (Up.refl _) (by rw [← c1, ← c2, hroot])
  | succ k ih =>
    intro n r hn hk h1 h2 h3
    have c1 := h1 n r hn (Up.refl _)
    have c2 := h2 n r hn (Up.refl _)
    unfold Clean at c1 c2
    refine h3 n (Up.refl _) ?_
    rw [← c1, ← c2]
    by_cases hnr : n = t.root
    · obtain ⟨r0, z1, _, z3⟩ := hw.rootN
      rw [← hnr, hn] at z1; cases z1
      rw [z3, hroot]
    · obtain ⟨p, i, q, e1, e2, e3, e4, e5⟩ := hw.up n r hn hnr
      have := ih e3 (by omega) (fun m r hm hu => h1 m r hm (Up.step hn e1 hu)) (fun m r hm hu => h2 m r hm (Up.step hn e1 hu))
        (fun m hu => h3 m (Up.step hn e1 hu))
      have hi := lt_width hw e3 e4
      unfold hashesIn at this
      rw [e2]
      exact List.map_inj_left.mp this i (by simpa using hi)

/-- Going up by a number of steps. -/
inductive Steps (g : Nat → Option Node) : Nat → Nat → Nat → Prop
  | done (n : Nat) : Steps g 0 n n
  | up {k n p m : Nat} {r : Node} : g n = some r → r.parent = some p → Steps g k p m → Steps g (k + 1) n m

theorem steps_root {t : Tree α} (hw : Ok lvl t exc) : ∀ (k : Nat) {n : Nat} {r : Node}, t.nodes n = some r → t.height = lvl n + k →
    Steps t.nodes k n t.root
  | 0, n, r, hn, hk => by
    have hnr : n = t.root := by
      by_contra hne
      obtain ⟨p, i, q, _, _, e3, _, e5⟩ := hw.up n r hn hne
      have := hw.top p q e3
      omega
    subst hnr
    exact Steps.done _
  | k + 1, n, r, hn, hk => by
    have hne : n ≠ t.root := by
      rintro rfl
      have := hw.rootL
      omega
    obtain ⟨p, i, q, e1, _, e3, _, e5⟩ := hw.up n r hn hne
    exact Steps.up hn e1 (steps_root hw k e3 (by omega))

end Svr.Merkle
