import Verif.MerkleEnd

/-!
# Properties of the Merkle tree (C20, C21, C22)

A history is any list of operations that the table of leaves (Verif/Spec/Leaves.lean) permits: addresses of new leaves are
free, and operations are applied to existing leaves that were not moved from. `H` is the hash of a node's child hashes and
is arbitrary; where no collisions are needed, the inputs on which it must not collide are named.
-/

namespace Svr.Props.Merkle
open Svr.Merkle
variable {α : Type} [DecidableEq α]

/-- A new tree, then a history. -/
def play (H : List α → α) (zero : α) (os : List (Op α)) : Out (Tree α) := do run H zero (← newTree H zero) os

theorem play_inv (H : List α → α) (zero : α) {os : List (Op α)} {s : Table α} (hs : Table.empty.run os = some s) :
    ∃ t, play H zero os = .ok t ∧ Inv H zero s t := by
  obtain ⟨t, a1, a2⟩ := Inv.new (H := H) (zero := zero)
  obtain ⟨t', b1, b2⟩ := a2.run os hs
  exact ⟨t', by unfold play; rw [a1, Out.bind_ok]; exact b1, b2⟩

/-- **C20**. After any history at whose end every leaf has had its first update, each live leaf verifies with the hash of
its last update and with no other hash. -/
theorem C20_verify (H : List α → α) (zero : α) (os : List (Op α)) (s : Table α) (hs : Table.empty.run os = some s) (hset : s.settled) :
    ∃ t, play H zero os = .ok t ∧ ∀ l h, s l = some (.val h) → ∀ h', verify H t l h' = .ok (decide (h' = h)) := by
  obtain ⟨t, a1, a2⟩ := play_inv H zero hs
  refine ⟨t, a1, ?_⟩
  intro l h hl h'
  obtain ⟨lvl, hw⟩ := a2.wf
  obtain ⟨p, hp, b1, b2⟩ := a2.val l h hl
  obtain ⟨b, c1, c2⟩ := verify_spec (H := H) hw b1 h'
  rw [c1]
  congr 1
  rw [Bool.eq_iff_iff, c2, decide_eq_true_iff, b2]
  refine and_iff_left ?_
  intro m r hm _
  rcases a2.clean m r hm with hc | ⟨l', _, _, e, _⟩
  · exact hc
  · exact absurd e (hset l')

/-- C20, without the condition on first updates: no hash but that of the last update is ever accepted. -/
theorem C20_only_last (H : List α → α) (zero : α) (os : List (Op α)) (s : Table α) (hs : Table.empty.run os = some s) :
    ∃ t, play H zero os = .ok t ∧ ∀ l h, s l = some (.val h) → ∀ h', h' ≠ h → verify H t l h' = .ok false := by
  obtain ⟨t, a1, a2⟩ := play_inv H zero hs
  refine ⟨t, a1, ?_⟩
  intro l h hl h' hne
  obtain ⟨lvl, hw⟩ := a2.wf
  obtain ⟨p, hp, b1, b2⟩ := a2.val l h hl
  obtain ⟨b, c1, c2⟩ := verify_spec (H := H) hw b1 h'
  rw [c1]
  cases b with
  | false => rfl
  | true => exact absurd ((c2.mp rfl).1.trans b2) hne

/-- The leaf at `l`, and all nodes on the way up from it. -/
def OnPath (t : Tree α) (l n : Nat) : Prop := ∃ r p, t.leaves l = some r ∧ r.parent = some p ∧ Up t.nodes p n

/-- **C21**. Whatever is written over the hashes in memory: if on the path of the leaf there is a node whose child hashes
changed while the hash kept for it one level up did not, and the change is no collision, then no hash is accepted. -/
theorem C21_stale_node (H : List α → α) (zero : α) (os : List (Op α)) (s : Table α) (hs : Table.empty.run os = some s) (hset : s.settled) :
    ∃ t, play H zero os = .ok t ∧ ∀ l n r mem', OnPath t l n → t.nodes n = some r → mem' r.hp = t.mem r.hp →
      H (hashesIn mem' n) ≠ H (hashesIn t.mem n) → ∀ h', verify H { t with mem := mem' } l h' = .ok false := by
  obtain ⟨t, a1, a2⟩ := play_inv H zero hs
  refine ⟨t, a1, ?_⟩
  intro l n r mem' hp hn hk hne h'
  obtain ⟨lvl, hw⟩ := a2.wf
  obtain ⟨rl, p, b1, b2, b3⟩ := hp
  obtain ⟨i, q, b4, _⟩ := hw.upLeaf l rl p b1 b2
  have b5 : t.leaves l = some ⟨some p, some (.slot p i)⟩ := by cases rl; simp_all
  obtain ⟨b, c1, c2⟩ := verify_spec (H := H) (t := { t with mem := mem' }) hw b5 h'
  rw [c1]
  cases b with
  | false => rfl
  | true =>
    exfalso
    have h1 : Clean H mem' n r := (c2.mp rfl).2 n r hn b3
    rcases a2.clean n r hn with h2 | ⟨l', _, _, e, _⟩
    · unfold Clean at h1 h2
      exact hne (by rw [← h1, ← h2, hk])
    · exact hset l' e

/-- C21, for any tampering that leaves the tree's own `roothash_`: a leaf still accepts at most its own last hash, unless
the attacker found a collision at a node on its path. In particular no earlier hash of the leaf is accepted. -/
theorem C21_rollback (H : List α → α) (zero : α) (os : List (Op α)) (s : Table α) (hs : Table.empty.run os = some s) (hset : s.settled) :
    ∃ t, play H zero os = .ok t ∧ ∀ l h mem', s l = some (.val h) → mem' .root = t.mem .root →
      (∀ n, OnPath t l n → H (hashesIn mem' n) = H (hashesIn t.mem n) → hashesIn mem' n = hashesIn t.mem n) →
      ∀ h', h' ≠ h → verify H { t with mem := mem' } l h' = .ok false := by
  obtain ⟨t, a1, a2⟩ := play_inv H zero hs
  refine ⟨t, a1, ?_⟩
  intro l h mem' hl hroot hcol h' hne
  obtain ⟨lvl, hw⟩ := a2.wf
  obtain ⟨p, hp, b1, b2⟩ := a2.val l h hl
  obtain ⟨i, q, d1, d2, d3, d4, _⟩ := hw.leafAt b1
  subst d1
  obtain ⟨b, c1, c2⟩ := verify_spec (H := H) (t := { t with mem := mem' }) hw b1 h'
  rw [c1]
  cases b with
  | false => rfl
  | true =>
    exfalso
    obtain ⟨e1, e2⟩ := c2.mp rfl
    have := untouched (H := H) (mem' := mem') hw hroot t.height d2 (by omega)
      (fun m r hm _ => by
        rcases a2.clean m r hm with h2 | ⟨l', _, _, e, _⟩
        · exact h2
        · exact absurd e (hset l'))
      e2 (fun m hu => hcol m ⟨_, p, b1, rfl, hu⟩)
    unfold hashesIn at this
    have := List.map_inj_left.mp this i (by simpa using d4)
    exact hne (by rw [e1, ← b2]; exact this)

/-- **C22**. No history fails a `CHECK` or touches memory that is not there: no insertion into a full node, no removal of a
part that is no child, no use of a freed node, no freeing of a node with children. -/
theorem C22_safe (H : List α → α) (zero : α) (os : List (Op α)) (s : Table α) (hs : Table.empty.run os = some s) :
    ∃ t, play H zero os = .ok t := by
  obtain ⟨t, a1, _⟩ := play_inv H zero hs
  exact ⟨t, a1⟩

/-- C22, the depth: from the parent of every leaf it is `height` steps up to the root, which has no parent. -/
theorem C22_depth (H : List α → α) (zero : α) (os : List (Op α)) (s : Table α) (hs : Table.empty.run os = some s) :
    ∃ t, play H zero os = .ok t ∧ (∃ r, t.nodes t.root = some r ∧ r.parent = none) ∧
      ∀ l, s l ≠ none → s l ≠ some .moved → ∃ r p, t.leaves l = some r ∧ r.parent = some p ∧ Steps t.nodes t.height p t.root := by
  obtain ⟨t, a1, a2⟩ := play_inv H zero hs
  obtain ⟨lvl, hw⟩ := a2.wf
  obtain ⟨r0, z1, z2, _⟩ := hw.rootN
  refine ⟨t, a1, ⟨r0, z1, z2⟩, ?_⟩
  intro l h1 h2
  have : ∃ p hp, t.leaves l = some ⟨some p, some hp⟩ := by
    match h : s l with
    | none => exact absurd h h1
    | some .moved => exact absurd h h2
    | some .fresh => exact a2.fresh l h
    | some (.val v) =>
      obtain ⟨p, hp, c, _⟩ := a2.val l v h
      exact ⟨p, hp, c⟩
  obtain ⟨p, hp, hl⟩ := this
  obtain ⟨i, q, _, b2, b3, _⟩ := hw.leafAt hl
  have h0 := (hw.downLeaf p q i l b2 b3).1
  exact ⟨_, p, hl, rfl, steps_root hw t.height b2 (by omega)⟩

/-- C22, the slots: different leaves have their hashes in different places. -/
theorem C22_slots (H : List α → α) (zero : α) (os : List (Op α)) (s : Table α) (hs : Table.empty.run os = some s) :
    ∃ t, play H zero os = .ok t ∧ ∀ l l' r r' hp, t.leaves l = some r → t.leaves l' = some r' → r.hp = some hp → r'.hp = some hp → l = l' := by
  obtain ⟨t, a1, a2⟩ := play_inv H zero hs
  obtain ⟨lvl, hw⟩ := a2.wf
  refine ⟨t, a1, ?_⟩
  have hpar : ∀ l r hp, t.leaves l = some r → r.hp = some hp → ∃ p, r = ⟨some p, some hp⟩ := by
    intro l r hp h1 h2
    cases r with
    | mk pa h =>
      simp only at h2
      subst h2
      cases pa with
      | none => have := hw.nullLeaf l _ h1 rfl; cases this
      | some p => exact ⟨p, rfl⟩
  intro l l' r r' hp h1 h2 h3 h4
  obtain ⟨p, rfl⟩ := hpar l r hp h1 h3
  obtain ⟨p', rfl⟩ := hpar l' r' hp h2 h4
  obtain ⟨i, q, b1, b2, b3, _⟩ := hw.leafAt h1
  obtain ⟨i', q', c1, c2, c3, _⟩ := hw.leafAt h2
  rw [b1] at c1; cases c1
  rw [b2] at c2; cases c2
  rw [b3] at c3; cases c3; rfl

/-- C22, the destructor: when all leaves are gone, `~Tree` frees every node. -/
theorem C22_end (H : List α → α) (zero : α) (os : List (Op α)) (s : Table α) (hs : Table.empty.run os = some s) (hno : ∀ l, s l = none) :
    ∃ t t', play H zero os = .ok t ∧ destroyTree H zero t = .ok t' ∧ ∀ n, t'.nodes n = none := by
  obtain ⟨t, a1, a2⟩ := play_inv H zero hs
  obtain ⟨lvl, hw⟩ := a2.wf
  obtain ⟨t', b1, b2⟩ := destroyTree_spec (H := H) (zero := zero) hw (fun l r p h => by rw [a2.dom l (hno l)] at h; cases h)
  exact ⟨t, t', a1, b1, b2⟩

/-! ## Examples -/

/-- A hash without collisions on the examples below. -/
def toyH (l : List Nat) : Nat := l.foldl (fun a x => a * 1000003 + x + 1) 7

/-- Make a leaf and update it. -/
def mk (l : Nat) : List (Op Nat) := [.create l, .update l (100 + l)]

/-- 31 leaves, which makes a tree of height 2, then some moves and the removal of all leaves of the first node. -/
def hist : List (Op Nat) :=
  (List.range 31).flatMap mk ++ [.move 7 40, .destroy 7, .destroy 0, .destroy 3, .destroy 1, .destroy 4, .destroy 2, .update 40 5, .create 0, .update 0 77]

/-- The history is permitted and every leaf is updated. -/
example : (Table.empty.run hist).isSome = true ∧ (∀ s ∈ Table.empty.run hist, (List.range 50).all fun l => s l ≠ some .fresh) ∧
    (∀ s ∈ Table.empty.run hist, s 40 = some (.val 5) ∧ s 0 = some (.val 77) ∧ s 7 = none) := by decide +kernel

/-- Its tree has height 2; leaves verify with their last hash, and not with an earlier one. -/
example : (do let t ← play toyH 0 hist; .ok (t.height, (← verify toyH t 40 5), (← verify toyH t 40 107), (← verify toyH t 30 130), (← verify toyH t 0 77))) =
    Out.ok (2, true, false, true, true) := by decide +kernel

/-- A stale node: a node on the path of leaf 0 whose hashes were replaced by zeros. -/
example : (do
      let t ← play toyH 0 hist
      let r ← getLeaf t 0
      let p ← deref r.parent
      verify toyH { t with mem := fun h => match h with | .root => t.mem .root | .slot m i => if m = p then 0 else t.mem (.slot m i) } 0 77) =
    Out.ok false := by decide +kernel

/-- A leaf that was never updated may make others fail to verify, so the condition in `C20_verify` is needed. -/
example : (do
      let t ← play toyH 0 ((List.range 5).flatMap mk ++ [.create 5])
      verify toyH t 0 100) = Out.ok false := by decide +kernel

/-- A history with nothing left, and its destructor. -/
example : (do
      let t ← play toyH 0 ((List.range 7).flatMap mk ++ (List.range 7).map fun l => .destroy l)
      let t' ← destroyTree toyH 0 t
      .ok ((List.range 10).all fun n => (t'.nodes n).isNone)) = Out.ok true := by decide +kernel

end Svr.Props.Merkle
