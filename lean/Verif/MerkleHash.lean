import Verif.MerkleShape

/-!
# The hashes of a Merkle tree
-/

namespace Svr.Merkle
variable {α : Type} [DecidableEq α] {H : List α → α} {zero : α}
variable {lvl : Nat → Nat} {g : Nat → Option Node} {lf : Nat → Option Leaf} {root curr next L : Nat} {exc : Nat → Prop}

/-- The hash kept for node `m` is that of its `hashes_`. -/
def Clean (H : List α → α) (mem : HPtr → α) (m : Nat) (r : Node) : Prop := mem r.hp = H (hashesIn mem m)

/-- Going up along parent pointers. -/
inductive Up (g : Nat → Option Node) : Nat → Nat → Prop
  | refl (n : Nat) : Up g n n
  | step {n p m : Nat} {r : Node} : g n = some r → r.parent = some p → Up g p m → Up g n m

def put (m : HPtr → α) (h : HPtr) (x : α) : HPtr → α := fun k => if k = h then x else m k

theorem put_same (m : HPtr → α) (h : HPtr) (x : α) : put m h x h = x := if_pos rfl
theorem put_ne (m : HPtr → α) {h k : HPtr} (x : α) (hk : k ≠ h) : put m h x k = m k := if_neg hk

theorem hashesIn_congr {m m' : HPtr → α} {n : Nat} (h : ∀ i, m (.slot n i) = m' (.slot n i)) : hashesIn m n = hashesIn m' n := by
  unfold hashesIn
  exact List.map_congr_left fun i _ => h i

theorem hashesIn_put {m : HPtr → α} {n p i : Nat} {x : α} (h : n ≠ p) : hashesIn (put m (.slot p i) x) n = hashesIn m n :=
  hashesIn_congr fun j => put_ne _ _ (fun e => h (by cases e; rfl))

theorem hashesIn_put_root {m : HPtr → α} {n : Nat} {x : α} : hashesIn (put m .root x) n = hashesIn m n :=
  hashesIn_congr fun j => put_ne _ _ (fun e => by cases e)

/-- Different nodes keep their hashes in different places. -/
theorem Wf.hp_inj (h : Wf lvl g lf root curr next L exc) {n m : Nat} {r r' : Node} (hn : g n = some r) (hm : g m = some r')
    (e : r.hp = r'.hp) : n = m := by
  obtain ⟨r0, z1, z2, z3⟩ := h.rootN
  by_cases h1 : n = root
  · by_cases h2 : m = root
    · rw [h1, h2]
    · obtain ⟨p, i, q, _, e2, _⟩ := h.up m r' hm h2
      subst h1
      rw [hn] at z1; cases z1
      rw [z3, e2] at e; cases e
  · obtain ⟨p, i, q, _, e2, e3, e4, _⟩ := h.up n r hn h1
    by_cases h2 : m = root
    · subst h2
      rw [hm] at z1; cases z1
      rw [z3, e2] at e; cases e
    · obtain ⟨p', i', q', _, f2, f3, f4, _⟩ := h.up m r' hm h2
      rw [e2, f2] at e; cases e
      rw [e3] at f3; cases f3
      rw [e4] at f4; cases f4
      rfl

theorem lt_width (h : Wf lvl g lf root curr next L exc) {p i : Nat} {q : Node} {x : Option Ptr} (hp : g p = some q) (hc : q.ch[i]? = some x) :
    i < width := by
  have := (List.getElem?_eq_some_iff.mp hc).1
  rw [h.len p q hp] at this
  exact this

/-- The hash pointer of a node may be followed. -/
theorem Wf.valid_hp (h : Wf lvl g lf root curr next L exc) {t : Tree α} (hv : ∀ n r, g n = some r → t.nodes n = some r) {n : Nat} {r : Node}
    (hn : g n = some r) : valid t r.hp = true := by
  by_cases h1 : n = root
  · obtain ⟨r0, z1, z2, z3⟩ := h.rootN
    subst h1
    rw [hn] at z1; cases z1
    rw [z3]; rfl
  · obtain ⟨p, i, q, _, e2, e3, e4, _⟩ := h.up n r hn h1
    rw [e2]
    simp [valid, hv p q e3, lt_width h e3 e4]

theorem wr_ok {t : Tree α} {h : HPtr} {x : α} (hv : valid t h = true) : wr t h x = .ok { t with mem := put t.mem h x } := by
  unfold wr; rw [if_pos hv]; rfl

theorem getNode_ok {t : Tree α} {n : Nat} {r : Node} (h : t.nodes n = some r) : getNode t n = .ok r := by
  unfold getNode; rw [h]

/-- `Node::Update` changes hashes of nodes only, and leaves the nodes on the way up with correct hashes. -/
theorem updateNode_spec (hw : Wf lvl g lf root curr next L exc) : ∀ (f : Nat) {t : Tree α} {n : Nat} {r : Node},
    (∀ n r, g n = some r → t.nodes n = some r) → g n = some r → L < lvl n + f →
    ∃ mem', updateNode H f t n = .ok { t with mem := mem' } ∧
      (∀ h, (∀ m r, g m = some r → r.hp ≠ h) → mem' h = t.mem h) ∧
      (∀ m r, g m = some r → Clean H t.mem m r ∨ Up g n m → Clean H mem' m r)
  | 0, t, n, r, hv, hn, hf => by have := hw.top n r hn; omega
  | f + 1, t, n, r, hv, hn, hf => by
    unfold updateNode
    rw [getNode_ok (hv n r hn), Out.bind_ok, wr_ok (hw.valid_hp hv hn), Out.bind_ok]
    unfold hashes
    by_cases h1 : n = root
    · obtain ⟨r0, z1, z2, z3⟩ := hw.rootN
      rw [← h1, hn] at z1; cases z1
      rw [z2, z3]
      refine ⟨_, rfl, ?_, ?_⟩
      · intro h hh
        exact put_ne _ _ (fun e => hh n r hn (by rw [z3, e]))
      · intro m r' hm hor
        unfold Clean
        rw [hashesIn_put_root]
        by_cases e : m = n
        · subst e; rw [hn] at hm; cases hm
          rw [z3, put_same]
        · rw [put_ne _ _ (fun e' => e (hw.hp_inj hm hn (by rw [e', z3])))]
          rcases hor with hc | hu
          · exact hc
          · cases hu with
            | refl => exact absurd rfl e
            | step a b _ => rw [hn] at a; cases a; rw [z2] at b; cases b
    · obtain ⟨p, i, q, e1, e2, e3, e4, e5⟩ := hw.up n r hn h1
      rw [e1, e2]
      have hpn : n ≠ p := by rintro rfl; omega
      obtain ⟨mem', g1, g2, g3⟩ := updateNode_spec hw f (t := { t with mem := put t.mem (.slot p i) (H (hashesIn t.mem n)) }) (n := p) hv e3
        (by omega)
      refine ⟨mem', g1, ?_, ?_⟩
      · intro h hh
        rw [g2 h hh]
        exact put_ne _ _ (fun e => hh n r hn (by rw [e2, e]))
      · intro m r' hm hor
        refine g3 m r' hm ?_
        by_cases hmp : m = p
        · subst hmp; exact .inr (Up.refl _)
        · by_cases e : m = n
          · left
            subst e; rw [hn] at hm; cases hm
            unfold Clean
            simp only
            rw [hashesIn_put hpn, e2, put_same]
          · rcases hor with hc | hu
            · left
              unfold Clean
              simp only
              rw [hashesIn_put hmp, put_ne _ _ (fun e' => e (hw.hp_inj hm hn (by rw [e', e2])))]
              exact hc
            · cases hu with
              | refl => exact absurd rfl e
              | step a b u => rw [hn] at a; cases a; rw [e1] at b; cases b; exact .inr u

end Svr.Merkle
