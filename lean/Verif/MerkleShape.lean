import Verif.Merkle
import Mathlib.Tactic.Common

/-!
# The shape of a Merkle tree

`Wf` says that parent pointers, child pointers, hash pointers and flags of a set of nodes fit together. It is stated for
a view `g` of the nodes, so that nodes whose destructor is running can be left out. Below: the changes of shape that the
code makes, each keeping `Wf`.
-/

namespace Svr.Merkle

@[simp] theorem upd_same {β : Type} (f : Nat → β) (a : Nat) (b : β) : upd f a b a = b := if_pos rfl
theorem upd_ne {β : Type} (f : Nat → β) {a x : Nat} (b : β) (h : x ≠ a) : upd f a b x = f x := if_neg h

theorem upd_cases {β : Type} {f : Nat → Option β} {a x : Nat} {b : Option β} {r : β} (h : upd f a b x = some r) :
    (x = a ∧ b = some r) ∨ (x ≠ a ∧ f x = some r) := by
  unfold upd at h
  split at h
  · exact .inl ⟨by assumption, h⟩
  · exact .inr ⟨by assumption, h⟩

theorem set_get {l : List (Option Ptr)} {i j : Nat} {x y : Option Ptr} (h : (l.set i x)[j]? = some y) :
    (j = i ∧ y = x) ∨ (j ≠ i ∧ l[j]? = some y) := by
  rw [List.getElem?_set] at h
  split at h
  · subst_vars
    split at h
    · cases h; exact .inl ⟨rfl, rfl⟩
    · cases h
  · rename_i hne
    exact .inr ⟨fun e => hne e.symm, h⟩

theorem set_get_ne {l : List (Option Ptr)} {i j : Nat} {x : Option Ptr} (h : j ≠ i) : (l.set i x)[j]? = l[j]? := by
  rw [List.getElem?_set, if_neg (fun e => h e.symm)]

theorem set_get_eq {l : List (Option Ptr)} {i : Nat} {x y : Option Ptr} (h : l[i]? = some y) : (l.set i x)[i]? = some x := by
  rw [List.getElem?_set, if_pos rfl, if_pos (List.getElem?_eq_some_iff.mp h).1]

/-- The shape. `lvl` is the height above the leaves, `L` that of the root; `exc` are nodes allowed to be empty. -/
structure Wf (lvl : Nat → Nat) (g : Nat → Option Node) (lf : Nat → Option Leaf) (root curr next L : Nat) (exc : Nat → Prop) : Prop where
  rootN : ∃ r, g root = some r ∧ r.parent = none ∧ r.hp = .root
  rootL : lvl root = L
  currN : ∃ r, g curr = some r
  currL : lvl curr = 0
  up : ∀ n r, g n = some r → n ≠ root → ∃ (p i : Nat) (q : Node), r.parent = some p ∧ r.hp = .slot p i ∧ g p = some q ∧
    q.ch[i]? = some (some (.node n)) ∧ lvl p = lvl n + 1
  down : ∀ p q i n, g p = some q → q.ch[i]? = some (some (.node n)) → ∃ r, g n = some r ∧ r.parent = some p ∧ r.hp = .slot p i ∧
    lvl p = lvl n + 1
  downLeaf : ∀ p q i l, g p = some q → q.ch[i]? = some (some (.leaf l)) → lvl p = 0 ∧ ∃ r, lf l = some r ∧ r.parent = some p ∧
    r.hp = some (.slot p i)
  upLeaf : ∀ l r p, lf l = some r → r.parent = some p → ∃ (i : Nat) (q : Node), r.hp = some (.slot p i) ∧ g p = some q ∧ q.ch[i]? = some (some (.leaf l))
  nullLeaf : ∀ l r, lf l = some r → r.parent = none → r.hp = none
  len : ∀ n r, g n = some r → r.ch.length = width
  fresh : ∀ n r, g n = some r → n < next
  rootF : ∀ n r, g n = some r → (r.isRoot = true ↔ n = root)
  currF : ∀ n r, g n = some r → (r.isCurr = true ↔ n = curr)
  busy : ∀ n r, g n = some r → n ≠ root → n ≠ curr → ¬ exc n → ∃ (i : Nat) (x : Ptr), r.ch[i]? = some (some x)
  top : ∀ n r, g n = some r → lvl n ≤ L

variable {lvl : Nat → Nat} {g : Nat → Option Node} {lf : Nat → Option Leaf} {root curr next L : Nat} {exc : Nat → Prop} {p n : Nat}

theorem Wf.weaken (h : Wf lvl g lf root curr next L exc) {exc' : Nat → Prop} (he : ∀ n, exc n → exc' n) :
    Wf lvl g lf root curr next L exc' :=
  { h with busy := fun n r h1 h2 h3 h4 => h.busy n r h1 h2 h3 (fun e => h4 (he n e)) }

/-- An exception that is not needed. -/
theorem Wf.dropExc (h : Wf lvl g lf root curr next L exc) {exc' : Nat → Prop}
    (he : ∀ n r, g n = some r → exc n → ¬ exc' n → n = root ∨ n = curr ∨ ∃ (i : Nat) (x : Ptr), r.ch[i]? = some (some x)) :
    Wf lvl g lf root curr next L exc' :=
  { h with
    busy := fun n r h1 h2 h3 h4 => by
      by_cases e : exc n
      · rcases he n r h1 e h4 with e | e | e
        · exact absurd e h2
        · exact absurd e h3
        · exact e
      · exact h.busy n r h1 h2 h3 e }

/-- The root is nobody's child. -/
theorem Wf.root_not_child (h : Wf lvl g lf root curr next L exc) {p i : Nat} {q : Node} (hp : g p = some q) :
    q.ch[i]? ≠ some (some (.node root)) := by
  intro hc
  obtain ⟨r, h1, h2, _⟩ := h.down p q i root hp hc
  obtain ⟨r', h3, h4, _⟩ := h.rootN
  rw [h1] at h3; cases h3
  rw [h2] at h4; cases h4

/-- A leaf goes. -/
theorem Wf.detachLeaf (h : Wf lvl g lf root curr next L exc) {p i l : Nat} {q : Node} (hp : g p = some q)
    (hc : q.ch[i]? = some (some (.leaf l))) :
    Wf lvl (upd g p (some { q with ch := q.ch.set i none })) (upd lf l none) root curr next L (fun n => exc n ∨ n = p) := by
  have hget : ∀ n r, upd g p (some { q with ch := q.ch.set i none }) n = some r →
      ∃ r0, g n = some r0 ∧ r.parent = r0.parent ∧ r.hp = r0.hp ∧ r.isRoot = r0.isRoot ∧ r.isCurr = r0.isCurr ∧
        r.ch.length = r0.ch.length ∧ (∀ (j : Nat) (x : Ptr), r.ch[j]? = some (some x) → r0.ch[j]? = some (some x)) ∧ (n ≠ p → r = r0) := by
    intro n r hr
    rcases upd_cases hr with ⟨rfl, e⟩ | ⟨hne, e⟩
    · cases e
      refine ⟨q, hp, rfl, rfl, rfl, rfl, by simp, ?_, fun hn => absurd rfl hn⟩
      intro j x hx
      rcases set_get hx with ⟨_, e⟩ | ⟨_, e⟩
      · cases e
      · exact e
    · exact ⟨r, e, rfl, rfl, rfl, rfl, rfl, fun _ _ hx => hx, fun _ => rfl⟩
  have hkeep : ∀ n r0, g n = some r0 → ∃ r, upd g p (some { q with ch := q.ch.set i none }) n = some r ∧ r.parent = r0.parent ∧
      r.hp = r0.hp ∧ (∀ (j : Nat) (x : Ptr), r0.ch[j]? = some (some x) → (n = p → j ≠ i) → r.ch[j]? = some (some x)) := by
    intro n r0 hr
    by_cases hn : n = p
    · subst hn
      rw [hp] at hr; cases hr
      refine ⟨_, upd_same _ _ _, rfl, rfl, ?_⟩
      intro j x hx hj
      simp only
      rw [set_get_ne (hj rfl)]; exact hx
    · exact ⟨r0, by rw [upd_ne _ _ hn]; exact hr, rfl, rfl, fun j x hx _ => hx⟩
  constructor
  · obtain ⟨r0, h1, h2, h3⟩ := h.rootN
    obtain ⟨r, h4, h5, h6, _⟩ := hkeep root r0 h1
    exact ⟨r, h4, by rw [h5, h2], by rw [h6, h3]⟩
  · exact h.rootL
  · obtain ⟨r0, h1⟩ := h.currN
    obtain ⟨r, h4, _⟩ := hkeep curr r0 h1
    exact ⟨r, h4⟩
  · exact h.currL
  · intro n r hr hn
    obtain ⟨r0, h1, h2, h3, _⟩ := hget n r hr
    obtain ⟨p', i', q', e1, e2, e3, e4, e5⟩ := h.up n r0 h1 hn
    obtain ⟨q'', f1, _, _, f4⟩ := hkeep p' q' e3
    refine ⟨p', i', q'', by rw [h2, e1], by rw [h3, e2], f1, f4 i' _ e4 ?_, e5⟩
    rintro rfl rfl
    rw [hp] at e3; cases e3
    rw [hc] at e4; cases e4
  · intro p' q' i' n hq hch
    obtain ⟨r0, h1, _, _, _, _, _, h7, _⟩ := hget p' q' hq
    obtain ⟨r, e1, e2, e3, e4⟩ := h.down p' r0 i' n h1 (h7 _ _ hch)
    obtain ⟨r', f1, f2, f3, _⟩ := hkeep n r e1
    exact ⟨r', f1, by rw [f2, e2], by rw [f3, e3], e4⟩
  · intro p' q' i' l' hq hch
    obtain ⟨r0, h1, _, _, _, _, _, h7, _⟩ := hget p' q' hq
    obtain ⟨e0, r, e1, e2, e3⟩ := h.downLeaf p' r0 i' l' h1 (h7 _ _ hch)
    refine ⟨e0, r, ?_, e2, e3⟩
    rw [upd_ne _ _ ?_, e1]
    rintro rfl
    obtain ⟨_, r', g1, g2, g3⟩ := h.downLeaf p q i l' hp hc
    rw [e1] at g1; cases g1
    rw [e2] at g2; cases g2
    rw [e3] at g3; cases g3
    rcases upd_cases hq with ⟨_, e⟩ | ⟨e, _⟩
    · cases e
      rw [set_get_eq hc] at hch; cases hch
    · exact e rfl
  · intro l' r p' hl hpar
    rcases upd_cases hl with ⟨_, e⟩ | ⟨hne, e⟩
    · cases e
    · obtain ⟨i', q', e1, e2, e3⟩ := h.upLeaf l' r p' e hpar
      obtain ⟨q'', f1, _, _, f4⟩ := hkeep p' q' e2
      refine ⟨i', q'', e1, f1, f4 i' _ e3 ?_⟩
      rintro rfl rfl
      rw [hp] at e2; cases e2
      rw [hc] at e3; cases e3
      exact hne rfl
  · intro l' r hl
    rcases upd_cases hl with ⟨_, e⟩ | ⟨_, e⟩
    · cases e
    · exact h.nullLeaf l' r e
  · intro n r hr
    obtain ⟨r0, h1, _, _, _, _, h6, _⟩ := hget n r hr
    rw [h6]; exact h.len n r0 h1
  · intro n r hr
    obtain ⟨r0, h1, _⟩ := hget n r hr
    exact h.fresh n r0 h1
  · intro n r hr
    obtain ⟨r0, h1, _, _, h4, _⟩ := hget n r hr
    rw [h4]; exact h.rootF n r0 h1
  · intro n r hr
    obtain ⟨r0, h1, _, _, _, h5, _⟩ := hget n r hr
    rw [h5]; exact h.currF n r0 h1
  · intro n r hr h1 h2 h3
    obtain ⟨r0, g1, _, _, _, _, _, _, h8⟩ := hget n r hr
    have hn : n ≠ p := fun e => h3 (.inr e)
    rw [h8 hn]
    exact h.busy n r0 g1 h1 h2 (fun e => h3 (.inl e))
  · intro n r hr
    obtain ⟨r0, h1, _⟩ := hget n r hr
    exact h.top n r0 h1

/-- An empty node goes. -/
theorem Wf.detachNode (h : Wf lvl g lf root curr next L exc) {p i n : Nat} {q rn : Node} (hp : g p = some q)
    (hc : q.ch[i]? = some (some (.node n))) (hn : g n = some rn) (he : ∀ (j : Nat) (x : Ptr), rn.ch[j]? ≠ some (some x)) (hcu : n ≠ curr) :
    Wf lvl (upd (upd g p (some { q with ch := q.ch.set i none })) n none) lf root curr next L (fun m => exc m ∨ m = p) := by
  have hnr : n ≠ root := by rintro rfl; exact h.root_not_child hp hc
  obtain ⟨rn', d1, d2, d3, d4⟩ := h.down p q i n hp hc
  rw [hn] at d1; cases d1
  have hnp : p ≠ n := by rintro rfl; omega
  have hget : ∀ m r, upd (upd g p (some { q with ch := q.ch.set i none })) n none m = some r →
      m ≠ n ∧ ∃ r0, g m = some r0 ∧ r.parent = r0.parent ∧ r.hp = r0.hp ∧ r.isRoot = r0.isRoot ∧ r.isCurr = r0.isCurr ∧
        r.ch.length = r0.ch.length ∧ (∀ (j : Nat) (x : Ptr), r.ch[j]? = some (some x) → r0.ch[j]? = some (some x) ∧ (m = p → j ≠ i)) ∧ (m ≠ p → r = r0) := by
    intro m r hr
    rcases upd_cases hr with ⟨_, e⟩ | ⟨hmn, hr⟩
    · cases e
    refine ⟨hmn, ?_⟩
    rcases upd_cases hr with ⟨rfl, e⟩ | ⟨hne, e⟩
    · cases e
      refine ⟨q, hp, rfl, rfl, rfl, rfl, by simp, ?_, fun hn => absurd rfl hn⟩
      intro j x hx
      rcases set_get hx with ⟨_, e⟩ | ⟨hj, e⟩
      · cases e
      · exact ⟨e, fun _ => hj⟩
    · exact ⟨r, e, rfl, rfl, rfl, rfl, rfl, fun _ _ hx => ⟨hx, fun e => absurd e hne⟩, fun _ => rfl⟩
  have hkeep : ∀ m r0, m ≠ n → g m = some r0 → ∃ r, upd (upd g p (some { q with ch := q.ch.set i none })) n none m = some r ∧ r.parent = r0.parent ∧
      r.hp = r0.hp ∧ (∀ (j : Nat) (x : Ptr), r0.ch[j]? = some (some x) → (m = p → j ≠ i) → r.ch[j]? = some (some x)) := by
    intro m r0 hmn hr
    rw [upd_ne _ _ hmn]
    by_cases hm : m = p
    · subst hm
      rw [hp] at hr; cases hr
      refine ⟨_, upd_same _ _ _, rfl, rfl, ?_⟩
      intro j x hx hj
      simp only
      rw [set_get_ne (hj rfl)]; exact hx
    · exact ⟨r0, by rw [upd_ne _ _ hm]; exact hr, rfl, rfl, fun j x hx _ => hx⟩
  constructor
  · obtain ⟨r0, h1, h2, h3⟩ := h.rootN
    obtain ⟨r, h4, h5, h6, _⟩ := hkeep root r0 (fun e => hnr e.symm) h1
    exact ⟨r, h4, by rw [h5, h2], by rw [h6, h3]⟩
  · exact h.rootL
  · obtain ⟨r0, h1⟩ := h.currN
    obtain ⟨r, h4, _⟩ := hkeep curr r0 (fun e => hcu e.symm) h1
    exact ⟨r, h4⟩
  · exact h.currL
  · intro m r hr hm
    obtain ⟨hmn, r0, h1, h2, h3, _⟩ := hget m r hr
    obtain ⟨p', i', q', e1, e2, e3, e4, e5⟩ := h.up m r0 h1 hm
    have hpn : p' ≠ n := by
      rintro rfl
      rw [hn] at e3; cases e3
      exact he _ _ e4
    obtain ⟨q'', f1, _, _, f4⟩ := hkeep p' q' hpn e3
    refine ⟨p', i', q'', by rw [h2, e1], by rw [h3, e2], f1, f4 i' _ e4 ?_, e5⟩
    rintro rfl rfl
    rw [hp] at e3; cases e3
    rw [hc] at e4; cases e4
    exact hmn rfl
  · intro p' q' i' m hq hch
    obtain ⟨_, r0, h1, _, _, _, _, _, h7, _⟩ := hget p' q' hq
    obtain ⟨h7, h7'⟩ := h7 _ _ hch
    obtain ⟨r, e1, e2, e3, e4⟩ := h.down p' r0 i' m h1 h7
    have hmn : m ≠ n := by
      rintro rfl
      rw [hn] at e1; cases e1
      rw [d2] at e2; cases e2
      rw [d3] at e3; cases e3
      exact h7' rfl rfl
    obtain ⟨r', f1, f2, f3, _⟩ := hkeep m r hmn e1
    exact ⟨r', f1, by rw [f2, e2], by rw [f3, e3], e4⟩
  · intro p' q' i' l' hq hch
    obtain ⟨_, r0, h1, _, _, _, _, _, h7, _⟩ := hget p' q' hq
    exact h.downLeaf p' r0 i' l' h1 (h7 _ _ hch).1
  · intro l' r p' hl hpar
    obtain ⟨i', q', e1, e2, e3⟩ := h.upLeaf l' r p' hl hpar
    have hpn : p' ≠ n := by
      rintro rfl
      rw [hn] at e2; cases e2
      exact he _ _ e3
    obtain ⟨q'', f1, _, _, f4⟩ := hkeep p' q' hpn e2
    refine ⟨i', q'', e1, f1, f4 i' _ e3 ?_⟩
    rintro rfl rfl
    rw [hp] at e2; cases e2
    rw [hc] at e3; cases e3
  · exact h.nullLeaf
  · intro m r hr
    obtain ⟨_, r0, h1, _, _, _, _, h6, _⟩ := hget m r hr
    rw [h6]; exact h.len m r0 h1
  · intro m r hr
    obtain ⟨_, r0, h1, _⟩ := hget m r hr
    exact h.fresh m r0 h1
  · intro m r hr
    obtain ⟨_, r0, h1, _, _, h4, _⟩ := hget m r hr
    rw [h4]; exact h.rootF m r0 h1
  · intro m r hr
    obtain ⟨_, r0, h1, _, _, _, h5, _⟩ := hget m r hr
    rw [h5]; exact h.currF m r0 h1
  · intro m r hr h1 h2 h3
    obtain ⟨_, r0, g1, _, _, _, _, _, _, h8⟩ := hget m r hr
    have hm : m ≠ p := fun e => h3 (.inr e)
    rw [h8 hm]
    exact h.busy m r0 g1 h1 h2 (fun e => h3 (.inl e))
  · intro m r hr
    obtain ⟨_, r0, h1, _⟩ := hget m r hr
    exact h.top m r0 h1

/-- A leaf comes. -/
theorem Wf.attachLeaf (h : Wf lvl g lf root curr next L exc) {p i l : Nat} {q : Node} (hp : g p = some q) (hl0 : lvl p = 0)
    (hc : q.ch[i]? = some none) (hl : lf l = none) :
    Wf lvl (upd g p (some { q with ch := q.ch.set i (some (.leaf l)) })) (upd lf l (some ⟨some p, some (.slot p i)⟩)) root curr next L exc := by
  have hget : ∀ n r, upd g p (some { q with ch := q.ch.set i (some (.leaf l)) }) n = some r →
      ∃ r0, g n = some r0 ∧ r.parent = r0.parent ∧ r.hp = r0.hp ∧ r.isRoot = r0.isRoot ∧ r.isCurr = r0.isCurr ∧
        r.ch.length = r0.ch.length ∧ (∀ (j : Nat) (x : Ptr), r.ch[j]? = some (some x) → r0.ch[j]? = some (some x) ∨ (n = p ∧ j = i ∧ x = .leaf l)) ∧ (n ≠ p → r = r0) := by
    intro n r hr
    rcases upd_cases hr with ⟨rfl, e⟩ | ⟨hne, e⟩
    · cases e
      refine ⟨q, hp, rfl, rfl, rfl, rfl, by simp, ?_, fun hn => absurd rfl hn⟩
      intro j x hx
      rcases set_get hx with ⟨e1, e⟩ | ⟨_, e⟩
      · cases e; exact .inr ⟨rfl, e1, rfl⟩
      · exact .inl e
    · exact ⟨r, e, rfl, rfl, rfl, rfl, rfl, fun _ _ hx => .inl hx, fun _ => rfl⟩
  have hkeep : ∀ n r0, g n = some r0 → ∃ r, upd g p (some { q with ch := q.ch.set i (some (.leaf l)) }) n = some r ∧ r.parent = r0.parent ∧
      r.hp = r0.hp ∧ (∀ (j : Nat) (x : Ptr), r0.ch[j]? = some (some x) → r.ch[j]? = some (some x)) := by
    intro n r0 hr
    by_cases hn : n = p
    · subst hn
      rw [hp] at hr; cases hr
      refine ⟨_, upd_same _ _ _, rfl, rfl, ?_⟩
      intro j x hx
      simp only
      rw [set_get_ne ?_]
      · exact hx
      · rintro rfl; rw [hc] at hx; cases hx
    · exact ⟨r0, by rw [upd_ne _ _ hn]; exact hr, rfl, rfl, fun j x hx => hx⟩
  constructor
  · obtain ⟨r0, h1, h2, h3⟩ := h.rootN
    obtain ⟨r, h4, h5, h6, _⟩ := hkeep root r0 h1
    exact ⟨r, h4, by rw [h5, h2], by rw [h6, h3]⟩
  · exact h.rootL
  · obtain ⟨r0, h1⟩ := h.currN
    obtain ⟨r, h4, _⟩ := hkeep curr r0 h1
    exact ⟨r, h4⟩
  · exact h.currL
  · intro n r hr hn
    obtain ⟨r0, h1, h2, h3, _⟩ := hget n r hr
    obtain ⟨p', i', q', e1, e2, e3, e4, e5⟩ := h.up n r0 h1 hn
    obtain ⟨q'', f1, _, _, f4⟩ := hkeep p' q' e3
    exact ⟨p', i', q'', by rw [h2, e1], by rw [h3, e2], f1, f4 i' _ e4, e5⟩
  · intro p' q' i' n hq hch
    obtain ⟨r0, h1, _, _, _, _, _, h7, _⟩ := hget p' q' hq
    rcases h7 _ _ hch with h7 | ⟨_, _, e⟩
    · obtain ⟨r, e1, e2, e3, e4⟩ := h.down p' r0 i' n h1 h7
      obtain ⟨r', f1, f2, f3, _⟩ := hkeep n r e1
      exact ⟨r', f1, by rw [f2, e2], by rw [f3, e3], e4⟩
    · cases e
  · intro p' q' i' l' hq hch
    obtain ⟨r0, h1, _, _, _, _, _, h7, _⟩ := hget p' q' hq
    rcases h7 _ _ hch with h7 | ⟨rfl, rfl, e⟩
    · obtain ⟨e0, r, e1, e2, e3⟩ := h.downLeaf p' r0 i' l' h1 h7
      refine ⟨e0, r, ?_, e2, e3⟩
      rw [upd_ne _ _ ?_, e1]
      rintro rfl
      rw [hl] at e1; cases e1
    · cases e
      exact ⟨hl0, _, upd_same _ _ _, rfl, rfl⟩
  · intro l' r p' hl' hpar
    rcases upd_cases hl' with ⟨rfl, e⟩ | ⟨hne, e⟩
    · cases e
      cases hpar
      exact ⟨i, _, rfl, upd_same _ _ _, set_get_eq hc⟩
    · obtain ⟨i', q', e1, e2, e3⟩ := h.upLeaf l' r p' e hpar
      obtain ⟨q'', f1, _, _, f4⟩ := hkeep p' q' e2
      exact ⟨i', q'', e1, f1, f4 i' _ e3⟩
  · intro l' r hl' hpar
    rcases upd_cases hl' with ⟨_, e⟩ | ⟨_, e⟩
    · cases e; cases hpar
    · exact h.nullLeaf l' r e hpar
  · intro n r hr
    obtain ⟨r0, h1, _, _, _, _, h6, _⟩ := hget n r hr
    rw [h6]; exact h.len n r0 h1
  · intro n r hr
    obtain ⟨r0, h1, _⟩ := hget n r hr
    exact h.fresh n r0 h1
  · intro n r hr
    obtain ⟨r0, h1, _, _, h4, _⟩ := hget n r hr
    rw [h4]; exact h.rootF n r0 h1
  · intro n r hr
    obtain ⟨r0, h1, _, _, _, h5, _⟩ := hget n r hr
    rw [h5]; exact h.currF n r0 h1
  · intro n r hr h1 h2 h3
    obtain ⟨r0, g1, _, _, _, _, _, _, _⟩ := hget n r hr
    obtain ⟨j, x, hx⟩ := h.busy n r0 g1 h1 h2 h3
    obtain ⟨r', f1, _, _, f4⟩ := hkeep n r0 g1
    rw [hr] at f1; cases f1
    exact ⟨j, x, f4 j x hx⟩
  · intro n r hr
    obtain ⟨r0, h1, _⟩ := hget n r hr
    exact h.top n r0 h1

/-- A leaf moves. -/
theorem Wf.moveLeaf (h : Wf lvl g lf root curr next L exc) {p i a b : Nat} {q : Node} (hp : g p = some q)
    (hc : q.ch[i]? = some (some (.leaf a))) (hb : lf b = none) :
    Wf lvl (upd g p (some { q with ch := q.ch.set i (some (.leaf b)) }))
      (upd (upd lf b (some ⟨some p, some (.slot p i)⟩)) a (some ⟨none, none⟩)) root curr next L exc := by
  obtain ⟨hl0, ra, ha, ha2, ha3⟩ := h.downLeaf p q i a hp hc
  have hab : b ≠ a := by rintro rfl; rw [hb] at ha; cases ha
  have hget : ∀ n r, upd g p (some { q with ch := q.ch.set i (some (.leaf b)) }) n = some r →
      ∃ r0, g n = some r0 ∧ r.parent = r0.parent ∧ r.hp = r0.hp ∧ r.isRoot = r0.isRoot ∧ r.isCurr = r0.isCurr ∧
        r.ch.length = r0.ch.length ∧ (∀ (j : Nat) (x : Ptr), r.ch[j]? = some (some x) → (r0.ch[j]? = some (some x) ∧ (n = p → j ≠ i)) ∨ (n = p ∧ j = i ∧ x = .leaf b)) := by
    intro n r hr
    rcases upd_cases hr with ⟨rfl, e⟩ | ⟨hne, e⟩
    · cases e
      refine ⟨q, hp, rfl, rfl, rfl, rfl, by simp, ?_⟩
      intro j x hx
      rcases set_get hx with ⟨e1, e⟩ | ⟨hj, e⟩
      · cases e; exact .inr ⟨rfl, e1, rfl⟩
      · exact .inl ⟨e, fun _ => hj⟩
    · exact ⟨r, e, rfl, rfl, rfl, rfl, rfl, fun _ _ hx => .inl ⟨hx, fun e => absurd e hne⟩⟩
  have hkeep : ∀ n r0, g n = some r0 → ∃ r, upd g p (some { q with ch := q.ch.set i (some (.leaf b)) }) n = some r ∧ r.parent = r0.parent ∧
      r.hp = r0.hp ∧ (∀ (j : Nat) (x : Ptr), r0.ch[j]? = some (some x) → x ≠ .leaf a → r.ch[j]? = some (some x)) ∧
      (∀ (j : Nat) (x : Ptr), r0.ch[j]? = some (some x) → ∃ y, r.ch[j]? = some (some y)) := by
    intro n r0 hr
    by_cases hn : n = p
    · subst hn
      rw [hp] at hr; cases hr
      refine ⟨_, upd_same _ _ _, rfl, rfl, ?_, ?_⟩
      · intro j x hx hxa
        simp only
        rw [set_get_ne ?_]
        · exact hx
        · rintro rfl; rw [hc] at hx; cases hx; exact hxa rfl
      · intro j x hx
        simp only
        by_cases hj : j = i
        · subst hj; exact ⟨_, set_get_eq hc⟩
        · rw [set_get_ne hj]; exact ⟨x, hx⟩
    · exact ⟨r0, by rw [upd_ne _ _ hn]; exact hr, rfl, rfl, fun j x hx _ => hx, fun j x hx => ⟨x, hx⟩⟩
  constructor
  · obtain ⟨r0, h1, h2, h3⟩ := h.rootN
    obtain ⟨r, h4, h5, h6, _⟩ := hkeep root r0 h1
    exact ⟨r, h4, by rw [h5, h2], by rw [h6, h3]⟩
  · exact h.rootL
  · obtain ⟨r0, h1⟩ := h.currN
    obtain ⟨r, h4, _⟩ := hkeep curr r0 h1
    exact ⟨r, h4⟩
  · exact h.currL
  · intro n r hr hn
    obtain ⟨r0, h1, h2, h3, _⟩ := hget n r hr
    obtain ⟨p', i', q', e1, e2, e3, e4, e5⟩ := h.up n r0 h1 hn
    obtain ⟨q'', f1, _, _, f4, _⟩ := hkeep p' q' e3
    exact ⟨p', i', q'', by rw [h2, e1], by rw [h3, e2], f1, f4 i' _ e4 (by simp), e5⟩
  · intro p' q' i' n hq hch
    obtain ⟨r0, h1, _, _, _, _, _, h7⟩ := hget p' q' hq
    rcases h7 _ _ hch with ⟨h7, _⟩ | ⟨_, _, e⟩
    · obtain ⟨r, e1, e2, e3, e4⟩ := h.down p' r0 i' n h1 h7
      obtain ⟨r', f1, f2, f3, _⟩ := hkeep n r e1
      exact ⟨r', f1, by rw [f2, e2], by rw [f3, e3], e4⟩
    · cases e
  · intro p' q' i' l' hq hch
    obtain ⟨r0, h1, _, _, _, _, _, h7⟩ := hget p' q' hq
    rcases h7 _ _ hch with ⟨h7, h7'⟩ | ⟨rfl, rfl, e⟩
    · obtain ⟨e0, r, e1, e2, e3⟩ := h.downLeaf p' r0 i' l' h1 h7
      refine ⟨e0, r, ?_, e2, e3⟩
      have hla : l' ≠ a := by
        rintro rfl
        rw [ha] at e1; cases e1
        rw [ha2] at e2; cases e2
        rw [ha3] at e3; cases e3
        exact h7' rfl rfl
      have hlb : l' ≠ b := by rintro rfl; rw [hb] at e1; cases e1
      rw [upd_ne _ _ hla, upd_ne _ _ hlb, e1]
    · cases e
      exact ⟨hl0, _, by rw [upd_ne _ _ hab, upd_same], rfl, rfl⟩
  · intro l' r p' hl' hpar
    rcases upd_cases hl' with ⟨rfl, e⟩ | ⟨hna, hl'⟩
    · cases e; cases hpar
    rcases upd_cases hl' with ⟨rfl, e⟩ | ⟨hne, e⟩
    · cases e
      cases hpar
      exact ⟨i, _, rfl, upd_same _ _ _, set_get_eq hc⟩
    · obtain ⟨i', q', e1, e2, e3⟩ := h.upLeaf l' r p' e hpar
      obtain ⟨q'', f1, _, _, f4, _⟩ := hkeep p' q' e2
      exact ⟨i', q'', e1, f1, f4 i' _ e3 (by simp [hna])⟩
  · intro l' r hl' hpar
    rcases upd_cases hl' with ⟨_, e⟩ | ⟨_, hl'⟩
    · cases e; rfl
    rcases upd_cases hl' with ⟨_, e⟩ | ⟨_, e⟩
    · cases e; cases hpar
    · exact h.nullLeaf l' r e hpar
  · intro n r hr
    obtain ⟨r0, h1, _, _, _, _, h6, _⟩ := hget n r hr
    rw [h6]; exact h.len n r0 h1
  · intro n r hr
    obtain ⟨r0, h1, _⟩ := hget n r hr
    exact h.fresh n r0 h1
  · intro n r hr
    obtain ⟨r0, h1, _, _, h4, _⟩ := hget n r hr
    rw [h4]; exact h.rootF n r0 h1
  · intro n r hr
    obtain ⟨r0, h1, _, _, _, h5, _⟩ := hget n r hr
    rw [h5]; exact h.currF n r0 h1
  · intro n r hr h1 h2 h3
    obtain ⟨r0, g1, _⟩ := hget n r hr
    obtain ⟨j, x, hx⟩ := h.busy n r0 g1 h1 h2 h3
    obtain ⟨r', f1, _, _, _, f5⟩ := hkeep n r0 g1
    rw [hr] at f1; cases f1
    obtain ⟨y, hy⟩ := f5 j x hx
    exact ⟨j, y, hy⟩
  · intro n r hr
    obtain ⟨r0, h1, _⟩ := hget n r hr
    exact h.top n r0 h1

/-- A new node below `p`. -/
theorem Wf.attachNode (h : Wf lvl g lf root curr next L (fun m => m = p)) {k i : Nat} {q : Node} (hp : g p = some q) (hk : lvl p = k + 1)
    (hc : q.ch[i]? = some none) :
    Wf (upd lvl next k) (upd (upd g p (some { q with ch := q.ch.set i (some (.node next)) })) next
        (some { parent := some p, hp := .slot p i, ch := List.replicate width none, isRoot := false, isCurr := false }))
      lf root curr (next + 1) L (fun m => m = next) := by
  have hlt : ∀ m r, g m = some r → m ≠ next := fun m r hm e => by have := h.fresh m r hm; omega
  have hpn := hlt p q hp
  have hlv : ∀ m r, g m = some r → upd lvl next k m = lvl m := fun m r hm => upd_ne _ _ (hlt m r hm)
  have hget : ∀ m r, upd (upd g p (some { q with ch := q.ch.set i (some (.node next)) })) next
        (some { parent := some p, hp := .slot p i, ch := List.replicate width none, isRoot := false, isCurr := false }) m = some r →
      (m = next ∧ r = { parent := some p, hp := .slot p i, ch := List.replicate width none, isRoot := false, isCurr := false }) ∨
      (m ≠ next ∧ ∃ r0, g m = some r0 ∧ r.parent = r0.parent ∧ r.hp = r0.hp ∧ r.isRoot = r0.isRoot ∧ r.isCurr = r0.isCurr ∧
        r.ch.length = r0.ch.length ∧ (∀ (j : Nat) (x : Ptr), r.ch[j]? = some (some x) → r0.ch[j]? = some (some x) ∨ (m = p ∧ j = i ∧ x = .node next))) := by
    intro m r hr
    rcases upd_cases hr with ⟨rfl, e⟩ | ⟨hmn, hr⟩
    · cases e; exact .inl ⟨rfl, rfl⟩
    refine .inr ⟨hmn, ?_⟩
    rcases upd_cases hr with ⟨rfl, e⟩ | ⟨hne, e⟩
    · cases e
      refine ⟨q, hp, rfl, rfl, rfl, rfl, by simp, ?_⟩
      intro j x hx
      rcases set_get hx with ⟨e1, e⟩ | ⟨_, e⟩
      · cases e; exact .inr ⟨rfl, e1, rfl⟩
      · exact .inl e
    · exact ⟨r, e, rfl, rfl, rfl, rfl, rfl, fun _ _ hx => .inl hx⟩
  have hkeep : ∀ m r0, g m = some r0 → ∃ r, upd (upd g p (some { q with ch := q.ch.set i (some (.node next)) })) next
        (some { parent := some p, hp := .slot p i, ch := List.replicate width none, isRoot := false, isCurr := false }) m = some r ∧
      r.parent = r0.parent ∧ r.hp = r0.hp ∧ (∀ (j : Nat) (x : Ptr), r0.ch[j]? = some (some x) → r.ch[j]? = some (some x)) ∧
      (m = p → r.ch[i]? = some (some (.node next))) := by
    intro m r0 hr
    rw [upd_ne _ _ (hlt m r0 hr)]
    by_cases hm : m = p
    · subst hm
      rw [hp] at hr; cases hr
      refine ⟨_, upd_same _ _ _, rfl, rfl, ?_, fun _ => set_get_eq hc⟩
      intro j x hx
      simp only
      rw [set_get_ne ?_]
      · exact hx
      · rintro rfl; rw [hc] at hx; cases hx
    · exact ⟨r0, by rw [upd_ne _ _ hm]; exact hr, rfl, rfl, fun j x hx => hx, fun e => absurd e hm⟩
  constructor
  · obtain ⟨r0, h1, h2, h3⟩ := h.rootN
    obtain ⟨r, h4, h5, h6, _⟩ := hkeep root r0 h1
    exact ⟨r, h4, by rw [h5, h2], by rw [h6, h3]⟩
  · obtain ⟨r0, h1, _⟩ := h.rootN
    rw [hlv _ _ h1]; exact h.rootL
  · obtain ⟨r0, h1⟩ := h.currN
    obtain ⟨r, h4, _⟩ := hkeep curr r0 h1
    exact ⟨r, h4⟩
  · obtain ⟨r0, h1⟩ := h.currN
    rw [hlv _ _ h1]; exact h.currL
  · intro m r hr hm
    rcases hget m r hr with ⟨rfl, rfl⟩ | ⟨hmn, r0, h1, h2, h3, _⟩
    · obtain ⟨q', f1, _, _, _, f5⟩ := hkeep p q hp
      exact ⟨p, i, q', rfl, rfl, f1, f5 rfl, by rw [hlv p q hp, upd_same, hk]⟩
    · obtain ⟨p', i', q', e1, e2, e3, e4, e5⟩ := h.up m r0 h1 hm
      obtain ⟨q'', f1, _, _, f4, _⟩ := hkeep p' q' e3
      exact ⟨p', i', q'', by rw [h2, e1], by rw [h3, e2], f1, f4 i' _ e4, by rw [hlv _ _ e3, hlv _ _ h1, e5]⟩
  · intro p' q' i' m hq hch
    rcases hget p' q' hq with ⟨rfl, rfl⟩ | ⟨_, r0, h1, _, _, _, _, _, h7⟩
    · simp only [List.getElem?_replicate] at hch
      split at hch <;> cases hch
    · rcases h7 _ _ hch with h7 | ⟨rfl, rfl, e⟩
      · obtain ⟨r, e1, e2, e3, e4⟩ := h.down p' r0 i' m h1 h7
        obtain ⟨r', f1, f2, f3, _⟩ := hkeep m r e1
        exact ⟨r', f1, by rw [f2, e2], by rw [f3, e3], by rw [hlv _ _ h1, hlv _ _ e1, e4]⟩
      · cases e
        exact ⟨_, upd_same _ _ _, rfl, rfl, by rw [hlv _ _ hp, upd_same, hk]⟩
  · intro p' q' i' l' hq hch
    rcases hget p' q' hq with ⟨rfl, rfl⟩ | ⟨_, r0, h1, _, _, _, _, _, h7⟩
    · simp only [List.getElem?_replicate] at hch
      split at hch <;> cases hch
    · rcases h7 _ _ hch with h7 | ⟨_, _, e⟩
      · rw [hlv _ _ h1]
        exact h.downLeaf p' r0 i' l' h1 h7
      · cases e
  · intro l' r p' hl' hpar
    obtain ⟨i', q', e1, e2, e3⟩ := h.upLeaf l' r p' hl' hpar
    obtain ⟨q'', f1, _, _, f4, _⟩ := hkeep p' q' e2
    exact ⟨i', q'', e1, f1, f4 i' _ e3⟩
  · exact h.nullLeaf
  · intro m r hr
    rcases hget m r hr with ⟨rfl, rfl⟩ | ⟨_, r0, h1, _, _, _, _, h6, _⟩
    · simp
    · rw [h6]; exact h.len m r0 h1
  · intro m r hr
    rcases hget m r hr with ⟨rfl, rfl⟩ | ⟨_, r0, h1, _⟩
    · omega
    · have := h.fresh m r0 h1; omega
  · intro m r hr
    rcases hget m r hr with ⟨rfl, rfl⟩ | ⟨_, r0, h1, _, _, h4, _⟩
    · obtain ⟨r0, h1, _⟩ := h.rootN
      have := hlt _ _ h1
      simp only [Bool.false_eq_true, false_iff]
      exact fun e => this e.symm
    · rw [h4]; exact h.rootF m r0 h1
  · intro m r hr
    rcases hget m r hr with ⟨rfl, rfl⟩ | ⟨_, r0, h1, _, _, _, h5, _⟩
    · obtain ⟨r0, h1⟩ := h.currN
      have := hlt _ _ h1
      simp only [Bool.false_eq_true, false_iff]
      exact fun e => this e.symm
    · rw [h5]; exact h.currF m r0 h1
  · intro m r hr h1 h2 h3
    rcases hget m r hr with ⟨rfl, rfl⟩ | ⟨_, r0, g1, _⟩
    · exact absurd rfl h3
    · obtain ⟨r', f1, _, _, f4, f5⟩ := hkeep m r0 g1
      rw [hr] at f1; cases f1
      by_cases hm : m = p
      · exact ⟨i, _, f5 hm⟩
      · obtain ⟨j, x, hx⟩ := h.busy m r0 g1 h1 h2 hm
        exact ⟨j, x, f4 j x hx⟩
  · intro m r hr
    rcases hget m r hr with ⟨rfl, rfl⟩ | ⟨_, r0, h1, _⟩
    · rw [upd_same]; have := h.top p q hp; omega
    · rw [hlv _ _ h1]; exact h.top m r0 h1

/-- A new root above the old one, which is not empty. -/
theorem Wf.newRoot (h : Wf lvl g lf root curr next L exc) {q : Node} (hp : g root = some q) (hne : ∃ (i : Nat) (x : Ptr), q.ch[i]? = some (some x)) :
    Wf (upd lvl next (L + 1)) (upd (upd g root (some { q with parent := some next, hp := .slot next 0, isRoot := false })) next
        (some { parent := none, hp := .root, ch := (List.replicate width none).set 0 (some (.node root)), isRoot := true, isCurr := false }))
      lf next curr (next + 1) (L + 1) exc := by
  have hlt : ∀ m r, g m = some r → m ≠ next := fun m r hm e => by have := h.fresh m r hm; omega
  have hrn := hlt root q hp
  have hlv : ∀ m r, g m = some r → upd lvl next (L + 1) m = lvl m := fun m r hm => upd_ne _ _ (hlt m r hm)
  obtain ⟨q0, z1, z2, z3⟩ := h.rootN
  rw [hp] at z1; cases z1
  have hch0 : ∀ (j : Nat) (x : Ptr), ((List.replicate width (none : Option Ptr)).set 0 (some (.node root)))[j]? = some (some x) → j = 0 ∧ x = .node root := by
    intro j x hx
    rcases set_get hx with ⟨e1, e⟩ | ⟨_, e⟩
    · cases e; exact ⟨e1, rfl⟩
    · simp only [List.getElem?_replicate] at e
      split at e <;> cases e
  have hget : ∀ m r, upd (upd g root (some { q with parent := some next, hp := .slot next 0, isRoot := false })) next
        (some { parent := none, hp := .root, ch := (List.replicate width none).set 0 (some (.node root)), isRoot := true, isCurr := false }) m = some r →
      (m = next ∧ r = { parent := none, hp := .root, ch := (List.replicate width none).set 0 (some (.node root)), isRoot := true, isCurr := false }) ∨
      (m ≠ next ∧ ∃ r0, g m = some r0 ∧ r.ch = r0.ch ∧ r.isCurr = r0.isCurr ∧
        ((m = root ∧ r.parent = some next ∧ r.hp = .slot next 0 ∧ r.isRoot = false) ∨ (m ≠ root ∧ r = r0))) := by
    intro m r hr
    rcases upd_cases hr with ⟨rfl, e⟩ | ⟨hmn, hr⟩
    · cases e; exact .inl ⟨rfl, rfl⟩
    refine .inr ⟨hmn, ?_⟩
    rcases upd_cases hr with ⟨rfl, e⟩ | ⟨hne, e⟩
    · cases e
      exact ⟨q, hp, rfl, rfl, .inl ⟨rfl, rfl, rfl, rfl⟩⟩
    · exact ⟨r, e, rfl, rfl, .inr ⟨hne, rfl⟩⟩
  have hkeep : ∀ m r0, g m = some r0 → ∃ r, upd (upd g root (some { q with parent := some next, hp := .slot next 0, isRoot := false })) next
        (some { parent := none, hp := .root, ch := (List.replicate width none).set 0 (some (.node root)), isRoot := true, isCurr := false }) m = some r ∧
      r.ch = r0.ch ∧ (m ≠ root → r = r0) := by
    intro m r0 hr
    rw [upd_ne _ _ (hlt m r0 hr)]
    by_cases hm : m = root
    · subst hm
      rw [hp] at hr; cases hr
      exact ⟨_, upd_same _ _ _, rfl, fun e => absurd rfl e⟩
    · exact ⟨r0, by rw [upd_ne _ _ hm]; exact hr, rfl, fun _ => rfl⟩
  constructor
  · exact ⟨_, upd_same _ _ _, rfl, rfl⟩
  · exact upd_same _ _ _
  · obtain ⟨r0, h1⟩ := h.currN
    obtain ⟨r, h4, _⟩ := hkeep curr r0 h1
    exact ⟨r, h4⟩
  · obtain ⟨r0, h1⟩ := h.currN
    rw [hlv _ _ h1]; exact h.currL
  · intro m r hr hm
    rcases hget m r hr with ⟨rfl, rfl⟩ | ⟨hmn, r0, h1, h2, _, hcase⟩
    · exact absurd rfl hm
    · rcases hcase with ⟨rfl, e1, e2, _⟩ | ⟨hmr, rfl⟩
      · exact ⟨next, 0, _, e1, e2, upd_same _ _ _, by simp [width], by rw [upd_same, hlv _ _ h1, h.rootL]⟩
      · obtain ⟨p', i', q', e1, e2, e3, e4, e5⟩ := h.up m r h1 hmr
        obtain ⟨q'', f1, f2, _⟩ := hkeep p' q' e3
        exact ⟨p', i', q'', e1, e2, f1, by rw [f2, e4], by rw [hlv _ _ e3, hlv _ _ h1, e5]⟩
  · intro p' q' i' m hq hch
    rcases hget p' q' hq with ⟨rfl, rfl⟩ | ⟨_, r0, h1, h2, _, _⟩
    · obtain ⟨rfl, e⟩ := hch0 _ _ hch
      cases e
      exact ⟨{ q with parent := some p', hp := .slot p' 0, isRoot := false }, by rw [upd_ne _ _ hrn, upd_same], rfl, rfl,
        by rw [upd_same, hlv _ _ hp, h.rootL]⟩
    · rw [h2] at hch
      obtain ⟨r, e1, e2, e3, e4⟩ := h.down p' r0 i' m h1 hch
      have hmr : m ≠ root := by rintro rfl; exact h.root_not_child h1 hch
      obtain ⟨r', f1, _, f3⟩ := hkeep m r e1
      rw [f3 hmr] at f1
      exact ⟨r, f1, e2, e3, by rw [hlv _ _ h1, hlv _ _ e1, e4]⟩
  · intro p' q' i' l' hq hch
    rcases hget p' q' hq with ⟨rfl, rfl⟩ | ⟨_, r0, h1, h2, _, _⟩
    · obtain ⟨_, e⟩ := hch0 _ _ hch
      cases e
    · rw [h2] at hch
      rw [hlv _ _ h1]
      exact h.downLeaf p' r0 i' l' h1 hch
  · intro l' r p' hl' hpar
    obtain ⟨i', q', e1, e2, e3⟩ := h.upLeaf l' r p' hl' hpar
    obtain ⟨q'', f1, f2, _⟩ := hkeep p' q' e2
    exact ⟨i', q'', e1, f1, by rw [f2, e3]⟩
  · exact h.nullLeaf
  · intro m r hr
    rcases hget m r hr with ⟨rfl, rfl⟩ | ⟨_, r0, h1, h2, _⟩
    · simp
    · rw [h2]; exact h.len m r0 h1
  · intro m r hr
    rcases hget m r hr with ⟨rfl, rfl⟩ | ⟨_, r0, h1, _⟩
    · omega
    · have := h.fresh m r0 h1; omega
  · intro m r hr
    rcases hget m r hr with ⟨rfl, rfl⟩ | ⟨hmn, r0, h1, _, _, hcase⟩
    · simp
    · rcases hcase with ⟨rfl, _, _, e⟩ | ⟨hmr, rfl⟩
      · rw [e]; simp [hmn]
      · have := h.rootF m r h1
        simp only [hmr, iff_false] at this
        simp only [hmn, iff_false]; exact this
  · intro m r hr
    rcases hget m r hr with ⟨rfl, rfl⟩ | ⟨_, r0, h1, _, h3, _⟩
    · obtain ⟨r0, h1⟩ := h.currN
      have := hlt _ _ h1
      simp only [Bool.false_eq_true, false_iff]
      exact fun e => this e.symm
    · rw [h3]; exact h.currF m r0 h1
  · intro m r hr h1 h2 h3
    rcases hget m r hr with ⟨rfl, rfl⟩ | ⟨_, r0, g1, g2, _⟩
    · exact absurd rfl h1
    · rw [g2]
      by_cases hm : m = root
      · subst hm
        rw [hp] at g1; cases g1
        exact hne
      · exact h.busy m r0 g1 hm h2 h3
  · intro m r hr
    rcases hget m r hr with ⟨rfl, rfl⟩ | ⟨_, r0, h1, _⟩
    · rw [upd_same]
    · rw [hlv _ _ h1]; have := h.top m r0 h1; omega

/-- `curr_` moves to `n`; the old one is not empty. -/
theorem Wf.setCurr (h : Wf lvl g lf root curr next L (fun m => m = n)) {r rc : Node} (hn : g n = some r) (h0 : lvl n = 0) (hc : g curr = some rc)
    (hne : ∃ (i : Nat) (x : Ptr), rc.ch[i]? = some (some x)) (hd : curr ≠ n) :
    Wf lvl (upd (upd g curr (some { rc with isCurr := false })) n (some { r with isCurr := true })) lf root n next L (fun _ => False) := by
  have hget : ∀ m r', upd (upd g curr (some { rc with isCurr := false })) n (some { r with isCurr := true }) m = some r' →
      ∃ r0, g m = some r0 ∧ r'.parent = r0.parent ∧ r'.hp = r0.hp ∧ r'.ch = r0.ch ∧ r'.isRoot = r0.isRoot ∧ (r'.isCurr = true ↔ m = n) := by
    intro m r' hr
    rcases upd_cases hr with ⟨rfl, e⟩ | ⟨hmn, hr⟩
    · cases e; exact ⟨r, hn, rfl, rfl, rfl, rfl, by simp⟩
    rcases upd_cases hr with ⟨rfl, e⟩ | ⟨hne, e⟩
    · cases e
      exact ⟨rc, hc, rfl, rfl, rfl, rfl, by simp [hmn]⟩
    · refine ⟨r', e, rfl, rfl, rfl, rfl, ?_⟩
      have := h.currF m r' e
      simp only [hne, iff_false] at this
      simp only [hmn, iff_false]; exact this
  have hkeep : ∀ m r0, g m = some r0 → ∃ r', upd (upd g curr (some { rc with isCurr := false })) n (some { r with isCurr := true }) m = some r' ∧
      r'.parent = r0.parent ∧ r'.hp = r0.hp ∧ r'.ch = r0.ch := by
    intro m r0 hr
    by_cases hmn : m = n
    · subst hmn; rw [hn] at hr; cases hr; exact ⟨_, upd_same _ _ _, rfl, rfl, rfl⟩
    · rw [upd_ne _ _ hmn]
      by_cases hmc : m = curr
      · subst hmc; rw [hc] at hr; cases hr; exact ⟨_, upd_same _ _ _, rfl, rfl, rfl⟩
      · exact ⟨r0, by rw [upd_ne _ _ hmc]; exact hr, rfl, rfl, rfl⟩
  constructor
  · obtain ⟨r0, h1, h2, h3⟩ := h.rootN
    obtain ⟨r, h4, h5, h6, _⟩ := hkeep root r0 h1
    exact ⟨r, h4, by rw [h5, h2], by rw [h6, h3]⟩
  · exact h.rootL
  · exact ⟨_, upd_same _ _ _⟩
  · exact h0
  · intro m r hr hn
    obtain ⟨r0, h1, h2, h3, _⟩ := hget m r hr
    obtain ⟨p', i', q', e1, e2, e3, e4, e5⟩ := h.up m r0 h1 hn
    obtain ⟨q'', f1, _, _, f4⟩ := hkeep p' q' e3
    exact ⟨p', i', q'', by rw [h2, e1], by rw [h3, e2], f1, by rw [f4, e4], e5⟩
  · intro p' q' i' m hq hch
    obtain ⟨r0, h1, _, _, h4, _⟩ := hget p' q' hq
    rw [h4] at hch
    obtain ⟨r, e1, e2, e3, e4⟩ := h.down p' r0 i' m h1 hch
    obtain ⟨r', f1, f2, f3, _⟩ := hkeep m r e1
    exact ⟨r', f1, by rw [f2, e2], by rw [f3, e3], e4⟩
  · intro p' q' i' l' hq hch
    obtain ⟨r0, h1, _, _, h4, _⟩ := hget p' q' hq
    rw [h4] at hch
    exact h.downLeaf p' r0 i' l' h1 hch
  · intro l' r p' hl' hpar
    obtain ⟨i', q', e1, e2, e3⟩ := h.upLeaf l' r p' hl' hpar
    obtain ⟨q'', f1, _, _, f4⟩ := hkeep p' q' e2
    exact ⟨i', q'', e1, f1, by rw [f4, e3]⟩
  · exact h.nullLeaf
  · intro m r hr
    obtain ⟨r0, h1, _, _, h4, _⟩ := hget m r hr
    rw [h4]; exact h.len m r0 h1
  · intro m r hr
    obtain ⟨r0, h1, _⟩ := hget m r hr
    exact h.fresh m r0 h1
  · intro m r hr
    obtain ⟨r0, h1, _, _, _, h5, _⟩ := hget m r hr
    rw [h5]; exact h.rootF m r0 h1
  · intro m r hr
    obtain ⟨r0, h1, _, _, _, _, h6⟩ := hget m r hr
    exact h6
  · intro m r hr h1 h2 _
    obtain ⟨r0, g1, _, _, g4, _⟩ := hget m r hr
    rw [g4]
    by_cases hmc : m = curr
    · subst hmc; rw [hc] at g1; cases g1; exact hne
    · exact h.busy m r0 g1 h1 hmc h2
  · intro m r hr
    obtain ⟨r0, h1, _⟩ := hget m r hr
    exact h.top m r0 h1

end Svr.Merkle
