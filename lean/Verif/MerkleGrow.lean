import Verif.MerkleDestroy

/-!
# Making space in a Merkle tree
-/

namespace Svr.Merkle
variable {α : Type} [DecidableEq α] {H : List α → α} {zero : α}
variable {lvl : Nat → Nat} {g : Nat → Option Node} {lf : Nat → Option Leaf} {root curr next L : Nat} {exc : Nat → Prop}

/-- The tree is well formed. -/
abbrev Ok (lvl : Nat → Nat) (t : Tree α) (exc : Nat → Prop) : Prop :=
  Wf lvl t.nodes t.leaves t.root t.curr t.next t.height exc

theorem full_iff {r : Node} (hl : r.ch.length = width) : r.full = true ↔ ∀ j : Nat, r.ch[j]? ≠ some none := by
  unfold Node.full Node.parts
  rw [← hl]
  simp only [beq_iff_eq, List.countP_eq_length]
  constructor
  · intro h j hj
    have := h none (List.mem_of_getElem? hj)
    simp at this
  · intro h o ho
    obtain ⟨j, hj⟩ := List.mem_iff_getElem?.mp ho
    cases o with
    | none => exact absurd hj (h j)
    | some x => rfl

theorem full_busy {r : Node} (hl : r.ch.length = width) (h : r.full = true) : ∃ (i : Nat) (x : Ptr), r.ch[i]? = some (some x) := by
  have h0 := (full_iff hl).mp h 0
  have : 0 < r.ch.length := by rw [hl]; decide
  have e := List.getElem?_eq_some_iff.mpr ⟨this, rfl⟩
  cases hx : r.ch[0] with
  | none => rw [hx] at e; exact absurd e h0
  | some x => rw [hx] at e; exact ⟨0, x, e⟩

theorem first_free {l : List (Option Ptr)} {j : Nat} (h : l[j]? = some none) : ∃ i, l.idxOf? none = some i ∧ l[i]? = some none := by
  cases hi : l.idxOf? none with
  | none =>
    rw [List.idxOf?, List.findIdx?_eq_none_iff] at hi
    have := hi none (List.mem_of_getElem? h)
    simp at this
  | some i =>
    refine ⟨i, rfl, ?_⟩
    rw [List.idxOf?, List.findIdx?_eq_some_iff_getElem] at hi
    obtain ⟨h1, h2, _⟩ := hi
    rw [List.getElem?_eq_some_iff]
    exact ⟨h1, by simpa using h2⟩

theorem insert_ok {t : Tree α} {n i : Nat} {r : Node} {x : Ptr} (hn : t.nodes n = some r) (hi : r.ch.idxOf? none = some i) :
    insert t n x n = .ok (setNode t n { r with ch := r.ch.set i (some x) }, .slot n i) := by
  unfold insert
  rw [getNode_ok hn, Out.bind_ok]
  simp [hi]

/-- `Up` survives when parents do. -/
theorem Up.mono {g g' : Nat → Option Node} (h : ∀ m r p, g m = some r → r.parent = some p → ∃ r', g' m = some r' ∧ r'.parent = some p)
    {n m : Nat} (hu : Up g n m) : Up g' n m := by
  induction hu with
  | refl => exact Up.refl _
  | step a b _ ih =>
    obtain ⟨r', c, d⟩ := h _ _ _ a b
    exact Up.step c d ih

/-- How a tree `t0` has grown to `t`, where a new branch hangs that ends at `n`. -/
structure Grow (H : List α → α) (t0 t : Tree α) (n : Nat) : Prop where
  lvs : t.leaves = t0.leaves
  curr : t.curr = t0.curr
  keep : ∀ m r, t0.nodes m = some r → ∃ r', t.nodes m = some r' ∧ (∀ p, r.parent = some p → r'.parent = some p) ∧
    (Clean H t0.mem m r → Clean H t.mem m r') ∧ (∀ (j : Nat) (x : Ptr), r.ch[j]? = some (some x) → r'.ch[j]? = some (some x))
  mem : ∀ m i, t0.nodes m ≠ none → t.mem (.slot m i) = t0.mem (.slot m i)
  new : ∀ m, t0.nodes m = none → t.nodes m ≠ none → Up t.nodes n m

theorem Grow.refl (t : Tree α) (n : Nat) : Grow H t t n :=
  ⟨rfl, rfl, fun m r h => ⟨r, h, fun _ h => h, fun h => h, fun _ _ h => h⟩, fun _ _ _ => rfl, fun m h1 h2 => absurd h1 h2⟩

theorem clean_congr {mem mem' : HPtr → α} {m : Nat} {r r' : Node} (h : Clean H mem m r) (h1 : mem' r'.hp = mem r.hp)
    (h2 : ∀ i, mem' (.slot m i) = mem (.slot m i)) : Clean H mem' m r' := by
  unfold Clean at h ⊢
  rw [h1, h, hashesIn_congr h2]

/-- The nodes' places for hashes are those of existing nodes. -/
theorem Wf.hp_cases (hw : Wf lvl g lf root curr next L exc) {m : Nat} {r : Node} (hm : g m = some r) :
    r.hp = .root ∨ ∃ p i q, r.hp = .slot p i ∧ g p = some q ∧ p < next := by
  by_cases h1 : m = root
  · obtain ⟨r0, z1, z2, z3⟩ := hw.rootN
    rw [← h1, hm] at z1; cases z1
    exact .inl z3
  · obtain ⟨p', i', q', _, e2, e3, _⟩ := hw.up m r hm h1
    exact .inr ⟨p', i', q', e2, e3, hw.fresh _ _ e3⟩

theorem initMem_root (t : Tree α) (n : Nat) : initMem zero t n .root = t.mem .root := rfl
theorem initMem_ne (t : Tree α) {n m : Nat} (i : Nat) (h : m ≠ n) : initMem zero t n (.slot m i) = t.mem (.slot m i) := if_neg h
theorem initMem_same (t : Tree α) (n i : Nat) : initMem zero t n (.slot n i) = zero := if_pos rfl

theorem newNode_ok {t : Tree α} {p i : Nat} {q : Node} (hp : t.nodes p = some q) (hi : q.ch.idxOf? none = some i) :
    newNode zero t p = .ok ({ t with
      nodes := upd (upd t.nodes p (some { q with ch := q.ch.set i (some (.node t.next)) })) t.next
        (some { parent := some p, hp := .slot p i, ch := List.replicate width none, isRoot := false, isCurr := false }),
      mem := initMem zero t t.next, next := t.next + 1 }, t.next) := by
  unfold newNode
  simp only [insert_ok hp hi, Out.bind_ok]
  rfl

/-- One more node below `n`. -/
theorem newNode_spec {t0 t : Tree α} {n k j : Nat} {q : Node} (hg : Grow H t0 t n) (hw : Ok lvl t (fun m => m = n)) (hz : Zeros zero t.nodes t.mem)
    (hk : lvl n = k + 1) (hn : t.nodes n = some q) (hj : q.ch[j]? = some none) :
    ∃ t' n' lvl', newNode zero t n = .ok (t', n') ∧ Grow H t0 t' n' ∧ Ok lvl' t' (fun m => m = n') ∧ Zeros zero t'.nodes t'.mem ∧
      lvl' n' = k ∧ n' ≠ t.curr ∧ ∃ q', t'.nodes n' = some q' ∧ q'.ch[0]? = some none := by
  obtain ⟨i, h1, h2⟩ := first_free hj
  have hlt : ∀ m r, t.nodes m = some r → m ≠ t.next := fun m r hm e => by have := hw.fresh m r hm; omega
  have hw' := hw.attachNode hn hk h2
  refine ⟨_, _, upd lvl t.next k, newNode_ok hn h1, ?_, hw', ?_, upd_same _ _ _, ?_, _, upd_same _ _ _, by simp [width]⟩
  · have hkeep : ∀ m r, t.nodes m = some r → ∃ r', upd (upd t.nodes n (some { q with ch := q.ch.set i (some (.node t.next)) })) t.next
        (some { parent := some n, hp := .slot n i, ch := List.replicate width none, isRoot := false, isCurr := false }) m = some r' ∧
        r'.parent = r.parent ∧ r'.hp = r.hp ∧ (∀ (j : Nat) (x : Ptr), r.ch[j]? = some (some x) → r'.ch[j]? = some (some x)) := by
      intro m r hm
      rw [upd_ne _ _ (hlt m r hm)]
      by_cases e : m = n
      · subst e
        rw [hn] at hm; cases hm
        refine ⟨_, upd_same _ _ _, rfl, rfl, ?_⟩
        intro j x hx
        simp only
        rw [set_get_ne ?_]
        · exact hx
        · rintro rfl; rw [h2] at hx; cases hx
      · rw [upd_ne _ _ e]
        exact ⟨r, hm, rfl, rfl, fun _ _ h => h⟩
    have hup : ∀ a b, Up t.nodes a b → Up (upd (upd t.nodes n (some { q with ch := q.ch.set i (some (.node t.next)) })) t.next
        (some { parent := some n, hp := .slot n i, ch := List.replicate width none, isRoot := false, isCurr := false })) a b := by
      intro a b hab
      refine hab.mono ?_
      intro m r p hm hp
      obtain ⟨r', c1, c2, _⟩ := hkeep m r hm
      exact ⟨r', c1, by rw [c2, hp]⟩
    refine ⟨hg.lvs, hg.curr, ?_, ?_, ?_⟩
    · intro m r hm
      obtain ⟨r', a1, a2, a3, a4⟩ := hg.keep m r hm
      obtain ⟨r'', b1, b2, b3, b4⟩ := hkeep m r' a1
      refine ⟨r'', b1, fun p hp => by rw [b2]; exact a2 p hp, fun hc => clean_congr (a3 hc) ?_ ?_, fun j x hx => b4 j x (a4 j x hx)⟩
      · rw [b3]
        rcases hw.hp_cases a1 with e | ⟨p, i, q, e, e1, e2⟩
        · rw [e]; rfl
        · rw [e]; exact initMem_ne _ _ (hlt _ _ e1)
      · intro i; exact initMem_ne _ _ (hlt _ _ a1)
    · intro m i hm
      cases hr : t0.nodes m with
      | none => exact absurd hr hm
      | some r =>
        obtain ⟨r', a1, _⟩ := hg.keep m r hr
        rw [← hg.mem m i hm]
        exact initMem_ne _ _ (hlt _ _ a1)
    · intro m hm0 hm
      by_cases e : m = t.next
      · subst e; exact Up.refl _
      · refine Up.step (upd_same _ _ _) rfl (hup _ _ (hg.new m hm0 ?_))
        intro hnone
        simp only [upd_ne _ _ e] at hm
        by_cases e' : m = n
        · subst e'; rw [hn] at hnone; cases hnone
        · rw [upd_ne _ _ e'] at hm; exact hm hnone
  · intro p' q' j' hp' hj'
    rcases upd_cases hp' with ⟨rfl, _⟩ | ⟨hne, hp'⟩
    · exact initMem_same _ _ _
    · refine (initMem_ne _ _ hne).trans ?_
      rcases upd_cases hp' with ⟨rfl, e⟩ | ⟨_, e⟩
      · cases e
        rcases set_get hj' with ⟨_, e⟩ | ⟨_, e⟩
        · cases e
        · exact hz _ _ _ hn e
      · exact hz _ _ _ e hj'
  · obtain ⟨r, hr⟩ := hw.currN
    exact fun e => hlt _ _ hr e.symm

theorem growDown_spec : ∀ (k : Nat) {t0 t : Tree α} {lvl : Nat → Nat} {n j : Nat} {q : Node}, Grow H t0 t n → Ok lvl t (fun m => m = n) →
    Zeros zero t.nodes t.mem → lvl n = k → t.nodes n = some q → q.ch[j]? = some none →
    ∃ t' n' lvl', growDown zero k t n = .ok (t', n') ∧ Grow H t0 t' n' ∧ Ok lvl' t' (fun m => m = n') ∧ Zeros zero t'.nodes t'.mem ∧
      lvl' n' = 0 ∧ (k = 0 → n' = n ∧ t' = t) ∧ (0 < k → n' ≠ t.curr) ∧ ∃ (q' : Node) (j' : Nat), t'.nodes n' = some q' ∧ q'.ch[j']? = some none
  | 0, t0, t, lvl, n, j, q, hg, hw, hz, hk, hn, hj =>
    ⟨t, n, lvl, rfl, hg, hw, hz, hk, fun _ => ⟨rfl, rfl⟩, fun h => by omega, q, j, hn, hj⟩
  | k + 1, t0, t, lvl, n, j, q, hg, hw, hz, hk, hn, hj => by
    obtain ⟨t1, n1, lvl1, a1, a2, a3, a4, a5, a6, q1, a7, a8⟩ := newNode_spec hg hw hz hk hn hj
    obtain ⟨t2, n2, lvl2, b1, b2, b3, b4, b5, b6, b7, q2, j2, b8, b9⟩ := growDown_spec k a2 a3 a4 a5 a7 a8
    refine ⟨t2, n2, lvl2, ?_, b2, b3, b4, b5, fun h => by omega, fun _ => ?_, q2, j2, b8, b9⟩
    · unfold growDown
      rw [a1, Out.bind_ok]
      exact b1
    · rcases Nat.eq_zero_or_pos k with h | h
      · rw [(b6 h).1]; exact a6
      · have := b7 h
        rw [a2.curr] at this
        rw [hg.curr]; exact this

theorem findSpace_spec : ∀ (f : Nat) {t : Tree α} {n i : Nat} {r : Node}, Ok lvl t exc → t.nodes n = some r → lvl n = i → t.height < lvl n + f →
    ∃ n' i' r', findSpace f t n i = .ok (n', i') ∧ t.nodes n' = some r' ∧ lvl n' = i' ∧ (n' = t.root ∨ r'.full = false) ∧
      ((n' = n ∧ i' = i) ∨ r.full = true)
  | 0, t, n, i, r, hw, hn, hi, hf => by have := hw.top n r hn; omega
  | f + 1, t, n, i, r, hw, hn, hi, hf => by
    unfold findSpace
    by_cases h1 : n = t.root
    · rw [if_pos h1]
      exact ⟨n, i, r, rfl, hn, hi, .inl h1, .inl ⟨rfl, rfl⟩⟩
    · rw [if_neg h1, getNode_ok hn, Out.bind_ok]
      by_cases h2 : r.full = true
      · rw [if_pos h2]
        obtain ⟨p, i', q, e1, e2, e3, e4, e5⟩ := hw.up n r hn h1
        rw [e1]
        obtain ⟨n', i'', r', a1, a2, a3, a4, _⟩ := findSpace_spec f (i := i + 1) hw e3 (by omega) (by omega)
        exact ⟨n', i'', r', a1, a2, a3, a4, .inr h2⟩
      · rw [if_neg h2]
        exact ⟨n, i, r, rfl, hn, hi, .inr (by simpa using h2), .inl ⟨rfl, rfl⟩⟩

theorem upd_upd {β : Type} (f : Nat → β) (a : Nat) (b c : β) : upd (upd f a b) a c = upd f a c := by
  funext x; unfold upd; split <;> rfl

theorem upd_comm {β : Type} (f : Nat → β) {a a' : Nat} (b b' : β) (h : a ≠ a') : upd (upd f a b) a' b' = upd (upd f a' b') a b := by
  funext x; unfold upd
  by_cases h1 : x = a'
  · subst h1; simp [Ne.symm h]
  · simp [h1]

theorem newRoot_ok {t : Tree α} {q : Node} (hr : t.nodes t.root = some q) (hlt : t.root ≠ t.next) :
    newRoot zero t = .ok { t with
      nodes := upd (upd t.nodes t.root (some { q with parent := some t.next, hp := .slot t.next 0, isRoot := false })) t.next
        (some { parent := none, hp := .root, ch := (List.replicate width none).set 0 (some (.node t.root)), isRoot := true, isCurr := false }),
      mem := put (initMem zero t t.next) (.slot t.next 0) (t.mem .root), root := t.next, next := t.next + 1, height := t.height + 1 } := by
  have hlt' : t.next ≠ t.root := fun e => hlt e.symm
  have hi : (List.replicate width (none : Option Ptr)).idxOf? none = some 0 := by decide
  unfold newRoot newRootNode
  simp only
  rw [getNode_ok (t := { t with nodes := _, mem := _, next := _ }) (n := t.root) (r := q) (by simp only [upd_ne _ _ hlt]; exact hr)]
  simp only [Out.bind_ok, setNode]
  rw [insert_ok (n := t.next) (i := 0) (r := { parent := none, hp := .root, ch := List.replicate width none, isRoot := false, isCurr := false })
    (by simp only [upd_ne _ _ hlt', upd_same]) hi]
  simp only [Out.bind_ok, setNode]
  rw [getNode_ok (n := t.root) (r := { q with parent := some t.next }) (by simp only [upd_ne _ _ hlt, upd_same])]
  simp only [Out.bind_ok]
  unfold rd
  simp only [valid, if_true, Out.bind_ok, initMem_root]
  rw [wr_ok (by simp [valid, width, upd, hlt'])]
  simp only [Out.bind_ok]
  rw [getNode_ok (n := t.root) (r := { q with parent := some t.next, hp := .slot t.next 0 }) (by simp only [upd_same])]
  simp only [Out.bind_ok]
  rw [getNode_ok (n := t.next) (r := { parent := none, hp := .root, ch := (List.replicate width none).set 0 (some (.node t.root)), isRoot := false, isCurr := false })
    (by simp only [upd_ne _ _ hlt', upd_same])]
  simp only [Out.bind_ok, Out.ok.injEq, Tree.mk.injEq, and_true, true_and]
  funext x
  unfold upd
  by_cases h1 : x = t.next
  · subst h1; simp
  · by_cases h2 : x = t.root
    · subst h2; simp [h1]
    · simp [h1, h2]

/-- A new root above a full one. -/
theorem newRoot_spec {t : Tree α} {q : Node} (hw : Ok lvl t (fun _ => False)) (hz : Zeros zero t.nodes t.mem)
    (hr : t.nodes t.root = some q) (hf : q.full = true) :
    ∃ t' lvl', newRoot zero t = .ok t' ∧ Grow H t t' t'.root ∧ Ok lvl' t' (fun m => m = t'.root) ∧ Zeros zero t'.nodes t'.mem ∧
      lvl' t'.root = lvl t.root + 1 ∧ ∃ q', t'.nodes t'.root = some q' ∧ q'.ch[1]? = some none := by
  have hlt : ∀ m r, t.nodes m = some r → m ≠ t.next := fun m r hm e => by have := hw.fresh m r hm; omega
  have hw' := hw.newRoot hr (full_busy (hw.len _ _ hr) hf)
  obtain ⟨r0, z1, z2, z3⟩ := hw.rootN
  rw [hr] at z1; cases z1
  refine ⟨_, upd lvl t.next (t.height + 1), newRoot_ok hr (hlt _ _ hr), ?_, hw'.weaken (fun _ h => h.elim), ?_, ?_, _, upd_same _ _ _, by simp [width]⟩
  · have hmemne : ∀ m i, m ≠ t.next → put (initMem zero t t.next) (.slot t.next 0) (t.mem .root) (.slot m i) = t.mem (.slot m i) := by
      intro m i hm
      rw [put_ne _ _ (fun e => hm (by cases e; rfl))]
      exact initMem_ne _ _ hm
    refine ⟨rfl, rfl, ?_, ?_, ?_⟩
    · intro m r hm
      simp only [upd_ne _ _ (hlt m r hm)]
      by_cases e : m = t.root
      · subst e
        rw [hr] at hm; cases hm
        refine ⟨_, upd_same _ _ _, (fun p hp => by rw [z2] at hp; cases hp), fun hc => clean_congr hc ?_ (fun i => hmemne _ i (hlt _ _ hr)), fun _ _ h => h⟩
        simp only
        rw [put_same, z3]
      · rw [upd_ne _ _ e]
        refine ⟨r, hm, fun _ h => h, fun hc => clean_congr hc ?_ (fun i => hmemne _ i (hlt _ _ hm)), fun _ _ h => h⟩
        rcases hw.hp_cases hm with e' | ⟨p, i, q, e', e1, e2⟩
        · exact absurd (hw.hp_inj hm hr (by rw [e', z3])) e
        · rw [e']; exact hmemne _ _ (hlt _ _ e1)
    · intro m i hm
      cases hr : t.nodes m with
      | none => exact absurd hr hm
      | some r => exact hmemne _ _ (hlt _ _ hr)
    · intro m hm0 hm
      by_cases e : m = t.next
      · subst e; exact Up.refl _
      · exfalso
        simp only [upd_ne _ _ e] at hm
        by_cases e' : m = t.root
        · subst e'; rw [hr] at hm0; cases hm0
        · rw [upd_ne _ _ e'] at hm; exact hm hm0
  · intro p' q' j' hp' hj'
    rcases upd_cases hp' with ⟨rfl, e⟩ | ⟨hne, hp'⟩
    · cases e
      rcases set_get hj' with ⟨_, e⟩ | ⟨hj, e⟩
      · cases e
      · simp only
        rw [put_ne _ _ (fun e => hj (by cases e; rfl))]
        exact initMem_same _ _ _
    · simp only
      rw [put_ne _ _ (fun e => hne (by cases e; rfl)), initMem_ne _ _ hne]
      rcases upd_cases hp' with ⟨rfl, e⟩ | ⟨_, e⟩
      · cases e
        exact hz _ _ _ hr hj'
      · exact hz _ _ _ e hj'
  · simp only [upd_same, hw.rootL]

theorem setCurr_ok {t : Tree α} {n : Nat} {r rc : Node} (h : t.curr ≠ n) (hn : t.nodes n = some r) (hc : t.nodes t.curr = some rc) :
    setCurr t n = .ok { t with nodes := upd (upd t.nodes t.curr (some { rc with isCurr := false })) n (some { r with isCurr := true }), curr := n } := by
  unfold setCurr
  rw [if_neg h, getNode_ok hc]
  simp only [Out.bind_ok, setNode]
  rw [getNode_ok (n := n) (r := r) (by simp only [upd_ne _ _ (Ne.symm h)]; exact hn)]
  rfl

/-- `Tree::CurrentWithSpace`: the result has space and is `curr_`; every node is as before or on the way up from it. -/
theorem currentWithSpace_spec {t : Tree α} (hw : Ok lvl t (fun _ => False)) (hz : Zeros zero t.nodes t.mem) :
    ∃ (t' : Tree α) (n : Nat) (lvl' : Nat → Nat) (q : Node) (j : Nat), currentWithSpace zero t = .ok (t', n) ∧ Ok lvl' t' (fun _ => False) ∧ Zeros zero t'.nodes t'.mem ∧ t'.nodes n = some q ∧
      q.ch[j]? = some none ∧ lvl' n = 0 ∧ t'.leaves = t.leaves ∧
      (∀ m r, t.nodes m = some r → ∃ r', t'.nodes m = some r' ∧ (∀ p, r.parent = some p → r'.parent = some p) ∧
        (Clean H t.mem m r → Clean H t'.mem m r')) ∧
      (∀ m i, t.nodes m ≠ none → t'.mem (.slot m i) = t.mem (.slot m i)) ∧
      (∀ m, t.nodes m = none → t'.nodes m ≠ none → Up t'.nodes n m) := by
  obtain ⟨rc, hrc⟩ := hw.currN
  obtain ⟨n, i, r, a1, a2, a3, a4, a5⟩ := findSpace_spec (t.height + 1) (i := 0) hw hrc hw.currL (by omega)
  have hms : ∃ (t1 : Tree α) (n1 i1 : Nat) (lvl1 : Nat → Nat) (q1 : Node) (j1 : Nat), makeSpace zero t n i = .ok (t1, n1, i1) ∧ Grow H t t1 n1 ∧ Ok lvl1 t1 (fun m => m = n1) ∧
      Zeros zero t1.nodes t1.mem ∧ lvl1 n1 = i1 ∧ t1.nodes n1 = some q1 ∧ q1.ch[j1]? = some none ∧ ((i1 = 0 ∧ n1 = t.curr) ∨ rc.full = true) := by
    unfold makeSpace
    rw [getNode_ok a2, Out.bind_ok]
    by_cases hf : r.full = true
    · rw [if_pos hf]
      have hn : n = t.root := by
        rcases a4 with h | h
        · exact h
        · rw [hf] at h; cases h
      subst hn
      obtain ⟨t', lvl', b1, b2, b3, b4, b5, q', b6, b7⟩ := newRoot_spec (H := H) hw hz a2 hf
      simp only [beq_self_eq_true, Out.check_true, Out.bind_ok, b1]
      refine ⟨t', t'.root, i + 1, lvl', q', 1, rfl, b2, b3, b4, by rw [b5, a3], b6, b7, .inr ?_⟩
      rcases a5 with ⟨h1, _⟩ | h
      · rw [h1, hrc] at a2; cases a2; exact hf
      · exact h
    · rw [if_neg hf]
      have : ∃ j : Nat, r.ch[j]? = some none := by
        by_contra hcon
        exact hf ((full_iff (hw.len _ _ a2)).mpr (fun j hj => hcon ⟨j, hj⟩))
      obtain ⟨j, hj⟩ := this
      refine ⟨t, n, i, lvl, r, j, rfl, Grow.refl _ _, hw.weaken (fun _ h => h.elim), hz, a3, a2, hj, ?_⟩
      rcases a5 with ⟨h1, h2⟩ | h
      · exact .inl ⟨h2, h1⟩
      · exact .inr h
  obtain ⟨t1, n1, i1, lvl1, q1, j1, b1, b2, b3, b4, b5, b6, b7, b8⟩ := hms
  obtain ⟨t2, n2, lvl2, c1, c2, c3, c4, c5, c6, c7, q2, j2, c8, c9⟩ := growDown_spec i1 b2 b3 b4 b5 b6 b7
  have hsc : ∃ t3 q3, setCurr t2 n2 = .ok t3 ∧ Ok lvl2 t3 (fun _ => False) ∧ t3.mem = t2.mem ∧ t3.leaves = t2.leaves ∧
      (∀ m r, t2.nodes m = some r → ∃ r', t3.nodes m = some r' ∧ r'.parent = r.parent ∧ r'.hp = r.hp ∧ r'.ch = r.ch) ∧
      (∀ m, t2.nodes m = none → t3.nodes m = none) ∧ t3.nodes n2 = some q3 ∧ q3.ch = q2.ch := by
    by_cases e : t2.curr = n2
    · refine ⟨t2, q2, by unfold setCurr; rw [if_pos e], ?_, rfl, rfl, fun m r h => ⟨r, h, rfl, rfl, rfl⟩, fun _ h => h, c8, rfl⟩
      refine c3.dropExc ?_
      intro m r hm hmn _
      exact .inr (.inl (by rw [hmn, e]))
    · have hfull : rc.full = true := by
        rcases b8 with ⟨h1, h2⟩ | h
        · exfalso
          have := c6 h1
          exact e (by rw [this.1, h2, c2.curr])
        · exact h
      obtain ⟨i, x, hx⟩ := full_busy (hw.len _ _ hrc) hfull
      obtain ⟨rc', d1, _, _, d4⟩ := c2.keep _ _ hrc
      rw [← c2.curr] at d1
      refine ⟨_, { q2 with isCurr := true }, setCurr_ok e c8 d1, c3.setCurr c8 c5 d1 ⟨i, x, d4 i x hx⟩ e, rfl, rfl, ?_, ?_, upd_same _ _ _, rfl⟩
      · intro m r hm
        by_cases e1 : m = n2
        · subst e1; rw [c8] at hm; cases hm; exact ⟨_, upd_same _ _ _, rfl, rfl, rfl⟩
        · simp only [upd_ne _ _ e1]
          by_cases e2 : m = t2.curr
          · subst e2; rw [d1] at hm; cases hm; exact ⟨_, upd_same _ _ _, rfl, rfl, rfl⟩
          · exact ⟨r, by rw [upd_ne _ _ e2]; exact hm, rfl, rfl, rfl⟩
      · intro m hm
        have e1 : m ≠ n2 := by rintro rfl; rw [c8] at hm; cases hm
        have e2 : m ≠ t2.curr := by rintro rfl; rw [d1] at hm; cases hm
        simp only [upd_ne _ _ e1, upd_ne _ _ e2]; exact hm
  obtain ⟨t3, q3, d1, d2, d3, d4, d5, d6, d7, d8⟩ := hsc
  have hback : ∀ m r', t3.nodes m = some r' → ∃ r, t2.nodes m = some r ∧ r'.parent = r.parent ∧ r'.hp = r.hp ∧ r'.ch = r.ch := by
    intro m r' hm
    cases hr : t2.nodes m with
    | none => rw [d6 m hr] at hm; cases hm
    | some r =>
      obtain ⟨r'', f1, f2⟩ := d5 m r hr
      rw [hm] at f1; cases f1
      exact ⟨r, rfl, f2⟩
  refine ⟨t3, n2, lvl2, q3, j2, ?_, d2, ?_, d7, by rw [d8]; exact c9, c5, by rw [d4, c2.lvs], ?_, ?_, ?_⟩
  · unfold currentWithSpace
    simp only [a1, Out.bind_ok, b1, c1, d1]
  · intro p q j hp hj
    obtain ⟨r, f1, _, _, f4⟩ := hback p q hp
    rw [d3]
    exact c4 p r j f1 (by rw [← f4]; exact hj)
  · intro m r hm
    obtain ⟨r', f1, f2, f3, _⟩ := c2.keep m r hm
    obtain ⟨r'', g1, g2, g3, _⟩ := d5 m r' f1
    refine ⟨r'', g1, fun p hp => by rw [g2]; exact f2 p hp, fun hc => ?_⟩
    have := f3 hc
    unfold Clean at this ⊢
    rw [d3, g3]; exact this
  · intro m i hm
    rw [d3]; exact c2.mem m i hm
  · intro m hm0 hm
    have := c2.new m hm0 (fun e => hm (d6 m e))
    refine this.mono ?_
    intro m r p hm hp
    obtain ⟨r', f1, f2, _⟩ := d5 m r hm
    exact ⟨r', f1, by rw [f2, hp]⟩

end Svr.Merkle
