import Verif.MerkleHash

/-!
# Destroying parts of a Merkle tree
-/

namespace Svr.Merkle
variable {α : Type} [DecidableEq α] {H : List α → α} {zero : α}
variable {lvl : Nat → Nat} {g : Nat → Option Node} {lf : Nat → Option Leaf} {root curr next L : Nat} {exc : Nat → Prop}

theorem idxOf_unique {l : List (Option Ptr)} {x : Option Ptr} {i : Nat} (h : l[i]? = some x) (hu : ∀ j : Nat, l[j]? = some x → j = i) :
    l.idxOf? x = some i := by
  rw [List.idxOf?, List.findIdx?_eq_some_iff_getElem]
  obtain ⟨hi, hx⟩ := List.getElem?_eq_some_iff.mp h
  refine ⟨hi, by simp [hx], ?_⟩
  intro j hj
  simp only [beq_iff_eq, Bool.not_eq_true, beq_eq_false_iff_ne]
  intro e
  have := hu j (by rw [List.getElem?_eq_some_iff]; exact ⟨by omega, e⟩)
  omega

theorem empty_iff {r : Node} : r.empty = true ↔ ∀ (j : Nat) (x : Ptr), r.ch[j]? ≠ some (some x) := by
  unfold Node.empty Node.parts
  simp only [beq_iff_eq, List.countP_eq_zero]
  constructor
  · intro h j x hx
    have := h (some x) (List.mem_of_getElem? hx)
    simp at this
  · intro h o ho
    obtain ⟨j, hj⟩ := List.mem_iff_getElem?.mp ho
    cases o with
    | none => simp
    | some x => exact absurd hj (h j x)

/-- What a slot without a child holds. -/
def Zeros (zero : α) (g : Nat → Option Node) (mem : HPtr → α) : Prop :=
  ∀ (p : Nat) (q : Node) (j : Nat), g p = some q → q.ch[j]? = some none → mem (.slot p j) = zero

/-- A slot that holds no node is no node's place for its hash. -/
theorem Wf.not_hp (hw : Wf lvl g lf root curr next L exc) {p i : Nat} {q : Node} (hp : g p = some q) (hc : ∀ n, q.ch[i]? ≠ some (some (.node n)))
    {m : Nat} {r : Node} (hm : g m = some r) : r.hp ≠ .slot p i := by
  intro e
  by_cases h1 : m = root
  · obtain ⟨r0, z1, z2, z3⟩ := hw.rootN
    rw [← h1, hm] at z1; cases z1
    rw [z3] at e; cases e
  · obtain ⟨p', i', q', _, e2, e3, e4, _⟩ := hw.up m r hm h1
    rw [e] at e2; cases e2
    rw [hp] at e3; cases e3
    exact hc m e4

/-- `Node::Remove` when the tree without the part is well formed. -/
theorem remove_spec {t : Tree α} {p i : Nat} {q : Node} {x : Ptr} (hq : t.nodes p = some q) (hc : q.ch[i]? = some (some x))
    (hu : ∀ j : Nat, q.ch[j]? = some (some x) → j = i)
    (hw : Wf lvl g lf root curr next t.height exc) (hp : g p = some { q with ch := q.ch.set i none })
    (hv : ∀ n r, n ≠ p → g n = some r → t.nodes n = some r) :
    ∃ mem', remove H zero t p x = .ok { t with nodes := upd t.nodes p (some { q with ch := q.ch.set i none }), mem := mem' } ∧
      (∀ h, (∀ m r, g m = some r → r.hp ≠ h) → h ≠ .slot p i → mem' h = t.mem h) ∧
      mem' (.slot p i) = zero ∧
      (∀ m r, g m = some r → Clean H t.mem m r ∨ Up g p m → Clean H mem' m r) := by
  have hslot : ({ q with ch := q.ch.set i none } : Node).ch[i]? = some none := set_get_eq hc
  have hnot : ∀ m r, g m = some r → r.hp ≠ .slot p i := fun m r hm =>
    hw.not_hp hp (fun n => by rw [hslot]; simp) hm
  have hiw : i < width := lt_width hw hp hslot
  unfold remove
  rw [getNode_ok hq, Out.bind_ok, idxOf_unique hc hu]
  simp only [setNode]
  have hval : valid { t with nodes := upd t.nodes p (some { q with ch := q.ch.set i none }) } (.slot p i) = true := by
    simp [valid, hiw]
  rw [wr_ok hval, Out.bind_ok]
  obtain ⟨mem', h1, h2, h3⟩ := updateNode_spec (H := H) hw (t.height + 1)
    (t := { t with nodes := upd t.nodes p (some { q with ch := q.ch.set i none }), mem := put t.mem (.slot p i) zero })
    (n := p) (fun n r hn => by
      by_cases e : n = p
      · subst e; rw [hp] at hn; simp only [upd_same]; exact hn
      · simp only [upd_ne _ _ e]; exact hv n r e hn) hp (by omega)
  refine ⟨mem', h1, ?_, ?_, ?_⟩
  · intro h hh hne
    rw [h2 h hh]
    exact put_ne _ _ hne
  · rw [h2 _ hnot]
    exact put_same _ _ _
  · intro m r hm hor
    refine h3 m r hm ?_
    by_cases e : m = p
    · subst e; exact .inr (Up.refl _)
    · rcases hor with hcl | hup
      · left
        unfold Clean
        simp only
        rw [hashesIn_put e, put_ne _ _ (hnot m r hm)]
        exact hcl
      · exact .inr hup

/-- `Part::~Part` of a part below `p`, when the tree without the part is well formed but for `p` perhaps being empty:
all nodes that became empty are gone. -/
theorem destroyPart_spec : ∀ (f : Nat) {t : Tree α} {g : Nat → Option Node} {p i : Nat} {q : Node} {x : Ptr}, t.nodes p = some q →
    q.ch[i]? = some (some x) → (∀ j : Nat, q.ch[j]? = some (some x) → j = i) →
    Wf lvl g lf t.root t.curr t.next t.height (fun m => m = p) → g p = some { q with ch := q.ch.set i none } →
    (∀ n r, n ≠ p → g n = some r → t.nodes n = some r) → t.height < lvl p + f →
    ∃ nodes' mem' g', destroyPart H zero f t (some p) x = .ok { t with nodes := nodes', mem := mem' } ∧
      Wf lvl g' lf t.root t.curr t.next t.height (fun _ => False) ∧
      (∀ n, g n ≠ none → nodes' n = g' n) ∧ (∀ n, g n = none → nodes' n = t.nodes n ∧ g' n = none) ∧
      (∀ n r, g' n = some r → ∃ r0, g n = some r0 ∧ r.parent = r0.parent ∧ r.hp = r0.hp) ∧
      (∀ h, (∀ m r, g m = some r → r.hp ≠ h) → h ≠ .slot p i → mem' h = t.mem h) ∧
      ((∀ p' q' j, g p' = some q' → q'.ch[j]? = some none → ¬ (p' = p ∧ j = i) → t.mem (.slot p' j) = zero) → Zeros zero g' mem') ∧
      (∀ m r, g' m = some r → Clean H t.mem m r ∨ Up g p m → Clean H mem' m r)
  | 0, t, g, p, i, q, x, hq, hc, hu, hw, hp, hv, hf => by have := hw.top p _ hp; omega
  | f + 1, t, g, p, i, q, x, hq, hc, hu, hw, hp, hv, hf => by
    obtain ⟨mem1, k1, k2, k3, k4⟩ := remove_spec (H := H) (zero := zero) hq hc hu hw hp hv
    have hz1 : (∀ p' q' j, g p' = some q' → q'.ch[j]? = some none → ¬ (p' = p ∧ j = i) → t.mem (.slot p' j) = zero) → Zeros zero g mem1 := by
      intro hz p' q' j hp' hj
      by_cases e : p' = p ∧ j = i
      · obtain ⟨rfl, rfl⟩ := e; exact k3
      · rw [k2 _ (fun m r hm => hw.not_hp hp' (fun n => by rw [hj]; simp) hm) (fun e' => e (by cases e'; exact ⟨rfl, rfl⟩))]
        exact hz p' q' j hp' hj e
    unfold destroyPart
    rw [k1, Out.bind_ok, getNode_ok (upd_same _ _ _), Out.bind_ok]
    by_cases hd : (Node.empty { q with ch := q.ch.set i none } && !q.isRoot && !q.isCurr) = true
    · simp only [hd, if_true]
      simp only [Bool.and_eq_true, Bool.not_eq_true'] at hd
      obtain ⟨⟨d1, d2⟩, d3⟩ := hd
      have hpr : p ≠ t.root := by
        intro e
        have := (hw.rootF p _ hp).mpr e
        simp only at this
        rw [d2] at this; cases this
      have hpc : p ≠ t.curr := by
        intro e
        have := (hw.currF p _ hp).mpr e
        simp only at this
        rw [d3] at this; cases this
      obtain ⟨pp, ii, qq, e1, e2, e3, e4, e5⟩ := hw.up p _ hp hpr
      simp only at e1 e2
      have hpp : pp ≠ p := by rintro rfl; omega
      have hw2 := hw.detachNode e3 e4 hp (empty_iff.mp d1) hpc
      have hw2 : Wf lvl (upd (upd g pp (some { qq with ch := qq.ch.set ii none })) p none) lf t.root t.curr t.next t.height (fun m => m = pp) :=
        hw2.dropExc (fun n r hn he hne => by
          rcases he with e | e
          · subst e; rw [upd_same] at hn; cases hn
          · exact absurd e hne)
      obtain ⟨nodes', mem', g', j1, j2, j3, j4, j5, j6, j7, j8⟩ := destroyPart_spec f
        (t := { t with nodes := upd t.nodes p (some { q with ch := q.ch.set i none }), mem := mem1 })
        (g := upd (upd g pp (some { qq with ch := qq.ch.set ii none })) p none) (p := pp) (i := ii) (q := qq) (x := .node p)
        (by simp only [upd_ne _ _ hpp]; exact hv pp qq hpp e3) e4
        (fun j hj => by
          obtain ⟨_, y1, _, y3, _⟩ := hw.down pp qq j p e3 hj
          rw [hp] at y1; cases y1
          simp only [e2, HPtr.slot.injEq, true_and] at y3
          exact y3.symm) hw2 (by rw [upd_ne _ _ hpp, upd_same])
        (by
          intro n r hn hgn
          rcases upd_cases hgn with ⟨_, e⟩ | ⟨hnp, hgn⟩
          · cases e
          rw [upd_ne _ _ hn] at hgn
          simp only [upd_ne _ _ hnp]
          exact hv n r hnp hgn) (by simp only; omega)
      rw [← e1] at j1
      rw [j1, Out.bind_ok]
      have hg2 : ∀ n, n ≠ p → (upd (upd g pp (some { qq with ch := qq.ch.set ii none })) p none n = none ↔ g n = none) := by
        intro n hn
        rw [upd_ne _ _ hn]
        by_cases e : n = pp
        · subst e; rw [upd_same, e3]; simp
        · rw [upd_ne _ _ e]
      have hnp : nodes' p = some { q with ch := q.ch.set i none } := by
        rw [(j4 p (upd_same _ _ _)).1]; exact upd_same _ _ _
      unfold freeNode
      rw [getNode_ok (t := { t with nodes := nodes', mem := mem' }) hnp, Out.bind_ok, if_pos d1]
      have hsub : ∀ n r, upd (upd g pp (some { qq with ch := qq.ch.set ii none })) p none n = some r → ∃ r0, g n = some r0 ∧ r.parent = r0.parent ∧ r.hp = r0.hp := by
        intro n r hn
        rcases upd_cases hn with ⟨_, e⟩ | ⟨_, hn⟩
        · cases e
        rcases upd_cases hn with ⟨rfl, e⟩ | ⟨_, e⟩
        · cases e; exact ⟨qq, e3, rfl, rfl⟩
        · exact ⟨r, e, rfl, rfl⟩
      refine ⟨upd nodes' p none, mem', g', rfl, j2, ?_, ?_, ?_, ?_, ?_, ?_⟩
      · intro n hn
        by_cases e : n = p
        · subst e; rw [upd_same, (j4 n (upd_same _ _ _)).2]
        · rw [upd_ne _ _ e]
          exact j3 n (fun h => hn ((hg2 n e).mp h))
      · intro n hn
        have e : n ≠ p := by rintro rfl; rw [hp] at hn; cases hn
        obtain ⟨h1, h2⟩ := j4 n ((hg2 n e).mpr hn)
        refine ⟨?_, h2⟩
        rw [upd_ne _ _ e, h1]
        exact upd_ne _ _ e
      · intro n r hn
        obtain ⟨r0, h1, h2, h3⟩ := j5 n r hn
        obtain ⟨r1, h4, h5, h6⟩ := hsub n r0 h1
        exact ⟨r1, h4, by rw [h2, h5], by rw [h3, h6]⟩
      · intro h hh hne
        rw [j6 h ?_ ?_]
        · exact k2 h hh hne
        · intro m r hm
          obtain ⟨r1, h4, _, h6⟩ := hsub m r hm
          rw [h6]; exact hh m r1 h4
        · intro e
          exact hh p _ hp (by rw [e]; exact e2)
      · intro hz
        refine j7 ?_
        intro p' q' j hp' hj hne
        rcases upd_cases hp' with ⟨_, e⟩ | ⟨_, hp'⟩
        · cases e
        rcases upd_cases hp' with ⟨rfl, e⟩ | ⟨_, e⟩
        · cases e
          rcases set_get hj with ⟨e, _⟩ | ⟨_, e⟩
          · exact absurd ⟨rfl, e⟩ hne
          · exact hz1 hz p' qq j e3 e
        · exact hz1 hz p' q' j e hj
      · intro m r hm hor
        obtain ⟨r0, h1, h2, h3⟩ := j5 m r hm
        obtain ⟨r1, h4, h5, h6⟩ := hsub m r0 h1
        refine j8 m r hm (.inl ?_)
        have := k4 m r1 h4 (by
          rcases hor with hcl | hup
          · left; unfold Clean at hcl ⊢; rw [← h6, ← h3]; exact hcl
          · exact .inr hup)
        unfold Clean at this ⊢
        rw [h3, h6]; exact this
    · simp only [hd]
      refine ⟨_, mem1, g, rfl, ?_, ?_, ?_, fun n r hn => ⟨r, hn, rfl, rfl⟩, k2, hz1, k4⟩
      · refine hw.dropExc ?_
        intro n r hn he _
        subst he
        rw [hp] at hn; cases hn
        by_contra hcon
        simp only [not_or, not_exists] at hcon
        obtain ⟨c1, c2, c3⟩ := hcon
        have c3 : ∀ (j : Nat) (x : Ptr), (q.ch.set i none)[j]? ≠ some (some x) := c3
        refine hd ?_
        have f1 := hw.rootF n _ hp
        have f2 := hw.currF n _ hp
        simp only at f1 f2
        have d1 : Node.empty { q with ch := q.ch.set i none } = true := empty_iff.mpr c3
        simp only [c1, iff_false, Bool.not_eq_true] at f1
        simp only [c2, iff_false, Bool.not_eq_true] at f2
        rw [d1, f1, f2]; rfl
      · intro n hn
        by_cases e : n = p
        · subst e; rw [upd_same, hp]
        · rw [upd_ne _ _ e]
          cases hg : g n with
          | none => exact absurd hg hn
          | some r => exact hv n r e hg
      · intro n hn
        have e : n ≠ p := by rintro rfl; rw [hp] at hn; cases hn
        exact ⟨upd_ne _ _ e, hn⟩

end Svr.Merkle
