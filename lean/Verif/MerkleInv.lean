import Verif.MerkleGrow
import Verif.Spec.Leaves

/-!
# The invariant of a Merkle tree over all histories
-/

namespace Svr.Merkle
variable {α : Type} [DecidableEq α] {H : List α → α} {zero : α}

/-- A node above a leaf that was not updated yet. -/
def Waits (s : Table α) (t : Tree α) (m : Nat) : Prop :=
  ∃ l r p, s l = some .fresh ∧ t.leaves l = some r ∧ r.parent = some p ∧ Up t.nodes p m

structure Inv (H : List α → α) (zero : α) (s : Table α) (t : Tree α) : Prop where
  wf : ∃ lvl, Ok lvl t (fun _ => False)
  zeros : Zeros zero t.nodes t.mem
  dom : ∀ l, s l = none → t.leaves l = none
  moved : ∀ l, s l = some .moved → t.leaves l = some ⟨none, none⟩
  fresh : ∀ l, s l = some .fresh → ∃ p hp, t.leaves l = some ⟨some p, some hp⟩
  val : ∀ l h, s l = some (.val h) → ∃ p hp, t.leaves l = some ⟨some p, some hp⟩ ∧ t.mem hp = h
  clean : ∀ m r, t.nodes m = some r → Clean H t.mem m r ∨ Waits s t m

/-- A leaf that holds something. -/
theorem Inv.live {s : Table α} {t : Tree α} (h : Inv H zero s t) {l : Nat} {p : Nat} {hp : HPtr} (hl : t.leaves l = some ⟨some p, some hp⟩) :
    s l = some .fresh ∨ ∃ v, s l = some (.val v) := by
  match hs : s l with
  | none => rw [h.dom l hs] at hl; cases hl
  | some .moved => rw [h.moved l hs] at hl; cases hl
  | some .fresh => exact .inl rfl
  | some (.val v) => exact .inr ⟨v, rfl⟩

theorem Wf.leafAt {lvl : Nat → Nat} {g : Nat → Option Node} {lf : Nat → Option Leaf} {root curr next L : Nat} {exc : Nat → Prop}
    (hw : Wf lvl g lf root curr next L exc) {l p : Nat} {hp : HPtr} (hl : lf l = some ⟨some p, some hp⟩) :
    ∃ (i : Nat) (q : Node), hp = .slot p i ∧ g p = some q ∧ q.ch[i]? = some (some (.leaf l)) ∧ i < width ∧ (∀ j : Nat, q.ch[j]? = some (some (.leaf l)) → j = i) := by
  obtain ⟨i, q, a, b, c⟩ := hw.upLeaf l _ p hl rfl
  simp only [Option.some.injEq] at a
  refine ⟨i, q, a, b, c, lt_width hw b c, ?_⟩
  intro j hj
  obtain ⟨_, r, d1, _, d3⟩ := hw.downLeaf _ _ _ _ b hj
  rw [hl] at d1; cases d1
  rw [a] at d3
  simpa using d3.symm

theorem Inv.create {s : Table α} {t : Tree α} (h : Inv H zero s t) {l : Nat} (hl : s l = none) :
    ∃ t', createLeaf zero t l = .ok t' ∧ Inv H zero (upd s l (some .fresh)) t' := by
  obtain ⟨lvl, hw⟩ := h.wf
  obtain ⟨t1, n, lvl1, q, j, a1, a2, a3, a4, a5, a6, a7, a8, a9, a10⟩ := currentWithSpace_spec (H := H) hw h.zeros
  obtain ⟨i, b1, b2⟩ := first_free a5
  have hl1 : t1.leaves l = none := by rw [a7]; exact h.dom l hl
  refine ⟨_, by unfold createLeaf; simp only [a1, Out.bind_ok]; rw [insert_ok a4 b1]; rfl, ?_⟩
  have hpar : ∀ m r, t1.nodes m = some r → ∃ r', upd t1.nodes n (some { q with ch := q.ch.set i (some (.leaf l)) }) m = some r' ∧
      r'.parent = r.parent ∧ r'.hp = r.hp := by
    intro m r hm
    by_cases e : m = n
    · subst e; rw [a4] at hm; cases hm; exact ⟨_, upd_same _ _ _, rfl, rfl⟩
    · exact ⟨r, by rw [upd_ne _ _ e]; exact hm, rfl, rfl⟩
  have hup : ∀ a b, Up t1.nodes a b → Up (upd t1.nodes n (some { q with ch := q.ch.set i (some (.leaf l)) })) a b := by
    intro a b hab
    refine hab.mono ?_
    intro m r p hm hp
    obtain ⟨r', c1, c2, _⟩ := hpar m r hm
    exact ⟨r', c1, by rw [c2, hp]⟩
  have hold : ∀ l' r, t.leaves l' = some r → l' ≠ l ∧ upd t1.leaves l (some ⟨some n, some (.slot n i)⟩) l' = some r := by
    intro l' r hr
    have hne : l' ≠ l := by rintro rfl; rw [h.dom _ hl] at hr; cases hr
    exact ⟨hne, by rw [upd_ne _ _ hne, a7]; exact hr⟩
  refine ⟨⟨lvl1, a2.attachLeaf a4 a6 b2 hl1⟩, ?_, ?_, ?_, ?_, ?_, ?_⟩
  · intro p' q' j' hp' hj'
    rcases upd_cases hp' with ⟨rfl, e⟩ | ⟨_, e⟩
    · cases e
      rcases set_get hj' with ⟨_, e⟩ | ⟨_, e⟩
      · cases e
      · exact a3 _ _ _ a4 e
    · exact a3 _ _ _ e hj'
  · intro l' hl'
    have hne : l' ≠ l := by rintro rfl; rw [upd_same] at hl'; cases hl'
    rw [upd_ne _ _ hne] at hl'
    simp only [upd_ne _ _ hne, setNode, a7]
    exact h.dom l' hl'
  · intro l' hl'
    have hne : l' ≠ l := by rintro rfl; rw [upd_same] at hl'; cases hl'
    rw [upd_ne _ _ hne] at hl'
    exact (hold l' _ (h.moved l' hl')).2
  · intro l' hl'
    by_cases e : l' = l
    · subst e; exact ⟨n, .slot n i, upd_same _ _ _⟩
    · rw [upd_ne _ _ e] at hl'
      obtain ⟨p, hp, c⟩ := h.fresh l' hl'
      exact ⟨p, hp, (hold l' _ c).2⟩
  · intro l' v hl'
    have hne : l' ≠ l := by rintro rfl; rw [upd_same] at hl'; cases hl'
    rw [upd_ne _ _ hne] at hl'
    obtain ⟨p, hp, c, d⟩ := h.val l' v hl'
    refine ⟨p, hp, (hold l' _ c).2, ?_⟩
    obtain ⟨i', q', e1, e2, _⟩ := hw.leafAt c
    rw [← d, e1]
    exact a9 p i' (by rw [e2]; simp)
  · intro m r hm
    have hm1 : ∃ r1, t1.nodes m = some r1 ∧ r.hp = r1.hp := by
      rcases upd_cases hm with ⟨rfl, e⟩ | ⟨_, e⟩
      · cases e; exact ⟨q, a4, rfl⟩
      · exact ⟨r, e, rfl⟩
    obtain ⟨r1, c1, c2⟩ := hm1
    cases h0 : t.nodes m with
    | none =>
      refine .inr ⟨l, _, n, upd_same _ _ _, upd_same _ _ _, rfl, hup _ _ (a10 m h0 (by rw [c1]; simp))⟩
    | some r0 =>
      obtain ⟨r1', d1, d2, d3⟩ := a8 m r0 h0
      rw [c1] at d1; cases d1
      rcases h.clean m r0 h0 with hc | ⟨l', r', p', e1, e2, e3, e4⟩
      · left
        have := d3 hc
        unfold Clean at this ⊢
        rw [c2]; exact this
      · right
        obtain ⟨f1, f2⟩ := hold l' r' e2
        refine ⟨l', r', p', by rw [upd_ne _ _ f1]; exact e1, f2, e3, hup _ _ (e4.mono ?_)⟩
        intro m r p hm hp
        obtain ⟨r', g1, g2, _⟩ := a8 m r hm
        exact ⟨r', g1, g2 p hp⟩

theorem Inv.update {s : Table α} {t : Tree α} (h : Inv H zero s t) {l : Nat} (v : α) (hl : s l = some .fresh ∨ ∃ v', s l = some (.val v')) :
    ∃ t', updateLeaf H t l v = .ok t' ∧ Inv H zero (upd s l (some (.val v))) t' := by
  obtain ⟨lvl, hw⟩ := h.wf
  have : ∃ p hp, t.leaves l = some ⟨some p, some hp⟩ := by
    rcases hl with hl | ⟨v', hl⟩
    · exact h.fresh l hl
    · obtain ⟨p, hp, a, _⟩ := h.val l v' hl; exact ⟨p, hp, a⟩
  obtain ⟨p, hp, hlf⟩ := this
  obtain ⟨i, q, a1, a2, a3, a4, a5⟩ := hw.leafAt hlf
  subst a1
  have hval : valid t (.slot p i) = true := by simp [valid, a2, a4]
  obtain ⟨mem', b1, b2, b3⟩ := updateNode_spec (H := H) hw (t.height + 1) (t := { t with mem := put t.mem (.slot p i) v }) (fun _ _ h => h) a2 (by omega)
  have hno : ∀ m r, t.nodes m = some r → r.hp ≠ .slot p i := fun m r hm => hw.not_hp a2 (fun n => by rw [a3]; simp) hm
  refine ⟨{ t with mem := mem' }, ?_, ⟨lvl, hw⟩, ?_, ?_, ?_, ?_, ?_, ?_⟩
  · unfold updateLeaf getLeaf
    simp only [hlf, Out.bind_ok, deref, wr_ok hval]
    exact b1
  · intro p' q' j' hp' hj'
    simp only
    rw [b2 _ (fun m r hm => hw.not_hp hp' (fun n => by rw [hj']; simp) hm)]
    simp only
    rw [put_ne]
    · exact h.zeros _ _ _ hp' hj'
    · intro e; cases e
      rw [a2] at hp'; cases hp'
      rw [a3] at hj'; cases hj'
  · intro l' hl'
    have hne : l' ≠ l := by rintro rfl; rw [upd_same] at hl'; cases hl'
    rw [upd_ne _ _ hne] at hl'
    exact h.dom l' hl'
  · intro l' hl'
    have hne : l' ≠ l := by rintro rfl; rw [upd_same] at hl'; cases hl'
    rw [upd_ne _ _ hne] at hl'
    exact h.moved l' hl'
  · intro l' hl'
    have hne : l' ≠ l := by rintro rfl; rw [upd_same] at hl'; cases hl'
    rw [upd_ne _ _ hne] at hl'
    exact h.fresh l' hl'
  · intro l' v' hl'
    by_cases e : l' = l
    · subst e
      rw [upd_same] at hl'; cases hl'
      refine ⟨p, _, hlf, ?_⟩
      simp only
      rw [b2 _ hno]
      exact put_same _ _ _
    · rw [upd_ne _ _ e] at hl'
      obtain ⟨p', hp', c, d⟩ := h.val l' v' hl'
      refine ⟨p', hp', c, ?_⟩
      obtain ⟨i', q', e1, e2, e3, _⟩ := hw.leafAt c
      subst e1
      simp only
      rw [b2 _ (fun m r hm => hw.not_hp e2 (fun n => by rw [e3]; simp) hm)]
      simp only
      rw [put_ne _ _ ?_]
      · exact d
      · intro e'; cases e'
        rw [a2] at e2; cases e2
        rw [a3] at e3; cases e3
        exact e rfl
  · intro m r hm
    by_cases e : m = p
    · exact .inl (b3 m r hm (.inr (by rw [e]; exact Up.refl _)))
    · rcases h.clean m r hm with hc | ⟨l', r', p', e1, e2, e3, e4⟩
      · refine .inl (b3 m r hm (.inl ?_))
        unfold Clean at hc ⊢
        simp only
        rw [put_ne _ _ (hno m r hm), hashesIn_put e, hc]
      · by_cases e' : l' = l
        · subst e'
          rw [hlf] at e2; cases e2
          cases e3
          exact .inl (b3 m r hm (.inr e4))
        · exact .inr ⟨l', r', p', by rw [upd_ne _ _ e']; exact e1, e2, e3, e4⟩

theorem Inv.move {s : Table α} {t : Tree α} (h : Inv H zero s t) {a b : Nat} {x : Life α} (ha : s a = some x) (hx : x ≠ .moved) (hb : s b = none) :
    ∃ t', moveLeaf t a b = .ok t' ∧ Inv H zero (upd (upd s b (some x)) a (some .moved)) t' := by
  obtain ⟨lvl, hw⟩ := h.wf
  have hab : b ≠ a := by rintro rfl; rw [ha] at hb; cases hb
  have : ∃ p hp, t.leaves a = some ⟨some p, some hp⟩ ∧ ∀ v, x = .val v → t.mem hp = v := by
    cases x with
    | moved => exact absurd rfl hx
    | fresh =>
      obtain ⟨p, hp, c⟩ := h.fresh a ha
      exact ⟨p, hp, c, fun v e => by cases e⟩
    | val v =>
      obtain ⟨p, hp, c, d⟩ := h.val a v ha
      exact ⟨p, hp, c, fun v' e => by cases e; exact d⟩
  obtain ⟨p, hp, hlf, hv⟩ := this
  obtain ⟨i, q, a1, a2, a3, a4, a5⟩ := hw.leafAt hlf
  subst a1
  have hlb := h.dom b hb
  refine ⟨_, by unfold moveLeaf getLeaf; simp only [hlf, Out.bind_ok, deref]; rw [getNode_ok a2]; simp only [Out.bind_ok, idxOf_unique a3 a5]; rfl, ?_⟩
  have hup : ∀ c d, Up t.nodes c d → Up (upd t.nodes p (some { q with ch := q.ch.set i (some (.leaf b)) })) c d := by
    intro c d hcd
    refine hcd.mono ?_
    intro m r p' hm hp
    by_cases e : m = p
    · subst e; rw [a2] at hm; cases hm; exact ⟨_, upd_same _ _ _, hp⟩
    · exact ⟨r, by rw [upd_ne _ _ e]; exact hm, hp⟩
  have hold : ∀ l' r, l' ≠ a → t.leaves l' = some r → upd (upd t.leaves b (some ⟨some p, some (.slot p i)⟩)) a (some ⟨none, none⟩) l' = some r := by
    intro l' r hne hr
    have hne' : l' ≠ b := by rintro rfl; rw [hlb] at hr; cases hr
    rw [upd_ne _ _ hne, upd_ne _ _ hne']; exact hr
  have hnew : upd (upd t.leaves b (some ⟨some p, some (.slot p i)⟩)) a (some ⟨none, none⟩) b = some ⟨some p, some (.slot p i)⟩ := by
    rw [upd_ne _ _ hab, upd_same]
  have hs : ∀ l' y, upd (upd s b (some x)) a (some .moved) l' = some y → (l' = a ∧ y = .moved) ∨ (l' = b ∧ y = x) ∨ (l' ≠ a ∧ s l' = some y) := by
    intro l' y hy
    rcases upd_cases hy with ⟨e, e1⟩ | ⟨e, hy⟩
    · cases e1; exact .inl ⟨e, rfl⟩
    · rcases upd_cases hy with ⟨e, e1⟩ | ⟨_, hy⟩
      · cases e1; exact .inr (.inl ⟨e, rfl⟩)
      · exact .inr (.inr ⟨e, hy⟩)
  refine ⟨⟨lvl, hw.moveLeaf a2 a3 hlb⟩, ?_, ?_, ?_, ?_, ?_, ?_⟩
  · intro p' q' j' hp' hj'
    rcases upd_cases hp' with ⟨rfl, e⟩ | ⟨_, e⟩
    · cases e
      rcases set_get hj' with ⟨_, e⟩ | ⟨_, e⟩
      · cases e
      · exact h.zeros _ _ _ a2 e
    · exact h.zeros _ _ _ e hj'
  · intro l' hl'
    have h1 : l' ≠ a := by rintro rfl; rw [upd_same] at hl'; cases hl'
    rw [upd_ne _ _ h1] at hl'
    have h2 : l' ≠ b := by rintro rfl; rw [upd_same] at hl'; cases hl'
    rw [upd_ne _ _ h2] at hl'
    simp only [upd_ne _ _ h1, upd_ne _ _ h2, setNode]
    exact h.dom l' hl'
  · intro l' hl'
    rcases hs l' _ hl' with ⟨rfl, _⟩ | ⟨_, e⟩ | ⟨e, e1⟩
    · exact upd_same _ _ _
    · exact absurd e.symm hx
    · exact hold l' _ e (h.moved l' e1)
  · intro l' hl'
    rcases hs l' _ hl' with ⟨_, e⟩ | ⟨rfl, e⟩ | ⟨e, e1⟩
    · cases e
    · exact ⟨p, _, hnew⟩
    · obtain ⟨p', hp', c⟩ := h.fresh l' e1
      exact ⟨p', hp', hold l' _ e c⟩
  · intro l' v hl'
    rcases hs l' _ hl' with ⟨_, e⟩ | ⟨rfl, e⟩ | ⟨e, e1⟩
    · cases e
    · exact ⟨p, _, hnew, hv v e.symm⟩
    · obtain ⟨p', hp', c, d⟩ := h.val l' v e1
      exact ⟨p', hp', hold l' _ e c, d⟩
  · intro m r hm
    have hm1 : ∃ r1, t.nodes m = some r1 ∧ r.hp = r1.hp := by
      rcases upd_cases hm with ⟨rfl, e⟩ | ⟨_, e⟩
      · cases e; exact ⟨q, a2, rfl⟩
      · exact ⟨r, e, rfl⟩
    obtain ⟨r1, c1, c2⟩ := hm1
    rcases h.clean m r1 c1 with hc | ⟨l', r', p', e1, e2, e3, e4⟩
    · left
      unfold Clean at hc ⊢
      rw [c2]; exact hc
    · right
      by_cases e : l' = a
      · subst e
        rw [ha] at e1; cases e1
        rw [hlf] at e2; cases e2
        cases e3
        exact ⟨b, _, p, by rw [upd_ne _ _ hab, upd_same], hnew, rfl, hup _ _ e4⟩
      · refine ⟨l', r', p', ?_, hold l' _ e e2, e3, hup _ _ e4⟩
        have : l' ≠ b := by rintro rfl; rw [hb] at e1; cases e1
        rw [upd_ne _ _ e, upd_ne _ _ this]; exact e1

theorem Up.shrink {lvl : Nat → Nat} {g g' : Nat → Option Node} {lf : Nat → Option Leaf} {root curr next L : Nat} {exc : Nat → Prop}
    (hw : Wf lvl g' lf root curr next L exc) (hg : ∀ n r, g' n = some r → ∃ r0, g n = some r0 ∧ r.parent = r0.parent)
    {n m : Nat} (hu : Up g n m) : g' n ≠ none → g' m ≠ none → Up g' n m := by
  induction hu with
  | refl => intros; exact Up.refl _
  | @step n p m r a b _ ih =>
    intro hn hm
    cases hr : g' n with
    | none => exact absurd hr hn
    | some r' =>
      obtain ⟨r0, c1, c2⟩ := hg n r' hr
      rw [a] at c1; cases c1
      rw [b] at c2
      have hne : n ≠ root := by
        rintro rfl
        obtain ⟨r1, d1, d2, _⟩ := hw.rootN
        rw [hr] at d1; cases d1
        rw [c2] at d2; cases d2
      obtain ⟨p', i, q, d1, _, d3, _⟩ := hw.up n r' hr hne
      rw [c2] at d1; cases d1
      exact Up.step hr c2 (ih (by rw [d3]; simp) hm)

theorem Inv.destroy {s : Table α} {t : Tree α} (h : Inv H zero s t) {l : Nat} (hl : s l ≠ none) :
    ∃ t', destroyLeaf H zero t l = .ok t' ∧ Inv H zero (upd s l none) t' := by
  obtain ⟨lvl, hw⟩ := h.wf
  have hs : ∀ l' y, upd s l none l' = some y → l' ≠ l ∧ s l' = some y := by
    intro l' y hy
    rcases upd_cases hy with ⟨_, e⟩ | e
    · cases e
    · exact e
  have hdom : ∀ l', upd s l none l' = none → upd t.leaves l none l' = none := by
    intro l' hl'
    by_cases e : l' = l
    · rw [e, upd_same]
    · rw [upd_ne _ _ e] at hl' ⊢; exact h.dom l' hl'
  have hcase : s l = some .moved ∨ (s l ≠ some .moved ∧ ∃ p hp, t.leaves l = some ⟨some p, some hp⟩) := by
    match hh : s l with
    | none => exact absurd hh hl
    | some .moved => exact .inl rfl
    | some .fresh => exact .inr ⟨by simp, h.fresh l hh⟩
    | some (.val v) =>
      obtain ⟨p, hp, c, _⟩ := h.val l v hh
      exact .inr ⟨by simp, p, hp, c⟩
  rcases hcase with hm | ⟨_, p, hp, hlf⟩
  · have hlf := h.moved l hm
    refine ⟨{ t with leaves := upd t.leaves l none }, by unfold destroyLeaf getLeaf; simp only [hlf, Out.bind_ok]; rfl, ⟨lvl, ?_⟩, h.zeros, hdom, ?_, ?_, ?_, ?_⟩
    · refine { hw with downLeaf := ?_, upLeaf := ?_, nullLeaf := ?_ }
      · intro p q i l' h1 h2
        obtain ⟨c1, r, c2, c3, c4⟩ := hw.downLeaf p q i l' h1 h2
        refine ⟨c1, r, ?_, c3, c4⟩
        have hne : l' ≠ l := by rintro rfl; rw [hlf] at c2; cases c2; cases c3
        simp only [upd_ne _ _ hne]; exact c2
      · intro l' r p h1 h2
        rcases upd_cases h1 with ⟨_, e⟩ | ⟨_, e⟩
        · cases e
        · exact hw.upLeaf l' r p e h2
      · intro l' r h1 h2
        rcases upd_cases h1 with ⟨_, e⟩ | ⟨_, e⟩
        · cases e
        · exact hw.nullLeaf l' r e h2
    · intro l' hl'
      obtain ⟨e, e1⟩ := hs l' _ hl'
      simp only [upd_ne _ _ e]; exact h.moved l' e1
    · intro l' hl'
      obtain ⟨e, e1⟩ := hs l' _ hl'
      simp only [upd_ne _ _ e]; exact h.fresh l' e1
    · intro l' v hl'
      obtain ⟨e, e1⟩ := hs l' _ hl'
      simp only [upd_ne _ _ e]; exact h.val l' v e1
    · intro m r hmm
      rcases h.clean m r hmm with hc | ⟨l', r', p', e1, e2, e3, e4⟩
      · exact .inl hc
      · have : l' ≠ l := by rintro rfl; rw [hm] at e1; cases e1
        exact .inr ⟨l', r', p', by rw [upd_ne _ _ this]; exact e1, by simp only [upd_ne _ _ this]; exact e2, e3, e4⟩
  · obtain ⟨i, q, a1, a2, a3, a4, a5⟩ := hw.leafAt hlf
    subst a1
    have hw1 := hw.detachLeaf a2 a3
    have hw2 := hw1.weaken (exc' := fun m => m = p) (fun n e => by rcases e with e | e; exact e.elim; exact e)
    obtain ⟨nodes', mem', g', b1, b2, b3, b4, b5, b6, b7, b8⟩ := destroyPart_spec (H := H) (zero := zero) (t.height + 1)
      (t := { t with leaves := upd t.leaves l none }) a2 a3 a5 hw2 (upd_same _ _ _)
      (fun n r hne hn => by rw [upd_ne _ _ hne] at hn; exact hn) (by simp only; omega)
    have hng : nodes' = g' := by
      funext n
      by_cases hn : upd t.nodes p (some { q with ch := q.ch.set i none }) n = none
      · obtain ⟨c1, c2⟩ := b4 n hn
        rw [c1, c2]
        have : n ≠ p := by rintro rfl; rw [upd_same] at hn; cases hn
        rw [upd_ne _ _ this] at hn
        exact hn
      · exact b3 n hn
    subst hng
    have hg1 : ∀ n r, nodes' n = some r → ∃ r0, t.nodes n = some r0 ∧ r.parent = r0.parent ∧ r.hp = r0.hp := by
      intro n r hn
      obtain ⟨r0, c1, c2, c3⟩ := b5 n r hn
      rcases upd_cases c1 with ⟨rfl, e⟩ | ⟨_, e⟩
      · cases e; exact ⟨q, a2, c2, c3⟩
      · exact ⟨r0, e, c2, c3⟩
    have hmem : ∀ l' p' hp', l' ≠ l → t.leaves l' = some ⟨some p', some hp'⟩ → mem' hp' = t.mem hp' := by
      intro l' p' hp' hne hl'
      obtain ⟨i', q', e1, e2, e3, _⟩ := hw.leafAt hl'
      subst e1
      have hx : Ptr.leaf l' ≠ Ptr.leaf l := fun e => hne (by cases e; rfl)
      refine b6 _ ?_ ?_
      · intro m r hm
        rcases upd_cases hm with ⟨rfl, e⟩ | ⟨_, e⟩
        · cases e
          have := hw.not_hp e2 (fun n => by rw [e3]; simp) a2
          exact this
        · exact hw.not_hp e2 (fun n => by rw [e3]; simp) e
      · intro e; cases e
        rw [a2] at e2; cases e2
        rw [a3] at e3; cases e3
        exact hx rfl
    refine ⟨_, by unfold destroyLeaf getLeaf; simp only [hlf, Out.bind_ok]; exact b1, ⟨lvl, b2⟩, ?_, hdom, ?_, ?_, ?_, ?_⟩
    · refine b7 ?_
      intro p' q' j hp' hj hne
      rcases upd_cases hp' with ⟨rfl, e⟩ | ⟨_, e⟩
      · cases e
        rcases set_get hj with ⟨e, _⟩ | ⟨_, e⟩
        · exact absurd ⟨rfl, e⟩ hne
        · exact h.zeros _ _ _ a2 e
      · exact h.zeros _ _ _ e hj
    · intro l' hl'
      obtain ⟨e, e1⟩ := hs l' _ hl'
      simp only [upd_ne _ _ e]; exact h.moved l' e1
    · intro l' hl'
      obtain ⟨e, e1⟩ := hs l' _ hl'
      simp only [upd_ne _ _ e]; exact h.fresh l' e1
    · intro l' v hl'
      obtain ⟨e, e1⟩ := hs l' _ hl'
      obtain ⟨p', hp', c, d⟩ := h.val l' v e1
      exact ⟨p', hp', by simp only [upd_ne _ _ e]; exact c, by rw [← d]; exact hmem l' p' hp' e c⟩
    · intro m r hm
      obtain ⟨r0, c1, c2, c3⟩ := hg1 m r hm
      have hupg : ∀ a b, Up t.nodes a b → Up (upd t.nodes p (some { q with ch := q.ch.set i none })) a b := by
        intro a b hab
        refine hab.mono ?_
        intro m r p' hm hp
        by_cases e : m = p
        · subst e; rw [a2] at hm; cases hm; exact ⟨_, upd_same _ _ _, hp⟩
        · exact ⟨r, by rw [upd_ne _ _ e]; exact hm, hp⟩
      rcases h.clean m r0 c1 with hc | ⟨l', r', p', e1, e2, e3, e4⟩
      · refine .inl (b8 m r hm (.inl ?_))
        unfold Clean at hc ⊢
        rw [c3]; exact hc
      · by_cases e : l' = l
        · subst e
          rw [hlf] at e2; cases e2
          cases e3
          exact .inl (b8 m r hm (.inr (hupg _ _ e4)))
        · right
          have hlv : upd t.leaves l none l' = some r' := by rw [upd_ne _ _ e]; exact e2
          refine ⟨l', r', p', by rw [upd_ne _ _ e]; exact e1, hlv, e3, ?_⟩
          obtain ⟨i', q', f1, f2, _⟩ := b2.upLeaf l' r' p' hlv e3
          refine Up.shrink b2 (g := t.nodes) (fun n r hn => ?_) e4 (by rw [f2]; simp) (by simp only at hm; rw [hm]; simp)
          obtain ⟨r0, g1, g2, _⟩ := hg1 n r hn
          exact ⟨r0, g1, g2⟩

theorem Inv.new : ∃ t, newTree H zero = .ok t ∧ Inv H zero Table.empty t := by
  refine ⟨{ nodes := upd (fun _ => none) 0 (some { parent := none, hp := .root, ch := List.replicate width none, isRoot := true, isCurr := true }),
            leaves := fun _ => none, mem := put (fun _ => zero) .root (H (List.replicate width zero)), root := 0, curr := 0, next := 1, height := 0 }, ?_, ?_⟩
  · unfold newTree newRootNode getNode setNode updateNode wr getNode
    simp only [upd_same, Out.bind_ok, valid, if_true, Out.ok.injEq, Tree.mk.injEq, true_and, and_true]
    constructor
    · funext x; unfold upd; split <;> rfl
    · funext k
      unfold put
      cases k with
      | root => simp [hashes, hashesIn, initMem, width]
      | slot n i => simp [initMem]
  · have hn : ∀ m r, upd (fun _ => none) 0 (some ({ parent := none, hp := .root, ch := List.replicate width none, isRoot := true, isCurr := true } : Node)) m = some r →
        m = 0 ∧ r = { parent := none, hp := .root, ch := List.replicate width none, isRoot := true, isCurr := true } := by
      intro m r hm
      rcases upd_cases hm with ⟨rfl, e⟩ | ⟨_, e⟩
      · cases e; exact ⟨rfl, rfl⟩
      · cases e
    have hch : ∀ (j : Nat) (x : Ptr), (List.replicate width (none : Option Ptr))[j]? ≠ some (some x) := by
      intro j x hx
      have := List.mem_of_getElem? hx
      simp at this
    refine ⟨⟨fun _ => 0, ?_⟩, ?_, ?_, ?_, ?_, ?_, ?_⟩
    · constructor
      · exact ⟨{ parent := none, hp := .root, ch := List.replicate width none, isRoot := true, isCurr := true }, rfl, rfl, rfl⟩
      · rfl
      · exact ⟨{ parent := none, hp := .root, ch := List.replicate width none, isRoot := true, isCurr := true }, rfl⟩
      · rfl
      · intro n r hm hne; exact absurd (hn n r hm).1 hne
      · intro p q i n hp hc
        rw [(hn p q hp).2] at hc; exact absurd hc (hch _ _)
      · intro p q i n hp hc
        rw [(hn p q hp).2] at hc; exact absurd hc (hch _ _)
      · intro l r p h; cases h
      · intro l r h; cases h
      · intro n r hm; rw [(hn n r hm).2]; simp
      · intro n r hm; rw [(hn n r hm).1]; exact Nat.one_pos
      · intro n r hm; rw [(hn n r hm).1, (hn n r hm).2]; simp
      · intro n r hm; rw [(hn n r hm).1, (hn n r hm).2]; simp
      · intro n r hm hne; exact absurd (hn n r hm).1 hne
      · intros; exact Nat.le_refl _
    · intro p q j hp hj
      have : put (fun _ => zero) .root (H (List.replicate width zero)) (.slot p j) = zero := by unfold put; simp
      exact this
    · intros; rfl
    · intro l h; cases h
    · intro l h; cases h
    · intro l v h; cases h
    · intro m r hm
      left
      obtain ⟨rfl, rfl⟩ := hn m r hm
      unfold Clean
      simp only
      rw [put_same, hashesIn_put_root]
      rfl

theorem Inv.step {s s' : Table α} {t : Tree α} (h : Inv H zero s t) {o : Op α} (ho : s.step o = some s') :
    ∃ t', Merkle.step H zero t o = .ok t' ∧ Inv H zero s' t' := by
  cases o with
  | create l =>
    simp only [Table.step] at ho
    split at ho
    · cases ho; exact h.create (by assumption)
    · cases ho
  | update l v =>
    simp only [Table.step] at ho
    split at ho
    · cases ho; exact h.update v (.inl (by assumption))
    · cases ho; exact h.update v (.inr ⟨_, by assumption⟩)
    · cases ho
  | move a b =>
    simp only [Table.step] at ho
    split at ho
    · cases ho; exact h.move (by assumption) (by simp) (by assumption)
    · cases ho; exact h.move (by assumption) (by simp) (by assumption)
    · cases ho
  | destroy l =>
    simp only [Table.step] at ho
    split at ho
    · rename_i hs
      cases ho; exact h.destroy (by rw [hs]; simp)
    · cases ho

theorem Inv.run : ∀ (os : List (Op α)) {s s' : Table α} {t : Tree α}, Inv H zero s t → s.run os = some s' →
    ∃ t', Merkle.run H zero t os = .ok t' ∧ Inv H zero s' t'
  | [], s, s', t, h, hr => by
    simp only [Table.run, Option.some.injEq] at hr
    subst hr
    exact ⟨t, rfl, h⟩
  | o :: os, s, s', t, h, hr => by
    simp only [Table.run] at hr
    split at hr
    · rename_i s1 hs
      obtain ⟨t1, a1, a2⟩ := h.step hs
      obtain ⟨t2, b1, b2⟩ := Inv.run os a2 hr
      refine ⟨t2, ?_, b2⟩
      unfold Merkle.run
      rw [a1, Out.bind_ok]; exact b1
    · cases hr

end Svr.Merkle
