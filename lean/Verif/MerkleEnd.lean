import Verif.MerkleVerify

/-!
# The destructor of a Merkle tree
-/

namespace Svr.Merkle
variable {α : Type} [DecidableEq α] {H : List α → α} {zero : α}
variable {lvl : Nat → Nat} {exc : Nat → Prop}

/-- Nodes with the pointers up in order: each one's parent is the next one. -/
inductive UpLine (g : Nat → Option Node) : List Nat → Prop
  | nil : UpLine g []
  | cons {p : Nat} {ps : List Nat} {q : Node} : g p = some q → q.parent = ps.head? →
      (q.hp = .root ∨ ∃ p' i, q.hp = .slot p' i ∧ (g p').isSome ∧ i < width) → UpLine g ps → UpLine g (p :: ps)

theorem updateNode_line {g : Nat → Option Node} : ∀ {ps : List Nat} {p : Nat} (f : Nat) {t : Tree α}, UpLine g (p :: ps) → t.nodes = g → ps.length < f →
    ∃ mem', updateNode H f t p = .ok { t with mem := mem' }
  | ps, p, 0, t, h, hg, hf => by omega
  | ps, p, f + 1, t, h, hg, hf => by
    cases h with
    | cons a b c d =>
      rename_i q
      have hv : valid t q.hp = true := by
        rcases c with c | ⟨p', i, c, c', c''⟩
        · rw [c]; rfl
        · rw [c]; simp [valid, hg, c', c'']
      unfold updateNode
      rw [getNode_ok (by rw [hg]; exact a), Out.bind_ok, wr_ok hv, Out.bind_ok, b]
      cases ps with
      | nil => exact ⟨_, rfl⟩
      | cons p' ps =>
        simp only [List.length_cons] at hf
        obtain ⟨mem', h'⟩ := updateNode_line f (t := { t with mem := put t.mem q.hp (H (hashes t p)) }) d hg (by omega)
        exact ⟨mem', h'⟩

/-- A part at the bottom of a line of nodes, each with nothing else below. -/
inductive Line (g : Nat → Option Node) : Ptr → List Nat → Prop
  | nil (x : Ptr) : Line g x []
  | cons {x : Ptr} {p i : Nat} {ps : List Nat} {q : Node} : g p = some q → q.parent = ps.head? →
      (q.hp = .root ∨ ∃ p' i, q.hp = .slot p' i ∧ p' ∈ ps ∧ i < width) →
      q.ch[i]? = some (some x) → (∀ (j : Nat) (y : Ptr), q.ch[j]? = some (some y) → j = i) → q.ch.length = width → q.isRoot = false → q.isCurr = false →
      Line g (.node p) ps → Line g x (p :: ps)

theorem Line.live {g : Nat → Option Node} {x : Ptr} {ps : List Nat} (h : Line g x ps) : ∀ p ∈ ps, (g p).isSome := by
  induction h with
  | nil => intro p hp; cases hp
  | cons a _ _ _ _ _ _ _ _ ih =>
    intro p hp
    rcases List.mem_cons.mp hp with rfl | hp
    · rw [a]; rfl
    · exact ih p hp

theorem Line.congr {g g' : Nat → Option Node} {x : Ptr} {ps : List Nat} (h : Line g x ps) (hg : ∀ p ∈ ps, g' p = g p) : Line g' x ps := by
  induction h with
  | nil => exact Line.nil _
  | cons a b c d e f i j _ ih =>
    refine Line.cons ?_ b c d e f i j (ih fun p hp => hg p (List.mem_cons_of_mem _ hp))
    rw [hg _ List.mem_cons_self]; exact a

theorem Line.upLine {g : Nat → Option Node} {x : Ptr} {ps : List Nat} (h : Line g x ps) : UpLine g ps := by
  induction h with
  | nil => exact UpLine.nil
  | cons a b c d e f i j k ih =>
    refine UpLine.cons a b ?_ ih
    rcases c with c | ⟨p', i', c1, c2, c3⟩
    · exact .inl c
    · exact .inr ⟨p', i', c1, k.live p' c2, c3⟩

theorem destroyPart_line : ∀ {ps : List Nat} {x : Ptr} (f : Nat) {t : Tree α}, Line t.nodes x ps → ps.Nodup → ps.length < f → ps.length ≤ t.height + 1 →
    ∃ mem', destroyPart H zero f t ps.head? x = .ok { t with nodes := fun n => if n ∈ ps then none else t.nodes n, mem := mem' }
  | _, _, 0, _, _, _, hf, _ => by omega
  | [], x, f + 1, t, h, hd, hf, hh => ⟨t.mem, by simp [destroyPart]⟩
  | p :: ps, x, f + 1, t, h, hd, hf, hh => by
    have hul := h.upLine
    cases h with
    | cons a b c d e fl ir ic k =>
      rename_i i q
      have hnp : p ∉ ps := (List.nodup_cons.mp hd).1
      simp only [List.length_cons] at hf hh
      have hi : i < width := by rw [← fl]; exact (List.getElem?_eq_some_iff.mp d).1
      -- the state in which `Update` runs
      obtain ⟨g1, hg1⟩ : ∃ g1, g1 = upd t.nodes p (some { q with ch := q.ch.set i none }) := ⟨_, rfl⟩
      have hgp : g1 p = some { q with ch := q.ch.set i none } := by rw [hg1, upd_same]
      have hgo : ∀ n, n ≠ p → g1 n = t.nodes n := fun n hn => by rw [hg1, upd_ne _ _ hn]
      have hk : Line g1 (.node p) ps := k.congr fun p' hp' => hgo p' (fun e => hnp (e ▸ hp'))
      have hul1 : UpLine g1 (p :: ps) := by
        refine UpLine.cons hgp b ?_ hk.upLine
        rcases c with c | ⟨p', i', c1, c2, c3⟩
        · exact .inl c
        · exact .inr ⟨p', i', c1, hk.live p' c2, c3⟩
      obtain ⟨mem1, u1⟩ := updateNode_line (H := H) (t.height + 1) (t := { t with nodes := g1, mem := put t.mem (.slot p i) zero }) hul1 rfl (by omega)
      have hrem : remove H zero t p x = .ok { t with nodes := g1, mem := mem1 } := by
        unfold remove
        rw [getNode_ok a, Out.bind_ok, idxOf_unique d (fun j hj => e j _ hj)]
        simp only [setNode]
        rw [← hg1, wr_ok (by simp [valid, hgp, hi]), Out.bind_ok]
        exact u1
      have hemp : Node.empty { q with ch := q.ch.set i none } = true := by
        rw [empty_iff]
        intro j y hj
        rcases set_get hj with ⟨_, e'⟩ | ⟨hne, e'⟩
        · cases e'
        · exact hne (e j y e')
      obtain ⟨mem2, v1⟩ := destroyPart_line f (t := { t with nodes := g1, mem := mem1 }) hk (List.nodup_cons.mp hd).2 (by omega) (by simp only; omega)
      refine ⟨mem2, ?_⟩
      simp only [List.head?_cons]
      unfold destroyPart
      rw [hrem, Out.bind_ok, getNode_ok hgp, Out.bind_ok, if_pos (by rw [hemp, ir, ic]; rfl)]
      simp only
      rw [b, v1, Out.bind_ok]
      unfold freeNode
      rw [getNode_ok (r := { q with ch := q.ch.set i none }) (by simp only [if_neg hnp]; exact hgp), Out.bind_ok, if_pos hemp]
      simp only [Out.ok.injEq, Tree.mk.injEq, and_true]
      funext n
      unfold upd
      by_cases e1 : n = p
      · subst e1; simp
      · simp [e1, hgo n e1]

/-- With no leaves there is at most one node at each level. -/
theorem one_per_level {t : Tree α} (hw : Ok lvl t (fun _ => False)) (hno : ∀ l r p, t.leaves l = some r → r.parent ≠ some p) :
    ∀ (k : Nat) {n m : Nat} {r r' : Node}, t.nodes n = some r → t.nodes m = some r' → lvl n = k → lvl m = k → n = m := by
  have hnl : ∀ p q (i : Nat) l, t.nodes p = some q → q.ch[i]? ≠ some (some (.leaf l)) := by
    intro p q i l hp hc
    obtain ⟨_, r, a, b, _⟩ := hw.downLeaf p q i l hp hc
    exact hno l r p a b
  have hroot : ∀ m r', t.nodes m = some r' → lvl m = t.height → m = t.root := by
    intro m r' hm hl
    by_contra hne
    obtain ⟨p, i, q, _, _, e3, _, e5⟩ := hw.up m r' hm hne
    have := hw.top p q e3
    omega
  intro k
  induction k with
  | zero =>
    have h0 : ∀ n r, t.nodes n = some r → lvl n = 0 → t.height ≠ 0 → n = t.curr := by
      intro n r hn hl hh
      by_contra hne
      have hnr : n ≠ t.root := by rintro rfl; have := hw.rootL; omega
      obtain ⟨i, x, hx⟩ := hw.busy n r hn hnr hne (fun h => h)
      cases x with
      | leaf l => exact hnl n r i l hn hx
      | node c =>
        obtain ⟨_, _, _, _, e⟩ := hw.down n r i c hn hx
        omega
    intro n m r r' hn hm h1 h2
    by_cases hh : t.height = 0
    · rw [hroot n r hn (by omega), hroot m r' hm (by omega)]
    · rw [h0 n r hn h1 hh, h0 m r' hm h2 hh]
  | succ k ih =>
    intro n m r r' hn hm h1 h2
    by_cases hh : t.height = k + 1
    · rw [hroot n r hn (by omega), hroot m r' hm (by omega)]
    · have hch : ∀ n r, t.nodes n = some r → lvl n = k + 1 → ∃ c rc, t.nodes c = some rc ∧ lvl c = k ∧ rc.parent = some n := by
        intro n r hn hl
        have hnr : n ≠ t.root := by rintro rfl; have := hw.rootL; omega
        have hnc : n ≠ t.curr := by rintro rfl; have := hw.currL; omega
        obtain ⟨i, x, hx⟩ := hw.busy n r hn hnr hnc (fun h => h)
        cases x with
        | leaf l => exact absurd hx (hnl n r i l hn)
        | node c =>
          obtain ⟨rc, e1, e2, _, e⟩ := hw.down n r i c hn hx
          exact ⟨c, rc, e1, by omega, e2⟩
      obtain ⟨c, rc, a1, a2, a3⟩ := hch n r hn h1
      obtain ⟨c', rc', b1, b2, b3⟩ := hch m r' hm h2
      have := ih a1 b1 a2 b2
      subst this
      rw [a1] at b1; cases b1
      rw [a3] at b3; cases b3; rfl

/-- The nodes without their flags. -/
def bare (g : Nat → Option Node) : Nat → Option Node := fun n => (g n).map fun r => { r with isRoot := false, isCurr := false }

theorem line_up {t : Tree α} (hw : Ok lvl t (fun _ => False)) (hno : ∀ l r p, t.leaves l = some r → r.parent ≠ some p) :
    ∀ (k : Nat) {n : Nat} {r : Node}, t.nodes n = some r → t.height = lvl n + k →
    ∃ ps : List Nat, Line (bare t.nodes) (.node n) ps ∧ r.parent = ps.head? ∧ (r.hp = .root ∨ ∃ p' i, r.hp = .slot p' i ∧ p' ∈ ps ∧ i < width) ∧ ps.Nodup ∧ ps.length = k ∧
      (∀ m ∈ ps, lvl n < lvl m) ∧ (∀ m r', t.nodes m = some r' → lvl n < lvl m → m ∈ ps)
  | 0, n, r, hn, hk => by
    have hnr : n = t.root := by
      by_contra hne
      obtain ⟨p, i, q, _, _, e3, _, e5⟩ := hw.up n r hn hne
      have := hw.top p q e3
      omega
    obtain ⟨r0, z1, z2, z3⟩ := hw.rootN
    rw [← hnr, hn] at z1; cases z1
    refine ⟨[], Line.nil _, z2, .inl z3, by simp, rfl, (fun m hm => by cases hm), ?_⟩
    intro m r' hm hl
    have := hw.top m r' hm
    omega
  | k + 1, n, r, hn, hk => by
    have hne : n ≠ t.root := by rintro rfl; have := hw.rootL; omega
    obtain ⟨p, i, q, e1, e2, e3, e4, e5⟩ := hw.up n r hn hne
    obtain ⟨ps, a1, a2, a3, a4, a5, a6, a7⟩ := line_up hw hno k e3 (by omega)
    refine ⟨p :: ps, ?_, e1, .inr ⟨p, i, e2, List.mem_cons_self, lt_width hw e3 e4⟩, ?_, by simp [a5], ?_, ?_⟩
    · refine Line.cons (q := { q with isRoot := false, isCurr := false }) (by simp [bare, e3]) a2 a3 e4 ?_ (hw.len p q e3) rfl rfl a1
      intro j y hj
      simp only at hj
      cases y with
      | leaf l =>
        obtain ⟨_, r1, b1, b2, _⟩ := hw.downLeaf p q j l e3 hj
        exact absurd b2 (hno l r1 p b1)
      | node c =>
        obtain ⟨rc, b1, b2, b3, b4⟩ := hw.down p q j c e3 hj
        have := one_per_level hw hno (lvl n) b1 hn (by omega) rfl
        subst this
        rw [hn] at b1; cases b1
        rw [e2] at b3; cases b3; rfl
    · refine List.nodup_cons.mpr ⟨fun hp => ?_, a4⟩
      have := a6 p hp
      omega
    · intro m hm
      rcases List.mem_cons.mp hm with rfl | hm
      · omega
      · have := a6 m hm; omega
    · intro m r' hm hl
      by_cases e : lvl m = lvl p
      · rw [one_per_level hw hno (lvl p) hm e3 e rfl]; exact List.mem_cons_self
      · exact List.mem_cons_of_mem _ (a7 m r' hm (by omega))

/-- `Tree::~Tree` after all leaves are gone frees every node. -/
theorem destroyTree_spec {t : Tree α} (hw : Ok lvl t (fun _ => False)) (hno : ∀ l r p, t.leaves l = some r → r.parent ≠ some p) :
    ∃ t', destroyTree H zero t = .ok t' ∧ ∀ n, t'.nodes n = none := by
  obtain ⟨rr, z1, _, _⟩ := hw.rootN
  obtain ⟨rc, hc⟩ := hw.currN
  obtain ⟨ps, a1, a2, a3, a4, a5, a6, a7⟩ := line_up hw hno t.height hc (by have := hw.currL; omega)
  have hcn : t.curr ∉ ps := fun h => by have := a6 _ h; omega
  have hbc : bare t.nodes t.curr = some { rc with isRoot := false, isCurr := false } := by simp [bare, hc]
  -- clearing the two flags
  obtain ⟨rc', k1, k2⟩ : ∃ rc', upd t.nodes t.root (some { rr with isRoot := false }) t.curr = some rc' ∧
      upd (upd t.nodes t.root (some { rr with isRoot := false })) t.curr (some { rc' with isCurr := false }) = bare t.nodes := by
    have hcase : ∀ n r, t.nodes n = some r → n ≠ t.root → r.isRoot = false := fun n r hn hne => by
      have := hw.rootF n r hn
      cases h : r.isRoot with
      | false => rfl
      | true => exact absurd (this.mp h) hne
    have hcase' : ∀ n r, t.nodes n = some r → n ≠ t.curr → r.isCurr = false := fun n r hn hne => by
      have := hw.currF n r hn
      cases h : r.isCurr with
      | false => rfl
      | true => exact absurd (this.mp h) hne
    have heta : ∀ r : Node, r.isRoot = false → r.isCurr = false → r = { r with isRoot := false, isCurr := false } := by
      intro r h1 h2; cases r; simp_all
    by_cases e : t.curr = t.root
    · refine ⟨{ rr with isRoot := false }, by rw [e, upd_same], ?_⟩
      funext n
      unfold upd bare
      by_cases e1 : n = t.curr
      · simp [e1, e, z1]
      · simp only [e1, if_false, e ▸ e1]
        cases hn : t.nodes n with
        | none => rfl
        | some r => simp only [Option.map_some, Option.some.injEq]; exact heta r (hcase n r hn (e ▸ e1)) (hcase' n r hn e1)
    · refine ⟨rc, by rw [upd_ne _ _ e]; exact hc, ?_⟩
      funext n
      unfold upd bare
      by_cases e1 : n = t.curr
      · have := hcase t.curr rc hc e
        simp only [e1, if_true, hc, Option.map_some, Option.some.injEq]
        cases rc; simp_all
      · simp only [e1, if_false]
        by_cases e2 : n = t.root
        · have := hcase' n rr (e2 ▸ z1) e1
          simp only [e2, if_true, z1, Option.map_some, Option.some.injEq]
          cases rr; simp_all
        · simp only [e2, if_false]
          cases hn : t.nodes n with
          | none => rfl
          | some r => simp only [Option.map_some, Option.some.injEq]; exact heta r (hcase n r hn e2) (hcase' n r hn e1)
  obtain ⟨mem', d⟩ := destroyPart_line (H := H) (zero := zero) (t.height + 1) (t := { t with nodes := bare t.nodes }) a1 a4 (by omega) (by simp only; omega)
  have hempty : Node.empty { rc with isRoot := false, isCurr := false } = true := by
    rw [empty_iff]
    intro j y hj
    simp only at hj
    cases y with
    | leaf l =>
      obtain ⟨_, r1, b1, b2, _⟩ := hw.downLeaf _ rc j l hc hj
      exact hno l r1 _ b1 b2
    | node c =>
      obtain ⟨_, _, _, _, b4⟩ := hw.down _ rc j c hc hj
      have := hw.currL
      omega
  refine ⟨{ t with nodes := upd (fun n => if n ∈ ps then none else bare t.nodes n) t.curr none, mem := mem' }, ?_, ?_⟩
  · unfold destroyTree
    rw [getNode_ok z1, Out.bind_ok]
    simp only [setNode]
    rw [getNode_ok k1, Out.bind_ok]
    simp only [k2]
    rw [getNode_ok hbc, Out.bind_ok]
    simp only [a2]
    rw [d, Out.bind_ok]
    unfold freeNode
    rw [getNode_ok (r := { rc with isRoot := false, isCurr := false }) (by simp only [if_neg hcn]; exact hbc), Out.bind_ok, if_pos hempty]
  · intro n
    unfold upd
    by_cases e : n = t.curr
    · simp [e]
    · simp only [e, if_false]
      cases hn : t.nodes n with
      | none => split <;> simp [bare, hn]
      | some r =>
        rw [if_pos]
        refine a7 n r hn ?_
        rw [hw.currL]
        rcases Nat.eq_zero_or_pos (lvl n) with h | h
        · exact absurd (one_per_level hw hno 0 hn hc h hw.currL) e
        · exact h

end Svr.Merkle
