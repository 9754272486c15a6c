import Verif.Bytes
import Verif.OMap
import Mathlib.Data.List.Forall2

/-!
# Streaming a database row by row

Shared by the four databases: the receive loop of `LoadRowsFromProtos`, the end-to-end transfer
(`RowsAsProtos` on one side, `LoadRowsFromProtos` on the other) and the lemma that a transfer in chunks
of any positive sizes reproduces the source. The per-database facts are hypotheses here and are proved
for each database in its own file.
-/

namespace Svr

/-- Rows strictly after a cursor: the whole map for the empty cursor (the `exclusive_start.empty()`
branch of every `RowsAsProtos`). -/
def rowsAfter {V : Type} (m : OMap Bytes V) (start : Bytes) : List (Bytes × V) :=
  if start.isEmpty then m.list else m.upperBound start

/-- Key of the last pair, empty when there is none. -/
def lastKeyOf {V : Type} (l : List (Bytes × V)) : Bytes := (l.getLast?.map (·.1)).getD []

section
variable {S PB E V : Type}

/-- A whole transfer: the sender emits a chunk after its cursor, the receiver loads it, the sender moves
the cursor to the last key it emitted, until an empty chunk or the list of chunk sizes runs out. -/
def transfer (emit : Bytes → Nat → Out (Except E (Bytes × List PB)))
    (load : S → List (Option PB) → Out (S × Except E Bytes)) : S → Bytes → List Nat → Out (S × Option E)
  | dst, _, [] => .ok (dst, none)
  | dst, cursor, n :: ns =>
    match emit cursor n with
    | .abort => .abort
    | .ub => .ub
    | .ok (.error e) => .ok (dst, some e)
    | .ok (.ok (k, rows)) =>
      if rows.isEmpty then .ok (dst, none)
      else do
        let (dst', res) ← load dst (rows.map some)
        match res with
        | .error e => pure (dst', some e)
        | .ok _ => transfer emit load dst' k ns

theorem lastKeyOf_append {l1 l2 : List (Bytes × V)} (h : l2 ≠ []) : lastKeyOf (l1 ++ l2) = lastKeyOf l2 := by
  unfold lastKeyOf
  rw [List.getLast?_append_of_ne_nil _ h]

theorem rowsAfter_split {m : OMap Bytes V} {l1 l2 : List (Bytes × V)} (h : m.list = l1 ++ l2)
    (hk : ∀ p ∈ m.list, p.1 ≠ []) : rowsAfter m (lastKeyOf l1) = l2 := by
  rcases List.eq_nil_or_concat l1 with rfl | ⟨l, ⟨k, v⟩, rfl⟩
  · simpa [rowsAfter, lastKeyOf] using h
  · have h' : m.list = l ++ (k, v) :: l2 := by simpa using h
    have : lastKeyOf (l ++ [(k, v)]) = k := by simp [lastKeyOf]
    have hk' : k ≠ [] := hk (k, v) (by simp [h'])
    rw [List.concat_eq_append, this, rowsAfter, if_neg (by simpa using hk')]
    exact OMap.upperBound_split h'

/-- A transfer with enough capacity reproduces the source. -/
theorem transfer_ok (ρ : OMap Bytes V → S) (pb : Bytes → V → PB) (m : OMap Bytes V)
    (emit : Bytes → Nat → Out (Except E (Bytes × List PB)))
    (load : S → List (Option PB) → Out (S × Except E Bytes))
    (hk : ∀ p ∈ m.list, p.1 ≠ [])
    (hemit : ∀ l1 l2 n, m.list = l1 ++ l2 →
      emit (lastKeyOf l1) n = .ok (.ok (lastKeyOf ((rowsAfter m (lastKeyOf l1)).take n),
        ((rowsAfter m (lastKeyOf l1)).take n).map (fun p => pb p.1 p.2))))
    (hload : ∀ m1 m2 : OMap Bytes V, ∀ c, m2.list = m1.list ++ c → c ≠ [] → (∀ p ∈ m2.list, p ∈ m.list) →
      load (ρ m1) ((c.map (fun p => pb p.1 p.2)).map some) = .ok (ρ m2, .ok (lastKeyOf c)))
    (sizes : List Nat) (hpos : ∀ n ∈ sizes, 0 < n) (m1 : OMap Bytes V) (rest : List (Bytes × V))
    (hm : m.list = m1.list ++ rest) (hsum : rest.length ≤ sizes.sum) :
    transfer emit load (ρ m1) (lastKeyOf m1.list) sizes = .ok (ρ m, none) := by
  induction sizes generalizing m1 rest with
  | nil =>
    have : rest = [] := by simpa using hsum
    subst this
    have : m1 = m := OMap.ext (by simpa using hm.symm)
    simp [transfer, this]
  | cons n ns ih =>
    have hn := hpos n List.mem_cons_self
    have he := hemit m1.list rest n hm
    have hra : rowsAfter m (lastKeyOf m1.list) = rest := rowsAfter_split hm hk
    rw [hra] at he
    unfold transfer
    rw [he]
    by_cases hr : rest = []
    · subst hr
      have : m1 = m := OMap.ext (by simpa using hm.symm)
      simp [this]
    · have hc : rest.take n ≠ [] := by
        intro h
        rcases List.take_eq_nil_iff.mp h with h | h
        · omega
        · exact hr h
      have hne : ((rest.take n).map (fun p => pb p.1 p.2)).isEmpty = false := by
        simp only [List.isEmpty_eq_false_iff, ne_eq, List.map_eq_nil_iff]; exact hc
      simp only [hne, Bool.false_eq_true, if_false]
      have hml : m.list = (m1.list ++ rest.take n) ++ rest.drop n := by
        rw [List.append_assoc, List.take_append_drop]; exact hm
      let m2 : OMap Bytes V := ⟨m1.list ++ rest.take n, by
        have := m.sorted; rw [hml] at this; exact (List.pairwise_append.mp this).1⟩
      have hm2 : m2.list = m1.list ++ rest.take n := rfl
      rw [hload m1 m2 (rest.take n) hm2 hc (fun p hp => by rw [hml]; exact List.mem_append_left _ hp)]
      simp only [Out.bind_ok]
      have hlk : lastKeyOf (rest.take n) = lastKeyOf m2.list := by
        rw [hm2, lastKeyOf_append hc]
      rw [hlk]
      apply ih (fun x hx => hpos x (List.mem_cons_of_mem _ hx)) m2 (rest.drop n) hml
      simp only [List.length_drop, List.sum_cons] at hsum ⊢
      omega

end

/-- Stop-at-first-error loop over received rows. -/
def loadLoopG {S PB E : Type} (ld : S → Option PB → Out (S × Option E)) : S → List (Option PB) → Out (S × Option E)
  | s, [] => .ok (s, none)
  | s, r :: rs => do
    let (s1, e) ← ld s r
    match e with
    | some e => pure (s1, some e)
    | none => loadLoopG ld s1 rs

/-- Loading consecutive good rows appends them. -/
theorem loadLoopG_ok {S PB E V : Type} (ld : S → Option PB → Out (S × Option E)) (ρ : OMap Bytes V → S)
    (pb : Bytes → V → PB) (good : Bytes → V → Prop)
    (h1 : ∀ m : OMap Bytes V, ∀ k v, good k v → (∀ p ∈ m.list, p.1 < k) →
      ld (ρ m) (some (pb k v)) = .ok (ρ (m.insert k v), none))
    (c : List (Bytes × V)) (m1 m2 : OMap Bytes V) (h : m2.list = m1.list ++ c)
    (hg : ∀ p ∈ c, good p.1 p.2) :
    loadLoopG ld (ρ m1) ((c.map (fun p => pb p.1 p.2)).map some) = .ok (ρ m2, none) := by
  induction c generalizing m1 with
  | nil =>
    have : m1 = m2 := OMap.ext (by simpa using h.symm)
    simp [loadLoopG, this]
  | cons p c ih =>
    obtain ⟨k, v⟩ := p
    have hs := m2.sorted
    rw [h] at hs
    have hlt : ∀ p ∈ m1.list, p.1 < k := fun p hp =>
      (List.pairwise_append.mp hs).2.2 p hp (k, v) List.mem_cons_self
    simp only [List.map_cons, loadLoopG]
    rw [h1 m1 k v (hg (k, v) List.mem_cons_self) hlt]
    simp only [Out.bind_ok]
    apply ih
    · rw [OMap.insert_list_of_lt m1 k v hlt, h]; simp
    · exact fun q hq => hg q (List.mem_cons_of_mem _ hq)

/-- Loading only ever appends, in increasing key order, one row per accepted input; accepted rows are
related to their input by `Rel`. -/
theorem loadLoopG_appends {PB E V : Type} (ld : OMap Bytes V → Option PB → Out (OMap Bytes V × Option E))
    (Rel : PB → Bytes → V → Prop)
    (h1 : ∀ m pb m' e, ld m pb = .ok (m', e) →
      (e ≠ none ∧ m' = m) ∨
      (e = none ∧ ∃ x k v, pb = some x ∧ Rel x k v ∧ m'.list = m.list ++ [(k, v)]))
    (rows : List (Option PB)) (m m' : OMap Bytes V) (e : Option E) (h : loadLoopG ld m rows = .ok (m', e)) :
    ∃ c, m'.list = m.list ++ c ∧ c.length ≤ rows.length ∧
      List.Forall₂ (fun o p => ∃ x, o = some x ∧ Rel x p.1 p.2) (rows.take c.length) c ∧
      (e = none ↔ c.length = rows.length) := by
  induction rows generalizing m with
  | nil =>
    simp only [loadLoopG, Out.ok.injEq, Prod.mk.injEq] at h
    obtain ⟨rfl, rfl⟩ := h
    exact ⟨[], by simp, by simp, List.Forall₂.nil, by simp⟩
  | cons r rs ih =>
    simp only [loadLoopG] at h
    cases hl : ld m r with
    | abort => rw [hl] at h; simp at h
    | ub => rw [hl] at h; simp at h
    | ok q =>
      obtain ⟨m1, e1⟩ := q
      rw [hl] at h
      simp only [Out.bind_ok] at h
      rcases h1 m r m1 e1 hl with ⟨hne, rfl⟩ | ⟨rfl, x, k, v, rfl, hrel, hlist⟩
      · cases e1 with
        | none => exact absurd rfl hne
        | some e1 =>
          simp only [Out.pure_eq, Out.ok.injEq, Prod.mk.injEq] at h
          obtain ⟨rfl, rfl⟩ := h
          exact ⟨[], by simp, by simp, by simp, by simp⟩
      · simp only at h
        obtain ⟨c, hc, hlen, hf, hiff⟩ := ih m1 h
        refine ⟨(k, v) :: c, by rw [hc, hlist]; simp, by simpa using hlen, ?_, ?_⟩
        · simp only [List.length_cons, List.take_succ_cons]
          exact List.Forall₂.cons ⟨x, rfl, hrel⟩ hf
        · simpa using hiff

/-- The same for any database state seen through `view`, under an invariant `I`. -/
theorem loadLoopG_appendsV {S PB E V : Type} (ld : S → Option PB → Out (S × Option E))
    (view : S → List (Bytes × V)) (I : S → Prop) (Rel : PB → Bytes → V → Prop)
    (h1 : ∀ m pb m' e, I m → ld m pb = .ok (m', e) →
      (e ≠ none ∧ m' = m) ∨
      (e = none ∧ I m' ∧ ∃ x k v, pb = some x ∧ Rel x k v ∧ view m' = view m ++ [(k, v)]))
    (rows : List (Option PB)) (m m' : S) (e : Option E) (hi : I m) (h : loadLoopG ld m rows = .ok (m', e)) :
    ∃ c, view m' = view m ++ c ∧ c.length ≤ rows.length ∧
      List.Forall₂ (fun o p => ∃ x, o = some x ∧ Rel x p.1 p.2) (rows.take c.length) c ∧
      (e = none ↔ c.length = rows.length) := by
  induction rows generalizing m with
  | nil =>
    simp only [loadLoopG, Out.ok.injEq, Prod.mk.injEq] at h
    obtain ⟨rfl, rfl⟩ := h
    exact ⟨[], by simp, by simp, List.Forall₂.nil, by simp⟩
  | cons r rs ih =>
    simp only [loadLoopG] at h
    cases hl : ld m r with
    | abort => rw [hl] at h; simp at h
    | ub => rw [hl] at h; simp at h
    | ok q =>
      obtain ⟨m1, e1⟩ := q
      rw [hl] at h
      simp only [Out.bind_ok] at h
      rcases h1 m r m1 e1 hi hl with ⟨hne, rfl⟩ | ⟨rfl, hi1, x, k, v, rfl, hrel, hlist⟩
      · cases e1 with
        | none => exact absurd rfl hne
        | some e1 =>
          simp only [Out.pure_eq, Out.ok.injEq, Prod.mk.injEq] at h
          obtain ⟨rfl, rfl⟩ := h
          exact ⟨[], by simp, by simp, by simp, by simp⟩
      · simp only at h
        obtain ⟨c, hc, hlen, hf, hiff⟩ := ih m1 hi1 h
        refine ⟨(k, v) :: c, by rw [hc, hlist]; simp, by simpa using hlen, ?_, ?_⟩
        · simp only [List.length_cons, List.take_succ_cons]
          exact List.Forall₂.cons ⟨x, rfl, hrel⟩ hf
        · simpa using hiff

/-- Concatenations of equal-sized blocks are equal only block by block. -/
theorem flatMap_blocks_inj {α β : Type} {f : α → Bytes} {g : β → Bytes} {n : Nat} (hn : 0 < n)
    (hf : ∀ a, (f a).length = n) (hg : ∀ b, (g b).length = n) :
    ∀ (l1 : List α) (l2 : List β), l1.flatMap f = l2.flatMap g → l1.map f = l2.map g
  | [], [], _ => rfl
  | [], b :: l2, h => by
      have := congrArg List.length h
      simp [hg] at this; omega
  | a :: l1, [], h => by
      have := congrArg List.length h
      simp [hf] at this; omega
  | a :: l1, b :: l2, h => by
      simp only [List.flatMap_cons] at h
      have h' := List.append_inj h (by rw [hf, hg])
      simp only [List.map_cons, h'.1, flatMap_blocks_inj hn hf hg l1 l2 h'.2]

end Svr
