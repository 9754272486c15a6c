import Verif.Raft.Shape

/-!
# The hash chain, and the history a replica's log is a window of
-/

namespace Svr.Raft

/-- The hash before position `i` (counted from 0) of a history. -/
def prevOf (L : List Entry) (i : Nat) : Bytes :=
  if i = 0 then zeros 32 else match L[i - 1]? with
    | some e => e.hash
    | none => []

/-- The entry at position `i` of `L` carries the hash of the one before, of its own index, term and content; `G` has the
inputs of HMAC. -/
structure Linked {P : Type} (v : Env P) (G : Bytes × Bytes → Prop) (L : List Entry) (i : Nat) (e : Entry) : Prop where
  term : e.term ≠ 0
  fits : e.term < SZ
  len : e.hash.length = 32
  hash : e.hash = v.hmac (prevOf L i) (Node.hashInput v (i + 1) e.term e.inner)
  known : G (prevOf L i, Node.hashInput v (i + 1) e.term e.inner)

/-- Every entry extends the chain. -/
def Chain {P : Type} (v : Env P) (G : Bytes × Bytes → Prop) (L : List Entry) : Prop :=
  ∀ i e, L[i]? = some e → Linked v G L i e

/-- HMAC has no collision among the inputs `G`. -/
def NoCollision {P : Type} (v : Env P) (G : Bytes × Bytes → Prop) : Prop :=
  ∀ a b, G a → G b → v.hmac a.1 a.2 = v.hmac b.1 b.2 → a = b

/-- Different groups are serialized differently. -/
def SerInj {P : Type} (v : Env P) : Prop := ∀ g g', v.ser g = v.ser g' → g = g'

variable {P : Type} {v : Env P} {G : Bytes × Bytes → Prop}

theorem prevOf_append {L : List Entry} {i : Nat} (M : List Entry) (h : i ≤ L.length) : prevOf (L ++ M) i = prevOf L i := by
  unfold prevOf
  split
  · rfl
  · rw [List.getElem?_append_left (by omega)]

theorem prevOf_take {L : List Entry} {i n : Nat} (h : i ≤ n) : prevOf (L.take n) i = prevOf L i := by
  unfold prevOf
  split
  · rfl
  · rw [List.getElem?_take, if_pos (by omega)]

theorem Linked.congr {L L' : List Entry} {i : Nat} {e : Entry} (h : Linked v G L i e) (hp : prevOf L' i = prevOf L i) :
    Linked v G L' i e := ⟨h.term, h.fits, h.len, by rw [hp]; exact h.hash, by rw [hp]; exact h.known⟩

theorem Chain.nil : Chain v G [] := by intro i e h; simp at h

theorem Chain.mono {G' : Bytes × Bytes → Prop} {L : List Entry} (h : Chain v G L) (hg : ∀ x, G x → G' x) : Chain v G' L :=
  fun i e he => let l := h i e he; ⟨l.term, l.fits, l.len, l.hash, hg _ l.known⟩

theorem Chain.take {L : List Entry} (h : Chain v G L) (n : Nat) : Chain v G (L.take n) := by
  intro i e he
  rw [List.getElem?_take] at he
  split at he
  · exact (h i e he).congr (prevOf_take (by omega))
  · cases he

theorem Chain.prefix {L L' : List Entry} (h : Chain v G L) (hp : L' <+: L) : Chain v G L' := by
  rw [List.prefix_iff_eq_take.mp hp]
  exact h.take _

theorem Chain.append {L : List Entry} {e : Entry} (h : Chain v G L) (he : Linked v G L L.length e) : Chain v G (L ++ [e]) := by
  intro i e' he'
  by_cases hi : i < L.length
  · rw [List.getElem?_append_left hi] at he'
    exact (h i e' he').congr (prevOf_append _ (by omega))
  · rw [List.getElem?_append_right (by omega)] at he'
    have hi' : i = L.length := by
      by_contra h0
      rw [List.getElem?_eq_none (by simp; omega)] at he'
      cases he'
    subst hi'
    simp only [Nat.sub_self, List.getElem?_cons_zero, Option.some.injEq] at he'
    subst he'
    exact he.congr (prevOf_append _ le_rfl)

/-- HMAC inputs at the same index determine term and content. -/
theorem hashInput_inj (hs : SerInj v) {i t t' : Nat} {a b : Inner} (ht : t < SZ) (ht' : t' < SZ)
    (h : Node.hashInput v i t a = Node.hashInput v i t' b) : t = t' ∧ a = b := by
  have key : ∀ {x y : UInt8} {c d : Bytes}, [x] ++ (be64 i ++ be64 t) ++ c = [y] ++ (be64 i ++ be64 t') ++ d →
      x = y ∧ t = t' ∧ c = d := by
    intro x y c d h
    have h1 := List.append_inj h (by simp)
    have h2 := List.append_inj h1.1 rfl
    have h3 := List.append_inj h2.2 rfl
    exact ⟨by simpa using h2.1, be64_inj ht ht' h3.2, h1.2⟩
  cases a <;> cases b <;> simp only [Node.hashInput] at h
  all_goals first
    | (have h := key (c := []) (d := []) (by simpa using h); obtain ⟨h1, h2, h3⟩ := h)
    | (have h := key (c := []) (by simpa using h); obtain ⟨h1, h2, h3⟩ := h)
    | (have h := key (d := []) (by simpa using h); obtain ⟨h1, h2, h3⟩ := h)
    | (obtain ⟨h1, h2, h3⟩ := key h)
  all_goals first
    | exact absurd h1 (by decide)
    | exact ⟨h2, rfl⟩
    | exact ⟨h2, congrArg _ h3⟩
    | exact ⟨h2, congrArg _ (hs _ _ h3)⟩

/-- Two chains with the same hash at the same index are equal up to there. -/
theorem chain_inj (hn : NoCollision v G) (hs : SerInj v) {L L' : List Entry} (h : Chain v G L) (h' : Chain v G L') :
    ∀ {i : Nat} {e e' : Entry}, L[i]? = some e → L'[i]? = some e' → e.hash = e'.hash → L.take (i + 1) = L'.take (i + 1) := by
  intro i
  induction i with
  | zero =>
    intro e e' he he' hh
    have a := h _ _ he
    have b := h' _ _ he'
    have := hn _ _ a.known b.known (by simp only; rw [← a.hash, ← b.hash, hh])
    simp only [Prod.mk.injEq] at this
    obtain ⟨h1, h2⟩ := hashInput_inj hs a.fits b.fits this.2
    have hee : e = e' := by cases e; cases e'; simp_all
    rw [List.take_add_one, List.take_add_one, he, he', hee]
    simp
  | succ i ih =>
    intro e e' he he' hh
    have a := h _ _ he
    have b := h' _ _ he'
    have := hn _ _ a.known b.known (by simp only; rw [← a.hash, ← b.hash, hh])
    simp only [Prod.mk.injEq] at this
    obtain ⟨h1, h2⟩ := hashInput_inj hs a.fits b.fits this.2
    have hee : e = e' := by cases e; cases e'; simp_all
    have hi : i < L.length := by have := (List.getElem?_eq_some_iff.mp he).1; omega
    have hi' : i < L'.length := by have := (List.getElem?_eq_some_iff.mp he').1; omega
    have hp := this.1
    unfold prevOf at hp
    rw [if_neg (by omega), if_neg (by omega)] at hp
    simp only [Nat.add_sub_cancel, List.getElem?_eq_getElem hi, List.getElem?_eq_getElem hi'] at hp
    rw [List.take_add_one (l := L), List.take_add_one (l := L') (i := i + 1),
      ih (List.getElem?_eq_getElem hi) (List.getElem?_eq_getElem hi') hp, he, he', hee]

/-- The log is a window, up to the newest entry, of the history `full`. -/
structure LogOf (l : Log) (full : List Entry) : Prop where
  one : 1 ≤ l.oldest
  le : l.oldest ≤ full.length + 1
  eq : l.entries = full.drop (l.oldest - 1)
  empty : l.entries = [] → l.oldest = 1

theorem LogOf.len {l : Log} {full : List Entry} (h : LogOf l full) : l.entries.length + l.oldest = full.length + 1 := by
  have := h.one; have := h.le
  rw [h.eq, List.length_drop]; omega

theorem LogOf.lastIdx {l : Log} {full : List Entry} (h : LogOf l full) : l.lastIdx = full.length := by
  have h1 := h.len
  unfold Log.lastIdx
  split
  · rename_i h0
    have := h.empty (List.eq_nil_of_length_eq_zero h0)
    omega
  · omega

theorem LogOf.at? {l : Log} {full : List Entry} (h : LogOf l full) {i : Nat} (hi : l.oldest ≤ i) : l.at? i = full[i - 1]? := by
  have := h.one
  rw [Log.at?_eq, if_neg (by omega), h.eq, List.getElem?_drop]
  congr 1; omega

theorem LogOf.at_some {l : Log} {full : List Entry} (h : LogOf l full) {i : Nat} {e : Entry} (hi : l.at? i = some e) :
    1 ≤ i ∧ l.oldest ≤ i ∧ i ≤ full.length ∧ full[i - 1]? = some e := by
  have h1 := (Log.at?_some_iff l i).mp (by rw [hi]; rfl)
  have := h.len; have := h.one
  refine ⟨by omega, h1.1, by omega, ?_⟩
  rw [← h.at? h1.1, hi]

theorem LogOf.mostRecent {l : Log} {full : List Entry} (h : LogOf l full) (hc : Chain v G full) :
    (match l.mostRecentHash with | some h => h | none => zeros 32) = prevOf full full.length := by
  have hl := h.len
  have h1 := h.one
  unfold Log.mostRecentHash prevOf
  by_cases h0 : l.entries.length = 0
  · have := h.empty (List.eq_nil_of_length_eq_zero h0)
    have : full.length = 0 := by omega
    have h2 : l.entries = [] := List.eq_nil_of_length_eq_zero h0
    simp [h2, this]
  · have hne : l.entries ≠ [] := fun h => h0 (by rw [h]; rfl)
    rw [if_neg (show ¬ full.length = 0 by omega)]
    obtain ⟨e, he⟩ : ∃ e, full[full.length - 1]? = some e :=
      ⟨_, List.getElem?_eq_getElem (show full.length - 1 < full.length by omega)⟩
    have hrev : ∃ t, l.entries.reverse = e :: t := by
      have : l.entries.getLast? = some e := by
        rw [List.getLast?_eq_getElem?, h.eq, List.getElem?_drop, List.length_drop, ← he]
        congr 1; omega
      rw [← List.head?_reverse] at this
      cases hr : l.entries.reverse with
      | nil => rw [hr] at this; cases this
      | cons a t => rw [hr] at this; simp only [List.head?_cons, Option.some.injEq] at this; exact ⟨t, by rw [this]⟩
    obtain ⟨t, ht⟩ := hrev
    rw [ht, he, List.find?_cons_of_pos (by simp [(hc _ _ he).len])]
    rfl

end Svr.Raft
