import Mathlib.Data.List.Lex
import Mathlib.Order.Defs.LinearOrder
import Mathlib.Data.List.Pairwise

/-!
# `std::map` as a strictly sorted association list

`OMap K V` models `std::map<K, V>`: iteration order is key order, keys are unique.
-/

namespace Svr

/-- Model of `std::map<K,V>`: key/value pairs in strictly increasing key order. -/
structure OMap (K V : Type) [LinearOrder K] where
  /-- the pairs in iteration order -/
  list : List (K × V)
  /-- keys strictly increase -/
  sorted : list.Pairwise (fun a b => a.1 < b.1)

namespace OMap
variable {K V W : Type} [LinearOrder K]

theorem ext {m m' : OMap K V} (h : m.list = m'.list) : m = m' := by
  cases m; cases m'; cases h; rfl

instance [DecidableEq V] : DecidableEq (OMap K V) := fun a b =>
  if h : a.list = b.list then isTrue (ext h) else isFalse (fun e => h (e ▸ rfl))

/-- Empty map. -/
def empty : OMap K V := ⟨[], List.Pairwise.nil⟩

/-- `find` on the raw list. -/
def findL (k : K) : List (K × V) → Option V
  | [] => none
  | (a, v) :: t => if a = k then some v else findL k t

/-- insert-or-assign on the raw list. -/
def insertL (k : K) (v : V) : List (K × V) → List (K × V)
  | [] => [(k, v)]
  | (a, w) :: t => if k < a then (k, v) :: (a, w) :: t
                   else if a = k then (k, v) :: t
                   else (a, w) :: insertL k v t

/-- erase on the raw list. -/
def eraseL (k : K) : List (K × V) → List (K × V)
  | [] => []
  | (a, w) :: t => if a = k then t else (a, w) :: eraseL k t

theorem mem_insertL {k : K} {v : V} {p : K × V} : ∀ {l : List (K × V)},
    p ∈ insertL k v l → p = (k, v) ∨ p ∈ l
  | [], h => by simpa [insertL] using h
  | (a, w) :: t, h => by
      unfold insertL at h
      split at h
      · simpa using h
      · split at h
        · rcases List.mem_cons.mp h with h | h
          · exact Or.inl h
          · exact Or.inr (List.mem_cons_of_mem _ h)
        · rcases List.mem_cons.mp h with h | h
          · exact Or.inr (h ▸ List.mem_cons_self)
          · rcases mem_insertL h with h | h
            · exact Or.inl h
            · exact Or.inr (List.mem_cons_of_mem _ h)

theorem insertL_sorted (k : K) (v : V) : ∀ {l : List (K × V)},
    l.Pairwise (fun a b => a.1 < b.1) → (insertL k v l).Pairwise (fun a b => a.1 < b.1)
  | [], _ => by simp [insertL]
  | (a, w) :: t, h => by
      have ht := (List.pairwise_cons.mp h)
      unfold insertL
      split
      · rename_i hk
        refine List.pairwise_cons.mpr ⟨?_, h⟩
        intro p hp
        rcases List.mem_cons.mp hp with rfl | hp
        · exact hk
        · exact lt_trans hk (ht.1 p hp)
      · split
        · rename_i hk; subst hk
          exact List.pairwise_cons.mpr ⟨fun p hp => ht.1 p hp, ht.2⟩
        · rename_i h1 h2
          refine List.pairwise_cons.mpr ⟨?_, insertL_sorted k v ht.2⟩
          intro p hp
          rcases mem_insertL hp with rfl | hp
          · exact lt_of_le_of_ne (not_lt.mp h1) h2
          · exact ht.1 p hp

theorem mem_eraseL {k : K} {p : K × V} : ∀ {l : List (K × V)}, p ∈ eraseL k l → p ∈ l
  | [], h => by simp [eraseL] at h
  | (a, w) :: t, h => by
      unfold eraseL at h
      split at h
      · exact List.mem_cons_of_mem _ h
      · rcases List.mem_cons.mp h with h | h
        · exact h ▸ List.mem_cons_self
        · exact List.mem_cons_of_mem _ (mem_eraseL h)

theorem eraseL_sorted (k : K) : ∀ {l : List (K × V)},
    l.Pairwise (fun a b => a.1 < b.1) → (eraseL k l).Pairwise (fun a b => a.1 < b.1)
  | [], _ => by simp [eraseL]
  | (a, w) :: t, h => by
      have ht := (List.pairwise_cons.mp h)
      unfold eraseL
      split
      · exact ht.2
      · exact List.pairwise_cons.mpr ⟨fun p hp => ht.1 p (mem_eraseL hp), eraseL_sorted k ht.2⟩

/-- `m.find(k)`; `none` is `m.end()`. -/
def find (m : OMap K V) (k : K) : Option V := findL k m.list

/-- Insert or overwrite: models `emplace` of an absent key, and assignment through a found iterator. -/
def insert (m : OMap K V) (k : K) (v : V) : OMap K V := ⟨insertL k v m.list, insertL_sorted k v m.sorted⟩

/-- `m.erase(k)`. -/
def erase (m : OMap K V) (k : K) : OMap K V := ⟨eraseL k m.list, eraseL_sorted k m.sorted⟩

/-- `m.size()`. -/
def size (m : OMap K V) : Nat := m.list.length

/-- Key of `m.rbegin()`, `none` when the map is empty. -/
def lastKey (m : OMap K V) : Option K := m.list.getLast?.map (·.1)

/-- The pairs from `m.upper_bound(k)` to `m.end()`. -/
def upperBound (m : OMap K V) (k : K) : List (K × V) := m.list.dropWhile (fun p => decide (p.1 ≤ k))

/-- `m.size() && k <= m.rbegin()->first`: the row `k` does not come after everything present. -/
def outOfOrder (m : OMap K V) (k : K) : Bool :=
  match m.lastKey with
  | none => false
  | some kl => decide (k ≤ kl)

/-! ### Lemmas -/

@[simp] theorem find_empty (k : K) : (empty : OMap K V).find k = none := rfl
@[simp] theorem list_empty : (empty : OMap K V).list = [] := rfl

theorem findL_none_of_forall {k : K} : ∀ {l : List (K × V)}, (∀ p ∈ l, p.1 ≠ k) → findL k l = none
  | [], _ => rfl
  | (a, w) :: t, h => by
      rw [findL, if_neg (h (a, w) List.mem_cons_self)]
      exact findL_none_of_forall (fun p hp => h p (List.mem_cons_of_mem _ hp))

theorem findL_insertL (k k' : K) (v : V) : ∀ (l : List (K × V)),
    l.Pairwise (fun a b => a.1 < b.1) →
    findL k' (insertL k v l) = if k = k' then some v else findL k' l
  | [], _ => by simp [insertL, findL]
  | (a, w) :: t, h => by
      have ht := List.pairwise_cons.mp h
      unfold insertL
      split
      · simp [findL]
      · split
        · rename_i hk; subst hk
          by_cases h' : a = k' <;> simp [findL, h']
        · rename_i h1 h2
          rw [findL, findL_insertL k k' v t ht.2, findL]
          by_cases h' : a = k'
          · subst h'
            simp [Ne.symm h2]
          · simp [h']

theorem findL_eraseL (k k' : K) : ∀ (l : List (K × V)),
    l.Pairwise (fun a b => a.1 < b.1) →
    findL k' (eraseL k l) = if k = k' then none else findL k' l
  | [], _ => by simp [eraseL, findL]
  | (a, w) :: t, h => by
      have ht := List.pairwise_cons.mp h
      unfold eraseL
      split
      · rename_i hk; subst hk
        by_cases h' : a = k'
        · subst h'
          rw [if_pos rfl]
          exact findL_none_of_forall (fun p hp => ne_of_gt (ht.1 p hp))
        · simp [findL, h']
      · rename_i h2
        rw [findL, findL_eraseL k k' t ht.2, findL]
        by_cases h' : a = k'
        · subst h'
          simp [Ne.symm h2]
        · simp [h']

theorem find_insert (m : OMap K V) (k k' : K) (v : V) :
    (m.insert k v).find k' = if k = k' then some v else m.find k' :=
  findL_insertL k k' v m.list m.sorted

theorem find_erase (m : OMap K V) (k k' : K) :
    (m.erase k).find k' = if k = k' then none else m.find k' :=
  findL_eraseL k k' m.list m.sorted

@[simp] theorem find_insert_self (m : OMap K V) (k : K) (v : V) : (m.insert k v).find k = some v := by
  simp [find_insert]

@[simp] theorem find_erase_self (m : OMap K V) (k : K) : (m.erase k).find k = none := by
  simp [find_erase]

theorem find_insert_ne (m : OMap K V) {k k' : K} (v : V) (h : k ≠ k') :
    (m.insert k v).find k' = m.find k' := by simp [find_insert, h]

theorem find_erase_ne (m : OMap K V) {k k' : K} (h : k ≠ k') :
    (m.erase k).find k' = m.find k' := by simp [find_erase, h]

theorem findL_eq_some {k : K} {v : V} : ∀ {l : List (K × V)},
    l.Pairwise (fun a b => a.1 < b.1) → (findL k l = some v ↔ (k, v) ∈ l)
  | [], _ => by simp [findL]
  | (a, w) :: t, h => by
      have ht := List.pairwise_cons.mp h
      rw [findL]
      by_cases h' : a = k
      · subst h'
        rw [if_pos rfl]
        constructor
        · intro e; cases e; exact List.mem_cons_self
        · intro e
          rcases List.mem_cons.mp e with e | e
          · cases e; rfl
          · exact absurd (ht.1 _ e) (lt_irrefl _)
      · rw [if_neg h', findL_eq_some ht.2]
        constructor
        · exact List.mem_cons_of_mem _
        · intro e
          rcases List.mem_cons.mp e with e | e
          · cases e; exact absurd rfl h'
          · exact e

theorem mem_list {m : OMap K V} {k : K} {v : V} : (k, v) ∈ m.list ↔ m.find k = some v :=
  (findL_eq_some m.sorted).symm

/-- Maps with the same lookups are equal. -/
theorem ext_find {m m' : OMap K V} (h : ∀ k, m.find k = m'.find k) : m = m' := by
  apply ext
  have hm : ∀ p, p ∈ m.list ↔ p ∈ m'.list := by
    rintro ⟨k, v⟩
    rw [mem_list, mem_list, h]
  refine List.Perm.eq_of_pairwise (le := fun a b => a.1 < b.1) ?_ m.sorted m'.sorted ?_
  · intro a b _ _ h1 h2
    exact absurd (lt_trans h1 h2) (lt_irrefl _)
  · have nd : ∀ n : OMap K V, n.list.Nodup := fun n =>
      n.sorted.imp (fun {a b} hab => fun e => by subst e; exact lt_irrefl _ hab)
    exact (List.perm_ext_iff_of_nodup (nd m) (nd m')).mpr hm

theorem insert_insert (m : OMap K V) (k : K) (v w : V) : (m.insert k v).insert k w = m.insert k w := by
  apply ext_find; intro k'; simp only [find_insert]; split <;> rfl

theorem erase_insert (m : OMap K V) (k : K) (v : V) : (m.insert k v).erase k = m.erase k := by
  apply ext_find; intro k'; simp only [find_insert, find_erase]; split <;> rfl

theorem erase_of_find_none {m : OMap K V} {k : K} (h : m.find k = none) : m.erase k = m := by
  apply ext_find; intro k'; rw [find_erase]; split
  · rename_i e; subst e; exact h.symm
  · rfl

theorem insert_of_find {m : OMap K V} {k : K} {v : V} (h : m.find k = some v) : m.insert k v = m := by
  apply ext_find; intro k'; rw [find_insert]; split
  · rename_i e; subst e; exact h.symm
  · rfl

theorem insertL_max (k : K) (v : V) : ∀ (l : List (K × V)), (∀ p ∈ l, p.1 < k) →
    insertL k v l = l ++ [(k, v)]
  | [], _ => rfl
  | (a, w) :: t, h => by
      have h1 : a < k := h (a, w) List.mem_cons_self
      rw [insertL, if_neg (not_lt.mpr (le_of_lt h1)), if_neg (ne_of_lt h1),
        insertL_max k v t (fun p hp => h p (List.mem_cons_of_mem _ hp))]
      rfl

/-- Inserting a key above every present key appends (`emplace_hint(end(), ...)`). -/
theorem insert_list_of_lt (m : OMap K V) (k : K) (v : V) (h : ∀ p ∈ m.list, p.1 < k) :
    (m.insert k v).list = m.list ++ [(k, v)] := insertL_max k v m.list h

theorem lastKey_none {m : OMap K V} : m.lastKey = none ↔ m.list = [] := by
  simp [lastKey]

theorem pairwise_getLast_le {l : List (K × V)} (h : l.Pairwise (fun a b => a.1 < b.1)) {q : K × V}
    (hq : l.getLast? = some q) : ∀ p ∈ l, p.1 ≤ q.1 := by
  intro p hp
  obtain ⟨ys, rfl⟩ := List.getLast?_eq_some_iff.mp hq
  rcases List.mem_append.mp hp with h' | h'
  · exact le_of_lt ((List.pairwise_append.mp h).2.2 p h' q (by simp))
  · simp only [List.mem_singleton] at h'; exact le_of_eq (by rw [h'])

/-- Every key is at most the last key. -/
theorem le_lastKey {m : OMap K V} {kl : K} (h : m.lastKey = some kl) : ∀ p ∈ m.list, p.1 ≤ kl := by
  unfold lastKey at h
  cases hq : m.list.getLast? with
  | none => rw [hq] at h; cases h
  | some q =>
      rw [hq] at h
      simp only [Option.map_some, Option.some.injEq] at h
      subst h
      exact pairwise_getLast_le m.sorted hq

theorem find_lastKey {m : OMap K V} {kl : K} (h : m.lastKey = some kl) : ∃ v, m.find kl = some v := by
  unfold lastKey at h
  cases hq : m.list.getLast? with
  | none => rw [hq] at h; cases h
  | some q =>
      rw [hq] at h
      simp only [Option.map_some, Option.some.injEq] at h
      subst h
      exact ⟨q.2, mem_list.mp (List.mem_of_getLast? hq)⟩

theorem outOfOrder_false {m : OMap K V} {k : K} : m.outOfOrder k = false ↔ ∀ p ∈ m.list, p.1 < k := by
  unfold outOfOrder
  cases hl : m.lastKey with
  | none =>
    rw [lastKey_none] at hl
    simp [hl]
  | some kl =>
    simp only [decide_eq_false_iff_not, not_le]
    constructor
    · intro h p hp
      exact lt_of_le_of_lt (le_lastKey hl p hp) h
    · intro h
      obtain ⟨v, hv⟩ := find_lastKey hl
      exact h (kl, v) (mem_list.mpr hv)

theorem dropWhile_append_of_all {l r : List (K × V)} {k : K} (hl : ∀ p ∈ l, p.1 ≤ k)
    (hr : ∀ p ∈ r, k < p.1) :
    (l ++ r).dropWhile (fun p => decide (p.1 ≤ k)) = r := by
  induction l with
  | nil =>
      cases r with
      | nil => rfl
      | cons a t => simp [not_le.mpr (hr a List.mem_cons_self)]
  | cons a t ih =>
      have := hl a List.mem_cons_self
      simp only [List.cons_append, List.dropWhile_cons, this, decide_true, if_true]
      exact ih (fun p hp => hl p (List.mem_cons_of_mem _ hp))

/-- `upper_bound` of the last key of a prefix is the rest. -/
theorem upperBound_split {m : OMap K V} {pre post : List (K × V)} {k : K} {v : V}
    (h : m.list = pre ++ (k, v) :: post) : m.upperBound k = post := by
  have hs := m.sorted
  rw [h] at hs
  have hs' := List.pairwise_append.mp hs
  unfold upperBound
  rw [h]
  have : pre ++ (k, v) :: post = (pre ++ [(k, v)]) ++ post := by simp
  rw [this]
  apply dropWhile_append_of_all
  · intro p hp
    rcases List.mem_append.mp hp with hp | hp
    · exact le_of_lt (hs'.2.2 p hp (k, v) List.mem_cons_self)
    · simp only [List.mem_singleton] at hp; rw [hp]
  · intro p hp
    exact (List.pairwise_cons.mp hs'.2.1).1 p hp

theorem mem_upperBound {m : OMap K V} {k : K} {p : K × V} :
    p ∈ m.upperBound k ↔ p ∈ m.list ∧ k < p.1 := by
  have key : ∀ l : List (K × V), l.Pairwise (fun a b => a.1 < b.1) →
      (p ∈ l.dropWhile (fun p => decide (p.1 ≤ k)) ↔ p ∈ l ∧ k < p.1) := by
    intro l
    induction l with
    | nil => intro _; simp
    | cons a t ih =>
        intro h
        have ht := List.pairwise_cons.mp h
        rw [List.dropWhile_cons]
        by_cases hak : a.1 ≤ k
        · simp only [hak, decide_true, if_true]
          rw [ih ht.2]
          constructor
          · rintro ⟨h1, h2⟩; exact ⟨List.mem_cons_of_mem _ h1, h2⟩
          · rintro ⟨h1, h2⟩
            rcases List.mem_cons.mp h1 with rfl | h1
            · exact absurd h2 (not_lt.mpr hak)
            · exact ⟨h1, h2⟩
        · simp only [hak, decide_false, Bool.false_eq_true, if_false]
          constructor
          · intro h1
            refine ⟨h1, ?_⟩
            rcases List.mem_cons.mp h1 with rfl | h1
            · exact not_le.mp hak
            · exact lt_trans (not_le.mp hak) (ht.1 p h1)
          · exact fun h1 => h1.1
  exact key m.list m.sorted

/-- Apply a function to every value (used to relate databases with and without bookkeeping). -/
def mapV (f : K → V → W) (m : OMap K V) : OMap K W :=
  ⟨m.list.map (fun p => (p.1, f p.1 p.2)), by
    rw [List.pairwise_map]; exact m.sorted⟩

theorem findL_map (f : K → V → W) (k : K) : ∀ l : List (K × V),
    findL k (l.map (fun p => (p.1, f p.1 p.2))) = (findL k l).map (f k)
  | [] => rfl
  | (a, w) :: t => by
      simp only [List.map_cons, findL]
      by_cases h : a = k
      · subst h; simp
      · simp [h, findL_map f k t]

theorem find_mapV (f : K → V → W) (m : OMap K V) (k : K) : (m.mapV f).find k = (m.find k).map (f k) :=
  findL_map f k m.list

theorem upperBound_mapV (f : K → V → W) (m : OMap K V) (k : K) :
    (m.mapV f).upperBound k = (m.upperBound k).map (fun p => (p.1, f p.1 p.2)) := by
  unfold upperBound mapV
  simp only [List.dropWhile_map]
  rfl

/-- Keep the keys on which `f` is defined. -/
def filterMapV (f : V → Option W) (m : OMap K V) : OMap K W :=
  ⟨m.list.filterMap (fun p => (f p.2).map (fun w => (p.1, w))), by
    rw [List.pairwise_filterMap]
    refine m.sorted.imp ?_
    intro a b hab c hc d hd
    cases h1 : f a.2 <;> simp [h1] at hc
    cases h2 : f b.2 <;> simp [h2] at hd
    subst hc; subst hd; exact hab⟩

theorem find_filterMapV (f : V → Option W) (m : OMap K V) (k : K) :
    (m.filterMapV f).find k = (m.find k).bind f := by
  cases h : (m.filterMapV f).find k with
  | some w =>
    rw [← mem_list] at h
    simp only [filterMapV, List.mem_filterMap, Prod.exists] at h
    obtain ⟨a, v, hm, hw⟩ := h
    cases hf : f v with
    | none => simp [hf] at hw
    | some w' =>
      simp only [hf, Option.map_some, Option.some.injEq, Prod.mk.injEq] at hw
      obtain ⟨rfl, rfl⟩ := hw
      rw [mem_list.mp hm]; exact hf.symm
  | none =>
    cases hm : m.find k with
    | none => rfl
    | some v =>
      cases hf : f v with
      | none => simp [hf]
      | some w =>
        have : (k, w) ∈ (m.filterMapV f).list := by
          simp only [filterMapV, List.mem_filterMap, Prod.exists]
          exact ⟨k, v, mem_list.mpr hm, by simp [hf]⟩
        rw [mem_list, h] at this; cases this

theorem filterMapV_insert (f : V → Option W) (m : OMap K V) (k : K) (v : V) :
    (m.insert k v).filterMapV f = match f v with
      | some w => (m.filterMapV f).insert k w
      | none => (m.filterMapV f).erase k := by
  apply ext_find
  intro k'
  rw [find_filterMapV, find_insert]
  cases hf : f v with
  | none => simp only [find_erase, find_filterMapV]; split <;> simp [hf]
  | some w => simp only [find_insert, find_filterMapV]; split <;> simp [hf]

theorem mapV_insert (f : K → V → W) (m : OMap K V) (k : K) (v : V) :
    (m.insert k v).mapV f = (m.mapV f).insert k (f k v) := by
  apply ext_find
  intro k'
  simp only [find_mapV, find_insert]
  split
  · rename_i e; subst e; rfl
  · rfl

/-- The pairs with a given key: none or one. -/
theorem filter_key (m : OMap K V) (k : K) :
    m.list.filter (fun p => p.1 = k) = ((m.find k).map (fun v => (k, v))).toList := by
  obtain ⟨l, hl⟩ := m
  show l.filter _ = ((findL k l).map _).toList
  induction l with
  | nil => rfl
  | cons p t ih =>
    obtain ⟨a, w⟩ := p
    have ih := ih (List.pairwise_cons.mp hl).2
    simp only [List.filter_cons, findL]
    by_cases h : a = k
    · subst h
      simp only [decide_true, if_true, Option.map_some, Option.toList_some]
      congr 1
      rw [List.filter_eq_nil_iff]
      intro q hq
      have := (List.pairwise_cons.mp hl).1 q hq
      simp only [decide_eq_true_eq]
      exact fun e => absurd e (ne_of_gt this)
    · simp only [h, decide_false, Bool.false_eq_true, if_false]
      exact ih

/-- Keep the keys satisfying a test. -/
def filterK (f : K → Bool) (m : OMap K V) : OMap K V := ⟨m.list.filter (fun p => f p.1), m.sorted.filter _⟩

theorem find_filterK (f : K → Bool) (m : OMap K V) (k : K) :
    (m.filterK f).find k = if f k then m.find k else none := by
  by_cases hf : f k = true
  · rw [if_pos hf]
    apply Option.ext
    intro v
    rw [← mem_list, ← mem_list]
    simp [filterK, List.mem_filter, hf]
  · rw [if_neg hf]
    refine findL_none_of_forall ?_
    rintro p hp rfl
    exact hf (List.mem_filter.mp hp).2

end OMap
end Svr
