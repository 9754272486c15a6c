import Verif.OMap

/-!
# Machines that touch one key per request

The four databases share a shape: a request names one account, reads that account's row, answers, and
rewrites or removes that row only. `KMachine` captures the shape. Each concrete database is *proved*
(in its own file) to behave as such a machine; the lemmas here are then shared.
-/

namespace Svr

/-- A per-account transition: current row (if any) and request to new row (if any) and answer. -/
structure KMachine (K R Q A : Type) where
  step : K → Option R → Q → Option R × A

namespace OMap
variable {K V : Type} [LinearOrder K]

/-- Write back an optional row. -/
def set (m : OMap K V) (k : K) : Option V → OMap K V
  | none => m.erase k
  | some v => m.insert k v

theorem find_set (m : OMap K V) (k k' : K) (o : Option V) :
    (m.set k o).find k' = if k = k' then o else m.find k' := by
  cases o <;> simp [set, find_insert, find_erase]

@[simp] theorem find_set_self (m : OMap K V) (k : K) (o : Option V) : (m.set k o).find k = o := by
  simp [find_set]

theorem find_set_ne (m : OMap K V) {k k' : K} (o : Option V) (h : k ≠ k') :
    (m.set k o).find k' = m.find k' := by simp [find_set, h]

theorem set_find (m : OMap K V) (k : K) : m.set k (m.find k) = m := by
  apply ext_find; intro k'; rw [find_set]; split
  · rename_i h; rw [h]
  · rfl

end OMap

namespace KMachine
variable {K R Q A : Type} [LinearOrder K] (M : KMachine K R Q A)

/-- One request against the whole store. -/
def run1 (m : OMap K R) (l : K × Q) : OMap K R × A :=
  let r := M.step l.1 (m.find l.1) l.2
  (m.set l.1 r.1, r.2)

/-- A history of requests against the whole store, with all answers. -/
def runAll : OMap K R → List (K × Q) → OMap K R × List A
  | m, [] => (m, [])
  | m, l :: ls =>
    let r := M.run1 m l
    let rs := runAll r.1 ls
    (rs.1, r.2 :: rs.2)

/-- A history of requests against one account. -/
def rowRun (k : K) : Option R → List Q → Option R × List A
  | o, [] => (o, [])
  | o, q :: qs =>
    let r := M.step k o q
    let rs := rowRun k r.1 qs
    (rs.1, r.2 :: rs.2)

/-- The requests of account `k` in a history. -/
def reqsOf (k : K) (ls : List (K × Q)) : List Q := (ls.filter (fun l => l.1 = k)).map (·.2)

/-- The answers at the positions of account `k`. -/
def respsOf (k : K) : List (K × Q) → List A → List A
  | l :: ls, a :: as => if l.1 = k then a :: respsOf k ls as else respsOf k ls as
  | _, _ => []

theorem reqsOf_cons_eq {k : K} {q : Q} {ls : List (K × Q)} : reqsOf k ((k, q) :: ls) = q :: reqsOf k ls := by
  simp [reqsOf]

theorem reqsOf_cons_ne {k : K} {l : K × Q} {ls : List (K × Q)} (h : l.1 ≠ k) :
    reqsOf k (l :: ls) = reqsOf k ls := by
  simp [reqsOf, h]

theorem reqsOf_append {k : K} {l1 l2 : List (K × Q)} : reqsOf k (l1 ++ l2) = reqsOf k l1 ++ reqsOf k l2 := by
  simp [reqsOf]

theorem runAll_length (m : OMap K R) (ls : List (K × Q)) : (M.runAll m ls).2.length = ls.length := by
  induction ls generalizing m with
  | nil => rfl
  | cons l ls ih => simp [runAll, ih]

theorem runAll_append (m : OMap K R) (l1 l2 : List (K × Q)) :
    M.runAll m (l1 ++ l2) =
      ((M.runAll (M.runAll m l1).1 l2).1, (M.runAll m l1).2 ++ (M.runAll (M.runAll m l1).1 l2).2) := by
  induction l1 generalizing m with
  | nil => simp [runAll]
  | cons l ls ih => simp [runAll, ih]

theorem rowRun_append (k : K) (o : Option R) (l1 l2 : List Q) :
    M.rowRun k o (l1 ++ l2) =
      ((M.rowRun k (M.rowRun k o l1).1 l2).1, (M.rowRun k o l1).2 ++ (M.rowRun k (M.rowRun k o l1).1 l2).2) := by
  induction l1 generalizing o with
  | nil => simp [rowRun]
  | cons l ls ih => simp [rowRun, ih]

/-- The row of `k` after a history depends only on `k`'s requests. -/
theorem find_runAll (m : OMap K R) (ls : List (K × Q)) (k : K) :
    (M.runAll m ls).1.find k = (M.rowRun k (m.find k) (reqsOf k ls)).1 := by
  induction ls generalizing m with
  | nil => rfl
  | cons l ls ih =>
    obtain ⟨k', q⟩ := l
    simp only [runAll, run1]
    rw [ih]
    by_cases h : k' = k
    · subst h; simp [reqsOf_cons_eq, rowRun]
    · rw [OMap.find_set_ne _ _ h, reqsOf_cons_ne (by simpa using h)]

/-- The answers `k` gets depend only on `k`'s requests. -/
theorem respsOf_runAll (m : OMap K R) (ls : List (K × Q)) (k : K) :
    respsOf k ls (M.runAll m ls).2 = (M.rowRun k (m.find k) (reqsOf k ls)).2 := by
  induction ls generalizing m with
  | nil => rfl
  | cons l ls ih =>
    obtain ⟨k', q⟩ := l
    simp only [runAll, run1, respsOf]
    by_cases h : k' = k
    · subst h
      simp only [if_true]
      rw [ih, reqsOf_cons_eq]
      simp [rowRun]
    · rw [if_neg h, ih, OMap.find_set_ne _ _ h, reqsOf_cons_ne (by simpa using h)]

end KMachine
end Svr
