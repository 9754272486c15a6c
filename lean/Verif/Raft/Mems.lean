import Verif.Raft.Solo

/-!
# The memberships a history contains
-/

namespace Svr.Raft
variable {P : Type} [LinearOrder P]

/-- The membership an entry sets. -/
def memOf (v : Env P) (e : Entry) : Option (Membership P) :=
  match e.inner with
  | .membership g => (match fromProto (g.map fun r => (v.pid r.1, r.2)) with
    | .ok m => some m
    | .error _ => none)
  | _ => none

def memAfter (v : Env P) (m : Membership P) (e : Entry) : Membership P :=
  match memOf v e with
  | some m' => m'
  | none => m

/-- The membership after the history `L`, when it was `m` before. -/
def memAt (v : Env P) (m : Membership P) (L : List Entry) : Membership P := L.foldl (memAfter v) m

/-- The memberships of the entries of `L`, with their indexes, the first of which is `i`. -/
def memsFrom (v : Env P) : Nat → List Entry → List (Nat × Membership P)
  | _, [] => []
  | i, e :: t => match memOf v e with
    | some m => (i, m) :: memsFrom v (i + 1) t
    | none => memsFrom v (i + 1) t

theorem memAt_append (v : Env P) (m : Membership P) (A B : List Entry) : memAt v m (A ++ B) = memAt v (memAt v m A) B :=
  List.foldl_append

theorem memsFrom_append (v : Env P) : ∀ (A B : List Entry) (i : Nat),
    memsFrom v i (A ++ B) = memsFrom v i A ++ memsFrom v (i + A.length) B
  | [], B, i => rfl
  | e :: t, B, i => by
    simp only [List.cons_append, memsFrom, List.length_cons]
    rw [memsFrom_append v t B (i + 1), show i + 1 + t.length = i + (t.length + 1) by omega]
    cases memOf v e <;> rfl

theorem memsFrom_mem (v : Env P) : ∀ (A : List Entry) (i : Nat) (x : Nat × Membership P), x ∈ memsFrom v i A →
    i ≤ x.1 ∧ x.1 < i + A.length
  | [], i, x, h => by cases h
  | e :: t, i, x, h => by
    have ih := memsFrom_mem v t (i + 1) x
    simp only [memsFrom] at h
    simp only [List.length_cons]
    cases hm : memOf v e with
    | none => rw [hm] at h; have := ih h; omega
    | some m =>
      rw [hm] at h
      rcases List.mem_cons.mp h with rfl | h
      · simp only; omega
      · have := ih h; omega

theorem memsFrom_nil (v : Env P) : ∀ (A : List Entry) (i : Nat), memsFrom v i A = [] → ∀ e ∈ A, memOf v e = none
  | [], _, _, e, he => by cases he
  | a :: t, i, h, e, he => by
    simp only [memsFrom] at h
    cases hm : memOf v a with
    | some m => rw [hm] at h; cases h
    | none =>
      rw [hm] at h
      rcases List.mem_cons.mp he with rfl | he
      · exact hm
      · exact memsFrom_nil v t (i + 1) h e he

theorem memsFrom_of_none (v : Env P) : ∀ (A : List Entry) (i : Nat), (∀ e ∈ A, memOf v e = none) → memsFrom v i A = []
  | [], _, _ => rfl
  | a :: t, i, h => by
    simp only [memsFrom]
    rw [h a List.mem_cons_self]
    exact memsFrom_of_none v t (i + 1) (fun e he => h e (List.mem_cons_of_mem _ he))

theorem memAt_of_none (v : Env P) : ∀ (A : List Entry) (m : Membership P), (∀ e ∈ A, memOf v e = none) → memAt v m A = m
  | [], _, _ => rfl
  | a :: t, m, h => by
    show memAt v (memAfter v m a) t = m
    unfold memAfter
    rw [h a List.mem_cons_self]
    exact memAt_of_none v t m (fun e he => h e (List.mem_cons_of_mem _ he))

/-- The last membership listed is the current one. -/
theorem memAt_last (v : Env P) : ∀ (A : List Entry) (i : Nat) (m : Membership P),
    memAt v m A = (match (memsFrom v i A).getLast? with | some (_, m') => m' | none => m)
  | [], _, _ => rfl
  | a :: t, i, m => by
    show memAt v (memAfter v m a) t = _
    rw [memAt_last v t (i + 1) (memAfter v m a)]
    unfold memAfter
    simp only [memsFrom]
    cases hm : memOf v a with
    | none => rfl
    | some m' =>
      simp only
      rw [List.getLast?_cons]
      cases (memsFrom v (i + 1) t).getLast? with
      | none => rfl
      | some x => rfl

namespace Node

theorem promote_none (c : Nat) (u : List (Nat × Membership P)) (m : Membership P) (h : ∀ x ∈ u, c < x.1) :
    promoteCommitted c u m = (u, m) := by
  cases u with
  | nil => rfl
  | cons a t =>
    obtain ⟨j, m'⟩ := a
    unfold promoteCommitted
    rw [if_neg]
    have := h (j, m') List.mem_cons_self
    simp only at this
    omega

/-- Promoting the memberships of a history up to index `c`. -/
theorem promote_mems (v : Env P) (c : Nat) : ∀ (A : List Entry) (i : Nat) (m : Membership P), i ≤ c + 1 →
    promoteCommitted c (memsFrom v i A) m = (memsFrom v (c + 1) (A.drop (c + 1 - i)), memAt v m (A.take (c + 1 - i)))
  | [], i, m, _ => by simp [memsFrom, promoteCommitted, memAt]
  | a :: t, i, m, h => by
    by_cases hi : i = c + 1
    · subst hi
      rw [promote_none c _ m (fun x hx => by have := (memsFrom_mem v _ _ x hx).1; omega)]
      simp [memAt]
    · rw [show c + 1 - i = (c + 1 - (i + 1)) + 1 by omega]
      simp only [List.drop_succ_cons, List.take_succ_cons]
      show promoteCommitted c (memsFrom v i (a :: t)) m = (_, memAt v (memAfter v m a) (t.take (c + 1 - (i + 1))))
      rw [← promote_mems v c t (i + 1) (memAfter v m a) (by omega)]
      simp only [memsFrom, memAfter]
      cases memOf v a with
      | none => rfl
      | some m' =>
        show promoteCommitted c ((i, m') :: _) m = _
        rw [promoteCommitted, if_pos (by omega)]

theorem discard_append (last : Nat) : ∀ (A B : List (Nat × Membership P)), (∀ x ∈ A, last < x.1) → (∀ x ∈ B, x.1 ≤ last) →
    discardCut last (A ++ B) = B
  | [], B, _, h => by
    cases B with
    | nil => rfl
    | cons b t =>
      obtain ⟨j, m⟩ := b
      simp only [List.nil_append, discardCut]
      rw [if_neg]
      have := h (j, m) List.mem_cons_self
      simp only at this
      omega
  | a :: A, B, hA, hB => by
    obtain ⟨j, m⟩ := a
    simp only [List.cons_append, discardCut]
    have := hA (j, m) List.mem_cons_self
    simp only at this
    rw [if_pos (by omega)]
    exact discard_append last A B (fun x hx => hA x (List.mem_cons_of_mem _ hx)) hB

/-- Discarding the memberships of entries that were removed. -/
theorem discard_mems (v : Env P) (A B : List Entry) (i last : Nat) (h : last + 1 = i + A.length) :
    (discardCut last (memsFrom v i (A ++ B)).reverse).reverse = memsFrom v i A := by
  rw [memsFrom_append, List.reverse_append, discard_append, List.reverse_reverse]
  · intro x hx
    rw [List.mem_reverse] at hx
    have := (memsFrom_mem v _ _ x hx).1
    omega
  · intro x hx
    rw [List.mem_reverse] at hx
    have := (memsFrom_mem v _ _ x hx).2
    omega

end Node
end Svr.Raft
