import Verif.Spec.Vault4
import Verif.Sim

/-! # Consequences of the SVR4 account specification -/

namespace Svr.Spec4
open DB4

/-- No entry of `ls` is a Create that sets the number of tries. -/
def NoReset (ls : List Log) : Prop :=
  ∀ l ∈ ls, ∀ n o a e z v, l.req = .create n o a e z v → n = 0

instance (ls : List Log) : Decidable (NoReset ls) :=
  decidable_of_iff (∀ l ∈ ls, (match l.req with | .create n _ _ _ _ _ => decide (n = 0) | _ => true) = true) (by
    unfold NoReset
    constructor
    · intro h l hl n o a e z v hr
      have := h l hl
      simpa [hr] using this
    · intro h l hl
      have := h l hl
      cases hr : l.req with
      | create n o a e z v => simpa using this n o a e z v hr
      | _ => rfl)

/-- Counters reported with evaluated Restore1 requests (answered OK or ERROR), in order. -/
def evalTries : List Effect → List Nat
  | [] => []
  | ⟨.restore1 .ok _ t, _⟩ :: rs => t :: evalTries rs
  | ⟨.restore1 .error _ t, _⟩ :: rs => t :: evalTries rs
  | _ :: rs => evalTries rs

/-- An answer that shows the account exists. -/
def live : Effect → Bool
  | ⟨.create .ok _, _⟩ => true
  | ⟨.restore1 .missing _ _, _⟩ => false
  | ⟨.restore1 _ _ _, _⟩ => true
  | ⟨.query .missing _ _ _, _⟩ => false
  | ⟨.query _ _ _ _, _⟩ => true
  | ⟨.rotateStart .missing, _⟩ => false
  | ⟨.rotateStart _, _⟩ => true
  | ⟨.rotateCommit .missing, _⟩ => false
  | ⟨.rotateCommit _, _⟩ => true
  | ⟨.rotateRollback .missing, _⟩ => false
  | ⟨.rotateRollback _, _⟩ => true
  | _ => false

/-- Restore1 answered with counter 0. -/
def lastTry : Effect → Bool
  | ⟨.restore1 .ok _ 0, _⟩ => true
  | ⟨.restore1 .error _ 0, _⟩ => true
  | _ => false

theorem evalTries_dead : ∀ (rs : List Effect), (∀ r ∈ rs, live r = false) → evalTries rs = []
  | [], _ => rfl
  | ⟨r, x⟩ :: rs, h => by
      have h1 := h ⟨r, x⟩ List.mem_cons_self
      have h2 := evalTries_dead rs (fun x hx => h x (List.mem_cons_of_mem _ hx))
      cases r with
      | restore1 s e t => cases s <;> simp_all [evalTries, live]
      | _ => simpa [evalTries] using h2

theorem step_none (G : Prims4) (l : Log) (h : ∀ n o a e z v, l.req = .create n o a e z v → n = 0) :
    (astep G none l).1 = none ∧ live (astep G none l).2 = false := by
  cases hr : l.req with
  | create n o a e z v =>
    have := h n o a e z v hr
    subst this
    simp [astep, hr, live]
  | _ => simp [astep, hr, live]

theorem dead_none (G : Prims4) (ls : List Log) (h : NoReset ls) :
    (specRun (astep G) none ls).1 = none ∧ ∀ r ∈ (specRun (astep G) none ls).2, live r = false := by
  induction ls with
  | nil => simp [specRun]
  | cons l ls ih =>
    have ih := ih (fun x hx => h x (List.mem_cons_of_mem _ hx))
    have h1 := step_none G l (h l List.mem_cons_self)
    simp only [specRun, h1.1]
    exact ⟨ih.1, fun r hr => by
      rcases List.mem_cons.mp hr with rfl | hr
      · exact h1.2
      · exact ih.2 r hr⟩

/-- What an entry that does not reset the tries does to an account with tries left. -/
theorem step_some (G : Prims4) (l : Log) (v : Acct) (hv : 1 ≤ v.left)
    (h : ∀ n o a e z w, l.req = .create n o a e z w → n = 0) :
    -- evaluated guess
    (evalTries [(astep G (some v) l).2] = [v.left - 1] ∧
      ((v.left = 1 ∧ (astep G (some v) l).1 = none ∧ lastTry (astep G (some v) l).2 = true) ∨
       (1 < v.left ∧ (∃ v', (astep G (some v) l).1 = some v' ∧ v'.left = v.left - 1) ∧
          lastTry (astep G (some v) l).2 = false))) ∨
    -- anything else
    (evalTries [(astep G (some v) l).2] = [] ∧ lastTry (astep G (some v) l).2 = false ∧
      ((astep G (some v) l).1 = none ∨ ∃ v', (astep G (some v) l).1 = some v' ∧ v'.left = v.left)) := by
  cases hr : l.req with
  | create n o a e z w =>
    have := h n o a e z w hr
    subst this
    exact Or.inr ⟨by simp [astep, hr, evalTries], by simp [astep, hr, lastTry], Or.inr (by simp [astep, hr])⟩
  | restore1 b =>
    left
    cases he : evalAll G l.id b v with
    | none =>
      simp only [astep, hr, he, evalTries, true_and]
      by_cases h1 : v.left = 1
      · left; simp [h1, lastTry]
      · right
        refine ⟨by omega, by rw [if_neg (by omega)]; exact ⟨_, rfl, rfl⟩, ?_⟩
        obtain ⟨m, hm⟩ : ∃ m, v.left - 1 = m + 1 := ⟨v.left - 2, by omega⟩
        rw [hm]; rfl
    | some es =>
      simp only [astep, hr, he, evalTries, true_and]
      by_cases h1 : v.left = 1
      · left; simp [h1, lastTry]
      · right
        refine ⟨by omega, by rw [if_neg (by omega)]; exact ⟨_, rfl, rfl⟩, ?_⟩
        obtain ⟨m, hm⟩ : ∃ m, v.left - 1 = m + 1 := ⟨v.left - 2, by omega⟩
        rw [hm]; rfl
  | restore2 _ _ _ => exact Or.inr ⟨by simp [astep, hr, evalTries], by simp [astep, hr, lastTry], Or.inr (by simp [astep, hr])⟩
  | remove => exact Or.inr ⟨by simp [astep, hr, evalTries], by simp [astep, hr, lastTry], Or.inl (by simp [astep, hr])⟩
  | query => exact Or.inr ⟨by simp [astep, hr, evalTries], by simp [astep, hr, lastTry], Or.inr (by simp [astep, hr])⟩
  | unset => exact Or.inr ⟨by simp [astep, hr, evalTries], by simp [astep, hr, lastTry], Or.inr (by simp [astep, hr])⟩
  | rotateStart ver od ed =>
    right
    cases hp : v.pending with
    | some p => simp [astep, hr, hp, evalTries, lastTry]
    | none =>
      by_cases hve : ver = v.version
      · simp [astep, hr, hp, hve, evalTries, lastTry]
      · simp [astep, hr, hp, hve, evalTries, lastTry]
  | rotateCommit ver =>
    right
    cases hp : v.pending with
    | none => simp [astep, hr, hp, evalTries, lastTry]
    | some p =>
      by_cases hve : p.newVersion = ver
      · simp [astep, hr, hp, hve, evalTries, lastTry, rotated]
      · simp [astep, hr, hp, hve, evalTries, lastTry]
  | rotateRollback ver =>
    right
    cases hp : v.pending with
    | none => simp [astep, hr, hp, evalTries, lastTry]
    | some p =>
      by_cases hve : p.newVersion = ver
      · simp [astep, hr, hp, hve, evalTries, lastTry]
      · simp [astep, hr, hp, hve, evalTries, lastTry]

theorem evalTries_cons (r : Effect) (rs : List Effect) : evalTries (r :: rs) = evalTries [r] ++ evalTries rs := by
  obtain ⟨r, x⟩ := r
  cases r with
  | restore1 s e t => cases s <;> rfl
  | _ => rfl

/-- The counters reported go down one by one from `left - 1`, so at most `left` attempts are evaluated. -/
theorem countdown (G : Prims4) (ls : List Log) (v : Acct) (h : NoReset ls) (hv : 1 ≤ v.left) :
    ∃ k, k ≤ v.left ∧ evalTries (specRun (astep G) (some v) ls).2 = (List.range k).map (fun i => v.left - 1 - i) := by
  induction ls generalizing v with
  | nil => exact ⟨0, Nat.zero_le _, rfl⟩
  | cons l ls ih =>
    have hls : NoReset ls := fun x hx => h x (List.mem_cons_of_mem _ hx)
    simp only [specRun]
    rw [evalTries_cons]
    rcases step_some G l v hv (h l List.mem_cons_self) with ⟨he, hc⟩ | ⟨he, _, hc⟩
    · rw [he]
      rcases hc with ⟨h1, hn, _⟩ | ⟨h1, ⟨v', hv', hl⟩, _⟩
      · rw [hn, evalTries_dead _ (dead_none G ls hls).2]
        exact ⟨1, hv, by simp [h1]⟩
      · rw [hv']
        obtain ⟨k, hk, hh⟩ := ih v' hls (by omega)
        refine ⟨k + 1, by omega, ?_⟩
        rw [hh, List.range_succ_eq_map]
        simp only [List.map_cons, List.map_map, List.cons_append, List.nil_append, List.cons.injEq]
        refine ⟨by omega, ?_⟩
        apply List.map_congr_left
        intro i _
        simp only [Function.comp]
        omega
    · rw [he, List.nil_append]
      rcases hc with hn | ⟨v', hv', hl⟩
      · rw [hn, evalTries_dead _ (dead_none G ls hls).2]
        exact ⟨0, Nat.zero_le _, rfl⟩
      · rw [hv']
        obtain ⟨k, hk, hh⟩ := ih v' hls (by omega)
        exact ⟨k, by omega, by rw [hh, hl]⟩

/-- After an attempt reported 0 tries the account is gone. -/
theorem zero_then_dead (G : Prims4) (ls : List Log) (v : Acct) (h : NoReset ls) (hv : 1 ≤ v.left)
    (pre post : List Effect) (x : Effect) (hx : lastTry x = true)
    (hs : (specRun (astep G) (some v) ls).2 = pre ++ x :: post) :
    (specRun (astep G) (some v) ls).1 = none ∧ ∀ r ∈ post, live r = false := by
  induction ls generalizing v pre with
  | nil => simp [specRun] at hs
  | cons l ls ih =>
    have hls : NoReset ls := fun x hx => h x (List.mem_cons_of_mem _ hx)
    have hd := dead_none G ls hls
    simp only [specRun] at hs ⊢
    have hnone : (astep G (some v) l).1 = none →
        (specRun (astep G) (astep G (some v) l).1 ls).1 = none ∧ ∀ r ∈ post, live r = false := by
      intro hn
      rw [hn] at hs ⊢
      refine ⟨hd.1, ?_⟩
      intro r hr
      cases pre with
      | nil => simp only [List.nil_append, List.cons.injEq] at hs; exact hd.2 r (by rw [hs.2]; exact hr)
      | cons p pre => simp only [List.cons_append, List.cons.injEq] at hs; exact hd.2 r (by rw [hs.2]; simp [hr])
    have hsome : ∀ v', (astep G (some v) l).1 = some v' → 1 ≤ v'.left → lastTry (astep G (some v) l).2 = false →
        (specRun (astep G) (astep G (some v) l).1 ls).1 = none ∧ ∀ r ∈ post, live r = false := by
      intro v' hv' hl hlt
      rw [hv'] at hs ⊢
      cases pre with
      | nil =>
        simp only [List.nil_append, List.cons.injEq] at hs
        rw [hs.1, hx] at hlt; cases hlt
      | cons p pre =>
        simp only [List.cons_append, List.cons.injEq] at hs
        exact ih v' hls hl pre hs.2
    rcases step_some G l v hv (h l List.mem_cons_self) with ⟨_, hc⟩ | ⟨_, hlt, hc⟩
    · rcases hc with ⟨_, hn, _⟩ | ⟨h1, ⟨v', hv', hl⟩, hlt⟩
      · exact hnone hn
      · exact hsome v' hv' (by omega) hlt
    · rcases hc with hn | ⟨v', hv', hl⟩
      · exact hnone hn
      · exact hsome v' hv' (by omega) hlt

end Svr.Spec4
