import Verif.Spec.Oprf3
import Verif.Sim
import Mathlib.Data.List.Induction

/-! # Consequences of the SVR3 account specification -/

namespace Svr.Spec3
open DB3

/-- No entry of `ls` is a Create that succeeds. -/
def NoNewKey (mul : Bytes → Bytes → Option Bytes) (ls : List Log) : Prop :=
  ∀ l ∈ ls, ∀ n b, l.req = .create n b → mul l.privkey b = none

/-- Counters reported with OK evaluations, in order. -/
def okTries : List Resp → List Nat
  | [] => []
  | .evaluate .ok _ t :: rs => t :: okTries rs
  | _ :: rs => okTries rs

/-- An answer that releases an evaluation, or reports the account as present. -/
def live : Resp → Bool
  | .evaluate .ok _ _ => true
  | .query true _ => true
  | _ => false

theorem okTries_dead : ∀ (rs : List Resp), (∀ r ∈ rs, live r = false) → okTries rs = []
  | [], _ => rfl
  | r :: rs, h => by
      have h1 := h r List.mem_cons_self
      have h2 := okTries_dead rs (fun x hx => h x (List.mem_cons_of_mem _ hx))
      cases r with
      | evaluate s e t => cases s <;> simp_all [okTries, live]
      | _ => simpa [okTries] using h2

theorem dead_none (mul) (ls : List Log) (h : NoNewKey mul ls) :
    (specRun (astep mul) none ls).1 = none ∧ ∀ r ∈ (specRun (astep mul) none ls).2, live r = false := by
  induction ls with
  | nil => simp [specRun]
  | cons l ls ih =>
    have ih := ih (fun x hx => h x (List.mem_cons_of_mem _ hx))
    have h1 : (astep mul none l).1 = none ∧ live (astep mul none l).2 = false := by
      cases hr : l.req with
      | create n b =>
        have := h l List.mem_cons_self n b hr
        simp [astep, hr, this, live]
      | _ => simp [astep, hr, live]
    simp only [specRun, h1.1]
    exact ⟨ih.1, fun r hr => by
      rcases List.mem_cons.mp hr with rfl | hr
      · exact h1.2
      · exact ih.2 r hr⟩

theorem countdown (mul) (ls : List Log) (v : Acct) (h : NoNewKey mul ls) (hv : 1 ≤ v.left) :
    ∃ k, k ≤ v.left ∧ okTries (specRun (astep mul) (some v) ls).2 = (List.range k).map (fun i => v.left - 1 - i) := by
  induction ls generalizing v with
  | nil => exact ⟨0, Nat.zero_le _, rfl⟩
  | cons l ls ih =>
    have hls : NoNewKey mul ls := fun x hx => h x (List.mem_cons_of_mem _ hx)
    cases hr : l.req with
    | create n b =>
      have := h l List.mem_cons_self n b hr
      simpa [specRun, astep, hr, this, okTries] using ih v hls hv
    | query => simpa [specRun, astep, hr, okTries] using ih v hls hv
    | unset => simpa [specRun, astep, hr, okTries] using ih v hls hv
    | remove =>
      refine ⟨0, Nat.zero_le _, ?_⟩
      simp only [specRun, astep, hr, okTries]
      exact okTries_dead _ (dead_none mul ls hls).2
    | evaluate b =>
      cases hm : mul v.key b with
      | none => simpa [specRun, astep, hr, hm, okTries] using ih v hls hv
      | some e =>
        by_cases hl : v.left ≤ 1
        · refine ⟨1, hv, ?_⟩
          simp only [specRun, astep, hr, hm, if_pos hl, okTries]
          rw [okTries_dead _ (dead_none mul ls hls).2]
          have : v.left = 1 := by omega
          simp [this]
        · obtain ⟨k, hk, hh⟩ := ih { v with left := v.left - 1 } hls (by show 1 ≤ v.left - 1; omega)
          simp only at hk hh
          refine ⟨k + 1, by omega, ?_⟩
          simp only [specRun, astep, hr, hm, if_neg hl, okTries]
          rw [hh, List.range_succ_eq_map]
          simp only [List.map_cons, List.map_map, List.cons.injEq]
          refine ⟨by omega, ?_⟩
          apply List.map_congr_left
          intro i _
          simp only [Function.comp]
          omega

/-- After the counter 0 was reported nothing is live. -/
theorem zero_then_dead (mul) (ls : List Log) (v : Acct) (h : NoNewKey mul ls) (hv : 1 ≤ v.left)
    (pre post : List Resp) (e : Bytes)
    (hs : (specRun (astep mul) (some v) ls).2 = pre ++ .evaluate .ok e 0 :: post) : ∀ r ∈ post, live r = false := by
  induction ls generalizing v pre with
  | nil => simp [specRun] at hs
  | cons l ls ih =>
    have hls : NoNewKey mul ls := fun x hx => h x (List.mem_cons_of_mem _ hx)
    -- the account after this entry is gone, or still has tries
    have key : ((astep mul (some v) l).1 = none) ∨
        (∃ v', (astep mul (some v) l).1 = some v' ∧ 1 ≤ v'.left ∧
          ∀ e, (astep mul (some v) l).2 ≠ .evaluate .ok e 0) := by
      cases hr : l.req with
      | create n b =>
        have := h l List.mem_cons_self n b hr
        exact Or.inr ⟨v, by simp [astep, hr, this], hv, by simp [astep, hr, this]⟩
      | query => exact Or.inr ⟨v, by simp [astep, hr], hv, by simp [astep, hr]⟩
      | unset => exact Or.inr ⟨v, by simp [astep, hr], hv, by simp [astep, hr]⟩
      | remove => exact Or.inl (by simp [astep, hr])
      | evaluate b =>
        cases hm : mul v.key b with
        | none => exact Or.inr ⟨v, by simp [astep, hr, hm], hv, by simp [astep, hr, hm]⟩
        | some e' =>
          by_cases hl : v.left ≤ 1
          · exact Or.inl (by simp [astep, hr, hm, hl])
          · exact Or.inr ⟨{ v with left := v.left - 1 }, by simp [astep, hr, hm, hl],
              by show 1 ≤ v.left - 1; omega,
              by intro e2; simp only [astep, hr, hm, if_neg hl]; intro x; injection x with _ _ h3; omega⟩
    simp only [specRun] at hs
    rcases key with hn | ⟨v', hv', hp, hne⟩
    · rw [hn] at hs
      have hd := (dead_none mul ls hls).2
      intro r hr
      cases pre with
      | nil => simp only [List.nil_append, List.cons.injEq] at hs; exact hd r (by rw [hs.2]; exact hr)
      | cons p pre =>
        simp only [List.cons_append, List.cons.injEq] at hs
        exact hd r (by rw [hs.2]; simp [hr])
    · rw [hv'] at hs
      cases pre with
      | nil => simp only [List.nil_append, List.cons.injEq] at hs; exact absurd hs.1 (hne e)
      | cons p pre =>
        simp only [List.cons_append, List.cons.injEq] at hs
        exact ih v' hls hp pre hs.2

/-- If the account exists, its key comes from the latest successful Create. -/
theorem key_from_create (mul) (ls : List Log) (v : Acct) (h : (specRun (astep mul) none ls).1 = some v) :
    ∃ pre post l n b, ls = pre ++ l :: post ∧ l.req = .create n b ∧ l.privkey = v.key ∧
      (mul l.privkey b).isSome = true ∧ NoNewKey mul post := by
  induction ls using List.reverseRecOn generalizing v with
  | nil => simp [specRun] at h
  | append_singleton ls l ih =>
    rw [specRun_append] at h
    simp only [specRun] at h
    have ext : ∀ v', (specRun (astep mul) none ls).1 = some v' → v'.key = v.key →
        (∀ n b, l.req = .create n b → mul l.privkey b = none) →
        ∃ pre post l' n b, ls ++ [l] = pre ++ l' :: post ∧ l'.req = .create n b ∧ l'.privkey = v.key ∧
          (mul l'.privkey b).isSome = true ∧ NoNewKey mul post := by
      intro v' hv' hk hl
      obtain ⟨pre, post, l', n, b, e, h1, h2, h3, h4⟩ := ih v' hv'
      refine ⟨pre, post ++ [l], l', n, b, by simp [e], h1, h2.trans hk, h3, ?_⟩
      intro x hx
      rcases List.mem_append.mp hx with hx | hx
      · exact h4 x hx
      · simp only [List.mem_singleton] at hx; subst hx; exact hl
    cases ho : (specRun (astep mul) none ls).1 with
    | none =>
      rw [ho] at h
      cases hr : l.req with
      | create n b =>
        cases hm : mul l.privkey b with
        | none => simp [astep, hr, hm] at h
        | some e =>
          simp only [astep, hr, hm, Option.some.injEq] at h
          subst h
          exact ⟨ls, [], l, n, b, rfl, hr, rfl, by simp [hm], by intro x hx; simp at hx⟩
      | _ => simp [astep, hr] at h
    | some v' =>
      rw [ho] at h
      cases hr : l.req with
      | create n b =>
        cases hm : mul l.privkey b with
        | none =>
          simp only [astep, hr, hm, Option.some.injEq] at h
          exact ext v' ho (by rw [h]) (by intro n' b' x; rw [hr] at x; cases x; exact hm)
        | some e =>
          simp only [astep, hr, hm, Option.some.injEq] at h
          subst h
          exact ⟨ls, [], l, n, b, rfl, hr, rfl, by simp [hm], by intro x hx; simp at hx⟩
      | evaluate b =>
        refine ext v' ho ?_ (by intro n' b' x; rw [hr] at x; cases x)
        simp only [astep, hr] at h
        cases hm : mul v'.key b with
        | none => simp only [hm, Option.some.injEq] at h; rw [h]
        | some e =>
          simp only [hm] at h
          split at h
          · simp at h
          · simp only [Option.some.injEq] at h; rw [← h]
      | remove => simp [astep, hr] at h
      | query =>
        simp only [astep, hr, Option.some.injEq] at h
        exact ext v' ho (by rw [h]) (by intro n' b' x; rw [hr] at x; cases x)
      | unset =>
        simp only [astep, hr, Option.some.injEq] at h
        exact ext v' ho (by rw [h]) (by intro n' b' x; rw [hr] at x; cases x)

end Svr.Spec3
