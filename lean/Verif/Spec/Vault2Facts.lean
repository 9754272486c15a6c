import Verif.Spec.Vault2
import Mathlib.Data.List.Basic

/-!
# Facts about the vault specification

Used to turn the refinement theorem into statements about histories.
-/

namespace Svr.Spec2
open DB2

/-- Requests that end the life of the current backup. -/
def resets : Req → Bool
  | .backup _ _ _ => true
  | .delete => true
  | _ => false

def isBackup : Req → Bool
  | .backup _ _ _ => true
  | _ => false

/-- An `Expose` that presents (at least) the secret `s`. -/
def exposes (s : Bytes) : Req → Bool
  | .expose d => decide (s <+: d)
  | _ => false

/-- A `Restore` with a PIN other than `p`. -/
def wrongGuess (p : Bytes) : Req → Bool
  | .restore g => decide (g ≠ p)
  | _ => false

/-- Wrong guesses that count against a backup of `s` under `p`: those after the first matching
`Expose`. -/
def wrongs (s p : Bytes) (post : List Req) : Nat :=
  ((post.dropWhile (fun q => !exposes s q)).filter (wrongGuess p)).length

theorem vrun_append (o : Option Vault) (l1 l2 : List Req) :
    vrun o (l1 ++ l2) = ((vrun (vrun o l1).1 l2).1, (vrun o l1).2 ++ (vrun (vrun o l1).1 l2).2) := by
  induction l1 generalizing o with
  | nil => simp [vrun]
  | cons q qs ih => simp [vrun, ih]

theorem vrun_none_noBackup (qs : List Req) (h : ∀ q ∈ qs, isBackup q = false) :
    (vrun none qs).1 = none := by
  induction qs with
  | nil => rfl
  | cons q qs ih =>
    have hq := h q List.mem_cons_self
    have : (vstep none q).1 = none := by cases q <;> simp [vstep, isBackup] at hq ⊢
    simp only [vrun, this]
    exact ih (fun x hx => h x (List.mem_cons_of_mem _ hx))

/-- State of an exposed vault after requests that do not reset it. -/
theorem vrun_exposed (qs : List Req) (s p : Bytes) (n : Nat) (hn : 1 ≤ n)
    (h : ∀ q ∈ qs, resets q = false) :
    (vrun (some ⟨s, p, n, true⟩) qs).1 =
      if (qs.filter (wrongGuess p)).length < n then
        some ⟨s, p, n - (qs.filter (wrongGuess p)).length, true⟩ else none := by
  induction qs generalizing n with
  | nil => simp [vrun, show 0 < n from hn]
  | cons q qs ih =>
    have hq := h q List.mem_cons_self
    have ht := fun x hx => h x (List.mem_cons_of_mem _ hx)
    cases q with
    | backup _ _ _ => simp [resets] at hq
    | delete => simp [resets] at hq
    | restore g =>
      simp only [vrun, vstep, Bool.true_eq_false, if_false]
      by_cases hg : g = p
      · simp only [hg, if_true]
        rw [ih n hn ht]
        simp [wrongGuess]
      · simp only [hg, if_false]
        have hw : ((Req.restore g :: qs).filter (wrongGuess p)).length = (qs.filter (wrongGuess p)).length + 1 := by
          simp [wrongGuess, hg]
        rw [hw]
        by_cases hl : n ≤ 1
        · rw [if_pos hl, if_neg (by omega)]
          apply vrun_none_noBackup
          intro x hx
          have := ht x hx
          cases x <;> simp [resets, isBackup] at this ⊢
        · rw [if_neg hl]
          simp only
          rw [ih (n - 1) (by omega) ht]
          have e : ((qs.filter (wrongGuess p)).length < n - 1) = ((qs.filter (wrongGuess p)).length + 1 < n) := by
            apply propext; omega
          have e2 : n - 1 - (qs.filter (wrongGuess p)).length = n - ((qs.filter (wrongGuess p)).length + 1) := by omega
          simp only [e, e2]
    | expose d =>
      have hst : (vstep (some ⟨s, p, n, true⟩) (.expose d)).1 = some ⟨s, p, n, true⟩ := by
        simp only [vstep]; split <;> rfl
      simp only [vrun, hst]
      rw [ih n hn ht]; simp [wrongGuess]
    | tries => simp only [vrun, vstep]; rw [ih n hn ht]; simp [wrongGuess]
    | unset => simp only [vrun, vstep]; rw [ih n hn ht]; simp [wrongGuess]

/-- State after a backup and requests that do not reset it. -/
theorem vrun_after_backup (qs : List Req) (s p : Bytes) (n : Nat) (hn : 1 ≤ n)
    (h : ∀ q ∈ qs, resets q = false) :
    (vrun (some ⟨s, p, n, false⟩) qs).1 =
      if qs.any (exposes s) then
        (if wrongs s p qs < n then some ⟨s, p, n - wrongs s p qs, true⟩ else none)
      else some ⟨s, p, n, false⟩ := by
  induction qs with
  | nil => simp [vrun]
  | cons q qs ih =>
    have hq := h q List.mem_cons_self
    have ht := fun x hx => h x (List.mem_cons_of_mem _ hx)
    by_cases hx : exposes s q = true
    · cases q with
      | expose d =>
        have hp : s <+: d := by simpa [exposes] using hx
        simp only [vrun, vstep, if_pos hp]
        rw [vrun_exposed qs s p n hn ht]
        have hw : wrongs s p (Req.expose d :: qs) = (qs.filter (wrongGuess p)).length := by
          simp [wrongs, hx, wrongGuess]
        simp [hx, hw]
      | _ => simp [exposes] at hx
    · have hx' : exposes s q = false := by simpa using hx
      have hst : (vstep (some ⟨s, p, n, false⟩) q).1 = some ⟨s, p, n, false⟩ := by
        cases q with
        | expose d =>
          have hp : ¬ s <+: d := by simpa [exposes] using hx
          simp [vstep, hp]
        | backup _ _ _ => simp [resets] at hq
        | delete => simp [resets] at hq
        | restore g => simp [vstep]
        | tries => simp [vstep]
        | unset => simp [vstep]
      simp only [vrun, hst]
      rw [ih ht]
      have hw : wrongs s p (q :: qs) = wrongs s p qs := by simp [wrongs, hx']
      simp [hx', hw]

/-- Split a history at its last resetting request. -/
theorem split_last_reset (qs : List Req) :
    (∀ q ∈ qs, resets q = false) ∨
    ∃ pre r post, qs = pre ++ r :: post ∧ resets r = true ∧ ∀ q ∈ post, resets q = false := by
  induction qs with
  | nil => left; simp
  | cons q qs ih =>
    rcases ih with h | ⟨pre, r, post, rfl, hr, hp⟩
    · by_cases hq : resets q = true
      · right; exact ⟨[], q, qs, rfl, hq, h⟩
      · left
        intro x hx
        rcases List.mem_cons.mp hx with rfl | hx
        · simpa using hq
        · exact h x hx
    · right; exact ⟨q :: pre, r, post, rfl, hr, hp⟩

/-- Exactly when `Restore` succeeds, in terms of the account's history alone. -/
theorem restore_ok_iff (qs : List Req) (hn : ∀ s p n, Req.backup s p n ∈ qs → 1 ≤ n.toNat)
    (g s : Bytes) (t : Nat) :
    (vstep (vrun none qs).1 (.restore g)).2 = .restore .ok s t ↔
      ∃ pre post n, qs = pre ++ .backup s g n :: post ∧ (∀ q ∈ post, resets q = false) ∧
        post.any (exposes s) = true ∧ wrongs s g post < n.toNat ∧ t = n.toNat - wrongs s g post := by
  have stepOk : ∀ v : Vault, (vstep (some v) (.restore g)).2 = .restore .ok s t ↔
      v.exposed = true ∧ v.pin = g ∧ v.secret = s ∧ v.left = t := by
    intro v
    cases he : v.exposed with
    | false => simp [vstep, he]
    | true =>
      by_cases hp : g = v.pin
      · simp [vstep, he, hp]
      · have : ¬ v.pin = g := fun e => hp e.symm
        by_cases hl : v.left ≤ 1 <;> simp [vstep, he, hp, hl, this]
  constructor
  · intro h
    rcases split_last_reset qs with hno | ⟨pre, r, post, rfl, hr, hp⟩
    · rw [vrun_none_noBackup qs (fun q hq => by
        have := hno q hq; cases q <;> simp [resets, isBackup] at this ⊢)] at h
      simp [vstep] at h
    · cases r with
      | backup s' p n =>
        have hn' := hn s' p n (by simp)
        have hst : (vrun none (pre ++ .backup s' p n :: post)).1 = (vrun (some ⟨s', p, n.toNat, false⟩) post).1 := by
          rw [vrun_append]; simp [vrun, vstep]
        rw [hst, vrun_after_backup post s' p n.toNat hn' hp] at h
        by_cases hex : post.any (exposes s') = true
        · rw [if_pos hex] at h
          by_cases hw : wrongs s' p post < n.toNat
          · rw [if_pos hw, stepOk] at h
            obtain ⟨_, h2, h3, h4⟩ := h
            simp only at h2 h3 h4
            subst h2; subst h3
            exact ⟨pre, post, n, rfl, hp, hex, hw, h4.symm⟩
          · rw [if_neg hw] at h; simp [vstep] at h
        · rw [if_neg hex, stepOk] at h
          simp at h
      | delete =>
        have hst : (vrun none (pre ++ .delete :: post)).1 = (vrun none post).1 := by
          rw [vrun_append]; simp [vrun, vstep]
        rw [hst, vrun_none_noBackup post (fun q hq => by
          have := hp q hq; cases q <;> simp [resets, isBackup] at this ⊢)] at h
        simp [vstep] at h
      | _ => simp [resets] at hr
  · rintro ⟨pre, post, n, rfl, hp, hex, hw, rfl⟩
    have hn' := hn s g n (by simp)
    have hst : (vrun none (pre ++ .backup s g n :: post)).1 = (vrun (some ⟨s, g, n.toNat, false⟩) post).1 := by
      rw [vrun_append]; simp [vrun, vstep]
    rw [hst, vrun_after_backup post s g n.toNat hn' hp, if_pos hex, if_pos hw, stepOk]
    simp

/-- Tries counters reported by PIN_MISMATCH answers, in order. -/
def mismatchTries : List Resp → List Nat
  | [] => []
  | .restore .pinMismatch _ t :: rs => t :: mismatchTries rs
  | _ :: rs => mismatchTries rs

theorem mismatch_none (qs : List Req) (h : ∀ q ∈ qs, isBackup q = false) :
    mismatchTries (vrun none qs).2 = [] := by
  induction qs with
  | nil => rfl
  | cons q qs ih =>
    have hq := h q List.mem_cons_self
    have ht := fun x hx => h x (List.mem_cons_of_mem _ hx)
    have : (vstep none q).1 = none := by cases q <;> simp [vstep, isBackup] at hq ⊢
    simp only [vrun, this]
    cases q <;> simp [vstep, mismatchTries, ih ht, isBackup] at hq ⊢

/-- Without a new backup the mismatch counters count down one by one and stop above zero. -/
theorem mismatch_countdown (qs : List Req) (v : Vault) (h : ∀ q ∈ qs, isBackup q = false) :
    ∃ k, k ≤ v.left - 1 ∧ mismatchTries (vrun (some v) qs).2 = (List.range k).map (fun i => v.left - 1 - i) := by
  induction qs generalizing v with
  | nil => exact ⟨0, by omega, rfl⟩
  | cons q qs ih =>
    have hq := h q List.mem_cons_self
    have ht := fun x hx => h x (List.mem_cons_of_mem _ hx)
    cases q with
    | backup _ _ _ => simp [isBackup] at hq
    | restore g =>
      simp only [vrun, vstep]
      by_cases he : v.exposed = false
      · simp only [he, if_true]
        obtain ⟨k, hk, hm⟩ := ih v ht
        exact ⟨k, hk, by simpa [mismatchTries] using hm⟩
      · rw [if_neg he]
        by_cases hg : g = v.pin
        · simp only [hg, if_true]
          obtain ⟨k, hk, hm⟩ := ih v ht
          exact ⟨k, hk, by simpa [mismatchTries] using hm⟩
        · simp only [hg, if_false]
          by_cases hl : v.left ≤ 1
          · simp only [hl, if_true]
            exact ⟨0, by omega, by simpa [mismatchTries] using mismatch_none qs ht⟩
          · simp only [hl, if_false]
            obtain ⟨k, hk, hm⟩ := ih { v with left := v.left - 1 } ht
            refine ⟨k + 1, by simp only at hk; omega, ?_⟩
            simp only [mismatchTries, hm, List.range_succ_eq_map, List.map_cons, List.map_map]
            congr 1
            apply List.map_congr_left
            intro i _
            simp only [Function.comp]; omega
    | delete =>
      simp only [vrun, vstep]
      exact ⟨0, by omega, by simpa [mismatchTries] using mismatch_none qs ht⟩
    | expose d =>
      simp only [vrun, vstep]
      by_cases hp : v.secret <+: d
      · simp only [hp, if_true]
        obtain ⟨k, hk, hm⟩ := ih { v with exposed := true } ht
        exact ⟨k, hk, by simpa [mismatchTries] using hm⟩
      · simp only [hp, if_false]
        obtain ⟨k, hk, hm⟩ := ih v ht
        exact ⟨k, hk, by simpa [mismatchTries] using hm⟩
    | tries =>
      simp only [vrun, vstep]
      obtain ⟨k, hk, hm⟩ := ih v ht
      exact ⟨k, hk, by simpa [mismatchTries] using hm⟩
    | unset =>
      simp only [vrun, vstep]
      obtain ⟨k, hk, hm⟩ := ih v ht
      exact ⟨k, hk, by simpa [mismatchTries] using hm⟩

/-- Whatever is asked, all answers are the same for all PINs outside a set of at most `left` values:
an observer tests at most `left` PINs. -/
theorem tests_at_most (qs : List Req) (s : Bytes) (n : Nat) (e : Bool)
    (h : ∀ q ∈ qs, isBackup q = false) (hn : 1 ≤ n) :
    ∃ G : List Bytes, G.length ≤ n ∧ ∀ p p', p ∉ G → p' ∉ G →
      (vrun (some ⟨s, p, n, e⟩) qs).2 = (vrun (some ⟨s, p', n, e⟩) qs).2 := by
  induction qs generalizing n e with
  | nil => exact ⟨[], by simp, fun _ _ _ _ => rfl⟩
  | cons q qs ih =>
    have hq := h q List.mem_cons_self
    have ht := fun x hx => h x (List.mem_cons_of_mem _ hx)
    cases q with
    | backup _ _ _ => simp [isBackup] at hq
    | restore g =>
      cases e with
      | false =>
        obtain ⟨G, hG, hh⟩ := ih n false ht hn
        exact ⟨G, hG, fun p p' hp hp' => by simp [vrun, vstep, hh p p' hp hp']⟩
      | true =>
        by_cases hl : n ≤ 1
        · refine ⟨[g], by simpa using hn, fun p p' hp hp' => ?_⟩
          have h1 : ¬ g = p := fun e => hp (by simp [e])
          have h2 : ¬ g = p' := fun e => hp' (by simp [e])
          simp [vrun, vstep, h1, h2, hl]
        · obtain ⟨G, hG, hh⟩ := ih (n - 1) true ht (by omega)
          refine ⟨g :: G, by simp; omega, fun p p' hp hp' => ?_⟩
          have h1 : ¬ g = p := fun e => hp (by simp [e])
          have h2 : ¬ g = p' := fun e => hp' (by simp [e])
          have h3 := hh p p' (fun x => hp (List.mem_cons_of_mem _ x)) (fun x => hp' (List.mem_cons_of_mem _ x))
          simp [vrun, vstep, h1, h2, hl, h3]
    | delete => exact ⟨[], by simp, fun p p' _ _ => by simp [vrun, vstep]⟩
    | expose d =>
      by_cases hp : s <+: d
      · obtain ⟨G, hG, hh⟩ := ih n true ht hn
        exact ⟨G, hG, fun p p' h1 h2 => by simp [vrun, vstep, hp, hh p p' h1 h2]⟩
      · obtain ⟨G, hG, hh⟩ := ih n e ht hn
        exact ⟨G, hG, fun p p' h1 h2 => by simp [vrun, vstep, hp, hh p p' h1 h2]⟩
    | tries =>
      obtain ⟨G, hG, hh⟩ := ih n e ht hn
      exact ⟨G, hG, fun p p' h1 h2 => by simp [vrun, vstep, hh p p' h1 h2]⟩
    | unset =>
      obtain ⟨G, hG, hh⟩ := ih n e ht hn
      exact ⟨G, hG, fun p p' h1 h2 => by simp [vrun, vstep, hh p p' h1 h2]⟩

end Svr.Spec2
