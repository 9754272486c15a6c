import Verif.Minimums
import Mathlib.Tactic.Positivity

/-!
# C40, C41: minimums

The specification reads limits as big-endian numbers of a fixed width.
-/

namespace Svr.Props.Minimums

open Svr Svr.Minimums

/-- Big-endian value. -/
def value : Bytes → Nat
  | [] => 0
  | b :: t => b.toNat * 256 ^ t.length + value t

theorem value_lt : ∀ b : Bytes, value b < 256 ^ b.length
  | [] => by simp [value]
  | b :: t => by
    have h := value_lt t
    have hb := b.toNat_lt
    simp only [value, List.length_cons, pow_succ]
    have : b.toNat * 256 ^ t.length ≤ 255 * 256 ^ t.length := Nat.mul_le_mul_right _ (by omega)
    omega

theorem lex_value : ∀ a b : Bytes, a.length = b.length → (a < b ↔ value a < value b)
  | [], [], _ => by simp [value]
  | a :: s, b :: t, h => by
    simp only [List.length_cons, Nat.add_right_cancel_iff] at h
    have ih := lex_value s t h
    have h1 := value_lt s
    have h2 := value_lt t
    rw [List.cons_lt_cons_iff, ih]
    simp only [value, h] at *
    have hp : 0 < 256 ^ t.length := by positivity
    constructor
    · rintro (hab | ⟨rfl, hst⟩)
      · have : a.toNat < b.toNat := hab
        have := Nat.mul_le_mul_right (256 ^ t.length) (show a.toNat + 1 ≤ b.toNat by omega)
        rw [Nat.add_mul] at this
        omega
      · omega
    · intro hv
      rcases lt_trichotomy a.toNat b.toNat with hab | hab | hab
      · exact .inl hab
      · right
        refine ⟨UInt8.toNat_inj.mp hab, ?_⟩
        rw [hab] at hv; omega
      · have := Nat.mul_le_mul_right (256 ^ t.length) (show b.toNat + 1 ≤ a.toNat by omega)
        rw [Nat.add_mul] at this
        omega

/-- `s'` has every limit of `s`, of the same width and not lower. -/
def Ratcheted (s s' : Limits) : Prop :=
  ∀ k v, s.find k = some v → ∃ v', s'.find k = some v' ∧ v'.length = v.length ∧ value v ≤ value v'

theorem Ratcheted.refl (s : Limits) : Ratcheted s s := fun _ v h => ⟨v, h, rfl, le_refl _⟩
theorem Ratcheted.trans {a b c : Limits} (h1 : Ratcheted a b) (h2 : Ratcheted b c) : Ratcheted a c := by
  intro k v h
  obtain ⟨v1, e1, l1, g1⟩ := h1 k v h
  obtain ⟨v2, e2, l2, g2⟩ := h2 k v1 e1
  exact ⟨v2, e2, l2.trans l1, g1.trans g2⟩

/-- No empty key and no empty limit. -/
def NonEmpty (u : Limits) : Prop := ∀ k v, u.find k = some v → k ≠ [] ∧ v ≠ []

theorem checkEntry_none {s : Limits} {p : Bytes × Bytes} :
    checkEntry s p = none ↔ p.2 ≠ [] ∧ p.1 ≠ [] ∧ ∀ v, s.find p.1 = some v → v.length = p.2.length ∧ value v ≤ value p.2 := by
  unfold checkEntry
  by_cases h1 : p.2.length = 0
  · simp [h1, List.length_eq_zero_iff.mp h1]
  have h1' : p.2 ≠ [] := fun h => h1 (by simp [h])
  rw [if_neg h1]
  by_cases h2 : p.1 = []
  · simp [h2]
  rw [if_neg h2]
  cases hf : s.find p.1 with
  | none => simp [h1', h2]
  | some v =>
    simp only [Option.some.injEq, forall_eq', h1', h2, ne_eq, not_false_eq_true, true_and]
    by_cases hl : v.length = p.2.length
    · have := lex_value p.2 v hl.symm
      by_cases hg : v > p.2
      · rw [if_pos hg]; have := this.mp hg; simp; omega
      · rw [if_neg hg, if_neg (by simpa using hl)]
        have : ¬ value p.2 < value v := fun h => hg (this.mpr h)
        simp [hl]; omega
    · by_cases hg : v > p.2
      · rw [if_pos hg]; simp [hl]
      · rw [if_neg hg, if_pos hl]; simp [hl]

/-- **C40**: an update is accepted exactly when it keeps every key, lowers no limit, changes no width and has no
empty key or limit; then it becomes the limits. -/
theorem C40_update_exact (s u s' : Limits) :
    updateLimits s u = .ok s' ↔ s' = u ∧ Ratcheted s u ∧ NonEmpty u := by
  unfold updateLimits
  by_cases hm : (s.list.any fun p => decide (u.find p.1 = none)) = true
  · rw [if_pos hm]
    obtain ⟨p, hp, hn⟩ := List.any_eq_true.mp hm
    simp only [decide_eq_true_eq] at hn
    refine Iff.intro (fun h => by cases h) (fun h => ?_)
    obtain ⟨-, h, -⟩ := h
    obtain ⟨v', e, -⟩ := h p.1 p.2 (OMap.mem_list.mp hp)
    rw [hn] at e; cases e
  · rw [if_neg hm]
    have hkeep : ∀ k v, s.find k = some v → ∃ v', u.find k = some v' := by
      intro k v h
      by_contra hc
      apply hm
      refine List.any_eq_true.mpr ⟨(k, v), OMap.mem_list.mpr h, ?_⟩
      simp only [decide_eq_true_eq]
      cases hk : u.find k with
      | none => rfl
      | some v' => exact absurd ⟨v', hk⟩ hc
    cases hf : u.list.findSome? (checkEntry s) with
    | some e =>
      refine Iff.intro (fun h => by cases h) (fun h => ?_)
      exfalso
      obtain ⟨-, hr, hne⟩ := h
      obtain ⟨p, hp, he⟩ := List.exists_of_findSome?_eq_some hf
      have hu := OMap.mem_list.mp (show (p.1, p.2) ∈ u.list from hp)
      have : checkEntry s p = none := by
        rw [checkEntry_none]
        refine ⟨(hne _ _ hu).2, (hne _ _ hu).1, fun v hv => ?_⟩
        obtain ⟨v', e1, l, g⟩ := hr _ _ hv
        rw [hu] at e1; cases e1
        exact ⟨l.symm, g⟩
      rw [this] at he; cases he
    | none =>
      have hall : ∀ p ∈ u.list, checkEntry s p = none := List.findSome?_eq_none_iff.mp hf
      constructor
      · intro h
        cases h
        refine ⟨rfl, ?_, ?_⟩
        · intro k v h
          obtain ⟨v', e⟩ := hkeep k v h
          have := (checkEntry_none.mp (hall (k, v') (OMap.mem_list.mpr e))).2.2 v h
          exact ⟨v', e, this.1.symm, this.2⟩
        · intro k v h
          have := checkEntry_none.mp (hall (k, v) (OMap.mem_list.mpr h))
          exact ⟨this.2.1, this.1⟩
      · rintro ⟨rfl, -⟩; rfl

/-- Limits after a sequence of update attempts; a refused one changes nothing. -/
def attempts (s : Limits) : List Limits → Limits
  | [] => s
  | u :: us => match updateLimits s u with
    | .ok s' => attempts s' us
    | .error _ => attempts s us

/-- **C40**: over any sequence of updates, limits only go up: no key disappears, no value drops, no width changes. -/
theorem C40_limits_ratchet (us : List Limits) : ∀ s, Ratcheted s (attempts s us) := by
  induction us with
  | nil => exact fun s => .refl s
  | cons u us ih =>
    intro s
    simp only [attempts]
    cases h : updateLimits s u with
    | error e => exact ih s
    | ok s' =>
      obtain ⟨rfl, hr, -⟩ := (C40_update_exact s u s').mp h
      exact hr.trans (ih _)

theorem checkValue_none {s : Limits} {p : Bytes × Bytes} :
    checkValueAgainstSet s p = none ↔ ∀ l, s.find p.1 = some l → p.2.length = l.length ∧ value l ≤ value p.2 := by
  unfold checkValueAgainstSet
  cases hf : s.find p.1 with
  | none => simp
  | some l =>
    simp only [Option.some.injEq, forall_eq']
    by_cases hl : p.2.length = l.length
    · have := lex_value p.2 l hl
      by_cases hg : p.2 < l
      · rw [if_pos hg]; have := this.mp hg; simp; omega
      · rw [if_neg hg, if_neg (by simpa using hl)]
        have : ¬ value p.2 < value l := fun h => hg (this.mpr h)
        simp [hl]; omega
    · by_cases hg : p.2 < l
      · rw [if_pos hg]; simp [hl]
      · rw [if_neg hg, if_pos hl]; simp [hl]

/-- **C40**: values pass exactly when each value present has the width of its limit, if any, and is not below it. -/
theorem C40_values_exact (s : Limits) (v : Values) :
    checkValues s v = none ↔
      ∀ k x l, v.find k = some x → s.find k = some l → x.length = l.length ∧ value l ≤ value x := by
  unfold checkValues
  rw [List.findSome?_eq_none_iff]
  constructor
  · intro h k x l hx hl
    exact checkValue_none.mp (h (k, x) (OMap.mem_list.mpr hx)) l hl
  · intro h p hp
    exact checkValue_none.mpr fun l hl => h p.1 p.2 l (OMap.mem_list.mp hp) hl

/-- **C40**: values that pass the limits reached by any further updates pass the present ones. -/
theorem C40_later_limits_stricter (s : Limits) (us : List Limits) (v : Values)
    (h : checkValues (attempts s us) v = none) : checkValues s v = none := by
  rw [C40_values_exact] at *
  intro k x l hx hl
  obtain ⟨l', e, hlen, hle⟩ := C40_limits_ratchet us s k l hl
  obtain ⟨h1, h2⟩ := h k x l' hx e
  exact ⟨h1.trans hlen, hle.trans h2⟩

/-- A limited key that is absent from the values is not an error: the claim is about values present. -/
theorem C40_absent_value_passes (s : Limits) : checkValues s OMap.empty = none := by
  rw [C40_values_exact]; intro k x l h; simp at h

/-- What `CombineValues` should leave under a key: the lexicographically smaller of the two. -/
def lower : Option Bytes → Option Bytes → Option Bytes
  | none, b => b
  | a, none => a
  | some a, some b => some (min a b)

theorem combine_find (frm into : Values) (k : Bytes) : (combineValues frm into).find k = lower (frm.find k) (into.find k) := by
  unfold combineValues
  have key : ∀ (l : List (Bytes × Bytes)) (acc : Values), l.Pairwise (fun a b => a.1 < b.1) →
      (l.foldl (fun acc p => match acc.find p.1 with
        | none => acc.insert p.1 p.2
        | some w => if w > p.2 then acc.insert p.1 p.2 else acc) acc).find k = lower (OMap.findL k l) (acc.find k) := by
    intro l
    induction l with
    | nil => intro acc _; simp [OMap.findL, lower]
    | cons p t ih =>
      intro acc hs
      simp only [List.foldl_cons]
      rw [ih _ (List.pairwise_cons.mp hs).2]
      have hfind : (match acc.find p.1 with
          | none => acc.insert p.1 p.2
          | some w => if w > p.2 then acc.insert p.1 p.2 else acc).find k =
            if p.1 = k then lower (some p.2) (acc.find k) else acc.find k := by
        by_cases hk : p.1 = k
        · subst hk
          rw [if_pos rfl]
          cases hw : acc.find p.1 with
          | none => simp [lower]
          | some w =>
            simp only [lower]
            by_cases hg : w > p.2
            · rw [if_pos hg]; simp [min_eq_left hg.le]
            · rw [if_neg hg, hw, min_eq_right (not_lt.mp hg)]
        · rw [if_neg hk]
          cases hw : acc.find p.1 with
          | none => simp [OMap.find_insert, hk]
          | some w =>
            simp only
            by_cases hg : w > p.2
            · rw [if_pos hg]; simp [OMap.find_insert, hk]
            · rw [if_neg hg]
      rw [hfind]
      by_cases hk : p.1 = k
      · rw [if_pos hk]
        have hn : OMap.findL k t = none := by
          apply OMap.findL_none_of_forall
          intro q hq
          have := (List.pairwise_cons.mp hs).1 q hq
          rw [← hk]; exact fun h => absurd this (by rw [h]; exact lt_irrefl _)
        rw [hn]
        obtain ⟨a, b⟩ := p
        simp only at hk; subst hk
        simp [OMap.findL, lower]
      · rw [if_neg hk]
        obtain ⟨a, b⟩ := p
        have : OMap.findL k ((a, b) :: t) = OMap.findL k t := by
          simp only [OMap.findL]
          split
          · rename_i h; exact absurd h.symm (by simpa [eq_comm] using hk)
          · rfl
        rw [this]
  exact key frm.list into frm.sorted

/-- **C40**: if both sets of values pass the limits, the combination does. -/
theorem C40_combine_sound (s : Limits) (a b : Values) (ha : checkValues s a = none) (hb : checkValues s b = none) :
    checkValues s (combineValues a b) = none := by
  rw [C40_values_exact] at *
  intro k x l hx hl
  rw [combine_find] at hx
  cases h1 : a.find k with
  | none =>
    cases h2 : b.find k with
    | none => rw [h1, h2] at hx; simp [lower] at hx
    | some y => rw [h1, h2] at hx; simp only [lower, Option.some.injEq] at hx; subst hx; exact hb k y l h2 hl
  | some y =>
    cases h2 : b.find k with
    | none => rw [h1, h2] at hx; simp only [lower, Option.some.injEq] at hx; subst hx; exact ha k y l h1 hl
    | some z =>
      rw [h1, h2] at hx
      simp only [lower, Option.some.injEq] at hx
      rcases min_choice y z with hm | hm
      · rw [hm] at hx; subst hx; exact ha k y l h1 hl
      · rw [hm] at hx; subst hx; exact hb k z l h2 hl

/-- **C40**: a combination that passes has no value of the limit's width below the limit on either side. -/
theorem C40_combine_rejects (s : Limits) (a b : Values) (h : checkValues s (combineValues a b) = none)
    (k x l : Bytes) (hx : a.find k = some x ∨ b.find k = some x) (hl : s.find k = some l) (hw : x.length = l.length) :
    value l ≤ value x := by
  rw [C40_values_exact] at h
  have key : ∃ m, (combineValues a b).find k = some m ∧ m ≤ x := by
    rw [combine_find]
    rcases hx with hx | hx
    · rw [hx]
      cases h2 : b.find k with
      | none => exact ⟨x, rfl, le_refl _⟩
      | some z => exact ⟨min x z, rfl, min_le_left _ _⟩
    · rw [hx]
      cases h2 : a.find k with
      | none => exact ⟨x, rfl, le_refl _⟩
      | some z => exact ⟨min z x, rfl, min_le_right _ _⟩
  obtain ⟨m, hm, hle⟩ := key
  obtain ⟨h1, h2⟩ := h k m l hm hl
  have := lex_value x m (hw.trans h1.symm)
  have : ¬ value x < value m := fun hlt => absurd (this.mpr hlt) (not_lt.mpr hle)
  omega

/-- One key `[1]`. -/
def one (v : Bytes) : Limits := OMap.empty.insert [1] v

/-- Raising a limit from 5 to 300 (two bytes wide) is accepted; lowering and widening are not. -/
example : updateLimits (one [0, 5]) (one [1, 44]) = .ok (one [1, 44]) ∧
    updateLimits (one [1, 44]) (one [0, 5]) = .error .limitDecreased ∧
    updateLimits (one [5]) (one [5, 0]) = .error .sizeMismatch ∧
    updateLimits (one [5]) OMap.empty = .error .keyMissing ∧
    checkValues (one [1, 44]) (one [1, 43]) = some .valueTooLow ∧
    checkValues (one [1, 44]) (one [1, 45]) = none := by decide

/-! ## C41 -/

/-- **C41**, negation: two updates accepted while both are in flight: raising to 5, then, on another host request
before the first commits, to 3. Both pass the check against the current limit 1; when they commit in this order
the second one fails and aborts the replica. -/
theorem C41_two_in_flight_abort :
    run (initGroup 1 (one [1])) [.request 0 (one [5]) true, .request 0 (one [3]) true, .apply 0, .apply 0] = .abort := by
  rfl

/-- As above for a group: every replica aborts in turn, since all apply the same log. -/
theorem C41_every_replica_aborts (n r : Nat) (hr : r < n) :
    ∃ g, run (initGroup n (one [1])) [.request 0 (one [5]) true, .request 0 (one [3]) true, .apply r] = .ok g ∧
      step g (.apply r) = .abort := by
  have h0 : 0 < n := by omega
  have e1 : (List.replicate n ((0 : Nat), one [1]))[0]? = some (0, one [1]) := by simp [List.getElem?_replicate, h0]
  have er : (List.replicate n ((0 : Nat), one [1]))[r]? = some (0, one [1]) := by simp [List.getElem?_replicate, hr]
  have u5 : updateLimits (one [1]) (one [5]) = .ok (one [5]) := by decide
  have u3 : updateLimits (one [1]) (one [3]) = .ok (one [3]) := by decide
  have u53 : updateLimits (one [5]) (one [3]) = .error .limitDecreased := by decide
  have es : ((List.replicate n ((0 : Nat), one [1])).set r (1, one [5]))[r]? = some (1, one [5]) := by
    rw [List.getElem?_set_self (by simpa using hr)]
  refine ⟨⟨[one [5], one [3]], (List.replicate n (0, one [1])).set r (1, one [5])⟩, ?_, ?_⟩
  · simp only [run, step, initGroup, e1, er, u5, u3, applyCommitted, Out.bind_ok, if_true]
    rfl
  · simp only [step, es, applyCommitted]
    simp [u53]

/-- Updates already accepted, each valid after its predecessors. -/
def Chain (s : Limits) : List Limits → Prop
  | [] => True
  | u :: us => (Ratcheted s u ∧ NonEmpty u) ∧ Chain u us

theorem chain_append (us : List Limits) : ∀ (s u : Limits), Chain s (us ++ [u]) ↔
    Chain s us ∧ Ratcheted (us.getLastD s) u ∧ NonEmpty u := by
  induction us with
  | nil => intro s u; simp [Chain]
  | cons a t ih => intro s u; simp only [List.cons_append, Chain, ih, List.getLastD_cons]; tauto

/-- The request rule under which updates are always applicable: no other update is in flight at the replica asked. -/
def quiet (g : Group) : Ev → Bool
  | .request r _ _ => match g.reps[r]? with
    | none => true
    | some (n, _) => n == g.log.length
  | .apply _ => true

/-- Runs all of whose requests are quiet. -/
def quietRun (g : Group) : List Ev → Bool
  | [] => true
  | e :: es => quiet g e && match step g e with
    | .ok g' => quietRun g' es
    | _ => true

/-- Limits after the first `n` updates. -/
def after (s0 : Limits) (log : List Limits) (n : Nat) : Limits := (log.take n).getLastD s0

def Ok (s0 : Limits) (g : Group) : Prop :=
  Chain s0 g.log ∧ ∀ (r n : Nat) (s : Limits), g.reps[r]? = some (n, s) → n ≤ g.log.length ∧ s = after s0 g.log n

theorem chain_get : ∀ (log : List Limits) (s0 : Limits) (n : Nat) (u : Limits), Chain s0 log → log[n]? = some u →
    Ratcheted (after s0 log n) u ∧ NonEmpty u
  | [], _, _, _, _, h => by simp at h
  | a :: t, s0, 0, u, hc, h => by simp at h; subst h; exact hc.1
  | a :: t, s0, n + 1, u, hc, h => by
    have := chain_get t a n u hc.2 (by simpa using h)
    have e : after s0 (a :: t) (n + 1) = after a t n := by
      unfold after; rw [List.take_succ_cons, List.getLastD_cons]
    rw [e]; exact this

theorem after_full (s0 : Limits) (log : List Limits) : after s0 log log.length = log.getLastD s0 := by
  simp [after]

theorem after_succ (s0 : Limits) (log : List Limits) (n : Nat) (u : Limits) (h : log[n]? = some u) :
    after s0 log (n + 1) = u := by
  unfold after
  rw [List.take_add_one, h]
  simp

theorem step_ok {s0 : Limits} {g : Group} (h : Ok s0 g) {e : Ev} (hq : quiet g e = true) : ∃ g', step g e = .ok g' ∧ Ok s0 g' := by
  cases e with
  | request r u b =>
    simp only [step]
    cases hr : g.reps[r]? with
    | none => exact ⟨g, rfl, h⟩
    | some p =>
      obtain ⟨n, s⟩ := p
      have hn : n = g.log.length := by simpa [quiet, hr] using hq
      obtain ⟨-, hs⟩ := h.2 r n s hr
      simp only
      cases hu : updateLimits s u with
      | error e => exact ⟨g, rfl, h⟩
      | ok s' =>
        cases b with
        | false => exact ⟨g, rfl, h⟩
        | true =>
          refine ⟨_, rfl, ?_, ?_⟩
          · obtain ⟨-, h1, h2⟩ := (C40_update_exact s u s').mp hu
            simp only
            rw [chain_append]
            refine ⟨h.1, ?_, h2⟩
            rw [hs, hn, after_full] at h1
            exact h1
          · intro r' n' s' hr'
            obtain ⟨h1, h2⟩ := h.2 r' n' s' hr'
            refine ⟨by simp; omega, ?_⟩
            rw [h2]
            unfold after
            simp only
            rw [List.take_append_of_le_length h1]
  | apply r =>
    simp only [step]
    cases hr : g.reps[r]? with
    | none => exact ⟨g, rfl, h⟩
    | some p =>
      obtain ⟨n, s⟩ := p
      obtain ⟨hn, hs⟩ := h.2 r n s hr
      simp only
      cases hl : g.log[n]? with
      | none => exact ⟨g, rfl, h⟩
      | some u =>
        have hc := chain_get g.log s0 n u h.1 hl
        rw [← hs] at hc
        have hu := (C40_update_exact s u u).mpr ⟨rfl, hc.1, hc.2⟩
        refine ⟨{ g with reps := g.reps.set r (n + 1, u) }, by simp [applyCommitted, hu], h.1, ?_⟩
        intro r' n' s' hr'
        simp only at hr'
        by_cases hrr : r = r'
        · subst hrr
          have hlt : r < g.reps.length := (List.getElem?_eq_some_iff.mp hr).1
          rw [List.getElem?_set_self hlt] at hr'
          simp only [Option.some.injEq, Prod.mk.injEq] at hr'
          obtain ⟨rfl, rfl⟩ := hr'
          have := (List.getElem?_eq_some_iff.mp hl).1
          exact ⟨by simp only; omega, (after_succ s0 g.log n u hl).symm⟩
        · rw [List.getElem?_set_ne hrr] at hr'
          exact h.2 r' n' s' hr'

theorem run_ok {s0 : Limits} : ∀ (es : List Ev) (g : Group), Ok s0 g → quietRun g es = true → ∃ g', run g es = .ok g' ∧ Ok s0 g' := by
  intro es
  induction es with
  | nil => intro g h _; exact ⟨g, rfl, h⟩
  | cons e es ih =>
    intro g h hq
    simp only [quietRun, Bool.and_eq_true] at hq
    · obtain ⟨g', e1, hok⟩ := step_ok h hq.1
      rw [e1] at hq
      obtain ⟨g'', e2, hok'⟩ := ih g' hok hq.2
      exact ⟨g'', by simp only [run, e1, Out.bind_ok]; exact e2, hok'⟩

/-- **C41**, what does hold: if updates are requested only at replicas with no update in flight, no replica ever
aborts on a committed update, and replicas that applied equally many have the same limits.

Missing from the full claim: requests while another update is in flight, for which it is false, see
`C41_two_in_flight_abort`. -/
theorem C41_applicable_partial (n : Nat) (s0 : Limits) (es : List Ev) (h : quietRun (initGroup n s0) es = true) :
    ∃ g, run (initGroup n s0) es = .ok g ∧
      ∀ (r r' k : Nat) (s s' : Limits), g.reps[r]? = some (k, s) → g.reps[r']? = some (k, s') → s = s' := by
  have h0 : Ok s0 (initGroup n s0) := by
    refine ⟨trivial, ?_⟩
    intro r k s hr
    simp only [initGroup, List.getElem?_replicate] at hr
    by_cases hlt : r < n
    · simp only [hlt, if_true, Option.some.injEq, Prod.mk.injEq] at hr
      obtain ⟨rfl, rfl⟩ := hr
      exact ⟨by simp, rfl⟩
    · simp [hlt] at hr
  obtain ⟨g, e, hok⟩ := run_ok es _ h0 h
  refine ⟨g, e, ?_⟩
  intro r r' k s s' h1 h2
  rw [(hok.2 r k s h1).2, (hok.2 r' k s' h2).2]

def twoUpdates : List Ev := [.request 0 (one [5]) true, .apply 1, .request 1 (one [9]) true, .apply 0, .apply 0, .apply 1]

/-- A quiet run of two replicas with two updates. -/
example : quietRun (initGroup 2 (one [1])) twoUpdates = true ∧
    run (initGroup 2 (one [1])) twoUpdates = .ok ⟨[one [5], one [9]], [(2, one [9]), (2, one [9])]⟩ := ⟨rfl, rfl⟩

end Svr.Props.Minimums
