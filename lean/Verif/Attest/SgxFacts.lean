import Verif.Spec.Sgx
import Verif.Attest.Tpm2SnpFacts
import Mathlib.Tactic.Linarith
import Mathlib.Tactic.Ring

/-!
# Facts about the model of `Attest` on SGX
-/

namespace Svr.Attest.Sgx

open Svr Svr.Attest Svr.Attest.Sgx Svr.Spec.Sgx
open Svr.Attest.Tpm2Snp (Json member member_iff member_ok)
open Svr.Spec (ascii number Member)

theorem findClaim_iff (claims : List Claim) (name : String) (v : Bytes) : findClaim claims name = some v ↔ Says claims name.toList v := by
  induction claims with
  | nil => simp [findClaim, Says]
  | cons c cs ih =>
    rw [findClaim, List.find?_cons]
    by_cases hc : c.name = Sev.str name
    · have : (c.name == Sev.str name) = true := beq_iff_eq.mpr hc
      simp only [this, Option.map_some, Option.some.injEq]
      constructor
      · rintro rfl; exact ⟨[], cs, by rw [show ascii name.toList = c.name from hc.symm]; rfl, by simp⟩
      · rintro ⟨pre, post, h, hp⟩
        cases pre with
        | nil => rw [(List.cons.inj h).1]
        | cons p pre =>
          obtain ⟨rfl, -⟩ := List.cons.inj h
          exact absurd hc (hp _ (List.mem_cons_self ..))
    · have : (c.name == Sev.str name) = false := beq_eq_false_iff_ne.mpr hc
      simp only [this]
      rw [← findClaim, ih]
      constructor
      · rintro ⟨pre, post, rfl, hp⟩
        refine ⟨c :: pre, post, rfl, ?_⟩
        intro x hx
        rcases List.mem_cons.mp hx with rfl | hx
        · exact hc
        · exact hp x hx
      · rintro ⟨pre, post, h, hp⟩
        cases pre with
        | nil => exact absurd (by rw [(List.cons.inj h).1]; rfl) hc
        | cons p pre =>
          obtain ⟨rfl, rfl⟩ := List.cons.inj h
          exact ⟨pre, post, rfl, fun x hx => hp x (List.mem_cons_of_mem _ hx)⟩

theorem datetime_iff (W : World) (now : Int) (t : Time) : datetime W now = .ok t ↔ Date W now t := by
  rw [datetime, Date]
  cases W.gmtime now with
  | none => simp
  | some u =>
    obtain ⟨y, m, d, h, mi, s⟩ := u
    obtain ⟨y', m', d', h', mi', s'⟩ := t
    simp only [Out.ok.injEq, Option.some.injEq, Time.mk.injEq]
    constructor
    · rintro ⟨rfl, rfl, rfl, rfl, rfl, rfl⟩; exact ⟨y, m, ⟨rfl, rfl, rfl, rfl, rfl, rfl⟩, by omega, by omega⟩
    · rintro ⟨y1, m1, ⟨rfl, rfl, rfl, rfl, rfl, rfl⟩, h1, h2⟩; exact ⟨by omega, by omega, rfl, rfl, rfl, rfl⟩

theorem tcbNumber_iff (W : World) (claims : List Claim) (k : Nat) :
    tcbNumber W claims = .ok (.ok k) ↔
      ∃ v doc n, Says claims "sgx_tcb_info".toList v ∧ W.json v = some doc ∧ TcbNumber doc n ∧ (k : Int) = n % 2^64 := by
  rw [tcbNumber]
  constructor
  · intro h
    cases h1 : findClaim claims "sgx_tcb_info" with
    | none => rw [h1] at h; simp at h
    | some v =>
      rw [h1] at h
      simp only at h
      cases h2 : W.json v with
      | none => rw [h2] at h; simp at h
      | some doc =>
        rw [h2] at h
        simp only at h
        obtain ⟨x, h3, h⟩ := Out.bind_eq_ok.mp h
        rcases x with - | x
        · simp at h
        cases x with
        | obj l =>
          simp only at h
          obtain ⟨y, h4, h⟩ := Out.bind_eq_ok.mp h
          rcases y with - | y
          · simp at h
          cases y with
          | num n =>
            simp only at h
            split at h
            · rename_i hr
              simp only [Out.ok.injEq, Except.ok.injEq] at h
              exact ⟨v, doc, n, (findClaim_iff ..).mp h1, h2, ⟨l, (member_iff doc "tcbInfo" _).mp h3,
                (member_iff (.obj l) "tcbEvaluationDataNumber" _).mp h4, hr⟩, by omega⟩
            · simp at h
          | _ => simp at h
        | _ => simp at h
  · rintro ⟨v, doc, n, h1, h2, ⟨l, h3, h4, hr⟩, hk⟩
    rw [(findClaim_iff claims "sgx_tcb_info" v).mpr h1]
    simp only [h2]
    rw [(member_iff doc "tcbInfo" _).mpr h3, Out.bind_ok]
    simp only
    rw [(member_iff (.obj l) "tcbEvaluationDataNumber" _).mpr h4, Out.bind_ok]
    simp only
    rw [if_pos hr]
    have : (n % 2^64).toNat = k := by omega
    rw [this]

theorem be64_iff (b : Bytes) (k : Nat) (n : Int) (hk : (k : Int) = n % 2^64) : b = be64 k ↔ Be64 b n := by
  have h1 : ∀ k : Nat, k < 2^64 → number 256 ((be64 k).map (·.toNat)) = k := by
    intro k hk
    simp only [number, be64, List.map_cons, List.map_nil, List.foldl_cons, List.foldl_nil, UInt8.toNat_ofNat']
    omega
  constructor
  · rintro rfl
    exact ⟨rfl, by rw [h1 k (by omega)]; exact hk⟩
  · rintro ⟨hl, hb⟩
    obtain ⟨x0, x1, x2, x3, x4, x5, x6, x7, rfl⟩ : ∃ x0 x1 x2 x3 x4 x5 x6 x7, b = [x0, x1, x2, x3, x4, x5, x6, x7] := by
      rcases b with - | ⟨x0, - | ⟨x1, - | ⟨x2, - | ⟨x3, - | ⟨x4, - | ⟨x5, - | ⟨x6, - | ⟨x7, - | ⟨x8, b⟩⟩⟩⟩⟩⟩⟩⟩⟩ <;> simp at hl
      exact ⟨x0, x1, x2, x3, x4, x5, x6, x7, rfl⟩
    rw [← hk] at hb
    simp only [number, List.map_cons, List.map_nil, List.foldl_cons, List.foldl_nil] at hb
    have b0 := x0.toNat_lt
    have b1 := x1.toNat_lt
    have b2 := x2.toNat_lt
    have b3 := x3.toNat_lt
    have b4 := x4.toNat_lt
    have b5 := x5.toNat_lt
    have b6 := x6.toNat_lt
    have b7 := x7.toNat_lt
    have e : ∀ (x : UInt8) (m : Nat), x.toNat = m % 256 → x = UInt8.ofNat m := by
      intro x m h
      apply UInt8.toNat_inj.mp
      simpa using h
    rw [be64, List.cons.injEq, List.cons.injEq, List.cons.injEq, List.cons.injEq, List.cons.injEq, List.cons.injEq, List.cons.injEq, List.cons.injEq]
    refine ⟨e _ _ ?_, e _ _ ?_, e _ _ ?_, e _ _ ?_, e _ _ ?_, e _ _ ?_, e _ _ ?_, e _ _ ?_, rfl⟩ <;> omega

theorem readKey_iff (W : World) (claims : List Claim) (key : Bytes) :
    readKey W claims = .ok (.ok key) ↔
      ∃ v rest, Says claims "custom_claims_buffer".toList v ∧ W.custom v = some (⟨ascii "pk".toList, key⟩ :: rest) ∧ key.length = 32 := by
  rw [readKey]
  constructor
  · intro h
    cases h1 : findClaim claims "custom_claims_buffer" with
    | none => rw [h1] at h; simp at h
    | some v =>
      rw [h1] at h
      simp only at h
      cases h2 : W.custom v with
      | none => rw [h2] at h; simp at h
      | some cs =>
        rw [h2] at h
        cases cs with
        | nil => simp at h
        | cons c cs =>
          simp only at h
          split at h
          · simp at h
          rename_i hn
          split at h
          · simp at h
          rename_i hl
          simp only [Out.ok.injEq, Except.ok.injEq] at h
          refine ⟨v, cs, (findClaim_iff ..).mp h1, ?_, by rw [← h]; exact not_not.mp hl⟩
          rw [h2, ← h, show ascii "pk".toList = c.name from (not_not.mp hn).symm]
  · rintro ⟨v, rest, h1, h2, h3⟩
    rw [(findClaim_iff claims "custom_claims_buffer" v).mpr h1]
    simp only [h2]
    rw [if_neg (fun h => h (show ascii "pk".toList = Sev.str "pk" from rfl)), if_neg (not_not_intro h3)]

theorem number_cons (x : UInt8) (l : Bytes) :
    number 256 ((x :: l).map (·.toNat)) = x.toNat * 256 ^ l.length + number 256 (l.map (·.toNat)) := by
  have h : ∀ (l : List Nat) (a : Nat), l.foldl (fun acc d => acc * 256 + d) a = a * 256 ^ l.length + l.foldl (fun acc d => acc * 256 + d) 0 := by
    intro l
    induction l with
    | nil => simp
    | cons d l ih =>
      intro a
      rw [List.foldl_cons, List.foldl_cons, ih, ih (0 * 256 + d), List.length_cons, Nat.pow_succ]
      ring
  have := h (l.map (·.toNat)) x.toNat
  rw [List.length_map] at this
  simpa [number] using this

theorem number_lt (l : Bytes) : number 256 (l.map (·.toNat)) < 256 ^ l.length := by
  induction l with
  | nil => simp [number]
  | cons x l ih =>
    rw [number_cons, List.length_cons, Nat.pow_succ]
    have := x.toNat_lt
    nlinarith

/-- Byte strings of one length are in the order of their numbers. -/
theorem lt_iff_number (a b : Bytes) (h : a.length = b.length) :
    a < b ↔ number 256 (a.map (·.toNat)) < number 256 (b.map (·.toNat)) := by
  induction a generalizing b with
  | nil =>
    obtain rfl := List.length_eq_zero_iff.mp h.symm
    simp
  | cons x a ih =>
    rcases b with - | ⟨y, b⟩
    · simp at h
    have hl : a.length = b.length := by simpa using h
    rw [List.cons_lt_cons_iff, ih b hl, number_cons, number_cons, hl]
    have ha := number_lt a
    have hb := number_lt b
    rw [hl] at ha
    rw [UInt8.lt_iff_toNat_lt, ← UInt8.toNat_inj]
    generalize number 256 (a.map (·.toNat)) = A at *
    generalize number 256 (b.map (·.toNat)) = B at *
    generalize 256 ^ b.length = P at *
    constructor
    · rintro (h | ⟨h, h'⟩)
      · nlinarith
      · rw [h]; omega
    · intro h'
      rcases Nat.lt_trichotomy x.toNat y.toNat with h | h | h
      · exact .inl h
      · rw [h] at h'; exact .inr ⟨h, by omega⟩
      · nlinarith

end Svr.Attest.Sgx
