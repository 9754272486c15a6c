import Verif.Wire.E2EProof
import Verif.RowSize

/-!
# How many bytes messages have on the wire
-/

namespace Svr.Wire

theorem varintGo_le : ∀ (k n : Nat), n ≤ k → (varintGo k n).length ≤ n / 64 + 1
  | 0, n, h => by simp [varintGo]
  | k + 1, n, h => by
    unfold varintGo
    by_cases h1 : n < 128
    · rw [if_pos h1]; simp
    · rw [if_neg h1]
      have := varintGo_le k (n / 128) (by omega)
      simp only [List.length_cons]
      omega

theorem varint_le (n : Nat) : (varint n).length ≤ n / 64 + 1 := varintGo_le n n (Nat.le_refl n)

theorem varintGo_pow : ∀ (j k n : Nat), n ≤ k → n < 128 ^ (j + 1) → (varintGo k n).length ≤ j + 1
  | j, 0, n, _, _ => by simp [varintGo]
  | 0, k + 1, n, h, h2 => by unfold varintGo; rw [if_pos (by simpa using h2)]; simp
  | j + 1, k + 1, n, h, h2 => by
    unfold varintGo
    by_cases h1 : n < 128
    · rw [if_pos h1]; simp
    · rw [if_neg h1]
      have : n / 128 < 128 ^ (j + 1) := by
        rw [Nat.div_lt_iff_lt_mul (by omega), ← Nat.pow_succ]
        exact h2
      have := varintGo_pow j k (n / 128) (by omega) this
      simp only [List.length_cons]
      omega

/-- A number of 64 bits has at most ten bytes. -/
theorem varint_le10 {n : Nat} (h : n < 2 ^ 64) : (varint n).length ≤ 10 :=
  varintGo_pow 9 n n (Nat.le_refl n) (Nat.lt_of_lt_of_le h (by decide))

/-- A length that is allowed has at most five. -/
theorem varint_le5 {n : Nat} (h : n < 2 ^ 31) : (varint n).length ≤ 5 :=
  varintGo_pow 4 n n (Nat.le_refl n) (Nat.lt_of_lt_of_le h (by decide))

theorem varint_one {n : Nat} (h : n < 128) : (varint n).length ≤ 1 :=
  varintGo_pow 0 n n (Nat.le_refl n) (by simpa using h)

theorem field_len_le {f : Nat} {b : Bytes} (hf : f < 15) : (field (f, .len b)).length ≤ b.length + 2 + b.length / 64 := by
  have h1 := varint_one (n := 8 * f + 2) (by omega)
  have h2 := varint_le b.length
  simp only [field, List.length_append]
  omega

theorem field_len_le6 {f : Nat} {b : Bytes} (hf : f < 15) (hb : b.length < 2 ^ 31) : (field (f, .len b)).length ≤ b.length + 6 := by
  have h1 := varint_one (n := 8 * f + 2) (by omega)
  have h2 := varint_le5 hb
  simp only [field, List.length_append]
  omega

theorem fNum_le {f n : Nat} (hf : f < 15) (hn : n < 2 ^ 64) : (enc (fNum f n)).length ≤ 11 := by
  have h1 := varint_one (n := 8 * f) (by omega)
  have h2 := varint_le10 hn
  unfold fNum
  split
  · simp [enc]
  · simp only [enc, List.flatMap_cons, List.flatMap_nil, field, List.append_nil, List.length_append]
    omega

theorem fBool_le {f : Nat} {b : Bool} (hf : f < 15) : (enc (fBool f b)).length ≤ 2 := by
  have h1 := varint_one (n := 8 * f) (by omega)
  have h2 := varint_one (n := 1) (by omega)
  unfold fBool
  split
  · simp only [enc, List.flatMap_cons, List.flatMap_nil, field, List.append_nil, List.length_append]
    omega
  · simp [enc]

theorem fBytes_small {f : Nat} {b : Bytes} (hf : f < 15) (hb : b.length < 64) : (enc (fBytes f b)).length ≤ b.length + 2 := by
  unfold fBytes
  split
  · simp [enc]
  · have := field_len_le (f := f) (b := b) hf
    simp only [enc, List.flatMap_cons, List.flatMap_nil, List.append_nil]
    omega

theorem fU32_tries {f : Nat} {n : UInt8} (hf : f < 15) : (enc (fU32 f n.toUInt32)).length ≤ 3 := by
  have h1 := varint_one (n := 8 * f) (by omega)
  have h3 := n.toNat_lt
  have h2 := varintGo_pow 1 n.toNat n.toNat (Nat.le_refl _) (by omega)
  unfold fU32 fNum
  split
  · simp [enc]
  · simp only [enc, List.flatMap_cons, List.flatMap_nil, field, List.append_nil, List.length_append, UInt8.toNat_toUInt32, varint] at h1 ⊢
    omega

theorem fF64_le {f : Nat} {n : UInt64} (hf : f < 15) : (enc (fF64 f n)).length ≤ 9 := by
  have h1 := varint_one (n := 8 * f + 1) (by omega)
  unfold fF64
  split
  · simp [enc]
  · have : (le 8 n.toNat).length = 8 := by simp [le]
    simp only [enc, List.flatMap_cons, List.flatMap_nil, field, List.append_nil, List.length_append]
    omega

end Svr.Wire
