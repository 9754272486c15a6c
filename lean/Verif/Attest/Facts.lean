import Verif.Attest.Lib
import Mathlib.Data.List.Induction

/-!
# Facts about integers in bytes
-/

namespace Svr.Attest

@[simp] theorem be_nil : be [] = 0 := rfl

theorem be_snoc (x : Bytes) (c : UInt8) : be (x ++ [c]) = be x * 256 + c.toNat := by
  simp [be, List.foldl_append]

theorem be_lt (x : Bytes) : be x < 256 ^ x.length := by
  induction x using List.reverseRecOn with
  | nil => simp
  | append_singleton x c ih =>
    rw [be_snoc, List.length_append, List.length_singleton, Nat.pow_succ]
    have := c.toNat_lt
    omega

theorem be_inj : ∀ (x y : Bytes), x.length = y.length → be x = be y → x = y := by
  intro x
  induction x using List.reverseRecOn with
  | nil => intro y h _; exact (List.length_eq_zero_iff.mp h.symm).symm
  | append_singleton x c ih =>
    intro y h e
    rcases List.eq_nil_or_concat y with rfl | ⟨y, d, rfl⟩
    · simp at h
    · rw [List.concat_eq_append] at h e ⊢
      rw [List.length_append, List.length_append, List.length_singleton, List.length_singleton] at h
      rw [be_snoc, be_snoc] at e
      have hc := c.toNat_lt
      have hd := d.toNat_lt
      have h1 : be x = be y := by omega
      have h2 : c.toNat = d.toNat := by omega
      rw [ih y (by omega) h1, UInt8.toNat_inj.mp h2]

theorem le_inj (x y : Bytes) (h : x.length = y.length) (e : le x = le y) : x = y :=
  List.reverse_inj.mp (be_inj _ _ (by simpa using h) e)

theorem be_be32 (v : Nat) : be (be32 v) = v % 2^32 := by
  simp only [be, be32, List.foldl, UInt8.toNat_ofNat']
  omega

theorem be_be64 (v : Nat) : be (be64 v) = v % 2^64 := by
  simp only [be, be64, List.foldl, UInt8.toNat_ofNat']
  omega

theorem be32_be (x : Bytes) (h : x.length = 4) : be32 (be x) = x := by
  have := be_lt x
  rw [h] at this
  exact be_inj _ _ (by simp [be32, h]) (by rw [be_be32, Nat.mod_eq_of_lt (by simpa using this)])

theorem be64_be (x : Bytes) (h : x.length = 8) : be64 (be x) = x := by
  have := be_lt x
  rw [h] at this
  exact be_inj _ _ (by simp [be64, h]) (by rw [be_be64, Nat.mod_eq_of_lt (by simpa using this)])

theorem cut (d : Bytes) (a n : Nat) : d.drop a = (d.drop a).take n ++ d.drop (a + n) := by
  rw [← List.drop_drop, List.take_append_drop]

theorem rd_append (x y z : Bytes) (off n : Nat) (ho : off = x.length) (hn : n = y.length) : rd (x ++ (y ++ z)) off n = .ok y := by
  subst ho hn
  simp [rd]

/-- The comparison of exactly as many bytes as both sides have. -/
theorem ctEqBytes_iff (a b : Bytes) (n : Nat) (ha : a.length = n) (hb : b.length = n) : (ctEqBytes a b n 0 == 0) = decide (a = b) := by
  have h := ctEqBytes_zero a b n 0 (by omega) (by omega)
  rw [List.take_of_length_le (by omega), List.take_of_length_le (by omega)] at h
  by_cases e : a = b
  · simp [e]
    exact (by simpa [e] using h.mpr ⟨rfl, e⟩)
  · have : ctEqBytes a b n 0 ≠ 0 := fun hh => e (h.mp hh).2
    simp [e, this]

end Svr.Attest
