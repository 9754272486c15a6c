import Mathlib.Data.List.Lex
import Mathlib.Order.Defs.LinearOrder
import Batteries.Data.Nat.Bitwise.Lemmas

/-!
# Bytes, outcomes and the byte helpers of `enclave/util`

Shared vocabulary of the model.
-/

namespace Svr

/-- `uint8_t`s compare as unsigned numbers; used for the lexicographic order of `std::array<uint8_t,N>`
and `std::string` keys (both compare bytes as unsigned: `std::char_traits<char>` does). -/
instance : LinearOrder UInt8 where
  le_refl a := UInt8.le_refl a
  le_trans a b c := UInt8.le_trans
  le_antisymm a b := UInt8.le_antisymm
  le_total a b := UInt8.le_total a b
  lt_iff_le_not_ge a b := by
    simp only [UInt8.lt_iff_toNat_lt, UInt8.le_iff_toNat_le]; omega
  toDecidableLE := inferInstance

/-- A byte string (`std::string`, `std::array<uint8_t,N>`). -/
abbrev Bytes := List UInt8

/-- Outcome of a C++ call: a value, a failed `CHECK` (the enclave aborts), or undefined behaviour. -/
inductive Out (α : Type) where
  | ok (a : α)
  | abort
  | ub
deriving DecidableEq, Repr

namespace Out
variable {α β : Type}

def bind (x : Out α) (f : α → Out β) : Out β :=
  match x with
  | ok a => f a
  | abort => abort
  | ub => ub

instance : Monad Out where
  pure := ok
  bind := bind

/-- `CHECK(b)` (enclave/util/macros.h): continue or abort. -/
def check (b : Bool) : Out Unit := if b then ok () else abort

@[simp] theorem bind_ok (a : α) (f : α → Out β) : (Out.ok a >>= f) = f a := rfl
@[simp] theorem bind_abort (f : α → Out β) : ((Out.abort : Out α) >>= f) = Out.abort := rfl
@[simp] theorem bind_ub (f : α → Out β) : ((Out.ub : Out α) >>= f) = Out.ub := rfl
@[simp] theorem pure_eq (a : α) : (pure a : Out α) = Out.ok a := rfl
@[simp] theorem check_true : check true = ok () := rfl
@[simp] theorem check_false : check false = abort := rfl

theorem bind_eq_ok {x : Out α} {f : α → Out β} {b : β} : (x >>= f) = Out.ok b ↔ ∃ a, x = Out.ok a ∧ f a = Out.ok b := by
  cases x with
  | ok a => simp
  | abort => simp
  | ub => simp

theorem check_eq_ok {b : Bool} {u : Unit} : check b = Out.ok u ↔ b = true := by
  cases b <;> simp

/-- The call returned normally. -/
def isOk : Out α → Bool
  | ok _ => true
  | _ => false

end Out

/-- `util::ConstantTimeEqualsBytes` (enclave/util/constant.h:9-15): or of the xors of the first
`size` byte pairs is zero. Reading past either buffer would be undefined behaviour; every caller goes
through `ConstantTimeEqualsPrefix`, which checks the lengths. -/
def ctEqBytes : Bytes → Bytes → Nat → UInt8 → UInt8
  | a :: as, b :: bs, n+1, acc => ctEqBytes as bs n (acc ||| (a ^^^ b))
  | _, _, _, acc => acc

/-- `util::ConstantTimeEqualsPrefix` (enclave/util/constant.h:18-25). -/
def ctEqPrefix (a b : Bytes) (n : Nat) : Bool :=
  if a.length < n || b.length < n then false
  else ctEqBytes a b n 0 == 0

/-- `util::ConstantTimeEquals` (enclave/util/constant.h:28-32). -/
def ctEq (a b : Bytes) : Bool :=
  if a.length != b.length then false else ctEqPrefix a b a.length

/-- `util::BigEndian32Bytes` (enclave/util/endian.h:47-52); the argument is a `uint32_t`, so it is
taken modulo `2^32` by construction of the bytes. -/
def be32 (v : Nat) : Bytes :=
  [UInt8.ofNat (v / 2^24), UInt8.ofNat (v / 2^16), UInt8.ofNat (v / 2^8), UInt8.ofNat v]

/-- `util::BigEndian64Bytes` (enclave/util/endian.h:36-45). -/
def be64 (v : Nat) : Bytes :=
  [UInt8.ofNat (v / 2^56), UInt8.ofNat (v / 2^48), UInt8.ofNat (v / 2^40), UInt8.ofNat (v / 2^32),
   UInt8.ofNat (v / 2^24), UInt8.ofNat (v / 2^16), UInt8.ofNat (v / 2^8), UInt8.ofNat v]

/-- Zero bytes. -/
def zeros (n : Nat) : Bytes := List.replicate n 0

/-- Copy a string into a zero-initialised array of size `n` (`std::copy` after clearing, or
`util::StringToByteArray`, enclave/util/bytes.h:24-38, when the string is not too long). -/
def padTo (n : Nat) (s : Bytes) : Bytes := s ++ zeros (n - s.length)

/-- `util::StringToByteArray<N>` (enclave/util/bytes.h:24-38): too long is an error, shorter strings
are accepted and zero padded. -/
def strToArr (n : Nat) (s : Bytes) : Option Bytes :=
  if s.length > n then none else some (padTo n s)

/-! ### Facts about these helpers -/

theorem ite_some_eq_none {a : Prop} [Decidable a] {α : Type} {x : Option α} {e : α}
    (h : (if a then some e else x) = none) : ¬ a ∧ x = none := by
  by_cases ha : a
  · rw [if_pos ha] at h; cases h
  · rw [if_neg ha] at h; exact ⟨ha, h⟩

theorem u8_or_eq_zero (a b : UInt8) : (a ||| b) = 0 ↔ a = 0 ∧ b = 0 := by
  constructor
  · intro h
    have h1 : (a ||| b).toNat = 0 := by rw [h]; rfl
    rw [UInt8.toNat_or, Nat.or_eq_zero_iff] at h1
    exact ⟨UInt8.toNat_inj.mp h1.1, UInt8.toNat_inj.mp h1.2⟩
  · rintro ⟨rfl, rfl⟩; rfl

theorem u8_xor_eq_zero (a b : UInt8) : (a ^^^ b) = 0 ↔ a = b := by
  constructor
  · intro h
    have h1 : (a ^^^ b).toNat = 0 := by rw [h]; rfl
    rw [UInt8.toNat_xor] at h1
    exact UInt8.toNat_inj.mp (Nat.xor_eq_zero_iff.mp h1)
  · rintro rfl; simp

theorem ctEqBytes_zero : ∀ (a b : Bytes) (n : Nat) (acc : UInt8), n ≤ a.length → n ≤ b.length →
    (ctEqBytes a b n acc = 0 ↔ acc = 0 ∧ a.take n = b.take n)
  | a, b, 0, acc, _, _ => by
      cases a <;> cases b <;> simp [ctEqBytes]
  | [], _, n+1, _, h, _ => by simp at h
  | _ :: _, [], n+1, _, _, h => by simp at h
  | x :: as, y :: bs, n+1, acc, h1, h2 => by
      have ih := ctEqBytes_zero as bs n (acc ||| (x ^^^ y)) (by simpa using h1) (by simpa using h2)
      rw [ctEqBytes, ih, u8_or_eq_zero, u8_xor_eq_zero]
      simp [and_assoc]

/-- The constant time prefix comparison decides equality of the prefixes. -/
theorem ctEqPrefix_iff (a b : Bytes) (n : Nat) :
    ctEqPrefix a b n = true ↔ n ≤ a.length ∧ n ≤ b.length ∧ a.take n = b.take n := by
  unfold ctEqPrefix
  by_cases h : a.length < n ∨ b.length < n
  · simp only [Bool.or_eq_true, decide_eq_true_eq, h, if_true, Bool.false_eq_true, false_iff]
    omega
  · have h' : ¬ ((decide (a.length < n) || decide (b.length < n)) = true) := by simpa using h
    rw [if_neg h', beq_iff_eq, ctEqBytes_zero a b n 0 (by omega) (by omega)]
    exact ⟨fun h2 => ⟨by omega, by omega, h2.2⟩, fun h2 => ⟨rfl, h2.2.2⟩⟩

/-- The constant time comparison decides equality. -/
@[simp] theorem ctEq_iff (a b : Bytes) : ctEq a b = true ↔ a = b := by
  unfold ctEq
  by_cases h : a.length = b.length
  · simp only [h, bne_self_eq_false, Bool.false_eq_true, if_false]
    rw [ctEqPrefix_iff]
    constructor
    · rintro ⟨_, _, h3⟩
      rw [List.take_length] at h3
      rw [← h3, ← h, List.take_length]
    · rintro rfl; simp
  · have : (a.length != b.length) = true := by simpa using h
    rw [if_pos this]
    constructor
    · intro h'; cases h'
    · rintro rfl; exact absurd rfl h

@[simp] theorem be32_length (v : Nat) : (be32 v).length = 4 := rfl
@[simp] theorem be64_length (v : Nat) : (be64 v).length = 8 := rfl
@[simp] theorem zeros_length (n : Nat) : (zeros n).length = n := by simp [zeros]

theorem padTo_length {n : Nat} {s : Bytes} (h : s.length ≤ n) : (padTo n s).length = n := by
  simp [padTo]; omega

theorem padTo_take {n : Nat} {s : Bytes} : (padTo n s).take s.length = s := by
  simp [padTo]

theorem be32_inj {a b : Nat} (ha : a < 2^32) (hb : b < 2^32) (h : be32 a = be32 b) : a = b := by
  simp only [be32, List.cons.injEq, and_true] at h
  obtain ⟨h1, h2, h3, h4⟩ := h
  have e1 := congrArg UInt8.toNat h1
  have e2 := congrArg UInt8.toNat h2
  have e3 := congrArg UInt8.toNat h3
  have e4 := congrArg UInt8.toNat h4
  simp only [UInt8.toNat_ofNat'] at e1 e2 e3 e4
  omega

theorem be64_inj {a b : Nat} (ha : a < 2^64) (hb : b < 2^64) (h : be64 a = be64 b) : a = b := by
  simp only [be64, List.cons.injEq, and_true] at h
  obtain ⟨h1, h2, h3, h4, h5, h6, h7, h8⟩ := h
  have e1 := congrArg UInt8.toNat h1
  have e2 := congrArg UInt8.toNat h2
  have e3 := congrArg UInt8.toNat h3
  have e4 := congrArg UInt8.toNat h4
  have e5 := congrArg UInt8.toNat h5
  have e6 := congrArg UInt8.toNat h6
  have e7 := congrArg UInt8.toNat h7
  have e8 := congrArg UInt8.toNat h8
  simp only [UInt8.toNat_ofNat'] at e1 e2 e3 e4 e5 e6 e7 e8
  omega

end Svr
