import Verif.CodecFacts
import Verif.Spec.Base64
import Mathlib.Tactic.IntervalCases
import Mathlib.Tactic.Ring
import Mathlib.Tactic.Positivity
import Mathlib.Data.List.Induction

/-!
# C47, C48: the text codecs

Specification side: `Hex` is the value of a hex digit, given by listing the digits; `std`/`url` alphabets are
given as Lean string literals.
-/

namespace Svr.Props.Codec

open Svr Svr.Codec

open Svr.Spec (ascii)

def lower : Bytes := ascii ['0','1','2','3','4','5','6','7','8','9','a','b','c','d','e','f']
def upper : Bytes := ascii ['0','1','2','3','4','5','6','7','8','9','A','B','C','D','E','F']

/-- `c` is a hex digit of value `n`. -/
def Digit (c : UInt8) (n : Nat) : Prop := lower[n]? = some c ∨ upper[n]? = some c

/-- `text` spells `bs`, two digits for each byte, most significant first. -/
inductive Spells : Bytes → Bytes → Prop
  | nil : Spells [] []
  | cons {c1 c2 : UInt8} {n1 n2 : Nat} {b : UInt8} {text bs : Bytes} :
      Digit c1 n1 → Digit c2 n2 → b.toNat = 16 * n1 + n2 → Spells text bs → Spells (c1 :: c2 :: text) (b :: bs)

theorem nib_table : ∀ n, n < 256 →
    (hexCharToNibble (UInt8.ofNat n) ≠ 0xFF →
      hexCharToNibble (UInt8.ofNat n) < 16 ∧
      (lower[hexCharToNibble (UInt8.ofNat n)]? = some (UInt8.ofNat n) ∨
        upper[hexCharToNibble (UInt8.ofNat n)]? = some (UInt8.ofNat n))) := by
  set_option maxRecDepth 8000 in decide

theorem nib_sound {c : UInt8} (h : hexCharToNibble c ≠ 0xFF) : hexCharToNibble c < 16 ∧ Digit c (hexCharToNibble c) := by
  have := nib_table c.toNat c.toNat_lt
  simp only [UInt8.ofNat_toNat] at this
  exact this h

theorem nib_complete_tab : ∀ n, n < 16 →
    (∀ c ∈ lower[n]?, hexCharToNibble c = n) ∧ (∀ c ∈ upper[n]?, hexCharToNibble c = n) := by
  set_option maxRecDepth 8000 in decide

theorem digit_lt {c : UInt8} {n : Nat} (h : Digit c n) : n < 16 := by
  rcases h with h | h
  · exact (List.getElem?_eq_some_iff.mp h).1
  · exact (List.getElem?_eq_some_iff.mp h).1

theorem nib_complete {c : UInt8} {n : Nat} (h : Digit c n) : hexCharToNibble c = n := by
  have hn := digit_lt h
  rcases h with h | h
  · exact (nib_complete_tab n hn).1 c h
  · exact (nib_complete_tab n hn).2 c h

theorem hexLoop_spells {text bs : Bytes} (h : Spells text bs) (out : Bytes) : hexLoop text out = .ok (out ++ bs) := by
  induction h generalizing out with
  | nil => simp [hexLoop]
  | @cons c1 c2 n1 n2 b text bs h1 h2 hb _ ih =>
    have l1 := digit_lt h1
    have l2 := digit_lt h2
    have : UInt8.ofNat ((n1 <<< 4) ||| n2) = b := by
      apply UInt8.toNat_inj.mp
      rw [or4 _ _ l2]
      have := b.toNat_lt
      simp only [UInt8.toNat_ofNat']
      omega
    simp only [hexLoop, nib_complete h1, nib_complete h2]
    rw [if_neg (by omega), this, ih]
    simp

theorem spells_of_hexLoop : ∀ (text out res : Bytes), text.length % 2 = 0 → hexLoop text out = .ok res →
    ∃ bs, res = out ++ bs ∧ Spells text bs
  | [], out, res, _, h => by simp only [hexLoop] at h; cases h; exact ⟨[], by simp, .nil⟩
  | [_], _, _, h, _ => by simp at h
  | c1 :: c2 :: t, out, res, hl, h => by
    simp only [hexLoop] at h
    by_cases hc : hexCharToNibble c1 = 0xFF ∨ hexCharToNibble c2 = 0xFF
    · rw [if_pos hc] at h; cases h
    rw [if_neg hc] at h
    obtain ⟨bs, h1, h2⟩ := spells_of_hexLoop t _ _ (by simp at hl; omega) h
    obtain ⟨l1, d1⟩ := nib_sound (c := c1) (by omega)
    obtain ⟨l2, d2⟩ := nib_sound (c := c2) (by omega)
    refine ⟨UInt8.ofNat (hexCharToNibble c1 <<< 4 ||| hexCharToNibble c2) :: bs, by rw [h1]; simp only [List.append_assoc, List.singleton_append], .cons d1 d2 ?_ h2⟩
    rw [or4 _ _ l2]
    simp only [UInt8.toNat_ofNat']
    omega

theorem spells_even {text bs : Bytes} (h : Spells text bs) : text.length % 2 = 0 := by
  induction h with
  | nil => rfl
  | cons _ _ _ _ ih => simp; omega

/-- **C47**: decoding succeeds exactly on strings of pairs of hex digits (either case), with the spelled bytes. -/
theorem C47_hex_decode_exact (text bs : Bytes) : hexToBytes text = .ok bs ↔ Spells text bs := by
  constructor
  · intro h
    unfold hexToBytes at h
    by_cases hl : text.length % 2 ≠ 0
    · rw [if_pos hl] at h; cases h
    rw [if_neg hl] at h
    obtain ⟨bs', h1, h2⟩ := spells_of_hexLoop text [] bs (by omega) h
    simp only [List.nil_append] at h1
    rw [h1]; exact h2
  · intro h
    unfold hexToBytes
    rw [if_neg (by have := spells_even h; omega), hexLoop_spells h]
    simp

theorem hexEnc_tab : ∀ n, n < 256 → nibbles[(n &&& 0xf0) >>> 4]? = lower[n / 16]? ∧ nibbles[(n &&& 0x0f) >>> 0]? = lower[n % 16]? := by
  set_option maxRecDepth 16000 in decide

theorem lower_some {n : Nat} (h : n < 16) : ∃ c, lower[n]? = some c := ⟨_, List.getElem?_eq_getElem (show n < lower.length from h)⟩

theorem hexEnc_spells : ∀ bs, ∃ text, bytesToHex bs = .ok text ∧ Spells text bs ∧ ∀ c ∈ text, c ∈ lower
  | [] => ⟨[], rfl, .nil, by simp⟩
  | b :: t => by
    obtain ⟨text, h1, h2, h3⟩ := hexEnc_spells t
    have hb := b.toNat_lt
    obtain ⟨e1, e2⟩ := hexEnc_tab b.toNat hb
    obtain ⟨c1, hc1⟩ := lower_some (n := b.toNat / 16) (by omega)
    obtain ⟨c2, hc2⟩ := lower_some (n := b.toNat % 16) (by omega)
    refine ⟨c1 :: c2 :: text, ?_, .cons (.inl hc1) (.inl hc2) (by omega) h2, ?_⟩
    · simp only [bytesToHex, e1, e2, hc1, hc2, h1]; rfl
    · intro c hc
      rcases List.mem_cons.mp hc with rfl | hc
      · exact List.mem_of_getElem? hc1
      rcases List.mem_cons.mp hc with rfl | hc
      · exact List.mem_of_getElem? hc2
      exact h3 c hc

/-- **C47**: encoding never leaves the table, produces lower-case digits spelling the bytes, and decoding
returns them. -/
theorem C47_hex_roundtrip (bs : Bytes) :
    ∃ text, bytesToHex bs = .ok text ∧ Spells text bs ∧ (∀ c ∈ text, c ∈ lower) ∧ hexToBytes text = .ok bs := by
  obtain ⟨text, h1, h2, h3⟩ := hexEnc_spells bs
  exact ⟨text, h1, h2, h3, (C47_hex_decode_exact _ _).mpr h2⟩

/-- **C47**: peer identifiers: a string converts exactly when it has 32 bytes, and the conversions are inverse. -/
theorem C47_peerid (s : Bytes) :
    (∀ id, peerFromString s = some id ↔ s.length = 32 ∧ id = s) ∧
    (s.length = 32 → peerFromString (peerToString s) = some s) ∧
    (∀ id, peerFromString s = some id → peerToString id = s) := by
  unfold peerFromString peerToString
  have ht : s.length = 32 → s.take 32 = s := fun h => List.take_of_length_le (by omega)
  refine ⟨?_, ?_, ?_⟩
  · intro id
    by_cases h : s.length = 32
    · simp [h, ht h, eq_comm]
    · simp [h]
  · intro h
    simp [ht h, h]
  · intro id
    by_cases h : s.length = 32
    · simp [h, ht h]; rintro rfl; exact ht h
    · simp [h]

/-- Both cases, a decoded text and an odd one. -/
example : bytesToHex [0x0f, 0xa0] = .ok [48, 102, 97, 48] ∧ hexToBytes [48, 70, 97, 48] = .ok [0x0f, 0xa0] ∧
    hexToBytes [48] = .error .size ∧ hexToBytes [48, 71] = .error .char := by decide

/-! ## Base64 -/

abbrev stdAlphabet : Bytes := Spec.base64Std
abbrev urlAlphabet : Bytes := Spec.base64Url

/-- The alphabet of an encoding object. -/
inductive Alphabet : Encoding → Bytes → Prop
  | std : Alphabet b64std stdAlphabet
  | url : Alphabet b64url urlAlphabet

theorem Alphabet.good {E A} : Alphabet E A → Good E
  | .std => good_std
  | .url => good_url

/-- **C48**: for both alphabets, with and without padding, encoding never leaves its tables and decoding the
encoding returns the bytes. -/
theorem C48_base64_roundtrip {E A} (h : Alphabet E A) (p : Bool) (bs : Bytes) :
    ∃ text, b64Encode E p bs = .ok text ∧ b64Decode E text = .ok (.ok bs) := by
  obtain ⟨t, h1, h2⟩ := roundtrip h.good p bs 0 0 0 0 [] (by simp) (by omega) (by simp)
  exact ⟨t, h1, by simpa [pend, b64Decode] using h2⟩

/-- Values of the decoding table on ASCII: exactly the alphabet is accepted. -/
def tabB (E : Encoding) (A : Bytes) : Bool :=
  (List.range 128).all fun n =>
    match E.decode[n]? with
    | none => false
    | some d => if UInt8.ofNat n ∈ A then decide (0 ≤ d) && decide (d < 64) && decide (A[d.toNat]? = some (UInt8.ofNat n)) else decide (d = -1)

set_option maxRecDepth 20000 in
theorem tab_ok {E A} (h : Alphabet E A) : tabB E A = true := by
  cases h <;> decide

theorem tab_val {E A} (h : Alphabet E A) {c : UInt8} (hc : c.toNat < 128) :
    ∃ d, E.decode[c.toNat]? = some d ∧ (c ∈ A → 0 ≤ d ∧ d < 64 ∧ A[d.toNat]? = some c) ∧ (c ∉ A → d = -1) := by
  have h1 := List.all_eq_true.mp (tab_ok h) c.toNat (by simpa using hc)
  cases hd : E.decode[c.toNat]? with
  | none => rw [hd] at h1; simp at h1
  | some d =>
    rw [hd] at h1
    simp only [UInt8.ofNat_toNat] at h1
    refine ⟨d, rfl, ?_, ?_⟩
    · intro hm
      rw [if_pos hm] at h1
      simp only [Bool.and_eq_true, decide_eq_true_eq] at h1
      exact ⟨h1.1.1, h1.1.2, h1.2⟩
    · intro hm
      rw [if_neg hm] at h1
      simpa using h1

theorem alpha_ascii {E A} (h : Alphabet E A) : ∀ c ∈ A, c.toNat < 128 ∧ c ≠ pad := by
  cases h <;> (set_option maxRecDepth 8000 in decide)

/-- A text the decoder accepts: alphabet characters, then only `=`. -/
def Accepted (A : Bytes) (text : Bytes) : Prop :=
  ∃ a n, text = a ++ List.replicate n pad ∧ ∀ c ∈ a, c ∈ A

theorem accepted_cons {A : Bytes} {c : UInt8} {t : Bytes} (hc : c ∈ A) (hp : c ≠ pad) : Accepted A (c :: t) ↔ Accepted A t := by
  constructor
  · rintro ⟨a, n, h1, h2⟩
    cases a with
    | nil =>
      cases n with
      | zero => simp at h1
      | succ n => simp only [List.nil_append, List.replicate_succ, List.cons.injEq] at h1; exact absurd h1.1 hp
    | cons x a =>
      simp only [List.cons_append, List.cons.injEq] at h1
      exact ⟨a, n, h1.2, fun y hy => h2 y (List.mem_cons_of_mem _ hy)⟩
  · rintro ⟨a, n, h1, h2⟩
    exact ⟨c :: a, n, by simp [h1], by simpa using ⟨hc, h2⟩⟩

theorem decodeLoop_ascii {E A} (h : Alphabet E A) : ∀ (text : Bytes) (i acc bits : Nat) (out : Bytes),
    (∀ c ∈ text, c.toNat < 128) → bits < 8 → out.length ≤ i →
    (∃ r, decodeLoop E text i acc bits out = .ok (.ok r) ∧ Accepted A text) ∨
    (∃ e, decodeLoop E text i acc bits out = .ok (.error e) ∧ ¬ Accepted A text) := by
  intro text
  induction text with
  | nil => intro i acc bits out _ _ _; exact .inl ⟨out, rfl, [], 0, by simp, by simp⟩
  | cons c t ih =>
    intro i acc bits out hs hb hi
    simp only [decodeLoop]
    by_cases hp : c = pad
    · rw [if_pos hp]
      by_cases ha : t.all (· = pad) = true
      · rw [if_pos ha]
        refine .inl ⟨out, rfl, [], t.length + 1, ?_, by simp⟩
        simp only [List.nil_append, List.replicate_succ, hp, List.cons.injEq, true_and]
        exact List.eq_replicate_iff.mpr ⟨rfl, fun x hx => by simpa using List.all_eq_true.mp ha x hx⟩
      · rw [if_neg ha]
        refine .inr ⟨.padding, rfl, ?_⟩
        rintro ⟨a, n, h1, h2⟩
        cases a with
        | nil =>
          apply ha
          cases n with
          | zero => simp at h1
          | succ n =>
            simp only [List.nil_append, List.replicate_succ, List.cons.injEq] at h1
            rw [h1.2]; simp
        | cons x a =>
          simp only [List.cons_append, List.cons.injEq] at h1
          have := alpha_ascii h x (h2 x (by simp))
          exact this.2 (h1.1 ▸ hp)
    · rw [if_neg hp]
      have hc := hs c (by simp)
      rw [if_neg (by omega)]
      obtain ⟨d, hd, hin, hout⟩ := tab_val h hc
      simp only [hd]
      by_cases hm : c ∈ A
      · obtain ⟨h0, h64, -⟩ := hin hm
        rw [if_neg (by omega)]
        have hrest : ∀ x ∈ t, x.toNat < 128 := fun x hx => hs x (List.mem_cons_of_mem _ hx)
        rw [accepted_cons hm hp]
        by_cases h8 : (bits + 6) % 65536 ≥ 8
        · rw [if_pos h8]
          simp only [hi, decide_true]
          exact ih (i + 1) _ _ _ hrest (by omega) (by simp; omega)
        · rw [if_neg h8]
          exact ih (i + 1) _ _ _ hrest (by omega) (by omega)
      · rw [if_pos (hout hm)]
        refine .inr ⟨.char, rfl, ?_⟩
        rintro ⟨a, n, h1, h2⟩
        cases a with
        | nil =>
          cases n with
          | zero => simp at h1
          | succ n => simp only [List.nil_append, List.replicate_succ, List.cons.injEq] at h1; exact hp h1.1
        | cons x a =>
          simp only [List.cons_append, List.cons.injEq] at h1
          exact hm (h1.1 ▸ h2 x (by simp))

/-- **C48**, for texts of ASCII characters: decoding never reads outside its table, never fails its `CHECK`,
and succeeds exactly on alphabet characters followed by any number of `=`.

Missing from the full claim ("any input"): texts with bytes of 0x80 or more, for which it is false, see
`C48_non_ascii_ub`. -/
theorem C48_decode_safe_partial {E A} (h : Alphabet E A) (text : Bytes) (hs : ∀ c ∈ text, c.toNat < 128) :
    (∃ r, b64Decode E text = .ok r ∧ ((∃ bs, r = .ok bs) ↔ Accepted A text)) := by
  rcases decodeLoop_ascii h text 0 0 0 [] hs (by omega) (by simp) with ⟨r, h1, h2⟩ | ⟨e, h1, h2⟩
  · exact ⟨_, h1, by simp [h2]⟩
  · exact ⟨_, h1, by simp [h2]⟩

theorem decodeLoop_nonascii {E A} (h : Alphabet E A) (c : UInt8) (hc : 128 ≤ c.toNat) (b : Bytes) :
    ∀ (a : Bytes) (i acc bits : Nat) (out : Bytes), (∀ x ∈ a, x ∈ A) → bits < 8 → out.length ≤ i →
    decodeLoop E (a ++ c :: b) i acc bits out = .ub := by
  intro a
  induction a with
  | nil =>
    intro i acc bits out _ _ _
    have : c ≠ pad := by rintro rfl; revert hc; decide
    simp only [List.nil_append, decodeLoop, if_neg this]
    rw [if_pos hc]
  | cons x t ih =>
    intro i acc bits out hs hb hi
    have hx := hs x (by simp)
    obtain ⟨h1, h2⟩ := alpha_ascii h x hx
    obtain ⟨d, hd, hin, -⟩ := tab_val h h1
    obtain ⟨h0, h64, -⟩ := hin hx
    have hrest : ∀ x ∈ t, x ∈ A := fun x hx => hs x (List.mem_cons_of_mem _ hx)
    simp only [List.cons_append, decodeLoop]
    rw [if_neg h2, if_neg (by omega)]
    simp only [hd]
    rw [if_neg (by omega)]
    by_cases h8 : (bits + 6) % 65536 ≥ 8
    · rw [if_pos h8]
      simp only [hi, decide_true]
      exact ih (i + 1) _ _ _ hrest (by omega) (by simp; omega)
    · rw [if_neg h8]
      exact ih (i + 1) _ _ _ hrest (by omega) (by omega)

/-- **C48**, negation: a byte of 0x80 or more after any alphabet characters is converted from a negative
`char` to `size_t` and read far outside the table: undefined behaviour for every such text. -/
theorem C48_non_ascii_ub {E A} (h : Alphabet E A) (a b : Bytes) (c : UInt8) (ha : ∀ x ∈ a, x ∈ A) (hc : 128 ≤ c.toNat) :
    b64Decode E (a ++ c :: b) = .ub :=
  decodeLoop_nonascii h c hc b a 0 0 0 [] ha (by omega) (by simp)

/-! ### What a text decodes to -/

theorem number_snoc (b : Nat) (ds : List Nat) (d : Nat) : Spec.number b (ds ++ [d]) = Spec.number b ds * b + d := by
  simp [Spec.number, List.foldl_append]

theorem number_cons (b : Nat) (d : Nat) (ds : List Nat) : Spec.number b (d :: ds) = d * b ^ ds.length + Spec.number b ds := by
  induction ds using List.reverseRecOn with
  | nil => simp [Spec.number]
  | append_singleton ds x ih =>
    rw [← List.cons_append, number_snoc, number_snoc, ih, List.length_append, List.length_singleton, Nat.pow_succ]
    ring

theorem number_lt (b : Nat) (ds : List Nat) (h : ∀ d ∈ ds, d < b) : Spec.number b ds < b ^ ds.length := by
  induction ds using List.reverseRecOn with
  | nil => simp [Spec.number]
  | append_singleton ds x ih =>
    have h1 := ih fun d hd => h d (by simp [hd])
    have h2 := h x (by simp)
    rw [number_snoc, List.length_append, List.length_singleton, Nat.pow_succ]
    calc Spec.number b ds * b + x < (Spec.number b ds + 1) * b := by rw [Nat.add_mul]; omega
      _ ≤ b ^ ds.length * b := Nat.mul_le_mul_right _ h1

theorem number_inj (b : Nat) : ∀ (xs ys : List Nat), xs.length = ys.length → (∀ d ∈ xs, d < b) → (∀ d ∈ ys, d < b) →
    Spec.number b xs = Spec.number b ys → xs = ys := by
  intro xs
  induction xs using List.reverseRecOn with
  | nil => intro ys h _ _ _; exact (List.length_eq_zero_iff.mp h.symm).symm
  | append_singleton xs x ih =>
    intro ys h hx hy e
    rcases List.eq_nil_or_concat ys with rfl | ⟨ys, y, rfl⟩
    · simp at h
    · rw [List.concat_eq_append] at h hy e ⊢
      have l1 := hx x (by simp)
      have l2 := hy y (by simp)
      rw [number_snoc, number_snoc] at e
      have e1 : Spec.number b xs = Spec.number b ys := by
        have := congrArg (· / b) e
        simpa [Nat.mul_add_div (by omega : b > 0), Nat.mul_comm _ b, Nat.div_eq_of_lt l1, Nat.div_eq_of_lt l2] using this
      rw [e1] at e
      rw [ih ys (by simpa using h) (fun d hd => hx d (by simp [hd])) (fun d hd => hy d (by simp [hd])) e1, Nat.add_left_cancel e]

theorem alpha_digit {E A} (h : Alphabet E A) {c : UInt8} {d : Nat} (hc : A[d]? = some c) : E.decode[c.toNat]? = some (d : Int) ∧ d < 64 := by
  have key : ∀ d : Nat, d < 64 → ∀ c ∈ A[d]?, E.decode[c.toNat]? = some (d : Int) := by
    cases h <;> (set_option maxRecDepth 16000 in decide)
  have hd : d < 64 := by
    have hl : A.length = 64 := by cases h <;> rfl
    have := (List.getElem?_eq_some_iff.mp hc).1
    omega
  exact ⟨key d hd c hc, hd⟩

theorem or_shift (a d : Nat) (hd : d < 64) : (a <<< 6) ||| d = a * 64 + d := by
  rw [Nat.shiftLeft_eq, Nat.mul_comm, ← Nat.two_pow_add_eq_or_of_lt (i := 6) (by simpa using hd)]

/-- The number that the bytes written and the bits left over are. -/
def held (out : Bytes) (acc bits : Nat) : Nat := Spec.number 256 (out.map (·.toNat)) * 2 ^ bits + acc % 2 ^ bits

theorem decodeLoop_value {E A} (h : Alphabet E A) (n : Nat) : ∀ (chars : Bytes) (ds : List Nat) (i acc bits : Nat) (out : Bytes),
    List.Forall₂ (fun c d => A[d]? = some c) chars ds → bits < 8 → out.length ≤ i →
    ∃ r, decodeLoop E (chars ++ List.replicate n pad) i acc bits out = .ok (.ok r) ∧
      r.length = out.length + (bits + 6 * ds.length) / 8 ∧
      Spec.number 256 (r.map (·.toNat)) = (held out acc bits * 64 ^ ds.length + Spec.number 64 ds) / 2 ^ ((bits + 6 * ds.length) % 8) := by
  intro chars ds i acc bits out f
  induction f generalizing i acc bits out with
  | nil =>
    intro hb hi
    have e : decodeLoop E ([] ++ List.replicate n pad) i acc bits out = .ok (.ok out) := by
      cases n with
      | zero => rfl
      | succ n => simp [List.replicate_succ, decodeLoop]
    refine ⟨out, e, ?_, ?_⟩
    · simp; omega
    · have : Spec.number 64 [] = 0 := rfl
      simp only [List.length_nil, Nat.mul_zero, Nat.add_zero, Nat.pow_zero, Nat.mul_one, this, Nat.mod_eq_of_lt hb, held]
      rw [Nat.mul_comm, Nat.mul_add_div (by positivity), Nat.div_eq_of_lt (Nat.mod_lt _ (by positivity)), Nat.add_zero]
  | @cons c d chars ds hc f ih =>
    intro hb hi
    obtain ⟨hd, h64⟩ := alpha_digit h hc
    have hA : c ∈ A := List.mem_of_getElem? hc
    obtain ⟨h1, h2⟩ := alpha_ascii h c hA
    simp only [List.cons_append, decodeLoop]
    rw [if_neg h2, if_neg (by omega)]
    simp only [hd]
    rw [if_neg (by omega)]
    simp only [Int.toNat_natCast, or_shift _ _ h64]
    by_cases h8 : (bits + 6) % 65536 ≥ 8
    · rw [if_pos h8]
      simp only [hi, decide_true, Out.check_true, Out.bind_ok]
      obtain ⟨r, e1, e2, e3⟩ := ih (i + 1) ((acc * 64 + d) % 65536) ((bits + 6) % 65536 - 8)
        (out ++ [UInt8.ofNat (((acc * 64 + d) % 65536) >>> ((bits + 6) % 65536 - 8))]) (by omega) (by simp; omega)
      refine ⟨r, e1, ?_, ?_⟩
      · rw [e2]; simp only [List.length_append, List.length_cons, List.length_nil]; omega
      · have e4 : held (out ++ [UInt8.ofNat (((acc * 64 + d) % 65536) >>> ((bits + 6) % 65536 - 8))]) ((acc * 64 + d) % 65536)
            ((bits + 6) % 65536 - 8) = held out acc bits * 64 + d := by
          simp only [held, List.map_append, List.map_cons, List.map_nil, number_snoc, UInt8.toNat_ofNat', Nat.shiftRight_eq_div_pow]
          interval_cases bits <;> norm_num <;> omega
        rw [e3, e4, number_cons, List.length_cons, Nat.pow_succ]
        congr 1
        · ring
        · congr 1; omega
    · rw [if_neg h8]
      obtain ⟨r, e1, e2, e3⟩ := ih (i + 1) ((acc * 64 + d) % 65536) ((bits + 6) % 65536) out (by omega) (by omega)
      refine ⟨r, e1, ?_, ?_⟩
      · rw [e2]; simp only [List.length_cons]; omega
      · have e4 : held out ((acc * 64 + d) % 65536) ((bits + 6) % 65536) = held out acc bits * 64 + d := by
          simp only [held]
          have : bits < 2 := by omega
          interval_cases bits <;> norm_num <;> omega
        rw [e3, e4, number_cons, List.length_cons, Nat.pow_succ]
        congr 1
        · ring
        · congr 1; omega

theorem digits_exist {A : Bytes} : ∀ (a : Bytes), (∀ c ∈ a, c ∈ A) → ∃ ds : List Nat, List.Forall₂ (fun c d => A[d]? = some c) a ds := by
  intro a
  induction a with
  | nil => intro _; exact ⟨[], .nil⟩
  | cons c a ih =>
    intro h
    obtain ⟨ds, hds⟩ := ih fun x hx => h x (List.mem_cons_of_mem _ hx)
    obtain ⟨d, hd⟩ := List.mem_iff_getElem?.mp (h c (List.mem_cons_self ..))
    exact ⟨d :: ds, .cons hd hds⟩

theorem decode_base64 {E A} (h : Alphabet E A) {text bytes : Bytes} (s : Spec.Base64 A text bytes) : b64Decode E text = .ok (.ok bytes) := by
  obtain ⟨chars, ds, n, rfl, f, hl, hv⟩ := s
  obtain ⟨r, e1, e2, e3⟩ := decodeLoop_value h n chars ds 0 0 0 [] f (by omega) (by simp)
  rw [b64Decode, show (61 : UInt8) = pad from rfl, e1]
  have hz : held [] 0 0 = 0 := rfl
  simp only [hz, Nat.zero_mul, Nat.zero_add, List.length_nil] at e2 e3
  have : r.map (·.toNat) = bytes.map (·.toNat) :=
    number_inj 256 _ _ (by simp [e2, hl]) (by simp; intro x _; exact x.toNat_lt) (by simp; intro x _; exact x.toNat_lt) (e3.trans hv.symm)
  rw [List.map_injective_iff.mpr (fun a b hab => UInt8.toNat_inj.mp hab) this]

/-- **C48**: a text decodes to some bytes exactly when it stands for them. -/
theorem C48_decode_exact {E A} (h : Alphabet E A) (text bytes : Bytes) :
    b64Decode E text = .ok (.ok bytes) ↔ Spec.Base64 A text bytes := by
  refine ⟨fun e => ?_, decode_base64 h⟩
  have ha : ∀ c ∈ text, c.toNat < 128 := by
    by_contra hc
    have : ∃ c ∈ text, ¬ c.toNat < 128 := by simpa using hc
    have key : ∀ (t : Bytes) (i acc bits : Nat) (out : Bytes), (∃ c ∈ t, ¬ c.toNat < 128) → ∀ r, decodeLoop E t i acc bits out ≠ .ok (.ok r) := by
      intro t
      induction t with
      | nil => rintro _ _ _ _ ⟨c, hc, -⟩; cases hc
      | cons x t ih =>
        rintro i acc bits out ⟨c, hc, hn⟩ r
        rw [decodeLoop]
        by_cases hp : x = pad
        · rw [if_pos hp]
          by_cases hall : t.all (· = pad) = true
          · exfalso
            apply hn
            rcases List.mem_cons.mp hc with rfl | hc
            · rw [hp]; decide
            · have := List.all_eq_true.mp hall c hc
              rw [of_decide_eq_true this]; decide
          · rw [if_neg hall]; simp
        rw [if_neg hp]
        by_cases hx : x.toNat ≥ 128
        · rw [if_pos hx]; simp
        rw [if_neg hx]
        have ht : ∃ c ∈ t, ¬ c.toNat < 128 := by
          rcases List.mem_cons.mp hc with rfl | hc
          · exact absurd hn (by omega)
          · exact ⟨c, hc, hn⟩
        cases E.decode[x.toNat]? with
        | none => simp
        | some d =>
          simp only
          split
          · simp
          split
          · intro hh
            obtain ⟨-, -, hh⟩ := Out.bind_eq_ok.mp hh
            exact ih _ _ _ _ ht r hh
          · exact ih _ _ _ _ ht r
    exact key text 0 0 0 [] this bytes e
  obtain ⟨r, h1, h2⟩ := C48_decode_safe_partial h text ha
  rw [e] at h1
  obtain rfl : r = .ok bytes := by simpa using h1.symm
  obtain ⟨a, n, rfl, hin⟩ := h2.mp ⟨bytes, rfl⟩
  obtain ⟨ds, f⟩ := digits_exist a hin
  obtain ⟨b, e1, e2, e3⟩ := decodeLoop_value h n a ds 0 0 0 [] f (by omega) (by simp)
  rw [b64Decode, e1] at e
  obtain rfl : b = bytes := by simpa using e
  have hz : held [] 0 0 = 0 := rfl
  simp only [hz, Nat.zero_mul, Nat.zero_add, List.length_nil] at e2 e3
  exact ⟨a, ds, n, rfl, f, e2, e3⟩

/-- "AQAB", the usual exponent of an RSA key. -/
example : Spec.Base64 urlAlphabet [65, 81, 65, 66] [1, 0, 1] :=
  ⟨[65, 81, 65, 66], [0, 16, 0, 1], 0, rfl, .cons rfl (.cons rfl (.cons rfl (.cons rfl .nil))), rfl, rfl⟩

set_option maxRecDepth 8000 in
/-- "Zg==" and "_w". -/
example : b64Encode b64std true [102] = .ok [90, 103, 61, 61] ∧ b64Decode b64std [90, 103, 61, 61] = .ok (.ok [102]) ∧
    b64Encode b64url false [255] = .ok [95, 119] ∧ b64Decode b64url [200] = .ub := by
  refine ⟨by rfl, by rfl, by rfl, by rfl⟩

end Svr.Props.Codec
