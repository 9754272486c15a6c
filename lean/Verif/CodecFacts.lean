import Verif.Codec

/-! # Lemmas about the codecs -/

namespace Svr.Codec

/-- What the two tables of an encoding must satisfy. -/
def Good (E : Encoding) : Prop :=
  ∀ v : Nat, v < 64 → ∃ c, E.encode[v]? = some c ∧ c ≠ pad ∧ c.toNat < 128 ∧ E.decode[c.toNat]? = some (v : Int)

def goodB (E : Encoding) : Bool :=
  (List.range 64).all fun v =>
    match E.encode[v]? with
    | none => false
    | some c => decide (c ≠ pad) && decide (c.toNat < 128) && decide (E.decode[c.toNat]? = some (v : Int))

theorem good_of_goodB {E : Encoding} (h : goodB E = true) : Good E := by
  intro v hv
  have h1 := List.all_eq_true.mp h v (by simpa using hv)
  cases hc : E.encode[v]? with
  | none => rw [hc] at h1; simp at h1
  | some c =>
    rw [hc] at h1
    simp only [Bool.and_eq_true, decide_eq_true_eq] at h1
    exact ⟨c, rfl, h1.1.1, h1.1.2, h1.2⟩

set_option maxRecDepth 8000 in
theorem good_std : Good b64std := good_of_goodB (by decide)
set_option maxRecDepth 8000 in
theorem good_url : Good b64url := good_of_goodB (by decide)

theorem or6 (a v : Nat) (h : v < 64) : (a <<< 6) ||| v = a * 64 + v := by
  rw [← Nat.shiftLeft_add_eq_or_of_lt (show v < 2 ^ 6 by omega), Nat.shiftLeft_eq]

theorem or8 (a v : Nat) (h : v < 256) : (a <<< 8) ||| v = a * 256 + v := by
  rw [← Nat.shiftLeft_add_eq_or_of_lt (show v < 2 ^ 8 by omega), Nat.shiftLeft_eq]

theorem or4 (a v : Nat) (h : v < 16) : (a <<< 4) ||| v = a * 16 + v := by
  rw [← Nat.shiftLeft_add_eq_or_of_lt (show v < 2 ^ 4 by omega), Nat.shiftLeft_eq]

theorem and63 (a : Nat) : a &&& 0x3f = a % 64 := Nat.and_two_pow_sub_one_eq_mod a 6

/-- One alphabet character, when it does not complete a byte. -/
theorem dec_small {E : Encoding} (hE : Good E) {v : Nat} (hv : v < 64) {c : UInt8} (hc : E.encode[v]? = some c)
    (rest : Bytes) (i acc bits : Nat) (out : Bytes) (hb : bits < 2) :
    decodeLoop E (c :: rest) i acc bits out = decodeLoop E rest (i + 1) ((acc * 64 + v) % 65536) (bits + 6) out := by
  obtain ⟨c', h1, h2, h3, h4⟩ := hE v hv
  rw [h1] at hc; cases hc
  have hv' : ¬ ((v : Int) = -1) := by omega
  have e1 : (bits + 6) % 65536 = bits + 6 := by omega
  have e2 : ¬ (bits + 6 ≥ 8) := by omega
  simp only [decodeLoop, if_neg h2, if_neg (show ¬ c.toNat ≥ 128 by omega), h4, if_neg hv', e1, if_neg e2,
    Int.toNat_natCast, or6 _ _ hv]

/-- One alphabet character, when it completes a byte. -/
theorem dec_full {E : Encoding} (hE : Good E) {v : Nat} (hv : v < 64) {c : UInt8} (hc : E.encode[v]? = some c)
    (rest : Bytes) (i acc bits : Nat) (out : Bytes) (hb : 2 ≤ bits) (hb8 : bits < 8) (hi : out.length ≤ i) :
    decodeLoop E (c :: rest) i acc bits out
      = decodeLoop E rest (i + 1) ((acc * 64 + v) % 65536) (bits - 2)
          (out ++ [UInt8.ofNat ((acc * 64 + v) % 65536 / 2 ^ (bits - 2))]) := by
  obtain ⟨c', h1, h2, h3, h4⟩ := hE v hv
  rw [h1] at hc; cases hc
  have hv' : ¬ ((v : Int) = -1) := by omega
  have e1 : (bits + 6) % 65536 = bits + 6 := by omega
  have e2 : bits + 6 ≥ 8 := by omega
  have e3 : bits + 6 - 8 = bits - 2 := by omega
  simp only [decodeLoop, if_neg h2, if_neg (show ¬ c.toNat ≥ 128 by omega), h4, if_neg hv', e1, if_pos e2, e3,
    Int.toNat_natCast, or6 _ _ hv, Nat.shiftRight_eq_div_pow, hi, decide_true]
  rfl

/-- The byte of which the encoder holds the low `bits` bits and the decoder the others. -/
def pend (bits work acc : Nat) : Bytes :=
  if bits = 2 then [UInt8.ofNat (acc % 64 * 4 + work % 4)]
  else if bits = 4 then [UInt8.ofNat (acc % 16 * 16 + work % 16)]
  else []

theorem u8_ofNat_eq {a b : Nat} (h : a % 256 = b % 256) : UInt8.ofNat a = UInt8.ofNat b := by
  apply UInt8.toNat_inj.mp
  simpa using h

theorem all_pad (E : Encoding) (n i acc bits : Nat) (out : Bytes) :
    decodeLoop E (List.replicate n pad) i acc bits out = .ok (.ok out) := by
  cases n with
  | zero => rfl
  | succ n => simp [List.replicate_succ, decodeLoop]

theorem padText (p : Bool) (bits : Nat) :
    ∃ n, (if p then (if bits = 2 then [pad, pad] else [pad]) else []) = List.replicate n pad := by
  cases p with
  | false => exact ⟨0, rfl⟩
  | true =>
    by_cases h : bits = 2
    · exact ⟨2, by simp [h]⟩
    · exact ⟨1, by simp [h]⟩

theorem roundtrip {E : Encoding} (hE : Good E) (p : Bool) :
    ∀ (s : Bytes) (work bits i acc : Nat) (out : Bytes), (bits = 0 ∨ bits = 2 ∨ bits = 4) → work < 65536 →
      out.length ≤ i →
      ∃ text, encodeLoop E p s work bits = .ok text ∧
        decodeLoop E text i acc (if bits = 0 then 0 else 8 - bits) out = .ok (.ok (out ++ pend bits work acc ++ s)) := by
  intro s
  induction s with
  | nil =>
    intro work bits i acc out hb hw hi
    rcases hb with rfl | rfl | rfl
    · exact ⟨[], rfl, by simp [decodeLoop, pend]⟩
    · obtain ⟨n, hn⟩ := padText p 2
      have hv : (work <<< (6 - 2)) % 65536 % 64 < 64 := by omega
      obtain ⟨c, hc, -⟩ := hE _ hv
      refine ⟨c :: List.replicate n pad, ?_, ?_⟩
      · rw [← hn]; simp only [encodeLoop, and63, hc]; rfl
      · rw [show (if 2 = 0 then 0 else 8 - 2) = 6 from rfl, dec_full hE hv hc _ _ _ _ _ (by omega) (by omega) hi,
          all_pad]
        simp only [pend, if_pos, List.append_nil]
        rw [u8_ofNat_eq (b := acc % 64 * 4 + work % 4)]
        rw [Nat.shiftLeft_eq]; omega
    · obtain ⟨n, hn⟩ := padText p 4
      have hv : (work <<< (6 - 4)) % 65536 % 64 < 64 := by omega
      obtain ⟨c, hc, -⟩ := hE _ hv
      refine ⟨c :: List.replicate n pad, ?_, ?_⟩
      · simp only [encodeLoop, and63, hc, hn]; rfl
      · rw [show (if 4 = 0 then 0 else 8 - 4) = 4 from rfl, dec_full hE hv hc _ _ _ _ _ (by omega) (by omega) hi,
          all_pad]
        have : pend 4 work acc = [UInt8.ofNat (acc % 16 * 16 + work % 16)] := rfl
        rw [this, u8_ofNat_eq (b := acc % 16 * 16 + work % 16)]
        · simp
        · rw [Nat.shiftLeft_eq]; omega
  | cons b t ih =>
    intro work bits i acc out hb hw hi
    have hb' := b.toNat_lt
    generalize hwk : (work * 256 + b.toNat) % 65536 = wk
    have hwk1 : ((work <<< 8) ||| b.toNat) % 65536 = wk := by rw [or8 _ _ hb', hwk]
    have hwl : wk < 65536 := by omega
    rcases hb with rfl | rfl | rfl
    · have hv : (wk >>> 2) % 64 < 64 := by omega
      obtain ⟨c, hc, -⟩ := hE _ hv
      have hem : emit E 3 wk (0 + 8) = .ok (2, [c]) := by
        simp [emit, and63, hc]
      obtain ⟨text, h1, h2⟩ := ih wk 2 (i + 1) ((acc * 64 + (wk >>> 2) % 64) % 65536) out (by omega) hwl (by omega)
      refine ⟨c :: text, ?_, ?_⟩
      · simp only [encodeLoop, hwk1, hem, Out.bind_ok, h1]; rfl
      · rw [show (if 0 = 0 then 0 else 8 - 0) = 0 from rfl, dec_small hE hv hc _ _ _ _ _ (by omega)]
        rw [show (if 2 = 0 then 0 else 8 - 2) = 6 from rfl] at h2
        rw [h2]
        have e : pend 2 wk ((acc * 64 + (wk >>> 2) % 64) % 65536) = [b] := by
          simp only [pend, if_pos]
          congr 1
          apply UInt8.toNat_inj.mp
          simp only [UInt8.toNat_ofNat']
          rw [Nat.shiftRight_eq_div_pow]; omega
        rw [e]; simp [pend]
    · have hv : (wk >>> 4) % 64 < 64 := by omega
      obtain ⟨c, hc, -⟩ := hE _ hv
      have hem : emit E 3 wk (2 + 8) = .ok (4, [c]) := by
        simp [emit, and63, hc]
      obtain ⟨text, h1, h2⟩ := ih wk 4 (i + 1) ((acc * 64 + (wk >>> 4) % 64) % 65536)
        (out ++ [UInt8.ofNat ((acc * 64 + (wk >>> 4) % 64) % 65536 / 2 ^ (6 - 2))]) (by omega) hwl (by simp; omega)
      refine ⟨c :: text, ?_, ?_⟩
      · simp only [encodeLoop, hwk1, hem, Out.bind_ok, h1]; rfl
      · rw [show (if 2 = 0 then 0 else 8 - 2) = 6 from rfl, dec_full hE hv hc _ _ _ _ _ (by omega) (by omega) hi]
        rw [show (if 4 = 0 then 0 else 8 - 4) = 6 - 2 from rfl] at h2
        rw [h2]
        have e : pend 4 wk ((acc * 64 + (wk >>> 4) % 64) % 65536) = [b] := by
          have : ∀ a, pend 4 wk a = [UInt8.ofNat (a % 16 * 16 + wk % 16)] := fun _ => rfl
          rw [this]
          congr 1
          apply UInt8.toNat_inj.mp
          simp only [UInt8.toNat_ofNat']
          rw [Nat.shiftRight_eq_div_pow]; omega
        rw [e, u8_ofNat_eq (b := acc % 64 * 4 + work % 4)]
        · simp [pend]
        · rw [Nat.shiftRight_eq_div_pow]; omega
    · have hv : (wk >>> 6) % 64 < 64 := by omega
      have hv2 : wk % 64 < 64 := by omega
      obtain ⟨c, hc, -⟩ := hE _ hv
      obtain ⟨c2, hc2, -⟩ := hE _ hv2
      have hem : emit E 3 wk (4 + 8) = .ok (0, [c, c2]) := by
        simp [emit, and63, hc, hc2]
      have hacc : ∃ a, (acc * 64 + (wk >>> 6) % 64) % 65536 = a := ⟨_, rfl⟩
      obtain ⟨a, ha⟩ := hacc
      obtain ⟨text, h1, h2⟩ := ih wk 0 (i + 1 + 1) ((a * 64 + wk % 64) % 65536)
        (out ++ [UInt8.ofNat (a / 2 ^ (4 - 2))] ++ [UInt8.ofNat ((a * 64 + wk % 64) % 65536 / 2 ^ (4 - 2 - 2))])
        (by omega) hwl (by simp; omega)
      refine ⟨c :: c2 :: text, ?_, ?_⟩
      · simp only [encodeLoop, hwk1, hem, Out.bind_ok, h1]; rfl
      · rw [show (if 4 = 0 then 0 else 8 - 4) = 4 from rfl, dec_full hE hv hc _ _ _ _ _ (by omega) (by omega) hi, ha,
          dec_full hE hv2 hc2 _ _ _ _ _ (by omega) (by omega) (by simp; omega)]
        rw [show (if 0 = 0 then 0 else 8 - 0) = 4 - 2 - 2 from rfl] at h2
        rw [h2, u8_ofNat_eq (a := a / 2 ^ (4 - 2)) (b := acc % 16 * 16 + work % 16)]
        · have : pend 4 work acc = [UInt8.ofNat (acc % 16 * 16 + work % 16)] := rfl
          rw [this]
          have e : UInt8.ofNat ((a * 64 + wk % 64) % 65536 / 2 ^ (4 - 2 - 2)) = b := by
            apply UInt8.toNat_inj.mp
            simp only [UInt8.toNat_ofNat']
            rw [Nat.shiftRight_eq_div_pow] at ha; omega
          rw [e]; simp [pend]
        · rw [Nat.shiftRight_eq_div_pow] at ha; omega

end Svr.Codec
