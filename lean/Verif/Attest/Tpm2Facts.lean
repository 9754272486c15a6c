import Verif.Attest.Tpm2
import Verif.Attest.Facts
import Verif.Spec.Quote

/-!
# The parser of TPM quotes accepts exactly quotes
-/

namespace Svr.Attest.Tpm2

open Spec (Quote)

/-- What the parser makes of the bytes of a quote. -/
def reportOf (q : Quote) : Report where
  data := q.wire
  keyOff := 10
  nonceOff := 44
  clock := ⟨q.millis.toNat, q.resets.toNat, q.restarts.toNat, q.safe == 1⟩
  firmware := q.firmware.toNat
  pcrOff := 113

theorem wire_length (q : Quote) (h : q.Wf) : q.wire.length = 145 := by
  simp [Quote.wire, be64, be32, h.key, h.nonce, h.digest]

/-- A result of the parser: nothing, or something with a property. -/
def Good (F : Report → Prop) (x : Out (Option Report)) : Prop := x = .ok none ∨ ∃ r, x = .ok (some r) ∧ F r

theorem good_len {F} {c : Prop} [Decidable c] {k} (h : ¬ c → Good F k) : Good F (if c then .ok none else k) := by
  by_cases hc : c
  · rw [if_pos hc]; exact Or.inl rfl
  · rw [if_neg hc]; exact h hc

theorem good_ub {F} {c : Prop} [Decidable c] {x : Nat} {f : Nat → Out (Option Report)} (hc : ¬ c) (h : Good F (f x)) :
    Good F ((if c then Out.ub else .ok x) >>= f) := by
  rw [if_neg hc]; exact h

theorem good_ne {F} {a v : Nat} {k} (h : a = v → Good F k) : Good F (if a ≠ v then .ok none else k) := by
  by_cases hc : a = v
  · rw [if_neg (by simpa using hc)]; exact h hc
  · rw [if_pos hc]; exact Or.inl rfl

theorem of_be {d : Bytes} {a n v : Nat} {y : Bytes} (hl : ¬ d.length - a < n) (hn : y.length = n) (hv : be y = v)
    (h : be ((d.drop a).take n) = v) : (d.drop a).take n = y :=
  be_inj _ _ (by rw [List.length_take, List.length_drop, hn]; omega) (h.trans hv.symm)

theorem parse_good (data : Bytes) : Good (fun r => ∃ q : Quote, q.Wf ∧ data = q.wire ∧ r = reportOf q) (Report.parse data) := by
  simp only [Report.parse, beAt, Out.pure_eq, List.length_drop, List.drop_drop, Nat.reduceAdd]
  refine good_len fun l1 => good_ub l1 (good_ne fun e1 => ?_)
  refine good_len fun l2 => good_ub l2 (good_ne fun e2 => ?_)
  refine good_len fun l3 => good_ub (by omega) (good_ne fun e3 => good_ub (by omega) (good_ne fun e4 => ?_))
  refine good_len fun l5 => good_ub l5 (good_ne fun e5 => ?_)
  refine good_len fun l6 => good_len fun l7 => ?_
  refine good_ub (by omega) (good_ub (by omega) (good_ub (by omega) (good_ub (by omega) ?_)))
  refine good_len fun l8 => good_ub l8 ?_
  refine good_len fun l9 => good_ub l9 (good_ne fun e9 => ?_)
  refine good_len fun l10 => good_ub l10 (good_ne fun e10 => ?_)
  refine good_len fun l11 => good_ub l11 (good_ne fun e11 => ?_)
  refine good_len fun l12 => good_ub l12 (good_ne fun e12 => ?_)
  refine good_len fun l13 => ?_
  refine good_len fun l14 => ?_
  have l14 : data.drop 145 = [] := by simpa using l14
  have len : data.length = 145 := by
    have := List.length_drop (i := 145) (l := data)
    rw [l14, List.length_nil] at this
    omega
  have tl : ∀ a n, a + n ≤ 145 → ((data.drop a).take n).length = n := fun a n h => by
    rw [List.length_take, List.length_drop]; omega
  have c0 := cut data 0 4
  rw [List.drop_zero, show data.take 4 = [0xff, 0x54, 0x43, 0x47] from
    of_be (d := data) (a := 0) (n := 4) (v := 0xff544347) (by simpa using l1) rfl rfl e1] at c0
  have c1 := cut data 4 2
  rw [of_be (n := 2) (y := [0x80, 0x18]) l2 rfl rfl e2] at c1
  have c2 := cut data 6 2
  rw [of_be (n := 2) (y := [0, 34]) (by omega) rfl rfl e3] at c2
  have c3 := cut data 8 2
  rw [of_be (n := 2) (y := [0, 0x0b]) (by omega) rfl rfl e4] at c3
  have c4 := cut data 10 32
  have c5 := cut data 42 2
  rw [of_be (n := 2) (y := [0, 32]) l5 rfl rfl e5] at c5
  have c6 := cut data 44 32
  have c7 := cut data 76 8
  have c8 := cut data 84 4
  have c9 := cut data 88 4
  have c10 := cut data 92 1
  have c11 := cut data 93 8
  have c12 := cut data 101 4
  rw [of_be (n := 4) (y := [0, 0, 0, 1]) l9 rfl rfl e9] at c12
  have c13 := cut data 105 2
  rw [of_be (n := 2) (y := [0, 0x0b]) l10 rfl rfl e10] at c13
  have c14 := cut data 107 4
  rw [of_be (n := 4) (y := [3, 0xff, 0xff, 0xff]) l11 rfl rfl e11] at c14
  have c15 := cut data 111 2
  rw [of_be (n := 2) (y := [0, 32]) l12 rfl rfl e12] at c15
  have c16 := cut data 113 32
  obtain ⟨s, hs⟩ := List.length_eq_one_iff.mp (tl 92 1 (by omega))
  have u64 : ∀ x : Bytes, x.length = 8 → (UInt64.ofNat (be x)).toNat = be x := fun x hx => by
    have := be_lt x
    rw [hx] at this
    rw [UInt64.toNat_ofNat']
    exact Nat.mod_eq_of_lt (by simpa using this)
  have u32 : ∀ x : Bytes, x.length = 4 → (UInt32.ofNat (be x)).toNat = be x := fun x hx => by
    have := be_lt x
    rw [hx] at this
    rw [UInt32.toNat_ofNat']
    exact Nat.mod_eq_of_lt (by simpa using this)
  have d1 : data = Quote.wire ⟨(data.drop 10).take 32, (data.drop 44).take 32, UInt64.ofNat (be ((data.drop 76).take 8)),
      UInt32.ofNat (be ((data.drop 84).take 4)), UInt32.ofNat (be ((data.drop 88).take 4)), s,
      UInt64.ofNat (be ((data.drop 93).take 8)), (data.drop 113).take 32⟩ := by
    rw [Quote.wire]
    simp only [u64 _ (tl 76 8 (by omega)), u64 _ (tl 93 8 (by omega)), u32 _ (tl 84 4 (by omega)), u32 _ (tl 88 4 (by omega))]
    rw [be64_be _ (tl 76 8 (by omega)), be64_be _ (tl 93 8 (by omega)), be32_be _ (tl 84 4 (by omega)),
      be32_be _ (tl 88 4 (by omega)), ← hs]
    conv_lhs => rw [c0, c1, c2, c3, c4, c5, c6, c7, c8, c9, c10, c11, c12, c13, c14, c15, c16, l14, List.append_nil]
    simp only [List.append_assoc]
  refine Or.inr ⟨_, rfl, _, ⟨tl 10 32 (by omega), tl 44 32 (by omega), tl 113 32 (by omega)⟩, d1, ?_⟩
  have hb : (be ((data.drop 92).take 1) == 1) = (s == 1) := by
    rw [hs]
    have : be [s] = s.toNat := by simp [be]
    rw [this]
    by_cases h : s = 1
    · subst h; rfl
    · have : s.toNat ≠ 1 := fun h' => h (UInt8.toNat_inj.mp h')
      simp [h, this]
  simp only [reportOf, ← d1, hb, u64 _ (tl 76 8 (by omega)), u64 _ (tl 93 8 (by omega)), u32 _ (tl 84 4 (by omega)),
    u32 _ (tl 88 4 (by omega)), len, Nat.reduceSub]

theorem at_wire {p x t : Bytes} {a n : Nat} (ha : p.length = a) (hn : x.length = n) : ((p ++ (x ++ t)).drop a).take n = x := by
  rw [List.drop_left' ha, List.take_left' hn]

theorem parse_wire (q : Quote) (h : q.Wf) : Report.parse q.wire = .ok (some (reportOf q)) := by
  have len := wire_length q h
  have hk := h.key
  have hn := h.nonce
  have hd := h.digest
  have l64 : ∀ n, (be64 n).length = 8 := fun _ => rfl
  have l32 : ∀ n, (be32 n).length = 4 := fun _ => rfl
  have w : ∀ (p x t : Bytes) (a n : Nat), q.wire = p ++ (x ++ t) → p.length = a → x.length = n → (q.wire.drop a).take n = x :=
    fun p x t a n e ha hn => by rw [e]; exact at_wire ha hn
  have a0 : q.wire.take 4 = [0xff, 0x54, 0x43, 0x47] := by rw [Quote.wire]; simp only [List.append_assoc]; rfl
  have a1 := w [0xff, 0x54, 0x43, 0x47] [0x80, 0x18] _ 4 2 (by rw [Quote.wire]; simp only [List.append_assoc]; rfl) rfl rfl
  have a2 := w ([0xff, 0x54, 0x43, 0x47] ++ [0x80, 0x18]) [0, 34] _ 6 2 (by rw [Quote.wire]; simp only [List.append_assoc]; rfl) rfl rfl
  have a3 := w ([0xff, 0x54, 0x43, 0x47] ++ [0x80, 0x18] ++ [0, 34]) [0, 0x0b] _ 8 2
    (by rw [Quote.wire]; simp only [List.append_assoc]; rfl) rfl rfl
  have a5 := w ([0xff, 0x54, 0x43, 0x47] ++ [0x80, 0x18] ++ [0, 34] ++ [0, 0x0b] ++ q.key) [0, 32] _ 42 2
    (by rw [Quote.wire]; simp only [List.append_assoc]; rfl) (by simp [hk]) rfl
  have a7 := w ([0xff, 0x54, 0x43, 0x47] ++ [0x80, 0x18] ++ [0, 34] ++ [0, 0x0b] ++ q.key ++ [0, 32] ++ q.nonce) (be64 q.millis.toNat) _ 76 8
    (by rw [Quote.wire]; simp only [List.append_assoc]; rfl) (by simp [hk, hn]) rfl
  have a8 := w ([0xff, 0x54, 0x43, 0x47] ++ [0x80, 0x18] ++ [0, 34] ++ [0, 0x0b] ++ q.key ++ [0, 32] ++ q.nonce ++ be64 q.millis.toNat)
    (be32 q.resets.toNat) _ 84 4
    (by rw [Quote.wire]; simp only [List.append_assoc]; rfl) (by simp [hk, hn, l64]) rfl
  have a9 := w ([0xff, 0x54, 0x43, 0x47] ++ [0x80, 0x18] ++ [0, 34] ++ [0, 0x0b] ++ q.key ++ [0, 32] ++ q.nonce ++ be64 q.millis.toNat
    ++ be32 q.resets.toNat) (be32 q.restarts.toNat) _ 88 4
    (by rw [Quote.wire]; simp only [List.append_assoc]; rfl) (by simp [hk, hn, l64, l32]) rfl
  have a10 := w ([0xff, 0x54, 0x43, 0x47] ++ [0x80, 0x18] ++ [0, 34] ++ [0, 0x0b] ++ q.key ++ [0, 32] ++ q.nonce ++ be64 q.millis.toNat
    ++ be32 q.resets.toNat ++ be32 q.restarts.toNat) [q.safe] _ 92 1
    (by rw [Quote.wire]; simp only [List.append_assoc]; rfl) (by simp [hk, hn, l64, l32]) rfl
  have a11 := w ([0xff, 0x54, 0x43, 0x47] ++ [0x80, 0x18] ++ [0, 34] ++ [0, 0x0b] ++ q.key ++ [0, 32] ++ q.nonce ++ be64 q.millis.toNat
    ++ be32 q.resets.toNat ++ be32 q.restarts.toNat ++ [q.safe]) (be64 q.firmware.toNat) _ 93 8
    (by rw [Quote.wire]; simp only [List.append_assoc]; rfl) (by simp [hk, hn, l64, l32]) rfl
  have a12 := w ([0xff, 0x54, 0x43, 0x47] ++ [0x80, 0x18] ++ [0, 34] ++ [0, 0x0b] ++ q.key ++ [0, 32] ++ q.nonce ++ be64 q.millis.toNat
    ++ be32 q.resets.toNat ++ be32 q.restarts.toNat ++ [q.safe] ++ be64 q.firmware.toNat) [0, 0, 0, 1] _ 101 4
    (by rw [Quote.wire]; simp only [List.append_assoc]; rfl) (by simp [hk, hn, l64, l32]) rfl
  have a13 := w ([0xff, 0x54, 0x43, 0x47] ++ [0x80, 0x18] ++ [0, 34] ++ [0, 0x0b] ++ q.key ++ [0, 32] ++ q.nonce ++ be64 q.millis.toNat
    ++ be32 q.resets.toNat ++ be32 q.restarts.toNat ++ [q.safe] ++ be64 q.firmware.toNat ++ [0, 0, 0, 1]) [0, 0x0b] _ 105 2
    (by rw [Quote.wire]; simp only [List.append_assoc]; rfl) (by simp [hk, hn, l64, l32]) rfl
  have a14 := w ([0xff, 0x54, 0x43, 0x47] ++ [0x80, 0x18] ++ [0, 34] ++ [0, 0x0b] ++ q.key ++ [0, 32] ++ q.nonce ++ be64 q.millis.toNat
    ++ be32 q.resets.toNat ++ be32 q.restarts.toNat ++ [q.safe] ++ be64 q.firmware.toNat ++ [0, 0, 0, 1] ++ [0, 0x0b])
    [3, 0xff, 0xff, 0xff] _ 107 4
    (by rw [Quote.wire]; simp only [List.append_assoc]; rfl) (by simp [hk, hn, l64, l32]) rfl
  have a15 := w ([0xff, 0x54, 0x43, 0x47] ++ [0x80, 0x18] ++ [0, 34] ++ [0, 0x0b] ++ q.key ++ [0, 32] ++ q.nonce ++ be64 q.millis.toNat
    ++ be32 q.resets.toNat ++ be32 q.restarts.toNat ++ [q.safe] ++ be64 q.firmware.toNat ++ [0, 0, 0, 1] ++ [0, 0x0b] ++
    [3, 0xff, 0xff, 0xff]) [0, 32] _ 111 2
    (by rw [Quote.wire]; simp only [List.append_assoc]; rfl) (by simp [hk, hn, l64, l32]) rfl
  have hs : be [q.safe] = q.safe.toNat := by simp [be]
  have hb : (q.safe.toNat == 1) = (q.safe == 1) := by
    by_cases h : q.safe = 1
    · rw [h]; rfl
    · have : q.safe.toNat ≠ 1 := fun h' => h (UInt8.toNat_inj.mp h')
      simp [h, this]
  have m64 : ∀ n : UInt64, n.toNat % 2^64 = n.toNat := fun n => Nat.mod_eq_of_lt n.toNat_lt
  have m32 : ∀ n : UInt32, n.toNat % 2^32 = n.toNat := fun n => Nat.mod_eq_of_lt n.toNat_lt
  have z : q.wire.drop 145 = [] := List.drop_eq_nil_of_le (by omega)
  simp only [Report.parse, beAt, Out.pure_eq, List.length_drop, List.drop_drop, Nat.reduceAdd, len, Nat.reduceSub, Nat.reduceLT,
    if_false, a0, a1, a2, a3, a5, a7, a8, a9, a10, a11, a12, a13, a14, a15, Out.bind_ok, be_be64, be_be32, m64, m32, hs, hb, z,
    show be [0xff, 0x54, 0x43, 0x47] = 0xff544347 from rfl, show be [0x80, 0x18] = 0x8018 from rfl, show be [0, 34] = 34 from rfl,
    show be [0, 0x0b] = 11 from rfl, show be [0, 32] = 32 from rfl, show be [0, 0, 0, 1] = 1 from rfl,
    show be [3, 0xff, 0xff, 0xff] = 0x03ffffff from rfl, ne_eq, not_true_eq_false]
  rfl

/-- The fields that are read from a report are those of the quote. -/
theorem reportOf_reads (q : Quote) (h : q.Wf) :
    (reportOf q).keyHash = .ok q.key ∧ (reportOf q).nonce = .ok q.nonce ∧ (reportOf q).pcrDigest = .ok q.digest := by
  have hk := h.key
  have hn := h.nonce
  have hd := h.digest
  have w : ∀ (p x t : Bytes) (a : Nat), q.wire = p ++ (x ++ t) → p.length = a → x.length = 32 → rd q.wire a 32 = .ok x :=
    fun p x t a e ha hn => by rw [e]; exact rd_append _ _ _ _ _ ha.symm hn.symm
  refine ⟨?_, ?_, ?_⟩
  · exact w ([0xff, 0x54, 0x43, 0x47] ++ [0x80, 0x18] ++ [0, 34] ++ [0, 0x0b]) q.key _ 10
      (by rw [Quote.wire]; simp only [List.append_assoc]; rfl) rfl hk
  · exact w ([0xff, 0x54, 0x43, 0x47] ++ [0x80, 0x18] ++ [0, 34] ++ [0, 0x0b] ++ q.key ++ [0, 32]) q.nonce _ 44
      (by rw [Quote.wire]; simp only [List.append_assoc]; rfl) (by simp [hk]) hn
  · exact w ([0xff, 0x54, 0x43, 0x47] ++ [0x80, 0x18] ++ [0, 34] ++ [0, 0x0b] ++ q.key ++ [0, 32] ++ q.nonce ++ be64 q.millis.toNat
      ++ be32 q.resets.toNat ++ be32 q.restarts.toNat ++ [q.safe] ++ be64 q.firmware.toNat ++ [0, 0, 0, 1] ++ [0, 0x0b] ++
      [3, 0xff, 0xff, 0xff] ++ [0, 32]) q.digest [] 113
      (by rw [Quote.wire]; simp only [List.append_assoc, List.append_nil]) (by simp [hk, hn, be64, be32]) hd

theorem sigParse_good (data : Bytes) : sigParse data = .ok none ∨ ∃ s, s.length = 256 ∧ data = Spec.sigWire s ∧ sigParse data = .ok (some s) := by
  by_cases hl : data.length = 262
  · have r : rd data 6 256 = .ok (data.drop 6) := by
      rw [rd, if_pos (by omega), List.take_of_length_le (by rw [List.length_drop]; omega)]
    simp only [sigParse, beAt, Out.pure_eq, List.length_drop, hl, r, Nat.reduceSub, Nat.reduceLT, if_false, Out.bind_ok, ne_eq,
      not_true_eq_false]
    by_cases h1 : be (data.take 2) = 0x0014
    · by_cases h2 : be ((data.drop 2).take 2) = 0x000b
      · by_cases h3 : be ((data.drop 4).take 2) = 0x0100
        · rw [if_neg (by simpa using h1), if_neg (by simpa using h2), if_neg (by simpa using h3)]
          refine Or.inr ⟨_, by rw [List.length_drop]; omega, ?_, rfl⟩
          have c0 := cut data 0 2
          rw [List.drop_zero, show data.take 2 = [0, 0x14] from
            of_be (d := data) (a := 0) (n := 2) (v := 0x0014) (by omega) rfl rfl h1] at c0
          have c1 := cut data 2 2
          rw [of_be (n := 2) (y := [0, 0x0b]) (by omega) rfl rfl h2] at c1
          have c2 := cut data 4 2
          rw [of_be (n := 2) (y := [1, 0]) (by omega) rfl rfl h3] at c2
          rw [Spec.sigWire]
          conv_lhs => rw [c0, c1, c2]
          simp only [List.append_assoc]
        · rw [if_neg (by simpa using h1), if_neg (by simpa using h2), if_pos h3]; exact Or.inl rfl
      · rw [if_neg (by simpa using h1), if_pos h2]; exact Or.inl rfl
    · rw [if_pos h1]; exact Or.inl rfl
  · left
    simp only [sigParse, ne_eq, hl, not_false_eq_true, if_true]
    rfl

theorem sigParse_wire (s : Bytes) (h : s.length = 256) : sigParse (Spec.sigWire s) = .ok (some s) := by
  have hl : (Spec.sigWire s).length = 262 := by simp [Spec.sigWire, h]
  have r : rd (Spec.sigWire s) 6 256 = .ok s := by
    rw [rd, if_pos (by omega)]
    have : (Spec.sigWire s).drop 6 = s := rfl
    rw [this, List.take_of_length_le (by omega)]
  have a0 : (Spec.sigWire s).take 2 = [0, 0x14] := rfl
  have a1 : ((Spec.sigWire s).drop 2).take 2 = [0, 0x0b] := rfl
  have a2 : ((Spec.sigWire s).drop 4).take 2 = [1, 0] := rfl
  simp only [sigParse, beAt, Out.pure_eq, List.length_drop, hl, r, Nat.reduceSub, Nat.reduceLT, if_false, Out.bind_ok, ne_eq,
    not_true_eq_false, a0, a1, a2, show be [0, 0x14] = 0x0014 from rfl, show be [0, 0x0b] = 0x000b from rfl,
    show be [1, 0] = 0x0100 from rfl]

theorem flatten_chunks : ∀ (n : Nat) (d : Bytes), d.length = 32 * n →
    ((List.range n).map fun i => (d.drop (32 * i)).take 32).flatten = d := by
  intro n
  induction n with
  | zero => intro d h; exact (List.length_eq_zero_iff.mp h).symm
  | succ n ih =>
    intro d h
    rw [List.range_succ_eq_map, List.map_cons, List.flatten_cons, List.map_map]
    have : ((fun i => (d.drop (32 * i)).take 32) ∘ Nat.succ) = fun i => ((d.drop 32).drop (32 * i)).take 32 := by
      funext i
      simp only [Function.comp, List.drop_drop, Nat.succ_eq_add_one]
      rw [show 32 * (i + 1) = 32 + 32 * i by omega]
    rw [this, ih (d.drop 32) (by rw [List.length_drop]; omega)]
    simp

theorem chunks_flatten : ∀ (ps : List Bytes), (∀ p ∈ ps, p.length = 32) →
    ((List.range ps.length).map fun i => (ps.flatten.drop (32 * i)).take 32) = ps := by
  intro ps
  induction ps with
  | nil => intro _; rfl
  | cons p ps ih =>
    intro h
    have hp := h p (List.mem_cons_self ..)
    rw [List.length_cons, List.range_succ_eq_map, List.map_cons, List.map_map, List.flatten_cons]
    congr 1
    · rw [Nat.mul_zero, List.drop_zero, List.take_left' hp]
    · have : ((fun i => ((p ++ ps.flatten).drop (32 * i)).take 32) ∘ Nat.succ) = fun i => (ps.flatten.drop (32 * i)).take 32 := by
        funext i
        simp only [Function.comp, Nat.succ_eq_add_one]
        rw [show 32 * (i + 1) = 32 + 32 * i by omega, ← List.drop_drop, List.drop_left' hp]
      rw [this, ih fun q hq => h q (List.mem_cons_of_mem _ hq)]

/-- The registers are read from exactly the concatenation of 24 hashes. -/
theorem pcrs_iff (data : Bytes) (ps : List Bytes) :
    pcrsFromString data = some ps ↔ ps.length = 24 ∧ (∀ p ∈ ps, p.length = 32) ∧ ps.flatten = data := by
  constructor
  · intro h
    rw [pcrsFromString] at h
    split at h
    · cases h
    · rename_i hl
      have hl : data.length = 24 * 32 := by simpa using hl
      cases h
      refine ⟨by simp, ?_, flatten_chunks 24 data (by omega)⟩
      intro p hp
      obtain ⟨i, hi, rfl⟩ := List.mem_map.mp hp
      rw [List.mem_range] at hi
      rw [List.length_take, List.length_drop]
      omega
  · rintro ⟨h1, h2, rfl⟩
    have hl : ps.flatten.length = 24 * 32 := by
      have : ∀ (ps : List Bytes), (∀ p ∈ ps, p.length = 32) → ps.flatten.length = ps.length * 32 := by
        intro ps
        induction ps with
        | nil => intro _; rfl
        | cons p ps ih =>
          intro h
          rw [List.flatten_cons, List.length_append, h p (List.mem_cons_self ..), ih fun q hq => h q (List.mem_cons_of_mem _ hq),
            List.length_cons]
          omega
      rw [this ps h2, h1]
    rw [pcrsFromString, if_neg (by simpa using hl)]
    have := chunks_flatten ps h2
    rw [h1] at this
    rw [this]

end Svr.Attest.Tpm2
