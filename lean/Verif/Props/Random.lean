import Verif.Env.Random

/-!
# C68: filling a buffer with random bytes

`RandomBytes` returns an error, or has replaced every byte it was asked to by one that a call of the source returned for that
purpose, no byte of the source being used twice, and has written nowhere else. This holds of the loops used in production. It is
false of the one for simulated Nitro enclaves.
-/

namespace Svr.Props.Random

open Env

/-- `out` is `buf` with the bytes from `off` on, `size` many, replaced by bytes of what the calls in `src` returned: successive calls
in order, from each a part at its beginning. -/
def Replaced (src : List (Option Bytes)) (buf out : Bytes) (off size : Nat) : Prop :=
  out.length = buf.length ∧ out.take off = buf.take off ∧ out.drop (off + size) = buf.drop (off + size) ∧
    ∃ ps : List Bytes, (out.drop off).take size = ps.flatten ∧
      ∀ (k : Nat) (p : Bytes), ps[k]? = some p → ∃ x, src[k]? = some (some x) ∧ p <+: x

/-- What should come of it: never undefined behaviour or an abort; an error only if a call failed; and it is still
waiting only if none did and together they returned too little. -/
def Good (src : List (Option Bytes)) (buf : Bytes) (off size : Nat) (r : Out Filled) : Prop :=
  ∃ f, r = .ok f ∧ (∀ out, f = some (true, out) → Replaced src buf out off size) ∧
    (∀ out, f = some (false, out) → none ∈ src ∧ out.length = buf.length) ∧
    (f = none → none ∉ src ∧ (src.map fun o => (o.getD []).length).sum < size)

theorem forall2_get {ps : List Bytes} {src : List (Option Bytes)}
    (h : List.Forall₂ (fun p o => ∃ x, o = some x ∧ p <+: x) ps src) (k : Nat) (p : Bytes) (hk : ps[k]? = some p) :
    ∃ x, src[k]? = some (some x) ∧ p <+: x := by
  induction h generalizing k with
  | nil => simp at hk
  | cons h _ ih =>
    cases k with
    | zero =>
      obtain ⟨x, e, hp⟩ := h
      simp only [List.getElem?_cons_zero, Option.some.injEq] at hk
      subst hk
      exact ⟨x, by simp [e], hp⟩
    | succ k => exact ih k hk

theorem good_of_fills {src : List (Option Bytes)} {pre post : Bytes} {r : Out Filled} (h : Fills src pre post r) :
    Good src (pre ++ post) pre.length post.length r := by
  obtain ⟨f, e, h0, h1, h2, h3⟩ := h
  refine ⟨f, e, fun out hf => ?_, fun out hf => ⟨h2 out hf, by simpa using h0 _ _ hf⟩, fun hf => ⟨fun hn => (h3 hf).1 none hn rfl, (h3 hf).2⟩⟩
  obtain ⟨q, rfl, hq, ps, hps, rfl⟩ := h1 out hf
  refine ⟨by simpa using hq, by simp, ?_, ps, ?_, fun k p hk => ?_⟩
  · rw [List.drop_eq_nil_of_le, List.drop_eq_nil_of_le] <;> simp [hq]
  · rw [List.drop_left, ← hq, List.take_length]
  · have hlt : k < ps.length := by
      rcases Nat.lt_or_ge k ps.length with k1 | k1
      · exact k1
      · rw [List.getElem?_eq_none k1] at hk; cases hk
    obtain ⟨x, hx, hp⟩ := forall2_get hps k p hk
    refine ⟨x, ?_, hp⟩
    rwa [List.getElem?_take_of_lt hlt] at hx

/-- **C68.** Filling a buffer with `getrandom`, with the processor's instruction, with the NSM and on SGX. -/
theorem C68_random_bytes (src : List (Option Bytes)) (buf : Bytes) :
    Good src buf 0 buf.length (fillGetrandom src buf 0 buf.length) ∧
      Good src buf 0 buf.length (fillRdrand src buf 0 buf.length) ∧
      Good src buf 0 buf.length (fillNsm src buf 0 buf.length) := by
  have h1 := good_of_fills (fillGetrandom_fills src [] buf)
  have h2 := good_of_fills (fillRdrand_fills src [] buf)
  exact ⟨h1, h2, by rw [fillNsm_eq]; exact h1⟩

/-- **C68.** On SGX there is one call, which fills the buffer if it succeeds; asking for no bytes aborts. -/
theorem C68_random_bytes_sgx (x : Option Bytes) (buf : Bytes) (hx : ∀ y, x = some y → y.length = buf.length) :
    (buf = [] → fillSgx x buf buf.length = .abort) ∧
      (buf ≠ [] → fillSgx x buf buf.length = .ok (some (match x with | none => (false, buf) | some y => (true, y)))) := by
  refine ⟨?_, fun h => ?_⟩
  · rintro rfl
    rfl
  · have hl : 0 < buf.length := List.length_pos_iff.mpr h
    have : Out.check (0 < buf.length) = .ok () := by simp [Out.check, hl]
    simp only [fillSgx, this, Out.bind_ok]
    cases x with
    | none => rfl
    | some y =>
      have e := hx y rfl
      simp only
      rw [← e, List.take_length]
      have := @store_ok [] buf y (by omega)
      simp only [List.nil_append, List.length_nil] at this
      rw [this, Out.bind_ok, e, List.drop_length, List.append_nil]

/-- Three calls, one of which returns more than is left. -/
example : fillGetrandom [some [1, 2], some [], some [3, 4, 5]] [0, 0, 0] 0 3 = .ok (some (true, [1, 2, 3])) ∧
    fillRdrand [some [1, 2, 3, 4, 5, 6, 7, 8], some [9, 10, 11, 12, 13, 14, 15, 16]] (List.replicate 10 0) 0 10 =
      .ok (some (true, [1, 2, 3, 4, 5, 6, 7, 8, 9, 10])) ∧
    fillNsm [some [1], none] [0, 0] 0 2 = .ok (some (false, [1, 0])) := by decide

example : Good [some [1, 2], some [], some [3, 4, 5]] [0, 0, 0] 0 3 (fillGetrandom [some [1, 2], some [], some [3, 4, 5]] [0, 0, 0] 0 3) :=
  (C68_random_bytes _ [0, 0, 0]).1

/-- **C68 is false of simulated Nitro enclaves** (enclave/env/nsm/nsm.cc:96-103). If a call returns fewer bytes than asked for, those of
the next one go to the same place: here the last byte is never written, and `error::OK` is returned. -/
theorem C68_simulated_nsm_false : fillNsmSimulated [some [1], some [2]] [0, 0] 2 = .ok (some (true, [2, 0])) ∧
    ¬ Good [some [1], some [2]] [0, 0] 0 2 (fillNsmSimulated [some [1], some [2]] [0, 0] 2) := by
  have e : fillNsmSimulated [some [1], some [2]] [0, 0] 2 = .ok (some (true, [2, 0])) := by simp [fillNsmSimulated, store]
  refine ⟨e, ?_⟩
  rw [e]
  rintro ⟨f, hf, h1, _⟩
  cases hf
  obtain ⟨-, -, -, ps, h, hp⟩ := h1 _ rfl
  simp only [List.drop_zero, List.take_succ_cons, List.take_nil] at h
  have h0 : (0 : UInt8) ∈ ps.flatten := by rw [← h]; simp
  obtain ⟨p, hp1, hp2⟩ := List.mem_flatten.mp h0
  obtain ⟨k, hk⟩ := List.mem_iff_getElem?.mp hp1
  obtain ⟨x, hx, hpx⟩ := hp k p hk
  have hmem := hpx.subset hp2
  have : some x ∈ [some [1], some [2]] := List.mem_of_getElem? hx
  simp only [List.mem_cons, Option.some.injEq, List.not_mem_nil, or_false] at this
  rcases this with rfl | rfl <;> simp at hmem

/-- **C68 is false of simulated Nitro enclaves.** A failed call is not noticed, as -1 becomes 2^64 - 1: one byte more is asked for than
the buffer has, and the next call writes past its end. -/
theorem C68_simulated_nsm_overflow_false : fillNsmSimulated [none, some [1, 2, 3]] [0, 0] 2 = .ub := by
  simp [fillNsmSimulated, store]

/-- **C68, simulated Nitro enclaves.** What does hold: if the first call returns as many bytes as were asked for, they are in the
buffer. -/
theorem C68_simulated_nsm_partial (x buf : Bytes) (r : List (Option Bytes)) (hx : x.length = buf.length) :
    fillNsmSimulated (some x :: r) buf buf.length = .ok (some (true, x)) := by
  cases buf with
  | nil =>
    have : x = [] := List.eq_nil_of_length_eq_zero hx
    subst this
    simp [fillNsmSimulated]
  | cons c buf =>
    have e := @store_ok [] (c :: buf) x (by omega)
    simp only [List.nil_append, List.length_nil] at e
    have ht : x.take (buf.length + 1) = x := List.take_of_length_le (by simp [hx])
    have hl : x.length = buf.length + 1 := by simpa using hx
    simp only [List.length_cons, fillNsmSimulated, ht, e, Out.bind_ok, hl]
    rw [if_neg (by omega), Nat.sub_self]
    have : (c :: buf).drop (buf.length + 1) = [] := by simp
    rw [this, List.append_nil]
    cases r <;> simp [fillNsmSimulated]

example : fillNsmSimulated [some [7, 8]] [0, 0] 2 = .ok (some (true, [7, 8])) := C68_simulated_nsm_partial [7, 8] [0, 0] [] rfl

end Svr.Props.Random
