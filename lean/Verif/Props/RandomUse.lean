import Verif.Env.RandomUse
import Verif.Props.Random
import Verif.Spec.Base64

/-!
# C102: what is taken for random was given by the source of randomness

Keys, nonces and ids are made of bytes that `RandomBytes` has filled. Callers that check for errors never use what was in memory before. Three do not check.
-/

namespace Svr.Props.RandomUse

open Env

/-- `v` has `n` bytes, all of which calls of the source returned: successive calls in order, from each a part at its beginning. -/
def Drawn (src : List (Option Bytes)) (n : Nat) (v : Bytes) : Prop :=
  v.length = n ∧ ∃ ps : List Bytes, v = ps.flatten ∧ ∀ (k : Nat) (p : Bytes), ps[k]? = some p → ∃ x, src[k]? = some (some x) ∧ p <+: x

/-- What the sources promise: `oe_random` returns as many bytes as were asked for, and some are. -/
def Lawful (k : Kind) (src : List (Option Bytes)) (n : Nat) : Prop :=
  k = .sgx → 0 < n ∧ ∀ x, some x ∈ src → x.length = n

/-- The calls so far did not fail and returned too little. -/
def Short (src : List (Option Bytes)) (n : Nat) : Prop := none ∉ src ∧ (src.map fun o => (o.getD []).length).sum < n

/-- A caller that does it right: it uses only what was drawn, in the form `F`. It stops or gives up only if a call failed or there is no environment yet, and waits
only for more bytes. -/
def Right {α : Type} (k : Kind) (src : List (Option Bytes)) (n : Nat) (F : Bytes → α → Prop) (r : Out (Use α)) : Prop :=
  r ≠ .ub ∧ (r = .abort ∨ r = .ok .refuses → k = .unset ∨ none ∈ src) ∧ (r = .ok .waits → Short src n) ∧ ∀ a, r = .ok (.uses a) → ∃ v, Drawn src n v ∧ F v a

theorem drawn_of_good {src : List (Option Bytes)} {mem out : Bytes} (h : Random.Replaced src mem out 0 mem.length) : Drawn src mem.length out := by
  obtain ⟨h1, -, -, ps, h2, h3⟩ := h
  refine ⟨h1, ps, ?_, h3⟩
  rw [List.drop_zero, ← h1, List.take_length] at h2
  exact h2

/-- Every environment (C68). -/
theorem filled {k : Kind} {src : List (Option Bytes)} {mem : Bytes} (hk : k ≠ .unset) (hl : Lawful k src mem.length) :
    ∃ f, randomBytes k src mem = .ok f ∧ (∀ b, f = some (true, b) → Drawn src mem.length b) ∧
      (∀ b, f = some (false, b) → none ∈ src ∧ b.length = mem.length) ∧ (f = none → Short src mem.length) := by
  have good : ∀ {r}, Random.Good src mem 0 mem.length r → ∃ f, r = .ok f ∧ (∀ b, f = some (true, b) → Drawn src mem.length b) ∧
      (∀ b, f = some (false, b) → none ∈ src ∧ b.length = mem.length) ∧ (f = none → Short src mem.length) := by
    rintro r ⟨f, e, h1, h2, h3⟩
    exact ⟨f, e, fun b hb => drawn_of_good (h1 b hb), fun b hb => h2 b hb, h3⟩
  cases k with
  | unset => exact absurd rfl hk
  | simulated => exact good (Random.C68_random_bytes src mem).1
  | rdrand => exact good (Random.C68_random_bytes src mem).2.1
  | nsm => exact good (Random.C68_random_bytes src mem).2.2
  | sgx =>
    obtain ⟨h0, hl⟩ := hl rfl
    cases src with
    | nil => exact ⟨none, rfl, (fun b hb => by cases hb), (fun b hb => by cases hb), fun _ => ⟨by simp, by simpa using h0⟩⟩
    | cons x src =>
      have := (Random.C68_random_bytes_sgx x mem (fun y hy => hl y (by rw [hy]; exact List.mem_cons_self))).2 (List.length_pos_iff.mp h0)
      refine ⟨_, this, fun b hb => ?_, fun b hb => ?_, fun hb => by cases hb⟩
      · cases x with
        | none => cases hb
        | some y =>
          cases hb
          refine ⟨hl b List.mem_cons_self, [b], by simp, fun k p hp => ?_⟩
          cases k with
          | zero => cases hp; exact ⟨b, rfl, List.prefix_rfl⟩
          | succ k => simp at hp
      · cases x with
        | none => cases hb; exact ⟨List.mem_cons_self, rfl⟩
        | some y => cases hb

theorem shl {n k : Nat} {b : UInt8} (h : n < 2 ^ k) : b.toNat <<< k ||| n = b.toNat * 2 ^ k + n := by
  rw [Nat.shiftLeft_eq, Nat.mul_comm, Nat.two_pow_add_eq_or_of_lt h]

/-- Eight bytes as a number, the most significant first. -/
theorem fromBe64_number {v : Bytes} (h : v.length = 8) : fromBe64 v = .ok (Spec.number 256 (v.map (·.toNat))) := by
  match v, h with
  | [a, b, c, d, e, f, g, i], _ =>
    have ha := a.toNat_lt; have hb := b.toNat_lt; have hc := c.toNat_lt; have hd := d.toNat_lt
    have he := e.toNat_lt; have hf := f.toNat_lt; have hg := g.toNat_lt; have hi := i.toNat_lt
    have e0 : i.toNat <<< 0 = i.toNat := rfl
    simp only [fromBe64, Nat.or_assoc, e0]
    rw [shl (k := 8) (by omega), shl (k := 16) (by omega), shl (k := 24) (by omega), shl (k := 32) (by omega), shl (k := 40) (by omega),
      shl (k := 48) (by omega), shl (k := 56) (by omega)]
    simp only [Spec.number, List.map_cons, List.map_nil, List.foldl_cons, List.foldl_nil, Out.ok.injEq]
    omega

/-- Four bytes as a number, the least significant first. -/
theorem le32_number {v : Bytes} (h : v.length = 4) : le32 v = .ok (Spec.number 256 (v.reverse.map (·.toNat))) := by
  match v, h with
  | [a, b, c, d], _ =>
    have ha := a.toNat_lt; have hb := b.toNat_lt; have hc := c.toNat_lt; have hd := d.toNat_lt
    simp only [le32]
    rw [Nat.or_comm, ← Nat.or_assoc, ← Nat.or_assoc, Nat.or_assoc (d.toNat <<< 24)]
    have e1 : a.toNat ||| b.toNat <<< 8 = b.toNat <<< 8 ||| a.toNat := Nat.or_comm _ _
    have e2 : d.toNat <<< 24 ||| (a.toNat ||| b.toNat <<< 8) ||| c.toNat <<< 16 = d.toNat <<< 24 ||| (c.toNat <<< 16 ||| (b.toNat <<< 8 ||| a.toNat)) := by
      rw [e1, Nat.or_assoc, Nat.or_comm (_ ||| _) (c.toNat <<< 16)]
    rw [e2, shl (k := 8) (by omega), shl (k := 16) (by omega), shl (k := 24) (by omega)]
    simp only [Spec.number, List.reverse_cons, List.reverse_nil, List.nil_append, List.cons_append, List.map_cons, List.map_nil, List.foldl_cons, List.foldl_nil,
      Out.ok.injEq]
    omega

variable {k : Kind} {src : List (Option Bytes)} {mem : Bytes}

/-- **C102**: libsodium, Noise and SipHash are given bytes of the source, all of them, or the enclave stops. -/
theorem C102_checked (hl : Lawful k src mem.length) : Right k src mem.length (fun v a => a = v) (checkedBytes k src mem) := by
  by_cases hk : k = .unset
  · subst hk
    exact ⟨by simp [checkedBytes, randomBytes], fun _ => .inl rfl, by simp [checkedBytes, randomBytes], fun a h => by simp [checkedBytes, randomBytes] at h⟩
  · obtain ⟨f, e, h1, h2, h3⟩ := filled hk hl
    unfold checkedBytes
    rw [e, Out.bind_ok]
    match f with
    | none => exact ⟨by simp, by simp, fun _ => h3 rfl, by simp⟩
    | some (true, b) => exact ⟨by simp [Out.check], by simp [Out.check], by simp [Out.check], fun a h => by simp [Out.check] at h; exact ⟨b, h1 b rfl, h.symm⟩⟩
    | some (false, b) => exact ⟨by simp [Out.check], fun _ => .inr (h2 b rfl).1, by simp [Out.check], fun a h => by simp [Out.check] at h⟩

/-- **C102**: so is a random number of libsodium. -/
theorem C102_checked_number (hl : Lawful k src mem.length) (h4 : mem.length = 4) :
    Right k src 4 (fun v n => n = Spec.number 256 (v.reverse.map (·.toNat))) (sodiumU32 k src mem) := by
  obtain ⟨g1, g2, g4, g3⟩ := C102_checked hl
  unfold sodiumU32
  cases hc : checkedBytes k src mem with
  | ub => exact absurd hc g1
  | abort => exact ⟨by simp, fun _ => g2 (.inl hc), by simp, fun a h => by simp at h⟩
  | ok u =>
    cases u with
    | waits => exact ⟨by simp, by simp, fun _ => h4 ▸ g4 hc, by simp⟩
    | refuses => exact ⟨by simp, fun _ => g2 (.inr hc), by simp, by simp⟩
    | uses b =>
      obtain ⟨v, hv, rfl⟩ := g3 b hc
      rw [h4] at hv
      simp only [Out.bind_ok, le32_number hv.1]
      refine ⟨by simp, by simp, by simp, fun a h => ?_⟩
      simp only [Out.ok.injEq, Use.uses.injEq] at h
      exact ⟨b, hv, h.symm⟩

/-- **C102**: the id of a group is made of eight bytes of the source; else there is no group. -/
theorem C102_group_id (hl : Lawful k src mem.length) (h8 : mem.length = 8) :
    Right k src 8 (fun v n => n = Spec.number 256 (v.map (·.toNat))) (groupId k src mem) := by
  by_cases hk : k = .unset
  · subst hk
    exact ⟨by simp [groupId, randomBytes], fun _ => .inl rfl, by simp [groupId, randomBytes], fun a h => by simp [groupId, randomBytes] at h⟩
  · obtain ⟨f, e, h1, h2, h3⟩ := filled hk hl
    unfold groupId
    rw [e, Out.bind_ok]
    match f with
    | none => exact ⟨by simp, by simp, fun _ => h8 ▸ h3 rfl, by simp⟩
    | some (true, b) =>
      have hb := h1 b rfl
      rw [h8] at hb
      simp only [fromBe64_number hb.1, Out.bind_ok]
      refine ⟨by simp, by simp, by simp, fun a h => ?_⟩
      simp only [Out.ok.injEq, Use.uses.injEq] at h
      exact ⟨b, hb, h.symm⟩
    | some (false, b) => exact ⟨by simp, fun _ => .inr (h2 b rfl).1, by simp, by simp⟩

/-- **C102**: the name of a directory. -/
theorem C102_tmp_name (hl : Lawful k src mem.length) : Right k src mem.length (fun v a => a = v) (tmpName k src mem) := by
  by_cases hk : k = .unset
  · subst hk
    exact ⟨by simp [tmpName, randomBytes], fun _ => .inl rfl, by simp [tmpName, randomBytes], fun a h => by simp [tmpName, randomBytes] at h⟩
  · obtain ⟨f, e, h1, h2, h3⟩ := filled hk hl
    unfold tmpName
    rw [e, Out.bind_ok]
    match f with
    | none => exact ⟨by simp, by simp, fun _ => h3 rfl, by simp⟩
    | some (true, b) => exact ⟨by simp, by simp, by simp, fun a h => by simp at h; exact ⟨b, h1 b rfl, h.symm⟩⟩
    | some (false, b) => exact ⟨by simp, fun _ => .inr (h2 b rfl).1, by simp, by simp⟩

/-- **C102, callers that do not check**: the key of the Merkle tree, the id of a replication and the seed of `rand`. What does hold: they are right as long as no
call of the source fails. -/
theorem C102_unchecked_partial (hn : none ∉ src) : (Lawful k src 16 → mem.length = 16 → Right k src 16 (fun v a => a = v) (merkleKey k src mem)) ∧
    (Lawful k src 8 → mem.length = 8 → Right k src 8 (fun v n => n = Spec.number 256 (v.map (·.toNat))) (replicationId k src mem) ∧
      Right k src 8 (fun v n => n = Spec.number 256 (v.map (·.toNat)) % 2 ^ 32) (weakSeed k src mem)) := by
  by_cases hk : k = .unset
  · subst hk
    exact ⟨fun _ _ => ⟨by simp [merkleKey, randomBytes], fun _ => .inl rfl, by simp [merkleKey, randomBytes], fun a h => by simp [merkleKey, randomBytes] at h⟩,
      fun _ _ => ⟨⟨by simp [replicationId, randomBytes], fun _ => .inl rfl, by simp [replicationId, randomBytes], fun a h => by simp [replicationId, randomBytes] at h⟩,
        ⟨by simp [weakSeed, randomBytes], fun _ => .inl rfl, by simp [weakSeed, randomBytes], fun a h => by simp [weakSeed, randomBytes] at h⟩⟩⟩
  · constructor
    · intro hl hm
      obtain ⟨f, e, h1, h2, h3⟩ := filled hk (hm ▸ hl)
      unfold merkleKey
      rw [e, Out.bind_ok]
      rw [hm] at h1
      match f with
      | none => exact ⟨by simp, by simp, fun _ => hm ▸ h3 rfl, by simp⟩
      | some (true, b) => exact ⟨by simp, by simp, by simp, fun a h => by simp at h; exact ⟨b, h1 b rfl, h.symm⟩⟩
      | some (false, b) => exact absurd (h2 b rfl).1 hn
    · intro hl hm
      obtain ⟨f, e, h1, h2, h3⟩ := filled hk (hm ▸ hl)
      unfold replicationId weakSeed
      rw [e, Out.bind_ok, Out.bind_ok]
      rw [hm] at h1
      match f with
      | none => exact ⟨⟨by simp, by simp, fun _ => hm ▸ h3 rfl, by simp⟩, ⟨by simp, by simp, fun _ => hm ▸ h3 rfl, by simp⟩⟩
      | some (true, b) =>
        have hb := h1 b rfl
        simp only [fromBe64_number hb.1, Out.bind_ok]
        refine ⟨⟨by simp, by simp, by simp, fun a h => ?_⟩, ⟨by simp, by simp, by simp, fun a h => ?_⟩⟩
        · simp only [Out.ok.injEq, Use.uses.injEq] at h
          exact ⟨b, hb, h.symm⟩
        · simp only [Out.ok.injEq, Use.uses.injEq] at h
          exact ⟨b, hb, h.symm⟩
      | some (false, b) => exact absurd (h2 b rfl).1 hn

theorem not_drawn {n : Nat} (hn : 0 < n) {v : Bytes} : ¬ Drawn [none] n v := by
  rintro ⟨h1, ps, h2, h3⟩
  cases ps with
  | nil => subst h2; simp at h1; omega
  | cons p ps =>
    obtain ⟨x, hx, -⟩ := h3 0 p rfl
    simp at hx

/-- **C102 is false of these callers** (enclave/merkle/merkle.cc:24, enclave/core/core.cc:616, enclave/ecalls/ecalls.cc:26). If the first call of the source fails,
as the instruction for random numbers may do, the Merkle tree's key is what was in memory, for example zeros; so are the id of a replication and the seed. -/
theorem C102_unchecked_false : (∀ mem, mem.length = 16 → merkleKey .rdrand [none] mem = .ok (.uses mem)) ∧
    replicationId .rdrand [none] [0, 0, 0, 0, 0, 0, 0, 5] = .ok (.uses 5) ∧ weakSeed .rdrand [none] [0, 0, 0, 0, 0, 0, 0, 5] = .ok (.uses 5) ∧
    ∀ mem : Bytes, mem.length = 16 → ¬ Right .rdrand [none] 16 (fun v a => a = v) (merkleKey .rdrand [none] mem) := by
  have h : ∀ mem : Bytes, mem.length = 16 → merkleKey .rdrand [none] mem = .ok (.uses mem) := by
    intro mem hm
    unfold merkleKey randomBytes
    simp only [hm]
    rfl
  refine ⟨h, by decide, by decide, fun mem hm ⟨_, _, _, hr⟩ => ?_⟩
  obtain ⟨v, hv, -⟩ := hr mem (h mem hm)
  exact not_drawn (by decide) hv

/-- Two words of the processor, of the second of which two bytes are used; on SGX; before `env::Init`; and a call that fails. -/
example : checkedBytes .rdrand [some [1, 2, 3, 4, 5, 6, 7, 8], some [9, 10, 11, 12, 13, 14, 15, 16]] (zeros 10) = .ok (.uses [1, 2, 3, 4, 5, 6, 7, 8, 9, 10]) ∧
    groupId .sgx [some [0, 0, 0, 0, 0, 0, 1, 2]] (zeros 8) = .ok (.uses 258) ∧ sodiumU32 .nsm [some [1, 2], some [0, 0, 9]] (zeros 4) = .ok (.uses 513) ∧
    checkedBytes .unset [some [1]] [0] = .abort ∧ checkedBytes .nsm [some [1], none] [0, 0] = .abort ∧ groupId .nsm [some [1], none] (zeros 8) = .ok .refuses := by
  decide

example : Right .sgx [some [0, 0, 0, 0, 0, 0, 1, 2]] 8 (fun v n => n = Spec.number 256 (v.map (·.toNat))) (groupId .sgx [some [0, 0, 0, 0, 0, 0, 1, 2]] (zeros 8)) :=
  C102_group_id (fun _ => ⟨by decide, fun x hx => by simp at hx; subst hx; rfl⟩) rfl

example : merkleKey .nsm [some [1, 2, 3, 4], some [5, 6, 7, 8, 9, 10, 11, 12, 13, 14, 15, 16]] (zeros 16) =
      .ok (.uses [1, 2, 3, 4, 5, 6, 7, 8, 9, 10, 11, 12, 13, 14, 15, 16]) ∧
    Right .nsm [some [1, 2, 3, 4], some [5, 6, 7, 8, 9, 10, 11, 12, 13, 14, 15, 16]] 16 (fun v a => a = v)
      (merkleKey .nsm [some [1, 2, 3, 4], some [5, 6, 7, 8, 9, 10, 11, 12, 13, 14, 15, 16]] (zeros 16)) :=
  ⟨by decide, (C102_unchecked_partial (by decide)).1 (fun h => by cases h) rfl⟩

end Svr.Props.RandomUse
