import Verif.Wire.Proof
import Verif.Wire.Client

/-! # Facts about the wire format of requests and rows -/

namespace Svr.Wire

/-- A value that can be read back if it is not too long. -/
def Raw.Sound : Raw → Prop
  | .num n => n < 2 ^ 64
  | .fix64 b => b.length = 8
  | .len _ => True
  | .fix32 b => b.length = 4

def Sound (x : Nat × Raw) : Prop := 0 < x.1 ∧ x.1 < 2 ^ 29 ∧ x.2.Sound

theorem fits_all {fs : Fields} (h : ∀ x ∈ fs, Sound x) (hl : (enc fs).length ≤ maxLen) : ∀ x ∈ fs, Fits true x := by
  intro x hx
  obtain ⟨f, w⟩ := x
  obtain ⟨h1, h2, h3⟩ := h _ hx
  refine ⟨h1, fun _ => h2, ?_⟩
  cases w with
  | num => exact fun _ => h3
  | fix64 => exact h3
  | len => exact fun _ => Nat.le_trans (len_le_enc hx) hl
  | fix32 => exact h3

theorem split_sound {fs : Fields} (h : ∀ x ∈ fs, Sound x) (hl : (enc fs).length ≤ maxLen) : split true (enc fs) = some fs := split_enc (fits_all h hl)

/-! ## What is parsed is sound -/

theorem readRaw_sound {wt : Nat} {bs r : Bytes} {w : Raw} (h : readRaw true wt bs = some (w, r)) : w.Sound := by
  unfold readRaw at h
  by_cases h0 : wt = 0
  · rw [if_pos h0] at h
    cases hv : readVarint bs with
    | none => simp [hv] at h
    | some x =>
      obtain ⟨v, c, r'⟩ := x
      simp only [hv, if_true] at h
      split at h
      · simp only [Option.some.injEq, Prod.mk.injEq] at h
        rw [← h.1]
        exact Nat.mod_lt _ (by decide)
      · cases h
  · rw [if_neg h0] at h
    split at h
    · split at h
      · cases h; simp only [Raw.Sound, List.length_take]; omega
      · cases h
    · split at h
      · split at h
        · cases h
        · split at h
          · cases h
          · split at h
            · cases h; trivial
            · cases h
      · split at h
        · split at h
          · cases h; simp only [Raw.Sound, List.length_take]; omega
          · cases h
        · cases h

theorem splitGo_parsed : ∀ {k : Nat} {bs : Bytes} {fs : Fields}, splitGo true k bs = some fs → ∀ x ∈ fs, Sound x
  | 0, _, _, h => by simp [splitGo] at h
  | k + 1, bs, fs, h => by
    intro x hm
    rw [splitGo] at h
    split at h
    · cases h; cases hm
    · split at h
      · cases h
      · rename_i v c r hv
        split at h
        · cases h
        · rename_i hno
          split at h
          · cases h
          · rename_i w r' hr
            split at h
            · cases h
            · rename_i gs hg
              cases h
              rcases List.mem_cons.1 hm with rfl | hm
              · refine ⟨?_, ?_, readRaw_sound hr⟩
                · simp only; omega
                · simp only [not_or, not_and, true_implies] at hno
                  simp only
                  omega
              · exact splitGo_parsed hg x hm

theorem parsed {bs : Bytes} {fs : Fields} (h : split true bs = some fs) : ∀ x ∈ fs, Sound x := splitGo_parsed h

/-! ## Fields -/

theorem sound_append {a b : Fields} (ha : ∀ x ∈ a, Sound x) (hb : ∀ x ∈ b, Sound x) : ∀ x ∈ a ++ b, Sound x := by
  intro x hx
  rcases List.mem_append.1 hx with hx | hx
  · exact ha x hx
  · exact hb x hx

theorem sound_nil : ∀ x ∈ ([] : Fields), Sound x := fun _ h => by cases h

theorem sound_num {f n : Nat} (h0 : 0 < f := by decide) (h1 : f < 2 ^ 29 := by decide) (hn : n < 2 ^ 64) : ∀ x ∈ fNum f n, Sound x := by
  intro x hx
  unfold fNum at hx
  split at hx
  · cases hx
  · obtain rfl := List.mem_singleton.1 hx; exact ⟨h0, h1, hn⟩

theorem sound_u32 {f : Nat} {n : UInt32} (h0 : 0 < f := by decide) (h1 : f < 2 ^ 29 := by decide) : ∀ x ∈ fU32 f n, Sound x :=
  sound_num h0 h1 (Nat.lt_trans n.toNat_lt (by decide))

theorem sound_bytes {f : Nat} {b : Bytes} (h0 : 0 < f := by decide) (h1 : f < 2 ^ 29 := by decide) : ∀ x ∈ fBytes f b, Sound x := by
  intro x hx
  unfold fBytes at hx
  split at hx
  · cases hx
  · obtain rfl := List.mem_singleton.1 hx; exact ⟨h0, h1, trivial⟩

theorem sound_f32 {f : Nat} {n : UInt32} (h0 : 0 < f := by decide) (h1 : f < 2 ^ 29 := by decide) : ∀ x ∈ fF32 f n, Sound x := by
  intro x hx
  unfold fF32 at hx
  split at hx
  · cases hx
  · obtain rfl := List.mem_singleton.1 hx; exact ⟨h0, h1, by simp [Raw.Sound, le]⟩

theorem sound_f64 {f : Nat} {n : UInt64} (h0 : 0 < f := by decide) (h1 : f < 2 ^ 29 := by decide) : ∀ x ∈ fF64 f n, Sound x := by
  intro x hx
  unfold fF64 at hx
  split at hx
  · cases hx
  · obtain rfl := List.mem_singleton.1 hx; exact ⟨h0, h1, by simp [Raw.Sound, le]⟩

theorem sound_len {f : Nat} {b : Bytes} {u : Fields} (h0 : 0 < f) (h1 : f < 2 ^ 29) (hu : ∀ x ∈ u, Sound x) : ∀ x ∈ (f, Raw.len b) :: u, Sound x := by
  intro x hx
  rcases List.mem_cons.1 hx with rfl | hx
  · exact ⟨h0, h1, trivial⟩
  · exact hu x hx

/-! ## Getters -/

section getters
variable (f g : Nat) (d : Nat) (e : Bytes) (a b : Fields)

theorem getNum_append : getNum f d (a ++ b) = getNum f (getNum f d a) b := by simp [getNum]
theorem getLen_append : getLen f e (a ++ b) = getLen f (getLen f e a) b := by simp [getLen]
theorem getFix32_append : getFix32 f e (a ++ b) = getFix32 f (getFix32 f e a) b := by simp [getFix32]
theorem getFix64_append : getFix64 f e (a ++ b) = getFix64 f (getFix64 f e a) b := by simp [getFix64]

theorem getNum_fNum (n : Nat) : getNum f d (fNum g n) = if n = 0 then d else if g = f then n else d := by
  unfold fNum; split <;> simp [getNum]
theorem getNum_fBytes (c : Bytes) : getNum f d (fBytes g c) = d := by unfold fBytes; split <;> simp [getNum]
theorem getNum_fF32 (n : UInt32) : getNum f d (fF32 g n) = d := by unfold fF32; split <;> simp [getNum]
theorem getNum_fF64 (n : UInt64) : getNum f d (fF64 g n) = d := by unfold fF64; split <;> simp [getNum]
theorem getLen_fNum (n : Nat) : getLen f e (fNum g n) = e := by unfold fNum; split <;> simp [getLen]
theorem getLen_fBytes (c : Bytes) : getLen f e (fBytes g c) = if c = [] then e else if g = f then c else e := by
  unfold fBytes; split <;> simp [getLen]
theorem getLen_fF32 (n : UInt32) : getLen f e (fF32 g n) = e := by unfold fF32; split <;> simp [getLen]
theorem getLen_fF64 (n : UInt64) : getLen f e (fF64 g n) = e := by unfold fF64; split <;> simp [getLen]
theorem getFix32_fNum (n : Nat) : getFix32 f e (fNum g n) = e := by unfold fNum; split <;> simp [getFix32]
theorem getFix32_fBytes (c : Bytes) : getFix32 f e (fBytes g c) = e := by unfold fBytes; split <;> simp [getFix32]
theorem getFix32_fF32 (n : UInt32) : getFix32 f e (fF32 g n) = if n = 0 then e else if g = f then le 4 n.toNat else e := by
  unfold fF32; split <;> simp [getFix32]
theorem getFix64_fNum (n : Nat) : getFix64 f e (fNum g n) = e := by unfold fNum; split <;> simp [getFix64]
theorem getFix64_fBytes (c : Bytes) : getFix64 f e (fBytes g c) = e := by unfold fBytes; split <;> simp [getFix64]
theorem getFix64_fF64 (n : UInt64) : getFix64 f e (fF64 g n) = if n = 0 then e else if g = f then le 8 n.toNat else e := by
  unfold fF64; split <;> simp [getFix64]

theorem getNum_skip {u : Fields} (h : ∀ n, (f, Raw.num n) ∉ u) : getNum f d u = d := by
  induction u generalizing d with
  | nil => rfl
  | cons x u ih =>
    obtain ⟨g, w⟩ := x
    have ih := ih d fun n hn => h n (List.mem_cons_of_mem _ hn)
    unfold getNum at *
    rw [List.foldl_cons]
    cases w with
    | num n =>
      by_cases hg : g = f
      · exact absurd (by rw [hg]; exact List.mem_cons_self) (h n)
      · simpa [hg] using ih
    | _ => simpa using ih

theorem getLen_skip {u : Fields} (h : ∀ n, (f, Raw.len n) ∉ u) : getLen f e u = e := by
  induction u generalizing e with
  | nil => rfl
  | cons x u ih =>
    obtain ⟨g, w⟩ := x
    have ih := ih e fun n hn => h n (List.mem_cons_of_mem _ hn)
    unfold getLen at *
    rw [List.foldl_cons]
    cases w with
    | len n =>
      by_cases hg : g = f
      · exact absurd (by rw [hg]; exact List.mem_cons_self) (h n)
      · simpa [hg] using ih
    | _ => simpa using ih

theorem getFix32_skip {u : Fields} (h : ∀ n, (f, Raw.fix32 n) ∉ u) : getFix32 f e u = e := by
  induction u generalizing e with
  | nil => rfl
  | cons x u ih =>
    obtain ⟨g, w⟩ := x
    have ih := ih e fun n hn => h n (List.mem_cons_of_mem _ hn)
    unfold getFix32 at *
    rw [List.foldl_cons]
    cases w with
    | fix32 n =>
      by_cases hg : g = f
      · exact absurd (by rw [hg]; exact List.mem_cons_self) (h n)
      · simpa [hg] using ih
    | _ => simpa using ih

end getters

theorem unle_le4 (n : UInt32) : UInt32.ofNat (unle (le 4 n.toNat)) = n := by
  have h := n.toNat_lt
  have : unle (le 4 n.toNat) = n.toNat := by
    simp [le, unle, List.range, List.range.loop]
    omega
  rw [this]
  simp

theorem unle_le8 (n : UInt64) : UInt64.ofNat (unle (le 8 n.toNat)) = n := by
  have h := n.toNat_lt
  have : unle (le 8 n.toNat) = n.toNat := by
    simp [le, unle, List.range, List.range.loop]
    omega
  rw [this]
  simp

theorem ite_nil (c : Bytes) : (if c = [] then [] else c) = c := by split <;> simp_all
theorem ite_zero (c : Nat) : (if c = 0 then 0 else c) = c := by split <;> simp_all
theorem ite_f32 (n : UInt32) : UInt32.ofNat (unle (if n = 0 then [] else le 4 n.toNat)) = n := by
  split
  · rename_i h; rw [h]; rfl
  · exact unle_le4 n
theorem ite_f64 (n : UInt64) : UInt64.ofNat (unle (if n = 0 then [] else le 8 n.toNat)) = n := by
  split
  · rename_i h; rw [h]; rfl
  · exact unle_le8 n

/-! ## Requests -/

/-- What makes a form sensible. -/
structure Form.Law {R : Type} (F : Form R) : Prop where
  pos : ∀ k ∈ F.known, 0 < k ∧ k < 2 ^ 29
  unset : F.out F.unset = none
  none : ∀ r, F.out r = none → r = F.unset
  mem : ∀ r k gs, F.out r = some (k, gs) → k ∈ F.known
  sound : ∀ r k gs, F.out r = some (k, gs) → ∀ x ∈ gs, Sound x
  back : ∀ r k gs u, F.out r = some (k, gs) → (∀ x ∈ u, F.inner k x = false) → F.val k (gs ++ u) = r
  case : ∀ k gs, k ∈ F.known → ∃ gs', F.out (F.val k gs) = some (k, gs')

macro "getters" : tactic => `(tactic| simp only [getU32, getF32, getF64, fU32, getNum_append, getLen_append, getFix32_append, getFix64_append,
  getNum_fNum, getNum_fBytes, getNum_fF32, getNum_fF64, getLen_fNum, getLen_fBytes, getLen_fF32, getLen_fF64, getFix32_fNum, getFix32_fBytes, getFix32_fF32,
  getFix64_fNum, getFix64_fBytes, getFix64_fF64, ite_nil, ite_zero, ite_f32, ite_f64, if_true, reduceIte, ite_self, Nat.reduceEqDiff, UInt32.ofNat_toNat])

theorem law2 : form2.Law where
  pos := by decide
  unset := rfl
  none := by intro r h; cases r <;> simp_all [form2]
  mem := by intro r k gs h; cases r <;> simp [form2] at h <;> simp [form2, ← h.1]
  sound := by
    intro r k gs h
    cases r <;> simp only [form2, Option.some.injEq, Prod.mk.injEq, reduceCtorEq] at h
    · rw [← h.2]; exact sound_append (sound_append sound_bytes sound_bytes) sound_u32
    · rw [← h.2]; exact sound_bytes
    · rw [← h.2]; exact sound_nil
    · rw [← h.2]; exact sound_bytes
    · rw [← h.2]; exact sound_nil
  back := by
    intro r k gs u h hu
    have n : ∀ f, (∀ n, form2.inner k (f, .num n) = true) → ∀ d, getNum f d u = d := fun f hf d =>
      getNum_skip f d fun n hn => by have := hu _ hn; rw [hf] at this; cases this
    have l : ∀ f, (∀ n, form2.inner k (f, .len n) = true) → ∀ d, getLen f d u = d := fun f hf d =>
      getLen_skip f d fun n hn => by have := hu _ hn; rw [hf] at this; cases this
    have x : ∀ f, (∀ n, form2.inner k (f, .fix32 n) = true) → ∀ d, getFix32 f d u = d := fun f hf d =>
      getFix32_skip f d fun n hn => by have := hu _ hn; rw [hf] at this; cases this
    cases r <;> simp only [form2, Option.some.injEq, Prod.mk.injEq, reduceCtorEq] at h <;> obtain ⟨rfl, rfl⟩ := h <;>
      simp only [form2, reduceIte, Nat.reduceEqDiff]
    · getters
      rw [n 3 (fun _ => rfl), l 1 (fun _ => rfl), l 2 (fun _ => rfl)]
      getters
    · getters
      rw [l 1 (fun _ => rfl)]
    · getters
      rw [l 1 (fun _ => rfl)]
  case := by
    intro k gs h
    simp only [form2, List.mem_cons, List.not_mem_nil, or_false] at h
    rcases h with rfl | rfl | rfl | rfl | rfl <;> exact ⟨_, rfl⟩

theorem law3 : form3.Law where
  pos := by decide
  unset := rfl
  none := by intro r h; cases r <;> simp_all [form3]
  mem := by intro r k gs h; cases r <;> simp [form3] at h <;> simp [form3, ← h.1]
  sound := by
    intro r k gs h
    cases r <;> simp only [form3, Option.some.injEq, Prod.mk.injEq, reduceCtorEq] at h
    · rw [← h.2]; exact sound_append sound_u32 sound_bytes
    · rw [← h.2]; exact sound_bytes
    · rw [← h.2]; exact sound_nil
    · rw [← h.2]; exact sound_nil
  back := by
    intro r k gs u h hu
    have n : ∀ f, (∀ n, form3.inner k (f, .num n) = true) → ∀ d, getNum f d u = d := fun f hf d =>
      getNum_skip f d fun n hn => by have := hu _ hn; rw [hf] at this; cases this
    have l : ∀ f, (∀ n, form3.inner k (f, .len n) = true) → ∀ d, getLen f d u = d := fun f hf d =>
      getLen_skip f d fun n hn => by have := hu _ hn; rw [hf] at this; cases this
    have x : ∀ f, (∀ n, form3.inner k (f, .fix32 n) = true) → ∀ d, getFix32 f d u = d := fun f hf d =>
      getFix32_skip f d fun n hn => by have := hu _ hn; rw [hf] at this; cases this
    cases r <;> simp only [form3, Option.some.injEq, Prod.mk.injEq, reduceCtorEq] at h <;> obtain ⟨rfl, rfl⟩ := h <;>
      simp only [form3, reduceIte, Nat.reduceEqDiff]
    · getters
      rw [n 1 (fun _ => rfl), l 2 (fun _ => rfl)]
      getters
    · getters
      rw [l 1 (fun _ => rfl)]
  case := by
    intro k gs h
    simp only [form3, List.mem_cons, List.not_mem_nil, or_false] at h
    rcases h with rfl | rfl | rfl | rfl <;> exact ⟨_, rfl⟩

theorem law4 : form4.Law where
  pos := by decide
  unset := rfl
  none := by intro r h; cases r <;> simp_all [form4]
  mem := by intro r k gs h; cases r <;> simp [form4] at h <;> simp [form4, ← h.1]
  sound := by
    intro r k gs h
    cases r <;> simp only [form4, Option.some.injEq, Prod.mk.injEq, reduceCtorEq] at h
    · rw [← h.2]; exact sound_append (sound_append (sound_append (sound_append (sound_append sound_u32 sound_bytes) sound_bytes) sound_bytes) sound_bytes) sound_f32
    · rw [← h.2]; exact sound_bytes
    · rw [← h.2]; exact sound_append (sound_append sound_bytes sound_bytes) sound_f32
    · rw [← h.2]; exact sound_nil
    · rw [← h.2]; exact sound_nil
    · rw [← h.2]; exact sound_append (sound_append sound_f32 sound_bytes) sound_bytes
    · rw [← h.2]; exact sound_f32
    · rw [← h.2]; exact sound_f32
  back := by
    intro r k gs u h hu
    have n : ∀ f, (∀ n, form4.inner k (f, .num n) = true) → ∀ d, getNum f d u = d := fun f hf d =>
      getNum_skip f d fun n hn => by have := hu _ hn; rw [hf] at this; cases this
    have l : ∀ f, (∀ n, form4.inner k (f, .len n) = true) → ∀ d, getLen f d u = d := fun f hf d =>
      getLen_skip f d fun n hn => by have := hu _ hn; rw [hf] at this; cases this
    have x : ∀ f, (∀ n, form4.inner k (f, .fix32 n) = true) → ∀ d, getFix32 f d u = d := fun f hf d =>
      getFix32_skip f d fun n hn => by have := hu _ hn; rw [hf] at this; cases this
    cases r <;> simp only [form4, Option.some.injEq, Prod.mk.injEq, reduceCtorEq] at h <;> obtain ⟨rfl, rfl⟩ := h <;>
      simp only [form4, reduceIte, Nat.reduceEqDiff]
    · getters
      rw [n 1 (fun _ => rfl), l 2 (fun _ => rfl), l 3 (fun _ => rfl), l 4 (fun _ => rfl), l 5 (fun _ => rfl), x 6 (fun _ => rfl)]
      getters
    · getters
      rw [l 1 (fun _ => rfl)]
    · getters
      rw [l 1 (fun _ => rfl), l 2 (fun _ => rfl), x 3 (fun _ => rfl)]
      getters
    · getters
      rw [x 1 (fun _ => rfl), l 2 (fun _ => rfl), l 3 (fun _ => rfl)]
      getters
    · getters
      rw [x 1 (fun _ => rfl)]
      getters
    · getters
      rw [x 1 (fun _ => rfl)]
      getters
  case := by
    intro k gs h
    simp only [form4, List.mem_cons, List.not_mem_nil, or_false] at h
    rcases h with rfl | rfl | rfl | rfl | rfl | rfl | rfl | rfl <;> exact ⟨_, rfl⟩

theorem law5 : form5.Law where
  pos := by decide
  unset := rfl
  none := by intro r h; cases r <;> simp_all [form5]
  mem := by intro r k gs h; cases r <;> simp [form5] at h <;> simp [form5, ← h.1]
  sound := by
    intro r k gs h
    cases r <;> simp only [form5, Option.some.injEq, Prod.mk.injEq, reduceCtorEq] at h
    · rw [← h.2]; exact sound_bytes
    · rw [← h.2]; exact sound_bytes
    · rw [← h.2]; exact sound_nil
  back := by
    intro r k gs u h hu
    have n : ∀ f, (∀ n, form5.inner k (f, .num n) = true) → ∀ d, getNum f d u = d := fun f hf d =>
      getNum_skip f d fun n hn => by have := hu _ hn; rw [hf] at this; cases this
    have l : ∀ f, (∀ n, form5.inner k (f, .len n) = true) → ∀ d, getLen f d u = d := fun f hf d =>
      getLen_skip f d fun n hn => by have := hu _ hn; rw [hf] at this; cases this
    have x : ∀ f, (∀ n, form5.inner k (f, .fix32 n) = true) → ∀ d, getFix32 f d u = d := fun f hf d =>
      getFix32_skip f d fun n hn => by have := hu _ hn; rw [hf] at this; cases this
    cases r <;> simp only [form5, Option.some.injEq, Prod.mk.injEq, reduceCtorEq] at h <;> obtain ⟨rfl, rfl⟩ := h <;>
      simp only [form5, reduceIte, Nat.reduceEqDiff]
    · getters
      rw [l 1 (fun _ => rfl)]
    · getters
      rw [l 1 (fun _ => rfl)]
  case := by
    intro k gs h
    simp only [form5, List.mem_cons, List.not_mem_nil, or_false] at h
    rcases h with rfl | rfl | rfl <;> exact ⟨_, rfl⟩

/-- The unknown fields of a request are unknown to its form. -/
structure Form.Unknown {R : Type} (F : Form R) (r : R) (x : Extra) : Prop where
  top : ∀ y ∈ x.top, Sound y ∧ F.topKnown y = false
  inner : ∀ k gs, F.out r = some (k, gs) → ∀ y ∈ x.inner, Sound y ∧ F.inner k y = false

variable {R : Type} {F : Form R}

theorem oneof_skip {known : List Nat} {u : Fields} {cur : Option (Nat × Fields)} (h : ∀ y ∈ u, (decide (y.1 ∈ known) && isLen y.2) = false) :
    u.foldlM (oneofStep known) cur = some cur := by
  induction u with
  | nil => rfl
  | cons y u ih =>
    have ih := ih fun z hz => h z (List.mem_cons_of_mem _ hz)
    obtain ⟨f, w⟩ := y
    have h0 := h _ List.mem_cons_self
    have : oneofStep known cur (f, w) = some cur := by
      cases w with
      | len b =>
        simp only [isLen, Bool.and_true, decide_eq_false_iff_not] at h0
        simp [oneofStep, h0]
      | _ => rfl
    rw [List.foldlM_cons, this]
    exact ih

theorem extra_irrel {fs : Fields} {r : R} {x : Extra} (h : F.reqOf fs = some (r, x)) : ∃ cur, oneof F.known fs = some cur ∧ r = F.value cur ∧ x = F.extra fs cur := by
  simp only [Form.reqOf, Option.map_eq_some_iff, Prod.mk.injEq] at h
  obtain ⟨cur, h1, h2, h3⟩ := h
  exact ⟨cur, h1, h2.symm, h3.symm⟩

theorem sound_reqF (hF : F.Law) {r : R} {x : Extra} (hx : F.Unknown r x) : ∀ y ∈ F.reqF r x, Sound y := by
  unfold Form.reqF
  refine sound_append ?_ fun y hy => (hx.top y hy).1
  cases ho : F.out r with
  | none => exact sound_nil
  | some kg =>
    obtain ⟨k, gs⟩ := kg
    have := hF.pos k (hF.mem r k gs ho)
    exact sound_len this.1 this.2 sound_nil

theorem reqOf_reqF (hF : F.Law) {r : R} {x : Extra} (hx : F.Unknown r x) (hl : (enc (F.reqF r x)).length ≤ maxLen) :
    ∃ y, F.reqOf (F.reqF r x) = some (r, y) := by
  have ht : ∀ cur, x.top.foldlM (oneofStep F.known) cur = some cur := fun cur => oneof_skip fun y hy => (hx.top y hy).2
  cases ho : F.out r with
  | none =>
    refine ⟨F.extra (F.reqF r x) none, ?_⟩
    have : oneof F.known (F.reqF r x) = some none := by simp [oneof, Form.reqF, ho, ht]
    rw [Form.reqOf, this, hF.none r ho]
    rfl
  | some kg =>
    obtain ⟨k, gs⟩ := kg
    refine ⟨F.extra (F.reqF r x) (some (k, gs ++ x.inner)), ?_⟩
    have hin : split true (enc (gs ++ x.inner)) = some (gs ++ x.inner) :=
      split_sound (sound_append (hF.sound r k gs ho) fun y hy => (hx.inner k gs ho y hy).1)
        (Nat.le_trans (len_le_enc (f := k) (fs := F.reqF r x) (by simp [Form.reqF, ho])) hl)
    have : oneof F.known (F.reqF r x) = some (some (k, gs ++ x.inner)) := by
      simp [oneof, Form.reqF, ho, oneofStep, hF.mem r k gs ho, hin, ht]
    rw [Form.reqOf, this]
    simp only [Option.map_some, Form.value]
    rw [hF.back r k gs x.inner ho fun y hy => (hx.inner k gs ho y hy).2]

theorem sub_two (a : Bytes) (fs : Fields) (b : Bytes) (u : Fields) (hu : u = [] ∨ u = fBytes 3 b) (h : split true (enc fs) = some fs) :
    sub 2 (fBytes 1 a ++ [(2, .len (enc fs))] ++ u) = some fs := by
  have h1 : ∀ (f : Nat) (c : Bytes) (acc : Fields), f ≠ 2 → (fBytes f c).foldlM (subStep 2) acc = some acc := by
    intro f c acc hf
    unfold fBytes
    split
    · rfl
    · simp [subStep, hf]
  unfold sub
  rw [List.foldlM_append, List.foldlM_append, h1 1 a [] (by decide)]
  rcases hu with rfl | rfl
  · simp [subStep, h]
  · simp [subStep, h, h1 3 b _ (by decide)]

theorem decLog_encLog (hF : F.Law) {l : Logged R} {x : Extra} (hx : F.Unknown l.req x) (hk : F.keyed = false → l.key = [])
    (hl : (F.encLog l x).length ≤ maxLen) : F.decLog (F.encLog l x) = some l := by
  have hq : (2, Raw.len (enc (F.reqF l.req x))) ∈ F.logF l x := by simp [Form.logF]
  have hlq : (enc (F.reqF l.req x)).length ≤ maxLen := Nat.le_trans (len_le_enc hq) hl
  have hs : split true (F.encLog l x) = some (F.logF l x) := by
    refine split_sound ?_ hl
    unfold Form.logF
    refine sound_append (sound_append sound_bytes (sound_len (by decide) (by decide) sound_nil)) ?_
    split
    · exact sound_bytes
    · exact sound_nil
  have hr : split true (enc (F.reqF l.req x)) = some (F.reqF l.req x) := split_sound (sound_reqF hF hx) hlq
  have hsub : sub 2 (F.logF l x) = some (F.reqF l.req x) := by
    refine sub_two l.id _ l.key _ ?_ hr
    cases F.keyed
    · exact .inl rfl
    · exact .inr rfl
  obtain ⟨y, hy⟩ := reqOf_reqF hF hx hlq
  rw [Form.decLog, hs, Option.bind_some, hsub, Option.bind_some, hy]
  obtain ⟨i, r, key⟩ := l
  simp only [Option.map_some, Option.some.injEq, Logged.mk.injEq, true_and]
  have hg : ∀ f d, f ≠ 2 → getLen f d [(2, .len (enc (F.reqF r x)))] = d := fun f d hf => by
    refine getLen_skip f d fun n hn => ?_
    simp only [List.mem_singleton, Prod.mk.injEq] at hn
    exact hf hn.1
  cases hkd : F.keyed with
  | false =>
    simp only [Form.logF, hkd, Bool.false_eq_true, if_false, List.append_nil]
    refine ⟨?_, (hk hkd).symm⟩
    rw [getLen_append, hg _ _ (by decide), getLen_fBytes]
    simp [ite_nil]
  | true =>
    simp only [Form.logF, hkd, if_true]
    rw [getLen_append, getLen_append, getLen_append, getLen_append, hg _ _ (by decide), hg _ _ (by decide)]
    simp only [getLen_fBytes]
    simp [ite_nil]

/-- What is parsed has a member of the oneof with sound fields. -/
theorem oneof_parsed {known : List Nat} : ∀ {fs : Fields} {cur cur' : Option (Nat × Fields)},
    fs.foldlM (oneofStep known) cur = some cur' → (∀ k gs, cur = some (k, gs) → k ∈ known ∧ ∀ y ∈ gs, Sound y) →
    ∀ k gs, cur' = some (k, gs) → k ∈ known ∧ ∀ y ∈ gs, Sound y
  | [], cur, cur', h, hi => by cases h; exact hi
  | x :: fs, cur, cur', h, hi => by
    rw [List.foldlM_cons] at h
    cases hx : oneofStep known cur x with
    | none => simp [hx] at h
    | some c =>
      simp only [hx, Option.bind_eq_bind, Option.bind_some] at h
      refine oneof_parsed h ?_
      intro k gs hc
      obtain ⟨f, w⟩ := x
      cases w with
      | len b =>
        simp only [oneofStep] at hx
        split at hx
        · rename_i hf
          simp only [Option.map_eq_some_iff] at hx
          obtain ⟨ps, h1, h2⟩ := hx
          rw [hc] at h2
          simp only [Option.some.injEq, Prod.mk.injEq] at h2
          obtain ⟨rfl, rfl⟩ := h2
          refine ⟨hf, sound_append ?_ (parsed h1)⟩
          cases cur with
          | none => exact sound_nil
          | some g =>
            obtain ⟨g, q⟩ := g
            simp only
            split
            · exact (hi g q rfl).2
            · exact sound_nil
        · cases hx; exact hi k gs hc
      | _ => cases hx; exact hi k gs hc

theorem unknown_of_dec (hF : F.Law) {b : Bytes} {r : R} {x : Extra} (h : F.decReq b = some (r, x)) : F.Unknown r x := by
  simp only [Form.decReq, Option.bind_eq_some_iff] at h
  obtain ⟨fs, h1, h2⟩ := h
  obtain ⟨cur, h3, rfl, rfl⟩ := extra_irrel h2
  have hp := oneof_parsed h3 (fun _ _ h => by cases h)
  refine ⟨fun y hy => ?_, fun k gs ho y hy => ?_⟩
  · simp only [Form.extra, List.mem_filter, Bool.not_eq_true'] at hy
    exact ⟨parsed h1 y hy.1, hy.2⟩
  · cases cur with
    | none => simp [Form.extra] at hy
    | some c =>
      obtain ⟨k', gs'⟩ := c
      obtain ⟨h4, h5⟩ := hp k' gs' rfl
      obtain ⟨gs'', h6⟩ := hF.case k' gs' h4
      simp only [Form.value, h6, Option.some.injEq, Prod.mk.injEq] at ho
      simp only [Form.extra, List.mem_filter, Bool.not_eq_true'] at hy
      rw [← ho.1]
      exact ⟨h5 y hy.1, hy.2⟩

/-! ## Rows -/

theorem row2 {x : DB2.RowPB} (hl : (enc (rowF2 x)).length ≤ maxLen) : decRow2 (enc (rowF2 x)) = some x := by
  have h32 := x.state.toNat_lt
  have hs : split true (enc (rowF2 x)) = some (rowF2 x) := split_sound (sound_append (sound_append (sound_append (sound_append sound_bytes sound_u32) sound_bytes) sound_bytes)
    (sound_num (hn := by split <;> omega))) hl
  have he : UInt32.ofNat (if x.state.toNat < 2 ^ 31 then x.state.toNat else x.state.toNat + (2 ^ 64 - 2 ^ 32)) = x.state := by
    apply UInt32.toNat_inj.1
    rw [UInt32.toNat_ofNat']
    split <;> omega
  obtain ⟨i, t, d, p, st⟩ := x
  rw [decRow2, hs, Option.map_some]
  simp only [rowF2]
  getters
  rw [he]

theorem row3 {x : DB3.RowPB} (hl : (enc (rowF3 x)).length ≤ maxLen) : decRow3 (enc (rowF3 x)) = some x := by
  have hs : split true (enc (rowF3 x)) = some (rowF3 x) := split_sound (sound_append (sound_append sound_bytes sound_bytes) sound_u32) hl
  obtain ⟨i, p, t⟩ := x
  rw [decRow3, hs, Option.map_some]
  simp only [rowF3]
  getters

theorem row4 {x : DB4.RowPB} (hl : (enc (rowF4 x)).length ≤ maxLen) : decRow4 (enc (rowF4 x)) = some x := by
  have hs : split true (enc (rowF4 x)) = some (rowF4 x) := split_sound (sound_append (sound_append (sound_append (sound_append (sound_append (sound_append
    (sound_append (sound_append (sound_append sound_bytes sound_u32) sound_bytes) sound_bytes) sound_bytes) sound_bytes) sound_bytes) sound_bytes) sound_f64) sound_f64) hl
  obtain ⟨i, t, o, a, e, z, od, ed, v, nv⟩ := x
  rw [decRow4, hs, Option.map_some]
  simp only [rowF4]
  getters

theorem row5 {x : DB5.RowPB} (hl : (enc (rowF5 x)).length ≤ maxLen) : decRow5 (enc (rowF5 x)) = some x := by
  have hs : split true (enc (rowF5 x)) = some (rowF5 x) := split_sound (sound_append sound_bytes sound_bytes) hl
  obtain ⟨i, d⟩ := x
  rw [decRow5, hs, Option.map_some]
  simp only [rowF5]
  getters

end Svr.Wire
