import Verif.Bytes

/-!
# `RandomBytes` of the environments

The loops that fill a buffer with random bytes (enclave/env/socket/socket.cc:98-130, used on SEV-SNP and by tests;
enclave/env/nsm/nsm.cc:93-115; enclave/env/sgx/sgx.cc:131-139). Sources of random bytes are given by what their calls return, in
order: `none` is an error. A call that is asked for `n` bytes returns at most `n`, as `getrandom`, `nsm_get_random` and
`oe_random` promise: of what is listed for it the first `n` bytes. If the list ends, the loop has not returned (`none`).
Otherwise the result is whether it returned `error::OK`, and the buffer. `size_t` is 64-bit.
-/

namespace Svr.Env

/-- Writing to a buffer: outside of it is undefined behaviour. -/
def store (buf : Bytes) (off : Nat) (x : Bytes) : Out Bytes :=
  if off + x.length ≤ buf.length then .ok (buf.take off ++ x ++ buf.drop (off + x.length)) else .ub

/-- What `RandomBytes` has done: it has not returned, or returned `error::OK` or not, with the buffer. -/
abbrev Filled := Option (Bool × Bytes)

/-- `Environment::RandomBytes` of `env::socket`, simulated (enclave/env/socket/socket.cc:101-109). -/
def fillGetrandom : List (Option Bytes) → Bytes → Nat → Nat → Out Filled
  | _, buf, _, 0 => .ok (some (true, buf))
  | [], _, _, _ => .ok none
  | none :: _, buf, _, _ => .ok (some (false, buf))
  | some x :: r, buf, off, size + 1 => do
    let got := x.take (size + 1)
    let b ← store buf off got
    fillGetrandom r b (off + got.length) (size + 1 - got.length)

/-- The inner loop over the bytes of a random word (enclave/env/socket/socket.cc:122-125): the buffer, the pointer, what is left. -/
def putWord : Bytes → Bytes → Nat → Nat → Out (Bytes × Nat × Nat)
  | [], buf, off, size => .ok (buf, off, size)
  | _ :: _, buf, off, 0 => .ok (buf, off, 0)
  | b :: r, buf, off, size + 1 => do
    let buf' ← store buf off [b]
    putWord r buf' (off + 1) size

/-- `Environment::RandomBytes` of `env::socket` with the processor's instruction (enclave/env/socket/socket.cc:110-127). A word
is given by its eight bytes (`util::BigEndian64Bytes`). -/
def fillRdrand : List (Option Bytes) → Bytes → Nat → Nat → Out Filled
  | _, buf, _, 0 => .ok (some (true, buf))
  | [], _, _, _ => .ok none
  | none :: _, buf, _, _ => .ok (some (false, buf))
  | some w :: r, buf, off, size + 1 => do
    let (buf', off', size') ← putWord w buf off (size + 1)
    fillRdrand r buf' off' size'

/-- `Environment::RandomBytes` of `env::nsm` (enclave/env/nsm/nsm.cc:104-114). -/
def fillNsm : List (Option Bytes) → Bytes → Nat → Nat → Out Filled
  | _, buf, _, 0 => .ok (some (true, buf))
  | [], _, _, _ => .ok none
  | none :: _, buf, _, _ => .ok (some (false, buf))
  | some x :: r, buf, off, size + 1 => do
    let received := x.take (size + 1)
    let b ← store buf off received
    fillNsm r b (off + received.length) (size + 1 - received.length)

/-- `Environment::RandomBytes` of `env::nsm`, simulated (enclave/env/nsm/nsm.cc:96-103). The result of `getrandom` is put into a
`size_t`, so that -1 is 2^64 - 1 and not an error, and subtracting it adds 1, modulo 2^64, which no size reaches; and the pointer stays where
it is. -/
def fillNsmSimulated : List (Option Bytes) → Bytes → Nat → Out Filled
  | _, buf, 0 => .ok (some (true, buf))
  | [], _, _ => .ok none
  | none :: r, buf, size + 1 => fillNsmSimulated r buf (size + 2)
  | some x :: r, buf, size + 1 => do
    let got := x.take (size + 1)
    let b ← store buf 0 got
    if got.length = 0 then .ok (some (false, b))
    else fillNsmSimulated r b (size + 1 - got.length)

/-- `Environment::RandomBytes` of `env::sgx` (enclave/env/sgx/sgx.cc:131-139): `oe_random` fills the buffer or fails. -/
def fillSgx (x : Option Bytes) (buf : Bytes) (size : Nat) : Out Filled := do
  Out.check (0 < size)
  match x with
  | none => .ok (some (false, buf))
  | some x => do
    let b ← store buf 0 (x.take size)
    .ok (some (true, b))

/-! ## Facts -/

theorem store_ok {pre post x : Bytes} (h : x.length ≤ post.length) :
    store (pre ++ post) pre.length x = .ok (pre ++ x ++ post.drop x.length) := by
  have h1 : pre.length + x.length ≤ (pre ++ post).length := by simp; omega
  have h2 : (pre ++ post).drop (pre.length + x.length) = post.drop x.length := by
    rw [← List.drop_drop, List.drop_left]
  rw [store, if_pos h1, List.take_left, h2]

/-- Pieces of what calls returned, at most one of each, put together. -/
def Pieces (src : List (Option Bytes)) (out : Bytes) : Prop :=
  ∃ ps : List Bytes, List.Forall₂ (fun p o => ∃ x, o = some x ∧ p <+: x) ps (src.take ps.length) ∧ out = ps.flatten

theorem pieces_nil (src : List (Option Bytes)) : Pieces src [] := ⟨[], by simp, rfl⟩

theorem Pieces.cons {src : List (Option Bytes)} {out p x : Bytes} (h : Pieces src out) (hp : p <+: x) : Pieces (some x :: src) (p ++ out) := by
  obtain ⟨ps, h1, h2⟩ := h
  exact ⟨p :: ps, by simpa using ⟨hp, h1⟩, by simp [h2]⟩

/-- What filling a buffer means: `pre` is done, `post` is left. -/
def Fills (src : List (Option Bytes)) (pre post : Bytes) (r : Out Filled) : Prop :=
  ∃ f, r = .ok f ∧ (∀ b out, f = some (b, out) → out.length = pre.length + post.length) ∧
    (∀ out, f = some (true, out) → ∃ q, out = pre ++ q ∧ q.length = post.length ∧ Pieces src q) ∧
    (∀ out, f = some (false, out) → none ∈ src) ∧
    (f = none → (∀ o ∈ src, o ≠ none) ∧ (src.map fun o => (o.getD []).length).sum < post.length)

theorem Fills.step {src : List (Option Bytes)} {pre post p x : Bytes} {r : Out Filled} (hl : p = x.take post.length) (hp : p <+: x)
    (h : Fills src (pre ++ p) (post.drop p.length) r) : Fills (some x :: src) pre post r := by
  have hl : p.length = min post.length x.length := by rw [hl, List.length_take]
  obtain ⟨f, e, h0, h1, h2, h3⟩ := h
  refine ⟨f, e, fun b out hf => ?_, fun out hf => ?_, fun out hf => List.mem_cons_of_mem _ (h2 out hf), fun hf => ⟨fun o ho => ?_, ?_⟩⟩
  · have := h0 b out hf
    simp only [List.length_append, List.length_drop] at this
    omega
  · obtain ⟨q, e1, e2, e3⟩ := h1 out hf
    refine ⟨p ++ q, by simp [e1], ?_, e3.cons hp⟩
    simp only [List.length_append, List.length_drop] at e2 ⊢
    omega
  · rcases List.mem_cons.mp ho with rfl | ho
    · simp
    · exact (h3 hf).1 o ho
  · have := (h3 hf).2
    simp only [List.map_cons, List.sum_cons, Option.getD_some, List.length_drop] at this ⊢
    omega

theorem fills_done (src : List (Option Bytes)) (pre : Bytes) : Fills src pre [] (.ok (some (true, pre))) :=
  ⟨_, rfl, (fun b out h => by cases h; simp), (fun out h => by cases h; exact ⟨[], by simp, rfl, pieces_nil src⟩),
    (fun out h => by cases h), (fun h => by cases h)⟩

theorem fills_wait (pre : Bytes) (c : UInt8) (post : Bytes) : Fills [] pre (c :: post) (.ok none) :=
  ⟨_, rfl, (fun b out h => by cases h), (fun out h => by cases h), (fun out h => by cases h), (fun _ => ⟨(fun o h => by cases h), by simp⟩)⟩

theorem fills_error (src : List (Option Bytes)) (pre post : Bytes) : Fills (none :: src) pre post (.ok (some (false, pre ++ post))) :=
  ⟨_, rfl, (fun b out h => by cases h; simp), (fun out h => by cases h), (fun out h => by simp), (fun h => by cases h)⟩

theorem fillGetrandom_fills : ∀ (src : List (Option Bytes)) (pre post : Bytes), Fills src pre post (fillGetrandom src (pre ++ post) pre.length post.length)
  | src, pre, [] => by
    have : fillGetrandom src (pre ++ []) pre.length 0 = .ok (some (true, pre)) := by
      rw [List.append_nil]; cases src <;> simp [fillGetrandom]
    simp only [List.length_nil]
    rw [this]
    exact fills_done src pre
  | [], pre, c :: post => fills_wait _ _ _
  | none :: src, pre, c :: post => fills_error _ _ _
  | some x :: src, pre, c :: post => by
    have hl : (x.take (post.length + 1)).length ≤ (c :: post).length := by simp; omega
    have ih := fillGetrandom_fills src (pre ++ x.take (post.length + 1)) ((c :: post).drop (x.take (post.length + 1)).length)
    have := Fills.step (post := c :: post) rfl (List.take_prefix _ x) ih
    simp only [List.length_cons, fillGetrandom, store_ok hl, Out.bind_ok]
    simpa only [List.length_append, List.length_drop, List.length_cons] using this

theorem fillNsm_eq : ∀ (src : List (Option Bytes)) (buf : Bytes) (off size : Nat), fillNsm src buf off size = fillGetrandom src buf off size
  | src, buf, off, 0 => by cases src <;> simp [fillNsm, fillGetrandom]
  | [], buf, off, size + 1 => rfl
  | none :: src, buf, off, size + 1 => rfl
  | some x :: src, buf, off, size + 1 => by
    simp only [fillNsm, fillGetrandom]
    congr 1
    funext b
    exact fillNsm_eq src b _ _

theorem putWord_eq : ∀ (w pre post : Bytes), putWord w (pre ++ post) pre.length post.length =
    .ok (pre ++ w.take post.length ++ post.drop w.length, pre.length + (w.take post.length).length, post.length - (w.take post.length).length)
  | [], pre, post => by simp [putWord]
  | b :: w, pre, [] => by simp [putWord]
  | b :: w, pre, c :: post => by
    have h : ([b] : Bytes).length ≤ (c :: post).length := by simp
    have ih := putWord_eq w (pre ++ [b]) post
    simp only [List.length_cons, putWord, store_ok h, Out.bind_ok]
    simp only [List.length_append, List.length_cons, List.length_nil, Nat.zero_add, List.drop_succ_cons, List.drop_zero] at ih ⊢
    rw [ih]
    simp only [List.take_succ_cons, List.length_cons, List.append_assoc, List.cons_append, List.nil_append]
    congr 2
    refine Prod.ext ?_ ?_
    · simp only; omega
    · simp only; omega

theorem fillRdrand_fills : ∀ (src : List (Option Bytes)) (pre post : Bytes), Fills src pre post (fillRdrand src (pre ++ post) pre.length post.length)
  | src, pre, [] => by
    have : fillRdrand src (pre ++ []) pre.length 0 = .ok (some (true, pre)) := by
      rw [List.append_nil]; cases src <;> simp [fillRdrand]
    simp only [List.length_nil]
    rw [this]
    exact fills_done src pre
  | [], pre, c :: post => fills_wait _ _ _
  | none :: src, pre, c :: post => fills_error _ _ _
  | some x :: src, pre, c :: post => by
    have hl : (x.take (c :: post).length).length ≤ (c :: post).length := by
      rw [List.length_take]; exact Nat.min_le_left _ _
    have ih := fillRdrand_fills src (pre ++ x.take (c :: post).length) ((c :: post).drop (x.take (c :: post).length).length)
    have := Fills.step (post := c :: post) rfl (List.take_prefix _ x) ih
    have hd : (c :: post).drop x.length = (c :: post).drop (x.take (c :: post).length).length := by
      rw [List.length_take]
      rcases Nat.le_total x.length (c :: post).length with k | k
      · rw [Nat.min_eq_right k]
      · rw [Nat.min_eq_left k, List.drop_eq_nil_of_le k, List.drop_eq_nil_of_le (Nat.le_refl _)]
    have e : fillRdrand (some x :: src) (pre ++ c :: post) pre.length (c :: post).length = (do
        let (buf', off', size') ← putWord x (pre ++ c :: post) pre.length (c :: post).length
        fillRdrand src buf' off' size') := rfl
    rw [e, putWord_eq, Out.bind_ok]
    simp only
    rw [hd]
    simpa only [List.length_append, List.length_drop] using this

end Svr.Env
