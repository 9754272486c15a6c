import Verif.Bytes

/-!
# Model of `enclave/noise/noise.cc`: messages of any length in Noise packets

A `NoiseCipherState` is its nonce; the key is part of the AEAD. Strings are byte lists, and every access outside of a string
is undefined behaviour.
-/

namespace Svr.Noise

/-- The cipher of a `NoiseCipherState`, with its key. -/
structure Aead where
  /-- `noise_cipherstate_get_mac_length` -/
  mac : Nat
  enc : Nat → Bytes → Bytes → Bytes
  dec : Nat → Bytes → Bytes → Option Bytes

/-- What an AEAD does. -/
structure Aead.Lawful (A : Aead) : Prop where
  len : ∀ n ad p, (A.enc n ad p).length = p.length + A.mac
  declen : ∀ n ad c p, A.dec n ad c = some p → p.length + A.mac = c.length
  dec : ∀ n ad p, A.dec n ad (A.enc n ad p) = some p

/-- The nonce noise-c refuses to use. -/
def lastNonce : Nat := 2 ^ 64 - 1

/-- `noise_cipherstate_encrypt_with_ad` of the noise-c library: `mx` is both `NOISE_MAX_PAYLOAD_LEN` and the code's
`max_message_size`. `none` is an error. -/
def sealP (A : Aead) (mx n : Nat) (ad p : Bytes) : Option Bytes :=
  if p.length + A.mac > mx then none else if n = lastNonce then none else some (A.enc n ad p)

/-- `noise_cipherstate_decrypt_with_ad` of the noise-c library. -/
def openP (A : Aead) (mx n : Nat) (ad c : Bytes) : Option Bytes :=
  if c.length > mx then none else if c.length < A.mac then none else if n = lastNonce then none else A.dec n ad c

/-- `memcpy` from a string. -/
def readAt (s : Bytes) (off n : Nat) : Out Bytes := if off + n > s.length then .ub else .ok ((s.drop off).take n)

/-- `memcpy` into a string. -/
def writeAt (s : Bytes) (off : Nat) (x : Bytes) : Out Bytes :=
  if off + x.length > s.length then .ub else .ok (s.take off ++ x ++ s.drop (off + x.length))

/-- The associated data (enclave/noise/noise.cc:45-46, 71-72). -/
def adOf (withAd : Bool) (mx start final : Nat) : Bytes :=
  if withAd then [if start + mx ≥ final then 1 else 0] else []

/-- The loop of `Encrypt` (enclave/noise/noise.cc:34-52), from `start` and `plaintext_start`; returns the nonce, and `none`
in case of an error. The first argument bounds the iterations. Encryption is in place and needs `plaintext_size + mac_size`
bytes. -/
def encLoop (A : Aead) (mx : Nat) (withAd : Bool) (p : Bytes) (final : Nat) :
    Nat → Nat → Nat → Nat → Bytes → Out (Nat × Option Bytes)
  | 0, _, _, n, ct => .ok (n, some ct)
  | f + 1, start, ps, n, ct =>
    if start ≥ final then .ok (n, some ct)
    else do
      let size := min (mx - A.mac) (p.length - ps)
      let x ← readAt p ps size
      let ct ← writeAt ct start x
      let _ ← readAt ct start (size + A.mac)
      match sealP A mx n (adOf withAd mx start final) x with
      | none => .ok (n, none)
      | some c => do
        let ct ← writeAt ct start c
        encLoop A mx withAd p final f (start + mx) (ps + size) (n + 1) ct

/-- `num_macs` of `Encrypt` (enclave/noise/noise.cc:28-29). -/
def numMacs (me orig : Nat) : Nat :=
  if orig % me = 0 ∧ orig / me + 1 > 1 then orig / me else orig / me + 1

/-- `Encrypt` (enclave/noise/noise.cc:13-54), with `max_message_size = mx`. -/
def encrypt (A : Aead) (mx : Nat) (withAd : Bool) (n : Nat) (p : Bytes) : Out (Nat × Option Bytes) :=
  let final := p.length + A.mac * numMacs (mx - A.mac) p.length
  encLoop A mx withAd p final (final + 1) 0 0 n (zeros final)

/-- The loop of `Decrypt` (enclave/noise/noise.cc:60-78). -/
def decLoop (A : Aead) (mx : Nat) (withAd : Bool) (c : Bytes) :
    Nat → Nat → Nat → Nat → Bytes → Out (Nat × Option Bytes)
  | 0, _, ps, n, pt => .ok (n, some (pt.take ps))
  | f + 1, start, ps, n, pt =>
    if start ≥ c.length then .ok (n, some (pt.take ps))
    else do
      let x ← readAt c start (min mx (c.length - start))
      let pt ← writeAt pt ps x
      match openP A mx n (adOf withAd mx start c.length) x with
      | none => .ok (n, none)
      | some p => do
        let pt ← writeAt pt ps p
        decLoop A mx withAd c f (start + mx) (ps + p.length) (n + 1) pt

/-- `Decrypt` (enclave/noise/noise.cc:56-81). -/
def decrypt (A : Aead) (mx : Nat) (withAd : Bool) (n : Nat) (c : Bytes) : Out (Nat × Option Bytes) :=
  decLoop A mx withAd c (c.length + 1) 0 0 n (zeros c.length)

/-- `max_message_size` (enclave/noise/noise.cc:11). -/
def maxMessage : Nat := 65535

/-! ## What the two loops compute -/

/-- A message in parts of `k` bytes; the last may be shorter, and there is at least one. -/
def parts (k : Nat) (l : Bytes) : List Bytes :=
  if h : k = 0 ∨ l.length ≤ k then [l] else l.take k :: parts k (l.drop k)
termination_by l.length
decreasing_by simp only [List.length_drop]; omega

/-- Which part is last. -/
def tag : List Bytes → List (Bool × Bytes)
  | [] => []
  | [x] => [(true, x)]
  | x :: y :: t => (false, x) :: tag (y :: t)

def adFor (withAd : Bool) (lst : Bool) : Bytes := if withAd then [if lst then 1 else 0] else []

/-- Parts sealed one after the other. -/
def sealAll (A : Aead) (withAd : Bool) : Nat → List (Bool × Bytes) → List Bytes
  | _, [] => []
  | n, (b, x) :: t => A.enc n (adFor withAd b) x :: sealAll A withAd (n + 1) t

/-- Packets opened one after the other; the nonce reached and the plaintexts. -/
def openAll (A : Aead) (mx : Nat) (withAd : Bool) : Nat → List (Bool × Bytes) → Nat × Option (List Bytes)
  | n, [] => (n, some [])
  | n, (b, c) :: t =>
    match openP A mx n (adFor withAd b) c with
    | none => (n, none)
    | some p =>
      match openAll A mx withAd (n + 1) t with
      | (m, some ps) => (m, some (p :: ps))
      | (m, none) => (m, none)

theorem parts_ne (k : Nat) (l : Bytes) : parts k l ≠ [] := by
  unfold parts; split <;> simp

theorem parts_small {k : Nat} {l : Bytes} (h : l.length ≤ k) : parts k l = [l] := by
  unfold parts; rw [dif_pos (.inr h)]

theorem parts_big {k : Nat} {l : Bytes} (h0 : 0 < k) (h : k < l.length) : parts k l = l.take k :: parts k (l.drop k) := by
  rw [parts, dif_neg (by omega)]

/-- Induction over the parts of a message. -/
theorem parts_ind {k : Nat} (hk : 0 < k) {Q : Bytes → Prop} (h1 : ∀ l, l.length ≤ k → Q l)
    (h2 : ∀ l, k < l.length → Q (l.drop k) → Q l) : ∀ l, Q l := by
  intro l
  induction hn : l.length using Nat.strongRecOn generalizing l with
  | _ n ih =>
    by_cases h : l.length ≤ k
    · exact h1 l h
    · exact h2 l (by omega) (ih _ (by simp only [List.length_drop]; omega) _ rfl)

theorem parts_flatten {k : Nat} (hk : 0 < k) (l : Bytes) : (parts k l).flatten = l := by
  induction l using parts_ind hk with
  | h1 l h => rw [parts_small h]; simp
  | h2 l h ih => rw [parts_big hk h, List.flatten_cons, ih, List.take_append_drop]

theorem parts_length {k : Nat} (hk : 0 < k) (l : Bytes) : (parts k l).length = numMacs k l.length := by
  induction l using parts_ind hk with
  | h1 l h =>
    rw [parts_small h]
    unfold numMacs
    simp only [List.length_singleton]
    by_cases e : l.length = k
    · rw [e, Nat.mod_self, Nat.div_self hk, if_pos (by omega)]
    · rw [Nat.div_eq_of_lt (by omega)]
      simp
  | h2 l h ih =>
    rw [parts_big hk h, List.length_cons, ih]
    unfold numMacs
    rw [List.length_drop, Nat.div_eq_sub_div hk (le_of_lt h), Nat.mod_eq_sub_mod (le_of_lt h)]
    have h3 : (l.length - k) % k = 0 → (l.length - k) / k + 1 > 1 := by
      intro h0
      have := Nat.div_add_mod (l.length - k) k
      rcases Nat.eq_zero_or_pos ((l.length - k) / k) with h4 | h4
      · rw [h4, h0] at this; simp at this; omega
      · omega
    by_cases h0 : (l.length - k) % k = 0
    · rw [if_pos ⟨h0, h3 h0⟩, if_pos ⟨h0, by omega⟩]
    · rw [if_neg (fun h => h0 h.1), if_neg (fun h => h0 h.1)]

theorem readAt_ok {s : Bytes} {off n : Nat} (h : off + n ≤ s.length) : readAt s off n = .ok ((s.drop off).take n) := by
  unfold readAt; rw [if_neg (by omega)]

theorem writeAt_ok {a b c x : Bytes} (h : x.length = b.length) : writeAt (a ++ b ++ c) a.length x = .ok (a ++ x ++ c) := by
  unfold writeAt
  rw [if_neg (by simp; omega), h]
  simp [List.append_assoc]

theorem adOf_eq {withAd : Bool} {mx start final : Nat} {lst : Bool} (h : lst = decide (start + mx ≥ final)) :
    adOf withAd mx start final = adFor withAd lst := by
  subst h
  unfold adOf adFor
  simp

/-- The encryption loop seals the parts of what is left. -/
theorem encLoop_eq {A : Aead} (hA : A.Lawful) {mx : Nat} (hm : A.mac < mx) (withAd : Bool) (p : Bytes) (final : Nat) :
    ∀ (rest pre done : Bytes) (n f : Nat), p = pre ++ rest →
    final = done.length + rest.length + A.mac * (parts (mx - A.mac) rest).length →
    (rest = [] → 0 < A.mac) →
    n ≤ lastNonce → final < f + done.length →
    encLoop A mx withAd p final f done.length pre.length n (done ++ zeros (final - done.length)) =
      if n + (parts (mx - A.mac) rest).length ≤ lastNonce then
        .ok (n + (parts (mx - A.mac) rest).length, some (done ++ (sealAll A withAd n (tag (parts (mx - A.mac) rest))).flatten))
      else .ok (lastNonce, none) := by
  intro rest
  induction rest using parts_ind (show 0 < mx - A.mac by omega) with
  | h1 rest hr =>
    intro pre done n f hp hf he hn hfu
    rw [parts_small hr] at hf ⊢
    simp only [List.length_singleton, Nat.mul_one] at hf ⊢
    obtain ⟨f, rfl⟩ : ∃ g, f = g + 1 := ⟨f - 1, by omega⟩
    have hpos : 0 < rest.length + A.mac := by
      rcases rest with _ | ⟨x, t⟩
      · have := he rfl; omega
      · simp; omega
    have hmin : min (mx - A.mac) (p.length - pre.length) = rest.length := by rw [hp]; simp; omega
    have hz : zeros (final - done.length) = zeros rest.length ++ zeros A.mac := by
      unfold zeros; rw [← List.replicate_add]; congr 1; omega
    rw [encLoop, if_neg (by omega)]
    simp only [hmin]
    rw [readAt_ok (by rw [hp]; simp)]
    have hx : (p.drop pre.length).take rest.length = rest := by rw [hp]; simp
    simp only [Out.bind_ok, hx]
    rw [hz, ← List.append_assoc, writeAt_ok (by simp [zeros])]
    simp only [Out.bind_ok]
    rw [readAt_ok (by simp [zeros])]
    simp only [Out.bind_ok]
    by_cases hl : n = lastNonce
    · have hs : sealP A mx n (adOf withAd mx done.length final) rest = none := by
        unfold sealP
        rw [if_neg (by omega), if_pos hl]
      rw [hs, if_neg (by simp only [not_le]; omega), hl]
    have hs : sealP A mx n (adOf withAd mx done.length final) rest = some (A.enc n (adFor withAd true) rest) := by
      unfold sealP
      rw [if_neg (by omega), if_neg (by omega), adOf_eq (lst := true) (by simp; omega)]
    rw [hs]
    simp only
    rw [List.append_assoc, show done ++ (rest ++ zeros A.mac) = done ++ (rest ++ zeros A.mac) ++ [] by simp,
      writeAt_ok (by simp [hA.len, zeros])]
    simp only [Out.bind_ok, List.append_nil]
    rw [if_pos (show n + 1 ≤ lastNonce by omega)]
    cases f with
    | zero => simp [encLoop, tag, sealAll]
    | succ f =>
      rw [encLoop, if_pos (by omega)]
      simp [tag, sealAll]
  | h2 rest hr ih =>
    intro pre done n f hp hf he hn hfu
    have hk : 0 < mx - A.mac := by omega
    rw [parts_big hk hr] at hf ⊢
    simp only [List.length_cons, Nat.mul_add, Nat.mul_one] at hf
    obtain ⟨f, rfl⟩ : ∃ g, f = g + 1 := ⟨f - 1, by omega⟩
    set x := rest.take (mx - A.mac) with hxdef
    set rest' := rest.drop (mx - A.mac) with hrdef
    have hxl : x.length = mx - A.mac := by rw [hxdef, List.length_take]; omega
    have hrest : rest = x ++ rest' := (List.take_append_drop _ _).symm
    have hrl : rest.length = x.length + rest'.length := by rw [hrest, List.length_append]
    have hr' : rest' ≠ [] := by
      intro h; rw [h] at hrl; simp at hrl; omega
    have hpl : 0 < rest'.length := List.length_pos_iff.mpr hr'
    have hplen : 1 ≤ (parts (mx - A.mac) rest').length := by
      have := parts_ne (mx - A.mac) rest'
      have := List.length_pos_iff.mpr this; omega
    have hmac : A.mac ≤ A.mac * (parts (mx - A.mac) rest').length := Nat.le_mul_of_pos_right _ hplen
    have hmin : min (mx - A.mac) (p.length - pre.length) = x.length := by rw [hp]; simp; omega
    have hz : zeros (final - done.length) = zeros x.length ++ zeros A.mac ++ zeros (final - (done.length + mx)) := by
      unfold zeros; rw [← List.replicate_add, ← List.replicate_add]; congr 1; omega
    rw [encLoop, if_neg (by omega)]
    simp only [hmin]
    rw [readAt_ok (by rw [hp, hrest]; simp)]
    have hx : (p.drop pre.length).take x.length = x := by rw [hp, hrest]; simp
    simp only [Out.bind_ok, hx]
    rw [hz]
    have e1 : done ++ (zeros x.length ++ zeros A.mac ++ zeros (final - (done.length + mx))) =
        done ++ zeros x.length ++ (zeros A.mac ++ zeros (final - (done.length + mx))) := by simp
    rw [e1, writeAt_ok (by simp [zeros])]
    simp only [Out.bind_ok]
    rw [readAt_ok (by simp [zeros])]
    simp only [Out.bind_ok]
    by_cases hl : n = lastNonce
    · have hs : sealP A mx n (adOf withAd mx done.length final) x = none := by
        unfold sealP
        rw [if_neg (by omega), if_pos hl]
      rw [hs, if_neg (by simp only [List.length_cons, not_le]; omega), hl]
    have hs : sealP A mx n (adOf withAd mx done.length final) x = some (A.enc n (adFor withAd false) x) := by
      unfold sealP
      rw [if_neg (by omega), if_neg (by omega), adOf_eq (lst := false) (by simp; omega)]
    rw [hs]
    simp only
    have e2 : done ++ x ++ (zeros A.mac ++ zeros (final - (done.length + mx))) =
        done ++ (x ++ zeros A.mac) ++ zeros (final - (done.length + mx)) := by simp
    rw [e2, writeAt_ok (by simp [hA.len, zeros])]
    simp only [Out.bind_ok]
    have hl : (done ++ A.enc n (adFor withAd false) x).length = done.length + mx := by
      rw [List.length_append, hA.len]; omega
    have key := ih (pre ++ x) (done ++ A.enc n (adFor withAd false) x) (n + 1) f (by rw [hp, hrest]; simp)
      (by rw [hl]; omega) (fun h => absurd h hr') (by omega) (by rw [hl]; omega)
    rw [hl, List.length_append] at key
    rw [key]
    obtain ⟨y, t, hy⟩ : ∃ y t, parts (mx - A.mac) rest' = y :: t := by
      cases h : parts (mx - A.mac) rest' with
      | nil => exact absurd h (parts_ne _ _)
      | cons y t => exact ⟨y, t, rfl⟩
    rw [hy]
    simp only [tag, sealAll, List.flatten_cons, List.append_assoc, List.length_cons]
    rw [show n + 1 + (t.length + 1) = n + (t.length + 1 + 1) by omega]

/-- `Encrypt` seals the parts of the message, in order. -/
theorem encrypt_eq {A : Aead} (hA : A.Lawful) {mx : Nat} (hm : A.mac < mx) (h0 : 0 < A.mac) (withAd : Bool) {n : Nat} (p : Bytes)
    (hn : n ≤ lastNonce) :
    encrypt A mx withAd n p =
      if n + (parts (mx - A.mac) p).length ≤ lastNonce then
        .ok (n + (parts (mx - A.mac) p).length, some (sealAll A withAd n (tag (parts (mx - A.mac) p))).flatten)
      else .ok (lastNonce, none) := by
  unfold encrypt
  have h := encLoop_eq hA hm withAd p (p.length + A.mac * numMacs (mx - A.mac) p.length) p [] [] n
    (p.length + A.mac * numMacs (mx - A.mac) p.length + 1) rfl
    (by rw [parts_length (by omega)]; simp) (fun _ => h0) hn (by simp)
  simpa using h

/-- The decryption loop opens the packets of what is left. -/
theorem decLoop_eq {A : Aead} (hA : A.Lawful) {mx : Nat} (hm : 0 < mx) (withAd : Bool) (c : Bytes) :
    ∀ (rest pre got : Bytes) (n f : Nat) (pt : Bytes), c = pre ++ rest → rest ≠ [] → pt.length = c.length → pt.take got.length = got →
    got.length ≤ pre.length → c.length < f + pre.length →
    decLoop A mx withAd c f pre.length got.length n pt =
      match openAll A mx withAd n (tag (parts mx rest)) with
      | (m, some ps) => .ok (m, some (got ++ ps.flatten))
      | (m, none) => .ok (m, none) := by
  intro rest
  induction rest using parts_ind hm with
  | h1 rest hr =>
    intro pre got n f pt hc hne hpt hg hle hfu
    have hrl : 0 < rest.length := List.length_pos_iff.mpr hne
    have hcl : c.length = pre.length + rest.length := by rw [hc, List.length_append]
    obtain ⟨f, rfl⟩ : ∃ g, f = g + 1 := ⟨f - 1, by omega⟩
    rw [decLoop, if_neg (by omega), readAt_ok (by omega)]
    have hx : (c.drop pre.length).take (min mx (c.length - pre.length)) = rest := by
      rw [show min mx (c.length - pre.length) = rest.length by omega, hc, List.drop_left, List.take_length]
    simp only [Out.bind_ok, hx]
    have hw : ∀ (pt x : Bytes), pt.length = c.length → pt.take got.length = got → x.length ≤ rest.length →
        writeAt pt got.length x = .ok (got ++ x ++ pt.drop (got.length + x.length)) := by
      intro pt x h1 h2 h3
      unfold writeAt
      rw [if_neg (by omega), h2]
    rw [hw pt rest hpt hg le_rfl, parts_small hr]
    simp only [Out.bind_ok, tag, openAll]
    rw [adOf_eq (lst := true) (by simp; omega)]
    cases ho : openP A mx n (adFor withAd true) rest with
    | none => rfl
    | some q =>
      simp only
      have hq : q.length ≤ rest.length := by
        unfold openP at ho
        split at ho
        · cases ho
        · split at ho
          · cases ho
          · split at ho
            · cases ho
            · have := hA.declen _ _ _ _ ho; omega
      rw [hw _ q (by simp; omega) (by simp) hq]
      simp only [Out.bind_ok]
      have hfin : ∀ (t : Bytes), (got ++ q ++ t).take (got.length + q.length) = got ++ q := by
        intro t; rw [← List.length_append, List.take_left']; rfl
      cases f with
      | zero => rw [decLoop, hfin]; simp
      | succ f =>
        rw [decLoop, if_pos (by omega), hfin]
        simp
  | h2 rest hr ih =>
    intro pre got n f pt hc hne hpt hg hle hfu
    have hcl : c.length = pre.length + rest.length := by rw [hc, List.length_append]
    obtain ⟨f, rfl⟩ : ∃ g, f = g + 1 := ⟨f - 1, by omega⟩
    set x := rest.take mx with hxdef
    set rest' := rest.drop mx with hrdef
    have hxl : x.length = mx := by rw [hxdef, List.length_take]; omega
    have hrest : rest = x ++ rest' := (List.take_append_drop _ _).symm
    have hrl : rest.length = x.length + rest'.length := by rw [hrest, List.length_append]
    have hr' : rest' ≠ [] := by
      intro h; rw [h] at hrl; simp at hrl; omega
    rw [decLoop, if_neg (by omega), readAt_ok (by omega)]
    have hx : (c.drop pre.length).take (min mx (c.length - pre.length)) = x := by
      rw [hc, hxdef]; simp
    simp only [Out.bind_ok, hx]
    have hw : ∀ (pt y : Bytes), pt.length = c.length → pt.take got.length = got → y.length ≤ rest.length →
        writeAt pt got.length y = .ok (got ++ y ++ pt.drop (got.length + y.length)) := by
      intro pt y h1 h2 h3
      unfold writeAt
      rw [if_neg (by omega), h2]
    rw [hw pt x hpt hg (by omega), parts_big hm hr]
    obtain ⟨y, t, hy⟩ : ∃ y t, parts mx rest' = y :: t := by
      cases h : parts mx rest' with
      | nil => exact absurd h (parts_ne _ _)
      | cons y t => exact ⟨y, t, rfl⟩
    simp only [Out.bind_ok]
    rw [← hxdef, ← hrdef, hy]
    simp only [tag, openAll]
    rw [adOf_eq (lst := false) (by simp; omega)]
    cases ho : openP A mx n (adFor withAd false) x with
    | none => rfl
    | some q =>
      simp only
      have hq : q.length ≤ x.length := by
        unfold openP at ho
        split at ho
        · cases ho
        · split at ho
          · cases ho
          · split at ho
            · cases ho
            · have := hA.declen _ _ _ _ ho; omega
      rw [hw _ q (by simp; omega) (by simp) (by omega)]
      simp only [Out.bind_ok]
      have key := ih (pre ++ x) (got ++ q) (n + 1) f (got ++ q ++ (got ++ x ++ pt.drop (got.length + x.length)).drop (got.length + q.length))
        (by rw [hc, hrest]; simp) hr' (by simp; omega) (by rw [List.take_left']; rfl) (by simp; omega) (by simp; omega)
      rw [List.length_append, List.length_append, hxl] at key
      rw [hxl]
      rw [key, hy]
      cases openAll A mx withAd (n + 1) (tag (y :: t)) with
      | mk m o => cases o <;> simp

/-- `Decrypt` opens the packets in order; nothing is checked in an empty message. -/
theorem decrypt_eq {A : Aead} (hA : A.Lawful) {mx : Nat} (hm : 0 < mx) (withAd : Bool) (n : Nat) (c : Bytes) :
    decrypt A mx withAd n c =
      if c = [] then .ok (n, some []) else
      match openAll A mx withAd n (tag (parts mx c)) with
      | (m, some ps) => .ok (m, some ps.flatten)
      | (m, none) => .ok (m, none) := by
  by_cases h : c = []
  · subst h; rfl
  · rw [if_neg h]
    have := decLoop_eq hA hm withAd c c [] [] n (c.length + 1) (zeros c.length) rfl h (by simp [zeros]) (by simp) (by simp) (by simp)
    simpa [decrypt] using this

theorem tag_ne {l : List Bytes} (h : l ≠ []) : tag l ≠ [] := by
  match l, h with
  | [x], _ => simp [tag]
  | x :: y :: t, _ => simp [tag]

theorem tag_snd : ∀ l : List Bytes, (tag l).map (·.2) = l
  | [] => rfl
  | [x] => rfl
  | x :: y :: t => by simp [tag, tag_snd (y :: t)]

theorem tag_length (l : List Bytes) : (tag l).length = l.length := by
  rw [← List.length_map (f := (·.2)), tag_snd]

/-- The packets of the sealed parts of a message are the sealed parts. -/
theorem parts_sealAll {A : Aead} (hA : A.Lawful) {mx : Nat} (hm : A.mac < mx) (h0 : 0 < A.mac) (withAd : Bool) : ∀ (p : Bytes) (n : Nat),
    parts mx (sealAll A withAd n (tag (parts (mx - A.mac) p))).flatten = sealAll A withAd n (tag (parts (mx - A.mac) p)) := by
  intro p
  induction p using parts_ind (show 0 < mx - A.mac by omega) with
  | h1 p h =>
    intro n
    rw [parts_small h]
    simp only [tag, sealAll, List.flatten_cons, List.flatten_nil, List.append_nil]
    rw [parts_small (by rw [hA.len]; omega)]
  | h2 p h ih =>
    intro n
    rw [parts_big (by omega) h]
    obtain ⟨y, t, hy⟩ : ∃ y t, parts (mx - A.mac) (p.drop (mx - A.mac)) = y :: t := by
      cases h : parts (mx - A.mac) (p.drop (mx - A.mac)) with
      | nil => exact absurd h (parts_ne _ _)
      | cons y t => exact ⟨y, t, rfl⟩
    have ih := ih (n + 1)
    rw [hy] at ih ⊢
    simp only [tag, sealAll, List.flatten_cons]
    have hl : (A.enc n (adFor withAd false) (p.take (mx - A.mac))).length = mx := by
      rw [hA.len, List.length_take]; omega
    have hne : 0 < (sealAll A withAd (n + 1) (tag (y :: t))).flatten.length := by
      cases t with
      | nil => simp [tag, sealAll, hA.len]; omega
      | cons z u => simp [tag, sealAll, hA.len]; omega
    rw [parts_big (by omega) (by rw [List.length_append]; omega), List.take_left' hl, List.drop_left' hl, ih]

theorem openAll_sealAll {A : Aead} (hA : A.Lawful) {mx : Nat} (withAd : Bool) : ∀ (l : List (Bool × Bytes)) (n : Nat),
    (∀ x ∈ l, x.2.length + A.mac ≤ mx) → n + l.length ≤ lastNonce →
    openAll A mx withAd n ((l.map (·.1)).zip (sealAll A withAd n l)) = (n + l.length, some (l.map (·.2)))
  | [], n, _, _ => rfl
  | (b, x) :: t, n, h, hn => by
    simp only [List.length_cons] at hn
    have hx := h _ List.mem_cons_self
    simp only at hx
    simp only [sealAll, List.map_cons, List.zip_cons_cons, openAll]
    have : openP A mx n (adFor withAd b) (A.enc n (adFor withAd b) x) = some x := by
      unfold openP
      rw [if_neg (by rw [hA.len]; omega), if_neg (by rw [hA.len]; omega), if_neg (by omega), hA.dec]
    rw [this]
    simp only
    rw [openAll_sealAll hA withAd t (n + 1) (fun y hy => h y (List.mem_cons_of_mem _ hy)) (by omega)]
    simp only [List.length_cons, Prod.mk.injEq, and_true]
    omega

theorem tag_sealAll (A : Aead) (withAd : Bool) : ∀ (l : List Bytes) (n : Nat),
    tag (sealAll A withAd n (tag l)) = ((tag l).map (·.1)).zip (sealAll A withAd n (tag l))
  | [], _ => rfl
  | [x], _ => rfl
  | x :: y :: t, n => by
    have ih := tag_sealAll A withAd (y :: t) (n + 1)
    cases t with
    | nil => rfl
    | cons z u =>
      simp only [tag, sealAll, List.map_cons, List.zip_cons_cons] at ih ⊢
      rw [ih]

theorem parts_le {k : Nat} (hk : 0 < k) (l : Bytes) : ∀ x ∈ parts k l, x.length ≤ k := by
  induction l using parts_ind hk with
  | h1 l h => rw [parts_small h]; simpa using h
  | h2 l h ih =>
    rw [parts_big hk h]
    intro x hx
    rcases List.mem_cons.mp hx with rfl | hx
    · rw [List.length_take]; omega
    · exact ih x hx

end Svr.Noise
