import Verif.Noise

/-!
# C45: large Noise messages survive splitting

`mx` is `max_message_size`; the code's value is `maxMessage`, 65535, with a MAC of 16 bytes.
-/

namespace Svr.Props.Noise
open Svr Svr.Noise

/-- A sender encrypts messages one after the other. -/
def sendAll (A : Aead) (mx : Nat) (withAd : Bool) : Nat → List Bytes → Out (Nat × Option (List Bytes))
  | n, [] => .ok (n, some [])
  | n, m :: t => do
    match ← encrypt A mx withAd n m with
    | (n, none) => .ok (n, none)
    | (n, some c) =>
      match ← sendAll A mx withAd n t with
      | (n, none) => .ok (n, none)
      | (n, some cs) => .ok (n, some (c :: cs))

/-- A receiver decrypts messages one after the other, and gives up at the first error. -/
def recvAll (A : Aead) (mx : Nat) (withAd : Bool) : Nat → List Bytes → Out (Nat × Option (List Bytes))
  | n, [] => .ok (n, some [])
  | n, d :: t => do
    match ← decrypt A mx withAd n d with
    | (n, none) => .ok (n, none)
    | (n, some m) =>
      match ← recvAll A mx withAd n t with
      | (n, none) => .ok (n, none)
      | (n, some ms) => .ok (n, some (m :: ms))

/-- **C45**: `Encrypt` stays within its buffers, whatever the message; it fails exactly when the nonces run out. -/
theorem C45_encrypt_no_ub {A : Aead} (hA : A.Lawful) {mx : Nat} (hm : A.mac < mx) (h0 : 0 < A.mac) (withAd : Bool) {n : Nat}
    (hn : n ≤ lastNonce) (p : Bytes) : ∃ m r, encrypt A mx withAd n p = .ok (m, r) ∧ n ≤ m ∧ m ≤ lastNonce := by
  rw [encrypt_eq hA hm h0 withAd p hn]
  split
  · exact ⟨_, _, rfl, by omega, by assumption⟩
  · exact ⟨_, _, rfl, hn, le_rfl⟩

theorem openAll_nonce {A : Aead} {mx : Nat} {withAd : Bool} : ∀ {l : List (Bool × Bytes)} {n : Nat}, n ≤ lastNonce →
    n ≤ (openAll A mx withAd n l).1 ∧ (openAll A mx withAd n l).1 ≤ lastNonce
  | [], n, h => ⟨le_rfl, h⟩
  | (b, c) :: t, n, h => by
    unfold openAll
    cases ho : openP A mx n (adFor withAd b) c with
    | none => exact ⟨le_rfl, h⟩
    | some p =>
      have hn : n ≠ lastNonce := by
        intro e
        unfold openP at ho
        split at ho
        · cases ho
        · split at ho
          · cases ho
          · first | (rw [if_pos e] at ho; cases ho) | cases ho
      have ih := openAll_nonce (A := A) (mx := mx) (withAd := withAd) (l := t) (n := n + 1) (by omega)
      simp only
      generalize openAll A mx withAd (n + 1) t = r at ih ⊢
      obtain ⟨m, o⟩ := r
      cases o <;> simp only at ih ⊢ <;> omega

/-- **C45**: `Decrypt` stays within its buffers, whatever it is given. -/
theorem C45_decrypt_no_ub {A : Aead} (hA : A.Lawful) {mx : Nat} (hm : 0 < mx) (withAd : Bool) {n : Nat} (hn : n ≤ lastNonce)
    (c : Bytes) : ∃ m r, decrypt A mx withAd n c = .ok (m, r) ∧ n ≤ m ∧ m ≤ lastNonce := by
  rw [decrypt_eq hA hm]
  split
  · exact ⟨_, _, rfl, le_rfl, hn⟩
  · have h := openAll_nonce (A := A) (mx := mx) (withAd := withAd) (l := tag (parts mx c)) hn
    generalize openAll A mx withAd n (tag (parts mx c)) = r at h ⊢
    obtain ⟨m, o⟩ := r
    cases o
    · exact ⟨_, _, rfl, h⟩
    · exact ⟨_, _, rfl, h⟩

/-- What a message becomes. -/
theorem decrypt_sealed {A : Aead} (hA : A.Lawful) {mx : Nat} (hm : A.mac < mx) (h0 : 0 < A.mac) (withAd : Bool) {n : Nat} (p : Bytes)
    (hn : n + (parts (mx - A.mac) p).length ≤ lastNonce) :
    decrypt A mx withAd n (sealAll A withAd n (tag (parts (mx - A.mac) p))).flatten =
      .ok (n + (parts (mx - A.mac) p).length, some p) := by
  have hne : (sealAll A withAd n (tag (parts (mx - A.mac) p))).flatten ≠ [] := by
    obtain ⟨y, t, hy⟩ : ∃ y t, parts (mx - A.mac) p = y :: t := by
      cases h : parts (mx - A.mac) p with
      | nil => exact absurd h (parts_ne _ _)
      | cons y t => exact ⟨y, t, rfl⟩
    rw [hy]
    intro h
    have h := congrArg List.length h
    cases t <;> simp [tag, sealAll, hA.len] at h <;> omega
  rw [decrypt_eq hA (by omega), if_neg hne, parts_sealAll hA hm h0, tag_sealAll, openAll_sealAll hA withAd _ _ ?_ (by rw [tag_length]; exact hn)]
  · simp only [tag_length, tag_snd, parts_flatten (show 0 < mx - A.mac by omega)]
  · intro x hx
    have h1 : x.2 ∈ (tag (parts (mx - A.mac) p)).map (·.2) := List.mem_map_of_mem hx
    rw [tag_snd] at h1
    have := parts_le (show 0 < mx - A.mac by omega) p _ h1
    omega

theorem encrypt_some {A : Aead} (hA : A.Lawful) {mx : Nat} (hm : A.mac < mx) (h0 : 0 < A.mac) {withAd : Bool} {n m : Nat}
    (hn : n ≤ lastNonce) {p c : Bytes} (h : encrypt A mx withAd n p = .ok (m, some c)) :
    n + (parts (mx - A.mac) p).length ≤ lastNonce ∧ m = n + (parts (mx - A.mac) p).length ∧
    c = (sealAll A withAd n (tag (parts (mx - A.mac) p))).flatten := by
  rw [encrypt_eq hA hm h0 withAd p hn] at h
  split at h
  · cases h; exact ⟨by assumption, rfl, rfl⟩
  · cases h

/-- **C45**: messages of any lengths, encrypted one after the other, decrypt to the same messages. -/
theorem C45_round_trip {A : Aead} (hA : A.Lawful) {mx : Nat} (hm : A.mac < mx) (h0 : 0 < A.mac) (withAd : Bool) :
    ∀ (ms : List Bytes) {n m : Nat} {cs : List Bytes}, n ≤ lastNonce → sendAll A mx withAd n ms = .ok (m, some cs) →
    recvAll A mx withAd n cs = .ok (m, some ms)
  | [], n, m, cs, _, h => by cases h; rfl
  | p :: t, n, m, cs, hn, h => by
    unfold sendAll at h
    obtain ⟨⟨n1, o⟩, h1, h⟩ := Out.bind_eq_ok.mp h
    cases o with
    | none => cases h
    | some c =>
      obtain ⟨⟨n2, o⟩, h2, h⟩ := Out.bind_eq_ok.mp h
      cases o with
      | none => cases h
      | some cs' =>
        cases h
        obtain ⟨a1, rfl, rfl⟩ := encrypt_some hA hm h0 hn h1
        unfold recvAll
        rw [decrypt_sealed hA hm h0 withAd p a1]
        simp only [Out.bind_ok]
        rw [C45_round_trip hA hm h0 withAd t a1 h2]
        rfl

/-! ## Tampering -/

/-- The uses of the cipher for consecutive parts: nonce, associated data, text. -/
def calls : Nat → List (Bool × Bytes) → List (Nat × Bytes × Bytes)
  | _, [] => []
  | n, (b, x) :: t => (n, adFor true b, x) :: calls (n + 1) t

/-- The parts of a message to encrypt (`k` is the size of a part), the last one marked. -/
def partsOf (k : Nat) (p : Bytes) : List (Bool × Bytes) := tag (parts k p)

/-- The packets of a message received, the last one marked; an empty message has none. -/
def packetsOf (mx : Nat) (c : Bytes) : List (Bool × Bytes) := if c = [] then [] else tag (parts mx c)

/-- Among the packets `D` given to the cipher for decryption there is no forgery: those that it accepts were made by
encrypting one of `S`. -/
def NoForgery (A : Aead) (S D : List (Nat × Bytes × Bytes)) : Prop :=
  ∀ x ∈ D, ∀ p, A.dec x.1 x.2.1 x.2.2 = some p → (x.1, x.2.1, p) ∈ S ∧ x.2.2 = A.enc x.1 x.2.1 p

theorem calls_ge : ∀ {l : List (Bool × Bytes)} {n : Nat} {x : Nat × Bytes × Bytes}, x ∈ calls n l → n ≤ x.1
  | (b, y) :: t, n, x, h => by
    rcases List.mem_cons.mp h with rfl | h
    · exact le_rfl
    · have := calls_ge h; omega

theorem calls_append : ∀ (l t : List (Bool × Bytes)) (n : Nat), calls n (l ++ t) = calls n l ++ calls (n + l.length) t
  | [], t, n => rfl
  | (b, x) :: l, t, n => by
    simp only [List.cons_append, calls, calls_append l t (n + 1), List.length_cons]
    rw [show n + 1 + l.length = n + (l.length + 1) by omega]

theorem calls_lt : ∀ {l : List (Bool × Bytes)} {n : Nat} {x : Nat × Bytes × Bytes}, x ∈ calls n l → x.1 < n + l.length
  | (b, y) :: t, n, x, h => by
    rcases List.mem_cons.mp h with rfl | h
    · simp
    · have := calls_lt h; simp only [List.length_cons]; omega

theorem adFor_inj {b b' : Bool} (h : adFor true b = adFor true b') : b = b' := by
  cases b <;> cases b' <;> simp [adFor] at h ⊢

theorem openAll_cons {A : Aead} {mx : Nat} {withAd : Bool} {b : Bool} {c : Bytes} {t : List (Bool × Bytes)} {n m : Nat} {ps : List Bytes}
    (h : openAll A mx withAd n ((b, c) :: t) = (m, some ps)) :
    ∃ p ps', ps = p :: ps' ∧ A.dec n (adFor withAd b) c = some p ∧ openAll A mx withAd (n + 1) t = (m, some ps') := by
  unfold openAll at h
  cases ho : openP A mx n (adFor withAd b) c with
  | none => rw [ho] at h; cases h
  | some p =>
    rw [ho] at h
    simp only at h
    have hd : A.dec n (adFor withAd b) c = some p := by
      unfold openP at ho
      split at ho
      · cases ho
      · split at ho
        · cases ho
        · split at ho
          · cases ho
          · exact ho
    cases hr : openAll A mx withAd (n + 1) t with
    | mk m' o =>
      rw [hr] at h
      cases o with
      | none => cases h
      | some ps' => cases h; exact ⟨p, ps', rfl, hd, rfl⟩

/-- Packets accepted one after the other are the sealed parts that come next. -/
theorem accepted {A : Aead} {mx : Nat} {S : List (Nat × Bytes × Bytes)} : ∀ {l : List (Bool × Bytes)} {n m : Nat} {ps : List Bytes}
    {T : List (Bool × Bytes)}, openAll A mx true n l = (m, some ps) → NoForgery A S (calls n l) →
    (∀ x ∈ S, n ≤ x.1 → x ∈ calls n T) →
    m = n + l.length ∧ ps.length = l.length ∧ (l.map (·.1)).zip ps <+: T ∧ l.map (·.2) = sealAll A true n ((l.map (·.1)).zip ps)
  | [], n, m, ps, T, h, _, _ => by cases h; exact ⟨rfl, rfl, List.nil_prefix, rfl⟩
  | (b, c) :: t, n, m, ps, T, h, hf, hS => by
    obtain ⟨p, ps', rfl, h1, h2⟩ := openAll_cons h
    obtain ⟨h3, h4⟩ := hf _ List.mem_cons_self p h1
    have h5 := hS _ h3 le_rfl
    match T, h5 with
    | (b', x) :: T', h5 =>
      have h6 : b' = b ∧ x = p := by
        rcases List.mem_cons.mp h5 with e | e
        · simp only [Prod.mk.injEq, true_and] at e
          exact ⟨(adFor_inj e.1).symm, e.2.symm⟩
        · have := calls_ge e; simp only at this; omega
      obtain ⟨rfl, rfl⟩ := h6
      obtain ⟨i1, i2, i3, i4⟩ := accepted (T := T') h2 (fun y hy => hf y (List.mem_cons_of_mem _ hy)) (by
        intro y hy hl
        rcases List.mem_cons.mp (hS y hy (by omega)) with e | e
        · rw [e] at hl; simp only at hl; omega
        · exact e)
      refine ⟨by simp only [List.length_cons]; omega, by simp [i2], ?_, ?_⟩
      · simp only [List.map_cons, List.zip_cons_cons]
        obtain ⟨u, hu⟩ := i3
        exact ⟨u, by rw [List.cons_append, hu]⟩
      · simp only [List.map_cons, List.zip_cons_cons, sealAll]
        rw [i4]
        simp only at h4
        rw [← h4]

/-- The marks of a list of parts only depend on their number. -/
theorem tag_zip : ∀ {l ps : List Bytes}, ps.length = l.length → ((tag l).map (·.1)).zip ps = tag ps
  | [], [], _ => rfl
  | [x], [y], _ => rfl
  | x :: y :: t, a :: b :: u, h => by
    have := tag_zip (l := y :: t) (ps := b :: u) (by simpa using h)
    simp only [tag, List.map_cons, List.zip_cons_cons, this]

/-- The first last part ends a message. -/
theorem tag_prefix : ∀ {a b : List Bytes} {R : List (Bool × Bytes)}, a ≠ [] → b ≠ [] → tag a <+: tag b ++ R → a = b
  | [x], [y], R, _, _, h => by
    obtain ⟨u, hu⟩ := h
    simp only [tag, List.singleton_append, List.cons.injEq, Prod.mk.injEq, true_and] at hu
    rw [hu.1]
  | [x], y :: z :: t, R, _, _, h => by
    obtain ⟨u, hu⟩ := h
    simp [tag] at hu
  | x :: y :: t, [z], R, _, _, h => by
    obtain ⟨u, hu⟩ := h
    simp [tag] at hu
  | x :: y :: t, x' :: y' :: t', R, _, _, h => by
    obtain ⟨u, hu⟩ := h
    simp only [tag, List.cons_append, List.cons.injEq, Prod.mk.injEq, true_and] at hu
    rw [hu.1, tag_prefix (a := y :: t) (b := y' :: t') (by simp) (by simp) ⟨u, hu.2⟩]

theorem tag_length_map (l : List Bytes) : ((tag l).map (·.2)).flatten = l.flatten := by rw [tag_snd]

/-- **C45**, with associated data: leaving out empty messages, which carry nothing, whatever a receiver accepts is a
beginning of what was sent: no packet or message was cut off, reordered, repeated, replaced or joined with another.
`S` is all the sender encrypted, before (`old`) and in the messages `ms`. -/
theorem C45_tampering_rejected_partial {A : Aead} (hA : A.Lawful) {mx : Nat} (hm : A.mac < mx) (h0 : 0 < A.mac) :
    ∀ (ds : List Bytes) {n m m' : Nat} {ms cs os : List Bytes} {old : List (Nat × Bytes × Bytes)}, n ≤ lastNonce →
    sendAll A mx true n ms = .ok (m, some cs) → recvAll A mx true n ds = .ok (m', some os) → (∀ x ∈ old, x.1 < n) →
    NoForgery A (old ++ calls n (ms.flatMap (partsOf (mx - A.mac)))) (calls n (ds.flatMap (packetsOf mx))) →
    (ds.zip os).filter (fun x => !x.1.isEmpty) <+: cs.zip ms
  | [], n, m, m', ms, cs, os, old, _, _, _, _, _ => by simp
  | d :: ds, n, m, m', ms, cs, os, old, hn, hs, hr, ho, hf => by
    unfold recvAll at hr
    obtain ⟨⟨n1, o⟩, h1, hr⟩ := Out.bind_eq_ok.mp hr
    cases o with
    | none => cases hr
    | some y =>
      obtain ⟨⟨n2, o⟩, h2, hr⟩ := Out.bind_eq_ok.mp hr
      cases o with
      | none => cases hr
      | some ys =>
        cases hr
        rw [decrypt_eq hA (by omega)] at h1
        by_cases hd : d = []
        · subst hd
          rw [if_pos rfl] at h1
          cases h1
          rw [List.flatMap_cons] at hf
          exact C45_tampering_rejected_partial hA hm h0 ds hn hs h2 ho hf
        · rw [if_neg hd] at h1
          have hpk : packetsOf mx d = tag (parts mx d) := by unfold packetsOf; rw [if_neg hd]
          rw [List.flatMap_cons, hpk, calls_append] at hf
          cases ho1 : openAll A mx true n (tag (parts mx d)) with
          | mk k o =>
            rw [ho1] at h1
            cases o with
            | none => cases h1
            | some ps =>
              cases h1
              obtain ⟨i1, i2, i3, i4⟩ := accepted (T := ms.flatMap (partsOf (mx - A.mac))) ho1
                (fun x hx => hf x (List.mem_append_left _ hx)) (by
                  intro x hx hl
                  rcases List.mem_append.mp hx with e | e
                  · have := ho x e; omega
                  · exact e)
              rw [tag_length] at i1 i2
              rw [tag_zip i2] at i3 i4
              rw [tag_snd] at i4
              have hps : ps ≠ [] := by
                intro e; rw [e] at i2
                exact parts_ne mx d (List.eq_nil_of_length_eq_zero i2.symm)
              match ms, hs with
              | [], hs =>
                obtain ⟨u, hu⟩ := i3
                exact absurd (List.append_eq_nil_iff.mp hu).1 (tag_ne hps)
              | p :: ms, hs =>
                unfold sendAll at hs
                obtain ⟨⟨n3, o⟩, s1, hs⟩ := Out.bind_eq_ok.mp hs
                cases o with
                | none => cases hs
                | some c =>
                  obtain ⟨⟨n4, o⟩, s2, hs⟩ := Out.bind_eq_ok.mp hs
                  cases o with
                  | none => cases hs
                  | some cs =>
                    cases hs
                    obtain ⟨a1, rfl, rfl⟩ := encrypt_some hA hm h0 hn s1
                    rw [List.flatMap_cons] at i3
                    have e := tag_prefix hps (parts_ne _ _) i3
                    subst e
                    have hfl : (parts (mx - A.mac) p).flatten = p := parts_flatten (by omega) p
                    have hdd : d = (sealAll A true n (tag (parts (mx - A.mac) p))).flatten := by
                      rw [← i4, parts_flatten (by omega)]
                    have hnk : n + (tag (parts mx d)).length = n + (parts (mx - A.mac) p).length := by rw [tag_length, i2]
                    rw [hnk] at hf
                    have hk : n1 = n + (parts (mx - A.mac) p).length := by rw [i1, ← i2]
                    rw [hk] at h2
                    have ih := C45_tampering_rejected_partial hA hm h0 ds
                      (old := old ++ calls n (partsOf (mx - A.mac) p)) a1 s2 h2 (by
                        intro x hx
                        rcases List.mem_append.mp hx with e | e
                        · have := ho x e; omega
                        · have := calls_lt e; rw [partsOf, tag_length] at this; exact this) (by
                        intro x hx q hq
                        have := hf x (List.mem_append_right _ hx) q hq
                        rw [List.flatMap_cons, calls_append, partsOf, tag_length] at this
                        rw [partsOf, List.append_assoc]
                        exact this)
                    rw [hfl, ← hdd]
                    have hne : (!d.isEmpty) = true := by cases d <;> simp at hd ⊢
                    simp only [List.zip_cons_cons, List.filter_cons, hne, if_true]
                    exact List.cons_prefix_cons.mpr ⟨rfl, ih⟩

/-! ## Concrete cases -/

/-- A cipher for examples: the text, the nonce and the associated data. -/
def plain : Aead where
  mac := 2
  enc n ad p := p ++ [UInt8.ofNat n, ad.getLast?.getD 7]
  dec n ad c := if 2 ≤ c.length ∧ c.drop (c.length - 2) = [UInt8.ofNat n, ad.getLast?.getD 7] then some (c.take (c.length - 2)) else none

theorem plain_lawful : plain.Lawful where
  len n ad p := by simp [plain]
  declen n ad c p h := by
    simp only [plain] at h ⊢
    split at h
    · rename_i hc
      cases h
      rw [List.length_take]; omega
    · cases h
  dec n ad p := by simp [plain]

/-- Three messages, the last one in three packets. -/
example : sendAll plain 5 true 0 [[1, 2], [], [1, 2, 3, 4, 5, 6, 7]] =
    .ok (5, some [[1, 2, 0, 1], [1, 1], [1, 2, 3, 2, 0, 4, 5, 6, 3, 0, 7, 4, 1]]) ∧
    recvAll plain 5 true 0 [[1, 2, 0, 1], [1, 1], [1, 2, 3, 2, 0, 4, 5, 6, 3, 0, 7, 4, 1]] =
    .ok (5, some [[1, 2], [], [1, 2, 3, 4, 5, 6, 7]]) := by
  decide

/-- Cut after the second packet, it is refused. -/
example : recvAll plain 5 true 0 [[1, 2, 0, 1], [1, 1], [1, 2, 3, 2, 0, 4, 5, 6, 3, 0]] = .ok (3, none) := by decide

/-- The hypotheses of `C45_tampering_rejected_partial` in that case. -/
example : NoForgery plain (calls 0 ([[1, 2], [1, 2, 3, 4]].flatMap (partsOf 3)))
    (calls 0 ([[1, 2, 0, 1], [1, 2, 3, 1, 0, 4, 2, 1]].flatMap (packetsOf 5))) := by
  have e1 : ([[1, 2], [1, 2, 3, 4]] : List Bytes).flatMap (partsOf 3) = [(true, [1, 2]), (false, [1, 2, 3]), (true, [4])] := by
    simp [partsOf, tag, parts]
  have e2 : ([[1, 2, 0, 1], [1, 2, 3, 1, 0, 4, 2, 1]] : List Bytes).flatMap (packetsOf 5) =
      [(true, [1, 2, 0, 1]), (false, [1, 2, 3, 1, 0]), (true, [4, 2, 1])] := by
    simp [packetsOf, tag, parts]
  rw [e1, e2]
  intro x hx p hp
  simp only [calls, List.mem_cons, List.not_mem_nil, or_false] at hx
  rcases hx with rfl | rfl | rfl <;> (simp [plain, adFor] at hp; subst hp; simp [calls, adFor, plain])

/-- **C45 is false for the empty message**: it is accepted at any time, though nothing was sent, with any cipher. -/
theorem C45_empty_accepted (A : Aead) (mx : Nat) (withAd : Bool) (n : Nat) : decrypt A mx withAd n [] = .ok (n, some []) := rfl

/-- Without associated data, as for clients (enclave/client/client.cc:24, 135, 155), a message cut after a packet is accepted. -/
theorem C45_cut_accepted_without_ad : ∃ (p c q : Bytes), encrypt plain 5 false 0 p = .ok (2, some c) ∧
    decrypt plain 5 false 0 (c.take 5) = .ok (1, some q) ∧ q ≠ p :=
  ⟨[1, 2, 3, 4], [1, 2, 3, 0, 7, 4, 1, 7], [1, 2, 3], by decide, by decide, by decide⟩

end Svr.Props.Noise
