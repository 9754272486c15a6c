import Verif.Attest.NitroSig

/-!
# C58, C59, C60: attestation on AWS Nitro

Specification side: `Spec.Nitro`.
-/

namespace Svr.Props.Nitro

open Svr Svr.Attest Svr.Attest.Nitro
open Svr.Spec (Item ascii)
open Svr.Spec.Nitro (AsBytes Document Lawful Signed HeaderPasses FirstPair Readable es384 sigStructure value bytesOf register)

/-- **C58 (in part).** Given that memory can be had: of messages whose protected header begins with a pair of integers, or is no map, `ParseFromBytes`
accepts exactly those that AWS makes: the header says ES384, there is a payload, and the signature has 96 bytes.

Missing: other protected headers, of which it is false, see `C58_header_is_not_checked`. -/
theorem C58_messages_are_read_exactly_partial (W : World) (all : ∀ n, W.alloc n = true) (data header payload signature : Bytes)
    (pair : ∀ m, W.cbor header = .map m → Readable m → ∃ key val rest, FirstPair (W.cbor header) key val rest) :
    Cose.parse W data = .ok (.ok ⟨header, payload, signature⟩) ↔
      Spec.Nitro.Cose (W.cbor data) header payload signature ∧ W.cbor header = es384 ∧ payload ≠ [] ∧ signature.length = 96 := by
  constructor
  · intro h
    obtain ⟨h1, ⟨m, e, g⟩, h2⟩ := coseParse_sound h
    obtain ⟨key, val, rest, hp⟩ := pair m e g
    exact ⟨h1, h2 key val rest hp⟩
  · rintro ⟨h1, h2, h3, h4⟩
    refine coseParse_complete all h1 ⟨⟨_, h2, by intro t; simp⟩, ?_⟩
    intro _ _ _ _
    exact ⟨h2, h3, h4⟩

/-- A parser of CBOR that knows a message, with the empty map as its protected header and nothing else in it. -/
def emptyHeader : World where
  alloc _ := true
  cbor b := match b with
    | [1] => .arr (some 4) [.bytes [0xa0], .map [], .bytes [], .null]
    | [0xa0] => .map []
    | _ => .bad

/-- **C58 is false of the code.** A message whose protected header is the empty map is accepted, although it has neither a payload nor a
signature: `Valid` returns the error of reading the map as `true`. -/
theorem C58_header_is_not_checked : Cose.parse emptyHeader [1] = .ok (.ok ⟨[0xa0], [], []⟩) := by
  refine coseParse_complete (fun _ => rfl) ⟨_, _, _, rfl, Or.inl rfl, Or.inl rfl, Or.inr ⟨rfl, rfl⟩⟩ ⟨⟨[], rfl, by intro t; simp⟩, ?_⟩
  rintro key val rest ⟨h, -⟩
  simp [emptyHeader] at h

/-- **C59.** Given that memory can be had and the time does not overflow: `Attest` accepts evidence exactly when it is a message of AWS's form
(but for what C58 says about the protected header), with a lawful document in it that the key of its certificate signed, which chains to a
root at the time or an hour before or after, and the first three registers are those of the own image. It returns what is in the user data. -/
theorem C59_accepts_exactly (L : Lib) (W : World) (all : ∀ n, W.alloc n = true) (roots : List L.Cert) (loc : OMap Int Bytes) (now : Int)
    (hn : -2^63 ≤ now - 3600 ∧ now + 3600 < 2^63) (evidence : Bytes) (d : Data) :
    Attest.Nitro.attest L W roots loc now evidence = .ok (some d) ↔
      ∃ header payload signature fs, Spec.Nitro.Cose (W.cbor evidence) header payload signature ∧
        HeaderPasses W.cbor header payload signature ∧ Document (W.cbor payload) fs ∧ Lawful fs ∧
        Signed L roots now (bytesOf (value fs "certificate".toList)) (Spec.Nitro.bundle fs) header payload signature ∧
        (∀ i ∈ [0, 1, 2], ∃ b, loc.find i = some b ∧ register fs i = some b) ∧
        L.parseData (bytesOf (value fs "user_data".toList)) = some d := by
  rw [Attest.Nitro.attest]
  constructor
  · intro h
    obtain ⟨x, h1, h⟩ := Out.bind_eq_ok.mp h
    rcases x with er | c
    · simp at h
    obtain ⟨y, h2, h⟩ := Out.bind_eq_ok.mp h
    rcases y with er | doc
    · simp at h
    obtain ⟨z, h3, h⟩ := Out.bind_eq_ok.mp h
    rcases z with er | u
    · simp at h
    simp only at h
    split at h
    · simp at h
    rename_i hm
    obtain ⟨a1, a2⟩ := coseParse_sound h1
    obtain ⟨fs, b1, b2, rfl⟩ := docParse_sound h2
    have c1 := (verify_iff L roots _ c now hn).mp h3
    rw [docOf_certificate, docOf_cabundle] at c1
    rw [docOf_userData, Out.ok.injEq] at h
    refine ⟨c.header, c.payload, c.signature, fs, a1, a2, b1, b2, c1, ?_, h⟩
    simp only [pcrsMatch, Bool.and_eq_true, pcrMatches_iff, docOf_register, not_not] at hm
    intro i hi
    simp only [List.mem_cons, List.not_mem_nil, or_false] at hi
    rcases hi with rfl | rfl | rfl
    · exact hm.1.1
    · exact hm.1.2
    · exact hm.2
  · rintro ⟨header, payload, signature, fs, a1, a2, b1, b2, c1, hm, h⟩
    rw [coseParse_complete all (c := ⟨header, payload, signature⟩) a1 a2, Out.bind_ok]
    simp only
    rw [docParse_complete all b1 b2, Out.bind_ok]
    simp only
    rw [(verify_iff L roots _ _ now hn).mpr (by rw [docOf_certificate, docOf_cabundle]; exact c1), Out.bind_ok]
    simp only
    rw [if_neg, docOf_userData, h]
    simp only [pcrsMatch, Bool.and_eq_true, pcrMatches_iff, docOf_register, not_not]
    exact ⟨⟨hm 0 (by simp), hm 1 (by simp)⟩, hm 2 (by simp)⟩

/-- **C59.** What is signed never fails to be encoded, and tells messages apart. -/
theorem C59_signed_bytes_tell_apart (c c' : Cose) (hh : c.header.length < 2^64) (hp : c.payload.length < 2^64) (hh' : c'.header.length < 2^64)
    (hp' : c'.payload.length < 2^64) :
    ∃ b b', c.signingBytes = .ok b ∧ c'.signingBytes = .ok b' ∧ (b = b' → c.header = c'.header ∧ c.payload = c'.payload) :=
  ⟨_, _, signingBytes_eq c, signingBytes_eq c', sigStructure_inj _ _ _ _ hh hp hh' hp'⟩

theorem docItems_inj : ∀ fs fs' : List (Bytes × Item), docItems fs = docItems fs' → fs = fs'
  | [], [], _ => rfl
  | [], f :: fs, h => by rw [docItems_cons] at h; cases h
  | f :: fs, [], h => by rw [docItems_cons] at h; cases h
  | f :: fs, f' :: fs', h => by
    rw [docItems_cons, docItems_cons, List.cons.injEq, List.cons.injEq, Item.text.injEq] at h
    rw [docItems_inj fs fs' h.2.2, Prod.ext_iff.mpr ⟨h.1, h.2.1⟩]

theorem byteString_length {W : World} (mem : ∀ n, W.alloc n = true → n < 2^64) {l r : List Item} {b : Bytes}
    (h : byteString W l = .ok (.ok (b, r))) : b.length < 2^64 := by
  rw [byteString.eq_def] at h
  split at h
  · obtain ⟨rfl, -⟩ := (past_iff ..).mp h
    simp
  · split at h
    · rename_i ha
      obtain ⟨rfl, -⟩ := (past_iff ..).mp h
      exact mem _ ha
    · cases h
  · split at h <;> simp at h
  · simp at h

theorem coseParse_lengths {W : World} (mem : ∀ n, W.alloc n = true → n < 2^64) {data : Bytes} {c : Cose} (h : Cose.parse W data = .ok (.ok c)) :
    c.header.length < 2^64 ∧ c.payload.length < 2^64 := by
  rw [Cose.parse.eq_def] at h
  split at h
  · simp at h
  · split at h
    · simp at h
    obtain ⟨⟨hd, l1⟩, h1, h⟩ := andThen_ok.mp h
    obtain ⟨l2, h2, h⟩ := andThen_ok.mp h
    obtain ⟨⟨pl, l3⟩, h3, h⟩ := andThen_ok.mp h
    obtain ⟨⟨sg, l4⟩, h4, h5⟩ := andThen_ok.mp h
    have b1 := byteString_length mem h1
    have b2 := byteString_length mem h3
    simp only at h5
    split at h5
    · simp at h5
    split at h5
    · simp at h5
    simp only [Out.ok.injEq, Except.ok.injEq] at h5
    subst h5
    exact ⟨b1, b2⟩
  · simp at h

/-- Two inputs with the same hash. -/
def Collision (h : Bytes → Bytes) : Prop := ∃ x y, x ≠ y ∧ h x = h y

/-- **C59.** Say that `Made D` means that a Nitro security module issued the document `D`. If keys certified by the root sign nothing but such
documents, whose registers have numbers below 32, then evidence is accepted only if a module issued a document in which the first three registers
are those of the own image, and which has as its user data that from which the returned key was read; or else two inputs of SHA384 with the same
hash are known. That the protected header may be anything (C58) does not matter. -/
theorem C59_key_was_attested_by_the_same_image (L : Lib) (W : World) (mem : ∀ n, W.alloc n = true → n < 2^64) (roots : List L.Cert)
    (loc : OMap Int Bytes) (now : Int) (hn : -2^63 ≤ now - 3600 ∧ now + 3600 < 2^63) (evidence : Bytes) (d : Data)
    (Made : Spec.Nitro.Doc → Prop) (docs : ∀ D, Made D → ∀ p ∈ D.pcrs, p.1 < 32)
    (signs : ∀ c cs k t, (t = now + 3600 ∨ t = now ∨ t = now - 3600) → L.chain roots cs c t = true → L.pub c = some (.ec k) →
      ∀ m r s, L.ecdsa k m r s = true →
        ∃ D h p, Made D ∧ W.cbor p = D.item ∧ h.length < 2^64 ∧ p.length < 2^64 ∧ m = L.sha384 (sigStructure h p))
    (acc : Attest.Nitro.attest L W roots loc now evidence = .ok (some d)) :
    (∃ D u, Made D ∧ (∀ i ∈ [0, 1, 2], ∃ b, loc.find i = some b ∧ (i.toNat, b) ∈ D.pcrs) ∧
      (D.userData = some u ∨ D.userData = none ∧ u = []) ∧ L.parseData u = some d) ∨
    Collision L.sha384 := by
  rw [Attest.Nitro.attest] at acc
  obtain ⟨x, h1, h⟩ := Out.bind_eq_ok.mp acc
  rcases x with er | c
  · simp at h
  obtain ⟨y, h2, h⟩ := Out.bind_eq_ok.mp h
  rcases y with er | doc
  · simp at h
  obtain ⟨z, h3, h⟩ := Out.bind_eq_ok.mp h
  rcases z with er | u
  · simp at h
  simp only at h
  split at h
  · simp at h
  rename_i hm
  obtain ⟨l1, l2⟩ := coseParse_lengths mem h1
  obtain ⟨fs, b1, b2, rfl⟩ := docParse_sound h2
  obtain ⟨x, cs, k, -, -, ⟨t, ht, hc⟩, hk, -, hs⟩ := (verify_iff L roots _ c now hn).mp h3
  obtain ⟨D, h', p', hD, hp, l1', l2', e⟩ := signs x cs k t ht hc hk _ _ _ hs
  by_cases heq : sigStructure c.header c.payload = sigStructure h' p'
  · obtain ⟨-, e2⟩ := sigStructure_inj _ _ _ _ l1 l2 l1' l2' heq
    have hf : fs = D.fields := by
      apply docItems_inj
      have := b1.1
      rw [e2, hp] at this
      exact (Item.map.inj this).symm
    subst hf
    rw [docOf_userData, Out.ok.injEq] at h
    simp only [pcrsMatch, Bool.and_eq_true, pcrMatches_iff, docOf_register, not_not] at hm
    have reg : ∀ i : Int, 0 ≤ i ∧ i < 32 → ∀ b, register D.fields i = some b → (i.toNat, b) ∈ D.pcrs := by
      intro i hi b hb
      have e : Spec.Nitro.registers D.fields = D.pcrs.map fun p => ((p.1 : Int), Item.bytes p.2) := by
        have : Spec.Nitro.registers D.fields = Spec.Nitro.intPairs (regItems (D.pcrs.map fun p => ((p.1 : Int), Item.bytes p.2))) ++ [] := by
          simp only [regItems, List.map_map]
          rfl
        rw [this, List.append_nil, intPairs_regItems]
      rw [register, if_pos (by omega), e] at hb
      obtain ⟨q, hq, rfl⟩ := Option.map_eq_some_iff.mp hb
      have hmem := List.mem_of_find?_eq_some hq
      have hcong := List.find?_some hq
      rw [decide_eq_true_eq] at hcong
      obtain ⟨p, hp', rfl⟩ := List.mem_map.mp (List.mem_reverse.mp hmem)
      have := docs D hD p hp'
      have e' : i.toNat = p.1 := by simp only at hcong; omega
      rw [e']
      exact hp'
    refine Or.inl ⟨D, bytesOf (value D.fields "user_data".toList), hD, ?_, ?_, h⟩
    · intro i hi
      simp only [List.mem_cons, List.not_mem_nil, or_false] at hi
      rcases hi with rfl | rfl | rfl
      · obtain ⟨b, hb, hr⟩ := hm.1.1; exact ⟨b, hb, reg 0 (by omega) b hr⟩
      · obtain ⟨b, hb, hr⟩ := hm.1.2; exact ⟨b, hb, reg 1 (by omega) b hr⟩
      · obtain ⟨b, hb, hr⟩ := hm.2; exact ⟨b, hb, reg 2 (by omega) b hr⟩
    · have e : value D.fields "user_data".toList = some (Spec.Nitro.optional D.userData) := rfl
      rw [e]
      cases D.userData with
      | none => exact Or.inr ⟨rfl, rfl⟩
      | some u => exact Or.inl rfl
  · exact Or.inr ⟨_, _, heq, e⟩

/-- **C60 (in part).** On Nitro, evidence that is any bytes makes `Attest` return, given that memory can be had and the time does not overflow.

Missing: lengths for which there is no memory, see `C60_huge_length`. -/
theorem C60_nitro_attest_returns_partial (L : Lib) (W : World) (all : ∀ n, W.alloc n = true) (roots : List L.Cert) (loc : OMap Int Bytes)
    (now : Int) (hn : -2^63 ≤ now - 3600 ∧ now + 3600 < 2^63) (evidence : Bytes) :
    ∃ r, Attest.Nitro.attest L W roots loc now evidence = .ok r := by
  rw [Attest.Nitro.attest]
  obtain ⟨x, hx⟩ := coseParse_total all evidence
  rw [hx, Out.bind_ok]
  rcases x with er | c
  · exact ⟨_, rfl⟩
  simp only
  obtain ⟨y, hy⟩ := docParse_total all c.payload
  rw [hy, Out.bind_ok]
  rcases y with er | doc
  · exact ⟨_, rfl⟩
  simp only
  obtain ⟨z, hz⟩ := verify_total L roots doc c now hn
  rw [hz, Out.bind_ok]
  rcases z with er | u
  · exact ⟨_, rfl⟩
  simp only
  split <;> exact ⟨_, rfl⟩

/-- Evidence of ten bytes: an array of four items, of which the first is a byte string with a length of `2^64 - 1`. -/
def hugeLength : Bytes := [0x84, 0x5b, 255, 255, 255, 255, 255, 255, 255, 255]

/-- **C60 is false of the code.** Ten bytes of evidence end the process: the string is resized to the length in its header before it is known whether
the data is that long, and the exception is not caught. -/
theorem C60_huge_length (L : Lib) (W : World) (read : W.cbor hugeLength = .arr (some 4) [.bytesCut (2^64 - 1)])
    (mem : W.alloc (2^64 - 1) = false) (roots : List L.Cert) (loc : OMap Int Bytes) (now : Int) :
    Attest.Nitro.attest L W roots loc now hugeLength = .abort := by
  have e : enter [Item.bytesCut (2^64 - 1)] = some [Item.bytesCut (2^64 - 1)] := rfl
  have h : byteString W [Item.bytesCut (2^64 - 1)] = .abort := by rw [byteString, mem]; rfl
  have h2 : Cose.parse W hugeLength = .abort := by
    rw [Cose.parse.eq_def, read]
    simp only [e, h]
    rfl
  rw [Attest.Nitro.attest, h2]
  rfl

/-! ### A case -/

/-- A document. -/
def toyDoc : Spec.Nitro.Doc where
  moduleId := [109]
  digest := ascii "SHA384".toList
  timestamp := 5
  pcrs := [(0, zeros 48), (1, zeros 48), (2, List.replicate 48 1), (4, zeros 48)]
  certificate := [1]
  cabundle := [[2], [3]]
  publicKey := none
  userData := some [7, 8]
  nonce := none

/-- Evidence is `[1]`, the document `[2]` and the header `[3]`. -/
def toyWorld : World where
  alloc n := decide (n < 2^64)
  cbor b := match b with
    | [1] => .arr (some 4) [.bytes [3], .map [], .bytes [2], .bytes (zeros 95 ++ [9])]
    | [2] => toyDoc.item
    | [3] => es384
    | _ => .bad

/-- Certificates are one byte: 1 is the module's, 2 and 3 are the bundle. -/
def toyLib : Lib where
  Cert := UInt8
  Ec := Unit
  Rsa := Unit
  sha256 _ := zeros 32
  sha256_length _ := rfl
  sha384 := id
  d2i b := match b with
    | [c] => some (c, 1)
    | _ => none
  chain roots inter c t := match roots, inter, c with
    | [0], [2, 3], 1 => decide (t = 10000)
    | _, _, _ => false
  pub c := if c == 1 then some (.ec ()) else none
  ecdsa _ m r s := m == sigStructure [3] [2] && r == 0 && s == 9
  rsaVerify _ _ _ := false
  rsaE _ := 0
  rsaN _ := 0
  parseData b := some ⟨b, .empty⟩

def toyRoots : List toyLib.Cert := [(0 : UInt8)]

def toyRegisters : OMap Int Bytes := ((OMap.empty.insert 0 (zeros 48)).insert 1 (zeros 48)).insert 2 (List.replicate 48 1)

-- accepted when the chain is valid an hour later or earlier, but not longer; not with another register, and without one that is compared
example : (Attest.Nitro.attest toyLib toyWorld toyRoots toyRegisters 6400 [1] matches .ok (some ⟨[7, 8], _⟩)) = true := by decide +kernel
example : (Attest.Nitro.attest toyLib toyWorld toyRoots toyRegisters 13600 [1] matches .ok (some ⟨[7, 8], _⟩)) = true := by decide +kernel
example : (Attest.Nitro.attest toyLib toyWorld toyRoots toyRegisters 13601 [1] matches .ok none) = true := by decide +kernel
example : (Attest.Nitro.attest toyLib toyWorld toyRoots (toyRegisters.insert 2 (zeros 48)) 10000 [1] matches .ok none) = true := by decide +kernel
example : (Attest.Nitro.attest toyLib toyWorld toyRoots (toyRegisters.erase 1) 10000 [1] matches .ok none) = true := by decide +kernel

/-- The assumptions of `C58_messages_are_read_exactly_partial` are met by the message in this case, given memory. -/
example : ∃ header payload signature, Cose.parse { toyWorld with alloc := fun _ => true } [1] = .ok (.ok ⟨header, payload, signature⟩) ∧
    ∃ key val rest, FirstPair (toyWorld.cbor header) key val rest := by
  have fp : FirstPair (toyWorld.cbor [3]) 1 (-35) [] := ⟨rfl, by decide, by decide, by intro t; simp⟩
  exact ⟨[3], [2], zeros 95 ++ [9], (C58_messages_are_read_exactly_partial { toyWorld with alloc := fun _ => true } (fun _ => rfl) [1] [3] [2]
    (zeros 95 ++ [9]) (fun _ _ _ => ⟨1, -35, [], fp⟩)).mpr
    ⟨⟨_, _, _, rfl, .inl rfl, .inl rfl, .inl rfl⟩, rfl, by simp, rfl⟩, 1, -35, [], fp⟩

/-- The assumptions of `C59_key_was_attested_by_the_same_image` are met in this case. -/
example : ∃ (d : Data) (Made : Spec.Nitro.Doc → Prop), (∀ n, toyWorld.alloc n = true → n < 2^64) ∧ (∀ D, Made D → ∀ p ∈ D.pcrs, p.1 < 32) ∧
    (∀ c cs k t, (t = 10000 + 3600 ∨ t = (10000 : Int) ∨ t = 10000 - 3600) → toyLib.chain toyRoots cs c t = true → toyLib.pub c = some (.ec k) →
      ∀ m r s, toyLib.ecdsa k m r s = true →
        ∃ D h p, Made D ∧ toyWorld.cbor p = D.item ∧ h.length < 2^64 ∧ p.length < 2^64 ∧ m = toyLib.sha384 (sigStructure h p)) ∧
    Attest.Nitro.attest toyLib toyWorld toyRoots toyRegisters 10000 [1] = .ok (some d) := by
  have acc : (Attest.Nitro.attest toyLib toyWorld toyRoots toyRegisters 10000 [1] matches .ok (some _)) = true := by decide +kernel
  cases h : Attest.Nitro.attest toyLib toyWorld toyRoots toyRegisters 10000 [1] with
  | ok x =>
    rw [h] at acc
    cases x with
    | none => simp at acc
    | some d =>
      refine ⟨d, (· = toyDoc), fun n => of_decide_eq_true, ?_, ?_, rfl⟩
      · rintro D rfl p hp
        revert p
        decide
      · intro c cs k t _ _ _ m r s hv
        have hv : (m == sigStructure [3] [2] && r == 0 && s == 9) = true := hv
        simp only [Bool.and_eq_true, beq_iff_eq] at hv
        exact ⟨toyDoc, [3], [2], rfl, rfl, by simp, by simp, hv.1.1⟩
  | abort => rw [h] at acc; simp at acc
  | ub => rw [h] at acc; simp at acc

end Svr.Props.Nitro
