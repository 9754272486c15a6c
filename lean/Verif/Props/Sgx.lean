import Verif.Attest.SgxFacts

/-!
# C60, C61, C62: attestation on SGX
-/

namespace Svr.Props.Sgx

open Svr Svr.Attest Svr.Attest.Sgx Svr.Spec.Sgx
open Svr.Attest.Tpm2Snp (Json member member_iff member_ok)
open Svr.Spec (ascii number Member)

/-- **C61.** `Attest` on SGX accepts exactly evidence that OpenEnclave verifies at the given time, whose MRENCLAVE is the own one, whose TCB info
has an evaluation data number, and whose first custom claim is a key of 32 bytes. It returns that key, and that number, of eight bytes, as the
only value for the minimums. -/
theorem C61_accepts_exactly (W : World) (expected : Bytes) (now : Int) (evidence endorsements : Bytes) (d : Data) :
    attest W expected now evidence endorsements = .ok (.ok d) ↔
      ∃ t claims v doc n b rest, Date W now t ∧ W.verify t evidence endorsements = some claims ∧
        Says claims "unique_id".toList expected ∧
        Says claims "sgx_tcb_info".toList v ∧ W.json v = some doc ∧ TcbNumber doc n ∧
        Says claims "custom_claims_buffer".toList b ∧ W.custom b = some (⟨ascii "pk".toList, d.key⟩ :: rest) ∧ d.key.length = 32 ∧
        ∀ name x, d.values.find name = some x ↔ name = ascii "sgx_tcb_evaluation_data_number".toList ∧ Be64 x n := by
  rw [attest]
  constructor
  · intro h0
    obtain ⟨t, h1, h⟩ := Out.bind_eq_ok.mp h0
    cases h2 : W.verify t evidence endorsements with
    | none => rw [h2] at h; simp at h
    | some claims =>
      rw [h2] at h
      simp only at h
      rw [validateClaims] at h
      cases h3 : findClaim claims "unique_id" with
      | none => rw [h3] at h; simp at h
      | some u =>
        rw [h3] at h
        simp only at h
        by_cases hu : ctEq u expected = true
        swap
        · rw [if_neg hu] at h; simp at h
        rw [if_pos hu] at h
        simp only at h
        obtain rfl := (ctEq_iff ..).mp hu
        obtain ⟨x, h4, hx⟩ := Out.bind_eq_ok.mp h
        rcases x with er | k
        · simp at hx
        obtain ⟨y, h5, hy⟩ := Out.bind_eq_ok.mp hx
        rcases y with er | key
        · simp at hy
        simp only [Out.ok.injEq, Except.ok.injEq] at hy
        subst hy
        obtain ⟨v, doc, n, e1, e2, e3, e4⟩ := (tcbNumber_iff ..).mp h4
        obtain ⟨b, rest, e5, e6, e7⟩ := (readKey_iff ..).mp h5
        refine ⟨t, claims, v, doc, n, b, rest, (datetime_iff ..).mp h1, h2, (findClaim_iff ..).mp h3, e1, e2, e3, e5, e6, e7, ?_⟩
        intro name x
        rw [OMap.find_insert, ← be64_iff x k n e4]
        by_cases hn : Sev.str "sgx_tcb_evaluation_data_number" = name
        · subst hn
          rw [if_pos rfl, Option.some.injEq]
          exact ⟨fun h => ⟨rfl, h.symm⟩, fun h => h.2.symm⟩
        · rw [if_neg hn]
          simp only [OMap.find_empty, reduceCtorEq, false_iff]
          rintro ⟨h, -⟩
          exact hn h.symm
  · rintro ⟨t, claims, v, doc, n, b, rest, h1, h2, h3, e1, e2, e3, e5, e6, e7, hd⟩
    rw [(datetime_iff W now t).mpr h1, Out.bind_ok, h2]
    simp only
    rw [validateClaims, (findClaim_iff claims "unique_id" expected).mpr h3]
    simp only
    rw [if_pos ((ctEq_iff ..).mpr rfl)]
    simp only
    have hk : (((n % 2^64).toNat : Nat) : Int) = n % 2^64 := by omega
    rw [(tcbNumber_iff W claims (n % 2^64).toNat).mpr ⟨v, doc, n, e1, e2, e3, hk⟩, Out.bind_ok]
    simp only
    rw [(readKey_iff W claims d.key).mpr ⟨b, rest, e5, e6, e7⟩, Out.bind_ok]
    simp only [Out.ok.injEq, Except.ok.injEq]
    obtain ⟨key, vals⟩ := d
    congr 1
    refine OMap.ext_find fun name => ?_
    rw [OMap.find_insert]
    by_cases hn : Sev.str "sgx_tcb_evaluation_data_number" = name
    · subst hn
      rw [if_pos rfl]
      exact ((hd _ _).mpr ⟨rfl, (be64_iff _ _ n hk).mp rfl⟩).symm
    · rw [if_neg hn]
      cases hf : vals.find name with
      | none => rfl
      | some x => exact absurd ((hd name x).mp hf).1.symm hn

/-- **C61.** Evidence that `Attest` accepts and whose values pass the limits was made with TCB info whose evaluation data number, if it is not
negative, is at least the limit. -/
theorem C61_minimum_is_kept (W : World) (expected : Bytes) (now : Int) (evidence endorsements : Bytes) (d : Data)
    (h : attest W expected now evidence endorsements = .ok (.ok d)) (s : Minimums.Limits) (hs : Minimums.checkValues s d.values = none)
    (m : Int) (limit : Bytes) (hm : s.find (ascii "sgx_tcb_evaluation_data_number".toList) = some limit) (hb : Be64 limit m) (h0 : 0 ≤ m)
    (h1 : m < 2^64) :
    ∃ t claims v doc n, Date W now t ∧ W.verify t evidence endorsements = some claims ∧ Says claims "sgx_tcb_info".toList v ∧
      W.json v = some doc ∧ TcbNumber doc n ∧ (m ≤ n ∨ n < 0) := by
  obtain ⟨t, claims, v, doc, n, b, rest, h1', h2, -, h3, h4, h5, -, -, -, h6⟩ := (C61_accepts_exactly ..).mp h
  refine ⟨t, claims, v, doc, n, h1', h2, h3, h4, h5, ?_⟩
  obtain ⟨-, -, -, hr⟩ := h5
  have hk : (((n % 2^64).toNat : Nat) : Int) = n % 2^64 := by omega
  have hx := (h6 (ascii "sgx_tcb_evaluation_data_number".toList) (be64 (n % 2^64).toNat)).mpr ⟨rfl, (be64_iff _ _ n hk).mp rfl⟩
  rw [Minimums.checkValues, List.findSome?_eq_none_iff] at hs
  have := hs _ ((OMap.mem_list ..).mpr hx)
  rw [Minimums.checkValueAgainstSet] at this
  simp only [hm] at this
  split at this
  · simp at this
  rename_i hlt
  obtain ⟨b1, b2⟩ := (be64_iff (be64 (n % 2^64).toNat) _ n hk).mp rfl
  rw [lt_iff_number _ _ (by rw [b1, hb.1])] at hlt
  have := hb.2
  omega

/-- **C62 does not follow from the code.** Nothing but OpenEnclave's verdict, MRENCLAVE, TCB info and custom claims are looked at: two
verified lists of claims that agree on those three have the same outcome, whatever else they say, such as that the enclave can be debugged. -/
theorem C62_other_claims_are_not_read (W : World) (expected : Bytes) (now : Int) (ev en ev' en' : Bytes) (t : Time) (claims claims' : List Claim)
    (ht : Date W now t) (h : W.verify t ev en = some claims) (h' : W.verify t ev' en' = some claims')
    (same : ∀ name ∈ ["unique_id", "sgx_tcb_info", "custom_claims_buffer"], ∀ v, Says claims name.toList v ↔ Says claims' name.toList v) :
    attest W expected now ev en = attest W expected now ev' en' := by
  have e : ∀ name ∈ ["unique_id", "sgx_tcb_info", "custom_claims_buffer"], findClaim claims name = findClaim claims' name := by
    intro name hn
    refine Option.ext fun v => ?_
    rw [findClaim_iff, findClaim_iff]
    exact same name hn v
  have e1 := e "unique_id" (by simp)
  have e2 := e "sgx_tcb_info" (by simp)
  have e3 := e "custom_claims_buffer" (by simp)
  rw [attest, attest, (datetime_iff W now t).mpr ht, Out.bind_ok, Out.bind_ok, h, h']
  simp only
  have v1 : validateClaims expected claims = validateClaims expected claims' := by rw [validateClaims, validateClaims, e1]
  have v2 : tcbNumber W claims = tcbNumber W claims' := by rw [tcbNumber, tcbNumber, e2]
  have v3 : readKey W claims = readKey W claims' := by rw [readKey, readKey, e3]
  rw [v1, v2, v3]

/-- The enclave that made the evidence can be debugged: bit 0 of OpenEnclave's `attributes`, a little endian number. -/
def CanBeDebugged (claims : List Claim) : Prop := ∃ b rest, Says claims "attributes".toList (b :: rest) ∧ b.toNat % 2 = 1

/-- **C62.** If OpenEnclave never verifies evidence of an enclave that can be debugged, no such evidence is accepted. Missing: the code does not
itself look at whether it can. -/
theorem C62_debugging_partial (W : World) (lib : ∀ t ev en claims, W.verify t ev en = some claims → ¬CanBeDebugged claims) (expected : Bytes)
    (now : Int) (evidence endorsements : Bytes) (d : Data) (h : attest W expected now evidence endorsements = .ok (.ok d)) :
    ∃ t claims, W.verify t evidence endorsements = some claims ∧ Says claims "unique_id".toList expected ∧ ¬CanBeDebugged claims := by
  obtain ⟨t, claims, _, _, _, _, _, _, h2, h3, _⟩ := (C61_accepts_exactly ..).mp h
  exact ⟨t, claims, h2, h3, lib _ _ _ _ h2⟩

/-- **C60.** `Attest` on SGX returns, if the time has a date and verified claims of the own MRENCLAVE come with TCB info that, if it is JSON, is an
object, and with at least one custom claim. Missing: without these it aborts or reads what it should not. -/
theorem C60_sgx_attest_returns_partial (W : World) (expected : Bytes) (now : Int) (evidence endorsements : Bytes)
    (date : ∃ t, Date W now t)
    (tcb : ∀ t claims v doc, W.verify t evidence endorsements = some claims → Says claims "unique_id".toList expected →
      Says claims "sgx_tcb_info".toList v → W.json v = some doc → ∃ l, doc = .obj l)
    (custom : ∀ t claims v cs, W.verify t evidence endorsements = some claims → Says claims "unique_id".toList expected →
      Says claims "custom_claims_buffer".toList v → W.custom v = some cs → cs ≠ []) :
    ∃ r, attest W expected now evidence endorsements = .ok r := by
  obtain ⟨t, ht⟩ := date
  rw [attest, (datetime_iff W now t).mpr ht, Out.bind_ok]
  cases h1 : W.verify t evidence endorsements with
  | none => exact ⟨_, rfl⟩
  | some claims =>
    simp only
    cases h2 : validateClaims expected claims with
    | error e => exact ⟨_, rfl⟩
    | ok u =>
      simp only
      have hu : Says claims "unique_id".toList expected := by
        rw [validateClaims] at h2
        split at h2
        · cases h2
        rename_i v hv
        split at h2
        · rename_i hc
          rw [← (ctEq_iff ..).mp hc]
          exact (findClaim_iff ..).mp hv
        · cases h2
      have a : ∃ r, tcbNumber W claims = .ok r := by
        rw [tcbNumber]
        cases h3 : findClaim claims "sgx_tcb_info" with
        | none => exact ⟨_, rfl⟩
        | some v =>
          simp only
          cases h4 : W.json v with
          | none => exact ⟨_, rfl⟩
          | some doc =>
            obtain ⟨l, rfl⟩ := tcb t claims v doc h1 hu ((findClaim_iff ..).mp h3) h4
            simp only
            rw [member, Out.bind_ok]
            split
            · rw [member, Out.bind_ok]
              split
              · split <;> exact ⟨_, rfl⟩
              · exact ⟨_, rfl⟩
            · exact ⟨_, rfl⟩
      have b : ∃ r, readKey W claims = .ok r := by
        rw [readKey]
        cases h3 : findClaim claims "custom_claims_buffer" with
        | none => exact ⟨_, rfl⟩
        | some v =>
          simp only
          cases h4 : W.custom v with
          | none => exact ⟨_, rfl⟩
          | some cs =>
            cases cs with
            | nil => exact absurd rfl (custom t claims v [] h1 hu ((findClaim_iff ..).mp h3) h4)
            | cons c cs =>
              simp only
              split
              · exact ⟨_, rfl⟩
              split <;> exact ⟨_, rfl⟩
      obtain ⟨ra, ha⟩ := a
      obtain ⟨rb, hb⟩ := b
      rw [ha, Out.bind_ok]
      cases ra with
      | error e => exact ⟨_, rfl⟩
      | ok n =>
        simp only
        rw [hb, Out.bind_ok]
        cases rb <;> exact ⟨_, rfl⟩

/-! ## A concrete case -/

/-- Claims with an attribute byte; the first byte of TCB info and custom claims chooses what they are parsed to. -/
def toyClaims (attributes tcb custom : UInt8) : List Claim :=
  [⟨ascii "attributes".toList, [attributes]⟩, ⟨ascii "unique_id".toList, [1, 2, 3]⟩, ⟨ascii "unique_id".toList, [9]⟩,
    ⟨ascii "sgx_tcb_info".toList, [tcb]⟩, ⟨ascii "custom_claims_buffer".toList, [custom]⟩]

def toyKey : Bytes := List.replicate 32 7

/-- OpenEnclave verifies evidence of three bytes as such claims, in the year 2026. -/
def toyWorld : World where
  gmtime s := if s < 0 then none else some ⟨126, 10, 16, 11, 0, 0⟩
  verify t ev _ := match ev with
    | [a, b, c] => if t.year = 2026 ∧ t.month = 11 then some (toyClaims a b c) else none
    | _ => none
  custom v := match v with
    | [0] => some []
    | [1] => some [⟨ascii "pk".toList, toyKey⟩, ⟨ascii "pk".toList, []⟩]
    | [2] => some [⟨ascii "pq".toList, toyKey⟩]
    | [3] => some [⟨ascii "pk".toList, [1]⟩]
    | _ => none
  json v := match v with
    | [0] => some (.arr [])
    | [1] => some (.obj [(ascii "tcbInfo".toList, .obj [(ascii "tcbEvaluationDataNumber".toList, .num 17)])])
    | [2] => some (.obj [(ascii "tcbInfo".toList, .obj [(ascii "tcbEvaluationDataNumber".toList, .num (-1))])])
    | [3] => some (.obj [(ascii "tcbInfo".toList, .num 1)])
    | _ => none

def toyData (n : Nat) : Data := ⟨toyKey, OMap.empty.insert (ascii "sgx_tcb_evaluation_data_number".toList) (be64 n)⟩

theorem toy_accepts (a : UInt8) : attest toyWorld [1, 2, 3] 5 [a, 1, 1] [] = .ok (.ok (toyData 17)) := rfl

example : attest toyWorld [1, 2, 4] 5 [0, 1, 1] [] = .ok (.error .wrongMrenclave) := rfl
example : attest toyWorld [1, 2, 3] 5 [0, 3, 1] [] = .ok (.error .tcbInfo) := rfl
example : attest toyWorld [1, 2, 3] 5 [0, 1, 2] [] = .ok (.error .keyMissing) := rfl
example : attest toyWorld [1, 2, 3] 5 [0, 1, 3] [] = .ok (.error .keySize) := rfl

/-- `C61_minimum_is_kept` applies to the limit 17, and a limit of 18 is not met. -/
example : Minimums.checkValues (OMap.empty.insert (ascii "sgx_tcb_evaluation_data_number".toList) (be64 17)) (toyData 17).values = none := by
  decide +kernel
example : Minimums.checkValues (OMap.empty.insert (ascii "sgx_tcb_evaluation_data_number".toList) (be64 18)) (toyData 17).values ≠ none := by
  decide +kernel
example : Be64 (be64 17) 17 := ⟨rfl, by decide⟩

/-- **C61.** A number below zero is above every limit that is not. -/
theorem C61_negative_number_is_huge :
    attest toyWorld [1, 2, 3] 5 [0, 2, 1] [] = .ok (.ok (toyData (2^64 - 1))) ∧
      Minimums.checkValues (OMap.empty.insert (ascii "sgx_tcb_evaluation_data_number".toList) (be64 (2^63))) (toyData (2^64 - 1)).values = none :=
  ⟨rfl, by decide +kernel⟩

/-- **C62 is false of the code alone.** If OpenEnclave verifies it, evidence of an enclave that can be debugged is accepted. -/
theorem C62_debugged_enclave_accepted :
    ∃ (W : World) (expected : Bytes) (now : Int) (ev en : Bytes) (d : Data) (t : Time) (claims : List Claim), Date W now t ∧
      W.verify t ev en = some claims ∧ CanBeDebugged claims ∧ attest W expected now ev en = .ok (.ok d) :=
  ⟨toyWorld, [1, 2, 3], 5, [1, 1, 1], [], toyData 17, ⟨2026, 11, 16, 11, 0, 0⟩, toyClaims 1 1 1, ⟨126, 10, rfl, rfl, rfl⟩, rfl,
    ⟨1, [], ⟨[], (toyClaims 1 1 1).tail, rfl, by simp⟩, rfl⟩, toy_accepts 1⟩

/-- Claims that agree on the three that are read and differ in the attributes. -/
example (name : String) (hn : name ∈ ["unique_id", "sgx_tcb_info", "custom_claims_buffer"]) (v : Bytes) :
    Says (toyClaims 0 1 1) name.toList v ↔ Says (toyClaims 1 1 1) name.toList v := by
  rw [← findClaim_iff, ← findClaim_iff]
  simp only [List.mem_cons, List.not_mem_nil, or_false] at hn
  rcases hn with rfl | rfl | rfl <;> exact Iff.rfl

/-- A library as `C62_debugging_partial` needs it, under which evidence is accepted. -/
def toyStrict : World := { toyWorld with verify := fun t ev en => match ev with
  | 0 :: _ => toyWorld.verify t ev en
  | _ => none }

example : attest toyStrict [1, 2, 3] 5 [0, 1, 1] [] = .ok (.ok (toyData 17)) := rfl

example (t : Time) (ev en : Bytes) (claims : List Claim) (h : toyStrict.verify t ev en = some claims) : ¬CanBeDebugged claims := by
  rintro ⟨b, rest, hs, hb⟩
  simp only [toyStrict, toyWorld] at h
  split at h
  · split at h
    · rename_i a b' c hev
      obtain ⟨rfl, -⟩ := List.cons.inj hev
      split at h
      · obtain rfl := Option.some.inj h
        have h2 : findClaim (toyClaims 0 b' c) "attributes" = some [0] := rfl
        rw [(findClaim_iff ..).mpr hs] at h2
        obtain ⟨rfl, -⟩ := List.cons.inj (Option.some.inj h2)
        exact absurd hb (by decide)
      · cases h
    · cases h
  · cases h

/-- **C60 is false of the code.** No custom claims: the first is read although there is none. -/
theorem C60_no_custom_claims : attest toyWorld [1, 2, 3] 5 [0, 1, 0] [] = .ub := rfl

/-- **C60 is false of the code.** TCB info that is JSON but not an object: an assertion of the JSON library fails. -/
theorem C60_tcb_info_not_an_object : attest toyWorld [1, 2, 3] 5 [0, 0, 1] [] = .abort := rfl

/-- **C60 is false of the code.** A time that has no date: an uninitialised date is read. -/
theorem C60_time_without_date : attest toyWorld [1, 2, 3] (-1) [0, 1, 1] [] = .ub := rfl

/-- The hypotheses of `C60_sgx_attest_returns_partial` hold of good evidence. -/
example : ∃ t, Date toyWorld 5 t := ⟨⟨2026, 11, 16, 11, 0, 0⟩, 126, 10, rfl, rfl, rfl⟩
example (t : Time) (claims : List Claim) (v : Bytes) (doc : Json) (h : toyWorld.verify t [0, 1, 1] [] = some claims)
    (hv : Says claims "sgx_tcb_info".toList v) (hd : toyWorld.json v = some doc) : ∃ l, doc = .obj l := by
  simp only [toyWorld] at h
  split at h
  · obtain rfl := Option.some.inj h
    have h2 : findClaim (toyClaims 0 1 1) "sgx_tcb_info" = some [1] := rfl
    rw [(findClaim_iff ..).mpr hv] at h2
    obtain rfl := Option.some.inj h2
    exact ⟨_, (Option.some.inj hd).symm⟩
  · cases h

end Svr.Props.Sgx
