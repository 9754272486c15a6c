import Verif.Attest.Tpm2Facts
import Verif.Spec.Snp
import Verif.Props.Codec
import Verif.Props.Minimums
import Mathlib.Data.Nat.Digits.Lemmas

/-!
# Verification of TPM2 and SEV-SNP evidence, as a relation
-/

namespace Svr.Attest.Tpm2Snp

open Spec

/-! ## JSON -/

theorem cstr_iff (t s : Bytes) : cstr t = s ↔ CStr t s := by
  induction t generalizing s with
  | nil =>
    constructor
    · rintro rfl; exact ⟨by simp [cstr], Or.inl rfl⟩
    · rintro ⟨-, h | ⟨u, h⟩⟩
      · exact h
      · simp at h
  | cons c t ih =>
    by_cases hc : c = 0
    · subst hc
      have : cstr (0 :: t) = [] := by simp [cstr]
      rw [this]
      constructor
      · rintro rfl; exact ⟨by simp, Or.inr ⟨t, rfl⟩⟩
      · rintro ⟨h0, h | ⟨u, h⟩⟩
        · rw [← h] at h0; simp at h0
        · cases s with
          | nil => rfl
          | cons d s =>
            simp only [List.cons_append, List.cons.injEq] at h
            rw [← h.1] at h0; simp at h0
    · have e : cstr (c :: t) = c :: cstr t := by simp [cstr, hc]
      rw [e]
      constructor
      · rintro rfl
        obtain ⟨h0, h⟩ := (ih (cstr t)).mp rfl
        refine ⟨by simpa [Ne.symm hc] using h0, ?_⟩
        rcases h with h | ⟨u, h⟩
        · exact Or.inl (by rw [← h])
        · exact Or.inr ⟨u, by rw [List.cons_append, ← h]⟩
      · rintro ⟨h0, h | ⟨u, h⟩⟩
        · cases s with
          | nil => cases h
          | cons d s =>
            simp only [List.cons.injEq] at h
            obtain ⟨rfl, rfl⟩ := h
            rw [(ih t).mpr ⟨fun hm => h0 (List.mem_cons_of_mem _ hm), Or.inl rfl⟩]
        · cases s with
          | nil => simp at h; exact absurd h.1 hc
          | cons d s =>
            simp only [List.cons_append, List.cons.injEq] at h
            obtain ⟨rfl, h⟩ := h
            rw [(ih s).mpr ⟨fun hm => h0 (List.mem_cons_of_mem _ hm), Or.inr ⟨u, h⟩⟩]

theorem find_split {α : Type} (p : α → Bool) (l : List α) (a : α) :
    l.find? p = some a ↔ ∃ pre post, l = pre ++ a :: post ∧ p a = true ∧ ∀ x ∈ pre, p x = false := by
  rw [List.find?_eq_some_iff_append]
  constructor
  · rintro ⟨h, pre, post, rfl, hp⟩
    exact ⟨pre, post, rfl, h, fun x hx => by simpa using hp x hx⟩
  · rintro ⟨pre, post, rfl, h, hp⟩
    exact ⟨h, pre, post, rfl, fun x hx => by simpa using hp x hx⟩

theorem member_iff (j : Json) (name : String) (v : Json) : member j (Sev.str name) = .ok (some v) ↔ Member j name.toList v := by
  cases j with
  | obj l =>
    simp only [member, Out.ok.injEq, Option.map_eq_some_iff, find_split]
    constructor
    · rintro ⟨⟨a, v'⟩, ⟨pre, post, rfl, h, hp⟩, rfl⟩
      obtain rfl : a = Sev.str name := by simpa using h
      exact ⟨pre, post, rfl, fun p hm => of_decide_eq_false (hp p hm)⟩
    · rintro ⟨pre, post, h, hp⟩
      simp only [Json.obj.injEq] at h
      exact ⟨(ascii name.toList, v), ⟨pre, post, h, decide_eq_true rfl, fun p hm => decide_eq_false (hp p hm)⟩, rfl⟩
  | _ => simp [member, Member]

theorem member_ok {j : Json} {name : Bytes} {x : Option Json} (h : member j name = .ok x) : ∃ l, j = .obj l := by
  cases j with
  | obj l => exact ⟨l, rfl⟩
  | _ => simp [member] at h

theorem memberStr_iff (j : Json) (name : String) (s : Bytes) : memberStr j (Sev.str name) = .ok (some s) ↔ Text j name.toList s := by
  rw [memberStr]
  constructor
  · intro h
    obtain ⟨x, h1, h2⟩ := Out.bind_eq_ok.mp h
    rcases x with - | v
    · simp at h2
    · cases v with
      | str t =>
        simp only [Out.pure_eq, Out.ok.injEq, Option.some.injEq] at h2
        exact ⟨t, (member_iff j name _).mp h1, (cstr_iff t s).mp h2⟩
      | _ => simp at h2
  · rintro ⟨t, h1, h2⟩
    rw [(member_iff j name _).mpr h1]
    simp [(cstr_iff t s).mpr h2]

theorem memberStr_obj (l : List (Bytes × Json)) (name : Bytes) : ∃ x, memberStr (.obj l) name = .ok x := by
  simp only [memberStr, member, Out.bind_ok]
  split <;> exact ⟨_, rfl⟩

theorem memberStr_ok {j : Json} {name : Bytes} {x : Option Bytes} (h : memberStr j name = .ok x) : ∃ l, j = .obj l := by
  rw [memberStr] at h
  obtain ⟨y, h1, -⟩ := Out.bind_eq_ok.mp h
  exact member_ok h1

theorem isAkPub_true (j : Json) : isAkPub j = .ok true ↔ IsAkPub j := by
  rw [isAkPub]
  constructor
  · intro h
    obtain ⟨x, h1, h2⟩ := Out.bind_eq_ok.mp h
    rcases x with - | kid
    · simp at h2
    simp only at h2
    by_cases hk : kid = Sev.str "HCLAkPub"
    · rw [if_neg (by simpa using hk)] at h2
      obtain ⟨y, h3, h4⟩ := Out.bind_eq_ok.mp h2
      rcases y with - | kty
      · simp at h4
      simp only [Out.pure_eq, Out.ok.injEq, beq_iff_eq] at h4
      subst hk h4
      exact ⟨(memberStr_iff j "kid" _).mp h1, (memberStr_iff j "kty" _).mp h3⟩
    · rw [if_pos hk] at h2; simp at h2
  · rintro ⟨h1, h2⟩
    have e1 := (memberStr_iff j "kid" _).mpr h1
    have e2 := (memberStr_iff j "kty" _).mpr h2
    rw [e1, Out.bind_ok]
    simp only
    rw [if_neg (by simp [Sev.str, ascii]), e2, Out.bind_ok]
    simp only [Out.pure_eq, Out.ok.injEq, beq_iff_eq]
    rfl

theorem isAkPub_obj (l : List (Bytes × Json)) : ∃ b, isAkPub (.obj l) = .ok b := by
  rw [isAkPub]
  obtain ⟨x, hx⟩ := memberStr_obj l (Sev.str "kid")
  rw [hx, Out.bind_ok]
  rcases x with - | kid
  · exact ⟨_, rfl⟩
  simp only
  split
  · exact ⟨_, rfl⟩
  · obtain ⟨y, hy⟩ := memberStr_obj l (Sev.str "kty")
    rw [hy, Out.bind_ok]
    rcases y with - | kty <;> exact ⟨_, rfl⟩

theorem isAkPub_false (j : Json) : isAkPub j = .ok false ↔ (∃ l, j = .obj l) ∧ ¬ IsAkPub j := by
  constructor
  · intro h
    refine ⟨?_, fun hh => by rw [(isAkPub_true j).mpr hh] at h; simp at h⟩
    rw [isAkPub] at h
    obtain ⟨x, h1, -⟩ := Out.bind_eq_ok.mp h
    exact memberStr_ok h1
  · rintro ⟨⟨l, rfl⟩, h⟩
    obtain ⟨b, hb⟩ := isAkPub_obj l
    cases b with
    | false => exact hb
    | true => exact absurd ((isAkPub_true _).mp hb) h

theorem findAkPub_iff (l : List Json) (key : Json) : findAkPub l = .ok (some key) ↔
    ∃ pre post, l = pre ++ key :: post ∧ (∀ k ∈ pre, (∃ l, k = .obj l) ∧ ¬ IsAkPub k) ∧ IsAkPub key := by
  induction l with
  | nil => simp [findAkPub]
  | cons j l ih =>
    rw [findAkPub]
    constructor
    · intro h
      obtain ⟨b, h1, h2⟩ := Out.bind_eq_ok.mp h
      cases b with
      | true =>
        obtain rfl : j = key := by simpa using h2
        exact ⟨[], l, rfl, by simp, (isAkPub_true j).mp h1⟩
      | false =>
        obtain ⟨pre, post, rfl, hp, hk⟩ := ih.mp (by simpa using h2)
        refine ⟨j :: pre, post, rfl, ?_, hk⟩
        intro k hm
        rcases List.mem_cons.mp hm with rfl | hm
        · exact (isAkPub_false _).mp h1
        · exact hp k hm
    · rintro ⟨pre, post, h, hp, hk⟩
      cases pre with
      | nil =>
        simp only [List.nil_append, List.cons.injEq] at h
        obtain ⟨rfl, rfl⟩ := h
        rw [(isAkPub_true _).mpr hk]; simp
      | cons x pre =>
        simp only [List.cons_append, List.cons.injEq] at h
        obtain ⟨rfl, rfl⟩ := h
        rw [(isAkPub_false _).mpr (hp j (List.mem_cons_self ..))]
        simpa using ih.mpr ⟨pre, post, rfl, fun k hm => hp k (List.mem_cons_of_mem _ hm), hk⟩

/-! ## Numbers -/

theorem number_ofDigits (l : List Nat) : number 256 l.reverse = Nat.ofDigits 256 l := by
  induction l with
  | nil => rfl
  | cons d l ih =>
    rw [List.reverse_cons, Props.Codec.number_snoc, ih, Nat.ofDigits_cons]
    ring

theorem bn2bin_iff (b : Bytes) (n : Nat) : b = bn2bin n ↔ BigEndian b n := by
  have hd : ∀ d ∈ Nat.digits 256 n, d < 256 := fun d h => Nat.digits_lt_base (by omega) h
  have hm : (bn2bin n).map (·.toNat) = (Nat.digits 256 n).reverse := by
    rw [bn2bin, List.map_map]
    conv_rhs => rw [← List.map_id (Nat.digits 256 n).reverse]
    apply List.map_congr_left
    intro d h
    have := hd d (by simpa using h)
    simp only [Function.comp, UInt8.toNat_ofNat', id]
    exact Nat.mod_eq_of_lt this
  constructor
  · rintro rfl
    refine ⟨by rw [hm, number_ofDigits, Nat.ofDigits_digits], ?_⟩
    intro h
    have h2 : ((bn2bin n).map (·.toNat)).head? = some 0 := by rw [List.head?_map, h]; rfl
    rw [hm, List.head?_reverse] at h2
    by_cases hn : n = 0
    · subst hn; simp at h2
    · exact Nat.getLast_digit_ne_zero 256 hn (by
        rw [List.getLast?_eq_some_getLast (Nat.digits_ne_nil_iff_ne_zero.mpr hn)] at h2
        simpa using h2)
  · rintro ⟨h1, h2⟩
    have h3 : Nat.digits 256 n = (b.map (·.toNat)).reverse := by
      rw [← h1, ← List.reverse_reverse (b.map (·.toNat)), number_ofDigits, List.reverse_reverse]
      apply Nat.digits_ofDigits _ (by omega)
      · intro d hdm
        rw [List.mem_reverse, List.mem_map] at hdm
        obtain ⟨x, -, rfl⟩ := hdm
        exact x.toNat_lt
      · intro hne hz
        rw [List.getLast_reverse] at hz
        apply h2
        cases b with
        | nil => simp at hne
        | cons c b =>
          simp only [List.map_cons, List.head_cons] at hz
          have : c = 0 := UInt8.toNat_inj.mp hz
          rw [this]; rfl
    rw [h3, List.reverse_reverse] at hm
    exact (List.map_injective_iff.mpr (fun a c hac => UInt8.toNat_inj.mp hac) hm).symm

theorem be_number (b : Bytes) : be b = number 256 (b.map (·.toNat)) := by
  rw [be, number, List.foldl_map]

theorem le_littleEndian (b : Bytes) : le b = littleEndian b := by rw [le, be_number]; rfl

/-! ## The steps -/

theorem number64_iff (t : Bytes) (n : Nat) : Codec.b64Decode Codec.b64url t = .ok (.ok (bn2bin n)) ↔ Number64 t n := by
  rw [Props.Codec.C48_decode_exact Props.Codec.Alphabet.url]
  constructor
  · intro h; exact ⟨_, h, (bn2bin_iff _ _).mp rfl⟩
  · rintro ⟨b, h1, h2⟩
    rwa [← (bn2bin_iff b n).mpr h2]

theorem runtimeKey_iff (F : Formats) (rt : Bytes) (e n : Nat) : runtimeKey F rt = .ok (.ok (bn2bin e, bn2bin n)) ↔
    ∃ s doc, CStr rt s ∧ F.json s = some doc ∧ NamesKey doc e n := by
  rw [runtimeKey]
  constructor
  · intro h
    cases hj : F.json (cstr rt) with
    | none => rw [hj] at h; simp at h
    | some doc =>
      rw [hj] at h
      refine ⟨_, doc, (cstr_iff rt _).mp rfl, hj, ?_⟩
      obtain ⟨ks, h1, h⟩ := Out.bind_eq_ok.mp h
      rcases ks with - | v
      · simp at h
      cases v with
      | arr keys =>
        simp only at h
        by_cases hl : keys.length < 1
        · rw [if_pos hl] at h; simp at h
        rw [if_neg hl] at h
        obtain ⟨x, h2, h⟩ := Out.bind_eq_ok.mp h
        rcases x with - | key
        · simp at h
        simp only at h
        obtain ⟨y, h3, h⟩ := Out.bind_eq_ok.mp h
        rcases y with - | te
        · simp at h
        simp only at h
        obtain ⟨z, h4, h⟩ := Out.bind_eq_ok.mp h
        rcases z with - | tn
        · simp at h
        simp only at h
        obtain ⟨u, h5, h⟩ := Out.bind_eq_ok.mp h
        rcases u with er | be'
        · simp at h
        simp only at h
        obtain ⟨w, h6, h⟩ := Out.bind_eq_ok.mp h
        rcases w with er | bn'
        · simp at h
        simp only [Out.pure_eq, Out.ok.injEq, Except.ok.injEq, Prod.mk.injEq] at h
        obtain ⟨rfl, rfl⟩ := h
        obtain ⟨pre, post, rfl, hp, hk⟩ := (findAkPub_iff keys key).mp h2
        exact ⟨pre, key, post, te, tn, (member_iff doc "keys" _).mp h1, hp, hk, (memberStr_iff key "e" te).mp h3, (number64_iff te e).mp h5,
          (memberStr_iff key "n" tn).mp h4, (number64_iff tn n).mp h6⟩
      | _ => simp at h
  · rintro ⟨s, doc, hs, hj, pre, key, post, te, tn, h1, hp, hk, h3, h5, h4, h6⟩
    rw [(cstr_iff rt s).mpr hs, hj]
    simp only
    rw [show Sev.str "keys" = Sev.str "keys" from rfl, (member_iff doc "keys" _).mpr h1, Out.bind_ok]
    simp only
    rw [if_neg (by simp), (findAkPub_iff _ key).mpr ⟨pre, post, rfl, hp, hk⟩, Out.bind_ok]
    simp only
    rw [(memberStr_iff key "e" te).mpr h3, Out.bind_ok]
    simp only
    rw [(memberStr_iff key "n" tn).mpr h4, Out.bind_ok]
    simp only
    rw [(number64_iff te e).mpr h5, Out.bind_ok]
    simp only
    rw [(number64_iff tn n).mpr h6, Out.bind_ok]
    rfl

theorem verifiedReport_iff (L : Lib) (amd : List L.Cert) (buf vcekDer askDer : Bytes) (now : Int) (r : Sev.Report) :
    Sev.reportFromVerifiedBuffer L amd buf vcekDer askDer now = .ok (.ok r) ↔
      (r.raw.length = 1184 ∧ r.raw <+: buf) ∧
      ∃ c n e, L.d2i vcekDer = some (c, n) ∧ L.pub c = some (.ec e) ∧ (∃ i m, L.d2i askDer = some (i, m) ∧ L.chain amd [i] c now = true) ∧
        L.ecdsa e (L.sha384 (r.raw.take 672)) (littleEndian ((r.raw.drop 672).take 48)) (littleEndian ((r.raw.drop 744).take 48)) = true := by
  have hr : ∀ x : Sev.Report, x.signed = x.raw.take 672 ∧ x.sigR = littleEndian ((x.raw.drop 672).take 48) ∧
      x.sigS = littleEndian ((x.raw.drop 744).take 48) := fun x => ⟨rfl, le_littleEndian _, le_littleEndian _⟩
  rw [Sev.reportFromVerifiedBuffer, Sev.reportFromBuffer]
  by_cases hl : buf.length < 1184
  · rw [if_pos hl]
    refine ⟨fun h => by simp at h, ?_⟩
    rintro ⟨⟨h1, h2⟩, -⟩
    have := h2.length_le
    omega
  rw [if_neg hl]
  simp only
  constructor
  · intro h
    split at h
    · rename_i c n i m hc hi
      cases hp : L.pub c with
      | none => rw [hp] at h; simp at h
      | some k =>
        rw [hp] at h
        simp only at h
        by_cases hch : L.chain amd [i] c now = false
        · rw [if_pos hch] at h; simp at h
        rw [if_neg hch] at h
        cases k with
        | ec e =>
          simp only at h
          by_cases hv : L.ecdsa e (L.sha384 (Sev.Report.mk (buf.take 1184)).signed) (Sev.Report.mk (buf.take 1184)).sigR
              (Sev.Report.mk (buf.take 1184)).sigS = true
          · rw [if_pos hv] at h
            obtain rfl : Sev.Report.mk (buf.take 1184) = r := by simpa using h
            obtain ⟨e1, e2, e3⟩ := hr ⟨buf.take 1184⟩
            rw [e1, e2, e3] at hv
            exact ⟨⟨by rw [List.length_take]; omega, List.take_prefix _ _⟩, c, n, e, hc, hp, ⟨i, m, hi, by simpa using hch⟩, hv⟩
          · rw [if_neg hv] at h; simp at h
        | rsa k => simp at h
        | other => simp at h
    · simp at h
  · rintro ⟨⟨h1, h2⟩, c, n, e, hc, hp, ⟨i, m, hi, hch⟩, hv⟩
    have e0 : buf.take 1184 = r.raw := by
      obtain ⟨t, rfl⟩ := h2
      rw [List.take_left' h1]
    rw [hc, hi, e0]
    simp only [hp, hch]
    obtain ⟨e1, e2, e3⟩ := hr r
    have hv : L.ecdsa e (L.sha384 r.signed) r.sigR r.sigS = true := by rw [e1, e2, e3]; exact hv
    simp [hv]

theorem reportData_iff (L : Lib) (b : Bytes) (r : Sev.Report) (h : r.raw.length = 1184) :
    ctEqBytes (L.sha256 b) r.reportData 32 0 = 0 ↔ (r.raw.drop 80).take 32 = L.sha256 b := by
  have hl : r.reportData.length = 64 := by simp [Sev.Report.reportData, Sev.Report.at, h]
  have hs := L.sha256_length b
  rw [ctEqBytes_zero _ _ 32 0 (by omega) (by omega), List.take_of_length_le (by omega), Sev.Report.reportData, Sev.Report.at,
    List.take_take]
  simp [eq_comm]

/-- What `VerifyAKCert` establishes. -/
theorem verifyAKCert_iff (L : Lib) (F : Formats) (amd roots : List L.Cert) (ev : Evidence) (en : Endorsements) (now : Int) (v : Minimums.Values) :
    verifyAKCert L F amd roots ev en now = .ok (.ok v) ↔
      ∃ k r, (∃ c n, L.d2i ev.akcert = some (c, n) ∧ L.pub c = some (.rsa k) ∧
          ∃ i m, L.d2i en.intermediate = some (i, m) ∧ L.chain roots [i] c now = true) ∧
        (∃ c n e, L.d2i en.vcek = some (c, n) ∧ L.pub c = some (.ec e) ∧
          (∃ i m, L.d2i en.ask = some (i, m) ∧ L.chain amd [i] c now = true) ∧
          L.ecdsa e (L.sha384 (r.take 672)) (littleEndian ((r.drop 672).take 48)) (littleEndian ((r.drop 744).take 48)) = true) ∧
        (r.length = 1184 ∧ r <+: ev.snpReport) ∧ (r.drop 80).take 32 = L.sha256 ev.runtimeData ∧
        (∃ s doc, CStr ev.runtimeData s ∧ F.json s = some doc ∧ NamesKey doc (L.rsaE k) (L.rsaN k)) ∧
        v = Minimums.combineValues (Sev.minimumsFromReport ⟨r⟩) OMap.empty := by
  rw [verifyAKCert]
  constructor
  · intro h
    cases h1 : L.d2i ev.akcert with
    | none => rw [h1] at h; simp at h
    | some p =>
      obtain ⟨c, n⟩ := p
      rw [h1] at h
      simp only at h
      cases h2 : L.d2i en.intermediate with
      | none => rw [h2] at h; simp at h
      | some p =>
        obtain ⟨i, m⟩ := p
        rw [h2] at h
        simp only at h
        by_cases h3 : L.chain roots [i] c now = false
        · rw [if_pos h3] at h; simp at h
        rw [if_neg h3] at h
        obtain ⟨x, h4, h⟩ := Out.bind_eq_ok.mp h
        rcases x with er | r
        · simp at h
        simp only at h
        obtain ⟨hr, hp⟩ := (verifiedReport_iff L amd _ _ _ now r).mp h4
        by_cases h5 : ctEqBytes (L.sha256 ev.runtimeData) r.reportData 32 0 = 0
        · rw [if_neg (by simpa using h5)] at h
          obtain ⟨y, h6, h⟩ := Out.bind_eq_ok.mp h
          rcases y with er | ⟨rte, rtn⟩
          · simp at h
          simp only at h
          split at h
          · rename_i k hk
            by_cases h7 : (ctEq rte (bn2bin (L.rsaE k)) && ctEq rtn (bn2bin (L.rsaN k))) = true
            · rw [if_pos h7] at h
              simp only [Bool.and_eq_true, ctEq_iff] at h7
              obtain ⟨rfl, rfl⟩ := h7
              simp only [Out.pure_eq, Out.ok.injEq, Except.ok.injEq] at h
              exact ⟨k, r.raw, ⟨c, n, rfl, hk, i, m, rfl, by simpa using h3⟩, hp, hr, (reportData_iff L _ r hr.1).mp h5,
                (runtimeKey_iff F _ _ _).mp h6, h.symm⟩
            · rw [if_neg h7] at h; simp at h
          · simp at h
        · rw [if_pos h5] at h; simp at h
  · rintro ⟨k, r, ⟨c, n, h1, hk, i, m, h2, h3⟩, hp, hr, h5, h6, rfl⟩
    rw [h1, h2]
    simp only
    rw [if_neg (by simp [h3]), (verifiedReport_iff L amd _ _ _ now ⟨r⟩).mpr ⟨hr, hp⟩, Out.bind_ok]
    simp only
    rw [if_neg (by simpa using (reportData_iff L ev.runtimeData ⟨r⟩ hr.1).mpr h5), (runtimeKey_iff F _ _ _).mpr h6, Out.bind_ok]
    simp only [hk]
    rw [if_pos (by simp [ctEq_iff])]
    rfl

theorem checkPCRs_iff (loc rem : List Bytes) (h1 : loc.length = 24) (h2 : rem.length = 24) :
    checkRemotePCRs loc rem = true ↔ ∀ i ∈ sameRegisters, loc[i]? = rem[i]? := by
  have key : ∀ i, i < 24 → (sameAt loc rem i = true ↔ loc[i]? = rem[i]?) := by
    intro i hi
    rw [sameAt, List.getElem?_eq_getElem (by omega), List.getElem?_eq_getElem (by omega)]
    simp [ctEq_iff]
  simp only [checkRemotePCRs, comparedPCRs, sameRegisters, List.foldl, Bool.true_and, Bool.and_eq_true, List.mem_cons, List.not_mem_nil,
    or_false, forall_eq_or_imp, forall_eq]
  rw [key 2 (by omega), key 3 (by omega), key 4 (by omega), key 7 (by omega), key 8 (by omega), key 9 (by omega), key 11 (by omega),
    key 12 (by omega), key 13 (by omega), key 14 (by omega)]
  simp only [and_assoc]

theorem verifyTPM2_iff (L : Lib) (ev : Evidence) (nonce : Bytes) (ps : List Bytes) :
    verifyTPM2 L ev = .ok (.ok (nonce, ps)) ↔
      ∃ c n k q s, L.d2i ev.akcert = some (c, n) ∧ L.pub c = some (.rsa k) ∧ Quote.Wf q ∧ ev.msg = q.wire ∧ q.nonce = nonce ∧
        (s.length = 256 ∧ ev.sig = sigWire s ∧ L.rsaVerify k (L.sha256 q.wire) s = true) ∧
        ps.length = 24 ∧ (∀ p ∈ ps, p.length = 32) ∧ ev.pcrs = ps.flatten ∧ q.digest = L.sha256 ps.flatten := by
  have hpcr : ∀ q : Quote, q.Wf → ∀ ps : List Bytes, (Tpm2.reportOf q).verifyPCRs L ps = .ok (decide (L.sha256 ps.flatten = q.digest)) := by
    intro q hq ps
    simp only [Tpm2.Report.verifyPCRs, (Tpm2.reportOf_reads q hq).2.2, Out.bind_ok, Out.pure_eq]
    rw [ctEqBytes_iff _ _ 32 (L.sha256_length _) hq.digest]
  rw [verifyTPM2]
  constructor
  · intro h
    obtain ⟨x, h1, h⟩ := Out.bind_eq_ok.mp h
    rcases x with - | s
    · simp at h
    simp only at h
    obtain ⟨y, h2, h⟩ := Out.bind_eq_ok.mp h
    rcases y with - | r
    · simp at h
    simp only at h
    cases h3 : Tpm2.pcrsFromString ev.pcrs with
    | none => rw [h3] at h; simp at h
    | some ps' =>
      rw [h3] at h
      simp only at h
      cases h4 : L.d2i ev.akcert with
      | none => rw [h4] at h; simp at h
      | some p =>
        obtain ⟨c, n⟩ := p
        rw [h4] at h
        simp only at h
        obtain ⟨q, hq, hw, rfl⟩ : ∃ q : Quote, q.Wf ∧ ev.msg = q.wire ∧ r = Tpm2.reportOf q := by
          rcases Tpm2.parse_good ev.msg with e | ⟨r', e, hh⟩
          · rw [e] at h2; simp at h2
          · rw [e] at h2
            obtain rfl : r' = r := by simpa using h2
            exact hh
        rw [Tpm2.verifyReport] at h
        cases hk : L.pub c with
        | none => rw [hk] at h; simp at h
        | some pk =>
          rw [hk] at h
          cases pk with
          | rsa k =>
            simp only at h
            by_cases hv : L.rsaVerify k (L.sha256 (Tpm2.reportOf q).data) s = true
            · rw [if_pos hv] at h
              simp only [hpcr q hq, Out.bind_ok, (Tpm2.reportOf_reads q hq).2.1] at h
              by_cases hd : L.sha256 ps'.flatten = q.digest
              · simp only [hd, decide_true, if_true, Out.pure_eq, Out.ok.injEq, Except.ok.injEq, Prod.mk.injEq] at h
                obtain ⟨rfl, rfl⟩ := h
                obtain ⟨p1, p2, p3⟩ := (Tpm2.pcrs_iff _ _).mp h3
                obtain ⟨s1, s2⟩ : s.length = 256 ∧ ev.sig = sigWire s := by
                  rcases Tpm2.sigParse_good ev.sig with e | ⟨s', l', w', e⟩
                  · rw [e] at h1; simp at h1
                  · rw [e] at h1
                    obtain rfl : s' = s := by simpa using h1
                    exact ⟨l', w'⟩
                exact ⟨c, n, k, q, s, rfl, hk, hq, hw, rfl, ⟨s1, s2, hv⟩, p1, p2, p3.symm, hd.symm⟩
              · simp [hd] at h
            · rw [if_neg hv] at h; simp at h
          | ec k => simp at h
          | other => simp at h
  · rintro ⟨c, n, k, q, s, h4, hk, hq, hw, rfl, ⟨s1, s2, hv⟩, p1, p2, p3, hd⟩
    rw [s2, Tpm2.sigParse_wire s s1, Out.bind_ok]
    simp only
    rw [hw, Tpm2.parse_wire q hq, Out.bind_ok]
    simp only
    rw [(Tpm2.pcrs_iff _ ps).mpr ⟨p1, p2, p3.symm⟩]
    have hv : L.rsaVerify k (L.sha256 (Tpm2.reportOf q).data) s = true := hv
    simp only [h4, Tpm2.verifyReport, hk, hv, if_true, hpcr q hq, hd, decide_true, Out.bind_ok, (Tpm2.reportOf_reads q hq).2.1, Out.pure_eq]

theorem complete_iff (L : Lib) (F : Formats) (amd roots : List L.Cert) (loc : List Bytes) (hloc : loc.length = 24) (ev : Evidence)
    (en : Endorsements) (now : Int) (d : Data) :
    completeVerification L F amd roots loc ev en now = .ok (.ok d) ↔
      ∃ k r q ps d0, Shows L F amd roots now ev en k r q ps ∧ (∀ i ∈ sameRegisters, loc[i]? = ps[i]?) ∧
        L.parseData ev.attestationData = some d0 ∧
        d = { d0 with values := Minimums.combineValues (Minimums.combineValues (Sev.minimumsFromReport ⟨r⟩) OMap.empty) d0.values } := by
  rw [completeVerification]
  constructor
  · intro h
    obtain ⟨x, h1, h⟩ := Out.bind_eq_ok.mp h
    rcases x with er | v
    · simp at h
    simp only at h
    obtain ⟨y, h2, h⟩ := Out.bind_eq_ok.mp h
    rcases y with er | ⟨nonce, ps⟩
    · simp at h
    simp only at h
    obtain ⟨k, r, hak, hpl, hr, hc, hn, rfl⟩ := (verifyAKCert_iff L F amd roots ev en now v).mp h1
    obtain ⟨c, n, k', q, s, g1, g2, g3, g4, g5, g6, g7, g8, g9, g10⟩ := (verifyTPM2_iff L ev nonce ps).mp h2
    obtain ⟨c', n', e1, e2, hi⟩ := hak
    rw [e1] at g1
    obtain ⟨rfl, rfl⟩ : c' = c ∧ n' = n := by simpa using g1
    rw [e2] at g2
    obtain rfl : k = k' := by simpa using g2
    by_cases h3 : checkRemotePCRs loc ps = false
    · rw [if_pos h3] at h; simp at h
    rw [if_neg h3] at h
    by_cases h4 : ctEq (L.sha256 ev.attestationData) nonce = false
    · rw [if_pos h4] at h; simp at h
    rw [if_neg h4] at h
    have h4 : L.sha256 ev.attestationData = nonce := (ctEq_iff _ _).mp (by simpa using h4)
    cases h5 : L.parseData ev.attestationData with
    | none => rw [h5] at h; simp at h
    | some d0 =>
      rw [h5] at h
      simp only [Out.pure_eq, Out.ok.injEq, Except.ok.injEq] at h
      exact ⟨k, r, q, ps, d0, ⟨⟨c', n', e1, e2, hi⟩, hpl, hr, hc, hn, g3, g4, ⟨s, g6⟩, ⟨g7, g8, g9, g10⟩, by rw [g5, h4]⟩,
        (checkPCRs_iff loc ps hloc g7).mp (by simpa using h3), rfl, h.symm⟩
  · rintro ⟨k, r, q, ps, d0, sh, hp, h5, rfl⟩
    rw [(verifyAKCert_iff L F amd roots ev en now _).mpr ⟨k, r, sh.ak, sh.platform, sh.report, sh.commits, sh.names, rfl⟩, Out.bind_ok]
    simp only
    obtain ⟨c, n, e1, e2, -⟩ := sh.ak
    obtain ⟨s, hs⟩ := sh.signed
    rw [(verifyTPM2_iff L ev q.nonce ps).mpr ⟨c, n, k, q, s, e1, e2, sh.wf, sh.quote, rfl, hs, sh.registers⟩, Out.bind_ok]
    simp only
    rw [if_neg (by simp [(checkPCRs_iff loc ps hloc sh.registers.1).mpr hp]), if_neg (by simp [(ctEq_iff _ _).mpr sh.nonce.symm]), h5]
    rfl

theorem byte_at (r : Bytes) (a i : Nat) (hi : i < 8) : ((((r.drop a).take 8).drop i).take 1) = (r.drop (a + i)).take 1 := by
  rw [List.drop_take, List.take_take, List.drop_drop, Nat.min_eq_left (by omega)]

theorem reportValue_find (r : Bytes) (name : Bytes) : (Sev.minimumsFromReport ⟨r⟩).find name = reportValue r name := by
  simp only [Sev.minimumsFromReport, OMap.find_insert, OMap.find_empty, Sev.u8, Sev.Report.platformVersion, Sev.Report.reportedTcb,
    Sev.Report.at, byte_at r _ _ (by omega : 0 < 8), byte_at r _ _ (by omega : 1 < 8), byte_at r _ _ (by omega : 6 < 8),
    byte_at r _ _ (by omega : 7 < 8)]
  by_cases h1 : Sev.str "snp_platform_version_boot_loader" = name
  · subst h1; rfl
  by_cases h2 : Sev.str "snp_platform_version_tee" = name
  · subst h2; rfl
  by_cases h3 : Sev.str "snp_platform_version_snp" = name
  · subst h3; rfl
  by_cases h4 : Sev.str "snp_platform_version_microcode" = name
  · subst h4; rfl
  by_cases h5 : Sev.str "snp_reported_tcb_boot_loader" = name
  · subst h5; rfl
  by_cases h6 : Sev.str "snp_reported_tcb_tee" = name
  · subst h6; rfl
  by_cases h7 : Sev.str "snp_reported_tcb_snp" = name
  · subst h7; rfl
  by_cases h8 : Sev.str "snp_reported_tcb_microcode" = name
  · subst h8; rfl
  rw [if_neg h1, if_neg h2, if_neg h3, if_neg h4, if_neg h5, if_neg h6, if_neg h7, if_neg h8, reportValue]
  have : (reportValues.find? fun p => ascii p.1 = name) = none := by
    rw [List.find?_eq_none]
    intro p hp
    simp only [reportValues, List.mem_cons, List.not_mem_nil, or_false] at hp
    rw [decide_eq_true_iff]
    rcases hp with rfl | rfl | rfl | rfl | rfl | rfl | rfl | rfl
    · exact h1
    · exact h2
    · exact h3
    · exact h4
    · exact h5
    · exact h6
    · exact h7
    · exact h8
  rw [this]
  rfl

/-- The values of accepted evidence. -/
theorem values_find (r : Bytes) (v : Minimums.Values) (name : Bytes) :
    (Minimums.combineValues (Minimums.combineValues (Sev.minimumsFromReport ⟨r⟩) OMap.empty) v).find name =
      lowerValue (reportValue r name) (v.find name) := by
  rw [Props.Minimums.combine_find, Props.Minimums.combine_find, reportValue_find, OMap.find_empty]
  cases reportValue r name <;> cases v.find name <;> rfl

end Svr.Attest.Tpm2Snp
