import Verif.Attest.NitroFacts

/-!
# Facts about what is signed, and about `Verify`
-/

namespace Svr.Attest.Nitro

open Svr.Spec (Item cborHead cborBytes cborText)
open Svr.Spec.Nitro (AsBytes sigStructure Whole Signed)
open Svr.Attest.Sev (str)

theorem cborHead_length (m n : Nat) : (cborHead m n).length ≤ 9 := by
  rw [cborHead]
  split
  · simp
  split
  · simp
  split
  · simp
  split
  · simp
  · simp

theorem put_ok (cap : Nat) (x b : Bytes) (h : b.length + x.length ≤ cap) : put cap x (some b) = some (b ++ x) := by
  rw [put, if_pos h]

theorem signingBytes_eq (c : Cose) : c.signingBytes = .ok (sigStructure c.header c.payload) := by
  have h1 := cborHead_length 2 c.header.length
  have h2 := cborHead_length 2 c.payload.length
  have e1 : (cborHead 4 4).length = 1 := rfl
  have e2 : (cborHead 3 10).length = 1 := rfl
  have e3 : (cborHead 2 0).length = 1 := rfl
  have e4 : (str "Signature1").length = 10 := rfl
  rw [Cose.signingBytes]
  rw [put_ok _ _ [] (by simp [e1]), put_ok _ _ _ (by simp [e1, e2, e4]), put_ok _ _ _ (by simp [e1, e2, e4]; omega),
    put_ok _ _ _ (by simp [e1, e2, e3, e4]; omega), put_ok _ _ _ (by simp [e1, e2, e3, e4]; omega)]
  simp only [sigStructure, cborText, cborBytes, List.append_assoc, List.nil_append]
  rfl

theorem ofNat_inj {a b : Nat} (h : UInt8.ofNat a = UInt8.ofNat b) : a % 256 = b % 256 := by
  have := congrArg UInt8.toNat h
  simpa using this

theorem cborHead_bytes_inj (n n' : Nat) (hn : n < 2^64) (hn' : n' < 2^64) (x y : Bytes) (h : cborHead 2 n ++ x = cborHead 2 n' ++ y) :
    n = n' ∧ x = y := by
  have hh : (cborHead 2 n ++ x).head? = (cborHead 2 n' ++ y).head? := by rw [h]
  have hn1 : ∀ n, n < 2^64 → ∀ x : Bytes, ∃ a, (cborHead 2 n ++ x).head? = some (UInt8.ofNat a) ∧
      ((n < 24 ∧ a = 64 + n) ∨ (24 ≤ n ∧ n < 2^8 ∧ a = 88) ∨ (2^8 ≤ n ∧ n < 2^16 ∧ a = 89) ∨ (2^16 ≤ n ∧ n < 2^32 ∧ a = 90) ∨ (2^32 ≤ n ∧ a = 91)) := by
    intro n _ x
    rw [cborHead]
    split
    · exact ⟨_, rfl, by omega⟩
    split
    · exact ⟨_, rfl, by omega⟩
    split
    · exact ⟨_, rfl, by omega⟩
    split
    · exact ⟨_, rfl, by omega⟩
    · exact ⟨_, rfl, by omega⟩
  obtain ⟨a, ha, ca⟩ := hn1 n hn x
  obtain ⟨b, hb, cb⟩ := hn1 n' hn' y
  rw [ha, hb, Option.some.injEq] at hh
  have hab := ofNat_inj hh
  rcases ca with ⟨l, ea⟩ | ⟨l, l', ea⟩ | ⟨l, l', ea⟩ | ⟨l, l', ea⟩ | ⟨l, ea⟩
  · obtain ⟨m, eb⟩ : n' < 24 ∧ b = 64 + n' := by omega
    rw [cborHead, if_pos l, cborHead, if_pos m] at h
    simp only [List.cons_append, List.nil_append, List.cons.injEq] at h
    exact ⟨by omega, h.2⟩
  · obtain ⟨m, m', eb⟩ : 24 ≤ n' ∧ n' < 2^8 ∧ b = 88 := by omega
    rw [cborHead, if_neg (by omega), if_pos l', cborHead, if_neg (by omega), if_pos m'] at h
    simp only [List.cons_append, List.nil_append, List.cons.injEq] at h
    have := ofNat_inj h.2.1
    exact ⟨by omega, h.2.2⟩
  · obtain ⟨m, m', eb⟩ : 2^8 ≤ n' ∧ n' < 2^16 ∧ b = 89 := by omega
    rw [cborHead, if_neg (by omega), if_neg (by omega), if_pos l', cborHead, if_neg (by omega), if_neg (by omega), if_pos m'] at h
    simp only [List.cons_append, List.nil_append, List.cons.injEq] at h
    have := ofNat_inj h.2.1
    have := ofNat_inj h.2.2.1
    exact ⟨by omega, h.2.2.2⟩
  · obtain ⟨m, m', eb⟩ : 2^16 ≤ n' ∧ n' < 2^32 ∧ b = 90 := by omega
    rw [cborHead, if_neg (by omega), if_neg (by omega), if_neg (by omega), if_pos l', cborHead, if_neg (by omega), if_neg (by omega),
      if_neg (by omega), if_pos m'] at h
    simp only [List.cons_append, List.nil_append, List.cons.injEq] at h
    have := ofNat_inj h.2.1
    have := ofNat_inj h.2.2.1
    have := ofNat_inj h.2.2.2.1
    have := ofNat_inj h.2.2.2.2.1
    exact ⟨by omega, h.2.2.2.2.2⟩
  · obtain ⟨m, eb⟩ : 2^32 ≤ n' ∧ b = 91 := by omega
    rw [cborHead, if_neg (by omega), if_neg (by omega), if_neg (by omega), if_neg (by omega), cborHead, if_neg (by omega), if_neg (by omega),
      if_neg (by omega), if_neg (by omega)] at h
    have r : List.range 8 = [0, 1, 2, 3, 4, 5, 6, 7] := by decide
    simp only [r, List.map_cons, List.map_nil, List.cons_append, List.nil_append, List.cons.injEq, Nat.reduceSub, Nat.reduceMul] at h
    obtain ⟨-, h0, h1, h2, h3, h4, h5, h6, h7, hx⟩ := h
    have := ofNat_inj h0
    have := ofNat_inj h1
    have := ofNat_inj h2
    have := ofNat_inj h3
    have := ofNat_inj h4
    have := ofNat_inj h5
    have := ofNat_inj h6
    have := ofNat_inj h7
    exact ⟨by omega, hx⟩

theorem cborBytes_inj (a b x y : Bytes) (ha : a.length < 2^64) (hb : b.length < 2^64) (h : cborBytes a ++ x = cborBytes b ++ y) :
    a = b ∧ x = y := by
  rw [cborBytes, cborBytes, List.append_assoc, List.append_assoc] at h
  obtain ⟨e, h⟩ := cborHead_bytes_inj _ _ ha hb _ _ h
  exact List.append_inj h e

theorem sigStructure_inj (h p h' p' : Bytes) (hh : h.length < 2^64) (hp : p.length < 2^64) (hh' : h'.length < 2^64) (hp' : p'.length < 2^64)
    (e : sigStructure h p = sigStructure h' p') : h = h' ∧ p = p' := by
  simp only [sigStructure, List.cons.injEq, List.append_assoc, true_and, List.append_cancel_left_eq] at e
  obtain ⟨e1, e2⟩ := cborBytes_inj _ _ _ _ hh hh' e
  have e3 := (cborBytes_inj [] [] _ _ (by simp) (by simp) e2).2
  have := cborBytes_inj p p' [] [] hp hp' (by simpa using e3)
  exact ⟨e1, this.1⟩

/-! ### `Verify` -/

theorem certificate_iff (L : Lib) (b : Bytes) (c : L.Cert) : certificate L b = .ok c ↔ Whole L b c := by
  rw [certificate, Whole]
  rcases L.d2i b with - | ⟨c', n⟩
  · simp
  · simp only
    split
    · simp [*]
    · simp [*]

theorem caBundle_iff (L : Lib) : ∀ (bs : List Bytes) (cs : List L.Cert), caBundle L bs = .ok cs ↔ List.Forall₂ (Whole L) bs cs
  | [], cs => by
    rw [caBundle, List.forall₂_nil_left_iff, Except.ok.injEq]
    exact eq_comm
  | b :: bs, cs => by
    rw [caBundle]
    cases hc : certificate L b with
    | error e =>
      simp only [reduceCtorEq, false_iff]
      intro h
      cases h with
      | cons h _ => rw [(certificate_iff L b _).mpr h] at hc; cases hc
    | ok c =>
      simp only
      cases hb : caBundle L bs with
      | error e =>
        simp only [reduceCtorEq, false_iff]
        intro h
        cases h with
        | cons _ h => rw [(caBundle_iff L bs _).mpr h] at hb; cases hb
      | ok cs' =>
        simp only [Except.ok.injEq]
        constructor
        · rintro rfl
          exact .cons ((certificate_iff L b c).mp hc) ((caBundle_iff L bs cs').mp hb)
        · intro h
          cases h with
          | cons h1 h2 =>
            rw [(certificate_iff L b _).mpr h1] at hc
            rw [(caBundle_iff L bs _).mpr h2] at hb
            rw [Except.ok.inj hc, Except.ok.inj hb]

theorem be_number (x : Bytes) : be x = Spec.number 256 (x.map (·.toNat)) := by
  rw [be, Spec.number, List.foldl_map]

theorem verify_iff (L : Lib) (roots : List L.Cert) (d : Doc) (c : Cose) (now : Int) (hn : -2^63 ≤ now - 3600 ∧ now + 3600 < 2^63) :
    verify L roots d c now = .ok (.ok ()) ↔ Signed L roots now d.certificate d.cabundle c.header c.payload c.signature := by
  rw [verify, Signed, be_number, be_number]
  cases hc : certificate L d.certificate with
  | error e =>
    simp only [Out.ok.injEq, reduceCtorEq, false_iff]
    rintro ⟨x, cs, k, h, -⟩
    rw [(certificate_iff ..).mpr h] at hc; cases hc
  | ok x =>
    simp only
    cases hb : caBundle L d.cabundle with
    | error e =>
      simp only [Out.ok.injEq, reduceCtorEq, false_iff]
      rintro ⟨x, cs, k, -, h, -⟩
      rw [(caBundle_iff ..).mpr h] at hb; cases hb
    | ok cs =>
      simp only [signingBytes_eq]
      have hc' := (certificate_iff ..).mp hc
      have hb' := (caBundle_iff ..).mp hb
      rw [if_neg (not_not_intro hn)]
      have key : ∀ x' cs', Whole L d.certificate x' → List.Forall₂ (Whole L) d.cabundle cs' → x' = x ∧ cs' = cs := by
        intro x' cs' h1 h2
        have e1 := (certificate_iff ..).mpr h1
        have e2 := (caBundle_iff ..).mpr h2
        rw [hc] at e1; rw [hb] at e2
        exact ⟨(Except.ok.inj e1).symm, (Except.ok.inj e2).symm⟩
      split
      · rename_i ht
        simp only [Out.ok.injEq, reduceCtorEq, false_iff]
        rintro ⟨x', cs', k, h1, h2, ⟨t, ht', h3⟩, -⟩
        obtain ⟨rfl, rfl⟩ := key _ _ h1 h2
        refine ht (List.any_eq_true.mpr ⟨t, ?_, h3⟩)
        simpa [times] using ht'
      rename_i ht
      obtain ⟨t, hm, ht⟩ := List.any_eq_true.mp (not_not.mp ht)
      have hm : t = now + 3600 ∨ t = now ∨ t = now - 3600 := by simpa [times] using hm
      cases hp : L.pub x with
      | none =>
        simp only [Out.ok.injEq, reduceCtorEq, false_iff]
        rintro ⟨x', cs', k, h1, h2, -, h3, -⟩
        obtain ⟨rfl, rfl⟩ := key _ _ h1 h2
        rw [hp] at h3; cases h3
      | some pk =>
        simp only
        split
        · rename_i hs
          simp only [Out.ok.injEq, reduceCtorEq, false_iff]
          rintro ⟨x', cs', k, h1, h2, -, -, h3, -⟩
          exact hs h3
        rename_i hs
        cases pk with
        | ec k =>
          simp only
          split
          · rename_i hv
            simp only [true_iff]
            exact ⟨x, cs, k, hc', hb', ⟨t, hm, ht⟩, hp, not_not.mp hs, hv⟩
          · rename_i hv
            simp only [Out.ok.injEq, reduceCtorEq, false_iff]
            rintro ⟨x', cs', k', h1, h2, -, h3, -, h4⟩
            obtain ⟨rfl, rfl⟩ := key _ _ h1 h2
            rw [hp, Option.some.injEq, Pub.ec.injEq] at h3
            subst h3
            exact hv h4
        | rsa k =>
          simp only [Out.ok.injEq, reduceCtorEq, false_iff]
          rintro ⟨x', cs', k', h1, h2, -, h3, -⟩
          obtain ⟨rfl, rfl⟩ := key _ _ h1 h2
          rw [hp] at h3; simp at h3
        | other =>
          simp only [Out.ok.injEq, reduceCtorEq, false_iff]
          rintro ⟨x', cs', k', h1, h2, -, h3, -⟩
          obtain ⟨rfl, rfl⟩ := key _ _ h1 h2
          rw [hp] at h3; simp at h3

theorem verify_total (L : Lib) (roots : List L.Cert) (d : Doc) (c : Cose) (now : Int) (hn : -2^63 ≤ now - 3600 ∧ now + 3600 < 2^63) :
    ∃ r, verify L roots d c now = .ok r := by
  rw [verify]
  split
  · exact ⟨_, rfl⟩
  split
  · exact ⟨_, rfl⟩
  split
  · exact ⟨_, rfl⟩
  rw [if_neg (not_not_intro hn)]
  split
  · exact ⟨_, rfl⟩
  split
  · exact ⟨_, rfl⟩
  split
  · exact ⟨_, rfl⟩
  split
  · split <;> exact ⟨_, rfl⟩
  · exact ⟨_, rfl⟩

theorem pcrMatches_iff (i : Int) (loc remote : OMap Int Bytes) :
    pcrMatches i loc remote = true ↔ ∃ b, loc.find i = some b ∧ remote.find i = some b := by
  rw [pcrMatches]
  cases loc.find i with
  | none => simp
  | some a =>
    cases remote.find i with
    | none => simp
    | some b =>
      simp only [ctEq_iff, Option.some.injEq]
      constructor
      · rintro rfl; exact ⟨_, rfl, rfl⟩
      · rintro ⟨c, rfl, rfl⟩; rfl

/-! ### Everything returns if memory can be had -/

theorem andThen_total {x : R α} {f : α → R β} (hx : ∃ r, x = .ok r) (hf : ∀ a, x = .ok (.ok a) → ∃ r, f a = .ok r) :
    ∃ r, andThen x f = .ok r := by
  obtain ⟨e | a, rfl⟩ := hx
  · exact ⟨_, rfl⟩
  · exact hf a rfl

theorem past_total (a : α) (l : List Item) : ∃ r, past a l = .ok r := by
  rw [past]; split <;> exact ⟨_, rfl⟩

theorem leave_total (a : α) (l : List Item) : ∃ r, leave a l = .ok r := by
  rw [leave]; split <;> exact ⟨_, rfl⟩

theorem textString_total {W : World} (all : ∀ n, W.alloc n = true) (l : List Item) : ∃ r, textString W l = .ok r := by
  rw [textString.eq_def]
  split
  · rw [if_pos (all _)]; exact past_total ..
  · rw [if_pos (all _)]; exact ⟨_, rfl⟩
  · exact ⟨_, rfl⟩

theorem byteString_total {W : World} (all : ∀ n, W.alloc n = true) (l : List Item) : ∃ r, byteString W l = .ok r := by
  rw [byteString.eq_def]
  split
  · exact past_total ..
  · rw [if_pos (all _)]; exact past_total ..
  · rw [if_pos (all _)]; exact ⟨_, rfl⟩
  · exact ⟨_, rfl⟩

theorem int_total (l : List Item) : ∃ r, int l = .ok r := by
  rw [int.eq_def]
  split
  · split
    · exact past_total ..
    · exact ⟨_, rfl⟩
  · exact ⟨_, rfl⟩

theorem emptyMap_total (l : List Item) : ∃ r, emptyMap l = .ok r := by
  rw [emptyMap.eq_def]
  split
  · split <;> exact ⟨_, rfl⟩
  · exact ⟨_, rfl⟩

theorem pcrLoop_total {W : World} (all : ∀ n, W.alloc n = true) : ∀ fuel l m, l.length ≤ fuel → ∃ r, pcrLoop W fuel l m = .ok r := by
  intro fuel
  induction fuel with
  | zero => intro l m h; cases l with
    | nil => exact ⟨_, rfl⟩
    | cons x l => simp at h
  | succ fuel ih =>
    intro l m h
    cases l with
    | nil => exact ⟨_, rfl⟩
    | cons x l =>
      rw [pcrLoop.eq_3 _ _ _ _ (by simp)]
      refine andThen_total (int_total _) fun ⟨k, l1⟩ h1 => andThen_total (byteString_total all _) fun ⟨v, l2⟩ h2 => ih _ _ ?_
      obtain ⟨e1, -⟩ := int_iff.mp h1
      obtain ⟨y, e2, -⟩ := byteString_sound h2
      have := congrArg List.length e1
      have := congrArg List.length e2
      simp at *; omega

theorem bundleLoop_total {W : World} (all : ∀ n, W.alloc n = true) : ∀ fuel l m, l.length ≤ fuel → ∃ r, bundleLoop W fuel l m = .ok r := by
  intro fuel
  induction fuel with
  | zero => intro l m h; cases l with
    | nil => exact ⟨_, rfl⟩
    | cons x l => simp at h
  | succ fuel ih =>
    intro l m h
    cases l with
    | nil => exact ⟨_, rfl⟩
    | cons x l =>
      rw [bundleLoop.eq_3 _ _ _ _ (by simp)]
      refine andThen_total (byteString_total all _) fun ⟨v, l2⟩ h2 => ih _ _ ?_
      obtain ⟨y, e2, -⟩ := byteString_sound h2
      have := congrArg List.length e2
      simp at *; omega

theorem field_total {W : World} (all : ∀ n, W.alloc n = true) (key : Bytes) (l : List Item) (d : Doc) : ∃ r, field W key l d = .ok r := by
  have t : ∀ f : Bytes × List Item → R (Doc × List Item), (∀ a, ∃ r, f a = .ok r) → ∃ r, andThen (textString W l) f = .ok r :=
    fun f hf => andThen_total (textString_total all _) fun a _ => hf a
  have b : ∀ f : Bytes × List Item → R (Doc × List Item), (∀ a, ∃ r, f a = .ok r) → ∃ r, andThen (byteString W l) f = .ok r :=
    fun f hf => andThen_total (byteString_total all _) fun a _ => hf a
  rw [field.eq_def]
  split
  · exact t _ fun _ => ⟨_, rfl⟩
  split
  · exact t _ fun _ => ⟨_, rfl⟩
  split
  · exact b _ fun _ => ⟨_, rfl⟩
  split
  · exact b _ fun _ => ⟨_, rfl⟩
  split
  · exact b _ fun _ => ⟨_, rfl⟩
  split
  · exact b _ fun _ => ⟨_, rfl⟩
  split
  · split
    · split
      · exact ⟨_, rfl⟩
      · exact andThen_total (pcrLoop_total all _ _ _ (le_refl _)) fun _ _ => leave_total ..
    · exact ⟨_, rfl⟩
  split
  · split
    · split
      · exact ⟨_, rfl⟩
      · exact andThen_total (bundleLoop_total all _ _ _ (le_refl _)) fun _ _ => leave_total ..
    · exact ⟨_, rfl⟩
  split
  · exact andThen_total (int_total _) fun _ _ => ⟨_, rfl⟩
  · exact ⟨_, rfl⟩

theorem docLoop_total {W : World} (all : ∀ n, W.alloc n = true) : ∀ fuel l d, l.length ≤ fuel → ∃ r, docLoop W fuel l d = .ok r := by
  intro fuel
  induction fuel with
  | zero => intro l m h; cases l with
    | nil => exact ⟨_, rfl⟩
    | cons x l => simp at h
  | succ fuel ih =>
    intro l m h
    cases l with
    | nil => exact ⟨_, rfl⟩
    | cons x l =>
      rw [docLoop.eq_3 _ _ _ _ (by simp)]
      refine andThen_total (textString_total all _) fun ⟨k, l1⟩ h1 => andThen_total (field_total all _ _ _) fun ⟨v, l2⟩ h2 => ih _ _ ?_
      obtain ⟨e1, -⟩ := textString_sound h1
      obtain ⟨y, e2, -⟩ := field_sound h2
      have := congrArg List.length e1
      have := congrArg List.length e2
      simp at *; omega

theorem docParse_total {W : World} (all : ∀ n, W.alloc n = true) (data : Bytes) : ∃ r, Doc.parse W data = .ok r := by
  rw [Doc.parse.eq_def]
  split
  · split
    · exact ⟨_, rfl⟩
    · refine andThen_total (docLoop_total all _ _ _ (le_refl _)) fun d _ => ?_
      split <;> exact ⟨_, rfl⟩
  · exact ⟨_, rfl⟩

theorem coseParse_total {W : World} (all : ∀ n, W.alloc n = true) (data : Bytes) : ∃ r, Cose.parse W data = .ok r := by
  rw [Cose.parse.eq_def]
  split
  · exact ⟨_, rfl⟩
  · split
    · exact ⟨_, rfl⟩
    · refine andThen_total (byteString_total all _) fun _ _ => andThen_total (emptyMap_total _) fun _ _ =>
        andThen_total (byteString_total all _) fun _ _ => andThen_total (byteString_total all _) fun _ _ => ?_
      simp only
      split
      · exact ⟨_, rfl⟩
      split <;> exact ⟨_, rfl⟩
  · exact ⟨_, rfl⟩

end Svr.Attest.Nitro
