import Verif.Attest.Sev
import Verif.Attest.Facts
import Verif.Spec.CertTable

/-!
# Facts about the table of certificates
-/

namespace Svr.Attest.Sev

open Spec

theorem le_le32 (n : UInt32) : le (le32 n) = n.toNat := by
  have := n.toNat_lt
  simp only [le, be, le32, List.reverse_cons, List.reverse_nil, List.nil_append, List.cons_append, List.foldl, UInt8.toNat_ofNat']
  omega

theorem le_lt (x : Bytes) : le x < 256 ^ x.length := by
  have := be_lt x.reverse
  simpa [le] using this

/-- Any 24 bytes are those of an entry. -/
def entryOf (b : Bytes) : CertEntry :=
  ⟨b.take 16, UInt32.ofNat (le ((b.drop 16).take 4)), UInt32.ofNat (le ((b.drop 20).take 4))⟩

theorem toNat_le4 (b : Bytes) (k : Nat) : (UInt32.ofNat (le ((b.drop k).take 4))).toNat = le ((b.drop k).take 4) := by
  rw [UInt32.toNat_ofNat']
  apply Nat.mod_eq_of_lt
  have := le_lt ((b.drop k).take 4)
  have h : ((b.drop k).take 4).length ≤ 4 := by rw [List.length_take]; omega
  have : (256 : Nat) ^ ((b.drop k).take 4).length ≤ 256 ^ 4 := Nat.pow_le_pow_right (by omega) h
  omega

theorem entryOf_wire (b : Bytes) (h : b.length = 24) : (entryOf b).wire = b := by
  have h1 : le32 (entryOf b).offset = (b.drop 16).take 4 :=
    le_inj _ _ (by simp [le32, h]) (by rw [le_le32]; exact toNat_le4 b 16)
  have h2 : le32 (entryOf b).length = (b.drop 20).take 4 :=
    le_inj _ _ (by simp [le32, h]) (by rw [le_le32]; exact toNat_le4 b 20)
  have h3 : (b.drop 20).take 4 = b.drop 20 := List.take_of_length_le (by simp [h])
  rw [CertEntry.wire, h1, h2, h3]
  show b.take 16 ++ _ ++ _ = b
  rw [List.append_assoc, ← cut b 16 4, List.take_append_drop]

theorem wire_length (e : CertEntry) (h : e.guid.length = 16) : e.wire.length = 24 := by
  simp [CertEntry.wire, le32, h]

theorem wire_guid (e : CertEntry) (h : e.guid.length = 16) : e.wire.take 16 = e.guid := by
  rw [CertEntry.wire, List.append_assoc, List.take_left' h]

theorem wire_offset (e : CertEntry) (h : e.guid.length = 16) : le ((e.wire.drop 16).take 4) = e.offset.toNat := by
  rw [CertEntry.wire, List.append_assoc, List.drop_left' h, List.take_left' (by simp [le32]), le_le32]

theorem wire_len (e : CertEntry) (h : e.guid.length = 16) : le ((e.wire.drop 20).take 4) = e.length.toNat := by
  rw [CertEntry.wire, List.drop_left' (by simp [le32, h]), List.take_of_length_le (by simp [le32]), le_le32]

/-- What the loop has made of some entries. -/
def fold (certs : Bytes) (es : List CertEntry) (e : Endorsements) : Endorsements :=
  es.foldl (fun e x => setCert e x.guid (x.cert certs)) e

theorem rd_wire (certs pre x rest : Bytes) (i : Nat) (h : certs = pre ++ (x ++ rest)) (hp : pre.length = 24 * i) (hx : x.length = 24) :
    rd certs (24 * i) 24 = .ok x := by
  rw [h]; exact rd_append pre x rest _ _ hp.symm hx.symm

theorem table_complete (certs : Bytes) (size : Nat) (hs : size ≤ certs.length) (hw : size < 2^32) :
    ∀ (es : List CertEntry) (n i : Nat) (e : Endorsements) (pre rest : Bytes), es.length < n → pre.length = 24 * i →
      certs = pre ++ ((es.map CertEntry.wire).flatten ++ (zeros 24 ++ rest)) →
      (∀ x ∈ es, x.guid.length = 16) → (∀ x ∈ es, x.wire ≠ zeros 24) → (∀ x ∈ es, x.offset.toNat + x.length.toNat ≤ size) →
      24 * (i + es.length + 1) ≤ size → table certs size n i e = .ok (.ok (fold certs es e)) := by
  intro es
  induction es with
  | nil =>
    intro n i e pre rest hn hp hc _ _ _ hr
    obtain ⟨n, rfl⟩ : ∃ m, n = m + 1 := ⟨n - 1, by simp at hn; omega⟩
    have r := rd_wire certs pre (zeros 24) rest i (by simpa using hc) hp (by simp [zeros])
    simp only [List.length_nil, Nat.add_zero] at hr
    rw [table, if_neg (by rw [Nat.mod_eq_of_lt (by omega)]; omega), r, Out.bind_ok, if_pos rfl]
    rfl
  | cons x es ih =>
    intro n i e pre rest hn hp hc hg hl hin hr
    obtain ⟨n, rfl⟩ : ∃ m, n = m + 1 := ⟨n - 1, by simp at hn; omega⟩
    have gx := hg x (List.mem_cons_self ..)
    have lx := hl x (List.mem_cons_self ..)
    have ix := hin x (List.mem_cons_self ..)
    simp only [List.length_cons] at hr hn
    have r := rd_wire certs pre x.wire ((es.map CertEntry.wire).flatten ++ (zeros 24 ++ rest)) i (by simpa using hc) hp (wire_length x gx)
    have r2 : rd certs x.offset.toNat x.length.toNat = .ok (x.cert certs) := by
      rw [rd, if_pos (by omega)]; rfl
    rw [table, if_neg (by rw [Nat.mod_eq_of_lt (by omega)]; omega), r, Out.bind_ok, if_neg lx]
    simp only [wire_offset x gx, wire_len x gx]
    rw [if_neg (by rw [Nat.mod_eq_of_lt (by omega)]; omega), r2, Out.bind_ok, wire_guid x gx]
    have := ih n (i + 1) (setCert e x.guid (x.cert certs)) (pre ++ x.wire) rest (by omega)
      (by rw [List.length_append, hp, wire_length x gx]; omega) (by simpa using hc) (fun y h => hg y (List.mem_cons_of_mem _ h))
      (fun y h => hl y (List.mem_cons_of_mem _ h)) (fun y h => hin y (List.mem_cons_of_mem _ h)) (by omega)
    rw [this]
    rfl

/-- No entry in the buffer has an end that does not fit 32 bits. -/
def NoWrap (certs : Bytes) (size : Nat) : Prop :=
  ∀ i, 24 * (i + 1) ≤ size →
    le (((certs.drop (24 * i)).drop 16).take 4) + le (((certs.drop (24 * i)).drop 20).take 4) < 2^32

theorem table_sound (certs : Bytes) (size : Nat) (hs : size ≤ certs.length) (hw : size + 24 < 2^32) (wrap : NoWrap certs size) :
    ∀ (n i : Nat) (e : Endorsements), 24 * i ≤ size → certs.length < 24 * (i + n) →
      (∃ er, table certs size n i e = .ok (.error er)) ∨
      (∃ es rest, certs.drop (24 * i) = (es.map CertEntry.wire).flatten ++ (zeros 24 ++ rest) ∧
        (∀ x ∈ es, x.guid.length = 16) ∧ (∀ x ∈ es, x.wire ≠ zeros 24) ∧ (∀ x ∈ es, x.offset.toNat + x.length.toNat ≤ size) ∧
        24 * (i + es.length + 1) ≤ size ∧ table certs size n i e = .ok (.ok (fold certs es e))) := by
  intro n
  induction n with
  | zero => intro i e hi hn; omega
  | succ n ih =>
    intro i e hi hn
    rw [table]
    by_cases h1 : 24 * (i + 1) % 2^32 > size
    · rw [if_pos h1]; exact Or.inl ⟨_, rfl⟩
    rw [Nat.mod_eq_of_lt (by omega)] at h1
    rw [if_neg (by rw [Nat.mod_eq_of_lt (by omega)]; exact h1)]
    have r : rd certs (24 * i) 24 = .ok ((certs.drop (24 * i)).take 24) := by rw [rd, if_pos (by omega)]
    rw [r, Out.bind_ok]
    have hl : ((certs.drop (24 * i)).take 24).length = 24 := by rw [List.length_take, List.length_drop]; omega
    have hcut : certs.drop (24 * i) = (certs.drop (24 * i)).take 24 ++ certs.drop (24 * (i + 1)) := cut certs (24 * i) 24
    have wx := wrap i (by omega)
    rw [hcut, List.drop_append_of_le_length (by omega), List.drop_append_of_le_length (by omega),
      List.take_append_of_le_length (by rw [List.length_drop]; omega), List.take_append_of_le_length (by rw [List.length_drop]; omega)] at wx
    generalize (certs.drop (24 * i)).take 24 = b at *
    by_cases h2 : b = zeros 24
    · rw [if_pos h2]
      exact Or.inr ⟨[], certs.drop (24 * (i + 1)), by rw [hcut, h2]; rfl, by simp, by simp, by simp, by simp; omega, rfl⟩
    rw [if_neg h2]
    simp only
    by_cases h3 : le ((b.drop 16).take 4) > size ∨ (le ((b.drop 16).take 4) + le ((b.drop 20).take 4)) % 2^32 > size
    · rw [if_pos h3]; exact Or.inl ⟨_, rfl⟩
    rw [if_neg h3]
    have h4 : le ((b.drop 16).take 4) + le ((b.drop 20).take 4) ≤ size := by
      rw [Nat.mod_eq_of_lt wx] at h3; omega
    have r2 : rd certs (le ((b.drop 16).take 4)) (le ((b.drop 20).take 4)) = .ok ((entryOf b).cert certs) := by
      rw [rd, if_pos (by omega), CertEntry.cert]
      show _ = Out.ok ((certs.drop (UInt32.ofNat _).toNat).take (UInt32.ofNat _).toNat)
      rw [toNat_le4, toNat_le4]
    rw [r2, Out.bind_ok]
    rcases ih (i + 1) (setCert e (b.take 16) ((entryOf b).cert certs)) (by omega) (by omega) with ⟨er, h⟩ | ⟨es, rest, e1, e2, e3, e4, e5, e6⟩
    · exact Or.inl ⟨er, h⟩
    · refine Or.inr ⟨entryOf b :: es, rest, ?_, ?_, ?_, ?_, ?_, ?_⟩
      · rw [hcut, e1]; simp [entryOf_wire b hl]
      · intro x hx
        rcases List.mem_cons.mp hx with rfl | hx
        · show (b.take 16).length = 16
          rw [List.length_take, hl]; rfl
        · exact e2 x hx
      · intro x hx
        rcases List.mem_cons.mp hx with rfl | hx
        · rw [entryOf_wire b hl]; exact h2
        · exact e3 x hx
      · intro x hx
        rcases List.mem_cons.mp hx with rfl | hx
        · show (UInt32.ofNat _).toNat + (UInt32.ofNat _).toNat ≤ size
          rw [toNat_le4, toNat_le4]; exact h4
        · exact e4 x hx
      · simp only [List.length_cons]; omega
      · rw [e6]; rfl

theorem fold_fields (certs : Bytes) : ∀ (es : List CertEntry) (e : Endorsements),
    fold certs es e = ⟨certFor certs es uuidVcek e.vcek, certFor certs es uuidAsk e.ask, certFor certs es uuidArk e.ark,
      certFor certs es uuidVlek e.vlek, certFor certs es uuidCrl e.crl⟩ := by
  intro es
  induction es using List.reverseRecOn with
  | nil => intro e; rfl
  | append_singleton es x ih =>
    intro e
    have hf : fold certs (es ++ [x]) e = setCert (fold certs es e) x.guid (x.cert certs) := by simp [fold]
    have hc : ∀ g old, certFor certs (es ++ [x]) g old = if x.guid = g then x.cert certs else certFor certs es g old := by
      intro g old
      by_cases h : x.guid = g <;> simp [certFor, h]
    rw [hf, ih, hc, hc, hc, hc, hc, setCert]
    by_cases h1 : x.guid = uuidVcek
    · rw [h1]; rfl
    by_cases h2 : x.guid = uuidAsk
    · rw [h2]; rfl
    by_cases h3 : x.guid = uuidArk
    · rw [h3]; rfl
    by_cases h4 : x.guid = uuidVlek
    · rw [h4]; rfl
    by_cases h5 : x.guid = uuidCrl
    · rw [h5]; rfl
    simp only [if_neg h1, if_neg h2, if_neg h3, if_neg h4, if_neg h5]

end Svr.Attest.Sev
