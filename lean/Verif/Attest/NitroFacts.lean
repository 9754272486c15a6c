import Verif.Attest.Nitro
import Verif.Attest.Facts
import Verif.Spec.Nitro
import Mathlib.Data.List.Induction
import Mathlib.Data.List.Perm.Subperm

/-!
# Facts about the model of Nitro attestation
-/

namespace Svr.Attest.Nitro

open Svr.Spec (Item)
open Svr.Spec.Nitro (AsBytes flat Int64 Registers Field Document value bytesOf textOf intOf intPairs registers register bundle Lawful sigStructure)
open Svr.Attest.Sev (str)

theorem andThen_ok {x : R α} {f : α → R β} {b : β} : andThen x f = .ok (.ok b) ↔ ∃ a, x = .ok (.ok a) ∧ f a = .ok (.ok b) := by
  rcases x with (e | a) | - | -
  · simp [andThen]
  · simp [andThen]
  · simp [andThen]
  · simp [andThen]

/-- The cursor can stand here. -/
abbrev Good (l : List Item) : Prop := Spec.Nitro.Readable l

theorem advance_iff (l r : List Item) : advance l = some r ↔ (∃ x, l = x :: r) ∧ Good r := by
  rcases l with - | ⟨x, l⟩
  · simp [advance]
  rcases l with - | ⟨y, l⟩
  · simp only [advance, Option.some.injEq, List.cons.injEq]
    constructor
    · rintro rfl; exact ⟨⟨x, rfl, rfl⟩, by intro t; simp⟩
    · rintro ⟨⟨_, _, e⟩, _⟩; exact e
  · by_cases hy : y = .bad
    · subst hy
      simp only [advance, reduceCtorEq, false_iff, List.cons.injEq]
      rintro ⟨⟨_, _, rfl⟩, g⟩
      exact g l rfl
    · have : advance (x :: y :: l) = some (y :: l) := by cases y <;> first | rfl | exact absurd rfl hy
      rw [this]
      simp only [Option.some.injEq, List.cons.injEq]
      constructor
      · rintro rfl; exact ⟨⟨x, rfl, rfl⟩, by intro t h; exact hy (List.cons.inj h).1⟩
      · rintro ⟨⟨_, _, e⟩, _⟩; exact e

theorem enter_iff (l r : List Item) : enter l = some r ↔ l = r ∧ Good l := by
  rcases l with - | ⟨y, l⟩
  · simp only [enter, Option.some.injEq]
    constructor
    · rintro rfl; exact ⟨rfl, by intro t; simp⟩
    · rintro ⟨e, _⟩; exact e
  · by_cases hy : y = .bad
    · subst hy
      simp only [enter, reduceCtorEq, false_iff]
      rintro ⟨_, g⟩
      exact g l rfl
    · have : enter (y :: l) = some (y :: l) := by cases y <;> first | rfl | exact absurd rfl hy
      rw [this, Option.some.injEq]
      constructor
      · rintro rfl; exact ⟨rfl, by intro t h; exact hy (List.cons.inj h).1⟩
      · rintro ⟨e, _⟩; exact e

theorem past_iff (a b : α) (l r : List Item) : past a l = .ok (.ok (b, r)) ↔ a = b ∧ (∃ x, l = x :: r) ∧ Good r := by
  rw [past]
  cases h : advance l with
  | none =>
    simp only [Out.ok.injEq, reduceCtorEq, false_iff]
    rintro ⟨-, hr⟩
    rw [(advance_iff l r).mpr hr] at h; cases h
  | some l' =>
    simp only [Out.ok.injEq, Except.ok.injEq, Prod.mk.injEq]
    rw [← advance_iff, h, Option.some.injEq]

theorem leave_iff (a b : α) (l r : List Item) : leave a l = .ok (.ok (b, r)) ↔ a = b ∧ (∃ x, l = x :: r) ∧ Good r := by
  rw [leave]
  cases h : advance l with
  | none =>
    simp only [Out.ok.injEq, reduceCtorEq, false_iff]
    rintro ⟨-, hr⟩
    rw [(advance_iff l r).mpr hr] at h; cases h
  | some l' =>
    simp only [Out.ok.injEq, Except.ok.injEq, Prod.mk.injEq]
    rw [← advance_iff, h, Option.some.injEq]

theorem textString_sound {W : World} {l r : List Item} {b : Bytes} (h : textString W l = .ok (.ok (b, r))) : l = .text b :: r ∧ Good r := by
  rw [textString.eq_def] at h
  split at h
  · split at h
    · obtain ⟨rfl, ⟨x, e⟩, g⟩ := (past_iff ..).mp h
      rw [List.cons.injEq] at e
      exact ⟨by rw [e.2], g⟩
    · cases h
  · split at h <;> simp at h
  · simp at h

theorem textString_complete {W : World} (all : ∀ n, W.alloc n = true) {r : List Item} {b : Bytes} (g : Good r) :
    textString W (.text b :: r) = .ok (.ok (b, r)) := by
  rw [textString, if_pos (all _)]
  exact (past_iff ..).mpr ⟨rfl, ⟨_, rfl⟩, g⟩

theorem byteString_sound {W : World} {l r : List Item} {b : Bytes} (h : byteString W l = .ok (.ok (b, r))) :
    ∃ x, l = x :: r ∧ AsBytes x b ∧ Good r := by
  rw [byteString.eq_def] at h
  split at h
  · obtain ⟨rfl, ⟨x, e⟩, g⟩ := (past_iff ..).mp h
    rw [List.cons.injEq] at e
    exact ⟨_, by rw [e.2], Or.inr ⟨rfl, rfl⟩, g⟩
  · split at h
    · obtain ⟨rfl, ⟨x, e⟩, g⟩ := (past_iff ..).mp h
      rw [List.cons.injEq] at e
      exact ⟨_, by rw [e.2], Or.inl rfl, g⟩
    · cases h
  · split at h <;> simp at h
  · simp at h

theorem byteString_complete {W : World} (all : ∀ n, W.alloc n = true) {x : Item} {r : List Item} {b : Bytes} (hx : AsBytes x b) (g : Good r) :
    byteString W (x :: r) = .ok (.ok (b, r)) := by
  rcases hx with rfl | ⟨rfl, rfl⟩
  · rw [byteString, if_pos (all _)]
    exact (past_iff ..).mpr ⟨rfl, ⟨_, rfl⟩, g⟩
  · rw [byteString]
    exact (past_iff ..).mpr ⟨rfl, ⟨_, rfl⟩, g⟩

theorem int_iff {l r : List Item} {n : Int} : int l = .ok (.ok (n, r)) ↔ l = .int n :: r ∧ Int64 n ∧ Good r := by
  rw [int.eq_def]
  split
  · rename_i m t
    split
    · rename_i hm
      rw [past_iff]
      constructor
      · rintro ⟨rfl, ⟨x, e⟩, g⟩
        rw [List.cons.injEq] at e
        exact ⟨by rw [e.2], hm, g⟩
      · rintro ⟨e, -, g⟩
        rw [List.cons.injEq, Item.int.injEq] at e
        exact ⟨e.1, ⟨_, by rw [e.2]⟩, g⟩
    · rename_i hm
      simp only [Out.ok.injEq, reduceCtorEq, false_iff]
      rintro ⟨e, h, -⟩
      rw [List.cons.injEq, Item.int.injEq] at e
      exact hm (e.1 ▸ h)
  · rename_i hl
    simp only [Out.ok.injEq, reduceCtorEq, false_iff]
    rintro ⟨rfl, -⟩
    exact hl _ _ rfl

theorem bytesOf_asBytes {x : Item} {b : Bytes} (h : AsBytes x b) : bytesOf (some x) = b := by
  rcases h with rfl | ⟨rfl, rfl⟩ <;> rfl

theorem good_asBytes {x : Item} {b : Bytes} (h : AsBytes x b) (r : List Item) : Good (x :: r) := by
  rcases h with rfl | ⟨rfl, rfl⟩ <;> intro t <;> simp

/-! ### Loops -/

/-- A register is stored. -/
def store (m : OMap Int Bytes) (p : Int × Item) : OMap Int Bytes := m.insert (toInt32 p.1) (bytesOf (some p.2))

abbrev regItems (ps : List (Int × Item)) : List Item := flat (ps.map fun p => (.int p.1, p.2))

theorem regItems_cons (p : Int × Item) (ps : List (Int × Item)) : regItems (p :: ps) = .int p.1 :: p.2 :: regItems ps := rfl

theorem good_regItems (ps : List (Int × Item)) : Good (regItems ps) := by
  cases ps with
  | nil => intro t; simp [regItems, flat]
  | cons p ps => intro t; simp [regItems_cons]

theorem pcrLoop_sound (W : World) : ∀ fuel l m m', pcrLoop W fuel l m = .ok (.ok m') →
    ∃ ps, l = regItems ps ∧ (∀ p ∈ ps, Int64 p.1 ∧ ∃ b, AsBytes p.2 b) ∧ m' = ps.foldl store m := by
  intro fuel
  induction fuel with
  | zero =>
    intro l m m' h
    cases l with
    | nil => rw [pcrLoop, Out.ok.injEq, Except.ok.injEq] at h; exact ⟨[], rfl, by simp, h.symm⟩
    | cons x l => rw [pcrLoop] at h; cases h
  | succ fuel ih =>
    intro l m m' h
    cases l with
    | nil => rw [pcrLoop, Out.ok.injEq, Except.ok.injEq] at h; exact ⟨[], rfl, by simp, h.symm⟩
    | cons x l =>
      rw [pcrLoop] at h
      · obtain ⟨⟨k, l1⟩, h1, h⟩ := andThen_ok.mp h
        obtain ⟨⟨v, l2⟩, h2, h⟩ := andThen_ok.mp h
        obtain ⟨e1, hk, -⟩ := int_iff.mp h1
        obtain ⟨y, e2, hv, -⟩ := byteString_sound h2
        obtain ⟨ps, rfl, hp, hm⟩ := ih _ _ _ h
        refine ⟨(k, y) :: ps, by rw [e1, e2]; rfl, ?_, ?_⟩
        · intro p hp'
          rcases List.mem_cons.mp hp' with rfl | hp'
          · exact ⟨hk, v, hv⟩
          · exact hp p hp'
        · rw [hm, List.foldl_cons, store, bytesOf_asBytes hv]
      · simp

theorem pcrLoop_complete {W : World} (all : ∀ n, W.alloc n = true) : ∀ (ps : List (Int × Item)) fuel m, (regItems ps).length ≤ fuel →
    (∀ p ∈ ps, Int64 p.1 ∧ ∃ b, AsBytes p.2 b) → pcrLoop W fuel (regItems ps) m = .ok (.ok (ps.foldl store m)) := by
  intro ps
  induction ps with
  | nil => intro fuel m _ _; cases fuel <;> rfl
  | cons p ps ih =>
    intro fuel m hf hp
    obtain ⟨h1, b, hb⟩ := hp p (List.mem_cons_self ..)
    rw [regItems_cons] at hf ⊢
    obtain ⟨fuel, rfl⟩ : ∃ n, fuel = n + 1 := ⟨fuel - 1, by simp at hf; omega⟩
    rw [pcrLoop.eq_3 _ _ _ _ (by simp)]
    refine andThen_ok.mpr ⟨_, int_iff.mpr ⟨rfl, h1, good_asBytes hb _⟩, andThen_ok.mpr ⟨_, byteString_complete all hb (good_regItems ps), ?_⟩⟩
    show pcrLoop W fuel (regItems ps) _ = _
    rw [ih _ _ (by simp at hf; omega) fun q hq => hp q (List.mem_cons_of_mem _ hq), List.foldl_cons, store, bytesOf_asBytes hb]

theorem good_all_bytes {l : List Item} (h : ∀ i ∈ l, ∃ b, AsBytes i b) : Good l := by
  cases l with
  | nil => intro t; simp
  | cons x l => obtain ⟨b, hb⟩ := h x (List.mem_cons_self ..); exact good_asBytes hb l

theorem bundleLoop_sound (W : World) : ∀ fuel l cs cs', bundleLoop W fuel l cs = .ok (.ok cs') →
    (∀ i ∈ l, ∃ b, AsBytes i b) ∧ cs' = cs ++ l.map fun i => bytesOf (some i) := by
  intro fuel
  induction fuel with
  | zero =>
    intro l m m' h
    cases l with
    | nil => rw [bundleLoop, Out.ok.injEq, Except.ok.injEq] at h; exact ⟨by simp, by simp [h]⟩
    | cons x l => rw [bundleLoop] at h; cases h
  | succ fuel ih =>
    intro l m m' h
    cases l with
    | nil => rw [bundleLoop, Out.ok.injEq, Except.ok.injEq] at h; exact ⟨by simp, by simp [h]⟩
    | cons x l =>
      rw [bundleLoop] at h
      · obtain ⟨⟨v, l2⟩, h2, h⟩ := andThen_ok.mp h
        obtain ⟨y, e2, hv, -⟩ := byteString_sound h2
        obtain ⟨rfl, rfl⟩ := List.cons.inj e2
        obtain ⟨hp, hm⟩ := ih _ _ _ h
        refine ⟨?_, ?_⟩
        · intro i hi
          rcases List.mem_cons.mp hi with rfl | hi
          · exact ⟨v, hv⟩
          · exact hp i hi
        · rw [hm, List.map_cons, bytesOf_asBytes hv, List.append_assoc]; rfl
      · simp

theorem bundleLoop_complete {W : World} (all : ∀ n, W.alloc n = true) : ∀ (l : List Item) fuel cs, l.length ≤ fuel →
    (∀ i ∈ l, ∃ b, AsBytes i b) → bundleLoop W fuel l cs = .ok (.ok (cs ++ l.map fun i => bytesOf (some i))) := by
  intro l
  induction l with
  | nil => intro fuel cs _ _; cases fuel <;> simp [bundleLoop]
  | cons x l ih =>
    intro fuel cs hf hp
    obtain ⟨b, hb⟩ := hp x (List.mem_cons_self ..)
    have hp' : ∀ i ∈ l, ∃ b, AsBytes i b := fun q hq => hp q (List.mem_cons_of_mem _ hq)
    obtain ⟨fuel, rfl⟩ : ∃ n, fuel = n + 1 := ⟨fuel - 1, by simp at hf; omega⟩
    rw [bundleLoop.eq_3 _ _ _ _ (by simp)]
    refine andThen_ok.mpr ⟨_, byteString_complete all hb (good_all_bytes hp'), ?_⟩
    show bundleLoop W fuel l _ = _
    rw [ih _ _ (by simp at hf; omega) hp', List.map_cons, bytesOf_asBytes hb, List.append_assoc]
    rfl

/-- What a field does to the document. -/
def put1 (d : Doc) (f : Bytes × Item) : Doc where
  moduleId := if f.1 = str "module_id" then textOf (some f.2) else d.moduleId
  digest := if f.1 = str "digest" then textOf (some f.2) else d.digest
  timestamp := if f.1 = str "timestamp" then intOf (some f.2) else d.timestamp
  pcrs := if f.1 = str "pcrs" then (match f.2 with | .map l => intPairs l | _ => []).foldl store d.pcrs else d.pcrs
  certificate := if f.1 = str "certificate" then bytesOf (some f.2) else d.certificate
  cabundle := if f.1 = str "cabundle" then d.cabundle ++ (match f.2 with | .arr _ l => l.map fun i => bytesOf (some i) | _ => []) else d.cabundle
  publicKey := if f.1 = str "public_key" then bytesOf (some f.2) else d.publicKey
  userData := if f.1 = str "user_data" then bytesOf (some f.2) else d.userData
  nonce := if f.1 = str "nonce" then bytesOf (some f.2) else d.nonce

theorem intPairs_regItems : ∀ ps : List (Int × Item), intPairs (regItems ps) = ps
  | [] => rfl
  | p :: ps => by rw [regItems_cons, intPairs, intPairs_regItems ps]

theorem put1_moduleId (d : Doc) (b : Bytes) : put1 d (str "module_id", .text b) = { d with moduleId := b } := rfl
theorem put1_digest (d : Doc) (b : Bytes) : put1 d (str "digest", .text b) = { d with digest := b } := rfl
theorem put1_timestamp (d : Doc) (n : Int) : put1 d (str "timestamp", .int n) = { d with timestamp := n } := rfl
theorem put1_pcrs (d : Doc) (ps : List (Int × Item)) : put1 d (str "pcrs", .map (regItems ps)) = { d with pcrs := ps.foldl store d.pcrs } := by
  show { d with pcrs := (intPairs (regItems ps)).foldl store d.pcrs } = _
  rw [intPairs_regItems]
theorem put1_certificate (d : Doc) (v : Item) : put1 d (str "certificate", v) = { d with certificate := bytesOf (some v) } := rfl
theorem put1_cabundle (d : Doc) (n : Option Nat) (l : List Item) :
    put1 d (str "cabundle", .arr n l) = { d with cabundle := d.cabundle ++ l.map fun i => bytesOf (some i) } := rfl
theorem put1_publicKey (d : Doc) (v : Item) : put1 d (str "public_key", v) = { d with publicKey := bytesOf (some v) } := rfl
theorem put1_userData (d : Doc) (v : Item) : put1 d (str "user_data", v) = { d with userData := bytesOf (some v) } := rfl
theorem put1_nonce (d : Doc) (v : Item) : put1 d (str "nonce", v) = { d with nonce := bytesOf (some v) } := rfl

theorem key_of_beq {key : Bytes} {s : String} (h : (key == str s) = true) : key = str s := eq_of_beq h

theorem field_sound {W : World} {key : Bytes} {l r : List Item} {d d' : Doc} (h : field W key l d = .ok (.ok (d', r))) :
    ∃ v, l = v :: r ∧ Good r ∧ Field key v ∧ d' = put1 d (key, v) := by
  rw [field.eq_def] at h
  split at h
  · rename_i hk; obtain rfl := key_of_beq hk
    obtain ⟨⟨v, l1⟩, h1, h⟩ := andThen_ok.mp h
    simp only [Out.ok.injEq, Except.ok.injEq, Prod.mk.injEq] at h
    obtain ⟨rfl, rfl⟩ := h
    obtain ⟨e, g⟩ := textString_sound h1
    exact ⟨_, e, g, Or.inl ⟨List.mem_cons_self .., _, rfl⟩, (put1_moduleId d v).symm⟩
  split at h
  · rename_i hk; obtain rfl := key_of_beq hk
    obtain ⟨⟨v, l1⟩, h1, h⟩ := andThen_ok.mp h
    simp only [Out.ok.injEq, Except.ok.injEq, Prod.mk.injEq] at h
    obtain ⟨rfl, rfl⟩ := h
    obtain ⟨e, g⟩ := textString_sound h1
    exact ⟨_, e, g, Or.inl ⟨List.mem_cons_of_mem _ (List.mem_cons_self ..), _, rfl⟩, (put1_digest d v).symm⟩
  split at h
  · rename_i hk; obtain rfl := key_of_beq hk
    obtain ⟨⟨v, l1⟩, h1, h⟩ := andThen_ok.mp h
    simp only [Out.ok.injEq, Except.ok.injEq, Prod.mk.injEq] at h
    obtain ⟨rfl, rfl⟩ := h
    obtain ⟨x, e, hx, g⟩ := byteString_sound h1
    exact ⟨x, e, g, Or.inr (Or.inl ⟨List.mem_cons_self .., v, hx⟩), by rw [put1_certificate, bytesOf_asBytes hx]⟩
  split at h
  · rename_i hk; obtain rfl := key_of_beq hk
    obtain ⟨⟨v, l1⟩, h1, h⟩ := andThen_ok.mp h
    simp only [Out.ok.injEq, Except.ok.injEq, Prod.mk.injEq] at h
    obtain ⟨rfl, rfl⟩ := h
    obtain ⟨x, e, hx, g⟩ := byteString_sound h1
    exact ⟨x, e, g, Or.inr (Or.inl ⟨by simp [str, Spec.ascii], v, hx⟩), by rw [put1_publicKey, bytesOf_asBytes hx]⟩
  split at h
  · rename_i hk; obtain rfl := key_of_beq hk
    obtain ⟨⟨v, l1⟩, h1, h⟩ := andThen_ok.mp h
    simp only [Out.ok.injEq, Except.ok.injEq, Prod.mk.injEq] at h
    obtain ⟨rfl, rfl⟩ := h
    obtain ⟨x, e, hx, g⟩ := byteString_sound h1
    exact ⟨x, e, g, Or.inr (Or.inl ⟨by simp [str, Spec.ascii], v, hx⟩), by rw [put1_userData, bytesOf_asBytes hx]⟩
  split at h
  · rename_i hk; obtain rfl := key_of_beq hk
    obtain ⟨⟨v, l1⟩, h1, h⟩ := andThen_ok.mp h
    simp only [Out.ok.injEq, Except.ok.injEq, Prod.mk.injEq] at h
    obtain ⟨rfl, rfl⟩ := h
    obtain ⟨x, e, hx, g⟩ := byteString_sound h1
    exact ⟨x, e, g, Or.inr (Or.inl ⟨by simp [str, Spec.ascii], v, hx⟩), by rw [put1_nonce, bytesOf_asBytes hx]⟩
  split at h
  · rename_i hk; obtain rfl := key_of_beq hk
    split at h
    · rename_i m t
      split at h
      · simp at h
      rename_i m' hm
      obtain ⟨rfl, -⟩ := (enter_iff ..).mp hm
      obtain ⟨pcrs, h1, h⟩ := andThen_ok.mp h
      obtain ⟨rfl, ⟨x, e⟩, g⟩ := (leave_iff ..).mp h
      obtain ⟨ps, rfl, hp, rfl⟩ := pcrLoop_sound W _ _ _ _ h1
      obtain ⟨rfl, rfl⟩ := List.cons.inj e
      exact ⟨_, rfl, g, Or.inr (Or.inr (Or.inl ⟨rfl, ps, rfl, hp⟩)), (put1_pcrs d ps).symm⟩
    · simp at h
  split at h
  · rename_i hk; obtain rfl := key_of_beq hk
    split at h
    · rename_i n a t
      split at h
      · simp at h
      rename_i m' hm
      obtain ⟨rfl, -⟩ := (enter_iff ..).mp hm
      obtain ⟨cs, h1, h⟩ := andThen_ok.mp h
      obtain ⟨rfl, ⟨x, e⟩, g⟩ := (leave_iff ..).mp h
      obtain ⟨hp, rfl⟩ := bundleLoop_sound W _ _ _ _ h1
      obtain ⟨rfl, rfl⟩ := List.cons.inj e
      exact ⟨_, rfl, g, Or.inr (Or.inr (Or.inr (Or.inl ⟨rfl, n, a, rfl, hp⟩))), (put1_cabundle d n a).symm⟩
    · simp at h
  split at h
  · rename_i hk; obtain rfl := key_of_beq hk
    obtain ⟨⟨v, l1⟩, h1, h⟩ := andThen_ok.mp h
    simp only [Out.ok.injEq, Except.ok.injEq, Prod.mk.injEq] at h
    obtain ⟨rfl, rfl⟩ := h
    obtain ⟨e, hi, g⟩ := int_iff.mp h1
    exact ⟨_, e, g, Or.inr (Or.inr (Or.inr (Or.inr ⟨rfl, v, hi, rfl⟩))), (put1_timestamp d v).symm⟩
  · simp at h

theorem field_complete {W : World} (all : ∀ n, W.alloc n = true) {key : Bytes} {v : Item} {r : List Item} (d : Doc) (g : Good r)
    (hf : Field key v) : field W key (v :: r) d = .ok (.ok (put1 d (key, v), r)) := by
  rw [field.eq_def]
  rcases hf with ⟨hk, b, rfl⟩ | ⟨hk, b, hb⟩ | ⟨rfl, ps, rfl, hp⟩ | ⟨rfl, n, a, rfl, hp⟩ | ⟨rfl, n, hn, rfl⟩
  · simp only [List.mem_cons, List.not_mem_nil, or_false] at hk
    rcases hk with rfl | rfl
    · rw [if_pos (by decide +kernel)]
      exact andThen_ok.mpr ⟨_, textString_complete all g, rfl⟩
    · rw [if_neg (by decide +kernel), if_pos (by decide +kernel)]
      exact andThen_ok.mpr ⟨_, textString_complete all g, rfl⟩
  · simp only [List.mem_cons, List.not_mem_nil, or_false] at hk
    have e := bytesOf_asBytes hb
    rcases hk with rfl | rfl | rfl | rfl
    · rw [if_neg (by decide +kernel), if_neg (by decide +kernel), if_pos (by decide +kernel)]
      exact andThen_ok.mpr ⟨_, byteString_complete all hb g, by subst e; rfl⟩
    · rw [if_neg (by decide +kernel), if_neg (by decide +kernel), if_neg (by decide +kernel), if_pos (by decide +kernel)]
      exact andThen_ok.mpr ⟨_, byteString_complete all hb g, by subst e; rfl⟩
    · rw [if_neg (by decide +kernel), if_neg (by decide +kernel), if_neg (by decide +kernel), if_neg (by decide +kernel), if_pos (by decide +kernel)]
      exact andThen_ok.mpr ⟨_, byteString_complete all hb g, by subst e; rfl⟩
    · rw [if_neg (by decide +kernel), if_neg (by decide +kernel), if_neg (by decide +kernel), if_neg (by decide +kernel), if_neg (by decide +kernel),
        if_pos (by decide +kernel)]
      exact andThen_ok.mpr ⟨_, byteString_complete all hb g, by subst e; rfl⟩
  · rw [if_neg (by decide +kernel), if_neg (by decide +kernel), if_neg (by decide +kernel), if_neg (by decide +kernel), if_neg (by decide +kernel),
      if_neg (by decide +kernel), if_pos (by decide +kernel)]
    simp only [(enter_iff _ _).mpr ⟨rfl, good_regItems ps⟩]
    refine andThen_ok.mpr ⟨_, pcrLoop_complete all ps _ _ (le_refl _) hp, (leave_iff ..).mpr ⟨?_, ⟨_, rfl⟩, g⟩⟩
    exact (put1_pcrs d ps).symm
  · rw [if_neg (by decide +kernel), if_neg (by decide +kernel), if_neg (by decide +kernel), if_neg (by decide +kernel), if_neg (by decide +kernel),
      if_neg (by decide +kernel), if_neg (by decide +kernel), if_pos (by decide +kernel)]
    simp only [(enter_iff _ _).mpr ⟨rfl, good_all_bytes hp⟩]
    refine andThen_ok.mpr ⟨_, bundleLoop_complete all a _ _ (le_refl _) hp, (leave_iff ..).mpr ⟨?_, ⟨_, rfl⟩, g⟩⟩
    exact (put1_cabundle d n a).symm
  · rw [if_neg (by decide +kernel), if_neg (by decide +kernel), if_neg (by decide +kernel), if_neg (by decide +kernel), if_neg (by decide +kernel),
      if_neg (by decide +kernel), if_neg (by decide +kernel), if_neg (by decide +kernel), if_pos (by decide +kernel)]
    exact andThen_ok.mpr ⟨_, int_iff.mpr ⟨rfl, hn, g⟩, rfl⟩

abbrev docItems (fs : List (Bytes × Item)) : List Item := flat (fs.map fun f => (.text f.1, f.2))

theorem docItems_cons (f : Bytes × Item) (fs : List (Bytes × Item)) : docItems (f :: fs) = .text f.1 :: f.2 :: docItems fs := rfl

theorem good_docItems (fs : List (Bytes × Item)) : Good (docItems fs) := by
  cases fs with
  | nil => intro t; simp [docItems, flat]
  | cons p ps => intro t; simp [docItems_cons]

theorem good_field {key : Bytes} {v : Item} (h : Field key v) (r : List Item) : Good (v :: r) := by
  rcases h with ⟨-, b, rfl⟩ | ⟨-, b, hb⟩ | ⟨-, ps, rfl, -⟩ | ⟨-, n, a, rfl, -⟩ | ⟨-, n, -, rfl⟩
  · intro t; simp
  · exact good_asBytes hb r
  all_goals intro t; simp

theorem docLoop_sound (W : World) : ∀ fuel l d d', docLoop W fuel l d = .ok (.ok d') →
    ∃ fs, l = docItems fs ∧ (∀ f ∈ fs, Field f.1 f.2) ∧ d' = fs.foldl put1 d := by
  intro fuel
  induction fuel with
  | zero =>
    intro l m m' h
    cases l with
    | nil => rw [docLoop, Out.ok.injEq, Except.ok.injEq] at h; exact ⟨[], rfl, by simp, h.symm⟩
    | cons x l => rw [docLoop] at h; cases h
  | succ fuel ih =>
    intro l m m' h
    cases l with
    | nil => rw [docLoop, Out.ok.injEq, Except.ok.injEq] at h; exact ⟨[], rfl, by simp, h.symm⟩
    | cons x l =>
      rw [docLoop.eq_3 _ _ _ _ (by simp)] at h
      obtain ⟨⟨k, l1⟩, h1, h⟩ := andThen_ok.mp h
      obtain ⟨⟨d1, l2⟩, h2, h⟩ := andThen_ok.mp h
      obtain ⟨e1, -⟩ := textString_sound h1
      obtain ⟨v, e2, -, hf, rfl⟩ := field_sound h2
      obtain ⟨fs, rfl, hp, hm⟩ := ih _ _ _ h
      refine ⟨(k, v) :: fs, by rw [e1, e2]; rfl, ?_, hm⟩
      intro f hf'
      rcases List.mem_cons.mp hf' with rfl | hf'
      · exact hf
      · exact hp f hf'

theorem docLoop_complete {W : World} (all : ∀ n, W.alloc n = true) : ∀ (fs : List (Bytes × Item)) fuel d, (docItems fs).length ≤ fuel →
    (∀ f ∈ fs, Field f.1 f.2) → docLoop W fuel (docItems fs) d = .ok (.ok (fs.foldl put1 d)) := by
  intro fs
  induction fs with
  | nil => intro fuel m _ _; cases fuel <;> rfl
  | cons f fs ih =>
    intro fuel m hf hp
    have h1 := hp f (List.mem_cons_self ..)
    rw [docItems_cons] at hf ⊢
    obtain ⟨fuel, rfl⟩ : ∃ n, fuel = n + 1 := ⟨fuel - 1, by simp at hf; omega⟩
    rw [docLoop.eq_3 _ _ _ _ (by simp)]
    refine andThen_ok.mpr ⟨_, textString_complete all (good_field h1 _), andThen_ok.mpr ⟨_, field_complete all m (good_docItems fs) h1, ?_⟩⟩
    show docLoop W fuel (docItems fs) _ = _
    rw [ih _ _ (by simp at hf; omega) fun q hq => hp q (List.mem_cons_of_mem _ hq), List.foldl_cons]

/-! ### The document that results -/

theorem value_append (fs : List (Bytes × Item)) (f : Bytes × Item) (name : List Char) :
    value (fs ++ [f]) name = if f.1 = Spec.ascii name then some f.2 else value fs name := by
  simp only [value, List.reverse_append, List.reverse_cons, List.reverse_nil, List.nil_append, List.singleton_append, List.find?_cons]
  by_cases h : f.1 = Spec.ascii name <;> simp [h]

/-- The document with these fields. -/
def docOf (fs : List (Bytes × Item)) : Doc := fs.foldl put1 {}

theorem docOf_append (fs : List (Bytes × Item)) (f : Bytes × Item) : docOf (fs ++ [f]) = put1 (docOf fs) f := by
  simp [docOf, List.foldl_append]

theorem docOf_moduleId (fs : List (Bytes × Item)) : (docOf fs).moduleId = textOf (value fs "module_id".toList) := by
  induction fs using List.reverseRecOn with
  | nil => rfl
  | append_singleton fs f ih =>
    rw [docOf_append, value_append, apply_ite textOf, ← ih]; rfl

theorem docOf_digest (fs : List (Bytes × Item)) : (docOf fs).digest = textOf (value fs "digest".toList) := by
  induction fs using List.reverseRecOn with
  | nil => rfl
  | append_singleton fs f ih =>
    rw [docOf_append, value_append, apply_ite textOf, ← ih]; rfl

theorem docOf_timestamp (fs : List (Bytes × Item)) : (docOf fs).timestamp = intOf (value fs "timestamp".toList) := by
  induction fs using List.reverseRecOn with
  | nil => rfl
  | append_singleton fs f ih =>
    rw [docOf_append, value_append, apply_ite intOf, ← ih]; rfl

theorem docOf_certificate (fs : List (Bytes × Item)) : (docOf fs).certificate = bytesOf (value fs "certificate".toList) := by
  induction fs using List.reverseRecOn with
  | nil => rfl
  | append_singleton fs f ih =>
    rw [docOf_append, value_append, apply_ite bytesOf, ← ih]; rfl

theorem docOf_publicKey (fs : List (Bytes × Item)) : (docOf fs).publicKey = bytesOf (value fs "public_key".toList) := by
  induction fs using List.reverseRecOn with
  | nil => rfl
  | append_singleton fs f ih =>
    rw [docOf_append, value_append, apply_ite bytesOf, ← ih]; rfl

theorem docOf_userData (fs : List (Bytes × Item)) : (docOf fs).userData = bytesOf (value fs "user_data".toList) := by
  induction fs using List.reverseRecOn with
  | nil => rfl
  | append_singleton fs f ih =>
    rw [docOf_append, value_append, apply_ite bytesOf, ← ih]; rfl

theorem docOf_nonce (fs : List (Bytes × Item)) : (docOf fs).nonce = bytesOf (value fs "nonce".toList) := by
  induction fs using List.reverseRecOn with
  | nil => rfl
  | append_singleton fs f ih =>
    rw [docOf_append, value_append, apply_ite bytesOf, ← ih]; rfl

theorem docOf_cabundle (fs : List (Bytes × Item)) : (docOf fs).cabundle = bundle fs := by
  induction fs using List.reverseRecOn with
  | nil => rfl
  | append_singleton fs f ih =>
    rw [docOf_append, bundle, List.flatMap_append, List.flatMap_singleton, ← bundle, ← ih, put1]
    by_cases h : f.1 = str "cabundle"
    · rw [if_pos h, if_pos (show f.1 = Spec.ascii "cabundle".toList from h)]
      obtain ⟨k, v⟩ := f
      cases v <;> rfl
    · rw [if_neg h, if_neg (show ¬ f.1 = Spec.ascii "cabundle".toList from h), List.append_nil]

theorem docOf_pcrs (fs : List (Bytes × Item)) : (docOf fs).pcrs = (registers fs).foldl store .empty := by
  induction fs using List.reverseRecOn with
  | nil => rfl
  | append_singleton fs f ih =>
    rw [docOf_append, registers, List.flatMap_append, List.flatMap_singleton, ← registers, List.foldl_append, ← ih, put1]
    by_cases h : f.1 = str "pcrs"
    · rw [if_pos h, if_pos (show f.1 = Spec.ascii "pcrs".toList from h)]
      obtain ⟨k, v⟩ := f
      cases v <;> rfl
    · rw [if_neg h, if_neg (show ¬ f.1 = Spec.ascii "pcrs".toList from h), List.foldl_nil]

theorem toInt32_eq (n i : Int) : toInt32 n = i ↔ (-2^31 ≤ i ∧ i < 2^31) ∧ n % 2^32 = i % 2^32 := by
  rw [toInt32]
  omega

theorem find_store (ps : List (Int × Item)) (i : Int) : (ps.foldl store .empty).find i =
    if -2^31 ≤ i ∧ i < 2^31 then (ps.reverse.find? (fun p => p.1 % 2^32 = i % 2^32)).map fun p => bytesOf (some p.2) else none := by
  induction ps using List.reverseRecOn with
  | nil => simp
  | append_singleton ps p ih =>
    rw [List.foldl_append, List.foldl_cons, List.foldl_nil, store, OMap.find_insert, ih]
    simp only [List.reverse_append, List.reverse_cons, List.reverse_nil, List.nil_append, List.singleton_append, List.find?_cons]
    have e := toInt32_eq p.1 i
    by_cases hr : -2^31 ≤ i ∧ i < 2^31
    · by_cases hm : p.1 % 2^32 = i % 2^32
      · have := e.mpr ⟨hr, hm⟩
        have hd : decide (p.1 % 2^32 = i % 2^32) = true := decide_eq_true hm
        rw [if_pos (by rw [this]), if_pos hr]; simp only [hd]; rfl
      · rw [if_pos hr, if_neg (fun h => hm (e.mp (by rw [h])).2), if_pos hr, decide_eq_false hm]
    · rw [if_neg hr, if_neg (fun h => hr (e.mp (by rw [h])).1), if_neg hr]

theorem docOf_register (fs : List (Bytes × Item)) (i : Int) : (docOf fs).pcrs.find i = register fs i := by
  rw [docOf_pcrs, find_store, register]

theorem size_le_of_keys (m : OMap Int Bytes) (h : ∀ p ∈ m.list, 0 ≤ p.1 ∧ p.1 < 32) : m.size ≤ 32 := by
  have nd : (m.list.map (·.1)).Nodup := by
    rw [List.Nodup, List.pairwise_map]
    exact m.sorted.imp fun h => ne_of_lt h
  have sub : m.list.map (·.1) ⊆ (List.range 32).map fun n : Nat => (n : Int) := by
    intro k hk
    obtain ⟨p, hp, rfl⟩ := List.mem_map.mp hk
    obtain ⟨h0, h1⟩ := h p hp
    exact List.mem_map.mpr ⟨p.1.toNat, List.mem_range.mpr (by omega), by omega⟩
  have := (List.Nodup.subperm nd sub).length_le
  simpa [OMap.size] using this

theorem valid_iff (fs : List (Bytes × Item)) : (docOf fs).valid = true ↔ Lawful fs := by
  simp only [Doc.valid, Bool.and_eq_true, decide_eq_true_eq, beq_iff_eq, List.all_eq_true, docOf_moduleId, docOf_digest, docOf_timestamp,
    docOf_certificate, docOf_publicKey, docOf_userData, docOf_nonce, docOf_cabundle]
  constructor
  · rintro ⟨⟨⟨⟨⟨⟨⟨⟨⟨⟨h1, h2⟩, h3⟩, h4⟩, h5⟩, h6⟩, h7⟩, h8⟩, h9⟩, h10⟩, h11⟩
    refine ⟨fun h => h1 (by rw [h]; rfl), h2, h3, ?_, ?_, h6, fun h => h8 (by rw [h]; rfl), h7, h9, h10, h11⟩
    · obtain ⟨p, hp⟩ := List.exists_mem_of_length_pos h4.1
      exact ⟨p.1, p.2, by rw [← docOf_register]; exact OMap.mem_list.mp hp⟩
    · intro i b hb
      rw [← docOf_register] at hb
      exact h5 (i, b) (OMap.mem_list.mpr hb)
  · rintro ⟨h1, h2, h3, ⟨i, b, h4⟩, h5, h6, h7, h8, h9, h10, h11⟩
    have h5' : ∀ p ∈ (docOf fs).pcrs.list, (0 ≤ p.1 ∧ p.1 < 32) ∧ (p.2.length = 32 ∨ p.2.length = 48 ∨ p.2.length = 64) := by
      intro p hp
      exact h5 p.1 p.2 (by rw [← docOf_register]; exact OMap.mem_list.mp hp)
    refine ⟨⟨⟨⟨⟨⟨⟨⟨⟨⟨fun h => h1 (List.length_eq_zero_iff.mp h), h2⟩, h3⟩, ⟨?_, size_le_of_keys _ fun p hp => (h5' p hp).1⟩⟩, h5'⟩, h6⟩, h8⟩,
      fun h => h7 (List.length_eq_zero_iff.mp h)⟩, h9⟩, h10⟩, h11⟩
    rw [← docOf_register] at h4
    exact List.length_pos_of_mem (OMap.mem_list.mpr h4)

theorem docParse_sound {W : World} {data : Bytes} {d : Doc} (h : Doc.parse W data = .ok (.ok d)) :
    ∃ fs, Document (W.cbor data) fs ∧ Lawful fs ∧ d = docOf fs := by
  rw [Doc.parse.eq_def] at h
  split at h
  · rename_i m hm
    split at h
    · simp at h
    rename_i m' he
    obtain ⟨rfl, -⟩ := (enter_iff ..).mp he
    obtain ⟨d1, h1, h⟩ := andThen_ok.mp h
    obtain ⟨fs, rfl, hf, rfl⟩ := docLoop_sound W _ _ _ _ h1
    split at h
    · rename_i hv
      simp only [Out.ok.injEq, Except.ok.injEq] at h
      exact ⟨fs, ⟨hm, hf⟩, (valid_iff fs).mp hv, h.symm⟩
    · simp at h
  · simp at h

theorem docParse_complete {W : World} (all : ∀ n, W.alloc n = true) {data : Bytes} {fs : List (Bytes × Item)}
    (hd : Document (W.cbor data) fs) (hl : Lawful fs) : Doc.parse W data = .ok (.ok (docOf fs)) := by
  rw [Doc.parse.eq_def, hd.1]
  simp only [(enter_iff _ _).mpr ⟨rfl, good_docItems fs⟩]
  refine andThen_ok.mpr ⟨_, docLoop_complete all fs _ _ (le_refl _) hd.2, ?_⟩
  rw [if_pos]
  · rfl
  · exact (valid_iff fs).mpr hl

/-! ### The message -/

theorem coseValid_iff (W : World) (c : Cose) : c.valid W = true ↔ Spec.Nitro.HeaderPasses W.cbor c.header c.payload c.signature := by
  rw [Cose.valid.eq_def, Spec.Nitro.HeaderPasses]
  cases hc : W.cbor c.header with
  | map m =>
    simp only
    cases he : enter m with
    | none =>
      simp only [Bool.false_eq_true, Item.map.injEq, false_iff]
      rintro ⟨⟨m', rfl, g⟩, -⟩
      rw [(enter_iff _ _).mpr ⟨rfl, g⟩] at he; cases he
    | some m' =>
      obtain ⟨rfl, g⟩ := (enter_iff ..).mp he
      have hg : ∃ m', Item.map m = .map m' ∧ Good m' := ⟨m, rfl, g⟩
      simp only [hg, true_and]
      split
      · rename_i key m1 h1
        obtain ⟨rfl, hk, g1⟩ := int_iff.mp h1
        split
        · rename_i val m2 h2
          obtain ⟨rfl, hv, g2⟩ := int_iff.mp h2
          simp only [Bool.and_eq_true, decide_eq_true_eq, beq_iff_eq, List.isEmpty_iff]
          constructor
          · rintro ⟨⟨⟨⟨h3, h4⟩, h5⟩, h6⟩, h7⟩ key' val' rest ⟨e, -⟩
            simp only [Item.map.injEq, List.cons.injEq, Item.int.injEq] at e
            obtain ⟨rfl, rfl, rfl⟩ := e
            exact ⟨by rw [h3, h4, h5]; rfl, List.ne_nil_of_length_pos h6, h7⟩
          · intro h
            obtain ⟨h3, h6, h7⟩ := h key val m2 ⟨rfl, hk, hv, g2⟩
            simp only [Spec.Nitro.es384, Item.map.injEq, List.cons.injEq, Item.int.injEq] at h3
            obtain ⟨h4, h5, h3⟩ := h3
            exact ⟨⟨⟨⟨h3, h4⟩, h5⟩, List.length_pos_iff.mpr h6⟩, h7⟩
        · rename_i h2
          simp only [true_iff]
          rintro key' val' rest ⟨e, hk', hv', g2⟩
          simp only [Item.map.injEq, List.cons.injEq, Item.int.injEq] at e
          obtain ⟨rfl, rfl⟩ := e
          exact absurd (int_iff.mpr ⟨rfl, hv', g2⟩) (h2 _ _)
      · rename_i h1
        simp only [true_iff]
        rintro key' val' rest ⟨e, hk', hv', g2⟩
        simp only [Item.map.injEq] at e
        exact absurd (int_iff.mpr ⟨e, hk', by intro t; simp⟩) (h1 _ _)
  | _ => simp

theorem emptyMap_iff {l r : List Item} : emptyMap l = .ok (.ok r) ↔ l = .map [] :: r ∧ Good r := by
  rw [emptyMap.eq_def]
  split
  · rename_i t
    cases h : advance (.map [] :: t) with
    | none =>
      simp only [Out.ok.injEq, reduceCtorEq, false_iff]
      rintro ⟨e, g⟩
      rw [(advance_iff _ r).mpr ⟨⟨_, e⟩, g⟩] at h; cases h
    | some l' =>
      obtain ⟨⟨x, e⟩, g⟩ := (advance_iff ..).mp h
      obtain ⟨rfl, rfl⟩ := List.cons.inj e
      simp only [Out.ok.injEq, Except.ok.injEq, List.cons.injEq, true_and]
      constructor
      · rintro rfl; exact ⟨rfl, g⟩
      · exact fun h => h.1
  · rename_i hl
    simp only [Out.ok.injEq, reduceCtorEq, false_iff]
    rintro ⟨rfl, -⟩
    exact hl _ rfl

theorem coseParse_sound {W : World} {data : Bytes} {c : Cose} (h : Cose.parse W data = .ok (.ok c)) :
    Spec.Nitro.Cose (W.cbor data) c.header c.payload c.signature ∧ Spec.Nitro.HeaderPasses W.cbor c.header c.payload c.signature := by
  rw [Cose.parse.eq_def] at h
  split at h
  · simp at h
  · rename_i elts hc
    split at h
    · simp at h
    rename_i elts' he
    obtain ⟨rfl, -⟩ := (enter_iff ..).mp he
    obtain ⟨⟨hd, l1⟩, h1, h⟩ := andThen_ok.mp h
    obtain ⟨l2, h2, h⟩ := andThen_ok.mp h
    obtain ⟨⟨pl, l3⟩, h3, h⟩ := andThen_ok.mp h
    obtain ⟨⟨sg, l4⟩, h4, h5⟩ := andThen_ok.mp h
    obtain ⟨x, rfl, hx, -⟩ := byteString_sound h1
    obtain ⟨rfl, -⟩ := emptyMap_iff.mp h2
    obtain ⟨y, rfl, hy, -⟩ := byteString_sound h3
    obtain ⟨z, rfl, hz, -⟩ := byteString_sound h4
    simp only at h5
    split at h5
    · simp at h5
    rename_i hemp
    split at h5
    · simp at h5
    rename_i hv
    simp only [Out.ok.injEq, Except.ok.injEq] at h5
    subst h5
    obtain rfl : l4 = [] := by simpa using hemp
    exact ⟨⟨x, y, z, hc, hx, hy, hz⟩, (coseValid_iff W _).mp (by simpa using hv)⟩
  · simp at h

theorem coseParse_complete {W : World} (all : ∀ n, W.alloc n = true) {data : Bytes} {c : Cose}
    (h : Spec.Nitro.Cose (W.cbor data) c.header c.payload c.signature) (hv : Spec.Nitro.HeaderPasses W.cbor c.header c.payload c.signature) :
    Cose.parse W data = .ok (.ok c) := by
  obtain ⟨x, y, z, hc, hx, hy, hz⟩ := h
  rw [Cose.parse.eq_def, hc]
  have gn : Good [] := by intro t; simp
  simp only [(enter_iff _ _).mpr ⟨rfl, good_asBytes hx _⟩]
  refine andThen_ok.mpr ⟨_, byteString_complete all hx (by intro t; simp), andThen_ok.mpr ⟨_, emptyMap_iff.mpr ⟨rfl, good_asBytes hy _⟩,
    andThen_ok.mpr ⟨_, byteString_complete all hy (good_asBytes hz _), andThen_ok.mpr ⟨_, byteString_complete all hz gn, ?_⟩⟩⟩⟩
  have := (coseValid_iff W c).mpr hv
  simp [this]

end Svr.Attest.Nitro
