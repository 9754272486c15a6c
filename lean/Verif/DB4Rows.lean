import Verif.DB3Rows
import Verif.Spec.Vault4

/-!
# Facts about the SVR4 database: the entry-by-entry simulation
-/

namespace Svr.DB4
open Spec4
open DB2 (u32_toUInt8_toNat u32_toUInt8_ne)
open DB3 (u8_sub_one u8_eq_zero_iff strToArr_self)

/-- The one fact about scalar arithmetic used: the sum of two canonical scalars is a canonical 32-byte
scalar (libsodium reduces modulo the group order). -/
def SaddOK (P : Prims4) : Prop := ∀ a b, okScalar P a = true → okScalar P b = true → okScalar P (P.sadd a b) = true

theorem okPoint_len {P : Prims4} {s : Bytes} (h : okPoint P s = true) : s.length = 32 := by
  simp [okPoint] at h; exact h.1
theorem okScalar_len {P : Prims4} {s : Bytes} (h : okScalar P s = true) : s.length = 32 := by
  simp [okScalar] at h; exact h.1

structure RowOK (P : Prims4) (id : Bytes) (r : Row) (rr : Option Rot) : Prop where
  id_len : id.length = 16
  auth_ok : okPoint P r.auth = true
  oprf_ok : okScalar P r.oprf = true
  zero_ok : okScalar P r.zero = true
  enc_len : r.enc.length = 32
  tries_pos : r.tries ≠ 0
  leaf_eq : r.leaf = hashFrom (P.sip16 (rowRaw id r rr))

structure RotOK (P : Prims4) (x : Rot) : Prop where
  version_ne : x.newVersion ≠ 0
  delta_ok : okScalar P x.oprfDelta = true
  enc_len : x.encDelta.length = 32

/-- What a row and its pending rotation must satisfy; no rotation without a row. -/
def EntOK (P : Prims4) (id : Bytes) : Option Row → Option Rot → Prop
  | none, rr => rr = none
  | some r, rr => RowOK P id r rr ∧ ∀ x, rr = some x → RotOK P x

def Inv (P : Prims4) (db : DB) : Prop := ∀ id, EntOK P id (db.rows.find id) (db.rot.find id)

theorem inv_empty (P : Prims4) : Inv P empty := by intro id; simp [empty, EntOK]

/-- Only the entry of `id` changed. -/
def SameElse (id : Bytes) (db db' : DB) : Prop :=
  ∀ k, k ≠ id → db'.rows.find k = db.rows.find k ∧ db'.rot.find k = db.rot.find k

theorem SameElse.refl (id : Bytes) (db : DB) : SameElse id db db := fun _ _ => ⟨rfl, rfl⟩

theorem inv_of {P : Prims4} {id : Bytes} {db db' : DB} (h : Inv P db) (hs : SameElse id db db')
    (he : EntOK P id (db'.rows.find id) (db'.rot.find id)) : Inv P db' := by
  intro k
  by_cases hk : k = id
  · subst hk; exact he
  · rw [(hs k hk).1, (hs k hk).2]; exact h k

theorem same_put (id : Bytes) (db : DB) (o : Option Row) (x : Option Rot) :
    SameElse id db ⟨db.rows.set id o, db.rot.set id x⟩ := fun _ hk =>
  ⟨OMap.find_set_ne _ _ (Ne.symm hk), OMap.find_set_ne _ _ (Ne.symm hk)⟩

theorem inv_put {P : Prims4} {id : Bytes} {db : DB} {o : Option Row} {x : Option Rot} (h : Inv P db)
    (he : EntOK P id o x) : Inv P ⟨db.rows.set id o, db.rot.set id x⟩ :=
  inv_of h (same_put id db o x) (by simp only [OMap.find_set_self]; exact he)

theorem inv_row {P : Prims4} {db : DB} (h : Inv P db) {id : Bytes} {r : Row} (hf : db.rows.find id = some r) :
    RowOK P id r (db.rot.find id) := by
  have := h id
  rw [hf] at this
  exact this.1

theorem inv_rot {P : Prims4} {db : DB} (h : Inv P db) {id : Bytes} {x : Rot} (hf : db.rot.find id = some x) :
    RotOK P x ∧ ∃ r, db.rows.find id = some r := by
  have := h id
  cases hr : db.rows.find id with
  | none => rw [hr, hf] at this; simp [EntOK] at this
  | some r => rw [hr, hf] at this; exact ⟨this.2 x rfl, r, rfl⟩

theorem updateLeaf_ok (P : Prims4) {id : Bytes} {r : Row} {rr : Option Rot} (h1 : id.length = 16)
    (h2 : okPoint P r.auth = true) (h3 : okScalar P r.oprf = true) (h4 : okScalar P r.zero = true)
    (h5 : r.enc.length = 32) (h6 : r.tries ≠ 0) : RowOK P id (updateLeaf P id r rr) rr :=
  ⟨h1, h2, h3, h4, h5, h6, rfl⟩

theorem copyOver_self {old s : Bytes} (h : s.length = 32) (ho : old.length = 32) : copyOver old s = some s := by
  unfold copyOver
  rw [if_neg (by omega), List.drop_eq_nil_of_le (by omega), List.append_nil]

theorem verify_ok {P : Prims4} {id : Bytes} {r : Row} {rr : Option Rot} (h : RowOK P id r rr) (path : Bytes → Bool) :
    verify P path id r rr = path id := by
  unfold verify
  have : ctEq (hashFrom (P.sip16 (rowRaw id r rr))) r.leaf = true := by rw [ctEq_iff]; exact h.leaf_eq.symm
  rw [this]; rfl

/-- What a row means. -/
def abs (r : Row) (rr : Option Rot) : Acct := ⟨r.auth, r.oprf, r.enc, r.zero, r.version, r.tries.toNat, rr⟩

def look (db : DB) (id : Bytes) : Option Acct := (db.rows.find id).map (fun r => abs r (db.rot.find id))

def intact : Bytes → Bool := fun _ => true

/-- Exactly what `validate` accepts. -/
theorem validate_iff (P : Prims4) (log : Log) : validate P log = none ↔
    log.id.length = 16 ∧ match log.req with
      | .create n oprf auth enc zero version => n.toNat ≤ 255 ∧ okPoint P auth = true ∧ okScalar P oprf = true ∧
          okScalar P zero = true ∧ enc.length = 32 ∧ version ≠ 0
      | .restore1 b => okPoint P b = true
      | .remove => True
      | .query => True
      | .rotateStart version od ed => version ≠ 0 ∧ okScalar P od = true ∧ ed.length = 32
      | .rotateCommit version => version ≠ 0
      | .rotateRollback version => version ≠ 0
      | .restore2 _ _ _ => False
      | .unset => False := by
  obtain ⟨id, req⟩ := log
  unfold validate
  by_cases h0 : id.length = 16
  · simp only [h0, ne_eq, not_true_eq_false, if_false, true_and]
    cases req <;> simp [not_or, ← ne_eq]
  · simp [h0]

/-- The evaluation computed by the code is the specified one. -/
theorem eval_spec (P : Prims4) (id b : Bytes) (r : Row) (rr : Option Rot) (hb : okPoint P b = true) (t : UInt8) :
    restore1Eval P id { r with tries := t } rr b =
      (evalAll P id b (abs r rr)).map (fun es => (es, session (abs r rr) b)) := by
  unfold restore1Eval evalAll evalShare abs session
  simp only [hb]
  cases hh : P.hashToPoint id b with
  | none => cases rr <;> simp
  | some h =>
    simp only [Bool.true_eq_false, if_false, Option.bind_eq_bind, Option.bind_some]
    cases h1 : P.smul r.oprf b with
    | none => simp
    | some bp =>
      simp only [Option.bind_some]
      generalize (if r.zero = zeros 32 then some (zeros 32) else P.smul r.zero h) = mk
      cases mk with
      | none => simp
      | some mask =>
        simp only [Option.bind_some]
        cases h3 : P.padd bp mask with
        | none => simp
        | some e1 =>
          simp only [Option.bind_some]
          cases rr with
          | none => simp
          | some x =>
            simp only
            cases h4 : P.smul (P.sadd r.oprf x.oprfDelta) b with
            | none => simp
            | some bp2 =>
              simp only [Option.bind_some]
              cases h5 : P.padd bp2 mask with
              | none => simp
              | some e2 => simp [xorB]

/-- The response reports an integrity failure. -/
def merkleFail : Resp → Bool
  | .restore1 .merkleFailure [] 0 => true
  | .rotateStart .merkleFailure => true
  | .rotateCommit .merkleFailure => true
  | .rotateRollback .merkleFailure => true
  | _ => false

/-- One validated entry: it follows the account specification, or the integrity walk failed and nothing
changed. -/
theorem run_cases (P : Prims4) (hs : SaddOK P) (path : Bytes → Bool) (db : DB) (l : Log) (hi : Inv P db)
    (hv : validate P l = none) :
    ∃ db' eff, run P path db l = .ok (db', eff) ∧ Inv P db' ∧ SameElse l.id db db' ∧
      ((eff = (astep P (look db l.id) l).2 ∧ look db' l.id = (astep P (look db l.id) l).1) ∨
       (path l.id = false ∧ db' = db ∧ merkleFail eff.resp = true ∧ eff.r2 = none)) := by
  have hv' := (validate_iff P l).mp hv
  obtain ⟨id, req⟩ := l
  unfold run
  simp only at hv'
  simp only [hv, beq_self_eq_true, Out.check_true, Out.bind_ok, strToArr_self hv'.1]
  have hid := hv'.1
  cases req with
  | create n oprf auth enc zero version =>
    obtain ⟨_, h1, h2, h3, h4, h5, h6⟩ := hv'
    simp only [create]
    cases hf : db.rows.find id with
    | none =>
      by_cases hn : n = 0
      · subst hn
        exact ⟨db, _, rfl, hi, SameElse.refl _ _, Or.inl ⟨by simp [astep, look, hf], by simp [astep, look, hf]⟩⟩
      · rw [if_neg (fun h => hn h.2)]
        simp only [Option.getD_none]
        have hn1 : 1 ≤ n.toNat := by
          rcases Nat.eq_zero_or_pos n.toNat with h | h
          · exact absurd (UInt32.toNat_inj.mp (by simpa using h)) hn
          · exact h
        have hce : copyOver newRow.enc enc = some enc := copyOver_self h5 (by decide)
        simp only [h2, h3, h4, Out.check_true, Out.bind_ok, hce, ne_eq, hn, not_false_eq_true, if_true, Out.pure_eq]
        refine ⟨_, _, rfl, inv_put (o := some _) (x := none) hi ⟨updateLeaf_ok P (r := ⟨auth, oprf, enc, zero, version, n.toUInt8, _⟩) hid h2 h3 h4 h5 (u32_toUInt8_ne h1 hn1), by simp⟩,
          same_put id db (some _) none, Or.inl ⟨?_, ?_⟩⟩
        · simp [astep, look, hf, hn, u32_toUInt8_toNat h1]
        · simp [astep, look, hf, hn, updateLeaf, abs, u32_toUInt8_toNat h1]
    | some r =>
      have hr := inv_row hi hf
      have hce : copyOver r.enc enc = some enc := copyOver_self h5 hr.enc_len
      rw [if_neg (fun h => by cases h.1)]
      simp only [Option.getD_some, h2, h3, h4, Out.check_true, Out.bind_ok, hce, Out.pure_eq]
      by_cases hn : n = 0
      · subst hn
        simp only [ne_eq, not_true_eq_false, if_false]
        refine ⟨_, _, rfl, inv_put (o := some _) (x := none) hi ⟨updateLeaf_ok P hid h2 h3 h4 h5 hr.tries_pos, by simp⟩,
          same_put id db (some _) none, Or.inl ⟨?_, ?_⟩⟩
        · simp [astep, look, hf, abs]
        · simp [astep, look, hf, updateLeaf, abs]
      · have hn1 : 1 ≤ n.toNat := by
          rcases Nat.eq_zero_or_pos n.toNat with h | h
          · exact absurd (UInt32.toNat_inj.mp (by simpa using h)) hn
          · exact h
        simp only [ne_eq, hn, not_false_eq_true, if_true]
        refine ⟨_, _, rfl, inv_put (o := some _) (x := none) hi ⟨updateLeaf_ok P (r := ⟨auth, oprf, enc, zero, version, n.toUInt8, _⟩) hid h2 h3 h4 h5 (u32_toUInt8_ne h1 hn1), by simp⟩,
          same_put id db (some _) none, Or.inl ⟨?_, ?_⟩⟩
        · simp [astep, look, hf, hn, u32_toUInt8_toNat h1]
        · simp [astep, look, hf, hn, updateLeaf, abs, u32_toUInt8_toNat h1]
  | restore1 b =>
    obtain ⟨_, hb⟩ := hv'
    simp only [restore1, Out.pure_eq]
    cases hf : db.rows.find id with
    | none => exact ⟨db, _, rfl, hi, SameElse.refl _ _, Or.inl ⟨by simp [astep, look, hf], by simp [astep, look, hf]⟩⟩
    | some r =>
      have hr := inv_row hi hf
      simp only [verify_ok hr]
      cases hp : path id with
      | false => exact ⟨db, _, rfl, hi, SameElse.refl _ _, Or.inr ⟨rfl, rfl, rfl, rfl⟩⟩
      | true =>
        simp only [Bool.not_true, Bool.false_eq_true, if_false]
        have hst := u8_sub_one hr.tries_pos
        have h0 : r.tries.toNat ≠ 0 := fun x => hr.tries_pos (u8_eq_zero_iff.mpr x)
        have heff : (match restore1Eval P id { r with tries := r.tries - 1 } (db.rot.find id) b with
            | none => (⟨.restore1 .error [] (r.tries - 1).toNat, none⟩ : Effect)
            | some (auth, st) => ⟨.restore1 .ok auth (r.tries - 1).toNat, some st⟩) =
            (astep P (look db id) ⟨id, .restore1 b⟩).2 := by
          rw [eval_spec P id b r _ hb]
          simp only [astep, look, hf, Option.map_some, hst]
          cases evalAll P id b (abs r (db.rot.find id)) <;> rfl
        by_cases ht : r.tries - 1 = 0
        · have ht' : r.tries.toNat ≤ 1 := by rw [u8_eq_zero_iff, hst] at ht; omega
          rw [if_pos ht]
          have hrot : (if (db.rot.find id).isSome then db.rot.erase id else db.rot) = db.rot.set id none := by
            cases hx : db.rot.find id with
            | none => simp [OMap.set, OMap.erase_of_find_none hx]
            | some x => simp [OMap.set]
          refine ⟨_, _, rfl, ?_, ?_, Or.inl ⟨heff, ?_⟩⟩
          · rw [hrot]; exact inv_put (o := none) (x := none) hi rfl
          · rw [hrot]; exact same_put id db none none
          · simp [look, astep, hf, abs, ht']
        · have ht' : ¬ r.tries.toNat ≤ 1 := by rw [u8_eq_zero_iff, hst] at ht; omega
          rw [if_neg ht]
          have e1 : db.rot = db.rot.set id (db.rot.find id) := (OMap.set_find _ _).symm
          have hro : ∀ x, db.rot.find id = some x → RotOK P x := fun x hx => (inv_rot hi hx).1
          refine ⟨_, _, rfl, ?_, ?_, Or.inl ⟨heff, ?_⟩⟩
          · conv => arg 2; arg 2; rw [e1]
            exact inv_put (o := some _) (x := db.rot.find id) hi
              ⟨updateLeaf_ok P (r := { r with tries := r.tries - 1 }) hid hr.auth_ok hr.oprf_ok hr.zero_ok hr.enc_len ht, hro⟩
          · intro k hk; exact ⟨OMap.find_insert_ne _ _ (Ne.symm hk), rfl⟩
          · simp [look, astep, hf, abs, ht', updateLeaf, hst]
  | remove =>
    simp only [remove, Out.pure_eq]
    cases hf : db.rows.find id with
    | none => exact ⟨db, _, rfl, hi, SameElse.refl _ _, Or.inl ⟨by simp [astep], by simp [astep, look, hf]⟩⟩
    | some r =>
      exact ⟨_, _, rfl, inv_put (o := none) (x := none) hi rfl, same_put id db none none,
        Or.inl ⟨by simp [astep], by simp [look, astep]⟩⟩
  | query =>
    simp only [query, Out.pure_eq]
    cases hf : db.rows.find id with
    | none => exact ⟨db, _, rfl, hi, SameElse.refl _ _, Or.inl ⟨by simp [astep, look, hf], by simp [astep, look, hf]⟩⟩
    | some r =>
      exact ⟨db, _, rfl, hi, SameElse.refl _ _, Or.inl ⟨by
        simp only [astep, look, hf, Option.map_some, abs]; cases db.rot.find id <;> rfl, by simp [astep, look, hf]⟩⟩
  | rotateStart ver od ed =>
    obtain ⟨_, h1, h2, h3⟩ := hv'
    simp only [rotateStart]
    cases hf : db.rows.find id with
    | none => exact ⟨db, _, rfl, hi, SameElse.refl _ _, Or.inl ⟨by simp [astep, look, hf], by simp [astep, look, hf]⟩⟩
    | some r =>
      have hr := inv_row hi hf
      simp only
      cases hx : db.rot.find id with
      | some x =>
        exact ⟨db, _, rfl, hi, SameElse.refl _ _, Or.inl ⟨by simp [astep, look, hf, hx, abs], by simp [astep, look, hf, hx, abs]⟩⟩
      | none =>
        simp only
        by_cases hve : ver = r.version
        · rw [if_pos hve]
          exact ⟨db, _, rfl, hi, SameElse.refl _ _, Or.inl ⟨by simp [astep, look, hf, hx, abs, hve], by simp [astep, look, hf, hx, abs, hve]⟩⟩
        · rw [hx] at hr
          have hle : (decide (ed.length ≤ 32)) = true := by simp [h3]
          rw [if_neg hve]
          simp only [h2, hle, Out.check_true, Out.bind_ok]
          rw [if_neg (by omega)]
          simp only [verify_ok hr]
          cases hp : path id with
          | false => exact ⟨db, _, rfl, hi, SameElse.refl _ _, Or.inr ⟨rfl, rfl, rfl, rfl⟩⟩
          | true =>
            simp only [Bool.not_true, Bool.false_eq_true, if_false, Out.pure_eq]
            refine ⟨_, _, rfl, inv_put (o := some _) (x := some ⟨ver, od, ed⟩) hi
              ⟨updateLeaf_ok P hid hr.auth_ok hr.oprf_ok hr.zero_ok hr.enc_len hr.tries_pos, ?_⟩,
              same_put id db (some _) (some _), Or.inl ⟨?_, ?_⟩⟩
            · intro x hx'; cases hx'; exact ⟨h1, h2, h3⟩
            · simp [astep, look, hf, hx, abs, hve]
            · simp [astep, look, hf, hx, abs, hve, updateLeaf]
  | rotateCommit ver =>
    simp only [rotateCommit, Out.pure_eq]
    cases hf : db.rows.find id with
    | none => exact ⟨db, _, rfl, hi, SameElse.refl _ _, Or.inl ⟨by simp [astep, look, hf], by simp [astep, look, hf]⟩⟩
    | some r =>
      have hr := inv_row hi hf
      simp only
      cases hx : db.rot.find id with
      | none =>
        exact ⟨db, _, rfl, hi, SameElse.refl _ _, Or.inl ⟨by simp [astep, look, hf, hx, abs], by simp [astep, look, hf, hx, abs]⟩⟩
      | some x =>
        have hxo := (inv_rot hi hx).1
        rw [hx] at hr
        simp only
        by_cases hve : x.newVersion = ver
        · rw [if_neg (by simpa using hve)]
          simp only [verify_ok hr]
          cases hp : path id with
          | false => exact ⟨db, _, rfl, hi, SameElse.refl _ _, Or.inr ⟨rfl, rfl, rfl, rfl⟩⟩
          | true =>
            simp only [Bool.not_true, Bool.false_eq_true, if_false]
            have hxl : (xorB r.enc x.encDelta).length = 32 := by
              simp [xorB, hr.enc_len, hxo.enc_len]
            refine ⟨_, _, rfl, inv_put (o := some _) (x := none) hi
              ⟨updateLeaf_ok P (r := { r with oprf := P.sadd r.oprf x.oprfDelta, enc := xorB r.enc x.encDelta, version := x.newVersion })
                hid hr.auth_ok (hs _ _ hr.oprf_ok hxo.delta_ok) hr.zero_ok hxl hr.tries_pos, by simp⟩,
              same_put id db (some _) none, Or.inl ⟨?_, ?_⟩⟩
            · simp [astep, look, hf, hx, abs, hve]
            · simp [astep, look, hf, hx, abs, hve, updateLeaf, rotated, xorB]
        · rw [if_pos (by simpa using hve)]
          exact ⟨db, _, rfl, hi, SameElse.refl _ _, Or.inl ⟨by simp [astep, look, hf, hx, abs, hve], by simp [astep, look, hf, hx, abs, hve]⟩⟩
  | rotateRollback ver =>
    simp only [rotateRollback, Out.pure_eq]
    cases hf : db.rows.find id with
    | none => exact ⟨db, _, rfl, hi, SameElse.refl _ _, Or.inl ⟨by simp [astep, look, hf], by simp [astep, look, hf]⟩⟩
    | some r =>
      have hr := inv_row hi hf
      simp only
      cases hx : db.rot.find id with
      | none =>
        exact ⟨db, _, rfl, hi, SameElse.refl _ _, Or.inl ⟨by simp [astep, look, hf, hx, abs], by simp [astep, look, hf, hx, abs]⟩⟩
      | some x =>
        rw [hx] at hr
        simp only
        by_cases hve : x.newVersion = ver
        · rw [if_neg (by simpa using hve)]
          simp only [verify_ok hr]
          cases hp : path id with
          | false => exact ⟨db, _, rfl, hi, SameElse.refl _ _, Or.inr ⟨rfl, rfl, rfl, rfl⟩⟩
          | true =>
            simp only [Bool.not_true, Bool.false_eq_true, if_false]
            refine ⟨_, _, rfl, inv_put (o := some _) (x := none) hi
              ⟨updateLeaf_ok P hid hr.auth_ok hr.oprf_ok hr.zero_ok hr.enc_len hr.tries_pos, by simp⟩,
              same_put id db (some _) none, Or.inl ⟨?_, ?_⟩⟩
            · simp [astep, look, hf, hx, abs, hve]
            · simp [astep, look, hf, hx, abs, hve, updateLeaf]
        · rw [if_pos (by simpa using hve)]
          exact ⟨db, _, rfl, hi, SameElse.refl _ _, Or.inl ⟨by simp [astep, look, hf, hx, abs, hve], by simp [astep, look, hf, hx, abs, hve]⟩⟩
  | restore2 _ _ _ => exact hv'.2.elim
  | unset => exact hv'.2.elim

theorem run_sim (P : Prims4) (hs : SaddOK P) (db : DB) (l : Log) (hi : Inv P db) (hv : validate P l = none) :
    ∃ db', run P intact db l = .ok (db', (astep P (look db l.id) l).2) ∧ Inv P db' ∧
      look db' l.id = (astep P (look db l.id) l).1 ∧ ∀ k, k ≠ l.id → look db' k = look db k := by
  obtain ⟨db', eff, h1, h2, h3, h4⟩ := run_cases P hs intact db l hi hv
  rcases h4 with ⟨rfl, h5⟩ | ⟨h, _⟩
  · exact ⟨db', h1, h2, h5, fun k hk => by simp [look, (h3 k hk).1, (h3 k hk).2]⟩
  · cases h

/-- The simulation packaged for histories. -/
def sim (P : Prims4) (hs : SaddOK P) : Sim DB Log Acct Effect :=
  ⟨run P intact, (·.id), fun l => validate P l = none, Inv P, look, astep P, run_sim P hs⟩

end Svr.DB4
