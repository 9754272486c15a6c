import Verif.DB3
import Verif.DB2Rows
import Verif.Spec.Oprf3

/-!
# Facts about the SVR3 database
-/

namespace Svr.DB3
open Spec3
open DB2 (u32_toUInt8_toNat u32_toUInt8_ne)

structure RowOK (P : Prims3) (id : Bytes) (r : Row) : Prop where
  id_len : id.length = 16
  tries_pos : r.tries ≠ 0
  priv_len : r.priv.length = 32
  leaf_eq : r.leaf = hashFrom (P.sip16 (rowRaw id r))

def Inv (P : Prims3) (db : DB) : Prop := ∀ id r, db.find id = some r → RowOK P id r

theorem inv_empty (P : Prims3) : Inv P empty := by intro id r h; simp [empty] at h

theorem inv_insert {P : Prims3} {db : DB} {id : Bytes} {r : Row} (h : Inv P db) (hr : RowOK P id r) :
    Inv P (db.insert id r) := by
  intro id' r' h'
  rw [OMap.find_insert] at h'
  split at h'
  · rename_i e; subst e; cases h'; exact hr
  · exact h id' r' h'

theorem inv_erase {P : Prims3} {db : DB} {id : Bytes} (h : Inv P db) : Inv P (db.erase id) := by
  intro id' r' h'
  rw [OMap.find_erase] at h'
  split at h'
  · cases h'
  · exact h id' r' h'

theorem inv_mem {P : Prims3} {db : DB} (h : Inv P db) {p : Bytes × Row} (hp : p ∈ db.list) : RowOK P p.1 p.2 :=
  h p.1 p.2 (OMap.mem_list.mp hp)

theorem updateLeaf_ok (P : Prims3) {id : Bytes} {r : Row} (h1 : id.length = 16) (h2 : r.tries ≠ 0)
    (h3 : r.priv.length = 32) : RowOK P id (updateLeaf P id r) := ⟨h1, h2, h3, rfl⟩

theorem padTo_self {n : Nat} {s : Bytes} (h : s.length = n) : padTo n s = s := by
  simp [padTo, h, zeros]

theorem strToArr_self {n : Nat} {s : Bytes} (h : s.length = n) : strToArr n s = some s := by
  unfold strToArr; rw [if_neg (by omega), padTo_self h]

theorem strToArr_some {n : Nat} {s t : Bytes} (h : strToArr n s = some t) : t.length = n ∧ t = padTo n s := by
  unfold strToArr at h
  split at h
  · cases h
  · cases h; exact ⟨padTo_length (by omega), rfl⟩

/-- Exactly what `validate` accepts. -/
theorem validate_iff (log : Log) : validate log = none ↔
    log.id.length = 16 ∧ match log.req with
      | .create n b => 1 ≤ n.toNat ∧ n.toNat ≤ 255 ∧ b.length = 32 ∧ log.privkey.length = 32
      | .evaluate b => b.length = 32
      | .remove => True
      | .query => True
      | .unset => False := by
  obtain ⟨id, req, pk⟩ := log
  unfold validate
  constructor
  · intro h
    obtain ⟨h0, h⟩ := ite_some_eq_none h
    refine ⟨not_not.mp h0, ?_⟩
    cases req with
    | create n b =>
      simp only at h ⊢
      obtain ⟨h1, h⟩ := ite_some_eq_none h
      obtain ⟨h2, h⟩ := ite_some_eq_none h
      obtain ⟨h3, h⟩ := ite_some_eq_none h
      exact ⟨by omega, by omega, not_not.mp h2, not_not.mp h3⟩
    | evaluate b =>
      simp only at h ⊢
      obtain ⟨h1, h⟩ := ite_some_eq_none h
      exact not_not.mp h1
    | remove => trivial
    | query => trivial
    | unset => simp at h
  · rintro ⟨h0, h⟩
    rw [if_neg (fun x => x h0)]
    cases req with
    | create n b =>
      obtain ⟨h1, h2, h3, h4⟩ := h
      simp only
      rw [if_neg (by omega), if_neg (fun x => x h3), if_neg (fun x => x h4)]
    | evaluate b => simp only; rw [if_neg (fun x => x h)]
    | remove => rfl
    | query => rfl
    | unset => exact h.elim

/-- What a row means. -/
def abs (r : Row) : Acct := ⟨r.priv, r.tries.toNat⟩

def look (db : DB) (id : Bytes) : Option Acct := (db.find id).map abs

def intact : Bytes → Bool := fun _ => true

theorem verify_ok {P : Prims3} {id : Bytes} {r : Row} (h : RowOK P id r) (path : Bytes → Bool) :
    verify P path id r = path id := by
  unfold verify
  have : ctEq (hashFrom (P.sip16 (rowRaw id r))) r.leaf = true := by rw [ctEq_iff]; exact h.leaf_eq.symm
  rw [this]; rfl

theorem u8_sub_one {t : UInt8} (h : t ≠ 0) : (t - 1).toNat = t.toNat - 1 := by
  have h0 : t.toNat ≠ 0 := fun e => h (UInt8.toNat_inj.mp (by simpa using e))
  rw [UInt8.toNat_sub_of_le]
  · rfl
  · rw [UInt8.le_iff_toNat_le]; show 1 ≤ t.toNat; omega

theorem u8_eq_zero_iff {t : UInt8} : t = 0 ↔ t.toNat = 0 := by
  constructor
  · intro h; rw [h]; rfl
  · intro h; exact UInt8.toNat_inj.mp (by simpa using h)

/-- One validated entry simulates the account specification. -/
theorem run_sim (P : Prims3) (db : DB) (l : Log) (hi : Inv P db) (hv : validate l = none) :
    ∃ db', run P intact db l = .ok (db', (astep P.mul (look db l.id) l).2) ∧ Inv P db' ∧
      look db' l.id = (astep P.mul (look db l.id) l).1 ∧ ∀ k, k ≠ l.id → look db' k = look db k := by
  have hv' := (validate_iff l).mp hv
  obtain ⟨id, req, pk⟩ := l
  unfold run
  simp only at hv'
  simp only [hv, beq_self_eq_true, Out.check_true, Out.bind_ok, strToArr_self hv'.1]
  cases req with
  | create n b =>
    obtain ⟨hid, h1, h2, h3, h4⟩ := hv'
    simp only [create, strToArr_self h3, strToArr_self h4, Out.pure_eq]
    cases hm : P.mul pk b with
    | none =>
      refine ⟨db, by simp [astep, hm], hi, by simp [astep, hm], fun _ _ => rfl⟩
    | some e =>
      refine ⟨_, by simp only [astep, hm]; rfl, inv_insert hi (updateLeaf_ok P hid (u32_toUInt8_ne h2 h1) h4), ?_, ?_⟩
      · simp [look, astep, hm, abs, updateLeaf, u32_toUInt8_toNat h2]
      · intro k hk; simp [look, OMap.find_insert_ne _ _ (Ne.symm hk)]
  | evaluate b =>
    obtain ⟨hid, hb⟩ := hv'
    simp only [evaluate, strToArr_self hb]
    cases hf : db.find id with
    | none => exact ⟨db, by simp [astep, look, hf], hi, by simp [astep, look, hf], fun _ _ => rfl⟩
    | some r =>
      have hr := hi id r hf
      simp only [verify_ok hr, intact, Bool.not_true, Bool.false_eq_true, if_false]
      cases hm : P.mul r.priv b with
      | none => exact ⟨db, by simp [astep, look, hf, abs, hm], hi, by simp [astep, look, hf, abs, hm], fun _ _ => rfl⟩
      | some e =>
        simp only
        have hs := u8_sub_one hr.tries_pos
        have h0 : r.tries.toNat ≠ 0 := fun x => hr.tries_pos (u8_eq_zero_iff.mpr x)
        by_cases ht : r.tries - 1 = 0
        · have ht' : r.tries.toNat ≤ 1 := by rw [u8_eq_zero_iff, hs] at ht; omega
          rw [if_pos ht]
          refine ⟨db.erase id, ?_, inv_erase hi, ?_, ?_⟩
          · simp only [astep, look, hf, abs, hm, Option.map_some, if_pos ht', Out.pure_eq]
            rw [u8_eq_zero_iff.mp ht]
          · simp [astep, look, hf, abs, hm, ht']
          · intro k hk; simp [look, OMap.find_erase_ne _ (Ne.symm hk)]
        · have ht' : ¬ r.tries.toNat ≤ 1 := by rw [u8_eq_zero_iff, hs] at ht; omega
          rw [if_neg ht]
          refine ⟨_, ?_, inv_insert hi (updateLeaf_ok P (r := { r with tries := r.tries - 1 }) hid ht hr.priv_len), ?_, ?_⟩
          · simp only [astep, look, hf, abs, hm, Option.map_some, if_neg ht', Out.pure_eq]
            rw [hs]
          · simp [astep, look, hf, abs, hm, ht', updateLeaf, hs]
          · intro k hk; simp [look, OMap.find_insert_ne _ _ (Ne.symm hk)]
  | remove =>
    simp only [remove]
    cases hf : db.find id with
    | none => exact ⟨db, by simp [astep], hi, by simp [astep, look, hf], fun _ _ => rfl⟩
    | some r =>
      refine ⟨_, by simp only [astep, Out.pure_eq]; rfl, inv_erase hi, by simp [look, astep], ?_⟩
      intro k hk; simp [look, OMap.find_erase_ne _ (Ne.symm hk)]
  | query =>
    simp only [query]
    cases hf : db.find id with
    | none => exact ⟨db, by simp [astep, look, hf], hi, by simp [astep, look, hf], fun _ _ => rfl⟩
    | some r => exact ⟨db, by simp [astep, look, hf, abs], hi, by simp [astep, look, hf, abs], fun _ _ => rfl⟩
  | unset => exact absurd hv'.2 (by simp)

/-- The simulation packaged for histories. -/
def sim (P : Prims3) : Sim DB Log Acct Resp :=
  ⟨run P intact, (·.id), fun l => validate l = none, Inv P, look, astep P.mul, run_sim P⟩

/-- With any outcome of the integrity walk: no abort, invariant kept. -/
theorem run_inv (P : Prims3) (path : Bytes → Bool) {db : DB} (l : Log) (hi : Inv P db) (hv : validate l = none) :
    ∃ db' r, run P path db l = .ok (db', r) ∧ Inv P db' := by
  have hv' := (validate_iff l).mp hv
  obtain ⟨id, req, pk⟩ := l
  unfold run
  simp only at hv'
  simp only [hv, beq_self_eq_true, Out.check_true, Out.bind_ok, strToArr_self hv'.1]
  cases req with
  | create n b =>
    obtain ⟨hid, h1, h2, h3, h4⟩ := hv'
    simp only [create, strToArr_self h3, strToArr_self h4, Out.pure_eq]
    cases hm : P.mul pk b with
    | none => exact ⟨_, _, rfl, hi⟩
    | some e => exact ⟨_, _, rfl, inv_insert hi (updateLeaf_ok P hid (u32_toUInt8_ne h2 h1) h4)⟩
  | evaluate b =>
    obtain ⟨hid, hb⟩ := hv'
    simp only [evaluate, strToArr_self hb]
    cases hf : db.find id with
    | none => exact ⟨_, _, rfl, hi⟩
    | some r =>
      have hr := hi id r hf
      simp only [verify_ok hr]
      cases path id with
      | false => exact ⟨_, _, rfl, hi⟩
      | true =>
        simp only [Bool.not_true, Bool.false_eq_true, if_false]
        cases hm : P.mul r.priv b with
        | none => exact ⟨_, _, rfl, hi⟩
        | some e =>
          simp only
          by_cases ht : r.tries - 1 = 0
          · rw [if_pos ht]; exact ⟨_, _, rfl, inv_erase hi⟩
          · rw [if_neg ht]; exact ⟨_, _, rfl, inv_insert hi (updateLeaf_ok P hid ht hr.priv_len)⟩
  | remove =>
    simp only [remove]
    cases hf : db.find id with
    | none => exact ⟨_, _, rfl, hi⟩
    | some r => exact ⟨_, _, rfl, inv_erase hi⟩
  | query =>
    simp only [query]
    cases hf : db.find id with
    | none => exact ⟨_, _, rfl, hi⟩
    | some r => exact ⟨_, _, rfl, hi⟩
  | unset => exact absurd hv'.2 (by simp)

/-! ### Locality -/

theorem run_local (P : Prims3) (path : Bytes → Bool) (log : Log) :
    ∃ f : Option Row → Out (Option Row × Resp), ∀ db : DB,
      run P path db log = (do let (o, r) ← f (db.find log.id); pure (db.set log.id o, r)) := by
  by_cases hv : validate log = none
  swap
  · refine ⟨fun _ => .abort, fun db => ?_⟩
    have : (validate log == none) = false := beq_false_of_ne hv
    simp [run, this]
  have hid := ((validate_iff log).mp hv).1
  refine ⟨fun o => do
    let (db', r) ← run P path ((OMap.empty : DB).set log.id o) log
    pure (db'.find log.id, r), ?_⟩
  intro db
  obtain ⟨id, req, pk⟩ := log
  unfold run
  simp only at hid
  simp only [hv, beq_self_eq_true, Out.check_true, Out.bind_ok, strToArr_self hid]
  cases req with
  | create n b =>
    simp only [create]
    cases h1 : strToArr ELEMENT_SIZE b with
    | none => simp [OMap.set_find]
    | some elt =>
      cases h2 : strToArr SCALAR_SIZE pk with
      | none => simp [OMap.set_find]
      | some priv =>
        cases h3 : P.mul priv elt with
        | none => simp [OMap.set_find, h3]
        | some e => simp [h3, OMap.set]
  | evaluate b =>
    simp only [evaluate, OMap.find_set_self]
    cases h1 : strToArr ELEMENT_SIZE b with
    | none => simp [OMap.set_find]
    | some elt =>
      cases hf : db.find id with
      | none => simp [OMap.set, OMap.erase_of_find_none hf]
      | some row =>
        simp only
        cases hve : verify P path id row with
        | false => simp [OMap.set, OMap.insert_of_find hf]
        | true =>
          simp only [Bool.not_true, Bool.false_eq_true, if_false]
          cases h3 : P.mul row.priv elt with
          | none => simp [OMap.set, OMap.insert_of_find hf]
          | some e =>
            simp only
            by_cases ht : row.tries - 1 = 0
            · rw [if_pos ht, if_pos ht]; simp [OMap.set]
            · rw [if_neg ht, if_neg ht]; simp [OMap.set]
  | remove =>
    simp only [remove, OMap.find_set_self]
    cases hf : db.find id with
    | none => simp [OMap.set, OMap.erase_of_find_none hf]
    | some row => simp [OMap.set]
  | query =>
    simp only [query, OMap.find_set_self]
    cases hf : db.find id with
    | none => simp [OMap.set, OMap.erase_of_find_none hf]
    | some row => simp [OMap.set, OMap.insert_of_find hf]
  | unset => simp

/-! ### Loading rows -/

/-- Key and row built from an accepted protobuf. -/
def keyOfPB (x : RowPB) : Bytes := padTo 16 x.id
def rowOfPB (P : Prims3) (x : RowPB) : Row := updateLeaf P (keyOfPB x) ⟨padTo 32 x.priv, x.tries.toUInt8, []⟩

structure PBOK (x : RowPB) : Prop where
  tries_le : x.tries.toNat ≤ 255
  tries_pos : 1 ≤ x.tries.toNat
  id_len : x.id.length ≤ 16
  priv_len : x.priv.length ≤ 32

theorem rowOfPB_ok (P : Prims3) {x : RowPB} (h : PBOK x) : RowOK P (keyOfPB x) (rowOfPB P x) :=
  updateLeaf_ok P (padTo_length h.id_len) (u32_toUInt8_ne h.tries_le h.tries_pos) (padTo_length h.priv_len)

theorem loadRow_cases (P : Prims3) (db : DB) (o : Option RowPB) :
    (∃ e, loadRow P db o = .ok (db, some e) ∧
      ∀ x, o = some x → PBOK x → ¬ ∀ p ∈ db.list, p.1 < keyOfPB x) ∨
    (∃ x, o = some x ∧ PBOK x ∧ (∀ p ∈ db.list, p.1 < keyOfPB x) ∧
      loadRow P db o = .ok (db.insert (keyOfPB x) (rowOfPB P x), none)) := by
  cases o with
  | none => exact Or.inl ⟨_, rfl, by simp⟩
  | some x =>
    unfold loadRow
    simp only
    by_cases h : x.tries.toNat > MAX_ALLOWED_MAX_TRIES ∨ x.tries.toNat < MIN_ALLOWED_MAX_TRIES
    · rw [if_pos h]
      refine Or.inl ⟨_, rfl, ?_⟩
      intro y hy hok
      cases hy
      have a := hok.tries_le; have b := hok.tries_pos
      rcases h with h | h
      · exact absurd h (Nat.not_lt.mpr a)
      · exact absurd h (Nat.not_lt.mpr b)
    · rw [if_neg h]
      simp only [not_or] at h
      by_cases hid : x.id.length ≤ 16
      · have e1 : strToArr BACKUP_ID_SIZE x.id = some (keyOfPB x) := by
          unfold strToArr; rw [if_neg (Nat.not_lt.mpr hid)]; rfl
        simp only [e1]
        by_cases ho : db.outOfOrder (keyOfPB x) = true
        · rw [if_pos ho]
          refine Or.inl ⟨_, rfl, ?_⟩
          intro y hy hok hlt
          cases hy
          rw [OMap.outOfOrder_false.mpr hlt] at ho; simp at ho
        · rw [if_neg ho]
          by_cases hp : x.priv.length ≤ 32
          · have e2 : strToArr SCALAR_SIZE x.priv = some (padTo 32 x.priv) := by
              unfold strToArr; rw [if_neg (Nat.not_lt.mpr hp)]
            simp only [e2]
            exact Or.inr ⟨x, rfl, ⟨Nat.not_lt.mp h.1, Nat.not_lt.mp h.2, hid, hp⟩,
              OMap.outOfOrder_false.mp (by simpa using ho), rfl⟩
          · have e2 : strToArr SCALAR_SIZE x.priv = none := by
              unfold strToArr; rw [if_pos (Nat.lt_of_not_le hp)]
            simp only [e2]
            exact Or.inl ⟨_, rfl, fun y hy hok => by cases hy; exact absurd hok.priv_len hp⟩
      · have e1 : strToArr BACKUP_ID_SIZE x.id = none := by
          unfold strToArr; rw [if_pos (Nat.lt_of_not_le hid)]
        simp only [e1]
        exact Or.inl ⟨_, rfl, fun y hy hok => by cases hy; exact absurd hok.id_len hid⟩

theorem loadRow_step (P : Prims3) (db : DB) (o : Option RowPB) (db' : DB) (e : Option Err)
    (h : loadRow P db o = .ok (db', e)) :
    (e ≠ none ∧ db' = db) ∨
    (e = none ∧ ∃ x k v, o = some x ∧ (PBOK x ∧ k = keyOfPB x ∧ v = rowOfPB P x) ∧ db'.list = db.list ++ [(k, v)]) := by
  rcases loadRow_cases P db o with ⟨e', h', _⟩ | ⟨x, rfl, hok, hlt, h'⟩
  · rw [h'] at h
    simp only [Out.ok.injEq, Prod.mk.injEq] at h
    obtain ⟨rfl, rfl⟩ := h
    exact Or.inl ⟨by simp, rfl⟩
  · rw [h'] at h
    simp only [Out.ok.injEq, Prod.mk.injEq] at h
    obtain ⟨rfl, rfl⟩ := h
    exact Or.inr ⟨rfl, x, keyOfPB x, rowOfPB P x, rfl, ⟨hok, rfl, rfl⟩, OMap.insert_list_of_lt _ _ _ hlt⟩

theorem loadLoop_inv (P : Prims3) (rows : List (Option RowPB)) (db : DB) (h : Inv P db) :
    ∃ db' e, loadLoopG (loadRow P) db rows = .ok (db', e) ∧ Inv P db' := by
  induction rows generalizing db with
  | nil => exact ⟨db, none, rfl, h⟩
  | cons o rows ih =>
    rcases loadRow_cases P db o with ⟨e', h', _⟩ | ⟨x, rfl, hok, hlt, h'⟩
    · exact ⟨db, some e', by simp [loadLoopG, h'], h⟩
    · obtain ⟨db2, e2, h2, hi2⟩ := ih _ (inv_insert h (rowOfPB_ok P hok))
      exact ⟨db2, e2, by simp [loadLoopG, h', h2], hi2⟩

theorem loadRows_inv (P : Prims3) (rows : List (Option RowPB)) (db : DB) (h : Inv P db) :
    ∃ db' e, loadRows P db rows = .ok (db', e) ∧ Inv P db' := by
  obtain ⟨db', e, h1, h2⟩ := loadLoop_inv P rows db h
  unfold loadRows
  simp only [Out.bind_ok, h1]
  cases e with
  | some e => exact ⟨db', _, rfl, h2⟩
  | none =>
    simp only
    split <;> exact ⟨db', _, rfl, h2⟩

/-! ### Streaming -/

theorem rowToPB_ok {P : Prims3} {id : Bytes} {r : Row} (h : RowOK P id r) : PBOK (rowToPB id r) := by
  have h2 : r.tries.toNat < 256 := r.tries.toNat_lt
  have h3 : r.tries.toNat ≠ 0 := fun e => h.tries_pos (u8_eq_zero_iff.mpr e)
  have h1 : r.tries.toUInt32.toNat = r.tries.toNat := by simp
  refine ⟨?_, ?_, Nat.le_of_eq h.id_len, Nat.le_of_eq h.priv_len⟩ <;> simp only [rowToPB, h1] <;> omega

theorem keyOfPB_toPB {P : Prims3} {id : Bytes} {r : Row} (h : RowOK P id r) : keyOfPB (rowToPB id r) = id :=
  padTo_self h.id_len

theorem rowOfPB_toPB {P : Prims3} {id : Bytes} {r : Row} (h : RowOK P id r) : rowOfPB P (rowToPB id r) = r := by
  unfold rowOfPB
  rw [keyOfPB_toPB h]
  have e1 : padTo 32 (rowToPB id r).priv = r.priv := padTo_self h.priv_len
  have e2 : (rowToPB id r).tries.toUInt8 = r.tries := by simp [rowToPB]
  rw [e1, e2]
  have hl := h.leaf_eq
  obtain ⟨priv, t, leaf⟩ := r
  exact congrArg (Row.mk priv t) hl.symm

theorem load_emitted {P : Prims3} {db : DB} {id : Bytes} {r : Row} (h : RowOK P id r)
    (hlt : ∀ p ∈ db.list, p.1 < id) :
    loadRow P db (some (rowToPB id r)) = .ok (db.insert id r, none) := by
  rcases loadRow_cases P db (some (rowToPB id r)) with ⟨e, _, hn⟩ | ⟨x, hx, hok, _, h'⟩
  · exact absurd (by rw [keyOfPB_toPB h]; exact hlt) (hn _ rfl (rowToPB_ok h))
  · cases hx
    rw [h', rowOfPB_toPB h, keyOfPB_toPB h]

theorem lastId_map (c : List (Bytes × Row)) :
    lastId ((c.map (fun p => rowToPB p.1 p.2)).map some) = lastKeyOf c := by
  rcases List.eq_nil_or_concat c with rfl | ⟨l, ⟨k, v⟩, rfl⟩
  · rfl
  · simp [lastId, lastKeyOf, rowToPB]

theorem loadRows_emitted {P : Prims3} {m1 m2 : DB} {c : List (Bytes × Row)} (h : m2.list = m1.list ++ c)
    (hg : ∀ p ∈ c, RowOK P p.1 p.2) :
    loadRows P m1 ((c.map (fun p => rowToPB p.1 p.2)).map some) = .ok (m2, .ok (lastKeyOf c)) := by
  have hl := loadLoopG_ok (loadRow P) id rowToPB (RowOK P)
    (fun m k v hkv hlt => load_emitted hkv hlt) c m1 m2 h hg
  unfold loadRows
  simp only [id] at hl
  rw [hl]
  simp only [Out.bind_ok]
  rw [if_neg (by simp [OMap.size, h]), lastId_map]
  rfl

theorem rowsAsProtos_ok {P : Prims3} {db : DB} (h : Inv P db) (l1 l2 : List (Bytes × Row)) (n : Nat)
    (hs : db.list = l1 ++ l2) :
    rowsAsProtos db (lastKeyOf l1) n =
      .ok (lastKeyOf ((rowsAfter db (lastKeyOf l1)).take n), ((rowsAfter db (lastKeyOf l1)).take n).map (fun p => rowToPB p.1 p.2)) := by
  unfold rowsAsProtos rowsAfter
  by_cases hc : (lastKeyOf l1).isEmpty = true
  · rw [if_pos hc, if_pos hc]
  · rw [if_neg hc, if_neg hc]
    have hlen : (lastKeyOf l1).length = 16 := by
      rcases List.eq_nil_or_concat l1 with rfl | ⟨l, ⟨k, v⟩, rfl⟩
      · simp [lastKeyOf] at hc
      · have : lastKeyOf (l.concat (k, v)) = k := by simp [lastKeyOf]
        rw [this]
        exact (h k v (OMap.mem_list.mp (by rw [hs]; simp))).id_len
    rw [strToArr_self hlen]

/-! ### Hashing -/

theorem rowRaw_inj {id id' : Bytes} {r r' : Row} (hi : id.length = 16) (hi' : id'.length = 16)
    (h : rowRaw id r = rowRaw id' r') : id = id' ∧ r.tries = r'.tries ∧ r.priv = r'.priv := by
  unfold rowRaw at h
  rw [List.append_assoc, List.append_assoc] at h
  have h1 := List.append_inj h (by rw [hi, hi'])
  have h2 := List.append_inj h1.2 (by simp)
  exact ⟨h1.1, UInt8.toNat_inj.mp
    (be32_inj (by have := r.tries.toNat_lt; omega) (by have := r'.tries.toNat_lt; omega) h2.1), h2.2⟩

theorem row_ext {P : Prims3} {id : Bytes} {r r' : Row} (h : RowOK P id r) (h' : RowOK P id r')
    (hr : rowRaw id r = rowRaw id r') : r = r' := by
  obtain ⟨_, e1, e2⟩ := rowRaw_inj h.id_len h'.id_len hr
  have e7 : r.leaf = r'.leaf := by rw [h.leaf_eq, h'.leaf_eq, hr]
  obtain ⟨p, t, l⟩ := r
  obtain ⟨p', t', l'⟩ := r'
  simp only at e1 e2 e7
  rw [e1, e2, e7]

theorem rows_eq_of_map {P : Prims3} : ∀ (l1 l2 : List (Bytes × Row)),
    (∀ p ∈ l1, RowOK P p.1 p.2) → (∀ p ∈ l2, RowOK P p.1 p.2) →
    (∀ p ∈ l1, ∀ q ∈ l2, P.sip16 (rowRaw p.1 p.2) = P.sip16 (rowRaw q.1 q.2) → rowRaw p.1 p.2 = rowRaw q.1 q.2) →
    l1.map (fun p => P.sip16 (rowRaw p.1 p.2)) = l2.map (fun p => P.sip16 (rowRaw p.1 p.2)) → l1 = l2
  | [], [], _, _, _, _ => rfl
  | [], q :: l2, _, _, _, h => by simp at h
  | p :: l1, [], _, _, _, h => by simp at h
  | (k, r) :: l1, (k', r') :: l2, h1, h2, hc, h => by
      simp only [List.map_cons, List.cons.injEq] at h
      have g1 := h1 (k, r) List.mem_cons_self
      have g2 := h2 (k', r') List.mem_cons_self
      have hr := hc (k, r) List.mem_cons_self (k', r') List.mem_cons_self h.1
      have hk : k = k' := (rowRaw_inj g1.id_len g2.id_len hr).1
      subst hk
      have := row_ext g1 g2 hr
      subst this
      rw [rows_eq_of_map l1 l2 (fun p hp => h1 p (List.mem_cons_of_mem _ hp))
        (fun p hp => h2 p (List.mem_cons_of_mem _ hp))
        (fun p hp q hq => hc p (List.mem_cons_of_mem _ hp) q (List.mem_cons_of_mem _ hq)) h.2]

/-! ### Histories with row loads -/

inductive Ev where
  | entry (path : Bytes → Bool) (log : Log)
  | load (rows : List (Option RowPB))

def Ev.ok : Ev → Prop
  | .entry _ l => validate l = none
  | .load _ => True

def stepEv (P : Prims3) (db : DB) : Ev → Out DB
  | .entry path l => do let (db', _) ← run P path db l; pure db'
  | .load rows => do let (db', _) ← loadRows P db rows; pure db'

def runEvs (P : Prims3) : DB → List Ev → Out DB
  | db, [] => .ok db
  | db, e :: es => do let db' ← stepEv P db e; runEvs P db' es

theorem runEvs_inv (P : Prims3) (es : List Ev) (db : DB) (h : Inv P db) (hok : ∀ e ∈ es, e.ok) :
    ∃ db', runEvs P db es = .ok db' ∧ Inv P db' := by
  induction es generalizing db with
  | nil => exact ⟨db, rfl, h⟩
  | cons e es ih =>
    have he := hok e List.mem_cons_self
    have hes := fun x hx => hok x (List.mem_cons_of_mem _ hx)
    cases e with
    | entry path l =>
      obtain ⟨db1, r, h1, h2⟩ := run_inv P path l h he
      obtain ⟨db2, h3, h4⟩ := ih db1 h2 hes
      exact ⟨db2, by simp [runEvs, stepEv, h1, h3], h4⟩
    | load rows =>
      obtain ⟨db1, r, h1, h2⟩ := loadRows_inv P rows db h
      obtain ⟨db2, h3, h4⟩ := ih db1 h2 hes
      exact ⟨db2, by simp [runEvs, stepEv, h1, h3], h4⟩

/-- Reachable databases: from the empty one by validated entries and any row batches. -/
def Reach (P : Prims3) (db : DB) : Prop := ∃ es, (∀ e ∈ es, Ev.ok e) ∧ runEvs P empty es = .ok db

theorem reach_inv {P : Prims3} {db : DB} (h : Reach P db) : Inv P db := by
  obtain ⟨es, hok, he⟩ := h
  obtain ⟨db', h1, h2⟩ := runEvs_inv P es empty (inv_empty P) hok
  rw [he] at h1; cases h1; exact h2

end Svr.DB3
