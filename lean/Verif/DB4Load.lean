import Verif.DB4Rows

/-!
# Facts about the SVR4 database: locality, row loading, streaming and hashing
-/

namespace Svr.DB4
open Spec4
open DB2 (u32_toUInt8_toNat u32_toUInt8_ne)
open DB3 (u8_sub_one u8_eq_zero_iff strToArr_self)

/-! ### Locality -/

/-- The row and the pending rotation of one account. -/
def get (db : DB) (id : Bytes) : Option Row × Option Rot := (db.rows.find id, db.rot.find id)
def put (db : DB) (id : Bytes) (o : Option Row × Option Rot) : DB := ⟨db.rows.set id o.1, db.rot.set id o.2⟩

theorem get_put (db : DB) (id : Bytes) (o : Option Row × Option Rot) : get (put db id o) id = o := by
  simp [get, put]

theorem get_put_ne (db : DB) (k k' : Bytes) (o : Option Row × Option Rot) (h : k ≠ k') :
    get (put db k o) k' = get db k' := by
  simp [get, put, OMap.find_set_ne _ _ h]

theorem put_get (db : DB) (id : Bytes) : put db id (get db id) = db := by
  simp [get, put, OMap.set_find]

theorem put_eq {db : DB} {id : Bytes} {o : Option Row} {x : Option Rot} (h1 : db.rows.find id = o)
    (h2 : db.rot.find id = x) : (⟨db.rows.set id o, db.rot.set id x⟩ : DB) = db := by
  subst h1; subst h2; exact put_get db id

theorem run_local (P : Prims4) (path : Bytes → Bool) (log : Log) :
    ∃ f : Option Row × Option Rot → Out ((Option Row × Option Rot) × Effect), ∀ db : DB,
      run P path db log = (do let (o, r) ← f (get db log.id); pure (put db log.id o, r)) := by
  by_cases hv : validate P log = none
  swap
  · refine ⟨fun _ => .abort, fun db => ?_⟩
    have : (validate P log == none) = false := beq_false_of_ne hv
    simp [run, this]
  have hid := ((validate_iff P log).mp hv).1
  refine ⟨fun o => do
    let (db', r) ← run P path (put empty log.id o) log
    pure (get db' log.id, r), ?_⟩
  intro db
  obtain ⟨id, req⟩ := log
  simp only at hid
  have hr : ∀ db : DB, ((put empty id (get db id)).rows.find id) = db.rows.find id := fun db => by simp [put, get]
  have hx : ∀ db : DB, ((put empty id (get db id)).rot.find id) = db.rot.find id := fun db => by simp [put, get]
  unfold run
  simp only [hv, beq_self_eq_true, Out.check_true, Out.bind_ok, strToArr_self hid]
  cases req with
  | create n oprf auth enc zero version =>
    simp only [create, hr]
    by_cases hc : db.rows.find id = none ∧ n = 0
    · rw [if_pos hc, if_pos hc]
      simp [get_put, put_get]
    · rw [if_neg hc, if_neg hc]
      cases okPoint P auth with
      | false => simp
      | true =>
        cases okScalar P oprf with
        | false => simp
        | true =>
          cases okScalar P zero with
          | false => simp
          | true =>
            simp only [Out.check_true, Out.bind_ok]
            cases copyOver ((db.rows.find id).getD newRow).enc enc with
            | none => simp
            | some e => simp [get, put, OMap.set]
  | restore1 b =>
    simp only [restore1, hr, hx, Out.pure_eq, Out.bind_ok]
    cases hf : db.rows.find id with
    | none => simp [get_put, put_get]
    | some row =>
      simp only
      cases hve : verify P path id row (db.rot.find id) with
      | false => simp [get_put, put_get]
      | true =>
        simp only [Bool.not_true, Bool.false_eq_true, if_false]
        by_cases ht : row.tries - 1 = 0
        · rw [if_pos ht, if_pos ht]
          cases hx' : db.rot.find id with
          | none => simp [get, put, OMap.set, hx', OMap.erase_of_find_none hx']
          | some x => simp [get, put, OMap.set]
        · rw [if_neg ht, if_neg ht]
          cases hx' : db.rot.find id with
          | none => simp [get, put, OMap.set, hx', OMap.erase_of_find_none hx']
          | some x => simp [get, put, OMap.set, hx', OMap.insert_of_find hx']
  | remove =>
    simp only [remove, hr, Out.pure_eq, Out.bind_ok]
    cases hf : db.rows.find id with
    | none => simp [get_put, put_get]
    | some row => simp [get, put, OMap.set]
  | query =>
    simp only [query, hr, hx, Out.pure_eq, Out.bind_ok]
    cases hf : db.rows.find id with
    | none => simp [get_put, put_get]
    | some row => simp [get_put, put_get]
  | rotateStart v od ed =>
    simp only [rotateStart, hr, hx]
    cases hf : db.rows.find id with
    | none => simp [get_put, put_get]
    | some row =>
      simp only
      cases hx' : db.rot.find id with
      | some x => simp [get_put, put_get]
      | none =>
        simp only
        by_cases hve : v = row.version
        · rw [if_pos hve, if_pos hve]; simp [get_put, put_get]
        · rw [if_neg hve, if_neg hve]
          cases okScalar P od with
          | false => simp
          | true =>
            cases hd : (decide (ed.length ≤ 32)) with
            | false => simp
            | true =>
              simp only [Out.check_true, Out.bind_ok]
              by_cases hl : ed.length < 32
              · rw [if_pos hl, if_pos hl]; simp
              · rw [if_neg hl, if_neg hl]
                cases verify P path id row none with
                | false => simp [get_put, put_get]
                | true => simp [get, put, OMap.set]
  | rotateCommit v =>
    simp only [rotateCommit, hr, hx, Out.pure_eq, Out.bind_ok]
    cases hf : db.rows.find id with
    | none => simp [get_put, put_get]
    | some row =>
      simp only
      cases hx' : db.rot.find id with
      | none => simp [get_put, put_get]
      | some x =>
        simp only
        by_cases hve : x.newVersion ≠ v
        · rw [if_pos hve, if_pos hve]; simp [get_put, put_get]
        · rw [if_neg hve, if_neg hve]
          cases verify P path id row (some x) with
          | false => simp [get_put, put_get]
          | true => simp [get, put, OMap.set]
  | rotateRollback v =>
    simp only [rotateRollback, hr, hx, Out.pure_eq, Out.bind_ok]
    cases hf : db.rows.find id with
    | none => simp [get_put, put_get]
    | some row =>
      simp only
      cases hx' : db.rot.find id with
      | none => simp [get_put, put_get]
      | some x =>
        simp only
        by_cases hve : x.newVersion ≠ v
        · rw [if_pos hve, if_pos hve]; simp [get_put, put_get]
        · rw [if_neg hve, if_neg hve]
          cases verify P path id row (some x) with
          | false => simp [get_put, put_get]
          | true => simp [get, put, OMap.set]
  | restore2 _ _ _ => simp
  | unset => simp

/-! ### Loading rows -/

/-- Row and rotation built from an accepted protobuf. -/
def rotOfPB (x : RowPB) : Option Rot :=
  if x.newVersion = 0 then none else some ⟨x.newVersion.toUInt32, x.oprfDelta, padTo 32 x.encDelta⟩
def rowOfPB (P : Prims4) (x : RowPB) : Row :=
  updateLeaf P x.id ⟨x.auth, x.oprf, padTo 32 x.enc, x.zero, x.version.toUInt32, x.tries.toUInt8, zeros 8⟩ (rotOfPB x)

structure PBOK (P : Prims4) (x : RowPB) : Prop where
  tries_le : x.tries.toNat ≤ 255
  tries_pos : 1 ≤ x.tries.toNat
  id_len : x.id.length = 16
  auth_ok : okPoint P x.auth = true
  oprf_ok : okScalar P x.oprf = true
  zero_ok : okScalar P x.zero = true
  enc_len : x.enc.length ≤ 32
  rot_ok : x.newVersion ≠ 0 → okScalar P x.oprfDelta = true ∧ x.encDelta.length ≤ 32

/-- What the received rows must satisfy for loading to be well defined and faithful: ids not shorter than
16 bytes, and a rotation target that survives the narrowing from 64 to 32 bits. -/
def Wire (o : Option RowPB) : Prop :=
  ∀ x, o = some x → 16 ≤ x.id.length ∧ (x.newVersion ≠ 0 → x.newVersion.toUInt32 ≠ 0)

theorem copyOver_zeros {s : Bytes} (h : s.length ≤ 32) : copyOver (zeros 32) s = some (padTo 32 s) := by
  unfold copyOver
  rw [if_neg (by omega)]
  simp only [padTo, zeros, List.drop_replicate]

theorem entOfPB_ok (P : Prims4) {x : RowPB} (h : PBOK P x) (hw : x.newVersion ≠ 0 → x.newVersion.toUInt32 ≠ 0) :
    EntOK P x.id (some (rowOfPB P x)) (rotOfPB x) := by
  refine ⟨updateLeaf_ok P h.id_len h.auth_ok h.oprf_ok h.zero_ok (padTo_length h.enc_len)
    (u32_toUInt8_ne h.tries_le h.tries_pos), ?_⟩
  intro r hr
  unfold rotOfPB at hr
  split at hr
  · cases hr
  · rename_i hn
    cases hr
    exact ⟨hw hn, (h.rot_ok hn).1, padTo_length (h.rot_ok hn).2⟩

/-- Loading one row into a database in which no rotation is pending above the last row. -/
theorem loadRow_cases (P : Prims4) (db : DB) (hrot : ∀ k x, db.rot.find k = some x → ∃ r, db.rows.find k = some r)
    (o : Option RowPB) :
    (∃ x, o = some x ∧ x.id.length < 16 ∧ loadRow P db o = .ub) ∨
    (∃ e, loadRow P db o = .ok (db, some e) ∧
      ∀ x, o = some x → PBOK P x → ¬ ∀ p ∈ db.rows.list, p.1 < x.id) ∨
    (∃ x, o = some x ∧ PBOK P x ∧ (∀ p ∈ db.rows.list, p.1 < x.id) ∧
      loadRow P db o = .ok (⟨db.rows.set x.id (some (rowOfPB P x)), db.rot.set x.id (rotOfPB x)⟩, none)) := by
  cases o with
  | none => exact Or.inr (Or.inl ⟨_, rfl, by simp⟩)
  | some x =>
    unfold loadRow
    simp only
    by_cases h : x.tries.toNat > MAX_ALLOWED_MAX_TRIES ∨ x.tries.toNat < 1
    · rw [if_pos h]
      refine Or.inr (Or.inl ⟨_, rfl, ?_⟩)
      intro y hy hok
      cases hy
      have a := hok.tries_le; have b := hok.tries_pos
      rcases h with h | h
      · exact absurd h (Nat.not_lt.mpr a)
      · exact absurd h (Nat.not_lt.mpr b)
    rw [if_neg h]
    simp only [not_or] at h
    by_cases hid : x.id.length > BACKUP_ID_SIZE
    · rw [if_pos hid]
      exact Or.inr (Or.inl ⟨_, rfl, fun y hy hok => by cases hy; have := hok.id_len; exact absurd hid (by rw [this]; decide)⟩)
    rw [if_neg hid]
    by_cases hid2 : x.id.length < BACKUP_ID_SIZE
    · rw [if_pos hid2]; exact Or.inl ⟨x, rfl, hid2, rfl⟩
    rw [if_neg hid2]
    have hlen : x.id.length = 16 := Nat.le_antisymm (Nat.not_lt.mp hid) (Nat.not_lt.mp hid2)
    by_cases ho : db.rows.outOfOrder x.id = true
    · rw [if_pos ho]
      refine Or.inr (Or.inl ⟨_, rfl, ?_⟩)
      intro y hy hok hlt
      cases hy
      rw [OMap.outOfOrder_false.mpr hlt] at ho; simp at ho
    rw [if_neg ho]
    have hlt := OMap.outOfOrder_false.mp (by simpa using ho)
    have hnr : db.rot.find x.id = none := by
      cases hf : db.rot.find x.id with
      | none => rfl
      | some y =>
        obtain ⟨r, hr⟩ := hrot _ _ hf
        exact absurd (hlt _ (OMap.mem_list.mpr hr)) (lt_irrefl _)
    by_cases hg : okPoint P x.auth = false ∨ okScalar P x.oprf = false ∨ okScalar P x.zero = false
    · rw [if_pos hg]
      refine Or.inr (Or.inl ⟨_, rfl, fun y hy hok => ?_⟩)
      cases hy
      rw [hok.auth_ok, hok.oprf_ok, hok.zero_ok] at hg; simp at hg
    rw [if_neg hg]
    simp only [not_or, Bool.not_eq_false] at hg
    by_cases he : x.enc.length ≤ 32
    swap
    · have : copyOver (zeros 32) x.enc = none := by unfold copyOver; rw [if_pos (by omega)]
      simp only [this]
      exact Or.inr (Or.inl ⟨_, rfl, fun y hy hok => by cases hy; exact absurd hok.enc_len he⟩)
    simp only [copyOver_zeros he]
    by_cases hn : x.newVersion = 0
    · rw [if_pos hn]
      refine Or.inr (Or.inr ⟨x, rfl, ⟨Nat.not_lt.mp h.1, Nat.not_lt.mp h.2, hlen, hg.1, hg.2.1, hg.2.2, he,
        fun h => absurd hn h⟩, hlt, ?_⟩)
      simp [rowOfPB, rotOfPB, hn, OMap.set, OMap.erase_of_find_none hnr]
    rw [if_neg hn]
    by_cases hd : okScalar P x.oprfDelta = false
    · rw [if_pos hd]
      refine Or.inr (Or.inl ⟨_, rfl, fun y hy hok => ?_⟩)
      cases hy
      rw [(hok.rot_ok hn).1] at hd; cases hd
    rw [if_neg hd]
    by_cases hel : x.encDelta.length ≤ 32
    swap
    · have : copyOver (zeros 32) x.encDelta = none := by unfold copyOver; rw [if_pos (by omega)]
      simp only [this]
      exact Or.inr (Or.inl ⟨_, rfl, fun y hy hok => by cases hy; exact absurd (hok.rot_ok hn).2 hel⟩)
    simp only [copyOver_zeros hel, hnr]
    refine Or.inr (Or.inr ⟨x, rfl, ⟨Nat.not_lt.mp h.1, Nat.not_lt.mp h.2, hlen, hg.1, hg.2.1, hg.2.2, he,
        fun _ => ⟨by simpa using hd, hel⟩⟩, hlt, ?_⟩)
    simp [rowOfPB, rotOfPB, hn, OMap.set]

theorem inv_rots {P : Prims4} {db : DB} (h : Inv P db) : ∀ k x, db.rot.find k = some x → ∃ r, db.rows.find k = some r :=
  fun _ _ hx => (inv_rot h hx).2

theorem loadLoop_inv (P : Prims4) (rows : List (Option RowPB)) (db : DB) (h : Inv P db) (hw : ∀ o ∈ rows, Wire o) :
    ∃ db' e, loadLoopG (loadRow P) db rows = .ok (db', e) ∧ Inv P db' := by
  induction rows generalizing db with
  | nil => exact ⟨db, none, rfl, h⟩
  | cons o rows ih =>
    have hwo := hw o List.mem_cons_self
    rcases loadRow_cases P db (inv_rots h) o with ⟨x, rfl, hl, _⟩ | ⟨e', h', _⟩ | ⟨x, rfl, hok, hlt, h'⟩
    · have := (hwo x rfl).1; omega
    · exact ⟨db, some e', by simp [loadLoopG, h'], h⟩
    · obtain ⟨db2, e2, h2, hi2⟩ := ih _ (inv_put h (entOfPB_ok P hok (hwo x rfl).2))
        (fun o ho => hw o (List.mem_cons_of_mem _ ho))
      exact ⟨db2, e2, by simp [loadLoopG, h', h2], hi2⟩

theorem loadRows_inv (P : Prims4) (rows : List (Option RowPB)) (db : DB) (h : Inv P db) (hw : ∀ o ∈ rows, Wire o) :
    ∃ db' e, loadRows P db rows = .ok (db', e) ∧ Inv P db' := by
  obtain ⟨db', e, h1, h2⟩ := loadLoop_inv P rows db h hw
  unfold loadRows
  simp only [Out.bind_ok, h1]
  cases e with
  | some e => exact ⟨db', _, rfl, h2⟩
  | none =>
    simp only
    split <;> exact ⟨db', _, rfl, h2⟩

/-! ### The two maps seen as one -/

def joint (db : DB) : OMap Bytes (Row × Option Rot) := db.rows.mapV (fun k r => (r, db.rot.find k))
def split (m : OMap Bytes (Row × Option Rot)) : DB := ⟨m.mapV (fun _ v => v.1), m.filterMapV (fun v => v.2)⟩

theorem split_joint {P : Prims4} {db : DB} (h : Inv P db) : split (joint db) = db := by
  have h1 : (joint db).mapV (fun _ v => v.1) = db.rows := by
    apply OMap.ext_find; intro k
    simp only [joint, OMap.find_mapV]
    cases db.rows.find k <;> rfl
  have h2 : (joint db).filterMapV (fun v => v.2) = db.rot := by
    apply OMap.ext_find; intro k
    rw [OMap.find_filterMapV, joint, OMap.find_mapV]
    cases hf : db.rows.find k with
    | some r => rfl
    | none =>
      have := h k
      rw [hf] at this
      exact this.symm
  cases db
  simp only [split, h1, h2]

/-- Good entry of the joint map. -/
def GoodEnt (P : Prims4) (id : Bytes) (v : Row × Option Rot) : Prop := EntOK P id (some v.1) v.2

theorem joint_good {P : Prims4} {db : DB} (h : Inv P db) : ∀ p ∈ (joint db).list, GoodEnt P p.1 p.2 := by
  rintro ⟨k, v⟩ hp
  rw [OMap.mem_list, joint, OMap.find_mapV] at hp
  cases hf : db.rows.find k with
  | none => rw [hf] at hp; simp at hp
  | some r =>
    rw [hf] at hp
    simp only [Option.map_some, Option.some.injEq] at hp
    subst hp
    have := h k
    rw [hf] at this
    exact this

theorem zipRot_spec : ∀ (l : List (Bytes × Row)) (rr : List (Bytes × Rot)),
    l.Pairwise (fun a b => a.1 < b.1) → rr.Pairwise (fun a b => a.1 < b.1) →
    (∀ q ∈ rr, (∃ r, (q.1, r) ∈ l) ∨ ∀ p ∈ l, p.1 < q.1) →
    (zipRot l rr).1 = l.map (fun p => (p.1, (p.2, OMap.findL p.1 rr))) ∧
    ((∀ q ∈ rr, ∃ r, (q.1, r) ∈ l) → (zipRot l rr).2 = [])
  | [], rr, _, _, _ => by
      refine ⟨by simp [zipRot], ?_⟩
      intro h
      simp only [zipRot]
      cases rr with
      | nil => rfl
      | cons q rr => obtain ⟨r, hr⟩ := h q List.mem_cons_self; simp at hr
  | (k, r) :: t, [], hl, _, _ => by
      obtain ⟨h1, h2⟩ := zipRot_spec t [] (List.pairwise_cons.mp hl).2 List.Pairwise.nil (by simp)
      simp only [zipRot, h1, h2 (by simp)]
      exact ⟨by simp [OMap.findL], by simp⟩
  | (k, r) :: t, (k', x) :: rr, hl, hr, hc => by
      have hl' := List.pairwise_cons.mp hl
      have hr' := List.pairwise_cons.mp hr
      unfold zipRot
      by_cases hk : k' = k
      · subst hk
        rw [if_pos rfl]
        obtain ⟨h1, h2⟩ := zipRot_spec t rr hl'.2 hr'.2 (by
          intro q hq
          have hlt := hr'.1 q hq
          rcases hc q (List.mem_cons_of_mem _ hq) with ⟨r', h⟩ | h
          · rcases List.mem_cons.mp h with h | h
            · simp only [Prod.mk.injEq] at h
              rw [h.1] at hlt; exact absurd hlt (lt_irrefl _)
            · exact Or.inl ⟨r', h⟩
          · exact Or.inr (fun p hp => h p (List.mem_cons_of_mem _ hp)))
        refine ⟨?_, ?_⟩
        · simp only [h1, List.map_cons, OMap.findL, if_true]
          congr 1
          apply List.map_congr_left
          intro p hp
          have := hl'.1 p hp
          rw [if_neg (ne_of_lt this)]
        · intro hall
          simp only
          apply h2
          intro q hq
          obtain ⟨r', h⟩ := hall q (List.mem_cons_of_mem _ hq)
          rcases List.mem_cons.mp h with h | h
          · have hlt := hr'.1 q hq
            simp only [Prod.mk.injEq] at h
            rw [h.1] at hlt; exact absurd hlt (lt_irrefl _)
          · exact ⟨r', h⟩
      · rw [if_neg hk]
        have hgt : k < k' := by
          rcases hc (k', x) List.mem_cons_self with ⟨r', h⟩ | h
          · rcases List.mem_cons.mp h with h | h
            · simp only [Prod.mk.injEq] at h; exact absurd h.1 hk
            · exact hl'.1 _ h
          · exact h (k, r) List.mem_cons_self
        have hgt' : ∀ q ∈ (k', x) :: rr, k < q.1 := by
          intro q hq
          rcases List.mem_cons.mp hq with rfl | hq
          · exact hgt
          · exact lt_trans hgt (hr'.1 q hq)
        obtain ⟨h1, h2⟩ := zipRot_spec t ((k', x) :: rr) hl'.2 hr (by
          intro q hq
          rcases hc q hq with ⟨r', h⟩ | h
          · rcases List.mem_cons.mp h with h | h
            · have := hgt' q hq
              simp only [Prod.mk.injEq] at h
              rw [h.1] at this; exact absurd this (lt_irrefl _)
            · exact Or.inl ⟨r', h⟩
          · exact Or.inr (fun p hp => h p (List.mem_cons_of_mem _ hp)))
        have hnone : OMap.findL k ((k', x) :: rr) = none :=
          OMap.findL_none_of_forall (fun q hq => (ne_of_lt (hgt' q hq)).symm)
        refine ⟨by simp only [h1, List.map_cons, hnone], ?_⟩
        intro hall
        simp only
        apply h2
        intro q hq
        obtain ⟨r', h⟩ := hall q hq
        rcases List.mem_cons.mp h with h | h
        · have := hgt' q hq
          simp only [Prod.mk.injEq] at h
          rw [h.1] at this; exact absurd this (lt_irrefl _)
        · exact ⟨r', h⟩

/-- Walking the two maps in step over the whole database. -/
theorem zipRot_all {P : Prims4} {db : DB} (h : Inv P db) :
    zipRot db.rows.list db.rot.list = ((joint db).list, []) := by
  have hall : ∀ q ∈ db.rot.list, ∃ r, (q.1, r) ∈ db.rows.list := by
    rintro ⟨k, x⟩ hq
    obtain ⟨r, hr⟩ := inv_rots h k x (OMap.mem_list.mp hq)
    exact ⟨r, OMap.mem_list.mpr hr⟩
  obtain ⟨h1, h2⟩ := zipRot_spec db.rows.list db.rot.list db.rows.sorted db.rot.sorted (fun q hq => Or.inl (hall q hq))
  exact Prod.ext h1 (h2 hall)

theorem findL_upperBound (m : OMap Bytes Rot) (c k : Bytes) (h : c < k) :
    OMap.findL k (m.upperBound c) = m.find k := by
  have hs : (m.upperBound c).Pairwise (fun a b => a.1 < b.1) := by
    unfold OMap.upperBound
    exact m.sorted.sublist (List.dropWhile_sublist _)
  cases hf : m.find k with
  | some x =>
    rw [OMap.findL_eq_some hs, OMap.mem_upperBound]
    exact ⟨OMap.mem_list.mpr hf, h⟩
  | none =>
    cases hg : OMap.findL k (m.upperBound c) with
    | none => rfl
    | some x =>
      rw [OMap.findL_eq_some hs, OMap.mem_upperBound] at hg
      rw [OMap.mem_list.mp hg.1] at hf; cases hf

/-- Emission after a cursor is what the joint map says. -/
theorem rowsAsProtos_at {P : Prims4} {db : DB} (h : Inv P db) (c : Bytes) (n : Nat) (hl : c = [] ∨ c.length = 16) :
    rowsAsProtos db c n = .ok (.ok (lastKeyOf ((rowsAfter (joint db) c).take n),
      ((rowsAfter (joint db) c).take n).map (fun p => rowToPB p.1 p.2))) := by
  unfold rowsAsProtos rowsAfter
  by_cases hc : c.isEmpty = true
  · rw [if_pos hc, if_pos hc]
    have hz : (zipRot (db.rows.list.take n) db.rot.list).1 = (joint db).list.take n := by
      have := (zipRot_spec (db.rows.list.take n) db.rot.list (db.rows.sorted.sublist (List.take_sublist _ _))
        db.rot.sorted (by
          rintro ⟨k, x⟩ hq
          obtain ⟨r, hr⟩ := inv_rots h k x (OMap.mem_list.mp hq)
          have hm := OMap.mem_list.mpr hr
          have hsrt := db.rows.sorted
          rw [← List.take_append_drop n db.rows.list] at hm hsrt
          rcases List.mem_append.mp hm with hm | hm
          · exact Or.inl ⟨r, hm⟩
          · exact Or.inr (fun p hp => (List.pairwise_append.mp hsrt).2.2 p hp _ hm))).1
      rw [this]
      simp only [joint, OMap.mapV, List.map_take]
      rfl
    simp only [hz]
  · rw [if_neg hc, if_neg hc]
    have hlen : c.length = 16 := by
      rcases hl with rfl | hl
      · simp at hc
      · exact hl
    rw [if_neg (show ¬ c.length > BACKUP_ID_SIZE by rw [hlen]; decide),
      if_neg (show ¬ c.length < BACKUP_ID_SIZE by rw [hlen]; decide)]
    have hsr : (db.rows.upperBound c).Pairwise (fun a b => a.1 < b.1) :=
      db.rows.sorted.sublist (List.dropWhile_sublist _)
    have hsx : (db.rot.upperBound c).Pairwise (fun a b => a.1 < b.1) :=
      db.rot.sorted.sublist (List.dropWhile_sublist _)
    have hz : (zipRot ((db.rows.upperBound c).take n) (db.rot.upperBound c)).1 = ((joint db).upperBound c).take n := by
      have := (zipRot_spec ((db.rows.upperBound c).take n) (db.rot.upperBound c) (hsr.sublist (List.take_sublist _ _))
        hsx (by
          rintro ⟨k, x⟩ hq
          rw [OMap.mem_upperBound] at hq
          obtain ⟨r, hr⟩ := inv_rots h k x (OMap.mem_list.mp hq.1)
          have hm : (k, r) ∈ db.rows.upperBound c := OMap.mem_upperBound.mpr ⟨OMap.mem_list.mpr hr, hq.2⟩
          have hsrt := hsr
          rw [← List.take_append_drop n (db.rows.upperBound c)] at hm hsrt
          rcases List.mem_append.mp hm with hm | hm
          · exact Or.inl ⟨r, hm⟩
          · exact Or.inr (fun p hp => (List.pairwise_append.mp hsrt).2.2 p hp _ hm))).1
      rw [this, joint, OMap.upperBound_mapV, ← List.map_take]
      apply List.map_congr_left
      intro p hp
      have := (OMap.mem_upperBound.mp (List.mem_of_mem_take hp)).2
      rw [findL_upperBound _ _ _ this]
    simp only [hz]

theorem rowsAsProtos_ok {P : Prims4} {db : DB} (h : Inv P db) (l1 l2 : List (Bytes × (Row × Option Rot))) (n : Nat)
    (hs : (joint db).list = l1 ++ l2) :
    rowsAsProtos db (lastKeyOf l1) n = .ok (.ok (lastKeyOf ((rowsAfter (joint db) (lastKeyOf l1)).take n),
      ((rowsAfter (joint db) (lastKeyOf l1)).take n).map (fun p => rowToPB p.1 p.2))) := by
  apply rowsAsProtos_at h
  rcases List.eq_nil_or_concat l1 with rfl | ⟨l, ⟨k, v⟩, rfl⟩
  · exact .inl rfl
  · have hv : (lastKeyOf (l.concat (k, v)), v) ∈ (joint db).list := by rw [hs]; simp [lastKeyOf]
    exact .inr (joint_good h _ hv).1.id_len

theorem u64_u32 (v : UInt32) : v.toUInt64.toUInt32 = v := by simp
theorem u64_zero {v : UInt32} (h : v ≠ 0) : v.toUInt64 ≠ 0 := by
  intro e
  have := congrArg UInt64.toUInt32 e
  rw [u64_u32] at this
  exact h this

theorem rowToPB_ok {P : Prims4} {id : Bytes} {v : Row × Option Rot} (h : GoodEnt P id v) :
    PBOK P (rowToPB id v) ∧ (rowToPB id v).id = id ∧ rotOfPB (rowToPB id v) = v.2 ∧ rowOfPB P (rowToPB id v) = v.1 := by
  obtain ⟨r, rr⟩ := v
  obtain ⟨h1, h2⟩ := h
  have ht : r.tries.toUInt32.toNat = r.tries.toNat := by simp
  have ht8 : r.tries.toUInt32.toUInt8 = r.tries := by simp
  have htlt : r.tries.toNat < 256 := r.tries.toNat_lt
  have ht0 : r.tries.toNat ≠ 0 := fun e => h1.tries_pos (u8_eq_zero_iff.mpr e)
  have hp : padTo 32 r.enc = r.enc := DB3.padTo_self h1.enc_len
  have hleaf := h1.leaf_eq
  cases rr with
  | none =>
    have e3 : rotOfPB (rowToPB id (r, none)) = none := by simp [rotOfPB, rowToPB]
    refine ⟨⟨?_, ?_, h1.id_len, h1.auth_ok, h1.oprf_ok, h1.zero_ok, Nat.le_of_eq h1.enc_len, ?_⟩, rfl, e3, ?_⟩
    · simp only [rowToPB, ht]; omega
    · simp only [rowToPB, ht]; omega
    · intro hn; exact absurd rfl hn
    · unfold rowOfPB
      rw [e3]
      simp only [rowToPB, ht8, hp, u64_u32]
      obtain ⟨a, b, c, d, e, f, leaf⟩ := r
      exact congrArg (Row.mk a b c d e f) hleaf.symm
  | some x =>
    have hx := h2 x rfl
    have hpx : padTo 32 x.encDelta = x.encDelta := DB3.padTo_self hx.enc_len
    have e3 : rotOfPB (rowToPB id (r, some x)) = some x := by
      unfold rotOfPB
      rw [if_neg (show ¬ (rowToPB id (r, some x)).newVersion = 0 from u64_zero hx.version_ne)]
      simp only [rowToPB, hpx, u64_u32]
    refine ⟨⟨?_, ?_, h1.id_len, h1.auth_ok, h1.oprf_ok, h1.zero_ok, Nat.le_of_eq h1.enc_len, ?_⟩, rfl, e3, ?_⟩
    · simp only [rowToPB, ht]; omega
    · simp only [rowToPB, ht]; omega
    · intro _; exact ⟨hx.delta_ok, Nat.le_of_eq hx.enc_len⟩
    · unfold rowOfPB
      rw [e3]
      simp only [rowToPB, ht8, hp, u64_u32]
      obtain ⟨a, b, c, d, e, f, leaf⟩ := r
      exact congrArg (Row.mk a b c d e f) hleaf.symm

theorem split_insert (m : OMap Bytes (Row × Option Rot)) (k : Bytes) (v : Row × Option Rot) :
    split (m.insert k v) = ⟨(split m).rows.set k (some v.1), (split m).rot.set k v.2⟩ := by
  unfold split
  rw [OMap.mapV_insert, OMap.filterMapV_insert]
  cases v.2 <;> rfl

theorem load_emitted {P : Prims4} (m : OMap Bytes (Row × Option Rot)) (k : Bytes) (v : Row × Option Rot)
    (h : GoodEnt P k v) (hlt : ∀ p ∈ m.list, p.1 < k) :
    loadRow P (split m) (some (rowToPB k v)) = .ok (split (m.insert k v), none) := by
  obtain ⟨hok, hid, hrot, hrow⟩ := rowToPB_ok h
  have hlt' : ∀ p ∈ (split m).rows.list, p.1 < k := by
    intro p hp
    simp only [split, OMap.mapV, List.mem_map] at hp
    obtain ⟨q, hq, rfl⟩ := hp
    exact hlt q hq
  rcases loadRow_cases P (split m) (by
      intro k x hx
      simp only [split, OMap.find_filterMapV] at hx
      cases hf : m.find k with
      | none => rw [hf] at hx; simp at hx
      | some v => exact ⟨v.1, by simp [split, OMap.find_mapV, hf]⟩) (some (rowToPB k v)) with
    ⟨x, hx, hl, _⟩ | ⟨e, _, hn⟩ | ⟨x, hx, _, _, h'⟩
  · cases hx; rw [hok.id_len] at hl; omega
  · exact absurd (by rw [hid]; exact hlt') (hn _ rfl hok)
  · cases hx
    rw [h', hrow, hid, hrot, split_insert]

theorem lastId_map (c : List (Bytes × (Row × Option Rot))) :
    lastId ((c.map (fun p => rowToPB p.1 p.2)).map some) = lastKeyOf c := by
  rcases List.eq_nil_or_concat c with rfl | ⟨l, ⟨k, r, rr⟩, rfl⟩
  · rfl
  · cases rr <;> simp [lastId, lastKeyOf, rowToPB]

theorem loadRows_emitted {P : Prims4} {m1 m2 : OMap Bytes (Row × Option Rot)} {c : List (Bytes × (Row × Option Rot))}
    (h : m2.list = m1.list ++ c) (hg : ∀ p ∈ c, GoodEnt P p.1 p.2) :
    loadRows P (split m1) ((c.map (fun p => rowToPB p.1 p.2)).map some) = .ok (split m2, .ok (lastKeyOf c)) := by
  have hl := loadLoopG_ok (loadRow P) split rowToPB (GoodEnt P)
    (fun m k v hkv hlt => load_emitted m k v hkv hlt) c m1 m2 h hg
  unfold loadRows
  rw [hl]
  simp only [Out.bind_ok]
  rw [if_neg (by simp [OMap.size, split, OMap.mapV, h]), lastId_map]
  rfl

/-- No pending rotation without a row. -/
def NoOrphan (db : DB) : Prop := ∀ k x, db.rot.find k = some x → ∃ r, db.rows.find k = some r

theorem loadRow_step (P : Prims4) (db : DB) (o : Option RowPB) (db' : DB) (e : Option Err) (hn : NoOrphan db)
    (h : loadRow P db o = .ok (db', e)) :
    (e ≠ none ∧ db' = db) ∨
    (e = none ∧ NoOrphan db' ∧ ∃ x k v, o = some x ∧ (PBOK P x ∧ k = x.id ∧ v = (rowOfPB P x, rotOfPB x)) ∧
      (joint db').list = (joint db).list ++ [(k, v)]) := by
  rcases loadRow_cases P db hn o with ⟨x, rfl, _, h'⟩ | ⟨e', h', _⟩ | ⟨x, rfl, hok, hlt, h'⟩
  · rw [h'] at h; cases h
  · rw [h'] at h
    simp only [Out.ok.injEq, Prod.mk.injEq] at h
    obtain ⟨rfl, rfl⟩ := h
    exact Or.inl ⟨by simp, rfl⟩
  · rw [h'] at h
    simp only [Out.ok.injEq, Prod.mk.injEq] at h
    obtain ⟨rfl, rfl⟩ := h
    refine Or.inr ⟨rfl, ?_, x, x.id, _, rfl, ⟨hok, rfl, rfl⟩, ?_⟩
    · intro k y hy
      by_cases hk : x.id = k
      · subst hk; exact ⟨rowOfPB P x, by simp⟩
      · simp only [OMap.find_set_ne _ _ hk] at hy ⊢
        exact hn k y hy
    · have e1 : (db.rows.set x.id (some (rowOfPB P x))).list = db.rows.list ++ [(x.id, rowOfPB P x)] :=
        OMap.insert_list_of_lt _ _ _ hlt
      simp only [joint, OMap.mapV, e1, List.map_append, List.map_cons, List.map_nil, OMap.find_set_self]
      congr 1
      apply List.map_congr_left
      intro p hp
      have : x.id ≠ p.1 := (ne_of_lt (hlt p hp)).symm
      rw [OMap.find_set_ne _ _ this]

/-! ### Hashing -/

theorem be32_length (n : Nat) : (be32 n).length = 4 := by simp [be32]

/-- Sizes of the fixed-size fields of a pending rotation in memory. -/
def RotShape (x : Rot) : Prop := x.oprfDelta.length = 32 ∧ x.encDelta.length = 32

/-- A genuine pending rotation is not confused with any other content, except that no rotation hashes
like the all-zero one. -/
theorem rotRaw_inj' {P : Prims4} {a b : Option Rot} (ha : ∀ x, a = some x → RotShape x)
    (hz : a ≠ some ⟨0, zeros 32, zeros 32⟩) (hb : ∀ x, b = some x → RotOK P x) (h : rotRaw a = rotRaw b) : a = b := by
  have h4 : (zeros 68) = be32 0 ++ (zeros 32 ++ zeros 32) := by decide
  have hv0 : ∀ x : Rot, be32 x.newVersion.toNat = be32 0 → x.newVersion = 0 := by
    intro x hx
    have := be32_inj (by have := x.newVersion.toNat_lt; omega) (by omega) hx
    exact UInt32.toNat_inj.mp (by simpa using this)
  cases a with
  | none =>
    cases b with
    | none => rfl
    | some y =>
      simp only [rotRaw, List.append_assoc, h4] at h
      exact absurd (hv0 y (List.append_inj h (by simp [be32_length])).1.symm) (hb y rfl).version_ne
  | some x =>
    have hx := ha x rfl
    cases b with
    | none =>
      simp only [rotRaw, List.append_assoc, h4] at h
      have h1 := List.append_inj h (by simp [be32_length])
      have h2 := List.append_inj h1.2 (by rw [hx.1]; rfl)
      refine absurd ?_ hz
      obtain ⟨a, b, c⟩ := x
      have := hv0 _ h1.1
      simp only at this h2
      rw [this, h2.1, h2.2]
    | some y =>
      have hy := hb y rfl
      simp only [rotRaw, List.append_assoc] at h
      have h1 := List.append_inj h (by simp [be32_length])
      have h2 := List.append_inj h1.2 (by rw [hx.1, okScalar_len hy.delta_ok])
      have h3 := be32_inj (by have := x.newVersion.toNat_lt; omega) (by have := y.newVersion.toNat_lt; omega) h1.1
      obtain ⟨a, b, c⟩ := x
      obtain ⟨a', b', c'⟩ := y
      simp only at h1 h2 h3
      rw [UInt32.toNat_inj.mp h3, h2.1, h2.2]

theorem rotRaw_inj {P : Prims4} {a b : Option Rot} (ha : ∀ x, a = some x → RotOK P x) (hb : ∀ x, b = some x → RotOK P x)
    (h : rotRaw a = rotRaw b) : a = b :=
  rotRaw_inj' (fun x hx => ⟨okScalar_len (ha x hx).delta_ok, (ha x hx).enc_len⟩)
    (fun e => (ha _ e).version_ne rfl) hb h

/-- The sizes of the fixed-size fields of a row in memory. -/
structure Shape (id : Bytes) (r : Row) : Prop where
  id_len : id.length = 16
  auth_len : r.auth.length = 32
  oprf_len : r.oprf.length = 32
  enc_len : r.enc.length = 32
  zero_len : r.zero.length = 32

theorem RowOK.shape {P : Prims4} {id : Bytes} {r : Row} {rr : Option Rot} (h : RowOK P id r rr) : Shape id r :=
  ⟨h.id_len, okPoint_len h.auth_ok, okScalar_len h.oprf_ok, h.enc_len, okScalar_len h.zero_ok⟩

theorem rowRaw_inj {id id' : Bytes} {r r' : Row} {a b : Option Rot} (h1 : Shape id r) (h2 : Shape id' r')
    (h : rowRaw id r a = rowRaw id' r' b) :
    id = id' ∧ r.auth = r'.auth ∧ r.oprf = r'.oprf ∧ r.enc = r'.enc ∧ r.zero = r'.zero ∧ r.tries = r'.tries ∧
      r.version = r'.version ∧ rotRaw a = rotRaw b := by
  unfold rowRaw at h
  have h := List.append_inj h (by rw [h1.id_len, h2.id_len])
  obtain ⟨e1, h⟩ := h
  obtain ⟨e2, h⟩ := List.append_inj h (by rw [h1.auth_len, h2.auth_len])
  obtain ⟨e3, h⟩ := List.append_inj h (by rw [h1.oprf_len, h2.oprf_len])
  obtain ⟨e4, h⟩ := List.append_inj h (by rw [h1.enc_len, h2.enc_len])
  obtain ⟨e5, h⟩ := List.append_inj h (by rw [h1.zero_len, h2.zero_len])
  obtain ⟨e6, h⟩ := List.append_inj h rfl
  obtain ⟨e7, e8⟩ := List.append_inj h (by simp [be32_length])
  refine ⟨e1, e2, e3, e4, e5, by simpa using e6, UInt32.toNat_inj.mp
    (be32_inj (by have := r.version.toNat_lt; omega) (by have := r'.version.toNat_lt; omega) e7), e8⟩

theorem ent_ext {P : Prims4} {id : Bytes} {v v' : Row × Option Rot} (h : GoodEnt P id v) (h' : GoodEnt P id v')
    (hr : rowRaw id v.1 v.2 = rowRaw id v'.1 v'.2) : v = v' := by
  obtain ⟨_, e1, e2, e3, e4, e5, e6, e7⟩ := rowRaw_inj h.1.shape h'.1.shape hr
  have e8 := rotRaw_inj h.2 h'.2 e7
  have e9 : v.1.leaf = v'.1.leaf := by rw [h.1.leaf_eq, h'.1.leaf_eq, hr]
  obtain ⟨⟨a, b, c, d, e, f, g⟩, x⟩ := v
  obtain ⟨⟨a', b', c', d', e', f', g'⟩, x'⟩ := v'
  simp only at e1 e2 e3 e4 e5 e6 e8 e9
  rw [e1, e2, e3, e4, e5, e6, e8, e9]

theorem rows_eq_of_map {P : Prims4} : ∀ (l1 l2 : List (Bytes × (Row × Option Rot))),
    (∀ p ∈ l1, GoodEnt P p.1 p.2) → (∀ p ∈ l2, GoodEnt P p.1 p.2) →
    (∀ p ∈ l1, ∀ q ∈ l2, P.sip16 (rowRaw p.1 p.2.1 p.2.2) = P.sip16 (rowRaw q.1 q.2.1 q.2.2) →
      rowRaw p.1 p.2.1 p.2.2 = rowRaw q.1 q.2.1 q.2.2) →
    l1.map (fun p => P.sip16 (rowRaw p.1 p.2.1 p.2.2)) = l2.map (fun p => P.sip16 (rowRaw p.1 p.2.1 p.2.2)) → l1 = l2
  | [], [], _, _, _, _ => rfl
  | [], q :: l2, _, _, _, h => by simp at h
  | p :: l1, [], _, _, _, h => by simp at h
  | (k, r) :: l1, (k', r') :: l2, h1, h2, hc, h => by
      simp only [List.map_cons, List.cons.injEq] at h
      have g1 := h1 (k, r) List.mem_cons_self
      have g2 := h2 (k', r') List.mem_cons_self
      have hr := hc (k, r) List.mem_cons_self (k', r') List.mem_cons_self h.1
      have hk : k = k' := (rowRaw_inj g1.1.shape g2.1.shape hr).1
      subst hk
      have := ent_ext g1 g2 hr
      subst this
      rw [rows_eq_of_map l1 l2 (fun p hp => h1 p (List.mem_cons_of_mem _ hp))
        (fun p hp => h2 p (List.mem_cons_of_mem _ hp))
        (fun p hp q hq => hc p (List.mem_cons_of_mem _ hp) q (List.mem_cons_of_mem _ hq)) h.2]

/-! ### Histories with row loads -/

inductive Ev where
  | entry (path : Bytes → Bool) (log : Log)
  | load (rows : List (Option RowPB))

/-- Entries are validated; received rows satisfy `Wire`. -/
def Ev.ok (P : Prims4) : Ev → Prop
  | .entry _ l => validate P l = none
  | .load rows => ∀ o ∈ rows, Wire o

def stepEv (P : Prims4) (db : DB) : Ev → Out DB
  | .entry path l => do let (db', _) ← run P path db l; pure db'
  | .load rows => do let (db', _) ← loadRows P db rows; pure db'

def runEvs (P : Prims4) : DB → List Ev → Out DB
  | db, [] => .ok db
  | db, e :: es => do let db' ← stepEv P db e; runEvs P db' es

theorem runEvs_inv (P : Prims4) (hs : SaddOK P) (es : List Ev) (db : DB) (h : Inv P db) (hok : ∀ e ∈ es, e.ok P) :
    ∃ db', runEvs P db es = .ok db' ∧ Inv P db' := by
  induction es generalizing db with
  | nil => exact ⟨db, rfl, h⟩
  | cons e es ih =>
    have he := hok e List.mem_cons_self
    have hes := fun x hx => hok x (List.mem_cons_of_mem _ hx)
    cases e with
    | entry path l =>
      obtain ⟨db1, r, h1, h2, _⟩ := run_cases P hs path db l h he
      obtain ⟨db2, h3, h4⟩ := ih db1 h2 hes
      exact ⟨db2, by simp [runEvs, stepEv, h1, h3], h4⟩
    | load rows =>
      obtain ⟨db1, r, h1, h2⟩ := loadRows_inv P rows db h he
      obtain ⟨db2, h3, h4⟩ := ih db1 h2 hes
      exact ⟨db2, by simp [runEvs, stepEv, h1, h3], h4⟩

/-- Reachable databases: from the empty one by validated entries and row batches satisfying `Wire`. -/
def Reach (P : Prims4) (db : DB) : Prop := ∃ es, (∀ e ∈ es, Ev.ok P e) ∧ runEvs P empty es = .ok db

theorem reach_inv {P : Prims4} (hs : SaddOK P) {db : DB} (h : Reach P db) : Inv P db := by
  obtain ⟨es, hok, he⟩ := h
  obtain ⟨db', h1, h2⟩ := runEvs_inv P hs es empty (inv_empty P) hok
  rw [he] at h1; cases h1; exact h2

theorem zipRot_mem : ∀ (l : List (Bytes × Row)) (rr : List (Bytes × Rot)) (p), p ∈ (zipRot l rr).1 →
    (p.1, p.2.1) ∈ l ∧ ∀ x, p.2.2 = some x → (p.1, x) ∈ rr
  | [], rr, p, h => by simp [zipRot] at h
  | (k, r) :: t, [], p, h => by
      simp only [zipRot, List.mem_cons] at h
      rcases h with rfl | h
      · simp
      · have := zipRot_mem t [] p h
        exact ⟨List.mem_cons_of_mem _ this.1, this.2⟩
  | (k, r) :: t, (k', x) :: rr, p, h => by
      simp only [zipRot] at h
      split at h
      · rename_i hk
        simp only [List.mem_cons] at h
        rcases h with rfl | h
        · subst hk; simp
        · have := zipRot_mem t rr p h
          exact ⟨List.mem_cons_of_mem _ this.1, fun y hy => List.mem_cons_of_mem _ (this.2 y hy)⟩
      · simp only [List.mem_cons] at h
        rcases h with rfl | h
        · simp
        · have := zipRot_mem t ((k', x) :: rr) p h
          exact ⟨List.mem_cons_of_mem _ this.1, this.2⟩

/-- Rows emitted by a reachable database satisfy `Wire`, whatever the cursor. -/
theorem emitted_wire {P : Prims4} {db : DB} (h : Inv P db) {c : Bytes} {n : Nat} {k : Bytes} {rows : List RowPB}
    (he : rowsAsProtos db c n = .ok (.ok (k, rows))) : ∀ o ∈ rows.map some, Wire o := by
  have hsub : ∀ (l : List (Bytes × Row)) (rr : List (Bytes × Rot)), (∀ p ∈ l, p ∈ db.rows.list) →
      (∀ p ∈ rr, p ∈ db.rot.list) → ∀ o ∈ ((zipRot l rr).1.map (fun p => rowToPB p.1 p.2)).map some, Wire o := by
    intro l rr hl hr o ho y hy
    simp only [List.map_map, List.mem_map, Function.comp] at ho
    obtain ⟨p, hp, rfl⟩ := ho
    cases hy
    obtain ⟨m1, m2⟩ := zipRot_mem l rr p hp
    have hrow := inv_row h (OMap.mem_list.mp (hl _ m1))
    obtain ⟨id, r, o⟩ := p
    refine ⟨?_, ?_⟩
    · have := hrow.id_len
      cases o <;> exact Nat.le_of_eq this.symm
    · cases o with
      | none => intro hne; exact absurd rfl hne
      | some x =>
        intro _
        have := (inv_rot h (OMap.mem_list.mp (hr _ (m2 x rfl)))).1.version_ne
        show x.newVersion.toUInt64.toUInt32 ≠ 0
        rw [u64_u32]; exact this
  have hub : ∀ {V} (m : OMap Bytes V) (p), p ∈ m.upperBound c → p ∈ m.list := by
    intro V m p hp
    exact (List.dropWhile_sublist _).subset hp
  unfold rowsAsProtos at he
  split at he
  · simp only [Out.ok.injEq, Except.ok.injEq, Prod.mk.injEq] at he
    rw [← he.2]
    exact hsub _ _ (fun p hp => List.mem_of_mem_take hp) (fun p hp => hp)
  · split at he
    · simp at he
    · split at he
      · simp at he
      · simp only [Out.ok.injEq, Except.ok.injEq, Prod.mk.injEq] at he
        rw [← he.2]
        exact hsub _ _ (fun p hp => hub _ _ (List.mem_of_mem_take hp)) (fun p hp => hub _ _ hp)

/-- Databases of replicas: validated entries, and rows received from other replicas running the same code
(peers are attested), in any batches and order. -/
inductive ReplicaReach (P : Prims4) : DB → Prop
  | empty : ReplicaReach P empty
  | entry {db db' : DB} {path : Bytes → Bool} {l : Log} {eff : Effect} : ReplicaReach P db → validate P l = none →
      run P path db l = .ok (db', eff) → ReplicaReach P db'
  | load {db db' src : DB} {c k : Bytes} {n : Nat} {rows : List RowPB} {res : Except Err Bytes} :
      ReplicaReach P db → ReplicaReach P src → rowsAsProtos src c n = .ok (.ok (k, rows)) →
      loadRows P db (rows.map some) = .ok (db', res) → ReplicaReach P db'

theorem runEvs_append (P : Prims4) (es es' : List Ev) (db : DB) :
    runEvs P db (es ++ es') = (do let d ← runEvs P db es; runEvs P d es') := by
  induction es generalizing db with
  | nil => rfl
  | cons e es ih =>
    simp only [List.cons_append, runEvs]
    cases stepEv P db e with
    | ok d => simp [ih]
    | abort => rfl
    | ub => rfl

theorem Reach.snoc {P : Prims4} {db db' : DB} {e : Ev} (h : Reach P db) (he : e.ok P) (hs : stepEv P db e = .ok db') :
    Reach P db' := by
  obtain ⟨es, h1, h2⟩ := h
  refine ⟨es ++ [e], ?_, ?_⟩
  · intro x hx
    rcases List.mem_append.mp hx with hx | hx
    · exact h1 x hx
    · simp at hx; subst hx; exact he
  · rw [runEvs_append, h2]
    simp [runEvs, hs]

theorem replica_reach {P : Prims4} (hs : SaddOK P) {db : DB} (h : ReplicaReach P db) : Reach P db := by
  induction h with
  | empty => exact ⟨[], by simp, rfl⟩
  | @entry db db' path l eff _ hv hr ih => exact ih.snoc (e := .entry path l) hv (by simp [stepEv, hr])
  | load _ _ he hl ih1 ih2 => exact ih1.snoc (e := .load _) (emitted_wire (reach_inv hs ih2) he) (by simp [stepEv, hl])

end Svr.DB4
