import Verif.DB5
import Verif.DB3Rows

/-!
# Specification of one SVR5 account, and facts about the SVR5 database
-/

namespace Svr.Spec5
open DB5

/-- One entry against one account, which is empty or holds 32 bytes. -/
def astep (hmac : Bytes → Bytes → Bytes) (o : Option Bytes) (l : Log) : Option Bytes × Resp :=
  match l.req with
  | .upload d => (some d, .upload .ok)
  | .download p => match o with
    | none => (none, .download .missing [])
    | some d => (some d, .download .ok (hmac d p))
  | .purge => (none, .purge)
  | .unset => (o, .none)

end Svr.Spec5

namespace Svr.DB5
open Spec5

structure RowOK (P : Prims5) (id : Bytes) (r : Row) : Prop where
  id_len : id.length = 16
  data_len : r.data.length = 32
  leaf_eq : r.leaf = hashFrom (P.sip16 (rowRaw id r))

def Inv (P : Prims5) (db : DB) : Prop := ∀ id r, db.find id = some r → RowOK P id r

theorem inv_empty (P : Prims5) : Inv P empty := by intro id r h; simp [empty] at h

theorem inv_insert {P : Prims5} {db : DB} {id : Bytes} {r : Row} (h : Inv P db) (hr : RowOK P id r) :
    Inv P (db.insert id r) := by
  intro id' r' h'
  rw [OMap.find_insert] at h'
  split at h'
  · rename_i e; subst e; cases h'; exact hr
  · exact h id' r' h'

theorem inv_erase {P : Prims5} {db : DB} {id : Bytes} (h : Inv P db) : Inv P (db.erase id) := by
  intro id' r' h'
  rw [OMap.find_erase] at h'
  split at h'
  · cases h'
  · exact h id' r' h'

theorem inv_mem {P : Prims5} {db : DB} (h : Inv P db) {p : Bytes × Row} (hp : p ∈ db.list) : RowOK P p.1 p.2 :=
  h p.1 p.2 (OMap.mem_list.mp hp)

theorem updateLeaf_ok (P : Prims5) {id : Bytes} {r : Row} (h1 : id.length = 16) (h3 : r.data.length = 32) :
    RowOK P id (updateLeaf P id r) := ⟨h1, h3, rfl⟩

theorem copyData_ok {r : Row} {s : Bytes} (hs : s.length = 32) (hr : r.data.length = 32) :
    copyData r s = .ok { r with data := s } := by
  unfold copyData
  rw [if_neg (by omega)]
  have : r.data.drop s.length = [] := List.drop_eq_nil_of_le (by omega)
  rw [this, List.append_nil]

theorem newRow_len : newRow.data.length = 32 := by decide

theorem validate_iff (log : Log) : validate log = none ↔
    log.id.length = 16 ∧ match log.req with
      | .upload d => d.length = 32
      | .download p => p.length = 32
      | .purge => True
      | .unset => False := by
  obtain ⟨id, req⟩ := log
  unfold validate
  constructor
  · intro h
    obtain ⟨h0, h⟩ := ite_some_eq_none h
    refine ⟨not_not.mp h0, ?_⟩
    cases req with
    | upload d => exact not_not.mp (ite_some_eq_none h).1
    | download p => exact not_not.mp (ite_some_eq_none h).1
    | purge => trivial
    | unset => simp at h
  · rintro ⟨h0, h⟩
    rw [if_neg (fun x => x h0)]
    cases req with
    | upload d => simp only; rw [if_neg (fun x => x h)]
    | download d => simp only; rw [if_neg (fun x => x h)]
    | purge => rfl
    | unset => exact h.elim

def look (db : DB) (id : Bytes) : Option Bytes := (db.find id).map Row.data

def intact : Bytes → Bool := fun _ => true

theorem verify_ok {P : Prims5} {id : Bytes} {r : Row} (h : RowOK P id r) (path : Bytes → Bool) :
    verify P path id r = path id := by
  unfold verify
  have : ctEq (hashFrom (P.sip16 (rowRaw id r))) r.leaf = true := by rw [ctEq_iff]; exact h.leaf_eq.symm
  rw [this]; rfl

/-- The row `Upload` starts from. -/
def startRow : Option Row → Row
  | none => newRow
  | some r => r

theorem upload_eq (P : Prims5) {db : DB} {id d : Bytes} (hd : d.length = 32)
    (hr : ∀ r, db.find id = some r → r.data.length = 32) :
    ∃ r, upload P db id d = .ok (db.insert id (updateLeaf P id r), .upload .ok) ∧ r.data = d := by
  unfold upload
  cases hf : db.find id with
  | none => exact ⟨_, by simp only [copyData_ok hd newRow_len, Out.bind_ok, Out.pure_eq]; rfl, rfl⟩
  | some r => exact ⟨_, by simp only [copyData_ok hd (hr r hf), Out.bind_ok, Out.pure_eq]; rfl, rfl⟩

/-- One validated entry: no abort, invariant, and the answer and effect of the account specification,
except that a failed integrity walk answers MERKLE_FAILURE. -/
theorem run_step (P : Prims5) (path : Bytes → Bool) (db : DB) (l : Log) (hi : Inv P db) (hv : validate l = none) :
    ∃ db' r, run P path db l = .ok (db', r) ∧ Inv P db' ∧
      look db' l.id = (astep P.hmac (look db l.id) l).1 ∧ (∀ k, k ≠ l.id → look db' k = look db k) ∧
      (r = (astep P.hmac (look db l.id) l).2 ∨ (path l.id = false ∧ r = .download .merkleFailure [])) := by
  have hv' := (validate_iff l).mp hv
  obtain ⟨id, req⟩ := l
  unfold run
  simp only at hv'
  simp only [hv, beq_self_eq_true, Out.check_true, Out.bind_ok, hv'.1]
  cases req with
  | upload d =>
    obtain ⟨hid, hd⟩ := hv'
    obtain ⟨r, h1, h2⟩ := upload_eq P (db := db) (id := id) hd (fun r hr => (hi id r hr).data_len)
    refine ⟨_, _, h1, inv_insert hi (updateLeaf_ok P hid (by rw [h2]; exact hd)), ?_, ?_, Or.inl rfl⟩
    · simp [look, astep, updateLeaf, h2]
    · intro k hk; simp [look, OMap.find_insert_ne _ _ (Ne.symm hk)]
  | download p =>
    simp only [download]
    cases hf : db.find id with
    | none => exact ⟨_, _, rfl, hi, by simp [look, astep, hf], fun _ _ => rfl, Or.inl (by simp [look, astep, hf])⟩
    | some r =>
      simp only [verify_ok (hi id r hf)]
      cases hp : path id with
      | false => exact ⟨_, _, rfl, hi, by simp [look, astep, hf], fun _ _ => rfl, Or.inr ⟨rfl, rfl⟩⟩
      | true => exact ⟨_, _, rfl, hi, by simp [look, astep, hf], fun _ _ => rfl, Or.inl (by simp [look, astep, hf])⟩
  | purge =>
    simp only [purge]
    cases hf : db.find id with
    | none => exact ⟨_, _, rfl, hi, by simp [look, astep, hf], fun _ _ => rfl, Or.inl rfl⟩
    | some r =>
      refine ⟨_, _, rfl, inv_erase hi, by simp [look, astep], ?_, Or.inl rfl⟩
      intro k hk; simp [look, OMap.find_erase_ne _ (Ne.symm hk)]
  | unset => exact absurd hv'.2 (by simp)

theorem run_inv (P : Prims5) (path : Bytes → Bool) {db : DB} (l : Log) (hi : Inv P db) (hv : validate l = none) :
    ∃ db' r, run P path db l = .ok (db', r) ∧ Inv P db' := by
  obtain ⟨db', r, h1, h2, _⟩ := run_step P path db l hi hv
  exact ⟨db', r, h1, h2⟩

def sim (P : Prims5) : Sim DB Log Bytes Resp :=
  ⟨run P intact, (·.id), fun l => validate l = none, Inv P, look, astep P.hmac, by
    intro s l hi hv
    obtain ⟨db', r, h1, h2, h3, h4, h5⟩ := run_step P intact s l hi hv
    have : r = (astep P.hmac (look s l.id) l).2 := by
      rcases h5 with h5 | ⟨h5, _⟩
      · exact h5
      · simp [intact] at h5
    exact ⟨db', by rw [← this]; exact h1, h2, h3, h4⟩⟩

/-! ### Locality -/

theorem run_local (P : Prims5) (path : Bytes → Bool) (log : Log) :
    ∃ f : Option Row → Out (Option Row × Resp), ∀ db : DB,
      run P path db log = (do let (o, r) ← f (db.find log.id); pure (db.set log.id o, r)) := by
  by_cases hv : validate log = none
  swap
  · refine ⟨fun _ => .abort, fun db => ?_⟩
    have : (validate log == none) = false := beq_false_of_ne hv
    simp [run, this]
  have hid := ((validate_iff log).mp hv).1
  refine ⟨fun o => do
    let (db', r) ← run P path ((OMap.empty : DB).set log.id o) log
    pure (db'.find log.id, r), ?_⟩
  intro db
  obtain ⟨id, req⟩ := log
  unfold run
  simp only at hid
  simp only [hv, beq_self_eq_true, Out.check_true, Out.bind_ok, hid]
  cases req with
  | upload d =>
    simp only [upload, OMap.find_set_self]
    generalize hg : copyData _ d = z
    cases z with
    | ok r => simp [OMap.set]
    | abort => rfl
    | ub => rfl
  | download p =>
    simp only [download, OMap.find_set_self]
    cases hf : db.find id with
    | none => simp [OMap.set, OMap.erase_of_find_none hf]
    | some row =>
      simp only
      cases hve : verify P path id row with
      | false => simp [OMap.set, OMap.insert_of_find hf]
      | true => simp [OMap.set, OMap.insert_of_find hf]
  | purge =>
    simp only [purge, OMap.find_set_self]
    cases hf : db.find id with
    | none => simp [OMap.set, OMap.erase_of_find_none hf]
    | some row => simp [OMap.set]
  | unset => simp [OMap.set_find]

/-! ### Loading rows -/

def rowOfPB (P : Prims5) (x : RowPB) : Row := updateLeaf P x.id ⟨x.data, zeros 8⟩

structure PBOK (x : RowPB) : Prop where
  id_len : x.id.length = 16
  data_len : x.data.length = 32

theorem rowOfPB_ok (P : Prims5) {x : RowPB} (h : PBOK x) : RowOK P x.id (rowOfPB P x) :=
  updateLeaf_ok P h.id_len h.data_len

theorem loadRow_cases (P : Prims5) (db : DB) (o : Option RowPB) :
    (∃ e, loadRow P db o = .ok (db, some e) ∧
      ∀ x, o = some x → PBOK x → ¬ ∀ p ∈ db.list, p.1 < x.id) ∨
    (∃ x, o = some x ∧ PBOK x ∧ (∀ p ∈ db.list, p.1 < x.id) ∧
      loadRow P db o = .ok (db.insert x.id (rowOfPB P x), none)) := by
  cases o with
  | none => exact Or.inl ⟨_, rfl, by simp⟩
  | some x =>
    unfold loadRow
    simp only
    by_cases h1 : x.data.length = 32
    swap
    · rw [if_pos h1]
      exact Or.inl ⟨_, rfl, fun y hy hok => by cases hy; exact absurd hok.data_len h1⟩
    rw [if_neg (fun h => h h1)]
    by_cases h2 : x.id.length = 16
    swap
    · rw [if_pos h2]
      exact Or.inl ⟨_, rfl, fun y hy hok => by cases hy; exact absurd hok.id_len h2⟩
    rw [if_neg (fun h => h h2)]
    by_cases ho : db.outOfOrder x.id = true
    · rw [if_pos ho]
      refine Or.inl ⟨_, rfl, ?_⟩
      intro y hy hok hlt
      cases hy
      rw [OMap.outOfOrder_false.mpr hlt] at ho; simp at ho
    · rw [if_neg ho, copyData_ok h1 newRow_len]
      exact Or.inr ⟨x, rfl, ⟨h2, h1⟩, OMap.outOfOrder_false.mp (by simpa using ho), rfl⟩

theorem loadRow_step (P : Prims5) (db : DB) (o : Option RowPB) (db' : DB) (e : Option Err)
    (h : loadRow P db o = .ok (db', e)) :
    (e ≠ none ∧ db' = db) ∨
    (e = none ∧ ∃ x k v, o = some x ∧ (PBOK x ∧ k = x.id ∧ v = rowOfPB P x) ∧ db'.list = db.list ++ [(k, v)]) := by
  rcases loadRow_cases P db o with ⟨e', h', _⟩ | ⟨x, rfl, hok, hlt, h'⟩
  · rw [h'] at h
    simp only [Out.ok.injEq, Prod.mk.injEq] at h
    obtain ⟨rfl, rfl⟩ := h
    exact Or.inl ⟨by simp, rfl⟩
  · rw [h'] at h
    simp only [Out.ok.injEq, Prod.mk.injEq] at h
    obtain ⟨rfl, rfl⟩ := h
    exact Or.inr ⟨rfl, x, x.id, rowOfPB P x, rfl, ⟨hok, rfl, rfl⟩, OMap.insert_list_of_lt _ _ _ hlt⟩

theorem loadLoop_inv (P : Prims5) (rows : List (Option RowPB)) (db : DB) (h : Inv P db) :
    ∃ db' e, loadLoopG (loadRow P) db rows = .ok (db', e) ∧ Inv P db' := by
  induction rows generalizing db with
  | nil => exact ⟨db, none, rfl, h⟩
  | cons o rows ih =>
    rcases loadRow_cases P db o with ⟨e', h', _⟩ | ⟨x, rfl, hok, hlt, h'⟩
    · exact ⟨db, some e', by simp [loadLoopG, h'], h⟩
    · obtain ⟨db2, e2, h2, hi2⟩ := ih _ (inv_insert h (rowOfPB_ok P hok))
      exact ⟨db2, e2, by simp [loadLoopG, h', h2], hi2⟩

theorem loadRows_inv (P : Prims5) (rows : List (Option RowPB)) (db : DB) (h : Inv P db) (hr : rows ≠ []) :
    ∃ db' e, loadRows P db rows = .ok (db', e) ∧ Inv P db' := by
  obtain ⟨db', e, h1, h2⟩ := loadLoop_inv P rows db h
  unfold loadRows
  have : (rows.length != 0) = true := by simpa using hr
  simp only [this, Out.check_true, Out.bind_ok, h1]
  cases e with
  | some e => exact ⟨db', _, rfl, h2⟩
  | none =>
    simp only
    split <;> exact ⟨db', _, rfl, h2⟩

/-! ### Streaming -/

theorem rowToPB_ok {P : Prims5} {id : Bytes} {r : Row} (h : RowOK P id r) : PBOK (rowToPB id r) :=
  ⟨h.id_len, h.data_len⟩

theorem rowOfPB_toPB {P : Prims5} {id : Bytes} {r : Row} (h : RowOK P id r) : rowOfPB P (rowToPB id r) = r := by
  have hl := h.leaf_eq
  obtain ⟨d, leaf⟩ := r
  exact congrArg (Row.mk d) hl.symm

theorem load_emitted {P : Prims5} {db : DB} {id : Bytes} {r : Row} (h : RowOK P id r)
    (hlt : ∀ p ∈ db.list, p.1 < id) :
    loadRow P db (some (rowToPB id r)) = .ok (db.insert id r, none) := by
  rcases loadRow_cases P db (some (rowToPB id r)) with ⟨e, _, hn⟩ | ⟨x, hx, hok, _, h'⟩
  · exact absurd hlt (hn _ rfl (rowToPB_ok h))
  · cases hx
    rw [h', rowOfPB_toPB h]; rfl

theorem lastId_map (c : List (Bytes × Row)) :
    lastId ((c.map (fun p => rowToPB p.1 p.2)).map some) = lastKeyOf c := by
  rcases List.eq_nil_or_concat c with rfl | ⟨l, ⟨k, v⟩, rfl⟩
  · rfl
  · simp [lastId, lastKeyOf, rowToPB]

theorem loadRows_emitted {P : Prims5} {m1 m2 : DB} {c : List (Bytes × Row)} (h : m2.list = m1.list ++ c)
    (hc : c ≠ []) (hg : ∀ p ∈ c, RowOK P p.1 p.2) :
    loadRows P m1 ((c.map (fun p => rowToPB p.1 p.2)).map some) = .ok (m2, .ok (lastKeyOf c)) := by
  have hl := loadLoopG_ok (loadRow P) id rowToPB (RowOK P)
    (fun m k v hkv hlt => load_emitted hkv hlt) c m1 m2 h hg
  unfold loadRows
  simp only [id] at hl
  rw [hl]
  have : (((c.map (fun p => rowToPB p.1 p.2)).map some).length != 0) = true := by simpa using hc
  rw [this]
  simp only [Out.check_true, Out.bind_ok]
  rw [if_neg (by simp [OMap.size, h]), lastId_map]
  rfl

theorem rowsAsProtos_ok {P : Prims5} {db : DB} (h : Inv P db) (l1 l2 : List (Bytes × Row)) (n : Nat)
    (hs : db.list = l1 ++ l2) :
    rowsAsProtos db (lastKeyOf l1) n =
      .ok (lastKeyOf ((rowsAfter db (lastKeyOf l1)).take n),
        ((rowsAfter db (lastKeyOf l1)).take n).map (fun p => rowToPB p.1 p.2)) := by
  unfold rowsAsProtos rowsAfter
  by_cases hc : (lastKeyOf l1).isEmpty = true
  · rw [if_pos hc, if_pos hc]
  · rw [if_neg hc, if_neg hc]
    have hlen : (lastKeyOf l1).length = 16 := by
      rcases List.eq_nil_or_concat l1 with rfl | ⟨l, ⟨k, v⟩, rfl⟩
      · simp [lastKeyOf] at hc
      · have : lastKeyOf (l.concat (k, v)) = k := by simp [lastKeyOf]
        rw [this]
        exact (h k v (OMap.mem_list.mp (by rw [hs]; simp))).id_len
    rw [if_neg (fun x => x hlen)]

/-! ### Hashing -/

theorem rowRaw_inj {id id' : Bytes} {r r' : Row} (hi : id.length = 16) (hi' : id'.length = 16)
    (h : rowRaw id r = rowRaw id' r') : id = id' ∧ r.data = r'.data := by
  unfold rowRaw at h
  exact List.append_inj h (by rw [hi, hi'])

theorem row_ext {P : Prims5} {id : Bytes} {r r' : Row} (h : RowOK P id r) (h' : RowOK P id r')
    (hr : rowRaw id r = rowRaw id r') : r = r' := by
  obtain ⟨_, e1⟩ := rowRaw_inj h.id_len h'.id_len hr
  have e7 : r.leaf = r'.leaf := by rw [h.leaf_eq, h'.leaf_eq, hr]
  obtain ⟨d, l⟩ := r
  obtain ⟨d', l'⟩ := r'
  simp only at e1 e7
  rw [e1, e7]

theorem rows_eq_of_map {P : Prims5} : ∀ (l1 l2 : List (Bytes × Row)),
    (∀ p ∈ l1, RowOK P p.1 p.2) → (∀ p ∈ l2, RowOK P p.1 p.2) →
    (∀ p ∈ l1, ∀ q ∈ l2, P.sip16 (rowRaw p.1 p.2) = P.sip16 (rowRaw q.1 q.2) → rowRaw p.1 p.2 = rowRaw q.1 q.2) →
    l1.map (fun p => P.sip16 (rowRaw p.1 p.2)) = l2.map (fun p => P.sip16 (rowRaw p.1 p.2)) → l1 = l2
  | [], [], _, _, _, _ => rfl
  | [], q :: l2, _, _, _, h => by simp at h
  | p :: l1, [], _, _, _, h => by simp at h
  | (k, r) :: l1, (k', r') :: l2, h1, h2, hc, h => by
      simp only [List.map_cons, List.cons.injEq] at h
      have g1 := h1 (k, r) List.mem_cons_self
      have g2 := h2 (k', r') List.mem_cons_self
      have hr := hc (k, r) List.mem_cons_self (k', r') List.mem_cons_self h.1
      have hk : k = k' := (rowRaw_inj g1.id_len g2.id_len hr).1
      subst hk
      have := row_ext g1 g2 hr
      subst this
      rw [rows_eq_of_map l1 l2 (fun p hp => h1 p (List.mem_cons_of_mem _ hp))
        (fun p hp => h2 p (List.mem_cons_of_mem _ hp))
        (fun p hp q hq => hc p (List.mem_cons_of_mem _ hp) q (List.mem_cons_of_mem _ hq)) h.2]

/-! ### Histories with row loads -/

inductive Ev where
  | entry (path : Bytes → Bool) (log : Log)
  | load (rows : List (Option RowPB))

def Ev.ok : Ev → Prop
  | .entry _ l => validate l = none
  | .load rows => rows ≠ []

def stepEv (P : Prims5) (db : DB) : Ev → Out DB
  | .entry path l => do let (db', _) ← run P path db l; pure db'
  | .load rows => do let (db', _) ← loadRows P db rows; pure db'

def runEvs (P : Prims5) : DB → List Ev → Out DB
  | db, [] => .ok db
  | db, e :: es => do let db' ← stepEv P db e; runEvs P db' es

theorem runEvs_inv (P : Prims5) (es : List Ev) (db : DB) (h : Inv P db) (hok : ∀ e ∈ es, e.ok) :
    ∃ db', runEvs P db es = .ok db' ∧ Inv P db' := by
  induction es generalizing db with
  | nil => exact ⟨db, rfl, h⟩
  | cons e es ih =>
    have he := hok e List.mem_cons_self
    have hes := fun x hx => hok x (List.mem_cons_of_mem _ hx)
    cases e with
    | entry path l =>
      obtain ⟨db1, r, h1, h2⟩ := run_inv P path l h he
      obtain ⟨db2, h3, h4⟩ := ih db1 h2 hes
      exact ⟨db2, by simp [runEvs, stepEv, h1, h3], h4⟩
    | load rows =>
      obtain ⟨db1, r, h1, h2⟩ := loadRows_inv P rows db h he
      obtain ⟨db2, h3, h4⟩ := ih db1 h2 hes
      exact ⟨db2, by simp [runEvs, stepEv, h1, h3], h4⟩

/-- Reachable databases: from the empty one by validated entries and any non-empty row batches. -/
def Reach (P : Prims5) (db : DB) : Prop := ∃ es, (∀ e ∈ es, Ev.ok e) ∧ runEvs P empty es = .ok db

theorem reach_inv {P : Prims5} {db : DB} (h : Reach P db) : Inv P db := by
  obtain ⟨es, hok, he⟩ := h
  obtain ⟨db', h1, h2⟩ := runEvs_inv P es empty (inv_empty P) hok
  rw [he] at h1; cases h1; exact h2

end Svr.DB5
