import Verif.WipeLemmas

/-!
# One event of a database and the memory of its row objects
-/

namespace Svr.Wipe

section
variable {V : Type} (f : V → List Bytes)

theorem view_insert (db : OMap Bytes V) (id : Bytes) (r : V) :
    (fun k => ((db.insert id r).find k).map f) = upd (fun k => (db.find k).map f) id (some (f r)) := by
  funext k
  simp only [OMap.find_insert, upd]
  by_cases e : id = k
  · subst e; simp
  · simp [e, Ne.symm e]

theorem view_erase (db : OMap Bytes V) (id : Bytes) :
    (fun k => ((db.erase id).find k).map f) = upd (fun k => (db.find k).map f) id none := by
  funext k
  simp only [OMap.find_erase, upd]
  by_cases e : id = k
  · subst e; simp
  · simp [e, Ne.symm e]

theorem view_keep (db : OMap Bytes V) {id : Bytes} {r0 r : V} (h0 : db.find id = some r0) (hr : f r = f r0) :
    (fun k => ((db.insert id r).find k).map f) = (fun k => (db.find k).map f) := by
  funext k
  simp only [OMap.find_insert]
  by_cases e : id = k
  · subst e; simp [h0, hr]
  · simp [e]

theorem find_none_of_order {db : OMap Bytes V} {k : Bytes} (h : db.outOfOrder k = false) : db.find k = none := by
  rw [OMap.outOfOrder_false] at h
  cases hf : db.find k with
  | none => rfl
  | some v => exact absurd (h _ (OMap.mem_list.mpr hf)) (lt_irrefl _)

theorem view_drop (db : OMap Bytes V) (k : Bytes) (h : k ∉ db.list.map Prod.fst) : none = (db.find k).map f := by
  cases hf : db.find k with
  | none => rfl
  | some v => exact absurd (List.mem_map_of_mem (OMap.mem_list.mpr hf)) h
end

theorem Where.Free.ne {K : Type} {w : Where} {m : Mem K} (h : w.Free m) :
    w.a ≠ w.a' ∧ w.a ≠ w.t ∧ w.a ≠ w.t' ∧ w.a' ≠ w.t ∧ w.a' ≠ w.t' ∧ w.t ≠ w.t' := by
  have := h.1
  simp only [List.nodup_cons, List.mem_cons, not_or, List.not_mem_nil] at this
  tauto

namespace S2
open Svr.DB2

def view (db : DB) : Bytes → Option (List Bytes) := fun k => (db.find k).map fields

theorem updateLeaf_fields {P : Prims} {id : Bytes} {r r' : Row} (h : updateLeaf P id r = .ok r') :
    fields r' = fields r := by
  unfold updateLeaf at h
  obtain ⟨x, _, h⟩ := Out.bind_eq_ok.mp h
  cases h; rfl

theorem run_inv {b : Prop} {kept : Bool} {m : Mem Bytes} {P : Prims} {path : Bytes → Bool} {db db' : DB} {log : Log}
    {r : Resp} {w : Where} (hk : b → kept = true) (h : run P path db log = .ok (db', r)) (hw : w.Free m)
    (hi : Inv b m (view db) []) : Inv b (acts (fun _ => row2) kept m (runActs P path db log w)) (view db') [] := by
  unfold run at h
  obtain ⟨_, _, h⟩ := Out.bind_eq_ok.mp h
  obtain ⟨_, _, h⟩ := Out.bind_eq_ok.mp h
  have her : Inv b (acts (fun _ => row2) kept m [.erase log.id true]) (upd (view db) log.id none) [] :=
    hi.erase (C := fun _ => row2) (kept := kept) (k := log.id) (s := true)
      (fun hb v _ => by rw [hk hb]; exact wiped_zeroOut v)
  unfold runActs
  cases hq : log.req with
  | backup data pin n =>
    rw [hq] at h
    simp only [backup, Row.clear] at h
    obtain ⟨d, hd, h⟩ := Out.bind_eq_ok.mp h
    obtain ⟨p, hp, h⟩ := Out.bind_eq_ok.mp h
    obtain ⟨r3, h3, h⟩ := Out.bind_eq_ok.mp h
    cases h
    simp only [hd, hp]
    have e := updateLeaf_fields h3
    have := hi.put (C := fun _ => row2) (kept := kept) (k := log.id) (a := w.a) (found := db.find log.id) [d, p]
      (by simp [view]) hw.2.1 (by simp)
    unfold view
    rw [view_insert, e]
    exact this
  | restore pin =>
    rw [hq] at h
    simp only [restore] at h
    cases hf : db.find log.id with
    | none => rw [hf] at h; cases h; exact hi
    | some row =>
      rw [hf] at h
      simp only at h ⊢
      by_cases hs : row.state ≠ AVAILABLE
      · rw [if_pos hs] at h ⊢; cases h; exact hi
      · rw [if_neg hs] at h ⊢
        obtain ⟨ok, hv, h⟩ := Out.bind_eq_ok.mp h
        cases ok with
        | false =>
          simp only [Bool.not_false, if_true] at h
          cases h
          rw [if_neg (by rw [hv]; simp)]; exact hi
        | true =>
          simp only [Bool.not_true, Bool.false_eq_true, if_false] at h
          by_cases hc : ctEq pin row.pin = true
          · rw [if_pos hc] at h; cases h
            rw [if_neg (by simp [hc])]; exact hi
          · rw [if_neg hc] at h
            by_cases ht : row.tries - 1 = 0
            · rw [if_pos ht] at h; cases h
              rw [if_pos ⟨hv, Bool.eq_false_iff.mpr hc, ht⟩]
              unfold view; rw [view_erase]; exact her
            · rw [if_neg ht] at h
              obtain ⟨r3, h3, h⟩ := Out.bind_eq_ok.mp h
              cases h
              rw [if_neg (fun h => ht h.2.2)]
              have e := updateLeaf_fields h3
              unfold view
              rw [view_keep fields db hf e]; exact hi
  | delete =>
    rw [hq] at h
    simp only [delete] at h
    cases hf : db.find log.id with
    | none => rw [hf] at h; cases h; exact hi
    | some row =>
      rw [hf] at h
      cases h
      unfold view; rw [view_erase]; exact her
  | expose data =>
    rw [hq] at h
    simp only [expose] at h
    cases hf : db.find log.id with
    | none => rw [hf] at h; cases h; exact hi
    | some row =>
      rw [hf] at h
      simp only at h
      obtain ⟨ok, hv, h⟩ := Out.bind_eq_ok.mp h
      by_cases h1 : (!ok) = true
      · rw [if_pos h1] at h; cases h; exact hi
      · rw [if_neg h1] at h
        split at h
        · cases h; exact hi
        · split at h
          · obtain ⟨r3, h3, h⟩ := Out.bind_eq_ok.mp h
            cases h
            have e := updateLeaf_fields h3
            unfold view
            rw [view_keep fields db hf e]; exact hi
          · cases h; exact hi
  | tries =>
    rw [hq] at h
    simp only [triesReq] at h
    cases hf : db.find log.id with
    | none => rw [hf] at h; cases h; exact hi
    | some row => rw [hf] at h; cases h; exact hi
  | unset => rw [hq] at h; cases h; exact hi

theorem load_inv {b : Prop} {kept : Bool} {m : Mem Bytes} {P : Prims} {db db' : DB} {o : Option RowPB}
    {r : Option Err} {w : Where} (hb : ¬ b) (h : loadRow P db o = .ok (db', r)) (hw : w.Free m)
    (hi : Inv b m (view db) []) : Inv b (acts (fun _ => row2) kept m (loadRowActs db o w)) (view db') [] := by
  unfold loadRow at h
  unfold loadRowActs
  cases o with
  | none => cases h; exact hi
  | some x =>
    simp only at h ⊢
    by_cases h1 : x.tries.toNat > MAX_ALLOWED_MAX_TRIES ∨ x.tries.toNat = 0 ∨ x.pin.length ≠ PIN_SIZE ∨
       x.data.length < MIN_DATA_SIZE ∨ x.data.length > MAX_DATA_SIZE
    · rw [if_pos h1] at h ⊢; cases h; exact hi
    · rw [if_neg h1] at h ⊢
      unfold backupIDFromString at h
      by_cases h2 : x.id.length ≠ BACKUP_ID_SIZE
      · rw [if_pos h2] at h ⊢; cases h; exact hi
      · rw [if_neg h2] at h ⊢
        simp only at h
        cases h3 : db.outOfOrder x.id with
        | true => rw [h3] at h; cases h; exact hi
        | false =>
          rw [h3] at h
          simp only [Bool.false_eq_true, if_false] at h ⊢
          obtain ⟨p, hp, h⟩ := Out.bind_eq_ok.mp h
          obtain ⟨d, hd, h⟩ := Out.bind_eq_ok.mp h
          obtain ⟨r3, h4, h⟩ := Out.bind_eq_ok.mp h
          cases h
          simp only [not_or, not_not] at h1
          have e := updateLeaf_fields h4
          have ep : p = x.pin := by
            unfold copyInto at hp
            rw [if_neg (by rw [h1.2.2.1]; simp)] at hp
            cases hp
            rw [h1.2.2.1]; simp [newRow, zeros]
          have ed : d = padTo MAX_DATA_SIZE x.data := by
            unfold copyInto at hd
            rw [if_neg h1.2.2.2.2] at hd
            cases hd
            simp [newRow, zeros, padTo]
          unfold view
          rw [view_insert, e]
          simp only [fields]
          rw [ep, ed]
          exact hi.load _ (by simp [view, find_none_of_order h3]) hw.2.2.2.1 hw.2.1 hw.ne.2.1 (fun hb' => absurd hb' hb)

theorem drop_inv {b : Prop} {kept : Bool} {m : Mem Bytes} {db : DB} (hb : ¬ b)
    (hi : Inv b m (view db) []) :
    Inv b (acts (fun _ => row2) kept m (db.list.map (fun p => .erase p.1 false))) (view empty) [] := by
  have := hi.eraseAll (C := fun _ => row2) (kept := kept) (db.list.map Prod.fst) (view' := fun _ => none)
    (fun hb' => absurd hb' hb) (fun _ _ => rfl) (view_drop fields db)
  rw [List.map_map] at this
  exact this

end S2

namespace S3
open Svr.DB3

def view (db : DB) : Bytes → Option (List Bytes) := fun k => (db.find k).map fields

theorem run_inv {b : Prop} {kept : Bool} {m : Mem Bytes} {P : Prims3} {path : Bytes → Bool} {db db' : DB} {log : Log}
    {r : Resp} {w : Where} (hb : ¬ b) (h : run P path db log = .ok (db', r)) (hw : w.Free m)
    (hi : Inv b m (view db) []) : Inv b (acts (fun _ => row3) kept m (runActs P path db log w)) (view db') [] := by
  unfold run at h
  obtain ⟨_, _, h⟩ := Out.bind_eq_ok.mp h
  unfold runActs
  cases hid : strToArr BACKUP_ID_SIZE log.id with
  | none => rw [hid] at h; cases h
  | some id =>
    rw [hid] at h
    simp only at h ⊢
    have her : Inv b (acts (fun _ => row3) kept m [.erase id false]) (upd (view db) id none) [] :=
      hi.erase (C := fun _ => row3) (kept := kept) (k := id) (s := false) (fun hb' => absurd hb' hb)
    cases hq : log.req with
    | create n bl =>
      rw [hq] at h
      simp only [create] at h ⊢
      cases h1 : strToArr ELEMENT_SIZE bl with
      | none => rw [h1] at h; cases h; exact hi
      | some elt =>
        rw [h1] at h
        cases h2 : strToArr SCALAR_SIZE log.privkey with
        | none => rw [h2] at h; cases h; exact hi
        | some priv =>
          rw [h2] at h
          simp only at h ⊢
          cases h3 : P.mul priv elt with
          | none => rw [h3] at h; cases h; exact hi
          | some ev =>
            rw [h3] at h
            cases h
            rw [if_pos (by simp)]
            unfold view
            rw [view_insert]
            exact hi.put (C := fun _ => row3) (kept := kept) (k := id) (a := w.a) (found := db.find id) [priv]
              (by simp [view]) hw.2.1 (by simp)
    | evaluate bl =>
      rw [hq] at h
      simp only [evaluate] at h ⊢
      cases h1 : strToArr ELEMENT_SIZE bl with
      | none => rw [h1] at h; cases h; exact hi
      | some elt =>
        rw [h1] at h
        cases hf : db.find id with
        | none => rw [hf] at h; cases h; exact hi
        | some row =>
          rw [hf] at h
          simp only at h ⊢
          cases hv : verify P path id row with
          | false =>
            rw [hv] at h
            cases h
            rw [if_neg (by simp)]; exact hi
          | true =>
            rw [hv] at h
            simp only [Bool.not_true, Bool.false_eq_true, if_false] at h
            cases h3 : P.mul row.priv elt with
            | none => rw [h3] at h; cases h; rw [if_neg (by simp)]; exact hi
            | some ev =>
              rw [h3] at h
              simp only at h
              by_cases ht : row.tries - 1 = 0
              · rw [if_pos ht] at h; cases h
                rw [if_pos ⟨rfl, rfl, ht⟩]
                unfold view; rw [view_erase]; exact her
              · rw [if_neg ht] at h; cases h
                rw [if_neg (fun h => ht h.2.2)]
                unfold view
                rw [view_keep fields db hf (r := updateLeaf P id { row with tries := row.tries - 1 }) rfl]; exact hi
    | remove =>
      rw [hq] at h
      simp only [remove] at h ⊢
      cases hf : db.find id with
      | none => rw [hf] at h; cases h; exact hi
      | some row => rw [hf] at h; cases h; unfold view; rw [view_erase]; exact her
    | query =>
      rw [hq] at h
      simp only [query] at h ⊢
      cases hf : db.find id with
      | none => rw [hf] at h; cases h; exact hi
      | some row => rw [hf] at h; cases h; exact hi
    | unset => rw [hq] at h; cases h

theorem load_inv {b : Prop} {kept : Bool} {m : Mem Bytes} {P : Prims3} {db db' : DB} {o : Option RowPB}
    {r : Option Err} {w : Where} (hb : ¬ b) (h : loadRow P db o = .ok (db', r)) (hw : w.Free m)
    (hi : Inv b m (view db) []) : Inv b (acts (fun _ => row3) kept m (loadRowActs db o w)) (view db') [] := by
  unfold loadRow at h
  unfold loadRowActs
  cases o with
  | none => cases h; exact hi
  | some x =>
    simp only at h ⊢
    by_cases h1 : x.tries.toNat > MAX_ALLOWED_MAX_TRIES ∨ x.tries.toNat < MIN_ALLOWED_MAX_TRIES
    · rw [if_pos h1] at h ⊢; cases h; exact hi
    · rw [if_neg h1] at h ⊢
      cases h2 : strToArr BACKUP_ID_SIZE x.id with
      | none => rw [h2] at h; cases h; exact hi
      | some key =>
        rw [h2] at h
        simp only at h
        cases h3 : db.outOfOrder key with
        | true =>
          rw [h3] at h; cases h
          cases strToArr SCALAR_SIZE x.priv <;> simp only [h3, if_true] <;> exact hi
        | false =>
          rw [h3] at h
          simp only [Bool.false_eq_true, if_false] at h ⊢
          cases h4 : strToArr SCALAR_SIZE x.priv with
          | none => rw [h4] at h; cases h; exact hi
          | some priv =>
            rw [h4] at h
            cases h
            simp only [h3, Bool.false_eq_true, if_false]
            unfold view
            rw [view_insert]
            exact hi.load _ (by simp [view, find_none_of_order h3]) hw.2.2.2.1 hw.2.1 hw.ne.2.1 (fun hb' => absurd hb' hb)

theorem drop_inv {b : Prop} {kept : Bool} {m : Mem Bytes} {db : DB} (hb : ¬ b)
    (hi : Inv b m (view db) []) :
    Inv b (acts (fun _ => row3) kept m (db.list.map (fun p => .erase p.1 false))) (view OMap.empty) [] := by
  have := hi.eraseAll (C := fun _ => row3) (kept := kept) (db.list.map Prod.fst) (view' := fun _ => none)
    (fun hb' => absurd hb' hb) (fun _ _ => rfl) (view_drop fields db)
  rw [List.map_map] at this
  exact this

end S3

namespace S5
open Svr.DB5

def view (db : DB) : Bytes → Option (List Bytes) := fun k => (db.find k).map fields

theorem wiped5 (x : Bytes) : Wiped (clear5 [x]) := by
  intro f hf b hb
  simp only [clear5, List.mem_singleton] at hf
  subst hf
  exact List.eq_of_mem_replicate hb

theorem view_form {db : DB} {k : Bytes} {v : List Bytes} (h : view db k = some v) : ∃ x, v = [x] := by
  obtain ⟨r, _, rfl⟩ := Option.map_eq_some_iff.mp h
  exact ⟨_, rfl⟩

theorem run_inv {b : Prop} {kept : Bool} {m : Mem Bytes} {P : Prims5} {path : Bytes → Bool} {db db' : DB} {log : Log}
    {r : Resp} {w : Where} (h : run P path db log = .ok (db', r)) (hw : w.Free m)
    (hi : Inv b m (view db) []) : Inv b (acts (fun _ => row5) kept m (runActs db log w)) (view db') [] := by
  unfold run at h
  obtain ⟨_, _, h⟩ := Out.bind_eq_ok.mp h
  obtain ⟨_, _, h⟩ := Out.bind_eq_ok.mp h
  unfold runActs
  cases hq : log.req with
  | upload d =>
    rw [hq] at h
    simp only [upload] at h
    obtain ⟨r1, h1, h⟩ := Out.bind_eq_ok.mp h
    cases h
    have h2 : copyData ((db.find log.id).getD newRow) d = .ok r1 := by
      cases hf : db.find log.id <;> (rw [hf] at h1; exact h1)
    dsimp only
    rw [h2]
    unfold view
    rw [view_insert]
    exact hi.put (C := fun _ => row5) (kept := kept) (k := log.id) (a := w.a) (found := db.find log.id) [r1.data]
      (by simp [view]) hw.2.1 (by simp)
  | download p =>
    rw [hq] at h
    simp only [download] at h ⊢
    cases hf : db.find log.id with
    | none => rw [hf] at h; cases h; exact hi
    | some row =>
      rw [hf] at h
      simp only at h
      by_cases hv : (!verify P path log.id row) = true
      · rw [if_pos hv] at h; cases h; exact hi
      · rw [if_neg hv] at h; cases h; exact hi
  | purge =>
    rw [hq] at h
    simp only [purge] at h ⊢
    cases hf : db.find log.id with
    | none => rw [hf] at h; cases h; exact hi
    | some row =>
      rw [hf] at h; cases h; unfold view; rw [view_erase]
      exact hi.erase (C := fun _ => row5) (kept := kept) (k := log.id) (s := false) (fun _ v hv => by
        obtain ⟨x, rfl⟩ := view_form hv
        exact wiped5 x)
  | unset => rw [hq] at h; cases h; exact hi

theorem load_inv {b : Prop} {kept : Bool} {m : Mem Bytes} {P : Prims5} {db db' : DB} {o : Option RowPB}
    {r : Option Err} {w : Where} (h : loadRow P db o = .ok (db', r)) (hw : w.Free m)
    (hi : Inv b m (view db) []) : Inv b (acts (fun _ => row5) kept m (loadRowActs db o w)) (view db') [] := by
  unfold loadRow at h
  unfold loadRowActs
  cases o with
  | none => cases h; exact hi
  | some x =>
    simp only at h ⊢
    by_cases h1 : x.data.length ≠ DATA_SIZE
    · rw [if_pos h1] at h ⊢; cases h; exact hi
    · rw [if_neg h1] at h ⊢
      by_cases h2 : x.id.length ≠ BACKUP_ID_SIZE
      · rw [if_pos h2] at h ⊢; cases h; exact hi
      · rw [if_neg h2] at h ⊢
        cases h3 : db.outOfOrder x.id with
        | true => rw [h3] at h; cases h; exact hi
        | false =>
          rw [h3] at h
          simp only [Bool.false_eq_true, if_false] at h ⊢
          obtain ⟨r1, h4, h⟩ := Out.bind_eq_ok.mp h
          cases h
          have e : r1.data = x.data := by
            simp only [not_not] at h1
            unfold copyData at h4
            rw [if_neg (by rw [h1]; simp)] at h4
            cases h4
            simp [newRow, zeros, h1]
          unfold view
          rw [view_insert]
          simp only [fields, updateLeaf, e]
          exact hi.load _ (by simp [view, find_none_of_order h3]) hw.2.2.2.1 hw.2.1 hw.ne.2.1 (fun _ => wiped5 _)

theorem drop_inv {b : Prop} {kept : Bool} {m : Mem Bytes} {db : DB}
    (hi : Inv b m (view db) []) :
    Inv b (acts (fun _ => row5) kept m (db.list.map (fun p => .erase p.1 false))) (view empty) [] := by
  have := hi.eraseAll (C := fun _ => row5) (kept := kept) (db.list.map Prod.fst) (view' := fun _ => none)
    (fun _ k _ v hv => by
      obtain ⟨x, rfl⟩ := view_form hv
      exact wiped5 x) (fun _ _ => rfl) (view_drop fields db)
  rw [List.map_map] at this
  exact this

end S5

namespace S4
open Svr.DB4

def view (db : DB) : Key → Option (List Bytes)
  | .row k => (db.rows.find k).map fields
  | .rot k => (db.rot.find k).map rotFields

theorem wiped4 (x y z u : Bytes) : Wiped (clear4 [x, y, z, u]) := by
  intro f hf b hb
  simp only [clear4, List.mem_cons, List.not_mem_nil, or_false] at hf
  rcases hf with rfl | rfl | rfl | rfl <;> exact List.eq_of_mem_replicate hb

theorem wipedRot (x y : Bytes) : Wiped (clearRot [x, y]) := by
  intro f hf b hb
  simp only [clearRot, List.mem_cons, List.not_mem_nil, or_false] at hf
  rcases hf with rfl | rfl <;> exact List.eq_of_mem_replicate hb

theorem wiped_view {db : DB} {k : Key} {v : List Bytes} (h : view db k = some v) : Wiped ((cls k).dtor v) := by
  cases k with
  | row k =>
    obtain ⟨r, _, rfl⟩ := Option.map_eq_some_iff.mp h
    exact wiped4 _ _ _ _
  | rot k =>
    obtain ⟨r, _, rfl⟩ := Option.map_eq_some_iff.mp h
    exact wipedRot _ _

theorem view_row_insert (db : DB) (id : Bytes) (r : Row) :
    view ⟨db.rows.insert id r, db.rot⟩ = upd (view db) (.row id) (some (fields r)) := by
  funext k
  cases k with
  | row k =>
    simp only [view, upd, Key.row.injEq, OMap.find_insert]
    by_cases e : id = k
    · subst e; simp
    · simp [e, Ne.symm e]
  | rot k => simp [view, upd]

theorem view_row_erase (db : DB) (id : Bytes) :
    view ⟨db.rows.erase id, db.rot⟩ = upd (view db) (.row id) none := by
  funext k
  cases k with
  | row k =>
    simp only [view, upd, Key.row.injEq, OMap.find_erase]
    by_cases e : id = k
    · subst e; simp
    · simp [e, Ne.symm e]
  | rot k => simp [view, upd]

theorem view_rot_insert (db : DB) (id : Bytes) (x : Rot) :
    view ⟨db.rows, db.rot.insert id x⟩ = upd (view db) (.rot id) (some (rotFields x)) := by
  funext k
  cases k with
  | rot k =>
    simp only [view, upd, Key.rot.injEq, OMap.find_insert]
    by_cases e : id = k
    · subst e; simp
    · simp [e, Ne.symm e]
  | row k => simp [view, upd]

theorem view_rot_erase (db : DB) (id : Bytes) :
    view ⟨db.rows, db.rot.erase id⟩ = upd (view db) (.rot id) none := by
  funext k
  cases k with
  | rot k =>
    simp only [view, upd, Key.rot.injEq, OMap.find_erase]
    by_cases e : id = k
    · subst e; simp
    · simp [e, Ne.symm e]
  | row k => simp [view, upd]

theorem view_row_keep (db : DB) {id : Bytes} {r0 r : Row} (h0 : db.rows.find id = some r0) (hr : fields r = fields r0) :
    view ⟨db.rows.insert id r, db.rot⟩ = view db := by
  rw [view_row_insert]
  funext k
  simp only [upd]
  split
  · rename_i e; subst e; simp [view, h0, hr]
  · rfl

theorem erase_inv {b : Prop} {kept : Bool} {m : Mem Key} {db : DB} {X : List (Nat × List Bytes)} (k : Key)
    (hi : Inv b m (view db) X) : Inv b (act cls kept m (.erase k false)) (upd (view db) k none) X :=
  hi.erase (C := cls) (kept := kept) (k := k) (s := false) (fun _ _ hv => wiped_view hv)

theorem run_inv {b : Prop} {kept : Bool} {m : Mem Key} {P : Prims4} {path : Bytes → Bool} {db db' : DB} {log : Log}
    {r : Effect} {w : Where} (h : run P path db log = .ok (db', r)) (hw : w.Free m)
    (hi : Inv b m (view db) []) : Inv b (acts cls kept m (runActs P path db log w)) (view db') [] := by
  unfold run at h
  obtain ⟨_, _, h⟩ := Out.bind_eq_ok.mp h
  unfold runActs
  cases hid : strToArr BACKUP_ID_SIZE log.id with
  | none => rw [hid] at h; cases h
  | some id =>
    rw [hid] at h
    simp only at h ⊢
    cases hq : log.req with
    | create n oprf auth enc zero version =>
      rw [hq] at h
      simp only [create] at h ⊢
      by_cases h1 : db.rows.find id = none ∧ n = 0
      · rw [if_pos h1] at h ⊢; cases h; exact hi
      · rw [if_neg h1] at h ⊢
        obtain ⟨_, _, h⟩ := Out.bind_eq_ok.mp h
        obtain ⟨_, _, h⟩ := Out.bind_eq_ok.mp h
        obtain ⟨_, _, h⟩ := Out.bind_eq_ok.mp h
        cases hc : copyOver ((db.rows.find id).getD newRow).enc enc with
        | none => rw [hc] at h; cases h
        | some enc' =>
          rw [hc] at h
          cases h
          dsimp only
          rw [acts_append]
          have h2 := hi.put (C := cls) (kept := kept) (k := .row id) (a := w.a) (found := db.rows.find id)
            [auth, oprf, enc', zero] (by simp [view]) hw.2.1 (by simp)
          have e : upd (view db) (.row id) (some [auth, oprf, enc', zero]) =
              view ⟨db.rows.insert id (updateLeaf P id ⟨auth, oprf, enc', zero, version,
                if n ≠ 0 then n.toUInt8 else ((db.rows.find id).getD newRow).tries,
                ((db.rows.find id).getD newRow).leaf⟩ none), db.rot⟩ := by
            rw [view_row_insert]; rfl
          rw [e] at h2
          have h3 := erase_inv (kept := kept) (.rot id) h2
          rw [← view_rot_erase] at h3
          exact h3
    | restore1 bl =>
      rw [hq] at h
      simp only [restore1] at h ⊢
      cases hf : db.rows.find id with
      | none => rw [hf] at h; cases h; exact hi
      | some row =>
        rw [hf] at h
        simp only at h ⊢
        cases hv : verify P path id row (db.rot.find id) with
        | false => rw [hv] at h; cases h; rw [if_neg (by simp)]; exact hi
        | true =>
          rw [hv] at h
          simp only [Bool.not_true, Bool.false_eq_true, if_false] at h
          by_cases ht : row.tries - 1 = 0
          · rw [if_pos ht] at h
            rw [if_pos ⟨rfl, ht⟩]
            have h2 := erase_inv (kept := kept) (.row id) hi
            rw [← view_row_erase] at h2
            cases hr : db.rot.find id with
            | none =>
              rw [hr] at h
              cases h
              exact h2
            | some x =>
              rw [hr] at h
              cases h
              have h3 := erase_inv (kept := kept) (.rot id) h2
              rw [← view_rot_erase] at h3
              exact h3
          · rw [if_neg ht] at h
            rw [if_neg (fun h => ht h.2)]
            cases h
            rw [view_row_keep db hf (r := updateLeaf P id { row with tries := row.tries - 1 } (db.rot.find id)) rfl]
            exact hi
    | remove =>
      rw [hq] at h
      simp only [remove] at h ⊢
      cases hf : db.rows.find id with
      | none => rw [hf] at h; cases h; exact hi
      | some row =>
        rw [hf] at h; cases h
        have h2 := erase_inv (kept := kept) (.row id) hi
        rw [← view_row_erase] at h2
        have h3 := erase_inv (kept := kept) (.rot id) h2
        rw [← view_rot_erase] at h3
        exact h3
    | query =>
      rw [hq] at h
      simp only [query] at h ⊢
      cases hf : db.rows.find id with
      | none => rw [hf] at h; cases h; exact hi
      | some row => rw [hf] at h; cases h; exact hi
    | rotateStart v od ed =>
      rw [hq] at h
      simp only [rotateStart] at h ⊢
      cases hf : db.rows.find id with
      | none => rw [hf] at h; cases h; exact hi
      | some row =>
        rw [hf] at h
        cases hr : db.rot.find id with
        | some x => rw [hr] at h; cases h; exact hi
        | none =>
          rw [hr] at h
          simp only at h ⊢
          by_cases hv : v = row.version
          · rw [if_pos hv] at h; cases h
            rw [if_neg (fun h => h.1 hv)]; exact hi
          · rw [if_neg hv] at h
            obtain ⟨_, _, h⟩ := Out.bind_eq_ok.mp h
            obtain ⟨_, _, h⟩ := Out.bind_eq_ok.mp h
            by_cases hl : ed.length < 32
            · rw [if_pos hl] at h; cases h
            · rw [if_neg hl] at h
              cases hver : verify P path id row none with
              | false => rw [hver] at h; cases h; rw [if_neg (by simp)]; exact hi
              | true =>
                rw [hver] at h
                cases h
                rw [if_pos ⟨hv, rfl⟩]
                have h2 := hi.load (C := cls) (kept := kept) (k := .rot id) (t := w.t) (a := w.a) [od, ed]
                  (by simp [view, hr]) hw.2.2.2.1 hw.2.1 hw.ne.2.1 (fun _ => by
                    show Wiped (clearRot (clearRot [od, ed]))
                    exact wipedRot _ _)
                have e : view ⟨db.rows.insert id (updateLeaf P id row (some ⟨v, od, ed⟩)), db.rot.insert id ⟨v, od, ed⟩⟩ =
                    upd (view db) (.rot id) (some [od, ed]) := by
                  rw [view_rot_insert ⟨db.rows.insert id (updateLeaf P id row (some ⟨v, od, ed⟩)), db.rot⟩ id ⟨v, od, ed⟩,
                    view_row_keep db hf (r := updateLeaf P id row (some ⟨v, od, ed⟩)) rfl]
                  rfl
                rw [e]; exact h2
    | rotateCommit v =>
      rw [hq] at h
      simp only [rotateCommit] at h ⊢
      cases hf : db.rows.find id with
      | none => rw [hf] at h; cases h; exact hi
      | some row =>
        rw [hf] at h
        cases hr : db.rot.find id with
        | none => rw [hr] at h; cases h; exact hi
        | some x =>
          rw [hr] at h
          simp only at h ⊢
          by_cases hv : x.newVersion = v
          · rw [if_neg (not_not.mpr hv)] at h
            cases hver : verify P path id row (some x) with
            | false => rw [hver] at h; cases h; rw [if_neg (by simp)]; exact hi
            | true =>
              rw [hver] at h
              cases h
              rw [if_pos ⟨hv, rfl⟩]
              have h2 := hi.assign (C := cls) (kept := kept) (k := .row id)
                [row.auth, P.sadd row.oprf x.oprfDelta, xorB row.enc x.encDelta, row.zero] (by simp [view, hf])
              have e : upd (view db) (.row id) (some [row.auth, P.sadd row.oprf x.oprfDelta, xorB row.enc x.encDelta, row.zero]) =
                  view ⟨db.rows.insert id (updateLeaf P id { row with oprf := P.sadd row.oprf x.oprfDelta, enc := xorB row.enc x.encDelta, version := x.newVersion } none), db.rot⟩ := by
                rw [view_row_insert]; rfl
              rw [e] at h2
              have h3 := erase_inv (kept := kept) (.rot id) h2
              rw [← view_rot_erase] at h3
              exact h3
          · rw [if_pos hv] at h; cases h
            rw [if_neg (fun h => hv h.1)]; exact hi
    | rotateRollback v =>
      rw [hq] at h
      simp only [rotateRollback] at h ⊢
      cases hf : db.rows.find id with
      | none => rw [hf] at h; cases h; exact hi
      | some row =>
        rw [hf] at h
        cases hr : db.rot.find id with
        | none => rw [hr] at h; cases h; exact hi
        | some x =>
          rw [hr] at h
          simp only at h ⊢
          by_cases hv : x.newVersion = v
          · rw [if_neg (not_not.mpr hv)] at h
            cases hver : verify P path id row (some x) with
            | false => rw [hver] at h; cases h; rw [if_neg (by simp)]; exact hi
            | true =>
              rw [hver] at h
              cases h
              rw [if_pos ⟨hv, rfl⟩]
              have h3 := erase_inv (kept := kept) (.rot id) hi
              have e : view ⟨db.rows.insert id (updateLeaf P id row none), db.rot.erase id⟩ = upd (view db) (.rot id) none := by
                rw [view_rot_erase ⟨db.rows.insert id (updateLeaf P id row none), db.rot⟩ id,
                  view_row_keep db hf (r := updateLeaf P id row none) rfl]
              rw [e]; exact h3
          · rw [if_pos hv] at h; cases h
            rw [if_neg (fun h => hv h.1)]; exact hi
    | restore2 a1 a2 a3 => rw [hq] at h; cases h
    | unset => rw [hq] at h; cases h

theorem discard_inv {b : Prop} {kept : Bool} {m : Mem Key} {db : DB} {w : Where} (id x y z u : Bytes) (hw : w.Free m)
    (hi : Inv b m (view db) []) :
    Inv b (acts cls kept m [.build (.row id) w.t [x, y, z, u], .destroy (.row id) w.t]) (view db) [] :=
  (hi.build (C := cls) (kept := kept) (k := .row id) [x, y, z, u] hw.2.2.2.1 (by simp)).destroy
    (C := cls) (kept := kept) (k := .row id) (fun _ => wiped4 _ _ _ _)

theorem discard2_inv {b : Prop} {kept : Bool} {m : Mem Key} {db : DB} {w : Where} (id x y z u p q : Bytes) (hw : w.Free m)
    (hi : Inv b m (view db) []) :
    Inv b (acts cls kept m [.build (.row id) w.t [x, y, z, u], .build (.rot id) w.t' [p, q],
      .destroy (.rot id) w.t', .destroy (.row id) w.t]) (view db) [] := by
  have h1 := hi.build (C := cls) (kept := kept) (k := .row id) [x, y, z, u] hw.2.2.2.1 (by simp)
  have h2 := h1.build (C := cls) (kept := kept) (k := .rot id) (t := w.t') [p, q] hw.2.2.2.2
    (by simpa using hw.ne.2.2.2.2.2.symm)
  have h3 := h2.destroy (C := cls) (kept := kept) (k := .rot id) (fun _ => wipedRot _ _)
  exact h3.destroy (C := cls) (kept := kept) (k := .row id) (fun _ => wiped4 _ _ _ _)

theorem load_inv {b : Prop} {kept : Bool} {m : Mem Key} {P : Prims4} {db db' : DB} {o : Option RowPB}
    {r : Option Err} {w : Where} (h : loadRow P db o = .ok (db', r)) (hw : w.Free m)
    (hi : Inv b m (view db) []) : Inv b (acts cls kept m (loadRowActs P db o w)) (view db') [] := by
  unfold loadRow at h
  unfold loadRowActs
  cases o with
  | none => cases h; exact hi
  | some x =>
    simp only at h ⊢
    by_cases h1 : x.tries.toNat > MAX_ALLOWED_MAX_TRIES ∨ x.tries.toNat < 1
    · rw [if_pos h1] at h ⊢; cases h; exact hi
    rw [if_neg h1] at h ⊢
    by_cases h2 : x.id.length ≠ BACKUP_ID_SIZE
    · rw [if_pos h2]
      by_cases h3 : x.id.length > BACKUP_ID_SIZE
      · rw [if_pos h3] at h; cases h; exact hi
      · rw [if_neg h3, if_pos (by omega)] at h; cases h
    have h2' : x.id.length = BACKUP_ID_SIZE := not_not.mp h2
    rw [if_neg h2]
    rw [if_neg (by omega), if_neg (by omega)] at h
    cases h3 : db.rows.outOfOrder x.id with
    | true => rw [h3] at h; cases h; exact hi
    | false =>
      rw [h3] at h
      simp only [Bool.false_eq_true, if_false] at h ⊢
      by_cases ha : okPoint P x.auth = false
      · rw [if_pos (Or.inl ha)] at h; rw [if_pos ha]; cases h; exact discard_inv _ _ _ _ _ hw hi
      by_cases hb : okScalar P x.oprf = false
      · rw [if_pos (Or.inr (Or.inl hb))] at h; rw [if_neg ha, if_pos hb]; cases h; exact discard_inv _ _ _ _ _ hw hi
      by_cases hc : okScalar P x.zero = false
      · rw [if_pos (Or.inr (Or.inr hc))] at h; rw [if_neg ha, if_neg hb, if_pos hc]; cases h
        exact discard_inv _ _ _ _ _ hw hi
      rw [if_neg (by tauto)] at h
      rw [if_neg ha, if_neg hb, if_neg hc]
      cases he : copyOver (zeros 32) x.enc with
      | none => rw [he] at h; cases h; exact discard_inv _ _ _ _ _ hw hi
      | some enc =>
        rw [he] at h
        simp only at h ⊢
        have hrow : view db (.row x.id) = none := by simp [view, find_none_of_order h3]
        by_cases h4 : x.newVersion = 0
        · rw [if_pos h4] at h ⊢; cases h
          rw [view_row_insert]
          exact hi.load (C := cls) _ hrow hw.2.2.2.1 hw.2.1 hw.ne.2.1 (fun _ => by
            exact wiped4 (zeroOut x.auth) (zeroOut x.oprf) (zeroOut enc) (zeroOut x.zero))
        rw [if_neg h4] at h ⊢
        by_cases h5 : okScalar P x.oprfDelta = false
        · rw [if_pos h5] at h ⊢; cases h; exact discard2_inv _ _ _ _ _ _ _ hw hi
        rw [if_neg h5] at h ⊢
        cases h6 : copyOver (zeros 32) x.encDelta with
        | none => rw [h6] at h; cases h; exact discard2_inv _ _ _ _ _ _ _ hw hi
        | some ed =>
          rw [h6] at h
          simp only at h ⊢
          have hn := hw.ne
          have k1 := hi.build (C := cls) (kept := kept) (k := .row x.id) (t := w.t) [x.auth, x.oprf, enc, x.zero]
            hw.2.2.2.1 (by simp)
          have k2 := k1.build (C := cls) (kept := kept) (k := .rot x.id) (t := w.t') [x.oprfDelta, ed]
            hw.2.2.2.2 (by simpa using hn.2.2.2.2.2.symm)
          have fin : ∀ (m2 : Mem Key) (v2 : Key → Option (List Bytes)),
              Inv b m2 v2 ((w.t', clearRot [x.oprfDelta, ed]) :: [(w.t, [x.auth, x.oprf, enc, x.zero])]) →
              m2.Dead w.a → v2 (.row x.id) = none →
              Inv b (acts cls kept m2 [.destroy (.rot x.id) w.t', .moveIn (.row x.id) w.t w.a, .destroy (.row x.id) w.t])
                (upd v2 (.row x.id) (some [x.auth, x.oprf, enc, x.zero])) [] := by
            intro m2 v2 g hd hv
            have g1 := g.destroy (C := cls) (kept := kept) (k := .rot x.id) (fun _ => by
              exact wipedRot (zeroOut x.oprfDelta) (zeroOut ed))
            have g2 := g1.moveIn (C := cls) (kept := kept) (k := .row x.id) (a := w.a) hv hd (by simpa using hn.2.1)
            exact g2.destroy (C := cls) (kept := kept) (k := .row x.id) (fun _ => by
              exact wiped4 (zeroOut x.auth) (zeroOut x.oprf) (zeroOut enc) (zeroOut x.zero))
          cases hr : db.rot.find x.id with
          | none =>
            rw [hr] at h
            cases h
            have k3 := k2.moveIn (C := cls) (kept := kept) (k := .rot x.id) (a := w.a') (by simp [view, hr]) hw.2.2.1
              (by simpa using ⟨hn.2.2.2.2.1, hn.2.2.2.1⟩)
            have k4 := fin _ _ k3 (fun k => by
              have hnode : (act cls kept (act cls kept m (.build (.row x.id) w.t [x.auth, x.oprf, enc, x.zero]))
                  (.build (.rot x.id) w.t' [x.oprfDelta, ed])).node = m.node := rfl
              simp only [act]
              have : m.node (.rot x.id) = none := hi.node_none (by simp [view, hr])
              rw [this]
              simp only [upd]
              split
              · intro e; exact hn.1 (Option.some.inj e).symm
              · exact hw.2.1 k) (by simpa [upd] using hrow)
            have e : view ⟨db.rows.insert x.id (updateLeaf P x.id ⟨x.auth, x.oprf, enc, x.zero, x.version.toUInt32, x.tries.toUInt8, zeros 8⟩
                (some ⟨x.newVersion.toUInt32, x.oprfDelta, ed⟩)), db.rot.insert x.id ⟨x.newVersion.toUInt32, x.oprfDelta, ed⟩⟩ =
                upd (upd (view db) (.rot x.id) (some [x.oprfDelta, ed])) (.row x.id) (some [x.auth, x.oprf, enc, x.zero]) := by
              rw [view_row_insert ⟨db.rows, db.rot.insert x.id ⟨x.newVersion.toUInt32, x.oprfDelta, ed⟩⟩, view_rot_insert]
              rfl
            rw [e]; exact k4
          | some old =>
            rw [hr] at h
            cases h
            have k3 := k2.moveIn_present (C := cls) (kept := kept) (k := .rot x.id) (a := w.a') (w := rotFields old)
              (by simp [view, hr]) hw.2.2.1 (by simpa using ⟨hn.2.2.2.2.1, hn.2.2.2.1⟩) (fun _ => wipedRot _ _)
            have k4 := fin _ _ k3 (fun k => by
              obtain ⟨a0, h0, _⟩ := hi.node_some (k := .rot x.id) (v := rotFields old) (by simp [view, hr])
              simp only [act, h0]
              exact hw.2.1 k) hrow
            have e : view ⟨db.rows.insert x.id (updateLeaf P x.id ⟨x.auth, x.oprf, enc, x.zero, x.version.toUInt32, x.tries.toUInt8, zeros 8⟩
                (some old)), db.rot.insert x.id old⟩ =
                upd (view db) (.row x.id) (some [x.auth, x.oprf, enc, x.zero]) := by
              rw [OMap.insert_of_find hr, view_row_insert]; rfl
            rw [e]; exact k4

theorem drop_inv {b : Prop} {kept : Bool} {m : Mem Key} {db : DB} (hi : Inv b m (view db) []) :
    Inv b (acts cls kept m (db.rot.list.map (fun p => .erase (.rot p.1) false) ++
      db.rows.list.map (fun p => .erase (.row p.1) false))) (view empty) [] := by
  have h1 := hi.eraseAll (C := cls) (kept := kept)
    (db.rot.list.map (fun p => Key.rot p.1) ++ db.rows.list.map (fun p => Key.row p.1)) (view' := fun _ => none)
    (fun _ k _ v hv => wiped_view hv) (fun _ _ => rfl) (fun k hk => by
      simp only [List.mem_append, not_or] at hk
      cases k with
      | row k =>
        refine view_drop fields db.rows k (fun hm => hk.2 ?_)
        obtain ⟨p, hp, rfl⟩ := List.mem_map.mp hm
        exact List.mem_map_of_mem hp
      | rot k =>
        refine view_drop rotFields db.rot k (fun hm => hk.1 ?_)
        obtain ⟨p, hp, rfl⟩ := List.mem_map.mp hm
        exact List.mem_map_of_mem hp)
  rw [List.map_append, List.map_map, List.map_map] at h1
  have e : view empty = fun _ => none := by funext k; cases k <;> rfl
  rw [e]; exact h1

end S4
end Svr.Wipe
