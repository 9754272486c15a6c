import Verif.WipeRuns

/-!
# C73: row objects that cease to exist leave zeros behind
-/

namespace Svr.Props.Wipe
open Svr.Wipe

/-- The memory of a database, along any history of log entries, received rows and destruction. -/
abbrev Reach2 (P : Prims) (kept : Bool) := Reach (fun _ => row2) kept (S2.next P) (S2.does P) DB2.empty
abbrev Reach3 (P : DB3.Prims3) (kept : Bool) := Reach (fun _ => row3) kept (S3.next P) (S3.does P) OMap.empty
abbrev Reach4 (P : DB4.Prims4) (kept : Bool) := Reach S4.cls kept (S4.next P) (S4.does P) DB4.empty
abbrev Reach5 (P : DB5.Prims5) (kept : Bool) := Reach (fun _ => row5) kept (S5.next P) S5.does DB5.empty
/-- As `Reach2`, with log entries only. -/
abbrev Reach2Log (P : Prims) (kept : Bool) :=
  Reach (fun _ => row2) kept (fun db (e : (Bytes → Bool) × DB2.Log) db' => S2.next P db (.run e.1 e.2) db')
    (fun db e w => S2.does P db (.run e.1 e.2) w) DB2.empty

/-- A field holds something other than zeros. -/
def Telling (f : Bytes) : Prop := ∃ x ∈ f, x ≠ 0

theorem inv4 {P : DB4.Prims4} {kept : Bool} {db : DB4.DB} {m : Mem S4.Key} (h : Reach4 P kept db m) :
    Inv True m (S4.view db) [] :=
  h.inv S4.view (by funext k; cases k <;> rfl) (by
    intro d m e d' w hn hw hi
    cases e with
    | run path log => obtain ⟨r, hr⟩ := hn; exact S4.run_inv hr hw hi
    | load row => obtain ⟨r, hr⟩ := hn; exact S4.load_inv hr hw hi
    | drop => cases hn; exact S4.drop_inv hi)

theorem inv5 {P : DB5.Prims5} {kept : Bool} {db : DB5.DB} {m : Mem Bytes} (h : Reach5 P kept db m) :
    Inv True m (S5.view db) [] :=
  h.inv S5.view rfl (by
    intro d m e d' w hn hw hi
    cases e with
    | run path log => obtain ⟨r, hr⟩ := hn; exact S5.run_inv hr hw hi
    | load row => obtain ⟨r, hr⟩ := hn; exact S5.load_inv hr hw hi
    | drop => cases hn; exact S5.drop_inv hi)

theorem inv3 {P : DB3.Prims3} {kept : Bool} {db : DB3.DB} {m : Mem Bytes} (h : Reach3 P kept db m) :
    Inv False m (S3.view db) [] :=
  h.inv S3.view rfl (by
    intro d m e d' w hn hw hi
    cases e with
    | run path log => obtain ⟨r, hr⟩ := hn; exact S3.run_inv id hr hw hi
    | load row => obtain ⟨r, hr⟩ := hn; exact S3.load_inv id hr hw hi
    | drop => cases hn; exact S3.drop_inv id hi)

theorem inv2 {P : Prims} {kept : Bool} {db : DB2.DB} {m : Mem Bytes} (h : Reach2 P kept db m) :
    Inv False m (S2.view db) [] :=
  h.inv S2.view rfl (by
    intro d m e d' w hn hw hi
    cases e with
    | run path log => obtain ⟨r, hr⟩ := hn; exact S2.run_inv False.elim hr hw hi
    | load row => obtain ⟨r, hr⟩ := hn; exact S2.load_inv id hr hw hi
    | drop => cases hn; exact S2.drop_inv id hi)

theorem inv2Log {P : Prims} {db : DB2.DB} {m : Mem Bytes} (h : Reach2Log P true db m) :
    Inv True m (S2.view db) [] :=
  h.inv S2.view rfl (by
    intro d m e d' w hn hw hi
    obtain ⟨r, hr⟩ := hn; exact S2.run_inv (fun _ => rfl) hr hw hi)

/-- **C73, SVR4.** Whatever has happened to the database, any row or rotation object anywhere in memory,
present or past, that holds anything but zeros holds a secret of a row or rotation the database has now. -/
theorem C73_svr4 {P : DB4.Prims4} {kept : Bool} {db : DB4.DB} {m : Mem S4.Key} (h : Reach4 P kept db m)
    {a : Nat} {f : Bytes} (hf : f ∈ m.cell a) (ht : Telling f) :
    (∃ id r, db.rows.find id = some r ∧ f ∈ [r.auth, r.oprf, r.enc, r.zero]) ∨
    (∃ id x, db.rot.find id = some x ∧ f ∈ [x.oprfDelta, x.encDelta]) := by
  obtain ⟨k, v, hk, hv⟩ := (inv4 h).owned trivial hf ht
  cases k with
  | row id =>
    obtain ⟨r, hr, rfl⟩ := Option.map_eq_some_iff.mp hk
    exact .inl ⟨id, r, hr, hv⟩
  | rot id =>
    obtain ⟨x, hx, rfl⟩ := Option.map_eq_some_iff.mp hk
    exact .inr ⟨id, x, hx, hv⟩

/-- **C73, SVR5.** The same: only the data of present rows is in memory. -/
theorem C73_svr5 {P : DB5.Prims5} {kept : Bool} {db : DB5.DB} {m : Mem Bytes} (h : Reach5 P kept db m)
    {a : Nat} {f : Bytes} (hf : f ∈ m.cell a) (ht : Telling f) :
    ∃ id r, db.find id = some r ∧ f = r.data := by
  obtain ⟨k, v, hk, hv⟩ := (inv5 h).owned trivial hf ht
  obtain ⟨r, hr, rfl⟩ := Option.map_eq_some_iff.mp hk
  exact ⟨k, r, hr, by simpa [S5.fields] using hv⟩

/-- **C73, SVR2, as far as it holds**: without received rows and destruction, and with a compiler that
keeps the `memset` before an `erase`. -/
theorem C73_svr2_partial {P : Prims} {db : DB2.DB} {m : Mem Bytes} (h : Reach2Log P true db m)
    {a : Nat} {f : Bytes} (hf : f ∈ m.cell a) (ht : Telling f) :
    ∃ id r, db.find id = some r ∧ (f = r.data ∨ f = r.pin) := by
  obtain ⟨k, v, hk, hv⟩ := (inv2Log h).owned trivial hf ht
  obtain ⟨r, hr, rfl⟩ := Option.map_eq_some_iff.mp hk
  exact ⟨k, r, hr, by simpa [S2.fields] using hv⟩

/-- The memory is that of the database: every row has its own object with exactly its secrets. -/
theorem C73_objects {P2 : Prims} {P3 : DB3.Prims3} {P4 : DB4.Prims4} {P5 : DB5.Prims5} {kept : Bool} :
    (∀ db m, Reach2 P2 kept db m → ∀ id r, db.find id = some r → ∃ a, m.node id = some a ∧ m.cell a = [r.data, r.pin]) ∧
    (∀ db m, Reach3 P3 kept db m → ∀ id r, db.find id = some r → ∃ a, m.node id = some a ∧ m.cell a = [r.priv]) ∧
    (∀ db m, Reach4 P4 kept db m →
      (∀ id r, db.rows.find id = some r → ∃ a, m.node (.row id) = some a ∧ m.cell a = [r.auth, r.oprf, r.enc, r.zero]) ∧
      (∀ id x, db.rot.find id = some x → ∃ a, m.node (.rot id) = some a ∧ m.cell a = [x.oprfDelta, x.encDelta])) ∧
    (∀ db m, Reach5 P5 kept db m → ∀ id r, db.find id = some r → ∃ a, m.node id = some a ∧ m.cell a = [r.data]) :=
  ⟨fun _ _ h _ _ hr => (inv2 h).node_some (by simp [S2.view, hr, S2.fields]),
   fun _ _ h _ _ hr => (inv3 h).node_some (by simp [S3.view, hr, S3.fields]),
   fun _ _ h => ⟨fun _ _ hr => (inv4 h).node_some (by simp [S4.view, hr, S4.fields]),
     fun _ _ hr => (inv4 h).node_some (by simp [S4.view, hr, S4.rotFields])⟩,
   fun _ _ h _ _ hr => (inv5 h).node_some (by simp [S5.view, hr, S5.fields])⟩

/-! ### Where it fails -/

theorem dead_after {m : Mem Bytes} {view : Bytes → Option (List Bytes)} {b : Prop} (hi : Inv b m view [])
    {C : Bytes → Class} {kept s : Bool} {k : Bytes} {a : Nat} (hn : m.node k = some a)
    (hc : (C k).dtor (if s && kept then (m.cell a).map zeroOut else m.cell a) = m.cell a) :
    (act C kept m (.erase k s)).Dead a ∧ (act C kept m (.erase k s)).cell a = m.cell a := by
  simp only [act, hn, hc]
  refine ⟨fun k' => ?_, upd_self _ _ _⟩
  simp only [upd]
  split
  · intro e; cases e
  · rename_i hne
    exact fun e => hne (hi.inj _ _ _ e hn)

/-- A request that makes an SVR3 row go away erases its node. -/
theorem gone3 {P : DB3.Prims3} {path : Bytes → Bool} {db db' : DB3.DB} {log : DB3.Log} {r : DB3.Resp} {k : Bytes}
    {row : DB3.Row} (w : Where) (h : DB3.run P path db log = .ok (db', r)) (h1 : db.find k = some row)
    (h2 : db'.find k = none) : S3.runActs P path db log w = [.erase k false] := by
  have keep : db' ≠ db := fun e => by rw [e, h1] at h2; cases h2
  have ins : ∀ id x, db' ≠ db.insert id x := fun id x e => by
    rw [e, OMap.find_insert] at h2
    split at h2
    · cases h2
    · rw [h1] at h2; cases h2
  have er : ∀ id, db' = db.erase id → id = k := fun id e => by
    rw [e, OMap.find_erase] at h2
    split at h2
    · assumption
    · rw [h1] at h2; cases h2
  unfold DB3.run at h
  obtain ⟨_, _, h⟩ := Out.bind_eq_ok.mp h
  unfold S3.runActs
  cases hid : strToArr DB3.BACKUP_ID_SIZE log.id with
  | none => rw [hid] at h; cases h
  | some id =>
    rw [hid] at h
    simp only at h ⊢
    have e0 : ∀ {p : DB3.DB × DB3.Resp}, (pure p : Out (DB3.DB × DB3.Resp)) = .ok (db', r) → p.1 = db' :=
      fun {p} h => by cases h; rfl
    cases hq : log.req with
    | create n bl =>
      rw [hq] at h
      have h := e0 h
      simp only [DB3.create] at h
      split at h
      · exact absurd h.symm keep
      · split at h
        · exact absurd h.symm keep
        · split at h
          · exact absurd h.symm keep
          · exact absurd h.symm (ins _ _)
    | evaluate bl =>
      rw [hq] at h
      have h := e0 h
      simp only [DB3.evaluate] at h
      cases h3 : strToArr DB3.ELEMENT_SIZE bl with
      | none => rw [h3] at h; exact absurd h.symm keep
      | some elt =>
        rw [h3] at h
        cases hf : db.find id with
        | none => rw [hf] at h; exact absurd h.symm keep
        | some rw1 =>
          rw [hf] at h
          simp only at h ⊢
          cases hv : DB3.verify P path id rw1 with
          | false => rw [hv] at h; exact absurd h.symm keep
          | true =>
            rw [hv] at h
            simp only [Bool.not_true, Bool.false_eq_true, if_false] at h
            cases h4 : P.mul rw1.priv elt with
            | none => rw [h4] at h; exact absurd h.symm keep
            | some ev =>
              rw [h4] at h
              simp only at h
              by_cases ht : rw1.tries - 1 = 0
              · rw [if_pos ht] at h
                simp only [h3]
                rw [if_pos ⟨hv, by rw [h4]; rfl, ht⟩, er id h.symm]
              · rw [if_neg ht] at h; exact absurd h.symm (ins _ _)
    | remove =>
      rw [hq] at h
      have h := e0 h
      simp only [DB3.remove] at h
      cases hf : db.find id with
      | none => rw [hf] at h; exact absurd h.symm keep
      | some rw1 => rw [hf] at h; simp only; rw [er id h.symm]
    | query =>
      rw [hq] at h
      have h := e0 h
      simp only [DB3.query] at h
      cases hf : db.find id with
      | none => rw [hf] at h; exact absurd h.symm keep
      | some rw1 => rw [hf] at h; exact absurd h.symm keep
    | unset => rw [hq] at h; cases h

/-- **C73 is false for SVR3**: every request that makes a row go away, by removal or by the last guess,
leaves its private key in memory that belongs to no row. -/
theorem C73_false_svr3 {P : DB3.Prims3} {kept : Bool} {path : Bytes → Bool} {db db' : DB3.DB} {m : Mem Bytes}
    (h : Reach3 P kept db m) {log : DB3.Log} {r : DB3.Resp} (hr : DB3.run P path db log = .ok (db', r))
    {id : Bytes} {row : DB3.Row} (h1 : db.find id = some row) (h2 : db'.find id = none) {w : Where} (hw : w.Free m) :
    ∃ m' a, m' = acts (fun _ => row3) kept m (S3.does P db (.run path log) w) ∧ Reach3 P kept db' m' ∧
      m'.Dead a ∧ m'.cell a = [row.priv] := by
  obtain ⟨a, hn, hc⟩ := (inv3 h).node_some (k := id) (v := [row.priv]) (by simp [S3.view, h1, S3.fields])
  refine ⟨_, a, rfl, .step h ⟨r, hr⟩ hw, ?_⟩
  have e : S3.does P db (.run path log) w = [.erase id false] := gone3 w hr h1 h2
  rw [e]
  have := dead_after (inv3 h) (C := fun _ => row3) (kept := kept) (s := false) hn rfl
  rw [hc] at this
  exact this

/-- A request that makes an SVR2 row go away clears it with `memset` and erases its node. -/
theorem gone2 {P : Prims} {path : Bytes → Bool} {db db' : DB2.DB} {log : DB2.Log} {r : DB2.Resp} {k : Bytes}
    {row : DB2.Row} (w : Where) (h : DB2.run P path db log = .ok (db', r)) (h1 : db.find k = some row)
    (h2 : db'.find k = none) : S2.runActs P path db log w = [.erase k true] := by
  have keep : ∀ {x}, (Out.ok (db, x) : Out (DB2.DB × DB2.Resp)) ≠ .ok (db', r) := fun e => by
    cases e; rw [h1] at h2; cases h2
  have ins : ∀ {id x y}, (Out.ok (db.insert id x, y) : Out (DB2.DB × DB2.Resp)) ≠ .ok (db', r) := fun {id x y} e => by
    have e : db.insert id x = db' := by cases e; rfl
    rw [← e, OMap.find_insert] at h2
    split at h2
    · cases h2
    · rw [h1] at h2; cases h2
  have er : ∀ {id y}, (Out.ok (db.erase id, y) : Out (DB2.DB × DB2.Resp)) = .ok (db', r) → id = k := fun {id y} e => by
    have e : db.erase id = db' := by cases e; rfl
    rw [← e, OMap.find_erase] at h2
    split at h2
    · assumption
    · rw [h1] at h2; cases h2
  unfold DB2.run at h
  obtain ⟨_, _, h⟩ := Out.bind_eq_ok.mp h
  obtain ⟨_, _, h⟩ := Out.bind_eq_ok.mp h
  unfold S2.runActs
  cases hq : log.req with
  | backup data pin n =>
    rw [hq] at h
    simp only [DB2.backup, DB2.Row.clear] at h
    obtain ⟨d, hd, h⟩ := Out.bind_eq_ok.mp h
    obtain ⟨p, hp, h⟩ := Out.bind_eq_ok.mp h
    obtain ⟨r3, h3, h⟩ := Out.bind_eq_ok.mp h
    exact absurd h ins
  | restore pin =>
    rw [hq] at h
    simp only [DB2.restore] at h
    cases hf : db.find log.id with
    | none => rw [hf] at h; exact absurd h keep
    | some row =>
      rw [hf] at h
      simp only at h ⊢
      by_cases hs : row.state ≠ DB2.AVAILABLE
      · rw [if_pos hs] at h; exact absurd h keep
      · rw [if_neg hs] at h ⊢
        obtain ⟨ok, hv, h⟩ := Out.bind_eq_ok.mp h
        cases ok with
        | false =>
          simp only [Bool.not_false, if_true] at h
          exact absurd h keep
        | true =>
          simp only [Bool.not_true, Bool.false_eq_true, if_false] at h
          by_cases hc : ctEq pin row.pin = true
          · rw [if_pos hc] at h; exact absurd h keep
          · rw [if_neg hc] at h
            by_cases ht : row.tries - 1 = 0
            · rw [if_pos ht] at h
              rw [if_pos ⟨hv, Bool.eq_false_iff.mpr hc, ht⟩, er h]
            · rw [if_neg ht] at h
              obtain ⟨r3, h3, h⟩ := Out.bind_eq_ok.mp h
              exact absurd h ins
  | delete =>
    rw [hq] at h
    simp only [DB2.delete] at h
    cases hf : db.find log.id with
    | none => rw [hf] at h; exact absurd h keep
    | some row => rw [hf] at h; simp only; rw [er h]
  | expose data =>
    rw [hq] at h
    simp only [DB2.expose] at h
    cases hf : db.find log.id with
    | none => rw [hf] at h; exact absurd h keep
    | some row =>
      rw [hf] at h
      simp only at h
      obtain ⟨ok, hv, h⟩ := Out.bind_eq_ok.mp h
      by_cases h1 : (!ok) = true
      · rw [if_pos h1] at h; exact absurd h keep
      · rw [if_neg h1] at h
        split at h
        · exact absurd h keep
        · split at h
          · obtain ⟨r3, h3, h⟩ := Out.bind_eq_ok.mp h
            exact absurd h ins
          · exact absurd h keep
  | tries =>
    rw [hq] at h
    simp only [DB2.triesReq] at h
    cases hf : db.find log.id with
    | none => rw [hf] at h; exact absurd h keep
    | some row => rw [hf] at h; exact absurd h keep
  | unset => rw [hq] at h; exact absurd h keep

/-- **C73 is not guaranteed for SVR2**: if the compiler drops the dead stores of `memset`, every request
that makes a row go away leaves its data and pin in memory that belongs to no row. -/
theorem C73_false_svr2_memset {P : Prims} {path : Bytes → Bool} {db db' : DB2.DB} {m : Mem Bytes}
    (h : Reach2 P false db m) {log : DB2.Log} {r : DB2.Resp} (hr : DB2.run P path db log = .ok (db', r))
    {id : Bytes} {row : DB2.Row} (h1 : db.find id = some row) (h2 : db'.find id = none) {w : Where} (hw : w.Free m) :
    ∃ m' a, m' = acts (fun _ => row2) false m (S2.does P db (.run path log) w) ∧ Reach2 P false db' m' ∧
      m'.Dead a ∧ m'.cell a = [row.data, row.pin] := by
  obtain ⟨a, hn, hc⟩ := (inv2 h).node_some (k := id) (v := [row.data, row.pin]) (by simp [S2.view, h1, S2.fields])
  refine ⟨_, a, rfl, .step h ⟨r, hr⟩ hw, ?_⟩
  have e : S2.does P db (.run path log) w = [.erase id true] := gone2 w hr h1 h2
  rw [e]
  have := dead_after (inv2 h) (C := fun _ => row2) (kept := false) (s := true) hn rfl
  rw [hc] at this
  exact this

/-- **C73 is false for SVR2 when rows are received**: the local row each was built in keeps its data and
pin, whatever the compiler. -/
theorem C73_false_svr2_load {P : Prims} {kept : Bool} {db db' : DB2.DB} {m : Mem Bytes}
    (h : Reach2 P kept db m) {x : DB2.RowPB} (hr : DB2.loadRow P db (some x) = .ok (db', none))
    {w : Where} (hw : w.Free m) :
    ∃ m', m' = acts (fun _ => row2) kept m (S2.does P db (.load (some x)) w) ∧ Reach2 P kept db' m' ∧
      m'.Dead w.t ∧ m'.cell w.t = [padTo 48 x.data, x.pin] := by
  refine ⟨_, rfl, .step h ⟨none, hr⟩ hw, ?_⟩
  have e : S2.does P db (.load (some x)) w = loadActs x.id w.t w.a [padTo 48 x.data, x.pin] ∧ db.find x.id = none := by
    unfold S2.does S2.loadRowActs
    unfold DB2.loadRow at hr
    simp only at hr ⊢
    by_cases h1 : x.tries.toNat > DB2.MAX_ALLOWED_MAX_TRIES ∨ x.tries.toNat = 0 ∨ x.pin.length ≠ DB2.PIN_SIZE ∨
       x.data.length < DB2.MIN_DATA_SIZE ∨ x.data.length > DB2.MAX_DATA_SIZE
    · rw [if_pos h1] at hr; cases hr
    · rw [if_neg h1] at hr ⊢
      unfold DB2.backupIDFromString at hr
      by_cases h2 : x.id.length ≠ DB2.BACKUP_ID_SIZE
      · rw [if_pos h2] at hr; cases hr
      · rw [if_neg h2] at hr ⊢
        simp only at hr
        cases h3 : db.outOfOrder x.id with
        | true => rw [h3] at hr; cases hr
        | false => exact ⟨rfl, find_none_of_order h3⟩
  have hnode : m.node x.id = none := (inv2 h).node_none (by simp [S2.view, e.2])
  rw [e.1]
  simp only [acts, loadActs, List.foldl_cons, List.foldl_nil, act, hnode, row2, upd_self]
  refine ⟨fun k => ?_, trivial⟩
  simp only [upd]
  split
  · intro e; exact hw.ne.2.1 (Option.some.inj e)
  · exact hw.2.2.2.1 k

theorem erase_cells (kept : Bool) (ks : List Bytes) : ∀ m : Mem Bytes,
    (acts (fun _ => row2) kept m (ks.map (fun k => .erase k false))).cell = m.cell := by
  induction ks with
  | nil => intro m; rfl
  | cons k t ih =>
    intro m
    show (acts (fun _ => row2) kept (act (fun _ => row2) kept m (.erase k false)) (t.map (fun k => .erase k false))).cell = _
    rw [ih]
    cases hn : m.node k with
    | none => simp [act, hn]
    | some a =>
      simp only [act, hn, Bool.false_and, Bool.false_eq_true, if_false, row2]
      funext y
      simp only [upd]
      split
      · rename_i e; rw [e]
      · rfl

/-- **C73 is false for SVR2 when the database is destroyed**: the data and pin of every row stay in
memory. -/
theorem C73_false_svr2_drop {P : Prims} {kept : Bool} {db : DB2.DB} {m : Mem Bytes}
    (h : Reach2 P kept db m) {w : Where} (hw : w.Free m) :
    ∃ m', m' = acts (fun _ => row2) kept m (S2.does P db .drop w) ∧ Reach2 P kept DB2.empty m' ∧
      (∀ a, m'.Dead a) ∧ ∀ id row, db.find id = some row → ∃ a, m'.cell a = [row.data, row.pin] := by
  have hre : Reach2 P kept DB2.empty (acts (fun _ => row2) kept m (S2.does P db .drop w)) :=
    .step (e := Ev.drop) h (show S2.next P db .drop DB2.empty from rfl) hw
  refine ⟨_, rfl, hre, fun a k => ?_, fun id row hf => ?_⟩
  · rw [(inv2 hre).node_none rfl]; exact fun e => by cases e
  · obtain ⟨a, _, hc⟩ := (inv2 h).node_some (k := id) (v := [row.data, row.pin]) (by simp [S2.view, hf, S2.fields])
    refine ⟨a, ?_⟩
    have := erase_cells kept (db.list.map Prod.fst) m
    rw [List.map_map] at this
    rw [← hc]
    exact congrFun this a

/-! ### Such histories exist -/

section
variable {K : Type} [DecidableEq K] {C : K → Class} {kept : Bool}

theorem bounded_act {m : Mem K} {N : Nat} (h : ∀ k a, m.node k = some a → a < N) (x : Act K) :
    ∃ N', ∀ k a, (act C kept m x).node k = some a → a < N' := by
  have hset : ∀ (k0 : K) (a0 : Nat), ∃ N', ∀ k a, upd m.node k0 (some a0) k = some a → a < N' := fun k0 a0 =>
    ⟨max N (a0 + 1), fun k a e => by
      simp only [upd] at e
      split at e
      · cases e; exact lt_of_lt_of_le (Nat.lt_succ_self _) (le_max_right _ _)
      · exact lt_of_lt_of_le (h k a e) (le_max_left _ _)⟩
  cases x with
  | emplace k a => exact hset k a
  | assign k v =>
    simp only [act]
    split
    · exact ⟨N, h⟩
    · exact ⟨N, h⟩
  | erase k s =>
    simp only [act]
    split
    · exact ⟨N, h⟩
    · refine ⟨N, fun k' a e => ?_⟩
      simp only [upd] at e
      split at e
      · cases e
      · exact h k' a e
  | build k t v => exact ⟨N, h⟩
  | moveIn k t a =>
    simp only [act]
    split
    · exact hset k a
    · exact ⟨N, h⟩
  | destroy k t => exact ⟨N, h⟩

theorem bounded_acts (l : List (Act K)) : ∀ {m : Mem K}, (∃ N, ∀ k a, m.node k = some a → a < N) →
    ∃ N, ∀ k a, (acts C kept m l).node k = some a → a < N := by
  induction l with
  | nil => intro m h; exact h
  | cons x t ih => intro m h; exact ih (bounded_act h.choose_spec x)

/-- There is always unused memory. -/
theorem C73_room {D E : Type} {next : D → E → D → Prop} {does : D → E → Where → List (Act K)} {d0 d : D} {m : Mem K}
    (h : Reach C kept next does d0 d m) : ∃ w : Where, w.Free m := by
  have : ∃ N, ∀ k a, m.node k = some a → a < N := by
    induction h with
    | start => exact ⟨0, fun _ _ e => by cases e⟩
    | step _ _ _ ih => exact bounded_acts _ ih
  obtain ⟨N, hN⟩ := this
  have hd : ∀ i, m.Dead (N + i) := fun i k e => absurd (hN k _ e) (by omega)
  exact ⟨⟨N, N + 1, N + 2, N + 3⟩, by simp, hd 0, hd 1, hd 2, hd 3⟩

/-- So an event the database can undergo has a memory to go with it. -/
theorem more {D E : Type} {next : D → E → D → Prop} {does : D → E → Where → List (Act K)} {d0 d d' : D} {e : E}
    (h : ∃ m, Reach C kept next does d0 d m) (hn : next d e d') : ∃ m, Reach C kept next does d0 d' m := by
  obtain ⟨m, h⟩ := h
  obtain ⟨w, hw⟩ := C73_room h
  exact ⟨_, .step h hn hw⟩
end

def key : Bytes := List.replicate 32 9
def P2 : Prims := ⟨fun b => b.take 16, fun b => b.take 32⟩
def P3 : DB3.Prims3 := ⟨P2, fun _ e => some e⟩
def P4 : DB4.Prims4 := { P2 with
  validPoint := fun _ => true, validScalar := fun _ => true, sadd := fun a _ => a, smul := fun _ p => some p,
  padd := fun p _ => some p, mulBase := fun s => some s, hashToPoint := fun _ b => some b,
  challenge := fun _ _ _ => key }
def P5 : DB5.Prims5 := ⟨P2, fun x _ => x⟩
def who : Bytes := List.replicate 16 7
def yes : Bytes → Bool := fun _ => true

/-- An SVR3 row, then a request that removes it; likewise a guess that was the last. -/
example : ∃ db db' m row r, Reach3 P3 true db m ∧ db.find who = some row ∧ Telling row.priv ∧
    DB3.run P3 yes db ⟨who, .evaluate key, []⟩ = .ok (db', r) ∧ db'.find who = none := by
  obtain ⟨m, hm⟩ := more (C := fun _ => row3) (kept := true) (next := S3.next P3) (does := S3.does P3)
    (e := .run yes ⟨who, .create 1 key, key⟩) ⟨blank, .start⟩ ⟨_, rfl⟩
  exact ⟨_, _, m, _, _, hm, rfl, ⟨9, by decide⟩, rfl, by decide⟩

/-- An SVR4 row being rotated. -/
example : ∃ db m row x, Reach4 P4 true db m ∧ db.rows.find who = some row ∧ db.rot.find who = some x ∧
    Telling row.oprf ∧ Telling x.encDelta := by
  have h1 := more (C := S4.cls) (kept := true) (next := S4.next P4) (does := S4.does P4) (d := DB4.empty)
    (e := .run yes ⟨who, .create 3 key key key key 1⟩) ⟨blank, .start⟩ ⟨_, rfl⟩
  obtain ⟨m, hm⟩ := more (does := S4.does P4) (next := S4.next P4) h1
    (e := .run yes ⟨who, .rotateStart 2 key key⟩) ⟨_, rfl⟩
  exact ⟨_, m, _, _, hm, rfl, rfl, ⟨9, by decide⟩, ⟨9, by decide⟩⟩

/-- An SVR5 row, and one received from a peer. -/
example : ∃ db m row, Reach5 P5 true db m ∧ db.find who = some row ∧ Telling row.data := by
  obtain ⟨m, hm⟩ := more (C := fun _ => row5) (kept := true) (next := S5.next P5) (does := S5.does) (d := DB5.empty)
    (e := .load (some ⟨who, key⟩)) ⟨blank, .start⟩ ⟨_, rfl⟩
  exact ⟨_, m, _, hm, rfl, ⟨9, by decide⟩⟩

/-- An SVR2 row, a removal, a received row. -/
example : ∃ db db' m row r, Reach2 P2 false db m ∧ db.find who = some row ∧ Telling row.pin ∧
    DB2.run P2 yes db ⟨who, .delete⟩ = .ok (db', r) ∧ db'.find who = none := by
  obtain ⟨m, hm⟩ := more (C := fun _ => row2) (kept := false) (next := S2.next P2) (does := S2.does P2)
    (e := .run yes ⟨who, .backup key key 3⟩) ⟨blank, .start⟩ ⟨_, rfl⟩
  exact ⟨_, _, m, _, _, hm, rfl, ⟨9, by decide⟩, rfl, by decide⟩
example : ∃ db', DB2.loadRow P2 DB2.empty (some ⟨who, 3, key, key, DB2.AVAILABLE⟩) = .ok (db', none) := ⟨_, rfl⟩
example : ∃ db m row, Reach2Log P2 true db m ∧ db.find who = some row ∧ Telling row.data := by
  obtain ⟨m, hm⟩ := more (C := fun _ => row2) (kept := true)
    (next := fun db (e : (Bytes → Bool) × DB2.Log) db' => S2.next P2 db (.run e.1 e.2) db')
    (does := fun db e w => S2.does P2 db (.run e.1 e.2) w)
    (e := (yes, ⟨who, .backup key key 3⟩)) ⟨blank, .start⟩ ⟨_, rfl⟩
  exact ⟨_, m, _, hm, rfl, ⟨9, by decide⟩⟩

end Svr.Props.Wipe
