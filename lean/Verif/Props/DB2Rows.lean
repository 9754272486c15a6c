import Verif.DB2Rows
import Verif.Sim

/-!
# SVR2: isolation, robustness, integrity and replication of rows (C04, C05, C06, C15–C18)
-/

namespace Svr.Props.DB2Rows
open Svr.DB2

/-- **C04 (SVR2)**: an entry for account `a` does not change what any later sequence of requests by
another account `b` observes: the same responses or the same failure. Any database, tampered or not. -/
theorem C04_db2_isolation (P : Prims) (path : Bytes → Bool) (db db' : DB) (la : Log) (ra : Resp)
    (h : run P path db la = .ok (db', ra)) (b : Bytes) (hb : b ≠ la.id) (ls : List Log)
    (hls : ∀ l ∈ ls, l.id = b) :
    outcome (runAll P path db' ls) = outcome (runAll P path db ls) := by
  have hfind : db'.find b = db.find b := by
    obtain ⟨f, hf⟩ := run_local P path la
    rw [hf db] at h
    cases hx : f (db.find la.id) with
    | abort => rw [hx] at h; simp at h
    | ub => rw [hx] at h; simp at h
    | ok q =>
      rw [hx] at h
      simp only [Out.bind_ok, Out.pure_eq, Out.ok.injEq, Prod.mk.injEq] at h
      rw [← h.1, OMap.find_set_ne _ _ (fun e => hb e.symm)]
  clear h
  induction ls generalizing db db' with
  | nil => rfl
  | cons l ls ih =>
    obtain ⟨f, hf⟩ := run_local P path l
    have hl := hls l List.mem_cons_self
    simp only [runAll]
    rw [hf db, hf db', hl, hfind]
    cases hx : f (db.find b) with
    | abort => simp
    | ub => simp
    | ok q =>
      obtain ⟨o, r⟩ := q
      simp only [Out.bind_ok, Out.pure_eq]
      have := ih (db.set b o) (db'.set b o) (fun x hx => hls x (List.mem_cons_of_mem _ hx)) (by simp)
      cases h1 : runAll P path (db.set b o) ls <;> cases h2 : runAll P path (db'.set b o) ls <;>
        rw [h1, h2] at this <;> simp_all [outcome]

/-- **C05 (SVR2)**: no history of validated entries and arbitrary row batches, whatever the integrity
walk reports, reaches a `CHECK` failure or undefined behaviour; and every row stored keeps 1..255 tries
and 16..48 bytes of data. -/
theorem C05_db2_never_aborts (P : Prims) (es : List Ev) (hok : ∀ e ∈ es, e.ok) :
    ∃ db, runEvs P empty es = .ok db ∧
      ∀ id r, db.find id = some r →
        id.length = 16 ∧ 1 ≤ r.tries.toNat ∧ r.tries.toNat ≤ 255 ∧ 16 ≤ r.dataSize.toNat ∧ r.dataSize.toNat ≤ 48 := by
  obtain ⟨db, h1, h2⟩ := runEvs_inv P es empty (inv_empty P) hok
  refine ⟨db, h1, fun id r hr => ?_⟩
  have := h2 id r hr
  refine ⟨this.id_len, ?_, ?_, this.size_ge, this.size_le⟩
  · rcases Nat.eq_zero_or_pos r.tries.toNat with h | h
    · exact absurd (UInt8.toNat_inj.mp (by simpa using h)) this.tries_pos
    · exact h
  · have := r.tries.toNat_lt; omega

/-- What a row stores for its account. -/
def content (r : Row) : State × UInt8 × UInt8 × Bytes × Bytes :=
  (r.state, r.tries, r.dataSize, r.data.take r.dataSize.toNat, r.pin)

/-- **C06 (SVR2)**: the memory of a row was replaced by different content `r`, but the hash kept in the
integrity tree is still the one of the genuine row `r0` (`r.leaf`). If the row hash does not collide on
the two contents, `Restore` releases nothing and `Expose` fails, and neither changes the database.
`r.dataSize ≤ 48`: see `C06_db2_size_field_ub` for the complementary case. -/
theorem C06_db2_rollback_detected_partial (P : Prims) (path : Bytes → Bool) (db : DB) (id : Bytes) (r r0 : Row)
    (hr : db.find id = some r) (h0 : RowOK P id r0) (hleaf : r.leaf = r0.leaf)
    (hdiff : content r ≠ content r0)
    (hd : r.data.length = 48) (hsz : r.dataSize.toNat ≤ 48)
    (hcoll : hashFrom (P.sip16 (rowRaw id r)) = hashFrom (P.sip16 (rowRaw id r0)) → rowRaw id r = rowRaw id r0)
    (g d : Bytes) :
    (restore P path db id g = .ok (db, .restore .error [] 0) ∨
      restore P path db id g = .ok (db, .restore .missing [] 0)) ∧
    expose P path db id d = .ok (db, .expose false) := by
  have hne : ctEq (hashFrom (P.sip16 (rowRaw id r))) r.leaf = false := by
    rw [Bool.eq_false_iff]
    intro h
    rw [ctEq_iff, hleaf, h0.leaf_eq] at h
    obtain ⟨_, e1, e2, e3, e4, e5⟩ := rowRaw_inj h0.id_len h0.id_len hsz h0.size_le hd h0.data_len (hcoll h)
    exact hdiff (by simp [content, e1, e2, e3, e5, ← e4])
  constructor
  · unfold restore
    rw [hr]
    simp only
    by_cases hs : r.state ≠ AVAILABLE
    · rw [if_pos hs]; exact Or.inr rfl
    · rw [if_neg hs, verify_ok hsz, hne]; exact Or.inl rfl
  · unfold expose
    rw [hr]
    simp only
    rw [verify_ok hsz, hne]; rfl

/-- The complementary case of C06, which makes the property false of the code: if the overwritten row
has a size field above 48, hashing it for the integrity check already reads and writes outside its
48-byte arrays (`HashRow`, enclave/db/db2.cc:388), before anything is verified. -/
theorem C06_db2_size_field_ub (P : Prims) (path : Bytes → Bool) (db : DB) (id g : Bytes) (r : Row)
    (hr : db.find id = some r) (hst : r.state = AVAILABLE) (hsz : 48 < r.dataSize.toNat) :
    restore P path db id g = .ub := by
  unfold restore
  rw [hr]
  simp only
  rw [if_neg (by simpa using hst)]
  have : rowBytes id r = .ub := by unfold rowBytes; rw [if_pos hsz]
  simp [verify, hashRow, this]

/-- **C15 (SVR2)**: streaming a reachable database in chunks of any positive sizes (large enough in
total) into an empty one reproduces it exactly; so `Hash()` and all later responses agree as well. -/
theorem C15_db2_stream_reproduces (P : Prims) (db : DB) (h : Reach P db) (sizes : List Nat)
    (hpos : ∀ n ∈ sizes, 0 < n) (hsum : db.size ≤ sizes.sum) :
    transfer (fun c n => .ok (rowsAsProtos db c n)) (loadRows P) empty [] sizes = .ok (db, none) := by
  have hi := reach_inv h
  have := transfer_ok (ρ := id) (pb := rowToPB) db (fun c n => .ok (rowsAsProtos db c n)) (loadRows P)
    (fun p hp e => by have := (inv_mem hi hp).id_len; rw [e] at this; simp at this)
    (fun l1 l2 n hs => congrArg Out.ok (rowsAsProtos_ok hi l1 l2 n hs))
    (fun m1 m2 c hm hc hsub => loadRows_emitted hm hc (fun p hp => inv_mem hi (hsub p (by rw [hm]; simp [hp]))))
    sizes hpos empty db.list (by simp [empty]) hsum
  simpa [lastKeyOf, empty] using this

/-- **C16 (SVR2)**: whatever the batch, loading only appends rows with keys above all present ones,
leaves present rows alone, and reports success only if every row of the batch was added with exactly the
content received. Any database, any batch. -/
theorem C16_db2_load_only_appends (P : Prims) (db db' : DB) (rows : List (Option RowPB)) (res : Except Err Bytes)
    (h : loadRows P db rows = .ok (db', res)) :
    ∃ added, db'.list = db.list ++ added ∧
      (∀ p ∈ db.list, ∀ q ∈ added, p.1 < q.1) ∧
      (∀ k r, db.find k = some r → db'.find k = some r) ∧
      ∀ k, res = .ok k → List.Forall₂ (fun o p => ∃ x, o = some x ∧ p.1 = x.id ∧
        content p.2 = (x.state, x.tries.toUInt8, UInt8.ofNat x.data.length, x.data, x.pin)) rows added := by
  unfold loadRows at h
  cases hlen : (rows.length != 0) with
  | false => rw [hlen] at h; simp at h
  | true =>
    rw [hlen] at h
    simp only [Out.check_true, Out.bind_ok] at h
    cases hl : loadLoop P db rows with
    | abort => rw [hl] at h; simp at h
    | ub => rw [hl] at h; simp at h
    | ok q =>
      obtain ⟨db1, e⟩ := q
      rw [hl] at h
      simp only [Out.bind_ok] at h
      obtain ⟨c, hc, hcl, hf, hiff⟩ := loadLoopG_appends (loadRow P)
        (fun x k v => PBOK x ∧ k = x.id ∧ v = rowOfPB P x) (loadRow_step P) rows db db1 e hl
      have hdb : db1 = db' := by
        cases e with
        | some e => simp at h; exact h.1
        | none =>
          simp only at h
          split at h <;> simp at h <;> exact h.1
      subst hdb
      refine ⟨c, hc, ?_, ?_, ?_⟩
      · intro p hp q hq
        have := db1.sorted
        rw [hc] at this
        exact (List.pairwise_append.mp this).2.2 p hp q hq
      · intro k r hk
        rw [← OMap.mem_list] at hk ⊢
        rw [hc]; exact List.mem_append_left _ hk
      · intro k hk
        subst hk
        have he : e = none := by
          cases e with
          | some e => simp at h
          | none => rfl
        have hlen' := hiff.mp he
        rw [hlen', List.take_length] at hf
        refine hf.imp ?_
        rintro o ⟨k, v⟩ ⟨x, hx, hok, hk, hv⟩
        refine ⟨x, hx, hk, ?_⟩
        simp only at hv
        subst hv
        have hs : (UInt8.ofNat x.data.length).toNat = x.data.length := u8_ofNat_toNat' (by have := hok.data_le; omega)
        simp only [content, rowOfPB, hs, padTo_take]

/-- **C17 (SVR2)**: reachable databases with the same `Hash()` are equal, if SHA-256 does not collide on
the two inputs and the row hash does not collide between their rows. -/
theorem C17_db2_hash_identifies (P : Prims) (db1 db2 : DB) (h1 : Reach P db1) (h2 : Reach P db2)
    (hlen : ∀ x, (P.sip16 x).length = 16) (hh : hash P db1 = hash P db2)
    (hsha : ∀ x y, hashInput P db1 = .ok x → hashInput P db2 = .ok y → P.sha256 x = P.sha256 y → x = y)
    (hsip : ∀ p ∈ db1.list, ∀ q ∈ db2.list,
      P.sip16 (rowRaw p.1 p.2) = P.sip16 (rowRaw q.1 q.2) → rowRaw p.1 p.2 = rowRaw q.1 q.2) :
    db1 = db2 := by
  have i1 := reach_inv h1
  have i2 := reach_inv h2
  have e1 := hash_ok i1
  have e2 := hash_ok i2
  have heq := hsha _ _ (hashInput_ok i1) (hashInput_ok i2) (by rw [e1, e2] at hh; exact Out.ok.inj hh)
  have hb := (List.append_inj heq (by simp)).2
  apply OMap.ext
  exact rows_eq_of_map db1.list db2.list (fun p hp => inv_mem i1 hp) (fun p hp => inv_mem i2 hp) hsip
    (flatMap_blocks_inj (by omega) (fun _ => hlen _) (fun _ => hlen _) _ _ hb)

/-- **C18 (SVR2)**: in a reachable database and with an intact tree, the integrity check of every row
succeeds, and no `Restore` is answered with the integrity ERROR. -/
theorem C18_db2_no_false_alarm (P : Prims) (db : DB) (h : Reach P db) :
    (∀ id r, db.find id = some r → verify P (fun _ => true) id r = .ok true) ∧
    ∀ id g db' s t, restore P (fun _ => true) db id g = .ok (db', .restore .error s t) → False := by
  have hi := reach_inv h
  have hv : ∀ id r, db.find id = some r → verify P (fun _ => true) id r = .ok true := by
    intro id r hr
    rw [verify_ok (hi id r hr).size_le]
    simp [← (hi id r hr).leaf_eq]
  refine ⟨hv, ?_⟩
  intro id g db' s t he
  unfold restore at he
  cases hr : db.find id with
  | none => rw [hr] at he; simp at he
  | some r =>
    rw [hr] at he
    simp only at he
    by_cases hs : r.state ≠ AVAILABLE
    · rw [if_pos hs] at he; simp at he
    · rw [if_neg hs, hv id r hr] at he
      simp only [Out.bind_ok, Bool.not_true, Bool.false_eq_true, if_false] at he
      by_cases hg : ctEq g r.pin = true
      · rw [if_pos hg] at he; simp at he
      · rw [if_neg hg] at he
        by_cases ht : r.tries - 1 = 0
        · rw [if_pos ht] at he; simp at he
        · rw [if_neg ht, updateLeaf_ok (by exact (hi id r hr).size_le)] at he; simp at he

/-! ### Non-vacuity -/
section Examples
def ida : Bytes := List.replicate 16 1
def idb : Bytes := List.replicate 16 2
def sec : Bytes := List.replicate 20 7
def pinA : Bytes := List.replicate 32 3
/-- Toy primitives: 16 bytes that identify the short rows used below. -/
def P0 : Prims := ⟨fun b => padTo 16 ((b.drop 16).take 8), fun b => b⟩

/-- A history with entries and a received batch whose second row has an unknown state number. -/
def evs : List Ev :=
  [.entry (fun _ => true) ⟨ida, .backup sec pinA 2⟩, .entry (fun _ => true) ⟨ida, .expose sec⟩,
   .load [some ⟨idb, 5, sec, pinA, 7⟩]]

example : ∀ e ∈ evs, e.ok := by
  intro e he
  simp only [evs, List.mem_cons, List.not_mem_nil, or_false] at he
  rcases he with rfl | rfl | rfl
  · show validate _ = none; decide
  · show validate _ = none; decide
  · show _ ≠ []; decide

/-- The reached database has two rows. -/
example : (match runEvs P0 empty evs with | .ok db => db.size | _ => 0) = 2 := by decide
/-- Genuine row with one try left, and the rolled-back one with two: the hypotheses of C06 hold. -/
example : ∃ r r0, RowOK P0 ida r0 ∧ r.leaf = r0.leaf ∧ content r ≠ content r0 ∧ r.data.length = 48 ∧
    r.dataSize.toNat ≤ 48 ∧ hashFrom (P0.sip16 (rowRaw ida r)) ≠ hashFrom (P0.sip16 (rowRaw ida r0)) := by
  let mk : UInt8 → Row := fun t => ⟨AVAILABLE, t, 20, padTo 48 sec, pinA, []⟩
  let r0 : Row := { mk 1 with leaf := hashFrom (P0.sip16 (rowRaw ida (mk 1))) }
  refine ⟨{ mk 2 with leaf := r0.leaf }, r0, ⟨?_, ?_, ?_, ?_, ?_, ?_, ?_, ?_⟩, ?_, ?_, ?_, ?_, ?_⟩ <;> decide
example : (match transfer (fun c n => .ok (rowsAsProtos (match runEvs P0 empty evs with | .ok db => db | _ => empty) c n))
    (loadRows P0) empty [] [1, 1] with | .ok (db, none) => db.size | _ => 0) = 2 := by decide
end Examples

end Svr.Props.DB2Rows
