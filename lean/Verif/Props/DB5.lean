import Verif.DB5Rows
import Mathlib.Data.List.Induction

/-!
# SVR5 properties (C04–C06, C14–C18 for SVR5)
-/

namespace Svr.Props.DB5
open Svr.DB5 Svr.Spec5

/-- Apply a history of entries. -/
def runAll (P : Prims5) (path : Bytes → Bool) : DB → List Log → Out (DB × List Resp) := runList (run P path)

/-- Every entry passes `ValidateClientLog`. -/
def Valid (logs : List Log) : Prop := ∀ l ∈ logs, validate l = none
instance (logs : List Log) : Decidable (Valid logs) := by unfold Valid; infer_instance

abbrev entries (a : Bytes) (ls : List Log) : List Log := entriesOf (·.id) a ls

def isDownload : Log → Bool
  | ⟨_, .download _⟩ => true
  | _ => false

/-- The state of an account is its latest upload, unless purged since. -/
theorem state_iff (hmac) (ls : List Log) (hv : ∀ l ∈ ls, l.req ≠ .unset) (d : Bytes) :
    (specRun (astep hmac) none ls).1 = some d ↔
      ∃ pre post l, ls = pre ++ l :: post ∧ l.req = .upload d ∧ ∀ x ∈ post, isDownload x = true := by
  induction ls using List.reverseRecOn with
  | nil => simp [specRun]
  | append_singleton ls l ih =>
    have ih := ih (fun x hx => hv x (by simp [hx]))
    rw [specRun_append]
    simp only [specRun]
    have hlast : (∃ pre post l', ls ++ [l] = pre ++ l' :: post ∧ l'.req = .upload d ∧ ∀ x ∈ post, isDownload x = true)
        ↔ l.req = .upload d ∨ (isDownload l = true ∧
          ∃ pre post l', ls = pre ++ l' :: post ∧ l'.req = .upload d ∧ ∀ x ∈ post, isDownload x = true) := by
      constructor
      · rintro ⟨pre, post, l', e, h1, h2⟩
        rcases List.eq_nil_or_concat post with rfl | ⟨post', z, rfl⟩
        · have := List.append_inj' e rfl
          simp only [List.cons.injEq, and_true] at this
          exact Or.inl (by rw [this.2]; exact h1)
        · simp only [List.concat_eq_append] at e h2
          have e2 : ls ++ [l] = (pre ++ l' :: post') ++ [z] := by rw [e]; simp
          have := List.append_inj' e2 rfl
          simp only [List.cons.injEq, and_true] at this
          exact Or.inr ⟨by rw [this.2]; exact h2 z (by simp), pre, post', l', this.1, h1, fun x hx => h2 x (by simp [hx])⟩
      · rintro (h | ⟨h, pre, post, l', rfl, h1, h2⟩)
        · exact ⟨ls, [], l, rfl, h, by simp⟩
        · refine ⟨pre, post ++ [l], l', by simp, h1, ?_⟩
          intro x hx
          rcases List.mem_append.mp hx with hx | hx
          · exact h2 x hx
          · simp only [List.mem_singleton] at hx; subst hx; exact h
    rw [hlast, ← ih]
    obtain ⟨id, req⟩ := l
    cases req with
    | upload d' => simp [astep, isDownload]
    | download p => cases (specRun (astep hmac) none ls).1 <;> simp [astep, isDownload]
    | purge => simp [astep, isDownload]
    | unset => exact absurd rfl (hv ⟨id, .unset⟩ (by simp))

/-- **C14**: after any history, Download is answered OK with the HMAC keyed by the account's latest
Upload, if that Upload was not followed by a Purge, and MISSING otherwise. -/
theorem C14_download_latest_upload (P : Prims5) (logs : List Log) (a p : Bytes)
    (hv : Valid (logs ++ [⟨a, .download p⟩])) :
    ∃ db rs r, runAll P intact empty (logs ++ [⟨a, .download p⟩]) = .ok (db, rs ++ [r]) ∧
      (∀ out, r = .download .ok out ↔
        ∃ pre post l d, entries a logs = pre ++ l :: post ∧ l.req = .upload d ∧
          (∀ x ∈ post, isDownload x = true) ∧ out = P.hmac d p) ∧
      ((¬ ∃ pre post l d, entries a logs = pre ++ l :: post ∧ l.req = .upload d ∧
          ∀ x ∈ post, isDownload x = true) → r = .download .missing []) := by
  obtain ⟨db1, rs1, e1, i1, l1, s1⟩ := (sim P).runList_spec logs empty (inv_empty P) (fun l hl => hv l (by simp [hl]))
  obtain ⟨db2, h2, _, _, _⟩ := (sim P).sim db1 ⟨a, .download p⟩ i1 (hv _ (by simp))
  have hl : look db1 a = (specRun (astep P.hmac) none (entries a logs)).1 := (s1 a).1
  have hnu : ∀ l ∈ entries a logs, l.req ≠ .unset := by
    intro l hl h
    have := hv l (by simp only [entries, entriesOf, List.mem_filter] at hl; simp [hl.1])
    rw [validate_iff, h] at this
    exact this.2
  have hst := state_iff P.hmac (entries a logs) hnu
  refine ⟨db2, rs1, (astep P.hmac (look db1 a) ⟨a, .download p⟩).2, ?_, ?_, ?_⟩
  · unfold runAll
    change runList (run P intact) empty logs = _ at e1
    change run P intact db1 ⟨a, .download p⟩ = _ at h2
    rw [runList_append, e1]
    simp only [Out.bind_ok, runList, h2, Out.pure_eq]
    rfl
  · intro out
    rw [hl]
    constructor
    · intro h
      cases ho : (specRun (astep P.hmac) none (entries a logs)).1 with
      | none => simp [ho, astep] at h
      | some d =>
        simp only [ho, astep, Resp.download.injEq, true_and] at h
        obtain ⟨pre, post, l, h1, h2, h3⟩ := (hst d).mp ho
        exact ⟨pre, post, l, d, h1, h2, h3, h.symm⟩
    · rintro ⟨pre, post, l, d, h1, h2, h3, rfl⟩
      rw [(hst d).mpr ⟨pre, post, l, h1, h2, h3⟩]
      rfl
  · intro hno
    rw [hl]
    cases ho : (specRun (astep P.hmac) none (entries a logs)).1 with
    | none => rfl
    | some d =>
      obtain ⟨pre, post, l, h1, h2, h3⟩ := (hst d).mp ho
      exact absurd ⟨pre, post, l, d, h1, h2, h3⟩ hno

/-- **C04 (SVR5)**: an entry for account `a` does not change what any later sequence of requests by
another account `b` observes. Any database, tampered or not. -/
theorem C04_db5_isolation (P : Prims5) (path : Bytes → Bool) (db db' : DB) (la : Log) (ra : Resp)
    (h : run P path db la = .ok (db', ra)) (b : Bytes) (hb : b ≠ la.id) (ls : List Log)
    (hls : ∀ l ∈ ls, l.id = b) :
    outcome (runAll P path db' ls) = outcome (runAll P path db ls) :=
  isolation_of_local (run P path) (·.id) (fun s k => s.find k) (fun s k o => s.set k o)
    (fun _ _ _ => OMap.find_set_self _ _ _) (fun _ _ _ _ hk => OMap.find_set_ne _ _ hk)
    (run_local P path) db db' la ra h b hb ls hls

/-- **C05 (SVR5)**: no history of validated entries and arbitrary non-empty row batches, whatever the
integrity walk reports, reaches a `CHECK` failure or undefined behaviour; rows hold exactly 32 bytes. -/
theorem C05_db5_never_aborts (P : Prims5) (es : List Ev) (hok : ∀ e ∈ es, e.ok) :
    ∃ db, runEvs P empty es = .ok db ∧
      ∀ id r, db.find id = some r → id.length = 16 ∧ r.data.length = 32 := by
  obtain ⟨db, h1, h2⟩ := runEvs_inv P es empty (inv_empty P) hok
  exact ⟨db, h1, fun id r hr => ⟨(h2 id r hr).id_len, (h2 id r hr).data_len⟩⟩

/-- **C06 (SVR5)**: the memory of a row was replaced by different data, the hash in the integrity tree is
still the one of the genuine row `r0`. Unless the row hash collides on the two, Download answers
MERKLE_FAILURE and releases nothing. -/
theorem C06_db5_rollback_detected (P : Prims5) (path : Bytes → Bool) (db : DB) (id p : Bytes) (r r0 : Row)
    (hr : db.find id = some r) (h0 : RowOK P id r0) (hleaf : r.leaf = r0.leaf) (hdiff : r.data ≠ r0.data)
    (hcoll : hashFrom (P.sip16 (rowRaw id r)) = hashFrom (P.sip16 (rowRaw id r0)) → rowRaw id r = rowRaw id r0) :
    download P path db id p = (db, .download .merkleFailure []) := by
  have hne : ctEq (hashFrom (P.sip16 (rowRaw id r))) r.leaf = false := by
    rw [Bool.eq_false_iff]
    intro h
    rw [ctEq_iff, hleaf, h0.leaf_eq] at h
    exact hdiff (rowRaw_inj h0.id_len h0.id_len (hcoll h)).2
  unfold download
  rw [hr]
  simp only
  rw [if_pos]
  simp [verify, hne]

/-- **C15 (SVR5)**: streaming a reachable database in chunks of any positive sizes (large enough in
total) into an empty one reproduces it exactly. -/
theorem C15_db5_stream_reproduces (P : Prims5) (db : DB) (h : Reach P db) (sizes : List Nat)
    (hpos : ∀ n ∈ sizes, 0 < n) (hsum : db.size ≤ sizes.sum) :
    transfer (fun c n => .ok (rowsAsProtos db c n)) (loadRows P) empty [] sizes = .ok (db, none) := by
  have hi := reach_inv h
  have := transfer_ok (ρ := id) (pb := rowToPB) db (fun c n => .ok (rowsAsProtos db c n)) (loadRows P)
    (fun p hp e => by have := (inv_mem hi hp).id_len; rw [e] at this; simp at this)
    (fun l1 l2 n hs => congrArg Out.ok (rowsAsProtos_ok hi l1 l2 n hs))
    (fun m1 m2 c hm hc hsub => loadRows_emitted hm hc (fun p hp => inv_mem hi (hsub p (by rw [hm]; simp [hp]))))
    sizes hpos empty db.list (by simp [empty]) hsum
  simpa [lastKeyOf, empty] using this

/-- **C16 (SVR5)**: whatever the batch, loading only appends rows with keys above all present ones,
leaves present rows alone, and reports success only if every row of the batch was added with the content
received. -/
theorem C16_db5_load_only_appends (P : Prims5) (db db' : DB) (rows : List (Option RowPB)) (res : Except Err Bytes)
    (h : loadRows P db rows = .ok (db', res)) :
    ∃ added, db'.list = db.list ++ added ∧
      (∀ p ∈ db.list, ∀ q ∈ added, p.1 < q.1) ∧
      (∀ k r, db.find k = some r → db'.find k = some r) ∧
      ∀ k, res = .ok k → List.Forall₂ (fun o p => ∃ x, o = some x ∧ p.1 = x.id ∧ p.2.data = x.data) rows added := by
  unfold loadRows at h
  cases hlen : (rows.length != 0) with
  | false => rw [hlen] at h; simp at h
  | true =>
  rw [hlen] at h
  simp only [Out.check_true, Out.bind_ok] at h
  cases hl : loadLoopG (loadRow P) db rows with
  | abort => rw [hl] at h; simp at h
  | ub => rw [hl] at h; simp at h
  | ok q =>
    obtain ⟨db1, e⟩ := q
    rw [hl] at h
    simp only [Out.bind_ok] at h
    obtain ⟨c, hc, hcl, hf, hiff⟩ := loadLoopG_appends (loadRow P)
      (fun x k v => PBOK x ∧ k = x.id ∧ v = rowOfPB P x) (loadRow_step P) rows db db1 e hl
    have hdb : db1 = db' := by
      cases e with
      | some e => simp at h; exact h.1
      | none =>
        simp only at h
        split at h <;> simp at h <;> exact h.1
    subst hdb
    refine ⟨c, hc, ?_, ?_, ?_⟩
    · intro p hp q hq
      have := db1.sorted
      rw [hc] at this
      exact (List.pairwise_append.mp this).2.2 p hp q hq
    · intro k r hk
      rw [← OMap.mem_list] at hk ⊢
      rw [hc]; exact List.mem_append_left _ hk
    · intro k hk
      subst hk
      have he : e = none := by
        cases e with
        | some e => simp at h
        | none => rfl
      have hlen' := hiff.mp he
      rw [hlen', List.take_length] at hf
      refine hf.imp ?_
      rintro o ⟨k, v⟩ ⟨x, hx, hok, hk, hv⟩
      simp only at hv hk
      subst hv
      exact ⟨x, hx, hk, rfl⟩

/-- **C17 (SVR5)**: reachable databases with the same `Hash()` are equal, if SHA-256 does not collide on
the two inputs and the row hash does not collide between their rows. -/
theorem C17_db5_hash_identifies (P : Prims5) (db1 db2 : DB) (h1 : Reach P db1) (h2 : Reach P db2)
    (hlen : ∀ x, (P.sip16 x).length = 16) (hh : hash P db1 = hash P db2)
    (hsha : P.sha256 (hashInput P db1) = P.sha256 (hashInput P db2) → hashInput P db1 = hashInput P db2)
    (hsip : ∀ p ∈ db1.list, ∀ q ∈ db2.list,
      P.sip16 (rowRaw p.1 p.2) = P.sip16 (rowRaw q.1 q.2) → rowRaw p.1 p.2 = rowRaw q.1 q.2) :
    db1 = db2 := by
  have i1 := reach_inv h1
  have i2 := reach_inv h2
  have hb := (List.append_inj (hsha hh) (by simp)).2
  apply OMap.ext
  exact rows_eq_of_map db1.list db2.list (fun p hp => inv_mem i1 hp) (fun p hp => inv_mem i2 hp) hsip
    (flatMap_blocks_inj (by omega) (fun _ => hlen _) (fun _ => hlen _) _ _ hb)

/-- **C18 (SVR5)**: in a reachable database and with an intact tree, the integrity check of every row
succeeds, so Download never answers MERKLE_FAILURE. -/
theorem C18_db5_no_false_alarm (P : Prims5) (db : DB) (h : Reach P db) :
    (∀ id r, db.find id = some r → verify P (fun _ => true) id r = true) ∧
    ∀ id p db' out, download P (fun _ => true) db id p ≠ (db', .download .merkleFailure out) := by
  have hi := reach_inv h
  refine ⟨fun id r hr => verify_ok (hi id r hr) _, ?_⟩
  intro id p db' out he
  unfold download at he
  cases hf : db.find id with
  | none => rw [hf] at he; simp at he
  | some r =>
    rw [hf] at he
    simp [verify_ok (hi id r hf)] at he

/-! ### Non-vacuity -/
section Examples
def ida : Bytes := List.replicate 16 1
def idb : Bytes := List.replicate 16 2
def d1 : Bytes := List.replicate 32 5
def d2 : Bytes := List.replicate 32 6
def pw : Bytes := List.replicate 32 9
/-- Toy primitives. -/
def P0 : Prims5 := ⟨⟨fun b => padTo 16 ((b.drop 16).take 8), fun b => b⟩, fun k m => k ++ m⟩

def hist : List Log := [⟨ida, .upload d1⟩, ⟨ida, .upload d2⟩, ⟨idb, .upload d1⟩, ⟨idb, .purge⟩, ⟨ida, .download pw⟩]
example : Valid (hist ++ [⟨ida, .download pw⟩]) := by decide
example : (match runAll P0 intact empty (hist ++ [⟨ida, .download pw⟩, ⟨idb, .download pw⟩]) with
  | .ok (_, rs) => rs.drop 4 | _ => []) =
    [.download .ok (d2 ++ pw), .download .ok (d2 ++ pw), .download .missing []] := by decide
/-- Genuine row `d2`, rolled back to `d1`. -/
example : ∃ r r0, RowOK P0 ida r0 ∧ r.leaf = r0.leaf ∧ r.data ≠ r0.data ∧
    hashFrom (P0.sip16 (rowRaw ida r)) ≠ hashFrom (P0.sip16 (rowRaw ida r0)) := by
  let r0 : Row := updateLeaf P0 ida ⟨d2, []⟩
  refine ⟨{ r0 with data := d1 }, r0, ⟨?_, ?_, ?_⟩, ?_, ?_, ?_⟩ <;> decide
def evs : List Ev := [.entry (fun _ => true) ⟨ida, .upload d1⟩, .load [some ⟨idb, d2⟩, none]]
example : ∀ e ∈ evs, e.ok := by
  intro e he
  simp only [evs, List.mem_cons, List.not_mem_nil, or_false] at he
  rcases he with rfl | rfl
  · show validate _ = none; decide
  · show _ ≠ []; simp
example : (match runEvs P0 empty evs with | .ok db => db.size | _ => 0) = 2 := by decide
end Examples

end Svr.Props.DB5
