import Verif.Wire.Size
import Verif.Core.ReplicateDb
import Verif.Props.Requests
import Verif.Props.PeerWire
import Verif.Props.Replicate
import Verif.Props.DB5

/-!
# C101: state that is sent to another enclave fits into messages, and is read as it was sent

A push has at most `replication_chunk_bytes` bytes, plus one log entry, plus what the code does not count. C34 speaks about pushes as values; here they are bytes.
-/

namespace Svr.Props.PushWire

open Svr.Core Svr.Wire
open Svr.Raft (Entry Membership Sizes)
open Svr.Minimums (Limits)

variable {P D L E PB : Type} [LinearOrder P]

/-- How rows and the ids of replicas are written and read. -/
structure Coding (P PB : Type) where
  row : PB → Bytes
  unrow : Bytes → Option PB
  name : P → Bytes
  unname : Bytes → Option P

/-- What is written is read; names are those of peers (C47). -/
structure Coding.Law (k : Coding P PB) : Prop where
  rows : ∀ x, (k.row x).length ≤ maxLen → k.unrow (k.row x) = some x
  names : ∀ p, k.unname (k.name p) = some p
  len : ∀ p, (k.name p).length = 32

/-- The fields of `ReplicateStatePush` (enclave/core/core.cc:1269-1276, 1285, 1304-1317). -/
def toW (k : Coding P PB) (p : Push P PB) : PushW :=
  ⟨p.id, p.seq, p.first, p.entries, p.toEnd, p.rows.map k.row,
    p.mem.map fun m => m.map fun x => ((x.1.map k.name).getD [], x.2), some p.limits⟩

/-- A push as it is read (enclave/core/core.cc:1347-1424); here `none` means that a row does not parse. -/
def ofW (k : Coding P PB) (w : PushW) : Option (Push P PB) :=
  (w.rows.mapM k.unrow).map fun rs =>
    ⟨w.id, w.seq, w.first, w.entries, w.toEnd, rs, w.mem.map fun m => m.map fun x => (k.unname x.1, x.2), w.lim.getD OMap.empty⟩

/-- The sizes of the library: of entries, and of a push before membership and limits are set (enclave/core/core.cc:1297). -/
def wireCfg (ord : Limits → List (Bytes × Bytes)) (k : Coding P PB) (z : Sizes) (chunk pipeline : Nat) : RepCfg P PB :=
  ⟨{ z with bytes := fun e => (encEntry e).length }, chunk, pipeline, fun p => (enc (pushF ord { toW k p with mem := none, lim := none })).length⟩

/-- At most `n` rows are given, and each takes up at most `extra` bytes more than was advertised. -/
def RowsFit (st : Store D L E PB) (k : Coding P PB) (extra : Nat) (d : D) (key : Bytes) : Prop :=
  ∀ n r rs, st.rows d key n = .ok (some (r, rs)) → rs.length ≤ n ∧ ∀ x ∈ rs, (field (6, .len (k.row x))).length ≤ st.maxRow + extra

/-! ## Sizes -/

theorem enc_len (a b : Fields) : (enc (a ++ b)).length = (enc a).length + (enc b).length := by rw [enc_append, List.length_append]

theorem entry_ge {e : Entry} (h : e.hash.length = 32) : 32 ≤ (encEntry e).length := by
  have hm : (4, Raw.len e.hash) ∈ entryF e := by
    have : fBytes 4 e.hash = [(4, Raw.len e.hash)] := by
      unfold fBytes
      rw [if_neg]
      intro h'
      rw [h'] at h
      cases h
    simp [entryF, this]
  have := len_le_enc hm
  unfold encEntry
  omega

/-- The entries of a message as fields. -/
def entriesF (es : List Entry) : Fields := es.map fun e => (4, .len (enc (entryF e)))

theorem entriesF_cons (e : Entry) (t : List Entry) :
    (enc (entriesF (e :: t))).length = (field (4, .len (encEntry e))).length + (enc (entriesF t)).length := by
  have : enc (entriesF (e :: t)) = field (4, .len (encEntry e)) ++ enc (entriesF t) := rfl
  rw [this, List.length_append]

/-- The loop of `SendNextReplicationState` takes entries of `chunk` bytes at most, and one more. -/
theorem gather_size {z : Sizes} (hz : ∀ e, z.bytes e = (encEntry e).length) (applied chunk M : Nat) : ∀ (T : List Entry) (idx size : Nat),
    (∀ e ∈ T, e.hash.length = 32 ∧ (encEntry e).length ≤ M) →
    16 * (enc (entriesF (Svr.Core.gather z applied chunk T idx size).1)).length + 17 * size ≤ 17 * (max size chunk + M + 1)
  | [], idx, size, _ => by
    have : enc (entriesF []) = [] := rfl
    simp only [Svr.Core.gather, this, List.length_nil]
    omega
  | e :: t, idx, size, h => by
    have he := h e List.mem_cons_self
    have h32 := entry_ge he.1
    have hf := field_len_le (f := 4) (b := encEntry e) (by omega)
    have h0 : enc (entriesF []) = [] := rfl
    unfold Svr.Core.gather
    rw [hz]
    by_cases h1 : idx > applied
    · rw [if_pos h1]
      simp only [h0, List.length_nil]
      omega
    · rw [if_neg h1]
      by_cases h2 : size + ((encEntry e).length + 1) ≥ chunk
      · rw [if_pos h2]
        simp only [entriesF_cons, h0, List.length_nil]
        omega
      · rw [if_neg h2]
        have ih := gather_size hz applied chunk M t (idx + 1) (size + ((encEntry e).length + 1)) fun x hx => h x (List.mem_cons_of_mem _ hx)
        simp only [entriesF_cons]
        omega

theorem rows_size {k : Coding P PB} {b : Nat} : ∀ {rs : List PB}, (∀ x ∈ rs, (field (6, .len (k.row x))).length ≤ b) →
    (enc ((rs.map k.row).map fun r => (6, Raw.len r))).length ≤ rs.length * b
  | [], _ => by simp [enc]
  | x :: t, h => by
    have h1 := h x List.mem_cons_self
    have h2 := rows_size (rs := t) fun y hy => h y (List.mem_cons_of_mem _ hy)
    have : enc (((x :: t).map k.row).map fun r => (6, Raw.len r)) = field (6, .len (k.row x)) ++ enc ((t.map k.row).map fun r => (6, Raw.len r)) := rfl
    rw [this, List.length_append, List.length_cons, Nat.add_mul]
    omega

variable {ord : Limits → List (Bytes × Bytes)} {utf8 : Bytes → Bool} {k : Coding P PB} {z : Sizes} {chunk pipeline : Nat}
  {st : Store D L E PB} {s : Src P D} {ps ps' : PushState} {p : Push P PB}

/-- What a push is made of. -/
theorem sent (h : sendNext (wireCfg ord k z chunk pipeline) st s ps = .ok (ps', .ok p)) : ∃ g : List Entry × Bool, ∃ rs fin,
    g = Svr.Core.gather { z with bytes := fun e => (encEntry e).length } s.hist.length chunk (s.log.entries.drop (s.log.pos ps.logsFrom))
      (s.log.oldest + s.log.pos ps.logsFrom) 0 ∧
    p = ⟨ps.id, ps.seq, ps.logsFrom, g.1, fin, rs, some s.mem.asProto, s.limits⟩ ∧
    ((rs = [] ∧ fin = false) ∨ ∃ n r, st.rows s.db ps.dbFrom n = .ok (some (r, rs)) ∧
      let b := (enc (pushF ord ⟨ps.id, ps.seq, ps.logsFrom, g.1, false, [], none, none⟩)).length
      b < chunk ∧ n = (chunk - b) / st.maxRow) := by
  unfold sendNext at h
  obtain ⟨_, -, h⟩ := Out.bind_eq_ok.mp h
  obtain ⟨x, h1, h⟩ := Out.bind_eq_ok.mp h
  cases x with
  | none => cases h
  | some x =>
    obtain ⟨rs, key, fin⟩ := x
    cases h
    refine ⟨_, rs, fin, rfl, rfl, ?_⟩
    unfold pushRows at h1
    split at h1
    · rename_i hc
      simp only at h1
      split at h1
      · obtain ⟨y, h2, h1⟩ := Out.bind_eq_ok.mp h1
        cases y with
        | none => cases h1
        | some y =>
          obtain ⟨r, rs'⟩ := y
          cases h1
          exact .inr ⟨_, _, h2, hc.2, rfl⟩
      · cases h1; exact .inl ⟨rfl, rfl⟩
    · cases h1; exact .inl ⟨rfl, rfl⟩

/-- **C101**: how large a push is. `M` bounds the entries of the log; the last term is what is written after the size was measured. -/
theorem C101_push_size {extra M : Nat} (h : sendNext (wireCfg ord k z chunk pipeline) st s ps = .ok (ps', .ok p))
    (hr : RowsFit st k extra s.db ps.dbFrom) (hM : ∀ e ∈ s.log.entries, e.hash.length = 32 ∧ (encEntry e).length ≤ M)
    (hi : ps.id < 2 ^ 64) (hq : ps.seq < 2 ^ 64) (hf : ps.logsFrom < 2 ^ 64) :
    16 * (enc (pushF ord (toW k p))).length ≤ 17 * (chunk + M + 1) + 16 * (extra * (chunk / st.maxRow) + 33 +
      (enc (fOpt 7 groupF (toW k p).mem)).length + (enc (fOpt 8 (limitsF ord) (toW k p).lim)).length) := by
  obtain ⟨g, rs, fin, hg, rfl, hx⟩ := sent h
  have h1 := fNum_le (f := 1) (by omega) hi
  have h2 := fNum_le (f := 2) (by omega) hq
  have h3 := fNum_le (f := 3) (by omega) hf
  have h5 := fBool_le (f := 5) (b := fin) (by omega)
  have hsz := gather_size (z := { z with bytes := fun e => (encEntry e).length }) (fun _ => rfl) s.hist.length chunk M
    (s.log.entries.drop (s.log.pos ps.logsFrom)) (s.log.oldest + s.log.pos ps.logsFrom) 0
    fun e he => hM e (List.mem_of_mem_drop he)
  rw [← hg, entriesF] at hsz
  simp only [pushF, toW, enc_len] at hx ⊢
  rcases hx with ⟨rfl, rfl⟩ | ⟨n, r, h6, h7, h8⟩
  · have e1 : enc (List.map (fun r => (6, Raw.len r)) (List.map k.row [])) = [] := rfl
    have e2 : enc (fBool 5 false) = [] := rfl
    simp only [e1, e2, List.length_nil]
    omega
  · obtain ⟨k1, k2⟩ := hr _ _ _ h6
    have k3 := rows_size k2
    have e1 : enc (List.map (fun r => (6, Raw.len r)) []) = [] := rfl
    have e2 : enc (fBool 5 false) = [] := rfl
    have e3 : (enc (fOpt 7 groupF none)) = [] := rfl
    have e4 : (enc (fOpt 8 (limitsF ord) none)) = [] := rfl
    simp only [e1, e2, e3, e4, List.length_nil] at h7 h8
    have k4 : rs.length * (st.maxRow + extra) ≤ n * (st.maxRow + extra) := Nat.mul_le_mul_right _ k1
    have k5 : n * st.maxRow ≤ chunk - ((enc (fNum 1 ps.id)).length + (enc (fNum 2 ps.seq)).length + (enc (fNum 3 ps.logsFrom)).length +
        (enc (List.map (fun e => (4, Raw.len (enc (entryF e)))) g.1)).length) := by
      rw [h8]
      exact Nat.div_mul_le_self _ _
    have k6 : n * extra ≤ extra * (chunk / st.maxRow) := by
      rw [h8, Nat.mul_comm]
      exact Nat.mul_le_mul_left _ (Nat.div_le_div_right (by omega))
    rw [Nat.mul_add n] at k4
    omega

/-! ## Reading -/

theorem unrow_all (hk : k.Law) : ∀ {rs : List PB}, (∀ x ∈ rs, (k.row x).length ≤ maxLen) → (rs.map k.row).mapM k.unrow = some rs
  | [], _ => rfl
  | x :: t, h => by
    rw [List.map_cons, List.mapM_cons, hk.rows x (h x List.mem_cons_self), unrow_all hk fun y hy => h y (List.mem_cons_of_mem _ hy)]
    rfl

theorem group_size (hk : k.Law) (voting : P → Bool) : ∀ l : List P, (enc (groupF (l.map fun x => (k.name x, voting x)))).length ≤ 38 * l.length
  | [] => by simp [groupF, enc]
  | x :: t => by
    have h := group_size hk voting t
    have e : enc (groupF ((x :: t).map fun x => (k.name x, voting x))) =
        field (1, .len (enc (replicaF (k.name x, voting x)))) ++ enc (groupF (t.map fun x => (k.name x, voting x))) := rfl
    have h1 := fBytes_small (f := 1) (b := k.name x) (by omega) (by rw [hk.len]; omega)
    have h2 := fBool_le (f := 2) (b := voting x) (by omega)
    rw [hk.len] at h1
    have h3 : (enc (replicaF (k.name x, voting x))).length ≤ 36 := by
      simp only [replicaF, enc_len]
      omega
    have h4 := field_len_le (f := 1) (b := enc (replicaF (k.name x, voting x))) (by omega)
    rw [e, List.length_append, List.length_cons]
    omega

/-- The members are written as names. -/
theorem members (k : Coding P PB) (m : Membership P) :
    (m.asProto.map fun x => ((x.1.map k.name).getD [], x.2)) = m.all.map fun x => (k.name x, decide (x ∈ m.voting)) := by
  simp [Membership.asProto, Function.comp_def]

/-- **C101**: a push is read as it was sent, rows, entries, members and limits, as long as the configured size, the largest entry, the members and the limits
leave room in a message of two gigabytes. -/
theorem C101_push_read {extra M i : Nat} (hk : k.Law) (ho : ∀ m : Limits, (ord m).Perm m.list)
    (h : sendNext (wireCfg ord k z chunk pipeline) st s ps = .ok (ps', .ok p))
    (hr : RowsFit st k extra s.db ps.dbFrom) (hM : ∀ e ∈ s.log.entries, e.hash.length = 32 ∧ (encEntry e).length ≤ M ∧ e.term < 2 ^ 64)
    (hi : ps.id < 2 ^ 64) (hq : ps.seq < 2 ^ 64) (hf : ps.logsFrom < 2 ^ 64) (hreq : i < 2 ^ 64) (hu : ∀ x ∈ s.limits.list, utf8 x.1 = true)
    (hfit : 17 * (chunk + M + 1) + 16 * (extra * (chunk / st.maxRow) + 39 * s.mem.all.length + (enc (fOpt 8 (limitsF ord) (some s.limits))).length + 58) ≤
      16 * maxLen) :
    decE2E utf8 (encE2E ord (.request i (.push (toW k p)))) = some (.request i (.push (toW k p))) ∧ ofW k (toW k p) = some p := by
  have hs := C101_push_size h hr (fun e he => ⟨(hM e he).1, (hM e he).2.1⟩) hi hq hf
  obtain ⟨g, rs, fin, hg, rfl, -⟩ := sent h
  have hmem := group_size hk (fun x => decide (x ∈ s.mem.voting)) s.mem.all
  have hml : maxLen = 2147483631 := rfl
  have hm : (enc (fOpt 7 groupF (toW k ⟨ps.id, ps.seq, ps.logsFrom, g.1, fin, rs, some s.mem.asProto, s.limits⟩).mem)).length ≤ 39 * s.mem.all.length + 2 := by
    have := field_len_le (f := 7) (b := enc (groupF (s.mem.all.map fun x => (k.name x, decide (x ∈ s.mem.voting))))) (by omega)
    have e : enc (fOpt 7 groupF (toW k ⟨ps.id, ps.seq, ps.logsFrom, g.1, fin, rs, some s.mem.asProto, s.limits⟩).mem) =
        field (7, .len (enc (groupF (s.mem.all.map fun x => (k.name x, decide (x ∈ s.mem.voting)))))) := by
      simp only [toW, Option.map_some, members, fOpt, enc, List.flatMap_cons, List.flatMap_nil, List.append_nil]
    rw [e]
    omega
  have hl : (enc (fOpt 8 (limitsF ord) (toW k ⟨ps.id, ps.seq, ps.logsFrom, g.1, fin, rs, some s.mem.asProto, s.limits⟩).lim)).length =
      (enc (fOpt 8 (limitsF ord) (some s.limits))).length := rfl
  rw [hl] at hs
  generalize hw : toW k ⟨ps.id, ps.seq, ps.logsFrom, g.1, fin, rs, some s.mem.asProto, s.limits⟩ = w at hs hm
  have hpush : (enc (pushF ord w)).length + 23 ≤ maxLen := by omega
  have h5 := field_len_le6 (f := 5) (b := enc (pushF ord w)) (by omega) (by omega)
  have h1 := fNum_le (f := 1) (by omega) hreq
  have h4 := field_len_le6 (f := 4) (b := enc (fNum 1 i ++ askedF ord (.push w))) (by omega) (by
    rw [enc_len]
    have : enc (askedF ord (.push w)) = field (5, .len (enc (pushF ord w))) := by simp [askedF, enc]
    rw [this]
    omega)
  have htot : (encE2E ord (.request i (.push w))).length ≤ maxLen := by
    have e1 : encE2E ord (.request i (.push w)) = field (4, .len (enc (fNum 1 i ++ askedF ord (.push w)))) := by simp [encE2E, e2eF, enc]
    have e2 : enc (askedF ord (.push w)) = field (5, .len (enc (pushF ord w))) := by simp [askedF, enc]
    rw [enc_len, e2] at h4
    rw [e1]
    omega
  have hent : ∀ e ∈ g.1, e.term < 2 ^ 64 := by
    intro e he
    obtain ⟨m, hm, -⟩ := gather_spec { z with bytes := fun e => (encEntry e).length } s.hist.length chunk (s.log.entries.drop (s.log.pos ps.logsFrom))
      (s.log.oldest + s.log.pos ps.logsFrom) 0
    rw [hg, hm] at he
    exact (hM e (List.mem_of_mem_drop (List.mem_of_mem_take he))).2.2
  refine ⟨PeerWire.C99_round_trip ho ⟨hreq, ?_⟩ htot, ?_⟩
  · subst hw
    exact ⟨hi, hq, hf, hent, fun l hl x hx => by cases hl; exact hu x hx⟩
  · have hrows : ∀ x ∈ rs, (k.row x).length ≤ maxLen := by
      intro x hx
      have : (6, Raw.len (k.row x)) ∈ pushF ord w := by
        subst hw
        simp only [pushF, toW, List.mem_append, List.mem_map]
        exact .inl (.inl (.inr ⟨_, ⟨x, hx, rfl⟩, rfl⟩))
      have := len_le_enc this
      omega
    subst hw
    simp only [ofW, toW, unrow_all hk hrows, Option.map_some, members, Option.getD_some]
    congr 3
    simp [Membership.asProto, hk.names, Function.comp_def]

/-! ## The rows of the four databases -/

section
variable (name : P → Bytes) (unname : Bytes → Option P)

def coding2 : Coding P Svr.DB2.RowPB := ⟨fun x => enc (rowF2 x), decRow2, name, unname⟩
def coding3 : Coding P Svr.DB3.RowPB := ⟨fun x => enc (rowF3 x), decRow3, name, unname⟩
def coding4 : Coding P Svr.DB4.RowPB := ⟨fun x => enc (rowF4 x), decRow4, name, unname⟩
def coding5 : Coding P Svr.DB5.RowPB := ⟨fun x => enc (rowF5 x), decRow5, name, unname⟩

variable {name unname}

theorem law2 (hn : ∀ p, unname (name p) = some p) (hl : ∀ p, (name p).length = 32) : (coding2 name unname).Law := ⟨fun _ h => row2 h, hn, hl⟩
theorem law3 (hn : ∀ p, unname (name p) = some p) (hl : ∀ p, (name p).length = 32) : (coding3 name unname).Law := ⟨fun _ h => row3 h, hn, hl⟩
theorem law4 (hn : ∀ p, unname (name p) = some p) (hl : ∀ p, (name p).length = 32) : (coding4 name unname).Law := ⟨fun _ h => row4 h, hn, hl⟩
theorem law5 (hn : ∀ p, unname (name p) = some p) (hl : ∀ p, (name p).length = 32) : (coding5 name unname).Law := ⟨fun _ h => row5 h, hn, hl⟩

/-- From a bound for each row of the database. -/
theorem fits_of {V : Type} {view : D → OMap Bytes V} {pb : Bytes → V → PB} {Inv : D → Prop} {IsKey : Bytes → Prop} {extra : Nat}
    (hl : Lawful st view pb Inv IsKey) {d : D} (hd : Inv d) {key : Bytes} (hkey : key = [] ∨ IsKey key) (hsmall : st.maxRow + extra ≤ 16386)
    (h : ∀ x v, (view d).find x = some v → (k.row (pb x v)).length + 3 ≤ st.maxRow + extra ∨
      (k.row (pb x v)).length < 128 ∧ (k.row (pb x v)).length + 2 ≤ st.maxRow + extra) : RowsFit st k extra d key := by
  intro n r rs he
  rw [hl.emit d key n hd hkey] at he
  cases he
  refine ⟨by simp, fun x hx => ?_⟩
  obtain ⟨y, hy, rfl⟩ := List.mem_map.1 hx
  have hm : y ∈ (view d).list := by
    have := List.mem_of_mem_take hy
    unfold rowsAfter at this
    split at this
    · exact this
    · exact (List.dropWhile_sublist _).subset this
  have h6 := varint_one (n := 8 * 6 + 2) (by omega)
  simp only [field, List.length_append]
  rcases h y.1 y.2 (OMap.mem_list.mp hm) with h | ⟨h1, h2⟩
  · have := varintGo_pow 1 (k.row (pb y.1 y.2)).length _ (Nat.le_refl _) (by omega)
    simp only [varint] at h6 ⊢
    omega
  · have := varint_one h1
    omega

/-- **C101, SVR2**: a row takes up at most 119 bytes, where 105 are counted. -/
theorem C101_rows_svr2 {prims : Prims} {path : Bytes → Bool} {parse : Bytes → Option Svr.DB2.Log} (hp : ∀ l, parse [] = some l → l.id = [])
    {d : Svr.DB2.DB} (hd : Svr.DB2.Inv prims d) {key : Bytes} (hkey : key = [] ∨ key.length = 16) :
    RowsFit (store2 prims path parse) (coding2 name unname) 14 d key := by
  refine fits_of (lawful2 prims path parse hp) hd hkey (show Svr.RowSize.max2 + _ ≤ _ by decide) fun id r hf => .inl ?_
  have hr := hd id r hf
  have h1 := fBytes_small (f := 1) (b := id) (by omega) (by have := hr.id_len; omega)
  have h2 := fU32_tries (f := 2) (n := r.tries) (by omega)
  have h3 := fBytes_small (f := 3) (b := r.data.take r.dataSize.toNat) (by omega) (by rw [List.length_take]; have := hr.size_le; omega)
  have h4 := fBytes_small (f := 4) (b := r.pin) (by omega) (by have := hr.pin_len; omega)
  have h6 := r.state.toNat_lt
  have h5 := fNum_le (f := 5) (n := if r.state.toNat < 2 ^ 31 then r.state.toNat else r.state.toNat + (2 ^ 64 - 2 ^ 32)) (by omega) (by split <;> omega)
  have h7 : (r.data.take r.dataSize.toNat).length ≤ 48 := by rw [List.length_take]; have := hr.size_le; omega
  have h8 := hr.id_len
  have h9 := hr.pin_len
  have : (store2 prims path parse).maxRow = 105 := rfl
  simp only [coding2, Svr.DB2.rowToPB, rowF2, enc_len]
  omega

/-- **C101, SVR3**: at most 57 bytes, where 54 are counted. -/
theorem C101_rows_svr3 {prims : Svr.DB3.Prims3} {path : Bytes → Bool} {parse : Bytes → Option Svr.DB3.Log} (hp : ∀ l, parse [] = some l → l.id = [])
    {d : Svr.DB3.DB} (hd : Svr.DB3.Inv prims d) {key : Bytes} (hkey : key = [] ∨ key.length = 16) :
    RowsFit (store3 prims path parse) (coding3 name unname) 3 d key := by
  refine fits_of (lawful3 prims path parse hp) hd hkey (show Svr.RowSize.max3 + _ ≤ _ by decide) fun id r hf => .inr ?_
  have hr := hd id r hf
  have h1 := fBytes_small (f := 1) (b := id) (by omega) (by have := hr.id_len; omega)
  have h2 := fBytes_small (f := 2) (b := r.priv) (by omega) (by have := hr.priv_len; omega)
  have h3 := fU32_tries (f := 3) (n := r.tries) (by omega)
  have h8 := hr.id_len
  have h9 := hr.priv_len
  have : (store3 prims path parse).maxRow = 54 := rfl
  simp only [coding3, Svr.DB3.rowToPB, rowF3, enc_len]
  omega

/-- **C101, SVR4**: at most 246 bytes, where 234 are counted. -/
theorem C101_rows_svr4 {prims : Svr.DB4.Prims4} (hadd : Svr.DB4.SaddOK prims) {path : Bytes → Bool} {parse : Bytes → Option Svr.DB4.Log}
    (hp : ∀ l, parse [] = some l → l.id = []) {d : Svr.DB4.DB} (hd : Svr.DB4.Inv prims d) {key : Bytes} (hkey : key = [] ∨ key.length = 16) :
    RowsFit (store4 prims path parse) (coding4 name unname) 12 d key := by
  refine fits_of (lawful4 prims hadd path parse hp) hd hkey (show Svr.RowSize.max4 + _ ≤ _ by decide) fun id v hf => .inl ?_
  simp only [Svr.DB4.joint, OMap.find_mapV, Option.map_eq_some_iff] at hf
  obtain ⟨r, hf, rfl⟩ := hf
  have hr := Svr.DB4.inv_row hd hf
  have a1 := hr.id_len
  have a3 := Svr.DB4.okScalar_len hr.oprf_ok
  have a4 := Svr.DB4.okPoint_len hr.auth_ok
  have a5 := hr.enc_len
  have a6 := Svr.DB4.okScalar_len hr.zero_ok
  have h1 := fBytes_small (f := 1) (b := id) (by omega) (by omega)
  have h2 := fU32_tries (f := 2) (n := r.tries) (by omega)
  have h3 := fBytes_small (f := 3) (b := r.oprf) (by omega) (by omega)
  have h4 := fBytes_small (f := 4) (b := r.auth) (by omega) (by omega)
  have h5 := fBytes_small (f := 5) (b := r.enc) (by omega) (by omega)
  have h6 := fBytes_small (f := 6) (b := r.zero) (by omega) (by omega)
  have h9 := fF64_le (f := 9) (n := r.version.toUInt64) (by omega)
  have hm : (store4 prims path parse).maxRow = 234 := rfl
  cases hx : d.rot.find id with
  | none =>
    have e1 : enc (fBytes 7 []) = [] := rfl
    have e2 : enc (fBytes 8 []) = [] := rfl
    have e3 : enc (fF64 10 0) = [] := rfl
    simp only [coding4, Svr.DB4.rowToPB, rowF4, enc_len, e1, e2, e3, List.length_nil]
    omega
  | some x =>
    have hxo := (Svr.DB4.inv_rot hd hx).1
    have a7 := Svr.DB4.okScalar_len hxo.delta_ok
    have a8 := hxo.enc_len
    have h7 := fBytes_small (f := 7) (b := x.oprfDelta) (by omega) (by omega)
    have h8 := fBytes_small (f := 8) (b := x.encDelta) (by omega) (by omega)
    have h10 := fF64_le (f := 10) (n := x.newVersion.toUInt64) (by omega)
    simp only [coding4, Svr.DB4.rowToPB, rowF4, enc_len]
    omega

/-- **C101, SVR5**: at most 54 bytes, where 52 are counted. -/
theorem C101_rows_svr5 {prims : Svr.DB5.Prims5} {path : Bytes → Bool} {parse : Bytes → Option Svr.DB5.Log} (hp : ∀ l, parse [] = some l → l.id = [])
    {d : Svr.DB5.DB} (hd : Svr.DB5.Inv prims d) {key : Bytes} (hkey : key = [] ∨ key.length = 16) :
    RowsFit (store5 prims path parse) (coding5 name unname) 2 d key := by
  refine fits_of (lawful5 prims path parse hp) hd hkey (show Svr.RowSize.max5 + _ ≤ _ by decide) fun id r hf => .inr ?_
  have hr := hd id r hf
  have h8 := hr.id_len
  have h9 := hr.data_len
  have h1 := fBytes_small (f := 1) (b := id) (by omega) (by omega)
  have h2 := fBytes_small (f := 2) (b := r.data) (by omega) (by omega)
  have : (store5 prims path parse).maxRow = 52 := rfl
  simp only [coding5, Svr.DB5.rowToPB, rowF5, enc_len]
  omega
end

/-! ## Log entries of a leader -/

section
open Svr.Raft (wsub wadd)
open Svr.Raft.Node
variable {v : Svr.Raft.Env P} {n : Svr.Raft.Node P}

theorem at_mem {l : Svr.Raft.Log} {i : Nat} {e : Entry} (h : l.at? i = some e) : e ∈ l.entries := by
  unfold Svr.Raft.Log.at? Svr.Raft.Log.entryAt at h
  exact List.mem_of_getElem? h

theorem append_gather_size (hz : ∀ e, v.z.bytes e = (encEntry e).length) {l : Svr.Raft.Log} (chunk M : Nat)
    (h : ∀ e ∈ l.entries, e.hash.length = 32 ∧ (encEntry e).length ≤ M) : ∀ (c idx total : Nat),
    16 * (enc (entriesF (Svr.Raft.Node.gather v.z l chunk c idx total))).length + 17 * total ≤ 17 * (max total chunk + M)
  | 0, _, total => by
    have : enc (entriesF []) = [] := rfl
    simp only [Svr.Raft.Node.gather, this, List.length_nil]
    omega
  | c + 1, idx, total => by
    have h0 : enc (entriesF []) = [] := rfl
    unfold Svr.Raft.Node.gather
    cases he : l.at? idx with
    | none => simp only [h0, List.length_nil]; omega
    | some e =>
      have h1 := h e (at_mem he)
      have h32 := entry_ge h1.1
      have hf := field_len_le (f := 4) (b := encEntry e) (by omega)
      simp only [hz]
      by_cases h2 : total + (encEntry e).length ≥ chunk
      · rw [if_pos h2]
        simp only [entriesF_cons, h0, List.length_nil]
        omega
      · rw [if_neg h2]
        have ih := append_gather_size hz chunk M h c (idx + 1) (total + (encEntry e).length)
        simp only [entriesF_cons]
        omega

theorem gather_mem {l : Svr.Raft.Log} {chunk : Nat} : ∀ {c idx total : Nat} {e : Entry},
    e ∈ Svr.Raft.Node.gather v.z l chunk c idx total → e ∈ l.entries
  | 0, _, _, e, h => by cases h
  | c + 1, idx, total, e, h => by
    unfold Svr.Raft.Node.gather at h
    cases he : l.at? idx with
    | none => rw [he] at h; cases h
    | some e' =>
      rw [he] at h
      simp only at h
      split at h
      · obtain rfl := List.mem_singleton.1 h; exact at_mem he
      · rcases List.mem_cons.1 h with rfl | h
        · exact at_mem he
        · exact gather_mem h

/-- **C101**: the message with which a leader sends entries is read as it was sent, however much of its log the receiver misses. -/
theorem C101_append_read {M next last : Nat} {b : Bool} {m : Svr.Raft.Msg} (ho : ∀ m : Limits, (ord m).Perm m.list)
    (hz : ∀ e, v.z.bytes e = (encEntry e).length) (h : appendMessage v n next b = some (m, last))
    (hM : ∀ e ∈ n.log.entries, e.hash.length = 32 ∧ (encEntry e).length ≤ M ∧ e.term < 2 ^ 64)
    (hg : n.group < 2 ^ 64) (ht : n.term < 2 ^ 64) (hc : n.commit < 2 ^ 64) (hp : n.promise < 2 ^ 64)
    (hfit : 17 * (n.cfg.chunkBytes + M) + 16 * 124 ≤ 16 * maxLen) :
    16 * (encE2E ord (.raft m)).length ≤ 17 * (n.cfg.chunkBytes + M) + 16 * 124 ∧ decE2E utf8 (encE2E ord (.raft m)) = some (.raft m) := by
  unfold appendMessage at h
  simp only at h
  have hml : maxLen = 2147483631 := rfl
  have hS : Svr.Raft.SZ = 2 ^ 64 := rfl
  have hpi : wsub next 1 < 2 ^ 64 := by
    unfold wsub
    split <;> exact Nat.mod_lt _ (by decide)
  have hpt : (if wsub next 1 = 0 then 0 else n.log.termAt (wsub next 1)) < 2 ^ 64 := by
    split
    · decide
    · unfold Svr.Raft.Log.termAt
      cases he : n.log.at? (wsub next 1) with
      | none => decide
      | some e => exact (hM e (at_mem he)).2.2
  have hph : (if wsub next 1 = 0 then [] else match n.log.at? (wsub next 1) with | some e => e.hash | none => []).length ≤ 32 := by
    split
    · simp
    · cases he : n.log.at? (wsub next 1) with
      | none => simp
      | some e => exact Nat.le_of_eq (hM e (at_mem he)).1
  have hes : ∀ e ∈ (if b then Svr.Raft.Node.gather v.z n.log n.cfg.chunkBytes (n.log.lastIdx + 1 - next) next 0 else []), e ∈ n.log.entries := by
    intro e he
    split at he
    · exact gather_mem he
    · cases he
  have hsz : 16 * (enc (entriesF (if b then Svr.Raft.Node.gather v.z n.log n.cfg.chunkBytes (n.log.lastIdx + 1 - next) next 0 else []))).length ≤
      17 * (n.cfg.chunkBytes + M) := by
    split
    · have := append_gather_size hz (l := n.log) n.cfg.chunkBytes M (fun e he => ⟨(hM e he).1, (hM e he).2.1⟩) (n.log.lastIdx + 1 - next) next 0
      simpa using this
    · have : enc (entriesF []) = [] := rfl
      rw [this]
      simp
  generalize (if wsub next 1 = 0 then 0 else n.log.termAt (wsub next 1)) = pt at *
  generalize (if wsub next 1 = 0 then [] else match n.log.at? (wsub next 1) with | some e => e.hash | none => []) = ph at *
  generalize (if b then Svr.Raft.Node.gather v.z n.log n.cfg.chunkBytes (n.log.lastIdx + 1 - next) next 0 else []) = es at *
  generalize (if b then wadd (wsub next 1) es.length else wsub next 1) = le at *
  split at h
  · cases h
  · cases h
    have k1 := fNum_le (f := 1) (by omega) hpi
    have k2 := fNum_le (f := 2) (by omega) hpt
    have k3 := fNum_le (f := 3) (n := min n.commit last) (by omega) (by omega)
    have k5 := fNum_le (f := 5) (n := min n.promise last) (by omega) (by omega)
    have k6 := fBytes_small (f := 6) (b := ph) (by omega) (by omega)
    have g1 := fNum_le (f := 1) (by omega) hg
    have g2 := fNum_le (f := 2) (by omega) ht
    have body : (enc (fNum 1 (wsub next 1) ++ fNum 2 pt ++ fNum 3 (min n.commit last) ++ es.map (fun e => (4, .len (enc (entryF e)))) ++
        fNum 5 (min n.promise last) ++ fBytes 6 ph)).length ≤ 78 + (enc (entriesF es)).length := by
      simp only [enc_len, entriesF]
      omega
    have b5 := field_len_le6 (f := 5) (b := enc (fNum 1 (wsub next 1) ++ fNum 2 pt ++ fNum 3 (min n.commit last) ++
        es.map (fun e => (4, .len (enc (entryF e)))) ++ fNum 5 (min n.promise last) ++ fBytes 6 ph)) (by omega) (by omega)
    have msg : (enc (msgF ⟨n.group, n.term, .appReq (wsub next 1) pt ph es (min n.commit last) (min n.promise last)⟩)).length ≤ 106 + (enc (entriesF es)).length := by
      have e : ∀ x, enc [x] = field x := fun x => by simp [enc]
      simp only [msgF, bodyF, enc_len, e] at b5 body ⊢
      omega
    have b2 := field_len_le6 (f := 2) (b := enc (msgF ⟨n.group, n.term, .appReq (wsub next 1) pt ph es (min n.commit last) (min n.promise last)⟩)) (by omega)
      (by omega)
    have tot : 16 * (encE2E ord (.raft ⟨n.group, n.term, .appReq (wsub next 1) pt ph es (min n.commit last) (min n.promise last)⟩)).length ≤
        17 * (n.cfg.chunkBytes + M) + 16 * 124 := by
      have e : ∀ x, enc [x] = field x := fun x => by simp [enc]
      simp only [encE2E, e2eF, e]
      omega
    exact ⟨tot, PeerWire.C99_round_trip ho ⟨hg, ht, hpi, hpt, by omega, by omega, fun e he => (hM e (hes e he)).2.2⟩ (by omega)⟩
end

/-! ## A push that is larger than configured -/

namespace Case

def name (b : Bool) : Bytes := List.replicate 32 (if b then 1 else 0)
def unname (x : Bytes) : Option Bool := if x = name true then some true else if x = name false then some false else none

theorem names : ∀ b, unname (name b) = some b := by decide

def db : Svr.DB5.DB := match Svr.DB5.runEvs Props.DB5.P0 Svr.DB5.empty Props.DB5.evs with | .ok d => d | _ => Svr.DB5.empty
def store : Store Svr.DB5.DB Svr.DB5.Log Svr.DB5.Resp Svr.DB5.RowPB := store5 Props.DB5.P0 (fun _ => true) Requests.wire5
def en : Entry := ⟨1, .data [], List.replicate 32 7⟩
def src : Src Bool Svr.DB5.DB := ⟨⟨[en], 1, 0, 1000⟩, [en], db, OMap.empty.insert [97] [1], ⟨[false, true], [true]⟩⟩
def start : PushState := ⟨1, [], false, 300, 0⟩
def cfg : RepCfg Bool Svr.DB5.RowPB := wireCfg PeerWire.inOrder (coding5 name unname) ⟨1, 1, 1, 1, 1, fun _ => 0⟩ 151 1

theorem db_inv : Svr.DB5.Inv Props.DB5.P0 db := by
  have h : ∃ d, Svr.DB5.runEvs Props.DB5.P0 Svr.DB5.empty Props.DB5.evs = .ok d := ⟨_, rfl⟩
  obtain ⟨d, hd⟩ := h
  have : db = d := by unfold db; rw [hd]
  rw [this]
  refine Svr.DB5.reach_inv ⟨_, ?_, hd⟩
  intro e he
  simp only [Props.DB5.evs, List.mem_cons, List.not_mem_nil, or_false] at he
  rcases he with rfl | rfl <;> simp [Svr.DB5.Ev.ok] <;> decide

/-- What was sent, and how many bytes it has. -/
def out : Option (Push Bool Svr.DB5.RowPB × Nat) := match sendNext cfg store src start with
  | .ok (_, .ok p) => some (p, (enc (pushF PeerWire.inOrder (toW (coding5 name unname) p))).length)
  | _ => none

theorem out_some : ∃ ps' p, sendNext cfg store src start = .ok (ps', .ok p) ∧ out.map (·.2) = some (enc (pushF PeerWire.inOrder (toW (coding5 name unname) p))).length := by
  have h : ∃ ps' p, sendNext cfg store src start = .ok (ps', .ok p) := ⟨_, _, rfl⟩
  obtain ⟨ps', p, h⟩ := h
  refine ⟨ps', p, h, ?_⟩
  unfold out
  rw [h]
  rfl

set_option maxRecDepth 100000 in
theorem out_size : out.map (·.2) = some 239 := by decide +kernel

theorem en_fit : ∀ e ∈ src.log.entries, e.hash.length = 32 ∧ (encEntry e).length ≤ 38 ∧ e.term < 2 ^ 64 := by
  intro e he
  obtain rfl := List.mem_singleton.1 he
  exact ⟨rfl, by decide +kernel, by decide⟩

end Case

/-- With 151 bytes configured, 239 are sent: rows are counted without the two bytes each has in a list, and what follows them is not counted. The push is read
all the same. -/
theorem C101_over_chunk : Case.cfg.chunk = 151 ∧ ∃ ps' p, sendNext Case.cfg Case.store Case.src Case.start = .ok (ps', .ok p) ∧
    (enc (pushF PeerWire.inOrder (toW (coding5 Case.name Case.unname) p))).length = 239 ∧
    decE2E PeerWire.ascii (encE2E PeerWire.inOrder (.request 9 (.push (toW (coding5 Case.name Case.unname) p)))) =
      some (.request 9 (.push (toW (coding5 Case.name Case.unname) p))) ∧
    ofW (coding5 Case.name Case.unname) (toW (coding5 Case.name Case.unname) p) = some p := by
  obtain ⟨ps', p, h, h2⟩ := Case.out_some
  rw [Case.out_size] at h2
  refine ⟨rfl, ps', p, h, (Option.some.inj h2).symm, ?_⟩
  refine C101_push_read (extra := 2) (M := 38) (law5 Case.names fun b => by simp [Case.name]) PeerWire.inOrder_perm h
    (C101_rows_svr5 Requests.C97_empty.2.2.2 Case.db_inv (.inl rfl)) Case.en_fit (by decide) (by decide) (by decide) (by decide) (by decide) ?_
  have e1 : Case.store.maxRow = 52 := rfl
  have e2 : (enc (fOpt 8 (limitsF PeerWire.inOrder) (some Case.src.limits))).length = 10 := by decide +kernel
  have e3 : Case.src.mem.all.length = 2 := rfl
  rw [e1, e2, e3]
  decide

namespace Case

def leader : Svr.Raft.Node Nat :=
  { Svr.Raft.Node.base 5 1 ⟨[1, 2, 3], [1, 2, 3]⟩ ⟨[en, en, en, en], 1, 0, 1000⟩ ⟨1, 1, 40, 1⟩ true 1 with role := .leader, term := 1 }
def env : Svr.Raft.Env Nat := ⟨fun _ _ => [], fun _ => [], fun _ => none, ⟨1, 1, 1, 1, 1, fun e => (encEntry e).length⟩, fun _ => 0, fun _ => true⟩

theorem leader_last : (Svr.Raft.Node.appendMessage env leader 2 true).map (·.2) = some 3 := by decide +kernel

end Case

/-- A leader with four entries, of which a follower misses three and is sent two: 40 bytes are configured. -/
example : ∃ m, Svr.Raft.Node.appendMessage Case.env Case.leader 2 true = some (m, 3) ∧
    (∀ e ∈ Case.leader.log.entries, e.hash.length = 32 ∧ (encEntry e).length ≤ 38 ∧ e.term < 2 ^ 64) ∧
    decE2E PeerWire.ascii (encE2E PeerWire.inOrder (.raft m)) = some (.raft m) := by
  have hM : ∀ e ∈ Case.leader.log.entries, e.hash.length = 32 ∧ (encEntry e).length ≤ 38 ∧ e.term < 2 ^ 64 := by
    intro e he
    have he : e ∈ [Case.en, Case.en, Case.en, Case.en] := he
    obtain rfl : e = Case.en := by simpa using he
    exact ⟨rfl, by decide +kernel, by decide⟩
  obtain ⟨⟨m, l⟩, h, hl⟩ := Option.map_eq_some_iff.1 Case.leader_last
  obtain rfl : l = 3 := hl
  exact ⟨m, h, hM, (C101_append_read PeerWire.inOrder_perm (fun _ => rfl) h hM (by decide) (by decide) (by decide) (by decide) (by decide)).2⟩

end Svr.Props.PushWire
