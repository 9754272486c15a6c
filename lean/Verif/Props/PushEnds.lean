import Verif.Props.PushWire

/-!
# C106: replication advances with every push, and ends

`Core::SendNextReplicationState` (enclave/core/core.cc:1267-1345) is called again and again until it has sent the last row. How many rows a push has room for is computed
from the configured size, what is in the push already, and the size of a row.
-/

namespace Svr.Props.PushEnds
open Svr.Core Svr.Wire Svr.Props.PushWire
open Svr.Raft (Entry Membership Sizes)
open Svr.Minimums (Limits)

variable {P D L E PB V : Type} [LinearOrder P] {st : Store D L E PB} {view : D → OMap Bytes V} {pb : Bytes → V → PB} {Inv : D → Prop} {IsKey : Bytes → Prop}
  {ord : Limits → List (Bytes × Bytes)} {k : Coding P PB} {z : Sizes} {chunk pipeline : Nat} {s : Src P D} {ps ps' : PushState} {p : Push P PB}

/-- Pushes one after the other, while the member stays as it is. -/
inductive Pushes (c : RepCfg P PB) (st : Store D L E PB) (s : Src P D) : PushState → List (Push P PB) → PushState → Prop
  | none (ps : PushState) : Pushes c st s ps [] ps
  | next {ps ps1 ps2 p l} : sendNext c st s ps = .ok (ps1, .ok p) → Pushes c st s ps1 l ps2 → Pushes c st s ps (p :: l) ps2

/-! ## One push -/

theorem gather_nil {z : Sizes} {applied chunk : Nat} {T : List Entry} {idx size : Nat} (h : (Svr.Core.gather z applied chunk T idx size).1 = []) :
    (Svr.Core.gather z applied chunk T idx size).2 = true := by
  cases T with
  | nil => rfl
  | cons e t =>
    unfold Svr.Core.gather at h ⊢
    split
    · rfl
    · rename_i h1
      rw [if_neg h1] at h
      split at h <;> cases h

/-- A push without entries and rows is small. -/
theorem bare_size {ps : PushState} (h1 : ps.id < 2 ^ 64) (h2 : ps.seq < 2 ^ 64) (h3 : ps.logsFrom < 2 ^ 64) :
    (enc (pushF ord ⟨ps.id, ps.seq, ps.logsFrom, [], false, [], none, none⟩)).length ≤ 33 := by
  have a := fNum_le (f := 1) (by omega) h1
  have b := fNum_le (f := 2) (by omega) h2
  have c := fNum_le (f := 3) (by omega) h3
  have e : enc (pushF ord ⟨ps.id, ps.seq, ps.logsFrom, [], false, [], none, none⟩) = enc (fNum 1 ps.id ++ fNum 2 ps.seq ++ fNum 3 ps.logsFrom) := by
    simp [pushF, fBool, fOpt]
  rw [e, enc_len, enc_len]
  omega

/-- **C106, every push**: it carries a log entry or a row, or it is the last. The least chunk that the configuration allows is 1024 (enclave/core/core.cc:167). -/
theorem C106_push_advances (h : sendNext (wireCfg ord k z chunk pipeline) st s ps = .ok (ps', .ok p)) (hc : 1024 ≤ chunk)
    (hr0 : 0 < st.maxRow) (hr : st.maxRow ≤ 991) (h1 : ps.id < 2 ^ 64) (h2 : ps.seq < 2 ^ 64) (h3 : ps.logsFrom < 2 ^ 64) :
    p.entries ≠ [] ∨ p.rows ≠ [] ∨ p.toEnd = true ∧ ps'.finished = true := by
  unfold sendNext at h
  obtain ⟨_, -, h⟩ := Out.bind_eq_ok.mp h
  obtain ⟨x, h4, h⟩ := Out.bind_eq_ok.mp h
  cases x with
  | none => cases h
  | some x =>
    obtain ⟨rs, key, fin⟩ := x
    cases h
    by_cases he : (Svr.Core.gather (wireCfg ord k z chunk pipeline).z s.hist.length chunk (s.log.entries.drop (s.log.pos ps.logsFrom))
      (s.log.oldest + s.log.pos ps.logsFrom) 0).1 = []
    · right
      have hat := gather_nil he
      have hb := bare_size (ord := ord) h1 h2 h3
      unfold pushRows at h4
      have hsz : ∀ q : Push P PB, q = ⟨ps.id, ps.seq, ps.logsFrom, [], false, [], none, OMap.empty⟩ →
          (wireCfg ord k z chunk pipeline).size q ≤ 33 := by rintro _ rfl; exact hb
      have hch : (wireCfg ord k z chunk pipeline).chunk = chunk := rfl
      rw [hch] at h4
      rw [he, hat] at h4
      generalize hq : (wireCfg ord k z chunk pipeline).size ⟨ps.id, ps.seq, ps.logsFrom, [], false, [], none, OMap.empty⟩ = b at h4
      have hb' : b ≤ 33 := hq ▸ hsz _ rfl
      rw [if_pos ⟨rfl, by omega⟩] at h4
      have hn : (chunk - b) / st.maxRow ≠ 0 := by
        have := Nat.div_pos (a := chunk - b) (b := st.maxRow) (by omega) hr0
        omega
      simp only [hn, ne_eq, not_false_eq_true, if_true] at h4
      obtain ⟨y, h5, h4⟩ := Out.bind_eq_ok.mp h4
      cases y with
      | none => cases h4
      | some y =>
        obtain ⟨r, rs'⟩ := y
        cases h4
        by_cases hrs : rs = []
        · right
          subst hrs
          have : decide (([] : List PB).length < (chunk - b) / st.maxRow) = true := by simpa using Nat.pos_of_ne_zero hn
          exact ⟨this, this⟩
        · exact .inl hrs
    · exact .inl he

/-! ## All pushes -/

/-- What is left to send: log entries and rows. -/
def left (view : D → OMap Bytes V) (s : Src P D) (ps : PushState) : Nat :=
  (s.hist.length + 1 - ps.logsFrom) + (rowsAfter (view s.db) ps.dbFrom).length

theorem rowsAfter_suffix (m : OMap Bytes V) (lo : Bytes) : ∃ l, m.list = l ++ rowsAfter m lo := by
  unfold rowsAfter
  split
  · exact ⟨[], rfl⟩
  · obtain ⟨l, hl⟩ := List.dropWhile_suffix (l := m.list) (fun p => decide (p.1 ≤ lo))
    exact ⟨l, hl.symm⟩

/-- The rows after those that were sent. -/
theorem rowsAfter_sent {m : OMap Bytes V} (hk : ∀ p ∈ m.list, p.1 ≠ []) {lo : Bytes} {c : List (Bytes × V)} (hc : c ≠ []) (hp : c <+: rowsAfter m lo) :
    (rowsAfter m (lastKeyOf c)).length + c.length = (rowsAfter m lo).length := by
  obtain ⟨l, hl⟩ := rowsAfter_suffix m lo
  obtain ⟨t, ht⟩ := hp
  have h := rowsAfter_split (m := m) (l1 := l ++ c) (l2 := t) (by rw [hl, ← ht, List.append_assoc]) hk
  rw [lastKeyOf_append hc] at h
  rw [h, ← ht, List.length_append]
  omega

/-- **C106**: replication ends. While the member stays as it is, there are at most as many pushes as it has log entries and rows to send, and one more; none of them fails. -/
theorem C106_replication_ends (hl : Lawful st view pb Inv IsKey) (hs : s.Ok st) (hc : 1024 ≤ chunk) (hr0 : 0 < st.maxRow) (hr : st.maxRow ≤ 991)
    (hfit : s.hist.length + 1 < 2 ^ 64) : ∀ (n : Nat) (ps : PushState), left view s ps = n → ps.finished = false → s.log.oldest ≤ ps.logsFrom →
    ps.logsFrom ≤ s.hist.length + 1 → (ps.dbFrom = [] ∨ IsKey ps.dbFrom) → ps.id < 2 ^ 64 → ps.seq + n < 2 ^ 64 →
    ∃ l ps', Pushes (wireCfg ord k z chunk pipeline) st s ps l ps' ∧ ps'.finished = true ∧ l.length ≤ n + 1 := by
  intro n
  induction n using Nat.strong_induction_on with
  | _ n ih =>
    intro ps hn hf hlo hhi hk hid hseq
    obtain ⟨ps1, p, hi, h1, hS, e1, e2, e3, e4, e5, e6, e7, e8⟩ := sendNext_spec (c := wireCfg ord k z chunk pipeline) hl hs hf hlo hhi hk
    by_cases hfin : ps1.finished = true
    · exact ⟨[p], ps1, .next h1 (.none _), hfin, by simp⟩
    have hfin' : ps1.finished = false := by simpa using hfin
    have hadv := C106_push_advances h1 hc hr0 hr hid (by omega) (by omega)
    have hkeys : ∀ p ∈ (view s.db).list, p.1 ≠ [] := fun p hp =>
      hl.key_ne _ (hl.keys _ _ _ (hs.inv hl) (OMap.mem_list.mp hp))
    obtain ⟨c, c1, c2, c3, _⟩ := hS.rows
    have hlen := hS.len
    have hone := hS.one
    have hdb := e7 hfin'
    have hlt : left view s ps1 < n := by
      rw [← hn]
      unfold left
      rw [hdb, e6, c3]
      by_cases h0 : c = []
      · rw [if_pos h0]
        rw [h0] at c1
        have : p.entries ≠ [] := by
          rcases hadv with h | h | h
          · exact h
          · exact absurd c1 h
          · exact absurd h.2 hfin
        have := List.length_pos_iff.mpr this
        omega
      · rw [if_neg h0]
        have := rowsAfter_sent hkeys h0 c2
        have := List.length_pos_iff.mpr h0
        omega
    obtain ⟨l, ps2, g1, g2, g3⟩ := ih (left view s ps1) hlt ps1 rfl hfin' (by omega) (by omega) (by rw [hdb]; exact e8) (by omega) (by omega)
    exact ⟨p :: l, ps2, .next h1 g1, g2, by simp only [List.length_cons]; omega⟩

/-- The state of `ReplicationPushState` when a joiner asks for replication with the id `i` (enclave/core/core.h:76-95, enclave/core/core.cc:1245-1247). -/
def begin (s : Src P D) (i : Nat) : PushState := ⟨s.log.oldest, [], false, i, 0⟩

/-- The bound for a whole replication. -/
def Ends (c : RepCfg P PB) (st : Store D L E PB) (s : Src P D) (rows i : Nat) : Prop :=
  ∃ l ps', Pushes c st s (begin s i) l ps' ∧ ps'.finished = true ∧ l.length ≤ (s.hist.length + 1 - s.log.oldest) + rows + 1

theorem whole (hl : Lawful st view pb Inv IsKey) (hs : s.Ok st) (hc : 1024 ≤ chunk) (hr0 : 0 < st.maxRow) (hr : st.maxRow ≤ 991)
    (hfit : s.hist.length + 1 + (view s.db).list.length < 2 ^ 64) {i : Nat} (hi : i < 2 ^ 64) :
    Ends (wireCfg ord k z chunk pipeline) st s (view s.db).list.length i := by
  have hrow : (rowsAfter (view s.db) []).length = (view s.db).list.length := rfl
  have hn : left view s (begin s i) = (s.hist.length + 1 - s.log.oldest) + (view s.db).list.length := rfl
  obtain ⟨l, ps', h1, h2, h3⟩ := C106_replication_ends (ord := ord) (k := k) (z := z) (pipeline := pipeline) hl hs hc hr0 hr (by omega)
    _ (begin s i) rfl rfl (Nat.le_refl _) (by have := hs.kept; show s.log.oldest ≤ _; omega) (.inl rfl) hi
    (by rw [hn]; show 0 + _ < _; omega)
  exact ⟨l, ps', h1, h2, by rw [hn] at h3; exact h3⟩

/-- **C106, SVR2**: a replication of a member that stays as it is ends after at most one push for each log entry and each row, and one more. -/
theorem C106_svr2 {prims : Prims} {path : Bytes → Bool} {parse : Bytes → Option Svr.DB2.Log} (hp : ∀ l, parse [] = some l → l.id = [])
    {k : Coding P Svr.DB2.RowPB} {s : Src P Svr.DB2.DB} (hs : s.Ok (store2 prims path parse)) (hc : 1024 ≤ chunk)
    (hfit : s.hist.length + 1 + s.db.list.length < 2 ^ 64) {i : Nat} (hi : i < 2 ^ 64) :
    Ends (wireCfg ord k z chunk pipeline) (store2 prims path parse) s s.db.list.length i :=
  whole (lawful2 prims path parse hp) hs hc (show 0 < Svr.RowSize.max2 by decide) (show Svr.RowSize.max2 ≤ 991 by decide) hfit hi

/-- **C106, SVR3**: a replication of a member that stays as it is ends after at most one push for each log entry and each row, and one more. -/
theorem C106_svr3 {prims : Svr.DB3.Prims3} {path : Bytes → Bool} {parse : Bytes → Option Svr.DB3.Log} (hp : ∀ l, parse [] = some l → l.id = [])
    {k : Coding P Svr.DB3.RowPB} {s : Src P Svr.DB3.DB} (hs : s.Ok (store3 prims path parse)) (hc : 1024 ≤ chunk)
    (hfit : s.hist.length + 1 + s.db.list.length < 2 ^ 64) {i : Nat} (hi : i < 2 ^ 64) :
    Ends (wireCfg ord k z chunk pipeline) (store3 prims path parse) s s.db.list.length i :=
  whole (lawful3 prims path parse hp) hs hc (show 0 < Svr.RowSize.max3 by decide) (show Svr.RowSize.max3 ≤ 991 by decide) hfit hi

/-- **C106, SVR4**: a replication of a member that stays as it is ends after at most one push for each log entry and each row, and one more. -/
theorem C106_svr4 {prims : Svr.DB4.Prims4} (hadd : Svr.DB4.SaddOK prims) {path : Bytes → Bool} {parse : Bytes → Option Svr.DB4.Log} (hp : ∀ l, parse [] = some l → l.id = [])
    {k : Coding P Svr.DB4.RowPB} {s : Src P Svr.DB4.DB} (hs : s.Ok (store4 prims path parse)) (hc : 1024 ≤ chunk)
    (hfit : s.hist.length + 1 + (Svr.DB4.joint s.db).list.length < 2 ^ 64) {i : Nat} (hi : i < 2 ^ 64) :
    Ends (wireCfg ord k z chunk pipeline) (store4 prims path parse) s (Svr.DB4.joint s.db).list.length i :=
  whole (lawful4 prims hadd path parse hp) hs hc (show 0 < Svr.RowSize.max4 by decide) (show Svr.RowSize.max4 ≤ 991 by decide) hfit hi

/-- **C106, SVR5**: a replication of a member that stays as it is ends after at most one push for each log entry and each row, and one more. -/
theorem C106_svr5 {prims : Svr.DB5.Prims5} {path : Bytes → Bool} {parse : Bytes → Option Svr.DB5.Log} (hp : ∀ l, parse [] = some l → l.id = [])
    {k : Coding P Svr.DB5.RowPB} {s : Src P Svr.DB5.DB} (hs : s.Ok (store5 prims path parse)) (hc : 1024 ≤ chunk)
    (hfit : s.hist.length + 1 + s.db.list.length < 2 ^ 64) {i : Nat} (hi : i < 2 ^ 64) :
    Ends (wireCfg ord k z chunk pipeline) (store5 prims path parse) s s.db.list.length i :=
  whole (lawful5 prims path parse hp) hs hc (show 0 < Svr.RowSize.max5 by decide) (show Svr.RowSize.max5 ≤ 991 by decide) hfit hi

theorem no_room {c : RepCfg P PB} {db : D} {b : Bool} {q : Push P PB} (h : c.chunk < st.maxRow) :
    pushRows c st db ps b q = .ok (some ([], ps.dbFrom, false)) := by
  have hn : (c.chunk - c.size q) / st.maxRow = 0 := Nat.div_eq_of_lt (by omega)
  unfold pushRows
  split
  · simp [hn]
  · rfl

/-- Why the least chunk matters: if there is no room for a row in a push without entries, such pushes are sent for ever. -/
theorem C106_without_room_stuck (hf : ps.finished = false) (hlog : s.log.entries.drop (s.log.pos ps.logsFrom) = [])
    (hroom : chunk < st.maxRow) : ∃ p, sendNext (wireCfg ord k z chunk pipeline) st s ps = .ok ({ ps with seq := ps.seq + 1 }, .ok p) ∧
      p.entries = [] ∧ p.rows = [] ∧ p.toEnd = false := by
  unfold sendNext
  rw [hlog]
  simp only [hf, Bool.not_false, Out.check_true, Out.bind_ok, no_room (c := wireCfg ord k z chunk pipeline) hroom]
  exact ⟨_, rfl, rfl, rfl, rfl⟩

/-- What a list of entries counts for in the loop over the log. -/
def weight (l : List Entry) : Nat := (l.map fun e => (encEntry e).length + 1).sum

theorem gather_full {z : Sizes} (hz : z.bytes = fun e => (encEntry e).length) {applied : Nat} : ∀ {l : List Entry} {idx size : Nat},
    idx + l.length ≤ applied + 1 → size < chunk → chunk ≤ size + weight l → (Svr.Core.gather z applied chunk l idx size).2 = false := by
  intro l
  induction l with
  | nil => intro idx size _ h1 h2; simp [weight] at h2; omega
  | cons e t ih =>
    intro idx size h h1 h2
    simp only [List.length_cons] at h
    simp only [weight, List.map_cons, List.sum_cons] at h2
    unfold Svr.Core.gather
    rw [if_neg (by omega)]
    split
    · rfl
    · rename_i h3
      rw [hz] at h3 ⊢
      exact ih (by omega) (by omega) (by simp only [weight]; omega)

/-- Why the number of pushes is bounded only for a member that stays as it is: as long as a chunk of applied entries is left to send, no row is sent and
the push is not the last one, so that a member that applies entries as fast as it sends them never comes to its rows. -/
theorem C106_busy_member_sends_no_rows (hf : ps.finished = false) (hc : 0 < chunk)
    (happ : s.log.oldest + s.log.pos ps.logsFrom + (s.log.entries.drop (s.log.pos ps.logsFrom)).length ≤ s.hist.length + 1)
    (hw : chunk ≤ weight (s.log.entries.drop (s.log.pos ps.logsFrom))) :
    ∃ ps' p, sendNext (wireCfg ord k z chunk pipeline) st s ps = .ok (ps', .ok p) ∧ p.rows = [] ∧ p.toEnd = false ∧ ps'.dbFrom = ps.dbFrom := by
  have hg := gather_full (z := (wireCfg ord k z chunk pipeline).z) rfl happ hc (by omega)
  unfold sendNext
  have hr : ∀ q, pushRows (wireCfg ord k z chunk pipeline) st s.db ps false q = .ok (some ([], ps.dbFrom, false)) := fun q => by
    unfold pushRows; simp
  have hg' : (Svr.Core.gather (wireCfg ord k z chunk pipeline).z s.hist.length (wireCfg ord k z chunk pipeline).chunk
    (s.log.entries.drop (s.log.pos ps.logsFrom)) (s.log.oldest + s.log.pos ps.logsFrom) 0).2 = false := hg
  simp only [hf, Bool.not_false, Out.check_true, Out.bind_ok, hg', hr]
  exact ⟨_, _, rfl, rfl, rfl, rfl⟩

/-! ### An example: the member of C101 with its one entry and its rows -/

/-- The member sends all it has in one push of at most 1024 bytes. -/
example : ∃ ps' p, sendNext (wireCfg PeerWire.inOrder (coding5 Case.name Case.unname) ⟨1, 1, 1, 1, 1, fun _ => 0⟩ 1024 1) Case.store Case.src
      (begin Case.src 300) = .ok (ps', .ok p) ∧ p.entries ≠ [] ∧ p.rows ≠ [] ∧ ps'.finished = true := by
  have h : ∃ ps' p, sendNext (wireCfg PeerWire.inOrder (coding5 Case.name Case.unname) ⟨1, 1, 1, 1, 1, fun _ => 0⟩ 1024 1) Case.store Case.src
      (begin Case.src 300) = .ok (ps', .ok p) := ⟨_, _, rfl⟩
  obtain ⟨ps', p, h⟩ := h
  have k : (match sendNext (wireCfg PeerWire.inOrder (coding5 Case.name Case.unname) ⟨1, 1, 1, 1, 1, fun _ => 0⟩ 1024 1) Case.store Case.src
      (begin Case.src 300) with
    | .ok (ps', .ok p) => !p.entries.isEmpty && !p.rows.isEmpty && ps'.finished
    | _ => false) = true := by decide +kernel
  rw [h] at k
  simp only [Bool.and_eq_true, Bool.not_eq_true', List.isEmpty_eq_false_iff] at k
  exact ⟨ps', p, h, k.1.1, k.1.2, k.2⟩

/-- The hypotheses of `C106_svr2` are met by a member that has applied four entries, has removed one of them from its log and has three rows. -/
example (k : Coding Nat Svr.DB2.RowPB) : (Replicate.member (([1, 2, 3, 6] : List UInt8).map Replicate.en) 1).db.list.length = 3 ∧
    Ends (wireCfg PeerWire.inOrder k ⟨1, 1, 1, 1, 1, fun _ => 0⟩ 1024 4) Replicate.st
      (Replicate.member (([1, 2, 3, 6] : List UInt8).map Replicate.en) 1) 3 77 := by
  have h3 : (Replicate.member (([1, 2, 3, 6] : List UInt8).map Replicate.en) 1).db.list.length = 3 := by decide +kernel
  refine ⟨h3, ?_⟩
  have h := C106_svr2 (ord := PeerWire.inOrder) (k := k) (z := ⟨1, 1, 1, 1, 1, fun _ => 0⟩) (chunk := 1024) (pipeline := 4) (i := 77) Replicate.rq_nil
    (Replicate.member_ok (H := ([1, 2, 3, 6] : List UInt8).map Replicate.en) (n := 1) (by decide) (by decide +kernel)) (Nat.le_refl _)
    (by rw [h3]; decide) (by decide)
  rw [h3] at h
  exact h

/-- A member of which three applied entries are left to send, with a chunk that they fill. -/
example (k : Coding Nat Svr.DB2.RowPB) : ∃ ps' p, sendNext (wireCfg PeerWire.inOrder k ⟨1, 1, 1, 1, 1, fun _ => 0⟩ 16 4) Replicate.st
      (Replicate.member (([1, 2, 3, 6] : List UInt8).map Replicate.en) 1)
      (begin (Replicate.member (([1, 2, 3, 6] : List UInt8).map Replicate.en) 1) 77) = .ok (ps', .ok p) ∧ p.rows = [] ∧ p.toEnd = false ∧ ps'.dbFrom = [] :=
  C106_busy_member_sends_no_rows rfl (by decide) (by decide +kernel) (by decide +kernel)

end Svr.Props.PushEnds
