import Verif.Wire.ClientProof
import Verif.Core.ReplicateDb
import Verif.Props.Replicate

/-!
# C97: what a client asks for is what every replica runs
-/

namespace Svr.Props.Requests

open Svr Svr.Wire Svr.Raft Svr.Core

/-! ## The four protocols

`LogFromRequest` and `ValidateClientLog` on log messages, and the parse of a log entry by `HandleRaftLog` and by a joiner
(enclave/core/core.cc:1426-1445, 1797-1818), in terms of the wire format. -/

def log2 (l : Logged Svr.DB2.Req) : Svr.DB2.Log := ⟨l.id, l.req⟩
def log3 (l : Logged Svr.DB3.Req) : Svr.DB3.Log := ⟨l.id, l.req, l.key⟩
def log4 (l : Logged Svr.DB4.Req) : Svr.DB4.Log := ⟨l.id, l.req⟩
def log5 (l : Logged Svr.DB5.Req) : Svr.DB5.Log := ⟨l.id, l.req⟩

def from2 (id : Bytes) (r : Svr.DB2.Req) : Option (Logged Svr.DB2.Req) :=
  match Svr.DB2.logFromRequest id r with
  | .ok l => some ⟨l.id, l.req, []⟩
  | .error _ => none
/-- `key` is the key that `LogFromRequest` makes. -/
def from3 (key id : Bytes) (r : Svr.DB3.Req) : Option (Logged Svr.DB3.Req) :=
  match Svr.DB3.logFromRequest id key r with
  | .ok l => some ⟨l.id, l.req, l.privkey⟩
  | .error _ => none
def from4 (id : Bytes) (r : Svr.DB4.Req) : Option (Logged Svr.DB4.Req) :=
  match Svr.DB4.logFromRequest id r with
  | .ok l => some ⟨l.id, l.req, []⟩
  | .error _ => none
def from5 (id : Bytes) (r : Svr.DB5.Req) : Option (Logged Svr.DB5.Req) :=
  match Svr.DB5.logFromRequest id r with
  | .ok l => some ⟨l.id, l.req, []⟩
  | .error _ => none

def wire2 (b : Bytes) : Option Svr.DB2.Log := (form2.decLog b).map log2
def wire3 (b : Bytes) : Option Svr.DB3.Log := (form3.decLog b).map log3
def wire4 (b : Bytes) : Option Svr.DB4.Log := (form4.decLog b).map log4
def wire5 (b : Bytes) : Option Svr.DB5.Log := (form5.decLog b).map log5

/-- A client with backup id `id` sends `b`, and the log entry has the bytes `data`. -/
def Submitted2 (id b data : Bytes) : Prop := form2.submit from2 (fun l => Svr.DB2.validate (log2 l) == none) id b = some data
def Submitted3 (key id b data : Bytes) : Prop := form3.submit (from3 key) (fun l => Svr.DB3.validate (log3 l) == none) id b = some data
def Submitted4 (P : Svr.DB4.Prims4) (id b data : Bytes) : Prop := form4.submit from4 (fun l => Svr.DB4.validate P (log4 l) == none) id b = some data
def Submitted5 (id b data : Bytes) : Prop := form5.submit from5 (fun l => Svr.DB5.validate (log5 l) == none) id b = some data

/-! ## Specification -/

/-- Every replica, on a log entry with the bytes `data`, runs `l`: one that has the database does so as it applies the entry, and one that
is still loading does so unless the row of `l` has yet to be sent to it. Neither drops the entry, and the second does not fail on it. -/
structure Runs {D L E PB : Type} (st : Store D L E PB) (l : L) (data : Bytes) : Prop where
  member : ∀ db, applyDb st.toProto db data = (st.run db l).bind fun x => .ok (x.1, some x.2)
  joiner : ∀ {P : Type} [LinearOrder P] (j : Load P D) (e : Entry), e.inner = .data data →
    j.maybeApply st e =
      if j.largest = [] ∨ (j.largest < st.key l ∧ st.key l ≠ []) then .ok (j, none)
      else (st.run j.db l).bind fun x => .ok ({ j with db := x.1 }, none)

/-! ## Helpers -/

theorem runs_of {D L E PB : Type} {st : Store D L E PB} {l : L} {data : Bytes} (hp : st.parse data = some l) (hv : st.valid l = true)
    (hd : data ≠ []) : Runs st l data where
  member db := by
    show (match st.parse data with | none => _ | some l => _) = _
    rw [hp]
    show (if st.valid l then _ else _) = _
    rw [if_pos hv]
    rfl
  joiner j e he := by
    unfold Load.maybeApply
    rw [he]
    simp only [hp, hv, hd, or_false, if_true]
    by_cases h1 : j.largest = []
    · simp [h1]
    · simp only [h1, if_false, false_or]
      split
      · rfl
      · rfl

theorem enc_ne {R : Type} (F : Form R) (l : Logged R) (x : Extra) : F.encLog l x ≠ [] := by
  intro h
  simp only [Form.encLog, Form.logF, enc_append, List.append_eq_nil_iff] at h
  have h2 := h.1.2
  simp only [enc, List.flatMap_cons, List.flatMap_nil, field, List.append_eq_nil_iff] at h2
  exact varint_ne_nil _ h2.1.1

theorem submitted {R : Type} {F : Form R} (hF : F.Law) {lf : Bytes → R → Option (Logged R)} {v : Logged R → Bool} {id b data : Bytes}
    (h : F.submit lf v id b = some data) (hl : data.length ≤ maxLen)
    (hlf : ∀ r l, lf id r = some l → l.req = r ∧ (F.keyed = false → l.key = [])) :
    ∃ r x l, F.decReq b = some (r, x) ∧ lf id r = some l ∧ v l = true ∧ F.decLog data = some l ∧ data ≠ [] := by
  simp only [Form.submit, Option.bind_eq_some_iff] at h
  obtain ⟨⟨r, x⟩, h1, l, h2, h3⟩ := h
  split at h3
  · rename_i hv
    cases h3
    obtain ⟨h4, h5⟩ := hlf r l h2
    refine ⟨r, x, l, h1, h2, hv, decLog_encLog hF ?_ h5 hl, enc_ne F l x⟩
    rw [h4]
    exact unknown_of_dec hF h1
  · cases h3

theorem from2_iff {id : Bytes} {r : Svr.DB2.Req} {l : Logged Svr.DB2.Req} : from2 id r = some l ↔ id.length = 16 ∧ l = ⟨id, r, []⟩ := by
  unfold from2 Svr.DB2.logFromRequest
  by_cases h : id.length = 16
  · simp [h, Svr.DB2.BACKUP_ID_SIZE, eq_comm]
  · simp [h, Svr.DB2.BACKUP_ID_SIZE]

theorem from3_iff {key id : Bytes} {r : Svr.DB3.Req} {l : Logged Svr.DB3.Req} :
    from3 key id r = some l ↔ id.length = 16 ∧ l = ⟨id, r, match r with | .create _ _ => key | _ => []⟩ := by
  unfold from3 Svr.DB3.logFromRequest
  by_cases h : id.length = 16
  · simp only [h, Svr.DB3.BACKUP_ID_SIZE, ne_eq, not_true_eq_false, if_false, true_and, Option.some.injEq]
    exact eq_comm
  · simp [h, Svr.DB3.BACKUP_ID_SIZE]

theorem from4_iff {id : Bytes} {r : Svr.DB4.Req} {l : Logged Svr.DB4.Req} (h : from4 id r = some l) : id.length = 16 ∧ l = ⟨id, r, []⟩ := by
  unfold from4 Svr.DB4.logFromRequest at h
  by_cases hi : id.length = 16
  · refine ⟨hi, ?_⟩
    rw [if_neg (by simp [hi, Svr.DB4.BACKUP_ID_SIZE])] at h
    cases r <;> simp_all
  · rw [if_pos (by simpa [Svr.DB4.BACKUP_ID_SIZE] using hi)] at h
    cases h

theorem from5_iff {id : Bytes} {r : Svr.DB5.Req} {l : Logged Svr.DB5.Req} : from5 id r = some l ↔ id.length = 16 ∧ l = ⟨id, r, []⟩ := by
  unfold from5 Svr.DB5.logFromRequest
  by_cases h : id.length = 16
  · simp [h, Svr.DB5.BACKUP_ID_SIZE, eq_comm]
  · simp [h, Svr.DB5.BACKUP_ID_SIZE]

/-! ## Theorems -/

/-- **C97**, for SVR2: if a client's bytes become a log entry, then they are a request, and every replica runs that very request under the
id of that client, whatever other fields the bytes have. -/
theorem C97_svr2 {id b data : Bytes} (h : Submitted2 id b data) (hl : data.length ≤ maxLen) :
    ∃ r x, form2.decReq b = some (r, x) ∧ id.length = 16 ∧ Svr.DB2.validate ⟨id, r⟩ = none ∧
      ∀ P path, Runs (store2 P path wire2) ⟨id, r⟩ data := by
  obtain ⟨r, x, l, h1, h2, h3, h4, h5⟩ := submitted law2 h hl fun r l h => by obtain ⟨_, rfl⟩ := from2_iff.mp h; exact ⟨rfl, fun _ => rfl⟩
  obtain ⟨hi, rfl⟩ := from2_iff.mp h2
  exact ⟨r, x, h1, hi, by simpa [log2] using h3, fun P path => runs_of (by simp [store2, wire2, h4, log2]) h3 h5⟩

/-- **C97**, for SVR3. The key travels with the request, so that all replicas have the same one. -/
theorem C97_svr3 {key id b data : Bytes} (h : Submitted3 key id b data) (hl : data.length ≤ maxLen) :
    ∃ r x, form3.decReq b = some (r, x) ∧ id.length = 16 ∧
      ∃ k, (k = match r with | .create _ _ => key | _ => []) ∧ Svr.DB3.validate ⟨id, r, k⟩ = none ∧
      ∀ P path, Runs (store3 P path wire3) ⟨id, r, k⟩ data := by
  obtain ⟨r, x, l, h1, h2, h3, h4, h5⟩ := submitted law3 h hl fun r l h => by
    obtain ⟨_, rfl⟩ := from3_iff.mp h; exact ⟨rfl, fun h => by cases h⟩
  obtain ⟨hi, rfl⟩ := from3_iff.mp h2
  exact ⟨r, x, h1, hi, _, rfl, by simpa [log3] using h3, fun P path => runs_of (by simp [store3, wire3, h4, log3]) h3 h5⟩

/-- **C97**, for SVR4. -/
theorem C97_svr4 {P : Svr.DB4.Prims4} {id b data : Bytes} (h : Submitted4 P id b data) (hl : data.length ≤ maxLen) :
    ∃ r x, form4.decReq b = some (r, x) ∧ id.length = 16 ∧ Svr.DB4.validate P ⟨id, r⟩ = none ∧
      ∀ path, Runs (store4 P path wire4) ⟨id, r⟩ data := by
  obtain ⟨r, x, l, h1, h2, h3, h4, h5⟩ := submitted law4 h hl fun r l h => by obtain ⟨_, rfl⟩ := from4_iff h; exact ⟨rfl, fun _ => rfl⟩
  obtain ⟨hi, rfl⟩ := from4_iff h2
  exact ⟨r, x, h1, hi, by simpa [log4] using h3, fun path => runs_of (by simp [store4, wire4, h4, log4]) h3 h5⟩

/-- **C97**, for SVR5. -/
theorem C97_svr5 {id b data : Bytes} (h : Submitted5 id b data) (hl : data.length ≤ maxLen) :
    ∃ r x, form5.decReq b = some (r, x) ∧ id.length = 16 ∧ Svr.DB5.validate ⟨id, r⟩ = none ∧
      ∀ P path, Runs (store5 P path wire5) ⟨id, r⟩ data := by
  obtain ⟨r, x, l, h1, h2, h3, h4, h5⟩ := submitted law5 h hl fun r l h => by obtain ⟨_, rfl⟩ := from5_iff.mp h; exact ⟨rfl, fun _ => rfl⟩
  obtain ⟨hi, rfl⟩ := from5_iff.mp h2
  exact ⟨r, x, h1, hi, by simpa [log5] using h3, fun P path => runs_of (by simp [store5, wire5, h4, log5]) h3 h5⟩

/-- A request that a client serializes is the request that the enclave parses, with whatever unknown fields a newer client adds. -/
theorem C97_request {R : Type} {F : Form R} (hF : F.Law) {r : R} {x : Extra} (hx : F.Unknown r x) (hl : (enc (F.reqF r x)).length ≤ maxLen) :
    ∃ y, F.decReq (enc (F.reqF r x)) = some (r, y) := by
  rw [Form.decReq, split_sound (sound_reqF hF hx) hl]
  exact reqOf_reqF hF hx hl

/-- The rows of the four databases cross the wire unchanged. -/
theorem C97_rows :
    (∀ x, (enc (rowF2 x)).length ≤ maxLen → decRow2 (enc (rowF2 x)) = some x) ∧
    (∀ x, (enc (rowF3 x)).length ≤ maxLen → decRow3 (enc (rowF3 x)) = some x) ∧
    (∀ x, (enc (rowF4 x)).length ≤ maxLen → decRow4 (enc (rowF4 x)) = some x) ∧
    (∀ x, (enc (rowF5 x)).length ≤ maxLen → decRow5 (enc (rowF5 x)) = some x) :=
  ⟨fun _ => row2, fun _ => row3, fun _ => row4, fun _ => row5⟩

/-- What C34 assumes of the parse of log entries is so of this one. -/
theorem C97_empty : (∀ l, wire2 [] = some l → l.id = []) ∧ (∀ l, wire3 [] = some l → l.id = []) ∧ (∀ l, wire4 [] = some l → l.id = []) ∧
    (∀ l, wire5 [] = some l → l.id = []) := by
  refine ⟨?_, ?_, ?_, ?_⟩ <;> intro l h
  · have : wire2 [] = some ⟨[], .unset⟩ := rfl
    rw [this] at h; cases h; rfl
  · have : wire3 [] = some ⟨[], .unset, []⟩ := rfl
    rw [this] at h; cases h; rfl
  · have : wire4 [] = some ⟨[], .unset⟩ := rfl
    rw [this] at h; cases h; rfl
  · have : wire5 [] = some ⟨[], .unset⟩ := rfl
    rw [this] at h; cases h; rfl

/-- The host's own requests are not validated before they are logged (enclave/core/core.cc:772-785). This restore has an empty pin. Members
of the group skip its entry; a replica that is loading, and has been sent rows past the entry's key, fails on it, and its join with it. -/
theorem C97_host_unchecked {id : Bytes} (hi : id.length = 16) :
    ∃ data, form2.hostSubmit from2 id [26, 0] = some data ∧
      (∀ P path db, applyDb (store2 P path wire2).toProto db data = .ok (db, none)) ∧
      ∀ (P : Prims) (path : Bytes → Bool) {Q : Type} [LinearOrder Q] (j : Load Q Svr.DB2.DB) (e : Entry), e.inner = .data data → j.largest ≠ [] →
        ¬ j.largest < id → j.maybeApply (store2 P path wire2) e = .ok (j, some .invalid) := by
  have hq : form2.decReq [26, 0] = some (.restore [], ⟨[], []⟩) := by rfl
  have hu := unknown_of_dec law2 hq
  have hne : id ≠ [] := by rintro rfl; cases hi
  have hp : form2.decLog (form2.encLog ⟨id, .restore [], []⟩ ⟨[], []⟩) = some ⟨id, .restore [], []⟩ := by
    refine decLog_encLog law2 hu (fun _ => rfl) ?_
    have : form2.encLog ⟨id, .restore [], []⟩ ⟨[], []⟩ = [10, 16] ++ id ++ [18, 2, 26, 0] := by
      have h1 : varint 10 = [10] := by decide
      have h2 : varint 16 = [16] := by decide
      have h3 : varint 18 = [18] := by decide
      have h4 : varint 26 = [26] := by decide
      have h5 : varint 0 = [0] := by decide
      have h6 : varint 2 = [2] := by decide
      simp [Form.encLog, Form.logF, fBytes, hne, enc, field, hi, form2, Form.reqF, h1, h2, h3, h4, h5, h6]
    rw [this]
    simp [hi, maxLen]
  have hw : wire2 (form2.encLog ⟨id, .restore [], []⟩ ⟨[], []⟩) = some ⟨id, .restore []⟩ := by rw [wire2, hp]; rfl
  have hv : (Svr.DB2.validate ⟨id, .restore []⟩ == none) = false := by simp [Svr.DB2.validate, hi, Svr.DB2.BACKUP_ID_SIZE, Svr.DB2.PIN_SIZE]
  refine ⟨form2.encLog ⟨id, .restore [], []⟩ ⟨[], []⟩, ?_, ?_, ?_⟩
  · simp [Form.hostSubmit, hq, from2_iff.mpr ⟨hi, rfl⟩]
  · intro P path db
    have : (store2 P path wire2).toProto.parse = wire2 := rfl
    have hv' : (store2 P path wire2).toProto.valid ⟨id, .restore []⟩ = false := hv
    simp only [applyDb, this, hw, hv']
    rfl
  · intro P path Q _ j e he h1 h2
    unfold Load.maybeApply
    rw [he]
    simp only [h1, enc_ne, or_self, if_false, store2, hw, h2, false_and, hv]
    rfl

/-- Unknown fields are logged too, so the size of a valid request's entry has no bound but the parser's own. -/
theorem C97_padding {id : Bytes} (hi : id.length = 16) {n : Nat} (hn : n + 100 ≤ maxLen) :
    ∃ b data, Submitted2 id b data ∧ form2.decReq b = some (.tries, ⟨[(100, .len (List.replicate n 0))], []⟩) ∧ n ≤ data.length := by
  have hg : ∀ k m, m < 128 ^ (5 : Nat) → (varintGo k m).length ≤ 5 := by
    intro k m hm
    have h1 : ∀ (d k m : Nat), m < 128 ^ (d + 1) → (varintGo k m).length ≤ d + 1 := by
      intro d
      induction d with
      | zero => intro k m h; cases k <;> simp_all [varintGo]
      | succ d ih =>
        intro k m h
        cases k with
        | zero => simp [varintGo]
        | succ k =>
          rw [varintGo]
          split
          · simp
          · have := ih k (m / 128) (by rw [Nat.div_lt_iff_lt_mul (by omega)]; rw [pow_succ] at h; exact h)
            simp only [List.length_cons]
            omega
    exact h1 4 k m hm
  have hv : ∀ m, m < 128 ^ (5 : Nat) → (varint m).length ≤ 5 := fun m h => hg m m h
  have hne : id ≠ [] := by rintro rfl; cases hi
  have hm : maxLen = 2 ^ 31 - 17 := rfl
  have hx : form2.Unknown .tries ⟨[(100, .len (List.replicate n 0))], []⟩ := by
    refine ⟨?_, fun k gs _ y hy => by cases hy⟩
    intro y hy
    rw [List.mem_singleton] at hy
    subst hy
    exact ⟨by simp [Sound, Raw.Sound], by rfl⟩
  have hb : enc (form2.reqF .tries ⟨[(100, .len (List.replicate n 0))], []⟩) =
      varint 50 ++ varint 0 ++ varint 802 ++ varint n ++ List.replicate n 0 := by
    simp [Form.reqF, form2, enc, field]
  have h50 := hv 50 (by decide)
  have h0 := hv 0 (by decide)
  have h802 := hv 802 (by decide)
  have h5 : (128 : Nat) ^ 5 = 34359738368 := by decide
  have hnn := hv n (by omega)
  have hbl : (enc (form2.reqF .tries ⟨[(100, .len (List.replicate n 0))], []⟩)).length ≤ n + 20 := by
    rw [hb]
    simp only [List.length_append, List.length_replicate]
    omega
  have hq : form2.decReq (enc (form2.reqF .tries ⟨[(100, .len (List.replicate n 0))], []⟩)) =
      some (.tries, ⟨[(100, .len (List.replicate n 0))], []⟩) := by
    rw [Form.decReq, split_sound (sound_reqF law2 hx) (by omega)]
    rfl
  refine ⟨_, form2.encLog ⟨id, .tries, []⟩ ⟨[(100, .len (List.replicate n 0))], []⟩, ?_, hq, ?_⟩
  · unfold Submitted2 Form.submit
    rw [hq]
    simp [from2_iff.mpr ⟨hi, rfl⟩, log2, Svr.DB2.validate, hi, Svr.DB2.BACKUP_ID_SIZE]
  · have h1 : (2, Raw.len (enc (form2.reqF .tries ⟨[(100, .len (List.replicate n 0))], []⟩))) ∈
        form2.logF ⟨id, .tries, []⟩ ⟨[(100, .len (List.replicate n 0))], []⟩ := by simp [Form.logF]
    refine Nat.le_trans ?_ (len_le_enc h1)
    rw [hb]
    simp only [List.length_append, List.length_replicate]
    omega

/-! ## Examples -/

/-- A backup of sixteen bytes with three tries, to which a newer client has added a field. -/
def sent : Bytes := enc (form2.reqF (.backup (List.replicate 16 9) (List.replicate 32 7) 3) ⟨[(9, .num 5)], []⟩)

example : ∃ data, Submitted2 (List.replicate 16 1) sent data ∧ data.length ≤ maxLen ∧
    wire2 data = some ⟨List.replicate 16 1, .backup (List.replicate 16 9) (List.replicate 32 7) 3⟩ := by
  refine ⟨form2.encLog ⟨List.replicate 16 1, .backup (List.replicate 16 9) (List.replicate 32 7) 3, []⟩ ⟨[(9, .num 5)], []⟩, ?_, ?_, ?_⟩
  all_goals try unfold Submitted2
  all_goals decide +kernel

example : ∃ data, Submitted3 (List.replicate 32 8) (List.replicate 16 1) (enc (form3.reqF (.create 3 (List.replicate 32 7)) ⟨[], [(9, .num 5)]⟩)) data ∧
    data.length ≤ maxLen ∧ (wire3 data).map (·.privkey) = some (List.replicate 32 8) := by
  refine ⟨form3.encLog ⟨List.replicate 16 1, .create 3 (List.replicate 32 7), List.replicate 32 8⟩ ⟨[], [(9, .num 5)]⟩, ?_, ?_, ?_⟩ <;>
    first | (unfold Submitted3; decide +kernel) | decide +kernel

example : ∃ data, Submitted5 (List.replicate 16 1) (enc (form5.reqF (.upload (List.replicate 32 7)) ⟨[], []⟩)) data ∧
    data.length ≤ maxLen ∧ wire5 data = some ⟨List.replicate 16 1, .upload (List.replicate 32 7)⟩ := by
  refine ⟨form5.encLog ⟨List.replicate 16 1, .upload (List.replicate 32 7), []⟩ ⟨[], []⟩, ?_, ?_, ?_⟩ <;>
    first | (unfold Submitted5; decide +kernel) | decide +kernel

/-- Two parts of one request are merged, as the library does. -/
example : (form2.decReq ([18, 3, 10, 1, 1] ++ [18, 2, 24, 3])).map (·.1) = some (.backup [1] [] 3) := by decide +kernel
/-- The last member of the oneof counts. -/
example : (form2.decReq ([18, 3, 10, 1, 1] ++ [50, 0])).map (·.1) = some .tries := by decide +kernel
/-- The host's restore meets the case of a joiner that has all rows. -/
example : (List.replicate 16 (255 : UInt8)) ≠ [] ∧ ¬ (List.replicate 16 (255 : UInt8)) < List.replicate 16 1 := by decide

end Svr.Props.Requests
