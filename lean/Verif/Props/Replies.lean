import Verif.Wire.Reply
import Verif.Props.Requests
import Verif.Props.Wire
import Verif.Props.Linear
import Verif.Props.Family
import Verif.Props.Noise

/-!
# C98: from the bytes of a client's request to the bytes of its answer
-/

namespace Svr.Props.Replies

open Svr Svr.Wire Svr.Raft Svr.Core Svr.Spec
open Svr.Props.RaftGroup Svr.Props.Grid Svr.Props.Linear Svr.Props.Family Svr.Props.Requests

/-! ## Specification -/

/-- The bytes of the answer `r` are read as `r`, if the parser takes that many. -/
def ReadAs {R : Type} (A : Answer R) (r : R) : Prop := (A.encode r).length ≤ maxLen → A.decode (A.encode r) = some r

/-! ## Helpers -/

theorem request_of {D L E : Type} {l : L} {data : Bytes} {pr : Proto D L E} (hp : pr.parse data = some l) (hv : pr.valid l = true)
    {e : Entry} (he : e.inner = .data data) : request pr e = some l := by
  unfold request
  rw [he]
  simp [hp, hv]

theorem specRun_inv {V L A : Type} {step : Option V → L → Option V × A} {I : Option V → Prop} (hs : ∀ o l, I o → I (step o l).1) :
    ∀ (ls : List L) (o : Option V), I o → I (specRun step o ls).1
  | [], _, h => h
  | l :: ls, o, h => specRun_inv hs ls _ (hs o l h)

theorem vrun_inv {I : Option Spec2.Vault → Prop} (hs : ∀ o q, I o → I (Spec2.vstep o q).1) :
    ∀ (qs : List Svr.DB2.Req) (o : Option Spec2.Vault), I o → I (Spec2.vrun o qs).1
  | [], _, h => h
  | q :: qs, o, h => vrun_inv hs qs _ (hs o q h)

theorem wire2_submitted {id b data : Bytes} (h : Submitted2 id b data) (hl : data.length ≤ maxLen) :
    ∃ r x, form2.decReq b = some (r, x) ∧ Svr.DB2.validate ⟨id, r⟩ = none ∧ wire2 data = some ⟨id, r⟩ := by
  obtain ⟨r, x, l, h1, h2, h3, h4, h5⟩ := submitted law2 h hl fun r l h => by obtain ⟨_, rfl⟩ := from2_iff.mp h; exact ⟨rfl, fun _ => rfl⟩
  obtain ⟨hi, rfl⟩ := from2_iff.mp h2
  exact ⟨r, x, h1, by simpa [log2] using h3, by simp [wire2, h4, log2]⟩

theorem wire3_submitted {key id b data : Bytes} (h : Submitted3 key id b data) (hl : data.length ≤ maxLen) :
    ∃ r x k, form3.decReq b = some (r, x) ∧ (k = match r with | .create _ _ => key | _ => []) ∧ Svr.DB3.validate ⟨id, r, k⟩ = none ∧ wire3 data = some ⟨id, r, k⟩ := by
  obtain ⟨r, x, l, h1, h2, h3, h4, h5⟩ := submitted law3 h hl fun r l h => by
    obtain ⟨_, rfl⟩ := from3_iff.mp h; exact ⟨rfl, fun h => by cases h⟩
  obtain ⟨hi, rfl⟩ := from3_iff.mp h2
  refine ⟨r, x, _, h1, rfl, ?_, ?_⟩
  · cases r <;> simpa [log3] using h3
  · cases r <;> simp [wire3, h4, log3]

theorem wire4_submitted {P4 : Svr.DB4.Prims4} {id b data : Bytes} (h : Submitted4 P4 id b data) (hl : data.length ≤ maxLen) :
    ∃ r x, form4.decReq b = some (r, x) ∧ Svr.DB4.validate P4 ⟨id, r⟩ = none ∧ wire4 data = some ⟨id, r⟩ := by
  obtain ⟨r, x, l, h1, h2, h3, h4, h5⟩ := submitted law4 h hl fun r l h => by obtain ⟨_, rfl⟩ := from4_iff h; exact ⟨rfl, fun _ => rfl⟩
  obtain ⟨hi, rfl⟩ := from4_iff h2
  exact ⟨r, x, h1, by simpa [log4] using h3, by simp [wire4, h4, log4]⟩

theorem wire5_submitted {id b data : Bytes} (h : Submitted5 id b data) (hl : data.length ≤ maxLen) :
    ∃ r x, form5.decReq b = some (r, x) ∧ Svr.DB5.validate ⟨id, r⟩ = none ∧ wire5 data = some ⟨id, r⟩ := by
  obtain ⟨r, x, l, h1, h2, h3, h4, h5⟩ := submitted law5 h hl fun r l h => by obtain ⟨_, rfl⟩ := from5_iff.mp h; exact ⟨rfl, fun _ => rfl⟩
  obtain ⟨hi, rfl⟩ := from5_iff.mp h2
  exact ⟨r, x, h1, by simpa [log5] using h3, by simp [wire5, h4, log5]⟩

/-- The tries that are left are a `uint32`. -/
def Few2 (o : Option Spec2.Vault) : Prop := ∀ v, o = some v → v.left < 2 ^ 32
def Few3 (o : Option Spec3.Acct) : Prop := ∀ v, o = some v → v.left < 2 ^ 32
def Few4 (o : Option Spec4.Acct) : Prop := ∀ v, o = some v → v.left < 2 ^ 32

theorem few2_step (o : Option Spec2.Vault) (q : Svr.DB2.Req) (h : Few2 o) : Few2 (Spec2.vstep o q).1 := by
  cases o with
  | none =>
    cases q <;> intro v hv <;> simp [Spec2.vstep] at hv
    subst hv
    exact UInt32.toNat_lt _
  | some w =>
    have hw := h w rfl
    cases q <;> intro v hv <;> simp only [Spec2.vstep] at hv
    · cases hv; exact UInt32.toNat_lt _
    · split at hv
      · cases hv; exact hw
      · split at hv
        · cases hv; exact hw
        · split at hv
          · cases hv
          · cases hv; exact Nat.lt_of_le_of_lt (Nat.sub_le _ _) hw
    · cases hv
    · split at hv <;> cases hv <;> exact hw
    · cases hv; exact hw
    · cases hv; exact hw

theorem few2_read {o : Option Spec2.Vault} {q : Svr.DB2.Req} (h : Few2 o) : ReadAs answer2 (Spec2.vstep o q).2 := by
  refine fun hl => read2 ?_ hl
  cases o with
  | none => cases q <;> simp [Spec2.vstep]
  | some w =>
    have hw := h w rfl
    cases q with
    | restore pin =>
      simp only [Spec2.vstep]
      by_cases h1 : w.exposed = false
      · rw [if_pos h1]; exact Nat.two_pow_pos 32
      · rw [if_neg h1]
        by_cases h2 : pin = w.pin
        · rw [if_pos h2]; exact hw
        · rw [if_neg h2]
          by_cases h3 : w.left ≤ 1
          · rw [if_pos h3]; exact Nat.two_pow_pos 32
          · rw [if_neg h3]; exact Nat.lt_of_le_of_lt (Nat.sub_le _ _) hw
    | expose d =>
      simp only [Spec2.vstep]
      by_cases h1 : w.secret <+: d
      · rw [if_pos h1]; trivial
      · rw [if_neg h1]; trivial
    | tries => exact hw
    | _ => trivial

theorem few3_step {mul : Bytes → Bytes → Option Bytes} (o : Option Spec3.Acct) (l : Svr.DB3.Log) (h : Few3 o) : Few3 (Spec3.astep mul o l).1 := by
  intro v hv
  unfold Spec3.astep at hv
  split at hv
  · split at hv
    · exact h v hv
    · cases hv; exact UInt32.toNat_lt _
  · split at hv
    · cases hv
    · rename_i w
      have hw := h w rfl
      split at hv
      · cases hv; exact hw
      · split at hv
        · cases hv
        · cases hv; exact Nat.lt_of_le_of_lt (Nat.sub_le _ _) hw
  · cases hv
  · split at hv
    · cases hv
    · exact h v hv
  · exact h v hv

theorem few3_read {mul : Bytes → Bytes → Option Bytes} {o : Option Spec3.Acct} {l : Svr.DB3.Log} (h : Few3 o) : ReadAs answer3 (Spec3.astep mul o l).2 := by
  refine fun hl => read3 ?_ hl
  unfold Spec3.astep
  cases l.req with
  | create n b => simp only; cases mul l.privkey b <;> trivial
  | evaluate b =>
    cases o with
    | none => exact Nat.two_pow_pos 32
    | some w =>
      have hw := h w rfl
      simp only
      cases mul w.key b with
      | none => exact Nat.two_pow_pos 32
      | some e =>
        simp only
        by_cases h3 : w.left ≤ 1
        · rw [if_pos h3]; exact Nat.two_pow_pos 32
        · rw [if_neg h3]; exact Nat.lt_of_le_of_lt (Nat.sub_le _ _) hw
  | remove => trivial
  | query =>
    cases o with
    | none => exact Nat.two_pow_pos 32
    | some w => exact h w rfl
  | unset => trivial

theorem few4_step {G : Svr.DB4.Prims4} (o : Option Spec4.Acct) (l : Svr.DB4.Log) (h : Few4 o) : Few4 (Spec4.astep G o l).1 := by
  intro v hv
  cases o with
  | none =>
    unfold Spec4.astep at hv
    cases hq : l.req <;> rw [hq] at hv <;> simp only [reduceCtorEq] at hv
    split at hv
    · cases hv
    · cases hv; exact UInt32.toNat_lt _
  | some w =>
    have hw := h w rfl
    unfold Spec4.astep at hv
    cases hq : l.req <;> rw [hq] at hv <;> simp only [reduceCtorEq] at hv
    · cases hv
      show (if _ then _ else _) < _
      split
      · exact hw
      · exact UInt32.toNat_lt _
    · split at hv
      · cases hv
      · cases hv; exact Nat.lt_of_le_of_lt (Nat.sub_le _ _) hw
    all_goals first
      | (cases hv; exact hw)
      | (split at hv <;> first
          | (cases hv; exact hw)
          | (split at hv <;> cases hv <;> exact hw))

theorem few4_read {G : Svr.DB4.Prims4} {o : Option Spec4.Acct} {l : Svr.DB4.Log} (h : Few4 o) : ReadAs answer4 (Spec4.astep G o l).2.resp := by
  refine fun hl => read4 ?_ hl
  cases o with
  | none =>
    unfold Spec4.astep
    cases l.req with
    | create n o a e z v =>
      simp only
      by_cases h1 : n = 0
      · rw [if_pos h1]; exact Nat.two_pow_pos 32
      · rw [if_neg h1]; exact UInt32.toNat_lt _
    | restore1 b => exact Nat.two_pow_pos 32
    | query => exact Nat.two_pow_pos 32
    | _ => trivial
  | some w =>
    have hw := h w rfl
    have hw1 : w.left - 1 < 2 ^ 32 := Nat.lt_of_le_of_lt (Nat.sub_le _ _) hw
    unfold Spec4.astep
    cases l.req with
    | create n o a e z v =>
      show (if n = 0 then w.left else n.toNat) < 2 ^ 32
      by_cases h1 : n = 0
      · rw [if_pos h1]; exact hw
      · rw [if_neg h1]; exact UInt32.toNat_lt _
    | restore1 b => simp only; cases Spec4.evalAll G l.id b w <;> exact hw1
    | query => exact hw
    | rotateStart v o e =>
      simp only
      cases w.pending with
      | some p => trivial
      | none =>
        simp only
        by_cases h1 : v = w.version
        · rw [if_pos h1]; trivial
        · rw [if_neg h1]; trivial
    | rotateCommit v =>
      simp only
      cases w.pending with
      | none => trivial
      | some p =>
        simp only
        by_cases h1 : p.newVersion = v
        · rw [if_pos h1]; trivial
        · rw [if_neg h1]; trivial
    | rotateRollback v =>
      simp only
      cases w.pending with
      | none => trivial
      | some p =>
        simp only
        by_cases h1 : p.newVersion = v
        · rw [if_pos h1]; trivial
        · rw [if_neg h1]; trivial
    | _ => trivial

theorem varintGo_len : ∀ (j k n : Nat), n < 128 ^ (j + 1) → (varintGo k n).length ≤ j + 1
  | _, 0, _, _ => by simp [varintGo]
  | 0, k + 1, n, h => by
    have : n < 128 := by simpa using h
    simp [varintGo, this]
  | j + 1, k + 1, n, h => by
    unfold varintGo
    split
    · simp
    · have := varintGo_len j k (n / 128) (Nat.div_lt_of_lt_mul (by rw [Nat.pow_succ, Nat.mul_comm] at h; exact h))
      simp only [List.length_cons]
      omega

theorem mismatch_len {t : Nat} (ht : t < 2 ^ 32) : (answer2.encode (.restore .pinMismatch [] t)).length ≤ 10 := by
  have hv : (varint t).length ≤ 5 := varintGo_len 4 t t (Nat.lt_of_lt_of_le ht (by decide))
  have h1 : ∀ n, n < 128 → (varint n).length ≤ 1 := fun n h => varintGo_len 0 n n (by simpa using h)
  have hi : (enc (fNum 1 3 ++ fNum 3 t)).length ≤ 8 := by
    by_cases h0 : t = 0
    · subst h0; decide
    · have a1 := h1 (8 * 1) (by decide)
      have a2 := h1 3 (by decide)
      have a3 := h1 (8 * 3) (by decide)
      simp only [fNum, h0, enc, if_false, List.flatMap_append, List.flatMap_cons, List.flatMap_nil, field, List.length_append, List.append_nil,
        if_neg (show ¬(3 : Nat) = 0 by decide)]
      omega
  have he : answer2.encode (.restore .pinMismatch [] t) = varint (8 * 2 + 2) ++ (varint (enc (fNum 1 3 ++ fNum 3 t)).length ++ enc (fNum 1 3 ++ fNum 3 t)) := by
    simp [Answer.encode, Answer.fields, answer2, enc, field, restoreCode, fBytes]
  have a1 := h1 (8 * 2 + 2) (by decide)
  have a2 := h1 (enc (fNum 1 3 ++ fNum 3 t)).length (by omega)
  rw [he]
  simp only [List.length_append]
  omega

theorem ok_len {d : Bytes} {t : Nat} : d.length ≤ (answer2.encode (.restore .ok d t)).length := by
  by_cases hd : d = []
  · subst hd; simp
  · refine Nat.le_trans (len_le_enc (f := 2) (b := d) (fs := fNum 1 1 ++ fBytes 2 d ++ fNum 3 t) ?_) (len_le_enc (f := 2) ?_)
    · simp [fBytes, hd]
    · simp [Answer.fields, answer2, restoreCode]

theorem sealAll_len {A : Svr.Noise.Aead} (hA : A.Lawful) (w : Bool) : ∀ (l : List (Bool × Bytes)) (n : Nat),
    (Svr.Noise.sealAll A w n l).flatten.length = (l.map (·.2)).flatten.length + A.mac * l.length
  | [], _ => by simp [Svr.Noise.sealAll]
  | (b, p) :: t, n => by
    have := sealAll_len hA w t (n + 1)
    simp only [Svr.Noise.sealAll, List.flatten_cons, List.length_append, hA.len, List.map_cons, List.length_cons, Nat.mul_add, this]
    omega

theorem numMacs_mono {k a b : Nat} (hk : 0 < k) (h : a ≤ b) : Svr.Noise.numMacs k a ≤ Svr.Noise.numMacs k b := by
  have hd : a / k ≤ b / k := Nat.div_le_div_right h
  unfold Svr.Noise.numMacs
  by_cases hb : b % k = 0 ∧ b / k + 1 > 1
  · rw [if_pos hb]
    by_cases he : a / k = b / k
    · have hab : a = b := by
        have h1 := Nat.div_add_mod a k
        have h2 := Nat.div_add_mod b k
        rw [he] at h1
        omega
      subst hab
      rw [if_pos hb]
    · split <;> omega
  · rw [if_neg hb]
    split <;> omega

theorem encrypt_len {A : Svr.Noise.Aead} (hA : A.Lawful) {mx : Nat} (hm : A.mac < mx) (h0 : 0 < A.mac) {w : Bool} {n m : Nat}
    (hn : n ≤ Svr.Noise.lastNonce) {p c : Bytes} (h : Svr.Noise.encrypt A mx w n p = .ok (m, some c)) :
    c.length = p.length + A.mac * Svr.Noise.numMacs (mx - A.mac) p.length := by
  obtain ⟨_, _, rfl⟩ := Svr.Props.Noise.encrypt_some hA hm h0 hn h
  have hk : 0 < mx - A.mac := by omega
  rw [sealAll_len hA, Svr.Noise.tag_snd, Svr.Noise.tag_length, Svr.Noise.parts_flatten hk, Svr.Noise.parts_length hk]

/-! ## Theorems -/

/-- **C98**: what a client is answered is what it reads. -/
theorem C98_answers :
    (∀ r : Svr.DB2.Resp, (match r with | .restore _ _ t => t < 2 ^ 32 | .tries _ t _ => t < 2 ^ 32 | _ => True) → ReadAs answer2 r) ∧
    (∀ r : Svr.DB3.Resp, (match r with | .evaluate _ _ t => t < 2 ^ 32 | .query _ t => t < 2 ^ 32 | _ => True) → ReadAs answer3 r) ∧
    (∀ r : Svr.DB4.Resp, (match r with | .create _ t => t < 2 ^ 32 | .restore1 _ _ t => t < 2 ^ 32 | .query _ t _ _ => t < 2 ^ 32 | _ => True) → ReadAs answer4 r) ∧
    (∀ r : Svr.DB5.Resp, ReadAs answer5 r) :=
  ⟨fun _ h => read2 h, fun _ h => read3 h, fun _ h => read4 h, fun _ => read5⟩

section
variable {P : Type} [LinearOrder P]

/-- **C98**, for SVR2: a client with id `id` sends the bytes `b`; they become a log entry, which is written, committed and answered. Then `b` is a request;
the answer is that of one vault which has handled, in an order that respects time, the requests of this id in one list of entries; and the client reads
this answer. The group uses the wire format throughout, so that only HMAC is trusted. -/
theorem C98_svr2 {prims : Prims} {c : Site P Svr.DB2.DB Svr.DB2.Log Svr.DB2.Resp} (hpr : c.pr = svr2 prims wire2) (hs : c.raft.v.ser = encGroup)
    (hg : Proper c.raft) {G : Grid P Svr.DB2.DB Svr.DB2.Resp} (hr : GReachable c G) (hn : NoCollision c.raft.v G.W.Hashed) (hv : FixedVoters c.raft G.W) :
    ∃ H : List Entry,
      (∀ A A1 B id b data idx eff, Submitted2 id b data → data.length ≤ maxLen → GReachable c A → Call c A A1 B (.data data) idx eff → GFuture c B G →
        ∃ r x, form2.decReq b = some (r, x) ∧ At c.pr H idx ⟨id, r⟩ ∧
        ∃ ans, ans = (Spec2.vstep (Spec2.vrun none (DB2.reqsOf id (logsOf c.pr (H.take (idx - 1))))).1 r).2 ∧ eff = some ans ∧ ReadAs answer2 ans) ∧
      ∀ A A1 B i idx eff C C1 B2 i' idx' eff', GReachable c A → Call c A A1 B i idx eff → GFuture c B G → Call c C C1 B2 i' idx' eff' →
        GFuture c B2 G → (GFuture c A1 C → idx ≠ idx') ∧ (GFuture c B C → idx < idx') := by
  obtain ⟨H, h1, h2⟩ := C78_svr2 hpr hg hr hn (Svr.Props.Wire.C96_groups_differ hs) hv
  refine ⟨H, fun A A1 B id b data idx eff hsub hl hA hc k => ?_, h2⟩
  obtain ⟨a1, e, a2, a3, a4⟩ := h1 A A1 B _ idx eff hA hc k
  obtain ⟨r, x, b1, b3, hw⟩ := wire2_submitted hsub hl
  have hq : request c.pr e = some ⟨id, r⟩ := by
    refine request_of (l := (⟨id, r⟩ : Svr.DB2.Log)) ?_ ?_ a3
    · rw [hpr]; exact hw
    · rw [hpr]; simpa [svr2] using b3
  rw [hq] at a4
  exact ⟨r, x, b1, ⟨a1, e, a2, hq⟩, _, rfl, a4, few2_read (vrun_inv few2_step _ _ (by intro v hv; cases hv))⟩

/-- **C98**, for SVR3. -/
theorem C98_svr3 {P3 : Svr.DB3.Prims3} {c : Site P Svr.DB3.DB Svr.DB3.Log Svr.DB3.Resp} (hpr : c.pr = svr3 P3 wire3) (hs : c.raft.v.ser = encGroup)
    (hg : Proper c.raft) {G : Grid P Svr.DB3.DB Svr.DB3.Resp} (hr : GReachable c G) (hn : NoCollision c.raft.v G.W.Hashed) (hv : FixedVoters c.raft G.W) :
    ∃ H : List Entry,
      (∀ A A1 B key id b data idx eff, Submitted3 key id b data → data.length ≤ maxLen → GReachable c A → Call c A A1 B (.data data) idx eff → GFuture c B G →
        ∃ r x k, form3.decReq b = some (r, x) ∧ (k = match r with | .create _ _ => key | _ => []) ∧ At c.pr H idx ⟨id, r, k⟩ ∧
        ∃ ans, ans = (Spec3.astep P3.mul (before (Spec3.astep P3.mul) Svr.DB3.Log.id c.pr H id idx) ⟨id, r, k⟩).2 ∧ eff = some ans ∧ ReadAs answer3 ans) ∧
      ∀ A A1 B i idx eff C C1 B2 i' idx' eff', GReachable c A → Call c A A1 B i idx eff → GFuture c B G → Call c C C1 B2 i' idx' eff' →
        GFuture c B2 G → (GFuture c A1 C → idx ≠ idx') ∧ (GFuture c B C → idx < idx') := by
  obtain ⟨H, h1, h2⟩ := C82_svr3_calls hpr hg hr hn (Svr.Props.Wire.C96_groups_differ hs) hv
  refine ⟨H, fun A A1 B key id b data idx eff hsub hl hA hc k => ?_, h2⟩
  obtain ⟨⟨e, a2, a3⟩, a1, e', a5, a4⟩ := h1 A A1 B _ idx eff hA hc k
  rw [a2] at a5; cases a5
  obtain ⟨r, x, k, b1, b2, b3, hw⟩ := wire3_submitted hsub hl
  have hq : request c.pr e = some ⟨id, r, k⟩ := by
    refine request_of (l := (⟨id, r, k⟩ : Svr.DB3.Log)) ?_ ?_ a3
    · rw [hpr]; exact hw
    · rw [hpr]; simpa [svr3] using b3
  rw [hq] at a4
  exact ⟨r, x, k, b1, b2, ⟨a1, e, a2, hq⟩, _, rfl, a4, few3_read (specRun_inv few3_step _ _ (by intro v hv; cases hv))⟩

/-- **C98**, for SVR4: the requests that are logged. -/
theorem C98_svr4 {P4 : Svr.DB4.Prims4} (hsa : Svr.DB4.SaddOK P4) {c : Site P Svr.DB4.DB Svr.DB4.Log Svr.DB4.Effect} (hpr : c.pr = svr4 P4 wire4)
    (hs : c.raft.v.ser = encGroup) (hg : Proper c.raft) {G : Grid P Svr.DB4.DB Svr.DB4.Effect} (hr : GReachable c G)
    (hn : NoCollision c.raft.v G.W.Hashed) (hv : FixedVoters c.raft G.W) :
    ∃ H : List Entry,
      (∀ A A1 B id b data idx eff, Submitted4 P4 id b data → data.length ≤ maxLen → GReachable c A → Call c A A1 B (.data data) idx eff → GFuture c B G →
        ∃ r x, form4.decReq b = some (r, x) ∧ At c.pr H idx ⟨id, r⟩ ∧
        ∃ ans, ans = (Spec4.astep P4 (before (Spec4.astep P4) Svr.DB4.Log.id c.pr H id idx) ⟨id, r⟩).2 ∧ eff = some ans ∧ ReadAs answer4 ans.resp) ∧
      ∀ A A1 B i idx eff C C1 B2 i' idx' eff', GReachable c A → Call c A A1 B i idx eff → GFuture c B G → Call c C C1 B2 i' idx' eff' →
        GFuture c B2 G → (GFuture c A1 C → idx ≠ idx') ∧ (GFuture c B C → idx < idx') := by
  obtain ⟨H, h1, h2⟩ := C82_svr4_calls hsa hpr hg hr hn (Svr.Props.Wire.C96_groups_differ hs) hv
  refine ⟨H, fun A A1 B id b data idx eff hsub hl hA hc k => ?_, h2⟩
  obtain ⟨⟨e, a2, a3⟩, a1, e', a5, a4⟩ := h1 A A1 B _ idx eff hA hc k
  rw [a2] at a5; cases a5
  obtain ⟨r, x, b1, b3, hw⟩ := wire4_submitted hsub hl
  have hq : request c.pr e = some ⟨id, r⟩ := by
    refine request_of (l := (⟨id, r⟩ : Svr.DB4.Log)) ?_ ?_ a3
    · rw [hpr]; exact hw
    · rw [hpr]; simpa [svr4] using b3
  rw [hq] at a4
  exact ⟨r, x, b1, ⟨a1, e, a2, hq⟩, _, rfl, a4, few4_read (specRun_inv few4_step _ _ (by intro v hv; cases hv))⟩

/-- **C98**, for SVR5. -/
theorem C98_svr5 {P5 : Svr.DB5.Prims5} {c : Site P Svr.DB5.DB Svr.DB5.Log Svr.DB5.Resp} (hpr : c.pr = svr5 P5 wire5) (hs : c.raft.v.ser = encGroup)
    (hg : Proper c.raft) {G : Grid P Svr.DB5.DB Svr.DB5.Resp} (hr : GReachable c G) (hn : NoCollision c.raft.v G.W.Hashed) (hv : FixedVoters c.raft G.W) :
    ∃ H : List Entry,
      (∀ A A1 B id b data idx eff, Submitted5 id b data → data.length ≤ maxLen → GReachable c A → Call c A A1 B (.data data) idx eff → GFuture c B G →
        ∃ r x, form5.decReq b = some (r, x) ∧ At c.pr H idx ⟨id, r⟩ ∧
        ∃ ans, ans = (Spec5.astep P5.hmac (before (Spec5.astep P5.hmac) Svr.DB5.Log.id c.pr H id idx) ⟨id, r⟩).2 ∧ eff = some ans ∧ ReadAs answer5 ans) ∧
      ∀ A A1 B i idx eff C C1 B2 i' idx' eff', GReachable c A → Call c A A1 B i idx eff → GFuture c B G → Call c C C1 B2 i' idx' eff' →
        GFuture c B2 G → (GFuture c A1 C → idx ≠ idx') ∧ (GFuture c B C → idx < idx') := by
  obtain ⟨H, h1, h2⟩ := C82_svr5_calls hpr hg hr hn (Svr.Props.Wire.C96_groups_differ hs) hv
  refine ⟨H, fun A A1 B id b data idx eff hsub hl hA hc k => ?_, h2⟩
  obtain ⟨⟨e, a2, a3⟩, a1, e', a5, a4⟩ := h1 A A1 B _ idx eff hA hc k
  rw [a2] at a5; cases a5
  obtain ⟨r, x, b1, b3, hw⟩ := wire5_submitted hsub hl
  have hq : request c.pr e = some ⟨id, r⟩ := by
    refine request_of (l := (⟨id, r⟩ : Svr.DB5.Log)) ?_ ?_ a3
    · rw [hpr]; exact hw
    · rw [hpr]; simpa [svr5] using b3
  rw [hq] at a4
  exact ⟨r, x, b1, ⟨a1, e, a2, hq⟩, _, rfl, a4, read5⟩

end

/-- Answers are not padded: a restore that succeeds has a longer answer than one with a wrong PIN, whatever the secret and the tries, so that who sees the
length of the ciphertext sees whether the guess was right. -/
theorem C98_length_shows {d : Bytes} (hd : 16 ≤ d.length) {t t' : Nat} (ht : t' < 2 ^ 32) :
    (answer2.encode (.restore .pinMismatch [] t')).length < (answer2.encode (.restore .ok d t)).length :=
  Nat.lt_of_le_of_lt (mismatch_len ht) (Nat.lt_of_lt_of_le (by omega) (Nat.le_trans hd ok_len))

/-- **C98**: what `EncryptResponse` makes of an answer (enclave/client/client.cc:143-155), a client with the same keys and nonce decrypts and reads. -/
theorem C98_sealed {R : Type} {F : Answer R} {r : R} (hr : ReadAs F r) (hl : (F.encode r).length ≤ maxLen) {A : Svr.Noise.Aead} (hA : A.Lawful) {mx : Nat}
    (hm : A.mac < mx) (h0 : 0 < A.mac) {w : Bool} {n m : Nat} (hn : n ≤ Svr.Noise.lastNonce) {c : Bytes}
    (h : Svr.Noise.encrypt A mx w n (F.encode r) = .ok (m, some c)) :
    ∃ p, Svr.Noise.decrypt A mx w n c = .ok (m, some p) ∧ F.decode p = some r := by
  obtain ⟨h1, rfl, rfl⟩ := Svr.Props.Noise.encrypt_some hA hm h0 hn h
  exact ⟨_, Svr.Props.Noise.decrypt_sealed hA hm h0 w _ h1, hr hl⟩

/-- The same of the ciphertexts, which the host sees: that of the right guess is longer, whatever the cipher. -/
theorem C98_length_shows_sealed {d : Bytes} (hd : 16 ≤ d.length) {t t' : Nat} (ht : t' < 2 ^ 32) {A : Svr.Noise.Aead} (hA : A.Lawful) {mx : Nat}
    (hm : A.mac < mx) (h0 : 0 < A.mac) {w : Bool} {n m n' m' : Nat} (hn : n ≤ Svr.Noise.lastNonce) (hn' : n' ≤ Svr.Noise.lastNonce) {c c' : Bytes}
    (h : Svr.Noise.encrypt A mx w n (answer2.encode (.restore .ok d t)) = .ok (m, some c))
    (h' : Svr.Noise.encrypt A mx w n' (answer2.encode (.restore .pinMismatch [] t')) = .ok (m', some c')) : c'.length < c.length := by
  rw [encrypt_len hA hm h0 hn h, encrypt_len hA hm h0 hn' h']
  have h1 := C98_length_shows hd (t := t) ht
  have h2 := Nat.mul_le_mul_left A.mac (numMacs_mono (k := mx - A.mac) (by omega) (Nat.le_of_lt h1))
  omega

/-! ## Cases -/

/-- A restore that is answered: seven tries are left. -/
example : answer2.encode (.restore .ok [1, 2, 3] 7) = [18, 9, 8, 1, 18, 3, 1, 2, 3, 24, 7] ∧
    answer2.decode [18, 9, 8, 1, 18, 3, 1, 2, 3, 24, 7] = some (.restore .ok [1, 2, 3] 7) := by decide +kernel

/-- A wrong PIN, and no vault. -/
example : answer2.encode (.restore .pinMismatch [] 300) = [18, 5, 8, 3, 24, 172, 2] ∧ answer2.encode (.restore .missing [] 0) = [18, 2, 8, 2] := by
  decide +kernel

/-- SVR4: an element and its version. -/
example : answer4.decode (answer4.encode (.restore1 .ok [([9, 9], 3), ([8], 4)] 2)) = some (.restore1 .ok [([9, 9], 3), ([8], 4)] 2) := by decide +kernel

/-- A vault with a secret of 16 bytes: the answers to the right and to a wrong guess. -/
example : (Spec2.vstep (some ⟨List.replicate 16 5, [1], 3, true⟩) (.restore [1])).2 = .restore .ok (List.replicate 16 5) 3 ∧
    (Spec2.vstep (some ⟨List.replicate 16 5, [1], 3, true⟩) (.restore [2])).2 = .restore .pinMismatch [] 2 ∧
    (answer2.encode (.restore .ok (List.replicate 16 5) 3)).length = 24 ∧ (answer2.encode (.restore .pinMismatch [] 2)).length = 6 := by decide +kernel

/-- Both, encrypted. -/
example : (∃ m c, Svr.Noise.encrypt Svr.Props.Noise.plain 50 false 0 (answer2.encode (.restore .ok (List.replicate 16 5) 3)) = .ok (m, some c) ∧
      c.length = 24 + Svr.Props.Noise.plain.mac) ∧
    (∃ m c, Svr.Noise.encrypt Svr.Props.Noise.plain 50 false 0 (answer2.encode (.restore .pinMismatch [] 2)) = .ok (m, some c) ∧
      c.length = 6 + Svr.Props.Noise.plain.mac) :=
  ⟨⟨_, _, rfl, by decide +kernel⟩, ⟨_, _, rfl, by decide +kernel⟩⟩

open Svr.Raft.Node Svr.Raft.Play Svr.Core.Play

/-- Three replicas with SVR2, everything as on the wire. -/
def wsite : Site Nat Svr.DB2.DB Svr.DB2.Log Svr.DB2.Resp := ⟨Svr.Props.Wire.wired, svr2 DB2.P0 wire2, fun _ => none, fun p => [UInt8.ofNat p]⟩

def ask1 : Bytes := enc (form2.reqF (.backup DB2.sec DB2.pinA 2) ⟨[], []⟩)
def ask2 : Bytes := enc (form2.reqF (.expose DB2.sec) ⟨[], []⟩)
def logged1 : Bytes := form2.encLog ⟨DB2.ida, .backup DB2.sec DB2.pinA 2, []⟩ ⟨[], []⟩
def logged2 : Bytes := form2.encLog ⟨DB2.ida, .expose DB2.sec, []⟩ ⟨[], []⟩

/-- A request forwarded by replica 2 is answered there; then one made at replica 1 is answered. -/
def both : Option (GTab Svr.DB2.DB Svr.DB2.Resp × GTab Svr.DB2.DB Svr.DB2.Resp × GTab Svr.DB2.DB Svr.DB2.Resp × (Nat × Option Svr.DB2.Resp) ×
    (Nat × Option Svr.DB2.Resp)) :=
  match gplay wsite fast elected GTab.none with
  | none => none
  | some X => match serve wsite fast X 1 (.data logged1) 2 7 [flush 1, .give 2 2, .give 2 4, flush 2, .give 1 7, flush 1, .give 2 8, flush 2,
      .give 1 10, flush 1, .give 2 11, .call 2 .takeCommitted, .call 2 .takeCommitted, flush 2] with
    | none => none
    | some (Y, a) => match serve wsite fast Y 1 (.data logged2) 1 8 ([flush 1, .give 2 14, flush 2, .give 1 16, flush 1, .give 2 17, flush 2, .give 1 19] ++
        List.replicate 3 (.call 1 .takeCommitted)) with
      | none => none
      | some (Z, b) => some (X, Y, Z, a, b)

set_option maxRecDepth 100000 in
/-- What C98 speaks about happens: in a group meeting all hypotheses the bytes of a backup are answered, and then those of an expose. -/
example : ∃ A A1 B C1 G : Grid Nat Svr.DB2.DB Svr.DB2.Resp, Proper wsite.raft ∧ wsite.pr = svr2 DB2.P0 wire2 ∧ wsite.raft.v.ser = encGroup ∧
    GReachable wsite A ∧ GReachable wsite G ∧ NoCollision wsite.raft.v G.W.Hashed ∧ FixedVoters wsite.raft G.W ∧
    Submitted2 DB2.ida ask1 logged1 ∧ Submitted2 DB2.ida ask2 logged2 ∧ logged1.length ≤ maxLen ∧ logged2.length ≤ maxLen ∧
    Call wsite A A1 B (.data logged1) 2 (some (.backup)) ∧ Call wsite B C1 G (.data logged2) 3 (some (.expose true)) := by
  have h : (match both with
      | some (_, _, Z, a, b) => noColl (hashedBy Z.T) && requests Z.T (fun _ => false) && decide (a = (2, some (.backup))) &&
          decide (b = (3, some (.expose true)))
      | none => false) = true := by decide +kernel
  split at h
  · rename_i X Y Z a b e
    simp only [Bool.and_eq_true, decide_eq_true_eq] at h
    obtain ⟨⟨⟨h1, h2⟩, rfl⟩, rfl⟩ := h
    unfold both at e
    split at e
    · cases e
    rename_i X' e1
    split at e
    · cases e
    rename_i Y' a' e2
    split at e
    · cases e
    rename_i Z' b' e3
    obtain ⟨rfl, rfl, rfl, rfl, rfl⟩ : X' = X ∧ Y' = Y ∧ Z' = Z ∧ a' = _ ∧ b' = _ := by simpa using e
    have r := gplay_reachable e1
    obtain ⟨A1, c1⟩ := serve_call e2
    obtain ⟨C1, c2⟩ := serve_call e3
    have f1 : GFuture wsite X'.grid Y'.grid := by
      obtain ⟨q, loc, p, e, d1, _, d3, _⟩ := c1.spec r
      exact Linear.trans (.next .now d1.next) d3
    have f2 : GFuture wsite Y'.grid Z'.grid := by
      obtain ⟨q, loc, p, e, d1, _, d3, _⟩ := c2.spec (r.future f1)
      exact Linear.trans (.next .now d1.next) d3
    exact ⟨X'.grid, A1, Y'.grid, C1, Z'.grid, ⟨⟨by simp [wsite, Svr.Props.Wire.wired, SSorted], by simp [wsite, Svr.Props.Wire.wired, SSorted]⟩,
      by simp [wsite, Svr.Props.Wire.wired], by simp [wsite, Svr.Props.Wire.wired], by simp [wsite, Svr.Props.Wire.wired]⟩, rfl, rfl, r,
      (r.future f1).future f2, noColl_table h1, fun m hm => absurd (requests_spec (g := trio) rfl h2 hm) (by decide),
      by unfold Submitted2; decide +kernel, by unfold Submitted2; decide +kernel, by decide +kernel, by decide +kernel, c1, c2⟩
  · cases h

end Svr.Props.Replies
