import Verif.Spec.Group4
import Verif.DB4Apart
import Verif.Props.DB4
import Mathlib.Algebra.Field.ZMod
import Mathlib.Algebra.BigOperators.Group.Finset.Basic
import Mathlib.Algebra.Module.BigOperators

/-!
# C89: the answers of several SVR4 servers make up one evaluation. C90: the proof of Restore2

An SVR4 backup is spread over servers, each of which has a share of the OPRF key, a share of the encryption key, and a share of zero that masks its
answers. What the servers answer, and what a client can make of it, is stated in the group that libsodium computes in.
-/

namespace Svr.Props.Servers
open Svr Svr.DB4 Svr.Spec4

variable {P : Prims4} {F G : Type} [Field F] [AddCommGroup G] [Module F G]

/-- The OPRF share of an account for a version: the current one, or the one after the pending rotation. -/
def keyAt (I : Impl P F G) (x : Acct) (v : UInt32) : Option F :=
  if v = x.version then some (I.sc x.oprf)
  else match x.pending with
    | none => none
    | some p => if v = p.newVersion then some (I.sc x.oprf + I.sc p.oprfDelta) else none

/-- The encryption share of an account for a version. -/
def encAt (x : Acct) (v : UInt32) : Option Bytes :=
  if v = x.version then some x.enc
  else match x.pending with
    | none => none
    | some p => if v = p.newVersion then some (xorB x.enc p.encDelta) else none

/-- A Restore1 for account `a` and the blinded element `b` is answered with `e` for version `v`. -/
def Answers (P : Prims4) (a b : Bytes) (v : UInt32) (db : DB) (e : Bytes) : Prop :=
  ∃ path db' es t st, run P path db ⟨a, .restore1 b⟩ = .ok (db', ⟨.restore1 .ok es t, st⟩) ∧ (e, v) ∈ es

theorem impl_sadd (I : Impl P F G) : SaddOK P := fun _ _ ha hb => (I.sadd ha hb).1

theorem answers_account (hs : SaddOK P) {a b e : Bytes} {v : UInt32} {db : DB} (hr : Reach P db) (h : Answers P a b v db e) :
    okPoint P b = true ∧ ∃ x es, look db a = some x ∧ evalAll P a b x = some es ∧ (e, v) ∈ es := by
  obtain ⟨path, db', es, t, st, hrun, hm⟩ := h
  have hv : validate P ⟨a, .restore1 b⟩ = none := by
    simp only [run] at hrun
    obtain ⟨_, hc, _⟩ := Out.bind_eq_ok.mp hrun
    by_contra hl
    simp [hl, Out.check] at hc
  refine ⟨((validate_iff P _).mp hv).2, ?_⟩
  obtain ⟨d1, eff, k1, _, _, k2⟩ := run_cases P hs path db ⟨a, .restore1 b⟩ (reach_inv hs hr) hv
  rw [hrun] at k1
  cases k1
  rcases k2 with ⟨k2, _⟩ | ⟨_, _, k2, _⟩
  · cases hx : look db a with
    | none => rw [hx] at k2; simp [astep] at k2
    | some x =>
      rw [hx] at k2
      simp only [astep] at k2
      cases he : evalAll P a b x with
      | none => rw [he] at k2; simp at k2
      | some es' =>
        rw [he] at k2
        simp only [Effect.mk.injEq, Resp.restore1.injEq, true_and] at k2
        exact ⟨x, es', rfl, he, k2.1.1 ▸ hm⟩
  · simp [merkleFail] at k2

theorem look_ok {db : DB} (hi : Inv P db) {a : Bytes} {x : Acct} (h : look db a = some x) :
    okPoint P x.auth = true ∧ okScalar P x.oprf = true ∧ okScalar P x.zero = true ∧ x.enc.length = 32 ∧
      ∀ p, x.pending = some p → okScalar P p.oprfDelta = true ∧ p.encDelta.length = 32 := by
  have := hi a
  cases hf : db.rows.find a with
  | none => simp [look, hf] at h
  | some r =>
    simp only [look, hf, Option.map_some, Option.some.injEq] at h
    subst h
    rw [hf] at this
    exact ⟨this.1.auth_ok, this.1.oprf_ok, this.1.zero_ok, this.1.enc_len, fun p hp => ⟨(this.2 p hp).delta_ok, (this.2 p hp).enc_len⟩⟩

theorem evalShare_pt (I : Impl P F G) {a b e h oprf zero : Bytes} (hb : okPoint P b = true) (ho : okScalar P oprf = true)
    (hz : okScalar P zero = true) (hh : P.hashToPoint a b = some h) (he : evalShare P a b oprf zero = some e) :
    I.pt e = I.sc oprf • I.pt b + I.sc zero • I.pt h := by
  simp only [evalShare, hh, Option.bind_eq_bind, Option.bind_some] at he
  obtain ⟨bp, h1, he⟩ := Option.bind_eq_some_iff.mp he
  obtain ⟨mask, h2, he⟩ := Option.bind_eq_some_iff.mp he
  have k1 := I.smul ho hb h1
  split at h2
  · rename_i hz0
    cases h2
    rw [(I.padd k1.1 I.zeroPoint.1 he).2, k1.2.1, hz0, I.zeroPoint.2, I.zeroScalar, zero_smul]
  · have k2 := I.smul hz (I.hashToPoint hh) h2
    rw [(I.padd k1.1 k2.1 he).2, k1.2.1, k2.2.1]

/-- **C89**: what a server answers for a version is its share of the key times the blinded element, and a mask: its share of zero times a point that
depends on the account and the blinded element only. -/
theorem C89_answer (I : Impl P F G) {a b e : Bytes} {v : UInt32} {db : DB} (hr : ReplicaReach P db) (h : Answers P a b v db e) :
    ∃ x k m, look db a = some x ∧ keyAt I x v = some k ∧ P.hashToPoint a b = some m ∧ I.pt e = k • I.pt b + I.sc x.zero • I.pt m := by
  have hs := impl_sadd I
  obtain ⟨hb, x, es, hx, hes, hm⟩ := answers_account hs (replica_reach hs hr) h
  obtain ⟨_, ho, hz, _, hd⟩ := look_ok (reach_inv hs (replica_reach hs hr)) hx
  simp only [evalAll, Option.bind_eq_bind] at hes
  obtain ⟨e1, h1, hes⟩ := Option.bind_eq_some_iff.mp hes
  obtain ⟨m, hm1⟩ : ∃ m, P.hashToPoint a b = some m := by
    simp only [evalShare, Option.bind_eq_bind] at h1
    obtain ⟨m, k, _⟩ := Option.bind_eq_some_iff.mp h1
    exact ⟨m, k⟩
  cases hp : x.pending with
  | none =>
    rw [hp] at hes
    cases hes
    simp only [List.mem_singleton, Prod.mk.injEq] at hm
    obtain ⟨rfl, rfl⟩ := hm
    exact ⟨x, _, m, hx, by rw [keyAt, if_pos rfl], hm1, evalShare_pt I hb ho hz hm1 h1⟩
  | some p =>
    rw [hp] at hes
    obtain ⟨e2, h2, hes⟩ := Option.bind_eq_some_iff.mp hes
    cases hes
    simp only [List.mem_cons, List.not_mem_nil, or_false, Prod.mk.injEq] at hm
    by_cases hv : v = x.version
    · rcases hm with ⟨rfl, _⟩ | ⟨rfl, hv2⟩
      · exact ⟨x, _, m, hx, by rw [keyAt, if_pos hv], hm1, evalShare_pt I hb ho hz hm1 h1⟩
      · exact absurd (hv2.symm.trans hv) (replica_apart hs hr a x p hx hp)
    · rcases hm with ⟨_, hv1⟩ | ⟨rfl, rfl⟩
      · exact absurd hv1 hv
      · refine ⟨x, _, m, hx, by rw [keyAt, if_neg hv, hp]; simp; rfl, hm1, ?_⟩
        have k := I.sadd ho (hd p hp).1
        rw [evalShare_pt I hb k.1 hz hm1 h2, k.2]

/-- **C89**: if the zero shares of the servers sum to zero, the sum of their answers for a version is the blinded element times the sum of their key
shares for that version. -/
theorem C89_sum (I : Impl P F G) {ι : Type} (s : Finset ι) {a b : Bytes} {v : UInt32} (db : ι → DB) (e : ι → Bytes) (x : ι → Acct)
    (hr : ∀ i ∈ s, ReplicaReach P (db i)) (hx : ∀ i ∈ s, look (db i) a = some (x i)) (h : ∀ i ∈ s, Answers P a b v (db i) (e i))
    (hz : ∑ i ∈ s, I.sc (x i).zero = 0) :
    ∃ k : ι → F, (∀ i ∈ s, keyAt I (x i) v = some (k i)) ∧ ∑ i ∈ s, I.pt (e i) = (∑ i ∈ s, k i) • I.pt b := by
  have hk : ∀ i ∈ s, ∃ k, keyAt I (x i) v = some k ∧
      ∀ m, P.hashToPoint a b = some m → I.pt (e i) = k • I.pt b + I.sc (x i).zero • I.pt m := by
    intro i hi
    obtain ⟨y, k, m, hy, h1, hm, h2⟩ := C89_answer I (hr i hi) (h i hi)
    rw [hx i hi] at hy
    cases hy
    refine ⟨k, h1, fun m' hm' => ?_⟩
    rw [hm] at hm'
    cases hm'
    exact h2
  choose! k h1 h2 using hk
  refine ⟨k, h1, ?_⟩
  cases hm : P.hashToPoint a b with
  | none =>
    have : s = ∅ := by
      by_contra hne
      obtain ⟨i, hi⟩ := Finset.nonempty_iff_ne_empty.mpr hne
      obtain ⟨_, _, m, _, _, hm', _⟩ := C89_answer I (hr i hi) (h i hi)
      rw [hm] at hm'; cases hm'
    subst this
    simp
  | some m =>
    rw [Finset.sum_congr rfl (fun i hi => h2 i hi m hm), Finset.sum_add_distrib, ← Finset.sum_smul, ← Finset.sum_smul, hz, zero_smul, add_zero]

/-- **C89**: a client that blinded its element with `r` gets, by unblinding, the element times the sum of the key shares, whatever `r` was. -/
theorem C89_unblinded (I : Impl P F G) {ι : Type} (s : Finset ι) {a b : Bytes} {v : UInt32} (db : ι → DB) (e : ι → Bytes) (x : ι → Acct)
    (hr : ∀ i ∈ s, ReplicaReach P (db i)) (hx : ∀ i ∈ s, look (db i) a = some (x i)) (h : ∀ i ∈ s, Answers P a b v (db i) (e i))
    (hz : ∑ i ∈ s, I.sc (x i).zero = 0) (r : F) (X : G) (hr0 : r ≠ 0) (hb : I.pt b = r • X) :
    ∃ k : ι → F, (∀ i ∈ s, keyAt I (x i) v = some (k i)) ∧ r⁻¹ • ∑ i ∈ s, I.pt (e i) = (∑ i ∈ s, k i) • X := by
  obtain ⟨k, h1, h2⟩ := C89_sum I s db e x hr hx h hz
  refine ⟨k, h1, ?_⟩
  rw [h2, hb, smul_smul, smul_smul]
  congr 1
  rw [mul_comm, ← mul_assoc, mul_inv_cancel₀ hr0, one_mul]

/-- **C89**: if a rotation is pending on all servers and its OPRF deltas sum to zero, the answers for the new version sum to what those for the old
version sum to. -/
theorem C89_rotated (I : Impl P F G) {ι : Type} (s : Finset ι) {a b : Bytes} {v v' : UInt32} (db : ι → DB) (e e' : ι → Bytes) (x : ι → Acct)
    (p : ι → Rot) (hr : ∀ i ∈ s, ReplicaReach P (db i)) (hx : ∀ i ∈ s, look (db i) a = some (x i))
    (hv : ∀ i ∈ s, (x i).version = v) (hp : ∀ i ∈ s, (x i).pending = some (p i)) (hv' : ∀ i ∈ s, (p i).newVersion = v')
    (h : ∀ i ∈ s, Answers P a b v (db i) (e i)) (h' : ∀ i ∈ s, Answers P a b v' (db i) (e' i))
    (hz : ∑ i ∈ s, I.sc (x i).zero = 0) (hd : ∑ i ∈ s, I.sc (p i).oprfDelta = 0) :
    ∑ i ∈ s, I.pt (e' i) = ∑ i ∈ s, I.pt (e i) := by
  obtain ⟨k, h1, h2⟩ := C89_sum I s db e x hr hx h hz
  obtain ⟨k', h1', h2'⟩ := C89_sum I s db e' x hr hx h' hz
  rw [h2, h2']
  congr 1
  have : ∀ i ∈ s, k' i = k i + I.sc (p i).oprfDelta := by
    intro i hi
    have a1 := h1 i hi
    have a2 := h1' i hi
    have hne := replica_apart (impl_sadd I) (hr i hi) a (x i) (p i) (hx i hi) (hp i hi)
    rw [keyAt, if_pos (hv i hi).symm] at a1
    rw [keyAt, if_neg (fun hc => hne ((hv' i hi).trans hc)), hp i hi] at a2
    simp only [hv' i hi, if_true] at a2
    rw [← Option.some.inj a1, ← Option.some.inj a2]
  rw [Finset.sum_congr rfl this, Finset.sum_add_distrib, hd, add_zero]

/-- **C89**: a request other than Create never changes the share that stands behind a version, as long as the version is known before and after:
starting, committing and rolling back a rotation on one server leaves what it answers for a version in step with the others. -/
theorem C89_same_share (I : Impl P F G) {path : Bytes → Bool} {db db' : DB} {a : Bytes} {req : Req} {eff : Effect} (hr : ReplicaReach P db)
    (hv : validate P ⟨a, req⟩ = none) (h : run P path db ⟨a, req⟩ = .ok (db', eff)) (hc : ∀ n o au en z ve, req ≠ .create n o au en z ve)
    {x y : Acct} (hx : look db a = some x) (hy : look db' a = some y) (v : UInt32) {k k' : F} (hk : keyAt I x v = some k)
    (hk' : keyAt I y v = some k') {c c' : Bytes} (he : encAt x v = some c) (he' : encAt y v = some c') : k' = k ∧ c' = c ∧ y.zero = x.zero := by
  have hs := impl_sadd I
  obtain ⟨_, ho, _, _, hd⟩ := look_ok (reach_inv hs (replica_reach hs hr)) hx
  have hap := replica_apart hs hr a x
  obtain ⟨d1, e1, k1, _, _, k2⟩ := run_cases P hs path db ⟨a, req⟩ (reach_inv hs (replica_reach hs hr)) hv
  rw [h] at k1
  cases k1
  have same : ∀ z : Acct, some z = some y → z.version = x.version → z.oprf = x.oprf → z.enc = x.enc → z.zero = x.zero →
      z.pending = x.pending → k' = k ∧ c' = c ∧ y.zero = x.zero := by
    intro z hz h1 h2 h3 h4 h5
    cases hz
    simp only [keyAt, h1, h2, h5] at hk'
    simp only [encAt, h1, h3, h5] at he'
    simp only [keyAt] at hk
    simp only [encAt] at he
    rw [hk] at hk'
    rw [he] at he'
    cases hk'; cases he'
    exact ⟨rfl, rfl, h4⟩
  rcases k2 with ⟨_, k2⟩ | ⟨_, rfl, _, _⟩
  swap
  · rw [hx] at hy
    exact same x hy rfl rfl rfl rfl rfl
  simp only at k2
  rw [hy, hx] at k2
  cases req with
  | create n o au en z ve => exact absurd rfl (hc n o au en z ve)
  | restore1 b =>
    simp only [astep] at k2
    split at k2
    · cases k2
    · exact same _ k2.symm rfl rfl rfl rfl rfl
  | remove => simp [astep] at k2
  | query => exact same x k2.symm rfl rfl rfl rfl rfl
  | restore2 _ _ _ => exact same x k2.symm rfl rfl rfl rfl rfl
  | unset => exact same x k2.symm rfl rfl rfl rfl rfl
  | rotateStart ver od ed =>
    simp only [astep] at k2
    cases hp : x.pending with
    | some q => rw [hp] at k2; exact same x k2.symm rfl rfl rfl rfl rfl
    | none =>
      rw [hp] at k2
      simp only at k2
      split at k2
      · exact same x k2.symm rfl rfl rfl rfl rfl
      · cases k2
        simp only [keyAt, hp] at hk
        simp only [encAt, hp] at he
        split at hk
        · rename_i hv
          simp only [hv, if_true] at he
          simp only [keyAt, hv, if_true] at hk'
          simp only [encAt, hv, if_true] at he'
          cases hk; cases hk'; cases he; cases he'
          exact ⟨rfl, rfl, rfl⟩
        · cases hk
  | rotateCommit ver =>
    simp only [astep] at k2
    cases hp : x.pending with
    | none => rw [hp] at k2; exact same x k2.symm rfl rfl rfl rfl rfl
    | some q =>
      rw [hp] at k2
      simp only at k2
      split at k2
      · cases k2
        have hne := hap q hx hp
        simp only [keyAt, rotated] at hk'
        simp only [encAt, rotated] at he'
        by_cases hv : v = q.newVersion
        · simp only [hv, if_true] at hk'
          simp only [hv, if_true] at he'
          simp only [keyAt, hv, hp, if_neg hne, if_true] at hk
          simp only [encAt, hv, hp, if_neg hne, if_true] at he
          cases hk; cases hk'; cases he; cases he'
          exact ⟨(I.sadd ho (hd q hp).1).2, rfl, rfl⟩
        · simp [hv] at hk'
      · exact same x k2.symm rfl rfl rfl rfl rfl
  | rotateRollback ver =>
    simp only [astep] at k2
    cases hp : x.pending with
    | none => rw [hp] at k2; exact same x k2.symm rfl rfl rfl rfl rfl
    | some q =>
      rw [hp] at k2
      simp only at k2
      split at k2
      · cases k2
        simp only [keyAt] at hk'
        simp only [encAt] at he'
        split at hk'
        · rename_i hv
          simp only [hv, if_true] at he'
          simp only [keyAt, hv, if_true] at hk
          simp only [encAt, hv, if_true] at he
          cases hk; cases hk'; cases he; cases he'
          exact ⟨rfl, rfl, rfl⟩
        · cases hk'
      · exact same x k2.symm rfl rfl rfl rfl rfl

/-- The encryption shares of several servers, put together. -/
def xorAll : List Bytes → Bytes
  | [] => zeros 32
  | b :: bs => xorB b (xorAll bs)

theorem xorB_assoc4 : ∀ a b c d : Bytes, xorB (xorB a b) (xorB c d) = xorB (xorB a c) (xorB b d)
  | [], _, _, _ => by simp [xorB]
  | _ :: _, [], _, _ => by simp [xorB]
  | _ :: _, _ :: _, [], _ => by simp [xorB]
  | _ :: _, _ :: _, _ :: _, [] => by simp [xorB]
  | a :: as, b :: bs, c :: cs, d :: ds => by
    have := xorB_assoc4 as bs cs ds
    simp only [xorB, List.zipWith_cons_cons] at this ⊢
    rw [this]
    congr 1
    rw [UInt8.xor_assoc, UInt8.xor_assoc, ← UInt8.xor_assoc b c d, UInt8.xor_comm b c, UInt8.xor_assoc c b d]

theorem xorB_zeros : ∀ (n : Nat) (b : Bytes), b.length = n → xorB b (zeros n) = b
  | 0, [], _ => rfl
  | n + 1, b :: bs, h => by
    have := xorB_zeros n bs (by simpa using h)
    simp only [xorB, zeros, List.replicate_succ, List.zipWith_cons_cons] at this ⊢
    rw [this, UInt8.xor_zero]
  | 0, _ :: _, h => by cases h
  | _ + 1, [], h => by cases h

theorem xorAll_length : ∀ (l : List Bytes), (∀ b ∈ l, b.length = 32) → (xorAll l).length = 32
  | [], _ => by simp [xorAll, zeros]
  | b :: bs, h => by
    have h1 := xorAll_length bs (fun c hc => h c (List.mem_cons_of_mem _ hc))
    have h2 := h b List.mem_cons_self
    simp only [xorAll, xorB, List.length_zipWith, h1, h2, Nat.min_self]

/-- **C89**: if the encryption deltas of a rotation pending on all servers cancel out, the encryption shares for the new version make up the same key
as those for the old version. -/
theorem C89_enc (hs : SaddOK P) {a : Bytes} (servers : List (DB × Acct × Rot)) (hr : ∀ t ∈ servers, ReplicaReach P t.1)
    (hx : ∀ t ∈ servers, look t.1 a = some t.2.1 ∧ t.2.1.pending = some t.2.2)
    (hd : xorAll (servers.map fun t => t.2.2.encDelta) = zeros 32) (old new : List Bytes)
    (ho : servers.map (fun t => encAt t.2.1 t.2.1.version) = old.map some)
    (hn : servers.map (fun t => encAt t.2.1 t.2.2.newVersion) = new.map some) : xorAll new = xorAll old := by
  have h1 : old = servers.map (fun t => t.2.1.enc) := by
    have : servers.map (fun t => encAt t.2.1 t.2.1.version) = (servers.map (fun t => t.2.1.enc)).map some := by
      rw [List.map_map]
      exact List.map_congr_left (fun t _ => by simp [encAt])
    rw [this] at ho
    exact (List.map_injective_iff.mpr (Option.some_injective _) ho).symm
  have h2 : new = servers.map (fun t => xorB t.2.1.enc t.2.2.encDelta) := by
    have : servers.map (fun t => encAt t.2.1 t.2.2.newVersion) = (servers.map (fun t => xorB t.2.1.enc t.2.2.encDelta)).map some := by
      rw [List.map_map]
      refine List.map_congr_left (fun t ht => ?_)
      have hne := replica_apart hs (hr t ht) a t.2.1 t.2.2 (hx t ht).1 (hx t ht).2
      simp [encAt, hne, (hx t ht).2]
    rw [this] at hn
    exact (List.map_injective_iff.mpr (Option.some_injective _) hn).symm
  subst h1 h2
  have key : ∀ l : List (DB × Acct × Rot), xorAll (l.map fun t => xorB t.2.1.enc t.2.2.encDelta) =
      xorB (xorAll (l.map fun t => t.2.1.enc)) (xorAll (l.map fun t => t.2.2.encDelta)) := by
    intro l
    induction l with
    | nil => rfl
    | cons t l ih => simp only [List.map_cons, xorAll, ih, xorB_assoc4]
  rw [key, hd]
  refine xorB_zeros 32 _ (xorAll_length _ ?_)
  intro b hb
  obtain ⟨t, ht, rfl⟩ := List.mem_map.mp hb
  exact (look_ok (reach_inv hs (replica_reach hs (hr t ht))) (hx t ht).1).2.2.2.1

/-- A session with the result `st` of a Restore1 accepts `(ap, t)` for a version. -/
def Accepts (P : Prims4) (s : Session) (st : R2State) (ap t : Bytes) (ver : UInt32) (share : Bytes) : Prop :=
  s.restore2 = some st ∧ ∃ s', stepS P s (.request (.restore2 ap t ver)) = (s', some (.restore2 .ok share))

/-- The challenge of a session for the point `ap`. -/
def chal (I : Impl P F G) (s : Session) (st : R2State) (ap : Bytes) : F := I.sc (P.challenge ap st.blinded s.handshake)

theorem smul_zero_cases {c : F} {x : G} (h : c • x = 0) : c = 0 ∨ x = 0 := by
  by_cases hc : c = 0
  · exact Or.inl hc
  · right
    rw [← one_smul F x, ← inv_mul_cancel₀ hc, mul_smul, h, smul_zero]

theorem accepts_eq (I : Impl P F G) {s : Session} {st : R2State} {ap t share : Bytes} {ver : UInt32} (h : Accepts P s st ap t ver share) :
    okScalar P t = true ∧ okPoint P ap = true ∧ okPoint P st.auth = true ∧ I.pt st.auth ≠ 0 ∧
      I.sc t • I.base = I.pt ap + chal I s st ap • I.pt st.auth := by
  obtain ⟨hst, s', h⟩ := h
  obtain ⟨st', h2, h3, _⟩ := Svr.Props.DB4.request_ok h
  rw [hst] at h2
  cases h2
  obtain ⟨⟨l, r, m1, m2, m3⟩, _⟩ := Svr.Props.DB4.restore2_ok h3
  have hok : okScalar P t = true ∧ okPoint P st.auth = true ∧ okPoint P ap = true := by
    unfold restore2 at h3
    rw [m1] at h3
    simp only [m2, m3] at h3
    cases k1 : okScalar P t
    · simp [k1] at h3
    · cases k2 : okPoint P st.auth
      · simp [k1, k2] at h3
      · cases k3 : okPoint P ap
        · simp [k1, k2, k3] at h3
        · exact ⟨rfl, rfl, rfl⟩
  obtain ⟨k1, k2, k3⟩ := hok
  have n1 := I.mulBase k1 m1
  have n2 := I.smul (I.challenge _ _ _) k2 m2
  have n3 := I.padd k3 n2.1 m3
  refine ⟨k1, k3, k2, ?_, ?_⟩
  · intro hz
    apply n2.2.2
    rw [n2.2.1, hz, smul_zero]
  · rw [← n1.2.1, n3.2, n2.2.1, chal]

/-- **C90**: a client that knows the logarithm `w` of the account's commitment, and makes its proof from it with a nonce `n`, gets the share of the
version it asked for, unless a multiplication of the proof happens to give the neutral element, which libsodium refuses. -/
theorem C90_complete (I : Impl P F G) (hf : Full P I) {s : Session} {st : R2State} {ap t : Bytes} {ver : UInt32} (hst : s.restore2 = some st)
    (hid : s.id.length = 16) (ha : okPoint P st.auth = true) (hap : okPoint P ap = true) (ht : okScalar P t = true) (w n : F)
    (hw : I.pt st.auth = w • I.base) (hn : I.pt ap = n • I.base) (hr : I.sc t = n + chal I s st ap * w)
    (h1 : I.sc t • I.base ≠ 0) (h2 : chal I s st ap • I.pt st.auth ≠ 0) :
    (ver.toUInt64 = st.version → Accepts P s st ap t ver st.enc) ∧
    (ver.toUInt64 ≠ st.version → ver.toUInt64 = st.newVersion → Accepts P s st ap t ver st.newEnc) := by
  obtain ⟨l, m1⟩ := hf.mulBase ht h1
  obtain ⟨r, m2⟩ := hf.smul (I.challenge ap st.blinded s.handshake) ha h2
  have n1 := I.mulBase ht m1
  have n2 := I.smul (I.challenge _ _ _) ha m2
  obtain ⟨r2, m3⟩ := hf.padd hap n2.1
  have n3 := I.padd hap n2.1 m3
  have heq : l = r2 := by
    refine I.pt_inj n1.1 n3.1 ?_
    rw [n1.2.1, n3.2, n2.2.1, hn, hw, hr, add_smul, mul_smul]
    rfl
  subst heq
  have key : ∀ share, restore2 P ap t ver st s.handshake = .restore2 .ok share → Accepts P s st ap t ver share := by
    intro share h
    refine ⟨hst, { s with restore2 := none }, ?_⟩
    simp only [stepS, responseFromRequest, hst, hid, ht, hap, h]
    simp
  have hc : ctEq l l = true := by rw [ctEq_iff]
  constructor
  · intro hv
    apply key
    unfold restore2
    rw [m1]
    simp [ht, ha, hap, m2, m3, hc, hv]
  · intro hv hv'
    apply key
    unfold restore2
    rw [m1]
    simp only [ht, ha, hap, m2, m3, hc, if_neg hv, if_pos hv']
    simp

/-- **C90**: who has two accepted proofs with the same point for the same commitment, but under different challenges, has its logarithm. So to be
answered in a session for more than one of the possible challenges takes what the account's owner put behind the commitment. -/
theorem C90_special_sound (I : Impl P F G) {s s' : Session} {st st' : R2State} {ap t t' share share' : Bytes} {ver ver' : UInt32}
    (h : Accepts P s st ap t ver share) (h' : Accepts P s' st' ap t' ver' share') (hauth : st'.auth = st.auth)
    (hne : chal I s st ap ≠ chal I s' st' ap) :
    I.pt st.auth = ((I.sc t - I.sc t') / (chal I s st ap - chal I s' st' ap)) • I.base := by
  have e1 := (accepts_eq I h).2.2.2.2
  have e2 := (accepts_eq I h').2.2.2.2
  rw [hauth] at e2
  have hd : chal I s st ap - chal I s' st' ap ≠ 0 := sub_ne_zero.mpr hne
  have : (chal I s st ap - chal I s' st' ap) • I.pt st.auth = (I.sc t - I.sc t') • I.base := by
    rw [sub_smul, sub_smul, e1, e2, add_sub_add_left_eq_sub]
  rw [div_eq_inv_mul, mul_smul, ← this, smul_smul, inv_mul_cancel₀ hd, one_smul]

/-- **C90**: the same proof is accepted in two sessions of an account only if they have the same challenge, that is, if the hashes over the proof's
point, the blinded element and the handshake agree as scalars. -/
theorem C90_no_replay (I : Impl P F G) {s s' : Session} {st st' : R2State} {ap t share share' : Bytes} {ver ver' : UInt32}
    (h : Accepts P s st ap t ver share) (h' : Accepts P s' st' ap t ver' share') (hauth : st'.auth = st.auth) :
    P.challenge ap st.blinded s.handshake = P.challenge ap st'.blinded s'.handshake := by
  obtain ⟨_, _, _, hz, e1⟩ := accepts_eq I h
  have e2 := (accepts_eq I h').2.2.2.2
  rw [hauth] at e2
  refine I.sc_inj (I.challenge _ _ _) (I.challenge _ _ _) ?_
  by_contra hne
  have hd : chal I s st ap - chal I s' st' ap ≠ 0 := sub_ne_zero.mpr hne
  have : (chal I s st ap - chal I s' st' ap) • I.pt st.auth = 0 := by
    rw [sub_smul, sub_eq_zero]
    exact add_left_cancel (e1.symm.trans e2)
  rcases smul_zero_cases this with h | h
  · exact hd h
  · exact hz h

/-- **C90**: for one point and one challenge there is one answer: a proof cannot be altered into another one. -/
theorem C90_unique (I : Impl P F G) {s : Session} {st : R2State} {ap t t' share share' : Bytes} {ver ver' : UInt32}
    (h : Accepts P s st ap t ver share) (h' : Accepts P s st ap t' ver' share') : t' = t := by
  obtain ⟨k1, _, _, _, e1⟩ := accepts_eq I h
  obtain ⟨k2, _, _, _, e2⟩ := accepts_eq I h'
  refine I.sc_inj k2 k1 ?_
  have hb : I.base ≠ 0 := by
    intro hb
    obtain ⟨hst, s', h⟩ := h
    obtain ⟨st', h2, h3, _⟩ := Svr.Props.DB4.request_ok h
    obtain ⟨⟨l, r, m1, m2, m3⟩, _⟩ := Svr.Props.DB4.restore2_ok h3
    have := I.mulBase k1 m1
    apply this.2.2
    rw [this.2.1, hb, smul_zero]
  have : (I.sc t' - I.sc t) • I.base = 0 := by rw [sub_smul, sub_eq_zero, e1, e2]
  rcases smul_zero_cases this with h | h
  · exact sub_eq_zero.mp h
  · exact absurd h hb

/-! ## A concrete case: the group of order 7 -/

instance : Fact (Nat.Prime 7) := ⟨by decide⟩

/-- Encodings: the number, and 31 zeros. -/
def enc7 (x : ZMod 7) : Bytes := UInt8.ofNat x.val :: zeros 31
def val7 (b : Bytes) : ZMod 7 := match b with
  | [] => 0
  | x :: _ => (x.toNat : ZMod 7)
def opt7 (x : ZMod 7) : Option Bytes := if x = 0 then none else some (enc7 x)
/-- Operations that refuse the neutral element, as those of libsodium. -/
def P7 : Prims4 :=
  { sip16 := fun b => padTo 16 (b.drop 143 |>.take 8), sha256 := fun b => b,
    validPoint := fun b => b == enc7 (val7 b), validScalar := fun b => b == enc7 (val7 b), sadd := fun a b => enc7 (val7 a + val7 b),
    smul := fun a b => opt7 (val7 a * val7 b), padd := fun a b => some (enc7 (val7 a + val7 b)), mulBase := fun a => opt7 (val7 a),
    hashToPoint := fun _ _ => some (enc7 3), challenge := fun _ b h => enc7 (val7 b + h.length) }

theorem enc7_ok : ∀ x : ZMod 7, okPoint P7 (enc7 x) = true ∧ okScalar P7 (enc7 x) = true ∧ val7 (enc7 x) = x := by decide
theorem ok7 {b : Bytes} (h : okPoint P7 b = true) : b = enc7 (val7 b) := by
  simp only [okPoint, P7, Bool.and_eq_true, beq_iff_eq] at h
  exact h.2
theorem opt7_some {x : ZMod 7} {q : Bytes} (h : opt7 x = some q) : q = enc7 x ∧ x ≠ 0 := by
  simp only [opt7] at h
  split at h
  · cases h
  · cases h; exact ⟨rfl, by assumption⟩

def I7 : Impl P7 (ZMod 7) (ZMod 7) where
  sc := val7
  pt := val7
  base := 1
  sc_inj ha hb h := by rw [ok7 ha, ok7 hb, h]
  pt_inj ha hb h := by rw [ok7 ha, ok7 hb, h]
  smul _ _ h := by
    obtain ⟨rfl, hz⟩ := opt7_some h
    have := enc7_ok
    exact ⟨(this _).1, (this _).2.2, by rw [(this _).2.2]; exact hz⟩
  padd _ _ h := by
    cases h
    exact ⟨(enc7_ok _).1, (enc7_ok _).2.2⟩
  mulBase _ h := by
    obtain ⟨rfl, hz⟩ := opt7_some h
    exact ⟨(enc7_ok _).1, by rw [(enc7_ok _).2.2, smul_eq_mul, mul_one], by rw [(enc7_ok _).2.2]; exact hz⟩
  sadd _ _ := ⟨(enc7_ok _).2.1, (enc7_ok _).2.2⟩
  hashToPoint h := by cases h; exact (enc7_ok _).1
  challenge _ _ _ := (enc7_ok _).2.1
  zeroScalar := by decide
  zeroPoint := by decide

theorem full7 : Full P7 I7 where
  smul _ _ h := ⟨_, if_neg h⟩
  padd _ _ := ⟨_, rfl⟩
  mulBase _ h := ⟨_, if_neg (fun hc => h ((mul_one (val7 _)).trans hc))⟩

def id7 : Bytes := List.replicate 16 9
/-- Two servers: key shares 2 and 3, shares of zero 1 and 6, and a rotation pending with deltas 1 and 6. -/
def logs7 (i : Bool) : List Log :=
  [⟨id7, .create 3 (enc7 (if i then 3 else 2)) (enc7 3) (List.replicate 32 (if i then 5 else 4)) (enc7 (if i then 6 else 1)) 7⟩,
   ⟨id7, .rotateStart 8 (enc7 (if i then 6 else 1)) (List.replicate 32 1)⟩]
def db7 (i : Bool) : DB := match Svr.Props.DB4.runAll P7 intact empty (logs7 i) with | .ok (db, _) => db | _ => empty
def acct7 (i : Bool) : Acct := (look (db7 i) id7).getD ⟨[], [], [], [], 0, 0, none⟩
def rot7 (i : Bool) : Rot := ⟨8, enc7 (if i then 6 else 1), List.replicate 32 1⟩

theorem db7_reach (i : Bool) : ReplicaReach P7 (db7 i) := by
  cases i
  · exact .entry (path := intact) (l := ⟨id7, .rotateStart 8 (enc7 1) (List.replicate 32 1)⟩) (eff := ⟨.rotateStart .ok, none⟩)
      (.entry (path := intact) (l := ⟨id7, .create 3 (enc7 2) (enc7 3) (List.replicate 32 4) (enc7 1) 7⟩) (eff := ⟨.create .ok 3, none⟩)
        .empty (by decide) rfl) (by decide) rfl
  · exact .entry (path := intact) (l := ⟨id7, .rotateStart 8 (enc7 6) (List.replicate 32 1)⟩) (eff := ⟨.rotateStart .ok, none⟩)
      (.entry (path := intact) (l := ⟨id7, .create 3 (enc7 3) (enc7 3) (List.replicate 32 5) (enc7 6) 7⟩) (eff := ⟨.create .ok 3, none⟩)
        .empty (by decide) rfl) (by decide) rfl
theorem answers7 : ∀ i : Bool, Answers P7 id7 (enc7 4) 7 (db7 i) (enc7 (if i then 2 else 4)) ∧
    Answers P7 id7 (enc7 4) 8 (db7 i) (enc7 (if i then 5 else 1)) := by
  intro i
  cases i
  · exact ⟨⟨intact, _, _, _, _, rfl, by decide⟩, ⟨intact, _, _, _, _, rfl, by decide⟩⟩
  · exact ⟨⟨intact, _, _, _, _, rfl, by decide⟩, ⟨intact, _, _, _, _, rfl, by decide⟩⟩
/-- The hypotheses of `C89_sum`, `C89_unblinded`, `C89_rotated` and `C89_enc` hold of the two servers; the answers sum to 5 times the element. -/
example : (∀ i, look (db7 i) id7 = some (acct7 i) ∧ (acct7 i).version = 7 ∧ (acct7 i).pending = some (rot7 i) ∧ (rot7 i).newVersion = 8) ∧
    (∑ i : Bool, I7.sc (acct7 i).zero = 0) ∧ (∑ i : Bool, I7.sc (rot7 i).oprfDelta = 0) ∧
    (∑ i : Bool, I7.pt (enc7 (if i then 2 else 4)) = (5 : ZMod 7) • I7.pt (enc7 4)) ∧
    (∑ i : Bool, I7.pt (enc7 (if i then 5 else 1)) = (5 : ZMod 7) • I7.pt (enc7 4)) ∧
    xorAll ([false, true].map fun i => (rot7 i).encDelta) = zeros 32 ∧
    xorAll ([false, true].map fun i => (acct7 i).enc) = List.replicate 32 1 := by
  decide
/-- A commit on one of the servers. -/
example : ∃ db', run P7 intact (db7 true) ⟨id7, .rotateCommit 8⟩ = .ok (db', ⟨.rotateCommit .ok, none⟩) ∧
    ∃ y, look db' id7 = some y ∧ y.version = 8 ∧ keyAt I7 (acct7 true) 8 = some 2 ∧ keyAt I7 y 8 = some 2 := by
  exact ⟨_, rfl, _, rfl, by decide, by decide, by decide⟩
def st7 : R2State := session (acct7 true) (enc7 4)
def ses7 (h : Bytes) : Session := ⟨id7, h, some st7⟩
/-- The hypotheses of `C90_complete` hold with logarithm 3 and nonce 2, and those of `C90_special_sound` of two such proofs. -/
example : okPoint P7 st7.auth = true ∧ I7.pt st7.auth = (3 : ZMod 7) • I7.base ∧ I7.pt (enc7 2) = (2 : ZMod 7) • I7.base ∧
    I7.sc (enc7 3) = 2 + chal I7 (ses7 [1]) st7 (enc7 2) * 3 ∧ I7.sc (enc7 3) • I7.base ≠ 0 ∧ chal I7 (ses7 [1]) st7 (enc7 2) • I7.pt st7.auth ≠ 0 := by
  decide
theorem accepts7 : Accepts P7 (ses7 [1]) st7 (enc7 2) (enc7 3) 7 (List.replicate 32 5) ∧
    Accepts P7 (ses7 [1, 2]) st7 (enc7 2) (enc7 6) 8 (List.replicate 32 4) ∧
    chal I7 (ses7 [1]) st7 (enc7 2) ≠ chal I7 (ses7 [1, 2]) st7 (enc7 2) ∧ ¬ (∃ share, Accepts P7 (ses7 [1, 2]) st7 (enc7 2) (enc7 3) 7 share) := by
  refine ⟨⟨rfl, { ses7 [1] with restore2 := none }, by decide⟩, ⟨rfl, { ses7 [1, 2] with restore2 := none }, by decide⟩, by decide, ?_⟩
  rintro ⟨share, h⟩
  have := C90_unique I7 (⟨rfl, { ses7 [1, 2] with restore2 := none }, by decide⟩ : Accepts P7 (ses7 [1, 2]) st7 (enc7 2) (enc7 6) 7 (List.replicate 32 5)) h
  revert this
  decide

end Svr.Props.Servers
