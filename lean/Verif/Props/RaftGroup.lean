import Verif.Raft.Agree
import Verif.Raft.Play

/-!
# C26, C28, C29, C30: a group of replicas

Everything is stated of `Reachable` worlds (`Verif/Raft/Cluster.lean`): any number of replicas, started or joined at any
time, called in any order, with any delivery, loss, duplication, delay and reordering of messages, and any values of
`rand()`. HMAC is assumed not to collide on the inputs that replicas gave to it, and the serialization of a group is assumed to
be injective.
-/

namespace Svr.Props.RaftGroup
open Svr Svr.Raft Svr.Raft.Node

variable {P : Type} [LinearOrder P]

/-- The first membership has voters, fewer than 2^63 - 1, and the super majority is below 2^63. -/
structure Proper (g : Setting P) : Prop where
  wf : g.m0.Wf
  ne : g.m0.voting ≠ []
  len : g.m0.voting.length + 1 < 2 ^ 63
  sm : g.sm < 2 ^ 63

/-- `m` was requested as a membership. -/
def Requested (g : Setting P) (W : World P) (m : Membership P) : Prop :=
  ∃ gr, Inner.membership gr ∈ W.asked ∧ fromProto (gr.map fun r => (g.v.pid r.1, r.2)) = .ok m

/-- Nobody asked for a change of the voters (other members may come and go). -/
def FixedVoters (g : Setting P) (W : World P) : Prop := ∀ m, Requested g W m → m.voting = g.m0.voting

/-- `p` has committed `e` at index `i`, and has it in its log. -/
def Committed (W : World P) (p : P) (i : Nat) (e : Entry) : Prop :=
  ∃ s, W.node p = some s ∧ i ≤ s.commit ∧ s.log.at? i = some e

/-- `p` is leader in term `t`. -/
def Leads (W : World P) (p : P) (t : Nat) : Prop := ∃ s, W.node p = some s ∧ s.role = .leader ∧ s.term = t

theorem sameVoters {g : Setting P} {W : World P} {G : Bytes × Bytes → Prop} (h : FixedVoters g W) :
    SameVoters (g.ctx G (· ∈ W.asked)) := by
  intro e m hk hm
  obtain ⟨gr, h1, h2⟩ := memOf_some hm
  exact h m ⟨gr, by have hk' : e.inner ∈ W.asked := hk; rw [h1] at hk'; exact hk', h2⟩

/-- The invariant now and later. -/
theorem two_times {g : Setting P} {W W' : World P} (h : Reachable g W) (k : Future g W W')
    (hn : NoCollision g.v W'.Hashed) (hser : SerInj g.v) :
    ∃ σ σ', GInv (g.ctx W'.Hashed (· ∈ W'.asked)) W σ ∧ GInv (g.ctx W'.Hashed (· ∈ W'.asked)) W' σ' ∧ Grows σ σ' := by
  have hle := k.le h.shaped
  obtain ⟨σ, h1⟩ := h.inv (G := W'.Hashed) (K := (· ∈ W'.asked)) (fun x hx => hle.hashed hx) (fun i hi => hle.asked.subset hi) hn hser
  obtain ⟨σ', h2, h3⟩ := h1.future k h.shaped (fun x hx => hx) (fun i hi => hi) hn hser
  exact ⟨σ, σ', h1, h2, h3⟩

/-- Committed entries are part of committed histories. -/
theorem committed_com {c : Ctx P} {W : World P} {σ : St P} (h : GInv c W σ) {p : P} {i : Nat} {e : Entry} (hc : Committed W p i e) :
    1 ≤ i ∧ ∃ L, Com c σ L ∧ L[i - 1]? = some e := by
  obtain ⟨s, h1, h2, h3⟩ := hc
  obtain ⟨F, hF⟩ := h.get h1
  have ok := h.ok _ _ _ hF
  obtain ⟨a1, _, _, a4⟩ := ok.log.at_some h3
  exact ⟨a1, _, ok.com, by rw [List.getElem?_take, if_pos (by omega)]; exact a4⟩

theorem applied_com {c : Ctx P} {W : World P} {σ : St P} (h : GInv c W σ) {p : P} {s : Node P} (hp : W.node p = some s) :
    Com c σ (W.applied p) := by
  obtain ⟨F, hF⟩ := h.get hp
  have ok := h.ok _ _ _ hF
  rw [h.applied _ _ _ hF]
  exact ok.com.prefix (List.take_prefix_take_left ok.applied)

theorem same_of_comparable {A B : List Entry} (h : A <+: B ∨ B <+: A) {i : Nat} {a b : Entry} (ha : A[i]? = some a) (hb : B[i]? = some b) :
    a = b := by
  rcases h with ⟨t, rfl⟩ | ⟨t, rfl⟩
  · rw [List.getElem?_append_left (List.getElem?_eq_some_iff.mp ha).1, ha] at hb
    exact Option.some.inj hb
  · rw [List.getElem?_append_left (List.getElem?_eq_some_iff.mp hb).1, hb] at ha
    exact (Option.some.inj ha).symm

/-! ## C26 -/

/-- **C26**: with fixed voters, whoever leads in a term, now or later, is the same replica. -/
theorem C26_one_leader_per_term {g : Setting P} (hg : Proper g) {W W' : World P} (h : Reachable g W) (k : Future g W W')
    (hn : NoCollision g.v W'.Hashed) (hser : SerInj g.v) (hv : FixedVoters g W') {p q : P} {t : Nat} (hp : Leads W p t)
    (hq : Leads W' q t) : p = q := by
  obtain ⟨σ, σ', h1, h2, h3⟩ := two_times h k hn hser
  obtain ⟨s, a1, a2, rfl⟩ := hp
  obtain ⟨s', b1, b2, b3⟩ := hq
  obtain ⟨F, hF⟩ := h1.get a1
  obtain ⟨F', hF'⟩ := h2.get b1
  have ok := h1.ok _ _ _ hF
  have ok' := h2.ok _ _ _ hF'
  obtain ⟨m, hm⟩ := ok.leads a2
  obtain ⟨m', hm'⟩ := ok'.leads b2
  rw [b3] at hm'
  exact ((ok.led _ _ hm).grows h3).unique hg.wf hg.ne (by have := hg.len; exact Nat.lt_of_succ_lt this) hg.sm (sameVoters hv)
    (fun x s F hx => (h2.ok x s F hx).voted) (ok'.led _ _ hm')

/-! ## C28 -/

/-- **C28**: with fixed voters, what a replica has committed at an index now, and what any replica has committed there at
any later time, is the same entry. -/
theorem C28_committed_agree {g : Setting P} (hg : Proper g) {W W' : World P} (h : Reachable g W) (k : Future g W W')
    (hn : NoCollision g.v W'.Hashed) (hser : SerInj g.v) (hv : FixedVoters g W') {p q : P} {i : Nat} {e e' : Entry}
    (hp : Committed W p i e) (hq : Committed W' q i e') : e = e' := by
  obtain ⟨σ, σ', h1, h2, h3⟩ := two_times h k hn hser
  obtain ⟨_, L, a1, a2⟩ := committed_com h1 hp
  obtain ⟨_, L', b1, b2⟩ := committed_com h2 hq
  exact same_of_comparable ((a1.grows h3).agree_fixed hg.wf hg.ne (by have := hg.len; exact Nat.lt_of_succ_lt this) hg.sm
    (sameVoters hv) b1) a2 b2

/-- **C28**: with fixed voters, the entries two replicas handed to their databases, at any two times, are one a beginning of
the other. -/
theorem C28_applied_agree {g : Setting P} (hg : Proper g) {W W' : World P} (h : Reachable g W) (k : Future g W W')
    (hn : NoCollision g.v W'.Hashed) (hser : SerInj g.v) (hv : FixedVoters g W') {p q : P} {s s' : Node P}
    (hp : W.node p = some s) (hq : W'.node q = some s') : W.applied p <+: W'.applied q ∨ W'.applied q <+: W.applied p := by
  obtain ⟨σ, σ', h1, h2, h3⟩ := two_times h k hn hser
  exact ((applied_com h1 hp).grows h3).agree_fixed hg.wf hg.ne (by have := hg.len; exact Nat.lt_of_succ_lt this) hg.sm
    (sameVoters hv) (applied_com h2 hq)

/-! ## C29 -/

/-- Super majority of at least 1; the memberships asked for are not absurdly large; and, for a super majority of 2 or more,
those with a single voter have the same one, as in a group that its creator starts alone and that never shrinks to another
replica. -/
structure Changing (g : Setting P) (W : World P) : Prop where
  one : 1 ≤ g.sm
  size : ∀ m, Requested g W m → m.all.length < 2 ^ 64 ∧ m.voting.length + 1 < 2 ^ 63
  pair : g.sm = 1 ∨ ∃ a, ∀ m, Requested g W m → 2 ≤ m.voting.length ∨ m.voting = [a]

theorem sane {g : Setting P} (hg : Proper g) {W : World P} {G : Bytes × Bytes → Prop} (h : Changing g W) :
    Sane (g.ctx G (· ∈ W.asked)) := by
  have hr : ∀ e m, (g.ctx G (· ∈ W.asked)).K e.inner → memOf (g.ctx G (· ∈ W.asked)).v e = some m → Requested g W m := by
    intro e m hk hm
    obtain ⟨gr, h1, h2⟩ := memOf_some hm
    exact ⟨gr, by have hk' : e.inner ∈ W.asked := hk; rw [h1] at hk'; exact hk', h2⟩
  exact ⟨hg.wf, hg.ne, hg.len, h.one, hg.sm, fun e m hk hm => h.size m (hr e m hk hm),
    h.pair.imp id (fun ⟨a, hp⟩ => ⟨a, fun e m hk hm => hp m (hr e m hk hm)⟩)⟩

/-- **C29**, for a super majority of at least 1: also across changes of membership, what a replica has committed at an index
now, and what any replica has committed there at any later time, is the same entry. Missing: super majority 0, where the
claim is false (`C29_false_without_super_majority`), and super majorities of 2 or more with different replicas as the
only voter. -/
theorem C29_committed_agree_partial {g : Setting P} (hg : Proper g) {W W' : World P} (h : Reachable g W) (k : Future g W W')
    (hn : NoCollision g.v W'.Hashed) (hser : SerInj g.v) (hv : Changing g W') {p q : P} {i : Nat} {e e' : Entry}
    (hp : Committed W p i e) (hq : Committed W' q i e') : e = e' := by
  obtain ⟨σ, σ', h1, h2, h3⟩ := two_times h k hn hser
  obtain ⟨_, L, a1, a2⟩ := committed_com h1 hp
  obtain ⟨_, L', b1, b2⟩ := committed_com h2 hq
  exact same_of_comparable ((a1.grows h3).agree (sane hg hv) b1) a2 b2

/-- **C29**, for a super majority of at least 1: the entries two replicas handed to their databases, at any two times, are
one a beginning of the other. -/
theorem C29_applied_agree_partial {g : Setting P} (hg : Proper g) {W W' : World P} (h : Reachable g W) (k : Future g W W')
    (hn : NoCollision g.v W'.Hashed) (hser : SerInj g.v) (hv : Changing g W') {p q : P} {s s' : Node P}
    (hp : W.node p = some s) (hq : W'.node q = some s') : W.applied p <+: W'.applied q ∨ W'.applied q <+: W.applied p := by
  obtain ⟨σ, σ', h1, h2, h3⟩ := two_times h k hn hser
  exact ((applied_com h1 hp).grows h3).agree (sane hg hv) (applied_com h2 hq)

/-! ## C30 -/

/-- **C30**, in a group: whatever is applied is committed, whatever is committed is promised, whatever is promised is in the
log. (With forged messages this can fail: `C30_commit_above_promise` in `Verif/Props/RaftNode.lean`.) -/
theorem C30_indexes_in_order {g : Setting P} {W : World P} (h : Reachable g W) (hn : NoCollision g.v W.Hashed) (hser : SerInj g.v)
    {p : P} {s : Node P} (hp : W.node p = some s) :
    s.lastApplied ≤ s.commit ∧ s.commit ≤ s.promise ∧ s.promise ≤ s.log.lastIdx := by
  obtain ⟨σ, _, h1, _, _⟩ := two_times h .now hn hser
  obtain ⟨F, hF⟩ := h1.get hp
  have ok := h1.ok _ _ _ hF
  exact ⟨ok.applied, ok.commit, by rw [ok.log.lastIdx]; exact ok.promise⟩

/-! ## Concrete groups -/

open Svr.Raft.Play

def fast : RaftCfg := ⟨1, 1, 1000, 100⟩
def steady : Env Nat := { toy with rand := fun _ => 0 }
def flush (p : Nat) : Act := .call p .takeSendable
def grp (l : List (UInt8 × Bool)) : Inner := .membership (l.map fun x => ([x.1], x.2))

/-- The inputs of HMAC of a table. -/
def hashedBy (T : Table) : List (Bytes × Bytes) := T.rows.flatMap fun r => r.2.1.hashed

theorem look_mem {p : Nat} {r : Node Nat × List Entry} : ∀ {l : List (Nat × Node Nat × List Entry)}, look p l = some r → (p, r) ∈ l
  | (q, x) :: t, h => by
    simp only [look] at h
    split at h
    · rename_i e; cases h; rw [e]; exact List.mem_cons_self
    · exact List.mem_cons_of_mem _ (look_mem h)

theorem hashed_table {T : Table} {x : Bytes × Bytes} (h : T.world.Hashed x) : x ∈ hashedBy T := by
  obtain ⟨p, s, h1, h2⟩ := h
  cases hl : look p T.rows with
  | none => simp [Table.world, hl] at h1
  | some r =>
    simp only [Table.world, hl, Option.map_some, Option.some.injEq] at h1
    subst h1
    exact List.mem_flatMap.mpr ⟨_, look_mem hl, h2⟩

def noColl (l : List (Bytes × Bytes)) : Bool :=
  l.all (fun a => l.all (fun b => decide (toyHash a.1 a.2 = toyHash b.1 b.2) → decide (a = b)))

theorem noColl_table {T : Table} (h : noColl (hashedBy T) = true) : NoCollision steady T.world.Hashed := by
  intro a b ha hb hab
  have h1 := List.all_eq_true.mp h a (hashed_table ha)
  have h2 := List.all_eq_true.mp h1 b (hashed_table hb)
  simp only [decide_eq_true_eq, Bool.decide_eq_true] at h2
  exact h2 hab

/-- The entries `p` applied and the state it is in, after a schedule. -/
def outcome (g : Setting Nat) (as : List Act) (f : Table → Bool) : Bool :=
  match play g fast as Table.none with
  | some T => noColl (hashedBy T) && f T
  | none => false

theorem outcome_spec {g : Setting Nat} {as : List Act} {f : Table → Bool} (hv : g.v = steady) (h : outcome g as f = true) :
    ∃ T : Table, Reachable g T.world ∧ NoCollision g.v T.world.Hashed ∧ f T = true := by
  unfold outcome at h
  split at h
  · rename_i T hT
    rw [Bool.and_eq_true] at h
    exact ⟨T, play_reachable hT, by rw [hv]; exact noColl_table h.1, h.2⟩
  · cases h

theorem serInj_steady : SerInj steady := toySer_inj

def four : Setting Nat := ⟨steady, 5, 0, ⟨[1, 2, 3, 4, 5], [1, 2, 3, 4]⟩⟩

/-- Five replicas, 1 to 4 voting. Replica 1 leads term 1 and asks for 5 to vote; only 5 gets to know. Replica 2 leads term 2 and
asks for 1 to stop voting, and commits that with 3. Replica 1 leads term 3 by the votes of 4 and 5 and commits with them. -/
def splitActs : List Act :=
  [.start 1, .start 2, .start 3, .start 4, .start 5,
   .call 1 .tick, flush 1, .give 2 0, .give 3 0, flush 2, flush 3, .give 1 1, .give 1 2,
   .call 1 (.request (grp [(1, true), (2, true), (3, true), (4, true), (5, true)])), flush 1, .give 5 6, .give 5 10,
   .call 2 .tick, flush 2, .give 3 11, .give 4 11, flush 3, flush 4, .give 2 12, .give 2 13,
   .call 2 (.request (grp [(1, false), (2, true), (3, true), (4, true), (5, false)])), flush 2, .give 3 15, .give 3 19, flush 3,
   .give 2 23, flush 2, .give 3 25, flush 3, .give 2 28, .call 2 .takeCommitted, .call 2 .takeCommitted,
   .give 1 11, .call 1 .tick, flush 1, .give 4 30, .give 5 30, flush 4, flush 5, .give 1 31, .give 1 34, flush 1,
   .give 5 38, flush 5, .give 4 37, flush 4, .give 1 40, flush 1, .give 4 41, flush 4, .give 1 42, flush 1, .give 4 43,
   flush 4, .give 1 39, .give 1 44, flush 1, .give 4 47, .give 5 48, flush 4, flush 5, .give 1 49, .give 1 50,
   .call 1 .takeCommitted, .call 1 .takeCommitted]

/-- The entry `p` has committed at `i`, if it is in its log. -/
def committedAt (T : Table) (p i : Nat) : Option Inner :=
  match look p T.rows with
  | some (s, _) => if i ≤ s.commit then (s.log.at? i).map (·.inner) else none
  | none => none

theorem committedAt_spec {T : Table} {p i : Nat} {x : Inner} (h : committedAt T p i = some x) :
    ∃ e, Committed T.world p i e ∧ e.inner = x := by
  unfold committedAt at h
  split at h
  · rename_i s A hl
    split at h
    · rename_i hc
      obtain ⟨e, h1, h2⟩ := Option.map_eq_some_iff.mp h
      exact ⟨e, ⟨s, by simp [Table.world, hl], hc, h1⟩, h2⟩
    · cases h
  · cases h

def leadsIn (T : Table) (p t : Nat) : Bool :=
  match look p T.rows with
  | some (s, _) => decide (s.role = .leader) && decide (s.term = t)
  | none => false

theorem leadsIn_spec {T : Table} {p t : Nat} (h : leadsIn T p t = true) : Leads T.world p t := by
  unfold leadsIn at h
  split at h
  · rename_i s A hl
    simp only [Bool.and_eq_true, decide_eq_true_eq] at h
    exact ⟨s, by simp [Table.world, hl], h.1, h.2⟩
  · cases h

/-- A test of the memberships asked for. -/
def requests (T : Table) (f : Membership Nat → Bool) : Bool :=
  T.asked.all fun i => match i with
    | .membership gr => match fromProto (gr.map fun r => (steady.pid r.1, r.2)) with
      | .ok m => f m
      | .error _ => true
    | _ => true

theorem requests_spec {g : Setting Nat} (hv : g.v = steady) {T : Table} {f : Membership Nat → Bool} (h : requests T f = true)
    {m : Membership Nat} (hm : Requested g T.world m) : f m = true := by
  obtain ⟨gr, h1, h2⟩ := hm
  have := List.all_eq_true.mp h _ h1
  rw [hv] at h2
  simp only [h2] at this
  exact this

set_option maxRecDepth 100000 in
theorem split_outcome : outcome four splitActs (fun T =>
    decide (committedAt T 1 2 = some (grp [(1, true), (2, true), (3, true), (4, true), (5, true)])) &&
    decide (committedAt T 2 2 = some (grp [(1, false), (2, true), (3, true), (4, true), (5, false)])) &&
    requests T (fun m => decide (2 ≤ m.voting.length) && decide (m.all.length ≤ 5) && decide (m.voting.length ≤ 5))) = true := by
  decide +kernel

/-- **C29 is false of the code when the super majority is 0**, as it is in the sample configuration
(host/enclave.config.sample:18): two replicas commit different memberships at the same index. A leader may ask for a change
of membership before an entry of its own term is committed, so that two leaders can, one after the other, each change the same
membership, and quorums of the two results need not meet. Everything else that `C29_committed_agree_partial` asks for holds. -/
theorem C29_false_without_super_majority : ∃ (g : Setting Nat) (W : World Nat) (p q i : Nat) (e e' : Entry), Proper g ∧ g.sm = 0 ∧
    SerInj g.v ∧ Reachable g W ∧ NoCollision g.v W.Hashed ∧
    (∀ m, Requested g W m → 2 ≤ m.voting.length ∧ m.all.length ≤ 5 ∧ m.voting.length ≤ 5) ∧
    Committed W p i e ∧ Committed W q i e' ∧ e.inner ≠ e'.inner := by
  obtain ⟨T, h1, h2, h3⟩ := outcome_spec rfl split_outcome
  simp only [Bool.and_eq_true, decide_eq_true_eq] at h3
  obtain ⟨⟨h4, h5⟩, h6⟩ := h3
  obtain ⟨e, c1, c2⟩ := committedAt_spec h4
  obtain ⟨e', d1, d2⟩ := committedAt_spec h5
  refine ⟨four, T.world, 1, 2, 2, e, e', ⟨⟨by simp [four, SSorted], by simp [four, SSorted]⟩, by simp [four], by simp [four], by simp [four]⟩, rfl,
    serInj_steady, h1, h2, ?_, c1, d1, by rw [c2, d2]; decide⟩
  intro m hm
  have := requests_spec rfl h6 hm
  simpa [and_assoc] using this

def trio : Setting Nat := ⟨steady, 5, 0, ⟨[1, 2, 3], [1, 2, 3]⟩⟩

/-- Replica 1 is elected by 2, and both commit its entries; 3 is not heard of. -/
def trioActs : List Act :=
  [.start 1, .start 2, .start 3, .call 1 .tick, flush 1, .give 2 0, flush 2, .give 1 1, .call 1 (.request (.data [7])), flush 1,
   .give 2 2, .give 2 4, flush 2, .give 1 7, flush 1, .give 2 8, flush 2, .give 1 10, flush 1, .give 2 11, .call 1 .takeCommitted,
   .call 1 .takeCommitted, .call 2 .takeCommitted, .call 2 .takeCommitted]

set_option maxRecDepth 100000 in
/-- What C26 and C28 speak about happens. -/
example : ∃ W : World Nat, Proper trio ∧ Reachable trio W ∧ NoCollision trio.v W.Hashed ∧ SerInj trio.v ∧ FixedVoters trio W ∧
    Leads W 1 1 ∧ (∃ e, Committed W 1 2 e ∧ e.inner = .data [7]) ∧ ∃ e, Committed W 2 2 e ∧ e.inner = .data [7] := by
  obtain ⟨T, h1, h2, h3⟩ := outcome_spec (g := trio) (as := trioActs) (f := fun T => leadsIn T 1 1 &&
    decide (committedAt T 1 2 = some (.data [7])) && decide (committedAt T 2 2 = some (.data [7])) && requests T (fun _ => false))
    rfl (by decide +kernel)
  simp only [Bool.and_eq_true, decide_eq_true_eq] at h3
  obtain ⟨⟨⟨h4, h5⟩, h6⟩, h7⟩ := h3
  exact ⟨T.world, ⟨⟨by simp [trio, SSorted], by simp [trio, SSorted]⟩, by simp [trio], by simp [trio], by simp [trio]⟩, h1, h2, serInj_steady,
    fun m hm => absurd (requests_spec rfl h7 hm) (by decide), leadsIn_spec h4, committedAt_spec h5, committedAt_spec h6⟩

def creator : Setting Nat := ⟨steady, 5, 1, Membership.first 1⟩

/-- Replica 1 creates a group, 2 joins, becomes a member, becomes a voter, and both commit an entry. -/
def growActs : List Act :=
  [.start 1, .call 1 .takeCommitted, .join 2 1, .call 1 (.request (grp [(1, true), (2, false)])), flush 1, .give 2 0, flush 2, .give 1 1,
   flush 1, .give 2 2, flush 2, .give 1 3, flush 1, .give 2 4, .call 2 .takeCommitted, .call 1 .takeCommitted,
   .call 1 (.request (grp [(1, true), (2, true)])), .call 1 (.request (.data [7])), flush 1, .give 2 5, .give 2 6, flush 2, .give 1 9,
   flush 1, .give 2 10, flush 2, .give 1 11, flush 1, .give 2 12, .call 1 .takeCommitted, .call 1 .takeCommitted, .call 2 .takeCommitted,
   .call 2 .takeCommitted]

set_option maxRecDepth 100000 in
/-- What C29 speaks about happens. -/
example : ∃ W : World Nat, Proper creator ∧ Reachable creator W ∧ NoCollision creator.v W.Hashed ∧ SerInj creator.v ∧ Changing creator W ∧
    (∃ e, Committed W 1 4 e ∧ e.inner = .data [7]) ∧ ∃ e, Committed W 2 4 e ∧ e.inner = .data [7] := by
  obtain ⟨T, h1, h2, h3⟩ := outcome_spec (g := creator) (as := growActs) (f := fun T =>
    decide (committedAt T 1 4 = some (.data [7])) && decide (committedAt T 2 4 = some (.data [7])) &&
    requests T (fun m => decide (m.all.length ≤ 2) && decide (m.voting.length ≤ 2)))
    rfl (by decide +kernel)
  simp only [Bool.and_eq_true, decide_eq_true_eq] at h3
  obtain ⟨⟨h5, h6⟩, h7⟩ := h3
  refine ⟨T.world, ⟨⟨by simp [creator, SSorted, Membership.first], by simp [creator, SSorted, Membership.first]⟩,
    by simp [creator, Membership.first], by simp [creator, Membership.first], by simp [creator]⟩, h1, h2, serInj_steady,
    ⟨le_rfl, fun m hm => ?_, .inl rfl⟩, committedAt_spec h5, committedAt_spec h6⟩
  have := requests_spec rfl h7 hm
  simp only [Bool.and_eq_true, decide_eq_true_eq] at this
  omega

def cautious : Setting Nat := ⟨steady, 5, 2, Membership.first 1⟩

set_option maxRecDepth 100000 in
/-- The same with a super majority of 2: its creator is the only voter at first. -/
example : ∃ W : World Nat, Proper cautious ∧ Reachable cautious W ∧ NoCollision cautious.v W.Hashed ∧ SerInj cautious.v ∧
    Changing cautious W ∧ (∃ e, Committed W 1 4 e ∧ e.inner = .data [7]) ∧ ∃ e, Committed W 2 4 e ∧ e.inner = .data [7] := by
  obtain ⟨T, h1, h2, h3⟩ := outcome_spec (g := cautious) (as := growActs) (f := fun T =>
    decide (committedAt T 1 4 = some (.data [7])) && decide (committedAt T 2 4 = some (.data [7])) &&
    requests T (fun m => decide (m.all.length ≤ 2) && decide (m.voting.length ≤ 2) && decide (2 ≤ m.voting.length ∨ m.voting = [1])))
    rfl (by decide +kernel)
  simp only [Bool.and_eq_true, decide_eq_true_eq] at h3
  obtain ⟨⟨h5, h6⟩, h7⟩ := h3
  refine ⟨T.world, ⟨⟨by simp [cautious, SSorted, Membership.first], by simp [cautious, SSorted, Membership.first]⟩,
    by simp [cautious, Membership.first], by simp [cautious, Membership.first], by simp [cautious]⟩, h1, h2, serInj_steady,
    ⟨by simp [cautious], fun m hm => ?_, .inr ⟨1, fun m hm => ?_⟩⟩, committedAt_spec h5, committedAt_spec h6⟩
  · have := requests_spec rfl h7 hm
    simp only [Bool.and_eq_true, decide_eq_true_eq] at this
    omega
  · have := requests_spec rfl h7 hm
    simp only [Bool.and_eq_true, decide_eq_true_eq] at this
    exact this.2

end Svr.Props.RaftGroup
