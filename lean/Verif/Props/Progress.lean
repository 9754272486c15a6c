import Verif.Raft.Among
import Verif.Props.RaftGroup

/-!
# Property C74: a running quorum can go on

"Whenever a quorum of the voting replicas of a group is running and they reach each other, something can happen after which one of them
leads and has committed an entry more." This is false of the code (`C74_false_stuck`).
-/

namespace Svr.Props.Progress
open Svr Svr.Raft Svr.Raft.Node Svr.Raft.Play Svr.Props.RaftGroup
variable {P : Type} [LinearOrder P]

/-- The replicas of `A` are running, and have a quorum among them. -/
def Running (g : Setting P) (A : List P) (W : World P) : Prop :=
  A.Nodup ∧ ∀ p ∈ A, ∃ s, W.node p = some s ∧ p ∈ s.membership.voting ∧
    quorumSize s.membership.voting.length g.sm ≤ (A.filter (fun q => decide (q ∈ s.membership.voting))).length

/-- In every course of events among `A`, each keeps the log and commit index it has in `W`, and none leads. -/
def Dead (g : Setting P) (A : List P) (W : World P) : Prop :=
  ∀ W', Among g (· ∈ A) W W' → ∀ p ∈ A, ∃ s s', W.node p = some s ∧ W'.node p = some s' ∧ s'.role ≠ .leader ∧ s'.log = s.log ∧
    s'.commit = s.commit

/-- **C74**, when it fails: if among the running replicas none leads, each would be refused by too many of the others, and their messages
under way are of terms before `t0`, none of them ever leads again. -/
theorem C74_stuck_forever {g : Setting P} {W : World P} {A : List P} {N : P → Node P} {t0 : Nat}
    (hN : ∀ p ∈ A, W.node p = some (N p))
    (hq : ∀ p ∈ A, ∀ V : List P, SSorted V → (∀ x ∈ V, x = p ∨ x ∈ A ∧ ¬ Refuses (N x) (N p)) → V.length < (N p).quorum)
    (hme : ∀ p ∈ A, (N p).me = p) (hr : ∀ p ∈ A, (N p).role = .follower) (ht : ∀ p ∈ A, t0 ≤ (N p).term) (hv : ∀ p ∈ A, (N p).votes = [])
    (hm : ∀ p ∈ A, ∀ d m, (p, d, m) ∈ W.net ∨ (d, m) ∈ (N p).sendable → m.term < t0 ∨ (∃ d', d = some d' ∧ d' ∉ A) ∧
      (∀ a b c e f h, m.body ≠ .appReq a b c e f h) ∧ ∀ a b c, m.body ≠ .voteReq a b c) : Dead g A W := by
  have vain : ∀ p ∈ A, ∀ d m, (p, d, m) ∈ W.net ∨ (d, m) ∈ (N p).sendable → Vain (· ∈ A) N t0 p d m := by
    intro p hp d m h1 h2
    rcases hm p hp d m h1 with h3 | ⟨⟨d', h3, h4⟩, h5, h6⟩
    · omega
    · cases hb : m.body with
      | voteReq a b c => exact absurd hb (h6 a b c)
      | appReq a b c e f h => exact absurd hb (h5 a b c e f h)
      | voteResp b =>
        cases b with
        | false => trivial
        | true => exact ⟨d', h3, fun h => absurd h h4⟩
      | _ => trivial
  intro W' k p hp
  have st : StuckIn (· ∈ A) N t0 W := by
    constructor
    · intro q hqA
      refine ⟨N q, hN q hqA, ?_⟩
      exact ⟨hme q hqA, rfl, rfl, rfl, rfl, rfl, rfl, by rw [hr q hqA]; simp, ht q hqA, by rw [hv q hqA]; exact List.Pairwise.nil,
        by rw [hv q hqA]; simp, fun d m h => vain q hqA d m (.inr h)⟩
    · intro q d m h hqA
      exact vain q hqA d m (.inl h)
  obtain ⟨s', h1, h2⟩ := (st.stays hq k).held p hp
  exact ⟨N p, s', hN p hp, h1, h2.role, h2.log, h2.commit⟩

/-! ## A group that gets stuck -/

/-- Entries with data are larger than the least allowed `replication_chunk_bytes`, 1024 (enclave/core/core.cc:167). -/
def heavy : Env Nat := { steady with z := ⟨1, 1, 1, 1, 1, fun e => match e.inner with
    | .data _ => 1100
    | _ => 40⟩ }

def heavyTrio : Setting Nat := ⟨heavy, 5, 0, ⟨[1, 2, 3], [1, 2, 3]⟩⟩

/-- Replica 1 leads term 1, and all commit the data `[5]`. Then it appends `[7]` as entry 3, and loses term 2 to replica 3, which appends an
entry 3 of its own. Replica 1 leads term 3 by the vote of replica 2, appends entry 4 and sends entry 3 to replica 2. So entry 3, of term 1,
is on a quorum, and is promised by replica 1. Entry 4 gets lost with a connection that is renewed, and the next message to replica 2 tells
it to promise entry 3. Then replica 1 crashes. -/
def stuckActs : List Act :=
  [.start 1, .start 2, .start 3, .call 1 .tick, flush 1, .give 2 0, flush 2, .give 1 1, .call 1 (.request (.data [5])), flush 1,
   .give 2 2, .give 2 4, .give 3 3, .give 3 5, flush 2, flush 3, .give 1 7, .give 1 9, flush 1,
   .give 2 10, .give 3 11, flush 2, flush 3, .give 1 12, .give 1 13, flush 1, .give 2 14, .give 3 15, flush 2, flush 3, .give 1 16, .give 1 17,
   .call 1 .takeCommitted, .call 1 .takeCommitted, .call 2 .takeCommitted, .call 2 .takeCommitted, .call 3 .takeCommitted, .call 3 .takeCommitted,
   .call 1 (.request (.data [7])), .call 3 .tick, flush 3, .give 2 18, flush 2, .give 3 19, .give 1 18, .call 1 .tick, flush 1,
   .give 2 23, .give 3 23, flush 2, .give 1 24, flush 1, .give 2 25, flush 2, .give 1 27, flush 1, .give 2 28, flush 2, .give 1 29, flush 1,
   .give 2 30, flush 2, .give 1 31, flush 1, .call 1 (.reset 2), .call 1 .tick, flush 1,
   .give 2 34, flush 2, .give 1 35, flush 1, .give 2 36, flush 2, .give 1 37, flush 1, .give 2 38]

def leftovers (T : Table) (A : List Nat) (t0 : Nat) : Bool :=
  (T.net.all fun x => !decide (x.1 ∈ A) || ok x.2.1 x.2.2) &&
  A.all fun p => match look p T.rows with
    | some (s, _) => s.sendable.all (fun x => ok x.1 x.2) && decide (s.me = p ∧ s.role = .follower ∧ t0 ≤ s.term ∧ s.votes = [])
    | none => false
where
  ok (d : Option Nat) (m : Msg) : Bool := decide (m.term < t0) || ((match d with
    | some d' => decide (d' ∉ A)
    | none => false) && match m.body with
      | .appReq .. => false
      | .voteReq .. => false
      | _ => true)

theorem leftovers_spec {T : Table} {A : List Nat} {t0 : Nat} (h : leftovers T A t0 = true) : ∃ N : Nat → Node Nat,
    (∀ p ∈ A, T.world.node p = some (N p)) ∧ (∀ p ∈ A, (N p).me = p) ∧ (∀ p ∈ A, (N p).role = .follower) ∧ (∀ p ∈ A, t0 ≤ (N p).term) ∧
    (∀ p ∈ A, (N p).votes = []) ∧
    ∀ p ∈ A, ∀ d m, (p, d, m) ∈ T.world.net ∨ (d, m) ∈ (N p).sendable → m.term < t0 ∨ (∃ d', d = some d' ∧ d' ∉ A) ∧
      (∀ a b c e f h, m.body ≠ .appReq a b c e f h) ∧ ∀ a b c, m.body ≠ .voteReq a b c := by
  unfold leftovers at h
  rw [Bool.and_eq_true] at h
  obtain ⟨h1, h2⟩ := h
  have okSpec : ∀ d m, leftovers.ok A t0 d m = true → m.term < t0 ∨ (∃ d', d = some d' ∧ d' ∉ A) ∧
      (∀ a b c e f h, m.body ≠ .appReq a b c e f h) ∧ ∀ a b c, m.body ≠ .voteReq a b c := by
    intro d m h
    unfold leftovers.ok at h
    rw [Bool.or_eq_true, decide_eq_true_eq, Bool.and_eq_true] at h
    rcases h with h | ⟨h, k⟩
    · exact .inl h
    · right
      refine ⟨?_, ?_, ?_⟩
      · cases d with
        | none => cases h
        | some d' => exact ⟨d', rfl, by simpa using h⟩
      · intro a b c e f g hb
        rw [hb] at k
        cases k
      · intro a b c hb
        rw [hb] at k
        cases k
  have h2 := List.all_eq_true.mp h2
  refine ⟨fun p => match look p T.rows with
    | some (s, _) => s
    | none => base 0 0 ⟨[], []⟩ (Log.new 0) fast false 0, ?_⟩
  have get : ∀ p ∈ A, ∃ s B, look p T.rows = some (s, B) ∧ (s.sendable.all (fun x => leftovers.ok A t0 x.1 x.2)) = true ∧
      s.me = p ∧ s.role = .follower ∧ t0 ≤ s.term ∧ s.votes = [] := by
    intro p hp
    have := h2 p hp
    split at this
    · rename_i s B hl
      rw [Bool.and_eq_true, decide_eq_true_eq] at this
      exact ⟨s, B, hl, this⟩
    · cases this
  refine ⟨?_, ?_, ?_, ?_, ?_, ?_⟩
  · intro p hp
    obtain ⟨s, B, e, _⟩ := get p hp
    simp [Table.world, e]
  · intro p hp
    obtain ⟨s, B, e, _, h, _⟩ := get p hp
    simp only [e]; exact h
  · intro p hp
    obtain ⟨s, B, e, _, _, h, _⟩ := get p hp
    simp only [e]; exact h
  · intro p hp
    obtain ⟨s, B, e, _, _, _, h, _⟩ := get p hp
    simp only [e]; exact h
  · intro p hp
    obtain ⟨s, B, e, _, _, _, _, h⟩ := get p hp
    simp only [e]; exact h
  · intro p hp d m hd
    obtain ⟨s, B, e, h, _⟩ := get p hp
    simp only [e] at hd
    apply okSpec
    rcases hd with hd | hd
    · have := List.all_eq_true.mp h1 _ hd
      simpa [hp] using this
    · exact List.all_eq_true.mp h _ hd

/-- What `p` ends with. -/
def endsWith (T : Table) (p last lastTerm promise : Nat) : Bool := match look p T.rows with
  | some (s, _) => decide (s.log.lastIdx = last) && decide (s.log.lastTerm = lastTerm) && decide (s.promise = promise) &&
      decide ((s.log.at? last).map (·.term) = some lastTerm) && decide (s.quorum = 2) && decide (s.membership.voting = [1, 2, 3])
  | none => false

theorem endsWith_spec {T : Table} {p last lt pr : Nat} {s : Node Nat} (h : endsWith T p last lt pr = true) (hs : T.world.node p = some s) :
    s.log.lastIdx = last ∧ s.log.lastTerm = lt ∧ s.promise = pr ∧ (∃ e, s.log.at? last = some e ∧ e.term = lt) ∧ s.quorum = 2 ∧
    s.membership.voting = [1, 2, 3] := by
  unfold endsWith at h
  split at h
  · rename_i s' B hl
    simp only [Table.world, hl, Option.map_some, Option.some.injEq] at hs
    subst hs
    simp only [Bool.and_eq_true, decide_eq_true_eq, Option.map_eq_some_iff] at h
    obtain ⟨⟨⟨⟨⟨h1, h2⟩, h3⟩, h4⟩, h5⟩, h6⟩ := h
    exact ⟨h1, h2, h3, h4, h5, h6⟩
  · cases h

set_option maxRecDepth 100000 in
/-- **C74** is false of the code: in a group of three with a quorum of two, with no message forged and no replica but one lost, the two
replicas that are left never have a leader again. Both have committed the client's data `[5]`, which nobody can read any more. -/
theorem C74_false_stuck : ∃ W : World Nat, Reachable heavyTrio W ∧ NoCollision heavyTrio.v W.Hashed ∧ SerInj heavyTrio.v ∧
    Running heavyTrio [2, 3] W ∧ (∀ p ∈ [2, 3], ∃ e, Committed W p 2 e ∧ e.inner = .data [5]) ∧ Dead heavyTrio [2, 3] W := by
  have h : (match play heavyTrio ⟨1, 1, 1024, 100⟩ stuckActs Table.none with
      | some T => noColl (hashedBy T) && leftovers T [2, 3] 3 && endsWith T 2 3 1 3 &&
          endsWith T 3 3 2 2 && decide (committedAt T 2 2 = some (.data [5])) &&
          decide (committedAt T 3 2 = some (.data [5]))
      | none => false) = true := by decide +kernel
  split at h
  · rename_i T hT
    simp only [Bool.and_eq_true, decide_eq_true_eq] at h
    obtain ⟨⟨⟨⟨⟨h1, h2⟩, h3⟩, h4⟩, h5⟩, h6⟩ := h
    obtain ⟨N, a1, a2, a3, a4, a5, a6⟩ := leftovers_spec h2
    have e2 := endsWith_spec h3 (a1 2 (by simp))
    have e3 := endsWith_spec h4 (a1 3 (by simp))
    refine ⟨T.world, play_reachable hT, noColl_table h1, serInj_steady, ?_, ?_, ?_⟩
    · refine ⟨by simp, fun p hp => ⟨N p, a1 p hp, ?_⟩⟩
      rcases List.mem_cons.mp hp with rfl | hp
      · rw [e2.2.2.2.2.2]; decide
      · cases List.mem_singleton.mp hp
        rw [e3.2.2.2.2.2]; decide
    · intro p hp
      rcases List.mem_cons.mp hp with rfl | hp
      · exact committedAt_spec h5
      · cases List.mem_singleton.mp hp
        exact committedAt_spec h6
    · refine C74_stuck_forever a1 ?_ a2 a3 a4 a5 a6
      have r23 : Refuses (N 2) (N 3) := .inr (.inr ⟨by omega, by omega, by
        obtain ⟨e, h, k⟩ := e2.2.2.2.1
        exact ⟨e, by rw [e3.1]; exact h, by omega⟩⟩)
      have r32 : Refuses (N 3) (N 2) := .inl (by omega)
      intro p hp V hs hV
      have hall : ∀ x ∈ V, x = p := by
        intro x hx
        rcases hV x hx with h | ⟨h, k⟩
        · exact h
        · simp only [List.mem_cons, List.not_mem_nil, or_false] at h hp
          rcases h with rfl | rfl <;> rcases hp with rfl | rfl <;> first | rfl | exact absurd r23 k | exact absurd r32 k
      have hl : V.length ≤ 1 := by
        match V, hs, hall with
        | [], _, _ => simp
        | [x], _, _ => simp
        | x :: y :: t, hs, hall =>
          have h1 := hall x (by simp)
          have h2 := hall y (by simp)
          have := (List.pairwise_cons.mp hs).1 y (by simp)
          rw [h1, h2] at this
          exact absurd this (lt_irrefl p)
      have : (N p).quorum = 2 := by
        rcases List.mem_cons.mp hp with rfl | hp
        · exact e2.2.2.2.2.1
        · cases List.mem_singleton.mp hp
          exact e3.2.2.2.2.1
      omega
  · cases h

end Svr.Props.Progress
