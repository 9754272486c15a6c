import Verif.Raft.Room
import Verif.Props.RaftGroup

/-!
# C72: room in a replica's log

The room is described by the entries the log has, by the bytes it counts (`curr_bytes_`), and by the size it was started with
(`max_bytes_`). `Reachable` and `Future` are those of C26 and C28.
-/

namespace Svr.Props.Room
open Svr Svr.Raft Svr.Raft.Node

variable {P : Type} [LinearOrder P]

/-- The bytes of the entries of `l`. -/
def bytes (z : Sizes) (l : List Entry) : Nat := (l.map (memSize z)).sum

/-- The entries of the log from the last applied one on: those the log may not forget. -/
def needed (s : Node P) : List Entry := s.log.entries.drop (s.lastApplied - s.log.oldest)

/-- Bytes counted for entries which are gone. -/
def leaked (z : Sizes) (s : Node P) : Nat := s.log.curr - bytes z s.log.entries

/-- The entry a leader makes of a request. -/
def entryFor (v : Env P) (s : Node P) (i : Inner) : Entry := ⟨s.term, i, v.hmac s.prevHash (hashInput v s.log.nextIdx s.term i)⟩

/-- What the bytes of an entry are at least: its hash, the object, and two strings. -/
def least (z : Sizes) : Nat := 32 + z.str + z.entry + z.str

theorem internal_cases {v : Env P} {s s2 : Node P} {i : Inner} {r : Except RErr Loc} (h : s.clientRequestInternal v i = .ok (s2, r)) :
    ((s.role ≠ .leader ∨ s.relinquishing = true) ∧ r = .error .notLeader) ∨
    ({ s with hashed := s.hashed ++ [(s.prevHash, hashInput v s.log.nextIdx s.term i)] } : Node P).logAppend v (entryFor v s i) =
      .ok (s2, r) := by
  by_cases hq : s.role ≠ .leader ∨ s.relinquishing = true
  · refine .inl ⟨hq, ?_⟩
    have := (if_pos (α := Out (Node P × Except RErr Loc)) hq).symm.trans h
    cases this
    rfl
  · exact .inr ((if_neg (α := Out (Node P × Except RErr Loc)) hq).symm.trans h)

/-- **C72**, exactly when a leader takes a request: the entries it may not forget, the new one, and the bytes leaked have to fit. -/
theorem C72_room_exact {g : Setting P} {W : World P} (h : Reachable g W) {p : P} {s s' : Node P} (hp : W.node p = some s)
    {rand : Nat → Nat} {path : Nat → Bool} {i : Inner} {r : Except RErr Loc} (hl : s.role = .leader) (hr : s.relinquishing = false)
    (ht : s.term ≠ 0) (hi : ∀ gr, i ≠ .membership gr) (hh : (entryFor g.v s i).hash.length = 32)
    (hz : g.v.z.bytes (entryFor g.v s i) ≤ 2 ^ 31 - 1) (hrun : Op.run (g.env rand path) s (.request i) = .ok (s', .answer r)) :
    ((∃ loc, r = .ok loc) ↔ leaked g.v.z s + bytes g.v.z (needed s) + memSize g.v.z (entryFor g.v s i) ≤ s.log.max) ∧
      ((∃ loc, r = .ok loc) ∨ r = .error (.log .outOfSpace)) := by
  have hs := h.shaped p s hp
  obtain ⟨⟨s1, r1⟩, h1, h2⟩ := Out.bind_eq_ok.mp hrun
  have e1 : r1 = r := by cases h2; rfl
  have hc : s.logRequestCheck (g.env rand path) i = none := by
    cases i with
    | membership gr => exact absurd rfl (hi gr)
    | _ => rfl
  simp only [logRequest, hc] at h1
  obtain ⟨⟨s2, r2⟩, h3, h4⟩ := Out.bind_eq_ok.mp h1
  obtain ⟨s3, _, h5⟩ := Out.bind_eq_ok.mp h4
  have e2 : r2 = r1 := by cases h5; rfl
  rw [e2, e1] at h3
  have ha : ({ s with hashed := s.hashed ++ [(s.prevHash, hashInput g.v s.log.nextIdx s.term i)] } : Node P).logAppend (g.env rand path)
      (entryFor g.v s i) = .ok (s2, r) := by
    rcases internal_cases h3 with ⟨hq, _⟩ | hq
    · rw [hl, hr] at hq; simp at hq
    · exact hq
  have hb : Log.bytesOf g.v.z s.log.entries ≤ s.log.curr := hs.bytes
  have key : ∀ {l : Log} {er : Option LogErr}, s.log.append g.v.z (entryFor g.v s i) s.lastApplied = .ok (l, er) →
      (er = none → leaked g.v.z s + bytes g.v.z (needed s) + memSize g.v.z (entryFor g.v s i) ≤ s.log.max) ∧
      (er ≠ none → er = some .outOfSpace ∧
        s.log.max < leaked g.v.z s + bytes g.v.z (needed s) + memSize g.v.z (entryFor g.v s i)) := by
    intro l er hk
    obtain ⟨_, _, c, _, e⟩ := Log.append_lost hb hk
    refine ⟨fun x => (c x).2, fun hn => ?_⟩
    have : er = some .outOfSpace := by
      unfold Log.append at hk
      rw [if_neg (by exact ht), if_neg (by simp [hh])] at hk
      obtain ⟨⟨l1, b⟩, _, hk⟩ := Out.bind_eq_ok.mp hk
      simp only at hk
      split at hk
      · cases hk; rfl
      · rw [if_neg (by unfold Log.intMax; omega)] at hk
        cases hk
        exact absurd rfl hn
    exact ⟨this, e this⟩
  obtain ⟨l, er, h6, h7⟩ : ∃ l er, s.log.append g.v.z (entryFor g.v s i) s.lastApplied = .ok (l, er) ∧
      r = match er with
        | some x => .error (.log x)
        | none => .ok ⟨s.term, l.lastIdx, (entryFor g.v s i).hash⟩ := by
    unfold logAppend at ha
    cases i with
    | membership gr => exact absurd rfl (hi gr)
    | data b =>
      obtain ⟨⟨l, er⟩, h6, h7⟩ := Out.bind_eq_ok.mp ha
      refine ⟨l, er, h6, ?_⟩
      cases er <;> cases h7 <;> rfl
    | minimums m =>
      obtain ⟨⟨l, er⟩, h6, h7⟩ := Out.bind_eq_ok.mp ha
      refine ⟨l, er, h6, ?_⟩
      cases er <;> cases h7 <;> rfl
    | notSet =>
      obtain ⟨⟨l, er⟩, h6, h7⟩ := Out.bind_eq_ok.mp ha
      refine ⟨l, er, h6, ?_⟩
      cases er <;> cases h7 <;> rfl
  cases er with
  | some x =>
    obtain ⟨k1, k2⟩ := (key h6).2 (by simp)
    cases k1
    subst h7
    exact ⟨⟨fun ⟨_, x⟩ => (by cases x), fun x => absurd x (by omega)⟩, .inr rfl⟩
  | none => exact ⟨⟨fun _ => (key h6).1 rfl, fun _ => ⟨_, h7⟩⟩, .inl ⟨_, h7⟩⟩

/-- **C72**, as far as it holds: a leader that leaked no bytes takes a request whenever the entries it may not forget and the new one
fit into the size of its log. Missing: after entries were cancelled, for which it is false (`C72_false_wedged`). -/
theorem C72_room_partial {g : Setting P} {W : World P} (h : Reachable g W) {p : P} {s s' : Node P} (hp : W.node p = some s)
    {rand : Nat → Nat} {path : Nat → Bool} {i : Inner} {r : Except RErr Loc} (hl : s.role = .leader) (hr : s.relinquishing = false)
    (ht : s.term ≠ 0) (hi : ∀ gr, i ≠ .membership gr) (hh : (entryFor g.v s i).hash.length = 32)
    (hz : g.v.z.bytes (entryFor g.v s i) ≤ 2 ^ 31 - 1) (hrun : Op.run (g.env rand path) s (.request i) = .ok (s', .answer r))
    (hk : s.log.curr = bytes g.v.z s.log.entries)
    (hroom : bytes g.v.z (needed s) + memSize g.v.z (entryFor g.v s i) ≤ s.log.max) : ∃ loc, r = .ok loc := by
  refine (C72_room_exact h hp hl hr ht hi hh hz hrun).1.mpr ?_
  unfold leaked
  omega

/-- **C72**: what leaks never comes back, whatever happens in the group. -/
theorem C72_leak_stays {g : Setting P} {W W' : World P} (h : Reachable g W) (k : Future g W W') {p : P} {s : Node P}
    (hp : W.node p = some s) :
    ∃ s', W'.node p = some s' ∧ leaked g.v.z s ≤ leaked g.v.z s' ∧ s'.log.max = s.log.max := by
  obtain ⟨s', h1, h2⟩ := k.kept h.shaped hp
  exact ⟨s', h1, h2.lost, h2.max⟩

/-- A replica which applied something, and leaked so many bytes that beside them only one more entry fits. -/
def Wedged (z : Sizes) (s : Node P) : Prop := 1 ≤ s.lastApplied ∧ s.log.max < leaked z s + least z + (z.entry + z.str)

/-- **C72**, where it fails, for good: a wedged replica remains wedged, its log never grows, and it never applies an entry beyond those
it has, whatever happens in the group. -/
theorem C72_wedged_forever {g : Setting P} {W W' : World P} (h : Reachable g W) (k : Future g W W') {p : P} {s : Node P}
    (hp : W.node p = some s) (hw : Wedged g.v.z s) :
    ∃ s', W'.node p = some s' ∧ Wedged g.v.z s' ∧ s'.log.lastIdx ≤ s.log.lastIdx ∧ s'.lastApplied ≤ s.log.lastIdx := by
  obtain ⟨s', h1, h2⟩ := k.kept h.shaped hp
  obtain ⟨w1, w2⟩ := hw
  have hl : leaked g.v.z s ≤ leaked g.v.z s' := h2.lost
  have hlast : s'.log.lastIdx ≤ s.log.lastIdx := by
    rcases h2.last with h3 | h3 | h3
    · exact h3
    · omega
    · have h4 : leaked g.v.z s + (g.v.z.entry + g.v.z.str) + least g.v.z ≤ s.log.max := h3
      omega
  have h5 := (k.shaped h.shaped p s' h1).last
  refine ⟨s', h1, ⟨w1.trans h2.applied, ?_⟩, hlast, by omega⟩
  rw [h2.max]
  omega

/-- **C72**, where it fails: a wedged leader refuses every request, though the entries it may not forget fit easily. -/
theorem C72_wedged_refuses {g : Setting P} {W : World P} (h : Reachable g W) {p : P} {s s' : Node P} (hp : W.node p = some s)
    (hw : Wedged g.v.z s) {rand : Nat → Nat} {path : Nat → Bool} {i : Inner} {o : Obs P}
    (hrun : Op.run (g.env rand path) s (.request i) = .ok (s', o)) : ∃ e, o = .answer (.error e) := by
  obtain ⟨⟨s1, r1⟩, h1, h2⟩ := Out.bind_eq_ok.mp hrun
  cases h2
  cases r1 with
  | error e => exact ⟨e, rfl⟩
  | ok loc =>
    exfalso
    have hs := h.shaped p s hp
    unfold logRequest at h1
    split at h1
    · cases h1
    obtain ⟨⟨s2, r2⟩, h3, h4⟩ := Out.bind_eq_ok.mp h1
    obtain ⟨s3, _, h5⟩ := Out.bind_eq_ok.mp h4
    cases h5
    rcases internal_cases h3 with ⟨_, hq⟩ | hq
    · cases hq
    rcases logAppend_eq hq with ⟨_, er, he⟩ | ⟨l, er, _, _, he⟩ | ⟨l, h6, _, _⟩
    · cases he
    · cases he
    · obtain ⟨w1, w2⟩ := hw
      have : leaked g.v.z s + (g.v.z.entry + g.v.z.str) + least g.v.z ≤ s.log.max :=
        append_room (v := g.env rand path) hs (by omega) h6
      omega

/-! ## A concrete group -/

open Svr.Raft.Play Svr.Props.RaftGroup

/-- Three replicas with logs of 143 bytes. Replica 1 leads term 1, commits its first entry with 2, and fills its log while nobody hears
of it; 2 leads term 2 by the vote of 3 and tells 1 of its entry, for which 1 cancels three of its own. -/
def wedgeActs : List Act :=
  [.startIn 1 143, .startIn 2 143, .startIn 3 143, .call 1 .tick, flush 1, .give 2 0, flush 2, .give 1 1, flush 1, .give 2 2, flush 2,
   .give 1 4, flush 1, .give 2 5, flush 2, .give 1 7, .call 1 .takeCommitted, .call 1 (.request (.data [7])),
   .call 1 (.request (.data [7])), .call 1 (.request (.data [7])), .call 2 .tick, flush 2, .give 3 8, flush 3, .give 2 9, flush 2,
   .give 1 10]

/-- What is seen of replica `p`: the bytes of its entries and those it counts, the indexes it applied and has, and whether it leads. -/
def seen (T : Table) (p : Nat) : Option (Nat × Nat × Nat × Nat × Nat) := match look p T.rows with
  | some (s, _) => some (bytes steady.z s.log.entries, s.log.curr, s.log.max, s.lastApplied, s.log.lastIdx)
  | none => none

set_option maxRecDepth 100000 in
/-- **C72** is false of the code: in a group of three, with no message forged, replica 1 ends with one entry of 35 bytes in a log of 143
bytes, and never appends another one. -/
theorem C72_false_wedged : ∃ (W : World Nat) (s : Node Nat), Reachable trio W ∧ NoCollision trio.v W.Hashed ∧ SerInj trio.v ∧
    W.node 1 = some s ∧ bytes trio.v.z s.log.entries = 35 ∧ s.log.max = 143 ∧ s.lastApplied = 1 ∧ s.log.lastIdx = 1 ∧
    Wedged trio.v.z s ∧ ∀ W', Future trio W W' → ∃ s', W'.node 1 = some s' ∧ s'.log.lastIdx ≤ 1 ∧ s'.lastApplied = 1 := by
  obtain ⟨T, h1, h2, h3⟩ := outcome_spec (g := trio) (as := wedgeActs) (f := fun T => decide (seen T 1 = some (35, 143, 143, 1, 1)))
    rfl (by decide +kernel)
  have h3 := of_decide_eq_true h3
  unfold seen at h3
  split at h3
  · rename_i s A hl
    simp only [Option.some.injEq, Prod.mk.injEq] at h3
    obtain ⟨a, b, c, d, e⟩ := h3
    have hn : T.world.node 1 = some s := by simp [Table.world, hl]
    have ha : bytes trio.v.z s.log.entries = 35 := a
    have hw : Wedged trio.v.z s := by
      refine ⟨by omega, ?_⟩
      have : least trio.v.z + (trio.v.z.entry + trio.v.z.str) = 37 := by decide
      unfold leaked
      omega
    refine ⟨T.world, s, h1, h2, serInj_steady, hn, ha, c, d, e, hw, fun W' k => ?_⟩
    obtain ⟨s', k1, k2, k3, k4⟩ := C72_wedged_forever h1 k hn hw
    exact ⟨s', k1, by omega, by have := k2.1; omega⟩
  · cases h3

/-- Replica 1 before that, with a log it filled. -/
def fullActs : List Act := wedgeActs.take 20

def leads (T : Table) (b : Nat) : Bool := match look 1 T.rows with
  | some (s, _) => decide (s.role = .leader ∧ s.relinquishing = false ∧ s.term = 1 ∧ s.log.curr = bytes steady.z s.log.entries ∧
      bytes steady.z (needed s) + memSize steady.z (entryFor steady s (.data [7])) = b ∧ s.log.max = 143 ∧
      (entryFor steady s (.data [7])).hash.length = 32)
  | none => false

set_option maxRecDepth 100000 in
/-- The hypotheses of `C72_room_partial` hold in that group before the third request, and no longer after it. -/
example : outcome trio (wedgeActs.take 19) (leads · 143) = true ∧ outcome trio fullActs (leads · 179) = true := by decide +kernel

end Svr.Props.Room
