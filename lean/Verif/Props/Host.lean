import Verif.Core.HostJoin

/-!
C66: joining a group touches no null pointer, and whoever becomes a member has a complete copy.
C67: every request of the host is answered once.
-/

namespace Svr.Props.Host

open Svr.Core.Host

/-! ## C66 -/

/-- What is asked of the others: peers send memberships that parse and say that replication is done only after they
sent its end; and the host does not ask to join while the transaction for replication of an earlier request to join, or
pushes to other replicas, are outstanding. -/
theorem C66_joining_partial (w : Sends) {es : List Ev} (h : Fair w init es) :
    ∃ s, run w init es = .ok s ∧
      (s.tag = .requesting ∨ s.tag = .part →
        ∃ o, s.loaded = some o ∧ ∀ id, o = .copy id → id ∈ s.ended) := by
  obtain ⟨s, e, i⟩ := inv_run w es inv_init h
  exact ⟨s, e, i.held⟩

/-- The same with a plainer condition on the host: it asks to join only an enclave that has not begun to, or one that is a
member and refuses. -/
def Patient (w : Sends) : St → List Ev → Prop
  | _, [] => True
  | s, e :: es =>
    (∀ p id, e ≠ .push id .badMembership ∧
      (∀ a, e = .respond p id 0 a → (∃ c ∈ s.calls, c.id = id ∧ ∃ tx, c.cb = .replicate tx) → id ∈ s.ended) ∧
      (∀ tx a b, e = .host tx (.join (some p) a b) → s.tag = .noState ∨ s.tag = .part)) ∧
    ∀ t, step w s e = .ok t → Patient w t es

theorem Patient.fair {w : Sends} : ∀ {es : List Ev} {s : St}, Inv s → Patient w s es → Fair w s es
  | [], _, _, _ => trivial
  | e :: es, s, i, h => by
    have a : Allowed s e := by
      have hp := h.1
      unfold Allowed
      split
      · exact (hp 0 _).1 rfl
      · rename_i p id a
        intro c hc hi ht
        exact (hp p id).2.1 a rfl ⟨c, hc, hi, ht⟩
      · rename_i p _ _
        intro ht c hc
        have hn := ((hp p 0).2.2 _ _ _ rfl).resolve_right ht
        refine ⟨fun k => ?_, fun tx k => ?_⟩
        · have := i.push c hc k
          rw [hn] at this
          rcases this with x | x <;> cases x
        · have := (i.repl c hc tx k).1
          rw [hn] at this
          cases this
      · trivial
    refine ⟨a, fun t ht => ?_⟩
    obtain ⟨t', e', i'⟩ := inv_step i w e a
    rw [ht] at e'
    cases e'
    exact Patient.fair i' (h.2 t ht)

theorem C66_patient_host_partial (w : Sends) {es : List Ev} (h : Patient w init es) :
    ∃ s, run w init es = .ok s ∧
      (s.tag = .requesting ∨ s.tag = .part →
        ∃ o, s.loaded = some o ∧ ∀ id, o = .copy id → id ∈ s.ended) :=
  C66_joining_partial w (h.fair inv_init)

/-- All messages are sent. -/
def sent : Sends := fun _ => 0

/-- Nothing is wrong, enough voters are connected. -/
def good : Answer := ⟨0, true, 0, [7], false, false⟩

/-- The host asks to join by way of peer 7, which sends its state. -/
def joining : List Ev :=
  [.host 1 (.join (some 7) true true), .respond 7 1 0 good, .push 2 (.accepted false), .push 2 (.accepted true)]

/-- Then peer 7 says that it is done and, asked, that it wrote the new membership into the log. -/
def joined : List Ev :=
  joining ++ [.respond 7 2 0 good, .respond 7 3 0 good, .logDone 0 0 0, .change true]

example : Patient sent init joined := by
  simp [joined, joining, Patient, sent, good, step, St.host, St.join, St.clear, init, St.joinFromFirst, St.send, St.answered,
    St.requestReplication, St.promote, St.requestMembership, St.sendAll, St.addLog, St.logDone, St.say]

example : ∃ s, run sent init joined = .ok s ∧ s.tag = .part ∧ s.loaded = some (.copy 2) ∧ 2 ∈ s.ended ∧ s.replies = [(1, .status 0)] :=
  ⟨_, rfl, by decide, by decide, by decide, by decide⟩

/-- Not so if the host asks to join again: by way of peer 8, just before peer 7 says that it is done.  The callback for
peer 7 does not look at the state, and follows null pointers. -/
theorem C66_second_join_null : run sent init (joining ++ [.host 2 (.join (some 8) false true), .respond 7 2 0 good]) = .ub := rfl

/-- If peer 8 has answered by then, the database which peer 8 has not yet sent is taken for complete. -/
theorem C66_second_join_incomplete : ∃ s,
    run sent init (joining ++ [.host 2 (.join (some 8) true true), .respond 8 3 0 good, .respond 7 2 0 good]) = .ok s ∧
      s.tag = .requesting ∧ s.loaded = some (.copy 4) ∧ 4 ∉ s.ended :=
  ⟨_, rfl, by decide, by decide, by decide⟩

/-- And if a member that was sending its state to peer 7 is removed from the group and asked to join, peer 7's next
response makes it send from a null pointer. -/
theorem C66_join_while_sending_null :
    run sent init [.host 1 (.createGroup 0), .ask 7 1, .change false, .host 2 (.join (some 8) false true),
      .respond 7 1 0 { good with more := true }] = .ub := rfl

/-! ## C67 -/

/-- How many responses to request `tx` the host got. -/
def answers (tx : Nat) (s : St) : Nat := (s.replies.filter fun r => r.1 = tx).length

/-- How many transactions with peers or of the log are stored whose callback will answer request `tx`. -/
def pending (tx : Nat) (s : St) : Nat :=
  (s.calls.filter fun c => c.cb.owner = some tx).length + (s.logs.filter fun c => c.owner = some tx).length

/-- How often the host asked with number `tx` for something the enclave knows. -/
def asked (tx : Nat) (es : List Ev) : Nat := (es.filter (Ev.asks tx)).length

/-- All requests but those to join: each was answered, or one stored callback will answer it. -/
theorem C67_answered_or_pending_partial (w : Sends) {tx : Nat} (h0 : tx ≠ 0) {es : List Ev} (hj : ∀ e ∈ es, e.asksJoin tx = false) {s : St}
    (h : run w init es = .ok s) : answers tx s + pending tx s = asked tx es := by
  have k := (books_run w es (books_init h0) hj h).sum
  simp only [said, owed, List.countP_eq_length_filter, Nat.zero_add] at k
  simp only [answers, pending, asked]
  exact k

/-- A request with a number of its own gets at most one response, and nobody gets one who did not ask. -/
theorem C67_at_most_once_partial (w : Sends) {tx : Nat} (h0 : tx ≠ 0) {es : List Ev} (hj : ∀ e ∈ es, e.asksJoin tx = false) {s : St}
    (h : run w init es = .ok s) : answers tx s ≤ asked tx es := by
  have := C67_answered_or_pending_partial w h0 hj h
  omega

/-- Each stored callback answers when its transaction ends, whichever way: once nothing is stored, all is answered. -/
theorem C67_all_answered_partial (w : Sends) {tx : Nat} (h0 : tx ≠ 0) {es : List Ev} (hj : ∀ e ∈ es, e.asksJoin tx = false) {s : St}
    (h : run w init es = .ok s) (hc : s.calls = []) (hl : s.logs = []) : answers tx s = asked tx es := by
  have := C67_answered_or_pending_partial w h0 hj h
  simpa [pending, hc, hl] using this

/-- A request to join is answered or carried, if the host asks to join only once and the replica does not become a member:
the state waits for the peer, or for enough voters, or the transaction for replication is outstanding, or there is a timer
to ask for membership again. -/
theorem C67_join_not_lost_partial (w : Sends) {tx : Nat} (h0 : tx ≠ 0) {pre post : List Ev} {p : Option Nat} {a c : Bool} {s : St}
    (hj : ∀ e ∈ pre ++ .host tx (.join p a c) :: post, ∀ y, y ≠ tx → e.asksJoin y = false)
    (hc : Ev.change true ∉ post) (h : run w init (pre ++ .host tx (.join p a c) :: post) = .ok s) :
    0 < answers tx s ∨
    (s.tag = .waiting ∧ s.waitTx = tx) ∨
    (s.tag = .loading ∧ s.loading.tx = tx ∧ s.loading.started = false) ∨
    (s.tag = .loading ∧ s.loading.tx = tx ∧ ∃ d ∈ s.calls, d.cb = .replicate tx) ∨
    (s.tag = .requesting ∧ ∃ t ∈ s.timers, t.2 = tx) := by
  have k := join_kept w h0 hj hc h
  simp only [said, List.countP_eq_length_filter] at k
  refine k.imp id fun k => ?_
  unfold Carried at k
  split at k
  · exact Or.inl ⟨by assumption, k⟩
  · rcases k.2 with e | e
    · exact Or.inr (Or.inl ⟨by assumption, k.1, e⟩)
    · exact Or.inr (Or.inr (Or.inl ⟨by assumption, k.1, e⟩))
  · exact Or.inr (Or.inr (Or.inr ⟨by assumption, k⟩))
  · cases k

/-- A member forwards two clients' requests to peer 7; one is written and applied, for the other the peer is reset. -/
def clients : List Ev :=
  let v : View := ⟨false, true, some 7, true, 0⟩
  joined ++ [.host 2 (.existingClient .log v), .host 3 (.existingClient .log v), .host 4 .metrics,
    .respond 7 4 0 good, .reset 7, .logDone 0 0 0]

example : ∃ s, run sent init clients = .ok s ∧ s.replies = [(1, .status 0), (4, .reply), (3, .status 243), (2, .reply)] ∧ s.calls = [] ∧ s.logs = [] ∧
    asked 2 clients = 1 ∧ asked 3 clients = 1 ∧ ∀ e ∈ clients, e.asksJoin 2 = false :=
  ⟨_, rfl, by decide, by decide, by decide, by decide, by decide, by decide⟩

example : ∃ s, run sent init (joining ++ [.respond 7 2 0 good, .timer 0 [7]]) = .ok s ∧ answers 1 s = 0 ∧ s.tag = .requesting ∧ (2, 1) ∈ s.timers :=
  ⟨_, rfl, by decide, by decide, by decide⟩

/-- A request to join may be answered twice: with an error when the peer is reset while it is asked about the group, and
again when, reconnected, it has answered and the replica is a member. -/
theorem C67_join_answered_twice : ∃ s,
    run sent init [.host 1 (.join (some 7) true true), .reset 7, .connected 7 true, .respond 7 3 0 good, .push 4 (.accepted true),
      .respond 7 4 0 good, .respond 7 5 0 good, .logDone 0 0 0] = .ok s ∧ s.replies = [(1, .status 243), (1, .status 0)] :=
  ⟨_, rfl, by decide⟩

/-- It may never be answered: the peer is reset after it has written the membership into the log; that is committed,
and then the timer does not ask again.  Nothing is left that could answer. -/
theorem C67_join_never_answered : ∃ s,
    run sent init (joining ++ [.respond 7 2 0 good, .reset 7, .change true, .timer 0 [7]]) = .ok s ∧ s.tag = .part ∧
      s.replies = [] ∧ s.calls = [] ∧ s.logs = [] ∧ s.timers = [] :=
  ⟨_, rfl, by decide, by decide, by decide, by decide, by decide⟩

/-- And a second request to join makes the enclave forget the first. -/
theorem C67_second_join_forgets_first : ∃ s,
    run sent init [.host 1 (.join (some 7) false true), .host 2 (.join (some 8) false true)] = .ok s ∧ s.waitTx = 2 ∧
      s.replies = [] ∧ s.calls = [] ∧ s.logs = [] ∧ s.timers = [] :=
  ⟨_, rfl, by decide, by decide, by decide, by decide, by decide⟩

end Svr.Props.Host
