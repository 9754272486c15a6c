import Verif.Core.Apply
import Verif.Raft.Hand
import Verif.Raft.Settled

/-!
# What an enclave waits for before it tells its host that leadership was handed over
-/

namespace Svr.Core
open Svr Svr.Raft Svr.Raft.Node
variable {P : Type} [LinearOrder P] {v : Env P}

/-- The index and the handler that `Core::HandleRelinquishLeadership` (enclave/core/core.cc:818-840) registers, `s` being the
replica after `Raft::RelinquishLeadership`, which the function calls before. No hash is set. `w` stands for the callback,
which gives the host the error it is called with. -/
def awaited (s : Node P) (w : Nat) : Nat × LogTx := (s.log.nextIdx, ⟨wadd s.log.lastTerm 1, [], w⟩)

theorem append_lastTerm {z : Sizes} {l l' : Log} {e : Entry} {t : Nat} (h : l.append z e t = .ok (l', none)) : l'.lastTerm = e.term := by
  unfold Log.append at h
  split at h
  · cases h
  split at h
  · cases h
  obtain ⟨⟨l1, f⟩, _, h⟩ := Out.bind_eq_ok.mp h
  simp only at h
  split at h
  · cases h
  split at h
  · cases h
  cases h
  have hl : (l1.entries ++ [e]).length = l1.entries.length + 1 := by simp
  have hi : Log.lastIdx ⟨l1.entries ++ [e], l1.oldest, l1.curr + memSize z e, l1.max⟩ = l1.oldest + l1.entries.length := by
    unfold Log.lastIdx
    simp only [hl]
    rw [if_neg (by omega)]; omega
  unfold Log.lastTerm Log.termAt Log.at? Log.entryAt Log.pos
  rw [hi]
  simp only [hl]
  rw [if_neg (by omega), if_neg (by omega), Nat.add_sub_cancel_left]
  simp

/-- The entry a leader appends when it is asked to give up leadership has its term. -/
theorem relinquish_lastTerm {s s' : Node P} (hs : s.Shaped v) (hl : s.role = .leader) (h : s.relinquishLeadership v = .ok s')
    (hi : s.log.lastIdx < s'.log.lastIdx) : s'.log.lastTerm = s.term := by
  unfold relinquishLeadership at h
  split at h
  · cases h; omega
  rename_i hn
  obtain ⟨⟨s1, r⟩, h1, h⟩ := Out.bind_eq_ok.mp h
  have hlog : s'.log = s1.log := by
    have hr : s1.role = .leader := (clientRequestInternal_role h1).trans hl
    simp only at h
    obtain ⟨s4, k1, h3⟩ := Out.bind_eq_ok.mp h
    obtain ⟨s5, k2, h4⟩ := Out.bind_eq_ok.mp h3
    obtain ⟨s6, k3, h5⟩ := Out.bind_eq_ok.mp h4
    unfold maybeBecomeLeader at k1
    rw [if_pos (by show s1.role ≠ .candidate; rw [hr]; decide)] at k1
    cases k1
    obtain ⟨_, b2⟩ := verifyAndAdvance_course (inp := .none) k2
    have b3 : s6.log = s5.log := sendAll_log k3
    have b4 : s'.log = s6.log := by
      split at h5
      · rename_i hx
        rcases tryToRelinquish_hand hx h5 with rfl | ⟨p, hp⟩
        · rfl
        · exact hp.2.2.2.2.2.2.2.2.2.2.1
      · cases h5; rfl
    rw [b4, b3, b2]
  rw [hlog] at hi ⊢
  unfold clientRequestInternal at h1
  have e : (nextHash v s s.term .notSet).2.role = .leader ∧ (nextHash v s s.term .notSet).2.relinquishing = s.relinquishing ∧
      (nextHash v s s.term .notSet).2.log = s.log ∧ (nextHash v s s.term .notSet).2.term = s.term ∧
      (nextHash v s s.term .notSet).2.Shaped v := ⟨hl, rfl, rfl, rfl, hs⟩
  generalize nextHash v s s.term .notSet = q at h1 e
  obtain ⟨hh, s3⟩ := q
  simp only at h1 e
  rw [if_neg (by rw [e.1, e.2.1]; intro x; exact hn (x.imp (fun y => absurd rfl y) id))] at h1
  rcases logAppend_eq h1 with ⟨rfl, _⟩ | ⟨l, er, k1, rfl, _⟩ | ⟨l, k1, _, k2⟩
  · rw [e.2.2.1] at hi; omega
  · have := (Shape.append e.2.2.2.2 k1).2.1
    rw [e.2.2.1] at this
    simp only [reduceCtorEq, if_false] at this
    simp only at hi
    omega
  · have k3 := append_lastTerm k1
    rcases k2 with ⟨rfl, _⟩ | ⟨_, _, k4, _⟩
    · exact k3.trans e.2.2.2.1
    · cases k4

end Svr.Core
