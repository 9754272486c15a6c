import Verif.Raft.Sync3

/-!
# A leader brings a follower up to date
-/

namespace Svr.Raft
open Node
variable {P : Type} [LinearOrder P]
variable {v : Env P} {s s' : Node P} {L : List Entry}

theorem backUp_range (z : Sizes) (l : Log) (m : Nat) : ∀ (f n next left : Nat), m < next → n ≤ next → n < SZ →
    m < backUp z l m f n next left ∧ backUp z l m f n next left ≤ next
  | 0, _, _, _, h, _, _ => ⟨h, le_refl _⟩
  | f + 1, n, next, left, h, hn, hs => by
    have key : ∀ size, (m < (if size > left then next else backUp z l m f (wsub n 1) n (left - size)) ∧
        (if size > left then next else backUp z l m f (wsub n 1) n (left - size)) ≤ next) ∨ n ≤ m := by
      intro size
      by_cases hnm : n ≤ m
      · exact .inr hnm
      · left
        split
        · exact ⟨h, le_refl _⟩
        · have hw : wsub n 1 = n - 1 := wsub_of_le (by omega) (by omega)
          obtain ⟨h1, h2⟩ := backUp_range z l m f (wsub n 1) n (left - size) (by omega) (by omega) (by omega)
          exact ⟨h1, by omega⟩
    unfold backUp
    split
    · exact ⟨h, le_refl _⟩
    · split
      · exact ⟨h, le_refl _⟩
      · rename_i hx
        exact (key _).resolve_right hx

/-- The leader's own entry passes `CheckLogHash` in a reply. -/
theorem Lead.check (h : Lead L s) {m : Nat} (hm : m ≤ L.length) (ho : s.log.oldest ≤ max 1 m) :
    s.checkLogHash m 0 (hashOf L m) = .ok none := by
  unfold checkLogHash
  split
  · rfl
  rename_i h0
  have h2 : s.log.oldestIdx ≤ s.log.oldest := by
    unfold Log.oldestIdx
    split <;> omega
  rw [if_neg (by omega), if_neg (by rw [h.log.lastIdx]; omega)]
  obtain ⟨e, he⟩ : ∃ e, L[m - 1]? = some e := ⟨_, List.getElem?_eq_getElem (show m - 1 < L.length by omega)⟩
  have eH : hashOf L m = e.hash := by unfold hashOf; rw [if_neg h0, he]
  rw [h.log.at? (by omega), he, eH]
  simp only [ne_eq, not_true_eq_false, false_and, if_false]
  rw [if_pos ((ctEq_iff _ _).mpr rfl)]

/-- A reply reaches the table. -/
theorem Lead.answered (h : Lead L s) {q : P} {r : Repl} {b : Bool} {m last pr : Nat} (hqa : q ∈ s.membership.all) (hr : s.followers.find q = some r)
    (hm : m ≤ L.length) (ho : s.log.oldest ≤ max 1 m) (hml : m ≤ last) (hpl : pr ≤ last)
    (k : s.receive v ⟨s.group, s.term, .appResp b m last pr (hashOf L m)⟩ q = .ok s') :
    ∃ s1, ({ s with followers := s.followers.insert q { r with lastSeen := 0 } } : Node P).handleAppendResponse v s.term b m last pr (hashOf L m) q = .ok s1 ∧
      s1.maybeChangeState v = .ok s' := by
  unfold receive at k
  obtain ⟨er, hval, k⟩ := Out.bind_eq_ok.mp k
  have e0 : er = none := by
    simp only [validate, ne_eq, not_true_eq_false, if_false, hqa, h.check hm ho, Out.bind_ok] at hval
    rw [if_neg (by omega)] at hval
    cases hval; rfl
  subst e0
  simp only at k
  obtain ⟨s1, h1, k⟩ := Out.bind_eq_ok.mp k
  have e1 : s1 = s := by
    unfold updateTerm at h1
    rw [if_pos (by simp)] at h1
    cases h1; rfl
  subst e1
  obtain ⟨s2, h2, k⟩ := Out.bind_eq_ok.mp k
  unfold markSeen at h2
  rw [if_pos h.role, hr] at h2
  simp only [dispatch, lt_irrefl, if_false] at h2
  exact ⟨s2, h2, k⟩

theorem Lead.row (h : Lead L s) {q : P} {r : Repl} (hr : r.promise ≤ r.mtch) : Lead L { s with followers := s.followers.insert q r } := by
  refine ⟨h.role, h.stays, h.log, h.unc, h.le, ?_, h.agrees⟩
  intro p x hx
  rw [OMap.find_insert] at hx
  split at hx
  · cases hx; exact hr
  · exact h.marks p x hx

theorem Lead.rejected (h : Lead L s) {q : P} {r : Repl} {m last pr : Nat} (hqa : q ∈ s.membership.all) (hr : s.followers.find q = some r)
    (hm : m ≤ L.length) (ho : s.log.oldest ≤ max 1 m) (hml : m ≤ last) (hpl : pr ≤ last) (hls : last + 1 < SZ) (hn : m + 1 < r.next) (hns : r.next < SZ)
    (k : s.receive v ⟨s.group, s.term, .appResp false m last pr (hashOf L m)⟩ q = .ok s') :
    ∃ r1, ({ s with followers := s.followers.insert q r1 } : Node P).maybeChangeState v = .ok s' ∧ r1.mtch = r.mtch ∧ r1.promise = r.promise ∧
      r1.probe = true ∧ r1.inflight = none ∧ m < r1.next ∧ r1.next < r.next := by
  obtain ⟨s1, k1, k2⟩ := h.answered hqa hr hm ho hml hpl k
  unfold handleAppendResponse at k1
  rw [if_neg (by simp), if_neg (by simp [h.role])] at k1
  simp only [OMap.find_insert_self, Bool.false_eq_true, if_false, Out.ok.injEq] at k1
  rw [wadd_of_lt (by omega), wadd_of_lt (by omega), wsub_of_le (by omega) (by omega)] at k1
  have hx : ∀ x, x = max (m + 1) (min (r.next - 1) (last + 1)) → m < x ∧ x < r.next := by
    intro x hx
    omega
  generalize hxx : max (m + 1) (min (r.next - 1) (last + 1)) = x at k1
  obtain ⟨x1, x2⟩ := hx x hxx.symm
  rw [wsub_of_le (by omega) (by omega), OMap.insert_insert] at k1
  obtain ⟨b1, b2⟩ := backUp_range v.z s.log m (x - 1 + 1) (x - 1) x s.cfg.chunkBytes x1 (by omega) (by omega)
  rw [← k1] at k2
  rw [← hxx] at b1 b2 x2
  exact ⟨_, k2, rfl, rfl, rfl, rfl, b1, lt_of_le_of_lt b2 x2⟩

theorem Lead.accepted (h : Lead L s) {q : P} {r : Repl} {m last pr : Nat} (hqa : q ∈ s.membership.all) (hr : s.followers.find q = some r)
    (hm : m ≤ L.length) (ho : s.log.oldest ≤ max 1 m) (hml : m ≤ last) (hpl : pr ≤ last) (hms : m + 1 < SZ) (hn : r.next ≤ m + 1) (hf : r.inflight = some m)
    (k : s.receive v ⟨s.group, s.term, .appResp true m last pr (hashOf L m)⟩ q = .ok s') :
    ∃ r1, ({ s with followers := s.followers.insert q r1 } : Node P).maybeChangeState v = .ok s' ∧ r1.mtch = max m r.mtch ∧
      r1.promise = max pr r.promise ∧ r1.probe = false ∧ r1.inflight = none ∧ r1.next = m + 1 := by
  obtain ⟨s1, k1, k2⟩ := h.answered hqa hr hm ho hml hpl k
  unfold handleAppendResponse at k1
  rw [if_neg (by simp), if_neg (by simp [h.role])] at k1
  simp only [OMap.find_insert_self, if_true] at k1
  obtain ⟨_, _, k1⟩ := Out.bind_eq_ok.mp k1
  simp only [Out.ok.injEq] at k1
  rw [OMap.insert_insert] at k1
  rw [← k1] at k2
  refine ⟨_, k2, ?_, ?_, rfl, ?_, ?_⟩
  · simp only [replSuccess]
    split <;> omega
  · simp only [replSuccess]
    split <;> omega
  · simp only [replSuccess, hf]
    rw [if_pos (le_refl _)]
  · simp only [replSuccess]
    rw [wadd_of_lt hms]
    split <;> omega

end Svr.Raft
