import Verif.Raft.Elect2

/-!
# What it means that a leader takes a request
-/

namespace Svr.Raft
open Node
variable {P : Type} [LinearOrder P]

namespace Node
variable {v : Env P} {s s' : Node P}

/-- `LogRequest` says where it put an entry: at the end of the log of a leader, with its term, and there it is. -/
theorem logRequest_spec (hs : s.Shaped v) {i : Inner} {loc : Loc} (h : s.logRequest v i = .ok (s', .ok loc)) :
    s.role = .leader ∧ loc.term = s.term ∧ loc.idx = s.log.lastIdx + 1 ∧ s'.role = .leader ∧ s'.term = s.term ∧
      s'.log.at? loc.idx = some ⟨s.term, i, loc.hash⟩ ∧ loc.hash.length = 32 := by
  unfold logRequest at h
  split at h
  · cases h
  obtain ⟨⟨s1, r⟩, h1, h⟩ := Out.bind_eq_ok.mp h
  obtain ⟨s2, h2, h⟩ := Out.bind_eq_ok.mp h
  cases h
  simp only [clientRequestInternal] at h1
  split at h1
  · cases h1
  rename_i hr
  obtain ⟨hr, hq⟩ : s.role = .leader ∧ s.relinquishing = false :=
    ⟨by by_contra hx; exact hr (.inl hx), by by_contra hx; exact hr (.inr (Bool.eq_true_of_not_eq_false hx))⟩
  rcases logAppend_eq h1 with ⟨_, er, h3⟩ | ⟨l, er, _, _, h3⟩ | ⟨l, h3, h4, h5⟩
  · cases h3
  · cases h3
  cases h4
  obtain ⟨_, a2, _, _, a5, _⟩ := Shape.append hs h3
  simp only [if_true] at a2
  obtain ⟨b1, b2, b3, b4⟩ : s1.role = .leader ∧ s1.relinquishing = false ∧ s1.term = s.term ∧ s1.log = l := by
    rcases h5 with ⟨rfl, _⟩ | ⟨_, _, _, _, h6⟩
    · exact ⟨hr, hq, rfl, rfl⟩
    · obtain ⟨_, f, rfl⟩ := addUncommitted_eq h6
      exact ⟨hr, hq, rfl, rfl⟩
  obtain ⟨s3, c1, c2, c3, _, c5, c6⟩ := maybeChangeState_leader b1 b2 h2
  obtain ⟨f, m, rfl⟩ := sendAll_only c2
  refine ⟨hr, rfl, a2, c3, c5.trans b3, ?_, (a5 rfl).2.2⟩
  show s3.log.at? l.lastIdx = _
  rw [c6, b4, a2]
  exact (a5 rfl).1

end Node
end Svr.Raft
