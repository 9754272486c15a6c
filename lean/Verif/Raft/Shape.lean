import Verif.Raft.Atom

/-!
# The shape of the log, kept by every atom
-/

namespace Svr.Raft
open Log

/-- What `Log::Append` does to the entries. -/
theorem Log.append_spec {z : Sizes} {l l' : Log} {e : Entry} {trunc : Nat} {er : Option LogErr}
    (hb : bytesOf z l.entries ≤ l.curr) (h : l.append z e trunc = .ok (l', er)) :
    ∃ k, k ≤ l.entries.length ∧ l'.oldest = l.oldest + k ∧ (k = 0 ∨ l.oldest + k ≤ trunc) ∧
      l'.entries = l.entries.drop k ++ (if er = none then [e] else []) ∧ bytesOf z l'.entries ≤ l'.curr ∧
      (er = none → e.term ≠ 0 ∧ e.hash.length = 32) := by
  unfold Log.append at h
  split at h
  · simp only [Out.ok.injEq, Prod.mk.injEq] at h
    obtain ⟨rfl, rfl⟩ := h
    exact ⟨0, by omega, rfl, .inl rfl, by simp, hb, by simp⟩
  split at h
  · simp only [Out.ok.injEq, Prod.mk.injEq] at h
    obtain ⟨rfl, rfl⟩ := h
    exact ⟨0, by omega, rfl, .inl rfl, by simp, hb, by simp⟩
  rename_i ht hl
  obtain ⟨⟨l1, found⟩, h1, h⟩ := Out.bind_eq_ok.mp h
  obtain ⟨k, hk, he, ho, _, hd, _, hb1, _, _⟩ := makeSpace_spec _ _ _ _ _ _ _ h1 hb
  simp only at h
  split at h
  · simp only [Out.ok.injEq, Prod.mk.injEq] at h
    obtain ⟨rfl, rfl⟩ := h
    exact ⟨k, hk, ho, hd, by simp [he], hb1, by simp⟩
  split at h
  · simp only [Out.ok.injEq, Prod.mk.injEq] at h
    obtain ⟨rfl, rfl⟩ := h
    exact ⟨k, hk, ho, hd, by simp [he], hb1, by simp⟩
  · simp only [Out.ok.injEq, Prod.mk.injEq] at h
    obtain ⟨rfl, rfl⟩ := h
    refine ⟨k, hk, ho, hd, by simp [he], ?_, fun _ => ⟨ht, by simpa using hl⟩⟩
    simp only [bytesOf, List.map_append, List.sum_append, List.map_cons, List.map_nil, List.sum_cons, List.sum_nil] at hb1 ⊢
    omega

/-- The log holds a window of indexes that starts at 1 or below the applied ones, and reaches the applied ones. -/
structure Shape (z : Sizes) (l : Log) (applied promise : Nat) : Prop where
  one : 1 ≤ l.oldest
  empty : l.entries = [] → l.oldest = 1
  old : l.oldest = 1 ∨ l.oldest ≤ applied
  app : applied ≤ promise
  last : applied ≤ l.lastIdx
  bytes : bytesOf z l.entries ≤ l.curr

theorem Shape.lastIdx {z : Sizes} {l : Log} {a p : Nat} (h : Shape z l a p) : l.lastIdx + 1 = l.oldest + l.entries.length := by
  unfold Log.lastIdx
  have := h.one
  split
  · rename_i he
    have := h.empty (by simpa using he)
    omega
  · omega

theorem Shape.at_iff {z : Sizes} {l : Log} {a p : Nat} (h : Shape z l a p) (i : Nat) :
    (l.at? i).isSome ↔ l.oldest ≤ i ∧ i ≤ l.lastIdx := by
  rw [at?_some_iff]
  have := h.lastIdx
  omega

theorem Shape.append {z : Sizes} {l l' : Log} {a p : Nat} {e : Entry} {er : Option LogErr} (h : Shape z l a p)
    (ha : l.append z e a = .ok (l', er)) :
    Shape z l' a p ∧ l'.lastIdx = l.lastIdx + (if er = none then 1 else 0) ∧
      (∀ i, a ≤ i → i ≤ l.lastIdx → l'.at? i = l.at? i) ∧ (∀ i o, i ≤ l.lastIdx → l'.at? i = some o → l.at? i = some o) ∧
      (er = none → l'.at? (l.lastIdx + 1) = some e ∧ e.term ≠ 0 ∧ e.hash.length = 32) ∧
      (∀ i, i ≤ l.lastIdx → l.at? i ≠ none → l'.at? i = l.at? i ∨ i < a) := by
  obtain ⟨k, hk, ho, hd, he, hb, hen⟩ := append_spec h.bytes ha
  have hl := h.lastIdx
  have h1 := h.one
  have hlast := h.last
  have hold := h.old
  have hlen : l'.entries.length = l.entries.length - k + (if er = none then 1 else 0) := by
    rw [he]; split <;> simp [List.length_drop]
  have hkey : k = 0 ∨ k < l.entries.length := by omega
  have hlen0 : ∀ b : Prop, [Decidable b] → (if b then 1 else 0) ≤ 1 := by intro b _; split <;> omega
  have hemp : l'.entries = [] → l'.oldest = 1 := by
    intro h0
    rw [h0] at hlen
    simp only [List.length_nil] at hlen
    rcases hkey with rfl | hk'
    · have : l.entries = [] := List.eq_nil_of_length_eq_zero (by omega)
      have := h.empty this
      omega
    · omega
  have hs : Shape z l' a p := by
    refine ⟨by omega, hemp, by omega, h.app, ?_, hb⟩
    unfold Log.lastIdx
    split
    · rename_i h0
      have := hemp (by simpa using h0)
      omega
    · omega
  have hl' := hs.lastIdx
  have hat : ∀ i, l'.at? i = if i < l.oldest + k then none else
      if i ≤ l.lastIdx then l.at? i else if er = none ∧ i = l.lastIdx + 1 then some e else none := by
    intro i
    rw [at?_eq, at?_eq, ho, he]
    by_cases hi : i < l.oldest + k
    · rw [if_pos hi, if_pos hi]
    · rw [if_neg hi, if_neg hi]
      by_cases hi2 : i ≤ l.lastIdx
      · rw [if_pos hi2, if_neg (show ¬ i < l.oldest by omega)]
        rw [List.getElem?_append_left (by rw [List.length_drop]; omega), List.getElem?_drop]
        congr 1; omega
      · rw [if_neg hi2, List.getElem?_append_right (by rw [List.length_drop]; omega)]
        simp only [List.length_drop]
        by_cases hn : er = none
        · simp only [hn, if_true, true_and]
          by_cases hi3 : i = l.lastIdx + 1
          · have h0 : i - (l.oldest + k) - (l.entries.length - k) = 0 := by omega
            rw [h0, if_pos hi3]; rfl
          · rw [if_neg hi3]
            obtain ⟨q, hq⟩ : ∃ q, i - (l.oldest + k) - (l.entries.length - k) = q + 1 :=
              ⟨i - (l.oldest + k) - (l.entries.length - k) - 1, by omega⟩
            rw [hq]; rfl
        · simp [hn]
  refine ⟨hs, ?_, ?_, ?_, ?_, ?_⟩
  · split at hlen <;> rename_i hn <;> simp only [hn, if_true, if_false] <;> omega
  · intro i h1 h2
    rw [hat]
    by_cases hi : i < l.oldest + k
    · rw [if_pos hi, at?_eq, if_pos (by omega)]
    · rw [if_neg hi, if_pos h2]
  · intro i o h1 h2
    rw [hat] at h2
    by_cases hi : i < l.oldest + k
    · rw [if_pos hi] at h2; cases h2
    · rwa [if_neg hi, if_pos h1] at h2
  · intro hn
    refine ⟨?_, hen hn⟩
    rw [hat, if_neg (by omega), if_neg (by omega), if_pos ⟨hn, rfl⟩]
  · intro i h1 h2
    rw [hat]
    by_cases hi : i < l.oldest + k
    · by_cases h3 : i < l.oldest
      · rw [at?_eq, if_pos h3] at h2; exact absurd rfl h2
      · right; omega
    · left; rw [if_neg hi, if_pos h1]

theorem Shape.cut {z : Sizes} {l : Log} {a p idx : Nat} (h : Shape z l a p) (hp : p < idx) (hl : idx ≤ l.lastIdx) :
    Shape z (l.cancelFrom idx).1 a p ∧ (l.cancelFrom idx).1.lastIdx = idx - 1 ∧
      (l.cancelFrom idx).1.oldest = l.oldest ∧
      (∀ i, i < idx → (l.cancelFrom idx).1.at? i = l.at? i) ∧ (l.cancelFrom idx).2 = none := by
  have h1 := h.one
  have h2 := h.old
  have h3 := h.app
  have h4 := h.lastIdx
  have hc : l.cancelFrom idx = ({ l with entries := l.entries.take (idx - l.oldest) }, none) := by
    unfold cancelFrom
    rw [if_neg (by omega), resize_le _ _ (by omega)]
  rw [hc]
  simp only
  have hlen : (l.entries.take (idx - l.oldest)).length = idx - l.oldest := by rw [List.length_take]; omega
  have hemp : (l.entries.take (idx - l.oldest)) = [] → l.oldest = 1 := by
    intro h0
    rw [h0] at hlen
    simp only [List.length_nil] at hlen
    omega
  have hs : ∀ hla : a ≤ ({ l with entries := l.entries.take (idx - l.oldest) } : Log).lastIdx,
      Shape z { l with entries := l.entries.take (idx - l.oldest) } a p := fun hla =>
    ⟨h1, hemp, h2, h3, hla, le_trans (bytesOf_take_le z _ _) h.bytes⟩
  have hla : ({ l with entries := l.entries.take (idx - l.oldest) } : Log).lastIdx = idx - 1 := by
    unfold Log.lastIdx
    simp only [hlen]
    split
    · rename_i h0
      have := hemp (List.eq_nil_of_length_eq_zero (hlen.trans h0)); omega
    · omega
  refine ⟨hs (by omega), hla, trivial, ?_, trivial⟩
  intro i hi
  rw [at?_eq, at?_eq]
  by_cases ho : i < l.oldest
  · rw [if_pos ho, if_pos ho]
  · rw [if_neg ho, if_neg ho, List.getElem?_take, if_pos (show i - l.oldest < idx - l.oldest by omega)]

namespace Node
variable {P : Type} [LinearOrder P]

/-- The replica's log has the right shape. -/
def Shaped (v : Env P) (s : Node P) : Prop := Shape v.z s.log s.lastApplied (max s.commit s.promise)

theorem Shaped.ofEq {v : Env P} {s s' : Node P} (h : s.Shaped v) (hl : s'.log = s.log) (ha : s'.lastApplied = s.lastApplied)
    (hc : s.commit ≤ s'.commit) (hp : s.promise ≤ s'.promise) : s'.Shaped v := by
  unfold Shaped at *
  rw [hl, ha]
  exact ⟨h.one, h.empty, h.old, le_trans h.app (max_le_max hc hp), h.last, h.bytes⟩

theorem followLeader_eq (s : Node P) (c a : Nat) :
    ∃ u m f, s.followLeader c a = { s with promise := max a s.promise, commit := max c s.commit, uncommitted := u,
                                           mem := m, followers := f } := by
  unfold followLeader
  have hmax : (if a > s.promise then { s with promise := a } else s) = { s with promise := max a s.promise } := by
    split
    · rw [max_eq_left (by omega)]
    · rw [max_eq_right (by omega)]
  simp only [hmax]
  split
  · obtain ⟨u, m, f, h⟩ := maybeChangeUncommitted_eq { s with promise := max a s.promise, commit := c }
    exact ⟨u, m, f, by rw [h]; simp only; rw [max_eq_left (a := c) (by omega)]⟩
  · exact ⟨s.uncommitted, s.mem, s.followers, by rw [max_eq_right (a := c) (by omega)]⟩

theorem Atom.shaped {v : Env P} {inp : Inp P} {s s' : Node P} (h : Atom v inp s s') (hs : s.Shaped v) :
    s'.Shaped v := by
  cases h with
  | append _ e r hh hm hw h =>
    rcases logAppend_eq h with ⟨rfl, _⟩ | ⟨l, er, h1, rfl, _⟩ | ⟨l, h1, _, h2⟩
    · exact hs
    · exact (Shape.append hs h1).1
    · have := (Shape.append hs h1).1
      rcases h2 with ⟨rfl, _⟩ | ⟨_, _, _, _, h3⟩
      · exact this
      · obtain ⟨_, f, rfl⟩ := addUncommitted_eq h3
        exact this
  | cut idx hr hc hp ht =>
    have hi : idx ≤ s.log.lastIdx := by
      have : (s.log.at? idx).isSome := by
        unfold Log.termAt at ht
        cases h : s.log.at? idx with
        | none => rw [h] at ht; exact absurd rfl ht
        | some _ => rfl
      exact ((Shape.at_iff hs idx).mp this).2
    obtain ⟨u, m, f, h⟩ := maybeChangeUncommitted_eq ({ s with log := (s.log.cancelFrom idx).1 } : Node P)
    rw [h]
    exact (Shape.cut hs (max_lt hc hp) hi).1
  | advance _ hr h =>
    obtain ⟨np, nc, _, _, s1, h1, h2⟩ := maybeAdvance_eq hr h
    have : s1.Shaped v := by
      split at h1
      · rename_i hc
        obtain ⟨u, m, f, h⟩ := maybeChangeUncommitted_eq
          ({ s with promise := max np s.promise, commit := nc, cfgs := s.cfgs ++ [s.membership] } : Node P)
        rw [h1, h]
        exact hs.ofEq rfl rfl (le_of_lt hc) (le_max_right _ _)
      · rw [h1]; exact hs.ofEq rfl rfl le_rfl (le_max_right _ _)
    rcases h2 with rfl | rfl
    · exact this
    · exact this
  | follow =>
    rename_i hm
    obtain ⟨u, m, f, h⟩ := followLeader_eq s _ _
    rw [h]
    exact hs.ofEq rfl rfl (le_max_right _ _) (le_max_right _ _)
  | send _ dst m hso h =>
    rcases addSendable_eq h with rfl | ⟨rfl, _⟩
    · exact hs
    · exact hs
  | misc => exact hs
  | table => exact hs
  | demote => exact hs
  | raise => exact hs
  | campaign => exact hs
  | grant => exact hs
  | voted => exact hs
  | lead => exact hs
  | hash => exact hs
  | ack => exact hs

theorem Steps.shaped {v : Env P} {inp : Inp P} {s s' : Node P} (h : Steps v inp s s') (hs : s.Shaped v) :
    s'.Shaped v := by
  induction h with
  | refl => exact hs
  | tail _ k ih => exact k.shaped ih

theorem Course.shaped {v : Env P} {inp : Inp P} {s s' : Node P} (h : Course v inp s s') (hs : s.Shaped v) :
    s'.Shaped v := h.steps.shaped hs

end Node

end Svr.Raft
