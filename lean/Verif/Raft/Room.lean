import Verif.Raft.Cluster

/-!
# The room in a replica's log

`Log::CancelFrom` leaves `curr_bytes_` as it is (enclave/raft/log.cc:43-50). What that means for a replica that goes on running.
-/

namespace Svr.Raft

/-- The bytes the log counts although it no longer has the entries. -/
def Log.lost (z : Sizes) (l : Log) : Nat := l.curr - Log.bytesOf z l.entries

namespace Log

theorem bytesOf_drop (z : Sizes) (l : List Entry) (k : Nat) : bytesOf z (l.take k) + bytesOf z (l.drop k) = bytesOf z l := by
  unfold bytesOf
  rw [← List.sum_append, ← List.map_append, List.take_append_drop]

theorem bytesOf_append (z : Sizes) (a b : List Entry) : bytesOf z (a ++ b) = bytesOf z a + bytesOf z b := by
  simp [bytesOf]

theorem bytesOf_drop_le (z : Sizes) (l : List Entry) {i j : Nat} (h : i ≤ j) : bytesOf z (l.drop j) ≤ bytesOf z (l.drop i) := by
  have h1 := bytesOf_drop z (l.drop i) (j - i)
  rw [List.drop_drop, show i + (j - i) = j by omega] at h1
  omega

/-- What an entry takes at least, whatever its hash. -/
def keptEntry (z : Sizes) : Nat := z.entry + z.str

theorem keptEntry_le (z : Sizes) (e : Entry) : keptEntry z ≤ memSize z e := by
  unfold keptEntry memSize
  omega

theorem append_lost {z : Sizes} {l l' : Log} {e : Entry} {t : Nat} {r : Option LogErr} (hb : bytesOf z l.entries ≤ l.curr)
    (h : l.append z e t = .ok (l', r)) :
    lost z l' = lost z l ∧ l'.max = l.max ∧
      (r = none → e.hash.length = 32 ∧ lost z l + bytesOf z (l.entries.drop (t - l.oldest)) + memSize z e ≤ l.max) ∧
      (r ≠ none → l'.lastIdx ≤ l.lastIdx) ∧
      (r = some .outOfSpace → l.max < lost z l + bytesOf z (l.entries.drop (t - l.oldest)) + memSize z e) := by
  unfold append at h
  split at h
  · cases h
    exact ⟨rfl, rfl, by simp, by simp, by simp⟩
  split at h
  · cases h
    exact ⟨rfl, rfl, by simp, by simp, by simp⟩
  rename_i hh
  obtain ⟨⟨l1, b⟩, h1, h⟩ := Out.bind_eq_ok.mp h
  obtain ⟨k, k1, k2, k3, k4, k5, k6, k7, k8, k9⟩ := makeSpace_spec _ _ _ _ _ _ _ h1 hb
  have hd := bytesOf_drop z l.entries k
  have hl : lost z l1 = lost z l := by
    unfold lost
    rw [k2]
    omega
  have hc : l1.curr = lost z l + bytesOf z (l.entries.drop k) := by
    rw [← hl, ← k2]
    unfold lost
    omega
  have hi : l1.lastIdx ≤ l.lastIdx := by
    unfold lastIdx
    rw [k2, k3, List.length_drop]
    split <;> split <;> omega
  simp only at h
  split at h
  · cases h
    rename_i hf
    have hf : b = false := by simpa using hf
    subst hf
    refine ⟨hl, k4, by simp, fun _ => hi, fun _ => ?_⟩
    obtain ⟨f1, f2⟩ := makeSpace_false _ _ _ _ _ _ h1 le_rfl
    have := bytesOf_drop_le z l.entries (i := t - l.oldest) (j := k) (by omega)
    rw [k4, hc] at f2
    omega
  rename_i hf
  have hf : b = true := by simpa using hf
  split at h
  · cases h
    exact ⟨hl, k4, by simp, fun _ => hi, by simp⟩
  cases h
  have h9 := k9 hf
  refine ⟨?_, k4, fun _ => ⟨by simpa using hh, ?_⟩, by simp, by simp⟩
  · have ha := bytesOf_append z l1.entries [e]
    have h1 : bytesOf z [e] = memSize z e := by simp [bytesOf]
    unfold lost at hl ⊢
    simp only
    omega
  · have := bytesOf_drop_le z l.entries (i := k) (j := t - l.oldest) (by omega)
    rw [hc] at h9
    omega

theorem cancel_lost {z : Sizes} {l : Log} {i : Nat} (hi : l.termAt i ≠ 0) :
    lost z l ≤ lost z (l.cancelFrom i).1 ∧ (l.cancelFrom i).1.max = l.max ∧ (l.cancelFrom i).1.lastIdx ≤ l.lastIdx := by
  have hs : (l.at? i).isSome := by
    unfold termAt at hi
    cases h : l.at? i with
    | none => rw [h] at hi; exact absurd rfl hi
    | some e => rfl
  obtain ⟨h1, h2⟩ := (at?_some_iff l i).mp hs
  have he : (l.cancelFrom i).1 = { l with entries := l.entries.take (i - l.oldest) } := by
    unfold cancelFrom
    rw [if_neg (by omega)]
    simp only [resize]
    rw [show i - l.oldest - l.entries.length = 0 by omega, List.replicate_zero, List.append_nil]
  rw [he]
  refine ⟨?_, rfl, ?_⟩
  · have := bytesOf_take_le z l.entries (i - l.oldest)
    unfold lost
    simp only
    omega
  · unfold lastIdx
    simp only [List.length_take]
    split <;> split <;> omega

end Log

namespace Node
variable {P : Type} [LinearOrder P]

/-- The least an entry takes, `sizeof` of the entry and its two strings and the 32 bytes of its hash. -/
def leastEntry (z : Sizes) : Nat := 32 + z.str + z.entry + z.str

theorem leastEntry_le {z : Sizes} {e : Entry} (h : e.hash.length = 32) : leastEntry z ≤ memSize z e := by
  unfold leastEntry memSize
  rw [h, if_pos (by decide)]
  omega

/-- What a step leaves of a log: no fewer bytes lost, and no more entries unless there was room. -/
structure Kept (z : Sizes) (s s' : Node P) : Prop where
  lost : s.log.lost z ≤ s'.log.lost z
  max : s'.log.max = s.log.max
  applied : s.lastApplied ≤ s'.lastApplied
  last : s'.log.lastIdx ≤ s.log.lastIdx ∨ s.lastApplied = 0 ∨ s.log.lost z + Log.keptEntry z + leastEntry z ≤ s.log.max

theorem Kept.same {z : Sizes} {s s' : Node P} (h : s'.log = s.log) (ha : s'.lastApplied = s.lastApplied) : Kept z s s' := by
  exact ⟨by rw [h], by rw [h], by rw [ha], by rw [h]; exact .inl le_rfl⟩

theorem Kept.trans {z : Sizes} {a b c : Node P} (h : Kept z a b) (k : Kept z b c) : Kept z a c := by
  refine ⟨h.lost.trans k.lost, k.max.trans h.max, h.applied.trans k.applied, ?_⟩
  have h1 := h.last
  have h2 := k.last
  have h3 := h.lost
  have h4 := h.applied
  rw [h.max] at h2
  omega

/-- What was appended had room. -/
theorem append_room {v : Env P} {s : Node P} {e : Entry} {l : Log} (hs : s.Shaped v) (h0 : s.lastApplied ≠ 0)
    (h : s.log.append v.z e s.lastApplied = .ok (l, none)) :
    s.log.lost v.z + Log.keptEntry v.z + leastEntry v.z ≤ s.log.max := by
  obtain ⟨_, _, c, _⟩ := Log.append_lost hs.bytes h
  obtain ⟨c1, c2⟩ := c rfl
  refine le_trans ?_ c2
  have hk : Log.keptEntry v.z ≤ Log.bytesOf v.z (s.log.entries.drop (s.lastApplied - s.log.oldest)) := by
    have h5 := hs.old
    have h6 := hs.app
    have h7 := hs.last
    cases hd : s.log.entries.drop (s.lastApplied - s.log.oldest) with
    | nil =>
      rw [List.drop_eq_nil_iff] at hd
      unfold Log.lastIdx at h7
      split at h7 <;> omega
    | cons x t =>
      have := Log.keptEntry_le v.z x
      simp only [Log.bytesOf, List.map_cons, List.sum_cons]
      omega
  have := leastEntry_le (z := v.z) c1
  omega

theorem logAppend_kept {v : Env P} {s s' : Node P} {e : Entry} {r} (hs : s.Shaped v) (h : s.logAppend v e = .ok (s', r)) :
    Kept v.z s s' := by
  rcases logAppend_eq h with ⟨rfl, _⟩ | ⟨l, er, h1, rfl, _⟩ | ⟨l, h1, _, h2⟩
  · exact .same rfl rfl
  · obtain ⟨a, b, _, d, _⟩ := Log.append_lost hs.bytes h1
    exact ⟨by simp only [a]; exact le_rfl, b, le_rfl, .inl (d (by simp))⟩
  · obtain ⟨a, b, c, _⟩ := Log.append_lost hs.bytes h1
    obtain ⟨e1, e2⟩ : s'.log = l ∧ s'.lastApplied = s.lastApplied := by
      rcases h2 with ⟨rfl, _⟩ | ⟨g, m, _, _, h4⟩
      · exact ⟨rfl, rfl⟩
      · obtain ⟨_, f, rfl⟩ := addUncommitted_eq h4
        exact ⟨rfl, rfl⟩
    refine ⟨by rw [e1, a], by rw [e1, b], by rw [e2], ?_⟩
    by_cases h0 : s.lastApplied = 0
    · exact .inr (.inl h0)
    exact .inr (.inr (append_room hs h0 h1))

theorem Atom.kept {v : Env P} {inp : Inp P} {s s' : Node P} (h : Atom v inp s s') (hs : s.Shaped v) : Kept v.z s s' := by
  cases h with
  | misc _ _ _ _ _ _ _ _ _ _ hc hf => exact .same rfl rfl
  | table f h => exact .same rfl rfl
  | demote => exact .same rfl rfl
  | raise t h hi => exact .same rfl rfl
  | campaign hv hr ht => exact .same rfl rfl
  | grant frm i lt hh g hi hv hl => exact .same rfl rfl
  | voted frm g hi hr hm => exact .same rfl rfl
  | lead hr hq => exact .same rfl rfl
  | hash k x => exact .same rfl rfl
  | append _ e r hh hm hw h => exact logAppend_kept hs h
  | cut idx hr hc hp ht =>
    obtain ⟨u, m, f, h⟩ := maybeChangeUncommitted_eq ({ s with log := (s.log.cancelFrom idx).1 } : Node P)
    rw [h]
    obtain ⟨a, b, c⟩ := Log.cancel_lost (z := v.z) ht
    exact ⟨a, b, le_rfl, .inl c⟩
  | advance _ hr h =>
    obtain ⟨np, nc, _, _, s1, h1, h2⟩ := maybeAdvance_eq hr h
    have : s1.log = s.log ∧ s1.lastApplied = s.lastApplied := by
      rw [h1]
      split
      · obtain ⟨u, m, f, h⟩ := maybeChangeUncommitted_eq
          ({ s with promise := max np s.promise, commit := nc, cfgs := s.cfgs ++ [s.membership] } : Node P)
        rw [h]
        exact ⟨rfl, rfl⟩
      · exact ⟨rfl, rfl⟩
    rcases h2 with rfl | rfl <;> exact .same this.1 this.2
  | follow frm g t pi pt ph es c a lp hi hr hca hm =>
    obtain ⟨u, m, f, h⟩ := followLeader_eq s (min c lp) (min a lp)
    rw [h]
    exact .same rfl rfl
  | ack frm g mt l a h r hi hr hf hm => exact .same rfl rfl
  | send _ dst m hso h ha =>
    rcases addSendable_eq h with rfl | ⟨rfl, _⟩ <;> exact .same rfl rfl

theorem Steps.kept {v : Env P} {inp : Inp P} {s s' : Node P} (h : Steps v inp s s') (hs : s.Shaped v) : Kept v.z s s' := by
  induction h with
  | refl => exact .same rfl rfl
  | tail a k ih => exact ih.trans (k.kept (a.shaped hs))

theorem Op.kept {v : Env P} {s s' : Node P} {op : Op P} {o : Obs P} (hs : s.Shaped v) (hf : op.Fits s)
    (h : op.run v s = .ok (s', o)) : Kept v.z s s' := by
  rcases op.steps hs hf h with ⟨h1, _⟩ | ⟨i, e, _, _, h1, h2, h3, rfl⟩ | ⟨_, _, rfl⟩
  · exact h1.kept hs
  · exact ⟨le_rfl, rfl, by simp only; omega, .inl le_rfl⟩
  · exact .same rfl rfl

end Node

open Node
variable {P : Type} [LinearOrder P]

theorem Future.kept {g : Setting P} {W W' : World P} (h : Future g W W') (hs : W.Shaped g) {p : P} {s : Node P}
    (hp : W.node p = some s) : ∃ s', W'.node p = some s' ∧ Kept g.v.z s s' := by
  induction h with
  | now => exact ⟨s, hp, .same rfl rfl⟩
  | next a k ih =>
    obtain ⟨s1, h1, k1⟩ := ih
    cases k with
    | start q sq r pa mx cfg hq h =>
      refine ⟨s1, ?_, k1⟩
      rw [World.put_other]
      · exact h1
      · rintro rfl; rw [h1] at hq; cases hq
    | join q q' sq sq' r pa log cfg hq hq' ha hl hbb hf h =>
      refine ⟨s1, ?_, k1⟩
      rw [World.put_other]
      · exact h1
      · rintro rfl; rw [h1] at hq; cases hq
    | call q sq sq' op o r pa hq hd hf h =>
      by_cases hpq : p = q
      · subst hpq
        rw [h1] at hq
        cases hq
        exact ⟨_, World.put_self .., k1.trans (Op.kept (v := g.env r pa) (a.shaped hs p _ h1) hf h)⟩
      · exact ⟨s1, by rw [World.put_other _ _ _ _ _ hpq]; exact h1, k1⟩

end Svr.Raft
