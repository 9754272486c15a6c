import Verif.Raft.Elect2

/-!
# How a follower takes over the leader's log

`L` is the log of the leader from its first entry on, `F` that of the follower.
-/

namespace Svr.Raft
open Node
variable {P : Type} [LinearOrder P]

/-- The term of the entry with index `i`; that before the first is 0. -/
def termOf (L : List Entry) (i : Nat) : Nat := if i = 0 then 0 else match L[i - 1]? with
  | some e => e.term
  | none => 0

/-- The hash of the entry with index `i`; that before the first has none. -/
def hashOf (L : List Entry) (i : Nat) : Bytes := if i = 0 then [] else match L[i - 1]? with
  | some e => e.hash
  | none => []

theorem termOf_succ {L : List Entry} {i : Nat} {e : Entry} (h : L[i]? = some e) : termOf L (i + 1) = e.term := by
  unfold termOf
  rw [if_neg (Nat.succ_ne_zero i), Nat.add_sub_cancel, h]

theorem hashOf_succ {L : List Entry} {i : Nat} {e : Entry} (h : L[i]? = some e) : hashOf L (i + 1) = e.hash := by
  unfold hashOf
  rw [if_neg (Nat.succ_ne_zero i), Nat.add_sub_cancel, h]

/-- What is asked of the leader's log. -/
structure Line (v : Env P) (L : List Entry) : Prop where
  chain : Chain v (fun _ => True) L
  small : ∀ e ∈ L, v.z.bytes e ≤ Log.intMax
  size : 2 * L.length + 3 < SZ

theorem take_of_take {F L : List Entry} {i j : Nat} (h : F.take j = L.take j) (hi : i ≤ j) : F.take i = L.take i := by
  have h1 := congrArg (List.take i) h
  rwa [List.take_take, List.take_take, min_eq_left hi] at h1

theorem get_of_take {F L : List Entry} {i j : Nat} (h : F.take j = L.take j) (hi : i < j) : F[i]? = L[i]? := by
  have h1 := congrArg (fun l => l[i]?) h
  simpa [List.getElem?_take, hi] using h1

theorem le_of_take {F L : List Entry} {j : Nat} (h : F.take j = L.take j) (hj : j ≤ F.length) : j ≤ L.length := by
  have h1 := congrArg List.length h
  rw [List.length_take, List.length_take, min_eq_left hj] at h1
  omega

theorem hashOf_take {F L : List Entry} {i j : Nat} (h : F.take j = L.take j) (hi : i ≤ j) : hashOf F i = hashOf L i := by
  unfold hashOf
  split
  · rfl
  · rw [get_of_take h (by omega)]

theorem LogOf.hashAt {l : Log} {F : List Entry} (h : LogOf l F) {i : Nat} (hi : i = 0 ∨ l.oldest ≤ i) :
    (match l.at? i with
      | some e => e.hash
      | none => []) = hashOf F i := by
  unfold hashOf
  by_cases h0 : i = 0
  · have : l.at? i = none := by
      rw [Log.at?_eq, if_pos (by have := h.one; omega)]
    rw [this, if_pos h0]
  · rw [h.at? (by omega), if_neg h0]

theorem LogOf.termAt' {l : Log} {F : List Entry} (h : LogOf l F) {i : Nat} (hi : i = 0 ∨ l.oldest ≤ i) : l.termAt i = termOf F i := by
  unfold termOf Log.termAt
  by_cases h0 : i = 0
  · have : l.at? i = none := by
      rw [Log.at?_eq, if_pos (by have := h.one; omega)]
    rw [this, if_pos h0]
  · rw [h.at? (by omega), if_neg h0]
    cases F[i - 1]? <;> rfl

/-- What is asked of the follower. -/
structure Close (v : Env P) (L : List Entry) (s : Node P) (F : List Entry) : Prop where
  log : LogOf s.log F
  pos : ∀ e ∈ F, e.term ≠ 0
  one : ∀ i e e', F[i]? = some e → L[i]? = some e' → e.term = e'.term → F.take (i + 1) = L.take (i + 1)
  promised : F.take s.promise = L.take s.promise
  le : s.commit ≤ s.promise
  reach : s.promise ≤ F.length
  room : ∃ j ≤ F.length, F.take j = L.take j ∧ s.log.curr + Log.bytesOf v.z (L.drop j) ≤ s.log.max
  old : s.log.oldest ≤ max 1 s.commit
  unc : s.uncommitted = []
  plain : ∀ i e, s.commit ≤ i → L[i]? = some e → ∀ g, e.inner ≠ .membership g
  fits : F.length + L.length + 3 < SZ
  agrees : s.Agrees

variable {v : Env P} {s s' : Node P} {L F : List Entry}

theorem Node.maybeChangeUncommitted_nil (h : s.uncommitted = []) : s.maybeChangeUncommitted = s := by
  unfold maybeChangeUncommitted
  simp only [h, promoteCommitted, List.reverse_nil, discardCut, List.length_nil, ne_eq, not_true_eq_false, if_false]
  cases s
  simp only at h
  subst h
  rfl

theorem Close.reaches (h : Close v L s F) {i : Nat} (hi : s.commit ≤ i) : i = 0 ∨ s.log.oldest ≤ i := by
  have := h.old
  omega

/-- An entry of the leader's log passes `CheckLogHash` at a replica that has it or may take it. -/
theorem Close.check (h : Close v L s F) (hL : Line v L) {i : Nat} (hc : s.commit ≤ i) (hi : i ≤ L.length) :
    s.checkLogHash i (termOf L i) (hashOf L i) = .ok none := by
  unfold checkLogHash
  split
  · rfl
  rename_i h0
  have h1 : s.log.oldest ≤ i := (h.reaches hc).resolve_left h0
  have h2 : s.log.oldestIdx ≤ s.log.oldest := by
    unfold Log.oldestIdx
    split <;> omega
  rw [if_neg (by omega)]
  split
  · rfl
  rename_i h3
  rw [h.log.lastIdx] at h3
  obtain ⟨e', he'⟩ : ∃ e, L[i - 1]? = some e := ⟨_, List.getElem?_eq_getElem (show i - 1 < L.length by omega)⟩
  obtain ⟨e, he⟩ : ∃ e, F[i - 1]? = some e := ⟨_, List.getElem?_eq_getElem (show i - 1 < F.length by omega)⟩
  have eT : termOf L i = e'.term := by unfold termOf; rw [if_neg h0, he']
  have eH : hashOf L i = e'.hash := by unfold hashOf; rw [if_neg h0, he']
  rw [h.log.at? h1, he]
  simp only
  rw [eT, eH]
  split
  · rename_i h4
    rw [if_pos ?_]
    by_contra hp
    have := get_of_take h.promised (show i - 1 < s.promise by omega)
    rw [he, he'] at this
    cases this
    omega
  split
  · rfl
  rename_i h4 h5
  have ht : e.term = e'.term := by
    have := (hL.chain _ _ he').term
    omega
  have := get_of_take (h.one _ _ _ he he' ht) (show i - 1 < i - 1 + 1 by omega)
  rw [he, he'] at this
  cases this
  rw [if_pos ((ctEq_iff _ _).mpr rfl)]

theorem Close.checkAll (h : Close v L s F) (hL : Line v L) : ∀ (es : List Entry) (i : Nat), 1 ≤ i → s.commit ≤ i → es <+: L.drop (i - 1) →
    s.checkEntries es i = .ok none
  | [], _, _, _, _ => rfl
  | e :: es, i, h1, hc, hp => by
    have hlen := hp.length_le
    simp only [List.length_cons, List.length_drop] at hlen
    have hge : L[i - 1]? = some e := by
      obtain ⟨t, ht⟩ := hp
      have := congrArg (fun l => l[0]?) ht
      simpa [List.getElem?_drop] using this.symm
    have e1 : termOf L i = e.term := by unfold termOf; rw [if_neg (by omega), hge]
    have e2 : hashOf L i = e.hash := by unfold hashOf; rw [if_neg (by omega), hge]
    have hk := h.check hL hc (show i ≤ L.length by omega)
    rw [e1, e2] at hk
    unfold checkEntries
    rw [hk]
    have hs := hL.size
    rw [wadd_of_lt (by omega)]
    refine Close.checkAll h hL es (i + 1) (by omega) (by omega) ?_
    obtain ⟨t, ht⟩ := hp
    refine ⟨t, ?_⟩
    have := congrArg List.tail ht
    simpa [List.tail_drop, show i - 1 + 1 = i from by omega] using this

/-- The next entry of the leader's log is appended. -/
theorem Close.append (h : Close v L s F) (hL : Line v L) {e : Entry} (hF : F.take F.length = L.take F.length) (he : L[F.length]? = some e) :
    ∃ l x, l.oldest = s.log.oldest ∧ ({ s with hashed := x } : Node P).logAppend v e = .ok ({ s with hashed := x, log := l }, .ok ⟨s.term, F.length + 1, e.hash⟩) ∧
      x = s.hashed ++ [(s.prevHash, hashInput v s.log.nextIdx e.term e.inner)] ∧ (s.nextHash v e.term e.inner).1 = e.hash ∧
      Close v L { s with hashed := x, log := l } (F ++ [e]) := by
  rw [List.take_length] at hF
  have hlt : F.length < L.length := by
    by_contra hx
    rw [List.getElem?_eq_none (by omega)] at he
    cases he
  have hmem : e ∈ L := List.mem_of_getElem? he
  have lk := hL.chain _ _ he
  have hcF : Chain v (fun _ => True) F := by
    intro i a ha
    have hi : i < F.length := by
      by_contra hx
      rw [List.getElem?_eq_none (by omega)] at ha
      cases ha
    have e1 : F[i]? = L[i]? := by rw [hF, List.getElem?_take, if_pos hi]
    have l1 := hL.chain i a (by rw [← e1]; exact ha)
    have e2 : prevOf F i = prevOf L i := by
      unfold prevOf
      split
      · rfl
      · rw [show F[i - 1]? = L[i - 1]? by rw [hF, List.getElem?_take, if_pos (by omega)]]
    exact ⟨l1.term, l1.fits, l1.len, by rw [e2]; exact l1.hash, trivial⟩
  have hprev : s.prevHash = prevOf L F.length := by
    rw [prevHash_eq h.log hcF]
    unfold prevOf
    split
    · rfl
    · rw [show F[F.length - 1]? = L[F.length - 1]? by
        conv_lhs => rw [hF]
        rw [List.getElem?_take, if_pos (by simp only [List.length_take]; omega)]
        congr 1
        simp only [List.length_take]; omega]
  have hnext : s.log.nextIdx = F.length + 1 := by unfold Log.nextIdx; rw [h.log.lastIdx]
  obtain ⟨j, hj, hj2, hroom⟩ := h.room
  have hbytes : Log.bytesOf v.z (L.drop j) ≥ memSize v.z e + Log.bytesOf v.z (L.drop (F.length + 1)) := by
    have e1 : L.drop F.length = e :: L.drop (F.length + 1) := by
      rw [List.drop_eq_getElem_cons hlt]
      congr 1
      rw [List.getElem?_eq_getElem hlt] at he
      exact Option.some.inj he
    have e2 : L.drop j = (L.drop j).take (F.length - j) ++ L.drop F.length := by
      conv_lhs => rw [← List.take_append_drop (F.length - j) (L.drop j)]
      rw [List.drop_drop, show j + (F.length - j) = F.length by omega]
    rw [e2, e1]
    unfold Log.bytesOf
    simp only [List.map_append, List.sum_append, List.map_cons, List.sum_cons]
    omega
  let l : Log := { s.log with entries := s.log.entries ++ [e], curr := s.log.curr + memSize v.z e }
  have happ : s.log.append v.z e s.lastApplied = .ok (l, none) := by
    unfold Log.append
    rw [if_neg lk.term, if_neg (by simp [lk.len])]
    unfold Log.makeSpace
    rw [if_neg (by omega)]
    simp only [Out.bind_ok, Bool.not_true, Bool.false_eq_true, if_false]
    rw [if_neg (by have := hL.small e hmem; omega)]
  have hll : LogOf l (F ++ [e]) := by
    refine ⟨h.log.one, ?_, ?_, ?_⟩
    · have := h.log.le
      simp only [l, List.length_append, List.length_singleton]
      omega
    · simp only [l]
      rw [h.log.eq, List.drop_append_of_le_length (by have := h.log.le; have := h.log.one; omega)]
    · simp [l]
  refine ⟨l, _, rfl, ?_, rfl, ?_, ?_⟩
  · unfold logAppend
    have hin : ∀ g, e.inner ≠ .membership g := h.plain _ _ (le_trans h.le h.reach) he
    cases hx : e.inner with
    | membership g => exact absurd hx (hin g)
    | _ =>
      simp only
      rw [happ]
      simp only [Out.bind_ok]
      rw [hll.lastIdx]
      simp only [List.length_append, List.length_singleton]
  · simp only [nextHash]
    rw [hnext, hprev]
    exact lk.hash.symm
  · have hFe : F ++ [e] = L.take (F.length + 1) := by
      rw [List.take_add_one, he, ← hF]; rfl
    have hat : ∀ i, i ≤ F.length → l.at? i = s.log.at? i := by
      intro i hi
      by_cases h0 : l.oldest ≤ i
      · rw [hll.at? h0, h.log.at? h0, List.getElem?_append_left (by have := h.log.one; simp only [l] at h0; omega)]
      · rw [Log.at?_eq, Log.at?_eq, if_pos (by omega), if_pos (by simp only [l] at h0; omega)]
    refine ⟨hll, ?_, ?_, ?_, h.le, ?_, ⟨F.length + 1, by simp, ?_, ?_⟩, h.old, h.unc, h.plain, ?_, ?_⟩
    · intro a ha
      rcases List.mem_append.mp ha with ha | ha
      · exact h.pos a ha
      · rw [List.mem_singleton.mp ha]; exact lk.term
    · intro i a a' h1 h2 _
      have hi : i < F.length + 1 := by
        by_contra hx
        rw [List.getElem?_eq_none (by simp; omega)] at h1
        cases h1
      rw [hFe, List.take_take, min_eq_left (by omega)]
    · show (F ++ [e]).take s.promise = _
      rw [hFe, List.take_take, min_eq_left (by have := h.reach; omega)]
    · have := h.reach
      simp only [List.length_append, List.length_singleton]
      omega
    · rw [hFe, List.take_take, min_self]
    · show s.log.curr + _ + _ ≤ s.log.max
      omega
    · have := hL.size
      simp only [List.length_append, List.length_singleton]
      omega
    · have := h.agrees
      unfold Agrees at this ⊢
      show merkleHash (l.at? s.commit) = _ ∧ merkleHash (l.at? s.promise) = _
      rw [hat _ (le_trans h.le h.reach), hat _ h.reach]
      exact this

/-- A conflicting entry is cut off. -/
theorem Close.cut (h : Close v L s F) {i : Nat} {e e' : Entry} (hc : s.commit ≤ i) (he : F[i]? = some e) (he' : L[i]? = some e')
    (ht : e.term ≠ e'.term) :
    ∃ l, s.cutConflict (i + 1) e'.term = some { s with log := l } ∧ Close v L { s with log := l } (F.take i) := by
  have hi : i < F.length := by
    by_contra hx
    rw [List.getElem?_eq_none (by omega)] at he
    cases he
  have hlast : s.promise ≤ i := by
    by_contra hx
    have := get_of_take h.promised (show i < s.promise by omega)
    rw [he, he'] at this
    cases this
    exact ht rfl
  have hle := h.le
  have hold := h.old
  have hone := h.log.one
  have hlen := h.log.len
  have hat : s.log.termAt (i + 1) = e.term := by
    rw [h.log.termAt' (.inr (by omega)), termOf_succ he]
  let l : Log := { s.log with entries := s.log.entries.take (i + 1 - s.log.oldest) }
  have hres : Log.resize (i + 1 - s.log.oldest) s.log.entries = s.log.entries.take (i + 1 - s.log.oldest) := by
    unfold Log.resize
    rw [show i + 1 - s.log.oldest - s.log.entries.length = 0 by omega, List.replicate_zero, List.append_nil]
  have hll : LogOf l (F.take i) := by
    refine ⟨hone, ?_, ?_, ?_⟩
    · simp only [l, List.length_take]
      omega
    · simp only [l]
      rw [h.log.eq, List.drop_take, show i + 1 - s.log.oldest = i - (s.log.oldest - 1) by omega]
    · intro hx
      have : (s.log.entries.take (i + 1 - s.log.oldest)).length = 0 := by
        show l.entries.length = 0
        rw [hx]; rfl
      rw [List.length_take] at this
      show s.log.oldest = 1
      omega
  refine ⟨l, ?_, ?_⟩
  · unfold cutConflict
    rw [hat, if_pos ⟨h.pos e (List.mem_of_getElem? he), ht⟩, if_neg (by omega), if_neg (by omega)]
    unfold Log.cancelFrom
    rw [if_neg (by omega), hres]
    simp only [Option.some.injEq]
    rw [maybeChangeUncommitted_nil (by exact h.unc)]
  · have hatl : ∀ k, k ≤ i → l.at? k = s.log.at? k := by
      intro k hk
      by_cases h0 : s.log.oldest ≤ k
      · rw [hll.at? h0, h.log.at? h0, List.getElem?_take, if_pos (by omega)]
      · rw [Log.at?_eq l, Log.at?_eq s.log, if_pos (show k < l.oldest from not_le.mp h0), if_pos (not_le.mp h0)]
    refine ⟨hll, fun a ha => h.pos a (List.mem_of_mem_take ha), ?_, ?_, h.le, ?_, ?_, h.old, h.unc, h.plain, ?_, ?_⟩
    · intro k a a' h1 h2 h3
      rw [List.getElem?_take] at h1
      split at h1
      · rename_i hk
        rw [List.take_take, min_eq_left (by omega)]
        exact h.one k a a' h1 h2 h3
      · cases h1
    · show (F.take i).take s.promise = _
      rw [List.take_take, min_eq_left hlast]
      exact h.promised
    · show s.promise ≤ (F.take i).length
      rw [List.length_take]; omega
    · obtain ⟨j, hj, hj2, hroom⟩ := h.room
      have hji : j ≤ i := by
        by_contra hx
        have := get_of_take hj2 (show i < j by omega)
        rw [he, he'] at this
        cases this
        exact ht rfl
      refine ⟨j, by rw [List.length_take]; omega, ?_, hroom⟩
      rw [List.take_take, min_eq_left hji]
      exact hj2
    · have := h.fits
      rw [List.length_take]; omega
    · have := h.agrees
      unfold Agrees at this ⊢
      show merkleHash (l.at? s.commit) = _ ∧ merkleHash (l.at? s.promise) = _
      rw [hatl _ (by omega), hatl _ hlast]
      exact this

/-- The entries of a request, taken from the leader's log, are all taken over. -/
theorem Close.loop (hL : Line v L) : ∀ (es : List Entry) {i : Nat} {s s' : Node P} {F : List Entry} {lp : Nat}, Close v L s F →
    es <+: L.drop i → F.take i = L.take i → i ≤ F.length → s.commit ≤ i → appendLoop v es (i + 1) i s = .ok (s', lp) →
    lp = i + es.length ∧ ∃ F' l x, s' = { s with log := l, hashed := x } ∧ Close v L s' F' ∧ F'.take lp = L.take lp ∧ lp ≤ F'.length
  | [], i, s, s', F, lp, h, _, hF, hi, _, k => by
    cases k
    exact ⟨rfl, F, s.log, s.hashed, rfl, h, hF, hi⟩
  | e :: es, i, s, s', F, lp, h, hp, hF, hi, hc, k => by
    have hlen := hp.length_le
    simp only [List.length_cons, List.length_drop] at hlen
    have hge : L[i]? = some e := by
      obtain ⟨t, ht⟩ := hp
      have := congrArg (fun l => l[0]?) ht
      simpa [List.getElem?_drop] using this.symm
    have hp' : es <+: L.drop (i + 1) := by
      obtain ⟨t, ht⟩ := hp
      refine ⟨t, ?_⟩
      have := congrArg List.tail ht
      simpa [List.tail_drop] using this
    have hsz := hL.size
    have hw : wadd (i + 1) 1 = i + 1 + 1 := wadd_of_lt (by omega)
    have hlt : i < L.length := by omega
    have hsucc : L.take (i + 1) = L.take i ++ [e] := by rw [List.take_add_one, hge]; rfl
    -- appending at the end
    have app : ∀ {s1 : Node P} {F1 : List Entry}, Close v L s1 F1 → F1.length = i → F1.take i = L.take i → s1.commit = s.commit →
        (if i + 1 = s1.log.lastIdx + 1 then
          let (h, s) := s1.nextHash v e.term e.inner
          if ctEq h e.hash = false then .ok (s, i)
          else do
            let (s, r) ← s.logAppend v e
            match r with
            | .error _ => .ok (s, i)
            | .ok _ => appendLoop v es (wadd (i + 1) 1) (i + 1) s
        else appendLoop v es (wadd (i + 1) 1) (i + 1) s1) = .ok (s', lp) →
        lp = i + (es.length + 1) ∧
          ∃ F' l x, s' = { s1 with log := l, hashed := x } ∧ Close v L s' F' ∧ F'.take lp = L.take lp ∧ lp ≤ F'.length := by
      intro s1 F1 h1 hl1 ht1 hc1 k1
      rw [if_pos (by rw [h1.log.lastIdx]; omega)] at k1
      obtain ⟨l, x, _, a1, a2, a3, a4⟩ := h1.append hL (e := e) (by rw [hl1]; exact ht1) (by rw [hl1]; exact hge)
      simp only at k1
      rw [a3, if_neg (by rw [(ctEq_iff _ _).mpr rfl]; simp)] at k1
      have e1 : (s1.nextHash v e.term e.inner).2 = { s1 with hashed := x } := by rw [a2]; rfl
      rw [e1, a1] at k1
      simp only [Out.bind_ok, hw] at k1
      obtain ⟨b1, F', l', x', b2, b3, b4, b5⟩ := Close.loop hL es (i := i + 1) a4 hp' (by
        rw [hsucc, List.take_of_length_le (by simp; omega), ← ht1, ← hl1, List.take_length]) (by simp; omega) (by
        show s1.commit ≤ i + 1
        omega) k1
      exact ⟨by omega, F', l', x', b2, b3, b4, b5⟩
    unfold appendLoop at k
    by_cases hiF : i < F.length
    · obtain ⟨e0, he0⟩ : ∃ e0, F[i]? = some e0 := ⟨_, List.getElem?_eq_getElem hiF⟩
      by_cases ht : e0.term = e.term
      · have hcut : s.cutConflict (i + 1) e.term = some s := by
          unfold cutConflict
          rw [h.log.termAt' (h.reaches (by omega))]
          rw [termOf_succ he0, if_neg (by simp [ht])]
        rw [hcut] at k
        simp only at k
        rw [if_neg (by rw [h.log.lastIdx]; omega), hw] at k
        obtain ⟨b1, F', l', x', b2, b3, b4, b5⟩ := Close.loop hL es (i := i + 1) h hp' (h.one _ _ _ he0 hge ht) (by omega) (by omega) k
        exact ⟨by simp only [List.length_cons]; omega, F', l', x', b2, b3, b4, b5⟩
      · obtain ⟨l, a1, a2⟩ := h.cut hc he0 hge ht
        rw [a1] at k
        obtain ⟨b1, F', l', x', b2, b3, b4, b5⟩ := app a2 (by rw [List.length_take]; omega)
          (by rw [List.take_take, min_self]; exact hF) rfl k
        exact ⟨b1, F', l', x', b2, b3, b4, b5⟩
    · have hcut : s.cutConflict (i + 1) e.term = some s := by
        unfold cutConflict
        rw [h.log.termAt' (h.reaches (by omega))]
        have : termOf F (i + 1) = 0 := by
          unfold termOf
          rw [if_neg (Nat.succ_ne_zero i), Nat.add_sub_cancel, List.getElem?_eq_none (not_lt.mp hiF)]
        rw [this, if_neg (by simp)]
      rw [hcut] at k
      obtain ⟨b1, F', l', x', b2, b3, b4, b5⟩ := app h (by omega) hF rfl k
      exact ⟨b1, F', l', x', b2, b3, b4, b5⟩

end Svr.Raft
