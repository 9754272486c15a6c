import Verif.Raft.Walk

/-!
# Append requests, responses and `Receive` as sequences of atoms
-/

namespace Svr.Raft.Node
variable {P : Type} [LinearOrder P] {v : Env P} {inp : Inp P}

theorem checkLogHash_ok {s : Node P} {idx term : Nat} {hash : Bytes} (h : s.checkLogHash idx term hash = .ok none) :
    idx = 0 ∨ (s.log.oldestIdx ≤ idx ∧ ∀ o, s.log.at? idx = some o → (term = o.term ∨ term = 0) → hash = o.hash) := by
  unfold checkLogHash at h
  by_cases h0 : idx = 0
  · exact .inl h0
  right
  rw [if_neg h0] at h
  by_cases h1 : idx < s.log.oldestIdx
  · rw [if_pos h1] at h; cases h
  rw [if_neg h1] at h
  refine ⟨not_lt.mp h1, ?_⟩
  intro o ho ht
  by_cases h2 : idx > s.log.lastIdx
  · unfold Log.lastIdx at h2
    have h3 := (Log.at?_some_iff s.log idx).mp (by rw [ho]; rfl)
    split at h2 <;> omega
  rw [if_neg h2, ho] at h
  simp only at h
  rw [if_neg (by omega), if_neg (by omega)] at h
  by_cases hc : ctEq hash o.hash = true
  · exact (ctEq_iff _ _).mp hc
  · rw [if_neg hc] at h; cases h

theorem checkEntries_ok {s : Node P} : ∀ {es : List Entry} {idx : Nat}, s.checkEntries es idx = .ok none →
    idx + es.length < SZ → ∀ j e, es[j]? = some e → idx + j = 0 ∨ (s.log.oldestIdx ≤ idx + j ∧
      ∀ o, s.log.at? (idx + j) = some o → e.term = o.term → e.hash = o.hash)
  | [], _, _, _ => by simp
  | e :: es, idx, h, hb => by
    simp only [checkEntries] at h
    obtain ⟨q, h1, h⟩ := Out.bind_eq_ok.mp h
    cases q with
    | some _ => simp only at h; cases h
    | none =>
      simp only at h
      simp only [List.length_cons] at hb
      rw [wadd_of_lt (by omega)] at h
      intro j e' he
      cases j with
      | zero =>
        simp only [List.getElem?_cons_zero, Option.some.injEq] at he
        subst he
        rcases checkLogHash_ok h1 with h2 | ⟨h2, h3⟩
        · exact .inl h2
        · exact .inr ⟨h2, fun o ho ht => h3 o ho (.inl ht)⟩
      | succ j =>
        simp only [List.getElem?_cons_succ] at he
        have := checkEntries_ok h (by omega) j e' he
        rwa [show idx + 1 + j = idx + (j + 1) by omega] at this

theorem cutConflict_course {s s1 : Node P} {idx term : Nat} (hs : s.Shaped v) (hr : s.role = .follower)
    (hx : 1 ≤ idx → s.log.termAt idx ≠ term → ∃ frm g pi pt ph es c a e, inp = .msg frm ⟨g, s.term, .appReq pi pt ph es c a⟩ ∧ pi < idx ∧
      es[idx - pi - 1]? = some e ∧ s.log.termAt idx ≠ e.term) (h : s.cutConflict idx term = some s1) :
    Course v inp s s1 ∧ s1.role = .follower ∧ s1.lastApplied = s.lastApplied ∧
    ((s1 = s ∧ (s.log.termAt idx = 0 ∨ s.log.termAt idx = term)) ∨
     (s1.log.lastIdx + 1 = idx ∧ s1.log.oldest = s.log.oldest ∧ s1.log.lastIdx ≤ s.log.lastIdx ∧
      ∀ i, i < idx → s1.log.at? i = s.log.at? i)) := by
  unfold cutConflict at h
  by_cases hc : s.log.termAt idx ≠ 0 ∧ s.log.termAt idx ≠ term
  · rw [if_pos hc] at h
    by_cases h1 : idx ≤ s.commit
    · rw [if_pos h1] at h; cases h
    rw [if_neg h1] at h
    by_cases h2 : idx ≤ s.promise
    · rw [if_pos h2] at h; cases h
    rw [if_neg h2] at h
    obtain ⟨o, ho, _⟩ := termAt_ne_zero hc.1
    have hle := hs.le_last ho
    obtain ⟨c1, c2, c3, c4, c5⟩ := Shape.cut hs (max_lt (not_le.mp h1) (not_le.mp h2)) hle.2
    have hsome : s1 = ({ s with log := (s.log.cancelFrom idx).1 } : Node P).maybeChangeUncommitted := by
      generalize hq : s.log.cancelFrom idx = q at h c5
      obtain ⟨l, er⟩ := q
      simp only at c5
      subst c5
      simp only [Option.some.injEq] at h
      exact h.symm
    have a := Atom.cut (v := v) (inp := inp) s idx hr (not_le.mp h1) (not_le.mp h2) hc.1 (hx (by omega) hc.2)
    obtain ⟨u, m, f, heq⟩ := maybeChangeUncommitted_eq ({ s with log := (s.log.cancelFrom idx).1 } : Node P)
    have qa := Quiet.cut s (s.log.cancelFrom idx).1
    rw [← hsome] at a heq qa
    have hone := Shape.one hs
    refine ⟨a.course qa, by rw [heq]; exact hr, by rw [heq], .inr ⟨?_, ?_, ?_, ?_⟩⟩
    · rw [heq]; simp only; omega
    · rw [heq]; exact c3
    · rw [heq]; simp only; omega
    · rw [heq]; exact c4
  · rw [if_neg hc] at h
    cases h
    refine ⟨Course.refl _, hr, rfl, .inl ⟨rfl, ?_⟩⟩
    by_cases h0 : s.log.termAt idx = 0
    · exact .inl h0
    · exact .inr (by by_contra h1; exact hc ⟨h0, h1⟩)

theorem cutConflict_term {s s1 : Node P} {idx term : Nat} (h : s.cutConflict idx term = some s1) : s1.term = s.term := by
  unfold cutConflict at h
  split at h
  · split at h
    · cases h
    · split at h
      · cases h
      · split at h
        · cases h
        · rename_i l _
          obtain ⟨u, m, f, h1⟩ := maybeChangeUncommitted_eq ({ s with log := l } : Node P)
          rw [h1] at h
          cases h
          rfl
  · cases h; rfl

theorem logAppend_term {s s' : Node P} {e : Entry} {r} (h : s.logAppend v e = .ok (s', r)) : s'.term = s.term := by
  rcases logAppend_eq h with ⟨rfl, _⟩ | ⟨l, er, _, rfl, _⟩ | ⟨l, _, _, h2⟩
  · rfl
  · rfl
  · rcases h2 with ⟨rfl, _⟩ | ⟨_, _, _, _, h4⟩
    · rfl
    · obtain ⟨_, f, rfl⟩ := addUncommitted_eq h4
      rfl

theorem appendLoop_course {frm : P} {g t pi pt c a : Nat} {ph : Bytes} {all : List Entry}
    (hi : inp = .msg frm ⟨g, t, .appReq pi pt ph all c a⟩) (hb : pi + all.length + 1 < SZ) :
    ∀ {es : List Entry} {idx lp : Nat} {s s' : Node P} {lp' : Nat},
    es <:+ all → idx + es.length = pi + all.length + 1 → lp + 1 = idx → pi ≤ lp → s.Shaped v → s.term = t → s.role = .follower →
    idx ≤ s.log.lastIdx + 1 → (es ≠ [] → s.log.oldest ≤ idx) → s.Matches pi ph all lp →
    (∀ j e o, es[j]? = some e → s.log.at? (idx + j) = some o → e.term = o.term → e.hash = o.hash) →
    appendLoop v es idx lp s = .ok (s', lp') →
    Course v inp s s' ∧ s'.role = .follower ∧ s'.Matches pi ph all lp' ∧
      s'.log.lastIdx ≤ max s.log.lastIdx (pi + all.length)
  | [], idx, lp, s, s', lp', _, _, _, _, _, _, hr, _, _, hm, _, h => by
    simp only [appendLoop, Out.ok.injEq, Prod.mk.injEq] at h
    obtain ⟨rfl, rfl⟩ := h
    exact ⟨Course.refl _, hr, hm, le_max_left _ _⟩
  | e :: es, idx, lp, s, s', lp', hsuf, hlen, hlp, hpi, hs, htm, hr, hidx, hold, hm, hchk, h => by
    simp only [appendLoop] at h
    simp only [List.length_cons] at hlen
    have hold' := hold (by simp)
    have hnth : all[idx - pi - 1]? = some e := by
      obtain ⟨d, hd⟩ := hsuf
      have : all.length = d.length + (es.length + 1) := by rw [← hd]; simp
      rw [← hd, List.getElem?_append_right (by omega), show idx - pi - 1 - d.length = 0 by omega]
      rfl
    have hin : hashIn pi ph all idx = some e.hash := by
      unfold hashIn
      rw [if_neg (by omega), hnth]; rfl
    have hsuf' : es <:+ all := (List.suffix_cons e es).trans hsuf
    cases hcc : s.cutConflict idx e.term with
    | none =>
      rw [hcc] at h
      simp only [Out.ok.injEq, Prod.mk.injEq] at h
      obtain ⟨rfl, rfl⟩ := h
      exact ⟨Course.refl _, hr, hm, le_max_left _ _⟩
    | some s1 =>
      rw [hcc] at h
      simp only at h
      obtain ⟨st1, hr1, hap1, hcase⟩ := cutConflict_course (inp := inp) hs hr
        (fun _ h => ⟨frm, g, pi, pt, ph, all, c, a, e, by rw [htm]; exact hi, by omega, hnth, h⟩) hcc
      have htm1 : s1.term = t := (cutConflict_term hcc).trans htm
      have hs1 := st1.shaped hs
      have hlast1 : s1.log.lastIdx ≤ s.log.lastIdx := by
        rcases hcase with ⟨rfl, _⟩ | ⟨_, _, h3, _⟩
        · exact le_rfl
        · exact h3
      have hm1 : s1.Matches pi ph all lp := by
        rcases hcase with ⟨rfl, _⟩ | ⟨_, _, _, h4⟩
        · exact hm
        · obtain ⟨m1, m2, m3⟩ := hm
          refine ⟨m1, m2, ?_⟩
          rcases m3 with m3 | m3 | m3
          · exact .inl m3
          · exact .inr (.inl (by rw [hap1]; exact m3))
          · refine .inr (.inr ?_)
            rw [h4 lp (by omega)]
            exact m3
      by_cases hnew : idx = s1.log.lastIdx + 1
      · rw [if_pos hnew] at h
        have a1 := Atom.hash (v := v) (inp := inp) s1 s1.prevHash (hashInput v s1.log.nextIdx e.term e.inner)
        obtain ⟨hh, s2, hq⟩ : ∃ hh s2, s1.nextHash v e.term e.inner = (hh, s2) := ⟨_, _, rfl⟩
        rw [hq] at h
        simp only at h
        simp only [nextHash, Prod.mk.injEq] at hq
        obtain ⟨hhh, hs2⟩ := hq
        rw [hs2] at a1
        have hs2s := a1.shaped hs1
        have q1 : Quiet s1 s2 := by rw [← hs2]; exact ⟨rfl, rfl, rfl, rfl⟩
        have hlog2 : s2.log = s1.log := by rw [← hs2]
        have hap2 : s2.lastApplied = s1.lastApplied := by rw [← hs2]
        have htm2 : s2.term = t := by rw [← hs2]; exact htm1
        have hr2 : s2.role = .follower := by rw [← hs2]; exact hr1
        have hm2 : s2.Matches pi ph all lp := by
          unfold Matches at hm1 ⊢
          rw [hlog2, hap2]; exact hm1
        by_cases hct : ctEq hh e.hash = false
        · rw [if_pos hct] at h
          simp only [Out.ok.injEq, Prod.mk.injEq] at h
          obtain ⟨rfl, rfl⟩ := h
          exact ⟨st1.tail a1 q1, hr2, hm2, by rw [hlog2]; omega⟩
        rw [if_neg hct] at h
        obtain ⟨⟨s3, r⟩, h3, h⟩ := Out.bind_eq_ok.mp h
        have hhe : e.hash = v.hmac s2.prevHash (hashInput v s2.log.nextIdx e.term e.inner) := by
          have : hh = e.hash := (ctEq_iff _ _).mp (by simpa using hct)
          rw [← this, ← hhh, ← hs2]; rfl
        have hmem : (s2.prevHash, hashInput v s2.log.nextIdx e.term e.inner) ∈ s2.hashed := by
          rw [← hs2]
          exact List.mem_append_right _ (List.mem_singleton.mpr rfl)
        have hemem : pi ≤ s2.log.lastIdx ∧ all[s2.log.lastIdx - pi]? = some e := by
          rw [hlog2]
          refine ⟨by omega, ?_⟩
          rw [show s1.log.lastIdx - pi = idx - pi - 1 by omega]
          exact hnth
        have a2 : Atom v inp s2 s3 := Atom.append s2 s3 e r hhe hmem
          (.inr ⟨hr2, frm, g, t, pi, pt, ph, all, c, a, hi, hemem⟩) h3 (fun _ => ⟨frm, _, hi, htm2.symm⟩)
        have hs3 := a2.shaped hs2s
        have hl3 := logAppend_last hs2s h3
        have hrole3 : s3.role = .follower ∧ s3.lastApplied = s2.lastApplied := by
          rcases logAppend_eq h3 with ⟨rfl, _⟩ | ⟨l, er, _, rfl, _⟩ | ⟨l, _, _, h2⟩
          · exact ⟨hr2, rfl⟩
          · exact ⟨hr2, rfl⟩
          · rcases h2 with ⟨rfl, _⟩ | ⟨_, _, _, _, h4⟩
            · exact ⟨hr2, rfl⟩
            · obtain ⟨_, f, rfl⟩ := addUncommitted_eq h4
              exact ⟨hr2, rfl⟩
        simp only at h
        cases r with
        | error er =>
          simp only [Out.ok.injEq, Prod.mk.injEq] at h
          obtain ⟨rfl, rfl⟩ := h
          have hl3' : s3.log.lastIdx = s2.log.lastIdx := by
            rcases hl3 with ⟨⟨_, h5⟩, _⟩ | ⟨_, h5⟩
            · cases h5
            · exact h5
          refine ⟨(st1.tail a1 q1).tail a2 (.append h3), hrole3.1, ?_, by rw [hl3', hlog2]; omega⟩
          obtain ⟨m1, m2, m3⟩ := hm2
          refine ⟨m1, m2, ?_⟩
          rw [hrole3.2]
          rcases m3 with m3 | m3 | ⟨o, ho, m3⟩
          · exact .inl m3
          · exact .inr (.inl m3)
          · rcases logAppend_eq h3 with ⟨rfl, _⟩ | ⟨l, er', h5, rfl, _⟩ | ⟨l, _, h5, _⟩
            · exact .inr (.inr ⟨o, ho, m3⟩)
            · have h6 := (Shape.append hs2s h5).2.2.2.2.2 lp (hs2s.le_last ho).2 (by rw [ho]; simp)
              rcases h6 with h6 | h6
              · exact .inr (.inr ⟨o, by simp only; rw [h6, ho], m3⟩)
              · exact .inr (.inl (le_of_lt h6))
            · cases h5
        | ok loc =>
          simp only at h
          have hl3' : s3.log.lastIdx = s2.log.lastIdx + 1 := by
            rcases hl3 with ⟨_, h5⟩ | ⟨⟨_, h5⟩, _⟩
            · exact h5
            · cases h5
          rw [hlog2] at hl3'
          have hat : s3.log.at? idx = some e := by
            rcases logAppend_eq h3 with ⟨_, _, h5⟩ | ⟨l, er', h5, rfl, h6⟩ | ⟨l, h5, _, h2⟩
            · cases h5
            · cases h6
            · have h6 := ((Shape.append hs2s h5).2.2.2.2.1 rfl).1
              rw [hlog2, ← hnew] at h6
              rcases h2 with ⟨rfl, _⟩ | ⟨_, _, _, _, h4⟩
              · exact h6
              · obtain ⟨_, f, rfl⟩ := addUncommitted_eq h4
                exact h6
          rw [wadd_of_lt (by omega)] at h
          have hol3 := hs3.le_last hat
          obtain ⟨r1, r2, r3, r4⟩ := appendLoop_course hi hb hsuf' (by omega) (by omega) (by omega) hs3 ((logAppend_term h3).trans htm2) hrole3.1 (by omega)
            (fun _ => by omega) ⟨by omega, by omega, .inr (.inr ⟨e, hat, .inr hin⟩)⟩
            (by
              intro j e' o _ ho _
              have := (hs3.le_last ho).2
              omega) h
          refine ⟨((st1.tail a1 q1).tail a2 (.append h3)).trans r1, r2, r3, le_trans r4 ?_⟩
          have : s3.log.lastIdx ≤ pi + all.length := by omega
          omega
      · rw [if_neg hnew] at h
        rcases hcase with ⟨rfl, hterm⟩ | ⟨h2, _⟩
        swap
        · omega
        have hsome : (s1.log.at? idx).isSome := (Shape.at_iff hs idx).mpr ⟨hold', by omega⟩
        obtain ⟨o, ho⟩ := Option.isSome_iff_exists.mp hsome
        have hto : s1.log.termAt idx = o.term := by unfold Log.termAt; rw [ho]
        rw [wadd_of_lt (by omega)] at h
        obtain ⟨r1, r2, r3, r4⟩ := appendLoop_course hi hb hsuf' (by omega) (by omega) (by omega) hs htm1 hr (by omega)
          (fun _ => by omega) ⟨by omega, by omega, .inr (.inr ⟨o, ho, by
            rcases hterm with h0 | h0
            · exact .inl (by rw [← hto, h0])
            · right
              rw [hin, hchk 0 e o rfl ho (by rw [← hto, h0])]⟩)⟩
          (by
            intro j e' o' he' ho' ht'
            exact hchk (j + 1) e' o' he' (by rwa [show idx + (j + 1) = idx + 1 + j by omega]) ht') h
        exact ⟨r1, r2, r3, r4⟩

theorem appendLoop_term : ∀ {es : List Entry} {idx lp lp' : Nat} {s s' : Node P}, appendLoop v es idx lp s = .ok (s', lp') →
    s'.term = s.term
  | [], _, _, _, s, s', h => by cases h; rfl
  | e :: es, idx, lp, lp', s, s', h => by
    rw [appendLoop] at h
    split at h
    · cases h; rfl
    · rename_i s1 h1
      have e1 := cutConflict_term h1
      split at h
      · simp only at h
        split at h
        · cases h; exact e1
        · obtain ⟨⟨s2, r⟩, h2, h⟩ := Out.bind_eq_ok.mp h
          have e2 := logAppend_term h2
          simp only at h
          split at h
          · cases h; exact e2.trans e1
          · exact (appendLoop_term h).trans (e2.trans e1)
      · exact (appendLoop_term h).trans e1

theorem acceptAppend_course {g pi pt c a : Nat} {ph : Bytes} {all : List Entry} {s s' : Node P} {lp : Nat} {frm : P}
    (hi : inp = .msg frm ⟨g, s.term, .appReq pi pt ph all c a⟩) (hlp : lp ≤ pi + all.length) (h : s.acceptAppend lp frm = .ok s') :
    Course v inp s s' ∧ s'.log = s.log := by
  refine ⟨(Atom.send s s' _ _ ?_ h ⟨frm, g, pi, pt, ph, all, c, a, hi, rfl, hlp⟩).course (.send h), ?_⟩
  · exact ⟨rfl, rfl, rfl, fun _ => ⟨Nat.min_le_left _ _, Nat.min_le_right _ _, rfl⟩⟩
  · rcases addSendable_eq h with h5 | ⟨h5, _⟩ <;> rw [h5]

theorem rejectAppend_course {s s' : Node P} {frm : P} (h : s.rejectAppend frm = .ok s') :
    Course v inp s s' ∧ s'.log = s.log := by
  refine ⟨(Atom.send s s' _ _ ?_ h trivial).course (.send h), ?_⟩
  · exact ⟨rfl, rfl, rfl, fun h => by cases h⟩
  · rcases addSendable_eq h with h5 | ⟨h5, _⟩ <;> rw [h5]

theorem finishAppend_course {frm : P} {g t pi pt c a lp : Nat} {ph : Bytes} {all : List Entry} {s s' : Node P}
    (hi : inp = .msg frm ⟨g, t, .appReq pi pt ph all c a⟩) (ht : s.term = t) (hca : c ≤ a) (hr : s.role = .follower)
    (hm : s.Matches pi ph all lp) (h : s.finishAppend v lp c a frm = .ok s') : Course v inp s s' ∧ s'.log = s.log := by
  unfold finishAppend at h
  by_cases hu : min c lp > s.commit ∨ min a lp > s.promise
  · rw [if_pos hu] at h
    obtain ⟨⟨s1, ok⟩, h1, h⟩ := Out.bind_eq_ok.mp h
    have hv := verifyMerkle_course (inp := inp) h1
    obtain ⟨w, rfl⟩ := verifyMerkle_eq h1
    simp only at h
    cases ok with
    | false =>
      simp only [Bool.not_false, if_true, Out.ok.injEq] at h
      subst h
      exact ⟨hv, rfl⟩
    | true =>
      simp only [Bool.not_true, Bool.false_eq_true, if_false] at h
      obtain ⟨s2, h2, h⟩ := Out.bind_eq_ok.mp h
      have hf := Atom.follow (v := v) (inp := inp) { s with walks := w } frm g t pi pt ph all c a lp hi hr hca hm
      obtain ⟨ha, w', hw⟩ := verifyMerkle_true h1
      have hu2 := updateMerkle_atom (v := v) (inp := inp) h2
      have hl2 : (({ s with walks := w } : Node P).followLeader (min c lp) (min a lp)).log = s.log := by
        obtain ⟨u, m, f, heq⟩ := followLeader_eq { s with walks := w } (min c lp) (min a lp)
        rw [heq]
      have ht2 : s2.term = t := by
        obtain ⟨_, _, _, _, rfl⟩ := updateMerkle_eq h2
        obtain ⟨u, m, f, heq⟩ := followLeader_eq { s with walks := w } (min c lp) (min a lp)
        rw [heq]
        exact ht
      obtain ⟨b1, b2⟩ := acceptAppend_course (v := v) (ht2.symm ▸ hi) hm.2.1 h
      refine ⟨(hv.moved hf hl2 h2 hu2 ha w' hw).trans b1, ?_⟩
      obtain ⟨_, _, _, _, rfl⟩ := updateMerkle_eq h2
      rw [b2]
      obtain ⟨u, m, f, heq⟩ := followLeader_eq { s with walks := w } (min c lp) (min a lp)
      rw [heq]
  · rw [if_neg hu] at h
    exact acceptAppend_course (by rw [ht]; exact hi) hm.2.1 h

theorem followAppend_course {frm : P} {m : Msg} {pi pt c a : Nat} {ph : Bytes} {all : List Entry} {s s' : Node P} {lok : Bool}
    (hi : inp = .msg frm m) (hbody : m.body = .appReq pi pt ph all c a) (hb : pi + all.length + 1 < SZ)
    (hca : c ≤ a) (hs : s.Shaped v)
    (hprev : s.checkLogHash pi pt ph = .ok none) (hent : s.checkEntries all (wadd pi 1) = .ok none)
    (hlok : lok = s.logOk pi pt)
    (h : s.followAppend v m.term pi lok all c a frm = .ok s') :
    Course v inp s s' ∧ s'.log.lastIdx ≤ s.log.lastIdx + all.length := by
  unfold followAppend at h
  by_cases hrej : m.term < s.term ∨ (m.term = s.term ∧ s.role = .follower ∧ lok = false)
  · rw [if_pos hrej] at h
    obtain ⟨a1, a2⟩ := rejectAppend_course (v := v) (inp := inp) h
    exact ⟨a1, by rw [a2]; omega⟩
  rw [if_neg hrej] at h
  obtain ⟨_, c1, h⟩ := Out.bind_eq_ok.mp h
  obtain ⟨_, c2, h⟩ := Out.bind_eq_ok.mp h
  obtain ⟨_, c3, h⟩ := Out.bind_eq_ok.mp h
  obtain ⟨⟨s1, lp⟩, h1, h⟩ := Out.bind_eq_ok.mp h
  simp only at h
  have hr : s.role = .follower := by simpa using Out.check_eq_ok.mp c2
  have hok : s.logOk pi pt = true := by rw [← hlok]; exact Out.check_eq_ok.mp c3
  simp only [logOk, Bool.or_eq_true, Bool.and_eq_true, decide_eq_true_eq] at hok
  have hi' : inp = .msg frm ⟨m.group, m.term, .appReq pi pt ph all c a⟩ := by rw [hi, ← hbody]
  rw [wadd_of_lt (by omega)] at h1 hent
  have hone := Shape.one hs
  have hm0 : s.Matches pi ph all pi ∧ pi ≤ s.log.lastIdx ∧ (pi ≠ 0 → s.log.oldest ≤ pi) := by
    rcases hok with h0 | ⟨h1, h2⟩
    · subst h0
      exact ⟨⟨le_rfl, by omega, .inl rfl⟩, by omega, by simp⟩
    · obtain ⟨o, ho⟩ := Option.isSome_iff_exists.mp h1
      have hle := hs.le_last ho
      refine ⟨⟨le_rfl, by omega, .inr (.inr ⟨o, ho, .inr ?_⟩)⟩, hle.2, fun _ => hle.1⟩
      have hto : s.log.termAt pi = o.term := by unfold Log.termAt; rw [ho]
      have : hashIn pi ph all pi = some ph := by unfold hashIn; rw [if_pos rfl]
      rw [this]
      rcases checkLogHash_ok hprev with h0 | ⟨_, h3⟩
      · omega
      · rw [h3 o ho (.inl (by rw [h2, hto]))]
  obtain ⟨hm0, hpl, hpo⟩ := hm0
  have hchk := checkEntries_ok hent (by omega)
  obtain ⟨r1, r2, r3, r4⟩ := appendLoop_course hi' hb (List.suffix_refl all) (by omega) rfl le_rfl hs
    (of_decide_eq_true (Out.check_eq_ok.mp c1)).symm hr (by omega)
    (by
      intro hne
      obtain ⟨e, he⟩ : ∃ e, all[0]? = some e := by
        cases hal : all with
        | nil => exact absurd hal hne
        | cons e t => exact ⟨e, rfl⟩
      rcases hchk 0 e he with h0 | ⟨h0, _⟩
      · omega
      · unfold Log.oldestIdx at h0
        split at h0
        · rename_i he0
          have := Shape.empty hs (by simpa using he0)
          omega
        · exact h0) hm0
    (by
      intro j e o he ho ht
      rcases hchk j e he with h0 | ⟨_, h0⟩
      · omega
      · exact h0 o ho ht) h1
  obtain ⟨f1, f2⟩ := finishAppend_course hi' ((appendLoop_term h1).trans (of_decide_eq_true (Out.check_eq_ok.mp c1)).symm) hca r2 r3 h
  exact ⟨r1.trans f1, by rw [f2]; omega⟩

theorem checkLogHash_congr {s s' : Node P} (hl : s'.log = s.log) (hp : s'.promise = s.promise) (i t : Nat) (h : Bytes) :
    s'.checkLogHash i t h = s.checkLogHash i t h := by
  unfold checkLogHash
  rw [hl, hp]

theorem checkEntries_congr {s s' : Node P} (hl : s'.log = s.log) (hp : s'.promise = s.promise) :
    ∀ (es : List Entry) (i : Nat), s'.checkEntries es i = s.checkEntries es i
  | [], _ => rfl
  | e :: es, i => by
    simp only [checkEntries]
    rw [checkLogHash_congr hl hp]
    congr 1
    funext q
    cases q with
    | some _ => rfl
    | none => exact checkEntries_congr hl hp es _

theorem handleAppendRequest_course {frm : P} {m : Msg} {pi pt c a : Nat} {ph : Bytes} {all : List Entry} {s s' : Node P}
    (hi : inp = .msg frm m) (hbody : m.body = .appReq pi pt ph all c a) (hb : pi + all.length + 1 < SZ)
    (hca : c ≤ a) (hs : s.Shaped v)
    (hprev : s.checkLogHash pi pt ph = .ok none) (hent : s.checkEntries all (wadd pi 1) = .ok none)
    (h : s.handleAppendRequest v m.term pi pt all c a frm = .ok s') :
    Course v inp s s' ∧ s'.log.lastIdx ≤ s.log.lastIdx + all.length := by
  unfold handleAppendRequest at h
  by_cases h0 : m.term > s.term
  · rw [if_pos h0] at h
    simp only [Out.ok.injEq] at h; subst h; exact ⟨Course.refl s, by omega⟩
  rw [if_neg h0] at h
  by_cases h1 : m.term = s.term
  · rw [if_pos h1] at h
    obtain ⟨q, h2, h⟩ := Out.bind_eq_ok.mp h
    cases q with
    | none => simp only [Out.ok.injEq] at h; subst h; exact ⟨Course.refl s, by omega⟩
    | some s1 =>
      simp only at h
      have hst : Course v inp s s1 ∧ s1.log = s.log ∧ s1.promise = s.promise := by
        unfold becomeFollower at h2
        split at h2
        · obtain ⟨⟨t, s2⟩, h3, h2⟩ := Out.bind_eq_ok.mp h2
          simp only [Out.ok.injEq, Option.some.injEq] at h2
          subst h2
          have h4 := randomElection_eq h3
          subst h4
          exact ⟨(Atom.demote s).course.trans (Atom.course (Atom.misc _ _ _ _ _ _ _ _ _ _ _ (Or.inl rfl) (Or.inr ⟨frm, m.group, pi, pt, ph, all, c, a, (by rw [hi, ← hbody]; show Inp.msg frm m = .msg frm ⟨m.group, s.term, m.body⟩; rw [← h1]), rfl⟩))), rfl, rfl⟩
        · obtain ⟨⟨t, s2⟩, h3, h2⟩ := Out.bind_eq_ok.mp h2
          simp only [Out.ok.injEq, Option.some.injEq] at h2
          subst h2
          have h4 := randomElection_eq h3
          subst h4
          exact ⟨(Atom.course (Atom.misc _ _ _ _ _ _ _ _ _ _ _ (Or.inl rfl) (Or.inr ⟨frm, m.group, pi, pt, ph, all, c, a, (by rw [hi, ← hbody]; show Inp.msg frm m = .msg frm ⟨m.group, s.term, m.body⟩; rw [← h1]), rfl⟩))), rfl, rfl⟩
        · simp at h2
      obtain ⟨st, hl, hp⟩ := hst
      obtain ⟨f1, f2⟩ := followAppend_course hi hbody hb hca (st.shaped hs) (by rw [checkLogHash_congr hl hp]; exact hprev)
        (by rw [checkEntries_congr hl hp]; exact hent) (by unfold logOk; rw [hl]) h
      exact ⟨st.trans f1, by rw [hl] at f2; exact f2⟩
  · rw [if_neg h1] at h
    exact followAppend_course hi hbody hb hca hs hprev hent rfl h

theorem handleAppendResponse_course {frm : P} {m : Msg} {ok : Bool} {mt l a : Nat} {hh : Bytes} {s s' : Node P}
    (hi : inp = .msg frm m) (hbody : m.body = .appResp ok mt l a hh) (hs : s.Shaped v)
    (hchk : s.checkLogHash mt 0 hh = .ok none)
    (h : s.handleAppendResponse v m.term ok mt l a hh frm = .ok s') : Course v inp s s' ∧ s'.log = s.log := by
  unfold handleAppendResponse at h
  by_cases h0 : m.term ≠ s.term
  · rw [if_pos h0] at h
    simp only [Out.ok.injEq] at h; subst h; exact ⟨Course.refl s, rfl⟩
  rw [if_neg h0] at h
  by_cases hr : s.role ≠ .leader
  · rw [if_pos hr] at h
    simp only [Out.ok.injEq] at h; subst h; exact ⟨Course.refl s, rfl⟩
  rw [if_neg hr] at h
  cases hf : s.followers.find frm with
  | none => rw [hf] at h; simp only [Out.ok.injEq] at h; subst h; exact ⟨Course.refl s, rfl⟩
  | some r =>
    rw [hf] at h
    simp only at h
    cases ok with
    | true =>
      simp only [if_true] at h
      obtain ⟨_, hc, h⟩ := Out.bind_eq_ok.mp h
      have hc := Out.check_eq_ok.mp hc
      simp only [Out.ok.injEq] at h
      subst h
      have hm : m = ⟨m.group, s.term, .appResp true mt l a hh⟩ := by rw [← not_not.mp h0, ← hbody]
      refine ⟨(Atom.ack s frm m.group mt l a hh r (by rw [hi, ← hm]) (not_not.mp hr) hf ?_).course, rfl⟩
      by_cases hz : mt = 0
      · exact .inl hz
      right
      cases ha : s.log.at? mt with
      | some e =>
        rw [ha] at hc
        exact ⟨e, rfl, ((ctEq_iff _ _).mp hc).symm⟩
      | none =>
        rw [ha] at hc
        simp only [decide_eq_true_eq] at hc
        exfalso
        rcases checkLogHash_ok hchk with h1 | ⟨h1, _⟩
        · exact hz h1
        · have : (s.log.at? mt).isSome := (Shape.at_iff hs mt).mpr ⟨by
            unfold Log.oldestIdx at h1
            split at h1
            · rename_i he0
              unfold Log.lastIdx at hc
              rw [if_pos he0] at hc
              omega
            · exact h1, hc⟩
          rw [ha] at this
          cases this
    | false =>
      simp only [Bool.false_eq_true, if_false, Out.ok.injEq] at h
      subst h
      refine ⟨(Atom.table s _ (fun q => ?_)).course, rfl⟩
      rw [OMap.find_insert]
      by_cases hq : frm = q
      · subst hq
        rw [if_pos rfl]
        refine ⟨fun h0 => (by rw [hf] at h0; cases h0), fun r' hr' => ?_⟩
        rw [hf] at hr'
        cases hr'
        exact ⟨_, rfl, rfl, rfl⟩
      · rw [if_neg hq]
        exact ⟨fun h => h, fun r' hr' => ⟨r', hr', rfl, rfl⟩⟩

theorem updateTerm_course {frm : P} {m : Msg} {s s' : Node P} (hi : inp = .msg frm m) (h : s.updateTerm v m.term = .ok s') :
    Course v inp s s' ∧ s'.log = s.log ∧ s'.promise = s.promise ∧ s'.term = max s.term m.term := by
  unfold updateTerm at h
  by_cases ht : m.term ≤ s.term
  · rw [if_pos ht] at h
    simp only [Out.ok.injEq] at h; subst h; exact ⟨Course.refl s, rfl, rfl, by omega⟩
  rw [if_neg ht] at h
  obtain ⟨⟨t', s1⟩, h1, h⟩ := Out.bind_eq_ok.mp h
  simp only [Out.ok.injEq] at h
  subst h
  have : ∃ r, s1 = { s with term := m.term, rng := r } := by
    unfold keptTicks at h1
    split at h1
    · simp only [Out.ok.injEq, Prod.mk.injEq] at h1; exact ⟨s.rng, h1.2.symm⟩
    · simp only [Out.ok.injEq, Prod.mk.injEq] at h1; exact ⟨s.rng, h1.2.symm⟩
    · exact ⟨_, randomElection_eq h1⟩
  obtain ⟨r, rfl⟩ := this
  exact ⟨(Atom.raise s m.term (by omega) ⟨frm, m, hi, rfl⟩).course.trans miscTo, rfl, rfl, by
    show m.term = max s.term m.term
    omega⟩

theorem markSeen_course (s : Node P) (frm : P) :
    Course v inp s (s.markSeen frm) ∧ (s.markSeen frm).log = s.log ∧ (s.markSeen frm).promise = s.promise ∧
      (s.markSeen frm).term = s.term := by
  unfold markSeen
  split
  · split
    · rename_i r hf
      refine ⟨(Atom.table s _ (fun q => ?_)).course, rfl, rfl, rfl⟩
      rw [OMap.find_insert]
      by_cases hq : frm = q
      · subst hq
        rw [if_pos rfl]
        refine ⟨fun h0 => (by rw [hf] at h0; cases h0), fun r' hr' => ?_⟩
        rw [hf] at hr'
        cases hr'
        exact ⟨_, rfl, rfl, rfl⟩
      · rw [if_neg hq]
        exact ⟨fun h => h, fun r' hr' => ⟨r', hr', rfl, rfl⟩⟩
    · exact ⟨Course.refl s, rfl, rfl, rfl⟩
  · exact ⟨Course.refl s, rfl, rfl, rfl⟩

/-- How many entries a message has. -/
def Msg.entryCount (m : Msg) : Nat :=
  match m.body with
  | .appReq _ _ _ es _ _ => es.length
  | _ => 0

theorem dispatch_course {frm : P} {m : Msg} {s s' s0 : Node P} (hi : inp = .msg frm m) (hs : s.Shaped v)
    (hb : s.log.lastIdx + Msg.entryCount m + 1 < SZ) (ht : s.term + 1 < SZ) (hval : s0.validate m frm = .ok none)
    (hl : s.log = s0.log) (hp : s.promise = s0.promise) (h : s.dispatch v m frm = .ok s') :
    Course v inp s s' ∧ s'.log.lastIdx ≤ s.log.lastIdx + Msg.entryCount m := by
  unfold validate at hval
  by_cases hg : m.group ≠ s0.group
  · rw [if_pos hg] at hval; cases hval
  rw [if_neg hg] at hval
  by_cases hm : frm ∉ s0.membership.all
  · rw [if_pos hm] at hval; cases hval
  rw [if_neg hm] at hval
  unfold dispatch at h
  cases hbody : m.body with
  | voteReq i lt hh =>
    rw [hbody] at h
    obtain ⟨a, b⟩ := handleVoteRequest_course hi hbody h
    exact ⟨a, by rw [b]; omega⟩
  | voteResp g =>
    rw [hbody] at h
    simp only at h
    split at h
    · simp only [Out.ok.injEq] at h; subst h; exact ⟨Course.refl s, by omega⟩
    · simp only [Out.ok.injEq] at h; subst h
      obtain ⟨a, b⟩ := handleVoteResponse_course (v := v) (s := s) hi hbody
      exact ⟨a, by rw [b]; omega⟩
  | appReq pi pt ph all c a =>
    rw [hbody] at h hval
    simp only at h hval
    have hec : Msg.entryCount m = all.length := by unfold Msg.entryCount; rw [hbody]
    obtain ⟨q, h1, hval⟩ := Out.bind_eq_ok.mp hval
    cases q with
    | some _ => simp only at hval; cases hval
    | none =>
      simp only at hval
      split at hval
      · cases hval
      split at hval
      · cases hval
      split at hval
      · cases hval
      rename_i _ _ hca
      rw [hec] at hb ⊢
      by_cases hpi : pi ≤ s.log.lastIdx
      · exact handleAppendRequest_course hi hbody (by omega) (by omega) hs (by rw [checkLogHash_congr hl hp]; exact h1)
          (by rw [checkEntries_congr hl hp]; exact hval) h
      · -- the request does not fit this log: it is refused
        have hat : s.log.at? pi = none := by
          cases ha : s.log.at? pi with
          | none => rfl
          | some o => exact absurd (hs.le_last ha).2 hpi
        have hno : s.logOk pi pt = false := by
          unfold logOk
          rw [hat]
          simp; omega
        unfold handleAppendRequest at h
        by_cases h0 : m.term > s.term
        · rw [if_pos h0] at h
          simp only [Out.ok.injEq] at h; subst h; exact ⟨Course.refl s, by omega⟩
        rw [if_neg h0] at h
        by_cases h1 : m.term = s.term
        · rw [if_pos h1] at h
          obtain ⟨q, h2, h⟩ := Out.bind_eq_ok.mp h
          cases q with
          | none => simp only [Out.ok.injEq] at h; subst h; exact ⟨Course.refl s, by omega⟩
          | some s1 =>
            simp only at h
            have hst : Course v inp s s1 ∧ s1.log = s.log ∧ s1.role = .follower ∧ s1.term = s.term := by
              unfold becomeFollower at h2
              split at h2
              · obtain ⟨⟨t, s2⟩, h3, h2⟩ := Out.bind_eq_ok.mp h2
                simp only [Out.ok.injEq, Option.some.injEq] at h2
                subst h2
                have h4 := randomElection_eq h3
                subst h4
                exact ⟨(Atom.demote s).course.trans (Atom.course (Atom.misc _ _ _ _ _ _ _ _ _ _ _ (Or.inl rfl) (Or.inr ⟨frm, m.group, pi, pt, ph, all, c, a, (by rw [hi, ← hbody]; show Inp.msg frm m = .msg frm ⟨m.group, s.term, m.body⟩; rw [← h1]), rfl⟩))), rfl, rfl, rfl⟩
              · rename_i hrole
                obtain ⟨⟨t, s2⟩, h3, h2⟩ := Out.bind_eq_ok.mp h2
                simp only [Out.ok.injEq, Option.some.injEq] at h2
                subst h2
                have h4 := randomElection_eq h3
                subst h4
                exact ⟨(Atom.course (Atom.misc _ _ _ _ _ _ _ _ _ _ _ (Or.inl rfl) (Or.inr ⟨frm, m.group, pi, pt, ph, all, c, a, (by rw [hi, ← hbody]; show Inp.msg frm m = .msg frm ⟨m.group, s.term, m.body⟩; rw [← h1]), rfl⟩))), rfl, hrole, rfl⟩
              · simp at h2
            obtain ⟨st, hl1, hr1, ht1⟩ := hst
            unfold followAppend at h
            rw [if_pos (.inr ⟨by rw [ht1]; exact h1, hr1, hno⟩)] at h
            obtain ⟨a1, a2⟩ := rejectAppend_course (v := v) (inp := inp) h
            exact ⟨st.trans a1, by rw [a2, hl1]; omega⟩
        · rw [if_neg h1] at h
          unfold followAppend at h
          rw [if_pos (.inl (by omega))] at h
          obtain ⟨a1, a2⟩ := rejectAppend_course (v := v) (inp := inp) h
          exact ⟨a1, by rw [a2]; omega⟩
  | appResp ok mt l a hh =>
    rw [hbody] at h hval
    simp only at h hval
    obtain ⟨q, h1, hval⟩ := Out.bind_eq_ok.mp hval
    cases q with
    | some _ => simp only at hval; cases hval
    | none =>
      split at h
      · simp only [Out.ok.injEq] at h; subst h; exact ⟨Course.refl s, by omega⟩
      · obtain ⟨a, b⟩ := handleAppendResponse_course hi hbody hs (by rw [checkLogHash_congr hl hp]; exact h1) h
        exact ⟨a, by rw [b]; omega⟩
  | timeoutNow =>
    rw [hbody] at h
    simp only at h
    split at h
    · simp only [Out.ok.injEq] at h; subst h; exact ⟨Course.refl s, by omega⟩
    · obtain ⟨a, b⟩ := electionTimeout_course (inp := inp) ht h
      exact ⟨a, by rw [b]; omega⟩
  | notSet =>
    rw [hbody] at h
    simp only [Out.ok.injEq] at h; subst h; exact ⟨Course.refl s, by omega⟩

/-- The numbers stay below 2^64 when a message is handled. -/
def Fits (s : Node P) (m : Msg) : Prop :=
  s.log.lastIdx + Msg.entryCount m + 2 < SZ ∧ s.term + 1 < SZ ∧ m.term + 1 < SZ

theorem receive_course {frm : P} {m : Msg} {s s' : Node P} (hs : s.Shaped v) (hf : Fits s m)
    (h : s.receive v m frm = .ok s') : Course v (.msg frm m) s s' := by
  obtain ⟨hf1, hf2, hf3⟩ := hf
  obtain ⟨q, h0, h⟩ := Out.bind_eq_ok.mp h
  cases q with
  | some e => simp only [Out.ok.injEq] at h; subst h; exact Course.refl s
  | none =>
    simp only at h
    obtain ⟨s1, h1, h⟩ := Out.bind_eq_ok.mp h
    obtain ⟨s2, h2, h⟩ := Out.bind_eq_ok.mp h
    obtain ⟨a1, a2, a3, a4⟩ := updateTerm_course (inp := .msg frm m) rfl h1
    obtain ⟨b1, b2, b3, b4⟩ := markSeen_course (v := v) (inp := .msg frm m) s1 frm
    obtain ⟨c1, c2⟩ := dispatch_course (s0 := s) rfl (b1.shaped (a1.shaped hs)) (by rw [b2, a2]; omega)
      (by rw [b4, a4]; omega) h0 (by rw [b2, a2]) (by rw [b3, a3]) h2
    rw [b2, a2] at c2
    exact a1.trans (b1.trans (c1.trans (maybeChangeState_course (c1.shaped (b1.shaped (a1.shaped hs))) (by omega) h)))

end Svr.Raft.Node
