import Verif.Raft.Sync2

/-!
# A leader sends its log and counts
-/

namespace Svr.Raft
open Node
variable {P : Type} [LinearOrder P]
variable {v : Env P} {s s' : Node P} {L : List Entry}

/-- What is asked of the leader. -/
structure Lead (L : List Entry) (s : Node P) : Prop where
  role : s.role = .leader
  stays : s.relinquishing = false
  log : LogOf s.log L
  unc : s.uncommitted = []
  le : s.commit ≤ s.promise
  marks : ∀ p r, s.followers.find p = some r → r.promise ≤ r.mtch
  agrees : s.Agrees

/-- The leader has become no other. -/
structure Leads' (s s' : Node P) : Prop extends Same s s' where
  log : s'.log = s.log
  term : s'.term = s.term
  role : s'.role = s.role
  stays : s'.relinquishing = s.relinquishing

theorem Leads'.refl (s : Node P) : Leads' s s := ⟨Same.refl s, rfl, rfl, rfl, rfl⟩

theorem Leads'.trans {s1 s2 s3 : Node P} (h : Leads' s1 s2) (k : Leads' s2 s3) : Leads' s1 s3 :=
  ⟨h.toSame.trans k.toSame, k.log.trans h.log, k.term.trans h.term, k.role.trans h.role, k.stays.trans h.stays⟩

/-- What the leader's table says about a follower's progress. -/
def course (r : Repl) : Nat × Nat × Nat × Bool := (r.next, r.mtch, r.promise, r.probe)

/-- And what about a request on its way. -/
def course' (r : Repl) : (Nat × Nat × Nat × Bool) × Option Nat := (course r, r.inflight)

/-- The request for a follower that has the log up to `i`, with `n` entries. -/
def request (s : Node P) (L : List Entry) (i n : Nat) : Msg :=
  ⟨s.group, s.term, .appReq i (termOf L i) (hashOf L i) ((L.drop i).take n) (min s.commit (i + n)) (min s.promise (i + n))⟩

theorem gather_line {z : Sizes} {l : Log} (h : LogOf l L) (chunk : Nat) : ∀ (n i total : Nat), l.oldest ≤ i + 1 → ∃ k,
    gather z l chunk n (i + 1) total = (L.drop i).take k ∧ k ≤ n ∧ i + k ≤ max i L.length ∧ (0 < n → i < L.length → 0 < k)
  | 0, i, _, _ => ⟨0, by simp [gather], le_refl _, by omega, fun h => by omega⟩
  | n + 1, i, total, ho => by
    unfold gather
    rw [h.at? ho, Nat.add_sub_cancel]
    by_cases hi : i < L.length
    · rw [List.getElem?_eq_getElem hi]
      simp only
      have hd : L.drop i = L[i] :: L.drop (i + 1) := List.drop_eq_getElem_cons hi
      split
      · exact ⟨1, by rw [hd, List.take_succ_cons, List.take_zero], by omega, by omega, fun _ _ => by omega⟩
      · obtain ⟨k, h1, h2, h3, _⟩ := gather_line h chunk n (i + 1) (total + z.bytes L[i]) (by omega)
        refine ⟨k + 1, ?_, by omega, by omega, fun _ _ => by omega⟩
        rw [h1, hd, List.take_succ_cons]
    · rw [List.getElem?_eq_none (by omega)]
      exact ⟨0, by simp, by omega, by omega, fun _ h => absurd h hi⟩

theorem Lead.message (h : Lead L s) (hL : Line v L) {i : Nat} (hi : i ≤ L.length) (hm : s.log.oldest ≤ max 1 i) (b : Bool) : ∃ n,
    s.appendMessage v (i + 1) b = some (request s L i n, i + n) ∧ i + n ≤ L.length ∧ (b = true → i < L.length → 0 < n) := by
  have hsz := hL.size
  have ho : i = 0 ∨ s.log.oldest ≤ i := by omega
  have hone := h.log.one
  have hle := h.log.le
  have hw : wsub (i + 1) 1 = i := by rw [wsub_of_le (by omega) (by omega)]; omega
  have e1 : (if i = 0 then 0 else s.log.termAt i) = termOf L i := by
    rw [h.log.termAt' ho]
    unfold termOf
    split <;> rfl
  have e2 : (if i = 0 then [] else match s.log.at? i with
      | some e => e.hash
      | none => []) = hashOf L i := by
    have := h.log.hashAt ho
    split
    · rename_i h0
      unfold hashOf
      rw [if_pos h0]
    · rw [← this]
      cases s.log.at? i <;> rfl
  have e3 : ¬ (termOf L i = 0 ∧ i ≠ 0) := by
    rintro ⟨h1, h2⟩
    obtain ⟨e, he⟩ : ∃ e, L[i - 1]? = some e := ⟨_, List.getElem?_eq_getElem (show i - 1 < L.length by omega)⟩
    have h3 := termOf_succ he
    rw [show i - 1 + 1 = i by omega] at h3
    exact (hL.chain _ _ he).term (by omega)
  have hold : s.log.oldest ≤ i + 1 := by omega
  obtain ⟨k, g1, g2, g3, g4⟩ := gather_line (z := v.z) h.log s.cfg.chunkBytes (s.log.lastIdx + 1 - (i + 1)) i 0 hold
  have hk : ((L.drop i).take k).length = k := by rw [List.length_take, List.length_drop]; omega
  unfold appendMessage
  simp only
  rw [hw, e1]
  cases b with
  | false =>
    refine ⟨0, ?_, by omega, fun hx => by cases hx⟩
    rw [if_neg e3]
    simp only [Bool.false_eq_true, if_false, request, List.take_zero, Nat.add_zero]
    rw [← e2]
    cases s.log.at? i <;> rfl
  | true =>
    refine ⟨k, ?_, by omega, fun _ hx => g4 (by rw [h.log.lastIdx]; omega) hx⟩
    rw [if_neg e3]
    simp only [if_true, request]
    rw [g1, hk, wadd_of_lt (by omega), ← e2]
    cases s.log.at? i <;> rfl

theorem course_find {f f' : OMap P Repl} (h : ∀ x, (f'.find x).map course = (f.find x).map course) {p : P} {r : Repl} (hr : f.find p = some r) :
    ∃ r', f'.find p = some r' ∧ course r' = course r := by
  have := h p
  rw [hr] at this
  simp only [Option.map_some, Option.map_eq_some_iff] at this
  exact this

theorem Lead.keeps (h : Lead L s) {f : OMap P Repl} (hf : ∀ x, (f.find x).map course = (s.followers.find x).map course) (l) :
    Lead L { s with followers := f, sendable := l } := by
  refine ⟨h.role, h.stays, h.log, h.unc, h.le, ?_, h.agrees⟩
  intro p r hr
  obtain ⟨r', h1, h2⟩ := course_find (fun x => (hf x).symm) hr
  have := h.marks p r' h1
  simp only [course, Prod.mk.injEq] at h2
  omega

theorem appendEntries_rows {p : P} (k : s.appendEntries v p = .ok s') : ∃ f l, s' = { s with followers := f, sendable := s.sendable ++ l } ∧
    (∀ x, x ≠ p → f.find x = s.followers.find x) ∧ ∀ x, (f.find x).map course = (s.followers.find x).map course := by
  have same : ∃ f l, s = { s with followers := f, sendable := s.sendable ++ l } ∧ (∀ x, x ≠ p → f.find x = s.followers.find x) ∧
      ∀ x, (f.find x).map course = (s.followers.find x).map course :=
    ⟨s.followers, [], by rw [List.append_nil], fun _ _ => rfl, fun _ => rfl⟩
  unfold appendEntries at k
  split at k
  · cases k; exact same
  split at k
  · cases k; exact same
  rename_i r hr
  split at k
  · cases k; exact same
  split at k
  · cases k; exact same
  split at k
  · cases k; exact same
  rename_i m last hm
  have rows : (∀ x, x ≠ p → (s.followers.insert p { r with hb := false, upd := false, inflight := some last }).find x = s.followers.find x) ∧
      ∀ x, ((s.followers.insert p { r with hb := false, upd := false, inflight := some last }).find x).map course =
        (s.followers.find x).map course := by
    refine ⟨fun x hx => OMap.find_insert_ne _ _ hx.symm, fun x => ?_⟩
    rw [OMap.find_insert]
    split
    · rename_i e
      rw [← e, hr]
      rfl
    · rfl
  rcases addSendable_eq k with e | ⟨e, _⟩
  · exact ⟨_, [], by rw [e, List.append_nil], rows⟩
  · exact ⟨_, [(some p, m)], e, rows⟩

/-- A follower to which nothing is on its way gets what is due. -/
theorem Lead.sends (h : Lead L s) (hL : Line v L) {p : P} {r : Repl} {i : Nat} (hp : p ≠ s.me) (hr : s.followers.find p = some r)
    (hn : r.next = i + 1) (hf : r.inflight = none) (hd : r.probe = true ∨ i < L.length) (hi : i ≤ L.length) (ho : s.log.oldest ≤ max 1 i)
    (k : s.appendEntries v p = .ok s') :
    ∃ n r', (some p, request s L i n) ∈ s'.sendable ∧ i + n ≤ L.length ∧ (r.probe = false → i < L.length → 0 < n) ∧
      s'.followers.find p = some r' ∧ r'.inflight = some (i + n) := by
  have hnext : nextToSend r = i + 1 := by
    unfold nextToSend
    rw [hf, hn]
    exact max_eq_left (show 1 ≤ i + 1 by omega)
  have hse : s.sendsEntries r = (decide (i < L.length) && !r.probe) := by
    unfold sendsEntries
    rw [hnext, h.log.lastIdx]
    rfl
  have hhas : s.hasMessage r = true := by
    unfold hasMessage
    rw [hse]
    rcases hd with hd | hd
    · simp [hd]
    · cases r.probe <;> simp [hd]
  have hheld : s.heldBack r = false := by
    unfold heldBack
    rw [hf]
    rfl
  obtain ⟨n, hm, h1, h2⟩ := h.message hL hi ho (s.sendsEntries r)
  unfold appendEntries at k
  rw [if_neg (by rw [h.role]; simp), hr] at k
  simp only [hhas, hheld, Bool.not_true, Bool.false_eq_true, if_false] at k
  rw [hnext, hm] at k
  simp only at k
  rw [addSendable_one (by exact hp)] at k
  cases k
  refine ⟨n, _, List.mem_append_right _ (List.mem_singleton.mpr rfl), h1, fun hb hl => h2 (by rw [hse]; simp [hb, hl]) hl,
    OMap.find_insert_self _ _ _, rfl⟩

theorem sendAll_rows : ∀ {l : List P} {s s' : Node P}, sendAll v l s = .ok s' → ∃ f o, s' = { s with followers := f, sendable := s.sendable ++ o } ∧
    (∀ x, x ∉ l → f.find x = s.followers.find x) ∧ ∀ x, (f.find x).map course = (s.followers.find x).map course
  | [], s, s', k => by
    cases k
    exact ⟨s.followers, [], by rw [List.append_nil], fun _ _ => rfl, fun _ => rfl⟩
  | p :: t, s, s', k => by
    unfold sendAll at k
    split at k
    · obtain ⟨f, o, h1, h2, h3⟩ := sendAll_rows k
      exact ⟨f, o, h1, fun x hx => h2 x (fun h => hx (List.mem_cons_of_mem _ h)), h3⟩
    · obtain ⟨s1, k1, k⟩ := Out.bind_eq_ok.mp k
      obtain ⟨f1, o1, e1, a1, a2⟩ := appendEntries_rows k1
      obtain ⟨f, o, h1, h2, h3⟩ := sendAll_rows k
      rw [e1] at h1 h2 h3
      refine ⟨f, o1 ++ o, by rw [h1, List.append_assoc], fun x hx => ?_, fun x => (h3 x).trans (a2 x)⟩
      rw [h2 x (fun h => hx (List.mem_cons_of_mem _ h))]
      exact a1 x (fun h => hx (h ▸ List.mem_cons_self))

theorem Lead.sendsAll (hL : Line v L) {p : P} {r : Repl} {i : Nat} (hn : r.next = i + 1) (hf : r.inflight = none)
    (hd : r.probe = true ∨ i < L.length) (hi : i ≤ L.length) : ∀ {l : List P} {s s' : Node P}, Lead L s → p ≠ s.me → s.followers.find p = some r →
    s.log.oldest ≤ max 1 i → l.Nodup → p ∈ l → sendAll v l s = .ok s' →
    ∃ n r', (some p, request s L i n) ∈ s'.sendable ∧ i + n ≤ L.length ∧ (r.probe = false → i < L.length → 0 < n) ∧
      s'.followers.find p = some r' ∧ r'.inflight = some (i + n)
  | [], s, s', _, _, _, _, _, hm, _ => by cases hm
  | x :: t, s, s', h, hp, hr, ho, hnd, hm, k => by
    obtain ⟨hx, hnd'⟩ := List.nodup_cons.mp hnd
    unfold sendAll at k
    by_cases e : p = x
    · subst e
      rw [if_neg hp] at k
      obtain ⟨s1, k1, k⟩ := Out.bind_eq_ok.mp k
      obtain ⟨n, r', b1, b2, b3, b4, b5⟩ := h.sends hL hp hr hn hf hd hi ho k1
      obtain ⟨f, o, e, c1, _⟩ := sendAll_rows k
      refine ⟨n, r', by rw [e]; exact List.mem_append_left _ b1, b2, b3, ?_, b5⟩
      rw [e]
      show f.find p = _
      rw [c1 p hx]
      exact b4
    · have hmt : p ∈ t := (List.mem_cons.mp hm).resolve_left e
      split at k
      · exact Lead.sendsAll hL hn hf hd hi h hp hr ho hnd' hmt k
      · obtain ⟨s1, k1, k⟩ := Out.bind_eq_ok.mp k
        obtain ⟨f, o, e1, c1, c2⟩ := appendEntries_rows k1
        have h1 : Lead L s1 := by rw [e1]; exact h.keeps c2 _
        have e2 : request s1 L i = request s L i := by rw [e1]; rfl
        have := Lead.sendsAll hL hn hf hd hi h1 (by rw [e1]; exact hp) (by rw [e1]; show f.find p = _; rw [c1 p e]; exact hr)
          (by rw [e1]; exact ho) hnd' hmt k
        rw [e2] at this
        exact this

/-! ### Counting -/

theorem countP_rows {Q : List P} (hQ : Q.Nodup) {f : Repl → Nat} {x : Nat} (hv : Q ⊆ s.membership.voting)
    (hr : ∀ q ∈ Q, ∃ r, s.followers.find q = some r ∧ x < f r) :
    Q.length ≤ (s.votingFollowers.map f).countP (fun y => decide (x < y)) := by
  have h1 : Q ⊆ ((s.followers.list.filter (fun p => decide (p.1 ∈ s.membership.voting))).filter (fun p => decide (x < f p.2))).map (·.1) := by
    intro q hq
    obtain ⟨r, h1, h2⟩ := hr q hq
    refine List.mem_map.mpr ⟨(q, r), List.mem_filter.mpr ⟨List.mem_filter.mpr ⟨OMap.mem_list.mpr h1, by simpa using hv hq⟩, by simpa using h2⟩, rfl⟩
  have h2 := (List.Nodup.subperm hQ h1).length_le
  rw [List.length_map] at h2
  unfold votingFollowers
  rw [List.map_map, List.countP_map, List.countP_eq_length_filter]
  exact h2

theorem Lead.advance (h : Lead L s) (k : s.maybeAdvance = .ok s') : Leads' s s' ∧ s'.walks = s.walks ∧ s'.sendable = s.sendable ∧
    s'.commit ≤ s'.promise ∧ s.promise ≤ s'.promise ∧ s.commit ≤ s'.commit ∧
    (∀ x, (s'.followers.find x).map course' = (s.followers.find x).map course') ∧
    (∀ Q : List P, Q.Nodup → Q ⊆ s.membership.voting → s.quorum ≤ Q.length + 1 → ∀ x, x ≤ s.log.lastIdx →
      (∀ q ∈ Q, ∃ r, s.followers.find q = some r ∧ x ≤ r.mtch) → x ≤ s'.promise ∧ ((∀ q ∈ Q, ∃ r, s.followers.find q = some r ∧ x ≤ r.promise) →
        x ≤ s'.commit)) := by
  obtain ⟨np, nc, h1, h2, s1, h3, h4⟩ := maybeAdvance_eq h.role k
  obtain ⟨-, -, n1⟩ := nth1_spec h1
  obtain ⟨-, m1, m2⟩ := nth1_spec h2
  have e1 : ∃ cf, s1 = { s with promise := max np s.promise, commit := max nc s.commit, cfgs := cf } := by
    split at h3
    · rename_i hx
      rw [maybeChangeUncommitted_nil (by exact h.unc)] at h3
      exact ⟨_, by rw [h3, max_eq_left (le_of_lt hx)]⟩
    · rename_i hx
      exact ⟨_, by rw [h3, max_eq_right (not_lt.mp hx)]⟩
  obtain ⟨cf, e1⟩ := e1
  have e2 : ∃ f, s' = { s with promise := max np s.promise, commit := max nc s.commit, cfgs := cf, followers := f } ∧
      ∀ x, (f.find x).map course' = (s.followers.find x).map course' := by
    rcases h4 with e | e
    · exact ⟨s.followers, by rw [e, e1], fun _ => rfl⟩
    · refine ⟨s.followers.mapV (fun _ r => { r with upd := true }), by rw [e, e1], fun x => ?_⟩
      rw [OMap.find_mapV]
      cases s.followers.find x <;> rfl
  obtain ⟨f, e2, e3⟩ := e2
  rw [e2]
  have hcm : nc ≤ max np s.promise := by
    by_contra hx
    rw [not_le] at hx
    rw [List.countP_append] at m1 n1
    have h0 : ([max np s.promise] : List Nat).countP (fun y => decide (nc ≤ y)) = 0 := by
      simp only [List.countP_singleton, decide_eq_true_eq]
      rw [if_neg (by omega)]
    have h5 : (s.votingFollowers.map (·.promise)).countP (fun y => decide (nc ≤ y)) ≤
        (s.votingFollowers.map (·.mtch)).countP (fun y => decide (np < y)) := by
      rw [List.countP_map, List.countP_map]
      refine List.countP_mono_left ?_
      intro r hr hy
      have hrow : ∃ p, s.followers.find p = some r := by
        unfold votingFollowers at hr
        obtain ⟨⟨p, r'⟩, hm, rfl⟩ := List.mem_map.mp hr
        exact ⟨p, OMap.mem_list.mp (List.mem_filter.mp hm).1⟩
      obtain ⟨p, hp⟩ := hrow
      have := h.marks p r hp
      simp only [Function.comp_apply, decide_eq_true_eq] at hy ⊢
      omega
    omega
  refine ⟨⟨⟨rfl, rfl, rfl, rfl, rfl, rfl⟩, rfl, rfl, rfl, rfl⟩, rfl, rfl, max_le hcm (le_trans h.le (le_max_right _ _)), le_max_right _ _, le_max_right _ _, e3, ?_⟩
  · intro Q hQ hv hq x hx hr
    have hxp : x ≤ max np s.promise := by
      by_contra hy
      have hlt : np < x := by omega
      have := countP_rows (f := (·.mtch)) (x := np) hQ hv (fun q hq => by
        obtain ⟨r, r1, r2⟩ := hr q hq
        exact ⟨r, r1, by omega⟩)
      rw [List.countP_append, List.countP_singleton, decide_eq_true (show np < s.log.lastIdx by omega)] at n1
      simp only [if_true] at n1
      omega
    refine ⟨hxp, fun hr' => ?_⟩
    show x ≤ max nc s.commit
    by_contra hy
    have hlt : nc < x := by omega
    have := countP_rows (f := (·.promise)) (x := nc) hQ hv (fun q hq => by
      obtain ⟨r, r1, r2⟩ := hr' q hq
      exact ⟨r, r1, by omega⟩)
    rw [List.countP_append, List.countP_singleton, decide_eq_true (show nc < max np s.promise by omega)] at m2
    simp only [if_true] at m2
    omega

theorem course_of_course' {f f' : OMap P Repl} (h : ∀ x, (f'.find x).map course' = (f.find x).map course') (x : P) :
    (f'.find x).map course = (f.find x).map course := by
  have := congrArg (Option.map Prod.fst) (h x)
  simpa [Option.map_map, Function.comp_def, course'] using this

/-- What `MaybeChangeStateAndSendMessages` does for a leader whose tree nobody tampers with. -/
theorem Lead.settle (h : Lead L s) (hL : Line v L) (hp : ∀ n, v.path n = true) (k : s.maybeChangeState v = .ok s') : Lead L s' ∧ Leads' s s' ∧
    s.promise ≤ s'.promise ∧ s.commit ≤ s'.commit ∧
    (∀ x, (s'.followers.find x).map course = (s.followers.find x).map course) ∧
    (∀ Q : List P, Q.Nodup → Q ⊆ s.membership.voting → s.quorum ≤ Q.length + 1 → ∀ x, x ≤ s.log.lastIdx →
      (∀ q ∈ Q, ∃ r, s.followers.find q = some r ∧ x ≤ r.mtch) → x ≤ s'.promise ∧ ((∀ q ∈ Q, ∃ r, s.followers.find q = some r ∧ x ≤ r.promise) →
        x ≤ s'.commit)) ∧
    (∀ p r i, s.membership.all.Nodup → p ∈ s.membership.all → p ≠ s.me → s.followers.find p = some r → r.next = i + 1 → r.inflight = none →
      r.probe = true ∨ i < L.length → i ≤ L.length → s.log.oldest ≤ max 1 i →
      ∃ n r', (some p, request s' L i n) ∈ s'.sendable ∧ i + n ≤ L.length ∧ (r.probe = false → i < L.length → 0 < n) ∧
        s'.followers.find p = some r' ∧ r'.inflight = some (i + n)) := by
  obtain ⟨s1, k1, k2, -⟩ := maybeChangeState_leader h.role h.stays k
  obtain ⟨⟨s2, b⟩, k3, k4⟩ := Out.bind_eq_ok.mp k1
  have hb : b = true := by
    cases b with
    | true => rfl
    | false => exact absurd h.agrees (verifyMerkle_false hp k3)
  subst hb
  obtain ⟨w, rfl⟩ := verifyMerkle_eq k3
  simp only [if_true] at k4
  obtain ⟨s3, k5, k6⟩ := Out.bind_eq_ok.mp k4
  have h2 : Lead L { s with walks := w } := ⟨h.role, h.stays, h.log, h.unc, h.le, h.marks, h.agrees⟩
  obtain ⟨a1, a2, a3, a4, a5, a6, a7, a8⟩ := h2.advance k5
  have ag := updateMerkle_agrees k6
  obtain ⟨x, y, _, _, e1⟩ := updateMerkle_eq k6
  have h3 : Lead L s1 := by
    refine ⟨?_, ?_, ?_, ?_, ?_, ?_, ag⟩
    · rw [e1]; exact a1.role.trans h.role
    · rw [e1]; exact a1.stays.trans h.stays
    · rw [e1]; show LogOf s3.log L; rw [a1.log]; exact h.log
    · rw [e1]; exact a1.unc.trans h.unc
    · rw [e1]; exact a4
    · intro p r hr
      rw [e1] at hr
      obtain ⟨r', b1, b2⟩ := course_find (fun z => (course_of_course' a7 z).symm) hr
      have := h.marks p r' b1
      simp only [course, Prod.mk.injEq] at b2
      omega
  obtain ⟨f, o, e2, c1, c2⟩ := sendAll_rows k2
  have h4 : Lead L s' := by rw [e2]; exact h3.keeps c2 _
  have l1 : Leads' s s1 := by
    rw [e1]
    exact ⟨⟨a1.me, a1.group, a1.mem, a1.unc, a1.cfg, a1.sm⟩, a1.log, a1.term, a1.role, a1.stays⟩
  refine ⟨h4, l1.trans (by rw [e2]; exact ⟨⟨rfl, rfl, rfl, rfl, rfl, rfl⟩, rfl, rfl, rfl, rfl⟩), ?_, ?_, ?_, ?_, ?_⟩
  · rw [e2, e1]; exact a5
  · rw [e2, e1]; exact a6
  · intro z
    rw [e2]
    show (f.find z).map course = _
    rw [c2 z, e1]
    exact course_of_course' a7 z
  · rw [e2, e1]
    exact a8
  · intro p r i hnd hpa hpm hr hn hf hd hi ho
    have hr1 := a7 p
    rw [show ({ s with walks := w } : Node P).followers.find p = some r from hr] at hr1
    simp only [Option.map_some, Option.map_eq_some_iff] at hr1
    obtain ⟨r1, q1, q2⟩ := hr1
    simp only [course', course, Prod.mk.injEq] at q2
    obtain ⟨⟨q3, q4, q5, q6⟩, q7⟩ := q2
    obtain ⟨n, r', d1, d2, d3, d4, d5⟩ := Lead.sendsAll hL (by rw [q3]; exact hn) (by rw [q7]; exact hf) (by rw [q6]; exact hd) hi h3
      (by rw [l1.me]; exact hpm) (by rw [e1]; exact q1) (by rw [l1.log]; exact ho) (by rw [l1.membership]; exact hnd)
      (by rw [l1.membership]; exact hpa) k2
    refine ⟨n, r', ?_, d2, by rw [← q6]; exact d3, d4, d5⟩
    have e3 : request s' L i n = request s1 L i n := by rw [e2]; rfl
    rw [e3]
    exact d1

end Svr.Raft
