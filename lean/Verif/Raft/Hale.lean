import Verif.Raft.Guarded

/-!
# When a replica can go on

The checks of enclave/raft/raft.cc abort the enclave, and some expressions are undefined. `Hale` is an invariant of every
replica, whatever messages it gets, from which most of them follow; `Op.total` says which calls are left.
-/

namespace Svr.Raft

variable {P : Type} [LinearOrder P]

/-- A set of sets as `Membership::FromProto` builds it. -/
structure Membership.Good (m : Membership P) : Prop where
  wf : m.Wf
  sub : m.voting ⊆ m.all

theorem fromProto_good {g : List (Option P × Bool)} {m : Membership P} (h : fromProto g = .ok m) : m.Good := by
  obtain ⟨h1, h2, _⟩ := fromProtoLoop_ok g ⟨[], []⟩ m ⟨List.Pairwise.nil, List.Pairwise.nil⟩ (fun _ h => h) h
  exact ⟨h1, h2⟩

theorem Shape.append_total {z : Sizes} {l : Log} {a p : Nat} (h : Shape z l a p) (e : Entry) : ∃ r, l.append z e a = .ok r := by
  unfold Log.append
  split
  · exact ⟨_, rfl⟩
  split
  · exact ⟨_, rfl⟩
  have h1 := h.lastIdx
  have h2 := h.last
  obtain ⟨⟨l', b⟩, hr⟩ := Log.makeSpace_total z (memSize z e) a (l.entries.length + 2) l (by omega)
  rw [hr]
  simp only [Out.bind_ok]
  split
  · exact ⟨_, rfl⟩
  split <;> exact ⟨_, rfl⟩

namespace Node
variable {v : Env P} {inp : Inp P}

/-- What holds of every replica whatever messages it is given. -/
structure Hale (v : Env P) (s : Node P) : Prop where
  shaped : s.Shaped v
  hashes : ∀ i e, s.log.at? i = some e → e.hash.length = 32
  unc : ∀ x ∈ s.uncommitted, x.1 ≤ s.log.lastIdx
  order : s.uncommitted.Pairwise (fun a b => a.1 < b.1)
  mem : s.mem.Good
  mems : ∀ x ∈ s.uncommitted, x.2.Good
  voter : s.role ≠ .follower → s.me ∈ s.membership.voting
  table : s.role = .leader → ∀ p ∈ s.membership.all, p ≠ s.me → (s.followers.find p).isSome
  sm : s.superMajority < 2 ^ 63

theorem Hale.good {s : Node P} (h : Hale v s) : s.membership.Good := by
  unfold membership
  cases hl : s.uncommitted.getLast? with
  | none => exact h.mem
  | some x => exact h.mems x (List.mem_of_getLast? hl)

/-- Only the log, the memberships, the role and the leader's table matter. -/
theorem Hale.ofEq {s s' : Node P} (h : Hale v s) (hs : s'.Shaped v) (hl : s'.log = s.log) (hu : s'.uncommitted = s.uncommitted)
    (hm : s'.mem = s.mem) (hme : s'.me = s.me) (hsm : s'.superMajority = s.superMajority)
    (hv : s'.role ≠ .follower → s.me ∈ s.membership.voting)
    (ht : s'.role = .leader → ∀ p ∈ s.membership.all, p ≠ s.me → (s'.followers.find p).isSome) : Hale v s' := by
  have hmem : s'.membership = s.membership := by unfold membership; rw [hu, hm]
  refine ⟨hs, by rw [hl]; exact h.hashes, by rw [hl, hu]; exact h.unc, by rw [hu]; exact h.order, by rw [hm]; exact h.mem, by rw [hu]; exact h.mems, ?_, ?_,
    by rw [hsm]; exact h.sm⟩
  · rw [hme, hmem]; exact hv
  · rw [hme, hmem]; exact ht

theorem foldl_keeps {f : OMap P Repl → P → OMap P Repl} (hk : ∀ fs q p, (fs.find p).isSome → ((f fs q).find p).isSome) :
    ∀ (l : List P) (fs : OMap P Repl) (p : P), (fs.find p).isSome → ((l.foldl f fs).find p).isSome
  | [], _, _, h => h
  | q :: t, fs, p, h => foldl_keeps hk t (f fs q) p (hk fs q p h)

theorem foldl_adds {f : OMap P Repl → P → OMap P Repl} {me : P} (hk : ∀ fs q p, (fs.find p).isSome → ((f fs q).find p).isSome)
    (ha : ∀ fs p, p ≠ me → ((f fs p).find p).isSome) :
    ∀ (l : List P) (fs : OMap P Repl) (p : P), p ∈ l → p ≠ me → ((l.foldl f fs).find p).isSome
  | [], _, _, h, _ => by cases h
  | q :: t, fs, p, h, hp => by
    rcases List.mem_cons.mp h with rfl | h
    · exact foldl_keeps hk t _ p (ha fs p hp)
    · exact foldl_adds hk ha t _ p h hp

theorem insert_keeps (fs : OMap P Repl) (q p : P) (r : Repl) (h : (fs.find p).isSome) : ((fs.insert q r).find p).isSome := by
  rw [OMap.find_insert]
  split
  · rfl
  · exact h

/-- After a change of membership the leader has a row for every other member. -/
theorem handleMembershipChange_table {s : Node P} (hr : s.role = .leader) {p : P} (hp : p ∈ s.membership.all) (hme : p ≠ s.me) :
    (s.handleMembershipChange.followers.find p).isSome := by
  unfold handleMembershipChange
  rw [hr]
  simp only
  rw [OMap.find_filterK, if_pos (by simpa using hp)]
  refine foldl_adds (me := s.me) ?_ ?_ _ _ p hp hme
  · intro fs q p h
    split
    · exact insert_keeps _ _ _ _ h
    · exact h
  · intro fs p hp
    by_cases h : fs.find p = none
    · rw [if_pos ⟨hp, h⟩, OMap.find_insert_self]; rfl
    · rw [if_neg (by simp [h])]
      exact Option.isSome_iff_ne_none.mpr h

omit [LinearOrder P] in
theorem discardCut_le (last : Nat) : ∀ u : List (Nat × Membership P), u.Pairwise (fun a b => b.1 < a.1) →
    ∀ x ∈ discardCut last u, x.1 ≤ last
  | [], _, x, hx => by cases hx
  | (i, m) :: t, h, x, hx => by
    obtain ⟨h1, h2⟩ := List.pairwise_cons.mp h
    unfold discardCut at hx
    split at hx
    · exact discardCut_le last t h2 x hx
    · rename_i hi
      rcases List.mem_cons.mp hx with rfl | hx
      · exact Nat.le_of_not_gt hi
      · have := h1 x hx
        simp only at this
        omega

theorem promoteCommitted_good (c : Nat) : ∀ (u : List (Nat × Membership P)) (cur : Membership P), cur.Good → (∀ x ∈ u, x.2.Good) →
    (promoteCommitted c u cur).2.Good ∧ (promoteCommitted c u cur).1 <:+ u
  | [], cur, hc, _ => ⟨hc, List.suffix_rfl⟩
  | (i, m) :: t, cur, hc, hg => by
    unfold promoteCommitted
    split
    · obtain ⟨a, b⟩ := promoteCommitted_good c t m (hg _ List.mem_cons_self) (fun x hx => hg x (List.mem_cons_of_mem _ hx))
      exact ⟨a, b.trans (List.suffix_cons _ _)⟩
    · exact ⟨hc, List.suffix_rfl⟩

/-- The memberships left after `MaybeChangeUncommittedMembershipsBasedOnLog` were there before, and are in the log. -/
theorem maybeChange_good {s : Node P} (hm : s.mem.Good) (hu : ∀ x ∈ s.uncommitted, x.2.Good)
    (ho : s.uncommitted.Pairwise (fun a b => a.1 < b.1)) :
    s.maybeChangeUncommitted.mem.Good ∧ (∀ x ∈ s.maybeChangeUncommitted.uncommitted, x.2.Good ∧ x.1 ≤ s.log.lastIdx) ∧
      s.maybeChangeUncommitted.uncommitted.Pairwise (fun a b => a.1 < b.1) := by
  obtain ⟨u, m, f, h1, h2, h3, _⟩ := maybeChange_spec s
  rw [h1]
  obtain ⟨k1, k2⟩ := promoteCommitted_good s.commit s.uncommitted s.mem hm hu
  have k3 := ho.sublist k2.sublist
  have k4 : (promoteCommitted s.commit s.uncommitted s.mem).1.reverse.Pairwise (fun a b => b.1 < a.1) :=
    List.pairwise_reverse.mpr k3
  have k5 := discardCut_suffix s.log.lastIdx (promoteCommitted s.commit s.uncommitted s.mem).1.reverse
  refine ⟨by rw [h3]; exact k1, ?_, ?_⟩
  · intro x hx
    have hx : x ∈ u := hx
    rw [h2, List.mem_reverse] at hx
    refine ⟨hu x (k2.subset (List.mem_reverse.mp (k5.subset hx))), discardCut_le _ _ k4 x hx⟩
  · show u.Pairwise _
    rw [h2]
    exact List.pairwise_reverse.mpr (k4.sublist k5.sublist)

/-- A leader keeps its place and its rows when memberships are committed. -/
theorem maybeChange_table {s : Node P} (hr : s.role = .leader) (hu : ∀ x ∈ s.uncommitted, x.1 ≤ s.log.lastIdx)
    (ht : ∀ p ∈ s.membership.all, p ≠ s.me → (s.followers.find p).isSome) :
    ∀ p ∈ s.membership.all, p ≠ s.me → (s.maybeChangeUncommitted.followers.find p).isSome := by
  intro p hp hme
  have hmem := maybeChange_membership hu
  obtain ⟨u, m, f, h1, h2, h3, h4⟩ := maybeChange_spec s
  rw [h1] at hmem ⊢
  show (f.find p).isSome
  rcases h4 with rfl | rfl
  · exact ht p hp hme
  · refine handleMembershipChange_table (s := ({ s with uncommitted := u, mem := m } : Node P)) hr ?_ hme
    have : ({ s with uncommitted := u, mem := m } : Node P).membership = s.membership := hmem
    rw [this]
    exact hp

theorem Atom.hale {s s' : Node P} (h : Atom v inp s s') (hs : Hale v s) : Hale v s' := by
  have hsh := h.shaped hs.shaped
  cases h with
  | misc => exact hs.ofEq hsh rfl rfl rfl rfl rfl hs.voter hs.table
  | table f hf =>
    refine hs.ofEq hsh rfl rfl rfl rfl rfl hs.voter ?_
    intro hr p hp hme
    obtain ⟨r, hr'⟩ := Option.isSome_iff_exists.mp (hs.table hr p hp hme)
    obtain ⟨r', h1, _⟩ := (hf p).2 r hr'
    exact Option.isSome_iff_exists.mpr ⟨r', h1⟩
  | demote => exact hs.ofEq hsh rfl rfl rfl rfl rfl (fun h => absurd rfl h) (fun h => by cases h)
  | raise => exact hs.ofEq hsh rfl rfl rfl rfl rfl (fun h => absurd rfl h) (fun h => by cases h)
  | campaign hv hr ht => exact hs.ofEq hsh rfl rfl rfl rfl rfl (fun _ => of_decide_eq_true hv) (fun h => by cases h)
  | grant => exact hs.ofEq hsh rfl rfl rfl rfl rfl hs.voter hs.table
  | voted => exact hs.ofEq hsh rfl rfl rfl rfl rfl hs.voter hs.table
  | lead hr hq =>
    refine hs.ofEq hsh rfl rfl rfl rfl rfl (fun _ => hs.voter (by rw [hr]; simp)) ?_
    intro _ p hp hme
    refine foldl_adds (me := s.me) ?_ ?_ _ _ p hp hme
    · intro fs q p h
      split
      · exact h
      · exact insert_keeps _ _ _ _ h
    · intro fs p hp
      rw [if_neg hp, OMap.find_insert_self]
      rfl
  | hash => exact hs.ofEq hsh rfl rfl rfl rfl rfl hs.voter hs.table
  | append _ e r hh hm hw h =>
    have key : ∀ l er, s.log.append v.z e s.lastApplied = .ok (l, er) →
        (∀ i o, l.at? i = some o → o.hash.length = 32) ∧ l.lastIdx = s.log.lastIdx + (if er = none then 1 else 0) := by
      intro l er h1
      obtain ⟨h0, h2, _, h4, h5, _⟩ := Shape.append hs.shaped h1
      refine ⟨fun i o ho => ?_, h2⟩
      by_cases hi : i ≤ s.log.lastIdx
      · exact hs.hashes i o (h4 i o hi ho)
      · have h6 := ((Shape.at_iff h0 i).mp (by rw [ho]; rfl)).2
        rw [h2] at h6
        have he : er = none := by
          by_contra hne
          rw [if_neg hne] at h6
          omega
        rw [if_pos he] at h6
        obtain rfl : i = s.log.lastIdx + 1 := by omega
        obtain ⟨h7, _, h8⟩ := h5 he
        rw [h7] at ho
        cases ho
        exact h8
    rcases logAppend_eq h with ⟨rfl, _⟩ | ⟨l, er, h1, rfl, _⟩ | ⟨l, h1, _, ⟨rfl, _⟩ | ⟨g, m, hg, hm', h3⟩⟩
    · exact hs
    · obtain ⟨k1, k2⟩ := key _ _ h1
      exact ⟨hsh, k1, fun x hx => by show x.1 ≤ l.lastIdx; have := hs.unc x hx; omega, hs.order, hs.mem, hs.mems, hs.voter,
        hs.table, hs.sm⟩
    · obtain ⟨k1, k2⟩ := key _ _ h1
      exact ⟨hsh, k1, fun x hx => by show x.1 ≤ l.lastIdx; have := hs.unc x hx; omega, hs.order, hs.mem, hs.mems, hs.voter,
        hs.table, hs.sm⟩
    · obtain ⟨k1, k2⟩ := key _ _ h1
      rw [if_pos rfl] at k2
      obtain ⟨e1, f, e2⟩ := addUncommitted_eq h3
      have hmem : s'.membership = m := by
        rw [e2]
        unfold membership
        simp only [List.getLast?_append, List.getLast?_singleton, Option.some_or]
      have hmem' : ({ s with log := l, uncommitted := s.uncommitted ++ [(l.lastIdx, m)] } : Node P).membership = m := by
        unfold membership
        simp only [List.getLast?_append, List.getLast?_singleton, Option.some_or]
      have hrole : s'.role = s.role := by rw [e2]
      have hme : s'.me = s.me := by rw [e2]
      have hunc : s'.uncommitted = s.uncommitted ++ [(l.lastIdx, m)] := by rw [e2]
      have hlog : s'.log = l := by rw [e2]
      refine ⟨hsh, by rw [hlog]; exact k1, ?_, ?_, by rw [e2]; exact hs.mem, ?_, ?_, ?_, by rw [e2]; exact hs.sm⟩
      · intro x hx
        rw [hunc] at hx
        rw [hlog]
        rcases List.mem_append.mp hx with hx | hx
        · have := hs.unc x hx; omega
        · rw [List.mem_singleton.mp hx]
      · rw [hunc]
        refine List.pairwise_append.mpr ⟨hs.order, by simp, ?_⟩
        intro a ha b hb
        rw [List.mem_singleton.mp hb]
        have := hs.unc a ha
        show a.1 < l.lastIdx
        omega
      · intro x hx
        rw [hunc] at hx
        rcases List.mem_append.mp hx with hx | hx
        · exact hs.mems x hx
        · rw [List.mem_singleton.mp hx]; exact fromProto_good hm'
      · intro hr
        rw [hrole] at hr
        rw [hmem, hme]
        rcases hw with ⟨_, _, h5⟩ | ⟨h5, _⟩
        · exact (h5.2 g m hg hm').2.2
        · exact absurd h5 hr
      · intro hr p hp hpm
        rw [hrole] at hr
        rw [hmem] at hp
        rw [hme] at hpm
        rw [e1]
        exact handleMembershipChange_table (s := ({ s with log := l, uncommitted := s.uncommitted ++ [(l.lastIdx, m)] } : Node P)) hr
          (by rw [hmem']; exact hp) hpm
  | cut idx hr hc hp ht =>
    have hidx : idx ≤ s.log.lastIdx := by
      have : (s.log.at? idx).isSome := by
        obtain ⟨o, h1, _⟩ := termAt_ne_zero ht
        rw [h1]; rfl
      exact ((Shape.at_iff hs.shaped idx).mp this).2
    obtain ⟨c0, c1, _, c3, _⟩ := Shape.cut hs.shaped (max_lt hc hp) hidx
    obtain ⟨g1, g2, g3⟩ := maybeChange_good (s := ({ s with log := (s.log.cancelFrom idx).1 } : Node P)) hs.mem hs.mems hs.order
    obtain ⟨u, m, f, h1⟩ := maybeChangeUncommitted_eq ({ s with log := (s.log.cancelFrom idx).1 } : Node P)
    have hrole : (({ s with log := (s.log.cancelFrom idx).1 } : Node P).maybeChangeUncommitted).role = .follower := by rw [h1]; exact hr
    have hlog : (({ s with log := (s.log.cancelFrom idx).1 } : Node P).maybeChangeUncommitted).log = (s.log.cancelFrom idx).1 := by rw [h1]
    refine ⟨hsh, ?_, ?_, g3, g1, fun x hx => (g2 x hx).1, fun h => absurd hrole h, (fun h => by rw [hrole] at h; cases h), by rw [h1]; exact hs.sm⟩
    · rw [hlog]
      intro i e he
      have h6 := ((Shape.at_iff c0 i).mp (by rw [he]; rfl)).2
      rw [c1] at h6
      by_cases h0 : i < idx
      · rw [c3 i h0] at he
        exact hs.hashes i e he
      · have := c0.one
        have := ((Shape.at_iff c0 i).mp (by rw [he]; rfl)).1
        omega
    · rw [hlog]
      exact fun x hx => (g2 x hx).2
  | advance _ hr h =>
    obtain ⟨np, nc, _, _, s1, h1, h2⟩ := maybeAdvance_eq hr h
    have k : s1.log = s.log ∧ s1.me = s.me ∧ s1.superMajority = s.superMajority ∧ s1.role = s.role ∧ s1.mem.Good ∧
        (∀ x ∈ s1.uncommitted, x.2.Good ∧ x.1 ≤ s.log.lastIdx) ∧ s1.uncommitted.Pairwise (fun a b => a.1 < b.1) ∧
        s1.membership = s.membership ∧ (∀ p ∈ s.membership.all, p ≠ s.me → (s1.followers.find p).isSome) := by
      split at h1
      · obtain ⟨g1, g2, g3⟩ := maybeChange_good
          (s := ({ s with promise := max np s.promise, commit := nc, cfgs := s.cfgs ++ [s.membership] } : Node P)) hs.mem hs.mems hs.order
        have g4 := maybeChange_membership
          (s := ({ s with promise := max np s.promise, commit := nc, cfgs := s.cfgs ++ [s.membership] } : Node P)) hs.unc
        have g5 := maybeChange_table
          (s := ({ s with promise := max np s.promise, commit := nc, cfgs := s.cfgs ++ [s.membership] } : Node P)) hr hs.unc (hs.table hr)
        obtain ⟨u, m, f, h3⟩ := maybeChangeUncommitted_eq
          ({ s with promise := max np s.promise, commit := nc, cfgs := s.cfgs ++ [s.membership] } : Node P)
        rw [← h1] at g1 g2 g3 g4 g5 h3
        rw [h3]
        rw [h3] at g1 g2 g3 g4 g5
        exact ⟨rfl, rfl, rfl, rfl, g1, g2, g3, g4, g5⟩
      · rw [h1]
        exact ⟨rfl, rfl, rfl, rfl, hs.mem, fun x hx => ⟨hs.mems x hx, hs.unc x hx⟩, hs.order, rfl, hs.table hr⟩
    obtain ⟨k1, k2, k3, k4, k5, k6, k7, k8, k9⟩ := k
    have hv := hs.voter (by rw [hr]; simp)
    rcases h2 with rfl | rfl
    · exact ⟨hsh, by rw [k1]; exact hs.hashes, by rw [k1]; exact fun x hx => (k6 x hx).2, k7, k5, fun x hx => (k6 x hx).1,
        fun _ => by rw [k8, k2]; exact hv, fun _ => by rw [k8, k2]; exact k9, by rw [k3]; exact hs.sm⟩
    · have k8' : ({ s1 with followers := s1.followers.mapV (fun _ r => { r with upd := true }) } : Node P).membership = s.membership := k8
      refine ⟨hsh, (show ∀ i e, s1.log.at? i = some e → _ by rw [k1]; exact hs.hashes), ?_, k7, k5, fun x hx => (k6 x hx).1,
        fun _ => by rw [k8']; show s1.me ∈ _; rw [k2]; exact hv, ?_, by show s1.superMajority < _; rw [k3]; exact hs.sm⟩
      · intro x hx
        show x.1 ≤ s1.log.lastIdx
        rw [k1]
        exact (k6 x hx).2
      · intro _ p hp hpm
        rw [k8'] at hp
        have hpm : p ≠ s1.me := hpm
        rw [k2] at hpm
        show ((s1.followers.mapV _).find p).isSome
        rw [OMap.find_mapV]
        simpa using k9 p hp hpm
  | follow frm g t pi pt ph es c a lp hi hr hca hm =>
    generalize min c lp = c at hsh ⊢
    generalize min a lp = a at hsh ⊢
    rw [followLeader_flat] at hsh ⊢
    split at hsh
    · rename_i hcm
      rw [if_pos hcm]
      obtain ⟨g1, g2, g3⟩ := maybeChange_good
        (s := ({ s with promise := max a s.promise, commit := c } : Node P)) hs.mem hs.mems hs.order
      obtain ⟨u, m, f, h1⟩ := maybeChangeUncommitted_eq ({ s with promise := max a s.promise, commit := c } : Node P)
      have hrole : (({ s with promise := max a s.promise, commit := c } : Node P).maybeChangeUncommitted).role = .follower := by
        rw [h1]; exact hr
      have hlog : (({ s with promise := max a s.promise, commit := c } : Node P).maybeChangeUncommitted).log = s.log := by rw [h1]
      exact ⟨hsh, by rw [hlog]; exact hs.hashes, by rw [hlog]; exact fun x hx => (g2 x hx).2, g3, g1, fun x hx => (g2 x hx).1,
        fun h => absurd hrole h, (fun h => by rw [hrole] at h; cases h), by rw [h1]; exact hs.sm⟩
    · rename_i hcm
      rw [if_neg hcm]
      exact hs.ofEq hsh rfl rfl rfl rfl rfl hs.voter hs.table
  | ack frm g mt l a hh r hi hr hf hm =>
    refine hs.ofEq hsh rfl rfl rfl rfl rfl hs.voter ?_
    exact fun hr p hp hpm => insert_keeps _ _ _ _ (hs.table hr p hp hpm)
  | send _ dst m hso h =>
    rcases addSendable_eq h with rfl | ⟨rfl, _⟩
    · exact hs
    · exact hs.ofEq hsh rfl rfl rfl rfl rfl hs.voter hs.table

end Node
end Svr.Raft
