import Verif.Raft.Sync

/-!
# A follower and an append request of its leader
-/

namespace Svr.Raft
open Node
variable {P : Type} [LinearOrder P]
variable {v : Env P} {s s' : Node P} {L F : List Entry}

/-- Nothing changed of who the replica is and with whom it works. -/
structure Same (s s' : Node P) : Prop where
  me : s'.me = s.me
  group : s'.group = s.group
  mem : s'.mem = s.mem
  unc : s'.uncommitted = s.uncommitted
  cfg : s'.cfg = s.cfg
  sm : s'.superMajority = s.superMajority

theorem Same.refl (s : Node P) : Same s s := ⟨rfl, rfl, rfl, rfl, rfl, rfl⟩

theorem Same.trans {s1 s2 s3 : Node P} (h : Same s1 s2) (k : Same s2 s3) : Same s1 s3 :=
  ⟨k.me.trans h.me, k.group.trans h.group, k.mem.trans h.mem, k.unc.trans h.unc, k.cfg.trans h.cfg, k.sm.trans h.sm⟩

theorem Same.membership (h : Same s s') : s'.membership = s.membership := by unfold Node.membership; rw [h.unc, h.mem]
theorem Same.quorum (h : Same s s') : s'.quorum = s.quorum := by unfold Node.quorum; rw [h.membership, h.sm]

/-- Nor of its log, its indexes and their leaves. -/
structure Bare (s s' : Node P) : Prop extends Same s s' where
  log : s'.log = s.log
  commit : s'.commit = s.commit
  promise : s'.promise = s.promise
  cleaf : s'.commitLeaf = s.commitLeaf
  pleaf : s'.promiseLeaf = s.promiseLeaf

theorem Bare.trans {s1 s2 s3 : Node P} (h : Bare s1 s2) (k : Bare s2 s3) : Bare s1 s3 :=
  ⟨h.toSame.trans k.toSame, k.log.trans h.log, k.commit.trans h.commit, k.promise.trans h.promise, k.cleaf.trans h.cleaf, k.pleaf.trans h.pleaf⟩

theorem Bare.agrees (h : Bare s s') (ha : s.Agrees) : s'.Agrees := by
  unfold Agrees
  rw [h.log, h.commit, h.promise, h.cleaf, h.pleaf]
  exact ha

theorem Close.same (h : Close v L s F) (hl : s'.log = s.log) (hc : s'.commit = s.commit) (hp : s'.promise = s.promise)
    (hu : s'.uncommitted = s.uncommitted) (ha : s'.Agrees) : Close v L s' F :=
  ⟨by rw [hl]; exact h.log, h.pos, h.one, by rw [hp]; exact h.promised, by rw [hp, hc]; exact h.le, by rw [hp]; exact h.reach,
    by rw [hl]; exact h.room, by rw [hl, hc]; exact h.old, by rw [hu]; exact h.unc, by rw [hc]; exact h.plain, h.fits, ha⟩

theorem Close.bare (h : Close v L s F) (b : Bare s s') : Close v L s' F := h.same b.log b.commit b.promise b.unc (b.agrees h.agrees)

theorem updateTerm_to {T : Nat} (hT : s.term ≤ T) (hr : s.role ≠ .leader ∨ s.term < T) (h : s.updateTerm v T = .ok s') :
    s'.term = T ∧ s'.role ≠ .leader ∧ Bare s s' := by
  unfold updateTerm at h
  split at h
  · cases h
    exact ⟨by omega, hr.resolve_right (by omega), ⟨rfl, rfl, rfl, rfl, rfl, rfl⟩, rfl, rfl, rfl, rfl, rfl⟩
  · obtain ⟨⟨x, s2⟩, h2, h1⟩ := Out.bind_eq_ok.mp h
    have : ∃ r, s2 = { s with term := T, rng := r } := by
      unfold keptTicks at h2
      split at h2
      · cases h2; exact ⟨_, rfl⟩
      · cases h2; exact ⟨_, rfl⟩
      · exact ⟨_, randomElection_eq h2⟩
    obtain ⟨r, rfl⟩ := this
    cases h1
    exact ⟨rfl, by simp [setRole], ⟨rfl, rfl, rfl, rfl, rfl, rfl⟩, rfl, rfl, rfl, rfl, rfl⟩

theorem becomeFollower_to {c : P} (hr : s.role ≠ .leader) {x : Option (Node P)} (h : s.becomeFollower v c = .ok x) :
    ∃ s', x = some s' ∧ s'.role = .follower ∧ s'.term = s.term ∧ Bare s s' := by
  unfold becomeFollower at h
  split at h
  · obtain ⟨⟨t, s2⟩, h2, h1⟩ := Out.bind_eq_ok.mp h
    have e := randomElection_eq h2
    subst e
    cases h1
    exact ⟨_, rfl, rfl, rfl, ⟨rfl, rfl, rfl, rfl, rfl, rfl⟩, rfl, rfl, rfl, rfl, rfl⟩
  · rename_i hx
    obtain ⟨⟨t, s2⟩, h2, h1⟩ := Out.bind_eq_ok.mp h
    have e := randomElection_eq h2
    subst e
    cases h1
    exact ⟨_, rfl, hx, rfl, ⟨rfl, rfl, rfl, rfl, rfl, rfl⟩, rfl, rfl, rfl, rfl, rfl⟩
  · rename_i hx
    exact absurd hx hr

/-- `log_ok` says that the two logs are equal so far. -/
theorem Close.logOk (h : Close v L s F) (hL : Line v L) {i : Nat} (hc : s.commit ≤ i) (hi : i ≤ L.length) :
    s.logOk i (termOf L i) = true ↔ F.take i = L.take i ∧ i ≤ F.length := by
  unfold Node.logOk
  rcases Nat.eq_zero_or_pos i with rfl | hpos
  · simp
  obtain ⟨e', he'⟩ : ∃ e, L[i - 1]? = some e := ⟨_, List.getElem?_eq_getElem (show i - 1 < L.length by omega)⟩
  have ho : s.log.oldest ≤ i := (h.reaches hc).resolve_left (by omega)
  have e1 : termOf L i = e'.term := by
    have := termOf_succ he'
    rwa [show i - 1 + 1 = i by omega] at this
  rw [Bool.or_eq_true, Bool.and_eq_true, decide_eq_true_eq, decide_eq_true_eq, h.log.termAt' (.inr ho), h.log.at? ho, e1]
  constructor
  · rintro (h0 | ⟨h1, h2⟩)
    · omega
    obtain ⟨e, he⟩ := Option.isSome_iff_exists.mp h1
    have e2 := termOf_succ he
    rw [show i - 1 + 1 = i by omega] at e2
    have h3 := h.one _ _ _ he he' (by omega)
    rw [show i - 1 + 1 = i by omega] at h3
    refine ⟨h3, ?_⟩
    by_contra hx
    rw [List.getElem?_eq_none (by omega)] at he
    cases he
  · rintro ⟨h1, h2⟩
    have h3 := get_of_take h1 (show i - 1 < i by omega)
    refine .inr ⟨by rw [h3, he']; rfl, ?_⟩
    rw [he'] at h3
    have e2 := termOf_succ h3
    rw [show i - 1 + 1 = i by omega] at e2
    exact e2.symm

/-- The follower's indexes after a request whose entries it has all taken over. -/
theorem Close.finish (h : Close v L s F) (hp : ∀ n, v.path n = true) {c : P} {lp cm pm : Nat} (hcp : cm ≤ pm) (hpl : pm ≤ lp)
    (hF : F.take lp = L.take lp) (hl : lp ≤ F.length) (hc : s.commit ≤ lp) (k : s.finishAppend v lp cm pm c = .ok s') :
    Same s s' ∧ s'.term = s.term ∧ s'.role = s.role ∧ Close v L s' F ∧ s.commit ≤ s'.commit ∧ s'.commit ≤ lp ∧ pm ≤ s'.promise ∧
      (c ≠ s.me → (some c, (⟨s.group, s.term, .appResp true lp F.length (min s'.promise lp) (hashOf L lp)⟩ : Msg)) ∈ s'.sendable) := by
  have fin : ∀ {s1 : Node P}, Same s s1 → s1.term = s.term → s1.role = s.role → Close v L s1 F → s.commit ≤ s1.commit → s1.commit ≤ lp → pm ≤ s1.promise →
      s1.acceptAppend lp c = .ok s' → Same s s' ∧ s'.term = s.term ∧ s'.role = s.role ∧ Close v L s' F ∧ s.commit ≤ s'.commit ∧ s'.commit ≤ lp ∧ pm ≤ s'.promise ∧
      (c ≠ s.me → (some c, (⟨s.group, s.term, .appResp true lp F.length (min s'.promise lp) (hashOf L lp)⟩ : Msg)) ∈ s'.sendable) := by
    intro s1 h1 h2 h3 h4 hm h5 h6 k1
    unfold acceptAppend at k1
    rw [h4.log.lastIdx, h1.group, h2] at k1
    have e1 : hashOf F lp = hashOf L lp := hashOf_take hF (le_refl _)
    have e2 := h4.log.hashAt (i := lp) (h4.reaches h5)
    rcases addSendable_eq k1 with e | ⟨e, _⟩
    · rw [e]
      refine ⟨h1, h2, h3, h4, hm, h5, h6, fun hne => ?_⟩
      unfold addSendable at k1
      simp only at k1
      rw [if_neg (by rw [h1.me]; exact hne)] at k1
      rw [e] at k1
      have := congrArg (fun o : Out (Node P) => match o with
        | .ok s => s.sendable.length
        | _ => 0) k1
      simp at this
    · rw [e]
      refine ⟨⟨h1.me, h1.group, h1.mem, h1.unc, h1.cfg, h1.sm⟩, h2, h3, h4.same rfl rfl rfl rfl h4.agrees, hm, h5, h6, fun _ => ?_⟩
      refine List.mem_append_right _ (List.mem_singleton.mpr ?_)
      rw [← e1, ← e2]
      cases s1.log.at? lp <;> rfl
  unfold finishAppend at k
  rw [min_eq_left (le_trans hcp hpl), min_eq_left hpl] at k
  split at k
  · obtain ⟨⟨s1, b⟩, h1, k⟩ := Out.bind_eq_ok.mp k
    simp only at k
    have hb : b = true := by
      cases b with
      | true => rfl
      | false => exact absurd h.agrees (verifyMerkle_false hp h1)
    subst hb
    rw [if_neg (by simp)] at k
    obtain ⟨w, rfl⟩ := verifyMerkle_eq h1
    obtain ⟨s2, h2, k⟩ := Out.bind_eq_ok.mp k
    have hfl : ({ s with walks := w } : Node P).followLeader cm pm = { s with walks := w, promise := max pm s.promise, commit := max cm s.commit } := by
      rw [followLeader_flat]
      split
      · rename_i hx
        rw [maybeChangeUncommitted_nil (by exact h.unc), max_eq_left (le_of_lt hx)]
      · rename_i hx
        rw [max_eq_right (not_lt.mp hx)]
    rw [hfl] at h2
    have ag := updateMerkle_agrees h2
    obtain ⟨x, y, _, _, rfl⟩ := updateMerkle_eq h2
    have hle := h.le
    have hre := h.reach
    refine fin (s1 := { s with walks := w, promise := max pm s.promise, commit := max cm s.commit, commitLeaf := x, promiseLeaf := y })
      ⟨rfl, rfl, rfl, rfl, rfl, rfl⟩ rfl rfl ?_ (le_max_right _ _) (max_le (le_trans hcp hpl) hc) (le_max_left _ _) k
    refine ⟨h.log, h.pos, h.one, ?_, max_le_max hcp hle, max_le (le_trans hpl hl) hre, h.room, ?_, h.unc, ?_, h.fits, ag⟩
    · show F.take (max pm s.promise) = L.take (max pm s.promise)
      rcases le_total pm s.promise with hx | hx
      · rw [max_eq_right hx]; exact h.promised
      · rw [max_eq_left hx]; exact take_of_take hF hpl
    · have := h.old
      show s.log.oldest ≤ max 1 (max cm s.commit)
      omega
    · intro i e hi
      exact h.plain i e (le_trans (le_max_right _ _) hi)
  · rename_i hx
    exact fin (Same.refl s) rfl rfl h (le_refl _) hc (by omega) k

/-- A follower refuses the request, or takes over all its entries. -/
theorem Close.receive (h : Close v L s F) (hL : Line v L) (hp : ∀ n, v.path n = true) {c : P} {T i n cm pm : Nat} (hca : c ∈ s.membership.all)
    (hme : c ≠ s.me) (hT : s.term ≤ T) (hr : s.role ≠ .leader ∨ s.term < T) (hc : s.commit ≤ i) (hi : i + n ≤ L.length) (hcp : cm ≤ pm)
    (hpl : pm ≤ i + n)
    (k : s.receive v ⟨s.group, T, .appReq i (termOf L i) (hashOf L i) ((L.drop i).take n) cm pm⟩ c = .ok s') :
    Same s s' ∧ s'.term = T ∧ s'.role ≠ .leader ∧
      ((¬ (F.take i = L.take i ∧ i ≤ F.length) ∧ Close v L s' F ∧ s'.commit = s.commit ∧ s'.promise = s.promise ∧
          (some c, (⟨s.group, T, .appResp false s.commit F.length s.promise (hashOf L s.commit)⟩ : Msg)) ∈ s'.sendable) ∨
        ((F.take i = L.take i ∧ i ≤ F.length) ∧ ∃ F', Close v L s' F' ∧ F'.take (i + n) = L.take (i + n) ∧ i + n ≤ F'.length ∧ s.commit ≤ s'.commit ∧ s'.commit ≤ i + n ∧
          pm ≤ s'.promise ∧
          (some c, (⟨s.group, T, .appResp true (i + n) F'.length (min s'.promise (i + n)) (hashOf L (i + n))⟩ : Msg)) ∈ s'.sendable)) := by
  have hsz := hL.size
  have hlen : ((L.drop i).take n).length = n := by rw [List.length_take, List.length_drop]; omega
  have hpre : (L.drop i).take n <+: L.drop i := List.take_prefix _ _
  unfold Node.receive at k
  obtain ⟨er, hval, k⟩ := Out.bind_eq_ok.mp k
  have e0 : er = none := by
    have hall := h.checkAll hL ((L.drop i).take n) (i + 1) (by omega) (by omega) (by rw [Nat.add_sub_cancel]; exact hpre)
    simp only [validate, ne_eq, not_true_eq_false, if_false, hca, h.check hL hc (show i ≤ L.length by omega), Out.bind_ok, hlen] at hval
    rw [wadd_of_lt (by omega), wadd_of_lt (by omega), if_neg (by omega), if_neg (by omega), if_neg (by omega), hall] at hval
    cases hval; rfl
  subst e0
  simp only at k
  obtain ⟨s1, h1, k⟩ := Out.bind_eq_ok.mp k
  obtain ⟨t1, r1, b1⟩ := updateTerm_to hT hr h1
  obtain ⟨s2, h2, k⟩ := Out.bind_eq_ok.mp k
  unfold markSeen at h2
  rw [if_neg r1] at h2
  simp only [dispatch] at h2
  unfold handleAppendRequest at h2
  rw [if_neg (by omega), if_pos t1.symm] at h2
  obtain ⟨x, h3, h2⟩ := Out.bind_eq_ok.mp h2
  obtain ⟨s3, rfl, r3, t3, b3⟩ := becomeFollower_to r1 h3
  simp only at h2
  have n1 := h.bare b1
  have n3 := n1.bare b3
  have b13 := b1.trans b3
  have hlo := n1.logOk hL (i := i) (by rw [b1.commit]; exact hc) (by omega)
  have last : ∀ {sx : Node P}, sx.role = .follower → sx.maybeChangeState v = .ok s' → Same sx s' ∧ s'.term = sx.term ∧ s'.role = .follower ∧
      s'.commit = sx.commit ∧ s'.promise = sx.promise ∧ s'.sendable = sx.sendable ∧ ∀ G, Close v L sx G → Close v L s' G := by
    intro sx hx kx
    obtain ⟨w, a, b, e, ag⟩ := maybeChangeState_idle (by rw [hx]; simp) (fun hy => by rw [hx] at hy; cases hy) kx
    rw [e] at ag ⊢
    exact ⟨⟨rfl, rfl, rfl, rfl, rfl, rfl⟩, rfl, hx, rfl, rfl, rfl, fun G hG => hG.same rfl rfl rfl rfl (ag hG.agrees)⟩
  unfold followAppend at h2
  split at h2
  · rename_i hx
    have hno : s1.logOk i (termOf L i) = false := by
      rcases hx with hx | hx
      · omega
      · exact hx.2.2
    unfold rejectAppend at h2
    rw [addSendable_one (by rw [b13.me]; exact hme)] at h2
    cases h2
    obtain ⟨c1, c2, c3, c4, c5, c6, c7⟩ := last (by exact r3) k
    refine ⟨b13.toSame.trans (⟨c1.me, c1.group, c1.mem, c1.unc, c1.cfg, c1.sm⟩), c2.trans (t3.trans t1), by rw [c3]; simp, .inl ⟨?_, ?_, ?_, ?_, ?_⟩⟩
    · intro hy
      rw [hlo.mpr hy] at hno
      cases hno
    · exact c7 F (n3.same rfl rfl rfl rfl n3.agrees)
    · rw [c4]; exact b13.commit
    · rw [c5]; exact b13.promise
    · rw [c6]
      refine List.mem_append_right _ (List.mem_singleton.mpr ?_)
      have e1 := n3.log.hashAt (i := s3.commit) (n3.reaches (le_refl _))
      rw [hashOf_take n3.promised n3.le] at e1
      rw [n3.log.lastIdx, b13.group, t3, t1, ← b13.commit, ← b13.promise, ← e1]
      cases s3.log.at? s3.commit <;> rfl
  · rename_i hx
    have hyes : s1.logOk i (termOf L i) = true := by
      cases hb : s1.logOk i (termOf L i) with
      | true => rfl
      | false => exact absurd (.inr ⟨by omega, r3, hb⟩) hx
    obtain ⟨q1, q2⟩ := hlo.mp hyes
    obtain ⟨_, _, h2⟩ := Out.bind_eq_ok.mp h2
    obtain ⟨_, _, h2⟩ := Out.bind_eq_ok.mp h2
    obtain ⟨_, _, h2⟩ := Out.bind_eq_ok.mp h2
    obtain ⟨⟨s4, lp⟩, h4, h2⟩ := Out.bind_eq_ok.mp h2
    simp only at h2
    rw [wadd_of_lt (by omega)] at h4
    obtain ⟨d1, F', l, y, d2, d3, d4, d5⟩ := Close.loop hL _ n3 hpre q1 q2 (by rw [b13.commit]; exact hc) h4
    rw [hlen] at d1
    subst d1
    obtain ⟨f1, f2, f3, f4, f0, f5, f6, f7⟩ := d3.finish hp hcp hpl d4 d5 (by rw [d2]; show s3.commit ≤ _; rw [b13.commit]; omega) h2
    have e4 : Same s3 s4 := by rw [d2]; exact ⟨rfl, rfl, rfl, rfl, rfl, rfl⟩
    have t4 : s4.term = T := by rw [d2]; exact t3.trans t1
    have r4 : s4.role = .follower := by rw [d2]; exact r3
    have all := b13.toSame.trans (e4.trans f1)
    obtain ⟨c1, c2, c3, c4, c5, c6, c7⟩ := last (f3.trans r4) k
    refine ⟨all.trans c1, c2.trans (f2.trans t4), by rw [c3]; simp, .inr ⟨⟨q1, q2⟩, F', c7 F' f4, d4, d5, ?_, by rw [c4]; exact f5, by rw [c5]; exact f6, ?_⟩⟩
    · rw [c4]
      refine le_trans ?_ f0
      rw [d2]
      show s.commit ≤ s3.commit
      rw [b13.commit]
    have := f7 (by rw [(b13.toSame.trans e4).me]; exact hme)
    rw [c6, c5]
    rw [(b13.toSame.trans e4).group, t4] at this
    exact this

end Svr.Raft
