import Verif.Raft.Sync4

/-!
# Leader and follower exchange messages until the follower has the leader's log
-/

namespace Svr.Raft
open Node
variable {P : Type} [LinearOrder P]

/-- The leader `c` of term `T` with the log `L`. -/
structure Boss (L : List Entry) (T : Nat) (c : P) (s : Node P) : Prop where
  lead : Lead L s
  term : s.term = T
  me : s.me = c
  ticks : s.cfg.electionTicks ≠ 0
  nodup : s.membership.all.Nodup

/-- The replica `q` that follows it; the leader's log starts at `o`. -/
structure Mate (v : Env P) (L : List Entry) (T : Nat) (c : P) (G o : Nat) (q : P) (s : Node P) (F : List Entry) : Prop where
  near : Close v L s F
  me : s.me = q
  knows : c ∈ s.membership.all
  group : s.group = G
  term : s.term ≤ T
  role : s.role ≠ .leader ∨ s.term < T
  ticks : s.cfg.electionTicks ≠ 0
  old : o ≤ max 1 s.commit

theorem Boss.next {L : List Entry} {T : Nat} {c : P} {s s' : Node P} (h : Boss L T c s) (k : Lead L s') (l : Leads' s s') : Boss L T c s' :=
  ⟨k, l.term.trans h.term, l.me.trans h.me, by rw [l.cfg]; exact h.ticks, by rw [l.membership]; exact h.nodup⟩

theorem Mate.quiet {v : Env P} {L : List Entry} {T : Nat} {c : P} {G o : Nat} {q : P} {s : Node P} {F : List Entry} (h : Mate v L T c G o q s F) :
    Mate v L T c G o q { s with sendable := [] } F :=
  ⟨h.near.same rfl rfl rfl rfl h.near.agrees, h.me, h.knows, h.group, h.term, h.role, h.ticks, h.old⟩

theorem Lead.quiet {L : List Entry} {s : Node P} (h : Lead L s) : Lead L { s with sendable := [] } :=
  ⟨h.role, h.stays, h.log, h.unc, h.le, h.marks, h.agrees⟩

/-- `c` has a request for `q` on its way which says that `q` has its log up to `i`. -/
structure Asking (W : World P) (c q : P) (L : List Entry) (P0 : Nat) (s : Node P) (r : Repl) (i n : Nat) : Prop where
  row : s.followers.find q = some r
  next : r.next = i + 1
  inflight : r.inflight = some (i + n)
  fits : i + n ≤ L.length
  some : r.probe = false → i < L.length → 0 < n
  sent : ∃ cm pm, (c, Option.some q, (⟨s.group, s.term, .appReq i (termOf L i) (hashOf L i) ((L.drop i).take n) cm pm⟩ : Msg)) ∈ W.net ∧ cm ≤ pm ∧
    pm ≤ i + n ∧ min P0 (i + n) ≤ pm

/-- `q` is up to date, and nothing else of interest has changed. -/
structure Synced (v : Env P) (W : World P) (c q : P) (L : List Entry) (T P0 : Nat) (G o : Nat) (s sq : Node P) (W' : World P) : Prop where
  leader : ∃ s' r, W'.node c = some s' ∧ Boss L T c s' ∧ Leads' s s' ∧ s.promise ≤ s'.promise ∧ s'.followers.find q = some r ∧
    L.length ≤ r.mtch ∧ min P0 L.length ≤ r.promise ∧ ∀ x, x ≠ q → (s'.followers.find x).map course = (s.followers.find x).map course
  follower : ∃ sq' F', W'.node q = some sq' ∧ Mate v L T c G o q sq' F' ∧ Same sq sq'
  other : ∀ x, x ≠ c → x ≠ q → W'.node x = W.node x

open Classical in
/-- How far the follower is from the leader's log. -/
noncomputable def distance (L F : List Entry) (r : Repl) (i : Nat) : Nat :=
  if F.take i = L.take i ∧ i ≤ F.length then 2 * (L.length - i) + (if r.probe then 1 else 0) else 2 * L.length + 2 + i

theorem Among.exchange {g : Setting P} {W0 : World P} {A : P → Prop} (hR : Reachable g W0) (hm : g.m0.Good) (hsm : g.sm < 2 ^ 63) {c q : P} (hA : A c)
    (hAq : A q) (hne : q ≠ c) {T P0 : Nat} (hTS : T + 1 < SZ) {L : List Entry} (hL : Line g.calm L) : ∀ (d : Nat) {W : World P} {s sq : Node P}
    {F : List Entry} {r : Repl} {i n : Nat}, distance L F r i < d → Among g A W0 W → W.node c = some s → W.node q = some sq → Boss L T c s →
    q ∈ s.membership.all → P0 ≤ s.promise → Mate g.calm L T c s.group s.log.oldest q sq F → Asking W c q L P0 s r i n → sq.commit ≤ i →
    ∃ W', Among g A W0 W' ∧ Synced g.calm W c q L T P0 s.group s.log.oldest s sq W'
  | 0, W, s, sq, F, r, i, n, hd, _, _, _, _, _, _, _, _, _ => absurd hd (Nat.not_lt_zero _)
  | d + 1, W, s, sq, F, r, i, n, hd, k, hc, hq, B, hqa, hP, M, K, hi => by
    have hpath : ∀ n, g.calm.path n = true := fun _ => rfl
    have hsz := hL.size
    have hfit := M.near.fits
    have hlast := M.near.log.lastIdx
    have hLlast := B.lead.log.lastIdx
    have hiL : i + n ≤ L.length := K.fits
    obtain ⟨cm, pm, hnet, hcp, hpl, hP0⟩ := K.sent
    have hlen : ((L.drop i).take n).length = n := by rw [List.length_take, List.length_drop]; omega
    rw [B.term, ← M.group] at hnet
    -- the request arrives
    obtain ⟨sq1, o, W1, hrun, k1, t1⟩ := k.act hR hm hsm hAq hq M.ticks (.receive c _) ⟨hA, _, hnet, .inr rfl⟩
      ⟨by rw [hlast]; show F.length + ((L.drop i).take n).length + 3 < SZ; omega, by have := M.term; omega, hTS, by show T < SZ; omega,
        fun e he => by
          have hmem : e ∈ L := List.mem_of_mem_drop (List.mem_of_mem_take he)
          obtain ⟨j, hj⟩ := List.getElem?_of_mem hmem
          exact (hL.chain _ _ hj).fits⟩
      (fun m h => by cases h; exact hne rfl) (fun h => by cases h) (fun h => by cases h)
    obtain ⟨_, h2, e⟩ := Out.bind_eq_ok.mp hrun
    cases e
    obtain ⟨sm1, st1, sr1, hres⟩ := M.near.receive hL hpath M.knows (by rw [M.me]; exact hne.symm) M.term M.role hi hiL hcp hpl h2
    have mate : ∀ {F'}, Close g.calm L sq1 F' → sq.commit ≤ sq1.commit → Mate g.calm L T c s.group s.log.oldest q sq1 F' := fun hN hle =>
      ⟨hN, sm1.me.trans M.me, by rw [sm1.membership]; exact M.knows, sm1.group.trans M.group, le_of_eq st1, .inl sr1, by rw [sm1.cfg]; exact M.ticks,
        by have := M.old; omega⟩
    -- the reply is sent
    have hlog1 : sq1.log.lastIdx + 3 < SZ := by
      rcases hres with ⟨_, hN, _⟩ | ⟨_, F', hN, _⟩
      · rw [hN.log.lastIdx]; have := hN.fits; omega
      · rw [hN.log.lastIdx]; have := hN.fits; omega
    obtain ⟨W2, k2, t2⟩ := k1.flush hAq t1.node ⟨hlog1, by omega⟩
    have hc2 : W2.node c = some s := by rw [t2.other c hne.symm, t1.other c hne.symm]; exact hc
    -- a reply arrives and the leader acts on it
    have reply : ∀ {b : Bool} {m last pr : Nat} {hh : Bytes}, (some c, (⟨sq.group, T, .appResp b m last pr hh⟩ : Msg)) ∈ sq1.sendable →
        ∃ s1 W3, s.receive g.calm ⟨s.group, s.term, .appResp b m last pr hh⟩ q = .ok s1 ∧ Among g A W0 W3 ∧ Turn W2 c s1 [] W3 := by
      intro b m last pr hh hmem
      have hvote : (q, some c, (⟨s.group, s.term, .appResp b m last pr hh⟩ : Msg)) ∈ W2.net := by
        rw [t2.net]
        refine List.mem_append_right _ (List.mem_map.mpr ⟨_, hmem, ?_⟩)
        rw [M.group, B.term]
      obtain ⟨s1, o, W3, hrun, k3, t3⟩ := k2.act hR hm hsm hA hc2 B.ticks (.receive q _) ⟨hAq, some c, hvote, .inr rfl⟩
        ⟨by rw [hLlast]; show L.length + 0 + 3 < SZ; omega, by rw [B.term]; omega, by show s.term + 1 < SZ; rw [B.term]; omega,
          by show s.term < SZ; rw [B.term]; omega, trivial⟩
        (fun m h => by cases h; exact hne rfl) (fun h => by cases h) (fun h => by cases h)
      obtain ⟨_, h3, e⟩ := Out.bind_eq_ok.mp hrun
      cases e
      exact ⟨_, W3, h3, k3, t3⟩
    -- what holds once it has acted
    have after : ∀ {s1 : Node P} {W3 : World P} {r1 : Repl}, Among g A W0 W3 → Turn W2 c s1 [] W3 →
        ({ s with followers := s.followers.insert q r1 } : Node P).maybeChangeState g.calm = .ok s1 → r1.promise ≤ r1.mtch →
        Boss L T c s1 ∧ Leads' s s1 ∧ s.promise ≤ s1.promise ∧
        (∀ x, x ≠ q → (s1.followers.find x).map course = (s.followers.find x).map course) ∧
        (∃ r2, s1.followers.find q = some r2 ∧ course r2 = course r1) ∧
        W3.node q = some { sq1 with sendable := [] } ∧ (∀ x, x ≠ c → x ≠ q → W3.node x = W.node x) ∧
        ∀ j, r1.next = j + 1 → r1.inflight = none → r1.probe = true ∨ j < L.length → j ≤ L.length → s.log.oldest ≤ max 1 j → ∃ W4 n2 r2,
          Among g A W0 W4 ∧ W4.node c = some { s1 with sendable := [] } ∧ W4.node q = some { sq1 with sendable := [] } ∧
          (∀ x, x ≠ c → x ≠ q → W4.node x = W.node x) ∧ course r2 = course r1 ∧ Asking W4 c q L P0 { s1 with sendable := [] } r2 j n2 := by
      intro s1 W3 r1 k3 t3 hmc hmk
      have h0 := B.lead.row (q := q) hmk
      obtain ⟨a1, a2, a3, a4, a5, a6, a7⟩ := h0.settle hL hpath hmc
      have l1 : Leads' s s1 := ⟨⟨a2.me, a2.group, a2.mem, a2.unc, a2.cfg, a2.sm⟩, a2.log, a2.term, a2.role, a2.stays⟩
      have hn3 : W3.node q = some { sq1 with sendable := [] } := by rw [t3.other q hne]; exact t2.node
      have ho3 : ∀ x, x ≠ c → x ≠ q → W3.node x = W.node x := by
        intro x h1 h2
        rw [t3.other x h1, t2.other x h2, t1.other x h2]
      have hrow := course_find a5 (p := q) (r := r1) (OMap.find_insert_self _ _ _)
      refine ⟨B.next a1 l1, l1, a3, ?_, hrow, hn3, ho3, ?_⟩
      · intro x hx
        rw [a5 x]
        show ((s.followers.insert q r1).find x).map course = _
        rw [OMap.find_insert_ne _ _ hx.symm]
      · intro j hj hf hdue hjL ho
        obtain ⟨n2, r2, b1, b2, b3, b4, b5⟩ := a7 q r1 j B.nodup hqa (by rw [show ({ s with followers := s.followers.insert q r1 } : Node P).me = s.me from rfl, B.me]; exact hne)
          (OMap.find_insert_self _ _ _) hj hf hdue hjL ho
        obtain ⟨W4, k4, t4⟩ := k3.flush hA t3.node ⟨by rw [a1.log.lastIdx]; omega, by rw [l1.term, B.term]; omega⟩
        obtain ⟨r3, c1, c2⟩ := hrow
        rw [b4] at c1
        cases c1
        refine ⟨W4, n2, r2, k4, t4.node, by rw [t4.other q hne]; exact hn3, fun x h1 h2 => by rw [t4.other x h1]; exact ho3 x h1 h2, c2, ?_⟩
        have c3 := c2
        simp only [course, Prod.mk.injEq] at c3
        refine ⟨b4, by rw [c3.1]; exact hj, b5, b2, by rw [c3.2.2.2]; exact b3, min s1.commit (j + n2), min s1.promise (j + n2), ?_, ?_, min_le_right _ _, ?_⟩
        · rw [t4.net]
          exact List.mem_append_right _ (List.mem_map.mpr ⟨_, b1, rfl⟩)
        · exact min_le_min_right _ a1.le
        · exact min_le_min_right _ (le_trans hP a3)
    have again : ∀ {s1 : Node P} {W4 : World P} {F' : List Entry} {r2 : Repl} {j n2 : Nat}, distance L F' r2 j < d → Among g A W0 W4 →
        W4.node c = some { s1 with sendable := [] } → W4.node q = some { sq1 with sendable := [] } → Boss L T c s1 → Leads' s s1 → s.promise ≤ s1.promise →
        (∀ x, x ≠ q → (s1.followers.find x).map course = (s.followers.find x).map course) →
        Mate g.calm L T c s.group s.log.oldest q sq1 F' → (∀ x, x ≠ c → x ≠ q → W4.node x = W.node x) →
        Asking W4 c q L P0 { s1 with sendable := [] } r2 j n2 → sq1.commit ≤ j →
        ∃ W', Among g A W0 W' ∧ Synced g.calm W c q L T P0 s.group s.log.oldest s sq W' := by
      intro s1 W4 F' r2 j n2 hd' k4 hc4 hq4 B1 l1 hp1 hrows M1 ho4 K1 hj
      have M2 := M1.quiet
      have e1 : ({ s1 with sendable := [] } : Node P).group = s.group := l1.group
      have e2 : ({ s1 with sendable := [] } : Node P).log.oldest = s.log.oldest := by show s1.log.oldest = _; rw [l1.log]
      rw [← e1, ← e2] at M2
      obtain ⟨W', k5, S⟩ := Among.exchange hR hm hsm hA hAq hne hTS hL d hd' k4 hc4 hq4
        ⟨B1.lead.quiet, B1.term, B1.me, B1.ticks, B1.nodup⟩ (by show q ∈ s1.membership.all; rw [l1.membership]; exact hqa) (le_trans hP hp1) M2 K1 hj
      rw [e1, e2] at S
      refine ⟨W', k5, ?_, ?_, ?_⟩
      · obtain ⟨s', r', u1, u2, u3, u4, u5, u6, u7, u8⟩ := S.leader
        exact ⟨s', r', u1, u2, l1.trans ⟨⟨u3.me, u3.group.trans l1.group.symm, u3.mem, u3.unc, u3.cfg, u3.sm⟩, u3.log, u3.term, u3.role, u3.stays⟩, le_trans hp1 u4, u5, u6, u7,
          fun x hx => (u8 x hx).trans (hrows x hx)⟩
      · obtain ⟨sq', F2, u1, u2, u3⟩ := S.follower
        exact ⟨sq', F2, u1, u2, sm1.trans ⟨u3.me, u3.group, u3.mem, u3.unc, u3.cfg, u3.sm⟩⟩
      · intro x h1 h2
        rw [S.other x h1 h2]
        exact ho4 x h1 h2
    have hnxt := K.next
    have hmk := B.lead.marks q r K.row
    rcases hres with ⟨hno, hN, hco, hpr, hmem⟩ | ⟨hyes, F', hN, hF', hF2, hco, hco2, hpm, hmem⟩
    · -- refused
      have hle := M.near.le
      have hre := M.near.reach
      have hpL := le_of_take M.near.promised hre
      have hlt : sq.commit < i := by
        by_contra hx
        have : i = sq.commit := by omega
        subst this
        exact hno ⟨take_of_take M.near.promised hle, by omega⟩
      obtain ⟨s1, W3, h3, k3, t3⟩ := reply hmem
      obtain ⟨r1, h4, q1, q2, q3, q4, q5, q6⟩ := B.lead.rejected hqa K.row (by omega) M.old (by omega) hre (by omega) (by omega) (by omega) h3
      obtain ⟨b1, b2, b3, b4, b5, b6, b7, b8⟩ := after k3 t3 h4 (by rw [q1, q2]; exact hmk)
      obtain ⟨W4, n2, r2, d1, d2, d3, d4, d5, d6⟩ := b8 (r1.next - 1) (by omega) q4 (.inl q3) (by omega) (by have := M.old; omega)
      refine again ?_ d1 d2 d3 b1 b2 b3 b4 (mate hN (by omega)) d4 d6 (by omega)
      unfold distance at hd ⊢
      rw [if_neg hno] at hd
      split
      · split <;> omega
      · omega
    · -- accepted
      obtain ⟨s1, W3, h3, k3, t3⟩ := reply hmem
      have hold := M.old
      obtain ⟨r1, h4, q1, q2, q3, q4, q5⟩ := B.lead.accepted hqa K.row hiL (by omega) hF2 (le_trans (min_le_right _ _) hF2) (by omega) (by omega) K.inflight h3
      obtain ⟨b1, b2, b3, b4, b5, b6, b7, b8⟩ := after k3 t3 h4 (by rw [q1, q2]; exact max_le_max (min_le_right _ _) hmk)
      by_cases hend : i + n = L.length
      · refine ⟨W3, k3, ⟨s1, ?_⟩, ⟨_, F', b6, (mate hN hco).quiet, sm1.trans ⟨rfl, rfl, rfl, rfl, rfl, rfl⟩⟩, b7⟩
        obtain ⟨r2, c1, c2⟩ := b5
        simp only [course, Prod.mk.injEq] at c2
        refine ⟨r2, t3.node, b1, b2, b3, c1, by rw [c2.2.1, q1]; omega, ?_, b4⟩
        rw [c2.2.2.1, q2]
        rw [hend] at hP0 hpl ⊢
        omega
      · obtain ⟨W4, n2, r2, d1, d2, d3, d4, d5, d6⟩ := b8 (i + n) q5 q4 (.inr (by omega)) hiL (by omega)
        refine again ?_ d1 d2 d3 b1 b2 b3 b4 (mate hN hco) d4 d6 hco2
        have hpro : r2.probe = false := by
          simp only [course, Prod.mk.injEq] at d5
          rw [d5.2.2.2]; exact q3
        have hsome := K.some
        unfold distance at hd ⊢
        rw [if_pos hyes] at hd
        rw [if_pos ⟨hF', hF2⟩, hpro]
        simp only [Bool.false_eq_true, if_false]
        cases hb : r.probe with
        | true => rw [hb] at hd; simp only [if_true] at hd; omega
        | false =>
          rw [hb] at hd
          have := hsome hb (by omega)
          simp only [Bool.false_eq_true, if_false] at hd
          omega

end Svr.Raft
