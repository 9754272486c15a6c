import Verif.Raft.Crown
import Verif.Props.Linear
import Verif.Props.Regroup

/-!
# C79: the group answers as one database would, also while its voters change

As C78, for a super majority of at least 1. That a request answered before another one is taken comes first needs that nobody joins who is
a voter in the log it is given: in the code a replica joins first, asks to become a member, and is made a voter later.
-/

namespace Svr.Props.Order
open Svr Svr.Core Svr.Raft Svr.Raft.Node Svr.Spec Svr.Props.Membership Svr.Props.RaftGroup Svr.Props.Matching Svr.Props.Complete Svr.Props.Grid Svr.Props.Linear

variable {P : Type} [LinearOrder P] {D L E : Type} {c : Site P D L E}

/-- The future in which nobody joins who is a voter in the log it is given. -/
inductive GTidy (c : Site P D L E) (G : Grid P D E) : Grid P D E → Prop
  | now : GTidy c G G
  | next {G1 G2 : Grid P D E} (h : GTidy c G G1) (k : GNext c G1 G2) (ho : Outside c.raft G1.W G2.W) : GTidy c G G2

theorem GTidy.future {G G' : Grid P D E} (h : GTidy c G G') : GFuture c G G' := by
  induction h with
  | now => exact .now
  | next _ k _ ih => exact .next ih k

theorem GTidy.trans {A B C : Grid P D E} (h : GTidy c A B) (k : GTidy c B C) : GTidy c A C := by
  induction k with
  | now => exact h
  | next _ k ho ih => exact .next ih k ho

theorem GNext.tidy {G G' : Grid P D E} (h : GNext c G G') (ho : Outside c.raft G.W G'.W) : Tidy c.raft G.W G'.W := by
  cases h with
  | start p s rand path max cfg hp h => exact .next .now (.start p s rand path max cfg hp h) ho
  | join p q s sq a rand path log cfg hp hq hs ha hl hb hf h => exact .next .now (.join p q s sq rand path log cfg hp hq ha hl hb hf h) ho
  | call p s s' op o rand path hp hd hf h hne => exact .next .now (.call p s s' op o rand path hp hd hf h) ho
  | add => exact .now
  | commit p s s' a a' i e path hp hs hf h ht =>
    exact .next .now (.call (g := c.raft) p s s' .takeCommitted (.committed (some (i, e))) (fun _ => 0) (fun _ => true) hp trivial hf
      (by simp [Op.run, h])) ho

theorem GTidy.raft {G G' : Grid P D E} (h : GTidy c G G') : Tidy c.raft G.W G'.W := by
  induction h with
  | now => exact .now
  | next _ k ho ih => exact Tidy.trans ih (GNext.tidy k ho)

theorem small {g : Setting P} (hg : Proper g) {W : World P} {G : Bytes × Bytes → Prop} (hv : Changing g W) : Small (g.ctx G (· ∈ W.asked)) := by
  refine ⟨hg.wf, by have := hg.len; exact Nat.lt_of_succ_lt this, hg.sm, fun e m hk hm => ?_⟩
  obtain ⟨gr, h1, h2⟩ := memOf_some hm
  have hk' : e.inner ∈ W.asked := hk
  rw [h1] at hk'
  exact Nat.lt_of_succ_lt (hv.size m ⟨gr, hk', h2⟩).2

/-- No leader appends an entry, with all before it, that ever was in a log at this place before. -/
theorem clash {g : Setting P} (hg : Proper g) {W W' W1 W2 : World P} (h : Tidy g World.empty W) (k : Tidy g W W') (k1 : Tidy g W' W1)
    (k2 : Future g W1 W2) (hn : NoCollision g.v W2.Hashed) (hser : SerInj g.v) (hv : Changing g W2) {p q : P} {i : Nat} {e d : Entry} {s s1 : Node P}
    (he : InLog W p i e ∨ (1 ≤ i ∧ (∃ s, W.node p = some s) ∧ (W.applied p)[i - 1]? = some e)) (hq : W'.node q = some s) (hl : s.role = .leader)
    (hi : i = s.log.lastIdx + 1) (hq1 : W1.node q = some s1) (hl1 : s1.role = .leader) (ht : s1.term = s.term) (hd : s1.log.at? i = some d)
    (hdt : d.term = s.term) (hh : e.hash = d.hash) : False := by
  have sh : W.Shaped g := (show Reachable g W from h.future).shaped
  have sh' : W'.Shaped g := (show Reachable g W' from (h.trans k).future).shaped
  have sh1 : W1.Shaped g := (show Reachable g W1 from ((h.trans k).trans k1).future).shaped
  have hle := k.future.le sh
  have hle1 := k1.future.le sh'
  have hle2 := k2.le sh1
  have hs : Small (g.ctx W2.Hashed (· ∈ W2.asked)) := small hg hv
  obtain ⟨σ, H, i0⟩ := h.crown (G := W2.Hashed) (K := (· ∈ W2.asked)) (fun x hx => hle2.hashed (hle1.hashed (hle.hashed hx)))
    (fun i hi => hle2.asked.subset (hle1.asked.subset (hle.asked.subset hi))) hn hser
  obtain ⟨σ', H', i1, m1⟩ := i0.future k sh (fun x hx => hle2.hashed (hle1.hashed hx)) (fun i hi => hle2.asked.subset (hle1.asked.subset hi)) hn hser
  obtain ⟨σ1, H1, i2, m2⟩ := i1.future k1 sh' (fun x hx => hle2.hashed hx) (fun i hi => hle2.asked.subset hi) hn hser
  obtain ⟨sp, F, hF, hi1, hFe⟩ : ∃ sp F, σ p = some (sp, F) ∧ 1 ≤ i ∧ F[i - 1]? = some e := by
    rcases he with ⟨sp, a1, a2⟩ | ⟨a1, ⟨sp, a3⟩, a2⟩
    · obtain ⟨F, hF⟩ := i0.inv.get a1
      obtain ⟨c1, _, _, c4⟩ := (i0.inv.ok _ _ _ hF).log.at_some a2
      exact ⟨sp, F, hF, c1, c4⟩
    · obtain ⟨F, hF⟩ := i0.inv.get a3
      rw [i0.inv.applied _ _ _ hF, List.getElem?_take] at a2
      split at a2
      · exact ⟨sp, F, hF, a1, a2⟩
      · cases a2
  obtain ⟨F', hF'⟩ := i1.inv.get hq
  obtain ⟨F1, hF1⟩ := i2.inv.get hq1
  have ok := i0.inv.ok _ _ _ hF
  have ok' := i1.inv.ok _ _ _ hF'
  have ok1 := i2.inv.ok _ _ _ hF1
  obtain ⟨_, _, _, hF1d⟩ := ok1.log.at_some hd
  have hpre : F' <+: F1 := (i2.crown.lead _ _ _ hF1 hl1).2 _ (m2 _ _ _ (ht ▸ (i1.crown.lead _ _ _ hF' hl).1))
  have hlen : F'.length = i - 1 := by rw [← ok'.log.lastIdx]; omega
  have heq := chain_inj hn hser ok.chain ok1.chain hFe hF1d hh
  have hF1' : F1.take (i - 1 + 1) = F' ++ [d] := by
    rw [List.take_add_one, hF1d, ← hlen, prefix_take hpre le_rfl, List.take_length]
    rfl
  rw [hF1'] at heq
  obtain ⟨x, hx⟩ := i0.crown.hist _ _ _ hF _ _ hFe
  rw [heq] at hx
  have het : e.term = s.term := by
    have := congrArg (fun l => l[i - 1]?) heq
    simp only [List.getElem?_take, if_pos (Nat.lt_succ_self _)] at this
    rw [hFe, List.getElem?_append_right (by omega), hlen, Nat.sub_self] at this
    rw [Option.some.inj this]
    exact hdt
  rw [het] at hx
  exact i1.crown.top hs i1.inv.ok hF' hl hdt (m1 _ _ _ hx)

/-- Entries with one hash at one place are one, whatever happened in between. -/
theorem one_hash {g : Setting P} {W W' : World P} (h : Reachable g W) (k : Future g W W') (hn : NoCollision g.v W'.Hashed) (hser : SerInj g.v)
    {p q : P} {i : Nat} {e e' : Entry} {s' : Node P} (he : InLog W p i e) (hq : W'.node q = some s') (he' : (W'.applied q)[i - 1]? = some e')
    (hh : e.hash = e'.hash) : e = e' := by
  obtain ⟨σ, σ', h1, h2, _⟩ := two_times h k hn hser
  obtain ⟨s, a1, a2⟩ := he
  obtain ⟨F, hF⟩ := h1.get a1
  obtain ⟨F', hF'⟩ := h2.get hq
  obtain ⟨i1, _, _, i2⟩ := (h1.ok _ _ _ hF).log.at_some a2
  rw [h2.applied _ _ _ hF', List.getElem?_take] at he'
  split at he'
  · have := chain_inj hn hser (h1.ok _ _ _ hF).chain (h2.ok _ _ _ hF').chain i2 he' hh
    have l1 : (F.take (i - 1 + 1))[i - 1]? = some e := by rw [List.getElem?_take, if_pos (by omega)]; exact i2
    rw [this, List.getElem?_take, if_pos (by omega), he'] at l1
    exact (Option.some.inj l1).symm
  · cases he'

/-- The answer of a call is an applied entry, with the request as its content. -/
theorem entry {A A1 B G : Grid P D E} {i : Inner} {idx : Nat} {eff : Option E} (hr : GReachable c A)
    (h : Call c A A1 B i idx eff) (k : GFuture c B G) (hn : NoCollision c.raft.v G.W.Hashed) (hser : SerInj c.raft.v) :
    ∃ q loc p s, Accepts c A A1 q i loc ∧ loc.idx = idx ∧ GFuture c A1 B ∧ 1 ≤ idx ∧ B.W.node p = some s ∧
      (B.W.applied p)[idx - 1]? = some ⟨loc.term, i, loc.hash⟩ ∧ (p, idx, eff) ∈ B.out := by
  obtain ⟨q, loc, p, e, h1, rfl, h2, h3, h4, ⟨_, h5⟩, h6⟩ := h.spec hr
  have r1 : GReachable c A1 := hr.future (.next .now h1.next)
  have rB := r1.future h2
  obtain ⟨a, d, rs, o1, _⟩ := rB.ok.out _ _ _ h6
  obtain ⟨s, o2, _⟩ := rB.ok.has _ _ o1
  have hle := k.raft.le rB.raft.shaped
  have := one_hash r1.raft h2.raft (fun a b ha hb => hn a b (hle.hashed ha) (hle.hashed hb)) hser (h1.spec hr).2 o2 h4 h5.symm
  rw [← this] at h4
  exact ⟨q, loc, p, s, h1, rfl, h2, h3, o2, h4, h6⟩

theorem Accepts.tidy {A A1 : Grid P D E} {q : P} {i : Inner} {loc : Loc} (h : Accepts c A A1 q i loc) : GTidy c A A1 := by
  refine .next .now h.next ?_
  obtain ⟨s, s', rand, path, h1, _, _, rfl⟩ := h.step
  intro p hp hp'
  by_cases e : p = q
  · subst e; rw [h1] at hp; cases hp
  · exfalso
    refine hp' ?_
    show (if p = q then _ else _) = _
    rw [if_neg e]; exact hp

/-- **C79**: for a super majority of at least 1, also while voters change, there is one sequence of log entries such that each request answered
so far is one of them, answered as a single database that runs them one after the other answers it. As long as nobody joins who is a voter
in the log it is given: no two requests are the same entry, and one that was answered before the other was taken by a leader comes first. -/
theorem C79_linearizable (hg : Proper c.raft) {G : Grid P D E} (hr : GReachable c G) (hn : NoCollision c.raft.v G.W.Hashed) (hser : SerInj c.raft.v)
    (hv : Changing c.raft G.W) : ∃ H d rs, Serial c.pr c.pr.fresh H d rs ∧
      (∀ A A1 B i idx eff, GReachable c A → Call c A A1 B i idx eff → GFuture c B G →
        1 ≤ idx ∧ (∃ e, H[idx - 1]? = some e ∧ e.inner = i) ∧ rs[idx - 1]? = some eff) ∧
      ∀ A A1 B i idx eff C C1 B2 i' idx' eff', GReachable c A → Call c A A1 B i idx eff → GFuture c B G → Call c C C1 B2 i' idx' eff' → GFuture c B2 G →
        (GTidy c Grid.empty A1 → GTidy c A1 C → idx ≠ idx') ∧ (GTidy c Grid.empty B → GTidy c B C → idx < idx') := by
  obtain ⟨H, d, rs, h1, h2, h3⟩ := one_history hr (agreeing_changing hg hr .now hn hser hv)
  have hist : ∀ {B : Grid P D E} {p : P} {s : Node P}, GReachable c B → GFuture c B G → B.W.node p = some s → B.W.applied p <+: H := by
    intro B p s rB k hp
    have hle := k.raft.le rB.raft.shaped
    obtain ⟨s', n1, _⟩ := hle.node p s hp
    refine (hle.applied p s hp).trans ?_
    cases hs : G.side p with
    | none => rw [hr.ok.no p hs] at n1; cases n1
    | some a => exact h2 p a hs
  refine ⟨H, d, rs, h1, ?_, ?_⟩
  · intro A A1 B i idx eff hA hc k
    obtain ⟨q, loc, p, s, c1, c2, c3, c4, c5, c6, c7⟩ := entry hA hc k hn hser
    have rB := (hA.future (.next .now c1.next)).future c3
    exact ⟨c4, ⟨_, prefix_get (hist rB k c5) c6, rfl⟩, (h3 p idx eff (out_grows k c7)).2⟩
  · intro A A1 B i idx eff C C1 B2 i' idx' eff' hA hc k hc' k'
    obtain ⟨q, loc, p, s, c1, c2, c3, c4, c5, c6, c7⟩ := entry hA hc k hn hser
    have rA1 := hA.future (.next .now c1.next)
    have rB := rA1.future c3
    have key : ∀ X : Grid P D E, GTidy c Grid.empty X → GTidy c X C → ∀ x y, (InLog X.W x idx' y ∨ (1 ≤ idx' ∧ (∃ s, X.W.node x = some s) ∧
        (X.W.applied x)[idx' - 1]? = some y)) → (∀ e', H[idx' - 1]? = some e' → y.hash = e'.hash) → False := by
      intro X hX kX x y hy hH
      have hC : GReachable c C := (hX.trans kX).future
      obtain ⟨q', loc', p', s', d1, d2, d3, d4, d5, d6, d7⟩ := entry hC hc' k' hn hser
      have rD := (hC.future (.next .now d1.next)).future d3
      obtain ⟨sq, s1, rand, path, l1, _, l3, rfl⟩ := d1.step
      obtain ⟨a1, a2, a3, a4, a5, a6, _⟩ := logRequest_spec (v := c.raft.env rand path) (hC.raft.shaped q' sq l1) l3
      have := hH _ (prefix_get (hist rD k' d5) d6)
      exact clash hg hX.raft kX.raft (Accepts.tidy d1).raft (trans d3 k').raft hn hser hv hy l1 a1 (d2 ▸ a3) (World.put_self ..) a4 a5
        (d2 ▸ a6) rfl (by rw [this])
    constructor
    · rintro tA kC rfl
      refine key A1 tA kC q _ (.inl (c2 ▸ (c1.spec hA).2)) fun e' he' => ?_
      have := prefix_get (hist rB k c5) c6
      rw [he'] at this
      rw [Option.some.inj this]
    · intro tB kC
      by_contra hlt
      have hlen := (List.getElem?_eq_some_iff.mp c6).1
      have h1' : 1 ≤ idx' := by
        obtain ⟨q', loc', p', s', _, _, _, d4, _⟩ := entry (rB.future kC.future) hc' k' hn hser
        exact d4
      obtain ⟨y, hy⟩ : ∃ y, (B.W.applied p)[idx' - 1]? = some y := ⟨_, List.getElem?_eq_getElem (by omega)⟩
      refine key B tB kC p y (.inr ⟨h1', ⟨s, c5⟩, hy⟩) fun e' he' => ?_
      have := prefix_get (hist rB k c5) hy
      rw [he'] at this
      rw [Option.some.inj this]

/-! ### SVR2 -/

section
variable {prims : Prims} {parse : Bytes → Option Svr.DB2.Log} {c2 : Site P Svr.DB2.DB Svr.DB2.Log Svr.DB2.Resp}

/-- **C79** for SVR2: the sequence of entries gives each account one vault that handles the account's requests one after the other, and each
request is answered as this vault answers it. -/
theorem C79_svr2 (hpr : c2.pr = svr2 prims parse) (hg : Proper c2.raft) {G : Grid P Svr.DB2.DB Svr.DB2.Resp} (hr : GReachable c2 G)
    (hn : NoCollision c2.raft.v G.W.Hashed) (hser : SerInj c2.raft.v) (hv : Changing c2.raft G.W) : ∃ H : List Entry,
      (∀ A A1 B i idx eff, GReachable c2 A → Call c2 A A1 B i idx eff → GFuture c2 B G → 1 ≤ idx ∧
        ∃ e, H[idx - 1]? = some e ∧ e.inner = i ∧ eff = (request c2.pr e).map fun l =>
          (Spec2.vstep (Spec2.vrun none (DB2.reqsOf l.id (logsOf c2.pr (H.take (idx - 1))))).1 l.req).2) ∧
      ∀ A A1 B i idx eff C C1 B2 i' idx' eff', GReachable c2 A → Call c2 A A1 B i idx eff → GFuture c2 B G → Call c2 C C1 B2 i' idx' eff' →
        GFuture c2 B2 G → (GTidy c2 Grid.empty A1 → GTidy c2 A1 C → idx ≠ idx') ∧ (GTidy c2 Grid.empty B → GTidy c2 B C → idx < idx') := by
  obtain ⟨H, d, rs, h1, h2, h3⟩ := C79_linearizable hg hr hn hser hv
  refine ⟨H, fun A A1 B i idx eff hA hc k => ?_, h3⟩
  obtain ⟨a1, ⟨e, a2, a3⟩, a4⟩ := h2 A A1 B i idx eff hA hc k
  rw [hpr] at h1 ⊢
  obtain ⟨e', b1, b2⟩ := serial_at h1 rfl a4
  rw [a2] at b1
  cases b1
  exact ⟨a1, e, a2, a3, b2⟩

end

/-! ### What `core.cc` does -/

section

/-- Members of the first group start with an empty log. -/
def Newcomers (g : Setting P) (W W' : World P) : Prop := ∀ p, W.node p = none → W'.node p ≠ none → p ∈ g.m0.all → W'.applied p = []

/-- What `core.cc` does: replicas join, ask to become members and voters or to be removed (`TNext`), and leaders change the group on a tick. No
replica joins twice, and who was in the first group does not join. -/
inductive Daily (c : Site P D L E) (X : Town P D E) : Town P D E → Prop
  | now : Daily c X X
  | next {Y Z : Town P D E} (h : Daily c X Y) (k : TNext c false Y Z) (hn : Newcomers c.raft Y.G.W Z.G.W) : Daily c X Z
  | regroup {Y : Town P D E} (h : Daily c X Y) (gc : GroupCfg) (rc : RegroupCfg) (p : P) (s s' : Node P) (a : Side D E) (g : List (Bytes × Bool))
    (o : Obs P) (rand : Nat → Nat) (path : Nat → Bool) (hp : Y.G.W.node p = some s) (hs : Y.G.side p = some a)
    (hg : nextReplicaGroup c.str gc rc a.member s = some g)
    (hf : (Op.request (.membership g) : Op P).Fits s) (k : (Op.request (.membership g)).run (c.raft.env rand path) s = .ok (s', o)) :
    Daily c X ⟨⟨Y.G.W.put p s' (Y.G.W.applied p ++ Obs.entries o) (Obs.messages p o) [.membership g], Y.G.side, Y.G.out⟩, Y.mail⟩

/-- In the first group, or there. -/
def Known (g : Setting P) (W : World P) (x : P) : Prop := x ∈ g.m0.all ∨ W.node x ≠ none

structure TownOk (c : Site P D L E) (X : Town P D E) : Prop where
  mail : ∀ x ∈ X.mail, X.G.W.node x.1 ≠ none
  mem : ∀ m, Requested c.raft X.G.W m → ∀ x ∈ m.all, Known c.raft X.G.W x

theorem put_node {W : World P} {p x : P} {s : Node P} {A : List Entry} {N : List (P × Option P × Msg)} {Q : List Inner} (h : W.node x ≠ none) :
    (W.put p s A N Q).node x ≠ none := by
  show (if x = p then some s else W.node x) ≠ none
  split
  · simp
  · exact h

theorem grid_node {G G' : Grid P D E} (h : GNext c G G') {x : P} (hx : G.W.node x ≠ none) : G'.W.node x ≠ none := by
  cases h with
  | add => exact hx
  | _ => exact put_node hx

theorem requested_same {g : Setting P} {W W' : World P} (h : memberships W'.asked = memberships W.asked) {m : Raft.Membership P}
    (hm : Requested g W' m) : Requested g W m := by
  obtain ⟨gr, h1, h2⟩ := hm
  have : Inner.membership gr ∈ memberships W'.asked := List.mem_filter.mpr ⟨h1, rfl⟩
  rw [h] at this
  exact ⟨gr, (List.mem_filter.mp this).1, h2⟩

/-- Memberships of a replica's history have only members that are there. -/
theorem members_known {g : Setting P} {W : World P} {G : Bytes × Bytes → Prop} (hm : ∀ m, Requested g W m → ∀ x ∈ m.all, Known g W x) {K : List Entry}
    (hk : Kinds (g.ctx G (· ∈ W.asked)) K) : ∀ x ∈ (memAt g.v g.m0 K).all, Known g W x :=
  memAt_ind (fun m => ∀ x ∈ m.all, Known g W x) K g.m0 (fun x hx => .inl hx) fun e he m h => by
    obtain ⟨gr, h1, h2⟩ := memOf_some h
    have := hk.K he h
    have hk' : e.inner ∈ W.asked := this
    rw [h1] at hk'
    exact hm m ⟨gr, hk', h2⟩

theorem nextGroup_keys {str : P → Bytes} {m : Raft.Membership P} {frm : P} {k : Kind} {g : List (Bytes × Bool)} (h : nextGroup str m frm k = some g) :
    ∀ r ∈ g, r.1 = str frm ∨ ∃ x ∈ m.all, r.1 = str x := by
  have hp : ∀ r ∈ protoOf str m, ∃ x ∈ m.all, r.1 = str x := by
    intro r hr
    obtain ⟨x, hx, rfl⟩ := List.mem_map.mp hr
    exact ⟨x, hx, rfl⟩
  intro r hr
  cases k with
  | member =>
    simp only [nextGroup] at h
    split at h
    · cases h
    cases h
    rcases List.mem_append.mp hr with hr | hr
    · exact .inr (hp r hr)
    · rw [List.mem_singleton.mp hr]; exact .inl rfl
  | voter =>
    simp only [nextGroup] at h
    split at h
    · cases h
    split at h
    · cases h
    cases h
    obtain ⟨y, hy, rfl⟩ := List.mem_map.mp hr
    obtain ⟨x, hx, e⟩ := hp y hy
    refine .inr ⟨x, hx, ?_⟩
    split <;> exact e
  | removal =>
    simp only [nextGroup] at h
    split at h
    · cases h
      exact .inr (hp r (List.mem_filter.mp hr).1)
    · cases h

theorem Daily.future {X Y : Town P D E} (h : Daily c X Y) : GFuture c X.G Y.G := by
  induction h with
  | now => exact .now
  | next _ k _ ih =>
    cases k with
    | step G' h hq => exact ih.next h
    | send => exact ih
    | serve frm p k s s' a g o rand path hm hp hs ha hg hf h => exact ih.next (.call p s s' (.request (.membership g)) o rand path hp trivial hf h (by simp))
    | rejoin _ _ _ _ _ _ _ _ _ _ _ hag => cases hag
  | regroup _ gc rc p s s' a g o rand path hp hs hg hf k ih =>
    exact ih.next (.call p s s' (.request (.membership g)) o rand path hp trivial hf k (by simp))

theorem sub_memAt {g : Setting P} (hsub : g.m0.voting ⊆ g.m0.all) (K : List Entry) : (memAt g.v g.m0 K).voting ⊆ (memAt g.v g.m0 K).all := by
  refine memAt_ind (fun m => m.voting ⊆ m.all) K _ hsub ?_
  intro e _ m hm
  obtain ⟨gr, _, hgr⟩ := memOf_some hm
  exact (fromProtoLoop_ok _ ⟨[], []⟩ m ⟨List.Pairwise.nil, List.Pairwise.nil⟩ (by simp) hgr).2.1

/-- Nobody joins with a log that names it. -/
theorem outside_of (hsub : c.raft.m0.voting ⊆ c.raft.m0.all) {G G' : Grid P D E} (h : GReachable c G) (k : GNext c G G')
    (hn : NoCollision c.raft.v G.W.Hashed) (hser : SerInj c.raft.v) (hm : ∀ m, Requested c.raft G.W m → ∀ x ∈ m.all, Known c.raft G.W x)
    (hnew : Newcomers c.raft G.W G'.W) : Outside c.raft G.W G'.W := by
  intro p hp hp' K hK hne
  have old : ∀ {q : P} {s s' : Node P} {A : List Entry} {N : List (P × Option P × Msg)} {Q : List Inner}, G.W.node q = some s →
      (G.W.put q s' A N Q).node p ≠ none → False := by
    intro q s s' A N Q hq h
    by_cases e : p = q
    · subst e; rw [hq] at hp; cases hp
    · refine h ?_
      show (if p = q then _ else _) = _
      rw [if_neg e]; exact hp
  cases k with
  | start q s rand path max cfg hq k =>
    by_cases e : p = q
    · subst e
      rw [World.put_applied_self] at hK
      exact absurd (List.prefix_nil.mp hK) hne
    · exact absurd (show (if p = q then _ else _) = _ from by rw [if_neg e]; exact hp) hp'
  | join q r s sq a rand path log cfg hq hr hs ha hl hb hf k =>
    by_cases e : p = q
    · subst e
      intro hv
      obtain ⟨σ, hi⟩ := h.raft.inv (G := G.W.Hashed) (K := (· ∈ G.W.asked)) (fun _ h => h) (fun _ h => h) hn hser
      obtain ⟨F, hF⟩ := hi.get hr
      have ok := hi.ok _ _ _ hF
      have hK' := hK
      rw [World.put_applied_self, hi.applied _ _ _ hF] at hK
      have hkin : Kinds (c.raft.ctx G.W.Hashed (· ∈ G.W.asked)) K := fun e he => ok.hist.kinds e ((List.take_prefix _ _).subset (hK.subset he))
      rcases members_known hm hkin p (sub_memAt hsub K hv) with h1 | h1
      · rw [hnew p hp hp' h1] at hK'
        exact hne (List.prefix_nil.mp hK')
      · exact h1 hp
    · exact absurd (show (if p = q then _ else _) = _ from by rw [if_neg e]; exact hp) hp'
  | call q s s' op o rand path hq hd hf k hne => exact (old hq hp').elim
  | add q a i t hs => exact absurd hp hp'
  | commit q s s' a a' i e path hq hs hf k ht => exact (old hq hp').elim

/-- What `core.cc` does is tidy. -/
theorem Daily.tidy (hg : Proper c.raft) (hsub : c.raft.m0.voting ⊆ c.raft.m0.all) (hser : SerInj c.raft.v) {X Y : Town P D E} (h : Daily c X Y)
    (hX : GTidy c Grid.empty X.G) (hX' : TownOk c X) (hn : NoCollision c.raft.v Y.G.W.Hashed)
    (hstr : ∀ p, Known c.raft Y.G.W p → c.raft.v.pid (c.str p) = some p) : GTidy c X.G Y.G ∧ TownOk c Y := by
  have up : ∀ {Y Z : Town P D E}, Daily c X Y → GNext c Y.G Z.G → NoCollision c.raft.v Z.G.W.Hashed →
      (∀ p, Known c.raft Z.G.W p → c.raft.v.pid (c.str p) = some p) → GReachable c Y.G ∧ NoCollision c.raft.v Y.G.W.Hashed ∧
      (∀ p, Known c.raft Y.G.W p → c.raft.v.pid (c.str p) = some p) := by
    intro Y Z a k hn hstr
    have hr : GReachable c Y.G := (show GReachable c X.G from hX.future).future a.future
    have hle := k.raft.le hr.raft.shaped
    exact ⟨hr, fun a b ha hb => hn a b (hle.hashed ha) (hle.hashed hb), fun p hp => hstr p (hp.imp_right (grid_node k))⟩
  have asks : ∀ {Y : Town P D E} {p : P} {s s' : Node P} {A : List Entry} {N : List (P × Option P × Msg)} {g : List (Bytes × Bool)},
      TownOk c Y → (∀ m, fromProto (g.map fun r => (c.raft.v.pid r.1, r.2)) = .ok m → ∀ x ∈ m.all, Known c.raft Y.G.W x) →
      TownOk c ⟨⟨Y.G.W.put p s' A N [.membership g], Y.G.side, Y.G.out⟩, Y.mail⟩ := by
    intro Y p s s' A N g ok hm
    refine ⟨fun x hx => put_node (ok.mail x hx), ?_⟩
    rintro m ⟨gr, h1, h2⟩ x hx
    refine (?_ : Known c.raft Y.G.W x).imp_right put_node
    rcases List.mem_append.mp h1 with h1 | h1
    · exact ok.mem m ⟨gr, h1, h2⟩ x hx
    · cases List.mem_singleton.mp h1
      exact hm m h2 x hx
  have known : ∀ {Y : Town P D E} {p : P} {s : Node P}, GReachable c Y.G → NoCollision c.raft.v Y.G.W.Hashed → TownOk c Y → Y.G.W.node p = some s →
      ∀ x ∈ s.membership.all, Known c.raft Y.G.W x := by
    intro Y p s hr hn ok hp
    obtain ⟨σ, hi⟩ := hr.raft.inv (G := Y.G.W.Hashed) (K := (· ∈ Y.G.W.asked)) (fun _ h => h) (fun _ h => h) hn hser
    obtain ⟨F, hF⟩ := hi.get hp
    rw [(hi.ok _ _ _ hF).mems.membership]
    exact members_known ok.mem (hi.ok _ _ _ hF).hist.kinds
  induction h with
  | now => exact ⟨.now, hX'⟩
  | @next Y Z a k hnew ih =>
    cases k with
    | step G' k hq =>
      obtain ⟨r1, r2, r3⟩ := up (Z := ⟨G', Y.mail⟩) a k hn hstr
      obtain ⟨t, ok⟩ := ih r2 r3
      refine ⟨t.next k (outside_of hsub r1 k r2 hser ok.mem hnew), fun x hx => grid_node k (ok.mail x hx), fun m hm x hx => ?_⟩
      exact (ok.mem m (requested_same hq hm) x hx).imp_right (grid_node k)
    | send p dst s a k hp hs h =>
      obtain ⟨t, ok⟩ := ih hn hstr
      refine ⟨t, fun x hx => ?_, ok.mem⟩
      rcases List.mem_append.mp hx with hx | hx
      · exact ok.mail x hx
      · rw [List.mem_singleton.mp hx]
        show Y.G.W.node p ≠ none
        rw [hp]; simp
    | serve frm p k s s' a' g o rand path hm hp hs ha hgr hf h =>
      have n : GNext c Y.G ⟨Y.G.W.put p s' (Y.G.W.applied p ++ Obs.entries o) (Obs.messages p o) [.membership g], Y.G.side, Y.G.out⟩ :=
        .call p s s' (.request (.membership g)) o rand path hp trivial hf h (by simp)
      obtain ⟨r1, r2, r3⟩ := up (Z := ⟨_, Y.mail⟩) a n hn hstr
      obtain ⟨t, ok⟩ := ih r2 r3
      refine ⟨t.next n (outside_of hsub r1 n r2 hser ok.mem hnew), asks (s := s) ok fun m hfp x hx => ?_⟩
      obtain ⟨_, _, c3, _⟩ := Membership.C25_fromProto _ m hfp
      obtain ⟨v, hv⟩ := (c3 x).mp (List.mem_toFinset.mpr hx)
      obtain ⟨y, hy, e⟩ := List.mem_map.mp hv
      simp only [Prod.mk.injEq] at e
      have hfrm : Known c.raft Y.G.W frm := .inr (ok.mail _ hm)
      rcases nextGroup_keys hgr y hy with h1 | ⟨z, hz, h1⟩
      · rw [h1, r3 frm hfrm] at e
        cases e.1
        exact hfrm
      · have hz' := known r1 r2 ok hp z hz
        rw [h1, r3 z hz'] at e
        cases e.1
        exact hz'
    | rejoin _ _ _ _ _ _ _ _ _ _ _ hag => cases hag
  | @regroup Y a gc rc p s s' sd g o rand path hp hs hgr hf k ih =>
    have n : GNext c Y.G ⟨Y.G.W.put p s' (Y.G.W.applied p ++ Obs.entries o) (Obs.messages p o) [.membership g], Y.G.side, Y.G.out⟩ :=
      .call p s s' (.request (.membership g)) o rand path hp trivial hf k (by simp)
    obtain ⟨r1, r2, r3⟩ := up (Z := ⟨_, Y.mail⟩) a n hn hstr
    obtain ⟨t, ok⟩ := ih r2 r3
    have hnew : Newcomers c.raft Y.G.W (Y.G.W.put p s' (Y.G.W.applied p ++ Obs.entries o) (Obs.messages p o) [.membership g]) := by
      intro x hx hx'
      by_cases e : x = p
      · subst e; rw [hp] at hx; cases hx
      · exact absurd (show (if x = p then _ else _) = _ from by rw [if_neg e]; exact hx) hx'
    refine ⟨t.next n (outside_of hsub r1 n r2 hser ok.mem hnew), asks (s := s) ok fun m hfp x hx => ?_⟩
    have kn := known r1 r2 ok hp
    obtain ⟨m', h1, _, h3⟩ := Regroup.C39_regroup gc rc (fun p hp => r3 p (kn p hp)) (Regroup.sound_of_reachable hg hsub r1.raft r2 hser hp) hgr
    rw [h1] at hfp
    cases hfp
    refine kn x ?_
    have hx' : x ∈ Svr.Props.Membership.Membership.A m := List.mem_toFinset.mpr hx
    have : x ∈ Svr.Props.Membership.Membership.A s.membership := by
      cases h3 with
      | promote _ _ _ _ _ _ ha => rw [ha] at hx'; exact hx'
      | demote _ _ _ _ _ ha => rw [ha] at hx'; exact hx'
      | drop _ _ _ _ _ ha => rw [ha] at hx'; exact Finset.mem_of_mem_erase hx'
    exact List.mem_toFinset.mp this

theorem townOk_empty : TownOk c (⟨Grid.empty, []⟩ : Town P D E) :=
  ⟨fun x hx => (by cases hx), fun m ⟨_, h, _⟩ => (by cases h)⟩

/-- **C79** for what `core.cc` does: for a super majority of at least 1, if the replicas join and the group changes as `core.cc` lets them, no two
requests are the same entry, and one that was answered before the other was taken by a leader comes first. -/
theorem C79_as_core_does (hg : Proper c.raft) (hsub : c.raft.m0.voting ⊆ c.raft.m0.all) (hser : SerInj c.raft.v) {X Y : Town P D E}
    (hX : Daily c ⟨Grid.empty, []⟩ X) (hY : Daily c X Y) {G : Grid P D E} (hf : GFuture c Y.G G) (hn : NoCollision c.raft.v G.W.Hashed)
    (hv : Changing c.raft G.W) (hstr : ∀ p, Known c.raft Y.G.W p → c.raft.v.pid (c.str p) = some p)
    {A A1 B C1 B2 : Grid P D E} {i i' : Inner} {idx idx' : Nat} {eff eff' : Option E} (hA : GReachable c A) (h : Call c A A1 B i idx eff)
    (hB : GFuture c B G) (h' : Call c Y.G C1 B2 i' idx' eff') (hB2 : GFuture c B2 G) :
    (A1 = X.G → idx ≠ idx') ∧ (B = X.G → idx < idx') := by
  have rX : GReachable c X.G := hX.future
  have rY : GReachable c Y.G := rX.future hY.future
  have leX := hY.future.raft.le rX.raft.shaped
  have leY := hf.raft.le rY.raft.shaped
  have hnY : NoCollision c.raft.v Y.G.W.Hashed := fun a b ha hb => hn a b (leY.hashed ha) (leY.hashed hb)
  have hnX : NoCollision c.raft.v X.G.W.Hashed := fun a b ha hb => hnY a b (leX.hashed ha) (leX.hashed hb)
  obtain ⟨t1, ok⟩ := hX.tidy hg hsub hser (X := ⟨Grid.empty, []⟩) .now townOk_empty hnX fun p hp => hstr p (hp.imp_right fun hne => by
    cases hp' : X.G.W.node p with
    | none => exact absurd hp' hne
    | some s => obtain ⟨s', e, _⟩ := leX.node p s hp'; rw [e]; simp)
  obtain ⟨t2, _⟩ := hY.tidy hg hsub hser t1 ok hnY hstr
  obtain ⟨_, _, _, _, _, key⟩ := C79_linearizable hg (rY.future hf) hn hser hv
  obtain ⟨k1, k2⟩ := key A A1 B i idx eff Y.G C1 B2 i' idx' eff' hA h hB h' hB2
  exact ⟨fun e => k1 (e ▸ t1) (e ▸ t2), fun e => k2 (e ▸ t1) (e ▸ t2)⟩

end

/-! ### The hypotheses are met -/

open Raft.Play Core.Play Svr.Props.Rejoin

/-- A test for `Outside`. -/
def outsideB (g : Setting Nat) (T T' : Table) : Bool := T'.rows.all fun r => (look r.1 T.rows).isSome ||
  (List.range r.2.2.length).all fun n => decide (r.1 ∉ (memAt g.v g.m0 (r.2.2.take (n + 1))).voting)

theorem look_mem {p : Nat} {r : Node Nat × List Entry} : ∀ {l : List (Nat × Node Nat × List Entry)}, look p l = some r → (p, r) ∈ l
  | [], h => by cases h
  | (q, x) :: t, h => by
    unfold look at h
    split at h
    · rename_i e
      cases h; subst e; exact List.mem_cons_self
    · exact List.mem_cons_of_mem _ (look_mem h)

theorem outsideB_spec {g : Setting Nat} {T T' : Table} (h : outsideB g T T' = true) : Outside g T.world T'.world := by
  intro p hp hp' K hK hne
  simp only [Table.world, Option.map_eq_none_iff] at hp
  cases hl : look p T'.rows with
  | none => simp [Table.world, hl] at hp'
  | some r =>
    have := List.all_eq_true.mp h _ (look_mem hl)
    simp only [hp, Option.isSome_none, Bool.false_or, List.all_eq_true, List.mem_range, decide_eq_true_eq] at this
    have hA : T'.world.applied p = r.2 := by simp [Table.world, hl, appliedOf]
    rw [hA] at hK
    have hpos := List.length_pos_iff.mpr hne
    have hle := hK.length_le
    have h2 := this (K.length - 1) (by omega)
    rwa [Nat.sub_add_cancel hpos, ← List.prefix_iff_eq_take.mp hK] at h2

/-- A test for `GTidy` along `as`. -/
def tidily (c : Site Nat D L E) (cfg : RaftCfg) : List Act → GTab D E → Bool
  | [], _ => true
  | a :: t, X => match gstep c cfg X a with
    | some X' => outsideB c.raft X.T X'.T && tidily c cfg t X'
    | none => false

theorem gplay_tidy {c : Site Nat D L E} {cfg : RaftCfg} : ∀ {as : List Act} {X X' : GTab D E}, gplay c cfg as X = some X' →
    tidily c cfg as X = true → GTidy c X.grid X'.grid
  | [], X, X', h, _ => by cases h; exact .now
  | a :: t, X, X', h, k => by
    simp only [gplay] at h
    unfold tidily at k
    split at h
    · rename_i X1 h1
      simp only [h1, Bool.and_eq_true] at k
      exact (GTidy.next .now (gstep_next h1) (outsideB_spec k.1)).trans (gplay_tidy h k.2)
    · cases h

/-- A test for `GTidy` along `serve`. -/
def tidyServe (c : Site Nat D L E) (cfg : RaftCfg) (X : GTab D E) (q : Nat) (i : Inner) (p w : Nat) (as : List Act) : Bool :=
  match Linear.ask c X q i with
  | none => false
  | some (X1, loc) => match register X1 p w loc with
    | none => false
    | some X2 => tidily c cfg as X2

theorem serve_tidy {c : Site Nat D L E} {cfg : RaftCfg} {X X3 : GTab D E} {q p w idx : Nat} {i : Inner} {as : List Act} {eff : Option E}
    (h : serve c cfg X q i p w as = some (X3, idx, eff)) (k : tidyServe c cfg X q i p w as = true) : GTidy c X.grid X3.grid := by
  unfold serve at h
  unfold tidyServe at k
  split at h
  · cases h
  rename_i X1 loc h1
  simp only [h1] at k
  split at h
  · cases h
  rename_i X2 h2
  simp only [h2] at k
  split at h
  · cases h
  rename_i X4 h3
  split at h
  · cases h
  cases h
  refine (Accepts.tidy (ask_accepts h1)).trans (GTidy.trans ?_ (gplay_tidy h3 k))
  unfold register at h2
  split at h2
  · cases h2
  rename_i a ha
  split at h2
  · cases h2
    have n : GNext c X1.grid _ := .add p a loc.idx ⟨loc.term, loc.hash, w⟩ ha
    have := GTidy.next .now n (fun p hp hp' => absurd hp hp')
    unfold GTab.grid at this ⊢
    simp only [sides_set]
    exact this
  · cases h2

/-- Replica 1 creates the group. -/
def create : List Act := [.start 1, .call 1 .takeCommitted]

/-- Replica 2 joins, becomes a member, and is to become a voter. -/
def enlarge : List Act :=
  [.join 2 1, .call 1 (.request (grp [(1, true), (2, false)])), flush 1, .give 2 0, flush 2, .give 1 1, flush 1, .give 2 2, flush 2, .give 1 3,
   flush 1, .give 2 4, .call 2 .takeCommitted, .call 1 .takeCommitted, .call 1 (.request (grp [(1, true), (2, true)]))]

def settle : List Act :=
  [flush 1, .give 2 5, .give 2 6, flush 2, .give 1 9, flush 1, .give 2 10, flush 2, .give 1 11, flush 1, .give 2 12, .call 1 .takeCommitted,
   .call 1 .takeCommitted, .call 2 .takeCommitted, .call 2 .takeCommitted]

/-- A request is answered by replica 1 alone; the group gets a second voter; another request is answered at replica 2. -/
def across : Option (GTab Svr.DB2.DB Svr.DB2.Resp × GTab Svr.DB2.DB Svr.DB2.Resp × GTab Svr.DB2.DB Svr.DB2.Resp × GTab Svr.DB2.DB Svr.DB2.Resp ×
    (Nat × Option Svr.DB2.Resp) × (Nat × Option Svr.DB2.Resp)) :=
  match gplay calm fast create GTab.none with
  | none => none
  | some X => match serve calm fast X 1 (.data [1]) 1 7 [.call 1 .takeCommitted] with
    | none => none
    | some (Y, a) => match gplay calm fast enlarge Y with
      | none => none
      | some Z => match serve calm fast Z 1 (.data [2]) 2 8 settle with
        | none => none
        | some (Q, b) => some (X, Y, Z, Q, a, b)

set_option maxRecDepth 100000 in
/-- What C79 speaks about happens: in a group meeting all hypotheses a backup is answered, then the voters change, and then an expose is asked
for and answered. -/
example : ∃ A A1 B C C1 G : Grid Nat Svr.DB2.DB Svr.DB2.Resp, Proper calm.raft ∧ calm.pr = svr2 DB2.P0 rq2 ∧ GReachable calm A ∧ GReachable calm G ∧
    NoCollision calm.raft.v G.W.Hashed ∧ SerInj calm.raft.v ∧ Changing calm.raft G.W ∧ Requested calm.raft G.W ⟨[1, 2], [1, 2]⟩ ∧
    Call calm A A1 B (.data [1]) 2 (some (.backup)) ∧ GTidy calm Grid.empty B ∧ GTidy calm B C ∧
    Call calm C C1 G (.data [2]) 5 (some (.expose true)) := by
  have h : (match across with
      | some (X, _, Z, Q, a, b) => noColl (hashedBy Q.T) && requests Q.T (fun m => decide (m.all.length ≤ 2) && decide (m.voting.length ≤ 2)) &&
          decide (a = (2, some (.backup))) && decide (b = (5, some (.expose true))) && tidily calm fast create GTab.none &&
          tidyServe calm fast X 1 (.data [1]) 1 7 [.call 1 .takeCommitted] && decide (grp [(1, true), (2, true)] ∈ Q.T.asked)
      | none => false) = true := by decide +kernel
  have h' : (match across with
      | some (_, Y, _, _, _, _) => tidily calm fast enlarge Y
      | none => false) = true := by decide +kernel
  split at h
  · rename_i X Y Z Q a b e
    rw [e] at h'
    simp only [Bool.and_eq_true, decide_eq_true_eq] at h h'
    obtain ⟨⟨⟨⟨⟨⟨h1, h2⟩, rfl⟩, rfl⟩, h3⟩, h4⟩, h5⟩ := h
    unfold across at e
    split at e
    · cases e
    rename_i X' e1
    split at e
    · cases e
    rename_i Y' a' e2
    split at e
    · cases e
    rename_i Z' e3
    split at e
    · cases e
    rename_i Q' b' e4
    obtain ⟨rfl, rfl, rfl, rfl, rfl, rfl⟩ : X' = X ∧ Y' = Y ∧ Z' = Z ∧ Q' = Q ∧ a' = _ ∧ b' = _ := by simpa using e
    have r := gplay_reachable e1
    obtain ⟨A1, c1⟩ := serve_call e2
    obtain ⟨C1, c2⟩ := serve_call e4
    have t1 : GTidy calm Grid.empty X'.grid := gplay_tidy e1 h3
    have t2 := serve_tidy e2 h4
    have t3 := gplay_tidy e3 h'
    have r3 : GReachable calm Z'.grid := ((t1.trans t2).trans t3).future
    have f2 : GFuture calm Z'.grid Q'.grid := by
      obtain ⟨q, loc, p, e, d1, _, d3, _⟩ := c2.spec r3
      exact Linear.trans (.next .now d1.next) d3
    refine ⟨X'.grid, A1, Y'.grid, Z'.grid, C1, Q'.grid, ⟨⟨by simp [calm, town, SSorted, Membership.first], by simp [calm, town, SSorted, Membership.first]⟩,
      by simp [calm, town, Membership.first], by simp [calm, town, Membership.first], by simp [calm]⟩, rfl, r, r3.future f2, noColl_table h1,
      serInj_steady, ⟨le_rfl, fun m hm => ?_, .inl rfl⟩, ⟨_, h5, by decide +kernel⟩, c1, t1.trans t2, t3, c2⟩
    have := requests_spec (g := calm.raft) rfl h2 hm
    simp only [Bool.and_eq_true, decide_eq_true_eq] at this
    omega
  · cases h

/-- A test for `Newcomers`. -/
def newB (g : Setting Nat) (T T' : Table) : Bool := T'.rows.all fun r => (look r.1 T.rows).isSome || decide (r.1 ∉ g.m0.all) || r.2.2.isEmpty

theorem newB_spec {g : Setting Nat} {T T' : Table} (h : newB g T T' = true) : Newcomers g T.world T'.world := by
  intro p hp hp' hm
  simp only [Table.world, Option.map_eq_none_iff] at hp
  cases hl : look p T'.rows with
  | none => simp [Table.world, hl] at hp'
  | some r =>
    have := List.all_eq_true.mp h _ (look_mem hl)
    simp only [hp, Option.isSome_none, Bool.false_or, hm, not_true_eq_false, decide_false, List.isEmpty_iff] at this
    simp [Table.world, hl, appliedOf, this]

/-- A test for `Daily` along `as`. -/
def daily (c : Site Nat D L E) (cfg : RaftCfg) : List TAct → TTab D E → Bool
  | [], _ => true
  | a :: t, Y => match tstep c cfg Y a with
    | some Y' => !isRejoin a && newB c.raft Y.X.T Y'.X.T && daily c cfg t Y'
    | none => false

theorem tplay_daily {c : Site Nat D L E} {cfg : RaftCfg} : ∀ {as : List TAct} {Y Y' : TTab D E}, tplay c cfg as Y = some Y' →
    daily c cfg as Y = true → ∀ {X : Town Nat D E}, Daily c X Y.town → Daily c X Y'.town
  | [], Y, Y', h, _, X, hX => by cases h; exact hX
  | a :: t, Y, Y', h, k, X, hX => by
    simp only [tplay] at h
    unfold daily at k
    split at h
    · rename_i Y1 h1
      simp only [h1, Bool.and_eq_true, Bool.not_eq_true'] at k
      refine tplay_daily h k.2 (hX.next (tstep_next (.inr ?_) h1) (newB_spec k.1.2))
      rintro p q rfl
      exact absurd k.1.1 (by simp [isRejoin])
    · cases h

/-- A request at replica 1, registered there for the handler 7, is a step of the group. -/
theorem ask_daily {c : Site Nat D L E} {Y : TTab D E} {X1 : GTab D E} {q : Nat} {b : Bytes} {loc : Loc} (h : Linear.ask c Y.X q (.data b) = some (X1, loc))
    {X : Town Nat D E} (hX : Daily c X Y.town) : Daily c X (⟨X1, Y.mail⟩ : TTab D E).town := by
  have h1 := ask_accepts h
  refine hX.next (.step X1.grid h1.next ?_) ?_
  · obtain ⟨s, s', rand, path, _, _, _, e⟩ := h1.step
    rw [e]
    show memberships (Y.X.grid.W.asked ++ [.data b]) = _
    simp [memberships, TTab.town]
  · obtain ⟨s, s', rand, path, a1, _, _, e⟩ := h1.step
    intro p hp hp'
    change X1.grid.W.node p ≠ none at hp'
    rw [e] at hp'
    by_cases e : p = q
    · subst e; change Y.X.grid.W.node p = none at hp; rw [a1] at hp; cases hp
    · exact absurd (show (if p = q then _ else _) = _ from by rw [if_neg e]; exact hp) hp'

theorem register_daily {c : Site Nat D L E} {X1 X2 : GTab D E} {mail : List (Nat × Nat × Kind)} {p w : Nat} {loc : Loc}
    (h : register X1 p w loc = some X2) {X : Town Nat D E} (hX : Daily c X (⟨X1, mail⟩ : TTab D E).town) :
    Daily c X (⟨X2, mail⟩ : TTab D E).town := by
  unfold register at h
  split at h
  · cases h
  rename_i a ha
  split at h
  · cases h
    have n : GNext c X1.grid _ := .add p a loc.idx ⟨loc.term, loc.hash, w⟩ ha
    have := hX.next (.step _ n rfl) (fun p hp hp' => absurd hp hp')
    unfold TTab.town GTab.grid at this ⊢
    simp only [sides_set]
    exact this
  · cases h

/-- Replica 2 joins, asks to become a member, and then a voter. -/
def grow : List TAct :=
  [.act (.join 2 1), .send 2 1 .member, .serve 2 1 .member, say 1, give 2 0, say 2, give 1 1, say 1, give 2 2, say 2, give 1 3, say 1, give 2 4, com 2,
   com 1, .send 2 1 .voter, .serve 2 1 .voter]

/-- As `across`, with the requests for membership that `core.cc` makes. -/
def daysOf : Option (TTab Svr.DB2.DB Svr.DB2.Resp × GTab Svr.DB2.DB Svr.DB2.Resp × GTab Svr.DB2.DB Svr.DB2.Resp × TTab Svr.DB2.DB Svr.DB2.Resp ×
    TTab Svr.DB2.DB Svr.DB2.Resp) :=
  (tplay calm fast [.act (.start 1), com 1] TTab.none).bind fun Y => (Linear.ask calm Y.X 1 (.data [1])).bind fun a => (register a.1 1 7 a.2).bind fun X2 =>
    (tplay calm fast [com 1] ⟨X2, Y.mail⟩).bind fun Y3 => (tplay calm fast grow Y3).map fun Z => (Y, a.1, X2, Y3, Z)

theorem tplay_gplay {c : Site Nat D L E} {cfg : RaftCfg} : ∀ {as : List Act} {Y Y' : TTab D E}, tplay c cfg (as.map .act) Y = some Y' →
    gplay c cfg as Y.X = some Y'.X
  | [], Y, Y', h => by cases h; rfl
  | a :: t, Y, Y', h => by
    simp only [List.map_cons, tplay] at h
    split at h
    · rename_i Y1 h1
      simp only [tstep] at h1
      split at h1
      · rename_i X hX
        split at h1
        · cases h1
          simp only [gplay, hX]
          exact tplay_gplay h
        · cases h1
      · cases h1
    · cases h

theorem serve_town {c : Site Nat D L E} {cfg : RaftCfg} {Y Y3 : TTab D E} {X1 X2 X3 : GTab D E} {q p w idx : Nat} {i : Inner} {as : List Act} {eff : Option E}
    {loc : Loc} {mail : List (Nat × Nat × Kind)} (h : serve c cfg Y.X q i p w as = some (X3, idx, eff)) (h1 : Linear.ask c Y.X q i = some (X1, loc))
    (h2 : register X1 p w loc = some X2) (h3 : tplay c cfg (as.map .act) ⟨X2, mail⟩ = some Y3) : X3 = Y3.X := by
  unfold serve at h
  simp only [h1, h2, tplay_gplay h3] at h
  split at h
  · cases h
  · cases h; rfl

/-- A test for all that `C79_as_core_does` asks for. -/
def daysOk : Bool := match daysOf with
  | none => false
  | some (Y, _, X2, Y3, Z) => daily calm fast [.act (.start 1), com 1] TTab.none && daily calm fast [com 1] ⟨X2, Y.mail⟩ && daily calm fast grow Y3 &&
    Z.X.T.rows.all (fun r => decide (calm.raft.v.pid (calm.str r.1) = some r.1)) &&
    (match serve calm fast Y.X 1 (.data [1]) 1 7 [.call 1 .takeCommitted] with
      | some r => decide (r.2 = (2, some (.backup)))
      | none => false) &&
    match serve calm fast Z.X 1 (.data [2]) 2 8 settle with
      | some r => decide (r.2 = (5, some (.expose true))) && noColl (hashedBy r.1.T) &&
          requests r.1.T (fun m => decide (m.all.length ≤ 2) && decide (m.voting.length ≤ 2))
      | none => false

set_option maxRecDepth 100000 in
theorem daysOk_true : daysOk = true := by decide +kernel

/-- What `C79_as_core_does` speaks about happens. -/
example : ∃ (X Y : Town Nat Svr.DB2.DB Svr.DB2.Resp) (A A1 C1 G : Grid Nat Svr.DB2.DB Svr.DB2.Resp), Proper calm.raft ∧
    calm.raft.m0.voting ⊆ calm.raft.m0.all ∧ SerInj calm.raft.v ∧ Daily calm ⟨Grid.empty, []⟩ X ∧ Daily calm X Y ∧ GFuture calm Y.G G ∧
    NoCollision calm.raft.v G.W.Hashed ∧ Changing calm.raft G.W ∧ (∀ p, Known calm.raft Y.G.W p → calm.raft.v.pid (calm.str p) = some p) ∧
    GReachable calm A ∧ Call calm A A1 X.G (.data [1]) 2 (some (.backup)) ∧ Call calm Y.G C1 G (.data [2]) 5 (some (.expose true)) := by
  have h := daysOk_true
  unfold daysOk at h
  split at h
  · cases h
  rename_i Y X1 X2 Y3 Z e
  simp only [Bool.and_eq_true] at h
  obtain ⟨⟨⟨⟨⟨h1, h2⟩, h3⟩, h4⟩, h5⟩, h6⟩ := h
  simp only [daysOf, Option.bind_eq_some_iff, Option.map_eq_some_iff] at e
  obtain ⟨Y', e1, ⟨X1', loc⟩, e2, X2', e3, Y3', e4, Z', e5, e⟩ := e
  obtain ⟨rfl, rfl, rfl, rfl, rfl⟩ : Y' = Y ∧ X1' = X1 ∧ X2' = X2 ∧ Y3' = Y3 ∧ Z' = Z := by simpa using e
  split at h5
  swap
  · cases h5
  rename_i r1 g1
  split at h6
  swap
  · cases h6
  rename_i r2 g2
  simp only [Bool.and_eq_true, decide_eq_true_eq] at h5 h6
  obtain ⟨⟨h6, h7⟩, h8⟩ := h6
  obtain ⟨Q1, j1⟩ := r1
  obtain ⟨Q2, j2⟩ := r2
  cases h5
  cases h6
  have q1 := serve_town (as := [.call 1 .takeCommitted]) g1 e2 e3 e4
  subst q1
  have d1 : Daily calm ⟨Grid.empty, []⟩ Y'.town := tplay_daily e1 h1 (X := ⟨Grid.empty, []⟩) .now
  have d2 : Daily calm ⟨Grid.empty, []⟩ Y3'.town := tplay_daily e4 h2 (register_daily e3 (ask_daily e2 d1))
  have d3 : Daily calm Y3'.town Z'.town := tplay_daily e5 h3 .now
  obtain ⟨A1, c1⟩ := serve_call g1
  obtain ⟨C1, c2⟩ := serve_call g2
  have r3 : GReachable calm Z'.town.G := (show GReachable calm Y3'.town.G from d2.future).future d3.future
  have f2 : GFuture calm Z'.town.G Q2.grid := by
    obtain ⟨q, loc, p, e, k1, _, k3, _⟩ := c2.spec r3
    exact Linear.trans (.next .now k1.next) k3
  refine ⟨Y3'.town, Z'.town, Y'.X.grid, A1, C1, Q2.grid, ⟨⟨by simp [calm, town, SSorted, Membership.first], by simp [calm, town, SSorted, Membership.first]⟩,
    by simp [calm, town, Membership.first], by simp [calm, town, Membership.first], by simp [calm]⟩, fun x h => h, serInj_steady, d2, d3, f2,
    noColl_table h7, ⟨le_rfl, fun m hm => ?_, .inl rfl⟩, ?_, d1.future, c1, c2⟩
  · have := requests_spec (g := calm.raft) rfl h8 hm
    simp only [Bool.and_eq_true, decide_eq_true_eq] at this
    omega
  · rintro p (hp | hp)
    · have : p = 1 := by simpa [calm, town, Membership.first] using hp
      subst this
      rfl
    · cases hl : look p Z'.X.T.rows with
      | none => exact absurd (by simp [TTab.town, GTab.grid, Table.world, hl]) hp
      | some r => simpa using List.all_eq_true.mp h4 _ (look_mem hl)

end Svr.Props.Order
