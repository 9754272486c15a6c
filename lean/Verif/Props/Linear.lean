import Verif.Raft.Request
import Verif.Core.Told
import Verif.Props.Complete
import Verif.Props.Grid
import Verif.Core.Play

/-!
# C78: the group answers as one database would, in an order that respects time

A client's request becomes a log entry at the leader (`Raft::LogRequest`), is registered at the replica the client is connected to with
the place the leader named, and is answered when that replica applies an entry of that place and term.
-/

namespace Svr.Props.Linear
open Svr Svr.Core Svr.Raft Svr.Raft.Node Svr.Spec Svr.Props.RaftGroup Svr.Props.Matching Svr.Props.Complete Svr.Props.Grid

variable {P : Type} [LinearOrder P] {D L E : Type} {c : Site P D L E}

/-- From `A` to `A1`, the Raft of `q` takes `i` for the log and returns its place. -/
structure Accepts (c : Site P D L E) (A A1 : Grid P D E) (q : P) (i : Inner) (loc : Loc) : Prop where
  step : ∃ s s' rand path, A.W.node q = some s ∧ (Op.request i : Op P).Fits s ∧ s.logRequest (c.raft.env rand path) i = .ok (s', .ok loc) ∧
    A1 = ⟨A.W.put q s' (A.W.applied q) [] [i], A.side, A.out⟩

/-- A request and its answer. From `A` to `A1` a leader takes `i` for the log, at index `idx`. Later a replica registers a handler for that
place, which it registers for nothing else. In `B` the handler was told of success, with the effect `eff`. -/
structure Call (c : Site P D L E) (A A1 B : Grid P D E) (i : Inner) (idx : Nat) (eff : Option E) : Prop where
  made : ∃ q loc, Accepts c A A1 q i loc ∧ loc.idx = idx ∧ ∃ R p w a b e, GFuture c A1 R ∧ R.side p = some a ∧
    (∀ x ∈ a.txs, x.2.who ≠ w) ∧ (∀ x ∈ a.done, x.1 ≠ w) ∧
    Since c p w ⟨R.W, setSide R.side p (a.add loc.idx ⟨loc.term, loc.hash, w⟩), R.out⟩ B ∧ B.side p = some b ∧ (w, .success e eff) ∈ b.done

theorem Accepts.next {A A1 : Grid P D E} {q : P} {i : Inner} {loc : Loc} (h : Accepts c A A1 q i loc) : GNext c A A1 := by
  obtain ⟨s, s', rand, path, h1, h2, h3, rfl⟩ := h.step
  have := GNext.call (c := c) (G := A) q s s' (.request i) (.answer (.ok loc)) rand path h1 trivial h2 (by simp [Op.run, h3]) (by simp)
  simpa [Obs.entries, Obs.messages, Op.requests] using this

theorem Accepts.spec {A A1 : Grid P D E} {q : P} {i : Inner} {loc : Loc} (hr : GReachable c A) (h : Accepts c A A1 q i loc) :
    (∃ s, A.W.node q = some s ∧ s.role = .leader ∧ s.term = loc.term ∧ loc.idx = s.log.lastIdx + 1) ∧
      InLog A1.W q loc.idx ⟨loc.term, i, loc.hash⟩ := by
  obtain ⟨s, s', rand, path, h1, _, h3, rfl⟩ := h.step
  obtain ⟨a1, a2, a3, _, _, a6, _⟩ := logRequest_spec (v := c.raft.env rand path) (hr.raft.shaped q s h1) h3
  rw [← a2] at a6
  exact ⟨⟨s, h1, a1, a2.symm, a3⟩, s', World.put_self .., a6⟩

theorem Accepts.hash {A A1 : Grid P D E} {q : P} {i : Inner} {loc : Loc} (hr : GReachable c A) (h : Accepts c A A1 q i loc) : loc.hash.length = 32 := by
  obtain ⟨s, s', rand, path, h1, _, h3, rfl⟩ := h.step
  exact (logRequest_spec (v := c.raft.env rand path) (hr.raft.shaped q s h1) h3).2.2.2.2.2.2

theorem trans {A B C : Grid P D E} (h : GFuture c A B) (k : GFuture c B C) : GFuture c A C := by
  induction k with
  | now => exact h
  | next _ k ih => exact .next ih k

theorem out_grows {A B : Grid P D E} (h : GFuture c A B) {x : P × Nat × Option E} (hx : x ∈ A.out) : x ∈ B.out := by
  induction h with
  | now => exact hx
  | next _ k ih =>
    cases k with
    | commit => exact List.mem_append_left _ ih
    | _ => exact ih

/-- What was told is what the replica's database answered for the entry at that place. -/
theorem Call.spec {A A1 B : Grid P D E} {i : Inner} {idx : Nat} {eff : Option E} (hr : GReachable c A) (h : Call c A A1 B i idx eff) :
    ∃ q loc p e, Accepts c A A1 q i loc ∧ loc.idx = idx ∧ GFuture c A1 B ∧ 1 ≤ idx ∧ (B.W.applied p)[idx - 1]? = some e ∧
      (e.term = loc.term ∧ e.hash = loc.hash) ∧ (p, idx, eff) ∈ B.out := by
  obtain ⟨q, loc, h1, rfl, R, p, w, a, b, e, h2, h3, h4, h5, h6, h7, h8⟩ := h.made
  have hR : GReachable c R := hr.future (trans (.next .now h1.next) h2)
  have k : GNext c R _ := .add p a loc.idx ⟨loc.term, loc.hash, w⟩ h3
  have hw : Waits (⟨R.W, setSide R.side p (a.add loc.idx ⟨loc.term, loc.hash, w⟩), R.out⟩ : Grid P D E) p w loc.idx loc.term loc.hash := by
    refine ⟨a.add loc.idx ⟨loc.term, loc.hash, w⟩, by simp [setSide], fun x hx hxw => ?_, fun e eff he => absurd rfl (h5 _ he)⟩
    rcases mem_insertTx hx with rfl | hx
    · exact ⟨rfl, rfl, rfl⟩
    · exact absurd hxw (h4 x hx)
  obtain ⟨b', i1, _, i3⟩ := (hw.since (hR.future (.next .now k)) h6).has
  rw [h7] at i1
  cases i1
  obtain ⟨j1, j2, j3, j4⟩ := i3 e eff h8
  exact ⟨q, loc, p, e, h1, rfl, trans (.next h2 k) h6.future, j1, j2, ⟨j3.1, j3.2 (by rw [h1.hash hr]; decide)⟩, j4⟩

/-- A leader's log reaches as far as any log ever did with an entry of its term. -/
theorem beyond {g : Setting P} (hg : Proper g) {W W' W'' : World P} (h : Reachable g W) (k : Future g W W') (k' : Future g W' W'')
    (hn : NoCollision g.v W''.Hashed) (hser : SerInj g.v) (hv : FixedVoters g W'') {p q : P} {i : Nat} {e : Entry} {s : Node P}
    (he : InLog W p i e ∨ (1 ≤ i ∧ (∃ s, W.node p = some s) ∧ (W.applied p)[i - 1]? = some e)) (hq : W'.node q = some s) (hl : s.role = .leader) (ht : s.term = e.term) :
    i ≤ s.log.lastIdx := by
  have hle := k'.le (show Reachable g W' from Future.trans h k).shaped
  have hle0 := k.le h.shaped
  have hf : Firm (g.ctx W''.Hashed (· ∈ W''.asked)) := firm hg hv
  obtain ⟨σ, S, h1⟩ := h.tree (G := W''.Hashed) (K := (· ∈ W''.asked)) hf (fun x hx => hle.hashed (hle0.hashed hx))
    (fun i hi => hle.asked.subset (hle0.asked.subset hi)) hn hser
  obtain ⟨σ', S', h2, h3⟩ := h1.future k hf h.shaped (fun x hx => hle.hashed hx) (fun i hi => hle.asked.subset hi) hn hser
  obtain ⟨H, tr⟩ := h1.tree
  obtain ⟨H', tr'⟩ := h2.tree
  obtain ⟨F', hF'⟩ := h2.inv.get hq
  obtain ⟨sp, F, hF, hi, hFe⟩ : ∃ sp F, σ p = some (sp, F) ∧ 1 ≤ i ∧ F[i - 1]? = some e := by
    rcases he with ⟨sp, a1, a2⟩ | ⟨a1, ⟨sp, a3⟩, a2⟩
    · obtain ⟨F, hF⟩ := h1.inv.get a1
      obtain ⟨c1, _, _, c4⟩ := (h1.inv.ok _ _ _ hF).log.at_some a2
      exact ⟨sp, F, hF, c1, c4⟩
    · obtain ⟨F, hF⟩ := h1.inv.get a3
      rw [h1.inv.applied _ _ _ hF, List.getElem?_take] at a2
      split at a2
      · exact ⟨sp, F, hF, a1, a2⟩
      · cases a2
  have hlt := (List.getElem?_eq_some_iff.mp hFe).1
  have hS := h3 _ _ _ (tr.now _ _ _ hF)
  have hH := (tr'.kept _ _ _ hS).2.2 _ _ hFe
  rw [← ht] at hH
  have := ((tr'.lead _ _ _ hF' hl).2 _ hH).length_le
  rw [(h2.inv.ok _ _ _ hF').log.lastIdx]
  rw [List.length_take] at this
  omega

/-- The answer of a call is an entry of the one history, with the request as its content. -/
theorem Call.entry (hg : Proper c.raft) {A A1 B G : Grid P D E} {i : Inner} {idx : Nat} {eff : Option E} (hr : GReachable c A)
    (h : Call c A A1 B i idx eff) (k : GFuture c B G) (hn : NoCollision c.raft.v G.W.Hashed) (hser : SerInj c.raft.v) (hv : FixedVoters c.raft G.W) :
    ∃ q loc p s e, Accepts c A A1 q i loc ∧ loc.idx = idx ∧ GFuture c A1 B ∧ 1 ≤ idx ∧ B.W.node p = some s ∧ (B.W.applied p)[idx - 1]? = some e ∧
      e = ⟨loc.term, i, loc.hash⟩ ∧ (p, idx, eff) ∈ B.out := by
  obtain ⟨q, loc, p, e, h1, rfl, h2, h3, h4, ⟨h5, _⟩, h6⟩ := h.spec hr
  have r1 : GReachable c A1 := hr.future (.next .now h1.next)
  have rB := r1.future h2
  obtain ⟨a, d, rs, o1, _⟩ := rB.ok.out _ _ _ h6
  obtain ⟨s, o2, _⟩ := rB.ok.has _ _ o1
  refine ⟨q, loc, p, s, e, h1, rfl, h2, h3, o2, h4, ?_, h6⟩
  have hle := k.raft.le rB.raft.shaped
  exact (C75_one_entry_per_term hg r1.raft h2.raft (fun a b ha hb => hn a b (hle.hashed ha) (hle.hashed hb)) hser (fun m ⟨gr, g1, g2⟩ => hv m ⟨gr, hle.asked.subset g1, g2⟩)
    (.log q (h1.spec hr).2) (.database p h3 h4) h5.symm).symm

/-- **C78**: with fixed voters, there is one sequence of log entries such that each request answered so far is one of them, answered as a single
database that runs them one after the other answers it. Of two requests, they are not the same entry, and if one was answered before the
other was taken by a leader it comes first. -/
theorem C78_linearizable (hg : Proper c.raft) {G : Grid P D E} (hr : GReachable c G) (hn : NoCollision c.raft.v G.W.Hashed) (hser : SerInj c.raft.v)
    (hv : FixedVoters c.raft G.W) : ∃ H d rs, Serial c.pr c.pr.fresh H d rs ∧
      (∀ A A1 B i idx eff, GReachable c A → Call c A A1 B i idx eff → GFuture c B G →
        1 ≤ idx ∧ (∃ e, H[idx - 1]? = some e ∧ e.inner = i) ∧ rs[idx - 1]? = some eff) ∧
      ∀ A A1 B i idx eff C C1 B2 i' idx' eff', GReachable c A → Call c A A1 B i idx eff → GFuture c B G → Call c C C1 B2 i' idx' eff' → GFuture c B2 G →
        (GFuture c A1 C → idx ≠ idx') ∧ (GFuture c B C → idx < idx') := by
  obtain ⟨H, d, rs, h1, h2, h3⟩ := C36_one_thread hg hr hn hser hv
  have hist : ∀ {B : Grid P D E} {p : P} {s : Node P}, GReachable c B → GFuture c B G → B.W.node p = some s → B.W.applied p <+: H := by
    intro B p s rB k hp
    have hle := k.raft.le rB.raft.shaped
    obtain ⟨s', n1, _⟩ := hle.node p s hp
    refine (hle.applied p s hp).trans ?_
    cases hs : G.side p with
    | none => rw [hr.ok.no p hs] at n1; cases n1
    | some a => exact h2 p a hs
  refine ⟨H, d, rs, h1, ?_, ?_⟩
  · intro A A1 B i idx eff hA hc k
    obtain ⟨q, loc, p, s, e, c1, c2, c3, c4, c5, c6, c7, c8⟩ := hc.entry hg hA k hn hser hv
    have rB := (hA.future (.next .now c1.next)).future c3
    exact ⟨c4, ⟨e, prefix_get (hist rB k c5) c6, by rw [c7]⟩, (h3 p idx eff (out_grows k c8)).2⟩
  · intro A A1 B i idx eff C C1 B2 i' idx' eff' hA hc k hc' k'
    obtain ⟨q, loc, p, s, e, c1, c2, c3, c4, c5, c6, c7, c8⟩ := hc.entry hg hA k hn hser hv
    have rA1 := hA.future (.next .now c1.next)
    have rB := rA1.future c3
    have key : ∀ X : Grid P D E, GReachable c X → GFuture c X C → ∀ x y, (InLog X.W x idx' y ∨ (1 ≤ idx' ∧ (∃ s, X.W.node x = some s) ∧
        (X.W.applied x)[idx' - 1]? = some y)) → (∀ e', H[idx' - 1]? = some e' → y.term = e'.term) → False := by
      intro X hX kX x y hy hH
      have hC := hX.future kX
      obtain ⟨q', loc', p', s', e', d1, d2, d3, d4, d5, d6, d7, d8⟩ := hc'.entry hg hC k' hn hser hv
      have rD := (hC.future (.next .now d1.next)).future d3
      obtain ⟨sq, l1, l2, l3, l4⟩ := (d1.spec hC).1
      have ht : sq.term = y.term := by
        rw [hH e' (prefix_get (hist rD k' d5) d6), l3, d7]
      have kCG : GFuture c C G := trans (trans (.next .now d1.next) d3) k'
      have := beyond hg hX.raft kX.raft kCG.raft hn hser hv hy l1 l2 ht
      omega
    constructor
    · rintro kC rfl
      refine key A1 rA1 kC q _ (.inl (c2 ▸ (c1.spec hA).2)) fun e' he' => ?_
      have := prefix_get (hist rB k c5) c6
      rw [he'] at this
      rw [Option.some.inj this, c7]
    · intro kC
      by_contra hlt
      have hlen := (List.getElem?_eq_some_iff.mp c6).1
      have h1' : 1 ≤ idx' := by
        obtain ⟨q', loc', p', s', e', _, _, _, d4, _⟩ := hc'.entry hg (rB.future kC) k' hn hser hv
        exact d4
      obtain ⟨y, hy⟩ : ∃ y, (B.W.applied p)[idx' - 1]? = some y := ⟨_, List.getElem?_eq_getElem (by omega)⟩
      refine key B rB kC p y (.inr ⟨h1', ⟨s, c5⟩, hy⟩) fun e' he' => ?_
      have := prefix_get (hist rB k c5) hy
      rw [he'] at this
      rw [Option.some.inj this]

/-! ### SVR2 -/

section
variable {prims : Prims} {parse : Bytes → Option Svr.DB2.Log} {c2 : Site P Svr.DB2.DB Svr.DB2.Log Svr.DB2.Resp}

/-- **C78** for SVR2: the sequence of entries gives each account one vault that handles the account's requests one after the other, and each
request is answered as this vault answers it. -/
theorem C78_svr2 (hpr : c2.pr = svr2 prims parse) (hg : Proper c2.raft) {G : Grid P Svr.DB2.DB Svr.DB2.Resp} (hr : GReachable c2 G)
    (hn : NoCollision c2.raft.v G.W.Hashed) (hser : SerInj c2.raft.v) (hv : FixedVoters c2.raft G.W) : ∃ H : List Entry,
      (∀ A A1 B i idx eff, GReachable c2 A → Call c2 A A1 B i idx eff → GFuture c2 B G → 1 ≤ idx ∧
        ∃ e, H[idx - 1]? = some e ∧ e.inner = i ∧ eff = (request c2.pr e).map fun l =>
          (Spec2.vstep (Spec2.vrun none (DB2.reqsOf l.id (logsOf c2.pr (H.take (idx - 1))))).1 l.req).2) ∧
      ∀ A A1 B i idx eff C C1 B2 i' idx' eff', GReachable c2 A → Call c2 A A1 B i idx eff → GFuture c2 B G → Call c2 C C1 B2 i' idx' eff' →
        GFuture c2 B2 G → (GFuture c2 A1 C → idx ≠ idx') ∧ (GFuture c2 B C → idx < idx') := by
  obtain ⟨H, d, rs, h1, h2, h3⟩ := C78_linearizable hg hr hn hser hv
  refine ⟨H, fun A A1 B i idx eff hA hc k => ?_, h3⟩
  obtain ⟨a1, ⟨e, a2, a3⟩, a4⟩ := h2 A A1 B i idx eff hA hc k
  rw [hpr] at h1 ⊢
  obtain ⟨e', b1, b2⟩ := serial_at h1 rfl a4
  rw [a2] at b1
  cases b1
  exact ⟨a1, e, a2, a3, b2⟩

end

/-! ### The hypotheses are met -/

open Raft.Play Core.Play

/-- A request to `q`. -/
def ask (c : Site Nat D L E) (X : GTab D E) (q : Nat) (i : Inner) : Option (GTab D E × Loc) :=
  match look q X.T.rows with
  | none => none
  | some (s, A) => if (Op.request i : Op Nat).fits s then
      match s.logRequest c.raft.v i with
      | .ok (s', .ok loc) => some (⟨⟨place q (s', A) X.T.rows, X.T.net, X.T.asked ++ [i]⟩, X.sides, X.out⟩, loc)
      | _ => none
    else none

theorem ask_accepts {c : Site Nat D L E} {X X1 : GTab D E} {q : Nat} {i : Inner} {loc : Loc} (h : ask c X q i = some (X1, loc)) :
    Accepts c X.grid X1.grid q i loc := by
  unfold ask at h
  split at h
  · cases h
  rename_i s A hl
  split at h
  · rename_i hf
    split at h
    · rename_i s' loc' hr
      cases h
      have hA : X.T.world.applied q = A := by simp [Table.world, hl, appliedOf]
      refine ⟨s, s', c.raft.v.rand, c.raft.v.path, by simp [GTab.grid, Table.world, hl], Op.fits_iff hf, hr, ?_⟩
      have := put_world X.T q s' A [] [i]
      rw [List.append_nil] at this
      unfold GTab.grid
      simp only [this, hA]
    · cases h
  · cases h

/-- The handler `w` is registered at `p`. -/
def register (X : GTab D E) (p w : Nat) (loc : Loc) : Option (GTab D E) :=
  match lookS p X.sides with
  | none => none
  | some a => if a.txs.all (fun x => decide (x.2.who ≠ w)) && a.done.all (fun x => decide (x.1 ≠ w)) then
      some ⟨X.T, placeS p (a.add loc.idx ⟨loc.term, loc.hash, w⟩) X.sides, X.out⟩
    else none

theorem gstep_quiet {c : Site Nat D L E} {cfg : RaftCfg} {X X' : GTab D E} {act : Act} (h : gstep c cfg X act = some X') {p : Nat} {a b : Side D E}
    (ha : lookS p X.sides = some a) (hb : lookS p X'.sides = some b) : ∀ x ∈ b.txs, x ∈ a.txs := by
  have same : X'.sides = X.sides → ∀ x ∈ b.txs, x ∈ a.txs := by
    intro e
    rw [e, ha] at hb
    cases hb
    exact fun x hx => hx
  have fresh : ∀ q (d : Side D E), d.txs = [] → X'.sides = placeS q d X.sides → ∀ x ∈ b.txs, x ∈ a.txs := by
    intro q d hd e
    rw [e, lookS_placeS] at hb
    split at hb
    · cases hb; rw [hd]; intro x hx; cases hx
    · rw [ha] at hb; cases hb; exact fun x hx => hx
  cases act with
  | start q =>
    simp only [gstep, Option.map_eq_some_iff] at h
    obtain ⟨T, _, rfl⟩ := h
    exact fresh q _ rfl rfl
  | startIn q max =>
    simp only [gstep, Option.map_eq_some_iff] at h
    obtain ⟨T, _, rfl⟩ := h
    exact fresh q _ rfl rfl
  | join q r =>
    simp only [gstep] at h
    split at h
    · simp only [Option.map_eq_some_iff] at h
      obtain ⟨T, _, rfl⟩ := h
      exact fresh q _ rfl rfl
    · cases h
  | give q k =>
    simp only [gstep, Option.map_eq_some_iff] at h
    obtain ⟨T, _, rfl⟩ := h
    exact same rfl
  | call q op =>
    simp only [gstep] at h
    split at h
    · unfold commitStep at h
      split at h
      · rename_i s A a0 hl ha0
        split at h
        · split at h
          · split at h
            · rename_i a' ht
              cases h
              rw [lookS_placeS] at hb
              split at hb
              · rename_i e
                subst e
                rw [ha] at ha0
                cases ha0
                cases hb
                exact (take_told ht).1
              · rw [ha] at hb; cases hb; exact fun x hx => hx
            · cases h
          · cases h
        · cases h
      · cases h
    · simp only [Option.map_eq_some_iff] at h
      obtain ⟨T, _, rfl⟩ := h
      exact same rfl

theorem gplay_since {c : Site Nat D L E} {cfg : RaftCfg} {p w : Nat} : ∀ {as : List Act} {X X' : GTab D E}, gplay c cfg as X = some X' →
    ∀ {G : Grid Nat D E}, Since c p w G X.grid → Since c p w G X'.grid
  | [], X, X', h, G, hf => by cases h; exact hf
  | a :: t, X, X', h, G, hf => by
    simp only [gplay] at h
    split at h
    · rename_i X1 h1
      exact gplay_since h (hf.next (gstep_next h1) fun a b ha hb x hx _ => gstep_quiet h1 ha hb x hx)
    · cases h

/-- A request to `q`, registered at `p` for the handler `w`, and then `as`. The answer, and what comes of it. -/
def serve (c : Site Nat D L E) (cfg : RaftCfg) (X : GTab D E) (q : Nat) (i : Inner) (p w : Nat) (as : List Act) : Option (GTab D E × Nat × Option E) :=
  match ask c X q i with
  | none => none
  | some (X1, loc) => match register X1 p w loc with
    | none => none
    | some X2 => match gplay c cfg as X2 with
      | none => none
      | some X3 => match (lookS p X3.sides).bind fun b => b.done.findSome? fun d => match d with
          | (w', .success _ eff) => if w' = w then some eff else none
          | _ => none with
        | none => none
        | some eff => some (X3, loc.idx, eff)

theorem serve_call {c : Site Nat D L E} {cfg : RaftCfg} {X X3 : GTab D E} {q p w idx : Nat} {i : Inner} {as : List Act} {eff : Option E}
    (h : serve c cfg X q i p w as = some (X3, idx, eff)) : ∃ A1, Call c X.grid A1 X3.grid i idx eff := by
  unfold serve at h
  split at h
  · cases h
  rename_i X1 loc h1
  split at h
  · cases h
  rename_i X2 h2
  split at h
  · cases h
  rename_i X4 h3
  split at h
  · cases h
  rename_i f h4
  cases h
  refine ⟨X1.grid, q, loc, ask_accepts h1, rfl, ?_⟩
  unfold register at h2
  split at h2
  · cases h2
  rename_i a ha
  split at h2
  · rename_i hw
    cases h2
    simp only [Bool.and_eq_true, List.all_eq_true, decide_eq_true_eq] at hw
    obtain ⟨b, hb, hf⟩ := Option.bind_eq_some_iff.mp h4
    obtain ⟨d, hd, hf⟩ := List.exists_of_findSome?_eq_some hf
    obtain ⟨w', d⟩ := d
    cases d with
    | success e g =>
      simp only at hf
      split at hf
      · rename_i hw'
        cases hf
        subst hw'
        refine ⟨X1.grid, p, w', a, b, e, .now, ha, hw.1, hw.2, ?_, hb, hd⟩
        have := gplay_since (p := p) (w := w') h3 .now
        unfold GTab.grid at this ⊢
        simp only [sides_set] at this
        exact this
      · cases hf
    | cancelled => cases hf
    | badHash => cases hf
    | removed => cases hf
  · cases h2

/-- Replica 1 of `site` is elected. -/
def elected : List Act := [.start 1, .start 2, .start 3, .call 1 .tick, flush 1, .give 2 0, flush 2, .give 1 1]

/-- A request forwarded by replica 2 is answered there; then one made at replica 1 is answered. -/
def twice : Option (GTab Svr.DB2.DB Svr.DB2.Resp × GTab Svr.DB2.DB Svr.DB2.Resp × GTab Svr.DB2.DB Svr.DB2.Resp × (Nat × Option Svr.DB2.Resp) ×
    (Nat × Option Svr.DB2.Resp)) :=
  match gplay site fast elected GTab.none with
  | none => none
  | some X => match serve site fast X 1 (.data [1]) 2 7 [flush 1, .give 2 2, .give 2 4, flush 2, .give 1 7, flush 1, .give 2 8, flush 2,
      .give 1 10, flush 1, .give 2 11, .call 2 .takeCommitted, .call 2 .takeCommitted, flush 2] with
    | none => none
    | some (Y, a) => match serve site fast Y 1 (.data [2]) 1 8 ([flush 1, .give 2 14, flush 2, .give 1 16, flush 1, .give 2 17, flush 2, .give 1 19] ++
        List.replicate 3 (.call 1 .takeCommitted)) with
      | none => none
      | some (Z, b) => some (X, Y, Z, a, b)

set_option maxRecDepth 100000 in
/-- What C78 speaks about happens: in a group meeting all hypotheses a backup is answered and then an expose is asked for and answered. -/
example : ∃ A A1 B C1 G : Grid Nat Svr.DB2.DB Svr.DB2.Resp, Proper site.raft ∧ site.pr = svr2 DB2.P0 rq ∧ GReachable site A ∧ GReachable site G ∧
    NoCollision site.raft.v G.W.Hashed ∧ SerInj site.raft.v ∧ FixedVoters site.raft G.W ∧
    Call site A A1 B (.data [1]) 2 (some (.backup)) ∧ Call site B C1 G (.data [2]) 3 (some (.expose true)) := by
  have h : (match twice with
      | some (_, _, Z, a, b) => noColl (hashedBy Z.T) && requests Z.T (fun _ => false) && decide (a = (2, some (.backup))) &&
          decide (b = (3, some (.expose true)))
      | none => false) = true := by decide +kernel
  split at h
  · rename_i X Y Z a b e
    simp only [Bool.and_eq_true, decide_eq_true_eq] at h
    obtain ⟨⟨⟨h1, h2⟩, rfl⟩, rfl⟩ := h
    unfold twice at e
    split at e
    · cases e
    rename_i X' e1
    split at e
    · cases e
    rename_i Y' a' e2
    split at e
    · cases e
    rename_i Z' b' e3
    obtain ⟨rfl, rfl, rfl, rfl, rfl⟩ : X' = X ∧ Y' = Y ∧ Z' = Z ∧ a' = _ ∧ b' = _ := by simpa using e
    have r := gplay_reachable e1
    obtain ⟨A1, c1⟩ := serve_call e2
    obtain ⟨C1, c2⟩ := serve_call e3
    have f1 : GFuture site X'.grid Y'.grid := by
      obtain ⟨q, loc, p, e, d1, _, d3, _⟩ := c1.spec r
      exact trans (.next .now d1.next) d3
    have f2 : GFuture site Y'.grid Z'.grid := by
      obtain ⟨q, loc, p, e, d1, _, d3, _⟩ := c2.spec (r.future f1)
      exact trans (.next .now d1.next) d3
    exact ⟨X'.grid, A1, Y'.grid, C1, Z'.grid, ⟨⟨by simp [site, trio, SSorted], by simp [site, trio, SSorted]⟩, by simp [site, trio],
      by simp [site, trio], by simp [site, trio]⟩, rfl, r, (r.future f1).future f2, noColl_table h1, serInj_steady,
      fun m hm => absurd (requests_spec (g := trio) rfl h2 hm) (by decide), c1, c2⟩
  · cases h

end Svr.Props.Linear
