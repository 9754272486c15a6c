import Verif.Core.Play
import Verif.Props.RaftGroup
import Verif.Props.DB2

/-!
# C35, C36: one database, one vault

`Spec.Serial` runs the entries one after the other on a single database. The statements are about every schedule of a group of
enclaves: starts, joins, messages delayed, lost, repeated or reordered, elections, timeouts, requests at any replica, crashes.
`NoCollision` says that HMAC does not collide on the inputs the group computed, `SerInj` that protobuf serialisation is injective.
-/

namespace Svr.Props.Grid
open Core Raft Spec
open Svr.Props.RaftGroup
variable {P : Type} [LinearOrder P] {D L E : Type} {c : Site P D L E}

/-- Entries applied anywhere, now or earlier, agree. -/
def Agreeing (W W' : World P) : Prop :=
  ∀ p q s s', W.node p = some s → W'.node q = some s' → W.applied p <+: W'.applied q ∨ W'.applied q <+: W.applied p

theorem agreeing_fixed (hg : Proper c.raft) {G G' : Grid P D E} (h : GReachable c G) (k : GFuture c G G')
    (hn : NoCollision c.raft.v G'.W.Hashed) (hser : SerInj c.raft.v) (hv : FixedVoters c.raft G'.W) : Agreeing G.W G'.W :=
  fun _ _ _ _ hp hq => C28_applied_agree hg h.raft k.raft hn hser hv hp hq

theorem agreeing_changing (hg : Proper c.raft) {G G' : Grid P D E} (h : GReachable c G) (k : GFuture c G G')
    (hn : NoCollision c.raft.v G'.W.Hashed) (hser : SerInj c.raft.v) (hv : Changing c.raft G'.W) : Agreeing G.W G'.W :=
  fun _ _ _ _ hp hq => C29_applied_agree_partial hg h.raft k.raft hn hser hv hp hq

theorem same_state {G G' : Grid P D E} (h : GReachable c G) (k : GFuture c G G') (ha : Agreeing G.W G'.W) {p q : P} {a b : Side D E}
    (hp : G.side p = some a) (hq : G'.side q = some b) :
    (a.last = b.last → a.db = b.db ∧ a.limits = b.limits) ∧ ∀ i x y, (i, x) ∈ a.effects → (i, y) ∈ b.effects → x = y := by
  obtain ⟨s, h1, h2⟩ := h.ok.has p a hp
  obtain ⟨s', k1, k2⟩ := (h.future k).ok.has q b hq
  obtain ⟨rs, d1, d2⟩ := h2.db
  obtain ⟨rs', e1, e2⟩ := k2.db
  have hcmp := ha p q s s' h1 k1
  constructor
  · intro hl
    have hlen : (G.W.applied p).length = (G'.W.applied q).length := by rw [← h2.last, ← k2.last, hl]
    have heq : G.W.applied p = G'.W.applied q := by
      rcases hcmp with hc | hc
      · exact hc.eq_of_length hlen
      · exact (hc.eq_of_length hlen.symm).symm
    rw [heq] at d1
    have hlim := h2.limits
    rw [heq] at hlim
    exact ⟨(d1.unique e1).1, hlim.unique k2.limits⟩
  · intro i x y hx hy
    obtain ⟨_, x2⟩ := d2 i x hx
    obtain ⟨_, y2⟩ := e2 i y hy
    have key : ∀ {A B : List Entry} {da db : D} {ra rb : List (Option E)} {u v : Option E}, A <+: B →
        Serial c.pr c.pr.fresh A da ra → Serial c.pr c.pr.fresh B db rb → ra[i - 1]? = some u → rb[i - 1]? = some v → u = v := by
      intro A B da db ra rb u v ⟨K, hK⟩ hA hB hu hv
      rw [← hK] at hB
      obtain ⟨d1, r1, r2, t1, _, rfl⟩ := hB.split
      obtain ⟨_, rfl⟩ := hA.unique t1
      rw [List.getElem?_append_left (List.getElem?_eq_some_iff.mp hu).1, hu] at hv
      exact Option.some.inj hv
    rcases hcmp with hc | hc
    · exact key hc d1 e1 x2 y2
    · exact (key hc e1 d1 y2 x2).symm

/-- **C35**: two replicas that have applied the same index, at the same or at different times, have the same database and the same
limits; and their databases gave the same response to every entry both of them applied. -/
theorem C35_same_index_same_database (hg : Proper c.raft) {G G' : Grid P D E} (h : GReachable c G) (k : GFuture c G G')
    (hn : NoCollision c.raft.v G'.W.Hashed) (hser : SerInj c.raft.v) (hv : FixedVoters c.raft G'.W) {p q : P} {a b : Side D E}
    (hp : G.side p = some a) (hq : G'.side q = some b) :
    (a.last = b.last → a.db = b.db ∧ a.limits = b.limits) ∧ ∀ i x y, (i, x) ∈ a.effects → (i, y) ∈ b.effects → x = y :=
  same_state h k (agreeing_fixed hg h k hn hser hv) hp hq

/-- **C35** while the voters change, if the super majority is at least 1 (see C29 for what goes wrong with 0). -/
theorem C35_changing_voters (hg : Proper c.raft) {G G' : Grid P D E} (h : GReachable c G) (k : GFuture c G G')
    (hn : NoCollision c.raft.v G'.W.Hashed) (hser : SerInj c.raft.v) (hv : Changing c.raft G'.W) {p q : P} {a b : Side D E}
    (hp : G.side p = some a) (hq : G'.side q = some b) :
    (a.last = b.last → a.db = b.db ∧ a.limits = b.limits) ∧ ∀ i x y, (i, x) ∈ a.effects → (i, y) ∈ b.effects → x = y :=
  same_state h k (agreeing_changing hg h k hn hser hv) hp hq

/-- **C35**: the database is what a single thread would make of the applied entries, and as many entries are applied as the index
says. -/
theorem C35_serial {G : Grid P D E} (h : GReachable c G) {p : P} {a : Side D E} (hp : G.side p = some a) :
    a.last = (G.W.applied p).length ∧ ∃ rs, Serial c.pr c.pr.fresh (G.W.applied p) a.db rs ∧
      ∀ i x, (i, x) ∈ a.effects → 1 ≤ i ∧ rs[i - 1]? = some x := by
  obtain ⟨s, h1, h2⟩ := h.ok.has p a hp
  exact ⟨h2.last, h2.db⟩

theorem inner_ok {pr : Proto D L E} {pm : Bytes → Option Minimums.Limits} {me : Bytes} (s : Side D E) (i : Inner)
    (hdb : ∀ l, pr.valid l = true → ∃ d r, pr.run s.db l = .ok (d, r))
    (hmin : ∀ b, i = .minimums b → ∃ u l, pm b = some u ∧ Minimums.updateLimits s.limits u = .ok l) :
    ∃ s1 eff, s.inner pr pm me i = .ok (s1, eff) := by
  cases i with
  | membership g => exact ⟨_, _, rfl⟩
  | notSet => exact ⟨_, _, rfl⟩
  | minimums b =>
    obtain ⟨u, l, h1, h2⟩ := hmin b rfl
    exact ⟨{ s with limits := l }, none, by simp [Side.inner, h1, Minimums.applyCommitted, h2]⟩
  | data b =>
    cases hp : pr.parse b with
    | none => exact ⟨s, none, by simp [Side.inner, applyDb, hp]⟩
    | some l =>
      by_cases hv : pr.valid l = true
      · obtain ⟨d, r, hr⟩ := hdb l hv
        exact ⟨{ s with db := d }, some r, by simp [Side.inner, applyDb, hp, hv, hr]⟩
      · exact ⟨s, none, by simp [Side.inner, applyDb, hp, hv]⟩

/-- **C35**, nothing stops a replica: as long as nobody tampers with the integrity tree (`path = true`), the next committed entry is
there and gets applied, unless it changes the limits in a way the limits do not allow. -/
theorem C35_applies_what_is_committed {G : Grid P D E} (h : GReachable c G) (hn : NoCollision c.raft.v G.W.Hashed)
    (hser : SerInj c.raft.v) {p : P} {s : Node P} {a : Side D E} (hp : G.W.node p = some s) (ha : G.side p = some a)
    (hc : s.lastApplied < s.commit) (hdb : ∀ l, c.pr.valid l = true → ∃ d r, c.pr.run a.db l = .ok (d, r)) :
    ∃ s' i e, s.takeCommittedLog = .ok (s', some (i, e)) ∧
      ((∀ b, e.inner = .minimums b → ∃ u l, c.pm b = some u ∧ Minimums.updateLimits a.limits u = .ok l) →
        ∃ a', a.take c.pr c.pm (c.str p) true i e = .ok a' ∧ a'.last = a.last + 1) := by
  obtain ⟨s0, h1, h2⟩ := h.ok.has p a ha
  rw [hp] at h1; cases h1
  obtain ⟨_, hcp, hpl⟩ := C30_indexes_in_order h.raft hn hser hp
  have hsh := h.raft.shaped p s hp
  have hat : (s.log.at? (s.lastApplied + 1)).isSome := by
    rw [hsh.at_iff]
    have := hsh.old
    omega
  obtain ⟨e, he⟩ := Option.isSome_iff_exists.mp hat
  refine ⟨{ s with lastApplied := s.lastApplied + 1 }, s.lastApplied + 1, e, ?_, ?_⟩
  · unfold Node.takeCommittedLog
    rw [if_neg (by omega)]
    simp only [he]
  · intro hmin
    obtain ⟨s1, eff, k⟩ := inner_ok (pr := c.pr) (pm := c.pm) (me := c.str p)
      ({ a with last := s.lastApplied + 1, leaf := be64 (s.lastApplied + 1) } : Side D E) e.inner hdb hmin
    refine ⟨{ s1.settle (s.lastApplied + 1) e eff with effects := s1.effects ++ [(s.lastApplied + 1, eff)] }, ?_, ?_⟩
    · unfold Side.take
      have hck : Out.check (ctEq (be64 a.last) a.leaf && true) = .ok () := by
        rw [h2.leaf]
        rw [Out.check_eq_ok, Bool.and_true, ctEq_iff]
      rw [hck, Out.bind_ok, k]
      rfl
    · show s1.last = _
      rw [(inner_cases k).1, h2.last, h2.node]

/-! ## One history for all -/

theorem finite {G : Grid P D E} (h : GReachable c G) : ∃ ps : List P, ∀ p a, G.side p = some a → p ∈ ps := by
  induction h with
  | now => exact ⟨[], fun p a h => (by cases h)⟩
  | next _ k ih =>
    obtain ⟨ps, hps⟩ := ih
    have key : ∀ {G1 : Grid P D E} (p : P) (a' : Side D E), (∀ p a, G1.side p = some a → p ∈ ps) →
        ∀ q a, setSide G1.side p a' q = some a → q ∈ p :: ps := by
      intro G1 p a' hps q a hq
      by_cases e : q = p
      · rw [e]; exact List.mem_cons_self
      · simp only [setSide, e, if_false] at hq
        exact List.mem_cons_of_mem _ (hps q a hq)
    cases k with
    | start p => exact ⟨_, key p _ hps⟩
    | join p => exact ⟨_, key p _ hps⟩
    | call => exact ⟨ps, hps⟩
    | add p => exact ⟨_, key p _ hps⟩
    | commit p => exact ⟨_, key p _ hps⟩

/-- The longest list of applied entries. -/
theorem longest {G : Grid P D E} (h : GReachable c G) (ha : Agreeing G.W G.W) :
    ∃ H, (∃ d rs, Serial c.pr c.pr.fresh H d rs) ∧ ∀ p a, G.side p = some a → G.W.applied p <+: H := by
  obtain ⟨ps, hps⟩ := finite h
  have main : ∀ l : List P, ∃ H, (H = [] ∨ ∃ q b, G.side q = some b ∧ G.W.applied q = H) ∧
      ∀ p a, p ∈ l → G.side p = some a → G.W.applied p <+: H := by
    intro l
    induction l with
    | nil => exact ⟨[], .inl rfl, fun p a hp => (by cases hp)⟩
    | cons x l ih =>
      obtain ⟨H, h1, h2⟩ := ih
      cases hx : G.side x with
      | none =>
        refine ⟨H, h1, fun p a hp hs => ?_⟩
        rcases List.mem_cons.mp hp with rfl | hp
        · rw [hx] at hs; cases hs
        · exact h2 p a hp hs
      | some b =>
        have hcmp : G.W.applied x <+: H ∨ H <+: G.W.applied x := by
          rcases h1 with rfl | ⟨q, b', hq, rfl⟩
          · exact .inr List.nil_prefix
          · obtain ⟨s, k, _⟩ := h.ok.has x b hx
            obtain ⟨s', k', _⟩ := h.ok.has q b' hq
            exact ha x q s s' k k'
        rcases hcmp with hc | hc
        · refine ⟨H, h1, fun p a hp hs => ?_⟩
          rcases List.mem_cons.mp hp with rfl | hp
          · exact hc
          · exact h2 p a hp hs
        · refine ⟨G.W.applied x, .inr ⟨x, b, hx, rfl⟩, fun p a hp hs => ?_⟩
          rcases List.mem_cons.mp hp with rfl | hp
          · exact List.prefix_rfl
          · exact (h2 p a hp hs).trans hc
  obtain ⟨H, h1, h2⟩ := main ps
  refine ⟨H, ?_, fun p a hs => h2 p a (hps p a hs) hs⟩
  rcases h1 with rfl | ⟨q, b, hq, rfl⟩
  · exact ⟨_, _, .done _⟩
  · obtain ⟨s, _, k⟩ := h.ok.has q b hq
    obtain ⟨rs, hser, _⟩ := k.db
    exact ⟨_, _, hser⟩

/-- Everything any replica ever answered is what one thread with one database answers. -/
theorem one_history {G : Grid P D E} (h : GReachable c G) (ha : Agreeing G.W G.W) :
    ∃ H d rs, Serial c.pr c.pr.fresh H d rs ∧ (∀ p a, G.side p = some a → G.W.applied p <+: H) ∧
      ∀ p i x, (p, i, x) ∈ G.out → 1 ≤ i ∧ rs[i - 1]? = some x := by
  obtain ⟨H, ⟨d, rs, hser⟩, hpre⟩ := longest h ha
  refine ⟨H, d, rs, hser, hpre, fun p i x hm => ?_⟩
  obtain ⟨a, d', rs', h1, h2, h3, h4⟩ := h.ok.out p i x hm
  obtain ⟨K, hK⟩ := hpre p a h1
  rw [← hK] at hser
  obtain ⟨d1, r1, r2, k1, _, rfl⟩ := hser.split
  obtain ⟨_, rfl⟩ := h2.unique k1
  exact ⟨h3, by rw [List.getElem?_append_left (List.getElem?_eq_some_iff.mp h4).1]; exact h4⟩

/-- **C35/C36** for any database: all responses of all replicas are those of one thread with one database. -/
theorem C36_one_thread (hg : Proper c.raft) {G : Grid P D E} (h : GReachable c G)
    (hn : NoCollision c.raft.v G.W.Hashed) (hser : SerInj c.raft.v) (hv : FixedVoters c.raft G.W) :
    ∃ H d rs, Serial c.pr c.pr.fresh H d rs ∧ (∀ p a, G.side p = some a → G.W.applied p <+: H) ∧
      ∀ p i x, (p, i, x) ∈ G.out → 1 ≤ i ∧ rs[i - 1]? = some x :=
  one_history h (agreeing_fixed hg h .now hn hser hv)

/-! ## C36: SVR2 -/

/-- SVR2's database behind the interface of `core.cc`, on an integrity tree nobody tampers with. -/
def svr2 (prims : Prims) (parse : Bytes → Option Svr.DB2.Log) : Proto Svr.DB2.DB Svr.DB2.Log Svr.DB2.Resp :=
  ⟨Svr.DB2.empty, parse, fun l => Svr.DB2.validate l == none, Svr.DB2.run prims DB2.intact⟩

/-- The requests in a history. -/
def logsOf (pr : Proto D L E) (H : List Entry) : List L := H.filterMap (request pr)

section
variable {prims : Prims} {parse : Bytes → Option Svr.DB2.Log}

theorem request_valid {e : Entry} {l : Svr.DB2.Log} (h : request (svr2 prims parse) e = some l) : Svr.DB2.validate l = none := by
  unfold request at h
  split at h
  · have := (Option.filter_eq_some_iff.mp h).2
    simpa [svr2] using this
  · cases h

theorem logsOf_valid (H : List Entry) : DB2.Valid (logsOf (svr2 prims parse) H) := by
  intro l hl
  obtain ⟨e, _, he⟩ := List.mem_filterMap.mp hl
  exact request_valid he

/-- The responses without those that are none. -/
theorem serial_runAll {d d' : Svr.DB2.DB} {H : List Entry} {rs : List (Option Svr.DB2.Resp)} (h : Serial (svr2 prims parse) d H d' rs) :
    Svr.DB2.runAll prims DB2.intact d (logsOf (svr2 prims parse) H) = .ok (d', rs.filterMap id) := by
  induction h with
  | done => rfl
  | skip d e H d' rs h _ ih => simpa [logsOf, h] using ih
  | run d e l d1 r H d' rs h hr _ ih =>
    have hr' : Svr.DB2.run prims DB2.intact d l = .ok (d1, r) := hr
    simp only [logsOf, List.filterMap_cons, h, Svr.DB2.runAll, hr', Out.bind_ok, id]
    simp only [logsOf] at ih
    rw [ih]; rfl

theorem serial_at {d d' : Svr.DB2.DB} {H : List Entry} {rs : List (Option Svr.DB2.Resp)} (h : Serial (svr2 prims parse) d H d' rs)
    (hd : d = Svr.DB2.empty) {i : Nat} {x : Option Svr.DB2.Resp} (hx : rs[i]? = some x) :
    ∃ e, H[i]? = some e ∧ x = (request (svr2 prims parse) e).map fun l =>
      (Spec2.vstep (Spec2.vrun none (DB2.reqsOf l.id (logsOf (svr2 prims parse) (H.take i)))).1 l.req).2 := by
  subst hd
  have hi : i < H.length := by rw [← h.length]; exact (List.getElem?_eq_some_iff.mp hx).1
  refine ⟨H[i], List.getElem?_eq_getElem hi, ?_⟩
  have hsplit : H = H.take i ++ ([H[i]] ++ H.drop (i + 1)) := by
    rw [List.singleton_append, ← List.drop_eq_getElem_cons hi, List.take_append_drop]
  rw [hsplit] at h
  obtain ⟨d1, r1, r2, h1, h2, rfl⟩ := h.split
  obtain ⟨d2, r3, r4, h3, h4, rfl⟩ := h2.split
  have hl1 : r1.length = i := by rw [h1.length, List.length_take]; omega
  cases h3 with
  | skip _ _ _ _ rs' hr k =>
    cases k
    rw [List.getElem?_append_right (by omega), hl1] at hx
    simp at hx
    rw [hr, ← hx]; rfl
  | run _ _ l d3 r _ _ rs' hr hrun k =>
    cases k
    rw [List.getElem?_append_right (by omega), hl1] at hx
    simp at hx
    rw [hr, ← hx]
    simp only [Option.map_some, Option.some.injEq]
    have a1 := serial_runAll h1
    have a2 : Svr.DB2.run prims DB2.intact d1 l = .ok (d2, r) := hrun
    have hv : DB2.Valid (logsOf (svr2 prims parse) (H.take i) ++ [l]) := by
      intro y hy
      rcases List.mem_append.mp hy with hy | hy
      · exact logsOf_valid _ y hy
      · rw [List.mem_singleton.mp hy]; exact request_valid hr
    obtain ⟨db, rs0, b1, b2⟩ := DB2.last_resp prims (logsOf (svr2 prims parse) (H.take i)) l hv
    have happ : ∀ {l1 : List Svr.DB2.Log} {x0 x1 x2 : Svr.DB2.DB} {q1 : List Svr.DB2.Resp} {r : Svr.DB2.Resp},
        Svr.DB2.runAll prims DB2.intact x0 l1 = .ok (x1, q1) → Svr.DB2.run prims DB2.intact x1 l = .ok (x2, r) →
        Svr.DB2.runAll prims DB2.intact x0 (l1 ++ [l]) = .ok (x2, q1 ++ [r]) := by
      intro l1
      induction l1 with
      | nil =>
        intro x0 x1 x2 q1 r g1 g2
        cases g1
        simp [Svr.DB2.runAll, g2]
      | cons y l1 ih =>
        intro x0 x1 x2 q1 r g1 g2
        simp only [Svr.DB2.runAll] at g1
        obtain ⟨⟨x3, r3⟩, g3, g1⟩ := Out.bind_eq_ok.mp g1
        obtain ⟨⟨x4, r4⟩, g4, g1⟩ := Out.bind_eq_ok.mp g1
        cases g1
        have := ih g4 g2
        simp [Svr.DB2.runAll, g3, this]
    have c1 := happ a1 a2
    rw [b1] at c1
    simp only [Out.ok.injEq, Prod.mk.injEq] at c1
    have := (List.append_inj' c1.2 rfl).2
    simpa using this.symm

end

variable {prims : Prims} {parse : Bytes → Option Svr.DB2.Log} {c2 : Site P Svr.DB2.DB Svr.DB2.Log Svr.DB2.Resp}

theorem single_vault (hpr : c2.pr = svr2 prims parse) {G : Grid P Svr.DB2.DB Svr.DB2.Resp} (h : GReachable c2 G)
    (ha : Agreeing G.W G.W) :
    ∃ H : List Entry, (∀ p a, G.side p = some a → G.W.applied p <+: H) ∧ ∀ p i x, (p, i, x) ∈ G.out → 1 ≤ i ∧
      ∃ e, H[i - 1]? = some e ∧ x = (request c2.pr e).map fun l =>
        (Spec2.vstep (Spec2.vrun none (DB2.reqsOf l.id (logsOf c2.pr (H.take (i - 1))))).1 l.req).2 := by
  obtain ⟨H, d, rs, h1, h2, h3⟩ := one_history h ha
  refine ⟨H, h2, fun p i x hm => ?_⟩
  obtain ⟨k1, k2⟩ := h3 p i x hm
  rw [hpr] at h1 ⊢
  exact ⟨k1, serial_at h1 rfl k2⟩

/-- **C36**: there is one list of entries such that every replica has applied a beginning of it, and every response any replica ever
produced is that of a single vault per account which handles the account's requests in the list one after the other. -/
theorem C36_single_vault (hpr : c2.pr = svr2 prims parse) (hg : Proper c2.raft) {G : Grid P Svr.DB2.DB Svr.DB2.Resp} (h : GReachable c2 G)
    (hn : NoCollision c2.raft.v G.W.Hashed) (hser : SerInj c2.raft.v) (hv : FixedVoters c2.raft G.W) :
    ∃ H : List Entry, (∀ p a, G.side p = some a → G.W.applied p <+: H) ∧ ∀ p i x, (p, i, x) ∈ G.out → 1 ≤ i ∧
      ∃ e, H[i - 1]? = some e ∧ x = (request c2.pr e).map fun l =>
        (Spec2.vstep (Spec2.vrun none (DB2.reqsOf l.id (logsOf c2.pr (H.take (i - 1))))).1 l.req).2 :=
  single_vault hpr h (agreeing_fixed hg h .now hn hser hv)

/-- **C36** while the voters change, if the super majority is at least 1. -/
theorem C36_single_vault_changing_voters (hpr : c2.pr = svr2 prims parse) (hg : Proper c2.raft) {G : Grid P Svr.DB2.DB Svr.DB2.Resp}
    (h : GReachable c2 G) (hn : NoCollision c2.raft.v G.W.Hashed) (hser : SerInj c2.raft.v) (hv : Changing c2.raft G.W) :
    ∃ H : List Entry, (∀ p a, G.side p = some a → G.W.applied p <+: H) ∧ ∀ p i x, (p, i, x) ∈ G.out → 1 ≤ i ∧
      ∃ e, H[i - 1]? = some e ∧ x = (request c2.pr e).map fun l =>
        (Spec2.vstep (Spec2.vrun none (DB2.reqsOf l.id (logsOf c2.pr (H.take (i - 1))))).1 l.req).2 :=
  single_vault hpr h (agreeing_changing hg h .now hn hser hv)

/-- Guesses left in a vault. -/
def left : Option Spec2.Vault → Nat
  | none => 0
  | some v => v.left

theorem vstep_left {o : Option Spec2.Vault} {q : Svr.DB2.Req} (h : Spec2.isBackup q = false) : left (Spec2.vstep o q).1 ≤ left o := by
  cases o with
  | none => cases q <;> simp [Spec2.isBackup, Spec2.vstep, left] at h ⊢
  | some v =>
    cases q with
    | backup => simp [Spec2.isBackup] at h
    | restore g =>
      simp only [Spec2.vstep]
      split
      · exact le_rfl
      · split
        · exact le_rfl
        · split
          · simp [left]
          · simp [left]
    | delete => simp [Spec2.vstep, left]
    | expose d => simp only [Spec2.vstep]; split <;> simp [left]
    | tries => simp [Spec2.vstep]
    | unset => simp [Spec2.vstep]

theorem vrun_left {qs : List Svr.DB2.Req} : ∀ {o : Option Spec2.Vault}, (∀ q ∈ qs, Spec2.isBackup q = false) →
    left (Spec2.vrun o qs).1 ≤ left o := by
  induction qs with
  | nil => intro o _; exact le_rfl
  | cons q qs ih =>
    intro o h
    exact le_trans (ih fun x hx => h x (List.mem_cons_of_mem _ hx)) (vstep_left (h q List.mem_cons_self))

theorem vstep_mismatch {o : Option Spec2.Vault} {q : Svr.DB2.Req} {d : Bytes} {t : Nat}
    (h : (Spec2.vstep o q).2 = .restore .pinMismatch d t) : 1 ≤ t ∧ left o = t + 1 ∧ left (Spec2.vstep o q).1 = t := by
  cases o with
  | none => cases q <;> simp [Spec2.vstep] at h
  | some v =>
    cases q with
    | restore g =>
      simp only [Spec2.vstep] at h ⊢
      split at h
      · simp at h
      · rename_i h1
        rw [if_neg h1]
        split at h
        · simp at h
        · rename_i h2
          rw [if_neg h2]
          split at h
          · simp at h
          · rename_i h3
            rw [if_neg h3]
            simp at h
            simp only [left]
            omega
    | expose d => simp only [Spec2.vstep] at h; split at h <;> simp at h
    | backup => simp [Spec2.vstep] at h
    | delete => simp [Spec2.vstep] at h
    | tries => simp [Spec2.vstep] at h
    | unset => simp [Spec2.vstep] at h

/-- Entry `i` of a history (counted from 1) is this request. -/
def At (pr : Proto D L E) (H : List Entry) (i : Nat) (l : L) : Prop := 1 ≤ i ∧ ∃ e, H[i - 1]? = some e ∧ request pr e = some l

theorem reqs_step {pr : Proto D Svr.DB2.Log E} {H : List Entry} {i : Nat} {l : Svr.DB2.Log} (h : At pr H i l) (j : Nat) (hj : i ≤ j) :
    ∃ mid : List Entry, H.take j = H.take (i - 1) ++ (H[i - 1]?.toList ++ mid) ∧ mid = (H.take j).drop i ∧
      logsOf pr (H.take j) = logsOf pr (H.take (i - 1)) ++ l :: logsOf pr mid := by
  obtain ⟨h1, e, h2, h3⟩ := h
  have hlt := (List.getElem?_eq_some_iff.mp h2).1
  have he := (List.getElem?_eq_some_iff.mp h2).2
  have hsplit : H.take j = H.take (i - 1) ++ (H[i - 1]?.toList ++ (H.take j).drop i) := by
    rw [h2]
    have hlt' : i - 1 < (H.take j).length := by rw [List.length_take]; omega
    have e1 : (H.take j).take (i - 1) = H.take (i - 1) := by rw [List.take_take]; congr 1; omega
    have e2 : (H.take j)[i - 1] = e := by rw [List.getElem_take]; exact he
    have e3 : (H.take j).drop (i - 1) = e :: (H.take j).drop i := by
      rw [List.drop_eq_getElem_cons hlt', e2]
      congr 2; omega
    conv_lhs => rw [← List.take_append_drop (i - 1) (H.take j), e1, e3]
    rfl
  refine ⟨_, hsplit, rfl, ?_⟩
  conv_lhs => rw [hsplit]
  simp [logsOf, h2, h3]

/-- No backup of account `a` among the entries after index `b` and before index `i`. -/
def NoBackup (pr : Proto D Svr.DB2.Log E) (H : List Entry) (a : Bytes) (b i : Nat) : Prop :=
  ∀ j l, b < j → j < i → At pr H j l → l.id = a → Spec2.isBackup l.req = false

theorem noBackup_mid {pr : Proto D Svr.DB2.Log E} {H : List Entry} {a : Bytes} {b i : Nat} (h : NoBackup pr H a b i) :
    ∀ q ∈ DB2.reqsOf a (logsOf pr ((H.take (i - 1)).drop b)), Spec2.isBackup q = false := by
  intro q hq
  simp only [DB2.reqsOf, List.mem_map, List.mem_filter, logsOf, List.mem_filterMap, decide_eq_true_eq] at hq
  obtain ⟨l, ⟨⟨e, he, hl⟩, ha⟩, rfl⟩ := hq
  obtain ⟨j, hj⟩ := List.mem_iff_getElem?.mp he
  rw [List.getElem?_drop, List.getElem?_take] at hj
  split at hj
  · exact h (b + j + 1) l (by omega) (by omega) ⟨by omega, e, by simpa using hj, hl⟩ ha
  · cases hj

theorem NoBackup.mono {pr : Proto D Svr.DB2.Log E} {H : List Entry} {a : Bytes} {b b' i i' : Nat} (h : NoBackup pr H a b i) (hb : b ≤ b')
    (hi : i' ≤ i) : NoBackup pr H a b' i' := fun j l h1 h2 => h j l (by omega) (by omega)

/-- The vault of account `a` before entry `i`. -/
def before (pr : Proto D Svr.DB2.Log E) (H : List Entry) (a : Bytes) (i : Nat) : Option Spec2.Vault :=
  (Spec2.vrun none (DB2.reqsOf a (logsOf pr (H.take (i - 1))))).1

theorem before_after {pr : Proto D Svr.DB2.Log E} {H : List Entry} {i j : Nat} {l : Svr.DB2.Log} (h : At pr H i l) (hj : i < j)
    (hb : NoBackup pr H l.id i j) : left (before pr H l.id j) ≤ left (Spec2.vstep (before pr H l.id i) l.req).1 := by
  obtain ⟨mid, _, rfl, h2⟩ := reqs_step h (j - 1) (by omega)
  unfold before
  rw [h2, DB2.reqsOf_append]
  have : DB2.reqsOf l.id (l :: logsOf pr ((H.take (j - 1)).drop i)) = l.req :: DB2.reqsOf l.id (logsOf pr ((H.take (j - 1)).drop i)) := by
    simp [DB2.reqsOf]
  rw [this, Spec2.vrun_append]
  exact vrun_left (o := (Spec2.vstep _ l.req).1) (noBackup_mid hb)

theorem guess_limit (hpr : c2.pr = svr2 prims parse) {G : Grid P Svr.DB2.DB Svr.DB2.Resp} (h : GReachable c2 G)
    (hag : Agreeing G.W G.W) :
    ∃ H : List Entry, (∀ p a, G.side p = some a → G.W.applied p <+: H) ∧
      ∀ (b : Nat) (a s pin : Bytes) (n : UInt32), At c2.pr H b ⟨a, .backup s pin n⟩ →
      ∀ is : List Nat, is.Nodup → (∀ i ∈ is, b < i ∧ NoBackup c2.pr H a b i ∧ (∃ q, At c2.pr H i ⟨a, q⟩) ∧
        ∃ p t, (p, i, some (.restore .pinMismatch [] t)) ∈ G.out) → is.length ≤ n.toNat - 1 := by
  obtain ⟨H, h1, h2⟩ := single_vault hpr h hag
  refine ⟨H, h1, fun b a s pin n hb is hnd his => ?_⟩
  -- the counter reported with an entry
  let f : Nat → Nat := fun i => left (before c2.pr H a i) - 1
  have hf : ∀ i ∈ is, ∃ q, At c2.pr H i ⟨a, q⟩ ∧ 1 ≤ f i ∧ left (Spec2.vstep (before c2.pr H a i) q).1 = f i := by
    intro i hi
    obtain ⟨_, _, ⟨q, hq⟩, p, t, ho⟩ := his i hi
    obtain ⟨_, e, k1, k2⟩ := h2 p i _ ho
    have hq' := hq
    obtain ⟨_, e', k3, k4⟩ := hq'
    rw [k1] at k3; cases k3
    rw [k4] at k2
    simp only [Option.map_some, Option.some.injEq] at k2
    obtain ⟨m1, m2, m3⟩ := vstep_mismatch k2.symm
    refine ⟨q, hq, ?_, ?_⟩
    · show 1 ≤ left (before c2.pr H a i) - 1
      unfold before; omega
    · show _ = left (before c2.pr H a i) - 1
      unfold before; omega
  have hn1 : ∀ i ∈ is, f i ≤ n.toNat - 1 := by
    intro i hi
    obtain ⟨hbi, hnb, _⟩ := his i hi
    have := before_after hb hbi hnb
    have e0 : left (Spec2.vstep (before c2.pr H a b) (.backup s pin n)).1 = n.toNat := by
      cases before c2.pr H a b <;> rfl
    rw [show (⟨a, .backup s pin n⟩ : Svr.DB2.Log).id = a from rfl] at this
    simp only [] at this
    rw [e0] at this
    show left _ - 1 ≤ _
    omega
  have hlt : ∀ i ∈ is, ∀ j ∈ is, i < j → f j < f i := by
    intro i hi j hj hij
    obtain ⟨q, q1, q2, q3⟩ := hf i hi
    obtain ⟨q', _, q2', _⟩ := hf j hj
    obtain ⟨hbi, _, _⟩ := his i hi
    obtain ⟨_, hnb, _⟩ := his j hj
    have := before_after q1 hij (hnb.mono (by omega) le_rfl)
    simp only [] at this
    rw [q3] at this
    have hfj : f j = left (before c2.pr H a j) - 1 := rfl
    omega
  have hinj : ∀ i ∈ is, ∀ j ∈ is, f i = f j → i = j := by
    intro i hi j hj hij
    rcases Nat.lt_trichotomy i j with k | k | k
    · have := hlt i hi j hj k; omega
    · exact k
    · have := hlt j hj i hi k; omega
  have hnd2 : (is.map f).Nodup := (List.nodup_map_iff_inj_on hnd).mpr hinj
  have hsub : is.map f ⊆ (List.range (n.toNat - 1)).map (· + 1) := by
    intro y hy
    obtain ⟨i, hi, rfl⟩ := List.mem_map.mp hy
    obtain ⟨_, _, k, _⟩ := hf i hi
    have := hn1 i hi
    exact List.mem_map.mpr ⟨f i - 1, List.mem_range.mpr (by omega), by omega⟩
  have := (hnd2.subperm hsub).length_le
  simpa using this

/-- **C36** (the limit): there is one list of entries, of which every replica has applied a beginning, such that for every backup in
it with `max_tries = n` there are, until the account's next backup, at most `n - 1` entries that any replica of the group answered
with PIN_MISMATCH. Replicas, leader changes and crashes do not matter. (The `n`-th wrong guess erases the account and is answered
MISSING.) -/
theorem C36_guess_limit (hpr : c2.pr = svr2 prims parse) (hg : Proper c2.raft) {G : Grid P Svr.DB2.DB Svr.DB2.Resp} (h : GReachable c2 G)
    (hn : NoCollision c2.raft.v G.W.Hashed) (hser : SerInj c2.raft.v) (hv : FixedVoters c2.raft G.W) :
    ∃ H : List Entry, (∀ p a, G.side p = some a → G.W.applied p <+: H) ∧
      ∀ (b : Nat) (a s pin : Bytes) (n : UInt32), At c2.pr H b ⟨a, .backup s pin n⟩ →
      ∀ is : List Nat, is.Nodup → (∀ i ∈ is, b < i ∧ NoBackup c2.pr H a b i ∧ (∃ q, At c2.pr H i ⟨a, q⟩) ∧
        ∃ p t, (p, i, some (.restore .pinMismatch [] t)) ∈ G.out) → is.length ≤ n.toNat - 1 :=
  guess_limit hpr h (agreeing_fixed hg h .now hn hser hv)

/-- **C36** (the limit) while the voters change, if the super majority is at least 1. -/
theorem C36_guess_limit_changing_voters (hpr : c2.pr = svr2 prims parse) (hg : Proper c2.raft) {G : Grid P Svr.DB2.DB Svr.DB2.Resp}
    (h : GReachable c2 G) (hn : NoCollision c2.raft.v G.W.Hashed) (hser : SerInj c2.raft.v) (hv : Changing c2.raft G.W) :
    ∃ H : List Entry, (∀ p a, G.side p = some a → G.W.applied p <+: H) ∧
      ∀ (b : Nat) (a s pin : Bytes) (n : UInt32), At c2.pr H b ⟨a, .backup s pin n⟩ →
      ∀ is : List Nat, is.Nodup → (∀ i ∈ is, b < i ∧ NoBackup c2.pr H a b i ∧ (∃ q, At c2.pr H i ⟨a, q⟩) ∧
        ∃ p t, (p, i, some (.restore .pinMismatch [] t)) ∈ G.out) → is.length ≤ n.toNat - 1 :=
  guess_limit hpr h (agreeing_changing hg h .now hn hser hv)

/-! ### Examples -/

open Raft.Node Raft.Play Core.Play

def rq : Bytes → Option Svr.DB2.Log
  | [1] => some ⟨DB2.ida, .backup DB2.sec DB2.pinA 2⟩
  | [2] => some ⟨DB2.ida, .expose DB2.sec⟩
  | [3] => some ⟨DB2.ida, .restore DB2.pinX⟩
  | _ => none

/-- Three replicas, as `trio`, with SVR2. -/
def site : Site Nat Svr.DB2.DB Svr.DB2.Log Svr.DB2.Resp := ⟨trio, svr2 DB2.P0 rq, fun _ => none, fun p => [UInt8.ofNat p]⟩

/-- Replica 1 is elected and given a backup, an expose and a wrong guess, which it and replica 2 commit and apply. -/
def siteActs : List Act :=
  [.start 1, .start 2, .start 3, .call 1 .tick, flush 1, .give 2 0, flush 2, .give 1 1, .call 1 (.request (.data [1])),
   .call 1 (.request (.data [2])), .call 1 (.request (.data [3])), flush 1, .give 2 2, .give 2 4, .give 2 6, .give 2 8, flush 2,
   .give 1 13, flush 1, .give 2 14, flush 2, .give 1 16, flush 1, .give 2 17] ++
  List.replicate 4 (.call 1 .takeCommitted) ++ List.replicate 4 (.call 2 .takeCommitted)

def goutcome {D L E : Type} (c : Site Nat D L E) (as : List Act) (f : GTab D E → Bool) : Bool :=
  match gplay c fast as GTab.none with
  | some X => noColl (hashedBy X.T) && f X
  | none => false

theorem goutcome_spec {D L E : Type} {c : Site Nat D L E} {as : List Act} {f : GTab D E → Bool} (hv : c.raft.v = steady)
    (h : goutcome c as f = true) : ∃ X : GTab D E, GReachable c X.grid ∧ NoCollision c.raft.v X.grid.W.Hashed ∧ f X = true := by
  unfold goutcome at h
  split at h
  · rename_i X hX
    rw [Bool.and_eq_true] at h
    exact ⟨X, gplay_reachable hX, by rw [hv]; exact noColl_table h.1, h.2⟩
  · cases h

def lastOf {D E : Type} (X : GTab D E) (p : Nat) : Option Nat := (lookS p X.sides).map (·.last)

theorem lastOf_spec {D E : Type} {X : GTab D E} {p n : Nat} (h : lastOf X p = some n) : ∃ a, X.grid.side p = some a ∧ a.last = n := by
  simpa [lastOf, GTab.grid, Option.map_eq_some_iff] using h

set_option maxRecDepth 100000 in
/-- What C35 and C36 speak about happens: a group meeting all hypotheses in which two replicas have applied the same four entries and
both answered the guess with PIN_MISMATCH, one try left. -/
example : ∃ G : Grid Nat Svr.DB2.DB Svr.DB2.Resp, Proper site.raft ∧ site.pr = svr2 DB2.P0 rq ∧ GReachable site G ∧
    NoCollision site.raft.v G.W.Hashed ∧ SerInj site.raft.v ∧ FixedVoters site.raft G.W ∧
    (∃ a, G.side 1 = some a ∧ a.last = 4) ∧ (∃ a, G.side 2 = some a ∧ a.last = 4) ∧
    (1, 4, some (.restore .pinMismatch [] 1)) ∈ G.out ∧ (2, 4, some (.restore .pinMismatch [] 1)) ∈ G.out := by
  obtain ⟨X, h1, h2, h3⟩ := goutcome_spec (c := site) (as := siteActs) (f := fun X => decide (lastOf X 1 = some 4) &&
    decide (lastOf X 2 = some 4) && requests X.T (fun _ => false) && decide ((1, 4, some (.restore .pinMismatch [] 1)) ∈ X.out) &&
    decide ((2, 4, some (.restore .pinMismatch [] 1)) ∈ X.out)) rfl (by decide +kernel)
  simp only [Bool.and_eq_true, decide_eq_true_eq] at h3
  obtain ⟨⟨⟨⟨h4, h5⟩, h6⟩, h7⟩, h8⟩ := h3
  exact ⟨X.grid, ⟨⟨by simp [site, trio, SSorted], by simp [site, trio, SSorted]⟩, by simp [site, trio], by simp [site, trio],
    by simp [site, trio]⟩, rfl, h1, h2, serInj_steady, fun m hm => absurd (requests_spec (g := trio) rfl h6 hm) (by decide),
    lastOf_spec h4, lastOf_spec h5, h7, h8⟩

end Svr.Props.Grid
