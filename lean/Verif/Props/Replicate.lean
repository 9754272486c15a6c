import Verif.Core.ReplicateDb
import Verif.Raft.Talk
import Verif.Props.Grid

/-!
# A joining replica gets the state of the member that sends it (C34)

`Rep.Run ru c st w` are all runs of a joining replica with a member that sends it its state: the member goes on applying committed
entries, several pushes may be under way, any of them may be handled next, pushes and responses may be lost or time out. `w.seen` are
the states the member was in. The chunk size, the number of pushes under way and the sizes of messages are arbitrary.

Two rules are needed. The code does not enforce them: see the last two theorems.
-/

namespace Svr.Props.Replicate
open Core Raft Spec
variable {P : Type} [LinearOrder P] {D L E PB V : Type}

/-- The promoted replica `b`, with the log and the membership given to its Raft, has the state `s`: the database, with everything the
entries of `s.hist` did and nothing else, the limits and the membership; it goes on after the last of these entries, its log is the end
of them. -/
structure Has (st : Store D L E PB) (s : Src P D) (b : Side D E) (log : Log) (m : Option (Membership P)) : Prop where
  db : b.db = s.db
  serial : ∃ rs, Serial st.toProto st.fresh s.hist b.db rs
  limits : b.limits = s.limits
  mem : m = some s.mem
  log : LogOf log s.hist
  last : b.last = s.hist.length

section
variable {st : Store D L E PB} {view : D → OMap Bytes V} {pb : Bytes → V → PB} {Inv : D → Prop} {IsKey : Bytes → Prop} {c : RepCfg P PB}

/-- For any database that meets `Lawful`. -/
theorem replica_has (hl : Lawful st view pb Inv IsKey) {w : Rep P D E PB} (h : Rep.Run ⟨true, true⟩ c st w) {b : Side D E} {log : Log}
    {m : Option (Membership P)} (hr : w.replica = some (b, log, m)) :
    ∃ s ∈ w.seen, Has st s b log m ∧ b = Side.promote s.db s.limits log.lastIdx ∧ Log.bytesOf c.z log.entries ≤ log.curr := by
  have ok := h.ok hl
  rcases ok.state with ⟨d, lim, log', m', h1, s, hs, hg⟩ | ⟨h1, _⟩
  · rw [hr] at h1; cases h1
    obtain ⟨rs, hser⟩ := (ok.seen s hs).1.db
    have hd := hg.same
    have hli := hg.limits
    subst hd hli
    exact ⟨s, hs, ⟨rfl, ⟨rs, hser⟩, rfl, hg.mem, hg.log, hg.log.lastIdx⟩, rfl, hg.bytes⟩
  · rw [hr] at h1; cases h1
end

/-- **C34, SVR2.** When replication finishes the joiner has the state the member had when it sent the last push: whatever entries were
committed in between, however rows and entries were split, in whatever order pushes were handled.

Missing from the full statement: that the two rules hold. Responses handled out of order, and entries removed from the member's log
before they were sent, do lead to a replica without the member's state. -/
theorem C34_svr2_partial {prims : Prims} {path : Bytes → Bool} {parse : Bytes → Option Svr.DB2.Log} (hp : ∀ l, parse [] = some l → l.id = [])
    {c : RepCfg P Svr.DB2.RowPB} {w : Rep P Svr.DB2.DB Svr.DB2.Resp Svr.DB2.RowPB} (h : Rep.Run ⟨true, true⟩ c (store2 prims path parse) w)
    {b : Side Svr.DB2.DB Svr.DB2.Resp} {log : Log} {m : Option (Membership P)} (hr : w.replica = some (b, log, m)) :
    ∃ s ∈ w.seen, Has (store2 prims path parse) s b log m := by
  obtain ⟨s, hs, hh, _⟩ := replica_has (lawful2 prims path parse hp) h hr
  exact ⟨s, hs, hh⟩

/-- **C34, SVR3.** -/
theorem C34_svr3_partial {prims : Svr.DB3.Prims3} {path : Bytes → Bool} {parse : Bytes → Option Svr.DB3.Log}
    (hp : ∀ l, parse [] = some l → l.id = []) {c : RepCfg P Svr.DB3.RowPB} {w : Rep P Svr.DB3.DB Svr.DB3.Resp Svr.DB3.RowPB}
    (h : Rep.Run ⟨true, true⟩ c (store3 prims path parse) w) {b : Side Svr.DB3.DB Svr.DB3.Resp} {log : Log} {m : Option (Membership P)}
    (hr : w.replica = some (b, log, m)) : ∃ s ∈ w.seen, Has (store3 prims path parse) s b log m := by
  obtain ⟨s, hs, hh, _⟩ := replica_has (lawful3 prims path parse hp) h hr
  exact ⟨s, hs, hh⟩

/-- **C34, SVR4.** `SaddOK`: the sum of two scalars is a scalar. -/
theorem C34_svr4_partial {prims : Svr.DB4.Prims4} (hadd : Svr.DB4.SaddOK prims) {path : Bytes → Bool} {parse : Bytes → Option Svr.DB4.Log}
    (hp : ∀ l, parse [] = some l → l.id = []) {c : RepCfg P Svr.DB4.RowPB} {w : Rep P Svr.DB4.DB Svr.DB4.Effect Svr.DB4.RowPB}
    (h : Rep.Run ⟨true, true⟩ c (store4 prims path parse) w) {b : Side Svr.DB4.DB Svr.DB4.Effect} {log : Log} {m : Option (Membership P)}
    (hr : w.replica = some (b, log, m)) : ∃ s ∈ w.seen, Has (store4 prims path parse) s b log m := by
  obtain ⟨s, hs, hh, _⟩ := replica_has (lawful4 prims hadd path parse hp) h hr
  exact ⟨s, hs, hh⟩

/-- **C34, SVR5.** -/
theorem C34_svr5_partial {prims : Svr.DB5.Prims5} {path : Bytes → Bool} {parse : Bytes → Option Svr.DB5.Log}
    (hp : ∀ l, parse [] = some l → l.id = []) {c : RepCfg P Svr.DB5.RowPB} {w : Rep P Svr.DB5.DB Svr.DB5.Resp Svr.DB5.RowPB}
    (h : Rep.Run ⟨true, true⟩ c (store5 prims path parse) w) {b : Side Svr.DB5.DB Svr.DB5.Resp} {log : Log} {m : Option (Membership P)}
    (hr : w.replica = some (b, log, m)) : ∃ s ∈ w.seen, Has (store5 prims path parse) s b log m := by
  obtain ⟨s, hs, hh, _⟩ := replica_has (lawful5 prims path parse hp) h hr
  exact ⟨s, hs, hh⟩

/-! ### Members of a group -/

/-- Sending and reading a membership. -/
theorem fromProto_asProto {m : Membership P} (h : m.Good) : fromProto m.asProto = .ok m := by
  have ins : ∀ (l : List P) (x : P), (∀ y ∈ l, y < x) → sinsert x l = l ++ [x] := by
    intro l
    induction l with
    | nil => intro x _; rfl
    | cons a t ih =>
      intro x hx
      have h1 := hx a List.mem_cons_self
      rw [sinsert, if_neg (not_lt.mpr h1.le), if_pos h1, ih x (fun y hy => hx y (List.mem_cons_of_mem _ hy)), List.cons_append]
  have loop : ∀ (t p : List P), SSorted (p ++ t) →
      fromProtoLoop (t.map fun x => (some x, decide (x ∈ m.voting))) ⟨p, p.filter (· ∈ m.voting)⟩ =
        .ok ⟨p ++ t, (p ++ t).filter (· ∈ m.voting)⟩ := by
    intro t
    induction t with
    | nil => intro p _; simp [fromProtoLoop]
    | cons x t ih =>
      intro p hs
      have hlt : ∀ y ∈ p, y < x := fun y hy => (List.pairwise_append.mp hs).2.2 y hy x List.mem_cons_self
      have hni : x ∉ p := fun hx => lt_irrefl _ (hlt x hx)
      have hap : p ++ x :: t = (p ++ [x]) ++ t := by simp
      have := ih (p ++ [x]) (by rw [← hap]; exact hs)
      rw [List.map_cons, fromProtoLoop, if_neg hni, ins p x hlt, hap, ← this]
      congr 2
      by_cases hv : x ∈ m.voting
      · rw [if_pos (by simpa using hv), ins _ x (fun y hy => hlt y (List.mem_of_mem_filter hy)), List.filter_append]
        simp [hv]
      · rw [if_neg (by simpa using hv), List.filter_append]
        simp [hv]
  have := loop m.all [] h.wf.all
  rw [List.filter_nil, List.nil_append] at this
  unfold fromProto Membership.asProto
  rw [this]
  have hv : m.all.filter (· ∈ m.voting) = m.voting := by
    have s1 : SSorted (m.all.filter (· ∈ m.voting)) := h.wf.all.sublist List.filter_sublist
    refine List.Perm.eq_of_pairwise (fun a b _ _ h1 h2 => absurd h1 (not_lt.mpr h2.le)) s1 h.wf.voting ?_
    refine (List.perm_ext_iff_of_nodup (s1.imp (fun h => ne_of_lt h)) (h.wf.voting.imp (fun h => ne_of_lt h))).mpr ?_
    intro a
    simp only [List.mem_filter, decide_eq_true_eq]
    exact ⟨fun h => h.2, fun hx => ⟨h.sub hx, hx⟩⟩
  rw [hv]

section
variable {st : Store D L E PB} {view : D → OMap Bytes V} {pb : Bytes → V → PB} {Inv : D → Prop} {IsKey : Bytes → Prop} {c : RepCfg P PB}
variable {site : Site P D L E}

/-- `s` is what replica `q` of the group `G` has: it has applied all it knows to be committed. -/
structure Shows (site : Site P D L E) (q : P) (G : Grid P D E) (s : Src P D) : Prop where
  reach : GReachable site G
  idle : ∃ sq a, G.W.node q = some sq ∧ G.side q = some a ∧ sq.lastApplied = sq.commit ∧
    s = ⟨sq.log, G.W.applied q, a.db, a.limits, sq.mem⟩

/-- What replication assumes of the member's states holds of every member of a group that has applied an entry. -/
theorem C34_members (hpr : site.pr = st.toProto) (hm : site.raft.m0.Good) (hsm : site.raft.sm < 2 ^ 63) (hser : SerInj site.raft.v)
    {q : P} {G : Grid P D E} {s : Src P D} (h : Shows site q G s) (hn : NoCollision site.raft.v G.W.Hashed) (hne : s.hist ≠ []) :
    s.Ok st := by
  obtain ⟨sq, a, h1, h2, _, rfl⟩ := h.idle
  have hr := GReachable.raft h.reach
  obtain ⟨σ, hinv⟩ := hr.inv (G := G.W.Hashed) (K := fun _ => True) (fun _ h => h) (fun _ _ => trivial) hn hser
  obtain ⟨F, hF⟩ := hinv.get h1
  have hok := hinv.ok q sq F hF
  have happ := hinv.applied q sq F hF
  obtain ⟨s', k1, k2⟩ := h.reach.ok.has q a h2
  rw [h1] at k1; cases k1
  refine ⟨⟨F, hok.log, ?_⟩, ?_, ?_, ?_⟩
  · show G.W.applied q <+: F
    rw [happ]; exact List.take_prefix _ _
  · show sq.log.oldest ≤ (G.W.applied q).length
    have hsh := hok.shaped
    have hpos : 0 < (G.W.applied q).length := List.length_pos_iff.mpr hne
    have hn := k2.node
    rcases hsh.old with h | h
    · omega
    · omega
  · obtain ⟨rs, hs, _⟩ := k2.db
    rw [hpr] at hs
    exact ⟨rs, hs⟩
  · exact fromProto_asProto ((hr.talk hm hsm).hale q sq h1).mem

/-- A member's later states extend its earlier ones. -/
theorem C34_members_grow {q : P} {G G' : Grid P D E} {s s' : Src P D} (h : Shows site q G s) (h' : Shows site q G' s')
    (hf : GFuture site G G') : s.hist <+: s'.hist := by
  obtain ⟨sq, a, h1, _, _, rfl⟩ := h.idle
  obtain ⟨_, _, _, _, _, rfl⟩ := h'.idle
  exact ((GFuture.raft hf).le (GReachable.raft h.reach).shaped).applied q sq h1

/-- **C34: a replica that was sent the state is a replica that joined.** In `Core.Grid` a replica joins by taking over a member's state;
C35 and C36 speak about groups made that way. The promoted replica is the one that step makes, at a time when the member sent a push. -/
theorem C34_joins_partial (hl : Lawful st view pb Inv IsKey) (hz : c.z = site.raft.v.z) {w : Rep P D E PB}
    (h : Rep.Run ⟨true, true⟩ c st w) {b : Side D E} {log : Log} {m : Option (Membership P)} (hr : w.replica = some (b, log, m))
    {q : P} (hs : ∀ s ∈ w.seen, ∃ G, Shows site q G s) :
    ∃ G s mem, s ∈ w.seen ∧ Shows site q G s ∧ m = some mem ∧
      ∀ (p : P) (n : Node P) rand path cfg, G.W.node p = none → s.hist.length + 2 < SZ →
        Node.new (site.raft.env rand path) site.raft.group p mem log cfg true site.raft.sm = .ok n →
        GNext site G ⟨G.W.put p n s.hist [] [], setSide G.side p b, G.out⟩ := by
  obtain ⟨s, hsn, hh, hb, hby⟩ := replica_has hl h hr
  obtain ⟨G, hG⟩ := hs s hsn
  refine ⟨G, s, s.mem, hsn, hG, hh.mem, ?_⟩
  intro p n rand path cfg hp hlen hnew
  obtain ⟨sq, a, h1, h2, h3, rfl⟩ := hG.idle
  have := GNext.join (c := site) p q n sq a rand path log cfg hp h1 h2 h3 hh.log (by rw [← hz]; exact hby) hlen hnew
  rw [hb]
  exact this
end

/-! ### Running it -/

/-- The member's database after `H`, by running it. -/
def serial (pr : Proto D L E) : D → List Entry → Out D
  | d, [] => .ok d
  | d, e :: H => match request pr e with
    | none => serial pr d H
    | some l => do
      let (d, _) ← pr.run d l
      serial pr d H

theorem serial_ok {pr : Proto D L E} : ∀ {H : List Entry} {d d' : D}, serial pr d H = .ok d' → ∃ rs, Serial pr d H d' rs
  | [], d, d', h => by cases h; exact ⟨[], .done d⟩
  | e :: H, d, d', h => by
    unfold serial at h
    cases hq : request pr e with
    | none =>
      rw [hq] at h
      obtain ⟨rs, k⟩ := serial_ok h
      exact ⟨_, .skip _ _ _ _ _ hq k⟩
    | some l =>
      rw [hq] at h
      obtain ⟨⟨d1, r⟩, h1, h2⟩ := Out.bind_eq_ok.mp h
      obtain ⟨rs, k⟩ := serial_ok h2
      exact ⟨_, .run _ _ _ _ _ _ _ _ hq h1 k⟩

inductive Act (P D : Type)
  | grow (s : Src P D)
  | request
  | deliver (i : Nat)
  | ack (i : Nat)
  | promote

def act (ru : Rules) (c : RepCfg P PB) (st : Store D L E PB) (w : Rep P D E PB) : Act P D → Option (Rep P D E PB)
  | .grow s => if w.src.hist.isPrefixOf s.hist then some { w with src := s, seen := s :: w.seen } else none
  | .request => if w.ps.isNone then (match w.request c st with | .ok w' => some w' | _ => none) else none
  | .deliver i => match w.wire[i]? with
    | none => none
    | some x => match w.deliver c st i x with | .ok w' => some w' | _ => none
  | .ack i => match w.acks[i]?, w.ps with
    | some x, some ps =>
      if (ru.ordered = true → i = 0) ∧ (ru.kept = true → ps.finished = false → w.src.log.oldest ≤ ps.logsFrom) then
        match ({ w with acks := w.acks.eraseIdx i } : Rep P D E PB).callback c st ps x.1 x.2 with | .ok w' => some w' | _ => none
      else none
    | _, _ => none
  | .promote => if w.answer = some none ∧ w.replica.isNone then some w.promote else none

def acts (ru : Rules) (c : RepCfg P PB) (st : Store D L E PB) : List (Act P D) → Rep P D E PB → Option (Rep P D E PB)
  | [], w => some w
  | a :: t, w => match act ru c st w a with
    | none => none
    | some w' => acts ru c st t w'

theorem act_next {ru : Rules} {c : RepCfg P PB} {st : Store D L E PB} {w w' : Rep P D E PB} {a : Act P D} (h : act ru c st w a = some w')
    (hg : ∀ s, a = .grow s → s.Ok st) : Rep.Next ru c st w w' := by
  cases a with
  | grow s =>
    simp only [act] at h
    split at h
    · rename_i hp; cases h; exact .grow s (hg s rfl) (List.isPrefixOf_iff_prefix.mp hp)
    · cases h
  | request =>
    simp only [act] at h
    split at h
    · rename_i hp
      split at h
      · rename_i w1 hw; cases h; exact .request _ (by simpa using hp) hw
      · cases h
    · cases h
  | deliver i =>
    simp only [act] at h
    split at h
    · cases h
    · rename_i x hx
      split at h
      · rename_i w1 hw; cases h; exact .deliver i x _ hx hw
      · cases h
  | ack i =>
    simp only [act] at h
    split at h
    · rename_i x ps hx hp
      split at h
      · rename_i hc
        split at h
        · rename_i w1 hw; cases h; exact .ack i x ps _ hc.1 hx hp hc.2 hw
        · cases h
      · cases h
    · cases h
  | promote =>
    simp only [act] at h
    split at h
    · rename_i hc; cases h; exact .promote hc.1 (by simpa using hc.2)
    · cases h

theorem acts_run {ru : Rules} {c : RepCfg P PB} {st : Store D L E PB} : ∀ {as : List (Act P D)} {w w' : Rep P D E PB},
    Rep.Run ru c st w → acts ru c st as w = some w' → (∀ s, Act.grow s ∈ as → s.Ok st) → Rep.Run ru c st w'
  | [], w, w', h, ha, _ => by cases ha; exact h
  | a :: t, w, w', h, ha, hg => by
    unfold acts at ha
    split at ha
    · cases ha
    · rename_i w1 h1
      exact acts_run (h.next (act_next h1 (fun s hs => hg s (by rw [hs]; exact List.mem_cons_self)))) ha
        (fun s hs => hg s (List.mem_cons_of_mem _ hs))

/-- `f` holds of where the acts lead. -/
def outcome (ru : Rules) (c : RepCfg P PB) (st : Store D L E PB) (as : List (Act P D)) (w : Rep P D E PB) (f : Rep P D E PB → Bool) : Bool :=
  match acts ru c st as w with
  | some w' => f w'
  | none => false

theorem outcome_spec {ru : Rules} {c : RepCfg P PB} {st : Store D L E PB} {as : List (Act P D)} {w : Rep P D E PB}
    {f : Rep P D E PB → Bool} (hw : Rep.Run ru c st w) (hg : ∀ s, Act.grow s ∈ as → s.Ok st) (h : outcome ru c st as w f = true) :
    ∃ w', Rep.Run ru c st w' ∧ f w' = true := by
  unfold outcome at h
  split at h
  · rename_i w' hw'; exact ⟨w', acts_run hw hw' hg, h⟩
  · cases h

/-- The replica that was promoted. -/
def promoted (w : Rep P D E PB) (f : Side D E → Log → Bool) : Bool :=
  match w.replica with
  | some (b, log, _) => f b log
  | none => false

omit [LinearOrder P] in
theorem promoted_spec {w : Rep P D E PB} {f : Side D E → Log → Bool} (h : promoted w f = true) :
    ∃ b log m, w.replica = some (b, log, m) ∧ f b log = true := by
  unfold promoted at h
  split at h
  · exact ⟨_, _, _, by assumption, h⟩
  · cases h

/-! ### Examples -/

def idc : Bytes := List.replicate 16 3

def rq : Bytes → Option Svr.DB2.Log
  | [1] => some ⟨DB2.ida, .backup DB2.sec DB2.pinA 2⟩
  | [2] => some ⟨DB2.idb, .backup DB2.sec DB2.pinA 3⟩
  | [3] => some ⟨DB2.ida, .expose DB2.sec⟩
  | [4] => some ⟨DB2.ida, .restore DB2.pinX⟩
  | [5] => some ⟨DB2.idb, .delete⟩
  | [6] => some ⟨idc, .backup DB2.sec DB2.pinX 4⟩
  | _ => none

abbrev st : Store Svr.DB2.DB Svr.DB2.Log Svr.DB2.Resp Svr.DB2.RowPB := store2 DB2.P0 DB2.intact rq

theorem rq_nil : ∀ l, rq [] = some l → l.id = [] := by intro l h; cases h

def en (b : UInt8) : Entry := ⟨1, .data [b], List.replicate 32 b⟩

/-- A member that has applied `H` and has removed the first `n` of these entries from its log. -/
def member (H : List Entry) (n : Nat) : Src Nat Svr.DB2.DB :=
  ⟨⟨H.drop n, n + 1, 0, 0⟩, H, match serial st.toProto st.fresh H with | .ok d => d | _ => st.fresh, OMap.empty, ⟨[1, 2], [1]⟩⟩

theorem member_ok {H : List Entry} {n : Nat} (hn : n + 1 ≤ H.length)
    (h : (match serial st.toProto st.fresh H with | .ok _ => true | _ => false) = true) : (member H n).Ok st := by
  refine ⟨⟨H, ⟨by simp [member], by simp [member]; omega, by simp [member], ?_⟩, List.prefix_rfl⟩, hn, ?_, rfl⟩
  · intro he
    have : H.length ≤ n := by simpa [member] using he
    omega
  · unfold member
    simp only
    split
    · rename_i d hd; exact serial_ok hd
    · rename_i hd
      cases hs : serial st.toProto st.fresh H with
      | ok d => exact absurd hs (hd d)
      | abort => rw [hs] at h; cases h
      | ub => rw [hs] at h; cases h

/-- Room for one row in each push; entries of ten bytes. -/
def one (pipeline : Nat) : RepCfg Nat Svr.DB2.RowPB := ⟨⟨1, 1, 1, 1, 1, fun _ => 10⟩, 105, pipeline, fun _ => 0⟩

/-- Each push is full with two entries. -/
def slow : RepCfg Nat Svr.DB2.RowPB := ⟨⟨1, 1, 1, 1, 1, fun _ => 200⟩, 210, 1, fun _ => 0⟩

def begin (H : List Entry) : Rep Nat Svr.DB2.DB Svr.DB2.Resp Svr.DB2.RowPB := Rep.start st (member H 0) 100000 77 (Membership.first 1) OMap.empty

/-- The tries left, by account. -/
def left (d : Svr.DB2.DB) : List (UInt8 × UInt8) := d.list.map fun p => (p.1.headD 0, p.2.tries)

/-- A row is sent and then loses a try; a row that is not sent yet is deleted; a row is created behind the cursor. The joiner ends
with the database of the member. -/
example : ∃ w, Rep.Run ⟨true, true⟩ (one 1) st w ∧ ∃ b log m, w.replica = some (b, log, m) ∧
    left (member [en 1, en 2, en 3] 0).db = [(1, 2), (2, 3)] ∧ left b.db = [(1, 1), (3, 4)] ∧ b.last = 6 := by
  obtain ⟨w, h1, h2⟩ := outcome_spec (ru := ⟨true, true⟩) (c := one 1) (st := st) (w := begin [en 1, en 2, en 3])
    (as := [.request, .deliver 0, .grow (member [en 1, en 2, en 3, en 4, en 5, en 6] 2), .ack 0, .deliver 0, .ack 0, .deliver 0,
      .ack 0, .promote])
    (f := fun w => promoted w fun b _ => decide (left b.db = [(1, 1), (3, 4)]) && decide (b.last = 6))
    (.start _ (member_ok (by decide) (by decide +kernel)) _ _ _ _)
    (by
      intro s hs
      simp only [List.mem_cons, reduceCtorEq, false_or, Act.grow.injEq, List.not_mem_nil, or_false] at hs
      rw [hs]
      exact member_ok (by decide) (by decide +kernel))
    (by decide +kernel)
  obtain ⟨b, log, m, hr, h3⟩ := promoted_spec h2
  simp only [Bool.and_eq_true, decide_eq_true_eq] at h3
  exact ⟨w, h1, b, log, m, hr, by decide +kernel, h3⟩

/-- The same with two pushes under way, while both of which the entries are committed; the member has removed entries it has sent. -/
example : ∃ w, Rep.Run ⟨true, true⟩ (one 2) st w ∧ ∃ b log m, w.replica = some (b, log, m) ∧ left b.db = [(1, 1), (3, 4)] ∧ b.last = 6 := by
  obtain ⟨w, h1, h2⟩ := outcome_spec (ru := ⟨true, true⟩) (c := one 2) (st := st) (w := begin [en 1, en 2, en 3])
    (as := [.request, .grow (member [en 1, en 2, en 3, en 4, en 5, en 6] 3), .deliver 0, .ack 0, .deliver 0, .ack 0, .deliver 0, .ack 0,
      .deliver 0, .ack 0, .promote])
    (f := fun w => promoted w fun b _ => decide (left b.db = [(1, 1), (3, 4)]) && decide (b.last = 6))
    (.start _ (member_ok (by decide) (by decide +kernel)) _ _ _ _)
    (by
      intro s hs
      simp only [List.mem_cons, reduceCtorEq, false_or, Act.grow.injEq, List.not_mem_nil, or_false] at hs
      rw [hs]
      exact member_ok (by decide) (by decide +kernel))
    (by decide +kernel)
  obtain ⟨b, log, m, hr, h3⟩ := promoted_spec h2
  simp only [Bool.and_eq_true, decide_eq_true_eq] at h3
  exact ⟨w, h1, b, log, m, hr, h3⟩

/-- **C34 fails when the log is truncated.** The member applies two more entries and then removes from its log all but the last entry,
before it sent the third. An iterator past the truncated part is taken for the end of the log
(enclave/core/core.cc:1278-1290): the rows are sent with the effects of all four entries, and the joiner is promoted as if it had applied
two of them. It will apply the others again. -/
theorem C34_truncated : ∃ w, Rep.Run ⟨true, false⟩ slow st w ∧ ∃ b log m, w.replica = some (b, log, m) ∧ b.last = 2 ∧
    b.db = (member [en 1, en 2, en 3, en 4] 3).db ∧ ¬ ∃ s ∈ w.seen, Has st s b log m := by
  obtain ⟨w, h1, h2⟩ := outcome_spec (ru := ⟨true, false⟩) (c := slow) (st := st) (w := begin [en 1, en 2])
    (as := [.request, .deliver 0, .grow (member [en 1, en 2, en 3, en 4] 3), .ack 0, .deliver 0, .ack 0, .deliver 0, .ack 0, .promote])
    (f := fun w => promoted w fun b _ => decide (b.last = 2) && decide (b.db.list = (member [en 1, en 2, en 3, en 4] 3).db.list) &&
      w.seen.all fun (s : Src Nat Svr.DB2.DB) => decide (b.db.list ≠ s.db.list) || decide (b.last ≠ s.hist.length))
    (.start _ (member_ok (by decide) (by decide +kernel)) _ _ _ _)
    (by
      intro s hs
      simp only [List.mem_cons, reduceCtorEq, false_or, Act.grow.injEq, List.not_mem_nil, or_false] at hs
      rw [hs]
      exact member_ok (by decide) (by decide +kernel))
    (by decide +kernel)
  obtain ⟨b, log, m, hr, h3⟩ := promoted_spec h2
  simp only [Bool.and_eq_true, decide_eq_true_eq, List.all_eq_true, Bool.or_eq_true] at h3
  refine ⟨w, h1, b, log, m, hr, h3.1.1, OMap.ext h3.1.2, ?_⟩
  rintro ⟨s, hs, hh⟩
  rcases h3.2 s hs with k | k
  · exact k (congrArg _ hh.db)
  · exact k hh.last

/-- **C34 fails when responses are handled out of order.** Of three pushes the second is handled first. It and the first are refused for
their sequence numbers, but each advances the number that is expected (enclave/core/core.cc:1365), so that the third is accepted.
If the response to the third is the first to be handled, that is success: the joiner is promoted with an empty database. -/
theorem C34_reordered : ∃ w, Rep.Run ⟨false, true⟩ (one 3) st w ∧ ∃ b log m, w.replica = some (b, log, m) ∧ b.db = OMap.empty ∧
    ∀ s ∈ w.seen, left s.db = [(1, 2), (2, 3)] := by
  obtain ⟨w, h1, h2⟩ := outcome_spec (ru := ⟨false, true⟩) (c := one 3) (st := st) (w := begin [en 1, en 2, en 3])
    (as := [.request, .deliver 1, .deliver 0, .deliver 0, .ack 2, .promote])
    (f := fun w => promoted w fun b _ => decide (b.db.list = []) &&
      w.seen.all fun (s : Src Nat Svr.DB2.DB) => decide (left s.db = [(1, 2), (2, 3)]))
    (.start _ (member_ok (by decide) (by decide +kernel)) _ _ _ _)
    (by simp)
    (by decide +kernel)
  obtain ⟨b, log, m, hr, h3⟩ := promoted_spec h2
  simp only [Bool.and_eq_true, decide_eq_true_eq, List.all_eq_true] at h3
  exact ⟨w, h1, b, log, m, hr, OMap.ext h3.1, h3.2⟩

end Svr.Props.Replicate
