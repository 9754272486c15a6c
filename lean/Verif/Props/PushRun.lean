import Verif.Props.PushWire

/-!
# C101 in runs of replication

C34 speaks about runs in which pushes are values. In every such run, whatever the order of pushes and responses, each push under way is the one that its bytes are
read as.
-/

namespace Svr.Props.PushWire

open Svr.Core Svr.Wire
open Svr.Raft (Entry Membership Sizes)
open Svr.Minimums (Limits)

variable {P D L E PB V : Type} [LinearOrder P] {st : Store D L E PB} {view : D → OMap Bytes V} {pb : Bytes → V → PB} {Inv : D → Prop}
  {IsKey : Bytes → Prop}

/-- What the joiner reads from the bytes of the request with which a push is sent (enclave/core/core.cc:1108-1125, 1205-1207, 1321-1328). -/
def received (ord : Limits → List (Bytes × Bytes)) (utf8 : Bytes → Bool) (k : Coding P PB) (req : Nat) (p : Push P PB) : Option (Push P PB) :=
  match decE2E utf8 (encE2E ord (.request req (.push (toW k p)))) with
  | some (.request _ (.push y)) => ofW k y
  | _ => none

/-- A push state from which a push under way was sent; `cur` is the present one. -/
structure Before (IsKey : Bytes → Prop) (cur ps : PushState) : Prop where
  id : ps.id = cur.id
  seq : ps.seq ≤ cur.seq
  logs : ps.logsFrom ≤ cur.logsFrom
  key : ps.dbFrom = [] ∨ IsKey ps.dbFrom

theorem Before.trans {a b c : PushState} (h : Before IsKey b a) (h2 : Before IsKey c b) : Before IsKey c a :=
  ⟨h.id.trans h2.id, Nat.le_trans h.seq h2.seq, Nat.le_trans h.logs h2.logs, h.key⟩

/-- Every push under way was sent by the member, in a state it was in. -/
def Origin (c : RepCfg P PB) (st : Store D L E PB) (IsKey : Bytes → Prop) (cur : PushState) (seen : List (Src P D)) (wire : List (Push P PB × Bool)) : Prop :=
  Before IsKey cur cur ∧ ∀ x ∈ wire, ∃ s ∈ seen, ∃ ps ps', sendNext c st s ps = .ok (ps', .ok x.1) ∧ Before IsKey cur ps

structure Known (c : RepCfg P PB) (st : Store D L E PB) (IsKey : Bytes → Prop) (w : Rep P D E PB) : Prop where
  src : w.src ∈ w.seen
  ok : ∀ s ∈ w.seen, s.Ok st
  idle : w.ps = none → w.wire = []
  origin : ∀ cur, w.ps = some cur → Origin c st IsKey cur w.seen w.wire

theorem send_before (hl : Lawful st view pb Inv IsKey) {c : RepCfg P PB} {s : Src P D} (hs : s.Ok st) {ps ps' : PushState} {r}
    (h : sendNext c st s ps = .ok (ps', r)) (hk : ps.dbFrom = [] ∨ IsKey ps.dbFrom) :
    Before IsKey ps' ps ∧ Before IsKey ps' ps' := by
  unfold sendNext at h
  obtain ⟨_, -, h⟩ := Out.bind_eq_ok.mp h
  obtain ⟨x, h1, h⟩ := Out.bind_eq_ok.mp h
  cases x with
  | none => cases h; exact ⟨⟨rfl, by simp, Nat.le_refl _, hk⟩, ⟨rfl, Nat.le_refl _, Nat.le_refl _, hk⟩⟩
  | some x =>
    obtain ⟨rs, key, fin⟩ := x
    cases h
    refine ⟨⟨rfl, by simp, by simp, hk⟩, ⟨rfl, Nat.le_refl _, Nat.le_refl _, ?_⟩⟩
    show key = [] ∨ IsKey key
    unfold pushRows at h1
    split at h1
    · simp only at h1
      split at h1
      · obtain ⟨y, h2, h1⟩ := Out.bind_eq_ok.mp h1
        rw [hl.emit _ _ _ (hs.inv hl) hk] at h2
        cases h2
        cases h1
        generalize hch : (rowsAfter (view s.db) ps.dbFrom).take _ = ch
        by_cases hne : ch = []
        · rw [hne]; exact .inl rfl
        · obtain ⟨v, hv⟩ := lastKeyOf_mem hne
          have hm : (lastKeyOf ch, v) ∈ rowsAfter (view s.db) ps.dbFrom := List.mem_of_mem_take (by rw [hch]; exact hv)
          have hm : (lastKeyOf ch, v) ∈ (view s.db).list := by
            unfold rowsAfter at hm
            split at hm
            · exact hm
            · exact (List.dropWhile_sublist _).subset hm
          exact .inr (hl.keys _ _ _ (hs.inv hl) (OMap.mem_list.mp hm))
      · cases h1; exact hk
    · cases h1; exact hk

theorem Known.send (hl : Lawful st view pb Inv IsKey) {c : RepCfg P PB} {w w' : Rep P D E PB} {ps ps' : PushState} (h : Known c st IsKey w)
    (hp : w.ps = some ps) (hs : w.send c st ps = .ok (w', ps')) : Known c st IsKey w' ∧ w'.ps = some ps' := by
  obtain ⟨r, h1, rfl⟩ := send_eq hs
  obtain ⟨o1, o2⟩ := h.origin ps hp
  obtain ⟨b1, b2⟩ := send_before hl (h.ok _ h.src) h1 o1.key
  have old : ∀ x ∈ w.wire, ∃ s ∈ w.seen, ∃ q q', sendNext c st s q = .ok (q', .ok x.1) ∧ Before IsKey ps' q := by
    intro x hx
    obtain ⟨s, hs, q, q', e1, e2⟩ := o2 x hx
    exact ⟨s, hs, q, q', e1, e2.trans b1⟩
  cases r with
  | error e => exact ⟨⟨h.src, h.ok, by simp, fun cur hc => by cases hc; exact ⟨b2, old⟩⟩, rfl⟩
  | ok p =>
    refine ⟨⟨h.src, h.ok, by simp, fun cur hc => ?_⟩, rfl⟩
    cases hc
    refine ⟨b2, fun x hx => ?_⟩
    rcases List.mem_append.1 hx with hx | hx
    · exact old x hx
    · obtain rfl := List.mem_singleton.1 hx
      exact ⟨w.src, h.src, ps, ps', h1, b1⟩

theorem Known.sendMany (hl : Lawful st view pb Inv IsKey) {c : RepCfg P PB} : ∀ (n : Nat) {w w' : Rep P D E PB} {ps : PushState}, Known c st IsKey w →
    w.ps = some ps → w.sendMany c st n ps = .ok w' → Known c st IsKey w'
  | 0, w, w', ps, h, hp, hs => by cases hs; exact h
  | n + 1, w, w', ps, h, hp, hs => by
    unfold Rep.sendMany at hs
    split at hs
    · cases hs; exact h
    · obtain ⟨⟨w1, ps1⟩, h1, h2⟩ := Out.bind_eq_ok.mp hs
      obtain ⟨k1, k2⟩ := h.send hl hp h1
      exact Known.sendMany hl n k1 k2 h2

theorem Known.callback (hl : Lawful st view pb Inv IsKey) {c : RepCfg P PB} {w w' : Rep P D E PB} {ps : PushState} {err} {last : Bool}
    (h : Known c st IsKey w) (hp : w.ps = some ps) (hs : w.callback c st ps err last = .ok w') : Known c st IsKey w' := by
  unfold Rep.callback at hs
  split at hs
  · cases hs; exact h
  · split at hs
    · cases hs; exact ⟨h.src, h.ok, h.idle, h.origin⟩
    · split at hs
      · cases hs; exact ⟨h.src, h.ok, h.idle, h.origin⟩
      · split at hs
        · obtain ⟨⟨w1, ps1⟩, h1, h2⟩ := Out.bind_eq_ok.mp hs
          cases h2
          exact (h.send hl hp h1).1
        · cases hs; exact h

/-- In every run, whatever the order of pushes and responses. -/
theorem known (hl : Lawful st view pb Inv IsKey) {ru : Rules} {c : RepCfg P PB} {w : Rep P D E PB} (h : Rep.Run ru c st w) : Known c st IsKey w := by
  induction h with
  | start s ok max id m l =>
    exact ⟨List.mem_singleton_self _, fun s' hs => by obtain rfl := List.mem_singleton.1 hs; exact ok, fun _ => rfl, fun cur hc => by cases hc⟩
  | @next w w1 _ k ih =>
    cases k with
    | grow s ok _ =>
      refine ⟨List.mem_cons_self, ?_, ih.idle, fun cur hc => ⟨(ih.origin cur hc).1, fun x hx => ?_⟩⟩
      · intro s' hs'
        rcases List.mem_cons.1 hs' with rfl | hs'
        · exact ok
        · exact ih.ok s' hs'
      · obtain ⟨s', hs', r⟩ := (ih.origin cur hc).2 x hx
        exact ⟨s', List.mem_cons_of_mem _ hs', r⟩
    | request w' hp h =>
      unfold Rep.request at h
      have kn : Known c st IsKey { w with ps := some ⟨w.src.log.oldestIdx, [], false, w.load.id, 0⟩ } := by
        refine ⟨ih.src, ih.ok, fun hn => (by cases hn), fun cur hc => ?_⟩
        cases hc
        refine ⟨⟨rfl, Nat.le_refl _, Nat.le_refl _, .inl rfl⟩, fun x hx => ?_⟩
        rw [ih.idle hp] at hx
        cases hx
      exact kn.sendMany hl _ rfl h
    | deliver i x w' hx h =>
      have sub : ∀ {y}, y ∈ w.wire.eraseIdx i → y ∈ w.wire := fun hy => List.mem_of_mem_eraseIdx hy
      unfold Rep.deliver at h
      split at h
      · cases h
        exact ⟨ih.src, ih.ok, fun hn => by simp [ih.idle hn], fun cur hc => ⟨(ih.origin cur hc).1, fun y hy => (ih.origin cur hc).2 y (sub hy)⟩⟩
      · obtain ⟨⟨j, er⟩, _, h⟩ := Out.bind_eq_ok.mp h
        cases h
        exact ⟨ih.src, ih.ok, fun hn => by simp [ih.idle hn], fun cur hc => ⟨(ih.origin cur hc).1, fun y hy => (ih.origin cur hc).2 y (sub hy)⟩⟩
    | ack i x ps w' _ _ hp _ h => 
      have kn : Known c st IsKey { w with acks := w.acks.eraseIdx i } := ⟨ih.src, ih.ok, ih.idle, ih.origin⟩
      exact Known.callback hl kn hp h
    | lost ps w' last hp h => exact Known.callback hl ih hp h
    | promote _ _ => exact ⟨ih.src, ih.ok, ih.idle, ih.origin⟩

/-- The member's log, limits and members leave room in a message. -/
structure Room (ord : Limits → List (Bytes × Bytes)) (utf8 : Bytes → Bool) (st : Store D L E PB) (chunk extra M : Nat) (s : Src P D) : Prop where
  entries : ∀ e ∈ s.log.entries, e.hash.length = 32 ∧ (encEntry e).length ≤ M ∧ e.term < 2 ^ 64
  texts : ∀ x ∈ s.limits.list, utf8 x.1 = true
  size : 17 * (chunk + M + 1) + 16 * (extra * (chunk / st.maxRow) + 39 * s.mem.all.length + (enc (fOpt 8 (limitsF ord) (some s.limits))).length + 58) ≤
    16 * maxLen

variable {ord : Limits → List (Bytes × Bytes)} {utf8 : Bytes → Bool} {k : Coding P PB} {z : Sizes} {chunk pipeline extra M req : Nat}

/-- **C101**: in every run of replication the bytes of a push under way are read as this push. The counters of the member (`ps`) are 64 bit numbers. -/
theorem C101_run (hl : Lawful st view pb Inv IsKey) (hk : k.Law) (ho : ∀ m : Limits, (ord m).Perm m.list)
    (hrows : ∀ d key, Inv d → (key = [] ∨ IsKey key) → RowsFit st k extra d key)
    {ru : Rules} {w : Rep P D E PB} (h : Rep.Run ru (wireCfg ord k z chunk pipeline) st w) (hroom : ∀ s ∈ w.seen, Room ord utf8 st chunk extra M s)
    (hps : ∀ ps, w.ps = some ps → ps.id < 2 ^ 64 ∧ ps.seq < 2 ^ 64 ∧ ps.logsFrom < 2 ^ 64) (hreq : req < 2 ^ 64)
    {x : Push P PB × Bool} (hx : x ∈ w.wire) : received ord utf8 k req x.1 = some x.1 := by
  have kn := known hl h
  cases hp : w.ps with
  | none => rw [kn.idle hp] at hx; cases hx
  | some cur =>
    obtain ⟨s, hs, ps, ps', h1, hb⟩ := (kn.origin cur hp).2 x hx
    obtain ⟨c1, c2, c3⟩ := hps cur hp
    have room := hroom s hs
    obtain ⟨r1, r2⟩ := C101_push_read (i := req) hk ho h1 (hrows _ _ ((kn.ok s hs).inv hl) hb.key) room.entries (by rw [hb.id]; exact c1)
      (Nat.lt_of_le_of_lt hb.seq c2) (Nat.lt_of_le_of_lt hb.logs c3) hreq room.texts room.size
    unfold received
    rw [r1]
    exact r2

section
variable {name : P → Bytes} {unname : Bytes → Option P} {path : Bytes → Bool}

/-- **C101, SVR2**: in every run. -/
theorem C101_run_svr2 {prims : Prims} {parse : Bytes → Option Svr.DB2.Log} (hp : ∀ l, parse [] = some l → l.id = [])
    (hn : ∀ p, unname (name p) = some p) (hl : ∀ p, (name p).length = 32) (ho : ∀ m : Limits, (ord m).Perm m.list) {ru : Rules} {w}
    (h : Rep.Run ru (wireCfg ord (coding2 name unname) z chunk pipeline) (store2 prims path parse) w)
    (hroom : ∀ s ∈ w.seen, Room ord utf8 (store2 prims path parse) chunk 14 M s)
    (hps : ∀ ps, w.ps = some ps → ps.id < 2 ^ 64 ∧ ps.seq < 2 ^ 64 ∧ ps.logsFrom < 2 ^ 64) (hreq : req < 2 ^ 64) {x} (hx : x ∈ w.wire) :
    received ord utf8 (coding2 name unname) req x.1 = some x.1 :=
  C101_run (lawful2 prims path parse hp) (law2 hn hl) ho (fun _ _ hd hkey => C101_rows_svr2 hp hd hkey) h hroom hps hreq hx

/-- **C101, SVR3**: in every run. -/
theorem C101_run_svr3 {prims : Svr.DB3.Prims3} {parse : Bytes → Option Svr.DB3.Log} (hp : ∀ l, parse [] = some l → l.id = [])
    (hn : ∀ p, unname (name p) = some p) (hl : ∀ p, (name p).length = 32) (ho : ∀ m : Limits, (ord m).Perm m.list) {ru : Rules} {w}
    (h : Rep.Run ru (wireCfg ord (coding3 name unname) z chunk pipeline) (store3 prims path parse) w)
    (hroom : ∀ s ∈ w.seen, Room ord utf8 (store3 prims path parse) chunk 3 M s)
    (hps : ∀ ps, w.ps = some ps → ps.id < 2 ^ 64 ∧ ps.seq < 2 ^ 64 ∧ ps.logsFrom < 2 ^ 64) (hreq : req < 2 ^ 64) {x} (hx : x ∈ w.wire) :
    received ord utf8 (coding3 name unname) req x.1 = some x.1 :=
  C101_run (lawful3 prims path parse hp) (law3 hn hl) ho (fun _ _ hd hkey => C101_rows_svr3 hp hd hkey) h hroom hps hreq hx

/-- **C101, SVR4**: in every run. -/
theorem C101_run_svr4 {prims : Svr.DB4.Prims4} (hadd : Svr.DB4.SaddOK prims) {parse : Bytes → Option Svr.DB4.Log} (hp : ∀ l, parse [] = some l → l.id = [])
    (hn : ∀ p, unname (name p) = some p) (hl : ∀ p, (name p).length = 32) (ho : ∀ m : Limits, (ord m).Perm m.list) {ru : Rules} {w}
    (h : Rep.Run ru (wireCfg ord (coding4 name unname) z chunk pipeline) (store4 prims path parse) w)
    (hroom : ∀ s ∈ w.seen, Room ord utf8 (store4 prims path parse) chunk 12 M s)
    (hps : ∀ ps, w.ps = some ps → ps.id < 2 ^ 64 ∧ ps.seq < 2 ^ 64 ∧ ps.logsFrom < 2 ^ 64) (hreq : req < 2 ^ 64) {x} (hx : x ∈ w.wire) :
    received ord utf8 (coding4 name unname) req x.1 = some x.1 :=
  C101_run (lawful4 prims hadd path parse hp) (law4 hn hl) ho (fun _ _ hd hkey => C101_rows_svr4 hadd hp hd hkey) h hroom hps hreq hx

/-- **C101, SVR5**: in every run. -/
theorem C101_run_svr5 {prims : Svr.DB5.Prims5} {parse : Bytes → Option Svr.DB5.Log} (hp : ∀ l, parse [] = some l → l.id = [])
    (hn : ∀ p, unname (name p) = some p) (hl : ∀ p, (name p).length = 32) (ho : ∀ m : Limits, (ord m).Perm m.list) {ru : Rules} {w}
    (h : Rep.Run ru (wireCfg ord (coding5 name unname) z chunk pipeline) (store5 prims path parse) w)
    (hroom : ∀ s ∈ w.seen, Room ord utf8 (store5 prims path parse) chunk 2 M s)
    (hps : ∀ ps, w.ps = some ps → ps.id < 2 ^ 64 ∧ ps.seq < 2 ^ 64 ∧ ps.logsFrom < 2 ^ 64) (hreq : req < 2 ^ 64) {x} (hx : x ∈ w.wire) :
    received ord utf8 (coding5 name unname) req x.1 = some x.1 :=
  C101_run (lawful5 prims path parse hp) (law5 hn hl) ho (fun _ _ hd hkey => C101_rows_svr5 hp hd hkey) h hroom hps hreq hx
end

namespace Case

open Svr.Props.Replicate (en rq rq_nil serial serial_ok outcome outcome_spec)

/-- A member that has applied `H`. -/
def member (H : List Entry) : Src Bool Svr.DB2.DB :=
  ⟨⟨H, 1, 0, 0⟩, H, match serial Replicate.st.toProto Replicate.st.fresh H with | .ok d => d | _ => Replicate.st.fresh, OMap.empty.insert [97] [1], ⟨[false, true], [true]⟩⟩

theorem member_ok {H : List Entry} (hn : 1 ≤ H.length) (h : (match serial Replicate.st.toProto Replicate.st.fresh H with | .ok _ => true | _ => false) = true) :
    (member H).Ok Replicate.st := by
  refine ⟨⟨H, ⟨by simp [member], by simp [member], by simp [member], ?_⟩, List.prefix_rfl⟩, hn, ?_, rfl⟩
  · intro he
    have : H = [] := by simpa [member] using he
    rw [this] at hn
    cases hn
  · unfold member
    simp only
    split
    · rename_i d hd; exact serial_ok hd
    · rename_i hd
      cases hs : serial Replicate.st.toProto Replicate.st.fresh H with
      | ok d => exact absurd hs (hd d)
      | abort => rw [hs] at h; cases h
      | ub => rw [hs] at h; cases h

def cfg2 : RepCfg Bool Svr.DB2.RowPB := wireCfg PeerWire.inOrder (coding2 name unname) ⟨1, 1, 1, 1, 1, fun _ => 0⟩ 330 2

end Case

/-- Two pushes are under way, the first with two entries and two rows; meanwhile the member goes on. Both are read as they were sent. -/
example : ∃ w, Rep.Run ⟨false, false⟩ Case.cfg2 Replicate.st w ∧ w.wire.map (fun x => (x.1.entries.length, x.1.rows.length, x.2)) = [(2, 2, false), (0, 0, true)] ∧
    w.src.hist.length = 3 ∧ ∀ x ∈ w.wire, received PeerWire.inOrder PeerWire.ascii (coding2 Case.name Case.unname) 9 x.1 = some x.1 := by
  open Svr.Props.Replicate in
  obtain ⟨w, h1, h2⟩ := outcome_spec (ru := ⟨false, false⟩) (c := Case.cfg2) (st := Replicate.st)
    (w := Rep.start Replicate.st (Case.member [en 1, en 2]) 100000 77 (Membership.first true) OMap.empty)
    (as := [.request, .grow (Case.member [en 1, en 2, en 3])])
    (f := fun w => decide (w.wire.map (fun x => (x.1.entries.length, x.1.rows.length, x.2)) = [(2, 2, false), (0, 0, true)]) &&
      decide (w.src.hist.length = 3) && decide (w.seen.map (fun s => s.log.entries) = [[en 1, en 2, en 3], [en 1, en 2]]) &&
      decide (w.seen.map (fun s => (s.limits.list, s.mem.all)) = [([([97], [1])], [false, true]), ([([97], [1])], [false, true])]) &&
      decide (w.ps.map (fun p => (p.id, p.seq, p.logsFrom)) = some (77, 2, 3)))
    (.start _ (Case.member_ok (by decide) (by decide +kernel)) _ _ _ _)
    (by
      intro s hs
      simp only [List.mem_cons, reduceCtorEq, false_or, Act.grow.injEq, List.not_mem_nil, or_false] at hs
      rw [hs]
      exact Case.member_ok (by decide) (by decide +kernel))
    (by decide +kernel)
  simp only [Bool.and_eq_true, decide_eq_true_eq] at h2
  obtain ⟨⟨⟨⟨e1, e2⟩, e3⟩, e4⟩, e5⟩ := h2
  refine ⟨w, h1, e1, e2, fun x hx => ?_⟩
  refine C101_run_svr2 (M := 50) Replicate.rq_nil Case.names (fun b => by simp [Case.name]) PeerWire.inOrder_perm h1 ?_ ?_ (by decide) hx
  · intro s hs
    have m3 := List.mem_map_of_mem (f := fun s : Src Bool Svr.DB2.DB => s.log.entries) hs
    have m4 := List.mem_map_of_mem (f := fun s : Src Bool Svr.DB2.DB => (s.limits.list, s.mem.all)) hs
    rw [e3] at m3
    rw [e4] at m4
    have m4 : s.limits.list = [([97], [1])] ∧ s.mem.all = [false, true] := by simpa using m4
    have hlim : s.limits = OMap.empty.insert [97] [1] := OMap.ext (by rw [m4.1]; rfl)
    refine ⟨fun e he => ?_, ?_, ?_⟩
    · have : e ∈ [Replicate.en 1, Replicate.en 2, Replicate.en 3] := by
        simp only [List.mem_cons, List.not_mem_nil, or_false] at m3
        rcases m3 with m3 | m3 <;> rw [m3] at he
        · exact he
        · simp at he ⊢; tauto
      have hall : ∀ e ∈ [Replicate.en 1, Replicate.en 2, Replicate.en 3], e.hash.length = 32 ∧ (encEntry e).length ≤ 50 ∧ e.term < 2 ^ 64 := by decide +kernel
      exact hall e this
    · rw [m4.1]; decide
    · have e : (enc (fOpt 8 (limitsF PeerWire.inOrder) (some (OMap.empty.insert [97] [1])))).length = 10 := by decide +kernel
      have e1 : Replicate.st.maxRow = 105 := rfl
      rw [hlim, m4.2, e1, e]
      decide
  · intro ps hp
    rw [hp] at e5
    simp only [Option.map_some, Option.some.injEq, Prod.mk.injEq] at e5
    omega

end Svr.Props.PushWire
