import Verif.Core.ReplicateFacts

/-!
# Runs of replication: the invariant
-/

namespace Svr.Core
open Raft (Entry Inner Log Sizes LogErr MemErr Membership fromProto LogOf)
variable {P : Type} [LinearOrder P] {D L E PB V : Type}
variable {st : Store D L E PB} {view : D → OMap Bytes V} {pb : Bytes → V → PB} {Inv : D → Prop} {IsKey : Bytes → Prop}

/-- A joiner that has accepted no push. -/
def Blank (st : Store D L E PB) (j : Load P D) : Prop :=
  j.log.entries = [] ∧ j.db = st.fresh ∧ j.largest = [] ∧ j.log.oldest = 1

/-- The joiner has the entries `A`, and the rows up to `j.largest` of the database after them. -/
structure Handed (z : Sizes) (st : Store D L E PB) (view : D → OMap Bytes V) (Inv : D → Prop) (j : Load P D) (A : List Entry) : Prop where
  log : LogOf j.log A
  some : j.log.entries ≠ []
  bytes : Log.bytesOf z j.log.entries ≤ j.log.curr
  inv : Inv j.db
  db : ∃ d rs, Spec.Serial st.toProto st.fresh A d rs ∧ Mirror (view j.db) (view d) j.largest

/-- The joiner has all of the member's state `s`. -/
structure Got (z : Sizes) (s : Src P D) (db : D) (lim : Minimums.Limits) (l : Log) (m : Option (Membership P)) : Prop where
  log : LogOf l s.hist
  bytes : Log.bytesOf z l.entries ≤ l.curr
  same : db = s.db
  limits : lim = s.limits
  mem : m = some s.mem

theorem setNext_same {l : Log} {A : List Entry} (h : LogOf l A) :
    (if l.entries.length = 0 then (l.setNextIdx (A.length + 1)).1 else l) = l := by
  split
  · rename_i h0
    have h2 : l.entries = [] := List.eq_nil_of_length_eq_zero h0
    have h3 := h.empty h2
    have h4 := h.len
    rw [h2, h3] at h4
    simp only [List.length_nil] at h4
    have h5 : A.length + 1 = l.oldest := by omega
    rw [h5]
    cases l
    simp_all [Log.setNextIdx]
  · rfl

theorem mirror_all (hl : Lawful st view pb Inv IsKey) {dj d : D} {lo hi : Bytes} {c : List (Bytes × V)} (hj : Inv dj) (hd : Inv d)
    (hm : Mirror (view dj) (view d) hi) (hhi : hi = if c = [] then lo else lastKeyOf c) (hc : c = rowsAfter (view d) lo) : dj = d := by
  have hkeys : ∀ p ∈ (view d).list, p.1 ≠ [] := fun p hp => hl.key_ne _ (hl.keys _ _ _ hd (OMap.mem_list.mp hp))
  apply hl.inj _ _ hj hd
  apply OMap.ext_find
  intro x
  apply Option.ext
  intro v
  rw [hm x v]
  refine ⟨fun h => h.2, fun h => ⟨?_, h⟩⟩
  have hx : (x, v) ∈ (view d).list := OMap.mem_list.mpr h
  by_cases h0 : c = []
  · rw [hhi, if_pos h0]
    by_contra hlt
    have : (x, v) ∈ rowsAfter (view d) lo := (mem_rowsAfter hkeys).mpr ⟨hx, not_le.mp hlt⟩
    rw [← hc, h0] at this
    cases this
  · rw [hhi, if_neg h0]
    obtain ⟨u, hu⟩ := lastKeyOf_mem h0
    by_cases hxl : lo < x
    · have hxc : (x, v) ∈ c := by rw [hc]; exact (mem_rowsAfter hkeys).mpr ⟨hx, hxl⟩
      have hs : c.Pairwise (fun a b => a.1 < b.1) := by rw [hc]; exact rowsAfter_sorted _ _
      have := OMap.pairwise_getLast_le hs (q := c.getLast h0) (List.getLast?_eq_some_getLast h0) (x, v) hxc
      unfold lastKeyOf
      rw [List.getLast?_eq_some_getLast h0]
      exact this
    · have : lo < lastKeyOf c := by
        have h2 : (lastKeyOf c, u) ∈ rowsAfter (view d) lo := by rw [← hc]; exact hu
        exact ((mem_rowsAfter hkeys).mp h2).2
      exact (not_lt.mp hxl).trans this.le

theorem serial_take {pr : Proto D L E} {d d' : D} {H : List Entry} {rs} (h : Spec.Serial pr d H d' rs) (n m : Nat) :
    ∃ d1 d2 r1 r2, Spec.Serial pr d (H.take n) d1 r1 ∧ Spec.Serial pr d1 ((H.drop n).take m) d2 r2 ∧
      Spec.Serial pr d (H.take (n + m)) d2 (r1 ++ r2) := by
  have hsplit : H = (H.take n ++ (H.drop n).take m) ++ (H.drop n).drop m := by
    rw [List.append_assoc, List.take_append_drop, List.take_append_drop]
  rw [hsplit] at h
  obtain ⟨d2, ra, rb, h1, _, _⟩ := h.split
  obtain ⟨d1, r1, r2, h3, h4, _⟩ := h1.split
  refine ⟨d1, d2, r1, r2, h3, h4, ?_⟩
  rw [List.take_add]
  exact h3.append h4

/-- An accepted push. -/
theorem push_spec (hl : Lawful st view pb Inv IsKey) {z : Sizes} {j j' : Load P D} {A : List Entry} {s : Src P D} {p : Push P PB}
    {last : Bool} {hi : Bytes} (hs : s.Ok st) (hj : Blank st j ∨ Handed z st view Inv j A) (hb : Blank st j → p.entries ≠ [])
    (hA : A <+: s.hist) (hp : Sent view pb s p last j.largest hi) (hf : p.first = A.length + 1)
    (h : j.push z st p = .ok (j', none)) :
    Handed z st view Inv j' (s.hist.take (A.length + p.entries.length)) ∧ j'.largest = hi ∧ j'.seq = j.seq + 1 ∧ j'.id = j.id ∧
      (last = true → Got z s j'.db j'.limits j'.log j'.mem) := by
  have hsi := hs.inv hl
  obtain ⟨rs, hser⟩ := hs.db
  have htake : s.hist.take A.length = A := by
    obtain ⟨t, ht⟩ := hA
    rw [← ht]; simp
  have hn := hp.len
  rw [hf, Nat.add_sub_cancel] at hn
  obtain ⟨d1, d2, r1, r2, s1, s2, s3⟩ := serial_take hser A.length p.entries.length
  rw [htake] at s1
  have hent := hp.entries
  rw [hf, Nat.add_sub_cancel] at hent
  rw [← hent] at s2
  have hd1 := Serial.inv hl s1 hl.fresh_inv
  have hd2 := Serial.inv hl s2 hd1
  unfold Load.push at h
  split at h
  · cases h
  rw [hp.mem] at h
  simp only at h
  split at h
  · cases h
  split at h
  · cases h
  rw [hs.mem] at h
  simp only at h
  split at h
  · cases h
  rename_i lim hlim
  obtain ⟨⟨j1, er⟩, h1, h⟩ := Out.bind_eq_ok.mp h
  simp only at h
  split at h
  · cases h
  have hlims : lim = s.limits := by
    rw [hp.limits] at hlim
    unfold Minimums.updateLimits at hlim
    split at hlim
    · cases hlim
    · split at hlim
      · cases hlim
      · cases hlim; rfl
  -- the joiner before the entries
  have hpre : Inv j.db ∧ Mirror (view j.db) (view d1) j.largest ∧
      Win z (if j.log.entries.length = 0 then (j.log.setNextIdx p.first).1 else j.log) A := by
    rcases hj with ⟨b1, b2, b3, b4⟩ | hh
    · refine ⟨by rw [b2]; exact hl.fresh_inv, ?_, ?_⟩
      · rw [b2, hl.fresh_view, b3]
        intro x v
        constructor
        · intro h; cases h
        · rintro ⟨a, b⟩
          have := hl.key_ne _ (hl.keys _ _ _ hd1 b)
          cases x with
          | nil => exact absurd rfl this
          | cons y t => exact absurd (List.nil_lt_cons y t) (not_lt.mpr a)
      · have : (if j.log.entries.length = 0 then (j.log.setNextIdx p.first).1 else j.log) = { j.log with oldest := p.first } := by
          simp [b1, Log.setNextIdx]
        rw [this]
        refine ⟨hp.one, by simp only [hf]; omega, ?_, ?_⟩
        · simp [b1, hf]
        · simp [b1, Log.bytesOf]
    · obtain ⟨d, r, k1, k2⟩ := hh.db
      obtain ⟨rfl, _⟩ := k1.unique s1
      refine ⟨hh.inv, k2, ?_⟩
      rw [hf, setNext_same hh.log]
      exact ⟨hh.log.one, hh.log.le, hh.log.eq, hh.bytes⟩
  obtain ⟨e1, e2, e3, e4, e5⟩ := entries_spec hl p.entries (j := { j with
    seq := j.seq + 1, mem := some s.mem, limits := lim,
    log := if j.log.entries.length = 0 then (j.log.setNextIdx p.first).1 else j.log }) (A := A) hd1 hpre.1 hpre.2.1 hpre.2.2 s2 h1
  have hA' : A ++ p.entries = s.hist.take (A.length + p.entries.length) := by
    rw [List.take_add, htake, ← hent]
  have hlg : j1.largest = j.largest := by rw [e4]
  have hne : j1.log.entries ≠ [] := by
    by_cases h0 : p.entries = []
    · rcases hj with hb' | hh
      · exact absurd h0 (hb hb')
      · rw [h0] at h1
        cases h1
        show (if j.log.entries.length = 0 then (j.log.setNextIdx p.first).1 else j.log).entries ≠ []
        rw [hf, setNext_same hh.log]; exact hh.some
    · exact e5 h0
  have hlogof : LogOf j1.log (A ++ p.entries) := e3.logOf hne
  obtain ⟨c, c1, c2, c3, c4, c5⟩ := hp.rows
  rw [hf, Nat.add_sub_cancel] at c4
  rw [c1] at h
  by_cases h0 : c = [] ∧ last = false
  · obtain ⟨rfl, hlast⟩ := h0
    simp only [Load.rows, List.map_nil, List.length_nil, ne_eq, not_true_eq_false, if_false] at h
    cases h
    refine ⟨⟨by rw [← hA']; exact hlogof, hne, e3.bytes, e1, d2, _, s3, e2⟩, by rw [hlg, c3]; simp, by rw [e4], by rw [e4], by simp [hlast]⟩
  · have hcl : c ≠ [] ∨ last = true := by
      cases last with
      | true => exact .inr rfl
      | false => exact .inl (fun h => h0 ⟨h, rfl⟩)
    have hall := c4 hcl
    have hd2s : d2 = s.db := by
      rw [hall, List.take_length] at s3
      exact (s3.unique hser).1
    subst hd2s
    obtain ⟨f1, f2, f3, f4⟩ := rows_spec hl hd2 e1 e2 (by rw [hlg]; exact c2) h
    have hlog' : j'.log = j1.log := by rw [f4]
    rw [hlg] at f3
    refine ⟨⟨by rw [hlog', ← hA']; exact hlogof, by rw [hlog']; exact hne, by rw [hlog']; exact e3.bytes, f1, s.db, _, s3, f2⟩, by rw [f3, c3],
      by rw [f4, e4], by rw [f4, e4], ?_⟩
    intro hlast
    refine ⟨?_, by rw [hlog']; exact e3.bytes, ?_, ?_, ?_⟩
    · rw [hlog']
      have := hlogof
      rw [hA', hall, List.take_length] at this
      exact this
    · exact mirror_all hl f1 hd2 f2 f3 (c5 hlast)
    · rw [f4, e4]; exact hlims
    · rw [f4, e4]

/-! ### The pushes under way -/

/-- The pushes under way continue, one after the other, what the joiner has: `A`, the rows up to `lo`, and sequence number `n`. The
next push to be sent will continue the last of them. -/
def Flow (view : D → OMap Bytes V) (pb : Bytes → V → PB) (IsKey : Bytes → Prop) (ps : PushState) (seen : List (Src P D))
    (H : List Entry) : List Entry → Bytes → Nat → List (Push P PB × Bool) → Prop
  | A, lo, n, [] => ps.seq = n ∧ (ps.finished = false → ps.logsFrom = A.length + 1 ∧ ps.dbFrom = lo ∧ A <+: H ∧ (lo = [] ∨ IsKey lo))
  | A, lo, n, (p, last) :: t => p.seq = n ∧ p.first = A.length + 1 ∧ (last = true → t = [] ∧ ps.finished = true) ∧
    ∃ s ∈ seen, ∃ hi, A <+: s.hist ∧ Sent view pb s p last lo hi ∧
      Flow view pb IsKey ps seen H (s.hist.take (A.length + p.entries.length)) hi (n + 1) t

theorem Flow.mono {ps : PushState} {seen seen' : List (Src P D)} {H H' : List Entry} (hs : ∀ s ∈ seen, s ∈ seen') (hH : H <+: H') :
    ∀ {wire : List (Push P PB × Bool)} {A : List Entry} {lo : Bytes} {n : Nat}, Flow view pb IsKey ps seen H A lo n wire →
      Flow view pb IsKey ps seen' H' A lo n wire
  | [], _, _, _, h => ⟨h.1, fun hf => ⟨(h.2 hf).1, (h.2 hf).2.1, (h.2 hf).2.2.1.trans hH, (h.2 hf).2.2.2⟩⟩
  | _ :: _, _, _, _, ⟨h1, h2, h3, s, hs', hi, h4, h5, h6⟩ =>
    ⟨h1, h2, h3, s, hs s hs', hi, h4, h5, Flow.mono hs hH h6⟩

/-- Sending one more. -/
theorem Flow.snoc (hl : Lawful st view pb Inv IsKey) {c : RepCfg P PB} {s : Src P D} (hs : s.Ok st) {ps : PushState}
    (hf : ps.finished = false) (hlo : s.log.oldest ≤ ps.logsFrom) {seen : List (Src P D)} (hseen : s ∈ seen) :
    ∀ {wire : List (Push P PB × Bool)} {A : List Entry} {lo : Bytes} {n : Nat}, Flow view pb IsKey ps seen s.hist A lo n wire →
      ∃ ps' p, sendNext c st s ps = .ok (ps', .ok p) ∧ p.id = ps.id ∧ ps'.id = ps.id ∧ p.first = ps.logsFrom ∧
        (p.first ≤ s.hist.length → p.entries ≠ []) ∧ ps.logsFrom ≤ ps'.logsFrom ∧
        Flow view pb IsKey ps' seen s.hist A lo n (wire ++ [(p, ps'.finished)])
  | [], _, _, _, h => by
    obtain ⟨h1, h2⟩ := h
    obtain ⟨k1, k2, k3, k4⟩ := h2 hf
    have hle := k3.length_le
    obtain ⟨ps', p, hi, e1, e2, e3, e4, e5, e6, e7, e8, e9, e10⟩ := sendNext_spec (c := c) hl hs hf hlo (by omega) (by rw [k2]; exact k4)
    rw [k2] at e2
    refine ⟨ps', p, e1, e3, e6, e5, e2.some, by omega, by omega, by omega, fun hfin => ⟨rfl, hfin⟩, s, hseen, hi, k3, e2, by omega, ?_⟩
    intro hfin
    refine ⟨?_, e9 hfin, List.take_prefix _ _, e10⟩
    have := e2.len
    rw [List.length_take]; omega
  | _ :: _, _, _, _, ⟨h1, h2, h3, s', hs', hi, h4, h5, h6⟩ => by
    obtain ⟨ps', p, e1, e2, e3, e4, e5, e6, e7⟩ := Flow.snoc (c := c) hl hs hf hlo hseen h6
    refine ⟨ps', p, e1, e2, e3, e4, e5, e6, h1, h2, fun h => ?_, s', hs', hi, h4, h5, e7⟩
    have := (h3 h).2
    rw [hf] at this; cases this

/-! ### The invariant -/

/-- The joiner has everything, and nothing is under way to it. -/
def Complete (z : Sizes) (w : Rep P D E PB) (ps : PushState) : Prop :=
  w.wire = [] ∧ ps.finished = true ∧ ∃ s ∈ w.seen, Got z s w.load.db w.load.limits w.load.log w.load.mem

/-- All is well so far. -/
structure Going (z : Sizes) (st : Store D L E PB) (view : D → OMap Bytes V) (pb : Bytes → V → PB) (Inv : D → Prop) (IsKey : Bytes → Prop)
    (w : Rep P D E PB) (ps : PushState) (A : List Entry) : Prop where
  load : Blank st w.load ∨ Handed z st view Inv w.load A
  flow : Flow view pb IsKey ps w.seen w.src.hist A w.load.largest w.load.seq w.wire
  blank : Blank st w.load → (match w.wire with | [] => ps.logsFrom ≤ w.src.hist.length | x :: _ => x.1.entries ≠ [])
  acks : ∀ x ∈ w.acks, x.1 = none
  fin : ps.finished = true → (∃ x ∈ w.wire, x.2 = true) ∨ Complete z w ps
  last : (∃ x ∈ w.acks, x.2 = true) ∨ w.answer = some none → Complete z w ps
  ans : w.answer = none ∨ w.answer = some none

/-- The answer is or will be an error. -/
def Doomed (w : Rep P D E PB) : Prop :=
  (∃ e, w.answer = some (some e)) ∨
    w.answer = none ∧ ∃ pre er l post, w.acks = pre ++ (some er, l) :: post ∧ ∀ x ∈ pre, x.2 = false

structure RepOk (z : Sizes) (st : Store D L E PB) (view : D → OMap Bytes V) (pb : Bytes → V → PB) (Inv : D → Prop) (IsKey : Bytes → Prop)
    (w : Rep P D E PB) : Prop where
  src : w.src ∈ w.seen
  seen : ∀ s ∈ w.seen, s.Ok st ∧ s.hist <+: w.src.hist
  state : (∃ d lim log m, w.replica = some (Side.promote d lim log.lastIdx, log, m) ∧ ∃ s ∈ w.seen, Got z s d lim log m) ∨
    w.replica = none ∧ ((w.ps = none ∧ w.wire = [] ∧ w.acks = [] ∧ w.answer = none ∧ Blank st w.load ∧ w.load.seq = 0) ∨
      ∃ ps, w.ps = some ps ∧ ((∃ A, Going z st view pb Inv IsKey w ps A) ∨ Doomed w))

theorem send_eq {c : RepCfg P PB} {w w' : Rep P D E PB} {ps ps' : PushState} (h : w.send c st ps = .ok (w', ps')) :
    ∃ r, sendNext c st w.src ps = .ok (ps', r) ∧
      w' = (match r with
        | .error e => { w with ps := some ps', answer := some (w.answer.getD (some e)) }
        | .ok p => { w with ps := some ps', wire := w.wire ++ [(p, ps'.finished)] }) := by
  unfold Rep.send at h
  obtain ⟨⟨ps1, r⟩, h1, h⟩ := Out.bind_eq_ok.mp h
  simp only at h
  split at h <;> cases h
  · exact ⟨_, h1, rfl⟩
  · exact ⟨_, h1, rfl⟩

theorem Going.send {z : Sizes} (hl : Lawful st view pb Inv IsKey) {c : RepCfg P PB} {w w' : Rep P D E PB} {ps ps' : PushState}
    {A : List Entry} (hg : Going z st view pb Inv IsKey w ps A) (hs : w.src.Ok st) (hsn : w.src ∈ w.seen) (hf : ps.finished = false)
    (hk : w.src.log.oldest ≤ ps.logsFrom) (h : w.send c st ps = .ok (w', ps')) :
    Going z st view pb Inv IsKey w' ps' A ∧ w'.ps = some ps' ∧ w'.src = w.src ∧ w'.seen = w.seen ∧ w'.replica = w.replica ∧
      w'.acks = w.acks ∧ w'.answer = w.answer ∧ w.src.log.oldest ≤ ps'.logsFrom := by
  obtain ⟨ps1, p, e1, _, _, e4, e5, e6, e7⟩ := Flow.snoc (c := c) hl hs hf hk hsn hg.flow
  obtain ⟨r, k1, rfl⟩ := send_eq h
  rw [e1] at k1; cases k1
  have hno : ¬ ((∃ x ∈ w.acks, x.2 = true) ∨ w.answer = some none) := by
    intro hx
    have := (hg.last hx).2.1
    rw [hf] at this; cases this
  refine ⟨⟨hg.load, e7, ?_, hg.acks, ?_, fun hx => absurd hx hno, hg.ans⟩, rfl, rfl, rfl, rfl, rfl, rfl, by omega⟩
  · intro hb
    have := hg.blank hb
    simp only
    cases hw : w.wire with
    | nil =>
      rw [hw] at this
      exact e5 (by rw [e4]; exact this)
    | cons x t =>
      rw [hw] at this
      exact this
  · intro hfin
    exact .inl ⟨(p, ps'.finished), by simp, hfin⟩

theorem Going.sendMany {z : Sizes} (hl : Lawful st view pb Inv IsKey) {c : RepCfg P PB} : ∀ (n : Nat) {w w' : Rep P D E PB}
    {ps : PushState} {A : List Entry}, Going z st view pb Inv IsKey w ps A → w.src.Ok st → w.src ∈ w.seen → w.ps = some ps →
    w.src.log.oldest ≤ ps.logsFrom → w.sendMany c st n ps = .ok w' →
    ∃ ps', Going z st view pb Inv IsKey w' ps' A ∧ w'.ps = some ps' ∧ w'.src = w.src ∧ w'.seen = w.seen ∧ w'.replica = w.replica
  | 0, w, w', ps, A, hg, hs, hsn, hp, hk, h => by
    cases h
    exact ⟨ps, hg, hp, rfl, rfl, rfl⟩
  | n + 1, w, w', ps, A, hg, hs, hsn, hp, hk, h => by
    unfold Rep.sendMany at h
    split at h
    · cases h
      exact ⟨ps, hg, hp, rfl, rfl, rfl⟩
    · rename_i hf
      obtain ⟨⟨w1, ps1⟩, h1, h⟩ := Out.bind_eq_ok.mp h
      obtain ⟨a1, a2, a3, a4, a5, a6, a7, a8⟩ := hg.send hl hs hsn (by simpa using hf) hk h1
      obtain ⟨ps', b1, b2, b3, b4, b5⟩ := Going.sendMany hl n a1 (by rw [a3]; exact hs) (by rw [a3, a4]; exact hsn) a2 (by rw [a3]; exact a8) h
      exact ⟨ps', b1, b2, by rw [b3, a3], by rw [b4, a4], by rw [b5, a5]⟩

omit [LinearOrder P] in
theorem Complete.mono {z : Sizes} {w w' : Rep P D E PB} {ps : PushState} (h : Complete z w ps) (h1 : w'.wire = w.wire)
    (h2 : ∀ s ∈ w.seen, s ∈ w'.seen) (h3 : w'.load = w.load) : Complete z w' ps := by
  obtain ⟨a, b, s, hs, g⟩ := h
  exact ⟨by rw [h1]; exact a, b, s, h2 s hs, by rw [h3]; exact g⟩

theorem Doomed.callback {c : RepCfg P PB} {w w' : Rep P D E PB} {ps : PushState} {er : Option RepErr} {last : Bool}
    (hd : (∃ e, w.answer = some (some e)) ∨ w.answer = none ∧ ((∃ e, er = some e) ∨ last = false ∧
      ∃ pre e l post, w.acks = pre ++ (some e, l) :: post ∧ ∀ x ∈ pre, x.2 = false)) (hp : w.ps = some ps)
    (h : w.callback c st ps er last = .ok w') : Doomed w' ∧ (∃ ps', w'.ps = some ps') ∧ w'.src = w.src ∧ w'.seen = w.seen ∧
      w'.replica = w.replica := by
  unfold Rep.callback at h
  split at h
  · rename_i a ha
    cases h
    rcases hd with ⟨e, he⟩ | ⟨hn, _⟩
    · exact ⟨.inl ⟨e, he⟩, ⟨ps, hp⟩, rfl, rfl, rfl⟩
    · rw [ha] at hn; cases hn
  · rename_i ha
    rcases hd with ⟨e, he⟩ | ⟨_, hd⟩
    · rw [ha] at he; cases he
    · rcases hd with ⟨e, rfl⟩ | ⟨rfl, pre, e, l, post, h1, h2⟩
      · cases h
        exact ⟨.inl ⟨e, rfl⟩, ⟨ps, hp⟩, rfl, rfl, rfl⟩
      · split at h
        · cases h
          exact ⟨.inl ⟨_, rfl⟩, ⟨ps, hp⟩, rfl, rfl, rfl⟩
        · simp only [Bool.false_eq_true, if_false] at h
          split at h
          · obtain ⟨⟨w1, ps1⟩, k1, h⟩ := Out.bind_eq_ok.mp h
            cases h
            obtain ⟨r, _, rfl⟩ := send_eq k1
            cases r with
            | error e => exact ⟨.inl ⟨e, by simp [ha]⟩, ⟨ps1, rfl⟩, rfl, rfl, rfl⟩
            | ok p => exact ⟨.inr ⟨ha, pre, _, l, post, h1, h2⟩, ⟨ps1, rfl⟩, rfl, rfl, rfl⟩
          · cases h
            exact ⟨.inr ⟨ha, pre, e, l, post, h1, h2⟩, ⟨ps, hp⟩, rfl, rfl, rfl⟩

/-- Whatever the callback does, it leaves the member's and the joiner's state alone. -/
theorem callback_keeps {c : RepCfg P PB} {w w' : Rep P D E PB} {ps : PushState} {er : Option RepErr} {last : Bool}
    (h : w.callback c st ps er last = .ok w') : w'.src = w.src ∧ w'.seen = w.seen ∧ w'.replica = w.replica := by
  unfold Rep.callback at h
  split at h
  · cases h; exact ⟨rfl, rfl, rfl⟩
  · split at h
    · cases h; exact ⟨rfl, rfl, rfl⟩
    · split at h
      · cases h; exact ⟨rfl, rfl, rfl⟩
      · split at h
        · obtain ⟨⟨w1, ps1⟩, k1, h⟩ := Out.bind_eq_ok.mp h
          cases h
          obtain ⟨r, _, rfl⟩ := send_eq k1
          cases r <;> exact ⟨rfl, rfl, rfl⟩
        · cases h; exact ⟨rfl, rfl, rfl⟩

theorem sendMany_keeps {c : RepCfg P PB} : ∀ (n : Nat) {w w' : Rep P D E PB} {ps : PushState}, w.sendMany c st n ps = .ok w' →
    w'.src = w.src ∧ w'.seen = w.seen ∧ w'.replica = w.replica
  | 0, w, w', ps, h => by cases h; exact ⟨rfl, rfl, rfl⟩
  | n + 1, w, w', ps, h => by
    unfold Rep.sendMany at h
    split at h
    · cases h; exact ⟨rfl, rfl, rfl⟩
    · obtain ⟨⟨w1, ps1⟩, k1, h⟩ := Out.bind_eq_ok.mp h
      obtain ⟨r, _, rfl⟩ := send_eq k1
      have := sendMany_keeps n h
      cases r <;> exact this

theorem Going.ack {z : Sizes} (hl : Lawful st view pb Inv IsKey) {c : RepCfg P PB} {w w' : Rep P D E PB} {ps : PushState}
    {A : List Entry} (hg : Going z st view pb Inv IsKey w ps A) (hs : w.src.Ok st) (hsn : w.src ∈ w.seen) {x : Option RepErr × Bool}
    {t : List (Option RepErr × Bool)} (hx : w.acks = x :: t) (hp : w.ps = some ps)
    (hk : ps.finished = false → w.src.log.oldest ≤ ps.logsFrom)
    (h : ({ w with acks := t } : Rep P D E PB).callback c st ps x.1 x.2 = .ok w') :
    ∃ ps', w'.ps = some ps' ∧ Going z st view pb Inv IsKey w' ps' A := by
  have hx1 : x.1 = none := hg.acks x (by rw [hx]; exact List.mem_cons_self)
  have hg1 : Going z st view pb Inv IsKey ({ w with acks := t } : Rep P D E PB) ps A := by
    refine ⟨hg.load, hg.flow, hg.blank, fun y hy => hg.acks y (by rw [hx]; exact List.mem_cons_of_mem _ hy), hg.fin, ?_, hg.ans⟩
    rintro (⟨y, hy, hyt⟩ | ha)
    · exact hg.last (.inl ⟨y, by rw [hx]; exact List.mem_cons_of_mem _ hy, hyt⟩)
    · exact hg.last (.inr ha)
  unfold Rep.callback at h
  split at h
  · cases h
    exact ⟨ps, hp, hg1⟩
  · rw [hx1] at h
    simp only at h
    split at h
    · rename_i hlast
      cases h
      have hc : Complete z w ps := hg.last (.inl ⟨x, by rw [hx]; exact List.mem_cons_self, hlast⟩)
      exact ⟨ps, hp, hg1.load, hg1.flow, hg1.blank, hg1.acks, hg1.fin, fun _ => hc, .inr rfl⟩
    · split at h
      · rename_i hf
        obtain ⟨⟨w1, ps1⟩, k1, h⟩ := Out.bind_eq_ok.mp h
        cases h
        have hf' : ps.finished = false := by simpa using hf
        obtain ⟨a1, a2, _⟩ := hg1.send hl hs hsn hf' (hk hf') k1
        exact ⟨ps1, a2, a1⟩
      · cases h
        exact ⟨ps, hp, hg1⟩

theorem Flow.seq {ps : PushState} {seen : List (Src P D)} {H : List Entry} :
    ∀ {wire : List (Push P PB × Bool)} {A : List Entry} {lo : Bytes} {n : Nat}, Flow view pb IsKey ps seen H A lo n wire →
      ∀ {i : Nat} {x : Push P PB × Bool}, wire[i]? = some x → x.1.seq = n + i
  | [], _, _, _, _, _, _, hx => by cases hx
  | _ :: _, _, _, _, ⟨h1, _⟩, 0, _, hx => by cases hx; exact h1
  | _ :: _, _, _, n, ⟨_, _, _, _, _, _, _, _, h6⟩, i + 1, x, hx => by
    have := Flow.seq h6 (i := i) (x := x) (by simpa using hx)
    omega

theorem push_seq {z : Sizes} {j j' : Load P D} {p : Push P PB} (h : j.push z st p = .ok (j', none)) : p.seq = j.seq := by
  unfold Load.push at h
  split at h
  · cases h
  split at h
  · cases h
  split at h
  · cases h
  split at h
  · cases h
  rename_i hs
  exact not_not.mp hs

/-- A push is handled, whichever. -/
theorem Going.deliver {z : Sizes} (hl : Lawful st view pb Inv IsKey) {w : Rep P D E PB} {ps : PushState}
    {A : List Entry} (hg : Going z st view pb Inv IsKey w ps A) (hseen : ∀ s ∈ w.seen, s.Ok st ∧ s.hist <+: w.src.hist)
    {x : Push P PB × Bool} {i : Nat} (hi : w.wire[i]? = some x) {j : Load P D} {er : Option RepErr}
    (h : w.load.push z st x.1 = .ok (j, er)) :
    (∃ A', Going z st view pb Inv IsKey
      ({ w with wire := w.wire.eraseIdx i, acks := w.acks ++ [(er, x.2)], load := j } : Rep P D E PB) ps A') ∨
      Doomed ({ w with wire := w.wire.eraseIdx i, acks := w.acks ++ [(er, x.2)], load := j } : Rep P D E PB) := by
  have hnc : ¬ Complete z w ps := by
    intro hc
    rw [hc.1] at hi; cases hi
  have hnl : ¬ ((∃ x ∈ w.acks, x.2 = true) ∨ w.answer = some none) := fun hh => hnc (hg.last hh)
  have hans : w.answer = none := by
    rcases hg.ans with h | h
    · exact h
    · exact absurd (.inr h) hnl
  cases er with
  | some e =>
    right; right
    refine ⟨hans, w.acks, e, x.2, [], rfl, ?_⟩
    intro y hy
    cases hy2 : y.2 with
    | false => rfl
    | true => exact absurd (.inl ⟨y, hy, hy2⟩) hnl
  | none =>
    left
    have hi0 : i = 0 := by
      have h1 := hg.flow.seq hi
      have h2 := push_seq h
      omega
    subst hi0
    obtain ⟨t, hx⟩ : ∃ t, w.wire = x :: t := by
      cases hw : w.wire with
      | nil => rw [hw] at hi; cases hi
      | cons y t => rw [hw] at hi; cases hi; exact ⟨t, rfl⟩
    have her : w.wire.eraseIdx 0 = t := by rw [hx]; rfl
    rw [her]
    obtain ⟨p, last⟩ := x
    have hfl := hg.flow
    rw [hx] at hfl
    obtain ⟨f1, f2, f3, s, hs, hi, f4, f5, f6⟩ := hfl
    have hb : Blank st w.load → p.entries ≠ [] := by
      intro hb
      have := hg.blank hb
      rw [hx] at this
      exact this
    obtain ⟨k1, k2, k3, k4, k5⟩ := push_spec hl (hseen s hs).1 hg.load hb f4 f5 f2 h
    have hcomp : last = true → Complete z ({ w with wire := t, acks := w.acks ++ [(none, last)], load := j } : Rep P D E PB) ps :=
      fun hlast => ⟨(f3 hlast).1, (f3 hlast).2, s, hs, k5 hlast⟩
    refine ⟨_, .inr k1, ?_, ?_, ?_, ?_, ?_, .inl hans⟩
    · show Flow view pb IsKey ps w.seen w.src.hist _ j.largest j.seq t
      rw [k2, k3]; exact f6
    · rintro ⟨b1, _⟩
      exact absurd b1 k1.some
    · intro y hy
      rcases List.mem_append.mp hy with hy | hy
      · exact hg.acks y hy
      · rw [List.mem_singleton] at hy
        rw [hy]
    · intro hfin
      rcases hg.fin hfin with ⟨y, hy, hyt⟩ | hc
      · rw [hx] at hy
        rcases List.mem_cons.mp hy with rfl | hy
        · exact .inr (hcomp hyt)
        · exact .inl ⟨y, hy, hyt⟩
      · exact absurd hc hnc
    · rintro (⟨y, hy, hyt⟩ | ha)
      · rcases List.mem_append.mp hy with hy | hy
        · exact absurd (.inl ⟨y, hy, hyt⟩) hnl
        · rw [List.mem_singleton] at hy
          rw [hy] at hyt
          exact hcomp hyt
      · exact absurd (.inr ha) hnl

theorem Going.grow {z : Sizes} {w : Rep P D E PB} {ps : PushState} {A : List Entry} (hg : Going z st view pb Inv IsKey w ps A)
    {s : Src P D} (h : w.src.hist <+: s.hist) :
    Going z st view pb Inv IsKey ({ w with src := s, seen := s :: w.seen } : Rep P D E PB) ps A := by
  have hsub : ∀ x ∈ w.seen, x ∈ s :: w.seen := fun x hx => List.mem_cons_of_mem _ hx
  refine ⟨hg.load, hg.flow.mono hsub h, ?_, hg.acks, ?_, fun hx => (hg.last hx).mono rfl hsub rfl, hg.ans⟩
  · intro hb
    have := hg.blank hb
    simp only
    split
    · rename_i hw
      rw [hw] at this
      exact le_trans this h.length_le
    · rename_i hw
      rw [hw] at this
      exact this
  · intro hf
    rcases hg.fin hf with h | h
    · exact .inl h
    · exact .inr (h.mono rfl hsub rfl)

theorem RepOk.next {c : RepCfg P PB} (hl : Lawful st view pb Inv IsKey) {w w' : Rep P D E PB} (ok : RepOk c.z st view pb Inv IsKey w)
    (h : Rep.Next ⟨true, true⟩ c st w w') : RepOk c.z st view pb Inv IsKey w' := by
  cases h with
  | grow s hs hh =>
    have hsub : ∀ x ∈ w.seen, x ∈ s :: w.seen := fun x hx => List.mem_cons_of_mem _ hx
    refine ⟨List.mem_cons_self, ?_, ?_⟩
    · intro x hx
      rcases List.mem_cons.mp hx with rfl | hx
      · exact ⟨hs, List.prefix_rfl⟩
      · exact ⟨(ok.seen x hx).1, (ok.seen x hx).2.trans hh⟩
    · rcases ok.state with ⟨d, lim, log, m, h1, x, hx, h4⟩ | ⟨h1, h2 | ⟨ps, h3, ⟨A, h4⟩ | h4⟩⟩
      · exact .inl ⟨d, lim, log, m, h1, x, hsub x hx, h4⟩
      · exact .inr ⟨h1, .inl h2⟩
      · exact .inr ⟨h1, .inr ⟨ps, h3, .inl ⟨A, h4.grow hh⟩⟩⟩
      · exact .inr ⟨h1, .inr ⟨ps, h3, .inr h4⟩⟩
  | request w' hp h =>
    obtain ⟨a1, a2, a3⟩ := sendMany_keeps _ h
    refine ⟨by rw [a1, a2]; exact ok.src, by rw [a1, a2]; exact ok.seen, ?_⟩
    rcases ok.state with ⟨d, lim, log, m, h1, x, hx, h4⟩ | ⟨h1, ⟨_, h2, h3, h4, h5, h6⟩ | ⟨ps, h3, _⟩⟩
    · exact .inl ⟨d, lim, log, m, by rw [a3]; exact h1, x, by rw [a2]; exact hx, h4⟩
    · right
      have hs := (ok.seen _ ok.src).1
      obtain ⟨F, hF, hpre⟩ := hs.log
      have hk := hs.kept
      have hone := hF.one
      have hlen := hF.len
      have hple := hpre.length_le
      have hold : w.src.log.oldestIdx = w.src.log.oldest := by
        unfold Log.oldestIdx
        rw [if_neg (by omega)]
      have hg : Going c.z st view pb Inv IsKey ({ w with ps := some ⟨w.src.log.oldestIdx, [], false, w.load.id, 0⟩ } : Rep P D E PB)
          ⟨w.src.log.oldestIdx, [], false, w.load.id, 0⟩ (w.src.hist.take (w.src.log.oldest - 1)) := by
        refine ⟨.inl h5, ?_, ?_, ?_, ?_, ?_, .inl h4⟩
        · show Flow view pb IsKey _ w.seen w.src.hist _ w.load.largest w.load.seq w.wire
          rw [h2]
          refine ⟨h6.symm, fun _ => ⟨?_, h5.2.2.1.symm, List.take_prefix _ _, .inl h5.2.2.1⟩⟩
          rw [List.length_take]
          show w.src.log.oldestIdx = _
          omega
        · intro _
          show match w.wire with | [] => w.src.log.oldestIdx ≤ w.src.hist.length | x :: _ => x.1.entries ≠ []
          rw [h2, hold]; exact hk
        · intro x hx
          rw [show w.acks = [] from h3] at hx; cases hx
        · intro hf; cases hf
        · rintro (⟨x, hx, _⟩ | hx)
          · rw [show w.acks = [] from h3] at hx; cases hx
          · rw [show w.answer = none from h4] at hx; cases hx
      obtain ⟨ps', b1, b2, _⟩ := Going.sendMany hl _ hg hs ok.src rfl (by rw [hold]) h
      exact ⟨by rw [a3]; exact h1, .inr ⟨ps', b2, .inl ⟨_, b1⟩⟩⟩
    · rw [hp] at h3; cases h3
  | deliver i x w' hx h =>
    unfold Rep.deliver at h
    rcases ok.state with ⟨d, lim, log, m, h1, h2⟩ | ⟨h1, ⟨_, h2, _⟩ | ⟨ps, h3, h4⟩⟩
    · rw [h1] at h
      cases h
      exact ⟨ok.src, ok.seen, .inl ⟨d, lim, log, m, rfl, h2⟩⟩
    · rw [h2] at hx; cases hx
    · rw [h1] at h
      obtain ⟨⟨j, er⟩, k1, h⟩ := Out.bind_eq_ok.mp h
      cases h
      refine ⟨ok.src, ok.seen, .inr ⟨rfl, .inr ⟨ps, h3, ?_⟩⟩⟩
      rw [← h1]
      rcases h4 with ⟨A, hg⟩ | hd
      · exact hg.deliver hl ok.seen hx k1
      · right
        rcases hd with hd | ⟨h5, pre, e, l, post, h6, h7⟩
        · exact .inl hd
        · exact .inr ⟨h5, pre, e, l, post ++ [(er, x.2)], by show w.acks ++ _ = _; rw [h6]; simp, h7⟩
  | ack i x ps w' hi hx hp hk h =>
    have hi0 := hi rfl
    subst hi0
    obtain ⟨t, ht⟩ : ∃ t, w.acks = x :: t := by
      cases hw : w.acks with
      | nil => rw [hw] at hx; cases hx
      | cons y t => rw [hw] at hx; cases hx; exact ⟨t, rfl⟩
    have her : w.acks.eraseIdx 0 = t := by rw [ht]; rfl
    rw [her] at h
    obtain ⟨a1, a2, a3⟩ := callback_keeps h
    refine ⟨by rw [a1, a2]; exact ok.src, by rw [a1, a2]; exact ok.seen, ?_⟩
    rcases ok.state with ⟨d, lim, log, m, h1, y, hy, h4⟩ | ⟨h1, ⟨h2, _⟩ | ⟨ps1, h3, h4⟩⟩
    · exact .inl ⟨d, lim, log, m, by rw [a3]; exact h1, y, by rw [a2]; exact hy, h4⟩
    · rw [h2] at hp; cases hp
    · rw [hp] at h3; cases h3
      right
      refine ⟨by rw [a3]; exact h1, .inr ?_⟩
      rcases h4 with ⟨A, hg⟩ | hd
      · obtain ⟨ps', b1, b2⟩ := hg.ack hl (ok.seen _ ok.src).1 ok.src ht hp (hk rfl) h
        exact ⟨ps', b1, .inl ⟨A, b2⟩⟩
      · have : Doomed w' ∧ (∃ ps', w'.ps = some ps') ∧ w'.src = w.src ∧ w'.seen = w.seen ∧ w'.replica = w.replica := by
          refine Doomed.callback (w := { w with acks := t }) ?_ hp h
          rcases hd with hd | ⟨h5, pre, e, l, post, h6, h7⟩
          · exact .inl hd
          · refine .inr ⟨h5, ?_⟩
            rw [ht] at h6
            cases pre with
            | nil =>
              simp only [List.nil_append, List.cons.injEq] at h6
              exact .inl ⟨e, by rw [h6.1]⟩
            | cons y pre =>
              simp only [List.cons_append, List.cons.injEq] at h6
              refine .inr ⟨?_, pre, e, l, post, h6.2, fun z hz => h7 z (List.mem_cons_of_mem _ hz)⟩
              rw [h6.1]; exact h7 y List.mem_cons_self
        obtain ⟨b1, ⟨ps', b2⟩, _⟩ := this
        exact ⟨ps', b2, .inr b1⟩
  | lost ps w' last hp h =>
    obtain ⟨a1, a2, a3⟩ := callback_keeps h
    refine ⟨by rw [a1, a2]; exact ok.src, by rw [a1, a2]; exact ok.seen, ?_⟩
    rcases ok.state with ⟨d, lim, log, m, h1, y, hy, h4⟩ | ⟨h1, ⟨h2, _⟩ | ⟨ps1, h3, h4⟩⟩
    · exact .inl ⟨d, lim, log, m, by rw [a3]; exact h1, y, by rw [a2]; exact hy, h4⟩
    · rw [h2] at hp; cases hp
    · rw [hp] at h3; cases h3
      right
      refine ⟨by rw [a3]; exact h1, .inr ?_⟩
      cases ha : w.answer with
      | some o =>
        unfold Rep.callback at h
        rw [ha] at h
        cases h
        exact ⟨ps, hp, h4⟩
      | none =>
        obtain ⟨b1, ⟨ps', b2⟩, _⟩ := Doomed.callback (.inr ⟨ha, .inl ⟨_, rfl⟩⟩) hp h
        exact ⟨ps', b2, .inr b1⟩
  | promote h hr =>
    refine ⟨ok.src, ok.seen, ?_⟩
    rcases ok.state with ⟨d, lim, log, m, h1, _⟩ | ⟨h1, ⟨_, _, _, h2, _⟩ | ⟨ps1, h3, ⟨A, hg⟩ | hd⟩⟩
    · rw [hr] at h1; cases h1
    · rw [h] at h2; cases h2
    · obtain ⟨_, _, s, hs, hgot⟩ := hg.last (.inr h)
      exact .inl ⟨_, _, _, _, rfl, s, hs, hgot⟩
    · exfalso
      rcases hd with ⟨e, he⟩ | ⟨h5, _⟩
      · rw [h] at he; cases he
      · rw [h] at h5; cases h5

theorem Rep.Run.ok {c : RepCfg P PB} (hl : Lawful st view pb Inv IsKey) {w : Rep P D E PB} (h : Rep.Run ⟨true, true⟩ c st w) :
    RepOk c.z st view pb Inv IsKey w := by
  induction h with
  | start s hs max id m l =>
    refine ⟨List.mem_cons_self, ?_, .inr ⟨rfl, .inl ⟨rfl, rfl, rfl, rfl, ⟨rfl, rfl, rfl, rfl⟩, rfl⟩⟩⟩
    intro x hx
    rw [List.mem_singleton.mp hx]
    exact ⟨hs, List.prefix_rfl⟩
  | next _ k ih => exact ih.next hl k

end Svr.Core
