import Verif.Core.Replicate
import Verif.Raft.Shape

/-!
# Facts about replication: what a push contains and what the joiner makes of it
-/

namespace Svr.Core
open Raft (Entry Inner Log Sizes LogErr MemErr Membership fromProto LogOf)
variable {P : Type} [LinearOrder P] {D L E PB V : Type}

/-- What replication needs of a database. Proved for each of the four in `Props/Replicate.lean`. `view` is the content as a map from
keys, `Inv` holds of every database that is reached. -/
structure Lawful (st : Store D L E PB) (view : D → OMap Bytes V) (pb : Bytes → V → PB) (Inv : D → Prop) (IsKey : Bytes → Prop) :
    Prop where
  fresh_inv : Inv st.fresh
  fresh_view : view st.fresh = OMap.empty
  inj : ∀ d d', Inv d → Inv d' → view d = view d' → d = d'
  key_ne : ∀ k, IsKey k → k ≠ []
  keys : ∀ d k v, Inv d → (view d).find k = some v → IsKey k
  valid_key : ∀ l, st.valid l = true → IsKey (st.key l)
  empty : ∀ l, st.parse [] = some l → st.valid l = false
  run_inv : ∀ d l d' r, Inv d → st.valid l = true → st.run d l = .ok (d', r) → Inv d'
  run_else : ∀ d l d' r, Inv d → st.valid l = true → st.run d l = .ok (d', r) → ∀ k, k ≠ st.key l → (view d').find k = (view d).find k
  run_same : ∀ d1 d2 l d1' r, Inv d1 → Inv d2 → st.valid l = true → (view d2).find (st.key l) = (view d1).find (st.key l) →
    st.run d1 l = .ok (d1', r) → ∃ d2', st.run d2 l = .ok (d2', r) ∧ (view d2').find (st.key l) = (view d1').find (st.key l)
  emit : ∀ d k n, Inv d → (k = [] ∨ IsKey k) → st.rows d k n =
    .ok (some (lastKeyOf ((rowsAfter (view d) k).take n), ((rowsAfter (view d) k).take n).map fun p => pb p.1 p.2))
  load : ∀ d1 d c, Inv d1 → Inv d → c ≠ [] → (∀ p ∈ c, p ∈ (view d).list) → c.Pairwise (fun a b => a.1 < b.1) →
    (∀ p ∈ (view d1).list, ∀ q ∈ c, p.1 < q.1) →
    ∃ d2, Inv d2 ∧ (view d2).list = (view d1).list ++ c ∧ st.load d1 (c.map fun p => pb p.1 p.2) = .ok (d2, some (lastKeyOf c))

/-! ### What is sent -/

theorem gather_spec (z : Sizes) (applied chunk : Nat) : ∀ (T : List Entry) (idx size : Nat),
    ∃ m, (gather z applied chunk T idx size).1 = T.take m ∧ m ≤ T.length ∧ (m = 0 ∨ idx + m ≤ applied + 1) ∧
      ((gather z applied chunk T idx size).2 = true → m = T.length ∨ applied < idx + m) ∧
      (m = 0 → T = [] ∨ applied < idx)
  | [], idx, size => ⟨0, by simp [gather]⟩
  | e :: t, idx, size => by
    by_cases h1 : idx > applied
    · exact ⟨0, by simp [gather, h1], by simp, .inl rfl, fun _ => .inr (by omega), fun _ => .inr h1⟩
    · by_cases h2 : size + (z.bytes e + 1) ≥ chunk
      · exact ⟨1, by simp [gather, h1, h2], by simp, .inr (by omega), by simp [gather, h1, h2], by omega⟩
      · obtain ⟨m, a, b, c, d, _⟩ := gather_spec z applied chunk t (idx + 1) (size + (z.bytes e + 1))
        refine ⟨m + 1, by simp [gather, h1, h2, a], by simpa using b, .inr (by omega), ?_, by omega⟩
        intro h
        simp only [gather, h1, h2, if_false] at h
        rcases d h with h | h
        · exact .inl (by simp [h])
        · exact .inr (by omega)

/-- Push `p` shows the member's state `s`: `lo` is the cursor before, `hi` after. -/
structure Sent (view : D → OMap Bytes V) (pb : Bytes → V → PB) (s : Src P D) (p : Push P PB) (last : Bool) (lo hi : Bytes) : Prop where
  one : 1 ≤ p.first
  len : p.first - 1 + p.entries.length ≤ s.hist.length
  entries : p.entries = (s.hist.drop (p.first - 1)).take p.entries.length
  some : p.first ≤ s.hist.length → p.entries ≠ []
  mem : p.mem = .some s.mem.asProto
  limits : p.limits = s.limits
  rows : ∃ c, p.rows = (c.map fun x => pb x.1 x.2) ∧ c <+: rowsAfter (view s.db) lo ∧ hi = (if c = [] then lo else lastKeyOf c) ∧
    ((c ≠ [] ∨ last = true) → p.first - 1 + p.entries.length = s.hist.length) ∧ (last = true → c = rowsAfter (view s.db) lo)

variable {st : Store D L E PB} {view : D → OMap Bytes V} {pb : Bytes → V → PB} {Inv : D → Prop} {IsKey : Bytes → Prop}

theorem Serial.inv (hl : Lawful st view pb Inv IsKey) {d d' : D} {H : List Entry} {rs} (h : Spec.Serial st.toProto d H d' rs)
    (hi : Inv d) : Inv d' := by
  induction h with
  | done => exact hi
  | skip _ _ _ _ _ _ _ ih => exact ih hi
  | run d e l d1 r H d' rs h hr _ ih =>
    refine ih (hl.run_inv _ _ _ _ hi ?_ hr)
    unfold Spec.request at h
    split at h
    · rw [Option.filter_eq_some_iff] at h; exact h.2
    · cases h

theorem Src.Ok.inv (hl : Lawful st view pb Inv IsKey) {s : Src P D} (h : s.Ok st) : Inv s.db := by
  obtain ⟨rs, h⟩ := h.db
  exact Serial.inv hl h hl.fresh_inv

theorem lastKeyOf_mem {c : List (Bytes × V)} (h : c ≠ []) : ∃ v, (lastKeyOf c, v) ∈ c := by
  unfold lastKeyOf
  rw [List.getLast?_eq_some_getLast h]
  exact ⟨(c.getLast h).2, List.getLast_mem h⟩

theorem mem_rowsAfter {m : OMap Bytes V} (hk : ∀ p ∈ m.list, p.1 ≠ []) {lo : Bytes} {p : Bytes × V} :
    p ∈ rowsAfter m lo ↔ p ∈ m.list ∧ lo < p.1 := by
  unfold rowsAfter
  cases lo with
  | nil =>
    simp only [List.isEmpty_nil, if_true]
    refine ⟨fun h => ⟨h, ?_⟩, fun h => h.1⟩
    have := hk p h
    cases hp : p.1 with
    | nil => exact absurd hp this
    | cons a t => exact List.nil_lt_cons a t
  | cons a t =>
    simp only [List.isEmpty_cons, Bool.false_eq_true, if_false]
    exact OMap.mem_upperBound

theorem rowsAfter_sorted (m : OMap Bytes V) (lo : Bytes) : (rowsAfter m lo).Pairwise (fun a b => a.1 < b.1) := by
  unfold rowsAfter
  split
  · exact m.sorted
  · exact m.sorted.sublist (List.dropWhile_sublist _)

theorem drop_take_eq {α : Type} {F H : List α} {i m : Nat} (h : H <+: F) (hm : i + m ≤ H.length) :
    (F.drop i).take m = (H.drop i).take m := by
  obtain ⟨t, rfl⟩ := h
  by_cases hi : i ≤ H.length
  · rw [List.drop_append_of_le_length hi, List.take_append_of_le_length (by rw [List.length_drop]; omega)]
  · have : m = 0 := by omega
    subst this; simp

/-- `SendNextReplicationState` does not fail, and the push shows the member's state. -/
theorem sendNext_spec (hl : Lawful st view pb Inv IsKey) {c : RepCfg P PB} {s : Src P D} (hs : s.Ok st) {ps : PushState}
    (hf : ps.finished = false) (hlo : s.log.oldest ≤ ps.logsFrom) (hhi : ps.logsFrom ≤ s.hist.length + 1)
    (hk : ps.dbFrom = [] ∨ IsKey ps.dbFrom) :
    ∃ ps' p hi, sendNext c st s ps = .ok (ps', .ok p) ∧ Sent view pb s p ps'.finished ps.dbFrom hi ∧ p.id = ps.id ∧ p.seq = ps.seq ∧
      p.first = ps.logsFrom ∧ ps'.id = ps.id ∧ ps'.seq = ps.seq + 1 ∧ ps'.logsFrom = ps.logsFrom + p.entries.length ∧
      (ps'.finished = false → ps'.dbFrom = hi) ∧ (hi = [] ∨ IsKey hi) := by
  obtain ⟨F, hF, hpre⟩ := hs.log
  have hinv := hs.inv hl
  have hkeys : ∀ p ∈ (view s.db).list, p.1 ≠ [] := fun p hp =>
    hl.key_ne _ (hl.keys _ _ _ hinv (OMap.mem_list.mp hp))
  have h1 := hF.one
  have hpos : s.log.pos ps.logsFrom = ps.logsFrom - s.log.oldest := by unfold Log.pos; rw [if_neg (by omega)]
  have hT : s.log.entries.drop (s.log.pos ps.logsFrom) = F.drop (ps.logsFrom - 1) := by
    rw [hpos, hF.eq, List.drop_drop]; congr 1; omega
  have hidx : s.log.oldest + s.log.pos ps.logsFrom = ps.logsFrom := by rw [hpos]; omega
  obtain ⟨m, g1, g2, g3, g4, g5⟩ := gather_spec c.z s.hist.length c.chunk (F.drop (ps.logsFrom - 1)) ps.logsFrom 0
  have hHF := hpre.length_le
  have hlen : ((F.drop (ps.logsFrom - 1)).take m).length = m := by rw [List.length_take]; omega
  have hle : ps.logsFrom - 1 + m ≤ s.hist.length := by omega
  unfold sendNext
  rw [hT, hidx]
  simp only [hf, Bool.not_false, Out.check_true, Out.bind_ok]
  -- the facts about the entries
  have hent : ∀ {q : Push P PB} {last : Bool} {hi : Bytes}, q.first = ps.logsFrom →
      q.entries = (gather c.z s.hist.length c.chunk (F.drop (ps.logsFrom - 1)) ps.logsFrom 0).1 → q.mem = some s.mem.asProto →
      q.limits = s.limits →
      (∃ c, q.rows = (c.map fun x => pb x.1 x.2) ∧ c <+: rowsAfter (view s.db) ps.dbFrom ∧
        hi = (if c = [] then ps.dbFrom else lastKeyOf c) ∧
        ((c ≠ [] ∨ last = true) → ps.logsFrom - 1 + m = s.hist.length) ∧ (last = true → c = rowsAfter (view s.db) ps.dbFrom)) →
      Sent view pb s q last ps.dbFrom hi := by
    intro q last hi e1 e2 e3 e4 e5
    rw [g1] at e2
    refine ⟨by omega, by rw [e2, hlen, e1]; exact hle, ?_, ?_, e3, e4, by rw [e2, hlen, e1]; exact e5⟩
    · rw [e2, hlen, e1]; exact drop_take_eq hpre hle
    · intro h hn
      rw [e2] at hn
      have hm0 : m = 0 := by rw [hn] at hlen; simpa using hlen.symm
      rcases g5 hm0 with h' | h'
      · have := congrArg List.length h'
        simp only [List.length_drop, List.length_nil] at this
        omega
      · omega
  have hat : (gather c.z s.hist.length c.chunk (F.drop (ps.logsFrom - 1)) ps.logsFrom 0).2 = true →
      ps.logsFrom - 1 + m = s.hist.length := by
    intro h
    rcases g4 h with h' | h'
    · rw [List.length_drop] at h'; omega
    · omega
  generalize hg : gather c.z s.hist.length c.chunk (F.drop (ps.logsFrom - 1)) ps.logsFrom 0 = g at hent hat g1
  -- no rows
  have hnone : ∃ ps' p hi, (Out.ok (⟨ps.logsFrom + g.1.length, ps.dbFrom, false, ps.id, ps.seq + 1⟩,
      Except.ok ({ id := ps.id, seq := ps.seq, first := ps.logsFrom, entries := g.1, toEnd := false, rows := [],
                   mem := some s.mem.asProto, limits := s.limits } : Push P PB)) : Out (PushState × Except RepErr (Push P PB))) =
        .ok (ps', .ok p) ∧ Sent view pb s p ps'.finished ps.dbFrom hi ∧ p.id = ps.id ∧ p.seq = ps.seq ∧
      p.first = ps.logsFrom ∧ ps'.id = ps.id ∧ ps'.seq = ps.seq + 1 ∧ ps'.logsFrom = ps.logsFrom + p.entries.length ∧
      (ps'.finished = false → ps'.dbFrom = hi) ∧ (hi = [] ∨ IsKey hi) := by
    refine ⟨_, _, ps.dbFrom, rfl, hent rfl rfl rfl rfl ⟨[], rfl, List.nil_prefix, by simp, by simp, by simp⟩, rfl, rfl, rfl, rfl, rfl, rfl,
      fun _ => rfl, hk⟩
  unfold pushRows
  split
  · rename_i hc
    simp only
    split
    · rename_i hn
      rw [hl.emit _ _ _ hinv hk]
      simp only [Out.bind_ok]
      generalize hcd : (rowsAfter (view s.db) ps.dbFrom).take ((c.chunk - c.size _) / st.maxRow) = ch
      refine ⟨_, _, if ch = [] then ps.dbFrom else lastKeyOf ch, rfl,
        hent rfl rfl rfl rfl ⟨ch, rfl, hcd ▸ List.take_prefix _ _, rfl, fun _ => hat hc.1, ?_⟩, rfl, rfl, rfl, rfl, rfl, rfl, ?_, ?_⟩
      · intro hlast
        simp only [List.length_map, decide_eq_true_eq] at hlast
        rw [← hcd] at hlast ⊢
        rw [List.length_take] at hlast
        rw [List.take_of_length_le (by omega)]
      · intro hlast
        simp only [List.length_map, decide_eq_false_iff_not] at hlast
        rw [if_neg]
        intro h0
        rw [h0] at hlast
        exact hlast (Nat.pos_of_ne_zero hn)
      · by_cases h0 : ch = []
        · rw [if_pos h0]; exact hk
        · rw [if_neg h0]
          obtain ⟨v, hv⟩ := lastKeyOf_mem h0
          have hv' : (lastKeyOf ch, v) ∈ rowsAfter (view s.db) ps.dbFrom := by
            rw [← hcd] at hv ⊢
            exact (List.take_sublist _ _).subset hv
          exact .inr (hl.keys _ _ _ hinv (OMap.mem_list.mp ((mem_rowsAfter hkeys).mp hv').1))
    · exact hnone
  · exact hnone

/-! ### What the joiner makes of it -/

/-- The joiner's rows are those of `d` up to key `k`. -/
def Mirror (mj m : OMap Bytes V) (k : Bytes) : Prop := ∀ x v, mj.find x = some v ↔ x ≤ k ∧ m.find x = some v

/-- The log is a window of `A` up to its end. -/
structure Win (z : Sizes) (l : Log) (A : List Entry) : Prop where
  one : 1 ≤ l.oldest
  le : l.oldest ≤ A.length + 1
  eq : l.entries = A.drop (l.oldest - 1)
  bytes : Log.bytesOf z l.entries ≤ l.curr

theorem Win.append {z : Sizes} {l l' : Log} {A : List Entry} {e : Entry} {t : Nat} (h : Win z l A) (ha : l.append z e t = .ok (l', none)) :
    Win z l' (A ++ [e]) := by
  obtain ⟨k, hk, ho, hd, he, hb, hen⟩ := Log.append_spec h.bytes ha
  have h1 := h.one; have h2 := h.le
  have hlen : l.entries.length = A.length - (l.oldest - 1) := by rw [h.eq, List.length_drop]
  refine ⟨by omega, by simp only [List.length_append, List.length_cons, List.length_nil]; omega, ?_, hb⟩
  rw [he, h.eq, ho, List.drop_drop, List.drop_append_of_le_length (by omega)]
  simp only [if_true]
  congr 2; omega

theorem append_entries_ne {z : Sizes} {l l' : Log} {e : Entry} {t : Nat} (hb : Log.bytesOf z l.entries ≤ l.curr)
    (ha : l.append z e t = .ok (l', none)) : l'.entries ≠ [] := by
  obtain ⟨k, hk, ho, hd, he, hb, hen⟩ := Log.append_spec hb ha
  rw [he]; simp

theorem Win.logOf {z : Sizes} {l : Log} {A : List Entry} (h : Win z l A) (hne : l.entries ≠ []) : LogOf l A :=
  ⟨h.one, h.le, h.eq, fun h => absurd h hne⟩

omit [LinearOrder P] in
/-- One entry. -/
theorem maybeApply_spec (hl : Lawful st view pb Inv IsKey) {j j' : Load P D} {e : Entry} {d d' : D} {rs} (hd : Inv d) (hj : Inv j.db)
    (hm : Mirror (view j.db) (view d) j.largest) (hs : Spec.Serial st.toProto d [e] d' rs) (h : j.maybeApply st e = .ok (j', none)) :
    Inv j'.db ∧ Mirror (view j'.db) (view d') j'.largest ∧ j' = { j with db := j'.db } := by
  -- an entry for a key the joiner has not got
  have hkeep : (∀ l, Spec.request st.toProto e = some l → ¬ st.key l ≤ j.largest) → Mirror (view j.db) (view d') j.largest := by
    intro hno
    cases hs with
    | skip _ _ _ _ _ h k => cases k; exact hm
    | run _ _ l d1 r _ _ _ h hr k =>
      cases k
      have hv : st.valid l = true := by
        unfold Spec.request at h
        split at h
        · rw [Option.filter_eq_some_iff] at h; exact h.2
        · cases h
      intro x v
      rw [hm x v]
      constructor
      · rintro ⟨a, b⟩
        exact ⟨a, by rw [hl.run_else _ _ _ _ hd hv hr x (fun hx => hno l h (hx ▸ a))]; exact b⟩
      · rintro ⟨a, b⟩
        exact ⟨a, by rw [hl.run_else _ _ _ _ hd hv hr x (fun hx => hno l h (hx ▸ a))] at b; exact b⟩
  have hreq : ∀ l, Spec.request st.toProto e = some l → ∃ b, e.inner = .data b ∧ st.parse b = some l ∧ st.valid l = true := by
    intro l h
    unfold Spec.request at h
    split at h
    · rename_i b hb
      rw [Option.filter_eq_some_iff] at h
      exact ⟨b, hb, h.1, h.2⟩
    · cases h
  unfold Load.maybeApply at h
  split at h
  · rename_i b hb
    split at h
    · rename_i h0
      cases h
      refine ⟨hj, hkeep ?_, rfl⟩
      intro l hl' hle
      obtain ⟨b', e1, e2, e3⟩ := hreq l hl'
      rw [hb] at e1; cases e1
      rcases h0 with h0 | h0
      · rw [h0] at hle
        have := hl.key_ne _ (hl.valid_key _ e3)
        cases hk : st.key l with
        | nil => exact this hk
        | cons a t => rw [hk] at hle; exact absurd (List.nil_lt_cons a t) (not_lt.mpr hle)
      · subst h0
        have := hl.empty l e2
        rw [this] at e3; cases e3
    · split at h
      · cases h
      · rename_i l hp
        split at h
        · rename_i h1
          cases h
          refine ⟨hj, hkeep ?_, rfl⟩
          intro l' hl' hle
          obtain ⟨b', e1, e2, e3⟩ := hreq l' hl'
          rw [hb] at e1; cases e1
          rw [hp] at e2; cases e2
          exact absurd h1.1 (not_lt.mpr hle)
        · rename_i h1
          split at h
          · rename_i hv
            have hr : Spec.request st.toProto e = some l := by simp [Spec.request, hb, hp, hv]
            have hle : st.key l ≤ j.largest := by
              by_contra hc
              exact h1 ⟨not_le.mp hc, hl.key_ne _ (hl.valid_key _ hv)⟩
            cases hs with
            | skip _ _ _ _ _ h' k => rw [hr] at h'; cases h'
            | run _ _ l' d1 r _ _ _ h' hrun k =>
              cases k
              rw [hr] at h'; cases h'
              have hfind : (view j.db).find (st.key l) = (view d).find (st.key l) := by
                apply Option.ext
                intro v
                rw [hm (st.key l) v]
                exact ⟨fun h => h.2, fun h => ⟨hle, h⟩⟩
              obtain ⟨d2', k1, k2⟩ := hl.run_same _ _ l _ _ hd hj hv hfind hrun
              rw [k1] at h
              simp only [Out.bind_ok] at h
              cases h
              refine ⟨hl.run_inv _ _ _ _ hj hv k1, ?_, rfl⟩
              intro x v
              show (view d2').find x = some v ↔ _
              by_cases hx : x = st.key l
              · subst hx
                rw [k2]
                exact ⟨fun h => ⟨hle, h⟩, fun h => h.2⟩
              · rw [hl.run_else _ _ _ _ hj hv k1 x hx, hl.run_else _ _ _ _ hd hv hrun x hx]
                exact hm x v
          · cases h
  · rename_i hne
    cases h
    refine ⟨hj, hkeep ?_, rfl⟩
    intro l hl' _
    obtain ⟨b, e1, _⟩ := hreq l hl'
    exact hne b e1

omit [LinearOrder P] in
/-- The loop over entries. -/
theorem entries_spec (hl : Lawful st view pb Inv IsKey) {z : Sizes} : ∀ (es : List Entry) {j j' : Load P D} {d d' : D} {rs}
    {A : List Entry}, Inv d → Inv j.db → Mirror (view j.db) (view d) j.largest → Win z j.log A → Spec.Serial st.toProto d es d' rs →
    j.entries z st es = .ok (j', none) →
    Inv j'.db ∧ Mirror (view j'.db) (view d') j'.largest ∧ Win z j'.log (A ++ es) ∧ j' = { j with db := j'.db, log := j'.log } ∧
      (es ≠ [] → j'.log.entries ≠ [])
  | [], j, j', d, d', rs, A, hd, hj, hm, hw, hs, h => by
    cases h
    cases hs
    exact ⟨hj, hm, by simpa using hw, rfl, by simp⟩
  | e :: es, j, j', d, d', rs, A, hd, hj, hm, hw, hs, h => by
    unfold Load.entries at h
    obtain ⟨⟨log, er⟩, h1, h⟩ := Out.bind_eq_ok.mp h
    simp only at h
    split at h
    · cases h
    · obtain ⟨⟨j1, er1⟩, h2, h⟩ := Out.bind_eq_ok.mp h
      simp only at h
      split at h
      · cases h
      · obtain ⟨d1, r1, r2, s1, s2, rfl⟩ := Spec.Serial.split (H := [e]) hs
        obtain ⟨a1, a2, a3⟩ := maybeApply_spec (j := { j with log := log }) hl hd hj hm s1 h2
        have hlog : j1.log = log := by rw [a3]
        have hlg : j1.largest = j.largest := by rw [a3]
        have hw1 : Win z j1.log (A ++ [e]) := by rw [hlog]; exact hw.append h1
        have hd1 := Serial.inv hl s1 hd
        obtain ⟨b1, b2, b3, b4, b5⟩ := entries_spec hl es (d := d1) hd1 a1 (by simpa using a2) hw1 s2 h
        refine ⟨b1, b2, by simpa using b3, ?_, ?_⟩
        · rw [b4, a3]
        · intro _
          by_cases he : es = []
          · subst he
            cases h
            rw [hlog]
            exact append_entries_ne hw.bytes h1
          · exact b5 he

theorem mirror_load {mj mj' m : OMap Bytes V} {lo : Bytes} {c : List (Bytes × V)} (hk : ∀ p ∈ m.list, p.1 ≠ []) (hm : Mirror mj m lo)
    (hc : c <+: rowsAfter m lo) (hne : c ≠ []) (hl : mj'.list = mj.list ++ c) : Mirror mj' m (lastKeyOf c) ∧ lo < lastKeyOf c := by
  have hlast : lo < lastKeyOf c := by
    obtain ⟨v, hv⟩ := lastKeyOf_mem hne
    exact ((mem_rowsAfter hk).mp (hc.subset hv)).2
  refine ⟨?_, hlast⟩
  obtain ⟨post, hpost⟩ := hc
  have hsort := rowsAfter_sorted m lo
  rw [← hpost] at hsort
  obtain ⟨hs1, _, hs3⟩ := List.pairwise_append.mp hsort
  have hmax : ∀ p ∈ c, p.1 ≤ lastKeyOf c := by
    intro p hp
    have := OMap.pairwise_getLast_le hs1 (q := c.getLast hne) (List.getLast?_eq_some_getLast hne) p hp
    unfold lastKeyOf
    rw [List.getLast?_eq_some_getLast hne]
    exact this
  intro x v
  rw [← OMap.mem_list, hl, List.mem_append, OMap.mem_list, hm x v]
  constructor
  · rintro (⟨a, b⟩ | h)
    · exact ⟨a.trans hlast.le, b⟩
    · refine ⟨hmax _ h, ?_⟩
      have : (x, v) ∈ rowsAfter m lo := by rw [← hpost]; exact List.mem_append_left _ h
      exact OMap.mem_list.mp ((mem_rowsAfter hk).mp this).1
  · rintro ⟨a, b⟩
    by_cases hx : x ≤ lo
    · exact .inl ⟨hx, b⟩
    · right
      have : (x, v) ∈ rowsAfter m lo := (mem_rowsAfter hk).mpr ⟨OMap.mem_list.mpr b, not_le.mp hx⟩
      rw [← hpost] at this
      rcases List.mem_append.mp this with h | h
      · exact h
      · obtain ⟨u, hu⟩ := lastKeyOf_mem hne
        exact absurd (hs3 _ hu _ h) (not_lt.mpr a)

omit [LinearOrder P] in
/-- The rows of a push. -/
theorem rows_spec (hl : Lawful st view pb Inv IsKey) {j j' : Load P D} {d : D} {c : List (Bytes × V)} (hd : Inv d) (hj : Inv j.db)
    (hm : Mirror (view j.db) (view d) j.largest) (hc : c <+: rowsAfter (view d) j.largest)
    (h : j.rows st (c.map fun p => pb p.1 p.2) = .ok (j', none)) :
    Inv j'.db ∧ Mirror (view j'.db) (view d) j'.largest ∧ j'.largest = (if c = [] then j.largest else lastKeyOf c) ∧
      j' = { j with db := j'.db, largest := j'.largest } := by
  have hkeys : ∀ p ∈ (view d).list, p.1 ≠ [] := fun p hp => hl.key_ne _ (hl.keys _ _ _ hd (OMap.mem_list.mp hp))
  unfold Load.rows at h
  by_cases h0 : c = []
  · subst h0
    simp only [List.map_nil, List.length_nil, ne_eq, not_true_eq_false, if_false] at h
    cases h
    exact ⟨hj, hm, by simp, rfl⟩
  · have hsub : ∀ p ∈ c, p ∈ (view d).list ∧ j.largest < p.1 := fun p hp => (mem_rowsAfter hkeys).mp (hc.subset hp)
    obtain ⟨d2, k1, k2, k3⟩ := hl.load j.db d c hj hd h0 (fun p hp => (hsub p hp).1)
      ((rowsAfter_sorted (view d) j.largest).sublist hc.sublist)
      (fun p hp q hq => lt_of_le_of_lt ((hm p.1 p.2).mp (OMap.mem_list.mp hp)).1 (hsub q hq).2)
    obtain ⟨m1, m2⟩ := mirror_load hkeys hm hc h0 k2
    rw [if_pos (by simpa using h0), k3] at h
    simp only [Out.bind_ok] at h
    rw [if_neg (not_le.mpr m2)] at h
    cases h
    exact ⟨k1, m1, by rw [if_neg h0], rfl⟩

end Svr.Core
