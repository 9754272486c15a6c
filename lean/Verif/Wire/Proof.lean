import Verif.Wire

/-! # Facts about the wire format -/

namespace Svr.Wire

open Svr.Raft Svr.Raft.Node

/-! ## Numbers -/

theorem readVarint_go : ∀ (k n : Nat) (r : Bytes), n ≤ k → ∃ c, readVarint (varintGo k n ++ r) = some (n, c, r) ∧ 1 ≤ c ∧
    (∀ d, n < 128 ^ (d + 1) → c ≤ d + 1) := by
  intro k
  induction k with
  | zero =>
    intro n r h
    obtain rfl : n = 0 := by omega
    exact ⟨1, by simp [varintGo, readVarint], by omega, fun d _ => by omega⟩
  | succ k ih =>
    intro n r h
    rw [varintGo]
    by_cases hn : n < 128
    · rw [if_pos hn]
      refine ⟨1, ?_, by omega, fun d _ => by omega⟩
      have : (UInt8.ofNat n).toNat = n := by simp; omega
      simp [readVarint, this, hn]
    · rw [if_neg hn]
      obtain ⟨c, hc, h1, hd⟩ := ih (n / 128) r (by omega)
      refine ⟨c + 1, ?_, by omega, ?_⟩
      · have : (UInt8.ofNat (n % 128 + 128)).toNat = n % 128 + 128 := by simp; omega
        rw [List.cons_append, readVarint, this, if_neg (by omega), hc]
        simp only [Option.some.injEq, Prod.mk.injEq, and_true]
        omega
      · intro d hlt
        cases d with
        | zero => omega
        | succ d =>
          have := hd d (by
            rw [Nat.div_lt_iff_lt_mul (by omega)]
            calc n < 128 ^ (d + 1 + 1) := hlt
              _ = 128 ^ (d + 1) * 128 := by rw [Nat.pow_succ])
          omega

theorem readVarint_varint (n : Nat) (r : Bytes) : ∃ c, readVarint (varint n ++ r) = some (n, c, r) ∧ 1 ≤ c ∧
    (∀ d, n < 128 ^ (d + 1) → c ≤ d + 1) := readVarint_go n n r (Nat.le_refl _)

theorem varint_ne_nil (n : Nat) : varint n ≠ [] := by
  intro h
  obtain ⟨c, hc, _⟩ := readVarint_varint n []
  rw [h] at hc
  simp [readVarint] at hc

/-! ## Fields -/

/-- What a field has to be for the encoding to be read back: a number, and with limits small values. -/
def Fits (lim : Bool) (x : Nat × Raw) : Prop :=
  0 < x.1 ∧ (lim = true → x.1 < 2 ^ 29) ∧
  match x.2 with
  | .num n => lim = true → n < 2 ^ 64
  | .fix64 b => b.length = 8
  | .len b => lim = true → b.length ≤ maxLen
  | .fix32 b => b.length = 4

theorem readRaw_num {lim : Bool} {n : Nat} (h : lim = true → n < 2 ^ 64) (r : Bytes) :
    readRaw lim 0 (varint n ++ r) = some (.num n, r) := by
  obtain ⟨c, hc, _, hd⟩ := readVarint_varint n r
  simp only [readRaw, hc, if_pos]
  cases lim with
  | false => simp
  | true =>
    have h := h rfl
    have : c ≤ 10 := hd 9 (by omega)
    rw [if_pos rfl, if_pos this, Nat.mod_eq_of_lt h]

theorem readRaw_len {lim : Bool} {b : Bytes} (h : lim = true → b.length ≤ maxLen) (r : Bytes) :
    readRaw lim 2 (varint b.length ++ b ++ r) = some (.len b, r) := by
  obtain ⟨c, hc, _, hd⟩ := readVarint_varint b.length (b ++ r)
  rw [List.append_assoc]
  have hb : ¬(lim = true ∧ (5 < c ∨ maxLen < b.length)) := by
    rintro ⟨hl, hx⟩
    have h := h hl
    have : c ≤ 5 := hd 4 (by unfold maxLen at h; omega)
    omega
  simp [readRaw, hc, hb]

theorem splitGo_enc {lim : Bool} : ∀ (fs : Fields) (k : Nat), fs.length < k → (∀ x ∈ fs, Fits lim x) → splitGo lim k (enc fs) = some fs := by
  intro fs
  induction fs with
  | nil =>
    intro k hk _
    obtain ⟨k, rfl⟩ : ∃ j, k = j + 1 := ⟨k - 1, by simp at hk; omega⟩
    simp [splitGo, enc]
  | cons x fs ih =>
    intro k hk hx
    obtain ⟨k, rfl⟩ : ∃ j, k = j + 1 := ⟨k - 1, by simp at hk; omega⟩
    have ih := ih k (by simp at hk; omega) fun y hy => hx y (List.mem_cons_of_mem _ hy)
    obtain ⟨h0, h29, hf⟩ := hx x List.mem_cons_self
    have he : enc (x :: fs) = field x ++ enc fs := rfl
    obtain ⟨f, w⟩ := x
    simp only at h0 h29 hf
    have key : ∀ (wt : Nat) (pay : Bytes), wt < 8 → enc ((f, w) :: fs) = varint (8 * f + wt) ++ (pay ++ enc fs) →
        readRaw lim wt (pay ++ enc fs) = some (w, enc fs) → splitGo lim (k + 1) (enc ((f, w) :: fs)) = some ((f, w) :: fs) := by
      intro wt pay hwt e1 e2
      rw [e1, splitGo]
      obtain ⟨c, hc, _, hd⟩ := readVarint_varint (8 * f + wt) (pay ++ enc fs)
      rw [if_neg (by simp [varint_ne_nil]), hc]
      have hdiv : (8 * f + wt) / 8 = f := by omega
      have hmod : (8 * f + wt) % 8 = wt := by omega
      have hno : ¬((8 * f + wt) / 8 = 0 ∨ lim = true ∧ (5 < c ∨ 2 ^ 32 ≤ 8 * f + wt)) := by
        rw [hdiv]
        rintro (h | ⟨hl, h⟩)
        · omega
        · have := h29 hl
          have : c ≤ 5 := hd 4 (by omega)
          omega
      simp only [hno, if_false, hmod, e2, ih]
      rw [hdiv]
    cases w with
    | num n => exact key 0 (varint n) (by omega) (by rw [he, field]; simp) (readRaw_num hf _)
    | fix64 b =>
      refine key 1 b (by omega) (by rw [he, field]; simp) ?_
      simp only at hf
      simp [readRaw, ← hf]
    | len b =>
      refine key 2 (varint b.length ++ b) (by omega) (by rw [he, field]; simp) (readRaw_len hf _)
    | fix32 b =>
      refine key 5 b (by omega) (by rw [he, field]; simp) ?_
      simp only at hf
      simp [readRaw, ← hf]

theorem one_le_field (x : Nat × Raw) : 1 ≤ (field x).length := by
  obtain ⟨f, w⟩ := x
  have h : ∀ n, 1 ≤ (varint n).length := fun n => by
    have := varint_ne_nil n
    exact List.length_pos_iff.2 this
  cases w <;> simp only [field, List.length_append]
  · have := h (8 * f); omega
  · have := h (8 * f + 1); omega
  · have := h (8 * f + 2); omega
  · have := h (8 * f + 5); omega

theorem length_le_enc : ∀ fs : Fields, fs.length ≤ (enc fs).length
  | [] => by simp [enc]
  | x :: fs => by
    have := length_le_enc fs
    have h1 := one_le_field x
    have he : enc (x :: fs) = field x ++ enc fs := rfl
    rw [he, List.length_append, List.length_cons]
    omega

/-- Fields are read back as they were written. -/
theorem split_enc {lim : Bool} {fs : Fields} (h : ∀ x ∈ fs, Fits lim x) : split lim (enc fs) = some fs :=
  splitGo_enc fs _ (by have := length_le_enc fs; omega) h

/-- What a field holds is not longer than the fields. -/
theorem len_le_enc {f : Nat} {b : Bytes} : ∀ {fs : Fields}, (f, Raw.len b) ∈ fs → b.length ≤ (enc fs).length
  | x :: fs, h => by
    have he : enc (x :: fs) = field x ++ enc fs := rfl
    rw [he, List.length_append]
    rcases List.mem_cons.1 h with h | h
    · subst h
      simp only [field, List.length_append]
      omega
    · have := len_le_enc h
      omega

/-! ## Fields with defaults -/

theorem foldlM_fNum {α : Type} {st : α → Nat × Raw → Option α} {f n : Nat} {a a' : α} (h : n ≠ 0 → st a (f, .num n) = some a')
    (h0 : n = 0 → a = a') : (fNum f n).foldlM st a = some a' := by
  unfold fNum
  split
  · rename_i hn; simp [h0 hn]
  · rename_i hn; simp [h hn]

theorem foldlM_fBytes {α : Type} {st : α → Nat × Raw → Option α} {f : Nat} {b : Bytes} {a a' : α} (h : b ≠ [] → st a (f, .len b) = some a')
    (h0 : b = [] → a = a') : (fBytes f b).foldlM st a = some a' := by
  unfold fBytes
  split
  · rename_i hn; simp [h0 hn]
  · rename_i hn; simp [h hn]

theorem foldl_fNum {α : Type} {st : α → Nat × Raw → α} {f n : Nat} {a a' : α} (h : n ≠ 0 → st a (f, .num n) = a')
    (h0 : n = 0 → a = a') : (fNum f n).foldl st a = a' := by
  unfold fNum
  split
  · rename_i hn; simp [h0 hn]
  · rename_i hn; simp [h hn]

theorem foldl_fBytes {α : Type} {st : α → Nat × Raw → α} {f : Nat} {b : Bytes} {a a' : α} (h : b ≠ [] → st a (f, .len b) = a')
    (h0 : b = [] → a = a') : (fBytes f b).foldl st a = a' := by
  unfold fBytes
  split
  · rename_i hn; simp [h0 hn]
  · rename_i hn; simp [h hn]

theorem foldl_fBool {α : Type} {st : α → Nat × Raw → α} {f : Nat} {b : Bool} {a a' : α} (h : b = true → st a (f, .num 1) = a')
    (h0 : b = false → a = a') : (fBool f b).foldl st a = a' := by
  cases b
  · simp [fBool, h0]
  · simp [fBool, h]

theorem fits_fNum {lim : Bool} {f n : Nat} (h0 : 0 < f) (h1 : f < 2 ^ 29) (hn : lim = true → n < 2 ^ 64) : ∀ x ∈ fNum f n, Fits lim x := by
  intro x hx
  unfold fNum at hx
  split at hx
  · cases hx
  · obtain rfl := List.mem_singleton.1 hx
    exact ⟨h0, fun _ => h1, hn⟩

theorem fits_fBool {lim : Bool} {f : Nat} {b : Bool} (h0 : 0 < f) (h1 : f < 2 ^ 29) : ∀ x ∈ fBool f b, Fits lim x := by
  intro x hx
  cases b with
  | false => cases hx
  | true =>
    obtain rfl := List.mem_singleton.1 hx
    exact ⟨h0, fun _ => h1, fun _ => by omega⟩

theorem fits_fBytes {lim : Bool} {f : Nat} {b : Bytes} (h0 : 0 < f) (h1 : f < 2 ^ 29) (hb : lim = true → b.length ≤ maxLen) :
    ∀ x ∈ fBytes f b, Fits lim x := by
  intro x hx
  unfold fBytes at hx
  split at hx
  · cases hx
  · obtain rfl := List.mem_singleton.1 hx
    exact ⟨h0, fun _ => h1, hb⟩

theorem fits_len {lim : Bool} {f : Nat} {b : Bytes} (h0 : 0 < f) (h1 : f < 2 ^ 29) (hb : lim = true → b.length ≤ maxLen) : Fits lim (f, .len b) :=
  ⟨h0, fun _ => h1, hb⟩

theorem fBytes_le {f : Nat} {b : Bytes} {fs : Fields} (h : ∀ x ∈ fBytes f b, x ∈ fs) : b.length ≤ (enc fs).length := by
  by_cases hb : b = []
  · simp [hb]
  · exact len_le_enc (f := f) (h _ (by simp [fBytes, hb]))

/-! ## Messages -/

theorem split_replica {lim : Bool} {r : Bytes × Bool} (h : lim = true → (enc (replicaF r)).length ≤ maxLen) :
    split lim (enc (replicaF r)) = some (replicaF r) := by
  refine split_enc fun x hx => ?_
  have hl : r.1.length ≤ (enc (replicaF r)).length := fBytes_le (f := 1) fun x hx => List.mem_append.2 (.inl hx)
  rcases List.mem_append.1 hx with hx | hx
  · exact fits_fBytes (by omega) (by omega) (fun hl' => by have := h hl'; omega) x hx
  · exact fits_fBool (by omega) (by omega) x hx

theorem replica_fold (r : Bytes × Bool) : (replicaF r).foldl replicaStep ([], false) = r := by
  obtain ⟨p, v⟩ := r
  rw [replicaF, List.foldl_append, foldl_fBytes (a' := (p, false)) (fun _ => rfl) (fun h => by simp_all)]
  exact foldl_fBool (fun h => by simp_all [replicaStep]) (fun h => by simp_all)

theorem split_group {lim : Bool} {g : List (Bytes × Bool)} (h : lim = true → (encGroup g).length ≤ maxLen) : split lim (encGroup g) = some (groupF g) := by
  refine split_enc fun x hx => ?_
  obtain ⟨r, _, rfl⟩ := List.mem_map.1 hx
  exact fits_len (by omega) (by omega) fun hl => Nat.le_trans (len_le_enc hx) (h hl)

theorem group_fold {lim : Bool} : ∀ (g a : List (Bytes × Bool)), (lim = true → (encGroup g).length ≤ maxLen) →
    (groupF g).foldlM (groupStep lim) a = some (a ++ g)
  | [], a, _ => by simp [groupF]
  | r :: g, a, h => by
    have hc : enc (groupF (r :: g)) = field (1, .len (enc (replicaF r))) ++ enc (groupF g) := rfl
    have hr : lim = true → (enc (replicaF r)).length ≤ maxLen := fun hl => Nat.le_trans (len_le_enc (f := 1) (by simp [groupF])) (h hl)
    have hg : lim = true → (encGroup g).length ≤ maxLen := fun hl => by
      have := h hl
      rw [encGroup, hc, List.length_append] at this
      unfold encGroup
      omega
    have := group_fold g (a ++ [r]) hg
    have hs : groupStep lim a (1, .len (enc (replicaF r))) = some (a ++ [r]) := by simp [groupStep, split_replica hr, replica_fold]
    show List.foldlM (groupStep lim) a ((1, .len (enc (replicaF r))) :: groupF g) = _
    rw [List.foldlM_cons, hs]
    simpa using this

theorem decGroup_encGroup {lim : Bool} {g : List (Bytes × Bool)} (h : lim = true → (encGroup g).length ≤ maxLen) : decGroup lim (encGroup g) = some g := by
  simp [decGroup, split_group h, group_fold g [] h]

/-- Numbers that fit their fields. -/
def Small (lim : Bool) (n : Nat) : Prop := lim = true → n < 2 ^ 64

theorem split_entry {lim : Bool} {e : Entry} (ht : Small lim e.term) (h : lim = true → (encEntry e).length ≤ maxLen) :
    split lim (encEntry e) = some (entryF e) := by
  refine split_enc fun x hx => ?_
  have hle : ∀ {f : Nat} {b : Bytes}, (f, Raw.len b) ∈ entryF e → lim = true → b.length ≤ maxLen :=
    fun hm hl => Nat.le_trans (len_le_enc hm) (h hl)
  have hx' := hx
  simp only [entryF, List.mem_append] at hx
  rcases hx with ((hx | hx) | hx) | hx
  · exact fits_fNum (by omega) (by omega) ht x hx
  · cases hi : e.inner <;> simp only [hi] at hx
    · cases hx
    · obtain rfl := List.mem_singleton.1 hx; exact fits_len (by omega) (by omega) (hle hx')
    · obtain rfl := List.mem_singleton.1 hx; exact fits_len (by omega) (by omega) (hle hx')
    · cases hx
  · refine fits_fBytes (by omega) (by omega) (fun hl => Nat.le_trans (fBytes_le (f := 4) fun y hy => ?_) (h hl)) x hx
    simp only [entryF, List.mem_append]
    exact .inl (.inr hy)
  · cases hi : e.inner <;> simp only [hi] at hx
    · cases hx
    · cases hx
    · cases hx
    · obtain rfl := List.mem_singleton.1 hx; exact fits_len (by omega) (by omega) (hle hx')

theorem entry_fold {lim : Bool} {e : Entry} (h : lim = true → (encEntry e).length ≤ maxLen) :
    (entryF e).foldlM (entryStep lim) Entry.dflt = some e := by
  obtain ⟨t, i, hs⟩ := e
  rw [entryF, List.foldlM_append, List.foldlM_append, List.foldlM_append,
    foldlM_fNum (a' := ⟨t, .notSet, []⟩) (fun _ => rfl) (fun h => by simp_all [Entry.dflt])]
  have hb : ∀ i, (fBytes 4 hs).foldlM (entryStep lim) ⟨t, i, []⟩ = some ⟨t, i, hs⟩ := fun i =>
    foldlM_fBytes (fun _ => rfl) (fun h => by simp_all)
  cases i with
  | notSet => simp [hb]
  | data b => simp [entryStep, hb]
  | minimums b => simp [entryStep, hb]
  | membership g =>
    have hg : lim = true → (encGroup g).length ≤ maxLen := fun hl =>
      Nat.le_trans (len_le_enc (f := 3) (by simp [entryF, encGroup])) (h hl)
    have := split_group hg
    rw [encGroup] at this
    simp [entryStep, this, group_fold g [] hg, hb]

theorem decEntry_encEntry {lim : Bool} {e : Entry} (ht : Small lim e.term) (h : lim = true → (encEntry e).length ≤ maxLen) :
    decEntry lim (encEntry e) = some e := by
  simp [decEntry, split_entry ht h, entry_fold h]

/-- The numbers of a message fit their fields. -/
def Narrow (lim : Bool) : Body → Prop
  | .voteReq i t _ => Small lim i ∧ Small lim t
  | .appReq pi pt _ es c a => Small lim pi ∧ Small lim pt ∧ Small lim c ∧ Small lim a ∧ ∀ e ∈ es, Small lim e.term
  | .appResp _ m l a _ => Small lim m ∧ Small lim l ∧ Small lim a
  | _ => True

theorem entries_fold {lim : Bool} : ∀ (es : List Entry) (x : App), (∀ e ∈ es, Small lim e.term) → (∀ e ∈ es, lim = true → (encEntry e).length ≤ maxLen) →
    (es.map fun e => (4, Raw.len (enc (entryF e)))).foldlM (appStep lim) x = some { x with es := x.es ++ es }
  | [], x, _, _ => by simp
  | e :: es, x, ht, hl => by
    have hs := split_entry (ht e List.mem_cons_self) (hl e List.mem_cons_self)
    have hf := entry_fold (hl e List.mem_cons_self)
    rw [encEntry] at hs
    have := entries_fold es { x with es := x.es ++ [e] } (fun d hd => ht d (List.mem_cons_of_mem _ hd)) fun d hd => hl d (List.mem_cons_of_mem _ hd)
    rw [List.map_cons, List.foldlM_cons]
    simp [appStep, hs, hf, this]

theorem msg_body {lim : Bool} {g t : Nat} {b : Body} (hn : Narrow lim b) (h : lim = true → (enc (bodyF b)).length ≤ maxLen) :
    (bodyF b).foldlM (msgStep lim) ⟨g, t, .notSet⟩ = some ⟨g, t, b⟩ := by
  cases b with
  | notSet => simp [bodyF]
  | timeoutNow => simp [bodyF, msgStep]
  | voteReq i u hs =>
    have hl : lim = true → hs.length ≤ maxLen := fun hl => Nat.le_trans (Nat.le_trans
      (fBytes_le (f := 3) (fs := fNum 1 i ++ fNum 2 u ++ fBytes 3 hs) fun x hx => List.mem_append.2 (.inr hx)) (len_le_enc (f := 3) (by simp [bodyF]))) (h hl)
    have : split lim (enc (fNum 1 i ++ fNum 2 u ++ fBytes 3 hs)) = some (fNum 1 i ++ fNum 2 u ++ fBytes 3 hs) := split_enc fun x hx => by
      simp only [List.mem_append] at hx
      rcases hx with (hx | hx) | hx
      · exact fits_fNum (by omega) (by omega) hn.1 x hx
      · exact fits_fNum (by omega) (by omega) hn.2 x hx
      · exact fits_fBytes (by omega) (by omega) hl x hx
    have hf : (fNum 1 i ++ fNum 2 u ++ fBytes 3 hs).foldl voteReqStep (0, 0, []) = (i, u, hs) := by
      rw [List.foldl_append, List.foldl_append, foldl_fNum (f := 1) (a' := (i, 0, [])) (fun _ => rfl) (fun h => by simp_all),
        foldl_fNum (f := 2) (a' := (i, u, [])) (fun _ => rfl) (fun h => by simp_all)]
      exact foldl_fBytes (fun _ => rfl) (fun h => by simp_all)
    simp only [bodyF, List.foldlM_cons, List.foldlM_nil, msgStep, this, hf, Option.map_some]
    rfl
  | voteResp v =>
    have : split lim (enc (fBool 1 v)) = some (fBool 1 v) := split_enc (fits_fBool (by omega) (by omega))
    have hf : (fBool 1 v).foldl voteRespStep false = v := foldl_fBool (fun h => by simp_all [voteRespStep]) (fun h => by simp_all)
    simp only [bodyF, List.foldlM_cons, List.foldlM_nil, msgStep, this, hf, Option.map_some]
    rfl
  | appResp s m l a hs =>
    have hl : lim = true → hs.length ≤ maxLen := fun hl => Nat.le_trans (Nat.le_trans
      (fBytes_le (f := 5) (fs := fBool 1 s ++ fNum 2 m ++ fNum 3 l ++ fNum 4 a ++ fBytes 5 hs) fun x hx => List.mem_append.2 (.inr hx))
      (len_le_enc (f := 6) (by simp [bodyF]))) (h hl)
    have : split lim (enc (fBool 1 s ++ fNum 2 m ++ fNum 3 l ++ fNum 4 a ++ fBytes 5 hs)) =
        some (fBool 1 s ++ fNum 2 m ++ fNum 3 l ++ fNum 4 a ++ fBytes 5 hs) := split_enc fun x hx => by
      simp only [List.mem_append] at hx
      rcases hx with (((hx | hx) | hx) | hx) | hx
      · exact fits_fBool (by omega) (by omega) x hx
      · exact fits_fNum (by omega) (by omega) hn.1 x hx
      · exact fits_fNum (by omega) (by omega) hn.2.1 x hx
      · exact fits_fNum (by omega) (by omega) hn.2.2 x hx
      · exact fits_fBytes (by omega) (by omega) hl x hx
    have hf : (fBool 1 s ++ fNum 2 m ++ fNum 3 l ++ fNum 4 a ++ fBytes 5 hs).foldl ackStep {} = ⟨s, m, l, a, hs⟩ := by
      rw [List.foldl_append, List.foldl_append, List.foldl_append, List.foldl_append,
        foldl_fBool (a' := ⟨s, 0, 0, 0, []⟩) (fun h => by simp_all [ackStep]) (fun h => by simp_all),
        foldl_fNum (f := 2) (a' := ⟨s, m, 0, 0, []⟩) (fun _ => rfl) (fun h => by simp_all),
        foldl_fNum (f := 3) (a' := ⟨s, m, l, 0, []⟩) (fun _ => rfl) (fun h => by simp_all),
        foldl_fNum (f := 4) (a' := ⟨s, m, l, a, []⟩) (fun _ => rfl) (fun h => by simp_all)]
      exact foldl_fBytes (fun _ => rfl) (fun h => by simp_all)
    simp only [bodyF, List.foldlM_cons, List.foldlM_nil, msgStep, this, hf, Option.map_some]
    rfl
  | appReq pi pt ph es c a =>
    obtain ⟨h1, h2, h3, h4, h5⟩ := hn
    let fs : Fields := fNum 1 pi ++ fNum 2 pt ++ fNum 3 c ++ es.map (fun e => (4, .len (enc (entryF e)))) ++ fNum 5 a ++ fBytes 6 ph
    have hfs : lim = true → (enc fs).length ≤ maxLen := fun hl => Nat.le_trans (len_le_enc (f := 5) (by simp [bodyF, fs])) (h hl)
    have hl : lim = true → ph.length ≤ maxLen := fun hl => Nat.le_trans
      (fBytes_le (f := 6) (fs := fs) fun x hx => List.mem_append.2 (.inr hx)) (hfs hl)
    have hes : ∀ e ∈ es, lim = true → (encEntry e).length ≤ maxLen := fun e he hl =>
      Nat.le_trans (len_le_enc (f := 4) (fs := fs) (by
        simp only [fs, List.mem_append]
        exact .inl (.inl (.inr (List.mem_map.2 ⟨e, he, rfl⟩))))) (hfs hl)
    have : split lim (enc fs) = some fs := split_enc fun x hx => by
      simp only [fs, List.mem_append] at hx
      rcases hx with ((((hx | hx) | hx) | hx) | hx) | hx
      · exact fits_fNum (by omega) (by omega) h1 x hx
      · exact fits_fNum (by omega) (by omega) h2 x hx
      · exact fits_fNum (by omega) (by omega) h3 x hx
      · obtain ⟨e, he, rfl⟩ := List.mem_map.1 hx
        exact fits_len (by omega) (by omega) (hes e he)
      · exact fits_fNum (by omega) (by omega) h4 x hx
      · exact fits_fBytes (by omega) (by omega) hl x hx
    have hf : fs.foldlM (appStep lim) {} = some ⟨pi, pt, ph, es, c, a⟩ := by
      simp only [fs, List.foldlM_append]
      rw [foldlM_fNum (a' := ({ pi := pi } : App)) (fun _ => rfl) (fun h => by simp_all)]
      simp only [Option.bind_eq_bind, Option.bind_some]
      rw [foldlM_fNum (a' := ({ pi := pi, pt := pt } : App)) (fun _ => rfl) (fun h => by simp_all)]
      simp only [Option.bind_some]
      rw [foldlM_fNum (a' := ({ pi := pi, pt := pt, c := c } : App)) (fun _ => rfl) (fun h => by simp_all)]
      simp only [Option.bind_some]
      rw [entries_fold es _ h5 hes]
      simp only [Option.bind_some, List.nil_append]
      rw [foldlM_fNum (a' := ({ pi := pi, pt := pt, c := c, es := es, a := a } : App)) (fun _ => rfl) (fun h => by simp_all)]
      simp only [Option.bind_some]
      exact foldlM_fBytes (fun _ => rfl) (fun h => by simp_all)
    have hb : bodyF (.appReq pi pt ph es c a) = [(5, .len (enc fs))] := rfl
    simp only [hb, List.foldlM_cons, List.foldlM_nil, msgStep, this, hf, Option.map_some, Option.bind_some]
    rfl

theorem enc_append (a b : Fields) : enc (a ++ b) = enc a ++ enc b := by simp [enc]

theorem msgF_fits {lim : Bool} {m : Msg} (hg : Small lim m.group) (ht : Small lim m.term)
    (h : lim = true → (encMsg m).length ≤ maxLen) : ∀ x ∈ msgF m, Fits lim x := by
  obtain ⟨g, t, b⟩ := m
  have hB : lim = true → (enc (bodyF b)).length ≤ maxLen := fun hl => by
    have := h hl
    rw [encMsg, msgF, enc_append, List.length_append] at this
    simp only at this
    omega
  intro x hx
  simp only [msgF, List.mem_append] at hx
  rcases hx with (hx | hx) | hx
  · exact fits_fNum (by omega) (by omega) hg x hx
  · exact fits_fNum (by omega) (by omega) ht x hx
  · have hle : ∀ {f : Nat} {y : Bytes}, (f, Raw.len y) ∈ bodyF b → lim = true → y.length ≤ maxLen :=
      fun hm hl => Nat.le_trans (len_le_enc hm) (hB hl)
    have hx' := hx
    cases b <;> simp only [bodyF] at hx
    all_goals first
      | (cases hx; done)
      | (obtain rfl := List.mem_singleton.1 hx; exact fits_len (by omega) (by omega) (hle hx'))
      | (obtain rfl := List.mem_singleton.1 hx; exact ⟨by simp, fun _ => by simp, fun _ => by simp⟩)

theorem decMsg_encMsg {lim : Bool} {m : Msg} (hg : Small lim m.group) (ht : Small lim m.term) (hb : Narrow lim m.body)
    (h : lim = true → (encMsg m).length ≤ maxLen) : decMsg lim (encMsg m) = some m := by
  have hs : split lim (encMsg m) = some (msgF m) := split_enc (msgF_fits hg ht h)
  obtain ⟨g, t, b⟩ := m
  have hB : lim = true → (enc (bodyF b)).length ≤ maxLen := fun hl => by
    have := h hl
    rw [encMsg, msgF, enc_append, List.length_append] at this
    simp only at this
    omega
  rw [decMsg, hs, Option.bind_some, msgF, List.foldlM_append, List.foldlM_append,
    foldlM_fNum (a' := (⟨g, 0, .notSet⟩ : Msg)) (fun _ => rfl) (fun h => by simp_all)]
  simp only [Option.bind_eq_bind, Option.bind_some]
  rw [foldlM_fNum (a' := (⟨g, t, .notSet⟩ : Msg)) (fun _ => rfl) (fun h => by simp_all)]
  exact msg_body hb hB

end Svr.Wire
