import Verif.Raft.Log

/-!
# C23: Raft log storage

The specification is a plain list: the entries appended so far and not cancelled, numbered from `first`.
-/

namespace Svr.Props.RaftLog

open Svr.Raft Svr.Raft.Log

/-- What callers do with a log once it is set up. -/
inductive Op
  | append (e : Entry) (trunc : Nat)
  | cancel (frm : Nat)

def step (z : Sizes) (l : Log) : Op → Out (Log × Option LogErr)
  | .append e t => l.append z e t
  | .cancel i => .ok (l.cancelFrom i)

/-- Run the operations, collecting what each returned. -/
def run (z : Sizes) : Log → List Op → Out (Log × List (Option LogErr))
  | l, [] => .ok (l, [])
  | l, op :: ops => do
    let (l, r) ← step z l op
    let (l, rs) ← run z l ops
    .ok (l, r :: rs)

/-- The history, given what the operations returned: appends add at the end, cancelling cuts the end off, failed
operations change nothing. Nothing is ever dropped from the front. -/
def history (first : Nat) : List Entry → List Op → List (Option LogErr) → List Entry
  | h, .append e _ :: ops, none :: rs => history first (h ++ [e]) ops rs
  | h, .cancel i :: ops, none :: rs => history first (h.take (i - first)) ops rs
  | h, _ :: ops, some _ :: rs => history first h ops rs
  | h, _, _ => h

/-- Callers cancel from an index that is at most the next one, and allow truncation only up to the next index. -/
def InBounds (first : Nat) : List Entry → List Op → List (Option LogErr) → Prop
  | h, .append e t :: ops, none :: rs => t ≤ first + h.length ∧ InBounds first (h ++ [e]) ops rs
  | h, .append _ t :: ops, some _ :: rs => t ≤ first + h.length ∧ InBounds first h ops rs
  | h, .cancel i :: ops, none :: rs => i ≤ first + h.length ∧ InBounds first (h.take (i - first)) ops rs
  | h, .cancel i :: ops, some _ :: rs => i ≤ first + h.length ∧ InBounds first h ops rs
  | _, _, _ => True

def OpInBounds (next : Nat) : Op → Prop
  | .append _ t => t ≤ next
  | .cancel i => i ≤ next

/-- A log whose first entry will have index `first` (`Log::Log`, then `SetNextIdx` when joining). -/
def start (max first : Nat) : Log := ((Log.new max).setNextIdx first).1

/-- The stored window is the end of the history. -/
structure Window (z : Sizes) (mx first : Nat) (h : List Entry) (l : Log) : Prop where
  ge : first ≤ l.oldest
  le : l.oldest ≤ first + h.length
  ents : l.entries = h.drop (l.oldest - first)
  bytes : bytesOf z l.entries ≤ l.curr
  max : l.curr ≤ mx
  mx : l.max = mx

theorem Window.len {z mx first h l} (w : Window z mx first h l) : l.oldest + l.entries.length = first + h.length := by
  have := w.ge; have := w.le
  rw [w.ents, List.length_drop]; omega

theorem step_ok {z : Sizes} {mx first : Nat} {h : List Entry} {l : Log} (w : Window z mx first h l) (op : Op)
    (hb : OpInBounds (first + h.length) op) : ∃ l' r, step z l op = .ok (l', r) := by
  cases op with
  | cancel i => exact ⟨_, _, rfl⟩
  | append e t =>
    simp only [step, append]
    split
    · exact ⟨_, _, rfl⟩
    · split
      · exact ⟨_, _, rfl⟩
      · obtain ⟨⟨l1, b⟩, h1⟩ := makeSpace_total z (memSize z e) t (l.entries.length + 2) l
          (by have := w.len; simp only [OpInBounds] at hb; omega)
        rw [h1]
        simp only [Out.bind_ok]
        split
        · exact ⟨_, _, rfl⟩
        · split <;> exact ⟨_, _, rfl⟩

theorem step_window {z : Sizes} {mx first : Nat} {h : List Entry} {l l' : Log} {op : Op} {r : Option LogErr}
    (w : Window z mx first h l) (hs : step z l op = .ok (l', r)) (hb : OpInBounds (first + h.length) op) :
    Window z mx first (match op, r with
      | .append e _, none => h ++ [e]
      | .cancel i, none => h.take (i - first)
      | _, some _ => h) l' ∧ l.oldest ≤ l'.oldest := by
  have hlen := w.len
  have hge := w.ge
  have hle := w.le
  have dropped : ∀ k, k ≤ l.entries.length → l.entries.drop k = h.drop (l.oldest + k - first) := by
    intro k _
    rw [w.ents, List.drop_drop]; congr 1; omega
  cases op with
  | cancel i =>
    simp only [step, cancelFrom] at hs
    simp only [OpInBounds] at hb
    split at hs
    · simp only [Out.ok.injEq, Prod.mk.injEq] at hs
      obtain ⟨rfl, rfl⟩ := hs
      exact ⟨w, le_refl _⟩
    · rename_i hi
      simp only [Out.ok.injEq, Prod.mk.injEq] at hs
      obtain ⟨rfl, rfl⟩ := hs
      refine ⟨⟨hge, by simp only [List.length_take]; omega, ?_, ?_, w.max, w.mx⟩, le_refl _⟩
      · simp only
        rw [resize_le _ _ (by omega), w.ents, List.drop_take]
        congr 1; omega
      · simp only
        rw [resize_le _ _ (by omega)]
        exact le_trans (bytesOf_take_le _ _ _) w.bytes
  | append e t =>
    simp only [OpInBounds] at hb
    simp only [step, append] at hs
    split at hs
    · simp only [Out.ok.injEq, Prod.mk.injEq] at hs
      obtain ⟨rfl, rfl⟩ := hs
      exact ⟨w, le_refl _⟩
    · split at hs
      · simp only [Out.ok.injEq, Prod.mk.injEq] at hs
        obtain ⟨rfl, rfl⟩ := hs
        exact ⟨w, le_refl _⟩
      · obtain ⟨⟨l1, b⟩, h1, hs⟩ := Out.bind_eq_ok.mp hs
        obtain ⟨k, hk, he, ho, hm, _, hc, hbb, _, hsp⟩ := makeSpace_spec z _ _ _ _ _ _ h1 w.bytes
        have hmax := w.max
        have hmx := w.mx
        have w1 : Window z mx first h l1 :=
          ⟨by omega, by omega, by rw [he, dropped k hk, ho], hbb, by omega, by omega⟩
        simp only at hs
        split at hs
        · simp only [Out.ok.injEq, Prod.mk.injEq] at hs
          obtain ⟨rfl, rfl⟩ := hs
          exact ⟨w1, by omega⟩
        · rename_i hnb
          split at hs
          · simp only [Out.ok.injEq, Prod.mk.injEq] at hs
            obtain ⟨rfl, rfl⟩ := hs
            exact ⟨w1, by omega⟩
          · simp only [Out.ok.injEq, Prod.mk.injEq] at hs
            obtain ⟨rfl, rfl⟩ := hs
            have hb' : b = true := by simpa using hnb
            have := hsp hb'
            refine ⟨⟨by simp only; omega, by simp only [List.length_append]; omega, ?_, ?_, by simp only; omega,
              by simp only; omega⟩, by simp only; omega⟩
            · simp only
              rw [w1.ents, List.drop_append_of_le_length (by have := w1.le; have := w1.ge; omega)]
            · have hbb' := hbb
              simp only [bytesOf, List.map_append, List.sum_append, List.map_cons, List.map_nil, List.sum_cons,
                List.sum_nil] at hbb' ⊢
              omega

theorem run_window {z : Sizes} {mx first : Nat} : ∀ {ops : List Op} {h : List Entry} {l l' : Log}
    {rs : List (Option LogErr)}, Window z mx first h l → run z l ops = .ok (l', rs) → InBounds first h ops rs →
    Window z mx first (history first h ops rs) l' ∧ l.oldest ≤ l'.oldest
  | [], h, l, l', rs, w, hr, _ => by
    simp only [run, Out.ok.injEq, Prod.mk.injEq] at hr
    obtain ⟨rfl, rfl⟩ := hr
    exact ⟨by simpa [history] using w, le_refl _⟩
  | op :: ops, h, l, l', rs, w, hr, hb => by
    obtain ⟨⟨l1, r⟩, h1, hr⟩ := Out.bind_eq_ok.mp hr
    obtain ⟨⟨l2, rs'⟩, h2, hr⟩ := Out.bind_eq_ok.mp hr
    simp only [Out.ok.injEq, Prod.mk.injEq] at hr
    obtain ⟨rfl, rfl⟩ := hr
    cases op <;> cases r <;> simp only [InBounds] at hb <;>
    · obtain ⟨w1, o1⟩ := step_window w h1 hb.1
      simp only at w1
      obtain ⟨w2, o2⟩ := run_window w1 h2 hb.2
      exact ⟨by simpa [history] using w2, le_trans o1 o2⟩

theorem start_window (z : Sizes) (mx first : Nat) : Window z mx first [] (start mx first) :=
  ⟨le_refl _, le_refl _, by simp [start, setNextIdx, Log.new], by simp [start, setNextIdx, Log.new, bytesOf],
    by simp [start, setNextIdx, Log.new], by simp [start, setNextIdx, Log.new]⟩

theorem Window.at? {z mx first h l} (w : Window z mx first h l) (i : Nat) :
    l.at? i = if l.oldest ≤ i then h[i - first]? else none := by
  have := w.ge
  rw [at?_eq]
  by_cases hi : i < l.oldest
  · rw [if_pos hi, if_neg (by omega)]
  · rw [if_neg hi, if_pos (by omega), w.ents, List.getElem?_drop]
    congr 1; omega

/-- C23: after any operations, the log holds exactly the entries of the history from its oldest index on: a lookup
returns the history's entry there, and nothing below the oldest or above the newest index. The next entry gets the
next index of the history (when the log is not empty), and the bytes stored never exceed the limit. -/
theorem C23_window (z : Sizes) (mx first : Nat) (ops : List Op) (l : Log) (rs : List (Option LogErr))
    (hr : run z (start mx first) ops = .ok (l, rs)) (hb : InBounds first [] ops rs) :
    let h := history first [] ops rs
    first ≤ l.oldest ∧ l.oldest ≤ first + h.length ∧
    (∀ i, l.at? i = if l.oldest ≤ i then h[i - first]? else none) ∧
    (∀ i, l.termAt i = match l.at? i with
      | some e => e.term
      | none => 0) ∧
    (l.entries ≠ [] → l.nextIdx = first + h.length ∧ l.oldestIdx = l.oldest) ∧
    (l.entries = [] → l.lastIdx = 0 ∧ l.oldestIdx = 0) ∧
    bytesOf z l.entries ≤ mx := by
  obtain ⟨w, _⟩ := run_window (start_window z mx first) hr hb
  have hlen := w.len
  refine ⟨w.ge, w.le, w.at?, fun i => ?_, fun hne => ?_, fun he => ?_, le_trans w.bytes w.max⟩
  · unfold termAt; cases l.at? i <;> rfl
  · have : l.entries.length ≠ 0 := by simpa using hne
    unfold nextIdx lastIdx oldestIdx
    rw [if_neg this, if_neg this]
    exact ⟨by omega, rfl⟩
  · unfold lastIdx oldestIdx
    rw [he]; simp

/-- C23: one more operation within bounds never meets `front()` of an empty deque, and never brings back an older
index. -/
theorem C23_no_ub (z : Sizes) (mx first : Nat) (ops : List Op) (l : Log) (rs : List (Option LogErr))
    (hr : run z (start mx first) ops = .ok (l, rs)) (hb : InBounds first [] ops rs) (op : Op)
    (ho : OpInBounds (first + (history first [] ops rs).length) op) :
    ∃ l' r, step z l op = .ok (l', r) ∧ l.oldest ≤ l'.oldest := by
  obtain ⟨w, _⟩ := run_window (start_window z mx first) hr hb
  obtain ⟨l', r, hs⟩ := step_ok w op ho
  exact ⟨l', r, hs, (step_window w hs ho).2⟩

/-- C23: appending drops entries only from the front, only below the caller's limit, and only while the byte counter
is over the limit; it reports lack of space only if even that was not enough. Of the four failures, the first two and
the last one are decided by the entry alone. -/
theorem C23_append_drops (z : Sizes) (mx first : Nat) (ops : List Op) (l : Log) (rs : List (Option LogErr))
    (hr : run z (start mx first) ops = .ok (l, rs)) (hb : InBounds first [] ops rs) (e : Entry) (trunc : Nat)
    (l' : Log) (r : Option LogErr) (hs : step z l (.append e trunc) = .ok (l', r)) :
    ∃ k, k ≤ l.entries.length ∧ l'.oldest = l.oldest + k ∧
      l'.entries = l.entries.drop k ++ (if r = none then [e] else []) ∧
      (k ≠ 0 → l'.oldest ≤ trunc) ∧
      (∀ j < k, l.curr - bytesOf z (l.entries.take j) + memSize z e > mx) ∧
      (r = none → e.term ≠ 0 ∧ e.hash.length = 32 ∧ z.bytes e ≤ intMax) ∧
      (r = some .outOfSpace → trunc ≤ l'.oldest ∧ mx < l'.curr + memSize z e) ∧
      (r = some .appendWithoutTerm ↔ e.term = 0) ∧
      (r = some .noHashChain ↔ e.term ≠ 0 ∧ e.hash.length ≠ 32) ∧
      (r = some .tooLarge → intMax < z.bytes e) ∧
      r ≠ some .cancelingBeforeFirst ∧ r ≠ some .setNextOnNonempty := by
  obtain ⟨w, _⟩ := run_window (start_window z mx first) hr hb
  have hmx := w.mx
  simp only [step, append] at hs
  split at hs
  · rename_i h0
    simp only [Out.ok.injEq, Prod.mk.injEq] at hs
    obtain ⟨rfl, rfl⟩ := hs
    exact ⟨0, by omega, rfl, by simp, by simp, by omega, by simp, by simp, by simp [h0], by simp [h0], by simp,
      by simp, by simp⟩
  · rename_i h0
    split at hs
    · rename_i h32
      simp only [Out.ok.injEq, Prod.mk.injEq] at hs
      obtain ⟨rfl, rfl⟩ := hs
      exact ⟨0, by omega, rfl, by simp, by simp, by omega, by simp, by simp, by simp [h0], by simp [h0, h32],
        by simp, by simp, by simp⟩
    · rename_i h32
      have h32' : e.hash.length = 32 := by simpa using h32
      obtain ⟨⟨l1, b⟩, h1, hs⟩ := Out.bind_eq_ok.mp hs
      obtain ⟨k, hk, he, ho, hm, hkt, hc, hbb, hdr, hsp⟩ := makeSpace_spec z _ _ _ _ _ _ h1 w.bytes
      have hdr' : ∀ j < k, l.curr - bytesOf z (l.entries.take j) + memSize z e > mx := by
        intro j hj; have := hdr j hj; omega
      simp only at hs
      split at hs
      · rename_i hb'
        have hbf : b = false := by simpa using hb'
        subst hbf
        have hf := makeSpace_false z _ _ _ _ _ h1 (le_refl _)
        simp only [Out.ok.injEq, Prod.mk.injEq] at hs
        obtain ⟨rfl, rfl⟩ := hs
        refine ⟨k, hk, ho, by simpa using he, fun h => ?_, hdr', by simp, fun _ => ⟨hf.1, by omega⟩, by simp [h0],
          by simp [h32'], by simp, by simp, by simp⟩
        rcases hkt with h' | h' <;> omega
      · split at hs
        · rename_i hl
          simp only [Out.ok.injEq, Prod.mk.injEq] at hs
          obtain ⟨rfl, rfl⟩ := hs
          refine ⟨k, hk, ho, by simpa using he, fun h => ?_, hdr', by simp, by simp, by simp [h0],
            by simp [h32'], by intro; omega, by simp, by simp⟩
          rcases hkt with h' | h' <;> omega
        · rename_i hl
          simp only [Out.ok.injEq, Prod.mk.injEq] at hs
          obtain ⟨rfl, rfl⟩ := hs
          refine ⟨k, hk, ho, by simpa using he, fun h => ?_, hdr', fun _ => ⟨h0, h32', by omega⟩, by simp,
            by simp [h0], by simp [h32'], by simp, by simp, by simp⟩
          simp only
          rcases hkt with h' | h' <;> omega

/-- Iterating forwards (`for (auto it = At(i); it.Valid(); it.Next())`), as the pairs of `Index()` and `Entry()`. -/
def forwards (l : Log) : Nat → Nat → List (Nat × Entry)
  | 0, _ => []
  | n + 1, di => match l.entryAt di with
    | none => []
    | some e => (l.indexAt di, e) :: forwards l n (l.next di)

/-- Iterating backwards (`for (auto it = At(i); it.Valid(); it.Prev())`). -/
def backwards (l : Log) : Nat → Nat → List (Nat × Entry)
  | 0, _ => []
  | n + 1, di => match l.entryAt di with
    | none => []
    | some e => (l.indexAt di, e) :: backwards l n (l.prev di)

theorem forwards_eq (l : Log) : ∀ n di, l.entries.length ≤ di + n →
    forwards l n di = (l.entries.drop di).zipIdx.map (fun p => (l.oldest + di + p.2, p.1))
  | 0, di, h => by
    rw [List.drop_eq_nil_of_le (by omega)]; rfl
  | n + 1, di, h => by
    simp only [forwards, entryAt]
    by_cases hd : di < l.entries.length
    · rw [List.getElem?_eq_getElem hd]
      simp only [indexAt, next, hd, if_true]
      rw [forwards_eq l n (di + 1) (by omega), List.drop_eq_getElem_cons hd, List.zipIdx_cons, List.map_cons]
      congr 1
      rw [List.zipIdx_succ, List.map_map]
      apply List.map_congr_left
      rintro ⟨a, b⟩ _
      simp only [Function.comp, Prod.mk.injEq, and_true]
      omega
    · rw [List.getElem?_eq_none (by omega), List.drop_eq_nil_of_le (by omega)]; rfl

theorem backwards_eq (l : Log) (hsz : l.entries.length < 2 ^ 64) : ∀ n di, di < n → di < l.entries.length →
    backwards l n di = ((l.entries.take (di + 1)).zipIdx.map (fun p => (l.oldest + p.2, p.1))).reverse
  | 0, di, h, _ => by omega
  | n + 1, di, h, hd => by
    simp only [backwards, entryAt]
    rw [List.getElem?_eq_getElem hd]
    simp only [indexAt, prev, hd, if_true]
    have ht : l.entries.take (di + 1) = l.entries.take di ++ [l.entries[di]] := by
      rw [List.take_succ, List.getElem?_eq_getElem hd]; rfl
    rw [ht, List.zipIdx_append, List.map_append, List.reverse_append]
    have hlen : (l.entries.take di).length = di := by rw [List.length_take]; omega
    simp only [hlen, List.zipIdx_cons, List.zipIdx_nil, List.map_cons, List.map_nil, List.reverse_cons,
      List.reverse_nil, List.nil_append, List.cons_append, Nat.zero_add]
    congr 1
    by_cases h0 : di = 0
    · subst h0
      simp only [if_true, List.take_zero, List.zipIdx_nil, List.map_nil, List.reverse_nil]
      cases n with
      | zero => rfl
      | succ n =>
        simp only [backwards, entryAt]
        rw [List.getElem?_eq_none (by omega)]
    · rw [if_neg h0, backwards_eq l hsz n (di - 1) (by omega) (by omega)]
      have : di - 1 + 1 = di := by omega
      rw [this]

theorem range'_at (a b j : Nat) : (List.range' a b)[j]? = if j < b then some (a + j) else none := by
  by_cases h : j < b
  · rw [if_pos h, List.getElem?_eq_getElem (by simpa using h)]; simp
  · rw [if_neg h, List.getElem?_eq_none (by simpa using h)]

/-- C23: iterating from an index of the window, forwards or backwards, visits exactly the stored indexes from there to
the end (to the start), in order, each with the entry a lookup at that index returns. From outside the window nothing
is visited. -/
theorem C23_iterators (l : Log) (hsz : l.entries.length < 2 ^ 64) (i : Nat) :
    (l.at? i = none → ∀ n, forwards l n (l.pos i) = [] ∧ backwards l n (l.pos i) = []) ∧
    (l.at? i ≠ none → ∀ n, l.entries.length ≤ n →
      (forwards l n (l.pos i)).map Prod.fst = List.range' i (l.lastIdx + 1 - i) ∧
      (backwards l n (l.pos i)).map Prod.fst = (List.range' l.oldest (i + 1 - l.oldest)).reverse ∧
      (∀ p ∈ forwards l n (l.pos i), l.at? p.1 = some p.2) ∧
      (∀ p ∈ backwards l n (l.pos i), l.at? p.1 = some p.2)) := by
  constructor
  · intro h n
    cases n with
    | zero => exact ⟨rfl, rfl⟩
    | succ n =>
      have h' : l.entryAt (l.pos i) = none := h
      simp [forwards, backwards, h']
  · intro h n hn
    have hi : (l.at? i).isSome := Option.isSome_iff_ne_none.mpr h
    rw [at?_some_iff] at hi
    have hpos : l.pos i = i - l.oldest := by unfold pos; rw [if_neg (by omega)]
    have hlast : l.lastIdx = l.oldest + l.entries.length - 1 := by
      unfold lastIdx; rw [if_neg (by omega)]
    have hat : ∀ j e, l.entries[j]? = some e → l.at? (l.oldest + j) = some e := by
      intro j e hj
      rw [at?_eq, if_neg (by omega)]
      have : l.oldest + j - l.oldest = j := by omega
      rw [this]; exact hj
    rw [hpos, forwards_eq l n _ (by omega), backwards_eq l hsz n _ (by omega) (by omega)]
    refine ⟨?_, ?_, ?_, ?_⟩
    · rw [List.map_map]
      apply List.ext_getElem?
      intro j
      simp only [List.getElem?_map, List.getElem?_zipIdx, List.getElem?_drop, range'_at, Option.map_map]
      by_cases hj : i - l.oldest + j < l.entries.length
      · rw [List.getElem?_eq_getElem hj, if_pos (by omega)]
        simp only [Option.map_some, Function.comp, Option.some.injEq]
        omega
      · rw [List.getElem?_eq_none (by omega), if_neg (by omega)]; rfl
    · rw [List.map_reverse, List.map_map]
      congr 1
      apply List.ext_getElem?
      intro j
      simp only [List.getElem?_map, List.getElem?_zipIdx, List.getElem?_take, range'_at]
      by_cases hj : j < i - l.oldest + 1
      · rw [if_pos hj, List.getElem?_eq_getElem (by omega), if_pos (by omega)]
        simp only [Option.map_some, Function.comp, Option.some.injEq]
        omega
      · rw [if_neg hj, if_neg (by omega)]; rfl
    · intro p hp
      obtain ⟨⟨a, b⟩, hab, rfl⟩ := List.mem_map.mp hp
      have := List.getElem?_of_mem hab
      obtain ⟨j, hj⟩ := this
      simp only [List.getElem?_zipIdx, List.getElem?_drop, Option.map_eq_some_iff, Prod.mk.injEq] at hj
      obtain ⟨e, he, rfl, rfl⟩ := hj
      simp only
      have := hat _ _ he
      rw [← this]; congr 1; omega
    · intro p hp
      rw [List.mem_reverse] at hp
      obtain ⟨⟨a, b⟩, hab, rfl⟩ := List.mem_map.mp hp
      have := List.getElem?_of_mem hab
      obtain ⟨j, hj⟩ := this
      simp only [List.getElem?_zipIdx, List.getElem?_take, Option.map_eq_some_iff, Prod.mk.injEq] at hj
      obtain ⟨e, he, rfl, rfl⟩ := hj
      by_cases hj : j < i - l.oldest + 1
      · rw [if_pos hj] at he
        simp only
        have := hat _ _ he
        rw [← this]; congr 1; omega
      · rw [if_neg hj] at he; cases he

/-! ### A concrete case, and where the property fails -/

/-- 100 bytes for every entry without a payload. -/
def z0 : Sizes := ⟨60, 4, 0, 0, 0, fun _ => 50⟩
def ent (t : Nat) : Entry := ⟨t, .notSet, List.replicate 32 7⟩

/-- Room for three entries: the fourth append drops the first one; cancelling from 4 and appending again replaces 4,
dropping the second one. -/
def ops0 : List Op :=
  [.append (ent 1) 1, .append (ent 1) 1, .append (ent 2) 3, .append (ent 2) 3, .cancel 4, .append (ent 4) 3]

example : run z0 (start 350 1) ops0 = .ok (⟨[ent 2, ent 4], 3, 300, 350⟩, [none, none, none, none, none, none]) := by
  decide

example : InBounds 1 [] ops0 [none, none, none, none, none, none] := by
  simp [InBounds, ops0]

/-- C23, where it fails: `CancelFrom` leaves `curr_bytes_` as it was, so what is cancelled counts forever. Here a log
with room for three entries drops an entry although only two are stored (the first conjunct: two entries stored, the
append leaves two of three), and a log from which everything was cancelled has no room for its first entry. -/
theorem C23_cancel_leaks_bytes :
    (∃ l, run z0 (start 350 1) [.append (ent 1) 1, .append (ent 1) 1, .append (ent 2) 1, .cancel 3] =
        .ok (l, [none, none, none, none]) ∧ bytesOf z0 l.entries + memSize z0 (ent 4) ≤ l.max ∧
      ∃ l', l.append z0 (ent 4) 2 = .ok (l', none) ∧ l'.oldest = 2) ∧
    (∃ l, run z0 (start 350 1) [.append (ent 1) 1, .append (ent 1) 1, .append (ent 2) 1, .cancel 1] =
        .ok (l, [none, none, none, none]) ∧ l.entries = [] ∧ l.append z0 (ent 4) 1 = .ok (l, some .outOfSpace)) := by
  exact ⟨⟨⟨[ent 1, ent 1], 1, 300, 350⟩, by decide, by decide, ⟨⟨[ent 1, ent 4], 2, 300, 350⟩, by decide, rfl⟩⟩,
    ⟨⟨[], 1, 300, 350⟩, by decide, rfl, by decide⟩⟩

/-- What an operation list does to the byte counter when nothing is cancelled. -/
theorem run_exact {z : Sizes} : ∀ {ops : List Op} {l l' : Log} {rs : List (Option LogErr)},
    (∀ op ∈ ops, ∃ e t, op = .append e t) → l.curr = bytesOf z l.entries → run z l ops = .ok (l', rs) →
    l'.curr = bytesOf z l'.entries
  | [], l, l', rs, _, hc, hr => by
    simp only [run, Out.ok.injEq, Prod.mk.injEq] at hr
    obtain ⟨rfl, rfl⟩ := hr
    exact hc
  | op :: ops, l, l', rs, ha, hc, hr => by
    obtain ⟨⟨l1, r⟩, h1, hr⟩ := Out.bind_eq_ok.mp hr
    obtain ⟨⟨l2, rs'⟩, h2, hr⟩ := Out.bind_eq_ok.mp hr
    simp only [Out.ok.injEq, Prod.mk.injEq] at hr
    obtain ⟨rfl, rfl⟩ := hr
    refine run_exact (fun op h => ha op (List.mem_cons_of_mem _ h)) ?_ h2
    obtain ⟨e, t, rfl⟩ := ha op (List.mem_cons_self ..)
    simp only [step, append] at h1
    split at h1
    · simp only [Out.ok.injEq, Prod.mk.injEq] at h1
      obtain ⟨rfl, rfl⟩ := h1; exact hc
    · split at h1
      · simp only [Out.ok.injEq, Prod.mk.injEq] at h1
        obtain ⟨rfl, rfl⟩ := h1; exact hc
      · obtain ⟨⟨l3, b⟩, h3, h1⟩ := Out.bind_eq_ok.mp h1
        obtain ⟨k, hk, he, ho, hm, hkt, hcc, hbb, hdr, hsp⟩ := makeSpace_spec z _ _ _ _ _ _ h3 (by omega)
        have hsplit : bytesOf z l.entries = bytesOf z (l.entries.take k) + bytesOf z (l.entries.drop k) := by
          conv_lhs => rw [← List.take_append_drop k l.entries]
          unfold bytesOf
          rw [List.map_append, List.sum_append]
        have h4 : l3.curr = bytesOf z l3.entries := by rw [he]; omega
        simp only at h1
        split at h1
        · simp only [Out.ok.injEq, Prod.mk.injEq] at h1
          obtain ⟨rfl, rfl⟩ := h1; exact h4
        · split at h1
          · simp only [Out.ok.injEq, Prod.mk.injEq] at h1
            obtain ⟨rfl, rfl⟩ := h1; exact h4
          · simp only [Out.ok.injEq, Prod.mk.injEq] at h1
            obtain ⟨rfl, rfl⟩ := h1
            simp only [bytesOf, List.map_append, List.sum_append, List.map_cons, List.map_nil, List.sum_cons,
              List.sum_nil] at h4 ⊢
            omega

/-- C23, dropping only when required: while nothing has been cancelled, an append drops its `k` entries only because
with any fewer dropped the new entry would not fit, and reports lack of space only if the entry does not fit beside
what may not be dropped. Missing: runs with cancellations, for which this is false (`C23_cancel_leaks_bytes`). -/
theorem C23_drop_minimal_partial (z : Sizes) (mx first : Nat) (ops : List Op) (l : Log) (rs : List (Option LogErr))
    (ha : ∀ op ∈ ops, ∃ e t, op = Op.append e t)
    (hr : run z (start mx first) ops = .ok (l, rs)) (hb : InBounds first [] ops rs) (e : Entry) (trunc : Nat)
    (l' : Log) (r : Option LogErr) (hs : step z l (.append e trunc) = .ok (l', r)) :
    (∀ j, l.oldest + j < l'.oldest → mx < bytesOf z (l.entries.drop j) + memSize z e) ∧
    (r = some .outOfSpace → mx < bytesOf z l'.entries + memSize z e ∧ trunc ≤ l'.oldest) := by
  obtain ⟨k, hk, ho, he, _, hj, _, hsp, _⟩ := C23_append_drops z mx first ops l rs hr hb e trunc l' r hs
  have hc : l.curr = bytesOf z l.entries :=
    run_exact ha (by simp [start, setNextIdx, Log.new, bytesOf]) hr
  have hsplit : ∀ j, bytesOf z l.entries = bytesOf z (l.entries.take j) + bytesOf z (l.entries.drop j) := by
    intro j
    conv_lhs => rw [← List.take_append_drop j l.entries]
    unfold bytesOf
    rw [List.map_append, List.sum_append]
  refine ⟨fun j hlt => ?_, fun hr' => ?_⟩
  · have := hj j (by omega)
    have := hsplit j
    omega
  · obtain ⟨h1, h2⟩ := hsp hr'
    have : l'.curr = bytesOf z l'.entries := by
      have hrun : run z l [.append e trunc] = .ok (l', [r]) := by simp [run, hs]
      exact run_exact (by simp) hc hrun
    exact ⟨by omega, h1⟩

example : ∀ op ∈ [Op.append (ent 1) 1, .append (ent 1) 1], ∃ e t, op = Op.append e t := by
  intro op h
  simp only [List.mem_cons, List.not_mem_nil, or_false, or_self] at h
  exact ⟨_, _, h⟩

example : (∃ l, run z0 (start 250 1) [.append (ent 1) 1, .append (ent 1) 1] = .ok (l, [none, none]) ∧
    ∃ l', step z0 l (.append (ent 2) 3) = .ok (l', none) ∧ l'.oldest = 2) :=
  ⟨⟨[ent 1, ent 1], 1, 200, 250⟩, by decide, ⟨[ent 1, ent 2], 2, 200, 250⟩, by decide, rfl⟩

/-- C23, outside the bounds: allowing truncation above the next index reads the front of an empty deque, and
cancelling above it fills the log with empty entries. -/
theorem C23_bounds_needed :
    step z0 (start 50 1) (.append (ent 1) 2) = .ub ∧
    ((start 50 1).cancelFrom 3).1.entries = [Entry.dflt, Entry.dflt] := by
  decide

/-- C23: on an empty log `next_idx()` is 1 whatever `SetNextIdx` said, though the next entry gets the index set. -/
theorem C23_next_idx_of_empty :
    (start 350 7).nextIdx = 1 ∧
    ∃ l, step z0 (start 350 7) (.append (ent 1) 0) = .ok (l, none) ∧ l.lastIdx = 7 ∧ l.at? 7 = some (ent 1) :=
  ⟨rfl, ⟨[ent 1], 7, 100, 350⟩, by decide, rfl, by decide⟩

/-- C23: `SetNextIdx` never gives another index to an entry that is stored: whatever the log, what a lookup finds, it finds afterwards, and
nothing else is found. It reports success exactly for an empty log, and the next entry then gets the index set. -/
theorem C23_set_next (z : Sizes) (l : Log) (i : Nat) :
    (∀ j, (l.setNextIdx i).1.at? j = l.at? j) ∧ ((l.setNextIdx i).2 = none ↔ ∀ j, l.at? j = none) ∧
    ((l.setNextIdx i).2 = none → ∀ e l', (l.setNextIdx i).1.append z e 0 = .ok (l', none) → l'.lastIdx = i ∧ l'.at? i = some e) := by
  by_cases h : l.entries = []
  · have hs : l.setNextIdx i = ({ l with oldest := i }, none) := by simp [setNextIdx, h]
    refine ⟨fun j => ?_, ?_, fun _ e l' ha => ?_⟩
    · rw [hs, at?_eq, at?_eq]
      simp [h]
    · rw [hs]
      simp [at?_eq, h]
    · rw [hs] at ha
      simp only [append] at ha
      split at ha
      · cases ha
      · split at ha
        · cases ha
        · obtain ⟨⟨l1, b⟩, h1, ha⟩ := Out.bind_eq_ok.mp ha
          have e1 : l1 = { l with oldest := i } := by
            simp only [h, List.length_nil, makeSpace, removeOldest] at h1
            split at h1
            · cases h1; simp [h]
            · simp at h1; rw [h]; exact h1.1.symm
          subst e1
          split at ha
          · cases ha
          · split at ha
            · cases ha
            · cases ha
              simp [lastIdx, at?_eq, h]
  · have hs : l.setNextIdx i = (l, some .setNextOnNonempty) := by simp [setNextIdx, h]
    refine ⟨fun j => by rw [hs], ?_, fun hn => by rw [hs] at hn; cases hn⟩
    rw [hs]
    refine ⟨(fun hn => by cases hn), (fun hn => absurd (hn l.oldest) ?_)⟩
    rw [at?_eq, if_neg (by omega)]
    simp [h]

example : ((start 350 7).setNextIdx 9).2 = none ∧ ∃ l', ((start 350 7).setNextIdx 9).1.append z0 (ent 1) 0 = .ok (l', none) :=
  ⟨rfl, ⟨[ent 1], 9, 100, 350⟩, by decide⟩

end Svr.Props.RaftLog
