import Verif.Wire.Proof
import Verif.Props.RaftGroup

/-!
# C96: Raft messages and log entries cross the wire unchanged
-/

namespace Svr.Props.Wire

open Svr Svr.Wire Svr.Raft Svr.Raft.Node Svr.Props.RaftGroup

/-! ## Specification -/

/-- Each number of the message is a `uint64`. -/
def Numbers (m : Msg) : Prop :=
  m.group < 2 ^ 64 ∧ m.term < 2 ^ 64 ∧
  match m.body with
  | .voteReq i t _ => i < 2 ^ 64 ∧ t < 2 ^ 64
  | .voteResp _ => True
  | .appReq pi pt _ es c a => pi < 2 ^ 64 ∧ pt < 2 ^ 64 ∧ (∀ e ∈ es, e.term < 2 ^ 64) ∧ c < 2 ^ 64 ∧ a < 2 ^ 64
  | .appResp _ m l a _ => m < 2 ^ 64 ∧ l < 2 ^ 64 ∧ a < 2 ^ 64
  | .timeoutNow => True
  | .notSet => True

/-! ## Helpers -/

theorem Numbers.narrow {m : Msg} (h : Numbers m) (lim : Bool) : Small lim m.group ∧ Small lim m.term ∧ Narrow lim m.body := by
  obtain ⟨g, t, b⟩ := m
  obtain ⟨h1, h2, h3⟩ := h
  refine ⟨fun _ => h1, fun _ => h2, ?_⟩
  cases b with
  | voteReq => exact ⟨fun _ => h3.1, fun _ => h3.2⟩
  | voteResp => trivial
  | appReq => exact ⟨fun _ => h3.1, fun _ => h3.2.1, fun _ => h3.2.2.2.1, fun _ => h3.2.2.2.2, fun e he _ => h3.2.2.1 e he⟩
  | appResp => exact ⟨fun _ => h3.1, fun _ => h3.2.1, fun _ => h3.2.2⟩
  | timeoutNow => trivial
  | notSet => trivial

theorem narrow_false (b : Body) : Narrow false b := by
  have h : ∀ n, Small false n := fun n h => by cases h
  cases b <;> simp [Narrow, h]

theorem readRaw_small {wt n : Nat} {bs r : Bytes} (h : readRaw true wt bs = some (.num n, r)) : n < 2 ^ 64 := by
  unfold readRaw at h
  by_cases h0 : wt = 0
  · rw [if_pos h0] at h
    cases hv : readVarint bs with
    | none => simp [hv] at h
    | some x =>
      obtain ⟨v, c, r'⟩ := x
      simp only [hv, if_true] at h
      split at h
      · simp only [Option.some.injEq, Prod.mk.injEq, Raw.num.injEq] at h
        rw [← h.1]
        exact Nat.mod_lt _ (by decide)
      · cases h
  · rw [if_neg h0] at h
    split at h
    · split at h <;> simp at h
    · split at h
      · split at h
        · cases h
        · split at h
          · cases h
          · split at h <;> simp at h
      · split at h
        · split at h <;> simp at h
        · cases h

theorem splitGo_small : ∀ {k : Nat} {bs : Bytes} {fs : Fields}, splitGo true k bs = some fs → ∀ f n, (f, Raw.num n) ∈ fs → n < 2 ^ 64
  | 0, _, _, h => by simp [splitGo] at h
  | k + 1, bs, fs, h => by
    intro f n hm
    rw [splitGo] at h
    split at h
    · cases h; cases hm
    · split at h
      · cases h
      · split at h
        · cases h
        · split at h
          · cases h
          · rename_i x r hr
            split at h
            · cases h
            · rename_i gs hg
              cases h
              rcases List.mem_cons.1 hm with hm | hm
              · obtain ⟨-, rfl⟩ := Prod.mk.inj hm
                exact readRaw_small hr
              · exact splitGo_small hg f n hm

theorem split_small {bs : Bytes} {fs : Fields} (h : split true bs = some fs) {f n : Nat} (hm : (f, Raw.num n) ∈ fs) : n < 2 ^ 64 :=
  splitGo_small h f n hm

theorem foldlM_inv {α : Type} {st : α → Nat × Raw → Option α} (I : α → Prop) : ∀ {fs : Fields} {a a' : α},
    (∀ x ∈ fs, ∀ b b', I b → st b x = some b' → I b') → I a → fs.foldlM st a = some a' → I a'
  | [], a, a', _, h, hf => by cases hf; exact h
  | x :: fs, a, a', hs, h, hf => by
    rw [List.foldlM_cons] at hf
    cases hx : st a x with
    | none => simp [hx] at hf
    | some b =>
      simp only [hx, Option.bind_eq_bind, Option.bind_some] at hf
      exact foldlM_inv I (fun y hy => hs y (List.mem_cons_of_mem _ hy)) (hs x List.mem_cons_self a b h hx) hf

theorem foldl_inv {α : Type} {st : α → Nat × Raw → α} (I : α → Prop) : ∀ {fs : Fields} {a : α},
    (∀ x ∈ fs, ∀ b, I b → I (st b x)) → I a → I (fs.foldl st a)
  | [], a, _, h => h
  | x :: fs, a, hs, h => foldl_inv (fs := fs) I (fun y hy => hs y (List.mem_cons_of_mem _ hy)) (hs x List.mem_cons_self a h)

theorem entryStep_small {e e' : Entry} {x : Nat × Raw} (hx : ∀ n, x.2 = .num n → n < 2 ^ 64) (h : e.term < 2 ^ 64)
    (hs : entryStep true e x = some e') : e'.term < 2 ^ 64 := by
  unfold entryStep at hs
  split at hs
  · cases hs; exact hx _ rfl
  · cases hs; exact h
  · simp only [Option.bind_eq_some_iff, Option.map_eq_some_iff] at hs
    obtain ⟨_, _, _, _, rfl⟩ := hs
    exact h
  · cases hs; exact h
  · cases hs; exact h
  · cases hs; exact h

theorem entry_small {bs : Bytes} {fs : Fields} {e : Entry} (h1 : split true bs = some fs)
    (h2 : fs.foldlM (entryStep true) Entry.dflt = some e) : e.term < 2 ^ 64 := by
  exact foldlM_inv (fun e => e.term < 2 ^ 64) (fun x hx b b' hb hs => entryStep_small (fun n hn => split_small h1 (f := x.1) (hn ▸ hx)) hb hs)
    (by decide) h2

theorem appStep_small {a a' : App} {x : Nat × Raw} (hx : ∀ n, x.2 = .num n → n < 2 ^ 64)
    (h : a.pi < 2 ^ 64 ∧ a.pt < 2 ^ 64 ∧ (∀ e ∈ a.es, e.term < 2 ^ 64) ∧ a.c < 2 ^ 64 ∧ a.a < 2 ^ 64) (hs : appStep true a x = some a') :
    a'.pi < 2 ^ 64 ∧ a'.pt < 2 ^ 64 ∧ (∀ e ∈ a'.es, e.term < 2 ^ 64) ∧ a'.c < 2 ^ 64 ∧ a'.a < 2 ^ 64 := by
  obtain ⟨h1, h2, h3, h4, h5⟩ := h
  unfold appStep at hs
  split at hs
  · cases hs; exact ⟨hx _ rfl, h2, h3, h4, h5⟩
  · cases hs; exact ⟨h1, hx _ rfl, h3, h4, h5⟩
  · cases hs; exact ⟨h1, h2, h3, hx _ rfl, h5⟩
  · simp only [Option.bind_eq_some_iff, Option.map_eq_some_iff] at hs
    obtain ⟨fs, k1, e, k2, rfl⟩ := hs
    refine ⟨h1, h2, fun d hd => ?_, h4, h5⟩
    rcases List.mem_append.1 hd with hd | hd
    · exact h3 d hd
    · obtain rfl := List.mem_singleton.1 hd
      exact entry_small k1 k2
  · cases hs; exact ⟨h1, h2, h3, h4, hx _ rfl⟩
  · cases hs; exact ⟨h1, h2, h3, h4, h5⟩
  · cases hs; exact ⟨h1, h2, h3, h4, h5⟩

theorem msgStep_small {m m' : Msg} {x : Nat × Raw} (hx : ∀ n, x.2 = .num n → n < 2 ^ 64) (h : Numbers m) (hs : msgStep true m x = some m') :
    Numbers m' := by
  obtain ⟨g, t, b⟩ := m
  obtain ⟨h1, h2, h3⟩ := h
  unfold msgStep at hs
  split at hs
  · cases hs; exact ⟨hx _ rfl, h2, h3⟩
  · cases hs; exact ⟨h1, hx _ rfl, h3⟩
  · simp only [Option.map_eq_some_iff] at hs
    obtain ⟨fs, k1, rfl⟩ := hs
    refine ⟨h1, h2, ?_⟩
    refine foldl_inv (st := voteReqStep) (fun y => y.1 < 2 ^ 64 ∧ y.2.1 < 2 ^ 64) (fun x hx y hy => ?_) ?_
    · unfold voteReqStep
      split
      · exact ⟨split_small k1 hx, hy.2⟩
      · exact ⟨hy.1, split_small k1 hx⟩
      · exact hy
      · exact hy
    · cases b with
      | voteReq => exact h3
      | _ => simp
  · simp only [Option.map_eq_some_iff] at hs
    obtain ⟨fs, k1, rfl⟩ := hs
    exact ⟨h1, h2, trivial⟩
  · simp only [Option.bind_eq_some_iff, Option.map_eq_some_iff] at hs
    obtain ⟨fs, k1, a, k2, rfl⟩ := hs
    refine ⟨h1, h2, ?_⟩
    refine foldlM_inv (fun a : App => a.pi < 2 ^ 64 ∧ a.pt < 2 ^ 64 ∧ (∀ e ∈ a.es, e.term < 2 ^ 64) ∧ a.c < 2 ^ 64 ∧ a.a < 2 ^ 64)
      (fun x hx y y' hy hs => appStep_small (fun n hn => split_small k1 (f := x.1) (hn ▸ hx)) hy hs) ?_ k2
    cases b with
    | appReq => exact h3
    | _ => simp
  · simp only [Option.map_eq_some_iff] at hs
    obtain ⟨fs, k1, rfl⟩ := hs
    refine ⟨h1, h2, ?_⟩
    refine foldl_inv (st := ackStep) (fun y => y.m < 2 ^ 64 ∧ y.l < 2 ^ 64 ∧ y.a < 2 ^ 64) (fun x hx y hy => ?_) ?_
    · unfold ackStep
      split
      · exact hy
      · exact ⟨split_small k1 hx, hy.2⟩
      · exact ⟨hy.1, split_small k1 hx, hy.2.2⟩
      · exact ⟨hy.1, hy.2.1, split_small k1 hx⟩
      · exact hy
      · exact hy
    · cases b with
      | appResp => exact h3
      | _ => simp
  · cases hs; exact ⟨h1, h2, trivial⟩
  · cases hs; exact ⟨h1, h2, h3⟩

/-! ## C96 -/

/-- **C96**: a Raft message whose numbers are `uint64` and that is below the size limit is parsed as it was sent. -/
theorem C96_message {m : Msg} (h : Numbers m) (hl : (encMsg m).length ≤ maxLen) : decMsg true (encMsg m) = some m :=
  decMsg_encMsg (h.narrow true).1 (h.narrow true).2.1 (h.narrow true).2.2 fun _ => hl

/-- A log entry likewise. -/
theorem C96_entry {e : Entry} (h : e.term < 2 ^ 64) (hl : (encEntry e).length ≤ maxLen) : decEntry true (encEntry e) = some e :=
  decEntry_encEntry (fun _ => h) fun _ => hl

/-- A replica group likewise. -/
theorem C96_group {g : List (Bytes × Bool)} (hl : (encGroup g).length ≤ maxLen) : decGroup true (encGroup g) = some g :=
  decGroup_encGroup fun _ => hl

/-- Different messages are sent as different bytes, whatever their size. -/
theorem C96_messages_differ {m m' : Msg} (h : encMsg m = encMsg m') : m = m' := by
  have f : ∀ n, Small false n := fun n h => by cases h
  have a := decMsg_encMsg (m := m) (f _) (f _) (narrow_false _) (fun h => by cases h)
  have b := decMsg_encMsg (m := m') (f _) (f _) (narrow_false _) (fun h => by cases h)
  rw [h, b] at a
  exact (Option.some.inj a).symm

/-- Different entries are. -/
theorem C96_entries_differ {e e' : Entry} (h : encEntry e = encEntry e') : e = e' := by
  have a := decEntry_encEntry (lim := false) (e := e) (fun h => by cases h) (fun h => by cases h)
  have b := decEntry_encEntry (lim := false) (e := e') (fun h => by cases h) (fun h => by cases h)
  rw [h, b] at a
  exact (Option.some.inj a).symm

/-- Different replica groups are, so that the hash chain tells memberships apart. -/
theorem C96_groups_differ {P : Type} {v : Env P} (hv : v.ser = encGroup) : SerInj v := by
  intro g g' h
  rw [hv] at h
  have a := decGroup_encGroup (lim := false) (g := g) (fun h => by cases h)
  have b := decGroup_encGroup (lim := false) (g := g') (fun h => by cases h)
  rw [h, b] at a
  exact (Option.some.inj a).symm

/-- Whatever bytes arrive: the numbers of a message parsed from them are `uint64`. -/
theorem C96_parsed {bs : Bytes} {m : Msg} (h : decMsg true bs = some m) : Numbers m := by
  simp only [decMsg, Option.bind_eq_some_iff] at h
  obtain ⟨fs, h1, h2⟩ := h
  exact foldlM_inv Numbers (fun x hx b b' hb hs => msgStep_small (fun n hn => split_small h1 (f := x.1) (hn ▸ hx)) hb hs)
    ⟨by decide, by decide, trivial⟩ h2

/-- So it meets what the theorems about single replicas and groups ask of received messages. -/
theorem C96_typed {bs : Bytes} {m : Msg} (h : decMsg true bs = some m) : Typed m := by
  obtain ⟨-, h2, h3⟩ := C96_parsed h
  refine ⟨h2, ?_⟩
  cases hb : m.body <;> simp only [hb] at h3 ⊢
  exact h3.2.2.1

/-- Fields a later version adds do not change what this one parses. -/
theorem C96_unknown_field {m : Msg} (h : Numbers m) (hl : (encMsg m).length ≤ maxLen) {f : Nat} {w : Raw} (hf : 7 < f) (hw : Fits true (f, w)) :
    decMsg true (encMsg m ++ field (f, w)) = some m := by
  have h0 := C96_message h hl
  have hs := msgF_fits (h.narrow true).1 (h.narrow true).2.1 (fun _ => hl)
  have he : encMsg m ++ field (f, w) = enc (msgF m ++ [(f, w)]) := by simp [encMsg, enc]
  have hs' : split true (enc (msgF m ++ [(f, w)])) = some (msgF m ++ [(f, w)]) := split_enc fun x hx => by
    rcases List.mem_append.1 hx with hx | hx
    · exact hs x hx
    · obtain rfl := List.mem_singleton.1 hx; exact hw
  rw [he, decMsg, hs', Option.bind_some, List.foldlM_append]
  have : (msgF m).foldlM (msgStep true) ⟨0, 0, .notSet⟩ = some m := by
    have h1 : split true (encMsg m) = some (msgF m) := split_enc hs
    rwa [decMsg, h1, Option.bind_some] at h0
  rw [this]
  have hu : msgStep true m (f, w) = some m := by
    unfold msgStep
    split <;> first | rfl | (rename_i hq; cases hq; omega)
  simp [hu]

/-- With this serialization, one leader per term and agreement on what is committed rest on the hash alone. -/
theorem C96_agreement {P : Type} [LinearOrder P] {g : Setting P} (hv : g.v.ser = encGroup) (hg : Proper g) {W W' : World P} (h : Reachable g W)
    (k : Future g W W') (hn : NoCollision g.v W'.Hashed) (hf : FixedVoters g W') :
    (∀ p q t, Leads W p t → Leads W' q t → p = q) ∧ (∀ p q i e e', Committed W p i e → Committed W' q i e' → e = e') :=
  ⟨fun _ _ _ hp hq => RaftGroup.C26_one_leader_per_term hg h k hn (C96_groups_differ hv) hf hp hq,
   fun _ _ _ _ _ hp hq => RaftGroup.C28_committed_agree hg h k hn (C96_groups_differ hv) hf hp hq⟩

/-- Parsing is not the other way round: several strings parse as one message. The chain hashes what the parser made of a group, serialized anew. -/
theorem C96_not_canonical : ∃ a b : Bytes, a ≠ b ∧ decGroup true a = some [([7], true)] ∧ decGroup true b = some [([7], true)] :=
  ⟨[10, 5, 10, 1, 7, 16, 1], [10, 8, 16, 129, 0, 24, 3, 10, 1, 7], by decide, by decide, by decide⟩

/-! ## Examples -/

def sample : Msg := ⟨5, 300, .appReq 0 2 [1, 2] [⟨300, .data [], [9]⟩, ⟨7, .membership [([7], true), ([], false)], []⟩, ⟨0, .notSet, []⟩, ⟨1, .minimums [3], [4]⟩] 128 0⟩

example : encMsg sample = [8, 5, 16, 172, 2, 42, 46, 16, 2, 24, 128, 1, 34, 8, 8, 172, 2, 18, 0, 34, 1, 9, 34, 13, 8, 7, 26, 9, 10, 5, 10, 1, 7, 16, 1, 10, 0,
  34, 0, 34, 8, 8, 1, 34, 1, 4, 42, 1, 3, 50, 2, 1, 2] ∧ decMsg true (encMsg sample) = some sample := by
  decide +kernel

example : Numbers sample ∧ (encMsg sample).length ≤ maxLen := by
  refine ⟨⟨by decide, by decide, ?_⟩, by decide +kernel⟩
  exact ⟨by decide, by decide, by decide, by decide, by decide⟩

/-- A message cut short is refused, as is one with field number 0. -/
example : decMsg true [8, 5, 42, 3, 16] = none ∧ decMsg true [0, 5] = none ∧ decMsg true [8, 255] = none := by decide

/-- A number beyond 64 bits loses its upper bits. -/
example : decMsg true [16, 129, 128, 128, 128, 128, 128, 128, 128, 128, 2] = some ⟨0, 1, .notSet⟩ := by decide +kernel

/-- A request for votes sent twice is merged. -/
example : decMsg true [26, 2, 8, 3, 26, 2, 16, 4] = some ⟨0, 0, .voteReq 3 4 []⟩ := by decide

def wired : Setting Nat := ⟨{ steady with ser := encGroup }, 5, 0, ⟨[1, 2, 3], [1, 2, 3]⟩⟩

set_option maxRecDepth 100000 in
/-- What `C96_agreement` speaks about happens. -/
example : ∃ W : World Nat, wired.v.ser = encGroup ∧ Proper wired ∧ Reachable wired W ∧ NoCollision wired.v W.Hashed ∧ FixedVoters wired W ∧
    Leads W 1 1 ∧ (∃ e, Committed W 1 2 e ∧ e.inner = .data [7]) ∧ ∃ e, Committed W 2 2 e ∧ e.inner = .data [7] := by
  have h : outcome wired trioActs (fun T => leadsIn T 1 1 && decide (committedAt T 1 2 = some (.data [7])) &&
    decide (committedAt T 2 2 = some (.data [7])) && requests T (fun _ => false)) = true := by decide +kernel
  unfold outcome at h
  split at h
  · rename_i T hT
    simp only [Bool.and_eq_true, decide_eq_true_eq] at h
    obtain ⟨h0, ⟨⟨h4, h5⟩, h6⟩, h7⟩ := h
    refine ⟨T.world, rfl, ⟨⟨by simp [wired, SSorted], by simp [wired, SSorted]⟩, by simp [wired], by simp [wired], by simp [wired]⟩, Play.play_reachable hT,
      noColl_table h0, fun m hm => ?_, leadsIn_spec h4, committedAt_spec h5, committedAt_spec h6⟩
    exact absurd (requests_spec (g := trio) rfl h7 hm) (by decide)
  · cases h

example : Fits true (200, .len [1, 2, 3]) := ⟨by decide, fun _ => by decide, fun _ => by decide⟩

end Svr.Props.Wire
