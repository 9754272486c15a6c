import Verif.Core.LogTx

/-!
# C37: what the proposer of a log entry is told

The specification is `Spec.Fate`. The statements are about every history of a loaded replica: registrations of completion handlers
and committed entries in any order, with any contents.
-/

namespace Svr.Props.LogTx
open Core Spec
open Raft (Entry Inner)
variable {D L E : Type} {pr : Proto D L E} {pm : Bytes → Option Minimums.Limits} {me : Bytes}

/-- The committed entries among the events. -/
def takes : List Ev → List (Nat × Entry)
  | [] => []
  | .add _ _ :: evs => takes evs
  | .take _ i e :: evs => (i, e) :: takes evs

/-- The answer without the database's response. -/
def answer : Done E → Answer
  | .success e _ => .success e
  | .cancelled => .otherTerm
  | .badHash => .otherHash
  | .removed => .removed

/-- The specification decides. -/
theorem fate_unique {term : Nat} {hash : Bytes} {idx : Nat} {m : Bool} {l : List (Nat × Entry)} {a b : Option Answer}
    (h : Fate me term hash idx m l a) (k : Fate me term hash idx m l b) : a = b := by
  induction h with
  | waiting m => cases k; rfl
  | left i e l h =>
    cases k with
    | left => rfl
    | success _ _ _ h' => exact absurd ⟨rfl, h⟩ h'
    | term _ _ _ h' => exact absurd ⟨rfl, h⟩ h'
    | hash _ _ _ h' => exact absurd ⟨rfl, h⟩ h'
    | stay _ _ _ _ h' => exact absurd h h'
  | success m e l h ht hh =>
    cases k with
    | left _ _ _ h' => exact absurd ⟨rfl, h'⟩ h
    | success => rfl
    | term _ _ _ _ ht' => exact absurd ht ht'
    | hash _ _ _ _ _ h1 h2 => rcases hh with hh | hh <;> contradiction
    | stay _ _ _ _ _ hi => exact absurd rfl hi
    | outside _ _ _ _ _ hi => exact absurd rfl hi
    | back _ _ _ _ _ hi => exact absurd rfl hi
  | term m e l h ht =>
    cases k with
    | left _ _ _ h' => exact absurd ⟨rfl, h'⟩ h
    | success _ _ _ _ ht' => exact absurd ht' ht
    | term => rfl
    | hash _ _ _ _ ht' => exact absurd ht' ht
    | stay _ _ _ _ _ hi => exact absurd rfl hi
    | outside _ _ _ _ _ hi => exact absurd rfl hi
    | back _ _ _ _ _ hi => exact absurd rfl hi
  | hash m e l h ht h1 h2 =>
    cases k with
    | left _ _ _ h' => exact absurd ⟨rfl, h'⟩ h
    | success _ _ _ _ _ hh => rcases hh with hh | hh <;> contradiction
    | term _ _ _ _ ht' => exact absurd ht ht'
    | hash => rfl
    | stay _ _ _ _ _ hi => exact absurd rfl hi
    | outside _ _ _ _ _ hi => exact absurd rfl hi
    | back _ _ _ _ _ hi => exact absurd rfl hi
  | stay i e l a h hi _ ih =>
    cases k with
    | left _ _ _ h' => exact absurd h' h
    | success => exact absurd rfl hi
    | term => exact absurd rfl hi
    | hash => exact absurd rfl hi
    | stay _ _ _ _ _ _ k => exact ih k
  | outside i e l a h hi _ ih =>
    cases k with
    | success => exact absurd rfl hi
    | term => exact absurd rfl hi
    | hash => exact absurd rfl hi
    | outside _ _ _ _ _ _ k => exact ih k
    | back _ _ _ _ h' => exact absurd h' h
  | back i e l a h hi _ ih =>
    cases k with
    | success => exact absurd rfl hi
    | term => exact absurd rfl hi
    | hash => exact absurd rfl hi
    | outside _ _ _ _ h' => exact absurd h h'
    | back _ _ _ _ _ _ k => exact ih k

theorem verdict_fate {e : Entry} {eff : Option E} {t : LogTx} {idx : Nat} {m : Bool} {l : List (Nat × Entry)}
    (h : ¬ (m = true ∧ Excludes me e)) : Fate me t.term t.hash idx m ((idx, e) :: l) (some (answer (verdict e eff t))) := by
  unfold verdict
  split
  · rename_i ht; exact .term _ _ _ h (Ne.symm ht)
  · rename_i ht
    have ht' : e.term = t.term := by by_contra k; exact ht (fun h => k h.symm)
    split
    · rename_i hh
      refine .hash _ _ _ h ht' (fun k => ?_) (fun k => hh.2 ?_)
      · rw [k] at hh; simp at hh
      · rw [ctEq_iff]; exact k
    · rename_i hh
      refine .success _ _ _ h ht' ?_
      by_cases k : t.hash = []
      · exact .inl k
      · right
        by_contra k'
        exact hh ⟨List.length_pos_of_ne_nil k, by rw [ctEq_iff]; exact k'⟩

theorem verdict_success {e e' : Entry} {eff eff' : Option E} {t : LogTx} (h : verdict e eff t = .success e' eff') : e' = e ∧ eff' = eff := by
  unfold verdict at h
  split at h
  · cases h
  · split at h
    · cases h
    · cases h; exact ⟨rfl, rfl⟩

theorem run_waiting {t : LogTx} {idx : Nat} {s' : Side D E} : ∀ {evs : List Ev} {s : Side D E}, Fresh t.who evs →
    s.run pr pm me evs = .ok s' → s.mine t.who = [(idx, t)] → s.got t.who = [] →
    ∃ a, Fate me t.term t.hash idx s.member (takes evs) a ∧ (s'.got t.who).map answer = a.toList ∧
      ∀ e eff, .success e eff ∈ s'.got t.who → (idx, eff) ∈ s'.effects := by
  intro evs
  induction evs with
  | nil =>
    intro s _ h _ hg
    cases h
    exact ⟨none, .waiting _, by rw [hg]; rfl, by rw [hg]; intro e eff h; cases h⟩
  | cons ev evs ih =>
    intro s hf h hm hg
    obtain ⟨s1, h1, hr⟩ := Out.bind_eq_ok.mp h
    cases ev with
    | add i t' =>
      cases h1
      have := add_other (s := s) (idx := i) (hf i t' List.mem_cons_self)
      exact ih (s := s.add i t') hf.tail hr (this.1.trans hm) (this.2.trans hg)
    | take p i e =>
      rcases take_waiting h1 hm with ⟨a1, a2, a3, a4⟩ | ⟨a1, rfl, eff, a2, a3, a4⟩ | ⟨a1, a2, a3, a4⟩
      · obtain ⟨_, b2⟩ := run_absent hf.tail hr a3
        refine ⟨some .removed, ?_, ?_, ?_⟩
        · rw [a1]; exact .left _ _ _ a2
        · rw [b2, a4, hg]; rfl
        · rw [b2, a4, hg]; intro e eff h; simp at h
      · obtain ⟨_, b2⟩ := run_absent hf.tail hr a3
        refine ⟨some (answer (verdict e eff t)), verdict_fate a1, ?_, ?_⟩
        · rw [b2, a4, hg]; rfl
        · rw [b2, a4, hg]
          intro e' eff' h'
          rw [List.nil_append, List.mem_singleton] at h'
          obtain ⟨_, rfl⟩ := verdict_success h'.symm
          exact (run_effects hr).subset a2
      · obtain ⟨a, b1, b2⟩ := ih hf.tail hr a3 (a4.trans hg)
        refine ⟨a, ?_, b2⟩
        rw [take_member h1] at b1
        show Fate me t.term t.hash idx s.member ((i, e) :: takes evs) a
        unfold memberAfter at b1
        cases hmem : s.member with
        | true =>
          rw [hmem] at a1
          have hx : ¬ Excludes me e := fun k => a1 ⟨rfl, k⟩
          refine .stay _ _ _ _ hx a2 ?_
          split at b1
          · rename_i g hg'
            rw [excludes_iff] at hx
            cases hc : containsMe me g with
            | true => rw [hc] at b1; exact b1
            | false => exact absurd ⟨g, hg', hc⟩ hx
          · rw [hmem] at b1; exact b1
        | false =>
          by_cases hx : Includes me e
          · refine .back _ _ _ _ hx a2 ?_
            obtain ⟨g, k1, k2⟩ := includes_iff.mp hx
            rw [k1] at b1
            simp only [k2] at b1
            exact b1
          · refine .outside _ _ _ _ hx a2 ?_
            split at b1
            · rename_i g hg'
              rw [includes_iff] at hx
              cases hc : containsMe me g with
              | false => rw [hc] at b1; exact b1
              | true => exact absurd ⟨g, hg', hc⟩ hx
            · rw [hmem] at b1; exact b1

theorem run_append {evs evs' : List Ev} : ∀ {s s' : Side D E}, s.run pr pm me (evs ++ evs') = .ok s' →
    ∃ s1, s.run pr pm me evs = .ok s1 ∧ s1.run pr pm me evs' = .ok s' := by
  induction evs with
  | nil => intro s s' h; exact ⟨s, rfl, h⟩
  | cons ev evs ih =>
    intro s s' h
    obtain ⟨s1, h1, h⟩ := Out.bind_eq_ok.mp h
    obtain ⟨s2, h2, h3⟩ := ih h
    exact ⟨s2, by show (s.step pr pm me ev >>= fun s => s.run pr pm me evs) = _; rw [h1]; exact h2, h3⟩

/-- A replica as it is created, or promoted after replication: nothing waits. -/
def Begins (pr : Proto D L E) (s : Side D E) : Prop := s = Side.create pr ∨ ∃ db l n, s = Side.promote db l n

/-- **C37**: whatever happens before and after, the handler registered for index `idx` is told what the specification says, once,
and nothing else; and with success the database's response to the entry at that index. -/
theorem C37_told {s0 s' : Side D E} (hb : Begins pr s0) {pre post : List Ev} {idx : Nat} {t : LogTx} (hpre : Fresh t.who pre)
    (hpost : Fresh t.who post) (h : s0.run pr pm me (pre ++ .add idx t :: post) = .ok s') :
    ∃ s1 a, s0.run pr pm me pre = .ok s1 ∧ Fate me t.term t.hash idx s1.member (takes post) a ∧
      (s'.got t.who).map answer = a.toList ∧ ∀ e eff, .success e eff ∈ s'.got t.who → (idx, eff) ∈ s'.effects := by
  have h0 : s0.mine t.who = [] ∧ s0.got t.who = [] := by
    rcases hb with rfl | ⟨_, _, _, rfl⟩ <;> exact ⟨rfl, rfl⟩
  obtain ⟨s1, h1, h2⟩ := run_append h
  obtain ⟨a1, a2⟩ := run_absent hpre h1 h0.1
  obtain ⟨s2, h3, h4⟩ := Out.bind_eq_ok.mp h2
  cases h3
  obtain ⟨a, b1, b2, b3⟩ := run_waiting (idx := idx) hpost h4 (insertTx_filter_new a1) (a2.trans h0.2)
  exact ⟨s1, a, h1, b1, b2, b3⟩

/-- **C37**, at most once. -/
theorem C37_at_most_once {s0 s' : Side D E} (hb : Begins pr s0) {pre post : List Ev} {idx : Nat} {t : LogTx} (hpre : Fresh t.who pre)
    (hpost : Fresh t.who post) (h : s0.run pr pm me (pre ++ .add idx t :: post) = .ok s') : (s'.got t.who).length ≤ 1 := by
  obtain ⟨_, a, _, _, h2, _⟩ := C37_told hb hpre hpost h
  rw [← List.length_map (f := answer), h2]
  cases a <;> simp

/-- A handler nobody registered is never called. -/
theorem C37_not_registered {s0 s' : Side D E} (hb : Begins pr s0) {evs : List Ev} {w : Nat} (hf : Fresh w evs)
    (h : s0.run pr pm me evs = .ok s') : s'.got w = [] := by
  have h0 : s0.mine w = [] ∧ s0.got w = [] := by
    rcases hb with rfl | ⟨_, _, _, rfl⟩ <;> exact ⟨rfl, rfl⟩
  exact (run_absent hf h h0.1).2.trans h0.2

theorem fate_success {term : Nat} {hash : Bytes} {idx : Nat} {m : Bool} {l : List (Nat × Entry)} {e : Entry} {a : Option Answer}
    (h : Fate me term hash idx m l a) (ha : a = some (.success e)) : (idx, e) ∈ l ∧ e.term = term ∧ (hash = [] ∨ hash = e.hash) := by
  induction h with
  | success m e' l h ht hh => cases ha; exact ⟨List.mem_cons_self, ht, hh⟩
  | stay i e l a h hi _ ih => obtain ⟨h1, h2⟩ := ih ha; exact ⟨List.mem_cons_of_mem _ h1, h2⟩
  | outside i e l a h hi _ ih => obtain ⟨h1, h2⟩ := ih ha; exact ⟨List.mem_cons_of_mem _ h1, h2⟩
  | back i e l a h hi _ ih => obtain ⟨h1, h2⟩ := ih ha; exact ⟨List.mem_cons_of_mem _ h1, h2⟩
  | _ => cases ha

/-- **C37**, success is true: the entry was committed at the promised index after the registration, in the promised term and with the
promised chain hash. -/
theorem C37_success_is_true {s0 s' : Side D E} (hb : Begins pr s0) {pre post : List Ev} {idx : Nat} {t : LogTx} (hpre : Fresh t.who pre)
    (hpost : Fresh t.who post) (h : s0.run pr pm me (pre ++ .add idx t :: post) = .ok s') {e : Entry} {eff : Option E}
    (hs : .success e eff ∈ s'.got t.who) :
    (idx, e) ∈ takes post ∧ e.term = t.term ∧ (t.hash = [] ∨ t.hash = e.hash) ∧ (idx, eff) ∈ s'.effects := by
  obtain ⟨_, a, _, h1, h2, h3⟩ := C37_told hb hpre hpost h
  have hm : answer (.success e eff : Done E) ∈ (s'.got t.who).map answer := List.mem_map_of_mem hs
  rw [h2, Option.mem_toList] at hm
  obtain ⟨k1, k2, k3⟩ := fate_success h1 hm
  exact ⟨k1, k2, k3, h3 e eff hs⟩

theorem fate_decided {term : Nat} {hash : Bytes} {idx : Nat} {m : Bool} {l : List (Nat × Entry)} {a : Option Answer}
    (h : Fate me term hash idx m l a) {e : Entry} (hm : (idx, e) ∈ l) : a ≠ none := by
  induction h with
  | waiting => cases hm
  | left => simp
  | success => simp
  | term => simp
  | hash => simp
  | stay i e' l a h hi _ ih =>
    rcases List.mem_cons.mp hm with k | k
    · cases k; exact absurd rfl hi
    · exact ih k
  | outside i e' l a h hi _ ih =>
    rcases List.mem_cons.mp hm with k | k
    · cases k; exact absurd rfl hi
    · exact ih k
  | back i e' l a h hi _ ih =>
    rcases List.mem_cons.mp hm with k | k
    · cases k; exact absurd rfl hi
    · exact ih k

/-- **C37**, exactly once when an entry is committed at the promised index after the registration. -/
theorem C37_answered_when_committed {s0 s' : Side D E} (hb : Begins pr s0) {pre post : List Ev} {idx : Nat} {t : LogTx}
    (hpre : Fresh t.who pre) (hpost : Fresh t.who post) (h : s0.run pr pm me (pre ++ .add idx t :: post) = .ok s') {e : Entry}
    (hc : (idx, e) ∈ takes post) : (s'.got t.who).length = 1 := by
  obtain ⟨_, a, _, h1, h2, _⟩ := C37_told hb hpre hpost h
  rw [← List.length_map (f := answer), h2]
  cases a with
  | none => exact absurd rfl (fate_decided h1 hc)
  | some _ => rfl

theorem fate_removed {term : Nat} {hash : Bytes} {idx : Nat} {m : Bool} {l : List (Nat × Entry)} {a : Option Answer}
    (h : Fate me term hash idx m l a) (hm : m = true) {i : Nat} {e : Entry} (he : (i, e) ∈ l) (hx : Excludes me e) : a ≠ none := by
  induction h with
  | waiting => cases he
  | left => simp
  | success => simp
  | term => simp
  | hash => simp
  | stay i' e' l a h hi _ ih =>
    rcases List.mem_cons.mp he with k | k
    · cases k; exact absurd hx h
    · exact ih rfl k
  | outside => cases hm
  | back => cases hm

/-- **C37**, exactly once when the replica leaves the group: a member that commits a membership without itself tells every handler
something, at the latest then. -/
theorem C37_answered_when_removed {s0 s' : Side D E} (hb : Begins pr s0) {pre post : List Ev} {idx : Nat} {t : LogTx}
    (hpre : Fresh t.who pre) (hpost : Fresh t.who post) (h : s0.run pr pm me (pre ++ .add idx t :: post) = .ok s')
    (hm : ∀ s1, s0.run pr pm me pre = .ok s1 → s1.member = true) {i : Nat} {e : Entry} (hc : (i, e) ∈ takes post)
    (hx : Excludes me e) : (s'.got t.who).length = 1 := by
  obtain ⟨s1, a, h0, h1, h2, _⟩ := C37_told hb hpre hpost h
  rw [← List.length_map (f := answer), h2]
  cases a with
  | none => exact absurd rfl (fate_removed h1 (hm s1 h0) hc hx)
  | some _ => rfl

/-- The committed entries come one after the other, from index `n + 1` on. -/
def InOrder : Nat → List (Nat × Entry) → Prop
  | _, [] => True
  | n, (i, _) :: l => i = n + 1 ∧ InOrder i l

theorem inOrder_mem {n : Nat} : ∀ {l : List (Nat × Entry)}, InOrder n l → ∀ i e, (i, e) ∈ l → n < i
  | (j, x) :: l, h, i, e, hm => by
    obtain ⟨rfl, h2⟩ := h
    rcases List.mem_cons.mp hm with k | k
    · cases k; exact Nat.lt_succ_self _
    · exact Nat.lt_trans (Nat.lt_succ_self _) (inOrder_mem h2 i e k)

theorem inOrder_has {l : List (Nat × Entry)} : ∀ {n : Nat}, InOrder n l → ∀ i, n < i → i ≤ n + l.length → ∃ e, (i, e) ∈ l := by
  induction l with
  | nil => intro n _ i h1 h2; simp at h2; omega
  | cons x l ih =>
    intro n h i h1 h2
    obtain ⟨j, y⟩ := x
    obtain ⟨rfl, h3⟩ := h
    by_cases k : i = n + 1
    · exact ⟨y, by rw [k]; exact List.mem_cons_self⟩
    · obtain ⟨e, he⟩ := ih h3 i (by omega) (by simp at h2; omega)
      exact ⟨e, List.mem_cons_of_mem _ he⟩

/-- **C37**, exactly once for a handler registered in time: for an index beyond the last applied one, once that index is applied. -/
theorem C37_answered_in_time {s0 s' : Side D E} (hb : Begins pr s0) {pre post : List Ev} {idx n : Nat} {t : LogTx}
    (hpre : Fresh t.who pre) (hpost : Fresh t.who post) (h : s0.run pr pm me (pre ++ .add idx t :: post) = .ok s')
    (ho : InOrder n (takes post)) (hn : n < idx) (hd : idx ≤ n + (takes post).length) : (s'.got t.who).length = 1 := by
  obtain ⟨e, he⟩ := inOrder_has ho idx hn hd
  exact C37_answered_when_committed hb hpre hpost h he

theorem fate_late {term : Nat} {hash : Bytes} {idx : Nat} {m : Bool} {l : List (Nat × Entry)} {a : Option Answer}
    (h : Fate me term hash idx m l a) (hl : ∀ i e, (i, e) ∈ l → i ≠ idx ∧ ¬ Excludes me e) : a = none := by
  induction h with
  | waiting => rfl
  | left i e l h => exact absurd h (hl i e List.mem_cons_self).2
  | success m e l h => exact absurd rfl (hl idx e List.mem_cons_self).1
  | term m e l h => exact absurd rfl (hl idx e List.mem_cons_self).1
  | hash m e l h => exact absurd rfl (hl idx e List.mem_cons_self).1
  | stay i e l a h hi _ ih => exact ih (fun j e' k => hl j e' (List.mem_cons_of_mem _ k))
  | outside i e l a h hi _ ih => exact ih (fun j e' k => hl j e' (List.mem_cons_of_mem _ k))
  | back i e l a h hi _ ih => exact ih (fun j e' k => hl j e' (List.mem_cons_of_mem _ k))

/-- A weakness of the code: a handler registered too late, for an index that is applied already, waits for ever unless the replica is
removed from the group. A follower registers the handler of a forwarded write only when the leader's response arrives
(enclave/core/core.cc:1700-1717), which may be after the leader's append message with a commit index that covers it. The client then
gets neither response nor error. -/
theorem C37_late_is_never_answered {s0 s' : Side D E} (hb : Begins pr s0) {pre post : List Ev} {idx n : Nat} {t : LogTx}
    (hpre : Fresh t.who pre) (hpost : Fresh t.who post) (h : s0.run pr pm me (pre ++ .add idx t :: post) = .ok s')
    (ho : InOrder n (takes post)) (hn : idx ≤ n) (hx : ∀ i e, (i, e) ∈ takes post → ¬ Excludes me e) : s'.got t.who = [] := by
  obtain ⟨s1, a, h0, h1, h2, _⟩ := C37_told hb hpre hpost h
  have := fate_late h1 (fun i e k => ⟨by have := inOrder_mem ho i e k; omega, hx i e k⟩)
  subst this
  exact List.map_eq_nil_iff.mp h2

/-! ### Examples: a database that counts -/

def counter : Proto Nat Bytes Nat := ⟨0, fun b => some b, fun b => b.length ≠ 0, fun n b => .ok (n + b.length, n)⟩
def ent (t : Nat) (i : Inner) (h : Bytes) : Entry := ⟨t, i, h⟩

/-- Success, another term, another hash, and removal; in one history. -/
def story : List Ev :=
  [.add 1 ⟨1, [9], 10⟩, .add 2 ⟨1, [9], 11⟩, .add 3 ⟨2, [7], 12⟩, .add 9 ⟨2, [], 13⟩, .take true 1 (ent 1 (.data [1, 2]) [9]),
   .take true 2 (ent 2 (.data [5]) [8]), .take true 3 (ent 2 (.data []) [8]), .add 1 ⟨1, [9], 14⟩,
   .take true 4 (ent 2 (.membership [([1], true)]) [])]

def endOf {α : Type} : Out α → Option α
  | .ok a => some a
  | _ => none

example : ((endOf ((Side.create counter).run counter (fun _ => none) [1] story)).map fun s =>
      [s.got 10, s.got 11, s.got 12, s.got 13, s.got 14]) =
    some [[.success (ent 1 (.data [1, 2]) [9]) (some 0)], [.cancelled], [.badHash], [], []] := by decide +kernel

/-- Without itself in the membership the replica calls all that wait. -/
example : ((endOf ((Side.create counter).run counter (fun _ => none) [0] story)).map fun s =>
      [s.got 10, s.got 11, s.got 12, s.got 13, s.got 14]) =
    some [[.success (ent 1 (.data [1, 2]) [9]) (some 0)], [.cancelled], [.badHash], [.removed], [.removed]] := by decide +kernel

example : Fresh 10 story.tail ∧ InOrder 0 (takes story) := by
  refine ⟨?_, ?_⟩
  · intro idx t h; simp [story] at h; rcases h with ⟨_, rfl⟩ | ⟨_, rfl⟩ | ⟨_, rfl⟩ | ⟨_, rfl⟩ <;> simp
  · simp [story, takes, InOrder]

end Svr.Props.LogTx
