import Verif.Raft.Toy

/-!
# Properties of one Raft replica: C27, C30, C31, C32

The messages given to the replica are arbitrary here: nothing is assumed about the other replicas.
-/

namespace Svr.Props.RaftNode
open Svr Svr.Raft Svr.Raft.Node
variable {P : Type} [LinearOrder P] {v : Env P}

/-- The replica was created with an empty log, or with a log loaded from another replica: a window of a history whose
hashes form a chain (with inputs of HMAC in `G0`). -/
def Created (v : Env P) (G0 : Bytes × Bytes → Prop) (full : List Entry) (s : Node P) : Prop :=
  ∃ group me mem log cfg cl sm, Loads v G0 log full ∧ (cl = true ∨ full = []) ∧ new v group me mem log cfg cl sm = .ok s

/-- The replica got to `s` by any calls after it was created. -/
def Reached (v : Env P) (G0 : Bytes × Bytes → Prop) (s : Node P) : Prop :=
  ∃ full s0 tr, Created v G0 full s0 ∧ Run v s0 tr s

theorem Reached.solo {G0 : Bytes × Bytes → Prop} {s : Node P} (h : Reached v G0 s) : ∃ full, Solo v G0 s full := by
  obtain ⟨full, s0, tr, ⟨g, me, mem, log, cfg, cl, sm, h1, h2, h3⟩, h4⟩ := h
  obtain ⟨f1, h5, _⟩ := new_solo h1 h2 h3
  obtain ⟨f2, h6, _⟩ := h4.solo h5
  exact ⟨f2, h6⟩

/-! ## C27 -/

/-- Whatever was sent to a replica, every entry in its log carries the HMAC, under the hash of the entry before it, of its
own index, term and content: an entry that does not extend the chain was not accepted. -/
theorem C27_entries_extend_chain {G0 : Bytes × Bytes → Prop} {s : Node P} (h : Reached v G0 s) {i : Nat} {e0 e : Entry}
    (h0 : s.log.at? i = some e0) (h1 : s.log.at? (i + 1) = some e) :
    e.hash = v.hmac e0.hash (hashInput v (i + 1) e.term e.inner) := by
  obtain ⟨full, hs⟩ := h.solo
  obtain ⟨a1, _, _, a4⟩ := hs.log.at_some h0
  obtain ⟨_, _, _, b4⟩ := hs.log.at_some h1
  have := (hs.chain _ _ b4).hash
  rw [this, show i + 1 - 1 + 1 = i + 1 by omega]
  congr 1
  unfold prevOf
  rw [if_neg (by omega), show i + 1 - 1 - 1 = i - 1 by omega, a4]

/-- The first entry extends the empty chain. -/
theorem C27_first_entry_extends_chain {G0 : Bytes × Bytes → Prop} {s : Node P} (h : Reached v G0 s) {e : Entry}
    (h1 : s.log.at? 1 = some e) : e.hash = v.hmac (zeros 32) (hashInput v 1 e.term e.inner) := by
  obtain ⟨full, hs⟩ := h.solo
  obtain ⟨_, _, _, b4⟩ := hs.log.at_some h1
  exact (hs.chain _ _ b4).hash

/-- If two replicas hold entries with the same hash at the same index, they hold the same entries at every earlier index
both have kept. The hash must not collide on the inputs the two replicas used; `ser` is the protobuf serialization. -/
theorem C27_same_hash_same_history {v' : Env P} {G0 : Bytes × Bytes → Prop} {s s' : Node P} (hh : v'.hmac = v.hmac)
    (hv : v'.ser = v.ser) (h : Reached v G0 s) (h' : Reached v' G0 s') (hser : SerInj v)
    (hn : NoCollision v (fun x => G0 x ∨ x ∈ s.hashed ∨ x ∈ s'.hashed)) {i : Nat} {e e' : Entry}
    (he : s.log.at? i = some e) (he' : s'.log.at? i = some e') (heq : e.hash = e'.hash) {j : Nat} (hj : j ≤ i) {a a' : Entry}
    (ha : s.log.at? j = some a) (ha' : s'.log.at? j = some a') : a = a' := by
  obtain ⟨full, hs⟩ := h.solo
  obtain ⟨full', hs'⟩ := h'.solo
  have c1 : Chain v (fun x => G0 x ∨ x ∈ s.hashed ∨ x ∈ s'.hashed) full :=
    hs.chain.mono (fun x hx => hx.elim .inl (fun h => .inr (.inl h)))
  have c2 : Chain v (fun x => G0 x ∨ x ∈ s.hashed ∨ x ∈ s'.hashed) full' := by
    intro k x hx
    have l := hs'.chain k x hx
    have hin : ∀ n t b, hashInput v' n t b = hashInput v n t b := by
      intro n t b
      cases b <;> simp only [hashInput, hv]
    refine ⟨l.term, l.fits, l.len, ?_, ?_⟩
    · rw [← hh, ← hin]; exact l.hash
    · rw [← hin]; exact l.known.elim .inl (fun h => .inr (.inr h))
  obtain ⟨p1, _, _, p4⟩ := hs.log.at_some he
  obtain ⟨_, _, _, q4⟩ := hs'.log.at_some he'
  obtain ⟨r1, _, _, r4⟩ := hs.log.at_some ha
  obtain ⟨_, _, _, t4⟩ := hs'.log.at_some ha'
  have := chain_inj hn hser c1 c2 p4 q4 heq
  have h5 : (full.take (i - 1 + 1))[j - 1]? = some a := by rw [List.getElem?_take, if_pos (by omega)]; exact r4
  have h6 : (full'.take (i - 1 + 1))[j - 1]? = some a' := by rw [List.getElem?_take, if_pos (by omega)]; exact t4
  rw [this, h6] at h5
  exact (Option.some.inj h5).symm

/-! ## C30 -/

/-- Term, commit index and promise index never decrease, as long as terms and indexes stay below 2^64 (part of `Run`).
Missing from the full claim: without that bound the term wraps (`C30_term_wraps`), and commit <= promise <= last index
needs honest followers (`C30_commit_above_promise`); among honest replicas see `Props/RaftCluster.lean`. -/
theorem C30_monotone_partial {G0 : Bytes × Bytes → Prop} {s s' : Node P} {tr : List (Op P × Obs P)} (h : Reached v G0 s)
    (k : Run v s tr s') : s.term ≤ s'.term ∧ s.commit ≤ s'.commit ∧ s.promise ≤ s'.promise := by
  obtain ⟨full, hs⟩ := h.solo
  obtain ⟨_, _, _, a, b, c, _⟩ := k.solo hs
  exact ⟨a, b, c⟩

/-- An entry at or below the promise index or the commit index stays: later the log still reaches it, and it still is the entry at its index
unless it was dropped from the front, which only happens to entries that were handed out. -/
theorem C30_promised_entries_stay {G0 : Bytes × Bytes → Prop} {s s' : Node P} {tr : List (Op P × Obs P)} (h : Reached v G0 s)
    (k : Run v s tr s') {i : Nat} {e : Entry} (hi : i ≤ s.promise ∨ i ≤ s.commit) (he : s.log.at? i = some e) :
    i ≤ s'.log.lastIdx ∧ (s'.log.at? i = some e ∨ i < s'.lastApplied) := by
  obtain ⟨full, hs⟩ := h.solo
  obtain ⟨full', hs', hp, _⟩ := k.solo hs
  obtain ⟨a1, a2, a3, a4⟩ := hs.log.at_some he
  have h1 : (full.take (max s.commit s.promise))[i - 1]? = some e := by rw [List.getElem?_take, if_pos (by omega)]; exact a4
  obtain ⟨t, ht⟩ := hp
  have h2 : full'[i - 1]? = some e := by
    rw [← ht, List.getElem?_append_left (List.getElem?_eq_some_iff.mp h1).1]; exact h1
  have h3 := (List.getElem?_eq_some_iff.mp h2).1
  refine ⟨by rw [hs'.log.lastIdx]; omega, ?_⟩
  by_cases ho : s'.log.oldest ≤ i
  · left; rw [hs'.log.at? ho, h2]
  · right
    have h0 := hs'.shaped
    unfold Shaped at h0
    rcases h0.old with h5 | h5
    · omega
    · omega

/-! ## C31 -/

/-- The messages a run hands out, and those still waiting. -/
def sentBy : List (Op P × Obs P) → List (Option P × Msg)
  | [] => []
  | (_, .sent l) :: t => l ++ sentBy t
  | _ :: t => sentBy t

theorem sentBy_append : ∀ (a b : List (Op P × Obs P)), sentBy (a ++ b) = sentBy a ++ sentBy b
  | [], b => rfl
  | (_, .sent l) :: t, b => by simp only [List.cons_append, sentBy, sentBy_append t b, List.append_assoc]
  | (_, .nothing) :: t, b => by simp only [List.cons_append, sentBy, sentBy_append t b]
  | (_, .answer _) :: t, b => by simp only [List.cons_append, sentBy, sentBy_append t b]
  | (_, .committed _) :: t, b => by simp only [List.cons_append, sentBy, sentBy_append t b]

theorem sent_cast {G0 : Bytes × Bytes → Prop} {s s' : Node P} {tr : List (Op P × Obs P)} {full : List Entry} (h : Solo v G0 s full)
    (k : Run v s tr s') : ∀ x ∈ sentBy tr, ∀ t c, voteOf s.me x = some (t, c) → (t, c) ∈ s'.cast := by
  induction k with
  | nil => intro x hx; simp [sentBy] at hx
  | @snoc s1 s2 tr op o k hf run ih =>
    intro x hx t c hv
    obtain ⟨f1, h1, _, _, _, _, _, hme, _⟩ := k.solo h
    obtain ⟨_, _, _, h5, _⟩ := Op.grows h1.shaped hf run
    rw [sentBy_append] at hx
    rcases List.mem_append.mp hx with hx | hx
    · exact h5.subset (ih x hx t c hv)
    · rcases Op.steps h1.shaped hf run with ⟨_, _, h6⟩ | ⟨i, e, _, h6, _⟩ | ⟨_, h6, h7⟩
      · cases o with
        | sent l => exact absurd rfl (h6 l)
        | nothing => simp [sentBy] at hx
        | answer r => simp [sentBy] at hx
        | committed r => simp [sentBy] at hx
      · subst h6; simp [sentBy] at hx
      · subst h6
        simp only [sentBy, List.append_nil] at hx
        exact h5.subset (h1.sends x hx t c (by rw [hme]; exact hv))

/-- Any two votes of one term that a replica sends, granted to others or asked for itself, are for the same candidate.
The messages it is given are arbitrary, except that terms and indexes stay below 2^64 (part of `Run`; without it see
`C31_vote_twice_after_wrap`). -/
theorem C31_one_vote_per_term_partial {G0 : Bytes × Bytes → Prop} {s0 s : Node P} {full : List Entry} {tr : List (Op P × Obs P)}
    (h : Created v G0 full s0) (k : Run v s0 tr s) {x y : Option P × Msg} (hx : x ∈ sentBy tr ++ s.sendable)
    (hy : y ∈ sentBy tr ++ s.sendable) {t : Nat} {c d : P} (hc : voteOf s0.me x = some (t, c)) (hd : voteOf s0.me y = some (t, d)) :
    c = d := by
  obtain ⟨g, me, mem, log, cfg, cl, sm, h1, h2, h3⟩ := h
  obtain ⟨f1, h5, _⟩ := new_solo h1 h2 h3
  obtain ⟨f2, h6, _, _, _, _, _, hme, _⟩ := k.solo h5
  have key : ∀ z ∈ sentBy tr ++ s.sendable, ∀ t c, voteOf s0.me z = some (t, c) → (t, c) ∈ s.cast := by
    intro z hz t c hv
    rcases List.mem_append.mp hz with hz | hz
    · exact sent_cast h5 k z hz t c hv
    · exact h6.sends z hz t c (by rw [hme]; exact hv)
  exact h6.voted.one t c d (key x hx t c hc) (key y hy t d hd)

/-! ## C32 -/

/-- The entries a run hands out as committed. -/
def takenBy : List (Op P × Obs P) → List (Nat × Entry)
  | [] => []
  | (_, .committed (some r)) :: t => r :: takenBy t
  | _ :: t => takenBy t

theorem takenBy_append : ∀ (a b : List (Op P × Obs P)), takenBy (a ++ b) = takenBy a ++ takenBy b
  | [], b => rfl
  | (_, .committed (some r)) :: t, b => by simp only [List.cons_append, takenBy, takenBy_append t b]
  | (_, .committed none) :: t, b => by simp only [List.cons_append, takenBy, takenBy_append t b]
  | (_, .nothing) :: t, b => by simp only [List.cons_append, takenBy, takenBy_append t b]
  | (_, .answer _) :: t, b => by simp only [List.cons_append, takenBy, takenBy_append t b]
  | (_, .sent _) :: t, b => by simp only [List.cons_append, takenBy, takenBy_append t b]

theorem taken_inv {G0 : Bytes × Bytes → Prop} {s s' : Node P} {tr : List (Op P × Obs P)} {full : List Entry} (h : Solo v G0 s full)
    (ha : s.lastApplied ≤ s.commit) (k : Run v s tr s') :
    s'.lastApplied ≤ s'.commit ∧ s'.lastApplied = s.lastApplied + (takenBy tr).length ∧
      ∀ n r, (takenBy tr)[n]? = some r → r.1 = s.lastApplied + 1 + n := by
  induction k with
  | nil => exact ⟨ha, by simp [takenBy], by simp [takenBy]⟩
  | @snoc s1 s2 tr op o k hf run ih =>
    obtain ⟨f1, h1, _⟩ := k.solo h
    obtain ⟨i1, i2, i3⟩ := ih
    obtain ⟨_, g2, _⟩ := Op.grows h1.shaped hf run
    rw [takenBy_append]
    rcases Op.steps h1.shaped hf run with ⟨st, h6, _⟩ | ⟨i, e, _, rfl, h7, h8, h9, rfl⟩ | ⟨_, rfl, rfl⟩
    · have h0 : takenBy [(op, o)] = [] := by
        cases o with
        | committed r =>
          cases r with
          | none => rfl
          | some r => exact absurd rfl (h6 r)
        | nothing => rfl
        | answer r => rfl
        | sent l => rfl
      have := st.mono.applied
      rw [h0, List.append_nil]
      exact ⟨by omega, by omega, i3⟩
    · have h0 : takenBy [(op, Obs.committed (some (i, e)))] = [(i, e)] := rfl
      rw [h0]
      refine ⟨h8, by simp only [List.length_append, List.length_singleton]; omega, ?_⟩
      intro n r hr
      by_cases hn : n < (takenBy tr).length
      · rw [List.getElem?_append_left hn] at hr
        exact i3 n r hr
      · rw [List.getElem?_append_right (by omega)] at hr
        have : n - (takenBy tr).length = 0 := by
          by_contra hne
          rw [List.getElem?_eq_none (by simp; omega)] at hr
          cases hr
        rw [this] at hr
        simp only [List.getElem?_cons_zero, Option.some.injEq] at hr
        subst hr
        simp only
        omega
    · have h0 : takenBy [(op, Obs.sent s1.sendable)] = [] := rfl
      rw [h0, List.append_nil]
      exact ⟨i1, i2, i3⟩

theorem created_applied {G0 : Bytes × Bytes → Prop} {s0 : Node P} {full : List Entry} (h : Created v G0 full s0) :
    (∃ f, Solo v G0 s0 f) ∧ s0.lastApplied = full.length ∧ s0.lastApplied ≤ s0.commit := by
  obtain ⟨g, me, mem, log, cfg, cl, sm, h1, h2, h3⟩ := h
  obtain ⟨f1, h5, h6, _⟩ := new_solo h1 h2 h3
  have hb := base_solo (group := g) (me := me) (mem := mem) (cfg := cfg) (sm := sm) h1 h2
  have st := (new_steps hb.shaped (by rw [h1.window.lastIdx]; exact h1.fits) h3).mono
  refine ⟨⟨f1, h5⟩, h6, ?_⟩
  have h7 := st.commit
  have h8 := st.applied
  have : (base g me mem log cfg cl sm : Node P).lastApplied = (base g me mem log cfg cl sm : Node P).commit := rfl
  omega

/-- The entries taken from a replica have the indexes after those it started with, one after the other, without gap or
repetition. -/
theorem C32_in_order_once {G0 : Bytes × Bytes → Prop} {s0 s : Node P} {full : List Entry} {tr : List (Op P × Obs P)}
    (h : Created v G0 full s0) (k : Run v s0 tr s) :
    (takenBy tr).map (·.1) = (List.range (takenBy tr).length).map (full.length + 1 + ·) := by
  obtain ⟨⟨f, h1⟩, h2, h3⟩ := created_applied h
  obtain ⟨_, _, h4⟩ := taken_inv h1 h3 k
  apply List.ext_getElem?
  intro n
  rw [List.getElem?_map, List.getElem?_map]
  by_cases hn : n < (takenBy tr).length
  · rw [List.getElem?_range hn, List.getElem?_eq_getElem hn]
    simp only [Option.map_some]
    rw [h4 n _ (List.getElem?_eq_getElem hn), h2]
  · rw [List.getElem?_eq_none (by omega), List.getElem?_eq_none (by simp; omega)]
    rfl

theorem taken_full {G0 : Bytes × Bytes → Prop} {s s' : Node P} {tr : List (Op P × Obs P)} {full : List Entry} (h : Solo v G0 s full)
    (k : Run v s tr s') : ∃ full', Solo v G0 s' full' ∧ full.take (max s.commit s.promise) <+: full' ∧
      ∀ i e, (i, e) ∈ takenBy tr → 1 ≤ i ∧ i ≤ s'.commit ∧ full'[i - 1]? = some e := by
  induction k with
  | nil => exact ⟨full, h, List.take_prefix _ _, by simp [takenBy]⟩
  | @snoc s1 s2 tr op o k hf run ih =>
    obtain ⟨f1, h1, h2, h3⟩ := ih
    obtain ⟨_, _, _, _, c2, c3, _⟩ := k.solo h
    obtain ⟨f2, h4, h5⟩ := Op.solo h1 hf run
    obtain ⟨_, g2, _⟩ := Op.grows h1.shaped hf run
    refine ⟨f2, h4, take_prefix_trans h2 h5 (max_le_max c2 c3), ?_⟩
    have keep : ∀ i e, 1 ≤ i → i ≤ s1.commit → f1[i - 1]? = some e → 1 ≤ i ∧ i ≤ s2.commit ∧ f2[i - 1]? = some e := by
      intro i e a1 a2 a3
      refine ⟨a1, by omega, ?_⟩
      obtain ⟨t, ht⟩ := h5
      have : (f1.take (max s1.commit s1.promise))[i - 1]? = some e := by rw [List.getElem?_take, if_pos (by omega)]; exact a3
      rw [← ht, List.getElem?_append_left (List.getElem?_eq_some_iff.mp this).1]; exact this
    intro i e hm
    rw [takenBy_append] at hm
    rcases List.mem_append.mp hm with hm | hm
    · obtain ⟨a1, a2, a3⟩ := h3 i e hm
      exact keep i e a1 a2 a3
    · rcases Op.steps h1.shaped hf run with ⟨st, h6, _⟩ | ⟨i', e', _, rfl, h7, h8, h9, _⟩ | ⟨_, rfl, _⟩
      · exfalso
        cases o with
        | committed r =>
          cases r with
          | none => simp [takenBy] at hm
          | some r => exact absurd rfl (h6 r)
        | nothing => simp [takenBy] at hm
        | answer r => simp [takenBy] at hm
        | sent l => simp [takenBy] at hm
      · simp only [takenBy, List.mem_singleton, Prod.mk.injEq] at hm
        obtain ⟨rfl, rfl⟩ := hm
        obtain ⟨b1, _, _, b4⟩ := h1.log.at_some h9
        exact keep _ _ b1 h8 b4
      · simp [takenBy] at hm

/-- Only committed entries are taken, and an entry taken stays the one in the log at its index until it is dropped from
the front. -/
theorem C32_only_committed {G0 : Bytes × Bytes → Prop} {s0 s : Node P} {full : List Entry} {tr : List (Op P × Obs P)}
    (h : Created v G0 full s0) (k : Run v s0 tr s) {i : Nat} {e : Entry} (ht : (i, e) ∈ takenBy tr) :
    i ≤ s.commit ∧ i ≤ s.log.lastIdx ∧ (s.log.at? i = some e ∨ i < s.log.oldest) := by
  obtain ⟨⟨f, h1⟩, _, _⟩ := created_applied h
  obtain ⟨f', h2, _, h3⟩ := taken_full h1 k
  obtain ⟨a1, a2, a3⟩ := h3 i e ht
  have := (List.getElem?_eq_some_iff.mp a3).1
  refine ⟨a2, by rw [h2.log.lastIdx]; omega, ?_⟩
  by_cases ho : s.log.oldest ≤ i
  · left; rw [h2.log.at? ho, a3]
  · exact .inr (by omega)

/-- Taking never skips: nothing is returned only when everything committed was taken. -/
theorem C32_nothing_left {s s' : Node P} (hr : s.takeCommittedLog = .ok (s', none)) : s' = s ∧ s.commit ≤ s.lastApplied := by
  unfold takeCommittedLog at hr
  split at hr
  · rename_i hc; cases hr; exact ⟨rfl, hc⟩
  · simp only at hr
    cases ha : s.log.at? (s.lastApplied + 1) with
    | none => rw [ha] at hr; cases hr
    | some x => rw [ha] at hr; cases hr

/-! ## Concrete runs -/

def one : Membership Nat := ⟨[1], [1]⟩
def three : Membership Nat := ⟨[1, 2, 3], [1, 2, 3]⟩

/-- A replica created with an empty log. -/
theorem created_empty {group : Nat} {me : Nat} {mem : Membership Nat} {cfg : RaftCfg} {sm max : Nat} {s : Node Nat}
    (h : new toy group me mem (Log.new max) cfg false sm = .ok s) : Created toy (fun _ => False) [] s :=
  ⟨group, me, mem, Log.new max, cfg, false, sm,
    ⟨⟨by simp [Log.new], by simp [Log.new], rfl, fun _ => rfl⟩, Chain.nil, le_rfl, by decide⟩, .inr rfl, h⟩

/-- The state after some calls on a new replica. -/
def after (mem : Membership Nat) (cfg : RaftCfg) (ops : List (Op Nat)) : Out (Node Nat × List (Op Nat × Obs Nat)) := do
  let s ← new toy 5 1 mem (Log.new 10000) cfg false 0
  runOps toy ops s

/-- Test that the calls fit and succeed. -/
def good (mem : Membership Nat) (cfg : RaftCfg) (ops : List (Op Nat)) : Bool :=
  match new toy 5 1 mem (Log.new 10000) cfg false 0 with
  | .ok s => fitsAll toy ops s && (runOps toy ops s).isOk
  | _ => false

theorem good_run {mem : Membership Nat} {cfg : RaftCfg} {ops : List (Op Nat)} (h : good mem cfg ops = true) :
    ∃ s0 s tr, Created toy (fun _ => False) [] s0 ∧ Run toy s0 tr s ∧ after mem cfg ops = .ok (s, tr) := by
  unfold good at h
  split at h
  · rename_i s0 h0
    simp only [Bool.and_eq_true] at h
    cases hr : runOps toy ops s0 with
    | ok r =>
      obtain ⟨s, tr⟩ := r
      refine ⟨s0, s, tr, created_empty h0, runOps_run h.1 hr, ?_⟩
      unfold after
      rw [h0]
      exact hr
    | abort => rw [hr] at h; exact absurd h.2 (by decide)
    | ub => rw [hr] at h; exact absurd h.2 (by decide)
  · cases h

/-- A fact about the state and trace after some calls. -/
def holds (mem : Membership Nat) (cfg : RaftCfg) (ops : List (Op Nat)) (f : Node Nat → List (Op Nat × Obs Nat) → Bool) : Bool :=
  match after mem cfg ops with
  | .ok (s, tr) => f s tr
  | _ => false

theorem holds_run {mem : Membership Nat} {cfg : RaftCfg} {ops : List (Op Nat)} {f : Node Nat → List (Op Nat × Obs Nat) → Bool}
    (h : good mem cfg ops = true) (hf : holds mem cfg ops f = true) :
    ∃ s0 s tr, Created toy (fun _ => False) [] s0 ∧ Run toy s0 tr s ∧ f s tr = true := by
  obtain ⟨s0, s, tr, h1, h2, h3⟩ := good_run h
  refine ⟨s0, s, tr, h1, h2, ?_⟩
  unfold holds at hf
  rw [h3] at hf
  exact hf

/-- A leader of a group of one takes two requests; four entries (one written on election) reach it. -/
def soloOps : List (Op Nat) :=
  [.request (.data [7]), .request (.data [8, 9]), .takeCommitted, .takeCommitted, .tick, .takeCommitted, .takeCommitted]

set_option maxRecDepth 100000 in
example : ∃ s0 s tr, Created toy (fun _ => False) [] s0 ∧ Run toy s0 tr s ∧
    decide (s.commit = 3 ∧ s.promise = 3 ∧ (takenBy tr).map (·.1) = [1, 2, 3] ∧
      (s.log.at? 2).map (·.inner) = some (.data [7])) = true :=
  holds_run (mem := one) (cfg := toyCfg) (ops := soloOps) (f := fun s tr => decide (s.commit = 3 ∧ s.promise = 3 ∧
    (takenBy tr).map (·.1) = [1, 2, 3] ∧ (s.log.at? 2).map (·.inner) = some (.data [7]))) (by decide) (by decide)

/-- The inputs of HMAC of that run do not collide, as `C27_same_hash_same_history` asks. -/
def noColl (l : List (Bytes × Bytes)) : Bool :=
  l.all (fun a => l.all (fun b => decide (toyHash a.1 a.2 = toyHash b.1 b.2) → decide (a = b)))

set_option maxRecDepth 100000 in
example : holds one toyCfg soloOps (fun s _ => noColl s.hashed && decide (s.hashed.length = 3)) = true := by decide

/-- A follower asked for its vote twice in term 1. -/
def voteOps : List (Op Nat) :=
  [.receive 2 ⟨5, 1, .voteReq 0 0 []⟩, .receive 3 ⟨5, 1, .voteReq 0 0 []⟩, .takeSendable, .receive 3 ⟨5, 2, .voteReq 0 0 []⟩]

set_option maxRecDepth 100000 in
example : ∃ s0 s tr, Created toy (fun _ => False) [] s0 ∧ Run toy s0 tr s ∧
    decide ((sentBy tr ++ s.sendable).map (voteOf 1) = [some (1, 2), none, some (2, 3)]) = true :=
  holds_run (mem := three) (cfg := toyCfg) (ops := voteOps)
    (f := fun s tr => decide ((sentBy tr ++ s.sendable).map (voteOf 1) = [some (1, 2), none, some (2, 3)])) (by decide) (by decide)

/-- A follower accepts an entry of a leader and promises it. -/
def followOps : List (Op Nat) :=
  let e : Entry := ⟨1, .data [4], toyHash (zeros 32) (hashInput toy 1 1 (.data [4]))⟩
  let forged : Entry := ⟨1, .data [5], toyHash (zeros 32) (hashInput toy 2 1 (.data [5]))⟩
  [.receive 2 ⟨5, 1, .appReq 0 0 [] [e] 0 1⟩, .receive 2 ⟨5, 1, .appReq 1 1 e.hash [forged] 0 1⟩]

set_option maxRecDepth 100000 in
example : ∃ s0 s tr, Created toy (fun _ => False) [] s0 ∧ Run toy s0 tr s ∧
    decide (s.promise = 1 ∧ s.log.lastIdx = 1 ∧ (s.log.at? 1).map (·.inner) = some (.data [4])) = true :=
  holds_run (mem := three) (cfg := toyCfg) (ops := followOps)
    (f := fun s _ => decide (s.promise = 1 ∧ s.log.lastIdx = 1 ∧ (s.log.at? 1).map (·.inner) = some (.data [4])))
    (by decide) (by decide)

/-! ## Where the full claims fail -/

def fast : RaftCfg := ⟨1, 1, 1000, 100⟩


set_option maxRecDepth 100000 in
/-- The term of a replica can decrease: `++current_term_` wraps (enclave/raft/raft.cc:247). -/
theorem C30_term_wraps : ∃ s0 s s' : Node Nat, Created toy (fun _ => False) [] s0 ∧
    s0.receive toy ⟨5, 2 ^ 64 - 1, .voteReq 0 0 []⟩ 2 = .ok s ∧ s.timerTick toy = .ok s' ∧ s'.term < s.term := by
  have h : (match new toy 5 1 three (Log.new 10000) fast false 0 with
    | .ok s0 => match s0.receive toy ⟨5, 2 ^ 64 - 1, .voteReq 0 0 []⟩ 2 with
      | .ok s => match s.timerTick toy with
        | .ok s' => decide (s'.term < s.term)
        | _ => false
      | _ => false
    | _ => false) = true := by decide
  split at h
  · rename_i s0 h0
    split at h
    · rename_i s h1
      split at h
      · rename_i s' h2
        exact ⟨s0, s, s', created_empty h0, h1, h2, of_decide_eq_true h⟩
      · cases h
    · cases h
  · cases h

def twiceOps : List (Op Nat) :=
  [.receive 2 ⟨5, 1, .voteReq 0 0 []⟩, .receive 2 ⟨5, 2 ^ 64 - 1, .timeoutNow⟩, .receive 3 ⟨5, 1, .voteReq 0 0 []⟩]

set_option maxRecDepth 100000 in
/-- After the term wrapped, a replica votes a second time in a term. -/
theorem C31_vote_twice_after_wrap : ∃ (s0 s : Node Nat) (tr : List (Op Nat × Obs Nat)), Created toy (fun _ => False) [] s0 ∧
    runOps toy twiceOps s0 = .ok (s, tr) ∧ (some 2, ⟨5, 1, .voteResp true⟩) ∈ s.sendable ∧
    (some 3, ⟨5, 1, .voteResp true⟩) ∈ s.sendable := by
  have h : (match new toy 5 1 three (Log.new 10000) fast false 0 with
    | .ok s0 => match runOps toy twiceOps s0 with
      | .ok (s, _) => decide ((some 2, ⟨5, 1, .voteResp true⟩) ∈ s.sendable ∧ (some 3, ⟨5, 1, .voteResp true⟩) ∈ s.sendable)
      | _ => false
    | _ => false) = true := by decide
  split at h
  · rename_i s0 h0
    split at h
    · rename_i s tr h1
      have := of_decide_eq_true h
      exact ⟨s0, s, tr, created_empty h0, h1, this.1, this.2⟩
    · cases h
  · cases h

/-- A leader elected by replica 2 hears from 2 and 3 that they promised up to index 5, while matching nothing. -/
def lieOps : List (Op Nat) :=
  [.tick, .receive 2 ⟨5, 1, .voteResp true⟩, .receive 2 ⟨5, 1, .appResp true 0 5 5 []⟩, .receive 3 ⟨5, 1, .appResp true 0 5 5 []⟩]

set_option maxRecDepth 100000 in
/-- Followers that report a promise above their match index make a leader commit what nobody has: the commit index passes
both the promise index and the end of the log. -/
theorem C30_commit_above_promise : ∃ s : Node Nat, Reached toy (fun _ => False) s ∧ s.promise < s.commit ∧
    s.log.lastIdx < s.commit := by
  obtain ⟨s0, s, tr, h1, h2, h3⟩ := holds_run (mem := three) (cfg := fast) (ops := lieOps)
    (f := fun s _ => decide (s.promise < s.commit ∧ s.log.lastIdx < s.commit)) (by decide) (by decide)
  exact ⟨s, ⟨[], s0, tr, h1, h2⟩, of_decide_eq_true h3⟩

end Svr.Props.RaftNode
