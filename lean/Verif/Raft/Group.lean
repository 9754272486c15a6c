import Verif.Raft.Mems

/-!
# What replicas of one group know about each other

`St` gives for each replica its state and the whole history its log is a window of. The predicates here are kept when
replicas move on (`Grows`).
-/

namespace Svr.Raft
variable {P : Type} [LinearOrder P]

abbrev St (P : Type) [LinearOrder P] := P → Option (Node P × List Entry)

/-- What is common to the group. -/
structure Ctx (P : Type) where
  v : Env P
  /-- inputs of HMAC that were used -/
  G : Bytes × Bytes → Prop
  group : Nat
  sm : Nat
  /-- the membership the group started with -/
  m0 : Membership P
  /-- a property of all entries that were requested -/
  K : Inner → Prop

/-- Replica `x` has promised the history `L`. -/
def Prom (σ : St P) (x : P) (L : List Entry) : Prop := ∃ s F, σ x = some (s, F) ∧ L <+: F ∧ L.length ≤ s.promise

/-- Replica `x` voted for `c` in term `t`. -/
def Cast (σ : St P) (x : P) (t : Nat) (c : P) : Prop := ∃ s F, σ x = some (s, F) ∧ (t, c) ∈ s.cast

/-- `Q` is a quorum of the voters of `m`. -/
structure Quorate (sm : Nat) (m : Membership P) (Q : List P) : Prop where
  nodup : Q.Nodup
  sub : ∀ x ∈ Q, x ∈ m.voting
  size : quorumSize m.voting.length sm ≤ Q.length

/-- Every membership in the history was a permitted successor of the one before. -/
def Changes (c : Ctx P) (L : List Entry) : Prop :=
  ∀ i e m, L[i]? = some e → memOf c.v e = some m → ∃ ld, validProgression ld (memAt c.v c.m0 (L.take i)) m c.sm = none

/-- Every entry has the property `K`. -/
def Kinds (c : Ctx P) (L : List Entry) : Prop := ∀ e ∈ L, e.inner = .notSet ∨ c.K e.inner

/-- The history `L` is committed: it is part of a history `L'` that a quorum of replicas promised. The quorum is one of
the membership of a history `F` that continues `L'`; in `F`, all memberships but the last were committed before. -/
inductive Com (c : Ctx P) (σ : St P) : List Entry → Prop
  | nil : Com c σ []
  | mk (L L' F : List Entry) (Q : List P) (hL : L <+: L') (hF : L' <+: F) (hq : Quorate c.sm (memAt c.v c.m0 F) Q)
    (hp : ∀ x ∈ Q, Prom σ x L') (hc : Changes c F) (hk : Kinds c F)
    (hs : ∀ i j a b, i < j → F[i]? = some a → F[j]? = some b → (memOf c.v a).isSome → (memOf c.v b).isSome →
      Com c σ (F.take (i + 1))) : Com c σ L

/-- All memberships in `L` but the last were committed before. -/
def Settled (c : Ctx P) (σ : St P) (L : List Entry) : Prop :=
  ∀ i j a b, i < j → L[i]? = some a → L[j]? = some b → (memOf c.v a).isSome → (memOf c.v b).isSome → Com c σ (L.take (i + 1))

/-- Every replica is still there, and kept its promises, votes and records. -/
def Grows (σ σ' : St P) : Prop := ∀ x s F, σ x = some (s, F) → ∃ s' F', σ' x = some (s', F') ∧ s.promise ≤ s'.promise ∧
  F.take s.promise <+: F' ∧ s.cast <+: s'.cast ∧ s.led <+: s'.led

theorem Grows.refl (σ : St P) : Grows σ σ := fun _ s F h =>
  ⟨s, F, h, le_rfl, List.take_prefix _ _, List.prefix_rfl, List.prefix_rfl⟩

theorem Grows.trans {a b c : St P} (h : Grows a b) (k : Grows b c) : Grows a c := by
  intro x s F hx
  obtain ⟨s1, F1, h1, h2, h3, h4, h5⟩ := h x s F hx
  obtain ⟨s2, F2, k1, k2, k3, k4, k5⟩ := k x s1 F1 h1
  exact ⟨s2, F2, k1, h2.trans k2, Node.take_prefix_trans h3 k3 h2, h4.trans k4, h5.trans k5⟩

theorem Prom.grows {σ σ' : St P} {x : P} {L : List Entry} (h : Prom σ x L) (g : Grows σ σ') : Prom σ' x L := by
  obtain ⟨s, F, h1, h2, h3⟩ := h
  obtain ⟨s', F', g1, g2, g3, _⟩ := g x s F h1
  exact ⟨s', F', g1, (List.prefix_take_iff.mpr ⟨h2, h3⟩).trans g3, h3.trans g2⟩

theorem Prom.prefix {σ : St P} {x : P} {L L' : List Entry} (h : Prom σ x L') (hp : L <+: L') : Prom σ x L := by
  obtain ⟨s, F, h1, h2, h3⟩ := h
  exact ⟨s, F, h1, hp.trans h2, hp.length_le.trans h3⟩

theorem Cast.grows {σ σ' : St P} {x c : P} {t : Nat} (h : Cast σ x t c) (g : Grows σ σ') : Cast σ' x t c := by
  obtain ⟨s, F, h1, h2⟩ := h
  obtain ⟨s', F', g1, _, _, g4, _⟩ := g x s F h1
  exact ⟨s', F', g1, g4.subset h2⟩

theorem Com.grows {c : Ctx P} {σ σ' : St P} {L : List Entry} (h : Com c σ L) (g : Grows σ σ') : Com c σ' L := by
  induction h with
  | nil => exact .nil
  | mk L L' F Q hL hF hq hp hc hk hs ih => exact .mk L L' F Q hL hF hq (fun x hx => (hp x hx).grows g) hc hk ih

theorem Com.prefix {c : Ctx P} {σ : St P} {L L' : List Entry} (h : Com c σ L') (hp : L <+: L') : Com c σ L := by
  cases h with
  | nil => rw [List.prefix_nil.mp hp]; exact .nil
  | mk _ L'' F Q hL hF hq hpr hc hk hs => exact .mk L L'' F Q (hp.trans hL) hF hq hpr hc hk hs

theorem Settled.grows {c : Ctx P} {σ σ' : St P} {L : List Entry} (h : Settled c σ L) (g : Grows σ σ') : Settled c σ' L :=
  fun i j a b hij ha hb hma hmb => (h i j a b hij ha hb hma hmb).grows g

/-- What holds of every history. -/
structure Hist (c : Ctx P) (σ : St P) (L : List Entry) : Prop where
  chain : Chain c.v c.G L
  changes : Changes c L
  settled : Settled c σ L
  kinds : Kinds c L

theorem Hist.nil (c : Ctx P) (σ : St P) : Hist c σ [] :=
  ⟨Chain.nil, fun i e m h => by simp at h, fun i j a b _ h => by simp at h, fun e h => by cases h⟩

theorem Hist.grows {c : Ctx P} {σ σ' : St P} {L : List Entry} (h : Hist c σ L) (g : Grows σ σ') : Hist c σ' L :=
  ⟨h.chain, h.changes, h.settled.grows g, h.kinds⟩

theorem Hist.take {c : Ctx P} {σ : St P} {L : List Entry} (h : Hist c σ L) (n : Nat) : Hist c σ (L.take n) := by
  have key : ∀ {i : Nat} {e : Entry}, (L.take n)[i]? = some e → i < n ∧ L[i]? = some e := by
    intro i e he
    rw [List.getElem?_take] at he
    split at he
    · exact ⟨by assumption, he⟩
    · cases he
  refine ⟨h.chain.take n, ?_, ?_, fun e he => h.kinds e (List.mem_of_mem_take he)⟩
  · intro i e m he hm
    obtain ⟨h1, h2⟩ := key he
    rw [List.take_take, Nat.min_eq_left (by omega)]
    exact h.changes i e m h2 hm
  · intro i j a b hij ha hb hma hmb
    obtain ⟨h1, h2⟩ := key ha
    obtain ⟨h3, h4⟩ := key hb
    rw [List.take_take, Nat.min_eq_left (by omega)]
    exact h.settled i j a b hij h2 h4 hma hmb

theorem Hist.prefix {c : Ctx P} {σ : St P} {L L' : List Entry} (h : Hist c σ L) (hp : L' <+: L) : Hist c σ L' := by
  rw [List.prefix_iff_eq_take.mp hp]
  exact h.take _

/-- What is known about a message `frm` sent to `dst`. -/
def MsgOk (c : Ctx P) (σ : St P) (frm : P) (dst : Option P) (m : Msg) : Prop :=
  match m.body with
  | .voteResp g => g = true → ∃ d, dst = some d ∧ Cast σ frm m.term d
  | .appReq pi _ ph es cm _ => ∃ L, Hist c σ L ∧ L.length = pi + es.length ∧ L.drop pi = es ∧
      (pi = 0 ∨ ∃ o, L[pi - 1]? = some o ∧ o.hash = ph) ∧ Com c σ (L.take cm)
  | .appResp ok mt _ a h => ok = true → a ≤ mt ∧ (h.length = 32 → ∃ L o, Hist c σ L ∧ L.length = mt ∧
      L[mt - 1]? = some o ∧ o.hash = h ∧ Prom σ frm (L.take a))
  | _ => True

theorem MsgOk.grows {c : Ctx P} {σ σ' : St P} {frm : P} {dst : Option P} {m : Msg}
    (h : MsgOk c σ frm dst m) (g : Grows σ σ') : MsgOk c σ' frm dst m := by
  obtain ⟨gr, t, b⟩ := m
  cases b with
  | voteResp ok =>
    intro hg
    obtain ⟨d, h1, h2⟩ := h hg
    exact ⟨d, h1, h2.grows g⟩
  | appReq pi pt ph es c a =>
    obtain ⟨L, h1, h2, h3, h4, h5⟩ := h
    exact ⟨L, h1.grows g, h2, h3, h4, h5.grows g⟩
  | appResp ok mt l a hh =>
    intro hg
    obtain ⟨h1, h2⟩ := h hg
    refine ⟨h1, fun hl => ?_⟩
    obtain ⟨L, o, k1, k2, k3, k4, k5⟩ := h2 hl
    exact ⟨L, o, k1.grows g, k2, k3, k4, k5.grows g⟩
  | voteReq => trivial
  | timeoutNow => trivial
  | notSet => trivial

/-- What a leader's table says about replica `y`. -/
structure RowOk (σ : St P) (p : P) (F : List Entry) (y : P) (r : Repl) : Prop where
  other : y ≠ p
  le : r.promise ≤ r.mtch
  len : r.mtch ≤ F.length
  prom : r.promise = 0 ∨ Prom σ y (F.take r.promise)

theorem RowOk.grows {σ σ' : St P} {p y : P} {F F' : List Entry} {r r' : Repl} (h : RowOk σ p F y r) (g : Grows σ σ')
    (hF : F <+: F') (hm : r'.mtch = r.mtch) (hp : r'.promise = r.promise) : RowOk σ' p F' y r' := by
  refine ⟨h.other, by rw [hm, hp]; exact h.le, by rw [hm]; exact h.len.trans hF.length_le, ?_⟩
  rw [hp]
  rcases h.prom with h1 | h1
  · exact .inl h1
  · right
    have : F'.take r.promise = F.take r.promise := by
      obtain ⟨t, rfl⟩ := hF
      rw [List.take_append_of_le_length (h.le.trans h.len)]
    rw [this]
    exact h1.grows g

theorem RowOk.fresh {σ : St P} {p y : P} {F : List Entry} {r : Repl} (hy : y ≠ p) (hm : r.mtch = 0) (hp : r.promise = 0) :
    RowOk σ p F y r := ⟨hy, by rw [hp]; exact Nat.zero_le _, by rw [hm]; exact Nat.zero_le _, .inl hp⟩

/-- A quorum of `m`, a membership of the group, elected `p` in term `t`. -/
def Elected (c : Ctx P) (σ : St P) (p : P) (t : Nat) (m : Membership P) : Prop :=
  ∃ Q L, Quorate c.sm m Q ∧ (∀ x ∈ Q, Cast σ x t p) ∧ m = memAt c.v c.m0 L ∧ Hist c σ L

theorem Elected.grows {c : Ctx P} {σ σ' : St P} {p : P} {t : Nat} {m : Membership P} (h : Elected c σ p t m) (g : Grows σ σ') :
    Elected c σ' p t m := by
  obtain ⟨Q, L, h1, h2, h3, h4⟩ := h
  exact ⟨Q, L, h1, fun x hx => (h2 x hx).grows g, h3, h4.grows g⟩

/-- The memberships a replica keeps are those of its history. -/
structure MemRel (c : Ctx P) (s : Node P) (F : List Entry) : Prop where
  mem : s.mem = memAt c.v c.m0 (F.take s.commit)
  unc : s.uncommitted = memsFrom c.v (s.commit + 1) (F.drop s.commit)

theorem MemRel.membership {c : Ctx P} {s : Node P} {F : List Entry} (h : MemRel c s F) : s.membership = memAt c.v c.m0 F := by
  unfold Node.membership
  rw [h.unc, h.mem]
  conv_rhs => rw [← List.take_append_drop s.commit F, memAt_append]
  exact (memAt_last c.v (F.drop s.commit) (s.commit + 1) _).symm

/-- What holds of replica `p` in state `s`, with history `F`, in a group of replicas. -/
structure NodeOk (c : Ctx P) (σ : St P) (p : P) (s : Node P) (F : List Entry) : Prop where
  me : s.me = p
  super : s.superMajority = c.sm
  group : s.group = c.group
  shaped : s.Shaped c.v
  log : LogOf s.log F
  hist : Hist c σ F
  hashed : ∀ x ∈ s.hashed, c.G x
  term : s.term < SZ
  voted : Node.Voted s
  cand : s.role = .candidate → s.votedFor = some s.me
  applied : s.lastApplied ≤ s.commit
  commit : s.commit ≤ s.promise
  promise : s.promise ≤ F.length
  com : Com c σ (F.take s.commit)
  mems : MemRel c s F
  voter : s.role ≠ .follower → p ∈ s.membership.voting
  rows : s.role = .leader → ∀ y r, s.followers.find y = some r → RowOk σ p F y r
  votes : s.role = .candidate → SSorted s.votes ∧ (∀ x ∈ s.votes, x ∈ s.membership.voting) ∧ ∀ x ∈ s.votes, Cast σ x s.term p
  led : ∀ t m, (t, m) ∈ s.led → Elected c σ p t m
  leads : s.role = .leader → ∃ m, (s.term, m) ∈ s.led
  sends : ∀ x ∈ s.sendable, MsgOk c σ p x.1 x.2

theorem NodeOk.chain {c : Ctx P} {σ : St P} {p : P} {s : Node P} {F : List Entry} (h : NodeOk c σ p s F) : Chain c.v c.G F :=
  h.hist.chain

theorem NodeOk.memLe {c : Ctx P} {σ : St P} {p : P} {s : Node P} {F : List Entry} (h : NodeOk c σ p s F) :
    ∀ x ∈ s.uncommitted, x.1 ≤ s.log.lastIdx := by
  intro x hx
  rw [h.mems.unc] at hx
  have := memsFrom_mem c.v _ _ x hx
  rw [List.length_drop] at this
  have h1 := h.commit
  have h2 := h.promise
  rw [h.log.lastIdx]
  omega

theorem NodeOk.grows {c : Ctx P} {σ σ' : St P} {p : P} {s : Node P} {F : List Entry}
    (h : NodeOk c σ p s F) (g : Grows σ σ') : NodeOk c σ' p s F :=
  { h with
    hist := h.hist.grows g
    com := h.com.grows g
    rows := fun hr y r hf => (h.rows hr y r hf).grows g List.prefix_rfl rfl rfl
    votes := fun hr => ⟨(h.votes hr).1, (h.votes hr).2.1, fun x hx => ((h.votes hr).2.2 x hx).grows g⟩
    led := fun t m hl => (h.led t m hl).grows g
    sends := fun x hx => (h.sends x hx).grows g }

/-- Replace the state of one replica. -/
def upd (σ : St P) (p : P) (s : Node P) (F : List Entry) : St P := fun x => if x = p then some (s, F) else σ x

theorem upd_self (σ : St P) (p : P) (s : Node P) (F : List Entry) : upd σ p s F p = some (s, F) := if_pos rfl

theorem upd_other (σ : St P) {p x : P} (s : Node P) (F : List Entry) (h : x ≠ p) : upd σ p s F x = σ x := if_neg h

theorem upd_upd (σ : St P) (p : P) (s s' : Node P) (F F' : List Entry) : upd (upd σ p s F) p s' F' = upd σ p s' F' := by
  funext x
  unfold upd
  split <;> rfl

theorem upd_eq {σ : St P} {p : P} {s : Node P} {F : List Entry} (h : σ p = some (s, F)) : upd σ p s F = σ := by
  funext x
  unfold upd
  split
  · rename_i hx; rw [hx, h]
  · rfl

theorem upd_grows {σ : St P} {p : P} {s s' : Node P} {F F' : List Entry} (h : σ p = some (s, F)) (hp : s.promise ≤ s'.promise)
    (hF : F.take s.promise <+: F') (hc : s.cast <+: s'.cast) (hl : s.led <+: s'.led) :
    Grows σ (upd σ p s' F') := by
  intro x sx Fx hx
  by_cases hxp : x = p
  · subst hxp
    rw [h] at hx
    cases hx
    exact ⟨s', F', upd_self _ _ _ _, hp, hF, hc, hl⟩
  · exact ⟨sx, Fx, by rw [upd_other _ _ _ hxp]; exact hx, le_rfl, List.take_prefix _ _, List.prefix_rfl, List.prefix_rfl⟩

/-! ### The nth largest -/

namespace Node

theorem insertDesc_perm (a : Nat) : ∀ l, (insertDesc a l).Perm (a :: l)
  | [] => List.Perm.refl _
  | b :: t => by
    unfold insertDesc
    split
    · exact List.Perm.refl _
    · exact ((insertDesc_perm a t).cons b).trans (List.Perm.swap a b t)

theorem sortDesc_perm : ∀ l, (sortDesc l).Perm l
  | [] => List.Perm.refl _
  | a :: t => (insertDesc_perm a (sortDesc t)).trans ((sortDesc_perm t).cons a)

theorem insertDesc_sorted (a : Nat) : ∀ l : List Nat, l.Pairwise (· ≥ ·) → (insertDesc a l).Pairwise (· ≥ ·)
  | [], _ => by simp [insertDesc]
  | b :: t, h => by
    have h' := List.pairwise_cons.mp h
    unfold insertDesc
    split
    · rename_i hb
      refine List.pairwise_cons.mpr ⟨?_, h⟩
      intro x hx
      rcases List.mem_cons.mp hx with rfl | hx
      · exact hb
      · exact le_trans (h'.1 x hx) hb
    · rename_i hb
      refine List.pairwise_cons.mpr ⟨?_, insertDesc_sorted a t h'.2⟩
      intro x hx
      rcases List.mem_cons.mp ((insertDesc_perm a t).mem_iff.mp hx) with rfl | hx
      · omega
      · exact h'.1 x hx

theorem sortDesc_sorted : ∀ l : List Nat, (sortDesc l).Pairwise (· ≥ ·)
  | [] => List.Pairwise.nil
  | a :: t => insertDesc_sorted a _ (sortDesc_sorted t)

/-- The `q`th largest: at least `q` numbers are as large, and fewer than `q` are larger. -/
theorem nth1_spec {l : List Nat} {q x : Nat} (h : nth1 (sortDesc l) q = .ok x) :
    x ∈ l ∧ q ≤ l.countP (fun y => decide (x ≤ y)) ∧ l.countP (fun y => decide (x < y)) < q := by
  unfold nth1 at h
  split at h
  · cases h
  rename_i hq
  split at h
  swap
  · cases h
  rename_i y hy
  cases h
  have hp := sortDesc_perm l
  have hs := sortDesc_sorted l
  rw [← hp.mem_iff, ← hp.countP_eq, ← hp.countP_eq]
  generalize sortDesc l = d at *
  have hlt := (List.getElem?_eq_some_iff.mp hy).1
  have hsplit : d = d.take (q - 1) ++ x :: d.drop q := by
    have h1 := List.take_append_drop (q - 1) d
    have h2 : d.drop (q - 1) = x :: d.drop q := by
      rw [List.drop_eq_getElem_cons hlt, (List.getElem?_eq_some_iff.mp hy).2, show q - 1 + 1 = q by omega]
    rw [h2] at h1; exact h1.symm
  rw [hsplit] at hs
  have hs' := List.pairwise_append.mp hs
  have hc := List.pairwise_cons.mp hs'.2.1
  have hlen : (d.take (q - 1)).length = q - 1 := by rw [List.length_take]; omega
  refine ⟨List.mem_of_getElem? hy, ?_, ?_⟩
  · rw [hsplit, List.countP_append, List.countP_cons]
    have : (d.take (q - 1)).countP (fun y => decide (x ≤ y)) = q - 1 := by
      rw [List.countP_eq_length.mpr, hlen]
      intro a ha
      exact decide_eq_true (hs'.2.2 a ha x List.mem_cons_self)
    rw [this]
    simp only [le_refl, decide_true, if_true]
    omega
  · rw [hsplit, List.countP_append, List.countP_cons]
    have h0 : (d.drop q).countP (fun y => decide (x < y)) = 0 := by
      rw [List.countP_eq_zero]
      intro a ha
      have := hc.1 a ha
      simp only [decide_eq_true_eq]; omega
    have h1 := List.countP_le_length (p := fun y => decide (x < y)) (l := d.take (q - 1))
    rw [h0]
    simp only [lt_irrefl, decide_false]
    rw [hlen] at h1
    simp; omega

/-! ### Uncommitted memberships -/

theorem promoteCommitted_spec (c : Nat) : ∀ (u : List (Nat × Membership P)) (cur : Membership P),
    ∃ pre, u = pre ++ (promoteCommitted c u cur).1 ∧
      (promoteCommitted c u cur).2 = (match pre.getLast? with | some (_, m) => m | none => cur)
  | [], cur => ⟨[], rfl, rfl⟩
  | (i, m) :: t, cur => by
    unfold promoteCommitted
    split
    · obtain ⟨pre, h1, h2⟩ := promoteCommitted_spec c t m
      refine ⟨(i, m) :: pre, by rw [List.cons_append, ← h1], ?_⟩
      rw [h2, List.getLast?_cons]
      cases pre.getLast? with
      | none => rfl
      | some x => rfl
    · exact ⟨[], rfl, rfl⟩

theorem discardCut_suffix (last : Nat) : ∀ u : List (Nat × Membership P), discardCut last u <:+ u
  | [] => List.suffix_rfl
  | (i, m) :: t => by
    unfold discardCut
    split
    · exact (discardCut_suffix last t).trans (List.suffix_cons _ _)
    · exact List.suffix_rfl

theorem discardCut_all (last : Nat) : ∀ u : List (Nat × Membership P), (∀ x ∈ u, x.1 ≤ last) → discardCut last u = u
  | [], _ => rfl
  | (i, m) :: t, h => by
    unfold discardCut
    rw [if_neg]
    have := h (i, m) List.mem_cons_self
    simp only at this
    omega

/-- The list and the committed membership after the update. -/
theorem maybeChange_spec (s : Node P) : ∃ u m f, s.maybeChangeUncommitted = { s with uncommitted := u, mem := m, followers := f } ∧
    u = (discardCut s.log.lastIdx (promoteCommitted s.commit s.uncommitted s.mem).1.reverse).reverse ∧
    m = (promoteCommitted s.commit s.uncommitted s.mem).2 ∧
    (f = s.followers ∨ f = (handleMembershipChange { s with uncommitted := u, mem := m }).followers) := by
  unfold maybeChangeUncommitted
  simp only
  split
  · obtain ⟨f, hf⟩ := handleMembershipChange_eq ({ s with
      uncommitted := (discardCut s.log.lastIdx (promoteCommitted s.commit s.uncommitted s.mem).1.reverse).reverse
      mem := (promoteCommitted s.commit s.uncommitted s.mem).2 } : Node P)
    rw [hf]
    exact ⟨_, _, f, rfl, rfl, rfl, .inr (by rw [hf])⟩
  · exact ⟨_, _, s.followers, rfl, rfl, rfl, .inl rfl⟩

theorem maybeChange_membership {s : Node P} (h : ∀ x ∈ s.uncommitted, x.1 ≤ s.log.lastIdx) :
    s.maybeChangeUncommitted.membership = s.membership := by
  obtain ⟨u, m, f, h1, h2, h3, _⟩ := maybeChange_spec s
  rw [h1]
  obtain ⟨pre, h4, h5⟩ := promoteCommitted_spec s.commit s.uncommitted s.mem
  have hu : u = (promoteCommitted s.commit s.uncommitted s.mem).1 := by
    rw [h2, discardCut_all, List.reverse_reverse]
    intro x hx
    rw [List.mem_reverse] at hx
    exact h x (by rw [h4]; exact List.mem_append_right _ hx)
  show (match u.getLast? with | some (_, m) => m | none => m) = s.membership
  unfold membership
  rw [h3, h5, hu]
  generalize (promoteCommitted s.commit s.uncommitted s.mem).1 = u1 at h4
  rw [h4, List.getLast?_append]
  cases u1.getLast? with
  | none => rfl
  | some x => rfl

theorem fold_rows {σ : St P} {p : P} {F : List Entry} (f : OMap P Repl → P → OMap P Repl)
    (hf : ∀ fs q y r, (f fs q).find y = some r → fs.find y = some r ∨ (y ≠ p ∧ r.mtch = 0 ∧ r.promise = 0)) :
    ∀ (l : List P) (fs : OMap P Repl) (y : P) (r : Repl), (l.foldl f fs).find y = some r →
      fs.find y = some r ∨ RowOk σ p F y r
  | [], fs, y, r, h => .inl h
  | q :: t, fs, y, r, h => by
    rcases fold_rows (σ := σ) (F := F) f hf t (f fs q) y r h with h1 | h1
    · rcases hf fs q y r h1 with h2 | ⟨h2, h3, h4⟩
      · exact .inl h2
      · exact .inr (RowOk.fresh h2 h3 h4)
    · exact .inr h1

theorem find_filterK' (m : OMap P Repl) (f : P → Bool) (y : P) (r : Repl) (h : (m.filterK f).find y = some r) : m.find y = some r := by
  have := OMap.mem_list.mpr h
  exact OMap.mem_list.mp (List.mem_of_mem_filter this)

theorem handleMembershipChange_rows {σ : St P} {p : P} {F : List Entry} {s : Node P} (hme : s.me = p) {y : P} {r : Repl}
    (h : s.handleMembershipChange.followers.find y = some r) : s.followers.find y = some r ∨ RowOk σ p F y r := by
  unfold handleMembershipChange at h
  split at h
  · have h1 := find_filterK' _ _ _ _ h
    refine fold_rows _ ?_ _ _ y r h1
    intro fs q y r h2
    split at h2
    · rename_i hq
      rw [OMap.find_insert] at h2
      split at h2
      · rename_i e
        cases h2
        exact .inr ⟨by rw [← e, ← hme]; exact hq.1, rfl, rfl⟩
      · exact .inl h2
    · exact .inl h2
  · exact .inl h

theorem maybeChange_rows {σ : St P} {p : P} {F : List Entry} {s : Node P} (hme : s.me = p) {y : P} {r : Repl}
    (h : s.maybeChangeUncommitted.followers.find y = some r) : s.followers.find y = some r ∨ RowOk σ p F y r := by
  obtain ⟨u, m, f, h1, _, _, h2⟩ := maybeChange_spec s
  rw [h1] at h
  simp only at h
  rcases h2 with rfl | rfl
  · exact .inl h
  · exact handleMembershipChange_rows (s := { s with uncommitted := u, mem := m }) hme h

end Node
end Svr.Raft
