import Verif.Raft.Cluster

/-!
# The two leaves that guard the commit and promise index

What `VerifyMerkleTree` and `UpdateMerkleTree` (enclave/raft/raft.cc:1467-1484) achieve over whole calls: the leaves
always hold the hashes of the entries at the commit and promise index, and once they do not, the indexes never move.
-/

namespace Svr.Raft
namespace Node

variable {P : Type} [LinearOrder P] {v : Env P} {inp : Inp P}

/-- An atom leaves the entries up to the commit and promise index alone, but may forget applied ones. -/
theorem Atom.entry {s s' : Node P} (h : Atom v inp s s') (hs : s.Shaped v) {i : Nat} (hi : i ≤ s.log.lastIdx)
    (hm : i ≤ max s.commit s.promise) :
    (s'.log.at? i = s.log.at? i ∨ (s'.log.at? i = none ∧ i < s.lastApplied)) ∧ i ≤ s'.log.lastIdx := by
  have same : ∀ s' : Node P, s'.log = s.log →
      (s'.log.at? i = s.log.at? i ∨ (s'.log.at? i = none ∧ i < s.lastApplied)) ∧ i ≤ s'.log.lastIdx := by
    intro s' hl
    rw [hl]
    exact ⟨.inl rfl, hi⟩
  cases h with
  | append _ e r hh hm hw h =>
    have key : ∀ l er, s.log.append v.z e s.lastApplied = .ok (l, er) →
        (l.at? i = s.log.at? i ∨ (l.at? i = none ∧ i < s.lastApplied)) ∧ i ≤ l.lastIdx := by
      intro l er h1
      obtain ⟨_, h2, h3, h4, _, _⟩ := Shape.append hs h1
      refine ⟨?_, by omega⟩
      by_cases ha : s.lastApplied ≤ i
      · exact .inl (h3 i ha hi)
      · cases hl : l.at? i with
        | none => exact .inr ⟨rfl, by omega⟩
        | some o => exact .inl (h4 i o hi hl).symm
    rcases logAppend_eq h with ⟨rfl, _⟩ | ⟨l, er, h1, rfl, _⟩ | ⟨l, h1, _, ⟨rfl, _⟩ | ⟨_, _, _, _, h3⟩⟩
    · exact same _ rfl
    · exact key _ _ h1
    · exact key _ _ h1
    · obtain ⟨_, f, rfl⟩ := addUncommitted_eq h3
      exact key _ _ h1
  | cut idx hr hc hp ht =>
    have hidx : idx ≤ s.log.lastIdx := by
      have : (s.log.at? idx).isSome := by
        unfold Log.termAt at ht
        cases h : s.log.at? idx with
        | none => rw [h] at ht; exact absurd rfl ht
        | some _ => rfl
      exact ((Shape.at_iff hs idx).mp this).2
    obtain ⟨u, m, f, h⟩ := maybeChangeUncommitted_eq ({ s with log := (s.log.cancelFrom idx).1 } : Node P)
    rw [h]
    have hlt : max s.commit s.promise < idx := max_lt hc hp
    obtain ⟨_, h1, _, h2, _⟩ := Shape.cut hs hlt hidx
    exact ⟨.inl (h2 i (by omega)), by show i ≤ ((s.log.cancelFrom idx).1).lastIdx; omega⟩
  | advance _ hr h =>
    obtain ⟨p, c, g, u, m, f, rfl, _⟩ := advance_eq hr h
    exact same _ rfl
  | follow =>
    obtain ⟨u, m, f, h⟩ := followLeader_eq s _ _
    rw [h]
    exact same _ rfl
  | send _ dst m hso h =>
    rcases addSendable_eq h with rfl | ⟨rfl, _⟩
    · exact same _ rfl
    · exact same _ rfl
  | misc => exact same _ rfl
  | table => exact same _ rfl
  | demote => exact same _ rfl
  | raise => exact same _ rfl
  | campaign => exact same _ rfl
  | grant => exact same _ rfl
  | voted => exact same _ rfl
  | lead => exact same _ rfl
  | hash => exact same _ rfl
  | ack => exact same _ rfl

/-! ### A mismatch stays, and nothing moves -/

/-- The leaf disagrees with the entry at `i`, and neither new entries nor the discarding of old ones can change that. -/
structure Off (s : Node P) (i : Nat) (leaf : Bytes) : Prop where
  le : i ≤ s.log.lastIdx
  max : i ≤ max s.commit s.promise
  ne : merkleHash (s.log.at? i) ≠ .ok leaf
  kept : s.lastApplied ≤ i ∨ leaf ≠ zeros 8

theorem Off.atom {s s' : Node P} {i : Nat} {leaf : Bytes} (h : Atom v inp s s') (hs : s.Shaped v) (q : Quiet s s')
    (hap : s'.lastApplied = s.lastApplied) (o : s.Off i leaf) : s'.Off i leaf := by
  obtain ⟨h1, h2⟩ := h.entry hs o.le o.max
  refine ⟨h2, by rw [q.commit, q.promise]; exact o.max, ?_, by rw [hap]; exact o.kept⟩
  rcases h1 with h1 | ⟨h1, h3⟩
  · rw [h1]; exact o.ne
  · rw [h1]
    rcases o.kept with h4 | h4
    · omega
    · intro h5
      simp only [merkleHash, Out.ok.injEq] at h5
      exact h4 h5.symm

/-- One of the leaves is off. -/
def Stuck (s : Node P) : Prop := s.Off s.commit s.commitLeaf ∨ s.Off s.promise s.promiseLeaf

theorem Stuck.not_agrees {s : Node P} (h : s.Stuck) : ¬ s.Agrees := by
  rintro ⟨h1, h2⟩
  rcases h with h | h
  · exact h.ne h1
  · exact h.ne h2

theorem Course.stuck {s s' : Node P} (h : Course v inp s s') (hs : s.Shaped v) (hk : s.Stuck) : Quiet s s' ∧ s'.Stuck := by
  induction h with
  | refl => exact ⟨⟨rfl, rfl, rfl, rfl⟩, hk⟩
  | quiet h k q ih =>
    obtain ⟨h1, h2⟩ := ih
    refine ⟨⟨q.commit.trans h1.commit, q.promise.trans h1.promise, q.commitLeaf.trans h1.commitLeaf,
      q.promiseLeaf.trans h1.promiseLeaf⟩, ?_⟩
    unfold Stuck
    rw [q.commit, q.promise, q.commitLeaf, q.promiseLeaf]
    exact h2.imp (Off.atom k (h.shaped hs) q k.mono.applied) (Off.atom k (h.shaped hs) q k.mono.applied)
  | moved h k hl u l ok w pa ih => exact absurd ok ih.2.not_agrees

/-- If no walk to the root succeeds, nothing moves either. -/
theorem Course.severed {s s' : Node P} (h : Course v inp s s') (hp : ∀ w, v.path w = false) : Quiet s s' := by
  induction h with
  | refl => exact ⟨rfl, rfl, rfl, rfl⟩
  | quiet h k q ih =>
    exact ⟨q.commit.trans ih.commit, q.promise.trans ih.promise, q.commitLeaf.trans ih.commitLeaf,
      q.promiseLeaf.trans ih.promiseLeaf⟩
  | moved h k hl u l ok w pa ih => rw [hp] at pa; cases pa

/-- A call on a replica whose leaves are off. -/
theorem Op.stuck {s s' : Node P} {op : Op P} {o : Obs P} (hs : s.Shaped v) (hf : op.Fits s) (hk : s.Stuck)
    (hz : s.commit ≤ s.promise ∨ s.promiseLeaf ≠ zeros 8) (h : op.run v s = .ok (s', o)) : Quiet s s' ∧ s'.Stuck := by
  rcases op.course hs hf h with ⟨h1, _⟩ | ⟨i, e, _, _, h1, h2, h3, rfl⟩ | ⟨_, _, rfl⟩
  · exact h1.stuck hs hk
  · refine ⟨⟨rfl, rfl, rfl, rfl⟩, ?_⟩
    rcases hk with hk | hk
    · exact .inl ⟨hk.le, hk.max, hk.ne, .inl h2⟩
    · refine .inr ⟨hk.le, hk.max, hk.ne, ?_⟩
      rcases hz with hz | hz
      · exact .inl (le_trans h2 hz)
      · exact .inr hz
  · exact ⟨⟨rfl, rfl, rfl, rfl⟩, hk.imp (fun h => ⟨h.le, h.max, h.ne, h.kept⟩) (fun h => ⟨h.le, h.max, h.ne, h.kept⟩)⟩

theorem Run.stuck {s s' : Node P} {tr : List (Op P × Obs P)} (h : Run v s tr s') (hs : s.Shaped v) (hk : s.Stuck)
    (hz : s.commit ≤ s.promise ∨ s.promiseLeaf ≠ zeros 8) : Quiet s s' ∧ s'.Stuck ∧ s'.Shaped v := by
  induction h with
  | nil => exact ⟨⟨rfl, rfl, rfl, rfl⟩, hk, hs⟩
  | snoc h hf k ih =>
    obtain ⟨h1, h2, h3⟩ := ih
    obtain ⟨h4, h5⟩ := Op.stuck h3 hf h2 (by rw [h1.commit, h1.promise, h1.promiseLeaf]; exact hz) k
    exact ⟨⟨h4.commit.trans h1.commit, h4.promise.trans h1.promise, h4.commitLeaf.trans h1.commitLeaf,
      h4.promiseLeaf.trans h1.promiseLeaf⟩, h5, Op.shaped h3 hf k⟩

theorem Run.severed {s s' : Node P} {tr : List (Op P × Obs P)} (h : Run v s tr s') (hs : s.Shaped v)
    (hp : ∀ w, v.path w = false) : Quiet s s' ∧ s'.Shaped v := by
  induction h with
  | nil => exact ⟨⟨rfl, rfl, rfl, rfl⟩, hs⟩
  | @snoc s1 s2 _ _ _ h hf k ih =>
    obtain ⟨h1, h3⟩ := ih
    refine ⟨?_, Op.shaped h3 hf k⟩
    have h4 : Quiet s1 s2 := by
      rcases Op.course h3 hf k with ⟨h5, _⟩ | ⟨i, e, _, _, _, _, _, h5⟩ | ⟨_, _, h5⟩
      · exact h5.severed hp
      · rw [h5]; exact ⟨rfl, rfl, rfl, rfl⟩
      · rw [h5]; exact ⟨rfl, rfl, rfl, rfl⟩
    exact ⟨h4.commit.trans h1.commit, h4.promise.trans h1.promise, h4.commitLeaf.trans h1.commitLeaf,
      h4.promiseLeaf.trans h1.promiseLeaf⟩

/-! ### In a group nobody tampers with, the leaves agree -/

theorem node_kept {c : Ctx P} {σ : St P} {p : P} {s s' : Node P} {F : List Entry} (ok : NodeOk c σ p s F)
    (k : Atom c.v inp s s') (q : Quiet s s') (ha : s.Agrees) : s'.Agrees := by
  have h1 := ok.applied
  have h2 := ok.commit
  have h3 := ok.promise
  have h4 := ok.log.lastIdx
  have key : ∀ i, s.lastApplied ≤ i → i ≤ s.promise → s'.log.at? i = s.log.at? i := by
    intro i a b
    rcases (k.entry ok.shaped (i := i) (by omega) (by omega)).1 with h | ⟨_, h⟩
    · exact h
    · omega
  refine ⟨?_, ?_⟩
  · rw [q.commit, q.commitLeaf, key _ h1 h2]; exact ha.1
  · rw [q.promise, q.promiseLeaf, key _ (by omega) le_rfl]; exact ha.2

theorem Course.agrees {g : Setting P} {r : Nat → Nat} {pa : Nat → Bool} {G : Bytes × Bytes → Prop} {K : Inner → Prop}
    {σ : St P} {p : P} {s s' : Node P} {F : List Entry} (h : Course (g.env r pa) inp s s') (ok : NodeOk (g.ctx G K) σ p s F)
    (hself : σ p = some (s, F)) (hin : InpOk (g.ctx G K) σ p inp) (hty : ∀ q m, inp = .msg q m → Typed m)
    (hh : ∀ x ∈ s'.hashed, G x) (hn : NoCollision g.v G) (hser : SerInj g.v) (ha : s.Agrees) : s'.Agrees := by
  induction h with
  | refl => exact ha
  | quiet h k q ih =>
    have hh' := fun x hx => hh x (k.mono.hashed.subset hx)
    obtain ⟨F1, a1, _⟩ := (h.steps.env (g := g)).group_inv (c := g.ctx G K) ok hself hin hty hh' hn hser
    exact node_kept a1 (k.env (g := g)) q (ih hh')
  | moved h k hl u l _ w _ ih => exact updateMerkle_agrees u

end Node

open Node

variable {P : Type} [LinearOrder P]

def World.Agree (W : World P) : Prop := ∀ p s, W.node p = some s → s.Agrees

theorem Next.agree {g : Setting P} {G : Bytes × Bytes → Prop} {K : Inner → Prop} {W W' : World P} {σ : St P} (h : Next g W W')
    (hi : GInv (g.ctx G K) W σ) (hG : ∀ p s, W'.node p = some s → ∀ x ∈ s.hashed, G x) (hK : ∀ i ∈ W'.asked, K i)
    (hn : NoCollision g.v G) (hser : SerInj g.v) (ha : W.Agree) : W'.Agree := by
  have put : ∀ p s A N Q, s.Agrees → (W.put p s A N Q).Agree := by
    intro p s A N Q hs q t hq
    by_cases hqp : q = p
    · subst hqp
      rw [World.put_self] at hq
      cases hq
      exact hs
    · rw [World.put_other _ _ _ _ _ hqp] at hq
      exact ha q t hq
  have fresh : ∀ (r : Nat → Nat) (pa : Nat → Bool) (p : P) (mem : Membership P) (log : Log) (cfg : RaftCfg) (cl : Bool) (s : Node P)
      (F : List Entry), W.node p = none → LogOf log F → Log.bytesOf g.v.z log.entries ≤ log.curr → F.length + 2 < SZ →
      (cl = true ∨ F = []) → Node.new (g.env r pa) g.group p mem log cfg cl g.sm = .ok s → Hist (g.ctx G K) σ F →
      Com (g.ctx G K) σ F → mem = memAt g.v g.m0 F → (∀ x ∈ s.hashed, G x) → s.Agrees := by
    intro r pa p mem log cfg cl s F hp hl hb hf hcl h hh hc hm hG
    have hbs : (base g.group p mem log cfg cl g.sm).Shaped (g.env r pa) := base_shaped hl hb hcl
    obtain ⟨s2, fe, rng, c, pl, e, ha2, k⟩ := new_course hbs (by rw [hl.lastIdx]; exact hf) h
    have hg0 : Grows σ (upd σ p (base g.group p mem log cfg cl g.sm) F) := grows_fresh (hi.absent hp)
    have hok : NodeOk (g.ctx G K) (upd σ p (base g.group p mem log cfg cl g.sm) F) p (base g.group p mem log cfg cl g.sm) F :=
      base_ok (c := g.ctx G K) hbs hl hcl (hh.grows hg0) (hc.grows hg0) hm
    have hst : Steps g.v .none (base g.group p mem log cfg cl g.sm) s2 := by
      subst e
      exact (Atom.steps (Atom.misc _ _ _ _ _ _ _ _ _ _ _ (.inl rfl) (.inl rfl)))
    obtain ⟨F1, k1, k2⟩ := hst.group_inv (c := g.ctx G K) hok (upd_self _ _ _ _)
      ⟨fun frm m h => (by cases h), fun i h => (by cases h)⟩ (fun q m h => (by cases h)) (by rw [e]; intro x hx; cases hx) hn hser
    exact k.agrees k1 (upd_self _ _ _ _) ⟨fun frm m h => (by cases h), fun i h => (by cases h)⟩ (fun q m h => (by cases h)) hG hn
      hser ha2
  cases h with
  | start p s r pa mx cfg hp h =>
    exact put _ _ _ _ _ (fresh r pa p _ _ cfg _ s [] hp (logOf_new mx) (by simp [Log.new, Log.bytesOf]) (by decide) (.inr rfl) h
      (Hist.nil _ _) .nil rfl (hG p s (World.put_self ..)))
  | join p q s sq r pa log cfg hp hq ha hl hbb hf h =>
    obtain ⟨F, hF⟩ := hi.get hq
    have ok := hi.ok _ _ _ hF
    have hA := hi.applied _ _ _ hF
    rw [ha] at hA
    refine put _ _ _ _ _ (fresh r pa p _ _ cfg _ s _ hp hl hbb hf (.inl rfl) h ?_ ?_ ?_ (hG p s (World.put_self ..)))
    · rw [hA]; exact ok.hist.take _
    · rw [hA]; exact ok.com
    · rw [hA]; exact ok.mems.mem
  | call p s s' op o r pa hp hd hf h =>
    obtain ⟨F, hF⟩ := hi.get hp
    have ok := hi.ok _ _ _ hF
    have hG' := hG p s' (World.put_self ..)
    refine put _ _ _ _ _ ?_
    rcases op.course (v := g.env r pa) ok.shaped hf h with ⟨h1, h2, h3⟩ | ⟨i, e, _, rfl, h1, h2, h3, rfl⟩ | ⟨_, rfl, rfl⟩
    · have hin : InpOk (g.ctx G K) σ p op.input := by
        refine ⟨?_, ?_⟩
        · intro frm m hm
          cases op with
          | receive f m' =>
            cases hm
            obtain ⟨dst, d1, d2⟩ := hd
            exact ⟨dst, d2, hi.net _ d1⟩
          | _ => cases hm
        · intro i hm
          cases op with
          | request i' =>
            cases hm
            exact hK _ (List.mem_append_right _ (List.mem_singleton.mpr rfl))
          | _ => cases hm
      exact h1.agrees ok hF hin (Op.fits_typed hf) hG' hn hser (ha p s hp)
    · exact ha p s hp
    · exact ha p s hp

theorem Future.agree {g : Setting P} {W W' : World P} {σ : St P} (h : Future g W W') {G : Bytes × Bytes → Prop} {K : Inner → Prop}
    (hs : W.Shaped g) (hi : GInv (g.ctx G K) W σ) (hG : ∀ x, W'.Hashed x → G x) (hK : ∀ i ∈ W'.asked, K i) (hn : NoCollision g.v G)
    (hser : SerInj g.v) (ha : W.Agree) : W'.Agree := by
  induction h with
  | now => exact ha
  | next a k ih =>
    have hle := k.le (a.shaped hs)
    have hG1 := fun x hx => hG x (hle.hashed hx)
    have hK1 := fun i hi => hK i (hle.asked.subset hi)
    obtain ⟨σ1, h1, h2⟩ := hi.future a hs hG1 hK1 hn hser
    exact k.agree h1 (fun p s h x hx => hG x ⟨p, s, h, hx⟩) hK hn hser (ih hG1 hK1)

theorem Reachable.agree {g : Setting P} {W : World P} (h : Reachable g W) {G : Bytes × Bytes → Prop} {K : Inner → Prop}
    (hG : ∀ x, W.Hashed x → G x) (hK : ∀ i ∈ W.asked, K i) (hn : NoCollision g.v G) (hser : SerInj g.v) : W.Agree := by
  have h0 : GInv (g.ctx G K) World.empty (fun _ => none) :=
    ⟨fun p => rfl, fun p s F h => (by cases h), fun p s F h => (by cases h), fun x h => (by cases h)⟩
  exact Future.agree h (fun p s h => (by cases h)) h0 hG hK hn hser (fun p s h => (by cases h))

end Svr.Raft
