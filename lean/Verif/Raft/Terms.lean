import Verif.Raft.Cluster

/-!
# Entries of one term come from one leader

An index and a term determine the entry, wherever it is: in a log, in a message, or handed to a database.
-/

namespace Svr.Raft
open Node
variable {P : Type} [LinearOrder P]

/-- The message has the entry `e` for index `i`. -/
def Msg.Carries (m : Msg) (i : Nat) (e : Entry) : Prop :=
  ∃ pi pt ph es c a j, m.body = .appReq pi pt ph es c a ∧ es[j]? = some e ∧ i = pi + 1 + j

namespace Node

/-- The replica has `e` at `i`, in its log or in a message it is about to send. -/
def Holds (s : Node P) (i : Nat) (e : Entry) : Prop := s.log.at? i = some e ∨ ∃ d m, (d, m) ∈ s.sendable ∧ Msg.Carries m i e

/-- The input of a call has `e` for `i`. -/
def Inp.Gives (inp : Inp P) (i : Nat) (e : Entry) : Prop := ∃ frm m, inp = .msg frm m ∧ Msg.Carries m i e

/-- What is new in a replica comes from its input, or was made by it as the leader. -/
theorem Atom.holds {v : Env P} {inp : Inp P} {s s' : Node P} (h : Atom v inp s s') (hs : s.Shaped v) {i : Nat} {e : Entry}
    (he : Holds s' i e) : Holds s i e ∨ inp.Gives i e ∨
      (s.role = .leader ∧ e.term = s.term ∧ i = s.log.lastIdx + 1 ∧ s'.log.at? (s.log.lastIdx + 1) = some e ∧
        s'.log.lastIdx = s.log.lastIdx + 1) := by
  have same : s'.log = s.log → s'.sendable = s.sendable → Holds s i e ∨ inp.Gives i e ∨
      (s.role = .leader ∧ e.term = s.term ∧ i = s.log.lastIdx + 1 ∧ s'.log.at? (s.log.lastIdx + 1) = some e ∧
        s'.log.lastIdx = s.log.lastIdx + 1) := fun h1 h2 => by
    unfold Holds at he ⊢
    rw [h1, h2] at he
    exact .inl he
  cases h with
  | append _ e' r hh hm hw h =>
    have key : ∀ l er, s.log.append v.z e' s.lastApplied = .ok (l, er) → ∀ o, l.at? i = some o → s.log.at? i = some o ∨
        (er = none ∧ o = e' ∧ i = s.log.lastIdx + 1 ∧ l.lastIdx = s.log.lastIdx + 1) := by
      intro l er h1 o ho
      obtain ⟨a1, a2, _, a4, a5, _⟩ := Shape.append hs h1
      by_cases hi : i ≤ s.log.lastIdx
      · exact .inl (a4 i o hi ho)
      · have := ((Shape.at_iff a1 i).mp (by rw [ho]; rfl)).2
        cases her : er with
        | some x => rw [her, if_neg (by simp)] at a2; omega
        | none =>
          rw [her, if_pos rfl] at a2
          have hi' : i = s.log.lastIdx + 1 := by omega
          rw [hi', (a5 her).1] at ho
          cases ho
          exact .inr ⟨rfl, rfl, hi', a2⟩
    have fin : ∀ l er, s.log.append v.z e' s.lastApplied = .ok (l, er) → s'.log = l → s'.sendable = s.sendable → Holds s i e ∨ inp.Gives i e ∨
      (s.role = .leader ∧ e.term = s.term ∧ i = s.log.lastIdx + 1 ∧ s'.log.at? (s.log.lastIdx + 1) = some e ∧
        s'.log.lastIdx = s.log.lastIdx + 1) := by
      intro l er h1 h2 h3
      rcases he with he | ⟨d, m, h4, h5⟩
      · rw [h2] at he
        rcases key l er h1 e he with h4 | ⟨_, rfl, h5, h6⟩
        · exact .inl (.inl h4)
        · rcases hw with ⟨w1, w2, _⟩ | ⟨_, frm, g, t, pi, pt, ph, es, c, a, w1, w2, w3⟩
          · exact .inr (.inr ⟨w1, w2, h5, by rw [h2, ← h5]; exact he, by rw [h2]; exact h6⟩)
          · exact .inr (.inl ⟨frm, _, w1, pi, pt, ph, es, c, a, _, rfl, w3, by omega⟩)
      · rw [h3] at h4
        exact .inl (.inr ⟨d, m, h4, h5⟩)
    rcases logAppend_eq h with ⟨h1, _⟩ | ⟨l, er, h1, h2, _⟩ | ⟨l, h1, _, ⟨h2, _⟩ | ⟨g, m, _, _, h3⟩⟩
    · exact same (by rw [h1]) (by rw [h1])
    · exact fin l _ h1 (by rw [h2]) (by rw [h2])
    · exact fin l _ h1 (by rw [h2]) (by rw [h2])
    · obtain ⟨_, f, e2⟩ := addUncommitted_eq h3
      exact fin l _ h1 (by rw [e2]) (by rw [e2])
  | cut idx hr hc hp ht =>
    have hi : idx ≤ s.log.lastIdx := by
      have : (s.log.at? idx).isSome := by
        unfold Log.termAt at ht
        cases h : s.log.at? idx with
        | none => rw [h] at ht; exact absurd rfl ht
        | some _ => rfl
      exact ((Shape.at_iff hs idx).mp this).2
    obtain ⟨u, m, f, h⟩ := maybeChangeUncommitted_eq ({ s with log := (s.log.cancelFrom idx).1 } : Node P)
    rw [h] at he
    obtain ⟨a1, a2, _, a4, _⟩ := Shape.cut hs (max_lt hc hp) hi
    rcases he with he | he
    · left; left
      have he : (s.log.cancelFrom idx).1.at? i = some e := he
      have h5 := ((Shape.at_iff a1 i).mp (by rw [he]; rfl)).2
      have h6 := ((Shape.at_iff a1 i).mp (by rw [he]; rfl)).1
      have h7 := a1.one
      rw [← a4 i (by omega)]
      exact he
    · exact .inl (.inr he)
  | advance _ hr h =>
    obtain ⟨p, c, g, u, m, f, h1, _⟩ := advance_eq hr h
    exact same (by rw [h1]) (by rw [h1])
  | follow frm g t pi pt ph es c a lp hi hr hca hm =>
    obtain ⟨u, m, f, h1⟩ := followLeader_eq s (min c lp) (min a lp)
    exact same (by rw [h1]) (by rw [h1])
  | send _ dst m hso h =>
    rcases addSendable_eq h with h | ⟨h, _⟩
    · exact same (by rw [h]) (by rw [h])
    · rw [h] at he
      rcases he with he | ⟨d, m', h4, h5⟩
      · exact .inl (.inl he)
      · rcases List.mem_append.mp h4 with h4 | h4
        · exact .inl (.inr ⟨d, m', h4, h5⟩)
        · cases List.mem_singleton.mp h4
          obtain ⟨pi, pt, ph, es, c, a, j, hb, hj, rfl⟩ := h5
          obtain ⟨_, _, hso⟩ := hso
          rw [hb] at hso
          exact .inl (.inl (hso.2.2.1 j e hj))
  | _ => exact same rfl rfl

theorem Atom.led {v : Env P} {inp : Inp P} {s s' : Node P} (h : Atom v inp s s') : s.led <+: s'.led := (Atom.steps h).mono.led

end Node

/-- What holds of the replicas `N` and of the entries `R` in messages under way and in databases. `E p t` says that `p` is the only one who
can have led term `t`. -/
structure Matched (E : P → Nat → Prop) (N : P → Option (Node P)) (R : Nat → Entry → Prop) : Prop where
  uniq : ∀ i e e', ((∃ p s, N p = some s ∧ Holds s i e) ∨ R i e) → ((∃ p s, N p = some s ∧ Holds s i e') ∨ R i e') → e.term = e'.term → e = e'
  made : ∀ i e, ((∃ p s, N p = some s ∧ Holds s i e) ∨ R i e) → ∃ p s m, N p = some s ∧ (e.term, m) ∈ s.led
  mine : ∀ p s, N p = some s → s.role = .leader → ∀ i e, ((∃ p s, N p = some s ∧ Holds s i e) ∨ R i e) → e.term = s.term →
    i ≤ s.log.lastIdx
  leads : ∀ p s, N p = some s → s.role = .leader → ∃ m, (s.term, m) ∈ s.led
  past : ∀ p s, N p = some s → ∀ t m, (t, m) ∈ s.led → E p t ∧ t ≤ s.term ∧ (s.role = .candidate → t < s.term)

theorem Matched.rest {E : P → Nat → Prop} {N : P → Option (Node P)} {R R' : Nat → Entry → Prop} (h : Matched E N R)
    (hR : ∀ i e, R' i e → (∃ p s, N p = some s ∧ Holds s i e) ∨ R i e) : Matched E N R' := by
  have k : ∀ i e, ((∃ p s, N p = some s ∧ Holds s i e) ∨ R' i e) → (∃ p s, N p = some s ∧ Holds s i e) ∨ R i e :=
    fun i e h => h.elim .inl (hR i e)
  exact ⟨fun i e e' a b => h.uniq i e e' (k i e a) (k i e' b), fun i e a => h.made i e (k i e a),
    fun p s hp hr i e a => h.mine p s hp hr i e (k i e a), h.leads, h.past⟩

def setNode (N : P → Option (Node P)) (p : P) (s : Node P) : P → Option (Node P) := fun x => if x = p then some s else N x

theorem setNode_some {N : P → Option (Node P)} {p x : P} {s sx : Node P} (h : setNode N p s x = some sx) :
    (x = p ∧ sx = s) ∨ (x ≠ p ∧ N x = some sx) := by
  unfold setNode at h
  split at h
  · rename_i e; cases h; exact .inl ⟨e, rfl⟩
  · rename_i e; exact .inr ⟨e, h⟩

/-- One atom. -/
theorem Matched.atom {E : P → Nat → Prop} {N : P → Option (Node P)} {R : Nat → Entry → Prop} {v : Env P} {inp : Inp P} {p : P} {s s' : Node P}
    (h : Matched E N R) (hE : ∀ p p' t, E p t → E p' t → p = p') (hp : N p = some s) (hs : s.Shaped v) (k : Atom v inp s s')
    (hin : ∀ i e, inp.Gives i e → (∃ p s, N p = some s ∧ Holds s i e) ∨ R i e) (hled : ∀ t m, (t, m) ∈ s'.led → E p t) :
    Matched E (setNode N p s') R := by
  have hset : setNode N p s' p = some s' := if_pos rfl
  -- where things in the new state come from
  have src : ∀ i e, ((∃ x sx, setNode N p s' x = some sx ∧ Holds sx i e) ∨ R i e) → ((∃ p s, N p = some s ∧ Holds s i e) ∨ R i e) ∨
      (s.role = .leader ∧ e.term = s.term ∧ i = s.log.lastIdx + 1 ∧ s'.log.at? (s.log.lastIdx + 1) = some e ∧
        s'.log.lastIdx = s.log.lastIdx + 1) := by
    rintro i e (⟨x, sx, h1, h2⟩ | h1)
    · rcases setNode_some h1 with ⟨rfl, rfl⟩ | ⟨_, h3⟩
      · rcases k.holds hs h2 with h4 | h4 | h4
        · exact .inl (.inl ⟨_, _, hp, h4⟩)
        · exact .inl (hin i e h4)
        · exact .inr h4
      · exact .inl (.inl ⟨_, _, h3, h2⟩)
    · exact .inl (.inr h1)
  have keep : ∀ t, (∃ x sx m, N x = some sx ∧ (t, m) ∈ sx.led) → ∃ x sx m, setNode N p s' x = some sx ∧ (t, m) ∈ sx.led := by
    rintro t ⟨x, sx, m, h1, h2⟩
    by_cases e : x = p
    · subst e
      rw [hp] at h1
      cases h1
      exact ⟨x, s', m, hset, k.led.subset h2⟩
    · exact ⟨x, sx, m, by unfold setNode; rw [if_neg e]; exact h1, h2⟩
  have hpast : (∀ t m, (t, m) ∈ s'.led → E p t ∧ t ≤ s'.term ∧ (s'.role = .candidate → t < s'.term)) ∧
      (s'.role = .leader → ∃ m, (s'.term, m) ∈ s'.led) := by
    have base : ∀ {s2 : Node P}, s2.led = s.led → s2.term = s.term → (s2.role = s.role ∨ s2.role = .follower) →
        (∀ t m, (t, m) ∈ s2.led → E p t ∧ t ≤ s2.term ∧ (s2.role = .candidate → t < s2.term)) ∧
        (s2.role = .leader → ∃ m, (s2.term, m) ∈ s2.led) := by
      intro s2 h1 h2 h3
      rw [h1, h2]
      refine ⟨fun t m hm => ?_, fun hr => ?_⟩
      · obtain ⟨a, b, c⟩ := h.past p s hp t m hm
        refine ⟨a, b, fun hc => c ?_⟩
        rcases h3 with h3 | h3
        · rw [← h3]; exact hc
        · rw [h3] at hc; cases hc
      · rcases h3 with h3 | h3
        · exact h.leads p s hp (by rw [← h3]; exact hr)
        · rw [h3] at hr; cases hr
    cases k with
    | demote => exact base rfl rfl (.inr rfl)
    | raise t ht hi =>
      refine ⟨fun t' m hm => ?_, fun hr => by cases hr⟩
      obtain ⟨a, b, _⟩ := h.past p s hp t' m hm
      exact ⟨a, by show t' ≤ t; omega, fun hc => by cases hc⟩
    | campaign hv hr ht =>
      refine ⟨fun t' m hm => ?_, fun hr => by cases hr⟩
      obtain ⟨a, b, _⟩ := h.past p s hp t' m hm
      exact ⟨a, by show t' ≤ s.term + 1; omega, fun _ => by show t' < s.term + 1; omega⟩
    | lead hr hq =>
      refine ⟨fun t' m hm => ?_, fun _ => ⟨s.membership, List.mem_append_right _ (List.mem_singleton.mpr rfl)⟩⟩
      refine ⟨hled t' m hm, ?_, fun hc => by cases hc⟩
      rcases List.mem_append.mp hm with hm | hm
      · exact (h.past p s hp t' m hm).2.1
      · cases List.mem_singleton.mp hm
        exact le_rfl
    | append _ e r hh hm hw h =>
      obtain ⟨l, u, f, e2⟩ := append_eq h
      rw [e2]; exact base rfl rfl (.inl rfl)
    | cut idx hr hc hp ht =>
      obtain ⟨u, m, f, e2⟩ := maybeChangeUncommitted_eq ({ s with log := (s.log.cancelFrom idx).1 } : Node P)
      rw [e2]; exact base rfl rfl (.inl rfl)
    | advance _ hr h =>
      obtain ⟨p, c, g, u, m, f, e2, _⟩ := advance_eq hr h
      rw [e2]; exact base rfl rfl (.inl rfl)
    | follow frm g t pi pt ph es c a lp hi hr hca hm =>
      obtain ⟨u, m, f, e2⟩ := followLeader_eq s (min c lp) (min a lp)
      rw [e2]; exact base rfl rfl (.inl rfl)
    | send _ dst m hso h =>
      rcases addSendable_eq h with e2 | ⟨e2, _⟩ <;> rw [e2] <;> exact base rfl rfl (.inl rfl)
    | _ => exact base rfl rfl (.inl rfl)
  have hmine : s'.role = .leader → ∀ i e, ((∃ p s, N p = some s ∧ Holds s i e) ∨ R i e) → e.term = s'.term → i ≤ s'.log.lastIdx := by
    have base : ∀ {s2 : Node P}, s2.term = s.term → (s2.role = s.role ∨ s2.role = .follower) → (s2.role = .leader → s.log.lastIdx ≤ s2.log.lastIdx) →
        s2.role = .leader → ∀ i e, ((∃ p s, N p = some s ∧ Holds s i e) ∨ R i e) → e.term = s2.term → i ≤ s2.log.lastIdx := by
      intro s2 h1 h2 h3 hr i e hi ht
      rcases h2 with h2 | h2
      · exact (h.mine p s hp (by rw [← h2]; exact hr) i e hi (by rw [ht, h1])).trans (h3 hr)
      · rw [h2] at hr; cases hr
    cases k with
    | demote => exact base rfl (.inr rfl) fun _ => le_rfl
    | raise t ht hi => intro hr; cases hr
    | campaign hv hr ht => intro hr; cases hr
    | lead hr hq =>
      intro _ i e hi ht
      exfalso
      have ht : e.term = s.term := ht
      obtain ⟨x, sx, m, h1, h2⟩ := h.made i e hi
      have h3 := (h.past x sx h1 _ _ h2).1
      have h4 := hled s.term s.membership (List.mem_append_right _ (List.mem_singleton.mpr rfl))
      rw [ht] at h3 h2
      obtain rfl := hE _ _ _ h3 h4
      rw [hp] at h1
      cases h1
      have := (h.past x s hp _ _ h2).2.2 hr
      omega
    | append _ e r hh hm hw h =>
      obtain ⟨l, u, f, e2⟩ := append_eq h
      refine base (by rw [e2]) (.inl (by rw [e2])) fun _ => ?_
      rcases logAppend_eq h with ⟨h1, _⟩ | ⟨l, er, h1, h2, _⟩ | ⟨l, h1, _, ⟨h2, _⟩ | ⟨g, m, _, _, h3⟩⟩
      · rw [h1]
      · have := (Shape.append hs h1).2.1
        rw [h2]; show s.log.lastIdx ≤ l.lastIdx; omega
      · have := (Shape.append hs h1).2.1
        rw [h2]; show s.log.lastIdx ≤ l.lastIdx; omega
      · have := (Shape.append hs h1).2.1
        obtain ⟨_, f, e2⟩ := addUncommitted_eq h3
        rw [e2]; show s.log.lastIdx ≤ l.lastIdx; omega
    | cut idx hr hc hp ht =>
      obtain ⟨u, m, f, e2⟩ := maybeChangeUncommitted_eq ({ s with log := (s.log.cancelFrom idx).1 } : Node P)
      rw [e2]
      exact base rfl (.inl rfl) fun h => by rw [show s.role = .leader from h] at hr; cases hr
    | advance _ hr h =>
      obtain ⟨p, c, g, u, m, f, e2, _⟩ := advance_eq hr h
      rw [e2]; exact base rfl (.inl rfl) fun _ => le_rfl
    | follow frm g t pi pt ph es c a lp hi hr hca hm =>
      obtain ⟨u, m, f, e2⟩ := followLeader_eq s (min c lp) (min a lp)
      rw [e2]; exact base rfl (.inl rfl) fun _ => le_rfl
    | send _ dst m hso h =>
      rcases addSendable_eq h with e2 | ⟨e2, _⟩ <;> rw [e2] <;> exact base rfl (.inl rfl) fun _ => le_rfl
    | _ => exact base rfl (.inl rfl) fun _ => le_rfl
  -- a leader's new entry: nobody else leads that term, and it is beyond all of it
  have nobody : s.role = .leader → ∀ x sx, N x = some sx → sx.role = .leader → sx.term = s.term → x = p := by
    intro hr x sx hx hrx ht
    obtain ⟨m, hm⟩ := h.leads x sx hx hrx
    obtain ⟨m', hm'⟩ := h.leads p s hp hr
    have h1 := (h.past x sx hx _ _ hm).1
    have h2 := (h.past p s hp _ _ hm').1
    rw [ht] at h1
    exact hE _ _ _ h1 h2
  refine ⟨?_, ?_, ?_, ?_, ?_⟩
  · intro i e e' h1 h2 ht
    rcases src i e h1 with a | ⟨a1, a2, a3, a4, _⟩ <;> rcases src i e' h2 with b | ⟨b1, b2, b3, b4, _⟩
    · exact h.uniq i e e' a b ht
    · have := h.mine p s hp b1 i e a (by rw [ht, b2])
      omega
    · have := h.mine p s hp a1 i e' b (by rw [← ht, a2])
      omega
    · rw [a4] at b4
      cases b4; rfl
  · intro i e h1
    rcases src i e h1 with a | ⟨a1, a2, a3, _⟩
    · exact keep _ (h.made i e a)
    · obtain ⟨m, hm⟩ := h.leads p s hp a1
      rw [a2]
      exact keep _ ⟨p, s, m, hp, hm⟩
  · intro x sx hx hr i e h1 ht
    rcases setNode_some hx with ⟨rfl, rfl⟩ | ⟨hne, hx⟩
    · rcases src i e h1 with a | ⟨a1, a2, a3, a4, a5⟩
      · exact hmine hr i e a ht
      · omega
    · rcases src i e h1 with a | ⟨a1, a2, a3, a4, a5⟩
      · exact h.mine x sx hx hr i e a ht
      · exact absurd (nobody a1 x sx hx hr (by rw [← ht, a2])) hne
  · intro x sx hx hr
    rcases setNode_some hx with ⟨rfl, rfl⟩ | ⟨_, hx⟩
    · exact hpast.2 hr
    · exact h.leads x sx hx hr
  · intro x sx hx t m hm
    rcases setNode_some hx with ⟨rfl, rfl⟩ | ⟨_, hx⟩
    · exact hpast.1 t m hm
    · exact h.past x sx hx t m hm

theorem setNode_setNode (N : P → Option (Node P)) (p : P) (s s' : Node P) : setNode (setNode N p s) p s' = setNode N p s' := by
  funext x
  unfold setNode
  split <;> rfl

theorem setNode_eq {N : P → Option (Node P)} {p : P} {s : Node P} (h : N p = some s) : setNode N p s = N := by
  funext x
  unfold setNode
  split
  · rename_i e; rw [e, h]
  · rfl

/-- One call. -/
theorem Matched.steps {E : P → Nat → Prop} {N : P → Option (Node P)} {R : Nat → Entry → Prop} {v : Env P} {inp : Inp P} {p : P} {s s' : Node P}
    (h : Matched E N R) (hE : ∀ p p' t, E p t → E p' t → p = p') (hp : N p = some s) (hs : s.Shaped v) (k : Steps v inp s s')
    (hin : ∀ i e, inp.Gives i e → R i e) (hled : ∀ t m, (t, m) ∈ s'.led → E p t) : Matched E (setNode N p s') R := by
  induction k with
  | refl => rw [setNode_eq hp]; exact h
  | tail a k ih =>
    have := ih (fun t m hm => hled t m (k.led.subset hm))
    have := this.atom hE (if_pos rfl) (a.shaped hs) k (fun i e hg => .inr (hin i e hg)) hled
    rwa [setNode_setNode] at this

/-- The entries under way and in databases, and those present earlier. -/
def World.Elsewhere (W : World P) (X : Nat → Entry → Prop) (i : Nat) (e : Entry) : Prop :=
  (∃ x ∈ W.net, Msg.Carries x.2.2 i e) ∨ (∃ p, 1 ≤ i ∧ (W.applied p)[i - 1]? = some e) ∨ X i e

/-- All entries of a moment. -/
def World.Present (W : World P) (i : Nat) (e : Entry) : Prop :=
  (∃ p s, W.node p = some s ∧ Holds s i e) ∨ (∃ x ∈ W.net, Msg.Carries x.2.2 i e) ∨ ∃ p, 1 ≤ i ∧ (W.applied p)[i - 1]? = some e

/-- `X` is what was present earlier. -/
structure Termed (E : P → Nat → Prop) (X : Nat → Entry → Prop) (W : World P) : Prop where
  matched : Matched E W.node (W.Elsewhere X)
  len : ∀ p s, W.node p = some s → (W.applied p).length = s.lastApplied
  gone : ∀ p, W.node p = none → W.applied p = []

theorem World.node_put (W : World P) (p : P) (s : Node P) (A N Q) : (W.put p s A N Q).node = setNode W.node p s := rfl

/-- A new replica that got a history handed to a database. -/
theorem Termed.fresh {E : P → Nat → Prop} {X : Nat → Entry → Prop} {g : Setting P} {W : World P} {p : P} {s : Node P} {A : List Entry} {mem : Membership P} {log : Log}
    {cfg : RaftCfg} {cl : Bool} {r : Nat → Nat} {pa : Nat → Bool} (h : Termed E X W) (hE : ∀ p p' t, E p t → E p' t → p = p')
    (hp : W.node p = none) (hA : ∃ q, A = W.applied q ∨ A = []) (hl : LogOf log A) (hcl : cl = true ∨ A = [])
    (hb : (base g.group p mem log cfg cl g.sm).Shaped g.v) (hf : log.lastIdx + 2 < SZ)
    (hn : Node.new (g.env r pa) g.group p mem log cfg cl g.sm = .ok s) (hled : ∀ t m, (t, m) ∈ s.led → E p t) :
    Termed E X (W.put p s A [] []) := by
  have st : Steps g.v .none (base g.group p mem log cfg cl g.sm) s := (new_steps (v := g.env r pa) hb hf hn).env
  have hAe : ∀ i e, 1 ≤ i → A[i - 1]? = some e → W.Elsewhere X i e := by
    intro i e h1 h2
    obtain ⟨q, rfl | rfl⟩ := hA
    · exact .inr (.inl ⟨q, h1, h2⟩)
    · simp at h2
  have h0 : Matched E (setNode W.node p (base g.group p mem log cfg cl g.sm)) (W.Elsewhere X) := by
    have src : ∀ i e, ((∃ x sx, setNode W.node p (base g.group p mem log cfg cl g.sm) x = some sx ∧ Holds sx i e) ∨ W.Elsewhere X i e) →
        (∃ p s, W.node p = some s ∧ Holds s i e) ∨ W.Elsewhere X i e := by
      rintro i e (⟨x, sx, h1, h2⟩ | h1)
      · rcases setNode_some h1 with ⟨rfl, rfl⟩ | ⟨_, h3⟩
        · rcases h2 with h2 | ⟨_, _, h2, _⟩
          · obtain ⟨a1, _, _, a4⟩ := hl.at_some h2
            exact .inr (hAe i e a1 a4)
          · cases h2
        · exact .inl ⟨_, _, h3, h2⟩
      · exact .inr h1
    have keep : ∀ x sx, W.node x = some sx → setNode W.node p (base g.group p mem log cfg cl g.sm) x = some sx := by
      intro x sx hx
      unfold setNode
      rw [if_neg (by rintro rfl; rw [hp] at hx; cases hx)]
      exact hx
    refine ⟨fun i e e' a b => h.matched.uniq i e e' (src i e a) (src i e' b), ?_, ?_, ?_, ?_⟩
    · intro i e a
      obtain ⟨x, sx, m, h1, h2⟩ := h.matched.made i e (src i e a)
      exact ⟨x, sx, m, keep x sx h1, h2⟩
    · intro x sx hx hr i e a
      rcases setNode_some hx with ⟨rfl, rfl⟩ | ⟨_, h3⟩
      · cases hr
      · exact h.matched.mine x sx h3 hr i e (src i e a)
    · intro x sx hx hr
      rcases setNode_some hx with ⟨rfl, rfl⟩ | ⟨_, h3⟩
      · cases hr
      · exact h.matched.leads x sx h3 hr
    · intro x sx hx t m hm
      rcases setNode_some hx with ⟨rfl, rfl⟩ | ⟨_, h3⟩
      · cases hm
      · exact h.matched.past x sx h3 t m hm
  have h1 := h0.steps hE (if_pos rfl) hb st (fun i e hg => by obtain ⟨_, _, h, _⟩ := hg; cases h) hled
  rw [setNode_setNode] at h1
  refine ⟨?_, ?_, ?_⟩
  · rw [World.node_put]
    refine h1.rest fun i e he => .inr ?_
    rcases he with ⟨x, hx, hc⟩ | ⟨q, h2, h3⟩ | hX
    · exact .inl ⟨x, by simpa [World.put] using hx, hc⟩
    · by_cases e1 : q = p
      · subst e1
        rw [World.put_applied_self] at h3
        exact hAe i e h2 h3
      · rw [World.put_applied_other _ _ _ _ _ e1] at h3
        exact .inr (.inl ⟨q, h2, h3⟩)
    · exact .inr (.inr hX)
  · intro x sx hx
    rcases setNode_some (show setNode W.node p _ x = some sx from hx) with ⟨rfl, rfl⟩ | ⟨hne, h3⟩
    · rw [World.put_applied_self, st.mono.applied]
      show _ = (if cl then log.lastIdx else 0)
      rcases hcl with rfl | rfl
      · rw [if_pos rfl, hl.lastIdx]
      · have := hl.lastIdx
        rw [this]; simp
    · rw [World.put_applied_other _ _ _ _ _ hne]
      exact h.len x sx h3
  · intro x hx
    by_cases e1 : x = p
    · subst e1
      rw [World.put_self] at hx; cases hx
    · rw [World.put_applied_other _ _ _ _ _ e1]
      rw [World.put_other _ _ _ _ _ e1] at hx
      exact h.gone x hx

theorem Termed.next {E : P → Nat → Prop} {X : Nat → Entry → Prop} {g : Setting P} {W W' : World P} (h : Termed E X W) (hE : ∀ p p' t, E p t → E p' t → p = p')
    (hsh : W.Shaped g) (hled : ∀ p s, W'.node p = some s → ∀ t m, (t, m) ∈ s.led → E p t) (k : Next g W W') : Termed E X W' := by
  cases k with
  | start p s r pa mx cfg hp hn =>
    refine h.fresh hE hp ⟨p, .inr rfl⟩ (logOf_new mx) (.inr rfl) ?_ (by simp [Log.new, Log.lastIdx, SZ]) hn (hled p s (World.put_self ..))
    exact base_shaped (v := g.v) (logOf_new mx) (by simp [Log.new, Log.bytesOf]) (.inr rfl)
  | join p q s sq r pa log cfg hp hq ha hl hbb hf hn =>
    refine h.fresh hE hp ⟨q, .inl rfl⟩ hl (.inl rfl) ?_ (by rw [hl.lastIdx]; exact hf) hn (hled p s (World.put_self ..))
    exact base_shaped (v := g.v) hl hbb (.inl rfl)
  | call p s s' op o r pa hp hd hf hrun =>
    have hl' := hled p s' (World.put_self ..)
    rcases Op.steps (v := g.env r pa) (hsh p s hp) hf hrun with ⟨st, n1, n2⟩ | ⟨i, e, _, rfl, h1, _, he, rfl⟩ | ⟨_, rfl, rfl⟩
    · have st := st.env
      have hN : Obs.messages p o = [] := by
        cases o with
        | sent l => exact absurd rfl (n2 l)
        | _ => rfl
      have hA : Obs.entries o = [] := by
        cases o with
        | committed x =>
          cases x with
          | none => rfl
          | some x => exact absurd rfl (n1 x)
        | _ => rfl
      rw [hN, hA, List.append_nil]
      have h1 := h.matched.steps hE hp (hsh p s hp) st (by
        rintro i e ⟨frm, m, hi, hc⟩
        cases op with
        | receive f m' =>
          cases hi
          obtain ⟨dst, h5, _⟩ := hd
          exact .inl ⟨_, h5, hc⟩
        | _ => cases hi) hl'
      refine ⟨?_, ?_, ?_⟩
      · rw [World.node_put]
        refine h1.rest fun i e he => .inr ?_
        rcases he with ⟨x, hx, hc⟩ | ⟨q, h2, h3⟩ | hX
        · exact .inl ⟨x, by simpa [World.put] using hx, hc⟩
        · by_cases e1 : q = p
          · subst e1
            rw [World.put_applied_self] at h3
            exact .inr (.inl ⟨q, h2, h3⟩)
          · rw [World.put_applied_other _ _ _ _ _ e1] at h3
            exact .inr (.inl ⟨q, h2, h3⟩)
        · exact .inr (.inr hX)
      · intro x sx hx
        rcases setNode_some (show setNode W.node p _ x = some sx from hx) with ⟨rfl, rfl⟩ | ⟨hne, h3⟩
        · rw [World.put_applied_self, st.mono.applied]
          exact h.len x s hp
        · rw [World.put_applied_other _ _ _ _ _ hne]
          exact h.len x sx h3
      · intro x hx
        by_cases e1 : x = p
        · subst e1
          rw [World.put_self] at hx; cases hx
        · rw [World.put_applied_other _ _ _ _ _ e1]
          rw [World.put_other _ _ _ _ _ e1] at hx
          exact h.gone x hx
    · -- an entry goes to the database
      have hm : Matched E (setNode W.node p { s with lastApplied := i }) (W.Elsewhere X) := by
        have src : ∀ j x, ((∃ q sq, setNode W.node p { s with lastApplied := i } q = some sq ∧ Holds sq j x) ∨ W.Elsewhere X j x) →
            (∃ p s, W.node p = some s ∧ Holds s j x) ∨ W.Elsewhere X j x := by
          rintro j x (⟨q, sq, h2, h3⟩ | h2)
          · rcases setNode_some h2 with ⟨rfl, rfl⟩ | ⟨_, h4⟩
            · exact .inl ⟨_, _, hp, h3⟩
            · exact .inl ⟨_, _, h4, h3⟩
          · exact .inr h2
        refine ⟨fun j x x' a b => h.matched.uniq j x x' (src j x a) (src j x' b), ?_, ?_, ?_, ?_⟩
        · intro j x a
          obtain ⟨q, sq, m, h2, h3⟩ := h.matched.made j x (src j x a)
          by_cases e1 : q = p
          · subst e1
            rw [hp] at h2; cases h2
            exact ⟨q, _, m, if_pos rfl, h3⟩
          · exact ⟨q, sq, m, by unfold setNode; rw [if_neg e1]; exact h2, h3⟩
        · intro q sq hq hr j x a
          rcases setNode_some hq with ⟨rfl, rfl⟩ | ⟨_, h4⟩
          · exact h.matched.mine q s hp hr j x (src j x a)
          · exact h.matched.mine q sq h4 hr j x (src j x a)
        · intro q sq hq hr
          rcases setNode_some hq with ⟨rfl, rfl⟩ | ⟨_, h4⟩
          · exact h.matched.leads q s hp hr
          · exact h.matched.leads q sq h4 hr
        · intro q sq hq t m hm
          rcases setNode_some hq with ⟨rfl, rfl⟩ | ⟨_, h4⟩
          · exact h.matched.past q s hp t m hm
          · exact h.matched.past q sq h4 t m hm
      refine ⟨?_, ?_, ?_⟩
      · rw [World.node_put]
        refine hm.rest fun j x hx => ?_
        rcases hx with ⟨y, hy, hc⟩ | ⟨q, h2, h3⟩ | hX
        · exact .inr (.inl ⟨y, by simpa [World.put, Obs.messages] using hy, hc⟩)
        · by_cases e1 : q = p
          · subst e1
            rw [World.put_applied_self] at h3
            by_cases hj : j - 1 < (W.applied q).length
            · rw [List.getElem?_append_left hj] at h3
              exact .inr (.inr (.inl ⟨q, h2, h3⟩))
            · left
              refine ⟨q, _, if_pos rfl, .inl ?_⟩
              rw [List.getElem?_append_right (by omega)] at h3
              have hlen := h.len q s hp
              have hj2 : j - 1 - (W.applied q).length = 0 := by
                by_contra h0
                rw [List.getElem?_eq_none (by simp [Obs.entries]; omega)] at h3
                cases h3
              rw [hj2] at h3
              simp only [Obs.entries, List.getElem?_cons_zero, Option.some.injEq] at h3
              subst h3
              have : j = i := by omega
              rw [this]
              exact he
          · rw [World.put_applied_other _ _ _ _ _ e1] at h3
            exact .inr (.inr (.inl ⟨q, h2, h3⟩))
        · exact .inr (.inr (.inr hX))
      · intro x sx hx
        rcases setNode_some (show setNode W.node p _ x = some sx from hx) with ⟨rfl, rfl⟩ | ⟨hne, h3⟩
        · rw [World.put_applied_self]
          have := h.len x s hp
          simp [Obs.entries]; omega
        · rw [World.put_applied_other _ _ _ _ _ hne]
          exact h.len x sx h3
      · intro x hx
        by_cases e1 : x = p
        · subst e1
          rw [World.put_self] at hx; cases hx
        · rw [World.put_applied_other _ _ _ _ _ e1]
          rw [World.put_other _ _ _ _ _ e1] at hx
          exact h.gone x hx
    · -- messages go to the network
      have R1 := h.matched.rest (R' := (W.put p { s with sendable := [] } (W.applied p ++ Obs.entries (.sent s.sendable))
          (Obs.messages p (.sent s.sendable)) (Op.requests op)).Elsewhere X) (by
        intro j x hx
        rcases hx with ⟨y, hy, hc⟩ | ⟨q, h2, h3⟩ | hX
        · rcases List.mem_append.mp hy with hy | hy
          · exact .inr (.inl ⟨y, hy, hc⟩)
          · obtain ⟨z, hz, rfl⟩ := List.mem_map.mp hy
            exact .inl ⟨p, s, hp, .inr ⟨z.1, z.2, hz, hc⟩⟩
        · by_cases e1 : q = p
          · subst e1
            rw [World.put_applied_self] at h3
            exact .inr (.inr (.inl ⟨q, h2, by simpa [Obs.entries] using h3⟩))
          · rw [World.put_applied_other _ _ _ _ _ e1] at h3
            exact .inr (.inr (.inl ⟨q, h2, h3⟩))
        · exact .inr (.inr (.inr hX)))
      have src : ∀ {R : Nat → Entry → Prop} j x, ((∃ q sq, setNode W.node p { s with sendable := [] } q = some sq ∧ Holds sq j x) ∨ R j x) →
          (∃ p s, W.node p = some s ∧ Holds s j x) ∨ R j x := by
        rintro R j x (⟨q, sq, h2, h3⟩ | h2)
        · rcases setNode_some h2 with ⟨rfl, rfl⟩ | ⟨_, h4⟩
          · rcases h3 with h3 | ⟨_, _, h3, _⟩
            · exact .inl ⟨_, _, hp, .inl h3⟩
            · cases h3
          · exact .inl ⟨_, _, h4, h3⟩
        · exact .inr h2
      refine ⟨?_, ?_, ?_⟩
      · rw [World.node_put]
        refine ⟨fun j x x' a b => R1.uniq j x x' (src j x a) (src j x' b), ?_, ?_, ?_, ?_⟩
        · intro j x a
          obtain ⟨q, sq, m, h2, h3⟩ := R1.made j x (src j x a)
          by_cases e1 : q = p
          · subst e1
            rw [hp] at h2; cases h2
            exact ⟨q, _, m, if_pos rfl, h3⟩
          · exact ⟨q, sq, m, by unfold setNode; rw [if_neg e1]; exact h2, h3⟩
        · intro q sq hq hr j x a
          rcases setNode_some hq with ⟨rfl, rfl⟩ | ⟨_, h4⟩
          · exact R1.mine q s hp hr j x (src j x a)
          · exact R1.mine q sq h4 hr j x (src j x a)
        · intro q sq hq hr
          rcases setNode_some hq with ⟨rfl, rfl⟩ | ⟨_, h4⟩
          · exact R1.leads q s hp hr
          · exact R1.leads q sq h4 hr
        · intro q sq hq t m hm
          rcases setNode_some hq with ⟨rfl, rfl⟩ | ⟨_, h4⟩
          · exact R1.past q s hp t m hm
          · exact R1.past q sq h4 t m hm
      · intro x sx hx
        rcases setNode_some (show setNode W.node p _ x = some sx from hx) with ⟨rfl, rfl⟩ | ⟨hne, h3⟩
        · rw [World.put_applied_self]
          simpa [Obs.entries] using h.len x s hp
        · rw [World.put_applied_other _ _ _ _ _ hne]
          exact h.len x sx h3
      · intro x hx
        by_cases e1 : x = p
        · subst e1
          rw [World.put_self] at hx; cases hx
        · rw [World.put_applied_other _ _ _ _ _ e1]
          rw [World.put_other _ _ _ _ _ e1] at hx
          exact h.gone x hx

theorem Termed.empty (E : P → Nat → Prop) : Termed E (fun _ _ => False) (World.empty : World P) := by
  have no : ∀ i (e : Entry), ¬ ((∃ p s, (World.empty : World P).node p = some s ∧ Holds s i e) ∨
      (World.empty : World P).Elsewhere (fun _ _ => False) i e) := by
    rintro i e (⟨_, _, h, _⟩ | ⟨_, h, _⟩ | ⟨_, _, h⟩ | h)
    · cases h
    · cases h
    · simp [World.empty] at h
    · exact h
  exact ⟨⟨fun i e e' a => absurd a (no i e), fun i e a => absurd a (no i e), (fun _ _ h => by cases h), (fun _ _ h => by cases h),
    (fun _ _ h => by cases h)⟩, (fun _ _ h => by cases h), fun _ _ => rfl⟩

/-- What is present may be remembered. -/
theorem Termed.remember {E : P → Nat → Prop} {X Y : Nat → Entry → Prop} {W : World P} (h : Termed E X W) (hY : ∀ i e, Y i e → W.Present i e) :
    Termed E Y W := by
  refine ⟨h.matched.rest fun i e he => ?_, h.len, h.gone⟩
  rcases he with h1 | h1 | h1
  · exact .inr (.inl h1)
  · exact .inr (.inr (.inl h1))
  · rcases hY i e h1 with h2 | h2 | h2
    · exact .inl h2
    · exact .inr (.inl h2)
    · exact .inr (.inr (.inl h2))

theorem Future.first {g : Setting P} {A B C : World P} (hA : Next g A B) (hBC : Future g B C) : Future g A C := by
  induction hBC with
  | now => exact Future.now.next hA
  | next _ k ih => exact ih.next k

/-- In a group whose terms have one leader each, at all times. -/
theorem Termed.future {E : P → Nat → Prop} {X : Nat → Entry → Prop} {g : Setting P} {W0 W : World P} (h0 : Termed E X W0) (hsh : W0.Shaped g)
    (k : Future g W0 W) (hE : ∀ p p' t, E p t → E p' t → p = p') (hled : ∀ p s, W.node p = some s → ∀ t m, (t, m) ∈ s.led → E p t) :
    Termed E X W := by
  suffices ∀ W1, Future g W0 W1 → Future g W1 W → Termed E X W1 ∧ W1.Shaped g from (this W k .now).1
  intro W1 h1
  induction h1 with
  | now => exact fun _ => ⟨h0, hsh⟩
  | @next W2 W3 a k ih =>
    intro h3
    obtain ⟨i1, sh⟩ := ih (.first k h3)
    refine ⟨i1.next hE sh ?_ k, k.shaped sh⟩
    intro p s hp t m hm
    obtain ⟨s', h4, _, h5, _⟩ := (h3.le (k.shaped sh)).node p s hp
    exact hled p s' h4 t m (h5.subset hm)

theorem Reachable.termed {g : Setting P} {W : World P} (h : Reachable g W) {E : P → Nat → Prop} (hE : ∀ p p' t, E p t → E p' t → p = p')
    (hled : ∀ p s, W.node p = some s → ∀ t m, (t, m) ∈ s.led → E p t) : Termed E (fun _ _ => False) W :=
  (Termed.empty E).future (fun _ _ h => by cases h) h hE hled

end Svr.Raft
