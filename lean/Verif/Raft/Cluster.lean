import Verif.Raft.GroupStep

/-!
# A group of replicas

Messages are carried by a network that keeps everything ever sent: it may deliver a message late, in any order, many
times or never. A replica that crashes is one that is not called any more (it has no persistent state: after a restart
it joins with a new identity).
-/

namespace Svr.Raft
open Node
variable {P : Type} [LinearOrder P]

/-- What the replicas of a group have in common. -/
structure Setting (P : Type) where
  v : Env P
  group : Nat
  sm : Nat
  /-- the membership the group starts with -/
  m0 : Membership P

/-- The surroundings of one call: the values of `rand()` and of the Merkle walks are arbitrary. -/
def Setting.env (g : Setting P) (rand : Nat → Nat) (path : Nat → Bool) : Env P := { g.v with rand := rand, path := path }

/-- All replicas, what each handed to its database so far, and all messages sent. `asked` records the entries that
replicas were requested to append. -/
structure World (P : Type) [LinearOrder P] where
  node : P → Option (Node P)
  applied : P → List Entry
  net : List (P × Option P × Msg)
  asked : List Inner

def World.empty : World P := ⟨fun _ => none, fun _ => [], [], []⟩

/-- Replace `p`'s part. -/
def World.put (W : World P) (p : P) (s : Node P) (A : List Entry) (N : List (P × Option P × Msg)) (Q : List Inner) : World P :=
  ⟨fun x => if x = p then some s else W.node x, fun x => if x = p then A else W.applied x, W.net ++ N, W.asked ++ Q⟩

/-- What a call hands to the database. -/
def Obs.entries : Obs P → List Entry
  | .committed (some (_, e)) => [e]
  | _ => []

/-- What a call hands to the network. -/
def Obs.messages (p : P) : Obs P → List (P × Option P × Msg)
  | .sent l => l.map fun x => (p, x.1, x.2)
  | _ => []

def Op.requests : Op P → List Inner
  | .request i => [i]
  | _ => []

/-- The message of a call was sent, to this replica or to all. -/
def Op.Delivered (W : World P) (p : P) : Op P → Prop
  | .receive frm m => ∃ dst, (frm, dst, m) ∈ W.net ∧ (dst = none ∨ dst = some p)
  | _ => True

/-- What the group does next. -/
inductive Next (g : Setting P) (W : World P) : World P → Prop
  /-- a replica of the first membership starts: `Core::HandleCreateNewRaftGroup` (enclave/core/core.cc:443-485), where the
  first membership is the creator alone -/
  | start (p : P) (s : Node P) (rand : Nat → Nat) (path : Nat → Bool) (max : Nat) (cfg : RaftCfg) (hp : W.node p = none)
    (h : Node.new (g.env rand path) g.group p g.m0 (Log.new max) cfg false g.sm = .ok s) : Next g W (W.put p s [] [] [])
  /-- a replica joins with the state of another: `Core::PromoteRaftToLoaded` (enclave/core/core.cc:649-673), after replication
  of the database and of the log up to the last applied entry. Each push carries the committed membership
  (enclave/core/core.cc:1325-1332) and the last one carries the log up to the last applied entry, and the sender applies all
  committed entries before it lets go of the lock (enclave/core/core.cc:1785-1823), so that taking the sender's state of one
  moment loses nothing. -/
  | join (p q : P) (s sq : Node P) (rand : Nat → Nat) (path : Nat → Bool) (log : Log) (cfg : RaftCfg) (hp : W.node p = none)
    (hq : W.node q = some sq) (ha : sq.lastApplied = sq.commit) (hl : LogOf log (W.applied q))
    (hb : Log.bytesOf g.v.z log.entries ≤ log.curr) (hf : (W.applied q).length + 2 < SZ)
    (h : Node.new (g.env rand path) g.group p sq.mem log cfg true g.sm = .ok s) : Next g W (W.put p s (W.applied q) [] [])
  /-- the enclave calls a replica -/
  | call (p : P) (s s' : Node P) (op : Op P) (o : Obs P) (rand : Nat → Nat) (path : Nat → Bool) (hp : W.node p = some s)
    (hd : Op.Delivered W p op) (hf : op.Fits s) (h : op.run (g.env rand path) s = .ok (s', o)) :
    Next g W (W.put p s' (W.applied p ++ Obs.entries o) (Obs.messages p o) (Op.requests op))

/-- Everything that can happen from `W` on. -/
inductive Future (g : Setting P) (W : World P) : World P → Prop
  | now : Future g W W
  | next {W1 W2 : World P} (h : Future g W W1) (k : Next g W1 W2) : Future g W W2

theorem Future.trans {g : Setting P} {A B C : World P} (h : Future g A B) (k : Future g B C) : Future g A C := by
  induction k with
  | now => exact h
  | next _ k ih => exact .next ih k

/-- What a group can get to. -/
def Reachable (g : Setting P) (W : World P) : Prop := Future g World.empty W

theorem World.put_self (W : World P) (p : P) (s : Node P) (A N Q) : (W.put p s A N Q).node p = some s := if_pos rfl
theorem World.put_other (W : World P) {p x : P} (s : Node P) (A N Q) (h : x ≠ p) : (W.put p s A N Q).node x = W.node x := if_neg h
theorem World.put_applied_self (W : World P) (p : P) (s : Node P) (A N Q) : (W.put p s A N Q).applied p = A := if_pos rfl
theorem World.put_applied_other (W : World P) {p x : P} (s : Node P) (A N Q) (h : x ≠ p) :
    (W.put p s A N Q).applied x = W.applied x := if_neg h

/-! ### The surroundings of a call do not matter for the atoms -/

theorem Node.Atom.env {g : Setting P} {r : Nat → Nat} {pa : Nat → Bool} {inp : Inp P} {s s' : Node P} (h : Atom (g.env r pa) inp s s') :
    Atom g.v inp s s' := by
  cases h with
  | misc _ _ _ _ _ _ _ _ _ _ hc hf => exact .misc _ _ _ _ _ _ _ _ _ _ _ hc hf
  | table f h => exact .table _ f h
  | demote => exact .demote _
  | raise t h hi => exact .raise _ t h hi
  | campaign hv hr ht => exact .campaign _ hv hr ht
  | grant frm i lt hh g hi hv hl => exact .grant _ frm i lt hh g hi hv hl
  | voted frm g hi hr hm => exact .voted _ frm g hi hr hm
  | lead hr hq => exact .lead _ hr hq
  | hash k x => exact .hash _ k x
  | append _ e r hh hm hw h hy => exact .append _ _ e r hh hm hw h hy
  | cut idx hr hc hp ht hx => exact .cut _ idx hr hc hp ht hx
  | advance _ hr h => exact .advance _ _ hr h
  | follow frm g t pi pt ph es c a lp hi hr hca hm => exact .follow _ frm g t pi pt ph es c a lp hi hr hca hm
  | ack frm g mt l a h r hi hr hf hm => exact .ack _ frm g mt l a h r hi hr hf hm
  | send _ dst m hso h ha => exact .send _ _ dst m hso h ha

theorem Node.Steps.env {g : Setting P} {r : Nat → Nat} {pa : Nat → Bool} {inp : Inp P} {s s' : Node P} (h : Steps (g.env r pa) inp s s') :
    Steps g.v inp s s' := by
  induction h with
  | refl => exact .refl _
  | tail _ k ih => exact ih.tail k.env

/-! ### Shapes -/

def World.Shaped (g : Setting P) (W : World P) : Prop := ∀ p s, W.node p = some s → s.Shaped g.v

theorem base_shaped {v : Env P} {group : Nat} {me : P} {mem : Membership P} {log : Log} {cfg : RaftCfg} {cl : Bool}
    {sm : Nat} {full : List Entry} (hl : LogOf log full) (hb : Log.bytesOf v.z log.entries ≤ log.curr) (hcl : cl = true ∨ full = []) :
    (base group me mem log cfg cl sm).Shaped v := by
  have h1 := hl.lastIdx
  have h2 := hl.len
  have happ : (if cl then log.lastIdx else 0) = full.length := by
    rcases hcl with rfl | rfl
    · simpa using h1
    · rw [h1]; simp
  refine ⟨hl.one, hl.empty, ?_, ?_, ?_, hb⟩
  · show log.oldest = 1 ∨ log.oldest ≤ (if cl then log.lastIdx else 0)
    rw [happ]
    have h3 := hl.one
    by_cases h0 : log.entries = []
    · exact .inl (hl.empty h0)
    · have := List.length_pos_of_ne_nil h0
      right; omega
  · show (if cl then log.lastIdx else 0) ≤ max (if cl then log.lastIdx else 0) (if cl then log.lastIdx else 0)
    exact le_max_left _ _
  · show (if cl then log.lastIdx else 0) ≤ log.lastIdx
    rw [happ, h1]

theorem logOf_new (max : Nat) : LogOf (Log.new max) [] := ⟨by simp [Log.new], by simp [Log.new], by simp [Log.new], by simp [Log.new]⟩

theorem Op.shaped {v : Env P} {s s' : Node P} {op : Op P} {o : Obs P} (hs : s.Shaped v) (hf : op.Fits s)
    (h : op.run v s = .ok (s', o)) : s'.Shaped v := by
  rcases op.steps hs hf h with ⟨h1, _⟩ | ⟨i, e, _, _, h1, h2, h3, rfl⟩ | ⟨_, _, rfl⟩
  · exact h1.shaped hs
  · have h0 := hs
    unfold Node.Shaped at h0 ⊢
    have := hs.le_last h3
    refine ⟨h0.one, h0.empty, ?_, ?_, ?_, h0.bytes⟩
    · rcases h0.old with h5 | h5
      · exact .inl h5
      · right; simp only; omega
    · exact le_trans h2 (le_max_left _ _)
    · exact this.2
  · exact hs

/-- The replica a step concerns starts from a fresh state or from the one it had. -/
theorem Next.shaped {g : Setting P} {W W' : World P} (h : Next g W W') (hs : W.Shaped g) : W'.Shaped g := by
  intro x sx hx
  cases h with
  | start p s r pa mx cfg hp h =>
    by_cases hxp : x = p
    · subst hxp
      rw [World.put_self] at hx
      cases hx
      have hb := base_shaped (v := g.env r pa) (group := g.group) (me := x) (mem := g.m0) (cfg := cfg) (cl := false) (sm := g.sm)
        (logOf_new mx) (by simp [Log.new, Log.bytesOf]) (.inr rfl)
      exact (new_steps hb (by simp [Log.new, Log.lastIdx, SZ]) h).shaped hb
    · rw [World.put_other _ _ _ _ _ hxp] at hx
      exact hs x sx hx
  | join p q s sq r pa log cfg hp hq ha hl hbb hf h =>
    by_cases hxp : x = p
    · subst hxp
      rw [World.put_self] at hx
      cases hx
      have hb := base_shaped (v := g.env r pa) (group := g.group) (me := x) (mem := sq.mem) (cfg := cfg) (cl := true) (sm := g.sm)
        hl hbb (.inl rfl)
      exact (new_steps hb (by rw [hl.lastIdx]; exact hf) h).shaped hb
    · rw [World.put_other _ _ _ _ _ hxp] at hx
      exact hs x sx hx
  | call p s s' op o r pa hp hd hf h =>
    by_cases hxp : x = p
    · subst hxp
      rw [World.put_self] at hx
      cases hx
      exact Op.shaped (v := g.env r pa) (hs x s hp) hf h
    · rw [World.put_other _ _ _ _ _ hxp] at hx
      exact hs x sx hx

theorem Future.shaped {g : Setting P} {W W' : World P} (h : Future g W W') (hs : W.Shaped g) : W'.Shaped g := by
  induction h with
  | now => exact hs
  | next _ k ih => exact k.shaped ih

theorem Reachable.shaped {g : Setting P} {W : World P} (h : Reachable g W) : W.Shaped g :=
  Future.shaped h (fun p s h => by cases h)

theorem Reachable.future {g : Setting P} {W W' : World P} (h : Reachable g W) (k : Future g W W') : Reachable g W' := by
  induction k with
  | now => exact h
  | next _ k ih => exact ih.next k

/-! ### What only grows -/

/-- `W'` has all the replicas of `W`, and they kept what they recorded. -/
structure World.Le (W W' : World P) : Prop where
  node : ∀ p s, W.node p = some s → ∃ s', W'.node p = some s' ∧ s.hashed <+: s'.hashed ∧ s.led <+: s'.led ∧ s.commit ≤ s'.commit ∧
    s.promise ≤ s'.promise ∧ s.term ≤ s'.term
  applied : ∀ p s, W.node p = some s → W.applied p <+: W'.applied p
  asked : W.asked <+: W'.asked

theorem World.Le.refl (W : World P) : W.Le W :=
  ⟨fun _ s h => ⟨s, h, List.prefix_rfl, List.prefix_rfl, le_rfl, le_rfl, le_rfl⟩, fun _ _ _ => List.prefix_rfl, List.prefix_rfl⟩

theorem World.Le.trans {A B C : World P} (h : A.Le B) (k : B.Le C) : A.Le C := by
  refine ⟨?_, ?_, h.asked.trans k.asked⟩
  · intro p s hp
    obtain ⟨s1, a1, a2, a3, a4, a5, a6⟩ := h.node p s hp
    obtain ⟨s2, b1, b2, b3, b4, b5, b6⟩ := k.node p s1 a1
    exact ⟨s2, b1, a2.trans b2, a3.trans b3, a4.trans b4, a5.trans b5, a6.trans b6⟩
  · intro p s hp
    obtain ⟨s1, a1, _⟩ := h.node p s hp
    exact (h.applied p s hp).trans (k.applied p s1 a1)

theorem World.le_put {W : World P} {p : P} {s' : Node P} {A : List Entry} {N Q}
    (hp : W.node p = none ∨ ∃ s, W.node p = some s ∧ s.hashed <+: s'.hashed ∧ s.led <+: s'.led ∧ s.commit ≤ s'.commit ∧
      s.promise ≤ s'.promise ∧ s.term ≤ s'.term ∧ W.applied p <+: A) : W.Le (W.put p s' A N Q) := by
  refine ⟨?_, ?_, List.prefix_append _ _⟩
  · intro x sx hx
    by_cases hxp : x = p
    · subst hxp
      rcases hp with hp | ⟨s, hp, h1, h2, h3, h4, h5, _⟩
      · rw [hp] at hx; cases hx
      · rw [hp] at hx; cases hx
        exact ⟨s', World.put_self .., h1, h2, h3, h4, h5⟩
    · exact ⟨sx, by rw [World.put_other _ _ _ _ _ hxp]; exact hx, List.prefix_rfl, List.prefix_rfl, le_rfl, le_rfl, le_rfl⟩
  · intro x sx hx
    by_cases hxp : x = p
    · subst hxp
      rw [World.put_applied_self]
      rcases hp with hp | ⟨s, hp, h1, h2, h3, h4, h5, h6⟩
      · rw [hp] at hx; cases hx
      · exact h6
    · rw [World.put_applied_other _ _ _ _ _ hxp]

theorem Next.le {g : Setting P} {W W' : World P} (h : Next g W W') (hs : W.Shaped g) : W.Le W' := by
  cases h with
  | start p s r pa mx cfg hp h => exact World.le_put (.inl hp)
  | join p q s sq r pa log cfg hp hq ha hl hbb hf h => exact World.le_put (.inl hp)
  | call p s s' op o r pa hp hd hf h =>
    obtain ⟨h1, h2, h3, h4, h5, h6, h7, _⟩ := Op.grows (v := g.env r pa) (hs p s hp) hf h
    exact World.le_put (.inr ⟨s, hp, h6, h7, h2, h3, h1, List.prefix_append _ _⟩)

theorem Future.le {g : Setting P} {W W' : World P} (h : Future g W W') (hs : W.Shaped g) : W.Le W' := by
  induction h with
  | now => exact World.Le.refl _
  | next a k ih => exact ih.trans (k.le (a.shaped hs))

/-! ### The invariant of the group -/

/-- The context of the invariants. -/
def Setting.ctx (g : Setting P) (G : Bytes × Bytes → Prop) (K : Inner → Prop) : Ctx P := ⟨g.v, G, g.group, g.sm, g.m0, K⟩

structure GInv (c : Ctx P) (W : World P) (σ : St P) : Prop where
  same : ∀ p, (σ p).map Prod.fst = W.node p
  ok : ∀ p s F, σ p = some (s, F) → NodeOk c σ p s F
  applied : ∀ p s F, σ p = some (s, F) → W.applied p = F.take s.lastApplied
  net : ∀ x ∈ W.net, MsgOk c σ x.1 x.2.1 x.2.2

theorem GInv.get {c : Ctx P} {W : World P} {σ : St P} (h : GInv c W σ) {p : P} {s : Node P} (hp : W.node p = some s) :
    ∃ F, σ p = some (s, F) := by
  have := h.same p
  rw [hp] at this
  cases hs : σ p with
  | none => rw [hs] at this; cases this
  | some x => obtain ⟨a, F⟩ := x; rw [hs] at this; cases this; exact ⟨F, rfl⟩

theorem GInv.absent {c : Ctx P} {W : World P} {σ : St P} (h : GInv c W σ) {p : P} (hp : W.node p = none) : σ p = none := by
  have := h.same p
  rw [hp] at this
  cases hs : σ p with
  | none => rfl
  | some x => rw [hs] at this; cases this

theorem grows_fresh {σ : St P} {p : P} {s : Node P} {F : List Entry} (h : σ p = none) : Grows σ (upd σ p s F) := by
  intro x sx Fx hx
  by_cases hxp : x = p
  · subst hxp; rw [h] at hx; cases hx
  · exact ⟨sx, Fx, by rw [upd_other _ _ _ hxp]; exact hx, le_rfl, List.take_prefix _ _, List.prefix_rfl, List.prefix_rfl⟩

/-- Put one replica's new state in place. -/
theorem GInv.put {c : Ctx P} {W : World P} {σ : St P} {p : P} {s : Node P} {F A : List Entry} {N : List (P × Option P × Msg)} {Q}
    (h : GInv c W σ) (hok : NodeOk c (upd σ p s F) p s F) (hg : Grows σ (upd σ p s F)) (hA : A = F.take s.lastApplied)
    (hN : ∀ x ∈ N, MsgOk c (upd σ p s F) x.1 x.2.1 x.2.2) : GInv c (W.put p s A N Q) (upd σ p s F) := by
  refine ⟨?_, ?_, ?_, ?_⟩
  · intro x
    by_cases hxp : x = p
    · subst hxp; rw [upd_self, World.put_self]; rfl
    · rw [upd_other _ _ _ hxp, World.put_other _ _ _ _ _ hxp]; exact h.same x
  · intro x sx Fx hx
    by_cases hxp : x = p
    · subst hxp; rw [upd_self] at hx; cases hx; exact hok
    · rw [upd_other _ _ _ hxp] at hx; exact (h.ok x sx Fx hx).grows hg
  · intro x sx Fx hx
    by_cases hxp : x = p
    · subst hxp; rw [upd_self] at hx; cases hx; rw [World.put_applied_self]; exact hA
    · rw [upd_other _ _ _ hxp] at hx; rw [World.put_applied_other _ _ _ _ _ hxp]; exact h.applied x sx Fx hx
  · intro x hx
    rcases List.mem_append.mp hx with hx | hx
    · exact (h.net x hx).grows hg
    · exact hN x hx

/-- A new replica. -/
theorem base_ok {c : Ctx P} {σ : St P} {p : P} {mem : Membership P} {log : Log} {cfg : RaftCfg} {cl : Bool} {F : List Entry}
    (hs : (base c.group p mem log cfg cl c.sm).Shaped c.v) (hl : LogOf log F) (hcl : cl = true ∨ F = [])
    (hh : Hist c σ F) (hc : Com c σ F) (hm : mem = memAt c.v c.m0 F) : NodeOk c σ p (base c.group p mem log cfg cl c.sm) F := by
  have happ : (if cl then log.lastIdx else 0) = F.length := by
    rcases hcl with rfl | rfl
    · simpa using hl.lastIdx
    · rw [hl.lastIdx]; simp
  have hcm : (base c.group p mem log cfg cl c.sm).commit = F.length := happ
  have hpr : (base c.group p mem log cfg cl c.sm).promise = F.length := happ
  have hla : (base c.group p mem log cfg cl c.sm).lastApplied = F.length := happ
  refine ⟨rfl, rfl, rfl, hs, hl, hh, by simp [base], by show 0 < SZ; decide, ⟨by simp [base], by simp [base], by simp [base]⟩,
    (by intro h; cases h), by rw [hla, hcm], by rw [hcm, hpr], by rw [hpr], ?_, ⟨?_, ?_⟩, fun h => absurd rfl h, (by intro h; cases h),
    (by intro h; cases h), by simp [base], (by intro h; cases h), by simp [base]⟩
  · rw [hcm, List.take_length]; exact hc
  · rw [hcm, List.take_length]; exact hm
  · rw [hcm, List.drop_length]; rfl

theorem GInv.fresh {g : Setting P} {G : Bytes × Bytes → Prop} {K : Inner → Prop} {W : World P} {σ : St P} {p : P} {s : Node P}
    {mem : Membership P} {log : Log} {cfg : RaftCfg} {cl : Bool} {F : List Entry} {r : Nat → Nat} {pa : Nat → Bool}
    (hi : GInv (g.ctx G K) W σ) (hp : W.node p = none) (hl : LogOf log F) (hb : Log.bytesOf g.v.z log.entries ≤ log.curr)
    (hf : F.length + 2 < SZ) (hcl : cl = true ∨ F = [])
    (h : Node.new (g.env r pa) g.group p mem log cfg cl g.sm = .ok s)
    (hh : Hist (g.ctx G K) σ F) (hc : Com (g.ctx G K) σ F) (hm : mem = memAt g.v g.m0 F)
    (hG : ∀ x ∈ s.hashed, G x) (hn : NoCollision g.v G) (hser : SerInj g.v) :
    ∃ σ', GInv (g.ctx G K) (W.put p s F [] []) σ' ∧ Grows σ σ' := by
  have hbs : (base g.group p mem log cfg cl g.sm).Shaped (g.env r pa) := base_shaped hl hb hcl
  have hst := (new_steps hbs (by rw [hl.lastIdx]; exact hf) h)
  have hg0 : Grows σ (upd σ p (base g.group p mem log cfg cl g.sm) F) := grows_fresh (hi.absent hp)
  have hok : NodeOk (g.ctx G K) (upd σ p (base g.group p mem log cfg cl g.sm) F) p (base g.group p mem log cfg cl g.sm) F :=
    base_ok (c := g.ctx G K) hbs hl hcl (hh.grows hg0) (hc.grows hg0) hm
  obtain ⟨F', k1, k2⟩ := (hst.env (g := g)).group_inv (c := g.ctx G K) hok (upd_self _ _ _ _)
    ⟨fun frm m h => (by cases h), fun i h => (by cases h)⟩ (fun q m h => (by cases h)) hG hn hser
  rw [upd_upd] at k1 k2
  refine ⟨_, hi.put k1 (hg0.trans k2) ?_ (by simp), hg0.trans k2⟩
  have hm2 := hst.mono
  obtain ⟨_, _, e1, e2, e3, _⟩ := k2 p _ F (upd_self _ _ _ _)
  rw [upd_self] at e1
  cases e1
  have happ : (if cl then log.lastIdx else 0) = F.length := by
    rcases hcl with rfl | rfl
    · simpa using hl.lastIdx
    · rw [hl.lastIdx]; simp
  have hla : s.lastApplied = F.length := hm2.applied.trans happ
  have hpr : (base g.group p mem log cfg cl g.sm).promise = F.length := happ
  rw [hpr, List.take_length] at e3
  rw [hla]
  exact List.prefix_iff_eq_take.mp e3

/-- The invariant is kept. -/
theorem GInv.next {g : Setting P} {G : Bytes × Bytes → Prop} {K : Inner → Prop} {W W' : World P} {σ : St P} (h : Next g W W')
    (hi : GInv (g.ctx G K) W σ) (hG : ∀ p s, W'.node p = some s → ∀ x ∈ s.hashed, G x) (hK : ∀ i ∈ W'.asked, K i)
    (hn : NoCollision g.v G) (hser : SerInj g.v) : ∃ σ', GInv (g.ctx G K) W' σ' ∧ Grows σ σ' := by
  cases h with
  | start p s r pa mx cfg hp h =>
    exact GInv.fresh hi hp (logOf_new mx) (by simp [Log.new, Log.bytesOf]) (by decide) (.inr rfl) h (Hist.nil _ _) .nil rfl
      (hG p s (World.put_self ..)) hn hser
  | join p q s sq r pa log cfg hp hq ha hl hbb hf h =>
    obtain ⟨F, hF⟩ := hi.get hq
    have ok := hi.ok _ _ _ hF
    have hA := hi.applied _ _ _ hF
    rw [ha] at hA
    refine GInv.fresh hi hp hl hbb hf (.inl rfl) h ?_ ?_ ?_ (hG p s (World.put_self ..)) hn hser
    · rw [hA]; exact ok.hist.take _
    · rw [hA]; exact ok.com
    · rw [hA]; exact ok.mems.mem
  | call p s s' op o r pa hp hd hf h =>
    obtain ⟨F, hF⟩ := hi.get hp
    have ok := hi.ok _ _ _ hF
    have hA := hi.applied _ _ _ hF
    have hG' := hG p s' (World.put_self ..)
    rcases op.steps (v := g.env r pa) ok.shaped hf h with ⟨h1, h2, h3⟩ | ⟨i, e, _, rfl, h1, h2, h3, rfl⟩ | ⟨_, rfl, rfl⟩
    · have hin : InpOk (g.ctx G K) σ p op.input := by
        refine ⟨?_, ?_⟩
        · intro frm m hm
          cases op with
          | receive f m' =>
            cases hm
            obtain ⟨dst, d1, d2⟩ := hd
            exact ⟨dst, d2, hi.net _ d1⟩
          | _ => cases hm
        · intro i hm
          cases op with
          | request i' =>
            cases hm
            exact hK _ (List.mem_append_right _ (List.mem_singleton.mpr rfl))
          | _ => cases hm
      obtain ⟨F', k1, k2⟩ := (h1.env (g := g)).group_inv (c := g.ctx G K) ok hF hin (Op.fits_typed hf) hG' hn hser
      have ho : Obs.entries o = [] := by
        cases o with
        | committed r =>
          cases r with
          | none => rfl
          | some x => exact absurd rfl (h2 x)
        | _ => rfl
      have ho' : Obs.messages p o = [] := by
        cases o with
        | sent l => exact absurd rfl (h3 l)
        | _ => rfl
      refine ⟨_, hi.put k1 k2 ?_ (by rw [ho']; simp), k2⟩
      obtain ⟨_, _, e1, e2, e3, _⟩ := k2 p _ F hF
      rw [upd_self] at e1
      cases e1
      rw [ho, List.append_nil, hA, h1.mono.applied]
      have a1 := ok.applied
      have a2 := ok.commit
      have a3 := ok.promise
      have e4 : F.take s.lastApplied <+: F' := (List.take_prefix_take_left (by omega)).trans e3
      have e5 := List.prefix_iff_eq_take.mp e4
      rw [List.length_take, Nat.min_eq_left (by omega)] at e5
      exact e5
    · have hok : NodeOk (g.ctx G K) σ p { s with lastApplied := i } F :=
        { ok with
          shaped := Op.shaped (v := g.env r pa) ok.shaped hf h
          applied := h2
          voted := ok.voted.ofEq rfl rfl rfl
          mems := ⟨ok.mems.mem, ok.mems.unc⟩ }
      have hg : Grows σ (upd σ p { s with lastApplied := i } F) :=
        upd_grows hF le_rfl (List.take_prefix _ _) List.prefix_rfl List.prefix_rfl
      refine ⟨_, hi.put (hok.grows hg) hg ?_ (by simp [Obs.messages]), hg⟩
      rw [hA]
      obtain ⟨_, _, _, h6⟩ := ok.log.at_some h3
      subst h1
      show F.take s.lastApplied ++ [e] = F.take (s.lastApplied + 1)
      rw [List.take_add_one]
      rw [Nat.add_sub_cancel] at h6
      rw [h6]
      rfl
    · have hok : NodeOk (g.ctx G K) σ p { s with sendable := [] } F :=
        { ok with
          voted := ok.voted.ofEq rfl rfl rfl
          mems := ⟨ok.mems.mem, ok.mems.unc⟩
          sends := by simp }
      have hg : Grows σ (upd σ p { s with sendable := [] } F) :=
        upd_grows hF le_rfl (List.take_prefix _ _) List.prefix_rfl List.prefix_rfl
      refine ⟨_, hi.put (hok.grows hg) hg ?_ ?_, hg⟩
      · simp only [Obs.entries, List.append_nil]; exact hA
      · intro x hx
        simp only [Obs.messages, List.mem_map] at hx
        obtain ⟨y, hy, rfl⟩ := hx
        exact (ok.sends y hy).grows hg

/-- The inputs of HMAC that replicas used. -/
def World.Hashed (W : World P) (x : Bytes × Bytes) : Prop := ∃ p s, W.node p = some s ∧ x ∈ s.hashed

theorem World.Le.hashed {W W' : World P} (h : W.Le W') {x : Bytes × Bytes} (hx : W.Hashed x) : W'.Hashed x := by
  obtain ⟨p, s, h1, h2⟩ := hx
  obtain ⟨s', b1, b2, _⟩ := h.node p s h1
  exact ⟨p, s', b1, b2.subset h2⟩

theorem GInv.future {g : Setting P} {W W' : World P} {σ : St P} (h : Future g W W') {G : Bytes × Bytes → Prop} {K : Inner → Prop}
    (hs : W.Shaped g) (hi : GInv (g.ctx G K) W σ) (hG : ∀ x, W'.Hashed x → G x) (hK : ∀ i ∈ W'.asked, K i) (hn : NoCollision g.v G)
    (hser : SerInj g.v) : ∃ σ', GInv (g.ctx G K) W' σ' ∧ Grows σ σ' := by
  induction h with
  | now => exact ⟨σ, hi, Grows.refl _⟩
  | next a k ih =>
    have hle := k.le (a.shaped hs)
    obtain ⟨σ1, h1, h2⟩ := ih (fun x hx => hG x (hle.hashed hx)) (fun i hi => hK i (hle.asked.subset hi))
    obtain ⟨σ2, h3, h4⟩ := h1.next k (fun p s h x hx => hG x ⟨p, s, h, hx⟩) hK hn hser
    exact ⟨σ2, h3, h2.trans h4⟩

theorem Reachable.inv {g : Setting P} {W : World P} (h : Reachable g W) {G : Bytes × Bytes → Prop} {K : Inner → Prop}
    (hG : ∀ x, W.Hashed x → G x) (hK : ∀ i ∈ W.asked, K i) (hn : NoCollision g.v G) (hser : SerInj g.v) :
    ∃ σ, GInv (g.ctx G K) W σ := by
  have h0 : GInv (g.ctx G K) World.empty (fun _ => none) :=
    ⟨fun p => rfl, fun p s F h => (by cases h), fun p s F h => (by cases h), fun x h => (by cases h)⟩
  obtain ⟨σ, h1, _⟩ := h0.future h (fun p s h => (by cases h)) hG hK hn hser
  exact ⟨σ, h1⟩

end Svr.Raft
