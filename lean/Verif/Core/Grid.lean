import Verif.Raft.Agree
import Verif.Core.LogTx
import Verif.Spec.Serial

/-!
# A group of enclaves: Raft with databases

The world of `Raft/Cluster.lean`, where each replica also has the rest of its loaded state, and applies committed entries to its
database as `Core::RaftHandleCommittedLogs` does.
-/

namespace Svr.Core
open Raft Raft.Node
variable {P : Type} [LinearOrder P] {D L E : Type}

/-- What the enclaves of a group have in common. `str` is `PeerID::ToString`, `pm` the parser of `MinimumLimits`. -/
structure Site (P D L E : Type) where
  raft : Setting P
  pr : Proto D L E
  pm : Bytes → Option Minimums.Limits
  str : P → Bytes

/-- All replicas. `out` records all responses databases ever produced: where, for which index, which. -/
structure Grid (P D E : Type) [LinearOrder P] where
  W : World P
  side : P → Option (Side D E)
  out : List (P × Nat × Option E)

def Grid.empty : Grid P D E := ⟨World.empty, fun _ => none, []⟩

/-- Replace `p`'s part. -/
def setSide (f : P → Option (Side D E)) (p : P) (a : Side D E) : P → Option (Side D E) := fun x => if x = p then some a else f x

/-- What happens next; the Raft part of each step is a step of `Raft.Next` or none. -/
inductive GNext (c : Site P D L E) (G : Grid P D E) : Grid P D E → Prop
  /-- `Core::HandleCreateNewRaftGroupRequest` (enclave/core/core.cc:443-485) -/
  | start (p : P) (s : Node P) (rand : Nat → Nat) (path : Nat → Bool) (max : Nat) (cfg : RaftCfg) (hp : G.W.node p = none)
    (h : Node.new (c.raft.env rand path) c.raft.group p c.raft.m0 (Log.new max) cfg false c.raft.sm = .ok s) :
    GNext c G ⟨G.W.put p s [] [] [], setSide G.side p (Side.create c.pr), G.out⟩
  /-- `Core::PromoteRaftToLoaded` (enclave/core/core.cc:649-673); that the replicated database is the sender's is the subject of
  `Replicate.lean` -/
  | join (p q : P) (s sq : Node P) (a : Side D E) (rand : Nat → Nat) (path : Nat → Bool) (log : Log) (cfg : RaftCfg)
    (hp : G.W.node p = none) (hq : G.W.node q = some sq) (hs : G.side q = some a) (ha : sq.lastApplied = sq.commit)
    (hl : LogOf log (G.W.applied q)) (hb : Log.bytesOf c.raft.v.z log.entries ≤ log.curr) (hf : (G.W.applied q).length + 2 < SZ)
    (h : Node.new (c.raft.env rand path) c.raft.group p sq.mem log cfg true c.raft.sm = .ok s) :
    GNext c G ⟨G.W.put p s (G.W.applied q) [] [], setSide G.side p (Side.promote a.db a.limits log.lastIdx), G.out⟩
  /-- any call of a replica's `Raft` that does not take a committed entry -/
  | call (p : P) (s s' : Node P) (op : Op P) (o : Obs P) (rand : Nat → Nat) (path : Nat → Bool) (hp : G.W.node p = some s)
    (hd : Op.Delivered G.W p op) (hf : op.Fits s) (h : op.run (c.raft.env rand path) s = .ok (s', o)) (hne : op ≠ .takeCommitted) :
    GNext c G ⟨G.W.put p s' (G.W.applied p ++ Obs.entries o) (Obs.messages p o) (Op.requests op), G.side, G.out⟩
  /-- `Core::AddLogTransaction` (enclave/core/core.cc:1609-1617), at any time and with any location -/
  | add (p : P) (a : Side D E) (idx : Nat) (t : LogTx) (hs : G.side p = some a) : GNext c G ⟨G.W, setSide G.side p (a.add idx t), G.out⟩
  /-- one turn of the loop of `Core::RaftHandleCommittedLogs` (enclave/core/core.cc:1785-1823) -/
  | commit (p : P) (s s' : Node P) (a a' : Side D E) (i : Nat) (e : Entry) (path : Bool) (hp : G.W.node p = some s)
    (hs : G.side p = some a) (hf : (Op.takeCommitted : Op P).Fits s) (h : s.takeCommittedLog = .ok (s', some (i, e)))
    (ht : a.take c.pr c.pm (c.str p) path i e = .ok a') :
    GNext c G ⟨G.W.put p s' (G.W.applied p ++ [e]) [] [], setSide G.side p a', G.out ++ (a'.effects.drop a.effects.length).map (fun x => (p, x))⟩

inductive GFuture (c : Site P D L E) (G : Grid P D E) : Grid P D E → Prop
  | now : GFuture c G G
  | next {G1 G2 : Grid P D E} (h : GFuture c G G1) (k : GNext c G1 G2) : GFuture c G G2

def GReachable (c : Site P D L E) (G : Grid P D E) : Prop := GFuture c Grid.empty G

variable {c : Site P D L E}

theorem GNext.raft {G G' : Grid P D E} (h : GNext c G G') : Future c.raft G.W G'.W := by
  cases h with
  | start p s rand path max cfg hp h => exact .next .now (.start p s rand path max cfg hp h)
  | join p q s sq a rand path log cfg hp hq hs ha hl hb hf h => exact .next .now (.join p q s sq rand path log cfg hp hq ha hl hb hf h)
  | call p s s' op o rand path hp hd hf h hne => exact .next .now (.call p s s' op o rand path hp hd hf h)
  | add => exact .now
  | commit p s s' a a' i e path hp hs hf h ht =>
    exact .next .now (.call (g := c.raft) p s s' .takeCommitted (.committed (some (i, e))) (fun _ => 0) (fun _ => true) hp trivial hf
      (by simp [Op.run, h]))

theorem GFuture.raft {G G' : Grid P D E} (h : GFuture c G G') : Future c.raft G.W G'.W := by
  induction h with
  | now => exact .now
  | next _ k ih => exact Future.trans ih k.raft

theorem GReachable.raft {G : Grid P D E} (h : GReachable c G) : Reachable c.raft G.W := GFuture.raft h

theorem GReachable.future {G G' : Grid P D E} (h : GReachable c G) (k : GFuture c G G') : GReachable c G' := by
  induction k with
  | now => exact h
  | next _ k ih => exact GFuture.next ih k

/-- Running the limits in the entries. -/
inductive LimitsRun (pm : Bytes → Option Minimums.Limits) : Minimums.Limits → List Entry → Minimums.Limits → Prop
  | done (l) : LimitsRun pm l [] l
  | skip (l e H l') (h : ∀ b, e.inner ≠ .minimums b) (k : LimitsRun pm l H l') : LimitsRun pm l (e :: H) l'
  | change (l e b u l1 H l') (h : e.inner = .minimums b) (hp : pm b = some u) (hu : Minimums.updateLimits l u = .ok l1)
    (k : LimitsRun pm l1 H l') : LimitsRun pm l (e :: H) l'

theorem LimitsRun.append {pm : Bytes → Option Minimums.Limits} {l l1 l2 : Minimums.Limits} {H K : List Entry} (h : LimitsRun pm l H l1)
    (k : LimitsRun pm l1 K l2) : LimitsRun pm l (H ++ K) l2 := by
  induction h with
  | done => exact k
  | skip l e H l' h _ ih => exact .skip _ _ _ _ h (ih k)
  | change l e b u l1 H l' h hp hu _ ih => exact .change _ _ _ _ _ _ _ h hp hu (ih k)

theorem LimitsRun.unique {pm : Bytes → Option Minimums.Limits} {l l1 l2 : Minimums.Limits} {H : List Entry} (h : LimitsRun pm l H l1)
    (k : LimitsRun pm l H l2) : l1 = l2 := by
  induction h with
  | done => cases k; rfl
  | skip l e H l' h _ ih =>
    cases k with
    | skip _ _ _ _ _ k => exact ih k
    | change _ _ b _ _ _ _ h' => exact absurd h' (h b)
  | change l e b u l1 H l' h hp hu _ ih =>
    cases k with
    | skip _ _ _ _ h' => exact absurd h (h' b)
    | change _ _ _ _ _ _ _ h' hp' hu' k =>
      rw [h] at h'; cases h'
      rw [hp] at hp'; cases hp'
      rw [hu] at hu'; cases hu'
      exact ih k

/-- One turn of the loop, in terms of the specification. -/
theorem take_spec {pr : Proto D L E} {pm : Bytes → Option Minimums.Limits} {me : Bytes} {s s' : Side D E} {path : Bool} {idx : Nat}
    {e : Entry} (h : s.take pr pm me path idx e = .ok s') :
    s'.last = idx ∧ s'.leaf = be64 idx ∧ LimitsRun pm s.limits [e] s'.limits ∧
      ∃ eff, Spec.Serial pr s.db [e] s'.db [eff] ∧ s'.effects = s.effects ++ [(idx, eff)] := by
  obtain ⟨s1, eff, h1, rfl⟩ := take_eq h
  obtain ⟨a1, a2, a3, _⟩ := inner_cases h1
  refine ⟨a1, a2, ?_, eff, ?_, by show s1.effects ++ _ = _; rw [a3]⟩
  · show LimitsRun pm s.limits [e] s1.limits
    cases hi : e.inner with
    | membership g =>
      rw [hi] at h1; cases h1
      have : (({ s with last := idx, leaf := be64 idx } : Side D E).membershipChange me g).limits = s.limits := by
        unfold Side.membershipChange; split <;> split <;> rfl
      rw [this]
      exact .skip _ _ _ _ (by rw [hi]; simp) (.done _)
    | data b =>
      rw [hi] at h1
      obtain ⟨⟨db, ef⟩, _, h1⟩ := Out.bind_eq_ok.mp h1
      cases h1
      exact .skip _ _ _ _ (by rw [hi]; simp) (.done _)
    | minimums b =>
      rw [hi] at h1
      simp only [Side.inner] at h1
      split at h1
      · cases h1
      · rename_i u hu
        obtain ⟨l, hl, h1⟩ := Out.bind_eq_ok.mp h1
        cases h1
        unfold Minimums.applyCommitted at hl
        split at hl
        · rename_i l' hl'
          cases hl
          exact .change _ _ _ _ _ _ _ hi hu hl' (.done _)
        · cases hl
    | notSet =>
      rw [hi] at h1; cases h1
      exact .skip _ _ _ _ (by rw [hi]; simp) (.done _)
  · show Spec.Serial pr s.db [e] s1.db [eff]
    cases hi : e.inner with
    | membership g =>
      rw [hi] at h1; cases h1
      have : (({ s with last := idx, leaf := be64 idx } : Side D E).membershipChange me g).db = s.db := by
        unfold Side.membershipChange; split <;> split <;> rfl
      rw [this]
      exact .skip _ _ _ _ _ (by simp [Spec.request, hi]) (.done _)
    | data b =>
      rw [hi] at h1
      obtain ⟨⟨db, ef⟩, h2, h1⟩ := Out.bind_eq_ok.mp h1
      cases h1
      unfold applyDb at h2
      split at h2
      · rename_i hp
        cases h2
        exact .skip _ _ _ _ _ (by simp [Spec.request, hi, hp]) (.done _)
      · rename_i l hp
        split at h2
        · rename_i hv
          obtain ⟨⟨db', x⟩, h3, h2⟩ := Out.bind_eq_ok.mp h2
          cases h2
          exact .run _ _ l _ _ _ _ _ (by simp [Spec.request, hi, hp, hv]) h3 (.done _)
        · rename_i hv
          cases h2
          exact .skip _ _ _ _ _ (by simp [Spec.request, hi, hp, hv]) (.done _)
    | minimums b =>
      rw [hi] at h1
      simp only [Side.inner] at h1
      split at h1
      · cases h1
      · obtain ⟨l, hl, h1⟩ := Out.bind_eq_ok.mp h1
        cases h1
        exact .skip _ _ _ _ _ (by simp [Spec.request, hi]) (.done _)
    | notSet =>
      rw [hi] at h1; cases h1
      exact .skip _ _ _ _ _ (by simp [Spec.request, hi]) (.done _)

/-- What a replica's state says about the entries it applied. -/
structure SideOk (c : Site P D L E) (A : List Entry) (s : Node P) (a : Side D E) : Prop where
  node : s.lastApplied = A.length
  last : a.last = A.length
  leaf : a.leaf = be64 a.last
  limits : LimitsRun c.pm OMap.empty A a.limits
  db : ∃ rs, Spec.Serial c.pr c.pr.fresh A a.db rs ∧ ∀ i x, (i, x) ∈ a.effects → 1 ≤ i ∧ rs[i - 1]? = some x

structure GridOk (c : Site P D L E) (G : Grid P D E) : Prop where
  has : ∀ p a, G.side p = some a → ∃ s, G.W.node p = some s ∧ SideOk c (G.W.applied p) s a
  no : ∀ p, G.side p = none → G.W.node p = none
  /-- everything put out belongs to the serial run of the entries applied where it was put out -/
  out : ∀ p i x, (p, i, x) ∈ G.out → ∃ a d rs, G.side p = some a ∧ Spec.Serial c.pr c.pr.fresh (G.W.applied p) d rs ∧ 1 ≤ i ∧
    rs[i - 1]? = some x

theorem SideOk.idle {A : List Entry} {s s' : Node P} {a : Side D E} (h : SideOk c A s a) (hs : s'.lastApplied = s.lastApplied) :
    SideOk c A s' a := ⟨hs.trans h.node, h.last, h.leaf, h.limits, h.db⟩

theorem serial_extend {pr : Proto D L E} {d d1 d2 : D} {A : List Entry} {e : Entry} {rs : List (Option E)} {x : Option E}
    (h : Spec.Serial pr d A d1 rs) (k : Spec.Serial pr d1 [e] d2 [x]) : Spec.Serial pr d (A ++ [e]) d2 (rs ++ [x]) := h.append k

theorem new_applied {g : Setting P} {p : P} {m : Membership P} {log : Log} {cfg : RaftCfg} {cl : Bool} {s : Node P} {rand path}
    {F : List Entry} (hl : LogOf log F) (hb : Log.bytesOf g.v.z log.entries ≤ log.curr) (hf : F.length + 2 < SZ)
    (hcl : cl = true ∨ F = []) (h : Node.new (g.env rand path) g.group p m log cfg cl g.sm = .ok s) : s.lastApplied = F.length := by
  have hst := Node.new_steps (v := g.env rand path) (base_shaped hl hb hcl) (by rw [hl.lastIdx]; exact hf) h
  have := hst.mono.applied
  rw [this]
  show (if cl then log.lastIdx else 0) = F.length
  rcases hcl with rfl | rfl
  · simpa using hl.lastIdx
  · rw [hl.lastIdx]; simp

theorem takeCommitted_eq {s s' : Node P} {i : Nat} {e : Entry} (h : s.takeCommittedLog = .ok (s', some (i, e))) :
    i = s.lastApplied + 1 ∧ s'.lastApplied = i ∧ s.log.at? i = some e ∧ i ≤ s.commit := by
  unfold Node.takeCommittedLog at h
  split at h
  · cases h
  · rename_i hlt
    cases ha : s.log.at? (s.lastApplied + 1) with
    | none => simp [ha] at h
    | some x =>
      simp only [ha, Out.ok.injEq, Prod.mk.injEq, Option.some.injEq] at h
      obtain ⟨rfl, rfl, rfl⟩ := h
      exact ⟨rfl, rfl, ha, by omega⟩

theorem GridOk.next {G G' : Grid P D E} (h : GNext c G G') (ok : GridOk c G) (hs : G.W.Shaped c.raft) : GridOk c G' := by
  have hout : ∀ {p : P} {A : List Entry} {a' : Side D E} {s' N Q}, (∀ a, G.side p = some a → G.W.applied p <+: A) →
      (∃ d rs, Spec.Serial c.pr c.pr.fresh A d rs) →
      ∀ q i x, (q, i, x) ∈ G.out → ∃ b d rs, setSide G.side p a' q = some b ∧
        Spec.Serial c.pr c.pr.fresh ((G.W.put p s' A N Q).applied q) d rs ∧ 1 ≤ i ∧ rs[i - 1]? = some x := by
    intro p A a' s' N Q hpre hser q i x hm
    obtain ⟨b, d, rs, h1, h2, h3, h4⟩ := ok.out q i x hm
    by_cases hq : q = p
    · subst hq
      obtain ⟨d', rs', hser⟩ := hser
      obtain ⟨K, hK⟩ := hpre b h1
      have hser0 := hser
      rw [← hK] at hser
      obtain ⟨d1, r1, r2, k1, k2, k3⟩ := hser.split
      obtain ⟨_, rfl⟩ := h2.unique k1
      refine ⟨a', d', rs', if_pos rfl, by rw [World.put_applied_self]; exact hser0, h3, ?_⟩
      rw [k3, List.getElem?_append_left (List.getElem?_eq_some_iff.mp h4).1]; exact h4
    · exact ⟨b, d, rs, by simp [setSide, hq, h1], by rw [World.put_applied_other _ _ _ _ _ hq]; exact h2, h3, h4⟩
  have hsome : ∀ {p : P} {A : List Entry} {a' : Side D E} {s' N Q}, SideOk c A s' a' →
      ∀ q b, setSide G.side p a' q = some b → ∃ s, (G.W.put p s' A N Q).node q = some s ∧
        SideOk c ((G.W.put p s' A N Q).applied q) s b := by
    intro p A a' s' N Q hok q b hb
    by_cases hq : q = p
    · subst hq
      simp only [setSide, if_true, Option.some.injEq] at hb
      subst hb
      exact ⟨s', World.put_self .., by rw [World.put_applied_self]; exact hok⟩
    · simp only [setSide, hq, if_false] at hb
      obtain ⟨s, h1, h2⟩ := ok.has q b hb
      exact ⟨s, by rw [World.put_other _ _ _ _ _ hq]; exact h1, by rw [World.put_applied_other _ _ _ _ _ hq]; exact h2⟩
  have hnone : ∀ {p : P} {A : List Entry} {a' : Side D E} {s' N Q} q, setSide G.side p a' q = none →
      (G.W.put p s' A N Q).node q = none := by
    intro p A a' s' N Q q hq
    by_cases hqp : q = p
    · simp [setSide, hqp] at hq
    · simp only [setSide, hqp, if_false] at hq
      rw [World.put_other _ _ _ _ _ hqp]; exact ok.no q hq
  cases h with
  | start p s rand path max cfg hp h =>
    have hno : ∀ a, G.side p = some a → False := fun a ha => by obtain ⟨s, k, _⟩ := ok.has p a ha; rw [hp] at k; cases k
    have hla : s.lastApplied = 0 := new_applied (F := []) (logOf_new max) (by simp [Log.new, Log.bytesOf]) (by simp [SZ]) (.inr rfl) h
    refine ⟨hsome ⟨hla, rfl, rfl, .done _, [], .done _, ?_⟩, hnone, hout (fun a ha => (hno a ha).elim) ⟨_, _, .done _⟩⟩
    intro i x hx; cases hx
  | join p q s sq a rand path log cfg hp hq hsq ha hl hb hf h =>
    have hno : ∀ a, G.side p = some a → False := fun a ha => by obtain ⟨s, k, _⟩ := ok.has p a ha; rw [hp] at k; cases k
    have hla : s.lastApplied = (G.W.applied q).length := new_applied hl hb hf (.inl rfl) h
    obtain ⟨sq', e1, e2⟩ := ok.has q a hsq
    obtain ⟨rs, hser, _⟩ := e2.db
    refine ⟨hsome ⟨hla, hl.lastIdx, rfl, e2.limits, rs, hser, ?_⟩, hnone, hout (fun a ha => (hno a ha).elim) ⟨_, _, hser⟩⟩
    intro i x hx; cases hx
  | call p s s' op o rand path hp hd hf h hne =>
    have hent : Obs.entries o = [] ∧ s'.lastApplied = s.lastApplied := by
      rcases op.steps (v := c.raft.env rand path) (hs p s hp) hf h with ⟨k1, k2, _⟩ | ⟨i, e, k, _⟩ | ⟨_, rfl, rfl⟩
      · refine ⟨?_, k1.mono.applied⟩
        unfold Obs.entries
        split
        · rename_i i e; exact absurd rfl (k2 _)
        · rfl
      · exact absurd k hne
      · exact ⟨rfl, rfl⟩
    obtain ⟨a, ha⟩ : ∃ a, G.side p = some a := by
      cases k : G.side p with
      | none => rw [ok.no p k] at hp; cases hp
      | some a => exact ⟨a, rfl⟩
    obtain ⟨s1, e1, e2⟩ := ok.has p a ha
    rw [hp] at e1; cases e1
    have hset : setSide G.side p a = G.side := by
      funext x; by_cases hx : x = p
      · subst hx; simp [setSide, ha]
      · simp [setSide, hx]
    rw [hent.1, List.append_nil]
    obtain ⟨rs, hser, _⟩ := e2.db
    rw [← hset]
    exact ⟨hsome (e2.idle hent.2), hnone, hout (fun _ _ => List.prefix_rfl) ⟨_, _, hser⟩⟩
  | add p a idx t hsp =>
    refine ⟨?_, ?_, ?_⟩
    · intro q b hb
      by_cases hq : q = p
      · subst hq
        simp only [setSide, if_true, Option.some.injEq] at hb
        subst hb
        obtain ⟨s, h1, h2⟩ := ok.has q a hsp
        exact ⟨s, h1, h2.node, h2.last, h2.leaf, h2.limits, h2.db⟩
      · simp only [setSide, hq, if_false] at hb
        exact ok.has q b hb
    · intro q hq
      by_cases hqp : q = p
      · simp [setSide, hqp] at hq
      · simp only [setSide, hqp, if_false] at hq
        exact ok.no q hq
    · intro q i x hm
      obtain ⟨b, d, rs, h1, h2⟩ := ok.out q i x hm
      by_cases hq : q = p
      · subst hq; exact ⟨_, d, rs, if_pos rfl, h2⟩
      · exact ⟨b, d, rs, by simp [setSide, hq, h1], h2⟩
  | commit p s s' a a' i e path hp hsp hf h ht =>
    obtain ⟨h1, h2, h3, h4⟩ := takeCommitted_eq h
    obtain ⟨t1, t2, t3, eff, t4, t5⟩ := take_spec ht
    obtain ⟨s1, e1, e2⟩ := ok.has p a hsp
    rw [hp] at e1; cases e1
    obtain ⟨rs, hser, heff⟩ := e2.db
    have hlen := hser.length
    have hi : i = (G.W.applied p).length + 1 := by rw [h1, e2.node]
    have hser' := serial_extend hser t4
    have hnew : (rs ++ [eff])[i - 1]? = some eff := by rw [hi, Nat.add_sub_cancel, ← hlen]; simp
    have hok' : SideOk c (G.W.applied p ++ [e]) s' a' := by
      refine ⟨by rw [h2, hi]; simp, by rw [t1, hi]; simp, by rw [t2, t1], e2.limits.append t3, rs ++ [eff], hser', ?_⟩
      intro j x hx
      rw [t5] at hx
      rcases List.mem_append.mp hx with hx | hx
      · obtain ⟨k1, k2⟩ := heff j x hx
        exact ⟨k1, by rw [List.getElem?_append_left (List.getElem?_eq_some_iff.mp k2).1]; exact k2⟩
      · simp only [List.mem_singleton, Prod.mk.injEq] at hx
        obtain ⟨rfl, rfl⟩ := hx
        exact ⟨by omega, hnew⟩
    refine ⟨hsome hok', hnone, ?_⟩
    intro q j x hm
    rcases List.mem_append.mp hm with hm | hm
    · exact hout (fun b hb => List.prefix_append ..) ⟨_, _, hser'⟩ q j x hm
    · rw [t5] at hm
      simp only [List.drop_left', List.map_cons, List.map_nil, List.mem_singleton, Prod.mk.injEq] at hm
      obtain ⟨rfl, rfl, rfl⟩ := hm
      exact ⟨a', a'.db, _, if_pos rfl, by rw [World.put_applied_self]; exact hser', by omega, hnew⟩

theorem GReachable.ok {G : Grid P D E} (h : GReachable c G) : GridOk c G := by
  induction h with
  | now => exact ⟨fun p a h => (by cases h), fun p _ => rfl, fun p i x h => (by cases h)⟩
  | next h k ih => exact ih.next k (GReachable.raft h).shaped

end Svr.Core
