import Verif.Props.Shares
import Verif.Props.Servers

/-!
# C91: of an SVR4 server's key and zero share, only the evaluations it answered are seen

The game of `Props.Shares` with other things hidden: the OPRF share and the zero share in the owner's Creates, and the OPRF deltas in the owner's
RotateStarts. All answers are seen, the owner's included.
-/

namespace Svr.Props.Keys
open Svr Svr.DB4 Svr.Spec4 Svr.Props.Secret Svr.Props.Shares

variable {P : Prims4} {a : Bytes}

/-! ## The keys of an account -/

/-- The keys an account holds. -/
structure Keys where
  oprf : Bytes
  zero : Bytes
  delta : Option Bytes

/-- What is answered to a blinded element: the evaluation with the share, and with the rotated share if there is one. -/
def evaluations (P : Prims4) (id b : Bytes) (k : Keys) : Option (List Bytes) := do
  let e ← evalShare P id b k.oprf k.zero
  match k.delta with
  | none => some [e]
  | some d =>
    let e' ← evalShare P id b (P.sadd k.oprf d) k.zero
    some [e, e']

/-- The keys after a request and its answer. -/
def turn (P : Prims4) (k : Option Keys) : Svr.DB4.Req → Svr.DB4.Resp → Option Keys
  | .create _ oprf _ _ zero _, .create .ok _ => some ⟨oprf, zero, none⟩
  | .rotateStart _ od _, .rotateStart .ok => k.map fun k => { k with delta := some od }
  | .rotateCommit _, .rotateCommit .ok => k.map fun k => ⟨(match k.delta with | none => k.oprf | some d => P.sadd k.oprf d), k.zero, none⟩
  | .rotateRollback _, .rotateRollback .ok => k.map fun k => { k with delta := none }
  | _, _ => k

def keysOf (x : Acct) : Keys := ⟨x.oprf, x.zero, x.pending.map (·.oprfDelta)⟩

theorem turn_spec {ok : Bool} {o : Option Acct} {l : Svr.DB4.Log} {k : Option Keys} (hk : ∀ x, o = some x → k = some (keysOf x)) :
    ∀ y, (pstep4 P ok o l).1 = some y → turn P k l.req (pstep4 P ok o l).2.resp = some (keysOf y) := by
  obtain ⟨id, req⟩ := l
  intro y hy
  unfold pstep4 at hy ⊢
  cases req with
  | create n oprf auth enc zero version =>
    cases o with
    | none =>
      by_cases hn : n = 0
      · cases ok <;> simp [astep, hn, refused] at hy
      · cases ok <;> simp [astep, hn, refused] at hy ⊢ <;> subst hy <;> rfl
    | some x => cases ok <;> simp [astep, refused] at hy ⊢ <;> subst hy <;> rfl
  | restore1 b =>
    cases o with
    | none => cases ok <;> cases hy
    | some x =>
      cases ok
      · cases he : evalAll P id b x <;> simp [astep, he, refused] at hy ⊢ <;> subst hy <;> exact hk _ rfl
      · simp only [astep, if_true] at hy
        split at hy
        · cases hy
        · cases hy
          have := hk x rfl
          cases he : evalAll P id b x <;> simp only [turn] <;> exact this
  | remove => cases ok <;> simp [astep, refused] at hy
  | query =>
    cases o with
    | none => cases ok <;> cases hy
    | some x => cases ok <;> cases hy <;> exact hk _ rfl
  | rotateStart ver od ed =>
    cases o with
    | none => cases ok <;> cases hy
    | some x =>
      obtain ⟨au, op, en, ze, ve, le, pe⟩ := x
      cases pe with
      | some p => cases ok <;> cases hy <;> exact hk _ rfl
      | none =>
        by_cases hv : ver = ve
        · cases ok <;> simp [astep, hv, refused] at hy ⊢ <;> subst hy <;> exact hk _ rfl
        · cases ok
          · simp [astep, hv, refused] at hy ⊢
            subst hy
            exact hk _ rfl
          · simp [astep, hv] at hy ⊢
            subst hy
            simp [turn, hk _ rfl, keysOf]
  | rotateCommit ver =>
    cases o with
    | none => cases ok <;> cases hy
    | some x =>
      obtain ⟨au, op, en, ze, ve, le, pe⟩ := x
      cases pe with
      | none => cases ok <;> cases hy <;> exact hk _ rfl
      | some p =>
        by_cases hv : p.newVersion = ver
        · cases ok
          · simp [astep, hv, refused] at hy ⊢
            subst hy
            exact hk _ rfl
          · simp [astep, hv] at hy ⊢
            subst hy
            simp [turn, hk _ rfl, keysOf, rotated]
        · cases ok <;> simp [astep, hv, refused] at hy ⊢ <;> subst hy <;> exact hk _ rfl
  | rotateRollback ver =>
    cases o with
    | none => cases ok <;> cases hy
    | some x =>
      obtain ⟨au, op, en, ze, ve, le, pe⟩ := x
      cases pe with
      | none => cases ok <;> cases hy <;> exact hk _ rfl
      | some p =>
        by_cases hv : p.newVersion = ver
        · cases ok
          · simp [astep, hv, refused] at hy ⊢
            subst hy
            exact hk _ rfl
          · simp [astep, hv] at hy ⊢
            subst hy
            simp [turn, hk _ rfl, keysOf]
        · cases ok <;> simp [astep, hv, refused] at hy ⊢ <;> subst hy <;> exact hk _ rfl
  | restore2 _ _ _ =>
    cases o with
    | none => cases ok <;> cases hy
    | some x => cases ok <;> cases hy <;> exact hk _ rfl
  | unset =>
    cases o with
    | none => cases ok <;> cases hy
    | some x => cases ok <;> cases hy <;> exact hk _ rfl

/-! ## What is not hidden -/

/-- An account without its keys. -/
def plain (x : Acct) : Acct := { x with oprf := [], zero := [], pending := x.pending.map fun p => { p with oprfDelta := [] } }

def plainLog (l : Svr.DB4.Log) : Svr.DB4.Log := { l with req := match l.req with
  | .create n _ auth enc _ version => .create n [] auth enc [] version
  | .rotateStart version _ ed => .rotateStart version [] ed
  | q => q }

def versions (x : Acct) : List UInt32 := x.version :: (x.pending.map (·.newVersion)).toList

theorem evalAll_evaluations (id b : Bytes) (x : Acct) : evalAll P id b x = (evaluations P id b (keysOf x)).map fun es => es.zip (versions x) := by
  obtain ⟨au, op, en, ze, ve, le, pe⟩ := x
  cases pe with
  | none =>
    simp only [evalAll, evaluations, keysOf, versions, Option.map_none, Option.bind_eq_bind]
    cases evalShare P id b op ze <;> rfl
  | some p =>
    simp only [evalAll, evaluations, keysOf, versions, Option.map_some, Option.bind_eq_bind]
    cases evalShare P id b op ze with
    | none => rfl
    | some e => cases evalShare P id b (P.sadd op p.oprfDelta) ze <;> rfl

theorem plain_two {ok : Bool} {o o' : Option Acct} {l l' : Svr.DB4.Log} (ho : o.map plain = o'.map plain) (hl : plainLog l = plainLog l')
    (he : ∀ b x x', l.req = .restore1 b → ok = true → o = some x → o' = some x' → evaluations P l.id b (keysOf x) = evaluations P l.id b (keysOf x')) :
    (pstep4 P ok o l).1.map plain = (pstep4 P ok o' l').1.map plain ∧ (pstep4 P ok o l).2 = (pstep4 P ok o' l').2 := by
  obtain ⟨id, req⟩ := l
  obtain ⟨id', req'⟩ := l'
  have hid : id = id' := congrArg Log.id hl
  have hreq := congrArg Log.req hl
  subst hid
  simp only [plainLog] at hreq
  cases o with
  | none =>
    cases o' with
    | some y => cases ho
    | none =>
      cases req <;> cases req' <;> simp only [Req.create.injEq, Req.restore1.injEq, Req.rotateStart.injEq, Req.rotateCommit.injEq,
        Req.rotateRollback.injEq, Req.restore2.injEq, reduceCtorEq] at hreq
      case create.create n oprf auth enc zero version n' oprf' auth' enc' zero' version' =>
        obtain ⟨rfl, _, rfl, rfl, _, rfl⟩ := hreq
        by_cases hn : n = 0 <;> cases ok <;> simp [pstep4, astep, hn, refused, plain]
      all_goals first
        | (cases ok <;> exact ⟨rfl, rfl⟩)
  | some x =>
    cases o' with
    | none => cases ho
    | some y =>
      have ho : plain x = plain y := Option.some.inj ho
      obtain ⟨au, op, en, ze, ve, le, pe⟩ := x
      obtain ⟨au', op', en', ze', ve', le', pe'⟩ := y
      simp only [plain, Acct.mk.injEq, true_and] at ho
      obtain ⟨rfl, rfl, rfl, rfl, hpe⟩ := ho
      have hp : pe = none ∧ pe' = none ∨ ∃ ver ed d d', pe = some ⟨ver, d, ed⟩ ∧ pe' = some ⟨ver, d', ed⟩ := by
        cases pe with
        | none =>
          cases pe' with
          | none => exact .inl ⟨rfl, rfl⟩
          | some q => cases hpe
        | some p =>
          cases pe' with
          | none => cases hpe
          | some q =>
            obtain ⟨v1, d1, e1⟩ := p
            obtain ⟨v2, d2, e2⟩ := q
            simp only [Option.map_some, Option.some.injEq, Rot.mk.injEq, true_and] at hpe
            obtain ⟨rfl, rfl⟩ := hpe
            exact .inr ⟨_, _, _, _, rfl, rfl⟩
      cases req <;> cases req' <;> simp only [Req.create.injEq, Req.restore1.injEq, Req.rotateStart.injEq, Req.rotateCommit.injEq,
        Req.rotateRollback.injEq, Req.restore2.injEq, reduceCtorEq] at hreq
      case create.create n oprf auth enc zero version n' oprf' auth' enc' zero' version' =>
        obtain ⟨rfl, _, rfl, rfl, _, rfl⟩ := hreq
        cases ok <;> simp [pstep4, astep, refused, plain]
      case restore1.restore1 b b' =>
        subst hreq
        cases ok with
        | false =>
          have : ∀ z : Acct, pstep4 P false (some z) ⟨id, .restore1 b⟩ = (some z, ⟨.restore1 .merkleFailure [] 0, none⟩) := by
            intro z
            cases hz : evalAll P id b z <;> simp [pstep4, astep, hz, refused]
          rw [this, this]
          exact ⟨congrArg some (by simp [plain, hpe]), rfl⟩
        | true =>
          have hev := he b _ _ rfl rfl rfl rfl
          simp only at hev
          simp only [pstep4, if_true, astep, evalAll_evaluations, hev]
          refine ⟨?_, ?_⟩
          · split
            · rfl
            · exact congrArg some (by simp [plain, hpe])
          · rcases hp with ⟨rfl, rfl⟩ | ⟨ver, ed, d, d', rfl, rfl⟩
            · cases evaluations P id b _ <;> rfl
            · cases evaluations P id b _ <;> rfl
      case remove.remove => cases ok <;> exact ⟨rfl, rfl⟩
      case query.query =>
        rcases hp with ⟨rfl, rfl⟩ | ⟨ver, ed, d, d', rfl, rfl⟩ <;> cases ok <;> exact ⟨rfl, rfl⟩
      case rotateStart.rotateStart ver od ed ver' od' ed' =>
        obtain ⟨rfl, _, rfl⟩ := hreq
        rcases hp with ⟨rfl, rfl⟩ | ⟨v, e, d, d', rfl, rfl⟩
        · by_cases hv : ver = ve <;> cases ok <;> simp [pstep4, astep, refused, plain, hv]
        · cases ok <;> exact ⟨rfl, rfl⟩
      case rotateCommit.rotateCommit ver ver' =>
        subst hreq
        rcases hp with ⟨rfl, rfl⟩ | ⟨v, e, d, d', rfl, rfl⟩
        · cases ok <;> exact ⟨rfl, rfl⟩
        · by_cases hv : v = ver <;> cases ok <;> simp [pstep4, astep, refused, plain, hv, rotated]
      case rotateRollback.rotateRollback ver ver' =>
        subst hreq
        rcases hp with ⟨rfl, rfl⟩ | ⟨v, e, d, d', rfl, rfl⟩
        · cases ok <;> exact ⟨rfl, rfl⟩
        · by_cases hv : v = ver <;> cases ok <;> simp [pstep4, astep, refused, plain, hv]
      all_goals (rcases hp with ⟨rfl, rfl⟩ | ⟨v, e, d, d', rfl, rfl⟩ <;> cases ok <;> exact ⟨rfl, rfl⟩)

/-! ## The game -/

/-- The owner's Create and RotateStart for the account, and all else. -/
inductive ActK where
  | create (i j z : Nat) (n : UInt32) (auth enc : Bytes) (version : UInt32)
  | rotate (i j : Nat) (version : UInt32) (ed : Bytes)
  | other (x : Do)

/-- `v` are the hidden shares and deltas. -/
def fillK (a : Bytes) (v : Nat → Bytes) : ActK → Do
  | .create i j z n auth enc version => .entry i ⟨a, .create n (v j) auth enc (v z) version⟩
  | .rotate i j version ed => .entry i ⟨a, .rotateStart version (v j) ed⟩
  | .other x => x

def seenK (_ : State4) (_ : Bytes → Bool) (_ : ActK) (r : Option Svr.DB4.Resp) : Option Svr.DB4.Resp := r

/-- The keys in the account after one more act, if they were `k` before. -/
def after (P : Prims4) (a : Bytes) (v : Nat → Bytes) (k : Option Keys) (x : ActK × Option Svr.DB4.Resp) : Option Keys :=
  match fillK a v x.1, x.2 with
  | .entry _ l, some r => if l.id = a then turn P k l.req r else k
  | _, _ => k

/-- The keys in the account, as far as what was seen tells: those of the last Create, as rotated since. -/
def keys (P : Prims4) (a : Bytes) (v : Nat → Bytes) (k : Option Keys) (o : List (ActK × Option Svr.DB4.Resp)) : Option Keys := o.foldl (after P a v) k

/-- Where the account was evaluated, both keys give the same evaluations. -/
def EvenK (P : Prims4) (a : Bytes) (k k' : Option Keys) : ActK → Option Svr.DB4.Resp → Prop
  | .other (.entry _ ⟨id, .restore1 b⟩), some (.restore1 s _ _) => id = a → s = .ok ∨ s = .error → ∀ x x', k = some x → k' = some x' →
      evaluations P a b x = evaluations P a b x'
  | _, _ => True

structure AlikeK (P : Prims4) (a : Bytes) (k k' : Option Keys) (w w' : State4) : Prop where
  inv : Svr.DB4.Inv P w.1
  inv' : Svr.DB4.Inv P w'.1
  others : ∀ id, id ≠ a → Svr.DB4.look w.1 id = Svr.DB4.look w'.1 id
  account : (Svr.DB4.look w.1 a).map plain = (Svr.DB4.look w'.1 a).map plain
  keys : ∀ x, Svr.DB4.look w.1 a = some x → k = some (keysOf x)
  keys' : ∀ x, Svr.DB4.look w'.1 a = some x → k' = some (keysOf x)
  session : w.2 = w'.2

/-- Shares and deltas are scalars. -/
def Scalars (P : Prims4) (v : Nat → Bytes) : Prop := ∀ j, okScalar P (v j) = true

/-- The answer to a Restore1 that found the account and whose walk succeeded. -/
theorem resp_evaluated {x : Acct} {id b : Bytes} : ∃ s es t, (pstep4 P true (some x) ⟨id, .restore1 b⟩).2.resp = .restore1 s es t ∧ (s = .ok ∨ s = .error) := by
  cases he : evalAll P id b x with
  | none => exact ⟨.error, _, _, by simp [pstep4, astep, he]; exact ⟨rfl, rfl⟩, .inr rfl⟩
  | some es => exact ⟨.ok, _, _, by simp [pstep4, astep, he]; exact ⟨rfl, rfl⟩, .inl rfl⟩

theorem alike_entryK (hs : SaddOK P) {k k' : Option Keys} {w w' w1 : State4} {path : Bytes → Bool} {i : Nat} {l l' : Svr.DB4.Log}
    {r : Option Svr.DB4.Resp} (hR : AlikeK P a k k' w w') (hrun : run4 P path w (.entry i l) = .ok (w1, r)) (hv' : Svr.DB4.validate P l' = none)
    (hb : plainLog l = plainLog l') (hne : l.id ≠ a → l = l')
    (he : ∀ b s es t, l = ⟨a, .restore1 b⟩ → r = some (.restore1 s es t) → s = .ok ∨ s = .error → ∀ x x', k = some x → k' = some x' →
      evaluations P a b x = evaluations P a b x') :
    ∃ w1', run4 P path w' (.entry i l') = .ok (w1', r) ∧
      ∀ re, r = some re → AlikeK P a (if l.id = a then turn P k l.req re else k) (if l.id = a then turn P k' l'.req re else k') w1 w1' := by
  obtain ⟨hv, hr⟩ := entry_resp hs hR.inv hrun
  obtain ⟨⟨d1, e⟩, hr1, hr2⟩ := Out.bind_eq_ok.mp hrun
  have hid : l.id = l'.id := show (plainLog l).id = (plainLog l').id by rw [hb]
  obtain ⟨e1, k1, k2, k4, k5⟩ := view4 hs path hR.inv hv
  obtain ⟨e1', k1', k2', k4', k5'⟩ := view4 hs path hR.inv' hv'
  rw [← hid] at k1' k4' k5'
  rw [hr1] at k1
  injection k1 with k1
  obtain rfl : d1 = e1 := congrArg Prod.fst k1
  obtain hee : e = _ := congrArg Prod.snd k1
  simp only [Out.pure_eq] at hr2
  injection hr2 with hr2
  have hw1 : w1 = (d1, put4 w.2 i (stepS P (w.2 i) (.effect e)).1) := (congrArg Prod.fst hr2).symm
  have hr3 : r = (stepS P (w.2 i) (.effect e)).2 := (congrArg Prod.snd hr2).symm
  have hlook : (Svr.DB4.look w.1 l.id).map plain = (Svr.DB4.look w'.1 l.id).map plain := by
    by_cases hc : l.id = a
    · rw [hc]; exact hR.account
    · rw [hR.others _ hc]
  obtain ⟨t1, t2⟩ := plain_two (P := P) (ok := path l.id) hlook hb (by
    intro b x x' hq hok hx hx'
    by_cases hc : l.id = a
    · obtain ⟨id, req⟩ := l
      simp only at hc hq hx hx' hok
      subst hc hq
      rw [hok, hx] at hr
      obtain ⟨s, es, t, q1, q2⟩ := resp_evaluated (P := P) (x := x) (id := id) (b := b)
      exact he b s es t rfl (hr.trans (congrArg some q1)) q2 _ _ (hR.keys x hx) (hR.keys' x' hx')
    · rw [hR.others _ hc] at hx
      rw [hx] at hx'
      cases hx'
      rfl)
  rw [← hee] at t2
  refine ⟨(e1', put4 w'.2 i (stepS P (w'.2 i) (.effect e)).1), ?_, ?_⟩
  · simp only [run4, k1', ← t2, Out.bind_ok, Out.pure_eq, hr3, hR.session]
  · intro re hre
    have hre : re = (pstep4 P (path l.id) (Svr.DB4.look w.1 l.id) l).2.resp := by
      rw [hr] at hre
      exact (Option.some.inj hre).symm
    have hre' : re = (pstep4 P (path l.id) (Svr.DB4.look w'.1 l.id) l').2.resp := by rw [hre, ← hee, t2]
    rw [hw1]
    refine ⟨k2, k2', ?_, ?_, ?_, ?_, ?_⟩
    · intro id hne'
      show Svr.DB4.look d1 id = Svr.DB4.look e1' id
      by_cases hc : id = l.id
      · rw [hc, k4, k4', hR.others l.id (hc ▸ hne'), hne (hc ▸ hne')]
      · rw [k5 id hc, k5' id hc]
        exact hR.others id hne'
    · show (Svr.DB4.look d1 a).map plain = (Svr.DB4.look e1' a).map plain
      by_cases hc : l.id = a
      · rw [← hc, k4, k4']
        exact t1
      · rw [k5 a (Ne.symm hc), k5' a (Ne.symm hc)]
        exact hR.account
    · intro y hy
      have hy : Svr.DB4.look d1 a = some y := hy
      by_cases hc : l.id = a
      · rw [if_pos hc, hre]
        rw [← hc, k4] at hy
        exact turn_spec (by rw [hc]; exact hR.keys) y hy
      · rw [if_neg hc]
        rw [k5 a (Ne.symm hc)] at hy
        exact hR.keys y hy
    · intro y hy
      have hy : Svr.DB4.look e1' a = some y := hy
      by_cases hc : l.id = a
      · rw [if_pos hc, hre']
        rw [← hc, k4'] at hy
        exact turn_spec (by rw [hc]; exact hR.keys') y hy
      · rw [if_neg hc]
        rw [k5' a (Ne.symm hc)] at hy
        exact hR.keys' y hy
    · show put4 w.2 i _ = put4 w'.2 i _
      rw [hR.session]

theorem alike_stepK (hs : SaddOK P) {v v' : Nat → Bytes} (hv' : Scalars P v') {k k' : Option Keys} {w w' w1 : State4} {path : Bytes → Bool} {t : ActK}
    {r : Option Svr.DB4.Resp} (hR : AlikeK P a k k' w w') (hrun : run4 P path w (fillK a v t) = .ok (w1, r)) (hg : EvenK P a k k' t r) :
    ∃ w1', run4 P path w' (fillK a v' t) = .ok (w1', r) ∧ AlikeK P a (after P a v k (t, r)) (after P a v' k' (t, r)) w1 w1' := by
  cases t with
  | create i j z n auth enc version =>
    obtain ⟨q1, q2⟩ := entry_resp hs hR.inv hrun
    have hval : Svr.DB4.validate P ⟨a, .create n (v' j) auth enc (v' z) version⟩ = none := by
      rw [Svr.DB4.validate_iff] at q1 ⊢
      obtain ⟨h1, h2, h3, _, _, h4, h5⟩ := q1
      exact ⟨h1, h2, h3, hv' j, hv' z, h4, h5⟩
    obtain ⟨w1', g1, g2⟩ := alike_entryK hs hR hrun hval rfl (fun h => absurd rfl h) (by intro b s es t h; cases h)
    refine ⟨w1', g1, ?_⟩
    have := g2 _ q2
    rw [q2]
    exact this
  | rotate i j version ed =>
    obtain ⟨q1, q2⟩ := entry_resp hs hR.inv hrun
    have hval : Svr.DB4.validate P ⟨a, .rotateStart version (v' j) ed⟩ = none := by
      rw [Svr.DB4.validate_iff] at q1 ⊢
      obtain ⟨h1, h2, _, h3⟩ := q1
      exact ⟨h1, h2, hv' j, h3⟩
    obtain ⟨w1', g1, g2⟩ := alike_entryK hs hR hrun hval rfl (fun h => absurd rfl h) (by intro b s es t h; cases h)
    refine ⟨w1', g1, ?_⟩
    have := g2 _ q2
    rw [q2]
    exact this
  | other x =>
    cases x with
    | ask i q =>
      simp only [fillK, run4, Out.pure_eq] at hrun
      injection hrun with hrun
      obtain rfl : _ = w1 := congrArg Prod.fst hrun
      obtain rfl : _ = r := congrArg Prod.snd hrun
      refine ⟨(w'.1, put4 w'.2 i (stepS P (w'.2 i) (.request q)).1), ?_, hR.inv, hR.inv', hR.others, hR.account, hR.keys, hR.keys', ?_⟩
      · simp only [fillK, run4, Out.pure_eq, hR.session]
      · show put4 w.2 i _ = put4 w'.2 i _
        rw [hR.session]
    | entry i l =>
      obtain ⟨q1, q2⟩ := entry_resp hs hR.inv hrun
      obtain ⟨w1', g1, g2⟩ := alike_entryK hs hR hrun q1 rfl (fun _ => rfl) (by
        rintro b s es t rfl rfl hse x x' hx hx'
        exact hg rfl hse x x' hx hx')
      refine ⟨w1', g1, ?_⟩
      have := g2 _ q2
      rw [q2]
      exact this

/-- The game. -/
abbrev playK (P : Prims4) (a : Bytes) := play (run4 P) (fillK a) seenK

/-- **C91**: whatever key shares, zero shares and deltas an owner has put into the account, the same is seen of the enclave, as long as they give the
same evaluations at those Restore1 requests that found the account and came to evaluate it. -/
theorem C91_keys_hidden (hs : SaddOK P) {db : Svr.DB4.DB} (hi : Svr.DB4.Inv P db) (hn : Svr.DB4.look db a = none) (ss : Nat → Session)
    {v v' : Nat → Bytes} (hv' : Scalars P v') {σ : Plan ActK (Option Svr.DB4.Resp)} {n : Nat} {w : State4} {o : List (ActK × Option Svr.DB4.Resp)}
    (hp : playK P a σ v n (db, ss) [] = .ok (w, o))
    (hg : ∀ p t r q, o = p ++ (t, r) :: q → EvenK P a (keys P a v none p) (keys P a v' none p) t r) :
    ∃ w', playK P a σ v' n (db, ss) [] = .ok (w', o) := by
  have hR : AlikeK P a none none (db, ss) (db, ss) :=
    ⟨hi, hi, fun _ _ => rfl, rfl, (fun x hx => by rw [hn] at hx; cases hx), (fun x hx => by rw [hn] at hx; cases hx), rfl⟩
  obtain ⟨w', h, _⟩ := same_view (R := fun o d d' => AlikeK P a (keys P a v none o) (keys P a v' none o) d d')
    (Good := fun p x => EvenK P a (keys P a v none p) (keys P a v' none p) x.1 x.2) (v := v) (v' := v') (o := []) (by
      intro o d d' t path d1 r hR hrun hg
      obtain ⟨d1', h1, h3⟩ := alike_stepK hs hv' hR hrun hg
      exact ⟨d1', r, h1, rfl, by simp only [keys, List.foldl_append, List.foldl]; exact h3⟩) hR hp (by
      rintro p ⟨t, s⟩ q e _
      exact hg p t s q e)
  exact ⟨w', h⟩

/-! ## One blinded element -/

section
variable {F G : Type} [Field F] [AddCommGroup G] [Module F G]

/-- The key shares an account evaluates with are not zero. -/
def Live (I : Impl P F G) (k : Keys) : Prop := I.sc k.oprf ≠ 0 ∧ ∀ d, k.delta = some d → I.sc k.oprf + I.sc d ≠ 0

/-- An evaluation with a share that is not zero is answered, and is what it should be. -/
theorem evalShare_some (I : Impl P F G) (hf : Full P I) {b h oprf zero : Bytes} (h0 : okScalar P (zeros 32) = true) (hb : okPoint P b = true)
    (hb0 : I.pt b ≠ 0) (hh : P.hashToPoint a b = some h) (hh0 : I.pt h ≠ 0) (ho : okScalar P oprf = true) (hz : okScalar P zero = true)
    (hne : I.sc oprf ≠ 0) :
    ∃ e, evalShare P a b oprf zero = some e ∧ okPoint P e = true ∧ I.pt e = I.sc oprf • I.pt b + I.sc zero • I.pt h := by
  have nz : ∀ {c : F} {x : G}, c ≠ 0 → x ≠ 0 → c • x ≠ 0 := fun hc hx hcx => by
    rcases Servers.smul_zero_cases hcx with h | h
    · exact hc h
    · exact hx h
  obtain ⟨bp, h1⟩ := hf.smul ho hb (nz hne hb0)
  have k1 := I.smul ho hb h1
  have hm : ∃ m, (if zero = zeros 32 then some (zeros 32) else P.smul zero h) = some m ∧ okPoint P m = true := by
    by_cases hz0 : zero = zeros 32
    · exact ⟨zeros 32, if_pos hz0, I.zeroPoint.1⟩
    · have hsz : I.sc zero ≠ 0 := fun hs => hz0 (I.sc_inj hz h0 (hs.trans I.zeroScalar.symm))
      obtain ⟨m, hm⟩ := hf.smul hz (I.hashToPoint hh) (nz hsz hh0)
      exact ⟨m, by rw [if_neg hz0, hm], (I.smul hz (I.hashToPoint hh) hm).1⟩
  obtain ⟨m, hm, hmok⟩ := hm
  obtain ⟨e, he⟩ := hf.padd k1.1 hmok
  have hev : evalShare P a b oprf zero = some e := by
    simp only [evalShare, hh, h1, Option.bind_eq_bind, Option.bind_some, hm, he]
  exact ⟨e, hev, (I.padd k1.1 hmok he).1, Servers.evalShare_pt I hb ho hz hh hev⟩

/-- Keys that differ by `s` in the OPRF share, and have these zero shares. -/
structure Shifted (I : Impl P F G) (s : F) (z z' : Bytes) (k k' : Keys) : Prop where
  ok : okScalar P k.oprf = true
  ok' : okScalar P k'.oprf = true
  oprf : I.sc k'.oprf = I.sc k.oprf + s
  zero : k.zero = z
  zero' : k'.zero = z'
  delta : k.delta = k'.delta
  deltaOk : ∀ d, k.delta = some d → okScalar P d = true

theorem shifted_evaluations (I : Impl P F G) (hf : Full P I) {b h z z' : Bytes} {s : F} {k k' : Keys} (h0 : okScalar P (zeros 32) = true)
    (hb : okPoint P b = true) (hb0 : I.pt b ≠ 0) (hh : P.hashToPoint a b = some h) (hh0 : I.pt h ≠ 0) (hz : okScalar P z = true)
    (hz' : okScalar P z' = true) (hs : s • I.pt b + I.sc z' • I.pt h = I.sc z • I.pt h) (hk : Shifted I s z z' k k') (hl : Live I k)
    (hl' : Live I k') : evaluations P a b k = evaluations P a b k' := by
  have one : ∀ {u u' : Bytes}, okScalar P u = true → okScalar P u' = true → I.sc u' = I.sc u + s → I.sc u ≠ 0 → I.sc u' ≠ 0 →
      ∃ e, evalShare P a b u z = some e ∧ evalShare P a b u' z' = some e := by
    intro u u' hu hu' he hn hn'
    obtain ⟨e, e1, e2, e3⟩ := evalShare_some (a := a) I hf h0 hb hb0 hh hh0 hu hz hn
    obtain ⟨e', e1', e2', e3'⟩ := evalShare_some (a := a) I hf h0 hb hb0 hh hh0 hu' hz' hn'
    have : e = e' := by
      apply I.pt_inj e2 e2'
      rw [e3, e3', he, add_smul, add_assoc, hs]
    exact ⟨e, e1, this ▸ e1'⟩
  obtain ⟨e, e1, e1'⟩ := one hk.ok hk.ok' hk.oprf hl.1 hl'.1
  simp only [evaluations, hk.zero, hk.zero', e1, e1', ← hk.delta, Option.bind_eq_bind, Option.bind_some]
  cases hd : k.delta with
  | none => rfl
  | some d =>
    have a1 := I.sadd hk.ok (hk.deltaOk d hd)
    have a2 := I.sadd hk.ok' (hk.deltaOk d hd)
    obtain ⟨e2, e3, e3'⟩ := one a1.1 a2.1 (by rw [a1.2, a2.2, hk.oprf]; ring) (by rw [a1.2]; exact hl.2 d hd)
      (by rw [a2.2]; exact hl'.2 d (hk.delta ▸ hd))
    simp only [e3, e3', Option.bind_some]

/-- The owner's Creates take the key share `j` and the zero share `z`, and the rotations neither. -/
def Uses (j z : Nat) : ActK → Prop
  | .create _ x y _ _ _ _ => x = j ∧ y = z
  | .rotate _ x _ _ => x ≠ j ∧ x ≠ z
  | .other _ => True

/-- The account is evaluated at `b` only. -/
def Only (a b : Bytes) : ActK → Prop
  | .other (.entry _ ⟨id, .restore1 c⟩) => id = a → c = b
  | _ => True

/-- Other shares in two places. -/
def swap (v : Nat → Bytes) (j z : Nat) (x y : Bytes) : Nat → Bytes := fun i => if i = j then x else if i = z then y else v i

/-- How the keys in the account are related when two shares are others. -/
def Related (I : Impl P F G) (s : F) (z z' : Bytes) (k k' : Option Keys) : Prop :=
  k = k' ∨ ∃ x x', k = some x ∧ k' = some x' ∧ Shifted I s z z' x x'

/-- A request of which only the keys may differ, and its answer. -/
theorem related_turn (I : Impl P F G) {s : F} {z z' : Bytes} {k k' : Option Keys} (h : Related I s z z' k k') {q : Svr.DB4.Req} {r : Svr.DB4.Resp}
    (hd : ∀ ver d e, q = .rotateStart ver d e → okScalar P d = true) : Related I s z z' (turn P k q r) (turn P k' q r) := by
  rcases h with rfl | ⟨x, x', rfl, rfl, hx⟩
  · exact .inl rfl
  · unfold turn
    split
    · exact .inl rfl
    · exact .inr ⟨_, _, rfl, rfl, hx.ok, hx.ok', hx.oprf, hx.zero, hx.zero', rfl, fun d h => by cases h; exact hd _ _ _ rfl⟩
    · cases hdl : x.delta with
      | none =>
        have hdl' : x'.delta = none := hx.delta ▸ hdl
        refine .inr ⟨_, _, rfl, rfl, ?_, ?_, ?_, hx.zero, hx.zero', rfl, fun d h => by cases h⟩
        · simp only [hdl]; exact hx.ok
        · simp only [hdl']; exact hx.ok'
        · simp only [hdl, hdl']; exact hx.oprf
      | some d =>
        have hdl' : x'.delta = some d := hx.delta ▸ hdl
        have a1 := I.sadd hx.ok (hx.deltaOk d hdl)
        have a2 := I.sadd hx.ok' (hx.deltaOk d hdl)
        refine .inr ⟨_, _, rfl, rfl, ?_, ?_, ?_, hx.zero, hx.zero', rfl, fun d h => by cases h⟩
        · simp only [hdl]; exact a1.1
        · simp only [hdl']; exact a2.1
        · simp only [hdl, hdl', a1.2, a2.2, hx.oprf]; ring
    · exact .inr ⟨_, _, rfl, rfl, hx.ok, hx.ok', hx.oprf, hx.zero, hx.zero', rfl, fun d h => by cases h⟩
    · exact .inr ⟨_, _, rfl, rfl, hx⟩

theorem related_after (I : Impl P F G) {s : F} {v : Nat → Bytes} {j z : Nat} {x y : Bytes} {k k' : Option Keys} (hjz : j ≠ z)
    (hj : okScalar P (v j) = true) (hx : okScalar P x = true) (hs : I.sc x = I.sc (v j) + s) (h : Related I s (v z) y k k') {t : ActK}
    {r : Option Svr.DB4.Resp} (hu : Uses j z t) (hval : ∀ i l, fillK a v t = .entry i l → Svr.DB4.validate P l = none) :
    Related I s (v z) y (after P a v k (t, r)) (after P a (swap v j z x y) k' (t, r)) := by
  cases t with
  | create i j' z' n auth enc version =>
    obtain ⟨rfl, rfl⟩ := hu
    simp only [after, fillK]
    cases r with
    | none => exact h
    | some r =>
      simp only [if_true]
      by_cases hr : ∃ t, r = .create .ok t
      · obtain ⟨t, rfl⟩ := hr
        have e1 : swap v j' z' x y j' = x := if_pos rfl
        have e2 : swap v j' z' x y z' = y := by simp [swap, Ne.symm hjz]
        refine .inr ⟨_, _, rfl, rfl, hj, ?_, ?_, rfl, e2, rfl, fun d h => by cases h⟩
        · rw [e1]; exact hx
        · rw [e1]; exact hs
      · have e : ∀ k op ze, turn P k (.create n op auth enc ze version) r = k := by
          intro k op ze
          unfold turn
          split
          · exact absurd ⟨_, rfl⟩ hr
          all_goals first | rfl | (rename_i heq; cases heq)
        rw [e, e]
        exact h
  | rotate i j' version ed =>
    obtain ⟨h1, h2⟩ := hu
    have e1 : swap v j z x y j' = v j' := by simp [swap, h1, h2]
    simp only [after, fillK, e1]
    cases r with
    | none => exact h
    | some r =>
      simp only [if_true]
      refine related_turn I h fun ver d e hq => ?_
      have := (Svr.DB4.validate_iff P _).mp (hval i ⟨a, .rotateStart version (v j') ed⟩ rfl)
      cases hq
      exact this.2.2.1
  | other q =>
    simp only [after, fillK]
    cases q with
    | ask i q => exact h
    | entry i l =>
      cases r with
      | none => exact h
      | some r =>
        simp only
        split
        · refine related_turn I h fun ver d e hq => ?_
          have := (Svr.DB4.validate_iff P _).mp (hval i l rfl)
          rw [hq] at this
          exact this.2.2.1
        · exact h

/-- **C91**: if an account is evaluated at one blinded element only, then for each other key share there is a zero share with which the same is seen:
the evaluations say nothing about the key share. The key shares must not be zero where they are used, nor after a rotation; the zero share depends on the
blinded element and the key share, and on nothing that is done. -/
theorem C91_one_element (I : Impl P F G) (hf : Full P I) (hsur : ∀ f : F, ∃ s, okScalar P s = true ∧ I.sc s = f) {b h : Bytes}
    (hb : okPoint P b = true) (hb0 : I.pt b ≠ 0) (hh : P.hashToPoint a b = some h) (hh0 : I.pt h ≠ 0) (hgen : ∃ c : F, I.pt b = c • I.pt h)
    (h0 : okScalar P (zeros 32) = true) {v : Nat → Bytes} (hv : Scalars P v) {j z : Nat} (hjz : j ≠ z) {x : Bytes} (hx : okScalar P x = true) :
    ∃ y, okScalar P y = true ∧ ∀ {db : Svr.DB4.DB} (_ : Svr.DB4.Inv P db) (_ : Svr.DB4.look db a = none) (ss : Nat → Session)
      {σ : Plan ActK (Option Svr.DB4.Resp)} {n : Nat} {w : State4} {o : List (ActK × Option Svr.DB4.Resp)},
      playK P a σ v n (db, ss) [] = .ok (w, o) → (∀ t r, (t, r) ∈ o → Uses j z t ∧ Only a b t) →
      (∀ p t r q, o = p ++ (t, r) :: q → ∀ k k', keys P a v none p = some k → keys P a (swap v j z x y) none p = some k' →
        k = k' ∨ Live I k ∧ Live I k') →
      ∃ w', playK P a σ (swap v j z x y) n (db, ss) [] = .ok (w', o) := by
  obtain ⟨c, hc⟩ := hgen
  obtain ⟨y, hy, hys⟩ := hsur (I.sc (v z) + (I.sc (v j) - I.sc x) * c)
  refine ⟨y, hy, ?_⟩
  intro db hi hn ss σ n w o hp hu hl
  have hs := Servers.impl_sadd I
  have hv' : Scalars P (swap v j z x y) := by
    intro i
    unfold swap
    split
    · exact hx
    · split
      · exact hy
      · exact hv i
  have hR : AlikeK P a none none (db, ss) (db, ss) :=
    ⟨hi, hi, fun _ _ => rfl, rfl, (fun x hx => by rw [hn] at hx; cases hx), (fun x hx => by rw [hn] at hx; cases hx), rfl⟩
  have hmask : (I.sc x - I.sc (v j)) • I.pt b + I.sc y • I.pt h = I.sc (v z) • I.pt h := by
    rw [hc, hys, smul_smul, ← add_smul]
    congr 1
    ring
  obtain ⟨w', h, _⟩ := same_view
    (R := fun o d d' => AlikeK P a (keys P a v none o) (keys P a (swap v j z x y) none o) d d' ∧
      Related I (I.sc x - I.sc (v j)) (v z) y (keys P a v none o) (keys P a (swap v j z x y) none o))
    (Good := fun p u => (Uses j z u.1 ∧ Only a b u.1) ∧ ∀ k k', keys P a v none p = some k → keys P a (swap v j z x y) none p = some k' →
      k = k' ∨ Live I k ∧ Live I k') (v := v) (v' := swap v j z x y) (o := []) (by
      intro o d d' t path d1 r ⟨hR, hrel⟩ hrun ⟨⟨hg1, hg2⟩, hg3⟩
      obtain ⟨d1', h1, h3⟩ := alike_stepK hs hv' hR hrun (by
        unfold EvenK
        split
        · rename_i i id c s es tr
          rintro rfl hse k k' hk hk'
          have hcb : c = b := hg2 rfl
          subst hcb
          rcases hrel with he | ⟨u, u', e1, e2, hsh⟩
          · rw [he, hk'] at hk
            cases hk
            rfl
          · rw [hk] at e1
            rw [hk'] at e2
            cases e1; cases e2
            rcases hg3 k k' hk hk' with rfl | ⟨l1, l2⟩
            · rfl
            · exact shifted_evaluations I hf h0 hb hb0 hh hh0 (hv z) hy hmask hsh l1 l2
        · trivial)
      refine ⟨d1', r, h1, rfl, ?_, ?_⟩
      · simp only [keys, List.foldl_append, List.foldl]
        exact h3
      · simp only [keys, List.foldl_append, List.foldl]
        refine related_after I hjz (hv j) hx (by ring) hrel hg1 fun i l he => ?_
        rw [he] at hrun
        exact (entry_resp hs hR.inv hrun).1) ⟨hR, .inl rfl⟩ hp (by
      rintro p ⟨t, s⟩ q e _
      exact ⟨hu t s (by rw [e]; simp), hl p t s q e⟩)
  exact ⟨w', h⟩

end

/-! ## Non-vacuity -/

section
open Servers (P7 I7 full7 enc7 id7 enc7_ok)

def blank : Session := ⟨id7, [], none⟩

/-- Key share 2, zero share 3, delta 1. -/
def v7 : Nat → Bytes := fun i => if i = 0 then enc7 2 else if i = 1 then enc7 3 else enc7 1

/-- The owner creates; others evaluate; the owner starts a rotation; others evaluate, commit, evaluate at `c`, and ask for the state. -/
def planK (c : Bytes) : Plan ActK (Option Svr.DB4.Resp) := fun o =>
  (match o.length with
  | 0 => .create 0 0 1 5 (enc7 3) (zeros 32) 7
  | 1 => .other (.entry 1 ⟨id7, .restore1 (enc7 4)⟩)
  | 2 => .rotate 0 2 8 (zeros 32)
  | 3 => .other (.entry 1 ⟨id7, .restore1 (enc7 4)⟩)
  | 4 => .other (.entry 0 ⟨id7, .rotateCommit 8⟩)
  | 5 => .other (.entry 2 ⟨id7, .restore1 c⟩)
  | _ => .other (.entry 2 ⟨id7, .query⟩), fun _ => true)

def sightK (c : Bytes) (v : Nat → Bytes) : List (ActK × Option Svr.DB4.Resp) :=
  match playK P7 id7 (planK c) v 7 (Svr.DB4.empty, fun _ => blank) [] with
  | .ok (_, o) => o
  | _ => []

/-- What is answered: evaluations 17 = 3, and 17 = 3 and 21 = 0, and 0, modulo 7. -/
example : (sightK (enc7 4) v7).map (·.2) = [some (.create .ok 5), some (.restore1 .ok [(enc7 3, 7)] 4), some (.rotateStart .ok),
    some (.restore1 .ok [(enc7 3, 7), (enc7 0, 8)] 3), some (.rotateCommit .ok), some (.restore1 .ok [(enc7 0, 8)] 2), some (.query .ok 2 8 0)] := by
  decide +kernel

def keysAt (v : Nat → Bytes) (n : Nat) : Option Keys := keys P7 id7 v none ((sightK (enc7 4) v7).take n)

/-- The keys in the account in the course of it, for the key share 2 and for the key share 4 with the zero share 5. -/
theorem keys7 : ((List.range 8).map fun n => (keysAt v7 n).map fun k => (k.oprf, k.zero, k.delta)) =
      [none, some (enc7 2, enc7 3, none), some (enc7 2, enc7 3, none), some (enc7 2, enc7 3, some (enc7 1)), some (enc7 2, enc7 3, some (enc7 1)),
        some (enc7 3, enc7 3, none), some (enc7 3, enc7 3, none), some (enc7 3, enc7 3, none)] ∧
    ((List.range 8).map fun n => (keysAt (swap v7 0 1 (enc7 4) (enc7 5)) n).map fun k => (k.oprf, k.zero, k.delta)) =
      [none, some (enc7 4, enc7 5, none), some (enc7 4, enc7 5, none), some (enc7 4, enc7 5, some (enc7 1)), some (enc7 4, enc7 5, some (enc7 1)),
        some (enc7 5, enc7 5, none), some (enc7 5, enc7 5, none), some (enc7 5, enc7 5, none)] := by
  constructor <;> decide +kernel

/-- The hypotheses of `C91_one_element` about the group, and what it says: with the key share 4 and the zero share 5 the same is seen. -/
example : okPoint P7 (enc7 4) = true ∧ I7.pt (enc7 4) ≠ 0 ∧ P7.hashToPoint id7 (enc7 4) = some (enc7 3) ∧ I7.pt (enc7 3) ≠ 0 ∧
    I7.pt (enc7 4) = (6 : ZMod 7) • I7.pt (enc7 3) ∧ okScalar P7 (zeros 32) = true ∧ Svr.DB4.look Svr.DB4.empty id7 = none := by
  decide
example : (∀ f : ZMod 7, ∃ s, okScalar P7 s = true ∧ I7.sc s = f) ∧ Scalars P7 v7 ∧ Svr.DB4.Inv P7 Svr.DB4.empty :=
  ⟨fun f => ⟨enc7 f, (enc7_ok f).2⟩, fun j => by unfold v7; split <;> [skip; split] <;> exact (enc7_ok _).2.1, Svr.DB4.inv_empty _⟩
example : (sightK (enc7 4) (swap v7 0 1 (enc7 4) (enc7 5))).map (·.2) = (sightK (enc7 4) v7).map (·.2) := by decide +kernel

def evenB (k k' : Option Keys) : ActK × Option Svr.DB4.Resp → Bool
  | (.other (.entry _ ⟨_, .restore1 b⟩), some (.restore1 _ _ _)) => match k, k' with
    | some x, some x' => evaluations P7 id7 b x == evaluations P7 id7 b x'
    | _, _ => true
  | _ => true

theorem even_of {k k' : Option Keys} {t : ActK} {r : Option Svr.DB4.Resp} (h : evenB k k' (t, r) = true) : EvenK P7 id7 k k' t r := by
  unfold EvenK
  split
  · rintro rfl _ x x' rfl rfl
    simpa [evenB] using h
  · trivial

def evenAll (v v' : Nat → Bytes) (k k' : Option Keys) : List (ActK × Option Svr.DB4.Resp) → Bool
  | [] => true
  | x :: o => evenB k k' x && evenAll v v' (after P7 id7 v k x) (after P7 id7 v' k' x) o

theorem evenAll_spec {v v' : Nat → Bytes} : ∀ {o : List (ActK × Option Svr.DB4.Resp)} {k k' : Option Keys}, evenAll v v' k k' o = true →
    ∀ p t r q, o = p ++ (t, r) :: q → EvenK P7 id7 (keys P7 id7 v k p) (keys P7 id7 v' k' p) t r
  | _, k, k', h, [], t, r, q, e => by
    subst e
    simp only [evenAll, Bool.and_eq_true, List.nil_append] at h
    exact even_of h.1
  | _, k, k', h, x :: p, t, r, q, e => by
    subst e
    simp only [evenAll, Bool.and_eq_true, List.cons_append] at h
    exact evenAll_spec (o := p ++ (t, r) :: q) h.2 p t r q rfl

/-- The hypotheses of `C91_keys_hidden`. -/
example : (∃ w, playK P7 id7 (planK (enc7 4)) v7 7 (Svr.DB4.empty, fun _ => blank) [] = .ok (w, sightK (enc7 4) v7)) ∧
    ∀ p t r q, sightK (enc7 4) v7 = p ++ (t, r) :: q →
      EvenK P7 id7 (keys P7 id7 v7 none p) (keys P7 id7 (swap v7 0 1 (enc7 4) (enc7 5)) none p) t r := by
  refine ⟨?_, evenAll_spec (by decide +kernel)⟩
  have h : (match playK P7 id7 (planK (enc7 4)) v7 7 (Svr.DB4.empty, fun _ => blank) [] with | .ok _ => true | _ => false) = true := by decide +kernel
  unfold sightK
  split at h
  · rename_i z heq
    rw [heq]
    exact ⟨z.1, rfl⟩
  · cases h

/-- **C91**: that the account is evaluated at one element only is needed. Evaluated at two, no zero share makes the key share 4 look like 2. -/
theorem C91_two_elements_tell : ∀ y : ZMod 7, (sightK (enc7 1) (swap v7 0 1 (enc7 4) (enc7 y))).map (·.2) ≠ (sightK (enc7 1) v7).map (·.2) := by
  decide +kernel

end

end Svr.Props.Keys
