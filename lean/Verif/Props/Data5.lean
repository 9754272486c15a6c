import Verif.Props.Secret
import Verif.Props.DB5

/-!
# C92: uploaded data leaves an SVR5 database as HMACs only

The game of `Props.Secret` over SVR5: hidden is what an owner uploads.
-/

namespace Svr.Props.Data5
open Svr Svr.DB5 Svr.Spec5 Svr.Props.Secret

variable {P : Prims5} {a : Bytes}

/-- One entry against one account; `ok` is the outcome of the integrity walk, where there is one. -/
def pstep5 (hmac : Bytes → Bytes → Bytes) (ok : Bool) (o : Option Bytes) (l : Svr.DB5.Log) : Option Bytes × Svr.DB5.Resp :=
  match o, l.req with
  | some x, .download _ => if ok = false then (some x, .download .merkleFailure []) else astep hmac (some x) l
  | _, _ => astep hmac o l

theorem view5 {path : Bytes → Bool} {d : Svr.DB5.DB} {l : Svr.DB5.Log} (hi : Svr.DB5.Inv P d) (hv : Svr.DB5.validate l = none) :
    ∃ d', Svr.DB5.run P path d l = .ok (d', (pstep5 P.hmac (path l.id) (Svr.DB5.look d l.id) l).2) ∧ Svr.DB5.Inv P d' ∧
      Svr.DB5.look d' l.id = (pstep5 P.hmac (path l.id) (Svr.DB5.look d l.id) l).1 ∧ ∀ k, k ≠ l.id → Svr.DB5.look d' k = Svr.DB5.look d k := by
  obtain ⟨d', r, h1, h2, h3, h4, h5⟩ := Svr.DB5.run_step P path d l hi hv
  have hv' := (Svr.DB5.validate_iff l).mp hv
  obtain ⟨id, req⟩ := l
  simp only at hv' h3 h4 h5
  suffices hw : r = (pstep5 P.hmac (path id) (Svr.DB5.look d id) ⟨id, req⟩).2 ∧
      (astep P.hmac (Svr.DB5.look d id) ⟨id, req⟩).1 = (pstep5 P.hmac (path id) (Svr.DB5.look d id) ⟨id, req⟩).1 by
    exact ⟨d', by rw [h1, hw.1], h2, by rw [h3, hw.2], h4⟩
  unfold Svr.DB5.run at h1
  simp only [hv, beq_self_eq_true, Out.check_true, Out.bind_ok, hv'.1] at h1
  cases req with
  | upload x =>
    have hr : r = .upload .ok := by
      obtain ⟨_, k1, k2⟩ := Out.bind_eq_ok.mp h1
      simp only [Out.pure_eq] at k2
      cases k2
      rfl
    cases hl : Svr.DB5.look d id <;> exact ⟨hr, rfl⟩
  | purge =>
    have hr : r = .purge := by
      simp only [purge] at h1
      cases hf : d.find id <;> rw [hf] at h1 <;> cases h1 <;> rfl
    cases hl : Svr.DB5.look d id <;> exact ⟨hr, rfl⟩
  | unset => exact hv'.2.elim
  | download p =>
    simp only [download] at h1
    cases hf : d.find id with
    | none =>
      rw [hf] at h1
      cases h1
      simp [Svr.DB5.look, hf, pstep5, astep]
    | some row =>
      have hr := hi id row hf
      simp only [hf, Svr.DB5.verify_ok hr] at h1
      cases hp : path id with
      | false =>
        simp only [hp, Bool.not_false, if_true, Out.pure_eq] at h1
        cases h1
        simp [Svr.DB5.look, hf, pstep5, astep]
      | true =>
        simp only [hp, Bool.not_true, Out.pure_eq] at h1
        cases h1
        simp [Svr.DB5.look, hf, pstep5, astep]

/-- The owner's uploads, and everything else. -/
inductive Act5 where
  | upload (k : Nat)
  | other (l : Svr.DB5.Log)

def fill5 (a : Bytes) (v : Nat → Bytes) : Act5 → Svr.DB5.Log
  | .upload k => ⟨a, .upload (v k)⟩
  | .other l => l

def seen5 (_ : Svr.DB5.DB) (_ : Bytes → Bool) (_ : Act5) (r : Svr.DB5.Resp) : Svr.DB5.Resp := r

/-- What the account holds after one more act: the last upload, unless purged since. -/
def after5 (a : Bytes) (v : Nat → Bytes) (h : Option Bytes) (x : Act5 × Svr.DB5.Resp) : Option Bytes :=
  if (fill5 a v x.1).id = a then (match (fill5 a v x.1).req with
    | .upload d => some d
    | .purge => none
    | _ => h)
  else h

def data5 (a : Bytes) (v : Nat → Bytes) (h : Option Bytes) (o : List (Act5 × Svr.DB5.Resp)) : Option Bytes := o.foldl (after5 a v) h

/-- Where an HMAC was given out for the account, both give the same. -/
def Even5 (P : Prims5) (a : Bytes) (h h' : Option Bytes) : Act5 → Svr.DB5.Resp → Prop
  | .other ⟨id, .download p⟩, .download .ok _ => id = a → ∀ x x', h = some x → h' = some x' → P.hmac x p = P.hmac x' p
  | _, _ => True

structure Alike5 (P : Prims5) (a : Bytes) (h h' : Option Bytes) (db db' : Svr.DB5.DB) : Prop where
  inv : Svr.DB5.Inv P db
  inv' : Svr.DB5.Inv P db'
  others : ∀ id, id ≠ a → Svr.DB5.look db id = Svr.DB5.look db' id
  account : Svr.DB5.look db a = h
  account' : Svr.DB5.look db' a = h'
  both : h.isSome = h'.isSome

theorem alike_step5 {v v' : Nat → Bytes} (hs' : ∀ k, (v' k).length = 32) {h h' : Option Bytes} {db db' db1 : Svr.DB5.DB} {path : Bytes → Bool}
    {t : Act5} {r : Svr.DB5.Resp} (hR : Alike5 P a h h' db db') (hrun : Svr.DB5.run P path db (fill5 a v t) = .ok (db1, r)) (hE : Even5 P a h h' t r) :
    ∃ db1', Svr.DB5.run P path db' (fill5 a v' t) = .ok (db1', r) ∧ Alike5 P a (after5 a v h (t, r)) (after5 a v' h' (t, r)) db1 db1' := by
  have hval : Svr.DB5.validate (fill5 a v t) = none := by
    unfold Svr.DB5.run at hrun
    obtain ⟨_, h1, _⟩ := Out.bind_eq_ok.mp hrun
    cases hv : Svr.DB5.validate (fill5 a v t) with
    | none => rfl
    | some e => rw [hv] at h1; simp [Out.check] at h1
  have hval' : Svr.DB5.validate (fill5 a v' t) = none := by
    rw [Svr.DB5.validate_iff] at hval ⊢
    cases t with
    | upload k => exact ⟨hval.1, hs' k⟩
    | other l => exact hval
  obtain ⟨e1, k1, k2, k4, k5⟩ := view5 (path := path) hR.inv hval
  obtain ⟨e1', k1', k2', k4', k5'⟩ := view5 (path := path) hR.inv' hval'
  rw [hrun] at k1
  injection k1 with k1
  obtain rfl : db1 = e1 := congrArg Prod.fst k1
  have hr : r = _ := congrArg Prod.snd k1
  have hid : (fill5 a v' t).id = (fill5 a v t).id := by cases t <;> rfl
  rw [hid] at k1' k4' k5'
  by_cases hc : (fill5 a v t).id = a
  · have hc' := hid.trans hc
    rw [hc] at hr k4 k5 k1' k4' k5'
    rw [hR.account] at hr k4
    rw [hR.account'] at k1' k4'
    suffices hw : (pstep5 P.hmac (path a) h' (fill5 a v' t)).2 = r ∧ (pstep5 P.hmac (path a) h (fill5 a v t)).1 = after5 a v h (t, r) ∧
        (pstep5 P.hmac (path a) h' (fill5 a v' t)).1 = after5 a v' h' (t, r) ∧ (after5 a v h (t, r)).isSome = (after5 a v' h' (t, r)).isSome by
      refine ⟨e1', by rw [k1', hw.1], k2, k2', ?_, k4.trans hw.2.1, k4'.trans hw.2.2.1, hw.2.2.2⟩
      intro id hne
      rw [k5 id hne, k5' id hne]
      exact hR.others id hne
    simp only [after5, hc, hc', if_true]
    cases t with
    | upload k =>
      have e : ∀ (o : Option Bytes) (x : Bytes), pstep5 P.hmac (path a) o ⟨a, .upload x⟩ = (some x, .upload .ok) := by intro o x; cases o <;> rfl
      simp only [fill5, e] at hr ⊢
      exact ⟨hr.symm, trivial, trivial, rfl⟩
    | other l =>
      obtain ⟨id, req⟩ := l
      simp only [fill5] at hc hr ⊢
      subst hc
      have hb := hR.both
      cases req with
      | upload x =>
        have e : ∀ o : Option Bytes, pstep5 P.hmac (path id) o ⟨id, .upload x⟩ = (some x, .upload .ok) := by intro o; cases o <;> rfl
        simp only [e] at hr ⊢
        exact ⟨hr.symm, trivial, trivial, trivial⟩
      | purge =>
        have e : ∀ o : Option Bytes, pstep5 P.hmac (path id) o ⟨id, .purge⟩ = (none, .purge) := by intro o; cases o <;> rfl
        simp only [e] at hr ⊢
        exact ⟨hr.symm, trivial, trivial, trivial⟩
      | unset =>
        have e : ∀ o : Option Bytes, pstep5 P.hmac (path id) o ⟨id, .unset⟩ = (o, .none) := by intro o; cases o <;> rfl
        simp only [e] at hr ⊢
        exact ⟨hr.symm, trivial, trivial, hb⟩
      | download p =>
        cases h with
        | none =>
          cases h' with
          | some y => cases hb
          | none => exact ⟨hr.symm, rfl, rfl, rfl⟩
        | some x =>
          cases h' with
          | none => cases hb
          | some y =>
            cases hp : path id with
            | false =>
              rw [hp] at hr
              exact ⟨hr.symm, rfl, rfl, rfl⟩
            | true =>
              rw [hp] at hr
              have hr : r = .download .ok (P.hmac x p) := hr
              subst hr
              have he : P.hmac x p = P.hmac y p := hE rfl x y rfl rfl
              refine ⟨?_, rfl, rfl, rfl⟩
              show Svr.DB5.Resp.download .ok (P.hmac y p) = _
              rw [he]
  · have hl : ∃ l, t = .other l := by
      cases t with
      | other l => exact ⟨l, rfl⟩
      | _ => exact absurd rfl hc
    obtain ⟨l, rfl⟩ := hl
    have hc : l.id ≠ a := hc
    simp only [fill5] at hr k1' k4 k5 k4' k5' ⊢
    have hlook := hR.others l.id hc
    rw [hlook] at hr k4
    have e : ∀ w h, after5 a w h (.other l, r) = h := fun w h => if_neg hc
    refine ⟨e1', by rw [k1', ← hr], k2, k2', ?_, ?_, ?_, ?_⟩
    · intro id hne
      by_cases hl : id = l.id
      · rw [hl, k4, k4']
      · rw [k5 id hl, k5' id hl]
        exact hR.others id hne
    · rw [k5 a (Ne.symm hc), e]
      exact hR.account
    · rw [k5' a (Ne.symm hc), e]
      exact hR.account'
    · rw [e, e]
      exact hR.both

/-- The game over SVR5. -/
abbrev play5 (P : Prims5) (a : Bytes) := play (Svr.DB5.run P) (fill5 a) seen5

/-- **C92**: whatever an owner uploads, the same is seen, as long as it gives the same HMACs at the downloads that were answered. -/
theorem C92_data_hidden {db : Svr.DB5.DB} (hi : Svr.DB5.Inv P db) {v v' : Nat → Bytes} (hv' : ∀ k, (v' k).length = 32) {σ : Plan Act5 Svr.DB5.Resp}
    {n : Nat} {w : Svr.DB5.DB} {o : List (Act5 × Svr.DB5.Resp)} (hp : play5 P a σ v n db [] = .ok (w, o))
    (hg : ∀ p t r q, o = p ++ (t, r) :: q → Even5 P a (data5 a v (Svr.DB5.look db a) p) (data5 a v' (Svr.DB5.look db a) p) t r) :
    ∃ w', play5 P a σ v' n db [] = .ok (w', o) := by
  obtain ⟨w', h, _⟩ := same_view (R := fun o d d' => Alike5 P a (data5 a v (Svr.DB5.look db a) o) (data5 a v' (Svr.DB5.look db a) o) d d')
    (Good := fun p x => Even5 P a (data5 a v (Svr.DB5.look db a) p) (data5 a v' (Svr.DB5.look db a) p) x.1 x.2) (v := v) (v' := v') (o := []) (by
      intro o d d' t path d1 r hR hrun hg
      obtain ⟨d1', h1, h3⟩ := alike_step5 hv' hR hrun hg
      exact ⟨d1', r, h1, rfl, by simp only [data5, List.foldl_append, List.foldl]; exact h3⟩) ⟨hi, hi, fun _ _ => rfl, rfl, rfl, rfl⟩ hp (by
      rintro p ⟨t, s⟩ q e _
      exact hg p t s q e)
  exact ⟨w', h⟩

/-- **C92**: the number of guesses is not limited by the database. Of any number of downloads with any passwords each is answered, and the account stays. -/
theorem C92_no_limit {path : Bytes → Bool} (hpath : path a = true) : ∀ {ps : List Bytes} {db : Svr.DB5.DB} {d : Bytes}, Svr.DB5.Inv P db → a.length = 16 →
    Svr.DB5.look db a = some d → (∀ p ∈ ps, p.length = 32) →
    ∃ db', Svr.Props.DB5.runAll P path db (ps.map fun p => ⟨a, .download p⟩) = .ok (db', ps.map fun p => .download .ok (P.hmac d p)) ∧
      Svr.DB5.look db' a = some d
  | [], db, d, _, _, hd, _ => ⟨db, rfl, hd⟩
  | p :: ps, db, d, hi, ha, hd, hps => by
    have hv : Svr.DB5.validate ⟨a, .download p⟩ = none := (Svr.DB5.validate_iff _).mpr ⟨ha, hps p List.mem_cons_self⟩
    obtain ⟨d1, k1, k2, k4, _⟩ := view5 (path := path) hi hv
    have e : pstep5 P.hmac (path a) (Svr.DB5.look db a) ⟨a, .download p⟩ = (some d, .download .ok (P.hmac d p)) := by
      rw [hd, hpath]
      rfl
    simp only [e] at k1 k4
    obtain ⟨db', h1, h2⟩ := C92_no_limit hpath (ps := ps) k2 ha k4 fun q hq => hps q (List.mem_cons_of_mem _ hq)
    refine ⟨db', ?_, h2⟩
    have h1 : runList (Svr.DB5.run P path) d1 (ps.map fun p => ⟨a, .download p⟩) = .ok (db', ps.map fun p => .download .ok (P.hmac d p)) := h1
    show runList (Svr.DB5.run P path) db _ = _
    simp only [List.map_cons, runList, k1, Out.bind_ok, h1, Out.pure_eq]

/-! ## Non-vacuity -/

section

/-- An HMAC of which the first byte of the data decides. -/
def P1 : Prims5 := ⟨⟨fun b => padTo 16 ((b.drop 16).take 8), fun b => b⟩, fun k m => k.take 1 ++ m⟩

def plan5 : Plan Act5 Svr.DB5.Resp := fun o =>
  (match o.length with
  | 0 => .upload 0
  | 1 => .other ⟨DB5.ida, .download DB5.pw⟩
  | 2 => .other ⟨DB5.idb, .download DB5.pw⟩
  | 3 => .upload 1
  | 4 => .other ⟨DB5.ida, .purge⟩
  | 5 => .other ⟨DB5.ida, .download DB5.pw⟩
  | 6 => .upload 2
  | 7 => .other ⟨DB5.ida, .download DB5.d1⟩
  | 8 => .other ⟨DB5.ida, .upload DB5.d2⟩
  | _ => .other ⟨DB5.ida, .download DB5.pw⟩, fun _ => o.length ≠ 7)

def sight5 (v : Nat → Bytes) : List (Act5 × Svr.DB5.Resp) := match play5 P1 DB5.ida plan5 v 10 Svr.DB5.empty [] with
  | .ok (_, o) => o
  | _ => []

/-- Data that begin with 4. -/
def mine (x : UInt8) : Nat → Bytes := fun k => if k = 0 then 4 :: List.replicate 31 x else List.replicate 32 x

example : (sight5 (mine 1)).map (·.2) = [.upload .ok, .download .ok (4 :: DB5.pw), .download .missing [], .upload .ok, .purge, .download .missing [],
    .upload .ok, .download .merkleFailure [], .upload .ok, .download .ok (6 :: DB5.pw)] := by decide +kernel

def evenB (h h' : Option Bytes) : Act5 × Svr.DB5.Resp → Bool
  | (.other ⟨_, .download p⟩, .download .ok _) => match h, h' with
    | some x, some x' => P1.hmac x p == P1.hmac x' p
    | _, _ => true
  | _ => true

theorem even_of {h h' : Option Bytes} {t : Act5} {r : Svr.DB5.Resp} (he : evenB h h' (t, r) = true) : Even5 P1 DB5.ida h h' t r := by
  unfold Even5
  split
  · rintro rfl x x' rfl rfl
    simpa [evenB] using he
  · trivial

def evenAll (v v' : Nat → Bytes) (h h' : Option Bytes) : List (Act5 × Svr.DB5.Resp) → Bool
  | [] => true
  | x :: o => evenB h h' x && evenAll v v' (after5 DB5.ida v h x) (after5 DB5.ida v' h' x) o

theorem evenAll_spec {v v' : Nat → Bytes} : ∀ {o : List (Act5 × Svr.DB5.Resp)} {h h' : Option Bytes}, evenAll v v' h h' o = true →
    ∀ p t r q, o = p ++ (t, r) :: q → Even5 P1 DB5.ida (data5 DB5.ida v h p) (data5 DB5.ida v' h' p) t r
  | _, h, h', he, [], t, r, q, e => by
    subst e
    simp only [evenAll, Bool.and_eq_true, List.nil_append] at he
    exact even_of he.1
  | _, h, h', he, x :: p, t, r, q, e => by
    subst e
    simp only [evenAll, Bool.and_eq_true, List.cons_append] at he
    exact evenAll_spec (o := p ++ (t, r) :: q) he.2 p t r q rfl

/-- The hypotheses of `C92_data_hidden`: the data differ in all but the first byte of the first upload. -/
example : Svr.DB5.Inv P1 Svr.DB5.empty ∧ (∀ k, (mine 2 k).length = 32) ∧
    (∃ w, play5 P1 DB5.ida plan5 (mine 1) 10 Svr.DB5.empty [] = .ok (w, sight5 (mine 1))) ∧
    ∀ p t r q, sight5 (mine 1) = p ++ (t, r) :: q → Even5 P1 DB5.ida (data5 DB5.ida (mine 1) (Svr.DB5.look Svr.DB5.empty DB5.ida) p)
      (data5 DB5.ida (mine 2) (Svr.DB5.look Svr.DB5.empty DB5.ida) p) t r := by
  refine ⟨Svr.DB5.inv_empty _, fun k => by unfold mine; split <;> rfl, ?_, evenAll_spec (by decide +kernel)⟩
  have h : (match play5 P1 DB5.ida plan5 (mine 1) 10 Svr.DB5.empty [] with | .ok _ => true | _ => false) = true := by decide +kernel
  unfold sight5
  split at h
  · rename_i z heq
    rw [heq]
    exact ⟨z.1, rfl⟩
  · cases h

/-- The hypotheses of `C92_no_limit`: an account, and three guesses. -/
example : ∃ db, Svr.DB5.run P1 Svr.DB5.intact Svr.DB5.empty ⟨DB5.ida, .upload DB5.d1⟩ = .ok (db, .upload .ok) ∧
    Svr.DB5.look db DB5.ida = some DB5.d1 ∧ ∀ p ∈ [DB5.pw, DB5.d1, DB5.d2], p.length = 32 := by
  exact ⟨_, rfl, by decide, by decide⟩

end

end Svr.Props.Data5
