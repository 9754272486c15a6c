import Verif.DB2View
import Verif.Props.DB2
import Verif.Props.DB3

/-!
# C84: answers give nothing away but the outcome of counted guesses

Someone sees every answer of a database, chooses every request in the light of the answers so far, and can make integrity checks fail. Only the
contents of an owner's requests for account `a` are out of their hands and eyes: the owner backs up, exposes and restores secrets numbered
0, 1, ..., when told to. `play` is a run of this game. The theorems compare two runs that differ in the owner's secrets only.
-/

namespace Svr.Props.Secret
open Svr Svr.Spec2

section
variable {D L E S T O : Type}

/-- The next act and the outcome of integrity walks during it, given what was seen. -/
abbrev Plan (T O : Type) := List (T × O) → T × (Bytes → Bool)

/-- `m` acts; `fill v` puts the secrets of `v` into an act, `view` is what is seen of an answer. -/
def play (run : (Bytes → Bool) → D → L → Out (D × E)) (fill : S → T → L) (view : D → (Bytes → Bool) → T → E → O) (σ : Plan T O) (v : S) :
    Nat → D → List (T × O) → Out (D × List (T × O))
  | 0, d, o => .ok (d, o)
  | m + 1, d, o => do
    let (d1, r) ← run (σ o).2 d (fill v (σ o).1)
    play run fill view σ v m d1 (o ++ [((σ o).1, view d (σ o).2 (σ o).1 r)])

variable {run : (Bytes → Bool) → D → L → Out (D × E)} {fill : S → T → L} {view : D → (Bytes → Bool) → T → E → O} {σ : Plan T O} {v v' : S}

theorem play_grows : ∀ {m : Nat} {d d2 : D} {o o2 : List (T × O)}, play run fill view σ v m d o = .ok (d2, o2) → ∃ q, o2 = o ++ q
  | 0, d, d2, o, o2, h => by cases h; exact ⟨[], by simp⟩
  | m + 1, d, d2, o, o2, h => by
    obtain ⟨⟨d1, r⟩, _, h⟩ := Out.bind_eq_ok.mp h
    obtain ⟨q, hq⟩ := play_grows h
    exact ⟨_ :: q, by rw [hq]; simp; rfl⟩

/-- Two runs see the same as long as a relation between their states is kept. -/
theorem same_view {R : List (T × O) → D → D → Prop} {Good : List (T × O) → T × O → Prop}
    (hstep : ∀ o d d' t path d1 r, R o d d' → run path d (fill v t) = .ok (d1, r) → Good o (t, view d path t r) →
      ∃ d1' r', run path d' (fill v' t) = .ok (d1', r') ∧ view d' path t r' = view d path t r ∧ R (o ++ [(t, view d path t r)]) d1 d1') :
    ∀ {m : Nat} {d d' d2 : D} {o o2 : List (T × O)}, R o d d' → play run fill view σ v m d o = .ok (d2, o2) →
      (∀ p x q, o2 = p ++ x :: q → o.length ≤ p.length → Good p x) → ∃ d2', play run fill view σ v' m d' o = .ok (d2', o2) ∧ R o2 d2 d2'
  | 0, d, d', d2, o, o2, hR, h, _ => by cases h; exact ⟨d', rfl, hR⟩
  | m + 1, d, d', d2, o, o2, hR, h, hG => by
    obtain ⟨⟨d1, r⟩, h1, h⟩ := Out.bind_eq_ok.mp h
    obtain ⟨q, hq⟩ := play_grows h
    have hg := hG o ((σ o).1, view d (σ o).2 (σ o).1 r) q (by rw [hq]; simp) (Nat.le_refl _)
    obtain ⟨d1', r', k1, k2, k3⟩ := hstep o d d' _ _ d1 r hR h1 hg
    obtain ⟨d2', k4, k5⟩ := same_view hstep k3 h fun p x q' e hl => hG p x q' e (by
      rw [List.length_append] at hl
      omega)
    refine ⟨d2', ?_, k5⟩
    simp only [play, k1, Out.bind_ok, k2]
    exact k4

end

/-! ## SVR2 -/

section
open Svr.DB2
variable {prims : Prims} {a : Bytes}

/-- Secrets and PINs of the owner. -/
structure Secrets where
  data : Nat → Bytes
  pin : Nat → Bytes

/-- Their sizes are those the protocol takes. -/
def Secrets.Sized (v : Secrets) : Prop := ∀ k, 16 ≤ (v.data k).length ∧ (v.data k).length ≤ 48 ∧ (v.pin k).length = 32

/-- The owner's requests, and those of others, who may write to the same account. -/
inductive Act where
  | backup (k : Nat) (n : UInt32)
  | expose (k : Nat)
  | restore (k : Nat)
  | other (l : Svr.DB2.Log)

def fill (a : Bytes) (v : Secrets) : Act → Svr.DB2.Log
  | .backup k n => ⟨a, .backup (v.data k) (v.pin k) n⟩
  | .expose k => ⟨a, .expose (v.data k)⟩
  | .restore k => ⟨a, .restore (v.pin k)⟩
  | .other l => l

/-- What is seen: the answer, without the secret if it is the owner's to a Restore, and whether the request was compared with what is stored. -/
structure Seen where
  resp : Svr.DB2.Resp
  compared : Bool

def veil : Act → Svr.DB2.Resp → Svr.DB2.Resp
  | .restore _, .restore s _ t => .restore s [] t
  | _, r => r

/-- A Restore of an exposed backup, or an Expose of a backup, whose row is not found damaged. -/
def compares (o : Option Vault) (ok : Bool) : Svr.DB2.Req → Bool
  | .restore _ => match o with | some x => x.exposed && ok | none => false
  | .expose _ => o.isSome && ok
  | _ => false

def seen (a : Bytes) (db : Svr.DB2.DB) (path : Bytes → Bool) (t : Act) (r : Svr.DB2.Resp) : Seen :=
  let l := fill a ⟨fun _ => [], fun _ => []⟩ t
  ⟨veil t r, compares (Svr.DB2.look db l.id) (path l.id) l.req⟩

/-- What is stored in the account: the owner's secret, or what others have put there. -/
inductive Held where
  | own (k : Nat)
  | other (d p : Bytes)

def Held.data (v : Secrets) : Held → Bytes
  | .own k => v.data k
  | .other d _ => d

def Held.pin (v : Secrets) : Held → Bytes
  | .own k => v.pin k
  | .other _ p => p

/-- What was put into the account last. -/
def held (a : Bytes) (h : Option Held) : List (Act × Seen) → Option Held
  | [] => h
  | (.backup k _, _) :: o => held a (some (.own k)) o
  | (.other ⟨id, .backup d p _⟩, _) :: o => held a (if id = a then some (.other d p) else h) o
  | _ :: o => held a h o

theorem held_append (h : Option Held) : ∀ o q : List (Act × Seen), held a h (o ++ q) = held a (held a h o) q := by
  intro o
  induction o generalizing h with
  | nil => intro q; rfl
  | cons x o ih =>
    intro q
    obtain ⟨t, s⟩ := x
    cases t with
    | backup k n => exact ih _ q
    | expose k => exact ih _ q
    | restore k => exact ih _ q
    | other l =>
      obtain ⟨id, req⟩ := l
      cases req <;> exact ih _ q

/-- A comparison has the same outcome for both, and others do not find the PIN of either. -/
def Even (a : Bytes) (v v' : Secrets) (h : Held) : Act → Prop
  | .backup _ _ => True
  | .expose k => h.data v <+: v.data k ↔ h.data v' <+: v'.data k
  | .restore k => v.pin k = h.pin v ↔ v'.pin k = h.pin v'
  | .other l => l.id = a → match l.req, h with
    | .restore g, .own k => g ≠ v.pin k ∧ g ≠ v'.pin k
    | .expose x, h => h.data v <+: x ↔ h.data v' <+: x
    | _, _ => True

/-- The databases are the same but for the owner's secrets in `a`. -/
structure Alike (prims : Prims) (a : Bytes) (v v' : Secrets) (h : Option Held) (db db' : Svr.DB2.DB) : Prop where
  inv : Svr.DB2.Inv prims db
  inv' : Svr.DB2.Inv prims db'
  backed : Backed db
  backed' : Backed db'
  others : ∀ id, id ≠ a → look db id = look db' id
  account : look db a = none ∧ look db' a = none ∨ ∃ x n e, h = some x ∧ look db a = some ⟨x.data v, x.pin v, n, e⟩ ∧
    look db' a = some ⟨x.data v', x.pin v', n, e⟩

theorem fill_valid {v v' : Secrets} (hs' : v'.Sized) {t : Act} (h : validate (fill a v t) = none) : validate (fill a v' t) = none := by
  rw [validate_iff] at h ⊢
  cases t with
  | backup k n =>
    obtain ⟨h1, _, _, _, h5, h6⟩ := h
    exact ⟨h1, (hs' k).2.2, (hs' k).1, (hs' k).2.1, h5, h6⟩
  | expose k => exact ⟨h.1, (hs' k).1, (hs' k).2.1⟩
  | restore k => exact ⟨h.1, (hs' k).2.2⟩
  | other l => exact h

theorem run_valid {path : Bytes → Bool} {db db' : Svr.DB2.DB} {l : Svr.DB2.Log} {r : Svr.DB2.Resp} (h : Svr.DB2.run prims path db l = .ok (db', r)) :
    validate l = none := by
  unfold Svr.DB2.run at h
  obtain ⟨_, h1, _⟩ := Out.bind_eq_ok.mp h
  cases hv : validate l with
  | none => rfl
  | some e => rw [hv] at h1; simp [Out.check] at h1

theorem fill_id (v v' : Secrets) (t : Act) : (fill a v t).id = (fill a v' t).id := by cases t <;> rfl

/-- One act, seen account by account. -/
theorem even_step {v v' : Secrets} {h : Option Held} {ok : Bool} {t : Act} {o o' : Option Vault} (hid : (fill a v t).id = a)
    (ho : o = none ∧ o' = none ∨ ∃ x n e, h = some x ∧ o = some ⟨x.data v, x.pin v, n, e⟩ ∧ o' = some ⟨x.data v', x.pin v', n, e⟩) {s : Seen}
    (he : compares o ok (fill a v t).req = true → ∀ x, h = some x → Even a v v' x t) :
    veil t (pstep ok o' (fill a v' t).req).2 = veil t (pstep ok o (fill a v t).req).2 ∧
      ((pstep ok o (fill a v t).req).1 = none ∧ (pstep ok o' (fill a v' t).req).1 = none ∨
        ∃ x n e, held a h [(t, s)] = some x ∧ (pstep ok o (fill a v t).req).1 = some ⟨x.data v, x.pin v, n, e⟩ ∧
          (pstep ok o' (fill a v' t).req).1 = some ⟨x.data v', x.pin v', n, e⟩) := by
  have back : ∀ (d p : Bytes) (n : UInt32) (z : Option Vault), pstep ok z (.backup d p n) = (some ⟨d, p, n.toNat, false⟩, .backup) := by
    intro d p n z; cases z <;> rfl
  cases t with
  | backup k n =>
    simp only [fill, back]
    exact ⟨trivial, .inr ⟨.own k, n.toNat, false, rfl, rfl, rfl⟩⟩
  | expose k =>
    rcases ho with ⟨rfl, rfl⟩ | ⟨x, n, e, rfl, rfl, rfl⟩
    · exact ⟨rfl, .inl ⟨rfl, rfl⟩⟩
    · cases ok with
      | false => exact ⟨rfl, .inr ⟨x, n, e, rfl, rfl, rfl⟩⟩
      | true =>
        have he : x.data v <+: v.data k ↔ x.data v' <+: v'.data k := he rfl x rfl
        simp only [fill, pstep, vstep, Bool.true_eq_false, if_false]
        by_cases hm : x.data v <+: v.data k
        · rw [if_pos hm, if_pos (he.mp hm)]
          exact ⟨rfl, .inr ⟨x, n, true, rfl, rfl, rfl⟩⟩
        · rw [if_neg hm, if_neg fun y => hm (he.mpr y)]
          exact ⟨rfl, .inr ⟨x, n, e, rfl, rfl, rfl⟩⟩
  | restore k =>
    rcases ho with ⟨rfl, rfl⟩ | ⟨x, n, e, rfl, rfl, rfl⟩
    · exact ⟨rfl, .inl ⟨rfl, rfl⟩⟩
    · cases e with
      | false =>
        have e1 : ∀ (d p g : Bytes), pstep ok (some ⟨d, p, n, false⟩) (.restore g) = (some ⟨d, p, n, false⟩, .restore .missing [] 0) := by
          intro d p g; simp [pstep, vstep]
        simp only [fill, e1]
        exact ⟨trivial, .inr ⟨x, n, false, rfl, rfl, rfl⟩⟩
      | true =>
        cases ok with
        | false => exact ⟨rfl, .inr ⟨x, n, true, rfl, rfl, rfl⟩⟩
        | true =>
          have he : v.pin k = x.pin v ↔ v'.pin k = x.pin v' := he rfl x rfl
          simp only [fill, pstep, vstep, Bool.true_eq_false, and_false, if_false]
          by_cases hm : v.pin k = x.pin v
          · rw [if_pos hm, if_pos (he.mp hm)]
            exact ⟨rfl, .inr ⟨x, n, true, rfl, rfl, rfl⟩⟩
          · rw [if_neg hm, if_neg fun y => hm (he.mpr y)]
            split
            · exact ⟨rfl, .inl ⟨rfl, rfl⟩⟩
            · exact ⟨rfl, .inr ⟨x, n - 1, true, rfl, rfl, rfl⟩⟩
  | other l =>
    obtain ⟨id, req⟩ := l
    have hid' : id = a := hid
    cases req with
    | backup d p n =>
      simp only [fill, back]
      exact ⟨trivial, .inr ⟨.other d p, n.toNat, false, if_pos hid', rfl, rfl⟩⟩
    | delete =>
      rcases ho with ⟨rfl, rfl⟩ | ⟨x, n, e, rfl, rfl, rfl⟩ <;> exact ⟨rfl, .inl ⟨rfl, rfl⟩⟩
    | unset =>
      rcases ho with ⟨rfl, rfl⟩ | ⟨x, n, e, rfl, rfl, rfl⟩
      · exact ⟨rfl, .inl ⟨rfl, rfl⟩⟩
      · exact ⟨rfl, .inr ⟨x, n, e, rfl, rfl, rfl⟩⟩
    | tries =>
      rcases ho with ⟨rfl, rfl⟩ | ⟨x, n, e, rfl, rfl, rfl⟩
      · exact ⟨rfl, .inl ⟨rfl, rfl⟩⟩
      · cases ok <;> exact ⟨rfl, .inr ⟨x, n, e, rfl, rfl, rfl⟩⟩
    | expose y =>
      rcases ho with ⟨rfl, rfl⟩ | ⟨x, n, e, rfl, rfl, rfl⟩
      · exact ⟨rfl, .inl ⟨rfl, rfl⟩⟩
      · cases ok with
        | false => exact ⟨rfl, .inr ⟨x, n, e, rfl, rfl, rfl⟩⟩
        | true =>
          have he : x.data v <+: y ↔ x.data v' <+: y := by
            have := he rfl x rfl hid'
            cases x <;> exact this
          simp only [fill, pstep, vstep, Bool.true_eq_false, if_false]
          by_cases hm : x.data v <+: y
          · rw [if_pos hm, if_pos (he.mp hm)]
            exact ⟨rfl, .inr ⟨x, n, true, rfl, rfl, rfl⟩⟩
          · rw [if_neg hm, if_neg fun y => hm (he.mpr y)]
            exact ⟨rfl, .inr ⟨x, n, e, rfl, rfl, rfl⟩⟩
    | restore g =>
      rcases ho with ⟨rfl, rfl⟩ | ⟨x, n, e, rfl, rfl, rfl⟩
      · exact ⟨rfl, .inl ⟨rfl, rfl⟩⟩
      · cases x with
        | other d p =>
          refine ⟨rfl, ?_⟩
          simp only [fill, Held.data, Held.pin]
          have hk : (pstep ok (some ⟨d, p, n, e⟩) (.restore g)).1 = none ∨ ∃ n' e', (pstep ok (some ⟨d, p, n, e⟩) (.restore g)).1 = some ⟨d, p, n', e'⟩ := by
            cases e with
            | false => exact .inr ⟨n, false, by simp [pstep, vstep]⟩
            | true =>
              cases ok with
              | false => exact .inr ⟨n, true, rfl⟩
              | true =>
                simp only [pstep, vstep, Bool.true_eq_false, and_false, if_false]
                by_cases hg : g = p
                · rw [if_pos hg]; exact .inr ⟨n, true, rfl⟩
                · rw [if_neg hg]
                  by_cases hn : n ≤ 1
                  · rw [if_pos hn]; exact .inl rfl
                  · rw [if_neg hn]; exact .inr ⟨n - 1, true, rfl⟩
          rcases hk with hk | ⟨n', e', hk⟩
          · exact .inl ⟨hk, hk⟩
          · exact .inr ⟨.other d p, n', e', rfl, hk, hk⟩
        | own k =>
          cases e with
          | false =>
            have e1 : ∀ (d p g : Bytes), pstep ok (some ⟨d, p, n, false⟩) (.restore g) = (some ⟨d, p, n, false⟩, .restore .missing [] 0) := by
              intro d p g; simp [pstep, vstep]
            simp only [fill, e1]
            exact ⟨trivial, .inr ⟨.own k, n, false, rfl, rfl, rfl⟩⟩
          | true =>
            cases ok with
            | false => exact ⟨rfl, .inr ⟨.own k, n, true, rfl, rfl, rfl⟩⟩
            | true =>
              obtain ⟨h1, h2⟩ : g ≠ v.pin k ∧ g ≠ v'.pin k := he rfl (.own k) rfl hid'
              simp only [fill, pstep, vstep, Bool.true_eq_false, and_false, if_false, Held.pin]
              rw [if_neg h1, if_neg h2]
              split
              · exact ⟨rfl, .inl ⟨rfl, rfl⟩⟩
              · exact ⟨rfl, .inr ⟨.own k, n - 1, true, rfl, rfl, rfl⟩⟩

theorem compares_fill {v v' : Secrets} {ok : Bool} {o o' : Option Vault} {t : Act} (h : o.map (·.exposed) = o'.map (·.exposed)) :
    compares o' ok (fill a v' t).req = compares o ok (fill a v t).req := by
  cases o with
  | none => cases o' with
    | none => cases t <;> rfl
    | some y => cases h
  | some x => cases o' with
    | none => cases h
    | some y =>
      have h : x.exposed = y.exposed := by simpa using h
      cases t with
      | backup k n => rfl
      | expose k => rfl
      | restore k => simp [fill, compares, h]
      | other l =>
        obtain ⟨id, req⟩ := l
        cases req <;> simp [fill, compares, h]

/-- An act of others on another account changes nothing in this one. -/
theorem held_other {h : Option Held} {t : Act} {s : Seen} {v : Secrets} (hid : (fill a v t).id ≠ a) : held a h [(t, s)] = h := by
  cases t with
  | backup k n => exact absurd rfl hid
  | expose k => exact absurd rfl hid
  | restore k => exact absurd rfl hid
  | other l =>
    obtain ⟨id, req⟩ := l
    have hid : id ≠ a := hid
    cases req <;> first | rfl | exact if_neg hid

theorem alike_step {v v' : Secrets} (hs' : v'.Sized) {h : Option Held} {db db' db1 : Svr.DB2.DB} {path : Bytes → Bool} {t : Act} {r : Svr.DB2.Resp}
    (hR : Alike prims a v v' h db db') (hrun : Svr.DB2.run prims path db (fill a v t) = .ok (db1, r))
    (hE : (seen a db path t r).compared = true → ∀ x, h = some x → Even a v v' x t) :
    ∃ db1' r', Svr.DB2.run prims path db' (fill a v' t) = .ok (db1', r') ∧ seen a db' path t r' = seen a db path t r ∧
      Alike prims a v v' (held a h [(t, seen a db path t r)]) db1 db1' := by
  have hval := run_valid hrun
  have hval' := fill_valid (a := a) hs' hval
  obtain ⟨e1, k1, k2, k3, k4, k5⟩ := run_view (path := path) hR.inv hR.backed hval
  obtain ⟨e1', k1', k2', k3', k4', k5'⟩ := run_view (path := path) hR.inv' hR.backed' hval'
  rw [hrun] at k1
  obtain ⟨rfl, rfl⟩ : db1 = e1 ∧ r = (pstep (path (fill a v t).id) (look db (fill a v t).id) (fill a v t).req).2 := by
    injection k1 with k1
    exact ⟨congrArg Prod.fst k1, congrArg Prod.snd k1⟩
  refine ⟨e1', _, k1', ?_⟩
  have hidv := fill_id (a := a) v v' t
  have hid0 := fill_id (a := a) v ⟨fun _ => [], fun _ => []⟩ t
  have hexp : ∀ id, (look db id).map (·.exposed) = (look db' id).map (·.exposed) := by
    intro id
    by_cases hc : id = a
    · subst hc
      rcases hR.account with ⟨h1, h2⟩ | ⟨x, n, e, _, h1, h2⟩ <;> rw [h1, h2] <;> rfl
    · rw [hR.others id hc]
  by_cases hc : (fill a v t).id = a
  · have hc' : (fill a v' t).id = a := hidv ▸ hc
    have hc0 : (fill a ⟨fun _ => [], fun _ => []⟩ t).id = a := hid0 ▸ hc
    rw [hc'] at k4' k5' ⊢
    rw [hc] at hE k4 k5 ⊢
    have hE' : compares (look db a) (path a) (fill a v t).req = true → ∀ x, h = some x → Even a v v' x t := by
      intro hcmp
      apply hE
      simp only [seen, hc0]
      rw [← hcmp]
      exact compares_fill rfl
    have hstep := fun s => even_step (s := s) (ok := path a) hc hR.account hE'
    refine ⟨?_, k2, k2', k3, k3', ?_, ?_⟩
    · simp only [seen, hc0]
      rw [(hstep ⟨.empty, false⟩).1]
      congr 1
      have := compares_fill (a := a) (v := ⟨fun _ => [], fun _ => []⟩) (v' := ⟨fun _ => [], fun _ => []⟩) (ok := path a) (t := t) (hexp a)
      exact this
    · intro id hne
      rw [k5 id hne, k5' id hne]
      exact hR.others id hne
    · rw [k4, k4']
      exact (hstep _).2
  · have hl : ∃ l, t = .other l := by
      cases t with
      | other l => exact ⟨l, rfl⟩
      | _ => exact absurd rfl hc
    obtain ⟨l, rfl⟩ := hl
    have hc : l.id ≠ a := hc
    simp only [fill] at k4 k5 k4' k5' ⊢
    have hlook := hR.others l.id hc
    rw [hlook] at k4 ⊢
    refine ⟨?_, k2, k2', k3, k3', ?_, ?_⟩
    · simp only [seen, fill, hlook]
    · intro id hne
      by_cases hl : id = l.id
      · rw [hl, k4, k4']
      · rw [k5 id hl, k5' id hl]
        exact hR.others id hne
    · rw [held_other (v := v) (by exact hc), k5 a (Ne.symm hc), k5' a (Ne.symm hc)]
      exact hR.account

/-- The game over SVR2. -/
abbrev play2 (prims : Prims) (a : Bytes) := play (Svr.DB2.run prims) (fill a) (seen a)

/-- C84. Two owners whose requests come out alike where they are compared with what is stored, and whose PINs others do not hit, are told apart by
nothing anyone sees. What was compared, and with what, is read off what was seen. -/
theorem C84_svr2 {v v' : Secrets} (hs' : v'.Sized) {h : Option Held} {db db' db2 : Svr.DB2.DB} (hR : Alike prims a v v' h db db')
    {σ : Plan Act Seen} {m : Nat} {o : List (Act × Seen)} (hp : play2 prims a σ v m db [] = .ok (db2, o))
    (hE : ∀ p t s q, o = p ++ (t, s) :: q → s.compared = true → ∀ x, held a h p = some x → Even a v v' x t) :
    ∃ db2', play2 prims a σ v' m db' [] = .ok (db2', o) ∧ Alike prims a v v' (held a h o) db2 db2' := by
  refine same_view (R := fun o d d' => Alike prims a v v' (held a h o) d d')
    (Good := fun p x => x.2.compared = true → ∀ y, held a h p = some y → Even a v v' y x.1) ?_ hR hp ?_
  · intro o d d' t path d1 r hR hrun hg
    obtain ⟨d1', r', h1, h2, h3⟩ := alike_step hs' hR hrun hg
    exact ⟨d1', r', h1, h2, by rw [held_append]; exact h3⟩
  · rintro p ⟨t, s⟩ q e _
    exact hE p t s q e

/-- One secret and one PIN. -/
def one (d p : Bytes) : Secrets := ⟨fun _ => d, fun _ => p⟩

/-- A PIN tried by others on the account. -/
def guess (a : Bytes) : Act × Seen → Option Bytes
  | (.other ⟨id, .restore g⟩, s) => if id = a ∧ s.compared = true then some g else none
  | _ => none

/-- A secret shown by others to the account. -/
def shown (a : Bytes) : Act × Seen → Option Bytes
  | (.other ⟨id, .expose x⟩, s) => if id = a ∧ s.compared = true then some x else none
  | _ => none

/-- Not a backup of the account. -/
def Keeps (a : Bytes) : Act → Prop
  | .backup _ _ => False
  | .other ⟨id, .backup _ _ _⟩ => id ≠ a
  | _ => True

def leftOf : Option Vault → Nat
  | none => 0
  | some x => x.left

theorem held_keeps {h : Option Held} : ∀ {o : List (Act × Seen)}, (∀ x ∈ o, Keeps a x.1) → held a h o = h
  | [], _ => rfl
  | (t, s) :: o, hk => by
    have h1 := hk _ List.mem_cons_self
    have ih := held_keeps (h := h) fun x hx => hk x (List.mem_cons_of_mem _ hx)
    cases t with
    | backup k n => exact h1.elim
    | expose k => exact ih
    | restore k => exact ih
    | other l =>
      obtain ⟨id, req⟩ := l
      cases req with
      | backup d p n =>
        have h1 : id ≠ a := h1
        simp only [held, if_neg h1]
        exact ih
      | _ => exact ih

/-- A guess that misses uses up one of those left. -/
theorem guess_step {d p : Bytes} {ok : Bool} {t : Act} {o : Option Vault} {s : Seen} (hid : (fill a (one d p) t).id = a) (hk : Keeps a t)
    (ho : ∀ x, o = some x → x.secret = d ∧ x.pin = p ∧ 1 ≤ x.left) (hc : s.compared = compares o ok (fill a (one d p) t).req)
    (hm : ∀ g, guess a (t, s) = some g → g ≠ p) :
    (∀ x, (pstep ok o (fill a (one d p) t).req).1 = some x → x.secret = d ∧ x.pin = p ∧ 1 ≤ x.left) ∧
      ([(t, s)].filterMap (guess a)).length + leftOf (pstep ok o (fill a (one d p) t).req).1 ≤ leftOf o := by
  have none_of : guess a (t, s) = none → ([(t, s)].filterMap (guess a)).length = 0 := by intro h; simp [h]
  cases t with
  | backup k n => exact hk.elim
  | expose k =>
    rw [none_of rfl]
    cases o with
    | none => exact ⟨fun x h => by simp [fill, pstep, vstep] at h, by simp [fill, pstep, vstep]⟩
    | some y =>
      obtain ⟨h1, h2, h3⟩ := ho y rfl
      cases ok <;> simp only [fill, pstep, vstep, Bool.true_eq_false, if_true, if_false]
      · exact ⟨fun x h => by cases h; exact ⟨h1, h2, h3⟩, by simp⟩
      · split
        · exact ⟨fun x h => by cases h; exact ⟨h1, h2, h3⟩, by simp [leftOf]⟩
        · exact ⟨fun x h => by cases h; exact ⟨h1, h2, h3⟩, by simp⟩
  | restore k =>
    rw [none_of rfl]
    cases o with
    | none => exact ⟨fun x h => by simp [fill, pstep, vstep] at h, by simp [fill, pstep, vstep]⟩
    | some y =>
      obtain ⟨h1, h2, h3⟩ := ho y rfl
      have e : (pstep ok (some y) (.restore p)).1 = some y := by
        simp only [pstep, vstep]
        split
        · rfl
        · split
          · rfl
          · rw [if_pos h2.symm]
      have e : (pstep ok (some y) (fill a (one d p) (.restore k)).req).1 = some y := e
      rw [e]
      exact ⟨fun x h => by cases h; exact ⟨h1, h2, h3⟩, by simp⟩
  | other l =>
    obtain ⟨id, req⟩ := l
    have hid' : id = a := hid
    cases req with
    | backup d p n => exact absurd hid' hk
    | delete =>
      rw [none_of rfl]
      have e : (pstep ok o .delete).1 = none := by cases o <;> rfl
      simp only [fill, e]
      exact ⟨fun x h => (nomatch h), Nat.zero_le _⟩
    | unset =>
      rw [none_of rfl]
      have e : (pstep ok o .unset).1 = o := by cases o <;> rfl
      simp only [fill, e]
      exact ⟨ho, by simp⟩
    | tries =>
      rw [none_of rfl]
      have e : (pstep ok o .tries).1 = o := by cases o <;> rfl
      simp only [fill, e]
      exact ⟨ho, by simp⟩
    | expose y =>
      rw [none_of rfl]
      cases o with
      | none => exact ⟨fun x h => by simp [fill, pstep, vstep] at h, by simp [fill, pstep, vstep]⟩
      | some y =>
        obtain ⟨h1, h2, h3⟩ := ho y rfl
        cases ok <;> simp only [fill, pstep, vstep, Bool.true_eq_false, if_true, if_false]
        · exact ⟨fun x h => by cases h; exact ⟨h1, h2, h3⟩, by simp⟩
        · split
          · exact ⟨fun x h => by cases h; exact ⟨h1, h2, h3⟩, by simp [leftOf]⟩
          · exact ⟨fun x h => by cases h; exact ⟨h1, h2, h3⟩, by simp⟩
    | restore g =>
      have hlen : ([(Act.other ⟨id, .restore g⟩, s)].filterMap (guess a)).length = if s.compared = true then 1 else 0 := by
        cases hs : s.compared <;> simp [guess, hid', hs]
      rw [hlen]
      cases o with
      | none =>
        have hc : s.compared = false := hc
        exact ⟨fun x h => by simp [fill, pstep, vstep] at h, by simp [fill, pstep, vstep, hc]⟩
      | some y =>
        obtain ⟨h1, h2, h3⟩ := ho y rfl
        have hc : s.compared = (y.exposed && ok) := hc
        cases he : y.exposed with
        | false =>
          rw [he] at hc
          simp only [fill, pstep, vstep, he, Bool.false_eq_true, false_and, if_false, if_true, hc, Bool.false_and]
          exact ⟨fun x h => by cases h; exact ⟨h1, h2, h3⟩, by simp⟩
        | true =>
          cases ok with
          | false =>
            rw [he] at hc
            have hc : s.compared = false := hc
            simp only [fill, pstep, he, and_self, if_true, hc, Bool.false_eq_true, if_false]
            exact ⟨fun x h => by cases h; exact ⟨h1, h2, h3⟩, by simp⟩
          | true =>
            rw [he] at hc
            have hc : s.compared = true := hc
            have hne : g ≠ p := hm g (by simp [guess, hid', hc])
            simp only [fill, pstep, vstep, he, Bool.true_eq_false, and_false, if_false, hc, if_true]
            rw [if_neg (fun e => hne (e.trans h2))]
            by_cases hn : y.left ≤ 1
            · rw [if_pos hn]
              exact ⟨fun x h => (nomatch h), by simp [leftOf]; omega⟩
            · rw [if_neg hn]
              exact ⟨fun x h => by cases h; exact ⟨h1, h2, by simp; omega⟩, by simp [leftOf]; omega⟩

theorem guesses_left {d p : Bytes} {σ : Plan Act Seen} : ∀ {m : Nat} {db db2 : Svr.DB2.DB} {o o2 : List (Act × Seen)}, Svr.DB2.Inv prims db → Backed db →
    (∀ x, look db a = some x → x.secret = d ∧ x.pin = p ∧ 1 ≤ x.left) → play2 prims a σ (one d p) m db o = .ok (db2, o2) →
    (∀ x ∈ o2, Keeps a x.1) → (∀ x ∈ o2, ∀ g, guess a x = some g → g ≠ p) →
    ∃ q, o2 = o ++ q ∧ (q.filterMap (guess a)).length ≤ leftOf (look db a)
  | 0, db, db2, o, o2, _, _, _, h, _, _ => by cases h; exact ⟨[], by simp, Nat.zero_le _⟩
  | m + 1, db, db2, o, o2, hi, hb, ho, h, hk, hm => by
    obtain ⟨⟨db1, r⟩, h1, h⟩ := Out.bind_eq_ok.mp h
    obtain ⟨q', hq'⟩ := play_grows h
    have hval := run_valid h1
    obtain ⟨e1, k1, k2, k3, k4, k5⟩ := run_view (path := (σ o).2) hi hb hval
    rw [h1] at k1
    have hdb : db1 = e1 := by
      injection k1 with k1
      exact congrArg Prod.fst k1
    subst hdb
    have hx : ((σ o).1, seen a db (σ o).2 (σ o).1 r) ∈ o2 := by rw [hq']; simp
    have hstep : (∀ x, look db1 a = some x → x.secret = d ∧ x.pin = p ∧ 1 ≤ x.left) ∧
        ([((σ o).1, seen a db (σ o).2 (σ o).1 r)].filterMap (guess a)).length + leftOf (look db1 a) ≤ leftOf (look db a) := by
      by_cases hc : (fill a (one d p) (σ o).1).id = a
      · rw [hc] at k4
        rw [k4]
        refine guess_step hc (hk _ hx) ho ?_ (hm _ hx)
        have hc0 : (fill a ⟨fun _ => [], fun _ => []⟩ (σ o).1).id = a := (fill_id (a := a) _ _ _).trans hc
        simp only [seen, hc0]
        exact compares_fill rfl
      · have hg : guess a ((σ o).1, seen a db (σ o).2 (σ o).1 r) = none := by
          cases ht : (σ o).1 with
          | other l =>
            rw [ht] at hc
            obtain ⟨id, req⟩ := l
            have hc : id ≠ a := hc
            cases req <;> first | rfl | exact if_neg fun y => hc y.1
          | _ => rfl
        rw [k5 a (Ne.symm hc)]
        exact ⟨ho, by simp [hg]⟩
    obtain ⟨q, hq, hl⟩ := guesses_left k2 k3 hstep.1 h hk hm
    refine ⟨_ :: q, by rw [hq]; simp; rfl, ?_⟩
    have e : ∀ y : Act × Seen, ((y :: q).filterMap (guess a)).length = ([y].filterMap (guess a)).length + (q.filterMap (guess a)).length := by
      intro y
      rw [← List.length_append, ← List.filterMap_append]; rfl
    rw [e]
    have := hstep.2
    omega

/-- C84. The owner backs up `d` under the PIN `p` with `n` guesses, and then exposes and restores at will. Others have not hit the PIN or the secret. Then
at most `n` PINs were tried, and any other PIN, and any other secret that was not shown either, would have led to the very same sight. -/
theorem C84_svr2_guesses {db0 db1 db2 : Svr.DB2.DB} (hi : Svr.DB2.Inv prims db0) (hb : Backed db0) {d p : Bytes} {n : UInt32} {path0 : Bytes → Bool}
    {r0 : Svr.DB2.Resp} (h0 : Svr.DB2.run prims path0 db0 ⟨a, .backup d p n⟩ = .ok (db1, r0)) {σ : Plan Act Seen} {m : Nat} {o : List (Act × Seen)}
    (h : play2 prims a σ (one d p) m db1 [] = .ok (db2, o)) (hk : ∀ x ∈ o, Keeps a x.1)
    (hg : ∀ x ∈ o, ∀ g, guess a x = some g → g ≠ p) (hx : ∀ x ∈ o, ∀ y, shown a x = some y → ¬ d <+: y) :
    (o.filterMap (guess a)).length ≤ n.toNat ∧
      ∀ d' p' : Bytes, 16 ≤ d'.length → d'.length ≤ 48 → p'.length = 32 → p' ∉ o.filterMap (guess a) → (∀ y ∈ o.filterMap (shown a), ¬ d' <+: y) →
        ∃ db1' db2', Svr.DB2.run prims path0 db0 ⟨a, .backup d' p' n⟩ = .ok (db1', r0) ∧
          play2 prims a σ (one d' p') m db1' [] = .ok (db2', o) := by
  have hval := run_valid h0
  obtain ⟨e1, k1, k2, k3, k4, k5⟩ := run_view (path := path0) hi hb hval
  rw [h0] at k1
  have hdb : db1 = e1 ∧ r0 = .backup := by
    injection k1 with k1
    refine ⟨congrArg Prod.fst k1, (congrArg Prod.snd k1).trans ?_⟩
    cases look db0 a <;> rfl
  obtain ⟨rfl, rfl⟩ := hdb
  have back : ∀ (d p : Bytes) (z : Option Vault), pstep (path0 a) z (.backup d p n) = (some ⟨d, p, n.toNat, false⟩, .backup) := by
    intro d p z; cases z <;> rfl
  have k4 : look db1 a = some ⟨d, p, n.toNat, false⟩ := by rw [k4]; exact congrArg Prod.fst (back d p _)
  have hn : 1 ≤ n.toNat := ((validate_iff _).mp hval).2.2.2.2.1
  constructor
  · obtain ⟨q, hq, hl⟩ := guesses_left (a := a) k2 k3 (fun x hx => by rw [k4] at hx; cases hx; exact ⟨rfl, rfl, hn⟩) h hk hg
    rw [k4] at hl
    rw [hq]
    exact hl
  · intro d' p' hd1 hd2 hp' hpg hds
    have hs' : (one d' p').Sized := fun _ => ⟨hd1, hd2, hp'⟩
    have hval' : validate ⟨a, .backup d' p' n⟩ = none := fill_valid (a := a) (v := one d p) (t := .backup 0 n) hs' hval
    obtain ⟨e1', k1', k2', k3', k4', k5'⟩ := run_view (path := path0) hi hb hval'
    have k4' : look e1' a = some ⟨d', p', n.toNat, false⟩ := by rw [k4']; exact congrArg Prod.fst (back d' p' _)
    have hR : Alike prims a (one d p) (one d' p') (some (.own 0)) db1 e1' :=
      ⟨k2, k2', k3, k3', fun id hne => by rw [k5 id hne, k5' id hne], .inr ⟨.own 0, n.toNat, false, rfl, k4, k4'⟩⟩
    obtain ⟨db2', hp, _⟩ := C84_svr2 hs' hR h (by
      intro pre t s q he hcmp x hh
      have hmem : (t, s) ∈ o := by rw [he]; simp
      rw [held_keeps fun x hx => hk x (by rw [he]; exact List.mem_append_left _ hx)] at hh
      cases hh
      cases t with
      | backup k n => trivial
      | expose k => exact ⟨fun _ => List.prefix_rfl, fun _ => List.prefix_rfl⟩
      | restore k => exact ⟨fun _ => rfl, fun _ => rfl⟩
      | other l =>
        obtain ⟨id, req⟩ := l
        intro hid
        have hid : id = a := hid
        cases req with
        | restore g =>
          have hgs : guess a (.other ⟨id, .restore g⟩, s) = some g := if_pos ⟨hid, hcmp⟩
          refine ⟨hg _ hmem g hgs, ?_⟩
          rintro rfl
          exact hpg (List.mem_filterMap.mpr ⟨_, hmem, hgs⟩)
        | expose y =>
          have hgs : shown a (.other ⟨id, .expose y⟩, s) = some y := if_pos ⟨hid, hcmp⟩
          have h1 := hx _ hmem y hgs
          have h2 := hds y (List.mem_filterMap.mpr ⟨_, hmem, hgs⟩)
          exact ⟨fun e => absurd e h1, fun e => absurd e h2⟩
        | _ => trivial)
    exact ⟨e1', db2', by rw [k1']; exact congrArg (fun z => Out.ok (e1', z)) (congrArg Prod.snd (back d' p' _)), hp⟩

end

/-! ## SVR3 -/

section
open Svr.DB3 Svr.Spec3
variable {P3 : Prims3} {a : Bytes}

/-- One entry against one account; `ok` is the outcome of the integrity walk, where there is one. -/
def pstep3 (mul : Bytes → Bytes → Option Bytes) (ok : Bool) (o : Option Acct) (l : Svr.DB3.Log) : Option Acct × Svr.DB3.Resp :=
  match o, l.req with
  | some x, .evaluate _ => if ok = false then (some x, .evaluate .error [] 0) else astep mul (some x) l
  | _, _ => astep mul o l

theorem view3 {path : Bytes → Bool} {d : Svr.DB3.DB} {l : Svr.DB3.Log} (hi : Svr.DB3.Inv P3 d) (hv : Svr.DB3.validate l = none) :
    ∃ d', Svr.DB3.run P3 path d l = .ok (d', (pstep3 P3.mul (path l.id) (Svr.DB3.look d l.id) l).2) ∧ Svr.DB3.Inv P3 d' ∧
      Svr.DB3.look d' l.id = (pstep3 P3.mul (path l.id) (Svr.DB3.look d l.id) l).1 ∧ ∀ k, k ≠ l.id → Svr.DB3.look d' k = Svr.DB3.look d k := by
  obtain ⟨d1, h1, h2, h3, h4⟩ := run_sim P3 d l hi hv
  have hv' := (Svr.DB3.validate_iff l).mp hv
  obtain ⟨id, req, pk⟩ := l
  have plain : ∀ {z}, pstep3 P3.mul (path id) (Svr.DB3.look d id) ⟨id, req, pk⟩ = astep P3.mul (Svr.DB3.look d id) ⟨id, req, pk⟩ →
      Svr.DB3.run P3 path d ⟨id, req, pk⟩ = Svr.DB3.run P3 Svr.DB3.intact d ⟨id, req, pk⟩ → z = pstep3 P3.mul (path id) (Svr.DB3.look d id) ⟨id, req, pk⟩ →
      ∃ d', Svr.DB3.run P3 path d ⟨id, req, pk⟩ = .ok (d', z.2) ∧ Svr.DB3.Inv P3 d' ∧
        Svr.DB3.look d' id = z.1 ∧ ∀ k, k ≠ id → Svr.DB3.look d' k = Svr.DB3.look d k := by
    rintro z e1 e2 rfl
    rw [e1, e2]
    exact ⟨d1, h1, h2, h3, h4⟩
  cases req with
  | create n b => exact plain (by cases Svr.DB3.look d id <;> rfl) rfl rfl
  | remove => exact plain (by cases Svr.DB3.look d id <;> rfl) rfl rfl
  | query => exact plain (by cases Svr.DB3.look d id <;> rfl) rfl rfl
  | unset => exact hv'.2.elim
  | evaluate b =>
    obtain ⟨hid, hb⟩ := hv'
    simp only at hid
    cases hf : d.find id with
    | none =>
      refine plain (by simp [Svr.DB3.look, hf, pstep3]) ?_ rfl
      unfold Svr.DB3.run
      simp only [hv, beq_self_eq_true, Out.check_true, Out.bind_ok, strToArr_self hid, evaluate, strToArr_self hb, hf]
    | some row =>
      have hr := hi id row hf
      cases hp : path id with
      | true =>
        refine hp ▸ plain (by simp [Svr.DB3.look, hf, pstep3, hp]) ?_ rfl
        unfold Svr.DB3.run
        simp only [hv, beq_self_eq_true, Out.check_true, Out.bind_ok, strToArr_self hid, evaluate, strToArr_self hb, hf, Svr.DB3.verify_ok hr, hp,
          Svr.DB3.intact]
      | false =>
        refine ⟨d, ?_, hi, ?_, fun k _ => rfl⟩
        · unfold Svr.DB3.run
          simp only [hv, beq_self_eq_true, Out.check_true, Out.bind_ok, strToArr_self hid, evaluate, strToArr_self hb, hf, Svr.DB3.verify_ok hr, hp,
            Bool.not_false, if_true]
          simp [Svr.DB3.look, hf, pstep3]
        · simp [Svr.DB3.look, hf, pstep3, hp]

/-- Creates of the account with a key of the owner's, and everything else. -/
inductive Act3 where
  | create (k : Nat) (n : UInt32) (b : Bytes)
  | other (l : Svr.DB3.Log)

def fill3 (a : Bytes) (v : Nat → Bytes) : Act3 → Svr.DB3.Log
  | .create k n b => ⟨a, .create n b, v k⟩
  | .other l => l

/-- What is seen: the answer, and whether the stored key was put to use. -/
structure Seen3 where
  resp : Svr.DB3.Resp
  used : Bool

def uses (o : Option Acct) (ok : Bool) : Svr.DB3.Req → Bool
  | .evaluate _ => o.isSome && ok
  | _ => false

def seen3 (a : Bytes) (db : Svr.DB3.DB) (path : Bytes → Bool) (t : Act3) (r : Svr.DB3.Resp) : Seen3 :=
  let l := fill3 a (fun _ => []) t
  ⟨r, uses (Svr.DB3.look db l.id) (path l.id) l.req⟩

inductive Held3 where
  | own (k : Nat)
  | other (key : Bytes)

def Held3.key (v : Nat → Bytes) : Held3 → Bytes
  | .own k => v k
  | .other k => k

/-- The key in the account after one more act: a Create that was answered OK puts its own there. -/
def put (a : Bytes) (h : Option Held3) (x : Act3 × Seen3) : Option Held3 :=
  match x.1, x.2.resp with
  | .create k _ _, .create .ok _ => some (.own k)
  | .other ⟨id, .create _ _, key⟩, .create .ok _ => if id = a then some (.other key) else h
  | _, _ => h

def held3 (a : Bytes) (h : Option Held3) (o : List (Act3 × Seen3)) : Option Held3 := o.foldl (put a) h

/-- The keys give the same products. -/
def Even3 (P3 : Prims3) (a : Bytes) (v v' : Nat → Bytes) (h : Option Held3) (t : Act3) (s : Seen3) : Prop :=
  match t with
  | .create k _ b => P3.mul (v k) b = P3.mul (v' k) b
  | .other ⟨id, .evaluate b, _⟩ => id = a → s.used = true → ∀ x, h = some x → P3.mul (x.key v) b = P3.mul (x.key v') b
  | _ => True

structure Alike3 (P3 : Prims3) (a : Bytes) (v v' : Nat → Bytes) (h : Option Held3) (db db' : Svr.DB3.DB) : Prop where
  inv : Svr.DB3.Inv P3 db
  inv' : Svr.DB3.Inv P3 db'
  others : ∀ id, id ≠ a → Svr.DB3.look db id = Svr.DB3.look db' id
  account : Svr.DB3.look db a = none ∧ Svr.DB3.look db' a = none ∨ ∃ x n, h = some x ∧ Svr.DB3.look db a = some ⟨x.key v, n⟩ ∧
    Svr.DB3.look db' a = some ⟨x.key v', n⟩

theorem run_valid3 {path : Bytes → Bool} {db db' : Svr.DB3.DB} {l : Svr.DB3.Log} {r : Svr.DB3.Resp} (h : Svr.DB3.run P3 path db l = .ok (db', r)) :
    Svr.DB3.validate l = none := by
  unfold Svr.DB3.run at h
  obtain ⟨_, h1, _⟩ := Out.bind_eq_ok.mp h
  cases hv : Svr.DB3.validate l with
  | none => rfl
  | some e => rw [hv] at h1; simp [Out.check] at h1

theorem fill_valid3 {v v' : Nat → Bytes} (hs' : ∀ k, (v' k).length = 32) {t : Act3} (h : Svr.DB3.validate (fill3 a v t) = none) :
    Svr.DB3.validate (fill3 a v' t) = none := by
  rw [Svr.DB3.validate_iff] at h ⊢
  cases t with
  | create k n b =>
    obtain ⟨h1, h2, h3, h4, _⟩ := h
    exact ⟨h1, h2, h3, h4, hs' k⟩
  | other l => exact h

theorem even_step3 {v v' : Nat → Bytes} {h : Option Held3} {ok : Bool} {t : Act3} {o o' : Option Acct} (hid : (fill3 a v t).id = a)
    (ho : o = none ∧ o' = none ∨ ∃ x n, h = some x ∧ o = some ⟨x.key v, n⟩ ∧ o' = some ⟨x.key v', n⟩) {s : Seen3}
    (hs : s.resp = (pstep3 P3.mul ok o (fill3 a v t)).2) (hu : s.used = uses o ok (fill3 a v t).req) (he : Even3 P3 a v v' h t s) :
    (pstep3 P3.mul ok o' (fill3 a v' t)).2 = (pstep3 P3.mul ok o (fill3 a v t)).2 ∧
      ((pstep3 P3.mul ok o (fill3 a v t)).1 = none ∧ (pstep3 P3.mul ok o' (fill3 a v' t)).1 = none ∨
        ∃ x n, put a h (t, s) = some x ∧ (pstep3 P3.mul ok o (fill3 a v t)).1 = some ⟨x.key v, n⟩ ∧
          (pstep3 P3.mul ok o' (fill3 a v' t)).1 = some ⟨x.key v', n⟩) := by
  have new : ∀ (z : Option Acct) (n : UInt32) (b key : Bytes), pstep3 P3.mul ok z ⟨a, .create n b, key⟩ = match P3.mul key b with
      | none => (z, .create .error [])
      | some e => (some ⟨key, n.toNat⟩, .create .ok e) := by
    intro z n b key; cases z <;> rfl
  cases t with
  | create k n b =>
    have he : P3.mul (v k) b = P3.mul (v' k) b := he
    simp only [fill3, new] at hs ⊢
    rw [← he]
    cases hm : P3.mul (v k) b with
    | none =>
      rw [hm] at hs
      refine ⟨rfl, ?_⟩
      have : put a h (.create k n b, s) = h := by simp only [put, hs]
      rw [this]
      exact ho
    | some e =>
      rw [hm] at hs
      refine ⟨rfl, .inr ⟨.own k, n.toNat, ?_, rfl, rfl⟩⟩
      simp only [put, hs]
  | other l =>
    obtain ⟨id, req, key⟩ := l
    have hid' : id = a := hid
    subst hid'
    cases req with
    | create n b =>
      simp only [fill3, new] at hs ⊢
      cases hm : P3.mul key b with
      | none =>
        rw [hm] at hs
        refine ⟨rfl, ?_⟩
        have : put id h (.other ⟨id, .create n b, key⟩, s) = h := by simp only [put, hs]
        rw [this]
        exact ho
      | some e =>
        rw [hm] at hs
        refine ⟨rfl, .inr ⟨.other key, n.toNat, ?_, rfl, rfl⟩⟩
        simp only [put, hs, if_true]
    | remove =>
      rcases ho with ⟨rfl, rfl⟩ | ⟨x, n, rfl, rfl, rfl⟩ <;> exact ⟨rfl, .inl ⟨rfl, rfl⟩⟩
    | query =>
      rcases ho with ⟨rfl, rfl⟩ | ⟨x, n, rfl, rfl, rfl⟩
      · exact ⟨rfl, .inl ⟨rfl, rfl⟩⟩
      · exact ⟨rfl, .inr ⟨x, n, rfl, rfl, rfl⟩⟩
    | unset =>
      rcases ho with ⟨rfl, rfl⟩ | ⟨x, n, rfl, rfl, rfl⟩
      · exact ⟨rfl, .inl ⟨rfl, rfl⟩⟩
      · exact ⟨rfl, .inr ⟨x, n, rfl, rfl, rfl⟩⟩
    | evaluate b =>
      rcases ho with ⟨rfl, rfl⟩ | ⟨x, n, rfl, rfl, rfl⟩
      · exact ⟨rfl, .inl ⟨rfl, rfl⟩⟩
      · cases ok with
        | false => exact ⟨rfl, .inr ⟨x, n, rfl, rfl, rfl⟩⟩
        | true =>
          have he : P3.mul (x.key v) b = P3.mul (x.key v') b := he rfl hu x rfl
          simp only [fill3, pstep3, astep, Bool.true_eq_false, if_false]
          rw [← he]
          have hput : put id (some x) (.other ⟨id, .evaluate b, key⟩, s) = some x := rfl
          cases P3.mul (x.key v) b with
          | none => exact ⟨rfl, .inr ⟨x, n, hput, rfl, rfl⟩⟩
          | some e =>
            simp only
            by_cases hn : n ≤ 1
            · rw [if_pos hn, if_pos hn]
              exact ⟨rfl, .inl ⟨rfl, rfl⟩⟩
            · rw [if_neg hn, if_neg hn]
              exact ⟨rfl, .inr ⟨x, n - 1, hput, rfl, rfl⟩⟩

theorem fill_id3 (v v' : Nat → Bytes) (t : Act3) : (fill3 a v t).id = (fill3 a v' t).id := by cases t <;> rfl

theorem uses_fill {v v' : Nat → Bytes} {ok : Bool} {o o' : Option Acct} {t : Act3} (h : o.isSome = o'.isSome) :
    uses o' ok (fill3 a v' t).req = uses o ok (fill3 a v t).req := by
  cases t with
  | create k n b => rfl
  | other l =>
    obtain ⟨id, req, key⟩ := l
    cases req <;> simp [fill3, uses, h]

theorem alike_step3 {v v' : Nat → Bytes} (hs' : ∀ k, (v' k).length = 32) {h : Option Held3} {db db' db1 : Svr.DB3.DB} {path : Bytes → Bool}
    {t : Act3} {r : Svr.DB3.Resp} (hR : Alike3 P3 a v v' h db db') (hrun : Svr.DB3.run P3 path db (fill3 a v t) = .ok (db1, r))
    (hE : Even3 P3 a v v' h t (seen3 a db path t r)) :
    ∃ db1' r', Svr.DB3.run P3 path db' (fill3 a v' t) = .ok (db1', r') ∧ seen3 a db' path t r' = seen3 a db path t r ∧
      Alike3 P3 a v v' (put a h (t, seen3 a db path t r)) db1 db1' := by
  have hval := run_valid3 hrun
  have hval' := fill_valid3 (a := a) hs' hval
  obtain ⟨e1, k1, k2, k4, k5⟩ := view3 (path := path) hR.inv hval
  obtain ⟨e1', k1', k2', k4', k5'⟩ := view3 (path := path) hR.inv' hval'
  rw [hrun] at k1
  have hdb : db1 = e1 ∧ r = (pstep3 P3.mul (path (fill3 a v t).id) (Svr.DB3.look db (fill3 a v t).id) (fill3 a v t)).2 := by
    injection k1 with k1
    exact ⟨congrArg Prod.fst k1, congrArg Prod.snd k1⟩
  obtain ⟨rfl, hr⟩ := hdb
  refine ⟨e1', _, k1', ?_⟩
  have hsome : ∀ id, (Svr.DB3.look db id).isSome = (Svr.DB3.look db' id).isSome := by
    intro id
    by_cases hc : id = a
    · subst hc
      rcases hR.account with ⟨h1, h2⟩ | ⟨x, n, _, h1, h2⟩ <;> rw [h1, h2] <;> rfl
    · rw [hR.others id hc]
  by_cases hc : (fill3 a v t).id = a
  · have hc' : (fill3 a v' t).id = a := (fill_id3 (a := a) _ _ _).trans hc
    have hc0 : (fill3 a (fun _ => []) t).id = a := (fill_id3 (a := a) _ _ _).trans hc
    rw [hc'] at k4' k5' ⊢
    rw [hc] at hr k4 k5
    have hstep := even_step3 (P3 := P3) (ok := path a) hc hR.account (s := seen3 a db path t r) hr (by
      simp only [seen3, hc0]
      exact uses_fill rfl) hE
    refine ⟨?_, k2, k2', ?_, ?_⟩
    · rw [hstep.1, ← hr]
      simp only [seen3, hc0]
      congr 1
      exact uses_fill (v := fun _ => []) (v' := fun _ => []) (hsome a)
    · intro id hne
      rw [k5 id hne, k5' id hne]
      exact hR.others id hne
    · rw [k4, k4']
      exact hstep.2
  · have hl : ∃ l, t = .other l := by
      cases t with
      | other l => exact ⟨l, rfl⟩
      | _ => exact absurd rfl hc
    obtain ⟨l, rfl⟩ := hl
    have hc : l.id ≠ a := hc
    simp only [fill3] at hr k4 k5 k4' k5' ⊢
    have hlook := hR.others l.id hc
    rw [hlook] at hr k4
    refine ⟨?_, k2, k2', ?_, ?_⟩
    · rw [← hr]
      simp only [seen3, fill3, hlook]
    · intro id hne
      by_cases hl : id = l.id
      · rw [hl, k4, k4']
      · rw [k5 id hl, k5' id hl]
        exact hR.others id hne
    · have hput : put a h (.other l, seen3 a db path (.other l) r) = h := by
        obtain ⟨id, req, key⟩ := l
        simp only [put]
        split
        · rename_i heq _; cases heq
        · rename_i heq _
          cases heq
          exact if_neg hc
        · rfl
      rw [hput, k5 a (Ne.symm hc), k5' a (Ne.symm hc)]
      exact hR.account

/-- The game over SVR3. -/
abbrev play3 (P3 : Prims3) (a : Bytes) := play (Svr.DB3.run P3) (fill3 a) (seen3 a)

/-- C84 for SVR3. Keys that give the same products where they were used are told apart by nothing anyone sees. -/
theorem C84_svr3 {v v' : Nat → Bytes} (hs' : ∀ k, (v' k).length = 32) {h : Option Held3} {db db' db2 : Svr.DB3.DB} (hR : Alike3 P3 a v v' h db db')
    {σ : Plan Act3 Seen3} {m : Nat} {o : List (Act3 × Seen3)} (hp : play3 P3 a σ v m db [] = .ok (db2, o))
    (hE : ∀ p t s q, o = p ++ (t, s) :: q → Even3 P3 a v v' (held3 a h p) t s) :
    ∃ db2', play3 P3 a σ v' m db' [] = .ok (db2', o) ∧ Alike3 P3 a v v' (held3 a h o) db2 db2' := by
  refine same_view (R := fun o d d' => Alike3 P3 a v v' (held3 a h o) d d')
    (Good := fun p x => Even3 P3 a v v' (held3 a h p) x.1 x.2) ?_ hR hp ?_
  · intro o d d' t path d1 r hR hrun hg
    obtain ⟨d1', r', h1, h2, h3⟩ := alike_step3 hs' hR hrun hg
    exact ⟨d1', r', h1, h2, by simp only [held3, List.foldl_append, List.foldl]; exact h3⟩
  · rintro p ⟨t, s⟩ q e _
    exact hE p t s q e

/-- An element multiplied with the account's key. -/
def point (a : Bytes) : Act3 × Seen3 → Option Bytes
  | (.other ⟨id, .evaluate b, _⟩, ⟨.evaluate .ok _ _, true⟩) => if id = a then some b else none
  | _ => none

/-- An element refused with the account's key in hand. -/
def bad (a : Bytes) : Act3 × Seen3 → Option Bytes
  | (.other ⟨id, .evaluate b, _⟩, ⟨.evaluate .error _ _, true⟩) => if id = a then some b else none
  | _ => none

/-- Not a Create of the account. -/
def Keeps3 (a : Bytes) : Act3 → Prop
  | .create _ _ _ => False
  | .other ⟨id, .create _ _, _⟩ => id ≠ a
  | _ => True

def leftOf3 : Option Acct → Nat
  | none => 0
  | some x => x.left

theorem held3_keeps {h : Option Held3} : ∀ {o : List (Act3 × Seen3)}, (∀ x ∈ o, Keeps3 a x.1) → held3 a h o = h
  | [], _ => rfl
  | (t, s) :: o, hk => by
    have h1 := hk _ List.mem_cons_self
    have ih := held3_keeps (h := h) fun x hx => hk x (List.mem_cons_of_mem _ hx)
    have hput : put a h (t, s) = h := by
      cases t with
      | create k n b => exact h1.elim
      | other l =>
        obtain ⟨id, req, key⟩ := l
        cases req with
        | create n b =>
          have h1 : id ≠ a := h1
          simp only [put]
          split
          · rename_i heq _; cases heq
          · rename_i heq _
            cases heq
            exact if_neg h1
          · rfl
        | _ => rfl
    show held3 a (put a h (t, s)) o = h
    rw [hput]
    exact ih

theorem point_step {k : Bytes} {ok : Bool} {t : Act3} {o : Option Acct} {s : Seen3} (hid : (fill3 a (fun _ => k) t).id = a) (hk : Keeps3 a t)
    (ho : ∀ x, o = some x → x.key = k ∧ 1 ≤ x.left) (hs : s.resp = (pstep3 P3.mul ok o (fill3 a (fun _ => k) t)).2) :
    (∀ x, (pstep3 P3.mul ok o (fill3 a (fun _ => k) t)).1 = some x → x.key = k ∧ 1 ≤ x.left) ∧
      ([(t, s)].filterMap (point a)).length + leftOf3 (pstep3 P3.mul ok o (fill3 a (fun _ => k) t)).1 ≤ leftOf3 o := by
  have none_of : point a (t, s) = none → ([(t, s)].filterMap (point a)).length = 0 := by intro h; simp [h]
  have le_one : ([(t, s)].filterMap (point a)).length ≤ 1 := List.length_filterMap_le _ _
  cases t with
  | create j n b => exact hk.elim
  | other l =>
    obtain ⟨id, req, key⟩ := l
    have hid' : id = a := hid
    cases req with
    | create n b => exact absurd hid' hk
    | remove =>
      rw [none_of rfl]
      have e : (pstep3 P3.mul ok o ⟨id, .remove, key⟩).1 = none := by cases o <;> rfl
      simp only [fill3, e]
      exact ⟨fun x h => (nomatch h), Nat.zero_le _⟩
    | unset =>
      rw [none_of rfl]
      have e : (pstep3 P3.mul ok o ⟨id, .unset, key⟩).1 = o := by cases o <;> rfl
      simp only [fill3, e]
      exact ⟨ho, by simp⟩
    | query =>
      rw [none_of rfl]
      have e : (pstep3 P3.mul ok o ⟨id, .query, key⟩).1 = o := by cases o <;> rfl
      simp only [fill3, e]
      exact ⟨ho, by simp⟩
    | evaluate b =>
      have same : (pstep3 P3.mul ok o ⟨id, .evaluate b, key⟩).1 = o → (∀ e n, s.resp ≠ .evaluate .ok e n) →
          (∀ x, (pstep3 P3.mul ok o ⟨id, .evaluate b, key⟩).1 = some x → x.key = k ∧ 1 ≤ x.left) ∧
          ([(Act3.other ⟨id, .evaluate b, key⟩, s)].filterMap (point a)).length + leftOf3 (pstep3 P3.mul ok o ⟨id, .evaluate b, key⟩).1 ≤ leftOf3 o := by
        intro h1 h2
        have hp : point a (.other ⟨id, .evaluate b, key⟩, s) = none := by
          obtain ⟨r, u⟩ := s
          unfold point
          split
          · rename_i heq
            cases heq
            exact absurd rfl (h2 _ _)
          · rfl
        rw [none_of hp, h1]
        exact ⟨ho, by simp⟩
      cases o with
      | none => exact same rfl (by intro e n h; rw [hs] at h; cases h)
      | some y =>
        obtain ⟨h1, h3⟩ := ho y rfl
        cases ok with
        | false => exact same rfl (by intro e n h; rw [hs] at h; cases h)
        | true =>
          cases hm : P3.mul y.key b with
          | none =>
            have e1 : pstep3 P3.mul true (some y) ⟨id, .evaluate b, key⟩ = (some y, .evaluate .error [] 0) := by
              simp [pstep3, astep, hm]
            exact same (by rw [e1]) (by intro e n h; rw [hs] at h; simp only [fill3, e1] at h; cases h)
          | some e =>
            by_cases hn : y.left ≤ 1
            · have e1 : pstep3 P3.mul true (some y) ⟨id, .evaluate b, key⟩ = (none, .evaluate .ok e 0) := by
                simp [pstep3, astep, hm, hn]
              simp only [fill3, e1, leftOf3]
              exact ⟨fun x h => (nomatch h), by omega⟩
            · have e1 : pstep3 P3.mul true (some y) ⟨id, .evaluate b, key⟩ = (some ⟨y.key, y.left - 1⟩, .evaluate .ok e (y.left - 1)) := by
                simp [pstep3, astep, hm, hn]
              simp only [fill3, e1, leftOf3]
              exact ⟨fun x h => by cases h; exact ⟨h1, by show 1 ≤ y.left - 1; omega⟩, by omega⟩

theorem points_left {k : Bytes} {σ : Plan Act3 Seen3} : ∀ {m : Nat} {db db2 : Svr.DB3.DB} {o o2 : List (Act3 × Seen3)}, Svr.DB3.Inv P3 db →
    (∀ x, Svr.DB3.look db a = some x → x.key = k ∧ 1 ≤ x.left) → play3 P3 a σ (fun _ => k) m db o = .ok (db2, o2) →
    (∀ x ∈ o2, Keeps3 a x.1) → ∃ q, o2 = o ++ q ∧ (q.filterMap (point a)).length ≤ leftOf3 (Svr.DB3.look db a)
  | 0, db, db2, o, o2, _, _, h, _ => by cases h; exact ⟨[], by simp, Nat.zero_le _⟩
  | m + 1, db, db2, o, o2, hi, ho, h, hk => by
    obtain ⟨⟨db1, r⟩, h1, h⟩ := Out.bind_eq_ok.mp h
    obtain ⟨q', hq'⟩ := play_grows h
    have hval := run_valid3 h1
    obtain ⟨e1, k1, k2, k4, k5⟩ := view3 (path := (σ o).2) hi hval
    rw [h1] at k1
    have hdb : db1 = e1 ∧ r = (pstep3 P3.mul ((σ o).2 (fill3 a (fun _ => k) (σ o).1).id) (Svr.DB3.look db (fill3 a (fun _ => k) (σ o).1).id)
        (fill3 a (fun _ => k) (σ o).1)).2 := by
      injection k1 with k1
      exact ⟨congrArg Prod.fst k1, congrArg Prod.snd k1⟩
    obtain ⟨rfl, hr⟩ := hdb
    have hx : ((σ o).1, seen3 a db (σ o).2 (σ o).1 r) ∈ o2 := by rw [hq']; simp
    have hstep : (∀ x, Svr.DB3.look db1 a = some x → x.key = k ∧ 1 ≤ x.left) ∧
        ([((σ o).1, seen3 a db (σ o).2 (σ o).1 r)].filterMap (point a)).length + leftOf3 (Svr.DB3.look db1 a) ≤ leftOf3 (Svr.DB3.look db a) := by
      by_cases hc : (fill3 a (fun _ => k) (σ o).1).id = a
      · rw [hc] at k4 hr
        rw [k4]
        exact point_step hc (hk _ hx) ho hr
      · have hg : point a ((σ o).1, seen3 a db (σ o).2 (σ o).1 r) = none := by
          unfold point
          split
          · rename_i heq
            rw [Prod.mk.injEq] at heq
            rw [heq.1] at hc
            exact if_neg hc
          · rfl
        rw [k5 a (Ne.symm hc)]
        exact ⟨ho, by simp [hg]⟩
    obtain ⟨q, hq, hl⟩ := points_left k2 hstep.1 h hk
    refine ⟨_ :: q, by rw [hq]; simp; rfl, ?_⟩
    have e : ∀ y : Act3 × Seen3, ((y :: q).filterMap (point a)).length = ([y].filterMap (point a)).length + (q.filterMap (point a)).length := by
      intro y
      rw [← List.length_append, ← List.filterMap_append]; rfl
    rw [e]
    have := hstep.2
    omega

theorem point_told {k b : Bytes} {ok : Bool} {id key : Bytes} {o : Option Acct} {s : Seen3} (hid : id = a) (ho : ∀ x, o = some x → x.key = k ∧ 1 ≤ x.left)
    (hs : s.resp = (pstep3 P3.mul ok o ⟨id, .evaluate b, key⟩).2) (hu : s.used = uses o ok (.evaluate b)) (ht : s.used = true) :
    point a (.other ⟨id, .evaluate b, key⟩, s) = some b ∨ bad a (.other ⟨id, .evaluate b, key⟩, s) = some b ∧ P3.mul k b = none := by
  obtain ⟨r, u⟩ := s
  simp only at hs hu ht
  subst ht
  cases o with
  | none => simp [uses] at hu
  | some y =>
    cases ok with
    | false => simp [uses] at hu
    | true =>
      have hy := (ho y rfl).1
      cases hm : P3.mul y.key b with
      | none =>
        have e1 : pstep3 P3.mul true (some y) ⟨id, .evaluate b, key⟩ = (some y, .evaluate .error [] 0) := by
          simp [pstep3, astep, hm]
        rw [e1] at hs
        subst hs
        exact .inr ⟨if_pos hid, hy ▸ hm⟩
      | some e =>
        have e1 : ∃ n, (pstep3 P3.mul true (some y) ⟨id, .evaluate b, key⟩).2 = .evaluate .ok e n := by
          by_cases hn : y.left ≤ 1 <;> simp [pstep3, astep, hm, hn]
        obtain ⟨n, e1⟩ := e1
        rw [e1] at hs
        subst hs
        exact .inl (if_pos hid)

theorem points_told {k : Bytes} {σ : Plan Act3 Seen3} : ∀ {m : Nat} {db db2 : Svr.DB3.DB} {o o2 : List (Act3 × Seen3)}, Svr.DB3.Inv P3 db →
    (∀ x, Svr.DB3.look db a = some x → x.key = k ∧ 1 ≤ x.left) → play3 P3 a σ (fun _ => k) m db o = .ok (db2, o2) →
    (∀ x ∈ o2, Keeps3 a x.1) → ∃ q, o2 = o ++ q ∧ ∀ id b key s, (Act3.other ⟨id, .evaluate b, key⟩, s) ∈ q → id = a → s.used = true →
      point a (.other ⟨id, .evaluate b, key⟩, s) = some b ∨ bad a (.other ⟨id, .evaluate b, key⟩, s) = some b ∧ P3.mul k b = none
  | 0, db, db2, o, o2, _, _, h, _ => by cases h; exact ⟨[], by simp, by simp⟩
  | m + 1, db, db2, o, o2, hi, ho, h, hk => by
    obtain ⟨⟨db1, r⟩, h1, h⟩ := Out.bind_eq_ok.mp h
    obtain ⟨q', hq'⟩ := play_grows h
    have hval := run_valid3 h1
    obtain ⟨e1, k1, k2, k4, k5⟩ := view3 (path := (σ o).2) hi hval
    rw [h1] at k1
    have hdb : db1 = e1 ∧ r = (pstep3 P3.mul ((σ o).2 (fill3 a (fun _ => k) (σ o).1).id) (Svr.DB3.look db (fill3 a (fun _ => k) (σ o).1).id)
        (fill3 a (fun _ => k) (σ o).1)).2 := by
      injection k1 with k1
      exact ⟨congrArg Prod.fst k1, congrArg Prod.snd k1⟩
    obtain ⟨rfl, hr⟩ := hdb
    have hx : ((σ o).1, seen3 a db (σ o).2 (σ o).1 r) ∈ o2 := by rw [hq']; simp
    have hstep : ∀ x, Svr.DB3.look db1 a = some x → x.key = k ∧ 1 ≤ x.left := by
      by_cases hc : (fill3 a (fun _ => k) (σ o).1).id = a
      · rw [hc] at k4
        rw [hc] at hr
        rw [k4]
        exact (point_step (s := seen3 a db (σ o).2 (σ o).1 r) hc (hk _ hx) ho hr).1
      · rw [k5 a (Ne.symm hc)]
        exact ho
    obtain ⟨q, hq, hl⟩ := points_told k2 hstep h hk
    refine ⟨((σ o).1, seen3 a db (σ o).2 (σ o).1 r) :: q, by rw [hq]; simp, ?_⟩
    intro id b key s hmem hid ht
    rcases List.mem_cons.mp hmem with heq | hmem
    · rw [Prod.mk.injEq] at heq
      obtain ⟨e1, e2⟩ := heq
      rw [← e1] at hr
      simp only [fill3] at hr
      refine point_told (ok := (σ o).2 id) (o := Svr.DB3.look db id) hid (by rw [hid]; exact ho) (by rw [e2]; exact hr) ?_ ht
      rw [e2, ← e1]
      rfl
    · exact hl id b key s hmem hid ht

/-- C84 for SVR3. `mul` is any function, so this says that nothing depends on the key but through these products. A Create with `n` evaluations succeeds for the key `k`, and the account sees no further Create. Then at most `n` elements are multiplied
with `k`, and every key that multiplies those and the Create's alike, and refuses what `k` refused, would have led to the very same sight. -/
theorem C84_svr3_points {db0 db1 db2 : Svr.DB3.DB} (hi : Svr.DB3.Inv P3 db0) {k b e : Bytes} {n : UInt32} {path0 : Bytes → Bool}
    (h0 : Svr.DB3.run P3 path0 db0 ⟨a, .create n b, k⟩ = .ok (db1, .create .ok e)) {σ : Plan Act3 Seen3} {m : Nat} {o : List (Act3 × Seen3)}
    (h : play3 P3 a σ (fun _ => k) m db1 [] = .ok (db2, o)) (hk : ∀ x ∈ o, Keeps3 a x.1) :
    (o.filterMap (point a)).length ≤ n.toNat ∧
      ∀ k' : Bytes, k'.length = 32 → (∀ x ∈ b :: o.filterMap (point a), P3.mul k' x = P3.mul k x) → (∀ x ∈ o.filterMap (bad a), P3.mul k' x = none) →
        ∃ db1' db2', Svr.DB3.run P3 path0 db0 ⟨a, .create n b, k'⟩ = .ok (db1', .create .ok e) ∧
          play3 P3 a σ (fun _ => k') m db1' [] = .ok (db2', o) := by
  have hval := run_valid3 h0
  obtain ⟨e1, k1, k2, k4, k5⟩ := view3 (path := path0) hi hval
  have new : ∀ (z : Option Acct) (key : Bytes), pstep3 P3.mul (path0 a) z ⟨a, .create n b, key⟩ = match P3.mul key b with
      | none => (z, .create .error [])
      | some e => (some ⟨key, n.toNat⟩, .create .ok e) := by
    intro z key; cases z <;> rfl
  rw [h0] at k1
  injection k1 with k1
  obtain rfl : db1 = e1 := congrArg Prod.fst k1
  have k1 : Svr.DB3.Resp.create .ok e = (pstep3 P3.mul (path0 a) (Svr.DB3.look db0 a) ⟨a, .create n b, k⟩).2 := congrArg Prod.snd k1
  have k4 : Svr.DB3.look db1 a = (pstep3 P3.mul (path0 a) (Svr.DB3.look db0 a) ⟨a, .create n b, k⟩).1 := k4
  rw [new] at k1 k4
  cases hm : P3.mul k b with
  | none => rw [hm] at k1; cases k1
  | some e' =>
    rw [hm] at k1 k4
    obtain rfl : e = e' := by cases k1; rfl
    have k4 : Svr.DB3.look db1 a = some ⟨k, n.toNat⟩ := k4
    have hn : 1 ≤ n.toNat := ((Svr.DB3.validate_iff _).mp hval).2.1
    have ho : ∀ x, Svr.DB3.look db1 a = some x → x.key = k ∧ 1 ≤ x.left := fun x hx => by rw [k4] at hx; cases hx; exact ⟨rfl, hn⟩
    constructor
    · obtain ⟨q, hq, hl⟩ := points_left (a := a) k2 ho h hk
      rw [k4] at hl
      rw [hq]
      exact hl
    · intro k' hk' hpts hbad
      obtain ⟨q, hq, told⟩ := points_told (a := a) k2 ho h hk
      have hs' : ∀ j : Nat, ((fun _ => k') j : Bytes).length = 32 := fun _ => hk'
      have hval' : Svr.DB3.validate ⟨a, .create n b, k'⟩ = none := fill_valid3 (a := a) (v := fun _ => k) (t := .create 0 n b) hs' hval
      obtain ⟨e1', k1', k2', k4', k5'⟩ := view3 (path := path0) hi hval'
      have hm' : P3.mul k' b = some e := (hpts b List.mem_cons_self).trans hm
      have new' := new (Svr.DB3.look db0 a) k'
      rw [hm'] at new'
      have k4' : Svr.DB3.look e1' a = some ⟨k', n.toNat⟩ := k4'.trans (congrArg Prod.fst new')
      have hR : Alike3 P3 a (fun _ => k) (fun _ => k') (some (.own 0)) db1 e1' :=
        ⟨k2, k2', fun id hne => by rw [k5 id hne, k5' id hne], .inr ⟨.own 0, n.toNat, rfl, k4, k4'⟩⟩
      obtain ⟨db2', hp, _⟩ := C84_svr3 hs' hR h (by
        intro pre t s q2 he
        have hmem : (t, s) ∈ o := by rw [he]; simp
        have hkeep := hk _ hmem
        rw [held3_keeps fun x hx => hk x (by rw [he]; exact List.mem_append_left _ hx)]
        cases t with
        | create j n b => exact hkeep.elim
        | other l =>
          obtain ⟨id, req, key⟩ := l
          cases req with
          | evaluate y =>
            intro hid hu x hx
            cases hx
            rw [hq] at hmem
            rcases told id y key s hmem hid hu with ht | ⟨ht, ht2⟩
            · exact (hpts y (List.mem_cons_of_mem _ (List.mem_filterMap.mpr ⟨_, by rw [hq]; exact hmem, ht⟩))).symm
            · show P3.mul k y = P3.mul k' y
              rw [ht2, hbad y (List.mem_filterMap.mpr ⟨_, by rw [hq]; exact hmem, ht⟩)]
          | _ => trivial)
      exact ⟨e1', db2', k1'.trans (congrArg (fun z => Out.ok (e1', z)) (congrArg Prod.snd new')), hp⟩

end

/-! ## Non-vacuity -/

section
open DB2 (ida idb sec pinA pinX)

/-- The owner exposes; others guess while the check fails, then guess again; the owner restores; others show something, and then write to another
account. If the owner's Restore had not gone well, they would have deleted the account. -/
def plan2 : Plan Act Seen := fun o =>
  match o.length with
  | 0 => (.expose 0, fun _ => true)
  | 1 => (.other ⟨ida, .restore pinX⟩, fun _ => false)
  | 2 => (.other ⟨ida, .restore pinX⟩, fun _ => true)
  | 3 => (.restore 5, fun _ => true)
  | 4 => (.other ⟨ida, .expose pinX⟩, fun _ => true)
  | _ => match (o[3]?).map (fun x : Act × Seen => x.2.resp) with
    | some (Svr.DB2.Resp.restore .ok _ _) => (.other ⟨idb, .backup pinX pinA 3⟩, fun _ => true)
    | _ => (.other ⟨ida, .delete⟩, fun _ => true)

def first2 : Svr.DB2.DB := match Svr.DB2.run DB2.P0 (fun _ => true) Svr.DB2.empty ⟨ida, .backup sec pinA 2⟩ with
  | .ok (d, _) => d
  | _ => Svr.DB2.empty

def sight2 (d p : Bytes) (db : Svr.DB2.DB) : List (Act × Seen) := match play2 DB2.P0 ida plan2 (one d p) 6 db [] with
  | .ok (_, o) => o
  | _ => []

set_option maxRecDepth 100000 in
/-- The hypotheses of `C84_svr2_guesses`, with one guess compared. -/
example : Svr.DB2.Inv DB2.P0 Svr.DB2.empty ∧ Svr.DB2.Backed Svr.DB2.empty ∧
    Svr.DB2.run DB2.P0 (fun _ => true) Svr.DB2.empty ⟨ida, .backup sec pinA 2⟩ = .ok (first2, .backup) ∧
    (∃ db2, play2 DB2.P0 ida plan2 (one sec pinA) 6 first2 [] = .ok (db2, sight2 sec pinA first2)) ∧
    (∀ x ∈ sight2 sec pinA first2, Keeps ida x.1) ∧ (sight2 sec pinA first2).filterMap (guess ida) = [pinX] ∧
    (∀ x ∈ sight2 sec pinA first2, ∀ g, guess ida x = some g → g ≠ pinA) ∧ (∀ x ∈ sight2 sec pinA first2, ∀ y, shown ida x = some y → ¬ sec <+: y) ∧
    (sight2 sec pinA first2).map (·.2.resp) =
      [Svr.DB2.Resp.expose true, .restore .error [] 0, .restore .pinMismatch [] 1, .restore .ok [] 1, .expose false, .backup] := by
  have h : ∃ db2, play2 DB2.P0 ida plan2 (one sec pinA) 6 first2 [] = .ok (db2, sight2 sec pinA first2) := by
    refine ⟨match play2 DB2.P0 ida plan2 (one sec pinA) 6 first2 [] with | .ok (d, _) => d | _ => Svr.DB2.empty, ?_⟩
    rfl
  refine ⟨Svr.DB2.inv_empty _, Svr.DB2.backed_empty, rfl, h, ?_, rfl, ?_, ?_, rfl⟩
  · have e : (sight2 sec pinA first2).map (·.1) = [Act.expose 0, .other ⟨ida, .restore pinX⟩, .other ⟨ida, .restore pinX⟩, .restore 5,
        .other ⟨ida, .expose pinX⟩, .other ⟨idb, .backup pinX pinA 3⟩] := rfl
    intro x hx
    have := List.mem_map_of_mem (f := (·.1)) hx
    rw [e] at this
    simp only [List.mem_cons, List.not_mem_nil, or_false] at this
    rcases this with h | h | h | h | h | h <;> rw [h] <;> simp [Keeps, ida, idb]
  · intro x hx g hg
    have : g ∈ (sight2 sec pinA first2).filterMap (guess ida) := List.mem_filterMap.mpr ⟨x, hx, hg⟩
    rw [show (sight2 sec pinA first2).filterMap (guess ida) = [pinX] from rfl, List.mem_singleton] at this
    rw [this]
    decide
  · intro x hx g hg
    have : g ∈ (sight2 sec pinA first2).filterMap (shown ida) := List.mem_filterMap.mpr ⟨x, hx, hg⟩
    rw [show (sight2 sec pinA first2).filterMap (shown ida) = [pinX] from rfl, List.mem_singleton] at this
    rw [this]
    decide

set_option maxRecDepth 100000 in
/-- Another PIN that was not tried, and another secret, for the conclusion; and the PIN that was tried is told apart. -/
example : (List.replicate 32 8 : Bytes) ∉ (sight2 sec pinA first2).filterMap (guess ida) ∧
    (∀ y ∈ (sight2 sec pinA first2).filterMap (shown ida), ¬ (List.replicate 30 8 : Bytes) <+: y) := by
  rw [show (sight2 sec pinA first2).filterMap (guess ida) = [pinX] from rfl, show (sight2 sec pinA first2).filterMap (shown ida) = [pinX] from rfl]
  decide

def other2 : Svr.DB2.DB := match Svr.DB2.run DB2.P0 (fun _ => true) Svr.DB2.empty ⟨ida, .backup sec pinX 2⟩ with
  | .ok (d, _) => d
  | _ => Svr.DB2.empty

set_option maxRecDepth 100000 in
example : (sight2 sec pinX other2).map (·.2.resp) ≠ (sight2 sec pinA first2).map (·.2.resp) := by decide +kernel

/-- A multiplication that loses the last byte of the key. -/
def P3 : Svr.DB3.Prims3 := { DB3.P0 with mul := fun k e => if e = DB3.bad then none else some (List.zipWith (· ^^^ ·) (k.take 31 ++ [0]) e) }

/-- Two evaluations, a bad element, a failing check, a Create elsewhere. -/
def plan3 : Plan Act3 Seen3 := fun o =>
  match o.length with
  | 0 => (.other ⟨ida, .evaluate DB3.elt, []⟩, fun _ => true)
  | 1 => (.other ⟨ida, .evaluate DB3.bad, []⟩, fun _ => true)
  | 2 => (.other ⟨ida, .evaluate DB3.key, []⟩, fun _ => false)
  | 3 => (.other ⟨idb, .create 4 DB3.elt, DB3.key⟩, fun _ => true)
  | 4 => (.other ⟨ida, .query, []⟩, fun _ => true)
  | _ => (.other ⟨ida, .evaluate DB3.key, []⟩, fun _ => true)

def first3 : Svr.DB3.DB := match Svr.DB3.run P3 (fun _ => true) Svr.DB3.empty ⟨ida, .create 3 DB3.elt, DB3.key⟩ with
  | .ok (d, _) => d
  | _ => Svr.DB3.empty

def sight3 : List (Act3 × Seen3) := match play3 P3 ida plan3 (fun _ => DB3.key) 6 first3 [] with
  | .ok (_, o) => o
  | _ => []

set_option maxRecDepth 100000 in
/-- The hypotheses of `C84_svr3_points`. -/
example : Svr.DB3.Inv P3 Svr.DB3.empty ∧
    (∃ e, Svr.DB3.run P3 (fun _ => true) Svr.DB3.empty ⟨ida, .create 3 DB3.elt, DB3.key⟩ = .ok (first3, .create .ok e)) ∧
    (∃ db2, play3 P3 ida plan3 (fun _ => DB3.key) 6 first3 [] = .ok (db2, sight3)) ∧ (∀ x ∈ sight3, Keeps3 ida x.1) ∧
    sight3.filterMap (point ida) = [DB3.elt, DB3.key] ∧ sight3.filterMap (bad ida) = [DB3.bad] ∧
    (DB3.key.take 31 ++ [77]).length = 32 ∧ (∀ x ∈ [DB3.elt, DB3.elt, DB3.key], P3.mul (DB3.key.take 31 ++ [77]) x = P3.mul DB3.key x) ∧
    ∀ x ∈ [DB3.bad], P3.mul (DB3.key.take 31 ++ [77]) x = none := by
  refine ⟨Svr.DB3.inv_empty _, ⟨_, rfl⟩, ⟨match play3 P3 ida plan3 (fun _ => DB3.key) 6 first3 [] with | .ok (d, _) => d | _ => Svr.DB3.empty, rfl⟩,
    ?_, rfl, rfl, by decide, by decide, by decide⟩
  have e : sight3.map (·.1) = [Act3.other ⟨ida, .evaluate DB3.elt, []⟩, .other ⟨ida, .evaluate DB3.bad, []⟩, .other ⟨ida, .evaluate DB3.key, []⟩,
      .other ⟨idb, .create 4 DB3.elt, DB3.key⟩, .other ⟨ida, .query, []⟩, .other ⟨ida, .evaluate DB3.key, []⟩] := rfl
  intro x hx
  have := List.mem_map_of_mem (f := (·.1)) hx
  rw [e] at this
  simp only [List.mem_cons, List.not_mem_nil, or_false] at this
  rcases this with h | h | h | h | h | h <;> rw [h] <;> simp [Keeps3, ida, idb]

end

end Svr.Props.Secret
