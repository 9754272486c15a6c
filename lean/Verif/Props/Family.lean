import Verif.Props.Order
import Verif.Props.DB3
import Verif.Props.DB4
import Verif.Props.DB5

/-!
# C82: a group of SVR3, SVR4 or SVR5 answers as one account does

What C36, C78 and C79 say of SVR2, for the other databases. An account is specified apart from the model by `Spec3.astep`, `Spec4.astep` and
`Spec5.astep`; `before` is the account after the entries before a place of the history.
-/

namespace Svr.Props.Family
open Svr Svr.Core Svr.Raft Svr.Spec Svr.Props.RaftGroup Svr.Props.Grid Svr.Props.Linear Svr.Props.Order

variable {P : Type} [LinearOrder P] {D L E V : Type} {c : Site P D L E}

/-- The voters are those of the first group, or the super majority is at least 1. -/
def Voters (g : Setting P) (W : World P) : Prop := FixedVoters g W ∨ Changing g W

/-- Account `a` before entry `i` of the history `H` (counted from 1): its own requests among the earlier entries, one after the other. -/
def before (step : Option V → L → Option V × E) (key : L → Bytes) (pr : Proto D L E) (H : List Entry) (a : Bytes) (i : Nat) : Option V :=
  (specRun step none ((logsOf pr (H.take (i - 1))).filter fun l => key l = a)).1

/-- `x` is what the account answers to entry `i`; nothing, if the entry is no request. -/
def Answered (step : Option V → L → Option V × E) (key : L → Bytes) (pr : Proto D L E) (H : List Entry) (i : Nat) (x : Option E) : Prop :=
  1 ≤ i ∧ ∃ e, H[i - 1]? = some e ∧ x = (request pr e).map fun l => (step (before step key pr H (key l) i) l).2

/-! ## Any database -/

/-- The database of `pr` is that of the simulation `M`. -/
structure Follows (pr : Proto D L E) (M : Sim D L V E) : Prop where
  inv : M.inv pr.fresh
  fresh : ∀ a, M.look pr.fresh a = none
  valid : ∀ l, pr.valid l = true → M.valid l
  run : pr.run = M.run

theorem request_valid {pr : Proto D L E} {e : Entry} {l : L} (h : request pr e = some l) : pr.valid l = true := by
  unfold request at h
  split at h
  · exact (Option.filter_eq_some_iff.mp h).2
  · cases h

theorem logs_valid {pr : Proto D L E} {M : Sim D L V E} (hf : Follows pr M) (H : List Entry) : ∀ l ∈ logsOf pr H, M.valid l := by
  intro l hl
  obtain ⟨e, _, he⟩ := List.mem_filterMap.mp hl
  exact hf.valid l (request_valid he)

theorem serial_runList {pr : Proto D L E} {d d' : D} {H : List Entry} {rs : List (Option E)} (h : Serial pr d H d' rs) :
    runList pr.run d (logsOf pr H) = .ok (d', rs.filterMap id) := by
  induction h with
  | done => rfl
  | skip d e H d' rs h _ ih => simpa [logsOf, h] using ih
  | run d e l d1 r H d' rs h hr _ ih =>
    simp only [logsOf, List.filterMap_cons, h, runList, hr, Out.bind_ok, id]
    simp only [logsOf] at ih
    rw [ih]; rfl

theorem serial_answered {pr : Proto D L E} {M : Sim D L V E} (hf : Follows pr M) {d' : D} {H : List Entry} {rs : List (Option E)}
    (h : Serial pr pr.fresh H d' rs) {i : Nat} (h1 : 1 ≤ i) {x : Option E} (hx : rs[i - 1]? = some x) : Answered M.step M.key pr H i x := by
  obtain ⟨j, rfl⟩ : ∃ j, i = j + 1 := ⟨i - 1, by omega⟩
  rw [Nat.add_sub_cancel] at hx
  have hj : j < H.length := by rw [← h.length]; exact (List.getElem?_eq_some_iff.mp hx).1
  refine ⟨h1, H[j], by rw [Nat.add_sub_cancel]; exact List.getElem?_eq_getElem hj, ?_⟩
  have hsplit : H = H.take j ++ ([H[j]] ++ H.drop (j + 1)) := by
    rw [List.singleton_append, ← List.drop_eq_getElem_cons hj, List.take_append_drop]
  rw [hsplit] at h
  obtain ⟨d1, r1, r2, h1, h2, rfl⟩ := h.split
  obtain ⟨d2, r3, r4, h3, h4, rfl⟩ := h2.split
  have hl1 : r1.length = j := by rw [h1.length, List.length_take]; omega
  cases h3 with
  | skip _ _ _ _ rs' hr k =>
    cases k
    rw [List.getElem?_append_right (by omega), hl1] at hx
    simp at hx
    rw [hr, ← hx]; rfl
  | run _ _ l d3 r _ _ rs' hr hrun k =>
    cases k
    rw [List.getElem?_append_right (by omega), hl1] at hx
    simp at hx
    rw [hr, ← hx]
    simp only [Option.map_some, Option.some.injEq]
    obtain ⟨s', rs0, a1, a2, _, a3⟩ := M.runList_spec (logsOf pr (H.take j)) pr.fresh hf.inv (logs_valid hf _)
    have b1 := serial_runList h1
    rw [hf.run, a1] at b1
    have e1 : s' = d1 := congrArg Prod.fst (Out.ok.inj b1)
    rw [e1] at a2 a3
    obtain ⟨s2, c1, _⟩ := M.sim d1 l a2 (hf.valid l (request_valid hr))
    rw [hf.run, c1] at hrun
    have e2 : _ = r := congrArg Prod.snd (Out.ok.inj hrun)
    rw [← e2, (a3 (M.key l)).1, hf.fresh]
    rfl

theorem voters_agree (hg : Proper c.raft) {G : Grid P D E} (h : GReachable c G) (hn : NoCollision c.raft.v G.W.Hashed) (hser : SerInj c.raft.v)
    (hv : Voters c.raft G.W) : Agreeing G.W G.W :=
  hv.elim (agreeing_fixed hg h .now hn hser) (agreeing_changing hg h .now hn hser)

/-- One list of entries, of which every replica has applied a beginning, such that all answers are those of one account. -/
theorem one_account {M : Sim D L V E} (hf : Follows c.pr M) (hg : Proper c.raft) {G : Grid P D E} (h : GReachable c G)
    (hn : NoCollision c.raft.v G.W.Hashed) (hser : SerInj c.raft.v) (hv : Voters c.raft G.W) :
    ∃ H : List Entry, (∀ p a, G.side p = some a → G.W.applied p <+: H) ∧
      ∀ p i x, (p, i, x) ∈ G.out → Answered M.step M.key c.pr H i x := by
  obtain ⟨H, d, rs, h1, h2, h3⟩ := one_history h (voters_agree hg h hn hser hv)
  exact ⟨H, h2, fun p i x hm => serial_answered hf h1 (h3 p i x hm).1 (h3 p i x hm).2⟩

theorem calls {M : Sim D L V E} (hf : Follows c.pr M) (hg : Proper c.raft) {G : Grid P D E} (hr : GReachable c G)
    (hn : NoCollision c.raft.v G.W.Hashed) (hser : SerInj c.raft.v) (hv : FixedVoters c.raft G.W) : ∃ H : List Entry,
      (∀ A A1 B i idx eff, GReachable c A → Call c A A1 B i idx eff → GFuture c B G →
        (∃ e, H[idx - 1]? = some e ∧ e.inner = i) ∧ Answered M.step M.key c.pr H idx eff) ∧
      ∀ A A1 B i idx eff C C1 B2 i' idx' eff', GReachable c A → Call c A A1 B i idx eff → GFuture c B G → Call c C C1 B2 i' idx' eff' →
        GFuture c B2 G → (GFuture c A1 C → idx ≠ idx') ∧ (GFuture c B C → idx < idx') := by
  obtain ⟨H, d, rs, h1, h2, h3⟩ := C78_linearizable hg hr hn hser hv
  refine ⟨H, fun A A1 B i idx eff hA hc k => ?_, h3⟩
  obtain ⟨a1, a2, a3⟩ := h2 A A1 B i idx eff hA hc k
  exact ⟨a2, serial_answered hf h1 a1 a3⟩

theorem calls_changing {M : Sim D L V E} (hf : Follows c.pr M) (hg : Proper c.raft) {G : Grid P D E} (hr : GReachable c G)
    (hn : NoCollision c.raft.v G.W.Hashed) (hser : SerInj c.raft.v) (hv : Changing c.raft G.W) : ∃ H : List Entry,
      (∀ A A1 B i idx eff, GReachable c A → Call c A A1 B i idx eff → GFuture c B G →
        (∃ e, H[idx - 1]? = some e ∧ e.inner = i) ∧ Answered M.step M.key c.pr H idx eff) ∧
      ∀ A A1 B i idx eff C C1 B2 i' idx' eff', GReachable c A → Call c A A1 B i idx eff → GFuture c B G → Call c C C1 B2 i' idx' eff' →
        GFuture c B2 G → (GTidy c Grid.empty A1 → GTidy c A1 C → idx ≠ idx') ∧ (GTidy c Grid.empty B → GTidy c B C → idx < idx') := by
  obtain ⟨H, d, rs, h1, h2, h3⟩ := C79_linearizable hg hr hn hser hv
  refine ⟨H, fun A A1 B i idx eff hA hc k => ?_, h3⟩
  obtain ⟨a1, a2, a3⟩ := h2 A A1 B i idx eff hA hc k
  exact ⟨a2, serial_answered hf h1 a1 a3⟩

/-! ### Between two entries -/

/-- Entries of a history between two places, for one account. -/
theorem before_split {step : Option V → L → Option V × E} {key : L → Bytes} {pr : Proto D L E} {H : List Entry} {i j : Nat} {l : L} (h : At pr H i l)
    (hj : i < j) : ∃ mid : List L, before step key pr H (key l) j = (specRun step (step (before step key pr H (key l) i) l).1 mid).1 ∧
      ∀ m ∈ mid, key m = key l ∧ ∃ n, i < n ∧ n < j ∧ At pr H n m := by
  obtain ⟨h1, e, h2, h3⟩ := h
  have he := (List.getElem?_eq_some_iff.mp h2).2
  have hlt := (List.getElem?_eq_some_iff.mp h2).1
  have hlt' : i - 1 < (H.take (j - 1)).length := by rw [List.length_take]; omega
  have e1 : (H.take (j - 1)).take (i - 1) = H.take (i - 1) := by rw [List.take_take]; congr 1; omega
  have e2 : (H.take (j - 1))[i - 1] = e := by rw [List.getElem_take]; exact he
  have e3 : (H.take (j - 1)).drop (i - 1) = e :: (H.take (j - 1)).drop i := by
    rw [List.drop_eq_getElem_cons hlt', e2]
    congr 2; omega
  have hs : H.take (j - 1) = H.take (i - 1) ++ e :: (H.take (j - 1)).drop i := by
    conv_lhs => rw [← List.take_append_drop (i - 1) (H.take (j - 1)), e1, e3]
  refine ⟨(logsOf pr ((H.take (j - 1)).drop i)).filter fun m => key m = key l, ?_, ?_⟩
  · unfold before
    conv_lhs => rw [hs]
    simp only [logsOf, List.filterMap_append, List.filterMap_cons, h3, List.filter_append, List.filter_cons, decide_true, if_true]
    rw [specRun_append]
    simp only [specRun]
  · intro m hm
    rw [List.mem_filter] at hm
    refine ⟨by simpa using hm.2, ?_⟩
    obtain ⟨e', he', hm'⟩ := List.mem_filterMap.mp hm.1
    obtain ⟨n, hn⟩ := List.mem_iff_getElem?.mp he'
    rw [List.getElem?_drop, List.getElem?_take] at hn
    split at hn
    · exact ⟨i + n + 1, by omega, by omega, by omega, e', by simpa using hn, hm'⟩
    · cases hn

/-- No entry of account `a` between places `b` and `i` is one of `R`. -/
def Without (R : L → Prop) (key : L → Bytes) (pr : Proto D L E) (H : List Entry) (a : Bytes) (b i : Nat) : Prop :=
  ∀ j l, b < j → j < i → At pr H j l → key l = a → ¬ R l

/-- A quantity that only entries of `R` increase, and every answer of `C` decreases. -/
structure Meter (step : Option V → L → Option V × E) (R : L → Prop) (C : E → Prop) (left : Option V → Nat) : Prop where
  less : ∀ o l, ¬ R l → left (step o l).1 ≤ left o
  spent : ∀ o l, C (step o l).2 → left (step o l).1 < left o

theorem meter_run {step : Option V → L → Option V × E} {R : L → Prop} {C : E → Prop} {left : Option V → Nat} (hm : Meter step R C left) :
    ∀ {ls : List L} {o : Option V}, (∀ l ∈ ls, ¬ R l) → left (specRun step o ls).1 ≤ left o
  | [], _, _ => Nat.le_refl _
  | l :: ls, o, h => Nat.le_trans (meter_run hm (ls := ls) fun x hx => h x (List.mem_cons_of_mem _ hx)) (hm.less o l (h l List.mem_cons_self))

/-- Answers of `C` after the entry at `b`, at different places, number at most what the entry left. -/
theorem meter_limit {step : Option V → L → Option V × E} {key : L → Bytes} {R : L → Prop} {C : E → Prop} {left : Option V → Nat} {pr : Proto D L E}
    (hm : Meter step R C left) {H : List Entry} {b : Nat} {lb : L} (hb : At pr H b lb) {is : List Nat} (hnd : is.Nodup)
    (his : ∀ i ∈ is, b < i ∧ Without R key pr H (key lb) b i ∧ ∃ l, At pr H i l ∧ key l = key lb ∧ C (step (before step key pr H (key lb) i) l).2) :
    is.length ≤ left (step (before step key pr H (key lb) b) lb).1 := by
  let f : Nat → Nat := fun i => left (before step key pr H (key lb) i)
  have mono : ∀ i l j, At pr H i l → key l = key lb → i < j → Without R key pr H (key lb) i j → f j ≤ left (step (before step key pr H (key lb) i) l).1 := by
    intro i l j hi hk hij hw
    obtain ⟨mid, m1, m2⟩ := before_split (step := step) (key := key) hi hij
    rw [hk] at m1 m2
    show left (before step key pr H (key lb) j) ≤ _
    rw [m1]
    refine meter_run hm fun x hx => ?_
    obtain ⟨k1, n, n1, n2, n3⟩ := m2 x hx
    exact hw n x n1 n2 n3 k1
  have hlt : ∀ i ∈ is, ∀ j ∈ is, i < j → f j < f i := by
    intro i hi j hj hij
    obtain ⟨i1, _, l, i3, i4, i5⟩ := his i hi
    obtain ⟨_, j2, _⟩ := his j hj
    exact Nat.lt_of_le_of_lt (mono i l j i3 i4 hij fun n x n1 n2 => j2 n x (by omega) n2) (hm.spent _ l i5)
  have hpos : ∀ i ∈ is, 1 ≤ f i := by
    intro i hi
    obtain ⟨_, _, l, _, _, i5⟩ := his i hi
    exact Nat.one_le_of_lt (hm.spent _ l i5)
  have hle : ∀ i ∈ is, f i ≤ left (step (before step key pr H (key lb) b) lb).1 := by
    intro i hi
    obtain ⟨i1, i2, _⟩ := his i hi
    exact mono b lb i hb rfl i1 i2
  have hinj : ∀ i ∈ is, ∀ j ∈ is, f i = f j → i = j := by
    intro i hi j hj hij
    rcases Nat.lt_trichotomy i j with k | k | k
    · have := hlt i hi j hj k; omega
    · exact k
    · have := hlt j hj i hi k; omega
  have hnd2 : (is.map f).Nodup := (List.nodup_map_iff_inj_on hnd).mpr hinj
  have hsub : is.map f ⊆ (List.range (left (step (before step key pr H (key lb) b) lb).1)).map (· + 1) := by
    intro y hy
    obtain ⟨i, hi, rfl⟩ := List.mem_map.mp hy
    have h1 := hpos i hi
    have h2 := hle i hi
    exact List.mem_map.mpr ⟨f i - 1, List.mem_range.mpr (by omega), by omega⟩
  have := (hnd2.subperm hsub).length_le
  simpa using this

theorem answered_at {step : Option V → L → Option V × E} {key : L → Bytes} {pr : Proto D L E} {H : List Entry} {i : Nat} {x : E} {l : L}
    (h : Answered step key pr H i (some x)) (hl : At pr H i l) : x = (step (before step key pr H (key l) i) l).2 := by
  obtain ⟨_, e, h1, h2⟩ := h
  obtain ⟨_, e', k1, k2⟩ := hl
  rw [h1] at k1
  cases k1
  rw [k2] at h2
  simpa using h2

/-! ## SVR3 -/

section
variable {P3 : Svr.DB3.Prims3} {parse : Bytes → Option Svr.DB3.Log} {c3 : Site P Svr.DB3.DB Svr.DB3.Log Svr.DB3.Resp}

/-- SVR3's database behind the interface of `core.cc`, on an integrity tree nobody tampers with. -/
def svr3 (P3 : Svr.DB3.Prims3) (parse : Bytes → Option Svr.DB3.Log) : Proto Svr.DB3.DB Svr.DB3.Log Svr.DB3.Resp :=
  ⟨Svr.DB3.empty, parse, fun l => Svr.DB3.validate l == none, Svr.DB3.run P3 fun _ => true⟩

theorem follows3 : Follows (svr3 P3 parse) (Svr.DB3.sim P3) :=
  ⟨Svr.DB3.inv_empty P3, fun _ => by simp [Svr.DB3.sim, Svr.DB3.look, svr3, Svr.DB3.empty], fun l hl => by simpa [svr3, Svr.DB3.sim] using hl, rfl⟩

/-- Answers to one account's requests by one thread. -/
abbrev Answered3 (P3 : Svr.DB3.Prims3) := Answered (D := Svr.DB3.DB) (Spec3.astep P3.mul) Svr.DB3.Log.id

/-- **C82** for SVR3: every answer any replica ever produced is that of a single account which handles the account's requests in one list of
entries, of which every replica has applied a beginning. -/
theorem C82_svr3 (hpr : c3.pr = svr3 P3 parse) (hg : Proper c3.raft) {G : Grid P Svr.DB3.DB Svr.DB3.Resp} (h : GReachable c3 G)
    (hn : NoCollision c3.raft.v G.W.Hashed) (hser : SerInj c3.raft.v) (hv : Voters c3.raft G.W) :
    ∃ H : List Entry, (∀ p a, G.side p = some a → G.W.applied p <+: H) ∧ ∀ p i x, (p, i, x) ∈ G.out → Answered3 P3 c3.pr H i x :=
  one_account (M := Svr.DB3.sim P3) (hpr ▸ follows3) hg h hn hser hv

/-- **C82** for SVR3: answered calls, in an order that respects time. -/
theorem C82_svr3_calls (hpr : c3.pr = svr3 P3 parse) (hg : Proper c3.raft) {G : Grid P Svr.DB3.DB Svr.DB3.Resp} (hr : GReachable c3 G)
    (hn : NoCollision c3.raft.v G.W.Hashed) (hser : SerInj c3.raft.v) (hv : FixedVoters c3.raft G.W) : ∃ H : List Entry,
      (∀ A A1 B i idx eff, GReachable c3 A → Call c3 A A1 B i idx eff → GFuture c3 B G →
        (∃ e, H[idx - 1]? = some e ∧ e.inner = i) ∧ Answered3 P3 c3.pr H idx eff) ∧
      ∀ A A1 B i idx eff C C1 B2 i' idx' eff', GReachable c3 A → Call c3 A A1 B i idx eff → GFuture c3 B G → Call c3 C C1 B2 i' idx' eff' →
        GFuture c3 B2 G → (GFuture c3 A1 C → idx ≠ idx') ∧ (GFuture c3 B C → idx < idx') :=
  calls (M := Svr.DB3.sim P3) (hpr ▸ follows3) hg hr hn hser hv

/-- **C82** for SVR3: answered calls while the voters change. -/
theorem C82_svr3_calls_changing_voters (hpr : c3.pr = svr3 P3 parse) (hg : Proper c3.raft) {G : Grid P Svr.DB3.DB Svr.DB3.Resp}
    (hr : GReachable c3 G) (hn : NoCollision c3.raft.v G.W.Hashed) (hser : SerInj c3.raft.v) (hv : Changing c3.raft G.W) : ∃ H : List Entry,
      (∀ A A1 B i idx eff, GReachable c3 A → Call c3 A A1 B i idx eff → GFuture c3 B G →
        (∃ e, H[idx - 1]? = some e ∧ e.inner = i) ∧ Answered3 P3 c3.pr H idx eff) ∧
      ∀ A A1 B i idx eff C C1 B2 i' idx' eff', GReachable c3 A → Call c3 A A1 B i idx eff → GFuture c3 B G → Call c3 C C1 B2 i' idx' eff' →
        GFuture c3 B2 G → (GTidy c3 Grid.empty A1 → GTidy c3 A1 C → idx ≠ idx') ∧ (GTidy c3 Grid.empty B → GTidy c3 B C → idx < idx') :=
  calls_changing (M := Svr.DB3.sim P3) (hpr ▸ follows3) hg hr hn hser hv

/-- A Create that succeeds. -/
def NewKey (P3 : Svr.DB3.Prims3) (l : Svr.DB3.Log) : Prop := ∃ n b, l.req = .create n b ∧ (P3.mul l.privkey b).isSome = true

/-- Evaluations an account may still release. -/
def left3 : Option Spec3.Acct → Nat
  | none => 0
  | some v => max 1 v.left

theorem meter3 (mul : Bytes → Bytes → Option Bytes) :
    Meter (Spec3.astep mul) (fun l => ∃ n b, l.req = .create n b ∧ (mul l.privkey b).isSome = true) (fun r => ∃ e t, r = .evaluate .ok e t) left3 := by
  constructor
  · intro o l h
    cases hr : l.req with
    | create n b =>
      have : mul l.privkey b = none := by
        cases hm : mul l.privkey b with
        | none => rfl
        | some e => exact absurd ⟨n, b, hr, by rw [hm]; rfl⟩ h
      simp [Spec3.astep, hr, this]
    | evaluate b =>
      cases o with
      | none => simp [Spec3.astep, hr]
      | some v =>
        cases hm : mul v.key b with
        | none => simp [Spec3.astep, hr, hm]
        | some e =>
          simp only [Spec3.astep, hr, hm]
          split <;> simp only [left3] <;> omega
    | remove => simp [Spec3.astep, hr, left3]
    | query => cases o <;> simp [Spec3.astep, hr]
    | unset => simp [Spec3.astep, hr]
  · rintro o l ⟨e, t, h⟩
    cases hr : l.req with
    | create n b => cases hm : mul l.privkey b <;> simp [Spec3.astep, hr, hm] at h
    | evaluate b =>
      cases o with
      | none => simp [Spec3.astep, hr] at h
      | some v =>
        cases hm : mul v.key b with
        | none => simp [Spec3.astep, hr, hm] at h
        | some e' =>
          simp only [Spec3.astep, hr, hm]
          split <;> simp only [left3] <;> omega
    | remove => simp [Spec3.astep, hr] at h
    | query => cases o <;> simp [Spec3.astep, hr] at h
    | unset => simp [Spec3.astep, hr] at h

/-- **C82** (the limit of SVR3): after a Create that succeeds with `max_tries = n`, until the account's next Create that succeeds, at most `n`
entries are answered by any replicas with an evaluation. -/
theorem C82_svr3_evaluation_limit (hpr : c3.pr = svr3 P3 parse) (hg : Proper c3.raft) {G : Grid P Svr.DB3.DB Svr.DB3.Resp} (h : GReachable c3 G)
    (hn : NoCollision c3.raft.v G.W.Hashed) (hser : SerInj c3.raft.v) (hv : Voters c3.raft G.W) :
    ∃ H : List Entry, (∀ p a, G.side p = some a → G.W.applied p <+: H) ∧
      ∀ (b : Nat) (a k elt : Bytes) (n : UInt32), At c3.pr H b ⟨a, .create n elt, k⟩ → (P3.mul k elt).isSome = true →
      ∀ is : List Nat, is.Nodup → (∀ i ∈ is, b < i ∧ Without (NewKey P3) (·.id) c3.pr H a b i ∧ (∃ q k', At c3.pr H i ⟨a, q, k'⟩) ∧
        ∃ p e t, (p, i, some (.evaluate .ok e t)) ∈ G.out) → is.length ≤ n.toNat := by
  obtain ⟨H, h1, h2⟩ := C82_svr3 hpr hg h hn hser hv
  refine ⟨H, h1, fun b a k elt n hb hk is hnd his => ?_⟩
  have hn1 : 1 ≤ n.toNat := by
    obtain ⟨_, e, _, he⟩ := hb
    rw [hpr] at he
    have hv := request_valid he
    have hv : Svr.DB3.validate ⟨a, .create n elt, k⟩ = none := by simpa [svr3] using hv
    exact ((Svr.DB3.validate_iff _).mp hv).2.1
  have := meter_limit (key := Svr.DB3.Log.id) (meter3 P3.mul) hb hnd fun i hi => by
    obtain ⟨i1, i2, ⟨q, k', i3⟩, p, e, t, i4⟩ := his i hi
    refine ⟨i1, i2, _, i3, rfl, e, t, ?_⟩
    exact (answered_at (h2 p i _ i4) i3).symm
  refine Nat.le_trans this ?_
  obtain ⟨e, he⟩ := Option.isSome_iff_exists.mp hk
  simp only [Spec3.astep, he, left3]
  omega

end

/-! ## SVR4 -/

section
variable {P4 : Svr.DB4.Prims4} {parse : Bytes → Option Svr.DB4.Log} {c4 : Site P Svr.DB4.DB Svr.DB4.Log Svr.DB4.Effect}

/-- SVR4's database behind the interface of `core.cc`, on an integrity tree nobody tampers with. -/
def svr4 (P4 : Svr.DB4.Prims4) (parse : Bytes → Option Svr.DB4.Log) : Proto Svr.DB4.DB Svr.DB4.Log Svr.DB4.Effect :=
  ⟨Svr.DB4.empty, parse, fun l => Svr.DB4.validate P4 l == none, Svr.DB4.run P4 fun _ => true⟩

theorem follows4 (hs : Svr.DB4.SaddOK P4) : Follows (svr4 P4 parse) (Svr.DB4.sim P4 hs) :=
  ⟨Svr.DB4.inv_empty P4, fun _ => by simp [Svr.DB4.sim, Svr.DB4.look, svr4, Svr.DB4.empty], fun l hl => by simpa [svr4, Svr.DB4.sim] using hl, rfl⟩

/-- Answers to one account's requests by one thread. -/
abbrev Answered4 (P4 : Svr.DB4.Prims4) := Answered (D := Svr.DB4.DB) (Spec4.astep P4) Svr.DB4.Log.id

/-- **C82** for SVR4: every answer any replica ever produced, with what the session remembers for Restore2, is that of a single account. -/
theorem C82_svr4 (hs : Svr.DB4.SaddOK P4) (hpr : c4.pr = svr4 P4 parse) (hg : Proper c4.raft) {G : Grid P Svr.DB4.DB Svr.DB4.Effect}
    (h : GReachable c4 G) (hn : NoCollision c4.raft.v G.W.Hashed) (hser : SerInj c4.raft.v) (hv : Voters c4.raft G.W) :
    ∃ H : List Entry, (∀ p a, G.side p = some a → G.W.applied p <+: H) ∧ ∀ p i x, (p, i, x) ∈ G.out → Answered4 P4 c4.pr H i x :=
  one_account (M := Svr.DB4.sim P4 hs) (hpr ▸ follows4 hs) hg h hn hser hv

/-- **C82** for SVR4: answered calls, in an order that respects time. -/
theorem C82_svr4_calls (hs : Svr.DB4.SaddOK P4) (hpr : c4.pr = svr4 P4 parse) (hg : Proper c4.raft) {G : Grid P Svr.DB4.DB Svr.DB4.Effect}
    (hr : GReachable c4 G) (hn : NoCollision c4.raft.v G.W.Hashed) (hser : SerInj c4.raft.v) (hv : FixedVoters c4.raft G.W) : ∃ H : List Entry,
      (∀ A A1 B i idx eff, GReachable c4 A → Call c4 A A1 B i idx eff → GFuture c4 B G →
        (∃ e, H[idx - 1]? = some e ∧ e.inner = i) ∧ Answered4 P4 c4.pr H idx eff) ∧
      ∀ A A1 B i idx eff C C1 B2 i' idx' eff', GReachable c4 A → Call c4 A A1 B i idx eff → GFuture c4 B G → Call c4 C C1 B2 i' idx' eff' →
        GFuture c4 B2 G → (GFuture c4 A1 C → idx ≠ idx') ∧ (GFuture c4 B C → idx < idx') :=
  calls (M := Svr.DB4.sim P4 hs) (hpr ▸ follows4 hs) hg hr hn hser hv

/-- **C82** for SVR4: answered calls while the voters change. -/
theorem C82_svr4_calls_changing_voters (hs : Svr.DB4.SaddOK P4) (hpr : c4.pr = svr4 P4 parse) (hg : Proper c4.raft)
    {G : Grid P Svr.DB4.DB Svr.DB4.Effect} (hr : GReachable c4 G) (hn : NoCollision c4.raft.v G.W.Hashed) (hser : SerInj c4.raft.v)
    (hv : Changing c4.raft G.W) : ∃ H : List Entry,
      (∀ A A1 B i idx eff, GReachable c4 A → Call c4 A A1 B i idx eff → GFuture c4 B G →
        (∃ e, H[idx - 1]? = some e ∧ e.inner = i) ∧ Answered4 P4 c4.pr H idx eff) ∧
      ∀ A A1 B i idx eff C C1 B2 i' idx' eff', GReachable c4 A → Call c4 A A1 B i idx eff → GFuture c4 B G → Call c4 C C1 B2 i' idx' eff' →
        GFuture c4 B2 G → (GTidy c4 Grid.empty A1 → GTidy c4 A1 C → idx ≠ idx') ∧ (GTidy c4 Grid.empty B → GTidy c4 B C → idx < idx') :=
  calls_changing (M := Svr.DB4.sim P4 hs) (hpr ▸ follows4 hs) hg hr hn hser hv

/-- A Create that sets tries. -/
def SetsTries (l : Svr.DB4.Log) : Prop := ∃ n o au e z v, l.req = .create n o au e z v ∧ n ≠ 0

/-- A Restore1 that was evaluated, answered OK or ERROR. -/
def Evaluated (x : Svr.DB4.Effect) : Prop := ∃ st es t, x.resp = .restore1 st es t ∧ st ≠ .missing

/-- Restore1 requests an account still evaluates. -/
def left4 : Option Spec4.Acct → Nat
  | none => 0
  | some v => max 1 v.left

theorem meter4 (P4 : Svr.DB4.Prims4) : Meter (Spec4.astep P4) SetsTries Evaluated left4 := by
  constructor
  · intro o l h
    cases hr : l.req with
    | create n oprf au e z v =>
      have hn : n = 0 := by
        by_contra hne
        exact h ⟨n, oprf, au, e, z, v, hr, hne⟩
      cases o <;> simp [Spec4.astep, hr, hn, left4]
    | restore1 b =>
      cases o with
      | none => simp [Spec4.astep, hr]
      | some v =>
        simp only [Spec4.astep, hr]
        split <;> simp only [left4] <;> omega
    | remove => simp [Spec4.astep, hr, left4]
    | query => cases o <;> simp [Spec4.astep, hr]
    | rotateStart ver od ed =>
      cases o with
      | none => simp [Spec4.astep, hr]
      | some v =>
        cases hp : v.pending with
        | some _ => simp [Spec4.astep, hr, hp]
        | none =>
          simp only [Spec4.astep, hr, hp]
          split <;> simp [left4]
    | rotateCommit ver =>
      cases o with
      | none => simp [Spec4.astep, hr]
      | some v =>
        cases hp : v.pending with
        | none => simp [Spec4.astep, hr, hp]
        | some p =>
          simp only [Spec4.astep, hr, hp]
          split <;> simp [left4, Spec4.rotated]
    | rotateRollback ver =>
      cases o with
      | none => simp [Spec4.astep, hr]
      | some v =>
        cases hp : v.pending with
        | none => simp [Spec4.astep, hr, hp]
        | some p =>
          simp only [Spec4.astep, hr, hp]
          split <;> simp [left4]
    | restore2 => simp [Spec4.astep, hr]
    | unset => simp [Spec4.astep, hr]
  · rintro o l ⟨st, es, t, h, hst⟩
    cases hr : l.req with
    | restore1 b =>
      cases o with
      | none =>
        simp [Spec4.astep, hr] at h
        exact absurd h.1.symm hst
      | some v =>
        simp only [Spec4.astep, hr]
        split <;> simp only [left4] <;> omega
    | create n oprf au e z v =>
      cases o with
      | none => simp only [Spec4.astep, hr] at h; split at h <;> simp at h
      | some v => simp [Spec4.astep, hr] at h
    | remove => simp [Spec4.astep, hr] at h
    | query => cases o <;> simp [Spec4.astep, hr] at h
    | rotateStart ver od ed =>
      cases o with
      | none => simp [Spec4.astep, hr] at h
      | some v =>
        cases hp : v.pending with
        | some _ => simp [Spec4.astep, hr, hp] at h
        | none =>
          simp only [Spec4.astep, hr, hp] at h
          split at h <;> simp at h
    | rotateCommit ver =>
      cases o with
      | none => simp [Spec4.astep, hr] at h
      | some v =>
        cases hp : v.pending with
        | none => simp [Spec4.astep, hr, hp] at h
        | some p =>
          simp only [Spec4.astep, hr, hp] at h
          split at h <;> simp at h
    | rotateRollback ver =>
      cases o with
      | none => simp [Spec4.astep, hr] at h
      | some v =>
        cases hp : v.pending with
        | none => simp [Spec4.astep, hr, hp] at h
        | some p =>
          simp only [Spec4.astep, hr, hp] at h
          split at h <;> simp at h
    | restore2 => simp [Spec4.astep, hr] at h
    | unset => simp [Spec4.astep, hr] at h

/-- **C82** (the limit of SVR4): after a Create that sets `n` tries, until the account's next Create that sets tries, at most `n` entries are
answered by any replicas with an evaluated Restore1. -/
theorem C82_svr4_restore_limit (hs : Svr.DB4.SaddOK P4) (hpr : c4.pr = svr4 P4 parse) (hg : Proper c4.raft) {G : Grid P Svr.DB4.DB Svr.DB4.Effect}
    (h : GReachable c4 G) (hn : NoCollision c4.raft.v G.W.Hashed) (hser : SerInj c4.raft.v) (hv : Voters c4.raft G.W) :
    ∃ H : List Entry, (∀ p a, G.side p = some a → G.W.applied p <+: H) ∧
      ∀ (b : Nat) (l : Svr.DB4.Log) (n : UInt32) (o au e z : Bytes) (v : UInt32), At c4.pr H b l → l.req = .create n o au e z v → n ≠ 0 →
      ∀ is : List Nat, is.Nodup → (∀ i ∈ is, b < i ∧ Without SetsTries (·.id) c4.pr H l.id b i ∧ (∃ l', At c4.pr H i l' ∧ l'.id = l.id) ∧
        ∃ p x, (p, i, some x) ∈ G.out ∧ Evaluated x) → is.length ≤ n.toNat := by
  obtain ⟨H, h1, h2⟩ := C82_svr4 hs hpr hg h hn hser hv
  refine ⟨H, h1, fun b l n o au e z v hb hl hn0 is hnd his => ?_⟩
  have hn1 : 1 ≤ n.toNat := by
    rcases Nat.eq_zero_or_pos n.toNat with h0 | h0
    · exact absurd (UInt32.toNat_inj.mp (by simpa using h0)) hn0
    · exact h0
  have := meter_limit (key := Svr.DB4.Log.id) (meter4 P4) hb hnd fun i hi => by
    obtain ⟨i1, i2, ⟨l', i3, i4⟩, p, x, i5, i6⟩ := his i hi
    refine ⟨i1, i2, l', i3, i4, ?_⟩
    rw [answered_at (h2 p i _ i5) i3, i4] at i6
    exact i6
  refine Nat.le_trans this ?_
  cases before (Spec4.astep P4) Svr.DB4.Log.id c4.pr H l.id b <;> simp [Spec4.astep, hl, hn0, left4] <;> omega

end

/-! ## SVR5 -/

section
variable {P5 : Svr.DB5.Prims5} {parse : Bytes → Option Svr.DB5.Log} {c5 : Site P Svr.DB5.DB Svr.DB5.Log Svr.DB5.Resp}

/-- SVR5's database behind the interface of `core.cc`, on an integrity tree nobody tampers with. -/
def svr5 (P5 : Svr.DB5.Prims5) (parse : Bytes → Option Svr.DB5.Log) : Proto Svr.DB5.DB Svr.DB5.Log Svr.DB5.Resp :=
  ⟨Svr.DB5.empty, parse, fun l => Svr.DB5.validate l == none, Svr.DB5.run P5 fun _ => true⟩

theorem follows5 : Follows (svr5 P5 parse) (Svr.DB5.sim P5) :=
  ⟨Svr.DB5.inv_empty P5, fun _ => by simp [Svr.DB5.sim, Svr.DB5.look, svr5, Svr.DB5.empty], fun l hl => by simpa [svr5, Svr.DB5.sim] using hl, rfl⟩

/-- Answers to one account's requests by one thread. -/
abbrev Answered5 (P5 : Svr.DB5.Prims5) := Answered (D := Svr.DB5.DB) (Spec5.astep P5.hmac) Svr.DB5.Log.id

/-- **C82** for SVR5: every answer any replica ever produced is that of a single account. -/
theorem C82_svr5 (hpr : c5.pr = svr5 P5 parse) (hg : Proper c5.raft) {G : Grid P Svr.DB5.DB Svr.DB5.Resp} (h : GReachable c5 G)
    (hn : NoCollision c5.raft.v G.W.Hashed) (hser : SerInj c5.raft.v) (hv : Voters c5.raft G.W) :
    ∃ H : List Entry, (∀ p a, G.side p = some a → G.W.applied p <+: H) ∧ ∀ p i x, (p, i, x) ∈ G.out → Answered5 P5 c5.pr H i x :=
  one_account (M := Svr.DB5.sim P5) (hpr ▸ follows5) hg h hn hser hv

/-- **C82** for SVR5: answered calls, in an order that respects time. -/
theorem C82_svr5_calls (hpr : c5.pr = svr5 P5 parse) (hg : Proper c5.raft) {G : Grid P Svr.DB5.DB Svr.DB5.Resp} (hr : GReachable c5 G)
    (hn : NoCollision c5.raft.v G.W.Hashed) (hser : SerInj c5.raft.v) (hv : FixedVoters c5.raft G.W) : ∃ H : List Entry,
      (∀ A A1 B i idx eff, GReachable c5 A → Call c5 A A1 B i idx eff → GFuture c5 B G →
        (∃ e, H[idx - 1]? = some e ∧ e.inner = i) ∧ Answered5 P5 c5.pr H idx eff) ∧
      ∀ A A1 B i idx eff C C1 B2 i' idx' eff', GReachable c5 A → Call c5 A A1 B i idx eff → GFuture c5 B G → Call c5 C C1 B2 i' idx' eff' →
        GFuture c5 B2 G → (GFuture c5 A1 C → idx ≠ idx') ∧ (GFuture c5 B C → idx < idx') :=
  calls (M := Svr.DB5.sim P5) (hpr ▸ follows5) hg hr hn hser hv

/-- **C82** for SVR5: answered calls while the voters change. -/
theorem C82_svr5_calls_changing_voters (hpr : c5.pr = svr5 P5 parse) (hg : Proper c5.raft) {G : Grid P Svr.DB5.DB Svr.DB5.Resp}
    (hr : GReachable c5 G) (hn : NoCollision c5.raft.v G.W.Hashed) (hser : SerInj c5.raft.v) (hv : Changing c5.raft G.W) : ∃ H : List Entry,
      (∀ A A1 B i idx eff, GReachable c5 A → Call c5 A A1 B i idx eff → GFuture c5 B G →
        (∃ e, H[idx - 1]? = some e ∧ e.inner = i) ∧ Answered5 P5 c5.pr H idx eff) ∧
      ∀ A A1 B i idx eff C C1 B2 i' idx' eff', GReachable c5 A → Call c5 A A1 B i idx eff → GFuture c5 B G → Call c5 C C1 B2 i' idx' eff' →
        GFuture c5 B2 G → (GTidy c5 Grid.empty A1 → GTidy c5 A1 C → idx ≠ idx') ∧ (GTidy c5 Grid.empty B → GTidy c5 B C → idx < idx') :=
  calls_changing (M := Svr.DB5.sim P5) (hpr ▸ follows5) hg hr hn hser hv

/-- An Upload or a Purge. -/
def Writes (l : Svr.DB5.Log) : Prop := (∃ d, l.req = .upload d) ∨ l.req = .purge

theorem keep5 {hmac : Bytes → Bytes → Bytes} : ∀ {ls : List Svr.DB5.Log} {o : Option Bytes}, (∀ l ∈ ls, ¬ Writes l) → (specRun (Spec5.astep hmac) o ls).1 = o
  | [], _, _ => rfl
  | l :: ls, o, h => by
    have h1 : (Spec5.astep hmac o l).1 = o := by
      have hl := h l List.mem_cons_self
      cases hr : l.req with
      | upload d => exact absurd (.inl ⟨d, hr⟩) hl
      | purge => exact absurd (.inr hr) hl
      | download p => cases o <;> simp [Spec5.astep, hr]
      | unset => simp [Spec5.astep, hr]
    simp only [specRun]
    rw [keep5 (ls := ls) fun x hx => h x (List.mem_cons_of_mem _ hx), h1]

/-- The last write at or after a write. -/
theorem last_write {pr : Proto D Svr.DB5.Log E} {H : List Entry} {a : Bytes} : ∀ {n i j : Nat} {l : Svr.DB5.Log}, j - i ≤ n → i < j → At pr H i l → l.id = a →
    Writes l → ∃ u w, i ≤ u ∧ u < j ∧ At pr H u w ∧ w.id = a ∧ Writes w ∧ Without Writes (·.id) pr H a u j
  | 0, i, j, l, hn, hij, _, _, _ => by omega
  | n + 1, i, j, l, hn, hij, hi, ha, hw => by
    by_cases h : Without Writes (·.id) pr H a i j
    · exact ⟨i, l, Nat.le_refl _, hij, hi, ha, hw, h⟩
    · simp only [Without, not_forall, not_not] at h
      obtain ⟨k, l', h1, h2, h3, h4, h5⟩ := h
      obtain ⟨u, w, u1, u2, u3, u4, u5, u6⟩ := last_write (n := n) (i := k) (j := j) (by omega) h2 h3 h4 h5
      exact ⟨u, w, by omega, u2, u3, u4, u5, u6⟩

theorem download_at {P5 : Svr.DB5.Prims5} {pr : Proto Svr.DB5.DB Svr.DB5.Log Svr.DB5.Resp} {H : List Entry} {a p : Bytes} {i j : Nat} {l : Svr.DB5.Log}
    {x : Option Svr.DB5.Resp} (hi : At pr H i l) (ha : l.id = a) (hw : Writes l) (hij : i < j) (hj : At pr H j ⟨a, .download p⟩)
    (hx : Answered5 P5 pr H j x) : ∃ u w, i ≤ u ∧ u < j ∧ At pr H u w ∧ w.id = a ∧ Without Writes (·.id) pr H a u j ∧
      ((∃ d, w.req = .upload d ∧ x = some (.download .ok (P5.hmac d p))) ∨ (w.req = .purge ∧ x = some (.download .missing []))) := by
  obtain ⟨u, w, u1, u2, u3, u4, u5, u6⟩ := last_write (Nat.le_refl _) hij hi ha hw
  refine ⟨u, w, u1, u2, u3, u4, u6, ?_⟩
  obtain ⟨mid, m1, m2⟩ := before_split (step := Spec5.astep P5.hmac) (key := Svr.DB5.Log.id) u3 u2
  rw [u4] at m1 m2
  rw [keep5 fun m hm => by
    obtain ⟨k1, n, n1, n2, n3⟩ := m2 m hm
    exact u6 n m n1 n2 n3 k1] at m1
  obtain ⟨_, e, h1, h2⟩ := hx
  obtain ⟨_, e', k1, k2⟩ := hj
  rw [h1] at k1
  cases k1
  rw [k2] at h2
  simp only [Option.map_some] at h2
  rw [m1] at h2
  rcases u5 with ⟨d, hd⟩ | hd
  · exact .inl ⟨d, hd, by rw [h2]; simp [Spec5.astep, hd]⟩
  · exact .inr ⟨hd, by rw [h2]; simp [Spec5.astep, hd]⟩

theorem call_future {A A1 B : Grid P D E} {i : Inner} {idx : Nat} {eff : Option E} (h : Call c A A1 B i idx eff) : GFuture c A B := by
  obtain ⟨q, loc, h1, _, R, p, w, a, b, e, h2, h3, _, _, h4, _⟩ := h.made
  exact Linear.trans (Linear.trans (GFuture.now.next h1.next) h2) (Linear.trans (GFuture.now.next (.add p a _ _ h3)) h4.future)

theorem at_of {pr : Proto D L E} {H : List Entry} {i : Nat} {b : Bytes} {l : L} (h1 : 1 ≤ i) (h : ∃ e, H[i - 1]? = some e ∧ e.inner = .data b)
    (hp : pr.parse b = some l) (hv : pr.valid l = true) : At pr H i l := by
  obtain ⟨e, h2, h3⟩ := h
  exact ⟨h1, e, h2, by simp [request, h3, hp, hv]⟩

theorem fresh5 {pr : Proto Svr.DB5.DB Svr.DB5.Log Svr.DB5.Resp} (hpr : pr = svr5 P5 parse) {H : List Entry} {bu bd a d p : Bytes} {idx idx' : Nat}
    {eff eff' : Option Svr.DB5.Resp} (h1 : ∃ e, H[idx - 1]? = some e ∧ e.inner = .data bu) (h2 : Answered5 P5 pr H idx eff)
    (h3 : ∃ e, H[idx' - 1]? = some e ∧ e.inner = .data bd) (h4 : Answered5 P5 pr H idx' eff') (hlt : idx < idx')
    (hu : parse bu = some ⟨a, .upload d⟩) (hd : parse bd = some ⟨a, .download p⟩) (vu : Svr.DB5.validate ⟨a, .upload d⟩ = none)
    (vd : Svr.DB5.validate ⟨a, .download p⟩ = none) : eff = some (.upload .ok) ∧
      ∃ u w, idx ≤ u ∧ u < idx' ∧ At pr H u w ∧ w.id = a ∧ Without Writes (·.id) pr H a u idx' ∧
        ((∃ d', w.req = .upload d' ∧ eff' = some (.download .ok (P5.hmac d' p))) ∨ (w.req = .purge ∧ eff' = some (.download .missing []))) := by
  subst hpr
  have a1 : At (svr5 P5 parse) H idx ⟨a, .upload d⟩ := at_of h2.1 h1 hu (by simp [svr5, vu])
  have a2 : At (svr5 P5 parse) H idx' ⟨a, .download p⟩ := at_of h4.1 h3 hd (by simp [svr5, vd])
  refine ⟨?_, download_at a1 rfl (.inl ⟨d, rfl⟩) hlt a2 h4⟩
  obtain ⟨_, e, b1, b2⟩ := h2
  obtain ⟨_, e', c1, c2⟩ := a1
  rw [b1] at c1
  cases c1
  rw [c2] at b2
  rw [b2]
  simp [Spec5.astep]

/-- **C82** (no stale answer of SVR5): a Download that is taken for the log after an Upload of the account was answered is answered with the HMAC
keyed by that Upload or by a later one, or MISSING if a Purge came after. -/
theorem C82_svr5_fresh (hpr : c5.pr = svr5 P5 parse) (hg : Proper c5.raft) {G : Grid P Svr.DB5.DB Svr.DB5.Resp} (hr : GReachable c5 G)
    (hn : NoCollision c5.raft.v G.W.Hashed) (hser : SerInj c5.raft.v) (hv : FixedVoters c5.raft G.W) : ∃ H : List Entry,
      ∀ A A1 B bu idx eff C C1 B2 bd idx' eff', GReachable c5 A → Call c5 A A1 B (.data bu) idx eff → GFuture c5 B C →
        Call c5 C C1 B2 (.data bd) idx' eff' → GFuture c5 B2 G →
        ∀ a d p, parse bu = some ⟨a, .upload d⟩ → parse bd = some ⟨a, .download p⟩ → Svr.DB5.validate ⟨a, .upload d⟩ = none →
          Svr.DB5.validate ⟨a, .download p⟩ = none → eff = some (.upload .ok) ∧
          ∃ u w, idx ≤ u ∧ u < idx' ∧ At c5.pr H u w ∧ w.id = a ∧ Without Writes (·.id) c5.pr H a u idx' ∧
            ((∃ d', w.req = .upload d' ∧ eff' = some (.download .ok (P5.hmac d' p))) ∨ (w.req = .purge ∧ eff' = some (.download .missing []))) := by
  obtain ⟨H, h1, h2⟩ := C82_svr5_calls hpr hg hr hn hser hv
  refine ⟨H, fun A A1 B bu idx eff C C1 B2 bd idx' eff' hA hc hBC hc' hB2 a d p hu hd vu vd => ?_⟩
  have kB : GFuture c5 B G := Linear.trans hBC (Linear.trans (call_future hc') hB2)
  obtain ⟨a1, a2⟩ := h1 A A1 B _ idx eff hA hc kB
  obtain ⟨b1, b2⟩ := h1 C C1 B2 _ idx' eff' (hA.future (Linear.trans (call_future hc) hBC)) hc' hB2
  exact fresh5 hpr a1 a2 b1 b2 ((h2 A A1 B _ idx eff C C1 B2 _ idx' eff' hA hc kB hc' hB2).2 hBC) hu hd vu vd

/-- **C82** (no stale answer of SVR5) while the voters change. -/
theorem C82_svr5_fresh_changing_voters (hpr : c5.pr = svr5 P5 parse) (hg : Proper c5.raft) {G : Grid P Svr.DB5.DB Svr.DB5.Resp} (hr : GReachable c5 G)
    (hn : NoCollision c5.raft.v G.W.Hashed) (hser : SerInj c5.raft.v) (hv : Changing c5.raft G.W) : ∃ H : List Entry,
      ∀ A A1 B bu idx eff C C1 B2 bd idx' eff', GReachable c5 A → Call c5 A A1 B (.data bu) idx eff → GTidy c5 Grid.empty B → GTidy c5 B C →
        Call c5 C C1 B2 (.data bd) idx' eff' → GFuture c5 B2 G →
        ∀ a d p, parse bu = some ⟨a, .upload d⟩ → parse bd = some ⟨a, .download p⟩ → Svr.DB5.validate ⟨a, .upload d⟩ = none →
          Svr.DB5.validate ⟨a, .download p⟩ = none → eff = some (.upload .ok) ∧
          ∃ u w, idx ≤ u ∧ u < idx' ∧ At c5.pr H u w ∧ w.id = a ∧ Without Writes (·.id) c5.pr H a u idx' ∧
            ((∃ d', w.req = .upload d' ∧ eff' = some (.download .ok (P5.hmac d' p))) ∨ (w.req = .purge ∧ eff' = some (.download .missing []))) := by
  obtain ⟨H, h1, h2⟩ := C82_svr5_calls_changing_voters hpr hg hr hn hser hv
  refine ⟨H, fun A A1 B bu idx eff C C1 B2 bd idx' eff' hA hc hB hBC hc' hB2 a d p hu hd vu vd => ?_⟩
  have kB : GFuture c5 B G := Linear.trans hBC.future (Linear.trans (call_future hc') hB2)
  obtain ⟨a1, a2⟩ := h1 A A1 B _ idx eff hA hc kB
  obtain ⟨b1, b2⟩ := h1 C C1 B2 _ idx' eff' (hA.future (Linear.trans (call_future hc) hBC.future)) hc' hB2
  exact fresh5 hpr a1 a2 b1 b2 ((h2 A A1 B _ idx eff C C1 B2 _ idx' eff' hA hc kB hc' hB2).2 hB hBC) hu hd vu vd

end

/-! ### The hypotheses are met -/

section
open Raft.Node Raft.Play Core.Play

/-- A request forwarded by replica 2 is answered there; then one made at replica 1 is answered. As `Linear.twice`, for any database. -/
def twoCalls (c : Site Nat D L E) : Option (GTab D E × GTab D E × GTab D E × (Nat × Option E) × (Nat × Option E)) :=
  match gplay c fast elected GTab.none with
  | none => none
  | some X => match serve c fast X 1 (.data [1]) 2 7 [flush 1, .give 2 2, .give 2 4, flush 2, .give 1 7, flush 1, .give 2 8, flush 2,
      .give 1 10, flush 1, .give 2 11, .call 2 .takeCommitted, .call 2 .takeCommitted, flush 2] with
    | none => none
    | some (Y, a) => match serve c fast Y 1 (.data [2]) 1 8 ([flush 1, .give 2 14, flush 2, .give 1 16, flush 1, .give 2 17, flush 2, .give 1 19] ++
        List.replicate 3 (.call 1 .takeCommitted)) with
      | none => none
      | some (Z, b) => some (X, Y, Z, a, b)

/-- Both calls, in a group that meets the hypotheses. -/
def Served (c : Site Nat D L E) (x y : E) : Prop := ∃ A A1 B C1 G : Grid Nat D E, Proper c.raft ∧ GReachable c A ∧ GReachable c G ∧
  NoCollision c.raft.v G.W.Hashed ∧ SerInj c.raft.v ∧ FixedVoters c.raft G.W ∧ Call c A A1 B (.data [1]) 2 (some x) ∧
  Call c B C1 G (.data [2]) 3 (some y)

theorem twoCalls_spec [DecidableEq E] {c : Site Nat D L E} (hc : c.raft = trio) {x y : E}
    (h : (match twoCalls c with
      | some (_, _, Z, a, b) => noColl (hashedBy Z.T) && requests Z.T (fun _ => false) && decide (a = (2, some x)) && decide (b = (3, some y))
      | none => false) = true) : Served c x y := by
  split at h
  · rename_i X Y Z a b e
    simp only [Bool.and_eq_true, decide_eq_true_eq] at h
    obtain ⟨⟨⟨h1, h2⟩, rfl⟩, rfl⟩ := h
    unfold twoCalls at e
    split at e
    · cases e
    rename_i X' e1
    split at e
    · cases e
    rename_i Y' a' e2
    split at e
    · cases e
    rename_i Z' b' e3
    obtain ⟨rfl, rfl, rfl, rfl, rfl⟩ : X' = X ∧ Y' = Y ∧ Z' = Z ∧ a' = _ ∧ b' = _ := by simpa using e
    have r := gplay_reachable e1
    obtain ⟨A1, c1⟩ := serve_call e2
    obtain ⟨C1, c2⟩ := serve_call e3
    refine ⟨X'.grid, A1, Y'.grid, C1, Z'.grid, ?_, r, (r.future (call_future c1)).future (call_future c2), ?_, ?_, ?_, c1, c2⟩
    · rw [hc]; exact ⟨⟨by simp [trio, SSorted], by simp [trio, SSorted]⟩, by simp [trio], by simp [trio], by simp [trio]⟩
    · rw [hc]; exact noColl_table h1
    · rw [hc]; exact serInj_steady
    · rw [hc]; exact fun m hm => absurd (requests_spec (g := trio) rfl h2 hm) (by decide)
  · cases h

def rq3 : Bytes → Option Svr.DB3.Log
  | [1] => some ⟨DB3.ida, .create 2 DB3.elt, DB3.key⟩
  | [2] => some ⟨DB3.ida, .evaluate DB3.elt, []⟩
  | _ => none

def site3 : Site Nat Svr.DB3.DB Svr.DB3.Log Svr.DB3.Resp := ⟨trio, svr3 DB3.P0 rq3, fun _ => none, fun p => [UInt8.ofNat p]⟩

set_option maxRecDepth 100000 in
/-- SVR3: a Create with two tries, then an Evaluate with one left. -/
example : Served site3 (.create .ok (List.replicate 32 12)) (.evaluate .ok (List.replicate 32 12) 1) := twoCalls_spec rfl (by decide +kernel)

def rq4 : Bytes → Option Svr.DB4.Log
  | [1] => some ⟨DB4.ida, DB4.mk 2⟩
  | [2] => some ⟨DB4.ida, .restore1 DB4.elt⟩
  | _ => none

def site4 : Site Nat Svr.DB4.DB Svr.DB4.Log Svr.DB4.Effect := ⟨trio, svr4 DB4.P0 rq4, fun _ => none, fun p => [UInt8.ofNat p]⟩

set_option maxRecDepth 100000 in
/-- SVR4: a Create with two tries, then a Restore1 with one left. -/
example : Svr.DB4.SaddOK DB4.P0 ∧ Served site4 ⟨.create .ok 2, none⟩
    ⟨.restore1 .ok [(List.replicate 32 5, 7)] 1, some ⟨DB4.elt, DB4.sc2, [], 7, 0, DB4.elt⟩⟩ := ⟨DB4.P0_add, twoCalls_spec rfl (by decide +kernel)⟩

def rq5 : Bytes → Option Svr.DB5.Log
  | [1] => some ⟨DB5.ida, .upload DB5.d1⟩
  | [2] => some ⟨DB5.ida, .download DB5.pw⟩
  | _ => none

def site5 : Site Nat Svr.DB5.DB Svr.DB5.Log Svr.DB5.Resp := ⟨trio, svr5 DB5.P0 rq5, fun _ => none, fun p => [UInt8.ofNat p]⟩

set_option maxRecDepth 100000 in
/-- SVR5: an Upload, then a Download of it. -/
example : Served site5 (.upload .ok) (.download .ok (DB5.d1 ++ DB5.pw)) := twoCalls_spec rfl (by decide +kernel)

end

end Svr.Props.Family
