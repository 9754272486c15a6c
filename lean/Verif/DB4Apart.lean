import Verif.DB4Load

/-!
# A pending rotation of SVR4 is to another version than the current one
-/

namespace Svr.DB4
open Spec4

/-- The two versions of an account are different. -/
def Apart (db : DB) : Prop := ∀ a v p, look db a = some v → v.pending = some p → p.newVersion ≠ v.version

theorem apart_entry {P : Prims4} (hs : SaddOK P) {path : Bytes → Bool} {db db' : DB} {l : Log} {eff : Effect} (hi : Inv P db)
    (hv : validate P l = none) (h : run P path db l = .ok (db', eff)) (ha : Apart db) : Apart db' := by
  obtain ⟨d1, e1, k1, _, kelse, k2⟩ := run_cases P hs path db l hi hv
  rw [h] at k1
  cases k1
  intro a v p hl hp
  by_cases hid : a = l.id
  swap
  · refine ha a v p ?_ hp
    rw [← hl]
    simp only [look, (kelse a hid).1, (kelse a hid).2]
  rcases k2 with ⟨_, k2⟩ | ⟨_, rfl, _, _⟩
  swap
  · exact ha a v p hl hp
  rw [hid, k2] at hl
  have hold := ha l.id
  obtain ⟨id, req⟩ := l
  simp only at hl hold
  cases ho : look db id with
  | none =>
    rw [ho] at hl
    cases req with
    | create n o au e z ver =>
      simp only [astep] at hl
      split at hl
      · cases hl
      · cases hl; cases hp
    | _ => simp [astep] at hl
  | some w =>
    have hw := fun q hq => hold w q ho hq
    rw [ho] at hl
    cases req with
    | create n o au e z ver =>
      simp only [astep, Option.some.injEq] at hl
      subst hl
      cases hp
    | restore1 b =>
      simp only [astep] at hl
      split at hl
      · cases hl
      · cases hl
        exact hw p hp
    | remove => simp [astep] at hl
    | query =>
      simp only [astep, Option.some.injEq] at hl
      subst hl
      exact hw p hp
    | rotateStart ver od ed =>
      simp only [astep] at hl
      split at hl
      · cases hl; exact hw p hp
      · split at hl
        · cases hl; exact hw p hp
        · rename_i hne
          cases hl
          cases hp
          exact hne
    | rotateCommit ver =>
      simp only [astep] at hl
      split at hl
      · cases hl; exact hw p hp
      · split at hl
        · cases hl; simp [rotated] at hp
        · cases hl; exact hw p hp
    | rotateRollback ver =>
      simp only [astep] at hl
      split at hl
      · cases hl; exact hw p hp
      · split at hl
        · cases hl; cases hp
        · cases hl; exact hw p hp
    | restore2 _ _ _ =>
      simp only [astep, Option.some.injEq] at hl
      subst hl
      exact hw p hp
    | unset =>
      simp only [astep, Option.some.injEq] at hl
      subst hl
      exact hw p hp

/-- Rows in which the versions, as loaded, are different. -/
def WireApart (o : Option RowPB) : Prop := ∀ x, o = some x → x.newVersion ≠ 0 → x.newVersion.toUInt32 ≠ x.version.toUInt32

theorem apart_loadLoop {P : Prims4} : ∀ (rows : List (Option RowPB)) {db db' : DB} {e : Option Err}, Inv P db → (∀ o ∈ rows, Wire o) →
    (∀ o ∈ rows, WireApart o) → Apart db → loadLoopG (loadRow P) db rows = .ok (db', e) → Apart db'
  | [], db, db', e, hi, hw, hwa, ha, h => by cases h; exact ha
  | o :: rows, db, db', e, hi, hw, hwa, ha, h => by
    have hwo := hw o List.mem_cons_self
    rcases loadRow_cases P db (inv_rots hi) o with ⟨x, rfl, hl, _⟩ | ⟨e', h', _⟩ | ⟨x, rfl, hok, hlt, h'⟩
    · have := (hwo x rfl).1; omega
    · simp only [loadLoopG, h', Out.bind_ok, Out.pure_eq] at h
      cases h
      exact ha
    · simp only [loadLoopG, h', Out.bind_ok] at h
      refine apart_loadLoop rows (inv_put hi (entOfPB_ok P hok (hwo x rfl).2)) (fun o ho => hw o (List.mem_cons_of_mem _ ho))
        (fun o ho => hwa o (List.mem_cons_of_mem _ ho)) ?_ h
      intro a v p hl hp
      by_cases hid : x.id = a
      · subst hid
        simp only [look, OMap.find_set_self, Option.map_some, Option.some.injEq] at hl
        subst hl
        simp only [abs, rotOfPB] at hp
        split at hp
        · cases hp
        · rename_i hn
          cases hp
          exact hwa (some x) List.mem_cons_self x rfl hn
      · refine ha a v p ?_ hp
        rw [← hl]
        simp only [look, OMap.find_set_ne _ _ hid]

/-- Rows emitted by a database whose versions are apart. -/
theorem emitted_apart {P : Prims4} {db : DB} (hi : Inv P db) (h : Apart db) {c : Bytes} {n : Nat} {k : Bytes} {rows : List RowPB}
    (he : rowsAsProtos db c n = .ok (.ok (k, rows))) : ∀ o ∈ rows.map some, WireApart o := by
  have hsub : ∀ (l : List (Bytes × Row)) (rr : List (Bytes × Rot)), (∀ p ∈ l, p ∈ db.rows.list) →
      (∀ p ∈ rr, p ∈ db.rot.list) → ∀ o ∈ ((zipRot l rr).1.map (fun p => rowToPB p.1 p.2)).map some, WireApart o := by
    intro l rr hl hr o ho y hy
    simp only [List.map_map, List.mem_map, Function.comp] at ho
    obtain ⟨p, hp, rfl⟩ := ho
    cases hy
    obtain ⟨m1, m2⟩ := zipRot_mem l rr p hp
    have hrow := OMap.mem_list.mp (hl _ m1)
    obtain ⟨id, r, o⟩ := p
    cases o with
    | none => intro hne; exact absurd rfl hne
    | some x =>
      intro _
      have hx := OMap.mem_list.mp (hr _ (m2 x rfl))
      show x.newVersion.toUInt64.toUInt32 ≠ r.version.toUInt64.toUInt32
      rw [u64_u32, u64_u32]
      refine h id (abs r (some x)) x ?_ rfl
      simp only at hrow hx
      simp only [look, hrow, hx, Option.map_some]
  have hub : ∀ {V} (m : OMap Bytes V) (p), p ∈ m.upperBound c → p ∈ m.list := by
    intro V m p hp
    exact (List.dropWhile_sublist _).subset hp
  unfold rowsAsProtos at he
  split at he
  · simp only [Out.ok.injEq, Except.ok.injEq, Prod.mk.injEq] at he
    rw [← he.2]
    exact hsub _ _ (fun p hp => List.mem_of_mem_take hp) (fun p hp => hp)
  · split at he
    · simp at he
    · split at he
      · simp at he
      · simp only [Out.ok.injEq, Except.ok.injEq, Prod.mk.injEq] at he
        rw [← he.2]
        exact hsub _ _ (fun p hp => hub _ _ (List.mem_of_mem_take hp)) (fun p hp => hub _ _ hp)

theorem replica_apart {P : Prims4} (hs : SaddOK P) {db : DB} (h : ReplicaReach P db) : Apart db := by
  induction h with
  | empty => intro a v p hl; simp [look, DB4.empty] at hl
  | @entry db db' path l eff hr hv hrun ih => exact apart_entry hs (reach_inv hs (replica_reach hs hr)) hv hrun ih
  | @load db db' src c k n rows res hr hr2 he hl ih1 ih2 =>
    have hi2 := reach_inv hs (replica_reach hs hr2)
    have hl' := hl
    unfold loadRows at hl
    obtain ⟨⟨d1, e⟩, h1, hl⟩ := Out.bind_eq_ok.mp hl
    have := apart_loadLoop _ (reach_inv hs (replica_reach hs hr)) (emitted_wire hi2 he) (emitted_apart hi2 ih2 he) ih1 h1
    simp only at hl
    cases e with
    | some e => cases hl; exact this
    | none =>
      simp only at hl
      split at hl <;> cases hl <;> exact this

end Svr.DB4
