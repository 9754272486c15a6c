import Verif.Locks.Lang
import Verif.Spec.Locks

/-!
Lock ordering: if mutexes are only ever locked in the order of a rank, no circle of waiting threads arises.

`OkCmd h c` says that `c`, run by a thread whose highest held rank is `h`, only locks mutexes of greater rank,
where a call of `f` is fine if `h` is at most `lim f`.
-/

namespace Svr.Locks

variable {F A : Type} [DecidableEq A] (rank : Cls → Nat) (lim : F → Nat)

/-- `c` keeps to the order when run while holding mutexes of rank at most `h`. -/
def OkCmd (h : Nat) : Cmd F A → Prop
  | .skip => True
  | .seq a b => OkCmd h a ∧ OkCmd h b
  | .alt a b => OkCmd h a ∧ OkCmd h b
  | .loop a => OkCmd h a
  | .any g => ∀ n, OkCmd h (g n)
  | .locked l a => h < rank l.cls ∧ OkCmd (rank l.cls) a
  | .call f => h ≤ lim f
  | .put _ => True
  | .take p k => ∀ x, p x = true → OkCmd h (k x)
  | .load _ a b => OkCmd h a ∧ OkCmd h b
  | .exchange _ a b => OkCmd h a ∧ OkCmd h b
  | .lost _ => True

/-- The highest rank held by a thread with this stack. -/
def level : List (Item F A) → Nat
  | [] => 0
  | .rel m :: _ => rank m.cls
  | _ :: k => level k

/-- Everything on the stack keeps to the order. -/
def OkStack : List (Item F A) → Prop
  | [] => True
  | .run c :: k => OkCmd rank lim (level rank k) c ∧ OkStack k
  | .want m a :: k => level rank k < rank m.cls ∧ OkCmd rank lim (rank m.cls) a ∧ OkStack k
  | .rel m :: k => level rank k < rank m.cls ∧ OkStack k

/-- The mutexes a stack will unlock. -/
def rels : List (Item F A) → List Lock
  | [] => []
  | .rel m :: k => m :: rels k
  | _ :: k => rels k

omit [DecidableEq A] in
theorem OkCmd.mono {c : Cmd F A} : ∀ {h h' : Nat}, h' ≤ h → OkCmd rank lim h c → OkCmd rank lim h' c := by
  induction c with
  | skip => intros; trivial
  | seq a b iha ihb => intro h h' l o; exact ⟨iha l o.1, ihb l o.2⟩
  | alt a b iha ihb => intro h h' l o; exact ⟨iha l o.1, ihb l o.2⟩
  | loop a iha => intro h h' l o; exact iha l o
  | any g ih => intro h h' l o n; exact ih n l (o n)
  | locked m a _ => intro h h' l o; exact ⟨Nat.lt_of_le_of_lt l o.1, o.2⟩
  | call f => intro h h' l o; exact Nat.le_trans l o
  | put x => intros; trivial
  | take p k ih => intro h h' l o x hx; exact ih x l (o x hx)
  | load x a b iha ihb => intro h h' l o; exact ⟨iha l o.1, ihb l o.2⟩
  | exchange x a b iha ihb => intro h h' l o; exact ⟨iha l o.1, ihb l o.2⟩
  | lost a _ => intros; trivial

omit [DecidableEq A] in
theorem level_ge {k : List (Item F A)} (o : OkStack rank lim k) : ∀ m ∈ rels k, rank m.cls ≤ level rank k := by
  induction k with
  | nil => intro m h; cases h
  | cons i k ih =>
    cases i with
    | run c => exact ih o.2
    | want m a => exact ih o.2.2
    | rel m =>
      intro m' h
      rcases List.mem_cons.mp h with e | e
      · subst e; exact Nat.le_refl _
      · exact Nat.le_of_lt (Nat.lt_of_le_of_lt (ih o.2 m' e) o.1)

/-- What holds between steps. -/
structure Inv (s : St F A) : Prop where
  ok : ∀ t, OkStack rank lim (s.stack t)
  own : ∀ t m, s.owner m = some t ↔ m ∈ rels (s.stack t)
  nodup : ∀ t, (rels (s.stack t)).Nodup

omit [DecidableEq A] in
theorem inv_init : Inv rank lim (St.init : St F A) :=
  ⟨fun _ => trivial, fun t m => by simp [St.init, rels], fun _ => List.nodup_nil⟩

variable {body : F → Cmd F A} {entries : List F}

theorem upd_same {α β : Type} [DecidableEq α] (f : α → β) (a : α) (b : β) : upd f a b a = b := by simp [upd]
theorem upd_ne {α β : Type} [DecidableEq α] (f : α → β) {a x : α} (b : β) (h : x ≠ a) : upd f a b x = f x := by
  simp [upd, h]

theorem runCmd_ok (hb : ∀ f, OkCmd rank lim (lim f) (body f)) {n pool flag c k r}
    (o : OkStack rank lim (.run c :: k)) (h : runCmd body false n pool flag c k = some r) :
    OkStack rank lim r.1 ∧ rels r.1 = rels k := by
  cases c with
  | skip => cases h; exact ⟨o.2, rfl⟩
  | seq a b => cases h; exact ⟨⟨o.1.1, o.1.2, o.2⟩, rfl⟩
  | alt a b =>
    cases h
    refine ⟨⟨?_, o.2⟩, rfl⟩
    split
    · exact o.1.1
    · exact o.1.2
  | loop a =>
    cases h
    dsimp only
    split
    · exact ⟨o.2, rfl⟩
    · exact ⟨⟨o.1, o.1, o.2⟩, rfl⟩
  | any g => cases h; exact ⟨⟨o.1 n, o.2⟩, rfl⟩
  | locked m a => cases h; exact ⟨⟨o.1.1, o.1.2, o.2⟩, rfl⟩
  | call f => cases h; exact ⟨⟨OkCmd.mono rank lim o.1 (hb f), o.2⟩, rfl⟩
  | put x => cases h; exact ⟨o.2, rfl⟩
  | take p g =>
    simp only [runCmd] at h
    cases e : (pool.filter p)[n]? with
    | none => rw [e] at h; cases h; exact ⟨o.2, rfl⟩
    | some x =>
      rw [e] at h
      cases h
      have hx : x ∈ pool.filter p := List.mem_of_getElem? e
      exact ⟨⟨o.1 x (List.mem_filter.mp hx).2, o.2⟩, rfl⟩
  | load x a b =>
    cases h
    refine ⟨⟨?_, o.2⟩, rfl⟩
    split
    · exact o.1.1
    · exact o.1.2
  | exchange x a b =>
    cases h
    refine ⟨⟨?_, o.2⟩, rfl⟩
    split
    · exact o.1.1
    · exact o.1.2
  | lost a => simp [runCmd] at h

theorem inv_step (hb : ∀ f, OkCmd rank lim (lim f) (body f)) {s s' : St F A} {t n : Nat} (i : Inv rank lim s)
    (h : step body entries false s t n = some s') : Inv rank lim s' := by
  have hok := i.ok t
  have hnd := i.nodup t
  have hown := i.own
  unfold step at h
  cases e : s.stack t with
  | nil =>
    rw [e] at h
    simp only [Option.map_eq_some_iff] at h
    obtain ⟨f, _, h⟩ := h
    subst h
    refine ⟨fun u => ?_, fun u m => ?_, fun u => ?_⟩
    · by_cases hu : u = t
      · subst hu; simp only [upd_same]; exact ⟨Nat.zero_le _, trivial⟩
      · simp only [upd_ne _ _ hu]; exact i.ok u
    · by_cases hu : u = t
      · subst hu; simp only [upd_same]; rw [i.own u m, e]; rfl
      · simp only [upd_ne _ _ hu]; exact i.own u m
    · by_cases hu : u = t
      · subst hu; simp only [upd_same]; exact List.nodup_nil
      · simp only [upd_ne _ _ hu]; exact i.nodup u
  | cons it k =>
    rw [e] at h hok hnd
    cases it with
    | run c =>
      simp only [Option.map_eq_some_iff] at h
      obtain ⟨r, hr, h⟩ := h
      subst h
      have ⟨ok', rl⟩ := runCmd_ok rank lim hb hok hr
      refine ⟨fun u => ?_, fun u m => ?_, fun u => ?_⟩
      · by_cases hu : u = t
        · subst hu; simp only [upd_same]; exact ok'
        · simp only [upd_ne _ _ hu]; exact i.ok u
      · by_cases hu : u = t
        · subst hu; simp only [upd_same]; rw [i.own u m, e, rl]; rfl
        · simp only [upd_ne _ _ hu]; exact i.own u m
      · by_cases hu : u = t
        · subst hu; simp only [upd_same, rl]; exact hnd
        · simp only [upd_ne _ _ hu]; exact i.nodup u
    | want m a =>
      dsimp only at h
      split at h
      · next hfree =>
        cases h
        refine ⟨fun u => ?_, fun u m' => ?_, fun u => ?_⟩
        · by_cases hu : u = t
          · subst hu; simp only [upd_same]; exact ⟨hok.2.1, hok.1, hok.2.2⟩
          · simp only [upd_ne _ _ hu]; exact i.ok u
        · by_cases hm : m' = m
          · subst hm
            simp only [upd_same]
            by_cases hu : u = t
            · subst hu; simp [upd_same, rels]
            · simp only [upd_ne _ _ hu, Option.some.injEq]
              constructor
              · intro h; exact absurd h.symm hu
              · intro h; rw [(i.own u m').mpr h] at hfree; cases hfree
          · simp only [upd_ne _ _ hm]
            by_cases hu : u = t
            · subst hu; simp only [upd_same]; rw [i.own u m', e]; simp [rels, hm]
            · simp only [upd_ne _ _ hu]; exact i.own u m'
        · by_cases hu : u = t
          · subst hu
            simp only [upd_same]
            refine List.nodup_cons.mpr ⟨fun h => ?_, hnd⟩
            have := (i.own u m).mpr (by rw [e]; exact h)
            rw [this] at hfree; cases hfree
          · simp only [upd_ne _ _ hu]; exact i.nodup u
      · cases h
    | rel m =>
      cases h
      have hmine : s.owner m = some t := (i.own t m).mpr (by rw [e]; exact List.mem_cons_self)
      have hnd' : m ∉ rels k ∧ (rels k).Nodup := List.nodup_cons.mp hnd
      refine ⟨fun u => ?_, fun u m' => ?_, fun u => ?_⟩
      · by_cases hu : u = t
        · subst hu; simp only [upd_same]; exact hok.2
        · simp only [upd_ne _ _ hu]; exact i.ok u
      · by_cases hm : m' = m
        · subst hm
          simp only [upd_same]
          by_cases hu : u = t
          · subst hu; simp only [upd_same]; simp [hnd'.1]
          · simp only [upd_ne _ _ hu]
            constructor
            · intro h; cases h
            · intro h
              have := (i.own u m').mpr h
              rw [hmine] at this; cases this; exact absurd rfl hu
        · simp only [upd_ne _ _ hm]
          by_cases hu : u = t
          · subst hu; simp only [upd_same]; rw [i.own u m', e]; simp [rels, hm]
          · simp only [upd_ne _ _ hu]; exact i.own u m'
      · by_cases hu : u = t
        · subst hu; simp only [upd_same]; exact hnd'.2
        · simp only [upd_ne _ _ hu]; exact i.nodup u

theorem inv_reach (hb : ∀ f, OkCmd rank lim (lim f) (body f)) {s : St F A} (r : Reach body entries false s) :
    Inv rank lim s := by
  induction r with
  | init => exact inv_init rank lim
  | step t n _ h ih => exact inv_step rank lim hb ih h

open Svr.Spec.Locks

omit [DecidableEq A] in
/-- Along the chain of waiting threads the wanted mutexes have growing rank. -/
theorem rank_lt {s : St F A} (i : Inv rank lim s) {u : Nat} {m m' : Lock} (ho : s.owner m = some u)
    (hw' : s.wants u m') : rank m.cls < rank m'.cls := by
  obtain ⟨a, k, e⟩ := hw'
  have hm : m ∈ rels (s.stack u) := (i.own u m).mp ho
  have ok := i.ok u
  rw [e] at hm ok
  exact Nat.lt_of_le_of_lt (level_ge rank lim ok.2.2 m hm) ok.1

omit [DecidableEq A] in
theorem chain_rank {s : St F A} (i : Inv rank lim s) {t u : Nat}
    (h : Relation.TransGen (WaitsFor s.wants s.owner) t u) :
    ∃ m, s.wants t m ∧ ∀ m', s.wants u m' → rank m.cls < rank m'.cls := by
  induction h with
  | single h =>
    obtain ⟨m, hw, ho⟩ := h
    exact ⟨m, hw, fun m' hw' => rank_lt rank lim i ho hw'⟩
  | tail _ h ih =>
    obtain ⟨m, hw, hlt⟩ := ih
    obtain ⟨m1, hw1, ho1⟩ := h
    exact ⟨m, hw, fun m' hw' => Nat.lt_trans (hlt m1 hw1) (rank_lt rank lim i ho1 hw')⟩

omit [DecidableEq A] in
theorem wants_unique {s : St F A} {t : Nat} {m m' : Lock} (h : s.wants t m) (h' : s.wants t m') : m = m' := by
  obtain ⟨a, k, e⟩ := h
  obtain ⟨a', k', e'⟩ := h'
  rw [e] at e'
  cases e'
  rfl

omit [DecidableEq A] in
theorem no_deadlock {s : St F A} (i : Inv rank lim s) : ¬ Deadlock s.wants s.owner := by
  rintro ⟨t, h⟩
  obtain ⟨m, hw, hlt⟩ := chain_rank rank lim i h
  exact Nat.lt_irrefl _ (hlt m hw)

/-- A thread that is not idle and not inside `lock()` can go on, unless it stands before the marked branch. -/
def canGo (body : F → Cmd F A) (entries : List F) (l : Bool) (s : St F A) (t : Nat) : Prop :=
  ∃ n s', step body entries l s t n = some s'

theorem runCmd_some (n pool flag) (c : Cmd F A) (k) : ∃ r, runCmd body true n pool flag c k = some r := by
  cases c <;> simp only [runCmd] <;> first | exact ⟨_, rfl⟩ | skip
  · split <;> exact ⟨_, rfl⟩

/-- Whoever is running either can go on or waits for a mutex. -/
theorem go_or_wait {s : St F A} (t : Nat) (h : s.stack t ≠ []) :
    canGo body entries true s t ∨ ∃ m u, s.wants t m ∧ s.owner m = some u := by
  unfold canGo step
  cases e : s.stack t with
  | nil => exact absurd e h
  | cons it k =>
    cases it with
    | run c =>
      obtain ⟨r, hr⟩ := runCmd_some (body := body) 0 s.pool s.flag c k
      exact .inl ⟨0, _, by simp [hr]; rfl⟩
    | want m a =>
      cases ho : s.owner m with
      | none => exact .inl ⟨0, _, by simp [ho]; rfl⟩
      | some u => exact .inr ⟨m, u, ⟨a, k, e⟩, ho⟩
    | rel m => exact .inl ⟨0, _, rfl⟩

theorem someone_goes_on (hr : ∀ c, rank c ≤ 20) {s : St F A} (i : Inv rank lim s) {t : Nat} (h : s.stack t ≠ []) :
    SomeoneGoesOn s.wants s.owner (canGo body entries true s) t := by
  have key : ∀ d t, (∀ m, s.wants t m → 20 ≤ rank m.cls + d) → s.stack t ≠ [] →
      SomeoneGoesOn s.wants s.owner (canGo body entries true s) t := by
    intro d
    induction d with
    | zero =>
      intro t hd ht
      rcases go_or_wait (body := body) (entries := entries) t ht with hg | ⟨m, u, hw, ho⟩
      · exact ⟨t, .refl, hg⟩
      · have hu : s.stack u ≠ [] := by
          intro e
          have := (i.own u m).mp ho
          rw [e] at this; cases this
        rcases go_or_wait (body := body) (entries := entries) u hu with hg | ⟨m', u', hw', _⟩
        · exact ⟨u, .single ⟨m, hw, ho⟩, hg⟩
        · have h1 := rank_lt rank lim i ho hw'
          have h2 := hd m hw
          have h3 := hr m'.cls
          omega
    | succ d ih =>
      intro t hd ht
      rcases go_or_wait (body := body) (entries := entries) t ht with hg | ⟨m, u, hw, ho⟩
      · exact ⟨t, .refl, hg⟩
      · have hu : s.stack u ≠ [] := by
          intro e
          have := (i.own u m).mp ho
          rw [e] at this; cases this
        obtain ⟨v, hv, hg⟩ := ih u (fun m' hw' => by
          have h1 := rank_lt rank lim i ho hw'
          have h2 := hd m hw
          omega) hu
        exact ⟨v, .head ⟨m, hw, ho⟩ hv, hg⟩
  exact key 20 t (fun m _ => by omega) h

theorem exec_reach {l : Bool} : ∀ (sch : List (Nat × Nat)) {s s' : St F A}, Reach body entries l s →
    exec body entries l sch s = some s' → Reach body entries l s'
  | [], s, s', r, h => by cases h; exact r
  | (t, n) :: sch, s, s', r, h => by
    simp only [exec, Option.bind_eq_some_iff] at h
    obtain ⟨s1, h1, h2⟩ := h
    exact exec_reach sch (.step t n r h1) h2

end Svr.Locks
