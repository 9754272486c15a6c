import Verif.Env.TmpDir
import Verif.Props.Codec

/-!
# C95: temporary directories
-/

namespace Svr.Props.TmpDir

open Svr Svr.TmpDir

/-! ## Specification -/

/-- The names in a directory. -/
def names : Forest → List Bytes
  | .nil => []
  | .node n _ _ x => n :: names x

/-- In no directory is a name twice. -/
def Distinct : Forest → Prop
  | .nil => True
  | .node n _ b x => n ∉ names x ∧ Distinct b ∧ Distinct x

/-- `e` cannot be removed: it, or something below it, is neither a directory nor a regular file, or the system refuses. -/
def Stuck (fails : Path → Bool) (all : Fs) (e : Path × Kind) : Prop :=
  ∃ r ∈ all, e.1 <+: r.1 ∧ (r.2 = .other ∨ fails r.1 = true)

/-- A file system: what has a name in it is in a directory that has one, up to the root. -/
def Closed (fs : Fs) : Prop := ∀ p n k, (p ++ [n], k) ∈ fs → p = [] ∨ ∃ k', (p, k') ∈ fs

/-! ## Helpers -/

/-- What is left in directory `p`. -/
def left (fails : Path → Bool) (p : Path) : Forest → Fs
  | .nil => []
  | .node n .dir b x =>
    (if left fails (p ++ [n]) b = [] ∧ fails (p ++ [n]) = false then [] else (p ++ [n], .dir) :: left fails (p ++ [n]) b) ++ left fails p x
  | .node n .file _ x => (if fails (p ++ [n]) = false then [] else [(p ++ [n], .file)]) ++ left fails p x
  | .node n .other _ x => (p ++ [n], .other) :: left fails p x

theorem entries_below {p : Path} {f : Forest} {e : Path × Kind} (h : e ∈ entries p f) : ∃ n ∈ names f, p ++ [n] <+: e.1 := by
  induction f generalizing p with
  | nil => cases h
  | node n k b x ihb ihx =>
    have hx : e ∈ entries p x → ∃ m ∈ names (.node n k b x), p ++ [m] <+: e.1 := fun h => by
      obtain ⟨m, h1, h2⟩ := ihx h
      exact ⟨m, List.mem_cons_of_mem _ h1, h2⟩
    cases k with
    | dir =>
      rcases List.mem_cons.mp h with rfl | h
      · exact ⟨n, List.mem_cons_self, List.prefix_rfl⟩
      · rcases List.mem_append.mp h with h | h
        · obtain ⟨m, -, h2⟩ := ihb h
          exact ⟨n, List.mem_cons_self, (List.prefix_append _ _).trans h2⟩
        · exact hx h
    | file =>
      rcases List.mem_cons.mp h with rfl | h
      · exact ⟨n, List.mem_cons_self, List.prefix_rfl⟩
      · exact hx h
    | other =>
      rcases List.mem_cons.mp h with rfl | h
      · exact ⟨n, List.mem_cons_self, List.prefix_rfl⟩
      · exact hx h

theorem left_sub {fails : Path → Bool} {p : Path} {f : Forest} {e : Path × Kind} (h : e ∈ left fails p f) : e ∈ entries p f := by
  induction f generalizing p with
  | nil => cases h
  | node n k b x ihb ihx =>
    cases k with
    | dir =>
      simp only [left, List.mem_append] at h
      simp only [entries, List.mem_cons, List.mem_append]
      rcases h with h | h
      · split at h
        · cases h
        · rcases List.mem_cons.mp h with h | h
          · exact .inl h
          · exact .inr (.inl (ihb h))
      · exact .inr (.inr (ihx h))
    | file =>
      simp only [left, List.mem_append] at h
      simp only [entries, List.mem_cons]
      rcases h with h | h
      · split at h
        · cases h
        · exact .inl (List.mem_singleton.mp h)
      · exact .inr (ihx h)
    | other =>
      simp only [left, List.mem_cons] at h
      simp only [entries, List.mem_cons]
      exact h.imp id ihx

theorem two_names {p : Path} {n m : Bytes} {q : Path} (h1 : p ++ [n] <+: q) (h2 : p ++ [m] <+: q) : n = m := by
  have := List.prefix_of_prefix_length_le h1 h2 (by simp)
  have := this.eq_of_length (by simp)
  simpa using this

theorem prefix_below {p q : Path} {n : Bytes} (h : p <+: q) (hne : p ≠ q) : ∃ m, p ++ [m] <+: q := by
  obtain ⟨t, rfl⟩ := h
  cases t with
  | nil => simp at hne
  | cons m t => exact ⟨m, t, by simp⟩

theorem remove_stays {fails : Path → Bool} {fs : Fs} {q : Path} (h : fails q = true ∨ ∃ e ∈ fs, q <+: e.1 ∧ q ≠ e.1) : remove fails fs q = fs :=
  if_pos h

theorem remove_one {fails : Path → Bool} {A C : Fs} {q : Path} {k : Kind} (hf : fails q = false) (hA : ∀ e ∈ A, ¬ q <+: e.1)
    (hC : ∀ e ∈ C, ¬ q <+: e.1) : remove fails (A ++ (q, k) :: C) q = A ++ C := by
  have h : ∀ l : Fs, (∀ e ∈ l, ¬ q <+: e.1) → (l.filter fun e => decide (e.1 ≠ q)) = l := by
    intro l hl
    refine List.filter_eq_self.mpr fun e he => ?_
    simp only [decide_eq_true_eq]
    rintro rfl
    exact hl e he List.prefix_rfl
  unfold remove
  rw [if_neg, List.filter_append, List.filter_cons_of_neg (by simp), h A hA, h C hC]
  rintro (h1 | ⟨e, h1, h2, h3⟩)
  · rw [hf] at h1; cases h1
  · rcases List.mem_append.mp h1 with h1 | h1
    · exact hA e h1 h2
    · rcases List.mem_cons.mp h1 with rfl | h1
      · exact h3 rfl
      · exact hC e h1 h2

theorem loop_left {fails : Path → Bool} (f : Forest) : ∀ (p : Path) (A C : Fs), Distinct f →
    (∀ n ∈ names f, ∀ e, e ∈ A ∨ e ∈ C → ¬ p ++ [n] <+: e.1) →
    (visits p f).foldl (visit fails) (A ++ entries p f ++ C) = A ++ left fails p f ++ C := by
  induction f with
  | nil => intro p A C _ _; rfl
  | node n k b x ihb ihx =>
    intro p A C hd h
    obtain ⟨hn, hdb, hdx⟩ := hd
    have hnx : ∀ e ∈ entries p x, ¬ p ++ [n] <+: e.1 := by
      intro e he hp
      obtain ⟨m, hm, hp'⟩ := entries_below he
      exact hn (two_names hp hp' ▸ hm)
    have hX : ∀ B : Fs, (∀ e ∈ B, p ++ [n] <+: e.1) → (visits p x).foldl (visit fails) (A ++ B ++ entries p x ++ C) =
        A ++ B ++ left fails p x ++ C := by
      intro B hB
      refine ihx p (A ++ B) C hdx fun m hm e he hp => ?_
      rcases he with he | he
      · rcases List.mem_append.mp he with he | he
        · exact h m (List.mem_cons_of_mem _ hm) e (.inl he) hp
        · exact hn (two_names (hB e he) hp ▸ hm)
      · exact h m (List.mem_cons_of_mem _ hm) e (.inr he) hp
    have hA : ∀ e ∈ A, ¬ p ++ [n] <+: e.1 := fun e he => h n List.mem_cons_self e (.inl he)
    have hC : ∀ e ∈ C, ¬ p ++ [n] <+: e.1 := fun e he => h n List.mem_cons_self e (.inr he)
    have hC' : ∀ e ∈ entries p x ++ C, ¬ p ++ [n] <+: e.1 := fun e he => (List.mem_append.mp he).elim (hnx e) (hC e)
    cases k with
    | dir =>
      simp only [visits, List.foldl_cons, List.foldl_append, entries, left]
      have e1 := ihb (p ++ [n]) (A ++ [(p ++ [n], .dir)]) (entries p x ++ C) hdb (by
        intro m hm e he hp
        have hp' : p ++ [n] <+: e.1 := (List.prefix_append _ _).trans hp
        rcases he with he | he
        · rcases List.mem_append.mp he with he | he
          · exact hA e he hp'
          · cases List.mem_singleton.mp he
            have := hp.length_le
            simp at this
        · exact hC' e he hp')
      have e2 : A ++ (p ++ [n], Kind.dir) :: (entries (p ++ [n]) b ++ entries p x) ++ C =
          A ++ [(p ++ [n], Kind.dir)] ++ entries (p ++ [n]) b ++ (entries p x ++ C) := by simp
      rw [show visit fails (A ++ (p ++ [n], Kind.dir) :: (entries (p ++ [n]) b ++ entries p x) ++ C) (Info.d, p ++ [n]) =
        A ++ (p ++ [n], Kind.dir) :: (entries (p ++ [n]) b ++ entries p x) ++ C from rfl, e2, e1]
      rw [show ∀ fs, visit fails fs (Info.dp, p ++ [n]) = remove fails fs (p ++ [n]) from fun _ => rfl]
      by_cases hl : left fails (p ++ [n]) b = [] ∧ fails (p ++ [n]) = false
      · rw [if_pos hl, hl.1]
        rw [show A ++ [(p ++ [n], Kind.dir)] ++ [] ++ (entries p x ++ C) = A ++ (p ++ [n], Kind.dir) :: (entries p x ++ C) by simp,
          remove_one hl.2 hA hC']
        have := hX [] (fun _ h => (by cases h))
        simpa using this
      · rw [if_neg hl, remove_stays]
        · have := hX ((p ++ [n], .dir) :: left fails (p ++ [n]) b) (fun e he => by
            rcases List.mem_cons.mp he with rfl | he
            · exact List.prefix_rfl
            · obtain ⟨m, -, hm⟩ := entries_below (left_sub he)
              exact (List.prefix_append _ _).trans hm)
          simpa using this
        · by_cases hf : fails (p ++ [n]) = true
          · exact .inl hf
          · right
            obtain ⟨e, he⟩ := List.exists_mem_of_ne_nil _ (fun h0 => hl ⟨h0, by simpa using hf⟩)
            obtain ⟨m, -, hm⟩ := entries_below (left_sub he)
            refine ⟨e, by simp [he], (List.prefix_append _ _).trans hm, fun e' => ?_⟩
            rw [← e'] at hm
            have := hm.length_le
            simp at this
    | file =>
      simp only [visits, List.foldl_cons, entries, left]
      rw [show ∀ fs, visit fails fs (Info.f, p ++ [n]) = remove fails fs (p ++ [n]) from fun _ => rfl,
        show A ++ (p ++ [n], Kind.file) :: entries p x ++ C = A ++ (p ++ [n], Kind.file) :: (entries p x ++ C) by simp]
      by_cases hf : fails (p ++ [n]) = false
      · rw [if_pos hf, remove_one hf hA hC']
        have := hX [] (fun _ h => (by cases h))
        simpa using this
      · rw [if_neg hf, remove_stays (.inl (by simpa using hf))]
        have := hX [(p ++ [n], .file)] (fun e he => (by cases List.mem_singleton.mp he; exact List.prefix_rfl))
        simpa using this
    | other =>
      simp only [visits, List.foldl_cons, entries, left]
      have := hX [(p ++ [n], .other)] (fun e he => (by cases List.mem_singleton.mp he; exact List.prefix_rfl))
      simpa [visit] using this

theorem left_stuck {fails : Path → Bool} (f : Forest) : ∀ p, Distinct f → ∀ e, e ∈ left fails p f ↔ e ∈ entries p f ∧ Stuck fails (entries p f) e := by
  induction f with
  | nil => intro p _ e; simp [left, entries]
  | node n k b x ihb ihx =>
    intro p hd e
    obtain ⟨hn, hdb, hdx⟩ := hd
    have hnx : ∀ e ∈ entries p x, ¬ p ++ [n] <+: e.1 := by
      intro e he hp
      obtain ⟨m, hm, hp'⟩ := entries_below he
      exact hn (two_names hp hp' ▸ hm)
    -- what is in the rest is stuck by the rest
    have apart : ∀ {e r : Path × Kind}, e ∈ entries p x → p ++ [n] <+: r.1 → ¬ e.1 <+: r.1 := by
      intro e r he hr h
      obtain ⟨m, hm, hp'⟩ := entries_below he
      exact hn (two_names hr (hp'.trans h) ▸ hm)
    have hin : ∀ {e : Path × Kind}, e ∈ entries (p ++ [n]) b → p ++ [n] <+: e.1 := by
      intro e he
      obtain ⟨m, -, hm⟩ := entries_below he
      exact (List.prefix_append _ _).trans hm
    have long : ∀ {e : Path × Kind}, e ∈ entries (p ++ [n]) b → ¬ e.1 <+: p ++ [n] := by
      intro e he h
      obtain ⟨m, -, hm⟩ := entries_below he
      have := (hm.trans h).length_le
      simp at this
    cases k with
    | dir =>
      simp only [left, entries, List.mem_append, List.mem_cons, ihx p hdx]
      constructor
      · rintro (h | ⟨h1, r, h2, h3⟩)
        · split at h
          · cases h
          · rename_i hl
            rcases List.mem_cons.mp h with rfl | h
            · refine ⟨.inl rfl, ?_⟩
              by_cases hf : fails (p ++ [n]) = true
              · exact ⟨_, List.mem_cons_self, List.prefix_rfl, .inr hf⟩
              · obtain ⟨r, hr⟩ := List.exists_mem_of_ne_nil _ (fun h0 => hl ⟨h0, by simpa using hf⟩)
                obtain ⟨h1, r', h2, h3, h4⟩ := (ihb _ hdb r).mp hr
                exact ⟨r', List.mem_cons_of_mem _ (List.mem_append_left _ h2), (hin h1).trans h3, h4⟩
            · obtain ⟨h1, r', h2, h3⟩ := (ihb _ hdb e).mp h
              exact ⟨.inr (.inl h1), r', List.mem_cons_of_mem _ (List.mem_append_left _ h2), h3⟩
        · exact ⟨.inr (.inr h1), r, List.mem_cons_of_mem _ (List.mem_append_right _ h2), h3⟩
      · rintro ⟨h1, r, h2, h3, h4⟩
        rcases h1 with rfl | h1 | h1
        · left
          rw [if_neg]
          · exact List.mem_cons_self
          · rintro ⟨hl, hf⟩
            rcases List.mem_cons.mp h2 with rfl | h2
            · rcases h4 with h4 | h4
              · cases h4
              · rw [hf] at h4; cases h4
            · rcases List.mem_append.mp h2 with h2 | h2
              · have := (ihb _ hdb r).mpr ⟨h2, r, h2, List.prefix_rfl, h4⟩
                rw [hl] at this
                cases this
              · exact hnx r h2 h3
        · left
          have hr : r ∈ entries (p ++ [n]) b := by
            rcases List.mem_cons.mp h2 with rfl | h2
            · exact absurd h3 (long h1)
            · rcases List.mem_append.mp h2 with h2 | h2
              · exact h2
              · exact absurd ((hin h1).trans h3) (hnx r h2)
          have he := (ihb _ hdb e).mpr ⟨h1, r, hr, h3, h4⟩
          rw [if_neg]
          · exact List.mem_cons_of_mem _ he
          · rintro ⟨hl, -⟩
            rw [hl] at he
            cases he
        · right
          refine ⟨h1, r, ?_, h3, h4⟩
          rcases List.mem_cons.mp h2 with rfl | h2
          · exact absurd h3 (apart h1 List.prefix_rfl)
          · rcases List.mem_append.mp h2 with h2 | h2
            · exact absurd h3 (apart h1 (hin h2))
            · exact h2
    | file =>
      simp only [left, entries, List.mem_append, List.mem_cons, ihx p hdx]
      constructor
      · rintro (h | ⟨h1, r, h2, h3⟩)
        · split at h
          · cases h
          · rename_i hf
            cases List.mem_singleton.mp h
            exact ⟨.inl rfl, _, List.mem_cons_self, List.prefix_rfl, .inr (by simpa using hf)⟩
        · exact ⟨.inr h1, r, List.mem_cons_of_mem _ h2, h3⟩
      · rintro ⟨h1, r, h2, h3, h4⟩
        rcases h1 with rfl | h1
        · left
          have : fails (p ++ [n]) = true := by
            rcases List.mem_cons.mp h2 with rfl | h2
            · exact h4.resolve_left (by simp)
            · exact absurd h3 (hnx r h2)
          rw [if_neg (by simp [this])]
          exact List.mem_singleton.mpr rfl
        · right
          refine ⟨h1, r, ?_, h3, h4⟩
          rcases List.mem_cons.mp h2 with rfl | h2
          · exact absurd h3 (apart h1 List.prefix_rfl)
          · exact h2
    | other =>
      simp only [left, entries, List.mem_cons, ihx p hdx]
      constructor
      · rintro (rfl | ⟨h1, r, h2, h3⟩)
        · exact ⟨.inl rfl, _, List.mem_cons_self, List.prefix_rfl, .inl rfl⟩
        · exact ⟨.inr h1, r, List.mem_cons_of_mem _ h2, h3⟩
      · rintro ⟨h1, r, h2, h3, h4⟩
        rcases h1 with rfl | h1
        · exact .inl rfl
        · right
          refine ⟨h1, r, ?_, h3, h4⟩
          rcases List.mem_cons.mp h2 with rfl | h2
          · exact absurd h3 (apart h1 List.prefix_rfl)
          · exact h2

/-- File systems with the same names. -/
def Same (a b : Fs) : Prop := ∀ e, e ∈ a ↔ e ∈ b

theorem Same.remove {fails : Path → Bool} {a b : Fs} (h : Same a b) (q : Path) : Same (remove fails a q) (remove fails b q) := by
  have hc : (fails q = true ∨ ∃ e ∈ a, q <+: e.1 ∧ q ≠ e.1) ↔ (fails q = true ∨ ∃ e ∈ b, q <+: e.1 ∧ q ≠ e.1) := by
    refine or_congr Iff.rfl ⟨?_, ?_⟩
    · rintro ⟨e, h1, h2⟩; exact ⟨e, (h e).mp h1, h2⟩
    · rintro ⟨e, h1, h2⟩; exact ⟨e, (h e).mpr h1, h2⟩
  unfold Svr.TmpDir.remove
  by_cases hp : fails q = true ∨ ∃ e ∈ b, q <+: e.1 ∧ q ≠ e.1
  · rw [if_pos hp, if_pos (hc.mpr hp)]; exact h
  · rw [if_neg hp, if_neg (fun x => hp (hc.mp x))]
    intro e
    simp [List.mem_filter, h e]

theorem Same.loop {fails : Path → Bool} (vs : List (Info × Path)) : ∀ {a b : Fs}, Same a b → Same (vs.foldl (visit fails) a) (vs.foldl (visit fails) b) := by
  induction vs with
  | nil => exact id
  | cons x vs ih =>
    intro a b h
    refine ih ?_
    obtain ⟨i, q⟩ := x
    cases i
    · exact h
    · exact h.remove q
    · exact h.remove q
    · exact h

/-! ## Theorems -/

/-- **C95.** When the directory of a `TmpDir` is removed, exactly that is left in it that cannot be removed and what leads to it; nothing outside it
changes. -/
theorem C95_removed {fails : Path → Bool} {fs outside : Fs} {n : Bytes} {content : Forest} (hd : Distinct content)
    (ho : ∀ e ∈ outside, ¬ tmp ++ [n] <+: e.1)
    (hfs : ∀ e, e ∈ fs ↔ e ∈ outside ∨ e = (tmp ++ [n], .dir) ∨ e ∈ entries (tmp ++ [n]) content) (e : Path × Kind) :
    e ∈ destroy true fails fs (some n) content ↔ e ∈ outside ∨
      ((e = (tmp ++ [n], .dir) ∨ e ∈ entries (tmp ++ [n]) content) ∧ Stuck fails ((tmp ++ [n], .dir) :: entries (tmp ++ [n]) content) e) := by
  have hD : Distinct (.node n .dir content .nil) := ⟨by simp [names], hd, trivial⟩
  have hE : entries tmp (.node n .dir content .nil) = (tmp ++ [n], .dir) :: entries (tmp ++ [n]) content := by simp [entries]
  have hs : Same fs (outside ++ entries tmp (.node n .dir content .nil) ++ []) := by
    intro e
    rw [hfs, hE]
    simp
  have h := loop_left (fails := fails) (.node n .dir content .nil) tmp outside [] hD (by
    intro m hm e he
    rcases List.mem_cons.mp hm with rfl | hm
    · rcases he with he | he
      · exact ho e he
      · cases he
    · cases hm)
  show e ∈ (visits tmp (.node n .dir content .nil)).foldl (visit fails) fs ↔ _
  rw [Same.loop (fails := fails) _ hs e, h]
  simp only [List.append_nil, List.mem_append, left_stuck _ tmp hD e, hE, List.mem_cons]

/-- **C95.** A `TmpDir` that was set up has a directory of its own: nothing was at or below its name. -/
theorem C95_own {fs fs' : Fs} {name : Option Bytes} {random : Option Bytes} {cannot : Bool} {n : Bytes} (hc : Closed fs)
    (h : init fs name random cannot = .ok (fs', some n, none)) :
    name = none ∧ fs' = fs ++ [(tmp ++ [n], .dir)] ∧ ∀ e ∈ fs, ¬ tmp ++ [n] <+: e.1 := by
  unfold init at h
  split at h
  · simp at h
  · split at h
    · simp at h
    · rename_i bytes
      rw [Out.bind_eq_ok] at h
      obtain ⟨hx, -, h⟩ := h
      split at h
      · simp at h
      · rename_i hn
        simp only [Out.ok.injEq, Prod.mk.injEq, Option.some.injEq, and_true] at h
        obtain ⟨rfl, rfl⟩ := h
        refine ⟨rfl, rfl, ?_⟩
        have key : ∀ (t : Path) (k : Kind), (tmp ++ [pre ++ hx] ++ t, k) ∉ fs := by
          intro t
          induction t using List.reverseRecOn with
          | nil =>
            intro k hk
            exact hn (.inr ⟨_, hk, by simp⟩)
          | append_singleton t m ih =>
            intro k hk
            rw [← List.append_assoc] at hk
            rcases hc _ _ _ hk with h0 | ⟨k', h0⟩
            · simp [tmp] at h0
            · exact ih k' h0
        rintro ⟨q, k⟩ he ⟨t, rfl⟩
        exact key t k he

/-- **C95.** A `TmpDir` that was set up, filled with any directories and regular files, and destroyed leaves the file system as it was, if the system lets
all of it be removed. -/
theorem C95_leaves_nothing {fs fs' fs'' : Fs} {random : Option Bytes} {cannot : Bool} {n : Bytes} {content : Forest} {fails : Path → Bool}
    (hc : Closed fs) (h : init fs none random cannot = .ok (fs', some n, none)) (hd : Distinct content)
    (hu : ∀ e, e ∈ fs'' ↔ e ∈ fs' ∨ e ∈ entries (tmp ++ [n]) content)
    (hk : ∀ e ∈ entries (tmp ++ [n]) content, e.2 ≠ .other ∧ fails e.1 = false) (hn : fails (tmp ++ [n]) = false) (e : Path × Kind) :
    e ∈ destroy true fails fs'' (some n) content ↔ e ∈ fs := by
  obtain ⟨-, rfl, ho⟩ := C95_own hc h
  rw [C95_removed hd ho (by intro e; rw [hu]; simp [or_assoc])]
  refine ⟨?_, .inl⟩
  rintro (h | ⟨-, r, h2, -, h4⟩)
  · exact h
  · rcases List.mem_cons.mp h2 with rfl | h2
    · rcases h4 with h4 | h4
      · cases h4
      · rw [hn] at h4; cases h4
    · obtain ⟨a, b⟩ := hk r h2
      rcases h4 with h4 | h4
      · exact absurd h4 a
      · rw [b] at h4; cases h4

/-- **C95.** Without an error there is a name, and with one nothing has changed: neither the file system nor the name. In particular a directory that was
there before is not taken over, and not removed in the end. -/
theorem C95_init_errors {fs fs' : Fs} {name name' : Option Bytes} {random : Option Bytes} {cannot : Bool} {err : Option Err}
    (h : init fs name random cannot = .ok (fs', name', err)) :
    (err = none ↔ name = none ∧ name' ≠ none) ∧ (err ≠ none → fs' = fs ∧ name' = name) ∧
    (err ≠ none → name = none → ∀ opened fails content, destroy opened fails fs' name' content = fs) := by
  unfold init at h
  split at h
  · simp only [Out.ok.injEq, Prod.mk.injEq] at h
    obtain ⟨rfl, rfl, rfl⟩ := h
    simp
  · split at h
    · simp only [Out.ok.injEq, Prod.mk.injEq] at h
      obtain ⟨rfl, rfl, rfl⟩ := h
      simp [destroy]
    · rw [Out.bind_eq_ok] at h
      obtain ⟨hx, -, h⟩ := h
      split at h
      · simp only [Out.ok.injEq, Prod.mk.injEq] at h
        obtain ⟨rfl, rfl, rfl⟩ := h
        simp [destroy]
      · simp only [Out.ok.injEq, Prod.mk.injEq] at h
        obtain ⟨rfl, rfl, rfl⟩ := h
        simp

/-- **C95.** Setting up never aborts and is never undefined. -/
theorem C95_init_total (fs : Fs) (name : Option Bytes) (random : Option Bytes) (cannot : Bool) : ∃ r, init fs name random cannot = .ok r := by
  unfold init
  split
  · exact ⟨_, rfl⟩
  · split
    · exact ⟨_, rfl⟩
    · rename_i bytes
      obtain ⟨h, hh⟩ : ∃ h, Codec.bytesToHex bytes = .ok h := (Props.Codec.hexEnc_spells bytes).imp fun _ h => h.1
      rw [hh, Out.bind_ok]
      split <;> exact ⟨_, rfl⟩

/-- **C95.** `TmpDir`s alive at the same time have different directories, and moving one leaves a single owner. -/
theorem C95_exclusive {fs fs' fs1 fs2 : Fs} {r1 r2 : Option Bytes} {c1 c2 : Bool} {n1 n2 : Bytes} (h1 : init fs none r1 c1 = .ok (fs1, some n1, none))
    (hk : (tmp ++ [n1], .dir) ∈ fs') (h2 : init fs' none r2 c2 = .ok (fs2, some n2, none)) :
    n1 ≠ n2 ∧ ∀ name, (move name).1 = name ∧ (move name).2 = none := by
  refine ⟨?_, fun _ => ⟨rfl, rfl⟩⟩
  rintro rfl
  unfold init at h2
  simp only at h2
  split at h2
  · simp at h2
  · rw [Out.bind_eq_ok] at h2
    obtain ⟨hx, -, h⟩ := h2
    split at h
    · simp at h
    · rename_i hn
      simp only [Out.ok.injEq, Prod.mk.injEq, Option.some.injEq, and_true] at h
      rw [← h.2] at hk
      exact hn (.inr ⟨_, hk, rfl⟩)

/-! ## Examples -/

/-- `/tmp` and a file in it. -/
def before : Fs := [(tmp, .dir), (tmp ++ [[65]], .file)]

/-- A file and a directory with a file. -/
def files : Forest := .node [97] .file .nil (.node [98] .dir (.node [99] .file .nil .nil) .nil)

theorem before_closed : Closed before := by
  intro p n k h
  simp only [before, List.mem_cons, Prod.mk.injEq, List.not_mem_nil, or_false] at h
  rcases h with ⟨h, -⟩ | ⟨h, -⟩
  · left
    have := congrArg List.length h
    simpa [tmp] using this
  · right
    have := List.append_inj_left' h rfl
    exact ⟨.dir, by rw [this]; simp [before]⟩

/-- The hypotheses of `C95_leaves_nothing` are met. -/
example : ∃ n, init before none (some [0xab]) false = .ok (before ++ [(tmp ++ [n], .dir)], some n, none) ∧ Distinct files ∧
    (entries (tmp ++ [n]) files).length = 3 ∧ (∀ e ∈ entries (tmp ++ [n]) files, e.2 ≠ .other) ∧
    destroy true (fun _ => false) (before ++ [(tmp ++ [n], .dir)] ++ entries (tmp ++ [n]) files) (some n) files = before := by
  refine ⟨pre ++ [97, 98], by decide, ?_, by decide, by decide, by decide⟩
  simp [Distinct, files, names]

/-- **C95 is false of other things**: a symbolic link in the directory stays, and with it the directory. -/
theorem C95_links_stay (n : Bytes) :
    destroy true (fun _ => false) [(tmp, .dir), (tmp ++ [n], .dir), (tmp ++ [n, [97]], .file), (tmp ++ [n, [98]], .other)] (some n)
      (.node [97] .file .nil (.node [98] .other .nil .nil)) = [(tmp, .dir), (tmp ++ [n], .dir), (tmp ++ [n, [98]], .other)] := by
  have h := loop_left (fails := fun _ => false) (.node n .dir (.node [97] .file .nil (.node [98] .other .nil .nil)) .nil) tmp [(tmp, .dir)] []
    ⟨by simp [names], ⟨by simp [names], trivial, by simp [names], trivial, trivial⟩, trivial⟩ (by
      intro m hm e he hp
      rcases he with he | he
      · cases List.mem_singleton.mp he
        have := hp.length_le
        simp [tmp] at this
      · cases he)
  simpa [entries, left, destroy] using h

end Svr.Props.TmpDir
