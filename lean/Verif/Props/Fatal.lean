import Verif.Env.Log
import Verif.Env.Main
import Mathlib.Data.Nat.Digits.Defs
import Mathlib.Tactic.Ring

/-!
# C86: what stops the enclave, whatever is logged; C87: what the server process is started with
-/

namespace Svr.Props.Fatal

open Svr

/-! ## C86 -/

/-- The level after requests: that of the last one below 7, the levels for which there is a name and the negative ones; or, without any, the one before. -/
def Level (before : Int) (asked : List Int) (now : Int) : Prop :=
  (now = before ∧ ∀ a ∈ asked, 7 ≤ a) ∨ ∃ l r, asked = l ++ now :: r ∧ now < 7 ∧ ∀ a ∈ r, 7 ≤ a

/-- **C86.** The level is that of the last accepted request. -/
theorem C86_level (before : Int) (asked : List Int) (now : Int) : Log.after before asked = now ↔ Level before asked now := by
  induction asked generalizing before with
  | nil => simp [Log.after, Level, eq_comm]
  | cons a as ih =>
    rw [Log.after, ih, Log.set]
    by_cases h : a ≥ 7
    · simp only [if_pos h, Level]
      constructor
      · rintro (⟨rfl, h1⟩ | ⟨l, r, rfl, h1, h2⟩)
        · exact .inl ⟨rfl, by simpa using ⟨h, h1⟩⟩
        · exact .inr ⟨a :: l, r, rfl, h1, h2⟩
      · rintro (⟨rfl, h1⟩ | ⟨l, r, e, h1, h2⟩)
        · exact .inl ⟨rfl, fun x hx => h1 x (List.mem_cons_of_mem _ hx)⟩
        · cases l with
          | nil => simp at e; omega
          | cons b l =>
            simp only [List.cons_append, List.cons.injEq] at e
            exact .inr ⟨l, r, e.2, h1, h2⟩
    · simp only [if_neg h, Level]
      constructor
      · rintro (⟨rfl, h1⟩ | ⟨l, r, rfl, h1, h2⟩)
        · exact .inr ⟨[], as, rfl, by omega, h1⟩
        · exact .inr ⟨a :: l, r, rfl, h1, h2⟩
      · rintro (⟨rfl, h1⟩ | ⟨l, r, e, h1, h2⟩)
        · have := h1 a List.mem_cons_self; omega
        · cases l with
          | nil =>
            simp only [List.nil_append, List.cons.injEq] at e
            exact .inl ⟨e.1.symm, by rw [e.2]; exact h2⟩
          | cons b l =>
            simp only [List.cons_append, List.cons.injEq] at e
            exact .inr ⟨l, r, e.2, h1, h2⟩

/-- **C86, part.** As long as the init message has no negative level, and no request is for a level below that of fatal lines, a fatal line and a signal
stop the enclave. For other levels this is false: `C86_fatal_false`. -/
theorem C86_fatal_partial (init : Int) (asked : List Int) (h0 : 0 ≤ init) (h : ∀ a ∈ asked, 1 ≤ a) :
    Log.fatal (Log.after (Log.atInit Log.first init) asked) = .abort ∧ Log.onSignal (Log.after (Log.atInit Log.first init) asked) = .abort := by
  have : 1 ≤ Log.after (Log.atInit Log.first init) asked := by
    generalize hn : Log.after (Log.atInit Log.first init) asked = now
    rcases (C86_level _ _ _).mp hn with ⟨e, -⟩ | ⟨l, r, e, -, -⟩
    · rw [e, Log.atInit, Log.first]
      split <;> omega
    · exact h _ (by rw [e]; simp)
  exact ⟨if_pos this, if_pos this⟩

/-- **C86 is false of `LOG(FATAL)`.** A host makes it do nothing: with a negative level in the init message, or after the start by asking for
`LOG_LEVEL_NONE` or a negative level, which is accepted. Then the code after it is run, and handlers of signals return to the instruction that raised
them. -/
theorem C86_fatal_false :
    (∀ init, init < 0 → Log.fatal (Log.atInit Log.first init) = .ok ()) ∧
    (∀ lvl asked, asked ≤ 0 → (Log.set lvl asked).2 = true ∧ Log.fatal (Log.set lvl asked).1 = .ok () ∧ Log.onSignal (Log.set lvl asked).1 = .ok ()) := by
  constructor
  · intro init h
    rw [Log.atInit, if_pos (by omega), Log.fatal, if_neg (by rw [Log.fatalLevel]; omega)]
  · intro lvl asked h
    have e : Log.set lvl asked = (asked, true) := if_neg (by omega)
    rw [e]
    exact ⟨rfl, if_neg (by rw [Log.fatalLevel]; omega), if_neg (by rw [Log.fatalLevel]; omega)⟩

/-- **C86.** A `CHECK` that fails stops the enclave at every level, and one that does not never does. -/
theorem C86_check (lvl : Int) (x : Bool) : (Log.check lvl x = .abort ↔ x = false) ∧ (Log.check lvl x = .ok () ↔ x = true) := by
  cases x
  · rw [Log.check, if_pos (by simp), Log.fatal]
    split <;> simp
  · simp [Log.check]

example : Log.after (Log.atInit Log.first 0) [2, 7, 100, 6, 9] = 6 := by decide
example : Log.after (Log.atInit Log.first 3) [0] = 0 := by decide

/-! ## C87 -/

open Svr.Main (Sock str)

/-- The number that decimal digits denote. -/
def number (ds : Bytes) : Nat := Nat.ofDigits 10 (ds.reverse.map fun c => c.toNat - 48)

/-- A port in an argument: after spaces and a plus sign, if any, digits of a number between 1 and 65535, and after them anything that does not begin with
a digit. -/
def Port (t : Bytes) (p : Int) : Prop :=
  ∃ spaces sign ds rest, t = spaces ++ sign ++ ds ++ rest ∧ (∀ c ∈ spaces, c = 32 ∨ (9 ≤ c ∧ c ≤ 13)) ∧ (sign = [] ∨ sign = [43]) ∧ ds ≠ [] ∧
    (∀ c ∈ ds, 48 ≤ c ∧ c ≤ 57) ∧ (∀ c r, rest = c :: r → ¬ (48 ≤ c ∧ c ≤ 57)) ∧ p = number ds ∧ 1 ≤ p ∧ p ≤ 65535

theorem value_number (ds : Bytes) : Main.value ds = number ds := by
  have h : ∀ (ds : Bytes) (n : Nat), ds.foldl (fun n c => 10 * n + (c.toNat - 48)) n = n * 10 ^ ds.length + number ds := by
    intro ds
    induction ds with
    | nil => intro n; simp [number]
    | cons c ds ih =>
      intro n
      rw [List.foldl_cons, ih]
      simp only [number, List.reverse_cons, List.map_append, List.map_cons, List.map_nil, Nat.ofDigits_append, List.length_map, List.length_reverse,
        Nat.ofDigits_singleton, List.length_cons]
      ring
  simpa [Main.value] using h ds 0

theorem mem_takeWhile {p : UInt8 → Bool} {l : Bytes} {c : UInt8} (h : c ∈ l.takeWhile p) : p c = true := by
  have := List.all_takeWhile (p := p) (l := l)
  exact List.all_eq_true.mp this c h

theorem takeWhile_of {p : UInt8 → Bool} {a b : Bytes} (ha : ∀ c ∈ a, p c = true) (hb : ∀ c r, b = c :: r → p c = false) :
    (a ++ b).takeWhile p = a ∧ (a ++ b).dropWhile p = b := by
  induction a with
  | nil =>
    cases b with
    | nil => simp
    | cons c r => simp [hb c r rfl]
  | cons x a ih =>
    have := ih fun c hc => ha c (List.mem_cons_of_mem _ hc)
    simp [ha x List.mem_cons_self, this]

theorem isDigit_iff (c : UInt8) : Main.isDigit c = true ↔ 48 ≤ c ∧ c ≤ 57 := by simp [Main.isDigit]
theorem isSpace_iff (c : UInt8) : Main.isSpace c = true ↔ c = 32 ∨ (9 ≤ c ∧ c ≤ 13) := by simp [Main.isSpace]

theorem atoi_port (t : Bytes) (p : Int) : (Main.atoi t = .ok p ∧ p > 0 ∧ p < 65536) ↔ Port t p := by
  constructor
  · rintro ⟨h, h1, h2⟩
    obtain ⟨u, hu⟩ : ∃ u, u = t.dropWhile Main.isSpace := ⟨_, rfl⟩
    obtain ⟨v, hv⟩ : ∃ v, v = if u.head? = some 45 ∨ u.head? = some 43 then u.drop 1 else u := ⟨_, rfl⟩
    simp only [Main.atoi, ← hu, ← hv] at h
    have neg : ¬ u.head? = some 45 := by
      intro e
      rw [if_pos e] at h
      by_cases hr : -2147483648 ≤ -(Main.value (v.takeWhile Main.isDigit) : Int) ∧ -(Main.value (v.takeWhile Main.isDigit) : Int) ≤ 2147483647
      · rw [if_pos hr, Out.ok.injEq] at h
        omega
      · rw [if_neg hr] at h; cases h
    rw [if_neg neg] at h
    by_cases hr : -2147483648 ≤ (Main.value (v.takeWhile Main.isDigit) : Int) ∧ (Main.value (v.takeWhile Main.isDigit) : Int) ≤ 2147483647
    swap
    · rw [if_neg hr] at h; cases h
    rw [if_pos hr, Out.ok.injEq] at h
    refine ⟨t.takeWhile Main.isSpace, if u.head? = some 43 then [43] else [], v.takeWhile Main.isDigit, v.dropWhile Main.isDigit, ?_, ?_, ?_, ?_, ?_, ?_, ?_,
      by omega, by omega⟩
    · have e : u = (if u.head? = some 43 then [43] else []) ++ v := by
        rw [hv]
        simp only [neg, false_or]
        cases u with
        | nil => simp
        | cons c u =>
          by_cases hc : c = 43 <;> simp [hc]
      rw [List.append_assoc, List.takeWhile_append_dropWhile, List.append_assoc, ← e, hu, List.takeWhile_append_dropWhile]
    · intro c hc
      exact (isSpace_iff c).mp (mem_takeWhile hc)
    · split <;> simp
    · intro e
      rw [e] at h
      simp [Main.value] at h
      omega
    · intro c hc
      exact (isDigit_iff c).mp (mem_takeWhile hc)
    · intro c r e hd
      have := List.head?_dropWhile_not Main.isDigit v
      rw [e] at this
      simp only [List.head?_cons] at this
      rw [(isDigit_iff c).mpr hd] at this
      simp at this
    · rw [← h, value_number]
  · rintro ⟨spaces, sign, ds, rest, rfl, h1, h2, h3, h4, h5, h6, h7, h8⟩
    refine ⟨?_, by omega, by omega⟩
    have hd : ∃ d ds', ds = d :: ds' := by cases ds with
      | nil => exact (h3 rfl).elim
      | cons d ds' => exact ⟨d, ds', rfl⟩
    obtain ⟨d, ds', hd⟩ := hd
    have hd0 : 48 ≤ d ∧ d ≤ 57 := h4 d (by rw [hd]; exact List.mem_cons_self)
    have d1 : d ≠ 45 := by rintro rfl; exact absurd hd0 (by decide)
    have d2 : d ≠ 43 := by rintro rfl; exact absurd hd0 (by decide)
    have d3 : Main.isSpace d = false := by
      cases e : Main.isSpace d
      · rfl
      · exfalso
        rcases (isSpace_iff d).mp e with rfl | ⟨-, e⟩
        · exact absurd hd0 (by decide)
        · have := hd0.1.trans e; exact absurd this (by decide)
    have hs : (spaces ++ sign ++ ds ++ rest).dropWhile Main.isSpace = sign ++ ds ++ rest := by
      have := (takeWhile_of (p := Main.isSpace) (a := spaces) (b := sign ++ ds ++ rest) (fun c hc => (isSpace_iff c).mpr (h1 c hc)) (by
        rintro c r e
        rcases h2 with rfl | rfl
        · rw [hd] at e; simp at e; rw [← e.1]; exact d3
        · simp at e; rw [← e.1]; decide)).2
      simpa using this
    have ht := (takeWhile_of (p := Main.isDigit) (a := ds) (b := rest) (fun c hc => (isDigit_iff c).mpr (h4 c hc)) (by
      intro c r e
      have := h5 c r e
      rw [← isDigit_iff] at this
      simpa using this)).1
    have hu : (if (sign ++ ds ++ rest).head? = some 45 ∨ (sign ++ ds ++ rest).head? = some 43 then (sign ++ ds ++ rest).drop 1 else sign ++ ds ++ rest) =
        ds ++ rest := by
      rcases h2 with rfl | rfl
      · rw [if_neg (by rw [hd]; simp [d1, d2])]; simp
      · simp
    have hn : ¬ (sign ++ ds ++ rest).head? = some 45 := by
      rcases h2 with rfl | rfl
      · rw [hd]; simp [d1]
      · simp
    simp only [Main.atoi, hs, hu, ht, if_neg hn, value_number]
    rw [if_pos (by omega), h6]

theorem not_type (t : Bytes) (y : Bytes) (h : y = str "--sock_type=af_inet" ∨ y = str "--sock_type=af_vsock") : str "--port=" ++ t ≠ y := by
  intro e
  have h1 : (str "--port=" ++ t)[2]? = some 112 := rfl
  have h2 : y[2]? = some 115 := by rcases h with rfl | rfl <;> rfl
  rw [e, h2] at h1
  exact absurd h1 (by decide)

/-- `x` is what the last of the texts that say such a thing says, or `d` if none of them does. -/
def LastOr {α : Type} (tells : Bytes → α → Prop) (as : List Bytes) (d x : α) : Prop :=
  (x = d ∧ ∀ a ∈ as, ∀ y, ¬ tells a y) ∨ ∃ l a r, as = l ++ a :: r ∧ tells a x ∧ ∀ b ∈ r, ∀ y, ¬ tells b y

theorem lastOr_cons {α : Type} {tells : Bytes → α → Prop} (one : ∀ a x y, tells a x → tells a y → x = y) {a : Bytes} {as : List Bytes} {d x y : α}
    (h : tells a y) : LastOr tells (a :: as) d x ↔ LastOr tells as y x := by
  constructor
  · rintro (⟨rfl, h1⟩ | ⟨l, b, r, e, h1, h2⟩)
    · exact (h1 a List.mem_cons_self y h).elim
    · cases l with
      | nil =>
        simp only [List.nil_append, List.cons.injEq] at e
        obtain ⟨rfl, rfl⟩ := e
        exact .inl ⟨one _ _ _ h1 h, h2⟩
      | cons c l =>
        simp only [List.cons_append, List.cons.injEq] at e
        exact .inr ⟨l, b, r, e.2, h1, h2⟩
  · rintro (⟨rfl, h1⟩ | ⟨l, b, r, rfl, h1, h2⟩)
    · exact .inr ⟨[], a, as, rfl, h, h1⟩
    · exact .inr ⟨a :: l, b, r, rfl, h1, h2⟩

theorem lastOr_skip {α : Type} {tells : Bytes → α → Prop} {a : Bytes} {as : List Bytes} {d x : α}
    (h : ∀ y, ¬ tells a y) : LastOr tells (a :: as) d x ↔ LastOr tells as d x := by
  constructor
  · rintro (⟨rfl, h1⟩ | ⟨l, b, r, e, h1, h2⟩)
    · exact .inl ⟨rfl, fun b hb => h1 b (List.mem_cons_of_mem _ hb)⟩
    · cases l with
      | nil =>
        simp only [List.nil_append, List.cons.injEq] at e
        obtain ⟨rfl, rfl⟩ := e
        exact (h _ h1).elim
      | cons c l =>
        simp only [List.cons_append, List.cons.injEq] at e
        exact .inr ⟨l, b, r, e.2, h1, h2⟩
  · rintro (⟨rfl, h1⟩ | ⟨l, b, r, rfl, h1, h2⟩)
    · exact .inl ⟨rfl, by simpa using ⟨h, h1⟩⟩
    · exact .inr ⟨a :: l, b, r, rfl, h1, h2⟩

/-- An argument that tells a port. -/
def SaysPort (a : Bytes) (p : Int) : Prop := ∃ t, a = str "--port=" ++ t ∧ Port t p

/-- An argument that tells a socket type. -/
def SaysType (a : Bytes) (t : Option Sock) : Prop :=
  (a = str "--sock_type=af_inet" ∧ t = some .inet) ∨ (a = str "--sock_type=af_vsock" ∧ t = some .vsock)

theorem port_one (a : Bytes) (x y : Int) (h : SaysPort a x) (h' : SaysPort a y) : x = y := by
  obtain ⟨t, rfl, h⟩ := h
  obtain ⟨t', e, h'⟩ := h'
  rw [List.append_cancel_left e] at h
  have := ((atoi_port _ _).mpr h).1.symm.trans ((atoi_port _ _).mpr h').1
  simpa using this

theorem type_one (a : Bytes) (x y : Option Sock) (h : SaysType a x) (h' : SaysType a y) : x = y := by
  rcases h with ⟨rfl, rfl⟩ | ⟨rfl, rfl⟩ <;> rcases h' with ⟨e, rfl⟩ | ⟨e, rfl⟩ <;> first | rfl | exact absurd e (by decide)

theorem arg_ok (s s' : Int × Option Sock) (a : Bytes) : Main.arg s a = .ok s' ↔
    (SaysPort a s'.1 ∧ s'.2 = s.2) ∨ (SaysType a s'.2 ∧ s'.1 = s.1) := by
  have no : ∀ t, ¬ (str "--port=" <+: a) → ¬ SaysPort a t := fun t h ⟨u, e, _⟩ => h ⟨u, e.symm⟩
  have hf : Log.fatal Log.first = .abort := rfl
  rw [Main.arg]
  by_cases hp : str "--port=" <+: a
  · obtain ⟨t, rfl⟩ := hp
    rw [if_pos ⟨t, rfl⟩, List.drop_left]
    have nt : ∀ y, ¬ SaysType (str "--port=" ++ t) y := by
      rintro y (⟨e, -⟩ | ⟨e, -⟩)
      · exact not_type t _ (.inl rfl) e
      · exact not_type t _ (.inr rfl) e
    simp only [nt, false_and, or_false]
    rw [Out.bind_eq_ok]
    constructor
    · rintro ⟨p, h1, h2⟩
      split at h2
      · rename_i h3
        cases h2
        exact ⟨⟨t, rfl, (atoi_port t p).mp ⟨h1, h3⟩⟩, rfl⟩
      · rw [hf] at h2; cases h2
    · rintro ⟨⟨u, e, h⟩, h2⟩
      obtain rfl := List.append_cancel_left e
      obtain ⟨h3, h4⟩ := (atoi_port _ _).mpr h
      exact ⟨s'.1, h3, by rw [if_pos h4, ← h2]⟩
  · rw [if_neg hp]
    simp only [no _ hp, false_and, false_or]
    by_cases h1 : a = str "--sock_type=af_inet"
    · rw [if_pos h1]
      subst h1
      simp only [Out.ok.injEq, SaysType, true_and, show ¬ str "--sock_type=af_inet" = str "--sock_type=af_vsock" by decide, false_and, or_false]
      constructor
      · rintro rfl; exact ⟨rfl, rfl⟩
      · rintro ⟨e1, e2⟩; rw [← e1, ← e2]
    · rw [if_neg h1]
      by_cases h2 : a = str "--sock_type=af_vsock"
      · rw [if_pos h2]
        simp only [Out.ok.injEq, SaysType, h1, h2, true_and, false_and, false_or]
        rw [← h2]
        simp only [h1, false_and, false_or]
        constructor
        · rintro rfl; exact ⟨rfl, rfl⟩
        · rintro ⟨e1, e2⟩; rw [← e1, ← e2]
      · rw [if_neg h2, hf]
        simp [SaysType, h1, h2]

theorem args_ok (as : List Bytes) (s s' : Int × Option Sock) : Main.args s as = .ok s' ↔
    (∀ a ∈ as, (∃ p, SaysPort a p) ∨ ∃ t, SaysType a t) ∧ LastOr SaysPort as s.1 s'.1 ∧ LastOr SaysType as s.2 s'.2 := by
  have apart : ∀ a p t, SaysPort a p → SaysType a t → False := by
    rintro a p t ⟨u, rfl, -⟩ (⟨e, -⟩ | ⟨e, -⟩)
    · exact not_type u _ (.inl rfl) e
    · exact not_type u _ (.inr rfl) e
  induction as generalizing s with
  | nil =>
    simp only [Main.args, Out.ok.injEq, LastOr]
    constructor
    · rintro rfl; simp
    · rintro ⟨-, ⟨h1, -⟩ | ⟨l, a, r, e, -⟩, h2⟩
      · rcases h2 with ⟨h2, -⟩ | ⟨l, a, r, e, -⟩
        · exact (Prod.ext h1 h2).symm
        · simp at e
      · simp at e
  | cons a as ih =>
    rw [Main.args, Out.bind_eq_ok]
    constructor
    · rintro ⟨s1, h1, h2⟩
      obtain ⟨k1, k2, k3⟩ := (ih s1).mp h2
      rcases (arg_ok _ _ _).mp h1 with ⟨e1, e2⟩ | ⟨e1, e2⟩
      · refine ⟨?_, (lastOr_cons port_one e1).mpr k2, (lastOr_skip fun y h => apart _ _ _ e1 h).mpr (by rw [← e2]; exact k3)⟩
        intro b hb
        rcases List.mem_cons.mp hb with rfl | hb
        · exact .inl ⟨_, e1⟩
        · exact k1 b hb
      · refine ⟨?_, (lastOr_skip fun y h => apart _ _ _ h e1).mpr (by rw [← e2]; exact k2), (lastOr_cons type_one e1).mpr k3⟩
        intro b hb
        rcases List.mem_cons.mp hb with rfl | hb
        · exact .inr ⟨_, e1⟩
        · exact k1 b hb
    · rintro ⟨k1, k2, k3⟩
      have k1' := fun b hb => k1 b (List.mem_cons_of_mem _ hb)
      rcases k1 a List.mem_cons_self with ⟨p, e⟩ | ⟨t, e⟩
      · exact ⟨(p, s.2), (arg_ok _ _ _).mpr (.inl ⟨e, rfl⟩),
          (ih _).mpr ⟨k1', (lastOr_cons port_one e).mp k2, (lastOr_skip fun y h => apart _ _ _ e h).mp k3⟩⟩
      · exact ⟨(s.1, t), (arg_ok _ _ _).mpr (.inr ⟨e, rfl⟩),
          (ih _).mpr ⟨k1', (lastOr_skip fun y h => apart _ _ _ h e).mp k2, (lastOr_cons type_one e).mp k3⟩⟩

/-- **C87.** The server is run exactly if each argument is a port between 1 and 65535 or a socket type and there is a socket type, with the last type and
the last port, or 27427. -/
theorem C87_arguments (as : List Bytes) (port : Int) (t : Option Sock) : Main.main as = .ok (port, t) ↔
    (∀ a ∈ as, (∃ p, SaysPort a p) ∨ ∃ t, SaysType a t) ∧ LastOr SaysPort as 27427 port ∧ LastOr SaysType as none t ∧ t ≠ none := by
  have hf : Log.fatal Log.first = .abort := rfl
  rw [Main.main, Out.bind_eq_ok]
  constructor
  · rintro ⟨⟨p', t'⟩, h1, h2⟩
    obtain ⟨k1, k2, k3⟩ := (args_ok _ _ _).mp h1
    cases t' with
    | none => simp only at h2; rw [hf] at h2; cases h2
    | some t' =>
      simp only [Out.ok.injEq, Prod.mk.injEq] at h2
      obtain ⟨rfl, rfl⟩ := h2
      exact ⟨k1, k2, k3, by simp⟩
  · rintro ⟨k1, k2, k3, k4⟩
    refine ⟨(port, t), (args_ok _ _ _).mpr ⟨k1, k2, k3⟩, ?_⟩
    cases t with
    | none => exact (k4 rfl).elim
    | some t => rfl

/-- **C87.** The port is one that can be bound to. -/
theorem C87_port (as : List Bytes) (port : Int) (t : Option Sock) (h : Main.main as = .ok (port, t)) : 1 ≤ port ∧ port ≤ 65535 := by
  obtain ⟨-, ⟨rfl, -⟩ | ⟨_, _, _, -, ⟨_, -, _, _, _, _, -, -, -, -, -, -, -, h1, h2⟩, -⟩, -⟩ := (C87_arguments as port t).mp h
  · decide
  · exact ⟨h1, h2⟩

/-- **C87 is false of long numbers**, of which what `atoi` does is undefined. -/
theorem C87_atoi_false : Main.main [str "--sock_type=af_vsock", str "--port=99999999999"] = .ub := by decide +kernel

example : Main.main [str "--port=443", str "--sock_type=af_inet", str "--port= +8080x", str "--sock_type=af_vsock"] = .ok (8080, some .vsock) := by
  decide +kernel
example : Main.main [str "--port=443"] = .abort ∧ Main.main [str "--port=0", str "--sock_type=af_inet"] = .abort ∧
    Main.main [str "--help"] = .abort := by decide +kernel

end Svr.Props.Fatal
