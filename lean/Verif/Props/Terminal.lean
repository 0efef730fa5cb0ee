import Verif.Model.Terminal
/-!
Property C45: when a writer counts as a color terminal.
-/
namespace JC.Props
open JC

/-- The environment variable is set to a non-empty text. -/
def NonEmpty (env : Environ) (name : Bytes) : Prop := ∃ v, env name = some v ∧ v ≠ []

theorem get_ne {env : Environ} {name : Bytes} : env.get name ≠ [] ↔ NonEmpty env name := by
  unfold Environ.get NonEmpty
  cases env name <;> simp

theorem get_eq {env : Environ} {name v : Bytes} (hv : v ≠ []) : env.get name = v ↔ env name = some v := by
  unfold Environ.get
  cases env name with
  | none => simp; exact hv
  | some x => simp

/-- The ranking: the first rule that applies decides. -/
inductive ColorTerminal (env : Environ) (terminal : Writer → Prop) (w : Writer) : Bool → Prop
  | noColor : NonEmpty env (bs! "NO_COLOR") → ColorTerminal env terminal w false
  | forced : ¬ NonEmpty env (bs! "NO_COLOR") → NonEmpty env (bs! "FORCE_COLOR") → ColorTerminal env terminal w true
  | dumb : ¬ NonEmpty env (bs! "NO_COLOR") → ¬ NonEmpty env (bs! "FORCE_COLOR") → env (bs! "TERM") = some (bs! "dumb") →
      ColorTerminal env terminal w false
  | yes : ¬ NonEmpty env (bs! "NO_COLOR") → ¬ NonEmpty env (bs! "FORCE_COLOR") → env (bs! "TERM") ≠ some (bs! "dumb") →
      terminal w → ColorTerminal env terminal w true
  | no : ¬ NonEmpty env (bs! "NO_COLOR") → ¬ NonEmpty env (bs! "FORCE_COLOR") → env (bs! "TERM") ≠ some (bs! "dumb") →
      ¬ terminal w → ColorTerminal env terminal w false

/-- The ranking gives exactly one answer. -/
theorem colorTerminal_unique {env : Environ} {T : Writer → Prop} {w : Writer} {a b : Bool}
    (ha : ColorTerminal env T w a) (hb : ColorTerminal env T w b) : a = b := by
  cases ha <;> cases hb <;> first | rfl | contradiction

/-- A file whose descriptor is a terminal. -/
def IsTty (w : Writer) : Prop := ∃ c, w = .file true c

/-- C45: `NO_COLOR` wins over `FORCE_COLOR`, which wins over `TERM=dumb`, which wins over
terminal detection; only files can be detected to be terminals. -/
theorem C45_precedence (env : Environ) (w : Writer) (r : Bool) :
    isColorTerminal env w = r ↔ ColorTerminal env IsTty w r := by
  have key : ColorTerminal env IsTty w (isColorTerminal env w) := by
    unfold isColorTerminal
    by_cases h1 : NonEmpty env (bs! "NO_COLOR")
    · rw [if_pos (get_ne.2 h1)]; exact .noColor h1
    rw [if_neg (fun h => h1 (get_ne.1 h))]
    by_cases h2 : NonEmpty env (bs! "FORCE_COLOR")
    · rw [if_pos (get_ne.2 h2)]; exact .forced h1 h2
    rw [if_neg (fun h => h2 (get_ne.1 h))]
    by_cases h3 : env (bs! "TERM") = some (bs! "dumb")
    · rw [if_pos ((get_eq (by simp)).2 h3)]; exact .dumb h1 h2 h3
    rw [if_neg (fun h => h3 ((get_eq (by simp)).1 h))]
    cases w with
    | nil => exact .no h1 h2 h3 (by rintro ⟨c, h⟩; cases h)
    | other => exact .no h1 h2 h3 (by rintro ⟨c, h⟩; cases h)
    | file t c =>
      cases t with
      | false => exact .no h1 h2 h3 (by rintro ⟨c, h⟩; cases h)
      | true => exact .yes h1 h2 h3 ⟨c, rfl⟩
  exact ⟨fun h => h ▸ key, fun h => colorTerminal_unique key h⟩

/-- C45: a writer that is no file is a color terminal only if that is forced. -/
theorem C45_other (env : Environ) (w : Writer) (hw : ∀ t c, w ≠ .file t c) :
    isColorTerminal env w = true ↔ ¬ NonEmpty env (bs! "NO_COLOR") ∧ NonEmpty env (bs! "FORCE_COLOR") := by
  rw [C45_precedence]
  constructor
  · intro h
    cases h with
    | forced h1 h2 => exact ⟨h1, h2⟩
    | yes _ _ _ h => obtain ⟨c, rfl⟩ := h; exact absurd rfl (hw _ _)
  · rintro ⟨h1, h2⟩; exact .forced h1 h2

/-- Both modes needed for colors are on. -/
def ModesOn (m : BitVec 32) : Prop := m.getLsbD 0 = true ∧ m.getLsbD 2 = true

/-- A console on which both modes are or can be switched on. -/
def IsConsole (w : Writer) : Prop := ∃ t c, w = .file t (some c) ∧ (ModesOn c.mode ∨ c.settable = true)

theorem modesOn_iff (m : BitVec 32) : m &&& consoleWant = consoleWant ↔ ModesOn m := by
  unfold ModesOn consoleWant
  constructor
  · intro h
    have h0 := congrArg (BitVec.getLsbD · 0) h
    have h2 := congrArg (BitVec.getLsbD · 2) h
    simp at h0 h2
    exact ⟨by simpa using h0, by simpa using h2⟩
  · rintro ⟨h0, h2⟩
    apply BitVec.eq_of_getLsbD_eq
    intro i hi
    have : i = 0 ∨ i = 2 ∨ (i ≠ 0 ∧ i ≠ 2) := by omega
    rcases this with rfl | rfl | ⟨a, b⟩
    · simp [h0]
    · simp [h2]
    · rw [BitVec.getLsbD_and]
      have hw : (0x1 ||| 0x4 : BitVec 32).getLsbD i = false := by
        have : ∀ i : Nat, i < 32 → i ≠ 0 → i ≠ 2 → (0x1 ||| 0x4 : BitVec 32).getLsbD i = false := by decide
        exact this i hi a b
      rw [hw]; simp

/-- C45 on Windows: the same ranking, where a terminal is a console that has or can be
given the modes for colors. -/
theorem C45_windows (env : Environ) (w : Writer) (r : Bool) :
    (isColorTerminalWindows env w).1 = r ↔ ColorTerminal env IsConsole w r := by
  have key : ColorTerminal env IsConsole w (isColorTerminalWindows env w).1 := by
    unfold isColorTerminalWindows
    by_cases h1 : NonEmpty env (bs! "NO_COLOR")
    · rw [if_pos (get_ne.2 h1)]; exact .noColor h1
    rw [if_neg (fun h => h1 (get_ne.1 h))]
    by_cases h2 : NonEmpty env (bs! "FORCE_COLOR")
    · rw [if_pos (get_ne.2 h2)]; exact .forced h1 h2
    rw [if_neg (fun h => h2 (get_ne.1 h))]
    by_cases h3 : env (bs! "TERM") = some (bs! "dumb")
    · rw [if_pos ((get_eq (by simp)).2 h3)]; exact .dumb h1 h2 h3
    rw [if_neg (fun h => h3 ((get_eq (by simp)).1 h))]
    cases w with
    | nil => exact .no h1 h2 h3 (by rintro ⟨t, c, h, _⟩; cases h)
    | other => exact .no h1 h2 h3 (by rintro ⟨t, c, h, _⟩; cases h)
    | file t c =>
      cases c with
      | none => exact .no h1 h2 h3 (by rintro ⟨t, c, h, _⟩; cases h)
      | some c =>
        simp only []
        by_cases h4 : c.mode &&& consoleWant = consoleWant
        · rw [if_pos h4]; exact .yes h1 h2 h3 ⟨t, c, rfl, .inl ((modesOn_iff _).1 h4)⟩
        rw [if_neg h4]
        cases h5 : c.settable with
        | true => exact .yes h1 h2 h3 ⟨t, c, rfl, .inr h5⟩
        | false =>
          refine .no h1 h2 h3 ?_
          rintro ⟨t', c', h, h'⟩
          cases h
          rcases h' with h' | h'
          · exact h4 ((modesOn_iff _).2 h')
          · rw [h5] at h'; cases h'
  exact ⟨fun h => h ▸ key, fun h => colorTerminal_unique key h⟩

/-- C45 on Windows: whenever terminal detection says yes, both modes are on afterwards,
and no other mode has been changed. -/
theorem C45_windows_mode (env : Environ) (t : Bool) (c : Console) (m : Option (BitVec 32))
    (hf : ¬ NonEmpty env (bs! "FORCE_COLOR")) (h : isColorTerminalWindows env (.file t (some c)) = (true, m)) :
    ModesOn (m.getD c.mode) ∧ ∀ i, i ≠ 0 → i ≠ 2 → (m.getD c.mode).getLsbD i = c.mode.getLsbD i := by
  unfold isColorTerminalWindows at h
  split at h
  · cases h
  rw [if_neg (fun h => hf (get_ne.1 h))] at h
  split at h
  · cases h
  simp only [] at h
  split at h
  · rename_i h4
    cases h
    exact ⟨(modesOn_iff _).1 h4, fun _ _ _ => rfl⟩
  · split at h
    · cases h
      simp only [Option.getD_some]
      refine ⟨⟨by simp [consoleWant], by simp [consoleWant]⟩, ?_⟩
      intro i h0 h2
      rw [BitVec.getLsbD_or]
      by_cases hi : i < 32
      · have : ∀ i : Nat, i < 32 → i ≠ 0 → i ≠ 2 → consoleWant.getLsbD i = false := by unfold consoleWant; decide
        rw [this i hi h0 h2]; simp
      · have : consoleWant.getLsbD i = false := BitVec.getLsbD_of_ge _ _ (by omega)
        rw [this]; simp
    · cases h

/-- Concrete case: `NO_COLOR=1 FORCE_COLOR=1` on a terminal. -/
example : isColorTerminal (fun n => if n = bs! "NO_COLOR" ∨ n = bs! "FORCE_COLOR" then some (bs! "1") else none) (.file true none) = false := by
  decide +kernel
/-- Concrete case: `FORCE_COLOR=1 TERM=dumb` on something that is no file. -/
example : isColorTerminal (fun n => if n = bs! "FORCE_COLOR" then some (bs! "1") else if n = bs! "TERM" then some (bs! "dumb") else none) .other = true := by
  decide +kernel
/-- Concrete case: `NO_COLOR` set but empty. -/
example : isColorTerminal (fun n => if n = bs! "NO_COLOR" then some [] else none) (.file true none) = true := by decide +kernel
/-- Concrete case: a console in mode 3 is switched to mode 7. -/
example : isColorTerminalWindows (fun _ => none) (.file false (some ⟨3, true⟩)) = (true, some 7) := by decide +kernel

end JC.Props
