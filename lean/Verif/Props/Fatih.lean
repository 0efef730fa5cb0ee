import Verif.Model.Fatih
import Verif.Lemmas.Ints
import Verif.Props.Encode
/-!
Property C47: conversion of fatih/color colors.
-/
namespace JC.Props
open JC Spec

theorem fmtInt_chars (p : Int) (c : UInt8) (h : c ∈ fmtInt p) : Digit c ∨ c = 0x3b ∨ c = 0x2d := by
  simp only [fmtInt] at h
  split at h
  · rcases List.mem_cons.1 h with rfl | h
    · exact .inr (.inr rfl)
    · exact .inl ((fmtNat_val _).2 c h)
  · exact .inl ((fmtNat_val _).2 c h)

theorem sequence_chars : ∀ (ps : List Int) (c : UInt8), c ∈ fsequence ps → Digit c ∨ c = 0x3b ∨ c = 0x2d
  | [], c, h => by simp [fsequence] at h
  | [p], c, h => fmtInt_chars p c h
  | p :: q :: ps, c, h => by
    simp only [fsequence, List.append_assoc, List.mem_append, List.mem_singleton] at h
    rcases h with h | rfl | h
    · exact fmtInt_chars p c h
    · exact .inr (.inl rfl)
    · exact sequence_chars (q :: ps) c h

theorem fmtInt_params (p : Int) (hp : 0 ≤ p) (c : UInt8) (h : c ∈ fmtInt p) : SgrParam c := by
  simp only [fmtInt, if_neg (Int.not_lt.2 hp)] at h
  exact .inl ((fmtNat_val _).2 c h)

theorem sequence_params : ∀ (ps : List Int), (∀ p ∈ ps, 0 ≤ p) → ∀ c ∈ fsequence ps, SgrParam c
  | [], _, c, h => by simp [fsequence] at h
  | [p], hp, c, h => fmtInt_params p (hp p (List.mem_singleton.2 rfl)) c h
  | p :: q :: ps, hp, c, h => by
    simp only [fsequence, List.append_assoc, List.mem_append, List.mem_singleton] at h
    rcases h with h | rfl | h
    · exact fmtInt_params p (hp p List.mem_cons_self) c h
    · exact .inr rfl
    · exact sequence_params (q :: ps) (fun x hx => hp x (List.mem_cons_of_mem _ hx)) c h

theorem indexByte_append {a b : Bytes} {c : UInt8} (h : c ∉ a) : indexByte (a ++ c :: b) c = some a.length := by
  induction a with
  | nil => simp [indexByte]
  | cons x a ih =>
    have hx : x ≠ c := fun e => h (e ▸ List.mem_cons_self)
    rw [List.cons_append, indexByte, if_neg hx, ih (fun e => h (List.mem_cons_of_mem _ e))]
    rfl

/-- The conversion of a color is its escape prefix. -/
theorem toCore_some (l : FatihLib) (c : FColor) : toCoreColor l (some c) = c.format := by
  have hn : (0x20 : UInt8) ∉ c.format := by
    intro h
    simp only [FColor.format, List.mem_append, List.mem_cons, List.not_mem_nil, or_false] at h
    rcases h with (h | h) | h
    · rcases h with h | h <;> cases h
    · rcases sequence_chars _ _ h with h | h | h
      · exact absurd h (by unfold Digit; decide)
      · cases h
      · cases h
    · cases h
  have hl : 0 < c.format.length := by simp [FColor.format]
  have e : (c.enableColor).sprint l [0x20] = c.format ++ 0x20 :: l.unformat c.params := by
    simp [FColor.sprint, FColor.enableColor, FColor.format]
  unfold toCoreColor
  simp only []
  rw [e, indexByte_append hn]
  simp only []
  rw [if_neg (by omega), List.take_left']
  rfl

/-- C47: `ToCoreColor` gives the bytes that the color prints before any text, whether colors
are enabled globally or not, and nil gives no color. The attributes appear in decimal, in
order. -/
theorem C47_color (l : FatihLib) (c : FColor) (s : Bytes) :
    toCoreColor l none = [] ∧
    (c.enableColor).sprint l s = toCoreColor l (some c) ++ s ++ l.unformat c.params ∧
    toCoreColor l (some c) = 0x1b :: 0x5b :: (fsequence c.params ++ [0x6d]) := by
  refine ⟨rfl, ?_, ?_⟩
  · rw [toCore_some]; simp [FColor.sprint, FColor.enableColor, FColor.format]
  · rw [toCore_some]; simp [FColor.format]

/-- C47: nil `Colors` give nil, and each element keeps its color; `Punc` is the color of
every punctuation mark. -/
theorem C47_colors (l : FatihLib) (c : FColors) :
    toCoreColors l none = none ∧ ∃ k, toCoreColors l (some c) = some k ∧
      k.null = toCoreColor l c.null ∧ k.bool = toCoreColor l c.bool ∧ k.number = toCoreColor l c.number ∧
      k.string = toCoreColor l c.string ∧ k.key = toCoreColor l c.key ∧ k.bytes = toCoreColor l c.bytes ∧
      k.time = toCoreColor l c.datetime ∧ k.textMarshaler = toCoreColor l c.textMarshaler ∧
      ∀ p, k.puncColor p = toCoreColor l c.punc := by
  refine ⟨rfl, _, rfl, rfl, rfl, rfl, rfl, rfl, rfl, rfl, rfl, ?_⟩
  intro p
  simp [Colors.puncColor]

/-- The attributes of the colors are natural numbers, as all attributes that fatih/color
defines. -/
def NonNegColors (c : FColors) : Prop :=
  ∀ x ∈ [c.bool, c.bytes, c.datetime, c.null, c.number, c.string, c.key, c.punc, c.textMarshaler],
    ∀ y, x = some y → ∀ p ∈ y.params, 0 ≤ p

/-- C47: converted colors are well-formed terminal sequences, so that coloring with them does
not change the output otherwise (with C19). -/
theorem C47_sgr (l : FatihLib) (c : FColors) (h : NonNegColors c) (k : Colors) (hk : toCoreColors l (some c) = some k) :
    ColorsSgr k := by
  have one : ∀ x ∈ [c.bool, c.bytes, c.datetime, c.null, c.number, c.string, c.key, c.punc, c.textMarshaler],
      Sgr (toCoreColor l x) := by
    intro x hx
    cases hc : x with
    | none => exact .none
    | some y =>
      rw [toCore_some]
      have := Sgr.seq _ (sequence_params y.params (h x hx y hc))
      simpa [FColor.format] using this
  simp only [toCoreColors, Option.some.injEq] at hk
  subst hk
  refine ⟨one _ ?_, one _ ?_, one _ ?_, one _ ?_, one _ ?_, one _ ?_, one _ ?_, one _ ?_, .none, .none, .none, .none, one _ ?_⟩ <;>
    simp

/-- C47: stripping the terminal sequences of the converted colors from the output gives the
plain output. (Same restrictions as C19.) -/
theorem C47_strip_partial (l : FatihLib) (fc : FColors) (h : NonNegColors fc) (k : Colors) (hk : toCoreColors l (some fc) = some k)
    (c : Cfg) {v : GV} (hv : NoQuoted v) (hclean : Clean { c with clrs := none } v) (hl : NoEscLayout c) (n : Nat) {x : Bytes} {d : Int}
    (hx : enc { c with clrs := some k } v [] n = .done x d none) :
    enc { c with clrs := none } v [] n = .done (stripAnsi .out x) d none :=
  C19_transparent_clean_partial c (C47_sgr l fc h k hk) hv hclean hl n hx

/-- C47: the default colors of the helper, converted, are those of `DefaultColors` of the package
except for booleans, which are yellow instead of bold, and punctuation, which is bold instead of plain. -/
theorem C47_defaults (l : FatihLib) : ∃ k, toCoreColors l (some fatihDefaultColors) = some k ∧
    k = { defaultColors with bool := bs! "\x1b[33m", punc := bs! "\x1b[1m" } ∧
    defaultColors.bool = bs! "\x1b[1m" ∧ ∀ p, defaultColors.puncColor p = [] := by
  refine ⟨_, rfl, ?_, by decide +kernel, fun p => by simp [Colors.puncColor, defaultColors]⟩
  simp only [fatihDefaultColors, toCore_some]
  with_unfolding_all rfl

/-- Concrete case: bold blue, with colors off globally. -/
example : toCoreColor ⟨true, fun _ => bs! "\x1b[0m"⟩ (some { params := [34, 1] }) = bs! "\x1b[34;1m" := by decide +kernel
/-- Concrete case: the default colors satisfy the assumption. -/
example : NonNegColors fatihDefaultColors := by unfold NonNegColors; decide +kernel
example : (toCoreColors ⟨false, fun _ => []⟩ (some fatihDefaultColors)).map (·.time) = some (bs! "\x1b[32;2m") := by decide +kernel

end JC.Props
