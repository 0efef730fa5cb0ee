import Verif.Spec.Doc
import Verif.Lemmas.ParseFuel
/-! Whitespace stripping and compact texts of documents. -/
namespace JC
open Spec

/-- A byte that stripping copies outside strings. -/
def Solid (c : UInt8) : Prop := ¬ (c = 0x20 ∨ c = 0x09 ∨ c = 0x0a ∨ c = 0x0d) ∧ c ≠ 0x22

theorem stripWs_solid {s : Bytes} (hs : ∀ c ∈ s, Solid c) (r : Bytes) (e : Bool) :
    stripWs false e (s ++ r) = s ++ stripWs false e r ∨
    stripWs false e (s ++ r) = s ++ stripWs false false r := by
  induction s generalizing e with
  | nil => exact .inl rfl
  | cons c s ih =>
    have hc := hs c (by simp)
    have h2 : (c == 0x22) = false := by simpa using hc.2
    right
    rw [List.cons_append, stripWs, if_neg hc.1, h2]
    rcases ih (fun c h => hs c (by simp [h])) false with h | h <;> rw [h] <;> rfl

theorem stripWs_flag (e : Bool) (r : Bytes) : stripWs false e r = stripWs false false r := by
  cases r <;> cases e <;> rfl

theorem stripWs_solid' {s : Bytes} (hs : ∀ c ∈ s, Solid c) (r : Bytes) :
    stripWs false false (s ++ r) = s ++ stripWs false false r := by
  rcases stripWs_solid hs r false with h | h <;> exact h

theorem stripWs_ws {w : Bytes} (hw : Ws w) (r : Bytes) : stripWs false false (w ++ r) = stripWs false false r := by
  induction w with
  | nil => rfl
  | cons c w ih =>
    have hc : c = 0x20 ∨ c = 0x09 ∨ c = 0x0a ∨ c = 0x0d := by
      have := hw c (by simp)
      cases this <;> simp
    rw [List.cons_append, stripWs, if_pos hc, ih (fun c h => hw c (by simp [h]))]

theorem stripWs_chars {s : Bytes} (hs : JChars s) (r : Bytes) :
    stripWs true false (s ++ r) = s ++ stripWs true false r := by
  have hx : ∀ h : UInt8, HexDigit h → (h != 0x22) = true ∧ (h == 0x5c) = false := by
    intro h hh
    rw [bne_iff_ne, beq_eq_false_iff_ne]
    constructor <;> (rintro rfl; revert hh; simp [HexDigit])
  induction hs with
  | nil => rfl
  | plain c b h1 h2 h3 _ ih =>
    have e1 : (c != 0x22) = true := by simpa using h2
    have e2 : (c == 0x5c) = false := by simpa using h3
    rw [List.cons_append, stripWs, e1, e2, ih]; rfl
  | esc e b he _ ih =>
    simp only [List.cons_append]
    rw [stripWs]
    show 0x5c :: stripWs true true (e :: (b ++ r)) = _
    rw [stripWs, ih]
  | uni a1 a2 a3 a4 b k1 k2 k3 k4 _ ih =>
    simp only [List.cons_append]
    rw [stripWs]
    show 0x5c :: stripWs true true (_ :: _) = _
    rw [stripWs, stripWs, (hx _ k1).1, (hx _ k1).2, stripWs, (hx _ k2).1, (hx _ k2).2,
      stripWs, (hx _ k3).1, (hx _ k3).2, stripWs, (hx _ k4).1, (hx _ k4).2, ih]

theorem stripWs_string {s : Bytes} (hs : JString s) (r : Bytes) :
    stripWs false false (s ++ r) = s ++ stripWs false false r := by
  obtain ⟨s, hs⟩ := hs
  rw [List.cons_append, stripWs, if_neg (by decide)]
  show 0x22 :: stripWs true false (s ++ [0x22] ++ r) = _
  rw [List.append_assoc, stripWs_chars hs, List.cons_append, List.nil_append, stripWs]
  simp

theorem jnumber_bytes {s : Bytes} (hs : JNumber s) :
    ∀ c ∈ s, Digit c ∨ c = 0x2d ∨ c = 0x2e ∨ c = 0x65 ∨ c = 0x45 ∨ c = 0x2b := by
  obtain ⟨sgn, i, f, e, hs, hi, hf, he⟩ := hs
  intro c hc
  simp only [List.mem_append] at hc
  rcases hc with ((hc | hc) | hc) | hc
  · rcases hs with rfl | rfl
    · simp at hc
    · simp at hc; simp [hc]
  · left
    cases hi with
    | zero => simp at hc; subst hc; exact ⟨by decide, by decide⟩
    | pos d ds h1 h2 hd =>
      rcases List.mem_cons.1 hc with rfl | hc
      · refine ⟨?_, h2⟩
        simp only [UInt8.le_iff_toNat_le, UInt8.reduceToNat] at *; omega
      · exact hd c hc
  · cases hf with
    | none => simp at hc
    | some ds hd =>
      rcases List.mem_cons.1 hc with rfl | hc
      · simp
      · exact .inl (hd.2 c hc)
  · cases he with
    | none => simp at hc
    | some x sg ds hx hsg hd =>
      rcases List.mem_cons.1 hc with rfl | hc
      · rcases hx with rfl | rfl <;> simp
      · rcases List.mem_append.1 hc with hc | hc
        · rcases hsg with rfl | rfl | rfl
          · simp at hc
          · simp at hc; simp [hc]
          · simp at hc; simp [hc]
        · exact .inl (hd.2 c hc)

theorem jnumber_solid {s : Bytes} (hs : JNumber s) : ∀ c ∈ s, Solid c := by
  intro c hc
  have := jnumber_bytes hs c hc
  simp only [Digit, UInt8.le_iff_toNat_le, UInt8.reduceToNat] at this
  simp only [Solid, ← UInt8.toNat_inj, UInt8.reduceToNat, ne_eq] at *
  omega

/-- What stripping says for each nonterminal. -/
def StripSpec : Sym → Bytes → Prop
  | .value j, b => ∀ r, stripWs false false (b ++ r) = compact j ++ stripWs false false r
  | .elems xs, b => ∀ r, stripWs false false (b ++ r) = compactElems xs ++ stripWs false false r
  | .members ms, b => ∀ r, stripWs false false (b ++ r) = compactMembers ms ++ stripWs false false r

theorem stripWs_one {c : UInt8} (h : Solid c) (r : Bytes) :
    stripWs false false (c :: r) = c :: stripWs false false r := by
  have := stripWs_solid' (s := [c]) (by simpa using h) r
  exact this

theorem strip_spec {s : Sym} {b : Bytes} (h : Derives s b) : StripSpec s b := by
  have hsol : ∀ c ∈ ([0x5b, 0x5d, 0x7b, 0x7d, 0x2c, 0x3a] : Bytes), Solid c := by unfold Solid; decide
  have s1 := fun r => stripWs_one (hsol 0x5b (by decide)) r
  have s2 := fun r => stripWs_one (hsol 0x5d (by decide)) r
  have s3 := fun r => stripWs_one (hsol 0x7b (by decide)) r
  have s4 := fun r => stripWs_one (hsol 0x7d (by decide)) r
  have s5 := fun r => stripWs_one (hsol 0x2c (by decide)) r
  have s6 := fun r => stripWs_one (hsol 0x3a (by decide)) r
  induction h with
  | null => intro r; exact stripWs_solid' (by unfold Solid; decide) r
  | tru => intro r; exact stripWs_solid' (by unfold Solid; decide) r
  | fls => intro r; exact stripWs_solid' (by unfold Solid; decide) r
  | num s hs => intro r; exact stripWs_solid' (jnumber_solid hs) r
  | str s hs => intro r; exact stripWs_string hs r
  | arrNil w hw =>
    intro r
    simp only [List.cons_append, List.append_assoc, List.nil_append]
    rw [s1, stripWs_ws hw, s2]; simp [compact, compactElems]
  | arr xs b _ ih =>
    intro r
    simp only [List.cons_append, List.append_assoc, List.nil_append]
    rw [s1, ih, s2]; simp [compact]
  | objNil w hw =>
    intro r
    simp only [List.cons_append, List.append_assoc, List.nil_append]
    rw [s3, stripWs_ws hw, s4]; simp [compact, compactMembers]
  | obj ms b _ ih =>
    intro r
    simp only [List.cons_append, List.append_assoc, List.nil_append]
    rw [s3, ih, s4]; simp [compact]
  | elemOne w1 w2 j b h1 h2 _ ih =>
    intro r
    simp only [List.append_assoc]
    rw [stripWs_ws h1, ih, stripWs_ws h2]; simp [compactElems]
  | elemCons w1 w2 j b xs bs h1 h2 _ hxs ih ihs =>
    intro r
    simp only [List.append_assoc, List.cons_append]
    rw [stripWs_ws h1, ih, stripWs_ws h2, s5, ihs]
    cases xs with
    | nil => cases hxs
    | cons => simp [compactElems]
  | memOne w1 w2 w3 w4 k j b h1 h2 h3 h4 hk _ ih =>
    intro r
    simp only [List.append_assoc, List.cons_append]
    rw [stripWs_ws h1, stripWs_string hk, stripWs_ws h2, s6, stripWs_ws h3, ih, stripWs_ws h4]
    simp [compactMembers]
  | memCons w1 w2 w3 w4 k j b ms bs h1 h2 h3 h4 hk _ hms ih ihs =>
    intro r
    simp only [List.append_assoc, List.cons_append]
    rw [stripWs_ws h1, stripWs_string hk, stripWs_ws h2, s6, stripWs_ws h3, ih, stripWs_ws h4, s5, ihs]
    cases ms with
    | nil => cases hms
    | cons => simp [compactMembers]

/-- Stripping the whitespace of a JSON text leaves the compact text. -/
theorem stripWs_text {j : Json} {b : Bytes} (h : JText j b) : stripWs false false b = compact j := by
  obtain ⟨w1, v, w2, rfl, h1, h2, hj⟩ := h
  rw [List.append_assoc, stripWs_ws h1, strip_spec hj]
  have := stripWs_ws h2 []
  rw [List.append_nil] at this
  rw [this]
  simp [stripWs]

/-- The compact text derives the same tree. -/
theorem derives_compact {s : Sym} {b : Bytes} (h : Derives s b) :
    match s with
    | .value j => Derives (.value j) (compact j)
    | .elems xs => Derives (.elems xs) (compactElems xs)
    | .members ms => Derives (.members ms) (compactMembers ms) := by
  induction h with
  | null => exact .null
  | tru => exact .tru
  | fls => exact .fls
  | num s hs => exact .num s hs
  | str s hs => exact .str s hs
  | arrNil w hw => exact .arrNil [] .nil
  | arr xs b _ ih => exact .arr xs _ ih
  | objNil w hw => exact .objNil [] .nil
  | obj xs b _ ih => exact .obj xs _ ih
  | elemOne w1 w2 j b h1 h2 _ ih =>
    have := Derives.elemOne [] [] j _ .nil .nil ih
    simpa [compactElems] using this
  | elemCons w1 w2 j b xs bs h1 h2 _ hxs ih ihs =>
    have := Derives.elemCons [] [] j _ xs _ .nil .nil ih ihs
    cases xs with
    | nil => cases hxs
    | cons => simpa [compactElems] using this
  | memOne w1 w2 w3 w4 k j b h1 h2 h3 h4 hk _ ih =>
    have := Derives.memOne [] [] [] [] k j _ .nil .nil .nil .nil hk ih
    simpa [compactMembers] using this
  | memCons w1 w2 w3 w4 k j b ms bs h1 h2 h3 h4 hk _ hms ih ihs =>
    have := Derives.memCons [] [] [] [] k j _ ms _ .nil .nil .nil .nil hk ih ihs
    cases ms with
    | nil => cases hms
    | cons => simpa [compactMembers] using this

mutual
theorem tokens_flat (d i : Nat) : ∀ j : Json, (tokens d i j).flatMap SpecTok.value = compact j
  | .null | .tru | .fls | .num _ | .str _ => by simp [tokens, compact]
  | .arr xs => by simp [tokens, compact, tokensElems_flat (d + 1) 0 xs]
  | .obj ms => by simp [tokens, compact, tokensMembers_flat (d + 1) 0 ms]
theorem tokensElems_flat (d i : Nat) : ∀ xs : List Json, (tokensElems d i xs).flatMap SpecTok.value = compactElems xs
  | [] => by simp [tokensElems, compactElems]
  | [j] => by simp [tokensElems, compactElems, tokens_flat d i j]
  | j :: x :: xs => by simp [tokensElems, compactElems, tokens_flat d i j, tokensElems_flat d (i + 1) (x :: xs)]
theorem tokensMembers_flat (d i : Nat) : ∀ ms : List (Bytes × Json),
    (tokensMembers d i ms).flatMap SpecTok.value = compactMembers ms
  | [] => by simp [tokensMembers, compactMembers]
  | [(_, j)] => by simp [tokensMembers, compactMembers, tokens_flat d i j]
  | (_, j) :: m :: ms => by
    simp [tokensMembers, compactMembers, tokens_flat d i j, tokensMembers_flat d (i + 1) (m :: ms)]
end

end JC
