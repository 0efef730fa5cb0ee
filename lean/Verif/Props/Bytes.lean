import Verif.Props.Decode
import Verif.Spec.Base64
/-!
Property C39: byte slices and base64.
-/
namespace JC.Props
open JC Spec

theorem char_alphabet : ∀ n < 64, b64Char n = alphabet.getD n 0 := by decide +kernel

theorem val_char : ∀ n < 64, b64Val (b64Char n) = some n := by decide +kernel

theorem char_plain : ∀ n < 64, 0x20 ≤ b64Char n ∧ b64Char n < 0x7f ∧ b64Char n ≠ 0x22 ∧ b64Char n ≠ 0x5c ∧ b64Char n ≠ 0x3d ∧
    b64Char n ≠ 0x0a ∧ b64Char n ≠ 0x0d := by decide +kernel

theorem char_eq {n m : Nat} (h : n < 64) (e : n = m) : b64Char n = alphabet.getD m 0 := by subst e; exact char_alphabet n h

theorem bits_def (a : UInt8) : bits a = [a.toNat / 128 % 2, a.toNat / 64 % 2, a.toNat / 32 % 2, a.toNat / 16 % 2, a.toNat / 8 % 2,
    a.toNat / 4 % 2, a.toNat / 2 % 2, a.toNat % 2] := by simp [bits]

theorem base64_three (a b c : UInt8) (r : Bytes) : sextets ((a :: b :: c :: r).flatMap bits) =
    b64Char (a.toNat / 4) :: b64Char (a.toNat % 4 * 16 + b.toNat / 16) ::
    b64Char (b.toNat % 16 * 4 + c.toNat / 64) :: b64Char (c.toNat % 64) :: sextets (r.flatMap bits) := by
  have ha := a.toNat_lt
  have hb := b.toNat_lt
  have hc := c.toNat_lt
  simp only [List.flatMap_cons, bits_def, List.cons_append, List.nil_append, sextets]
  rw [char_eq (n := a.toNat / 4) (by omega) rfl, char_eq (n := a.toNat % 4 * 16 + b.toNat / 16) (by omega) rfl,
    char_eq (n := b.toNat % 16 * 4 + c.toNat / 64) (by omega) rfl, char_eq (n := c.toNat % 64) (by omega) rfl]
  simp only [List.cons.injEq, and_true]
  exact ⟨congrArg (alphabet.getD · 0) (by omega), congrArg (alphabet.getD · 0) (by omega), congrArg (alphabet.getD · 0) (by omega), congrArg (alphabet.getD · 0) (by omega)⟩

theorem encode_eq_base64 : ∀ s : Bytes, b64Encode s = base64 s
  | [] => rfl
  | [a] => by
    have ha := a.toNat_lt
    simp only [b64Encode, base64, List.flatMap_cons, List.flatMap_nil, bits_def, List.cons_append, List.nil_append, sextets, List.append_nil]
    rw [char_eq (n := a.toNat / 4) (by omega) rfl, char_eq (n := a.toNat % 4 * 16) (by omega) rfl]
    simp only [List.length_cons, List.length_nil]
    show _ = _ :: _ :: [0x3d, 0x3d]
    simp only [List.cons.injEq, and_true]
    exact ⟨congrArg (alphabet.getD · 0) (by omega), congrArg (alphabet.getD · 0) (by omega)⟩
  | [a, b] => by
    have ha := a.toNat_lt
    have hb := b.toNat_lt
    simp only [b64Encode, base64, List.flatMap_cons, List.flatMap_nil, bits_def, List.cons_append, List.nil_append, sextets, List.append_nil]
    rw [char_eq (n := a.toNat / 4) (by omega) rfl, char_eq (n := a.toNat % 4 * 16 + b.toNat / 16) (by omega) rfl,
      char_eq (n := b.toNat % 16 * 4) (by omega) rfl]
    show _ = _ :: _ :: _ :: [0x3d]
    simp only [List.cons.injEq, and_true]
    exact ⟨congrArg (alphabet.getD · 0) (by omega), congrArg (alphabet.getD · 0) (by omega), congrArg (alphabet.getD · 0) (by omega)⟩
  | a :: b :: c :: r => by
    have ih := encode_eq_base64 r
    rw [b64Encode, ih]
    unfold base64
    rw [base64_three]
    simp only [List.length_cons, List.cons_append]
    have e : ∀ n : Nat, (4 - (n + 1 + 1 + 1 + 1) % 4) % 4 = (4 - n % 4) % 4 := by omega
    rw [e]

theorem encode_plain : ∀ s : Bytes, ∀ x ∈ b64Encode s, 0x20 ≤ x ∧ x < 0x7f ∧ x ≠ 0x22 ∧ x ≠ 0x5c ∧ x ≠ 0x0a ∧ x ≠ 0x0d
  | [] => by simp [b64Encode]
  | [a] => by
    have ha := a.toNat_lt
    have h1 := char_plain (a.toNat / 4) (by omega)
    have h2 := char_plain (a.toNat % 4 * 16) (by omega)
    intro x hx
    simp only [b64Encode, List.mem_cons, List.not_mem_nil, or_false] at hx
    rcases hx with rfl | rfl | rfl | rfl
    · simp [h1]
    · simp [h2]
    · decide
    · decide
  | [a, b] => by
    have ha := a.toNat_lt
    have hb := b.toNat_lt
    have h1 := char_plain (a.toNat / 4) (by omega)
    have h2 := char_plain (a.toNat % 4 * 16 + b.toNat / 16) (by omega)
    have h3 := char_plain (b.toNat % 16 * 4) (by omega)
    intro x hx
    simp only [b64Encode, List.mem_cons, List.not_mem_nil, or_false] at hx
    rcases hx with rfl | rfl | rfl | rfl
    · simp [h1]
    · simp [h2]
    · simp [h3]
    · decide
  | a :: b :: c :: r => by
    have ha := a.toNat_lt
    have hb := b.toNat_lt
    have hc := c.toNat_lt
    have h1 := char_plain (a.toNat / 4) (by omega)
    have h2 := char_plain (a.toNat % 4 * 16 + b.toNat / 16) (by omega)
    have h3 := char_plain (b.toNat % 16 * 4 + c.toNat / 64) (by omega)
    have h4 := char_plain (c.toNat % 64) (by omega)
    intro x hx
    simp only [b64Encode, List.mem_cons] at hx
    rcases hx with rfl | rfl | rfl | rfl | hx
    · simp [h1]
    · simp [h2]
    · simp [h3]
    · simp [h4]
    · exact encode_plain r x hx

theorem byte_eq {a : UInt8} {n : Nat} (h : n % 256 = a.toNat) : UInt8.ofNat n = a := by
  rw [← UInt8.toNat_inj]; simpa using h

theorem quads_encode : ∀ s : Bytes, b64Quads (b64Encode s) = some s
  | [] => rfl
  | [a] => by
    have ha := a.toNat_lt
    simp only [b64Encode, b64Quads, val_char (a.toNat / 4) (by omega), val_char (a.toNat % 4 * 16) (by omega)]
    simp only [and_self, if_true, Option.some.injEq, List.cons.injEq, and_true]
    exact byte_eq (by omega)
  | [a, b] => by
    have ha := a.toNat_lt
    have hb := b.toNat_lt
    simp only [b64Encode, b64Quads, val_char (a.toNat / 4) (by omega), val_char (a.toNat % 4 * 16 + b.toNat / 16) (by omega),
      val_char (b.toNat % 16 * 4) (by omega)]
    rw [if_neg (fun h => (char_plain (b.toNat % 16 * 4) (by omega)).2.2.2.2.1 h.1)]
    simp only [if_true, Option.some.injEq, List.cons.injEq, and_true]
    exact ⟨byte_eq (by omega), byte_eq (by omega)⟩
  | [a, b, c] => by
    have ha := a.toNat_lt
    have hb := b.toNat_lt
    have hc := c.toNat_lt
    simp only [b64Encode, b64Quads, val_char (a.toNat / 4) (by omega), val_char (a.toNat % 4 * 16 + b.toNat / 16) (by omega),
      val_char (b.toNat % 16 * 4 + c.toNat / 64) (by omega), val_char (c.toNat % 64) (by omega)]
    rw [if_neg (fun h => (char_plain (c.toNat % 64) (by omega)).2.2.2.2.1 h.2), if_neg (char_plain (c.toNat % 64) (by omega)).2.2.2.2.1]
    simp only [Option.some.injEq, List.cons.injEq, and_true]
    exact ⟨byte_eq (by omega), byte_eq (by omega), byte_eq (by omega)⟩
  | a :: b :: c :: d :: r => by
    have ha := a.toNat_lt
    have hb := b.toNat_lt
    have hc := c.toNat_lt
    have ih := quads_encode (d :: r)
    rw [b64Encode]
    have hne : b64Encode (d :: r) ≠ [] := by
      match r with
      | [] => simp [b64Encode]
      | [_] => simp [b64Encode]
      | _ :: _ :: _ => simp [b64Encode]
    generalize hq : b64Encode (d :: r) = q at *
    match q, hne with
    | x :: q, _ =>
      rw [b64Quads]
      simp only [val_char (a.toNat / 4) (by omega), val_char (a.toNat % 4 * 16 + b.toNat / 16) (by omega),
        val_char (b.toNat % 16 * 4 + c.toNat / 64) (by omega), val_char (c.toNat % 64) (by omega), ih]
      simp only [Option.some.injEq, List.cons.injEq, and_true]
      exact ⟨byte_eq (by omega), byte_eq (by omega), byte_eq (by omega)⟩
      intro h; cases h

theorem decode_encode (s : Bytes) : b64Decode (b64Encode s) = some s := by
  unfold b64Decode
  rw [List.filter_eq_self.2, quads_encode]
  intro x hx
  have := encode_plain s x hx
  simp [this]

theorem decodeBytes_literal (s r : Bytes) (p : DV) :
    decodeBytes (0x22 :: (b64Encode s ++ 0x22 :: r)) p = .ok (.bytes s []) r := by
  have hp : PlainAscii (b64Encode s) := by
    intro x hx
    have := encode_plain s x hx
    refine ⟨?_, this.2.2.1, this.2.2.2.1⟩
    obtain ⟨h1, h2, _⟩ := this
    simp only [UInt8.le_iff_toNat_le, UInt8.lt_iff_toNat_lt, isPrint, UInt8.reduceToNat, Bool.and_eq_true, decide_eq_true_eq] at *
    omega
  obtain ⟨hm, hu⟩ := strMeans_plain hp
  have hq : ∃ n, parseStringUnquote (0x22 :: (b64Encode s ++ 0x22 :: r)) [] = .ok (b64Encode s) r n := by
    rcases C04_unquote hm r [] with h | h <;> rw [hu] at h <;> exact ⟨_, h⟩
  obtain ⟨n, hq⟩ := hq
  unfold decodeBytes
  rw [if_neg (by simp [hasNullPrefix])]
  simp only []
  rw [if_neg (by simp; omega), if_neg (by decide), hq]
  simp only [decode_encode]

/-- A byte slice as a Go value, as a text without colors, and as the contents of
a destination after decoding. -/
def goBytes : Option Bytes → GV
  | none => .bytesNil
  | some s => .bytes s
def bytesText : Option Bytes → Bytes
  | none => bs! "null"
  | some s => 0x22 :: (base64 s ++ [0x22])
def storedBytes : Option Bytes → DV
  | none => .bytesNil
  | some s => .bytes s []

/-- **C39** The encoding of a byte slice without colors is a string literal with its
base64 text; a nil slice gives `null`. -/
theorem C39_encode {c : Cfg} (hc : c.clrs = none) (v : Option Bytes) (b : Bytes) (d : Int) :
    enc c (goBytes v) b d = .done (b ++ bytesText v) d none := by
  cases v with
  | none => simp [goBytes, enc, encodeBytes, doEncodeBytes, colored, hc, bytesText, appendNull]
  | some s => simp [goBytes, enc, encodeBytes, doEncodeBytes, colored, hc, bytesText, encode_eq_base64]

/-- **C39** Decoding the encoding, with any whitespace around it, gives the bytes
back, whatever the destination held; `null` gives nil. -/
theorem C39_roundtrip (v : Option Bytes) (dc : DCfg) (n : Nat) (p : DV) {w1 w2 : Bytes} (h1 : Ws w1) (h2 : Ws w2) :
    unmarshal dc n .bytes (w1 ++ bytesText v ++ w2) p = .done (storedBytes v) none := by
  cases v with
  | none => exact C54_null_partial dc n .bytes p trivial h1 h2
  | some s =>
    have e : skipSpaces (w1 ++ bytesText (some s) ++ w2) = 0x22 :: (b64Encode s ++ 0x22 :: w2) := by
      show skipSpaces (w1 ++ (0x22 :: (base64 s ++ [0x22])) ++ w2) = _
      rw [List.append_assoc, List.cons_append, skip_ws_cons h1 (by decide), encode_eq_base64]
      simp
    have ed : decN dc n .bytes = decodeBytes := by cases n <;> rfl
    unfold unmarshal parseInto
    rw [e, ed, decodeBytes_literal]
    simp [skipSpaces_ws h2, storedBytes]

/-- The slice 00 ff 3e 7f: its text, and back. -/
example : bytesText (some [0x00, 0xff, 0x3e, 0x7f]) = bs! "\"AP8+fw==\"" ∧
    unmarshal { lib := noLib } 0 .bytes (bs! " \"AP8+fw==\"\n") (.bytes [1] []) = .done (.bytes [0x00, 0xff, 0x3e, 0x7f] []) none :=
  ⟨by decide +kernel, C39_roundtrip (some [0x00, 0xff, 0x3e, 0x7f]) _ _ _ (w1 := [0x20]) (w2 := [0x0a]) (.cons .space ws_nil) (.cons .lf ws_nil)⟩

end JC.Props
