import Verif.Lemmas.Size
/-!
How much the encoding functions append, from the smallest to `enc` (property C93).
-/
namespace JC
open Spec

section
variable {c : Cfg} {D : Nat}

theorem perUnit_ge (c : Cfg) (D : Nat) : 6 + 6 * perColor c.clrs + 3 * perLine c.ind D ≤ perUnit c D := by
  unfold perUnit; split <;> omega

theorem unit_mul (c : Cfg) (D k : Nat) : 6 * k + 6 + 6 * perColor c.clrs + 3 * perLine c.ind D ≤ perUnit c D * (k + 1) := by
  have h := perUnit_ge c D
  have := Nat.mul_le_mul_right k (show 6 ≤ perUnit c D by omega)
  rw [Nat.mul_succ]; omega

theorem unit_mul2 (c : Cfg) (D k : Nat) (hk : 1 ≤ k) : 6 * k + 6 + 12 * perColor c.clrs + 3 * perLine c.ind D ≤ perUnit c D * (k + 1) := by
  have h := perUnit_ge c D
  obtain ⟨j, rfl⟩ : ∃ j, k = j + 1 := ⟨k - 1, by omega⟩
  have := Nat.mul_le_mul_right j (show 6 ≤ perUnit c D by omega)
  have h1 := Nat.mul_succ (perUnit c D) (j + 1)
  have h2 := Nat.mul_succ (perUnit c D) j
  simp only [Nat.succ_eq_add_one] at h1 h2
  omega

theorem color_size {cl : Colors} {s : Bytes} (h : s ∈ palette cl) : s.length + 4 ≤ perColor (some cl) := by
  have : ∀ (l : List Nat) (n : Nat), n ∈ l → n ≤ l.foldr max 0 := by
    intro l
    induction l with
    | nil => intro n h; cases h
    | cons a l ih =>
      intro n h
      rcases List.mem_cons.1 h with rfl | h
      · exact Nat.le_max_left _ _
      · exact Nat.le_trans (ih n h) (Nat.le_max_right _ _)
  have := this _ _ (List.mem_map_of_mem (f := List.length) h)
  simp only [perColor]; omega

theorem reset_size : ansiReset.length = 4 := rfl

theorem punc_size (v : UInt8) (b : Bytes) : (appendPunc c.clrs b v).length ≤ b.length + 1 + perColor c.clrs := by
  unfold appendPunc
  cases c.clrs with
  | none => simp [perColor]
  | some cl =>
    have : cl.puncColor v ∈ palette cl ∨ cl.puncColor v = [] := by
      unfold Colors.puncColor palette
      simp only []
      repeat' split
      all_goals simp
    have h1 : (cl.puncColor v).length + 4 ≤ perColor (some cl) := by
      rcases this with h | h
      · exact color_size h
      · rw [h]; simp [perColor]
    simp only [List.length_append, List.length_cons, List.length_nil, reset_size]; omega

theorem null_size (b : Bytes) : (appendNull c.clrs b).length ≤ b.length + 4 + perColor c.clrs := by
  unfold appendNull
  have h4 : (bs! "null").length = 4 := rfl
  cases c.clrs with
  | none => simp only [List.length_append, h4, perColor]; omega
  | some cl =>
    have := color_size (cl := cl) (s := cl.null) (by simp [palette])
    simp only [List.length_append, h4, reset_size]; omega

theorem bool_size (v : Bool) (b : Bytes) : (appendBool c.clrs b v).length ≤ b.length + 5 + perColor c.clrs := by
  unfold appendBool
  have h4 : (bs! "true").length = 4 := rfl
  have h5 : (bs! "false").length = 5 := rfl
  cases c.clrs with
  | none => simp only []; split <;> simp only [List.length_append, h4, h5] <;> omega
  | some cl =>
    have := color_size (cl := cl) (s := cl.bool) (by simp [palette])
    simp only []; split <;> simp only [List.length_append, h4, h5, reset_size] <;> omega

theorem int_size (z : Int) (b : Bytes) : (appendInt64 c.clrs b z).length ≤ b.length + (digits z.natAbs + 1) + perColor c.clrs := by
  unfold appendInt64
  have h := fmtInt_size z
  cases c.clrs with
  | none => simp only [List.length_append]; omega
  | some cl =>
    have := color_size (cl := cl) (s := cl.number) (by simp [palette])
    simp only [List.length_append, reset_size]; omega

theorem uint_size (n : Nat) (b : Bytes) : (appendUint64 c.clrs b n).length ≤ b.length + digits n + perColor c.clrs := by
  unfold appendUint64
  have h := fmtNat_size n
  cases c.clrs with
  | none => simp only [List.length_append]; omega
  | some cl =>
    have := color_size (cl := cl) (s := cl.number) (by simp [palette])
    simp only [List.length_append, reset_size]; omega

theorem byte_size (D : Nat) (b : Bytes) (a : UInt8) : (c.appendByte b a).length ≤ b.length + perLine c.ind D := by
  unfold Cfg.appendByte perLine
  cases c.ind with
  | none => simp
  | some i =>
    simp only []; split
    · simp
    · simp only [List.length_append, List.length_cons, List.length_nil]; omega

theorem flatten_replicate_size (n : Nat) (s : Bytes) : (List.replicate n s).flatten.length = n * s.length := by
  induction n with
  | zero => simp
  | succ n ih => rw [List.replicate_succ, List.flatten_cons, List.length_append, ih, Nat.succ_mul]; omega

theorem indent_size {d : Int} (hd : d ≤ D) (b : Bytes) : (c.appendIndent d b).length ≤ b.length + perLine c.ind D := by
  unfold Cfg.appendIndent perLine
  cases c.ind with
  | none => simp
  | some i =>
    simp only []; split
    · simp
    · simp only [List.length_append, flatten_replicate_size]
      have := Nat.mul_le_mul_right i.indent.length (show d.toNat ≤ D by omega)
      omega

theorem push_le (d : Int) : c.push d ≤ d + 1 := by unfold Cfg.push; split <;> omega
theorem pop_le (d : Int) : c.pop d ≤ d := by unfold Cfg.pop; split <;> omega

theorem string_size (html : Bool) (b s : Bytes) : (doEncodeString html b s).length ≤ b.length + 6 * s.length + 2 := by
  have := encLoop_size html s.length s [] (Nat.le_refl _)
  simp only [doEncodeString, List.length_append, List.length_cons, List.length_nil] at *
  omega

/-- An encoding function that appends at most `k` bytes and stays where it is. -/
def Adds (k : Nat) (f : Enc) : Prop := ∀ b d b' d' e, f b d = .done b' d' e → b'.length ≤ b.length + k ∧ d' = d

theorem colored_adds {clr : Colors → Bytes} (hc : ∀ cl, clr cl ∈ palette cl) {k : Nat} {f : Enc} (h : Adds k f) :
    Adds (k + perColor c.clrs) (colored c clr f) := by
  intro b d b' d' e he
  unfold colored at he
  cases hcl : c.clrs with
  | none =>
    rw [hcl] at he
    obtain ⟨h1, h2⟩ := h _ _ _ _ _ he
    exact ⟨by omega, h2⟩
  | some cl =>
    rw [hcl] at he
    have := color_size (hc cl)
    simp only [] at he
    cases hf : f (b ++ clr cl) d with
    | panic => rw [hf] at he; cases he
    | done b1 d1 e1 =>
      rw [hf] at he
      obtain ⟨h1, h2⟩ := h _ _ _ _ _ hf
      simp only [Out.done.injEq] at he
      obtain ⟨rfl, rfl, _⟩ := he
      rw [List.length_append] at h1
      rw [List.length_append, reset_size]
      exact ⟨by omega, h2⟩

theorem encStr_adds (s : Bytes) : Adds (6 * s.length + 2) (encStr c s) := by
  intro b d b' d' e h
  simp only [encStr, Out.done.injEq] at h
  obtain ⟨rfl, rfl, _⟩ := h
  have := string_size c.escapeHTML b s
  exact ⟨by omega, rfl⟩

theorem key_adds (s : Bytes) : Adds (6 * s.length + 2 + perColor c.clrs) (encodeKey c s) :=
  colored_adds (fun cl => by simp [palette]) (encStr_adds s)

theorem str_adds (s : Bytes) : Adds (6 * s.length + 2 + perColor c.clrs) (encodeString c s) :=
  colored_adds (fun cl => by simp [palette]) (encStr_adds s)

theorem float_adds (f : Flt) : Adds (floatSize f) (encodeFloat f) := by
  intro b d b' d' e h
  unfold encodeFloat at h
  cases f with
  | nan => simp only [Out.done.injEq] at h; obtain ⟨rfl, rfl, _⟩ := h; exact ⟨by omega, rfl⟩
  | inf => simp only [Out.done.injEq] at h; obtain ⟨rfl, rfl, _⟩ := h; exact ⟨by omega, rfl⟩
  | fin ex text ok =>
    simp only [] at h
    repeat' split at h
    all_goals
      simp only [Out.done.injEq] at h; obtain ⟨rfl, rfl, _⟩ := h
      refine ⟨?_, rfl⟩
      simp only [List.length_take, List.length_set, List.length_append, floatSize]
      omega

theorem number_adds (s : Bytes) : Adds (s.length + 1 + perColor c.clrs) (encodeNumber c s) := by
  intro b d b' d' e h
  unfold encodeNumber at h
  have hn : (if s = [] then bs! "0" else s).length ≤ s.length + 1 := by
    split
    · have : (bs! "0").length = 1 := rfl
      omega
    · omega
  simp only [] at h
  generalize (if s = [] then bs! "0" else s) = n at *
  split at h
  · simp only [Out.done.injEq] at h; obtain ⟨rfl, rfl, _⟩ := h; exact ⟨by omega, rfl⟩
  · cases hcl : c.clrs with
    | none =>
      rw [hcl] at h
      simp only [Out.done.injEq] at h; obtain ⟨rfl, rfl, _⟩ := h
      rw [List.length_append]; exact ⟨by omega, rfl⟩
    | some cl =>
      rw [hcl] at h
      have := color_size (cl := cl) (s := cl.number) (by simp [palette])
      simp only [Out.done.injEq] at h; obtain ⟨rfl, rfl, _⟩ := h
      refine ⟨?_, rfl⟩; simp only [List.length_append, reset_size]; omega

theorem bytes_adds (v : Option Bytes) : Adds (4 * (v.getD []).length + 4 + 2 * perColor c.clrs) (encodeBytes c v) := by
  have h : Adds (4 * (v.getD []).length + 4 + perColor c.clrs) (doEncodeBytes c v) := by
    intro b d b' d' e h
    unfold doEncodeBytes at h
    cases v with
    | none =>
      simp only [Out.done.injEq] at h; obtain ⟨rfl, rfl, _⟩ := h
      have := null_size (c := c) b
      exact ⟨by omega, rfl⟩
    | some s =>
      simp only [Out.done.injEq] at h; obtain ⟨rfl, rfl, _⟩ := h
      have := b64_size s
      refine ⟨?_, rfl⟩
      simp only [List.length_append, List.length_cons, List.length_nil, Option.getD_some]
      omega
  have := colored_adds (c := c) (clr := (·.bytes)) (fun cl => by simp [palette]) h
  intro b d b' d' e he
  obtain ⟨h1, h2⟩ := this b d b' d' e he
  exact ⟨by omega, h2⟩

theorem time_adds (s : Bytes) : Adds (s.length + 2 + perColor c.clrs) (encodeTime c s) := by
  intro b d b' d' e h
  unfold encodeTime at h
  cases hcl : c.clrs with
  | none =>
    rw [hcl] at h
    simp only [Out.done.injEq] at h; obtain ⟨rfl, rfl, _⟩ := h
    refine ⟨?_, rfl⟩; simp only [List.length_append, List.length_cons, List.length_nil]; omega
  | some cl =>
    rw [hcl] at h
    have := color_size (cl := cl) (s := cl.time) (by simp [palette])
    simp only [Out.done.injEq] at h; obtain ⟨rfl, rfl, _⟩ := h
    refine ⟨?_, rfl⟩; simp only [List.length_append, List.length_cons, List.length_nil, reset_size]; omega

theorem text_adds (r : TextRes) : Adds (6 * textSize r + 4 + perColor c.clrs) (encodeTextMarshaler c r) := by
  intro b d b' d' e h
  unfold encodeTextMarshaler at h
  cases r with
  | isNil =>
    simp only [Out.done.injEq] at h; obtain ⟨rfl, rfl, _⟩ := h
    have := null_size (c := c) b
    exact ⟨by omega, rfl⟩
  | err x => simp only [Out.done.injEq] at h; obtain ⟨rfl, rfl, _⟩ := h; exact ⟨by omega, rfl⟩
  | absent => cases h
  | ok s =>
    obtain ⟨h1, h2⟩ := colored_adds (c := c) (clr := (·.textMarshaler)) (fun cl => by simp [palette]) (encStr_adds s) _ _ _ _ _ h
    simp only [textSize]
    exact ⟨by omega, h2⟩

/-- What `encodeToString` makes of the bytes it is given. -/
theorem toString_size {f : Enc} {b : Bytes} {d : Int} {b' : Bytes} {d' : Int} {e : Option Err} (h : encodeToString c f b d = .done b' d' e) :
    ∃ b1, f b d = .done b1 d' e ∧ b'.length ≤ max b1.length (b.length + 2 + 6 * (b1.length - b.length)) := by
  unfold encodeToString at h
  simp only [] at h
  cases hf : f b d with
  | panic => rw [hf] at h; cases h
  | done b1 d1 e1 =>
    rw [hf] at h
    cases e1 with
    | some x =>
      simp only [Out.done.injEq] at h; obtain ⟨rfl, rfl, rfl⟩ := h
      exact ⟨_, rfl, by omega⟩
    | none =>
      simp only [Out.done.injEq] at h; obtain ⟨rfl, rfl, rfl⟩ := h
      refine ⟨_, rfl, ?_⟩
      have := string_size c.escapeHTML b1 (b1.drop b.length)
      simp only [List.length_append, List.length_take, List.length_drop] at *
      omega

theorem mkey_size (k : MKey) {b : Bytes} {d : Int} {b' : Bytes} {d' : Int} {e : Option Err} (h : encodeMKey c k b d = .done b' d' e) :
    b'.length + 2 + 2 * perColor c.clrs + 3 * perLine c.ind D ≤ b.length + perUnit c D * (keySize k + 1) ∧ d' = d := by
  have hu := unit_mul c D (keySize k)
  unfold encodeMKey at h
  cases k with
  | str s =>
    obtain ⟨h1, h2⟩ := key_adds s _ _ _ _ _ h
    simp only [keySize] at *
    exact ⟨by omega, h2⟩
  | int z =>
    obtain ⟨b1, h1, h2⟩ := toString_size h
    simp only [Out.done.injEq] at h1; obtain ⟨rfl, rfl, _⟩ := h1
    have h3 := int_size (c := c) z b
    have h4 := unit_mul2 c D (digits z.natAbs + 1) (by omega)
    refine ⟨?_, rfl⟩
    simp only [keySize] at *
    omega
  | uint n =>
    obtain ⟨b1, h1, h2⟩ := toString_size h
    simp only [Out.done.injEq] at h1; obtain ⟨rfl, rfl, _⟩ := h1
    have h3 := uint_size (c := c) n b
    have h4 := unit_mul2 c D (digits n) (digits_pos n)
    refine ⟨?_, rfl⟩
    simp only [keySize] at *
    omega
  | text r =>
    obtain ⟨h1, h2⟩ := text_adds r _ _ _ _ _ h
    simp only [keySize] at *
    exact ⟨by omega, h2⟩

/-- An encoding function of a value of size `n`: it appends at most what `n` units take and goes at most `n` levels
deeper. -/
def Bounded (c : Cfg) (D n : Nat) (f : Enc) : Prop :=
  ∀ (b : Bytes) (d : Int) (b' : Bytes) (d' : Int) (e : Option Err), d + n ≤ D → n ≤ D → f b d = .done b' d' e →
    b'.length ≤ b.length + perUnit c D * n ∧ d' ≤ d + n

theorem adds_bounded {k n : Nat} {f : Enc} (h : Adds k f) (hk : k ≤ perUnit c D * n) : Bounded c D n f := by
  intro b d b' d' e _ _ he
  obtain ⟨h1, h2⟩ := h _ _ _ _ _ he
  exact ⟨by omega, by omega⟩

/-- Lists of things that weigh so much together. -/
inductive Weighs {α : Type} (P : Nat → α → Prop) : Nat → List α → Prop
  | nil : Weighs P 0 []
  | cons {n m : Nat} {x : α} {l : List α} : P n x → Weighs P m l → Weighs P (n + m) (x :: l)

theorem weighs_insert {α : Type} {P : Nat → α → Prop} {key : α → Bytes} {n m : Nat} {x : α} {l : List α} (hx : P n x) (hl : Weighs P m l) :
    Weighs P (n + m) (insertBy key x l) := by
  induction hl with
  | nil => exact .cons hx .nil
  | @cons n' m' y ys hy hys ih =>
    unfold insertBy
    split
    · have := Weighs.cons hy ih
      rwa [show n + (n' + m') = n' + (n + m') by omega]
    · exact .cons hx (.cons hy hys)

theorem weighs_sort {α : Type} {P : Nat → α → Prop} {key : α → Bytes} {m : Nat} {l : List α} (hl : Weighs P m l) :
    Weighs P m (sortBy key l) := by
  induction hl with
  | nil => exact .nil
  | cons hx _ ih => exact weighs_insert hx ih

theorem unit_split (c : Cfg) (D n m : Nat) : perUnit c D * (n + m) = perUnit c D * n + perUnit c D * m := Nat.mul_add _ _ _

theorem arrayLoop_size {start n : Nat} {fs : List Enc} (hw : Weighs (fun n f => ∃ k, n = k + 1 ∧ Bounded c D k f) n fs) :
    ∀ first, Bounded c D n (arrayLoop c start first fs) := by
  induction hw with
  | nil =>
    intro first b d b' d' e _ _ h
    unfold arrayLoop at h
    simp only [Out.done.injEq] at h; obtain ⟨rfl, rfl, _⟩ := h
    exact ⟨by omega, by omega⟩
  | @cons n m f fs hf _ ih =>
    obtain ⟨k, rfl, hf⟩ := hf
    intro first b d b' d' e hd hn h
    have hu := perUnit_ge c D
    rw [unit_split, unit_split, Nat.mul_one]
    unfold arrayLoop at h
    simp only [] at h
    have s1 : (if first = true then b else appendPunc c.clrs b (ch! ',')).length ≤ b.length + 1 + perColor c.clrs := by
      split
      · omega
      · exact punc_size _ _
    generalize (if first = true then b else appendPunc c.clrs b (ch! ',')) = b1 at *
    have s2 := byte_size (c := c) D b1 0x0a
    generalize c.appendByte b1 0x0a = b2 at *
    have s3 := indent_size (c := c) (D := D) (d := d) (by omega) b2
    generalize c.appendIndent d b2 = b3 at *
    cases hr : f b3 d with
    | panic => rw [hr] at h; cases h
    | done b4 d4 e4 =>
      rw [hr] at h
      obtain ⟨h1, h2⟩ := hf _ _ _ _ _ (by omega) (by omega) hr
      cases e4 with
      | some x =>
        simp only [Out.done.injEq] at h; obtain ⟨rfl, rfl, _⟩ := h
        rw [List.length_take]
        exact ⟨by omega, by omega⟩
      | none =>
        obtain ⟨h3, h4⟩ := ih false _ _ _ _ _ (by omega) (by omega) h
        exact ⟨by omega, by omega⟩

theorem array_size {n : Nat} {fs : List Enc} (hw : Weighs (fun n f => ∃ k, n = k + 1 ∧ Bounded c D k f) n fs) :
    Bounded c D (n + 1) (encodeArray c fs) := by
  intro b d b' d' e hd hn h
  have hu := perUnit_ge c D
  rw [unit_split, Nat.mul_one]
  unfold encodeArray at h
  simp only [] at h
  have s1 := punc_size (c := c) (ch! '[') b
  generalize appendPunc c.clrs b (ch! '[') = b1 at *
  split at h
  · have hp := push_le (c := c) d
    cases hr : arrayLoop c b.length true fs b1 (c.push d) with
    | panic => rw [hr] at h; cases h
    | done b2 d2 e2 =>
      rw [hr] at h
      obtain ⟨h1, h2⟩ := arrayLoop_size hw true _ _ _ _ _ (by omega) (by omega) hr
      cases e2 with
      | some x =>
        simp only [Out.done.injEq] at h; obtain ⟨rfl, rfl, _⟩ := h
        exact ⟨by omega, by omega⟩
      | none =>
        simp only [Out.done.injEq] at h; obtain ⟨rfl, rfl, _⟩ := h
        have hq := pop_le (c := c) d2
        have s2 := byte_size (c := c) D b2 0x0a
        generalize c.appendByte b2 0x0a = b3 at *
        have s3 := indent_size (c := c) (D := D) (d := c.pop d2) (by omega) b3
        generalize c.appendIndent (c.pop d2) b3 = b4 at *
        have s4 := punc_size (c := c) (ch! ']') b4
        exact ⟨by omega, by omega⟩
  · simp only [Out.done.injEq] at h; obtain ⟨rfl, rfl, _⟩ := h
    have s4 := punc_size (c := c) (ch! ']') b1
    exact ⟨by omega, by omega⟩

theorem mapLoop_size {start n : Nat} {es : List (MKey × Enc)}
    (hw : Weighs (fun n (e : MKey × Enc) => ∃ k, n = keySize e.1 + 1 + k ∧ Bounded c D k e.2) n es) :
    ∀ first, Bounded c D n (mapLoop c start first es) := by
  induction hw with
  | nil =>
    intro first b d b' d' e _ _ h
    unfold mapLoop at h
    simp only [Out.done.injEq] at h; obtain ⟨rfl, rfl, _⟩ := h
    exact ⟨by omega, by omega⟩
  | @cons n m x es hx _ ih =>
    obtain ⟨key, f⟩ := x
    obtain ⟨k, rfl, hf⟩ := hx
    simp only [] at hf
    intro first b d b' d' e hd hn h
    have hu := perUnit_ge c D
    have hs := unit_split c D (keySize key + 1 + k) m
    rw [unit_split c D (keySize key + 1) k] at hs
    unfold mapLoop at h
    simp only [] at h hd hn hs ⊢
    have s1 : (if first = true then b else c.appendByte (appendPunc c.clrs b (ch! ',')) 0x0a).length ≤ b.length + 1 + perColor c.clrs + perLine c.ind D := by
      split
      · omega
      · have := punc_size (c := c) (ch! ',') b
        have := byte_size (c := c) D (appendPunc c.clrs b (ch! ',')) 0x0a
        omega
    generalize (if first = true then b else c.appendByte (appendPunc c.clrs b (ch! ',')) 0x0a) = b1 at *
    have s3 := indent_size (c := c) (D := D) (d := d) (by omega) b1
    generalize c.appendIndent d b1 = b2 at *
    cases hk : encodeMKey c key b2 d with
    | panic => rw [hk] at h; cases h
    | done b3 d3 e3 =>
      rw [hk] at h
      obtain ⟨g1, rfl⟩ := mkey_size (D := D) key hk
      cases e3 with
      | some x =>
        simp only [Out.done.injEq] at h; obtain ⟨rfl, rfl, _⟩ := h
        rw [List.length_take]
        exact ⟨by omega, by omega⟩
      | none =>
        simp only [] at h
        have s4 := punc_size (c := c) (ch! ':') b3
        generalize appendPunc c.clrs b3 (ch! ':') = b4 at *
        have s5 := byte_size (c := c) D b4 (ch! ' ')
        generalize c.appendByte b4 (ch! ' ') = b5 at *
        cases hr : f b5 d3 with
        | panic => rw [hr] at h; cases h
        | done b6 d6 e6 =>
          rw [hr] at h
          obtain ⟨h1, h2⟩ := hf _ _ _ _ _ (by omega) (by omega) hr
          cases e6 with
          | some x =>
            simp only [Out.done.injEq] at h; obtain ⟨rfl, rfl, _⟩ := h
            rw [List.length_take]
            exact ⟨by omega, by omega⟩
          | none =>
            obtain ⟨h3, h4⟩ := ih false _ _ _ _ _ (by omega) (by omega) h
            exact ⟨by omega, by omega⟩

theorem map_size {n : Nat} {es : List (MKey × Enc)}
    (hw : Weighs (fun n (e : MKey × Enc) => ∃ k, n = keySize e.1 + 1 + k ∧ Bounded c D k e.2) n es) :
    Bounded c D (n + 1) (encodeMap c es) := by
  intro b d b' d' e hd hn h
  have hu := perUnit_ge c D
  rw [unit_split, Nat.mul_one]
  unfold encodeMap at h
  split at h
  · cases h
  · simp only [] at h
    have hw' : Weighs (fun n (e : MKey × Enc) => ∃ k, n = keySize e.1 + 1 + k ∧ Bounded c D k e.2) n
        (if c.sortMapKeys = true then sortBy (fun e => e.1.sortText) es else es) := by
      split
      · exact weighs_sort hw
      · exact hw
    generalize (if c.sortMapKeys = true then sortBy (fun e => e.1.sortText) es else es) = l at *
    have s1 := punc_size (c := c) (ch! '{') b
    generalize appendPunc c.clrs b (ch! '{') = b1 at *
    split at h
    · have hp := push_le (c := c) d
      have s2 := byte_size (c := c) D b1 0x0a
      generalize c.appendByte b1 0x0a = b2 at *
      cases hr : mapLoop c b.length true l b2 (c.push d) with
      | panic => rw [hr] at h; cases h
      | done b3 d3 e3 =>
        rw [hr] at h
        obtain ⟨h1, h2⟩ := mapLoop_size hw' true _ _ _ _ _ (by omega) (by omega) hr
        cases e3 with
        | some x =>
          simp only [Out.done.injEq] at h; obtain ⟨rfl, rfl, _⟩ := h
          exact ⟨by omega, by omega⟩
        | none =>
          simp only [Out.done.injEq] at h; obtain ⟨rfl, rfl, _⟩ := h
          have hq := pop_le (c := c) d3
          have s3 := byte_size (c := c) D b3 0x0a
          generalize c.appendByte b3 0x0a = b4 at *
          have s4 := indent_size (c := c) (D := D) (d := c.pop d3) (by omega) b4
          generalize c.appendIndent (c.pop d3) b4 = b5 at *
          have s5 := punc_size (c := c) (ch! '}') b5
          exact ⟨by omega, by omega⟩
    · simp only [Out.done.injEq] at h; obtain ⟨rfl, rfl, _⟩ := h
      have s4 := punc_size (c := c) (ch! '}') b1
      exact ⟨by omega, by omega⟩

/-- The members of a map with string keys. -/
abbrev StrWeighs (c : Cfg) (D n : Nat) (es : List (Bytes × Enc)) : Prop :=
  Weighs (fun n (e : Bytes × Enc) => ∃ k, n = e.1.length + 1 + k ∧ Bounded c D k e.2) n es

/-- Where a loop over such members ends. -/
def LoopIn (c : Cfg) (D n : Nat) (b : Bytes) (d : Int) : LoopR → Prop
  | .fin b' d' => b'.length ≤ b.length + perUnit c D * n ∧ d' ≤ d + n
  | .brk b' d' _ => b'.length ≤ b.length + perUnit c D * n ∧ d' ≤ d + n
  | .panic => True

theorem strLoop_size {n : Nat} {es : List (Bytes × Enc)} (hw : StrWeighs c D n es) :
    ∀ (first : Bool) (b : Bytes) (d : Int), d + n ≤ D → n ≤ D → LoopIn c D n b d (strLoop c first es b d) := by
  induction hw with
  | nil => intro first b d _ _; unfold strLoop; exact ⟨by omega, by omega⟩
  | @cons n m x es hx _ ih =>
    obtain ⟨key, f⟩ := x
    obtain ⟨k, rfl, hf⟩ := hx
    simp only [] at hf
    intro first b d hd hn
    have hu := unit_mul c D key.length
    have hs := unit_split c D (key.length + 1 + k) m
    rw [unit_split c D (key.length + 1) k] at hs
    unfold strLoop
    simp only [] at hd hn hs ⊢
    have s1 : (if first = true then b else c.appendByte (appendPunc c.clrs b (ch! ',')) 0x0a).length ≤ b.length + 1 + perColor c.clrs + perLine c.ind D := by
      split
      · omega
      · have := punc_size (c := c) (ch! ',') b
        have := byte_size (c := c) D (appendPunc c.clrs b (ch! ',')) 0x0a
        omega
    generalize (if first = true then b else c.appendByte (appendPunc c.clrs b (ch! ',')) 0x0a) = b1 at *
    have s3 := indent_size (c := c) (D := D) (d := d) (by omega) b1
    generalize c.appendIndent d b1 = b2 at *
    cases hk : encodeKey c key b2 d with
    | panic => trivial
    | done b3 d3 e3 =>
      obtain ⟨g1, rfl⟩ := key_adds key _ _ _ _ _ hk
      simp only []
      have s4 := punc_size (c := c) (ch! ':') b3
      generalize appendPunc c.clrs b3 (ch! ':') = b4 at *
      have s5 := byte_size (c := c) D b4 (ch! ' ')
      generalize c.appendByte b4 (ch! ' ') = b5 at *
      cases hr : f b5 d3 with
      | panic => trivial
      | done b6 d6 e6 =>
        obtain ⟨h1, h2⟩ := hf _ _ _ _ _ (by omega) (by omega) hr
        cases e6 with
        | some x => exact ⟨by omega, by omega⟩
        | none =>
          have := ih false b6 d6 (by omega) (by omega)
          revert this
          simp only []
          cases strLoop c false es b6 d6 with
          | fin b7 d7 => intro ⟨h3, h4⟩; exact ⟨by omega, by omega⟩
          | brk b7 d7 x => intro ⟨h3, h4⟩; exact ⟨by omega, by omega⟩
          | panic => intro _; trivial

theorem strTail_size {b : Bytes} {d : Int} (hd : d ≤ D) :
    (strTail c b d).1.length ≤ b.length + 2 * perLine c.ind D ∧ (strTail c b d).2 ≤ d := by
  unfold strTail
  have hq := pop_le (c := c) d
  have s3 := byte_size (c := c) D b 0x0a
  have s4 := indent_size (c := c) (D := D) (d := c.pop d) (by omega) (c.appendByte b 0x0a)
  exact ⟨by simp only []; omega, hq⟩

theorem strMap_size {n : Nat} {es : List (Bytes × Enc)} (hw : StrWeighs c D n es) :
    Bounded c D (n + 1) (encodeMapSI c es) ∧ Bounded c D (n + 1) (encodeMapRaw c es) := by
  have hu := perUnit_ge c D
  have hs := unit_split c D n 1
  rw [Nat.mul_one] at hs
  have sorted : Bounded c D (n + 1) (strMapSorted c es) := by
    intro b d b' d' e hd hn h
    rw [hs]
    unfold strMapSorted at h
    have hw' : StrWeighs c D n (sortBy (fun e => e.1) es) := weighs_sort hw
    simp only [] at h
    generalize sortBy (fun e : Bytes × Enc => e.1) es = l at *
    have s1 := punc_size (c := c) (ch! '{') b
    generalize appendPunc c.clrs b (ch! '{') = b1 at *
    split at h
    · have hp := push_le (c := c) d
      have s2 := byte_size (c := c) D b1 0x0a
      generalize c.appendByte b1 0x0a = b2 at *
      have := strLoop_size hw' true b2 (c.push d) (by omega) (by omega)
      revert this h
      cases strLoop c true l b2 (c.push d) with
      | panic => intro h; cases h
      | brk b3 d3 x =>
        intro h ⟨h1, h2⟩
        simp only [Out.done.injEq] at h; obtain ⟨rfl, rfl, _⟩ := h
        obtain ⟨t1, t2⟩ := strTail_size (c := c) (D := D) (b := b3) (d := d3) (by omega)
        rw [List.length_take]
        exact ⟨by omega, by omega⟩
      | fin b3 d3 =>
        intro h ⟨h1, h2⟩
        simp only [Out.done.injEq] at h; obtain ⟨rfl, rfl, _⟩ := h
        obtain ⟨t1, t2⟩ := strTail_size (c := c) (D := D) (b := b3) (d := d3) (by omega)
        have s5 := punc_size (c := c) (ch! '}') (strTail c b3 d3).1
        exact ⟨by omega, by omega⟩
    · simp only [Out.done.injEq] at h; obtain ⟨rfl, rfl, _⟩ := h
      have s4 := punc_size (c := c) (ch! '}') b1
      exact ⟨by omega, by omega⟩
  refine ⟨?_, ?_⟩
  · unfold encodeMapSI
    split
    · exact sorted
    · intro b d b' d' e hd hn h
      rw [hs]
      unfold mapSIUnsorted at h
      simp only [] at h
      have s1 := punc_size (c := c) (ch! '{') b
      generalize appendPunc c.clrs b (ch! '{') = b1 at *
      split at h
      · have hp := push_le (c := c) d
        have s2 := byte_size (c := c) D b1 0x0a
        generalize c.appendByte b1 0x0a = b2 at *
        have := strLoop_size hw true b2 (c.push d) (by omega) (by omega)
        revert this h
        cases strLoop c true es b2 (c.push d) with
        | panic => intro h; cases h
        | brk b3 d3 x =>
          intro h ⟨h1, h2⟩
          simp only [Out.done.injEq] at h; obtain ⟨rfl, rfl, _⟩ := h
          exact ⟨by omega, by omega⟩
        | fin b3 d3 =>
          intro h ⟨h1, h2⟩
          simp only [Out.done.injEq] at h; obtain ⟨rfl, rfl, _⟩ := h
          obtain ⟨t1, t2⟩ := strTail_size (c := c) (D := D) (b := b3) (d := d3) (by omega)
          have s5 := punc_size (c := c) (ch! '}') (strTail c b3 d3).1
          exact ⟨by omega, by omega⟩
      · simp only [Out.done.injEq] at h; obtain ⟨rfl, rfl, _⟩ := h
        have s4 := punc_size (c := c) (ch! '}') b1
        exact ⟨by omega, by omega⟩
  · unfold encodeMapRaw
    split
    · exact sorted
    · intro b d b' d' e hd hn h
      rw [hs]
      unfold mapRawUnsorted at h
      simp only [] at h
      have s1 := punc_size (c := c) (ch! '{') b
      generalize appendPunc c.clrs b (ch! '{') = b1 at *
      split at h
      · have hp := push_le (c := c) d
        have s2 := byte_size (c := c) D b1 0x0a
        generalize c.appendByte b1 0x0a = b2 at *
        have := strLoop_size hw true b2 (c.push d) (by omega) (by omega)
        revert this h
        cases strLoop c true es b2 (c.push d) with
        | panic => intro h; cases h
        | brk b3 d3 x =>
          intro h ⟨h1, h2⟩
          simp only [Out.done.injEq] at h; obtain ⟨rfl, rfl, _⟩ := h
          obtain ⟨t1, t2⟩ := strTail_size (c := c) (D := D) (b := b3) (d := d3) (by omega)
          have s5 := punc_size (c := c) (ch! '}') (strTail c b3 d3).1
          exact ⟨by omega, by omega⟩
        | fin b3 d3 =>
          intro h ⟨h1, h2⟩
          simp only [Out.done.injEq] at h; obtain ⟨rfl, rfl, _⟩ := h
          obtain ⟨t1, t2⟩ := strTail_size (c := c) (D := D) (b := b3) (d := d3) (by omega)
          have s5 := punc_size (c := c) (ch! '}') (strTail c b3 d3).1
          exact ⟨by omega, by omega⟩
      · simp only [Out.done.injEq] at h; obtain ⟨rfl, rfl, _⟩ := h
        have s4 := punc_size (c := c) (ch! '}') b1
        exact ⟨by omega, by omega⟩

/-- The fields of a struct. -/
abbrev FldWeighs (c : Cfg) (D n : Nat) (fs : List (FMeta × Bool × Enc)) : Prop :=
  Weighs (fun n (e : FMeta × Bool × Enc) => ∃ k, n = e.1.name.length + 1 + k ∧ Bounded c D k e.2.2) n fs

theorem structKey_size {d : Int} (hd : d ≤ D) (b k : Bytes) :
    (structKey c b k d).length ≤ b.length + k.length + perColor c.clrs + perLine c.ind D := by
  unfold structKey
  have h := indent_size (c := c) hd b
  cases hc : c.clrs with
  | none => simp only [List.length_append]; omega
  | some cl =>
    have := color_size (cl := cl) (s := cl.key) (by simp [palette])
    simp only [List.length_append, reset_size]; omega

theorem structLoop_size {start n : Nat} {fs : List (FMeta × Bool × Enc)} (hw : FldWeighs c D n fs) :
    ∀ (i : Nat) (b : Bytes) (d : Int) (b' : Bytes) (d' : Int) (e : Option Err) (i' : Nat), d + n ≤ D → n ≤ D →
      structLoop c start i fs b d = (.done b' d' e, i') → b'.length ≤ b.length + perUnit c D * n ∧ d' ≤ d + n := by
  induction hw with
  | nil =>
    intro i b d b' d' e i' _ _ h
    unfold structLoop at h
    simp only [Prod.mk.injEq, Out.done.injEq] at h; obtain ⟨⟨rfl, rfl, _⟩, _⟩ := h
    exact ⟨by omega, by omega⟩
  | @cons n m x fs hx _ ih =>
    obtain ⟨fm, em, f⟩ := x
    obtain ⟨k, rfl, hf⟩ := hx
    simp only [] at hf
    intro i b d b' d' e i' hd hn h
    have hu := unit_mul c D fm.name.length
    have hs := unit_split c D (fm.name.length + 1 + k) m
    rw [unit_split c D (fm.name.length + 1) k] at hs
    unfold structLoop at h
    simp only [] at h hd hn hs ⊢
    split at h
    · obtain ⟨h3, h4⟩ := ih _ _ _ _ _ _ _ (by omega) (by omega) h
      exact ⟨by omega, by omega⟩
    · have s1 : (if i ≠ 0 then c.appendByte (appendPunc c.clrs b (ch! ',')) 0x0a else b).length ≤ b.length + 1 + perColor c.clrs + perLine c.ind D := by
        split
        · have := punc_size (c := c) (ch! ',') b
          have := byte_size (c := c) D (appendPunc c.clrs b (ch! ',')) 0x0a
          omega
        · omega
      generalize (if i ≠ 0 then c.appendByte (appendPunc c.clrs b (ch! ',')) 0x0a else b) = b1 at *
      have s2 := string_size c.escapeHTML [] fm.name
      rw [List.length_nil] at s2
      generalize doEncodeString c.escapeHTML [] fm.name = key at *
      have s3 := structKey_size (c := c) (D := D) (d := d) (by omega) b1 key
      generalize structKey c b1 key d = b3 at *
      have s4 := punc_size (c := c) (ch! ':') b3
      generalize appendPunc c.clrs b3 (ch! ':') = b4 at *
      have s5 := byte_size (c := c) D b4 (ch! ' ')
      generalize c.appendByte b4 (ch! ' ') = b5 at *
      cases hr : f b5 d with
      | panic => rw [hr] at h; cases h
      | done b6 d6 e6 =>
        rw [hr] at h
        obtain ⟨h1, h2⟩ := hf _ _ _ _ _ (by omega) (by omega) hr
        cases e6 with
        | some x =>
          simp only [] at h
          split at h
          · obtain ⟨h3, h4⟩ := ih _ _ _ _ _ _ _ (by omega) (by omega) h
            rw [List.length_take] at h3
            exact ⟨by omega, by omega⟩
          · simp only [Prod.mk.injEq, Out.done.injEq] at h; obtain ⟨⟨rfl, rfl, _⟩, _⟩ := h
            rw [List.length_take]
            exact ⟨by omega, by omega⟩
        | none =>
          obtain ⟨h3, h4⟩ := ih _ _ _ _ _ _ _ (by omega) (by omega) h
          exact ⟨by omega, by omega⟩

theorem struct_size {n : Nat} {fs : List (FMeta × Bool × Enc)} (hw : FldWeighs c D n fs) :
    Bounded c D (n + 1) (encodeStruct c fs) := by
  intro b d b' d' e hd hn h
  have hu := perUnit_ge c D
  rw [unit_split, Nat.mul_one]
  unfold encodeStruct at h
  simp only [] at h
  have s1 := punc_size (c := c) (ch! '{') b
  generalize appendPunc c.clrs b (ch! '{') = b1 at *
  have s2 : (if fs.length > 0 then c.appendByte b1 0x0a else b1).length ≤ b1.length + perLine c.ind D := by
    split
    · exact byte_size D _ _
    · omega
  generalize (if fs.length > 0 then c.appendByte b1 0x0a else b1) = b2 at *
  have hp := push_le (c := c) d
  cases hr : structLoop c b.length 0 fs b2 (c.push d) with
  | mk o i =>
    rw [hr] at h
    cases o with
    | panic => cases h
    | done b3 d3 e3 =>
      obtain ⟨h1, h2⟩ := structLoop_size hw _ _ _ _ _ _ _ (by omega) (by omega) hr
      cases e3 with
      | some x =>
        simp only [Out.done.injEq] at h; obtain ⟨rfl, rfl, _⟩ := h
        exact ⟨by omega, by omega⟩
      | none =>
        simp only [Out.done.injEq] at h; obtain ⟨rfl, rfl, _⟩ := h
        have hq := pop_le (c := c) d3
        have s3 : (if i > 0 then c.appendByte b3 0x0a else b3).length ≤ b3.length + perLine c.ind D := by
          split
          · exact byte_size D _ _
          · omega
        generalize (if i > 0 then c.appendByte b3 0x0a else b3) = b4 at *
        have s4 := indent_size (c := c) (D := D) (d := c.pop d3) (by omega) b4
        generalize c.appendIndent (c.pop d3) b4 = b5 at *
        have s5 := punc_size (c := c) (ch! '}') b5
        exact ⟨by omega, by omega⟩

theorem rawItemPrefix_size {d : Int} (hd : d ≤ D) (b : Bytes) (st : List (Bool × Nat)) (k : Bool) :
    (rawItemPrefix c b d st k).1.length ≤ b.length + 1 + perColor c.clrs + 2 * perLine c.ind D := by
  unfold rawItemPrefix
  cases st with
  | nil => simp only []; omega
  | cons x st =>
    obtain ⟨o, n⟩ := x
    simp only []
    split
    · simp only []; omega
    · have s1 : (if n > 0 then appendPunc c.clrs b (ch! ',') else b).length ≤ b.length + 1 + perColor c.clrs := by
        split
        · exact punc_size _ _
        · omega
      generalize (if n > 0 then appendPunc c.clrs b (ch! ',') else b) = b1 at *
      have s2 := byte_size (c := c) D b1 0x0a
      have s3 := indent_size (c := c) hd (c.appendByte b1 0x0a)
      simp only []; omega

theorem rawScalar_size (b v : Bytes) (k : Bool) (hv : 1 ≤ v.length) :
    (rawScalar c b v k).length + 5 ≤ b.length + 6 * v.length + perColor c.clrs := by
  have h1 : ∀ b : Bytes, (if (c.escapeHTML && rvString v) = true then appendCompactEscapeHTML b v else b ++ v).length + 5 ≤ b.length + 6 * v.length := by
    intro b
    split
    · rename_i h
      have := compact_string (Bool.and_eq_true_iff.1 h).2
      simp only [appendCompactEscapeHTML, List.length_append]; omega
    · rw [List.length_append]; omega
  unfold rawScalar
  cases hc : c.clrs with
  | none => have := h1 b; simp only []; omega
  | some cl =>
    have hcl : (rawColor cl v k).length + 4 ≤ perColor (some cl) := by
      unfold rawColor
      repeat' split
      all_goals first
        | (simp only [perColor, List.length_nil]; omega)
        | exact color_size (by simp [palette])
    have := h1 (b ++ rawColor cl v k)
    rw [List.length_append (as := b)] at this
    simp only []
    rw [List.length_append (bs := ansiReset), reset_size]
    omega

theorem rawStep_size (s : RawSt) (t : Obs) (ht : 1 ≤ t.value.length) (hd : s.d + t.value.length ≤ D) (h0 : s.d ≤ D) :
    (rawStep c s t).b.length ≤ s.b.length + perUnit c D * t.value.length ∧ (rawStep c s t).d ≤ s.d + t.value.length := by
  obtain ⟨j, hj⟩ : ∃ j, t.value.length = j + 1 := ⟨t.value.length - 1, by omega⟩
  have hu := unit_mul c D j
  rw [← hj] at hu
  unfold rawStep
  split
  · have s1 := punc_size (c := c) (ch! ':') s.b
    have s2 := byte_size (c := c) D (appendPunc c.clrs s.b (ch! ':')) (ch! ' ')
    exact ⟨by simp only []; omega, by simp only []; omega⟩
  · split
    · exact ⟨by omega, by omega⟩
    · split
      · simp only []
        have hq := pop_le (c := c) s.d
        have s1 : ∀ had : Bool, (if had = true then c.appendIndent (c.pop s.d) (c.appendByte s.b 0x0a) else s.b).length ≤ s.b.length + 2 * perLine c.ind D := by
          intro had
          split
          · have s2 := byte_size (c := c) D s.b 0x0a
            have s3 := indent_size (c := c) (D := D) (d := c.pop s.d) (by omega) (c.appendByte s.b 0x0a)
            omega
          · omega
        refine ⟨Nat.le_trans (punc_size _ _) ?_, by omega⟩
        refine Nat.le_trans (Nat.add_le_add_right (Nat.add_le_add_right (s1 _) 1) _) ?_
        omega
      · simp only []
        have hi := rawItemPrefix_size (c := c) (D := D) (d := s.d) (by omega) s.b s.stack (decide (t.delim = 0) && t.isKey)
        split
        · have s4 := punc_size (c := c) t.delim (rawItemPrefix c s.b s.d s.stack (decide (t.delim = 0) && t.isKey)).1
          have hp := push_le (c := c) s.d
          exact ⟨by simp only []; omega, by simp only []; omega⟩
        · have s4 := rawScalar_size (c := c) (rawItemPrefix c s.b s.d s.stack (decide (t.delim = 0) && t.isKey)).1 t.value
            (decide (t.delim = 0) && t.isKey) ht
          exact ⟨by simp only []; omega, by simp only []; omega⟩

theorem rawFold_size : ∀ (ts : List Obs) (s : RawSt), (∀ o ∈ ts, 1 ≤ o.value.length) → s.d + obsSize ts ≤ D → s.d ≤ D →
    (ts.foldl (rawStep c) s).b.length ≤ s.b.length + perUnit c D * obsSize ts ∧ (ts.foldl (rawStep c) s).d ≤ s.d + obsSize ts
  | [], s, _, _, _ => by simp only [List.foldl_nil, obsSize]; exact ⟨by omega, by omega⟩
  | t :: ts, s, ho, hd, h0 => by
    simp only [obsSize] at hd ⊢
    obtain ⟨h1, h2⟩ := rawStep_size (c := c) (D := D) s t (ho t (List.mem_cons_self ..)) (by omega) h0
    obtain ⟨h3, h4⟩ := rawFold_size ts (rawStep c s t) (fun o h => ho o (List.mem_cons_of_mem _ h)) (by omega) (by omega)
    rw [List.foldl_cons, unit_split]
    exact ⟨by omega, by omega⟩

theorem rawTokens_size (s : Bytes) : Bounded c D s.length (rawTokens c s) ∧
    ∀ b d b' d' x, rawTokens c s b d = .done b' d' (some x) → b'.length ≤ b.length := by
  refine ⟨?_, ?_⟩
  · intro b d b' d' e hd hn h
    obtain ⟨h1, h2⟩ := tokenize_size s
    obtain ⟨h3, h4⟩ := rawFold_size (c := c) (D := D) (tokenize s).1 ⟨b, d, []⟩ h2 (by simp only []; omega) (by simp only []; omega)
    have h5 := Nat.mul_le_mul_left (perUnit c D) h1
    simp only [] at h3 h4
    unfold rawTokens at h
    simp only [] at h
    repeat' split at h
    all_goals first
      | (cases h; done)
      | (simp only [Out.done.injEq] at h; obtain ⟨rfl, rfl, _⟩ := h
         first
           | exact ⟨by omega, by omega⟩
           | (rw [List.length_take]; exact ⟨by omega, by omega⟩))
  · intro b d b' d' x h
    unfold rawTokens at h
    simp only [] at h
    have hf := tokenize_ends s
    split at h
    · cases h
    · exact absurd ‹_› hf
    · split at h
      · simp only [Out.done.injEq] at h; obtain ⟨rfl, rfl, _⟩ := h
        rw [List.length_take]; omega
      · simp at h

theorem rawVerbatim_size (hlib : IndentLib c.jsonIndent) (ht : c.trustRaw = true) (s : Bytes) {b : Bytes} {d : Int} {b' : Bytes} {d' : Int} {e : Option Err}
    (hd : d ≤ D) (hs : s.length ≤ D) (h : rawVerbatim c s b d = .done b' d' e) :
    b'.length ≤ b.length + perUnit c D * s.length ∧ d' = d := by
  have hU : 6 + 42 * perLine c.ind D ≤ perUnit c D := by unfold perUnit; rw [if_pos ht]; omega
  have hc := compact_size s
  have h6 : 6 * s.length ≤ perUnit c D * s.length := Nat.mul_le_mul_right _ (by omega)
  have plain : (if c.escapeHTML = true then appendCompactEscapeHTML b s else b ++ s).length ≤ b.length + 6 * s.length := by
    split
    · simp only [appendCompactEscapeHTML, List.length_append]; omega
    · rw [List.length_append]; omega
  unfold rawVerbatim at h
  cases hi : c.ind with
  | none =>
    rw [hi] at h
    simp only [Out.done.injEq] at h; obtain ⟨rfl, rfl, _⟩ := h
    exact ⟨by omega, rfl⟩
  | some i =>
    rw [hi] at h
    simp only [] at h
    split at h
    · simp only [Out.done.injEq] at h; obtain ⟨rfl, rfl, _⟩ := h
      exact ⟨by omega, rfl⟩
    · rename_i hdis
      have hs' : (if c.escapeHTML = true then appendCompactEscapeHTML [] s else s).length ≤ 6 * s.length := by
        split
        · simp only [appendCompactEscapeHTML, List.nil_append]; omega
        · omega
      generalize (if c.escapeHTML = true then appendCompactEscapeHTML [] s else s) = s' at *
      split at h
      · simp only [Out.done.injEq] at h; obtain ⟨rfl, rfl, _⟩ := h
        rw [List.length_append]
        exact ⟨by omega, rfl⟩
      · rename_i out ho
        simp only [Out.done.injEq] at h; obtain ⟨rfl, rfl, _⟩ := h
        rw [List.length_append]
        refine ⟨?_, rfl⟩
        have h1 := hlib _ _ _ _ ho
        have h2 : (c.appendIndent d []).length = i.pre.length + d.toNat * i.indent.length := by
          unfold Cfg.appendIndent
          rw [hi]
          simp only [if_neg hdis, List.nil_append, List.length_append, flatten_replicate_size]
        have h3 := Nat.mul_le_mul_right i.indent.length (show d.toNat ≤ D by omega)
        have h4 := Nat.mul_le_mul_right i.indent.length (show s'.length ≤ 6 * D by omega)
        have h5 : 2 + (c.appendIndent d []).length + s'.length * i.indent.length ≤ 7 * perLine c.ind D := by
          rw [h2, hi]
          simp only [perLine, if_neg hdis]
          rw [Nat.mul_assoc] at h4
          omega
        have h7 := Nat.mul_le_mul hs' h5
        have h8 : 6 * s.length * (7 * perLine c.ind D) = 42 * perLine c.ind D * s.length := by
          rw [Nat.mul_assoc 42, Nat.mul_comm (perLine c.ind D), Nat.mul_comm 7, ← Nat.mul_assoc, Nat.mul_assoc 6, Nat.mul_comm 6,
            Nat.mul_assoc _ 6, Nat.mul_comm _ (6 * 7)]
        have h9 := Nat.mul_le_mul_right s.length (show 42 * perLine c.ind D ≤ perUnit c D by omega)
        omega

theorem raw_size (hlib : c.trustRaw = true → IndentLib c.jsonIndent) (v : Option Bytes) : Bounded c D ((v.getD []).length + 1) (encodeRawMessage c v) := by
  intro b d b' d' e hd hn h
  have hu := perUnit_ge c D
  rw [unit_split, Nat.mul_one]
  unfold encodeRawMessage at h
  cases v with
  | none =>
    simp only [Out.done.injEq] at h; obtain ⟨rfl, rfl, _⟩ := h
    have := null_size (c := c) b
    exact ⟨by omega, by omega⟩
  | some v =>
    simp only [Option.getD_some] at *
    split at h
    · rename_i htr
      cases hr : rawTokens c v b d with
      | panic => rw [hr] at h; cases h
      | done b1 d1 e1 =>
        rw [hr] at h
        obtain ⟨h1, h2⟩ := (rawTokens_size (c := c) (D := D) v).1 _ _ _ _ _ (by omega) (by omega) hr
        cases e1 with
        | none =>
          simp only [Out.done.injEq] at h; obtain ⟨rfl, rfl, _⟩ := h
          exact ⟨by omega, by omega⟩
        | some x =>
          have h3 := (rawTokens_size (c := c) (D := D) v).2 _ _ _ _ _ hr
          obtain ⟨h4, rfl⟩ := rawVerbatim_size (D := D) (hlib htr) htr v (by omega) (by omega) h
          exact ⟨by omega, by omega⟩
    · cases hp : parseValue v with
      | fail r x =>
        rw [hp] at h
        simp only [Out.done.injEq] at h; obtain ⟨rfl, rfl, _⟩ := h
        exact ⟨by omega, by omega⟩
      | ok s r =>
        rw [hp] at h
        have hl : s.length ≤ v.length := by
          have := congrArg List.length (parseValue_sound hp).1
          rw [List.length_append] at this; omega
        obtain ⟨h1, h2⟩ := (rawTokens_size (c := c) (D := D) s).1 _ _ _ _ _ (by omega) (by omega) h
        have := Nat.mul_le_mul_left (perUnit c D) hl
        exact ⟨by omega, by omega⟩

theorem rawsSize_weighs (hlib : c.trustRaw = true → IndentLib c.jsonIndent) : ∀ es : List (Bytes × Option Bytes),
    StrWeighs c D (rawsSize es) (es.map fun e => (e.1, encodeRawMessage c e.2))
  | [] => .nil
  | (k, v) :: es => by
    have h := rawsSize_weighs hlib es
    have hv : rawsSize ((k, v) :: es) = (k.length + 1 + ((v.getD []).length + 1)) + rawsSize es := by
      cases v <;> simp [rawsSize] <;> omega
    rw [hv]
    exact .cons ⟨_, rfl, raw_size hlib v⟩ h

mutual

theorem enc_size (hlib : c.trustRaw = true → IndentLib c.jsonIndent) : ∀ v : GV, Bounded c D (size v) (enc c v)
  | .nil | .sliceNil | .mapNil | .ptrNil => by
    unfold enc size
    refine adds_bounded (k := 4 + perColor c.clrs) ?_ (by have := unit_mul c D 0; omega)
    intro b d b' d' e h
    simp only [Out.done.injEq] at h; obtain ⟨rfl, rfl, _⟩ := h
    have := null_size (c := c) b
    exact ⟨by omega, rfl⟩
  | .bool v => by
    unfold enc size
    refine adds_bounded (k := 5 + perColor c.clrs) ?_ (by have := unit_mul c D 0; omega)
    intro b d b' d' e h
    simp only [Out.done.injEq] at h; obtain ⟨rfl, rfl, _⟩ := h
    have := bool_size (c := c) v b
    exact ⟨by omega, rfl⟩
  | .int z => by
    unfold enc size
    refine adds_bounded (k := digits z.natAbs + 1 + perColor c.clrs) ?_ (by have := unit_mul c D (digits z.natAbs + 1); simp only [show digits z.natAbs + 1 + 1 = digits z.natAbs + 2 from rfl] at this; omega)
    intro b d b' d' e h
    simp only [Out.done.injEq] at h; obtain ⟨rfl, rfl, _⟩ := h
    have := int_size (c := c) z b
    exact ⟨by omega, rfl⟩
  | .uint n => by
    unfold enc size
    refine adds_bounded (k := digits n + perColor c.clrs) ?_ (by have := unit_mul c D (digits n); omega)
    intro b d b' d' e h
    simp only [Out.done.injEq] at h; obtain ⟨rfl, rfl, _⟩ := h
    have := uint_size (c := c) n b
    exact ⟨by omega, rfl⟩
  | .float f => by
    unfold enc size
    exact adds_bounded (colored_adds (fun cl => by simp [palette]) (float_adds f)) (by have := unit_mul c D (floatSize f); omega)
  | .number s => by
    unfold enc size
    exact adds_bounded (number_adds s) (by have := unit_mul c D s.length; omega)
  | .string s => by
    unfold enc size
    exact adds_bounded (str_adds s) (by have := unit_mul c D s.length; omega)
  | .bytesNil => by
    unfold enc size
    exact adds_bounded (bytes_adds none) (by have := unit_mul c D 0; simp only [Option.getD_none, List.length_nil]; omega)
  | .bytes s => by
    unfold enc size
    exact adds_bounded (bytes_adds (some s)) (by have := unit_mul c D s.length; simp only [Option.getD_some]; omega)
  | .time s _ => by
    unfold enc size
    exact adds_bounded (time_adds s) (by have := unit_mul c D s.length; omega)
  | .slice xs => by unfold enc size; exact array_size (encL_size hlib xs)
  | .array xs => by unfold enc size; exact array_size (encL_size hlib xs)
  | .map es => by unfold enc size; exact map_size (encE_size hlib es)
  | .mapSI es => by unfold enc size; exact (strMap_size (encS_size hlib es)).1
  | .mapRaw es => by unfold enc size; exact (strMap_size (rawsSize_weighs hlib es)).2
  | .struct fs => by unfold enc size; exact struct_size (encF_size hlib fs)
  | .ptr v => by unfold enc size; exact enc_size hlib v
  | .iface v _ => by unfold enc size; exact enc_size hlib v
  | .rawNil => by unfold enc size; exact raw_size hlib none
  | .raw s => by unfold enc size; exact raw_size hlib (some s)
  | .jsonM r _ => by
    unfold enc size
    intro b d b' d' e hd hn h
    have hu := perUnit_ge c D
    unfold encodeJSONMarshaler at h
    cases r with
    | isNil =>
      simp only [Out.done.injEq] at h; obtain ⟨rfl, rfl, _⟩ := h
      have := null_size (c := c) b
      rw [unit_split, Nat.mul_one]
      exact ⟨by omega, by omega⟩
    | err x =>
      simp only [Out.done.injEq] at h; obtain ⟨rfl, rfl, _⟩ := h
      exact ⟨by omega, by omega⟩
    | ok s =>
      have hj : jsonSize (.ok s) = (s.getD []).length := by cases s <;> rfl
      rw [hj] at hd hn ⊢
      exact raw_size hlib s b d b' d' e hd hn h
  | .textM r _ => by
    unfold enc size
    exact adds_bounded (text_adds r) (by have := unit_mul c D (textSize r); omega)
  | .quoted v => by
    unfold enc size
    intro b d b' d' e hd hn h
    have hu := perUnit_ge c D
    obtain ⟨b1, h1, h2⟩ := toString_size h
    obtain ⟨h3, h4⟩ := enc_size hlib v _ _ _ _ _ (by omega) (by omega) h1
    rw [unit_split, Nat.mul_one, Nat.mul_left_comm]
    exact ⟨by omega, by omega⟩
  | .embNil _ | .unsupported => by
    unfold enc size
    intro b d b' d' e hd hn h
    simp only [Out.done.injEq] at h; obtain ⟨rfl, rfl, _⟩ := h
    exact ⟨by omega, by omega⟩
  | .emb v _ => by unfold enc size; exact enc_size hlib v

theorem encL_size (hlib : c.trustRaw = true → IndentLib c.jsonIndent) : ∀ vs : List GV,
    Weighs (fun n f => ∃ k, n = k + 1 ∧ Bounded c D k f) (sizeL vs) (encL c vs)
  | [] => by unfold encL sizeL; exact .nil
  | v :: vs => by unfold encL sizeL; exact .cons ⟨_, rfl, enc_size hlib v⟩ (encL_size hlib vs)

theorem encE_size (hlib : c.trustRaw = true → IndentLib c.jsonIndent) : ∀ es : List (MKey × GV),
    Weighs (fun n (e : MKey × Enc) => ∃ k, n = keySize e.1 + 1 + k ∧ Bounded c D k e.2) (sizeE es) (encE c es)
  | [] => by unfold encE sizeE; exact .nil
  | (k, v) :: es => by unfold encE sizeE; exact .cons ⟨_, rfl, enc_size hlib v⟩ (encE_size hlib es)

theorem encS_size (hlib : c.trustRaw = true → IndentLib c.jsonIndent) : ∀ es : List (Bytes × GV), StrWeighs c D (sizeS es) (encS c es)
  | [] => by unfold encS sizeS; exact .nil
  | (k, v) :: es => by unfold encS sizeS; exact .cons ⟨_, rfl, enc_size hlib v⟩ (encS_size hlib es)

theorem encF_size (hlib : c.trustRaw = true → IndentLib c.jsonIndent) : ∀ fs : List (FMeta × GV), FldWeighs c D (sizeF fs) (encF c fs)
  | [] => by unfold encF sizeF; exact .nil
  | (m, v) :: fs => by unfold encF sizeF; exact .cons ⟨_, rfl, enc_size hlib v⟩ (encF_size hlib fs)

end

end

end JC
