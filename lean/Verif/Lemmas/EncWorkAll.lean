import Verif.Lemmas.EncWork
/-!
Steps of the encoding functions of arrays, maps, structs and raw messages, and of `enc` (property C95).
-/
namespace JC
open Spec

/-- Lists of things that weigh and take so much together. -/
inductive WeighsS {α : Type} (P : Nat → Nat → α → Prop) : Nat → Nat → List α → Prop
  | nil : WeighsS P 0 0 []
  | cons {n m w u : Nat} {x : α} {l : List α} : P n w x → WeighsS P m u l → WeighsS P (n + m) (w + u) (x :: l)

theorem weighsS_map {α β : Type} {P : Nat → Nat → α → Prop} {Q : Nat → β → Prop} {g : α → β} (hg : ∀ n w x, P n w x → Q n (g x))
    {n w : Nat} {l : List α} (h : WeighsS P n w l) : Weighs Q n (l.map g) := by
  induction h with
  | nil => exact .nil
  | cons hx _ ih => exact .cons (hg _ _ _ hx) ih

theorem weighsS_insert {α : Type} {P : Nat → Nat → α → Prop} {key : α → Bytes} {n m w u : Nat} {x : α} {l : List α} (hx : P n w x)
    (hl : WeighsS P m u l) : WeighsS P (n + m) (w + u) (insertBy key x l) := by
  induction hl with
  | nil => exact .cons hx .nil
  | @cons n' m' w' u' y ys hy hys ih =>
    unfold insertBy
    split
    · have := WeighsS.cons hy ih
      rwa [show n + (n' + m') = n' + (n + m') by omega, show w + (w' + u') = w' + (w + u') by omega]
    · exact .cons hx (.cons hy hys)

theorem weighsS_sort {α : Type} {P : Nat → Nat → α → Prop} {key : α → Bytes} {m u : Nat} {l : List α} (hl : WeighsS P m u l) :
    WeighsS P m u (sortBy key l) := by
  induction hl with
  | nil => exact .nil
  | cons hx _ ih => exact weighsS_insert hx ih

theorem weighsS_length {α : Type} {P : Nat → Nat → α → Prop} (hP : ∀ n w x, P n w x → 1 ≤ n) {n w : Nat} {l : List α} (h : WeighsS P n w l) :
    l.length ≤ n := by
  induction h with
  | nil => simp
  | cons hx _ ih => have := hP _ _ _ hx; simp only [List.length_cons]; omega

section
variable {c : Cfg} {D : Nat}

/-- An encoding function with its steps, for a value of size `k`. -/
def GoodS (c : Cfg) (D k w : Nat) (f : EncS) : Prop := Bounded c D k f.1 ∧ CostIn c D k w f.2

/-- The elements of an array. -/
abbrev ElWeighs (c : Cfg) (D n w : Nat) (fs : List EncS) : Prop :=
  WeighsS (fun n w f => ∃ k, n = k + 1 ∧ GoodS c D k w f) n w fs

theorem arrayLoopS_le {n w : Nat} {fs : List EncS} (hw : ElWeighs c D n w fs) :
    ∀ first, CostIn c D n (w + 1) (arrayLoopS c first fs) := by
  induction hw with
  | nil => intro first b d _ _; unfold arrayLoopS; omega
  | @cons n m w u f fs hf _ ih =>
    obtain ⟨k, rfl, hf, hs⟩ := hf
    intro first b d hd hn
    have hu := perUnit_ge c D
    rw [unit_split, unit_split, Nat.mul_one]
    unfold arrayLoopS
    simp only []
    have s1 : (if first = true then b else appendPunc c.clrs b (ch! ',')).length ≤ b.length + 1 + perColor c.clrs := by
      split
      · omega
      · exact punc_size _ _
    generalize (if first = true then b else appendPunc c.clrs b (ch! ',')) = b1 at *
    have s2 := byte_size (c := c) D b1 0x0a
    generalize c.appendByte b1 0x0a = b2 at *
    have s3 := indent_size (c := c) (D := D) (d := d) (by omega) b2
    generalize c.appendIndent d b2 = b3 at *
    have s4 := hs b3 d (by omega) (by omega)
    simp only [grown]
    cases hr : f.1 b3 d with
    | panic => simp only []; omega
    | done b4 d4 e4 =>
      obtain ⟨h1, h2⟩ := hf _ _ _ _ _ (by omega) (by omega) hr
      cases e4 with
      | some x => simp only []; omega
      | none =>
        have := ih false b4 d4 (by omega) (by omega)
        simp only []; omega

theorem arrayS_le {n w : Nat} {fs : List EncS} (hw : ElWeighs c D n w fs) : CostIn c D (n + 1) w (encodeArrayS c fs) := by
  intro b d hd hn
  have hu := perUnit_ge c D
  rw [unit_split, Nat.mul_one]
  unfold encodeArrayS
  simp only []
  have s1 := punc_size (c := c) (ch! '[') b
  generalize appendPunc c.clrs b (ch! '[') = b1 at *
  simp only [grown]
  split
  · have hp := push_le (c := c) d
    have hl := arrayLoopS_le hw true b1 (c.push d) (by omega) (by omega)
    have hw' : Weighs (fun n f => ∃ k, n = k + 1 ∧ Bounded c D k f) n (fs.map (·.1)) :=
      weighsS_map (fun n w x h => by obtain ⟨k, h1, h2⟩ := h; exact ⟨k, h1, h2.1⟩) hw
    cases hr : arrayLoop c b.length true (fs.map (·.1)) b1 (c.push d) with
    | panic => simp only []; omega
    | done b2 d2 e2 =>
      obtain ⟨h1, h2⟩ := arrayLoop_size hw' true _ _ _ _ _ (by omega) (by omega) hr
      cases e2 with
      | some x => simp only []; omega
      | none =>
        simp only []
        have hq := pop_le (c := c) d2
        have s2 := byte_size (c := c) D b2 0x0a
        generalize c.appendByte b2 0x0a = b3 at *
        have s3 := indent_size (c := c) (D := D) (d := c.pop d2) (by omega) b3
        generalize c.appendIndent (c.pop d2) b3 = b4 at *
        have s4 := punc_size (c := c) (ch! ']') b4
        omega
  · have s4 := punc_size (c := c) (ch! ']') b1
    omega

/-- The members of a map. -/
abbrev MemWeighs (c : Cfg) (D n w : Nat) (es : List (MKey × EncS)) : Prop :=
  WeighsS (fun n w (e : MKey × EncS) => ∃ k, n = keySize e.1 + 1 + k ∧ GoodS c D k w e.2) n w es

theorem mapLoopS_le {n w : Nat} {es : List (MKey × EncS)} (hw : MemWeighs c D n w es) :
    ∀ first, CostIn c D n (w + 1) (fun b d => mapLoopS c first es b d + 10 * es.length) := by
  induction hw with
  | nil => intro first b d _ _; unfold mapLoopS; simp only [List.length_nil]; omega
  | @cons n m w u x es hx _ ih =>
    obtain ⟨key, f⟩ := x
    obtain ⟨k, rfl, hf, hs⟩ := hx
    simp only [] at hf hs
    intro first b d hd hn
    have hu := perUnit_ge c D
    have hsp := unit_split c D (keySize key + 1 + k) m
    rw [unit_split c D (keySize key + 1) k] at hsp
    unfold mapLoopS
    simp only [List.length_cons] at hd hn hsp ⊢
    have s1 : (if first = true then b else c.appendByte (appendPunc c.clrs b (ch! ',')) 0x0a).length ≤ b.length + 1 + perColor c.clrs + perLine c.ind D := by
      split
      · omega
      · have := punc_size (c := c) (ch! ',') b
        have := byte_size (c := c) D (appendPunc c.clrs b (ch! ',')) 0x0a
        omega
    generalize (if first = true then b else c.appendByte (appendPunc c.clrs b (ch! ',')) 0x0a) = b1 at *
    have s3 := indent_size (c := c) (D := D) (d := d) (by omega) b1
    generalize c.appendIndent d b1 = b2 at *
    have hk := mkeyS_le (c := c) (D := D) key b2 d
    have hrest : 10 * es.length ≤ 10 * (perUnit c D * m) + u + 1 := by
      by_cases h0 : d + m ≤ D ∧ m ≤ D
      · have := ih false b d h0.1 h0.2; simp only [] at this; omega
      · omega
    simp only [grown]
    cases hr : encodeMKey c key b2 d with
    | panic => simp only []; omega
    | done b3 d3 e3 =>
      obtain ⟨g1, rfl⟩ := mkey_size (D := D) key hr
      cases e3 with
      | some x => simp only []; omega
      | none =>
        simp only []
        have s4 := punc_size (c := c) (ch! ':') b3
        generalize appendPunc c.clrs b3 (ch! ':') = b4 at *
        have s5 := byte_size (c := c) D b4 (ch! ' ')
        generalize c.appendByte b4 (ch! ' ') = b5 at *
        have s6 := hs b5 d3 (by omega) (by omega)
        cases hr : f.1 b5 d3 with
        | panic => simp only []; omega
        | done b6 d6 e6 =>
          obtain ⟨h1, h2⟩ := hf _ _ _ _ _ (by omega) (by omega) hr
          cases e6 with
          | some x => simp only []; omega
          | none =>
            have := ih false b6 d6 (by omega) (by omega)
            simp only [] at this ⊢; omega

theorem length_insertBy {α : Type} (key : α → Bytes) (x : α) (l : List α) : (insertBy key x l).length = l.length + 1 := by
  induction l with
  | nil => rfl
  | cons y l ih => unfold insertBy; split <;> simp [ih]

theorem length_sortBy {α : Type} (key : α → Bytes) (l : List α) : (sortBy key l).length = l.length := by
  induction l with
  | nil => rfl
  | cons x l ih => unfold sortBy; rw [length_insertBy, ih]; rfl

theorem mapS_le {srt : List MKey → Nat} {n w : Nat} {es : List (MKey × EncS)} (hw : MemWeighs c D n w es) :
    CostIn c D (n + 1) (w + if c.sortMapKeys then srt (es.map (·.1)) else 0) (encodeMapS c srt es) := by
  intro b d hd hn
  have hu := perUnit_ge c D
  rw [unit_split, Nat.mul_one]
  have hlen : es.length ≤ n := weighsS_length (fun n w x h => by obtain ⟨k, h1, _⟩ := h; omega) hw
  have hP : n ≤ perUnit c D * n := Nat.le_mul_of_pos_left n (by omega)
  unfold encodeMapS
  generalize (if c.sortMapKeys = true then srt (es.map (·.1)) else 0) = q
  split
  · omega
  · simp only []
    have hw' : MemWeighs c D n w (if c.sortMapKeys = true then sortBy (fun e => e.1.sortText) es else es) := by
      split
      · exact weighsS_sort hw
      · exact hw
    have hl' : (if c.sortMapKeys = true then sortBy (fun e => e.1.sortText) es else es).length = es.length := by
      split
      · exact length_sortBy _ _
      · rfl
    generalize (if c.sortMapKeys = true then sortBy (fun e : MKey × EncS => e.1.sortText) es else es) = l at *
    have s1 := punc_size (c := c) (ch! '{') b
    generalize appendPunc c.clrs b (ch! '{') = b1 at *
    simp only [grown]
    split
    · have hp := push_le (c := c) d
      have s2 := byte_size (c := c) D b1 0x0a
      generalize c.appendByte b1 0x0a = b2 at *
      have hl := mapLoopS_le hw' true b2 (c.push d) (by omega) (by omega)
      simp only [] at hl
      have hwm : Weighs (fun n (e : MKey × Enc) => ∃ k, n = keySize e.1 + 1 + k ∧ Bounded c D k e.2) n (l.map fun e => (e.1, e.2.1)) :=
        weighsS_map (fun n w x h => by obtain ⟨k, h1, h2⟩ := h; exact ⟨k, h1, h2.1⟩) hw'
      cases hr : mapLoop c b.length true (l.map fun e => (e.1, e.2.1)) b2 (c.push d) with
      | panic => simp only []; omega
      | done b3 d3 e3 =>
        obtain ⟨h1, h2⟩ := mapLoop_size hwm true _ _ _ _ _ (by omega) (by omega) hr
        cases e3 with
        | some x => simp only []; omega
        | none =>
          simp only []
          have hq := pop_le (c := c) d3
          have s3 := byte_size (c := c) D b3 0x0a
          generalize c.appendByte b3 0x0a = b4 at *
          have s4 := indent_size (c := c) (D := D) (d := c.pop d3) (by omega) b4
          generalize c.appendIndent (c.pop d3) b4 = b5 at *
          have s5 := punc_size (c := c) (ch! '}') b5
          omega
    · have s4 := punc_size (c := c) (ch! '}') b1
      omega

/-- The members of a map with string keys. -/
abbrev StrWeighsS (c : Cfg) (D n w : Nat) (es : List (Bytes × EncS)) : Prop :=
  WeighsS (fun n w (e : Bytes × EncS) => ∃ k, n = e.1.length + 1 + k ∧ GoodS c D k w e.2) n w es

theorem strLoopS_le {n w : Nat} {es : List (Bytes × EncS)} (hw : StrWeighsS c D n w es) :
    ∀ first, CostIn c D n (w + 1) (fun b d => strLoopS c first es b d + 5 * es.length) := by
  induction hw with
  | nil => intro first b d _ _; unfold strLoopS; simp only [List.length_nil]; omega
  | @cons n m w u x es hx _ ih =>
    obtain ⟨key, f⟩ := x
    obtain ⟨k, rfl, hf, hs⟩ := hx
    simp only [] at hf hs
    intro first b d hd hn
    have hu := unit_mul c D key.length
    have hsp := unit_split c D (key.length + 1 + k) m
    rw [unit_split c D (key.length + 1) k] at hsp
    unfold strLoopS
    simp only [List.length_cons] at hd hn hsp ⊢
    have s1 : (if first = true then b else c.appendByte (appendPunc c.clrs b (ch! ',')) 0x0a).length ≤ b.length + 1 + perColor c.clrs + perLine c.ind D := by
      split
      · omega
      · have := punc_size (c := c) (ch! ',') b
        have := byte_size (c := c) D (appendPunc c.clrs b (ch! ',')) 0x0a
        omega
    generalize (if first = true then b else c.appendByte (appendPunc c.clrs b (ch! ',')) 0x0a) = b1 at *
    have s3 := indent_size (c := c) (D := D) (d := d) (by omega) b1
    generalize c.appendIndent d b1 = b2 at *
    have hk := keyS_takes (c := c) key b2 d
    have hrest : 5 * es.length ≤ 10 * (perUnit c D * m) + u + 1 := by
      by_cases h0 : d + m ≤ D ∧ m ≤ D
      · have := ih false b d h0.1 h0.2; simp only [] at this; omega
      · omega
    simp only [grown]
    cases hr : encodeKey c key b2 d with
    | panic => simp only []; omega
    | done b3 d3 e3 =>
      obtain ⟨g1, rfl⟩ := key_adds key _ _ _ _ _ hr
      simp only []
      have s4 := punc_size (c := c) (ch! ':') b3
      generalize appendPunc c.clrs b3 (ch! ':') = b4 at *
      have s5 := byte_size (c := c) D b4 (ch! ' ')
      generalize c.appendByte b4 (ch! ' ') = b5 at *
      have s6 := hs b5 d3 (by omega) (by omega)
      cases hr : f.1 b5 d3 with
      | panic => simp only []; omega
      | done b6 d6 e6 =>
        obtain ⟨h1, h2⟩ := hf _ _ _ _ _ (by omega) (by omega) hr
        cases e6 with
        | some x => simp only []; omega
        | none =>
          have := ih false b6 d6 (by omega) (by omega)
          simp only [] at this ⊢; omega

theorem strMapS_le {srt : List MKey → Nat} {n w : Nat} {es : List (Bytes × EncS)} (hw : StrWeighsS c D n w es) :
    CostIn c D (n + 1) (w + if c.sortMapKeys then srt (es.map fun e => .str e.1) else 0) (strMapS c srt es) := by
  intro b d hd hn
  have hu := perUnit_ge c D
  rw [unit_split, Nat.mul_one]
  have hlen : es.length ≤ n := weighsS_length (fun n w x h => by obtain ⟨k, h1, _⟩ := h; omega) hw
  have hP : n ≤ perUnit c D * n := Nat.le_mul_of_pos_left n (by omega)
  unfold strMapS
  have hq : (if c.sortMapKeys = true then 2 * es.length + srt (es.map fun e => .str e.1) else 0) ≤
      2 * es.length + if c.sortMapKeys = true then srt (es.map fun e => .str e.1) else 0 := by split <;> omega
  generalize (if c.sortMapKeys = true then srt (es.map fun e => .str e.1) else 0) = q at *
  generalize (if c.sortMapKeys = true then 2 * es.length + srt (es.map fun e => .str e.1) else 0) = q' at *
  simp only []
  have hw' : StrWeighsS c D n w (if c.sortMapKeys = true then sortBy (fun e => e.1) es else es) := by
    split
    · exact weighsS_sort hw
    · exact hw
  have hl' : (if c.sortMapKeys = true then sortBy (fun e => e.1) es else es).length = es.length := by
    split
    · exact length_sortBy _ _
    · rfl
  generalize (if c.sortMapKeys = true then sortBy (fun e : Bytes × EncS => e.1) es else es) = l at *
  have s1 := punc_size (c := c) (ch! '{') b
  generalize appendPunc c.clrs b (ch! '{') = b1 at *
  simp only [grown]
  split
  · have hp := push_le (c := c) d
    have s2 := byte_size (c := c) D b1 0x0a
    generalize c.appendByte b1 0x0a = b2 at *
    have hl := strLoopS_le hw' true b2 (c.push d) (by omega) (by omega)
    simp only [] at hl
    have hwm : StrWeighs c D n (l.map fun e => (e.1, e.2.1)) :=
      weighsS_map (fun n w x h => by obtain ⟨k, h1, h2⟩ := h; exact ⟨k, h1, h2.1⟩) hw'
    have hr := strLoop_size hwm true b2 (c.push d) (by omega) (by omega)
    revert hr
    cases strLoop c true (l.map fun e => (e.1, e.2.1)) b2 (c.push d) with
    | panic => intro _; simp only []; omega
    | brk b3 d3 x =>
      intro ⟨h1, h2⟩
      obtain ⟨t1, t2⟩ := strTail_size (c := c) (D := D) (b := b3) (d := d3) (by omega)
      have s5 := punc_size (c := c) (ch! '}') (strTail c b3 d3).1
      simp only []; omega
    | fin b3 d3 =>
      intro ⟨h1, h2⟩
      obtain ⟨t1, t2⟩ := strTail_size (c := c) (D := D) (b := b3) (d := d3) (by omega)
      have s5 := punc_size (c := c) (ch! '}') (strTail c b3 d3).1
      simp only []; omega
  · have s4 := punc_size (c := c) (ch! '}') b1
    omega

/-- The fields of a struct. -/
abbrev FldWeighsS (c : Cfg) (D n w : Nat) (fs : List (FMeta × Bool × EncS)) : Prop :=
  WeighsS (fun n w (e : FMeta × Bool × EncS) => ∃ k, n = e.1.name.length + 1 + k ∧ GoodS c D k w e.2.2) n w fs

theorem structLoopS_le {n w : Nat} {fs : List (FMeta × Bool × EncS)} (hw : FldWeighsS c D n w fs) :
    ∀ i, CostIn c D n (w + 1) (structLoopS c i fs) := by
  induction hw with
  | nil => intro i b d _ _; unfold structLoopS; omega
  | @cons n m w u x fs hx _ ih =>
    obtain ⟨fm, em, f⟩ := x
    obtain ⟨k, rfl, hf, hs⟩ := hx
    simp only [] at hf hs
    intro i b d hd hn
    have hu := unit_mul c D fm.name.length
    have hsp := unit_split c D (fm.name.length + 1 + k) m
    rw [unit_split c D (fm.name.length + 1) k] at hsp
    unfold structLoopS
    simp only [] at hd hn hsp ⊢
    split
    · have := ih i b d (by omega) (by omega); omega
    · have s1 : (if i ≠ 0 then c.appendByte (appendPunc c.clrs b (ch! ',')) 0x0a else b).length ≤ b.length + 1 + perColor c.clrs + perLine c.ind D := by
        split
        · have := punc_size (c := c) (ch! ',') b
          have := byte_size (c := c) D (appendPunc c.clrs b (ch! ',')) 0x0a
          omega
        · omega
      generalize (if i ≠ 0 then c.appendByte (appendPunc c.clrs b (ch! ',')) 0x0a else b) = b1 at *
      have s2 := string_size c.escapeHTML [] fm.name
      rw [List.length_nil] at s2
      generalize doEncodeString c.escapeHTML [] fm.name = key at *
      have s3 := structKey_size (c := c) (D := D) (d := d) (by omega) b1 key
      generalize structKey c b1 key d = b3 at *
      have s4 := punc_size (c := c) (ch! ':') b3
      generalize appendPunc c.clrs b3 (ch! ':') = b4 at *
      have s5 := byte_size (c := c) D b4 (ch! ' ')
      generalize c.appendByte b4 (ch! ' ') = b5 at *
      have s6 := hs b5 d (by omega) (by omega)
      simp only [grown]
      cases hr : f.1 b5 d with
      | panic => simp only []; omega
      | done b6 d6 e6 =>
        obtain ⟨h1, h2⟩ := hf _ _ _ _ _ (by omega) (by omega) hr
        cases e6 with
        | some x =>
          simp only []
          split
          · have := ih i (b6.take b1.length) d6 (by omega) (by omega); omega
          · omega
        | none =>
          have := ih (i + 1) b6 d6 (by omega) (by omega)
          simp only []; omega

theorem structS_le {n w : Nat} {fs : List (FMeta × Bool × EncS)} (hw : FldWeighsS c D n w fs) : CostIn c D (n + 1) w (encodeStructS c fs) := by
  intro b d hd hn
  have hu := perUnit_ge c D
  rw [unit_split, Nat.mul_one]
  unfold encodeStructS
  simp only []
  have s1 := punc_size (c := c) (ch! '{') b
  generalize appendPunc c.clrs b (ch! '{') = b1 at *
  have s2 : (if fs.length > 0 then c.appendByte b1 0x0a else b1).length ≤ b1.length + perLine c.ind D := by
    split
    · exact byte_size D _ _
    · omega
  generalize (if fs.length > 0 then c.appendByte b1 0x0a else b1) = b2 at *
  have hp := push_le (c := c) d
  have hl := structLoopS_le hw 0 b2 (c.push d) (by omega) (by omega)
  have hw' : FldWeighs c D n (fs.map fun f => (f.1, f.2.1, f.2.2.1)) :=
    weighsS_map (fun n w x h => by obtain ⟨k, h1, h2⟩ := h; exact ⟨k, h1, h2.1⟩) hw
  simp only [grown]
  cases hr : structLoop c b.length 0 (fs.map fun f => (f.1, f.2.1, f.2.2.1)) b2 (c.push d) with
  | mk o i =>
    cases o with
    | panic => simp only []; omega
    | done b3 d3 e3 =>
      obtain ⟨h1, h2⟩ := structLoop_size hw' _ _ _ _ _ _ _ (by omega) (by omega) hr
      cases e3 with
      | some x => simp only []; omega
      | none =>
        simp only []
        have hq := pop_le (c := c) d3
        have s3 : (if i > 0 then c.appendByte b3 0x0a else b3).length ≤ b3.length + perLine c.ind D := by
          split
          · exact byte_size D _ _
          · omega
        generalize (if i > 0 then c.appendByte b3 0x0a else b3) = b4 at *
        have s4 := indent_size (c := c) (D := D) (d := c.pop d3) (by omega) b4
        generalize c.appendIndent (c.pop d3) b4 = b5 at *
        have s5 := punc_size (c := c) (ch! '}') b5
        omega

end

end JC
