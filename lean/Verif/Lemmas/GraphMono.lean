import Verif.Lemmas.Graph
/-! More stack gives no other results. -/
namespace JC
open Spec

/-- `g` does what `f` does, unless `f` panics. -/
def LeE (f g : Enc) : Prop := ∀ b d, f b d = .panic ∨ f b d = g b d

theorem LeE.refl (f : Enc) : LeE f f := fun _ _ => .inr rfl
theorem LeE.trans {f g k : Enc} (h1 : LeE f g) (h2 : LeE g k) : LeE f k := fun b d => by
  rcases h1 b d with h | h
  · exact .inl h
  · rw [h]; exact h2 b d

section
variable {α : Type} {f g : α → Enc}

theorem arrayLoop_le {c : Cfg} {start : Nat} : ∀ (xs : List α), (∀ x ∈ xs, LeE (f x) (g x)) → ∀ first,
    LeE (arrayLoop c start first (xs.map f)) (arrayLoop c start first (xs.map g))
  | [], _, _ => LeE.refl _
  | x :: xs, h, first => fun b d => by
    simp only [List.map_cons, arrayLoop]
    generalize c.appendIndent d _ = b1
    rcases h x (by simp) b1 d with h1 | h1
    · rw [h1]; exact .inl rfl
    · rw [← h1]
      cases f x b1 d with
      | panic => exact .inl rfl
      | done b2 d2 e =>
        cases e with
        | some e => exact .inr rfl
        | none => exact arrayLoop_le xs (fun y hy => h y (by simp [hy])) false b2 d2

theorem encodeArray_le {c : Cfg} {xs : List α} (h : ∀ x ∈ xs, LeE (f x) (g x)) : LeE (encodeArray c (xs.map f)) (encodeArray c (xs.map g)) := fun b d => by
  unfold encodeArray
  simp only [List.length_map]
  split
  · rcases arrayLoop_le (c := c) (start := b.length) xs h true (appendPunc c.clrs b (ch! '[')) (c.push d) with h1 | h1
    · rw [h1]; exact .inl rfl
    · rw [h1]; exact .inr rfl
  · exact .inr rfl

theorem mapLoop_le {κ : α → MKey} {c : Cfg} {start : Nat} : ∀ (xs : List α), (∀ x ∈ xs, LeE (f x) (g x)) → ∀ first,
    LeE (mapLoop c start first (xs.map fun x => (κ x, f x))) (mapLoop c start first (xs.map fun x => (κ x, g x)))
  | [], _, _ => LeE.refl _
  | x :: xs, h, first => fun b d => by
    simp only [List.map_cons, mapLoop]
    generalize c.appendIndent d _ = b1
    cases encodeMKey c (κ x) b1 d with
    | panic => exact .inl rfl
    | done b3 d3 e =>
      cases e with
      | some e => exact .inr rfl
      | none =>
        simp only []
        generalize c.appendByte _ (ch! ' ') = b4
        rcases h x (by simp) b4 d3 with h1 | h1
        · rw [h1]; exact .inl rfl
        · rw [← h1]
          cases f x b4 d3 with
          | panic => exact .inl rfl
          | done b2 d2 e =>
            cases e with
            | some e => exact .inr rfl
            | none => exact mapLoop_le xs (fun y hy => h y (by simp [hy])) false b2 d2

theorem encodeMap_le {κ : α → MKey} {c : Cfg} {xs : List α} (h : ∀ x ∈ xs, LeE (f x) (g x)) :
    LeE (encodeMap c (xs.map fun x => (κ x, f x))) (encodeMap c (xs.map fun x => (κ x, g x))) := fun b d => by
  have hs : ∀ k : α → Enc, (if c.sortMapKeys = true then sortBy (fun e => e.1.sortText) (xs.map fun x => (κ x, k x)) else xs.map fun x => (κ x, k x)) =
      (if c.sortMapKeys = true then sortBy (fun x => (κ x).sortText) xs else xs).map fun x => (κ x, k x) := by
    intro k
    split
    · exact JC.sortBy_map (fun x => (κ x, k x)) (fun e : MKey × Enc => e.1.sortText) xs
    · rfl
  have hm : ∀ x ∈ (if c.sortMapKeys = true then sortBy (fun x => (κ x).sortText) xs else xs), LeE (f x) (g x) := by
    intro x hx
    apply h
    split at hx
    · exact (mem_sortBy _ _ _).1 hx
    · exact hx
  unfold encodeMap
  simp only [hs, List.length_map, List.any_map, Function.comp_def]
  split
  · exact .inl rfl
  · generalize (if c.sortMapKeys = true then sortBy (fun x => (κ x).sortText) xs else xs) = ys at hm ⊢
    split
    · rcases mapLoop_le (κ := κ) (c := c) (start := b.length) ys hm true (c.appendByte (appendPunc c.clrs b (ch! '{')) 0x0a) (c.push d) with h1 | h1
      · rw [h1]; exact .inl rfl
      · rw [h1]; exact .inr rfl
    · exact .inr rfl

theorem strLoop_le {κ : α → Bytes} {c : Cfg} : ∀ (xs : List α), (∀ x ∈ xs, LeE (f x) (g x)) → ∀ first b d,
    strLoop c first (xs.map fun x => (κ x, f x)) b d = .panic ∨
      strLoop c first (xs.map fun x => (κ x, f x)) b d = strLoop c first (xs.map fun x => (κ x, g x)) b d
  | [], _, _, _, _ => .inr rfl
  | x :: xs, h, first, b, d => by
    simp only [List.map_cons, strLoop]
    generalize c.appendIndent d _ = b1
    cases encodeKey c (κ x) b1 d with
    | panic => exact .inl rfl
    | done b3 d3 e =>
      simp only []
      generalize c.appendByte _ (ch! ' ') = b4
      rcases h x (by simp) b4 d3 with h1 | h1
      · rw [h1]; exact .inl rfl
      · rw [← h1]
        cases f x b4 d3 with
        | panic => exact .inl rfl
        | done b2 d2 e =>
          cases e with
          | some e => exact .inr rfl
          | none => exact strLoop_le xs (fun y hy => h y (by simp [hy])) false b2 d2

theorem encodeMapSI_le {κ : α → Bytes} {c : Cfg} {xs : List α} (h : ∀ x ∈ xs, LeE (f x) (g x)) :
    LeE (encodeMapSI c (xs.map fun x => (κ x, f x))) (encodeMapSI c (xs.map fun x => (κ x, g x))) := fun b d => by
  unfold encodeMapSI
  split
  · have hs : ∀ k : α → Enc, sortBy (fun e => e.1) (xs.map fun x => (κ x, k x)) = (sortBy κ xs).map fun x => (κ x, k x) :=
      fun k => JC.sortBy_map (fun x => (κ x, k x)) (fun e : Bytes × Enc => e.1) xs
    have hm : ∀ x ∈ sortBy κ xs, LeE (f x) (g x) := fun x hx => h x ((mem_sortBy _ _ _).1 hx)
    unfold strMapSorted
    simp only [hs, List.length_map]
    generalize sortBy κ xs = ys at hm ⊢
    split
    · rcases strLoop_le (κ := κ) (c := c) ys hm true (c.appendByte (appendPunc c.clrs b (ch! '{')) 0x0a) (c.push d) with h1 | h1
      · rw [h1]; exact .inl rfl
      · rw [h1]; exact .inr rfl
    · exact .inr rfl
  · unfold mapSIUnsorted
    simp only [List.length_map]
    split
    · rcases strLoop_le (κ := κ) (c := c) xs h true (c.appendByte (appendPunc c.clrs b (ch! '{')) 0x0a) (c.push d) with h1 | h1
      · rw [h1]; exact .inl rfl
      · rw [h1]; exact .inr rfl
    · exact .inr rfl

theorem structLoop_le {κ : α → FMeta} {ε : α → Bool} {c : Cfg} {start : Nat} : ∀ (xs : List α), (∀ x ∈ xs, LeE (f x) (g x)) → ∀ n b d,
    (structLoop c start n (xs.map fun x => (κ x, ε x, f x)) b d).1 = .panic ∨
      structLoop c start n (xs.map fun x => (κ x, ε x, f x)) b d = structLoop c start n (xs.map fun x => (κ x, ε x, g x)) b d
  | [], _, _, _, _ => .inr rfl
  | x :: xs, h, n, b, d => by
    have ih := structLoop_le (κ := κ) (ε := ε) (c := c) (start := start) xs (fun y hy => h y (by simp [hy]))
    simp only [List.map_cons, structLoop]
    split
    · exact ih _ _ _
    · generalize c.appendByte _ (ch! ' ') = b4
      rcases h x (by simp) b4 d with h1 | h1
      · rw [h1]; exact .inl rfl
      · rw [← h1]
        cases f x b4 d with
        | panic => exact .inl rfl
        | done b2 d2 e =>
          cases e with
          | some e =>
            simp only []
            split
            · exact ih _ _ _
            · exact .inr rfl
          | none => exact ih _ _ _

theorem encodeStruct_le {κ : α → FMeta} {ε : α → Bool} {c : Cfg} {xs : List α} (h : ∀ x ∈ xs, LeE (f x) (g x)) :
    LeE (encodeStruct c (xs.map fun x => (κ x, ε x, f x))) (encodeStruct c (xs.map fun x => (κ x, ε x, g x))) := fun b d => by
  unfold encodeStruct
  simp only [List.length_map]
  generalize (if xs.length > 0 then c.appendByte (appendPunc c.clrs b (ch! '{')) 0x0a else appendPunc c.clrs b (ch! '{')) = b1
  rcases structLoop_le (κ := κ) (ε := ε) (c := c) (start := b.length) xs h 0 b1 (c.push d) with h1 | h1
  · left
    generalize structLoop c b.length 0 (xs.map fun x => (κ x, ε x, f x)) b1 (c.push d) = o at h1 ⊢
    obtain ⟨o, n⟩ := o
    simp only [] at h1
    subst h1
    rfl
  · rw [h1]; exact .inr rfl

end

theorem encodeToString_le {f g : Enc} {c : Cfg} (h : LeE f g) : LeE (encodeToString c f) (encodeToString c g) := fun b d => by
  unfold encodeToString
  simp only []
  rcases h b d with h1 | h1
  · rw [h1]; exact .inl rfl
  · rw [h1]; exact .inr rfl

theorem encN_le {c : Cfg} {h : NMem} {r s : NV → Enc} (hr : ∀ w, LeE (r w) (s w)) : ∀ v, LeE (encN c h r v) (encN c h s v)
  | .leaf g => LeE.refl _
  | .ptr a => by rw [encN, encN]; exact hr _
  | .emb a z => by rw [encN, encN]; exact hr _
  | .slice a => by rw [encN, encN]; exact encodeArray_le fun x _ => hr x
  | .array xs => by
    rw [encN, encN, encNL_map, encNL_map]
    exact encodeArray_le fun x _ => encN_le hr x
  | .map a => by
    rw [encN, encN]
    exact encodeMap_le (κ := Prod.fst) (f := fun e => r e.2) (g := fun e => s e.2) fun x _ => hr x.2
  | .mapSI a => by
    rw [encN, encN]
    exact encodeMapSI_le (κ := Prod.fst) (f := fun e => r e.2) (g := fun e => s e.2) fun x _ => hr x.2
  | .struct fs => by
    rw [encN, encN, encNF_map, encNF_map]
    exact encodeStruct_le (κ := Prod.fst) (ε := fun e => isEmptyN h e.2) (f := fun e => encN c h r e.2) (g := fun e => encN c h s e.2) fun x _ => encN_le hr x.2
  | .iface v => by rw [encN, encN]; exact encN_le hr v
  | .quoted v => by rw [encN, encN]; exact encodeToString_le (encN_le hr v)
termination_by v => sizeOf v
decreasing_by
  all_goals simp_wf
  · rename_i hx; have := List.sizeOf_lt_of_mem hx; omega
  · rename_i hx
    have := List.sizeOf_lt_of_mem hx
    have : sizeOf x.2 < sizeOf x := by cases x; simp; omega
    omega

theorem encG_le_succ (c : Cfg) (h : NMem) : ∀ n v, LeE (encG c h n v) (encG c h (n + 1) v)
  | 0, _ => fun _ _ => .inl rfl
  | n + 1, v => encN_le (encG_le_succ c h n) v

theorem encG_le (c : Cfg) (h : NMem) {n m : Nat} (hm : n ≤ m) (v : NV) : LeE (encG c h n v) (encG c h m v) := by
  induction hm with
  | refl => exact LeE.refl _
  | step _ ih => exact ih.trans (encG_le_succ c h _ v)

end JC
