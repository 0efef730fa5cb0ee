import Verif.Lemmas.EncWorkEnc
import Verif.Lemmas.EncLoc
/-!
Every byte that is appended is counted (property C95).
-/
namespace JC
open Spec

theorem insertBy_mapS {α β : Type} (key : β → Bytes) (g : α → β) (x : α) (l : List α) :
    insertBy key (g x) (l.map g) = (insertBy (fun a => key (g a)) x l).map g := by
  induction l with
  | nil => rfl
  | cons y l ih =>
    simp only [List.map_cons, insertBy]
    split
    · rw [ih]; rfl
    · rfl

theorem sortBy_mapS {α β : Type} (key : β → Bytes) (g : α → β) (l : List α) :
    sortBy key (l.map g) = (sortBy (fun a => key (g a)) l).map g := by
  induction l with
  | nil => rfl
  | cons x l ih => simp only [List.map_cons, sortBy]; rw [ih, insertBy_mapS]

section
variable {c : Cfg}

theorem arrayLoop_counts {start : Nat} : ∀ (fs : List EncS) (first : Bool), (∀ f ∈ fs, Counts f.1 f.2) →
    Counts (arrayLoop c start first (fs.map (·.1))) (arrayLoopS c first fs)
  | [], first, _ => by
    intro b d b' d' e h
    simp only [List.map_nil, arrayLoop, Out.done.injEq] at h; obtain ⟨rfl, _, _⟩ := h
    omega
  | f :: fs, first, hf => by
    intro b d b' d' e h
    simp only [List.map_cons, arrayLoop] at h
    simp only [arrayLoopS, grown]
    generalize c.appendIndent d (c.appendByte (if first = true then b else appendPunc c.clrs b (ch! ',')) 0x0a) = b1 at *
    cases hr : f.1 b1 d with
    | panic => rw [hr] at h; cases h
    | done b2 d2 e2 =>
      rw [hr] at h
      have h1 := hf f (List.mem_cons_self ..) _ _ _ _ _ hr
      cases e2 with
      | some x =>
        simp only [Out.done.injEq] at h; obtain ⟨rfl, _, _⟩ := h
        rw [List.length_take]; simp only []; omega
      | none =>
        have := arrayLoop_counts fs false (fun f h => hf f (List.mem_cons_of_mem _ h)) _ _ _ _ _ h
        simp only []; omega

theorem arrayS_counts {fs : List EncS} (hf : ∀ f ∈ fs, Counts f.1 f.2) : Counts (encodeArray c (fs.map (·.1))) (encodeArrayS c fs) := by
  intro b d b' d' e h
  unfold encodeArray at h
  unfold encodeArrayS
  simp only [List.length_map, grown] at h ⊢
  generalize appendPunc c.clrs b (ch! '[') = b1 at *
  split at h
  · rename_i h0
    rw [if_pos h0]
    cases hr : arrayLoop c b.length true (fs.map (·.1)) b1 (c.push d) with
    | panic => rw [hr] at h; cases h
    | done b2 d2 e2 =>
      rw [hr] at h
      have h1 := arrayLoop_counts fs true hf _ _ _ _ _ hr
      cases e2 with
      | some x => simp only [Out.done.injEq] at h; obtain ⟨rfl, _, _⟩ := h; simp only []; omega
      | none => simp only [Out.done.injEq] at h; obtain ⟨rfl, _, _⟩ := h; simp only []; omega
  · rename_i h0
    rw [if_neg h0]
    simp only [Out.done.injEq] at h; obtain ⟨rfl, _, _⟩ := h
    omega

theorem mapLoop_counts {start : Nat} : ∀ (es : List (MKey × EncS)) (first : Bool), (∀ e ∈ es, Counts e.2.1 e.2.2) →
    Counts (mapLoop c start first (es.map fun e => (e.1, e.2.1))) (mapLoopS c first es)
  | [], first, _ => by
    intro b d b' d' e h
    simp only [List.map_nil, mapLoop, Out.done.injEq] at h; obtain ⟨rfl, _, _⟩ := h
    omega
  | (k, f) :: es, first, hf => by
    intro b d b' d' e h
    simp only [List.map_cons, mapLoop] at h
    simp only [mapLoopS, grown]
    generalize c.appendIndent d (if first = true then b else c.appendByte (appendPunc c.clrs b (ch! ',')) 0x0a) = b1 at *
    cases hk : encodeMKey c k b1 d with
    | panic => rw [hk] at h; cases h
    | done b2 d2 e2 =>
      rw [hk] at h
      have h1 := mkeyS_counts k _ _ _ _ _ hk
      cases e2 with
      | some x =>
        simp only [Out.done.injEq] at h; obtain ⟨rfl, _, _⟩ := h
        rw [List.length_take]; simp only []; omega
      | none =>
        simp only [] at h ⊢
        generalize c.appendByte (appendPunc c.clrs b2 (ch! ':')) (ch! ' ') = b3 at *
        cases hr : f.1 b3 d2 with
        | panic => rw [hr] at h; cases h
        | done b4 d4 e4 =>
          rw [hr] at h
          have h2 := hf (k, f) (List.mem_cons_self ..) _ _ _ _ _ hr
          simp only [] at h2
          cases e4 with
          | some x =>
            simp only [Out.done.injEq] at h; obtain ⟨rfl, _, _⟩ := h
            rw [List.length_take]; simp only []; omega
          | none =>
            have := mapLoop_counts es false (fun f h => hf f (List.mem_cons_of_mem _ h)) _ _ _ _ _ h
            simp only []; omega

theorem mapS_counts {srt : List MKey → Nat} {es : List (MKey × EncS)} (hf : ∀ e ∈ es, Counts e.2.1 e.2.2) :
    Counts (encodeMap c (es.map fun e => (e.1, e.2.1))) (encodeMapS c srt es) := by
  intro b d b' d' e h
  unfold encodeMap at h
  unfold encodeMapS
  have hany : (es.map fun e => (e.1, e.2.1)).any (fun e => e.1.uncallable) = es.any (fun e => e.1.uncallable) := by
    rw [List.any_map]; rfl
  have hsort : (if c.sortMapKeys = true then sortBy (fun e => e.1.sortText) (es.map fun e => (e.1, e.2.1)) else es.map fun e => (e.1, e.2.1)) =
      (if c.sortMapKeys = true then sortBy (fun e => e.1.sortText) es else es).map fun e => (e.1, e.2.1) := by
    split
    · rw [sortBy_mapS]
    · rfl
  rw [hany, hsort] at h
  have hf' : ∀ e ∈ (if c.sortMapKeys = true then sortBy (fun e => e.1.sortText) es else es), Counts e.2.1 e.2.2 := by
    intro e he
    split at he
    · exact hf e ((mem_sortBy _ _ _).1 he)
    · exact hf e he
  generalize (if c.sortMapKeys = true then srt (es.map (·.1)) else 0) = q
  simp only [List.length_map] at h
  split at h
  · cases h
  · rename_i h0
    rw [if_neg h0]
    simp only [grown] at h ⊢
    generalize (if c.sortMapKeys = true then sortBy (fun e : MKey × EncS => e.1.sortText) es else es) = l at *
    generalize appendPunc c.clrs b (ch! '{') = b1 at *
    split at h
    · rename_i h1
      rw [if_pos h1]
      generalize c.appendByte b1 0x0a = b2 at *
      cases hr : mapLoop c b.length true (l.map fun e => (e.1, e.2.1)) b2 (c.push d) with
      | panic => rw [hr] at h; cases h
      | done b3 d3 e3 =>
        rw [hr] at h
        have h1 := mapLoop_counts l true hf' _ _ _ _ _ hr
        cases e3 with
        | some x => simp only [Out.done.injEq] at h; obtain ⟨rfl, _, _⟩ := h; simp only []; omega
        | none => simp only [Out.done.injEq] at h; obtain ⟨rfl, _, _⟩ := h; simp only []; omega
    · rename_i h1
      rw [if_neg h1]
      simp only [Out.done.injEq] at h; obtain ⟨rfl, _, _⟩ := h
      omega

/-- The bytes of a loop that ended, and did not panic. -/
def LoopGot (n : Nat) : LoopR → Prop
  | .fin b _ => b.length ≤ n
  | .brk b _ _ => b.length ≤ n
  | .panic => True

theorem strLoop_counts : ∀ (es : List (Bytes × EncS)) (first : Bool), (∀ e ∈ es, Counts e.2.1 e.2.2) → ∀ b d,
    LoopGot (b.length + strLoopS c first es b d) (strLoop c first (es.map fun e => (e.1, e.2.1)) b d)
  | [], first, _, b, d => by simp only [List.map_nil, strLoop, LoopGot]; omega
  | (k, f) :: es, first, hf, b, d => by
    simp only [List.map_cons, strLoop, strLoopS, grown]
    generalize c.appendIndent d (if first = true then b else c.appendByte (appendPunc c.clrs b (ch! ',')) 0x0a) = b1 at *
    cases hk : encodeKey c k b1 d with
    | panic => trivial
    | done b2 d2 e2 =>
      have h1 := keyS_counts k _ _ _ _ _ hk
      simp only []
      generalize c.appendByte (appendPunc c.clrs b2 (ch! ':')) (ch! ' ') = b3 at *
      cases hr : f.1 b3 d2 with
      | panic => trivial
      | done b4 d4 e4 =>
        have h2 := hf (k, f) (List.mem_cons_self ..) _ _ _ _ _ hr
        simp only [] at h2
        cases e4 with
        | some x => simp only [LoopGot]; omega
        | none =>
          have := strLoop_counts es false (fun f h => hf f (List.mem_cons_of_mem _ h)) b4 d4
          simp only []
          revert this
          cases strLoop c false (es.map fun e => (e.1, e.2.1)) b4 d4 with
          | fin b5 d5 => simp only [LoopGot]; intro h; omega
          | brk b5 d5 x => simp only [LoopGot]; intro h; omega
          | panic => intro _; trivial

theorem strMapS_counts {srt : List MKey → Nat} {es : List (Bytes × EncS)} (hf : ∀ e ∈ es, Counts e.2.1 e.2.2) :
    Counts (encodeMapSI c (es.map fun e => (e.1, e.2.1))) (strMapS c srt es) ∧
      Counts (encodeMapRaw c (es.map fun e => (e.1, e.2.1))) (strMapS c srt es) := by
  have hq : ∀ (l : List (Bytes × EncS)) b d, (∀ e ∈ l, Counts e.2.1 e.2.2) →
      LoopGot (b.length + strLoopS c true l b d) (strLoop c true (l.map fun e => (e.1, e.2.1)) b d) :=
    fun l b d h => strLoop_counts l true h b d
  have sorted : c.sortMapKeys = true → Counts (strMapSorted c (es.map fun e => (e.1, e.2.1))) (strMapS c srt es) := by
    intro hs b d b' d' e h
    unfold strMapSorted at h
    unfold strMapS
    rw [sortBy_mapS] at h
    simp only [hs, if_true, grown] at h ⊢
    have hf' : ∀ e ∈ sortBy (fun e => e.1) es, Counts e.2.1 e.2.2 := fun e he => hf e ((mem_sortBy _ _ _).1 he)
    generalize sortBy (fun e : Bytes × EncS => e.1) es = l at *
    rw [List.length_map] at h
    generalize appendPunc c.clrs b (ch! '{') = b1 at *
    split at h
    · rename_i h0
      rw [if_pos (by omega)]
      generalize c.appendByte b1 0x0a = b2 at *
      have := hq l b2 (c.push d) hf'
      revert this h
      cases strLoop c true (l.map fun e => (e.1, e.2.1)) b2 (c.push d) with
      | panic => intro h; cases h
      | brk b3 d3 x =>
        simp only [LoopGot, Out.done.injEq]
        rintro ⟨rfl, _, _⟩ h1
        rw [List.length_take]; omega
      | fin b3 d3 =>
        simp only [LoopGot, Out.done.injEq]
        rintro ⟨rfl, _, _⟩ h1
        omega
    · rename_i h0
      rw [if_neg (by omega)]
      simp only [Out.done.injEq] at h; obtain ⟨rfl, _, _⟩ := h
      omega
  refine ⟨?_, ?_⟩
  · unfold encodeMapSI
    split
    · rename_i hs; exact sorted hs
    · rename_i hs
      intro b d b' d' e h
      unfold mapSIUnsorted at h
      unfold strMapS
      simp only [hs, Bool.false_eq_true, if_false, List.length_map, grown] at h ⊢
      generalize appendPunc c.clrs b (ch! '{') = b1 at *
      split at h
      · rename_i h0
        rw [if_pos h0]
        generalize c.appendByte b1 0x0a = b2 at *
        have := hq es b2 (c.push d) hf
        revert this h
        cases strLoop c true (es.map fun e => (e.1, e.2.1)) b2 (c.push d) with
        | panic => intro h; cases h
        | brk b3 d3 x =>
          simp only [LoopGot, Out.done.injEq]
          rintro ⟨rfl, _, _⟩ h1
          omega
        | fin b3 d3 =>
          simp only [LoopGot, Out.done.injEq]
          rintro ⟨rfl, _, _⟩ h1
          omega
      · rename_i h0
        rw [if_neg h0]
        simp only [Out.done.injEq] at h; obtain ⟨rfl, _, _⟩ := h
        omega
  · unfold encodeMapRaw
    split
    · rename_i hs; exact sorted hs
    · rename_i hs
      intro b d b' d' e h
      unfold mapRawUnsorted at h
      unfold strMapS
      simp only [hs, Bool.false_eq_true, if_false, List.length_map, grown] at h ⊢
      generalize appendPunc c.clrs b (ch! '{') = b1 at *
      split at h
      · rename_i h0
        rw [if_pos h0]
        generalize c.appendByte b1 0x0a = b2 at *
        have := hq es b2 (c.push d) hf
        revert this h
        cases strLoop c true (es.map fun e => (e.1, e.2.1)) b2 (c.push d) with
        | panic => intro h; cases h
        | brk b3 d3 x =>
          simp only [LoopGot, Out.done.injEq]
          rintro ⟨rfl, _, _⟩ h1
          omega
        | fin b3 d3 =>
          simp only [LoopGot, Out.done.injEq]
          rintro ⟨rfl, _, _⟩ h1
          omega
      · rename_i h0
        rw [if_neg h0]
        simp only [Out.done.injEq] at h; obtain ⟨rfl, _, _⟩ := h
        omega

theorem structLoop_counts {start : Nat} : ∀ (fs : List (FMeta × Bool × EncS)) (i : Nat), (∀ f ∈ fs, Counts f.2.2.1 f.2.2.2) →
    ∀ b d b' d' e i', structLoop c start i (fs.map fun f => (f.1, f.2.1, f.2.2.1)) b d = (.done b' d' e, i') →
      b'.length ≤ b.length + structLoopS c i fs b d
  | [], i, _, b, d, b', d', e, i', h => by
    simp only [List.map_nil, structLoop, Prod.mk.injEq, Out.done.injEq] at h; obtain ⟨⟨rfl, _, _⟩, _⟩ := h
    omega
  | (m, em, f) :: fs, i, hf, b, d, b', d', e, i', h => by
    have ih := fun i => structLoop_counts (start := start) fs i (fun f h => hf f (List.mem_cons_of_mem _ h))
    simp only [List.map_cons, structLoop] at h
    simp only [structLoopS, grown]
    split at h
    · rename_i h0
      rw [if_pos h0]
      have := ih _ _ _ _ _ _ _ h
      omega
    · rename_i h0
      rw [if_neg h0]
      generalize (if i ≠ 0 then c.appendByte (appendPunc c.clrs b (ch! ',')) 0x0a else b) = b1 at *
      generalize c.appendByte (appendPunc c.clrs (structKey c b1 (doEncodeString c.escapeHTML [] m.name) d) (ch! ':')) (ch! ' ') = b2 at *
      cases hr : f.1 b2 d with
      | panic => rw [hr] at h; cases h
      | done b3 d3 e3 =>
        rw [hr] at h
        have h2 := hf (m, em, f) (List.mem_cons_self ..) _ _ _ _ _ hr
        simp only [] at h2
        cases e3 with
        | some x =>
          simp only [] at h ⊢
          split at h
          · rename_i hx
            rw [if_pos hx]
            have := ih _ _ _ _ _ _ _ h
            rw [List.length_take] at this
            omega
          · rename_i hx
            rw [if_neg hx]
            simp only [Prod.mk.injEq, Out.done.injEq] at h; obtain ⟨⟨rfl, _, _⟩, _⟩ := h
            rw [List.length_take]; omega
        | none =>
          have := ih _ _ _ _ _ _ _ h
          simp only []; omega

theorem structS_counts {fs : List (FMeta × Bool × EncS)} (hf : ∀ f ∈ fs, Counts f.2.2.1 f.2.2.2) :
    Counts (encodeStruct c (fs.map fun f => (f.1, f.2.1, f.2.2.1))) (encodeStructS c fs) := by
  intro b d b' d' e h
  unfold encodeStruct at h
  unfold encodeStructS
  simp only [List.length_map, grown] at h ⊢
  generalize (if fs.length > 0 then c.appendByte (appendPunc c.clrs b (ch! '{')) 0x0a else appendPunc c.clrs b (ch! '{')) = b1 at *
  cases hr : structLoop c b.length 0 (fs.map fun f => (f.1, f.2.1, f.2.2.1)) b1 (c.push d) with
  | mk o i =>
    rw [hr] at h
    cases o with
    | panic => cases h
    | done b2 d2 e2 =>
      have h1 := structLoop_counts fs 0 hf _ _ _ _ _ _ hr
      cases e2 with
      | some x => simp only [Out.done.injEq] at h; obtain ⟨rfl, _, _⟩ := h; simp only []; omega
      | none => simp only [Out.done.injEq] at h; obtain ⟨rfl, _, _⟩ := h; simp only []; omega

theorem rawFold_counts : ∀ (ts : List Obs) (s : RawSt), (ts.foldl (rawStep c) s).b.length ≤ s.b.length + rawFoldS c s ts
  | [], s => by simp only [List.foldl_nil, rawFoldS]; omega
  | t :: ts, s => by
    have := rawFold_counts ts (rawStep c s t)
    simp only [List.foldl_cons, rawFoldS, rawStepS, grown]; omega

theorem rawTokens_counts (s : Bytes) : Counts (rawTokens c s) (rawTokensS c s) := by
  intro b d b' d' e h
  have h1 := rawFold_counts (c := c) (tokenize s).1 ⟨b, d, []⟩
  simp only [] at h1
  unfold rawTokens at h
  unfold rawTokensS
  simp only [] at h
  repeat' split at h
  all_goals first
    | (cases h; done)
    | (simp only [Out.done.injEq] at h; obtain ⟨rfl, _, _⟩ := h
       first
         | omega
         | (rw [List.length_take]; omega))

theorem rawVerbatim_counts (s : Bytes) : Counts (rawVerbatim c s) (rawVerbatimS c s) := by
  intro b d b' d' e h
  unfold rawVerbatim at h
  unfold rawVerbatimS
  generalize (if c.escapeHTML = true then compactS s else 0) = q at *
  cases hi : c.ind with
  | none =>
    rw [hi] at h
    simp only [Out.done.injEq] at h; obtain ⟨rfl, _, _⟩ := h
    simp only [grown]; omega
  | some i =>
    rw [hi] at h
    simp only [] at h ⊢
    split at h
    · rename_i h0
      rw [if_pos h0]
      simp only [Out.done.injEq] at h; obtain ⟨rfl, _, _⟩ := h
      simp only [grown]; omega
    · rename_i h0
      rw [if_neg h0]
      generalize (if c.escapeHTML = true then appendCompactEscapeHTML [] s else s) = s' at *
      cases ho : c.jsonIndent s' (c.appendIndent d []) i.indent with
      | none =>
        rw [ho] at h
        simp only [Out.done.injEq] at h; obtain ⟨rfl, _, _⟩ := h
        rw [List.length_append]; simp only []; omega
      | some out =>
        rw [ho] at h
        simp only [Out.done.injEq] at h; obtain ⟨rfl, _, _⟩ := h
        rw [List.length_append]; simp only []; omega

theorem rawS_counts (v : Option Bytes) : Counts (encodeRawMessage c v) (encodeRawMessageS c v) := by
  intro b d b' d' e h
  unfold encodeRawMessage at h
  unfold encodeRawMessageS
  cases v with
  | none =>
    simp only [Out.done.injEq] at h; obtain ⟨rfl, _, _⟩ := h
    simp only [grown]; omega
  | some v =>
    simp only [] at h ⊢
    split at h
    · rename_i ht
      rw [if_pos ht]
      cases hr : rawTokens c v b d with
      | panic => rw [hr] at h; cases h
      | done b1 d1 e1 =>
        rw [hr] at h
        have h1 := rawTokens_counts v _ _ _ _ _ hr
        cases e1 with
        | none => simp only [Out.done.injEq] at h; obtain ⟨rfl, _, _⟩ := h; simp only []; omega
        | some x =>
          have h2 := rawVerbatim_counts v _ _ _ _ _ h
          simp only []; omega
    · rename_i ht
      rw [if_neg ht]
      cases hp : parseValue v with
      | fail r x =>
        rw [hp] at h
        simp only [Out.done.injEq] at h; obtain ⟨rfl, _, _⟩ := h; simp only []; omega
      | ok s r =>
        rw [hp] at h
        have := rawTokens_counts s _ _ _ _ _ h
        simp only []; omega

theorem counts_more {f : Enc} {s : EncCost} (h : Counts f s) : Counts f (fun b d => s b d + 1) := by
  intro b d b' d' e he
  have := h _ _ _ _ _ he
  simp only []; omega

theorem stepsL_enc (srt : List MKey → Nat) : ∀ vs, (stepsL c srt vs).map (·.1) = encL c vs
  | [] => by simp [stepsL, encL]
  | v :: vs => by simp [stepsL, encL, stepsL_enc srt vs]

theorem stepsE_enc (srt : List MKey → Nat) : ∀ es, (stepsE c srt es).map (fun e => (e.1, e.2.1)) = encE c es
  | [] => by simp [stepsE, encE]
  | (k, v) :: es => by simp [stepsE, encE, stepsE_enc srt es]

theorem stepsM_enc (srt : List MKey → Nat) : ∀ es, (stepsM c srt es).map (fun e => (e.1, e.2.1)) = encS c es
  | [] => by simp [stepsM, encS]
  | (k, v) :: es => by simp [stepsM, encS, stepsM_enc srt es]

theorem stepsF_enc (srt : List MKey → Nat) : ∀ fs, (stepsF c srt fs).map (fun f => (f.1, f.2.1, f.2.2.1)) = encF c fs
  | [] => by simp [stepsF, encF]
  | (m, v) :: fs => by simp [stepsF, encF, stepsF_enc srt fs]

mutual

theorem enc_counts (srt : List MKey → Nat) : ∀ v : GV, Counts (enc c v) (encSteps c srt v)
  | .nil | .sliceNil | .mapNil | .ptrNil => by unfold enc encSteps; exact appendS_counts _
  | .bool v => by unfold enc encSteps; exact appendS_counts _
  | .int z => by unfold enc encSteps; exact appendS_counts _
  | .uint n => by unfold enc encSteps; exact appendS_counts _
  | .float f => by unfold enc encSteps; exact coloredS_counts (floatS_counts f)
  | .number s => by unfold enc encSteps; exact numberS_counts s
  | .string s => by unfold enc encSteps; exact strS_counts s
  | .bytesNil => by unfold enc encSteps; exact bytesS_counts none
  | .bytes s => by unfold enc encSteps; exact bytesS_counts (some s)
  | .time s _ => by unfold enc encSteps; exact timeS_counts s
  | .slice xs => by unfold enc encSteps; rw [← stepsL_enc srt]; exact arrayS_counts (stepsL_counts srt xs)
  | .array xs => by unfold enc encSteps; rw [← stepsL_enc srt]; exact arrayS_counts (stepsL_counts srt xs)
  | .map es => by unfold enc encSteps; rw [← stepsE_enc srt]; exact mapS_counts (stepsE_counts srt es)
  | .mapSI es => by unfold enc encSteps; rw [← stepsM_enc srt]; exact (strMapS_counts (stepsM_counts srt es)).1
  | .mapRaw es => by
    unfold enc encSteps
    have := (strMapS_counts (c := c) (srt := srt) (es := es.map fun e => (e.1, encodeRawMessage c e.2, encodeRawMessageS c e.2)) (by
      intro e he
      obtain ⟨x, _, rfl⟩ := List.mem_map.1 he
      exact rawS_counts x.2)).2
    rw [List.map_map] at this
    exact this
  | .struct fs => by unfold enc encSteps; rw [← stepsF_enc srt]; exact structS_counts (stepsF_counts srt fs)
  | .ptr v => by unfold enc encSteps; exact counts_more (enc_counts srt v)
  | .iface v _ => by unfold enc encSteps; exact counts_more (enc_counts srt v)
  | .rawNil => by unfold enc encSteps; exact rawS_counts none
  | .raw s => by unfold enc encSteps; exact rawS_counts (some s)
  | .jsonM r _ => by
    unfold enc encSteps
    intro b d b' d' e h
    unfold encodeJSONMarshaler at h
    unfold encodeJSONMarshalerS
    cases r with
    | isNil =>
      simp only [Out.done.injEq] at h; obtain ⟨rfl, _, _⟩ := h
      simp only [grown]; omega
    | err x => simp only [Out.done.injEq] at h; obtain ⟨rfl, _, _⟩ := h; simp only []; omega
    | ok s => have := rawS_counts s _ _ _ _ _ h; simp only []; omega
  | .textM r _ => by unfold enc encSteps; exact textS_counts r
  | .quoted v => by unfold enc encSteps; exact toStringS_counts (f := (_, _)) (enc_counts srt v)
  | .embNil _ | .unsupported => by
    unfold enc encSteps
    intro b d b' d' e h
    simp only [Out.done.injEq] at h; obtain ⟨rfl, _, _⟩ := h
    omega
  | .emb v _ => by unfold enc encSteps; exact counts_more (enc_counts srt v)

theorem stepsL_counts (srt : List MKey → Nat) : ∀ (vs : List GV), ∀ f ∈ stepsL c srt vs, Counts f.1 f.2
  | [] => by simp [stepsL]
  | v :: vs => by
    unfold stepsL
    intro f hf
    rcases List.mem_cons.1 hf with rfl | hf
    · exact enc_counts srt v
    · exact stepsL_counts srt vs f hf

theorem stepsE_counts (srt : List MKey → Nat) : ∀ (es : List (MKey × GV)), ∀ e ∈ stepsE c srt es, Counts e.2.1 e.2.2
  | [] => by simp [stepsE]
  | (k, v) :: es => by
    unfold stepsE
    intro f hf
    rcases List.mem_cons.1 hf with rfl | hf
    · exact enc_counts srt v
    · exact stepsE_counts srt es f hf

theorem stepsM_counts (srt : List MKey → Nat) : ∀ (es : List (Bytes × GV)), ∀ e ∈ stepsM c srt es, Counts e.2.1 e.2.2
  | [] => by simp [stepsM]
  | (k, v) :: es => by
    unfold stepsM
    intro f hf
    rcases List.mem_cons.1 hf with rfl | hf
    · exact enc_counts srt v
    · exact stepsM_counts srt es f hf

theorem stepsF_counts (srt : List MKey → Nat) : ∀ (fs : List (FMeta × GV)), ∀ f ∈ stepsF c srt fs, Counts f.2.2.1 f.2.2.2
  | [] => by simp [stepsF]
  | (m, v) :: fs => by
    unfold stepsF
    intro f hf
    rcases List.mem_cons.1 hf with rfl | hf
    · exact enc_counts srt v
    · exact stepsF_counts srt fs f hf

end

end

end JC
