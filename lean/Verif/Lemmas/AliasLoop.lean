import Verif.Lemmas.Alias
/-! The loops over elements and members, with and without memory. -/
namespace JC
open Spec Props

/-! ### slices -/

def sliceElemA (dec : ADec) (z : AV) (sl : Span) (input : Bytes) (n : Nat) (done mem : List AV) (b : Bytes) (m : AMem) : ARes :=
  match dec m (sl.tail b) (mem.headD z) with
  | .crash c => .crash c
  | .err x _ e m =>
    match parseValue input with
    | .fail r e2 => .err (.slice done (x :: mem.tail)) r e2 m
    | .ok _ r => .err (.slice done (x :: mem.tail)) r e m
  | .ok x r m => sliceLoopA dec z sl input n (done ++ [x]) mem.tail r m

theorem sliceLoopA_succ (dec : ADec) (z : AV) (sl : Span) (input : Bytes) (n : Nat) (done mem : List AV) (b : Bytes) (m : AMem) :
    sliceLoopA dec z sl input (n + 1) done mem b m =
      if (skipSpaces b).head? = some 0x5d then .ok (.slice done mem) (skipSpaces b).tail m
      else if done.isEmpty then sliceElemA dec z sl input n done mem (skipSpaces b) m
      else match skipSpaces b with
        | [] => .err (.slice done mem) (skipSpaces b) .syntax m
        | c :: t => if c ≠ 0x2c then .err (.slice done mem) (skipSpaces b) .syntax m
          else sliceElemA dec z sl input n done mem (skipSpaces t) m := by
  rw [sliceLoopA]
  unfold sliceElemA
  rfl

theorem suf_of_grow {m m' : AMem} (h : m <+: m') {sl : Span} (hs : m.has sl) {b : Bytes} (hb : b <:+ m.read sl) : b <:+ m'.read sl := by
  rw [read_mono h hs]; exact hb

theorem sliceLoop_sim {f : AFlags} {D : ADec} {d : Dec} (h : ASim f D d) (hd : Suff d) {z0 : AV} {z : DV} (hz : ZeroFor z0 z)
    {sl : Span} {input : Bytes} {P : AKind → Nat → Prop} : ∀ (n : Nat) (done mem : List AV) (b : Bytes) (m : AMem),
    Free f m P sl.buf → m.has sl → b <:+ m.read sl → AllLie m P (spansL done) → AllLie m P (spansL mem) →
    RSim m P (sliceLoopA D z0 sl input n done mem b m) (sliceLoop d z input n (readL m done) (readL m mem) b)
  | 0, _, _, _, _, _, _, _, _, _ => .crash _
  | n + 1, done, mem, b, m, hf, hs, hb, h1, h2 => by
    have elem : ∀ b, b <:+ m.read sl →
        RSim m P (sliceElemA D z0 sl input n done mem b m) (sliceElem d z input n (readL m done) (readL m mem) b) := by
      intro b hb
      unfold sliceElemA sliceElem
      obtain ⟨ht1, ht2⟩ := read_tail hs hb
      have hr := h m (sl.tail b) (mem.headD z0) P hf ht2 (allLie_headD hz h2)
      rw [ht1, readL_headD hz] at hr
      generalize D m (sl.tail b) (mem.headD z0) = A at hr ⊢
      generalize hB : d b ((readL m mem).headD z) = B at hr ⊢
      cases hr with
      | crash c => exact .crash c
      | @err v r e m' w g1 g2 g3 =>
        simp only []
        have fin : ∀ r e, RSim m P (.err (.slice done (v :: mem.tail)) r e m') (.err (.slice (readL m done) (w :: (readL m mem).tail)) r e) := by
          intro r e
          refine .err g1 ?_ ?_
          · simp only [AV.spans, spansL]
            exact allLie_append.2 ⟨allLie_mono g1 h1, allLie_append.2 ⟨g2, allLie_mono g1 (allLie_tail h2)⟩⟩
          · simp only [AV.read, readL, g3]
            rw [readL_mono g1 h1, readL_mono g1 (allLie_tail h2), readL_tail]
        cases parseValue input with
        | fail r e2 => exact fin _ _
        | ok _ r => exact fin _ _
      | @ok v r m' w g1 g2 g3 =>
        simp only []
        have := sliceLoop_sim (input := input) h hd hz n (done ++ [v]) mem.tail r m' (hf.mono g1) (has_mono g1 hs)
          (suf_of_grow g1 hs ((hd _ _ _ _ hB).trans hb))
          (by rw [spansL_append]; simp only [spansL, List.append_nil]; exact allLie_append.2 ⟨allLie_mono g1 h1, g2⟩)
          (allLie_mono g1 (allLie_tail h2))
        rw [readL_append, readL_mono g1 h1, readL_mono g1 (allLie_tail h2), ← readL_tail] at this
        simp only [readL, g3] at this
        exact this.grow g1
    rw [sliceLoopA_succ, sliceLoop_succ, readL_isEmpty]
    have here : AllLie m P (AV.slice done mem).spans := allLie_append.2 ⟨h1, h2⟩
    split
    · exact .same here
    · split
      · exact elem _ ((skip_suf b).trans hb)
      · cases e : skipSpaces b with
        | nil => exact .same_err here
        | cons c t =>
          simp only []
          split
          · exact .same_err here
          · exact elem _ ((skip_suf t).trans ((skip_cons_suf e).trans hb))

theorem slice_sim {f : AFlags} {D : ADec} {d : Dec} (h : ASim f D d) (hd : Suff d) {z0 : AV} {z : DV} (hz : ZeroFor z0 z) :
    ASim f (decodeSliceA D z0) (decodeSlice d z) := by
  intro m sl p P hf hs hp
  unfold decodeSliceA decodeSlice
  simp only []
  split
  · exact .ok List.prefix_rfl allLie_nil rfl
  · cases hb : m.read sl with
    | nil => exact .input hp
    | cons c t =>
      simp only []
      split
      · exact .input hp
      · have ht : t <:+ m.read sl := by rw [hb]; exact List.suffix_cons _ _
        have key : ∀ mem, AllLie m P (spansL mem) → ∀ n, RSim m P (sliceLoopA D z0 sl (c :: t) n [] mem t m) (sliceLoop d z (c :: t) n [] (readL m mem) t) :=
          fun mem hm n => sliceLoop_sim h hd hz n [] mem t m hf hs ht allLie_nil hm
        cases p with
        | slice xs sp =>
          simp only [AV.read]
          rw [← readL_append]
          exact key _ (by rw [spansL_append]; exact hp) _
        | flat v hv => cases v <;> first | exact key [] allLie_nil _ | simp [DV.flat] at hv
        | _ => exact key [] allLie_nil _

/-! ### arrays -/

def arrayElemA (dec : ADec) (z : AV) (sl : Span) (done : List AV) (n : Nat) (mem : List AV) (b : Bytes) (m : AMem) : ARes :=
  match dec m (sl.tail b) (mem.headD z) with
  | .crash c => .crash c
  | .err x r e m => .err (.array (done ++ x :: mem.tail)) r e m
  | .ok x r m => arrayElemsA dec z sl false (done ++ [x]) n mem.tail r m

theorem arrayElemsA_first (dec : ADec) (z : AV) (sl : Span) (done : List AV) (n : Nat) (mem : List AV) (b : Bytes) (m : AMem) :
    arrayElemsA dec z sl true done (n + 1) mem b m = arrayElemA dec z sl done n mem (skipSpaces b) m := by
  rw [arrayElemsA]; rfl

theorem arrayElemsA_next (dec : ADec) (z : AV) (sl : Span) (done : List AV) (n : Nat) (mem : List AV) (b : Bytes) (m : AMem) :
    arrayElemsA dec z sl false done (n + 1) mem b m =
      match skipSpaces b with
      | [] => .err (.array (done ++ mem)) (skipSpaces b) .syntax m
      | c :: t =>
        if c = 0x2c then arrayElemA dec z sl done n mem (skipSpaces t) m
        else if c = 0x5d then .ok (.array (done ++ mem)) t m
        else .err (.array (done ++ mem)) (skipSpaces b) .syntax m := by
  rw [arrayElemsA]; rfl

theorem arrayRest_sim {m : AMem} {P : AKind → Nat → Prop} {p : AV} (hp : AllLie m P p.spans) : ∀ (n : Nat) (b : Bytes),
    RSim m P (withA p m (arrayRest (.user none) n b)) (arrayRest (p.read m) n b)
  | 0, _ => .crash _
  | n + 1, b => by
    rw [arrayRest, arrayRest]
    simp only []
    cases e : skipSpaces b with
    | nil => exact .same_err hp
    | cons c t =>
      simp only []
      split
      · exact .same hp
      · generalize (if c = ch! ',' then skipSpaces t else c :: t) = b'
        cases parseValue b' with
        | fail r e => exact .same_err hp
        | ok v r => exact arrayRest_sim hp n r

theorem arrayElems_sim {f : AFlags} {D : ADec} {d : Dec} (h : ASim f D d) (hd : Suff d) {z0 : AV} {z : DV} (hz : ZeroFor z0 z)
    {sl : Span} {P : AKind → Nat → Prop} : ∀ (n : Nat) (first : Bool) (done mem : List AV) (b : Bytes) (m : AMem),
    Free f m P sl.buf → m.has sl → b <:+ m.read sl → AllLie m P (spansL done) → AllLie m P (spansL mem) →
    RSim m P (arrayElemsA D z0 sl first done n mem b m) (arrayElems d z first (readL m done) n (readL m mem) b)
  | 0, first, done, mem, b, m, _, _, _, h1, h2 => by
    have here : AllLie m P (AV.array (done ++ mem)).spans := by
      simp only [AV.spans]; rw [spansL_append]; exact allLie_append.2 ⟨h1, h2⟩
    rw [arrayElemsA, arrayElems, ← readL_append]
    exact arrayRest_sim here _ _
  | n + 1, first, done, mem, b, m, hf, hs, hb, h1, h2 => by
    have elem : ∀ b, b <:+ m.read sl →
        RSim m P (arrayElemA D z0 sl done n mem b m) (arrayElem d z (readL m done) n (readL m mem) b) := by
      intro b hb
      unfold arrayElemA arrayElem
      obtain ⟨ht1, ht2⟩ := read_tail hs hb
      have hr := h m (sl.tail b) (mem.headD z0) P hf ht2 (allLie_headD hz h2)
      rw [ht1, readL_headD hz] at hr
      generalize D m (sl.tail b) (mem.headD z0) = A at hr ⊢
      generalize hB : d b ((readL m mem).headD z) = B at hr ⊢
      cases hr with
      | crash c => exact .crash c
      | @err v r e m' w g1 g2 g3 =>
        refine .err g1 ?_ ?_
        · simp only [AV.spans]
          rw [spansL_append]
          exact allLie_append.2 ⟨allLie_mono g1 h1, allLie_append.2 ⟨g2, allLie_mono g1 (allLie_tail h2)⟩⟩
        · simp only [AV.read]
          rw [readL_append]
          simp only [readL, g3]
          rw [readL_mono g1 h1, readL_mono g1 (allLie_tail h2), readL_tail]
      | @ok v r m' w g1 g2 g3 =>
        simp only []
        have := arrayElems_sim h hd hz n false (done ++ [v]) mem.tail r m' (hf.mono g1) (has_mono g1 hs)
          (suf_of_grow g1 hs ((hd _ _ _ _ hB).trans hb))
          (by rw [spansL_append]; simp only [spansL, List.append_nil]; exact allLie_append.2 ⟨allLie_mono g1 h1, g2⟩)
          (allLie_mono g1 (allLie_tail h2))
        rw [readL_append, readL_mono g1 h1, readL_mono g1 (allLie_tail h2), ← readL_tail] at this
        simp only [readL, g3] at this
        exact this.grow g1
    have here : AllLie m P (AV.array (done ++ mem)).spans := by
      simp only [AV.spans]; rw [spansL_append]; exact allLie_append.2 ⟨h1, h2⟩
    cases first with
    | true =>
      rw [arrayElemsA_first, arrayElems_first]
      exact elem _ ((skip_suf b).trans hb)
    | false =>
      rw [arrayElemsA_next, arrayElems_next, ← readL_append]
      cases e : skipSpaces b with
      | nil => exact .same_err here
      | cons c t =>
        simp only []
        split
        · exact elem _ ((skip_suf t).trans ((skip_cons_suf e).trans hb))
        · split
          · exact .same here
          · exact .same_err here

theorem array_sim {f : AFlags} {D : ADec} {d : Dec} (h : ASim f D d) (hd : Suff d) {z0 : AV} {z : DV} (hz : ZeroFor z0 z) (n : Nat) :
    ASim f (decodeArrayA n D z0) (decodeArray n d z) := by
  intro m sl p P hf hs hp
  unfold decodeArrayA decodeArray
  simp only []
  split
  · exact .same hp
  · cases hb : m.read sl with
    | nil => exact .input hp
    | cons c t =>
      simp only []
      split
      · exact .input hp
      · have ht : t <:+ m.read sl := by rw [hb]; exact List.suffix_cons _ _
        have key : ∀ mem, AllLie m P (spansL mem) → RSim m P (arrayElemsA D z0 sl true [] n mem t m) (arrayElems d z true [] n (readL m mem) t) :=
          fun mem hm => arrayElems_sim h hd hz n true [] mem t m hf hs ht allLie_nil hm
        cases p with
        | array xs => exact key _ hp
        | flat v hv => cases v <;> first | exact key [] allLie_nil | simp [DV.flat] at hv
        | _ => exact key [] allLie_nil

/-! ### maps -/

theorem mapSet_read (m : AMem) (k : AKey) (v : AV) : ∀ (es : List (AKey × AV)),
    readE m (mapSetA m k v es) = mapSet (k.read m) (v.read m) (readE m es)
  | [] => rfl
  | (k', v') :: es => by
    simp only [mapSetA, readE, mapSet]
    split
    · rfl
    · split
      · rfl
      · simp only [readE]; rw [mapSet_read m k v es]

/-- The spans of a key. -/
def keySpans : AKey → List (AKind × Span)
  | .str s => [(.str, s)]
  | .int _ | .user _ => []

theorem spansE_cons (k : AKey) (v : AV) (es : List (AKey × AV)) : spansE ((k, v) :: es) = keySpans k ++ (v.spans ++ spansE es) := by
  cases k <;> rfl

theorem mapSet_lie {m : AMem} {P : AKind → Nat → Prop} {k : AKey} {v : AV} (hk : AllLie m P (keySpans k)) (hv : AllLie m P v.spans) :
    ∀ {es : List (AKey × AV)}, AllLie m P (spansE es) → AllLie m P (spansE (mapSetA m k v es))
  | [], _ => by
    simp only [mapSetA]; rw [spansE_cons]; exact allLie_append.2 ⟨hk, allLie_append.2 ⟨hv, allLie_nil⟩⟩
  | (k', v') :: es, h => by
    have h' := h
    rw [spansE_cons] at h'
    obtain ⟨h1, h2⟩ := allLie_append.1 h'
    obtain ⟨h2, h3⟩ := allLie_append.1 h2
    simp only [mapSetA]
    split
    · rw [spansE_cons]; exact allLie_append.2 ⟨hk, allLie_append.2 ⟨hv, h3⟩⟩
    · split
      · rw [spansE_cons]; exact allLie_append.2 ⟨hk, allLie_append.2 ⟨hv, h⟩⟩
      · rw [spansE_cons]; exact allLie_append.2 ⟨h1, allLie_append.2 ⟨h2, mapSet_lie hk hv h3⟩⟩

/-- The flat decoder of integers. -/
theorem int_flat (k : IntKind) : FlatDec (decodeInt k) := by
  constructor
  · intro b p v r h
    unfold decodeInt at h
    split at h
    · injection h with h; exact .inr h.symm
    · simp only [] at h
      split at h
      · injection h with h; subst h; exact .inl rfl
      · simp at h
  · intro b p v r e h
    unfold decodeInt at h
    split at h
    · simp at h
    · simp only [] at h
      split at h
      · simp at h
      · injection h with h; exact .inr h.symm

/-- What a key decoder stores: a text, an integer, or a key of a type with methods. -/
def IsKey : AV → Prop
  | .string _ => True
  | .flat v _ => (∃ z, v = .int z) ∨ ∃ s, v = .user s
  | _ => False

theorem keyOf_read {m : AMem} {v : AV} (h : IsKey v) : (keyOfA v).read m = keyOf (v.read m) := by
  cases v with
  | string s => rfl
  | flat v hv =>
    rcases h with ⟨z, rfl⟩ | ⟨s, rfl⟩
    · rfl
    · cases s <;> simp [keyOfA, AKey.read, AV.read, keyOf, AMem.read, Span.nil]
  | _ => exact h.elim

theorem keyOf_lie {m : AMem} {P : AKind → Nat → Prop} {v : AV} (h : AllLie m P v.spans) (hk : IsKey v) : AllLie m P (keySpans (keyOfA v)) := by
  cases v with
  | string s => exact h
  | flat v hv =>
    rcases hk with ⟨z, rfl⟩ | ⟨s, rfl⟩
    · exact allLie_nil
    · cases s with
      | none => exact allLie_cons.2 ⟨.inl rfl, allLie_nil⟩
      | some s => exact allLie_nil
  | _ => exact hk.elim

theorem stringA_key {f : AFlags} {m m' : AMem} {sl : Span} {v : AV} {r : Bytes} (h : decodeStringA f m sl (.string .nil) = .ok v r m') : IsKey v := by
  unfold decodeStringA at h
  simp only [] at h
  split at h
  · injection h with h; subst h; trivial
  · split at h
    · simp at h
    · split at h <;> simp [inputErrA] at h
    · split at h
      · injection h with h; subst h; trivial
      · injection h with h; subst h; trivial

theorem intA_key {k : IntKind} {m m' : AMem} {sl : Span} {v : AV} {r : Bytes}
    (h : liftA (decodeInt k) m sl (.flat (.int 0) rfl) = .ok v r m') : IsKey v := by
  unfold liftA at h
  simp only [AV.read] at h
  generalize hr : decodeInt k (m.read sl) (.int 0) = R at h
  cases R with
  | crash c => simp at h
  | err _ _ _ => simp at h
  | ok w r =>
    simp only [ARes.ok.injEq] at h
    obtain ⟨h, _, _⟩ := h
    subst h
    have : ∃ z, w = .int z := by
      unfold decodeInt at hr
      split at hr
      · injection hr with hr; exact ⟨0, hr.symm⟩
      · simp only [] at hr
        split at hr
        · injection hr with hr; exact ⟨_, hr.symm⟩
        · simp at hr
    obtain ⟨z, rfl⟩ := this
    exact .inl ⟨z, rfl⟩

theorem textU_flat (g : Bytes → Option Err) : FlatDec (decodeTextUnmarshaler g) := by
  constructor
  · intro b p v r h
    unfold decodeTextUnmarshaler at h
    repeat' split at h
    all_goals first | (injection h with h; first | exact .inr h.symm | (subst h; exact .inl rfl)) | (simp [inputErr] at h)
  · intro b p v r e h
    unfold decodeTextUnmarshaler at h
    repeat' split at h
    all_goals first | (simp only [inputErr, DRes.err.injEq] at h; exact .inr h.1.symm) | (injection h with h; exact .inr h.symm) | (simp at h)

theorem textKey_ok {tk : TextKey} {b : Bytes} {v : DV} {r : Bytes} (h : decodeKey (.text tk) b = .ok v r) : ∃ s, v = .user s := by
  obtain ⟨y, h1, rfl⟩ := decodeKey_text_ok h
  obtain ⟨_, _, ⟨rfl, _⟩ | ⟨s, _, _, _, _, rfl⟩⟩ := textU_inv h1
  · exact ⟨none, rfl⟩
  · exact ⟨some (tk.key s), rfl⟩

theorem textKey_flat (tk : TextKey) : FlatDec (fun b _ => decodeKey (.text tk) b) := by
  constructor
  · intro b p v r h
    obtain ⟨s, rfl⟩ := textKey_ok h
    exact .inl rfl
  · intro b p v r e h
    simp only [decodeKey] at h
    split at h
    · simp at h
    · rename_i e
      injection h with h _ _; subst h
      rcases (textU_flat tk.answer).2 _ _ _ _ _ e with h | rfl
      · exact .inl h
      · exact .inl rfl
    · simp at h

theorem decodeKeyA_key {f : AFlags} {k : KTy} {m m' : AMem} {sl : Span} {v : AV} {r : Bytes} (h : decodeKeyA f k m sl = .ok v r m') : IsKey v := by
  cases k with
  | str => exact stringA_key h
  | int k =>
    simp only [decodeKeyA] at h
    unfold decodeFromStringA at h
    simp only [] at h
    split at h
    · exact intA_key h
    · split at h
      · simp at h
      · simp [inputErrA] at h
      · split at h
        · simp at h
        · simp at h
        · rename_i hr
          split at h
          · simp at h
          · injection h with h; subst h; exact intA_key hr
  | text tk =>
    simp only [decodeKeyA] at h
    unfold liftA at h
    simp only [] at h
    split at h
    · rename_i hr
      obtain ⟨s, rfl⟩ := textKey_ok hr
      injection h with h; subst h
      exact .inr ⟨s, rfl⟩
    · simp at h
    · simp at h

theorem decodeKey_sim {f : AFlags} {k : KTy} {m : AMem} {sl : Span} {P : AKind → Nat → Prop} (hf : Free f m P sl.buf) (hs : m.has sl) :
    RSim m P (decodeKeyA f k m sl) (decodeKey k (m.read sl)) := by
  cases k with
  | str =>
    have := string_sim m sl (.string .nil) P hf hs (allLie_cons.2 ⟨.inl rfl, allLie_nil⟩)
    simp only [AV.read, read_zero (m := m) (s := .nil) rfl] at this
    exact this
  | int k => exact fromString_sim (lift_sim (int_flat k)) m sl (.flat (.int 0) rfl) P hf hs allLie_nil
  | text tk => exact lift_sim (textKey_flat tk) m sl (.flat (.user none) rfl) P hf hs allLie_nil

/-- Agreement of comma, key and colon. -/
inductive KSim (m : AMem) (P : AKind → Nat → Prop) : AKRes → Crash ⊕ (Bytes × Err) ⊕ (DV × Bytes) → Prop where
  | ok {v : AV} {r : Bytes} {m' : AMem} {w : DV} : m <+: m' → AllLie m' P v.spans → IsKey v → v.read m' = w →
    KSim m P (.ok v r m') (.inr (.inr (w, r)))
  | err {r : Bytes} {e : Err} {m' : AMem} : m <+: m' → KSim m P (.err r e m') (.inr (.inl (r, e)))
  | crash (c : Crash) : KSim m P (.crash c) (.inl c)

theorem memberKey_sim {f : AFlags} {k : KTy} {m : AMem} {sl : Span} {P : AKind → Nat → Prop} (hf : Free f m P sl.buf) (hs : m.has sl)
    {first : Bool} {b : Bytes} (hb : b <:+ m.read sl) : KSim m P (memberKeyA (decodeKeyA f k) m sl first b) (memberKey (decodeKey k) first b) := by
  have one : ∀ b, b <:+ m.read sl → KSim m P (memberKeyRest (decodeKeyA f k) m sl b) (memberKey (decodeKey k) true b) := by
    intro b hb
    unfold memberKeyRest memberKey
    simp only [if_true]
    split
    · exact .err List.prefix_rfl
    · obtain ⟨ht1, ht2⟩ := read_tail hs hb
      have hr := decodeKey_sim (k := k) (sl := sl.tail b) hf ht2
      rw [ht1] at hr
      generalize hA : decodeKeyA f k m (sl.tail b) = A at hr ⊢
      generalize decodeKey k b = B at hr ⊢
      cases hr with
      | crash c => exact .crash c
      | err g1 g2 g3 => exact .err g1
      | @ok v r m' w g1 g2 g3 =>
        simp only []
        cases skipSpaces r with
        | nil => exact .err g1
        | cons c t =>
          simp only []
          split
          · exact .err g1
          · exact .ok g1 g2 (decodeKeyA_key hA) g3
  cases first with
  | true => simpa [memberKeyA] using one b hb
  | false =>
    cases b with
    | nil => exact .err List.prefix_rfl
    | cons c t =>
      by_cases hc : c = ch! ','
      · subst hc
        rw [memberKey_comma]
        simp only [memberKeyA, Bool.false_eq_true, if_false, ne_eq, not_true_eq_false]
        exact one _ ((skip_suf t).trans ((List.suffix_cons _ _).trans hb))
      · simp only [memberKeyA, memberKey, Bool.false_eq_true, if_false, ne_eq, hc, not_false_eq_true, if_true]
        exact .err List.prefix_rfl

theorem memberKey_suf' {k : KTy} {first : Bool} {b : Bytes} {d : DV} {r : Bytes}
    (h : memberKey (decodeKey k) first b = .inr (.inr (d, r))) : r <:+ b :=
  memberKey_suf (fun _ _ _ => decodeKey_suf) h

theorem mapLoop_sim {f : AFlags} {D : ADec} {d : Dec} (h : ASim f D d) (hd : Suff d) {z0 : AV} {z : DV} (hz : ZeroFor z0 z) {k : KTy}
    {sl : Span} {input : Bytes} {p : AV} {fresh : Bool} {q : DV} {P : AKind → Nat → Prop} : ∀ (n : Nat) (first : Bool) (es : List (AKey × AV)) (b : Bytes) (m : AMem),
    Free f m P sl.buf → m.has sl → b <:+ m.read sl → AllLie m P p.spans → p.read m = q → AllLie m P (spansE es) →
    RSim m P (mapLoopA f k D z0 p fresh sl input n first es b m) (mapLoopD k d z q fresh input n first (readE m es) b)
  | 0, _, _, _, _, _, _, _, _, _, _ => .crash _
  | n + 1, first, es, b, m, hf, hs, hb, hp, hq, he => by
    rw [mapLoopA, mapLoopD]
    simp only []
    have here : AllLie m P (AV.map es).spans := he
    split
    · exact .same here
    · have dest : ∀ m', m <+: m' → AllLie m' P (if fresh then p else AV.map es).spans ∧
          (if fresh then p else AV.map es).read m' = if fresh then q else .map (readE m es) := by
        intro m' g
        cases fresh with
        | true => exact ⟨allLie_mono g hp, (av_read_mono g hp).trans hq⟩
        | false => exact ⟨allLie_mono g here, av_read_mono g here⟩
      have hb2 := (skip_suf b).trans hb
      have hk := memberKey_sim (k := k) (first := first) hf hs hb2
      generalize memberKeyA (decodeKeyA f k) m sl first (skipSpaces b) = A at hk ⊢
      generalize hB : memberKey (decodeKey k) first (skipSpaces b) = B at hk ⊢
      cases hk with
      | crash c => exact .crash c
      | err g => exact .err g (dest _ g).1 (dest _ g).2
      | @ok kv r m1 w g1 g2 g3 g4 =>
        simp only []
        have hs1 := has_mono g1 hs
        have hb3 : r <:+ m1.read sl := suf_of_grow g1 hs ((memberKey_suf' hB).trans hb2)
        obtain ⟨ht1, ht2⟩ := read_tail hs1 hb3
        have hr := h m1 (sl.tail r) z0 P (hf.mono g1) ht2 (hz.2 _ _)
        rw [ht1, hz.1] at hr
        generalize D m1 (sl.tail r) z0 = A at hr ⊢
        generalize hC : d r z = C at hr ⊢
        cases hr with
        | crash c => exact .crash c
        | err i1 i2 i3 =>
          simp only []
          cases parseValue input with
          | fail r e2 => exact .err (g1.trans i1) (dest _ (g1.trans i1)).1 (dest _ (g1.trans i1)).2
          | ok _ r => exact .err (g1.trans i1) (dest _ (g1.trans i1)).1 (dest _ (g1.trans i1)).2
        | @ok v r2 m2 w2 i1 i2 i3 =>
          simp only []
          have g12 := g1.trans i1
          have := mapLoop_sim (k := k) (input := input) (fresh := fresh) h hd hz n false (mapSetA m2 (keyOfA kv) v es) r2 m2 (hf.mono g12) (has_mono g12 hs)
            (suf_of_grow i1 hs1 ((hd _ _ _ _ hC).trans hb3)) (allLie_mono g12 hp) ((av_read_mono g12 hp).trans hq)
            (mapSet_lie (keyOf_lie (allLie_mono i1 g2) g3) i2 (allLie_mono g12 he))
          rw [mapSet_read, keyOf_read g3, av_read_mono i1 g2, g4, i3, readE_mono g12 he] at this
          exact this.grow g12

theorem map_sim {f : AFlags} {D : ADec} {d : Dec} (h : ASim f D d) (hd : Suff d) {z0 : AV} {z : DV} (hz : ZeroFor z0 z) {k : KTy} :
    ASim f (decodeMapA f k D z0) (decodeMap k d z) := by
  intro m sl p P hf hs hp
  unfold decodeMapA decodeMap
  simp only []
  split
  · exact .ok List.prefix_rfl allLie_nil rfl
  · cases hb : m.read sl with
    | nil => exact .input hp
    | cons c t =>
      simp only []
      split
      · exact .input hp
      · have ht : t <:+ m.read sl := by rw [hb]; exact List.suffix_cons _ _
        have key : ∀ fresh es, AllLie m P (spansE es) → ∀ n, RSim m P (mapLoopA f k D z0 p fresh sl (c :: t) n true es t m)
            (mapLoopD k d z (p.read m) fresh (c :: t) n true (readE m es) t) :=
          fun fresh es he n => mapLoop_sim h hd hz n true es t m hf hs ht hp rfl he
        cases p with
        | map es => exact key false es hp _
        | flat v hv => cases v <;> first | exact key true [] allLie_nil _ | simp [DV.flat] at hv
        | _ => exact key true [] allLie_nil _

/-! ### structs -/

def structFieldA (c : DCfg) (names : List Bytes) (decs : List ADec) (sl : Span) (input : Bytes) (n : Nat) (fs : List AV) (k b : Bytes) (m : AMem) : ARes :=
  match pickField c names k with
  | none =>
    if c.disallowUnknown then .err (.struct fs) b (.other 2) m
    else match parseValue b with
      | .fail r e => .err (.struct fs) r e m
      | .ok _ r => structLoopA c names decs sl input n false fs r m
  | some i =>
    match decs[i]? with
    | none => .crash .panic
    | some dec =>
      match dec m (sl.tail b) (fs.getD i (.flat (.user none) rfl)) with
      | .crash c => .crash c
      | .err x _ e m =>
        match parseValue input with
        | .fail r e2 => .err (.struct (fs.set i x)) r e2 m
        | .ok _ r => .err (.struct (fs.set i x)) r e m
      | .ok x r m => structLoopA c names decs sl input n false (fs.set i x) r m

theorem structLoopA_succ {c : DCfg} {names : List Bytes} {decs : List ADec} {sl : Span} {input : Bytes} {n : Nat} {first : Bool} {fs : List AV}
    {b : Bytes} {m : AMem} :
    structLoopA c names decs sl input (n + 1) first fs b m =
      if (skipSpaces b).head? = some 0x7d then .ok (.struct fs) (skipSpaces b).tail m
      else match memberKey fieldKey first (skipSpaces b) with
        | .inl c => .crash c
        | .inr (.inl (r, e)) => .err (.struct fs) r e m
        | .inr (.inr (kv, b)) => structFieldA c names decs sl input n fs (keyStr kv) b m := by
  rw [structLoopA]; rfl

theorem readL_getD (m : AMem) : ∀ (fs : List AV) (i : Nat), (fs.getD i (.flat (.user none) rfl)).read m = (readL m fs).getD i (.user none)
  | [], _ => rfl
  | _ :: _, 0 => rfl
  | _ :: vs, i + 1 => readL_getD m vs i

theorem readL_set (m : AMem) (x : AV) : ∀ (fs : List AV) (i : Nat), readL m (fs.set i x) = (readL m fs).set i (x.read m)
  | [], _ => rfl
  | _ :: _, 0 => rfl
  | v :: vs, i + 1 => by
    show v.read m :: readL m (vs.set i x) = v.read m :: (readL m vs).set i (x.read m)
    rw [readL_set m x vs i]

theorem allLie_getD {m : AMem} {P : AKind → Nat → Prop} : ∀ {fs : List AV} (i : Nat), AllLie m P (spansL fs) →
    AllLie m P (fs.getD i (.flat (.user none) rfl)).spans
  | [], _, _ => allLie_nil
  | _ :: _, 0, h => (allLie_append.1 h).1
  | _ :: vs, i + 1, h => allLie_getD (fs := vs) i (allLie_append.1 h).2

theorem allLie_set {m : AMem} {P : AKind → Nat → Prop} {x : AV} (hx : AllLie m P x.spans) : ∀ {fs : List AV} (i : Nat), AllLie m P (spansL fs) →
    AllLie m P (spansL (fs.set i x))
  | [], _, h => h
  | _ :: _, 0, h => allLie_append.2 ⟨hx, (allLie_append.1 h).2⟩
  | _ :: vs, i + 1, h => allLie_append.2 ⟨(allLie_append.1 h).1, allLie_set hx (fs := vs) i (allLie_append.1 h).2⟩

/-- The decoders of the fields agree. -/
def FSim (f : AFlags) (Ds : List ADec) (ds : List Dec) : Prop :=
  ∀ (i : Nat), (Ds[i]? = none ∧ ds[i]? = none) ∨ ∃ D d, Ds[i]? = some D ∧ ds[i]? = some d ∧ ASim f D d

theorem structLoop_sim {f : AFlags} {c : DCfg} {names : List Bytes} {Ds : List ADec} {ds : List Dec} (h : FSim f Ds ds) (hd : ∀ d ∈ ds, Suff d)
    {sl : Span} {input : Bytes} {P : AKind → Nat → Prop} : ∀ (n : Nat) (first : Bool) (fs : List AV) (b : Bytes) (m : AMem),
    Free f m P sl.buf → m.has sl → b <:+ m.read sl → AllLie m P (spansL fs) →
    RSim m P (structLoopA c names Ds sl input n first fs b m) (structLoopD c names ds input n first (readL m fs) b)
  | 0, _, _, _, _, _, _, _, _ => .crash _
  | n + 1, first, fs, b, m, hf, hs, hb, h1 => by
    have here : AllLie m P (AV.struct fs).spans := h1
    have field : ∀ k b, b <:+ m.read sl → RSim m P (structFieldA c names Ds sl input n fs k b m) (structField c names ds input n (readL m fs) k b) := by
      intro k b hb
      unfold structFieldA structField
      cases pickField c names k with
      | none =>
        simp only []
        split
        · exact .same_err here
        · cases hv : parseValue b with
          | fail r e => exact .same_err here
          | ok v r => exact structLoop_sim h hd n false fs r m hf hs ((parseValue_suf hv).trans hb) h1
      | some i =>
        simp only []
        rcases h i with ⟨e1, e2⟩ | ⟨D, d, e1, e2, hD⟩
        · rw [e1, e2]; exact .crash _
        · rw [e1, e2]
          simp only []
          obtain ⟨ht1, ht2⟩ := read_tail hs hb
          have hr := hD m (sl.tail b) (fs.getD i (.flat (.user none) rfl)) P hf ht2 (allLie_getD i h1)
          rw [ht1, readL_getD] at hr
          generalize D m (sl.tail b) (fs.getD i (.flat (.user none) rfl)) = A at hr ⊢
          generalize hB : d b ((readL m fs).getD i (.user none)) = B at hr ⊢
          cases hr with
          | crash c => exact .crash c
          | @err v r e m' w g1 g2 g3 =>
            simp only []
            have fin : ∀ r e, RSim m P (.err (.struct (fs.set i v)) r e m') (.err (.struct ((readL m fs).set i w)) r e) := by
              intro r e
              refine .err g1 (allLie_set g2 i (allLie_mono g1 h1)) ?_
              simp only [AV.read]
              rw [readL_set, g3, readL_mono g1 h1]
            cases parseValue input with
            | fail r e2 => exact fin _ _
            | ok _ r => exact fin _ _
          | @ok v r m' w g1 g2 g3 =>
            simp only []
            have := structLoop_sim (c := c) (names := names) (input := input) h hd n false (fs.set i v) r m' (hf.mono g1) (has_mono g1 hs)
              (suf_of_grow g1 hs ((hd _ (List.mem_of_getElem? e2) _ _ _ _ hB).trans hb)) (allLie_set g2 i (allLie_mono g1 h1))
            rw [readL_set, g3, readL_mono g1 h1] at this
            exact this.grow g1
    rw [structLoopA_succ, structLoopD_succ]
    split
    · exact .same here
    · have hb2 := (skip_suf b).trans hb
      cases hk : memberKey fieldKey first (skipSpaces b) with
      | inl c => exact .crash c
      | inr y =>
        cases y with
        | inl x => exact .same_err here
        | inr x =>
          obtain ⟨kv, r⟩ := x
          exact field (keyStr kv) r ((memberKey_suf (fun _ _ _ => fieldKey_suf) hk).trans hb2)

theorem struct_sim {f : AFlags} {cf : DCfg} {names : List Bytes} {Ds : List ADec} {ds : List Dec} (h : FSim f Ds ds) (hd : ∀ d ∈ ds, Suff d) :
    ASim f (decodeStructA cf names Ds) (decodeStruct cf names ds) := by
  intro m sl p P hf hs hp
  unfold decodeStructA decodeStruct
  simp only []
  split
  · exact .same hp
  · cases hb : m.read sl with
    | nil => exact .input hp
    | cons c t =>
      simp only []
      split
      · exact .input hp
      · have ht : t <:+ m.read sl := by rw [hb]; exact List.suffix_cons _ _
        have key : ∀ fs, AllLie m P (spansL fs) → ∀ n, RSim m P (structLoopA cf names Ds sl (c :: t) n true fs t m)
            (structLoopD cf names ds (c :: t) n true (readL m fs) t) :=
          fun fs hm n => structLoop_sim h hd n true fs t m hf hs ht hm
        cases p with
        | struct fs => exact key _ hp _
        | flat v hv => cases v <;> first | exact key [] allLie_nil _ | simp [DV.flat] at hv
        | _ => exact key [] allLie_nil _

end JC
