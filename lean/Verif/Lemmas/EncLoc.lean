import Verif.Model.Encode
/-! Every encoding function only appends to its buffer, and what it appends
does not depend on the buffer. -/
namespace JC
open Spec

/-- Put bytes in front of the resulting buffer. -/
def Out.prepend (p : Bytes) : Out → Out
  | .done b d e => .done (p ++ b) d e
  | .panic => .panic

/-- Bytes in front of the buffer pass through. -/
def Loc (f : Enc) : Prop := ∀ p b d, f (p ++ b) d = (f b d).prepend p

theorem take_add_append (p x : Bytes) (n : Nat) : (p ++ x).take (p.length + n) = p ++ x.take n := List.take_length_add_append n

theorem appendNull_app (c : Option Colors) (p b : Bytes) : appendNull c (p ++ b) = p ++ appendNull c b := by
  cases c <;> simp [appendNull]

theorem appendPunc_app (c : Option Colors) (p b : Bytes) (v : UInt8) :
    appendPunc c (p ++ b) v = p ++ appendPunc c b v := by
  cases c <;> simp [appendPunc]

theorem appendByte_app (c : Cfg) (p b : Bytes) (v : UInt8) : c.appendByte (p ++ b) v = p ++ c.appendByte b v := by
  unfold Cfg.appendByte; repeat' split
  all_goals simp

theorem appendIndent_app (c : Cfg) (d : Int) (p b : Bytes) :
    c.appendIndent d (p ++ b) = p ++ c.appendIndent d b := by
  unfold Cfg.appendIndent; repeat' split
  all_goals simp

theorem loc_pure {g : Bytes → Bytes} (h : ∀ p b, g (p ++ b) = p ++ g b) : Loc fun b d => .done (g b) d none := by
  intro p b d; simp only [h, Out.prepend]

theorem loc_null (c : Option Colors) : Loc fun b d => .done (appendNull c b) d none := loc_pure (appendNull_app c)

theorem loc_bool (c : Option Colors) (v : Bool) : Loc fun b d => .done (appendBool c b v) d none := by
  apply loc_pure; intro p b; cases c <;> cases v <;> simp [appendBool]

theorem loc_int (c : Option Colors) (z : Int) : Loc fun b d => .done (appendInt64 c b z) d none := by
  apply loc_pure; intro p b; cases c <;> simp [appendInt64]

theorem loc_uint (c : Option Colors) (n : Nat) : Loc fun b d => .done (appendUint64 c b n) d none := by
  apply loc_pure; intro p b; cases c <;> simp [appendUint64]

theorem loc_err (e : Err) : Loc fun b d => .done b d (some e) := by intro p b d; rfl

theorem loc_colored (c : Cfg) (clr : Colors → Bytes) {f : Enc} (h : Loc f) : Loc (colored c clr f) := by
  intro p b d
  unfold colored
  cases c.clrs with
  | none => exact h p b d
  | some cl =>
    simp only []
    rw [List.append_assoc, h]
    cases f (b ++ clr cl) d <;> simp [Out.prepend]

theorem floatFmt_len {text : Bytes} (h : FloatFmt true text) : 4 ≤ text.length := by
  generalize hb : true = b at h
  cases h with
  | f => cases hb
  | e sgn d fr es ds _ _ _ he _ h2 => rcases he with rfl | rfl <;> (simp; omega)

theorem loc_float (f : Flt) : Loc (encodeFloat f) := by
  intro p b d
  cases f with
  | nan => rfl
  | inf => rfl
  | fin expo text ok =>
    cases expo with
    | false => simp [encodeFloat, Out.prepend]
    | true =>
      have hl := floatFmt_len ok
      have hg : ∀ k ≤ 4, 0 < k → (p ++ b ++ text)[(p ++ b ++ text).length - k]? = (b ++ text)[(b ++ text).length - k]? := by
        intro k hk hk0
        rw [List.append_assoc, List.getElem?_append_right (by simp; omega)]
        congr 1; simp; omega
      have hd : (p ++ b ++ text).getD ((p ++ b ++ text).length - 1) 0 = (b ++ text).getD ((b ++ text).length - 1) 0 := by
        rw [List.getD_eq_getElem?_getD, List.getD_eq_getElem?_getD, hg 1 (by omega) (by omega)]
      have hset : ∀ x, ((p ++ b ++ text).set ((p ++ b ++ text).length - 2) x).take ((p ++ b ++ text).length - 1) =
          p ++ ((b ++ text).set ((b ++ text).length - 2) x).take ((b ++ text).length - 1) := by
        intro x
        rw [List.append_assoc p b text, List.set_append_right _ _ (by simp; omega)]
        have e1 : (p ++ (b ++ text)).length - 2 - p.length = (b ++ text).length - 2 := by simp; omega
        have e2 : (p ++ (b ++ text)).length - 1 = p.length + ((b ++ text).length - 1) := by simp; omega
        rw [e1, e2, take_add_append]
      simp only [encodeFloat, if_true]
      rw [hg 4 (by omega) (by omega), hg 3 (by omega) (by omega), hg 2 (by omega) (by omega), hd]
      have c1 : (p ++ b ++ text).length ≥ 4 ↔ (b ++ text).length ≥ 4 := by simp; omega
      simp only [c1, hset]
      split <;> simp [Out.prepend]

theorem loc_number (c : Cfg) (s : Bytes) : Loc (encodeNumber c s) := by
  intro p b d
  simp only [encodeNumber]
  split
  · rfl
  · cases c.clrs <;> simp [Out.prepend]

theorem loc_str (c : Cfg) (s : Bytes) : Loc (encStr c s) := by
  intro p b d; simp [encStr, doEncodeString, Out.prepend]

theorem loc_toString (c : Cfg) {f : Enc} (h : Loc f) : Loc (encodeToString c f) := by
  have key : ∀ b d, encodeToString c f b d = match f [] d with
      | .panic => .panic
      | .done s d (some e) => .done (b ++ s) d (some e)
      | .done s d none => .done (b ++ doEncodeString c.escapeHTML [] s) d none := by
    intro b d
    have h1 := h b [] d
    rw [List.append_nil] at h1
    simp only [encodeToString, h1]
    cases f [] d with
    | panic => rfl
    | done s d e =>
      cases e with
      | some e => rfl
      | none =>
        simp only [Out.prepend, doEncodeString, List.nil_append, List.drop_left, Out.done.injEq, and_true]
        rw [List.append_assoc b s, List.take_left]
  intro p b d
  rw [key, key]
  cases f [] d with
  | panic => rfl
  | done s d e => cases e <;> simp [Out.prepend]

theorem loc_bytes (c : Cfg) (v : Option Bytes) : Loc (doEncodeBytes c v) := by
  intro p b d
  cases v with
  | none => simp [doEncodeBytes, appendNull_app, Out.prepend]
  | some v => simp [doEncodeBytes, Out.prepend]

theorem loc_time (c : Cfg) (s : Bytes) : Loc (encodeTime c s) := by
  intro p b d
  simp only [encodeTime]
  cases c.clrs <;> simp [Out.prepend]

theorem arrayLoop_app (c : Cfg) (start : Nat) (first : Bool) (fs : List Enc) (h : ∀ f ∈ fs, Loc f)
    (p b : Bytes) (d : Int) :
    arrayLoop c (p.length + start) first fs (p ++ b) d = (arrayLoop c start first fs b d).prepend p := by
  induction fs generalizing first b d with
  | nil => rfl
  | cons f fs ih =>
    simp only [arrayLoop]
    have e : (c.appendIndent d (c.appendByte (if first = true then p ++ b else appendPunc c.clrs (p ++ b) 44) 10)) =
        p ++ (c.appendIndent d (c.appendByte (if first = true then b else appendPunc c.clrs b 44) 10)) := by
      cases first <;> simp [appendPunc_app, appendByte_app, appendIndent_app]
    rw [e, h f (by simp)]
    cases f (c.appendIndent d (c.appendByte (if first = true then b else appendPunc c.clrs b 44) 10)) d with
    | panic => rfl
    | done b' d' e' =>
      cases e' with
      | some e' => simp only [Out.prepend, take_add_append]
      | none => simp only [Out.prepend]; exact ih _ (fun f hf => h f (by simp [hf])) _ _

theorem loc_array (c : Cfg) {fs : List Enc} (h : ∀ f ∈ fs, Loc f) : Loc (encodeArray c fs) := by
  intro p b d
  simp only [encodeArray]
  split
  · rw [appendPunc_app, List.length_append, arrayLoop_app c _ _ _ h]
    cases arrayLoop c b.length true fs (appendPunc c.clrs b 91) (c.push d) with
    | panic => rfl
    | done b' d' e' => cases e' <;> simp [Out.prepend, appendPunc_app, appendByte_app, appendIndent_app]
  · simp [Out.prepend, appendPunc_app]

theorem loc_text (c : Cfg) (r : TextRes) : Loc (encodeTextMarshaler c r) := by
  intro p b d
  cases r with
  | isNil => simp [encodeTextMarshaler, appendNull_app, Out.prepend]
  | err => rfl
  | absent => rfl
  | ok s => exact loc_colored c _ (loc_str c s) p b d

theorem loc_key (c : Cfg) (s : Bytes) : Loc (encodeKey c s) := loc_colored c _ (loc_str c s)

theorem loc_mkey (c : Cfg) (k : MKey) : Loc (encodeMKey c k) := by
  cases k with
  | str s => exact loc_key c s
  | int z => exact loc_toString c (loc_int _ z)
  | uint n => exact loc_toString c (loc_uint _ n)
  | text r => exact loc_text c r

theorem sep_app (c : Cfg) (first : Bool) (p b : Bytes) (d : Int) :
    c.appendIndent d (if first = true then p ++ b else c.appendByte (appendPunc c.clrs (p ++ b) 44) 10) =
    p ++ c.appendIndent d (if first = true then b else c.appendByte (appendPunc c.clrs b 44) 10) := by
  cases first <;> simp [appendPunc_app, appendByte_app, appendIndent_app]

theorem mapLoop_app (c : Cfg) (start : Nat) (first : Bool) (es : List (MKey × Enc)) (h : ∀ e ∈ es, Loc e.2)
    (p b : Bytes) (d : Int) :
    mapLoop c (p.length + start) first es (p ++ b) d = (mapLoop c start first es b d).prepend p := by
  induction es generalizing first b d with
  | nil => rfl
  | cons e es ih =>
    obtain ⟨k, f⟩ := e
    simp only [mapLoop]
    rw [sep_app, loc_mkey c k]
    generalize hq : encodeMKey c k _ d = q
    cases q with
    | panic => rfl
    | done b' d' e' =>
      cases e' with
      | some e' => simp only [Out.prepend, take_add_append]
      | none =>
        simp only [Out.prepend]
        rw [appendPunc_app, appendByte_app, show Loc f from h (k, f) (by simp)]
        generalize hq : f _ d' = q
        cases q with
        | panic => rfl
        | done b' d' e' =>
          cases e' with
          | some e' => simp only [Out.prepend, take_add_append]
          | none => simp only [Out.prepend]; exact ih _ (fun e he => h e (by simp [he])) _ _

theorem mem_insertBy {α : Type} (key : α → Bytes) (x y : α) (l : List α) : y ∈ insertBy key x l ↔ y = x ∨ y ∈ l := by
  induction l with
  | nil => simp [insertBy]
  | cons z l ih =>
    simp only [insertBy]
    split
    · simp only [List.mem_cons, ih]
      constructor <;> (rintro (h | h | h) <;> simp [h])
    · simp

theorem mem_sortBy {α : Type} (key : α → Bytes) (y : α) (l : List α) : y ∈ sortBy key l ↔ y ∈ l := by
  induction l with
  | nil => simp [sortBy]
  | cons z l ih => simp [sortBy, mem_insertBy, ih]

theorem loc_map (c : Cfg) {es : List (MKey × Enc)} (h : ∀ e ∈ es, Loc e.2) : Loc (encodeMap c es) := by
  intro p b d
  simp only [encodeMap]
  split
  · rfl
  · generalize hes : (if c.sortMapKeys = true then sortBy (fun e => e.fst.sortText) es else es) = es'
    have h' : ∀ e ∈ es', Loc e.2 := by
      rw [← hes]
      split
      · intro e he; exact h e ((mem_sortBy _ _ _).1 he)
      · exact h
    split
    · rw [appendPunc_app, appendByte_app, List.length_append, mapLoop_app c _ _ _ h']
      generalize mapLoop c _ true es' _ _ = q
      cases q with
      | panic => rfl
      | done b' d' e' => cases e' <;> simp [Out.prepend, appendPunc_app, appendByte_app, appendIndent_app]
    · simp [Out.prepend, appendPunc_app]

def LoopR.prepend (p : Bytes) : LoopR → LoopR
  | .fin b d => .fin (p ++ b) d
  | .brk b d e => .brk (p ++ b) d e
  | .panic => .panic

theorem strLoop_app (c : Cfg) (first : Bool) (es : List (Bytes × Enc)) (h : ∀ e ∈ es, Loc e.2)
    (p b : Bytes) (d : Int) :
    strLoop c first es (p ++ b) d = (strLoop c first es b d).prepend p := by
  induction es generalizing first b d with
  | nil => rfl
  | cons e es ih =>
    obtain ⟨k, f⟩ := e
    simp only [strLoop]
    rw [sep_app, loc_key c k]
    generalize hq : encodeKey c k _ d = q
    cases q with
    | panic => rfl
    | done b' d' e' =>
      simp only [Out.prepend]
      rw [appendPunc_app, appendByte_app, show Loc f from h (k, f) (by simp)]
      generalize hq : f _ d' = q
      cases q with
      | panic => rfl
      | done b' d' e' =>
        cases e' with
        | some e' => rfl
        | none => simp only [Out.prepend]; exact ih _ (fun e he => h e (by simp [he])) _ _

theorem strTail_app (c : Cfg) (p b : Bytes) (d : Int) :
    strTail c (p ++ b) d = (p ++ (strTail c b d).1, (strTail c b d).2) := by
  simp [strTail, appendByte_app, appendIndent_app]

theorem loc_mapSIUnsorted (c : Cfg) {es : List (Bytes × Enc)} (h : ∀ e ∈ es, Loc e.2) : Loc (mapSIUnsorted c es) := by
  intro p b d
  simp only [mapSIUnsorted]
  split
  · rw [appendPunc_app, appendByte_app, strLoop_app c _ _ h]
    generalize strLoop c true es _ _ = q
    cases q <;> simp [LoopR.prepend, Out.prepend, strTail_app, appendPunc_app]
  · simp [Out.prepend, appendPunc_app]

theorem loc_mapRawUnsorted (c : Cfg) {es : List (Bytes × Enc)} (h : ∀ e ∈ es, Loc e.2) : Loc (mapRawUnsorted c es) := by
  intro p b d
  simp only [mapRawUnsorted]
  split
  · rw [appendPunc_app, appendByte_app, strLoop_app c _ _ h]
    generalize strLoop c true es _ _ = q
    cases q <;> simp [LoopR.prepend, Out.prepend, strTail_app, appendPunc_app]
  · simp [Out.prepend, appendPunc_app]

theorem loc_strMapSorted (c : Cfg) {es : List (Bytes × Enc)} (h : ∀ e ∈ es, Loc e.2) : Loc (strMapSorted c es) := by
  intro p b d
  simp only [strMapSorted]
  have h' : ∀ e ∈ sortBy (fun e => e.1) es, Loc e.2 := fun e he => h e ((mem_sortBy _ _ _).1 he)
  split
  · rw [appendPunc_app, appendByte_app, strLoop_app c _ _ h']
    generalize strLoop c true _ _ _ = q
    cases q with
    | panic => rfl
    | brk => simp only [LoopR.prepend, Out.prepend, strTail_app, List.length_append, take_add_append]
    | fin => simp [LoopR.prepend, Out.prepend, strTail_app, appendPunc_app]
  · simp [Out.prepend, appendPunc_app]

theorem structKey_app (c : Cfg) (p b k : Bytes) (d : Int) : structKey c (p ++ b) k d = p ++ structKey c b k d := by
  unfold structKey; rw [appendIndent_app]; cases c.clrs <;> simp

theorem structLoop_app (c : Cfg) (start n : Nat) (fs : List (FMeta × Bool × Enc)) (h : ∀ f ∈ fs, Loc f.2.2)
    (p b : Bytes) (d : Int) :
    structLoop c (p.length + start) n fs (p ++ b) d =
      ((structLoop c start n fs b d).1.prepend p, (structLoop c start n fs b d).2) := by
  induction fs generalizing n b d with
  | nil => rfl
  | cons f fs ih =>
    obtain ⟨m, e, f⟩ := f
    simp only [structLoop]
    have h2 : ∀ f ∈ fs, Loc f.2.2 := fun f hf => h f (by simp [hf])
    split
    · exact ih _ h2 _ _
    · have e1 : (if n ≠ 0 then c.appendByte (appendPunc c.clrs (p ++ b) 44) 10 else p ++ b) =
          p ++ (if n ≠ 0 then c.appendByte (appendPunc c.clrs b 44) 10 else b) := by
        split <;> simp [appendPunc_app, appendByte_app]
      rw [e1]
      generalize (if n ≠ 0 then c.appendByte (appendPunc c.clrs b 44) 10 else b) = b1
      rw [structKey_app, appendPunc_app, appendByte_app, show Loc f from h (m, e, f) (by simp)]
      generalize hq : f _ d = q
      cases q with
      | panic => rfl
      | done b' d' e' =>
        cases e' with
        | some e' =>
          simp only [Out.prepend]
          split
          · rw [List.length_append, take_add_append]; exact ih _ h2 _ _
          · simp only [take_add_append]
        | none => simp only [Out.prepend]; exact ih _ h2 _ _

theorem loc_struct (c : Cfg) {fs : List (FMeta × Bool × Enc)} (h : ∀ f ∈ fs, Loc f.2.2) : Loc (encodeStruct c fs) := by
  intro p b d
  simp only [encodeStruct]
  have e1 : (if fs.length > 0 then c.appendByte (appendPunc c.clrs (p ++ b) 123) 10 else appendPunc c.clrs (p ++ b) 123) =
      p ++ (if fs.length > 0 then c.appendByte (appendPunc c.clrs b 123) 10 else appendPunc c.clrs b 123) := by
    split <;> simp [appendPunc_app, appendByte_app]
  rw [e1, List.length_append, structLoop_app c _ _ _ h]
  generalize structLoop c _ 0 fs _ _ = q
  obtain ⟨q, n⟩ := q
  cases q with
  | panic => rfl
  | done b' d' e' =>
    cases e' with
    | some e' => rfl
    | none =>
      simp only [Out.prepend]
      split <;> simp [appendPunc_app, appendByte_app, appendIndent_app]

/-- The same state with bytes in front of the buffer. -/
def RawSt.prepend (p : Bytes) (s : RawSt) : RawSt := ⟨p ++ s.b, s.d, s.stack⟩

theorem rawItemPrefix_app (c : Cfg) (p b : Bytes) (d : Int) (st : List (Bool × Nat)) (k : Bool) :
    rawItemPrefix c (p ++ b) d st k = (p ++ (rawItemPrefix c b d st k).1, (rawItemPrefix c b d st k).2) := by
  unfold rawItemPrefix
  split
  · rfl
  · split
    · rfl
    · simp only [Prod.mk.injEq, and_true]
      split <;> simp [appendPunc_app, appendByte_app, appendIndent_app]

theorem rawScalar_app (c : Cfg) (p b v : Bytes) (k : Bool) : rawScalar c (p ++ b) v k = p ++ rawScalar c b v k := by
  unfold rawScalar
  cases c.clrs with
  | none => simp only [appendCompactEscapeHTML]; split <;> simp
  | some cl => simp only [appendCompactEscapeHTML]; split <;> simp

theorem rawStep_app (c : Cfg) (p : Bytes) (s : RawSt) (t : Obs) :
    rawStep c (s.prepend p) t = (rawStep c s t).prepend p := by
  unfold rawStep RawSt.prepend
  simp only [rawItemPrefix_app]
  split
  · simp [appendPunc_app, appendByte_app]
  · split
    · rfl
    · split
      · simp only [RawSt.mk.injEq, and_true]
        split
        · simp [appendPunc_app]
        · split <;> simp_all [appendPunc_app, appendByte_app, appendIndent_app]
      · split
        · simp [appendPunc_app]
        · simp [rawScalar_app]

theorem rawFold_app (c : Cfg) (p : Bytes) (ts : List Obs) (s : RawSt) :
    ts.foldl (rawStep c) (s.prepend p) = (ts.foldl (rawStep c) s).prepend p := by
  induction ts generalizing s with
  | nil => rfl
  | cons t ts ih => rw [List.foldl_cons, List.foldl_cons, rawStep_app, ih]

theorem loc_rawTokens (c : Cfg) (s : Bytes) : Loc (rawTokens c s) := by
  intro p b d
  simp only [rawTokens]
  have : (⟨p ++ b, d, []⟩ : RawSt) = (⟨b, d, []⟩ : RawSt).prepend p := rfl
  rw [this, rawFold_app]
  generalize (tokenize s).1.foldl (rawStep c) ⟨b, d, []⟩ = st
  cases (tokenize s).2 with
  | panic => rfl
  | outOfFuel => rfl
  | stop t =>
    simp only []
    cases t.err with
    | none => rfl
    | some e => simp only [RawSt.prepend, Out.prepend, List.length_append, take_add_append]

theorem loc_rawVerbatim (c : Cfg) (s : Bytes) : Loc (rawVerbatim c s) := by
  intro p b d
  unfold rawVerbatim
  cases c.ind with
  | none => simp only [appendCompactEscapeHTML]; split <;> simp [Out.prepend]
  | some i =>
    simp only [appendCompactEscapeHTML]
    split
    · split <;> simp [Out.prepend]
    · generalize c.jsonIndent _ _ i.indent = q
      cases q <;> simp [Out.prepend]

theorem loc_raw (c : Cfg) (v : Option Bytes) : Loc (encodeRawMessage c v) := by
  intro p b d
  cases v with
  | none => simp [encodeRawMessage, appendNull_app, Out.prepend]
  | some v =>
    simp only [encodeRawMessage]
    split
    · rw [loc_rawTokens]
      cases rawTokens c v b d with
      | panic => rfl
      | done b' d' e' =>
        cases e' with
        | none => rfl
        | some e' => simp only [Out.prepend]; exact loc_rawVerbatim c v p b' d'
    · split
      · rfl
      · exact loc_rawTokens c _ p b d

theorem loc_jsonM (c : Cfg) (r : JsonRes) : Loc (encodeJSONMarshaler c r) := by
  intro p b d
  cases r with
  | isNil => simp [encodeJSONMarshaler, appendNull_app, Out.prepend]
  | err => rfl
  | ok s => exact loc_raw c s p b d

mutual
theorem loc_enc (c : Cfg) : ∀ v : GV, Loc (enc c v)
  | .nil | .sliceNil | .mapNil | .ptrNil => by simp only [enc]; exact loc_null _
  | .bool v => by simp only [enc]; exact loc_bool _ v
  | .int z => by simp only [enc]; exact loc_int _ z
  | .uint n => by simp only [enc]; exact loc_uint _ n
  | .float f => by simp only [enc]; exact loc_colored c _ (loc_float f)
  | .number s => by simp only [enc]; exact loc_number c s
  | .string s => by simp only [enc]; exact loc_colored c _ (loc_str c s)
  | .bytesNil => by simp only [enc]; exact loc_colored c _ (loc_bytes c _)
  | .bytes s => by simp only [enc]; exact loc_colored c _ (loc_bytes c _)
  | .time s _ => by simp only [enc]; exact loc_time c s
  | .slice xs => by simp only [enc]; exact loc_array c (loc_encL c xs)
  | .array xs => by simp only [enc]; exact loc_array c (loc_encL c xs)
  | .map es => by simp only [enc]; exact loc_map c (loc_encE c es)
  | .mapSI es => by
    simp only [enc, encodeMapSI]
    split
    · exact loc_strMapSorted c (loc_encS c es)
    · exact loc_mapSIUnsorted c (loc_encS c es)
  | .mapRaw es => by
    have h : ∀ e ∈ (es.map fun e => (e.1, encodeRawMessage c e.2)), Loc e.2 := by
      intro e he
      obtain ⟨x, _, rfl⟩ := List.mem_map.1 he
      exact loc_raw c _
    simp only [enc, encodeMapRaw]
    split
    · exact loc_strMapSorted c h
    · exact loc_mapRawUnsorted c h
  | .struct fs => by simp only [enc]; exact loc_struct c (loc_encF c fs)
  | .ptr v => by simp only [enc]; exact loc_enc c v
  | .iface v _ => by simp only [enc]; exact loc_enc c v
  | .rawNil => by simp only [enc]; exact loc_raw c _
  | .raw s => by simp only [enc]; exact loc_raw c _
  | .jsonM r _ => by simp only [enc]; exact loc_jsonM c r
  | .textM r _ => by simp only [enc]; exact loc_text c r
  | .quoted v => by simp only [enc]; exact loc_toString c (loc_enc c v)
  | .embNil _ => by simp only [enc]; exact loc_err _
  | .emb v _ => by simp only [enc]; exact loc_enc c v
  | .unsupported => by simp only [enc]; exact loc_err _
theorem loc_encL (c : Cfg) : ∀ xs : List GV, ∀ f ∈ encL c xs, Loc f
  | [] => by simp [encL]
  | v :: vs => by
    intro f hf
    simp only [encL, List.mem_cons] at hf
    rcases hf with rfl | hf
    · exact loc_enc c v
    · exact loc_encL c vs f hf
theorem loc_encE (c : Cfg) : ∀ es : List (MKey × GV), ∀ e ∈ encE c es, Loc e.2
  | [] => by simp [encE]
  | (k, v) :: es => by
    intro f hf
    simp only [encE, List.mem_cons] at hf
    rcases hf with rfl | hf
    · exact loc_enc c v
    · exact loc_encE c es f hf
theorem loc_encS (c : Cfg) : ∀ es : List (Bytes × GV), ∀ e ∈ encS c es, Loc e.2
  | [] => by simp [encS]
  | (k, v) :: es => by
    intro f hf
    simp only [encS, List.mem_cons] at hf
    rcases hf with rfl | hf
    · exact loc_enc c v
    · exact loc_encS c es f hf
theorem loc_encF (c : Cfg) : ∀ es : List (FMeta × GV), ∀ e ∈ encF c es, Loc e.2.2
  | [] => by simp [encF]
  | (k, v) :: es => by
    intro f hf
    simp only [encF, List.mem_cons] at hf
    rcases hf with rfl | hf
    · exact loc_enc c v
    · exact loc_encF c es f hf
end

end JC
