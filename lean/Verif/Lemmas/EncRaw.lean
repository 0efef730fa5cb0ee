import Verif.Spec.Render
import Verif.Lemmas.EncLoc
import Verif.Props.Token
/-! Raw messages are written as the document of their tree. -/
namespace JC
open Spec

/-- The Indenter's level, when there is one, is `n`. -/
def DepthOk (c : Cfg) (d : Int) (n : Nat) : Prop := c.ind.isSome = true → d = n

theorem DepthOk.push {c : Cfg} {d : Int} {n : Nat} (h : DepthOk c d n) : DepthOk c (c.push d) (n + 1) := by
  intro hi
  have := h hi
  simp only [Cfg.push, hi, if_true, this]
  omega

theorem pop_push (c : Cfg) (d : Int) : c.pop (c.push d) = d := by
  unfold Cfg.pop Cfg.push
  split <;> omega

theorem appendPunc_eq (c : Cfg) (b : Bytes) (v : UInt8) (r : Role)
    (h : (r = .bracket ∧ (v = 0x5b ∨ v = 0x5d)) ∨ (r = .brace ∧ (v = 0x7b ∨ v = 0x7d)) ∨
      (r = .comma ∧ v = 0x2c) ∨ (r = .colon ∧ v = 0x3a)) :
    appendPunc c.clrs b v = b ++ paint (styleOf c) r [v] := by
  unfold paint styleOf appendPunc
  cases c.clrs with
  | none => rfl
  | some cl =>
    have e : ansiReset = reset := rfl
    have l0 : ∀ x : Bytes, (x.length = 0) = (x = []) := fun x => by simp [List.length_eq_zero_iff]
    rcases h with ⟨rfl, rfl | rfl⟩ | ⟨rfl, rfl | rfl⟩ | ⟨rfl, rfl⟩ | ⟨rfl, rfl⟩ <;>
      simp [Colors.puncColor, colorOf, l0, e]

theorem punc_lbrack (c : Cfg) (b : Bytes) : appendPunc c.clrs b 0x5b = b ++ paint (styleOf c) .bracket [0x5b] :=
  appendPunc_eq c b _ _ (by simp)
theorem punc_rbrack (c : Cfg) (b : Bytes) : appendPunc c.clrs b 0x5d = b ++ paint (styleOf c) .bracket [0x5d] :=
  appendPunc_eq c b _ _ (by simp)
theorem punc_lbrace (c : Cfg) (b : Bytes) : appendPunc c.clrs b 0x7b = b ++ paint (styleOf c) .brace [0x7b] :=
  appendPunc_eq c b _ _ (by simp)
theorem punc_rbrace (c : Cfg) (b : Bytes) : appendPunc c.clrs b 0x7d = b ++ paint (styleOf c) .brace [0x7d] :=
  appendPunc_eq c b _ _ (by simp)
theorem punc_comma (c : Cfg) (b : Bytes) : appendPunc c.clrs b 0x2c = b ++ paint (styleOf c) .comma [0x2c] :=
  appendPunc_eq c b _ _ (by simp)
theorem punc_colon (c : Cfg) (b : Bytes) : appendPunc c.clrs b 0x3a = b ++ paint (styleOf c) .colon [0x3a] :=
  appendPunc_eq c b _ _ (by simp)

theorem appendIndent_eq {c : Cfg} {d : Int} {n : Nat} (h : DepthOk c d n) (b : Bytes) :
    c.appendIndent d b = b ++ margin (styleOf c) n := by
  unfold Cfg.appendIndent margin styleOf
  cases hc : c.ind with
  | none => simp
  | some i =>
    have := h (by rw [hc]; rfl)
    subst this
    simp only []
    cases i.disabled <;> simp

theorem appendNl_eq {c : Cfg} {d : Int} {n : Nat} (h : DepthOk c d n) (b : Bytes) :
    c.appendIndent d (c.appendByte b 0x0a) = b ++ newline (styleOf c) n := by
  rw [appendIndent_eq h]
  unfold Cfg.appendByte newline margin styleOf
  cases hc : c.ind with
  | none => simp
  | some i =>
    simp only []
    cases i.disabled <;> simp

theorem appendGap_eq (c : Cfg) (b : Bytes) : c.appendByte b 0x20 = b ++ gap (styleOf c) := by
  unfold Cfg.appendByte gap styleOf
  cases hc : c.ind with
  | none => simp
  | some i =>
    by_cases h : i.disabled = true <;> simp [h]

mutual
theorem docS_clean (html : Bool) : ∀ j : Json, NoEmptyObj j → docS html false j = docOf html j
  | .null, _ | .tru, _ | .fls, _ | .num _, _ | .str _, _ => rfl
  | .arr xs, h => by rw [docS, docOf, docSL_clean html xs h]
  | .obj ms, h => by rw [docS, docOf, docSM_clean html ms h.2]
theorem docSL_clean (html : Bool) : ∀ xs : List Json, NoEmptyObjL xs → docSL html false xs = docOfL html xs
  | [], _ => rfl
  | j :: xs, h => by
    rw [docSL, docOfL, docS_clean html j h.1, (tokS_clean 0 0 j h.1).1, docSL_clean html xs h.2]
theorem docSM_clean (html : Bool) : ∀ ms : List (Bytes × Json), NoEmptyObjM ms → docSM html ms = docOfM html ms
  | [], _ => rfl
  | (k, j) :: ms, h => by rw [docSM, docOfM, docS_clean html j h.1, docSM_clean html ms h.2]
end

/-- The scalar tokens in a tree are tokens of the grammar. -/
def JsonOk : Json → Prop
  | .num s => JNumber s
  | .str s => JString s
  | .arr xs => ∀ x ∈ xs.attach, JsonOk x.1
  | .obj ms => ∀ m ∈ ms.attach, JString m.1.1 ∧ JsonOk m.1.2
  | _ => True
termination_by j => sizeOf j
decreasing_by
  · have := List.sizeOf_lt_of_mem x.2; simp_wf; omega
  · have h := List.sizeOf_lt_of_mem m.2
    have : sizeOf m.1.2 < sizeOf m.1 := by cases m.1; simp_wf; omega
    simp_wf; omega

theorem jsonOk_arr {xs : List Json} : JsonOk (.arr xs) ↔ ∀ x ∈ xs, JsonOk x := by
  rw [JsonOk]
  constructor
  · intro h x hx; exact h ⟨x, hx⟩ (List.mem_attach _ _)
  · intro h x _; exact h x.1 x.2

theorem jsonOk_obj {ms : List (Bytes × Json)} : JsonOk (.obj ms) ↔ ∀ m ∈ ms, JString m.1 ∧ JsonOk m.2 := by
  rw [JsonOk]
  constructor
  · intro h x hx; exact h ⟨x, hx⟩ (List.mem_attach _ _)
  · intro h x _; exact h x.1 x.2

def OkSpec : Sym → Prop
  | .value j => JsonOk j
  | .elems xs => ∀ x ∈ xs, JsonOk x
  | .members ms => ∀ m ∈ ms, JString m.1 ∧ JsonOk m.2

theorem derives_ok {s : Sym} {b : Bytes} (h : Derives s b) : OkSpec s := by
  induction h with
  | null => simp [OkSpec, JsonOk]
  | tru => simp [OkSpec, JsonOk]
  | fls => simp [OkSpec, JsonOk]
  | num s h => simpa [OkSpec, JsonOk] using h
  | str s h => simpa [OkSpec, JsonOk] using h
  | arrNil => exact jsonOk_arr.2 (by simp)
  | arr xs b _ ih => exact jsonOk_arr.2 ih
  | objNil => exact jsonOk_obj.2 (by simp)
  | obj ms b _ ih => exact jsonOk_obj.2 ih
  | elemOne w1 w2 j b _ _ _ ih => intro x hx; simp at hx; subst hx; exact ih
  | elemCons w1 w2 j b xs bs _ _ _ _ ih1 ih2 =>
    intro x hx
    simp only [List.mem_cons] at hx
    rcases hx with rfl | hx
    · exact ih1
    · exact ih2 x hx
  | memOne w1 w2 w3 w4 k j b _ _ _ _ hk _ ih => intro x hx; simp at hx; subst hx; exact ⟨hk, ih⟩
  | memCons w1 w2 w3 w4 k j b ms bs _ _ _ _ hk _ _ ih1 ih2 =>
    intro x hx
    simp only [List.mem_cons] at hx
    rcases hx with rfl | hx
    · exact ⟨hk, ih1⟩
    · exact ih2 x hx

/-- Where a value goes: buffer and stack after the item prefix. -/
def valPre (c : Cfg) (n : Nat) (b : Bytes) : List (Bool × Nat) → Bytes × List (Bool × Nat)
  | [] => (b, [])
  | (true, m) :: s => (b, (true, m) :: s)
  | (false, m) :: s => (b ++ ((if m = 0 then [] else paint (styleOf c) .comma [0x2c]) ++ newline (styleOf c) n), (false, m + 1) :: s)

theorem rawItemPrefix_val {c : Cfg} {d : Int} {n : Nat} (h : DepthOk c d n) (b : Bytes) (st : List (Bool × Nat)) (k : Bool)
    (hk : ∀ m s, st = (true, m) :: s → k = false) :
    rawItemPrefix c b d st k = valPre c n b st := by
  cases st with
  | nil => rfl
  | cons f s =>
    obtain ⟨o, m⟩ := f
    cases o with
    | true => rw [hk m s rfl]; rfl
    | false =>
      simp only [rawItemPrefix, valPre, Bool.false_eq_true, false_and, if_false]
      rw [appendNl_eq h]
      by_cases hm : m = 0
      · subst hm; simp
      · rw [if_pos (by omega), punc_comma]; simp [hm]

theorem rawItemPrefix_key {c : Cfg} {d : Int} {n : Nat} (h : DepthOk c d n) (b : Bytes) (m : Nat) (s : List (Bool × Nat)) :
    rawItemPrefix c b d ((true, m) :: s) true =
      (b ++ ((if m = 0 then [] else paint (styleOf c) .comma [0x2c]) ++ newline (styleOf c) n), (true, m + 1) :: s) := by
  simp only [rawItemPrefix, Bool.not_true, Bool.false_eq_true, and_false, if_false]
  rw [appendNl_eq h]
  by_cases hm : m = 0
  · subst hm; simp
  · rw [if_pos (by omega), punc_comma]; simp [hm]

/-- the role of a scalar token by its kind -/
theorem rawScalar_eq (c : Cfg) (b v : Bytes) (k : Bool) (r : Role)
    (h : (JString v ∧ r = .string) ∨ (v = bs! "null" ∧ r = .null) ∨ (v = bs! "true" ∧ r = .bool) ∨
      (v = bs! "false" ∧ r = .bool) ∨ (JNumber v ∧ r = .number)) :
    rawScalar c b v k = b ++ paint (styleOf c) (if k then .key else r)
      (if r = .string then copyStr c.escapeHTML v else v) := by
  obtain ⟨h1, h2, h3, h4, h5⟩ := Props.C15_classes v
  have e : ansiReset = reset := rfl
  have key : ∀ cl, rawColor cl v k = colorOf cl (if k then .key else r) := by
    intro cl
    cases k
    · rcases h with ⟨h, rfl⟩ | ⟨h, rfl⟩ | ⟨h, rfl⟩ | ⟨h, rfl⟩ | ⟨h, rfl⟩
      · have := h1 h; simp only [Props.Classes, List.cons.injEq, and_true] at this
        simp [rawColor, this, colorOf]
      · have := h2 h; simp only [Props.Classes, List.cons.injEq, and_true] at this
        simp [rawColor, this, colorOf]
      · have := h3 h; simp only [Props.Classes, List.cons.injEq, and_true] at this
        simp [rawColor, this, colorOf]
      · have := h4 h; simp only [Props.Classes, List.cons.injEq, and_true] at this
        simp [rawColor, this, colorOf]
      · have := h5 h; simp only [Props.Classes, List.cons.injEq, and_true] at this
        simp [rawColor, this, colorOf]
    · rfl
  have hs : rvString v = (r == .string) := by
    rcases h with ⟨h, rfl⟩ | ⟨h, rfl⟩ | ⟨h, rfl⟩ | ⟨h, rfl⟩ | ⟨h, rfl⟩
    · have := h1 h; simp only [Props.Classes, List.cons.injEq, and_true] at this; exact this.1
    · have := h2 h; simp only [Props.Classes, List.cons.injEq, and_true] at this; exact this.1
    · have := h3 h; simp only [Props.Classes, List.cons.injEq, and_true] at this; exact this.1
    · have := h4 h; simp only [Props.Classes, List.cons.injEq, and_true] at this; exact this.1
    · have := h5 h; simp only [Props.Classes, List.cons.injEq, and_true] at this; exact this.1
  have hp : (if k = true then Role.key else r) ≠ .plain ∧ (if k = true then Role.key else r) ≠ .nilBytes := by
    cases k
    · rcases h with ⟨h, rfl⟩ | ⟨h, rfl⟩ | ⟨h, rfl⟩ | ⟨h, rfl⟩ | ⟨h, rfl⟩ <;> simp
    · simp
  have ht : ∀ b : Bytes, (if (c.escapeHTML && rvString v) = true then appendCompactEscapeHTML b v else b ++ v) =
      b ++ (if r = .string then copyStr c.escapeHTML v else v) := by
    intro b
    rw [hs]
    by_cases hr : r = .string
    · subst hr
      cases c.escapeHTML <;> simp [copyStr, appendCompactEscapeHTML]
    · simp [hr]
  unfold rawScalar paint styleOf
  cases c.clrs with
  | none => simp only [ht]
  | some cl =>
    simp only [ht, key, e]
    generalize (if k = true then Role.key else r) = q at *
    cases q <;> first | exact absurd rfl hp.1 | exact absurd rfl hp.2 | simp

theorem rawStep_scalar {c : Cfg} {d : Int} {n : Nat} (hd : DepthOk c d n) (b v : Bytes) (st : List (Bool × Nat))
    (k : Bool) (dd ii : Int) (r : Role) (hk : ∀ m s, st = (true, m) :: s → k = false)
    (h : (JString v ∧ r = .string) ∨ (v = bs! "null" ∧ r = .null) ∨ (v = bs! "true" ∧ r = .bool) ∨
      (v = bs! "false" ∧ r = .bool) ∨ (JNumber v ∧ r = .number)) :
    rawStep c ⟨b, d, st⟩ ⟨0, v, dd, ii, k⟩ = ⟨(valPre c n b st).1 ++ paint (styleOf c) (if k then .key else r)
      (if r = .string then copyStr c.escapeHTML v else v), d, (valPre c n b st).2⟩ := by
  have e1 : rawStep c ⟨b, d, st⟩ ⟨0, v, dd, ii, k⟩ =
      ⟨rawScalar c (rawItemPrefix c b d st k).1 v k, d, (rawItemPrefix c b d st k).2⟩ := by
    simp [rawStep]
  rw [e1, rawItemPrefix_val hd b st k hk, rawScalar_eq c _ v k r h]

theorem rawStep_key {c : Cfg} {d : Int} {n : Nat} (hd : DepthOk c d n) (b v : Bytes) (m : Nat) (s : List (Bool × Nat))
    (dd ii : Int) (h : JString v) :
    rawStep c ⟨b, d, (true, m) :: s⟩ ⟨0, v, dd, ii, true⟩ =
      ⟨b ++ ((if m = 0 then [] else paint (styleOf c) .comma [0x2c]) ++ (newline (styleOf c) n ++
        paint (styleOf c) .key (copyStr c.escapeHTML v))), d, (true, m + 1) :: s⟩ := by
  have e1 : rawStep c ⟨b, d, (true, m) :: s⟩ ⟨0, v, dd, ii, true⟩ =
      ⟨rawScalar c (rawItemPrefix c b d ((true, m) :: s) true).1 v true, d, (rawItemPrefix c b d ((true, m) :: s) true).2⟩ := by
    simp [rawStep]
  rw [e1, rawItemPrefix_key hd, rawScalar_eq c _ v true .string (.inl ⟨h, rfl⟩)]
  simp

theorem rawStep_colon (c : Cfg) (b v : Bytes) (d : Int) (st : List (Bool × Nat)) (dd ii : Int) :
    rawStep c ⟨b, d, st⟩ ⟨0x3a, v, dd, ii, false⟩ =
      ⟨b ++ (paint (styleOf c) .colon [0x3a] ++ gap (styleOf c)), d, st⟩ := by
  simp [rawStep, punc_colon, appendGap_eq]

theorem rawStep_comma (c : Cfg) (s : RawSt) (v : Bytes) (dd ii : Int) :
    rawStep c s ⟨0x2c, v, dd, ii, false⟩ = s := by
  simp [rawStep]

theorem rawStep_open {c : Cfg} {d : Int} {n : Nat} (hd : DepthOk c d n) (b v : Bytes) (st : List (Bool × Nat)) (dd ii : Int)
    (o : Bool) :
    rawStep c ⟨b, d, st⟩ ⟨if o then 0x7b else 0x5b, v, dd, ii, false⟩ =
      ⟨(valPre c n b st).1 ++ paint (styleOf c) (if o then .brace else .bracket) [if o then 0x7b else 0x5b], c.push d,
        (o, 0) :: (valPre c n b st).2⟩ := by
  cases o
  · simp [rawStep, rawItemPrefix_val hd b st false (by simp), punc_lbrack]
  · simp [rawStep, rawItemPrefix_val hd b st false (by simp), punc_lbrace]

theorem rawStep_close {c : Cfg} {d : Int} {n : Nat} (hd : DepthOk c d n) (b v : Bytes) (st : List (Bool × Nat)) (m : Nat)
    (dd ii : Int) (o o' : Bool) :
    rawStep c ⟨b, c.push d, (o', m) :: st⟩ ⟨if o then 0x7d else 0x5d, v, dd, ii, false⟩ =
      ⟨b ++ ((if m = 0 then [] else newline (styleOf c) n) ++
        paint (styleOf c) (if o then .brace else .bracket) [if o then 0x7d else 0x5d]), d, st⟩ := by
  by_cases hm : m = 0
  · subst hm
    cases o
    · simp [rawStep, pop_push, punc_rbrack]
    · simp [rawStep, pop_push, punc_rbrace]
  · have : 0 < m := by omega
    cases o
    · simp [rawStep, pop_push, punc_rbrack, appendNl_eq hd, hm, this]
    · simp [rawStep, pop_push, punc_rbrace, appendNl_eq hd, hm, this]

theorem docSL_eq_nil {html k : Bool} {xs : List Json} : docSL html k xs = [] ↔ xs = [] := by
  cases xs <;> simp [docSL]
theorem docSM_eq_nil {html : Bool} {xs : List (Bytes × Json)} : docSM html xs = [] ↔ xs = [] := by
  rcases xs with _ | ⟨⟨k, j⟩, ms⟩ <;> simp [docSM]

mutual
theorem raw_value (c : Cfg) (k : Bool) (dd i : Nat) : ∀ (j : Json), JsonOk j → ∀ (b : Bytes) (d : Int) (n : Nat)
    (st : List (Bool × Nat)), DepthOk c d n → (∀ m s, st = (true, m) :: s → k = false) →
    ((tokS k dd i j).map toObs).foldl (rawStep c) ⟨b, d, st⟩ =
      ⟨(valPre c n b st).1 ++ render (styleOf c) n (docS c.escapeHTML k j), d, (valPre c n b st).2⟩
  | .null, _, b, d, n, st, hd, hk => by
    simp only [tokS, List.map_cons, List.map_nil, List.foldl_cons, List.foldl_nil, toObs]
    rw [rawStep_scalar hd b _ st k _ _ .null hk (by simp)]
    simp [docS, render]
  | .tru, _, b, d, n, st, hd, hk => by
    simp only [tokS, List.map_cons, List.map_nil, List.foldl_cons, List.foldl_nil, toObs]
    rw [rawStep_scalar hd b _ st k _ _ .bool hk (by simp)]
    simp [docS, render]
  | .fls, _, b, d, n, st, hd, hk => by
    simp only [tokS, List.map_cons, List.map_nil, List.foldl_cons, List.foldl_nil, toObs]
    rw [rawStep_scalar hd b _ st k _ _ .bool hk (by simp)]
    simp [docS, render]
  | .num s, ho, b, d, n, st, hd, hk => by
    rw [JsonOk] at ho
    simp only [tokS, List.map_cons, List.map_nil, List.foldl_cons, List.foldl_nil, toObs]
    rw [rawStep_scalar hd b _ st k _ _ .number hk (by simp [ho])]
    simp [docS, render]
  | .str s, ho, b, d, n, st, hd, hk => by
    rw [JsonOk] at ho
    simp only [tokS, List.map_cons, List.map_nil, List.foldl_cons, List.foldl_nil, toObs]
    rw [rawStep_scalar hd b _ st k _ _ .string hk (by simp [ho])]
    simp [docS, render]
  | .arr xs, ho, b, d, n, st, hd, hk => by
    rw [jsonOk_arr] at ho
    simp only [tokS, List.map_cons, List.map_nil, List.map_append, List.foldl_cons, List.foldl_nil, List.foldl_append, toObs]
    rw [show ((0x5b : UInt8)) = (if false = true then 0x7b else 0x5b) from rfl, rawStep_open hd]
    have := raw_elems c k (dd + 1) 0 xs ho ((valPre c n b st).1 ++ paint (styleOf c) .bracket [0x5b]) (c.push d) (n + 1) 0
      (valPre c n b st).2 hd.push
    simp only [Bool.false_eq_true, if_false, toObs] at this ⊢
    rw [this]
    rw [show ((0x5d : UInt8)) = (if false = true then 0x7d else 0x5d) from rfl, rawStep_close hd]
    have e : (0 + xs.length = 0) = (docSL c.escapeHTML k xs = []) := by
      rw [docSL_eq_nil]; simp
    simp only [docS, render, e]
    simp
  | .obj ms, ho, b, d, n, st, hd, hk => by
    rw [jsonOk_obj] at ho
    simp only [tokS, List.map_cons, List.map_nil, List.map_append, List.foldl_cons, List.foldl_nil, List.foldl_append, toObs]
    rw [show ((0x7b : UInt8)) = (if true = true then 0x7b else 0x5b) from rfl, rawStep_open hd]
    have := raw_members c (dd + 1) 0 ms ho ((valPre c n b st).1 ++ paint (styleOf c) .brace [0x7b]) (c.push d) (n + 1) 0
      (valPre c n b st).2 hd.push
    simp only [if_true, toObs] at this ⊢
    rw [this]
    rw [show ((0x7d : UInt8)) = (if true = true then 0x7d else 0x5d) from rfl, rawStep_close hd]
    have e : (0 + ms.length = 0) = (docSM c.escapeHTML ms = []) := by
      rw [docSM_eq_nil]; simp
    simp only [docS, render, e]
    simp
theorem raw_elems (c : Cfg) (k : Bool) (dd i : Nat) : ∀ (xs : List Json), (∀ x ∈ xs, JsonOk x) → ∀ (b : Bytes) (d : Int)
    (n m : Nat) (st : List (Bool × Nat)), DepthOk c d n →
    ((tokSE k dd i xs).map toObs).foldl (rawStep c) ⟨b, d, (false, m) :: st⟩ =
      ⟨b ++ renderElems (styleOf c) n (m = 0) (docSL c.escapeHTML k xs), d, (false, m + xs.length) :: st⟩
  | [], _, b, d, n, m, st, _ => by simp [tokSE, docSL, renderElems]
  | [j], ho, b, d, n, m, st, hd => by
    simp only [tokSE]
    rw [raw_value c k dd i j (ho j (by simp)) b d n _ hd (by simp)]
    simp [valPre, docSL, renderElems]
  | j :: j2 :: xs, ho, b, d, n, m, st, hd => by
    simp only [tokSE, List.map_append, List.map_cons, List.foldl_append, List.foldl_cons]
    rw [raw_value c k dd i j (ho j (by simp)) b d n _ hd (by simp)]
    have hcm : ∀ s, rawStep c s (toObs ⟨0x2c, [0x2c], dd, i, false⟩) = s := fun s => rawStep_comma c s _ _ _
    rw [hcm]
    simp only [valPre]
    rw [raw_elems c (after k j) dd (i + 1) (j2 :: xs) (fun x hx => ho x (by simp [hx])) _ d n (m + 1) st hd]
    simp [docSL, renderElems]
    omega
theorem raw_members (c : Cfg) (dd i : Nat) : ∀ (ms : List (Bytes × Json)), (∀ x ∈ ms, JString x.1 ∧ JsonOk x.2) →
    ∀ (b : Bytes) (d : Int) (n m : Nat) (st : List (Bool × Nat)), DepthOk c d n →
    ((tokSM dd i ms).map toObs).foldl (rawStep c) ⟨b, d, (true, m) :: st⟩ =
      ⟨b ++ renderMembers (styleOf c) n (m = 0) (docSM c.escapeHTML ms), d, (true, m + ms.length) :: st⟩
  | [], _, b, d, n, m, st, _ => by simp [tokSM, docSM, renderMembers]
  | [(k, j)], ho, b, d, n, m, st, hd => by
    simp only [tokSM, List.map_cons, List.foldl_cons]
    have hk : ∀ b, rawStep c ⟨b, d, (true, m) :: st⟩ (toObs ⟨0, k, dd, i, true⟩) = _ :=
      fun b => rawStep_key hd b k m st _ _ (ho (k, j) (by simp)).1
    have hc : ∀ b st, rawStep c ⟨b, d, st⟩ (toObs ⟨0x3a, [0x3a], dd, i, false⟩) = _ :=
      fun b st => rawStep_colon c b _ d st _ _
    rw [hk, hc, raw_value c false dd i j (ho (k, j) (by simp)).2 _ d n _ hd (by simp)]
    simp [valPre, docSM, renderMembers]
  | (k, j) :: m2 :: ms, ho, b, d, n, m, st, hd => by
    simp only [tokSM, List.map_append, List.map_cons, List.foldl_append, List.foldl_cons]
    have hk : ∀ b, rawStep c ⟨b, d, (true, m) :: st⟩ (toObs ⟨0, k, dd, i, true⟩) = _ :=
      fun b => rawStep_key hd b k m st _ _ (ho (k, j) (by simp)).1
    have hc : ∀ b st, rawStep c ⟨b, d, st⟩ (toObs ⟨0x3a, [0x3a], dd, i, false⟩) = _ :=
      fun b st => rawStep_colon c b _ d st _ _
    rw [hk, hc, raw_value c false dd i j (ho (k, j) (by simp)).2 _ d n _ hd (by simp)]
    have hcm : ∀ s, rawStep c s (toObs ⟨0x2c, [0x2c], dd, i, false⟩) = s := fun s => rawStep_comma c s _ _ _
    rw [hcm]
    simp only [valPre]
    rw [raw_members c dd (i + 1) (m2 :: ms) (fun x hx => ho x (by simp [hx])) _ d n (m + 1) st hd]
    obtain ⟨k2, j2⟩ := m2
    simp [docSM, renderMembers]
    omega
end

/-- A JSON text is written as its document. -/
theorem rawTokens_doc {c : Cfg} {j : Json} {s : Bytes} (h : JText j s) {d : Int} {n : Nat} (hd : DepthOk c d n) (b : Bytes) :
    rawTokens c s b d = .done (b ++ render (styleOf c) n (docS c.escapeHTML false j)) d none := by
  have ho : JsonOk j := by
    obtain ⟨_, _, _, _, _, _, hj⟩ := h
    exact derives_ok hj
  unfold rawTokens
  rw [Props.tokenize_doc h]
  simp only [newTokenizer]
  rw [raw_value c false 0 0 j ho b d n [] hd (by simp)]
  rfl

end JC
