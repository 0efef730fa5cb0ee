import Verif.Lemmas.DecTree
import Verif.Lemmas.Unique
/-! The byte-level decoders agree with the tree-level ones on valid input. -/
namespace JC
open Spec Props

/-- `dec` agrees with `f` on values shorter than `N` and destinations satisfying
`P`; the remainder may have lost leading whitespace. -/
def RefP (P : DV → Prop) (N : Nat) (dec : Dec) (f : JDec) : Prop :=
  ∀ j v, Derives (.value j) v → v.length < N → ∀ r, Follow j r → ∀ p, P p →
    (∀ x, f j p = some x → P x ∧ ∃ r', dec (v ++ r) p = .ok x r' ∧ (r' = r ∨ r' = skipSpaces r)) ∧
    (f j p = none → ∀ x r', dec (v ++ r) p ≠ .ok x r')

/-- `dec` does not accept input that starts with a closing bracket -/
def Rej (dec : Dec) : Prop := ∀ t p x r, dec (0x5d :: t) p ≠ .ok x r

theorem inputErr_ne {b : Bytes} {p x : DV} {r : Bytes} : inputErr b p ≠ .ok x r := by simp [inputErr]

theorem hasNull_cons {c : UInt8} {t : Bytes} (h : c ≠ 0x6e) : hasNullPrefix (c :: t) = false := by
  unfold hasNullPrefix
  cases t with
  | nil => simp
  | cons => simp [h]

theorem hasNull_null (r : Bytes) : hasNullPrefix ([0x6e, 0x75, 0x6c, 0x6c] ++ r) = true := by
  simp [hasNullPrefix]

/-- the first byte tells the kind of value -/
def headOk : Json → UInt8 → Prop
  | .null, c => c = 0x6e
  | .tru, c => c = 0x74
  | .fls, c => c = 0x66
  | .num _, c => c = 0x2d ∨ Digit c
  | .str _, c => c = 0x22
  | .arr _, c => c = 0x5b
  | .obj _, c => c = 0x7b

theorem derives_head {j : Json} {v : Bytes} (h : Derives (.value j) v) : ∃ c t, v = c :: t ∧ headOk j c := by
  cases h with
  | null => exact ⟨_, _, rfl, rfl⟩
  | tru => exact ⟨_, _, rfl, rfl⟩
  | fls => exact ⟨_, _, rfl, rfl⟩
  | num s hs => obtain ⟨c, t, e, h⟩ := jnumber_head hs; exact ⟨c, t, e, h⟩
  | str s hs => obtain ⟨t, e⟩ := jstring_head hs; exact ⟨_, t, e, rfl⟩
  | arrNil | arr => exact ⟨_, _, rfl, rfl⟩
  | objNil | obj => exact ⟨_, _, rfl, rfl⟩

theorem digit_range {c : UInt8} (h : c = 0x2d ∨ Digit c) : c ≠ 0x6e ∧ c ≠ 0x74 ∧ c ≠ 0x66 ∧ c ≠ 0x22 ∧ c ≠ 0x5b ∧ c ≠ 0x7b ∧ c ≠ 0x5d := by
  rcases h with rfl | ⟨h1, h2⟩
  · decide
  · simp only [UInt8.le_iff_toNat_le, ← UInt8.toNat_inj, ne_eq, UInt8.reduceToNat] at *; omega

theorem hasNull_value {j : Json} {v : Bytes} (h : Derives (.value j) v) (r : Bytes) :
    hasNullPrefix (v ++ r) = isNullJ j := by
  cases h with
  | null => exact hasNull_null r
  | tru => exact hasNull_cons (by decide)
  | fls => exact hasNull_cons (by decide)
  | num s hs =>
    obtain ⟨c, t, e, h⟩ := jnumber_head hs
    rw [e]; exact hasNull_cons (digit_range h).1
  | str s hs => obtain ⟨t, e⟩ := jstring_head hs; rw [e]; exact hasNull_cons (by decide)
  | arrNil | arr => exact hasNull_cons (by decide)
  | objNil | obj => exact hasNull_cons (by decide)

theorem isNullJ_iff {j : Json} : isNullJ j = true ↔ j = .null := by cases j <;> simp [isNullJ]

theorem derives_null {v : Bytes} (h : Derives (.value .null) v) : v = [0x6e, 0x75, 0x6c, 0x6c] := by
  cases h; rfl

theorem parse_value_lt {j : Json} {v r : Bytes} (h : Derives (.value j) v) (hf : Follow j r) : parseValue (v ++ r) = .ok v r :=
  parseValue_complete h hf

/-! strings -/

theorem jstring_means {k : Bytes} (h : JString k) : ∃ s rs, k = 0x22 :: (s ++ [0x22]) ∧ StrMeans s rs := by
  obtain ⟨s, hs⟩ := h
  obtain ⟨rs, hrs⟩ := strMeans_total hs
  exact ⟨s, rs, rfl, hrs⟩

theorem unq_means {s : Bytes} {rs : List Nat} (h : StrMeans s rs) : unq (0x22 :: (s ++ [0x22])) = utf8s rs := by
  unfold unq
  rcases C04_unquote h [] [] with h | h <;> simp [h]

theorem unquote_ok {k : Bytes} (h : JString k) (r : Bytes) : ∃ n, parseStringUnquote (k ++ r) [] = .ok (unq k) r n := by
  obtain ⟨s, rs, rfl, hm⟩ := jstring_means h
  rw [unq_means hm]
  have e : 0x22 :: (s ++ [0x22]) ++ r = 0x22 :: (s ++ 0x22 :: r) := by simp
  rw [e]
  rcases C04_unquote hm r [] with h | h
  · exact ⟨_, h⟩
  · exact ⟨_, by simpa using h⟩

theorem unquote_head {b s r : Bytes} {n : Bool} (h : parseStringUnquote b [] = .ok s r n) : b.head? = some 0x22 := by
  obtain ⟨v, hv, rfl⟩ := C04_unquote_only h
  obtain ⟨t, rfl⟩ := jstring_head hv
  rfl

theorem unquote_cons_ne {c : UInt8} {t s r : Bytes} {n : Bool} (h : c ≠ 0x22) : parseStringUnquote (c :: t) [] ≠ .ok s r n := by
  intro e
  have := unquote_head e
  simp at this; exact h this

theorem decodeFromString_eq {k : Bytes} (h : JString k) (dec : Dec) (r : Bytes) (p : DV) :
    decodeFromString dec (k ++ r) p = match dec (unq k) p with
      | .crash c => .crash c
      | .err p _ e => .err p r e
      | .ok p v => if skipSpaces v ≠ [] then .err p r .syntax else .ok p r := by
  unfold decodeFromString
  have : hasNullPrefix (k ++ r) = false := by
    obtain ⟨t, rfl⟩ := jstring_head h; exact hasNull_cons (by decide)
  rw [this]
  obtain ⟨n, e⟩ := unquote_ok h r
  rw [e]; rfl

theorem decodeFromString_app {k : Bytes} (h : JString k) (dec : Dec) (r : Bytes) (p : DV) :
    (∀ x, okOf (decodeFromString dec k p) = some x → decodeFromString dec (k ++ r) p = .ok x r) ∧
    (okOf (decodeFromString dec k p) = none → ∀ x r', decodeFromString dec (k ++ r) p ≠ .ok x r') := by
  have e0 := decodeFromString_eq h dec [] p
  rw [List.append_nil] at e0
  rw [e0, decodeFromString_eq h dec r p]
  cases dec (unq k) p with
  | crash => simp [okOf]
  | err => simp [okOf]
  | ok x v =>
    simp only []
    split <;> simp [okOf]

theorem decodeString_ok {k : Bytes} (h : JString k) (r : Bytes) (p : DV) : decodeString (k ++ r) p = .ok (.string (unq k)) r := by
  unfold decodeString
  have : hasNullPrefix (k ++ r) = false := by
    obtain ⟨t, rfl⟩ := jstring_head h; exact hasNull_cons (by decide)
  rw [this]
  obtain ⟨n, e⟩ := unquote_ok h r
  rw [e]; rfl

theorem textU_str (f : Bytes → Option Err) {v : Bytes} (hs : JString v) (r : Bytes) (p : DV) :
    decodeTextUnmarshaler f (v ++ r) p = match f (unq v) with
      | some e => .err p r e
      | none => .ok (.user (some (unq v))) r := by
  unfold decodeTextUnmarshaler
  rw [parseValue_complete (.str v hs) (by simp [Follow])]
  obtain ⟨n, e⟩ := unquote_ok hs []
  rw [List.append_nil] at e
  obtain ⟨t, rfl⟩ := jstring_head hs
  simp [e]
  cases f (unq (0x22 :: t)) <;> rfl

theorem textU_inv {f : Bytes → Option Err} {b : Bytes} {p x : DV} {r : Bytes} (h : decodeTextUnmarshaler f b p = .ok x r) :
    ∃ v, parseValue b = .ok v r ∧ ((x = p ∧ v.head? = some 0x6e) ∨
      ∃ s r' n, parseStringUnquote v [] = .ok s r' n ∧ f s = none ∧ x = .user (some s)) := by
  unfold decodeTextUnmarshaler at h
  split at h
  · simp at h
  · rename_i v r' e
    split at h
    · simp [inputErr] at h
    · split at h
      · rename_i hc
        split at h
        · injection h with h1 h2; subst h1; subst h2; exact ⟨_, e, .inl ⟨rfl, by rw [hc]; rfl⟩⟩
        · simp at h
      · split at h
        · split at h
          · simp at h
          · simp at h
          · rename_i e2
            split at h
            · simp at h
            · rename_i e3
              injection h with h1 h2; subst h1; subst h2
              exact ⟨_, e, .inr ⟨_, _, _, e2, e3, rfl⟩⟩
        · simp at h

theorem textU_key {f : Bytes → Option Err} {b : Bytes} {p x : DV} {r : Bytes} (hn : hasNullPrefix b = false)
    (h : decodeTextUnmarshaler f b p = .ok x r) : ∃ k, JString k ∧ b = k ++ r ∧ f (unq k) = none ∧ x = .user (some (unq k)) := by
  obtain ⟨v, hv, hx⟩ := textU_inv h
  obtain ⟨rfl, j, hj⟩ := parseValue_sound hv
  rcases hx with ⟨_, hh⟩ | ⟨s, r', n, hu, hf, rfl⟩
  · exfalso
    cases hj with
    | null => simp [hasNullPrefix] at hn
    | num s hs =>
      obtain ⟨c, t, e, hc⟩ := jnumber_head hs
      rw [e, List.head?_cons, Option.some.injEq] at hh
      exact (digit_range hc).1 hh
    | str s hs =>
      obtain ⟨t, e⟩ := jstring_head hs
      rw [e] at hh; simp at hh
    | tru | fls | arrNil | arr | objNil | obj => simp at hh
  · have hh := unquote_head hu
    cases hj with
    | str s hs =>
      obtain ⟨n', e⟩ := unquote_ok hs []
      rw [List.append_nil, hu] at e
      injection e with e1 _ _
      subst e1
      exact ⟨v, hs, rfl, hf, rfl⟩
    | num s hs =>
      obtain ⟨c, t, e, hc⟩ := jnumber_head hs
      rw [e, List.head?_cons, Option.some.injEq] at hh
      subst hh
      exact absurd hc (by decide)
    | null | tru | fls | arrNil | arr | objNil | obj => simp at hh

theorem decodeKey_text_ok {tk : TextKey} {b : Bytes} {x : DV} {r : Bytes} (h : decodeKey (.text tk) b = .ok x r) :
    ∃ y, decodeTextUnmarshaler tk.answer b (.user none) = .ok y r ∧ x = tk.store y := by
  simp only [decodeKey] at h
  split at h
  · simp at h
  · simp at h
  · rename_i e
    injection h with h1 h2; subst h1; subst h2
    exact ⟨_, e, rfl⟩

theorem decodeKey_text_str (tk : TextKey) {k : Bytes} (h : JString k) (r : Bytes) :
    decodeKey (.text tk) (k ++ r) = match tk.answer (unq k) with
      | some e => .err (.user none) r e
      | none => .ok (.user (some (tk.key (unq k)))) r := by
  simp only [decodeKey, textU_str tk.answer h]
  cases tk.answer (unq k) <;> rfl

theorem decodeKey_app {k : Bytes} (h : JString k) (kt : KTy) (r : Bytes) :
    (∀ kv, keyJ kt k = some kv → ∃ d, decodeKey kt (k ++ r) = .ok d r ∧ keyOf d = kv) ∧
    (keyJ kt k = none → ∀ x r', decodeKey kt (k ++ r) ≠ .ok x r') := by
  have hn : hasNullPrefix k = false := by
    obtain ⟨t, rfl⟩ := jstring_head h; exact hasNull_cons (by decide)
  simp only [keyJ, hn, Bool.false_eq_true, if_false]
  cases kt with
  | str =>
    have e0 := decodeString_ok h [] (.string [])
    rw [List.append_nil] at e0
    simp only [decodeKey, decodeString_ok h, e0, okOf, Option.map_some]
    simp
  | int kk =>
    have := decodeFromString_app h (decodeInt kk) r (.int 0)
    simp only [decodeKey]
    constructor
    · intro kv e
      rw [Option.map_eq_some_iff] at e
      obtain ⟨d, e1, e2⟩ := e
      exact ⟨d, this.1 d e1, e2⟩
    · intro e
      exact this.2 (by simpa using e)
  | text tk =>
    have e0 := decodeKey_text_str tk h []
    rw [List.append_nil] at e0
    simp only [decodeKey_text_str tk h, e0]
    cases tk.answer (unq k) with
    | none => simp [okOf]
    | some e => simp [okOf]

theorem decodeFromStringToInt_app {k : Bytes} (h : JString k) (l : Lib) (dec : Dec) (r : Bytes) (p : DV) :
    (∀ x, okOf (decodeFromStringToInt l dec k p) = some x → decodeFromStringToInt l dec (k ++ r) p = .ok x r) ∧
    (okOf (decodeFromStringToInt l dec k p) = none → ∀ x r', decodeFromStringToInt l dec (k ++ r) p ≠ .ok x r') := by
  have hk : ∃ a t, k = 0x22 :: a :: t := by
    obtain ⟨s, hs⟩ := h
    cases s with
    | nil => exact ⟨_, _, rfl⟩
    | cons a s => exact ⟨a, _, rfl⟩
  obtain ⟨a, t, rfl⟩ := hk
  have key : ∀ r, decodeFromStringToInt l dec (0x22 :: a :: t ++ r) p =
      if a = 0x22 then .err p (0x22 :: a :: t ++ r) (.other 1)
      else match dec (stripZeroes (unq (0x22 :: a :: t))) p with
        | .crash c => .crash c
        | .ok p r' => if r' ≠ [] then .err p r' .unmarshalType else .ok p r
        | .err p _ e =>
          if e = .syntax then
            if (stripZeroes (unq (0x22 :: a :: t))).head? = some (ch! '-') then .err p r .unmarshalType else .err p r (.other 1)
          else match parseNumber (stripZeroes (unq (0x22 :: a :: t))) with
            | .ok _ _ => .err p r e
            | .fail _ _ => match parseValue (stripZeroes (unq (0x22 :: a :: t))) with
              | .ok _ _ => .err p r (.other 1)
              | .fail _ _ => .err p r e := by
    intro r
    unfold decodeFromStringToInt
    obtain ⟨n, e⟩ := unquote_ok h r
    have hn : hasNullPrefix (0x22 :: a :: t ++ r) = false := hasNull_cons (by decide)
    rw [hn, if_neg (by simp), if_neg (by simp), e]
    have : ((0x22 :: a :: t ++ r).take 2 = bs! "\"\"") ↔ a = 0x22 := by simp
    simp only [this]
    rfl
  have e0 := key []
  rw [List.append_nil] at e0
  rw [e0, key r]
  split
  · simp [okOf]
  · cases dec (stripZeroes (unq (0x22 :: a :: t))) p with
    | crash => simp [okOf]
    | err x rr e =>
      simp only []
      split
      · split <;> simp [okOf]
      · split
        · simp [okOf]
        · split <;> simp [okOf]
    | ok x v =>
      simp only []
      split <;> simp [okOf]

/-! numbers -/

theorem numStop_intStop {r : Bytes} (h : NumStop r) : IntStop r := by
  intro c t e
  obtain ⟨h1, h2, h3, h4⟩ := h c (by simp [e])
  exact ⟨fun hd => by rw [(isDigit_iff c).2 hd] at h1; exact absurd h1 (by decide), h2, h3, h4⟩

theorem jnumber_intLit {s l r r' : Bytes} {z : Int} (hs : JNumber s) (hr : NumStop r) (hl : IntLit l z) (hr' : IntStop r')
    (e : s ++ r = l ++ r') : s = l ∧ r = r' := by
  obtain ⟨sgn, i, f, x, hsg, hi, hf, hx⟩ := hs
  have hnd : NoDig (f ++ x ++ r) := by
    intro c t ec hd
    cases hf with
    | some ds _ => injection ec with e1 _; subst e1; exact absurd hd (by decide)
    | none =>
      cases hx with
      | some c' sg ds hc _ _ =>
        injection ec with e1 _; subst e1
        rcases hc with rfl | rfl <;> exact absurd hd (by decide)
      | none => exact (numStop_intStop hr c t ec).1 hd
  have fin : ∀ i', JInt i' → i ++ (f ++ x ++ r) = i' ++ r' → f = [] ∧ x = [] ∧ i = i' ∧ r = r' := by
    intro i' hi' e2
    obtain ⟨e3, e4⟩ := digit_run_unique hi.digits.2 hi'.digits.2 hnd (intStop_noDig hr') e2
    cases hf with
    | some ds _ => exact absurd rfl (hr' _ _ e4.symm).2.1
    | none =>
      cases hx with
      | some c' sg ds hc _ _ =>
        have := hr' _ _ e4.symm
        rcases hc with rfl | rfl
        · exact absurd rfl this.2.2.1
        · exact absurd rfl this.2.2.2
      | none => exact ⟨rfl, rfl, e3, e4⟩
  have headDigit : ∀ x y : Bytes, JInt x → ¬ ∃ s, x ++ y = 0x2d :: s := by
    rintro x y hx ⟨s, es⟩
    have hd := hx.digits
    cases x with
    | nil => exact hd.1 rfl
    | cons a x =>
      simp only [List.cons_append, List.cons.injEq] at es
      obtain ⟨rfl, _⟩ := es
      exact absurd (hd.2 0x2d (by simp)) (by decide)
  have e1 : sgn ++ (i ++ (f ++ x ++ r)) = l ++ r' := by simpa using e
  rcases hsg with rfl | rfl
  · cases hl with
    | nonneg i' hi' => obtain ⟨rfl, rfl, rfl, rfl⟩ := fin _ hi' (by simpa using e1); simp
    | neg i' hi' => exact absurd ⟨i' ++ r', by simpa using e1⟩ (headDigit _ _ hi)
  · cases hl with
    | nonneg i' hi' => exact absurd ⟨_, e1.symm⟩ (headDigit _ _ hi')
    | neg i' hi' => obtain ⟨rfl, rfl, rfl, rfl⟩ := fin i' hi' (by simpa using e1); simp

theorem kindLit_lit {k : IntKind} {l : Bytes} {z : Int} (h : KindLit k l z) : IntLit l z := by
  cases k <;> simp only [KindLit] at h
  case int | int8 | int16 | int32 | int64 => all_goals exact h
  all_goals
    obtain ⟨h, rfl⟩ := h
    exact .nonneg _ h

theorem hasNull_num {s : Bytes} (h : JNumber s) (r : Bytes) : hasNullPrefix (s ++ r) = false :=
  hasNull_value (.num s h) r

theorem not_null_num {s : Bytes} (h : JNumber s) (r : Bytes) : (s ++ r).take 4 ≠ bs! "null" := by
  obtain ⟨c, t, rfl, hc⟩ := jnumber_head h
  intro e
  have : c = 0x6e := by
    have := congrArg List.head? e
    simpa using this
  exact (digit_range hc).1 this

theorem decodeIntKind_num {k : IntKind} {s r : Bytes} {p : Int} (hs : JNumber s) (hr : NumStop r)
    (h : (decodeIntKind k (s ++ r) p).err = none) :
    ∃ z, KindLit k s z ∧ KindFits k z ∧ decodeIntKind k (s ++ r) p = ⟨z, r, none⟩ := by
  rcases (C10_only k (s ++ r) p).2 h with ⟨h1, _⟩ | ⟨l, z, e, hl, hf, hd, hst⟩
  · exact absurd h1 (not_null_num hs r)
  · obtain ⟨rfl, e2⟩ := jnumber_intLit hs hr (kindLit_lit hl) hst e
    exact ⟨z, hl, hf, (C10_sized k hl (numStop_intStop hr) p).1 hf⟩

theorem decodeInt_num (k : IntKind) {s r : Bytes} (p : DV) (hs : JNumber s) (hr : NumStop r) :
    (∀ x, okOf (decodeInt k s p) = some x → decodeInt k (s ++ r) p = .ok x r) ∧
    (okOf (decodeInt k s p) = none → ∀ x r', decodeInt k (s ++ r) p ≠ .ok x r') := by
  have key : ∀ r, NumStop r → ∀ q, decodeInt k (s ++ r) p = q →
      (∃ z, KindLit k s z ∧ KindFits k z ∧ q = .ok (.int z) r) ∨ (∀ x r', q ≠ .ok x r') := by
    intro r hr q hq
    unfold decodeInt at hq
    rw [hasNull_num hs] at hq
    simp only [Bool.false_eq_true, if_false] at hq
    split at hq
    · rename_i he
      obtain ⟨z, hl, hf, e⟩ := decodeIntKind_num hs hr he
      rw [e] at hq
      exact .inl ⟨z, hl, hf, hq.symm⟩
    · right; subst hq; simp
  have conv : ∀ r, NumStop r → ∀ z, KindLit k s z → KindFits k z → decodeInt k (s ++ r) p = .ok (.int z) r := by
    intro r hr z hl hf
    unfold decodeInt
    rw [hasNull_num hs, (C10_sized k hl (numStop_intStop hr) _).1 hf]
    rfl
  have k0 := key [] NumStop.nil _ rfl
  rw [List.append_nil] at k0
  constructor
  · intro x hx
    rcases k0 with ⟨z, hl, hf, e⟩ | h
    · rw [e] at hx
      simp only [okOf, Option.some.injEq] at hx
      subst hx
      exact conv r hr z hl hf
    · cases hd : decodeInt k s p with
      | ok y q => exact absurd hd (h y q)
      | err | crash => rw [hd] at hx; simp [okOf] at hx
  · intro hn x r' hx
    rcases key r hr _ hx with ⟨z, hl, hf, e⟩ | h
    · have := conv [] NumStop.nil z hl hf
      rw [List.append_nil] at this
      rw [this] at hn; simp [okOf] at hn
    · exact h x r' rfl

theorem parseInt_num {s r : Bytes} (hs : JNumber s) (hr : NumStop r) :
    (∀ z r', parseInt (s ++ r) = .ok z r' → r' = r ∧ parseInt s = .ok z []) ∧
    (∀ z, parseInt s = .ok z [] → parseInt (s ++ r) = .ok z r) ∧
    (∀ z r', parseInt s = .ok z r' → r' = []) := by
  refine ⟨?_, ?_, ?_⟩
  · intro z r' h
    obtain ⟨l, e, hl, hf, hst⟩ := parseInt_ok h
    obtain ⟨rfl, rfl⟩ := jnumber_intLit hs hr hl hst e
    refine ⟨rfl, ?_⟩
    have := parseInt_lit hl (r := []) (by intro c t e; simp at e)
    rw [List.append_nil, if_pos hf] at this
    exact this
  · intro z h
    obtain ⟨l, e, hl, hf, hst⟩ := parseInt_ok h
    rw [List.append_nil] at e; subst e
    rw [parseInt_lit hl (numStop_intStop hr), if_pos hf]
  · intro z r' h
    obtain ⟨l, e, hl, hf, hst⟩ := parseInt_ok h
    exact (jnumber_intLit hs NumStop.nil hl hst (by simpa using e)).2.symm

end JC
