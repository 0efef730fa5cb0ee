import Verif.Spec.DurKey
import Verif.Lemmas.MapDec
import Verif.Lemmas.DecSuff
/-!
Lemmas about maps with keys of type `time.Duration`.
-/
namespace JC
open Spec Props

/-- What `decodeDuration` takes. -/
theorem duration_only {l : Lib} {b : Bytes} {p x : DV} {r : Bytes} (h : decodeDuration l b p = .ok x r) :
    (b = bs! "null" ++ r ∧ x = p) ∨ (∃ t z, b = t ++ r ∧ IntLit t z ∧ FitsSigned 64 z ∧ x = .int z ∧ parseInt b = .ok z r ∧ hasNullPrefix b = false) ∨
    ∃ u z, b = 0x22 :: (u ++ 0x22 :: r) ∧ 0x22 ∉ u ∧ l.parseDuration u = some z ∧ x = .int z := by
  unfold decodeDuration at h
  split at h
  · rename_i hn
    injection h with h1 h2
    subst h1 h2
    exact .inl ⟨hasNull_take hn, rfl⟩
  · rename_i hn
    split at h
    · exact absurd h inputErr_ne
    · rename_i c t
      split at h
      · rename_i hc
        split at h
        · exact absurd h inputErr_ne
        · rename_i v r' e
          injection h with h1 h2
          subst h1 h2
          obtain ⟨lit, e1, e2, e3, _⟩ := parseInt_ok e
          exact .inr (.inl ⟨lit, v, e1, e2, e3, rfl, e, by simpa using hn⟩)
      · rename_i hc
        have hc : c = 0x22 := by simpa using hc
        subst hc
        split at h
        · exact absurd h inputErr_ne
        · split at h
          · exact absurd h inputErr_ne
          · rename_i i e
            split at h
            · exact absurd h inputErr_ne
            · rename_i v e2
              injection h with h1 h2
              obtain ⟨u, q, rfl, rfl, hu⟩ := indexByte_some e
              have eq1 : (u ++ 0x22 :: q).take u.length = u := by simp
              have eq2 : (u ++ 0x22 :: q).drop (u.length + 1) = q := by simp
              rw [eq1] at e2
              rw [eq2] at h2
              subst h1 h2
              exact .inr (.inr ⟨u, v, rfl, hu, e2, rfl⟩)

theorem duration_null (l : Lib) (s : Bytes) (p : DV) : decodeDuration l (bs! "null" ++ s) p = .ok p s := by
  have : hasNullPrefix (bs! "null" ++ s) = true := by simp [hasNullPrefix]
  unfold decodeDuration
  rw [if_pos this]
  simp

theorem duration_lit (l : Lib) {t s : Bytes} {z : Int} (h : IntLit t z) (hf : FitsSigned 64 z) (hs : IntStop s) (p : DV) :
    decodeDuration l (t ++ s) p = .ok (.int z) s := by
  have hn := hasNull_num (intLit_number h) s
  have hp := parseInt_lit h hs
  rw [if_pos hf] at hp
  unfold decodeDuration
  rw [hn]
  simp only [Bool.false_eq_true, if_false]
  cases e : t ++ s with
  | nil => rw [e] at hp; simp [parseInt] at hp
  | cons c q =>
    have hc : c ≠ 0x22 := by
      intro hc
      subst hc
      cases h with
      | nonneg i hi =>
        obtain ⟨hne, hd⟩ := hi.digits
        cases t with
        | nil => exact hne rfl
        | cons a t =>
          injection e with e1 e2
          subst e1
          exact absurd (hd _ List.mem_cons_self) (by unfold Digit; decide)
      | neg i hi => injection e with e1 e2; exact absurd e1 (by decide)
    simp only []
    rw [if_pos hc, ← e, hp]

theorem duration_quoted (l : Lib) {u s : Bytes} {z : Int} (hu : 0x22 ∉ u) (hz : l.parseDuration u = some z) (p : DV) :
    decodeDuration l (0x22 :: (u ++ 0x22 :: s)) p = .ok (.int z) s := by
  unfold decodeDuration
  rw [hasNull_cons (by decide)]
  simp only [Bool.false_eq_true, if_false]
  rw [if_neg (by simp), if_neg (by simp only [List.length_cons, List.length_append]; omega), indexByte_append hu]
  simp only []
  have eq1 : (u ++ 0x22 :: s).take u.length = u := by simp
  have eq2 : (u ++ 0x22 :: s).drop (u.length + 1) = s := by simp
  rw [eq1, eq2, hz]

/-- The key of a member. -/
theorem durKey_iff (l : Lib) {raw : Bytes} (h : JString raw) (r : Bytes) (z : Int) :
    decodeDurKey l (raw ++ r) = .ok (.int z) r ↔ HasDurKey l raw z := by
  unfold decodeDurKey
  rw [decodeFromString_eq h]
  have hkm := keyMeans_unq h
  constructor
  · intro hk
    cases ed : decodeDuration l (unq raw) (.int 0) with
    | crash c => rw [ed] at hk; simp at hk
    | err x r e => rw [ed] at hk; simp at hk
    | ok x v =>
      rw [ed] at hk
      simp only [] at hk
      split at hk
      · simp at hk
      · rename_i hs
        injection hk with hx _
        subst hx
        have hw : Ws v := skipSpaces_eq_nil (by simpa using hs)
        rcases duration_only ed with ⟨e1, e2⟩ | ⟨t, z', e1, e2, e3, e4, _⟩ | ⟨u, z', e1, e2, e3, e4⟩
        · injection e2 with e2
          exact ⟨_, v, (hkm _).2 e1.symm, hw, .inr (.inl ⟨rfl, e2⟩)⟩
        · injection e4 with e4; subst e4
          exact ⟨t, v, (hkm _).2 e1.symm, hw, .inl ⟨e2, e3⟩⟩
        · injection e4 with e4; subst e4
          exact ⟨_, v, (hkm _).2 (by rw [e1]; simp), hw, .inr (.inr ⟨u, rfl, e2, e3⟩)⟩
  · rintro ⟨t, s, hm, hs, ht⟩
    have hd : decodeDuration l (unq raw) (.int 0) = .ok (.int z) s := by
      rw [← (hkm _).1 hm]
      rcases ht with ⟨h1, h2⟩ | ⟨rfl, rfl⟩ | ⟨u, rfl, h1, h2⟩
      · exact duration_lit l h1 h2 (numStop_intStop (numStop_ws hs)) _
      · exact duration_null l s _
      · have := duration_quoted l (s := s) h1 h2 (.int 0)
        simpa using this
    rw [hd]
    simp [skipSpaces_ws hs]

/-- `int64` keys are duration keys. -/
theorem decodeDuration_of_int {l : Lib} {b r : Bytes} {x : DV} (h : decodeInt .int64 b (.int 0) = .ok x r) :
    decodeDuration l b (.int 0) = .ok x r := by
  unfold decodeInt at h
  split at h
  · rename_i hn
    injection h with h1 h2
    subst h1 h2
    unfold decodeDuration
    rw [if_pos hn]
  · rename_i hn
    simp only [decodeIntKind, decodeInt64, hn, Bool.false_eq_true, if_false] at h
    cases e : parseInt b with
    | fail r e' => rw [e] at h; simp at h
    | ok v r' =>
      rw [e] at h
      simp only [] at h
      injection h with h1 h2
      subst h1 h2
      obtain ⟨t, rfl, h1, h2, h3⟩ := parseInt_ok e
      rw [wrapS64_fits h2]
      exact duration_lit l h1 h2 h3 _

/-- Durations that are not in quotation marks are `int64`. -/
theorem decodeInt_of_duration {l : Lib} {b r : Bytes} {x : DV} (hb : b.head? ≠ some 0x22) (h : decodeDuration l b (.int 0) = .ok x r) :
    decodeInt .int64 b (.int 0) = .ok x r := by
  unfold decodeInt
  rcases duration_only h with ⟨e1, e2⟩ | ⟨t, z', e1, e2, e3, e4, e5, e6⟩ | ⟨u, z', e1, e2, e3, e4⟩
  · have : hasNullPrefix b = true := by rw [e1]; simp [hasNullPrefix]
    rw [if_pos this, e2, e1]
    simp
  · rw [e6]
    simp only [Bool.false_eq_true, if_false, decodeIntKind, decodeInt64, e6, e5, wrapS64_fits e3, e4]
  · rw [e1] at hb; simp at hb

theorem fromString_mono {d1 d2 : Dec} {b r : Bytes} {p x : DV} (hn : hasNullPrefix b = false)
    (hd : ∀ v r' q, parseStringUnquote b [] = .ok v r' q → ∀ x r, d1 v p = .ok x r → d2 v p = .ok x r)
    (h : decodeFromString d1 b p = .ok x r) : decodeFromString d2 b p = .ok x r := by
  unfold decodeFromString at *
  rw [hn] at *
  simp only [Bool.false_eq_true, if_false] at *
  cases e : parseStringUnquote b [] with
  | panic => rw [e] at h; simp at h
  | fail r e' => rw [e] at h; exact absurd h inputErr_ne
  | ok v r' q =>
    rw [e] at h
    simp only [] at *
    cases e2 : d1 v p with
    | crash c => rw [e2] at h; simp at h
    | err a b c => rw [e2] at h; simp at h
    | ok y s =>
      rw [e2] at h
      rw [hd _ _ _ e _ _ e2]
      exact h

/-- A string literal without a backslash does not stand for a text that begins with a quotation mark. -/
theorem unquote_noQuote {b v r : Bytes} {q : Bool} (hb : 0x5c ∉ b) (h : parseStringUnquote b [] = .ok v r q) : v.head? ≠ some 0x22 := by
  obtain ⟨lit, hl, rfl⟩ := C04_unquote_only h
  obtain ⟨n, e⟩ := unquote_ok hl r
  rw [h] at e
  injection e with e _ _
  subst e
  obtain ⟨s, rs, rfl, hm⟩ := jstring_means hl
  rw [unq_means hm]
  have hs : 0x5c ∉ s := fun hh => hb (by simp [hh])
  cases hm with
  | nil => simp [utf8s]
  | rune r s rs h1 h2 h3 h4 _ =>
    simp only [utf8s, List.flatMap_cons]
    unfold utf8
    split
    · intro hh
      simp only [List.cons_append, List.head?_cons, Option.some.injEq] at hh
      have := congrArg UInt8.toNat hh
      rw [ofNat_toNat _ (by omega)] at this
      exact h3 this
    · have key : ∀ n, 0x80 ≤ n → n < 256 → UInt8.ofNat n ≠ 0x22 := by
        intro n h1 h2 hh
        have := congrArg UInt8.toNat hh
        rw [ofNat_toNat _ h2] at this
        change n = 34 at this
        omega
      have hmax : r < 0x110000 := by
        rcases h1 with h1 | h1 <;> omega
      split
      · simp only [List.cons_append, List.head?_cons, ne_eq, Option.some.injEq]; exact key _ (by omega) (by omega)
      · split
        · simp only [List.cons_append, List.head?_cons, ne_eq, Option.some.injEq]; exact key _ (by omega) (by omega)
        · simp only [List.cons_append, List.head?_cons, ne_eq, Option.some.injEq]; exact key _ (by omega) (by omega)
  | bad c s rs h1 h2 _ =>
    simp only [utf8s, List.flatMap_cons]
    simp [utf8]
  | esc => simp at hs
  | uni => simp at hs
  | pair => simp at hs
  | lone => simp at hs

/-! ### maps -/

theorem mapLoopBy_key (k : KTy) (dec : Dec) (z p : DV) (fresh : Bool) (input : Bytes) : ∀ n first m b,
    mapLoopBy (decodeKey k) dec z p fresh input n first m b = mapLoopD k dec z p fresh input n first m b := by
  intro n
  induction n with
  | zero => intro first m b; rfl
  | succ n ih =>
    intro first m b
    rw [mapLoopBy, mapLoopD]
    simp only [ih]
    cases memberKey (decodeKey k) first (skipSpaces b) with
    | inl c => rfl
    | inr s =>
      cases s with
      | inl s => rfl
      | inr s =>
        obtain ⟨kv, b2⟩ := s
        simp only []
        cases dec b2 z with
        | crash c => rfl
        | err x y w => simp only []; cases parseValue input <;> rfl
        | ok v y => rfl

/-- The loop is that of `decodeMap`. -/
theorem decodeMapBy_key (k : KTy) (dec : Dec) (z : DV) : decodeMapBy (decodeKey k) dec z = decodeMap k dec z := by
  funext b p
  unfold decodeMapBy decodeMap
  simp only [mapLoopBy_key]
  cases b with
  | nil => rfl
  | cons c t => cases p <;> rfl

theorem memberKey_mono {k1 k2 : Bytes → DRes} {I : Bytes → Prop} (hI : ∀ a b, a <:+ b → I b → I a)
    (hk : ∀ b x r, I b → hasNullPrefix b = false → k1 b = .ok x r → k2 b = .ok x r) {first : Bool} {b : Bytes} {d : DV} {r : Bytes} (hb : I b)
    (h : memberKey k1 first b = .inr (.inr (d, r))) : memberKey k2 first b = .inr (.inr (d, r)) := by
  have one : ∀ b, I b → memberKey k1 true b = .inr (.inr (d, r)) → memberKey k2 true b = .inr (.inr (d, r)) := by
    intro b hb h
    unfold memberKey at *
    simp only [if_true] at *
    split at h
    · simp at h
    · rename_i hn
      rw [if_neg hn]
      cases e : k1 b with
      | crash c => rw [e] at h; simp at h
      | err x y w => rw [e] at h; simp at h
      | ok x y =>
        rw [e] at h
        rw [hk _ _ _ hb (by simpa using hn) e]
        exact h
  cases first with
  | true => exact one b hb h
  | false =>
    cases b with
    | nil => simp [memberKey] at h
    | cons c t =>
      by_cases hc : c = 0x2c
      · subst hc
        rw [memberKey_comma] at *
        exact one _ (hI _ _ ((skip_suf t).trans (List.suffix_cons _ _)) hb) h
      · simp [memberKey, hc] at h

theorem mapLoopBy_mono {k1 k2 : Bytes → DRes} {I : Bytes → Prop} (hI : ∀ a b, a <:+ b → I b → I a)
    (hk : ∀ b x r, I b → hasNullPrefix b = false → k1 b = .ok x r → k2 b = .ok x r) (hs : ∀ b x r, k1 b = .ok x r → r <:+ b)
    {dec : Dec} (hd : Suff dec) {z p : DV} {fresh : Bool} {input : Bytes} : ∀ n first m b x r, I b →
      mapLoopBy k1 dec z p fresh input n first m b = .ok x r → mapLoopBy k2 dec z p fresh input n first m b = .ok x r := by
  intro n
  induction n with
  | zero => intro first m b x r _ h; simp [mapLoopBy] at h
  | succ n ih =>
    intro first m b x r hb h
    have hb1 := hI _ _ (skip_suf b) hb
    rw [mapLoopBy] at *
    simp only [] at *
    split at h
    · rename_i hh
      rw [if_pos hh]
      exact h
    · rename_i hh
      rw [if_neg hh]
      cases e : memberKey k1 first (skipSpaces b) with
      | inl c => rw [e] at h; simp at h
      | inr s =>
        cases s with
        | inl s => rw [e] at h; simp at h
        | inr s =>
          obtain ⟨kv, b2⟩ := s
          rw [e] at h
          rw [memberKey_mono hI hk hb1 e]
          simp only [] at *
          have h2 := memberKey_suf hs e
          cases e2 : dec b2 z with
          | crash c => rw [e2] at h; simp at h
          | err x y w =>
            rw [e2] at h
            simp only [] at h
            split at h <;> simp at h
          | ok v y =>
            rw [e2] at h
            exact ih _ _ _ _ _ (hI _ _ ((hd _ _ _ _ e2).trans h2) hb1) h

theorem decodeMapBy_mono {k1 k2 : Bytes → DRes} {I : Bytes → Prop} (hI : ∀ a b, a <:+ b → I b → I a)
    (hk : ∀ b x r, I b → hasNullPrefix b = false → k1 b = .ok x r → k2 b = .ok x r) (hs : ∀ b x r, k1 b = .ok x r → r <:+ b)
    {dec : Dec} (hd : Suff dec) {z : DV} {b : Bytes} {p x : DV} {r : Bytes} (hb : I b) (h : decodeMapBy k1 dec z b p = .ok x r) :
    decodeMapBy k2 dec z b p = .ok x r := by
  unfold decodeMapBy at *
  split at h
  · rename_i hn; rw [if_pos hn]; exact h
  · rename_i hn
    rw [if_neg hn]
    split at h
    · exact absurd h inputErr_ne
    · rename_i c t
      split at h
      · exact absurd h inputErr_ne
      · rename_i hc
        rw [if_neg hc]
        have ht := hI _ _ (List.suffix_cons c t) hb
        cases p <;> exact mapLoopBy_mono hI hk hs hd _ _ _ _ _ _ ht h

theorem decodeDurKey_suf {l : Lib} (b : Bytes) (x : DV) (r : Bytes) (h : decodeDurKey l b = .ok x r) : r <:+ b := by
  refine fromString_suff (dec := decodeDuration l) ?_ _ _ _ _ h
  intro b p x r h
  rcases duration_only h with ⟨e1, _⟩ | ⟨t, _, e1, _⟩ | ⟨u, _, e1, _⟩
  · exact ⟨_, e1.symm⟩
  · exact ⟨_, e1.symm⟩
  · exact ⟨0x22 :: (u ++ [0x22]), by rw [e1]; simp⟩

/-- `Unmarshal` for a decoding function. -/
theorem done_iff {d : Dec} {b : Bytes} {p v : DV} : (match parseInto d b p with
    | .crash x => URes.crash x
    | .ok v r => .done v (if r ≠ [] then some .syntax else none)
    | .err v r e => .done v (if r ≠ [] then some .syntax else some e)) = .done v none ↔
    ∃ r, d (skipSpaces b) p = .ok v r ∧ skipSpaces r = [] := by
  unfold parseInto
  cases d (skipSpaces b) p with
  | crash c => simp
  | err x r e =>
    simp only [URes.done.injEq, reduceCtorEq, false_and, exists_const, iff_false, not_and]
    intro _; split <;> simp
  | ok x r =>
    simp only [URes.done.injEq, DRes.ok.injEq]
    constructor
    · rintro ⟨rfl, h⟩
      refine ⟨r, ⟨rfl, rfl⟩, ?_⟩
      by_cases hr : skipSpaces r = []
      · exact hr
      · simp [hr] at h
    · rintro ⟨r', ⟨rfl, rfl⟩, h⟩
      exact ⟨rfl, by simp [h]⟩

theorem unmarshalDur_iff {c : DCfg} {n : Nat} {t : Ty} {b : Bytes} {p v : DV} : unmarshalDur c n t b p = .done v none ↔
    ∃ r, decodeMapBy (decodeDurKey c.lib) (decN c n t) (zero t) (skipSpaces b) p = .ok v r ∧ skipSpaces r = [] := done_iff

theorem unmarshalInt_iff {c : DCfg} {n : Nat} {t : Ty} {b : Bytes} {p v : DV} : unmarshal c n (.map (.int .int64) t) b p = .done v none ↔
    ∃ r, decodeMapBy (decodeKey (.int .int64)) (decN c n t) (zero t) (skipSpaces b) p = .ok v r ∧ skipSpaces r = [] := by
  rw [decodeMapBy_key, ← decN_map]
  exact done_iff

end JC
