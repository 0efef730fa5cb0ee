import Verif.Model.Token
import Verif.Spec.Doc
import Verif.Lemmas.ParseFuel
/-! The Tokenizer on documents of the grammar. -/
namespace JC
open Spec

theorem tokSkip_eq (b : Bytes) : tokSkip b = skipSpaces b := by
  induction b with
  | nil => rfl
  | cons c t ih =>
    rw [tokSkip, skipSpaces_eq, List.dropWhile_cons]
    have : (c = 0x20 ∨ c = 0x09 ∨ c = 0x0a ∨ c = 0x0d) ↔ isSpace c = true := by
      simp [isSpace, or_assoc]
    by_cases h : isSpace c = true
    · rw [if_pos (this.2 h), if_pos h, ih, skipSpaces_eq]
    · rw [if_neg (fun hh => h (this.1 hh)), if_neg h]

/-! ### Tokens with the stale key flag

`Next` clears the key flag only at `:`. After an empty object it is still set. -/

mutual
/-- The tokens as the code reports them, entering with key flag `b`. -/
def tokS (b : Bool) (d i : Nat) : Json → List SpecTok
  | .null => [⟨0, [0x6e, 0x75, 0x6c, 0x6c], d, i, b⟩]
  | .tru => [⟨0, [0x74, 0x72, 0x75, 0x65], d, i, b⟩]
  | .fls => [⟨0, [0x66, 0x61, 0x6c, 0x73, 0x65], d, i, b⟩]
  | .num s => [⟨0, s, d, i, b⟩]
  | .str s => [⟨0, s, d, i, b⟩]
  | .arr xs => ⟨0x5b, [0x5b], d, i, false⟩ :: (tokSE b (d + 1) 0 xs ++ [⟨0x5d, [0x5d], d, i, false⟩])
  | .obj ms => ⟨0x7b, [0x7b], d, i, false⟩ :: (tokSM (d + 1) 0 ms ++ [⟨0x7d, [0x7d], d, i, false⟩])
def tokSE (b : Bool) (d i : Nat) : List Json → List SpecTok
  | [] => []
  | [j] => tokS b d i j
  | j :: k :: xs => tokS b d i j ++ ⟨0x2c, [0x2c], d, i, false⟩ :: tokSE (after b j) d (i + 1) (k :: xs)
def tokSM (d i : Nat) : List (Bytes × Json) → List SpecTok
  | [] => []
  | [(k, j)] => ⟨0, k, d, i, true⟩ :: ⟨0x3a, [0x3a], d, i, false⟩ :: tokS false d i j
  | (k, j) :: m :: ms =>
    ⟨0, k, d, i, true⟩ :: ⟨0x3a, [0x3a], d, i, false⟩ ::
      (tokS false d i j ++ ⟨0x2c, [0x2c], d, i, false⟩ :: tokSM d (i + 1) (m :: ms))
end

/-- A specified token as an observation of the exported fields. -/
def toObs (t : SpecTok) : Obs := ⟨t.delim, t.value, t.depth, t.index, t.isKey⟩

/-- The part of the receiver that `Next` depends on. -/
def At (t : Tok) (json : Bytes) (st : List (Scope × Int)) (k : Bool) : Prop :=
  t.err = none ∧ t.json = json ∧ t.stack = st ∧ t.isKey = k

/-- `Next` returned true for each of these tokens in turn. -/
inductive Steps : Tok → List Obs → Tok → Prop
  | nil (t : Tok) : Steps t [] t
  | cons {t t' t'' : Tok} {l : List Obs} : t.next = .ret t' true → Steps t' l t'' → Steps t (t'.obs :: l) t''

theorem Steps.trans {a b c : Tok} {l m : List Obs} (h1 : Steps a l b) (h2 : Steps b m c) : Steps a (l ++ m) c := by
  induction h1 with
  | nil => exact h2
  | cons h _ ih => exact .cons h (ih h2)

theorem Steps.run {t t' : Tok} {l : List Obs} (h : Steps t l t') (n : Nat) :
    t.run (l.length + n) = (l ++ (t'.run n).1, (t'.run n).2) := by
  induction h with
  | nil => simp
  | cons hn _ ih =>
    rename_i t t' t'' l _
    have : (t'.obs :: l).length + n = (l.length + n) + 1 := by simp; omega
    rw [this, Tok.run, hn]
    simp only [ih, List.cons_append]

/-- position given by the top of the stack -/
def stIdx : List (Scope × Int) → Int
  | [] => 0
  | (_, n) :: _ => n - 1

theorem idx_eq (t : Tok) : t.idx = stIdx t.stack := by
  cases t with
  | mk a b c d e f g h st => cases st <;> rfl

theorem next_skip {t : Tok} {w c r : Bytes} {st : List (Scope × Int)} {k : Bool} (hw : Ws w)
    (h : At t (w ++ c) st k) (hc : skipSpaces c = c) (hne : c ≠ []) :
    t.next =
      (let s := tokScan c
       let t1 : Tok := { t with delim := s.1, value := s.2.1, err := s.2.2.2, depth := st.length,
                                index := stIdx st, IsKey := s.1 == 0 && k, json := s.2.2.1 }
       match t1.delimStep s.1 s.2.2.2 with
       | none => .panic
       | some (t, err) => .ret t ((s.1 != 0 || s.2.1.length != 0) && err.isNone)) := by
  obtain ⟨h1, h2, h3, h4⟩ := h
  unfold Tok.next
  rw [h1]
  simp only []
  rw [h2, tokSkip_eq, skipSpaces_ws_append hw, hc]
  have hl : ¬ c.length = 0 := by simpa using hne
  rw [if_neg hl]
  simp only [idx_eq, h3, h4]
  rfl

/-- One scalar token. -/
theorem step_scalar {t : Tok} {w v r : Bytes} {st : List (Scope × Int)} {k : Bool} (hw : Ws w)
    (hv : ∃ c u, v = c :: u ∧ isSpace c = false) (hs : tokScan (v ++ r) = (0, v, r, none))
    (h : At t (w ++ (v ++ r)) st k) :
    ∃ t', t.next = .ret t' true ∧ t'.obs = ⟨0, v, st.length, stIdx st, k⟩ ∧ At t' r st k := by
  obtain ⟨c, u, rfl, hc⟩ := hv
  rw [next_skip (r := r) hw h (skipSpaces_cons_of_not hc) (by simp), hs]
  refine ⟨_, rfl, ?_, rfl, rfl, h.2.2.1, h.2.2.2⟩
  simp [Tok.obs]

theorem tokScan_delim {c : UInt8} (hc : isDelim c = true) (r : Bytes) :
    tokScan (c :: r) = (c, [c], r, none) := by
  simp only [isDelim, Bool.or_eq_true, beq_iff_eq] at hc
  rcases hc with ((((rfl | rfl) | rfl) | rfl) | rfl) | rfl <;> rfl

theorem step_open_obj {t : Tok} {w r : Bytes} {st : List (Scope × Int)} {k : Bool} (hw : Ws w)
    (h : At t (w ++ 0x7b :: r) st k) :
    ∃ t', t.next = .ret t' true ∧ t'.obs = ⟨0x7b, [0x7b], st.length, stIdx st, false⟩ ∧
      At t' r ((.inObject, 1) :: st) true := by
  rw [next_skip (r := r) hw h (skipSpaces_cons_of_not (by decide)) (by simp), tokScan_delim (by decide)]
  refine ⟨_, rfl, rfl, rfl, rfl, ?_, rfl⟩
  simp [Tok.push, h.2.2.1]

theorem step_open_arr {t : Tok} {w r : Bytes} {st : List (Scope × Int)} {k : Bool} (hw : Ws w)
    (h : At t (w ++ 0x5b :: r) st k) :
    ∃ t', t.next = .ret t' true ∧ t'.obs = ⟨0x5b, [0x5b], st.length, stIdx st, false⟩ ∧
      At t' r ((.inArray, 1) :: st) k := by
  rw [next_skip (r := r) hw h (skipSpaces_cons_of_not (by decide)) (by simp), tokScan_delim (by decide)]
  refine ⟨_, rfl, rfl, rfl, rfl, ?_, h.2.2.2⟩
  simp [Tok.push, h.2.2.1]

theorem step_close_arr {t : Tok} {w r : Bytes} {st : List (Scope × Int)} {k : Bool} {n : Int} (hw : Ws w)
    (h : At t (w ++ 0x5d :: r) ((.inArray, n) :: st) k) :
    ∃ t', t.next = .ret t' true ∧ t'.obs = ⟨0x5d, [0x5d], st.length, stIdx st, false⟩ ∧ At t' r st k := by
  rw [next_skip (r := r) hw h (skipSpaces_cons_of_not (by decide)) (by simp), tokScan_delim (by decide)]
  have h3 := h.2.2.1
  simp only [Tok.delimStep, Tok.pop, h3]
  refine ⟨_, rfl, ?_, rfl, rfl, rfl, h.2.2.2⟩
  simp only [Tok.obs, idx_eq]
  simp

theorem step_close_obj {t : Tok} {w r : Bytes} {st : List (Scope × Int)} {k : Bool} {n : Int} (hw : Ws w)
    (h : At t (w ++ 0x7d :: r) ((.inObject, n) :: st) k) :
    ∃ t', t.next = .ret t' true ∧ t'.obs = ⟨0x7d, [0x7d], st.length, stIdx st, false⟩ ∧ At t' r st k := by
  rw [next_skip (r := r) hw h (skipSpaces_cons_of_not (by decide)) (by simp), tokScan_delim (by decide)]
  have h3 := h.2.2.1
  simp only [Tok.delimStep, Tok.pop, h3]
  refine ⟨_, rfl, ?_, rfl, rfl, rfl, h.2.2.2⟩
  simp only [Tok.obs, idx_eq]
  simp

theorem step_colon {t : Tok} {w r : Bytes} {st : List (Scope × Int)} {k : Bool} (hw : Ws w)
    (h : At t (w ++ 0x3a :: r) st k) :
    ∃ t', t.next = .ret t' true ∧ t'.obs = ⟨0x3a, [0x3a], st.length, stIdx st, false⟩ ∧ At t' r st false := by
  rw [next_skip (r := r) hw h (skipSpaces_cons_of_not (by decide)) (by simp), tokScan_delim (by decide)]
  exact ⟨_, rfl, rfl, rfl, rfl, h.2.2.1, rfl⟩

theorem step_comma {t : Tok} {w r : Bytes} {st : List (Scope × Int)} {k : Bool} {s : Scope} {n : Int} (hw : Ws w)
    (h : At t (w ++ 0x2c :: r) ((s, n) :: st) k) :
    ∃ t', t.next = .ret t' true ∧ t'.obs = ⟨0x2c, [0x2c], (st.length + 1 : Nat), n - 1, false⟩ ∧
      At t' r ((s, n + 1) :: st) (if s = .inObject then true else k) := by
  rw [next_skip (r := r) hw h (skipSpaces_cons_of_not (by decide)) (by simp), tokScan_delim (by decide)]
  have h3 := h.2.2.1
  cases s
  · simp only [Tok.delimStep, Tok.is, h3]
    exact ⟨_, rfl, rfl, rfl, rfl, rfl, h.2.2.2⟩
  · simp only [Tok.delimStep, Tok.is, h3]
    exact ⟨_, rfl, rfl, rfl, rfl, rfl, rfl⟩

theorem _root_.JC.Spec.JNumber.head {s : Bytes} (hs : JNumber s) :
    ∃ c t, s = c :: t ∧ (c = 0x2d ∨ isDigit c = true) := by
  obtain ⟨sgn, i, f, e, hs, hi, hf, he⟩ := hs
  rcases hs with rfl | rfl
  · cases hi with
    | zero => exact ⟨_, _, rfl, by decide⟩
    | pos d ds h1 h2 h3 =>
      refine ⟨d, ds ++ f ++ e, by simp, .inr ?_⟩
      rw [isDigit_iff]
      refine ⟨?_, h2⟩
      rw [UInt8.le_iff_toNat_le] at h1 ⊢
      have e1 : (0x30 : UInt8).toNat = 48 := rfl
      have e3 : (0x31 : UInt8).toNat = 49 := rfl
      omega
  · exact ⟨0x2d, i ++ f ++ e, by simp, .inl rfl⟩

theorem tokScan_num {s : Bytes} (hs : JNumber s) {r : Bytes} (hr : NumStop r) :
    tokScan (s ++ r) = (0, s, r, none) := by
  have hp := parseNumber_complete hs hr
  obtain ⟨c, t, rfl, hc⟩ := hs.head
  have hd : ∀ x : UInt8, isDigit x = false → x ≠ 0x2d → c ≠ x := by
    rintro x hx1 hx2 rfl
    rcases hc with hc | hc
    · exact hx2 hc
    · rw [hx1] at hc; contradiction
  rw [List.cons_append] at hp ⊢
  unfold tokScan
  simp only []
  rw [if_neg (hd _ (by decide) (by decide)), if_neg (hd _ (by decide) (by decide)),
    if_neg (hd _ (by decide) (by decide)), if_neg (hd _ (by decide) (by decide)), if_pos hc, hp]

theorem tokScan_str {s : Bytes} (hs : JString s) (r : Bytes) : tokScan (s ++ r) = (0, s, r, none) := by
  have hp := parseString_complete hs r
  obtain ⟨t, rfl⟩ := JString.head hs
  rw [List.cons_append] at hp ⊢
  unfold tokScan
  simp only [if_true, hp]

theorem tokScan_null (r : Bytes) : tokScan (bs! "null" ++ r) = (0, bs! "null", r, none) := by
  have hp := parseNull_complete r
  simp only [List.cons_append, List.nil_append] at hp ⊢
  unfold tokScan
  simp [hp]

theorem tokScan_true (r : Bytes) : tokScan (bs! "true" ++ r) = (0, bs! "true", r, none) := by
  have hp := parseTrue_complete r
  simp only [List.cons_append, List.nil_append] at hp ⊢
  unfold tokScan
  simp [hp]

theorem tokScan_false (r : Bytes) : tokScan (bs! "false" ++ r) = (0, bs! "false", r, none) := by
  have hp := parseFalse_complete r
  simp only [List.cons_append, List.nil_append] at hp ⊢
  unfold tokScan
  simp [hp]

/-- What tokenizing says for each nonterminal. -/
def TokSpec : Sym → Bytes → Prop
  | .value j, b => ∀ (t : Tok) (w r : Bytes) (st : List (Scope × Int)) (k : Bool) (i : Nat),
      Ws w → Follow j r → stIdx st = i → At t (w ++ (b ++ r)) st k →
      ∃ t', Steps t ((tokS k st.length i j).map toObs) t' ∧ At t' r st (after k j)
  | .elems xs, b => ∀ (t : Tok) (r : Bytes) (st : List (Scope × Int)) (k : Bool) (n : Nat),
      At t (b ++ 0x5d :: r) ((.inArray, (n : Int) + 1) :: st) k →
      ∃ t' w m, Ws w ∧ Steps t ((tokSE k (st.length + 1) n xs).map toObs) t' ∧
        At t' (w ++ 0x5d :: r) ((.inArray, m) :: st) (afterE k xs)
  | .members ms, b => ∀ (t : Tok) (r : Bytes) (st : List (Scope × Int)) (n : Nat),
      At t (b ++ 0x7d :: r) ((.inObject, (n : Int) + 1) :: st) true →
      ∃ t' w m, Ws w ∧ Steps t ((tokSM (st.length + 1) n ms).map toObs) t' ∧
        At t' (w ++ 0x7d :: r) ((.inObject, m) :: st) (afterM ms)

theorem stIdx_cons (s : Scope) (n : Nat) (st : List (Scope × Int)) : stIdx ((s, (n : Int) + 1) :: st) = n := by
  simp [stIdx]

theorem tok_complete {s : Sym} {b : Bytes} (h : Derives s b) : TokSpec s b := by
  induction h with
  | null =>
    intro t w r st k i hw _ hi hat
    obtain ⟨t', h1, h2, h3⟩ := step_scalar hw ⟨_, _, rfl, by decide⟩ (tokScan_null r) hat
    refine ⟨t', ?_, h3⟩
    have := Steps.cons h1 (.nil t')
    rw [h2, hi] at this
    exact this
  | tru =>
    intro t w r st k i hw _ hi hat
    obtain ⟨t', h1, h2, h3⟩ := step_scalar hw ⟨_, _, rfl, by decide⟩ (tokScan_true r) hat
    refine ⟨t', ?_, h3⟩
    have := Steps.cons h1 (.nil t')
    rw [h2, hi] at this
    exact this
  | fls =>
    intro t w r st k i hw _ hi hat
    obtain ⟨t', h1, h2, h3⟩ := step_scalar hw ⟨_, _, rfl, by decide⟩ (tokScan_false r) hat
    refine ⟨t', ?_, h3⟩
    have := Steps.cons h1 (.nil t')
    rw [h2, hi] at this
    exact this
  | num s hs =>
    intro t w r st k i hw hf hi hat
    obtain ⟨c, u, e, hc, _⟩ := derives_value_head (.num s hs)
    obtain ⟨t', h1, h2, h3⟩ := step_scalar hw ⟨c, u, e, hc⟩ (tokScan_num hs hf) hat
    refine ⟨t', ?_, h3⟩
    have := Steps.cons h1 (.nil t')
    rw [h2, hi] at this
    exact this
  | str s hs =>
    intro t w r st k i hw hf hi hat
    obtain ⟨c, u, e, hc, _⟩ := derives_value_head (.str s hs)
    obtain ⟨t', h1, h2, h3⟩ := step_scalar hw ⟨c, u, e, hc⟩ (tokScan_str hs r) hat
    refine ⟨t', ?_, h3⟩
    have := Steps.cons h1 (.nil t')
    rw [h2, hi] at this
    exact this
  | arrNil w0 hw0 =>
    intro t w r st k i hw hf hi hat
    obtain ⟨t1, a1, o1, s1⟩ := step_open_arr hw (r := w0 ++ 0x5d :: r) (by simpa using hat)
    obtain ⟨t2, a2, o2, s2⟩ := step_close_arr hw0 s1
    refine ⟨t2, ?_, s2⟩
    have := Steps.cons a1 (.cons a2 (.nil t2))
    rw [o1, o2, hi] at this
    exact this
  | arr xs b hd ih =>
    intro t w r st k i hw hf hi hat
    obtain ⟨t1, a1, o1, s1⟩ := step_open_arr hw (r := b ++ 0x5d :: r) (by simpa using hat)
    obtain ⟨t2, w2, m, hw2, st2, at2⟩ := ih t1 r st k 0 (by simpa using s1)
    obtain ⟨t3, a3, o3, s3⟩ := step_close_arr hw2 at2
    refine ⟨t3, ?_, s3⟩
    have := Steps.cons a1 (st2.trans (.cons a3 (.nil t3)))
    rw [o1, o3, hi] at this
    simpa [tokS, toObs] using this
  | objNil w0 hw0 =>
    intro t w r st k i hw hf hi hat
    obtain ⟨t1, a1, o1, s1⟩ := step_open_obj hw (r := w0 ++ 0x7d :: r) (by simpa using hat)
    obtain ⟨t2, a2, o2, s2⟩ := step_close_obj hw0 s1
    refine ⟨t2, ?_, s2⟩
    have := Steps.cons a1 (.cons a2 (.nil t2))
    rw [o1, o2, hi] at this
    exact this
  | obj xs b hd ih =>
    intro t w r st k i hw hf hi hat
    obtain ⟨t1, a1, o1, s1⟩ := step_open_obj hw (r := b ++ 0x7d :: r) (by simpa using hat)
    obtain ⟨t2, w2, m, hw2, st2, at2⟩ := ih t1 r st 0 (by simpa using s1)
    obtain ⟨t3, a3, o3, s3⟩ := step_close_obj hw2 at2
    refine ⟨t3, ?_, s3⟩
    have := Steps.cons a1 (st2.trans (.cons a3 (.nil t3)))
    rw [o1, o3, hi] at this
    simpa [tokS, toObs] using this
  | elemOne w1 w2 j b h1 h2 hj ih =>
    intro t r st k n hat
    obtain ⟨t1, s1, a1⟩ := ih t w1 (w2 ++ 0x5d :: r) _ k n h1
      (follow_of_numStop (numStop_ws_cons h2 (.inr (.inl rfl)))) (stIdx_cons _ n st) (by simpa using hat)
    exact ⟨t1, w2, _, h2, by simpa [tokSE] using s1, by simpa [afterE] using a1⟩
  | elemCons w1 w2 j b xs bs h1 h2 hj hxs ih ihs =>
    intro t r st k n hat
    obtain ⟨t1, s1, a1⟩ := ih t w1 (w2 ++ 0x2c :: (bs ++ 0x5d :: r)) _ k n h1
      (follow_of_numStop (numStop_ws_cons h2 (.inl rfl))) (stIdx_cons _ n st) (by simpa using hat)
    obtain ⟨t2, b2, o2, a2⟩ := step_comma h2 a1
    simp only [reduceCtorEq, if_false] at a2
    obtain ⟨t3, w3, m, hw3, s3, a3⟩ := ihs t2 r st (after k j) (n + 1) (by simpa using a2)
    refine ⟨t3, w3, m, hw3, ?_, by simpa [afterE] using a3⟩
    have := s1.trans (.cons b2 s3)
    rw [o2] at this
    cases xs with
    | nil => cases hxs
    | cons x xs => simpa [tokSE, toObs] using this
  | memOne w1 w2 w3 w4 key j b h1 h2 h3 h4 hk hj ih =>
    intro t r st n hat
    obtain ⟨u, hu⟩ := JString.head hk
    obtain ⟨t0, n0, o0, a0⟩ := step_scalar h1 ⟨_, u, hu, by decide⟩
      (tokScan_str hk (w2 ++ 0x3a :: (w3 ++ (b ++ (w4 ++ 0x7d :: r))))) (by simpa using hat)
    obtain ⟨t1, n1, o1, a1⟩ := step_colon h2 a0
    obtain ⟨t2, s2, a2⟩ := ih t1 w3 (w4 ++ 0x7d :: r) _ false n h3
      (follow_of_numStop (numStop_ws_cons h4 (.inr (.inr rfl)))) (stIdx_cons _ n st) a1
    refine ⟨t2, w4, _, h4, ?_, by simpa [afterM] using a2⟩
    have := Steps.cons n0 (.cons n1 s2)
    rw [o0, o1, stIdx_cons] at this
    simpa [tokSM, toObs] using this
  | memCons w1 w2 w3 w4 key j b ms bs h1 h2 h3 h4 hk hj hms ih ihs =>
    intro t r st n hat
    obtain ⟨u, hu⟩ := JString.head hk
    obtain ⟨t0, n0, o0, a0⟩ := step_scalar h1 ⟨_, u, hu, by decide⟩
      (tokScan_str hk (w2 ++ 0x3a :: (w3 ++ (b ++ (w4 ++ 0x2c :: (bs ++ 0x7d :: r)))))) (by simpa using hat)
    obtain ⟨t1, n1, o1, a1⟩ := step_colon h2 a0
    obtain ⟨t2, s2, a2⟩ := ih t1 w3 (w4 ++ 0x2c :: (bs ++ 0x7d :: r)) _ false n h3
      (follow_of_numStop (numStop_ws_cons h4 (.inl rfl))) (stIdx_cons _ n st) a1
    obtain ⟨t3, b3, o3, a3⟩ := step_comma h4 a2
    simp only [if_true] at a3
    obtain ⟨t4, w4', m, hw4, s4, a4⟩ := ihs t3 r st (n + 1) (by simpa using a3)
    refine ⟨t4, w4', m, hw4, ?_, ?_⟩
    · have := Steps.cons n0 (.cons n1 (s2.trans (.cons b3 s4)))
      rw [o0, o1, o3, stIdx_cons] at this
      cases ms with
      | nil => cases hms
      | cons x xs => simpa [tokSM, toObs] using this
    · cases ms with
      | nil => cases hms
      | cons x xs => simpa [afterM] using a4

/-! ### The stale flag against the specification -/

/-- Forget the key flag. -/
def unkey (t : SpecTok) : SpecTok := { t with isKey := false }

mutual
theorem tokS_unkey (k : Bool) (d i : Nat) : ∀ j : Json, (tokS k d i j).map unkey = (tokens d i j).map unkey
  | .null | .tru | .fls | .num _ | .str _ => by simp [tokS, tokens, unkey]
  | .arr xs => by simp [tokS, tokens, tokSE_unkey k (d + 1) 0 xs]
  | .obj ms => by simp [tokS, tokens, tokSM_unkey (d + 1) 0 ms]
theorem tokSE_unkey (k : Bool) (d i : Nat) : ∀ xs : List Json, (tokSE k d i xs).map unkey = (tokensElems d i xs).map unkey
  | [] => by simp [tokSE, tokensElems]
  | [j] => by simp [tokSE, tokensElems, tokS_unkey k d i j]
  | j :: x :: xs => by
    simp [tokSE, tokensElems, tokS_unkey k d i j, tokSE_unkey (after k j) d (i + 1) (x :: xs)]
theorem tokSM_unkey (d i : Nat) : ∀ ms : List (Bytes × Json), (tokSM d i ms).map unkey = (tokensMembers d i ms).map unkey
  | [] => by simp [tokSM, tokensMembers]
  | [(_, j)] => by simp [tokSM, tokensMembers, tokS_unkey false d i j]
  | (_, j) :: m :: ms => by
    simp [tokSM, tokensMembers, tokS_unkey false d i j, tokSM_unkey d (i + 1) (m :: ms)]
end

mutual
theorem tokS_clean (d i : Nat) : ∀ j : Json, NoEmptyObj j → after false j = false ∧ tokS false d i j = tokens d i j
  | .null, _ | .tru, _ | .fls, _ | .num _, _ | .str _, _ => by simp [tokS, tokens, after]
  | .arr xs, h => by
    have := tokSE_clean (d + 1) 0 xs (by simpa [NoEmptyObj] using h)
    simp [tokS, tokens, after, this]
  | .obj ms, h => by
    have h' : ms ≠ [] ∧ NoEmptyObjM ms := by simpa [NoEmptyObj] using h
    have := tokSM_clean (d + 1) 0 ms h'.1 h'.2
    simp [tokS, tokens, after, this]
theorem tokSE_clean (d i : Nat) : ∀ xs : List Json, NoEmptyObjL xs →
    afterE false xs = false ∧ tokSE false d i xs = tokensElems d i xs
  | [], _ => by simp [tokSE, tokensElems, afterE]
  | [j], h => by
    have h' : NoEmptyObj j := by simpa [NoEmptyObjL] using h
    have := tokS_clean d i j h'
    simp [tokSE, tokensElems, afterE, this]
  | j :: x :: xs, h => by
    have h' : NoEmptyObj j ∧ NoEmptyObjL (x :: xs) := by rwa [NoEmptyObjL] at h
    have h1 := tokS_clean d i j h'.1
    have h2 := tokSE_clean d (i + 1) (x :: xs) h'.2
    rw [afterE, tokSE, tokensElems, h1.1, h1.2, h2.2]
    exact ⟨h2.1, rfl⟩
theorem tokSM_clean (d i : Nat) : ∀ ms : List (Bytes × Json), ms ≠ [] → NoEmptyObjM ms →
    afterM ms = false ∧ tokSM d i ms = tokensMembers d i ms
  | [], h, _ => absurd rfl h
  | [(_, j)], _, h => by
    have h' : NoEmptyObj j := by simpa [NoEmptyObjM] using h
    have := tokS_clean d i j h'
    simp [tokSM, tokensMembers, afterM, this]
  | (_, j) :: m :: ms, _, h => by
    have h' : NoEmptyObj j ∧ NoEmptyObjM (m :: ms) := by rwa [NoEmptyObjM] at h
    have h1 := tokS_clean d i j h'.1
    have h2 := tokSM_clean d (i + 1) (m :: ms) (by simp) h'.2
    rw [afterM, tokSM, tokensMembers, h1.2, h2.2]
    exact ⟨h2.1, rfl⟩
end

mutual
theorem tokS_keyLe (k : Bool) (d i : Nat) : ∀ j : Json, KeyLe (tokens d i j) (tokS k d i j)
  | .null | .tru | .fls | .num _ | .str _ => by simp [tokS, tokens, KeyLe]
  | .arr xs => by
    simp only [tokS, tokens, KeyLe, Bool.false_eq_true, false_implies, true_and]
    exact (tokSE_keyLe k (d + 1) 0 xs).append (by simp [KeyLe])
  | .obj ms => by
    simp only [tokS, tokens, KeyLe, Bool.false_eq_true, false_implies, true_and]
    exact (tokSM_keyLe (d + 1) 0 ms).append (by simp [KeyLe])
theorem tokSE_keyLe (k : Bool) (d i : Nat) : ∀ xs : List Json, KeyLe (tokensElems d i xs) (tokSE k d i xs)
  | [] => by simp [tokSE, tokensElems, KeyLe]
  | [j] => by simpa [tokSE, tokensElems] using tokS_keyLe k d i j
  | j :: x :: xs => by
    rw [tokSE, tokensElems]
    refine (tokS_keyLe k d i j).append ?_
    simp only [KeyLe, Bool.false_eq_true, false_implies, true_and]
    exact tokSE_keyLe (after k j) d (i + 1) (x :: xs)
theorem tokSM_keyLe (d i : Nat) : ∀ ms : List (Bytes × Json), KeyLe (tokensMembers d i ms) (tokSM d i ms)
  | [] => by simp [tokSM, tokensMembers, KeyLe]
  | [(_, j)] => by
    simp only [tokSM, tokensMembers, KeyLe, implies_true, true_and, Bool.false_eq_true, false_implies]
    exact tokS_keyLe false d i j
  | (_, j) :: m :: ms => by
    rw [tokSM, tokensMembers]
    simp only [KeyLe, implies_true, true_and, Bool.false_eq_true, false_implies]
    refine (tokS_keyLe false d i j).append ?_
    simp only [KeyLe, implies_true, true_and, Bool.false_eq_true, false_implies]
    exact tokSM_keyLe d (i + 1) (m :: ms)
end

/-! ### Every input -/

theorem tokScan_cases (c : UInt8) (t : Bytes) :
    (∃ v b, tokScan (c :: t) = (0, v, b, none) ∧ c :: t = v ++ b ∧ ScalarTok v) ∨
    (isDelim c = true ∧ tokScan (c :: t) = (c, [c], t, none)) ∨
    (∃ v b, tokScan (c :: t) = (0, v, b, some .syntax) ∧ isDelim c = false ∧
      ¬ ∃ v b, c :: t = v ++ b ∧ ScalarTok v ∧ (JNumber v → NumStop b)) := by
  by_cases hdl : isDelim c = true
  · exact .inr (.inl ⟨hdl, tokScan_delim hdl t⟩)
  rw [Bool.not_eq_true] at hdl
  -- the scanner result decides
  have hcomp : ∀ v b, c :: t = v ++ b → ScalarTok v → (JNumber v → NumStop b) →
      tokScan (c :: t) = (0, v, b, none) := by
    intro v b e hv hn
    rw [e]
    rcases hv with rfl | rfl | rfl | hv | hv
    · exact tokScan_null b
    · exact tokScan_true b
    · exact tokScan_false b
    · exact tokScan_num hv (hn hv)
    · exact tokScan_str hv b
  have hbad : ∀ v b, tokScan (c :: t) = (0, v, b, some .syntax) →
      ¬ ∃ v b, c :: t = v ++ b ∧ ScalarTok v ∧ (JNumber v → NumStop b) := by
    rintro v b h ⟨v', b', e, hv, hn⟩
    rw [hcomp v' b' e hv hn] at h
    simp at h
  have hok : ∀ (pr : PR), (∀ v b, pr = .ok v b → c :: t = v ++ b ∧ ScalarTok v) → (∀ b e, pr = .fail b e → e = .syntax) →
      tokScan (c :: t) = (match pr with
        | .ok v b => (0, v, b, none)
        | .fail b e => (0, [], b, some e)) →
      (∃ v b, tokScan (c :: t) = (0, v, b, none) ∧ c :: t = v ++ b ∧ ScalarTok v) ∨
      (∃ v b, tokScan (c :: t) = (0, v, b, some .syntax)) := by
    intro pr h1 h2 h3
    cases pr with
    | ok v b => exact .inl ⟨v, b, h3, h1 v b rfl⟩
    | fail b e => right; rw [h2 b e rfl] at h3; exact ⟨_, _, h3⟩
  have hmain : (∃ v b, tokScan (c :: t) = (0, v, b, none) ∧ c :: t = v ++ b ∧ ScalarTok v) ∨
      (∃ v b, tokScan (c :: t) = (0, v, b, some .syntax)) := by
    by_cases h1 : c = 0x22
    · refine hok (parseString (c :: t)) ?_ ?_ ?_
      · intro v b e; obtain ⟨a, b⟩ := parseString_sound e; exact ⟨a, by simp [ScalarTok, b]⟩
      · intro b e h; exact parseString_err h
      · unfold tokScan; simp only []; rw [if_pos h1]; generalize parseString (c :: t) = q; cases q <;> rfl
    by_cases h2 : c = 0x6e
    · refine hok (parseNull (c :: t)) ?_ ?_ ?_
      · intro v b e; obtain ⟨a, b⟩ := parseNull_sound e; exact ⟨a, by simp [ScalarTok, b]⟩
      · intro b e h; exact parseNull_err h
      · unfold tokScan; simp only []; rw [if_neg h1, if_pos h2]; generalize parseNull (c :: t) = q; cases q <;> rfl
    by_cases h3 : c = 0x74
    · refine hok (parseTrue (c :: t)) ?_ ?_ ?_
      · intro v b e; obtain ⟨a, b⟩ := parseTrue_sound e; exact ⟨a, by simp [ScalarTok, b]⟩
      · intro b e h; exact parseTrue_err h
      · unfold tokScan; simp only []; rw [if_neg h1, if_neg h2, if_pos h3]; generalize parseTrue (c :: t) = q; cases q <;> rfl
    by_cases h4 : c = 0x66
    · refine hok (parseFalse (c :: t)) ?_ ?_ ?_
      · intro v b e; obtain ⟨a, b⟩ := parseFalse_sound e; exact ⟨a, by simp [ScalarTok, b]⟩
      · intro b e h; exact parseFalse_err h
      · unfold tokScan; simp only []; rw [if_neg h1, if_neg h2, if_neg h3, if_pos h4]; generalize parseFalse (c :: t) = q; cases q <;> rfl
    by_cases h5 : c = 0x2d ∨ isDigit c = true
    · refine hok (parseNumber (c :: t)) ?_ ?_ ?_
      · intro v b e; obtain ⟨a, b⟩ := parseNumber_sound e; exact ⟨a, by simp [ScalarTok, b]⟩
      · intro b e h; exact parseNumber_err h
      · unfold tokScan; simp only []; rw [if_neg h1, if_neg h2, if_neg h3, if_neg h4, if_pos h5]; generalize parseNumber (c :: t) = q; cases q <;> rfl
    · right
      refine ⟨[c], t, ?_⟩
      unfold tokScan; simp only []
      rw [if_neg h1, if_neg h2, if_neg h3, if_neg h4, if_neg h5, hdl]
      simp
  rcases hmain with h | ⟨v, b, h⟩
  · exact .inl h
  · exact .inr (.inr ⟨v, b, h, hdl, hbad v b h⟩)

/-- Bracket bytes of the scopes on the stack. -/
def openers (st : List (Scope × Int)) : Bytes :=
  st.map fun p => match p.1 with | .inArray => 0x5b | .inObject => 0x7b

theorem scalar_ne {v : Bytes} (h : ScalarTok v) : v ≠ [] := by
  rcases h with rfl | rfl | rfl | h | h
  · simp
  · simp
  · simp
  · obtain ⟨c, t, rfl, _⟩ := h.head; simp
  · obtain ⟨t, rfl⟩ := JString.head h; simp

/-- What one call of `Next` can do. -/
theorem next_cases {t : Tok} {json : Bytes} {st : List (Scope × Int)} {k : Bool} (h : At t json st k) :
    (Ws json ∧ t.next = .ret (newTokenizer []) false) ∨
    (∃ t' w v r st' k', json = w ++ (v ++ r) ∧ Ws w ∧ Lexeme v ∧ t.next = .ret t' true ∧ t'.value = v ∧
      At t' r st' k' ∧ opened (openers st) v = some (openers st')) ∨
    (∃ t' w c r, json = w ++ c :: r ∧ Ws w ∧ (c = 0x5d ∨ c = 0x7d) ∧ opened (openers st) [c] = none ∧
      t.next = .ret t' false ∧ t'.err = none) ∨
    (∃ w r, json = w ++ 0x2c :: r ∧ Ws w ∧ st = [] ∧ t.next = .panic) ∨
    (∃ t' w c r, json = w ++ c :: r ∧ Ws w ∧ isSpace c = false ∧ isDelim c = false ∧
      (¬ ∃ v b, c :: r = v ++ b ∧ ScalarTok v ∧ (JNumber v → NumStop b)) ∧
      t.next = .ret t' false ∧ t'.err = some .syntax) := by
  obtain ⟨w, hw, e⟩ := exists_skip json
  cases hs : skipSpaces json with
  | nil =>
    left
    refine ⟨skipSpaces_eq_nil hs, ?_⟩
    unfold Tok.next
    rw [h.1]
    simp only []
    rw [h.2.1, tokSkip_eq, hs]
    rfl
  | cons c r =>
    rw [hs] at e
    right
    have hcs := skipSpaces_head _ _ _ hs
    have hat := h
    rw [e] at hat
    rcases tokScan_cases c r with ⟨v, b, hsc, hvb, hv⟩ | ⟨hdl, hsc⟩ | ⟨v, b, hsc, hdl, hno⟩
    · left
      rw [hvb] at hat
      obtain ⟨t', h1, h2, h3⟩ := step_scalar hw (by
        cases v with
        | nil => exact absurd rfl (scalar_ne hv)
        | cons a v =>
          simp only [List.cons_append, List.cons.injEq] at hvb
          exact ⟨a, v, rfl, by rw [← hvb.1]; exact hcs⟩) (by rw [← hvb]; exact hsc) hat
      refine ⟨t', w, v, b, st, k, by rw [e, hvb], hw, .inl hv, h1, ?_, h3, ?_⟩
      · have := congrArg Obs.value h2; exact this
      · have : ∀ x : UInt8, isDelim x = true → v ≠ [x] := by
          rintro x hx rfl
          have h5 : ∀ x : UInt8, isDelim x = true → ¬ (x = 0x2d ∨ isDigit x = true) ∧ x ≠ 0x22 := by
            intro x hx
            simp only [isDelim, Bool.or_eq_true, beq_iff_eq] at hx
            rcases hx with ((((rfl | rfl) | rfl) | rfl) | rfl) | rfl <;> decide
          rcases hv with hv | hv | hv | hv | hv
          · simp at hv
          · simp at hv
          · simp at hv
          · obtain ⟨c', t', e', hc'⟩ := hv.head
            simp only [List.cons.injEq] at e'
            rw [← e'.1] at hc'
            exact (h5 x hx).1 hc'
          · obtain ⟨t', e'⟩ := JString.head hv
            simp only [List.cons.injEq] at e'
            exact (h5 x hx).2 e'.1
        unfold opened
        rw [if_neg (this _ (by decide)), if_neg (this _ (by decide)), if_neg (this _ (by decide)), if_neg (this _ (by decide))]
    · simp only [isDelim, Bool.or_eq_true, beq_iff_eq] at hdl
      rcases hdl with ((((rfl | rfl) | rfl) | rfl) | rfl) | rfl
      · left
        obtain ⟨t', h1, h2, h3⟩ := step_open_obj hw hat
        exact ⟨t', w, [0x7b], r, _, _, by simpa using e, hw, .inr (by decide), h1, congrArg Obs.value h2, h3, rfl⟩
      · -- '}'
        by_cases ht : ∃ n st', st = (.inObject, n) :: st'
        · left
          obtain ⟨n, st', rfl⟩ := ht
          obtain ⟨t', h1, h2, h3⟩ := step_close_obj hw hat
          exact ⟨t', w, [0x7d], r, st', _, by simpa using e, hw, .inr (by decide), h1, congrArg Obs.value h2, h3, rfl⟩
        · right; left
          rw [next_skip (r := r) hw hat (skipSpaces_cons_of_not hcs) (by simp), hsc]
          have h3 := h.2.2.1
          cases st with
          | nil =>
            simp only [Tok.delimStep, Tok.pop, h3]
            exact ⟨_, w, _, r, e, hw, .inr rfl, rfl, rfl, rfl⟩
          | cons p st' =>
            obtain ⟨s, n⟩ := p
            cases s with
            | inObject => exact absurd ⟨n, st', rfl⟩ ht
            | inArray =>
              simp only [Tok.delimStep, Tok.pop, h3]
              exact ⟨_, w, _, r, e, hw, .inr rfl, rfl, rfl, rfl⟩
      · left
        obtain ⟨t', h1, h2, h3⟩ := step_open_arr hw hat
        exact ⟨t', w, [0x5b], r, _, _, by simpa using e, hw, .inr (by decide), h1, congrArg Obs.value h2, h3, rfl⟩
      · -- ']'
        by_cases ht : ∃ n st', st = (.inArray, n) :: st'
        · left
          obtain ⟨n, st', rfl⟩ := ht
          obtain ⟨t', h1, h2, h3⟩ := step_close_arr hw hat
          exact ⟨t', w, [0x5d], r, st', _, by simpa using e, hw, .inr (by decide), h1, congrArg Obs.value h2, h3, rfl⟩
        · right; left
          rw [next_skip (r := r) hw hat (skipSpaces_cons_of_not hcs) (by simp), hsc]
          have h3 := h.2.2.1
          cases st with
          | nil =>
            simp only [Tok.delimStep, Tok.pop, h3]
            exact ⟨_, w, _, r, e, hw, .inl rfl, rfl, rfl, rfl⟩
          | cons p st' =>
            obtain ⟨s, n⟩ := p
            cases s with
            | inArray => exact absurd ⟨n, st', rfl⟩ ht
            | inObject =>
              simp only [Tok.delimStep, Tok.pop, h3]
              exact ⟨_, w, _, r, e, hw, .inl rfl, rfl, rfl, rfl⟩
      · left
        obtain ⟨t', h1, h2, h3⟩ := step_colon hw hat
        exact ⟨t', w, [0x3a], r, _, _, by simpa using e, hw, .inr (by decide), h1, congrArg Obs.value h2, h3, rfl⟩
      · cases st with
        | nil =>
          right; right; left
          rw [next_skip (r := r) hw hat (skipSpaces_cons_of_not hcs) (by simp), hsc]
          have h3 := h.2.2.1
          simp only [Tok.delimStep, Tok.is, h3]
          exact ⟨w, r, e, hw, trivial, rfl⟩
        | cons p st' =>
          left
          obtain ⟨s, n⟩ := p
          obtain ⟨t', h1, h2, h3⟩ := step_comma hw hat
          exact ⟨t', w, [0x2c], r, _, _, by simpa using e, hw, .inr (by decide), h1, congrArg Obs.value h2, h3, rfl⟩
    · right; right; right
      rw [next_skip (r := r) hw hat (skipSpaces_cons_of_not hcs) (by simp), hsc]
      refine ⟨{ t with delim := 0, value := v, err := some .syntax, depth := st.length, index := stIdx st, IsKey := k, json := b }, w, c, r, e, hw, hcs, hdl, hno, ?_, rfl⟩
      simp [Tok.delimStep]

end JC
