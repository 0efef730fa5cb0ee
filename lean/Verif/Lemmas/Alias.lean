import Verif.Spec.Alias
import Verif.Lemmas.DecSuff
import Verif.Lemmas.DecMap
/-! The decoder with memory does what the decoder without memory does. -/
namespace JC
open Spec Props

/-- The span is inside a buffer of the set `P`. -/
def Lies (m : AMem) (P : AKind → Nat → Prop) (x : AKind × Span) : Prop :=
  x.2.len = 0 ∨ P x.1 x.2.buf ∧ x.2.buf < m.length ∧ x.2.off + x.2.len ≤ (m.getD x.2.buf []).length

/-- All texts lie in buffers of the set. -/
def AllLie (m : AMem) (P : AKind → Nat → Prop) (l : List (AKind × Span)) : Prop := ∀ x ∈ l, Lies m P x

theorem allLie_nil {m : AMem} {P : AKind → Nat → Prop} : AllLie m P [] := by intro x h; simp at h

theorem allLie_append {m : AMem} {P : AKind → Nat → Prop} {a b : List (AKind × Span)} :
    AllLie m P (a ++ b) ↔ AllLie m P a ∧ AllLie m P b := by
  constructor
  · intro h; exact ⟨fun x hx => h x (List.mem_append_left _ hx), fun x hx => h x (List.mem_append_right _ hx)⟩
  · rintro ⟨h1, h2⟩ x hx; exact (List.mem_append.1 hx).elim (h1 x) (h2 x)

theorem allLie_cons {m : AMem} {P : AKind → Nat → Prop} {a : AKind × Span} {b : List (AKind × Span)} :
    AllLie m P (a :: b) ↔ Lies m P a ∧ AllLie m P b := by
  constructor
  · intro h; exact ⟨h a (List.mem_cons_self ..), fun x hx => h x (List.mem_cons_of_mem _ hx)⟩
  · rintro ⟨h1, h2⟩ x hx
    rcases List.mem_cons.1 hx with rfl | hx
    · exact h1
    · exact h2 x hx

theorem getD_prefix {m m' : AMem} (h : m <+: m') {i : Nat} (hi : i < m.length) : m'.getD i [] = m.getD i [] := by
  obtain ⟨t, rfl⟩ := h
  rw [List.getD_eq_getElem?_getD, List.getD_eq_getElem?_getD, List.getElem?_append_left hi]

theorem lies_mono {m m' : AMem} (h : m <+: m') {P : AKind → Nat → Prop} {x : AKind × Span} (hx : Lies m P x) : Lies m' P x := by
  rcases hx with hx | ⟨h1, h2, h3⟩
  · exact .inl hx
  · exact .inr ⟨h1, Nat.lt_of_lt_of_le h2 h.length_le, by rw [getD_prefix h h2]; exact h3⟩

theorem allLie_mono {m m' : AMem} (h : m <+: m') {P : AKind → Nat → Prop} {l : List (AKind × Span)} (hl : AllLie m P l) : AllLie m' P l :=
  fun x hx => lies_mono h (hl x hx)

theorem has_mono {m m' : AMem} (h : m <+: m') {s : Span} (hs : m.has s) : m'.has s := by
  rcases hs with hx | ⟨h2, h3⟩
  · exact .inl hx
  · exact .inr ⟨Nat.lt_of_lt_of_le h2 h.length_le, by rw [getD_prefix h h2]; exact h3⟩

theorem read_zero {m : AMem} {s : Span} (h : s.len = 0) : m.read s = [] := by simp [AMem.read, h]

theorem read_mono {m m' : AMem} (h : m <+: m') {s : Span} (hs : m.has s) : m'.read s = m.read s := by
  rcases hs with hx | ⟨h2, h3⟩
  · rw [read_zero hx, read_zero hx]
  · simp only [AMem.read, getD_prefix h h2]

mutual
theorem AV.read_congr {m m' : AMem} : ∀ (v : AV), (∀ x ∈ v.spans, m'.read x.2 = m.read x.2) → v.read m' = v.read m
  | .flat _ _, _ => by simp [AV.read]
  | .number s, h => by simp only [AV.read]; rw [h (.num, s) (by simp [AV.spans])]
  | .string s, h => by simp only [AV.read]; rw [h (.str, s) (by simp [AV.spans])]
  | .raw s, h => by simp only [AV.read]; rw [h (.raw, s) (by simp [AV.spans])]
  | .iface _ v, h => by simp only [AV.read]; rw [AV.read_congr v h]
  | .slice xs sp, h => by
    simp only [AV.read, AV.spans] at *
    rw [readL_congr xs (fun x hx => h x (List.mem_append_left _ hx)), readL_congr sp (fun x hx => h x (List.mem_append_right _ hx))]
  | .array xs, h => by simp only [AV.read]; rw [readL_congr xs h]
  | .map es, h => by simp only [AV.read]; rw [readE_congr es h]
  | .ptr v, h => by simp only [AV.read]; rw [AV.read_congr v h]
  | .struct xs, h => by simp only [AV.read]; rw [readL_congr xs h]
theorem readL_congr {m m' : AMem} : ∀ (vs : List AV), (∀ x ∈ spansL vs, m'.read x.2 = m.read x.2) → readL m' vs = readL m vs
  | [], _ => rfl
  | v :: vs, h => by
    simp only [readL, spansL] at *
    rw [AV.read_congr v (fun x hx => h x (List.mem_append_left _ hx)), readL_congr vs (fun x hx => h x (List.mem_append_right _ hx))]
theorem readE_congr {m m' : AMem} : ∀ (es : List (AKey × AV)), (∀ x ∈ spansE es, m'.read x.2 = m.read x.2) → readE m' es = readE m es
  | [], _ => rfl
  | (.str s, v) :: es, h => by
    simp only [readE, spansE, AKey.read] at *
    rw [h (.str, s) (List.mem_cons_self ..), AV.read_congr v (fun x hx => h x (List.mem_cons_of_mem _ (List.mem_append_left _ hx))),
      readE_congr es (fun x hx => h x (List.mem_cons_of_mem _ (List.mem_append_right _ hx)))]
  | (.int _, v) :: es, h | (.user _, v) :: es, h => by
    simp only [readE, spansE, AKey.read] at *
    rw [AV.read_congr v (fun x hx => h x (List.mem_append_left _ hx)), readE_congr es (fun x hx => h x (List.mem_append_right _ hx))]
end

theorem lies_has {m : AMem} {P : AKind → Nat → Prop} {x : AKind × Span} (h : Lies m P x) : m.has x.2 := by
  rcases h with h | ⟨_, h⟩
  · exact .inl h
  · exact .inr h

theorem av_read_mono {m m' : AMem} (h : m <+: m') {P : AKind → Nat → Prop} {v : AV} (hv : AllLie m P v.spans) : v.read m' = v.read m :=
  AV.read_congr v fun x hx => read_mono h (lies_has (hv x hx))

theorem readL_mono {m m' : AMem} (h : m <+: m') {P : AKind → Nat → Prop} {v : List AV} (hv : AllLie m P (spansL v)) : readL m' v = readL m v :=
  readL_congr v fun x hx => read_mono h (lies_has (hv x hx))

theorem readE_mono {m m' : AMem} (h : m <+: m') {P : AKind → Nat → Prop} {v : List (AKey × AV)} (hv : AllLie m P (spansE v)) :
    readE m' v = readE m v :=
  readE_congr v fun x hx => read_mono h (lies_has (hv x hx))

/-! ### spans of the input -/

theorem read_length {m : AMem} {s : Span} (h : m.has s) : (m.read s).length = s.len := by
  rcases h with h | ⟨_, h⟩
  · simp [AMem.read, h]
  · simp only [AMem.read, List.length_take, List.length_drop]; omega

theorem read_at {m : AMem} {sl : Span} (h : m.has sl) {a v r : Bytes} (e : m.read sl = a ++ v ++ r) :
    m.read (sl.at a.length v) = v ∧ (m.has (sl.at a.length v)) ∧ (v ≠ [] → sl.buf < m.length) := by
  have hl := read_length h
  rw [e] at hl
  simp only [List.length_append] at hl
  rcases h with h | ⟨h1, h2⟩
  · have : v = [] := by apply List.eq_nil_of_length_eq_zero; omega
    subst this
    exact ⟨by simp [AMem.read, Span.at], .inl rfl, fun h => absurd rfl h⟩
  · refine ⟨?_, .inr ⟨h1, by simp only [Span.at]; omega⟩, fun _ => h1⟩
    have e2 : ((m.getD sl.buf []).drop sl.off).take sl.len = a ++ v ++ r := e
    have e3 : ((m.getD sl.buf []).drop sl.off) = a ++ (v ++ (r ++ ((m.getD sl.buf []).drop sl.off).drop sl.len)) := by
      refine (List.take_append_drop sl.len ((m.getD sl.buf []).drop sl.off)).symm.trans ?_
      rw [e2]; simp only [List.append_assoc]
    show ((m.getD sl.buf []).drop (sl.off + a.length)).take v.length = v
    rw [← List.drop_drop, e3, List.drop_left, List.take_left]

theorem read_tail {m : AMem} {sl : Span} (h : m.has sl) {b : Bytes} (hb : b <:+ m.read sl) :
    m.read (sl.tail b) = b ∧ m.has (sl.tail b) := by
  obtain ⟨a, e⟩ := hb
  have hl := read_length h
  rw [← e, List.length_append] at hl
  have e2 : sl.tail b = sl.at a.length b := by simp only [Span.tail, Span.at, Span.mk.injEq, true_and, and_true]; omega
  rw [e2]
  have := read_at h (a := a) (v := b) (r := []) (by simpa using e.symm)
  exact ⟨this.1, this.2.1⟩

theorem read_alloc (m : AMem) (b : Bytes) : (m.alloc b).2.read (m.alloc b).1 = b := by
  simp [AMem.read, AMem.alloc]

theorem has_alloc (m : AMem) (b : Bytes) : (m.alloc b).2.has (m.alloc b).1 :=
  .inr (by simp [AMem.alloc])

theorem grows_alloc (m : AMem) (b : Bytes) : m <+: (m.alloc b).2 := List.prefix_append _ _

/-- The buffers that texts may get into: new ones, and that of the input if the flags
allow it. -/
structure Free (f : AFlags) (m : AMem) (P : AKind → Nat → Prop) (i : Nat) : Prop where
  new : ∀ k i, m.length ≤ i → P k i
  str : f.dontCopyString = true → P .str i
  num : f.dontCopyNumber = true → P .num i
  raw : f.dontCopyRaw = true → P .raw i

theorem Free.mono {f : AFlags} {m m' : AMem} {P : AKind → Nat → Prop} {i : Nat} (h : Free f m P i) (hm : m <+: m') : Free f m' P i :=
  ⟨fun k j hj => h.new k j (Nat.le_trans hm.length_le hj), h.str, h.num, h.raw⟩

theorem Free.fresh {f : AFlags} {m : AMem} {P : AKind → Nat → Prop} {i : Nat} (h : Free f m P i) {j : Nat} (hj : m.length ≤ j) : Free f m P j :=
  ⟨h.new, fun _ => h.new _ _ hj, fun _ => h.new _ _ hj, fun _ => h.new _ _ hj⟩

theorem Free.lies {f : AFlags} {m : AMem} {P : AKind → Nat → Prop} {i : Nat} (h : Free f m P i) (k : AKind) (b : Bytes) :
    Lies (m.alloc b).2 P (k, (m.alloc b).1) :=
  .inr ⟨h.new _ _ (Nat.le_refl _), by simp [AMem.alloc], by simp [AMem.alloc]⟩

/-- The results agree, and the texts of the new contents lie in buffers of the set. -/
inductive RSim (m : AMem) (P : AKind → Nat → Prop) : ARes → DRes → Prop where
  | ok {v : AV} {r : Bytes} {m' : AMem} {w : DV} : m <+: m' → AllLie m' P v.spans → v.read m' = w → RSim m P (.ok v r m') (.ok w r)
  | err {v : AV} {r : Bytes} {e : Err} {m' : AMem} {w : DV} :
    m <+: m' → AllLie m' P v.spans → v.read m' = w → RSim m P (.err v r e m') (.err w r e)
  | crash (c : Crash) : RSim m P (.crash c) (.crash c)

/-- The decoding functions agree. -/
def ASim (f : AFlags) (D : ADec) (d : Dec) : Prop :=
  ∀ (m : AMem) (sl : Span) (p : AV) (P : AKind → Nat → Prop), Free f m P sl.buf → m.has sl → AllLie m P p.spans →
    RSim m P (D m sl p) (d (m.read sl) (p.read m))

theorem RSim.grow {m m' : AMem} {P : AKind → Nat → Prop} {a : ARes} {r : DRes} (h : m <+: m') (hr : RSim m' P a r) : RSim m P a r := by
  cases hr with
  | ok h1 h2 h3 => exact .ok (h.trans h1) h2 h3
  | err h1 h2 h3 => exact .err (h.trans h1) h2 h3
  | crash c => exact .crash c

/-- The destination is left as it is. -/
theorem RSim.same {m : AMem} {P : AKind → Nat → Prop} {p : AV} (hp : AllLie m P p.spans) {r : Bytes} : RSim m P (.ok p r m) (.ok (p.read m) r) :=
  .ok (List.prefix_rfl) hp rfl

theorem RSim.same_err {m : AMem} {P : AKind → Nat → Prop} {p : AV} (hp : AllLie m P p.spans) {r : Bytes} {e : Err} :
    RSim m P (.err p r e m) (.err (p.read m) r e) :=
  .err (List.prefix_rfl) hp rfl

theorem RSim.input {m : AMem} {P : AKind → Nat → Prop} {p : AV} (hp : AllLie m P p.spans) {b : Bytes} :
    RSim m P (inputErrA b p m) (inputErr b (p.read m)) := .same_err hp

theorem spansL_append (a b : List AV) : spansL (a ++ b) = spansL a ++ spansL b := by
  induction a with
  | nil => rfl
  | cons v a ih => simp [spansL, ih]

theorem readL_append (m : AMem) (a b : List AV) : readL m (a ++ b) = readL m a ++ readL m b := by
  induction a with
  | nil => rfl
  | cons v a ih => simp [readL, ih]

theorem readL_isEmpty (m : AMem) (a : List AV) : (readL m a).isEmpty = a.isEmpty := by cases a <;> rfl

theorem readL_tail (m : AMem) (a : List AV) : (readL m a).tail = readL m a.tail := by cases a <;> rfl

theorem readL_length (m : AMem) (a : List AV) : (readL m a).length = a.length := by
  induction a with
  | nil => rfl
  | cons v a ih => simp [readL, ih]

theorem allLie_tail {m : AMem} {P : AKind → Nat → Prop} {a : List AV} (h : AllLie m P (spansL a)) : AllLie m P (spansL a.tail) := by
  cases a with
  | nil => exact h
  | cons v a => exact (allLie_append.1 h).2

/-- A zero value: it has no texts. -/
def ZeroFor (a : AV) (z : DV) : Prop := (∀ m, a.read m = z) ∧ ∀ m P, AllLie m P a.spans

theorem readL_headD {z0 : AV} {z : DV} (hz : ZeroFor z0 z) (m : AMem) (a : List AV) : (a.headD z0).read m = (readL m a).headD z := by
  cases a with
  | nil => exact hz.1 m
  | cons v a => rfl

theorem allLie_headD {z0 : AV} {z : DV} (hz : ZeroFor z0 z) {m : AMem} {P : AKind → Nat → Prop} {a : List AV} (h : AllLie m P (spansL a)) :
    AllLie m P (a.headD z0).spans := by
  cases a with
  | nil => exact hz.2 m P
  | cons v a => exact (allLie_append.1 h).1

/-! ### values of one piece -/

/-- The function stores a value of one piece or leaves the destination. -/
def FlatDec (d : Dec) : Prop := (∀ b p v r, d b p = .ok v r → v.flat = true ∨ v = p) ∧ ∀ b p v r e, d b p = .err v r e → v.flat = true ∨ v = p

theorem keep_read {v : DV} {p : AV} {m : AMem} (h : v.flat = true ∨ v = p.read m) : (AV.keep v p).read m = v := by
  unfold AV.keep
  split
  · rfl
  · rename_i hn; rcases h with h | h
    · exact absurd h hn
    · exact h.symm

theorem keep_spans {v : DV} {p : AV} {m : AMem} {P : AKind → Nat → Prop} (hp : AllLie m P p.spans) : AllLie m P (AV.keep v p).spans := by
  unfold AV.keep
  split
  · exact allLie_nil
  · exact hp

theorem lift_sim {f : AFlags} {d : Dec} (h : FlatDec d) : ASim f (liftA d) d := by
  intro m sl p P _ _ hp
  unfold liftA
  generalize hr : d (m.read sl) (p.read m) = R
  cases R with
  | ok v r => exact .ok List.prefix_rfl (keep_spans hp) (keep_read (h.1 _ _ _ _ hr))
  | err v r e => exact .err List.prefix_rfl (keep_spans hp) (keep_read (h.2 _ _ _ _ _ hr))
  | crash c => exact .crash c

/-! ### texts -/

theorem number_sim {f : AFlags} : ASim f (decodeNumberA f) decodeNumber := by
  intro m sl p P hf hs hp
  unfold decodeNumberA decodeNumber
  simp only []
  split
  · exact .same hp
  · cases hn : parseNumber (m.read sl) with
    | fail r e => exact .input hp
    | ok v r =>
      simp only []
      have e := (parseNumber_sound hn).1
      obtain ⟨h1, h2, h3⟩ := read_at hs (a := []) (v := v) (r := r) e
      split
      · rename_i hc
        refine .ok List.prefix_rfl (allLie_cons.2 ⟨?_, allLie_nil⟩) (by simpa [AV.read] using h1)
        rcases h2 with h2 | h2
        · exact .inl h2
        · exact .inr ⟨hf.num hc, h2⟩
      · exact .ok (grows_alloc m v) (allLie_cons.2 ⟨hf.lies _ v, allLie_nil⟩) (by simp [AV.read, read_alloc])

theorem unquote_place {m : AMem} {sl : Span} (hs : m.has sl) {s r : Bytes} {isNew : Bool} (h : parseStringUnquote (m.read sl) [] = .ok s r isNew) :
    (unquotedAt m sl s isNew).2.read (unquotedAt m sl s isNew).1 = s ∧ (unquotedAt m sl s isNew).2.has (unquotedAt m sl s isNew).1 ∧
      m <+: (unquotedAt m sl s isNew).2 ∧ ((unquotedAt m sl s isNew).1.buf = sl.buf ∨ m.length ≤ (unquotedAt m sl s isNew).1.buf) := by
  unfold unquotedAt
  cases isNew with
  | true => exact ⟨read_alloc m s, has_alloc m s, grows_alloc m s, .inr (Nat.le_refl _)⟩
  | false =>
    unfold parseStringUnquote at h
    split at h
    · simp at h
    · rename_i v rest esc hv
      obtain ⟨x, rfl, e, _, _⟩ := parseStringFast_sound hv
      split at h
      · simp at h
      · simp only [] at h
        split at h
        · injection h with h1 h2
          have hx : s = x := by
            rw [← h1]; simp
          subst hx
          obtain ⟨h3, h4, _⟩ := read_at hs (a := [0x22]) (v := s) (r := 0x22 :: rest) (by simpa using e)
          exact ⟨h3, h4, List.prefix_rfl, .inl rfl⟩
        · split at h <;> simp at h

theorem string_sim {f : AFlags} : ASim f (decodeStringA f) decodeString := by
  intro m sl p P hf hs hp
  unfold decodeStringA decodeString
  simp only []
  split
  · exact .same hp
  · cases hn : parseStringUnquote (m.read sl) [] with
    | panic => exact .crash _
    | fail r e =>
      simp only []
      split
      · exact .input hp
      · exact .same_err hp
    | ok s r isNew =>
      simp only []
      obtain ⟨h1, h2, h3, h4⟩ := unquote_place hs hn
      split
      · rename_i hc
        refine .ok h3 (allLie_cons.2 ⟨?_, allLie_nil⟩) (by simp [AV.read, h1])
        rcases h2 with h2 | h2
        · exact .inl h2
        · refine .inr ⟨?_, h2⟩
          cases isNew with
          | true => exact hf.new _ _ (Nat.le_refl _)
          | false => exact hf.str (by simpa using hc)
      · exact .ok (h3.trans (grows_alloc _ s)) (allLie_cons.2 ⟨(hf.mono h3).lies _ s, allLie_nil⟩) (by simp [AV.read, read_alloc])

theorem raw_sim {f : AFlags} : ASim f (decodeRawA f) decodeRawMessage := by
  intro m sl p P hf hs hp
  unfold decodeRawA decodeRawMessage
  simp only []
  cases hn : parseValue (m.read sl) with
  | fail r e => exact .input hp
  | ok v r =>
    simp only []
    have e := (parseValue_sound hn).1
    obtain ⟨h1, h2, h3⟩ := read_at hs (a := []) (v := v) (r := r) e
    split
    · rename_i hc
      refine .ok List.prefix_rfl (allLie_cons.2 ⟨?_, allLie_nil⟩) (by simpa [AV.read] using h1)
      rcases h2 with h2 | h2
      · exact .inl h2
      · exact .inr ⟨hf.raw hc, h2⟩
    · exact .ok (grows_alloc m v) (allLie_cons.2 ⟨hf.lies _ v, allLie_nil⟩) (by simp [AV.read, read_alloc])

/-! ### strings that hold values -/

theorem fromString_sim {f : AFlags} {D : ADec} {d : Dec} (h : ASim f D d) : ASim f (decodeFromStringA D) (decodeFromString d) := by
  intro m sl p P hf hs hp
  unfold decodeFromStringA decodeFromString
  simp only []
  split
  · exact h m sl p P hf hs hp
  · cases hn : parseStringUnquote (m.read sl) [] with
    | panic => exact .crash _
    | fail r e => exact .input hp
    | ok v r isNew =>
      simp only []
      obtain ⟨h1, h2, h3, h4⟩ := unquote_place hs hn
      have hf2 : Free f (unquotedAt m sl v isNew).2 P (unquotedAt m sl v isNew).1.buf := by
        rcases h4 with h4 | h4
        · rw [h4]; exact hf.mono h3
        · exact (hf.fresh h4).mono h3
      have hr := h _ _ p P hf2 h2 (allLie_mono h3 hp)
      rw [h1, av_read_mono h3 hp] at hr
      generalize D _ _ p = A at hr ⊢
      generalize d v _ = B at hr ⊢
      cases hr with
      | crash c => exact .crash c
      | err g1 g2 g3 => exact .err (h3.trans g1) g2 g3
      | ok g1 g2 g3 =>
        simp only []
        split
        · exact .err (h3.trans g1) g2 g3
        · exact .ok (h3.trans g1) g2 g3

theorem stripped_place {m : AMem} {sl : Span} (hs : m.has sl) {s r : Bytes} {isNew : Bool} (h : parseStringUnquote (m.read sl) [] = .ok s r isNew) :
    (strippedAt m sl s isNew).2.read (strippedAt m sl s isNew).1 = stripZeroes s ∧ (strippedAt m sl s isNew).2.has (strippedAt m sl s isNew).1 ∧
      m <+: (strippedAt m sl s isNew).2 ∧ ((strippedAt m sl s isNew).1.buf = sl.buf ∨ m.length ≤ (strippedAt m sl s isNew).1.buf) := by
  obtain ⟨h1, h2, h3, h4⟩ := unquote_place hs h
  unfold strippedAt
  split
  · exact ⟨read_alloc _ _, has_alloc _ _, h3.trans (grows_alloc _ _), .inr h3.length_le⟩
  · rename_i hz
    refine ⟨?_, h2, h3, h4⟩
    rw [h1]; unfold stripZeroes; simp [hz]

theorem fromStringToInt_sim {f : AFlags} {l : Lib} {D : ADec} {d : Dec} (h : ASim f D d) : ASim f (decodeFromStringToIntA l D) (decodeFromStringToInt l d) := by
  intro m sl p P hf hs hp
  unfold decodeFromStringToIntA decodeFromStringToInt
  simp only []
  split
  · exact h m sl p P hf hs hp
  · split
    · exact .same_err hp
    · split
      · exact .same_err hp
      · cases hn : parseStringUnquote (m.read sl) [] with
        | panic => exact .crash _
        | fail r e => exact .input hp
        | ok v r isNew =>
          simp only []
          obtain ⟨h1, h2, h3, h4⟩ := stripped_place hs hn
          have hf2 : Free f (strippedAt m sl v isNew).2 P (strippedAt m sl v isNew).1.buf := by
            rcases h4 with h4 | h4
            · rw [h4]; exact hf.mono h3
            · exact (hf.fresh h4).mono h3
          have hr := h _ _ p P hf2 h2 (allLie_mono h3 hp)
          rw [h1, av_read_mono h3 hp] at hr
          generalize D _ _ p = A at hr ⊢
          generalize d (stripZeroes v) _ = B at hr ⊢
          cases hr with
          | crash c => exact .crash c
          | ok g1 g2 g3 =>
            simp only []
            split
            · exact .err (h3.trans g1) g2 g3
            · exact .ok (h3.trans g1) g2 g3
          | err g1 g2 g3 =>
            simp only []
            split
            · split
              · exact .err (h3.trans g1) g2 g3
              · exact .err (h3.trans g1) g2 g3
            · cases parseNumber (stripZeroes v) with
              | ok _ _ => exact .err (h3.trans g1) g2 g3
              | fail _ _ =>
                simp only []
                cases parseValue (stripZeroes v) with
                | ok _ _ => exact .err (h3.trans g1) g2 g3
                | fail _ _ => exact .err (h3.trans g1) g2 g3

end JC
