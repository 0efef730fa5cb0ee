import Verif.Lemmas.AliasAll
import Verif.Lemmas.Stream
/-! The `Decoder`, with and without memory. -/
namespace JC
open Spec Props

/-- What holds of the buffer of the decoder at all times. -/
structure ASt.WF (s : ASt) (m : AMem) : Prop where
  buf : ∀ i, s.buf = some i → i < m.length
  view : (s.view m).WF

/-- What happens to the memory while the decoder, whose buffer was `b`, works: only its
buffer changes. Afterwards its buffer is `b'`, the same or a new one. -/
structure AFrame (b : Option Nat) (m : AMem) (b' : Option Nat) (m' : AMem) : Prop where
  len : m.length ≤ m'.length
  size : ∀ k, k < m.length → (m'.getD k []).length = (m.getD k []).length
  same : ∀ k, k < m.length → b ≠ some k → m'.getD k [] = m.getD k []
  buf : ∀ k, k < m.length → b ≠ some k → b' ≠ some k

theorem AFrame.refl (b : Option Nat) (m : AMem) : AFrame b m b m :=
  ⟨Nat.le_refl _, fun _ _ => rfl, fun _ _ _ => rfl, fun _ _ h => h⟩

theorem AFrame.trans {b b' b'' : Option Nat} {m m' m'' : AMem} (h : AFrame b m b' m') (g : AFrame b' m' b'' m'') : AFrame b m b'' m'' :=
  ⟨Nat.le_trans h.len g.len, fun k hk => (g.size k (Nat.lt_of_lt_of_le hk h.len)).trans (h.size k hk),
    fun k hk hb => (g.same k (Nat.lt_of_lt_of_le hk h.len) (h.buf k hk hb)).trans (h.same k hk hb),
    fun k hk hb => g.buf k (Nat.lt_of_lt_of_le hk h.len) (h.buf k hk hb)⟩

theorem AFrame.grow {b : Option Nat} {m m' : AMem} (h : m <+: m') : AFrame b m b m' :=
  ⟨h.length_le, fun k hk => by rw [getD_prefix h hk], fun k hk _ => getD_prefix h hk, fun _ _ h => h⟩

theorem AFrame.alloc {b : Option Nat} {m : AMem} {x : Bytes} : AFrame b m (some m.length) (m ++ [x]) := by
  have h : m <+: m ++ [x] := List.prefix_append _ _
  refine ⟨h.length_le, fun k hk => by rw [getD_prefix h hk], fun k hk _ => getD_prefix h hk, fun k hk _ e => ?_⟩
  injection e with e
  omega

theorem getD_set (m : AMem) (i k : Nat) (x : Bytes) : (m.set i x).getD k [] = if i = k ∧ k < m.length then x else m.getD k [] := by
  rw [List.getD_eq_getElem?_getD, List.getD_eq_getElem?_getD, List.getElem?_set]
  by_cases h : i = k
  · subst h
    by_cases h2 : i < m.length
    · simp [h2]
    · simp [h2]
  · simp [h]

theorem AFrame.set {m : AMem} {i : Nat} {x : Bytes} (hx : x.length = (m.getD i []).length) : AFrame (some i) m (some i) (m.set i x) := by
  refine ⟨by simp, fun k hk => ?_, fun k hk hb => ?_, fun _ _ h => h⟩
  · rw [getD_set]
    split
    · rename_i h; rw [hx, h.1]
    · rfl
  · rw [getD_set, if_neg]
    rintro ⟨h, _⟩
    exact hb (by rw [h])

theorem remain_view (s : ASt) (m : AMem) : (s.view m).remain = s.remain m := by
  unfold SDec.remain ASt.remain ASt.view
  cases s.buf <;> simp

theorem view_lo (s : ASt) (m : AMem) (lo o : Nat) : ({ s with lo := lo, offset := o } : ASt).view m = { s.view m with lo := lo, offset := o } := rfl

theorem frontA_spec {s : ASt} {m : AMem} (h : s.WF m) : (s.frontA m).1 < (s.frontA m).2.length ∧
    (s.frontA m).2.getD (s.frontA m).1 [] = (s.view m).front.1 ∧ (s.view m).front.2 = (s.remain m).length ∧
    AFrame s.buf m (some (s.frontA m).1) (s.frontA m).2 := by
  have hr := remain_view s m
  unfold ASt.frontA SDec.front
  cases hb : s.buf with
  | none =>
    have e1 : (s.view m).mem = none := by simp [ASt.view, hb]
    have e2 : s.remain m = [] := by simp [ASt.remain, hb]
    rw [e1]
    simp only []
    refine ⟨by simp, by simp, by simp [e2], AFrame.alloc⟩
  | some i =>
    have hi := h.buf i hb
    have e1 : (s.view m).mem = some (m.getD i []) := by simp [ASt.view, hb]
    rw [e1]
    simp only []
    rw [hr]
    refine ⟨by simpa using hi, ?_, rfl, ?_⟩
    · rw [getD_set, if_pos ⟨rfl, hi⟩]
    · refine AFrame.set ?_
      have h1 := (h.view.some _ e1).1
      have h2 := h.view.remain_length
      rw [hr] at h2
      simp only [List.length_append, List.length_drop]
      omega

theorem growA_spec {m : AMem} {i len : Nat} (hi : i < m.length) : (growA m i len).1 < (growA m i len).2.length ∧
    (growA m i len).2.getD (growA m i len).1 [] = growBuf (m.getD i []) len ∧ AFrame (some i) m (some (growA m i len).1) (growA m i len).2 := by
  unfold growA growBuf
  split
  · exact ⟨by simp, by simp, AFrame.alloc⟩
  · exact ⟨hi, rfl, AFrame.refl _ _⟩

theorem refill_view {s : ASt} {m : AMem} (h : s.WF m) : (s.refill m).1.view (s.refill m).2 = (s.view m).refill ∧
    (s.refill m).1.WF (s.refill m).2 ∧ AFrame s.buf m (s.refill m).1.buf (s.refill m).2 := by
  obtain ⟨a1, a2, a3, a4⟩ := frontA_spec h
  obtain ⟨b1, b2, b3⟩ := growA_spec (len := (s.remain m).length) a1
  have hv : (s.view m).refill.WF := (refill_spec h.view).2.2.2.2.2.2
  obtain ⟨f1, f2, f3, f4⟩ := front_spec h.view
  obtain ⟨g1, g2, g3⟩ := growBuf_spec f3 f4
  have key : ∀ q : Bytes × Option Err × Reader, q = readFull ((growBuf (s.view m).front.1 (s.view m).front.2).length - (s.view m).front.2) s.reader →
      AFrame (some (growA (s.frontA m).2 (s.frontA m).1 (s.remain m).length).1) (growA (s.frontA m).2 (s.frontA m).1 (s.remain m).length).2
        (some (growA (s.frontA m).2 (s.frontA m).1 (s.remain m).length).1)
        ((growA (s.frontA m).2 (s.frontA m).1 (s.remain m).length).2.set (growA (s.frontA m).2 (s.frontA m).1 (s.remain m).length).1
          ((growBuf (s.view m).front.1 (s.view m).front.2).take (s.view m).front.2 ++ q.1 ++
            (growBuf (s.view m).front.1 (s.view m).front.2).drop ((s.view m).front.2 + q.1.length))) := by
    intro q hq
    refine AFrame.set ?_
    have hl : q.1.length ≤ (growBuf (s.view m).front.1 (s.view m).front.2).length - (s.view m).front.2 := by rw [hq]; exact readFull_length
    rw [b2, a2, ← a3]
    simp only [List.length_append, List.length_take, List.length_drop]
    omega
  have e : (s.refill m).1.view (s.refill m).2 = (s.view m).refill := by
    unfold ASt.refill
    simp only []
    rw [refill_eq]
    simp only [SDec.room, ASt.view, Option.map_some]
    rw [b2, a2, ← a3, getD_set, if_pos ⟨rfl, by rw [a3]; exact b1⟩]
    rfl
  refine ⟨e, ⟨?_, by rw [e]; exact hv⟩, ?_⟩
  · intro i hi
    unfold ASt.refill at hi ⊢
    simp only [Option.some.injEq] at hi ⊢
    rw [← hi, List.length_set]
    exact b1
  · refine (a4.trans b3).trans ?_
    have := key _ rfl
    unfold ASt.refill
    simp only []
    rw [b2, a2, ← a3]
    rw [← a3] at this
    exact this

/-- The results of `readValue` agree. -/
inductive VSim (s : ASt) (m : AMem) : ARV → RV → Prop where
  | ok {sl : Span} {v : Bytes} : s.buf = some sl.buf → m.has sl → m.read sl = v → VSim s m (.ok sl) (.ok v)
  | err (e : Err) : VSim s m (.err e) (.err e)

theorem readLoop_view : ∀ (n : Nat) (s : ASt) (m : AMem), s.WF m →
    (readLoopA n s m).2.1.view (readLoopA n s m).2.2 = (readLoop n (s.view m)).2 ∧
    (readLoopA n s m).2.1.WF (readLoopA n s m).2.2 ∧ AFrame s.buf m (readLoopA n s m).2.1.buf (readLoopA n s m).2.2 ∧
    VSim (readLoopA n s m).2.1 (readLoopA n s m).2.2 (readLoopA n s m).1 (readLoop n (s.view m)).1
  | 0, s, m, h => ⟨rfl, h, AFrame.refl _ _, .err _⟩
  | n + 1, s, m, h => by
    have more : ∀ x y, (x = match s.err with | some e => (s.pending m e, s, m) | none => readLoopA n (s.refill m).1 (s.refill m).2) →
        (y = match (s.view m).err with | some e => ((s.view m).pending e, s.view m) | none => readLoop n (s.view m).refill) →
        x.2.1.view x.2.2 = y.2 ∧ x.2.1.WF x.2.2 ∧ AFrame s.buf m x.2.1.buf x.2.2 ∧ VSim x.2.1 x.2.2 x.1 y.1 := by
      intro x y hx hy
      have : (s.view m).err = s.err := rfl
      rw [this] at hy
      cases he : s.err with
      | some e =>
        rw [he] at hx hy
        subst hx hy
        refine ⟨rfl, h, AFrame.refl _ _, ?_⟩
        simp only [ASt.pending, SDec.pending, remain_view]
        exact .err _
      | none =>
        rw [he] at hx hy
        obtain ⟨r1, r2, r3⟩ := refill_view h
        have ih := readLoop_view n _ _ r2
        rw [r1] at ih
        subst hx hy
        exact ⟨ih.1, ih.2.1, r3.trans ih.2.2.1, ih.2.2.2⟩
    rw [readLoopA, readLoop, remain_view]
    simp only []
    split
    · rename_i hn
      cases hp : parseValue (s.remain m) with
      | fail r e =>
        simp only []
        split
        · exact ⟨rfl, h, AFrame.refl _ _, .err _⟩
        · exact more _ _ rfl rfl
      | ok v r =>
        simp only []
        have e := (parseValue_sound hp).1
        refine ⟨view_lo _ _ _ _, ⟨h.buf, ?_⟩, AFrame.refl _ _, ?_⟩
        · rw [view_lo]
          exact (after_ok h.view (by rw [remain_view]; exact e)).1
        · cases hb : s.buf with
          | none => exact absurd (by simp [ASt.remain, hb]) hn
          | some i =>
            have e2 : s.remain m = ((m.getD i []).take s.len).drop s.lo := by simp [ASt.remain, hb]
            have hv := h.view.some (m.getD i []) (by simp [ASt.view, hb])
            have hv2 : s.len ≤ (m.getD i []).length := hv.1
            have hlo : s.lo ≤ s.len := h.view.lo
            have hb2 : m.has ⟨i, s.lo, s.len - s.lo⟩ := .inr ⟨h.buf i hb, by simp only []; omega⟩
            have e3 : m.read ⟨i, s.lo, s.len - s.lo⟩ = v ++ r := by
              rw [← e, e2]; simp only [AMem.read]; rw [List.drop_take]
            obtain ⟨c1, c2, _⟩ := read_at hb2 (a := []) (v := v) (r := r) e3
            exact .ok rfl c2 c1
    · exact more _ _ rfl rfl

theorem holds_frame {b b' : Option Nat} {m m' : AMem} (h : AFrame b m b' m') {s : Span} (hs : m.has s) : m'.has s := by
  rcases hs with hs | ⟨h1, h2⟩
  · exact .inl hs
  · exact .inr ⟨Nat.lt_of_lt_of_le h1 h.len, by rw [h.size _ h1]; exact h2⟩

theorem read_frame {b b' : Option Nat} {m m' : AMem} (h : AFrame b m b' m') {s : Span} (hs : m.has s) (ha : s.len = 0 ∨ b ≠ some s.buf) :
    m'.read s = m.read s := by
  rcases hs with hs | ⟨h1, h2⟩
  · rw [read_zero hs, read_zero hs]
  · rcases ha with ha | ha
    · rw [read_zero ha, read_zero ha]
    · simp only [AMem.read, h.same _ h1 ha]

theorem apart_frame {b b' : Option Nat} {m m' : AMem} (h : AFrame b m b' m') {s : Span} (hs : m.has s) (ha : s.len = 0 ∨ b ≠ some s.buf) :
    s.len = 0 ∨ b' ≠ some s.buf := by
  rcases hs with hs | ⟨h1, _⟩
  · exact .inl hs
  · exact ha.imp id (h.buf _ h1)

/-- The texts of unflagged kinds are outside the buffer. -/
def Apart (f : AFlags) (v : AV) (b : Option Nat) : Prop := ∀ x ∈ v.spans, f.of x.1 = false → x.2.len = 0 ∨ b ≠ some x.2.buf

/-- The destination afterwards. -/
def AURes.ofVal (r : AURes) (Q : AV → Prop) : Prop :=
  match r with
  | .done v _ => Q v
  | .crash _ => True

theorem decode_frameA {s : ASt} {m : AMem} (h : s.WF m) (f : AFlags) (c : DCfg) (t : ATy) {p : AV} (hp : m.holds p) (ha : Apart f p s.buf) :
    (s.decode f c t p m).2.1.WF (s.decode f c t p m).2.2 ∧ AFrame s.buf m (s.decode f c t p m).2.1.buf (s.decode f c t p m).2.2 ∧
    (s.decode f c t p m).1.ofVal fun v => (s.decode f c t p m).2.2.holds v ∧ Apart f v (s.decode f c t p m).2.1.buf := by
  obtain ⟨v1, v2, v3, v4⟩ := readLoop_view (s.reader.data.length + 2) s m h
  unfold ASt.decode ASt.readValue
  generalize readLoopA (s.reader.data.length + 2) s m = x at *
  obtain ⟨x, s1, m1⟩ := x
  simp only [] at v1 v2 v3 v4
  have hp1 : m1.holds p := fun x hx => holds_frame v3 (hp x hx)
  have ha1 : Apart f p s1.buf := fun x hx hf => apart_frame v3 (hp x hx) (ha x hx hf)
  generalize (readLoop (s.reader.data.length + 2) (s.view m)).1 = y at v4
  cases v4 with
  | err e => exact ⟨v2, v3, hp1, ha1⟩
  | @ok sl v hb hs hr =>
    simp only []
    have hs1 : sl.buf < m1.length := v2.buf _ hb
    have lie : AllLie m1 (fun k i => f.of k = true ∨ s1.buf ≠ some i) p.spans := by
      intro x hx
      rcases hp1 x hx with h1 | h1
      · exact .inl h1
      · cases hf : f.of x.1 with
        | true => exact .inr ⟨.inl hf, h1⟩
        | false =>
          rcases ha1 x hx hf with h2 | h2
          · exact .inl h2
          · exact .inr ⟨.inr h2, h1⟩
    have free : Free f m1 (fun k i => f.of k = true ∨ s1.buf ≠ some i) sl.buf := by
      refine ⟨fun k i hi => .inr ?_, fun hf => .inl hf, fun hf => .inl hf, fun hf => .inl hf⟩
      rw [hb]; intro e; injection e with e; omega
    have hr := parseInto_sim (decN_sim (f := f) (c := c) 0 t) m1 sl p _ free hs lie
    generalize parseIntoA (decA f c t) m1 sl p = A at hr ⊢
    generalize parseInto (decN c 0 t.ty) (m1.read sl) (p.read m1) = B at hr
    have fin : ∀ {v : AV} {m2 : AMem}, m1 <+: m2 → AllLie m2 (fun k i => f.of k = true ∨ s1.buf ≠ some i) v.spans →
        s1.WF m2 ∧ AFrame s.buf m s1.buf m2 ∧ m2.holds v ∧ Apart f v s1.buf := by
      intro v m2 g1 g2
      refine ⟨⟨fun i hi => Nat.lt_of_lt_of_le (v2.buf i hi) g1.length_le, ?_⟩, v3.trans (AFrame.grow g1), fun x hx => lies_has (g2 x hx), ?_⟩
      · have : s1.view m2 = s1.view m1 := by
          unfold ASt.view; rw [hb]; simp only [Option.map_some, getD_prefix g1 hs1]
        rw [this]; exact v2.view
      · intro x hx hf
        rcases g2 x hx with h1 | ⟨h1, _⟩
        · exact .inl h1
        · rw [hf] at h1; exact .inr (by simpa using h1)
    cases hr with
    | crash c => exact ⟨v2, v3, trivial⟩
    | ok g1 g2 g3 => exact fin g1 g2
    | err g1 g2 g3 => exact fin g1 g2

theorem decode_viewA {s : ASt} {m : AMem} (h : s.WF m) (f : AFlags) (c : DCfg) (n : Nat) (t : ATy) {p : AV} (hp : m.holds p)
    (ha : ∀ x ∈ p.spans, x.2.len = 0 ∨ s.buf ≠ some x.2.buf) :
    (s.decode f c t p m).1.read (s.decode f c t p m).2.2 = ((s.view m).decode c n t.ty (p.read m)).1 ∧
    (s.decode f c t p m).2.1.view (s.decode f c t p m).2.2 = ((s.view m).decode c n t.ty (p.read m)).2 := by
  obtain ⟨v1, v2, v3, v4⟩ := readLoop_view (s.reader.data.length + 2) s m h
  unfold ASt.decode ASt.readValue SDec.decode SDec.readValue
  have er : (s.view m).reader = s.reader := rfl
  rw [er]
  generalize readLoopA (s.reader.data.length + 2) s m = x at *
  obtain ⟨x, s1, m1⟩ := x
  simp only [] at v1 v2 v3 v4
  have hp1 : m1.holds p := fun x hx => holds_frame v3 (hp x hx)
  have hpr : p.read m1 = p.read m := AV.read_congr p fun x hx => read_frame v3 (hp x hx) (ha x hx)
  generalize readLoop (s.reader.data.length + 2) (s.view m) = y at *
  obtain ⟨y, s1'⟩ := y
  simp only [] at v1 v4
  cases v4 with
  | err e => exact ⟨by simp [AURes.read, hpr], v1⟩
  | @ok sl v hb hs hr =>
    simp only []
    subst hr
    have hs1 : sl.buf < m1.length := v2.buf _ hb
    have lie : AllLie m1 (fun _ _ => True) p.spans := by
      intro x hx
      rcases hp1 x hx with h1 | h1
      · exact .inl h1
      · exact .inr ⟨trivial, h1⟩
    have free : Free f m1 (fun _ _ => True) sl.buf := ⟨fun _ _ _ => trivial, fun _ => trivial, fun _ => trivial, fun _ => trivial⟩
    have hr := parseInto_sim (decN_sim (f := f) (c := c) n t) m1 sl p _ free hs lie
    rw [hpr] at hr
    generalize parseIntoA (decA f c t) m1 sl p = A at hr ⊢
    generalize parseInto (decN c n t.ty) (m1.read sl) (p.read m) = B at hr ⊢
    have fin : ∀ {m2 : AMem}, m1 <+: m2 → s1.view m2 = s1' := by
      intro m2 g1
      rw [← v1]
      unfold ASt.view; rw [hb]; simp only [Option.map_some, getD_prefix g1 hs1]
    cases hr with
    | crash c => exact ⟨rfl, v1⟩
    | ok g1 g2 g3 => exact ⟨by simp [AURes.read, g3], fin g1⟩
    | err g1 g2 g3 => exact ⟨by simp [AURes.read, g3], fin g1⟩

end JC
