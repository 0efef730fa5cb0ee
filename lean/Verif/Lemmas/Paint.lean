import Verif.Lemmas.Meaning
/-! Colored and plain runs of the encoder in lockstep. -/
namespace JC
open Spec

/-- `Painted a b`: `b` is `a` without some color sequences. -/
inductive Painted : Bytes → Bytes → Prop
  | nil : Painted [] []
  | byte (c : UInt8) {a b : Bytes} : Painted a b → Painted (c :: a) (c :: b)
  | color {k a b : Bytes} : Sgr k → Painted a b → Painted (k ++ a) b

theorem Painted.refl : ∀ a, Painted a a
  | [] => .nil
  | c :: a => .byte c (Painted.refl a)

theorem Painted.append {a b a' b' : Bytes} (h : Painted a b) (h' : Painted a' b') : Painted (a ++ a') (b ++ b') := by
  induction h with
  | nil => exact h'
  | byte c _ ih => exact .byte c ih
  | color hk _ ih => rw [List.append_assoc]; exact .color hk ih

theorem Painted.same {a b : Bytes} (h : Painted a b) (x : Bytes) : Painted (a ++ x) (b ++ x) := h.append (Painted.refl x)

theorem Painted.suffix {a b k : Bytes} (h : Painted a b) (hk : Sgr k) : Painted (a ++ k) b := by
  have := h.append (Painted.color hk .nil); simpa using this

theorem sgr_reset : Sgr ansiReset := .seq [0x30] (by intro c hc; simp at hc; subst hc; left; decide)

theorem stripAnsi_params {ps : Bytes} (h : ∀ c ∈ ps, SgrParam c) (r : Bytes) :
    stripAnsi .csi (ps ++ 0x6d :: r) = stripAnsi .out r := by
  induction ps with
  | nil => simp [stripAnsi]
  | cons c ps ih =>
    have hc := h c (by simp)
    have : c ≠ 0x6d := by rintro rfl; revert hc; decide
    simp only [List.cons_append, stripAnsi, if_neg this, if_pos hc]
    exact ih fun c hc => h c (by simp [hc])

theorem stripAnsi_sgr {k : Bytes} (h : Sgr k) (r : Bytes) : stripAnsi .out (k ++ r) = stripAnsi .out r := by
  cases h with
  | none => rfl
  | seq ps hp => simp [stripAnsi, stripAnsi_params hp]

theorem painted_strip {a b : Bytes} (h : Painted a b) (hb : 0x1b ∉ b) : stripAnsi .out a = b := by
  induction h with
  | nil => rfl
  | byte c _ ih =>
    simp only [List.mem_cons, not_or] at hb
    simp only [stripAnsi, if_neg (Ne.symm hb.1), ih hb.2]
  | color hk _ ih => rw [stripAnsi_sgr hk, ih hb]

/-- Results of the colored and the plain run on buffers `a` and `b`. -/
inductive SimOut (a b : Bytes) : Out → Out → Prop
  | done (x y : Bytes) (d : Int) (e : Option Err) : Painted x y → SimOut a b (.done (a ++ x) d e) (.done (b ++ y) d e)
  | panic : SimOut a b .panic .panic

/-- A colored and a plain encoding function agree. -/
def Sim (f g : Enc) : Prop := ∀ a b d, SimOut a b (f a d) (g b d)

theorem sim_loc {f : Enc} (h : Loc f) : Sim f f := by
  intro a b d
  have e1 := h a [] d
  have e2 := h b [] d
  simp only [List.append_nil] at e1 e2
  rw [e1, e2]
  cases f [] d with
  | panic => exact .panic
  | done x d e => exact .done x x d e (Painted.refl x)

theorem sim_pure {f g : Bytes → Bytes} {x y : Bytes} (hf : ∀ a, f a = a ++ x) (hg : ∀ a, g a = a ++ y) (h : Painted x y) :
    Sim (fun b d => .done (f b) d none) (fun b d => .done (g b) d none) := by
  intro a b d; simp only [hf, hg]; exact .done x y d none h

theorem SimOut.ext {a b x y : Bytes} {o1 o2 : Out} (h : SimOut (a ++ x) (b ++ y) o1 o2) (hxy : Painted x y) : SimOut a b o1 o2 := by
  cases h with
  | panic => exact .panic
  | done u v d e huv =>
    rw [List.append_assoc, List.append_assoc]
    exact .done _ _ d e (hxy.append huv)

theorem simOut_err (a b : Bytes) (d : Int) (e : Err) : SimOut a b (.done a d (some e)) (.done b d (some e)) := by
  have := SimOut.done (a := a) (b := b) [] [] d (some e) .nil
  simpa using this

theorem take_start (a u x : Bytes) : (a ++ u ++ x).take a.length = a := by simp

theorem lay_nl (c : Cfg) (d : Int) : ∃ w, ∀ a, c.appendIndent d (c.appendByte a 0x0a) = a ++ w :=
  ⟨c.appendIndent d (c.appendByte [] 0x0a), fun a => by
    rw [← appendIndent_app, ← appendByte_app]; simp⟩

theorem lay_byte (c : Cfg) (v : UInt8) : ∃ w, ∀ a, c.appendByte a v = a ++ w :=
  ⟨c.appendByte [] v, fun a => by rw [← appendByte_app]; simp⟩

theorem lay_indent (c : Cfg) (d : Int) : ∃ w, ∀ a, c.appendIndent d a = a ++ w :=
  ⟨c.appendIndent d [], fun a => by rw [← appendIndent_app]; simp⟩

theorem encL_map (c : Cfg) (xs : List GV) : encL c xs = xs.map (enc c) := by
  induction xs with
  | nil => rfl
  | cons e es ih => simp [encL, ih]

theorem encF_map (c : Cfg) (fs : List (FMeta × GV)) : encF c fs = fs.map fun e => (e.1, isEmpty e.2, enc c e.2) := by
  induction fs with
  | nil => rfl
  | cons e es ih => obtain ⟨k, v⟩ := e; simp [encF, ih]

theorem punc_none (a : Bytes) (v : UInt8) : appendPunc none a v = a ++ [v] := rfl

/-- Plain and colored configurations. -/
abbrev Cfg.plain (c : Cfg) : Cfg := { c with clrs := none }
abbrev Cfg.tint (c : Cfg) (cl : Colors) : Cfg := { c with clrs := some cl }

section
variable {c : Cfg} {cl : Colors} (hcl : ColorsSgr cl)
include hcl

theorem sgr_punc (v : UInt8) : Sgr (cl.puncColor v) := by
  obtain ⟨h1, h2, h3, h4, h5, h6, h7, h8, h9, h10, h11, h12, h13⟩ := hcl
  unfold Colors.puncColor
  simp only []
  repeat' split
  all_goals first | assumption | exact .none

theorem punc_app (a : Bytes) (v : UInt8) : appendPunc (some cl) a v = a ++ (cl.puncColor v ++ [v] ++ ansiReset) := by
  simp [appendPunc]

theorem punc_painted (v : UInt8) : Painted (cl.puncColor v ++ [v] ++ ansiReset) [v] := by
  rw [List.append_assoc]
  exact .color (sgr_punc hcl v) (Painted.suffix (.byte v .nil) sgr_reset)

theorem sim_colored {clr : Colors → Bytes} (hk : Sgr (clr cl)) {f g : Enc} (h : Sim f g) :
    Sim (colored (c.tint cl) clr f) g := by
  intro a b d
  simp only [colored]
  have := h (a ++ clr cl) b d
  cases hf : f (a ++ clr cl) d with
  | panic =>
    rw [hf] at this
    generalize g b d = o at this
    cases this
    exact .panic
  | done a' d' e =>
    rw [hf] at this
    generalize g b d = o at this
    cases this with
    | done x y d e hxy =>
      simp only [List.append_assoc]
      exact .done _ _ _ _ (.color hk (hxy.suffix sgr_reset))

theorem sim_null : Sim (fun b d => .done (appendNull (some cl) b) d none) (fun b d => .done (appendNull none b) d none) :=
  sim_pure (x := cl.null ++ bs! "null" ++ ansiReset) (y := bs! "null") (fun a => by simp [appendNull]) (fun a => by simp [appendNull])
    (by rw [List.append_assoc]; exact .color hcl.1 (Painted.suffix (Painted.refl _) sgr_reset))

theorem sim_bool (v : Bool) : Sim (fun b d => .done (appendBool (some cl) b v) d none) (fun b d => .done (appendBool none b v) d none) :=
  sim_pure (x := cl.bool ++ (if v then bs! "true" else bs! "false") ++ ansiReset) (y := if v then bs! "true" else bs! "false")
    (fun a => by cases v <;> simp [appendBool]) (fun a => by cases v <;> simp [appendBool])
    (by rw [List.append_assoc]; exact .color hcl.2.1 (Painted.suffix (Painted.refl _) sgr_reset))

theorem sim_int (z : Int) : Sim (fun b d => .done (appendInt64 (some cl) b z) d none) (fun b d => .done (appendInt64 none b z) d none) :=
  sim_pure (x := cl.number ++ fmtInt z ++ ansiReset) (y := fmtInt z) (fun a => by simp [appendInt64]) (fun a => by simp [appendInt64])
    (by rw [List.append_assoc]; exact .color hcl.2.2.1 (Painted.suffix (Painted.refl _) sgr_reset))

theorem sim_uint (z : Nat) : Sim (fun b d => .done (appendUint64 (some cl) b z) d none) (fun b d => .done (appendUint64 none b z) d none) :=
  sim_pure (x := cl.number ++ fmtNat z ++ ansiReset) (y := fmtNat z) (fun a => by simp [appendUint64]) (fun a => by simp [appendUint64])
    (by rw [List.append_assoc]; exact .color hcl.2.2.1 (Painted.suffix (Painted.refl _) sgr_reset))

theorem sim_number (s : Bytes) : Sim (encodeNumber (c.tint cl) s) (encodeNumber c.plain s) := by
  intro a b d
  unfold encodeNumber
  simp only []
  generalize (if s = [] then bs! "0" else s) = n
  cases parseNumber n with
  | fail r e => exact simOut_err a b d e
  | ok =>
    simp only [List.append_assoc]
    exact .done _ _ _ _ (.color hcl.2.2.1 (Painted.suffix (Painted.refl _) sgr_reset))

theorem sim_key (s : Bytes) : Sim (encodeKey (c.tint cl) s) (encodeKey c.plain s) :=
  sim_colored hcl hcl.2.2.2.2.1 (sim_loc (loc_str c s))

theorem sim_string (s : Bytes) : Sim (encodeString (c.tint cl) s) (encodeString c.plain s) :=
  sim_colored hcl hcl.2.2.2.1 (sim_loc (loc_str c s))

theorem sim_text (r : TextRes) : Sim (encodeTextMarshaler (c.tint cl) r) (encodeTextMarshaler c.plain r) := by
  intro a b d
  cases r with
  | isNil => exact sim_null hcl a b d
  | err e => exact simOut_err a b d e
  | absent => exact .panic
  | ok s => exact sim_colored (c := c) hcl hcl.2.2.2.2.2.2.2.2.2.2.2.2 (sim_loc (loc_str c s)) a b d

theorem sim_bytes (v : Option Bytes) : Sim (encodeBytes (c.tint cl) v) (encodeBytes c.plain v) := by
  apply sim_colored hcl hcl.2.2.2.2.2.1
  cases v with
  | none => exact sim_null hcl
  | some v => exact sim_pure (fun _ => rfl) (fun _ => rfl) (Painted.refl _)

theorem sim_time (s : Bytes) : Sim (encodeTime (c.tint cl) s) (encodeTime c.plain s) := by
  intro a b d
  simp only [encodeTime, List.append_assoc]
  refine .done _ _ _ _ (.color hcl.2.2.2.2.2.2.1 ?_)
  have : ∀ x, Painted (ch! '"' :: (s ++ ch! '"' :: ansiReset)) x → Painted ([ch! '"'] ++ (s ++ ([ch! '"'] ++ ansiReset))) x := fun x h => by simpa using h
  apply this
  refine .byte _ ((Painted.refl s).append (.byte _ ?_))
  exact Painted.suffix .nil sgr_reset

/-! Containers. `a ++ u` and `b ++ v` are the buffers, `a` and `b` what was
there at the start of the container. -/

theorem sim_arrayLoop {α : Type} (f g : α → Enc) (xs : List α) (h : ∀ x ∈ xs, Sim (f x) (g x)) (first : Bool) (a b u v : Bytes)
    (d : Int) (huv : Painted u v) :
    SimOut a b (arrayLoop (c.tint cl) a.length first (xs.map f) (a ++ u) d)
      (arrayLoop c.plain b.length first (xs.map g) (b ++ v) d) := by
  induction xs generalizing first u v d with
  | nil => exact .done _ _ _ _ huv
  | cons x xs ih =>
    have hfg := h x (by simp)
    have ih := ih (fun p hp => h p (by simp [hp])) false
    simp only [arrayLoop, List.map_cons]
    obtain ⟨w, hw⟩ := lay_nl c d
    obtain ⟨u', v', e1, e2, huv'⟩ : ∃ u' v',
        (c.tint cl).appendIndent d ((c.tint cl).appendByte (if first = true then a ++ u else appendPunc (c.tint cl).clrs (a ++ u) (ch! ',')) 0x0a) = a ++ u' ∧
        c.plain.appendIndent d (c.plain.appendByte (if first = true then b ++ v else appendPunc c.plain.clrs (b ++ v) (ch! ',')) 0x0a) = b ++ v' ∧
        Painted u' v' := by
      have e1 := hw (if first = true then a ++ u else appendPunc (c.tint cl).clrs (a ++ u) (ch! ','))
      have e2 := hw (if first = true then b ++ v else appendPunc c.plain.clrs (b ++ v) (ch! ','))
      cases first
      · refine ⟨u ++ ((cl.puncColor (ch! ',') ++ [ch! ','] ++ ansiReset) ++ w), v ++ ([ch! ','] ++ w), e1.trans ?_, e2.trans ?_, ?_⟩
        · simp [appendPunc]
        · simp [appendPunc]
        · exact huv.append ((punc_painted hcl _).append (Painted.refl w))
      · exact ⟨u ++ w, v ++ w, e1.trans (by simp), e2.trans (by simp), huv.same w⟩
    rw [e1, e2]
    have s := hfg (a ++ u') (b ++ v') d
    generalize f x (a ++ u') d = o1 at *
    generalize g x (b ++ v') d = o2 at *
    cases s with
    | panic => exact .panic
    | done x y d e hxy =>
      cases e with
      | some e => simp only [take_start]; exact simOut_err a b d e
      | none =>
        simp only [List.append_assoc]
        exact ih (u' ++ x) (v' ++ y) d (huv'.append hxy)

/-- The end of a container: line break and closer. -/
theorem sim_close (a b x y : Bytes) (d : Int) (q : UInt8) (hxy : Painted x y) :
    SimOut a b
      (.done (appendPunc (c.tint cl).clrs ((c.tint cl).appendIndent d ((c.tint cl).appendByte (a ++ x) 0x0a)) q) d none)
      (.done (appendPunc c.plain.clrs (c.plain.appendIndent d (c.plain.appendByte (b ++ y) 0x0a)) q) d none) := by
  obtain ⟨w, hw⟩ := lay_nl c d
  have e1 : (c.tint cl).appendIndent d ((c.tint cl).appendByte (a ++ x) 0x0a) = a ++ x ++ w := hw _
  have e2 : c.plain.appendIndent d (c.plain.appendByte (b ++ y) 0x0a) = b ++ y ++ w := hw _
  rw [e1, e2, punc_app hcl, punc_none]
  simp only [List.append_assoc]
  refine .done _ _ _ _ (hxy.append ((Painted.refl w).append ?_))
  simpa using punc_painted hcl q

theorem sim_empty (a b : Bytes) (d : Int) (p q : UInt8) :
    SimOut a b (.done (appendPunc (some cl) (appendPunc (some cl) a p) q) d none) (.done (appendPunc none (appendPunc none b p) q) d none) := by
  rw [punc_app hcl, punc_app hcl, punc_none, punc_none]
  simp only [List.append_assoc]
  refine .done _ _ _ _ ?_
  simpa using (punc_painted hcl p).append (punc_painted hcl q)

theorem sim_array {α : Type} (f g : α → Enc) (xs : List α) (h : ∀ x ∈ xs, Sim (f x) (g x)) :
    Sim (encodeArray (c.tint cl) (xs.map f)) (encodeArray c.plain (xs.map g)) := by
  intro a b d
  simp only [encodeArray, List.length_map]
  split
  · have s := sim_arrayLoop (c := c) hcl f g xs h true a b _ _ (c.push d) (punc_painted hcl (ch! '['))
    rw [← punc_app hcl, ← punc_none] at s
    generalize hx : arrayLoop (c.tint cl) _ _ _ _ _ = o1 at s
    generalize hy : arrayLoop c.plain _ _ _ _ _ = o2 at s
    have hx' : arrayLoop (c.tint cl) a.length true (List.map f xs) (appendPunc (c.tint cl).clrs a (ch! '[')) ((c.tint cl).push d) = o1 := hx
    have hy' : arrayLoop c.plain b.length true (List.map g xs) (appendPunc c.plain.clrs b (ch! '[')) (c.plain.push d) = o2 := hy
    rw [hx', hy']
    cases s with
    | panic => exact .panic
    | done x y d e hxy =>
      cases e with
      | some e => exact .done _ _ _ _ hxy
      | none => exact sim_close hcl a b x y (c.pop d) (ch! ']') hxy
  · exact sim_empty hcl a b d _ _

theorem sim_mkey (k : MKey) (hk : ∀ z, k ≠ .int z) (hk' : ∀ z, k ≠ .uint z) :
    Sim (encodeMKey (c.tint cl) k) (encodeMKey c.plain k) := by
  cases k with
  | str s => exact sim_key hcl s
  | int z => exact absurd rfl (hk z)
  | uint z => exact absurd rfl (hk' z)
  | text r => exact sim_text hcl r

/-- Separator and indentation before a member. -/
theorem sim_sep (first : Bool) (a b u v : Bytes) (d : Int) (huv : Painted u v) : ∃ u' v',
    (c.tint cl).appendIndent d (if first = true then a ++ u else (c.tint cl).appendByte (appendPunc (c.tint cl).clrs (a ++ u) (ch! ',')) 0x0a) = a ++ u' ∧
    c.plain.appendIndent d (if first = true then b ++ v else c.plain.appendByte (appendPunc c.plain.clrs (b ++ v) (ch! ',')) 0x0a) = b ++ v' ∧
    Painted u' v' := by
  cases first
  · obtain ⟨w, hw⟩ := lay_nl c d
    have e1 := hw (appendPunc (c.tint cl).clrs (a ++ u) (ch! ','))
    have e2 := hw (appendPunc c.plain.clrs (b ++ v) (ch! ','))
    refine ⟨u ++ ((cl.puncColor (ch! ',') ++ [ch! ','] ++ ansiReset) ++ w), v ++ ([ch! ','] ++ w), e1.trans ?_, e2.trans ?_, ?_⟩
    · simp [appendPunc]
    · simp [appendPunc]
    · exact huv.append ((punc_painted hcl _).append (Painted.refl w))
  · obtain ⟨w, hw⟩ := lay_indent c d
    exact ⟨u ++ w, v ++ w, (hw (a ++ u)).trans (by simp), (hw (b ++ v)).trans (by simp), huv.same w⟩

/-- Colon and gap after a key. -/
theorem sim_colon (a b u v : Bytes) (huv : Painted u v) : ∃ u' v',
    (c.tint cl).appendByte (appendPunc (c.tint cl).clrs (a ++ u) (ch! ':')) (ch! ' ') = a ++ u' ∧
    c.plain.appendByte (appendPunc c.plain.clrs (b ++ v) (ch! ':')) (ch! ' ') = b ++ v' ∧ Painted u' v' := by
  obtain ⟨w, hw⟩ := lay_byte c (ch! ' ')
  have e1 := hw (appendPunc (c.tint cl).clrs (a ++ u) (ch! ':'))
  have e2 := hw (appendPunc c.plain.clrs (b ++ v) (ch! ':'))
  refine ⟨u ++ ((cl.puncColor (ch! ':') ++ [ch! ':'] ++ ansiReset) ++ w), v ++ ([ch! ':'] ++ w), e1.trans ?_, e2.trans ?_, ?_⟩
  · simp [appendPunc]
  · simp [appendPunc]
  · exact huv.append ((punc_painted hcl _).append (Painted.refl w))

theorem sim_mapLoop {α : Type} (k : α → MKey) (f g : α → Enc) (xs : List α) (h : ∀ x ∈ xs, Sim (f x) (g x))
    (hk : ∀ x ∈ xs, (∀ z, k x ≠ .int z) ∧ (∀ z, k x ≠ .uint z)) (first : Bool) (a b u v : Bytes)
    (d : Int) (huv : Painted u v) :
    SimOut a b (mapLoop (c.tint cl) a.length first (xs.map fun x => (k x, f x)) (a ++ u) d)
      (mapLoop c.plain b.length first (xs.map fun x => (k x, g x)) (b ++ v) d) := by
  induction xs generalizing first u v d with
  | nil => exact .done _ _ _ _ huv
  | cons x xs ih =>
    have hfg := h x (by simp)
    have hkx := hk x (by simp)
    have ih := ih (fun p hp => h p (by simp [hp])) (fun p hp => hk p (by simp [hp])) false
    simp only [mapLoop, List.map_cons]
    obtain ⟨u', v', e1, e2, huv'⟩ := sim_sep (c := c) hcl first a b u v d huv
    rw [e1, e2]
    have s := sim_mkey (c := c) hcl (k x) hkx.1 hkx.2 (a ++ u') (b ++ v') d
    generalize encodeMKey (c.tint cl) (k x) (a ++ u') d = o1 at *
    generalize encodeMKey c.plain (k x) (b ++ v') d = o2 at *
    cases s with
    | panic => exact .panic
    | done p q d e hpq =>
      cases e with
      | some e => simp only [take_start]; exact simOut_err a b d e
      | none =>
        simp only [List.append_assoc]
        obtain ⟨u2, v2, e1, e2, huv2⟩ := sim_colon (c := c) hcl a b (u' ++ p) (v' ++ q) (huv'.append hpq)
        rw [e1, e2]
        have s := hfg (a ++ u2) (b ++ v2) d
        generalize f x (a ++ u2) d = o1 at *
        generalize g x (b ++ v2) d = o2 at *
        cases s with
        | panic => exact .panic
        | done p q d e hpq =>
          cases e with
          | some e => simp only [take_start]; exact simOut_err a b d e
          | none =>
            simp only [List.append_assoc]
            exact ih _ _ d (huv2.append hpq)

/-- Opening brace and line break. -/
theorem sim_open (a b : Bytes) : ∃ u v,
    (c.tint cl).appendByte (appendPunc (c.tint cl).clrs a (ch! '{')) 0x0a = a ++ u ∧
    c.plain.appendByte (appendPunc c.plain.clrs b (ch! '{')) 0x0a = b ++ v ∧ Painted u v := by
  obtain ⟨w, hw⟩ := lay_byte c 0x0a
  refine ⟨(cl.puncColor (ch! '{') ++ [ch! '{'] ++ ansiReset) ++ w, [ch! '{'] ++ w, (hw _).trans ?_, (hw _).trans ?_, ?_⟩
  · simp [appendPunc]
  · simp [appendPunc]
  · exact (punc_painted hcl _).append (Painted.refl w)

theorem sim_map (es : List (MKey × GV)) (h : ∀ e ∈ es, Sim (enc (c.tint cl) e.2) (enc c.plain e.2))
    (hk : ∀ e ∈ es, (∀ z, e.1 ≠ .int z) ∧ (∀ z, e.1 ≠ .uint z)) :
    Sim (encodeMap (c.tint cl) (encE (c.tint cl) es)) (encodeMap c.plain (encE c.plain es)) := by
  intro a b d
  rw [encE_map, encE_map]
  unfold encodeMap
  have ha : ∀ c : Cfg, (es.map fun e => (e.1, enc c e.2)).any (fun e => e.1.uncallable) = es.any fun e => e.1.uncallable := by
    intro c; rw [List.any_map]; rfl
  rw [ha, ha, List.length_map, List.length_map]
  by_cases hp : c.sortMapKeys = true ∧ es.length ≥ 2 ∧ (es.any fun e => e.1.uncallable) = true
  · rw [if_pos hp, if_pos hp]; exact .panic
  · rw [if_neg hp, if_neg hp]
    have hs : ∀ c' : Cfg, c'.sortMapKeys = c.sortMapKeys → (if c'.sortMapKeys = true then sortBy (fun e => e.1.sortText) (es.map fun e => (e.1, enc c' e.2))
        else es.map fun e => (e.1, enc c' e.2)) = (if c.sortMapKeys = true then sortBy (fun e => e.1.sortText) es else es).map fun e => (e.1, enc c' e.2) := by
      intro c' hc
      rw [hc]
      split
      · rw [sortBy_map]
      · rfl
    simp only [hs (c.tint cl) rfl, hs c.plain rfl]
    have hes : ∀ e ∈ (if c.sortMapKeys = true then sortBy (fun e => e.1.sortText) es else es), e ∈ es := by
      intro e he
      split at he
      · exact (mem_sortBy _ _ _).1 he
      · exact he
    generalize (if c.sortMapKeys = true then sortBy (fun e => e.1.sortText) es else es) = es' at *
    simp only [List.length_map]
    split
    · obtain ⟨u, v, e1, e2, huv⟩ := sim_open (c := c) hcl a b
      rw [e1, e2]
      have s := sim_mapLoop (c := c) hcl (fun e : MKey × GV => e.1) (fun e => enc (c.tint cl) e.2) (fun e => enc c.plain e.2) es'
        (fun e he => h e (hes e he)) (fun e he => hk e (hes e he)) true a b u v (c.push d) huv
      generalize hx : mapLoop (c.tint cl) _ _ _ _ _ = o1 at s
      generalize hy : mapLoop c.plain _ _ _ _ _ = o2 at s
      have hx' : mapLoop (c.tint cl) a.length true (List.map (fun x => (x.fst, enc (c.tint cl) x.snd)) es') (a ++ u) ((c.tint cl).push d) = o1 := hx
      have hy' : mapLoop c.plain b.length true (List.map (fun x => (x.fst, enc c.plain x.snd)) es') (b ++ v) (c.plain.push d) = o2 := hy
      rw [hx', hy']
      cases s with
      | panic => exact .panic
      | done x y d e hxy =>
        cases e with
        | some e => exact .done _ _ _ _ hxy
        | none => exact sim_close hcl a b x y (c.pop d) (ch! '}') hxy
    · exact sim_empty hcl a b d _ _

omit hcl in
/-- Results of `strLoop`. -/
inductive SimLoop (a b : Bytes) : LoopR → LoopR → Prop
  | fin (x y : Bytes) (d : Int) : Painted x y → SimLoop a b (.fin (a ++ x) d) (.fin (b ++ y) d)
  | brk (x y : Bytes) (d : Int) (e : Err) : Painted x y → SimLoop a b (.brk (a ++ x) d e) (.brk (b ++ y) d e)
  | panic : SimLoop a b .panic .panic

theorem sim_strLoop {α : Type} (k : α → Bytes) (f g : α → Enc) (xs : List α) (h : ∀ x ∈ xs, Sim (f x) (g x)) (first : Bool)
    (a b u v : Bytes) (d : Int) (huv : Painted u v) :
    SimLoop a b (strLoop (c.tint cl) first (xs.map fun x => (k x, f x)) (a ++ u) d)
      (strLoop c.plain first (xs.map fun x => (k x, g x)) (b ++ v) d) := by
  induction xs generalizing first u v d with
  | nil => exact .fin _ _ _ huv
  | cons x xs ih =>
    have hfg := h x (by simp)
    have ih := ih (fun p hp => h p (by simp [hp])) false
    simp only [strLoop, List.map_cons]
    obtain ⟨u', v', e1, e2, huv'⟩ := sim_sep (c := c) hcl first a b u v d huv
    rw [e1, e2]
    have s := sim_key (c := c) hcl (k x) (a ++ u') (b ++ v') d
    generalize encodeKey (c.tint cl) (k x) (a ++ u') d = o1 at *
    generalize encodeKey c.plain (k x) (b ++ v') d = o2 at *
    cases s with
    | panic => exact .panic
    | done p q d e hpq =>
      simp only [List.append_assoc]
      obtain ⟨u2, v2, e1, e2, huv2⟩ := sim_colon (c := c) hcl a b (u' ++ p) (v' ++ q) (huv'.append hpq)
      rw [e1, e2]
      have s := hfg (a ++ u2) (b ++ v2) d
      generalize f x (a ++ u2) d = o1 at *
      generalize g x (b ++ v2) d = o2 at *
      cases s with
      | panic => exact .panic
      | done p q d e hpq =>
        cases e with
        | some e =>
          simp only [List.append_assoc]
          exact .brk _ _ _ _ (huv2.append hpq)
        | none =>
          simp only [List.append_assoc]
          exact ih _ _ d (huv2.append hpq)

theorem sim_strMap {α : Type} (k : α → Bytes) (f g : α → Enc) (xs : List α) (h : ∀ x ∈ xs, Sim (f x) (g x)) :
    Sim (strMapSorted (c.tint cl) (xs.map fun x => (k x, f x))) (strMapSorted c.plain (xs.map fun x => (k x, g x))) ∧
    Sim (mapSIUnsorted (c.tint cl) (xs.map fun x => (k x, f x))) (mapSIUnsorted c.plain (xs.map fun x => (k x, g x))) ∧
    Sim (mapRawUnsorted (c.tint cl) (xs.map fun x => (k x, f x))) (mapRawUnsorted c.plain (xs.map fun x => (k x, g x))) := by
  have key : ∀ (xs : List α), (∀ x ∈ xs, Sim (f x) (g x)) → ∀ a b d, SimLoop a b
      (strLoop (c.tint cl) true (xs.map fun x => (k x, f x)) ((c.tint cl).appendByte (appendPunc (c.tint cl).clrs a (ch! '{')) 0x0a) ((c.tint cl).push d))
      (strLoop c.plain true (xs.map fun x => (k x, g x)) (c.plain.appendByte (appendPunc c.plain.clrs b (ch! '{')) 0x0a) (c.plain.push d)) := by
    intro xs h a b d
    obtain ⟨u, v, e1, e2, huv⟩ := sim_open (c := c) hcl a b
    rw [e1, e2]
    exact sim_strLoop (c := c) hcl k f g xs h true a b u v (c.push d) huv
  refine ⟨?_, ?_, ?_⟩
  · intro a b d
    simp only [strMapSorted]
    have hs1 : sortBy (fun e => e.1) (xs.map fun x => (k x, f x)) = (sortBy k xs).map fun x => (k x, f x) := by rw [sortBy_map]
    have hs2 : sortBy (fun e => e.1) (xs.map fun x => (k x, g x)) = (sortBy k xs).map fun x => (k x, g x) := by rw [sortBy_map]
    rw [hs1, hs2]
    have h' : ∀ x ∈ sortBy k xs, Sim (f x) (g x) := fun x hx => h x ((mem_sortBy _ _ _).1 hx)
    generalize sortBy k xs = xs' at *
    simp only [List.length_map]
    split
    · have s := key xs' h' a b d
      generalize strLoop (c.tint cl) _ _ _ _ = o1 at *
      generalize strLoop c.plain _ _ _ _ = o2 at *
      cases s with
      | panic => exact .panic
      | fin x y d hxy => exact sim_close hcl a b x y (c.pop d) (ch! '}') hxy
      | brk x y d e hxy =>
        obtain ⟨w, hw⟩ := lay_nl c (c.pop d)
        have e1 : (strTail (c.tint cl) (a ++ x) d) = (a ++ x ++ w, c.pop d) := by
          have := hw (a ++ x); simp only [strTail]; exact Prod.ext this rfl
        have e2 : (strTail c.plain (b ++ y) d) = (b ++ y ++ w, c.pop d) := by
          have := hw (b ++ y); simp only [strTail]; exact Prod.ext this rfl
        simp only []
        rw [e1, e2]
        simp only [List.append_assoc, List.take_left]
        exact simOut_err a b _ e
    · exact sim_empty hcl a b d _ _
  · intro a b d
    simp only [mapSIUnsorted, List.length_map]
    split
    · have s := key xs h a b d
      generalize strLoop (c.tint cl) _ _ _ _ = o1 at *
      generalize strLoop c.plain _ _ _ _ = o2 at *
      cases s with
      | panic => exact .panic
      | fin x y d hxy => exact sim_close hcl a b x y (c.pop d) (ch! '}') hxy
      | brk x y d e hxy => exact .done _ _ _ _ hxy
    · exact sim_empty hcl a b d _ _
  · intro a b d
    simp only [mapRawUnsorted, List.length_map]
    split
    · have s := key xs h a b d
      generalize strLoop (c.tint cl) _ _ _ _ = o1 at *
      generalize strLoop c.plain _ _ _ _ = o2 at *
      cases s with
      | panic => exact .panic
      | fin x y d hxy => exact sim_close hcl a b x y (c.pop d) (ch! '}') hxy
      | brk x y d e hxy => exact sim_close hcl a b x y (c.pop d) (ch! '}') hxy
    · exact sim_empty hcl a b d _ _

theorem sim_structKey (a b u v k : Bytes) (d : Int) (huv : Painted u v) : ∃ u' v',
    structKey (c.tint cl) (a ++ u) k d = a ++ u ++ u' ∧ structKey c.plain (b ++ v) k d = b ++ v ++ v' ∧ Painted u' v' := by
  obtain ⟨w, hw⟩ := lay_indent c d
  have e1 : (c.tint cl).appendIndent d (a ++ u) = a ++ u ++ w := hw _
  have e2 : c.plain.appendIndent d (b ++ v) = b ++ v ++ w := hw _
  refine ⟨w ++ (cl.key ++ (k ++ ansiReset)), w ++ k, ?_, ?_, ?_⟩
  · simp only [structKey]; rw [e1]; simp
  · simp only [structKey]; rw [e2]; simp
  · exact (Painted.refl w).append (.color hcl.2.2.2.2.1 ((Painted.refl k).suffix sgr_reset))

theorem sim_structLoop (fs : List (FMeta × GV)) (h : ∀ f ∈ fs, Sim (enc (c.tint cl) f.2) (enc c.plain f.2)) (n : Nat)
    (a b u v : Bytes) (d : Int) (huv : Painted u v) :
    SimOut a b (structLoop (c.tint cl) a.length n (encF (c.tint cl) fs) (a ++ u) d).1
      (structLoop c.plain b.length n (encF c.plain fs) (b ++ v) d).1 ∧
    (structLoop (c.tint cl) a.length n (encF (c.tint cl) fs) (a ++ u) d).2 =
      (structLoop c.plain b.length n (encF c.plain fs) (b ++ v) d).2 := by
  induction fs generalizing n u v d with
  | nil => exact ⟨.done _ _ _ _ huv, rfl⟩
  | cons f fs ih =>
    obtain ⟨m, g⟩ := f
    have hfg := h (m, g) (by simp)
    have ih := ih (fun p hp => h p (by simp [hp]))
    simp only [encF, structLoop]
    split
    · exact ih n u v d huv
    · obtain ⟨u1, v1, e1, e2, huv1⟩ : ∃ u1 v1,
          (if n ≠ 0 then (c.tint cl).appendByte (appendPunc (c.tint cl).clrs (a ++ u) (ch! ',')) 0x0a else a ++ u) = a ++ u1 ∧
          (if n ≠ 0 then c.plain.appendByte (appendPunc c.plain.clrs (b ++ v) (ch! ',')) 0x0a else b ++ v) = b ++ v1 ∧ Painted u1 v1 := by
        by_cases hn : n ≠ 0
        · obtain ⟨w, hw⟩ := lay_byte c 0x0a
          have e1 := hw (appendPunc (c.tint cl).clrs (a ++ u) (ch! ','))
          have e2 := hw (appendPunc c.plain.clrs (b ++ v) (ch! ','))
          rw [if_pos hn, if_pos hn]
          refine ⟨u ++ ((cl.puncColor (ch! ',') ++ [ch! ','] ++ ansiReset) ++ w), v ++ ([ch! ','] ++ w), e1.trans ?_, e2.trans ?_, ?_⟩
          · simp [appendPunc]
          · simp [appendPunc]
          · exact huv.append ((punc_painted hcl _).append (Painted.refl w))
        · rw [if_neg hn, if_neg hn]; exact ⟨u, v, rfl, rfl, huv⟩
      rw [e1, e2]
      obtain ⟨u2, v2, e3, e4, huv2⟩ := sim_structKey (c := c) hcl a b u1 v1 (doEncodeString c.escapeHTML [] m.name) d huv1
      rw [e3, e4]
      obtain ⟨u3, v3, e5, e6, huv3⟩ := sim_colon (c := c) hcl (a ++ u1) (b ++ v1) u2 v2 huv2
      rw [e5, e6]
      have s := hfg (a ++ u1 ++ u3) (b ++ v1 ++ v3) d
      dsimp only at s
      generalize enc (c.tint cl) g (a ++ u1 ++ u3) d = o1 at *
      generalize enc c.plain g (b ++ v1 ++ v3) d = o2 at *
      cases s with
      | panic => exact ⟨.panic, rfl⟩
      | done p q d e hpq =>
        cases e with
        | some e =>
          simp only []
          split
          · have t1 : (a ++ u1 ++ u3 ++ p).take (a ++ u1).length = a ++ u1 := take_start (a ++ u1) u3 p
            have t2 : (b ++ v1 ++ v3 ++ q).take (b ++ v1).length = b ++ v1 := take_start (b ++ v1) v3 q
            rw [t1, t2]
            exact ih n u1 v1 d huv1
          · have t1 : (a ++ u1 ++ u3 ++ p).take a.length = a := by simp
            have t2 : (b ++ v1 ++ v3 ++ q).take b.length = b := by simp
            rw [t1, t2]
            exact ⟨simOut_err a b d e, rfl⟩
        | none =>
          simp only [List.append_assoc]
          exact ih (n + 1) _ _ d (huv1.append (huv3.append hpq))

theorem sim_struct (fs : List (FMeta × GV)) (h : ∀ f ∈ fs, Sim (enc (c.tint cl) f.2) (enc c.plain f.2)) :
    Sim (encodeStruct (c.tint cl) (encF (c.tint cl) fs)) (encodeStruct c.plain (encF c.plain fs)) := by
  intro a b d
  simp only [encodeStruct, encF_length]
  obtain ⟨u, v, e1, e2, huv⟩ : ∃ u v,
      (if fs.length > 0 then (c.tint cl).appendByte (appendPunc (c.tint cl).clrs a (ch! '{')) 0x0a else appendPunc (c.tint cl).clrs a (ch! '{')) = a ++ u ∧
      (if fs.length > 0 then c.plain.appendByte (appendPunc c.plain.clrs b (ch! '{')) 0x0a else appendPunc c.plain.clrs b (ch! '{')) = b ++ v ∧ Painted u v := by
    by_cases hn : fs.length > 0
    · rw [if_pos hn, if_pos hn]; exact sim_open hcl a b
    · rw [if_neg hn, if_neg hn]; exact ⟨_, _, punc_app hcl _ _, punc_none _ _, punc_painted hcl _⟩
  rw [e1, e2]
  have s := sim_structLoop (c := c) hcl fs h 0 a b u v (c.push d) huv
  generalize hx : structLoop (c.tint cl) _ _ _ _ _ = p1 at s
  generalize hy : structLoop c.plain _ _ _ _ _ = p2 at s
  have hx' : structLoop (c.tint cl) a.length 0 (encF (c.tint cl) fs) (a ++ u) ((c.tint cl).push d) = p1 := hx
  have hy' : structLoop c.plain b.length 0 (encF c.plain fs) (b ++ v) (c.plain.push d) = p2 := hy
  rw [hx', hy']
  obtain ⟨o1, n1⟩ := p1
  obtain ⟨o2, n2⟩ := p2
  obtain ⟨s, hn⟩ := s
  simp only at s hn
  subst hn
  cases s with
  | panic => exact .panic
  | done x y d e hxy =>
    cases e with
    | some e => exact .done _ _ _ _ hxy
    | none =>
      simp only []
      split
      · exact sim_close hcl a b x y (c.pop d) (ch! '}') hxy
      · obtain ⟨w, hw⟩ := lay_indent c (c.pop d)
        have e1 : (c.tint cl).appendIndent ((c.tint cl).pop d) (a ++ x) = a ++ x ++ w := hw _
        have e2 : c.plain.appendIndent (c.plain.pop d) (b ++ y) = b ++ y ++ w := hw _
        rw [e1, e2, punc_app hcl, punc_none]
        simp only [List.append_assoc]
        refine .done _ _ _ _ (hxy.append ((Painted.refl w).append ?_))
        simpa using punc_painted hcl (ch! '}')

/-! Raw messages. -/

omit hcl in
/-- States of the two token loops. -/
inductive SimSt (a b : Bytes) : RawSt → RawSt → Prop
  | mk (u v : Bytes) (d : Int) (st : List (Bool × Nat)) : Painted u v → SimSt a b ⟨a ++ u, d, st⟩ ⟨b ++ v, d, st⟩

theorem sgr_rawColor (v : Bytes) (k : Bool) : Sgr (rawColor cl v k) := by
  obtain ⟨h1, h2, h3, h4, h5, h6, h7, h8, h9, h10, h11, h12, h13⟩ := hcl
  unfold rawColor
  repeat' split
  all_goals first | assumption | exact .none

theorem sim_rawScalar (a b u v w : Bytes) (k : Bool) (huv : Painted u v) : ∃ u' v',
    rawScalar (c.tint cl) (a ++ u) w k = a ++ u' ∧ rawScalar c.plain (b ++ v) w k = b ++ v' ∧ Painted u' v' := by
  have e : ∀ x, (if (c.escapeHTML && rvString w) = true then appendCompactEscapeHTML x w else x ++ w) =
      x ++ (if (c.escapeHTML && rvString w) = true then appendCompactEscapeHTML [] w else w) := by
    intro x; split <;> simp [appendCompactEscapeHTML]
  refine ⟨u ++ (rawColor cl w k ++ ((if (c.escapeHTML && rvString w) = true then appendCompactEscapeHTML [] w else w) ++ ansiReset)),
    v ++ (if (c.escapeHTML && rvString w) = true then appendCompactEscapeHTML [] w else w), ?_, ?_, ?_⟩
  · simp only [rawScalar]
    rw [show (c.tint cl).escapeHTML = c.escapeHTML from rfl, e]; simp only [List.append_assoc]
  · simp only [rawScalar]
    rw [show c.plain.escapeHTML = c.escapeHTML from rfl, e]; simp only [List.append_assoc]
  · exact huv.append (.color (sgr_rawColor hcl w k) ((Painted.refl _).suffix sgr_reset))

theorem sim_rawItem (a b u v : Bytes) (d : Int) (st : List (Bool × Nat)) (k : Bool) (huv : Painted u v) : ∃ u' v' st',
    rawItemPrefix (c.tint cl) (a ++ u) d st k = (a ++ u', st') ∧ rawItemPrefix c.plain (b ++ v) d st k = (b ++ v', st') ∧ Painted u' v' := by
  cases st with
  | nil => exact ⟨u, v, [], rfl, rfl, huv⟩
  | cons f s =>
    obtain ⟨o, m⟩ := f
    simp only [rawItemPrefix]
    split
    · exact ⟨u, v, _, rfl, rfl, huv⟩
    · obtain ⟨w, hw⟩ := lay_nl c d
      have e1 : ∀ x, (c.tint cl).appendIndent d ((c.tint cl).appendByte x 0x0a) = x ++ w := hw
      have e2 : ∀ x, c.plain.appendIndent d (c.plain.appendByte x 0x0a) = x ++ w := hw
      rw [e1, e2]
      split
      · rw [punc_app hcl, punc_none]
        refine ⟨u ++ ((cl.puncColor (ch! ',') ++ [ch! ','] ++ ansiReset) ++ w), v ++ ([ch! ','] ++ w), (o, m + 1) :: s, ?_, ?_, ?_⟩
        · simp only [List.append_assoc]
        · simp only [List.append_assoc]
        · exact huv.append ((punc_painted hcl _).append (Painted.refl w))
      · exact ⟨u ++ w, v ++ w, _, by rw [List.append_assoc], by rw [List.append_assoc], huv.same w⟩

theorem sim_rawStep {a b : Bytes} {s1 s2 : RawSt} (h : SimSt a b s1 s2) (t : Obs) :
    SimSt a b (rawStep (c.tint cl) s1 t) (rawStep c.plain s2 t) := by
  cases h with
  | mk u v d st huv =>
    unfold rawStep
    split
    · obtain ⟨u', v', e1, e2, huv'⟩ := sim_colon (c := c) hcl a b u v huv
      simp only [e1, e2]
      exact .mk _ _ _ _ huv'
    · split
      · exact .mk _ _ _ _ huv
      · split
        · simp only []
          have key : ∀ x y, Painted x y → SimSt a b ⟨appendPunc (c.tint cl).clrs (a ++ x) t.delim, (c.tint cl).pop d, st.tail⟩
              ⟨appendPunc c.plain.clrs (b ++ y) t.delim, c.plain.pop d, st.tail⟩ := by
            intro x y hxy
            rw [punc_app hcl, punc_none, List.append_assoc a x, List.append_assoc b y]
            exact .mk _ _ _ _ (hxy.append (punc_painted hcl _))
          suffices hs : ∀ ne : Bool, SimSt a b
              ⟨appendPunc (c.tint cl).clrs (if ne = true then (c.tint cl).appendIndent ((c.tint cl).pop d) ((c.tint cl).appendByte (a ++ u) 0x0a) else a ++ u) t.delim,
                (c.tint cl).pop d, st.tail⟩
              ⟨appendPunc c.plain.clrs (if ne = true then c.plain.appendIndent (c.plain.pop d) (c.plain.appendByte (b ++ v) 0x0a) else b ++ v) t.delim,
                c.plain.pop d, st.tail⟩ from hs _
          intro ne
          cases ne
          rotate_left
          · obtain ⟨w, hw⟩ := lay_nl c (c.pop d)
            have e1 : (c.tint cl).appendIndent ((c.tint cl).pop d) ((c.tint cl).appendByte (a ++ u) 0x0a) = a ++ (u ++ w) := by
              rw [← List.append_assoc]; exact hw _
            have e2 : c.plain.appendIndent (c.plain.pop d) (c.plain.appendByte (b ++ v) 0x0a) = b ++ (v ++ w) := by
              rw [← List.append_assoc]; exact hw _
            rw [e1, e2]
            exact key _ _ (huv.same w)
          · exact key _ _ huv
        · simp only []
          obtain ⟨u', v', st', e1, e2, huv'⟩ := sim_rawItem (c := c) hcl a b u v d st (t.delim = 0 && t.isKey) huv
          rw [e1, e2]
          simp only []
          split
          · rw [punc_app hcl, punc_none, List.append_assoc a u', List.append_assoc b v']
            exact .mk _ _ _ _ (huv'.append (punc_painted hcl _))
          · obtain ⟨u2, v2, e3, e4, huv2⟩ := sim_rawScalar (c := c) hcl a b u' v' t.value (t.delim = 0 && t.isKey) huv'
            rw [e3, e4]
            exact .mk _ _ _ _ huv2

theorem sim_rawFold {a b : Bytes} (ts : List Obs) {s1 s2 : RawSt} (h : SimSt a b s1 s2) :
    SimSt a b (ts.foldl (rawStep (c.tint cl)) s1) (ts.foldl (rawStep c.plain) s2) := by
  induction ts generalizing s1 s2 with
  | nil => exact h
  | cons t ts ih => exact ih (sim_rawStep hcl h t)

theorem sim_rawTokens (s : Bytes) : Sim (rawTokens (c.tint cl) s) (rawTokens c.plain s) := by
  intro a b d
  simp only [rawTokens]
  have h0 : SimSt a b ⟨a, d, []⟩ ⟨b, d, []⟩ := by
    have := SimSt.mk (a := a) (b := b) [] [] d [] .nil
    simpa using this
  have h := sim_rawFold (c := c) hcl (tokenize s).1 h0
  generalize (tokenize s).1.foldl (rawStep (c.tint cl)) ⟨a, d, []⟩ = s1 at *
  generalize (tokenize s).1.foldl (rawStep c.plain) ⟨b, d, []⟩ = s2 at *
  cases h with
  | mk u v d st huv =>
    cases (tokenize s).2 with
    | panic => exact .panic
    | outOfFuel => exact .done _ _ _ _ huv
    | stop t =>
      simp only []
      cases t.err with
      | none => exact .done _ _ _ _ huv
      | some e =>
        simp only [List.take_left]
        exact simOut_err a b d e

theorem sim_raw (v : Option Bytes) : Sim (encodeRawMessage (c.tint cl) v) (encodeRawMessage c.plain v) := by
  cases v with
  | none => exact sim_null hcl
  | some s =>
    intro a b d
    simp only [encodeRawMessage]
    split
    · have h := sim_rawTokens (c := c) hcl s a b d
      generalize rawTokens (c.tint cl) s a d = o1 at *
      generalize rawTokens c.plain s b d = o2 at *
      cases h with
      | panic => exact .panic
      | done x y d e hxy =>
        cases e with
        | none => exact .done _ _ _ _ hxy
        | some e =>
          have := sim_loc (loc_rawVerbatim c.plain s) (a ++ x) (b ++ y) d
          exact SimOut.ext (x := x) (y := y) this hxy
    · cases parseValue s with
      | fail r e => exact simOut_err a b d _
      | ok v r => exact sim_rawTokens hcl v a b d

theorem sim_jsonM (r : JsonRes) : Sim (encodeJSONMarshaler (c.tint cl) r) (encodeJSONMarshaler c.plain r) := by
  intro a b d
  cases r with
  | isNil => exact sim_null hcl a b d
  | err e => exact simOut_err a b d e
  | ok s => exact sim_raw hcl s a b d

mutual
/-- Colored and plain encoding agree up to color sequences. -/
theorem sim_enc : ∀ v : GV, NoQuoted v → Sim (enc (c.tint cl) v) (enc c.plain v)
  | .nil, _ | .sliceNil, _ | .mapNil, _ | .ptrNil, _ => by simp only [enc]; exact sim_null hcl
  | .bool v, _ => by simp only [enc]; exact sim_bool hcl v
  | .int z, _ => by simp only [enc]; exact sim_int hcl z
  | .uint n, _ => by simp only [enc]; exact sim_uint hcl n
  | .float f, _ => by simp only [enc]; exact sim_colored hcl hcl.2.2.1 (sim_loc (loc_float f))
  | .number s, _ => by simp only [enc]; exact sim_number hcl s
  | .string s, _ => by simp only [enc]; exact sim_string hcl s
  | .bytesNil, _ => by simp only [enc]; exact sim_bytes hcl none
  | .bytes s, _ => by simp only [enc]; exact sim_bytes hcl (some s)
  | .time s _, _ => by simp only [enc]; exact sim_time hcl s
  | .slice xs, h => by simp only [enc, encL_map]; exact sim_array hcl _ _ xs (sim_encL xs h)
  | .array xs, h => by simp only [enc, encL_map]; exact sim_array hcl _ _ xs (sim_encL xs h)
  | .map es, h => by simp only [enc]; exact sim_map hcl es (sim_encE es h).1 (sim_encE es h).2
  | .mapSI es, h => by
    simp only [enc, encS_map, encodeMapSI]
    have := sim_strMap (c := c) hcl (fun e : Bytes × GV => e.1) (fun e => enc (c.tint cl) e.2) (fun e => enc c.plain e.2) es (sim_encS es h)
    split
    · exact this.1
    · exact this.2.1
  | .mapRaw es, _ => by
    simp only [enc, encodeMapRaw]
    have := sim_strMap (c := c) hcl (fun e : Bytes × Option Bytes => e.1) (fun e => encodeRawMessage (c.tint cl) e.2)
      (fun e => encodeRawMessage c.plain e.2) es (fun e _ => sim_raw hcl e.2)
    split
    · exact this.1
    · exact this.2.2
  | .struct fs, h => by simp only [enc]; exact sim_struct hcl fs (sim_encF fs h)
  | .ptr v, h => by simp only [enc]; exact sim_enc v h
  | .iface v _, h => by simp only [enc]; exact sim_enc v h
  | .rawNil, _ => by simp only [enc]; exact sim_raw hcl none
  | .raw s, _ => by simp only [enc]; exact sim_raw hcl (some s)
  | .jsonM r _, _ => by simp only [enc]; exact sim_jsonM hcl r
  | .textM r _, _ => by simp only [enc]; exact sim_text hcl r
  | .quoted v, h => absurd h (by simp [NoQuoted])
  | .embNil _, _ => by simp only [enc]; intro a b d; exact simOut_err a b d _
  | .emb v _, h => by simp only [enc]; exact sim_enc v h
  | .unsupported, _ => by simp only [enc]; intro a b d; exact simOut_err a b d _
theorem sim_encL : ∀ xs : List GV, NoQuotedL xs → ∀ v ∈ xs, Sim (enc (c.tint cl) v) (enc c.plain v)
  | [], _ => by simp
  | v :: vs, h => by
    intro x hx
    simp only [List.mem_cons] at hx
    rcases hx with rfl | hx
    · exact sim_enc x h.1
    · exact sim_encL vs h.2 x hx
theorem sim_encE : ∀ es : List (MKey × GV), NoQuotedE es → (∀ e ∈ es, Sim (enc (c.tint cl) e.2) (enc c.plain e.2)) ∧
    (∀ e ∈ es, (∀ z, e.1 ≠ .int z) ∧ (∀ z, e.1 ≠ .uint z))
  | [], _ => by simp
  | (k, v) :: es, h => by
    have ih := sim_encE es h.2.2.2
    have hv := sim_enc v h.2.2.1
    constructor
    · intro x hx
      simp only [List.mem_cons] at hx
      rcases hx with rfl | hx
      · exact hv
      · exact ih.1 x hx
    · intro x hx
      simp only [List.mem_cons] at hx
      rcases hx with rfl | hx
      · exact ⟨h.1, h.2.1⟩
      · exact ih.2 x hx
theorem sim_encS : ∀ es : List (Bytes × GV), NoQuotedS es → ∀ e ∈ es, Sim (enc (c.tint cl) e.2) (enc c.plain e.2)
  | [], _ => by simp
  | (k, v) :: es, h => by
    intro x hx
    simp only [List.mem_cons] at hx
    rcases hx with rfl | hx
    · exact sim_enc v h.1
    · exact sim_encS es h.2 x hx
theorem sim_encF : ∀ es : List (FMeta × GV), NoQuotedF es → ∀ e ∈ es, Sim (enc (c.tint cl) e.2) (enc c.plain e.2)
  | [], _ => by simp
  | (k, v) :: es, h => by
    intro x hx
    simp only [List.mem_cons] at hx
    rcases hx with rfl | hx
    · exact sim_enc v h.1
    · exact sim_encF es h.2 x hx
end

end
end JC
