import Verif.Model.Indent
import Verif.Spec.Indent
import Verif.Lemmas.Doc
import Verif.Lemmas.DocOk
/-!
What `Indent` makes of the text of a tree.
-/
namespace JC
open Spec

variable {pre indent : Bytes}

/-- Bytes of numbers and literals. -/
def Bland (c : UInt8) : Prop := c ≠ 0x20 ∧ c ≠ 0x09 ∧ c ≠ 0x0a ∧ c ≠ 0x0d ∧ c ≠ 0x22 ∧ c ≠ 0x7b ∧ c ≠ 0x5b ∧ c ≠ 0x7d ∧
  c ≠ 0x5d ∧ c ≠ 0x2c ∧ c ≠ 0x3a

instance (c : UInt8) : Decidable (Bland c) := inferInstanceAs (Decidable (_ ∧ _))

theorem jnumber_bland {s : Bytes} (hs : JNumber s) : ∀ c ∈ s, Bland c := by
  intro c hc
  have := jnumber_bytes hs c hc
  simp only [Digit, UInt8.le_iff_toNat_le, UInt8.reduceToNat] at this
  simp only [Bland, ← UInt8.toNat_inj, UInt8.reduceToNat, ne_eq] at *
  omega

/-- The line break still owed, and the level then. -/
def owed (pre indent : Bytes) (need : Bool) (d : Nat) : Bytes := if need then indentLine pre indent (d + 1) else []
def lvl (need : Bool) (d : Nat) : Nat := if need then d + 1 else d

theorem ind_ws {w : Bytes} (hw : Ws w) (need : Bool) (d : Nat) (r : Bytes) :
    indentBytes pre indent false false need d (w ++ r) = indentBytes pre indent false false need d r := by
  induction w with
  | nil => rfl
  | cons c w ih =>
    have hc : c = 0x20 ∨ c = 0x09 ∨ c = 0x0a ∨ c = 0x0d := by
      have := hw c (by simp)
      cases this <;> simp
    rw [List.cons_append, indentBytes, if_pos hc]
    exact ih fun x hx => hw x (by simp [hx])

theorem ind_bland1 {c : UInt8} (h : Bland c) (need : Bool) (d : Nat) (r : Bytes) :
    indentBytes pre indent false false need d (c :: r) =
      owed pre indent need d ++ c :: indentBytes pre indent false false false (lvl need d) r := by
  obtain ⟨h1, h2, h3, h4, h5, h6, h7, h8, h9, h10, h11⟩ := h
  have hq : (c == 0x22) = false := by simpa using h5
  cases need <;> simp [indentBytes, owed, lvl, *]

theorem ind_bland {s : Bytes} (hs : ∀ c ∈ s, Bland c) (hne : s ≠ []) (need : Bool) (d : Nat) (r : Bytes) :
    indentBytes pre indent false false need d (s ++ r) =
      owed pre indent need d ++ (s ++ indentBytes pre indent false false false (lvl need d) r) := by
  have key : ∀ (t : Bytes), (∀ c ∈ t, Bland c) → ∀ d, indentBytes pre indent false false false d (t ++ r) =
      t ++ indentBytes pre indent false false false d r := by
    intro t
    induction t with
    | nil => intro _ _; rfl
    | cons c t ih =>
      intro h d
      rw [List.cons_append, ind_bland1 (h c (by simp)), show lvl false d = d from rfl, ih (fun x hx => h x (by simp [hx]))]
      simp [owed]
  cases s with
  | nil => exact absurd rfl hne
  | cons c t =>
    rw [List.cons_append, ind_bland1 (hs c (by simp)), key t (fun x hx => hs x (by simp [hx]))]
    simp

theorem hex_plain {c : UInt8} (h : HexDigit c) : (c != 0x22) = true ∧ (c == 0x5c) = false := by
  have : c ≠ 0x22 ∧ c ≠ 0x5c := by
    simp only [HexDigit, UInt8.le_iff_toNat_le, ← UInt8.toNat_inj, ne_eq, UInt8.reduceToNat] at *; omega
  simpa using this

theorem ind_chars {s : Bytes} (hs : JChars s) (d : Nat) (r : Bytes) :
    indentBytes pre indent true false false d (s ++ r) = s ++ indentBytes pre indent true false false d r := by
  induction hs with
  | nil => rfl
  | plain c b h1 h2 h3 _ ih =>
    have k2 : (c != 0x22) = true := by simpa using h2
    have k3 : (c == 0x5c) = false := by simpa using h3
    simp [indentBytes, k2, k3, ih]
  | esc e b he _ ih => simp [indentBytes, ih]
  | uni a b c e t ha hb hc he _ ih =>
    have h1 := hex_plain ha
    have h2 := hex_plain hb
    have h3 := hex_plain hc
    have h4 := hex_plain he
    simp [indentBytes, ih, h1, h2, h3, h4]

theorem ind_string {s : Bytes} (hs : JString s) (need : Bool) (d : Nat) (r : Bytes) :
    indentBytes pre indent false false need d (s ++ r) =
      owed pre indent need d ++ (s ++ indentBytes pre indent false false false (lvl need d) r) := by
  obtain ⟨s, hs⟩ := hs
  have e : ∀ d, indentBytes pre indent true false false d (s ++ [0x22] ++ r) =
      s ++ 0x22 :: indentBytes pre indent false false false d r := by
    intro d
    rw [List.append_assoc, ind_chars hs]
    simp [indentBytes]
  cases need <;> simp [indentBytes, owed, lvl, -List.append_assoc, e] <;> simp

/-- The style of `MarshalIndent`. -/
abbrev lay (pre indent : Bytes) : Style := ⟨none, some (pre, indent)⟩

/-- What indenting says for each nonterminal. -/
def IndSpec (pre indent : Bytes) : Sym → Bytes → Prop
  | .value j, b => ∀ need d r, indentBytes pre indent false false need d (b ++ r) =
      owed pre indent need d ++ (render (lay pre indent) (lvl need d) (docOf false j) ++
        indentBytes pre indent false false false (lvl need d) r)
  | .elems xs, b => ∀ need d r, indentBytes pre indent false false need d (b ++ r) =
      owed pre indent need d ++ ((renderElems (lay pre indent) (lvl need d) true (docOfL false xs)).drop
        (indentLine pre indent (lvl need d)).length ++ indentBytes pre indent false false false (lvl need d) r)
  | .members ms, b => ∀ need d r, indentBytes pre indent false false need d (b ++ r) =
      owed pre indent need d ++ ((renderMembers (lay pre indent) (lvl need d) true (docOfM false ms)).drop
        (indentLine pre indent (lvl need d)).length ++ indentBytes pre indent false false false (lvl need d) r)

theorem newline_lay (d : Nat) : newline (lay pre indent) d = indentLine pre indent d := rfl

theorem ind_open {c : UInt8} (h : c = 0x7b ∨ c = 0x5b) (need : Bool) (d : Nat) (r : Bytes) :
    indentBytes pre indent false false need d (c :: r) =
      owed pre indent need d ++ c :: indentBytes pre indent false false true (lvl need d) r := by
  rcases h with rfl | rfl <;> cases need <;> simp [indentBytes, owed, lvl]

theorem ind_close_need {c : UInt8} (h : c = 0x7d ∨ c = 0x5d) (d : Nat) (r : Bytes) :
    indentBytes pre indent false false true d (c :: r) = c :: indentBytes pre indent false false false d r := by
  rcases h with rfl | rfl <;> simp [indentBytes]

theorem ind_close {c : UInt8} (h : c = 0x7d ∨ c = 0x5d) (d : Nat) (r : Bytes) :
    indentBytes pre indent false false false (d + 1) (c :: r) =
      indentLine pre indent d ++ c :: indentBytes pre indent false false false d r := by
  rcases h with rfl | rfl <;> simp [indentBytes]

theorem ind_comma (d : Nat) (r : Bytes) :
    indentBytes pre indent false false false d (0x2c :: r) =
      0x2c :: (indentLine pre indent d ++ indentBytes pre indent false false false d r) := by
  simp [indentBytes]

theorem ind_colon (d : Nat) (r : Bytes) :
    indentBytes pre indent false false false d (0x3a :: r) = 0x3a :: 0x20 :: indentBytes pre indent false false false d r := by
  simp [indentBytes]

theorem elems_drop (d : Nat) (x : Doc) (xs : List Doc) : renderElems (lay pre indent) d true (x :: xs) =
    indentLine pre indent d ++ (renderElems (lay pre indent) d true (x :: xs)).drop (indentLine pre indent d).length := by
  simp only [renderElems, newline_lay, if_true, List.nil_append, List.drop_left]

theorem members_drop (d : Nat) (x : Role × Bytes × Doc) (xs : List (Role × Bytes × Doc)) :
    renderMembers (lay pre indent) d true (x :: xs) =
    indentLine pre indent d ++ (renderMembers (lay pre indent) d true (x :: xs)).drop (indentLine pre indent d).length := by
  obtain ⟨r, k, x⟩ := x
  simp only [renderMembers, newline_lay, if_true, List.nil_append, List.drop_left]

theorem elems_more (d : Nat) (x : Doc) (xs : List Doc) : renderElems (lay pre indent) d false (x :: xs) =
    0x2c :: renderElems (lay pre indent) d true (x :: xs) := by
  simp [renderElems, paint]

theorem members_more (d : Nat) (x : Role × Bytes × Doc) (xs : List (Role × Bytes × Doc)) :
    renderMembers (lay pre indent) d false (x :: xs) = 0x2c :: renderMembers (lay pre indent) d true (x :: xs) := by
  obtain ⟨r, k, x⟩ := x
  simp [renderMembers, paint]

theorem owed_true (d : Nat) : owed pre indent true d = indentLine pre indent (d + 1) := rfl
theorem owed_false (d : Nat) : owed pre indent false d = [] := rfl
theorem lvl_true (d : Nat) : lvl true d = d + 1 := rfl
theorem lvl_false (d : Nat) : lvl false d = d := rfl

theorem ind_spec {s : Sym} {b : Bytes} (h : Derives s b) : IndSpec pre indent s b := by
  induction h with
  | null => intro n d r; exact ind_bland (by decide) (by simp) n d r
  | tru => intro n d r; exact ind_bland (by decide) (by simp) n d r
  | fls => intro n d r; exact ind_bland (by decide) (by simp) n d r
  | num s hs =>
    intro n d r
    refine ind_bland (jnumber_bland hs) ?_ n d r
    obtain ⟨sgn, i, f, e, _, hi, _, _⟩ := hs
    intro h
    simp only [List.append_eq_nil_iff] at h
    obtain ⟨⟨⟨_, h⟩, _⟩, _⟩ := h
    subst h
    cases hi
  | str s hs => intro n d r; exact ind_string hs n d r
  | arrNil w hw =>
    intro n d r
    simp only [List.cons_append, List.append_assoc, List.nil_append]
    rw [ind_open (.inr rfl), ind_ws hw, ind_close_need (.inr rfl)]
    simp [docOf, docOfL, render, renderElems, paint]
  | arr xs b hb ih =>
    intro n d r
    simp only [List.cons_append, List.append_assoc, List.nil_append]
    rw [ind_open (.inr rfl), ih, lvl_true, ind_close (.inr rfl), owed_true]
    cases xs with
    | nil => cases hb
    | cons x xs =>
      simp only [docOf, docOfL, render, paint]
      rw [elems_drop]
      simp [newline_lay]
  | objNil w hw =>
    intro n d r
    simp only [List.cons_append, List.append_assoc, List.nil_append]
    rw [ind_open (.inl rfl), ind_ws hw, ind_close_need (.inl rfl)]
    simp [docOf, docOfM, render, renderMembers, paint]
  | obj ms b hb ih =>
    intro n d r
    simp only [List.cons_append, List.append_assoc, List.nil_append]
    rw [ind_open (.inl rfl), ih, lvl_true, ind_close (.inl rfl), owed_true]
    cases ms with
    | nil => cases hb
    | cons x xs =>
      obtain ⟨k, x⟩ := x
      simp only [docOf, docOfM, render, paint]
      rw [members_drop]
      simp [newline_lay]
  | elemOne w1 w2 j b h1 h2 _ ih =>
    intro n d r
    simp only [List.append_assoc]
    rw [ind_ws h1, ih, ind_ws h2]
    simp [docOfL, renderElems, newline_lay]
  | elemCons w1 w2 j b xs bs h1 h2 _ hxs ih ihs =>
    intro n d r
    simp only [List.append_assoc, List.cons_append]
    rw [ind_ws h1, ih, ind_ws h2, ind_comma, ihs, owed_false, lvl_false]
    cases xs with
    | nil => cases hxs
    | cons y ys =>
      have e := elems_drop (pre := pre) (indent := indent) (lvl n d) (docOf false y) (docOfL false ys)
      have e2 : renderElems (lay pre indent) (lvl n d) true (docOf false j :: docOf false y :: docOfL false ys) =
          indentLine pre indent (lvl n d) ++ (render (lay pre indent) (lvl n d) (docOf false j) ++
            0x2c :: renderElems (lay pre indent) (lvl n d) true (docOf false y :: docOfL false ys)) := by
        rw [renderElems, elems_more]; simp [newline_lay]
      simp only [docOfL]
      rw [e2, List.drop_left]
      generalize renderElems (lay pre indent) (lvl n d) true (docOf false y :: docOfL false ys) = X at *
      rw [e, List.drop_left]
      simp
  | memOne w1 w2 w3 w4 k j b h1 h2 h3 h4 hk _ ih =>
    intro n d r
    simp only [List.append_assoc, List.cons_append]
    rw [ind_ws h1, ind_string hk, ind_ws h2, ind_colon, ind_ws h3, ih, ind_ws h4, owed_false, lvl_false]
    simp [docOfM, renderMembers, newline_lay, paint, gap, copyStr]
  | memCons w1 w2 w3 w4 k j b ms bs h1 h2 h3 h4 hk _ hms ih ihs =>
    intro n d r
    simp only [List.append_assoc, List.cons_append]
    rw [ind_ws h1, ind_string hk, ind_ws h2, ind_colon, ind_ws h3, ih, ind_ws h4, ind_comma, ihs, owed_false, lvl_false, lvl_false,
      owed_false]
    cases ms with
    | nil => cases hms
    | cons y ys =>
      obtain ⟨k', y⟩ := y
      have e := members_drop (pre := pre) (indent := indent) (lvl n d) (.key, copyStr false k', docOf false y) (docOfM false ys)
      have e2 : renderMembers (lay pre indent) (lvl n d) true ((.key, copyStr false k, docOf false j) ::
            (.key, copyStr false k', docOf false y) :: docOfM false ys) =
          indentLine pre indent (lvl n d) ++ (k ++ 0x3a :: 0x20 :: (render (lay pre indent) (lvl n d) (docOf false j) ++
            0x2c :: renderMembers (lay pre indent) (lvl n d) true ((.key, copyStr false k', docOf false y) :: docOfM false ys))) := by
        rw [renderMembers, members_more]; simp [newline_lay, paint, gap, copyStr]
      simp only [docOfM]
      rw [e2, List.drop_left]
      generalize renderMembers (lay pre indent) (lvl n d) true ((.key, copyStr false k', docOf false y) :: docOfM false ys) = X at *
      rw [e, List.drop_left]
      simp

theorem indentBytes_value {j : Json} {v : Bytes} (h : Derives (.value j) v) :
    indentBytes pre indent false false false 0 v = render (lay pre indent) 0 (docOf false j) := by
  have := ind_spec (pre := pre) (indent := indent) h false 0 []
  simpa [owed, lvl, indentBytes] using this

/-! ### Nesting -/

theorem nest_ge : ∀ (b : Bytes) (s e : Bool) (d : Nat), d ≤ nesting s e d b
  | [], s, e, d => by cases s <;> simp [nesting]
  | c :: t, true, e, d => by rw [nesting]; exact nest_ge t _ _ d
  | c :: t, false, e, d => by
    rw [nesting]
    split
    · exact Nat.le_trans (Nat.le_succ d) (nest_ge t _ _ _)
    · split
      · exact Nat.le_max_left _ _
      · exact nest_ge t _ _ d

theorem nest_chars {s : Bytes} (hs : JChars s) (d : Nat) (r : Bytes) :
    nesting true false d (s ++ r) = nesting true false d r := by
  induction hs with
  | nil => rfl
  | plain c b h1 h2 h3 _ ih =>
    have k2 : (c != 0x22) = true := by simpa using h2
    have k3 : (c == 0x5c) = false := by simpa using h3
    simp [nesting, k2, k3, ih]
  | esc e b he _ ih => simp [nesting, ih]
  | uni a b c e t ha hb hc he _ ih =>
    have h1 := hex_plain ha
    have h2 := hex_plain hb
    have h3 := hex_plain hc
    have h4 := hex_plain he
    simp [nesting, ih, h1, h2, h3, h4]

theorem nest_string {s : Bytes} (hs : JString s) (d : Nat) (r : Bytes) :
    nesting false false d (s ++ r) = nesting false false d r := by
  obtain ⟨s, hs⟩ := hs
  have e : nesting true false d (s ++ [0x22] ++ r) = nesting false false d r := by
    rw [List.append_assoc, nest_chars hs]; simp [nesting]
  simp [nesting, -List.append_assoc, e]

/-- Bytes that neither open nor close anything. -/
def Flat (c : UInt8) : Prop := c ≠ 0x22 ∧ c ≠ 0x7b ∧ c ≠ 0x5b ∧ c ≠ 0x7d ∧ c ≠ 0x5d

instance (c : UInt8) : Decidable (Flat c) := inferInstanceAs (Decidable (_ ∧ _))

theorem nest_flat {s : Bytes} (hs : ∀ c ∈ s, Flat c) (d : Nat) (r : Bytes) :
    nesting false false d (s ++ r) = nesting false false d r := by
  induction s with
  | nil => rfl
  | cons c s ih =>
    obtain ⟨h1, h2, h3, h4, h5⟩ := hs c (by simp)
    have := ih fun x hx => hs x (by simp [hx])
    have hq : (c == 0x22) = false := by simpa using h1
    simp [nesting, h2, h3, h4, h5, hq, this]

theorem ws_flat {w : Bytes} (hw : Ws w) : ∀ c ∈ w, Flat c := by
  intro c hc
  have := hw c hc
  cases this <;> decide

theorem bland_flat {c : UInt8} (h : Bland c) : Flat c := ⟨h.2.2.2.2.1, h.2.2.2.2.2.1, h.2.2.2.2.2.2.1, h.2.2.2.2.2.2.2.1,
  h.2.2.2.2.2.2.2.2.1⟩

def NestSpec : Sym → Bytes → Prop
  | .value j, b => ∀ d r, nesting false false d (b ++ r) = max (d + deep j) (nesting false false d r)
  | .elems xs, b => ∀ d r, nesting false false d (b ++ r) = max (d + deepL xs) (nesting false false d r)
  | .members ms, b => ∀ d r, nesting false false d (b ++ r) = max (d + deepM ms) (nesting false false d r)

theorem nest_spec {s : Sym} {b : Bytes} (h : Derives s b) : NestSpec s b := by
  have hop : ∀ (c : UInt8) d r, c = 0x7b ∨ c = 0x5b → nesting false false d (c :: r) = nesting false false (d + 1) r := by
    intro c d r h; rcases h with rfl | rfl <;> simp [nesting]
  have hcl : ∀ (c : UInt8) d r, c = 0x7d ∨ c = 0x5d → nesting false false (d + 1) (c :: r) = max (d + 1) (nesting false false d r) := by
    intro c d r h; rcases h with rfl | rfl <;> simp [nesting]
  have hfl : ∀ (c : UInt8) d r, Flat c → nesting false false d (c :: r) = nesting false false d r := by
    intro c d r h; exact nest_flat (s := [c]) (by simpa using h) d r
  have hz : ∀ d r, nesting false false d r = max (d + 0) (nesting false false d r) := by
    intro d r; have := nest_ge r false false d; omega
  induction h with
  | null => intro d r; exact (nest_flat (by decide) d r).trans (hz d r)
  | tru => intro d r; exact (nest_flat (by decide) d r).trans (hz d r)
  | fls => intro d r; exact (nest_flat (by decide) d r).trans (hz d r)
  | num s hs => intro d r; exact (nest_flat (fun c hc => bland_flat (jnumber_bland hs c hc)) d r).trans (hz d r)
  | str s hs => intro d r; exact (nest_string hs d r).trans (hz d r)
  | arrNil w hw =>
    intro d r
    simp only [List.cons_append, List.append_assoc, List.nil_append]
    rw [hop _ _ _ (.inr rfl), nest_flat (ws_flat hw), hcl _ _ _ (.inr rfl)]
    simp [deep, deepL]
  | arr xs b hb ih =>
    intro d r
    simp only [List.cons_append, List.append_assoc, List.nil_append]
    rw [hop _ _ _ (.inr rfl), ih, hcl _ _ _ (.inr rfl)]
    simp only [deep]; omega
  | objNil w hw =>
    intro d r
    simp only [List.cons_append, List.append_assoc, List.nil_append]
    rw [hop _ _ _ (.inl rfl), nest_flat (ws_flat hw), hcl _ _ _ (.inl rfl)]
    simp [deep, deepM]
  | obj ms b hb ih =>
    intro d r
    simp only [List.cons_append, List.append_assoc, List.nil_append]
    rw [hop _ _ _ (.inl rfl), ih, hcl _ _ _ (.inl rfl)]
    simp only [deep]; omega
  | elemOne w1 w2 j b h1 h2 _ ih =>
    intro d r
    simp only [List.append_assoc]
    rw [nest_flat (ws_flat h1), ih, nest_flat (ws_flat h2)]
    simp [deepL]
  | elemCons w1 w2 j b xs bs h1 h2 _ hxs ih ihs =>
    intro d r
    simp only [List.append_assoc, List.cons_append]
    rw [nest_flat (ws_flat h1), ih, nest_flat (ws_flat h2), hfl _ _ _ (by decide), ihs]
    simp only [deepL]; omega
  | memOne w1 w2 w3 w4 k j b h1 h2 h3 h4 hk _ ih =>
    intro d r
    simp only [List.append_assoc, List.cons_append]
    rw [nest_flat (ws_flat h1), nest_string hk, nest_flat (ws_flat h2), hfl _ _ _ (by decide), nest_flat (ws_flat h3), ih,
      nest_flat (ws_flat h4)]
    simp [deepM]
  | memCons w1 w2 w3 w4 k j b ms bs h1 h2 h3 h4 hk _ hms ih ihs =>
    intro d r
    simp only [List.append_assoc, List.cons_append]
    rw [nest_flat (ws_flat h1), nest_string hk, nest_flat (ws_flat h2), hfl _ _ _ (by decide), nest_flat (ws_flat h3), ih,
      nest_flat (ws_flat h4), hfl _ _ _ (by decide), ihs]
    simp only [deepM]; omega

theorem nesting_value {j : Json} {v : Bytes} (h : Derives (.value j) v) : nesting false false 0 v = deep j := by
  have := nest_spec h 0 []
  simpa [nesting] using this

end JC
