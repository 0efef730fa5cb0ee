import Verif.Lemmas.Sort
import Verif.Props.Encode
import Verif.Spec.Says
/-!
Properties C16 to C18 (raw messages), C49 (numbers) and C50 (float exponents).
-/
namespace JC.Spec
open JC

mutual
/-- A tree with another spelling of its strings and keys. -/
def mapStr (f : Bytes → Bytes) : Json → Json
  | .str s => .str (f s)
  | .arr xs => .arr (mapStrL f xs)
  | .obj ms => .obj (mapStrM f ms)
  | j => j
def mapStrL (f : Bytes → Bytes) : List Json → List Json
  | [] => []
  | j :: xs => mapStr f j :: mapStrL f xs
def mapStrM (f : Bytes → Bytes) : List (Bytes × Json) → List (Bytes × Json)
  | [] => []
  | (k, j) :: ms => (f k, mapStr f j) :: mapStrM f ms
end

mutual
/-- The document of a tree, strings and keys spelled by `f`; every token has the role of its kind. -/
def docWith (f : Bytes → Bytes) : Json → Doc
  | .null => .leaf .null (bs! "null")
  | .tru => .leaf .bool (bs! "true")
  | .fls => .leaf .bool (bs! "false")
  | .num s => .leaf .number s
  | .str s => .leaf .string (f s)
  | .arr xs => .arr (docWithL f xs)
  | .obj ms => .obj (docWithM f ms)
def docWithL (f : Bytes → Bytes) : List Json → List Doc
  | [] => []
  | j :: xs => docWith f j :: docWithL f xs
def docWithM (f : Bytes → Bytes) : List (Bytes × Json) → List (Role × Bytes × Doc)
  | [] => []
  | (k, j) :: ms => (.key, f k, docWith f j) :: docWithM f ms
end

mutual
/-- The Go value equivalent to a tree: nil, booleans, `json.Number`s, strings
(decoded by `un`), `[]interface{}` and `map[string]interface{}`. -/
def native (un : Bytes → Bytes) : Json → GV
  | .null => .nil
  | .tru => .bool true
  | .fls => .bool false
  | .num s => .number s
  | .str s => .string (un s)
  | .arr xs => .slice (nativeL un xs)
  | .obj ms => .mapSI (nativeM un ms)
def nativeL (un : Bytes → Bytes) : List Json → List GV
  | [] => []
  | j :: xs => native un j :: nativeL un xs
def nativeM (un : Bytes → Bytes) : List (Bytes × Json) → List (Bytes × GV)
  | [] => []
  | (k, j) :: ms => (un k, native un j) :: nativeM un ms
end

mutual
/-- In every object the keys are distinct and in increasing order. -/
def KeysSorted (un : Bytes → Bytes) : Json → Prop
  | .arr xs => KeysSortedL un xs
  | .obj ms => (ms.map fun m => un m.1).Pairwise (· < ·) ∧ KeysSortedM un ms
  | _ => True
def KeysSortedL (un : Bytes → Bytes) : List Json → Prop
  | [] => True
  | j :: xs => KeysSorted un j ∧ KeysSortedL un xs
def KeysSortedM (un : Bytes → Bytes) : List (Bytes × Json) → Prop
  | [] => True
  | (_, j) :: ms => KeysSorted un j ∧ KeysSortedM un ms
end

end JC.Spec

namespace JC.Props
open JC Spec

/-! ### C16 -/

theorem jstring_head {s : Bytes} (h : JString s) : s.head? = some 0x22 := by cases h; rfl

theorem scalarJson_str {s : Bytes} (h : JString s) : scalarJson s = .str s := by
  have := jstring_head h
  unfold scalarJson
  rw [if_neg, if_neg, if_neg, if_pos this]
  all_goals (rintro rfl; revert this; decide)

theorem scalarJson_num {s : Bytes} (h : JNumber s) : scalarJson s = .num s := by
  have hb := jnumber_bytes h
  have hd : ∀ c, s.head? = some c → Digit c ∨ c = 0x2d ∨ c = 0x2e ∨ c = 0x65 ∨ c = 0x45 ∨ c = 0x2b := by
    intro c hc
    cases s with
    | nil => cases hc
    | cons x t =>
      cases hc
      have := hb c (by simp)
      simpa [or_assoc] using this
  unfold scalarJson
  rw [if_neg, if_neg, if_neg, if_neg]
  · intro e; exact absurd (hd _ e) (by decide)
  all_goals (rintro rfl; exact absurd (hd _ rfl) (by decide))

mutual
theorem jsonOf_docS (html k : Bool) : ∀ j, JsonOk j → jsonOf (docS html k j) = mapStr (copyStr html) j
  | .null, _ | .tru, _ | .fls, _ => by simp [docS, jsonOf, scalarJson, mapStr]
  | .num s, h => by
    simp only [docS, jsonOf, mapStr]
    exact scalarJson_num (by simpa [JsonOk] using h)
  | .str s, h => by
    simp only [docS, jsonOf, mapStr]
    exact scalarJson_str (copyStr_jstring (by simpa [JsonOk] using h))
  | .arr xs, h => by
    simp only [docS, jsonOf, mapStr]
    rw [jsonOf_docSL html k xs (jsonOk_arr.1 h)]
  | .obj ms, h => by
    simp only [docS, jsonOf, mapStr]
    rw [jsonOf_docSM html ms (jsonOk_obj.1 h)]
theorem jsonOf_docSL (html k : Bool) : ∀ xs, (∀ x ∈ xs, JsonOk x) → jsonOfL (docSL html k xs) = mapStrL (copyStr html) xs
  | [], _ => rfl
  | j :: xs, h => by
    simp only [docSL, jsonOfL, mapStrL]
    rw [jsonOf_docS html k j (h j (by simp)), jsonOf_docSL html _ xs (fun x hx => h x (by simp [hx]))]
theorem jsonOf_docSM (html : Bool) : ∀ ms, (∀ m ∈ ms, JString m.1 ∧ JsonOk m.2) → jsonOfM (docSM html ms) = mapStrM (copyStr html) ms
  | [], _ => rfl
  | (k, j) :: ms, h => by
    simp only [docSM, jsonOfM, mapStrM]
    rw [jsonOf_docS html false j (h (k, j) (by simp)).2, jsonOf_docSM html ms (fun x hx => h x (by simp [hx]))]
end

/-- What a raw message holding the tree `j` is written as. -/
theorem raw_enc {c : Cfg} {s : Bytes} {j : Json} (hj : JText j s) (ht : c.trustRaw = true ∨ ∀ x t, s = x :: t → ¬ IsWs x)
    (b : Bytes) (n : Nat) : enc c (.raw s) b n = .done (b ++ render (styleOf c) n (docS c.escapeHTML false j)) n none := by
  have hm : meaning c (.raw s) = .doc (docS c.escapeHTML false j) := by
    simp only [meaning, rawMeaning]
    by_cases htr : c.trustRaw = true
    · have hx : ∃ j, JText j s := ⟨j, hj⟩
      rw [if_pos htr, dif_pos hx, jtext_unique hx.choose_spec hj]
    · rw [if_neg htr]
      have hw := ht.resolve_left htr
      obtain ⟨w1, v, w2, e, h1, h2, hd⟩ := hj
      have : w1 = [] := by
        cases w1 with
        | nil => rfl
        | cons x t => exact absurd (h1 x (by simp)) (hw x _ (by rw [e]; rfl))
      subst this
      have hp : parseValue s = .ok v w2 := by
        rw [e]
        exact parseValue_complete hd (follow_of_numStop (numStop_ws h2))
      have hv : JText j v := ⟨[], v, [], by simp, ws_nil, ws_nil, hd⟩
      have hx : ∃ j, JText j v := ⟨j, hv⟩
      rw [hp]
      simp only []
      rw [dif_pos hx, jtext_unique hx.choose_spec hv]
  exact C21_rendering_partial hm b n

/-- **C16** (for messages without leading whitespace, or trusted) The output for a raw message is a JSON text with the
same tokens in the same order: the tree is that of the source, object members
in source order, and only strings may be spelled differently, under
`EscapeHTML` (see C52; without it `copyStr` is the identity). -/
theorem C16_same_tokens {c : Cfg} (hc : c.clrs = none) (hw : WsLayout c) {s : Bytes} {j : Json} (hj : JText j s)
    (ht : c.trustRaw = true ∨ ∀ x t, s = x :: t → ¬ IsWs x) (b : Bytes) (n : Nat) :
    ∃ t, enc c (.raw s) b n = .done (b ++ t) n none ∧ JText (mapStr (copyStr c.escapeHTML) j) t := by
  refine ⟨_, raw_enc hj ht b n, [], render (styleOf c) n (docS c.escapeHTML false j), [], by simp, ws_nil, ws_nil, ?_⟩
  rw [← jsonOf_docS c.escapeHTML false j (jtext_ok hj)]
  exact render_derives (wsStyle_of hc hw) n _ (docS_ok _ _ j (jtext_ok hj))

/-- **C16** with colors: the same after removing the color sequences. -/
theorem C16_colored {c : Cfg} {cl : Colors} (hcl : ColorsSgr cl) (hw : WsLayout c) {s : Bytes} {j : Json} (hj : JText j s)
    (ht : c.trustRaw = true ∨ ∀ x t, s = x :: t → ¬ IsWs x) (n : Nat) :
    ∃ t, enc { c with clrs := some cl } (.raw s) [] n = .done t n none ∧ JText (mapStr (copyStr c.escapeHTML) j) (stripAnsi .out t) := by
  have h1 := raw_enc (c := { c with clrs := some cl }) hj ht [] n
  refine ⟨_, h1, ?_⟩
  have hne : NoEscLayout c := by
    intro i hi
    obtain ⟨h1, h2⟩ := hw i hi
    exact ⟨fun h => absurd (h1 _ h) (by rintro ⟨⟩), fun h => absurd (h2 _ h) (by rintro ⟨⟩)⟩
  have h2 := C19_transparent_clean_partial c hcl (v := .raw s) trivial (fun _ => ⟨j, hj⟩) hne n h1
  obtain ⟨t, h3, h4⟩ := C16_same_tokens (c := { c with clrs := none }) rfl hw hj ht [] n
  rw [h2] at h3
  simp only [List.nil_append, Out.done.injEq, true_and, and_true] at h3
  rw [List.nil_append, h3]; exact h4

/-- The tree without HTML escaping is the source's. -/
theorem C16_no_html : ∀ j, mapStr (copyStr false) j = j := mapStr_id
where
  mapStr_id : ∀ j, mapStr (copyStr false) j = j
    | .null | .tru | .fls | .num _ | .str _ => rfl
    | .arr xs => by rw [mapStr, mapStrL_id xs]
    | .obj ms => by rw [mapStr, mapStrM_id ms]
  mapStrL_id : ∀ xs, mapStrL (copyStr false) xs = xs
    | [] => rfl
    | j :: xs => by rw [mapStrL, mapStr_id j, mapStrL_id xs]
  mapStrM_id : ∀ ms, mapStrM (copyStr false) ms = ms
    | [] => rfl
    | (k, j) :: ms => by rw [mapStrM, mapStr_id j, mapStrM_id ms]; rfl

example : enc { ind := some (newIndenter [] (bs! " ")) } (.raw (bs! "{\"b\": 1.0 ,\"a\":[\"<\", {}] ,\"b\":2}")) [] 0 =
    .done (bs! "{\n \"b\": 1.0,\n \"a\": [\n  \"\\u003c\",\n  {}\n ],\n \"b\": 2\n}") 0 none := by decide +kernel

/-! ### C17 -/

mutual
theorem docOf_with (html : Bool) : ∀ j, docOf html j = docWith (copyStr html) j
  | .null | .tru | .fls | .num _ | .str _ => rfl
  | .arr xs => by rw [docOf, docWith, docOfL_with html xs]
  | .obj ms => by rw [docOf, docWith, docOfM_with html ms]
theorem docOfL_with (html : Bool) : ∀ xs, docOfL html xs = docWithL (copyStr html) xs
  | [] => rfl
  | j :: xs => by rw [docOfL, docWithL, docOf_with html j, docOfL_with html xs]
theorem docOfM_with (html : Bool) : ∀ ms, docOfM html ms = docWithM (copyStr html) ms
  | [] => rfl
  | (k, j) :: ms => by rw [docOfM, docWithM, docOf_with html j, docOfM_with html ms]
end

theorem seqMembers_all {c : Cfg} (un : Bytes → Bytes) : ∀ (ms : List (Bytes × Json)),
    (∀ m ∈ ms, meaning c (native un m.2) = .doc (docWith (fun s => quote c.escapeHTML (un s)) m.2)) →
    seqMembers ((meanS c (nativeM un ms)).map fun e => (.ok .key (quote c.escapeHTML e.1), e.2)) =
      .ok (docWithM (fun s => quote c.escapeHTML (un s)) ms)
  | [], _ => rfl
  | (k, j) :: ms, h => by
    simp only [nativeM, meanS, List.map_cons, h (k, j) (by simp), seqMembers]
    rw [seqMembers_all un ms fun m hm => h m (by simp [hm])]
    rfl

theorem meanS_keys (c : Cfg) (un : Bytes → Bytes) : ∀ ms, (meanS c (nativeM un ms)).map (·.1) = ms.map fun m => un m.1
  | [] => rfl
  | (k, j) :: ms => by rw [nativeM, meanS, List.map_cons, meanS_keys c un ms]; rfl

theorem sorted_of_keys {α : Type} {key : α → Bytes} {l : List α} (h : (l.map key).Pairwise (· < ·)) : sortBy key l = l := by
  refine sortBy_of_sorted key ?_ ?_
  · rw [List.pairwise_map] at h
    exact h.imp fun {x y} hxy hyx => blt_irrefl _ (blt_trans hxy hyx)
  · refine h.imp ?_
    rintro x y hxy rfl
    exact blt_irrefl _ hxy

mutual
theorem native_meaning (c : Cfg) (un : Bytes → Bytes) : ∀ j, JsonOk j → (c.sortMapKeys = false ∨ KeysSorted un j) →
    meaning c (native un j) = .doc (docWith (fun s => quote c.escapeHTML (un s)) j)
  | .null, _, _ | .tru, _, _ | .fls, _, _ | .str _, _, _ => by simp [native, meaning, docWith, nullDoc]
  | .num s, h, _ => by
    have hn : JNumber s := by simpa [JsonOk] using h
    have : s ≠ [] := by
      rintro rfl
      have := parseNumber_complete hn .nil
      cases this
    have hif : (if s = [] then [0x30] else s) = s := if_neg this
    simp only [native, meaning, docWith, numberMeaning, hif]
    rw [if_pos (hif.symm ▸ hn)]
  | .arr xs, h, hs => by
    simp only [native, meaning, docWith]
    rw [nativeL_meaning c un xs (jsonOk_arr.1 h) (hs.imp id id)]
    rfl
  | .obj ms, h, hs => by
    have hsort : (if c.sortMapKeys = true then sortBy (fun e => e.1) (meanS c (nativeM un ms)) else meanS c (nativeM un ms)) =
        meanS c (nativeM un ms) := by
      split
      · rename_i ht
        rcases hs with hs | hs
        · rw [ht] at hs; cases hs
        · exact sorted_of_keys (key := fun e : Bytes × Meaning => e.1) (by rw [meanS_keys]; exact hs.1)
      · rfl
    simp only [native, meaning, docWith, hsort]
    rw [seqMembers_all un ms (nativeM_meaning c un ms (jsonOk_obj.1 h) (hs.imp id (·.2)))]
    rfl
theorem nativeL_meaning (c : Cfg) (un : Bytes → Bytes) : ∀ xs, (∀ x ∈ xs, JsonOk x) → (c.sortMapKeys = false ∨ KeysSortedL un xs) →
    seqElems (meanL c (nativeL un xs)) = .ok (docWithL (fun s => quote c.escapeHTML (un s)) xs)
  | [], _, _ => rfl
  | j :: xs, h, hs => by
    simp only [nativeL, meanL]
    rw [native_meaning c un j (h j (by simp)) (hs.imp id (·.1)), seqElems,
      nativeL_meaning c un xs (fun x hx => h x (by simp [hx])) (hs.imp id (·.2))]
    rfl
theorem nativeM_meaning (c : Cfg) (un : Bytes → Bytes) : ∀ ms, (∀ m ∈ ms, JString m.1 ∧ JsonOk m.2) →
    (c.sortMapKeys = false ∨ KeysSortedM un ms) →
    ∀ m ∈ ms, meaning c (native un m.2) = .doc (docWith (fun s => quote c.escapeHTML (un s)) m.2)
  | [], _, _ => by simp
  | (k, j) :: ms, h, hs => by
    intro m hm
    have h1 := native_meaning c un j (h (k, j) (by simp)).2 (hs.imp id (·.1))
    have h2 := nativeM_meaning c un ms (fun x hx => h x (by simp [hx])) (hs.imp id (·.2)) m
    rcases List.mem_cons.1 hm with rfl | hm
    · exact h1
    · exact h2 hm
end

/-- **C17** (partial: no empty objects) A raw message and the equivalent native value, whatever their
strings `un` decodes to, are written as the same document but for the spelling
of strings, at every nesting level and in every configuration in which maps keep the order of the source. -/
theorem C17_same_layout_partial {c : Cfg} {s : Bytes} {j : Json} (hj : JText j s) (hne : NoEmptyObj j)
    (ht : c.trustRaw = true ∨ ∀ x t, s = x :: t → ¬ IsWs x) (un : Bytes → Bytes) (hs : c.sortMapKeys = false ∨ KeysSorted un j)
    (b : Bytes) (n : Nat) :
    enc c (.raw s) b n = .done (b ++ render (styleOf c) n (docWith (copyStr c.escapeHTML) j)) n none ∧
    enc c (native un j) b n = .done (b ++ render (styleOf c) n (docWith (fun s => quote c.escapeHTML (un s)) j)) n none := by
  constructor
  · rw [raw_enc hj ht b n, docS_clean _ j hne, docOf_with]
  · exact C21_rendering_partial (native_meaning c un j (jtext_ok hj) hs) b n

mutual
theorem docWith_congr (f g : Bytes → Bytes) : ∀ j, mapStr f j = mapStr g j → docWith f j = docWith g j
  | .null, _ | .tru, _ | .fls, _ | .num _, _ => rfl
  | .str s, h => by simp only [mapStr, Json.str.injEq] at h; simp only [docWith, h]
  | .arr xs, h => by simp only [mapStr, Json.arr.injEq] at h; simp only [docWith, docWithL_congr f g xs h]
  | .obj ms, h => by simp only [mapStr, Json.obj.injEq] at h; simp only [docWith, docWithM_congr f g ms h]
theorem docWithL_congr (f g : Bytes → Bytes) : ∀ xs, mapStrL f xs = mapStrL g xs → docWithL f xs = docWithL g xs
  | [], _ => rfl
  | j :: xs, h => by
    simp only [mapStrL, List.cons.injEq] at h
    simp only [docWithL, docWith_congr f g j h.1, docWithL_congr f g xs h.2]
theorem docWithM_congr (f g : Bytes → Bytes) : ∀ ms, mapStrM f ms = mapStrM g ms → docWithM f ms = docWithM g ms
  | [], _ => rfl
  | (k, j) :: ms, h => by
    simp only [mapStrM, List.cons.injEq, Prod.mk.injEq] at h
    simp only [docWithM, h.1.1, docWith_congr f g j h.1.2, docWithM_congr f g ms h.2]
end

/-- **C17** (partial: no empty objects) When the message spells its strings as the encoder does, the outputs are equal. -/
theorem C17_equal_partial {c : Cfg} {s : Bytes} {j : Json} (hj : JText j s) (hne : NoEmptyObj j)
    (ht : c.trustRaw = true ∨ ∀ x t, s = x :: t → ¬ IsWs x) (un : Bytes → Bytes) (hs : c.sortMapKeys = false ∨ KeysSorted un j)
    (hq : mapStr (copyStr c.escapeHTML) j = mapStr (fun s => quote c.escapeHTML (un s)) j)
    (b : Bytes) (n : Nat) : enc c (.raw s) b n = enc c (native un j) b n := by
  obtain ⟨h1, h2⟩ := C17_same_layout_partial hj hne ht un hs b n
  rw [h1, h2, docWith_congr _ _ j hq]

mutual
theorem render_plain {st : Style} (hc : st.clrs = none) (html k : Bool) (n : Nat) : ∀ j,
    render st n (docS html k j) = render st n (docOf html j)
  | .null | .tru | .fls | .num _ | .str _ => by cases k <;> simp [docS, docOf, render, paint, hc]
  | .arr xs => by
    have : (docSL html k xs = []) ↔ (docOfL html xs = []) := by cases xs <;> simp [docSL, docOfL]
    simp only [docS, docOf, render, renderElems_plain hc html k (n + 1) true xs, this]
  | .obj ms => by
    have : (docSM html ms = []) ↔ (docOfM html ms = []) := by rcases ms with _ | ⟨⟨_, _⟩, _⟩ <;> simp [docSM, docOfM]
    simp only [docS, docOf, render, renderMembers_plain hc html (n + 1) true ms, this]
theorem renderElems_plain {st : Style} (hc : st.clrs = none) (html k : Bool) (n : Nat) (first : Bool) : ∀ xs,
    renderElems st n first (docSL html k xs) = renderElems st n first (docOfL html xs)
  | [] => rfl
  | j :: xs => by
    simp only [docSL, docOfL, renderElems, render_plain hc html k n j, renderElems_plain hc html _ n false xs]
theorem renderMembers_plain {st : Style} (hc : st.clrs = none) (html : Bool) (n : Nat) (first : Bool) : ∀ ms,
    renderMembers st n first (docSM html ms) = renderMembers st n first (docOfM html ms)
  | [] => rfl
  | (k, j) :: ms => by
    simp only [docSM, docOfM, renderMembers, render_plain hc html _ n j, renderMembers_plain hc html n false ms]
end

/-- **C17** (without colors) Empty objects, too, are laid out alike. -/
theorem C17_plain {c : Cfg} (hc : c.clrs = none) {s : Bytes} {j : Json} (hj : JText j s)
    (ht : c.trustRaw = true ∨ ∀ x t, s = x :: t → ¬ IsWs x) (un : Bytes → Bytes) (hs : c.sortMapKeys = false ∨ KeysSorted un j)
    (b : Bytes) (n : Nat) :
    enc c (.raw s) b n = .done (b ++ render (styleOf c) n (docWith (copyStr c.escapeHTML) j)) n none ∧
    enc c (native un j) b n = .done (b ++ render (styleOf c) n (docWith (fun s => quote c.escapeHTML (un s)) j)) n none := by
  constructor
  · rw [raw_enc hj ht b n, ← docOf_with, render_plain (st := styleOf c) hc]
  · exact C21_rendering_partial (native_meaning c un j (jtext_ok hj) hs) b n

/-- **C17** fails with colors after an empty object, see `C21_fails_raw`: here the native value. -/
theorem C17_fails_color : enc { clrs := some { key := bs! "K", string := bs! "S" } } (.slice [.mapSI [], .string (bs! "x")]) [] 0 ≠
    enc { clrs := some { key := bs! "K", string := bs! "S" } } (.raw (bs! "[{},\"x\"]")) [] 0 := by decide +kernel

example : enc { ind := some (newIndenter (bs! ">") (bs! "  ")), clrs := some defaultColors } (.raw (bs! "[1,{\"a\":[]}]")) [] 1 =
    enc { ind := some (newIndenter (bs! ">") (bs! "  ")), clrs := some defaultColors } (.slice [.number (bs! "1"), .mapSI [(bs! "a", .slice [])]]) [] 1 := by
  decide +kernel

/-! ### C18 -/

/-- Full statement of C18. -/
def C18_statement : Prop := ∀ (c : Cfg) (s b : Bytes) (n : Nat), c.trustRaw = false → ¬ IsJson s →
  ∃ e, enc c (.raw s) b n = .done b n (some e)

/-- **C18** fails: what follows the first value is dropped silently. -/
theorem C18_fails_trailing : ¬ C18_statement := by
  intro h
  obtain ⟨e, h⟩ := h {} (bs! "1 x") [] 0 rfl (by rw [← C01_valid_iff]; decide +kernel)
  have : enc {} (.raw (bs! "1 x")) [] 0 = .done (bs! "1") 0 none := by decide +kernel
  rw [show ((0 : Nat) : Int) = 0 from rfl, this] at h
  cases h

/-- Leading whitespace, on the other hand, is an error. -/
theorem C18_fails_leading : IsJson (bs! " 1") ∧ enc {} (.raw (bs! " 1")) [] 0 = .done [] 0 (some .unsupportedValue) := by
  constructor
  · rw [← C01_valid_iff]; decide +kernel
  · decide +kernel

/-- **C18** (partial: up to trailing data and leading whitespace) An untrusted message that does not start with a JSON value is an
error and nothing is appended; one that does is written completely up to the end of
that value. -/
theorem C18_rejected_partial {c : Cfg} (ht : c.trustRaw = false) (s b : Bytes) (n : Nat) :
    ((¬ ∃ j v r, s = v ++ r ∧ Derives (.value j) v) → enc c (.raw s) b n = .done b n (some .unsupportedValue)) ∧
    ∀ out d, enc c (.raw s) b n = .done out d none →
      ∃ j v r, s = v ++ r ∧ Derives (.value j) v ∧ out = b ++ render (styleOf c) n (docS c.escapeHTML false j) ∧ d = n := by
  constructor
  · intro hno
    simp only [enc, encodeRawMessage, ht, Bool.false_eq_true, if_false]
    cases hp : parseValue s with
    | fail r e => rfl
    | ok v r =>
      obtain ⟨e, j, hd⟩ := C02_parse_splits hp
      exact absurd ⟨j, v, r, e, hd⟩ hno
  · intro out d h
    have h0 := h
    simp only [enc, encodeRawMessage, ht, Bool.false_eq_true, if_false] at h
    cases hp : parseValue s with
    | fail r e => rw [hp] at h; cases h
    | ok v r =>
      obtain ⟨e, j, hd⟩ := C02_parse_splits hp
      have hv : JText j v := ⟨[], v, [], by simp, ws_nil, ws_nil, hd⟩
      have hm : meaning c (.raw s) = .doc (docS c.escapeHTML false j) := by
        have hx : ∃ j, JText j v := ⟨j, hv⟩
        simp only [meaning, rawMeaning, ht, Bool.false_eq_true, if_false, hp]
        rw [dif_pos hx, jtext_unique hx.choose_spec hv]
      rw [C21_rendering_partial hm b n] at h0
      cases h0
      exact ⟨j, v, r, e, hd, rfl, rfl⟩

example : enc {} (.raw (bs! "[1,")) (bs! "x") 0 = .done (bs! "x") 0 (some .unsupportedValue) := by decide +kernel

/-! ### C49 -/

/-- Full statement of C49. -/
def C49_statement : Prop := ∀ (c : Cfg) (s b out : Bytes) (d d' : Int), c.clrs = none →
  enc c (.number s) b d = .done out d' none → (s = [] ∧ out = b ++ [0x30]) ∨ (JNumber s ∧ out = b ++ s)

/-- **C49** fails for a number followed by anything. -/
theorem C49_fails : ¬ C49_statement := by
  intro h
  have := h {} (bs! "1abc") [] (bs! "1abc") 0 0 rfl (by decide +kernel)
  rcases this with ⟨h, _⟩ | ⟨h, _⟩
  · cases h
  · have := jnumber_bytes h 0x61 (by decide)
    revert this; decide

/-- **C49** (partial: `Number`s that are not a number followed by something else) Success exactly for JSON numbers
and the empty string, which is written as 0; the text is written as it is. Otherwise an error, and nothing is appended. -/
theorem C49_number_partial (c : Cfg) (hc : c.clrs = none) (s : Bytes) (hs : CleanNumber s) (b : Bytes) (d : Int) :
    (s = [] → enc c (.number s) b d = .done (b ++ [0x30]) d none) ∧
    (JNumber s → enc c (.number s) b d = .done (b ++ s) d none) ∧
    (s ≠ [] → ¬ JNumber s → ∃ e, enc c (.number s) b d = .done b d (some e)) := by
  refine ⟨?_, ?_, ?_⟩
  · rintro rfl
    simp only [enc, encodeNumber, hc]
    rfl
  · intro h
    have hp := parseNumber_complete h .nil
    rw [List.append_nil] at hp
    have hne : s ≠ [] := by rintro rfl; cases hp
    simp only [enc, encodeNumber, hc, if_neg hne, hp]
  · intro hne hn
    simp only [enc, encodeNumber, if_neg hne]
    cases hp : parseNumber s with
    | fail r e => exact ⟨e, rfl⟩
    | ok v r =>
      obtain ⟨e, hv⟩ := parseNumber_sound hp
      rcases hs with h | h | h
      · exact absurd h hne
      · exact absurd h hn
      · exact absurd ⟨v, r, e, hv⟩ h

/-- **C49** Without any condition: success means the text starts with a JSON number. -/
theorem C49_starts (c : Cfg) (s b out : Bytes) (d d' : Int) (h : enc c (.number s) b d = .done out d' none) :
    s = [] ∨ ∃ p q, s = p ++ q ∧ JNumber p := by
  by_cases hne : s = []
  · exact .inl hne
  right
  simp only [enc, encodeNumber, if_neg hne] at h
  cases hp : parseNumber s with
  | fail r e => rw [hp] at h; cases h
  | ok v r => obtain ⟨e, hv⟩ := parseNumber_sound hp; exact ⟨v, r, e, hv⟩

example : enc {} (.number (bs! "-1.50e+3")) [] 0 = .done (bs! "-1.50e+3") 0 none ∧
    enc {} (.number (bs! "+1")) (bs! "x") 0 = .done (bs! "x") 0 (some .syntax) := by decide +kernel

/-! ### C50 -/

/-- **C50** The text written for a finite float is a JSON number. When `strconv` gives it in scientific
notation, mantissa and exponent are those of `strconv`; otherwise the text is `strconv`'s. -/
theorem C50_float (expo : Bool) (t : Bytes) (ok : FloatFmt expo t) (c : Cfg) (hc : c.clrs = none) (b : Bytes) (n : Nat) :
    ∃ out, enc c (.float (.fin expo t ok)) b n = .done (b ++ out) n none ∧ JNumber out ∧
      (expo = false → out = t) ∧ (expo = true → ∃ m z, Scientific t m z ∧ Scientific out m z) := by
  have hm : meaning c (.float (.fin expo t ok)) = .doc (.leaf .number (if expo then cleanExp t else t)) := rfl
  have he := C21_rendering_partial hm b n
  simp only [render, paint, styleOf, hc] at he
  refine ⟨_, he, ?_, ?_, ?_⟩
  · exact float_jnumber ok
  · rintro rfl; rfl
  · rintro rfl
    obtain ⟨sgn, x, fr, es, ds, ds', h1, h2, _, _, _, he, hd, hd', h3⟩ := cleanExp_shape ok
    simp only [if_true]
    have hv : natVal ds' = natVal ds := by
      rcases h3 with rfl | rfl
      · rfl
      · rfl
    rw [h2]
    rw [h1]
    rcases he with rfl | rfl
    · refine ⟨sgn ++ [x] ++ fr, natVal ds, .pos _ _ hd.2 hd.1, ?_⟩
      rw [← hv]; exact .pos _ _ hd'.2 hd'.1
    · refine ⟨sgn ++ [x] ++ fr, -(natVal ds : Int), .neg _ _ hd.2 hd.1, ?_⟩
      rw [← hv]; exact .neg _ _ hd'.2 hd'.1

/-- **C50** NaN and infinities are errors and nothing is appended. -/
theorem C50_nonfinite (c : Cfg) (hc : c.clrs = none) (b : Bytes) (d : Int) :
    enc c (.float .nan) b d = .done b d (some .unsupportedValue) ∧ enc c (.float .inf) b d = .done b d (some .unsupportedValue) := by
  simp only [enc, colored, hc, encodeFloat, and_self]

/-- With colors, a color and a reset are left behind in the buffer. -/
theorem C50_nonfinite_colored : enc { clrs := some { number := bs! "N" } } (.float .nan) [] 0 =
    .done (bs! "N\x1b[0m") 0 (some .unsupportedValue) := by decide +kernel

example : encodeFloat (.fin true (bs! "1.5e-09") (.e [] 0x31 [0x2e, 0x35] [0x2d] [0x30, 0x39] (.inl rfl) (by decide)
    (.some [0x35] (by unfold Digits1; decide)) (.inr rfl) (by unfold Digits1; decide) (by decide))) [] 0 = .done (bs! "1.5e-9") 0 none := by decide +kernel

end JC.Props
