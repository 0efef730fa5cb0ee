import Verif.Lemmas.MapDec
import Verif.Props.Typed
/-!
Property C81: decoding an object into a map, with keys of every kind: strings, integers, and types with
`UnmarshalText`.
-/
namespace JC.Props
open JC Spec

theorem gives_iff {c : DCfg} (hl : LibOk c.lib) {n : Nat} {t : Ty} (ht : t.tree) {j : Json} (hj : JsonOk j) (x : DV) :
    Gives c n t j x ↔ decJN c n t j (zero t) = some x := by
  constructor
  · intro h
    obtain ⟨u, hu⟩ := jsonOk_text hj
    exact (unmarshal_tree hl ht hu (held_zero _ _ _) x).1 (h u hu)
  · exact fun h u hu => (unmarshal_tree hl ht hu (held_zero _ _ _) x).2 h

theorem objText_ok {ms : List (Bytes × Json)} {b : Bytes} (h : JText (.obj ms) b) : ∀ m ∈ ms, JString m.1 ∧ JsonOk m.2 :=
  jsonOk_members (jtext_ok h)

theorem unmarshal_map {c : DCfg} (hl : LibOk c.lib) {n : Nat} {k : KTy} {t : Ty} (ht : t.tree) {ms : List (Bytes × Json)} {b : Bytes}
    (hb : JText (.obj ms) b) {p : DV} (hp : Held Ty.tree p n) (v : DV) : unmarshal c n (.map k t) b p = .done v none ↔
      ∃ es, mapJ k (decJN c n t) (zero t) ms (entriesOf p) = some es ∧ v = .map es := by
  rw [unmarshal_tree hl (t := .map k t) ht hb hp, decJN_map]
  have : mapTyJ k (decJN c n t) (zero t) (.obj ms) p = (mapJ k (decJN c n t) (zero t) ms (entriesOf p)).map .map := by
    cases p <;> rfl
  rw [this, Option.map_eq_some_iff]
  exact ⟨fun ⟨a, h1, h2⟩ => ⟨a, h1, h2.symm⟩, fun ⟨a, h1, h2⟩ => ⟨a, h1, h2.symm⟩⟩

/-- **C81** An object is decoded into a map without an error exactly if every member has a key of the
map's key type and its value can be decoded into a new variable of the element type. -/
theorem C81_accepts {c : DCfg} (hl : LibOk c.lib) {n : Nat} {k : KTy} {t : Ty} (ht : t.tree) {ms : List (Bytes × Json)} {b : Bytes}
    (hb : JText (.obj ms) b) {p : DV} (hp : Held Ty.tree p n) :
    (∃ v, unmarshal c n (.map k t) b p = .done v none) ↔ ∀ m ∈ ms, (∃ key, HasKey k m.1 key) ∧ ∃ x, Gives c n t m.2 x := by
  have hok := objText_ok hb
  have h0 : (∃ v, unmarshal c n (.map k t) b p = .done v none) ↔ mapJ k (decJN c n t) (zero t) ms (entriesOf p) ≠ none := by
    constructor
    · rintro ⟨v, hv⟩
      obtain ⟨es, h, _⟩ := (unmarshal_map hl ht hb hp v).1 hv
      rw [h]; simp
    · intro h
      obtain ⟨es, h⟩ := Option.ne_none_iff_exists'.1 h
      exact ⟨_, (unmarshal_map hl ht hb hp _).2 ⟨es, h, rfl⟩⟩
  rw [h0, Ne, mapJ_none]
  constructor
  · intro h m hm
    constructor
    · cases hk : keyJ k m.1 with
      | none => exact absurd ⟨m, hm, .inl hk⟩ h
      | some key => exact ⟨key, (keyJ_iff (hok m hm).1 key).1 hk⟩
    · cases hf : decJN c n t m.2 (zero t) with
      | none => exact absurd ⟨m, hm, .inr hf⟩ h
      | some x => exact ⟨x, (gives_iff hl ht (hok m hm).2 x).2 hf⟩
  · rintro h ⟨m, hm, h1⟩
    obtain ⟨⟨key, hk⟩, x, hx⟩ := h m hm
    rcases h1 with h1 | h1
    · rw [(keyJ_iff (hok m hm).1 key).2 hk] at h1; cases h1
    · rw [(gives_iff hl ht (hok m hm).2 x).1 hx] at h1; cases h1

/-- **C81** After that, a key that no member has is there exactly if it was before, with the value it had. -/
theorem C81_kept {c : DCfg} (hl : LibOk c.lib) {n : Nat} {k : KTy} {t : Ty} (ht : t.tree) {ms : List (Bytes × Json)} {b : Bytes}
    (hb : JText (.obj ms) b) {p v : DV} (hp : Held Ty.tree p n) (h : unmarshal c n (.map k t) b p = .done v none) :
    ∃ es, v = .map es ∧ ∀ key, Absent k ms key → es.lookup key = (entriesOf p).lookup key := by
  obtain ⟨es, h1, rfl⟩ := (unmarshal_map hl ht hb hp v).1 h
  refine ⟨es, rfl, fun key ha => mapJ_absent ms _ es h1 fun a hm hk => ?_⟩
  exact ha a hm ((keyJ_iff (objText_ok hb a hm).1 key).1 hk)

/-- **C81** A key that members have gets the value of the last of them, decoded into a new variable:
nothing is left of the value that was there, or of earlier members with the key. -/
theorem C81_last {c : DCfg} (hl : LibOk c.lib) {n : Nat} {k : KTy} {t : Ty} (ht : t.tree) {ms1 ms2 : List (Bytes × Json)} {raw : Bytes}
    {j : Json} {b : Bytes} (hb : JText (.obj (ms1 ++ (raw, j) :: ms2)) b) {p v : DV} (hp : Held Ty.tree p n)
    (h : unmarshal c n (.map k t) b p = .done v none) {key : MK} (hk : HasKey k raw key) (ha : Absent k ms2 key) :
    ∃ es x, v = .map es ∧ es.lookup key = some x ∧ Gives c n t j x := by
  obtain ⟨es, h1, rfl⟩ := (unmarshal_map hl ht hb hp v).1 h
  have hok := objText_ok hb
  have hm := hok (raw, j) (by simp)
  have hl' := mapJ_last ((keyJ_iff hm.1 key).2 hk)
    (fun a hma hka => ha a hma ((keyJ_iff (hok a (by simp [hma])).1 key).1 hka)) ms1 _ es h1
  cases hf : decJN c n t j (zero t) with
  | some x => exact ⟨es, x, rfl, by rw [hl', hf], (gives_iff hl ht hm.2 x).2 hf⟩
  | none =>
    have := (mapJ_none (k := k) (f := decJN c n t) (z := zero t) (ms1 ++ (raw, j) :: ms2) (entriesOf p)).2 ⟨(raw, j), by simp, .inr hf⟩
    rw [h1] at this; cases this

/-- **C81** If the first thing that is wrong with an object is a key that the key type does not take, the
error of `Unmarshal` is a syntax error, whatever `UnmarshalText` answered and although the document is valid:
the input after the key is taken for trailing data. -/
theorem C81_rejected {c : DCfg} (hl : LibOk c.lib) {n : Nat} {k : KTy} {t : Ty} (ht : t.tree) {ms1 ms2 : List (Bytes × Json)} {raw : Bytes}
    {j : Json} {b : Bytes} (hb : JText (.obj (ms1 ++ (raw, j) :: ms2)) b) (p : DV)
    (hok : ∀ m ∈ ms1, (∃ key, HasKey k m.1 key) ∧ ∃ x, Gives c n t m.2 x) (hbad : ∀ key, ¬ HasKey k raw key) :
    ∃ v, unmarshal c n (.map k t) b p = .done v (some .syntax) := by
  have ho := objText_ok hb
  obtain ⟨w1, v, w2, rfl, h1, h2, hv⟩ := hb
  have hbad' : keyJ k raw = none := by
    cases hk : keyJ k raw with
    | none => rfl
    | some key => exact absurd ((keyJ_iff (ho (raw, j) (by simp)).1 key).1 hk) (hbad key)
  obtain ⟨x, r', e, hd, hr⟩ := map_reject (P := (Held Ty.tree · n)) (decN_ref hl n t ht (v.length + 1)) (held_zero _ _ _) k hbad'
    (fun a ha => by
      obtain ⟨⟨key, hk⟩, x, hx⟩ := hok a ha
      have hoa := ho a (by simp [ha])
      exact ⟨⟨key, (keyJ_iff hoa.1 key).2 hk⟩, x, (gives_iff hl ht hoa.2 x).1 hx⟩) hv (by omega) w2 p
  have e0 : skipSpaces (w1 ++ v ++ w2) = v ++ w2 := by
    rw [List.append_assoc]; exact skip_ws_value h1 hv w2
  refine ⟨x, ?_⟩
  unfold unmarshal parseInto
  rw [e0, decN_map, hd]
  rcases hr with rfl | hr
  · simp
  · simp [hr]

/-- The full statement: an error of `UnmarshalText` for a key is the error of `Unmarshal`, if it is the first
thing that is wrong with a valid document. -/
def C81_statement : Prop := ∀ (c : DCfg) (n : Nat) (tk : TextKey) (t : Ty) (ms1 ms2 : List (Bytes × Json)) (raw s : Bytes) (j : Json) (b : Bytes)
    (e : Err), LibOk c.lib → t.tree → JText (.obj (ms1 ++ (raw, j) :: ms2)) b →
    (∀ m ∈ ms1, (∃ key, HasKey (.text tk) m.1 key) ∧ ∃ x, Gives c n t m.2 x) → KeyMeans raw s → tk.answer s = some e →
    ∃ v, unmarshal c n (.map (.text tk) t) b .mapNil = .done v (some e)

/-- A key type for `on` and `off`: `UnmarshalText` takes these, also `On`, and returns its own error for
everything else. -/
def switchKey : TextKey where
  answer s := if s = bs! "on" ∨ s = bs! "On" ∨ s = bs! "off" then none else some (.other 7)
  key s := if s = bs! "off" then bs! "0" else bs! "1"
  marshal s := .ok (if s = bs! "0" then bs! "off" else bs! "on")
  sprint s := s

theorem xKey : JString (bs! "\"x\"") := .mk [0x78] (.plain _ _ (by decide) (by decide) (by decide) .nil)

/-- `{"x":true}` -/
theorem xTrue_text : JText (.obj [(bs! "\"x\"", .tru)]) (bs! "{\"x\":true}") :=
  ⟨[], _, [], rfl, ws_nil, ws_nil, .obj _ _ (.memOne [] [] [] [] _ _ _ ws_nil ws_nil ws_nil ws_nil xKey .tru)⟩

/-- **C81** The full statement fails: `Unmarshal` of the valid document `{"x":true}` into a map with such keys
reports a syntax error instead of the error of `UnmarshalText`. -/
theorem C81_fails_error : ¬ C81_statement := by
  intro h
  obtain ⟨v, hv⟩ := h { lib := noLib } 0 switchKey .bool [] [] (bs! "\"x\"") (bs! "x") .tru (bs! "{\"x\":true}") (.other 7) noLib_ok trivial xTrue_text
    (by simp) ((keyMeans_unq xKey _).2 rfl) rfl
  have e : unmarshal { lib := noLib } 0 (.map (.text switchKey) .bool) (bs! "{\"x\":true}") .mapNil = .done .mapNil (some .syntax) := rfl
  rw [e] at hv
  injection hv with _ hv
  cases hv

/-- Inside another value the error comes back, since the surrounding decoder reads on after the value. -/
example : unmarshal { lib := noLib } 0 (.slice (.map (.text switchKey) .bool)) (bs! "[{\"x\":true}]") .sliceNil =
    .done (.slice [] [.mapNil]) (some (.other 7)) := rfl

/-- Three members, two of which have the same key; the entry for `off` was there before and stays. -/
example : unmarshal { lib := noLib } 0 (.map (.text switchKey) (.slice .bool)) (bs! "{\"on\":[true,true], \"On\":[false]}")
      (.map [(.user (bs! "0"), .slice [.bool true] [])]) =
    .done (.map [(.user (bs! "0"), .slice [.bool true] []), (.user (bs! "1"), .slice [.bool false] [])]) none := by with_unfolding_all rfl

/-- The members of that document have the keys the theorems speak of, and `x` has none. -/
example : HasKey (.text switchKey) (bs! "\"On\"") (.user (bs! "1")) ∧ ∀ k, ¬ HasKey (.text switchKey) (bs! "\"x\"") k := by
  constructor
  · exact (keyJ_iff (.mk (bs! "On") (.plain _ _ (by decide) (by decide) (by decide) (.plain _ _ (by decide) (by decide) (by decide) .nil))) _).1 rfl
  · intro k h
    rw [← keyJ_iff xKey] at h
    revert h
    simp [show keyJ (.text switchKey) (bs! "\"x\"") = none from rfl]

/-- An integer key may be followed by white space, but not preceded, and may be `null`. -/
example : unmarshal { lib := noLib } 0 (.map (.int .int8) .bool) (bs! "{\"null\":true}") .mapNil = .done (.map [(.int 0, .bool true)]) none ∧
    HasKey (.int .int8) (bs! "\"7 \"") (.int 7) ∧
    unmarshal { lib := noLib } 0 (.map (.int .int8) .bool) (bs! "{\" 7\":true}") .mapNil = .done .mapNil (some .syntax) := by
  refine ⟨by with_unfolding_all rfl, ⟨bs! "7", bs! " ", 7, ?_, ?_, .inl ⟨?_, ?_⟩, rfl⟩, by with_unfolding_all rfl⟩
  · exact (keyMeans_unq (.mk (bs! "7 ") (.plain _ _ (by decide) (by decide) (by decide) (.plain _ _ (by decide) (by decide) (by decide) .nil))) _).2 (by decide +kernel)
  · intro c hc; simp at hc; subst hc; exact .space
  · exact .nonneg (bs! "7") (.pos 0x37 [] (by decide) (by decide) (by simp))
  · simp [KindFits, FitsSigned]

/-- Such a map comes back from its text. -/
example : ∃ out, marshal (.map [(.text (switchKey.marshal (bs! "0")), .bool true), (.text (switchKey.marshal (bs! "1")), .bool false)]) = some (.ok out) ∧
    unmarshal { lib := noLib } 0 (.map (.text switchKey) .bool) out .mapNil =
      .done (.map [(.user (bs! "0"), .bool true), (.user (bs! "1"), .bool false)]) none :=
  ⟨bs! "{\"off\":true,\"on\":false}", by with_unfolding_all rfl, by with_unfolding_all rfl⟩

/-! ### keys without `UnmarshalText` -/

/-- The full statement for key types with `MarshalText` only: decoding returns. -/
def C81_statement_noText : Prop := ∀ (b : Bytes) (p : DV), ∃ v e, unmarshalNoText b p = .done v e

/-- **C81** `Unmarshal` of any object with a member into a map whose key type has `MarshalText` but no
`UnmarshalText` panics. -/
theorem C81_fails_nomethod {ms : List (Bytes × Json)} (hm : ms ≠ []) {b : Bytes} (hb : JText (.obj ms) b) (p : DV) :
    unmarshalNoText b p = .crash .panic := by
  obtain ⟨w1, v, w2, rfl, h1, h2, hv⟩ := hb
  have e0 : skipSpaces (w1 ++ v ++ w2) = v ++ w2 := by
    rw [List.append_assoc]; exact skip_ws_value h1 hv w2
  have key : ∀ raw w1 w2 T, Ws w1 → JString raw → Ws w2 →
      memberKey decodeKeyNoText true (skipSpaces (w1 ++ (raw ++ (w2 ++ 0x3a :: T)))) = .inl .panic := by
    intro raw w1 w2 T hw1 hk hw2
    rw [skipSpaces_ws_append hw1, jstring_skip hk]
    have hnull : hasNullPrefix (raw ++ (w2 ++ 0x3a :: T)) = false := by
      obtain ⟨t, rfl⟩ := JC.jstring_head hk; exact hasNull_cons (by decide)
    simp only [memberKey, if_true, hnull, Bool.false_eq_true, if_false, keyNoText_str hk]
  unfold unmarshalNoText parseInto
  rw [e0]
  suffices h : decodeMapNoText (v ++ w2) p = .crash .panic by rw [h]
  cases hv with
  | objNil => exact absurd rfl hm
  | obj _ u hu =>
    have hh : (skipSpaces (u ++ 0x7d :: w2)).head? ≠ some 0x7d := by
      obtain ⟨t, eh⟩ := derives_members_head hu (0x7d :: w2)
      rw [eh]; simp
    unfold decodeMapNoText
    rw [show hasNullPrefix (0x7b :: (u ++ [0x7d]) ++ w2) = false from hasNull_cons (by decide)]
    simp only [Bool.false_eq_true, if_false, List.cons_append, List.append_assoc, List.nil_append]
    rw [if_neg (by simp; omega), if_neg hh]
    clear hh
    suffices h : memberKey decodeKeyNoText true (skipSpaces (u ++ 0x7d :: w2)) = .inl .panic by rw [h]
    cases hu with
    | memOne w1 w2' w3 w4 _ _ b hw1 hw2 hw3 hw4 hk hj => simpa using key _ w1 w2' _ hw1 hk hw2
    | memCons w1 w2' w3 w4 _ _ b _ bs hw1 hw2 hw3 hw4 hk hj hbs => simpa using key _ w1 w2' _ hw1 hk hw2

theorem C81_fails_noText : ¬ C81_statement_noText := by
  intro h
  obtain ⟨v, e, h⟩ := h (bs! "{\"x\":true}") .mapNil
  rw [C81_fails_nomethod (by simp) xTrue_text] at h
  cases h

example : unmarshalNoText (bs! "{ }") .mapNil = .done (.map []) none ∧ unmarshalNoText (bs! "{1:2}") .mapNil = .done .mapNil (some .syntax) ∧
    unmarshalNoText (bs! "{\"a\":2}") .mapNil = .crash .panic := ⟨rfl, rfl, rfl⟩

end JC.Props
