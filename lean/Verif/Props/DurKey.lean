import Verif.Lemmas.MapBy
import Verif.Props.Typed
import Verif.Props.TextKey
/-!
Property C99: maps with keys of type `time.Duration` are read and written like maps with keys of type
`int64`, which is what `encoding/json` makes of the type.
-/
namespace JC.Props
open JC Spec

/-- The full statement: an object is decoded into a `map[time.Duration]T` exactly if it is decoded into a
`map[int64]T`, with the same entries. -/
def C99_statement : Prop := ∀ (c : DCfg) (n : Nat) (t : Ty) (b : Bytes) (p v : DV),
  unmarshalDur c n t b p = .done v none ↔ unmarshal c n (.map (.int .int64) t) b p = .done v none

/-- **C99** The keys that are taken: integers, `null`, and durations as text, in quotation marks inside the string. -/
theorem C99_key (l : Lib) {raw : Bytes} (h : JString raw) (r : Bytes) (z : Int) :
    decodeDurKey l (raw ++ r) = .ok (.int z) r ↔ HasDurKey l raw z := durKey_iff l h r z

/-- **C99** What is decoded into a `map[int64]T` is decoded into a `map[time.Duration]T`, with the same entries. -/
theorem C99_int64 {c : DCfg} {n : Nat} {t : Ty} {b : Bytes} {p v : DV} (h : unmarshal c n (.map (.int .int64) t) b p = .done v none) :
    unmarshalDur c n t b p = .done v none := by
  rw [unmarshalInt_iff] at h
  obtain ⟨r, h, hr⟩ := h
  rw [unmarshalDur_iff]
  refine ⟨r, ?_, hr⟩
  refine decodeMapBy_mono (I := fun _ => True) (fun _ _ _ _ => trivial) ?_ (fun _ _ _ h => decodeKey_suf h) (decN_suff c n t) trivial h
  intro b x r _ hn h
  exact fromString_mono hn (fun v r' q _ x r h => decodeDuration_of_int h) h

/-- **C99** (partial: texts without a backslash) The statement. A key that is not an `int64` has quotation marks inside
the string, which have to be escaped. -/
theorem C99_plain_partial {c : DCfg} {n : Nat} {t : Ty} {b : Bytes} {p v : DV} (hb : 0x5c ∉ b) :
    unmarshalDur c n t b p = .done v none ↔ unmarshal c n (.map (.int .int64) t) b p = .done v none := by
  refine ⟨fun h => ?_, C99_int64⟩
  rw [unmarshalDur_iff] at h
  obtain ⟨r, h, hr⟩ := h
  rw [unmarshalInt_iff]
  refine ⟨r, ?_, hr⟩
  have hI : ∀ a b : Bytes, a <:+ b → 0x5c ∉ b → 0x5c ∉ a := fun a b hs hb ha => hb (hs.mem ha)
  refine decodeMapBy_mono (I := fun b => 0x5c ∉ b) hI ?_ decodeDurKey_suf (decN_suff c n t) (hI _ _ (skip_suf b) hb) h
  intro b x r hb hn h
  exact fromString_mono hn (fun v r' q hv x r h => decodeInt_of_duration (unquote_noQuote hb hv) h) h

/-- **C99** (partial: as C38) What is written for a `map[time.Duration]T`, the keys as integers, comes back. -/
theorem C99_roundtrip_partial (c : Cfg) (hc : c.clrs = none) (hw : WsLayout c) (dc : DCfg) (hl : LibOk dc.lib) (m n : Nat) {t : Ty} (ht : t.tree)
    {v : DV} {g : GV} (h : Seen dc (fun s => Coerced s s) (fun w => isNilDV w = false) (.map (.int .int64) t) v g) :
    ∃ out, enc c g [] n = .done out n none ∧ unmarshalDur dc m t out .mapNil = .done (clip v) none := by
  obtain ⟨out, h1, h2⟩ := C38_roundtrip_partial c hc hw dc hl m n (t := .map (.int .int64) t) ht h
  exact ⟨out, h1, C99_int64 h2⟩

/-- `Unmarshal` of an object, by its members. -/
theorem unmarshalDur_obj {c : DCfg} (hl : LibOk c.lib) {n : Nat} {t : Ty} (ht : t.tree) {ms : List (Bytes × Json)} {b : Bytes}
    (hb : JText (.obj ms) b) (p v : DV) : unmarshalDur c n t b p = .done v none ↔
      ∃ es, mapByJ (durKJ c.lib) (decJN c n t) (zero t) ms (entriesOf p) = some es ∧ v = .map es := by
  obtain ⟨w1, u, w2, rfl, h1, h2, hv⟩ := hb
  rw [unmarshalDur_iff]
  have e0 : skipSpaces (w1 ++ u ++ w2) = u ++ w2 := by
    rw [List.append_assoc]; exact skip_ws_value h1 hv w2
  rw [e0]
  obtain ⟨g1, g2⟩ := mapBy_obj (P := (Held Ty.tree · n)) (decN_ref hl n t ht (u.length + 1)) (held_zero _ _ _) (durKeyRef c.lib) hv (by omega) w2 p
  constructor
  · rintro ⟨r, h, _⟩
    cases e : mapByJ (durKJ c.lib) (decJN c n t) (zero t) ms (entriesOf p) with
    | none => exact absurd h (g2 e v r)
    | some es =>
      rw [g1 es e] at h
      injection h with h _
      exact ⟨es, rfl, h.symm⟩
  · rintro ⟨es, h, rfl⟩
    exact ⟨w2, g1 es h, skipSpaces_ws h2⟩

/-- **C99** An object is decoded into a `map[time.Duration]T` without an error exactly if every member has such a
key and its value can be decoded into a new variable of type `T`. -/
theorem C99_accepts {c : DCfg} (hl : LibOk c.lib) {n : Nat} {t : Ty} (ht : t.tree) {ms : List (Bytes × Json)} {b : Bytes}
    (hb : JText (.obj ms) b) (p : DV) :
    (∃ v, unmarshalDur c n t b p = .done v none) ↔ ∀ m ∈ ms, (∃ z, HasDurKey c.lib m.1 z) ∧ ∃ x, Gives c n t m.2 x := by
  have hok := objText_ok hb
  have h0 : (∃ v, unmarshalDur c n t b p = .done v none) ↔ mapByJ (durKJ c.lib) (decJN c n t) (zero t) ms (entriesOf p) ≠ none := by
    constructor
    · rintro ⟨v, hv⟩
      obtain ⟨es, h, _⟩ := (unmarshalDur_obj hl ht hb p v).1 hv
      rw [h]; simp
    · intro h
      obtain ⟨es, h⟩ := Option.ne_none_iff_exists'.1 h
      exact ⟨_, (unmarshalDur_obj hl ht hb p _).2 ⟨es, h, rfl⟩⟩
  rw [h0, Ne, mapByJ_none]
  constructor
  · intro h m hm
    constructor
    · cases hk : durKJ c.lib m.1 with
      | none => exact absurd ⟨m, hm, .inl hk⟩ h
      | some key =>
        obtain ⟨z, hz, _⟩ := (durKJ_iff c.lib (hok m hm).1 key).1 hk
        exact ⟨z, hz⟩
    · cases hf : decJN c n t m.2 (zero t) with
      | none => exact absurd ⟨m, hm, .inr hf⟩ h
      | some x => exact ⟨x, (gives_iff hl ht (hok m hm).2 x).2 hf⟩
  · rintro h ⟨m, hm, h1⟩
    obtain ⟨⟨z, hz⟩, x, hx⟩ := h m hm
    rcases h1 with h1 | h1
    · rw [(durKJ_iff c.lib (hok m hm).1 (.int z)).2 ⟨z, hz, rfl⟩] at h1; cases h1
    · rw [(gives_iff hl ht (hok m hm).2 x).1 hx] at h1; cases h1

/-- **C99** After that, a duration that no member has is there exactly if it was before, with the value it had. -/
theorem C99_kept {c : DCfg} (hl : LibOk c.lib) {n : Nat} {t : Ty} (ht : t.tree) {ms : List (Bytes × Json)} {b : Bytes}
    (hb : JText (.obj ms) b) {p v : DV} (h : unmarshalDur c n t b p = .done v none) :
    ∃ es, v = .map es ∧ ∀ z, (∀ m ∈ ms, ¬ HasDurKey c.lib m.1 z) → es.lookup (.int z) = (entriesOf p).lookup (.int z) := by
  obtain ⟨es, h1, rfl⟩ := (unmarshalDur_obj hl ht hb p v).1 h
  refine ⟨es, rfl, fun z ha => mapByJ_absent ms _ es h1 fun a hm hk => ?_⟩
  obtain ⟨z', hz, e⟩ := (durKJ_iff c.lib (objText_ok hb a hm).1 _).1 hk
  injection e with e
  exact ha a hm (e ▸ hz)

/-- **C99** A duration that members have, in whatever form, gets the value of the last of them, decoded into a new
variable. -/
theorem C99_last {c : DCfg} (hl : LibOk c.lib) {n : Nat} {t : Ty} (ht : t.tree) {ms1 ms2 : List (Bytes × Json)} {raw : Bytes}
    {j : Json} {b : Bytes} (hb : JText (.obj (ms1 ++ (raw, j) :: ms2)) b) {p v : DV}
    (h : unmarshalDur c n t b p = .done v none) {z : Int} (hz : HasDurKey c.lib raw z) (ha : ∀ m ∈ ms2, ¬ HasDurKey c.lib m.1 z) :
    ∃ es x, v = .map es ∧ es.lookup (.int z) = some x ∧ Gives c n t j x := by
  obtain ⟨es, h1, rfl⟩ := (unmarshalDur_obj hl ht hb p v).1 h
  have hok := objText_ok hb
  have hm := hok (raw, j) (by simp)
  have hl' := mapByJ_last ((durKJ_iff c.lib hm.1 (.int z)).2 ⟨z, hz, rfl⟩) (fun a hma hka => by
    obtain ⟨z', hz', e⟩ := (durKJ_iff c.lib (hok a (by simp [hma])).1 _).1 hka
    injection e with e
    exact ha a hma (e ▸ hz')) ms1 _ es h1
  cases hf : decJN c n t j (zero t) with
  | some x => exact ⟨es, x, rfl, by rw [hl', hf], (gives_iff hl ht hm.2 x).2 hf⟩
  | none =>
    have := (mapByJ_none (kj := durKJ c.lib) (f := decJN c n t) (z := zero t) (ms1 ++ (raw, j) :: ms2) (entriesOf p)).2 ⟨(raw, j), by simp, .inr hf⟩
    rw [h1] at this; cases this

/-- **C99** If the first thing that is wrong with an object is a key that is no duration, the error is a syntax
error, although the document is valid. -/
theorem C99_rejected {c : DCfg} (hl : LibOk c.lib) {n : Nat} {t : Ty} (ht : t.tree) {ms1 ms2 : List (Bytes × Json)} {raw : Bytes}
    {j : Json} {b : Bytes} (hb : JText (.obj (ms1 ++ (raw, j) :: ms2)) b) (p : DV)
    (hok : ∀ m ∈ ms1, (∃ z, HasDurKey c.lib m.1 z) ∧ ∃ x, Gives c n t m.2 x) (hbad : ∀ z, ¬ HasDurKey c.lib raw z) :
    ∃ v, unmarshalDur c n t b p = .done v (some .syntax) := by
  have ho := objText_ok hb
  obtain ⟨w1, v, w2, rfl, h1, h2, hv⟩ := hb
  have hbad' : durKJ c.lib raw = none := by
    cases hk : durKJ c.lib raw with
    | none => rfl
    | some key =>
      obtain ⟨z, hz, _⟩ := (durKJ_iff c.lib (ho (raw, j) (by simp)).1 key).1 hk
      exact absurd hz (hbad z)
  obtain ⟨x, r', e, hd, hr⟩ := mapBy_reject (P := (Held Ty.tree · n)) (decN_ref hl n t ht (v.length + 1)) (held_zero _ _ _) (durKeyRef c.lib)
    (durKey_err c.lib) hbad'
    (fun a ha => by
      obtain ⟨⟨z, hk⟩, x, hx⟩ := hok a ha
      have hoa := ho a (by simp [ha])
      exact ⟨⟨.int z, (durKJ_iff c.lib hoa.1 _).2 ⟨z, hk, rfl⟩⟩, x, (gives_iff hl ht hoa.2 x).1 hx⟩) hv (by omega) w2 p
  have e0 : skipSpaces (w1 ++ v ++ w2) = v ++ w2 := by
    rw [List.append_assoc]; exact skip_ws_value h1 hv w2
  refine ⟨x, ?_⟩
  unfold unmarshalDur parseInto
  rw [e0, hd]
  rcases hr with rfl | hr
  · simp
  · simp [hr]

/-- A library that knows one duration. -/
def nanoLib : Lib := { noLib with parseDuration := fun s => if s = bs! "1ns" then some 1 else none }

/-- **C99** The statement fails: a duration as text is taken for a key, which is an error for `int64` and for
`encoding/json`. -/
theorem C99_fails_text : ∃ b, unmarshalDur { lib := nanoLib } 0 .bool b .mapNil = .done (.map [(.int 1, .bool true)]) none ∧
    unmarshal { lib := nanoLib } 0 (.map (.int .int64) .bool) b .mapNil = .done .mapNil (some .syntax) :=
  ⟨bs! "{\"\\\"1ns\\\"\":true}", by with_unfolding_all rfl, by with_unfolding_all rfl⟩

theorem C99_fails : ¬ C99_statement := by
  intro h
  obtain ⟨b, h1, h2⟩ := C99_fails_text
  rw [h] at h1
  rw [h1] at h2
  cases h2

/-- The entries of a map of booleans that was decoded without an error. -/
def boolEntries : URes → List (MK × Bool)
  | .done (.map es) none => es.map fun e => (e.1, match e.2 with | .bool b => b | _ => false)
  | _ => []

/-- Members with different strings that are one key; the last one stays. -/
example : boolEntries (unmarshalDur { lib := nanoLib } 0 .bool (bs! "{\"1\":true,\"\\\"1ns\\\"\":false, \"2\":true}") .mapNil) =
    [(.int 1, false), (.int 2, true)] := by decide +kernel

/-- The key of the second member. -/
example : HasDurKey nanoLib (bs! "\"\\\"1ns\\\"\"") 1 := by
  rw [← C99_key nanoLib (r := [])]
  · with_unfolding_all rfl
  · exact .mk (bs! "\\\"1ns\\\"") (.esc _ _ (.inl rfl) (.plain _ _ (by decide) (by decide) (by decide) (.plain _ _ (by decide) (by decide) (by decide) (.plain _ _ (by decide) (by decide) (by decide)
      (.esc _ _ (.inl rfl) .nil)))))

/-- A text for which both agree, with an entry that was there before. -/
example : unmarshalDur { lib := nanoLib } 0 .bool (bs! " {\"-7\":true, \"null\":false} ") (.map [(.int 5, .bool true)]) =
    .done (.map [(.int (-7), .bool true), (.int 0, .bool false), (.int 5, .bool true)]) none := by with_unfolding_all rfl

/-- `{"x":true}` is decoded into no such map, whatever is there before. -/
example (p v : DV) : unmarshalDur { lib := noLib } 0 .bool (bs! "{\"x\":true}") p ≠ .done v none := by
  intro h
  obtain ⟨⟨z, hz⟩, _⟩ := (C99_accepts (c := { lib := noLib }) (t := .bool) noLib_ok trivial xTrue_text p).1 ⟨v, h⟩ (bs! "\"x\"", .tru) (by simp)
  change HasDurKey noLib (bs! "\"x\"") z at hz
  rw [← C99_key noLib xKey []] at hz
  have e : decodeDurKey noLib (bs! "\"x\"" ++ []) = .err (.int 0) [] .syntax := by with_unfolding_all rfl
  rw [e] at hz
  cases hz

/-- A duration without the inner quotation marks is no key. -/
example : unmarshalDur { lib := nanoLib } 0 .bool (bs! "{\"1ns\":true}") .mapNil = .done .mapNil (some .syntax) := by with_unfolding_all rfl

end JC.Props
