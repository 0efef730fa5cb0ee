import Verif.Lemmas.Stable
/-!
Property C70: decoding, encoding and decoding again is decoding.
-/
namespace JC.Props
open JC Spec

/-- **C70** Full statement: for every type made of the kinds of `Ty.plain`, what `Unmarshal` stores in a fresh variable
is written by `Marshal`, and comes back when the text is unmarshalled into another fresh variable (up to the memory
beyond the length of slices). Refuted by `C70_fails_number` and `C70_fails_pointer`; see `C70_stable_partial`. -/
def C70_statement : Prop := ∀ (dc : DCfg) (m : Nat) (t : Ty) (b : Bytes) (v : DV), LibOk dc.lib → LibReturns dc.lib → t.plain → IsJson b →
  unmarshal dc m t b (zero t) = .done v none →
  ∃ out, marshal (toGV v t) = some (.ok out) ∧ unmarshal dc m t out (zero t) = .done (clip v) none

/-- **C70** The full statement with any layout for variables in which no `json.Number` is empty and no pointer points to
nil. -/
theorem C70_stable_partial (dc : DCfg) (hl : LibOk dc.lib) (hr : LibReturns dc.lib) (c : Cfg) (hc : c.clrs = none) (hw : WsLayout c) (m n : Nat) {t : Ty} (ht : t.plain)
    {b : Bytes} (hb : IsJson b) {v : DV} (h : unmarshal dc m t b (zero t) = .done v none) (hv : v.told) :
    ∃ out, enc c (toGV v t) [] n = .done out n none ∧ unmarshal dc m t out (zero t) = .done (clip v) none := by
  obtain ⟨j, hj⟩ := hb
  have hd := (unmarshal_tree hl (plain_tree t ht) hj (held_zero _ _ _) v).1 h
  have hf := decJN_fit hr m ht (jtext_ok hj) (fit_zero hr t ht) hd
  exact C38_roundtrip_partial c hc hw dc hl m n (plain_tree t ht) (fit_seen t ht v hf hv)

/-- **C70** The same for `Marshal`; for types without arrays every text that `Unmarshal` accepts is JSON (C36). -/
theorem C70_marshal_partial (dc : DCfg) (hl : LibOk dc.lib) (hr : LibReturns dc.lib) (m : Nat) {t : Ty} (ht : t.plain) (ha : t.noArr) {b : Bytes} {v : DV}
    (h : unmarshal dc m t b (zero t) = .done v none) (hv : v.told) :
    ∃ out, marshal (toGV v t) = some (.ok out) ∧ unmarshal dc m t out (zero t) = .done (clip v) none := by
  have hb := C36_valid_partial hl ha (held_zero _ _ _) h
  obtain ⟨out, h1, h2⟩ := C70_stable_partial dc hl hr {} rfl (by intro i h; cases h) m 0 ht hb h hv
  refine ⟨out, ?_, h2⟩
  unfold marshal
  rw [show enc {} (toGV v t) [] 0 = .done out _ none from h1]

theorem quotedGV_clip : ∀ (v : DV) (t : Ty), quotedGV (clip v) t = quotedGV v t
  | .ptr v, t => by
    have ih := quotedGV_clip v
    cases t <;> simp only [clip, quotedGV, ih]
  | .slice _ _, t | .array _, t | .map _, t | .struct _, t | .bytes _ _, t => by cases t <;> simp only [clip, quotedGV]
  | .bool _, t | .int _, t | .float _, t | .number _, t | .string _, t | .bytesNil, t | .time _, t | .rawNil, t | .raw _, t | .ifaceNil, t | .iface _ _, t
  | .sliceNil, t | .mapNil, t | .ptrNil, t | .user _, t => by simp only [clip]

mutual
/-- The encoder does not look beyond the length of slices. -/
theorem toGV_clip : ∀ (v : DV) (t : Ty), toGV (clip v) t = toGV v t
  | .ptr v, t => by
    have ih := toGV_clip v
    have iq := quotedGV_clip (.ptr v)
    simp only [clip] at iq
    cases t <;> simp only [clip, toGV, ih, iq]
  | .slice xs sp, t => by
    have ih := toGVs_clip xs
    have iq := quotedGV_clip (.slice xs sp)
    simp only [clip] at iq
    cases t <;> simp only [clip, toGV, ih, iq]
  | .array xs, t => by
    have ih := toGVs_clip xs
    have iq := quotedGV_clip (.array xs)
    simp only [clip] at iq
    cases t <;> simp only [clip, toGV, ih, iq]
  | .map es, t => by
    have ih := toGVe_clip es
    have im := toGVm_clip es
    have ir := toGVr_clip es
    have iq := quotedGV_clip (.map es)
    simp only [clip] at iq
    cases t <;> simp only [clip, toGV, ih, im, ir, iq]
  | .struct xs, t => by
    have ih := toGVf_clip xs
    have iq := quotedGV_clip (.struct xs)
    simp only [clip] at iq
    cases t <;> simp only [clip, toGV, ih, iq]
  | .bytes s sp, t => by
    have iq := quotedGV_clip (.bytes s sp)
    simp only [clip] at iq
    cases t <;> simp only [clip, toGV, iq]
  | .bool _, t | .int _, t | .float _, t | .number _, t | .string _, t | .bytesNil, t | .time _, t | .rawNil, t | .raw _, t | .ifaceNil, t | .iface _ _, t
  | .sliceNil, t | .mapNil, t | .ptrNil, t | .user _, t => by simp only [clip]
theorem toGVs_clip : ∀ (xs : List DV) (t : Ty), toGVs (clipL xs) t = toGVs xs t
  | [], t => rfl
  | x :: xs, t => by simp only [clipL, toGVs, toGV_clip x, toGVs_clip xs]
theorem toGVe_clip : ∀ (es : List (MK × DV)) (k : KTy) (t : Ty), toGVe (clipE es) k t = toGVe es k t
  | [], _, t => rfl
  | (a, x) :: xs, k, t => by simp only [clipE, toGVe, toGV_clip x, toGVe_clip xs]
theorem toGVm_clip : ∀ (es : List (MK × DV)), toGVm (clipE es) = toGVm es
  | [] => rfl
  | (a, x) :: xs => by simp only [clipE, toGVm, toGV_clip x, toGVm_clip xs]
theorem toGVr_clip : ∀ (es : List (MK × DV)), ((clipE es).map fun e => (e.1.str!, e.2.raw?)) = es.map fun e => (e.1.str!, e.2.raw?)
  | [] => rfl
  | (a, x) :: xs => by
    have ih := toGVr_clip xs
    have : (clip x).raw? = x.raw? := by cases x <;> simp only [clip, DV.raw?]
    simp only [clipE, List.map_cons, ih, this]
theorem toGVf_clip : ∀ (xs : List DV) (fs : List (Bytes × Ty)), toGVf (clipL xs) fs = toGVf xs fs
  | [], fs => by simp only [clipL]
  | x :: xs, [] => by simp only [clipL, toGVf]
  | x :: xs, (n, t) :: fs => by simp only [clipL, toGVf, toGV_clip x, toGVf_clip xs]
end

/-- **C70** The text of a decoded variable is a normal form: decoding and encoding it gives the same text. -/
theorem C70_normal_partial (dc : DCfg) (hl : LibOk dc.lib) (hr : LibReturns dc.lib) (c : Cfg) (hc : c.clrs = none) (hw : WsLayout c) (m n : Nat) {t : Ty} (ht : t.plain)
    {b : Bytes} (hb : IsJson b) {v : DV} (h : unmarshal dc m t b (zero t) = .done v none) (hv : v.told) :
    ∃ out w, enc c (toGV v t) [] n = .done out n none ∧ unmarshal dc m t out (zero t) = .done w none ∧ enc c (toGV w t) [] n = .done out n none := by
  obtain ⟨out, h1, h2⟩ := C70_stable_partial dc hl hr c hc hw m n ht hb h hv
  exact ⟨out, _, h1, h2, by rw [toGV_clip, h1]⟩

/-- A library that knows the zero values only. -/
def zeroLib : Lib where
  parseFloat _ s := if s = bs! "0" then some (.fin false [0x30] (.f [] [0x30] [] (.inl rfl) .zero .none)) else none
  parseDuration _ := none
  parseTime s := if s = bs! "0001-01-01T00:00:00Z" then some s else none
  simpleFold := id
  lower := id

theorem zeroLib_ok : LibOk zeroLib where
  duration := by simp [zeroLib]
  time := by
    intro s z h
    simp only [zeroLib] at h
    split at h
    · rename_i e; subst e; decide +kernel
    · contradiction

/-- The assumptions on the library can be met. -/
theorem zeroLib_returns : LibReturns zeroLib where
  floats := by
    intro b32 s f _ h
    simp only [zeroLib] at h
    split at h
    · injection h with h; exact ⟨_, _, _, h.symm, by rw [← h]; rfl⟩
    · contradiction
  zeroFloat := fun _ => rfl
  durations := by simp [zeroLib]
  times := by
    intro s z h
    simp only [zeroLib] at h
    split at h
    · rename_i e; subst e; injection h with h; subst h; exact ⟨by decide +kernel, rfl⟩
    · contradiction
  zeroTime := rfl

/-- An empty `json.Number`, as in a struct without the member, is written as `0` and comes back as `"0"`.
(`encoding/json` does the same.) -/
theorem C70_fails_number : ¬ C70_statement := by
  intro h
  have hb : IsJson (bs! "{}") := (C01_valid_iff _).1 (by decide +kernel)
  obtain ⟨out, h1, h2⟩ := h { lib := zeroLib } 0 (.struct [(bs! "n", .number)]) (bs! "{}") (.struct [.number []]) zeroLib_ok zeroLib_returns
    ⟨by simp, by simp only [List.mem_singleton, forall_eq, coerced_iff]; decide +kernel, trivial, trivial⟩ hb (by with_unfolding_all rfl)
  have e : marshal (toGV (.struct [.number []]) (.struct [(bs! "n", .number)])) = some (.ok (bs! "{\"n\":0}")) := by with_unfolding_all rfl
  rw [e] at h1
  cases h1
  have e2 : unmarshal { lib := zeroLib } 0 (.struct [(bs! "n", .number)]) (bs! "{\"n\":0}") (zero (.struct [(bs! "n", .number)])) = .done (.struct [.number (bs! "0")]) none := by
    with_unfolding_all rfl
  rw [e2] at h2
  injection h2 with h2
  revert h2
  simp [clip, clipL]

/-- A pointer to a pointer that is set by one member and nulled by the next points to nil; it is written as `null` and
comes back nil. -/
theorem C70_fails_pointer : ¬ C70_statement := by
  intro h
  have hb : IsJson (bs! "{\"p\":true,\"p\":null}") := (C01_valid_iff _).1 (by decide +kernel)
  obtain ⟨out, h1, h2⟩ := h { lib := zeroLib } 0 (.struct [(bs! "p", .ptr (.ptr .bool))]) _ (.struct [.ptr .ptrNil]) zeroLib_ok zeroLib_returns
    ⟨by simp, by simp only [List.mem_singleton, forall_eq, coerced_iff]; decide +kernel, trivial, trivial⟩ hb (by with_unfolding_all rfl)
  have e : marshal (toGV (.struct [.ptr .ptrNil]) (.struct [(bs! "p", .ptr (.ptr .bool))])) = some (.ok (bs! "{\"p\":null}")) := by with_unfolding_all rfl
  rw [e] at h1
  cases h1
  have e2 : unmarshal { lib := zeroLib } 0 (.struct [(bs! "p", .ptr (.ptr .bool))]) (bs! "{\"p\":null}") (zero (.struct [(bs! "p", .ptr (.ptr .bool))])) =
    .done (.struct [.ptrNil]) none := by with_unfolding_all rfl
  rw [e2] at h2
  injection h2 with h2
  revert h2
  simp [clip, clipL]

/-- A type for the concrete case: `struct { A []*bool "a" }`. -/
def caseTy : Ty := .struct [(bs! "a", .slice (.ptr (.bool)))]

/-- What is stored for `{"a":[true,true],"a":[false]}`: the memory of the first array is used again. -/
def caseDV : DV := .struct [.slice [.ptr (.bool false)] [.ptr (.bool true)]]

example : unmarshal { lib := zeroLib } 0 caseTy (bs! "{\"a\":[true,true],\"a\":[false]}") (zero caseTy) = .done caseDV none ∧
    marshal (toGV caseDV caseTy) = some (.ok (bs! "{\"a\":[false]}")) ∧
    unmarshal { lib := zeroLib } 0 caseTy (bs! "{\"a\":[false]}") (zero caseTy) = .done (.struct [.slice [.ptr (.bool false)] []]) none := by
  have h : unmarshal { lib := zeroLib } 0 caseTy (bs! "{\"a\":[true,true],\"a\":[false]}") (zero caseTy) = .done caseDV none := by with_unfolding_all rfl
  obtain ⟨out, h1, h2⟩ := C70_marshal_partial { lib := zeroLib } zeroLib_ok zeroLib_returns 0 (t := caseTy)
    ⟨by decide +kernel, by simp only [List.mem_cons, List.not_mem_nil, or_false, forall_eq, coerced_iff]; decide +kernel, trivial, trivial⟩
    ⟨trivial, trivial⟩ h (by simp [caseDV, DV.told, toldL, isNilDV])
  have e : marshal (toGV caseDV caseTy) = some (.ok (bs! "{\"a\":[false]}")) := by with_unfolding_all rfl
  rw [e] at h1
  cases h1
  exact ⟨h, e, by simpa [caseDV, clip, clipL] using h2⟩

/-- Concrete case: fields with the `string` option, arrays and maps with integer keys. -/
example : (marshal (toGV (.struct [.int (-5), .array [.int 255, .int 0], .map [(.int (-2), .bool true), (.int 10, .bool false)]])
    (.struct [(bs! "q", .quotedInt (.int .int)), (bs! "z", .array 2 (.int .uint8)), (bs! "m", .map (.int .int16) .bool)]))).map Except.toOption =
    some (some (bs! "{\"q\":\"-5\",\"z\":[255,0],\"m\":{\"-2\":true,\"10\":false}}")) := by decide +kernel

end JC.Props
