import Verif.Lemmas.DecFrame
import Verif.Lemmas.DecStop
import Verif.Lemmas.DecTrail
/-!
C60–C62: what `Unmarshal` leaves in the destination, in particular when it fails.
-/
namespace JC.Props
open JC Spec

/-! ### C60 -/

/-- **C60** as stated: a text that is not JSON changes nothing. -/
def C60_statement : Prop := ∀ (c : DCfg) (n : Nat) (t : Ty) (b : Bytes) (p x : DV) (e : Option Err), LibOk c.lib → ¬ IsJson b →
  unmarshal c n t b p = .done x e → x = p

theorem not_json {b : Bytes} (h : Valid b = false) : ¬ IsJson b := fun hb => by
  rw [(C01_valid_iff b).2 hb] at h; cases h

/-- **C60** fails for `true x`: the value is stored before the rest is looked at. -/
theorem C60_fails_trailing : ¬ C60_statement := by
  intro h
  have := h { lib := noLib } 0 .bool (bs! "true x") (.bool false) (.bool true) (some .syntax) noLib_ok (not_json (by decide +kernel)) rfl
  simp at this

/-- **C60** fails for `[true,`: elements and members are stored as they are
read. The slice is left with the elements read so far. -/
theorem C60_fails_prefix : ¬ C60_statement := by
  intro h
  have h1 := h { lib := noLib } 0 (.slice .bool) (bs! "[true,") (.slice [.bool false, .bool false] []) (.slice [.bool true] [.bool false])
    (some .syntax) noLib_ok (not_json (by decide +kernel)) (by with_unfolding_all rfl)
  simp at h1

/-- **C60** fails for a nil pointer, which becomes a pointer to a zero value. -/
theorem C60_fails_pointer : ¬ C60_statement := by
  intro h
  have h1 := h { lib := noLib } 0 (.ptr .bool) (bs! "x") .ptrNil (.ptr (.bool false)) (some .syntax) noLib_ok
    (not_json (by decide +kernel)) (by with_unfolding_all rfl)
  simp at h1

/-- **C60** fails for an interface that holds something: it is cleared. -/
theorem C60_fails_interface : ¬ C60_statement := by
  intro h
  have h1 := h { lib := noLib } 0 .iface (bs! "x") (.iface .bool (.bool true)) .ifaceNil (some .syntax) noLib_ok
    (not_json (by decide +kernel)) (by with_unfolding_all rfl)
  simp at h1

theorem mapLoopD_fresh {k : KTy} {dec : Dec} {z p : DV} {input : Bytes} : ∀ n first (m : List (MK × DV)) b {x r e},
    mapLoopD k dec z p true input n first m b = .err x r e → x = p := by
  intro n
  induction n with
  | zero => intro first m b x r e h; simp [mapLoopD] at h
  | succ n ih =>
    intro first m b x r e h
    rw [mapLoopD] at h
    simp only [if_true] at h
    split at h
    · cases h
    · split at h
      · cases h
      · injection h with h; exact h.symm
      · split at h
        · cases h
        · split at h <;> (injection h with h; exact h.symm)
        · exact ih _ _ _ h

theorem inputErr_same {b : Bytes} {p x : DV} {r : Bytes} {e : Err} (h : inputErr b p = .err x r e) : x = p := by
  unfold inputErr at h; injection h with h; exact h.symm

theorem decodeMap_fresh {k : KTy} {dec : Dec} {z : DV} {b : Bytes} {x : DV} {r : Bytes} {e : Err}
    (h : decodeMap k dec z b .mapNil = .err x r e) : x = .mapNil := by
  unfold decodeMap at h
  split at h
  · cases h
  · split at h
    · exact inputErr_same h
    · split at h
      · exact inputErr_same h
      · exact mapLoopD_fresh _ _ _ _ h

theorem ifaceEnd_err {t : Ty} {b : Bytes} {d : DRes} {x : DV} {r : Bytes} {e : Err} (h : ifaceEnd t b d = .err x r e) : x = .ifaceNil := by
  unfold ifaceEnd at h
  split at h
  · cases h
  · injection h with h; exact h.symm
  · split at h
    · injection h with h; exact h.symm
    · cases h

theorem ifaceValue_err {c : DCfg} {n : Nat} {b : Bytes} {p x : DV} {r : Bytes} {e : Err} (h : ifaceValue c n b p = .err x r e) :
    x = .ifaceNil := by
  cases n with
  | zero => cases h
  | succ n =>
    rw [ifaceValue] at h
    simp only [] at h
    split at h
    · injection h with h; exact h.symm
    · split at h
      · cases h
      · split at h
        · exact ifaceEnd_err h
        · split at h
          · exact ifaceEnd_err h
          · split at h
            · exact ifaceEnd_err h
            · split at h
              · split at h
                · cases h
                · injection h with h; exact h.symm
                · split at h
                  · injection h with h; exact h.symm
                  · cases h
              · split at h
                · exact ifaceEnd_err h
                · split at h
                  · split at h <;> exact ifaceEnd_err h
                  · injection h with h; exact h.symm

theorem decodeInterface_err {c : DCfg} {dyn : Ty → Dec} {b : Bytes} {p x : DV} {r : Bytes} {e : Err}
    (h : decodeInterface c dyn b p = .err x r e) : x = .ifaceNil := by
  unfold decodeInterface at h
  split at h
  · split at h
    · split at h
      · cases h
      · split at h
        · cases h
        · injection h with h; exact h.symm
        · cases h
    · split at h
      · cases h
      · unfold parseInvalid at h
        split at h <;> (injection h with h; exact h.symm)
  · exact ifaceValue_err h

theorem typeErr_same {b : Bytes} {p x : DV} {r : Bytes} {e : Err} (h : decodeUnmarshalTypeError b p = .err x r e) : x = p := by
  unfold decodeUnmarshalTypeError at h
  split at h <;> (injection h with h; exact h.symm)

theorem dec_atomic {c : DCfg} {dyn : Ty → Dec} {t : Ty} {b : Bytes} {p x : DV} {r : Bytes} {e : Err} (ha : Atomic t p)
    (h : dec c dyn t b p = .err x r e) : x = p := by
  cases t with
  | bool =>
    simp only [dec, decodeBool] at h
    split at h
    · cases h
    · split at h
      · cases h
      · split at h
        · cases h
        · exact inputErr_same h
  | int k =>
    simp only [dec, decodeInt] at h
    split at h
    · cases h
    · split at h
      · cases h
      · injection h with h; exact h.symm
  | float32 | float64 =>
    simp only [dec, decodeFloat] at h
    split at h
    · cases h
    · split at h
      · exact inputErr_same h
      · split at h
        · exact inputErr_same h
        · cases h
  | number =>
    simp only [dec, decodeNumber] at h
    split at h
    · cases h
    · split at h
      · exact inputErr_same h
      · cases h
  | string =>
    simp only [dec, decodeString] at h
    split at h
    · cases h
    · split at h
      · cases h
      · split at h
        · exact inputErr_same h
        · injection h with h; exact h.symm
      · cases h
  | duration =>
    simp only [dec, decodeDuration] at h
    split at h
    · cases h
    · split at h
      · exact inputErr_same h
      · split at h
        · split at h
          · exact inputErr_same h
          · cases h
        · split at h
          · exact inputErr_same h
          · split at h
            · exact inputErr_same h
            · split at h
              · exact inputErr_same h
              · cases h
  | time =>
    simp only [dec, decodeTime] at h
    split at h
    · cases h
    · split at h
      · exact inputErr_same h
      · split at h
        · exact inputErr_same h
        · split at h
          · exact inputErr_same h
          · split at h
            · exact inputErr_same h
            · cases h
  | raw =>
    simp only [dec, decodeRawMessage] at h
    split at h
    · exact inputErr_same h
    · cases h
  | iface =>
    simp only [Atomic] at ha
    subst ha
    simp only [dec] at h
    exact decodeInterface_err h
  | ifaceM em =>
    simp only [Atomic] at ha
    subst ha
    simp only [dec, decodeIfaceM] at h
    split at h
    · cases h
    · split at h
      · unfold parseInto at h
        split at h
        · cases h
        · rename_i e; injection h with h; subst h; exact decodeInterface_err e
        · cases h
      · exact typeErr_same h
  | map k t =>
    simp only [Atomic] at ha
    subst ha
    simp only [dec] at h
    exact decodeMap_fresh h
  | mapSI | mapRaw =>
    simp only [Atomic] at ha
    subst ha
    simp only [dec] at h
    exact decodeMap_fresh h
  | jsonU f =>
    simp only [dec, decodeJSONUnmarshaler] at h
    split at h
    · injection h with h; exact h.symm
    · split at h
      · cases h
      · split at h
        · injection h with h; exact h.symm
        · cases h
  | textU f =>
    simp only [dec, decodeTextUnmarshaler] at h
    split at h
    · injection h with h; exact h.symm
    · split at h
      · exact inputErr_same h
      · split at h
        · split at h
          · cases h
          · injection h with h; exact h.symm
        · split at h
          · split at h
            · cases h
            · injection h with h; exact h.symm
            · split at h
              · injection h with h; exact h.symm
              · cases h
          · injection h with h; exact h.symm
  | unsupported => simp only [dec] at h; exact typeErr_same h
  | bytes | slice | array | ptr | struct | quoted | quotedInt => simp only [Atomic] at ha

theorem decN_atomic {c : DCfg} {n : Nat} {t : Ty} {b : Bytes} {p x : DV} {r : Bytes} {e : Err} (ha : Atomic t p)
    (h : decN c n t b p = .err x r e) : x = p := by
  cases n <;> exact dec_atomic ha h

/-- **C60** (partial) Scalars, nil maps and nil interfaces are left as they were by a
text that does not begin with a value. Missing: texts that begin with a value, which
is stored; containers, pointers, maps and interfaces that are not nil, and the
`string` option, where the property fails. -/
theorem C60_atomic_partial {c : DCfg} (hl : LibOk c.lib) {n : Nat} {t : Ty} (ht : t.noArr) {b : Bytes} {p x : DV} {e : Option Err}
    (hp : Held Ty.noArr p n) (ha : Atomic t p) (hb : ¬ Begins b) (h : unmarshal c n t b p = .done x e) : x = p ∧ e ≠ none := by
  unfold unmarshal parseInto at h
  cases hq : decN c n t (skipSpaces b) p with
  | crash => rw [hq] at h; cases h
  | ok y r =>
    exfalso
    obtain ⟨w1, v, w2, j, hw1, _, hj, e'⟩ := decN_sound hl n t ht _ _ _ _ hp hq
    apply hb
    refine ⟨wsPrefix b ++ w1, v, w2 ++ r, j, ?_, ws_append (wsPrefix_ws b) hw1, hj⟩
    have := wsPrefix_append b
    rw [e'] at this
    exact this.symm.trans (by simp)
  | err y r e' =>
    rw [hq] at h
    injection h with h1 h2
    refine ⟨h1.symm.trans (decN_atomic ha hq), ?_⟩
    rw [← h2]; split <;> simp

/-- **C60** (partial) A value that does not fit is not stored either: a failing decoder
leaves scalars, nil maps and nil interfaces as they were, whatever the text. -/
theorem C60_mismatch_partial {c : DCfg} {n : Nat} {t : Ty} {b : Bytes} {p x : DV} {e : Err} (ha : Atomic t p)
    (h : unmarshal c n t b p = .done x (some e)) :
    x = p ∨ ∃ r, decN c n t (skipSpaces b) p = .ok x r ∧ skipSpaces r ≠ [] := by
  unfold unmarshal parseInto at h
  cases hq : decN c n t (skipSpaces b) p with
  | crash => rw [hq] at h; cases h
  | ok y r =>
    rw [hq] at h
    injection h with h1 h2
    subst h1
    refine .inr ⟨r, rfl, ?_⟩
    intro h0; simp [h0] at h2
  | err y r e' =>
    rw [hq] at h
    injection h with h1 h2
    exact .inl (h1.symm.trans (decN_atomic ha hq))

/-- **C60** (partial) When decoding into an interface fails, the interface is nil
afterwards, unless the text begins with a value. -/
theorem C60_interface_partial {c : DCfg} (hl : LibOk c.lib) {n : Nat} {b : Bytes} {p x : DV} {e : Option Err} (hp : Held Ty.noArr p n)
    (hb : ¬ Begins b) (h : unmarshal c n .iface b p = .done x e) : x = .ifaceNil := by
  unfold unmarshal parseInto at h
  cases hq : decN c n .iface (skipSpaces b) p with
  | crash => rw [hq] at h; cases h
  | ok y r =>
    exfalso
    obtain ⟨w1, v, w2, j, hw1, _, hj, e'⟩ := decN_sound hl n .iface trivial _ _ _ _ hp hq
    apply hb
    refine ⟨wsPrefix b ++ w1, v, w2 ++ r, j, ?_, ws_append (wsPrefix_ws b) hw1, hj⟩
    have := wsPrefix_append b
    rw [e'] at this
    exact this.symm.trans (by simp)
  | err y r e' =>
    rw [hq] at h
    injection h with h1 h2
    subst h1
    cases n <;> (simp only [decN, dec] at hq; exact decodeInterface_err hq)

/-- a nil map stays nil although a first entry was read, an existing one keeps the
entry; a boolean keeps its value -/
example : unmarshal { lib := noLib } 0 (.map .str .bool) (bs! "{\"a\":true,\"b\":x") .mapNil = .done .mapNil (some .syntax) ∧
    unmarshal { lib := noLib } 0 (.map .str .bool) (bs! "{\"a\":true,\"b\":x") (.map []) =
      .done (.map [(.str (bs! "a"), .bool true)]) (some .syntax) ∧
    unmarshal { lib := noLib } 0 .bool (bs! "tru") (.bool true) = .done (.bool true) (some .syntax) ∧
    unmarshal { lib := noLib } 0 .iface (bs! "[1,") (.iface .bool (.bool true)) = .done .ifaceNil (some .syntax) :=
  ⟨by with_unfolding_all rfl, by with_unfolding_all rfl, by with_unfolding_all rfl, by with_unfolding_all rfl⟩

/-! ### C61 -/

/-- **C61** Whether it succeeds or fails, `Unmarshal` changes only fields of structs
and entries of maps that the text names, at every depth that is reached through
fields, pointers and arrays; and pointers and maps become nil only through a `null`. -/
theorem C61_kept {c : DCfg} {n : Nat} {t : Ty} {b : Bytes} {p x : DV} {e : Option Err} (h : unmarshal c n t b p = .done x e) :
    Kept (!c.noFold) b t p x := by
  have key : ∀ y, (decN c n t (skipSpaces b) p).dest = some y → Kept (!c.noFold) b t p y :=
    fun y hy => kept_mono (skip_suf b) t _ _ (decN_frame c n t _ _ _ hy)
  unfold unmarshal parseInto at h
  cases hq : decN c n t (skipSpaces b) p with
  | crash => rw [hq] at h; cases h
  | ok y r =>
    rw [hq] at h key
    injection h with h1 h2
    subst h1; exact key _ rfl
  | err y r e' =>
    rw [hq] at h key
    injection h with h1 h2
    subst h1; exact key _ rfl

theorem keptF_get {fold : Bool} {b : Bytes} : ∀ {fs : List (Bytes × Ty)} {ps xs : List DV}, KeptF fold b fs ps xs → xs.length = ps.length →
    ∀ {i : Nat} {nm : Bytes} {t : Ty} {p : DV}, fs[i]? = some (nm, t) → ps[i]? = some p → (∀ k, Mentions b k → ¬ MayHit fold nm k) → xs[i]? = some p
  | [], _, _, _, _, _, _, _, _, h, _, _ => by simp at h
  | _ :: _, [], _, _, _, _, _, _, _, _, h, _ => by simp at h
  | _ :: _, _ :: _, [], _, hl, _, _, _, _, _, _, _ => by simp at hl
  | (nm', t') :: fs, p' :: ps, x :: xs, hk, hl, i, nm, t, p, hf, hp, hm => by
    simp only [KeptF] at hk
    cases i with
    | zero =>
      simp only [List.getElem?_cons_zero, Option.some.injEq, Prod.mk.injEq] at hf hp ⊢
      obtain ⟨rfl, rfl⟩ := hf
      subst hp
      exact hk.1 hm
    | succ i =>
      simp only [List.getElem?_cons_succ] at hf hp ⊢
      exact keptF_get hk.2.2 (by simpa using hl) hf hp hm

/-- **C61** for a struct: a field whose name does not occur in the text is left alone. -/
theorem C61_field {c : DCfg} {n : Nat} {fs : List (Bytes × Ty)} {b : Bytes} {ps : List DV} {x : DV} {e : Option Err}
    (h : unmarshal c n (.struct fs) b (.struct ps) = .done x e) : ∃ xs, x = .struct xs ∧ xs.length = ps.length ∧
      ∀ (i : Nat) nm t p, fs[i]? = some (nm, t) → ps[i]? = some p → (∀ k, Mentions b k → ¬ MayHit (!c.noFold) nm k) → xs[i]? = some p := by
  have := C61_kept h
  unfold Kept at this
  obtain ⟨xs, e, hl, hk⟩ := this ps rfl
  exact ⟨xs, e, hl, fun i nm t p hf hp hm => keptF_get hk hl hf hp hm⟩

/-- **C61** for a map: entries whose keys do not occur in the text stay, unless the
text is `null`. -/
theorem C61_entry {c : DCfg} {n : Nat} {t : Ty} {b : Bytes} {es : List (MK × DV)} {x : DV} {e : Option Err}
    (h : unmarshal c n (.map .str t) b (.map es) = .done x e) (hn : ¬ HasNull b) : ∃ es', x = .map es' ∧
      ∀ k, ¬ Mentions b k → es'.lookup (.str k) = es.lookup (.str k) := by
  have := C61_kept h
  unfold Kept at this
  rcases this.1 es rfl with ⟨es', e, hs⟩ | ⟨hn', _⟩
  · exact ⟨es', e, fun k hk => hs (.str k) hk⟩
  · exact absurd hn' hn

/-- fields of a nested struct behind a pointer, before an error -/
example : unmarshal { lib := noLib } 0 (.struct [(bs! "a", .ptr (.struct [(bs! "b", .bool), (bs! "c", .bool)])), (bs! "d", .bool)])
      (bs! "{\"a\":{\"b\":true},\"a\":{\"e\":x") (.struct [.ptr (.struct [.bool false, .bool true]), .bool true]) =
      .done (.struct [.ptr (.struct [.bool true, .bool true]), .bool true]) (some .syntax) ∧
    unmarshal { lib := noLib } 0 (.struct [(bs! "a", .ptr (.struct [(bs! "b", .bool), (bs! "c", .bool)]))])
      (bs! "{\"a\":null,\"a\":{\"b\":true}}") (.struct [.ptr (.struct [.bool false, .bool true])]) =
      .done (.struct [.ptr (.struct [.bool true, .bool false])]) none := ⟨by with_unfolding_all rfl, by with_unfolding_all rfl⟩

/-- entries of a map -/
example : unmarshal { lib := noLib } 0 (.map .str .bool) (bs! "{\"a\":true,\"\\u0062\":false}")
      (.map [(.str (bs! "b"), .bool true), (.str (bs! "c"), .bool true)]) =
    .done (.map [(.str (bs! "a"), .bool true), (.str (bs! "b"), .bool false), (.str (bs! "c"), .bool true)]) none := by with_unfolding_all rfl

/-! ### C62 -/

/-- **C62** as stated: in a valid document, a member that fits its field is stored,
whether or not other members fit theirs. -/
def C62_statement : Prop := ∀ (c : DCfg) (n : Nat) (fs : List (Bytes × Ty)) (ms : List (Bytes × Json)) (b : Bytes) (ps : List DV),
  LibOk c.lib → treeF fs → c.disallowUnknown = false → JText (.obj ms) b → ps.length = fs.length → HeldL Ty.tree ps n →
  ∀ (a z : List (Bytes × Json)) (raw k : Bytes) (j : Json) (i : Nat) (nm : Bytes) (t : Ty) (p q : DV) (bj : Bytes),
    ms = a ++ (raw, j) :: z → KeyMeans raw k → Selects (!c.noFold) (fs.map (·.1)) k i →
    (∀ m ∈ a ++ z, ∀ k', KeyMeans m.1 k' → ¬ Selects (!c.noFold) (fs.map (·.1)) k' i) →
    fs[i]? = some (nm, t) → ps[i]? = some p → JText j bj → unmarshal c n t bj p = .done q none →
    ∃ xs e, unmarshal c n (.struct fs) b (.struct ps) = .done (.struct xs) e ∧ xs[i]? = some q

/-- **C62** fails for `{"a":1,"b":true}` and two booleans: decoding stops at the first
member that does not fit (`/repo/decode.go:934-946`). -/
theorem C62_fails_struct : ¬ C62_statement := by
  intro h
  have hb : IsJson (bs! "{\"a\":1,\"b\":true}") := (C01_valid_iff _).1 (by decide +kernel)
  have hone : JNumber [0x31] := by
    have := JNumber.mk [] [0x31] [] [] (.inl rfl) (.pos 0x31 [] (by decide) (by decide) (by simp)) .none .none
    simpa using this
  have ha : JString (bs! "\"a\"") := .mk [0x61] (.plain _ _ (by decide) (by decide) (by decide) .nil)
  have hB : JString (bs! "\"b\"") := .mk [0x62] (.plain _ _ (by decide) (by decide) (by decide) .nil)
  have hj : JText (.obj [(bs! "\"a\"", .num (bs! "1")), (bs! "\"b\"", .tru)]) (bs! "{\"a\":1,\"b\":true}") := by
    refine ⟨[], _, [], (List.append_nil _).symm, ws_nil, ws_nil, ?_⟩
    exact .obj _ (bs! "\"a\":1,\"b\":true") (.memCons [] [] [] [] _ _ _ _ _ ws_nil ws_nil ws_nil ws_nil ha (.num _ hone)
      (.memOne [] [] [] [] _ _ _ ws_nil ws_nil ws_nil ws_nil hB .tru))
  have km : ∀ {l : Bytes}, JString l → ∀ k, KeyMeans l k → k = unq l := fun hl k => (keyMeans_unq hl k).1
  have e1 : unq (bs! "\"a\"") = bs! "a" := by decide +kernel
  have e2 : unq (bs! "\"b\"") = bs! "b" := by decide +kernel
  obtain ⟨xs, e, hu, hx⟩ := h { lib := noLib } 0 [(bs! "a", .bool), (bs! "b", .bool)] _ _ [.bool false, .bool false] noLib_ok
    (by simp [treeF, Ty.tree]) rfl hj rfl (by simp [HeldL, Held]) [(bs! "\"a\"", .num (bs! "1"))] [] (bs! "\"b\"") (bs! "b") .tru 1 (bs! "b")
    .bool (.bool false) (.bool true) (bs! "true") rfl ((keyMeans_unq hB _).2 e2.symm) (.inl ⟨rfl, by
      intro k hk; cases k with
      | zero => omega
      | succ k => cases k with
        | zero => omega
        | succ k => simp⟩)
    (by
      intro m hm k' hk' hs
      simp only [List.append_nil, List.mem_singleton] at hm
      subst hm
      have := km ha k' hk'
      rw [e1] at this
      subst this
      rcases hs with ⟨h1, _⟩ | ⟨h1, _⟩
      · simp at h1
      · simp at h1)
    rfl rfl ⟨[], _, [], (List.append_nil _).symm, ws_nil, ws_nil, .tru⟩ (by with_unfolding_all rfl)
  have hr : unmarshal { lib := noLib } 0 (.struct [(bs! "a", .bool), (bs! "b", .bool)]) (bs! "{\"a\":1,\"b\":true}")
      (.struct [.bool false, .bool false]) = .done (.struct [.bool false, .bool false]) (some .unmarshalType) := by with_unfolding_all rfl
  rw [hr] at hu
  injection hu with hu _
  injection hu with hu
  subst hu
  simp at hx

theorem members_held {c : DCfg} (hl : LibOk c.lib) {n : Nat} {fs : List (Bytes × Ty)} (ht : treeF fs) {ms : List (Bytes × Json)} {ps qs : List DV}
    (h : Members c n fs ms ps qs) : HeldL Ty.tree ps n → HeldL Ty.tree qs n := by
  induction h with
  | nil => exact id
  | skip _ _ _ _ _ _ _ _ _ _ ih => exact ih
  | field raw k i nm t p q j b ms ps qs hk hs hf hp hj hu _ ih =>
    intro hps
    have hph := heldL_iff.1 hps p (List.mem_of_getElem? hp)
    have htt := treeF_get ht hf
    exact ih (heldL_set (decJN_pres hl htt hj hph ((unmarshal_tree hl htt hj hph q).1 hu)) hps i)

/-- **C62** (partial) The members before the first one that does not fit are stored,
and the other fields are not touched: if the members `a` have the effect `Members`
(see C42) and the next one does not fit its field `i`, that is how the struct is
left, up to the field `i` itself. Missing: the members behind it, which are not
read, and the same restrictions as in C42. -/
theorem C62_struct_partial {c : DCfg} (hl : LibOk c.lib) {n : Nat} {fs : List (Bytes × Ty)} (ht : treeF fs) {a z : List (Bytes × Json)}
    {raw k : Bytes} {j : Json} {b : Bytes} (hj : JText (.obj (a ++ (raw, j) :: z)) b)
    (ha : c.noFold = true ∨ ((∀ f ∈ fs, Ascii f.1) ∧ ∀ m ∈ a ++ (raw, j) :: z, ∀ k, KeyMeans m.1 k → Ascii k))
    {ps qs : List DV} (hlen : ps.length = fs.length) (hp : HeldL Ty.tree ps n) (hm : Members c n fs a ps qs)
    (hk : KeyMeans raw k) {i : Nat} (hi : Selects (!c.noFold) (fs.map (·.1)) k i) {nm : Bytes} {t : Ty} (hft : fs[i]? = some (nm, t))
    {q y : DV} (hq : qs[i]? = some q) {bj : Bytes} (hbj : JText j bj) {e : Err} (hbad : unmarshal c n t bj q = .done y (some e)) :
    ∃ x e', unmarshal c n (.struct fs) b (.struct ps) = .done (.struct (qs.set i x)) (some e') := by
  have hok := jsonOk_members (jtext_ok hj)
  obtain ⟨gs, hg, _⟩ := decJN_struct (c := c) (n := n) (fs := fs)
  obtain ⟨ds, hds, eD⟩ := decN_struct (c := c) (n := n) (fs := fs)
  have hsj := (members_iff hl ht hg a (fun m hm => hok m (by simp [hm])) (ha.imp id fun h => ⟨h.1, fun m hm => h.2 m (by simp [hm])⟩)
    ps qs hlen hp).2 hm
  have hraw : JString raw := (hok (raw, j) (by simp)).1
  have hku := (keyMeans_unq hraw k).1 hk
  subst hku
  have hpk : pickField c (fs.map (·.1)) (unq raw) = some i := by
    refine (pick_iff ?_ i).2 hi
    refine ha.imp id fun h => ⟨fun nm hnm => ?_, h.2 (raw, j) (by simp) _ hk⟩
    obtain ⟨f, hf, rfl⟩ := List.mem_map.1 hnm
    exact h.1 f hf
  have hgi : gs[i]? = some (decJN c n t) := by rw [hg i, hft]; rfl
  have hqh : HeldL Ty.tree qs n := members_held hl ht hm hp
  have hno : decJN c n t j (qs.getD i (.user none)) = none := by
    rw [List.getD_eq_getElem?_getD, hq]
    cases hx : decJN c n t j q with
    | none => exact hx
    | some x =>
      rw [(unmarshal_tree hl (treeF_get ht hft) hbj (heldL_iff.1 hqh q (List.mem_of_getElem? hq)) x).2 hx] at hbad
      injection hbad with _ hbad; cases hbad
  obtain ⟨w1, v, w2, rfl, h1, h2, hv⟩ := hj
  generalize hms : a ++ (raw, j) :: z = ms at hv
  have hv' := hv
  cases hv with
  | objNil => simp at hms
  | obj _ u hu =>
    subst hms
    have hL := refL_decN hl ht hds hg (u.length + 1)
    have hst := struct_stop hL (by simp [Held]) c (fs.map (·.1)) (0x7b :: (u ++ [0x7d]) ++ w2) hpk hgi hno a u hu (by omega) ps
      ((0x7b :: (u ++ [0x7d]) ++ w2).length) w2 (by simp; omega) (heldL_iff.1 hp) hsj
    obtain ⟨th, eh⟩ := derives_members_head hu (0x7d :: w2)
    have ed : decN c n (.struct fs) (0x7b :: (u ++ [0x7d]) ++ w2) (.struct ps) =
        structMember c (fs.map (·.1)) ds (0x7b :: (u ++ [0x7d]) ++ w2) ((0x7b :: (u ++ [0x7d]) ++ w2).length) ps (skipSpaces (u ++ 0x7d :: w2)) := by
      rw [eD, decodeStruct_eq, hasNull_value hv' w2]
      simp only [isNullJ, Bool.false_eq_true, if_false, List.cons_append]
      rw [if_neg (by simp; omega)]
      simp only [List.append_assoc, List.cons_append, List.nil_append, structMem]
      rw [structLoopD_first (by rw [eh]; simp)]
    rw [← ed] at hst
    obtain ⟨y, e', hy, x, rfl⟩ := unmarshal_stops (Q := Ty.tree) (by simpa only [Held] using hp) h1 hv' hst
    exact ⟨x, e', hy⟩

theorem elems_iff {c : DCfg} (hl : LibOk c.lib) {n : Nat} {t : Ty} (ht : t.tree) {xs : List Json} {vs : List DV} (h : Elems c n t xs vs) :
    elemsJ (decJN c n t) (zero t) xs [] = some vs := by
  induction h with
  | nil => rfl
  | cons x b v xs vs hx hu _ ih =>
    simp only [elemsJ, List.headD_nil, List.tail_nil]
    rw [(unmarshal_tree hl ht hx (held_zero _ n t) v).1 hu, ih]
    rfl

/-- **C62** (partial) For a nil slice: it is left with the elements before the first
one that does not fit. Missing: the elements behind it. -/
theorem C62_slice_partial {c : DCfg} (hl : LibOk c.lib) {n : Nat} {t : Ty} (ht : t.tree) {a z : List Json} {j : Json} {b : Bytes}
    (hj : JText (.arr (a ++ j :: z)) b) {vs : List DV} (hv : Elems c n t a vs) {bj : Bytes} (hbj : JText j bj) {y : DV} {e : Err}
    (hbad : unmarshal c n t bj (zero t) = .done y (some e)) :
    ∃ sp e', unmarshal c n (.slice t) b .sliceNil = .done (.slice vs sp) (some e') := by
  have hno : decJN c n t j (([] : List DV).headD (zero t)) = none := by
    cases hx : decJN c n t j (zero t) with
    | none => exact hx
    | some x =>
      rw [(unmarshal_tree hl ht hbj (held_zero _ n t) x).2 hx] at hbad
      injection hbad with _ hbad; cases hbad
  obtain ⟨w1, v, w2, rfl, h1, h2, hv'⟩ := hj
  generalize hms : a ++ j :: z = ms at hv'
  have hv2 := hv'
  cases hv' with
  | arrNil => simp at hms
  | arr _ u hu =>
    subst hms
    have hst := slice_stop (decN_ref hl n t ht (u.length + 1)) (held_zero _ n t) (0x5b :: (u ++ [0x5d]) ++ w2) a u hu (by omega) [] [] vs
      ((0x5b :: (u ++ [0x5d]) ++ w2).length) w2 (by simp; omega) (by simp) (elems_iff hl ht hv) (by simpa using hno)
    obtain ⟨ch, th, eh, _, hne⟩ := derives_elems_head hu (0x5d :: w2)
    have ed : decN c n (.slice t) (0x5b :: (u ++ [0x5d]) ++ w2) .sliceNil =
        sliceElem (decN c n t) (zero t) (0x5b :: (u ++ [0x5d]) ++ w2) ((0x5b :: (u ++ [0x5d]) ++ w2).length) [] [] (skipSpaces (u ++ 0x5d :: w2)) := by
      have : decN c n (.slice t) = decodeSlice (decN c n t) (zero t) := by cases n <;> simp only [decN, dec]
      rw [this, decodeSlice_eq, hasNull_value hv2 w2]
      simp only [isNullJ, Bool.false_eq_true, if_false, List.cons_append]
      rw [if_neg (by simp; omega)]
      simp only [List.append_assoc, List.cons_append, List.nil_append, sliceMem]
      rw [sliceLoop_succ, if_neg (by rw [eh]; simpa using hne), if_pos (by rfl : (List.isEmpty ([] : List DV)) = true)]
    rw [← ed] at hst
    obtain ⟨y, e', hy, x, rfl⟩ := unmarshal_stops (Q := Ty.tree) (by simp [Held]) h1 hv2 hst
    exact ⟨x, e', by simpa using hy⟩

/-- the first two members are stored, the third does not fit, the fourth is not read;
the slice has the elements before `1`; encoding/json gives `true, true, -, true`
and a slice of three -/
example : unmarshal { lib := noLib } 0 (.struct [(bs! "a", .bool), (bs! "b", .bool), (bs! "c", .bool), (bs! "d", .bool)])
      (bs! "{\"a\":true,\"b\":true,\"c\":1,\"d\":true}") (.struct [.bool false, .bool false, .bool false, .bool false]) =
      .done (.struct [.bool true, .bool true, .bool false, .bool false]) (some .unmarshalType) ∧
    unmarshal { lib := noLib } 0 (.slice .bool) (bs! "[true,1,true]") .sliceNil =
      .done (.slice [.bool true] [.bool false]) (some .unmarshalType) := ⟨by with_unfolding_all rfl, by with_unfolding_all rfl⟩

end JC.Props
