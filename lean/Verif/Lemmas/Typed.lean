import Verif.Spec.Typed
import Verif.Lemmas.Tree
import Verif.Props.Bytes
import Verif.Props.Struct
/-! The typed round trip at the level of documents. -/
namespace JC
open Spec Props

/-! ### lists -/

theorem All2.mono {α β : Type} {R R' : α → β → Prop} (h : ∀ a b, R a b → R' a b) : ∀ {as : List α} {bs : List β}, All2 R as bs → All2 R' as bs
  | [], [], _ => trivial
  | _ :: _, _ :: _, hr => ⟨h _ _ hr.1, All2.mono h hr.2⟩

theorem All2.map_right {α β γ : Type} {R : α → γ → Prop} {f : β → γ} : ∀ {as : List α} {bs : List β}, All2 (fun a b => R a (f b)) as bs → All2 R as (bs.map f)
  | [], [], _ => trivial
  | _ :: _, _ :: _, hr => ⟨hr.1, All2.map_right hr.2⟩

/-- A permutation on one side is matched by one on the other. -/
theorem All2.perm {α β : Type} {R : α → β → Prop} {bs bs' : List β} (hp : bs.Perm bs') : ∀ {as : List α}, All2 R as bs → ∃ as', as'.Perm as ∧ All2 R as' bs' := by
  induction hp with
  | nil => exact fun {as} h => ⟨as, .refl _, h⟩
  | cons x _ ih =>
    intro as h
    cases as with
    | nil => exact h.elim
    | cons a as =>
      obtain ⟨as', h1, h2⟩ := ih h.2
      exact ⟨a :: as', h1.cons a, h.1, h2⟩
  | swap x y l =>
    intro as h
    rcases as with _ | ⟨a, _ | ⟨b, as⟩⟩
    · exact h.elim
    · exact h.2.elim
    · exact ⟨b :: a :: as, .swap a b as, h.2.1, h.1, h.2.2⟩
  | trans _ _ ih1 ih2 =>
    intro as h
    obtain ⟨as1, h1, h2⟩ := ih1 h
    obtain ⟨as2, h3, h4⟩ := ih2 h2
    exact ⟨as2, h3.trans h1, h4⟩

theorem clipL_map : ∀ xs : List DV, clipL xs = xs.map clip
  | [] => rfl
  | _ :: xs => by rw [clipL, clipL_map xs]; rfl

theorem clipE_map : ∀ es : List (MK × DV), clipE es = es.map fun e => (e.1, clip e.2)
  | [] => rfl
  | (_, _) :: es => by rw [clipE, clipE_map es]; rfl

/-! ### maps -/

theorem mapSet_sorted_of {k : MK} {v : DV} : ∀ {es : List (MK × DV)}, (∀ e ∈ es, e.1.text = k.text → e.1 = k) → SortedM es → SortedM (mapSet k v es)
  | [], _, _ => by simp [mapSet, SortedM]
  | (k', v') :: es, hinj, h => by
    unfold SortedM at h
    rw [List.pairwise_cons] at h
    simp only [mapSet]
    split
    · rename_i e; subst e
      unfold SortedM
      rw [List.pairwise_cons]; exact h
    · rename_i hne
      split
      · rename_i hlt
        rw [bytesLt_iff] at hlt
        unfold SortedM
        rw [List.pairwise_cons, List.pairwise_cons]
        refine ⟨?_, h⟩
        intro a ha
        rcases List.mem_cons.1 ha with rfl | ha
        · exact hlt
        · exact blt_trans hlt (h.1 a ha)
      · rename_i hlt
        rw [bytesLt_iff] at hlt
        have hgt : k'.text < k.text := by
          rcases blt_total k.text k'.text with h | h | h
          · exact absurd h hlt
          · exact absurd (hinj _ List.mem_cons_self h.symm) hne
          · exact h
        unfold SortedM
        rw [List.pairwise_cons]
        refine ⟨?_, mapSet_sorted_of (fun e he => hinj e (List.mem_cons_of_mem _ he)) h.2⟩
        intro a ha
        rcases mapSet_mem ha with rfl | ha
        · exact hgt
        · exact h.1 a ha

/-- Entries entered one after the other. -/
def entered (es m : List (MK × DV)) : List (MK × DV) := es.foldl (fun m e => mapSet e.1 e.2 m) m

theorem entered_spec : ∀ (es m : List (MK × DV)), SortedM m → es.Pairwise (fun a b => a.1.text ≠ b.1.text) →
    (∀ e ∈ es, ∀ a ∈ m, a.1.text ≠ e.1.text) → SortedM (entered es m) ∧ ∀ e, e ∈ entered es m ↔ e ∈ es ∨ e ∈ m
  | [], m, hs, _, _ => ⟨hs, by simp [entered]⟩
  | (k, v) :: es, m, hs, hp, hd => by
    rw [List.pairwise_cons] at hp
    have h1 : SortedM (mapSet k v m) := mapSet_sorted_of (fun a ha e => absurd e (hd _ List.mem_cons_self a ha)) hs
    have h2 := mapSet_iff (k := k) (v := v) hs
    obtain ⟨h3, h4⟩ := entered_spec es (mapSet k v m) h1 hp.2 (by
      intro e he a ha
      rcases mapSet_mem ha with rfl | ha
      · exact hp.1 e he
      · exact hd e (List.mem_cons_of_mem _ he) a ha)
    refine ⟨h3, fun e => ?_⟩
    obtain ⟨k', w⟩ := e
    show _ ∈ entered es (mapSet k v m) ↔ _
    rw [h4, h2, List.mem_cons]
    constructor
    · rintro (h | ⟨rfl, rfl⟩ | ⟨_, h⟩)
      · exact .inl (.inr h)
      · exact .inl (.inl rfl)
      · exact .inr h
    · rintro ((h | h) | h)
      · cases h; exact .inr (.inl ⟨rfl, rfl⟩)
      · exact .inl h
      · refine .inr (.inr ⟨?_, h⟩)
        rintro rfl
        exact hd _ List.mem_cons_self _ h rfl

/-- Entering the entries of a map in any order gives the map. -/
theorem entered_perm {es es' : List (MK × DV)} (hs : SortedM es) (hp : es'.Perm es) : entered es' [] = es := by
  have hne : es.Pairwise (fun a b => a.1.text ≠ b.1.text) := by
    refine List.Pairwise.imp ?_ hs
    intro a b h e
    rw [e] at h
    exact blt_irrefl _ h
  obtain ⟨h1, h2⟩ := entered_spec es' [] (by simp [SortedM]) ((hp.pairwise_iff (fun h e => h e.symm)).2 hne) (by simp)
  refine sortedM_ext h1 hs fun e => ?_
  rw [h2, hp.mem_iff]
  simp

/-! ### strings -/

theorem unq_quote {html : Bool} {s : Bytes} (h : Coerced s s) : unq (quote html s) = s :=
  ((keyMeans_unq (quote_jstring html s) s).1 ((keyMeans_quote html s s).2 h)).symm

theorem ascii_coerced {s : Bytes} (h : ∀ c ∈ s, c.toNat < 128) : Coerced s s := by
  rw [coerced_iff]
  induction s with
  | nil => simp [runes, utf8s]
  | cons c s ih =>
    rw [runes_ascii (h c List.mem_cons_self)]
    have e : utf8s (c.toNat :: runes s) = utf8 c.toNat ++ utf8s (runes s) := by simp [utf8s]
    rw [e, ← ih fun x hx => h x (List.mem_cons_of_mem _ hx), utf8_ascii (h c List.mem_cons_self)]
    rfl

theorem jnumber_coerced {s : Bytes} (h : JNumber s) : Coerced s s := by
  refine ascii_coerced fun c hc => ?_
  have := jnumber_bytes h c hc
  simp only [Digit, UInt8.le_iff_toNat_le, ← UInt8.toNat_inj, UInt8.reduceToNat] at this
  omega

/-! ### scalars -/

/-- The text of an integer as the encoder sees it. -/
def intText (i : IntKind) (z : Int) : Bytes := if i.signed then fmtInt z else fmtNat z.toNat

theorem intText_lit {i : IntKind} {z : Int} (h : KindFits i z) : KindLit i (intText i z) z := by
  have key : 0 ≤ z → JInt (fmtNat z.toNat) ∧ z = natVal (fmtNat z.toNat) := by
    intro h0
    refine ⟨fmtNat_jint _, ?_⟩
    rw [(fmtNat_val z.toNat).1]; omega
  cases i <;> simp only [KindFits, FitsSigned, FitsUnsigned] at h <;> simp only [KindLit, intText, IntKind.signed, if_true, if_false, Bool.false_eq_true]
  case int | int8 | int16 | int32 | int64 => all_goals exact fmtInt_lit z
  all_goals exact key h.1

theorem intText_number {i : IntKind} {z : Int} : JNumber (intText i z) := by
  unfold intText
  split
  · exact fmtInt_jnumber z
  · exact fmtNat_jnumber _

theorem decodeInt_text {i : IntKind} {z : Int} (h : KindFits i z) (p : DV) : decodeInt i (intText i z) p = .ok (.int z) [] := by
  have hl := intText_lit h
  have := fun q => (C10_sized i hl (r := []) (by intro c t e; cases e) q).1 h
  simp only [List.append_nil] at this
  unfold decodeInt
  have hn := hasNull_num (intText_number (i := i) (z := z)) []
  rw [List.append_nil] at hn
  rw [hn, this]
  rfl

theorem meaning_int (c : Cfg) (i : IntKind) (z : Int) : meaning c (seenInt i z) = .doc (.leaf .number (intText i z)) := by
  unfold seenInt intText
  split <;> rw [meaning]

theorem numberMeaning_of {s : Bytes} (h : JNumber s) : numberMeaning s = .doc (.leaf .number s) := by
  have hne : s ≠ [] := by
    rintro rfl
    obtain ⟨c, t, e, _⟩ := jnumber_head h
    cases e
  rw [numberMeaning]
  rw [if_neg hne, if_pos h]

theorem decodeTime_text {l : Lib} {s s' : Bytes} (h : l.parseTime s = some s') (hq : (0x22 : UInt8) ∉ s) (p : DV) :
    decodeTime l (0x22 :: (s ++ [0x22])) p = .ok (.time s') [] := by
  unfold decodeTime
  rw [hasNull_cons (by decide)]
  have : ¬ ((0x22 :: (s ++ [0x22])).length < 2 ∨ (0x22 : UInt8) ≠ 0x22) := by simp
  simp only [Bool.false_eq_true, if_false, if_neg this, indexByte_append hq, List.take_left, h]
  simp

theorem decodeDuration_text {l : Lib} {z : Int} (h : FitsSigned 64 z) (p : DV) : decodeDuration l (fmtInt z) p = .ok (.int z) [] := by
  have hn := hasNull_num (fmtInt_jnumber z) []
  have hi := parseInt_lit (fmtInt_lit z) (r := []) (by intro c t e; cases e)
  rw [List.append_nil] at hn hi
  rw [if_pos h] at hi
  obtain ⟨c, t, e, hc⟩ := jnumber_head (fmtInt_jnumber z)
  unfold decodeDuration
  rw [hn, hi, e]
  simp [(digit_range hc).2.2.2.1]

/-! ### quoted scalars -/

theorem quote_coerced (html : Bool) (s : Bytes) : Coerced (quote html s) (quote html s) := by
  obtain ⟨rs, h1, h2⟩ := C06_safe html s
  rw [coerced_iff]
  exact (coerce_valid ⟨rs, fun r hr => (h2 r hr).1, h1⟩).symm

theorem jint_noZeroes {i : Bytes} (h : JInt i) : ∃ a t, i = a :: t ∧ a ≠ 0x2b ∧ a ≠ 0x2d ∧ ∀ b t', t = b :: t' → (a == 0x30 && isDigit b) = false := by
  cases h with
  | zero => exact ⟨_, _, rfl, by decide, by decide, by simp⟩
  | pos d ds h1 h2 h3 =>
    refine ⟨_, _, rfl, ?_, ?_, ?_⟩
    · rintro rfl; exact absurd h1 (by decide)
    · rintro rfl; exact absurd h1 (by decide)
    · intro b t' _
      have : d ≠ 0x30 := by rintro rfl; exact absurd h1 (by decide)
      simp [this]

theorem intLit_noZeroes {s : Bytes} {z : Int} (h : IntLit s z) : stripZeroes s = s := by
  have : hasLeadingZeroes s = false := by
    cases h with
    | nonneg i hi =>
      obtain ⟨a, t, rfl, h1, h2, h3⟩ := jint_noZeroes hi
      unfold hasLeadingZeroes
      simp only [h1, h2, or_self, if_false]
      cases t with
      | nil => rfl
      | cons b t => exact h3 b t rfl
    | neg i hi =>
      obtain ⟨a, t, rfl, h1, h2, h3⟩ := jint_noZeroes hi
      unfold hasLeadingZeroes
      simp only [or_true, if_true]
      cases t with
      | nil => rfl
      | cons b t => exact h3 b t rfl
  unfold stripZeroes
  rw [this]
  rfl

theorem decodeQuoted {html : Bool} {s : Bytes} (hs : Coerced s s) {dec : Dec} {p x : DV} (h : dec s p = .ok x []) :
    okOf (decodeFromString dec (quote html s) p) = some x := by
  have := decodeFromString_eq (quote_jstring html s) dec [] p
  rw [List.append_nil, unq_quote hs, h] at this
  rw [this]
  rfl

theorem quote_head2 {html : Bool} {c : UInt8} {t : Bytes} : ∃ a u, quote html (c :: t) = 0x22 :: a :: u ∧ a ≠ 0x22 := by
  have e : quote html (c :: t) = 0x22 :: (encLoop html [] (c :: t) ++ [0x22]) := rfl
  have hm := encLoop_means html (c :: t)
  cases hl : encLoop html [] (c :: t) with
  | nil =>
    rw [hl] at hm
    have := StrMeans.nil.unique hm
    rw [runes] at this
    cases this
  | cons a u =>
    refine ⟨a, u ++ [0x22], by rw [e, hl]; rfl, ?_⟩
    rintro rfl
    have := hm.jchars
    rw [hl] at this
    cases this with
    | plain _ _ _ h => exact absurd rfl h

theorem decodeQuotedInt {html : Bool} {s : Bytes} {z : Int} (hs : IntLit s z) {l : Lib} {dec : Dec} {p x : DV} (h : dec s p = .ok x []) :
    okOf (decodeFromStringToInt l dec (quote html s) p) = some x := by
  obtain ⟨n, e⟩ := unquote_ok (quote_jstring html s) []
  rw [List.append_nil, unq_quote (jnumber_coerced (intLit_number hs))] at e
  obtain ⟨c, t, rfl, _⟩ := jnumber_head (intLit_number hs)
  obtain ⟨a, u, e2, ha⟩ := quote_head2 (html := html) (c := c) (t := t)
  unfold decodeFromStringToInt
  rw [e2] at e ⊢
  rw [hasNull_cons (by decide), if_neg (by simp), if_neg (by simp), if_neg (by simpa using ha), e]
  simp only [intLit_noZeroes hs, h]
  rfl

theorem number_null {s : Bytes} (h : JNumber s) : hasNullPrefix s = false := by
  simpa using hasNull_num h []

theorem number_parse {s : Bytes} (h : JNumber s) : parseNumber s = .ok s [] := by
  simpa using parseNumber_complete h NumStop.nil

theorem decodeString_quote {html : Bool} {s : Bytes} (hs : Coerced s s) (p : DV) : decodeString (quote html s) p = .ok (.string s) [] := by
  obtain ⟨n, e⟩ := unquote_ok (quote_jstring html s) []
  rw [List.append_nil, unq_quote hs] at e
  have hn : hasNullPrefix (quote html s) = false := hasNull_cons (by decide)
  unfold decodeString
  rw [hn, e]
  rfl

/-! ### what comes back -/

/-- Encoding `g` gives a document that decodes to `v`. -/
def Back (c : Cfg) (dc : DCfg) (dyn : Ty → Dec) (dynJ : Ty → JDec) (t : Ty) (v : DV) (g : GV) : Prop :=
  ∃ x, meaning c g = .doc x ∧ DocOk x ∧ decJ dc dyn dynJ t (jsonOf x) (zero t) = some (clip v) ∧ (isNilDV v = false → isNullJ (jsonOf x) = false)

theorem back_leaf {c : Cfg} {dc : DCfg} {dyn : Ty → Dec} {dynJ : Ty → JDec} {t : Ty} {v : DV} {g : GV} {r : Role} {s : Bytes} {j : Json}
    (h1 : meaning c g = .doc (.leaf r s)) (h2 : ScalarTok s) (h3 : scalarJson s = j) (h4 : decJ dc dyn dynJ t j (zero t) = some (clip v))
    (h5 : isNilDV v = false → isNullJ j = false) : Back c dc dyn dynJ t v g :=
  ⟨_, h1, h2, by rw [jsonOf, h3]; exact h4, by rw [jsonOf, h3]; exact h5⟩

theorem back_num {c : Cfg} {dc : DCfg} {dyn : Ty → Dec} {dynJ : Ty → JDec} {t : Ty} {v : DV} {g : GV} {r : Role} {s : Bytes}
    (h1 : meaning c g = .doc (.leaf r s)) (h2 : JNumber s) (h4 : decJ dc dyn dynJ t (.num s) (zero t) = some (clip v)) : Back c dc dyn dynJ t v g :=
  back_leaf h1 (.inr (.inr (.inr (.inl h2)))) (scalarJson_num h2) h4 fun _ => rfl

theorem back_str {c : Cfg} {dc : DCfg} {dyn : Ty → Dec} {dynJ : Ty → JDec} {t : Ty} {v : DV} {g : GV} {r : Role} {s : Bytes}
    (h1 : meaning c g = .doc (.leaf r s)) (h2 : JString s) (h4 : decJ dc dyn dynJ t (.str s) (zero t) = some (clip v)) : Back c dc dyn dynJ t v g :=
  back_leaf h1 (.inr (.inr (.inr (.inr h2)))) (scalarJson_str h2) h4 fun _ => rfl

theorem back_null {c : Cfg} {dc : DCfg} {dyn : Ty → Dec} {dynJ : Ty → JDec} {t : Ty} {v : DV} {g : GV} {r : Role}
    (h1 : meaning c g = .doc (.leaf r (bs! "null"))) (h4 : decJ dc dyn dynJ t .null (zero t) = some (clip v)) (h5 : isNilDV v = true) : Back c dc dyn dynJ t v g :=
  back_leaf h1 (.inl rfl) rfl h4 (by rw [h5]; intro h; cases h)

theorem back_quoted {c : Cfg} (hc : c.clrs = none) {dc : DCfg} {dyn : Ty → Dec} {dynJ : Ty → JDec} {t : Ty} {v : DV} {g : GV} {r : Role} {s : Bytes}
    (h1 : meaning c g = .doc (.leaf r s)) (h4 : decJ dc dyn dynJ t (.str (quote c.escapeHTML s)) (zero t) = some (clip v)) :
    Back c dc dyn dynJ t v (.quoted g) := by
  refine back_str (s := quote c.escapeHTML s) (r := .plain) ?_ (quote_jstring _ _) h4
  rw [meaning, h1, quoteMeaning]
  have : paint (styleOf c) r s = s := by
    have : (styleOf c).clrs = none := hc
    unfold paint
    rw [this]
  rw [this]

/-- Elements of slices and arrays. -/
theorem backs {c : Cfg} {dc : DCfg} {dyn : Ty → Dec} {dynJ : Ty → JDec} {t : Ty} : ∀ {vs : List DV} {gs : List GV}, All2 (Back c dc dyn dynJ t) vs gs →
    ∃ xs, seqElems (meanL c gs) = .ok xs ∧ DocOkL xs ∧ All2 (fun v j => decJ dc dyn dynJ t j (zero t) = some (clip v)) vs (jsonOfL xs)
  | [], [], _ => ⟨[], rfl, trivial, trivial⟩
  | v :: vs, g :: gs, h => by
    obtain ⟨x, h1, h2, h3, _⟩ := h.1
    obtain ⟨xs, h5, h6, h7⟩ := backs h.2
    refine ⟨x :: xs, ?_, ⟨h2, h6⟩, h3, h7⟩
    rw [meanL, h1, seqElems, h5]

theorem slice_back {f : JDec} {z : DV} : ∀ {vs : List DV} {js : List Json} (done : List DV), All2 (fun v j => f j z = some (clip v)) vs js →
    sliceJ f z done js [] = some (.slice (done ++ clipL vs) [])
  | [], [], done, _ => by simp [sliceJ, clipL]
  | v :: vs, j :: js, done, h => by
    simp only [sliceJ, List.headD_nil, List.tail_nil]
    rw [h.1]
    simp only []
    rw [slice_back _ h.2]
    simp [clipL]

theorem array_back {f : JDec} {z : DV} : ∀ {vs : List DV} {js : List Json} (done : List DV), All2 (fun v j => f j z = some (clip v)) vs js →
    arrayJ f z done vs.length js (List.replicate vs.length z) = some (.array (done ++ clipL vs))
  | [], [], done, _ => by simp [arrayJ, clipL]
  | v :: vs, j :: js, done, h => by
    simp only [arrayJ, List.length_cons, List.replicate_succ, List.headD_cons, List.tail_cons]
    rw [h.1]
    simp only []
    rw [array_back _ h.2]
    simp [clipL]

/-- A key comes back. -/
def KeyBack (c : Cfg) (k : KTy) (a : MK) (b : MKey) : Prop := ∃ r t, keyMeaning c b = .ok r t ∧ JString t ∧ keyJ k t = some a

theorem key_back {c : Cfg} (hc : c.clrs = none) {k : KTy} {a : MK} {b : MKey} (h : SeenKey (fun s => Coerced s s) k a b) : KeyBack c k a b := by
  have hp : ∀ s, paint (styleOf c) .number s = s := by
    intro s
    have : (styleOf c).clrs = none := hc
    unfold paint
    rw [this]
  cases k with
  | str =>
    cases a with
    | int | user => exact h.elim
    | str s =>
      obtain ⟨hs, rfl⟩ := h
      refine ⟨_, _, rfl, quote_jstring _ _, ?_⟩
      rw [keyJ_str (quote_jstring _ _), unq_quote hs]
  | int i =>
    cases a with
    | str | user => exact h.elim
    | int z =>
      obtain ⟨hf, rfl⟩ := h
      refine ⟨.plain, quote c.escapeHTML (intText i z), ?_, quote_jstring _ _, ?_⟩
      · unfold intText
        split <;> rw [keyMeaning, hp]
      · have hn : hasNullPrefix (quote c.escapeHTML (intText i z)) = false := by
          obtain ⟨t, e⟩ := jstring_head (quote_jstring c.escapeHTML (intText i z)); rw [e]; exact hasNull_cons (by decide)
        rw [keyJ, hn, decodeKey, decodeQuoted (jnumber_coerced intText_number) (decodeInt_text hf _)]
        rfl
  | text tk =>
    cases a with
    | str | int => exact h.elim
    | user s =>
      obtain ⟨t, _, ht, ha, rfl, rfl⟩ := h
      refine ⟨_, _, rfl, quote_jstring _ _, ?_⟩
      have hq := quote_jstring c.escapeHTML t
      have e0 := decodeKey_text_str tk hq []
      rw [List.append_nil, unq_quote ht, ha] at e0
      have hn : hasNullPrefix (quote c.escapeHTML t) = false := by
        obtain ⟨t, e⟩ := jstring_head hq; rw [e]; exact hasNull_cons (by decide)
      simp only [keyJ, hn, e0, okOf, Option.map_some, keyOf, Bool.false_eq_true, if_false]

theorem seenKey_absent {S : Bytes → Prop} {k : KTy} {a : MK} {b : MKey} (h : SeenKey S k a b) : b.uncallable = false := by
  cases k <;> cases a <;> simp only [SeenKey] at h
  · rw [h.2]; rfl
  · rw [h.2]; split <;> rfl
  · obtain ⟨t, _, _, _, _, rfl⟩ := h; rfl

/-- An entry comes back. -/
def EntryBack (c : Cfg) (k : KTy) (f : JDec) (z : DV) (e : MK × DV) (m : MKey × Meaning) : Prop :=
  KeyBack c k e.1 m.1 ∧ ∃ x, m.2 = .doc x ∧ DocOk x ∧ f (jsonOf x) z = some (clip e.2)

theorem entries_back {c : Cfg} {k : KTy} {f : JDec} {z : DV} : ∀ {es : List (MK × DV)} {l : List (MKey × Meaning)}, All2 (EntryBack c k f z) es l →
    ∃ ms, seqMembers (l.map fun e => (keyMeaning c e.1, e.2)) = .ok ms ∧ DocOkM ms ∧ ∀ m, mapJ k f z (jsonOfM ms) m = some (entered (clipE es) m)
  | [], [], _ => ⟨[], rfl, trivial, fun m => by simp [jsonOfM, mapJ, entered, clipE]⟩
  | (a, v) :: es, (b, mm) :: l, h => by
    obtain ⟨⟨⟨r, t, h1, h2, h3⟩, x, h4, h5, h6⟩, h⟩ := h
    simp only at h1 h4
    obtain ⟨ms, h7, h8, h9⟩ := entries_back h
    refine ⟨(r, t, x) :: ms, ?_, ⟨h2, h5, h8⟩, fun m => ?_⟩
    · rw [List.map_cons, h1, h4, seqMembers, h7]
    · simp only [jsonOfM, mapJ, h3, h6, clipE]
      rw [h9]
      rfl

theorem map_back {c : Cfg} (hc : c.clrs = none) {dc : DCfg} {dyn : Ty → Dec} {dynJ : Ty → JDec} {k : KTy} {t : Ty} {es : List (MK × DV)} {gs ps : List (MKey × GV)}
    (hs : SortedM es) (hp : gs.Perm ps) (h : All2 (fun e p => SeenKey (fun s => Coerced s s) k e.1 p.1 ∧ Back c dc dyn dynJ t e.2 p.2) es ps) :
    Back c dc dyn dynJ (.map k t) (.map es) (.map gs) := by
  have habs : gs.any (fun e => e.1.uncallable) = false := by
    have : ∀ {es : List (MK × DV)} {ps : List (MKey × GV)}, All2 (fun e p => SeenKey (fun s => Coerced s s) k e.1 p.1 ∧ Back c dc dyn dynJ t e.2 p.2) es ps →
        ∀ p ∈ ps, p.1.uncallable = false := by
      intro es ps h p hp
      induction ps generalizing es with
      | nil => cases hp
      | cons q ps ih =>
        cases es with
        | nil => exact h.elim
        | cons e es =>
          rcases List.mem_cons.1 hp with rfl | hp
          · exact seenKey_absent h.1.1
          · exact ih h.2 hp
    rw [List.any_eq_false]
    intro e he
    simpa using this h e (hp.mem_iff.1 he)
  obtain ⟨l, hl, hmean⟩ : ∃ l : List (MKey × Meaning), l.Perm (meanE c gs) ∧
      meaning c (.map gs) = (seqMembers (l.map fun e => (keyMeaning c e.1, e.2))).toObj := by
    rw [meaning, habs]
    by_cases hsort : c.sortMapKeys = true
    · exact ⟨_, sortBy_perm (fun e => e.1.sortText) _, by rw [if_neg (by simp)]; simp only [hsort, if_true]⟩
    · exact ⟨_, List.Perm.refl _, by rw [if_neg (by simp)]; simp only [hsort, if_false, Bool.false_eq_true]⟩
  rw [meanE_map] at hl
  have h1 : All2 (EntryBack c k (decJ dc dyn dynJ t) (zero t)) es (ps.map fun e => (e.1, meaning c e.2)) := by
    refine All2.map_right (All2.mono ?_ h)
    rintro e p ⟨h1, x, h2, h3, h4, _⟩
    exact ⟨key_back hc h1, x, h2, h3, h4⟩
  obtain ⟨es', hpe, h2⟩ := All2.perm (hl.trans (hp.map _)).symm h1
  obtain ⟨ms, h3, h4, h5⟩ := entries_back h2
  refine ⟨.obj ms, by rw [hmean, h3]; rfl, h4, ?_, fun _ => rfl⟩
  simp only [decJ, jsonOf, mapTyJ, zero]
  rw [h5, clip, clipE_map, clipE_map, entered_perm _ (hpe.map _)]
  · rfl
  · unfold SortedM
    rw [List.pairwise_map]
    exact hs

/-- The fields of a struct come back. -/
def BackF (c : Cfg) (dc : DCfg) (dyn : Ty → Dec) (dynJ : Ty → JDec) : List (Bytes × Ty) → List DV → List (FMeta × GV) → Prop
  | [], [], [] => True
  | (n, t) :: fs, v :: vs, (m, g) :: gs => m.name = n ∧ (m.omitempty = true → isEmpty g = true → clip v = zero t) ∧
    Back c dc dyn dynJ t v g ∧ BackF c dc dyn dynJ fs vs gs
  | _, _, _ => False

theorem pick_here {dc : DCfg} {pre post : List Bytes} {n : Bytes} (h : (pre ++ n :: post).Pairwise (· ≠ ·)) :
    pickField dc (pre ++ n :: post) n = some pre.length := by
  have : lastIdx (fun m => m == n) (pre ++ n :: post) = some pre.length := by
    rw [lastIdx_some]
    refine ⟨⟨n, by simp, by simp⟩, ?_⟩
    intro j x hj hx
    rw [List.getElem?_append_right (by omega)] at hx
    rw [List.pairwise_append, List.pairwise_cons] at h
    cases hd : j - pre.length with
    | zero => omega
    | succ i =>
      rw [hd, List.getElem?_cons_succ] at hx
      have := h.2.1.1 x (List.mem_of_getElem? hx)
      simp [this.symm]
  rw [pickField, this]

theorem fields_back {c : Cfg} {dc : DCfg} {dyn : Ty → Dec} {dynJ : Ty → JDec} : ∀ (fs : List (Bytes × Ty)) (vs : List DV) (gs : List (FMeta × GV))
    (pre : List Bytes) (ds : List JDec) (cs : List DV) (any : Bool), (pre ++ fs.map (·.1)).Pairwise (· ≠ ·) → (∀ f ∈ fs, Coerced f.1 f.1) →
    ds.length = pre.length → cs.length = pre.length → BackF c dc dyn dynJ fs vs gs →
    ∃ ms, seqFields c.escapeHTML any (meanF c gs) = .ok ms ∧ DocOkM ms ∧
      structJ dc (pre ++ fs.map (·.1)) (ds ++ decJF dc dyn dynJ fs) (jsonOfM ms) (cs ++ zeroF fs) = some (cs ++ clipL vs)
  | [], [], [], pre, ds, cs, any, _, _, _, _, _ => ⟨[], rfl, trivial, by simp [jsonOfM, structJ, zeroF, clipL]⟩
  | (n, t) :: fs, v :: vs, (m, g) :: gs, pre, ds, cs, any, hn, hu, hd, hcs, h => by
    obtain ⟨rfl, ho, ⟨x, hx, hxo, hdec, _⟩, h⟩ := h
    have e1 : pre ++ ((m.name, t) :: fs).map (·.1) = (pre ++ [m.name]) ++ fs.map (·.1) := by simp
    have e2 : ds ++ decJF dc dyn dynJ ((m.name, t) :: fs) = (ds ++ [decJ dc dyn dynJ t]) ++ decJF dc dyn dynJ fs := by simp [decJF]
    have ih := fun any => fields_back fs vs gs (pre ++ [m.name]) (ds ++ [decJ dc dyn dynJ t]) (cs ++ [clip v]) any (by rw [← e1]; exact hn)
      (fun f hf => hu f (List.mem_cons_of_mem _ hf)) (by simp [hd]) (by simp [hcs]) h
    by_cases hom : m.omitempty = true ∧ isEmpty g = true
    · obtain ⟨ms, h1, h2, h3⟩ := ih any
      refine ⟨ms, by rw [meanF, seqFields.eq_def]; simp only []; rw [if_pos hom]; exact h1, h2, ?_⟩
      rw [e1, e2, zeroF, ← ho hom.1 hom.2, clipL]
      simpa using h3
    · obtain ⟨ms, h1, h2, h3⟩ := ih true
      refine ⟨(.key, quote c.escapeHTML m.name, x) :: ms, ?_, ⟨quote_jstring _ _, hxo, h2⟩, ?_⟩
      · rw [meanF, seqFields.eq_def]
        simp only []
        rw [if_neg hom, hx]
        simp only [h1]
      · have hg : (ds ++ decJF dc dyn dynJ ((m.name, t) :: fs))[pre.length]? = some (decJ dc dyn dynJ t) := by
          rw [← hd]; simp [decJF]
        have hcell : (cs ++ zeroF ((m.name, t) :: fs)).getD pre.length (.user none) = zero t := by
          rw [← hcs]; simp [zeroF]
        have hset : (cs ++ zeroF ((m.name, t) :: fs)).set pre.length (clip v) = (cs ++ [clip v]) ++ zeroF fs := by
          rw [← hcs]; simp [zeroF]
        simp only [jsonOfM, structJ]
        rw [unq_quote (hu _ List.mem_cons_self)]
        have hpk : pickField dc (pre ++ ((m.name, t) :: fs).map (·.1)) m.name = some pre.length := pick_here hn
        simp only [hpk, hg, hcell, hdec, hset]
        rw [e1, e2, h3, clipL]
        simp
  | [], _ :: _, _, _, _, _, _, _, _, _, _, h | [], [], _ :: _, _, _, _, _, _, _, _, _, h
  | _ :: _, [], _, _, _, _, _, _, _, _, _, h | _ :: _, _ :: _, [], _, _, _, _, _, _, _, _, h => h.elim

theorem seenInt_empty {i : IntKind} {z : Int} (h : KindFits i z) : isEmpty (seenInt i z) = (z == 0) := by
  have key : 0 ≤ z → (z.toNat == 0) = (z == 0) := by
    intro h0
    rw [Bool.eq_iff_iff, beq_iff_eq, beq_iff_eq]; omega
  cases i <;> simp only [KindFits, FitsSigned, FitsUnsigned] at h <;>
    simp only [seenInt, IntKind.signed, if_true, if_false, Bool.false_eq_true, isEmpty]
  all_goals exact key h.1

theorem length_beq {α : Type} [BEq α] [LawfulBEq α] (s : List α) : (s.length == 0) = (s == []) := by
  cases s <;> simp

theorem All2.length {α β : Type} {R : α → β → Prop} : ∀ {as : List α} {bs : List β}, All2 R as bs → as.length = bs.length
  | [], [], _ => rfl
  | _ :: _, _ :: _, h => by rw [List.length_cons, List.length_cons, All2.length h.2]

theorem mapSI_empty {c : DCfg} {es : List (MK × DV)} {gs : List (Bytes × GV)} (h : SameTree c (.mapSI gs) (.iface .mapSI (.map es))) :
    (gs.length == 0) = (es.length == 0) := by
  simp only [SameTree] at h
  obtain ⟨es', e, _, hh, _, hk, hm⟩ := h
  injection e with _ e
  injection e with e
  subst e
  cases gs with
  | nil =>
    cases es with
    | nil => rfl
    | cons a es =>
      obtain ⟨k, hk⟩ := hk a List.mem_cons_self
      have := (hm k a.2).1 (by rw [← hk]; exact List.mem_cons_self)
      simp [SameEntry] at this
  | cons a gs =>
    obtain ⟨k, g⟩ := a
    simp only [HaveTrees] at hh
    obtain ⟨⟨w, hw⟩, _⟩ := hh
    have := (hm _ w).2 (by simp only [SameEntry]; exact .inl ⟨coerced_iff.2 rfl, hw⟩)
    cases es with
    | nil => cases this
    | cons => rfl

/-- Trees are nil or an interface with a value. -/
theorem tree_iface {c : DCfg} {g : GV} {v : DV} (h : SameTree c g v) : clip v = v ∧ (v = .ifaceNil ∨ ∃ t w, v = .iface t w) := by
  suffices h : v = .ifaceNil ∨ ∃ t w, v = .iface t w by
    refine ⟨?_, h⟩
    rcases h with rfl | ⟨t, w, rfl⟩ <;> rfl
  obtain ⟨x, _, _, hd⟩ := tree_shows {} c g v h
  generalize jsonOf x = j at hd
  cases j <;> simp only [Denotes] at hd
  · exact .inl hd
  · exact .inr ⟨_, _, hd⟩
  · exact .inr ⟨_, _, hd⟩
  · split at hd
    · exact .inr ⟨_, _, hd⟩
    · obtain ⟨_, _, hd⟩ := hd; exact .inr ⟨_, _, hd⟩
  · obtain ⟨_, _, hd⟩ := hd; exact .inr ⟨_, _, hd⟩
  · obtain ⟨_, _, hd⟩ := hd; exact .inr ⟨_, _, hd⟩
  · obtain ⟨_, hd, _⟩ := hd; exact .inr ⟨_, _, hd⟩

theorem mapSI_clip {c : DCfg} {es : List (MK × DV)} {gs : List (Bytes × GV)} (h : SameTree c (.mapSI gs) (.iface .mapSI (.map es))) : clipE es = es := by
  simp only [SameTree] at h
  obtain ⟨es', e, _, _, _, hk, hm⟩ := h
  injection e with _ e
  injection e with e
  subst e
  rw [clipE_map]
  refine (List.map_congr_left ?_).trans (List.map_id _)
  rintro ⟨k, w⟩ he
  obtain ⟨k, rfl⟩ := hk _ he
  obtain ⟨a, _, _, ha⟩ := sameEntry_iff.1 ((hm k w).1 he)
  rw [(tree_iface ha).1]
  rfl

theorem mapJ_iface (c : DCfg) (dynJ : Ty → JDec) : ∀ (ms : List (Bytes × Json)), (∀ kj ∈ ms, JString kj.1) → ∀ m,
    mapJ .str (ifaceJ c dynJ) .ifaceNil ms m = genM c ms m
  | [], _, m => by simp [mapJ, genM]
  | (raw, j) :: ms, hk, m => by
    simp only [mapJ, genM, keyJ_str (hk (raw, j) (by simp)), ifaceJ]
    cases genJ c j with
    | none => rfl
    | some v => exact mapJ_iface c dynJ ms (fun kj h => hk kj (by simp [h])) _

/-- The encoder's notion of an empty value is Go's. -/
theorem seen_empty {c : DCfg} {S : Bytes → Prop} {P : DV → Prop} (t : Ty) {v : DV} {g : GV} (h : Seen c S P t v g) : isEmpty g = isEmptyDV v := by
  cases t with
  | bool => obtain ⟨b, rfl, rfl⟩ := h; rfl
  | int i => obtain ⟨z, hf, rfl, rfl⟩ := h; exact seenInt_empty hf
  | float32 | float64 => obtain ⟨e, t, ok, _, rfl, rfl⟩ := h; rfl
  | number => obtain ⟨s, _, rfl, rfl⟩ := h; exact length_beq s
  | string => obtain ⟨s, _, rfl, rfl⟩ := h; exact length_beq s
  | bytes =>
    rcases h with ⟨rfl, rfl⟩ | ⟨s, sp, rfl, rfl⟩
    · rfl
    · exact length_beq s
  | duration => obtain ⟨z, _, rfl, rfl⟩ := h; rfl
  | time => obtain ⟨s, _, _, rfl, rfl⟩ := h; rfl
  | iface =>
    obtain ⟨h1, ⟨rfl, rfl⟩ | ⟨h2, g', rfl⟩⟩ := h
    · rfl
    · obtain ⟨_, h | ⟨t, w, rfl⟩⟩ := tree_iface h1
      · exact absurd h h2
      · rfl
  | slice t =>
    rcases h with ⟨rfl, rfl⟩ | ⟨xs, sp, gs, rfl, rfl, h⟩
    · rfl
    · simp only [isEmpty, isEmptyDV, All2.length h]
  | array n t =>
    obtain ⟨xs, gs, _, rfl, rfl, h⟩ := h
    simp only [isEmpty, isEmptyDV, All2.length h]
  | map k t =>
    rcases h with ⟨rfl, rfl⟩ | ⟨es, gs, ps, rfl, rfl, _, hp, h⟩
    · rfl
    · simp only [isEmpty, isEmptyDV, All2.length h, hp.length_eq]
  | mapSI =>
    rcases h with ⟨rfl, rfl⟩ | ⟨es, gs, rfl, rfl, h⟩
    · rfl
    · exact mapSI_empty h
  | ptr t =>
    rcases h with ⟨rfl, rfl⟩ | ⟨w, g', rfl, rfl, _⟩
    · rfl
    · rfl
  | struct fs => obtain ⟨xs, gs, rfl, rfl, _⟩ := h; rfl
  | quotedInt t =>
    cases t <;> simp only [Seen] at h
    obtain ⟨z, hf, rfl, rfl⟩ := h
    exact seenInt_empty hf
  | quoted t =>
    cases t <;> simp only [Seen] at h
    · obtain ⟨b, rfl, rfl⟩ := h; rfl
    · obtain ⟨e, t, ok, _, rfl, rfl⟩ := h; rfl
    · obtain ⟨e, t, ok, _, rfl, rfl⟩ := h; rfl
    · obtain ⟨s, _, rfl, rfl⟩ := h; exact length_beq s
    · obtain ⟨s, _, rfl, rfl⟩ := h; exact length_beq s
  | raw | ifaceM | mapRaw | jsonU | textU | unsupported => exact h.elim

/-- Pointers of values that come back lead to something that is not nil. -/
abbrev SeenOk (dc : DCfg) : Ty → DV → GV → Prop := Seen dc (fun s => Coerced s s) (fun w => isNilDV w = false)

mutual
theorem seen_back {c : Cfg} (hc : c.clrs = none) (dc : DCfg) (dyn : Ty → Dec) (dynJ : Ty → JDec) : ∀ (t : Ty) (v : DV) (g : GV), SeenOk dc t v g → Back c dc dyn dynJ t v g
  | .bool, v, g, h => by
    obtain ⟨b, rfl, rfl⟩ := h
    cases b
    · exact back_leaf (j := .fls) (by rw [meaning]; rfl) (.inr (.inr (.inl rfl))) rfl (by simp [decJ, orNull, clip]) fun _ => rfl
    · exact back_leaf (j := .tru) (by rw [meaning]; rfl) (.inr (.inl rfl)) rfl (by simp [decJ, orNull, clip]) fun _ => rfl
  | .int i, v, g, h => by
    obtain ⟨z, hf, rfl, rfl⟩ := h
    refine back_num (meaning_int c i z) intText_number ?_
    simp only [decJ, intJ, orNull, decodeInt_text hf, okOf, clip]
  | .float32, v, g, h | .float64, v, g, h => by
    obtain ⟨e, t, ok, hp, rfl, rfl⟩ := h
    refine back_num (s := floatText e t) (by rw [meaning, floatText]) (float_jnumber ok) ?_
    simp only [decJ, floatJ, orNull, hp, Option.map_some, clip]
  | .number, v, g, h => by
    obtain ⟨s, hs, rfl, rfl⟩ := h
    refine back_num (by rw [meaning]; exact numberMeaning_of hs) hs ?_
    simp only [decJ, orNull, clip]
  | .string, v, g, h => by
    obtain ⟨s, hs, rfl, rfl⟩ := h
    refine back_str (by rw [meaning]) (quote_jstring _ _) ?_
    simp only [decJ, orNull, unq_quote hs, clip]
  | .bytes, v, g, h => by
    rcases h with ⟨rfl, rfl⟩ | ⟨s, sp, rfl, rfl⟩
    · exact back_null (by rw [meaning]) (by simp only [decJ, bytesJ, clip]) rfl
    · refine back_str (by rw [meaning]) (b64_jstring s) ?_
      have h1 : unq (0x22 :: (b64Encode s ++ [0x22])) = b64Encode s := by
        have := strMeans_plain (s := b64Encode s) (by
          intro x hx
          have := encode_plain s x hx
          refine ⟨?_, this.2.2.1, this.2.2.2.1⟩
          obtain ⟨h1, h2, _⟩ := this
          simp only [UInt8.le_iff_toNat_le, UInt8.lt_iff_toNat_lt, isPrint, UInt8.reduceToNat, Bool.and_eq_true, decide_eq_true_eq] at *
          omega)
        rw [unq_means this.1, this.2]
      simp only [decJ, bytesJ, h1, decode_encode, Option.map_some, clip]
  | .duration, v, g, h => by
    obtain ⟨z, hf, rfl, rfl⟩ := h
    refine back_num (by rw [meaning]) (fmtInt_jnumber z) ?_
    simp only [decJ, orNull, decodeDuration_text hf, okOf, clip]
  | .time, v, g, h => by
    obtain ⟨s, ht, hp, rfl, rfl⟩ := h
    refine back_str (by rw [meaning]) (time_jstring ht) ?_
    simp only [decJ, orNull]
    rw [decodeTime_text hp (fun hq => (ht _ hq).2.2.1 rfl)]
    rfl
  | .iface, v, g, h => by
    obtain ⟨h1, h2⟩ := h
    obtain ⟨x, h3, h4, h5⟩ := tree_shows c dc g v h1
    have hok : JsonOk (jsonOf x) := by
      have hd := render_derives (st := ⟨none, none⟩) ⟨rfl, by intro _ _ h; cases h⟩ 0 _ h4
      exact derives_ok hd
    have hcl : clip v = v := (tree_iface h1).1
    refine ⟨x, h3, h4, ?_, ?_⟩
    · simp only [decJ, ifaceJ, zero]
      rw [hcl]
      exact (genJ_iff hok v).2 h5
    · intro hn
      cases hj : jsonOf x <;> try rfl
      rw [hj] at h5
      simp only [Denotes] at h5
      subst h5
      cases hn
  | .slice t, v, g, h => by
    rcases h with ⟨rfl, rfl⟩ | ⟨xs, sp, gs, rfl, rfl, h⟩
    · exact back_null (by rw [meaning]; rfl) (by simp only [decJ, sliceTyJ, clip]) rfl
    · obtain ⟨ds, h1, h2, h3⟩ := backs (All2.mono (seen_back hc dc dyn dynJ t) h)
      refine ⟨.arr ds, by rw [meaning, h1]; rfl, h2, ?_, fun _ => rfl⟩
      simp only [decJ, jsonOf, sliceTyJ, zero]
      rw [slice_back [] h3]
      simp [clip]
  | .array n t, v, g, h => by
    obtain ⟨xs, gs, rfl, rfl, rfl, h⟩ := h
    obtain ⟨ds, h1, h2, h3⟩ := backs (All2.mono (seen_back hc dc dyn dynJ t) h)
    refine ⟨.arr ds, by rw [meaning, h1]; rfl, h2, ?_, fun _ => rfl⟩
    simp only [decJ, jsonOf, arrayTyJ, zero]
    rw [if_neg]
    · rw [array_back [] h3]
      simp [clip]
    · rintro ⟨hne, e⟩
      have := All2.length h3
      rw [e] at this
      exact hne this
  | .map k t, v, g, h => by
    rcases h with ⟨rfl, rfl⟩ | ⟨es, gs, ps, rfl, rfl, hs, hp, h⟩
    · exact back_null (by rw [meaning]; rfl) (by simp only [decJ, mapTyJ, clip]) rfl
    · exact map_back hc hs hp (All2.mono (fun e p hh => ⟨hh.1, seen_back hc dc dyn dynJ t _ _ hh.2⟩) h)
  | .mapSI, v, g, h => by
    rcases h with ⟨rfl, rfl⟩ | ⟨es, gs, rfl, rfl, h⟩
    · exact back_null (by rw [meaning]; rfl) (by simp only [decJ, mapTyJ, clip]) rfl
    · obtain ⟨x, h3, h4, h5⟩ := tree_shows c dc _ _ h
      have hok : JsonOk (jsonOf x) := by
        have hd := render_derives (st := ⟨none, none⟩) ⟨rfl, by intro _ _ h; cases h⟩ 0 _ h4
        exact derives_ok hd
      have hg := (genJ_iff hok _).2 h5
      cases hj : jsonOf x <;> rw [hj] at hg hok <;> simp only [genJ] at hg
      case obj ms =>
        have hk : ∀ m ∈ ms, JString m.1 := by rw [JsonOk] at hok; exact fun m hm => (hok ⟨m, hm⟩ (List.mem_attach _ _)).1
        refine ⟨x, h3, h4, ?_, by rw [hj]; exact fun _ => rfl⟩
        rw [hj]
        simp only [decJ, mapTyJ, zero]
        rw [mapJ_iface _ _ _ hk, clip, mapSI_clip h]
        cases e : genM dc ms [] with
        | none => rw [e] at hg; cases hg
        | some es' =>
          rw [e] at hg
          injection hg with hg
          injection hg with _ hg
          rw [← hg]
          rfl
      case num s =>
        split at hg
        · cases hg
        · cases e : dc.lib.parseFloat false s with
          | none => rw [e] at hg; cases hg
          | some f => rw [e] at hg; injection hg with hg; injection hg with hg; cases hg
      case arr xs =>
        cases e : genE dc xs with
        | none => rw [e] at hg; cases hg
        | some vs => rw [e] at hg; injection hg with hg; injection hg with hg; cases hg
      all_goals cases hg
  | .ptr t, v, g, h => by
    rcases h with ⟨rfl, rfl⟩ | ⟨w, g', rfl, rfl, hw, h⟩
    · exact back_null (by rw [meaning]; rfl) (by simp only [decJ, ptrJ, isNullJ, zero, clip, if_true]) rfl
    · obtain ⟨x, h1, h2, h3, h4⟩ := seen_back hc dc dyn dynJ t w g' h
      refine ⟨x, by rw [meaning]; exact h1, h2, ?_, fun _ => h4 hw⟩
      simp only [decJ, ptrJ, h4 hw, Bool.false_eq_true, if_false, zero, h3, Option.map_some, clip]
  | .struct fs, v, g, h => by
    obtain ⟨xs, gs, rfl, rfl, hn, hu, h⟩ := h
    obtain ⟨ms, h1, h2, h3⟩ := fields_back fs xs gs [] [] [] false (by simpa using hn) hu rfl rfl (seenF_back hc dc dyn dynJ fs xs gs h)
    simp only [List.nil_append] at h3
    have : ∃ x, (MeaningL.ok ms).toStruct (!gs.isEmpty) = .doc x ∧ DocOk x ∧ jsonOf x = .obj (jsonOfM ms) := by
      cases ms with
      | nil => exact ⟨_, rfl, trivial, rfl⟩
      | cons m ms => exact ⟨_, rfl, h2, rfl⟩
    obtain ⟨x, e1, e2, e3⟩ := this
    refine ⟨x, by rw [meaning, h1]; exact e1, e2, ?_, by rw [e3]; exact fun _ => rfl⟩
    rw [e3]
    simp only [decJ, structTyJ, zero, h3, Option.map_some, clip]
  | .quotedInt t, v, g, h => by
    cases t <;> simp only [SeenOk, Seen] at h
    case int i =>
      obtain ⟨z, hf, rfl, rfl⟩ := h
      refine back_quoted hc (meaning_int c i z) ?_
      simp only [decJ, quotedJ, clip, dec]
      exact decodeQuotedInt (kindLit_lit (intText_lit hf)) (decodeInt_text hf _)
  | .quoted t, v, g, h => by
    cases t <;> simp only [SeenOk, Seen] at h
    case bool =>
      obtain ⟨b, rfl, rfl⟩ := h
      refine back_quoted hc (by rw [meaning]) ?_
      simp only [decJ, quotedJ, clip, dec]
      cases b
      · exact decodeQuoted (ascii_coerced (by decide)) rfl
      · exact decodeQuoted (ascii_coerced (by decide)) rfl
    case number =>
      obtain ⟨s, hs, rfl, rfl⟩ := h
      refine back_quoted hc (by rw [meaning]; exact numberMeaning_of hs) ?_
      simp only [decJ, quotedJ, clip, dec]
      refine decodeQuoted (jnumber_coerced hs) ?_
      simp only [decodeNumber, number_null hs, number_parse hs, Bool.false_eq_true, if_false]
    case string =>
      obtain ⟨s, hs, rfl, rfl⟩ := h
      refine back_quoted hc (by rw [meaning]) ?_
      simp only [decJ, quotedJ, clip, dec]
      exact decodeQuoted (quote_coerced _ _) (decodeString_quote hs _)
    case float32 | float64 =>
      all_goals
        obtain ⟨e, t, ok, hp, rfl, rfl⟩ := h
        refine back_quoted hc (s := floatText e t) (by rw [meaning, floatText]) ?_
        simp only [decJ, quotedJ, clip, dec]
        have hs : JNumber (floatText e t) := float_jnumber ok
        refine decodeQuoted (jnumber_coerced hs) ?_
        simp only [decodeFloat, number_null hs, number_parse hs, hp, Bool.false_eq_true, if_false]
  | .raw, _, _, h | .ifaceM _, _, _, h | .mapRaw, _, _, h | .jsonU _, _, _, h | .textU _, _, _, h | .unsupported, _, _, h => h.elim
theorem seenF_back {c : Cfg} (hc : c.clrs = none) (dc : DCfg) (dyn : Ty → Dec) (dynJ : Ty → JDec) : ∀ (fs : List (Bytes × Ty)) (vs : List DV) (gs : List (FMeta × GV)),
    SeenF dc (fun s => Coerced s s) (fun w => isNilDV w = false) fs vs gs → BackF c dc dyn dynJ fs vs gs
  | [], vs, gs, h => by
    obtain ⟨rfl, rfl⟩ := h
    trivial
  | (n, t) :: fs, vs, gs, h => by
    obtain ⟨v, vs, m, g, gs, rfl, rfl, rfl, ho, h1, h2⟩ := h
    refine ⟨rfl, ?_, seen_back hc dc dyn dynJ t v g h1, seenF_back hc dc dyn dynJ fs vs gs h2⟩
    rw [seen_empty t h1]
    exact ho
end

end JC
