import Verif.Spec.Says
import Verif.Lemmas.Tree
import Verif.Props.Maps
import Verif.Props.Bytes
/-! The document that the encoder writes says what the value holds (C78). -/
namespace JC
open Spec Props

/-! ### Texts of integers -/

theorem natVal_concat (ds : Bytes) (d : UInt8) : natVal (ds ++ [d]) = 10 * natVal ds + (d.toNat - 48) := by
  simp [natVal, List.foldl_append]

theorem jint_val : ∀ (n : Nat) (i : Bytes), i.length = n → JInt i → fmtNat (natVal i) = i := by
  intro n
  induction n with
  | zero =>
    intro i hl h
    cases i with
    | nil => exact absurd rfl h.digits.1
    | cons => simp at hl
  | succ n ih =>
    intro i hl h
    rcases List.eq_nil_or_concat i with rfl | ⟨a, d, rfl⟩
    · simp at hl
    rw [List.concat_eq_append] at *
    have hd : Digit d := h.digits.2 d (by simp)
    have hdn := hd
    simp only [Digit, UInt8.le_iff_toNat_le, UInt8.reduceToNat] at hdn
    have hb : UInt8.ofNat (0x30 + (d.toNat - 48)) = d := by
      have : 0x30 + (d.toNat - 48) = d.toNat := by omega
      rw [this]; simp
    have hl' : a.length = n := by simpa using hl
    rw [natVal_concat]
    cases a with
    | nil =>
      have e : (10 * natVal [] + (d.toNat - 48)) = d.toNat - 48 := by simp [natVal]
      rw [e, fmtNat, if_pos (by omega), hb]; rfl
    | cons x t =>
      have ha : JInt (x :: t) := by
        rw [List.cons_append] at h
        generalize hq : x :: (t ++ [d]) = q at h
        cases h with
        | zero => exact absurd hq (by simp)
        | pos e es h1 h2 h3 =>
          injection hq with q1 q2
          subst q1 q2
          exact .pos _ _ h1 h2 (fun c hc => h3 c (by simp [hc]))
      have hpos : 1 ≤ natVal (x :: t) := by
        have := ih (x :: t) hl' ha
        cases hz : natVal (x :: t) with
        | succ => omega
        | zero =>
          rw [hz] at this
          have e0 : fmtNat 0 = [0x30] := by decide +kernel
          rw [e0] at this
          injection this with e1 e2
          subst e1 e2
          cases h with
          | pos _ _ h1 _ _ => exact absurd h1 (by decide)
      rw [fmtNat, if_neg (by omega)]
      have q1 : (10 * natVal (x :: t) + (d.toNat - 48)) / 10 = natVal (x :: t) := by omega
      have q2 : (10 * natVal (x :: t) + (d.toNat - 48)) % 10 = d.toNat - 48 := by omega
      rw [q1, q2, hb, ih (x :: t) hl' ha]

theorem decimal_iff {t : Bytes} {z : Int} : DecimalInt t z ↔ t = fmtInt z := by
  constructor
  · rintro ⟨h, hne⟩
    cases h with
    | nonneg i hi =>
      have : ¬ ((natVal t : Int) < 0) := by omega
      rw [fmtInt, if_neg this, Int.natAbs_natCast, jint_val _ _ rfl hi]
    | neg i hi =>
      by_cases h0 : natVal i = 0
      · have := jint_val _ _ rfl hi
        rw [h0] at this
        have e0 : fmtNat 0 = [0x30] := by decide +kernel
        rw [e0] at this
        subst this
        exact absurd rfl hne
      · rw [fmtInt, if_pos (by omega), Int.natAbs_neg, Int.natAbs_natCast, jint_val _ _ rfl hi]
  · rintro rfl
    refine ⟨fmtInt_lit z, ?_⟩
    rw [fmtInt]
    split
    · intro e
      injection e with _ e
      have := (fmtNat_val z.natAbs).1
      rw [e] at this
      simp [natVal] at this
      omega
    · intro e
      have h := fmtNat_jint z.natAbs
      rw [e] at h
      cases h with
      | pos _ _ h1 _ _ => exact absurd h1 (by decide)

theorem keyText_iff {k : MKey} (hk : CleanKey k) {s : Bytes} (h : MKeyText k s) : s = k.sortText := by
  cases h with
  | str => rfl
  | int z t h => exact decimal_iff.1 h
  | uint n t h =>
    have := decimal_iff.1 h
    rw [this]
    simp [MKey.sortText, fmtInt]
  | text => rfl

theorem fmtNat_decimal (n : Nat) : DecimalInt (fmtNat n) n := by
  rw [decimal_iff]; simp [fmtInt]

/-! ### Strings -/

theorem spells_quote (html : Bool) (s : Bytes) : Spells (quote html s) s :=
  ⟨utf8s (runes s), coerced_iff.2 rfl, (keyMeans_quote _ _ _).2 (coerced_iff.2 rfl)⟩

theorem keyMeans_plain {s : Bytes} (h : PlainAscii s) : KeyMeans (0x22 :: (s ++ [0x22])) s :=
  ⟨s, _, rfl, (strMeans_plain h).1, (strMeans_plain h).2.symm⟩

theorem copyStr_means {html : Bool} {r : Bytes} (h : JString r) : ∃ k, KeyMeans r k ∧ KeyMeans (copyStr html r) k := by
  obtain ⟨s, hs⟩ := h
  obtain ⟨rs, hm⟩ := strMeans_total hs
  refine ⟨utf8s rs, ⟨s, rs, rfl, hm, rfl⟩, ?_⟩
  cases html with
  | false => exact ⟨s, rs, rfl, hm, rfl⟩
  | true =>
    obtain ⟨s', e, h'⟩ := C52_meaning hm []
    refine ⟨s', rs, ?_, h', rfl⟩
    rw [copyStr, if_pos rfl, e]; rfl

mutual
theorem alike_docS (html : Bool) : ∀ (j : Json) (k : Bool), JsonOk j → Alike j (jsonOf (docS html k j))
  | .null, _, _ | .tru, _, _ | .fls, _, _ => by simp [docS, jsonOf, scalarJson, Alike]
  | .num s, _, h => by
    rw [JsonOk] at h
    rw [docS, jsonOf, scalarJson_num h, Alike]
  | .str r, _, h => by
    rw [JsonOk] at h
    obtain ⟨k, h1, h2⟩ := copyStr_means (html := html) h
    rw [docS, jsonOf, scalarJson_str (copyStr_jstring h), Alike]
    exact ⟨_, k, rfl, h1, h2⟩
  | .arr xs, k, h => by
    rw [docS, jsonOf, Alike]
    exact ⟨_, rfl, alike_docSL html xs k (jsonOk_elems h)⟩
  | .obj ms, _, h => by
    rw [docS, jsonOf, Alike]
    exact ⟨_, rfl, alike_docSM html ms (jsonOk_members h)⟩
theorem alike_docSL (html : Bool) : ∀ (xs : List Json) (k : Bool), (∀ x ∈ xs, JsonOk x) → AlikeL xs (jsonOfL (docSL html k xs))
  | [], _, _ => by simp [docSL, jsonOfL, AlikeL]
  | x :: xs, k, h => by
    rw [docSL, jsonOfL, AlikeL]
    exact ⟨_, _, rfl, alike_docS html x k (h x (by simp)), alike_docSL html xs _ fun y hy => h y (by simp [hy])⟩
theorem alike_docSM (html : Bool) : ∀ (ms : List (Bytes × Json)), (∀ m ∈ ms, JString m.1 ∧ JsonOk m.2) →
    AlikeM ms (jsonOfM (docSM html ms))
  | [], _ => by simp [docSM, jsonOfM, AlikeM]
  | (r, x) :: ms, h => by
    have hx := h (r, x) (by simp)
    obtain ⟨k, h1, h2⟩ := copyStr_means (html := html) hx.1
    rw [docSM, jsonOfM, AlikeM]
    exact ⟨_, _, _, k, rfl, h1, h2, alike_docS html x false hx.2, alike_docSM html ms fun y hy => h y (by simp [hy])⟩
end

/-! ### Raw messages -/

theorem says_raw {c : Cfg} {b : Bool} : ∀ {s : Option Bytes}, CleanRaw c s → TidyRaw c s → ∀ {x : Doc}, rawMeaning c s = .doc x →
    Says b (rawGV s) (jsonOf x)
  | none, _, _, x, h => by
    simp only [rawMeaning, nullDoc, Meaning.doc.injEq] at h
    subst h
    simp only [rawGV, jsonOf, scalarJson]
    exact .rawNil
  | some s, hc, ht, x, h => by
    simp only [rawMeaning] at h
    split at h
    · split at h
      · rename_i hj
        cases h
        exact .raw s _ _ hj.choose_spec (alike_docS _ _ _ (jtext_ok hj.choose_spec))
      · cases h
    · rename_i htr
      split at h
      · cases h
      · rename_i v r hp
        split at h
        · rename_i hj
          cases h
          obtain ⟨e, j0, hj0⟩ := parseValue_sound hp
          rcases ht (by simpa using htr) with ⟨⟨j, w1, v', w2, e', h1, h2, hd⟩, hw⟩ | hno
          · have : w1 = [] := by
              cases w1 with
              | nil => rfl
              | cons x t => exact absurd (h1 x (by simp)) (hw x _ (by rw [e']; rfl))
            subst this
            have hp' : parseValue s = .ok v' w2 := by
              rw [e']
              apply parseValue_complete hd
              apply follow_of_numStop
              exact numStop_ws h2
            rw [hp] at hp'
            injection hp' with e1 e2
            subst e1 e2
            obtain ⟨a, v0, z, e3, h3, h4, h5⟩ := hj.choose_spec
            refine .raw s hj.choose _ ⟨a, v0, z ++ r, ?_, h3, ws_append h4 h2, h5⟩ (alike_docS _ _ _ (jtext_ok hj.choose_spec))
            rw [e]
            conv => lhs; rw [e3]
            simp
          · exact absurd ⟨v, r, e, j0, [], v, [], by simp, ws_nil, ws_nil, hj0⟩ hno
        · cases h

theorem raw_doc {c : Cfg} {b : Bool} : ∀ {s : Option Bytes}, TidyRaw c s → ∀ {j : Json}, Says b (rawGV s) j →
    IsDoc (rawMeaning c s)
  | none, _, _, _ => ⟨_, rfl⟩
  | some s, ht, j, h => by
    cases h with
    | raw _ j' _ hj _ =>
      by_cases htr : c.trustRaw = true
      · simp only [rawMeaning, if_pos htr]
        rw [dif_pos ⟨j', hj⟩]
        exact ⟨_, rfl⟩
      · rcases ht (by simpa using htr) with h | h
        · exact strictRaw_doc c (some s) h
        · exact absurd ⟨s, [], by simp, j', hj⟩ h

/-! ### Maps -/

/-- The members written for entries. -/
noncomputable def memberMeanings (c : Cfg) (l : List (MKey × GV)) : MeaningL (Role × Bytes × Doc) :=
  seqMembers (l.map fun e => (keyMeaning c e.1, meaning c e.2))

theorem key_spells {c : Cfg} (hc : c.clrs = none) {k : MKey} (hk : CleanKey k) {r : Role} {t : Bytes} (h : keyMeaning c k = .ok r t) :
    ∃ s, MKeyText k s ∧ Spells t s := by
  have hp : ∀ r t, paint (styleOf c) r t = t := fun r t => by simp [paint, styleOf, hc]
  rcases k with s | z | n | r
  · cases h; exact ⟨s, .str s, spells_quote _ _⟩
  · simp only [keyMeaning, hp, KeyMeaning.ok.injEq] at h
    obtain ⟨_, rfl⟩ := h
    exact ⟨_, .int z _ (decimal_iff.2 rfl), spells_quote _ _⟩
  · simp only [keyMeaning, hp, KeyMeaning.ok.injEq] at h
    obtain ⟨_, rfl⟩ := h
    exact ⟨_, .uint n _ (fmtNat_decimal n), spells_quote _ _⟩
  · cases r with
    | isNil => exact absurd hk id
    | err => cases h
    | absent => cases h
    | ok s => cases h; exact ⟨s, .text s, spells_quote _ _⟩

theorem saysE_of {c : Cfg} (hc : c.clrs = none) {b : Bool} : ∀ {l : List (MKey × GV)}, (∀ e ∈ l, CleanKey e.1) →
    (∀ e ∈ l, ∀ x, meaning c e.2 = .doc x → Says b e.2 (jsonOf x)) → ∀ {xs}, memberMeanings c l = .ok xs → SaysE b l (jsonOfM xs)
  | [], _, _, xs, h => by cases h; exact .nil
  | (k, v) :: l, hk, hv, xs, h => by
    have ih := @saysE_of c hc b l (fun e he => hk e (by simp [he])) (fun e he => hv e (by simp [he]))
    have h0 := hk (k, v) (by simp)
    have h1 := hv (k, v) (by simp)
    simp only [memberMeanings, List.map_cons] at h ih
    simp only at h1
    generalize hkm : keyMeaning c k = km at h
    generalize meaning c v = mv at *
    cases km with
    | err e => cases h
    | wild => cases h
    | ok r t =>
      cases mv with
      | err e => cases h
      | wild => cases h
      | doc x =>
        simp only [seqMembers] at h
        split at h <;> cases h
        rename_i ys hy
        obtain ⟨s, hs, hsp⟩ := key_spells hc h0 hkm
        exact .cons k v l s t (jsonOf x) _ hs hsp (h1 x rfl) (ih hy)

theorem saysE_mem {b : Bool} : ∀ {l : List (MKey × GV)} {ms}, SaysE b l ms → ∀ e ∈ l, (∃ s, MKeyText e.1 s) ∧ ∃ j, Says b e.2 j
  | _, _, .nil, e, he => by cases he
  | _, _, .cons k v es s raw j ms hk _ hv hr, e, he => by
    rcases List.mem_cons.1 he with rfl | he
    · exact ⟨⟨s, hk⟩, j, hv⟩
    · exact saysE_mem hr e he

theorem members_docs {c : Cfg} {l : List (MKey × GV)} (h : ∀ e ∈ l, (∃ s, MKeyText e.1 s) ∧ IsDoc (meaning c e.2)) :
    ∃ xs, memberMeanings c l = .ok xs := by
  refine seqMembers_docs ?_
  intro m hm
  obtain ⟨e, he, rfl⟩ := List.mem_map.1 hm
  obtain ⟨⟨s, hs⟩, hx⟩ := h e he
  refine ⟨?_, hx⟩
  generalize e.1 = k at hs
  cases hs <;> exact ⟨_, _, rfl⟩

theorem map_callable {c : Cfg} {es : List (MKey × GV)} (h : ∀ e ∈ es, CleanKey e.1) :
    ¬ (c.sortMapKeys = true ∧ es.length ≥ 2 ∧ es.any (fun e => e.1.uncallable) = true) := by
  simp only [List.any_eq_true, not_exists, not_and]
  intro _ _ e he hk
  have := h e he
  revert this hk
  cases e.1 with
  | text r => cases r <;> simp [MKey.uncallable, CleanKey]
  | _ => simp [MKey.uncallable]

theorem ascending_sorted {l : List (MKey × GV)} (hk : ∀ e ∈ l, CleanKey e.1) (h : SortedBy (fun e : MKey × GV => e.1.sortText) l) :
    Ascending l := by
  refine List.Pairwise.imp_of_mem ?_ h
  intro a b ha hb hab s t hs ht
  rw [keyText_iff (hk a ha) hs, keyText_iff (hk b hb) ht]
  exact hab

/-- The entries in the order written. -/
def order (c : Cfg) (l : List (MKey × GV)) : List (MKey × GV) := if c.sortMapKeys then sortBy (fun e => e.1.sortText) l else l

theorem order_perm (c : Cfg) (l : List (MKey × GV)) : (order c l).Perm l := by
  unfold order; split
  · exact sortBy_perm _ _
  · exact .refl _

theorem order_ascending (c : Cfg) {l : List (MKey × GV)} (hk : ∀ e ∈ l, CleanKey e.1) (hs : c.sortMapKeys = true) : Ascending (order c l) := by
  refine ascending_sorted (fun e he => hk e ((order_perm c l).mem_iff.1 he)) ?_
  rw [order, if_pos hs]
  exact sortBy_sorted _ _

theorem meaning_map {c : Cfg} {es : List (MKey × GV)} (h : ∀ e ∈ es, CleanKey e.1) :
    meaning c (.map es) = (memberMeanings c (order c es)).toObj := by
  rw [meaning, if_neg (map_callable h)]
  simp only [order, memberMeanings, meanE_map]
  split
  · rw [sortBy_map, List.map_map]; rfl
  · rw [List.map_map]; rfl

theorem meaning_mapSI {c : Cfg} {es : List (Bytes × GV)} :
    meaning c (.mapSI es) = (memberMeanings c (order c (es.map fun e => (.str e.1, e.2)))).toObj := by
  rw [meaning]
  simp only [order, memberMeanings, meanS_map]
  split
  · rw [sortBy_map, sortBy_map, List.map_map, List.map_map]; rfl
  · rw [List.map_map, List.map_map]; rfl

theorem meaning_rawGV (c : Cfg) (s : Option Bytes) : meaning c (rawGV s) = rawMeaning c s := by cases s <;> rw [rawGV, meaning]

theorem meaning_mapRaw {c : Cfg} {es : List (Bytes × Option Bytes)} {x : Doc} :
    meaning c (.mapRaw es) = .doc x ↔ (memberMeanings c (order c (es.map fun e => (.str e.1, rawGV e.2)))).toObj = .doc x := by
  rw [meaning]
  simp only [order, memberMeanings]
  split
  · rw [sortBy_map, List.map_map]
    simp only [Function.comp_def, meaning_rawGV]; rfl
  · rw [List.map_map]
    simp only [Function.comp_def, meaning_rawGV]
    show (match seqMembers (es.map fun e => (KeyMeaning.ok .key (quote c.escapeHTML e.1), rawMeaning c e.2)) with
      | .ok xs => Meaning.doc (.obj xs)
      | _ => .wild) = .doc x ↔ (seqMembers (es.map fun e => (KeyMeaning.ok .key (quote c.escapeHTML e.1), rawMeaning c e.2))).toObj = .doc x
    generalize seqMembers _ = q
    cases q with
    | ok xs => rfl
    | err e => simp only [MeaningL.toObj, innerErr]; split <;> simp
    | wild => simp [MeaningL.toObj]

theorem toObj_doc {m : MeaningL (Role × Bytes × Doc)} {x : Doc} (h : m.toObj = .doc x) : ∃ xs, m = .ok xs ∧ x = .obj xs := by
  cases m with
  | ok xs => cases h; exact ⟨xs, rfl, rfl⟩
  | err e => simp only [MeaningL.toObj, innerErr] at h; split at h <;> cases h
  | wild => cases h

theorem toArr_doc {m : MeaningL Doc} {x : Doc} (h : m.toArr = .doc x) : ∃ xs, m = .ok xs ∧ x = .arr xs := by
  cases m with
  | ok xs => cases h; exact ⟨xs, rfl, rfl⟩
  | err e => simp only [MeaningL.toArr, innerErr] at h; split at h <;> cases h
  | wild => cases h

theorem toStruct_doc {nl : Bool} {m : MeaningL (Role × Bytes × Doc)} {x : Doc} (h : m.toStruct nl = .doc x) :
    ∃ xs, m = .ok xs ∧ jsonOf x = .obj (jsonOfM xs) := by
  cases m with
  | ok xs => cases xs <;> (cases h; exact ⟨_, rfl, rfl⟩)
  | err e => simp only [MeaningL.toStruct, innerErr] at h; split at h <;> cases h
  | wild => cases h

theorem map_says {c : Cfg} (hc : c.clrs = none) {es : List (MKey × GV)} (hk : ∀ e ∈ es, CleanKey e.1)
    (ih : ∀ e ∈ es, ∀ x, meaning c e.2 = .doc x → Says c.sortMapKeys e.2 (jsonOf x)) {x : Doc}
    (h : (memberMeanings c (order c es)).toObj = .doc x) :
    ∃ ms, jsonOf x = .obj ms ∧ (c.sortMapKeys = true → Ascending (order c es)) ∧ SaysE c.sortMapKeys (order c es) ms := by
  obtain ⟨xs, h1, rfl⟩ := toObj_doc h
  exact ⟨_, rfl, fun hs => order_ascending c hk hs,
    saysE_of hc (fun e he => hk e ((order_perm c es).mem_iff.1 he)) (fun e he => ih e ((order_perm c es).mem_iff.1 he)) h1⟩

theorem map_doc {c : Cfg} {b : Bool} {es es' : List (MKey × GV)} {ms} (hp : es'.Perm es) (hs : SaysE b es' ms)
    (ih : ∀ e ∈ es, ∀ j, Says b e.2 j → IsDoc (meaning c e.2)) : ∃ x, (memberMeanings c (order c es)).toObj = .doc x := by
  obtain ⟨xs, h⟩ := members_docs (c := c) (l := order c es) (by
    intro e he
    have he' := (order_perm c es).mem_iff.1 he
    obtain ⟨h1, j, hj⟩ := saysE_mem hs e (hp.mem_iff.2 he')
    exact ⟨h1, ih e he' j hj⟩)
  exact ⟨_, by rw [h]; rfl⟩

/-! ### Values -/

theorem float_same {expo : Bool} {t : Bytes} (ok : FloatFmt expo t) : SameFloat expo t (if expo then cleanExp t else t) := by
  obtain ⟨out, h1, h2, h3, h4⟩ := C50_float expo t ok {} rfl [] 0
  have he := C21_rendering_partial (c := {}) (v := .float (.fin expo t ok)) (x := .leaf .number (if expo then cleanExp t else t)) rfl [] 0
  rw [h1] at he
  simp only [List.nil_append, render, paint, styleOf, Out.done.injEq] at he
  obtain ⟨rfl, _⟩ := he
  refine ⟨h2, ?_⟩
  cases expo with
  | true => exact h4 rfl
  | false => exact h3 rfl

theorem b64_plain (s : Bytes) : PlainAscii (b64Encode s) := by
  intro x hx
  have := encode_plain s x hx
  refine ⟨?_, this.2.2.1, this.2.2.2.1⟩
  obtain ⟨h1, h2, _⟩ := this
  simp only [UInt8.le_iff_toNat_le, UInt8.lt_iff_toNat_lt, isPrint, UInt8.reduceToNat, Bool.and_eq_true, decide_eq_true_eq] at *
  omega

theorem time_plain {s : Bytes} (h : TimeText s) : PlainAscii s := by
  intro x hx
  have := h x hx
  refine ⟨?_, this.2.2⟩
  obtain ⟨h1, h2, _⟩ := this
  simp only [UInt8.le_iff_toNat_le, UInt8.lt_iff_toNat_lt, isPrint, UInt8.reduceToNat, Bool.and_eq_true, decide_eq_true_eq] at *
  omega

theorem strict_clean {c : Cfg} {s : Option Bytes} (h : StrictRaw s) : CleanRaw c s := by
  cases s with
  | none => trivial
  | some s => intro _; exact h.1

theorem clrs_paint {c : Cfg} (hc : c.clrs = none) (r : Role) (t : Bytes) : paint (styleOf c) r t = t := by
  simp [paint, styleOf, hc]

mutual
theorem value_says {c : Cfg} (hc : c.clrs = none) : ∀ (v : GV), Clean c v → Tidy c v → ∀ {x : Doc}, meaning c v = .doc x →
    Says c.sortMapKeys v (jsonOf x)
  | .nil, _, _, x, h => by simp only [meaning, nullDoc, Meaning.doc.injEq] at h; subst h; exact .nil
  | .bool b, _, _, x, h => by
    simp only [meaning, Meaning.doc.injEq] at h; subst h
    cases b
    · exact .no
    · exact .yes
  | .int z, _, _, x, h => by
    simp only [meaning, Meaning.doc.injEq] at h; subst h
    rw [jsonOf, scalarJson_num (fmtInt_jnumber z)]
    exact .int z _ (decimal_iff.2 rfl)
  | .uint n, _, _, x, h => by
    simp only [meaning, Meaning.doc.injEq] at h; subst h
    rw [jsonOf, scalarJson_num (fmtNat_jnumber n)]
    exact .uint n _ (fmtNat_decimal n)
  | .float .nan, _, _, x, h => by simp only [meaning] at h; cases h
  | .float .inf, _, _, x, h => by simp only [meaning] at h; cases h
  | .float (.fin expo t ok), _, _, x, h => by
    simp only [meaning, Meaning.doc.injEq] at h; subst h
    have hs := float_same ok
    rw [jsonOf, scalarJson_num hs.1]
    exact .float expo t ok _ hs
  | .number s, _, _, x, h => by
    simp only [meaning] at h
    unfold numberMeaning at h
    by_cases hs : s = []
    · subst hs
      rw [if_pos rfl] at h
      have h0 : JNumber [0x30] := .mk [] [0x30] [] [] (.inl rfl) .zero .none .none
      rw [if_pos h0] at h
      cases h
      rw [jsonOf, scalarJson_num h0]
      exact .noNumber
    · rw [if_neg hs] at h
      by_cases hj : JNumber s
      · simp only [if_pos hj, Meaning.doc.injEq] at h
        subst h
        rw [jsonOf, scalarJson_num hj]
        exact .number s hj
      · simp only [if_neg hj] at h
        split at h <;> cases h
  | .string s, _, _, x, h => by
    simp only [meaning, Meaning.doc.injEq] at h; subst h
    rw [jsonOf, scalarJson_quote]
    exact .string s _ (spells_quote _ _)
  | .bytesNil, _, _, x, h => by simp only [meaning, Meaning.doc.injEq] at h; subst h; exact .bytesNil
  | .bytes s, _, _, x, h => by
    simp only [meaning, Meaning.doc.injEq] at h; subst h
    rw [jsonOf, scalarJson_str (b64_jstring s), encode_eq_base64]
    refine .bytes s _ (keyMeans_plain ?_)
    rw [← encode_eq_base64]
    exact b64_plain s
  | .time s ok, _, _, x, h => by
    simp only [meaning, Meaning.doc.injEq] at h; subst h
    rw [jsonOf, scalarJson_str (time_jstring ok)]
    exact .time s ok _ (keyMeans_plain (time_plain ok))
  | .sliceNil, _, _, x, h => by simp only [meaning, nullDoc, Meaning.doc.injEq] at h; subst h; exact .sliceNil
  | .mapNil, _, _, x, h => by simp only [meaning, nullDoc, Meaning.doc.injEq] at h; subst h; exact .mapNil
  | .ptrNil, _, _, x, h => by simp only [meaning, nullDoc, Meaning.doc.injEq] at h; subst h; exact .ptrNil
  | .slice xs, h1, h2, x, h => by
    simp only [meaning] at h
    obtain ⟨ds, e, rfl⟩ := toArr_doc h
    exact .slice xs _ (values_say hc xs h1 h2 e)
  | .array xs, h1, h2, x, h => by
    simp only [meaning] at h
    obtain ⟨ds, e, rfl⟩ := toArr_doc h
    exact .array xs _ (values_say hc xs h1 h2 e)
  | .map es, h1, h2, x, h => by
    have hk := (fun e he => (entries_say hc es h1 h2 e he).1 : ∀ e ∈ es, CleanKey e.1)
    rw [meaning_map hk] at h
    obtain ⟨ms, e, ha, hs⟩ := map_says hc hk (fun e he x hx => (entries_say hc es h1 h2 e he).2 hx) h
    rw [e]
    exact .map es _ ms (order_perm c es) ha hs
  | .mapSI es, h1, h2, x, h => by
    rw [meaning_mapSI] at h
    obtain ⟨ms, e, ha, hs⟩ := map_says hc (es := es.map fun e => (.str e.1, e.2))
      (by intro e he; obtain ⟨a, _, rfl⟩ := List.mem_map.1 he; exact trivial)
      (by intro e he x hx; obtain ⟨a, ha, rfl⟩ := List.mem_map.1 he; exact members_say hc es h1 h2 a ha hx) h
    rw [e]
    exact .mapSI es _ ms (order_perm c _) ha hs
  | .mapRaw es, h1, h2, x, h => by
    rw [meaning_mapRaw] at h
    obtain ⟨ms, e, ha, hs⟩ := map_says hc (es := es.map fun e => (.str e.1, rawGV e.2))
      (by intro e he; obtain ⟨a, _, rfl⟩ := List.mem_map.1 he; exact trivial)
      (by
        intro e he x hx
        obtain ⟨a, ha, rfl⟩ := List.mem_map.1 he
        simp only [meaning_rawGV] at hx
        refine says_raw ?_ (h2 a ha) hx
        simp only [Clean] at h1
        split at h1
        · exact h1 a ha
        · exact strict_clean (h1 a ha)) h
    rw [e]
    exact .mapRaw es _ ms (order_perm c _) ha hs
  | .struct fs, h1, h2, x, h => by
    simp only [meaning] at h
    obtain ⟨xs, e, he⟩ := toStruct_doc h
    rw [he]
    exact .struct fs _ (fields_say hc false fs h1 h2 e)
  | .ptr v, h1, h2, x, h => by simp only [meaning] at h; exact .ptr v _ (value_says hc v h1 h2 h)
  | .iface v _, h1, h2, x, h => by simp only [meaning] at h; exact .iface v _ _ (value_says hc v h1 h2 h)
  | .emb v _, h1, h2, x, h => by simp only [meaning] at h; exact .emb v _ _ (value_says hc v h1 h2 h)
  | .rawNil, _, _, x, h => by simp only [meaning] at h; exact says_raw (s := none) trivial trivial h
  | .raw s, h1, h2, x, h => by simp only [meaning] at h; exact says_raw (s := some s) h1 h2 h
  | .jsonM .isNil _, _, _, x, h => by simp only [meaning, nullDoc, Meaning.doc.injEq] at h; subst h; exact .jsonNil _
  | .jsonM (.err e) _, _, _, x, h => by simp only [meaning] at h; cases h
  | .jsonM (.ok s) _, h1, h2, x, h => by simp only [meaning] at h; exact .jsonM s _ _ (says_raw h1 h2 h)
  | .textM .isNil _, _, _, x, h => by
    simp only [meaning, textMeaning, nullDoc, Meaning.doc.injEq] at h; subst h; exact .textNil _
  | .textM (.err e) _, _, _, x, h => by simp only [meaning, textMeaning] at h; cases h
  | .textM .absent _, _, _, x, h => by simp only [meaning, textMeaning] at h; cases h
  | .textM (.ok s) _, _, _, x, h => by
    simp only [meaning, textMeaning, Meaning.doc.injEq] at h; subst h
    rw [jsonOf, scalarJson_quote]
    exact .textM s _ _ (spells_quote _ _)
  | .quoted v, h1, h2, x, h => by
    simp only [meaning] at h
    rcases stringable_meaning c v h1.1 h1.2 with ⟨r, t, e⟩ | ⟨e, he, _⟩
    · have ih := value_says hc v h1.2 h2 e
      rw [e] at h
      simp only [quoteMeaning, clrs_paint hc, Meaning.doc.injEq] at h
      subst h
      rw [jsonOf, scalarJson_quote]
      refine .quoted v _ _ ih ?_
      rw [jsonOf, compact_scalarJson]
      exact spells_quote _ _
    · rw [he] at h; cases h
  | .embNil _, h1, _, _, _ => absurd h1 (by simp [Clean])
  | .unsupported, _, _, x, h => by simp only [meaning] at h; cases h
theorem values_say {c : Cfg} (hc : c.clrs = none) : ∀ (xs : List GV), CleanL c xs → TidyL c xs → ∀ {ds}, seqElems (meanL c xs) = .ok ds →
    SaysL c.sortMapKeys xs (jsonOfL ds)
  | [], _, _, ds, h => by cases h; exact .nil
  | v :: vs, h1, h2, ds, h => by
    have ih := @values_say c hc vs h1.2 h2.2
    have hv := @value_says c hc v h1.1 h2.1
    simp only [meanL] at h
    generalize meaning c v = mv at *
    cases mv with
    | err e => cases h
    | wild => cases h
    | doc x =>
      simp only [seqElems] at h
      split at h <;> cases h
      rename_i ys hy
      exact .cons v vs _ _ (hv rfl) (ih hy)
theorem entries_say {c : Cfg} (hc : c.clrs = none) : ∀ (es : List (MKey × GV)), CleanE c es → TidyE c es → ∀ e ∈ es, CleanKey e.1 ∧
    ∀ {x}, meaning c e.2 = .doc x → Says c.sortMapKeys e.2 (jsonOf x)
  | [], _, _, e, he => by cases he
  | (k, v) :: es, h1, h2, e, he => by
    rcases List.mem_cons.1 he with rfl | he
    · exact ⟨h1.1, value_says hc v h1.2.1 h2.1⟩
    · exact entries_say hc es h1.2.2 h2.2 e he
theorem members_say {c : Cfg} (hc : c.clrs = none) : ∀ (es : List (Bytes × GV)), CleanS c es → TidyS c es → ∀ e ∈ es,
    ∀ {x}, meaning c e.2 = .doc x → Says c.sortMapKeys e.2 (jsonOf x)
  | [], _, _, e, he => by cases he
  | (k, v) :: es, h1, h2, e, he => by
    rcases List.mem_cons.1 he with rfl | he
    · exact value_says hc v h1.1 h2.1
    · exact members_say hc es h1.2 h2.2 e he
theorem fields_say {c : Cfg} (hc : c.clrs = none) (any : Bool) : ∀ (fs : List (FMeta × GV)), CleanF c any fs → TidyF c fs →
    ∀ {xs}, seqFields c.escapeHTML any (meanF c fs) = .ok xs → SaysF c.sortMapKeys fs (jsonOfM xs)
  | [], _, _, xs, h => by cases h; exact .nil
  | (m, v) :: fs, h1, h2, xs, h => by
    simp only [CleanF] at h1
    simp only [TidyF] at h2
    simp only [meanF, seqFields] at h
    by_cases ho : m.omitempty = true ∧ isEmpty v = true
    · rw [if_pos ho] at h h1
      have ih := fields_say hc any fs h1 h2.2.2 h
      rcases h2.1 ho.1 with hm | hr
      · exact .left m v fs _ ho.1 ((C41_empty_partial v hm).1 ho.2) ih
      · exact .behind m v fs _ hr ih
    · rw [if_neg ho] at h h1
      by_cases hr : isRollback v = true
      · rw [if_pos hr] at h1
        obtain ⟨ha, h1⟩ := h1
        rw [isRollback_meaning c v hr, ha] at h
        simp only [if_true, Bool.false_eq_true, if_false] at h
        rw [ha] at h1
        exact .behind m v fs _ hr (fields_say hc false fs h1 h2.2.2 h)
      · rw [if_neg hr] at h1
        have ih := @fields_say c hc true fs h1.2 h2.2.2
        have hv := @value_says c hc v h1.1 h2.2.1
        have hf := clean_fine c v h1.1
        generalize meaning c v = mv at *
        cases mv with
        | wild => cases h
        | err e =>
          simp only [] at h
          rw [if_neg hf] at h
          cases h
        | doc x =>
          simp only [] at h
          split at h <;> cases h
          rename_i ys hy
          refine .member m v fs _ _ _ ?_ (by simpa using hr) (spells_quote _ _) (hv rfl) (ih hy)
          rintro ⟨h3, h4⟩
          rcases h2.1 h3 with hm | hr'
          · exact ho ⟨h3, (C41_empty_partial v hm).2 h4⟩
          · exact hr hr'
end

/-! ### Whatever can be said is written -/

mutual
theorem value_doc {c : Cfg} {b : Bool} : ∀ (v : GV), Clean c v → Tidy c v → ∀ {j : Json}, Says b v j → IsDoc (meaning c v)
  | .nil, _, _, _, _ | .bool _, _, _, _, _ | .int _, _, _, _, _ | .uint _, _, _, _, _ | .string _, _, _, _, _ | .bytesNil, _, _, _, _
  | .bytes _, _, _, _, _ | .time _ _, _, _, _, _ | .sliceNil, _, _, _, _ | .mapNil, _, _, _, _ | .ptrNil, _, _, _, _
  | .rawNil, _, _, _, _ | .float (.fin _ _ _), _, _, _, _ | .jsonM .isNil _, _, _, _, _ | .textM .isNil _, _, _, _, _
  | .textM (.ok _) _, _, _, _, _ => by
    simp only [meaning, textMeaning, rawMeaning, nullDoc]; exact ⟨_, rfl⟩
  | .float .nan, _, _, _, h | .float .inf, _, _, _, h | .jsonM (.err _) _, _, _, _, h | .textM (.err _) _, _, _, _, h
  | .textM .absent _, _, _, _, h | .embNil _, _, _, _, h | .unsupported, _, _, _, h => by cases h
  | .number s, _, _, _, h => by
    simp only [meaning]
    unfold numberMeaning
    have h0 : JNumber [0x30] := .mk [] [0x30] [] [] (.inl rfl) .zero .none .none
    cases h with
    | noNumber => rw [if_pos rfl, if_pos h0]; exact ⟨_, rfl⟩
    | number _ hj =>
      split
      · rw [if_pos h0]; exact ⟨_, rfl⟩
      · rw [if_pos hj]; exact ⟨_, rfl⟩
  | .slice xs, h1, h2, _, h => by
    cases h with
    | slice _ js hs =>
      obtain ⟨ds, e⟩ := values_doc xs h1 h2 hs
      simp only [meaning, e]; exact ⟨_, rfl⟩
  | .array xs, h1, h2, _, h => by
    cases h with
    | array _ js hs =>
      obtain ⟨ds, e⟩ := values_doc xs h1 h2 hs
      simp only [meaning, e]; exact ⟨_, rfl⟩
  | .map es, h1, h2, _, h => by
    cases h with
    | map _ es' ms hp _ hs =>
      rw [meaning_map (fun e he => (entries_doc (b := b) es h1 h2 e he).1)]
      exact map_doc hp hs (fun e he j hj => (entries_doc es h1 h2 e he).2 hj)
  | .mapSI es, h1, h2, _, h => by
    cases h with
    | mapSI _ es' ms hp _ hs =>
      rw [meaning_mapSI]
      exact map_doc hp hs (by intro e he j hj; obtain ⟨a, ha, rfl⟩ := List.mem_map.1 he; exact members_doc es h1 h2 a ha hj)
  | .mapRaw es, _, h2, _, h => by
    cases h with
    | mapRaw _ es' ms hp _ hs =>
      obtain ⟨x, hx⟩ := map_doc (c := c) hp hs (by
        intro e he j hj
        obtain ⟨a, ha, rfl⟩ := List.mem_map.1 he
        simp only [meaning_rawGV]
        exact raw_doc (h2 a ha) hj)
      exact ⟨x, meaning_mapRaw.2 hx⟩
  | .struct fs, h1, h2, _, h => by
    cases h with
    | struct _ ms hs =>
      obtain ⟨xs, e⟩ := fields_doc false fs h1 h2 hs
      simp only [meaning, e]
      cases xs <;> exact ⟨_, rfl⟩
  | .ptr v, h1, h2, _, h => by cases h with | ptr _ _ hv => simp only [meaning]; exact value_doc v h1 h2 hv
  | .iface v _, h1, h2, _, h => by cases h with | iface _ _ _ hv => simp only [meaning]; exact value_doc v h1 h2 hv
  | .emb v _, h1, h2, _, h => by cases h with | emb _ _ _ hv => simp only [meaning]; exact value_doc v h1 h2 hv
  | .raw s, _, h2, _, h => by simp only [meaning]; exact raw_doc (s := some s) h2 h
  | .jsonM (.ok s) _, _, h2, _, h => by cases h with | jsonM _ _ _ hv => simp only [meaning]; exact raw_doc h2 hv
  | .quoted v, h1, h2, _, h => by
    cases h with
    | quoted _ j raw hv hs =>
      simp only [meaning]
      have ih := value_doc v h1.2 h2 hv
      rcases stringable_meaning c v h1.1 h1.2 with ⟨r, t, e⟩ | ⟨e, he, _⟩
      · rw [e]; exact ⟨_, rfl⟩
      · obtain ⟨x, hx⟩ := ih
        rw [hx] at he; cases he
theorem values_doc {c : Cfg} {b : Bool} : ∀ (xs : List GV), CleanL c xs → TidyL c xs → ∀ {js}, SaysL b xs js →
    ∃ ds, seqElems (meanL c xs) = .ok ds
  | [], _, _, _, _ => ⟨[], rfl⟩
  | v :: vs, h1, h2, _, h => by
    cases h with
    | cons _ _ j js hv hr =>
      obtain ⟨x, hx⟩ := value_doc v h1.1 h2.1 hv
      obtain ⟨ds, hd⟩ := values_doc vs h1.2 h2.2 hr
      exact ⟨x :: ds, by simp only [meanL, hx, seqElems, hd]⟩
theorem entries_doc {c : Cfg} {b : Bool} : ∀ (es : List (MKey × GV)), CleanE c es → TidyE c es → ∀ e ∈ es, CleanKey e.1 ∧
    ∀ {j}, Says b e.2 j → IsDoc (meaning c e.2)
  | [], _, _, e, he => by cases he
  | (k, v) :: es, h1, h2, e, he => by
    rcases List.mem_cons.1 he with rfl | he
    · exact ⟨h1.1, value_doc v h1.2.1 h2.1⟩
    · exact entries_doc es h1.2.2 h2.2 e he
theorem members_doc {c : Cfg} {b : Bool} : ∀ (es : List (Bytes × GV)), CleanS c es → TidyS c es → ∀ e ∈ es,
    ∀ {j}, Says b e.2 j → IsDoc (meaning c e.2)
  | [], _, _, e, he => by cases he
  | (k, v) :: es, h1, h2, e, he => by
    rcases List.mem_cons.1 he with rfl | he
    · exact value_doc v h1.1 h2.1
    · exact members_doc es h1.2 h2.2 e he
theorem fields_doc {c : Cfg} {b : Bool} (any : Bool) : ∀ (fs : List (FMeta × GV)), CleanF c any fs → TidyF c fs →
    ∀ {ms}, SaysF b fs ms → ∃ xs, seqFields c.escapeHTML any (meanF c fs) = .ok xs
  | [], _, _, _, _ => ⟨[], rfl⟩
  | (m, v) :: fs, h1, h2, _, h => by
    simp only [CleanF] at h1
    simp only [TidyF] at h2
    simp only [meanF, seqFields]
    by_cases ho : m.omitempty = true ∧ isEmpty v = true
    · rw [if_pos ho] at h1 ⊢
      cases h with
      | left _ _ _ _ _ _ hr => exact fields_doc any fs h1 h2.2.2 hr
      | behind _ _ _ _ _ hr => exact fields_doc any fs h1 h2.2.2 hr
      | member _ _ _ _ _ _ hn _ _ _ hr => exact fields_doc any fs h1 h2.2.2 hr
    · rw [if_neg ho] at h1 ⊢
      by_cases hr : isRollback v = true
      · rw [if_pos hr] at h1
        obtain ⟨ha, h1⟩ := h1
        rw [isRollback_meaning c v hr, ha]
        simp only [if_true, Bool.false_eq_true, if_false]
        rw [ha] at h1
        cases h with
        | left _ _ _ _ _ _ hr => exact fields_doc false fs h1 h2.2.2 hr
        | behind _ _ _ _ _ hr => exact fields_doc false fs h1 h2.2.2 hr
        | member _ _ _ _ _ _ _ _ _ _ hr => exact fields_doc false fs h1 h2.2.2 hr
      · rw [if_neg hr] at h1
        cases h with
        | left _ _ _ _ h3 h4 _ =>
          rcases h2.1 h3 with hm | hr'
          · exact absurd ⟨h3, (C41_empty_partial v hm).2 h4⟩ ho
          · exact absurd hr' hr
        | behind _ _ _ _ h3 _ => exact absurd h3 hr
        | member _ _ _ _ j _ _ _ _ hv hs =>
          obtain ⟨x, hx⟩ := value_doc v h1.1 h2.2.1 hv
          obtain ⟨xs, e⟩ := fields_doc true fs h1.2 h2.2.2 hs
          rw [hx]
          simp only [e]
          exact ⟨_, rfl⟩
end

end JC
