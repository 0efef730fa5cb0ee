import Verif.Lemmas.PathScalar
/-! Where the path of an error leads: all types. -/
namespace JC
open Spec Props

/-- the path leads to a value that its destination does not take -/
def Bad (c : DCfg) (Q : Ty → Prop) (t : Ty) (j : Json) (s : List Bytes) : Prop := ∃ u y, Leads c Q t j s u y ∧ ¬ Fits c u y

theorem bad_here {c : DCfg} {Q : Ty → Prop} {t : Ty} {j : Json} (h : ¬ Fits c t j) : Bad c Q t j [] := ⟨t, j, .here t j, h⟩

theorem noPath_bad {c : DCfg} (P : DV → Prop) (Q : Ty → Prop) {t : Ty} {d : Dec} (h : TypeErr d (Fits c t)) : PathErr P (noPath d) (Bad c Q t) := by
  intro j v hj r hf p _ x r' s e
  unfold noPath at e
  injection e with e es
  subst es
  exact bad_here (h j v hj r hf p x r' e)

theorem slice_bad {c : DCfg} {Q : Ty → Prop} {t : Ty} {j : Json} {s : List Bytes} (h : SlicePath (Bad c Q t) j s) : Bad c Q (.slice t) j s := by
  rcases h with ⟨rfl, h1, h2⟩ | ⟨xs, rfl, i, x, s', hx, rfl, u, y, hu, hy⟩
  · refine bad_here ?_
    rintro (rfl | ⟨xs, rfl⟩)
    · exact h1 rfl
    · exact h2 _ rfl
  · rw [Nat.zero_add]
    exact ⟨u, y, .slice _ _ _ i _ x _ _ hx (decimal_fmtNat i) hu, hy⟩

theorem array_bad {c : DCfg} {Q : Ty → Prop} {n : Nat} {t : Ty} {j : Json} {s : List Bytes} (h : ArrayPath n (Bad c Q t) j s) :
    Bad c Q (.array n t) j s := by
  rcases h with ⟨rfl, h1, h2⟩ | ⟨xs, rfl, i, x, s', hi, hx, rfl, u, y, hu, hy⟩
  · refine bad_here ?_
    rintro (rfl | ⟨xs, rfl⟩)
    · exact h1 rfl
    · exact h2 _ rfl
  · rw [Nat.zero_add]
    exact ⟨u, y, .array _ _ _ _ i _ x _ _ hi hx (decimal_fmtNat i) hu, hy⟩

theorem map_bad {c : DCfg} {Q : Ty → Prop} {k : KTy} {t : Ty} {j : Json} {s : List Bytes} (h : ObjPath (KeyText k) (Bad c Q t) j s) :
    Bad c Q (.map k t) j s := by
  rcases h with ⟨rfl, h1, h2⟩ | ⟨ms, rfl, raw, x, d, s', hx, hk, rfl, u, y, hu, hy⟩
  · refine bad_here ?_
    rintro (rfl | ⟨xs, rfl⟩)
    · exact h1 rfl
    · exact h2 _ rfl
  · exact ⟨u, y, .map _ _ _ _ raw d x _ _ hx hk hu, hy⟩

theorem mapSI_bad {c : DCfg} {Q : Ty → Prop} {j : Json} {s : List Bytes} (h : ObjPath (KeyText .str) (Bad c Q .iface) j s) : Bad c Q .mapSI j s := by
  rcases h with ⟨rfl, h1, h2⟩ | ⟨ms, rfl, raw, x, d, s', hx, hk, rfl, u, y, hu, hy⟩
  · refine bad_here ?_
    rintro (rfl | ⟨xs, rfl⟩)
    · exact h1 rfl
    · exact h2 _ rfl
  · exact ⟨u, y, .mapSI _ _ raw d x _ _ hx hk hu, hy⟩

theorem mapRaw_bad {c : DCfg} {Q : Ty → Prop} {j : Json} {s : List Bytes} (h : ObjPath (KeyText .str) (fun _ _ => False) j s) : Bad c Q .mapRaw j s := by
  rcases h with ⟨rfl, h1, h2⟩ | ⟨ms, rfl, raw, x, d, s', hx, hk, rfl, hu⟩
  · refine bad_here ?_
    rintro (rfl | ⟨xs, rfl⟩)
    · exact h1 rfl
    · exact h2 _ rfl
  · exact hu.elim

theorem pick_goes {c : DCfg} {fs : List (Bytes × Ty)} {k : Bytes} {i : Nat} (h : pickField c (fs.map (·.1)) k = some i) :
    ∃ nm t, fs[i]? = some (nm, t) ∧ Goes c fs k i := by
  obtain ⟨nm, hnm, hh⟩ := pick_hits h
  rw [List.getElem?_map] at hnm
  cases hi : fs[i]? with
  | none => simp [hi] at hnm
  | some e =>
    obtain ⟨nm', t⟩ := e
    simp [hi] at hnm
    subst hnm
    refine ⟨_, t, rfl, _, t, hi, hh, ?_⟩
    rintro ⟨u, hu⟩
    unfold pickField at h
    split at h
    · rename_i m hm
      injection h with h; subst h
      obtain ⟨⟨x, hx, hk⟩, _⟩ := lastIdx_some.1 hm
      rw [List.getElem?_map, hi] at hx
      simp at hx
      subst hx
      simpa using hk
    · rename_i hm
      exfalso
      have : ∀ {xs : List Bytes}, lastIdx (fun n => n == k) xs = none → k ∉ xs := by
        intro xs
        induction xs with
        | nil => simp
        | cons x xs ih =>
          intro h
          unfold lastIdx at h
          split at h
          · simp at h
          · rename_i h'
            split at h
            · simp at h
            · rename_i hx
              simp only [List.mem_cons, not_or]
              refine ⟨?_, ih h'⟩
              rintro rfl
              simp at hx
      exact this hm (List.mem_map.2 ⟨_, hu, rfl⟩)

theorem struct_bad {c : DCfg} {Q : Ty → Prop} {fs : List (Bytes × Ty)} {Ss : Nat → Json → List Bytes → Prop} {j : Json} {s : List Bytes}
    (hS : ∀ (i : Nat) nm t x s, fs[i]? = some (nm, t) → Ss i x s → Bad c Q t x s)
    (h : StructPath c (fs.map (·.1)) Ss j s) : Bad c Q (.struct fs) j s := by
  rcases h with ⟨rfl, h1, h2⟩ | ⟨ms, rfl, raw, x, d, s', i, hx, hk, hp, rfl, hs⟩
  · refine bad_here ?_
    rintro (rfl | ⟨xs, rfl⟩)
    · exact h1 rfl
    · exact h2 _ rfl
  · obtain ⟨nm, t, hi, hg⟩ := pick_goes hp
    obtain ⟨u, y, hu, hy⟩ := hS i nm t x s' hi hs
    exact ⟨u, y, .field fs i nm t _ ms raw d x _ _ hx hk hi hg hu, hy⟩

/-! ### byte slices -/

def bytesMem : DV → DV
  | .bytes s sp => .slice (s.map byteDV) (sp.map byteDV)
  | _ => .sliceNil

theorem bytes_path (c : DCfg) (P : DV → Prop) (Q : Ty → Prop) : PathErr P decodeBytesP (Bad c Q .bytes) := by
  intro j v hj r hf p _ x r' s h
  obtain ⟨ch, t, rfl, hc⟩ := derives_head hj
  have hnv := hasNull_value hj r
  unfold decodeBytesP at h
  split at h
  · rename_i hb
    have hb : ch = 0x5b := by simpa using hb
    subst hb
    injection h with h hs
    have hs : (decodeSliceP (noPath (decodeInt .uint8)) (.int 0) ((0x5b :: t) ++ r) (bytesMem p)).2 = s := by
      cases p <;> exact hs
    have hq : ∃ x2, decodeSlice (decodeInt .uint8) (.int 0) ((0x5b :: t) ++ r) (bytesMem p) = .err x2 r' .unmarshalType := by
      unfold decodeBytes at h
      split at h
      · simp at h
      · simp only [List.cons_append] at h ⊢
        rw [if_pos (c := (0x5b : UInt8) ≠ 0x22) (by decide), if_pos (c := True) trivial] at h
        have hlen : ¬ (0x5b :: (t ++ r)).length < 2 := by
          cases hj with
          | arrNil | arr => simp <;> omega
          | num s hs =>
            exfalso
            rcases hc with h | h
            · exact absurd h (by decide)
            · exact absurd h (by decide)
          | str s hs =>
            exfalso
            simp [headOk] at hc
        rw [if_neg hlen] at h
        obtain ⟨y, hy⟩ := map_errD h
        exact ⟨y, by cases p <;> exact hy⟩
    obtain ⟨x2, hq⟩ := hq
    have he := decodeSliceP_erases (noPath_erases (decodeInt .uint8)) (.int 0)
    have hp := slice_path (PS := fun _ => True) (noPath_erases (decodeInt .uint8)) (trailOk_ref fun _ _ => int_ref _)
      (noPath_bad (fun _ => True) Q (int_typeErr c .uint8)) (z := .int 0) trivial (by simp) j _ hj r hf _ trivial x2 r' s
      (Prod.ext ((he _ _).trans hq) hs)
    rcases hp with ⟨_, _, h2⟩ | ⟨xs, rfl, i, y, s', hx, rfl, u, w, hu, hy⟩
    · exfalso
      cases j <;> simp [headOk] at hc
      · exact absurd hc (by decide)
      · exact h2 _ rfl
    · rw [Nat.zero_add]
      exact ⟨u, w, .byte _ _ i _ y _ _ hx (decimal_fmtNat i) hu, hy⟩
  · rename_i hb
    have hb : ch ≠ 0x5b := by simpa using hb
    injection h with h hs
    subst hs
    refine bad_here ?_
    rintro (rfl | ⟨s, rfl⟩ | ⟨xs, rfl⟩)
    · unfold decodeBytes at h
      rw [hnv] at h
      simp [isNullJ] at h
    · simp only [headOk] at hc
      subst hc
      cases hj
      rename_i hs
      obtain ⟨n', hu⟩ := unquote_ok hs r
      unfold decodeBytes at h
      rw [hnv] at h
      simp only [isNullJ, Bool.false_eq_true, if_false, List.cons_append] at h
      rw [List.cons_append] at hu
      rw [if_neg (c := (0x22 : UInt8) ≠ 0x22) (by simp), hu] at h
      simp only [] at h
      split at h
      · rename_i hl
        cases hs
        simp at hl
        omega
      · split at h <;> simp at h
    · exact hb hc

/-! ### interfaces -/

theorem ifaceEnd_type {j : Json} {v : Bytes} (hj : Derives (.value j) v) {dec : Dec} {F : Json → Prop} (hd : TypeErr dec F) {t : Ty} {q x : DV}
    {r r' : Bytes} (h : ifaceEnd t r (dec v q) = .err x r' .unmarshalType) : ¬ F j := by
  cases hd' : dec v q with
  | crash => rw [hd'] at h; simp [ifaceEnd] at h
  | err y r2 e2 =>
    rw [hd'] at h
    simp only [ifaceEnd] at h
    injection h with _ _ h; subst h
    exact hd j v hj [] (follow_of_numStop NumStop.nil) q _ _ (by rw [List.append_nil]; exact hd')
  | ok y r2 =>
    rw [hd'] at h
    simp only [ifaceEnd] at h
    split at h <;> simp at h

theorem ifaceEndP_path {j : Json} {v : Bytes} (hj : Derives (.value j) v) {pd : PDec} {S : Json → List Bytes → Prop}
    (hd : PathErr (fun _ => True) pd S) {t : Ty} {q x : DV} {r r' : Bytes} {s : List Bytes}
    (h : ifaceEndP t r (pd v q) = (.err x r' .unmarshalType, s)) : S j s := by
  generalize hd' : pd v q = o at h
  obtain ⟨o, s'⟩ := o
  cases o with
  | crash => simp [ifaceEndP] at h
  | err y r2 e2 =>
    simp only [ifaceEndP] at h
    injection h with h hs; subst hs
    injection h with _ _ h; subst h
    exact hd j v hj [] (follow_of_numStop NumStop.nil) q trivial _ _ _ (by rw [List.append_nil]; exact hd')
  | ok y r2 =>
    simp only [ifaceEndP] at h
    split at h <;> simp at h

theorem ifaceValue_path (c : DCfg) (Q : Ty → Prop) : ∀ n, PathErr (fun _ => True) (ifaceValueP c n) (Bad c Q .iface) := by
  intro n
  induction n with
  | zero => intro j v hj r hf p _ x r' s h; simp [ifaceValueP] at h
  | succ n ih =>
    intro j v hj r hf p _ x r' s h
    rw [ifaceValueP] at h
    simp only [parseValue_complete hj hf] at h
    obtain ⟨ch, t, e1, hc⟩ := derives_head hj
    subst e1
    simp only [] at h
    split at h
    · rename_i hch
      have := ifaceEndP_path hj (map_path (fun _ => True) (ifaceValueP_erases c n) (ifaceValue_trailOk c n) ih trivial .str) h
      rcases this with ⟨_, _, h2⟩ | ⟨ms, rfl, raw, y, d, s', hx, hk, rfl, u, w, hu, hy⟩
      · exfalso
        subst hch
        cases j <;> simp [headOk] at hc
        · exact absurd hc (by decide)
        · exact h2 _ rfl
      · exact ⟨u, w, .member _ _ raw d y _ _ hx hk hu, hy⟩
    · rename_i h1
      split at h
      · rename_i hch
        have := ifaceEndP_path hj (slice_path (P := fun _ => True) (ifaceValueP_erases c n) (ifaceValue_trailOk c n) ih trivial (by simp)) h
        rcases this with ⟨_, _, h2⟩ | ⟨xs, rfl, i, y, s', hx, rfl, u, w, hu, hy⟩
        · exfalso
          subst hch
          cases j <;> simp [headOk] at hc
          · exact absurd hc (by decide)
          · exact h2 _ rfl
        · rw [Nat.zero_add]
          exact ⟨u, w, .elem _ _ i _ y _ _ hx (decimal_fmtNat i) hu, hy⟩
      · rename_i h2
        injection h with h hs
        subst hs
        refine bad_here ?_
        intro hF
        rw [ifaceValue] at h
        simp only [parseValue_complete hj hf] at h
        rw [if_neg h1, if_neg h2] at h
        split at h
        · rename_i h3
          refine ifaceEnd_type hj (string_typeErr c) h ?_
          subst h3
          cases j <;> simp [headOk] at hc
          · exact absurd hc (by decide)
          · exact .inr ⟨_, rfl⟩
        · split at h
          · rename_i hn
            subst hn
            have e2 := null_of_head hj hc
            rw [e2] at h
            have e3 : skipSpaces [] = [] := rfl
            simp [decodeNull, hasNullPrefix, e3] at h
          · split at h
            · rename_i h4
              refine ifaceEnd_type hj (bool_typeErr c) h ?_
              cases j <;> simp only [headOk] at hc
              · exact .inl rfl
              · exact .inr (.inl rfl)
              · exact .inr (.inr rfl)
              · exfalso
                have := digit_range hc
                rcases h4 with rfl | rfl <;> simp at this
              all_goals (subst hc; exact absurd h4 (by decide))
            · split at h
              · rename_i h5
                have hnum : ∃ s, j = .num s := by
                  rw [isDigit_iff] at h5
                  have hr := digit_range h5
                  cases j <;> simp only [headOk] at hc
                  case num s => exact ⟨s, rfl⟩
                  all_goals (subst hc; simp at hr)
                obtain ⟨sn, rfl⟩ := hnum
                split at h
                · exact ifaceEnd_type hj (number_typeErr c) h (.inr ⟨_, rfl⟩)
                · rename_i hun
                  refine ifaceEnd_type hj (float_typeErr _ _) h (.inr ⟨_, rfl, ?_⟩)
                  rcases hF sn rfl with h | h
                  · exact absurd h hun
                  · exact h
              · simp at h

theorem parseInto_path {P : DV → Prop} {pd : PDec} {S : Json → List Bytes → Prop} (h : PathErr P pd S) : PathErr P (parseIntoP pd) S := by
  intro j v hj r hf p hp x r' s e
  unfold parseIntoP at e
  rw [skip_value hj] at e
  split at e
  · simp at e
  · rename_i e2
    injection e with e es
    injection e with _ _ e; subst e es
    exact h j v hj r hf p hp _ _ _ e2
  · simp at e

theorem parseInvalid_type {j : Json} {v : Bytes} (hj : Derives (.value j) v) {r : Bytes} (hf : Follow j r) {p x : DV} {r' : Bytes} :
    parseInvalid (v ++ r) p ≠ .err x r' .unmarshalType := by
  unfold parseInvalid
  rw [skip_value hj, parseValue_complete hj hf]
  simp

theorem iface_path {Q : Ty → Prop} {m : Nat} {c : DCfg} {dynP : Ty → PDec}
    (hd : ∀ m', m = m' + 1 → ∀ t, Q t → PathErr (Held Q · m') (dynP t) (Bad c Q t)) :
    PathErr (Held Q · m) (decodeInterfaceP c dynP) (Bad c Q .iface) := by
  intro j v hj r hf p hp x r' s h
  unfold decodeInterfaceP at h
  split at h
  · split at h
    · split at h
      · simp at h
      · split at h
        · simp at h
        · rename_i e2
          injection h with h es
          injection h with _ _ h; subst h es
          cases m with
          | zero => simp [Held] at hp
          | succ m =>
            simp only [Held] at hp
            obtain ⟨u, y, hu, hy⟩ := parseInto_path (hd m rfl _ hp.1) j v hj r hf _ hp.2 _ _ _ e2
            exact ⟨u, y, .held _ _ _ _ _ hp.1 hu, hy⟩
        · simp at h
    · split at h
      · simp at h
      · injection h with h _
        exact absurd h (parseInvalid_type hj hf)
  · exact ifaceValue_path c Q _ j v hj r hf _ trivial _ _ _ h

theorem ifaceM_path {Q : Ty → Prop} {m : Nat} {c : DCfg} {dynP : Ty → PDec}
    (hd : ∀ m', m = m' + 1 → ∀ t, Q t → PathErr (Held Q · m') (dynP t) (Bad c Q t)) (em : Bool) :
    PathErr (Held Q · m) (decodeIfaceMP c dynP em) (Bad c Q (.ifaceM em)) := by
  intro j v hj r hf p hp x r' s h
  have hnv := hasNull_value hj r
  unfold decodeIfaceMP at h
  split at h
  · simp at h
  · rename_i hnn
    have hne : ¬ Fits c (.ifaceM em) j := by
      intro hF
      have hF : j = .null := hF
      subst hF
      rw [hnv] at hnn
      exact hnn rfl
    split at h
    · split at h
      · cases m with
        | zero => simp [Held] at hp
        | succ m =>
          simp only [Held] at hp
          generalize hq : parseIntoP _ _ _ = o at h
          obtain ⟨o, s'⟩ := o
          simp only [PRes.map] at h
          injection h with h es
          subst es
          obtain ⟨y, rfl⟩ := map_errD h
          obtain ⟨u, y, hu, hy⟩ := parseInto_path (hd m rfl _ hp.1) j v hj r hf _ hp.2 _ _ _ hq
          exact ⟨u, y, .heldM _ _ _ _ _ _ hp.1 hu, hy⟩
      · injection h with h _
        exact absurd h (parseInvalid_type hj hf)
      · injection h with _ hs
        subst hs
        exact bad_here hne
    · split at h
      · rename_i hem
        subst hem
        obtain ⟨u, y, hu, hy⟩ := parseInto_path (iface_path hd) j v hj r hf _ hp _ _ _ h
        exact ⟨u, y, .empty _ _ _ _ hu, hy⟩
      · injection h with _ hs
        subst hs
        exact bad_here hne

/-! ### pointers and the `string` option -/

theorem ptr_path {P P' : DV → Prop} {pd : PDec} {z : DV} {S : Json → List Bytes → Prop} (h : PathErr P pd S) (hz : P z)
    (hP : ∀ v, P' (.ptr v) → P v) (ep : Bool) : PathErr P' (decodePointerP ep pd z) S := by
  intro j v hj r hf p hp x r' s e
  have fin : ∀ q, P q → (pd (v ++ r) q).map .ptr = (.err x r' .unmarshalType, s) → S j s := by
    intro q hq h'
    generalize ho : pd (v ++ r) q = o at h'
    obtain ⟨o, s'⟩ := o
    simp only [PRes.map] at h'
    injection h' with h' es
    subst es
    obtain ⟨y, rfl⟩ := map_errD h'
    exact h j v hj r hf q hq _ _ _ ho
  unfold decodePointerP at e
  split at e
  · split at e
    · split at e
      · exact fin _ (hP _ hp) e
      · simp at e
    · simp at e
  · refine fin _ ?_ e
    cases p <;> simp only [] <;> first | exact hz | exact hP _ hp

/-- a decoder that reports no path -/
def FlatP (pd : PDec) : Prop := ∀ b p, (pd b p).2 = []

theorem atom_flat (c : DCfg) (dynP : Ty → PDec) {t : Ty} (h : t.atom) : FlatP (decP c dynP t) := by
  cases t <;> simp only [Ty.atom] at h <;> intro b p <;> simp only [decP, noPath]

theorem ptr_flat {pd : PDec} (h : FlatP pd) (ep : Bool) (z : DV) : FlatP (decodePointerP ep pd z) := by
  intro b p
  unfold decodePointerP
  repeat' split
  all_goals first | rfl | exact h _ _

/-- `null` is no error of a type for a decoder -/
def NullOk (d : Dec) : Prop := ∀ r p x r', d (bs! "null" ++ r) p ≠ .err x r' .unmarshalType

theorem typeErr_nullOk {d : Dec} {F : Json → Prop} (h : TypeErr d F) (hF : F .null) : NullOk d :=
  fun r p x r' e => h .null _ .null r trivial p x r' e hF

theorem atom_nullOk {c : DCfg} (hl : LibOk c.lib) (dyn : Ty → Dec) {t : Ty} (h : t.atom) : NullOk (dec c dyn t) := by
  cases t <;> simp only [Ty.atom] at h <;> simp only [dec]
  case bool => exact typeErr_nullOk (bool_typeErr c) (.inl rfl)
  case int k => exact typeErr_nullOk (int_typeErr c k) (.inl rfl)
  case float32 => exact typeErr_nullOk (float_typeErr _ _) (.inl rfl)
  case float64 => exact typeErr_nullOk (float_typeErr _ _) (.inl rfl)
  case number => exact typeErr_nullOk (number_typeErr c) (.inl rfl)
  case string => exact typeErr_nullOk (string_typeErr c) (.inl rfl)
  case duration => exact typeErr_nullOk (duration_typeErr hl) (.inl rfl)
  case time => exact typeErr_nullOk (time_typeErr hl) (.inl rfl)
  case jsonU f => exact typeErr_nullOk (jsonU_typeErr c f) (.inl rfl)
  case textU f => exact typeErr_nullOk (textU_typeErr c f) (.inl rfl)

theorem ptr_nullOk {d : Dec} (z : DV) (h : NullOk d) (ep : Bool) : NullOk (decodePointer ep d z) := by
  intro r p x r' e
  unfold decodePointer at e
  rw [if_pos (by simp [hasNullPrefix])] at e
  split at e
  · split at e
    · obtain ⟨y, ey⟩ := map_errD e
      exact h _ _ _ _ ey
    · simp at e
  · simp at e

theorem quoted_path {P : DV → Prop} {pd : PDec} {d : Dec} (he : Erases pd d) (hfl : FlatP pd) (hn : NullOk d) :
    PathErr P (decodeFromStringP pd) (fun j s => s = [] ∧ j ≠ .null) := by
  intro j v hj r hf p _ x r' s h
  constructor
  · unfold decodeFromStringP at h
    split at h
    · have := hfl (v ++ r) p
      rw [h] at this; exact this
    · split at h
      · simp at h
      · exact inputErrP_type h
      · rename_i b _ _
        generalize ho : pd _ p = o at h
        obtain ⟨o, s'⟩ := o
        have hs' : s' = [] := by have h' := congrArg Prod.snd ho; rw [hfl] at h'; exact h'.symm
        subst hs'
        cases o with
        | crash => simp at h
        | err => injection h with _ h; exact h.symm
        | ok => simp only [] at h; split at h <;> (injection h with _ h; exact h.symm)
  · rintro rfl
    have hb := derives_null hj
    subst hb
    unfold decodeFromStringP at h
    rw [if_pos (by simp [hasNullPrefix])] at h
    exact hn r p x r' (by rw [← he, show (bs! "null") ++ r = [110, 117, 108, 108] ++ r from rfl, h])

theorem quotedInt_path {P : DV → Prop} {l : Lib} {pd : PDec} {d : Dec} (he : Erases pd d) (hfl : FlatP pd) (hn : NullOk d) :
    PathErr P (decodeFromStringToIntP l pd) (fun j s => s = [] ∧ j ≠ .null) := by
  intro j v hj r hf p _ x r' s h
  constructor
  · unfold decodeFromStringToIntP at h
    split at h
    · have := hfl (v ++ r) p
      rw [h] at this; exact this
    · split at h
      · injection h with _ h; exact h.symm
      · split at h
        · injection h with _ h; exact h.symm
        · split at h
          · simp at h
          · exact inputErrP_type h
          · simp only [] at h
            generalize ho : pd _ p = o at h
            obtain ⟨o, s'⟩ := o
            have hs' : s' = [] := by have h' := congrArg Prod.snd ho; rw [hfl] at h'; exact h'.symm
            subst hs'
            cases o with
            | crash => simp at h
            | err =>
              simp only [] at h
              repeat' split at h
              all_goals (injection h with _ h; exact h.symm)
            | ok => simp only [] at h; split at h <;> (injection h with _ h; exact h.symm)
  · rintro rfl
    have hb := derives_null hj
    subst hb
    unfold decodeFromStringToIntP at h
    rw [if_pos (by simp [hasNullPrefix])] at h
    exact hn r p x r' (by rw [← he, show (bs! "null") ++ r = [110, 117, 108, 108] ++ r from rfl, h])

/-! ### all types -/

/-- what may have the `string` option -/
def Ty.atomP : Ty → Prop
  | .ptr t => t.atom
  | t => t.atom

theorem atomP_flat (c : DCfg) (dynP : Ty → PDec) {t : Ty} (h : t.atomP) : FlatP (decP c dynP t) := by
  cases t with
  | ptr t => simp only [decP]; exact ptr_flat (atom_flat c dynP h) _ _
  | _ => exact atom_flat c dynP h

theorem atomP_nullOk {c : DCfg} (hl : LibOk c.lib) (dyn : Ty → Dec) {t : Ty} (h : t.atomP) : NullOk (dec c dyn t) := by
  cases t with
  | ptr t => simp only [dec]; exact ptr_nullOk _ (atom_nullOk hl dyn h) _
  | _ => exact atom_nullOk hl dyn h

theorem proper_quoted {t : Ty} (h : (Ty.quoted t).proper) : t.atomP := by
  cases t <;> simpa only [Ty.proper, Ty.atomP] using h

theorem proper_quotedInt {t : Ty} (h : (Ty.quotedInt t).proper) : t.atomP := by
  cases t <;> simpa only [Ty.proper, Ty.atomP] using h

theorem erasesL_some {pds : List PDec} {ds : List Dec} (h : ErasesL pds ds) : ∀ (i : Nat) pd, pds[i]? = some pd → ∃ d, ds[i]? = some d ∧ Erases pd d := by
  intro i pd hi
  rcases h i with ⟨h1, _⟩ | ⟨pd', d, h1, h2, h3⟩
  · rw [h1] at hi; simp at hi
  · rw [h1] at hi
    injection hi with hi; subst hi
    exact ⟨d, h2, h3⟩

mutual
theorem dec_path {m : Nat} {c : DCfg} {dynP : Ty → PDec} {dyn : Ty → Dec} (he : ∀ t, Erases (dynP t) (dyn t)) (hl : LibOk c.lib)
    (hok : ∀ t, TrailOk (dyn t)) (hrej : ∀ t, Rej (dyn t)) (hbr : ∀ t, NoBr (dyn t)) (hpr : DynPres Ty.proper m dyn)
    (hd : ∀ m', m = m' + 1 → ∀ t, Ty.proper t → PathErr (Held Ty.proper · m') (dynP t) (Bad c Ty.proper t)) :
    ∀ t : Ty, t.proper → PathErr (Held Ty.proper · m) (decP c dynP t) (Bad c Ty.proper t)
  | .bool, _ => by simp only [decP]; exact noPath_bad _ _ (bool_typeErr c)
  | .int k, _ => by simp only [decP]; exact noPath_bad _ _ (int_typeErr c k)
  | .float32, _ => by simp only [decP]; exact noPath_bad _ _ (float_typeErr _ _)
  | .float64, _ => by simp only [decP]; exact noPath_bad _ _ (float_typeErr _ _)
  | .number, _ => by simp only [decP]; exact noPath_bad _ _ (number_typeErr c)
  | .string, _ => by simp only [decP]; exact noPath_bad _ _ (string_typeErr c)
  | .bytes, _ => by simp only [decP]; exact bytes_path c _ _
  | .duration, _ => by simp only [decP]; exact noPath_bad _ _ (duration_typeErr hl)
  | .time, _ => by simp only [decP]; exact noPath_bad _ _ (time_typeErr hl)
  | .raw, _ => by simp only [decP]; exact noPath_bad _ _ (raw_typeErr _)
  | .iface, _ => by simp only [decP]; exact iface_path hd
  | .ifaceM e, _ => by simp only [decP]; exact ifaceM_path hd e
  | .slice t, ht => by
    simp only [decP]; simp only [Ty.proper] at ht
    intro j v hj r hf p hp x r' s h
    exact slice_bad (slice_path (P := (Held Ty.proper · m)) (PS := (Held Ty.proper · m)) (decP_erases c he t) (dec_trailOk hl hok hrej t)
      (dec_path he hl hok hrej hbr hpr hd t ht) (held_zero _ _ _)
      (by intro d s; simp [Held, heldL_iff]; intro h1 h2 y hy; exact hy.elim (h1 y) (h2 y)) j v hj r hf p hp x r' s h)
  | .array n t, ht => by
    simp only [decP]; simp only [Ty.proper] at ht
    intro j v hj r hf p hp x r' s h
    exact array_bad (array_path (P := (Held Ty.proper · m)) (PS := (Held Ty.proper · m)) (decP_erases c he t) (dec_trailOk hl hok hrej t)
      (dec_path he hl hok hrej hbr hpr hd t ht) (dec_rej c hrej t) (dec_noBr c hbr t) (held_zero _ _ _)
      (by intro d; simp [Held, heldL_iff]) n j v hj r hf p hp x r' s h)
  | .map k t, ht => by
    simp only [decP]; simp only [Ty.proper] at ht
    intro j v hj r hf p hp x r' s h
    exact map_bad (map_path (P := (Held Ty.proper · m)) (fun _ => True) (decP_erases c he t) (dec_trailOk hl hok hrej t)
      (dec_path he hl hok hrej hbr hpr hd t ht) (held_zero _ _ _) k j v hj r hf p trivial x r' s h)
  | .mapSI, _ => by
    simp only [decP]
    intro j v hj r hf p hp x r' s h
    exact mapSI_bad (map_path (P := (Held Ty.proper · m)) (fun _ => True) (decodeInterfaceP_erases c he) (iface_trailOk c hok) (iface_path hd)
      (by simp [Held]) .str j v hj r hf p trivial x r' s h)
  | .mapRaw, _ => by
    simp only [decP]
    intro j v hj r hf p hp x r' s h
    refine mapRaw_bad (map_path (P := fun _ => True) (fun _ => True) (noPath_erases _) raw_trailOk ?_ trivial .str j v hj r hf p trivial x r' s h)
    intro j v hj r hf p _ x r' s h
    injection h with h _
    exact raw_typeErr (fun _ => True) j v hj r hf p x r' h trivial
  | .ptr t, ht => by
    simp only [decP]; simp only [Ty.proper] at ht
    intro j v hj r hf p hp x r' s h
    obtain ⟨u, y, hu, hy⟩ := ptr_path (P := (Held Ty.proper · m)) (P' := (Held Ty.proper · m)) (dec_path he hl hok hrej hbr hpr hd t ht)
      (held_zero _ _ _) (by intro v; simp [Held]) _ j v hj r hf p hp x r' s h
    exact ⟨u, y, .ptr _ _ _ _ _ hu, hy⟩
  | .struct fs, ht => by
    simp only [decP]; simp only [Ty.proper] at ht
    intro j v hj r hf p hp x r' s h
    have := struct_path (P := (Held Ty.proper · m)) (PS := (Held Ty.proper · m))
      (Ss := fun i x s => ∀ nm t, fs[i]? = some (nm, t) → Bad c Ty.proper t x s)
      (erasesL_some (decFP_erases c he fs)) (decF_trailOk hl hok hrej fs)
      (by
        intro i pd hi j v hj r hf p hp x r' s h nm t hfs
        exact decF_path he hl hok hrej hbr hpr hd fs ht i nm t pd hfs hi j v hj r hf p hp x r' s h)
      (decF_pres hpr fs) (by simp [Held]) (by intro d; simp [Held, heldL_iff]) _ j v hj r hf p hp x r' s h
    exact struct_bad (fun i nm t x s hi hs => hs nm t hi) this
  | .quoted t, ht => by
    simp only [decP]
    intro j v hj r hf p hp x r' s h
    have ha := proper_quoted ht
    obtain ⟨rfl, hj'⟩ := quoted_path (decP_erases c he t) (atomP_flat c dynP ha) (atomP_nullOk hl dyn ha) (P := (Held Ty.proper · m)) j v hj r hf p hp x r' s h
    exact bad_here hj'
  | .quotedInt t, ht => by
    simp only [decP]
    intro j v hj r hf p hp x r' s h
    have ha := proper_quotedInt ht
    obtain ⟨rfl, hj'⟩ := quotedInt_path (decP_erases c he t) (atomP_flat c dynP ha) (atomP_nullOk hl dyn ha) (P := (Held Ty.proper · m)) j v hj r hf p hp x r' s h
    exact bad_here hj'
  | .jsonU f, _ => by simp only [decP]; exact noPath_bad _ _ (jsonU_typeErr c f)
  | .textU f, _ => by simp only [decP]; exact noPath_bad _ _ (textU_typeErr c f)
  | .unsupported, _ => by simp only [decP]; exact noPath_bad _ _ (unsupported_typeErr c)
theorem decF_path {m : Nat} {c : DCfg} {dynP : Ty → PDec} {dyn : Ty → Dec} (he : ∀ t, Erases (dynP t) (dyn t)) (hl : LibOk c.lib)
    (hok : ∀ t, TrailOk (dyn t)) (hrej : ∀ t, Rej (dyn t)) (hbr : ∀ t, NoBr (dyn t)) (hpr : DynPres Ty.proper m dyn)
    (hd : ∀ m', m = m' + 1 → ∀ t, Ty.proper t → PathErr (Held Ty.proper · m') (dynP t) (Bad c Ty.proper t)) :
    ∀ fs, properF fs → ∀ (i : Nat) nm t pd, fs[i]? = some (nm, t) → (decFP c dynP fs)[i]? = some pd →
      PathErr (Held Ty.proper · m) pd (Bad c Ty.proper t)
  | [], _ => by simp
  | (_, t) :: fs, ht => by
    intro i nm t' pd h1 h2
    simp only [properF] at ht
    simp only [decFP] at h2
    cases i with
    | zero =>
      simp at h1 h2
      obtain ⟨_, rfl⟩ := h1
      subst h2
      exact dec_path he hl hok hrej hbr hpr hd _ ht.1
    | succ i =>
      simp at h1 h2
      exact decF_path he hl hok hrej hbr hpr hd fs ht.2 i nm t' pd h1 h2
end

theorem decN_path {c : DCfg} (hl : LibOk c.lib) : ∀ n (t : Ty), t.proper → PathErr (Held Ty.proper · n) (decNP c n t) (Bad c Ty.proper t)
  | 0, t, ht => by
    simp only [decNP]
    have h0 : ∀ t : Ty, Erases ((fun (_ : Ty) (_ : Bytes) (_ : DV) => ((DRes.crash .fuel, []) : PRes)) t)
        ((fun (_ : Ty) (_ : Bytes) (_ : DV) => DRes.crash .fuel) t) := fun t b p => rfl
    have h1 : ∀ t : Ty, TrailOk ((fun (_ : Ty) (_ : Bytes) (_ : DV) => DRes.crash .fuel) t) := fun t j v _ r _ p x r' e => by simp at e
    have h2 : ∀ t : Ty, Rej ((fun (_ : Ty) (_ : Bytes) (_ : DV) => DRes.crash .fuel) t) := fun t b p x r h => by simp at h
    have h3 : ∀ t : Ty, NoBr ((fun (_ : Ty) (_ : Bytes) (_ : DV) => DRes.crash .fuel) t) := fun t b p x r h => by simp at h
    exact dec_path h0 hl h1 h2 h3 (fun m' e => by omega) (fun m' e => by omega) t ht
  | n + 1, t, ht => by
    simp only [decNP]
    have hpr : DynPres Ty.proper (n + 1) (decN c n) := by
      intro m' e t _
      obtain rfl : n = m' := by omega
      exact decN_pres c n t
    have hd : ∀ m', n + 1 = m' + 1 → ∀ t, Ty.proper t → PathErr (Held Ty.proper · m') (decNP c n t) (Bad c Ty.proper t) := by
      intro m' e t ht
      obtain rfl : n = m' := by omega
      exact decN_path hl n t ht
    exact dec_path (decNP_erases c n) hl (decN_trailOk hl n) (decN_rej c n) (decN_noBr c n) hpr hd t ht

end JC
