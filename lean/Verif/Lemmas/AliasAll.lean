import Verif.Lemmas.AliasLoop
/-! Decoding into all types, with and without memory. -/
namespace JC
open Spec Props

theorem map_rsim {m : AMem} {P : AKind → Nat → Prop} {a : ARes} {r : DRes} (h : RSim m P a r) {F : AV → AV} {G : DV → DV}
    (hs : ∀ v, (F v).spans = v.spans) (hr : ∀ m v, (F v).read m = G (v.read m)) : RSim m P (a.map F) (r.map G) := by
  cases h with
  | ok g1 g2 g3 => exact .ok g1 (by rw [hs]; exact g2) (by rw [hr, g3])
  | err g1 g2 g3 => exact .err g1 (by rw [hs]; exact g2) (by rw [hr, g3])
  | crash c => exact .crash c

theorem ptr_sim {f : AFlags} {D : ADec} {d : Dec} (h : ASim f D d) {z0 : AV} {z : DV} (hz : ZeroFor z0 z) (e : Bool) :
    ASim f (decodePointerA e D z0) (decodePointer e d z) := by
  intro m sl p P hf hs hp
  unfold decodePointerA decodePointer
  simp only []
  have nil : ∀ r, RSim m P (.ok (.flat .ptrNil rfl) r m) (.ok .ptrNil r) := fun r => .ok List.prefix_rfl allLie_nil rfl
  have go : ∀ q, AllLie m P q.spans → RSim m P ((D m sl q).map .ptr) ((d (m.read sl) (q.read m)).map .ptr) := fun q hq =>
    map_rsim (h m sl q P hf hs hq) (fun _ => rfl) (fun _ _ => rfl)
  have goz : RSim m P ((D m sl z0).map .ptr) ((d (m.read sl) z).map .ptr) := by
    have := go z0 (hz.2 _ _); rwa [hz.1] at this
  split
  · cases p with
    | ptr v =>
      simp only [AV.read]
      split
      · exact go v hp
      · exact nil _
    | flat v hv => cases v <;> first | exact nil _ | simp [DV.flat] at hv
    | _ => exact nil _
  · cases p with
    | ptr v => exact go v hp
    | flat v hv => cases v <;> first | exact goz | simp [DV.flat] at hv
    | _ => exact goz

/-! ### interfaces -/

theorem ifaceEnd_sim {m : AMem} {P : AKind → Nat → Prop} {a : ARes} {r : DRes} (h : RSim m P a r) (t : DynTy) (b : Bytes) :
    RSim m P (ifaceEndA t b a) (ifaceEnd t.ty b r) := by
  cases h with
  | crash c => exact .crash c
  | err g1 g2 g3 => exact .err g1 allLie_nil rfl
  | ok g1 g2 g3 =>
    simp only [ifaceEndA, ifaceEnd]
    split
    · exact .err g1 allLie_nil rfl
    · exact .ok g1 g2 (by simp [AV.read, g3])

theorem null_flat : FlatDec decodeNull := by
  constructor
  · intro b p v r h
    unfold decodeNull at h
    split at h
    · injection h with h; exact .inr h.symm
    · simp [inputErr] at h
  · intro b p v r e h
    unfold decodeNull at h
    split at h
    · simp at h
    · simp only [inputErr, DRes.err.injEq] at h; exact .inr h.1.symm

theorem bool_flat : FlatDec decodeBool := by
  constructor
  · intro b p v r h
    unfold decodeBool at h
    split at h
    · injection h with h; subst h; exact .inl rfl
    · split at h
      · injection h with h; subst h; exact .inl rfl
      · split at h
        · injection h with h; exact .inr h.symm
        · simp [inputErr] at h
  · intro b p v r e h
    unfold decodeBool at h
    split at h
    · simp at h
    · split at h
      · simp at h
      · split at h
        · simp at h
        · simp only [inputErr, DRes.err.injEq] at h; exact .inr h.1.symm

theorem float_flat (l : Lib) (x : Bool) : FlatDec (decodeFloat l x) := by
  constructor
  · intro b p v r h
    unfold decodeFloat at h
    split at h
    · injection h with h; exact .inr h.symm
    · split at h
      · simp [inputErr] at h
      · split at h
        · simp [inputErr] at h
        · injection h with h; subst h; exact .inl rfl
  · intro b p v r e h
    unfold decodeFloat at h
    split at h
    · simp at h
    · split at h
      · simp only [inputErr, DRes.err.injEq] at h; exact .inr h.1.symm
      · split at h
        · simp only [inputErr, DRes.err.injEq] at h; exact .inr h.1.symm
        · simp at h

theorem typeError_flat : FlatDec decodeUnmarshalTypeError := by
  constructor
  · intro b p v r h
    unfold decodeUnmarshalTypeError at h
    split at h <;> simp at h
  · intro b p v r e h
    unfold decodeUnmarshalTypeError at h
    split at h
    · injection h with h; exact .inr h.symm
    · injection h with h; exact .inr h.symm

theorem ifaceValue_suff (c : DCfg) (n : Nat) : Suff (ifaceValue c n) := by
  intro b p x r h
  cases n with
  | zero => simp [ifaceValue] at h
  | succ n =>
    rw [ifaceValue] at h
    dsimp only at h
    have en : ∀ {t b' R}, ifaceEnd t b' R = .ok x r → r = b' := by
      intro t b' R h
      cases R with
      | crash c => simp [ifaceEnd] at h
      | err _ _ _ => simp [ifaceEnd] at h
      | ok v r' =>
        simp only [ifaceEnd] at h
        split at h
        · simp at h
        · injection h with _ h; exact h.symm
    cases hv : parseValue b with
    | fail r e => rw [hv] at h; simp at h
    | ok v b' =>
      rw [hv] at h
      simp only [] at h
      have hb := parseValue_suf hv
      split at h
      · simp at h
      · split at h
        · rw [en h]; exact hb
        · split at h
          · rw [en h]; exact hb
          · split at h
            · rw [en h]; exact hb
            · split at h
              · split at h
                · simp at h
                · simp at h
                · split at h
                  · simp at h
                  · injection h with _ h; rw [← h]; exact hb
              · split at h
                · rw [en h]; exact hb
                · split at h
                  · split at h
                    · rw [en h]; exact hb
                    · rw [en h]; exact hb
                  · simp at h

theorem ifaceNil_zero : ZeroFor (.flat .ifaceNil rfl) .ifaceNil := ⟨fun _ => rfl, fun _ _ => allLie_nil⟩

theorem ifaceValue_sim {f : AFlags} {c : DCfg} : ∀ (n : Nat), ASim f (ifaceValueA f c n) (ifaceValue c n)
  | 0 => fun _ _ _ _ _ _ _ => .crash _
  | n + 1 => by
    intro m sl p P hf hs hp
    have ih := ifaceValue_sim (f := f) (c := c) n
    rw [ifaceValueA, ifaceValue]
    dsimp only
    have nil : ∀ r e, RSim m P (.err (.flat .ifaceNil rfl) r e m) (.err .ifaceNil r e) := fun r e => .err List.prefix_rfl allLie_nil rfl
    cases hv : parseValue (m.read sl) with
    | fail r e => exact nil _ _
    | ok v b =>
      simp only []
      have e := (parseValue_sound hv).1
      obtain ⟨h1, h2, _⟩ := read_at hs (a := []) (v := v) (r := b) e
      simp only [List.length_nil] at h1 h2
      have one : ∀ {D : ADec} {d : Dec}, ASim f D d → ∀ q, AllLie m P q.spans → RSim m P (D m (sl.at 0 v) q) (d v (q.read m)) := by
        intro D d hD q hq
        have := hD m (sl.at 0 v) q P hf h2 hq
        rwa [h1] at this
      cases v with
      | nil => exact .crash _
      | cons ch t =>
        simp only []
        split
        · exact ifaceEnd_sim (one (map_sim ih (ifaceValue_suff c n) ifaceNil_zero) (.map []) allLie_nil) .mapSI b
        · split
          · exact ifaceEnd_sim (one (slice_sim ih (ifaceValue_suff c n) ifaceNil_zero) (.slice [] []) allLie_nil) .slice b
          · split
            · have := one (string_sim (f := f)) (.string .nil) (allLie_cons.2 ⟨.inl rfl, allLie_nil⟩)
              simp only [AV.read, read_zero (m := m) (s := .nil) rfl] at this
              exact ifaceEnd_sim this .string b
            · split
              · have := one (lift_sim null_flat) (.flat .ifaceNil rfl) allLie_nil
                simp only [AV.read] at this
                generalize liftA decodeNull m (sl.at 0 (ch :: t)) (.flat .ifaceNil rfl) = A at this ⊢
                generalize decodeNull (ch :: t) .ifaceNil = B at this ⊢
                cases this with
                | crash c => exact .crash c
                | err g1 g2 g3 => exact .err g1 allLie_nil rfl
                | ok g1 g2 g3 =>
                  simp only [ifaceNullA]
                  split
                  · exact .err g1 allLie_nil rfl
                  · exact .ok g1 g2 g3
              · split
                · exact ifaceEnd_sim (one (lift_sim bool_flat) (.flat (.bool false) rfl) allLie_nil) .bool b
                · split
                  · split
                    · have := one (number_sim (f := f)) (.number .nil) (allLie_cons.2 ⟨.inl rfl, allLie_nil⟩)
                      simp only [AV.read, read_zero (m := m) (s := .nil) rfl] at this
                      exact ifaceEnd_sim this .number b
                    · exact ifaceEnd_sim (one (lift_sim (float_flat c.lib false)) (.flat zeroFloat rfl) allLie_nil) .float64 b
                  · exact nil _ _

theorem iface_sim {f : AFlags} {c : DCfg} {dyn : Ty → Dec} : ASim f (decodeInterfaceA f c) (decodeInterface c dyn) := by
  intro m sl p P hf hs hp
  have key := ifaceValue_sim (f := f) (c := c) (sl.len + 1) m sl p P hf hs hp
  unfold decodeInterfaceA
  have : decodeInterface c dyn (m.read sl) (p.read m) = ifaceValue c (sl.len + 1) (m.read sl) (p.read m) := by
    rw [← read_length hs]
    unfold decodeInterface
    cases p with
    | iface t v => cases t <;> rfl
    | flat v hv => cases v <;> first | rfl | simp [DV.flat] at hv
    | _ => rfl
  rw [this]
  exact key

theorem parseInto_sim {f : AFlags} {D : ADec} {d : Dec} (h : ASim f D d) : ASim f (parseIntoA D) (parseInto d) := by
  intro m sl p P hf hs hp
  unfold parseIntoA parseInto
  obtain ⟨h1, h2⟩ := read_tail hs (skip_suf (m.read sl))
  have := h m (sl.tail (skipSpaces (m.read sl))) p P hf h2 hp
  rw [h1] at this
  generalize D m (sl.tail (skipSpaces (m.read sl))) p = A at this ⊢
  generalize d (skipSpaces (m.read sl)) (p.read m) = B at this ⊢
  cases this with
  | crash c => exact .crash c
  | err g1 g2 g3 => exact .err g1 g2 g3
  | ok g1 g2 g3 => exact .ok g1 g2 g3

theorem ifaceM_sim {f : AFlags} {c : DCfg} {dyn : Ty → Dec} (e : Bool) : ASim f (decodeIfaceMA f c e) (decodeIfaceM c dyn e) := by
  intro m sl p P hf hs hp
  unfold decodeIfaceMA decodeIfaceM
  split
  · exact .ok List.prefix_rfl allLie_nil rfl
  · have h1 := lift_sim (f := f) typeError_flat m sl p P hf hs hp
    have h2 := parseInto_sim (iface_sim (f := f) (c := c) (dyn := dyn)) m sl p P hf hs hp
    have h3 : RSim m P (if e then parseIntoA (decodeInterfaceA f c) m sl p else liftA decodeUnmarshalTypeError m sl p)
        (if e then parseInto (decodeInterface c dyn) (m.read sl) (p.read m) else decodeUnmarshalTypeError (m.read sl) (p.read m)) := by
      split
      · exact h2
      · exact h1
    cases p with
    | iface t v => cases t <;> exact h1
    | flat v hv => cases v <;> first | exact h3 | simp [DV.flat] at hv
    | _ => exact h3

/-! ### all types -/

theorem bytes_flat : FlatDec decodeBytes := by
  constructor
  · intro b p v r h
    unfold decodeBytes at h
    split at h
    · injection h with h; subst h; exact .inl rfl
    · split at h
      · simp [inputErr] at h
      · split at h
        · simp [inputErr] at h
        · split at h
          · split at h
            · simp only [DRes.map] at h
              split at h
              · injection h with h; subst h; left; split <;> rfl
              · simp at h
              · simp at h
            · simp [inputErr] at h
          · split at h
            · simp at h
            · simp [inputErr] at h
            · split at h
              · simp at h
              · injection h with h; subst h; exact .inl rfl
  · intro b p v r e h
    unfold decodeBytes at h
    split at h
    · simp at h
    · split at h
      · simp only [inputErr, DRes.err.injEq] at h; exact .inr h.1.symm
      · split at h
        · simp only [inputErr, DRes.err.injEq] at h; exact .inr h.1.symm
        · split at h
          · split at h
            · simp only [DRes.map] at h
              split at h
              · simp at h
              · injection h with h; subst h; left; split <;> rfl
              · simp at h
            · simp only [inputErr, DRes.err.injEq] at h; exact .inr h.1.symm
          · split at h
            · simp at h
            · simp only [inputErr, DRes.err.injEq] at h; exact .inr h.1.symm
            · split at h
              · injection h with h; exact .inr h.symm
              · simp at h

theorem duration_flat (l : Lib) : FlatDec (decodeDuration l) := by
  constructor
  · intro b p v r h
    unfold decodeDuration at h
    repeat' split at h
    all_goals first | (injection h with h; first | exact .inr h.symm | (subst h; exact .inl rfl)) | (simp [inputErr] at h)
  · intro b p v r e h
    unfold decodeDuration at h
    repeat' split at h
    all_goals first | (simp only [inputErr, DRes.err.injEq] at h; exact .inr h.1.symm) | (simp at h)

theorem time_flat (l : Lib) : FlatDec (decodeTime l) := by
  constructor
  · intro b p v r h
    unfold decodeTime at h
    repeat' split at h
    all_goals first | (injection h with h; first | exact .inr h.symm | (subst h; exact .inl rfl)) | (simp [inputErr] at h)
  · intro b p v r e h
    unfold decodeTime at h
    repeat' split at h
    all_goals first | (simp only [inputErr, DRes.err.injEq] at h; exact .inr h.1.symm) | (simp at h)

theorem jsonU_flat (g : Bytes → Option Err) : FlatDec (decodeJSONUnmarshaler g) := by
  constructor
  · intro b p v r h
    unfold decodeJSONUnmarshaler at h
    repeat' split at h
    all_goals first | (injection h with h; first | exact .inr h.symm | (subst h; exact .inl rfl)) | (simp at h)
  · intro b p v r e h
    unfold decodeJSONUnmarshaler at h
    repeat' split at h
    all_goals first | (injection h with h; exact .inr h.symm) | (simp at h)

theorem dec_flat {c : DCfg} {dyn : Ty → Dec} {t : Ty} (h : t.flat = true) : FlatDec (dec c dyn t) := by
  cases t <;> simp only [Ty.flat, Bool.false_eq_true] at h
  all_goals simp only [dec]
  · exact bool_flat
  · exact int_flat _
  · exact float_flat _ _
  · exact float_flat _ _
  · exact bytes_flat
  · exact duration_flat _
  · exact time_flat _
  · exact jsonU_flat _
  · exact textU_flat _
  · exact typeError_flat

theorem dec_flat_dyn {c : DCfg} {dyn dyn' : Ty → Dec} {t : Ty} (h : t.flat = true) : dec c dyn t = dec c dyn' t := by
  cases t <;> first | (simp only [Ty.flat, Bool.false_eq_true] at h; done) | simp only [dec]

theorem readL_replicate (m : AMem) (n : Nat) (v : AV) : readL m (List.replicate n v) = List.replicate n (v.read m) := by
  induction n with
  | zero => rfl
  | succ n ih => simp [List.replicate_succ, readL, ih]

theorem spansL_replicate {m : AMem} {P : AKind → Nat → Prop} {v : AV} (h : AllLie m P v.spans) (n : Nat) : AllLie m P (spansL (List.replicate n v)) := by
  induction n with
  | zero => exact allLie_nil
  | succ n ih => rw [List.replicate_succ]; exact allLie_append.2 ⟨h, ih⟩

mutual
theorem zero_for : ∀ (t : ATy), ZeroFor (zeroA t) (zero t.ty)
  | .flat t h => by
    have : (zero t).flat = true := by cases t <;> first | (simp only [Ty.flat, Bool.false_eq_true] at h; done) | simp [zero, DV.flat]
    simp only [zeroA, ATy.ty]
    exact ⟨fun m => keep_read (.inl this), fun m P => keep_spans allLie_nil⟩
  | .number => ⟨fun m => by simp [zeroA, AV.read, ATy.ty, zero, read_zero (m := m) (s := .nil) rfl], fun m P => allLie_cons.2 ⟨.inl rfl, allLie_nil⟩⟩
  | .string => ⟨fun m => by simp [zeroA, AV.read, ATy.ty, zero, read_zero (m := m) (s := .nil) rfl], fun m P => allLie_cons.2 ⟨.inl rfl, allLie_nil⟩⟩
  | .raw | .iface | .ifaceM _ | .slice _ | .map _ _ | .mapSI | .mapRaw | .ptr _ => by
    all_goals
      simp only [zeroA, ATy.ty, zero]
      exact ⟨fun _ => rfl, fun _ _ => allLie_nil⟩
  | .array n t => by
    have h := zero_for t
    simp only [zeroA, ATy.ty, zero]
    refine ⟨fun m => ?_, fun m P => ?_⟩
    · simp only [AV.read]; rw [readL_replicate, h.1]
    · exact spansL_replicate (h.2 m P) n
  | .struct fs => by
    have h := zeroF_for fs
    simp only [zeroA, ATy.ty, zero]
    exact ⟨fun m => by simp only [AV.read]; rw [h.1], fun m P => h.2 m P⟩
  | .quoted t => by simpa only [zeroA, ATy.ty, zero] using zero_for t
  | .quotedInt t => by simpa only [zeroA, ATy.ty, zero] using zero_for t
theorem zeroF_for : ∀ (fs : List (Bytes × ATy)), (∀ m, readL m (zeroFA fs) = zeroF (tyF fs)) ∧ ∀ m P, AllLie m P (spansL (zeroFA fs))
  | [] => ⟨fun _ => by simp [zeroFA, readL, tyF, zeroF], fun _ _ => by simp only [zeroFA]; exact allLie_nil⟩
  | (_, t) :: fs => by
    have h1 := zero_for t
    have h2 := zeroF_for fs
    simp only [zeroFA, tyF, zeroF, readL, spansL]
    exact ⟨fun m => by rw [h1.1, h2.1], fun m P => allLie_append.2 ⟨h1.2 m P, h2.2 m P⟩⟩
end

theorem tyF_names : ∀ (fs : List (Bytes × ATy)), (tyF fs).map (·.1) = fs.map (·.1)
  | [] => rfl
  | (_, _) :: fs => by simp only [tyF, List.map_cons, tyF_names fs]

mutual
/-- Decoding into all types: the results agree. -/
theorem dec_sim {f : AFlags} {c : DCfg} {dyn : Ty → Dec} (hd : ∀ t, Suff (dyn t)) : ∀ (t : ATy), ASim f (decA f c t) (dec c dyn t.ty)
  | .flat t h => by
    simp only [decA, ATy.ty]
    rw [dec_flat_dyn (dyn := dyn) (dyn' := fun _ _ _ => .crash .fuel) h]
    exact lift_sim (dec_flat h)
  | .number => by simp only [decA, ATy.ty, dec]; exact number_sim
  | .string => by simp only [decA, ATy.ty, dec]; exact string_sim
  | .raw => by simp only [decA, ATy.ty, dec]; exact raw_sim
  | .iface => by simp only [decA, ATy.ty, dec]; exact iface_sim
  | .ifaceM e => by simp only [decA, ATy.ty, dec]; exact ifaceM_sim e
  | .slice t => by simp only [decA, ATy.ty, dec]; exact slice_sim (dec_sim hd t) (dec_suff hd t.ty) (zero_for t)
  | .array n t => by simp only [decA, ATy.ty, dec]; exact array_sim (dec_sim hd t) (dec_suff hd t.ty) (zero_for t) n
  | .map k t => by simp only [decA, ATy.ty, dec]; exact map_sim (dec_sim hd t) (dec_suff hd t.ty) (zero_for t)
  | .mapSI => by simp only [decA, ATy.ty, dec]; exact map_sim iface_sim (iface_suff hd) ifaceNil_zero
  | .mapRaw => by
    simp only [decA, ATy.ty, dec]
    refine map_sim raw_sim ?_ ⟨fun _ => rfl, fun _ _ => allLie_nil⟩
    have := dec_suff (c := c) hd .raw
    simpa only [dec] using this
  | .ptr t => by simp only [decA, ATy.ty, dec]; exact ptr_sim (dec_sim hd t) (zero_for t) _
  | .struct fs => by
    simp only [decA, ATy.ty, dec]
    rw [← tyF_names]
    exact struct_sim (decF_sim hd fs) (decF_suff hd (tyF fs))
  | .quoted t => by simp only [decA, ATy.ty, dec]; exact fromString_sim (dec_sim hd t)
  | .quotedInt t => by simp only [decA, ATy.ty, dec]; exact fromStringToInt_sim (dec_sim hd t)
theorem decF_sim {f : AFlags} {c : DCfg} {dyn : Ty → Dec} (hd : ∀ t, Suff (dyn t)) : ∀ (fs : List (Bytes × ATy)), FSim f (decFA f c fs) (decF c dyn (tyF fs))
  | [] => fun _ => .inl (by simp [decFA, tyF, decF])
  | (_, t) :: fs => by
    intro i
    cases i with
    | zero => exact .inr ⟨decA f c t, dec c dyn t.ty, by simp [decFA], by simp [tyF, decF], dec_sim hd t⟩
    | succ i =>
      have := decF_sim (f := f) (c := c) hd fs i
      simpa [decFA, tyF, decF] using this
end

/-- As `dec_sim`, for the decoders that follow pointers in interfaces. -/
theorem decN_sim {f : AFlags} {c : DCfg} (n : Nat) (t : ATy) : ASim f (decA f c t) (decN c n t.ty) := by
  cases n with
  | zero => exact dec_sim (fun _ _ _ _ _ h => by simp at h) t
  | succ n => exact dec_sim (decN_suff c n) t

end JC
