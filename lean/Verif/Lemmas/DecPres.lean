import Verif.Lemmas.DecMap
/-! Decoding, on any input, keeps the pointers in interfaces within their bounds. -/
namespace JC
open Spec Props

theorem map_okD {d : DRes} {g : DV → DV} {x : DV} {r : Bytes} (h : d.map g = .ok x r) : ∃ y, d = .ok y r ∧ x = g y := by
  cases d <;> simp [DRes.map] at h
  case ok y r' => exact ⟨y, by rw [h.2], h.1.symm⟩

def Pres (P : DV → Prop) (dec : Dec) : Prop := ∀ b p x r, P p → dec b p = .ok x r → P x

theorem sliceLoop_pres {P : DV → Prop} {dec : Dec} {z : DV} (hd : Pres P dec) (hz : P z) {input : Bytes} :
    ∀ n (done mem : List DV) b x r, (∀ y ∈ done, P y) → (∀ y ∈ mem, P y) → sliceLoop dec z input n done mem b = .ok x r →
      ∃ d s, x = .slice d s ∧ (∀ y ∈ d, P y) ∧ ∀ y ∈ s, P y := by
  intro n
  induction n with
  | zero => intro done mem b x r _ _ h; simp [sliceLoop] at h
  | succ n ih =>
    intro done mem b x r h1 h2 h
    have elem : ∀ b, sliceElem dec z input n done mem b = .ok x r → ∃ d s, x = .slice d s ∧ (∀ y ∈ d, P y) ∧ ∀ y ∈ s, P y := by
      intro b h
      unfold sliceElem at h
      split at h
      · simp at h
      · split at h <;> simp at h
      · rename_i e
        exact ih _ _ _ _ _ (mem_snoc h1 (hd _ _ _ _ (mem_headD hz h2) e)) (mem_tail h2) h
    rw [sliceLoop_succ] at h
    split at h
    · injection h with h _; exact ⟨_, _, h.symm, h1, h2⟩
    · split at h
      · exact elem _ h
      · split at h
        · simp at h
        · split at h
          · simp at h
          · exact elem _ h

theorem decodeSlice_eq (dec : Dec) (z : DV) (b : Bytes) (p : DV) : decodeSlice dec z b p =
    if hasNullPrefix b then .ok .sliceNil (b.drop 4)
    else match b with
      | [] => inputErr b p
      | c :: t =>
        if b.length < 2 ∨ c ≠ 0x5b then inputErr b p
        else sliceLoop dec z b (b.length + 1) [] (sliceMem p) t := by
  cases p <;> rfl

theorem decodeArray_eq (n : Nat) (dec : Dec) (z : DV) (b : Bytes) (p : DV) : decodeArray n dec z b p =
    if hasNullPrefix b then .ok p (b.drop 4)
    else match b with
      | [] => inputErr b p
      | c :: t =>
        if b.length < 2 ∨ c ≠ 0x5b then inputErr b p
        else arrayElems dec z true [] n (arrMem p) t := by
  cases p <;> rfl

theorem decodeStruct_eq (c : DCfg) (names : List Bytes) (decs : List Dec) (b : Bytes) (p : DV) : decodeStruct c names decs b p =
    if hasNullPrefix b then .ok p (b.drop 4)
    else match b with
      | [] => inputErr b p
      | ch :: t =>
        if b.length < 2 ∨ ch ≠ 0x7b then inputErr b p
        else structLoopD c names decs b (b.length + 1) true (structMem p) t := by
  cases p <;> rfl

theorem slice_pres {P : DV → Prop} {dec : Dec} {z : DV} (hd : Pres P dec) (hz : P z) (PS : DV → Prop) (hnil : PS .sliceNil)
    (hs : ∀ d s, PS (.slice d s) ↔ (∀ y ∈ d, P y) ∧ ∀ y ∈ s, P y) : Pres PS (decodeSlice dec z) := by
  intro b p x r hp h
  have hmem : ∀ x ∈ sliceMem p, P x := by
    cases p <;> simp [sliceMem]
    case slice xs sp =>
      rintro x (hx | hx)
      · exact ((hs _ _).1 hp).1 x hx
      · exact ((hs _ _).1 hp).2 x hx
  rw [decodeSlice_eq] at h
  split at h
  · injection h with h _; subst h; exact hnil
  · split at h
    · exact absurd h inputErr_ne
    · split at h
      · exact absurd h inputErr_ne
      · have : ∃ d s, x = .slice d s ∧ (∀ y ∈ d, P y) ∧ ∀ y ∈ s, P y := by
          exact sliceLoop_pres hd hz _ [] (sliceMem p) _ x r (by simp) hmem h
        obtain ⟨d, s, rfl, h1, h2⟩ := this
        exact (hs _ _).2 ⟨h1, h2⟩

theorem arrayRest_pres {p : DV} : ∀ n b x r, arrayRest p n b = .ok x r → x = p := by
  intro n
  induction n with
  | zero => intro b x r h; simp [arrayRest] at h
  | succ n ih =>
    intro b x r h
    simp only [arrayRest] at h
    split at h
    · simp at h
    · split at h
      · injection h with h _; exact h.symm
      · split at h
        · simp at h
        · exact ih _ _ _ h

theorem arrayElems_pres {P : DV → Prop} {dec : Dec} {z : DV} (hd : Pres P dec) (hz : P z) :
    ∀ n (first : Bool) (done mem : List DV) b x r, (∀ y ∈ done, P y) → (∀ y ∈ mem, P y) → arrayElems dec z first done n mem b = .ok x r →
      ∃ d, x = .array d ∧ (∀ y ∈ d, P y) := by
  intro n
  induction n with
  | zero =>
    intro first done mem b x r h1 h2 h
    rw [arrayElems] at h
    exact ⟨_, arrayRest_pres _ _ _ _ h, mem_append' h1 h2⟩
  | succ n ih =>
    intro first done mem b x r h1 h2 h
    have elem : ∀ b, arrayElem dec z done n mem b = .ok x r → ∃ d, x = .array d ∧ (∀ y ∈ d, P y) := by
      intro b h
      unfold arrayElem at h
      split at h
      · simp at h
      · simp at h
      · rename_i e
        exact ih _ _ _ _ _ _ (mem_snoc h1 (hd _ _ _ _ (mem_headD hz h2) e)) (mem_tail h2) h
    cases first with
    | true => rw [arrayElems_first] at h; exact elem _ h
    | false =>
      rw [arrayElems_next] at h
      split at h
      · simp at h
      · split at h
        · exact elem _ h
        · split at h
          · injection h with h _; exact ⟨_, h.symm, mem_append' h1 h2⟩
          · simp at h

theorem array_pres {P : DV → Prop} {dec : Dec} {z : DV} (hd : Pres P dec) (hz : P z) (PS : DV → Prop)
    (hs : ∀ d, PS (.array d) ↔ ∀ y ∈ d, P y) (n : Nat) : Pres PS (decodeArray n dec z) := by
  intro b p x r hp h
  have hmem : ∀ x ∈ arrMem p, P x := by
    cases p <;> simp [arrMem]
    case array xs => exact (hs _).1 hp
  rw [decodeArray_eq] at h
  split at h
  · injection h with h _; subst h; exact hp
  · split at h
    · exact absurd h inputErr_ne
    · split at h
      · exact absurd h inputErr_ne
      · have : ∃ d, x = .array d ∧ (∀ y ∈ d, P y) := by
          exact arrayElems_pres hd hz _ true [] (arrMem p) _ x r (by simp) hmem h
        obtain ⟨d, rfl, h1⟩ := this
        exact (hs _).2 h1

theorem mapLoopD_pres {k : KTy} {dec : Dec} {z p : DV} {fresh : Bool} {input : Bytes} :
    ∀ n first (m : List (MK × DV)) b x r, mapLoopD k dec z p fresh input n first m b = .ok x r → ∃ m', x = .map m' := by
  intro n
  induction n with
  | zero => intro first m b x r h; simp [mapLoopD] at h
  | succ n ih =>
    intro first m b x r h
    rw [mapLoopD] at h
    simp only [] at h
    split at h
    · injection h with h _; exact ⟨_, h.symm⟩
    · split at h
      · simp at h
      · simp at h
      · split at h
        · simp at h
        · split at h <;> simp at h
        · exact ih _ _ _ _ _ h

theorem map_pres {k : KTy} {dec : Dec} {z : DV} (PS : DV → Prop) (hnil : PS .mapNil) (hs : ∀ m, PS (.map m)) :
    Pres PS (decodeMap k dec z) := by
  intro b p x r hp h
  unfold decodeMap at h
  split at h
  · injection h with h _; subst h; exact hnil
  · split at h
    · exact absurd h inputErr_ne
    · split at h
      · exact absurd h inputErr_ne
      · split at h
        all_goals
          obtain ⟨m', rfl⟩ := mapLoopD_pres _ _ _ _ _ _ h
          exact hs m'

theorem structLoopD_pres {P : DV → Prop} {decs : List Dec} (hd : ∀ d ∈ decs, Pres P d) (hu : P (.user none))
    {c : DCfg} {names : List Bytes} {input : Bytes} :
    ∀ n first (fs : List DV) b x r, (∀ y ∈ fs, P y) → structLoopD c names decs input n first fs b = .ok x r →
      ∃ d, x = .struct d ∧ (∀ y ∈ d, P y) := by
  intro n
  induction n with
  | zero => intro first m b x r _ h; simp [structLoopD] at h
  | succ n ih =>
    intro first fs b x r hf h
    rw [structLoopD_succ] at h
    split at h
    · injection h with h _; exact ⟨_, h.symm, hf⟩
    · split at h
      · simp at h
      · simp at h
      · unfold structField at h
        split at h
        · split at h
          · simp at h
          · split at h
            · simp at h
            · exact ih _ _ _ _ _ hf h
        · split at h
          · simp at h
          · rename_i e
            have hm := List.mem_of_getElem? e
            split at h
            · simp at h
            · split at h <;> simp at h
            · rename_i e2
              exact ih _ _ _ _ _ (mem_set (hd _ hm _ _ _ _ (mem_getD hu hf) e2) hf) h

theorem struct_pres {P : DV → Prop} {decs : List Dec} (hd : ∀ d ∈ decs, Pres P d) (hu : P (.user none))
    {c : DCfg} {names : List Bytes} (PS : DV → Prop) (hs : ∀ d, PS (.struct d) ↔ ∀ y ∈ d, P y) :
    Pres PS (decodeStruct c names decs) := by
  intro b p x r hp h
  have hmem : ∀ x ∈ structMem p, P x := by
    cases p <;> simp [structMem]
    case struct xs => exact (hs _).1 hp
  rw [decodeStruct_eq] at h
  split at h
  · injection h with h _; subst h; exact hp
  · split at h
    · exact absurd h inputErr_ne
    · split at h
      · exact absurd h inputErr_ne
      · have : ∃ d, x = .struct d ∧ (∀ y ∈ d, P y) := by
          exact structLoopD_pres hd hu _ true (structMem p) _ x r hmem h
        obtain ⟨d, rfl, h1⟩ := this
        exact (hs _).2 h1

def ptrMem (z : DV) : DV → DV
  | .ptr v => v
  | _ => z

theorem ptr_pres {P : DV → Prop} {dec : Dec} {z : DV} (hd : Pres P dec) (hz : P z) (PS : DV → Prop) (hnil : PS .ptrNil)
    (hs : ∀ v, PS (.ptr v) ↔ P v) (e : Bool) : Pres PS (decodePointer e dec z) := by
  intro b p x r hp h
  have hq : P (ptrMem z p) := by
    cases p <;> simp [ptrMem] <;> try exact hz
    exact (hs _).1 hp
  unfold decodePointer at h
  split at h
  · split at h
    · split at h
      · obtain ⟨y, ey, rfl⟩ := map_okD h
        exact (hs _).2 (hd _ _ _ _ ((hs _).1 hp) ey)
      · injection h with h _; subst h; exact hnil
    · injection h with h _; subst h; exact hnil
  · obtain ⟨y, ey, rfl⟩ := map_okD h
    exact (hs _).2 (hd _ _ _ _ hq (by cases p <;> exact ey))

theorem fromString_pres {P : DV → Prop} {dec : Dec} (hd : Pres P dec) : Pres P (decodeFromString dec) := by
  intro b p x r hp h
  unfold decodeFromString at h
  split at h
  · exact hd _ _ _ _ hp h
  · split at h
    · simp at h
    · exact absurd h inputErr_ne
    · split at h
      · simp at h
      · simp at h
      · rename_i e
        split at h
        · simp at h
        · injection h with h _; subst h
          exact hd _ _ _ _ hp e

theorem fromStringToInt_pres {P : DV → Prop} {l : Lib} {dec : Dec} (hd : Pres P dec) : Pres P (decodeFromStringToInt l dec) := by
  intro b p x r hp h
  unfold decodeFromStringToInt at h
  split at h
  · exact hd _ _ _ _ hp h
  · split at h
    · simp at h
    · split at h
      · simp at h
      · split at h
        · simp at h
        · exact absurd h inputErr_ne
        · simp only [] at h
          split at h
          · simp at h
          · rename_i e
            split at h
            · simp at h
            · injection h with h _; subst h
              exact hd _ _ _ _ hp e
          · split at h
            · split at h <;> simp at h
            · split at h
              · simp at h
              · split at h <;> simp at h

theorem ifaceEnd_held {Q : Ty → Prop} {m : Nat} {t : Ty} {b : Bytes} {d : DRes} {x : DV} {r : Bytes} (ht : t.isPtr = false)
    (h : ifaceEnd t b d = .ok x r) : Held Q x m := by
  unfold ifaceEnd at h
  split at h
  · simp at h
  · simp at h
  · split at h
    · simp at h
    · injection h with h _; subst h
      cases t <;> simp [Ty.isPtr] at ht <;> simp [Held]

theorem ifaceValue_pres {Q : Ty → Prop} {m : Nat} (c : DCfg) (n : Nat) : Pres (Held Q · m) (ifaceValue c n) := by
  intro b p x r hp h
  cases n with
  | zero => simp [ifaceValue] at h
  | succ n =>
    rw [ifaceValue] at h
    simp only [] at h
    split at h
    · simp at h
    · split at h
      · simp at h
      · split at h
        · exact ifaceEnd_held rfl h
        · split at h
          · exact ifaceEnd_held rfl h
          · split at h
            · exact ifaceEnd_held rfl h
            · split at h
              · split at h
                · simp at h
                · simp at h
                · rename_i e
                  split at h
                  · simp at h
                  · injection h with h _; subst h
                    unfold decodeNull at e
                    split at e
                    · injection e with e _; subst e; simp [Held]
                    · exact absurd e inputErr_ne
              · split at h
                · exact ifaceEnd_held rfl h
                · split at h
                  · split at h <;> exact ifaceEnd_held rfl h
                  · simp at h

theorem parseInto_pres {P : DV → Prop} {dec : Dec} (hd : Pres P dec) : Pres P (parseInto dec) := by
  intro b p x r hp h
  unfold parseInto at h
  split at h
  · simp at h
  · simp at h
  · rename_i e
    injection h with h _; subst h
    exact hd _ _ _ _ hp e

/-- `dyn` keeps the bounds one level down -/
def DynPres (Q : Ty → Prop) (m : Nat) (dyn : Ty → Dec) : Prop :=
  ∀ m', m = m' + 1 → ∀ t, Q t → Pres (Held Q · m') (dyn t)

theorem parseInvalid_no (b : Bytes) (p x : DV) (r : Bytes) : parseInvalid b p ≠ .ok x r := by
  unfold parseInvalid; split <;> simp

theorem typeError_no (b : Bytes) (p x : DV) (r : Bytes) : decodeUnmarshalTypeError b p ≠ .ok x r := by
  unfold decodeUnmarshalTypeError; split <;> simp

theorem iface_pres {Q : Ty → Prop} {m : Nat} {c : DCfg} {dyn : Ty → Dec} (hd : DynPres Q m dyn) :
    Pres (Held Q · m) (decodeInterface c dyn) := by
  intro b p x r hp h
  unfold decodeInterface at h
  split at h
  · split at h
    · split at h
      · injection h with h _; subst h; simp [Held]
      · split at h
        · simp at h
        · simp at h
        · rename_i e
          injection h with h _; subst h
          cases m with
          | zero => simp [Held] at hp
          | succ m =>
            simp only [Held] at hp ⊢
            exact ⟨hp.1, parseInto_pres (hd m rfl _ hp.1) _ _ _ _ hp.2 e⟩
    · split at h
      · injection h with h _; subst h; simp [Held]
      · exact absurd h (parseInvalid_no _ _ _ _)
  · exact ifaceValue_pres c _ _ _ _ _ hp h

theorem ifaceM_pres {Q : Ty → Prop} {m : Nat} {c : DCfg} {dyn : Ty → Dec} (hd : DynPres Q m dyn) (em : Bool) :
    Pres (Held Q · m) (decodeIfaceM c dyn em) := by
  intro b p x r hp h
  unfold decodeIfaceM at h
  split at h
  · injection h with h _; subst h; simp [Held]
  · split at h
    · split at h
      · obtain ⟨y, ey, rfl⟩ := map_okD h
        cases m with
        | zero => simp [Held] at hp
        | succ m =>
          simp only [Held] at hp ⊢
          exact ⟨hp.1, parseInto_pres (hd m rfl _ hp.1) _ _ _ _ hp.2 ey⟩
      · exact absurd h (parseInvalid_no _ _ _ _)
      · exact absurd h (typeError_no _ _ _ _)
    · split at h
      · exact parseInto_pres (iface_pres hd) _ _ _ _ hp h
      · exact absurd h (typeError_no _ _ _ _)

mutual
theorem dec_pres {Q : Ty → Prop} {m : Nat} {c : DCfg} {dyn : Ty → Dec} (hd : DynPres Q m dyn) : ∀ t, Pres (Held Q · m) (dec c dyn t)
  | .bool => by
    intro b p x r hp h
    simp only [dec, decodeBool] at h
    repeat' split at h
    all_goals first
      | exact absurd h inputErr_ne
      | (injection h with h _; subst h; first | exact hp | simp [Held])
  | .int k => by
    intro b p x r hp h
    simp only [dec, decodeInt] at h
    repeat' split at h
    all_goals first
      | exact absurd h inputErr_ne
      | simp at h; done
      | (injection h with h _; subst h; first | exact hp | simp [Held])
  | .float32 | .float64 => by
    all_goals
      intro b p x r hp h
      simp only [dec, decodeFloat] at h
      repeat' split at h
      all_goals first
        | exact absurd h inputErr_ne
        | (injection h with h _; subst h; first | exact hp | simp [Held])
  | .number => by
    intro b p x r hp h
    simp only [dec, decodeNumber] at h
    repeat' split at h
    all_goals first
      | exact absurd h inputErr_ne
      | (injection h with h _; subst h; first | exact hp | simp [Held])
  | .string => by
    intro b p x r hp h
    simp only [dec, decodeString] at h
    repeat' split at h
    all_goals first
      | exact absurd h inputErr_ne
      | simp at h; done
      | (injection h with h _; subst h; first | exact hp | simp [Held])
  | .bytes => by
    intro b p x r hp h
    simp only [dec, decodeBytes] at h
    repeat' split at h
    all_goals first
      | exact absurd h inputErr_ne
      | simp at h; done
      | (injection h with h _; subst h; first | exact hp | simp [Held])
      | (obtain ⟨y, ey, rfl⟩ := map_okD h; split <;> simp [Held])
  | .duration => by
    intro b p x r hp h
    simp only [dec, decodeDuration] at h
    repeat' split at h
    all_goals first
      | exact absurd h inputErr_ne
      | simp at h; done
      | (injection h with h _; subst h; first | exact hp | simp [Held])
  | .time => by
    intro b p x r hp h
    simp only [dec, decodeTime] at h
    repeat' split at h
    all_goals first
      | exact absurd h inputErr_ne
      | simp at h; done
      | (injection h with h _; subst h; first | exact hp | simp [Held])
  | .raw => by
    intro b p x r hp h
    simp only [dec, decodeRawMessage] at h
    repeat' split at h
    all_goals first
      | exact absurd h inputErr_ne
      | (injection h with h _; subst h; simp [Held])
  | .iface => by simp only [dec]; exact iface_pres hd
  | .ifaceM e => by simp only [dec]; exact ifaceM_pres hd e
  | .slice t => by
    simp only [dec]
    exact slice_pres (dec_pres hd t) (held_zero Q m t) _ (by simp [Held]) (by intro d s; simp [Held, heldL_iff])
  | .array n t => by
    simp only [dec]
    exact array_pres (dec_pres hd t) (held_zero Q m t) _ (by intro d; simp [Held, heldL_iff]) n
  | .map k t => by simp only [dec]; exact map_pres _ (by simp [Held]) (by simp [Held])
  | .mapSI => by simp only [dec]; exact map_pres _ (by simp [Held]) (by simp [Held])
  | .mapRaw => by simp only [dec]; exact map_pres _ (by simp [Held]) (by simp [Held])
  | .ptr t => by
    simp only [dec]
    exact ptr_pres (dec_pres hd t) (held_zero Q m t) _ (by simp [Held]) (by intro v; simp [Held]) _
  | .struct fs => by
    simp only [dec]
    exact struct_pres (decF_pres hd fs) (by simp [Held]) _ (by intro d; simp [Held, heldL_iff])
  | .quoted t => by simp only [dec]; exact fromString_pres (dec_pres hd t)
  | .quotedInt t => by simp only [dec]; exact fromStringToInt_pres (dec_pres hd t)
  | .jsonU f => by
    intro b p x r hp h
    simp only [dec, decodeJSONUnmarshaler] at h
    repeat' split at h
    all_goals first
      | simp at h; done
      | (injection h with h _; subst h; first | exact hp | simp [Held])
  | .textU f => by
    intro b p x r hp h
    simp only [dec, decodeTextUnmarshaler] at h
    repeat' split at h
    all_goals first
      | exact absurd h inputErr_ne
      | simp at h; done
      | (injection h with h _; subst h; first | exact hp | simp [Held])
  | .unsupported => by intro b p x r _ h; exact absurd h (typeError_no _ _ _ _)
theorem decF_pres {Q : Ty → Prop} {m : Nat} {c : DCfg} {dyn : Ty → Dec} (hd : DynPres Q m dyn) :
    ∀ fs, ∀ d ∈ decF c dyn fs, Pres (Held Q · m) d
  | [] => by simp [decF]
  | (_, t) :: fs => by
    intro d h
    simp only [decF, List.mem_cons] at h
    rcases h with rfl | h
    · exact dec_pres hd t
    · exact decF_pres hd fs d h
end

end JC
