import Verif.Model.Path
import Verif.Lemmas.DecMild
/-! Forgetting the paths gives the decoding functions of `Model/Decode.lean`. -/
namespace JC
open Spec

/-- forgetting the path -/
def Erases (pd : PDec) (d : Dec) : Prop := ∀ b p, (pd b p).1 = d b p

theorem noPath_erases (d : Dec) : Erases (noPath d) d := fun _ _ => rfl

theorem arrayElemsP_erases {pd : PDec} {d : Dec} (h : Erases pd d) (z : DV) : ∀ (n : Nat) (first : Bool) (done mem : List DV) (b : Bytes),
    (arrayElemsP pd z first done n mem b).1 = arrayElems d z first done n mem b := by
  intro n
  induction n with
  | zero => intro first done mem b; rfl
  | succ n ih =>
    intro first done mem b
    have elem : ∀ b, (match pd b (mem.headD z) with
      | (.crash c, _) => ((DRes.crash c, []) : PRes)
      | (.err x r e, s) => (.err (.array (done ++ x :: mem.tail)) r e, under (fmtNat done.length) e s)
      | (.ok x r, _) => arrayElemsP pd z false (done ++ [x]) n mem.tail r).1 = match d b (mem.headD z) with
      | .crash c => .crash c
      | .err x r e => .err (.array (done ++ x :: mem.tail)) r e
      | .ok x r => arrayElems d z false (done ++ [x]) n mem.tail r := by
      intro b
      have := h b (mem.headD z)
      generalize pd b (mem.headD z) = o at *
      rw [← this]
      obtain ⟨o, s⟩ := o
      cases o <;> first | rfl | exact ih ..
    rw [arrayElemsP, arrayElems]
    simp only []
    generalize skipSpaces b = b
    split
    · exact elem _
    · cases b with
      | nil => rfl
      | cons c t =>
        simp only []
        split
        · exact elem _
        · split <;> rfl

theorem decodeArrayP_erases {pd : PDec} {d : Dec} (h : Erases pd d) (n : Nat) (z : DV) : Erases (decodeArrayP n pd z) (decodeArray n d z) := by
  intro b p
  unfold decodeArrayP decodeArray
  split
  · rfl
  · cases b with
    | nil => rfl
    | cons ch t =>
      simp only []
      split
      · rfl
      · exact arrayElemsP_erases h ..

theorem sliceLoopP_erases {pd : PDec} {d : Dec} (h : Erases pd d) (z : DV) (input : Bytes) : ∀ (n : Nat) (done mem : List DV) (b : Bytes),
    (sliceLoopP pd z input n done mem b).1 = sliceLoop d z input n done mem b := by
  intro n
  induction n with
  | zero => intro done mem b; rfl
  | succ n ih =>
    intro done mem b
    have elem : ∀ b, (match pd b (mem.headD z) with
      | (.crash c, _) => ((DRes.crash c, []) : PRes)
      | (.err x _ e, s) =>
        match parseValue input with
        | .fail r e2 => (.err (.slice done (x :: mem.tail)) r e2, [])
        | .ok _ r => (.err (.slice done (x :: mem.tail)) r e, under (fmtNat done.length) e s)
      | (.ok x r, _) => sliceLoopP pd z input n (done ++ [x]) mem.tail r).1 = match d b (mem.headD z) with
      | .crash c => .crash c
      | .err x _ e =>
        match parseValue input with
        | .fail r e2 => .err (.slice done (x :: mem.tail)) r e2
        | .ok _ r => .err (.slice done (x :: mem.tail)) r e
      | .ok x r => sliceLoop d z input n (done ++ [x]) mem.tail r := by
      intro b
      have := h b (mem.headD z)
      generalize pd b (mem.headD z) = o at *
      rw [← this]
      obtain ⟨o, s⟩ := o
      cases o with
      | crash => rfl
      | err => simp only []; cases parseValue input <;> rfl
      | ok => exact ih ..
    rw [sliceLoopP, sliceLoop]
    simp only []
    generalize skipSpaces b = b
    split
    · rfl
    · split
      · exact elem _
      · cases b with
        | nil => rfl
        | cons c t =>
          simp only []
          split
          · rfl
          · exact elem _

theorem decodeSliceP_erases {pd : PDec} {d : Dec} (h : Erases pd d) (z : DV) : Erases (decodeSliceP pd z) (decodeSlice d z) := by
  intro b p
  unfold decodeSliceP decodeSlice
  split
  · rfl
  · cases b with
    | nil => rfl
    | cons ch t =>
      simp only []
      split
      · rfl
      · exact sliceLoopP_erases h ..

theorem decodeBytesP_erases : Erases decodeBytesP decodeBytes := by
  intro b p
  unfold decodeBytesP
  split <;> rfl

theorem mapLoopP_erases {pd : PDec} {d : Dec} (h : Erases pd d) (k : KTy) (z p : DV) (fresh : Bool) (input : Bytes) :
    ∀ (n : Nat) (first : Bool) (m : List (MK × DV)) (b : Bytes),
    (mapLoopP k pd z p fresh input n first m b).1 = mapLoopD k d z p fresh input n first m b := by
  intro n
  induction n with
  | zero => intro first m b; rfl
  | succ n ih =>
    intro first m b
    rw [mapLoopP, mapLoopD]
    simp only []
    split
    · rfl
    · generalize memberKey (decodeKey k) first (skipSpaces b) = o
      rcases o with c | ⟨r, e⟩ | ⟨kv, b'⟩
      · rfl
      · rfl
      · simp only []
        have := h b' z
        generalize pd b' z = o at *
        rw [← this]
        obtain ⟨o, s⟩ := o
        cases o with
        | crash => rfl
        | err => simp only []; cases parseValue input <;> rfl
        | ok => exact ih ..

theorem decodeMapP_erases {pd : PDec} {d : Dec} (h : Erases pd d) (k : KTy) (z : DV) : Erases (decodeMapP k pd z) (decodeMap k d z) := by
  intro b p
  unfold decodeMapP decodeMap
  split
  · rfl
  · cases b with
    | nil => rfl
    | cons ch t =>
      simp only []
      split
      · rfl
      · cases p <;> exact mapLoopP_erases h ..

/-- forgetting the paths, field by field -/
def ErasesL (pds : List PDec) (ds : List Dec) : Prop := ∀ (i : Nat), (pds[i]? = none ∧ ds[i]? = none) ∨
  ∃ pd d, pds[i]? = some pd ∧ ds[i]? = some d ∧ Erases pd d

theorem structLoopP_erases {pds : List PDec} {ds : List Dec} (h : ErasesL pds ds) (c : DCfg) (names : List Bytes) (input : Bytes) :
    ∀ (n : Nat) (first : Bool) (fs : List DV) (b : Bytes),
    (structLoopP c names pds input n first fs b).1 = structLoopD c names ds input n first fs b := by
  intro n
  induction n with
  | zero => intro first fs b; rfl
  | succ n ih =>
    intro first fs b
    rw [structLoopP, structLoopD]
    simp only []
    split
    · rfl
    · generalize memberKey _ first (skipSpaces b) = o
      rcases o with x | ⟨r, e⟩ | ⟨kv, b'⟩
      · rfl
      · rfl
      · simp only []
        generalize pickField c names _ = o
        cases o with
        | none =>
          simp only []
          split
          · rfl
          · generalize parseValue b' = o
            cases o with
            | fail => rfl
            | ok => exact ih ..
        | some i =>
          simp only []
          rcases h i with ⟨e1, e2⟩ | ⟨pd, d, e1, e2, hd⟩
          · simp [e1, e2]
          · simp only [e1, e2]
            have := hd b' (fs.getD i (.user none))
            generalize pd b' (fs.getD i (.user none)) = o at *
            rw [← this]
            obtain ⟨o, s⟩ := o
            cases o with
            | crash => rfl
            | err => simp only []; cases parseValue input <;> rfl
            | ok => exact ih ..

theorem decodeStructP_erases {pds : List PDec} {ds : List Dec} (h : ErasesL pds ds) (c : DCfg) (names : List Bytes) :
    Erases (decodeStructP c names pds) (decodeStruct c names ds) := by
  intro b p
  unfold decodeStructP decodeStruct
  split
  · rfl
  · cases b with
    | nil => rfl
    | cons ch t =>
      simp only []
      split
      · rfl
      · exact structLoopP_erases h ..

theorem decodePointerP_erases {pd : PDec} {d : Dec} (h : Erases pd d) (ep : Bool) (z : DV) : Erases (decodePointerP ep pd z) (decodePointer ep d z) := by
  intro b p
  unfold decodePointerP decodePointer
  split
  · cases p with
    | ptr v =>
      simp only []
      split
      · rw [← h]; rfl
      · rfl
    | _ => rfl
  · rw [← h]; rfl

theorem decodeFromStringP_erases {pd : PDec} {d : Dec} (h : Erases pd d) : Erases (decodeFromStringP pd) (decodeFromString d) := by
  intro b p
  unfold decodeFromStringP decodeFromString
  split
  · exact h ..
  · generalize parseStringUnquote b [] = o
    cases o with
    | panic => rfl
    | fail => rfl
    | ok v b' _ =>
      simp only []
      have := h v p
      generalize pd v p = o at *
      rw [← this]
      obtain ⟨o, s⟩ := o
      cases o with
      | crash => rfl
      | err => rfl
      | ok => simp only []; split <;> rfl

theorem decodeFromStringToIntP_erases {pd : PDec} {d : Dec} (h : Erases pd d) (l : Lib) :
    Erases (decodeFromStringToIntP l pd) (decodeFromStringToInt l d) := by
  intro b p
  unfold decodeFromStringToIntP decodeFromStringToInt
  split
  · exact h ..
  · split
    · rfl
    · split
      · rfl
      · generalize parseStringUnquote b [] = o
        cases o with
        | panic => rfl
        | fail => rfl
        | ok v b' _ =>
          simp only []
          have := h (stripZeroes v) p
          generalize pd (stripZeroes v) p = o at *
          rw [← this]
          obtain ⟨o, s⟩ := o
          cases o with
          | crash => rfl
          | ok => simp only []; split <;> rfl
          | err =>
            simp only []
            split
            · split <;> rfl
            · cases parseNumber (stripZeroes v) with
              | ok => rfl
              | fail => simp only []; cases parseValue (stripZeroes v) <;> rfl

theorem ifaceEndP_erases (t : Ty) (b : Bytes) (o : PRes) : (ifaceEndP t b o).1 = ifaceEnd t b o.1 := by
  obtain ⟨o, s⟩ := o
  cases o with
  | crash => rfl
  | err => rfl
  | ok => simp only [ifaceEndP, ifaceEnd]; split <;> rfl

theorem ifaceValueP_erases (c : DCfg) : ∀ n, Erases (ifaceValueP c n) (ifaceValue c n)
  | 0 => fun _ _ => rfl
  | n + 1 => by
    intro b p
    have ih := ifaceValueP_erases c n
    cases e : parseValue b with
    | fail => simp only [ifaceValueP, ifaceValue, e]
    | ok v r =>
      cases v with
      | nil => simp only [ifaceValueP, ifaceValue, e]
      | cons ch t =>
        simp only [ifaceValueP, e]
        split
        · rename_i h
          rw [ifaceEndP_erases, decodeMapP_erases ih]
          simp only [ifaceValue, e, h, if_true]
        · split
          · rename_i h h'
            rw [ifaceEndP_erases, decodeSliceP_erases ih]
            simp only [ifaceValue, e, h', if_true]
            rw [if_neg (by decide)]
          · rfl

theorem parseIntoP_erases {pd : PDec} {d : Dec} (h : Erases pd d) : Erases (parseIntoP pd) (parseInto d) := by
  intro b p
  unfold parseIntoP parseInto
  have := h (skipSpaces b) p
  generalize pd (skipSpaces b) p = o at *
  rw [← this]
  obtain ⟨o, s⟩ := o
  cases o <;> rfl

theorem decodeInterfaceP_erases (c : DCfg) {dynP : Ty → PDec} {dyn : Ty → Dec} (h : ∀ t, Erases (dynP t) (dyn t)) :
    Erases (decodeInterfaceP c dynP) (decodeInterface c dyn) := by
  intro b p
  unfold decodeInterfaceP decodeInterface
  have rest := ifaceValueP_erases c (b.length + 1) b
  cases p with
  | iface t v =>
    cases t with
    | ptr t =>
      cases v with
      | ptr w =>
        simp only []
        split
        · rfl
        · have := parseIntoP_erases (h t) b w
          generalize parseIntoP (dynP t) b w = o at *
          rw [← this]
          obtain ⟨o, s⟩ := o
          cases o <;> rfl
      | _ => simp only []; split <;> rfl
    | _ => exact rest _
  | _ => exact rest _

theorem decodeIfaceMP_erases (c : DCfg) {dynP : Ty → PDec} {dyn : Ty → Dec} (h : ∀ t, Erases (dynP t) (dyn t)) (em : Bool) :
    Erases (decodeIfaceMP c dynP em) (decodeIfaceM c dyn em) := by
  intro b p
  unfold decodeIfaceMP decodeIfaceM
  have rest := parseIntoP_erases (decodeInterfaceP_erases c h) b
  split
  · rfl
  · cases p with
    | iface t v =>
      cases t with
      | ptr t =>
        cases v with
        | ptr w => simp only []; rw [← parseIntoP_erases (h _)]; rfl
        | _ => rfl
      | _ => rfl
    | _ =>
      simp only []
      split
      · exact rest _
      · rfl

mutual
theorem decP_erases (c : DCfg) {dynP : Ty → PDec} {dyn : Ty → Dec} (h : ∀ t, Erases (dynP t) (dyn t)) :
    ∀ t : Ty, Erases (decP c dynP t) (dec c dyn t)
  | .bool | .int _ | .float32 | .float64 | .number | .string | .duration | .time | .raw | .jsonU _ | .textU _ | .unsupported => by
    all_goals simp only [decP, dec]; exact noPath_erases _
  | .bytes => by simp only [decP, dec]; exact decodeBytesP_erases
  | .iface => by simp only [decP, dec]; exact decodeInterfaceP_erases c h
  | .ifaceM e => by simp only [decP, dec]; exact decodeIfaceMP_erases c h e
  | .slice t => by simp only [decP, dec]; exact decodeSliceP_erases (decP_erases c h t) _
  | .array n t => by simp only [decP, dec]; exact decodeArrayP_erases (decP_erases c h t) _ _
  | .map k t => by simp only [decP, dec]; exact decodeMapP_erases (decP_erases c h t) _ _
  | .mapSI => by simp only [decP, dec]; exact decodeMapP_erases (decodeInterfaceP_erases c h) _ _
  | .mapRaw => by simp only [decP, dec]; exact decodeMapP_erases (noPath_erases _) _ _
  | .ptr t => by simp only [decP, dec]; exact decodePointerP_erases (decP_erases c h t) _ _
  | .struct fs => by simp only [decP, dec]; exact decodeStructP_erases (decFP_erases c h fs) _ _
  | .quoted t => by simp only [decP, dec]; exact decodeFromStringP_erases (decP_erases c h t)
  | .quotedInt t => by simp only [decP, dec]; exact decodeFromStringToIntP_erases (decP_erases c h t) _
theorem decFP_erases (c : DCfg) {dynP : Ty → PDec} {dyn : Ty → Dec} (h : ∀ t, Erases (dynP t) (dyn t)) :
    ∀ fs : List (Bytes × Ty), ErasesL (decFP c dynP fs) (decF c dyn fs)
  | [] => fun i => .inl (by simp [decFP, decF])
  | (_, t) :: fs => fun i => by
    cases i with
    | zero => exact .inr ⟨_, _, by simp [decFP], by simp [decF], decP_erases c h t⟩
    | succ i => simpa [decFP, decF] using decFP_erases c h fs i
end

theorem decNP_erases (c : DCfg) : ∀ n t, Erases (decNP c n t) (decN c n t)
  | 0, t => by simp only [decNP, decN]; exact decP_erases c (fun _ _ _ => rfl) t
  | n + 1, t => by simp only [decNP, decN]; exact decP_erases c (decNP_erases c n) t

theorem unmarshalP_erases (c : DCfg) (n : Nat) (t : Ty) (b : Bytes) (p : DV) : (unmarshalP c n t b p).1 = unmarshal c n t b p := by
  unfold unmarshalP unmarshal
  have := parseIntoP_erases (decNP_erases c n t) b p
  generalize parseIntoP (decNP c n t) b p = o at *
  rw [← this]
  obtain ⟨o, s⟩ := o
  cases o with
  | crash => rfl
  | ok => rfl
  | err => simp only []; split <;> rfl

end JC
