import Verif.Model.WorkTyped
import Verif.Lemmas.WorkIface
import Verif.Lemmas.DecSuff
/-!
The decoding functions with a count of their steps return what the decoding functions return.
-/
namespace JC
open Spec Props

variable {c : DCfg}

theorem decodeBoolW_fst : decodeBoolW.plain = decodeBool := by
  funext b p
  simp only [DecW.plain, decodeBoolW]
  unfold decodeBool
  repeat' split
  all_goals first
    | rfl
    | simp_all
    | (simp_all [inputErr]; done)
    | (rename_i h _ _; simp_all [tick_fst, inputErrW])

theorem decodeIntW_fst (k : IntKind) : (decodeIntW k).plain = decodeInt k := by
  funext b p
  simp only [DecW.plain, decodeIntW]
  cases decodeInt k b p <;> rfl

theorem decodeFloatW_fst (l : Lib) (s : Bool) : (decodeFloatW l s).plain = decodeFloat l s := by
  funext b p
  simp only [DecW.plain, decodeFloatW, decodeFloat, ← parseNumberW_fst]
  split
  · rfl
  · cases parseNumberW b with
    | mk x k => cases x with
      | fail r e => rfl
      | ok v r => simp only []; cases l.parseFloat s v <;> rfl

theorem decodeNumberW_fst : decodeNumberW.plain = decodeNumber := by
  funext b p
  simp only [DecW.plain, decodeNumberW, decodeNumber, ← parseNumberW_fst]
  split
  · rfl
  · cases parseNumberW b with
    | mk x k => cases x <;> rfl

theorem decodeFromStringW_fst (d : DecW) : (decodeFromStringW d).plain = decodeFromString d.plain := by
  funext b p
  simp only [DecW.plain, decodeFromStringW, decodeFromString]
  split
  · rfl
  · cases parseStringUnquote b [] with
    | panic => rfl
    | fail r e => rfl
    | ok v b' n =>
      simp only []
      cases d v p with
      | mk x k => cases x <;> simp only [skipSpacesW_fst]

theorem decodeFromStringToIntW_fst (l : Lib) (d : DecW) : (decodeFromStringToIntW l d).plain = decodeFromStringToInt l d.plain := by
  funext b p
  simp only [DecW.plain, decodeFromStringToIntW, decodeFromStringToInt]
  split
  · rfl
  split
  · rfl
  split
  · rfl
  · cases parseStringUnquote b [] with
    | panic => rfl
    | fail r e => rfl
    | ok v b' n =>
      simp only [← parseNumberW_fst, ← parseValueW_fst]
      cases d (stripZeroes v) p with
      | mk x k =>
        cases x with
        | crash c => rfl
        | ok p r => rfl
        | err p r e =>
          simp only []
          split
          · rfl
          · cases parseNumberW (stripZeroes v) with
            | mk y m => cases y with
              | ok _ _ => rfl
              | fail _ _ =>
                simp only []
                cases parseValueW (stripZeroes v) with
                | mk z o => cases z <;> rfl

theorem decodeDurationW_fst (l : Lib) : (decodeDurationW l).plain = decodeDuration l := by
  funext b p
  simp only [DecW.plain, decodeDurationW, decodeDuration]
  split
  · rfl
  · cases b with
    | nil => rfl
    | cons c t =>
      simp only [indexByteW_fst]
      split
      · cases parseInt (c :: t) <;> rfl
      split
      · rfl
      · cases indexByte t (ch! '"') with
        | none => rfl
        | some j => simp only []; cases l.parseDuration (t.take j) <;> rfl

theorem decodeTimeW_fst (l : Lib) : (decodeTimeW l).plain = decodeTime l := by
  funext b p
  simp only [DecW.plain, decodeTimeW, decodeTime]
  split
  · rfl
  · cases b with
    | nil => rfl
    | cons c t =>
      simp only [indexByteW_fst]
      split
      · rfl
      · cases indexByte t (ch! '"') with
        | none => rfl
        | some j => simp only []; cases l.parseTime (t.take j) <;> rfl

theorem arrayRestW_fst (p : DV) : ∀ n b, (arrayRestW p n b).1 = arrayRest p n b
  | 0, _ => rfl
  | n + 1, b => by
    simp only [arrayRestW, arrayRest, skipSpacesW_fst]
    cases skipSpaces b with
    | nil => rfl
    | cons c t =>
      simp only []
      split
      · rfl
      · have e : (if c = ch! ',' then skipSpacesW t else (c :: t, 0)).1 = if c = ch! ',' then skipSpaces t else c :: t := by
          split
          · exact skipSpacesW_fst t
          · rfl
        rw [e, ← parseValueW_fst]
        cases parseValueW (if c = ch! ',' then skipSpaces t else c :: t) with
        | mk x k => cases x with
          | fail r e => rfl
          | ok v r => simp only [tick_fst]; exact arrayRestW_fst p n r

theorem arrayElemsW_fst (d : DecW) (z : DV) : ∀ n first done mem b,
    (arrayElemsW d z first done n mem b).1 = arrayElems d.plain z first done n mem b := by
  intro n
  induction n with
  | zero => intro first done mem b; simp only [arrayElemsW, arrayElems, tick_fst, arrayRestW_fst]
  | succ n ih =>
    intro first done mem b
    have elem : ∀ b, (arrayNextW (d b (mem.headD z)) (fun x => .array (done ++ x :: mem.tail))
        fun x r => arrayElemsW d z false (done ++ [x]) n mem.tail r).1 =
        match d.plain b (mem.headD z) with
        | .crash c => .crash c
        | .err x r e => .err (.array (done ++ x :: mem.tail)) r e
        | .ok x r => arrayElems d.plain z false (done ++ [x]) n mem.tail r := by
      intro b
      simp only [DecW.plain]
      cases d b (mem.headD z) with
      | mk y l => cases y with
        | crash c => rfl
        | err x r e => rfl
        | ok v r => simp only [arrayNextW, tick_fst]; rw [ih]
    simp only [arrayElemsW, arrayElems, skipSpacesW_fst]
    split
    · rw [tick_fst]; exact elem _
    · cases skipSpaces b with
      | nil => rfl
      | cons c t =>
        simp only []
        split
        · rw [tick_fst]; exact elem _
        · split <;> rfl

theorem decodeArrayW_fst (n : Nat) (d : DecW) (z : DV) : (decodeArrayW n d z).plain = decodeArray n d.plain z := by
  funext b p
  simp only [DecW.plain, decodeArrayW, decodeArray]
  split
  · rfl
  · cases b with
    | nil => rfl
    | cons c t =>
      simp only []
      split
      · rfl
      · rw [tick_fst, arrayElemsW_fst]; rfl

theorem sliceLoopT_fst (d : DecW) (z : DV) (input : Bytes) : ∀ n done mem b,
    (sliceLoopT d z input n done mem b).1 = sliceLoop d.plain z input n done mem b := by
  intro n
  induction n with
  | zero => intros; rfl
  | succ n ih =>
    intro done mem b
    have elem : ∀ b, (elemW (d b (mem.headD z)) (parseValueW input) (fun x => .slice done (x :: mem.tail))
        fun x r => sliceLoopT d z input n (done ++ [x]) mem.tail r).1 =
        match d.plain b (mem.headD z) with
        | .crash c => .crash c
        | .err x _ e =>
          match parseValue input with
          | .fail r e2 => .err (.slice done (x :: mem.tail)) r e2
          | .ok _ r => .err (.slice done (x :: mem.tail)) r e
        | .ok x r => sliceLoop d.plain z input n (done ++ [x]) mem.tail r := by
      intro b
      simp only [DecW.plain]
      cases d b (mem.headD z) with
      | mk y l =>
        cases y with
        | crash c => rfl
        | err x r e =>
          simp only [elemW, ← parseValueW_fst]
          cases parseValueW input with
          | mk z o => cases z <;> rfl
        | ok v r => simp only [elemW, tick_fst]; rw [ih]
    simp only [sliceLoopT, sliceLoop, skipSpacesW_fst]
    split
    · rfl
    · split
      · rw [tick_fst]; exact elem _
      · cases skipSpaces b with
        | nil => rfl
        | cons c t =>
          simp only []
          split
          · rfl
          · rw [tick_fst]; exact elem _

theorem decodeSliceT_fst (d : DecW) (z : DV) : (decodeSliceT d z).plain = decodeSlice d.plain z := by
  funext b p
  simp only [DecW.plain, decodeSliceT, decodeSlice]
  split
  · rfl
  · cases b with
    | nil => rfl
    | cons c t =>
      simp only []
      split
      · rfl
      · rw [tick_fst, sliceLoopT_fst]; rfl

theorem decodeBytesW_fst : decodeBytesW.plain = decodeBytes := by
  funext b p
  simp only [DecW.plain, decodeBytesW]
  unfold decodeBytes
  split
  · rfl
  · cases b with
    | nil => rfl
    | cons c t =>
      simp only []
      split
      · rfl
      split
      · split
        · have e : ∀ q, (decodeSliceT (decodeIntW .uint8) (.int 0) (c :: t) q).1 = decodeSlice (decodeInt .uint8) (.int 0) (c :: t) q := by
            intro q
            have := congrFun (congrFun (decodeSliceT_fst (decodeIntW .uint8) (.int 0)) (c :: t)) q
            rw [decodeIntW_fst] at this
            exact this
          rw [e]
          rfl
        · rfl
      · cases parseStringUnquote (c :: t) [] with
        | panic => rfl
        | fail r e => rfl
        | ok s r n => simp only []; cases b64Decode s <;> rfl

theorem decodeTextUW_fst (f : Bytes → Option Err) : (decodeTextUW f).plain = decodeTextUnmarshaler f := by
  funext b p
  simp only [DecW.plain, decodeTextUW]
  cases h : parseValueW b with
  | mk x k => cases x with
    | fail r e =>
      have : parseValue b = .fail r e := by rw [← parseValueW_fst, h]
      simp only [decodeTextUnmarshaler, this]
    | ok v r => rfl

theorem decodeKeyW_fst (k : KTy) (b : Bytes) : (decodeKeyW k b).1 = decodeKey k b := by
  cases k with
  | str => exact decodeStringW_fst _ _
  | int k =>
    have := congrFun (congrFun (decodeFromStringW_fst (decodeIntW k)) b) (.int 0)
    rw [decodeIntW_fst] at this
    exact this
  | text tk =>
    have := congrFun (congrFun (decodeTextUW_fst tk.answer) b) (.user none)
    simp only [decodeKeyW, decodeKey, ← this, DecW.plain]
    cases decodeTextUW tk.answer b (.user none) with
    | mk x k => cases x <;> rfl

/-- the key function of structs -/
def structKeyD (b : Bytes) : DRes := match parseStringUnquote b [] with
  | .panic => .crash .panic
  | .fail r e => .err (.string []) r e
  | .ok s r _ => .ok (.string s) r

theorem structKeyW_fst (b : Bytes) : (structKeyW b).1 = structKeyD b := by
  simp only [structKeyW, structKeyD]
  cases parseStringUnquote b [] <;> rfl

theorem memberKeyT_fst (kw : Bytes → DRes × Nat) (key : Bytes → DRes) (h : ∀ b, (kw b).1 = key b) (first : Bool) (b : Bytes) :
    (memberKeyT kw first b).1 = memberKey key first b := by
  have rest : ∀ b, (keyRestW kw b).1 = memberKey key true b := by
    intro b
    unfold memberKey keyRestW
    simp only [if_true]
    split
    · rfl
    · rw [← h]
      cases kw b with
      | mk x k =>
        cases x with
        | crash c => rfl
        | err p r e => rfl
        | ok d r =>
          simp only [skipSpacesW_fst]
          cases skipSpaces r with
          | nil => rfl
          | cons c t => simp only []; split <;> simp only [skipSpacesW_fst]
  cases first with
  | true => exact rest b
  | false =>
    cases b with
    | nil => rfl
    | cons c t =>
      simp only [memberKeyT, Bool.false_eq_true, if_false]
      split
      · simp only [memberKey, Bool.false_eq_true, if_false, if_pos ‹_›]
      · rw [tick_fst, rest, skipSpacesW_fst]
        simp only [memberKey, Bool.false_eq_true, if_false, if_neg ‹_›, if_true]

theorem mapLoopT_fst (k : KTy) (d : DecW) (z p : DV) (fr : Bool) (input : Bytes) : ∀ n first m b,
    (mapLoopT k d z p fr input n first m b).1 = mapLoopD k d.plain z p fr input n first m b := by
  intro n
  induction n with
  | zero => intros; rfl
  | succ n ih =>
    intro first m b
    simp only [mapLoopT, mapLoopD, skipSpacesW_fst, ← memberKeyT_fst _ _ (decodeKeyW_fst k)]
    split
    · rfl
    · cases memberKeyT (decodeKeyW k) first (skipSpaces b) with
      | mk x l =>
        rcases x with c | ⟨r, e⟩ | ⟨kv, b⟩
        · rfl
        · rfl
        · simp only [tick_fst, DecW.plain]
          cases d b z with
          | mk y l =>
            cases y with
            | crash c => rfl
            | err x r e =>
              simp only [elemW, ← parseValueW_fst]
              cases parseValueW input with
              | mk z o => cases z <;> rfl
            | ok v r => simp only [elemW, tick_fst]; rw [ih]

theorem decodeMapT_fst (k : KTy) (d : DecW) (z : DV) : (decodeMapT k d z).plain = decodeMap k d.plain z := by
  funext b p
  simp only [DecW.plain, decodeMapT, decodeMap]
  split
  · rfl
  · cases b with
    | nil => rfl
    | cons c t =>
      simp only []
      split
      · rfl
      · rw [tick_fst]
        cases p <;> simp only [mapLoopT_fst] <;> rfl

theorem structLoopT_fst (c : DCfg) (names : List Bytes) (ds : List DecW) (input : Bytes) : ∀ n first fs b,
    (structLoopT c names ds input n first fs b).1 = structLoopD c names (ds.map DecW.plain) input n first fs b := by
  intro n
  induction n with
  | zero => intros; rfl
  | succ n ih =>
    intro first fs b
    have hk := memberKeyT_fst _ _ structKeyW_fst first (skipSpaces b)
    unfold structKeyD at hk
    simp only [structLoopT, structLoopD, skipSpacesW_fst]
    erw [← hk]
    split
    · rfl
    · cases memberKeyT structKeyW first (skipSpaces b) with
      | mk x l =>
        rcases x with c | ⟨r, e⟩ | ⟨kv, b⟩
        · rfl
        · rfl
        · simp only []
          cases hp : pickField c names (match kv with | .string s => s | _ => []) with
          | none =>
            simp only []
            split
            · rfl
            · rw [← parseValueW_fst]
              cases parseValueW b with
              | mk z o => cases z with
                | fail r e => rfl
                | ok v r => simp only [tick_fst]; exact ih _ _ _
          | some i =>
            simp only [List.getElem?_map]
            cases hd : ds[i]? with
            | none => rfl
            | some d =>
              simp only [tick_fst, Option.map_some, DecW.plain]
              cases d b (fs.getD i (.user none)) with
              | mk y l =>
                cases y with
                | crash c => rfl
                | err x r e =>
                  simp only [elemW, ← parseValueW_fst]
                  cases parseValueW input with
                  | mk z o => cases z <;> rfl
                | ok v r => simp only [elemW, tick_fst]; rw [ih]

theorem decodeStructT_fst (names : List Bytes) (ds : List DecW) : (decodeStructT c names ds).plain = decodeStruct c names (ds.map DecW.plain) := by
  funext b p
  simp only [DecW.plain, decodeStructT, decodeStruct]
  split
  · rfl
  · cases b with
    | nil => rfl
    | cons ch t =>
      simp only []
      split
      · rfl
      · rw [tick_fst, structLoopT_fst]; rfl

theorem decodePointerW_fst (e : Bool) (d : DecW) (z : DV) : (decodePointerW e d z).plain = decodePointer e d.plain z := by
  funext b p
  simp only [DecW.plain, decodePointerW, decodePointer]
  split
  · cases p with
    | ptr v => simp only []; split <;> rfl
    | _ => rfl
  · cases p <;> rfl

theorem decodeRawW_fst : decodeRawW.plain = decodeRawMessage := by
  funext b p
  simp only [DecW.plain, decodeRawW, decodeRawMessage, ← parseValueW_fst]
  cases parseValueW b with
  | mk x k => cases x <;> rfl

theorem parseIntoW_fst (d : DecW) : (parseIntoW d).plain = parseInto d.plain := by
  funext b p
  simp only [DecW.plain, parseIntoW, parseInto, skipSpacesW_fst]
  cases d (skipSpaces b) p with
  | mk x k => cases x <;> simp only [skipSpacesW_fst]

/-- The counting function for the pointers in interfaces. -/
def plainAll (dyn : Ty → DecW) : Ty → Dec := fun t => (dyn t).plain

theorem decodeInterfaceW_fst (dyn : Ty → DecW) : (decodeInterfaceW c dyn).plain = decodeInterface c (plainAll dyn) := by
  have hi : ∀ b p, (ifaceValueW c (b.length + 1) b p).1 = ifaceValue c (b.length + 1) b p := fun b p => by
    rw [← ifaceValueW_fst]; rfl
  funext b p
  simp only [DecW.plain, decodeInterfaceW, decodeInterface]
  cases p with
  | iface t v =>
    cases t with
    | ptr t =>
      cases v with
      | ptr w =>
        simp only []
        split
        · rfl
        · rw [show plainAll dyn t = (dyn t).plain from rfl, ← parseIntoW_fst]
          simp only [DecW.plain]
          cases parseIntoW (dyn t) b w with
          | mk x k => cases x <;> rfl
      | _ =>
        simp only []
        split <;> rfl
    | _ => exact hi _ _
  | _ => exact hi _ _

theorem decodeIfaceMW_fst (dyn : Ty → DecW) (e : Bool) : (decodeIfaceMW c dyn e).plain = decodeIfaceM c (plainAll dyn) e := by
  have hd : ∀ b p, (parseIntoW (decodeInterfaceW c dyn) b p).1 = parseInto (decodeInterface c (plainAll dyn)) b p := by
    intro b p
    rw [← decodeInterfaceW_fst, ← parseIntoW_fst]; rfl
  have hm : ∀ t b p, (parseIntoW (dyn t) b p).1 = parseInto (plainAll dyn t) b p := by
    intro t b p
    rw [show plainAll dyn t = (dyn t).plain from rfl, ← parseIntoW_fst]; rfl
  funext b p
  simp only [DecW.plain, decodeIfaceMW, decodeIfaceM]
  split
  · rfl
  · cases p with
    | iface t v =>
      cases t with
      | ptr t => cases v with
        | ptr w => simp only [hm]
        | _ => rfl
      | _ => rfl
    | _ => simp only []; split <;> simp only [tick_fst, hd] <;> rfl

mutual
theorem decW_fst (dyn : Ty → DecW) : ∀ t, (decW c dyn t).plain = dec c (plainAll dyn) t
  | .bool => decodeBoolW_fst
  | .int k => decodeIntW_fst k
  | .float32 => decodeFloatW_fst _ _
  | .float64 => decodeFloatW_fst _ _
  | .number => decodeNumberW_fst
  | .string => by funext b p; exact decodeStringW_fst b p
  | .bytes => decodeBytesW_fst
  | .duration => decodeDurationW_fst _
  | .time => decodeTimeW_fst _
  | .raw => decodeRawW_fst
  | .iface => decodeInterfaceW_fst dyn
  | .ifaceM e => decodeIfaceMW_fst dyn e
  | .slice t => by rw [decW, dec, decodeSliceT_fst, decW_fst dyn t]
  | .array n t => by rw [decW, dec, decodeArrayW_fst, decW_fst dyn t]
  | .map k t => by rw [decW, dec, decodeMapT_fst, decW_fst dyn t]
  | .mapSI => by rw [decW, dec, decodeMapT_fst, decodeInterfaceW_fst]
  | .mapRaw => by rw [decW, dec, decodeMapT_fst, decodeRawW_fst]
  | .ptr t => by rw [decW, dec, decodePointerW_fst, decW_fst dyn t]
  | .struct fs => by rw [decW, dec, decodeStructT_fst, decWF_fst dyn fs]
  | .quoted t => by rw [decW, dec, decodeFromStringW_fst, decW_fst dyn t]
  | .quotedInt t => by rw [decW, dec, decodeFromStringToIntW_fst, decW_fst dyn t]
  | .jsonU f => rfl
  | .textU f => decodeTextUW_fst f
  | .unsupported => rfl
theorem decWF_fst (dyn : Ty → DecW) : ∀ fs, (decWF c dyn fs).map DecW.plain = decF c (plainAll dyn) fs
  | [] => rfl
  | (_, t) :: fs => by rw [decWF, decF, List.map_cons, decW_fst dyn t, decWF_fst dyn fs]
end

theorem decNW_fst : ∀ n t, (decNW c n t).plain = decN c n t
  | 0, t => decW_fst _ t
  | n + 1, t => by
    rw [decNW, decN, decW_fst]
    congr 1
    funext t
    exact decNW_fst n t

theorem unmarshalW_fst (n : Nat) (t : Ty) (b : Bytes) (p : DV) : (unmarshalW c n t b p).1 = unmarshal c n t b p := by
  have := congrFun (congrFun (parseIntoW_fst (decNW c n t)) b) p
  rw [decNW_fst] at this
  unfold unmarshalW unmarshal
  rw [← this]
  simp only [DecW.plain]
  cases parseIntoW (decNW c n t) b p with
  | mk x k => cases x <;> rfl

end JC
