import Verif.Lemmas.DecTrail
/-! Errors on valid input: which decoders never call a value a syntax error, and what
they leave behind when they fail. -/
namespace JC
open Spec Props

/-- failure on a value is never a syntax error -/
def MildErr (P : DV → Prop) (dec : Dec) : Prop := ∀ j v, Derives (.value j) v → ∀ r, Follow j r →
  ∀ p, P p → ∀ x r' e, dec (v ++ r) p = .err x r' e → e ≠ .syntax

/-- failure on a value leaves what follows -/
def LeftErr (P : DV → Prop) (dec : Dec) : Prop := ∀ j v, Derives (.value j) v → ∀ r, Follow j r →
  ∀ p, P p → ∀ x r' e, dec (v ++ r) p = .err x r' e → r' = r ∨ r' = skipSpaces r

theorem inputErr_mild {j : Json} {v r : Bytes} (hj : Derives (.value j) v) (hf : Follow j r) {p x : DV} {r' : Bytes} {e : Err}
    (h : inputErr (v ++ r) p = .err x r' e) : e ≠ .syntax ∧ (r' = r ∨ r' = skipSpaces r) := by
  rw [inputErr_value hj hf] at h
  injection h with _ h1 h2
  subst h1 h2
  exact ⟨by simp, .inr rfl⟩

/-! ### integers -/

theorem inputError_mild {j : Json} {v r : Bytes} (hj : Derives (.value j) v) (hf : Follow j r) : (inputError (v ++ r)).2 ≠ .syntax := by
  have := inputErr_value hj hf (.bool true)
  unfold inputErr at this
  injection this with _ _ h
  rw [h]; simp

theorem intTail_mild {b : Bytes} {z : Int} {n : Nat} {r : Bytes} {e : Err} (h : intTail b z n = .fail r e) : e ≠ .syntax := by
  unfold intTail at h
  repeat' split at h
  all_goals first
    | (injection h with _ h; subst h; simp; done)
    | simp at h

theorem jnumber_parts {s r : Bytes} (hs : JNumber s) (hr : NumStop r) : ∃ i q, (s ++ r = i ++ q ∨ s ++ r = 0x2d :: (i ++ q)) ∧ JInt i ∧ NoDig q := by
  obtain ⟨sgn, i, f, x, hsg, hi, hf, hx⟩ := hs
  refine ⟨i, f ++ x ++ r, ?_, hi, ?_⟩
  · rcases hsg with rfl | rfl
    · left; simp
    · right; simp
  · intro c t ec hd
    cases hf with
    | some ds _ => injection ec with e1 _; subst e1; exact absurd hd (by decide)
    | none =>
      cases hx with
      | none =>
        simp only [List.nil_append] at ec
        subst ec
        have := (hr c rfl).1
        rw [(isDigit_iff c).2 hd] at this
        simp at this
      | some e sg ds he _ _ =>
        injection ec with e1 _
        rcases he with rfl | rfl <;> (subst e1; exact absurd hd (by decide))

theorem parseInt_mild {j : Json} {v r : Bytes} (hj : Derives (.value j) v) (hf : Follow j r) {r' : Bytes} {e : Err}
    (h : parseInt (v ++ r) = .fail r' e) : e ≠ .syntax := by
  by_cases hnum : ∃ s, j = .num s
  · obtain ⟨s, rfl⟩ := hnum
    cases hj with
    | num _ hs =>
      obtain ⟨i, q, eb, hi, hq⟩ := jnumber_parts hs hf
      rcases eb with eb | eb
      · rw [eb] at h
        obtain ⟨hne, hdg⟩ := hi.digits
        cases i with
        | nil => exact absurd rfl hne
        | cons c t =>
          rw [List.cons_append] at h
          have hc : c ≠ 0x2d := (digit_facts (hdg c (by simp))).2.1
          rcases parseInt_pos_eq c (t ++ q) hc with ⟨i', r'', _, _, _, hp⟩ | ⟨hno, _⟩
          · rw [hp] at h
            split at h
            · exact intTail_mild h
            · injection h with _ h; subst h; simp
          · exact (hno (c :: t) q rfl hi hq).elim
      · rw [eb] at h
        rcases parseInt_neg_eq (i ++ q) with ⟨i', r'', _, _, _, hp⟩ | ⟨hno, _⟩
        · rw [hp] at h
          split at h
          · exact intTail_mild h
          · injection h with _ h; subst h; simp
        · exact (hno i q rfl hi hq).elim
  · obtain ⟨c, t, e1, hc⟩ := derives_head hj
    have hnd : ¬ (c = 0x2d ∨ Digit c) := by
      intro hd
      have hdr := digit_range hd
      cases j <;> simp only [headOk] at hc <;> simp_all
    have : parseInt (v ++ r) = intFinish (v ++ r) 0 .noDigit := by
      rw [e1]
      unfold parseInt
      simp only [List.cons_append]
      rw [if_neg (fun h => hnd (.inl h)), if_neg, posLoop_other (fun h => hnd (.inr h))]
      rintro ⟨rfl, _⟩
      exact hnd (.inr (by unfold Digit; decide))
    rw [this] at h
    injection h with _ h; subst h
    exact inputError_mild hj hf

theorem parseUint_mild {j : Json} {v r : Bytes} (hj : Derives (.value j) v) (hf : Follow j r) {r' : Bytes} {e : Err}
    (h : parseUint (v ++ r) = .fail r' e) : e ≠ .syntax := by
  have other : ∀ c t, v ++ r = c :: t → ¬ Digit c → e ≠ .syntax := by
    intro c t e1 hnd
    have : parseUint (v ++ r) = intFinish (v ++ r) 0 .noDigit := by
      rw [e1]
      unfold parseUint
      simp only []
      rw [if_neg, posLoop_other hnd]
      rintro ⟨rfl, _⟩
      exact hnd (by unfold Digit; decide)
    rw [this] at h
    injection h with _ h; subst h
    exact inputError_mild hj hf
  by_cases hnum : ∃ s, j = .num s
  · obtain ⟨s, rfl⟩ := hnum
    have hj' := hj
    cases hj' with
    | num _ hs =>
      obtain ⟨i, q, eb, hi, hq⟩ := jnumber_parts hs hf
      rcases eb with eb | eb
      · rw [eb] at h
        rcases parseUint_eq (i ++ q) with ⟨i', r'', _, _, _, hp⟩ | ⟨hno, _⟩
        · rw [hp] at h
          split at h
          · exact intTail_mild h
          · injection h with _ h; subst h; simp
        · exact (hno i q rfl hi hq).elim
      · exact other _ _ eb (by unfold Digit; decide)
  · obtain ⟨c, t, e1, hc⟩ := derives_head hj
    refine other c (t ++ r) (by rw [e1]; rfl) ?_
    intro hd
    have hdr := digit_range (.inr hd)
    cases j <;> simp only [headOk] at hc <;> simp_all

theorem int_mildErr (P : DV → Prop) (k : IntKind) : MildErr P (decodeInt k) := by
  intro j v hj r hf p _ x r' e h
  unfold decodeInt at h
  split at h
  · simp at h
  · simp only [] at h
    split at h
    · simp at h
    · rename_i e' he
      injection h with _ _ h; subst h
      cases k <;> simp only [decodeIntKind, decodeInt64, decodeUint64, decodeIntSized, decodeUintSized] at he
      all_goals
        repeat' split at he
        all_goals first
          | simp at he; done
          | (simp only [Option.some.injEq] at he; subst he; exact parseInt_mild hj hf (by assumption))
          | (simp only [Option.some.injEq] at he; subst he; exact parseUint_mild hj hf (by assumption))
          | (simp only [Option.some.injEq] at he; subst he; simp; done)

/-! ### loops -/

theorem slice_elems_mild {P : DV → Prop} {dec : Dec} {z : DV} (hd : TrailOk dec) (hm : MildErr P dec) (hz : P z) {input rin : Bytes}
    (hin : ∃ v, parseValue input = .ok v rin) :
    ∀ (xs : List Json) (m : Bytes), Derives (.elems xs) m → ∀ (done mem : List DV) (n : Nat) (r : Bytes) x r' e, (∀ x ∈ mem, P x) →
      sliceElem dec z input n done mem (skipSpaces (m ++ 0x5d :: r)) = .err x r' e → e ≠ .syntax := by
  intro xs
  induction xs with
  | nil => intro m h; cases h
  | cons j xs ih =>
    intro m h done mem n r x r' e hmem he
    have step : ∀ w1 b T, Ws w1 → Derives (.value j) b → NumStop T →
        sliceElem dec z input n done mem (skipSpaces (w1 ++ (b ++ T))) = .err x r' e →
        e ≠ .syntax ∨ ∃ y, sliceLoop dec z input n (done ++ [y]) mem.tail T = .err x r' e := by
      intro w1 b T hw hj hT h
      rw [skip_ws_value hw hj] at h
      unfold sliceElem at h
      split at h
      · simp at h
      · rename_i e2
        obtain ⟨vin, hin⟩ := hin
        rw [hin] at h
        injection h with _ _ h; subst h
        exact .inl (hm j b hj T (follow_of_numStop hT) _ (mem_headD hz hmem) _ _ _ e2)
      · rename_i y r2 e2
        refine .inr ⟨y, ?_⟩
        rw [← h]
        exact sliceLoop_skip (skip_or (hd j b hj T (follow_of_numStop hT) _ _ _ e2)).symm
    cases h with
    | elemOne w1 w2 _ b hw1 hw2 hj =>
      have e' : w1 ++ b ++ w2 ++ 0x5d :: r = w1 ++ (b ++ (w2 ++ 0x5d :: r)) := by simp
      rw [e'] at he
      rcases step w1 b _ hw1 hj (numStop_ws_cons hw2 (by simp)) he with h | ⟨y, h⟩
      · exact h
      · cases n with
        | zero => simp [sliceLoop] at h
        | succ n =>
          rw [sliceLoop_close (skip_ws_cons hw2 (by decide) r)] at h
          simp at h
    | elemCons w1 w2 _ b _ bs hw1 hw2 hj hbs =>
      have e' : w1 ++ b ++ w2 ++ 0x2c :: bs ++ 0x5d :: r = w1 ++ (b ++ (w2 ++ 0x2c :: (bs ++ 0x5d :: r))) := by simp
      rw [e'] at he
      rcases step w1 b _ hw1 hj (numStop_ws_cons hw2 (by simp)) he with h | ⟨y, h⟩
      · exact h
      · cases n with
        | zero => simp [sliceLoop] at h
        | succ n =>
          rw [sliceLoop_comma (by simp) (skip_ws_cons hw2 (by decide) _)] at h
          exact ih bs hbs _ _ _ _ _ _ _ (mem_tail hmem) h

theorem slice_mildErr {P PS : DV → Prop} {dec : Dec} {z : DV} (hd : TrailOk dec) (hm : MildErr P dec) (hz : P z)
    (hs : ∀ d s, PS (.slice d s) → ∀ y ∈ d ++ s, P y) : MildErr PS (decodeSlice dec z) := by
  intro j v hj r hf p hp x r' e h
  have hpv := parseValue_complete hj hf
  have hie := @inputErr_mild j v r hj hf p x r' e
  rw [decodeSlice_eq] at h
  split at h
  · simp at h
  · obtain ⟨c, t, rfl, hc⟩ := derives_head hj
    simp only [List.cons_append] at h hie hpv
    split at h
    · exact (hie h).1
    · rename_i hb0
      have hc5 : c = 0x5b := Classical.byContradiction fun h => hb0 (.inr h)
      subst hc5
      cases hj with
      | num s hs => exact absurd rfl (digit_range hc).2.2.2.2.1
      | str s hs => simp [headOk] at hc
      | arrNil w hw =>
        rw [show w ++ [0x5d] ++ r = w ++ 0x5d :: r by simp, sliceLoop_close (skip_ws_cons hw (by decide) r)] at h
        simp at h
      | arr xs b hb =>
        obtain ⟨c, t, eh, h1, h2⟩ := derives_elems_head hb (0x5d :: r)
        rw [show b ++ [0x5d] ++ r = b ++ 0x5d :: r by simp, sliceLoop_succ, if_neg (by rw [eh]; simpa using h2),
          if_pos (by rfl : (List.isEmpty ([] : List DV)) = true)] at h
        rw [show b ++ [0x5d] ++ r = b ++ 0x5d :: r by simp] at hpv
        refine slice_elems_mild hd hm hz ⟨_, hpv⟩ xs b hb _ _ _ _ _ _ _ ?_ h
        cases p <;> simp [sliceMem] <;> exact fun x hx => hs _ _ hp x (by simpa using hx)

theorem slice_leftErr {P : DV → Prop} {dec : Dec} {z : DV} (hm : MildErr P (decodeSlice dec z)) : LeftErr P (decodeSlice dec z) := by
  intro j v hj r hf p hp x r' e h
  have hne := hm j v hj r hf p hp x r' e h
  have hpv := parseValue_complete hj hf
  have hie := @inputErr_mild j v r hj hf p x r' e
  unfold decodeSlice at h
  split at h
  · simp at h
  · obtain ⟨c, t, e1, hc⟩ := derives_head hj
    rw [e1] at hie hpv h
    simp only [List.cons_append] at hie hpv h
    split at h
    · exact (hie h).2
    · rcases slice_elems_err ⟨_, hpv⟩ _ _ _ _ _ _ _ h with h | rfl
      · exact absurd h hne
      · exact .inl rfl

/-- the key decoder takes every string -/
def KeyTotal (k : KTy) : Prop := ∀ raw, JString raw → ∀ r, ∃ d, decodeKey k (raw ++ r) = .ok d r

theorem str_total : KeyTotal .str := fun _ h r => ⟨_, decodeString_ok h r _⟩

theorem text_total {tk : TextKey} (h : ∀ s, tk.answer s = none) : KeyTotal (.text tk) := fun raw hr r => by
  refine ⟨.user (some (tk.key (unq raw))), ?_⟩
  rw [decodeKey_text_str tk hr, h]

theorem map_members_mild {P : DV → Prop} {k : KTy} (hkt : KeyTotal k) {dec : Dec} {z : DV} (hd : TrailOk dec) (hm : MildErr P dec) (hz : P z) (p : DV) (fresh : Bool)
    {input rin : Bytes} (hin : ∃ v, parseValue input = .ok v rin) :
    ∀ (ms : List (Bytes × Json)) (u : Bytes), Derives (.members ms) u → ∀ (m : List (MK × DV)) (n : Nat) (r : Bytes) x r' e,
      mapMember k dec z p fresh input n m (skipSpaces (u ++ 0x7d :: r)) = .err x r' e → e ≠ .syntax := by
  intro ms
  induction ms with
  | nil => intro u h; cases h
  | cons kj ms ih =>
    intro u h m n r x r' e he
    obtain ⟨raw, j⟩ := kj
    have step : ∀ w1 w2 w3 b T, Ws w1 → JString raw → Ws w2 → Ws w3 → Derives (.value j) b → NumStop T →
        mapMember k dec z p fresh input n m (skipSpaces (w1 ++ (raw ++ (w2 ++ 0x3a :: (w3 ++ (b ++ T)))))) = .err x r' e →
        e ≠ .syntax ∨ ∃ m', mapLoopD k dec z p fresh input n false m' T = .err x r' e := by
      intro w1 w2 w3 b T hw1 hk hw2 hw3 hj hT h
      rw [skipSpaces_ws_append hw1, jstring_skip hk] at h
      obtain ⟨d, hkey⟩ := hkt raw hk (w2 ++ 0x3a :: (w3 ++ (b ++ T)))
      rw [mapMember, memberKey_ok hk hw2 hkey, skip_ws_value hw3 hj] at h
      simp only [] at h
      split at h
      · simp at h
      · rename_i e2
        obtain ⟨vin, hin⟩ := hin
        rw [hin] at h
        injection h with _ _ h; subst h
        exact .inl (hm j b hj T (follow_of_numStop hT) _ hz _ _ _ e2)
      · rename_i y r2 e2
        refine .inr ⟨mapSet (keyOf d) y m, ?_⟩
        rw [← h]
        exact mapLoopD_skip (skip_or (hd j b hj T (follow_of_numStop hT) _ _ _ e2)).symm
    cases h with
    | memOne w1 w2 w3 w4 _ _ b hw1 hw2 hw3 hw4 hk hj =>
      have e' : w1 ++ raw ++ w2 ++ 0x3a :: (w3 ++ b ++ w4) ++ 0x7d :: r =
          w1 ++ (raw ++ (w2 ++ 0x3a :: (w3 ++ (b ++ (w4 ++ 0x7d :: r))))) := by simp
      rw [e'] at he
      rcases step w1 w2 w3 b _ hw1 hk hw2 hw3 hj (numStop_ws_cons hw4 (by simp)) he with h | ⟨m', h⟩
      · exact h
      · cases n with
        | zero => simp [mapLoopD] at h
        | succ n =>
          rw [mapLoopD_close (skip_ws_cons hw4 (by decide) r)] at h
          simp at h
    | memCons w1 w2 w3 w4 _ _ b _ bs hw1 hw2 hw3 hw4 hk hj hbs =>
      have e' : w1 ++ raw ++ w2 ++ 0x3a :: (w3 ++ b ++ w4 ++ 0x2c :: bs) ++ 0x7d :: r =
          w1 ++ (raw ++ (w2 ++ 0x3a :: (w3 ++ (b ++ (w4 ++ 0x2c :: (bs ++ 0x7d :: r)))))) := by simp
      rw [e'] at he
      rcases step w1 w2 w3 b _ hw1 hk hw2 hw3 hj (numStop_ws_cons hw4 (by simp)) he with h | ⟨m', h⟩
      · exact h
      · cases n with
        | zero => simp [mapLoopD] at h
        | succ n =>
          rw [mapLoopD_comma (skip_ws_cons hw4 (by decide) _)] at h
          exact ih bs hbs _ _ _ _ _ _ h

theorem map_mildErr {P : DV → Prop} (PS : DV → Prop) {k : KTy} (hkt : KeyTotal k) {dec : Dec} {z : DV} (hd : TrailOk dec) (hm : MildErr P dec) (hz : P z) :
    MildErr PS (decodeMap k dec z) := by
  intro j v hj r hf p _ x r' e h
  have hpv := parseValue_complete hj hf
  have hie := @inputErr_mild j v r hj hf p x r' e
  have loop : ∀ (b : Bytes) (fresh : Bool) n (m : List (MK × DV)) (ms : List (Bytes × Json)) (input : Bytes), (∃ v, parseValue input = .ok v r) →
      Derives (.members ms) b → mapLoopD k dec z p fresh input n true m (b ++ 0x7d :: r) = .err x r' e → e ≠ .syntax := by
    intro b fresh n m ms input hin hb h
    cases n with
    | zero => simp [mapLoopD] at h
    | succ n =>
      obtain ⟨t, eh⟩ := derives_members_head hb (0x7d :: r)
      rw [mapLoopD_first (by rw [eh]; simp)] at h
      exact map_members_mild hkt hd hm hz p fresh hin ms b hb _ _ _ _ _ _ h
  have close : ∀ (w : Bytes) (fresh : Bool) n (m : List (MK × DV)) (input : Bytes), Ws w →
      mapLoopD k dec z p fresh input n true m (w ++ 0x7d :: r) = .err x r' e → e ≠ .syntax := by
    intro w fresh n m input hw h
    cases n with
    | zero => simp [mapLoopD] at h
    | succ n =>
      rw [mapLoopD_close (skip_ws_cons hw (by decide) r)] at h
      simp at h
  unfold decodeMap at h
  split at h
  · simp at h
  · obtain ⟨c, t, rfl, hc⟩ := derives_head hj
    simp only [List.cons_append] at h hie hpv
    split at h
    · exact (hie h).1
    · rename_i hb0
      have hc5 : c = 0x7b := Classical.byContradiction fun h => hb0 (.inr h)
      subst hc5
      cases hj with
      | num s hs => exact absurd rfl (digit_range hc).2.2.2.2.2.1
      | str s hs => simp [headOk] at hc
      | objNil w hw =>
        rw [show w ++ [0x7d] ++ r = w ++ 0x7d :: r by simp] at h
        split at h
        · exact close _ _ _ _ _ hw h
        · exact close _ _ _ _ _ hw h
      | obj ms b hb =>
        rw [show b ++ [0x7d] ++ r = b ++ 0x7d :: r by simp] at h hpv
        split at h
        · exact loop _ _ _ _ _ _ ⟨_, hpv⟩ hb h
        · exact loop _ _ _ _ _ _ ⟨_, hpv⟩ hb h

theorem map_leftErr {P : DV → Prop} {k : KTy} (hkt : KeyTotal k) {dec : Dec} {z : DV} (hd : TrailOk dec)
    (hm : MildErr P (decodeMap k dec z)) : LeftErr P (decodeMap k dec z) := by
  intro j v hj r hf p hp x r' e h
  have hne := hm j v hj r hf p hp x r' e h
  rcases map_value_err hd k hj hf h with h | h | rfl | ⟨⟨raw, T, y, hr, hk⟩, _⟩
  · exact (inputErr_mild hj hf h).2
  · exact absurd h hne
  · exact .inl rfl
  · obtain ⟨d, hk'⟩ := hkt raw hr T
    rw [hk] at hk'; cases hk'

theorem struct_members_mild {P : DV → Prop} {decs : List Dec} (hd : ∀ d ∈ decs, TrailOk d) (hm : ∀ d ∈ decs, MildErr P d)
    (hpr : ∀ d ∈ decs, Pres P d) (hu : P (.user none)) {c : DCfg} (hc : c.disallowUnknown = false) (names : List Bytes) {input r : Bytes}
    (hin : ∃ v, parseValue input = .ok v r) :
    ∀ (ms : List (Bytes × Json)) (u : Bytes), Derives (.members ms) u → ∀ (cells : List DV) (n : Nat) x r' e, (∀ y ∈ cells, P y) →
      structMember c names decs input n cells (skipSpaces (u ++ 0x7d :: r)) = .err x r' e → e ≠ .syntax ∧ r' = r := by
  intro ms
  induction ms with
  | nil => intro u h; cases h
  | cons kj ms ih =>
    intro u h cells n x r' e hcells he
    obtain ⟨raw, j⟩ := kj
    have hin0 := hin
    obtain ⟨vin, hin'⟩ := hin
    have hget : ∀ i, P (cells.getD i (.user none)) := by
      intro i
      rw [List.getD_eq_getElem?_getD]
      cases hg : cells[i]? with
      | none => exact hu
      | some y => exact hcells y (List.mem_of_getElem? hg)
    have step : ∀ w1 w2 w3 b T, Ws w1 → JString raw → Ws w2 → Ws w3 → Derives (.value j) b → NumStop T →
        structMember c names decs input n cells (skipSpaces (w1 ++ (raw ++ (w2 ++ 0x3a :: (w3 ++ (b ++ T)))))) = .err x r' e →
        (e ≠ .syntax ∧ r' = r) ∨ ∃ cells', (∀ y ∈ cells', P y) ∧ structLoopD c names decs input n false cells' T = .err x r' e := by
      intro w1 w2 w3 b T hw1 hk hw2 hw3 hj hT h
      rw [skipSpaces_ws_append hw1, jstring_skip hk, structMember_ok hk hw2, skip_ws_value hw3 hj] at h
      unfold structField at h
      split at h
      · rw [hc] at h
        simp only [Bool.false_eq_true, if_false, parseValue_complete hj (follow_of_numStop hT)] at h
        exact .inr ⟨_, hcells, h⟩
      · rename_i i _
        split at h
        · simp at h
        · rename_i hdec
          have hmem := List.mem_of_getElem? hdec
          split at h
          · simp at h
          · rename_i e2
            rw [hin'] at h
            injection h with _ h1 h2; subst h1 h2
            exact .inl ⟨hm _ hmem j b hj T (follow_of_numStop hT) _ (hget i) _ _ _ e2, rfl⟩
          · rename_i y r2 e2
            have hsk := (skip_or (hd _ hmem j b hj T (follow_of_numStop hT) _ _ _ e2)).symm
            refine .inr ⟨cells.set i y, ?_, (structLoopD_skip hsk).trans h⟩
            intro q hq
            rcases List.mem_or_eq_of_mem_set hq with h' | rfl
            · exact hcells q h'
            · exact hpr _ hmem _ _ _ _ (hget i) e2
    cases h with
    | memOne w1 w2 w3 w4 _ _ b hw1 hw2 hw3 hw4 hk hj =>
      have e' : w1 ++ raw ++ w2 ++ 0x3a :: (w3 ++ b ++ w4) ++ 0x7d :: r =
          w1 ++ (raw ++ (w2 ++ 0x3a :: (w3 ++ (b ++ (w4 ++ 0x7d :: r))))) := by simp
      rw [e'] at he
      rcases step w1 w2 w3 b (w4 ++ 0x7d :: r) hw1 hk hw2 hw3 hj (numStop_ws_cons hw4 (by simp)) he with h | ⟨m', _, h⟩
      · exact h
      · cases n with
        | zero => simp [structLoopD] at h
        | succ n =>
          rw [structLoopD_close (skip_ws_cons hw4 (by decide) r)] at h
          simp at h
    | memCons w1 w2 w3 w4 _ _ b _ bs hw1 hw2 hw3 hw4 hk hj hbs =>
      have e' : w1 ++ raw ++ w2 ++ 0x3a :: (w3 ++ b ++ w4 ++ 0x2c :: bs) ++ 0x7d :: r =
          w1 ++ (raw ++ (w2 ++ 0x3a :: (w3 ++ (b ++ (w4 ++ 0x2c :: (bs ++ 0x7d :: r)))))) := by simp
      rw [e'] at he
      rcases step w1 w2 w3 b (w4 ++ 0x2c :: (bs ++ 0x7d :: r)) hw1 hk hw2 hw3 hj (numStop_ws_cons hw4 (by simp)) he with h | ⟨m', hm', h⟩
      · exact h
      · cases n with
        | zero => simp [structLoopD] at h
        | succ n =>
          rw [structLoopD_comma (skip_ws_cons hw4 (by decide) _)] at h
          exact ih bs hbs _ _ _ _ _ hm' h

theorem struct_mild {P PS : DV → Prop} {decs : List Dec} (hd : ∀ d ∈ decs, TrailOk d) (hm : ∀ d ∈ decs, MildErr P d)
    (hpr : ∀ d ∈ decs, Pres P d) (hu : P (.user none)) (hs : ∀ d, PS (.struct d) → ∀ y ∈ d, P y) {c : DCfg} (hc : c.disallowUnknown = false)
    (names : List Bytes) : MildErr PS (decodeStruct c names decs) ∧ LeftErr PS (decodeStruct c names decs) := by
  have main : ∀ j v, Derives (.value j) v → ∀ r, Follow j r → ∀ p, PS p → ∀ x r' e, decodeStruct c names decs (v ++ r) p = .err x r' e →
      e ≠ .syntax ∧ (r' = r ∨ r' = skipSpaces r) := by
    intro j v hj r hf p hp x r' e h
    have hpv := parseValue_complete hj hf
    have hie := @inputErr_mild j v r hj hf p x r' e
    rw [decodeStruct_eq] at h
    split at h
    · simp at h
    · obtain ⟨ch, t, rfl, hc'⟩ := derives_head hj
      simp only [List.cons_append] at hpv hie h
      split at h
      · exact hie h
      · rename_i hb0
        have hc5 : ch = 0x7b := Classical.byContradiction fun h => hb0 (.inr h)
        subst hc5
        cases hj with
        | num s hs => exact absurd rfl (digit_range hc').2.2.2.2.2.1
        | str s hs => simp [headOk] at hc'
        | objNil w hw =>
          rw [show w ++ [0x7d] ++ r = w ++ 0x7d :: r by simp, structLoopD_close (skip_ws_cons hw (by decide) r)] at h
          simp at h
        | obj ms b hb =>
          have e' : b ++ [0x7d] ++ r = b ++ 0x7d :: r := by simp
          obtain ⟨t, eh⟩ := derives_members_head hb (0x7d :: r)
          rw [e'] at hpv
          rw [e', structLoopD_first (by rw [eh]; simp)] at h
          obtain ⟨h1, h2⟩ := struct_members_mild hd hm hpr hu hc names ⟨_, hpv⟩ ms b hb _ _ _ _ _
            (by cases p <;> simp [structMem] <;> exact fun x hx => hs _ hp x hx) h
          exact ⟨h1, .inl h2⟩
  exact ⟨fun j v hj r hf p hp x r' e h => (main j v hj r hf p hp x r' e h).1, fun j v hj r hf p hp x r' e h => (main j v hj r hf p hp x r' e h).2⟩

/-! ### scalars -/

theorem bool_mild (P : DV → Prop) : MildErr P decodeBool ∧ LeftErr P decodeBool := by
  have main : ∀ j v, Derives (.value j) v → ∀ r, Follow j r → ∀ p x r' e, decodeBool (v ++ r) p = .err x r' e →
      e ≠ .syntax ∧ (r' = r ∨ r' = skipSpaces r) := by
    intro j v hj r hf p x r' e h
    have hie := @inputErr_mild j v r hj hf p x r' e
    unfold decodeBool at h
    split at h
    · simp at h
    · generalize v ++ r = b at h hie
      repeat' split at h
      all_goals first
        | simp at h; done
        | exact hie h
  exact ⟨fun j v hj r hf p _ x r' e h => (main j v hj r hf p x r' e h).1, fun j v hj r hf p _ x r' e h => (main j v hj r hf p x r' e h).2⟩

theorem float_mild (P : DV → Prop) (l : Lib) (b32 : Bool) : MildErr P (decodeFloat l b32) ∧ LeftErr P (decodeFloat l b32) := by
  have main : ∀ j v, Derives (.value j) v → ∀ r, Follow j r → ∀ p x r' e, (decodeFloat l b32) (v ++ r) p = .err x r' e →
      e ≠ .syntax ∧ (r' = r ∨ r' = skipSpaces r) := by
    intro j v hj r hf p x r' e h
    have hie := @inputErr_mild j v r hj hf p x r' e
    unfold decodeFloat at h
    split at h
    · simp at h
    · generalize v ++ r = b at h hie
      repeat' split at h
      all_goals first
        | simp at h; done
        | exact hie h
  exact ⟨fun j v hj r hf p _ x r' e h => (main j v hj r hf p x r' e h).1, fun j v hj r hf p _ x r' e h => (main j v hj r hf p x r' e h).2⟩

theorem number_mild (P : DV → Prop) : MildErr P decodeNumber ∧ LeftErr P decodeNumber := by
  have main : ∀ j v, Derives (.value j) v → ∀ r, Follow j r → ∀ p x r' e, decodeNumber (v ++ r) p = .err x r' e →
      e ≠ .syntax ∧ (r' = r ∨ r' = skipSpaces r) := by
    intro j v hj r hf p x r' e h
    have hie := @inputErr_mild j v r hj hf p x r' e
    unfold decodeNumber at h
    split at h
    · simp at h
    · generalize v ++ r = b at h hie
      repeat' split at h
      all_goals first
        | simp at h; done
        | exact hie h
  exact ⟨fun j v hj r hf p _ x r' e h => (main j v hj r hf p x r' e h).1, fun j v hj r hf p _ x r' e h => (main j v hj r hf p x r' e h).2⟩

theorem duration_mild (P : DV → Prop) (l : Lib) : MildErr P (decodeDuration l) ∧ LeftErr P (decodeDuration l) := by
  have main : ∀ j v, Derives (.value j) v → ∀ r, Follow j r → ∀ p x r' e, (decodeDuration l) (v ++ r) p = .err x r' e →
      e ≠ .syntax ∧ (r' = r ∨ r' = skipSpaces r) := by
    intro j v hj r hf p x r' e h
    have hie := @inputErr_mild j v r hj hf p x r' e
    unfold decodeDuration at h
    split at h
    · simp at h
    · generalize v ++ r = b at h hie
      repeat' split at h
      all_goals first
        | simp at h; done
        | exact hie h
  exact ⟨fun j v hj r hf p _ x r' e h => (main j v hj r hf p x r' e h).1, fun j v hj r hf p _ x r' e h => (main j v hj r hf p x r' e h).2⟩

theorem time_mild (P : DV → Prop) (l : Lib) : MildErr P (decodeTime l) ∧ LeftErr P (decodeTime l) := by
  have main : ∀ j v, Derives (.value j) v → ∀ r, Follow j r → ∀ p x r' e, (decodeTime l) (v ++ r) p = .err x r' e →
      e ≠ .syntax ∧ (r' = r ∨ r' = skipSpaces r) := by
    intro j v hj r hf p x r' e h
    have hie := @inputErr_mild j v r hj hf p x r' e
    unfold decodeTime at h
    split at h
    · simp at h
    · generalize v ++ r = b at h hie
      repeat' split at h
      all_goals first
        | simp at h; done
        | exact hie h
  exact ⟨fun j v hj r hf p _ x r' e h => (main j v hj r hf p x r' e h).1, fun j v hj r hf p _ x r' e h => (main j v hj r hf p x r' e h).2⟩

theorem str_of_quote {j : Json} {v t : Bytes} (hj : Derives (.value j) v) (e : v = 0x22 :: t) : JString v := by
  cases hj with
  | str _ hs => exact hs
  | num s hs =>
    obtain ⟨c, u, e', hc⟩ := jnumber_head hs
    rw [e'] at e
    injection e with e _; subst e
    exact absurd hc (by unfold Digit; decide)
  | _ => all_goals simp at e

theorem unquote_value {j : Json} {v : Bytes} (hj : Derives (.value j) v) (hs : (v ++ r).head? = some 0x22) : JString v := by
  obtain ⟨c, t, e, _⟩ := derives_head hj
  rw [e] at hs
  simp only [List.cons_append, List.head?_cons, Option.some.injEq] at hs
  subst hs
  exact str_of_quote hj e

theorem string_mild (P : DV → Prop) : MildErr P decodeString ∧ LeftErr P decodeString := by
  have main : ∀ j v, Derives (.value j) v → ∀ r, Follow j r → ∀ p x r' e, decodeString (v ++ r) p = .err x r' e →
      e ≠ .syntax ∧ (r' = r ∨ r' = skipSpaces r) := by
    intro j v hj r hf p x r' e h
    by_cases hq : (v ++ r).head? = some 0x22
    · rw [decodeString_ok (unquote_value hj hq)] at h
      simp at h
    · unfold decodeString at h
      split at h
      · simp at h
      · split at h
        · simp at h
        · exact inputErr_mild hj hf h
        · simp at h
  exact ⟨fun j v hj r hf p _ x r' e h => (main j v hj r hf p x r' e h).1, fun j v hj r hf p _ x r' e h => (main j v hj r hf p x r' e h).2⟩

theorem typeError_mild (P : DV → Prop) : MildErr P decodeUnmarshalTypeError ∧ LeftErr P decodeUnmarshalTypeError := by
  constructor <;> intro j v hj r hf p _ x r' e h <;> unfold decodeUnmarshalTypeError at h <;> rw [parseValue_complete hj hf] at h <;>
    injection h with _ h1 h2 <;> subst h1 h2
  · simp
  · exact .inl rfl

theorem parseInvalid_mild (P : DV → Prop) : MildErr P parseInvalid ∧ LeftErr P parseInvalid := by
  constructor <;> intro j v hj r hf p _ x r' e h <;> unfold parseInvalid at h <;> rw [skip_value hj, parseValue_complete hj hf] at h <;>
    injection h with _ h1 h2 <;> subst h1 h2
  · simp
  · exact .inr rfl

theorem raw_mild (P : DV → Prop) : MildErr P decodeRawMessage ∧ LeftErr P decodeRawMessage := by
  constructor <;> intro j v hj r hf p _ x r' e h <;> unfold decodeRawMessage at h <;> rw [parseValue_complete hj hf] at h <;> simp at h

theorem jsonU_mild (P : DV → Prop) {f : Bytes → Option Err} (hfe : ∀ s, f s ≠ some .syntax) :
    MildErr P (decodeJSONUnmarshaler f) ∧ LeftErr P (decodeJSONUnmarshaler f) := by
  have main : ∀ j v, Derives (.value j) v → ∀ r, Follow j r → ∀ p x r' e, decodeJSONUnmarshaler f (v ++ r) p = .err x r' e →
      e ≠ .syntax ∧ (r' = r ∨ r' = skipSpaces r) := by
    intro j v hj r hf p x r' e h
    unfold decodeJSONUnmarshaler at h
    rw [parseValue_complete hj hf] at h
    simp only [] at h
    split at h
    · simp at h
    · split at h
      · rename_i he
        injection h with _ h1 h2; subst h1 h2
        exact ⟨fun h => hfe v (h ▸ he), .inl rfl⟩
      · simp at h
  exact ⟨fun j v hj r hf p _ x r' e h => (main j v hj r hf p x r' e h).1, fun j v hj r hf p _ x r' e h => (main j v hj r hf p x r' e h).2⟩

theorem null_of_head {j : Json} {t : Bytes} (hj : Derives (.value j) (0x6e :: t)) (hc : headOk j 0x6e) :
    0x6e :: t = [0x6e, 0x75, 0x6c, 0x6c] := by
  have hv : hasNullPrefix ((0x6e :: t) ++ []) = true := by
    rw [hasNull_value hj]
    cases j <;> simp [headOk] at hc <;> first | rfl | (unfold Digit at hc; exact absurd hc (by decide))
  have := isNullJ_iff.1 ((hasNull_value hj []).symm.trans hv)
  subst this
  exact derives_null hj

theorem textU_mild (P : DV → Prop) {f : Bytes → Option Err} (hfe : ∀ s, f s ≠ some .syntax) :
    MildErr P (decodeTextUnmarshaler f) ∧ LeftErr P (decodeTextUnmarshaler f) := by
  have main : ∀ j v, Derives (.value j) v → ∀ r, Follow j r → ∀ p x r' e, decodeTextUnmarshaler f (v ++ r) p = .err x r' e →
      e ≠ .syntax ∧ (r' = r ∨ r' = skipSpaces r) := by
    intro j v hj r hf p x r' e h
    unfold decodeTextUnmarshaler at h
    rw [parseValue_complete hj hf] at h
    obtain ⟨c, t, e1, hc⟩ := derives_head hj
    simp only [] at h
    split at h
    · simp at e1
    · rename_i c' t' ev
      obtain ⟨rfl, rfl⟩ := List.cons.inj e1
      split at h
      · rename_i hn
        subst hn
        have e2 := null_of_head hj hc
        rw [e2] at h
        simp [parseNull] at h
      · split at h
        · rename_i hq
          subst hq
          obtain ⟨n', hu⟩ := unquote_ok (str_of_quote hj rfl) []
          rw [List.append_nil] at hu
          rw [hu] at h
          simp only [] at h
          split at h
          · rename_i he
            injection h with _ h1 h2; subst h1 h2
            exact ⟨fun h => hfe _ (h ▸ he), .inl rfl⟩
          · simp at h
        · injection h with _ h1 h2; subst h1 h2
          exact ⟨by simp, .inl rfl⟩
  exact ⟨fun j v hj r hf p _ x r' e h => (main j v hj r hf p x r' e h).1, fun j v hj r hf p _ x r' e h => (main j v hj r hf p x r' e h).2⟩

theorem bytes_mild (P : DV → Prop) : MildErr P decodeBytes ∧ LeftErr P decodeBytes := by
  have main : ∀ j v, Derives (.value j) v → ∀ r, Follow j r → ∀ p x r' e, decodeBytes (v ++ r) p = .err x r' e →
      e ≠ .syntax ∧ (r' = r ∨ r' = skipSpaces r) := by
    intro j v hj r hf p x r' e h
    have hie := @inputErr_mild j v r hj hf p x r' e
    have hsm : MildErr (fun _ => True) (decodeSlice (decodeInt .uint8) (.int 0)) :=
      slice_mildErr (P := fun _ => True) (trailOk_ref fun _ _ => int_ref _) (int_mildErr _ _) trivial (by simp)
    have hsl : ∀ q {x : DV} {r' : Bytes} {e : Err}, decodeSlice (decodeInt .uint8) (.int 0) (v ++ r) q = .err x r' e →
        e ≠ .syntax ∧ (r' = r ∨ r' = skipSpaces r) :=
      fun q {_ _ _} h => ⟨hsm j v hj r hf q trivial _ _ _ h, slice_leftErr hsm j v hj r hf q trivial _ _ _ h⟩
    have hus : ∀ {s r2 n}, (v ++ r).head? = some 0x22 → parseStringUnquote (v ++ r) [] = .ok s r2 n → r2 = r := by
      intro s r2 n hq h
      obtain ⟨n', h'⟩ := unquote_ok (unquote_value hj hq) r
      rw [h'] at h
      injection h with _ h; exact h.symm
    unfold decodeBytes at h
    split at h
    · simp at h
    · generalize v ++ r = b at h hie hsl hus
      split at h
      · exact hie h
      · split at h
        · exact hie h
        · split at h
          · split at h
            · simp only [] at h
              generalize hq : decodeSlice _ _ _ _ = d at h
              cases d with
              | ok => simp [DRes.map] at h
              | crash => simp [DRes.map] at h
              | err x2 r2 e2 =>
                simp only [DRes.map] at h
                injection h with _ h1 h2; subst h1 h2
                exact hsl _ hq
            · exact hie h
          · rename_i hc
            simp only [ne_eq, Classical.not_not] at hc
            subst hc
            split at h
            · simp at h
            · exact hie h
            · rename_i hq
              split at h
              · injection h with _ h1 h2; subst h1 h2; exact ⟨by simp, .inl (hus rfl hq)⟩
              · simp at h
  exact ⟨fun j v hj r hf p _ x r' e h => (main j v hj r hf p x r' e h).1, fun j v hj r hf p _ x r' e h => (main j v hj r hf p x r' e h).2⟩

/-! ### interfaces and pointers -/

theorem ifaceValue_trailOk (c : DCfg) (n : Nat) : TrailOk (ifaceValue c n) := by
  intro j v hj r hf p x r' e
  rcases ifaceValue_left c n hj hf p with ⟨y, h⟩ | ⟨y, e', h⟩ | ⟨y, h⟩ <;> rw [h] at e <;> simp at e
  exact .inl e.2.symm

theorem ifaceValue_mildErr (c : DCfg) : ∀ n (P : DV → Prop), MildErr P (ifaceValue c n) := by
  intro n
  induction n with
  | zero => intro P j v hj r hf p _ x r' e h; simp [ifaceValue] at h
  | succ n ih =>
    intro P j v hj r hf p _ x r' e h
    have hend : ∀ t (dec : Dec) q, TrailOk dec → MildErr (fun _ => True) dec → ifaceEnd t r (dec v q) = .err x r' e → e ≠ .syntax := by
      intro t dec q hto hme h
      cases hd : dec v q with
      | crash => rw [hd] at h; simp [ifaceEnd] at h
      | err y r2 e2 =>
        rw [hd] at h
        simp only [ifaceEnd] at h
        injection h with _ _ h; subst h
        exact hme j v hj [] (follow_of_numStop NumStop.nil) q trivial _ _ _ (by rw [List.append_nil]; exact hd)
      | ok y r2 =>
        have := hto j v hj [] (follow_of_numStop NumStop.nil) q y r2 (by rw [List.append_nil]; exact hd)
        have hr2 : skipSpaces r2 = [] := by rcases this with rfl | rfl <;> rfl
        rw [hd] at h
        simp [ifaceEnd, hr2] at h
    rw [ifaceValue] at h
    simp only [parseValue_complete hj hf] at h
    obtain ⟨ch, t, e1, hc⟩ := derives_head hj
    split at h
    · simp at h
    · rename_i c' t' ev
      obtain ⟨rfl, rfl⟩ := List.cons.inj e1
      split at h
      · exact hend _ _ _ (map_trailOk (ifaceValue_trailOk c n) _) (map_mildErr _ str_total (ifaceValue_trailOk c n) (ih (fun _ => True)) trivial) h
      · split at h
        · exact hend _ _ _ (slice_trailOk (ifaceValue_trailOk c n)) (slice_mildErr (P := fun _ => True) (ifaceValue_trailOk c n) (ih _) trivial (by simp)) h
        · split at h
          · exact hend _ _ _ (trailOk_ref fun _ _ => string_ref) (string_mild _).1 h
          · split at h
            · rename_i hn
              subst hn
              have e2 := null_of_head hj hc
              rw [e2] at h
              have e3 : skipSpaces [] = [] := rfl
              simp [decodeNull, hasNullPrefix, e3] at h
            · split at h
              · exact hend _ _ _ (trailOk_ref fun _ _ => bool_ref) (bool_mild _).1 h
              · split at h
                · split at h
                  · exact hend _ _ _ (trailOk_ref fun _ _ => number_ref) (number_mild _).1 h
                  · exact hend _ _ _ (trailOk_ref fun _ _ => float_ref _ _) (float_mild _ _ _).1 h
                · rename_i h1 h2 h3 h4 h5 h6
                  exfalso
                  simp only [isDigit_iff] at h6
                  cases j <;> simp only [headOk] at hc <;> simp_all

theorem parseInto_mild {P : DV → Prop} {dec : Dec} (hm : MildErr P dec) : MildErr P (parseInto dec) := by
  intro j v hj r hf p hp x r' e h
  unfold parseInto at h
  rw [skip_value hj] at h
  split at h
  · simp at h
  · rename_i e2
    injection h with _ h1 h2; subst h1 h2
    exact hm j v hj r hf p hp _ _ _ e2
  · simp at h

theorem parseInto_left {P : DV → Prop} {dec : Dec} (hm : LeftErr P dec) : LeftErr P (parseInto dec) := by
  intro j v hj r hf p hp x r' e h
  unfold parseInto at h
  rw [skip_value hj] at h
  split at h
  · simp at h
  · rename_i e2
    injection h with _ h1 h2; subst h1 h2
    exact .inr (skip_or (hm j v hj r hf p hp _ _ _ e2))
  · simp at h

theorem iface_mild {Q : Ty → Prop} {m : Nat} (c : DCfg) {dyn : Ty → Dec}
    (hd : ∀ m', m = m' + 1 → ∀ t, Q t → MildErr (Held Q · m') (dyn t) ∧ LeftErr (Held Q · m') (dyn t)) :
    MildErr (Held Q · m) (decodeInterface c dyn) ∧ LeftErr (Held Q · m) (decodeInterface c dyn) := by
  have main : ∀ j v, Derives (.value j) v → ∀ r, Follow j r → ∀ p, Held Q p m → ∀ x r' e, decodeInterface c dyn (v ++ r) p = .err x r' e →
      e ≠ .syntax ∧ (r' = r ∨ r' = skipSpaces r) := by
    intro j v hj r hf p hp x r' e h
    unfold decodeInterface at h
    split at h
    · split at h
      · split at h
        · simp at h
        · split at h
          · simp at h
          · rename_i e2
            injection h with _ h1 h2; subst h1 h2
            cases m with
            | zero => simp [Held] at hp
            | succ m =>
              simp only [Held] at hp
              exact ⟨parseInto_mild (hd m rfl _ hp.1).1 j v hj r hf _ hp.2 _ _ _ e2, parseInto_left (hd m rfl _ hp.1).2 j v hj r hf _ hp.2 _ _ _ e2⟩
          · simp at h
      · split at h
        · simp at h
        · exact ⟨(parseInvalid_mild (fun _ => True)).1 j v hj r hf _ trivial _ _ _ h, (parseInvalid_mild (fun _ => True)).2 j v hj r hf _ trivial _ _ _ h⟩
    · refine ⟨ifaceValue_mildErr c _ (fun _ => True) j v hj r hf _ trivial _ _ _ h, ?_⟩
      rcases ifaceValue_left c ((v ++ r).length + 1) hj hf p with ⟨y, h'⟩ | ⟨y, e', h'⟩ | ⟨y, h'⟩ <;> rw [h'] at h <;> simp at h
      exact .inl h.2.1.symm
  exact ⟨fun j v hj r hf p hp x r' e h => (main j v hj r hf p hp x r' e h).1, fun j v hj r hf p hp x r' e h => (main j v hj r hf p hp x r' e h).2⟩

theorem ifaceM_mild {Q : Ty → Prop} {m : Nat} (c : DCfg) {dyn : Ty → Dec}
    (hd : ∀ m', m = m' + 1 → ∀ t, Q t → MildErr (Held Q · m') (dyn t) ∧ LeftErr (Held Q · m') (dyn t)) (em : Bool) :
    MildErr (Held Q · m) (decodeIfaceM c dyn em) ∧ LeftErr (Held Q · m) (decodeIfaceM c dyn em) := by
  have main : ∀ j v, Derives (.value j) v → ∀ r, Follow j r → ∀ p, Held Q p m → ∀ x r' e, decodeIfaceM c dyn em (v ++ r) p = .err x r' e →
      e ≠ .syntax ∧ (r' = r ∨ r' = skipSpaces r) := by
    intro j v hj r hf p hp x r' e h
    unfold decodeIfaceM at h
    split at h
    · simp at h
    · split at h
      · split at h
        · cases m with
          | zero => simp [Held] at hp
          | succ m =>
            simp only [Held] at hp
            generalize hq : parseInto _ _ _ = d at h
            cases d with
            | ok => simp [DRes.map] at h
            | crash => simp [DRes.map] at h
            | err x2 r2 e2 =>
              simp only [DRes.map] at h
              injection h with _ h1 h2; subst h1 h2
              exact ⟨parseInto_mild (hd m rfl _ hp.1).1 j v hj r hf _ hp.2 _ _ _ hq, parseInto_left (hd m rfl _ hp.1).2 j v hj r hf _ hp.2 _ _ _ hq⟩
        · exact ⟨(parseInvalid_mild (fun _ => True)).1 j v hj r hf _ trivial _ _ _ h, (parseInvalid_mild (fun _ => True)).2 j v hj r hf _ trivial _ _ _ h⟩
        · exact ⟨(typeError_mild (fun _ => True)).1 j v hj r hf _ trivial _ _ _ h, (typeError_mild (fun _ => True)).2 j v hj r hf _ trivial _ _ _ h⟩
      · split at h
        · exact ⟨parseInto_mild (iface_mild c hd).1 j v hj r hf _ hp _ _ _ h, parseInto_left (iface_mild c hd).2 j v hj r hf _ hp _ _ _ h⟩
        · exact ⟨(typeError_mild (fun _ => True)).1 j v hj r hf _ trivial _ _ _ h, (typeError_mild (fun _ => True)).2 j v hj r hf _ trivial _ _ _ h⟩
  exact ⟨fun j v hj r hf p hp x r' e h => (main j v hj r hf p hp x r' e h).1, fun j v hj r hf p hp x r' e h => (main j v hj r hf p hp x r' e h).2⟩

/-- a pointer fails as its element does -/
theorem ptr_err {P P' : DV → Prop} {dec : Dec} {z : DV} (hz : P z) (hP : ∀ v, P' (.ptr v) → P v) (ep : Bool) {b : Bytes} {p x : DV} {r : Bytes}
    {e : Err} (hp : P' p) (h : decodePointer ep dec z b p = .err x r e) : ∃ q y, P q ∧ dec b q = .err y r e := by
  have fin : ∀ q, P q → (dec b q).map .ptr = .err x r e → ∃ q y, P q ∧ dec b q = .err y r e := by
    intro q hq h'
    generalize hd : dec b q = d at h'
    cases d with
    | ok => simp [DRes.map] at h'
    | crash => simp [DRes.map] at h'
    | err x2 r2 e2 =>
      simp only [DRes.map] at h'
      injection h' with _ h1 h2; subst h1 h2
      exact ⟨q, _, hq, hd⟩
  unfold decodePointer at h
  split at h
  · split at h
    · split at h
      · exact fin _ (hP _ hp) h
      · simp at h
    · simp at h
  · refine fin _ ?_ h
    cases p <;> simp only [] <;> first | exact hz | exact hP _ hp

theorem quotedInt_mild {P : DV → Prop} {l : Lib} {dec : Dec} (hm : MildErr P dec) : MildErr P (decodeFromStringToInt l dec) := by
  intro j v hj r hf p hp x r' e h
  unfold decodeFromStringToInt at h
  split at h
  · exact hm j v hj r hf p hp _ _ _ h
  · split at h
    · injection h with _ _ h; subst h
      unfold unquotedErr
      split
      · split <;> simp
      · simp
    · rename_i hq
      have hq' : (v ++ r).head? = some 0x22 := by
        obtain ⟨c, t, e1, _⟩ := derives_head hj
        rw [e1] at hq ⊢
        simpa using hq
      obtain ⟨n', hu⟩ := unquote_ok (unquote_value hj hq') r
      split at h
      · injection h with _ _ h; subst h; simp
      · rw [hu] at h
        simp only [] at h
        split at h
        · simp at h
        · split at h
          · injection h with _ _ h; subst h; simp
          · simp at h
        · split at h
          · split at h <;> (injection h with _ _ h; subst h; simp)
          · rename_i hne
            repeat' split at h
            all_goals (injection h with _ _ h; subst h; first | exact hne | simp)

/-! ### all types -/

mutual
theorem dec_mild {m : Nat} {c : DCfg} (hc : c.disallowUnknown = false) {dyn : Ty → Dec} (hl : LibOk c.lib) (hok : ∀ t, TrailOk (dyn t))
    (hrej : ∀ t, Rej (dyn t)) (hpr : DynPres Ty.mildTop m dyn)
    (hd : ∀ m', m = m' + 1 → ∀ t, Ty.mildTop t → MildErr (Held Ty.mildTop · m') (dyn t) ∧ LeftErr (Held Ty.mildTop · m') (dyn t)) :
    ∀ t : Ty, t.mild → MildErr (Held Ty.mildTop · m) (dec c dyn t)
  | .bool, _ => by simp only [dec]; exact (bool_mild _).1
  | .int k, _ => by simp only [dec]; exact int_mildErr _ k
  | .float32, _ => by simp only [dec]; exact (float_mild _ _ _).1
  | .float64, _ => by simp only [dec]; exact (float_mild _ _ _).1
  | .number, _ => by simp only [dec]; exact (number_mild _).1
  | .string, _ => by simp only [dec]; exact (string_mild _).1
  | .bytes, _ => by simp only [dec]; exact (bytes_mild _).1
  | .duration, _ => by simp only [dec]; exact (duration_mild _ _).1
  | .time, _ => by simp only [dec]; exact (time_mild _ _).1
  | .raw, _ => by simp only [dec]; exact (raw_mild _).1
  | .iface, _ => by simp only [dec]; exact (iface_mild c hd).1
  | .ifaceM e, _ => by simp only [dec]; exact (ifaceM_mild c hd e).1
  | .slice t, ht => by
    simp only [dec]; simp only [Ty.mild] at ht
    exact slice_mildErr (P := (Held Ty.mildTop · m)) (dec_trailOk hl hok hrej t) (dec_mild hc hl hok hrej hpr hd t ht) (held_zero _ _ _)
      (by intro d s; simp [Held, heldL_iff]; intro h1 h2 y hy; exact hy.elim (h1 y) (h2 y))
  | .map .str t, ht => by
    simp only [dec]; simp only [Ty.mild] at ht
    exact map_mildErr _ str_total (dec_trailOk hl hok hrej t) (dec_mild hc hl hok hrej hpr hd t ht) (held_zero _ _ _)
  | .map (.text tk) t, ht => by
    simp only [dec]; simp only [Ty.mild] at ht
    exact map_mildErr _ (text_total ht.1) (dec_trailOk hl hok hrej t) (dec_mild hc hl hok hrej hpr hd t ht.2) (held_zero _ _ _)
  | .map (.int k) t, ht => by simp only [Ty.mild] at ht
  | .mapSI, _ => by simp only [dec]; exact map_mildErr _ str_total (iface_trailOk c hok) (iface_mild c hd).1 (by simp [Held])
  | .mapRaw, _ => by simp only [dec]; exact map_mildErr _ str_total raw_trailOk (raw_mild (fun _ => True)).1 trivial
  | .ptr t, ht => by
    simp only [dec]; simp only [Ty.mild] at ht
    intro j v hj r hf p hp x r' e h
    obtain ⟨q, y, hq, h'⟩ := ptr_err (P := (Held Ty.mildTop · m)) (P' := (Held Ty.mildTop · m)) (held_zero _ _ _) (by intro v; simp [Held]) _ hp h
    exact dec_mild hc hl hok hrej hpr hd t ht j v hj r hf q hq _ _ _ h'
  | .struct fs, ht => by
    simp only [dec]; simp only [Ty.mild] at ht
    exact (struct_mild (P := (Held Ty.mildTop · m)) (decF_trailOk hl hok hrej fs) (decF_mild hc hl hok hrej hpr hd fs ht) (decF_pres hpr fs)
      (by simp [Held]) (by intro d; simp [Held, heldL_iff]) hc _).1
  | .quotedInt t, ht => by
    simp only [dec]; simp only [Ty.mild] at ht
    exact quotedInt_mild (dec_mild hc hl hok hrej hpr hd t ht)
  | .jsonU f, ht => by simp only [dec]; simp only [Ty.mild] at ht; exact (jsonU_mild _ ht).1
  | .textU f, ht => by simp only [dec]; simp only [Ty.mild] at ht; exact (textU_mild _ ht).1
  | .unsupported, _ => by simp only [dec]; exact (typeError_mild _).1
  | .quoted t, ht => by simp only [Ty.mild] at ht
  | .array n t, ht => by simp only [Ty.mild] at ht
theorem decF_mild {m : Nat} {c : DCfg} (hc : c.disallowUnknown = false) {dyn : Ty → Dec} (hl : LibOk c.lib) (hok : ∀ t, TrailOk (dyn t))
    (hrej : ∀ t, Rej (dyn t)) (hpr : DynPres Ty.mildTop m dyn)
    (hd : ∀ m', m = m' + 1 → ∀ t, Ty.mildTop t → MildErr (Held Ty.mildTop · m') (dyn t) ∧ LeftErr (Held Ty.mildTop · m') (dyn t)) :
    ∀ fs, mildF fs → ∀ d ∈ decF c dyn fs, MildErr (Held Ty.mildTop · m) d
  | [], _ => by simp [decF]
  | (_, t) :: fs, ht => by
    intro d h
    simp only [mildF] at ht
    simp only [decF, List.mem_cons] at h
    rcases h with rfl | h
    · exact dec_mild hc hl hok hrej hpr hd t ht.1
    · exact decF_mild hc hl hok hrej hpr hd fs ht.2 d h
end

theorem mild_of_top : ∀ t : Ty, t.mildTop → t.mild
  | .ptr t, h => by simp only [Ty.mildTop] at h; simp only [Ty.mild]; exact mild_of_top t h
  | .int _, h | .quotedInt _, h => by all_goals simp only [Ty.mildTop] at h
  | .bool, _ | .float32, _ | .float64, _ | .number, _ | .string, _ | .bytes, _ | .duration, _ | .time, _ | .raw, _ | .iface, _ | .ifaceM _, _
  | .mapSI, _ | .mapRaw, _ | .unsupported, _ => by all_goals simp only [Ty.mild]
  | .slice _, h | .array _ _, h | .map _ _, h | .struct _, h | .quoted _, h | .jsonU _, h | .textU _, h => h

theorem dec_left {m : Nat} {c : DCfg} (hc : c.disallowUnknown = false) {dyn : Ty → Dec} (hl : LibOk c.lib) (hok : ∀ t, TrailOk (dyn t))
    (hrej : ∀ t, Rej (dyn t)) (hpr : DynPres Ty.mildTop m dyn)
    (hd : ∀ m', m = m' + 1 → ∀ t, Ty.mildTop t → MildErr (Held Ty.mildTop · m') (dyn t) ∧ LeftErr (Held Ty.mildTop · m') (dyn t)) :
    ∀ t : Ty, t.mildTop → LeftErr (Held Ty.mildTop · m) (dec c dyn t)
  | .bool, _ => by simp only [dec]; exact (bool_mild _).2
  | .int k, h | .quotedInt t, h => by all_goals simp only [Ty.mildTop] at h
  | .float32, _ => by simp only [dec]; exact (float_mild _ _ _).2
  | .float64, _ => by simp only [dec]; exact (float_mild _ _ _).2
  | .number, _ => by simp only [dec]; exact (number_mild _).2
  | .string, _ => by simp only [dec]; exact (string_mild _).2
  | .bytes, _ => by simp only [dec]; exact (bytes_mild _).2
  | .duration, _ => by simp only [dec]; exact (duration_mild _ _).2
  | .time, _ => by simp only [dec]; exact (time_mild _ _).2
  | .raw, _ => by simp only [dec]; exact (raw_mild _).2
  | .iface, _ => by simp only [dec]; exact (iface_mild c hd).2
  | .ifaceM e, _ => by simp only [dec]; exact (ifaceM_mild c hd e).2
  | .slice t, ht => by
    have := dec_mild hc hl hok hrej hpr hd (.slice t) (mild_of_top _ ht)
    simp only [dec] at this ⊢
    exact slice_leftErr this
  | .map k t, ht => by
    have := dec_mild hc hl hok hrej hpr hd (.map k t) (mild_of_top _ ht)
    have hk : KeyTotal k := by
      have ht := mild_of_top _ ht
      cases k with
      | str => exact str_total
      | int k => simp only [Ty.mild] at ht
      | text tk => simp only [Ty.mild] at ht; exact text_total ht.1
    simp only [dec] at this ⊢
    exact map_leftErr hk (dec_trailOk hl hok hrej t) this
  | .mapSI, ht => by
    have := dec_mild hc hl hok hrej hpr hd .mapSI (mild_of_top _ ht)
    simp only [dec] at this ⊢
    exact map_leftErr str_total (iface_trailOk c hok) this
  | .mapRaw, ht => by
    have := dec_mild hc hl hok hrej hpr hd .mapRaw (mild_of_top _ ht)
    simp only [dec] at this ⊢
    exact map_leftErr str_total raw_trailOk this
  | .ptr t, ht => by
    simp only [dec]; simp only [Ty.mildTop] at ht
    intro j v hj r hf p hp x r' e h
    obtain ⟨q, y, hq, h'⟩ := ptr_err (P := (Held Ty.mildTop · m)) (P' := (Held Ty.mildTop · m)) (held_zero _ _ _) (by intro v; simp [Held]) _ hp h
    exact dec_left hc hl hok hrej hpr hd t ht j v hj r hf q hq _ _ _ h'
  | .struct fs, ht => by
    have ht := mild_of_top _ ht
    simp only [dec]; simp only [Ty.mild] at ht
    exact (struct_mild (P := (Held Ty.mildTop · m)) (decF_trailOk hl hok hrej fs) (decF_mild hc hl hok hrej hpr hd fs ht) (decF_pres hpr fs)
      (by simp [Held]) (by intro d; simp [Held, heldL_iff]) hc _).2
  | .jsonU f, ht => by have ht := mild_of_top _ ht; simp only [dec]; simp only [Ty.mild] at ht; exact (jsonU_mild _ ht).2
  | .textU f, ht => by have ht := mild_of_top _ ht; simp only [dec]; simp only [Ty.mild] at ht; exact (textU_mild _ ht).2
  | .unsupported, _ => by simp only [dec]; exact (typeError_mild _).2
  | .quoted t, ht => by have ht := mild_of_top _ ht; simp only [Ty.mild] at ht
  | .array n t, ht => by have ht := mild_of_top _ ht; simp only [Ty.mild] at ht

theorem decN_mild {c : DCfg} (hc : c.disallowUnknown = false) (hl : LibOk c.lib) : ∀ n (t : Ty), t.mildTop →
    MildErr (Held Ty.mildTop · n) (decN c n t) ∧ LeftErr (Held Ty.mildTop · n) (decN c n t)
  | 0, t, ht => by
    simp only [decN]
    have h1 : ∀ t : Ty, TrailOk ((fun (_ : Ty) (_ : Bytes) (_ : DV) => DRes.crash .fuel) t) := fun t j v _ r _ p x r' e => by simp at e
    have h2 : ∀ t : Ty, Rej ((fun (_ : Ty) (_ : Bytes) (_ : DV) => DRes.crash .fuel) t) := fun t b p x r h => by simp at h
    exact ⟨dec_mild hc hl h1 h2 (fun m' e => by omega) (fun m' e => by omega) t (mild_of_top t ht),
      dec_left hc hl h1 h2 (fun m' e => by omega) (fun m' e => by omega) t ht⟩
  | n + 1, t, ht => by
    simp only [decN]
    have hpr : DynPres Ty.mildTop (n + 1) (decN c n) := by
      intro m' e t _
      obtain rfl : n = m' := by omega
      exact decN_pres c n t
    have hd : ∀ m', n + 1 = m' + 1 → ∀ t, Ty.mildTop t → MildErr (Held Ty.mildTop · m') (decN c n t) ∧ LeftErr (Held Ty.mildTop · m') (decN c n t) := by
      intro m' e t ht
      obtain rfl : n = m' := by omega
      exact decN_mild hc hl n t ht
    exact ⟨dec_mild hc hl (decN_trailOk hl n) (decN_rej c n) hpr hd t (mild_of_top t ht), dec_left hc hl (decN_trailOk hl n) (decN_rej c n) hpr hd t ht⟩

end JC
