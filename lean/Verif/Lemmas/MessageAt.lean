import Verif.Lemmas.MessageFault
/-! Where the parser says that a value goes wrong. -/
namespace JC
open Spec

structure FaultAt (n : Nat) : Prop where
  value : ∀ b r m, parseValueMF n b = .fail r m → Near GVal AVal b m.near
  object : ∀ t r m, parseObjectMF n (0x7b :: t) = .fail r m → Near GVal AVal (0x7b :: t) m.near
  array : ∀ t r m, parseArrayMF n (0x5b :: t) = .fail r m → Near GVal AVal (0x5b :: t) m.near
  objFirst : ∀ a b r m, objLoopM n a true b = .fail r m → Near GMems (AObj true) b m.near
  objNext : ∀ a b r m, objLoopM n a false b = .fail r m → Near GMoreM (AObj false) b m.near
  objItem : ∀ a b r m, b ≠ [] → objItemM n a b = .fail r m → Near GMems AMemb b m.near
  arrFirst : ∀ a b r m, arrLoopM n a true b = .fail r m → Near GElems (AArr true) b m.near
  arrNext : ∀ a b r m, arrLoopM n a false b = .fail r m → Near GMore (AArr false) b m.near
  arrItem : ∀ a b r m, arrItemM n a b = .fail r m → Near GElems AElem b m.near

theorem numVal_near {c : UInt8} {t r : Bytes} {m : SynErr} (hc : c = 0x2d ∨ isDigit c = true) (h : parseNumberM (c :: t) = .fail r m) :
    Near GVal AVal (c :: t) (c :: t) := by
  have e := parseNumberM_erase (c :: t)
  rw [h] at e
  exact Near.token _ gnull (.num (badNumber hc e.symm))

theorem numM_near {b r : Bytes} {m : SynErr} (h : parseNumberM b = .fail r m) : m.near = b := by
  have hexp : ∀ s r m, numExpM b s = .fail r m → m.near = b := by
    intro s r m h
    unfold numExpM okAtM at h
    split at h
    · split at h
      · simp only [] at h
        split at h
        · injection h with _ h; subst h; rfl
        · split at h
          · cases h
          · injection h with _ h; subst h; rfl
      · cases h
    · cases h
  have hfrac : ∀ s r m, numFracM b s = .fail r m → m.near = b := by
    intro s r m h
    unfold numFracM at h
    split at h
    · split at h
      · split at h
        · injection h with _ h; subst h; rfl
        · split at h
          · exact hexp _ _ _ h
          · injection h with _ h; subst h; rfl
      · exact hexp _ _ _ h
    · exact hexp _ _ _ h
  unfold parseNumberM okAtM at h
  split at h
  · injection h with _ h; subst h; rfl
  · simp only [] at h
    split at h
    · injection h with _ h; subst h; rfl
    · split at h
      · split at h
        · split at h
          · cases h
          · split at h
            · cases h
            · split at h
              · injection h with _ h; subst h; rfl
              · exact hfrac _ _ _ h
        · exact hfrac _ _ _ h
      · injection h with _ h; subst h; rfl

theorem loopSkip {w y : Bytes} {c : UInt8} (hw : Ws w) (hc : isSpace c = false) : skipSpaces (w ++ c :: y) = c :: y := by
  rw [skipSpaces_ws_append hw, skipSpaces_cons_of_not hc]

theorem faultAt (n : Nat) : FaultAt n := by
  induction n with
  | zero => constructor <;> intros <;> simp_all [parseValueMF, parseObjectMF, parseArrayMF, objLoopM, objItemM, arrLoopM, arrItemM]
  | succ n ih =>
    constructor
    · -- value
      intro b r m h
      cases b with
      | nil =>
        simp only [parseValueMF] at h
        injection h with _ h; subst h
        exact Near.early (pre := []) rfl _ gnull
      | cons c t =>
        have he := (eraseAt (n + 1)).value (c :: t)
        rw [h] at he
        unfold parseValueMF at h
        simp only [] at h
        split at h
        · rename_i hc; subst hc; exact ih.object _ _ _ h
        split at h
        · rename_i hc; subst hc; exact ih.array _ _ _ h
        split at h
        · rename_i hc
          subst hc
          have := string_near (by simp) h
          have := this.behind [] (G' := GVal) (A' := AVal) (fun y hy => ⟨[], ⟨_, .str _ (by simpa [GStr] using hy)⟩⟩) ?_
          · exact this
          · rintro y hy _ hh ⟨k, v, z, hv⟩
            cases y with
            | nil => exact absurd rfl hy
            | cons d y =>
              simp at hh; subst hh
              cases k with
              | zero => simp [parseValueF] at hv
              | succ k => exact ⟨v, z, by simpa [parseValueF] using hv⟩
        split at h
        · rename_i hc
          subst hc
          have hn : m.near = 0x6e :: t := by
            unfold parseNullM at h
            split at h
            · cases h
            · split at h <;> (injection h with _ h; subst h; rfl)
          rw [hn]
          refine Near.token _ gnull (.null t rfl ?_)
          intro z hz
          have e := parseNullM_erase (0x6e :: t)
          rw [h, hz, parseNull_complete] at e
          cases e
        split at h
        · rename_i hc
          subst hc
          have hn : m.near = 0x74 :: t := by
            unfold parseTrueM at h
            split at h
            · cases h
            · split at h <;> (injection h with _ h; subst h; rfl)
          rw [hn]
          refine Near.token _ gnull (.tru t rfl ?_)
          intro z hz
          have e := parseTrueM_erase (0x74 :: t)
          rw [h, hz, parseTrue_complete] at e
          cases e
        split at h
        · rename_i hc
          subst hc
          have hn : m.near = 0x66 :: t := by
            unfold parseFalseM at h
            split at h
            · cases h
            · split at h <;> (injection h with _ h; subst h; rfl)
          rw [hn]
          refine Near.token _ gnull (.fls t rfl ?_)
          intro z hz
          have e := parseFalseM_erase (0x66 :: t)
          rw [h, hz, parseFalse_complete] at e
          cases e
        split at h
        · rename_i hc; rw [numM_near h]; exact numVal_near hc h
        · rename_i c1 c2 c3 c4 c5 c6 c7
          injection h with _ h; subst h
          refine Near.byte (pre := []) _ gnull ?_
          rintro x ⟨k, v, z, hv⟩
          cases k with
          | zero => simp [parseValueF] at hv
          | succ k =>
            rw [List.nil_append, parseValueF.eq_def] at hv
            simp only [] at hv
            rw [if_neg c1, if_neg c2, if_neg c3, if_neg c4, if_neg c5, if_neg c6, if_neg c7] at hv
            cases hv
    · -- object
      intro t r m h
      unfold parseObjectMF at h
      split at h
      · rename_i hl
        injection h with _ h; subst h
        have : t = [] := by cases t with | nil => rfl | cons => simp at hl; omega
        subst this
        exact Near.early (pre := []) rfl [0x7d] ⟨_, .objNil [] Ws.nil⟩
      · simp only [ne_eq, not_true_eq_false, if_false] at h
        have := (ih.objFirst _ _ _ _ h).behind [0x7b] (G' := GVal) (A' := AVal) ?_ ?_
        · exact this
        · rintro y ⟨xs, hy⟩; exact ⟨[0x7d], _, by simpa using Derives.obj xs y hy⟩
        · rintro y _ _ _ ⟨k, v, z, hv⟩
          rw [List.cons_append, List.nil_append] at hv
          cases k with
          | zero => simp [parseValueF] at hv
          | succ k =>
            simp only [parseValueF, if_true] at hv
            cases k with
            | zero => simp [parseObjectF] at hv
            | succ k =>
              unfold parseObjectF at hv
              split at hv
              · cases hv
              · simp only [ne_eq, not_true_eq_false, if_false] at hv
                exact ⟨_, _, _, _, hv⟩
    · -- array
      intro t r m h
      unfold parseArrayMF at h
      split at h
      · rename_i hl
        injection h with _ h; subst h
        have : t = [] := by cases t with | nil => rfl | cons => simp at hl; omega
        subst this
        exact Near.early (pre := []) rfl [0x5d] ⟨_, .arrNil [] Ws.nil⟩
      · simp only [ne_eq, not_true_eq_false, if_false] at h
        have := (ih.arrFirst _ _ _ _ h).behind [0x5b] (G' := GVal) (A' := AVal) ?_ ?_
        · exact this
        · rintro y ⟨xs, hy⟩; exact ⟨[0x5d], _, by simpa using Derives.arr xs y hy⟩
        · rintro y _ _ _ ⟨k, v, z, hv⟩
          rw [List.cons_append, List.nil_append] at hv
          cases k with
          | zero => simp [parseValueF] at hv
          | succ k =>
            simp [parseValueF] at hv
            cases k with
            | zero => simp [parseArrayF] at hv
            | succ k =>
              unfold parseArrayF at hv
              split at hv
              · cases hv
              · simp only [ne_eq, not_true_eq_false, if_false] at hv
                exact ⟨_, _, _, _, hv⟩
    · -- objFirst
      intro a b r m h
      obtain ⟨w, hw, hb⟩ := exists_skip b
      unfold objLoopM at h
      simp only [] at h
      cases hs : skipSpaces b with
      | nil =>
        rw [hs] at h hb
        simp only [] at h
        injection h with _ h; subst h
        rw [List.append_nil] at hb; subst hb
        exact Near.early (pre := b) (by simp) _ (gmems_ws hw gmems_oneMem)
      | cons c t =>
        have hsp := skipSpaces_head b c t hs
        rw [hs] at h hb
        simp only [if_true] at h
        split at h
        · cases h
        · rename_i hc
          rw [hb]
          refine (ih.objItem _ _ _ _ (by simp) h).behind w ?_ ?_
          · intro y hy; exact ⟨[], by rw [List.append_nil]; exact gmems_ws hw hy⟩
          · rintro y hy _ hh ⟨k, a', v, z, hv⟩
            cases y with
            | nil => exact absurd rfl hy
            | cons d y =>
              simp at hh; subst hh
              cases k with
              | zero => simp [objLoop] at hv
              | succ k =>
                unfold objLoop at hv
                rw [loopSkip hw hsp] at hv
                simp only [if_true] at hv
                rw [if_neg hc] at hv
                exact ⟨_, _, _, _, hv⟩
    · -- objNext
      intro a b r m h
      obtain ⟨w, hw, hb⟩ := exists_skip b
      unfold objLoopM at h
      simp only [] at h
      cases hs : skipSpaces b with
      | nil =>
        rw [hs] at h hb
        simp only [] at h
        injection h with _ h; subst h
        rw [List.append_nil] at hb; subst hb
        exact Near.early (pre := b) (by simp) (0x2c :: oneMem) ⟨b, _, rfl, hw, gmems_oneMem⟩
      | cons c t =>
        have hsp := skipSpaces_head b c t hs
        rw [hs] at h hb
        simp only [Bool.false_eq_true, if_false] at h
        split at h
        · cases h
        · rename_i hc
          split at h
          · rename_i hcom
            injection h with _ h; subst h
            rw [hb]
            refine Near.byte (0x2c :: oneMem) ⟨w, _, rfl, hw, gmems_oneMem⟩ ?_
            rintro x ⟨k, a', v, z, hv⟩
            cases k with
            | zero => simp [objLoop] at hv
            | succ k =>
              unfold objLoop at hv
              rw [loopSkip hw hsp] at hv
              simp only [Bool.false_eq_true, if_false] at hv
              rw [if_neg hc, if_pos hcom] at hv
              cases hv
          · rename_i hcom
            have hcom' : c = 0x2c := Classical.not_not.1 hcom
            subst hcom'
            obtain ⟨w2, hw2, hb2⟩ := exists_skip t
            cases hs2 : skipSpaces t with
            | nil =>
              rw [hs2] at h hb2
              simp only [] at h
              injection h with _ h; subst h
              rw [List.append_nil] at hb2; subst hb2
              exact Near.early (pre := b) (by simp [unexpectedEOF]) oneMem ⟨w, t ++ oneMem, by rw [hb]; simp, hw, gmems_ws hw2 gmems_oneMem⟩
            | cons d u =>
              have hsp2 := skipSpaces_head t d u hs2
              rw [hs2] at h hb2
              simp only [] at h
              have hb3 : b = (w ++ 0x2c :: w2) ++ d :: u := by rw [hb, hb2]; simp
              have red : ∀ k a' y, d ≠ 0x7d → objLoop (k + 1) a' false ((w ++ 0x2c :: w2) ++ d :: y) = JC.objItem k a' (d :: y) := by
                intro k a' y hd
                unfold objLoop
                rw [List.append_assoc, List.cons_append, loopSkip hw (by decide)]
                simp only [Bool.false_eq_true, if_false]
                rw [if_neg hc, if_neg hcom, loopSkip hw2 hsp2]
                simp only []
                rw [if_neg hd]
              rw [hb3]
              split at h
              · rename_i hd
                subst hd
                injection h with _ h; subst h
                refine Near.byte oneMem ⟨w, w2 ++ oneMem, by simp, hw, gmems_ws hw2 gmems_oneMem⟩ ?_
                rintro x ⟨k, a', v, z, hv⟩
                cases k with
                | zero => simp [objLoop] at hv
                | succ k =>
                  unfold objLoop at hv
                  rw [List.append_assoc, List.cons_append, loopSkip hw (by decide)] at hv
                  simp only [Bool.false_eq_true, if_false] at hv
                  rw [if_neg hc, if_neg hcom, loopSkip hw2 hsp2] at hv
                  simp only [if_true] at hv
                  cases hv
              · rename_i hd
                refine (ih.objItem _ _ _ _ (by simp) h).behind _ ?_ ?_
                · intro y hy
                  exact ⟨[], w, w2 ++ y, by simp, hw, gmems_ws hw2 hy⟩
                · rintro y hy _ hh ⟨k, a', v, z, hv⟩
                  cases y with
                  | nil => exact absurd rfl hy
                  | cons d' y =>
                    simp at hh; subst hh
                    cases k with
                    | zero => simp [objLoop] at hv
                    | succ k => rw [red k a' y hd] at hv; exact ⟨_, _, _, _, hv⟩
    · -- objItem
      intro a b r m hne h
      unfold objItemM at h
      have hse := parseStringM_erase b
      cases hk : parseStringM b with
      | fuel r' => rw [hk] at h; cases h
      | fail r' m' =>
        rw [hk] at h
        simp only [] at h
        injection h with _ h; subst h
        have := (string_near hne hk).behind [] (G' := GMems) (A' := AMemb) ?_ ?_
        · exact this
        · intro y hy
          exact ⟨[0x3a, 0x6e, 0x75, 0x6c, 0x6c], by simpa using gmem_of hy Ws.nil Ws.nil gnull⟩
        · rintro y _ _ _ ⟨k, a', v, z, hv⟩
          rw [List.nil_append] at hv
          cases k with
          | zero => simp [JC.objItem] at hv
          | succ k =>
            unfold JC.objItem at hv
            cases hp : parseString y with
            | ok v' z' => exact ⟨v', z', hp⟩
            | fail => rw [hp] at hv; cases hv
      | ok key rest =>
        rw [hk] at h hse
        simp only [PM.erase] at hse
        obtain ⟨hb, hkey⟩ := parseString_sound hse.symm
        subst hb
        simp only [] at h
        obtain ⟨w1, hw1, hb1⟩ := exists_skip rest
        cases hs : skipSpaces rest with
        | nil =>
          rw [hs] at h hb1
          simp only [] at h
          injection h with _ h; subst h
          rw [List.append_nil] at hb1; subst hb1
          refine Near.early (pre := key ++ rest) (by simp) [0x3a, 0x6e, 0x75, 0x6c, 0x6c] ?_
          have := gmem_of hkey hw1 Ws.nil gnull
          simpa using this
        | cons c t =>
          have hsp := skipSpaces_head rest c t hs
          rw [hs] at h hb1
          simp only [] at h
          split at h
          · rename_i hc
            injection h with _ h; subst h
            rw [hb1, ← List.append_assoc]
            refine Near.byte [0x3a, 0x6e, 0x75, 0x6c, 0x6c] (gmem_of hkey hw1 Ws.nil gnull) ?_
            rintro x ⟨k, a', v, z, hv⟩
            cases k with
            | zero => simp [JC.objItem] at hv
            | succ k =>
              unfold JC.objItem at hv
              rw [List.append_assoc, parseString_complete hkey] at hv
              simp only [loopSkip hw1 hsp] at hv
              rw [if_pos hc] at hv
              cases hv
          · rename_i hc
            have hc' : c = 0x3a := Classical.not_not.1 hc
            subst hc'
            obtain ⟨w2, hw2, hb2⟩ := exists_skip t
            have hidem := skipSpaces_idem t
            generalize skipSpaces t = s at *
            have hb3 : key ++ rest = (key ++ w1 ++ 0x3a :: w2) ++ s := by rw [hb1, hb2]; simp
            have red : ∀ k a' y, skipSpaces y = y → JC.objItem (k + 1) a' ((key ++ w1 ++ 0x3a :: w2) ++ y) =
                (match parseValueF k y with
                  | .fail r e => .fail r e
                  | .ok _ b => JC.objLoop k a' false b) := by
              intro k a' y hy
              unfold JC.objItem
              rw [show (key ++ w1 ++ 0x3a :: w2) ++ y = key ++ (w1 ++ 0x3a :: (w2 ++ y)) by simp, parseString_complete hkey]
              simp only [loopSkip hw1 hsp]
              rw [if_neg hc, skipSpaces_ws_append hw2, hy]
              cases parseValueF k y <;> rfl
            have hsame : ∀ y : Bytes, y.head? = s.head? → skipSpaces y = y := by
              intro y hh
              cases y with
              | nil => rfl
              | cons d y =>
                cases s with
                | nil => simp at hh
                | cons d' s =>
                  simp at hh; subst hh
                  exact skipSpaces_cons_of_not (skipSpaces_head (d :: s) d s hidem)
            rw [hb3]
            have hve := (eraseAt n).value s
            cases hv : parseValueMF n s with
            | fuel r' => rw [hv] at h; cases h
            | fail r' m' =>
              rw [hv] at h
              simp only [] at h
              injection h with _ h; subst h
              refine (ih.value _ _ _ hv).behind _ ?_ ?_
              · intro y hy
                have := gmem_of hkey hw1 hw2 hy
                exact ⟨[], by simpa using this⟩
              · rintro y _ _ hh ⟨k, a', v, z, hx⟩
                cases k with
                | zero => simp [JC.objItem] at hx
                | succ k =>
                  rw [red k a' y (hsame y hh)] at hx
                  cases hp : parseValueF k y with
                  | ok v' z' => exact ⟨k, v', z', hp⟩
                  | fail => rw [hp] at hx; cases hx
            | ok v rest2 =>
              rw [hv] at h hve
              simp only [PM.erase] at hve
              simp only [] at h
              obtain ⟨hb4, hg⟩ := (soundAt n).value _ _ _ hve.symm
              subst hb4
              rw [← List.append_assoc]
              refine (ih.objNext _ _ _ _ h).behind _ ?_ ?_
              · intro y hy
                have := gmems_more hkey hw1 hw2 hg hy
                exact ⟨[], by simpa using this⟩
              · rintro y hy hr hh ⟨k, a', v', z, hx⟩
                cases k with
                | zero => simp [JC.objItem] at hx
                | succ k =>
                  rw [List.append_assoc] at hx
                  rw [red k a' (v ++ y) (hsame _ (by cases v <;> simp [hh]))] at hx
                  cases hp : parseValueF k (v ++ y) with
                  | ok v2 z2 =>
                    obtain ⟨rfl, rfl⟩ := value_swap hve.symm hr hh hp
                    rw [hp] at hx
                    exact ⟨_, _, _, _, hx⟩
                  | fail => rw [hp] at hx; cases hx
    · -- arrFirst
      intro a b r m h
      obtain ⟨w, hw, hb⟩ := exists_skip b
      unfold arrLoopM at h
      simp only [] at h
      cases hs : skipSpaces b with
      | nil =>
        rw [hs] at h hb
        simp only [] at h
        injection h with _ h; subst h
        rw [List.append_nil] at hb; subst hb
        exact Near.early (pre := b) (by simp) _ (gelems_one hw gnull)
      | cons c t =>
        have hsp := skipSpaces_head b c t hs
        rw [hs] at h hb
        simp only [if_true] at h
        split at h
        · cases h
        · rename_i hc
          rw [hb]
          refine (ih.arrItem _ _ _ _ h).behind w ?_ ?_
          · intro y hy; exact ⟨[], by rw [List.append_nil]; exact gelems_ws hw hy⟩
          · rintro y hy _ hh ⟨k, a', v, z, hv⟩
            cases y with
            | nil => exact absurd rfl hy
            | cons d y =>
              simp at hh; subst hh
              cases k with
              | zero => simp [arrLoop] at hv
              | succ k =>
                unfold arrLoop at hv
                rw [loopSkip hw hsp] at hv
                simp only [if_true] at hv
                rw [if_neg hc] at hv
                exact ⟨_, _, _, _, hv⟩
    · -- arrNext
      intro a b r m h
      obtain ⟨w, hw, hb⟩ := exists_skip b
      unfold arrLoopM at h
      simp only [] at h
      have one : GElems [0x6e, 0x75, 0x6c, 0x6c] := gelems_one (w := []) Ws.nil gnull
      cases hs : skipSpaces b with
      | nil =>
        rw [hs] at h hb
        simp only [] at h
        injection h with _ h; subst h
        rw [List.append_nil] at hb; subst hb
        exact Near.early (pre := b) (by simp) (0x2c :: [0x6e, 0x75, 0x6c, 0x6c]) ⟨b, _, rfl, hw, one⟩
      | cons c t =>
        have hsp := skipSpaces_head b c t hs
        rw [hs] at h hb
        simp only [Bool.false_eq_true, if_false] at h
        split at h
        · cases h
        · rename_i hc
          split at h
          · rename_i hcom
            injection h with _ h; subst h
            rw [hb]
            refine Near.byte (0x2c :: [0x6e, 0x75, 0x6c, 0x6c]) ⟨w, _, rfl, hw, one⟩ ?_
            rintro x ⟨k, a', v, z, hv⟩
            cases k with
            | zero => simp [arrLoop] at hv
            | succ k =>
              unfold arrLoop at hv
              rw [loopSkip hw hsp] at hv
              simp only [Bool.false_eq_true, if_false] at hv
              rw [if_neg hc, if_pos hcom] at hv
              cases hv
          · rename_i hcom
            have hcom' : c = 0x2c := Classical.not_not.1 hcom
            subst hcom'
            obtain ⟨w2, hw2, hb2⟩ := exists_skip t
            cases hs2 : skipSpaces t with
            | nil =>
              rw [hs2] at h hb2
              simp only [] at h
              injection h with _ h; subst h
              rw [List.append_nil] at hb2; subst hb2
              exact Near.early (pre := b) (by simp [unexpectedEOF]) [0x6e, 0x75, 0x6c, 0x6c]
                ⟨w, t ++ [0x6e, 0x75, 0x6c, 0x6c], by rw [hb]; simp, hw, gelems_ws hw2 one⟩
            | cons d u =>
              have hsp2 := skipSpaces_head t d u hs2
              rw [hs2] at h hb2
              simp only [] at h
              have hb3 : b = (w ++ 0x2c :: w2) ++ d :: u := by rw [hb, hb2]; simp
              have red : ∀ k a' y, d ≠ 0x5d → arrLoop (k + 1) a' false ((w ++ 0x2c :: w2) ++ d :: y) = JC.arrItem k a' (d :: y) := by
                intro k a' y hd
                unfold arrLoop
                rw [List.append_assoc, List.cons_append, loopSkip hw (by decide)]
                simp only [Bool.false_eq_true, if_false]
                rw [if_neg hc, if_neg hcom, loopSkip hw2 hsp2]
                simp only []
                rw [if_neg hd]
              rw [hb3]
              split at h
              · rename_i hd
                subst hd
                injection h with _ h; subst h
                refine Near.byte [0x6e, 0x75, 0x6c, 0x6c] ⟨w, w2 ++ [0x6e, 0x75, 0x6c, 0x6c], by simp, hw, gelems_ws hw2 one⟩ ?_
                rintro x ⟨k, a', v, z, hv⟩
                cases k with
                | zero => simp [arrLoop] at hv
                | succ k =>
                  unfold arrLoop at hv
                  rw [List.append_assoc, List.cons_append, loopSkip hw (by decide)] at hv
                  simp only [Bool.false_eq_true, if_false] at hv
                  rw [if_neg hc, if_neg hcom, loopSkip hw2 hsp2] at hv
                  simp only [if_true] at hv
                  cases hv
              · rename_i hd
                refine (ih.arrItem _ _ _ _ h).behind _ ?_ ?_
                · intro y hy
                  exact ⟨[], w, w2 ++ y, by simp, hw, gelems_ws hw2 hy⟩
                · rintro y hy _ hh ⟨k, a', v, z, hv⟩
                  cases y with
                  | nil => exact absurd rfl hy
                  | cons d' y =>
                    simp at hh; subst hh
                    cases k with
                    | zero => simp [arrLoop] at hv
                    | succ k => rw [red k a' y hd] at hv; exact ⟨_, _, _, _, hv⟩
    · -- arrItem
      intro a b r m h
      unfold arrItemM at h
      have hve := (eraseAt n).value b
      cases hv : parseValueMF n b with
      | fuel r' => rw [hv] at h; cases h
      | fail r' m' =>
        rw [hv] at h
        simp only [] at h
        injection h with _ h; subst h
        have := (ih.value _ _ _ hv).behind [] (G' := GElems) (A' := AElem) ?_ ?_
        · exact this
        · intro y hy; exact ⟨[], by simpa using gelems_one (w := []) Ws.nil hy⟩
        · rintro y _ _ _ ⟨k, a', v, z, hx⟩
          rw [List.nil_append] at hx
          cases k with
          | zero => simp [JC.arrItem] at hx
          | succ k =>
            unfold JC.arrItem at hx
            cases hp : parseValueF k y with
            | ok v' z' => exact ⟨k, v', z', hp⟩
            | fail => rw [hp] at hx; cases hx
      | ok v rest =>
        rw [hv] at h hve
        simp only [PM.erase] at hve
        simp only [] at h
        obtain ⟨hb4, hg⟩ := (soundAt n).value _ _ _ hve.symm
        subst hb4
        refine (ih.arrNext _ _ _ _ h).behind _ ?_ ?_
        · intro y hy; exact ⟨[], by simpa using gelems_more hg hy⟩
        · rintro y hy hr hh ⟨k, a', v', z, hx⟩
          cases k with
          | zero => simp [JC.arrItem] at hx
          | succ k =>
            unfold JC.arrItem at hx
            cases hp : parseValueF k (v ++ y) with
            | ok v2 z2 =>
              obtain ⟨rfl, rfl⟩ := value_swap hve.symm hr hh hp
              rw [hp] at hx
              exact ⟨_, _, _, _, hx⟩
            | fail => rw [hp] at hx; cases hx

end JC
