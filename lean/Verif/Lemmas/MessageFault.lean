import Verif.Lemmas.MessageErase
import Verif.Lemmas.MessageNum
/-! Where the parser says that a text goes wrong. -/
namespace JC
open Spec

/-- What follows a value, past the next byte, does not matter. -/
theorem value_swap {n m : Nat} {v y x v' r' : Bytes} (h : parseValueF n (v ++ y) = .ok v y) (hy : y ≠ []) (hxy : x.head? = y.head?)
    (h' : parseValueF m (v ++ x) = .ok v' r') : v' = v ∧ r' = x := by
  obtain ⟨_, j, hj⟩ := (soundAt n).value _ _ _ h
  by_cases hn : ∃ t, j = .num t
  · obtain ⟨t, rfl⟩ := hn
    cases hj with
    | num t hs =>
      cases n with
      | zero => simp [parseValueF] at h
      | succ n =>
        cases m with
        | zero => simp [parseValueF] at h'
        | succ m =>
          rw [num_dispatch hs] at h h'
          cases y with
          | nil => exact absurd rfl hy
          | cons d y =>
            cases x with
            | nil => simp at hxy
            | cons d' x =>
              simp at hxy; subst hxy
              rw [parseNumber_swap x h] at h'
              injection h' with e1 e2
              exact ⟨e1.symm, e2.symm⟩
  · have hf : Follow j x := by cases j <;> simp [Follow] at *
    have big : parseValueF (m + 4 * v.length) (v ++ x) = .ok v' r' := (monoAt m).value _ _ _ _ (by omega) h'
    rw [complete hj x (m + 4 * v.length) hf (by omega)] at big
    injection big with e1 e2
    exact ⟨e1.symm, e2.symm⟩

/-- `near` is where `b` goes wrong, for a part of a text with grammar `G` that is accepted as `A`. -/
def Near (G A : Bytes → Prop) (b near : Bytes) : Prop :=
  ∃ pre, b = pre ++ near ∧ (∃ w, G (pre ++ w)) ∧
    ((∃ w, G (b ++ w)) ∨ (∃ c t, near = c :: t ∧ ∀ x, ¬ A (pre ++ c :: x)) ∨ BadToken pre near)

theorem badToken_behind {q pre near : Bytes} (h : BadToken pre near) : BadToken (q ++ pre) near := by
  cases h with
  | str t h1 h2 => exact .str t h1 h2
  | hex p h1 h2 => exact .hex (q ++ p) (by rw [h1, List.append_assoc]) h2
  | null t h1 h2 => exact .null t h1 h2
  | tru t h1 h2 => exact .tru t h1 h2
  | fls t h1 h2 => exact .fls t h1 h2
  | num h => exact .num h

theorem Near.behind {G A G' A' : Bytes → Prop} {b near : Bytes} (q : Bytes) (h : Near G A b near)
    (hG : ∀ y, G y → ∃ w, G' (q ++ y ++ w)) (hA : ∀ y, y ≠ [] → b ≠ [] → y.head? = b.head? → A' (q ++ y) → A y) : Near G' A' (q ++ b) near := by
  obtain ⟨pre, rfl, ⟨w, hw⟩, h⟩ := h
  refine ⟨q ++ pre, by simp, ?_, ?_⟩
  · obtain ⟨w', hw'⟩ := hG _ hw
    exact ⟨w ++ w', by simpa using hw'⟩
  · rcases h with ⟨w, hw⟩ | ⟨c, t, rfl, h⟩ | h
    · obtain ⟨w', hw'⟩ := hG _ hw
      exact .inl ⟨w ++ w', by simpa using hw'⟩
    · refine .inr (.inl ⟨c, t, rfl, ?_⟩)
      intro x hx
      rw [List.append_assoc] at hx
      exact h x (hA _ (by simp) (by simp) (by cases pre <;> rfl) hx)
    · exact .inr (.inr (badToken_behind h))

/-- The text ends too early. -/
theorem Near.early {G A : Bytes → Prop} {b near pre : Bytes} (hb : b = pre ++ near) (w : Bytes) (h : G (b ++ w)) : Near G A b near :=
  ⟨pre, hb, ⟨near ++ w, by rw [← List.append_assoc, ← hb]; exact h⟩, .inl ⟨w, h⟩⟩

/-- The next byte may not stand there. -/
theorem Near.byte {G A : Bytes → Prop} {pre : Bytes} {c : UInt8} {t : Bytes} (w : Bytes) (h : G (pre ++ w)) (hA : ∀ x, ¬ A (pre ++ c :: x)) :
    Near G A (pre ++ c :: t) (c :: t) := ⟨pre, rfl, ⟨w, h⟩, .inr (.inl ⟨c, t, rfl, hA⟩)⟩

theorem Near.token {G A : Bytes → Prop} {b : Bytes} (w : Bytes) (h : G w) (ht : BadToken [] b) : Near G A b b :=
  ⟨[], rfl, ⟨w, h⟩, .inr (.inr ht)⟩

/-! ### what is expected, and what is accepted -/

def GVal (b : Bytes) : Prop := ∃ j, Derives (.value j) b
def GStr (b : Bytes) : Prop := JString b
def GElems (b : Bytes) : Prop := ∃ xs, Derives (.elems xs) b
def GMore (b : Bytes) : Prop := ∃ w m, b = w ++ 0x2c :: m ∧ Ws w ∧ GElems m
def GMems (b : Bytes) : Prop := ∃ xs, Derives (.members xs) b
def GMoreM (b : Bytes) : Prop := ∃ w m, b = w ++ 0x2c :: m ∧ Ws w ∧ GMems m

def AVal (b : Bytes) : Prop := ∃ n v r, parseValueF n b = .ok v r
def AStr (b : Bytes) : Prop := ∃ v r, parseString b = .ok v r
def AArr (f : Bool) (b : Bytes) : Prop := ∃ n a v r, arrLoop n a f b = .ok v r
def AElem (b : Bytes) : Prop := ∃ n a v r, arrItem n a b = .ok v r
def AObj (f : Bool) (b : Bytes) : Prop := ∃ n a v r, objLoop n a f b = .ok v r
def AMemb (b : Bytes) : Prop := ∃ n a v r, objItem n a b = .ok v r

theorem jnull : Derives (.value .null) [0x6e, 0x75, 0x6c, 0x6c] := .null
theorem gnull : GVal [0x6e, 0x75, 0x6c, 0x6c] := ⟨_, .null⟩

theorem gelems_one {w v : Bytes} (hw : Ws w) (h : GVal v) : GElems (w ++ v) := by
  obtain ⟨j, hj⟩ := h
  have := Derives.elemOne w [] j v hw Ws.nil hj
  rw [List.append_nil] at this
  exact ⟨_, this⟩

theorem gelems_ws {w m : Bytes} (hw : Ws w) (h : GElems m) : GElems (w ++ m) := by
  obtain ⟨xs, h⟩ := h; exact ⟨xs, derives_elems_ws hw h⟩

theorem gmems_ws {w m : Bytes} (hw : Ws w) (h : GMems m) : GMems (w ++ m) := by
  obtain ⟨xs, h⟩ := h; exact ⟨xs, derives_members_ws hw h⟩

/-- `"":null` -/
def oneMem : Bytes := [0x22, 0x22, 0x3a, 0x6e, 0x75, 0x6c, 0x6c]

theorem gmem_of {k w1 w2 v : Bytes} (hk : JString k) (h1 : Ws w1) (h2 : Ws w2) (hv : GVal v) : GMems (k ++ w1 ++ 0x3a :: (w2 ++ v)) := by
  obtain ⟨j, hj⟩ := hv
  have := Derives.memOne [] w1 w2 [] k j v Ws.nil h1 h2 Ws.nil hk hj
  exact ⟨_, by simpa using this⟩

theorem jempty : JString [0x22, 0x22] := .mk [] .nil

theorem gmems_oneMem : GMems oneMem := gmem_of jempty Ws.nil Ws.nil gnull

theorem gmems_more {k w1 w2 v y : Bytes} (hk : JString k) (h1 : Ws w1) (h2 : Ws w2) (hv : GVal v) (hy : GMoreM y) :
    GMems (k ++ w1 ++ 0x3a :: (w2 ++ v) ++ y) := by
  obtain ⟨j, hj⟩ := hv
  obtain ⟨w, m, rfl, hw, ms, hm⟩ := hy
  have := Derives.memCons [] w1 w2 w k j v ms m Ws.nil h1 h2 hw hk hj hm
  exact ⟨_, by simpa using this⟩

theorem gelems_more {v y : Bytes} (hv : GVal v) (hy : GMore y) : GElems (v ++ y) := by
  obtain ⟨j, hj⟩ := hv
  obtain ⟨w, m, rfl, hw, ms, hm⟩ := hy
  have := Derives.elemCons [] w j v ms m Ws.nil hw hj hm
  exact ⟨_, by simpa using this⟩

/-! ### strings -/

theorem fourHex_parse {b : Bytes} (h : FourHex b) : (parseUnicode b).isSome := by
  obtain ⟨h1, h2, h3, h4, t, rfl, a1, a2, a3, a4⟩ := h
  obtain ⟨x1, e1⟩ := a1.val
  obtain ⟨x2, e2⟩ := a2.val
  obtain ⟨x3, e3⟩ := a3.val
  obtain ⟨x4, e4⟩ := a4.val
  rw [parseUnicode_of_hex e1 e2 e3 e4]; rfl

theorem jchars_join {a b : Bytes} (ha : JChars a) (hb : JChars b) : JChars (a ++ b) := by
  induction ha with
  | nil => exact hb
  | plain c b h1 h2 h3 _ ih => exact .plain c _ h1 h2 h3 ih
  | esc e b h1 _ ih => exact .esc e _ h1 ih
  | uni a1 a2 a3 a4 b h1 h2 h3 h4 _ ih => exact .uni a1 a2 a3 a4 _ h1 h2 h3 h4 ih

theorem jchars_zeros : JChars [0x5c, 0x75, 0x30, 0x30, 0x30, 0x30] := by
  refine .uni _ _ _ _ _ ?_ ?_ ?_ ?_ .nil <;> exact .inl ⟨by decide, by decide⟩

theorem unicodeErr_near {t : Bytes} {m : SynErr} (h : unicodeErr t = some m) : m.near = t := by
  unfold unicodeErr at h
  split at h
  · injection h with h; subst h; rfl
  · split at h
    · injection h with h; subst h; rfl
    · split at h
      · injection h with h; subst h; rfl
      · cases h

theorem scan_near (b : Bytes) : ∀ (t y : Bytes) (i : Nat) (r : Bytes) (m : SynErr), b = 0x22 :: (y ++ t) → JChars y → scanStringM b t i = .fail r m →
    m.near = b ∨ ∃ p, b = p ++ [0x5c, 0x75] ++ m.near ∧ (∃ w, JString (p ++ [0x5c, 0x75] ++ w)) ∧ ¬ FourHex m.near := by
  intro t
  induction h : t.length using Nat.strongRecOn generalizing t with
  | _ n ih =>
    subst h
    intro y i r m hb hy h
    cases t with
    | nil => simp only [scanStringM] at h; injection h with _ h; subst h; exact .inl rfl
    | cons c t =>
      unfold scanStringM at h
      split at h
      · rename_i hc
        subst hc
        cases t with
        | nil => simp only [] at h; injection h with _ h; subst h; exact .inl rfl
        | cons e t' =>
          simp only [] at h
          split at h
          · rename_i he
            refine ih _ (by simp; omega) t' rfl (y ++ [0x5c, e]) _ r m (by rw [hb]; simp) ?_ h
            exact jchars_join hy (.esc e [] ((isSimpleEsc_iff e).1 he) .nil)
          · split at h
            · rename_i he
              subst he
              cases hu : unicodeErr t' with
              | some m' =>
                rw [hu] at h
                simp only [] at h
                injection h with _ h; subst h
                have hn := unicodeErr_near hu
                refine .inr ⟨0x22 :: y, ?_, ?_, ?_⟩
                · rw [hn, hb]; simp
                · refine ⟨[0x30, 0x30, 0x30, 0x30, 0x22], ?_⟩
                  have := JString.mk _ (jchars_join hy jchars_zeros)
                  simpa using this
                · rw [hn]
                  intro hf
                  rw [(unicodeErr_none t').2 (fourHex_parse hf)] at hu
                  cases hu
              | none =>
                rw [hu] at h
                simp only [] at h
                have hs := (unicodeErr_none t').1 hu
                obtain ⟨u, hs⟩ := Option.isSome_iff_exists.1 hs
                obtain ⟨a1, a2, a3, a4, z, x1, x2, x3, x4, rfl, v1, v2, v3, v4, _⟩ := parseUnicode_some hs
                simp only [] at h
                refine ih _ (by simp; omega) z rfl (y ++ [0x5c, 0x75, a1, a2, a3, a4]) _ r m (by rw [hb]; simp) ?_ h
                exact jchars_join hy (.uni _ _ _ _ [] (.of_val v1) (.of_val v2) (.of_val v3) (.of_val v4) .nil)
            · injection h with _ h; subst h; exact .inl rfl
      · rename_i hc
        split at h
        · cases h
        · rename_i hq
          split at h
          · injection h with _ h; subst h; exact .inl rfl
          · rename_i hl
            refine ih _ (by simp) t rfl (y ++ [c]) _ r m (by rw [hb]; simp) ?_ h
            exact jchars_join hy (.plain c [] (UInt8.not_lt.1 hl) hq hc .nil)

theorem string_near {b r : Bytes} {m : SynErr} (hb : b ≠ []) (h : parseStringM b = .fail r m) : Near GStr AStr b m.near := by
  have hbad : ∀ s z, JString s → b ≠ s ++ z := by
    rintro s z hs rfl
    have e := parseStringM_erase (s ++ z)
    rw [h, parseString_complete hs z] at e
    cases e
  have other : ∀ (c : UInt8) (t : Bytes), c ≠ 0x22 → Near GStr AStr (c :: t) (c :: t) := by
    intro c t hc
    refine Near.byte (pre := []) [0x22, 0x22] jempty ?_
    rintro x ⟨v, z, hx⟩
    obtain ⟨e, s, hs⟩ := parseString_sound hx
    simp at e
    exact hc e.1
  cases b with
  | nil => exact absurd rfl hb
  | cons q t =>
    cases t with
    | nil =>
      simp only [parseStringM] at h
      injection h with _ h; subst h
      by_cases hq : q = 0x22
      · subst hq; exact Near.early (pre := []) rfl [0x22] jempty
      · exact other q [] hq
    | cons x t =>
      by_cases hq : q = 0x22
      · subst hq
        have hn : m.near = 0x22 :: x :: t ∨ ∃ p, 0x22 :: x :: t = p ++ [0x5c, 0x75] ++ m.near ∧ (∃ w, JString (p ++ [0x5c, 0x75] ++ w)) ∧ ¬ FourHex m.near := by
          unfold parseStringM at h
          simp only [ne_eq, not_true_eq_false, if_false] at h
          cases hi : indexByte (x :: t) 34 with
          | none => rw [hi] at h; simp only [] at h; injection h with _ h; subst h; exact .inl rfl
          | some k =>
            rw [hi] at h
            simp only [] at h
            split at h
            · cases h
            · exact scan_near _ _ [] _ _ _ (by simp) .nil h
        rcases hn with hn | ⟨p, h1, h2, h3⟩
        · rw [hn]; exact Near.token [0x22, 0x22] jempty (.str _ rfl hbad)
        · exact ⟨_, h1, h2, .inr (.inr (.hex p rfl h3))⟩
      · unfold parseStringM at h
        simp only [] at h
        rw [if_pos hq] at h
        injection h with _ h; subst h
        exact other q _ hq

end JC
