import Verif.Props.Struct
import Verif.Spec.MapDec
import Verif.Lemmas.PathLoop
import Verif.Model.TextKey
/-!
Lemmas about decoding objects into maps.
-/
namespace JC
open Spec Props

theorem lookup_mapSet_self {k : MK} {v : DV} : ∀ m : List (MK × DV), (mapSet k v m).lookup k = some v
  | [] => by simp [mapSet, List.lookup]
  | (k2, v2) :: m => by
    unfold mapSet
    split
    · simp [List.lookup]
    · split
      · simp [List.lookup]
      · rename_i h1 h2
        have hb : (k == k2) = false := by
          simp only [beq_eq_false_iff_ne, ne_eq]
          intro e
          first
            | exact h1 e
            | exact h1 e.symm
        simp only [List.lookup, hb]
        exact lookup_mapSet_self m

/-- the key of a member -/
theorem keyJ_iff {kt : KTy} {raw : Bytes} (h : JString raw) (k : MK) : keyJ kt raw = some k ↔ HasKey kt raw k := by
  have hn : hasNullPrefix raw = false := by
    obtain ⟨t, rfl⟩ := jstring_head h; exact hasNull_cons (by decide)
  have hkm := keyMeans_unq h
  simp only [keyJ, hn, Bool.false_eq_true, if_false]
  cases kt with
  | str =>
    have e0 := decodeString_ok h [] (.string [])
    rw [List.append_nil] at e0
    simp only [decodeKey, e0, okOf, Option.map_some, keyOf, Option.some.injEq, HasKey]
    constructor
    · rintro rfl; exact ⟨_, (hkm _).2 rfl, rfl⟩
    · rintro ⟨s, hs, rfl⟩; rw [(hkm s).1 hs]
  | text tk =>
    have e0 := decodeKey_text_str tk h []
    rw [List.append_nil] at e0
    simp only [e0, HasKey]
    constructor
    · intro hk
      cases ha : tk.answer (unq raw) with
      | some e => rw [ha] at hk; simp [okOf] at hk
      | none =>
        rw [ha] at hk
        simp only [okOf, Option.map_some, keyOf, Option.some.injEq] at hk
        exact ⟨_, (hkm _).2 rfl, ha, hk.symm⟩
    · rintro ⟨s, hs, ha, rfl⟩
      rw [← (hkm s).1 hs, ha]
      rfl
  | int i =>
    have e0 := decodeFromString_eq h (decodeInt i) [] (.int 0)
    rw [List.append_nil] at e0
    simp only [decodeKey, e0, HasKey]
    constructor
    · intro hk
      rw [Option.map_eq_some_iff] at hk
      obtain ⟨d, hd, rfl⟩ := hk
      cases ed : decodeInt i (unq raw) (.int 0) with
      | crash c => rw [ed] at hd; simp [okOf] at hd
      | err x r e => rw [ed] at hd; simp [okOf] at hd
      | ok x v' =>
        rw [ed] at hd
        simp only [] at hd
        split at hd
        · simp [okOf] at hd
        · rename_i hs
          simp only [okOf, Option.some.injEq] at hd
          subst hd
          have hw : Ws v' := skipSpaces_eq_nil (by simpa using hs)
          unfold decodeInt at ed
          split at ed
          · rename_i hn2
            injection ed with e3 e4
            subst e3 e4
            refine ⟨_, _, 0, (hkm _).2 (hasNull_take hn2).symm, hw, .inr ⟨rfl, rfl⟩, rfl⟩
          · rename_i hn2
            simp only [] at ed
            split at ed
            · rename_i he
              injection ed with e3 e4
              rcases (C10_only i (unq raw) _).2 he with ⟨h1, _⟩ | ⟨l, z, e5, hl, hf, hz, _⟩
              · exfalso
                apply hn2
                have : (unq raw).length ≥ 4 := by
                  have := congrArg List.length h1
                  simp at this; omega
                simp [hasNullPrefix, h1, this]
              · rw [e4] at e5
                rw [← e3, hz]
                exact ⟨l, v', z, (hkm _).2 e5.symm, hw, .inl ⟨hl, hf⟩, rfl⟩
            · simp at ed
    · rintro ⟨l, s, z, hk, hs, hl, rfl⟩
      rw [← (hkm _).1 hk]
      have hd : decodeInt i (l ++ s) (.int 0) = .ok (.int z) s := by
        unfold decodeInt
        rcases hl with ⟨hl, hf⟩ | ⟨rfl, rfl⟩
        · have hnum : JNumber l := intLit_number (kindLit_int hl)
          rw [hasNull_num hnum, (C10_sized i hl (numStop_intStop (numStop_ws hs)) _).1 hf]
          rfl
        · have : hasNullPrefix (bs! "null" ++ s) = true := by simp [hasNullPrefix]
          rw [this]
          simp
      rw [hd]
      simp only [skipSpaces_ws hs]
      rfl

theorem decJN_map {c : DCfg} {n : Nat} {k : KTy} {t : Ty} : decJN c n (.map k t) = mapTyJ k (decJN c n t) (zero t) := by
  cases n with
  | zero => simp only [decJN, decJ]
  | succ n => simp only [decJN, decJ]

theorem decN_map {c : DCfg} {n : Nat} {k : KTy} {t : Ty} : decN c n (.map k t) = decodeMap k (decN c n t) (zero t) := by
  cases n with
  | zero => simp only [decN, dec]
  | succ n => simp only [decN, dec]

/-- what decoding the members does to the entries -/
theorem mapJ_none {k : KTy} {f : JDec} {z : DV} : ∀ (ms : List (Bytes × Json)) (m : List (MK × DV)),
    mapJ k f z ms m = none ↔ ∃ x ∈ ms, keyJ k x.1 = none ∨ f x.2 z = none
  | [], m => by simp [mapJ]
  | (raw, j) :: ms, m => by
    simp only [mapJ]
    cases hk : keyJ k raw with
    | none => simp [hk]
    | some kv =>
      cases hf : f j z with
      | none => simp [hf]
      | some v => simp [mapJ_none ms, hk, hf]

theorem mapJ_absent {k : KTy} {f : JDec} {z : DV} {key : MK} : ∀ (ms : List (Bytes × Json)) (m x : List (MK × DV)),
    mapJ k f z ms m = some x → (∀ a ∈ ms, keyJ k a.1 ≠ some key) → x.lookup key = m.lookup key
  | [], m, x, h, _ => by simp only [mapJ, Option.some.injEq] at h; rw [h]
  | (raw, j) :: ms, m, x, h, ha => by
    simp only [mapJ] at h
    split at h
    · simp at h
    · rename_i kv hk
      split at h
      · simp at h
      · rename_i v hv
        rw [mapJ_absent ms _ x h (fun a hm => ha a (by simp [hm]))]
        refine lookup_mapSet ?_ m
        rintro rfl
        exact ha (raw, j) (by simp) hk

theorem mapJ_last {k : KTy} {f : JDec} {z : DV} {key : MK} {raw : Bytes} {j : Json} {ms2 : List (Bytes × Json)} (hk : keyJ k raw = some key)
    (ha : ∀ a ∈ ms2, keyJ k a.1 ≠ some key) : ∀ (ms1 : List (Bytes × Json)) (m x : List (MK × DV)),
    mapJ k f z (ms1 ++ (raw, j) :: ms2) m = some x → x.lookup key = f j z
  | [], m, x, h => by
    simp only [List.nil_append, mapJ, hk] at h
    cases hf : f j z with
    | none => rw [hf] at h; simp at h
    | some v =>
      rw [hf] at h
      rw [mapJ_absent ms2 _ x h ha, lookup_mapSet_self]
  | (raw1, j1) :: ms1, m, x, h => by
    simp only [List.cons_append, mapJ] at h
    split at h
    · simp at h
    · split at h
      · simp at h
      · exact mapJ_last hk ha ms1 _ x h

/-- a key that its type does not take, after members that are in order -/
theorem map_members_reject {P : DV → Prop} {N : Nat} {dec : Dec} {f : JDec} {z : DV} (hd : RefP P N dec f) (hz : P z) (k : KTy)
    (p : DV) (fresh : Bool) (input : Bytes) {raw : Bytes} {j : Json} {ms2 : List (Bytes × Json)} (hbad : keyJ k raw = none) :
    ∀ (ms1 : List (Bytes × Json)) (u : Bytes), Derives (.members (ms1 ++ (raw, j) :: ms2)) u → u.length < N →
      (∀ a ∈ ms1, (∃ kv, keyJ k a.1 = some kv) ∧ ∃ x, f a.2 z = some x) → ∀ (m : List (MK × DV)) (n : Nat) (r : Bytes), u.length < n →
      ∃ x r' e, mapMember k dec z p fresh input n m (skipSpaces (u ++ 0x7d :: r)) = .err x r' e ∧ (e = .syntax ∨ skipSpaces r' ≠ []) := by
  have bad : ∀ w1 w2 T m n, Ws w1 → JString raw → Ws w2 →
      ∃ x r' e, mapMember k dec z p fresh input n m (skipSpaces (w1 ++ (raw ++ (w2 ++ 0x3a :: T)))) = .err x r' e ∧ (e = .syntax ∨ skipSpaces r' ≠ []) := by
    intro w1 w2 T m n hw1 hk hw2
    rw [skipSpaces_ws_append hw1, jstring_skip hk]
    have hsp := skip_ws_cons hw2 (c := 0x3a) (by decide) T
    have hnull : hasNullPrefix (raw ++ (w2 ++ 0x3a :: T)) = false := by
      obtain ⟨t, rfl⟩ := jstring_head hk; exact hasNull_cons (by decide)
    cases hkey : decodeKey k (raw ++ (w2 ++ 0x3a :: T)) with
    | crash c => exact absurd hkey (decodeKey_nc _ _ _)
    | ok d rr => exact absurd hkey ((decodeKey_app hk k _).2 hbad _ _)
    | err y r1 e1 =>
      rw [mapMember]
      simp only [memberKey, if_true, hnull, Bool.false_eq_true, if_false, hkey]
      refine ⟨_, _, _, rfl, ?_⟩
      rcases decodeKey_kind hk hkey with he1 | he1 | he1
      · exact .inl (objectKeyError_cases _ _ (.inl he1))
      · exact .inl (objectKeyError_cases _ _ (.inr he1))
      · subst he1
        unfold objectKeyError
        rw [if_neg (by simp)]
        split
        · exact .inl rfl
        · exact .inr (by rw [hsp]; simp)
  intro ms1
  induction ms1 with
  | nil =>
    intro u h hN _ m n r hn
    cases h with
    | memOne w1 w2 w3 w4 _ _ b hw1 hw2 hw3 hw4 hk hj =>
      have e : w1 ++ raw ++ w2 ++ 0x3a :: (w3 ++ b ++ w4) ++ 0x7d :: r =
          w1 ++ (raw ++ (w2 ++ 0x3a :: (w3 ++ (b ++ (w4 ++ 0x7d :: r))))) := by simp
      rw [e]; exact bad _ _ _ _ _ hw1 hk hw2
    | memCons w1 w2 w3 w4 _ _ b _ bs hw1 hw2 hw3 hw4 hk hj hbs =>
      have e : w1 ++ raw ++ w2 ++ 0x3a :: (w3 ++ b ++ w4 ++ 0x2c :: bs) ++ 0x7d :: r =
          w1 ++ (raw ++ (w2 ++ 0x3a :: (w3 ++ (b ++ (w4 ++ 0x2c :: (bs ++ 0x7d :: r)))))) := by simp
      rw [e]; exact bad _ _ _ _ _ hw1 hk hw2
  | cons kj ms1 ih =>
    intro u h hN hok m n r hn
    obtain ⟨raw1, j1⟩ := kj
    obtain ⟨n, rfl⟩ : ∃ k, n = k + 1 := ⟨n - 1, by omega⟩
    obtain ⟨⟨kv, hkv⟩, x, hx⟩ := hok (raw1, j1) (by simp)
    simp only [List.cons_append] at h
    generalize hms : ms1 ++ (raw, j) :: ms2 = ms at h
    cases h with
    | memOne => simp at hms
    | memCons w1 w2 w3 w4 _ _ b _ bs hw1 hw2 hw3 hw4 hk hj hbs =>
      subst hms
      have e : w1 ++ raw1 ++ w2 ++ 0x3a :: (w3 ++ b ++ w4 ++ 0x2c :: bs) ++ 0x7d :: r =
          w1 ++ (raw1 ++ (w2 ++ 0x3a :: (w3 ++ (b ++ (w4 ++ 0x2c :: (bs ++ 0x7d :: r)))))) := by simp
      simp only [List.length_append, List.length_cons] at hN hn
      rw [e, skipSpaces_ws_append hw1, jstring_skip hk]
      obtain ⟨k1, _⟩ := decodeKey_app hk k (w2 ++ 0x3a :: (w3 ++ (b ++ (w4 ++ 0x2c :: (bs ++ 0x7d :: r)))))
      have hT : NumStop (w4 ++ 0x2c :: (bs ++ 0x7d :: r)) := numStop_ws_cons hw4 (by simp)
      obtain ⟨h1, _⟩ := hd j1 b hj (by omega) _ (follow_of_numStop hT) z hz
      obtain ⟨d, ek, rfl⟩ := k1 kv hkv
      obtain ⟨_, r', e2, hr⟩ := h1 x hx
      rw [mapMember, memberKey_ok hk hw2 ek, skip_ws_value hw3 hj]
      simp only [e2]
      rw [mapLoopD_skip (skip_or hr), mapLoopD_comma (skip_ws_cons hw4 (by decide) _)]
      exact ih bs hbs (by omega) (fun a ha => hok a (by simp [ha])) _ n r (by omega)

theorem map_reject {P : DV → Prop} {N : Nat} {dec : Dec} {f : JDec} {z : DV} (hd : RefP P N dec f) (hz : P z) (k : KTy)
    {raw : Bytes} {j : Json} {ms1 ms2 : List (Bytes × Json)} (hbad : keyJ k raw = none)
    (hok : ∀ a ∈ ms1, (∃ kv, keyJ k a.1 = some kv) ∧ ∃ x, f a.2 z = some x) {v : Bytes}
    (hv : Derives (.value (.obj (ms1 ++ (raw, j) :: ms2))) v) (hN : v.length < N) (r : Bytes) (p : DV) :
    ∃ x r' e, decodeMap k dec z (v ++ r) p = .err x r' e ∧ (e = .syntax ∨ skipSpaces r' ≠ []) := by
  generalize hms : ms1 ++ (raw, j) :: ms2 = ms at hv
  cases hv with
  | objNil => simp at hms
  | obj _ b hb =>
    subst hms
    have hop : ∃ fresh, decodeMap k dec z (0x7b :: (b ++ [0x7d]) ++ r) p =
        mapLoopD k dec z p fresh (0x7b :: (b ++ [0x7d]) ++ r) ((0x7b :: (b ++ [0x7d]) ++ r).length + 1) true (mapMem p) (b ++ 0x7d :: r) := by
      unfold decodeMap
      rw [show hasNullPrefix (0x7b :: (b ++ [0x7d]) ++ r) = false from hasNull_cons (by decide)]
      simp only [Bool.false_eq_true, if_false, List.cons_append, List.append_assoc, List.nil_append]
      rw [if_neg (by simp; omega)]
      cases p
      case map m => exact ⟨false, rfl⟩
      all_goals exact ⟨true, rfl⟩
    obtain ⟨fresh, e⟩ := hop
    obtain ⟨t, eh⟩ := derives_members_head hb (0x7d :: r)
    rw [e, mapLoopD_first (by rw [eh]; simp)]
    simp only [List.length_cons, List.length_append] at hN
    exact map_members_reject hd hz k p fresh _ hbad ms1 b hb (by omega) hok (mapMem p) _ r (by simp; omega)

/-! ### keys without `UnmarshalText` -/

theorem keyNoText_never {b : Bytes} (hn : hasNullPrefix b = false) (x : DV) (r : Bytes) : decodeKeyNoText b ≠ .ok x r := by
  intro h
  unfold decodeKeyNoText at h
  split at h
  · simp at h
  · rename_i h2
    obtain ⟨s, _, _, _, rfl⟩ := textU_key hn h
    exact h2 _ _ h

theorem keyNoText_str {k : Bytes} (h : JString k) (r : Bytes) : decodeKeyNoText (k ++ r) = .crash .panic := by
  unfold decodeKeyNoText
  rw [textU_str _ h]

end JC
