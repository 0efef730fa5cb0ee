import Verif.Lemmas.DecSuff
import Verif.Spec.Frame
import Verif.Props.Struct
/-! Decoders change only what the text names. -/
namespace JC
open Spec Props

/-- the contents of the destination afterwards -/
def DRes.dest : DRes → Option DV
  | .ok v _ => some v
  | .err v _ _ => some v
  | .crash _ => none

theorem mentions_mono {b b' k : Bytes} (h : b' <:+ b) (hm : Mentions b' k) : Mentions b k := by
  obtain ⟨q, rfl⟩ := h
  obtain ⟨pre, lit, post, rfl, hk⟩ := hm
  exact ⟨q ++ pre, lit, post, by simp, hk⟩

theorem hasNull_mono {b b' : Bytes} (h : b' <:+ b) (hm : HasNull b') : HasNull b := by
  obtain ⟨q, rfl⟩ := h
  obtain ⟨pre, post, rfl⟩ := hm
  exact ⟨q ++ pre, post, by simp⟩

theorem namesKey_mono {kt : KTy} {b b' : Bytes} (h : b' <:+ b) {k : MK} (hm : NamesKey b' kt k) : NamesKey b kt k := by
  cases kt <;> cases k <;> simp only [NamesKey] at hm ⊢
  · exact mentions_mono h hm
  · obtain ⟨l, s, h1, h2⟩ := hm; exact ⟨l, s, mentions_mono h h1, h2⟩
  · obtain ⟨t, h1, h2⟩ := hm; exact ⟨t, mentions_mono h h1, h2⟩

theorem sameBut_mono {kt : KTy} {b b' : Bytes} (h : b' <:+ b) {es es' : List (MK × DV)} (hm : SameBut b' kt es es') : SameBut b kt es es' :=
  fun k hk => hm k fun h' => hk (namesKey_mono h h')

theorem sameBut_trans {kt : KTy} {b : Bytes} {x y z : List (MK × DV)} (h1 : SameBut b kt x y) (h2 : SameBut b kt y z) : SameBut b kt x z :=
  fun k hk => (h2 k hk).trans (h1 k hk)

theorem keptMap_mono {kt : KTy} {b b' : Bytes} (h : b' <:+ b) {es : List (MK × DV)} {x : DV} (hm : KeptMap b' kt es x) : KeptMap b kt es x := by
  rcases hm with ⟨es', e, h1⟩ | ⟨hn, h1⟩
  · exact .inl ⟨es', e, sameBut_mono h h1⟩
  · refine .inr ⟨hasNull_mono h hn, ?_⟩
    rcases h1 with h1 | ⟨es', e, h1⟩
    · exact .inl h1
    · exact .inr ⟨es', e, sameBut_mono h h1⟩

mutual
theorem kept_mono {fold : Bool} {b b' : Bytes} (h : b' <:+ b) : ∀ (t : Ty) (p x : DV), Kept fold b' t p x → Kept fold b t p x
  | .struct fs, p, x, hk => by
    unfold Kept at hk ⊢
    intro ps e
    obtain ⟨xs, h1, h2, h3⟩ := hk ps e
    exact ⟨xs, h1, h2, keptF_mono h fs ps xs h3⟩
  | .ptr t, p, x, hk => by
    unfold Kept at hk ⊢
    refine ⟨fun v e => ?_, fun e => ?_⟩
    · rcases hk.1 v e with ⟨w, e1, h1⟩ | ⟨hn, e1 | ⟨w, e1, h1⟩⟩
      · exact .inl ⟨w, e1, kept_mono h t _ _ h1⟩
      · exact .inr ⟨hasNull_mono h hn, .inl e1⟩
      · exact .inr ⟨hasNull_mono h hn, .inr ⟨w, e1, kept_mono h t _ _ h1⟩⟩
    · rcases hk.2 e with e1 | ⟨w, e1, h1⟩
      · exact .inl e1
      · exact .inr ⟨w, e1, kept_mono h t _ _ h1⟩
  | .array n t, p, x, hk => by
    unfold Kept at hk ⊢
    intro ps e hl
    obtain ⟨xs, h1, h2, h3⟩ := hk ps e hl
    exact ⟨xs, h1, h2, fun i q y hq hy => kept_mono h t _ _ (h3 i q y hq hy)⟩
  | .map k t, p, x, hk => by
    unfold Kept at hk ⊢
    exact ⟨fun es e => keptMap_mono h (hk.1 es e), fun e => (hk.2 e).imp id fun ⟨es', e1, h1⟩ => ⟨es', e1, sameBut_mono h h1⟩⟩
  | .mapSI, p, x, hk => by
    unfold Kept at hk ⊢
    exact ⟨fun es e => keptMap_mono h (hk.1 es e), fun e => (hk.2 e).imp id fun ⟨es', e1, h1⟩ => ⟨es', e1, sameBut_mono h h1⟩⟩
  | .mapRaw, p, x, hk => by
    unfold Kept at hk ⊢
    exact ⟨fun es e => keptMap_mono h (hk.1 es e), fun e => (hk.2 e).imp id fun ⟨es', e1, h1⟩ => ⟨es', e1, sameBut_mono h h1⟩⟩
  | .bool, _, _, _ | .int _, _, _, _ | .float32, _, _, _ | .float64, _, _, _ | .number, _, _, _ | .string, _, _, _
  | .bytes, _, _, _ | .duration, _, _, _ | .time, _, _, _ | .raw, _, _, _ | .iface, _, _, _ | .ifaceM _, _, _, _
  | .slice _, _, _, _ | .quoted _, _, _, _ | .quotedInt _, _, _, _ | .jsonU _, _, _, _ | .textU _, _, _, _
  | .unsupported, _, _, _ => by unfold Kept; trivial
theorem keptF_mono {fold : Bool} {b b' : Bytes} (h : b' <:+ b) : ∀ (fs : List (Bytes × Ty)) (ps xs : List DV),
    KeptF fold b' fs ps xs → KeptF fold b fs ps xs
  | [], _, _, _ => by simp [KeptF]
  | _ :: _, [], _, _ => by simp [KeptF]
  | _ :: _, _ :: _, [], _ => by simp [KeptF]
  | (nm, t) :: fs, p :: ps, x :: xs, hk => by
    simp only [KeptF] at hk ⊢
    exact ⟨fun hn => hk.1 fun k hm => hn k (mentions_mono h hm), kept_mono h t p x hk.2.1, keptF_mono h fs ps xs hk.2.2⟩
end

mutual
theorem kept_refl {fold : Bool} {b : Bytes} : ∀ (t : Ty) (p : DV), Kept fold b t p p
  | .struct fs, p => by
    unfold Kept
    intro ps e
    exact ⟨ps, e, rfl, keptF_refl fs ps⟩
  | .ptr t, p => by
    unfold Kept
    exact ⟨fun v e => .inl ⟨v, e, kept_refl t v⟩, fun e => .inl e⟩
  | .array n t, p => by
    unfold Kept
    intro ps e hl
    refine ⟨ps, e, hl, fun i q y hq hy => ?_⟩
    rw [hq] at hy; injection hy with hy; subst hy
    exact kept_refl t q
  | .map k t, p => by
    unfold Kept
    exact ⟨fun es e => .inl ⟨es, e, fun _ _ => rfl⟩, fun e => .inl e⟩
  | .mapSI, p => by
    unfold Kept
    exact ⟨fun es e => .inl ⟨es, e, fun _ _ => rfl⟩, fun e => .inl e⟩
  | .mapRaw, p => by
    unfold Kept
    exact ⟨fun es e => .inl ⟨es, e, fun _ _ => rfl⟩, fun e => .inl e⟩
  | .bool, _ | .int _, _ | .float32, _ | .float64, _ | .number, _ | .string, _
  | .bytes, _ | .duration, _ | .time, _ | .raw, _ | .iface, _ | .ifaceM _, _
  | .slice _, _ | .quoted _, _ | .quotedInt _, _ | .jsonU _, _ | .textU _, _
  | .unsupported, _ => by unfold Kept; trivial
theorem keptF_refl {fold : Bool} {b : Bytes} : ∀ (fs : List (Bytes × Ty)) (ps : List DV), KeptF fold b fs ps ps
  | [], _ => by simp [KeptF]
  | _ :: _, [] => by simp [KeptF]
  | (nm, t) :: fs, p :: ps => by
    simp only [KeptF]
    exact ⟨fun _ => trivial, kept_refl t p, keptF_refl fs ps⟩
end

theorem keptMap_nil {kt : KTy} {b : Bytes} {es : List (MK × DV)} {y : DV} (hn : HasNull b)
    (h : y = .mapNil ∨ ∃ es', y = .map es' ∧ SameBut b kt [] es') : KeptMap b kt es y := .inr ⟨hn, h⟩

theorem keptMap_trans {kt : KTy} {b : Bytes} {p x y : DV}
    (h1 : (∀ es, p = .map es → KeptMap b kt es x) ∧ (p = .mapNil → x = .mapNil ∨ ∃ es', x = .map es' ∧ SameBut b kt [] es'))
    (h2 : (∀ es, x = .map es → KeptMap b kt es y) ∧ (x = .mapNil → y = .mapNil ∨ ∃ es', y = .map es' ∧ SameBut b kt [] es')) :
    (∀ es, p = .map es → KeptMap b kt es y) ∧ (p = .mapNil → y = .mapNil ∨ ∃ es', y = .map es' ∧ SameBut b kt [] es') := by
  have key : ∀ es', x = .map es' → ∀ es, SameBut b kt es es' → (∃ es'', y = .map es'' ∧ SameBut b kt es es'') ∨
      (HasNull b ∧ (y = .mapNil ∨ ∃ es'', y = .map es'' ∧ SameBut b kt [] es'')) := by
    intro es' e es hs
    rcases h2.1 es' e with ⟨es'', e2, hs2⟩ | h
    · exact .inl ⟨es'', e2, sameBut_trans hs hs2⟩
    · exact .inr h
  constructor
  · intro es e
    rcases h1.1 es e with ⟨es', e1, hs⟩ | ⟨hn, e1 | ⟨es', e1, hs⟩⟩
    · exact key es' e1 es hs
    · exact .inr ⟨hn, h2.2 e1⟩
    · rcases key es' e1 [] hs with h | h
      · exact .inr ⟨hn, .inr h⟩
      · exact .inr h
  · intro e
    rcases h1.2 e with e1 | ⟨es', e1, hs⟩
    · exact h2.2 e1
    · rcases key es' e1 [] hs with h | h
      · exact .inr h
      · exact h.2

mutual
theorem kept_trans {fold : Bool} {b : Bytes} : ∀ (t : Ty) {p x y : DV}, Kept fold b t p x → Kept fold b t x y → Kept fold b t p y
  | .struct fs, p, x, y, h1, h2 => by
    unfold Kept at *
    intro ps e
    obtain ⟨xs, e1, l1, k1⟩ := h1 ps e
    obtain ⟨ys, e2, l2, k2⟩ := h2 xs e1
    exact ⟨ys, e2, l2.trans l1, keptF_trans fs l1 l2 k1 k2⟩
  | .ptr t, p, x, y, h1, h2 => by
    unfold Kept at *
    have key : ∀ w, x = .ptr w → ∀ v, Kept fold b t v w → (∃ u, y = .ptr u ∧ Kept fold b t v u) ∨
        (HasNull b ∧ (y = .ptrNil ∨ ∃ u, y = .ptr u ∧ Kept fold b t (zero t) u)) := by
      intro w e v hk
      rcases h2.1 w e with ⟨u, e2, hk2⟩ | h
      · exact .inl ⟨u, e2, kept_trans t hk hk2⟩
      · exact .inr h
    refine ⟨fun v e => ?_, fun e => ?_⟩
    · rcases h1.1 v e with ⟨w, e1, k1⟩ | ⟨hn, e1 | ⟨w, e1, k1⟩⟩
      · exact key w e1 v k1
      · exact .inr ⟨hn, h2.2 e1⟩
      · rcases key w e1 _ k1 with h | h
        · exact .inr ⟨hn, .inr h⟩
        · exact .inr h
    · rcases h1.2 e with e1 | ⟨w, e1, k1⟩
      · exact h2.2 e1
      · rcases key w e1 _ k1 with h | h
        · exact .inr h
        · exact h.2
  | .array n t, p, x, y, h1, h2 => by
    unfold Kept at *
    intro ps e hl
    obtain ⟨xs, e1, l1, k1⟩ := h1 ps e hl
    obtain ⟨ys, e2, l2, k2⟩ := h2 xs e1 l1
    refine ⟨ys, e2, l2, fun i q z hq hz => ?_⟩
    have hi := (List.getElem?_eq_some_iff.1 hz).1
    have hx : xs[i]? = some xs[i] := List.getElem?_eq_getElem (by omega)
    exact kept_trans t (k1 i _ _ hq hx) (k2 i _ _ hx hz)
  | .map k t, p, x, y, h1, h2 => by
    unfold Kept at *; exact keptMap_trans h1 h2
  | .mapSI, p, x, y, h1, h2 => by
    unfold Kept at *; exact keptMap_trans h1 h2
  | .mapRaw, p, x, y, h1, h2 => by
    unfold Kept at *; exact keptMap_trans h1 h2
  | .bool, _, _, _, _, _ | .int _, _, _, _, _, _ | .float32, _, _, _, _, _ | .float64, _, _, _, _, _ | .number, _, _, _, _, _
  | .string, _, _, _, _, _ | .bytes, _, _, _, _, _ | .duration, _, _, _, _, _ | .time, _, _, _, _, _ | .raw, _, _, _, _, _
  | .iface, _, _, _, _, _ | .ifaceM _, _, _, _, _, _ | .slice _, _, _, _, _, _ | .quoted _, _, _, _, _, _
  | .quotedInt _, _, _, _, _, _ | .jsonU _, _, _, _, _, _ | .textU _, _, _, _, _, _ | .unsupported, _, _, _, _, _ => by
    unfold Kept; trivial
theorem keptF_trans {fold : Bool} {b : Bytes} : ∀ (fs : List (Bytes × Ty)) {ps xs ys : List DV}, xs.length = ps.length → ys.length = xs.length →
    KeptF fold b fs ps xs → KeptF fold b fs xs ys → KeptF fold b fs ps ys
  | [], _, _, _, _, _, _, _ => by simp [KeptF]
  | _ :: _, [], _, _, _, _, _, _ => by simp [KeptF]
  | _ :: _, _ :: _, _, [], _, _, _, _ => by simp [KeptF]
  | _ :: _, _ :: _, [], _ :: _, l1, _, _, _ => by simp at l1
  | (nm, t) :: fs, p :: ps, x :: xs, y :: ys, l1, l2, h1, h2 => by
    simp only [KeptF] at *
    simp only [List.length_cons, Nat.add_right_cancel_iff] at l1 l2
    exact ⟨fun hn => (h2.1 hn).trans (h1.1 hn), kept_trans t h1.2.1 h2.2.1, keptF_trans fs l1 l2 h1.2.2 h2.2.2⟩
end

/-- writing one field -/
theorem keptF_set {fold : Bool} {b : Bytes} {nm : Bytes} {t : Ty} {y : DV} : ∀ (fs : List (Bytes × Ty)) (ps : List DV) (i : Nat),
    fs[i]? = some (nm, t) → (∃ k, Mentions b k ∧ MayHit fold nm k) →
    (∀ p, ps[i]? = some p → Kept fold b t p y) → KeptF fold b fs ps (ps.set i y)
  | [], _, _, _, _, _ => by simp [KeptF]
  | _ :: _, [], _, _, _, _ => by simp [KeptF]
  | (nm', t') :: fs, p :: ps, 0, e, ⟨k, hm, hh⟩, hk => by
    simp only [List.getElem?_cons_zero, Option.some.injEq, Prod.mk.injEq] at e
    obtain ⟨rfl, rfl⟩ := e
    simp only [List.set_cons_zero, KeptF]
    exact ⟨fun hn => absurd hh (hn k hm), hk p rfl, keptF_refl fs ps⟩
  | (nm', t') :: fs, p :: ps, i + 1, e, hm, hk => by
    simp only [List.getElem?_cons_succ] at e
    simp only [List.set_cons_succ, KeptF]
    exact ⟨fun _ => trivial, kept_refl t' p, keptF_set fs ps i e hm (fun q hq => hk q (by simpa using hq))⟩

/-! ### keys -/

theorem unquote_means {b s r : Bytes} {n : Bool} (h : parseStringUnquote b [] = .ok s r n) : ∃ lit, b = lit ++ r ∧ KeyMeans lit s := by
  obtain ⟨v, hv, rfl⟩ := C04_unquote_only h
  obtain ⟨nn, e⟩ := unquote_ok hv r
  rw [e] at h
  injection h with h1 h2
  exact ⟨v, rfl, (keyMeans_unq hv s).2 h1.symm⟩

theorem fieldKey_means {b : Bytes} {x : DV} {r : Bytes} (h : fieldKey b = .ok x r) : ∃ s, x = .string s ∧ Mentions b s := by
  unfold fieldKey at h
  split at h
  · simp at h
  · simp at h
  · rename_i e
    injection h with h _
    obtain ⟨lit, e2, hk⟩ := unquote_means e
    exact ⟨_, h.symm, [], lit, _, by simpa using e2, hk⟩

theorem hasNull_take {b : Bytes} (h : hasNullPrefix b = true) : b = bs! "null" ++ b.drop 4 := by
  unfold hasNullPrefix at h
  simp only [Bool.and_eq_true, decide_eq_true_eq, beq_iff_eq] at h
  have := List.take_append_drop 4 b
  rw [h.2] at this
  exact this.symm

theorem hasNull_of {b : Bytes} (h : hasNullPrefix b = true) : HasNull b := ⟨[], b.drop 4, by simpa using hasNull_take h⟩

theorem kindLit_int {k : IntKind} {l : Bytes} {z : Int} (h : KindLit k l z) : IntLit l z := by
  cases k <;> simp only [KindLit] at h
  all_goals first
    | exact h
    | (rw [h.2]; exact .nonneg l h.1)

theorem decodeKey_means {k : KTy} {b : Bytes} {x : DV} {r : Bytes} (hn : hasNullPrefix b = false) (h : decodeKey k b = .ok x r) :
    NamesKey b k (keyOf x) := by
  cases k with
  | text tk =>
    obtain ⟨y, h1, rfl⟩ := decodeKey_text_ok h
    obtain ⟨s, hs, e, hf, rfl⟩ := textU_key hn h1
    obtain ⟨t, rs, rfl, hm⟩ := jstring_means hs
    obtain ⟨n, hu⟩ := unquote_ok hs r
    obtain ⟨lit, e2, hk⟩ := unquote_means hu
    exact ⟨_, ⟨[], lit, _, by rw [e]; simpa using e2, hk⟩, hf, rfl⟩
  | str =>
    simp only [decodeKey, decodeString, hn, Bool.false_eq_true, if_false] at h
    split at h
    · simp at h
    · split at h
      · exact absurd h inputErr_ne
      · simp at h
    · rename_i e
      injection h with h _; subst h
      obtain ⟨lit, e2, hk⟩ := unquote_means e
      exact ⟨[], lit, _, by simpa using e2, hk⟩
  | int k =>
    simp only [decodeKey, decodeFromString, hn, Bool.false_eq_true, if_false] at h
    split at h
    · simp at h
    · exact absurd h inputErr_ne
    · rename_i v b' nn e
      obtain ⟨lit, e2, hk⟩ := unquote_means e
      have hm : Mentions b v := ⟨[], lit, _, by simpa using e2, hk⟩
      split at h
      · simp at h
      · simp at h
      · rename_i p v' ed
        split at h
        · simp at h
        · rename_i hs
          injection h with h _; subst h
          have hw : Ws v' := skipSpaces_eq_nil (by simpa using hs)
          unfold decodeInt at ed
          split at ed
          · rename_i hn2
            injection ed with e3 e4
            subst e3 e4
            have e5 := hasNull_take hn2
            rw [e5] at hm
            exact ⟨_, _, hm, hw, .inr ⟨rfl, rfl⟩⟩
          · rename_i hn2
            simp only [] at ed
            split at ed
            · rename_i he
              injection ed with e3 e4
              rcases (C10_only k v _).2 he with ⟨h1, _⟩ | ⟨l, z, e5, hl, _, hz, _⟩
              · exfalso
                apply hn2
                have : v.length ≥ 4 := by
                  have := congrArg List.length h1
                  simp at this; omega
                simp [hasNullPrefix, h1, this]
              · rw [e4] at e5
                rw [e5] at hm
                rw [← e3, hz]
                exact ⟨l, v', hm, hw, .inl (kindLit_int hl)⟩
            · simp at ed

theorem memberKey_inv {key : Bytes → DRes} {first : Bool} {b : Bytes} {d : DV} {r : Bytes}
    (h : memberKey key first b = .inr (.inr (d, r))) : ∃ b' r', b' <:+ b ∧ hasNullPrefix b' = false ∧ key b' = .ok d r' := by
  have one : ∀ b, memberKey key true b = .inr (.inr (d, r)) → ∃ r', hasNullPrefix b = false ∧ key b = .ok d r' := by
    intro b h
    unfold memberKey at h
    simp only [if_true] at h
    split at h
    · simp at h
    · rename_i hn
      split at h
      · simp at h
      · simp at h
      · rename_i r0 e
        split at h
        · simp at h
        · split at h
          · simp at h
          · injection h with h; injection h with h; injection h with h _; subst h
            exact ⟨_, by simpa using hn, e⟩
  cases first with
  | true => obtain ⟨r', h1, h2⟩ := one b h; exact ⟨b, r', List.suffix_rfl, h1, h2⟩
  | false =>
    cases b with
    | nil => simp [memberKey] at h
    | cons c t =>
      by_cases hc : c = 0x2c
      · subst hc
        rw [memberKey_comma] at h
        obtain ⟨r', h1, h2⟩ := one _ h
        exact ⟨_, r', (skip_suf t).trans (List.suffix_cons _ _), h1, h2⟩
      · simp [memberKey, hc] at h

theorem pick_hits {c : DCfg} {names : List Bytes} {k : Bytes} {i : Nat} (h : pickField c names k = some i) :
    ∃ nm, names[i]? = some nm ∧ MayHit (!c.noFold) nm k := by
  unfold pickField at h
  split at h
  · rename_i m hm
    injection h with h; subst h
    obtain ⟨⟨x, hx, hk⟩, _⟩ := lastIdx_some.1 hm
    rw [beq_iff_eq] at hk
    exact ⟨x, hx, .inl hk⟩
  · split at h
    · simp at h
    · rename_i hf
      obtain ⟨⟨x, hx, hk⟩, _⟩ := firstIdx_some.1 h
      refine ⟨x, hx, .inr ⟨by simpa using hf, ?_⟩⟩
      by_cases ha : Ascii x ∧ Ascii k
      · exact .inl ((fold_iff ha.1 ha.2).1 hk)
      · exact .inr ha

/-! ### decoders -/

/-- a decoder for the type changes only what the text names, whether it succeeds or not -/
def Frame (fold : Bool) (t : Ty) (dec : Dec) : Prop := ∀ b p x, (dec b p).dest = some x → Kept fold b t p x

theorem frame_inputErr {fold : Bool} {b b' : Bytes} {t : Ty} {p x : DV} (h : (inputErr b' p).dest = some x) : Kept fold b t p x := by
  simp only [inputErr, DRes.dest, Option.some.injEq] at h
  subst h
  exact kept_refl t p

theorem lookup_mapSet {k k' : MK} {v : DV} (h : k' ≠ k) : ∀ m : List (MK × DV), (mapSet k v m).lookup k' = m.lookup k'
  | [] => by
    have : (k' == k) = false := by simpa using h
    simp [mapSet, List.lookup, this]
  | (k2, v2) :: m => by
    have hb : (k' == k) = false := by simpa using h
    unfold mapSet
    split
    · rename_i e; subst e
      simp [List.lookup, hb]
    · split
      · simp [List.lookup, hb]
      · simp only [List.lookup]
        rw [lookup_mapSet h m]

theorem mapLoopD_frame {k : KTy} {dec : Dec} {z p : DV} {fresh : Bool} {input : Bytes} (hd : Suff dec) :
    ∀ n first (m : List (MK × DV)) b x, (mapLoopD k dec z p fresh input n first m b).dest = some x →
      (fresh = true ∧ x = p) ∨ ∃ m', x = .map m' ∧ SameBut b k m m' := by
  intro n
  induction n with
  | zero => intro first m b x h; simp [mapLoopD, DRes.dest] at h
  | succ n ih =>
    intro first m b x h
    have hdest : ∀ x, (if fresh then p else .map m) = x → (fresh = true ∧ x = p) ∨ ∃ m', x = .map m' ∧ SameBut b k m m' := by
      intro x e
      cases fresh with
      | true => exact .inl ⟨rfl, e.symm⟩
      | false => exact .inr ⟨m, e.symm, fun _ _ => rfl⟩
    rw [mapLoopD] at h
    simp only [] at h
    split at h
    · simp only [DRes.dest, Option.some.injEq] at h
      exact .inr ⟨m, h.symm, fun _ _ => rfl⟩
    · split at h
      · simp [DRes.dest] at h
      · simp only [DRes.dest, Option.some.injEq] at h; exact hdest _ h
      · rename_i kv b1 e
        have hs1 := memberKey_suf (fun b x r h => decodeKey_suf h) e
        obtain ⟨b', r', hs, hn, hk⟩ := memberKey_inv e
        have hm := decodeKey_means hn hk
        split at h
        · simp [DRes.dest] at h
        · split at h <;> (simp only [DRes.dest, Option.some.injEq] at h; exact hdest _ h)
        · rename_i v r e2
          rcases ih _ _ _ _ h with h | ⟨m', e3, hsb⟩
          · exact .inl h
          · refine .inr ⟨m', e3, ?_⟩
            have hsb := sameBut_mono ((hd _ _ _ _ e2).trans (hs1.trans (skip_suf b))) hsb
            intro q hq
            rw [hsb q hq, lookup_mapSet]
            intro e; subst e
            exact hq (namesKey_mono (hs.trans (skip_suf b)) hm)

theorem map_frame {fold : Bool} {k : KTy} {dec : Dec} {z : DV} (hd : Suff dec) {b : Bytes} {p x : DV}
    (h : (decodeMap k dec z b p).dest = some x) :
    (∀ es, p = .map es → KeptMap b k es x) ∧ (p = .mapNil → x = .mapNil ∨ ∃ es', x = .map es' ∧ SameBut b k [] es') := by
  unfold decodeMap at h
  split at h
  · rename_i hn
    simp only [DRes.dest, Option.some.injEq] at h
    exact ⟨fun es _ => .inr ⟨hasNull_of hn, .inl h.symm⟩, fun _ => .inl h.symm⟩
  · split at h
    · have := frame_inputErr (fold := fold) (b := []) (t := .map k .bool) h
      unfold Kept at this; exact this
    · rename_i c t _
      split at h
      · have := frame_inputErr (fold := fold) (b := c :: t) (t := .map k .bool) h
        unfold Kept at this; exact this
      · split at h
        · rename_i m _
          rcases mapLoopD_frame hd _ _ _ _ _ h with ⟨h, _⟩ | ⟨m', e, hs⟩
          · cases h
          · refine ⟨fun es he => ?_, fun he => by cases he⟩
            injection he with he; subst he
            exact .inl ⟨m', e, sameBut_mono (List.suffix_cons _ _) hs⟩
        · rename_i hne
          refine ⟨fun es he => absurd he (hne es), fun he => ?_⟩
          rcases mapLoopD_frame hd _ _ _ _ _ h with ⟨_, h⟩ | ⟨m', e, hs⟩
          · exact .inl (h.trans he)
          · exact .inr ⟨m', e, sameBut_mono (List.suffix_cons _ _) hs⟩

theorem structLoopD_frame {c : DCfg} {fs : List (Bytes × Ty)} {decs : List Dec} (hs : ∀ d ∈ decs, Suff d)
    (hd : ∀ (i : Nat) d, decs[i]? = some d → ∃ nm t, fs[i]? = some (nm, t) ∧ Frame (!c.noFold) t d) {input : Bytes} :
    ∀ n first (ps : List DV) b x, (structLoopD c (fs.map (·.1)) decs input n first ps b).dest = some x →
      ∃ xs, x = .struct xs ∧ xs.length = ps.length ∧ KeptF (!c.noFold) b fs ps xs := by
  intro n
  induction n with
  | zero => intro first m b x h; simp [structLoopD, DRes.dest] at h
  | succ n ih =>
    intro first ps b x h
    have same : ∀ x, DV.struct ps = x → ∃ xs, x = .struct xs ∧ xs.length = ps.length ∧ KeptF (!c.noFold) b fs ps xs :=
      fun x e => ⟨ps, e.symm, rfl, keptF_refl fs ps⟩
    rw [structLoopD_succ] at h
    split at h
    · simp only [DRes.dest, Option.some.injEq] at h; exact same _ h
    · split at h
      · simp [DRes.dest] at h
      · simp only [DRes.dest, Option.some.injEq] at h; exact same _ h
      · rename_i kv b1 e
        have hs1 := (memberKey_suf (fun b x r h => fieldKey_suf h) e).trans (skip_suf b)
        obtain ⟨b', r', hs', _, hk⟩ := memberKey_inv e
        obtain ⟨s, rfl, hm⟩ := fieldKey_means hk
        have hm := mentions_mono (hs'.trans (skip_suf b)) hm
        simp only [] at h
        unfold structField at h
        split at h
        · split at h
          · simp only [DRes.dest, Option.some.injEq] at h; exact same _ h
          · split at h
            · simp only [DRes.dest, Option.some.injEq] at h; exact same _ h
            · rename_i e2
              obtain ⟨xs, e3, hl, hk⟩ := ih _ _ _ _ h
              exact ⟨xs, e3, hl, keptF_mono ((parseValue_suf e2).trans hs1) fs _ _ hk⟩
        · rename_i i hp
          split at h
          · simp [DRes.dest] at h
          · rename_i d hdi
            obtain ⟨nm, t, hft, hfr⟩ := hd i d hdi
            obtain ⟨nm', hnm, hit⟩ := pick_hits hp
            have : nm' = nm := by simp [hft] at hnm; exact hnm.symm
            subst this
            have set : ∀ y, (d b1 (ps.getD i (.user none))).dest = some y → KeptF (!c.noFold) b fs ps (ps.set i y) := by
              intro y hy
              refine keptF_set fs ps i hft ⟨s, hm, hit⟩ fun p hp => ?_
              rw [List.getD_eq_getElem?_getD, hp] at hy
              exact kept_mono hs1 t _ _ (hfr _ _ _ hy)
            split at h
            · simp [DRes.dest] at h
            · rename_i e2
              rw [e2] at set
              have := set _ rfl
              split at h
              all_goals
                simp only [DRes.dest, Option.some.injEq] at h
                exact ⟨_, h.symm, by simp, this⟩
            · rename_i y r e2
              obtain ⟨xs, e3, hl, hk⟩ := ih _ _ _ _ h
              rw [e2] at set
              have hk := keptF_mono ((hs d (List.mem_of_getElem? hdi) _ _ _ _ e2).trans hs1) fs _ _ hk
              have hl' : (ps.set i y).length = ps.length := by simp
              exact ⟨xs, e3, by rw [hl, hl'], keptF_trans fs hl' hl (set _ rfl) hk⟩

theorem struct_frame {c : DCfg} {fs : List (Bytes × Ty)} {decs : List Dec} (hs : ∀ d ∈ decs, Suff d)
    (hd : ∀ (i : Nat) d, decs[i]? = some d → ∃ nm t, fs[i]? = some (nm, t) ∧ Frame (!c.noFold) t d) :
    Frame (!c.noFold) (.struct fs) (decodeStruct c (fs.map (·.1)) decs) := by
  intro b p x h
  rw [decodeStruct_eq] at h
  split at h
  · simp only [DRes.dest, Option.some.injEq] at h; subst h; exact kept_refl _ _
  · split at h
    · exact frame_inputErr h
    · split at h
      · exact frame_inputErr h
      · unfold Kept
        rintro ps rfl
        obtain ⟨xs, e, hl, hk⟩ := structLoopD_frame hs hd _ _ _ _ _ h
        exact ⟨xs, e, hl, keptF_mono (List.suffix_cons _ _) fs _ _ hk⟩

theorem arrayRest_dest {p x : DV} : ∀ n b, (arrayRest p n b).dest = some x → x = p := by
  intro n
  induction n with
  | zero => intro b h; simp [arrayRest, DRes.dest] at h
  | succ n ih =>
    intro b h
    simp only [arrayRest] at h
    split at h
    · simp only [DRes.dest, Option.some.injEq] at h; exact h.symm
    · split at h
      · simp only [DRes.dest, Option.some.injEq] at h; exact h.symm
      · split at h
        · simp only [DRes.dest, Option.some.injEq] at h; exact h.symm
        · exact ih _ h

/-- elementwise -/
def KeptA (fold : Bool) (b : Bytes) (t : Ty) (ps xs : List DV) : Prop :=
  xs.length = ps.length ∧ ∀ (i : Nat) q y, ps[i]? = some q → xs[i]? = some y → Kept fold b t q y

theorem keptA_refl {fold : Bool} {b : Bytes} {t : Ty} (ps : List DV) : KeptA fold b t ps ps :=
  ⟨rfl, fun i q y hq hy => by rw [hq] at hy; injection hy with hy; subst hy; exact kept_refl t q⟩

theorem keptA_cons {fold : Bool} {b : Bytes} {t : Ty} {p x : DV} {ps xs : List DV} (h1 : Kept fold b t p x) (h2 : KeptA fold b t ps xs) :
    KeptA fold b t (p :: ps) (x :: xs) := by
  refine ⟨by simp [h2.1], ?_⟩
  intro i q y hq hy
  cases i with
  | zero =>
    simp only [List.getElem?_cons_zero, Option.some.injEq] at hq hy
    subst hq hy; exact h1
  | succ i => exact h2.2 i q y (by simpa using hq) (by simpa using hy)

theorem keptA_mono {fold : Bool} {b b' : Bytes} (h : b' <:+ b) {t : Ty} {ps xs : List DV} (hk : KeptA fold b' t ps xs) : KeptA fold b t ps xs :=
  ⟨hk.1, fun i q y hq hy => kept_mono h t _ _ (hk.2 i q y hq hy)⟩

theorem arrayElems_frame {fold : Bool} {t : Ty} {dec : Dec} {z : DV} (hs : Suff dec) (hd : Frame fold t dec) :
    ∀ n first (done mem : List DV) b x, mem.length = n → (arrayElems dec z first done n mem b).dest = some x →
      ∃ xs, x = .array (done ++ xs) ∧ KeptA fold b t mem xs := by
  intro n
  induction n with
  | zero =>
    intro first done mem b x hl h
    rw [arrayElems] at h
    exact ⟨mem, arrayRest_dest _ _ h, keptA_refl mem⟩
  | succ n ih =>
    intro first done mem b x hl h
    have same : ∀ x, DV.array (done ++ mem) = x → ∃ xs, x = .array (done ++ xs) ∧ KeptA fold b t mem xs :=
      fun x e => ⟨mem, e.symm, keptA_refl mem⟩
    have elem : ∀ b', b' <:+ b → (arrayElem dec z done n mem b').dest = some x → ∃ xs, x = .array (done ++ xs) ∧ KeptA fold b t mem xs := by
      intro b' hb h
      cases mem with
      | nil => simp at hl
      | cons p mem =>
        simp only [List.length_cons, Nat.add_right_cancel_iff] at hl
        unfold arrayElem at h
        simp only [List.headD_cons, List.tail_cons] at h
        split at h
        · simp [DRes.dest] at h
        · rename_i y r e ed
          simp only [DRes.dest, Option.some.injEq] at h
          have := hd b' p y (by rw [ed]; rfl)
          exact ⟨y :: mem, h.symm, keptA_cons (kept_mono hb t _ _ this) (keptA_refl mem)⟩
        · rename_i y r ed
          have := hd b' p y (by rw [ed]; rfl)
          obtain ⟨xs, e, hk⟩ := ih _ _ _ _ _ hl h
          exact ⟨y :: xs, by rw [e]; simp, keptA_cons (kept_mono hb t _ _ this) (keptA_mono ((hs _ _ _ _ ed).trans hb) hk)⟩
    cases first with
    | true => rw [arrayElems_first] at h; exact elem _ (skip_suf b) h
    | false =>
      rw [arrayElems_next] at h
      split at h
      · simp only [DRes.dest, Option.some.injEq] at h; exact same _ h
      · rename_i c t e
        split at h
        · exact elem _ ((skip_suf t).trans (skip_cons_suf e)) h
        · split at h <;> (simp only [DRes.dest, Option.some.injEq] at h; exact same _ h)

theorem array_frame {fold : Bool} {t : Ty} {dec : Dec} {z : DV} (hs : Suff dec) (hd : Frame fold t dec) (n : Nat) :
    Frame fold (.array n t) (decodeArray n dec z) := by
  intro b p x h
  rw [decodeArray_eq] at h
  split at h
  · simp only [DRes.dest, Option.some.injEq] at h; subst h; exact kept_refl _ _
  · split at h
    · exact frame_inputErr h
    · rename_i c r _
      split at h
      · exact frame_inputErr h
      · unfold Kept
        rintro ps rfl hl
        obtain ⟨xs, e, hk⟩ := arrayElems_frame hs hd _ _ _ _ _ _ hl h
        have hk := keptA_mono (List.suffix_cons c r) hk
        exact ⟨xs, by simpa using e, hk.1.trans hl, hk.2⟩

theorem map_dest {d : DRes} {g : DV → DV} {x : DV} (h : (d.map g).dest = some x) : ∃ y, d.dest = some y ∧ x = g y := by
  cases d <;> simp [DRes.map, DRes.dest] at h ⊢
  all_goals exact h.symm

theorem ptr_frame {fold : Bool} {t : Ty} {dec : Dec} (hd : Frame fold t dec) (e : Bool) :
    Frame fold (.ptr t) (decodePointer e dec (zero t)) := by
  intro b p x h
  unfold Kept
  unfold decodePointer at h
  split at h
  · rename_i hn
    split at h
    · rename_i v
      refine ⟨fun w hw => ?_, fun hw => by cases hw⟩
      injection hw with hw; subst hw
      split at h
      · obtain ⟨y, ey, rfl⟩ := map_dest h
        exact .inl ⟨y, rfl, hd _ _ _ ey⟩
      · simp only [DRes.dest, Option.some.injEq] at h
        exact .inr ⟨hasNull_of hn, .inl h.symm⟩
    · rename_i hne
      simp only [DRes.dest, Option.some.injEq] at h
      exact ⟨fun v hv => absurd hv (hne v), fun _ => .inl h.symm⟩
  · obtain ⟨y, ey, rfl⟩ := map_dest h
    refine ⟨fun w hw => ?_, fun hw => ?_⟩
    · subst hw
      exact .inl ⟨y, rfl, hd _ _ _ ey⟩
    · subst hw
      exact .inr ⟨y, rfl, hd _ _ _ ey⟩

theorem raw_suff : Suff decodeRawMessage := by
  intro b p x r h
  simp only [decodeRawMessage] at h
  split at h
  · exact absurd h inputErr_ne
  · rename_i e; injection h with _ h; subst h; exact parseValue_suf e

mutual
theorem dec_frame {c : DCfg} {dyn : Ty → Dec} (hd : ∀ t, Suff (dyn t)) : ∀ t, Frame (!c.noFold) t (dec c dyn t)
  | .bool | .int _ | .float32 | .float64 | .number | .string | .bytes | .duration | .time | .raw | .iface | .ifaceM _
  | .slice _ | .quoted _ | .quotedInt _ | .jsonU _ | .textU _ | .unsupported => by
    all_goals
      intro b p x h
      unfold Kept; trivial
  | .array n t => by simp only [dec]; exact array_frame (dec_suff hd t) (dec_frame hd t) n
  | .map k t => by
    intro b p x h
    unfold Kept
    simp only [dec] at h
    exact map_frame (fold := true) (dec_suff hd t) h
  | .mapSI => by
    intro b p x h
    unfold Kept
    simp only [dec] at h
    exact map_frame (fold := true) (iface_suff hd) h
  | .mapRaw => by
    intro b p x h
    unfold Kept
    simp only [dec] at h
    exact map_frame (fold := true) raw_suff h
  | .ptr t => by simp only [dec]; exact ptr_frame (dec_frame hd t) _
  | .struct fs => by simp only [dec]; exact struct_frame (decF_suff hd fs) (decF_frame hd fs)
theorem decF_frame {c : DCfg} {dyn : Ty → Dec} (hd : ∀ t, Suff (dyn t)) : ∀ fs, ∀ (i : Nat) d, (decF c dyn fs)[i]? = some d →
    ∃ nm t, fs[i]? = some (nm, t) ∧ Frame (!c.noFold) t d
  | [], i, d, h => by simp [decF] at h
  | (nm, t) :: fs, 0, d, h => by
    simp only [decF, List.getElem?_cons_zero, Option.some.injEq] at h
    subst h
    exact ⟨nm, t, rfl, dec_frame hd t⟩
  | (nm, t) :: fs, i + 1, d, h => by
    simp only [decF, List.getElem?_cons_succ] at h
    simpa using decF_frame hd fs i d h
end

theorem decN_frame (c : DCfg) : ∀ n t, Frame (!c.noFold) t (decN c n t)
  | 0, t => dec_frame (fun _ => by intro b p x r h; cases h) t
  | n + 1, t => dec_frame (decN_suff c n) t

end JC
