import Verif.Spec.Recur
import Verif.Lemmas.DecSuff
import Verif.Lemmas.DecFrame
/-! Decoding into recursive types (C80): decoders that agree on parts of a text are exchangeable there. -/
namespace JC
open Spec Props

theorem braces_suf {a b : Bytes} (h : a <:+ b) : braces a ≤ braces b := h.sublist.count_le _

/-- The decoders give the same on all ends of `b`, and leave ends. -/
def SameOn (b : Bytes) (d e : Dec) : Prop := ∀ b', b' <:+ b → ∀ p, d b' p = e b' p ∧ ∀ x r, d b' p = .ok x r → r <:+ b'

theorem SameOn.mono {a b : Bytes} {d e : Dec} (h : SameOn b d e) (ha : a <:+ b) : SameOn a d e := fun b' hb => h b' (hb.trans ha)

theorem sliceLoop_same {d e : Dec} {z : DV} {input : Bytes} : ∀ n (done mem : List DV) b, SameOn b d e →
    sliceLoop d z input n done mem b = sliceLoop e z input n done mem b := by
  intro n
  induction n with
  | zero => intro done mem b h; rfl
  | succ n ih =>
    intro done mem b h
    have elem : ∀ b', b' <:+ b → sliceElem d z input n done mem b' = sliceElem e z input n done mem b' := by
      intro b' hb
      obtain ⟨h1, h2⟩ := h b' hb (mem.headD z)
      unfold sliceElem
      rw [← h1]
      cases hd : d b' (mem.headD z) with
      | crash c => rfl
      | err x r e => rfl
      | ok x r => exact ih _ _ _ (h.mono ((h2 x r hd).trans hb))
    have hs := skip_suf b
    rw [sliceLoop_succ, sliceLoop_succ]
    split
    · rfl
    · split
      · exact elem _ hs
      · split
        · rfl
        · rename_i c t he
          split
          · rfl
          · exact elem _ ((skip_suf t).trans (skip_cons_suf he))

theorem slice_same {d e : Dec} {z : DV} {b : Bytes} (h : SameOn b d e) (p : DV) : decodeSlice d z b p = decodeSlice e z b p := by
  rw [decodeSlice_eq, decodeSlice_eq]
  split
  · rfl
  · split
    · rfl
    · split
      · rfl
      · exact sliceLoop_same _ _ _ _ (h.mono (List.suffix_cons _ _))

theorem arrayElems_same {d e : Dec} {z : DV} : ∀ n first (done mem : List DV) b, SameOn b d e →
    arrayElems d z first done n mem b = arrayElems e z first done n mem b := by
  intro n
  induction n with
  | zero => intro first done mem b h; rw [arrayElems, arrayElems]
  | succ n ih =>
    intro first done mem b h
    have elem : ∀ b', b' <:+ b → arrayElem d z done n mem b' = arrayElem e z done n mem b' := by
      intro b' hb
      obtain ⟨h1, h2⟩ := h b' hb (mem.headD z)
      unfold arrayElem
      rw [← h1]
      cases hd : d b' (mem.headD z) with
      | crash c => rfl
      | err x r e => rfl
      | ok x r => exact ih _ _ _ _ (h.mono ((h2 x r hd).trans hb))
    have hs := skip_suf b
    cases first with
    | true => rw [arrayElems_first, arrayElems_first]; exact elem _ hs
    | false =>
      rw [arrayElems_next, arrayElems_next]
      split
      · rfl
      · rename_i c t he
        split
        · exact elem _ ((skip_suf t).trans (skip_cons_suf he))
        · rfl

theorem array_same {d e : Dec} {z : DV} {b : Bytes} (h : SameOn b d e) (n : Nat) (p : DV) : decodeArray n d z b p = decodeArray n e z b p := by
  rw [decodeArray_eq, decodeArray_eq]
  split
  · rfl
  · split
    · rfl
    · split
      · rfl
      · exact arrayElems_same _ _ _ _ _ (h.mono (List.suffix_cons _ _))

theorem mapLoopD_same {k : KTy} {d e : Dec} {z p : DV} {fresh : Bool} {input : Bytes} : ∀ n first (m : List (MK × DV)) b, SameOn b d e →
    mapLoopD k d z p fresh input n first m b = mapLoopD k e z p fresh input n first m b := by
  intro n
  induction n with
  | zero => intro first m b h; rfl
  | succ n ih =>
    intro first m b h
    have hs := skip_suf b
    rw [mapLoopD, mapLoopD]
    simp only []
    split
    · rfl
    · cases hk : memberKey (decodeKey k) first (skipSpaces b) with
      | inl c => rfl
      | inr y =>
        cases y with
        | inl x => rfl
        | inr x =>
          obtain ⟨kv, r⟩ := x
          have hr := (memberKey_suf (fun b x r h => decodeKey_suf h) hk).trans hs
          obtain ⟨h1, h2⟩ := h r hr z
          simp only []
          rw [← h1]
          cases hd : d r z with
          | crash c => rfl
          | err x r e => rfl
          | ok x r' => exact ih _ _ _ (h.mono ((h2 x r' hd).trans hr))

theorem map_same {k : KTy} {d e : Dec} {z : DV} {b : Bytes} (h : SameOn b d e) (p : DV) : decodeMap k d z b p = decodeMap k e z b p := by
  unfold decodeMap
  split
  · rfl
  · split
    · rfl
    · split
      · rfl
      · split <;> exact mapLoopD_same _ _ _ _ (h.mono (List.suffix_cons _ _))

theorem ptr_same {d e : Dec} {z : DV} {b : Bytes} (h : SameOn b d e) (q : Bool) (p : DV) : decodePointer q d z b p = decodePointer q e z b p := by
  unfold decodePointer
  split
  · split
    · rw [(h b (List.suffix_refl b) _).1]
    · rfl
  · rw [(h b (List.suffix_refl b) _).1]

theorem structLoopD_same {c : DCfg} {α : Type} {names : List Bytes} {fs : List α} {d e : α → Dec} {input : Bytes} : ∀ n first (ps : List DV) b,
    (∀ f ∈ fs, SameOn b (d f) (e f)) → structLoopD c names (fs.map d) input n first ps b = structLoopD c names (fs.map e) input n first ps b := by
  intro n
  induction n with
  | zero => intro first ps b h; rfl
  | succ n ih =>
    intro first ps b h
    have hs := skip_suf b
    rw [structLoopD_succ, structLoopD_succ]
    split
    · rfl
    · cases hk : memberKey fieldKey first (skipSpaces b) with
      | inl c => rfl
      | inr y =>
        cases y with
        | inl x => rfl
        | inr x =>
          obtain ⟨kv, r⟩ := x
          have hr := (memberKey_suf (fun b x r h => fieldKey_suf h) hk).trans hs
          simp only []
          unfold structField
          split
          · split
            · rfl
            · cases hp : parseValue r with
              | fail r e => rfl
              | ok v r' => exact ih _ _ _ (fun f hf => (h f hf).mono ((parseValue_suf hp).trans hr))
          · rename_i i _
            rw [List.getElem?_map, List.getElem?_map]
            cases hi : fs[i]? with
            | none => rfl
            | some f =>
              obtain ⟨h1, h2⟩ := h f (List.mem_of_getElem? hi) r hr (ps.getD i (.user none))
              simp only [Option.map_some]
              rw [← h1]
              cases hd : d f r (ps.getD i (.user none)) with
              | crash c => rfl
              | err x r e => rfl
              | ok x r' => exact ih _ _ _ (fun g hg => (h g hg).mono ((h2 x r' hd).trans hr))

/-- The fields are decoded only in what is behind the opening brace. -/
theorem struct_sameOn {c : DCfg} {α : Type} {names : List Bytes} {fs : List α} {d e : α → Dec} {b : Bytes}
    (h : ∀ t, b = ch! '{' :: t → ∀ f ∈ fs, SameOn t (d f) (e f)) (p : DV) :
    decodeStruct c names (fs.map d) b p = decodeStruct c names (fs.map e) b p := by
  rw [decodeStruct_eq, decodeStruct_eq]
  split
  · rfl
  · split
    · rfl
    · rename_i ch t _
      split
      · rfl
      · rename_i hc
        have : ch = ch! '{' := by
          apply Classical.byContradiction
          intro hne
          exact hc (.inr hne)
        subst this
        exact structLoopD_same _ _ _ _ (h t rfl)

/-! ### Zero values -/

section
variable (env : REnv) (n : Nat)
theorem zeroR_base (t : Ty) : zeroR env n (.base t) = zero t := by cases n <;> rfl
theorem zeroR_slice (t : NTy) : zeroR env n (.slice t) = .sliceNil := by cases n <;> rfl
theorem zeroR_array (k : Nat) (t : NTy) : zeroR env n (.array k t) = .array (List.replicate k (zeroR env n t)) := by cases n <;> rfl
theorem zeroR_map (k : KTy) (t : NTy) : zeroR env n (.map k t) = .mapNil := by cases n <;> rfl
theorem zeroR_ptr (t : NTy) : zeroR env n (.ptr t) = .ptrNil := by cases n <;> rfl
theorem zeroR_ref0 (id : Nat) : zeroR env 0 (.ref id) = .struct [] := rfl
theorem zeroR_ref (id : Nat) : zeroR env (n + 1) (.ref id) = .struct ((env id).map fun f => zeroR env n f.2) := rfl
theorem unroll_base (t : Ty) : unroll env n (.base t) = t := by cases n <;> rfl
theorem unroll_slice (t : NTy) : unroll env n (.slice t) = .slice (unroll env n t) := by cases n <;> rfl
theorem unroll_array (k : Nat) (t : NTy) : unroll env n (.array k t) = .array k (unroll env n t) := by cases n <;> rfl
theorem unroll_map (k : KTy) (t : NTy) : unroll env n (.map k t) = .map k (unroll env n t) := by cases n <;> rfl
theorem unroll_ptr (t : NTy) : unroll env n (.ptr t) = .ptr (unroll env n t) := by cases n <;> rfl
theorem unroll_ref0 (id : Nat) : unroll env 0 (.ref id) = .struct [] := rfl
theorem unroll_ref (id : Nat) : unroll env (n + 1) (.ref id) = .struct ((env id).map fun f => (f.1, unroll env n f.2)) := rfl
end

theorem zero_unroll (env : REnv) (n : Nat) : ∀ t, zero (unroll env n t) = zeroR env n t := by
  induction n with
  | zero =>
    intro t
    induction t with
    | base t => simp [unroll_base, unroll_slice, unroll_array, unroll_map, unroll_ptr, unroll_ref0, unroll_ref, zeroR_base, zeroR_slice, zeroR_array, zeroR_map, zeroR_ptr, zeroR_ref0, zeroR_ref]
    | array k t ih => simp [unroll_base, unroll_slice, unroll_array, unroll_map, unroll_ptr, unroll_ref0, unroll_ref, zeroR_base, zeroR_slice, zeroR_array, zeroR_map, zeroR_ptr, zeroR_ref0, zeroR_ref, zero, ih]
    | ref id => simp [unroll_base, unroll_slice, unroll_array, unroll_map, unroll_ptr, unroll_ref0, unroll_ref, zeroR_base, zeroR_slice, zeroR_array, zeroR_map, zeroR_ptr, zeroR_ref0, zeroR_ref, zero, zeroF]
    | _ => simp [unroll_base, unroll_slice, unroll_array, unroll_map, unroll_ptr, unroll_ref0, unroll_ref, zeroR_base, zeroR_slice, zeroR_array, zeroR_map, zeroR_ptr, zeroR_ref0, zeroR_ref, zero]
  | succ n ihn =>
    intro t
    induction t with
    | base t => simp [unroll_base, unroll_slice, unroll_array, unroll_map, unroll_ptr, unroll_ref0, unroll_ref, zeroR_base, zeroR_slice, zeroR_array, zeroR_map, zeroR_ptr, zeroR_ref0, zeroR_ref]
    | array k t ih => simp [unroll_base, unroll_slice, unroll_array, unroll_map, unroll_ptr, unroll_ref0, unroll_ref, zeroR_base, zeroR_slice, zeroR_array, zeroR_map, zeroR_ptr, zeroR_ref0, zeroR_ref, zero, ih]
    | ref id =>
      simp only [unroll_ref, zeroR_ref, zero]
      congr 1
      generalize env id = fs
      induction fs with
      | nil => rfl
      | cons f fs ih => simp [zeroF, ihn, ih]
    | _ => simp [unroll_base, unroll_slice, unroll_array, unroll_map, unroll_ptr, unroll_ref0, unroll_ref, zeroR_base, zeroR_slice, zeroR_array, zeroR_map, zeroR_ptr, zeroR_ref0, zeroR_ref, zero]

theorem zeroR_enough {env : REnv} {rank : Nat → Nat} (hr : ∀ id, ∀ f ∈ env id, ∀ id' ∈ NTy.inside f.2, rank id' < rank id) :
    ∀ n m t, (∀ id ∈ NTy.inside t, rank id < n) → (∀ id ∈ NTy.inside t, rank id < m) → zeroR env n t = zeroR env m t := by
  intro n
  induction n with
  | zero =>
    intro m t h _
    induction t with
    | array k t ih =>
      rw [zeroR_array, zeroR_array, ih h (by assumption)]
    | ref id => exact absurd (h id (by simp [NTy.inside])) (by omega)
    | _ => simp [zeroR_base, zeroR_slice, zeroR_array, zeroR_map, zeroR_ptr, zeroR_ref0, zeroR_ref]
  | succ n ihn =>
    intro m t h h'
    induction t with
    | array k t ih =>
      rw [zeroR_array, zeroR_array, ih h h']
    | ref id =>
      have h1 := h id (by simp [NTy.inside])
      have h2 := h' id (by simp [NTy.inside])
      cases m with
      | zero => omega
      | succ m =>
        simp only [zeroR_ref]
        congr 1
        apply List.map_congr_left
        intro f hf
        apply ihn m f.2
        · intro id' hid; have := hr id f hf id' hid; omega
        · intro id' hid; have := hr id f hf id' hid; omega
    | _ => simp [zeroR_base, zeroR_slice, zeroR_array, zeroR_map, zeroR_ptr, zeroR_ref0, zeroR_ref]

theorem isPtr_unroll (env : REnv) (n : Nat) (t : NTy) : (unroll env n t).isPtr = t.isPtr := by
  cases t with
  | ref id => cases n <;> rfl
  | base t => simp [unroll_base, NTy.isPtr]
  | _ => simp [unroll_base, unroll_slice, unroll_array, unroll_map, unroll_ptr, unroll_ref0, unroll_ref, Ty.isPtr, NTy.isPtr]

theorem decF_map (c : DCfg) (dyn : Ty → Dec) (fs : List (Bytes × Ty)) : decF c dyn fs = fs.map fun f => dec c dyn f.2 := by
  induction fs with
  | nil => rfl
  | cons f fs ih => rw [decF, ih]; rfl

/-- Running the closures with enough stack is decoding into the type written out far enough. -/
theorem decR_unroll {c : DCfg} {dyn : Ty → Dec} (hd : ∀ t, Suff (dyn t)) {env : REnv} {depth : Nat} (hg : GoRec env depth) :
    ∀ n m t b p, braces b < n → depth + braces b ≤ m → decR c dyn env depth n t b p = dec c dyn (unroll env m t) b p := by
  obtain ⟨rank, hlt, hr⟩ := hg
  have hz : ∀ m t, depth ≤ m → zeroR env depth t = zero (unroll env m t) := by
    intro m t hm
    rw [zero_unroll]
    exact zeroR_enough hr _ _ _ (fun id _ => hlt id) (fun id _ => Nat.lt_of_lt_of_le (hlt id) hm)
  intro n
  induction n with
  | zero => intro m t b p h; omega
  | succ n ihn =>
    intro m t b p hn hm
    have hs : ∀ t, Suff (dec c dyn (unroll env m t)) := fun t => dec_suff hd _
    induction t generalizing b p with
    | base t => rw [unroll_base]; rfl
    | slice t ih =>
      have hsame : SameOn b (decR c dyn env depth (n + 1) t) (dec c dyn (unroll env m t)) := by
        intro b' hb p
        have h1 := ih b' p (by have := braces_suf hb; omega) (by have := braces_suf hb; omega)
        exact ⟨h1, fun x r hx => hs t b' p x r (by rw [← h1]; exact hx)⟩
      unfold decR at hsame
      rw [decR, decWith, unroll_slice, dec, hz m t (by omega)]
      exact slice_same hsame p
    | array k t ih =>
      have hsame : SameOn b (decR c dyn env depth (n + 1) t) (dec c dyn (unroll env m t)) := by
        intro b' hb p
        have h1 := ih b' p (by have := braces_suf hb; omega) (by have := braces_suf hb; omega)
        exact ⟨h1, fun x r hx => hs t b' p x r (by rw [← h1]; exact hx)⟩
      unfold decR at hsame
      rw [decR, decWith, unroll_array, dec, hz m t (by omega)]
      exact array_same hsame k p
    | map k t ih =>
      have hsame : SameOn b (decR c dyn env depth (n + 1) t) (dec c dyn (unroll env m t)) := by
        intro b' hb p
        have h1 := ih b' p (by have := braces_suf hb; omega) (by have := braces_suf hb; omega)
        exact ⟨h1, fun x r hx => hs t b' p x r (by rw [← h1]; exact hx)⟩
      unfold decR at hsame
      rw [decR, decWith, unroll_map, dec, hz m t (by omega)]
      exact map_same hsame p
    | ptr t ih =>
      have hsame : SameOn b (decR c dyn env depth (n + 1) t) (dec c dyn (unroll env m t)) := by
        intro b' hb p
        have h1 := ih b' p (by have := braces_suf hb; omega) (by have := braces_suf hb; omega)
        exact ⟨h1, fun x r hx => hs t b' p x r (by rw [← h1]; exact hx)⟩
      unfold decR at hsame
      rw [decR, decWith, unroll_ptr, dec, hz m t (by omega), isPtr_unroll]
      exact ptr_same hsame _ p
    | ref id =>
      have hpos := hlt id
      cases m with
      | zero => omega
      | succ m =>
        rw [decR, decWith, structR, unroll_ref, dec, decF_map, List.map_map, List.map_map]
        refine struct_sameOn (names := (env id).map (·.1)) (fs := env id) ?_ p
        intro t hb f hf b' hb' p'
        have hc : braces b' < braces b := by
          have := braces_suf hb'
          subst hb
          unfold braces at this ⊢
          rw [List.count_cons_self]
          omega
        have h1 := ihn m f.2 b' p' (by omega) (by omega)
        refine ⟨h1, fun x r hx => ?_⟩
        rw [show decWith c dyn (structR c dyn env depth n) (zeroR env depth) f.2 b' p' = decR c dyn env depth n f.2 b' p' from rfl, h1] at hx
        exact dec_suff hd _ _ _ _ _ hx

/-- All solutions of the equations agree with the closures. -/
theorem solves_decR {c : DCfg} {dyn : Ty → Dec} (hd : ∀ t, Suff (dyn t)) {env : REnv} {depth : Nat} (hg : GoRec env depth) {D : NTy → Dec}
    (h : Solves c dyn env depth D) : ∀ n t b p, braces b < n → decR c dyn env depth n t b p = D t b p := by
  have suf : ∀ n t b p x r, braces b < n → decR c dyn env depth n t b p = .ok x r → r <:+ b := by
    intro n t b p x r hn hx
    rw [decR_unroll hd hg n (depth + braces b) t b p hn (Nat.le_refl _)] at hx
    exact dec_suff hd _ _ _ _ _ hx
  intro n
  induction n with
  | zero => intro t b p h; omega
  | succ n ihn =>
    intro t b p hn
    induction t generalizing b p with
    | base t => rw [h.base]; rfl
    | slice t ih =>
      rw [h.slice]
      exact slice_same (fun b' hb p => ⟨ih b' p (by have := braces_suf hb; omega), fun x r hx => suf (n + 1) t b' p x r (by have := braces_suf hb; omega) hx⟩) p
    | array k t ih =>
      rw [h.array]
      exact array_same (fun b' hb p => ⟨ih b' p (by have := braces_suf hb; omega), fun x r hx => suf (n + 1) t b' p x r (by have := braces_suf hb; omega) hx⟩) k p
    | map k t ih =>
      rw [h.map]
      exact map_same (fun b' hb p => ⟨ih b' p (by have := braces_suf hb; omega), fun x r hx => suf (n + 1) t b' p x r (by have := braces_suf hb; omega) hx⟩) p
    | ptr t ih =>
      rw [h.ptr]
      exact ptr_same (fun b' hb p => ⟨ih b' p (by have := braces_suf hb; omega), fun x r hx => suf (n + 1) t b' p x r (by have := braces_suf hb; omega) hx⟩) _ p
    | ref id =>
      rw [h.ref, decR, decWith, structR]
      refine struct_sameOn (names := (env id).map (·.1)) (fs := env id) ?_ p
      intro t hb f hf b' hb' p'
      have hc : braces b' < braces b := by
        have := braces_suf hb'
        subst hb
        unfold braces at this ⊢
        rw [List.count_cons_self]
        omega
      exact ⟨ihn f.2 b' p' (by omega), fun x r hx => suf n f.2 b' p' x r (by omega) hx⟩

end JC
