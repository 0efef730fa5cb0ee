import Verif.Lemmas.MassDec
import Verif.Lemmas.DecErrLen
/-!
How the contents of a destination grow: all types (property C96).
-/
namespace JC
open Spec Props

section
variable {P : DV → Prop} {q : Nat} {dec : Dec} {z : DV}

theorem Pays.grow {s : Nat} (h : Pays P s q dec) : Grow P q dec := by
  intro b p hp
  have h0 := h b p hp
  cases hd : dec b p with
  | ok v r => rw [hd] at h0; simp only [Got] at h0 ⊢; omega
  | err v r e => rw [hd] at h0; simp only [Got] at h0 ⊢; omega
  | crash c => trivial

/-! ### structs -/

theorem structLoopD_got {decs : List Dec} (hg : ∀ d ∈ decs, Grow P q d) (hd : ∀ d ∈ decs, Pres P d) (hl : ∀ d ∈ decs, Prog d) (hu : P (.user none))
    {c : DCfg} {names : List Bytes} {input : Bytes} :
    ∀ n first (fs : List DV) b, (∀ y ∈ fs, P y) → Got 0 (massL fs + 1) q b.length (structLoopD c names decs input n first fs b) := by
  intro n
  induction n with
  | zero => intro first m b _; simp [structLoopD, Got]
  | succ n ih =>
    intro first fs b hf
    have hs := skip_mul q b
    rw [structLoopD_succ]
    split
    · have := tail_mul q (skipSpaces b)
      simp only [Got, mass]; omega
    · split
      · trivial
      · simp only [Got, mass]; omega
      · rename_i kv b' e
        have h1 := Nat.mul_le_mul_left q (Nat.le_of_lt (memberKey_len (fun b x r h => fieldKey_len h) e))
        unfold structField
        split
        · split
          · simp only [Got, mass]; omega
          · split
            · simp only [Got, mass]; omega
            · rename_i e2
              have h2 := Nat.mul_le_mul_left q (Nat.le_of_lt (parseValue_length e2))
              exact (ih _ _ _ hf).le (by omega)
        · rename_i i _
          split
          · trivial
          · rename_i dc e
            have hm := List.mem_of_getElem? e
            have h0 := hg _ hm b' (fs.getD i (.user none)) (mem_getD hu hf)
            have he1 : q * (b'.length + 1) = q * b'.length + q := by rw [Nat.mul_add, Nat.mul_one]
            have he2 : q * (b.length + 1) = q * b.length + q := by rw [Nat.mul_add, Nat.mul_one]
            split
            · trivial
            · rename_i x r e2 hx
              rw [hx] at h0
              simp only [Got] at h0
              have h3 := massL_set (.user none) x fs i
              split <;> (simp only [Got, mass]; omega)
            · rename_i x r hx
              rw [hx] at h0
              simp only [Got] at h0
              have h3 := massL_set (.user none) x fs i
              have h2 := Nat.mul_le_mul_left q (Nat.le_of_lt (hl _ hm _ _ _ _ hx))
              exact (ih _ _ _ (mem_set (hd _ hm _ _ _ _ (mem_getD hu hf) hx) hf)).le (by omega)

theorem structMem_mass (p : DV) : massL (structMem p) + 1 ≤ mass p := by
  cases p
  case struct xs => simp only [structMem, mass]; omega
  all_goals simp only [structMem, massL]; exact mass_pos _

theorem struct_got {decs : List Dec} (hg : ∀ d ∈ decs, Grow P q d) (hd : ∀ d ∈ decs, Pres P d) (hl : ∀ d ∈ decs, Prog d) (hu : P (.user none))
    {c : DCfg} {names : List Bytes} {b : Bytes} {p : DV} (hmem : ∀ y ∈ structMem p, P y) : Got 0 (mass p) q b.length (decodeStruct c names decs b p) := by
  rw [decodeStruct_eq]
  split
  · exact got_same (by simp)
  · split
    · exact got_inputErr
    · split
      · exact got_inputErr
      · rename_i ch t _ _
        have h4 : q * t.length ≤ q * (ch :: t).length := Nat.mul_le_mul_left _ (by simp)
        have h2 := structMem_mass p
        exact (structLoopD_got hg hd hl hu _ true (structMem p) t hmem).le (by omega)

/-! ### pointers and strings -/

theorem got_ptr {s M n : Nat} {d : DRes} (h : Got s M q n d) : Got s (M + 1) q n (d.map .ptr) := by
  cases d with
  | ok v r => simp only [DRes.map, Got, mass] at h ⊢; omega
  | err v r e => simp only [DRes.map, Got, mass] at h ⊢; omega
  | crash c => trivial

theorem pointer_got (hp : Pays P (mass z) q dec) (hz : P z) (e : Bool) {b : Bytes} {p : DV} (hmem : ∀ v, p = .ptr v → P v) :
    Got 0 (mass p) q b.length (decodePointer e dec z b p) := by
  have hptr : ∀ v, p = .ptr v → Got 0 (mass p) q b.length ((dec b v).map .ptr) := by
    rintro v rfl
    exact got_ptr (hp.grow b v (hmem v rfl))
  unfold decodePointer
  split
  · rename_i hn
    have hl := Nat.le_of_lt (null_length hn)
    split
    · rename_i v
      split
      · exact hptr v rfl
      · exact got_one (by simp [mass]) hl
    · exact got_one (by simp [mass]) hl
  · by_cases hpp : ∃ v, p = .ptr v
    · obtain ⟨v, rfl⟩ := hpp
      exact hptr v rfl
    · split
      · rename_i v; exact absurd ⟨v, rfl⟩ hpp
      have h0 := got_ptr (hp b z hz)
      have h1 := mass_pos p
      cases hd : (dec b z).map .ptr with
      | ok v r => rw [hd] at h0; simp only [Got] at h0 ⊢; omega
      | err v r e => rw [hd] at h0; simp only [Got] at h0 ⊢; omega
      | crash c => trivial

theorem three_times {v r b q : Nat} (h : v + 3 * r + 6 ≤ 3 * b) : q * v + 3 * q * r + 6 * q ≤ 3 * q * b := by
  have h1 := Nat.mul_le_mul_left q h
  simp only [Nat.mul_add] at h1
  have e1 : q * (3 * r) = 3 * q * r := by rw [Nat.mul_left_comm, Nat.mul_assoc]
  have e2 : q * (3 * b) = 3 * q * b := by rw [Nat.mul_left_comm, Nat.mul_assoc]
  have e3 : q * 6 = 6 * q := Nat.mul_comm _ _
  omega

theorem fromString_grow (hg : Grow P q dec) (hl : Prog dec) : Grow P (3 * q) (decodeFromString dec) := by
  intro b p hp
  unfold decodeFromString
  split
  · exact hg.mono hl (by omega) b p hp
  · split
    · trivial
    · exact got_inputErr
    · rename_i v r _ e
      have h1 := three_times (q := q) (unquote_len3 e)
      have h0 := hg v p hp
      have he2 : 3 * q * (b.length + 1) = 3 * q * b.length + 3 * q := by rw [Nat.mul_add, Nat.mul_one]
      have he1 : q * (v.length + 1) = q * v.length + q := by rw [Nat.mul_add, Nat.mul_one]
      split
      · trivial
      · rename_i hd
        rw [hd] at h0
        simp only [Got] at h0 ⊢; omega
      · rename_i hd
        rw [hd] at h0
        simp only [Got] at h0
        split <;> (simp only [Got]; omega)

theorem fromStringToInt_grow {l : Lib} (hg : Grow P q dec) (hl : Prog dec) : Grow P (3 * q) (decodeFromStringToInt l dec) := by
  intro b p hp
  unfold decodeFromStringToInt
  split
  · exact hg.mono hl (by omega) b p hp
  · split
    · exact got_err
    · split
      · exact got_err
      · split
        · trivial
        · exact got_inputErr
        · rename_i v0 r _ e
          have h1 := three_times (q := q) (unquote_len3 e)
          have h2 := Nat.mul_le_mul_left q (stripZeroes_len v0)
          have h0 := hg (stripZeroes v0) p hp
          have he2 : 3 * q * (b.length + 1) = 3 * q * b.length + 3 * q := by rw [Nat.mul_add, Nat.mul_one]
          have he1 : q * ((stripZeroes v0).length + 1) = q * (stripZeroes v0).length + q := by rw [Nat.mul_add, Nat.mul_one]
          simp only []
          split
          · trivial
          · rename_i hd
            rw [hd] at h0
            simp only [Got] at h0
            split <;> (simp only [Got]; omega)
          · rename_i hd
            rw [hd] at h0
            simp only [Got] at h0
            repeat' split
            all_goals simp only [Got]; omega

/-! ### interfaces -/

theorem slice_open (hp : Pays P (mass z) q dec) (hd : Pres P dec) (hz : P z) {t : Bytes} {p : DV} (hmem : ∀ y ∈ sliceMem p, P y) :
    Got 0 (mass p) q t.length (decodeSlice dec z (0x5b :: t) p) := by
  rw [decodeSlice_eq]
  have hn : hasNullPrefix (0x5b :: t) = false := by simp [hasNullPrefix]
  rw [hn]
  simp only [Bool.false_eq_true, if_false]
  split
  · exact got_inputErr
  · have h1 := sliceLoop_got hp hd hz (input := 0x5b :: t) ((0x5b :: t).length + 1) [] (sliceMem p) t hmem
    have h2 := sliceMem_mass p
    exact h1.le (by simp only [massL]; omega)

theorem map_open {k : KTy} (hp : Pays P (mass z) q dec) (hz : P z) (hq : 3 ≤ q) {t : Bytes} {m : List (MK × DV)} :
    Got 0 (mass (.map m)) q t.length (decodeMap k dec z (0x7b :: t) (.map m)) := by
  unfold decodeMap
  have hn : hasNullPrefix (0x7b :: t) = false := by simp [hasNullPrefix]
  rw [hn]
  simp only [Bool.false_eq_true, if_false]
  split
  · exact got_inputErr
  · exact mapLoopD_got hp hz hq _ _ _ t (mass (.map m)) (by simp only [mass]; omega) (Nat.le_refl _)

theorem ifaceEnd_got {t : Ty} {v b' : Bytes} {n : Nat} {d : DRes} (hd : ∀ w r, d = .ok w r → mass w + 1 + 3 * r.length ≤ 3 * v.length)
    (hn : v.length + b'.length ≤ n) : Got 0 0 3 n (ifaceEnd t b' d) := by
  unfold ifaceEnd
  split
  · trivial
  · simp only [Got, mass]; omega
  · rename_i w r
    have := hd w r rfl
    split
    · simp only [Got, mass]; omega
    · simp only [Got, mass]; omega

theorem ifaceValue_got (c : DCfg) : ∀ n b p, Got 0 0 3 b.length (ifaceValue c n b p) := by
  intro n
  induction n with
  | zero => intro b p; trivial
  | succ n ih =>
    intro b p
    have pays : Pays (fun _ => True) (mass .ifaceNil) 3 (ifaceValue c n) := by
      intro b p _
      have h0 := ih b p
      have h1 := mass_pos p
      have hz : mass .ifaceNil = 1 := by simp [mass]
      cases hd : ifaceValue c n b p with
      | ok v r => rw [hd] at h0; simp only [Got] at h0 ⊢; omega
      | err v r e => rw [hd] at h0; simp only [Got] at h0 ⊢; omega
      | crash c => trivial
    have pres : Pres (fun _ => True) (ifaceValue c n) := fun _ _ _ _ _ _ => trivial
    rw [ifaceValue]
    simp only []
    split
    · simp only [Got, mass]; omega
    · rename_i v b' e
      have hb := (parseValue_sound e).1
      have hn : v.length + b'.length ≤ b.length := by rw [hb]; simp
      split
      · trivial
      · rename_i ch t
        split
        · rename_i hc
          refine ifaceEnd_got ?_ hn
          intro w r hw
          have h0 := map_open (k := .str) pays trivial (Nat.le_refl 3) (t := t) (m := [])
          subst hc
          rw [hw] at h0
          simp only [Got, mass, massE] at h0
          simp only [List.length_cons]; omega
        · split
          · rename_i hc
            refine ifaceEnd_got ?_ hn
            intro w r hw
            have h0 := slice_open pays pres trivial (t := t) (p := .slice [] []) (fun _ _ => trivial)
            subst hc
            rw [hw] at h0
            simp only [Got, mass, massL] at h0
            simp only [List.length_cons]; omega
          · split
            · refine ifaceEnd_got ?_ hn
              intro w r hw
              unfold decodeString at hw
              split at hw
              · rename_i h4
                have := null_length h4
                injection hw with h1 h2; subst h1 h2
                simp only [mass, List.length_nil]; omega
              · split at hw
                · cases hw
                · split at hw
                  · exact absurd hw inputErr_ne
                  · cases hw
                · rename_i hu
                  injection hw with h1 h2; subst h1 h2
                  have := unquote_len3 hu
                  simp only [mass]; omega
            · split
              · split
                · trivial
                · simp only [Got, mass]; omega
                · rename_i w r hw
                  have hm : mass w = 1 := by
                    unfold decodeNull at hw
                    split at hw
                    · injection hw with h1 _; subst h1; simp [mass]
                    · exact absurd hw inputErr_ne
                  simp only [List.length_cons] at hn
                  split
                  · simp only [Got, mass]; omega
                  · simp only [Got]; omega
              · split
                · refine ifaceEnd_got ?_ hn
                  intro w r hw
                  unfold decodeBool at hw
                  split at hw
                  · injection hw with h1 h2; subst h1 h2
                    simp only [mass, List.length_drop]; omega
                  · split at hw
                    · injection hw with h1 h2; subst h1 h2
                      simp only [mass, List.length_drop]; omega
                    · split at hw
                      · rename_i h4
                        have := null_length h4
                        injection hw with h1 h2; subst h1 h2
                        simp only [mass]; omega
                      · exact absurd hw inputErr_ne
                · split
                  · split
                    · refine ifaceEnd_got ?_ hn
                      intro w r hw
                      unfold decodeNumber at hw
                      split at hw
                      · rename_i h4
                        have := null_length h4
                        injection hw with h1 h2; subst h1 h2
                        simp only [mass, List.length_nil]; omega
                      · split at hw
                        · exact absurd hw inputErr_ne
                        · rename_i hp
                          injection hw with h1 h2; subst h1 h2
                          have hl := parseNumber_length hp
                          obtain ⟨h5, _⟩ := parseNumber_sound hp
                          have h6 := congrArg List.length h5
                          simp only [List.length_append] at h6
                          simp only [mass]; omega
                    · refine ifaceEnd_got ?_ hn
                      intro w r hw
                      unfold decodeFloat at hw
                      split at hw
                      · rename_i h4
                        have := null_length h4
                        injection hw with h1 h2; subst h1 h2
                        simp only [mass]; omega
                      · split at hw
                        · exact absurd hw inputErr_ne
                        · rename_i hp
                          have hl := parseNumber_length hp
                          split at hw
                          · exact absurd hw inputErr_ne
                          · injection hw with h1 h2; subst h1 h2
                            simp only [mass]; omega
                  · simp only [Got, mass]; omega

theorem ifaceValue_grow (c : DCfg) (n : Nat) : Grow P 3 (ifaceValue c n) := by
  intro b p _
  exact (ifaceValue_got c n b p).le (by omega)

theorem parseInto_grow (hg : Grow P q dec) : Grow P q (parseInto dec) := by
  intro b p hp
  have h0 := hg (skipSpaces b) p hp
  have h1 := skip_mul q b
  unfold parseInto
  have he1 : q * ((skipSpaces b).length + 1) = q * (skipSpaces b).length + q := by rw [Nat.mul_add, Nat.mul_one]
  have he2 : q * (b.length + 1) = q * b.length + q := by rw [Nat.mul_add, Nat.mul_one]
  split
  · trivial
  · rename_i hd; rw [hd] at h0; simp only [Got] at h0 ⊢; omega
  · rename_i r hd; rw [hd] at h0
    have h2 := skip_mul q r
    simp only [Got] at h0 ⊢; omega

theorem parseInvalid_got {n : Nat} {b : Bytes} {p : DV} : Got 0 (mass p) q n (parseInvalid b p) := by
  unfold parseInvalid
  split <;> exact got_err

theorem typeError_got {n : Nat} {b : Bytes} {p : DV} : Got 0 (mass p) q n (decodeUnmarshalTypeError b p) := by
  unfold decodeUnmarshalTypeError
  split <;> exact got_err

end

/-- Decoding into pointers in interfaces adds at most `R` for each byte. -/
def DynGrow (Q : Ty → Prop) (m R : Nat) (dyn : Ty → Dec) : Prop :=
  ∀ m', m = m' + 1 → ∀ t, Q t → Grow (Held Q · m') R (dyn t)

section
variable {Q : Ty → Prop} {m R : Nat} {c : DCfg} {dyn : Ty → Dec}

theorem iface_grow (hd : DynGrow Q m R dyn) (hl : ∀ t, Prog (dyn t)) : Grow (Held Q · m) (max 3 R) (decodeInterface c dyn) := by
  intro b p hp
  unfold decodeInterface
  split
  · rename_i t v
    split
    · rename_i w
      split
      · rename_i hn
        simp only [Bool.and_eq_true] at hn
        exact got_one (by simp [mass]) (Nat.le_of_lt (null_length hn.2))
      · cases m with
        | zero => simp [Held] at hp
        | succ m =>
          simp only [Held] at hp
          have h0 := ((parseInto_grow (hd m rfl t hp.1)).mono (parseInto_prog (hl t)) (Nat.le_max_right 3 R)) b w hp.2
          split
          · trivial
          · simp only [Got, mass]; omega
          · rename_i hr; rw [hr] at h0; simp only [Got, mass] at h0 ⊢; omega
    · split
      · rename_i hn
        exact got_one (by simp [mass]) (Nat.le_of_lt (null_length hn))
      · refine (parseInvalid_got (p := .ifaceNil) (n := b.length)).le ?_
        have := mass_pos (.iface (.ptr t) v)
        simp only [mass] at this ⊢; omega
  · exact (ifaceValue_grow (P := (Held Q · m)) c _).mono (ifaceValue_prog c _) (Nat.le_max_left 3 R) b p hp

theorem ifaceM_grow (hd : DynGrow Q m R dyn) (hl : ∀ t, Prog (dyn t)) (em : Bool) : Grow (Held Q · m) (max 3 R) (decodeIfaceM c dyn em) := by
  intro b p hp
  unfold decodeIfaceM
  split
  · rename_i hn
    exact got_one (by simp [mass]) (Nat.le_of_lt (null_length hn))
  · split
    · rename_i t v
      split
      · rename_i t w
        cases m with
        | zero => simp [Held] at hp
        | succ m =>
          simp only [Held] at hp
          have h0 := ((parseInto_grow (hd m rfl t hp.1)).mono (parseInto_prog (hl t)) (Nat.le_max_right 3 R)) b w hp.2
          cases hr : parseInto (dyn t) b w with
          | ok v r => rw [hr] at h0; simp only [DRes.map, Got, mass] at h0 ⊢; omega
          | err v r e => rw [hr] at h0; simp only [DRes.map, Got, mass] at h0 ⊢; omega
          | crash c => trivial
      · exact parseInvalid_got
      · exact typeError_got
    · split
      · exact parseInto_grow (iface_grow hd hl) b p hp
      · exact typeError_got

theorem b64Quads_len : ∀ n (s out : Bytes), s.length ≤ n → b64Quads s = some out → out.length ≤ s.length := by
  intro n
  induction n with
  | zero =>
    intro s out h e
    cases s with
    | nil => simp [b64Quads] at e; subst e; simp
    | cons c t => simp at h
  | succ n ih =>
    intro s out h e
    unfold b64Quads at e
    split at e
    · injection e with e; subst e; simp
    · repeat' split at e
      all_goals first
        | cases e; done
        | (injection e with e; subst e; simp)
    · split at e
      · rename_i he
        injection e with e; subst e
        have := ih _ _ (by simp only [List.length_cons] at h; omega) he
        simp only [List.length_cons]; omega
      · cases e
    · cases e

theorem b64Decode_len {s out : Bytes} (h : b64Decode s = some out) : out.length ≤ s.length := by
  unfold b64Decode at h
  have := b64Quads_len _ _ _ (Nat.le_refl _) h
  have := List.length_filter_le (fun c : UInt8 => c != 0x0a && c != 0x0d) s
  omega

theorem int_grow {P : DV → Prop} {q : Nat} (k : IntKind) : Grow P q (decodeInt k) := by
  intro b p _
  have hp := decodeInt_prog k b p
  cases hd : decodeInt k b p with
  | ok v r =>
    have hr := hp v r hd
    unfold decodeInt at hd
    simp only [] at hd
    repeat' split at hd
    all_goals first
      | (injection hd with h1 h2; subst h1; first | exact got_same (Nat.le_of_lt hr) | exact got_one (by simp [mass]) (Nat.le_of_lt hr))
      | cases hd
  | err v r e =>
    unfold decodeInt at hd
    simp only [] at hd
    repeat' split at hd
    all_goals first
      | (injection hd with h1 h2; subst h1; exact got_err)
      | cases hd
  | crash c => trivial

theorem length_le_massL (xs : List DV) : xs.length ≤ massL xs := by
  induction xs with
  | nil => simp
  | cons x xs ih => have := mass_pos x; simp only [List.length_cons, massL]; omega

theorem massL_bytes (s : Bytes) : massL (s.map byteDV) = s.length := by
  induction s with
  | nil => simp [massL]
  | cons c s ih => simp only [List.map_cons, massL, byteDV, mass, ih, List.length_cons]; omega

/-- Contents of `k + 1`, for `k` bytes of the text. -/
theorem got_part {k : Nat} {b r : Bytes} {v p : DV} (h1 : mass v = k + 1) (h : k + r.length ≤ b.length) :
    Got 0 (mass p) 1 b.length (.ok v r) := by
  have h0 := mass_pos p
  simp only [Got]; omega

theorem bytes_grow {P : DV → Prop} : Grow P 3 decodeBytes := by
  intro b p _
  unfold decodeBytes
  split
  · rename_i hn
    exact got_one (by simp [mass]) (Nat.le_of_lt (null_length hn))
  · split
    · exact got_inputErr
    · split
      · exact got_inputErr
      · split
        · split
          · rename_i b c t _ _ _ _
            have hpay := (int_grow (P := fun _ => True) (q := 2) .uint8).pays 1 (decodeInt_prog .uint8)
            have hone : mass (.int 0) = 1 := by simp [mass]
            have key : ∀ q : DV, mass q ≤ mass p → Got 0 (mass p) 3 (c :: t).length ((decodeSlice (decodeInt .uint8) (.int 0) (c :: t) q).map fun
                | .slice xs sp => .bytes (xs.map dvByte) (sp.map dvByte)
                | _ => .bytesNil) := by
              intro q hq
              have h0 := (slice_got (P := fun _ => True) (z := .int 0) (by rw [hone]; exact hpay) (fun _ _ _ _ _ _ => trivial) trivial
                (b := c :: t) (p := q) (fun _ _ => trivial)).le (M' := mass p) (n' := (c :: t).length) (by omega)
              have hm : ∀ w : DV, mass (match w with | .slice xs sp => DV.bytes (xs.map dvByte) (sp.map dvByte) | _ => .bytesNil) ≤ mass w := by
                intro w
                have := mass_pos w
                split
                · rename_i xs sp
                  have := length_le_massL xs
                  have := length_le_massL sp
                  simp only [mass, List.length_map]; omega
                · simp only [mass]; omega
              cases hd : decodeSlice (decodeInt .uint8) (.int 0) (c :: t) q with
              | ok v r => rw [hd] at h0; have := hm v; simp only [DRes.map, Got] at h0 ⊢; omega
              | err v r e => rw [hd] at h0; have := hm v; simp only [DRes.map, Got] at h0 ⊢; omega
              | crash c => trivial
            refine key _ ?_
            split
            · simp only [mass, massL_bytes]; omega
            · have := mass_pos p; simp only [mass]; omega
          · exact got_inputErr
        · split
          · trivial
          · exact got_inputErr
          · rename_i hu
            have h1 := unquote_len3 hu
            split
            · exact got_err
            · rename_i s hs
              have h2 := b64Decode_len hs
              exact got_text (k := s.length) (by omega) (by simp [mass]) (by omega)

theorem bool_grow {P : DV → Prop} {q : Nat} : Grow P q decodeBool := by
  intro b p _
  unfold decodeBool
  split
  · exact got_one (by simp [mass]) (by simp)
  · split
    · exact got_one (by simp [mass]) (by simp)
    · split
      · first | exact got_same (by simp) | exact got_one (by simp only [mass]) (by simp)
      · exact got_inputErr

theorem float_grow {P : DV → Prop} {q : Nat} (l : Lib) (f32 : Bool) : Grow P q (decodeFloat l f32) := by
  intro b p _
  unfold decodeFloat
  split
  · exact got_same (by simp)
  · split
    · exact got_inputErr
    · rename_i hp
      have hl := Nat.le_of_lt (parseNumber_length hp)
      split
      · exact got_inputErr
      · exact got_one (by simp [mass]) hl

theorem number_grow {P : DV → Prop} : Grow P 1 decodeNumber := by
  intro b p _
  unfold decodeNumber
  split
  · exact got_same (by simp)
  · split
    · exact got_inputErr
    · rename_i v r hp
      have h6 := congrArg List.length (parseNumber_sound hp).1
      simp only [List.length_append] at h6
      exact got_part (k := v.length) (by simp [mass]) (by omega)

theorem string_grow {P : DV → Prop} : Grow P 3 decodeString := by
  intro b p _
  unfold decodeString
  split
  · exact got_same (by simp)
  · split
    · trivial
    · split
      · exact got_inputErr
      · exact got_err
    · rename_i v r _ hu
      have := unquote_len3 hu
      exact got_text (k := v.length) (Nat.le_refl 3) (by simp [mass]) (by omega)

theorem duration_grow {P : DV → Prop} {q : Nat} (l : Lib) : Grow P q (decodeDuration l) := by
  intro b p _
  unfold decodeDuration
  split
  · exact got_same (by simp)
  · split
    · exact got_inputErr
    · split
      · split
        · exact got_inputErr
        · rename_i hp
          obtain ⟨l, e2, _⟩ := parseInt_ok hp
          have e3 := congrArg List.length e2
          rw [List.length_append] at e3
          exact got_one (by simp [mass]) (by omega)
      · split
        · exact got_inputErr
        · split
          · exact got_inputErr
          · split
            · exact got_inputErr
            · exact got_one (by simp [mass]) (by simp; omega)

theorem time_grow {P : DV → Prop} {q : Nat} (l : Lib) : Grow P q (decodeTime l) := by
  intro b p _
  unfold decodeTime
  split
  · exact got_same (by simp)
  · split
    · exact got_inputErr
    · split
      · exact got_inputErr
      · split
        · exact got_inputErr
        · split
          · exact got_inputErr
          · exact got_one (by simp [mass]) (by simp; omega)

theorem raw_grow {P : DV → Prop} : Grow P 1 decodeRawMessage := by
  intro b p _
  unfold decodeRawMessage
  split
  · exact got_inputErr
  · rename_i v r hp
    have h6 := congrArg List.length (parseValue_sound hp).1
    simp only [List.length_append] at h6
    exact got_part (k := v.length) (by simp [mass]) (by omega)

theorem jsonU_grow {P : DV → Prop} (f : Bytes → Option Err) : Grow P 1 (decodeJSONUnmarshaler f) := by
  intro b p _
  unfold decodeJSONUnmarshaler
  split
  · exact got_err
  · rename_i v r hp
    have h6 := congrArg List.length (parseValue_sound hp).1
    simp only [List.length_append] at h6
    split
    · exact got_same (by omega)
    · split
      · exact got_err
      · exact got_part (k := v.length) (by simp [mass]) (by omega)

theorem textU_grow {P : DV → Prop} (f : Bytes → Option Err) : Grow P 3 (decodeTextUnmarshaler f) := by
  intro b p _
  unfold decodeTextUnmarshaler
  split
  · exact got_err
  · rename_i v r hp
    have h6 := congrArg List.length (parseValue_sound hp).1
    simp only [List.length_append] at h6
    split
    · exact got_inputErr
    · split
      · split
        · exact got_same (by omega)
        · exact got_err
      · split
        · split
          · trivial
          · exact got_err
          · rename_i s _ _ hu
            have := unquote_len3 hu
            split
            · exact got_err
            · exact got_text (k := s.length) (Nat.le_refl 3) (by simp [mass]) (by omega)
        · exact got_err

mutual

theorem dec_grow (hp : DynPres Q m dyn) (hl : ∀ t, Prog (dyn t)) (hg : DynGrow Q m R dyn) : ∀ t, Grow (Held Q · m) (rate R t) (dec c dyn t)
  | .bool => bool_grow
  | .int k => int_grow k
  | .float32 => float_grow _ _
  | .float64 => float_grow _ _
  | .number => number_grow
  | .string => string_grow
  | .bytes => bytes_grow
  | .duration => duration_grow _
  | .time => time_grow _
  | .raw => raw_grow
  | .iface => iface_grow hg hl
  | .ifaceM e => ifaceM_grow hg hl e
  | .slice t => by
    intro b p hP
    simp only [dec, rate]
    have h := (dec_grow hp hl hg t).pays (mass (zero t)) (dec_prog hl t)
    rw [mass_zero] at h
    refine slice_got (P := (Held Q · m)) (z := zero t) (by rw [mass_zero]; exact h) (dec_pres hp t) (held_zero Q m t) ?_
    intro y hy
    cases p
    case slice xs sp =>
      simp only [sliceMem] at hy
      simp only [Held, heldL_iff] at hP
      rcases List.mem_append.1 hy with h | h
      · exact hP.1 y h
      · exact hP.2 y h
    all_goals simp [sliceMem] at hy
  | .array n t => by
    intro b p hP
    simp only [dec, rate]
    have h := (dec_grow hp hl hg t).pays (mass (zero t)) (dec_prog hl t)
    rw [mass_zero] at h
    refine array_got (P := (Held Q · m)) (z := zero t) (by rw [mass_zero]; exact h) (dec_pres hp t) (held_zero Q m t) n ?_
    intro y hy
    cases p
    case array xs =>
      simp only [arrMem] at hy
      simp only [Held, heldL_iff] at hP
      exact hP y hy
    all_goals simp [arrMem] at hy
  | .map k t => by
    intro b p hP
    simp only [dec, rate]
    have h := ((dec_grow hp hl hg t).mono (q' := max 3 (rate R t + room t) - room t) (dec_prog hl t) (by omega)).pays (room t) (dec_prog hl t)
    rw [Nat.sub_add_cancel (by omega)] at h
    exact map_got (P := (Held Q · m)) (z := zero t) (by rw [mass_zero]; exact h) (held_zero Q m t) (by omega)
  | .mapSI => by
    intro b p hP
    simp only [dec, rate]
    exact map_got (P := (Held Q · m)) (z := .ifaceNil) ((iface_grow hg hl).pays 1 (iface_prog hl)) (by simp [Held]) (by omega)
  | .mapRaw => by
    intro b p hP
    simp only [dec, rate]
    exact map_got (P := (Held Q · m)) (z := .rawNil) ((raw_grow.mono (q' := 2) (dec_prog (c := c) hl .raw) (by omega)).pays 1 (dec_prog (c := c) hl .raw)) (by simp [Held]) (by omega)
  | .ptr t => by
    intro b p hP
    simp only [dec, rate]
    have h := (dec_grow hp hl hg t).pays (mass (zero t)) (dec_prog hl t)
    rw [mass_zero] at h
    refine pointer_got (P := (Held Q · m)) (z := zero t) (by rw [mass_zero]; exact h) (held_zero Q m t) _ ?_
    rintro v rfl
    simpa [Held] using hP
  | .struct fs => by
    intro b p hP
    simp only [dec, rate]
    refine struct_got (P := (Held Q · m)) (decF_grow hp hl hg fs) (decF_pres hp fs) (decF_prog hl fs) (by simp [Held]) ?_
    intro y hy
    cases p
    case struct xs =>
      simp only [structMem] at hy
      simp only [Held, heldL_iff] at hP
      exact hP y hy
    all_goals simp [structMem] at hy
  | .quoted t => by
    simp only [dec, rate]
    exact fromString_grow (dec_grow hp hl hg t) (dec_prog hl t)
  | .quotedInt t => by
    simp only [dec, rate]
    exact fromStringToInt_grow (dec_grow hp hl hg t) (dec_prog hl t)
  | .jsonU f => jsonU_grow f
  | .textU f => textU_grow f
  | .unsupported => fun _ _ _ => typeError_got

theorem decF_grow (hp : DynPres Q m dyn) (hl : ∀ t, Prog (dyn t)) (hg : DynGrow Q m R dyn) :
    ∀ fs, ∀ d ∈ decF c dyn fs, Grow (Held Q · m) (rateF R fs) d
  | [] => by simp [decF]
  | (_, t) :: fs => by
    intro d h
    simp only [decF, List.mem_cons] at h
    simp only [rateF]
    rcases h with rfl | h
    · exact (dec_grow hp hl hg t).mono (dec_prog hl t) (Nat.le_max_left _ _)
    · exact (decF_grow hp hl hg fs d h).mono (decF_prog hl fs d h) (Nat.le_max_right _ _)

end

theorem le_foldr_max {f : Ty → Nat} {S : List Ty} {t : Ty} (h : t ∈ S) : f t ≤ (S.map f).foldr max 3 := by
  induction S with
  | nil => cases h
  | cons s S ih =>
    simp only [List.map_cons, List.foldr_cons]
    rcases List.mem_cons.1 h with rfl | h
    · exact Nat.le_max_left _ _
    · exact Nat.le_trans (ih h) (Nat.le_max_right _ _)

theorem decN_grow (c : DCfg) (S : List Ty) : ∀ n t, Grow (Held (· ∈ S) · n) (rate (reach S n) t) (decN c n t)
  | 0, t => by
    refine dec_grow (R := reach S 0) ?_ (fun t b p x r h => by simp at h) ?_ t
    · intro m' h; omega
    · intro m' h; omega
  | n + 1, t => by
    refine dec_grow (R := reach S (n + 1)) ?_ (fun t => decN_prog c n t) ?_ t
    · intro m' h t _
      obtain rfl : n = m' := by omega
      exact decN_pres c n t
    · intro m' h t ht
      obtain rfl : n = m' := by omega
      exact (decN_grow c S n t).mono (decN_prog c n t) (le_foldr_max ht)

end

end JC
