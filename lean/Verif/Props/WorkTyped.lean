import Verif.Lemmas.WorkTypes
import Verif.Props.Recur
import Verif.Props.Work
/-!
Property C84: the work of decoding into variables of all types.
-/
namespace JC.Props
open JC Spec

/-- **C84** Full statement: for every type, recursive or not, there is a number of steps for each byte that is enough for all texts and
destinations. It is false, see `C84_fails`. -/
def C84_statement : Prop := ∀ (c : DCfg) (env : REnv) (t : NTy), ∃ k : Nat, ∀ (n i : Nat) (b : Bytes) (p : DV),
  (unmarshalW c n (unroll env i t) b p).2 ≤ k * (b.length + 1)

section
variable {c : DCfg}

/-- **C84** The count does not change what `Unmarshal` does. -/
theorem C84_same (n : Nat) (t : Ty) (b : Bytes) (p : DV) : (unmarshalW c n t b p).1 = unmarshal c n t b p := unmarshalW_fst n t b p

/-- **C84** A text that is decoded takes a number of steps for each byte that depends on how many pointers and `string` options there are in a
row in the type, but not on how deep the type is. -/
theorem C84_decoded {m q : Nat} {t : Ty} (ht : Concrete m q t) (n : Nat) (b : Bytes) (p v : DV) (h : unmarshal c n t b p = .done v none) :
    (unmarshalW c n t b p).2 ≤ (perByte m q + 1) * b.length + 2 := by
  have hs := skip_len b
  have h0 := decNW_cost (c := c) ht (Nat.le_refl _) n (skipSpacesW b).1 p
  rw [← unmarshalW_fst] at h
  unfold unmarshalW parseIntoW at h ⊢
  revert h0 h
  simp only []
  generalize decNW c n t (skipSpacesW b).1 p = d
  obtain ⟨d, k⟩ := d
  cases d with
  | crash x => intro h _; simp at h
  | err x r e => intro h _; simp only [URes.done.injEq] at h; split at h <;> simp at h
  | ok x r =>
    intro _ h0
    obtain ⟨h1, h2⟩ := h0
    have hr := skip_len r
    simp only [] at h1 h2 ⊢
    have e1 : (perByte m q + 1) * b.length = perByte m q * b.length + b.length := by rw [Nat.add_mul, Nat.one_mul]
    have e2 : perByte m q * (skipSpacesW b).1.length ≤ perByte m q * b.length := Nat.mul_le_mul_left _ hs.2
    omega

/-- **C84** Any text at all takes a number of steps for each byte that also depends on how deep the type is. -/
theorem C84_any_partial {m q : Nat} {t : Ty} (ht : Concrete m q t) (n : Nat) (b : Bytes) (p : DV) :
    (unmarshalW c n t b p).2 ≤ (perError (perByte m q) t + 5) * (b.length + 1) := by
  have hs := skip_len b
  have h0 := decNW_cost (c := c) ht (Nat.le_refl _) n (skipSpacesW b).1 p
  have he := decN_err c n t (skipSpacesW b).1 p
  have hge := perError_ge (perByte m q) t
  have e1 : (perError (perByte m q) t + 5) * (b.length + 1) = perError (perByte m q) t * (b.length + 1) + 5 * (b.length + 1) := Nat.add_mul _ _ _
  have e2 : perError (perByte m q) t * ((skipSpacesW b).1.length + 1) ≤ perError (perByte m q) t * (b.length + 1) := Nat.mul_le_mul_left _ (by omega)
  rw [← decNW_fst] at he
  unfold unmarshalW parseIntoW
  revert h0 he
  simp only [DecW.plain]
  generalize decNW c n t (skipSpacesW b).1 p = d
  obtain ⟨d, k⟩ := d
  cases d with
  | crash x => intro h0 _; simp only [Cost] at h0; simp only []; omega
  | err x r e =>
    intro h0 he
    have := he _ _ _ rfl
    have hr := skip_len r
    simp only [Cost] at h0
    simp only []; omega
  | ok x r =>
    intro h0 _
    obtain ⟨h1, h2⟩ := h0
    have hr := skip_len r
    simp only [] at h1 h2 ⊢
    have e3 : perByte m q * (skipSpacesW b).1.length ≤ perError (perByte m q) t * (b.length + 1) := Nat.mul_le_mul (by omega) (by omega)
    omega

mutual
theorem concrete_mono {m m' : Nat} (hm : m ≤ m') : ∀ (t : Ty) (q q' : Nat), q ≤ q' → Concrete m q t → Concrete m' q' t
  | .slice t, q, q', hq, h | .array _ t, q, q', hq, h | .map _ t, q, q', hq, h => by
    all_goals simp only [Concrete] at h ⊢; exact concrete_mono hm t q q' hq h
  | .ptr t, q, q', hq, h => by
    simp only [Concrete] at h ⊢; exact ⟨Nat.le_trans h.1 hm, concrete_mono hm t q q' hq h.2⟩
  | .struct fs, q, q', hq, h => by simp only [Concrete] at h ⊢; exact concreteF_mono hm fs q q' hq h
  | .quoted t, q, q', hq, h | .quotedInt t, q, q', hq, h => by
    all_goals
      simp only [Concrete] at h ⊢
      obtain ⟨a, rfl, h⟩ := h
      obtain ⟨d, rfl⟩ := Nat.exists_eq_add_of_le hq
      exact ⟨a + d, by omega, concrete_mono hm t a (a + d) (by omega) h⟩
  | .iface, _, _, _, h | .ifaceM _, _, _, _, h | .mapSI, _, _, _, h => by all_goals simp [Concrete] at h
  | .bool, _, _, _, _ | .int _, _, _, _, _ | .float32, _, _, _, _ | .float64, _, _, _, _ | .number, _, _, _, _ | .string, _, _, _, _
  | .bytes, _, _, _, _ | .duration, _, _, _, _ | .time, _, _, _, _ | .raw, _, _, _, _ | .mapRaw, _, _, _, _ | .jsonU _, _, _, _, _
  | .textU _, _, _, _, _ | .unsupported, _, _, _, _ => by all_goals simp [Concrete]
theorem concreteF_mono {m m' : Nat} (hm : m ≤ m') : ∀ (fs : List (Bytes × Ty)) (q q' : Nat), q ≤ q' → ConcreteF m q fs → ConcreteF m' q' fs
  | [], _, _, _, _ => by simp [ConcreteF]
  | (_, t) :: fs, q, q', hq, h => by
    simp only [ConcreteF] at h ⊢
    exact ⟨concrete_mono hm t q q' hq h.1, concreteF_mono hm fs q q' hq h.2⟩
end

mutual
theorem concrete_of : ∀ t : Ty, NoIface t → ∃ m q, Concrete m q t
  | .slice t, h | .array _ t, h | .map _ t, h => by
    all_goals
      obtain ⟨m, q, hc⟩ := concrete_of t (by simpa only [NoIface] using h)
      exact ⟨m, q, by simpa only [Concrete] using hc⟩
  | .ptr t, h => by
    obtain ⟨m, q, hc⟩ := concrete_of t (by simpa only [NoIface] using h)
    exact ⟨m + ptrs t + 1, q, by simp only [Concrete]; exact ⟨by omega, concrete_mono (by omega) t q q (Nat.le_refl _) hc⟩⟩
  | .struct fs, h => by
    obtain ⟨m, q, hc⟩ := concreteF_of fs (by simpa only [NoIface] using h)
    exact ⟨m, q, by simpa only [Concrete] using hc⟩
  | .quoted t, h | .quotedInt t, h => by
    all_goals
      obtain ⟨m, q, hc⟩ := concrete_of t (by simpa only [NoIface] using h)
      exact ⟨m, q + 1, by simp only [Concrete]; exact ⟨q, rfl, hc⟩⟩
  | .iface, h | .ifaceM _, h | .mapSI, h => by all_goals simp [NoIface] at h
  | .bool, _ | .int _, _ | .float32, _ | .float64, _ | .number, _ | .string, _ | .bytes, _ | .duration, _ | .time, _ | .raw, _
  | .mapRaw, _ | .jsonU _, _ | .textU _, _ | .unsupported, _ => by all_goals exact ⟨0, 0, by simp [Concrete]⟩
theorem concreteF_of : ∀ fs : List (Bytes × Ty), NoIfaceF fs → ∃ m q, ConcreteF m q fs
  | [], _ => ⟨0, 0, by simp [ConcreteF]⟩
  | (_, t) :: fs, h => by
    simp only [NoIfaceF] at h
    obtain ⟨m, q, hc⟩ := concrete_of t h.1
    obtain ⟨m', q', hc'⟩ := concreteF_of fs h.2
    refine ⟨m + m', q + q', ?_⟩
    simp only [ConcreteF]
    exact ⟨concrete_mono (by omega) t q _ (by omega) hc, concreteF_mono (by omega) fs q' _ (by omega) hc'⟩
end

/-- **C84** For every finite type without interfaces there is a number of steps for each byte that is enough for all texts, good or bad, and all
destinations. Missing to the full statement: types with interfaces and recursive types. -/
theorem C84_finite_partial {t : Ty} (ht : NoIface t) : ∃ k, ∀ (n : Nat) (b : Bytes) (p : DV), (unmarshalW c n t b p).2 ≤ k * (b.length + 1) := by
  obtain ⟨m, q, hc⟩ := concrete_of t ht
  exact ⟨_, fun n b p => C84_any_partial hc n b p⟩

/-- **C84** For a recursive type with a bound on the pointers in a row there is a number of steps for each byte that is enough for all texts that
can be decoded. Missing to the full statement: texts with errors. -/
theorem C84_recursive_partial {env : REnv} {t : NTy} {m q : Nat} (ht : ∀ i, Concrete m q (unroll env i t)) {depth : Nat} (hg : GoRec env depth) (k : Nat)
    (b : Bytes) (p v : DV) (h : unmarshalR c env depth (braces b + 1) k t b p = .done v none) :
    ∀ i, depth + braces b ≤ i → (unmarshalW c k (unroll env i t) b p).1 = .done v none ∧
      (unmarshalW c k (unroll env i t) b p).2 ≤ (perByte m q + 1) * b.length + 2 := by
  intro i hi
  have e := C80_unmarshal (c := c) hg k (braces b + 1) i t b p (Nat.lt_succ_self _) hi
  rw [h] at e
  exact ⟨by rw [unmarshalW_fst, ← e], C84_decoded (ht i) k b p v e.symm⟩

end

/-! ### Recursive types and errors -/

/-- `{"N":{"N":...1}}` -/
def badList : Nat → Bytes
  | 0 => bs! "1"
  | k + 1 => bs! "{\"N\":" ++ (badList k ++ bs! "}")

theorem badList_json : ∀ k, ∃ j, Derives (.value j) (badList k)
  | 0 => ⟨_, .num _ (.mk [] (bs! "1") [] [] (.inl rfl) (.pos 0x31 [] (by decide) (by decide) (by simp)) .none .none)⟩
  | k + 1 => by
    obtain ⟨j, hj⟩ := badList_json k
    have nil : Ws [] := by intro c hc; contradiction
    have := Derives.memOne [] [] [] [] _ j _ nil nil nil nil key_n hj
    exact ⟨_, by simpa [badList] using Derives.obj _ _ this⟩

theorem badList_obj (k : Nat) : ∃ ms, Derives (.value (.obj ms)) (badList (k + 1)) := by
  obtain ⟨j, hj⟩ := badList_json k
  have nil : Ws [] := by intro c hc; contradiction
  have := Derives.memOne [] [] [] [] _ j _ nil nil nil nil key_n hj
  exact ⟨_, by simpa [badList] using Derives.obj _ _ this⟩

theorem badList_len : ∀ k, (badList k).length = 6 * k + 1
  | 0 => rfl
  | k + 1 => by
    have := badList_len k
    simp only [badList, List.length_append]
    rw [this]
    show 5 + (6 * k + 1 + 1) = _
    omega

theorem skip_bad : ∀ (k : Nat) (s : Bytes), skipSpaces (badList k ++ s) = badList k ++ s
  | 0, _ => rfl
  | _ + 1, _ => rfl

/-- The list type written out. -/
def listTy (i : Nat) : Ty := unroll listEnv i (.ptr (.ref 0))

theorem listTy_succ (i : Nat) : listTy (i + 1) = .ptr (.struct [(bs! "V", .int .int), (bs! "N", listTy i)]) := by
  simp [listTy, unroll_ptr, unroll_ref, unroll_base, listEnv]

theorem list_concrete : ∀ i, Concrete 1 0 (listTy i)
  | 0 => by simp [listTy, unroll, unrollWith, Concrete, ConcreteF, ptrs]
  | i + 1 => by
    have := list_concrete i
    rw [listTy_succ]
    simp only [Concrete, ConcreteF, ptrs]
    exact ⟨by omega, trivial, this, trivial⟩

theorem badKey (s : Bytes) : ∃ l, memberKeyT structKeyW true (bs! "\"N\":" ++ s) = (.inr (.inr (.string (bs! "N"), skipSpaces s)), l) := by
  have h := memberKeyT_fst structKeyW fieldKey structKeyW_fst true (bs! "\"N\":" ++ s)
  rw [member_n] at h
  exact ⟨_, Prod.ext h rfl⟩

/-- What a pointer points at. -/
def under (z p : DV) : DV := match p with | .ptr v => v | _ => z

theorem bad_ptr {c : DCfg} {dyn : Ty → DecW} {i : Nat} {b : Bytes} (hn : hasNullPrefix b = false) {m : Nat}
    (h : ∀ q, ∃ x r e n, decodeStructT c [bs! "V", bs! "N"] [decW c dyn (.int .int), decW c dyn (listTy i)] b q = (.err x r e, n) ∧ m ≤ n) (p : DV) :
    ∃ x r e n, decW c dyn (listTy (i + 1)) b p = (.err x r e, n) ∧ m ≤ n := by
  rw [listTy_succ]
  obtain ⟨x, r, e, n, h, hm⟩ := h (under (zero (.struct [(bs! "V", .int .int), (bs! "N", listTy i)])) p)
  refine ⟨.ptr x, r, e, n + 5, ?_, by omega⟩
  simp only [decW, decodePointerW, hn, Bool.false_eq_true, if_false]
  have e : ∀ q, q = (DRes.err x r e, n) → (q.1.map DV.ptr, q.2 + 5) = (DRes.err (.ptr x) r e, n + 5) := by rintro q rfl; rfl
  exact e _ h

theorem bad_steps (c : DCfg) (dyn : Ty → DecW) : ∀ (k i : Nat) (s : Bytes) (p : DV), k < i →
    ∃ x r e n, decW c dyn (listTy i) (badList k ++ s) p = (.err x r e, n) ∧ 3 * (k * k) ≤ n
  | 0, i + 1, s, p, _ => by
    have hn : hasNullPrefix (bs! "1" ++ s) = false := by simp [hasNullPrefix]
    refine bad_ptr hn (fun q => ?_) p
    have hc : (bs! "1" ++ s).length < 2 ∨ (0x31 : UInt8) ≠ ch! '{' := .inr (by decide)
    unfold decodeStructT
    rw [if_neg (by rw [hn]; simp)]
    show ∃ x r e n, (if (bs! "1" ++ s).length < 2 ∨ (0x31 : UInt8) ≠ ch! '{' then tick 5 (inputErrW (bs! "1" ++ s) q) else _) = (.err x r e, n) ∧ _
    rw [if_pos hc]
    exact ⟨_, _, _, _, rfl, Nat.zero_le _⟩
  | k + 1, i + 1, s, p, hk => by
    have ih := bad_steps c dyn k i (bs! "}" ++ s)
    refine bad_ptr rfl (fun q => ?_) p
    obtain ⟨ms, hj⟩ := badList_obj k
    obtain ⟨w, hw, -, hl⟩ := parseValueW_value (r := s) hj (by simp [Follow])
    rw [badList_len] at hl
    have loop : ∀ n fs, ∃ x r e m, structLoopT c [bs! "V", bs! "N"] [decW c dyn (.int .int), decW c dyn (listTy i)] (badList (k + 1) ++ s) (n + 1) true fs
        (bs! "\"N\":" ++ ((badList k ++ bs! "}") ++ s)) = (.err x r e, m) ∧ 3 * ((k + 1) * (k + 1)) ≤ m := by
      intro n fs
      have hk : skipSpaces (bs! "\"N\":" ++ (badList k ++ (bs! "}" ++ s))) = bs! "\"N\":" ++ (badList k ++ (bs! "}" ++ s)) := rfl
      obtain ⟨l, hm⟩ := badKey ((badList k ++ bs! "}") ++ s)
      rw [List.append_assoc (badList k), skip_bad] at hm
      obtain ⟨x, r, e, m, h, hn⟩ := ih (fs.getD 1 (.user none)) (Nat.lt_of_succ_lt_succ ‹_›)
      simp only [structLoopT, skipSpacesW_fst, List.append_assoc (badList k)]
      rw [if_neg (by rw [hk]; simp), hk, hm]
      simp only [pick_n, List.getElem?_cons_succ, List.getElem?_cons_zero, h, hw, elemW, tick]
      refine ⟨_, _, _, _, rfl, ?_⟩
      simp only [Nat.add_mul, Nat.mul_add] at hn ⊢
      omega
    exact (fun ⟨x, r, e, m, h, hm⟩ => ⟨x, r, e, m + 5, congrArg (tick 5) h, by omega⟩) (loop _ _)

/-- **C84** With lists the square is needed for texts with errors: a number in place of the last of `k` elements takes at least `3 * k * k` steps,
because `decodeStruct` parses every element again to find its end. -/
theorem C84_list (c : DCfg) (n k i : Nat) (hi : k < i) (p : DV) : IsJson (badList k) ∧ (badList k).length = 6 * k + 1 ∧
    3 * (k * k) ≤ (unmarshalW c n (listTy i) (badList k) p).2 := by
  obtain ⟨j, hj⟩ := badList_json k
  have nil : Ws [] := by intro c hc; contradiction
  refine ⟨⟨j, [], _, [], by simp, nil, nil, hj⟩, badList_len k, ?_⟩
  have hs := skip_bad k []
  have hd : ∃ dyn, decNW c n (listTy i) = decW c dyn (listTy i) := by cases n <;> exact ⟨_, rfl⟩
  obtain ⟨dyn, hd⟩ := hd
  obtain ⟨x, r, e, m, h, hm⟩ := bad_steps c dyn k i [] p hi
  rw [List.append_nil] at hs h
  unfold unmarshalW parseIntoW
  simp only [skipSpacesW_fst, hs, hd, h]
  omega

/-- **C84** A number of steps for each byte is not enough for lists. -/
theorem C84_fails_list (c : DCfg) : ¬ ∃ k : Nat, ∀ (n i : Nat) (b : Bytes) (p : DV),
    (unmarshalW c n (unroll listEnv i (.ptr (.ref 0))) b p).2 ≤ k * (b.length + 1) := by
  rintro ⟨k, h⟩
  obtain ⟨-, h1, h2⟩ := C84_list c 0 (2 * k + 1) (2 * k + 2) (by omega) .ptrNil
  have := h 0 (2 * k + 2) (badList (2 * k + 1)) .ptrNil
  rw [h1] at this
  have e0 : (unmarshalW c 0 (listTy (2 * k + 2)) (badList (2 * k + 1)) .ptrNil).2 =
    (unmarshalW c 0 (unroll listEnv (2 * k + 2) (.ptr (.ref 0))) (badList (2 * k + 1)) .ptrNil).2 := rfl
  have e1 : (2 * k + 1) * (2 * k + 1) = 4 * (k * k) + 4 * k + 1 := by
    simp only [Nat.add_mul, Nat.mul_add]
    have : 2 * k * (2 * k) = 4 * (k * k) := by rw [Nat.mul_mul_mul_comm]
    omega
  have e2 : k * (6 * (2 * k + 1) + 1 + 1) = 12 * (k * k) + 8 * k := by
    have : 6 * (2 * k + 1) + 1 + 1 = 12 * k + 8 := by omega
    rw [this, Nat.mul_add, Nat.mul_left_comm]
    omega
  omega

/-- Decoding into an `interface{}` counts the same steps as C76. -/
theorem unmarshalW_iface (c : DCfg) (n : Nat) (b : Bytes) : unmarshalW c n .iface b .ifaceNil = unmarshalAnyW c b := by
  have h : decNW c n .iface (skipSpacesW b).1 .ifaceNil = ifaceValueW c ((skipSpacesW b).1.length + 1) (skipSpacesW b).1 .ifaceNil := by cases n <;> rfl
  unfold unmarshalW unmarshalAnyW parseIntoW
  simp only [h]
  generalize ifaceValueW c ((skipSpacesW b).1.length + 1) (skipSpacesW b).1 .ifaceNil = q
  obtain ⟨q, k⟩ := q
  cases q <;> rfl

/-- **C84** A number of steps for each byte is not enough for `interface{}`, even for texts that can be decoded. -/
theorem C84_fails_iface (c : DCfg) : ¬ ∃ k : Nat, ∀ (n : Nat) (b : Bytes) (p : DV), IsJson b → (unmarshalW c n .iface b p).2 ≤ k * (b.length + 1) := by
  rintro ⟨k, h⟩
  obtain ⟨h1, h2, h3⟩ := C76_tower c (2 * k)
  have := h 0 _ .ifaceNil h1
  rw [h2, unmarshalW_iface] at this
  have e1 : (2 * k + 1) * (2 * k + 2) = 4 * (k * k) + 6 * k + 2 := by
    simp only [Nat.add_mul, Nat.mul_add]
    have : 2 * k * (2 * k) = 4 * (k * k) := by rw [Nat.mul_mul_mul_comm]
    omega
  have e2 : k * (2 * (2 * k + 1) + 1) = 4 * (k * k) + 3 * k := by
    simp only [Nat.mul_add]
    have : k * (2 * (2 * k)) = 4 * (k * k) := by rw [Nat.mul_left_comm, Nat.mul_left_comm k 2 k, ← Nat.mul_assoc]
    omega
  omega

/-- **C84** The full statement is false. -/
theorem C84_fails : ¬ C84_statement := fun h => C84_fails_list { lib := noLib } (h { lib := noLib } listEnv (.ptr (.ref 0)))

/-- **C84** Lists that can be decoded take at most 56 steps for each byte, however long they are. -/
theorem C84_list_decoded (c : DCfg) (k i : Nat) (b : Bytes) (p v : DV) (h : unmarshal c k (unroll listEnv i (.ptr (.ref 0))) b p = .done v none) :
    (unmarshalW c k (unroll listEnv i (.ptr (.ref 0))) b p).2 ≤ 56 * b.length + 2 := C84_decoded (list_concrete i) k b p v h

/-! ### Concrete cases -/

/-- A struct with a slice of pointers to numbers as strings. -/
def sampleTy : Ty := .struct [(bs! "a", .slice (.ptr (.quoted (.int .int8)))), (bs! "b", .map .str .float64)]

example : Concrete 1 1 sampleTy ∧ NoIface sampleTy := by simp [sampleTy, Concrete, ConcreteF, NoIface, NoIfaceF, ptrs]

example : ¬ NoIface (.slice .iface) := by simp [NoIface]

example : perByte 1 1 = 275 ∧ perByte 1 0 = 55 := by decide

example : (match unmarshalW { lib := noLib } 0 sampleTy (bs! " {\"a\": [\"1\", \"-7\", null]}") (zero sampleTy) with
    | (.done (.struct [.slice [.ptr (.int a), .ptr (.int b), .ptrNil] _, .mapNil]) none, k) => decide (a = 1 ∧ b = -7 ∧ k = 124)
    | _ => false) = true := by decide +kernel

/-- Twice as many elements take three times as many steps if the last one is wrong. -/
example : (unmarshalW { lib := noLib } 0 (listTy 12) (badList 10) .ptrNil).2 = 1417 ∧
    (unmarshalW { lib := noLib } 0 (listTy 22) (badList 20) .ptrNil).2 = 4512 ∧
    (unmarshalW { lib := noLib } 0 (listTy 22) (deepList 20) .ptrNil).2 = 787 := by decide +kernel

end JC.Props
