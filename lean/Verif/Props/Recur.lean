import Verif.Lemmas.Recur
import Verif.Props.Decode
import Verif.Props.Typed
/-!
Property C80: decoding into recursive types.
-/
namespace JC.Props
open JC Spec

/-- **C80** Full statement: there is a stack that is large enough for every text. Refuted by `C80_fails_deep`; see `C80_unmarshal` for the stack
that a text needs at most. -/
def C80_statement : Prop := ∀ (c : DCfg) (env : REnv) (depth : Nat) (t : NTy), GoRec env depth →
  ∃ n, ∀ b, IsJson b → ∃ v e, unmarshalR c env depth n 0 t b (zeroR env depth t) = .done v e

section
variable {c : DCfg} {env : REnv} {depth : Nat}

theorem decNR_unroll (hg : GoRec env depth) (k n m : Nat) (t : NTy) (b : Bytes) (p : DV) (hn : braces b < n) (hm : depth + braces b ≤ m) :
    decNR c env depth n k t b p = decN c k (unroll env m t) b p := by
  cases k with
  | zero => exact decR_unroll (fun _ => by intro b p x r h; cases h) hg n m t b p hn hm
  | succ k => exact decR_unroll (decN_suff c k) hg n m t b p hn hm

/-- **C80** With room for one call of `decodeStruct` more than the text has opening braces, `Unmarshal` into a recursive type does what it
does into the finite type that is written out deep enough, so that everything proved of these holds for recursive
types. -/
theorem C80_unmarshal (hg : GoRec env depth) (k n m : Nat) (t : NTy) (b : Bytes) (p : DV) (hn : braces b < n) (hm : depth + braces b ≤ m) :
    unmarshalR c env depth n k t b p = unmarshal c k (unroll env m t) b p := by
  have hs := braces_suf (skip_suf b)
  unfold unmarshalR unmarshal parseInto
  rw [decNR_unroll hg k n m t _ p (by omega) (by omega)]
  rfl

/-- **C80** `Unmarshal` into a recursive type returns, whatever the text and the contents of the destination. -/
theorem C80_returns (hg : GoRec env depth) (t : NTy) (p : DV) :
    ∃ k0, ∀ k, k0 ≤ k → ∀ b n, braces b < n → ∃ v e, unmarshalR c env depth n k t b p = .done v e := by
  obtain ⟨k0, h⟩ := held_exists p
  refine ⟨k0, fun k hk b n hn => ?_⟩
  rw [C80_unmarshal hg k n (depth + braces b) t b p hn (Nat.le_refl _)]
  exact unmarshal_done (h k hk)

variable {dyn : Ty → Dec}

/-- Decoding with as much stack as needed. -/
def decRec (c : DCfg) (dyn : Ty → Dec) (env : REnv) (depth : Nat) (t : NTy) : Dec := fun b p => decR c dyn env depth (braces b + 1) t b p

theorem decRec_eq (hd : ∀ t, Suff (dyn t)) (hg : GoRec env depth) {n : Nat} {b : Bytes} (hn : braces b < n) (t : NTy) (p : DV) :
    decRec c dyn env depth t b p = decR c dyn env depth n t b p := by
  unfold decRec
  rw [decR_unroll hd hg (braces b + 1) (depth + braces b) t b p (Nat.lt_succ_self _) (Nat.le_refl _),
    decR_unroll hd hg n (depth + braces b) t b p hn (Nat.le_refl _)]

/-- On the ends of a text, with the stack for the text. -/
theorem decRec_same (hd : ∀ t, Suff (dyn t)) (hg : GoRec env depth) {n : Nat} {b : Bytes} (hn : braces b < n) (t : NTy) :
    SameOn b (decR c dyn env depth n t) (decRec c dyn env depth t) := by
  intro b' hb p
  have h1 := braces_suf hb
  refine ⟨(decRec_eq hd hg (by omega) t p).symm, ?_⟩
  intro x r hx
  rw [decR_unroll hd hg n (depth + braces b') t b' p (by omega) (Nat.le_refl _)] at hx
  exact dec_suff hd _ _ _ _ _ hx

/-- **C80** The decoding functions satisfy the equations by which they refer to each other. -/
theorem C80_solves (hd : ∀ t, Suff (dyn t)) (hg : GoRec env depth) : Solves c dyn env depth (decRec c dyn env depth) := by
  constructor
  · intro t; rfl
  · intro t
    funext b p
    exact slice_same (decRec_same hd hg (Nat.lt_succ_self _) t) p
  · intro n t
    funext b p
    exact array_same (decRec_same hd hg (Nat.lt_succ_self _) t) n p
  · intro k t
    funext b p
    exact map_same (decRec_same hd hg (Nat.lt_succ_self _) t) p
  · intro t
    funext b p
    exact ptr_same (decRec_same hd hg (Nat.lt_succ_self _) t) _ p
  · intro id
    funext b p
    show decR c dyn env depth (braces b + 1) (.ref id) b p = _
    rw [decR, decWith, structR]
    refine struct_sameOn (names := (env id).map (·.1)) (fs := env id) ?_ p
    intro t hb f hf
    apply decRec_same hd hg
    subst hb
    unfold braces
    rw [List.count_cons_self]
    omega

/-- **C80** They are the only functions that do. -/
theorem C80_unique (hd : ∀ t, Suff (dyn t)) (hg : GoRec env depth) {D : NTy → Dec} (h : Solves c dyn env depth D) : D = decRec c dyn env depth := by
  funext t b p
  exact (solves_decR hd hg h (braces b + 1) t b p (Nat.lt_succ_self _)).symm

/-- The contents of a variable of a recursive type, and what the encoder sees: they fit the type as soon as it is written out
deep enough. -/
def SeenR (dc : DCfg) (S : Bytes → Prop) (P : DV → Prop) (env : REnv) (t : NTy) (v : DV) (g : GV) : Prop :=
  ∃ m0, ∀ m, m0 ≤ m → Seen dc S P (unroll env m t) v g

/-- No raw messages and no `Unmarshaler`s. -/
def TreeR (env : REnv) (t : NTy) : Prop := ∀ m, (unroll env m t).tree

/-- **C80** (partial: as C38) Variables of recursive types survive marshalling and unmarshalling. -/
theorem C80_roundtrip_partial (cf : Cfg) (hc : cf.clrs = none) (hw : WsLayout cf) (dc : DCfg) (hl : LibOk dc.lib) (hg : GoRec env depth) (k d : Nat) {t : NTy}
    (ht : TreeR env t) {v : DV} {g : GV} (h : SeenR dc (fun s => Coerced s s) (fun w => isNilDV w = false) env t v g) :
    ∃ out, enc cf g [] d = .done out d none ∧ ∀ n, braces out < n → unmarshalR dc env depth n k t out (zeroR env depth t) = .done (clip v) none := by
  obtain ⟨m0, h⟩ := h
  obtain ⟨out, h1, _⟩ := C38_roundtrip_partial cf hc hw dc hl k d (ht m0) (h m0 (Nat.le_refl _))
  refine ⟨out, h1, fun n hn => ?_⟩
  obtain ⟨out', h1', h2⟩ := C38_roundtrip_partial cf hc hw dc hl k d (ht (m0 + (depth + braces out))) (h (m0 + (depth + braces out)) (Nat.le_add_right _ _))
  rw [h1] at h1'
  cases h1'
  rw [C80_unmarshal hg k n (m0 + (depth + braces out)) t out _ hn (by omega)]
  have hz : zeroR env depth t = zero (unroll env (m0 + (depth + braces out)) t) := by
    obtain ⟨rank, hlt, hr⟩ := hg
    rw [zero_unroll]
    exact zeroR_enough hr _ _ _ (fun id _ => hlt id) (fun id _ => Nat.lt_of_lt_of_le (hlt id) (by omega))
  rw [hz]
  exact h2
end

/-! ### Lists -/

/-- `type T struct { V int; N *T }` -/
def listEnv : REnv := fun _ => [(bs! "V", .base (.int .int)), (bs! "N", .ptr (.ref 0))]

theorem listEnv_go : GoRec listEnv 1 := ⟨fun _ => 0, fun _ => Nat.zero_lt_one, by
  intro id f hf id' hid
  simp only [listEnv, List.mem_cons, List.not_mem_nil, or_false] at hf
  rcases hf with rfl | rfl <;> simp [NTy.inside] at hid⟩

/-- The list with the given elements, as contents and as the encoder sees it. -/
def listDV : List Int → DV
  | [] => .ptrNil
  | x :: xs => .ptr (.struct [.int x, listDV xs])

def listGV : List Int → GV
  | [] => .ptrNil
  | x :: xs => .ptr (.struct [({ name := bs! "V", omitempty := false }, .int x), ({ name := bs! "N", omitempty := false }, listGV xs)])

theorem list_tree : TreeR listEnv (.ptr (.ref 0)) := by
  intro m
  rw [unroll_ptr, Ty.tree]
  induction m with
  | zero => simp [unroll_ref0, Ty.tree, treeF]
  | succ m ih => simp [unroll_ref, unroll_base, unroll_ptr, listEnv, Ty.tree, treeF] at ih ⊢; exact ih

theorem list_seen (dc : DCfg) : ∀ xs : List Int, (∀ x ∈ xs, KindFits .int x) →
    ∀ m, xs.length ≤ m → Seen dc (fun s => Coerced s s) (fun w => isNilDV w = false) (unroll listEnv m (.ptr (.ref 0))) (listDV xs) (listGV xs)
  | [], _, m, _ => by rw [unroll_ptr, Seen]; exact .inl ⟨rfl, rfl⟩
  | x :: xs, hx, m + 1, hm => by
    have ih := list_seen dc xs (fun y hy => hx y (by simp [hy])) m (by simpa using hm)
    rw [unroll_ptr, Seen]
    refine .inr ⟨_, _, rfl, rfl, rfl, ?_⟩
    rw [unroll_ref, Seen]
    refine ⟨_, _, rfl, rfl, ?_, ?_, ?_⟩
    · simp [listEnv]
    · intro f hf
      simp only [listEnv, List.map_cons, List.map_nil, List.mem_cons, List.not_mem_nil, or_false] at hf
      rcases hf with rfl | rfl
      · exact ascii_coerced (s := bs! "V") (by decide)
      · exact ascii_coerced (s := bs! "N") (by decide)
    · simp only [listEnv, List.map_cons, List.map_nil, SeenF]
      refine ⟨_, _, _, _, _, rfl, rfl, rfl, by simp, ?_, _, _, _, _, _, rfl, rfl, rfl, by simp, ih, rfl, rfl⟩
      rw [unroll_base, Seen]
      exact ⟨x, hx x (by simp), rfl, rfl⟩

/-- **C80** Linked lists of any length come back. -/
theorem C80_list (dc : DCfg) (hl : LibOk dc.lib) (xs : List Int) (hx : ∀ x ∈ xs, KindFits .int x) :
    ∃ out, enc {} (listGV xs) [] 0 = .done out 0 none ∧ ∀ n, braces out < n → unmarshalR dc listEnv 1 n 0 (.ptr (.ref 0)) out .ptrNil = .done (clip (listDV xs)) none := by
  have := C80_roundtrip_partial {} rfl (by intro i h; cases h) dc hl listEnv_go 0 0 list_tree ⟨xs.length, list_seen dc xs hx⟩
  simpa [zeroR_ptr] using this

/-! ### The stack -/

/-- `{"N":{"N":...null}}` -/
def deepList : Nat → Bytes
  | 0 => bs! "null"
  | k + 1 => bs! "{\"N\":" ++ (deepList k ++ bs! "}")

theorem key_n : JString (bs! "\"N\"") := JString.mk (bs! "N") (.plain _ _ (by decide) (by decide) (by decide) .nil)

theorem deepList_json : ∀ k, ∃ j, Derives (.value j) (deepList k)
  | 0 => ⟨.null, .null⟩
  | k + 1 => by
    obtain ⟨j, hj⟩ := deepList_json k
    have nil : Ws [] := by intro c hc; contradiction
    have := Derives.memOne [] [] [] [] _ j _ nil nil nil nil key_n hj
    exact ⟨_, by simpa [deepList] using Derives.obj _ _ this⟩

theorem member_n (s : Bytes) : memberKey fieldKey true (bs! "\"N\":" ++ s) = .inr (.inr (.string (bs! "N"), skipSpaces s)) := by
  obtain ⟨n, h⟩ := unquote_ok key_n (bs! ":" ++ s)
  have hu : unq (bs! "\"N\"") = bs! "N" := by with_unfolding_all rfl
  rw [hu] at h
  have hf : fieldKey (bs! "\"N\":" ++ s) = .ok (.string (bs! "N")) (bs! ":" ++ s) := by
    unfold fieldKey
    have e : bs! "\"N\":" ++ s = bs! "\"N\"" ++ (bs! ":" ++ s) := rfl
    rw [e, h]
  have hn : hasNullPrefix (bs! "\"N\":" ++ s) = false := rfl
  unfold memberKey
  simp only [if_true, hn, hf]
  rfl

theorem skip_deep : ∀ (k : Nat) (s : Bytes), skipSpaces (deepList k ++ s) = deepList k ++ s
  | 0, _ => rfl
  | _ + 1, _ => rfl

theorem pick_n (c : DCfg) : pickField c [bs! "V", bs! "N"] (bs! "N") = some 1 := rfl

/-- With room for fewer calls than there are braces. -/
theorem deep_crash (c : DCfg) (dyn : Ty → Dec) (depth : Nat) : ∀ (n k : Nat) (s : Bytes) (p : DV), n < k →
    decR c dyn listEnv depth n (.ptr (.ref 0)) (deepList k ++ s) p = .crash .fuel
  | 0, k + 1, s, p, _ => rfl
  | n + 1, k + 1, s, p, h => by
    have ih := deep_crash c dyn depth n k (bs! "}" ++ s)
    show (decodeStruct c [bs! "V", bs! "N"] [dec c dyn (.int .int), decR c dyn listEnv depth n (.ptr (.ref 0))]
      (bs! "{\"N\":" ++ (deepList k ++ bs! "}") ++ s) (match p with | .ptr v => v | _ => zeroR listEnv depth (.ref 0))).map .ptr = .crash .fuel
    generalize (match p with | .ptr v => v | _ => zeroR listEnv depth (.ref 0)) = q
    have hd : ∀ q, decodeStruct c [bs! "V", bs! "N"] [dec c dyn (.int .int), decR c dyn listEnv depth n (.ptr (.ref 0))]
        (bs! "{\"N\":" ++ (deepList k ++ bs! "}") ++ s) q = .crash .fuel := by
      intro q
      show structLoopD c [bs! "V", bs! "N"] [dec c dyn (.int .int), decR c dyn listEnv depth n (.ptr (.ref 0))] _
        ((bs! "{\"N\":" ++ (deepList k ++ bs! "}") ++ s).length + 1) true (match q with | .struct fs => fs | _ => [])
        (bs! "\"N\":" ++ ((deepList k ++ bs! "}") ++ s)) = .crash .fuel
      generalize (match q with | .struct fs => fs | _ => ([] : List DV)) = fs
      have hk : skipSpaces (bs! "\"N\":" ++ ((deepList k ++ bs! "}") ++ s)) = bs! "\"N\":" ++ ((deepList k ++ bs! "}") ++ s) := rfl
      rw [structLoopD_first (by rw [hk]; simp), hk, structMember, member_n, List.append_assoc, skip_deep]
      simp only [structField, pick_n]
      simp only [List.getElem?_cons_succ, List.getElem?_cons_zero, ih _ (Nat.lt_of_succ_lt_succ h)]
    rw [hd]
    rfl

/-- **C80** No stack is large enough for all texts: `decodeStruct` has no bound on the nesting, so that lists of `n + 1` elements do not
fit where there is room for `n` calls. -/
theorem C80_fails_deep (c : DCfg) (n k : Nat) (p : DV) : ∃ b, IsJson b ∧ unmarshalR c listEnv 1 n k (.ptr (.ref 0)) b p = .crash .fuel := by
  obtain ⟨j, hj⟩ := deepList_json (n + 1)
  have nil : Ws [] := by intro c hc; contradiction
  refine ⟨deepList (n + 1), ⟨j, ?_⟩, ?_⟩
  · exact ⟨[], _, [], by simp, nil, nil, hj⟩
  · have hs := skip_deep (n + 1) []
    have hc := fun dyn => deep_crash c dyn 1 n (n + 1) [] p (Nat.lt_succ_self n)
    rw [List.append_nil] at hs hc
    unfold unmarshalR parseInto
    rw [hs]
    cases k <;> simp only [decNR, hc]

theorem C80_fails : ¬ C80_statement := by
  intro h
  obtain ⟨n, hn⟩ := h { lib := noLib } listEnv 1 (.ptr (.ref 0)) listEnv_go
  obtain ⟨b, hb, hc⟩ := C80_fails_deep { lib := noLib } n 0 (zeroR listEnv 1 (.ptr (.ref 0)))
  obtain ⟨v, e, hv⟩ := hn b hb
  rw [hc] at hv
  cases hv

/-- `type A struct { X bool; C []A; B *B }; type B struct { M map[string]A }` -/
def treeEnv : REnv := fun id => if id = 0 then [(bs! "X", .base .bool), (bs! "C", .slice (.ref 0)), (bs! "B", .ptr (.ref 1))] else [(bs! "M", .map .str (.ref 0))]

/-- Concrete case: trees of two types that refer to each other. -/
example : unmarshalR { lib := noLib } treeEnv 1 5 0 (.ref 0) (bs! "{\"X\":true,\"C\":[{},{\"X\":true}],\"B\":{\"M\":{\"k\":{\"B\":null}}}}") (zeroR treeEnv 1 (.ref 0)) =
    .done (.struct [.bool true, .slice [.struct [.bool false, .sliceNil, .ptrNil], .struct [.bool true, .sliceNil, .ptrNil]] [],
      .ptr (.struct [.map [(.str (bs! "k"), .struct [.bool false, .sliceNil, .ptrNil])]])]) none := by
  rfl

end JC.Props
