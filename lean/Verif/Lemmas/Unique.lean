import Verif.Lemmas.EncRaw
/-! A JSON text has one tree: trees are determined by their token texts. -/
namespace JC
open Spec

mutual
/-- Token texts of a document. -/
def vals : Json → List Bytes
  | .null => [[0x6e, 0x75, 0x6c, 0x6c]]
  | .tru => [[0x74, 0x72, 0x75, 0x65]]
  | .fls => [[0x66, 0x61, 0x6c, 0x73, 0x65]]
  | .num s => [s]
  | .str s => [s]
  | .arr xs => [0x5b] :: (valsE xs ++ [[0x5d]])
  | .obj ms => [0x7b] :: (valsM ms ++ [[0x7d]])
def valsE : List Json → List Bytes
  | [] => []
  | [j] => vals j
  | j :: k :: xs => vals j ++ [0x2c] :: valsE (k :: xs)
def valsM : List (Bytes × Json) → List Bytes
  | [] => []
  | [(k, j)] => k :: [0x3a] :: vals j
  | (k, j) :: m :: ms => k :: [0x3a] :: (vals j ++ [0x2c] :: valsM (m :: ms))
end

mutual
theorem tokens_vals (d i : Nat) : ∀ j, (tokens d i j).map SpecTok.value = vals j
  | .null | .tru | .fls | .num _ | .str _ => rfl
  | .arr xs => by simp [tokens, vals, tokensE_vals]
  | .obj ms => by simp [tokens, vals, tokensM_vals]
theorem tokensE_vals (d i : Nat) : ∀ xs, (tokensElems d i xs).map SpecTok.value = valsE xs
  | [] => rfl
  | [j] => by simp [tokensElems, valsE, tokens_vals]
  | j :: k :: xs => by simp [tokensElems, valsE, tokens_vals, tokensE_vals d (i + 1) (k :: xs)]
theorem tokensM_vals (d i : Nat) : ∀ xs, (tokensMembers d i xs).map SpecTok.value = valsM xs
  | [] => rfl
  | [(k, j)] => by simp [tokensMembers, valsM, tokens_vals]
  | (k, j) :: m :: xs => by simp [tokensMembers, valsM, tokens_vals, tokensM_vals d (i + 1) (m :: xs)]
end

theorem jstring_head {s : Bytes} (h : JString s) : ∃ t, s = 0x22 :: t := by cases h; exact ⟨_, rfl⟩

theorem jnumber_head {s : Bytes} (h : JNumber s) : ∃ c t, s = c :: t ∧ (c = 0x2d ∨ Digit c) := by
  obtain ⟨sgn, i, f, e, hs, hi, _, _⟩ := h
  rcases hs with rfl | rfl
  · cases hi with
    | zero => exact ⟨0x30, _, rfl, .inr ⟨by decide, by decide⟩⟩
    | pos d ds h1 h2 _ =>
      refine ⟨d, _, rfl, .inr ⟨?_, h2⟩⟩
      simp only [UInt8.le_iff_toNat_le, UInt8.reduceToNat] at *; omega
  · exact ⟨0x2d, _, rfl, .inl rfl⟩

/-- The tag of a value by the first byte of its first token. -/
def tag (c : UInt8) : Nat :=
  if c = 0x6e then 1 else if c = 0x74 then 2 else if c = 0x66 then 3 else if c = 0x22 then 4
  else if c = 0x5b then 5 else if c = 0x7b then 6 else if c = 0x2d ∨ (0x30 ≤ c ∧ c ≤ 0x39) then 7 else 0

def tagJ : Json → Nat
  | .null => 1 | .tru => 2 | .fls => 3 | .str _ => 4 | .arr _ => 5 | .obj _ => 6 | .num _ => 7

theorem tag_num {c : UInt8} (h : c = 0x2d ∨ Digit c) : tag c = 7 := by
  have h' : c = 0x2d ∨ (0x30 ≤ c ∧ c ≤ 0x39) := h
  have n : c ≠ 0x6e ∧ c ≠ 0x74 ∧ c ≠ 0x66 ∧ c ≠ 0x22 ∧ c ≠ 0x5b ∧ c ≠ 0x7b := by
    rcases h' with rfl | h'
    · decide
    · simp only [UInt8.le_iff_toNat_le, ← UInt8.toNat_inj, ne_eq, UInt8.reduceToNat] at *; omega
  obtain ⟨n1, n2, n3, n4, n5, n6⟩ := n
  simp [tag, n1, n2, n3, n4, n5, n6, h']

theorem vals_head {j : Json} (h : JsonOk j) : ∃ c t l, vals j = (c :: t) :: l ∧ tag c = tagJ j := by
  cases j with
  | null | tru | fls => exact ⟨_, _, _, rfl, by decide⟩
  | num s =>
    rw [JsonOk] at h
    obtain ⟨c, t, rfl, hc⟩ := jnumber_head h
    exact ⟨_, _, _, rfl, tag_num hc⟩
  | str s =>
    rw [JsonOk] at h
    obtain ⟨t, rfl⟩ := jstring_head h
    exact ⟨_, _, _, rfl, rfl⟩
  | arr xs => exact ⟨_, _, _, rfl, rfl⟩
  | obj ms => exact ⟨_, _, _, rfl, rfl⟩

theorem vals_tag {j j' : Json} (h : JsonOk j) (h' : JsonOk j') {r r' : List Bytes} (e : vals j ++ r = vals j' ++ r') :
    tagJ j = tagJ j' := by
  obtain ⟨c, t, l, e1, t1⟩ := vals_head h
  obtain ⟨c', t', l', e2, t2⟩ := vals_head h'
  rw [e1, e2] at e
  simp only [List.cons_append, List.cons.injEq] at e
  rw [← t1, ← t2, e.1.1]

theorem vals_ne_rb {j : Json} (h : JsonOk j) {c : UInt8} (hc : c = 0x5d ∨ c = 0x7d) (r r' : List Bytes) :
    vals j ++ r ≠ [c] :: r' := by
  obtain ⟨c', t, l, e1, t1⟩ := vals_head h
  intro e
  rw [e1] at e
  simp only [List.cons_append, List.cons.injEq] at e
  obtain ⟨⟨rfl, _⟩, _⟩ := e
  have : tag c' = 0 := by rcases hc with rfl | rfl <;> decide
  rw [this] at t1
  cases j <;> simp [tagJ] at t1

theorem valsM_ne {ms : List (Bytes × Json)} (hne : ms ≠ []) (h : ∀ x ∈ ms, JString x.1 ∧ JsonOk x.2) (r r' : List Bytes) :
    valsM ms ++ r ≠ [0x7d] :: r' := by
  intro e
  rcases ms with _ | ⟨⟨k, j⟩, _ | ⟨m, ms⟩⟩
  · exact hne rfl
  all_goals
    obtain ⟨t, hk⟩ := jstring_head (h (k, j) (by simp)).1
    simp only at hk
    simp [valsM, hk] at e

theorem valsE_ne {xs : List Json} (hne : xs ≠ []) (h : ∀ x ∈ xs, JsonOk x) (r r' : List Bytes) :
    valsE xs ++ r ≠ [0x5d] :: r' := by
  rcases xs with _ | ⟨j, _ | ⟨k, xs⟩⟩
  · exact absurd rfl hne
  · simp only [valsE]; exact vals_ne_rb (h j (by simp)) (.inl rfl) _ _
  · simp only [valsE, List.append_assoc]; exact vals_ne_rb (h j (by simp)) (.inl rfl) _ _

mutual
theorem vals_inj : ∀ (j j' : Json), JsonOk j → JsonOk j' → ∀ r r', vals j ++ r = vals j' ++ r' → j = j' ∧ r = r'
  | .null, j', h, h', r, r', e => by
    have := vals_tag h h' e
    cases j' <;> simp [tagJ] at this
    simpa [vals] using e
  | .tru, j', h, h', r, r', e => by
    have := vals_tag h h' e
    cases j' <;> simp [tagJ] at this
    simpa [vals] using e
  | .fls, j', h, h', r, r', e => by
    have := vals_tag h h' e
    cases j' <;> simp [tagJ] at this
    simpa [vals] using e
  | .num s, j', h, h', r, r', e => by
    have := vals_tag h h' e
    cases j' <;> simp [tagJ] at this
    simpa [vals] using e
  | .str s, j', h, h', r, r', e => by
    have := vals_tag h h' e
    cases j' <;> simp [tagJ] at this
    simpa [vals] using e
  | .arr xs, j', h, h', r, r', e => by
    have := vals_tag h h' e
    cases j' <;> simp [tagJ] at this
    rename_i xs'
    simp only [vals, List.cons_append, List.cons.injEq, true_and, List.append_assoc, List.nil_append] at e
    have := valsE_inj xs xs' (jsonOk_arr.1 h) (jsonOk_arr.1 h') r r' e
    simp [this]
  | .obj xs, j', h, h', r, r', e => by
    have := vals_tag h h' e
    cases j' <;> simp [tagJ] at this
    rename_i xs'
    simp only [vals, List.cons_append, List.cons.injEq, true_and, List.append_assoc, List.nil_append] at e
    have := valsM_inj xs xs' (jsonOk_obj.1 h) (jsonOk_obj.1 h') r r' e
    simp [this]
theorem valsE_inj : ∀ (xs xs' : List Json), (∀ x ∈ xs, JsonOk x) → (∀ x ∈ xs', JsonOk x) → ∀ r r',
    valsE xs ++ [0x5d] :: r = valsE xs' ++ [0x5d] :: r' → xs = xs' ∧ r = r'
  | [], xs', h, h', r, r', e => by
    by_cases hn : xs' = []
    · subst hn; simpa [valsE] using e
    · exact absurd e.symm (valsE_ne hn h' _ _)
  | [j], xs', h, h', r, r', e => by
    rcases xs' with _ | ⟨j', _ | ⟨k', xs'⟩⟩
    · exact absurd e (valsE_ne (by simp) h _ _)
    · simp only [valsE] at e
      have := vals_inj j j' (h j (by simp)) (h' j' (by simp)) _ _ e
      simpa using this
    · simp only [valsE, List.append_assoc] at e
      have := vals_inj j j' (h j (by simp)) (h' j' (by simp)) _ _ e
      simp at this
  | j :: k :: xs, xs', h, h', r, r', e => by
    rcases xs' with _ | ⟨j', _ | ⟨k', xs'⟩⟩
    · exact absurd e (valsE_ne (by simp) h _ _)
    · simp only [valsE, List.append_assoc] at e
      have := vals_inj j j' (h j (by simp)) (h' j' (by simp)) _ _ e
      simp at this
    · simp only [valsE, List.append_assoc] at e
      have h1 := vals_inj j j' (h j (by simp)) (h' j' (by simp)) _ _ e
      simp only [List.cons_append, List.cons.injEq, true_and] at h1
      have := valsE_inj (k :: xs) (k' :: xs') (fun x hx => h x (List.mem_cons_of_mem _ hx))
        (fun x hx => h' x (List.mem_cons_of_mem _ hx)) r r' h1.2
      exact ⟨by rw [h1.1, this.1], this.2⟩
theorem valsM_inj : ∀ (xs xs' : List (Bytes × Json)), (∀ x ∈ xs, JString x.1 ∧ JsonOk x.2) →
    (∀ x ∈ xs', JString x.1 ∧ JsonOk x.2) → ∀ r r',
    valsM xs ++ [0x7d] :: r = valsM xs' ++ [0x7d] :: r' → xs = xs' ∧ r = r'
  | [], xs', h, h', r, r', e => by
    by_cases hn : xs' = []
    · subst hn; simpa [valsM] using e
    · exact absurd e.symm (valsM_ne hn h' _ _)
  | [(q, j)], xs', h, h', r, r', e => by
    rcases xs' with _ | ⟨⟨q', j'⟩, _ | ⟨k', xs'⟩⟩
    · exact absurd e (valsM_ne (by simp) h _ _)
    · simp only [valsM, List.cons_append, List.cons.injEq, true_and] at e
      have := vals_inj j j' (h (q, j) (by simp)).2 (h' (q', j') (by simp)).2 _ _ e.2
      simp only [List.cons.injEq, true_and] at this
      simp [this, e.1]
    · simp only [valsM, List.append_assoc, List.cons_append, List.cons.injEq, true_and] at e
      have := vals_inj j j' (h (q, j) (by simp)).2 (h' (q', j') (by simp)).2 _ _ e.2
      simp at this
  | (q, j) :: k :: xs, xs', h, h', r, r', e => by
    rcases xs' with _ | ⟨⟨q', j'⟩, _ | ⟨k', xs'⟩⟩
    · exact absurd e (valsM_ne (by simp) h _ _)
    · simp only [valsM, List.append_assoc, List.cons_append, List.cons.injEq, true_and] at e
      have := vals_inj j j' (h (q, j) (by simp)).2 (h' (q', j') (by simp)).2 _ _ e.2
      simp at this
    · simp only [valsM, List.append_assoc, List.cons_append, List.cons.injEq, true_and] at e
      have h1 := vals_inj j j' (h (q, j) (by simp)).2 (h' (q', j') (by simp)).2 _ _ e.2
      simp only [List.cons.injEq, true_and] at h1
      have := valsM_inj (k :: xs) (k' :: xs') (fun x hx => h x (List.mem_cons_of_mem _ hx))
        (fun x hx => h' x (List.mem_cons_of_mem _ hx)) r r' h1.2
      exact ⟨by rw [h1.1, this.1, e.1], this.2⟩
end

theorem jtext_ok {j : Json} {s : Bytes} (h : JText j s) : JsonOk j := by
  obtain ⟨_, _, _, _, _, _, hd⟩ := h
  exact derives_ok hd

/-- A JSON text has one tree. -/
theorem jtext_unique {j j' : Json} {s : Bytes} (h : JText j s) (h' : JText j' s) : j = j' := by
  have e1 := (Props.C11_tokens h).1
  have e2 := (Props.C11_tokens h').1
  rw [e1, tokens_vals, tokens_vals] at e2
  exact (vals_inj j j' (jtext_ok h) (jtext_ok h') [] [] (by simpa using e2)).1

end JC
