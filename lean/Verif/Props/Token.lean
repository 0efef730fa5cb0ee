import Verif.Lemmas.Token
import Verif.Lemmas.Doc
import Verif.Props.Parse
/-!
Properties C11 to C15: the Tokenizer.
-/
namespace JC.Props
open JC Spec

/-- Every token is at least one byte, so a lexing of `b` has at most `b.length` tokens. -/
theorem lexes_length {vs : List Bytes} {b rest : Bytes} (h : Lexes vs b rest) :
    vs.length + rest.length ≤ b.length := by
  induction h with
  | nil => simp
  | cons w v r rest vs hw hv _ ih =>
    have : v ≠ [] := by
      rcases hv with hv | hv
      · exact scalar_ne hv
      · rintro rfl; revert hv; decide
    have := List.length_pos_iff.2 this
    simp; omega

/-- Every input: the tokens seen lex a prefix of the input, and the loop ends
in one of five ways. -/
theorem run_cases (n : Nat) (t : Tok) (json : Bytes) (st : List (Scope × Int)) (k : Bool)
    (h : At t json st k) (hn : json.length < n) :
    ∃ rest op, Lexes ((t.run n).1.map Obs.value) json rest ∧
      openedAll (openers st) ((t.run n).1.map Obs.value) = some op ∧
      ((Ws rest ∧ (t.run n).2 = .stop (newTokenizer [])) ∨
       (∃ t' w c r, rest = w ++ c :: r ∧ Ws w ∧ (c = 0x5d ∨ c = 0x7d) ∧ opened op [c] = none ∧
          (t.run n).2 = .stop t' ∧ t'.err = none) ∨
       (∃ w r, rest = w ++ 0x2c :: r ∧ Ws w ∧ op = [] ∧ (t.run n).2 = .panic) ∨
       (∃ t' w c r, rest = w ++ c :: r ∧ Ws w ∧ isSpace c = false ∧ isDelim c = false ∧
          (¬ ∃ v b, c :: r = v ++ b ∧ ScalarTok v ∧ (JNumber v → NumStop b)) ∧
          (t.run n).2 = .stop t' ∧ t'.err = some .syntax)) := by
  induction n generalizing t json st k with
  | zero => omega
  | succ n ih =>
    rcases next_cases h with ⟨hws, hnx⟩ | ⟨t', w, v, r, st', k', e, hw, hv, hnx, hval, hat, hop⟩ |
      ⟨t', w, c, r, e, hw, hc, hop, hnx, herr⟩ | ⟨w, r, e, hw, hst, hnx⟩ | ⟨t', w, c, r, e, hw, h1, h2, h3, hnx, herr⟩
    · rw [Tok.run, hnx]
      exact ⟨json, openers st, .nil _, rfl, .inl ⟨hws, rfl⟩⟩
    · have hvne : v ≠ [] := by
        rcases hv with hv | hv
        · exact scalar_ne hv
        · rintro rfl; revert hv; decide
      have hvl := List.length_pos_iff.2 hvne
      obtain ⟨rest, op, hl, ho, hend⟩ := ih t' r st' k' hat (by rw [e] at hn; simp at hn; omega)
      rw [Tok.run, hnx]
      refine ⟨rest, op, ?_, ?_, hend⟩
      · rw [e]
        simp only [List.map_cons, Tok.obs, hval]
        exact .cons w v r rest _ hw hv hl
      · simp only [List.map_cons, Tok.obs, hval, openedAll, hop]
        exact ho
    · rw [Tok.run, hnx]
      exact ⟨json, openers st, .nil _, rfl, .inr (.inl ⟨t', w, c, r, e, hw, hc, hop, rfl, herr⟩)⟩
    · rw [Tok.run, hnx]
      exact ⟨json, openers st, .nil _, rfl, .inr (.inr (.inl ⟨w, r, e, hw, by rw [hst]; rfl, rfl⟩))⟩
    · rw [Tok.run, hnx]
      exact ⟨json, openers st, .nil _, rfl, .inr (.inr (.inr ⟨t', w, c, r, e, hw, h1, h2, h3, rfl, herr⟩))⟩

theorem newTokenizer_at (b : Bytes) : At (newTokenizer b) b [] false := ⟨rfl, rfl, rfl, rfl⟩

theorem run_ws (w : Bytes) (hw : Ws w) (t : Tok) (k : Bool) (h : At t w [] k) (n : Nat) :
    t.run (n + 1) = ([], .stop (newTokenizer [])) := by
  have hnx : t.next = .ret (newTokenizer []) false := by
    unfold Tok.next
    rw [h.1]
    simp only []
    rw [h.2.1, tokSkip_eq, skipSpaces_ws hw]
    rfl
  rw [Tok.run, hnx]

/-- The tokens of a document, with the exact fields reported by the code. -/
theorem tokenize_doc {j : Json} {b : Bytes} (h : JText j b) :
    tokenize b = ((tokS false 0 0 j).map toObs, .stop (newTokenizer [])) := by
  obtain ⟨w1, v, w2, rfl, h1, h2, hj⟩ := h
  obtain ⟨t', hs, hat⟩ := tok_complete hj (newTokenizer (w1 ++ v ++ w2)) w1 w2 [] false 0 h1
    (follow_of_numStop (numStop_ws h2)) rfl (by simpa using newTokenizer_at (w1 ++ v ++ w2))
  have key : ∀ n, (newTokenizer (w1 ++ v ++ w2)).run ((tokS false 0 0 j).length + (n + 1)) =
      ((tokS false 0 0 j).map toObs, .stop (newTokenizer [])) := by
    intro n
    have := hs.run (n + 1)
    rw [run_ws w2 h2 t' _ hat n] at this
    simpa using this
  -- the number of tokens is bounded by the input length
  have hlen : (tokS false 0 0 j).length ≤ (w1 ++ v ++ w2).length := by
    have hk := key ((w1 ++ v ++ w2).length)
    obtain ⟨rest, op, hl, _⟩ := run_cases _ _ _ _ _ (newTokenizer_at (w1 ++ v ++ w2))
      (show (w1 ++ v ++ w2).length < (tokS false 0 0 j).length + ((w1 ++ v ++ w2).length + 1) by omega)
    rw [hk] at hl
    have := lexes_length hl
    simp only [List.length_map] at this
    omega
  unfold tokenize
  have : (w1 ++ v ++ w2).length + 1 = (tokS false 0 0 j).length + (((w1 ++ v ++ w2).length - (tokS false 0 0 j).length) + 1) := by
    omega
  rw [this]
  exact key _

/-- **C11** On a JSON text the Tokenizer yields exactly the tokens of the
document in order, then stops with `Err` nil. (Only the text of the tokens
here; positions are C12.) -/
theorem C11_tokens {j : Json} {b : Bytes} (h : JText j b) :
    (tokenize b).1.map Obs.value = (tokens 0 0 j).map SpecTok.value ∧
    ∃ t, (tokenize b).2 = .stop t ∧ t.err = none := by
  rw [tokenize_doc h]
  refine ⟨?_, _, rfl, rfl⟩
  have := congrArg (List.map SpecTok.value) (tokS_unkey false 0 0 j)
  simpa [toObs, unkey, Function.comp_def] using this

/-- **C11** The token texts put together are the input without its
insignificant whitespace. -/
theorem C11_concat {j : Json} {b : Bytes} (h : JText j b) :
    (tokenize b).1.flatMap Obs.value = stripWs false false b := by
  rw [stripWs_text h, ← tokens_flat 0 0 j, List.flatMap_def, (C11_tokens h).1, ← List.flatMap_def]

example : ((tokenize (bs! " {\"a b\" : [1, null]}")).1.map Obs.value,
      stripWs false false (bs! " {\"a b\" : [1, null]}")) =
    ([bs! "{", bs! "\"a b\"", bs! ":", bs! "[", bs! "1", bs! ",", bs! "null", bs! "]", bs! "}"],
      bs! "{\"a b\":[1,null]}") := by decide +kernel

/-- **C12** Delimiter, text, depth and index of every token of every document
are right, and every object key is reported as one. -/
theorem C12_positions {j : Json} {b : Bytes} (h : JText j b) :
    ∃ ts, (tokenize b).1 = ts.map toObs ∧ ts.map unkey = (tokens 0 0 j).map unkey ∧
      KeyLe (tokens 0 0 j) ts := by
  rw [tokenize_doc h]
  exact ⟨_, rfl, tokS_unkey false 0 0 j, tokS_keyLe false 0 0 j⟩

/-- **C12** (full statement, with `IsKey` exactly on keys) for documents
without an empty object.

The full statement `(tokenize b).1 = (tokens 0 0 j).map toObs` for every
document is false, see `C12_isKey_fails`: an empty object leaves the key flag
set for the values that follow it in an array. -/
theorem C12_positions_partial {j : Json} {b : Bytes} (h : JText j b) (hj : NoEmptyObj j) :
    (tokenize b).1 = (tokens 0 0 j).map toObs := by
  rw [tokenize_doc h, (tokS_clean 0 0 j hj).2]

/-- **C12** fails as stated: in `[{},1]` the number `1` is reported as a key. -/
theorem C12_isKey_fails :
    ∃ j b, JText j b ∧ (tokenize b).1 ≠ (tokens 0 0 j).map toObs ∧
      (⟨0, bs! "1", 1, 1, true⟩ : Obs) ∈ (tokenize b).1 := by
  refine ⟨.arr [.obj [], .num (bs! "1")], bs! "[{},1]", ?_, ?_, ?_⟩
  · refine ⟨[], bs! "[{},1]", [], rfl, .nil, .nil, ?_⟩
    refine Derives.arr _ (bs! "{},1") ?_
    refine Derives.elemCons [] [] _ (bs! "{}") _ (bs! "1") .nil .nil (Derives.objNil [] .nil) ?_
    refine Derives.elemOne [] [] _ (bs! "1") .nil .nil (.num _ ?_)
    exact JNumber.mk [] (bs! "1") [] [] (.inl rfl) (.pos _ _ (by decide) (by decide) (by simp)) .none .none
  · decide +kernel
  · decide +kernel

example : (tokenize (bs! "{\"a\":[1,2]}")).1 =
    [⟨0x7b, bs! "{", 0, 0, false⟩, ⟨0, bs! "\"a\"", 1, 0, true⟩, ⟨0x3a, bs! ":", 1, 0, false⟩,
     ⟨0x5b, bs! "[", 1, 0, false⟩, ⟨0, bs! "1", 2, 0, false⟩, ⟨0x2c, bs! ",", 2, 0, false⟩,
     ⟨0, bs! "2", 2, 1, false⟩, ⟨0x5d, bs! "]", 1, 0, false⟩, ⟨0x7d, bs! "}", 0, 0, false⟩] := by
  decide +kernel

/-- **C13** (partial) For every input: iteration ends, the tokens seen lex a
prefix of the input, and when `Err` is nil at the end either the whole input
was lexed or the loop stopped at a closer that does not match the innermost
open bracket; `Err` is set exactly when the rest starts with no token; the only
panic is a comma outside all brackets.

Missing from the full statement "on malformed input `Err` is set": mismatched
closers, top-level commas and grammar errors between well-formed tokens are
not reported, see the three theorems below. -/
theorem C13_reports_partial (b : Bytes) :
    ∃ rest op, Lexes ((tokenize b).1.map Obs.value) b rest ∧
      openedAll [] ((tokenize b).1.map Obs.value) = some op ∧
      ((Ws rest ∧ ∃ t, (tokenize b).2 = .stop t ∧ t.err = none) ∨
       (∃ t w c r, rest = w ++ c :: r ∧ Ws w ∧ (c = 0x5d ∨ c = 0x7d) ∧ opened op [c] = none ∧
          (tokenize b).2 = .stop t ∧ t.err = none) ∨
       (∃ w r, rest = w ++ 0x2c :: r ∧ Ws w ∧ op = [] ∧ (tokenize b).2 = .panic) ∨
       (∃ t w c r, rest = w ++ c :: r ∧ Ws w ∧ isSpace c = false ∧
          (¬ ∃ v b, c :: r = v ++ b ∧ Lexeme v ∧ (JNumber v → NumStop b)) ∧
          (tokenize b).2 = .stop t ∧ t.err = some .syntax)) := by
  obtain ⟨rest, op, h1, h2, h3⟩ := run_cases (b.length + 1) (newTokenizer b) b [] false (newTokenizer_at b) (by omega)
  refine ⟨rest, op, h1, h2, ?_⟩
  rcases h3 with ⟨h, e⟩ | h | h | ⟨t', w, c, r, e, hw, hc, hd, hno, he, herr⟩
  · exact .inl ⟨h, _, e, rfl⟩
  · exact .inr (.inl h)
  · exact .inr (.inr (.inl h))
  · refine .inr (.inr (.inr ⟨t', w, c, r, e, hw, hc, ?_, he, herr⟩))
    rintro ⟨v, b', e', hv, hn⟩
    rcases hv with hv | hv
    · exact hno ⟨v, b', e', hv, hn⟩
    · simp only [List.mem_cons, List.not_mem_nil, or_false] at hv
      rcases hv with rfl | rfl | rfl | rfl | rfl | rfl <;>
        (simp only [List.cons_append, List.cons.injEq] at e'; rw [e'.1] at hd; revert hd; decide)

/-- **C13** fails: a comma at top level panics. -/
theorem C13_fails_panic : (tokenize (bs! "1,2")).2 = .panic := by decide +kernel

/-- **C13** fails: a mismatched closer ends the iteration with `Err` nil and
input left over. -/
theorem C13_fails_silent : ¬ IsJson (bs! "[1}x") ∧
    ∃ t, (tokenize (bs! "[1}x")).2 = .stop t ∧ t.err = none ∧ t.json = bs! "x" := by
  refine ⟨?_, _, rfl, by decide +kernel, by decide +kernel⟩
  rw [← C01_valid_iff]; decide +kernel

/-- **C13** fails: text that is no JSON is tokenized to its end without error. -/
theorem C13_fails_accepts : ¬ IsJson (bs! "[1 2") ∧
    ∃ t, (tokenize (bs! "[1 2")).2 = .stop t ∧ t.err = none ∧ t.json = [] := by
  refine ⟨?_, _, rfl, by decide +kernel, by decide +kernel⟩
  rw [← C01_valid_iff]; decide +kernel

example : (tokenize (bs! "[tru]")).2 ≠ .panic ∧ (∃ t, (tokenize (bs! "[trux]")).2 = .stop t ∧ t.err = some .syntax) :=
  ⟨by decide +kernel, _, rfl, by decide +kernel⟩

/-- Calls on a Tokenizer. -/
inductive Call where
  | next
  | reset (b : Bytes)

/-- Run calls; results are the booleans returned by `Next`; `none` after a panic. -/
def calls : Tok → List Call → Option (List Bool × Tok)
  | t, [] => some ([], t)
  | t, .next :: cs => match t.next with
    | .panic => none
    | .ret t b => (calls t cs).map fun r => (b :: r.1, r.2)
  | t, .reset b :: cs => calls (t.reset b) cs

/-- **C14** Once `Err` is set every further `Next` returns false and changes
nothing, however many there are. -/
theorem C14_sticky (t : Tok) (e : Err) (h : t.err = some e) (n : Nat) :
    calls t (List.replicate n .next) = some (List.replicate n false, t) := by
  induction n with
  | zero => rfl
  | succ n ih =>
    rw [List.replicate_succ, calls]
    have : t.next = .ret t false := by unfold Tok.next; rw [h]
    rw [this]
    simp only [ih, Option.map_some, List.replicate_succ]

/-- **C14** After `Reset(b)` any sequence of calls behaves as on a new Tokenizer for `b`. -/
theorem C14_reset (t : Tok) (b : Bytes) (cs : List Call) :
    calls t (.reset b :: cs) = calls (newTokenizer b) cs := rfl

/-- A state with a set error is reachable, and after it and a `Reset` tokens flow again. -/
example : (calls (newTokenizer (bs! "[x")) [.next, .next, .next, .reset (bs! "[7"), .next, .next]).map Prod.fst =
    some [true, false, false, true, true] := by decide +kernel

/-- The kinds of scalar tokens. -/
def Classes (v : Bytes) : List Bool := [rvString v, rvNull v, rvTrue v, rvFalse v, rvNumber v]

/-- **C15** Exactly the right predicate holds of each scalar token. -/
theorem C15_classes (v : Bytes) :
    (JString v → Classes v = [true, false, false, false, false]) ∧
    (v = bs! "null" → Classes v = [false, true, false, false, false]) ∧
    (v = bs! "true" → Classes v = [false, false, true, false, false]) ∧
    (v = bs! "false" → Classes v = [false, false, false, true, false]) ∧
    (JNumber v → Classes v = [false, false, false, false, true]) := by
  refine ⟨?_, ?_, ?_, ?_, ?_⟩
  · intro h
    obtain ⟨t, rfl⟩ := JString.head h
    simp only [Classes, rvString, rvNull, rvTrue, rvFalse, rvNumber, List.length_cons, List.head?_cons]
    have e : (t.length + 1 != 0) = true := by simp
    simp only [e]
    decide
  · rintro rfl; decide
  · rintro rfl; decide
  · rintro rfl; decide
  · intro h
    obtain ⟨c, t, rfl, hc⟩ := h.head
    have : ∀ c : UInt8, (c = 0x2d ∨ isDigit c = true) → ((c == 0x22) = false ∧ (c == 0x6e) = false ∧ (c == 0x74) = false ∧ (c == 0x66) = false) := by
      intro c hc
      refine ⟨?_, ?_, ?_, ?_⟩ <;> (rw [beq_eq_false_iff_ne]; rintro rfl; revert hc; decide)
    obtain ⟨h1, h2, h3, h4⟩ := this c hc
    have h5 : (c == 0x2d || isDigit c) = true := by simpa using hc
    have : ∀ x : UInt8, (some c == some x) = (c == x) := fun x => rfl
    simp [Classes, rvString, rvNull, rvTrue, rvFalse, rvNumber, this, h1, h2, h3, h4, h5]

/-- Scalar tokens are in exactly one class. -/
theorem classes_one (v : Bytes) (h : ScalarTok v) : (Classes v).count true = 1 := by
  obtain ⟨h1, h2, h3, h4, h5⟩ := C15_classes v
  rcases h with h | h | h | h | h
  · rw [h2 h]; rfl
  · rw [h3 h]; rfl
  · rw [h4 h]; rfl
  · rw [h5 h]; rfl
  · rw [h1 h]; rfl

theorem delimStep_fields (t : Tok) (d : UInt8) (e : Option Err) (t' : Tok) (e' : Option Err)
    (h : t.delimStep d e = some (t', e')) : t'.delim = t.delim ∧ t'.value = t.value := by
  unfold Tok.delimStep at h
  simp only [] at h
  have hp : ∀ s, (t.pop s).1.delim = t.delim ∧ (t.pop s).1.value = t.value := by
    intro s; unfold Tok.pop; repeat' split
    all_goals exact ⟨rfl, rfl⟩
  repeat' split at h
  all_goals first
    | (cases h; done)
    | (simp only [Option.some.injEq, Prod.mk.injEq] at h; obtain ⟨rfl, rfl⟩ := h
       first | exact ⟨rfl, rfl⟩ | exact hp _ | (split <;> exact ⟨rfl, rfl⟩))

theorem next_scalar (t t' : Tok) (h : t.next = .ret t' true) (hd : t'.delim = 0) : ScalarTok t'.value := by
  unfold Tok.next at h
  cases he : t.err with
  | some e => rw [he] at h; simp at h
  | none =>
    rw [he] at h
    simp only [] at h
    split at h
    · simp at h
    · rename_i hl
      cases hj : tokSkip t.json with
      | nil => rw [hj] at hl; simp at hl
      | cons c r =>
        rw [hj] at h
        split at h
        · cases h
        · rename_i t1 e1 hds
          simp only [NextR.ret.injEq] at h
          obtain ⟨rfl, hb⟩ := h
          obtain ⟨f1, f2⟩ := delimStep_fields _ _ _ _ _ hds
          simp only [] at f1 f2
          rw [f1] at hd
          rw [f2]
          rcases tokScan_cases c r with ⟨v, b, hsc, _, hv⟩ | ⟨hdl, hsc⟩ | ⟨v, b, hsc, _, _⟩
          · rw [hsc]; exact hv
          · rw [hsc] at hd; simp only [] at hd; subst hd; exact absurd hdl (by decide)
          · rw [hsc] at hds hb
            simp only [Tok.delimStep, if_true, Option.some.injEq, Prod.mk.injEq] at hds
            rw [← hds.2] at hb
            simp at hb

theorem run_scalar (n : Nat) (t : Tok) : ∀ o ∈ (t.run n).1, o.delim = 0 → ScalarTok o.value := by
  induction n generalizing t with
  | zero => intro o ho; simp [Tok.run] at ho
  | succ n ih =>
    intro o ho hd
    rw [Tok.run] at ho
    split at ho
    · simp at ho
    · simp at ho
    · rename_i t' hnx
      simp only [List.mem_cons] at ho
      rcases ho with rfl | ho
      · exact next_scalar t t' hnx hd
      · exact ih t' o ho hd

/-- **C15** Every scalar token the Tokenizer yields, on any input, valid or
not, is in exactly one class. -/
theorem C15_exactly_one (b : Bytes) (o : Obs) (h : o ∈ (tokenize b).1) (hd : o.delim = 0) :
    (Classes o.value).count true = 1 := classes_one _ (run_scalar _ _ o h hd)

example : Classes (bs! "-1") = [false, false, false, false, true] ∧ Classes (bs! "\"n\"") = [true, false, false, false, false] := by
  decide

end JC.Props
