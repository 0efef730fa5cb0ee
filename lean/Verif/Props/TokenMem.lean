import Verif.Lemmas.TokenMem
/-!
Property C92: Tokenizers in memory, and copies of them.
-/
namespace JC.Props
open JC Spec

theorem next_cases (grow : Nat → Nat) {w : TokMem} {a : Nat} (h : StackOk w a) :
    (w.next grow a = none ∧ (w.view a).next = .panic) ∨ ∃ w' t ok, w.next grow a = some (w', ok) ∧ (w.view a).next = .ret t ok ∧ TokDoes a w w' t := by
  have hd := next_does grow h
  revert hd
  cases w.next grow a with
  | none =>
    cases (w.view a).next with
    | panic => intro _; exact .inl ⟨rfl, rfl⟩
    | ret t ok => intro h; exact h.elim
  | some x =>
    obtain ⟨w', ok⟩ := x
    cases (w.view a).next with
    | panic => intro h; exact h.elim
    | ret t ok' => intro h; obtain ⟨rfl, h2⟩ := h; exact .inr ⟨w', t, ok, rfl, rfl, h2⟩

/-- **C92** With its stack in memory, in its own buffer or on the heap, a Tokenizer does what the Tokenizer with a list does. -/
theorem C92_refines (grow : Nat → Nat) {w : TokMem} {a : Nat} (h : StackOk w a) :
    (w.next grow a).map (fun x => (x.1.view a, x.2)) = nextAlone (w.view a) ∧ ∀ w' ok, w.next grow a = some (w', ok) → StackOk w' a := by
  unfold nextAlone
  rcases next_cases grow h with ⟨h1, h2⟩ | ⟨w', t, ok, h1, h2, h3⟩
  · rw [h1, h2]; exact ⟨rfl, fun _ _ h => by cases h⟩
  · rw [h1, h2]
    simp only [Option.map_some, h3.view]
    exact ⟨trivial, fun _ _ h => by cases h; exact h3.ok⟩

theorem noSharing_step {S : Nat → Prop} {w w' : TokMem} {a : Nat} {t : Tok} (h : NoSharing S w) (ha : S a) (hd : TokDoes a w w' t) :
    NoSharing S w' ∧ ∀ b, S b → b ≠ a → w'.view b = w.view b := by
  refine ⟨⟨fun b hb => ?_, fun b c p hb hc hne h1 h2 => ?_⟩, fun b hb hne => ?_⟩
  · by_cases he : b = a
    · subst he; exact hd.ok
    · exact hd.moves.ok he (h.ok b hb)
  · have key : ∀ c, S c → c ≠ a → Owns w' a p → Owns w' c p → False := by
      intro c hc hca h1 h2
      rw [hd.moves.owns hca] at h2
      rcases hd.moves.slot p h1 with h3 | h3
      · exact h.apart a c p ha hc (Ne.symm hca) h3 h2
      · rcases h2 with rfl | ⟨n, hn⟩
        · exact h3 trivial
        · exact h3 (h.ok c hc p n hn).2
    by_cases hb1 : b = a
    · subst hb1; exact key c hc (Ne.symm hne) h1 h2
    · by_cases hc1 : c = a
      · subst hc1; exact key b hb hb1 h2 h1
      · rw [hd.moves.owns hb1] at h1
        rw [hd.moves.owns hc1] at h2
        exact h.apart b c p hb hc hne h1 h2
  · exact hd.moves.view hne (h.ok b hb) fun p h1 h2 => h.apart a b p ha hb (Ne.symm hne) h1 h2

/-- **C92** Tokenizers that share no memory do not disturb each other: called in any order, each returns what it returns alone. -/
theorem C92_separate (grow : Nat → Nat) {S : Nat → Prop} : ∀ (l : List Nat) (w : TokMem) (f : Nat → Tok), (∀ a ∈ l, S a) → NoSharing S w → (∀ a, S a → w.view a = f a) →
    Agree S (memCalls grow l w) (aloneCalls l f)
  | [], w, f, _, _, hf => ⟨rfl, hf⟩
  | a :: l, w, f, hl, h, hf => by
    have ha : S a := hl a (by simp)
    unfold memCalls aloneCalls
    rw [← hf a ha]
    rcases next_cases grow (h.ok a ha) with ⟨h1, h2⟩ | ⟨w', t, ok, h1, h2, h3⟩
    · rw [h1, h2]; trivial
    · rw [h1, h2]
      obtain ⟨h4, h5⟩ := noSharing_step h ha h3
      have ih := C92_separate grow l w' (fun b => if b = a then t else f b) (fun b hb => hl b (by simp [hb])) h4 fun b hb => by
        by_cases he : b = a
        · subst he; simp only [if_true]; exact h3.view
        · simp only [he, if_false]; rw [h5 b hb he, hf b hb]
      simp only []
      revert ih
      cases memCalls grow l w' with
      | none =>
        cases aloneCalls l _ with
        | none => intro _; trivial
        | some y => intro h; exact h.elim
      | some x =>
        cases aloneCalls l _ with
        | none => intro h; exact h.elim
        | some y =>
          intro h
          exact ⟨congrArg _ h.1, h.2⟩

theorem fresh_noSharing (f : Nat → Bytes) : NoSharing (fun _ => True) (freshMem f) := by
  have hn : ∀ a p n, ((freshMem f).toks a).slot ≠ some (p, n) := fun a p n h => by cases h
  refine ⟨fun a _ p n h => absurd h (hn a p n), fun a b p _ _ hne h1 h2 => ?_⟩
  rcases h1 with rfl | ⟨n, h1⟩
  · rcases h2 with h2 | ⟨m, h2⟩
    · cases h2; exact hne rfl
    · exact hn _ _ _ h2
  · exact hn _ _ _ h1

/-- **C92** Any number of new Tokenizers, called in any order. -/
theorem C92_fresh (grow : Nat → Nat) (f : Nat → Bytes) (l : List Nat) :
    Agree (fun _ => True) (memCalls grow l (freshMem f)) (aloneCalls l fun a => newTokenizer (f a)) :=
  C92_separate grow l _ _ (fun _ _ => trivial) (fresh_noSharing f) fun _ _ => rfl

theorem copy_view (w : TokMem) {p q : Nat} (h : p ≠ q) (hq : ∀ n, (w.toks p).slot ≠ some (.buf q, n)) : (w.copy p q).view q = w.view p := by
  unfold TokMem.view TokMem.copy
  simp only [put_toks]
  cases hs : (w.toks p).slot with
  | none => rfl
  | some y =>
    obtain ⟨r, n⟩ := y
    cases r with
    | heap i => rfl
    | buf b =>
      have hb : b ≠ q := by rintro rfl; exact hq n hs
      simp only [TokMem.cells, put_other _ _ _ hb]

/-- A Tokenizer without a stack is assigned to an address that no other one uses. -/
theorem put_noSharing {S : Nat → Prop} {w : TokMem} (h : NoSharing S w) {q : Nat} {t : MTok} (hn : t.slot = none) (hq : ¬ S q)
    (hfree : ∀ b n, S b → (w.toks b).slot ≠ some (.buf q, n)) :
    NoSharing (fun a => S a ∨ a = q) (w.put q t) ∧ ∀ b, S b → (w.put q t).view b = w.view b := by
  have hpq : ∀ b, S b → b ≠ q := fun b hb he => hq (he ▸ hb)
  have ht : ∀ b, S b → (w.put q t).toks b = w.toks b := fun b hb => put_other _ _ _ (hpq b hb)
  have htq : (w.put q t).toks q = t := put_toks _ _ _
  have hc : ∀ r, r ≠ .buf q → (w.put q t).cells r = w.cells r := by
    intro r hr
    cases r with
    | heap i => rfl
    | buf b => simp only [TokMem.cells, put_other _ _ _ (show b ≠ q by rintro rfl; exact hr rfl)]
  have hown : ∀ b r, S b → Owns (w.put q t) b r → Owns w b r := by
    intro b r hb ho
    unfold Owns at *
    rw [ht b hb] at ho
    exact ho
  have hqo : ∀ r, Owns (w.put q t) q r → r = .buf q := by
    intro r ho
    rcases ho with h1 | ⟨n, h1⟩
    · exact h1
    · rw [htq, hn] at h1; cases h1
  have hnq : ∀ b, S b → ¬ Owns w b (.buf q) := by
    intro b hb ho
    rcases ho with h1 | ⟨n, h1⟩
    · cases h1; exact hq hb
    · exact hfree b n hb h1
  refine ⟨⟨fun b hb r n hs => ?_, fun b c r hb hc hne h1 h2 => ?_⟩, fun b hb => ?_⟩
  · rcases hb with hb | rfl
    · rw [ht b hb] at hs
      have hr : r ≠ .buf q := by rintro rfl; exact hfree b n hb hs
      have := h.ok b hb r n hs
      rw [hc r hr]
      cases r <;> exact this
    · rw [htq, hn] at hs; cases hs
  · rcases hb with hb | rfl
    · rcases hc with hc | rfl
      · exact h.apart b c r hb hc hne (hown b r hb h1) (hown c r hc h2)
      · cases hqo r h2; exact hnq b hb (hown b _ hb h1)
    · rcases hc with hc | rfl
      · cases hqo r h1; exact hnq c hc (hown c _ hc h2)
      · exact hne rfl
  · refine view_eq w _ b (by rw [ht b hb]) fun r n hs => ?_
    rw [hc r (by rintro rfl; exact hfree b n hb hs)]

/-- **C92** (partial: no bracket has been read since the Tokenizer was made or `Reset`) A Tokenizer copied by assignment can be used beside the original. -/
theorem C92_copy_partial {S : Nat → Prop} {w : TokMem} (h : NoSharing S w) {p q : Nat} (hp : S p) (hn : (w.toks p).slot = none) (hq : ¬ S q)
    (hfree : ∀ b n, S b → (w.toks b).slot ≠ some (.buf q, n)) :
    NoSharing (fun a => S a ∨ a = q) (w.copy p q) ∧ (w.copy p q).view q = w.view p ∧ ∀ b, S b → (w.copy p q).view b = w.view b := by
  obtain ⟨h1, h2⟩ := put_noSharing h hn hq hfree
  exact ⟨h1, copy_view w (fun he => hq (he ▸ hp)) (fun n h => by rw [hn] at h; cases h), h2⟩

/-- **C92** `NewTokenizer` at a free address: the new Tokenizer is at the start of its text and can be used beside all that were there. -/
theorem C92_new {S : Nat → Prop} {w : TokMem} (h : NoSharing S w) {q : Nat} (hq : ¬ S q) (hfree : ∀ b n, S b → (w.toks b).slot ≠ some (.buf q, n)) (b : Bytes) :
    NoSharing (fun a => S a ∨ a = q) (w.new q b) ∧ (w.new q b).view q = newTokenizer b ∧ ((w.new q b).toks q).buffer.length = 8 ∧
      ∀ a, S a → (w.new q b).view a = w.view a := by
  obtain ⟨h1, h2⟩ := put_noSharing (t := ⟨0, [], none, 0, 0, false, false, b, none, List.replicate 8 zeroState⟩) h rfl hq hfree
  refine ⟨h1, ?_, ?_, h2⟩
  · simp only [TokMem.view, TokMem.new, put_toks, newTokenizer]
  · simp only [TokMem.new, put_toks, List.length_replicate]

/-- **C92** `Reset` gives a Tokenizer whose stack may be anywhere, as that of a copy, a stack of its own: it is at the start of its new text and can be used
beside all others whose stacks are not in its buffer. -/
theorem C92_reset {S : Nat → Prop} {w : TokMem} (h : NoSharing S w) {q : Nat} (hq : ¬ S q) (hfree : ∀ b n, S b → (w.toks b).slot ≠ some (.buf q, n)) (b : Bytes) :
    NoSharing (fun a => S a ∨ a = q) (w.reset q b) ∧ (w.reset q b).view q = newTokenizer b ∧ ∀ a, S a → (w.reset q b).view a = w.view a := by
  obtain ⟨h1, h2⟩ := put_noSharing (t := ⟨0, [], none, 0, 0, false, false, b, none, (w.toks q).buffer⟩) h rfl hq hfree
  refine ⟨h1, ?_, h2⟩
  simp only [TokMem.view, TokMem.reset, put_toks, newTokenizer]

/-- **C92** Full statement for copies: a Tokenizer copied by assignment after any number of calls, and the original, can be used side by side. It is
false, see `C92_fails_copy`. -/
def C92_statement : Prop := ∀ (grow : Nat → Nat) (b : Bytes) (k : Nat) (w : TokMem) (r : List Bool) (l : List Nat),
  memCalls grow (List.replicate k 0) (freshMem fun _ => b) = some (w, r) → (∀ a ∈ l, a = 0 ∨ a = 1) →
  Agree (fun a => a = 0 ∨ a = 1) (memCalls grow l (w.copy 0 1)) (aloneCalls l fun _ => w.view 0)

/-- The text of the counterexample. -/
def lookText : Bytes := bs! "[[1],{\"a\":2}]"

/-- **C92** fails: at the first element of `[[1],{"a":2}]` a copy looks ahead as far as the object. For the original the array it is in has become an object, and
it ends at the closing bracket of the array, without an error: `Err` is nil, as at the end of the text. -/
theorem C92_fails_copy : ∃ w r, memCalls (· * 2) [0, 0] (freshMem fun _ => lookText) = some (w, r) ∧
    (memCalls (· * 2) [1, 1, 1, 1, 0, 0] (w.copy 0 1)).map (fun x => (x.2, (x.1.view 0).err)) = some ([true, true, true, true, true, false], none) ∧
    (aloneCalls [1, 1, 1, 1, 0, 0] fun _ => w.view 0).map (·.2) = some [true, true, true, true, true, true] := by
  refine ⟨_, _, rfl, ?_, ?_⟩ <;> decide +kernel

theorem C92_fails : ¬ C92_statement := by
  intro h
  obtain ⟨w, r, h1, h2, h3⟩ := C92_fails_copy
  have := h (· * 2) lookText 2 w r [1, 1, 1, 1, 0, 0] h1 (by decide)
  revert this h2 h3
  cases memCalls (· * 2) [1, 1, 1, 1, 0, 0] (w.copy 0 1) with
  | none => intro h; cases h
  | some x =>
    cases aloneCalls [1, 1, 1, 1, 0, 0] fun _ => w.view 0 with
    | none => intro _ h; cases h
    | some y =>
      intro h2 h3 ha
      simp only [Option.map_some, Option.some.injEq, Prod.mk.injEq] at h2 h3
      have := ha.1
      rw [h2.1, h3] at this
      cases this

theorem replicate_moves (grow : Nat → Nat) (a : Nat) : ∀ (k : Nat) (w w' : TokMem) (r : List Bool), StackOk w a → memCalls grow (List.replicate k a) w = some (w', r) →
    Moves a w w' ∧ StackOk w' a
  | 0, w, w', r, h, e => by cases e; exact ⟨Moves.refl a w, h⟩
  | k + 1, w, w', r, h, e => by
    simp only [List.replicate_succ, memCalls] at e
    rcases next_cases grow h with ⟨h1, _⟩ | ⟨w1, t, ok, h1, _, h3⟩
    · rw [h1] at e; cases e
    · rw [h1] at e
      simp only [Option.map_eq_some_iff] at e
      obtain ⟨x, hx, he⟩ := e
      cases he
      obtain ⟨h4, h5⟩ := replicate_moves grow a k w1 x.1 x.2 h3.ok hx
      exact ⟨h3.moves.trans h4, h5⟩

/-- **C92** (partial: the stack of the Tokenizer is in its own buffer) Looking ahead: a Tokenizer that is saved by assignment, called any number of times and
assigned again is where it was. -/
theorem C92_restore_partial (grow : Nat → Nat) {w : TokMem} {a b : Nat} (hab : b ≠ a) (h : StackOk w a) (hh : AtHome w a) (k : Nat) {w' : TokMem} {r : List Bool}
    (hk : memCalls grow (List.replicate k a) (w.copy a b) = some (w', r)) : (w'.copy b a).view a = w.view a := by
  have hta : (w.copy a b).toks a = w.toks a := put_other _ _ _ (Ne.symm hab)
  have htb : (w.copy a b).toks b = w.toks a := put_toks _ _ _
  have hok : StackOk (w.copy a b) a := by
    intro p n hn
    rw [hta] at hn
    cases hh p n hn
    have := h _ n hn
    simp only [TokMem.cells, hta] at *
    exact this
  obtain ⟨hm, _⟩ := replicate_moves grow a k _ w' r hok hk
  have hb : w'.toks b = w.toks a := by
    have h1 := hm.other b hab
    have h2 := hm.cells (.buf b) (fun ho => by
      rcases ho with ho | ⟨n, ho⟩
      · cases ho; exact hab rfl
      · rw [hta] at ho; cases hh _ n ho; exact hab rfl) trivial
    simp only [TokMem.cells] at h2
    rw [htb] at h1 h2
    have : ∀ x y : MTok, { x with buffer := [] } = { y with buffer := [] } → x.buffer = y.buffer → x = y := by
      intro x y h1 h2
      cases x; cases y
      simp only [MTok.mk.injEq] at *
      simp [h1, h2]
    exact this _ _ h1 h2
  refine view_eq w _ a (by simp only [TokMem.copy, put_toks, hb]) fun p n hn => ?_
  cases hh p n hn
  simp only [TokMem.cells, TokMem.copy, put_toks, hb]

/-- **C92** The stack of a new Tokenizer stays in its own buffer as long as there are at most eight open brackets. -/
theorem C92_home (grow : Nat → Nat) (f : Nat → Bytes) (a : Nat) : ∀ (k : Nat) (w : TokMem) (r : List Bool), memCalls grow (List.replicate k a) (freshMem f) = some (w, r) →
    (∀ j, j ≤ k → ∀ t, afterCalls j (newTokenizer (f a)) = some t → t.stack.length ≤ 8) → AtHome w a ∧ StackOk w a := by
  have key : ∀ (k : Nat) (w0 w : TokMem) (r : List Bool), AtHome w0 a → StackOk w0 a → (w0.toks a).buffer.length = 8 → memCalls grow (List.replicate k a) w0 = some (w, r) →
      (∀ j, j ≤ k → ∀ t, afterCalls j (w0.view a) = some t → t.stack.length ≤ 8) → AtHome w a ∧ StackOk w a := by
    intro k
    induction k with
    | zero => intro w0 w r h1 h2 _ h4 _; cases h4; exact ⟨h1, h2⟩
    | succ k ih =>
      intro w0 w r h1 h2 h3 h4 h5
      simp only [List.replicate_succ, memCalls] at h4
      rcases next_cases grow h2 with ⟨n1, _⟩ | ⟨w1, t, ok, n1, n2, n3⟩
      · rw [n1] at h4; cases h4
      · rw [n1] at h4
        simp only [Option.map_eq_some_iff] at h4
        obtain ⟨x, hx, he⟩ := h4
        cases he
        have hal : nextAlone (w0.view a) = some (t, ok) := by unfold nextAlone; rw [n2]
        have hlen : (w1.view a).stack.length ≤ (w0.toks a).buffer.length := by
          rw [h3, n3.view]
          exact h5 1 (by omega) t (by simp [afterCalls, hal])
        have hb := n3.moves.length (.buf a) trivial
        simp only [TokMem.cells] at hb
        refine ih w1 x.1 x.2 (next_home grow h1 h2 n1 hlen) n3.ok (by rw [hb, h3]) hx fun j hj t' ht' => ?_
        refine h5 (j + 1) (by omega) t' ?_
        rw [n3.view] at ht'
        simp only [afterCalls, hal, Option.bind_some, ht']
  intro k w r h1 h2
  exact key k _ w r (fun p n h => by cases h) ((fresh_noSharing f).ok a trivial) (by simp [freshMem]) h1 h2

/-- Full statement for looking ahead, false by `C92_fails_restore`. -/
def C92_restore_statement : Prop := ∀ (grow : Nat → Nat) (b : Bytes) (k m : Nat) (w w' : TokMem) (r r' : List Bool),
  memCalls grow (List.replicate k 0) (freshMem fun _ => b) = some (w, r) → memCalls grow (List.replicate m 0) (w.copy 0 1) = some (w', r') →
  (w'.copy 1 0).view 0 = w.view 0

/-- **C92** fails: inside nine arrays the stack is on the heap, and what the lookahead counts there is not taken back. The second element
then has index 2. -/
theorem C92_fails_restore : ∃ w r w' r', memCalls (· * 2) (List.replicate 10 0) (freshMem fun _ => bs! "[[[[[[[[[1,2]]]]]]]]]") = some (w, r) ∧
    memCalls (· * 2) (List.replicate 1 0) (w.copy 0 1) = some (w', r') ∧
    (memCalls (· * 2) [0, 0] (w'.copy 1 0)).map (fun x => (x.1.view 0).obs) = some ⟨0, bs! "2", 9, 2, false⟩ ∧
    (memCalls (· * 2) [0, 0] w).map (fun x => (x.1.view 0).obs) = some ⟨0, bs! "2", 9, 1, false⟩ := by
  refine ⟨_, _, _, _, rfl, rfl, ?_, ?_⟩ <;> decide +kernel

theorem C92_fails_lookahead : ¬ C92_restore_statement := by
  intro h
  obtain ⟨w, r, w', r', h1, h2, h3, h4⟩ := C92_fails_restore
  have hv := h (· * 2) _ 10 1 w w' r r' h1 h2
  have : (w'.copy 1 0).view 0 ≠ w.view 0 := by
    cases h1
    cases h2
    decide +kernel
  exact this hv

/-! Concrete cases. -/

/-- A copy of a Tokenizer in the middle of its text shares the stack; after `Reset` it does not, and both read on. -/
example : ∃ w r, memCalls (· * 2) [0, 0] (freshMem fun _ => lookText) = some (w, r) ∧
    (((w.copy 0 1).toks 1).slot, ((w.copy 0 1).reset 1 lookText).toks 1 |>.slot) = (some (.buf 0, 2), none) ∧
    (memCalls (· * 2) [1, 1, 1, 0, 1, 0, 0, 0, 0] ((w.copy 0 1).reset 1 lookText)).map (·.2) = some (List.replicate 9 true) := by
  refine ⟨_, _, rfl, ?_, ?_⟩ <;> decide +kernel


/-- Saved at the first element, called five times, and assigned again, the Tokenizer reads the text to its end. -/
example : ∃ w r w' r', memCalls (· * 2) [0, 0] (freshMem fun _ => lookText) = some (w, r) ∧ memCalls (· * 2) [0, 0, 0, 0, 0] (w.copy 0 1) = some (w', r') ∧
    (memCalls (· * 2) (List.replicate 9 0) (w'.copy 1 0)).map (·.2) = some (List.replicate 9 true) := by
  refine ⟨_, _, _, _, rfl, rfl, ?_⟩; decide +kernel

/-- A copy made before the first bracket. -/
example : (memCalls (· * 2) [1, 1, 0, 1, 0, 1, 1, 0, 0] ((freshMem fun _ => lookText).copy 0 1)).map (·.2) = some (List.replicate 9 true) := by decide +kernel

/-- Two Tokenizers with nine open brackets each. -/
example : (memCalls (· * 2) ((List.replicate 9 [0, 1]).flatten ++ [0, 1]) (freshMem fun a => if a = 0 then bs! "[[[[[[[[[1" else bs! "[[[[[[[[[true")).map
    (fun x => [(x.1.view 0).obs, (x.1.view 1).obs]) =
    some [⟨0, bs! "1", 9, 0, false⟩, ⟨0, bs! "true", 9, 0, false⟩] := by decide +kernel

end JC.Props
