import Verif.Model.TokenMem
/-!
Specification of several Tokenizers in one memory.
-/
namespace JC.Spec
open JC

/-- Memory that the Tokenizer at `a` writes to: its own buffer and its stack. -/
def Owns (w : TokMem) (a : Nat) (p : TokPlace) : Prop := p = .buf a ∨ ∃ n, (w.toks a).slot = some (p, n)

/-- The place exists. -/
def TokPlace.In (w : TokMem) : TokPlace → Prop
  | .buf _ => True
  | .heap i => i < w.heap.length

/-- The stack of the Tokenizer at `a` lies inside an array. -/
def StackOk (w : TokMem) (a : Nat) : Prop := ∀ p n, (w.toks a).slot = some (p, n) → n ≤ (w.cells p).length ∧ TokPlace.In w p

/-- The Tokenizers at the addresses `S` share no memory. -/
structure NoSharing (S : Nat → Prop) (w : TokMem) : Prop where
  ok : ∀ a, S a → StackOk w a
  apart : ∀ a b p, S a → S b → a ≠ b → Owns w a p → ¬ Owns w b p

/-- Calls of `Next` of Tokenizers in any order: what they return, and what is seen of them afterwards; `none` after a panic. Each
Tokenizer is on its own. -/
def aloneCalls : List Nat → (Nat → Tok) → Option ((Nat → Tok) × List Bool)
  | [], f => some (f, [])
  | a :: as, f =>
    match (f a).next with
    | .panic => none
    | .ret t ok => (aloneCalls as fun b => if b = a then t else f b).map fun r => (r.1, ok :: r.2)

/-- The same calls in memory. -/
def memCalls (grow : Nat → Nat) : List Nat → TokMem → Option (TokMem × List Bool)
  | [], w => some (w, [])
  | a :: as, w =>
    match w.next grow a with
    | none => none
    | some (w, ok) => (memCalls grow as w).map fun r => (r.1, ok :: r.2)

/-- The two agree: both panic, or the results are the same and so is what is seen of the Tokenizers at `S`. -/
def Agree (S : Nat → Prop) : Option (TokMem × List Bool) → Option ((Nat → Tok) × List Bool) → Prop
  | none, none => True
  | some (w, r), some (f, r') => r = r' ∧ ∀ a, S a → w.view a = f a
  | _, _ => False

/-- The stack is nil or in the Tokenizer's own buffer. -/
def AtHome (w : TokMem) (a : Nat) : Prop := ∀ p n, (w.toks a).slot = some (p, n) → p = .buf a

/-- What a call of `Next` gives, without regard to memory; `none` for a panic. -/
def nextAlone (t : Tok) : Option (Tok × Bool) :=
  match t.next with
  | .panic => none
  | .ret t ok => some (t, ok)

/-- A Tokenizer after some calls of `Next`. -/
def afterCalls : Nat → Tok → Option Tok
  | 0, t => some t
  | n + 1, t => (nextAlone t).bind fun x => afterCalls n x.1

/-- Memory with a new Tokenizer at every address, reading the texts `f`. -/
def freshMem (f : Nat → Bytes) : TokMem := ⟨fun a => ⟨0, [], none, 0, 0, false, false, f a, none, List.replicate 8 zeroState⟩, []⟩

end JC.Spec
