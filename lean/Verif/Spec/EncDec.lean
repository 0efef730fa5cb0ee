import Verif.Model.Encoder
import Verif.Model.Decode
import Verif.Spec.Clean
import Verif.Spec.Stream
import Verif.Spec.Typed
/-!
Specification of streams that an `Encoder` writes and a `Decoder` reads.
-/
namespace JC.Spec
open JC

/-- A setting under which output stays JSON: no colors, and whitespace for prefix and indent. -/
def PlainSetting : Setting → Prop
  | .colors c => c = none
  | .indent pre indent => Ws pre ∧ Ws indent
  | _ => True

/-- Calls on the encoder `e`: plain settings and clean values, to a writer that takes everything. Whether
the values can be encoded is left open. -/
def PlainCalls (ji : Bytes → Bytes → Bytes → Option Bytes) : Encoder → List EncCall → Prop
  | _, [] => True
  | e, .set s :: cs => PlainSetting s ∧ PlainCalls ji (e.set s) cs
  | e, .encode v w :: cs => Clean (e.cfg ji) v ∧ (∀ b, w b = none) ∧ PlainCalls ji e cs

/-- An encoder whose output is JSON: no colors, whitespace layout, no write has failed, level not negative. -/
structure PlainEncoder (e : Encoder) : Prop where
  err : e.err = none
  clrs : e.clrs = none
  ws : ∀ i d, e.ind = some (i, d) → Ws i.pre ∧ Ws i.indent ∧ 0 ≤ d

/-- What was written, call by call. -/
def writes (rs : List (Option Err × List Bytes)) : List Bytes := rs.flatMap (·.2)

/-- The output fits into the first buffer of a `Decoder`, or has no number at the top level and no `\u` escape behind a `\"`. -/
def FitsBuffer (ws : List Bytes) : Prop :=
  ws.flatten.length ≤ 32768 ∨ (∀ n, n ++ [0x0a] ∈ ws → ¬ JNumber n) ∧ ¬ QuoteThenU ws.flatten

/-- One value of the stream: the type of the variable, its contents, and what the encoder sees of it. -/
structure Sent where
  t : Ty
  v : DV
  g : GV

/-- The value comes back on its own (see C38): the encoder sees the variable, strings are UTF-8, and no
pointer leads to a nil value. -/
def Sent.Ok (dc : DCfg) (x : Sent) : Prop :=
  x.t.tree ∧ Seen dc (fun s => Coerced s s) (fun w => isNilDV w = false) x.t x.v x.g

/-- The lists are related element by element. -/
def Pairs {α β : Type} (R : α → β → Prop) : List α → List β → Prop
  | [], [] => True
  | a :: as, b :: bs => R a b ∧ Pairs R as bs
  | _, _ => False

end JC.Spec
