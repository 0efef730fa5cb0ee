import Verif.Model.Encode
/-!
Model of the `Encoder` type and of `Marshal`, `/repo/json.go:160-172, 374-452`.
-/
namespace JC

/-- `Encoder`, `/repo/json.go:375-381`. The three flag bits are separate fields;
`ind` holds the Indenter with its current nesting level. The writer is given to
`encode` as its answer to the bytes written. -/
structure Encoder where
  err : Option Err := none
  escapeHTML : Bool := true
  sortMapKeys : Bool := true
  trustRaw : Bool := false
  clrs : Option Colors := none
  ind : Option (IndCfg × Int) := none
deriving Repr

/-- `NewEncoder`, `/repo/json.go:384`. -/
def newEncoder : Encoder := {}

/-- The `encoder` value passed to the codecs by `Append`, `/repo/json.go:139`. -/
def Encoder.cfg (e : Encoder) (ji : Bytes → Bytes → Bytes → Option Bytes) : Cfg where
  escapeHTML := e.escapeHTML
  sortMapKeys := e.sortMapKeys
  trustRaw := e.trustRaw
  clrs := e.clrs
  ind := e.ind.map (·.1)
  jsonIndent := ji

/-- Nesting level of the Indenter; without one it is never used. -/
def Encoder.depth (e : Encoder) : Int := (e.ind.map (·.2)).getD 0

/-- Result of a call: the encoder afterwards, the error returned and the calls of
`Write` made; or a panic. -/
inductive EncodeR where
  | done (e : Encoder) (ret : Option Err) (writes : List Bytes)
  | panic

/-- `Encode`, `/repo/json.go:392-417`; `w` answers `Write`. The pooled buffer is
truncated to length zero first, so its former content does not matter (see
`Model/Pool.lean`). -/
def Encoder.encode (ji : Bytes → Bytes → Bytes → Option Bytes) (e : Encoder) (v : GV) (w : Bytes → Option Err) : EncodeR :=
  match e.err with
  | some err => .done e (some err) []
  | none =>
    match enc (e.cfg ji) v [] e.depth with
    | .panic => .panic
    | .done b d err =>
      let e := { e with ind := e.ind.map fun i => (i.1, d) }
      match err with
      | some err => .done e (some err) []
      | none =>
        let b := b ++ [0x0a]
        match w b with
        | some err2 => .done { e with err := some err2 } none [b]
        | none => .done e none [b]

/-- The setters, `/repo/json.go:387-389, 420-452`. -/
inductive Setting where
  | colors (c : Option Colors)
  | escapeHTML (on : Bool)
  | indent (pre indent : Bytes)
  | sortMapKeys (on : Bool)
  | trustRawMessage (on : Bool)

/-- `SetColors`, `SetEscapeHTML`, `SetIndent`, `SetSortMapKeys`, `SetTrustRawMessage`. -/
def Encoder.set (e : Encoder) : Setting → Encoder
  | .colors c => { e with clrs := c }
  | .escapeHTML on => { e with escapeHTML := on }
  | .indent pre indent => { e with ind := some (newIndenter pre indent, 0) }
  | .sortMapKeys on => { e with sortMapKeys := on }
  | .trustRawMessage on => { e with trustRaw := on }

/-- `Marshal`, `/repo/json.go:160-172`: default flags, no colors, no Indenter. -/
def marshal (v : GV) : Option (Except Err Bytes) :=
  match enc {} v [] 0 with
  | .panic => none
  | .done _ _ (some e) => some (.error e)
  | .done b _ none => some (.ok b)

/-- A call on an encoder. -/
inductive EncCall where
  | set (s : Setting)
  | encode (v : GV) (w : Bytes → Option Err)

/-- Encoder after a call, with what was returned and written. -/
def Encoder.call (ji : Bytes → Bytes → Bytes → Option Bytes) (e : Encoder) : EncCall → EncodeR
  | .set s => .done (e.set s) none []
  | .encode v w => e.encode ji v w

/-- A sequence of calls: final encoder and the answers to the calls, unless one panics. -/
def Encoder.run (ji : Bytes → Bytes → Bytes → Option Bytes) : Encoder → List EncCall → Option (Encoder × List (Option Err × List Bytes))
  | e, [] => some (e, [])
  | e, c :: cs =>
    match e.call ji c with
    | .panic => none
    | .done e' ret ws =>
      match Encoder.run ji e' cs with
      | none => none
      | some (e'', rs) => some (e'', (ret, ws) :: rs)

end JC
