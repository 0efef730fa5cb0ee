import Verif.Model.Value
import Verif.Model.Terminal
/-!
Model of the command `jc`, `/repo/cmd/jc/main.go`.
-/
namespace JC

/-- The flags, `/repo/cmd/jc/main.go:25-30`, after `flag.Parse`. -/
structure JcFlags where
  pretty : Bool := true
  colorize : Bool := true
  inputFile : Bytes := []
  outputFile : Bytes := []
deriving DecidableEq, Repr

/-- Standard input: `Stat` fails, it is a character device, or it can be read (`none`: reading fails). -/
inductive Stdin where
  | statFails
  | charDevice
  | data (s : Option Bytes)
deriving DecidableEq, Repr

/-- What the command finds outside. -/
structure World where
  env : Environ
  stdin : Stdin
  /-- `os.Open` and `io.ReadAll` of a path -/
  readFile : Bytes → Option Bytes
  /-- `filepath.Abs`, `os.MkdirAll` of the parent and `os.Create` of a path: the file created -/
  create : Bytes → Option Writer
  /-- standard output -/
  stdout : Writer
  /-- result of `Write` to the output -/
  write : Bytes → Option Err
  lib : Lib
  jsonIndent : Bytes → Bytes → Bytes → Option Bytes := fun _ _ _ => none

/-- Where the command writes. -/
inductive Sink where
  | stdout
  | file (path : Bytes)
deriving DecidableEq, Repr

/-- How the command ends: the error returned by `doMain`, where it writes and the writes made. -/
inductive JcRes where
  | done (err : Option Err) (sink : Option Sink) (writes : List Bytes)
  | panic

/-- Reading the input, `/repo/cmd/jc/main.go:65-91`. -/
def jcInput (f : JcFlags) (w : World) : Option Bytes :=
  if f.inputFile ≠ [] then w.readFile f.inputFile
  else match w.stdin with
    | .statFails => none
    | .charDevice => none
    | .data s => s

/-- Choice of the output, `/repo/cmd/jc/main.go:98-120`. -/
def jcOutput (f : JcFlags) (w : World) : Option (Sink × Writer) :=
  if f.outputFile ≠ [] then (w.create f.outputFile).map fun o => (.file f.outputFile, o)
  else some (.stdout, w.stdout)

/-- Setting up the encoder, `/repo/cmd/jc/main.go:122-140`. `colorable.NewColorable` does not
change what is written on systems other than Windows. -/
def jcEncoder (f : JcFlags) (env : Environ) (out : Writer) : Encoder :=
  let e := if f.colorize && isColorTerminal env out then newEncoder.set (.colors (some defaultColors)) else newEncoder
  if f.pretty then e.set (.indent [] (bs! "  ")) else e

/-- `doMain`, `/repo/cmd/jc/main.go:59-143`. -/
def jcMain (f : JcFlags) (w : World) : JcRes :=
  match jcInput f w with
  | none => .done (some (.other 100)) none []
  | some input =>
    match unmarshal { lib := w.lib } 0 .iface input .ifaceNil with
    | .crash _ => .panic
    | .done _ (some e) => .done (some e) none []
    | .done v none =>
      match jcOutput f w with
      | none => .done (some (.other 101)) none []
      | some (sink, out) =>
        match (jcEncoder f w.env out).encode w.jsonIndent (.ptr (toGV v .iface)) w.write with
        | .panic => .panic
        | .done _ err ws => .done err (some sink) ws

end JC
