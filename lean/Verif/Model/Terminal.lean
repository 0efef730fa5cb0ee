import Verif.Model.Basic
/-!
Model of `/repo/terminal.go` and `/repo/terminal_windows.go`: `IsColorTerminal`.
-/
namespace JC

/-- The process environment: `none` is an unset variable. -/
abbrev Environ := Bytes → Option Bytes

/-- `os.Getenv`: unset variables read as empty strings. -/
def Environ.get (e : Environ) (name : Bytes) : Bytes := (e name).getD []

/-- A Windows console handle as seen by `windows.GetConsoleMode` and
`windows.SetConsoleMode`: its mode, and whether setting a mode succeeds. -/
structure Console where
  mode : BitVec 32
  settable : Bool
deriving DecidableEq, Repr

/-- An `io.Writer` as far as `IsColorTerminal` looks at it: nil, an `*os.File`, or
anything else. A file is given by the answer of `term.IsTerminal` and, on
Windows, by its console (`none`: `GetConsoleMode` fails). A nil `*os.File` is
such a file, with an invalid descriptor. -/
inductive Writer where
  | nil
  | file (isTerminal : Bool) (console : Option Console)
  | other
deriving DecidableEq, Repr

/-- `IsColorTerminal`, `/repo/terminal.go:17-42`. -/
def isColorTerminal (env : Environ) (w : Writer) : Bool :=
  if env.get (bs! "NO_COLOR") ≠ [] then false
  else if env.get (bs! "FORCE_COLOR") ≠ [] then true
  else if env.get (bs! "TERM") = bs! "dumb" then false
  else match w with
    | .nil => false
    | .other => false
    | .file isTerminal _ => if !isTerminal then false else true

/-- `windows.ENABLE_PROCESSED_OUTPUT | windows.ENABLE_VIRTUAL_TERMINAL_PROCESSING`,
`/repo/terminal_windows.go:43`. -/
def consoleWant : BitVec 32 := 0x1 ||| 0x4

/-- `IsColorTerminal` on Windows, `/repo/terminal_windows.go:15-53`: the answer and
the console mode it sets, if it does. -/
def isColorTerminalWindows (env : Environ) (w : Writer) : Bool × Option (BitVec 32) :=
  if env.get (bs! "NO_COLOR") ≠ [] then (false, none)
  else if env.get (bs! "FORCE_COLOR") ≠ [] then (true, none)
  else if env.get (bs! "TERM") = bs! "dumb" then (false, none)
  else match w with
    | .nil => (false, none)
    | .other => (false, none)
    | .file _ none => (false, none)
    | .file _ (some c) =>
      if c.mode &&& consoleWant = consoleWant then (true, none)
      else
        let mode := c.mode ||| consoleWant
        if c.settable then (true, some mode) else (false, none)

end JC
