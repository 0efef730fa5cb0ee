import Verif.Spec.Size
/-!
What encoding a value takes apart from writing it (property C95).
-/
namespace JC.Spec
open JC

mutual

/-- One for each pointer, interface and embedded pointer that is followed, and what sorting takes for the keys of each
map in the value. -/
def apart (srt : List MKey → Nat) : GV → Nat
  | .slice xs => apartL srt xs
  | .array xs => apartL srt xs
  | .map es => srt (es.map (·.1)) + apartE srt es
  | .mapSI es => srt (es.map fun e => .str e.1) + apartS srt es
  | .mapRaw es => srt (es.map fun e => .str e.1)
  | .struct fs => apartF srt fs
  | .ptr v => apart srt v + 1
  | .iface v _ => apart srt v + 1
  | .quoted v => apart srt v
  | .emb v _ => apart srt v + 1
  | _ => 0

def apartL (srt : List MKey → Nat) : List GV → Nat
  | [] => 0
  | v :: vs => apart srt v + apartL srt vs

def apartE (srt : List MKey → Nat) : List (MKey × GV) → Nat
  | [] => 0
  | (_, v) :: es => apart srt v + apartE srt es

def apartS (srt : List MKey → Nat) : List (Bytes × GV) → Nat
  | [] => 0
  | (_, v) :: es => apart srt v + apartS srt es

def apartF (srt : List MKey → Nat) : List (FMeta × GV) → Nat
  | [] => 0
  | (_, v) :: fs => apart srt v + apartF srt fs

end

end JC.Spec
