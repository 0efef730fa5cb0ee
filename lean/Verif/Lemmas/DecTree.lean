import Verif.Model.Decode
import Verif.Spec.Decode
import Verif.Props.Ints
import Verif.Props.Strings
import Verif.Props.Parse
/-!
Decoding as a function of the document tree: `decJ` follows `dec` but reads a
`Json` tree instead of bytes. `Verif/Lemmas/DecRef.lean` shows that the two agree.
-/
namespace JC
open Spec

/-- decoded text of a string literal -/
def unq (raw : Bytes) : Bytes :=
  match parseStringUnquote raw [] with
  | .ok s _ _ => s
  | _ => []

/-- `none` is failure -/
abbrev JDec := Json → DV → Option DV

def okOf : DRes → Option DV
  | .ok v _ => some v
  | _ => none

def sliceJ (f : JDec) (z : DV) (done : List DV) : List Json → List DV → Option DV
  | [], mem => some (.slice done mem)
  | j :: xs, mem =>
    match f j (mem.headD z) with
    | none => none
    | some x => sliceJ f z (done ++ [x]) xs mem.tail

def arrayJ (f : JDec) (z : DV) (done : List DV) : Nat → List Json → List DV → Option DV
  | 0, _, mem => some (.array (done ++ mem))
  | _ + 1, [], mem => some (.array (done ++ mem))
  | n + 1, j :: xs, mem =>
    match f j (mem.headD z) with
    | none => none
    | some x => arrayJ f z (done ++ [x]) n xs mem.tail

def keyJ (k : KTy) (raw : Bytes) : Option MK := if hasNullPrefix raw then none else (okOf (decodeKey k raw)).map keyOf

def mapJ (k : KTy) (f : JDec) (z : DV) : List (Bytes × Json) → List (MK × DV) → Option (List (MK × DV))
  | [], m => some m
  | (raw, j) :: ms, m =>
    match keyJ k raw with
    | none => none
    | some kv => match f j z with
      | none => none
      | some v => mapJ k f z ms (mapSet kv v m)

def structJ (c : DCfg) (names : List Bytes) (fs : List JDec) : List (Bytes × Json) → List DV → Option (List DV)
  | [], cells => some cells
  | (raw, j) :: ms, cells =>
    match pickField c names (unq raw) with
    | none => if c.disallowUnknown then none else structJ c names fs ms cells
    | some i => match fs[i]? with
      | none => none
      | some f => match f j (cells.getD i (.user none)) with
        | none => none
        | some x => structJ c names fs ms (cells.set i x)

mutual
def genJ (c : DCfg) : Json → Option DV
  | .null => some .ifaceNil
  | .tru => some (.iface .bool (.bool true))
  | .fls => some (.iface .bool (.bool false))
  | .num s =>
    if c.useNumber then some (.iface .number (.number s))
    else (c.lib.parseFloat false s).map fun f => .iface .float64 (.float f)
  | .str raw => some (.iface .string (.string (unq raw)))
  | .arr xs => (genE c xs).map fun vs => .iface (.slice .iface) (.slice vs [])
  | .obj ms => (genM c ms []).map fun m => .iface .mapSI (.map m)
def genE (c : DCfg) : List Json → Option (List DV)
  | [] => some []
  | j :: xs =>
    match genJ c j with
    | none => none
    | some v => (genE c xs).map (v :: ·)
def genM (c : DCfg) : List (Bytes × Json) → List (MK × DV) → Option (List (MK × DV))
  | [], m => some m
  | (raw, j) :: ms, m =>
    match genJ c j with
    | none => none
    | some v => genM c ms (mapSet (.str (unq raw)) v m)
end

/-- `null` leaves the destination alone, the rest is given -/
def orNull (f : JDec) : JDec := fun j p =>
  match j with
  | .null => some p
  | j => f j p

def isNullJ : Json → Bool
  | .null => true
  | _ => false

def ifaceJ (c : DCfg) (dynJ : Ty → JDec) : JDec := fun j p =>
  match p with
  | .iface (.ptr t) v =>
    match v with
    | .ptr w =>
      if !t.isPtr && isNullJ j then some .ifaceNil
      else (dynJ t j w).map fun w => .iface (.ptr t) (.ptr w)
    | _ => if isNullJ j then some .ifaceNil else none
  | _ => genJ c j

def ifaceMJ (c : DCfg) (dynJ : Ty → JDec) (empty : Bool) : JDec := fun j p =>
  if isNullJ j then some .ifaceNil
  else match p with
    | .iface t v =>
      match t, v with
      | .ptr t, .ptr w => (dynJ t j w).map fun w => .iface (.ptr t) (.ptr w)
      | _, _ => none
    | _ => if empty then genJ c j else none

def sliceTyJ (f : JDec) (z : DV) : JDec := fun j p =>
  match j with
  | .null => some .sliceNil
  | .arr xs => sliceJ f z [] xs (match p with | .slice xs sp => xs ++ sp | _ => [])
  | _ => none

def arrayTyJ (n : Nat) (f : JDec) (z : DV) : JDec := fun j p =>
  match j with
  | .null => some p
  | .arr xs =>
    if n ≠ 0 ∧ xs = [] then none
    else arrayJ f z [] n xs (match p with | .array xs => xs | _ => [])
  | _ => none

def mapTyJ (k : KTy) (f : JDec) (z : DV) : JDec := fun j p =>
  match j with
  | .null => some .mapNil
  | .obj ms => (mapJ k f z ms (match p with | .map m => m | _ => [])).map .map
  | _ => none

def structTyJ (c : DCfg) (names : List Bytes) (fs : List JDec) : JDec := fun j p =>
  match j with
  | .null => some p
  | .obj ms => (structJ c names fs ms (match p with | .struct fs => fs | _ => [])).map .struct
  | _ => none

def intJ (k : IntKind) : JDec := orNull fun j p =>
  match j with
  | .num s => okOf (decodeInt k s p)
  | _ => none

def floatJ (l : Lib) (b32 : Bool) : JDec := orNull fun j _ =>
  match j with
  | .num s => (l.parseFloat b32 s).map .float
  | _ => none

def bytesJ : JDec := fun j p =>
  match j with
  | .null => some .bytesNil
  | .str raw => (b64Decode (unq raw)).map fun s => .bytes s []
  | .arr _ =>
    (sliceTyJ (intJ .uint8) (.int 0) j (match p with
      | .bytes s sp => DV.slice (s.map byteDV) (sp.map byteDV)
      | _ => .sliceNil)).map fun
      | .slice xs sp => .bytes (xs.map dvByte) (sp.map dvByte)
      | _ => .bytesNil
  | _ => none

def ptrJ (elemPtr : Bool) (f : JDec) (z : DV) : JDec := fun j p =>
  if isNullJ j then
    match p with
    | .ptr v => if elemPtr then (f j v).map .ptr else some .ptrNil
    | _ => some .ptrNil
  else (f j (match p with | .ptr v => v | _ => z)).map .ptr

def textUJ (f : Bytes → Option Err) : JDec := orNull fun j _ =>
  match j with
  | .str raw => match f (unq raw) with
    | some _ => none
    | none => some (.user (some (unq raw)))
  | _ => none

/-- a string literal is decoded as `dec` does it, `null` as `f` does it -/
def quotedJ (dec : Dec) (f : JDec) : JDec := fun j p =>
  match j with
  | .null => f j p
  | .str raw => okOf (dec raw p)
  | _ => none

mutual
def decJ (c : DCfg) (dyn : Ty → Dec) (dynJ : Ty → JDec) : Ty → JDec
  | .bool => orNull fun j _ =>
    match j with
    | .tru => some (.bool true)
    | .fls => some (.bool false)
    | _ => none
  | .int k => intJ k
  | .float32 => floatJ c.lib true
  | .float64 => floatJ c.lib false
  | .number => orNull fun j _ =>
    match j with
    | .num s => some (.number s)
    | _ => none
  | .string => orNull fun j _ =>
    match j with
    | .str raw => some (.string (unq raw))
    | _ => none
  | .bytes => bytesJ
  | .duration => orNull fun j p =>
    match j with
    | .num s => okOf (decodeDuration c.lib s p)
    | .str raw => okOf (decodeDuration c.lib raw p)
    | _ => none
  | .time => orNull fun j p =>
    match j with
    | .str raw => okOf (decodeTime c.lib raw p)
    | _ => none
  | .iface => ifaceJ c dynJ
  | .ifaceM e => ifaceMJ c dynJ e
  | .slice t => sliceTyJ (decJ c dyn dynJ t) (zero t)
  | .array n t => arrayTyJ n (decJ c dyn dynJ t) (zero t)
  | .map k t => mapTyJ k (decJ c dyn dynJ t) (zero t)
  | .mapSI => mapTyJ .str (ifaceJ c dynJ) .ifaceNil
  | .ptr t => ptrJ t.isPtr (decJ c dyn dynJ t) (zero t)
  | .struct fs => structTyJ c (fs.map (·.1)) (decJF c dyn dynJ fs)
  | .quoted t => quotedJ (decodeFromString (dec c dyn t)) (decJ c dyn dynJ t)
  | .quotedInt t => quotedJ (decodeFromStringToInt c.lib (dec c dyn t)) (decJ c dyn dynJ t)
  | .textU f => textUJ f
  | .raw | .mapRaw | .jsonU _ | .unsupported => fun _ _ => none
def decJF (c : DCfg) (dyn : Ty → Dec) (dynJ : Ty → JDec) : List (Bytes × Ty) → List JDec
  | [] => []
  | (_, t) :: fs => decJ c dyn dynJ t :: decJF c dyn dynJ fs
end

def decJN (c : DCfg) : Nat → Ty → JDec
  | 0 => decJ c (fun _ _ _ => .crash .fuel) fun _ _ _ => none
  | n + 1 => decJ c (decN c n) (decJN c n)

theorem heldL_iff {Q : Ty → Prop} {xs : List DV} {n : Nat} : HeldL Q xs n ↔ ∀ x ∈ xs, Held Q x n := by
  induction xs with
  | nil => simp [HeldL]
  | cons x xs ih => simp [HeldL, ih]

mutual
theorem held_zero (Q : Ty → Prop) (n : Nat) : ∀ t, Held Q (zero t) n
  | .array m t => by
    simp only [zero, Held, heldL_iff]
    intro x hx
    rw [List.eq_of_mem_replicate hx]
    exact held_zero Q n t
  | .struct fs => by simp only [zero, Held]; exact heldF_zero Q n fs
  | .quoted t => by simp only [zero]; exact held_zero Q n t
  | .quotedInt t => by simp only [zero]; exact held_zero Q n t
  | .bool | .int _ | .float32 | .float64 | .number | .string | .bytes | .duration | .time | .raw | .iface
  | .ifaceM _ | .slice _ | .map _ _ | .mapSI | .mapRaw | .ptr _ | .jsonU _ | .textU _ | .unsupported => by
    simp only [zero, Held]
theorem heldF_zero (Q : Ty → Prop) (n : Nat) : ∀ fs, HeldL Q (zeroF fs) n
  | [] => by simp [zeroF, HeldL]
  | (_, t) :: fs => by simp only [zeroF, HeldL]; exact ⟨held_zero Q n t, heldF_zero Q n fs⟩
end

end JC
