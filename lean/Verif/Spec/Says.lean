import Verif.Spec.Clean
import Verif.Spec.Tree
import Verif.Spec.Base64
import Verif.Spec.Ints
/-!
Specification for C78: which documents say what a Go value holds. Strings and keys are compared by
what their literals mean, numbers by their value; there are no buffers, escapes or formatting
functions here.
-/
namespace JC.Spec
open JC

/-- The decimal text of an integer, without `-0`. -/
def DecimalInt (t : Bytes) (z : Int) : Prop := IntLit t z ∧ t ≠ [0x2d, 0x30]

/-- Scientific notation: mantissa text and exponent. -/
inductive Scientific : Bytes → Bytes → Int → Prop
  | pos (m ds : Bytes) : (∀ c ∈ ds, Digit c) → ds ≠ [] → Scientific (m ++ 0x65 :: 0x2b :: ds) m (natVal ds)
  | neg (m ds : Bytes) : (∀ c ∈ ds, Digit c) → ds ≠ [] → Scientific (m ++ 0x65 :: 0x2d :: ds) m (-(natVal ds : Int))

/-- The number `t'` is the float that `strconv` writes as `t`, with or without exponent. -/
def SameFloat (expo : Bool) (t t' : Bytes) : Prop :=
  JNumber t' ∧ if expo then ∃ m z, Scientific t m z ∧ Scientific t' m z else t' = t

/-- The literal `raw` stands for the Go string `s`, whose bytes that are not UTF-8 become U+FFFD. -/
def Spells (raw s : Bytes) : Prop := ∃ k, Coerced s k ∧ KeyMeans raw k

/-- The text of a map key. -/
inductive MKeyText : MKey → Bytes → Prop
  | str (s : Bytes) : MKeyText (.str s) s
  | int (z : Int) (t : Bytes) : DecimalInt t z → MKeyText (.int z) t
  | uint (n : Nat) (t : Bytes) : DecimalInt t n → MKeyText (.uint n) t
  | text (s : Bytes) : MKeyText (.text (.ok s)) s

/-- The empty values: false, 0, nil pointers and interfaces, empty arrays, slices, maps and
strings. For types with their own encoding methods the answer is part of the value. -/
def GoEmpty : GV → Prop
  | .nil | .ptrNil | .sliceNil | .mapNil | .bytesNil | .rawNil => True
  | .bool v => v = false
  | .int z => z = 0
  | .uint n => n = 0
  | .float (.fin _ t _) => t = bs! "0" ∨ t = bs! "-0"
  | .number s | .string s | .bytes s | .raw s => s = []
  | .slice xs | .array xs => xs = []
  | .map es => es = []
  | .mapSI es => es = []
  | .mapRaw es => es = []
  | .quoted v => GoEmpty v
  | .emb v _ => GoEmpty v
  | .jsonM _ z | .textM _ z => z = true
  | _ => False

/-- The field is not behind an embedded pointer and does not hold a nil of a concrete type. -/
def OwnMemory : GV → Prop
  | .emb _ _ | .embNil _ => False
  | .iface _ z => z = false
  | .quoted v => OwnMemory v
  | _ => True

mutual
/-- The same document, up to the spelling of strings. -/
def Alike : Json → Json → Prop
  | .null, j => j = .null
  | .tru, j => j = .tru
  | .fls, j => j = .fls
  | .num s, j => j = .num s
  | .str r, j => ∃ r' k, j = .str r' ∧ KeyMeans r k ∧ KeyMeans r' k
  | .arr xs, j => ∃ ys, j = .arr ys ∧ AlikeL xs ys
  | .obj ms, j => ∃ ns, j = .obj ns ∧ AlikeM ms ns
def AlikeL : List Json → List Json → Prop
  | [], ys => ys = []
  | x :: xs, ys => ∃ y ys', ys = y :: ys' ∧ Alike x y ∧ AlikeL xs ys'
def AlikeM : List (Bytes × Json) → List (Bytes × Json) → Prop
  | [], ns => ns = []
  | (r, x) :: ms, ns => ∃ r' y ns' k, ns = (r', y) :: ns' ∧ KeyMeans r k ∧ KeyMeans r' k ∧ Alike x y ∧ AlikeM ms ns'
end

/-- A raw message as a value. -/
def rawGV : Option Bytes → GV
  | none => .rawNil
  | some s => .raw s

/-- Entries in ascending order of key texts. -/
def Ascending (es : List (MKey × GV)) : Prop :=
  es.Pairwise fun a b => ∀ s t, MKeyText a.1 s → MKeyText b.1 t → ¬ t < s

-- `Says sorted v j`: the document `j` says what the value `v` holds; `sorted`: maps are listed by
-- ascending key text, otherwise in any order. (`SaysL`: elements, `SaysE`: entries of a map in the
-- order of the members, `SaysF`: fields of a struct.)
mutual
inductive Says (sorted : Bool) : GV → Json → Prop
  | nil : Says sorted .nil .null
  | yes : Says sorted (.bool true) .tru
  | no : Says sorted (.bool false) .fls
  | int (z : Int) (t : Bytes) : DecimalInt t z → Says sorted (.int z) (.num t)
  | uint (n : Nat) (t : Bytes) : DecimalInt t n → Says sorted (.uint n) (.num t)
  | float (expo : Bool) (t : Bytes) (ok : FloatFmt expo t) (t' : Bytes) : SameFloat expo t t' →
      Says sorted (.float (.fin expo t ok)) (.num t')
  | noNumber : Says sorted (.number []) (.num [0x30])
  | number (s : Bytes) : JNumber s → Says sorted (.number s) (.num s)
  | string (s raw : Bytes) : Spells raw s → Says sorted (.string s) (.str raw)
  | bytesNil : Says sorted .bytesNil .null
  | bytes (s raw : Bytes) : KeyMeans raw (base64 s) → Says sorted (.bytes s) (.str raw)
  | time (s : Bytes) (ok : TimeText s) (raw : Bytes) : KeyMeans raw s → Says sorted (.time s ok) (.str raw)
  | sliceNil : Says sorted .sliceNil .null
  | slice (xs : List GV) (js : List Json) : SaysL sorted xs js → Says sorted (.slice xs) (.arr js)
  | array (xs : List GV) (js : List Json) : SaysL sorted xs js → Says sorted (.array xs) (.arr js)
  | mapNil : Says sorted .mapNil .null
  | map (es es' : List (MKey × GV)) (ms : List (Bytes × Json)) : es'.Perm es → (sorted = true → Ascending es') →
      SaysE sorted es' ms → Says sorted (.map es) (.obj ms)
  | mapSI (es : List (Bytes × GV)) (es' : List (MKey × GV)) (ms : List (Bytes × Json)) :
      es'.Perm (es.map fun e => (.str e.1, e.2)) → (sorted = true → Ascending es') →
      SaysE sorted es' ms → Says sorted (.mapSI es) (.obj ms)
  | mapRaw (es : List (Bytes × Option Bytes)) (es' : List (MKey × GV)) (ms : List (Bytes × Json)) :
      es'.Perm (es.map fun e => (.str e.1, rawGV e.2)) → (sorted = true → Ascending es') →
      SaysE sorted es' ms → Says sorted (.mapRaw es) (.obj ms)
  | struct (fs : List (FMeta × GV)) (ms : List (Bytes × Json)) : SaysF sorted fs ms → Says sorted (.struct fs) (.obj ms)
  | ptrNil : Says sorted .ptrNil .null
  | ptr (v : GV) (j : Json) : Says sorted v j → Says sorted (.ptr v) j
  | iface (v : GV) (z : Bool) (j : Json) : Says sorted v j → Says sorted (.iface v z) j
  | rawNil : Says sorted .rawNil .null
  | raw (s : Bytes) (j' j : Json) : JText j' s → Alike j' j → Says sorted (.raw s) j
  | jsonNil (z : Bool) : Says sorted (.jsonM .isNil z) .null
  | jsonM (s : Option Bytes) (z : Bool) (j : Json) : Says sorted (rawGV s) j → Says sorted (.jsonM (.ok s) z) j
  | textNil (z : Bool) : Says sorted (.textM .isNil z) .null
  | textM (s : Bytes) (z : Bool) (raw : Bytes) : Spells raw s → Says sorted (.textM (.ok s) z) (.str raw)
  /-- the `string` option: a string that contains the document of the value -/
  | quoted (v : GV) (j : Json) (raw : Bytes) : Says sorted v j → Spells raw (compact j) → Says sorted (.quoted v) (.str raw)
  | emb (v : GV) (z : Bool) (j : Json) : Says sorted v j → Says sorted (.emb v z) j
inductive SaysL (sorted : Bool) : List GV → List Json → Prop
  | nil : SaysL sorted [] []
  | cons (v : GV) (vs : List GV) (j : Json) (js : List Json) : Says sorted v j → SaysL sorted vs js →
      SaysL sorted (v :: vs) (j :: js)
inductive SaysE (sorted : Bool) : List (MKey × GV) → List (Bytes × Json) → Prop
  | nil : SaysE sorted [] []
  | cons (k : MKey) (v : GV) (es : List (MKey × GV)) (s raw : Bytes) (j : Json) (ms : List (Bytes × Json)) :
      MKeyText k s → Spells raw s → Says sorted v j → SaysE sorted es ms → SaysE sorted ((k, v) :: es) ((raw, j) :: ms)
inductive SaysF (sorted : Bool) : List (FMeta × GV) → List (Bytes × Json) → Prop
  | nil : SaysF sorted [] []
  /-- empty and `omitempty` -/
  | left (m : FMeta) (v : GV) (fs : List (FMeta × GV)) (ms : List (Bytes × Json)) : m.omitempty = true → GoEmpty v →
      SaysF sorted fs ms → SaysF sorted ((m, v) :: fs) ms
  /-- behind a nil embedded pointer -/
  | behind (m : FMeta) (v : GV) (fs : List (FMeta × GV)) (ms : List (Bytes × Json)) : isRollback v = true →
      SaysF sorted fs ms → SaysF sorted ((m, v) :: fs) ms
  | member (m : FMeta) (v : GV) (fs : List (FMeta × GV)) (raw : Bytes) (j : Json) (ms : List (Bytes × Json)) :
      ¬ (m.omitempty = true ∧ GoEmpty v) → isRollback v = false → Spells raw m.name → Says sorted v j →
      SaysF sorted fs ms → SaysF sorted ((m, v) :: fs) ((raw, j) :: ms)
end

/-- Untrusted raw messages are JSON that starts with its first byte, or do not start with JSON at all. -/
def TidyRaw (c : Cfg) : Option Bytes → Prop
  | none => True
  | some s => c.trustRaw = false → StrictRaw (some s) ∨ ¬ ∃ p q, s = p ++ q ∧ IsJson p

mutual
/-- Values without the raw messages of C18 (`TidyRaw`) and the `omitempty` fields of C41 (`OwnMemory`). -/
def Tidy (c : Cfg) : GV → Prop
  | .slice xs => TidyL c xs
  | .array xs => TidyL c xs
  | .map es => TidyE c es
  | .mapSI es => TidyS c es
  | .mapRaw es => ∀ e ∈ es, TidyRaw c e.2
  | .struct fs => TidyF c fs
  | .ptr v => Tidy c v
  | .iface v _ => Tidy c v
  | .raw s => TidyRaw c (some s)
  | .jsonM (.ok s) _ => TidyRaw c s
  | .quoted v => Tidy c v
  | .emb v _ => Tidy c v
  | _ => True
def TidyL (c : Cfg) : List GV → Prop
  | [] => True
  | v :: vs => Tidy c v ∧ TidyL c vs
def TidyE (c : Cfg) : List (MKey × GV) → Prop
  | [] => True
  | (_, v) :: es => Tidy c v ∧ TidyE c es
def TidyS (c : Cfg) : List (Bytes × GV) → Prop
  | [] => True
  | (_, v) :: es => Tidy c v ∧ TidyS c es
def TidyF (c : Cfg) : List (FMeta × GV) → Prop
  | [] => True
  | (m, v) :: fs => (m.omitempty = true → OwnMemory v ∨ isRollback v = true) ∧ Tidy c v ∧ TidyF c fs
end

end JC.Spec
