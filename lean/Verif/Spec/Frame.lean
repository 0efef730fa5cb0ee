import Verif.Spec.Fields
import Verif.Spec.Ints
/-!
What a text given to `Unmarshal` may change: the fields and entries that it names.
-/
namespace JC.Spec
open JC

/-- A string literal that stands for `k` occurs in `b`. -/
def Mentions (b k : Bytes) : Prop := ∃ pre lit post, b = pre ++ lit ++ post ∧ KeyMeans lit k

/-- `null` occurs in `b`. -/
def HasNull (b : Bytes) : Prop := ∃ pre post, b = pre ++ bs! "null" ++ post

/-- A member with key `k` might go to the field with name `nm`: the names are equal,
or equal up to the case of letters where case may be ignored (`fold`). Nothing is
said here about letters that are not ASCII. -/
def MayHit (fold : Bool) (nm k : Bytes) : Prop :=
  nm = k ∨ (fold = true ∧ (EqFold nm k ∨ ¬ ((∀ c ∈ nm, c < 0x80) ∧ ∀ c ∈ k, c < 0x80)))

/-- A key of a map with keys of the given type occurs in `b`; integers may be followed by white space, and the
text `null` stands for 0. -/
def NamesKey (b : Bytes) : KTy → MK → Prop
  | .str, .str k => Mentions b k
  | .int _, .int z => ∃ l s, Mentions b (l ++ s) ∧ Ws s ∧ (IntLit l z ∨ (l = bs! "null" ∧ z = 0))
  | .text tk, .user s => ∃ t, Mentions b t ∧ tk.answer t = none ∧ tk.key t = s
  | _, _ => False

/-- Apart from the keys in `b`, two maps are equal. -/
def SameBut (b : Bytes) (kt : KTy) (es es' : List (MK × DV)) : Prop := ∀ k, ¬ NamesKey b kt k → es'.lookup k = es.lookup k

/-- The contents `x` of a map that held `es` before. Only `null` can lose entries
that are not named in `b`. -/
def KeptMap (b : Bytes) (kt : KTy) (es : List (MK × DV)) (x : DV) : Prop :=
  (∃ es', x = .map es' ∧ SameBut b kt es es') ∨
  (HasNull b ∧ (x = .mapNil ∨ ∃ es', x = .map es' ∧ SameBut b kt [] es'))

mutual
/-- `Kept fold b t p x`: going from the contents `p` to `x`, a destination of type
`t` has changed only in fields and entries that are named in `b`, and has not
become nil unless `b` has a `null`. Nothing is said about elements of slices,
values of interfaces, and scalars. -/
def Kept (fold : Bool) (b : Bytes) : Ty → DV → DV → Prop
  | .struct fs, p, x => ∀ ps, p = .struct ps → ∃ xs, x = .struct xs ∧ xs.length = ps.length ∧ KeptF fold b fs ps xs
  | .ptr t, p, x =>
    (∀ v, p = .ptr v → (∃ w, x = .ptr w ∧ Kept fold b t v w) ∨
      (HasNull b ∧ (x = .ptrNil ∨ ∃ w, x = .ptr w ∧ Kept fold b t (zero t) w))) ∧
    (p = .ptrNil → x = .ptrNil ∨ ∃ w, x = .ptr w ∧ Kept fold b t (zero t) w)
  | .array n t, p, x => ∀ ps, p = .array ps → ps.length = n → ∃ xs, x = .array xs ∧ xs.length = n ∧
      ∀ (i : Nat) q y, ps[i]? = some q → xs[i]? = some y → Kept fold b t q y
  | .map k _, p, x =>
    (∀ es, p = .map es → KeptMap b k es x) ∧ (p = .mapNil → x = .mapNil ∨ ∃ es', x = .map es' ∧ SameBut b k [] es')
  | .mapSI, p, x | .mapRaw, p, x =>
    (∀ es, p = .map es → KeptMap b .str es x) ∧ (p = .mapNil → x = .mapNil ∨ ∃ es', x = .map es' ∧ SameBut b .str [] es')
  | _, _, _ => True
/-- fields that are not named in `b` are as they were, the others recursively -/
def KeptF (fold : Bool) (b : Bytes) : List (Bytes × Ty) → List DV → List DV → Prop
  | (nm, t) :: fs, p :: ps, x :: xs =>
    ((∀ k, Mentions b k → ¬ MayHit fold nm k) → x = p) ∧ Kept fold b t p x ∧ KeptF fold b fs ps xs
  | _, _, _ => True
end

/-- `b` begins with a JSON value, behind white space. -/
def Begins (b : Bytes) : Prop := ∃ w v r j, b = w ++ v ++ r ∧ Ws w ∧ Derives (.value j) v

/-- Destinations that are written only when the whole value has been read: scalars,
and maps and interfaces that are nil. -/
def Atomic : Ty → DV → Prop
  | .map _ _, p | .mapSI, p | .mapRaw, p => p = .mapNil
  | .iface, p | .ifaceM _, p => p = .ifaceNil
  | .bytes, _ | .slice _, _ | .array _ _, _ | .ptr _, _ | .struct _, _ | .quoted _, _ | .quotedInt _, _ => False
  | _, _ => True

/-- `Elems c n t xs vs`: each of the values `xs` can be stored in a new element of type
`t`, and `vs` are the contents. -/
inductive Elems (c : DCfg) (n : Nat) (t : Ty) : List Json → List DV → Prop
  | nil : Elems c n t [] []
  | cons (x : Json) (b : Bytes) (v : DV) (xs : List Json) (vs : List DV) : JText x b → unmarshal c n t b (zero t) = .done v none →
      Elems c n t xs vs → Elems c n t (x :: xs) (v :: vs)

end JC.Spec
