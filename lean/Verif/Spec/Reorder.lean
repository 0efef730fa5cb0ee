import Verif.Model.Encode
/-!
Specification: values that are the same Go value seen with another map iteration
order, at any depth.
-/
namespace JC.Spec
open JC

/-- `b` is `a` with entries of some maps listed in another order. Keys of a Go
map are distinct; for `TextMarshaler` keys the texts must be. -/
inductive Reorder : GV → GV → Prop
  | refl (v : GV) : Reorder v v
  | trans (a b c : GV) : Reorder a b → Reorder b c → Reorder a c
  | mapSI (es es' : List (Bytes × GV)) : es.Perm es' → (es.map (·.1)).Nodup → Reorder (.mapSI es) (.mapSI es')
  | mapRaw (es es' : List (Bytes × Option Bytes)) : es.Perm es' → (es.map (·.1)).Nodup → Reorder (.mapRaw es) (.mapRaw es')
  | map (es es' : List (MKey × GV)) : es.Perm es' → (es.map (·.1.sortText)).Nodup → Reorder (.map es) (.map es')
  | inSlice (l r : List GV) (a b : GV) : Reorder a b → Reorder (.slice (l ++ a :: r)) (.slice (l ++ b :: r))
  | inArray (l r : List GV) (a b : GV) : Reorder a b → Reorder (.array (l ++ a :: r)) (.array (l ++ b :: r))
  | inMap (l r : List (MKey × GV)) (k : MKey) (a b : GV) : Reorder a b → Reorder (.map (l ++ (k, a) :: r)) (.map (l ++ (k, b) :: r))
  | inMapSI (l r : List (Bytes × GV)) (k : Bytes) (a b : GV) : Reorder a b →
      Reorder (.mapSI (l ++ (k, a) :: r)) (.mapSI (l ++ (k, b) :: r))
  | inStruct (l r : List (FMeta × GV)) (m : FMeta) (a b : GV) : Reorder a b →
      Reorder (.struct (l ++ (m, a) :: r)) (.struct (l ++ (m, b) :: r))
  | inPtr (a b : GV) : Reorder a b → Reorder (.ptr a) (.ptr b)
  | inIface (z : Bool) (a b : GV) : Reorder a b → Reorder (.iface a z) (.iface b z)
  | inEmb (z : Bool) (a b : GV) : Reorder a b → Reorder (.emb a z) (.emb b z)
  | inQuoted (a b : GV) : Reorder a b → Reorder (.quoted a) (.quoted b)

end JC.Spec
