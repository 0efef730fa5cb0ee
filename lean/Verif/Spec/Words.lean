import Verif.Model.Decode
/-!
The data words of interfaces, for **C41**.
-/
namespace JC.Spec

/-- A value that is one pointer, and this pointer nil: an interface that holds it has a nil data word. -/
inductive NilWord : DV → Prop
  | ptr : NilWord .ptrNil
  | map : NilWord .mapNil
  | struct (v : DV) : NilWord v → NilWord (.struct [v])
  | array (v : DV) : NilWord v → NilWord (.array [v])

end JC.Spec
