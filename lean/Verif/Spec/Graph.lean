import Verif.Model.Graph
/-! Values that are trees, and values that go on for ever. -/
namespace JC.Spec

/-- The field is left out. -/
def Omitted (h : NMem) (f : FMeta × NV) : Prop := f.1.omitempty = true ∧ isEmptyN h f.2 = true

/-- `t` is what `v` looks like when all references are followed. Fields that are left out
are not looked at, but for being empty. -/
inductive IsTree (h : NMem) : NV → GV → Prop
  | leaf (g : GV) : IsTree h (.leaf g) g
  | ptr (a : Nat) (t : GV) : IsTree h (h.vars a) t → IsTree h (.ptr a) (.ptr t)
  | slice (a : Nat) (ts : List GV) : ts.length = (h.elems a).length →
      (∀ (i : Nat) v t, (h.elems a)[i]? = some v → ts[i]? = some t → IsTree h v t) → IsTree h (.slice a) (.slice ts)
  | array (xs : List NV) (ts : List GV) : ts.length = xs.length →
      (∀ (i : Nat) v t, xs[i]? = some v → ts[i]? = some t → IsTree h v t) → IsTree h (.array xs) (.array ts)
  | map (a : Nat) (ts : List (MKey × GV)) : ts.map Prod.fst = (h.maps a).map Prod.fst →
      (∀ (i : Nat) v t, (h.maps a)[i]? = some v → ts[i]? = some t → IsTree h v.2 t.2) → IsTree h (.map a) (.map ts)
  | mapSI (a : Nat) (ts : List (Bytes × GV)) : ts.map Prod.fst = (h.mapsSI a).map Prod.fst →
      (∀ (i : Nat) v t, (h.mapsSI a)[i]? = some v → ts[i]? = some t → IsTree h v.2 t.2) → IsTree h (.mapSI a) (.mapSI ts)
  | struct (fs : List (FMeta × NV)) (ts : List (FMeta × GV)) : ts.map Prod.fst = fs.map Prod.fst →
      (∀ (i : Nat) v t, fs[i]? = some v → ts[i]? = some t → isEmpty t.2 = isEmptyN h v.2) →
      (∀ (i : Nat) v t, fs[i]? = some v → ts[i]? = some t → ¬ Omitted h v → IsTree h v.2 t.2) → IsTree h (.struct fs) (.struct ts)
  | iface (v : NV) (t : GV) : IsTree h v t → IsTree h (.iface v) (.iface t false)
  | quoted (v : NV) (t : GV) : IsTree h v t → IsTree h (.quoted v) (.quoted t)
  | emb (a : Nat) (z : Bool) (t : GV) : IsTree h (h.vars a) t → IsTree h (.emb a z) (.emb t z)

/-- `w` is a part of `v`, or what `v` refers to. -/
inductive Part (h : NMem) : NV → NV → Prop
  | ptr (a : Nat) : Part h (.ptr a) (h.vars a)
  | slice (a : Nat) (w : NV) : w ∈ h.elems a → Part h (.slice a) w
  | array (xs : List NV) (w : NV) : w ∈ xs → Part h (.array xs) w
  | map (a : Nat) (k : MKey) (w : NV) : (k, w) ∈ h.maps a → Part h (.map a) w
  | mapSI (a : Nat) (k : Bytes) (w : NV) : (k, w) ∈ h.mapsSI a → Part h (.mapSI a) w
  | struct (fs : List (FMeta × NV)) (m : FMeta) (w : NV) : (m, w) ∈ fs → ¬ Omitted h (m, w) → Part h (.struct fs) w
  | iface (v : NV) : Part h (.iface v) v
  | quoted (v : NV) : Part h (.quoted v) v
  | emb (a : Nat) (z : Bool) : Part h (.emb a z) (h.vars a)

/-- Parts of parts. -/
inductive Inside (h : NMem) : NV → NV → Prop
  | refl (v : NV) : Inside h v v
  | step (u v w : NV) : Part h u v → Inside h v w → Inside h u w

/-- There is no end of parts of parts; such as for a value that contains itself. -/
def Endless (h : NMem) (v : NV) : Prop := ∃ p : Nat → NV, p 0 = v ∧ ∀ i, Part h (p i) (p (i + 1))

/-- Encoding always succeeds. -/
def Succeeds (f : Enc) : Prop := ∀ b d, ∃ b' d', f b d = .done b' d' none

/-- Nothing in the value is a reason for an error: leaves can be encoded, and so can
the keys of maps. -/
def Sound (c : Cfg) (h : NMem) (v : NV) : Prop :=
  (∀ g, Inside h v (.leaf g) → Succeeds (enc c g)) ∧
  ∀ a, Inside h v (.map a) → ∀ e ∈ h.maps a, Succeeds (encodeMKey c e.1) ∧ e.1.uncallable = false

end JC.Spec
