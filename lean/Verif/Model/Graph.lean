import Verif.Model.Encode
/-!
Model of the encoders of `/repo/encode.go` on values that refer to each other: pointers,
slices and maps are references to memory, so that a value may contain itself. The
encoding functions are those of `Model/Encode.lean`; only the way from a value to its
parts differs.

The encoders call each other without looking at where they have been (there is nothing
like the `ptrSeen` of encoding/json), so the depth of the calls is bounded by the stack
only. A goroutine whose stack is used up dies; nothing can be recovered. This is the
outcome `panic` of a run with too little stack.
-/
namespace JC

/-- A value with references. -/
inductive NV where
  /-- a value without references -/
  | leaf (g : GV)
  /-- a pointer to the variable `a` -/
  | ptr (a : Nat)
  /-- a slice of the elements `a` -/
  | slice (a : Nat)
  | array (xs : List NV)
  /-- a generic map with the entries `a` -/
  | map (a : Nat)
  /-- a `map[string]interface{}` with the entries `a` -/
  | mapSI (a : Nat)
  | struct (fs : List (FMeta × NV))
  /-- an interface whose data word is not nil -/
  | iface (v : NV)
  /-- a field with the `string` option -/
  | quoted (v : NV)
  /-- a field promoted through an embedded pointer, the variable `a` -/
  | emb (a : Nat) (zero : Bool)

/-- The memory: what references refer to. -/
structure NMem where
  vars : Nat → NV
  elems : Nat → List NV
  maps : Nat → List (MKey × NV)
  mapsSI : Nat → List (Bytes × NV)

/-- `emptyFuncOf`, `/repo/codec.go:861-917`. -/
def isEmptyN (h : NMem) : NV → Bool
  | .leaf g => isEmpty g
  | .ptr _ => false
  | .slice a => (h.elems a).length == 0
  | .array xs => xs.length == 0
  | .map a => (h.maps a).length == 0
  | .mapSI a => (h.mapsSI a).length == 0
  | .struct _ => false
  | .iface _ => false
  | .quoted v => isEmptyN h v
  | .emb _ z => z

mutual
/-- The encoding function of a value; `ref` encodes what it refers to.
`encodePointer`, `/repo/encode.go:772-777`, `encodeSlice`, 404-412, `encodeArray`, 374-402,
`encodeMap`, 414-461, `encodeMapStringInterface`, 480-583, `encodeStruct`, 690-758,
`encodeInterface`, 779-781, `encodeToString`, 277-294, `encodeEmbeddedStructPointer`,
764-770. -/
def encN (c : Cfg) (h : NMem) (ref : NV → Enc) : NV → Enc
  | .leaf g => enc c g
  | .ptr a => ref (h.vars a)
  | .slice a => encodeArray c ((h.elems a).map ref)
  | .array xs => encodeArray c (encNL c h ref xs)
  | .map a => encodeMap c ((h.maps a).map fun e => (e.1, ref e.2))
  | .mapSI a => encodeMapSI c ((h.mapsSI a).map fun e => (e.1, ref e.2))
  | .struct fs => encodeStruct c (encNF c h ref fs)
  | .iface v => encN c h ref v
  | .quoted v => encodeToString c (encN c h ref v)
  | .emb a _ => ref (h.vars a)
def encNL (c : Cfg) (h : NMem) (ref : NV → Enc) : List NV → List Enc
  | [] => []
  | v :: vs => encN c h ref v :: encNL c h ref vs
def encNF (c : Cfg) (h : NMem) (ref : NV → Enc) : List (FMeta × NV) → List (FMeta × Bool × Enc)
  | [] => []
  | (m, v) :: fs => (m, isEmptyN h v, encN c h ref v) :: encNF c h ref fs
end

/-- The encoding function of a value, with stack for `n` nested references. -/
def encG (c : Cfg) (h : NMem) : Nat → NV → Enc
  | 0, _ => fun _ _ => .panic
  | n + 1, v => encN c h (encG c h n) v

end JC
