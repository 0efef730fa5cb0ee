import Verif.Model.Basic
/-!
Model of the codec cache, `/repo/codec.go:40-77`, as used by `Append`
(`/repo/json.go:129-139`) and `Parse` (`/repo/json.go:221-230`).

The cache is one pointer to a map that is never changed after it is published.
Goroutines are interleavings of the steps below; a call made while another one
is being served (an interface inside a value) is a call of its own.
-/
namespace JC

variable {T C : Type} [DecidableEq T]

/-- A Go map from type ids to codecs. -/
abbrev CodecMap (T C : Type) := T → Option C

/-- The map built by `cacheStore`, `/repo/codec.go:53-62`: the new entry first, then all
entries of the map loaded before. -/
def cacheMerge (t : T) (c : C) (old : CodecMap T C) : CodecMap T C :=
  let new : CodecMap T C := fun x => if x = t then some c else none
  fun x => match old x with
    | some c' => some c'
    | none => new x

/-- A call of `Append` or `Parse` for a value of type `t`, `/repo/json.go:129-139, 221-230`. -/
inductive CallSt (T C : Type) where
  /-- not begun, or ended -/
  | idle
  /-- before `cacheLoad` -/
  | begun (t : T)
  /-- `cache := cacheLoad()` done -/
  | loaded (t : T) (old : CodecMap T C)
  /-- the type was not found: in `constructCachedCodec`, before `constructCodec` -/
  | missed (t : T) (old : CodecMap T C)
  /-- codec constructed, before `cacheStore` publishes the map -/
  | built (t : T) (c : C) (old : CodecMap T C)
  /-- running the codec -/
  | inUse (t : T) (c : C)

/-- The cache pointer and the calls, numbered. -/
structure CacheSt (T C : Type) where
  cache : CodecMap T C
  calls : Nat → CallSt T C

/-- At program start the pointer is nil, which reads as an empty map. -/
def CacheSt.init : CacheSt T C := ⟨fun _ => none, fun _ => .idle⟩

def CacheSt.setCall (s : CacheSt T C) (i : Nat) (c : CallSt T C) : CacheSt T C :=
  { s with calls := fun j => if j = i then c else s.calls j }

/-- What can happen next. -/
inductive CacheEv (T : Type) where
  /-- call `i` begins for type `t` -/
  | begin (i : Nat) (t : T)
  /-- call `i` does its next step -/
  | step (i : Nat)

/-- One atomic step; `build` is `constructCodec` (and `inlined`) for a type,
`/repo/codec.go:69-73`. -/
def CacheSt.next (build : T → C) (s : CacheSt T C) : CacheEv T → CacheSt T C
  | .begin i t =>
    match s.calls i with
    | .idle => s.setCall i (.begun t)
    | _ => s
  | .step i =>
    match s.calls i with
    | .idle => s
    | .begun t => s.setCall i (.loaded t s.cache)
    | .loaded t old =>
      match old t with
      | some c => s.setCall i (.inUse t c)
      | none => s.setCall i (.missed t old)
    | .missed t old => s.setCall i (.built t (build t) old)
    | .built t c old => { s.setCall i (.inUse t c) with cache := cacheMerge t c old }
    | .inUse _ _ => s.setCall i .idle

/-- A schedule. -/
def CacheSt.run (build : T → C) : CacheSt T C → List (CacheEv T) → CacheSt T C
  | s, [] => s
  | s, e :: es => (s.next build e).run build es

end JC
