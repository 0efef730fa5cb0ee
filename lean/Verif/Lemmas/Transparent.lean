import Verif.Spec.Transparent
import Verif.Lemmas.RunFlat
/-!
Lemmas for C87: decoding into a struct with embedded structs and into one with the promoted fields as its own go the same way.
-/
namespace JC
open Spec Props

/-- Two lists have related elements. -/
def Pts {α β : Type} (R : α → β → Prop) : List α → List β → Prop
  | [], [] => True
  | x :: xs, u :: us => R x u ∧ Pts R xs us
  | _, _ => False

theorem pts_iff {α β : Type} {R : α → β → Prop} : ∀ {xs : List α} {us : List β},
    Pts R xs us ↔ xs.length = us.length ∧ ∀ (i : Nat) (x : α) (u : β), xs[i]? = some x → us[i]? = some u → R x u
  | [], [] => by simp [Pts]
  | [], u :: us => by simp [Pts]
  | x :: xs, [] => by simp [Pts]
  | x :: xs, u :: us => by
    simp only [Pts, pts_iff (xs := xs) (us := us), List.length_cons, Nat.add_right_cancel_iff]
    constructor
    · rintro ⟨h1, h2, h3⟩
      refine ⟨h2, ?_⟩
      intro i
      cases i with
      | zero => simpa using h1
      | succ i => simpa using h3 i
    · rintro ⟨h1, h2⟩
      exact ⟨h2 0 x u rfl rfl, h1, fun i a b ha hb => h2 (i + 1) a b (by simpa using ha) (by simpa using hb)⟩

section
variable {α β : Type} {R : α → β → Prop}

theorem pts_append : ∀ {xs ys : List α} {us vs : List β}, Pts R xs us → Pts R ys vs → Pts R (xs ++ ys) (us ++ vs)
  | [], _, [], _, _, h => h
  | _ :: _, _, _ :: _, _, h, h' => ⟨h.1, pts_append h.2 h'⟩
  | [], _, _ :: _, _, h, _ => h.elim
  | _ :: _, _, [], _, h, _ => h.elim

theorem pts_tail : ∀ {xs : List α} {us : List β}, Pts R xs us → Pts R xs.tail us.tail
  | [], [], _ => trivial
  | _ :: _, _ :: _, h => h.2
  | [], _ :: _, h => h.elim
  | _ :: _, [], h => h.elim

theorem pts_head {x : α} {u : β} (h0 : R x u) : ∀ {xs : List α} {us : List β}, Pts R xs us → R (xs.headD x) (us.headD u)
  | [], [], _ => h0
  | _ :: _, _ :: _, h => h.1
  | [], _ :: _, h => h.elim
  | _ :: _, [], h => h.elim

theorem pts_empty : ∀ {xs : List α} {us : List β}, Pts R xs us → xs.isEmpty = us.isEmpty
  | [], [], _ => rfl
  | _ :: _, _ :: _, _ => rfl
  | [], _ :: _, h => h.elim
  | _ :: _, [], h => h.elim

theorem pts_set : ∀ {xs : List α} {us : List β}, Pts R xs us → ∀ (i : Nat) {x : α} {u : β}, R x u → Pts R (xs.set i x) (us.set i u)
  | [], [], _, _, _, _, _ => trivial
  | _ :: _, _ :: _, h, 0, _, _, hx => ⟨hx, h.2⟩
  | _ :: _, _ :: _, h, i + 1, _, _, hx => ⟨h.1, pts_set h.2 i hx⟩
  | [], _ :: _, h, _, _, _, _ => h.elim
  | _ :: _, [], h, _, _, _, _ => h.elim

theorem pts_replicate {x : α} {u : β} (h : R x u) : ∀ n, Pts R (List.replicate n x) (List.replicate n u)
  | 0 => trivial
  | n + 1 => ⟨h, pts_replicate h n⟩
end

/-- Entries with the same keys and related values. -/
def RelE (R : DV → DV → Prop) (x u : MK × DV) : Prop := x.1 = u.1 ∧ R x.2 u.2

theorem pts_mapSet {R : DV → DV → Prop} (k : MK) {x u : DV} (h : R x u) : ∀ {xs us : List (MK × DV)}, Pts (RelE R) xs us →
    Pts (RelE R) (mapSet k x xs) (mapSet k u us)
  | [], [], _ => ⟨⟨rfl, h⟩, trivial⟩
  | (k1, x1) :: xs, (k2, u1) :: us, hp => by
    obtain ⟨⟨e, h1⟩, h2⟩ := hp
    simp only at e h1
    subst e
    simp only [mapSet]
    split
    · exact ⟨⟨rfl, h⟩, h2⟩
    · split
      · exact ⟨⟨rfl, h⟩, ⟨rfl, h1⟩, h2⟩
      · exact ⟨⟨rfl, h1⟩, pts_mapSet k h h2⟩
  | [], _ :: _, h => h.elim
  | _ :: _, [], h => h.elim

variable {w : Decls} {env : PEnv} {mem : Nat → List (Bytes × List Nat)} {zs : Nat → DV}

theorem flat_slice {t : NTy} {xs us sp su : List DV} (h : Pts (Flat w env mem zs t) xs us) (h' : Pts (Flat w env mem zs t) sp su) :
    Flat w env mem zs (.slice t) (.slice xs sp) (.slice us su) := by
  rw [pts_iff] at h h'
  exact .slice h.1 h.2 h'.1 h'.2

theorem flat_array {k : Nat} {t : NTy} {xs us : List DV} (h : Pts (Flat w env mem zs t) xs us) : Flat w env mem zs (.array k t) (.array xs) (.array us) := by
  rw [pts_iff] at h
  exact .array h.1 h.2

theorem pts_entries {R : DV → DV → Prop} : ∀ {xs us : List (MK × DV)}, Pts (RelE R) xs us ↔
    xs.map (·.1) = us.map (·.1) ∧ ∀ (i : Nat) (x u : MK × DV), xs[i]? = some x → us[i]? = some u → R x.2 u.2 := by
  intro xs us
  rw [pts_iff]
  constructor
  · rintro ⟨h1, h2⟩
    refine ⟨?_, fun i x u hx hu => (h2 i x u hx hu).2⟩
    apply List.ext_getElem?
    intro i
    simp only [List.getElem?_map]
    cases hx : xs[i]? with
    | none =>
      have : us[i]? = none := by rw [List.getElem?_eq_none_iff] at hx ⊢; omega
      rw [this]
    | some x =>
      obtain ⟨hlt, _⟩ := List.getElem?_eq_some_iff.1 hx
      obtain ⟨u, hu⟩ : ∃ u, us[i]? = some u := ⟨us[i]'(by omega), List.getElem?_eq_getElem _⟩
      rw [hu]
      simp [(h2 i x u hx hu).1]
  · rintro ⟨h1, h2⟩
    refine ⟨by simpa using congrArg List.length h1, fun i x u hx hu => ⟨?_, h2 i x u hx hu⟩⟩
    have := congrArg (·[i]?) h1
    simp only [List.getElem?_map, hx, hu, Option.map_some, Option.some.injEq] at this
    exact this

theorem flat_map {k : KTy} {t : NTy} {xs us : List (MK × DV)} (h : Pts (RelE (Flat w env mem zs t)) xs us) : Flat w env mem zs (.map k t) (.map xs) (.map us) := by
  rw [pts_entries] at h
  exact .map h.1 h.2

/-- Related results. -/
inductive AlikeRes (R : DV → DV → Prop) : DRes → DRes → Prop
  | ok {v u : DV} (r : Bytes) : R v u → AlikeRes R (.ok v r) (.ok u r)
  | err {v u : DV} (r : Bytes) (e : Err) : R v u → AlikeRes R (.err v r e) (.err u r e)
  | crash (x : Crash) : AlikeRes R (.crash x) (.crash x)

/-- Related functions. -/
def Alike (R : DV → DV → Prop) (d d' : Dec) : Prop := ∀ b v u, R v u → AlikeRes R (d b v) (d' b u)

theorem alike_inputErr {R : DV → DV → Prop} {b : Bytes} {v u : DV} (h : R v u) : AlikeRes R (inputErr b v) (inputErr b u) := by
  unfold inputErr
  exact .err _ _ h

section
variable {R : DV → DV → Prop} {d d' : Dec} {z z' : DV}

theorem alike_sliceLoop {R' : DV → DV → Prop} (hR : ∀ {xs us sp su}, Pts R xs us → Pts R sp su → R' (.slice xs sp) (.slice us su)) (hd : Alike R d d') (hz : R z z')
    {input : Bytes} : ∀ (n : Nat) (done done' m m' : List DV) (b : Bytes),
    Pts R done done' → Pts R m m' → AlikeRes R' (sliceLoop d z input n done m b) (sliceLoop d' z' input n done' m' b)
  | 0, _, _, _, _, _, _, _ => .crash _
  | n + 1, done, done', m, m', b, h1, h2 => by
    have helem : ∀ b, AlikeRes R'
        (match d b (m.headD z) with
          | .crash c => .crash c
          | .err x _ e =>
            match parseValue input with
            | .fail r e2 => .err (.slice done (x :: m.tail)) r e2
            | .ok _ r => .err (.slice done (x :: m.tail)) r e
          | .ok x r => sliceLoop d z input n (done ++ [x]) m.tail r)
        (match d' b (m'.headD z') with
          | .crash c => .crash c
          | .err x _ e =>
            match parseValue input with
            | .fail r e2 => .err (.slice done' (x :: m'.tail)) r e2
            | .ok _ r => .err (.slice done' (x :: m'.tail)) r e
          | .ok x r => sliceLoop d' z' input n (done' ++ [x]) m'.tail r) := by
      intro b
      have := hd b _ _ (pts_head hz h2)
      revert this
      generalize d b (m.headD z) = q
      generalize d' b (m'.headD z') = q'
      intro h
      cases h with
      | crash => exact .crash _
      | ok r h => exact alike_sliceLoop hR hd hz n _ _ _ _ _ (pts_append h1 ⟨h, trivial⟩) (pts_tail h2)
      | err r e h =>
        simp only []
        cases parseValue input with
        | fail r e2 => exact .err _ _ (hR h1 ⟨h, pts_tail h2⟩)
        | ok _ r => exact .err _ _ (hR h1 ⟨h, pts_tail h2⟩)
    rw [sliceLoop, sliceLoop]
    simp only [← pts_empty h1]
    split
    · exact .ok _ (hR h1 h2)
    · split
      · exact helem _
      · cases skipSpaces b with
        | nil => exact .err _ _ (hR h1 h2)
        | cons c t =>
          simp only []
          split
          · exact .err _ _ (hR h1 h2)
          · exact helem _

theorem alike_slice {t : NTy} (hd : Alike (Flat w env mem zs t) d d') (hz : Flat w env mem zs t z z') : Alike (Flat w env mem zs (.slice t)) (decodeSlice d z) (decodeSlice d' z') := by
  intro b v u h
  unfold decodeSlice
  split
  · exact .ok _ .sliceNil
  · cases b with
    | nil => exact alike_inputErr h
    | cons c b =>
      simp only []
      split
      · exact alike_inputErr h
      · cases h with
        | sliceNil => exact alike_sliceLoop flat_slice hd hz _ _ _ _ _ _ trivial trivial
        | slice h1 h2 h3 h4 => exact alike_sliceLoop flat_slice hd hz _ _ _ _ _ _ trivial (pts_append (pts_iff.2 ⟨h1, h2⟩) (pts_iff.2 ⟨h3, h4⟩))

theorem alike_arrayRest {p p' : DV} (h : R p p') : ∀ (n : Nat) (b : Bytes), AlikeRes R (arrayRest p n b) (arrayRest p' n b)
  | 0, _ => .crash _
  | n + 1, b => by
    rw [arrayRest, arrayRest]
    simp only []
    cases skipSpaces b with
    | nil => exact .err _ _ h
    | cons c t =>
      simp only []
      split
      · exact .ok _ h
      · generalize parseValue _ = q
        cases q with
        | fail r e => exact .err _ _ h
        | ok _ r => exact alike_arrayRest h n r

theorem alike_arrayElems {R' : DV → DV → Prop} (hR : ∀ {xs us}, Pts R xs us → R' (.array xs) (.array us)) (hd : Alike R d d') (hz : R z z') :
    ∀ (n : Nat) (first : Bool) (done done' m m' : List DV) (b : Bytes),
    Pts R done done' → Pts R m m' → AlikeRes R' (arrayElems d z first done n m b) (arrayElems d' z' first done' n m' b)
  | 0, _, _, _, _, _, _, h1, h2 => alike_arrayRest (hR (pts_append h1 h2)) _ _
  | n + 1, first, done, done', m, m', b, h1, h2 => by
    have helem : ∀ b, AlikeRes R'
        (match d b (m.headD z) with
          | .crash c => .crash c
          | .err x r e => .err (.array (done ++ x :: m.tail)) r e
          | .ok x r => arrayElems d z false (done ++ [x]) n m.tail r)
        (match d' b (m'.headD z') with
          | .crash c => .crash c
          | .err x r e => .err (.array (done' ++ x :: m'.tail)) r e
          | .ok x r => arrayElems d' z' false (done' ++ [x]) n m'.tail r) := by
      intro b
      have := hd b _ _ (pts_head hz h2)
      revert this
      generalize d b (m.headD z) = q
      generalize d' b (m'.headD z') = q'
      intro h
      cases h with
      | crash => exact .crash _
      | ok r h => exact alike_arrayElems hR hd hz n _ _ _ _ _ _ (pts_append h1 ⟨h, trivial⟩) (pts_tail h2)
      | err r e h => exact .err _ _ (hR (pts_append h1 ⟨h, pts_tail h2⟩))
    rw [arrayElems, arrayElems]
    simp only []
    split
    · exact helem _
    · cases skipSpaces b with
      | nil => exact .err _ _ (hR (pts_append h1 h2))
      | cons c t =>
        simp only []
        split
        · exact helem _
        · split
          · exact .ok _ (hR (pts_append h1 h2))
          · exact .err _ _ (hR (pts_append h1 h2))

theorem alike_array {k : Nat} {t : NTy} (hd : Alike (Flat w env mem zs t) d d') (hz : Flat w env mem zs t z z') :
    Alike (Flat w env mem zs (.array k t)) (decodeArray k d z) (decodeArray k d' z') := by
  intro b v u h
  unfold decodeArray
  split
  · exact .ok _ h
  · cases b with
    | nil => exact alike_inputErr h
    | cons c b =>
      simp only []
      split
      · exact alike_inputErr h
      · cases h with
        | array h1 h2 => exact alike_arrayElems flat_array hd hz _ _ _ _ _ _ _ trivial (pts_iff.2 ⟨h1, h2⟩)

theorem alike_mapLoop {k : KTy} {R' : DV → DV → Prop} (hR : ∀ {xs us}, Pts (RelE R) xs us → R' (.map xs) (.map us)) (hd : Alike R d d') (hz : R z z') {p p' : DV}
    (hp : R' p p') (fresh : Bool) {input : Bytes} : ∀ (n : Nat) (first : Bool) (m m' : List (MK × DV)) (b : Bytes),
    Pts (RelE R) m m' → AlikeRes R' (mapLoopD k d z p fresh input n first m b) (mapLoopD k d' z' p' fresh input n first m' b)
  | 0, _, _, _, _, _ => .crash _
  | n + 1, first, m, m', b, h => by
    have hdest : R' (if fresh then p else .map m) (if fresh then p' else .map m') := by
      split
      · exact hp
      · exact hR h
    rw [mapLoopD, mapLoopD]
    simp only []
    split
    · exact .ok _ (hR h)
    · generalize memberKey _ first (skipSpaces b) = mk
      rcases mk with x | ⟨r, e⟩ | ⟨kv, b'⟩
      · exact .crash _
      · exact .err _ _ hdest
      · simp only []
        have := hd b' _ _ hz
        revert this
        generalize d b' z = q
        generalize d' b' z' = q'
        intro h'
        cases h' with
        | crash => exact .crash _
        | ok r h' => exact alike_mapLoop hR hd hz hp fresh n _ _ _ _ (pts_mapSet _ h' h)
        | err r e h' =>
          simp only []
          cases parseValue input with
          | fail r e2 => exact .err _ _ hdest
          | ok _ r => exact .err _ _ hdest

theorem alike_map {k : KTy} {t : NTy} (hd : Alike (Flat w env mem zs t) d d') (hz : Flat w env mem zs t z z') :
    Alike (Flat w env mem zs (.map k t)) (decodeMap k d z) (decodeMap k d' z') := by
  intro b v u h
  unfold decodeMap
  split
  · exact .ok _ .mapNil
  · cases b with
    | nil => exact alike_inputErr h
    | cons c b =>
      simp only []
      split
      · exact alike_inputErr h
      · cases h with
        | mapNil => exact alike_mapLoop flat_map hd hz .mapNil _ _ _ _ _ _ trivial
        | map h1 h2 => exact alike_mapLoop flat_map hd hz (.map h1 h2) _ _ _ _ _ _ (pts_entries.2 ⟨h1, h2⟩)

theorem alike_ptr {t : NTy} (p : Bool) (hd : Alike (Flat w env mem zs t) d d') (hz : Flat w env mem zs t z z') :
    Alike (Flat w env mem zs (.ptr t)) (decodePointer p d z) (decodePointer p d' z') := by
  have hm : ∀ {r r' : DRes}, AlikeRes (Flat w env mem zs t) r r' → AlikeRes (Flat w env mem zs (.ptr t)) (r.map .ptr) (r'.map .ptr) := by
    intro r r' h
    cases h with
    | crash => exact .crash _
    | ok r h => exact .ok _ (.ptr h)
    | err r e h => exact .err _ _ (.ptr h)
  intro b v u h
  unfold decodePointer
  cases h with
  | ptrNil =>
    simp only []
    split
    · exact .ok _ .ptrNil
    · exact hm (hd _ _ _ hz)
  | ptr h =>
    simp only []
    split
    · split
      · exact hm (hd _ _ _ h)
      · exact .ok _ .ptrNil
    · exact hm (hd _ _ _ h)
end

/-! ### Structs -/

/-- A variable of a struct type and the values of its promoted fields. -/
def FlatAt (R : Place → DV → DV → Prop) (zs : Nat → DV) (qs : List Place) (v : DV) (us : List DV) : Prop :=
  PromFlat zs qs v ∧ qs.length = us.length ∧ ∀ (i : Nat) (q : Place) (u : DV), qs[i]? = some q → us[i]? = some u → R q (look zs q.way q.idx v) u

theorem FlatAt.store {R : Place → DV → DV → Prop} {qs : List Place} {v : DV} {us : List DV} (h : FlatAt R zs qs v us) {i : Nat} {q : Place} (hq : qs[i]? = some q) {x u : DV}
    (hx : R q x u) : FlatAt R zs qs (store zs q.way q.idx x v) (us.set i u) := by
  obtain ⟨h1, h2, h3⟩ := h
  obtain ⟨s1, s2⟩ := h1.store hq x
  refine ⟨s1, by simpa using h2, ?_⟩
  intro j q' u' hq' hu'
  have := congrArg (·[j]?) s2
  simp only [flatten, List.getElem?_map, hq', Option.map_some, List.getElem?_set, List.length_map] at this
  rw [List.getElem?_set] at hu'
  by_cases hij : i = j
  · subst hij
    rw [hq] at hq'; cases hq'
    obtain ⟨hlt, _⟩ := List.getElem?_eq_some_iff.1 hq
    simp only [hlt, if_true, Option.some.injEq, show i < us.length by omega] at this hu'
    rw [this, ← hu']
    exact hx
  · simp only [hij, if_false, Option.some.injEq] at this hu'
    rw [this]
    exact h3 j q' u' hq' hu'

variable {c : DCfg} {names : List Bytes} {qs : List Place}

theorem alike_structLoop {R : Place → DV → DV → Prop} {decs decs' : Place → Dec} (hd : ∀ q ∈ qs, Alike (R q) (decs q) (decs' q)) {input : Bytes} :
    ∀ (n : Nat) (first : Bool) (v : DV) (us : List DV) (b : Bytes), v = .struct v.fields → FlatAt R zs qs v us →
    AlikeRes (fun v u => v = .struct v.fields ∧ ∃ us, u = .struct us ∧ FlatAt R zs qs v us) (structLoopV c names (qs.map fun q => intoPlace zs q (decs q)) input n first v b)
      (structLoopD c names (qs.map decs') input n first us b)
  | 0, _, _, _, _, _, _ => .crash _
  | n + 1, first, v, us, b, hv, h => by
    rw [structLoopV, structLoopD]
    simp only []
    split
    · exact .ok _ ⟨hv, us, rfl, h⟩
    · generalize memberKey _ first (skipSpaces b) = mk
      rcases mk with x | ⟨r, e⟩ | ⟨kv, b'⟩
      · exact .crash _
      · exact .err _ _ ⟨hv, us, rfl, h⟩
      · simp only []
        generalize pickField c names _ = pf
        cases pf with
        | none =>
          simp only []
          split
          · exact .err _ _ ⟨hv, us, rfl, h⟩
          · generalize parseValue b' = pv
            cases pv with
            | fail r e => exact .err _ _ ⟨hv, us, rfl, h⟩
            | ok x r => exact alike_structLoop hd n false v us _ hv h
        | some i =>
          simp only [List.getElem?_map]
          cases hq : qs[i]? with
          | none => exact .crash _
          | some q =>
            obtain ⟨hlt, _⟩ := List.getElem?_eq_some_iff.1 hq
            have hlen := h.2.1
            obtain ⟨u, hu⟩ : ∃ u, us[i]? = some u := ⟨us[i]'(by omega), List.getElem?_eq_getElem _⟩
            simp only [Option.map_some, intoPlace, h.1.free q (List.mem_of_getElem? hq), Bool.false_eq_true, if_false, List.getD, hu, Option.getD_some]
            have hs := hd q (List.mem_of_getElem? hq) b' _ _ (h.2.2 i q u hq hu)
            have hst : ∀ x, store zs q.way q.idx x v = .struct (store zs q.way q.idx x v).fields := by
              intro x
              match q.way with
              | [] => rfl
              | .struct _ :: _ => rfl
              | .ptr _ _ _ :: _ => rfl
            revert hs
            generalize decs q b' (look zs q.way q.idx v) = r1
            generalize decs' q b' u = r2
            intro hs
            cases hs with
            | crash x => exact .crash _
            | err r e hx =>
              simp only [DRes.map]
              cases parseValue input with
              | fail r e => exact .err _ _ ⟨hst _, _, rfl, h.store hq hx⟩
              | ok x r => exact .err _ _ ⟨hst _, _, rfl, h.store hq hx⟩
            | ok r hx =>
              simp only [DRes.map]
              exact alike_structLoop hd n false _ _ _ (hst _) (h.store hq hx)

theorem alike_struct {R : Place → DV → DV → Prop} {decs decs' : Place → Dec} (hd : ∀ q ∈ qs, Alike (R q) (decs q) (decs' q)) :
    Alike (fun v u => v = .struct v.fields ∧ ∃ us, u = .struct us ∧ FlatAt R zs qs v us) (decodeStructV c names (qs.map fun q => intoPlace zs q (decs q)))
      (decodeStruct c names (qs.map decs')) := by
  rintro b v u ⟨hv, us, rfl, h⟩
  unfold decodeStructV decodeStruct
  split
  · exact .ok _ ⟨hv, us, rfl, h⟩
  · cases b with
    | nil => exact alike_inputErr ⟨hv, us, rfl, h⟩
    | cons ch t =>
      simp only []
      split
      · exact alike_inputErr ⟨hv, us, rfl, h⟩
      · rw [← hv]
        exact alike_structLoop hd _ true v us _ hv h

/-! ### All types -/

/-- The struct types in a type. -/
def NTy.refs : NTy → List Nat
  | .base _ => []
  | .slice t | .array _ t | .map _ t | .ptr t => t.refs
  | .ref id => [id]

theorem alike_decWith {dyn : Ty → Dec} {S S' : Nat → Dec} {z z' : NTy → DV} {P : Nat → Prop} (hz : ∀ t, (∀ id ∈ t.refs, P id) → Flat w env mem zs t (z t) (z' t))
    (hs : ∀ id, P id → Alike (Flat w env mem zs (.ref id)) (S id) (S' id)) :
    ∀ t : NTy, (∀ id ∈ t.refs, P id) → Alike (Flat w env mem zs t) (decWith c dyn S z t) (decWith c dyn S' z' t)
  | .base t, _ => by
    intro b v u h
    cases h
    simp only [decWith]
    cases dec c dyn t b v with
    | crash x => exact .crash x
    | ok v r => exact .ok _ (.base _)
    | err v r e => exact .err _ _ (.base _)
  | .slice t, h => alike_slice (alike_decWith hz hs t h) (hz t h)
  | .array _ t, h => alike_array (alike_decWith hz hs t h) (hz t h)
  | .map _ t, h => alike_map (alike_decWith hz hs t h) (hz t h)
  | .ptr t, h => alike_ptr _ (alike_decWith hz hs t h) (hz t h)
  | .ref id, h => hs id (h id (by simp [NTy.refs]))

theorem openWay_free {zs : Nat → DV} : ∀ {hs : List Hop}, OpenWay hs → ∀ v, barred zs hs v = false
  | [], _, _ => rfl
  | .struct j :: hs, h, v => openWay_free (hs := hs) (fun j id hm => h j id (List.mem_cons_of_mem _ hm)) _
  | .ptr j u id :: hs, h, v => by
    have hu : u = false := by
      cases u with
      | false => rfl
      | true => exact absurd (List.mem_cons_self) (h j id)
    have ih := fun v => openWay_free (zs := zs) (hs := hs) (fun j id hm => h j id (List.mem_cons_of_mem _ hm)) v
    simp only [barred]
    split
    · exact ih _
    · simp [hu, ih]

/-- What is asked of the struct types in a set: different members are in different places, no pointer of unexported type is on the way, and the types
of the fields are of struct types in the set. -/
structure FlatOk (w : Decls) (env : PEnv) (mem : Nat → List (Bytes × List Nat)) (P : Nat → Prop) : Prop where
  led : ∀ id, P id → ∀ m ∈ mem id, ∃ q, place env id m.2 = some q
  apart : ∀ id, P id → ∀ (i j : Nat) (q q' : Place), i ≠ j → (places env mem id)[i]? = some q → (places env mem id)[j]? = some q' → ApartW q.way q.idx q'.way q'.idx
  clear : ∀ id, P id → ∀ q ∈ places env mem id, OpenWay q.way
  closed : ∀ id, P id → ∀ q ∈ places env mem id, ∀ id' ∈ (fieldReading w env.ty (option q.field)).refs, P id'

theorem flat_ref {id : Nat} {v u : DV} (P : Nat → Prop) (hp : P id) (ho : FlatOk w env mem P) : Flat w env mem zs (.ref id) v u ↔
    v = .struct v.fields ∧ ∃ us, u = .struct us ∧ FlatAt (fun q => Flat w env mem zs (fieldReading w env.ty (option q.field))) zs (places env mem id) v us := by
  constructor
  · intro h
    cases h with
    | struct h1 h2 h3 => exact ⟨rfl, _, rfl, ⟨ho.apart id hp, h1, fun q hq => openWay_free (ho.clear id hp q hq) _⟩, h2, h3⟩
  · rintro ⟨hv, us, rfl, h1, h2, h3⟩
    rw [hv] at h1 h3 ⊢
    exact .struct h1.fits h2 h3

theorem reading_flat (t : GT) : reading (flatDecls w env mem) (flatEnv env mem) t = reading w env.ty t := by
  have hk : ∀ k, keyReading (flatDecls w env mem) k = keyReading w k := fun _ => rfl
  have hb : ∀ m t x, byMethod (flatDecls w env mem) m t x = byMethod w m t x := fun _ _ _ => rfl
  induction t with
  | special s => rfl
  | basic k m => rfl
  | ifc m => rfl
  | array n e m ih => simp only [reading, ih, hb]
  | slice e m ih => simp only [reading, ih, hb]
  | map k e m ih => simp only [reading, ih, hb, hk]
  | ptr e ih => simp only [reading, ih]
  | struct id => rfl
  | other m => rfl

theorem fieldReading_flat (f : GT × Bool) : fieldReading (flatDecls w env mem) (flatEnv env mem) f = fieldReading w env.ty f := by
  unfold fieldReading
  rw [reading_flat]

/-- The fields of the flat types. -/
theorem flat_fields {P : Nat → Prop} (h : FlatOk w env mem P) {id : Nat} (hp : P id) :
    (envReading (flatDecls w env mem) (flatEnv env mem) id).map (·.1) = (mem id).map (·.1) ∧
    (envReading (flatDecls w env mem) (flatEnv env mem) id).map (·.2) = (places env mem id).map fun q => fieldReading w env.ty (option q.field) := by
  have hl := h.led id hp
  have e1 : ∀ l : List (Bytes × List Nat), (∀ m ∈ l, ∃ q, place env id m.2 = some q) → l.filterMap (fun m => (place env id m.2).map fun _ => m.1) = l.map (·.1) := by
    intro l hl
    induction l with
    | nil => rfl
    | cons m l ih =>
      obtain ⟨q, hq⟩ := hl m (by simp)
      simp [hq, ih (fun m hm => hl m (List.mem_cons_of_mem _ hm))]
  have e2 : ∀ l : List (Bytes × List Nat), (∀ m ∈ l, ∃ q, place env id m.2 = some q) → (l.filterMap (fun m => place env id m.2)).length = l.length := by
    intro l hl
    induction l with
    | nil => rfl
    | cons m l ih =>
      obtain ⟨q, hq⟩ := hl m (by simp)
      simp [hq, ih (fun m hm => hl m (List.mem_cons_of_mem _ hm))]
  have hn : (flatDecls w env mem).names id = (mem id).map (·.1) := e1 _ hl
  have hlen : (places env mem id).length = (mem id).length := e2 _ hl
  unfold envReading
  rw [hn]
  constructor
  · rw [List.map_fst_zip]
    simp [flatEnv, hlen]
  · rw [List.map_snd_zip]
    · simp [flatEnv, fieldReading_flat]
    · simp [flatEnv, hlen]

theorem alike_structS {dyn : Ty → Dec} {depth : Nat} {z : NTy → DV} {P : Nat → Prop} (ho : FlatOk w env mem P)
    (hz : ∀ t, (∀ id ∈ t.refs, P id) → Flat w env mem (fun id => z (.ref id)) t (z t) (zeroR (envReading (flatDecls w env mem) (flatEnv env mem)) depth t)) :
    ∀ (n id : Nat), P id → Alike (Flat w env mem (fun id => z (.ref id)) (.ref id)) (structS c dyn w env mem z n id)
      (structR c dyn (envReading (flatDecls w env mem) (flatEnv env mem)) depth n id)
  | 0, _, _ => fun _ _ _ _ => .crash _
  | n + 1, id, hp => by
    obtain ⟨f1, f2⟩ := flat_fields ho hp
    have e1 : ∀ (D : NTy → Dec), (envReading (flatDecls w env mem) (flatEnv env mem) id).map (fun f => D f.2) =
        (places env mem id).map fun q => D (fieldReading w env.ty (option q.field)) := by
      intro D
      have := congrArg (List.map D) f2
      simpa [List.map_map, Function.comp_def] using this
    have e2 : structS c dyn w env mem z (n + 1) id = decodeStructV c ((mem id).map (·.1))
        ((places env mem id).map fun q => intoPlace (fun id => z (.ref id)) q (decWith c dyn (structS c dyn w env mem z n) z (fieldReading w env.ty (option q.field)))) := by
      rw [structS]
      congr 1
      have hl := ho.led id hp
      unfold places
      revert hl
      generalize mem id = l
      intro hl
      induction l with
      | nil => rfl
      | cons m l ih =>
        obtain ⟨q, hq⟩ := hl m (by simp)
        simp only [List.map_cons, hq, List.filterMap_cons, ih (fun m hm => hl m (List.mem_cons_of_mem _ hm))]
    rw [e2, structR, f1, e1]
    intro b v u h
    rw [flat_ref P hp ho] at h
    have := alike_struct (c := c) (names := (mem id).map (·.1)) (zs := fun id => z (.ref id)) (qs := places env mem id)
      (R := fun q => Flat w env mem (fun id => z (.ref id)) (fieldReading w env.ty (option q.field)))
      (decs := fun q => decWith c dyn (structS c dyn w env mem z n) z (fieldReading w env.ty (option q.field)))
      (decs' := fun q => decWith c dyn (structR c dyn (envReading (flatDecls w env mem) (flatEnv env mem)) depth n)
        (zeroR (envReading (flatDecls w env mem) (flatEnv env mem)) depth) (fieldReading w env.ty (option q.field)))
      (fun q hq => alike_decWith hz (fun id hid => alike_structS ho hz n id hid) _ (ho.closed id hp q hq)) b v u h
    revert this
    generalize decodeStructV c _ _ b v = r1
    generalize decodeStruct c _ _ b u = r2
    intro this
    cases this with
    | crash x => exact .crash x
    | ok r h => exact .ok _ ((flat_ref P hp ho).2 h)
    | err r e h => exact .err _ _ ((flat_ref P hp ho).2 h)

end JC
