import Verif.Lemmas.DecLoop
/-! Agreement of the decoders of maps and structs with the tree-level decoders. -/
namespace JC
open Spec Props

theorem jstring_skip {k : Bytes} (h : JString k) (r : Bytes) : skipSpaces (k ++ r) = k ++ r := by
  obtain ⟨t, rfl⟩ := jstring_head h
  exact skipSpaces_cons_of_not (by decide)

theorem memberKey_ok {key : Bytes → DRes} {k w T : Bytes} {d : DV} (hk : JString k) (hw : Ws w)
    (e : key (k ++ (w ++ 0x3a :: T)) = .ok d (w ++ 0x3a :: T)) :
    memberKey key true (k ++ (w ++ 0x3a :: T)) = .inr (.inr (d, skipSpaces T)) := by
  unfold memberKey
  have : hasNullPrefix (k ++ (w ++ 0x3a :: T)) = false := by
    obtain ⟨t, rfl⟩ := jstring_head hk; exact hasNull_cons (by decide)
  simp only [if_true, this, Bool.false_eq_true, if_false, e]
  rw [skip_ws_cons hw (by decide)]
  simp

theorem memberKey_no {key : Bytes → DRes} {b : Bytes} (h : ∀ x r, key b ≠ .ok x r) (q : DV × Bytes) :
    memberKey key true b ≠ .inr (.inr q) := by
  unfold memberKey
  simp only [if_true]
  split
  · simp
  · split
    · simp
    · simp
    · rename_i e; exact absurd e (h _ _)

theorem memberKey_comma (key : Bytes → DRes) (b : Bytes) : memberKey key false (0x2c :: b) = memberKey key true (skipSpaces b) := by
  simp [memberKey]

/-! ### maps -/

def mapMember (k : KTy) (dec : Dec) (z p : DV) (fresh : Bool) (input : Bytes) (n : Nat) (m : List (MK × DV)) (b : Bytes) : DRes :=
  match memberKey (decodeKey k) true b with
  | .inl c => .crash c
  | .inr (.inl (r, e)) => .err (if fresh then p else .map m) r e
  | .inr (.inr (kv, b)) =>
    match dec b z with
    | .crash c => .crash c
    | .err _ _ e =>
      match parseValue input with
      | .fail r e2 => .err (if fresh then p else .map m) r e2
      | .ok _ r => .err (if fresh then p else .map m) r e
    | .ok v r => mapLoopD k dec z p fresh input n false (mapSet (keyOf kv) v m) r

section
variable {k : KTy} {dec : Dec} {z p : DV} {fresh : Bool} {input : Bytes} {n : Nat} {m : List (MK × DV)}

theorem mapLoopD_close {first : Bool} {b r : Bytes} (h : skipSpaces b = 0x7d :: r) :
    mapLoopD k dec z p fresh input (n + 1) first m b = .ok (.map m) r := by
  rw [mapLoopD]; simp only [h]; simp

theorem mapLoopD_comma {b t : Bytes} (h : skipSpaces b = 0x2c :: t) :
    mapLoopD k dec z p fresh input (n + 1) false m b = mapMember k dec z p fresh input n m (skipSpaces t) := by
  rw [mapLoopD, mapMember]; simp only [h]
  rw [if_neg (by simp), memberKey_comma]
  rfl

theorem mapLoopD_first {b : Bytes} (h : (skipSpaces b).head? ≠ some 0x7d) :
    mapLoopD k dec z p fresh input (n + 1) true m b = mapMember k dec z p fresh input n m (skipSpaces b) := by
  rw [mapLoopD, mapMember]
  simp only []
  rw [if_neg h]
  rfl

theorem mapLoopD_skip {first : Bool} {b b' : Bytes} (h : skipSpaces b = skipSpaces b') :
    mapLoopD k dec z p fresh input n first m b = mapLoopD k dec z p fresh input n first m b' := by
  cases n with
  | zero => rfl
  | succ n => rw [mapLoopD, mapLoopD]; simp only [h]

theorem mapMember_key {b : Bytes} (h : ∀ q, memberKey (decodeKey k) true b ≠ .inr (.inr q)) :
    ∀ x r, mapMember k dec z p fresh input n m b ≠ .ok x r := by
  intro x r
  unfold mapMember
  split
  · simp
  · simp
  · rename_i e; exact absurd e (h _)

theorem mapMember_none {b b' : Bytes} {kv : DV} (h : memberKey (decodeKey k) true b = .inr (.inr (kv, b')))
    (hn : ∀ x r, dec b' z ≠ .ok x r) : ∀ x r, mapMember k dec z p fresh input n m b ≠ .ok x r := by
  intro x r
  unfold mapMember
  rw [h]
  simp only []
  split
  · simp
  · split <;> simp
  · rename_i e; exact absurd e (hn _ _)
end

theorem map_members {P : DV → Prop} {N : Nat} {dec : Dec} {f : JDec} {z : DV} (hd : RefP P N dec f) (hz : P z) (k : KTy)
    (p : DV) (fresh : Bool) (input : Bytes) :
    ∀ (ms : List (Bytes × Json)) (u : Bytes), Derives (.members ms) u → u.length < N → ∀ (m : List (MK × DV)) (n : Nat) (r : Bytes), u.length < n →
      (∀ x, mapJ k f z ms m = some x → mapMember k dec z p fresh input n m (skipSpaces (u ++ 0x7d :: r)) = .ok (.map x) r) ∧
      (mapJ k f z ms m = none → ∀ x r', mapMember k dec z p fresh input n m (skipSpaces (u ++ 0x7d :: r)) ≠ .ok x r') := by
  intro ms
  induction ms with
  | nil => intro u h; cases h
  | cons kj ms ih =>
    intro u h hN m n r hn
    obtain ⟨raw, j⟩ := kj
    obtain ⟨n, rfl⟩ : ∃ k, n = k + 1 := ⟨n - 1, by omega⟩
    have step : ∀ w1 w2 w3 b T, Ws w1 → JString raw → Ws w2 → Ws w3 → Derives (.value j) b → b.length < N → NumStop T →
        (∀ kv x, keyJ k raw = some kv → f j z = some x →
          mapMember k dec z p fresh input (n + 1) m (skipSpaces (w1 ++ (raw ++ (w2 ++ 0x3a :: (w3 ++ (b ++ T)))))) =
            mapLoopD k dec z p fresh input (n + 1) false (mapSet kv x m) T) ∧
        (keyJ k raw = none ∨ f j z = none → ∀ x r', mapMember k dec z p fresh input (n + 1) m
          (skipSpaces (w1 ++ (raw ++ (w2 ++ 0x3a :: (w3 ++ (b ++ T)))))) ≠ .ok x r') := by
      intro w1 w2 w3 b T hw1 hk hw2 hw3 hj hb hT
      rw [skipSpaces_ws_append hw1, jstring_skip hk]
      obtain ⟨k1, k2⟩ := decodeKey_app hk k (w2 ++ 0x3a :: (w3 ++ (b ++ T)))
      obtain ⟨h1, h2⟩ := hd j b hj hb T (follow_of_numStop hT) z hz
      constructor
      · intro kv x hkv hx
        obtain ⟨d, ek, rfl⟩ := k1 kv hkv
        obtain ⟨_, r', e, hr⟩ := h1 x hx
        rw [mapMember, memberKey_ok hk hw2 ek, skip_ws_value hw3 hj, ]
        simp only [e]
        exact mapLoopD_skip (skip_or hr)
      · intro hx
        cases hkv : keyJ k raw with
        | none => exact mapMember_key (memberKey_no (k2 hkv))
        | some kv =>
          rw [hkv] at hx
          simp only [reduceCtorEq, false_or] at hx
          obtain ⟨d, ek, rfl⟩ := k1 kv hkv
          have := memberKey_ok hk hw2 ek
          rw [skip_ws_value hw3 hj] at this
          exact mapMember_none this (h2 hx)
    cases h with
    | memOne w1 w2 w3 w4 _ _ b hw1 hw2 hw3 hw4 hk hj =>
      have e : w1 ++ raw ++ w2 ++ 0x3a :: (w3 ++ b ++ w4) ++ 0x7d :: r =
          w1 ++ (raw ++ (w2 ++ 0x3a :: (w3 ++ (b ++ (w4 ++ 0x7d :: r))))) := by simp
      simp only [List.length_append, List.length_cons] at hN
      obtain ⟨s1, s2⟩ := step w1 w2 w3 b (w4 ++ 0x7d :: r) hw1 hk hw2 hw3 hj (by omega) (numStop_ws_cons hw4 (by simp))
      rw [e]
      simp only [mapJ]
      cases hkv : keyJ k raw with
      | none => exact ⟨by simp, fun _ => s2 (.inl hkv)⟩
      | some kv =>
        cases hf : f j z with
        | none => exact ⟨by simp, fun _ => s2 (.inr hf)⟩
        | some x =>
          rw [s1 kv x hkv hf, mapLoopD_close (skip_ws_cons hw4 (by decide) r)]
          simp
    | memCons w1 w2 w3 w4 _ _ b _ bs hw1 hw2 hw3 hw4 hk hj hbs =>
      have e : w1 ++ raw ++ w2 ++ 0x3a :: (w3 ++ b ++ w4 ++ 0x2c :: bs) ++ 0x7d :: r =
          w1 ++ (raw ++ (w2 ++ 0x3a :: (w3 ++ (b ++ (w4 ++ 0x2c :: (bs ++ 0x7d :: r)))))) := by simp
      simp only [List.length_append, List.length_cons] at hN hn
      obtain ⟨s1, s2⟩ := step w1 w2 w3 b (w4 ++ 0x2c :: (bs ++ 0x7d :: r)) hw1 hk hw2 hw3 hj (by omega) (numStop_ws_cons hw4 (by simp))
      rw [e]
      simp only [mapJ]
      cases hkv : keyJ k raw with
      | none => exact ⟨by simp, fun _ => s2 (.inl hkv)⟩
      | some kv =>
        cases hf : f j z with
        | none => exact ⟨by simp, fun _ => s2 (.inr hf)⟩
        | some x =>
          rw [s1 kv x hkv hf, mapLoopD_comma (skip_ws_cons hw4 (by decide) _)]
          exact ih bs hbs (by omega) (mapSet kv x m) n r (by omega)

def mapMem : DV → List (MK × DV)
  | .map m => m
  | _ => []

theorem map_ref {P : DV → Prop} {N : Nat} {dec : Dec} {f : JDec} {z : DV} (hd : RefP P N dec f) (hz : P z)
    (PS : DV → Prop) (hnil : PS .mapNil) (hs : ∀ m, PS (.map m)) (k : KTy) :
    RefP PS (N + 1) (decodeMap k dec z) (mapTyJ k f z) := by
  intro j v hj hN r hf p hp
  have hnp := hasNull_value hj r
  have other : ∀ c t, v = c :: t → c ≠ 0x7b → isNullJ j = false → ∀ x r', decodeMap k dec z (v ++ r) p ≠ .ok x r' := by
    intro c t e hc hn x r'
    unfold decodeMap
    rw [hnp, hn]
    simp only [Bool.false_eq_true, if_false]
    rw [e]
    simp only [List.cons_append]
    rw [if_pos (.inr hc)]
    exact inputErr_ne
  have open_ : ∀ u, v = 0x7b :: (u ++ [0x7d]) → isNullJ j = false → ∃ fresh, decodeMap k dec z (v ++ r) p =
      mapLoopD k dec z p fresh (v ++ r) ((v ++ r).length + 1) true (mapMem p) (u ++ 0x7d :: r) := by
    intro u e hn
    unfold decodeMap
    rw [hnp, hn]
    simp only [Bool.false_eq_true, if_false]
    rw [e]
    simp only [List.cons_append, List.append_assoc, List.nil_append]
    rw [if_neg (by simp; omega)]
    cases p
    case map m => exact ⟨false, rfl⟩
    all_goals exact ⟨true, rfl⟩
  have ej : ∀ ms, mapTyJ k f z (.obj ms) p = (mapJ k f z ms (mapMem p)).map .map := by
    intro ms; cases p <;> rfl
  cases hj with
  | null =>
    refine ⟨?_, by simp [mapTyJ]⟩
    intro x hx
    simp only [mapTyJ, Option.some.injEq] at hx
    subst hx
    refine ⟨hnil, r, ?_, .inl rfl⟩
    unfold decodeMap
    rw [hnp]; simp [isNullJ]
  | num s hs' =>
    obtain ⟨c, t, e, hc⟩ := jnumber_head hs'
    exact ⟨by simp [mapTyJ], fun _ => other c t e (digit_range hc).2.2.2.2.2.1 rfl⟩
  | str s hs' =>
    obtain ⟨t, e⟩ := jstring_head hs'
    exact ⟨by simp [mapTyJ], fun _ => other _ t e (by decide) rfl⟩
  | tru => exact ⟨by simp [mapTyJ], fun _ => other _ _ rfl (by decide) rfl⟩
  | fls => exact ⟨by simp [mapTyJ], fun _ => other _ _ rfl (by decide) rfl⟩
  | arrNil => exact ⟨by simp [mapTyJ], fun _ => other _ _ rfl (by decide) rfl⟩
  | arr => exact ⟨by simp [mapTyJ], fun _ => other _ _ rfl (by decide) rfl⟩
  | objNil w hw =>
    obtain ⟨fresh, e⟩ := open_ w rfl rfl
    rw [e, mapLoopD_close (skip_ws_cons hw (by decide) r), ej]
    simp only [mapJ, Option.map_some, Option.some.injEq, reduceCtorEq, false_implies, and_true]
    rintro x rfl
    exact ⟨hs _, r, rfl, .inl rfl⟩
  | obj ms b hb =>
    obtain ⟨fresh, e⟩ := open_ b rfl rfl
    obtain ⟨t, eh⟩ := derives_members_head hb (0x7d :: r)
    rw [e, mapLoopD_first (by rw [eh]; simp), ej]
    simp only [List.length_cons, List.length_append] at hN
    obtain ⟨k1, k2⟩ := map_members hd hz k p fresh (0x7b :: (b ++ [0x7d]) ++ r) ms b hb (by simp at hN; omega) (mapMem p)
      (0x7b :: (b ++ [0x7d]) ++ r).length r (by simp; omega)
    cases hm : mapJ k f z ms (mapMem p) with
    | none => exact ⟨by simp, fun _ => k2 hm⟩
    | some y =>
      rw [k1 y hm]
      simp only [Option.map_some, Option.some.injEq, reduceCtorEq, false_implies, and_true]
      rintro x rfl
      exact ⟨hs _, r, rfl, .inl rfl⟩

/-! ### structs -/

def fieldKey (b : Bytes) : DRes := match parseStringUnquote b [] with
  | .panic => .crash .panic
  | .fail r e => .err (.string []) r e
  | .ok s r _ => .ok (.string s) r

def structField (c : DCfg) (names : List Bytes) (decs : List Dec) (input : Bytes) (n : Nat) (fs : List DV) (k b : Bytes) : DRes :=
  match pickField c names k with
  | none =>
    if c.disallowUnknown then .err (.struct fs) b (.other 2)
    else match parseValue b with
      | .fail r e => .err (.struct fs) r e
      | .ok _ r => structLoopD c names decs input n false fs r
  | some i =>
    match decs[i]? with
    | none => .crash .panic
    | some dec =>
      match dec b (fs.getD i (.user none)) with
      | .crash c => .crash c
      | .err x _ e =>
        match parseValue input with
        | .fail r e2 => .err (.struct (fs.set i x)) r e2
        | .ok _ r => .err (.struct (fs.set i x)) r e
      | .ok x r => structLoopD c names decs input n false (fs.set i x) r

def structMember (c : DCfg) (names : List Bytes) (decs : List Dec) (input : Bytes) (n : Nat) (fs : List DV) (b : Bytes) : DRes :=
  match memberKey fieldKey true b with
  | .inl c => .crash c
  | .inr (.inl (r, e)) => .err (.struct fs) r e
  | .inr (.inr (kv, b)) => structField c names decs input n fs (match kv with | .string s => s | _ => []) b

section
variable {c : DCfg} {names : List Bytes} {decs : List Dec} {input : Bytes} {n : Nat} {fs : List DV}

theorem structLoopD_succ {first : Bool} {b : Bytes} :
    structLoopD c names decs input (n + 1) first fs b =
      if (skipSpaces b).head? = some 0x7d then .ok (.struct fs) (skipSpaces b).tail
      else match memberKey fieldKey first (skipSpaces b) with
        | .inl c => .crash c
        | .inr (.inl (r, e)) => .err (.struct fs) r e
        | .inr (.inr (kv, b)) => structField c names decs input n fs (match kv with | .string s => s | _ => []) b := by
  rw [structLoopD]; rfl

theorem structLoopD_close {first : Bool} {b r : Bytes} (h : skipSpaces b = 0x7d :: r) :
    structLoopD c names decs input (n + 1) first fs b = .ok (.struct fs) r := by
  rw [structLoopD_succ, h]; simp

theorem structLoopD_comma {b t : Bytes} (h : skipSpaces b = 0x2c :: t) :
    structLoopD c names decs input (n + 1) false fs b = structMember c names decs input n fs (skipSpaces t) := by
  rw [structLoopD_succ, structMember, h, memberKey_comma]
  rw [if_neg (by simp)]

theorem structLoopD_first {b : Bytes} (h : (skipSpaces b).head? ≠ some 0x7d) :
    structLoopD c names decs input (n + 1) true fs b = structMember c names decs input n fs (skipSpaces b) := by
  rw [structLoopD_succ, structMember, if_neg h]

theorem structLoopD_skip {first : Bool} {b b' : Bytes} (h : skipSpaces b = skipSpaces b') :
    structLoopD c names decs input n first fs b = structLoopD c names decs input n first fs b' := by
  cases n with
  | zero => rfl
  | succ n => rw [structLoopD_succ, structLoopD_succ, h]

theorem structMember_ok {k w T : Bytes} (hk : JString k) (hw : Ws w) :
    structMember c names decs input n fs (k ++ (w ++ 0x3a :: T)) = structField c names decs input n fs (unq k) (skipSpaces T) := by
  obtain ⟨nn, e⟩ := unquote_ok hk (w ++ 0x3a :: T)
  have : fieldKey (k ++ (w ++ 0x3a :: T)) = .ok (.string (unq k)) (w ++ 0x3a :: T) := by
    unfold fieldKey; rw [e]
  rw [structMember, memberKey_ok hk hw this]
end

/-- one decoder per field on both sides -/
def RefL (P : DV → Prop) (N : Nat) (decs : List Dec) (fs : List JDec) : Prop :=
  ∀ i : Nat, (decs[i]? = none ∧ fs[i]? = none) ∨ ∃ d f, decs[i]? = some d ∧ fs[i]? = some f ∧ RefP P N d f

theorem mem_getD {P : DV → Prop} {l : List DV} {z : DV} {i : Nat} (hz : P z) (h : ∀ x ∈ l, P x) : P (l.getD i z) := by
  rw [List.getD_eq_getElem?_getD]
  cases e : l[i]? with
  | none => exact hz
  | some x => exact h x (List.mem_of_getElem? e)

theorem mem_set {P : DV → Prop} {l : List DV} {y : DV} {i : Nat} (hy : P y) (h : ∀ x ∈ l, P x) : ∀ x ∈ l.set i y, P x := by
  intro x hx
  rcases List.mem_or_eq_of_mem_set hx with hx | rfl
  · exact h x hx
  · exact hy

theorem struct_members {P : DV → Prop} {N : Nat} {decs : List Dec} {fs : List JDec} (hd : RefL P N decs fs) (hu : P (.user none))
    (c : DCfg) (names : List Bytes) (input : Bytes) :
    ∀ (ms : List (Bytes × Json)) (u : Bytes), Derives (.members ms) u → u.length < N → ∀ (cells : List DV) (n : Nat) (r : Bytes), u.length < n →
      (∀ x ∈ cells, P x) →
      (∀ x, structJ c names fs ms cells = some x → (∀ y ∈ x, P y) ∧
        structMember c names decs input n cells (skipSpaces (u ++ 0x7d :: r)) = .ok (.struct x) r) ∧
      (structJ c names fs ms cells = none → ∀ x r', structMember c names decs input n cells (skipSpaces (u ++ 0x7d :: r)) ≠ .ok x r') := by
  intro ms
  induction ms with
  | nil => intro u h; cases h
  | cons kj ms ih =>
    intro u h hN cells n r hn hcells
    obtain ⟨raw, j⟩ := kj
    obtain ⟨n, rfl⟩ : ∃ k, n = k + 1 := ⟨n - 1, by omega⟩
    have step : ∀ w1 w2 w3 b T, Ws w1 → JString raw → Ws w2 → Ws w3 → Derives (.value j) b → b.length < N → NumStop T →
        ((∃ cells', (∀ y ∈ cells', P y) ∧ structJ c names fs ((raw, j) :: ms) cells = structJ c names fs ms cells' ∧
          structMember c names decs input (n + 1) cells (skipSpaces (w1 ++ (raw ++ (w2 ++ 0x3a :: (w3 ++ (b ++ T)))))) =
            structLoopD c names decs input (n + 1) false cells' T) ∨
        (structJ c names fs ((raw, j) :: ms) cells = none ∧ ∀ x r', structMember c names decs input (n + 1) cells
          (skipSpaces (w1 ++ (raw ++ (w2 ++ 0x3a :: (w3 ++ (b ++ T)))))) ≠ .ok x r')) := by
      intro w1 w2 w3 b T hw1 hk hw2 hw3 hj hb hT
      rw [skipSpaces_ws_append hw1, jstring_skip hk, structMember_ok hk hw2, skip_ws_value hw3 hj]
      simp only [structJ, structField]
      cases pickField c names (unq raw) with
      | none =>
        cases c.disallowUnknown with
        | true => right; simp
        | false =>
          left
          rw [parseValue_complete hj (follow_of_numStop hT)]
          exact ⟨cells, hcells, rfl, rfl⟩
      | some i =>
        rcases hd i with ⟨e1, e2⟩ | ⟨d, f, e1, e2, hr⟩
        · right; simp [e1, e2]
        · obtain ⟨h1, h2⟩ := hr j b hj hb T (follow_of_numStop hT) (cells.getD i (.user none)) (mem_getD hu hcells)
          simp only [e1, e2]
          cases hf : f j (cells.getD i (.user none)) with
          | some x =>
            left
            obtain ⟨hp, r', e, hrr⟩ := h1 x hf
            refine ⟨cells.set i x, mem_set hp hcells, rfl, ?_⟩
            simp only [e]
            exact structLoopD_skip (skip_or hrr)
          | none =>
            right
            refine ⟨rfl, ?_⟩
            intro x r'
            split
            · simp
            · split <;> simp
            · rename_i e; exact absurd e (h2 hf _ _)
    cases h with
    | memOne w1 w2 w3 w4 _ _ b hw1 hw2 hw3 hw4 hk hj =>
      have e : w1 ++ raw ++ w2 ++ 0x3a :: (w3 ++ b ++ w4) ++ 0x7d :: r =
          w1 ++ (raw ++ (w2 ++ 0x3a :: (w3 ++ (b ++ (w4 ++ 0x7d :: r))))) := by simp
      simp only [List.length_append, List.length_cons] at hN
      rw [e]
      rcases step w1 w2 w3 b (w4 ++ 0x7d :: r) hw1 hk hw2 hw3 hj (by omega) (numStop_ws_cons hw4 (by simp)) with
        ⟨cells', hc', ej, es⟩ | ⟨ej, es⟩
      · rw [ej, es, structLoopD_close (skip_ws_cons hw4 (by decide) r)]
        simp only [structJ, Option.some.injEq, reduceCtorEq, false_implies, and_true]
        rintro x rfl
        exact ⟨hc', rfl⟩
      · rw [ej]
        exact ⟨by simp, fun _ => es⟩
    | memCons w1 w2 w3 w4 _ _ b _ bs hw1 hw2 hw3 hw4 hk hj hbs =>
      have e : w1 ++ raw ++ w2 ++ 0x3a :: (w3 ++ b ++ w4 ++ 0x2c :: bs) ++ 0x7d :: r =
          w1 ++ (raw ++ (w2 ++ 0x3a :: (w3 ++ (b ++ (w4 ++ 0x2c :: (bs ++ 0x7d :: r)))))) := by simp
      simp only [List.length_append, List.length_cons] at hN hn
      rw [e]
      rcases step w1 w2 w3 b (w4 ++ 0x2c :: (bs ++ 0x7d :: r)) hw1 hk hw2 hw3 hj (by omega) (numStop_ws_cons hw4 (by simp)) with
        ⟨cells', hc', ej, es⟩ | ⟨ej, es⟩
      · rw [ej, es, structLoopD_comma (skip_ws_cons hw4 (by decide) _)]
        exact ih bs hbs (by omega) cells' n r (by omega) hc'
      · rw [ej]
        exact ⟨by simp, fun _ => es⟩

def structMem : DV → List DV
  | .struct fs => fs
  | _ => []

theorem struct_ref {P : DV → Prop} {N : Nat} {decs : List Dec} {fs : List JDec} (hd : RefL P N decs fs) (hu : P (.user none))
    (PS : DV → Prop) (hs : ∀ d, PS (.struct d) ↔ ∀ y ∈ d, P y) (c : DCfg) (names : List Bytes) :
    RefP PS (N + 1) (decodeStruct c names decs) (structTyJ c names fs) := by
  intro j v hj hN r hf p hp
  have hnp := hasNull_value hj r
  have hmem : ∀ x ∈ structMem p, P x := by
    cases p <;> simp [structMem]
    case struct xs => exact (hs _).1 hp
  have other : ∀ ch t, v = ch :: t → ch ≠ 0x7b → isNullJ j = false → ∀ x r', decodeStruct c names decs (v ++ r) p ≠ .ok x r' := by
    intro ch t e hc hn x r'
    unfold decodeStruct
    rw [hnp, hn]
    simp only [Bool.false_eq_true, if_false]
    rw [e]
    simp only [List.cons_append]
    rw [if_pos (.inr hc)]
    exact inputErr_ne
  have open_ : ∀ u, v = 0x7b :: (u ++ [0x7d]) → isNullJ j = false → decodeStruct c names decs (v ++ r) p =
      structLoopD c names decs (v ++ r) ((v ++ r).length + 1) true (structMem p) (u ++ 0x7d :: r) := by
    intro u e hn
    unfold decodeStruct
    rw [hnp, hn]
    simp only [Bool.false_eq_true, if_false]
    rw [e]
    simp only [List.cons_append, List.append_assoc, List.nil_append]
    rw [if_neg (by simp; omega)]
    cases p <;> rfl
  have ej : ∀ ms, structTyJ c names fs (.obj ms) p = (structJ c names fs ms (structMem p)).map .struct := by
    intro ms; cases p <;> rfl
  cases hj with
  | null =>
    refine ⟨?_, by simp [structTyJ]⟩
    intro x hx
    simp only [structTyJ, Option.some.injEq] at hx
    subst hx
    refine ⟨hp, r, ?_, .inl rfl⟩
    unfold decodeStruct
    rw [hnp]; simp [isNullJ]
  | num s hs' =>
    obtain ⟨c, t, e, hc⟩ := jnumber_head hs'
    exact ⟨by simp [structTyJ], fun _ => other c t e (digit_range hc).2.2.2.2.2.1 rfl⟩
  | str s hs' =>
    obtain ⟨t, e⟩ := jstring_head hs'
    exact ⟨by simp [structTyJ], fun _ => other _ t e (by decide) rfl⟩
  | tru => exact ⟨by simp [structTyJ], fun _ => other _ _ rfl (by decide) rfl⟩
  | fls => exact ⟨by simp [structTyJ], fun _ => other _ _ rfl (by decide) rfl⟩
  | arrNil => exact ⟨by simp [structTyJ], fun _ => other _ _ rfl (by decide) rfl⟩
  | arr => exact ⟨by simp [structTyJ], fun _ => other _ _ rfl (by decide) rfl⟩
  | objNil w hw =>
    rw [open_ w rfl rfl, structLoopD_close (skip_ws_cons hw (by decide) r), ej]
    simp only [structJ, Option.map_some, Option.some.injEq, reduceCtorEq, false_implies, and_true]
    rintro x rfl
    exact ⟨(hs _).2 hmem, r, rfl, .inl rfl⟩
  | obj ms b hb =>
    obtain ⟨t, eh⟩ := derives_members_head hb (0x7d :: r)
    rw [open_ b rfl rfl, structLoopD_first (by rw [eh]; simp), ej]
    simp only [List.length_cons, List.length_append] at hN
    obtain ⟨k1, k2⟩ := struct_members hd hu c names (0x7b :: (b ++ [0x7d]) ++ r) ms b hb (by simp at hN; omega) (structMem p)
      (0x7b :: (b ++ [0x7d]) ++ r).length r (by simp; omega) hmem
    cases hm : structJ c names fs ms (structMem p) with
    | none => exact ⟨by simp, fun _ => k2 hm⟩
    | some y =>
      obtain ⟨hy, e⟩ := k1 y hm
      rw [e]
      simp only [Option.map_some, Option.some.injEq, reduceCtorEq, false_implies, and_true]
      rintro x rfl
      exact ⟨(hs _).2 hy, r, rfl, .inl rfl⟩

end JC
