import Verif.Lemmas.DurKey
/-!
The members of an object that is decoded into a map with keys of type `time.Duration`, as for the other
key types in `Lemmas/DecMap.lean`.
-/
namespace JC
open Spec Props

/-- `kj` is the key that `key` reads from a string. -/
def KeyRef (key : Bytes → DRes) (kj : Bytes → Option MK) : Prop := ∀ raw, JString raw → ∀ r,
  (∀ kv, kj raw = some kv → ∃ d, key (raw ++ r) = .ok d r ∧ keyOf d = kv) ∧ (kj raw = none → ∀ x r', key (raw ++ r) ≠ .ok x r')

/-- What the members do to the entries. -/
def mapByJ (kj : Bytes → Option MK) (f : JDec) (z : DV) : List (Bytes × Json) → List (MK × DV) → Option (List (MK × DV))
  | [], m => some m
  | (raw, j) :: ms, m =>
    match kj raw with
    | none => none
    | some kv => match f j z with
      | none => none
      | some v => mapByJ kj f z ms (mapSet kv v m)

/-- A member of the loop, from its key on. -/
def mapMemberBy (key : Bytes → DRes) (dec : Dec) (z p : DV) (fresh : Bool) (input : Bytes) (n : Nat) (m : List (MK × DV)) (b : Bytes) : DRes :=
  match memberKey key true b with
  | .inl c => .crash c
  | .inr (.inl (r, e)) => .err (if fresh then p else .map m) r e
  | .inr (.inr (kv, b)) =>
    match dec b z with
    | .crash c => .crash c
    | .err _ _ e =>
      match parseValue input with
      | .fail r e2 => .err (if fresh then p else .map m) r e2
      | .ok _ r => .err (if fresh then p else .map m) r e
    | .ok v r => mapLoopBy key dec z p fresh input n false (mapSet (keyOf kv) v m) r

section
variable {key : Bytes → DRes} {dec : Dec} {z p : DV} {fresh : Bool} {input : Bytes} {n : Nat} {m : List (MK × DV)}

theorem mapLoopBy_close {first : Bool} {b r : Bytes} (h : skipSpaces b = 0x7d :: r) :
    mapLoopBy key dec z p fresh input (n + 1) first m b = .ok (.map m) r := by
  rw [mapLoopBy]; simp only [h]; simp

theorem mapLoopBy_comma {b t : Bytes} (h : skipSpaces b = 0x2c :: t) :
    mapLoopBy key dec z p fresh input (n + 1) false m b = mapMemberBy key dec z p fresh input n m (skipSpaces t) := by
  rw [mapLoopBy, mapMemberBy]; simp only [h]
  rw [if_neg (by simp), memberKey_comma]
  rfl

theorem mapLoopBy_first {b : Bytes} (h : (skipSpaces b).head? ≠ some 0x7d) :
    mapLoopBy key dec z p fresh input (n + 1) true m b = mapMemberBy key dec z p fresh input n m (skipSpaces b) := by
  rw [mapLoopBy, mapMemberBy]
  simp only []
  rw [if_neg h]
  rfl

theorem mapLoopBy_skip {first : Bool} {b b' : Bytes} (h : skipSpaces b = skipSpaces b') :
    mapLoopBy key dec z p fresh input n first m b = mapLoopBy key dec z p fresh input n first m b' := by
  cases n with
  | zero => rfl
  | succ n => rw [mapLoopBy, mapLoopBy]; simp only [h]

theorem mapMemberBy_key {b : Bytes} (h : ∀ q, memberKey key true b ≠ .inr (.inr q)) :
    ∀ x r, mapMemberBy key dec z p fresh input n m b ≠ .ok x r := by
  intro x r
  unfold mapMemberBy
  split
  · simp
  · simp
  · rename_i e; exact absurd e (h _)

theorem mapMemberBy_none {b b' : Bytes} {kv : DV} (h : memberKey key true b = .inr (.inr (kv, b')))
    (hn : ∀ x r, dec b' z ≠ .ok x r) : ∀ x r, mapMemberBy key dec z p fresh input n m b ≠ .ok x r := by
  intro x r
  unfold mapMemberBy
  rw [h]
  simp only []
  split
  · simp
  · split <;> simp
  · rename_i e; exact absurd e (hn _ _)
end

theorem map_membersBy {P : DV → Prop} {N : Nat} {dec : Dec} {f : JDec} {z : DV} (hd : RefP P N dec f) (hz : P z) {key : Bytes → DRes} {kj : Bytes → Option MK} (hkj : KeyRef key kj)
    (p : DV) (fresh : Bool) (input : Bytes) :
    ∀ (ms : List (Bytes × Json)) (u : Bytes), Derives (.members ms) u → u.length < N → ∀ (m : List (MK × DV)) (n : Nat) (r : Bytes), u.length < n →
      (∀ x, mapByJ kj f z ms m = some x → mapMemberBy key dec z p fresh input n m (skipSpaces (u ++ 0x7d :: r)) = .ok (.map x) r) ∧
      (mapByJ kj f z ms m = none → ∀ x r', mapMemberBy key dec z p fresh input n m (skipSpaces (u ++ 0x7d :: r)) ≠ .ok x r') := by
  intro ms
  induction ms with
  | nil => intro u h; cases h
  | cons kj ms ih =>
    intro u h hN m n r hn
    obtain ⟨raw, j⟩ := kj
    obtain ⟨n, rfl⟩ : ∃ k, n = k + 1 := ⟨n - 1, by omega⟩
    have step : ∀ w1 w2 w3 b T, Ws w1 → JString raw → Ws w2 → Ws w3 → Derives (.value j) b → b.length < N → NumStop T →
        (∀ kv x, kj raw = some kv → f j z = some x →
          mapMemberBy key dec z p fresh input (n + 1) m (skipSpaces (w1 ++ (raw ++ (w2 ++ 0x3a :: (w3 ++ (b ++ T)))))) =
            mapLoopBy key dec z p fresh input (n + 1) false (mapSet kv x m) T) ∧
        (kj raw = none ∨ f j z = none → ∀ x r', mapMemberBy key dec z p fresh input (n + 1) m
          (skipSpaces (w1 ++ (raw ++ (w2 ++ 0x3a :: (w3 ++ (b ++ T)))))) ≠ .ok x r') := by
      intro w1 w2 w3 b T hw1 hk hw2 hw3 hj hb hT
      rw [skipSpaces_ws_append hw1, jstring_skip hk]
      obtain ⟨k1, k2⟩ := hkj raw hk (w2 ++ 0x3a :: (w3 ++ (b ++ T)))
      obtain ⟨h1, h2⟩ := hd j b hj hb T (follow_of_numStop hT) z hz
      constructor
      · intro kv x hkv hx
        obtain ⟨d, ek, rfl⟩ := k1 kv hkv
        obtain ⟨_, r', e, hr⟩ := h1 x hx
        rw [mapMemberBy, memberKey_ok hk hw2 ek, skip_ws_value hw3 hj, ]
        simp only [e]
        exact mapLoopBy_skip (skip_or hr)
      · intro hx
        cases hkv : kj raw with
        | none => exact mapMemberBy_key (memberKey_no (k2 hkv))
        | some kv =>
          rw [hkv] at hx
          simp only [reduceCtorEq, false_or] at hx
          obtain ⟨d, ek, rfl⟩ := k1 kv hkv
          have := memberKey_ok hk hw2 ek
          rw [skip_ws_value hw3 hj] at this
          exact mapMemberBy_none this (h2 hx)
    cases h with
    | memOne w1 w2 w3 w4 _ _ b hw1 hw2 hw3 hw4 hk hj =>
      have e : w1 ++ raw ++ w2 ++ 0x3a :: (w3 ++ b ++ w4) ++ 0x7d :: r =
          w1 ++ (raw ++ (w2 ++ 0x3a :: (w3 ++ (b ++ (w4 ++ 0x7d :: r))))) := by simp
      simp only [List.length_append, List.length_cons] at hN
      obtain ⟨s1, s2⟩ := step w1 w2 w3 b (w4 ++ 0x7d :: r) hw1 hk hw2 hw3 hj (by omega) (numStop_ws_cons hw4 (by simp))
      rw [e]
      simp only [mapByJ]
      cases hkv : kj raw with
      | none => exact ⟨by simp, fun _ => s2 (.inl hkv)⟩
      | some kv =>
        cases hf : f j z with
        | none => exact ⟨by simp, fun _ => s2 (.inr hf)⟩
        | some x =>
          rw [s1 kv x hkv hf, mapLoopBy_close (skip_ws_cons hw4 (by decide) r)]
          simp
    | memCons w1 w2 w3 w4 _ _ b _ bs hw1 hw2 hw3 hw4 hk hj hbs =>
      have e : w1 ++ raw ++ w2 ++ 0x3a :: (w3 ++ b ++ w4 ++ 0x2c :: bs) ++ 0x7d :: r =
          w1 ++ (raw ++ (w2 ++ 0x3a :: (w3 ++ (b ++ (w4 ++ 0x2c :: (bs ++ 0x7d :: r)))))) := by simp
      simp only [List.length_append, List.length_cons] at hN hn
      obtain ⟨s1, s2⟩ := step w1 w2 w3 b (w4 ++ 0x2c :: (bs ++ 0x7d :: r)) hw1 hk hw2 hw3 hj (by omega) (numStop_ws_cons hw4 (by simp))
      rw [e]
      simp only [mapByJ]
      cases hkv : kj raw with
      | none => exact ⟨by simp, fun _ => s2 (.inl hkv)⟩
      | some kv =>
        cases hf : f j z with
        | none => exact ⟨by simp, fun _ => s2 (.inr hf)⟩
        | some x =>
          rw [s1 kv x hkv hf, mapLoopBy_comma (skip_ws_cons hw4 (by decide) _)]
          exact ih bs hbs (by omega) (mapSet kv x m) n r (by omega)

theorem mapByJ_none {kj : Bytes → Option MK} {f : JDec} {z : DV} : ∀ (ms : List (Bytes × Json)) (m : List (MK × DV)),
    mapByJ kj f z ms m = none ↔ ∃ x ∈ ms, kj x.1 = none ∨ f x.2 z = none
  | [], m => by simp [mapByJ]
  | (raw, j) :: ms, m => by
    simp only [mapByJ]
    cases hk : kj raw with
    | none => simp [hk]
    | some kv =>
      cases hf : f j z with
      | none => simp [hf]
      | some v => simp [mapByJ_none ms, hk, hf]

theorem mapByJ_absent {kj : Bytes → Option MK} {f : JDec} {z : DV} {key : MK} : ∀ (ms : List (Bytes × Json)) (m x : List (MK × DV)),
    mapByJ kj f z ms m = some x → (∀ a ∈ ms, kj a.1 ≠ some key) → x.lookup key = m.lookup key
  | [], m, x, h, _ => by simp only [mapByJ, Option.some.injEq] at h; rw [h]
  | (raw, j) :: ms, m, x, h, ha => by
    simp only [mapByJ] at h
    split at h
    · simp at h
    · rename_i kv hk
      split at h
      · simp at h
      · rename_i v hv
        rw [mapByJ_absent ms _ x h (fun a hm => ha a (by simp [hm]))]
        refine lookup_mapSet ?_ m
        rintro rfl
        exact ha (raw, j) (by simp) hk

theorem mapByJ_last {kj : Bytes → Option MK} {f : JDec} {z : DV} {key : MK} {raw : Bytes} {j : Json} {ms2 : List (Bytes × Json)} (hk : kj raw = some key)
    (ha : ∀ a ∈ ms2, kj a.1 ≠ some key) : ∀ (ms1 : List (Bytes × Json)) (m x : List (MK × DV)),
    mapByJ kj f z (ms1 ++ (raw, j) :: ms2) m = some x → x.lookup key = f j z
  | [], m, x, h => by
    simp only [List.nil_append, mapByJ, hk] at h
    cases hf : f j z with
    | none => rw [hf] at h; simp at h
    | some v =>
      rw [hf] at h
      rw [mapByJ_absent ms2 _ x h ha, lookup_mapSet_self]
  | (raw1, j1) :: ms1, m, x, h => by
    simp only [List.cons_append, mapByJ] at h
    split at h
    · simp at h
    · split at h
      · simp at h
      · exact mapByJ_last hk ha ms1 _ x h


/-- The key of a member, if it has one. -/
def durKJ (l : Lib) (raw : Bytes) : Option MK :=
  match decodeDurKey l raw with
  | .ok (.int z) [] => some (.int z)
  | _ => none

theorem durKJ_iff (l : Lib) {raw : Bytes} (h : JString raw) (key : MK) : durKJ l raw = some key ↔ ∃ z, HasDurKey l raw z ∧ key = .int z := by
  have hi := durKey_iff l h []
  rw [List.append_nil] at hi
  unfold durKJ
  constructor
  · intro e
    split at e
    · rename_i z hz
      injection e with e
      exact ⟨z, (hi z).1 hz, e.symm⟩
    · cases e
  · rintro ⟨z, hz, rfl⟩
    rw [(hi z).2 hz]

theorem durKey_int {l : Lib} {raw : Bytes} (h : JString raw) {r r' : Bytes} {x : DV} (e : decodeDurKey l (raw ++ r) = .ok x r') :
    r' = r ∧ ∃ z, x = .int z := by
  unfold decodeDurKey at e
  rw [decodeFromString_eq h] at e
  cases ed : decodeDuration l (unq raw) (.int 0) with
  | crash c => rw [ed] at e; simp at e
  | err x r e' => rw [ed] at e; simp at e
  | ok y v =>
    rw [ed] at e
    simp only [] at e
    split at e
    · simp at e
    · injection e with e1 e2
      refine ⟨e2.symm, ?_⟩
      subst e1
      rcases duration_only ed with ⟨_, e⟩ | ⟨_, z, _, _, _, e, _⟩ | ⟨_, z, _, _, _, e⟩
      · exact ⟨_, e⟩
      · exact ⟨_, e⟩
      · exact ⟨_, e⟩

theorem durKeyRef (l : Lib) : KeyRef (decodeDurKey l) (durKJ l) := by
  intro raw h r
  constructor
  · intro kv e
    obtain ⟨z, hz, rfl⟩ := (durKJ_iff l h kv).1 e
    exact ⟨.int z, (durKey_iff l h r z).2 hz, rfl⟩
  · intro e x r' hx
    obtain ⟨rfl, z, rfl⟩ := durKey_int h hx
    have := (durKJ_iff l h (.int z)).2 ⟨z, (durKey_iff l h _ z).1 hx, rfl⟩
    rw [e] at this
    cases this

/-- An object, decoded into a map. -/
theorem mapBy_obj {P : DV → Prop} {N : Nat} {dec : Dec} {f : JDec} {z : DV} (hd : RefP P N dec f) (hz : P z) {key : Bytes → DRes}
    {kj : Bytes → Option MK} (hkj : KeyRef key kj) {ms : List (Bytes × Json)} {v : Bytes} (hv : Derives (.value (.obj ms)) v) (hN : v.length < N + 1)
    (r : Bytes) (p : DV) : (∀ x, mapByJ kj f z ms (entriesOf p) = some x → decodeMapBy key dec z (v ++ r) p = .ok (.map x) r) ∧
      (mapByJ kj f z ms (entriesOf p) = none → ∀ x r', decodeMapBy key dec z (v ++ r) p ≠ .ok x r') := by
  have hnp := hasNull_value hv r
  have open_ : ∀ u, v = 0x7b :: (u ++ [0x7d]) → ∃ fresh, decodeMapBy key dec z (v ++ r) p =
      mapLoopBy key dec z p fresh (v ++ r) ((v ++ r).length + 1) true (entriesOf p) (u ++ 0x7d :: r) := by
    intro u e
    unfold decodeMapBy
    rw [hnp]
    simp only [isNullJ, Bool.false_eq_true, if_false]
    rw [e]
    simp only [List.cons_append, List.append_assoc, List.nil_append]
    rw [if_neg (by simp; omega)]
    cases p
    case map m => exact ⟨false, rfl⟩
    all_goals exact ⟨true, rfl⟩
  cases hv with
  | objNil w hw =>
    obtain ⟨fresh, e⟩ := open_ w rfl
    rw [e, mapLoopBy_close (skip_ws_cons hw (by decide) r)]
    simp [mapByJ]
  | obj ms b hb =>
    obtain ⟨fresh, e⟩ := open_ b rfl
    obtain ⟨t, eh⟩ := derives_members_head hb (0x7d :: r)
    rw [e, mapLoopBy_first (by rw [eh]; simp)]
    simp only [List.length_cons, List.length_append] at hN
    exact map_membersBy hd hz hkj p fresh (0x7b :: (b ++ [0x7d]) ++ r) ms b hb (by simp at hN; omega) (entriesOf p)
      (0x7b :: (b ++ [0x7d]) ++ r).length r (by simp; omega)

/-- a key that its type does not take, after members that are in order -/
theorem map_membersBy_reject {P : DV → Prop} {N : Nat} {dec : Dec} {f : JDec} {z : DV} (hd : RefP P N dec f) (hz : P z) {key : Bytes → DRes} {kj : Bytes → Option MK} (hkj : KeyRef key kj)
    (hke : ∀ raw, JString raw → ∀ r, (∀ c, key (raw ++ r) ≠ .crash c) ∧ ∀ y r1 e, key (raw ++ r) = .err y r1 e → r1 = r)
    (p : DV) (fresh : Bool) (input : Bytes) {raw : Bytes} {j : Json} {ms2 : List (Bytes × Json)} (hbad : kj raw = none) :
    ∀ (ms1 : List (Bytes × Json)) (u : Bytes), Derives (.members (ms1 ++ (raw, j) :: ms2)) u → u.length < N →
      (∀ a ∈ ms1, (∃ kv, kj a.1 = some kv) ∧ ∃ x, f a.2 z = some x) → ∀ (m : List (MK × DV)) (n : Nat) (r : Bytes), u.length < n →
      ∃ x r' e, mapMemberBy key dec z p fresh input n m (skipSpaces (u ++ 0x7d :: r)) = .err x r' e ∧ (e = .syntax ∨ skipSpaces r' ≠ []) := by
  have bad : ∀ w1 w2 T m n, Ws w1 → JString raw → Ws w2 →
      ∃ x r' e, mapMemberBy key dec z p fresh input n m (skipSpaces (w1 ++ (raw ++ (w2 ++ 0x3a :: T)))) = .err x r' e ∧ (e = .syntax ∨ skipSpaces r' ≠ []) := by
    intro w1 w2 T m n hw1 hk hw2
    rw [skipSpaces_ws_append hw1, jstring_skip hk]
    have hsp := skip_ws_cons hw2 (c := 0x3a) (by decide) T
    have hnull : hasNullPrefix (raw ++ (w2 ++ 0x3a :: T)) = false := by
      obtain ⟨t, rfl⟩ := jstring_head hk; exact hasNull_cons (by decide)
    cases hkey : key (raw ++ (w2 ++ 0x3a :: T)) with
    | crash c => exact absurd hkey ((hke raw hk _).1 c)
    | ok d rr => exact absurd hkey ((hkj raw hk _).2 hbad _ _)
    | err y r1 e1 =>
      rw [mapMemberBy]
      simp only [memberKey, if_true, hnull, Bool.false_eq_true, if_false, hkey]
      refine ⟨_, _, _, rfl, ?_⟩
      have he1 := (hke raw hk _).2 _ _ _ hkey
      subst he1
      unfold objectKeyError
      rw [if_neg (by simp)]
      split
      · exact .inl rfl
      · exact .inr (by rw [hsp]; simp)
  intro ms1
  induction ms1 with
  | nil =>
    intro u h hN _ m n r hn
    cases h with
    | memOne w1 w2 w3 w4 _ _ b hw1 hw2 hw3 hw4 hk hj =>
      have e : w1 ++ raw ++ w2 ++ 0x3a :: (w3 ++ b ++ w4) ++ 0x7d :: r =
          w1 ++ (raw ++ (w2 ++ 0x3a :: (w3 ++ (b ++ (w4 ++ 0x7d :: r))))) := by simp
      rw [e]; exact bad _ _ _ _ _ hw1 hk hw2
    | memCons w1 w2 w3 w4 _ _ b _ bs hw1 hw2 hw3 hw4 hk hj hbs =>
      have e : w1 ++ raw ++ w2 ++ 0x3a :: (w3 ++ b ++ w4 ++ 0x2c :: bs) ++ 0x7d :: r =
          w1 ++ (raw ++ (w2 ++ 0x3a :: (w3 ++ (b ++ (w4 ++ 0x2c :: (bs ++ 0x7d :: r)))))) := by simp
      rw [e]; exact bad _ _ _ _ _ hw1 hk hw2
  | cons hd1 ms1 ih =>
    intro u h hN hok m n r hn
    obtain ⟨raw1, j1⟩ := hd1
    obtain ⟨n, rfl⟩ : ∃ k, n = k + 1 := ⟨n - 1, by omega⟩
    obtain ⟨⟨kv, hkv⟩, x, hx⟩ := hok (raw1, j1) (by simp)
    simp only [List.cons_append] at h
    generalize hms : ms1 ++ (raw, j) :: ms2 = ms at h
    cases h with
    | memOne => simp at hms
    | memCons w1 w2 w3 w4 _ _ b _ bs hw1 hw2 hw3 hw4 hk hj hbs =>
      subst hms
      have e : w1 ++ raw1 ++ w2 ++ 0x3a :: (w3 ++ b ++ w4 ++ 0x2c :: bs) ++ 0x7d :: r =
          w1 ++ (raw1 ++ (w2 ++ 0x3a :: (w3 ++ (b ++ (w4 ++ 0x2c :: (bs ++ 0x7d :: r)))))) := by simp
      simp only [List.length_append, List.length_cons] at hN hn
      rw [e, skipSpaces_ws_append hw1, jstring_skip hk]
      obtain ⟨k1, _⟩ := hkj raw1 hk (w2 ++ 0x3a :: (w3 ++ (b ++ (w4 ++ 0x2c :: (bs ++ 0x7d :: r)))))
      have hT : NumStop (w4 ++ 0x2c :: (bs ++ 0x7d :: r)) := numStop_ws_cons hw4 (by simp)
      obtain ⟨h1, _⟩ := hd j1 b hj (by omega) _ (follow_of_numStop hT) z hz
      obtain ⟨d, ek, rfl⟩ := k1 kv hkv
      obtain ⟨_, r', e2, hr⟩ := h1 x hx
      rw [mapMemberBy, memberKey_ok hk hw2 ek, skip_ws_value hw3 hj]
      simp only [e2]
      rw [mapLoopBy_skip (skip_or hr), mapLoopBy_comma (skip_ws_cons hw4 (by decide) _)]
      exact ih bs hbs (by omega) (fun a ha => hok a (by simp [ha])) _ n r (by omega)

theorem mapBy_reject {P : DV → Prop} {N : Nat} {dec : Dec} {f : JDec} {z : DV} (hd : RefP P N dec f) (hz : P z) {key : Bytes → DRes} {kj : Bytes → Option MK} (hkj : KeyRef key kj)
    (hke : ∀ raw, JString raw → ∀ r, (∀ c, key (raw ++ r) ≠ .crash c) ∧ ∀ y r1 e, key (raw ++ r) = .err y r1 e → r1 = r)
    {raw : Bytes} {j : Json} {ms1 ms2 : List (Bytes × Json)} (hbad : kj raw = none)
    (hok : ∀ a ∈ ms1, (∃ kv, kj a.1 = some kv) ∧ ∃ x, f a.2 z = some x) {v : Bytes}
    (hv : Derives (.value (.obj (ms1 ++ (raw, j) :: ms2))) v) (hN : v.length < N) (r : Bytes) (p : DV) :
    ∃ x r' e, decodeMapBy key dec z (v ++ r) p = .err x r' e ∧ (e = .syntax ∨ skipSpaces r' ≠ []) := by
  generalize hms : ms1 ++ (raw, j) :: ms2 = ms at hv
  cases hv with
  | objNil => simp at hms
  | obj _ b hb =>
    subst hms
    have hop : ∃ fresh, decodeMapBy key dec z (0x7b :: (b ++ [0x7d]) ++ r) p =
        mapLoopBy key dec z p fresh (0x7b :: (b ++ [0x7d]) ++ r) ((0x7b :: (b ++ [0x7d]) ++ r).length + 1) true (entriesOf p) (b ++ 0x7d :: r) := by
      unfold decodeMapBy
      rw [show hasNullPrefix (0x7b :: (b ++ [0x7d]) ++ r) = false from hasNull_cons (by decide)]
      simp only [Bool.false_eq_true, if_false, List.cons_append, List.append_assoc, List.nil_append]
      rw [if_neg (by simp; omega)]
      cases p
      case map m => exact ⟨false, rfl⟩
      all_goals exact ⟨true, rfl⟩
    obtain ⟨fresh, e⟩ := hop
    obtain ⟨t, eh⟩ := derives_members_head hb (0x7d :: r)
    rw [e, mapLoopBy_first (by rw [eh]; simp)]
    simp only [List.length_cons, List.length_append] at hN
    exact map_membersBy_reject hd hz hkj hke p fresh _ hbad ms1 b hb (by omega) hok (entriesOf p) _ r (by simp; omega)

theorem duration_nc (l : Lib) (b : Bytes) (p : DV) (c : Crash) : decodeDuration l b p ≠ .crash c := by
  unfold decodeDuration
  repeat' (first | split | exact inputErr_nc)
  all_goals simp

theorem durKey_err (l : Lib) (raw : Bytes) (h : JString raw) (r : Bytes) : (∀ c, decodeDurKey l (raw ++ r) ≠ .crash c) ∧
    ∀ y r1 e, decodeDurKey l (raw ++ r) = .err y r1 e → r1 = r := by
  unfold decodeDurKey
  rw [decodeFromString_eq h]
  cases ed : decodeDuration l (unq raw) (.int 0) with
  | crash c => exact absurd ed (duration_nc _ _ _ _)
  | err x r' e => simp
  | ok y v =>
    simp only []
    split <;> simp

end JC
