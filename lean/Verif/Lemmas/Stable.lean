import Verif.Spec.Stable
import Verif.Props.Typed
import Verif.Props.RoundTrip
import Verif.Props.Maps
/-!
What decoding into a fresh variable leaves there is a variable of the typed round trip.
-/
namespace JC
open Spec Props

/-- Contents of an interface that decoding produces. -/
def FitI (c : DCfg) (v : DV) : Prop := SameTree c (toGV v .iface) v ∧ (v = .ifaceNil ∨ ∃ t w, v = .iface t w ∧ w.nilWord = false ∧ t.isPtr = false)

def FitK : KTy → MK → Prop
  | .str, .str s => Coerced s s
  | .int i, .int z => KindFits i z
  | .text tk, .user s => ∃ t, Coerced t t ∧ tk.answer t = none ∧ tk.key t = s
  | _, _ => False

mutual
/-- Contents of a variable of the given type that decoding produces. -/
def Fit (c : DCfg) : Ty → DV → Prop
  | .bool => fun v => ∃ b, v = .bool b
  | .int i => fun v => ∃ z, KindFits i z ∧ v = .int z
  | .float32 => fun v => ∃ e t ok, c.lib.parseFloat true (floatText e t) = some (.fin e t ok) ∧ v = .float (.fin e t ok)
  | .float64 => fun v => ∃ e t ok, c.lib.parseFloat false (floatText e t) = some (.fin e t ok) ∧ v = .float (.fin e t ok)
  | .number => fun v => ∃ s, (s = [] ∨ JNumber s) ∧ v = .number s
  | .string => fun v => ∃ s, Coerced s s ∧ v = .string s
  | .bytes => fun v => v = .bytesNil ∨ ∃ s sp, v = .bytes s sp
  | .duration => fun v => ∃ z, FitsSigned 64 z ∧ v = .int z
  | .time => fun v => ∃ s, TimeText s ∧ c.lib.parseTime s = some s ∧ v = .time s
  | .iface => FitI c
  | .slice t => fun v => v = .sliceNil ∨ ∃ xs sp, v = .slice xs sp ∧ (∀ x ∈ xs, Fit c t x) ∧ ∀ x ∈ sp, Fit c t x
  | .array n t => fun v => ∃ xs, v = .array xs ∧ xs.length = n ∧ ∀ x ∈ xs, Fit c t x
  | .map k t => fun v => v = .mapNil ∨ ∃ es, v = .map es ∧ SortedM es ∧ ∀ e ∈ es, FitK k e.1 ∧ Fit c t e.2
  | .mapSI => fun v => v = .mapNil ∨ ∃ es, v = .map es ∧ SortedM es ∧ ∀ e ∈ es, FitK .str e.1 ∧ FitI c e.2
  | .ptr t => fun v => v = .ptrNil ∨ ∃ w, v = .ptr w ∧ Fit c t w
  | .struct fs => fun v => ∃ xs, v = .struct xs ∧ FitF c fs xs
  | .quotedInt t => Fit c t
  | .quoted t => Fit c t
  | _ => fun _ => False
def FitF (c : DCfg) : List (Bytes × Ty) → List DV → Prop
  | [] => fun xs => xs = []
  | (_, t) :: fs => fun xs => ∃ v vs, xs = v :: vs ∧ Fit c t v ∧ FitF c fs vs
end

theorem fitF_get {c : DCfg} : ∀ {fs : List (Bytes × Ty)} {xs : List DV}, FitF c fs xs → ∀ {i : Nat} {f : Bytes × Ty}, fs[i]? = some f →
    Fit c f.2 (xs.getD i (.user none)) ∧ ∀ x, Fit c f.2 x → FitF c fs (xs.set i x)
  | [], xs, _, i, f, e => by simp at e
  | (n, t) :: fs, xs, h, 0, f, e => by
    simp only [FitF] at h
    obtain ⟨v, vs, rfl, h1, h2⟩ := h
    injection e with e
    subst e
    refine ⟨by simpa using h1, fun x hx => ?_⟩
    simp only [FitF, List.set_cons_zero]
    exact ⟨x, vs, rfl, hx, h2⟩
  | (n, t) :: fs, xs, h, i + 1, f, e => by
    simp only [FitF] at h
    obtain ⟨v, vs, rfl, h1, h2⟩ := h
    have ih := fitF_get h2 (i := i) (f := f) (by simpa using e)
    refine ⟨by simpa using ih.1, fun x hx => ?_⟩
    simp only [FitF, List.set_cons_succ]
    exact ⟨v, _, rfl, h1, ih.2 x hx⟩

/-! ### zero values -/

theorem kindFits_zero (i : IntKind) : KindFits i 0 := by
  cases i <;> simp [KindFits, FitsSigned, FitsUnsigned]

theorem coerced_nil : Coerced [] [] := ascii_coerced (by simp)

theorem fitI_nil {c : DCfg} : FitI c .ifaceNil := ⟨by simp [toGV, SameTree], .inl rfl⟩

mutual
theorem fit_zero {c : DCfg} (hr : LibReturns c.lib) : ∀ t : Ty, t.plain → Fit c t (zero t)
  | .bool, _ => ⟨_, rfl⟩
  | .int i, _ => ⟨_, kindFits_zero i, rfl⟩
  | .float32, _ => ⟨false, [0x30], _, hr.zeroFloat true, rfl⟩
  | .float64, _ => ⟨false, [0x30], _, hr.zeroFloat false, rfl⟩
  | .number, _ => ⟨_, .inl rfl, rfl⟩
  | .string, _ => ⟨_, coerced_nil, rfl⟩
  | .bytes, _ => .inl rfl
  | .duration, _ => ⟨0, by simp [FitsSigned], rfl⟩
  | .time, _ => ⟨_, (hr.times _ _ hr.zeroTime).1, hr.zeroTime, rfl⟩
  | .iface, _ => fitI_nil
  | .slice _, _ => .inl rfl
  | .array n t, h => by
    simp only [Fit, zero]
    exact ⟨_, rfl, by simp, fun x hx => by rw [List.eq_of_mem_replicate hx]; exact fit_zero hr t h⟩
  | .map _ _, _ => .inl rfl
  | .mapSI, _ => .inl rfl
  | .ptr _, _ => .inl rfl
  | .struct fs, h => by
    simp only [Ty.plain] at h
    simp only [Fit, zero]
    exact ⟨_, rfl, fitF_zero hr fs h.2.2⟩
  | .quotedInt (.int i), _ => ⟨_, kindFits_zero i, rfl⟩
  | .quoted .bool, _ => ⟨_, rfl⟩
  | .quoted .number, _ => ⟨_, .inl rfl, rfl⟩
  | .quoted .string, _ => ⟨_, coerced_nil, rfl⟩
  | .quoted .float32, _ => ⟨false, [0x30], _, hr.zeroFloat true, rfl⟩
  | .quoted .float64, _ => ⟨false, [0x30], _, hr.zeroFloat false, rfl⟩
theorem fitF_zero {c : DCfg} (hr : LibReturns c.lib) : ∀ fs : List (Bytes × Ty), plainF fs → FitF c fs (zeroF fs)
  | [], _ => by simp [FitF, zeroF]
  | (n, t) :: fs, h => by
    simp only [plainF] at h
    simp only [FitF, zeroF]
    exact ⟨_, _, rfl, fit_zero hr t h.1, fitF_zero hr fs h.2⟩
end
/-! ### scalars -/

theorem unq_coerced {raw : Bytes} (h : JString raw) : Coerced (unq raw) (unq raw) := coerced_valid ((keyMeans_unq h _).2 rfl)

theorem unquote_coerced {b s r : Bytes} {isNew : Bool} (h : parseStringUnquote b [] = .ok s r isNew) : Coerced s s := by
  obtain ⟨v, hv, rfl⟩ := C04_unquote_only h
  obtain ⟨i, rs, rfl, hm⟩ := jstring_means hv
  have e : (0x22 :: (i ++ [0x22])) ++ r = 0x22 :: (i ++ 0x22 :: r) := by simp
  rw [e] at h
  have : s = utf8s rs := by
    rcases C04_unquote hm r [] with k | k
    · rw [k] at h; injection h with h; exact h.symm
    · rw [k] at h; injection h with h; rw [← h]; simp
  subst this
  exact coerced_valid ⟨i, rs, rfl, hm, rfl⟩

theorem decodeBool_fit {c : DCfg} {b r : Bytes} {p x : DV} (h : decodeBool b p = .ok x r) (hp : Fit c .bool p) : Fit c .bool x := by
  unfold decodeBool at h
  repeat' split at h
  all_goals first
    | (injection h with h; subst h; first | exact hp | exact ⟨_, rfl⟩)
    | (unfold inputErr at h; repeat' split at h)
  all_goals contradiction

theorem decodeInt_fit {c : DCfg} {k : IntKind} {b r : Bytes} {p x : DV} (h : decodeInt k b p = .ok x r) (hp : Fit c (.int k) p) : Fit c (.int k) x := by
  unfold decodeInt at h
  split at h
  · injection h with h; subst h; exact hp
  · rename_i hn
    simp only [] at h
    split at h
    · rename_i he
      injection h with h
      subst h
      obtain ⟨z, hz, rfl⟩ := hp
      rcases (C10_only k b z).2 he with ⟨_, h2⟩ | ⟨_, z', _, _, hf, hd, _⟩
      · exact ⟨z, hz, congrArg DV.int h2⟩
      · exact ⟨z', hf, congrArg DV.int hd⟩
    · contradiction

theorem decodeFloat_fit {l : Lib} (hr : LibReturns l) {b32 : Bool} {b r : Bytes} {p x : DV} (h : decodeFloat l b32 b p = .ok x r)
    (hp : ∃ e t ok, l.parseFloat b32 (floatText e t) = some (.fin e t ok) ∧ p = .float (.fin e t ok)) :
    ∃ e t ok, l.parseFloat b32 (floatText e t) = some (.fin e t ok) ∧ x = .float (.fin e t ok) := by
  unfold decodeFloat at h
  split at h
  · injection h with h; subst h; exact hp
  · split at h
    · unfold inputErr at h; repeat' split at h
      all_goals contradiction
    · rename_i hv
      split at h
      · unfold inputErr at h; repeat' split at h
        all_goals contradiction
      · rename_i hf
        injection h with h; subst h
        obtain ⟨e, t, ok, rfl, h2⟩ := hr.floats _ _ _ (parseNumber_sound hv).2 hf
        exact ⟨e, t, ok, h2, rfl⟩

theorem decodeNumber_fit {c : DCfg} {b r : Bytes} {p x : DV} (h : decodeNumber b p = .ok x r) (hp : Fit c .number p) : Fit c .number x := by
  unfold decodeNumber at h
  split at h
  · injection h with h; subst h; exact hp
  · split at h
    · unfold inputErr at h; repeat' split at h
      all_goals contradiction
    · rename_i hv
      injection h with h; subst h
      exact ⟨_, .inr (parseNumber_sound hv).2, rfl⟩

theorem decodeString_fit {c : DCfg} {b r : Bytes} {p x : DV} (h : decodeString b p = .ok x r) (hp : Fit c .string p) : Fit c .string x := by
  unfold decodeString at h
  split at h
  · injection h with h; subst h; exact hp
  · split at h
    · contradiction
    · split at h
      · unfold inputErr at h; repeat' split at h
        all_goals contradiction
      · contradiction
    · rename_i hv
      injection h with h; subst h
      exact ⟨_, unquote_coerced hv, rfl⟩

theorem fromString_fit {F : DV → Prop} {d : Dec} (hd : ∀ b p x r, d b p = .ok x r → F p → F x) {b r : Bytes} {p x : DV}
    (h : decodeFromString d b p = .ok x r) (hp : F p) : F x := by
  unfold decodeFromString at h
  split at h
  · exact hd _ _ _ _ h hp
  · split at h
    · contradiction
    · unfold inputErr at h; repeat' split at h
      all_goals contradiction
    · split at h
      · contradiction
      · contradiction
      · rename_i hx
        split at h
        · contradiction
        · injection h with h; subst h
          exact hd _ _ _ _ hx hp

theorem fromStringToInt_fit {F : DV → Prop} {l : Lib} {d : Dec} (hd : ∀ b p x r, d b p = .ok x r → F p → F x) {b r : Bytes} {p x : DV}
    (h : decodeFromStringToInt l d b p = .ok x r) (hp : F p) : F x := by
  unfold decodeFromStringToInt at h
  split at h
  · exact hd _ _ _ _ h hp
  · split at h
    · contradiction
    · split at h
      · contradiction
      · split at h
        · contradiction
        · unfold inputErr at h; repeat' split at h
          all_goals contradiction
        · simp only [] at h
          split at h
          · contradiction
          · rename_i hx
            split at h
            · contradiction
            · injection h with h; subst h
              exact hd _ _ _ _ hx hp
          · repeat' split at h
            all_goals contradiction

theorem okOf_some {r : DRes} {x : DV} (h : okOf r = some x) : ∃ b, r = .ok x b := by
  unfold okOf at h
  split at h
  · injection h with h; subst h; exact ⟨_, rfl⟩
  · contradiction

theorem orNull_fit {F : DV → Prop} {f : JDec} {j : Json} {p x : DV} (h : orNull f j p = some x) (hp : F p) (hf : f j p = some x → F x) : F x := by
  unfold orNull at h
  split at h
  · injection h with h; subst h; exact hp
  · exact hf h

theorem quotedJ_fit {F : DV → Prop} {d : Dec} {f : JDec} {j : Json} {p x : DV} (h : quotedJ d f j p = some x) (hp : F p)
    (hn : f .null p = some x → F x) (hd : ∀ b r, d b p = .ok x r → F x) : F x := by
  unfold quotedJ at h
  split at h
  · exact hn h
  · obtain ⟨r, hr⟩ := okOf_some h
    exact hd _ _ hr
  · contradiction

theorem jsonOk_num {s : Bytes} (h : JsonOk (.num s)) : JNumber s := by simpa [JsonOk] using h

theorem genJ_fit {c : DCfg} (hr : LibReturns c.lib) {j : Json} (hj : JsonOk j) {v : DV} (h : genJ c j = some v) : FitI c v := by
  have hd := genJ_denotes c j hj v h
  refine ⟨denotes_same (hr.floats false) j v hd hj, ?_⟩
  cases j <;> rw [Denotes] at hd
  · exact .inl hd
  · exact .inr ⟨_, _, hd, rfl, rfl⟩
  · exact .inr ⟨_, _, hd, rfl, rfl⟩
  · split at hd
    · exact .inr ⟨_, _, hd, rfl, rfl⟩
    · obtain ⟨f, _, rfl⟩ := hd
      exact .inr ⟨_, _, rfl, rfl, rfl⟩
  · obtain ⟨f, _, rfl⟩ := hd
    exact .inr ⟨_, _, rfl, rfl, rfl⟩
  · obtain ⟨f, _, rfl⟩ := hd
    exact .inr ⟨_, _, rfl, rfl, rfl⟩
  · obtain ⟨f, rfl, _⟩ := hd
    exact .inr ⟨_, _, rfl, rfl, rfl⟩

theorem ifaceJ_fit {c : DCfg} (hr : LibReturns c.lib) {dynJ : Ty → JDec} {j : Json} (hj : JsonOk j) {p v : DV} (hp : FitI c p)
    (h : ifaceJ c dynJ j p = some v) : FitI c v := by
  obtain ⟨_, rfl | ⟨t, w, rfl, _, ht⟩⟩ := hp
  · exact genJ_fit hr hj h
  · unfold ifaceJ at h
    split at h
    · rename_i heq
      injection heq with heq
      subst heq
      cases ht
    · exact genJ_fit hr hj h

theorem keyJ_fit {k : KTy} {raw : Bytes} {kv : MK} (h : keyJ k raw = some kv) : FitK k kv := by
  unfold keyJ at h
  split at h
  · contradiction
  rename_i hn
  have hn : hasNullPrefix raw = false := by simpa using hn
  simp only [Option.map_eq_some_iff] at h
  obtain ⟨x, hx, rfl⟩ := h
  obtain ⟨r, hx⟩ := okOf_some hx
  cases k with
  | str =>
    obtain ⟨s, hs, rfl⟩ := decodeString_fit (c := { lib := noLib }) hx ⟨_, coerced_nil, rfl⟩
    exact hs
  | int i =>
    obtain ⟨z, hz, rfl⟩ := fromString_fit (F := Fit { lib := noLib } (.int i)) (fun b p x r h hp => decodeInt_fit h hp) hx ⟨_, kindFits_zero i, rfl⟩
    exact hz
  | text tk =>
    obtain ⟨y, h1, rfl⟩ := decodeKey_text_ok hx
    obtain ⟨s, hs, _, ha, rfl⟩ := textU_key hn h1
    have e := decodeString_ok hs [] (.string [])
    obtain ⟨s', hs', e'⟩ := decodeString_fit (c := { lib := noLib }) e ⟨_, coerced_nil, rfl⟩
    injection e' with e'
    subst e'
    exact ⟨_, hs', ha, rfl⟩

theorem fitK_text {k : KTy} {a b : MK} (ha : FitK k a) (hb : FitK k b) (h : a.text = b.text) : a = b := by
  cases k <;> cases a <;> cases b <;> simp only [FitK] at ha hb
  · simp only [MK.text] at h; rw [h]
  · simp only [MK.text] at h; rw [C27_int_texts h]
  · simp only [MK.text] at h; rw [h]

/-! ### loops -/

theorem sliceJ_fit {F : DV → Prop} {f : JDec} {z : DV} (hz : F z) : ∀ (xs : List Json), (∀ j ∈ xs, ∀ p x, F p → f j p = some x → F x) →
    ∀ (done mem : List DV) (v : DV), (∀ x ∈ done, F x) → (∀ x ∈ mem, F x) → sliceJ f z done xs mem = some v →
    ∃ ys sp, v = .slice ys sp ∧ (∀ x ∈ ys, F x) ∧ ∀ x ∈ sp, F x
  | [], _, done, mem, v, hd, hm, h => by
    rw [sliceJ] at h
    injection h with h
    exact ⟨done, mem, h.symm, hd, hm⟩
  | j :: xs, hf, done, mem, v, hd, hm, h => by
    rw [sliceJ] at h
    split at h
    · contradiction
    · rename_i x hx
      refine sliceJ_fit hz xs (fun j hj => hf j (by simp [hj])) _ _ v ?_ (fun x hx => hm x (List.mem_of_mem_tail hx)) h
      have hh : F (mem.headD z) := by
        cases mem with
        | nil => exact hz
        | cons m mem => exact hm m (by simp)
      intro y hy
      rcases List.mem_append.1 hy with hy | hy
      · exact hd y hy
      · rw [List.mem_singleton.1 hy]
        exact hf j (by simp) _ _ hh hx

theorem arrayJ_fit {F : DV → Prop} {f : JDec} {z : DV} (hz : F z) : ∀ (n : Nat) (xs : List Json), (∀ j ∈ xs, ∀ p x, F p → f j p = some x → F x) →
    ∀ (done mem : List DV) (v : DV), (∀ x ∈ done, F x) → (∀ x ∈ mem, F x) → mem.length = n → arrayJ f z done n xs mem = some v →
    ∃ ys, v = .array ys ∧ ys.length = done.length + n ∧ ∀ x ∈ ys, F x
  | 0, xs, _, done, mem, v, hd, hm, hl, h => by
    rw [arrayJ] at h
    injection h with h
    refine ⟨_, h.symm, by simp [hl], fun x hx => ?_⟩
    rcases List.mem_append.1 hx with hx | hx
    · exact hd x hx
    · exact hm x hx
  | n + 1, [], _, done, mem, v, hd, hm, hl, h => by
    rw [arrayJ] at h
    injection h with h
    refine ⟨_, h.symm, by simp [hl], fun x hx => ?_⟩
    rcases List.mem_append.1 hx with hx | hx
    · exact hd x hx
    · exact hm x hx
  | n + 1, j :: xs, hf, done, mem, v, hd, hm, hl, h => by
    rw [arrayJ] at h
    split at h
    · contradiction
    · rename_i x hx
      have hh : F (mem.headD z) := by
        cases mem with
        | nil => exact hz
        | cons m mem => exact hm m (by simp)
      have hdone : ∀ y ∈ done ++ [x], F y := by
        intro y hy
        rcases List.mem_append.1 hy with hy | hy
        · exact hd y hy
        · rw [List.mem_singleton.1 hy]
          exact hf j (by simp) _ _ hh hx
      obtain ⟨ys, e, hy, hF⟩ := arrayJ_fit hz n xs (fun j hj => hf j (by simp [hj])) (done ++ [x]) mem.tail v hdone
        (fun x hx => hm x (List.mem_of_mem_tail hx)) (by rw [List.length_tail, hl]; rfl) h
      exact ⟨ys, e, by rw [hy]; simp only [List.length_append, List.length_singleton]; omega, hF⟩

theorem mapJ_fit {F : DV → Prop} {k : KTy} {f : JDec} {z : DV} (hz : F z) : ∀ (ms : List (Bytes × Json)), (∀ m ∈ ms, ∀ p x, F p → f m.2 p = some x → F x) →
    ∀ (es es' : List (MK × DV)), SortedM es → (∀ e ∈ es, FitK k e.1 ∧ F e.2) → mapJ k f z ms es = some es' →
    SortedM es' ∧ ∀ e ∈ es', FitK k e.1 ∧ F e.2
  | [], _, es, es', hs, he, h => by
    rw [mapJ] at h
    injection h with h
    subst h
    exact ⟨hs, he⟩
  | (raw, j) :: ms, hf, es, es', hs, he, h => by
    rw [mapJ] at h
    split at h
    · contradiction
    · rename_i kv hk
      split at h
      · contradiction
      · rename_i x hx
        have hkv := keyJ_fit hk
        refine mapJ_fit hz ms (fun m hm => hf m (by simp [hm])) _ es' (mapSet_sorted_of (fun e h1 h2 => fitK_text (he e h1).1 hkv h2) hs) ?_ h
        rintro ⟨k', w⟩ hw
        rcases (mapSet_iff hs k' w).1 hw with ⟨rfl, rfl⟩ | ⟨_, h2⟩
        · exact ⟨hkv, hf (raw, j) (by simp) _ _ hz hx⟩
        · exact he _ h2

theorem structJ_fit {c : DCfg} {names : List Bytes} {gs : List JDec} {fs : List (Bytes × Ty)} : ∀ (ms : List (Bytes × Json)),
    (∀ m ∈ ms, ∀ (i : Nat) (f : JDec), gs[i]? = some f → ∃ t : Bytes × Ty, fs[i]? = some t ∧ ∀ p x, Fit c t.2 p → f m.2 p = some x → Fit c t.2 x) →
    ∀ (xs ys : List DV), FitF c fs xs → structJ c names gs ms xs = some ys → FitF c fs ys
  | [], _, xs, ys, hx, h => by
    rw [structJ] at h
    injection h with h
    subst h
    exact hx
  | (raw, j) :: ms, hf, xs, ys, hx, h => by
    rw [structJ] at h
    split at h
    · split at h
      · contradiction
      · exact structJ_fit ms (fun m hm => hf m (by simp [hm])) xs ys hx h
    · rename_i i _
      split at h
      · contradiction
      · rename_i f hi
        split at h
        · contradiction
        · rename_i x hxx
          obtain ⟨t, ht, hft⟩ := hf (raw, j) (by simp) i f hi
          obtain ⟨h1, h2⟩ := fitF_get hx ht
          exact structJ_fit ms (fun m hm => hf m (by simp [hm])) _ ys (h2 _ (hft _ _ h1 hxx)) h


/-! ### decoding -/

theorem decodeTime_fit {c : DCfg} (hr : LibReturns c.lib) {b r : Bytes} {p x : DV} (h : decodeTime c.lib b p = .ok x r) (hp : Fit c .time p) : Fit c .time x := by
  unfold decodeTime at h
  split at h
  · injection h with h; subst h; exact hp
  · split at h
    · unfold inputErr at h; repeat' split at h
      all_goals contradiction
    · split at h
      · unfold inputErr at h; repeat' split at h
        all_goals contradiction
      · split at h
        · unfold inputErr at h; repeat' split at h
          all_goals contradiction
        · split at h
          · unfold inputErr at h; repeat' split at h
            all_goals contradiction
          · rename_i hv
            injection h with h; subst h
            exact ⟨_, (hr.times _ _ hv).1, (hr.times _ _ hv).2, rfl⟩

theorem decodeDuration_fit {c : DCfg} (hr : LibReturns c.lib) {b r : Bytes} {p x : DV} (h : decodeDuration c.lib b p = .ok x r) (hp : Fit c .duration p) :
    Fit c .duration x := by
  unfold decodeDuration at h
  split at h
  · injection h with h; subst h; exact hp
  · split at h
    · unfold inputErr at h; repeat' split at h
      all_goals contradiction
    · split at h
      · split at h
        · unfold inputErr at h; repeat' split at h
          all_goals contradiction
        · rename_i hv
          injection h with h; subst h
          obtain ⟨_, _, _, hf, _⟩ := parseInt_ok hv
          exact ⟨_, hf, rfl⟩
      · split at h
        · unfold inputErr at h; repeat' split at h
          all_goals contradiction
        · split at h
          · unfold inputErr at h; repeat' split at h
            all_goals contradiction
          · split at h
            · unfold inputErr at h; repeat' split at h
              all_goals contradiction
            · rename_i hv
              injection h with h; subst h
              exact ⟨_, hr.durations _ _ hv, rfl⟩

theorem floatJ_fit {l : Lib} (hr : LibReturns l) {b32 : Bool} {j : Json} (hj : JsonOk j) {p x : DV} (h : floatJ l b32 j p = some x)
    (hp : ∃ e t ok, l.parseFloat b32 (floatText e t) = some (.fin e t ok) ∧ p = .float (.fin e t ok)) :
    ∃ e t ok, l.parseFloat b32 (floatText e t) = some (.fin e t ok) ∧ x = .float (.fin e t ok) := by
  refine orNull_fit (F := fun x => ∃ e t ok, l.parseFloat b32 (floatText e t) = some (.fin e t ok) ∧ x = .float (.fin e t ok)) h hp fun h => ?_
  split at h
  · simp only [Option.map_eq_some_iff] at h
    obtain ⟨f, hf, rfl⟩ := h
    obtain ⟨e, t, ok, rfl, h2⟩ := hr.floats _ _ _ (jsonOk_num hj) hf
    exact ⟨e, t, ok, h2, rfl⟩
  · contradiction

theorem intJ_fit {c : DCfg} {k : IntKind} {j : Json} {p x : DV} (h : intJ k j p = some x) (hp : Fit c (.int k) p) : Fit c (.int k) x := by
  refine orNull_fit h hp fun h => ?_
  split at h
  · obtain ⟨r, h⟩ := okOf_some h
    exact decodeInt_fit h hp
  · contradiction

theorem bytesJ_fit {c : DCfg} {j : Json} {p x : DV} (h : bytesJ j p = some x) : Fit c .bytes x := by
  unfold bytesJ at h
  split at h
  · injection h with h; exact .inl h.symm
  · simp only [Option.map_eq_some_iff] at h
    obtain ⟨s, _, rfl⟩ := h
    exact .inr ⟨_, _, rfl⟩
  · simp only [Option.map_eq_some_iff] at h
    obtain ⟨s, _, rfl⟩ := h
    split
    · exact .inr ⟨_, _, rfl⟩
    · exact .inl rfl
  · contradiction

theorem boolJ_fit {c : DCfg} {dyn : Ty → Dec} {dynJ : Ty → JDec} {j : Json} {p x : DV} (h : decJ c dyn dynJ .bool j p = some x) (hp : Fit c .bool p) : Fit c .bool x := by
  simp only [decJ] at h
  refine orNull_fit h hp fun h => ?_
  split at h
  · injection h with h; exact ⟨_, h.symm⟩
  · injection h with h; exact ⟨_, h.symm⟩
  · contradiction

theorem numberJ_fit {c : DCfg} {dyn : Ty → Dec} {dynJ : Ty → JDec} {j : Json} (hj : JsonOk j) {p x : DV} (h : decJ c dyn dynJ .number j p = some x)
    (hp : Fit c .number p) : Fit c .number x := by
  simp only [decJ] at h
  refine orNull_fit h hp fun h => ?_
  split at h
  · injection h with h; exact ⟨_, .inr (jsonOk_num hj), h.symm⟩
  · contradiction

theorem stringJ_fit {c : DCfg} {dyn : Ty → Dec} {dynJ : Ty → JDec} {j : Json} (hj : JsonOk j) {p x : DV} (h : decJ c dyn dynJ .string j p = some x)
    (hp : Fit c .string p) : Fit c .string x := by
  simp only [decJ] at h
  refine orNull_fit h hp fun h => ?_
  split at h
  · injection h with h; exact ⟨_, unq_coerced (jsonOk_str hj), h.symm⟩
  · contradiction

mutual
theorem decJ_fit {c : DCfg} (hr : LibReturns c.lib) (dyn : Ty → Dec) (dynJ : Ty → JDec) : ∀ t : Ty, t.plain → ∀ j, JsonOk j → ∀ p x, Fit c t p →
    decJ c dyn dynJ t j p = some x → Fit c t x
  | .bool, _, j, _, p, x, hp, h => boolJ_fit h hp
  | .int k, _, j, _, p, x, hp, h => intJ_fit (by simpa only [decJ] using h) hp
  | .float32, _, j, hj, p, x, hp, h => floatJ_fit hr hj (by simpa only [decJ] using h) hp
  | .float64, _, j, hj, p, x, hp, h => floatJ_fit hr hj (by simpa only [decJ] using h) hp
  | .number, _, j, hj, p, x, hp, h => numberJ_fit hj h hp
  | .string, _, j, hj, p, x, hp, h => stringJ_fit hj h hp
  | .bytes, _, j, _, p, x, _, h => bytesJ_fit (by simpa only [decJ] using h)
  | .duration, _, j, _, p, x, hp, h => by
    simp only [decJ] at h
    refine orNull_fit h hp fun h => ?_
    split at h
    · obtain ⟨r, h⟩ := okOf_some h
      exact decodeDuration_fit hr h hp
    · obtain ⟨r, h⟩ := okOf_some h
      exact decodeDuration_fit hr h hp
    · contradiction
  | .time, _, j, _, p, x, hp, h => by
    simp only [decJ] at h
    refine orNull_fit h hp fun h => ?_
    split at h
    · obtain ⟨r, h⟩ := okOf_some h
      exact decodeTime_fit hr h hp
    · contradiction
  | .iface, _, j, hj, p, x, hp, h => by
    simp only [decJ] at h
    simp only [Fit] at hp ⊢
    exact ifaceJ_fit hr hj hp h
  | .slice t, ht, j, hj, p, x, hp, h => by
    simp only [decJ] at h
    unfold sliceTyJ at h
    simp only [Fit]
    split at h
    · injection h with h; exact .inl h.symm
    · refine .inr (sliceJ_fit (fit_zero hr t ht) _ (fun j hj' => decJ_fit hr dyn dynJ t ht j (jsonOk_arr.1 hj j hj')) _ _ x (by simp) ?_ h)
      simp only [Fit] at hp
      rcases hp with rfl | ⟨xs, sp, rfl, h1, h2⟩
      · simp
      · intro y hy
        rcases List.mem_append.1 hy with hy | hy
        · exact h1 y hy
        · exact h2 y hy
    · contradiction
  | .array n t, ht, j, hj, p, x, hp, h => by
    simp only [decJ] at h
    unfold arrayTyJ at h
    split at h
    · injection h with h; subst h; exact hp
    · split at h
      · contradiction
      · simp only [Fit] at hp ⊢
        obtain ⟨xs, rfl, hl, hxs⟩ := hp
        obtain ⟨ys, e, hy, hF⟩ := arrayJ_fit (fit_zero hr t ht) n _ (fun j hj' => decJ_fit hr dyn dynJ t ht j (jsonOk_arr.1 hj j hj')) [] xs x (by simp) hxs hl h
        exact ⟨ys, e, by simpa using hy, hF⟩
    · contradiction
  | .map k t, ht, j, hj, p, x, hp, h => by
    simp only [decJ] at h
    unfold mapTyJ at h
    simp only [Fit]
    split at h
    · injection h with h; exact .inl h.symm
    · simp only [Option.map_eq_some_iff] at h
      obtain ⟨es', h, rfl⟩ := h
      refine .inr ⟨es', rfl, ?_⟩
      refine mapJ_fit (fit_zero hr t ht.2) _ (fun m hm => decJ_fit hr dyn dynJ t ht.2 m.2 (jsonOk_obj.1 hj m hm).2) _ es' ?_ ?_ h
      · simp only [Fit] at hp
        rcases hp with rfl | ⟨es, rfl, h1, h2⟩
        · exact .nil
        · exact h1
      · simp only [Fit] at hp
        rcases hp with rfl | ⟨es, rfl, h1, h2⟩
        · simp
        · exact h2
    · contradiction
  | .mapSI, _, j, hj, p, x, hp, h => by
    simp only [decJ] at h
    unfold mapTyJ at h
    simp only [Fit]
    split at h
    · injection h with h; exact .inl h.symm
    · simp only [Option.map_eq_some_iff] at h
      obtain ⟨es', h, rfl⟩ := h
      refine .inr ⟨es', rfl, ?_⟩
      refine mapJ_fit fitI_nil _ (fun m hm p x hp hx => ifaceJ_fit hr (jsonOk_obj.1 hj m hm).2 hp hx) _ es' ?_ ?_ h
      · simp only [Fit] at hp
        rcases hp with rfl | ⟨es, rfl, h1, h2⟩
        · exact .nil
        · exact h1
      · simp only [Fit] at hp
        rcases hp with rfl | ⟨es, rfl, h1, h2⟩
        · simp
        · exact h2
    · contradiction
  | .ptr t, ht, j, hj, p, x, hp, h => by
    simp only [decJ] at h
    unfold ptrJ at h
    simp only [Fit] at hp ⊢
    have ih := decJ_fit hr dyn dynJ t ht j hj
    rcases hp with rfl | ⟨w, rfl, hw⟩
    · split at h
      · injection h with h; exact .inl h.symm
      · simp only [Option.map_eq_some_iff] at h
        obtain ⟨y, hy, rfl⟩ := h
        exact .inr ⟨y, rfl, ih _ _ (fit_zero hr t ht) hy⟩
    · split at h
      · simp only [] at h
        split at h
        · simp only [Option.map_eq_some_iff] at h
          obtain ⟨y, hy, rfl⟩ := h
          exact .inr ⟨y, rfl, ih _ _ hw hy⟩
        · injection h with h; exact .inl h.symm
      · simp only [Option.map_eq_some_iff] at h
        obtain ⟨y, hy, rfl⟩ := h
        exact .inr ⟨y, rfl, ih _ _ hw hy⟩
  | .struct fs, ht, j, hj, p, x, hp, h => by
    simp only [Ty.plain] at ht
    simp only [decJ] at h
    unfold structTyJ at h
    split at h
    · injection h with h; subst h; exact hp
    · simp only [Option.map_eq_some_iff] at h
      obtain ⟨ys, h, rfl⟩ := h
      simp only [Fit] at hp ⊢
      obtain ⟨xs, rfl, hxs⟩ := hp
      refine ⟨ys, rfl, structJ_fit _ (fun m hm i f hi => ?_) xs ys hxs h⟩
      obtain ⟨t, h1, h2⟩ := decJF_fit hr dyn dynJ fs ht.2.2 i f hi
      exact ⟨t, h1, h2 m.2 (jsonOk_obj.1 hj m hm).2⟩
    · contradiction
  | .quotedInt (.int k), _, j, _, p, x, hp, h => by
    simp only [decJ] at h
    simp only [Fit] at hp ⊢
    refine quotedJ_fit (F := fun x => ∃ z, KindFits k z ∧ x = .int z) h hp (fun h => ?_) fun b r h => ?_
    · exact intJ_fit (c := c) (by simpa only [decJ] using h) hp
    · exact fromStringToInt_fit (F := Fit c (.int k)) (fun b p x r h hp => decodeInt_fit (by simpa only [dec] using h) hp) h hp
  | .quoted .bool, _, j, _, p, x, hp, h => by
    simp only [decJ] at h
    refine quotedJ_fit (F := Fit c .bool) h hp (fun h => boolJ_fit (dyn := dyn) (dynJ := dynJ) (by simpa only [decJ] using h) hp) fun b r h => ?_
    exact fromString_fit (F := Fit c .bool) (fun b p x r h hp => decodeBool_fit (by simpa only [dec] using h) hp) h hp
  | .quoted .number, _, j, _, p, x, hp, h => by
    simp only [decJ] at h
    refine quotedJ_fit (F := Fit c .number) h hp (fun h => numberJ_fit (j := .null) (dyn := dyn) (dynJ := dynJ) (by simp [JsonOk]) (by simpa only [decJ] using h) hp) fun b r h => ?_
    exact fromString_fit (F := Fit c .number) (fun b p x r h hp => decodeNumber_fit (by simpa only [dec] using h) hp) h hp
  | .quoted .string, _, j, _, p, x, hp, h => by
    simp only [decJ] at h
    refine quotedJ_fit (F := Fit c .string) h hp (fun h => stringJ_fit (j := .null) (dyn := dyn) (dynJ := dynJ) (by simp [JsonOk]) (by simpa only [decJ] using h) hp) fun b r h => ?_
    exact fromString_fit (F := Fit c .string) (fun b p x r h hp => decodeString_fit (by simpa only [dec] using h) hp) h hp
  | .quoted .float32, _, j, _, p, x, hp, h => by
    simp only [decJ] at h
    refine quotedJ_fit (F := Fit c .float32) h hp (fun h => floatJ_fit (j := .null) hr (by simp [JsonOk]) (by simpa only [decJ] using h) hp) fun b r h => ?_
    exact fromString_fit (F := Fit c .float32) (fun b p x r h hp => decodeFloat_fit hr (by simpa only [dec] using h) hp) h hp
  | .quoted .float64, _, j, _, p, x, hp, h => by
    simp only [decJ] at h
    refine quotedJ_fit (F := Fit c .float64) h hp (fun h => floatJ_fit (j := .null) hr (by simp [JsonOk]) (by simpa only [decJ] using h) hp) fun b r h => ?_
    exact fromString_fit (F := Fit c .float64) (fun b p x r h hp => decodeFloat_fit hr (by simpa only [dec] using h) hp) h hp
theorem decJF_fit {c : DCfg} (hr : LibReturns c.lib) (dyn : Ty → Dec) (dynJ : Ty → JDec) : ∀ fs : List (Bytes × Ty), plainF fs →
    ∀ (i : Nat) (f : JDec), (decJF c dyn dynJ fs)[i]? = some f → ∃ t : Bytes × Ty, fs[i]? = some t ∧ ∀ j, JsonOk j → ∀ p x, Fit c t.2 p → f j p = some x → Fit c t.2 x
  | [], _, i, f, h => by simp [decJF] at h
  | (n, t) :: fs, ht, 0, f, h => by
    simp only [plainF] at ht
    simp only [decJF, List.getElem?_cons_zero, Option.some.injEq] at h
    subst h
    exact ⟨(n, t), rfl, fun j hj p x => decJ_fit hr dyn dynJ t ht.1 j hj p x⟩
  | (n, t) :: fs, ht, i + 1, f, h => by
    simp only [plainF] at ht
    simp only [decJF, List.getElem?_cons_succ] at h
    simpa using decJF_fit hr dyn dynJ fs ht.2 i f h
end


/-! ### what the encoder sees -/

theorem mapSI_same {c : DCfg} {es : List (MK × DV)} (hs : SortedM es) (he : ∀ e ∈ es, FitK .str e.1 ∧ FitI c e.2) :
    SameTree c (.mapSI (toGVm es)) (.iface .mapSI (.map es)) := by
  have hk : ∀ e ∈ es, ∃ k, e.1 = .str k := by
    rintro ⟨k, w⟩ h
    have := (he _ h).1
    cases k with
    | str k => exact ⟨k, rfl⟩
    | int z => cases this
    | user s => cases this
  have ent : ∀ k w, (MK.str k, w) ∈ es → Coerced k k ∧ SameTree c (toGV w .iface) w := fun k w h => ⟨(he _ h).1, (he _ h).2.1⟩
  simp only [SameTree]
  refine ⟨es, rfl, ?_, ?_, hs, hk, ?_⟩
  · rw [toGVm_map, List.pairwise_map]
    refine List.Pairwise.imp_of_mem ?_ hs
    rintro ⟨k1, w1⟩ ⟨k2, w2⟩ h1 h2 hlt k hc1 hc2
    obtain ⟨k1, rfl⟩ := hk _ h1
    obtain ⟨k2, rfl⟩ := hk _ h2
    have e1 := (coerced_iff.1 hc1).trans (coerced_iff.1 (ent k1 w1 h1).1).symm
    have e2 := (coerced_iff.1 hc2).trans (coerced_iff.1 (ent k2 w2 h2).1).symm
    rw [← e1, ← e2] at hlt
    exact blt_irrefl _ hlt
  · rw [haveTrees_iff, toGVm_map]
    intro e he
    obtain ⟨⟨k, w⟩, h1, rfl⟩ := List.mem_map.1 he
    obtain ⟨k, rfl⟩ := hk _ h1
    exact ⟨w, (ent k w h1).2⟩
  · intro k w
    rw [sameEntry_iff, toGVm_map]
    constructor
    · intro h1
      exact ⟨_, List.mem_map.2 ⟨_, h1, rfl⟩, (ent k w h1).1, (ent k w h1).2⟩
    · rintro ⟨e, he, hc, hw⟩
      obtain ⟨⟨k', w'⟩, h1, rfl⟩ := List.mem_map.1 he
      obtain ⟨k', rfl⟩ := hk _ h1
      have e1 := (coerced_iff.1 hc).trans (coerced_iff.1 (ent k' w' h1).1).symm
      have e2 := C37_unique c hw (ent k' w' h1).2
      rw [e1, e2]
      exact h1

abbrev SeenOk' (c : DCfg) := Seen c (fun s => Coerced s s) (fun w => isNilDV w = false)

theorem fits_seen {c : DCfg} {t : Ty} : ∀ {xs : List DV}, (∀ x ∈ xs, SeenOk' c t x (toGV x t)) → All2 (SeenOk' c t) xs (toGVs xs t)
  | [], _ => trivial
  | x :: xs, h => ⟨h x (by simp), fits_seen fun y hy => h y (by simp [hy])⟩

theorem fitE_seen {c : DCfg} {k : KTy} (hk : k.plain) {t : Ty} : ∀ {es : List (MK × DV)}, (∀ e ∈ es, FitK k e.1 ∧ SeenOk' c t e.2 (toGV e.2 t)) →
    All2 (fun e p => SeenKey (fun s => Coerced s s) k e.1 p.1 ∧ SeenOk' c t e.2 p.2) es (toGVe es k t)
  | [], _ => trivial
  | (a, v) :: es, h => by
    refine ⟨⟨?_, (h _ List.mem_cons_self).2⟩, fitE_seen hk fun e he => h e (List.mem_cons_of_mem _ he)⟩
    have := (h _ List.mem_cons_self).1
    cases k <;> cases a <;> simp only [FitK] at this
    · exact ⟨this, rfl⟩
    · exact ⟨this, rfl⟩
    · obtain ⟨t, ht, ha, rfl⟩ := this
      obtain ⟨u, hu, hc, ha', hk'⟩ := hk t ht ha
      exact ⟨u, hu, hc, ha', hk', by simp only [MK.toKey, hu]⟩

theorem told_mem : ∀ {xs : List DV}, toldL xs → ∀ x ∈ xs, x.told
  | y :: ys, h, x, hx => by
    simp only [toldL] at h
    rcases List.mem_cons.1 hx with rfl | hx
    · exact h.1
    · exact told_mem h.2 x hx

theorem told_memE : ∀ {es : List (MK × DV)}, toldE es → ∀ e ∈ es, e.2.told
  | (k, y) :: ys, h, e, he => by
    simp only [toldE] at h
    rcases List.mem_cons.1 he with rfl | he
    · exact h.1
    · exact told_memE h.2 e he

mutual
theorem fit_seen {c : DCfg} : ∀ t : Ty, t.plain → ∀ v, Fit c t v → v.told → SeenOk' c t v (toGV v t)
  | .bool, _, v, hv, _ => by
    obtain ⟨b, rfl⟩ := hv
    exact ⟨b, rfl, by simp only [toGV]⟩
  | .int k, _, v, hv, _ => by
    obtain ⟨z, hz, rfl⟩ := hv
    exact ⟨z, hz, rfl, by simp only [toGV, seenInt]⟩
  | .float32, _, v, hv, _ => by
    obtain ⟨e, t, ok, h, rfl⟩ := hv
    exact ⟨e, t, ok, h, rfl, by simp only [toGV]⟩
  | .float64, _, v, hv, _ => by
    obtain ⟨e, t, ok, h, rfl⟩ := hv
    exact ⟨e, t, ok, h, rfl, by simp only [toGV]⟩
  | .number, _, v, hv, ht => by
    obtain ⟨s, h, rfl⟩ := hv
    exact ⟨s, h.resolve_left (by simpa only [DV.told] using ht), rfl, by simp only [toGV]⟩
  | .string, _, v, hv, _ => by
    obtain ⟨s, h, rfl⟩ := hv
    exact ⟨s, h, rfl, by simp only [toGV]⟩
  | .bytes, _, v, hv, _ => by
    rcases hv with rfl | ⟨s, sp, rfl⟩
    · exact .inl ⟨rfl, by simp only [toGV]⟩
    · exact .inr ⟨s, sp, rfl, by simp only [toGV]⟩
  | .duration, _, v, hv, _ => by
    obtain ⟨z, h, rfl⟩ := hv
    exact ⟨z, h, rfl, by simp only [toGV]⟩
  | .time, _, v, hv, _ => by
    obtain ⟨s, h1, h2, rfl⟩ := hv
    exact ⟨s, h1, h2, rfl, by simp only [toGV, dif_pos h1]⟩
  | .iface, _, v, hv, _ => by
    obtain ⟨h1, h2⟩ := hv
    refine ⟨h1, ?_⟩
    rcases h2 with rfl | ⟨t, w, rfl, hw, _⟩
    · exact .inl ⟨by simp only [toGV], rfl⟩
    · exact .inr ⟨by simp, toGV w t, by simp only [toGV, hw]⟩
  | .slice t, hp, v, hv, ht => by
    simp only [Fit] at hv
    rcases hv with rfl | ⟨xs, sp, rfl, h1, _⟩
    · simp only [SeenOk', Seen, toGV]; exact .inl ⟨trivial, trivial⟩
    · simp only [DV.told] at ht
      simp only [SeenOk', Seen, toGV]
      exact .inr ⟨xs, sp, _, rfl, rfl, fits_seen fun x hx => fit_seen t hp x (h1 x hx) (told_mem ht x hx)⟩
  | .array n t, hp, v, hv, ht => by
    simp only [Fit] at hv
    obtain ⟨xs, rfl, hl, h1⟩ := hv
    simp only [DV.told] at ht
    simp only [SeenOk', Seen, toGV]
    exact ⟨xs, _, hl, rfl, rfl, fits_seen fun x hx => fit_seen t hp x (h1 x hx) (told_mem ht x hx)⟩
  | .map k t, hp, v, hv, ht => by
    simp only [Fit] at hv
    rcases hv with rfl | ⟨es, rfl, hs, he⟩
    · simp only [SeenOk', Seen, toGV]; exact .inl ⟨trivial, trivial⟩
    · simp only [DV.told] at ht
      simp only [SeenOk', Seen, toGV]
      exact .inr ⟨es, _, _, rfl, rfl, hs, .refl _, fitE_seen hp.1 fun e h => ⟨(he e h).1, fit_seen t hp.2 e.2 (he e h).2 (told_memE ht e h)⟩⟩
  | .mapSI, _, v, hv, _ => by
    simp only [Fit] at hv
    rcases hv with rfl | ⟨es, rfl, hs, he⟩
    · simp only [SeenOk', Seen, toGV]; exact .inl ⟨trivial, trivial⟩
    · simp only [SeenOk', Seen, toGV]
      exact .inr ⟨es, _, rfl, rfl, mapSI_same hs he⟩
  | .ptr t, hp, v, hv, ht => by
    simp only [Fit] at hv
    rcases hv with rfl | ⟨w, rfl, hw⟩
    · simp only [SeenOk', Seen, toGV]; exact .inl ⟨trivial, trivial⟩
    · simp only [DV.told] at ht
      simp only [SeenOk', Seen, toGV]
      exact .inr ⟨w, _, rfl, rfl, ht.1, fit_seen t hp w hw ht.2⟩
  | .struct fs, hp, v, hv, ht => by
    simp only [Ty.plain] at hp
    simp only [Fit] at hv
    obtain ⟨xs, rfl, hx⟩ := hv
    simp only [DV.told] at ht
    simp only [SeenOk', Seen, toGV]
    exact ⟨xs, _, rfl, rfl, hp.1, hp.2.1, fitF_seen fs hp.2.2 xs hx ht⟩
  | .quotedInt (.int k), _, v, hv, _ => by
    simp only [Fit] at hv
    obtain ⟨z, hz, rfl⟩ := hv
    exact ⟨z, hz, rfl, by simp only [toGV, quotedGV, seenInt]⟩
  | .quoted .bool, _, v, hv, _ => by
    obtain ⟨b, rfl⟩ := hv
    exact ⟨b, rfl, by simp only [toGV, quotedGV]⟩
  | .quoted .number, _, v, hv, ht => by
    obtain ⟨s, h, rfl⟩ := hv
    exact ⟨s, h.resolve_left (by simpa only [DV.told] using ht), rfl, by simp only [toGV, quotedGV]⟩
  | .quoted .string, _, v, hv, _ => by
    obtain ⟨s, h, rfl⟩ := hv
    exact ⟨s, h, rfl, by simp only [toGV, quotedGV]⟩
  | .quoted .float32, _, v, hv, _ => by
    obtain ⟨e, t, ok, h, rfl⟩ := hv
    exact ⟨e, t, ok, h, rfl, by simp only [toGV, quotedGV]⟩
  | .quoted .float64, _, v, hv, _ => by
    obtain ⟨e, t, ok, h, rfl⟩ := hv
    exact ⟨e, t, ok, h, rfl, by simp only [toGV, quotedGV]⟩
theorem fitF_seen {c : DCfg} : ∀ fs : List (Bytes × Ty), plainF fs → ∀ xs, FitF c fs xs → toldL xs →
    SeenF c (fun s => Coerced s s) (fun w => isNilDV w = false) fs xs (toGVf xs fs)
  | [], _, xs, hx, _ => by
    simp only [FitF] at hx
    subst hx
    simp [SeenF, toGVf]
  | (n, t) :: fs, hp, xs, hx, ht => by
    simp only [plainF] at hp
    simp only [FitF] at hx
    obtain ⟨v, vs, rfl, h1, h2⟩ := hx
    simp only [toldL] at ht
    simp only [SeenF, toGVf]
    exact ⟨v, vs, _, _, _, rfl, rfl, rfl, (fun h => by cases h), fit_seen t hp.1 v h1 ht.1, fitF_seen fs hp.2 vs h2 ht.2⟩
end

mutual
theorem plain_tree : ∀ t : Ty, t.plain → t.tree
  | .bool, _ | .int _, _ | .float32, _ | .float64, _ | .number, _ | .string, _ | .bytes, _ | .duration, _ | .time, _ | .iface, _ | .mapSI, _ => trivial
  | .slice t, h | .array _ t, h | .ptr t, h => by simp only [Ty.tree]; exact plain_tree t h
  | .map _ t, h => by simp only [Ty.tree]; exact plain_tree t h.2
  | .struct fs, h => by
    simp only [Ty.plain] at h
    simp only [Ty.tree]
    exact plainF_tree fs h.2.2
  | .quotedInt (.int _), _ | .quoted .bool, _ | .quoted .number, _ | .quoted .string, _ | .quoted .float32, _ | .quoted .float64, _ => trivial
theorem plainF_tree : ∀ fs : List (Bytes × Ty), plainF fs → treeF fs
  | [], _ => trivial
  | (_, t) :: fs, h => by
    simp only [plainF] at h
    exact ⟨plain_tree t h.1, plainF_tree fs h.2⟩
end

theorem decJN_fit {c : DCfg} (hr : LibReturns c.lib) (m : Nat) {t : Ty} (ht : t.plain) {j : Json} (hj : JsonOk j) {p x : DV} (hp : Fit c t p)
    (h : decJN c m t j p = some x) : Fit c t x := by
  cases m with
  | zero => exact decJ_fit hr _ _ t ht j hj p x hp h
  | succ m => exact decJ_fit hr _ _ t ht j hj p x hp h

end JC
