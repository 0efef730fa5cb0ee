import Verif.Spec.EmbedEnc
import Verif.Lemmas.EmbedMembers
import Verif.Lemmas.Stray
/-! Lemmas on encoding structs with embedded pointers. -/
namespace JC
open Spec

/-- what the codec of a field finds -/
def ECodec.see : ECodec → List Cell → Nat → GV
  | .plain t, m, off =>
    match m[off]? with
    | some (.leaf v) => toGV v t
    | _ => .unsupported
  | .embPtr _ _ offset field, m, off =>
    match m[off]? with
    | some .nil => .embNil false
    | some (.ptr v) => field.see v offset
    | _ => .unsupported

theorem mem_at {fs : List EF} {vs : List EV} (hs : ShapeL fs vs) {i : Nat} {v : EV} (hv : vs[i]? = some v) {cell : Cell} (hc : v.mem = [cell]) :
    (memL vs)[offOf fs i]? = some cell := by
  obtain ⟨a, z, h1, h2, _⟩ := mem_split hs hv
  rw [h2, ← h1, hc]
  simp

theorem mem_in {fs : List EF} {vs ws : List EV} (hs : ShapeL fs vs) {i : Nat} (hv : vs[i]? = some (.val ws)) {o : Nat} (ho : o < (memL ws).length) :
    (memL vs)[o + offOf fs i]? = (memL ws)[o]? := by
  obtain ⟨a, z, h1, h2, _⟩ := mem_split hs hv
  rw [h2, ← h1]
  simp only [EV.mem]
  rw [List.getElem?_append_right (by omega), Nat.add_sub_cancel, List.getElem?_append_left ho]

theorem encode_congr {c : Cfg} {cd : ECodec} {m m' : List Cell} {o o' : Nat} (h : m[o]? = m'[o']?) : cd.encode c m o = cd.encode c m' o' := by
  cases cd <;> simp only [ECodec.encode, h]

theorem see_congr {cd : ECodec} {m m' : List Cell} {o o' : Nat} (h : m[o]? = m'[o']?) : cd.see m o = cd.see m' o' := by
  cases cd <;> simp only [ECodec.see, h]

theorem place_see {fs : List EF} {o : Nat} {cd : ECodec} {p : List Nat} {t : Ty} (h : Place fs o cd p t) : ∀ {vs : List EV}, ShapeL fs vs →
    ((Blocked fs vs p ∧ cd.see (memL vs) o = .embNil false) ∨ (¬ Blocked fs vs p ∧ ∃ v, Reads fs vs p v ∧ cd.see (memL vs) o = toGV v t)) ∧
      ∀ c, cd.encode c (memL vs) o = enc c (cd.see (memL vs) o) := by
  induction h with
  | leaf fs i nm g t h =>
    intro vs hs
    obtain ⟨v, hv, hsv⟩ := shapeL_get hs h
    cases v with
    | leaf v =>
      have hm := mem_at hs hv (cell := .leaf v) (by simp [EV.mem])
      refine ⟨.inr ⟨?_, v, .leaf fs vs i nm g t v h hv, by simp only [ECodec.see, hm]⟩, fun c => by simp only [ECodec.encode, ECodec.see, hm]⟩
      intro hb
      cases hb with
      | here _ _ _ _ _ _ h' => rw [h] at h'; injection h' with h'; cases h'
      | val _ _ _ _ _ _ h' => rw [h] at h'; injection h' with h'; cases h'
      | ptr _ _ _ _ _ _ _ h' => rw [h] at h'; injection h' with h'; cases h'
    | val | nil | ptr => simp [Shape] at hsv
  | val fs i sub o cd p t h hp ih =>
    intro vs hs
    obtain ⟨v, hv, hsv⟩ := shapeL_get hs h
    cases v with
    | val us =>
      have hus : ShapeL sub us := by simpa only [Shape] using hsv
      obtain ⟨h1, h2⟩ := ih hus
      have hm := mem_in hs hv (o := o) (by rw [shapeL_len hus]; exact hp.lt)
      rw [see_congr hm]
      refine ⟨?_, fun c => by rw [encode_congr hm]; exact h2 c⟩
      rcases h1 with ⟨hb, e⟩ | ⟨hb, v, hr, e⟩
      · exact .inl ⟨.val fs vs i sub us p h hv hb, e⟩
      · refine .inr ⟨?_, v, .val fs vs i sub us p v h hv hr, e⟩
        intro hb'
        cases hb' with
        | here _ _ _ _ _ _ h' => rw [h] at h'; injection h' with h'; cases h'
        | val _ _ _ _ _ _ h' hv' hb' =>
          rw [h] at h'; injection h' with h'; injection h' with h'; subst h'
          rw [hv] at hv'; injection hv' with hv'; injection hv' with hv'; subst hv'
          exact hb hb'
        | ptr _ _ _ _ _ _ _ h' => rw [h] at h'; injection h' with h'; cases h'
    | leaf | nil | ptr => simp [Shape] at hsv
  | ptr fs i u sub o cd p t h hp ih =>
    intro vs hs
    obtain ⟨v, hv, hsv⟩ := shapeL_get hs h
    cases v with
    | nil =>
      have hm := mem_at hs hv (cell := .nil) (by simp [EV.mem])
      refine ⟨.inl ⟨.here fs vs i u sub p h hv, by simp only [ECodec.see, hm]⟩, fun c => by simp only [ECodec.encode, ECodec.see, hm, enc]⟩
    | ptr us =>
      have hus : ShapeL sub us := by simpa only [Shape] using hsv
      obtain ⟨h1, h2⟩ := ih hus
      have hm := mem_at hs hv (cell := .ptr (memL us)) (by simp [EV.mem])
      have e1 : (ECodec.embPtr (zeroCells sub) u o cd).see (memL vs) (offOf fs i) = cd.see (memL us) o := by simp only [ECodec.see, hm]
      rw [e1]
      refine ⟨?_, fun c => by simp only [ECodec.encode, hm]; exact h2 c⟩
      rcases h1 with ⟨hb, e⟩ | ⟨hb, v, hr, e⟩
      · exact .inl ⟨.ptr fs vs i u sub us p h hv hb, e⟩
      · refine .inr ⟨?_, v, .ptr fs vs i u sub us p v h hv hr, e⟩
        intro hb'
        cases hb' with
        | here _ _ _ _ _ _ h' hv' => rw [hv] at hv'; injection hv' with hv'; cases hv'
        | val _ _ _ _ _ _ h' => rw [h] at h'; injection h' with h'; cases h'
        | ptr _ _ _ _ _ _ _ h' hv' hb' =>
          rw [h] at h'; injection h' with h'; injection h' with _ h'; subst h'
          rw [hv] at hv'; injection hv' with hv'; injection hv' with hv'; subst hv'
          exact hb hb'
    | leaf | val => simp [Shape] at hsv

theorem structLoop_fields (c : Cfg) (start : Nat) (m : List Cell) : ∀ (flds : List EField), (∀ f ∈ flds, f.codec.encode c m f.off = enc c (f.codec.see m f.off)) →
    ∀ (n : Nat) (b : Bytes) (d : Int),
    structLoop c start n (flds.map fun f => (⟨f.sf.name, false⟩, false, f.codec.encode c m f.off)) b d =
      structLoop c start n (encF c (flds.map fun f => (⟨f.sf.name, false⟩, f.codec.see m f.off))) b d
  | [], _, n, b, d => by simp only [List.map_nil, encF]
  | f :: fs, h, n, b, d => by
    have ih := structLoop_fields c start m fs fun f hf => h f (by simp [hf])
    simp only [List.map_cons, encF, structLoop, Bool.false_eq_true, false_and, if_false, h f (by simp), ih]

theorem encodeStructE_see {fs : List EF} {vs : List EV} (hs : ShapeL fs vs) (c : Cfg) :
    encodeStructE c (fieldsE fs) (memL vs) = enc c (.struct ((fieldsE fs).map fun f => (⟨f.sf.name, false⟩, f.codec.see (memL vs) f.off))) := by
  funext b d
  have h : ∀ f ∈ fieldsE fs, f.codec.encode c (memL vs) f.off = enc c (f.codec.see (memL vs) f.off) := by
    intro f hf
    obtain ⟨t, ht⟩ := fieldsE_located fs f hf
    exact (place_see ht hs).2 c
  simp only [encodeStructE, enc, encodeStruct, structLoop_fields c _ _ _ h, encF_length, List.length_map]

theorem sees_fields {fs : List EF} {vs : List EV} (hs : ShapeL fs vs) :
    Sees fs vs (promoted fs) ((fieldsE fs).map fun f => (⟨f.sf.name, false⟩, f.codec.see (memL vs) f.off)) := by
  refine ⟨by simp [promoted], ?_⟩
  rintro i ⟨nm, p, t⟩ ha
  obtain ⟨f, hf, rfl, rfl, hp⟩ := promoted_get ha
  exact ⟨_, by rw [List.getElem?_map, hf]; rfl, rfl, (place_see hp hs).1⟩

/-! ### nils first -/

/-- fields behind nil pointers that come first leave no trace -/
theorem structLoop_nils (c : Cfg) (hc : ∀ b k d, ∃ t, structKey c b k d = b ++ t) (start : Nat) : ∀ (ns : List (FMeta × GV)) (rest : List (FMeta × Bool × Enc)),
    (∀ f ∈ ns, isRollback f.2 = true) → ∀ (b : Bytes) (d : Int) (n : Nat), DepthOk c d n → structLoop c start 0 (encF c ns ++ rest) b d = structLoop c start 0 rest b d
  | [], rest, _, b, d, n, _ => by simp only [encF, List.nil_append]
  | (m, v) :: ns, rest, h, b, d, n, hd => by
    have ih := structLoop_nils c hc start ns rest (fun f hf => h f (by simp [hf])) b d n hd
    have hv : isRollback v = true := h (m, v) (by simp)
    simp only [encF, List.cons_append, structLoop]
    by_cases ho : m.omitempty = true ∧ isEmpty v = true
    · rw [if_pos ho]; exact ih
    · rw [if_neg ho, if_neg (by simp)]
      have hdv := enc_does c v
      rw [isRollback_meaning c v hv] at hdv
      obtain ⟨b', d', hq, hr⟩ := hdv (c.appendByte (appendPunc c.clrs (structKey c b (doEncodeString c.escapeHTML [] m.name) d) (ch! ':')) (ch! ' ')) d n hd
      rw [hq]
      simp only [if_true]
      obtain ⟨t5, e5⟩ := enc_extends c v _ _ hq
      obtain ⟨t2, e2⟩ := hc b (doEncodeString c.escapeHTML [] m.name) d
      obtain ⟨t3, e3⟩ : ∃ t, appendPunc c.clrs (b ++ t2) (ch! ':') = b ++ t := by
        cases c.clrs with
        | none => exact ⟨t2 ++ [ch! ':'], by simp [appendPunc]⟩
        | some cl => exact ⟨t2 ++ cl.puncColor (ch! ':') ++ [ch! ':'] ++ ansiReset, by simp [appendPunc]⟩
      obtain ⟨t4, e4, _⟩ := appendByte_extends c (b ++ t3) (ch! ' ')
      rw [e5, e2, e3, e4, hr rfl]
      have : (b ++ t3 ++ t4 ++ t5).take b.length = b := by
        simp only [List.append_assoc]; exact List.take_left
      rw [this]
      exact ih

theorem structKey_ext (c : Cfg) (b k : Bytes) (d : Int) : ∃ t, structKey c b k d = b ++ t := by
  have hi : ∃ t, c.appendIndent d b = b ++ t := by
    unfold Cfg.appendIndent
    cases c.ind with
    | none => exact ⟨[], by simp⟩
    | some i =>
      simp only []
      split
      · exact ⟨[], by simp⟩
      · exact ⟨i.pre ++ (List.replicate d.toNat i.indent).flatten, by simp⟩
  obtain ⟨t, e⟩ := hi
  unfold structKey
  rw [e]
  cases c.clrs with
  | none => exact ⟨t ++ k, by simp⟩
  | some cl => exact ⟨t ++ cl.key ++ k ++ ansiReset, by simp⟩

theorem struct_nils (c : Cfg) {ns rest : List (FMeta × GV)} (h : ∀ f ∈ ns, isRollback f.2 = true) (hr : rest ≠ [] ∨ c.ind = none) (b : Bytes) (n : Nat) :
    enc c (.struct (ns ++ rest)) b n = enc c (.struct rest) b n := by
  have hd : DepthOk c (c.push n) (n + 1) := DepthOk.push (fun _ => rfl)
  simp only [enc, encodeStruct, encF_append, List.length_append, encF_length]
  rw [structLoop_nils c (structKey_ext c) b.length ns (encF c rest) h _ _ _ hd]
  have e : (if ns.length + rest.length > 0 then c.appendByte (appendPunc c.clrs b (ch! '{')) 0x0a else appendPunc c.clrs b (ch! '{')) =
      if rest.length > 0 then c.appendByte (appendPunc c.clrs b (ch! '{')) 0x0a else appendPunc c.clrs b (ch! '{') := by
    rcases hr with hr | hr
    · have := List.length_pos_iff.2 hr
      rw [if_pos (by omega), if_pos this]
    · have : ∀ x a, c.appendByte x a = x := by intro x a; simp [Cfg.appendByte, hr]
      simp [this]
  rw [e]

end JC
