import Verif.Spec.Stray
import Verif.Lemmas.Segs
import Verif.Props.Encode
/-! A comma without a member behind it. -/
namespace JC
open Spec

/-- After some members, a comma, and then another comma or a brace: the parser fails. -/
theorem stray_fails {s : Sym} {M : Bytes} (h : Derives s M) : ∀ ms, s = .members ms → ∀ (p w rest : Bytes) (c : UInt8) (n : Nat), Ws w →
    (c = 0x2c ∨ c = 0x7d) → 4 * M.length + 2 ≤ n → ∃ r e, objItem n p (skipSpaces (M ++ 0x2c :: (w ++ c :: rest))) = .fail r e := by
  induction h with
  | memOne w1 w2 w3 w4 k j b h1 h2 h3 h4 hk hj ih =>
    intro ms _ p w rest x n hw hx hn
    obtain ⟨n, rfl⟩ : ∃ m, n = m + 3 := ⟨n - 3, by simp at hn; omega⟩
    obtain ⟨c, t, hb, hc, _⟩ := derives_value_head hj
    obtain ⟨t', hk'⟩ := JString.head hk
    have hv := complete hj (w4 ++ 0x2c :: (w ++ x :: rest)) (n + 2) (follow_of_numStop (numStop_ws_cons h4 (by simp))) (by simp at hn; omega)
    have hs : skipSpaces (w1 ++ k ++ w2 ++ 58 :: (w3 ++ b ++ w4) ++ 44 :: (w ++ x :: rest)) = k ++ (w2 ++ 58 :: (w3 ++ (b ++ (w4 ++ 44 :: (w ++ x :: rest))))) := by
      simp only [List.append_assoc]
      rw [skipSpaces_ws_append h1, hk', List.cons_append, skipSpaces_cons_of_not (by decide)]
      simp
    rw [hs]
    unfold objItem
    rw [parseString_complete hk]
    simp only
    rw [skipSpaces_ws_append h2, skipSpaces_cons_of_not (by decide)]
    simp only
    rw [if_neg (by simp), skipSpaces_ws_append h3]
    have e : skipSpaces (b ++ (w4 ++ 44 :: (w ++ x :: rest))) = b ++ (w4 ++ 44 :: (w ++ x :: rest)) := by
      rw [hb, List.cons_append, skipSpaces_cons_of_not hc]
    rw [e, hv]
    simp only
    unfold objLoop
    rw [skipSpaces_ws_append h4, skipSpaces_cons_of_not (by decide)]
    simp only
    rw [if_neg (by decide), if_neg (by simp), if_neg (by simp)]
    rcases hx with rfl | rfl
    · rw [skipSpaces_ws_append hw, skipSpaces_cons_of_not (by decide)]
      simp only
      rw [if_neg (by decide)]
      unfold objItem
      have : ∃ r e, parseString (44 :: rest) = .fail r e := by
        unfold parseString parseStringFast
        cases rest <;> simp
      obtain ⟨r, e, h⟩ := this
      rw [h]
      exact ⟨_, _, rfl⟩
    · rw [skipSpaces_ws_append hw, skipSpaces_cons_of_not (by decide)]
      simp only
      rw [if_pos (by decide)]
      exact ⟨_, _, rfl⟩
  | memCons w1 w2 w3 w4 k j b ms bs h1 h2 h3 h4 hk hj hms ih1 ih2 =>
    intro ms' _ p w rest x n hw hx hn
    obtain ⟨n, rfl⟩ : ∃ m, n = m + 2 := ⟨n - 2, by omega⟩
    obtain ⟨c, t, hb, hc, _⟩ := derives_value_head hj
    obtain ⟨t', hk'⟩ := JString.head hk
    have hv := complete hj (w4 ++ 0x2c :: (bs ++ 0x2c :: (w ++ x :: rest))) (n + 1) (follow_of_numStop (numStop_ws_cons h4 (by simp))) (by simp at hn; omega)
    have hs : skipSpaces (w1 ++ k ++ w2 ++ 58 :: (w3 ++ b ++ w4 ++ 44 :: bs) ++ 44 :: (w ++ x :: rest)) = k ++ (w2 ++ 58 :: (w3 ++ (b ++ (w4 ++ 44 :: (bs ++ 44 :: (w ++ x :: rest)))))) := by
      simp only [List.append_assoc]
      rw [skipSpaces_ws_append h1, hk', List.cons_append, skipSpaces_cons_of_not (by decide)]
      simp
    rw [hs]
    unfold objItem
    rw [parseString_complete hk]
    simp only
    rw [skipSpaces_ws_append h2, skipSpaces_cons_of_not (by decide)]
    simp only
    rw [if_neg (by simp), skipSpaces_ws_append h3]
    have e : skipSpaces (b ++ (w4 ++ 44 :: (bs ++ 44 :: (w ++ x :: rest)))) = b ++ (w4 ++ 44 :: (bs ++ 44 :: (w ++ x :: rest))) := by
      rw [hb, List.cons_append, skipSpaces_cons_of_not hc]
    rw [e, hv]
    simp only
    unfold objLoop
    rw [skipSpaces_ws_append h4, skipSpaces_cons_of_not (by decide)]
    simp only
    rw [if_neg (by decide), if_neg (by simp), if_neg (by simp)]
    obtain ⟨r, e, h5⟩ := ih2 ms rfl p w rest x n hw hx (by simp at hn; omega)
    obtain ⟨t'', hsk⟩ := derives_members_head hms (0x2c :: (w ++ x :: rest))
    rw [hsk] at h5 ⊢
    simp only
    rw [if_neg (by decide)]
    exact ⟨r, e, h5⟩
  | _ => intro ms e; cases e

theorem stray_not_json {M : Bytes} {ms : List (Bytes × Json)} (h : Derives (.members ms) M) {w rest : Bytes} {c : UInt8} (hw : Ws w)
    (hc : c = 0x2c ∨ c = 0x7d) : ¬ IsJson (0x7b :: (M ++ 0x2c :: (w ++ c :: rest))) := by
  rw [← Props.C01_valid_iff]
  have hf : ∃ r e, parseValue (0x7b :: (M ++ 0x2c :: (w ++ c :: rest))) = .fail r e := by
    unfold parseValue
    obtain ⟨n, hn⟩ : ∃ n, fuelFor (0x7b :: (M ++ 0x2c :: (w ++ c :: rest))) = n + 3 := ⟨fuelFor (0x7b :: (M ++ 0x2c :: (w ++ c :: rest))) - 3, by simp [fuelFor]⟩
    have hn' : 4 * M.length + 2 ≤ n := by simp [fuelFor] at hn; omega
    rw [hn]
    obtain ⟨r, e, h1⟩ := stray_fails h ms rfl (0x7b :: (M ++ 0x2c :: (w ++ c :: rest))) w rest c n hw hc hn'
    refine ⟨r, e, ?_⟩
    obtain ⟨t, hsk⟩ := derives_members_head h (0x2c :: (w ++ c :: rest))
    simp only [parseValueF, parseObjectF, objLoop]
    rw [if_pos trivial]
    rw [if_neg (by simp; omega), if_neg (by simp)]
    rw [hsk] at h1 ⊢
    simp only [if_true]
    rw [if_neg (by decide)]
    exact h1
  obtain ⟨r, e, hf⟩ := hf
  unfold Valid
  rw [skipSpaces_cons_of_not (by decide), hf]
  simp

/-! ### the loop -/

theorem structLoop_append (c : Cfg) (start : Nat) : ∀ (fs gs : List (FMeta × Bool × Enc)) (n : Nat) (b : Bytes) (d : Int),
    structLoop c start n (fs ++ gs) b d =
      match structLoop c start n fs b d with
      | (.panic, m) => (.panic, m)
      | (.done b d (some e), m) => (.done b d (some e), m)
      | (.done b d none, m) => structLoop c start m gs b d
  | [], gs, n, b, d => by simp only [List.nil_append, structLoop]
  | (m, z, f) :: fs, gs, n, b, d => by
    simp only [List.cons_append, structLoop]
    by_cases h : m.omitempty = true ∧ z = true
    · rw [if_pos h, if_pos h]; exact structLoop_append c start fs gs n b d
    · rw [if_neg h, if_neg h]
      generalize f _ d = q
      cases q with
      | panic => rfl
      | done b' d' e =>
        cases e with
        | none => exact structLoop_append c start fs gs _ _ _
        | some e =>
          simp only []
          by_cases he : e = .rollback
          · rw [if_pos he, if_pos he]; exact structLoop_append c start fs gs _ _ _
          · rw [if_neg he, if_neg he]

theorem encF_append (c : Cfg) : ∀ fs gs, encF c (fs ++ gs) = encF c fs ++ encF c gs
  | [], gs => by simp only [List.nil_append, encF]
  | (m, v) :: fs, gs => by simp only [List.cons_append, encF, encF_append c fs gs]

theorem enc_extends (c : Cfg) (v : GV) (b : Bytes) (d : Int) {out : Bytes} {d' : Int} {e : Option Err} (h : enc c v b d = .done out d' e) : ∃ t, out = b ++ t := by
  have := loc_enc c v b [] d
  rw [List.append_nil, h] at this
  generalize enc c v [] d = q at this
  cases q with
  | panic => cases this
  | done x y z =>
    simp only [Out.prepend, Out.done.injEq] at this
    exact ⟨x, this.1⟩

theorem appendByte_extends (c : Cfg) (b : Bytes) (a : UInt8) : ∃ t, c.appendByte b a = b ++ t ∧ (t = [] ∨ t = [a]) := by
  unfold Cfg.appendByte
  cases c.ind with
  | none => exact ⟨[], by simp⟩
  | some i =>
    simp only []
    split
    · exact ⟨[], by simp⟩
    · exact ⟨[a], by simp⟩

theorem appendIndent_extends {c : Cfg} (hw : WsLayout c) (d : Int) (b : Bytes) : ∃ t, c.appendIndent d b = b ++ t ∧ Ws t := by
  unfold Cfg.appendIndent
  cases hc : c.ind with
  | none => exact ⟨[], by simp, ws_nil⟩
  | some i =>
    simp only []
    split
    · exact ⟨[], by simp, ws_nil⟩
    · refine ⟨i.pre ++ (List.replicate d.toNat i.indent).flatten, by simp, (hw i hc).1.append ?_⟩
      intro x hx
      obtain ⟨l, hl, hxl⟩ := List.mem_flatten.1 hx
      rw [List.eq_of_mem_replicate hl] at hxl
      exact (hw i hc).2 x hxl

theorem structKey_extends {c : Cfg} (hc : c.clrs = none) (hw : WsLayout c) (b k : Bytes) (d : Int) : ∃ t, structKey c b k d = b ++ t := by
  unfold structKey
  rw [hc]
  obtain ⟨t, e, _⟩ := appendIndent_extends hw d b
  rw [e]
  exact ⟨t ++ k, by simp⟩

/-- Once a member was written, all that follows begins with a comma. -/
theorem structLoop_tail {c : Cfg} (hc : c.clrs = none) (hw : WsLayout c) (start : Nat) : ∀ (fs : List (FMeta × GV)) (n : Nat) (b : Bytes) (d : Int) (out : Bytes) (d' : Int) (m : Nat),
    n ≠ 0 → structLoop c start n (encF c fs) b d = (.done out d' none, m) → ∃ t, out = b ++ t ∧ (t = [] ∨ t.head? = some 0x2c) ∧ m ≠ 0
  | [], n, b, d, out, d', m, hn, h => by
    simp only [encF, structLoop, Prod.mk.injEq, Out.done.injEq] at h
    obtain ⟨⟨rfl, -⟩, rfl⟩ := h
    exact ⟨[], by simp, .inl rfl, hn⟩
  | (mt, v) :: fs, n, b, d, out, d', m, hn, h => by
    simp only [encF, structLoop] at h
    by_cases ho : mt.omitempty = true ∧ isEmpty v = true
    · rw [if_pos ho] at h
      exact structLoop_tail hc hw start fs n b d out d' m hn h
    · rw [if_neg ho, if_pos hn] at h
      obtain ⟨t1, e1, _⟩ := appendByte_extends c (appendPunc c.clrs b (ch! ',')) 0x0a
      have eP : appendPunc c.clrs b (ch! ',') = b ++ [0x2c] := by rw [hc]; rfl
      obtain ⟨B, hB⟩ : ∃ B, B = c.appendByte (appendPunc c.clrs b (ch! ',')) 0x0a := ⟨_, rfl⟩
      have hB' : B = b ++ (0x2c :: t1) := by rw [hB, e1, eP]; simp
      rw [← hB] at h
      obtain ⟨t2, e2⟩ := structKey_extends hc hw B (doEncodeString c.escapeHTML [] mt.name) d
      rw [e2] at h
      have e3 : appendPunc c.clrs (B ++ t2) (ch! ':') = B ++ t2 ++ [ch! ':'] := by rw [hc]; rfl
      rw [e3] at h
      obtain ⟨t4, e4, _⟩ := appendByte_extends c (B ++ t2 ++ [ch! ':']) (ch! ' ')
      rw [e4] at h
      cases hq : enc c v (B ++ t2 ++ [ch! ':'] ++ t4) d with
      | panic => rw [hq] at h; simp at h
      | done b' d2 e =>
        obtain ⟨t5, e5⟩ := enc_extends c v _ d hq
        rw [hq] at h
        cases e with
        | none =>
          simp only [] at h
          obtain ⟨t6, e6, _, hm⟩ := structLoop_tail hc hw start fs _ _ _ _ _ _ (by omega) h
          refine ⟨0x2c :: (t1 ++ t2 ++ [ch! ':'] ++ t4 ++ t5 ++ t6), ?_, .inr rfl, hm⟩
          rw [e6, e5, hB']
          simp
        | some e =>
          simp only [] at h
          by_cases he : e = .rollback
          · rw [if_pos he, e5] at h
            have ht : (B ++ t2 ++ [ch! ':'] ++ t4 ++ t5).take B.length = B := by
              simp only [List.append_assoc]; exact List.take_left
            rw [ht] at h
            obtain ⟨t6, e6, _, hm⟩ := structLoop_tail hc hw start fs _ _ _ _ _ _ hn h
            refine ⟨0x2c :: (t1 ++ t6), ?_, .inr rfl, hm⟩
            rw [e6, hB']
            simp
          · rw [if_neg he] at h
            simp at h

/-! ### fields in order -/

/-- the fields are all right one by one -/
def FieldsOk (c : Cfg) (fs : List (FMeta × GV)) : Prop := ∀ f ∈ fs, Member f → Clean c f.2

theorem nilsFirst_tail {f : FMeta × GV} {fs : List (FMeta × GV)} (h : NilsFirst (f :: fs)) : NilsFirst fs := by
  intro i j a b h1 h2 h3 h4
  have := h (i + 1) (j + 1) a b (by simpa using h1) (by simpa using h2) h3 h4
  omega

theorem cleanF_of {c : Cfg} : ∀ (fs : List (FMeta × GV)) (any : Bool), FieldsOk c fs → NilsFirst fs → (any = true → ∀ f ∈ fs, ¬ Behind f) → CleanF c any fs
  | [], _, _, _, _ => trivial
  | (m, v) :: fs, any, hok, hn, ha => by
    have ih := fun any => cleanF_of fs any (fun f hf => hok f (by simp [hf])) (nilsFirst_tail hn)
    simp only [CleanF]
    by_cases h1 : m.omitempty = true ∧ isEmpty v = true
    · rw [if_pos h1]; exact ih any fun h f hf => ha h f (by simp [hf])
    · rw [if_neg h1]
      by_cases h2 : isRollback v = true
      · rw [if_pos h2]
        refine ⟨?_, ih any fun h f hf => ha h f (by simp [hf])⟩
        cases any with
        | false => rfl
        | true => exact absurd ⟨h1, h2⟩ (ha rfl (m, v) (by simp))
      · rw [if_neg h2]
        have hm : Member (m, v) := ⟨h1, by simpa using h2⟩
        refine ⟨hok (m, v) (by simp) hm, ih true fun _ f hf hb => ?_⟩
        obtain ⟨j, hj⟩ := List.getElem?_of_mem hf
        have := hn 0 (j + 1) (m, v) f rfl (by simpa using hj) hm hb
        omega

/-- Otherwise there is a first field behind a nil pointer that comes after a member. -/
theorem first_stray {c : Cfg} : ∀ (fs : List (FMeta × GV)) (any : Bool), FieldsOk c fs → ¬ (NilsFirst fs ∧ (any = true → ∀ f ∈ fs, ¬ Behind f)) →
    ∃ pre f post, fs = pre ++ f :: post ∧ CleanF c any pre ∧ Behind f ∧ (any = true ∨ ∃ g ∈ pre, Member g)
  | [], any, _, h => by
    exfalso; apply h
    exact ⟨fun i j f g h1 => by simp at h1, fun _ f hf => by simp at hf⟩
  | (m, v) :: fs, any, hok, h => by
    have ih := fun any => first_stray (c := c) fs any (fun f hf => hok f (by simp [hf]))
    by_cases h1 : LeftOut (m, v)
    · obtain ⟨pre, f, post, e, hp, hb, hg⟩ := ih any (by
        intro ⟨hn, ha⟩
        apply h
        refine ⟨?_, ?_⟩
        · intro i j a b ha1 hb1 hma hbb
          cases i with
          | zero => simp at ha1; subst ha1; exact absurd h1 hma.1
          | succ i =>
            cases j with
            | zero => omega
            | succ j =>
              have := hn i j a b (by simpa using ha1) (by simpa using hb1) hma hbb
              omega
        · intro hany f hf
          simp only [List.mem_cons] at hf
          rcases hf with rfl | hf
          · exact fun hb => hb.1 h1
          · exact ha hany f hf)
      refine ⟨(m, v) :: pre, f, post, by simp [e], ?_, hb, ?_⟩
      · simp only [CleanF]; rw [if_pos (show m.omitempty = true ∧ isEmpty v = true from h1)]; exact hp
      · exact hg.imp id fun ⟨g, hg, hm⟩ => ⟨g, by simp [hg], hm⟩
    · by_cases h2 : isRollback v = true
      · cases any with
        | true => exact ⟨[], (m, v), fs, rfl, trivial, ⟨h1, h2⟩, .inl rfl⟩
        | false =>
          obtain ⟨pre, f, post, e, hp, hb, hg⟩ := ih false (by
            intro ⟨hn, _⟩
            apply h
            refine ⟨?_, fun h => by cases h⟩
            intro i j a b ha1 hb1 hma hbb
            cases i with
            | zero => simp at ha1; subst ha1; exact absurd h2 (by simp [hma.2])
            | succ i =>
              cases j with
              | zero => omega
              | succ j =>
                have := hn i j a b (by simpa using ha1) (by simpa using hb1) hma hbb
                omega)
          refine ⟨(m, v) :: pre, f, post, by simp [e], ?_, hb, ?_⟩
          · simp only [CleanF]
            rw [if_neg (show ¬ (m.omitempty = true ∧ isEmpty v = true) from h1), if_pos h2]; exact ⟨trivial, hp⟩
          · exact hg.imp id fun ⟨g, hg, hm⟩ => ⟨g, by simp [hg], hm⟩
      · have hm : Member (m, v) := ⟨h1, by simpa using h2⟩
        obtain ⟨pre, f, post, e, hp, hb, hg⟩ := ih true (by
          intro ⟨hn, ha⟩
          apply h
          refine ⟨?_, ?_⟩
          · intro i j a b ha1 hb1 hma hbb
            cases j with
            | zero => simp at hb1; subst hb1; exact absurd hbb.2 h2
            | succ j =>
              exfalso
              exact ha rfl b (List.mem_of_getElem? (by simpa using hb1)) hbb
          · intro hany f hf
            simp only [List.mem_cons] at hf
            rcases hf with rfl | hf
            · exact fun hb => h2 hb.2
            · exact ha rfl f hf)
        refine ⟨(m, v) :: pre, f, post, by simp [e], ?_, hb, .inr ⟨(m, v), by simp, hm⟩⟩
        simp only [CleanF]
        rw [if_neg (show ¬ (m.omitempty = true ∧ isEmpty v = true) from h1), if_neg h2]
        exact ⟨hok (m, v) (by simp) hm, hp⟩

theorem seqFields_some {c : Cfg} : ∀ (fs : List (FMeta × GV)) (any : Bool) (xs : List (Role × Bytes × Doc)), CleanF c any fs → (∃ g ∈ fs, Member g) →
    seqFields c.escapeHTML any (meanF c fs) = .ok xs → xs ≠ []
  | [], _, _, _, ⟨g, hg, _⟩, _ => by simp at hg
  | (m, v) :: fs, any, xs, hcl, ⟨g, hg, hm⟩, h => by
    simp only [CleanF] at hcl
    simp only [meanF, seqFields] at h
    by_cases h1 : m.omitempty = true ∧ isEmpty v = true
    · rw [if_pos h1] at h hcl
      simp only [List.mem_cons] at hg
      rcases hg with rfl | hg
      · exact absurd h1 hm.1
      · exact seqFields_some fs any xs hcl ⟨g, hg, hm⟩ h
    · rw [if_neg h1] at h hcl
      by_cases h2 : isRollback v = true
      · rw [if_pos h2] at hcl
        rw [isRollback_meaning c v h2, hcl.1] at h
        simp only [if_true] at h
        simp only [List.mem_cons] at hg
        rcases hg with rfl | hg
        · exact absurd h2 (by simp [hm.2])
        · exact seqFields_some fs false xs (by rw [← hcl.1]; exact hcl.2) ⟨g, hg, hm⟩ h
      · rw [if_neg h2] at hcl
        have hfine := clean_fine c v hcl.1
        generalize meaning c v = mv at *
        cases mv with
        | wild => cases h
        | err e' => simp only [] at h; rw [if_neg hfine] at h; cases h
        | doc x =>
          simp only [] at h
          generalize seqFields c.escapeHTML true (meanF c fs) = r at *
          cases r with
          | ok ys => cases h; simp
          | err => cases h
          | wild => cases h

/-- the text of a struct with a stray comma -/
theorem stray_text {c : Cfg} (hc : c.clrs = none) (hw : WsLayout c) {pre post : List (FMeta × GV)} {f : FMeta × GV} (hp : CleanF c false pre)
    (hm : ∃ g ∈ pre, Member g) (hf : Behind f) {n : Nat} {out : Bytes} {d : Int} (h : enc c (.struct (pre ++ f :: post)) [] n = .done out d none) :
    ¬ IsJson out := by
  obtain ⟨m, v⟩ := f
  have hk := structLoop_does c 0 0 pre (fun f _ => enc_does c f.2) (c.push n) (n + 1) (DepthOk.push (fun _ => rfl)) (appendPunc c.clrs [] (ch! '{'))
  have hfine := cleanF_fine c false pre hp
  have hdoc := meanF_ok c false pre hp
  have hne := fun xs => seqFields_some pre false xs hp hm
  have e0 : decide ((0 : Nat) ≠ 0) = false := by simp
  simp only [e0, if_true] at hk
  simp only [enc, encodeStruct] at h
  have hl : (encF c (pre ++ (m, v) :: post)).length > 0 := by rw [encF_length, List.length_append, List.length_cons]; omega
  rw [if_pos hl, encF_append, structLoop_append] at h
  generalize seqFields c.escapeHTML false (meanF c pre) = r at *
  cases r with
  | wild => exact absurd hfine id
  | err e =>
    obtain ⟨b', d', k, hk, _⟩ := hk
    simp only [List.length_nil] at h
    rw [hk] at h
    simp at h
  | ok ms =>
    simp only [List.length_nil] at h
    rw [hk] at h
    have hne := hne ms rfl
    rw [if_neg (by simp [hne])] at h
    have hml : ms.length ≠ 0 := by simpa using hne
    simp only [Nat.zero_add, decide_true] at h
    have hM := renderMembers_derives (Props.wsStyle_of hc hw) (n + 1) ms (hdoc ms rfl) hne [] ws_nil
    rw [List.append_nil] at hM
    generalize renderMembers (styleOf c) (n + 1) true ms = M at h hM
    simp only [encF, structLoop] at h
    rw [if_neg (show ¬ (m.omitempty = true ∧ isEmpty v = true) from hf.1), if_pos hml] at h
    have e1 : appendPunc c.clrs [] (ch! '{') = [0x7b] := by rw [hc]; rfl
    rw [e1] at h
    have e2 : appendPunc c.clrs ([0x7b] ++ M) (ch! ',') = 0x7b :: (M ++ [0x2c]) := by rw [hc]; simp [appendPunc]
    rw [e2] at h
    obtain ⟨t1, e3, ht1⟩ := appendByte_extends c (0x7b :: (M ++ [0x2c])) 0x0a
    rw [e3] at h
    have hd := enc_does c v
    rw [isRollback_meaning c v hf.2] at hd
    obtain ⟨b', d', hq, hr⟩ := hd (c.appendByte (appendPunc c.clrs (structKey c (0x7b :: (M ++ [0x2c]) ++ t1) (doEncodeString c.escapeHTML [] m.name) (c.push n)) (ch! ':')) (ch! ' ')) (c.push n) (n + 1) (DepthOk.push (fun _ => rfl))
    obtain ⟨t5, e5⟩ := enc_extends c v _ _ hq
    rw [hq] at h
    simp only [if_true] at h
    have ht : b'.take (0x7b :: (M ++ [0x2c]) ++ t1).length = 0x7b :: (M ++ [0x2c]) ++ t1 := by
      obtain ⟨t2, e2⟩ := structKey_extends hc hw (0x7b :: (M ++ [0x2c]) ++ t1) (doEncodeString c.escapeHTML [] m.name) (c.push n)
      obtain ⟨t4, e4, _⟩ := appendByte_extends c (appendPunc c.clrs (0x7b :: (M ++ [0x2c]) ++ t1 ++ t2) (ch! ':')) (ch! ' ')
      rw [e5, e2, e4]
      have e3 : appendPunc c.clrs (0x7b :: (M ++ [0x2c]) ++ t1 ++ t2) (ch! ':') = 0x7b :: (M ++ [0x2c]) ++ t1 ++ t2 ++ [ch! ':'] := by rw [hc]; rfl
      rw [e3]
      generalize 0x7b :: (M ++ [0x2c]) ++ t1 = Q
      simp only [List.append_assoc]
      exact List.take_left
    rw [ht] at h
    have hws1 : Ws t1 := by
      rcases ht1 with rfl | rfl
      · exact ws_nil
      · intro x hx; simp at hx; subst hx; exact .lf
    cases hs : structLoop c 0 ms.length (encF c post) (0x7b :: (M ++ [0x2c]) ++ t1) d' with
    | mk o k =>
      rw [hs] at h
      cases o with
      | panic => simp at h
      | done b2 d2 e =>
        cases e with
        | some e => simp at h
        | none =>
          obtain ⟨t6, e6, ht6, hk0⟩ := structLoop_tail hc hw 0 post _ _ _ _ _ _ hml hs
          simp only [] at h
          rw [if_pos (Nat.pos_of_ne_zero hk0)] at h
          obtain ⟨t7, e7, ht7⟩ := appendByte_extends c b2 0x0a
          rw [e7] at h
          obtain ⟨t8, e8, ht8⟩ := appendIndent_extends hw (c.pop d2) (b2 ++ t7)
          rw [e8, hc] at h
          simp only [appendPunc, Out.done.injEq] at h
          obtain ⟨rfl, -, -⟩ := h
          rw [e6]
          rcases ht6 with rfl | ht6
          · have := stray_not_json hM (w := t1 ++ t7 ++ t8) (rest := []) (c := 0x7d) ((hws1.append (by
              rcases ht7 with rfl | rfl
              · exact ws_nil
              · intro x hx; simp at hx; subst hx; exact .lf)).append ht8) (.inr rfl)
            simpa using this
          · cases t6 with
            | nil => cases ht6
            | cons x t6 =>
              simp at ht6; subst ht6
              have := stray_not_json hM (w := t1) (rest := t6 ++ t7 ++ t8 ++ [0x7d]) (c := 0x2c) hws1 (.inl rfl)
              simpa using this

end JC
