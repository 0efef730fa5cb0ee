import Verif.Lemmas.Segs
import Verif.Lemmas.Paint
/-!
The nesting level never falls: encoding a clean value leaves the Indenter at the level it had or, after
an error, at that or a deeper one.
-/
namespace JC
open Spec

def Rises (f : Enc) : Prop := ∀ b d b' d' er, 0 ≤ d → f b d = .done b' d' er → d ≤ d'

theorem push_ge (c : Cfg) (d : Int) : d ≤ c.push d := by unfold Cfg.push; split <;> omega

theorem pop_ge {c : Cfg} {d d' : Int} (h : c.push d ≤ d') : d ≤ c.pop d' := by
  unfold Cfg.push at h; unfold Cfg.pop; split <;> simp_all <;> omega

theorem rises_of {f : Enc} (h : ∀ b d, ∃ b' er, f b d = .done b' d er) : Rises f := by
  intro b d b' d' er _ hd
  obtain ⟨b2, er2, e⟩ := h b d
  rw [e] at hd; injection hd with _ hd; omega

theorem rises_of' {f : Enc} (h : ∀ b d, f b d = .panic ∨ ∃ b' er, f b d = .done b' d er) : Rises f := by
  intro b d b' d' er _ hd
  rcases h b d with e | ⟨b2, er2, e⟩
  · rw [e] at hd; cases hd
  · rw [e] at hd; injection hd with _ hd; omega

theorem colored_level (c : Cfg) (clr : Colors → Bytes) {f : Enc} (h : ∀ b d, ∃ b' er, f b d = .done b' d er) :
    ∀ b d, ∃ b' er, colored c clr f b d = .done b' d er := by
  intro b d
  unfold colored
  split
  · exact h b d
  · rename_i cl _
    obtain ⟨b', er, e⟩ := h (b ++ clr cl) d
    rw [e]; exact ⟨_, _, rfl⟩

theorem encStr_level (c : Cfg) (s : Bytes) : ∀ b d, ∃ b' er, encStr c s b d = .done b' d er := fun _ _ => ⟨_, _, rfl⟩

theorem textM_level (c : Cfg) (r : TextRes) : ∀ b d, encodeTextMarshaler c r b d = .panic ∨ ∃ b' er, encodeTextMarshaler c r b d = .done b' d er := by
  intro b d
  cases r with
  | isNil => exact .inr ⟨_, _, rfl⟩
  | err => exact .inr ⟨_, _, rfl⟩
  | absent => exact .inl rfl
  | ok s => exact .inr (colored_level c _ (encStr_level c s) b d)

theorem rises_toString {c : Cfg} {f : Enc} (h : Rises f) : Rises (encodeToString c f) := by
  intro b d b' d' er hd he
  unfold encodeToString at he
  cases hf : f b d with
  | panic => simp only [hf] at he; cases he
  | done b2 d2 er2 =>
    have := h _ _ _ _ _ hd hf
    cases er2 <;> simp only [hf] at he <;> cases he <;> exact this

theorem rises_mkey (c : Cfg) (k : MKey) : Rises (encodeMKey c k) := by
  cases k with
  | str s => exact rises_of (colored_level c _ (encStr_level c s))
  | int z => exact rises_toString (c := c) (f := fun b d => .done (appendInt64 c.clrs b z) d none) (rises_of fun _ _ => ⟨_, _, rfl⟩)
  | uint n => exact rises_toString (c := c) (f := fun b d => .done (appendUint64 c.clrs b n) d none) (rises_of fun _ _ => ⟨_, _, rfl⟩)
  | text r => exact rises_of' (textM_level c r)

theorem rises_tokens {c : Cfg} {j : Json} {s : Bytes} (h : JText j s) : Rises (rawTokens c s) := by
  intro b d b' d' er hd he
  rw [rawTokens_doc h (n := d.toNat) (fun _ => by omega)] at he
  injection he with _ he; omega

theorem rises_raw {c : Cfg} {s : Option Bytes} (h : CleanRaw c s) : Rises (encodeRawMessage c s) := by
  cases s with
  | none => exact rises_of fun _ _ => ⟨_, _, rfl⟩
  | some s =>
    intro b d b' d' er hd he
    simp only [encodeRawMessage] at he
    split at he
    · rename_i ht
      obtain ⟨j, hj⟩ := h ht
      rw [rawTokens_doc hj (n := d.toNat) (fun _ => by omega)] at he
      injection he with _ he; omega
    · split at he
      · injection he with _ he; omega
      · rename_i v r hp
        obtain ⟨_, j, hj⟩ := parseValue_sound hp
        exact rises_tokens ⟨[], v, [], by simp, ws_nil, ws_nil, hj⟩ _ _ _ _ _ hd he

theorem cleanRaw_of_strict {c : Cfg} {s : Option Bytes} (h : StrictRaw s) : CleanRaw c s := by
  cases s with
  | none => trivial
  | some s => exact fun _ => h.1

theorem rises_arrayLoop (c : Cfg) (start : Nat) : ∀ (fs : List Enc) (first : Bool), (∀ f ∈ fs, Rises f) → Rises (arrayLoop c start first fs)
  | [], _, _ => rises_of fun _ _ => ⟨_, _, rfl⟩
  | f :: fs, first, h => by
    intro b d b' d' er hd he
    simp only [arrayLoop] at he
    split at he
    · cases he
    · rename_i hf; have := h f (by simp) _ _ _ _ _ hd hf; injection he with _ he; omega
    · rename_i b2 d2 hf
      have h1 := h f (by simp) _ _ _ _ _ hd hf
      have h2 := rises_arrayLoop c start fs false (fun f hf => h f (by simp [hf])) _ _ _ _ _ (by omega) he
      omega

theorem rises_array {c : Cfg} {fs : List Enc} (h : ∀ f ∈ fs, Rises f) : Rises (encodeArray c fs) := by
  intro b d b' d' er hd he
  simp only [encodeArray] at he
  have hp := push_ge c d
  split at he
  · split at he
    · cases he
    · rename_i hf; have := rises_arrayLoop c _ fs true h _ _ _ _ _ (by omega) hf; injection he with _ he; omega
    · rename_i hf
      have := pop_ge (rises_arrayLoop c _ fs true h _ _ _ _ _ (by omega) hf)
      injection he with _ he; omega
  · injection he with _ he; omega

theorem rises_mapLoop (c : Cfg) (start : Nat) : ∀ (es : List (MKey × Enc)) (first : Bool), (∀ e ∈ es, Rises e.2) → Rises (mapLoop c start first es)
  | [], _, _ => rises_of fun _ _ => ⟨_, _, rfl⟩
  | (k, f) :: es, first, h => by
    intro b d b' d' er hd he
    simp only [mapLoop] at he
    split at he
    · cases he
    · rename_i hk; have := rises_mkey c k _ _ _ _ _ hd hk; injection he with _ he; omega
    · rename_i hk
      have h0 := rises_mkey c k _ _ _ _ _ hd hk
      split at he
      · cases he
      · rename_i hf; have := h (k, f) (by simp) _ _ _ _ _ (by omega) hf; injection he with _ he; omega
      · rename_i hf
        have h1 := h (k, f) (by simp) _ _ _ _ _ (by omega) hf
        have h2 := rises_mapLoop c start es false (fun e he => h e (by simp [he])) _ _ _ _ _ (by omega) he
        omega

theorem rises_map {c : Cfg} {es : List (MKey × Enc)} (h : ∀ e ∈ es, Rises e.2) : Rises (encodeMap c es) := by
  intro b d b' d' er hd he
  unfold encodeMap at he
  split at he
  · cases he
  · have hp := push_ge c d
    have hs : ∀ e ∈ (if c.sortMapKeys = true then sortBy (fun e => e.1.sortText) es else es), Rises e.2 := by
      intro e he; split at he
      · exact h e ((mem_sortBy _ _ _).1 he)
      · exact h e he
    generalize (if c.sortMapKeys = true then sortBy (fun e => e.1.sortText) es else es) = l at hs he
    simp only [] at he
    split at he
    · split at he
      · cases he
      · rename_i hf; have := rises_mapLoop c _ l true hs _ _ _ _ _ (by omega) hf; injection he with _ he; omega
      · rename_i hf
        have := pop_ge (rises_mapLoop c _ l true hs _ _ _ _ _ (by omega) hf)
        injection he with _ he; omega
    · injection he with _ he; omega

def LoopR.Above (d : Int) : LoopR → Prop
  | .fin _ d' => d ≤ d'
  | .brk _ d' _ => d ≤ d'
  | .panic => True

theorem LoopR.Above.mono {d d' : Int} (h : d ≤ d') : ∀ {r : LoopR}, r.Above d' → r.Above d
  | .fin _ _, h2 => Int.le_trans h h2
  | .brk _ _ _, h2 => Int.le_trans h h2
  | .panic, _ => trivial

theorem above_strLoop (c : Cfg) : ∀ (es : List (Bytes × Enc)) (first : Bool), (∀ e ∈ es, Rises e.2) → ∀ b d, 0 ≤ d → (strLoop c first es b d).Above d
  | [], _, _, _, d, _ => Int.le_refl d
  | (k, f) :: es, first, h, b, d, hd => by
    simp only [strLoop]
    split
    · trivial
    · rename_i b2 d2 er hk
      have h0 := rises_of (colored_level c _ (encStr_level c k)) _ _ _ _ _ hd hk
      split
      · trivial
      · rename_i hf; have := h (k, f) (by simp) _ _ _ _ _ (by omega) hf; simp only [LoopR.Above]; omega
      · rename_i hf
        have h1 := h (k, f) (by simp) _ _ _ _ _ (by omega) hf
        exact (above_strLoop c es false (fun e he => h e (by simp [he])) _ _ (by omega)).mono (by omega)

theorem rises_mapSIUnsorted {c : Cfg} {es : List (Bytes × Enc)} (h : ∀ e ∈ es, Rises e.2) : Rises (mapSIUnsorted c es) := by
  intro b d b' d' er hd he
  simp only [mapSIUnsorted, strTail] at he
  have hp := push_ge c d
  split at he
  · have := above_strLoop c es true h (c.appendByte (appendPunc c.clrs b (ch! '{')) 0x0a) _ (by omega : 0 ≤ c.push d)
    split at he
    · cases he
    · rename_i hf; rw [hf] at this; simp only [LoopR.Above] at this; injection he with _ he; omega
    · rename_i hf; rw [hf] at this; have := pop_ge this; injection he with _ he; omega
  · injection he with _ he; omega

theorem rises_mapRawUnsorted {c : Cfg} {es : List (Bytes × Enc)} (h : ∀ e ∈ es, Rises e.2) : Rises (mapRawUnsorted c es) := by
  intro b d b' d' er hd he
  simp only [mapRawUnsorted, strTail] at he
  have hp := push_ge c d
  split at he
  · have := above_strLoop c es true h (c.appendByte (appendPunc c.clrs b (ch! '{')) 0x0a) _ (by omega : 0 ≤ c.push d)
    split at he
    · cases he
    · rename_i hf; rw [hf] at this; have := pop_ge this; injection he with _ he; omega
    · rename_i hf; rw [hf] at this; have := pop_ge this; injection he with _ he; omega
  · injection he with _ he; omega

theorem rises_strMapSorted {c : Cfg} {es : List (Bytes × Enc)} (h : ∀ e ∈ es, Rises e.2) : Rises (strMapSorted c es) := by
  intro b d b' d' er hd he
  simp only [strMapSorted, strTail] at he
  have hp := push_ge c d
  split at he
  · have := above_strLoop c (sortBy (fun e => e.1) es) true (fun e he => h e ((mem_sortBy _ _ _).1 he))
      (c.appendByte (appendPunc c.clrs b (ch! '{')) 0x0a) _ (by omega : 0 ≤ c.push d)
    split at he
    · cases he
    · rename_i hf; rw [hf] at this; have := pop_ge this; injection he with _ he; omega
    · rename_i hf; rw [hf] at this; have := pop_ge this; injection he with _ he; omega
  · injection he with _ he; omega

theorem rises_quoted {c : Cfg} {v : GV} (h : Rises (enc c v)) : Rises (enc c (.quoted v)) := by
  simp only [enc]; exact rises_toString h

theorem isRollback_level (c : Cfg) : ∀ v : GV, isRollback v = true → ∀ b d, ∃ b' er, enc c v b d = .done b' d er
  | .embNil _, _, b, d => ⟨_, _, by simp only [enc]; rfl⟩
  | .emb v _, h, b, d => by
    simp only [enc]; exact isRollback_level c v (by simpa [isRollback] using h) b d

mutual
/-- After encoding a clean value, with or without success, the level is not below the one before. -/
theorem rises_enc (c : Cfg) : ∀ v : GV, Clean c v → Rises (enc c v)
  | .nil, _ | .sliceNil, _ | .mapNil, _ | .ptrNil, _ | .bool _, _ | .int _, _ | .uint _, _ | .unsupported, _ => by
    simp only [enc]; exact rises_of fun _ _ => ⟨_, _, rfl⟩
  | .float f, _ => by
    simp only [enc]
    refine rises_of (colored_level c _ fun b d => ?_)
    cases f with
    | nan => exact ⟨_, _, rfl⟩
    | inf => exact ⟨_, _, rfl⟩
    | fin e t z =>
      simp only [encodeFloat]
      split
      · split <;> exact ⟨_, _, rfl⟩
      · exact ⟨_, _, rfl⟩
  | .number s, _ => by
    simp only [enc]
    refine rises_of fun b d => ?_
    simp only [encodeNumber]
    split
    · exact ⟨_, _, rfl⟩
    · split <;> exact ⟨_, _, rfl⟩
  | .string s, _ => by simp only [enc]; exact rises_of (colored_level c _ (encStr_level c s))
  | .bytesNil, _ => by simp only [enc]; exact rises_of (colored_level c _ fun _ _ => ⟨_, _, rfl⟩)
  | .bytes _, _ => by simp only [enc]; exact rises_of (colored_level c _ fun _ _ => ⟨_, _, rfl⟩)
  | .time s _, _ => by
    simp only [enc]
    refine rises_of fun b d => ?_
    simp only [encodeTime]
    split <;> exact ⟨_, _, rfl⟩
  | .slice xs, h => by simp only [enc]; exact rises_array (rises_encL c xs h)
  | .array xs, h => by simp only [enc]; exact rises_array (rises_encL c xs h)
  | .map es, h => by simp only [enc]; exact rises_map (rises_encE c es h)
  | .mapSI es, h => by
    simp only [enc, encodeMapSI]
    split
    · exact rises_strMapSorted (rises_encS c es h)
    · exact rises_mapSIUnsorted (rises_encS c es h)
  | .mapRaw es, h => by
    simp only [enc, encodeMapRaw]
    simp only [Clean] at h
    split
    · rename_i hs
      rw [if_pos hs] at h
      refine rises_strMapSorted ?_
      intro e he
      obtain ⟨x, hx, rfl⟩ := List.mem_map.1 he
      exact rises_raw (h x hx)
    · rename_i hs
      rw [if_neg hs] at h
      refine rises_mapRawUnsorted ?_
      intro e he
      obtain ⟨x, hx, rfl⟩ := List.mem_map.1 he
      exact rises_raw (cleanRaw_of_strict (h x hx))
  | .struct fs, h => by
    simp only [enc]
    intro b d b' d' er hd he
    simp only [encodeStruct] at he
    have hp := push_ge c d
    have key := rises_encF c b.length fs false 0 h (if (encF c fs).length > 0 then c.appendByte (appendPunc c.clrs b (ch! '{')) 0x0a else appendPunc c.clrs b (ch! '{')) (c.push d)
    split at he
    · cases he
    · rename_i hf
      have := key _ _ _ _ (by omega) hf
      injection he with _ he; omega
    · rename_i hf
      have := pop_ge (key _ _ _ _ (by omega) hf)
      injection he with _ he; omega
  | .ptr v, h => by simp only [enc]; exact rises_enc c v h
  | .iface v _, h => by simp only [enc]; exact rises_enc c v h
  | .rawNil, _ => by simp only [enc]; exact rises_raw (s := none) trivial
  | .raw s, h => by simp only [enc]; exact rises_raw h
  | .jsonM r _, h => by
    simp only [enc]
    cases r with
    | isNil => exact rises_of fun _ _ => ⟨_, _, rfl⟩
    | err e => exact rises_of fun _ _ => ⟨_, _, rfl⟩
    | ok s =>
      have := rises_raw h
      intro b d b' d' er hd he
      exact this b d b' d' er hd he
  | .textM r _, _ => by simp only [enc]; exact rises_of' (textM_level c r)
  | .quoted v, h => rises_quoted (rises_enc c v h.2)
  | .embNil _, h => absurd h id
  | .emb v _, h => by simp only [enc]; exact rises_enc c v h
theorem rises_encL (c : Cfg) : ∀ xs : List GV, CleanL c xs → ∀ f ∈ encL c xs, Rises f
  | [], _ => by simp [encL]
  | v :: vs, h => by
    intro f hf
    simp only [encL, List.mem_cons] at hf
    rcases hf with rfl | hf
    · exact rises_enc c v h.1
    · exact rises_encL c vs h.2 f hf
theorem rises_encE (c : Cfg) : ∀ es : List (MKey × GV), CleanE c es → ∀ e ∈ encE c es, Rises e.2
  | [], _ => by simp [encE]
  | (k, v) :: es, h => by
    intro f hf
    simp only [encE, List.mem_cons] at hf
    rcases hf with rfl | hf
    · exact rises_enc c v h.2.1
    · exact rises_encE c es h.2.2 f hf
theorem rises_encS (c : Cfg) : ∀ es : List (Bytes × GV), CleanS c es → ∀ e ∈ encS c es, Rises e.2
  | [], _ => by simp [encS]
  | (k, v) :: es, h => by
    intro f hf
    simp only [encS, List.mem_cons] at hf
    rcases hf with rfl | hf
    · exact rises_enc c v h.1
    · exact rises_encS c es h.2 f hf
theorem rises_encF (c : Cfg) (start : Nat) : ∀ (fs : List (FMeta × GV)) (any : Bool) (n : Nat), CleanF c any fs →
    ∀ b d b' d' er m, 0 ≤ d → structLoop c start n (encF c fs) b d = (.done b' d' er, m) → d ≤ d'
  | [], any, n, _, b, d, b', d', er, m, hd, he => by
    simp only [encF, structLoop] at he
    injection he with he _; injection he with _ he; omega
  | (fm, v) :: fs, any, n, h, b, d, b', d', er, m, hd, he => by
    simp only [CleanF] at h
    simp only [encF, structLoop] at he
    split at he
    · rename_i h1
      rw [if_pos h1] at h
      exact rises_encF c start fs any n h _ _ _ _ _ _ hd he
    · rename_i h1
      rw [if_neg h1] at h
      have key : Rises (enc c v) ∧ ∃ any, CleanF c any fs := by
        split at h
        · rename_i h2; exact ⟨rises_of (isRollback_level c v h2), _, h.2⟩
        · exact ⟨rises_enc c v h.1, _, h.2⟩
      obtain ⟨hv, any', hfs⟩ := key
      split at he
      · cases he
      · rename_i hf
        have h2 := hv _ _ _ _ _ hd hf
        split at he
        · have := rises_encF c start fs any' n hfs _ _ _ _ _ _ (by omega) he
          omega
        · injection he with he _; injection he with _ he; omega
      · rename_i hf
        have h2 := hv _ _ _ _ _ hd hf
        have := rises_encF c start fs any' (n + 1) hfs _ _ _ _ _ _ (by omega) he
        omega
end

end JC
