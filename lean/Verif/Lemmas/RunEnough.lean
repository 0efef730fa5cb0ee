import Verif.Lemmas.RunEmbed
import Verif.Lemmas.Recur
import Verif.Props.Decode
/-!
Decoding into struct types with embedded structs (C85) takes no more calls of `decodeStruct` within each other than there are
opening braces, and it returns.
-/
namespace JC
open Spec Props

theorem structLoopV_succ (c : DCfg) (names : List Bytes) (decs : List Dec) (input : Bytes) (n : Nat) (first : Bool) (p : DV) (b : Bytes) :
    structLoopV c names decs input (n + 1) first p b =
      if (skipSpaces b).head? = some (ch! '}') then .ok p (skipSpaces b).tail
      else match memberKey fieldKey first (skipSpaces b) with
      | .inl c => .crash c
      | .inr (.inl (r, e)) => .err p r e
      | .inr (.inr (kv, b)) =>
        match pickField c names (match kv with | .string s => s | _ => []) with
        | none =>
          if c.disallowUnknown then .err p b (.other 2)
          else match parseValue b with
            | .fail r e => .err p r e
            | .ok _ r => structLoopV c names decs input n false p r
        | some i =>
          match decs[i]? with
          | none => .crash .panic
          | some dec =>
            match dec b p with
            | .crash c => .crash c
            | .err p _ e =>
              match parseValue input with
              | .fail r e2 => .err p r e2
              | .ok _ r => .err p r e
            | .ok p r => structLoopV c names decs input n false p r := rfl

/-! ### The rest is an end of the text -/

theorem structLoopV_suf {decs : List Dec} (hd : ∀ d ∈ decs, Suff d) {c : DCfg} {names : List Bytes} {input : Bytes} :
    ∀ n first (p : DV) b x r, structLoopV c names decs input n first p b = .ok x r → r <:+ b := by
  intro n
  induction n with
  | zero => intro first m b x r h; simp [structLoopV] at h
  | succ n ih =>
    intro first p b x r h
    have hs := skip_suf b
    rw [structLoopV_succ] at h
    split at h
    · injection h with _ h
      subst h
      exact skip_tail_suf b
    · split at h
      · simp at h
      · simp at h
      · rename_i e
        have h1 := memberKey_suf (fun b x r h => fieldKey_suf h) e
        split at h
        · split at h
          · simp at h
          · split at h
            · simp at h
            · rename_i e2
              exact (ih _ _ _ _ _ h).trans ((parseValue_suf e2).trans (h1.trans hs))
        · split at h
          · simp at h
          · rename_i e
            have hm := List.mem_of_getElem? e
            split at h
            · simp at h
            · split at h <;> simp at h
            · rename_i e2
              exact (ih _ _ _ _ _ h).trans ((hd _ hm _ _ _ _ e2).trans (h1.trans hs))

theorem structV_suff {decs : List Dec} (hd : ∀ d ∈ decs, Suff d) {c : DCfg} {names : List Bytes} : Suff (decodeStructV c names decs) := by
  intro b p x r h
  unfold decodeStructV at h
  split at h
  · injection h with _ h; subst h; exact drop_suf _ _
  · split at h
    · exact absurd h inputErr_ne
    · split at h
      · exact absurd h inputErr_ne
      · exact (structLoopV_suf hd _ _ _ _ _ _ h).trans (List.suffix_cons _ _)

theorem intoPlace_ok {zs : Nat → DV} {q : Place} {dec : Dec} {b : Bytes} {v x : DV} {r : Bytes} (h : intoPlace zs q dec b v = .ok x r) :
    ∃ y, dec b (look zs q.way q.idx v) = .ok y r ∧ x = store zs q.way q.idx y v := by
  unfold intoPlace at h
  split at h
  · cases h
  · exact map_okD h

theorem intoPlace_suff {zs : Nat → DV} {q : Place} {dec : Dec} (hd : Suff dec) : Suff (intoPlace zs q dec) := by
  intro b p x r h
  obtain ⟨y, e, _⟩ := intoPlace_ok h
  exact hd _ _ _ _ e

theorem decWith_suff {c : DCfg} {dyn : Ty → Dec} (hd : ∀ t, Suff (dyn t)) {S : Nat → Dec} (hs : ∀ id, Suff (S id)) (z : NTy → DV) :
    ∀ t, Suff (decWith c dyn S z t)
  | .base t => dec_suff hd t
  | .slice t => slice_suff (decWith_suff hd hs z t)
  | .array _ t => array_suff (decWith_suff hd hs z t) _
  | .map _ t => map_suff (decWith_suff hd hs z t)
  | .ptr t => ptr_suff (decWith_suff hd hs z t) _
  | .ref id => hs id

theorem structS_suff {c : DCfg} {dyn : Ty → Dec} (hd : ∀ t, Suff (dyn t)) (w : Decls) (env : PEnv) (mem : Nat → List (Bytes × List Nat)) (z : NTy → DV) :
    ∀ n id, Suff (structS c dyn w env mem z n id) := by
  intro n
  induction n with
  | zero => intro id b p x r h; cases h
  | succ n ih =>
    intro id
    rw [structS]
    refine structV_suff ?_
    intro d hm
    obtain ⟨m, _, rfl⟩ := List.mem_map.1 hm
    split
    · exact intoPlace_suff (decWith_suff hd ih z _)
    · intro b p x r h; cases h

/-! ### Two decoders that agree on ends of the text -/

theorem structLoopV_same {c : DCfg} {α : Type} {names : List Bytes} {fs : List α} {d e : α → Dec} {input : Bytes} : ∀ n first (p : DV) b,
    (∀ f ∈ fs, SameOn b (d f) (e f)) → structLoopV c names (fs.map d) input n first p b = structLoopV c names (fs.map e) input n first p b := by
  intro n
  induction n with
  | zero => intro first p b h; rfl
  | succ n ih =>
    intro first p b h
    have hs := skip_suf b
    rw [structLoopV_succ, structLoopV_succ]
    split
    · rfl
    · cases hk : memberKey fieldKey first (skipSpaces b) with
      | inl c => rfl
      | inr y =>
        cases y with
        | inl x => rfl
        | inr x =>
          obtain ⟨kv, r⟩ := x
          have hr := (memberKey_suf (fun b x r h => fieldKey_suf h) hk).trans hs
          simp only []
          split
          · split
            · rfl
            · cases hp : parseValue r with
              | fail r e => rfl
              | ok v r' => exact ih _ _ _ (fun f hf => (h f hf).mono ((parseValue_suf hp).trans hr))
          · rename_i i _
            rw [List.getElem?_map, List.getElem?_map]
            cases hi : fs[i]? with
            | none => rfl
            | some f =>
              obtain ⟨h1, h2⟩ := h f (List.mem_of_getElem? hi) r hr p
              simp only [Option.map_some]
              rw [← h1]
              cases hd : d f r p with
              | crash c => rfl
              | err x r e => rfl
              | ok x r' => exact ih _ _ _ (fun g hg => (h g hg).mono ((h2 x r' hd).trans hr))

theorem structV_sameOn {c : DCfg} {α : Type} {names : List Bytes} {fs : List α} {d e : α → Dec} {b : Bytes}
    (h : ∀ t, b = ch! '{' :: t → ∀ f ∈ fs, SameOn t (d f) (e f)) (p : DV) :
    decodeStructV c names (fs.map d) b p = decodeStructV c names (fs.map e) b p := by
  unfold decodeStructV
  split
  · rfl
  · split
    · rfl
    · rename_i ch t _
      split
      · rfl
      · rename_i hc
        have : ch = ch! '{' := by
          apply Classical.byContradiction
          intro hne
          exact hc (.inr hne)
        subst this
        exact structLoopV_same _ _ _ _ (h t rfl)

theorem intoPlace_same {zs : Nat → DV} {q : Place} {d e : Dec} {b : Bytes} (h : SameOn b d e) : SameOn b (intoPlace zs q d) (intoPlace zs q e) := by
  intro b' hb p
  have h1 := h b' hb (look zs q.way q.idx p)
  refine ⟨?_, fun x r hx => ?_⟩
  · unfold intoPlace; rw [h1.1]
  · obtain ⟨y, e, _⟩ := intoPlace_ok hx
    exact h1.2 _ _ e

/-- `decWith` asks `S` about ends of the text only. -/
theorem decWith_same {c : DCfg} {dyn : Ty → Dec} {S S' : Nat → Dec} {z : NTy → DV} (hd : ∀ t, Suff (dyn t)) (hs : ∀ id, Suff (S id)) {b : Bytes}
    (h : ∀ id b', b' <:+ b → ∀ p, S id b' p = S' id b' p) : ∀ t b', b' <:+ b → ∀ p, decWith c dyn S z t b' p = decWith c dyn S' z t b' p := by
  have lift : ∀ t, (∀ b', b' <:+ b → ∀ p, decWith c dyn S z t b' p = decWith c dyn S' z t b' p) → ∀ b', b' <:+ b →
      SameOn b' (decWith c dyn S z t) (decWith c dyn S' z t) := by
    intro t ht b' hb b'' hb' p
    exact ⟨ht b'' (hb'.trans hb) p, fun x r hx => decWith_suff hd hs z t _ _ _ _ hx⟩
  intro t
  induction t with
  | base t => intro b' _ p; rfl
  | slice t ih => intro b' hb p; exact slice_same (lift t ih b' hb) p
  | array k t ih => intro b' hb p; exact array_same (lift t ih b' hb) k p
  | map k t ih => intro b' hb p; exact map_same (lift t ih b' hb) p
  | ptr t ih => intro b' hb p; exact ptr_same (lift t ih b' hb) _ p
  | ref id => intro b' hb p; exact h id b' hb p

theorem structS_enough {c : DCfg} {dyn : Ty → Dec} (hd : ∀ t, Suff (dyn t)) (w : Decls) (env : PEnv) (mem : Nat → List (Bytes × List Nat)) (z : NTy → DV) :
    ∀ n m id b p, braces b < n → braces b < m → structS c dyn w env mem z n id b p = structS c dyn w env mem z m id b p := by
  intro n
  induction n with
  | zero => intro m id b p h; omega
  | succ n ih =>
    intro m id b p hn hm
    cases m with
    | zero => omega
    | succ m =>
      rw [structS, structS]
      refine structV_sameOn (fs := mem id) ?_ p
      intro t hb f hf
      have hlt : ∀ b', b' <:+ t → braces b' < braces b := by
        intro b' hb'
        have := braces_suf hb'
        subst hb
        unfold braces at this ⊢
        rw [List.count_cons_self]
        omega
      have hs := structS_suff (c := c) hd w env mem z n
      cases place env id f.2 with
      | none => intro b' _ p; exact ⟨rfl, fun x r h => by cases h⟩
      | some q =>
        refine intoPlace_same ?_
        intro b' hb' p'
        refine ⟨?_, fun x r hx => decWith_suff hd hs z _ _ _ _ _ hx⟩
        refine decWith_same hd hs (b := b') ?_ _ b' (List.suffix_refl _) p'
        intro id' b'' hb'' p''
        have := hlt b'' (hb''.trans hb')
        exact ih m id' b'' p'' (by omega) (by omega)

/-! ### It returns -/

theorem structLoopV_len {decs : List Dec} (hd : ∀ d ∈ decs, Prog d) {c : DCfg} {names : List Bytes} {input : Bytes} :
    ∀ n first (p : DV) b x r, structLoopV c names decs input n first p b = .ok x r → r.length < b.length := by
  intro n
  induction n with
  | zero => intro first m b x r h; simp [structLoopV] at h
  | succ n ih =>
    intro first p b x r h
    have hs := skipSpaces_length_le b
    rw [structLoopV_succ] at h
    split at h
    · rename_i hh
      injection h with _ h
      cases e : skipSpaces b with
      | nil => rw [e] at hh; simp at hh
      | cons c t => rw [e] at h hs; simp at h hs; subst h; omega
    · split at h
      · simp at h
      · simp at h
      · rename_i e
        have h1 := memberKey_len (fun b x r h => fieldKey_len h) e
        split at h
        · split at h
          · simp at h
          · split at h
            · simp at h
            · rename_i e2
              have := ih _ _ _ _ _ h
              have := parseValue_length e2
              omega
        · split at h
          · simp at h
          · rename_i e
            have hm := List.mem_of_getElem? e
            split at h
            · simp at h
            · split at h <;> simp at h
            · rename_i e2
              have := ih _ _ _ _ _ h
              have := hd _ hm _ _ _ _ e2
              omega

theorem structV_prog {decs : List Dec} (hd : ∀ d ∈ decs, Prog d) {c : DCfg} {names : List Bytes} : Prog (decodeStructV c names decs) := by
  intro b p x r h
  unfold decodeStructV at h
  split at h
  · rename_i hn; injection h with _ h; subst h; exact null_length hn
  · split at h
    · exact absurd h inputErr_ne
    · split at h
      · exact absurd h inputErr_ne
      · have := structLoopV_len hd _ _ _ _ _ _ h
        simp; omega

theorem structLoopV_pres {P : DV → Prop} {decs : List Dec} (hd : ∀ d ∈ decs, Pres P d) {c : DCfg} {names : List Bytes} {input : Bytes} :
    ∀ n first (p : DV) b x r, P p → structLoopV c names decs input n first p b = .ok x r → P x := by
  intro n
  induction n with
  | zero => intro first m b x r _ h; simp [structLoopV] at h
  | succ n ih =>
    intro first p b x r hp h
    rw [structLoopV_succ] at h
    split at h
    · injection h with h _
      subst h
      exact hp
    · split at h
      · simp at h
      · simp at h
      · split at h
        · split at h
          · simp at h
          · split at h
            · simp at h
            · exact ih _ _ _ _ _ hp h
        · split at h
          · simp at h
          · rename_i e
            have hm := List.mem_of_getElem? e
            split at h
            · simp at h
            · split at h <;> simp at h
            · rename_i e2
              exact ih _ _ _ _ _ (hd _ hm _ _ _ _ hp e2) h

theorem structV_pres {P : DV → Prop} {decs : List Dec} (hd : ∀ d ∈ decs, Pres P d) (hs : ∀ v, P v → P (.struct v.fields))
    {c : DCfg} {names : List Bytes} : Pres P (decodeStructV c names decs) := by
  intro b p x r hp h
  unfold decodeStructV at h
  split at h
  · injection h with h _; subst h; exact hp
  · split at h
    · exact absurd h inputErr_ne
    · split at h
      · exact absurd h inputErr_ne
      · exact structLoopV_pres hd _ _ _ _ _ _ (hs _ hp) h

theorem structLoopV_nc {P : DV → Prop} {N : Nat} {decs : List Dec} (hc : ∀ d ∈ decs, NC P N d) (hd : ∀ d ∈ decs, Prog d)
    (hp : ∀ d ∈ decs, Pres P d) {c : DCfg} {names : List Bytes} (hl : names.length = decs.length) {input : Bytes} :
    ∀ n first (p : DV) b x, b.length < n → b.length < N → P p → structLoopV c names decs input n first p b ≠ .crash x := by
  intro n
  induction n with
  | zero => intro first m b x h; omega
  | succ n ih =>
    intro first p b x hn hN hf
    have hs := skipSpaces_length_le b
    rw [structLoopV_succ]
    split
    · simp
    · split
      · rename_i e; exact absurd e (memberKey_nc fieldKey_nc _ _ _)
      · simp
      · rename_i e
        have h1 := memberKey_len (fun b x r h => fieldKey_len h) e
        split
        · split
          · simp
          · split
            · simp
            · rename_i e2
              have := parseValue_length e2
              exact ih _ _ _ _ (by omega) (by omega) hf
        · rename_i i hpick
          have hlt := pickField_lt hpick
          split
          · rename_i e
            rw [List.getElem?_eq_none_iff] at e
            omega
          · rename_i e
            have hm := List.mem_of_getElem? e
            split
            · rename_i e2; exact absurd e2 (hc _ hm _ (by omega) _ hf _)
            · split <;> simp
            · rename_i e2
              have := hd _ hm _ _ _ _ e2
              exact ih _ _ _ _ (by omega) (by omega) (hp _ hm _ _ _ _ hf e2)

theorem structV_nc {P : DV → Prop} {N : Nat} {decs : List Dec} (hc : ∀ d ∈ decs, NC P N d) (hd : ∀ d ∈ decs, Prog d)
    (hp : ∀ d ∈ decs, Pres P d) (hs : ∀ v, P v → P (.struct v.fields)) {c : DCfg} {names : List Bytes} (hl : names.length = decs.length) :
    NC P (N + 1) (decodeStructV c names decs) := by
  intro b hb p hp' x
  unfold decodeStructV
  split
  · simp
  · split
    · exact inputErr_nc
    · simp only [List.length_cons] at hb
      split
      · exact inputErr_nc
      · exact structLoopV_nc hc hd hp hl _ _ _ _ _ (by simp; omega) (by omega) (hs _ hp')

section
variable {Q : Ty → Prop} {m : Nat}

theorem held_fields {v : DV} (h : Held Q v m) : ∀ x ∈ v.fields, Held Q x m := by
  cases v <;> simp [DV.fields]
  case struct xs => simpa [Held, heldL_iff] using h

theorem held_struct {v : DV} (h : Held Q v m) : Held Q (.struct v.fields) m := by
  simpa [Held, heldL_iff] using held_fields h

theorem held_field {v : DV} (h : Held Q v m) (i : Nat) : Held Q (v.field i) m := by
  unfold DV.field
  rw [List.getD_eq_getElem?_getD]
  cases e : v.fields[i]? with
  | none => simp [Held]
  | some x => exact held_fields h x (List.mem_of_getElem? e)

theorem held_setField {v x : DV} (h : Held Q v m) (hx : Held Q x m) (i : Nat) : Held Q (v.setField i x) m := by
  unfold DV.setField
  simp only [Held, heldL_iff]
  intro y hy
  rcases List.mem_or_eq_of_mem_set hy with hy | rfl
  · exact held_fields h y hy
  · exact hx

theorem held_behind {v : DV} (h : Held Q v m) {zs : Nat → DV} (hz : ∀ id, Held Q (zs id) m) (j id : Nat) :
    Held Q (match v.field j with | .ptr x => x | _ => zs id) m := by
  have := held_field h j
  split
  · rename_i x e; rw [e] at this; simpa [Held] using this
  · exact hz id

theorem held_look {zs : Nat → DV} (hz : ∀ id, Held Q (zs id) m) : ∀ hs i v, Held Q v m → Held Q (look zs hs i v) m
  | [], i, v, h => held_field h i
  | .struct j :: hs, i, v, h => held_look hz hs i _ (held_field h j)
  | .ptr j _ id :: hs, i, v, h => held_look hz hs i _ (held_behind h hz j id)

theorem held_store {zs : Nat → DV} (hz : ∀ id, Held Q (zs id) m) {x : DV} (hx : Held Q x m) : ∀ hs i v, Held Q v m → Held Q (store zs hs i x v) m
  | [], i, v, h => held_setField h hx i
  | .struct j :: hs, i, v, h => held_setField h (held_store hz hx hs i _ (held_field h j)) j
  | .ptr j _ id :: hs, i, v, h => by
    rw [store]
    refine held_setField h ?_ j
    simp only [Held]
    exact held_store hz hx hs i _ (held_behind h hz j id)

variable {c : DCfg} {dyn : Ty → Dec} {S : Nat → Dec} {z : NTy → DV}

theorem decWith_prog (hpg : ∀ t, Prog (dyn t)) (hs : ∀ id, Prog (S id)) : ∀ t, Prog (decWith c dyn S z t)
  | .base t => dec_prog hpg t
  | .slice t => slice_prog (decWith_prog hpg hs t)
  | .array _ t => array_prog (decWith_prog hpg hs t) _
  | .map _ t => map_prog (decWith_prog hpg hs t)
  | .ptr t => ptr_prog (decWith_prog hpg hs t) _
  | .ref id => hs id

theorem decWith_pres (hd : DynPres Q m dyn) (hz : ∀ t, Held Q (z t) m) (hs : ∀ id, Pres (Held Q · m) (S id)) : ∀ t, Pres (Held Q · m) (decWith c dyn S z t)
  | .base t => dec_pres hd t
  | .slice t => slice_pres (decWith_pres hd hz hs t) (hz t) _ (by simp [Held]) (by intro d s; simp [Held, heldL_iff])
  | .array n t => array_pres (decWith_pres hd hz hs t) (hz t) _ (by intro d; simp [Held, heldL_iff]) n
  | .map _ t => map_pres _ (by simp [Held]) (by simp [Held])
  | .ptr t => ptr_pres (decWith_pres hd hz hs t) (hz t) _ (by simp [Held]) (by intro v; simp [Held]) _
  | .ref id => hs id

theorem decWith_nc (hd : DynNC Q m dyn) (hpr : DynPres Q m dyn) (hpg : ∀ t, Prog (dyn t)) (hz : ∀ t, Held Q (z t) m) {N : Nat}
    (hs : ∀ id, NC (Held Q · m) N (S id)) (hsp : ∀ id, Prog (S id)) : ∀ t, NC (Held Q · m) N (decWith c dyn S z t)
  | .base t => dec_nc hd hpr hpg t N
  | .slice t => (slice_nc (decWith_nc hd hpr hpg hz hs hsp t) (decWith_prog hpg hsp t) (hz t) _ (by intro d s; simp [Held, heldL_iff])).mono (Nat.le_succ N)
  | .array n t => (array_nc (decWith_nc hd hpr hpg hz hs hsp t) (decWith_prog hpg hsp t) (hz t) _ (by intro d; simp [Held, heldL_iff]) n).mono (Nat.le_succ N)
  | .map _ t => (map_nc (decWith_nc hd hpr hpg hz hs hsp t) (decWith_prog hpg hsp t) (hz t) _).mono (Nat.le_succ N)
  | .ptr t => ptr_nc (decWith_nc hd hpr hpg hz hs hsp t) (hz t) _ (by intro v; simp [Held]) _
  | .ref id => hs id

theorem intoPlace_prog {zs : Nat → DV} {q : Place} {dec : Dec} (hd : Prog dec) : Prog (intoPlace zs q dec) := by
  intro b p x r h
  obtain ⟨y, e, _⟩ := intoPlace_ok h
  exact hd _ _ _ _ e

theorem intoPlace_pres {zs : Nat → DV} (hz : ∀ id, Held Q (zs id) m) {q : Place} {dec : Dec} (hd : Pres (Held Q · m) dec) :
    Pres (Held Q · m) (intoPlace zs q dec) := by
  intro b p x r hp h
  obtain ⟨y, e, rfl⟩ := intoPlace_ok h
  exact held_store hz (hd _ _ _ _ (held_look hz _ _ _ hp) e) _ _ _ hp

theorem intoPlace_nc {zs : Nat → DV} (hz : ∀ id, Held Q (zs id) m) {N : Nat} {q : Place} {dec : Dec} (hd : NC (Held Q · m) N dec) :
    NC (Held Q · m) N (intoPlace zs q dec) := by
  intro b hb p hp x h
  unfold intoPlace at h
  split at h
  · cases h
  · exact hd b hb _ (held_look hz _ _ _ hp) _ (map_crash h)

theorem structS_prog (hpg : ∀ t, Prog (dyn t)) (w : Decls) (env : PEnv) (mem : Nat → List (Bytes × List Nat)) :
    ∀ n id, Prog (structS c dyn w env mem z n id) := by
  intro n
  induction n with
  | zero => intro id b p x r h; cases h
  | succ n ih =>
    intro id
    rw [structS]
    refine structV_prog ?_
    intro d hm
    obtain ⟨m, _, rfl⟩ := List.mem_map.1 hm
    split
    · exact intoPlace_prog (decWith_prog hpg ih _)
    · intro b p x r h; cases h

theorem structS_pres (hd : DynPres Q m dyn) (hz : ∀ t, Held Q (z t) m) (w : Decls) (env : PEnv) (mem : Nat → List (Bytes × List Nat)) :
    ∀ n id, Pres (Held Q · m) (structS c dyn w env mem z n id) := by
  intro n
  induction n with
  | zero => intro id b p x r _ h; cases h
  | succ n ih =>
    intro id
    rw [structS]
    refine structV_pres ?_ (fun _ => held_struct)
    intro d hm
    obtain ⟨m, _, rfl⟩ := List.mem_map.1 hm
    split
    · exact intoPlace_pres (fun id => hz _) (decWith_pres hd hz ih _)
    · intro b p x r _ h; cases h

theorem structS_nc (hd : DynNC Q m dyn) (hpr : DynPres Q m dyn) (hpg : ∀ t, Prog (dyn t)) (hz : ∀ t, Held Q (z t) m)
    (w : Decls) (env : PEnv) (mem : Nat → List (Bytes × List Nat)) (hl : ∀ id, ∀ m ∈ mem id, ∃ q, place env id m.2 = some q) :
    ∀ n id, NC (Held Q · m) n (structS c dyn w env mem z n id) := by
  intro n
  induction n with
  | zero => intro id b hb; omega
  | succ n ih =>
    intro id
    rw [structS]
    refine structV_nc ?_ ?_ ?_ (fun _ => held_struct) (by simp)
    all_goals
      intro d hm
      obtain ⟨m', hm', rfl⟩ := List.mem_map.1 hm
      obtain ⟨q, hq⟩ := hl id m' hm'
      simp only [hq]
    · exact intoPlace_nc (fun id => hz _) (decWith_nc hd hpr hpg hz ih (structS_prog hpg w env mem n) _)
    · exact intoPlace_prog (decWith_prog hpg (structS_prog hpg w env mem n) _)
    · exact intoPlace_pres (fun id => hz _) (decWith_pres hpr hz (structS_pres hpr hz w env mem n) _)

theorem held_zeroWith {structs : Nat → DV} (h : ∀ id, Held Q (structs id) m) : ∀ t, Held Q (zeroWith structs t) m
  | .base t => held_zero Q m t
  | .slice _ => by simp [zeroWith, Held]
  | .array n t => by
    simp only [zeroWith, Held, heldL_iff]
    intro x hx
    rw [(List.mem_replicate.1 hx).2]
    exact held_zeroWith h t
  | .map _ _ => by simp [zeroWith, Held]
  | .ptr _ => by simp [zeroWith, Held]
  | .ref id => h id

theorem held_zeroS (w : Decls) (env : PEnv) : ∀ n t, Held Q (zeroS w env n t) m
  | 0, t => held_zeroWith (fun _ => by simp [Held, HeldL]) t
  | n + 1, t => by
    refine held_zeroWith (fun id => ?_) t
    simp only [Held, heldL_iff]
    intro x hx
    obtain ⟨f, _, rfl⟩ := List.mem_map.1 hx
    split
    · exact held_zeroS w env n _
    · simp [Held]
    · exact held_zeroS w env n _

theorem dynN_suff (c : DCfg) : ∀ k t, Suff (dynN c k t)
  | 0, t => fun b p x r h => by cases h
  | k + 1, t => decN_suff c k t

theorem dynN_prog (c : DCfg) : ∀ k t, Prog (dynN c k t)
  | 0, t => fun b p x r h => by cases h
  | k + 1, t => decN_prog c k t

theorem dynN_pres (c : DCfg) : ∀ k, DynPres Q k (dynN c k)
  | 0 => fun m' e => by omega
  | k + 1 => fun m' e t _ => by obtain rfl : k = m' := by omega
                                exact decN_pres c k t

theorem dynN_nc (c : DCfg) : ∀ k, DynNC Q k (dynN c k)
  | 0 => fun m' e => by omega
  | k + 1 => fun m' e t _ N => by obtain rfl : k = m' := by omega
                                  exact decN_nc c k t N
end

end JC
