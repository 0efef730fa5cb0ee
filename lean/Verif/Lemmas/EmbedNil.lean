import Verif.Lemmas.EmbedEnc
import Verif.Lemmas.EmbedMembers
import Verif.Lemmas.Stray
import Verif.Lemmas.Typed
/-!
Structs with nil embedded pointers, written and read back.
-/
namespace JC
open Spec

mutual
theorem clip_zero : ∀ t : Ty, clip (zero t) = zero t
  | .array n t => by
    simp only [zero, clip]
    congr 1
    have h := clip_zero t
    induction n with
    | zero => rfl
    | succ n ih => rw [List.replicate_succ, clipL, h, ih]
  | .struct fs => by simp only [zero, clip, clipL_zeroF fs]
  | .quoted t | .quotedInt t => by simp only [zero, clip_zero t]
  | .bool | .int _ | .float32 | .float64 | .number | .string | .bytes | .duration | .time | .raw | .iface | .ifaceM _ | .slice _ | .map _ _
  | .mapSI | .mapRaw | .ptr _ | .jsonU _ | .textU _ | .unsupported => by simp only [zero, clip]
theorem clipL_zeroF : ∀ fs : List (Bytes × Ty), clipL (zeroF fs) = zeroF fs
  | [] => rfl
  | (_, t) :: fs => by simp only [zeroF, clipL, clip_zero t, clipL_zeroF fs]
end

/-- The fields come back, those behind nil pointers are first and hold zero values. -/
inductive BackN (c : Cfg) (dc : DCfg) (dyn : Ty → Dec) (dynJ : Ty → JDec) : List (Bytes × Ty) → List DV → List (FMeta × GV) → Prop
  | rest (fs : List (Bytes × Ty)) (vs : List DV) (gs : List (FMeta × GV)) : BackF c dc dyn dynJ fs vs gs → BackN c dc dyn dynJ fs vs gs
  | nil (n : Bytes) (t : Ty) (fs : List (Bytes × Ty)) (v : DV) (vs : List DV) (m : FMeta) (gs : List (FMeta × GV)) :
      clip v = zero t → BackN c dc dyn dynJ fs vs gs → BackN c dc dyn dynJ ((n, t) :: fs) (v :: vs) ((m, .embNil false) :: gs)

theorem nils_back {c : Cfg} {dc : DCfg} {dyn : Ty → Dec} {dynJ : Ty → JDec} {fs : List (Bytes × Ty)} {vs : List DV} {gs : List (FMeta × GV)}
    (h : BackN c dc dyn dynJ fs vs gs) : ∀ (pre : List Bytes) (ds : List JDec) (cs : List DV), (pre ++ fs.map (·.1)).Pairwise (· ≠ ·) →
    (∀ f ∈ fs, Coerced f.1 f.1) → ds.length = pre.length → cs.length = pre.length →
    ∃ ms, seqFields c.escapeHTML false (meanF c gs) = .ok ms ∧ DocOkM ms ∧
      structJ dc (pre ++ fs.map (·.1)) (ds ++ decJF dc dyn dynJ fs) (jsonOfM ms) (cs ++ zeroF fs) = some (cs ++ clipL vs) := by
  induction h with
  | rest fs vs gs h => intro pre ds cs hn hu hd hcs; exact fields_back fs vs gs pre ds cs false hn hu hd hcs h
  | nil n t fs v vs m gs hv h ih =>
    intro pre ds cs hn hu hd hcs
    have e1 : pre ++ ((n, t) :: fs).map (·.1) = (pre ++ [n]) ++ fs.map (·.1) := by simp
    have e2 : ds ++ decJF dc dyn dynJ ((n, t) :: fs) = (ds ++ [decJ dc dyn dynJ t]) ++ decJF dc dyn dynJ fs := by simp [decJF]
    obtain ⟨ms, h1, h2, h3⟩ := ih (pre ++ [n]) (ds ++ [decJ dc dyn dynJ t]) (cs ++ [clip v]) (by rw [← e1]; exact hn)
      (fun f hf => hu f (List.mem_cons_of_mem _ hf)) (by simp [hd]) (by simp [hcs])
    refine ⟨ms, ?_, h2, ?_⟩
    · rw [meanF, seqFields.eq_def]
      simp only [meaning]
      split
      · exact h1
      · simpa using h1
    · rw [e1, e2, zeroF, ← hv, clipL]
      simpa using h3

/-- Members are written for fields whose values have a meaning. -/
theorem seqFields_keys {html : Bool} : ∀ (l : List (FMeta × Bool × Meaning)) (any : Bool) (ms : List (Role × Bytes × Doc)), seqFields html any l = .ok ms →
    ∀ m ∈ ms, ∃ f ∈ l, m.2.1 = quote html f.1.name ∧ f.2.2 = .doc m.2.2
  | [], any, ms, h, m, hm => by
    simp only [seqFields] at h
    injection h with h; subst h; simp at hm
  | (f, em, x) :: r, any, ms, h, m, hm => by
    have tail : ∀ any ms, seqFields html any r = .ok ms → m ∈ ms → ∃ g ∈ (f, em, x) :: r, m.2.1 = quote html g.1.name ∧ g.2.2 = .doc m.2.2 := by
      intro any ms h hm
      obtain ⟨g, hg, h⟩ := seqFields_keys r any ms h m hm
      exact ⟨g, by simp [hg], h⟩
    rw [seqFields.eq_def] at h
    simp only [] at h
    split at h
    · exact tail any ms h hm
    · cases x with
      | err e =>
        simp only [] at h
        split at h
        · split at h
          · cases h
          · exact tail any ms h hm
        · cases h
      | wild => cases h
      | doc x =>
        simp only [] at h
        cases hr : seqFields html true r with
        | ok ys =>
          rw [hr] at h
          injection h with h
          subst h
          simp only [List.mem_cons] at hm
          rcases hm with rfl | hm
          · exact ⟨_, List.mem_cons_self, rfl, rfl⟩
          · exact tail true ys hr hm
        | err e => rw [hr] at h; cases h
        | wild => rw [hr] at h; cases h

theorem meanF_mem {c : Cfg} : ∀ {gs : List (FMeta × GV)} {f : FMeta × Bool × Meaning}, f ∈ meanF c gs → ∃ g ∈ gs, f.1 = g.1 ∧ f.2.2 = meaning c g.2
  | [], f, h => by simp [meanF] at h
  | (m, g) :: gs, f, h => by
    rw [meanF, List.mem_cons] at h
    rcases h with rfl | h
    · exact ⟨_, List.mem_cons_self, rfl, rfl⟩
    · obtain ⟨g', h1, h2⟩ := meanF_mem h
      exact ⟨g', by simp [h1], h2⟩

theorem jsonOfM_mem : ∀ {ms : List (Role × Bytes × Doc)} {k : Bytes} {j : Json}, (k, j) ∈ jsonOfM ms → ∃ m ∈ ms, k = m.2.1
  | [], _, _, h => by simp [jsonOfM] at h
  | (r, k', x) :: ms, k, j, h => by
    simp only [jsonOfM, List.mem_cons, Prod.mk.injEq] at h
    rcases h with ⟨rfl, _⟩ | h
    · exact ⟨_, List.mem_cons_self, rfl⟩
    · obtain ⟨m, h1, h2⟩ := jsonOfM_mem h
      exact ⟨m, by simp [h1], h2⟩

/-! nil pointers -/

theorem zeroVs_get : ∀ (fs : List EF) (i : Nat) (f : EF), fs[i]? = some f → (zeroVs fs)[i]? = some (zeroEV f)
  | [], i, f, h => by simp at h
  | g :: fs, 0, f, h => by
    simp only [List.getElem?_cons_zero, Option.some.injEq] at h
    subst h
    simp [zeroVs]
  | g :: fs, i + 1, f, h => by
    simp only [List.getElem?_cons_succ] at h
    simp only [zeroVs, List.getElem?_cons_succ]
    exact zeroVs_get fs i f h

theorem blocked_zero {fs : List EF} {vs : List EV} {p : List Nat} (h : Blocked fs vs p) : Blocked fs (zeroVs fs) p := by
  induction h with
  | here fs vs i u sub p h1 h2 => exact .here _ _ i u sub p h1 (by rw [zeroVs_get _ _ _ h1, zeroEV])
  | val fs vs i sub ws p h1 h2 _ ih => exact .val _ _ i sub (zeroVs sub) p h1 (by rw [zeroVs_get _ _ _ h1, zeroEV]) ih
  | ptr fs vs i u sub ws p h1 h2 _ ih => exact .here _ _ i u sub p h1 (by rw [zeroVs_get _ _ _ h1, zeroEV])

theorem blocked_reads {fs : List EF} {vs : List EV} {p : List Nat} (h : Blocked fs vs p) : ∀ {t : Ty} {v : DV}, TypeAt fs p t → Reads fs vs p v → v = zero t := by
  induction h with
  | here fs vs i u sub p h1 h2 =>
    intro t v ht hr
    exact reads_unique hr (.nil fs vs i u sub p t h1 h2 (by
      cases ht with
      | leaf _ _ _ _ _ h => rw [h1] at h; cases h
      | val _ _ _ _ _ h => rw [h1] at h; cases h
      | ptr _ _ _ _ _ _ h ht => rw [h1] at h; injection h with h; injection h with _ h; subst h; exact ht))
  | val fs vs i sub ws p h1 h2 hb ih =>
    intro t v ht hr
    cases ht with
    | leaf _ _ _ _ _ h => rw [h1] at h; cases h
    | ptr _ _ _ _ _ _ h _ => rw [h1] at h; cases h
    | val _ _ _ _ _ h ht =>
      rw [h1] at h; injection h with h; injection h with h; subst h
      cases hr with
      | leaf _ _ _ _ _ _ _ h => rw [h1] at h; cases h
      | ptr _ _ _ _ _ _ _ _ h => rw [h1] at h; cases h
      | nil _ _ _ _ _ _ _ h => rw [h1] at h; cases h
      | val _ _ _ _ _ _ _ h h' hr =>
        rw [h1] at h; injection h with h; injection h with h; subst h
        rw [h2] at h'; injection h' with h'; injection h' with h'; subst h'
        exact ih ht hr
  | ptr fs vs i u sub ws p h1 h2 hb ih =>
    intro t v ht hr
    cases ht with
    | leaf _ _ _ _ _ h => rw [h1] at h; cases h
    | val _ _ _ _ _ h => rw [h1] at h; cases h
    | ptr _ _ _ _ _ _ h ht =>
      rw [h1] at h; injection h with h; injection h with _ h; subst h
      cases hr with
      | leaf _ _ _ _ _ _ _ h => rw [h1] at h; cases h
      | val _ _ _ _ _ _ _ h => rw [h1] at h; cases h
      | nil _ _ _ _ _ _ _ h h' => rw [h2] at h'; cases h'
      | ptr _ _ _ _ _ _ _ _ h h' hr =>
        rw [h1] at h; injection h with h; injection h with _ h; subst h
        rw [h2] at h'; injection h' with h'; injection h' with h'; subst h'
        exact ih ht hr

/-- Another field of the struct: the same pointers lead to it. -/
theorem blocked_set {fs : List EF} {us : List EV} {i : Nat} {p : List Nat} {x : EV} (hne : p.head? ≠ some i) (h : Blocked fs us p) : Blocked fs (us.set i x) p := by
  cases h with
  | here _ _ j u sub p h1 h2 => exact .here _ _ j u sub p h1 (by rw [List.getElem?_set_ne (fun e => hne (by simp [e]))]; exact h2)
  | val _ _ j sub ws p h1 h2 h => exact .val _ _ j sub ws p h1 (by rw [List.getElem?_set_ne (fun e => hne (by simp [e]))]; exact h2) h
  | ptr _ _ j u sub ws p h1 h2 h => exact .ptr _ _ j u sub ws p h1 (by rw [List.getElem?_set_ne (fun e => hne (by simp [e]))]; exact h2) h

/-- Storing into a field that can be reached in `vs` sets no pointer that is nil in `vs`. -/
theorem stores_blocked {fs : List EF} {q : List Nat} {x : DV} {us us' : List EV} (h : Stores fs q x us us') : ∀ {vs : List EV} {p : List Nat},
    ¬ Blocked fs vs q → Blocked fs vs p → Blocked fs us p → Blocked fs us' p := by
  induction h with
  | leaf fs us i nm g t x h1 =>
    intro vs p hq hv hu
    by_cases hne : p.head? = some i
    · exfalso
      cases hu with
      | here _ _ j u sub p h h2 => simp at hne; subst hne; rw [h1] at h; cases h
      | val _ _ j sub ws p h h2 => simp at hne; subst hne; rw [h1] at h; cases h
      | ptr _ _ j u sub ws p h h2 => simp at hne; subst hne; rw [h1] at h; cases h
    · exact blocked_set hne hu
  | val fs us i sub ws ws' q x h1 h2 _ ih =>
    intro vs p hq hv hu
    have hlen := (List.getElem?_eq_some_iff.1 h2).1
    by_cases hne : p.head? = some i
    · cases hv with
      | here _ _ j u sub p h => simp at hne; subst hne; rw [h1] at h; cases h
      | ptr _ _ j u sub ws p h => simp at hne; subst hne; rw [h1] at h; cases h
      | val _ _ j sub' zs p h h' hv =>
        simp at hne; subst hne
        rw [h1] at h; injection h with h; injection h with h; subst h
        cases hu with
        | here _ _ j u sub p h => rw [h1] at h; cases h
        | ptr _ _ j u sub ws p h => rw [h1] at h; cases h
        | val _ _ _ sub' ys _ h h'' hu =>
          rw [h1] at h; injection h with h; injection h with h; subst h
          rw [h2] at h''; injection h'' with h''; injection h'' with h''; subst h''
          refine .val _ _ _ sub ws' p h1 (by rw [List.getElem?_set_self hlen]) (ih (fun hb => hq ?_) hv hu)
          exact .val _ _ _ sub zs q h1 h' hb
    · exact blocked_set hne hu
  | ptr fs us i u sub ws ws' q x h1 h2 _ ih =>
    intro vs p hq hv hu
    have hlen := (List.getElem?_eq_some_iff.1 h2).1
    by_cases hne : p.head? = some i
    · cases hv with
      | here _ _ j u' sub' p h h' => simp at hne; subst hne; exact absurd (.here _ _ _ u sub q h1 h') hq
      | val _ _ j sub ws p h => simp at hne; subst hne; rw [h1] at h; cases h
      | ptr _ _ j u' sub' zs p h h' hv =>
        simp at hne; subst hne
        rw [h1] at h; injection h with h; injection h with _ h; subst h
        cases hu with
        | here _ _ j u sub p h h'' => rw [h2] at h''; cases h''
        | val _ _ j sub ws p h => rw [h1] at h; cases h
        | ptr _ _ _ u' sub' ys _ h h'' hu =>
          rw [h1] at h; injection h with h; injection h with _ h; subst h
          rw [h2] at h''; injection h'' with h''; injection h'' with h''; subst h''
          refine .ptr _ _ _ u sub ws' p h1 (by rw [List.getElem?_set_self hlen]) (ih (fun hb => hq ?_) hv hu)
          exact .ptr _ _ _ u sub zs q h1 h' hb
    · exact blocked_set hne hu
  | nil fs us i sub ws' q x h1 h2 _ ih =>
    intro vs p hq hv hu
    have hlen := (List.getElem?_eq_some_iff.1 h2).1
    by_cases hne : p.head? = some i
    · cases hv with
      | here _ _ j u' sub' p h h' => simp at hne; subst hne; exact absurd (.here _ _ _ _ sub q h1 h') hq
      | val _ _ j sub ws p h => simp at hne; subst hne; rw [h1] at h; cases h
      | ptr _ _ j u' sub' zs p h h' hv =>
        simp at hne; subst hne
        rw [h1] at h; injection h with h; injection h with _ h; subst h
        refine .ptr _ _ _ false sub ws' p h1 (by rw [List.getElem?_set_self hlen]) (ih (fun hb => hq ?_) hv (blocked_zero hv))
        exact .ptr _ _ _ _ sub zs q h1 h' hb
    · exact blocked_set hne hu

/-- The field that was stored can be reached. -/
theorem stores_reached {fs : List EF} {q : List Nat} {x : DV} {us us' : List EV} (h : Stores fs q x us us') : ¬ Blocked fs us' q := by
  induction h with
  | leaf fs us i nm g t x h1 =>
    intro h
    cases h with
    | here _ _ j u sub p h => rw [h1] at h; cases h
    | val _ _ j sub ws p h => rw [h1] at h; cases h
    | ptr _ _ j u sub ws p h => rw [h1] at h; cases h
  | val fs us i sub ws ws' q x h1 h2 _ ih =>
    have hlen := (List.getElem?_eq_some_iff.1 h2).1
    intro h
    cases h with
    | here _ _ j u sub p h => rw [h1] at h; cases h
    | ptr _ _ j u sub ws p h => rw [h1] at h; cases h
    | val _ _ j sub ws p h h' hb =>
      rw [h1] at h; injection h with h; injection h with h; subst h
      rw [List.getElem?_set_self hlen] at h'; injection h' with h'; injection h' with h'; subst h'
      exact ih hb
  | ptr fs us i u sub ws ws' q x h1 h2 _ ih | nil fs us i sub ws' q x h1 h2 _ ih =>
    all_goals
      have hlen := (List.getElem?_eq_some_iff.1 h2).1
      intro h
      cases h with
      | here _ _ j u sub p h h' => rw [List.getElem?_set_self hlen] at h'; cases h'
      | val _ _ j sub ws p h => rw [h1] at h; cases h
      | ptr _ _ j u sub ws p h h' hb =>
        rw [h1] at h; injection h with h; injection h with _ h; subst h
        rw [List.getElem?_set_self hlen] at h'; injection h' with h'; injection h' with h'; subst h'
        exact ih hb

theorem blocked_unset {fs : List EF} {us : List EV} {i : Nat} {p : List Nat} {x : EV} (hne : p.head? ≠ some i) (h : Blocked fs (us.set i x) p) : Blocked fs us p := by
  cases h with
  | here _ _ j u sub p h1 h2 => exact .here _ _ j u sub p h1 (by rw [List.getElem?_set_ne (fun e => hne (by simp [e]))] at h2; exact h2)
  | val _ _ j sub ws p h1 h2 h => exact .val _ _ j sub ws p h1 (by rw [List.getElem?_set_ne (fun e => hne (by simp [e]))] at h2; exact h2) h
  | ptr _ _ j u sub ws p h1 h2 h => exact .ptr _ _ j u sub ws p h1 (by rw [List.getElem?_set_ne (fun e => hne (by simp [e]))] at h2; exact h2) h

/-- Storing makes no pointer nil. -/
theorem stores_unblocks {fs : List EF} {q : List Nat} {x : DV} {us us' : List EV} (h : Stores fs q x us us') : ∀ {p : List Nat}, Blocked fs us' p → Blocked fs us p := by
  induction h with
  | leaf fs us i nm g t x h1 =>
    intro p hu
    by_cases hne : p.head? = some i
    · exfalso
      cases hu with
      | here _ _ j u sub p h h2 => simp at hne; subst hne; rw [h1] at h; cases h
      | val _ _ j sub ws p h h2 => simp at hne; subst hne; rw [h1] at h; cases h
      | ptr _ _ j u sub ws p h h2 => simp at hne; subst hne; rw [h1] at h; cases h
    · exact blocked_unset hne hu
  | val fs us i sub ws ws' q x h1 h2 _ ih =>
    intro p hu
    have hlen := (List.getElem?_eq_some_iff.1 h2).1
    by_cases hne : p.head? = some i
    · cases hu with
      | here _ _ j u sub p h => simp at hne; subst hne; rw [h1] at h; cases h
      | ptr _ _ j u sub ws p h => simp at hne; subst hne; rw [h1] at h; cases h
      | val _ _ j sub' zs p h h' hv =>
        simp at hne; subst hne
        rw [h1] at h; injection h with h; injection h with h; subst h
        rw [List.getElem?_set_self hlen] at h'; injection h' with h'; injection h' with h'; subst h'
        exact .val _ _ _ sub ws p h1 h2 (ih hv)
    · exact blocked_unset hne hu
  | ptr fs us i u sub ws ws' q x h1 h2 _ ih =>
    intro p hu
    have hlen := (List.getElem?_eq_some_iff.1 h2).1
    by_cases hne : p.head? = some i
    · cases hu with
      | here _ _ j u' sub' p h h' => simp at hne; subst hne; rw [List.getElem?_set_self hlen] at h'; cases h'
      | val _ _ j sub ws p h => simp at hne; subst hne; rw [h1] at h; cases h
      | ptr _ _ j u' sub' zs p h h' hv =>
        simp at hne; subst hne
        rw [h1] at h; injection h with h; injection h with _ h; subst h
        rw [List.getElem?_set_self hlen] at h'; injection h' with h'; injection h' with h'; subst h'
        exact .ptr _ _ _ u sub ws p h1 h2 (ih hv)
    · exact blocked_unset hne hu
  | nil fs us i sub ws' q x h1 h2 _ ih =>
    intro p hu
    by_cases hne : p.head? = some i
    · cases hu with
      | here _ _ j u' sub' p h h' => simp at hne; subst hne; exact .here _ _ _ _ sub p h1 h2
      | val _ _ j sub ws p h => simp at hne; subst hne; rw [h1] at h; cases h
      | ptr _ _ j u' sub' zs p h h' hv => simp at hne; subst hne; exact .here _ _ _ _ sub p h1 h2
    · exact blocked_unset hne hu

/-! members -/

/-- The field that a key selects. -/
def Goes (c : DCfg) (fs : List EF) (raw : Bytes) (a : Promoted) : Prop :=
  ∃ i, pickField c ((promoted fs).map (·.1)) (unq raw) = some i ∧ (promoted fs)[i]? = some a

theorem mj_blocked {c : DCfg} {n : Nat} {fs : List EF} {ms : List (Bytes × Json)} {us ws : List EV} (h : MJ c n fs ms us ws) : ∀ {vs : List EV},
    (∀ m ∈ ms, ∃ a, Goes c fs m.1 a ∧ ¬ Blocked fs vs a.2.1) → ∀ {p : List Nat}, Blocked fs vs p → Blocked fs us p → Blocked fs ws p := by
  induction h with
  | nil us => intro vs _ p _ h; exact h
  | skip raw j ms us ws hp _ _ ih =>
    intro vs hk
    exact ih (fun m hm => hk m (by simp [hm]))
  | field raw i nm q t v x j ms us us' ws hp ha _ _ hst _ ih =>
    intro vs hk p hv hu
    refine ih (fun m hm => hk m (by simp [hm])) hv (stores_blocked hst ?_ hv hu)
    obtain ⟨a, ⟨i', h1, h2⟩, h3⟩ := hk _ List.mem_cons_self
    rw [hp] at h1; injection h1 with h1; subst h1
    rw [ha] at h2; injection h2 with h2; subst h2
    exact h3

theorem mj_shape {c : DCfg} {n : Nat} {fs : List EF} {ms : List (Bytes × Json)} {us ws : List EV} (h : MJ c n fs ms us ws) : ShapeL fs us → ShapeL fs ws := by
  induction h with
  | nil us => exact id
  | skip _ _ _ _ _ _ _ _ ih => exact ih
  | field raw i nm q t v x j ms us us' ws hp ha _ _ hst _ ih => exact fun h => ih (stores_shape hst h).1

theorem mj_open {c : DCfg} {n : Nat} {fs : List EF} {ms : List (Bytes × Json)} {us ws : List EV} (h : MJ c n fs ms us ws) {p : List Nat} :
    Blocked fs ws p → Blocked fs us p := by
  induction h with
  | nil us => exact id
  | skip _ _ _ _ _ _ _ _ ih => exact ih
  | field raw i nm q t v x j ms us us' ws hp ha _ _ hst _ ih => exact fun h => stores_unblocks hst (ih h)

theorem mj_reached {c : DCfg} {n : Nat} {fs : List EF} {ms : List (Bytes × Json)} {us ws : List EV} (h : MJ c n fs ms us ws) {m : Bytes × Json} {a : Promoted} :
    m ∈ ms → Goes c fs m.1 a → ¬ Blocked fs ws a.2.1 := by
  induction h with
  | nil us => intro hm; simp at hm
  | skip raw j ms us ws hp _ _ ih =>
    intro hm hg
    simp only [List.mem_cons] at hm
    rcases hm with rfl | hm
    · obtain ⟨i, h1, _⟩ := hg; rw [hp] at h1; cases h1
    · exact ih hm hg
  | field raw i nm q t v x j ms us us' ws hp ha _ _ hst hr ih =>
    intro hm hg
    simp only [List.mem_cons] at hm
    rcases hm with rfl | hm
    · obtain ⟨i', h1, h2⟩ := hg
      rw [hp] at h1; injection h1 with h1; subst h1
      rw [ha] at h2; injection h2 with h2; subst h2
      exact fun h => stores_reached hst (mj_open hr h)
    · exact ih hm hg

theorem seqFields_all {html : Bool} : ∀ (l : List (FMeta × Bool × Meaning)) (any : Bool) (ms : List (Role × Bytes × Doc)), seqFields html any l = .ok ms →
    ∀ f ∈ l, ∀ x, f.1.omitempty = false → f.2.2 = .doc x → ∃ r, (r, quote html f.1.name, x) ∈ ms
  | [], any, ms, h, f, hf => by simp at hf
  | (g, em, y) :: r, any, ms, h, f, hf => by
    intro x ho hx
    rw [seqFields.eq_def] at h
    simp only [] at h
    simp only [List.mem_cons] at hf
    rcases hf with rfl | hf
    · simp only [] at ho hx
      rw [if_neg (by simp [ho])] at h
      subst hx
      simp only [] at h
      cases hr : seqFields html true r with
      | ok ys => rw [hr] at h; injection h with h; subst h; exact ⟨_, List.mem_cons_self⟩
      | err e => rw [hr] at h; cases h
      | wild => rw [hr] at h; cases h
    · have tail := fun any ms (h : seqFields html any r = .ok ms) => seqFields_all r any ms h f hf x ho hx
      split at h
      · exact tail any ms h
      · cases y with
        | err e =>
          simp only [] at h
          split at h
          · split at h
            · cases h
            · exact tail any ms h
          · cases h
        | wild => cases h
        | doc y =>
          simp only [] at h
          cases hr : seqFields html true r with
          | ok ys =>
            rw [hr] at h; injection h with h; subst h
            obtain ⟨r', h⟩ := tail true ys hr
            exact ⟨r', by simp [h]⟩
          | err e => rw [hr] at h; cases h
          | wild => rw [hr] at h; cases h

theorem jsonOfM_has : ∀ {ms : List (Role × Bytes × Doc)} {r : Role} {k : Bytes} {x : Doc}, (r, k, x) ∈ ms → (k, jsonOf x) ∈ jsonOfM ms
  | [], _, _, _, h => by simp at h
  | (r', k', x') :: ms, r, k, x, h => by
    simp only [List.mem_cons, Prod.mk.injEq] at h
    simp only [jsonOfM, List.mem_cons, Prod.mk.injEq]
    rcases h with ⟨_, rfl, rfl⟩ | h
    · exact .inl ⟨rfl, rfl⟩
    · exact .inr (jsonOfM_has h)

theorem meanF_has {c : Cfg} : ∀ {gs : List (FMeta × GV)} {g : FMeta × GV}, g ∈ gs → ∃ f ∈ meanF c gs, f.1 = g.1 ∧ f.2.2 = meaning c g.2
  | [], _, h => by simp at h
  | (m, g') :: gs, g, h => by
    simp only [List.mem_cons] at h
    rw [meanF]
    rcases h with rfl | h
    · exact ⟨_, List.mem_cons_self, rfl, rfl⟩
    · obtain ⟨f, h1, h2⟩ := meanF_has (c := c) h
      exact ⟨f, by simp [h1], h2⟩

theorem backF_doc {c : Cfg} {dc : DCfg} {dyn : Ty → Dec} {dynJ : Ty → JDec} : ∀ (fs : List (Bytes × Ty)) (vs : List DV) (gs : List (FMeta × GV)),
    BackF c dc dyn dynJ fs vs gs → ∀ g ∈ gs, ∃ x, meaning c g.2 = .doc x
  | [], [], [], _, g, hg => by simp at hg
  | (n, t) :: fs, v :: vs, (m, g') :: gs, h, g, hg => by
    obtain ⟨_, _, ⟨x, hx, _⟩, h⟩ := h
    simp only [List.mem_cons] at hg
    rcases hg with rfl | hg
    · exact ⟨x, hx⟩
    · exact backF_doc fs vs gs h g hg
  | [], _ :: _, _, h, _, _ | [], [], _ :: _, h, _, _ | _ :: _, [], _, h, _, _ | _ :: _, _ :: _, [], h, _, _ => h.elim

theorem backN_doc {c : Cfg} {dc : DCfg} {dyn : Ty → Dec} {dynJ : Ty → JDec} {fs : List (Bytes × Ty)} {vs : List DV} {gs : List (FMeta × GV)}
    (h : BackN c dc dyn dynJ fs vs gs) : ∀ g ∈ gs, isRollback g.2 = true ∨ ∃ x, meaning c g.2 = .doc x := by
  induction h with
  | rest fs vs gs h => exact fun g hg => .inr (backF_doc fs vs gs h g hg)
  | nil n t fs v vs m gs hv h ih =>
    intro g hg
    simp only [List.mem_cons] at hg
    rcases hg with rfl | hg
    · exact .inl rfl
    · exact ih g hg

end JC
