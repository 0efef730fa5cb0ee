import Verif.Lemmas.Transparent
import Verif.Lemmas.Run
import Verif.Lemmas.Recur
/-!
Lemmas for C87: the zero value of a struct with embedded structs and that of the one with the promoted fields as its own.
-/
namespace JC
open Spec Props

variable {w : Decls} {env : PEnv} {mem : Nat → List (Bytes × List Nat)}

theorem zeroS_base {n : Nat} (t : Ty) : zeroS w env n (.base t) = zero t := by cases n <;> rfl
theorem zeroS_slice {n : Nat} (t : NTy) : zeroS w env n (.slice t) = .sliceNil := by cases n <;> rfl
theorem zeroS_array {n : Nat} (k : Nat) (t : NTy) : zeroS w env n (.array k t) = .array (List.replicate k (zeroS w env n t)) := by cases n <;> rfl
theorem zeroS_map {n : Nat} (k : KTy) (t : NTy) : zeroS w env n (.map k t) = .mapNil := by cases n <;> rfl
theorem zeroS_ptr {n : Nat} (t : NTy) : zeroS w env n (.ptr t) = .ptrNil := by cases n <;> rfl

/-- The zero value of a field. -/
def zeroFieldS (w : Decls) (env : PEnv) (n : Nat) (f : PField) : DV :=
  match embeds f with
  | some (id', false) => zeroS w env n (.ref id')
  | some (_, true) => .ptrNil
  | none => zeroS w env n (reading w env.ty f.type)

theorem zeroS_ref (n id : Nat) : zeroS w env (n + 1) (.ref id) = .struct ((env id).fields.map (zeroFieldS w env n)) := rfl

theorem zeroS_enough {rank : Nat → Nat} (hr : ∀ id, ∀ f ∈ (env id).fields, ∀ id' ∈ insideOf f.type, rank id' < rank id) :
    ∀ n m t, (∀ id ∈ NTy.inside t, rank id < n) → (∀ id ∈ NTy.inside t, rank id < m) → zeroS w env n t = zeroS w env m t := by
  intro n
  induction n with
  | zero =>
    intro m t h _
    induction t with
    | array k t ih => rw [zeroS_array, zeroS_array, ih h (by assumption)]
    | ref id => exact absurd (h id (by simp [NTy.inside])) (by omega)
    | _ => simp [zeroS_base, zeroS_slice, zeroS_map, zeroS_ptr]
  | succ n ihn =>
    intro m t h h'
    induction t with
    | array k t ih => rw [zeroS_array, zeroS_array, ih h h']
    | ref id =>
      have h1 := h id (by simp [NTy.inside])
      have h2 := h' id (by simp [NTy.inside])
      cases m with
      | zero => omega
      | succ m =>
        simp only [zeroS_ref]
        congr 1
        apply List.map_congr_left
        intro f hf
        have key : ∀ t : NTy, (∀ id' ∈ NTy.inside t, id' ∈ insideOf f.type) → zeroS w env n t = zeroS w env m t := by
          intro t ht
          apply ihn m t
          · intro id' hid; have := hr id f hf id' (ht id' hid); omega
          · intro id' hid; have := hr id f hf id' (ht id' hid); omega
        unfold zeroFieldS
        split
        · rename_i id' he
          refine key _ ?_
          intro i hi
          simp only [NTy.inside, List.mem_singleton] at hi
          subst hi
          unfold embeds at he
          split at he
          · split at he
            · rename_i e; cases he; simp [e, insideOf]
            · cases he
            · cases he
          · cases he
        · rfl
        · exact key _ (fun _ h => inside_reading _ h)
    | _ => simp [zeroS_base, zeroS_slice, zeroS_map, zeroS_ptr]

variable {depth : Nat}

/-- The zero value of a struct has those of its fields. -/
theorem zeroS_struct (h : SizedP env depth) (id : Nat) : zeroS w env depth (.ref id) = .struct ((env id).fields.map (zeroFieldS w env depth)) := by
  obtain ⟨rank, h1, h2⟩ := h
  have h0 := h1 id
  rw [zeroS_enough h2 depth (depth + 1) (.ref id) (fun i _ => h1 i) (fun i _ => Nat.lt_succ_of_lt (h1 i))]
  rfl

/-- In a zero value the promoted fields are zero. -/
theorem look_zero (h : SizedP env depth) {id k : Nat} {p : List Nat} {f : PField} {via : List Bool} (hr : Reaches env id p k f via) :
    ∀ {q : Place}, place env id p = some q → q.field = f ∧ HasField (fun id => zeroS w env depth (.ref id)) q.way q.idx (zeroS w env depth (.ref id)) ∧
      look (fun id => zeroS w env depth (.ref id)) q.way q.idx (zeroS w env depth (.ref id)) = zeroS w env depth (reading w env.ty f.type) := by
  induction hr with
  | here id i f hf hs he =>
    intro q hq
    simp only [place, hf, Option.map_some, Option.some.injEq] at hq
    subst hq
    obtain ⟨hlt, _⟩ := List.getElem?_eq_some_iff.1 hf
    refine ⟨rfl, ?_, ?_⟩
    · rw [zeroS_struct h]; simpa [HasField, DV.fields] using hlt
    · simp only [look]
      rw [zeroS_struct h]
      simp [DV.field, DV.fields, List.getD, hf, zeroFieldS, he]
  | there id i f id' ptr p k g via hf hs he hr ih =>
    intro q hq
    obtain ⟨hlt, _⟩ := List.getElem?_eq_some_iff.1 hf
    cases p with
    | nil => exact absurd rfl (reaches_ne hr)
    | cons j p =>
      simp only [place, hf, he, Option.map_eq_some_iff] at hq
      obtain ⟨q0, h1, rfl⟩ := hq
      obtain ⟨i1, i2, i3⟩ := ih h1
      refine ⟨i1, ?_⟩
      have hfld : (DV.struct ((env id).fields.map (zeroFieldS w env depth))).field i = zeroFieldS w env depth f := by
        simp [DV.field, DV.fields, List.getD, hf]
      cases ptr with
      | false =>
        have : zeroFieldS w env depth f = zeroS w env depth (.ref id') := by simp [zeroFieldS, he]
        simp only [Bool.false_eq_true, if_false, HasField, look]
        rw [zeroS_struct h, hfld, this]
        exact ⟨⟨by simpa [DV.fields] using hlt, i2⟩, i3⟩
      | true =>
        have : zeroFieldS w env depth f = .ptrNil := by simp [zeroFieldS, he]
        simp only [if_true, HasField, look]
        rw [zeroS_struct h id, hfld, this]
        exact ⟨⟨by simpa [DV.fields] using hlt, i2⟩, i3⟩

theorem zeroS_quoted {f : GT × Bool} (h : fieldReading w env.ty f ≠ reading w env.ty f.1) :
    ∃ ty, fieldReading w env.ty f = .base ty ∧ zeroS w env depth (reading w env.ty f.1) = zero ty := by
  unfold fieldReading at h ⊢
  split at h
  · rename_i hq
    rw [if_pos hq]
    cases hi : goScalar (goPointee f.1) with
    | none => rw [hi] at h; exact absurd rfl h
    | some b =>
      have key : zeroS w env depth (reading w env.ty f.1) = zero (scalarTy (reading w env.ty f.1)) := by
        obtain ⟨u, hu | hu⟩ := reading_scalar (w := w) (env := env.ty) hi
        · rw [hu, zeroS_base]; rfl
        · rw [hu, zeroS_ptr]; rfl
      cases b with
      | true => exact ⟨_, rfl, by rw [key]; simp [zero]⟩
      | false => exact ⟨_, rfl, by rw [key]; simp [zero]⟩
  · exact absurd rfl h

/-- Zero values correspond. -/
theorem flat_zero {dep : Nat} {P : Nat → Prop} (ho : FlatOk w env mem P) (hre : ∀ id, P id → ∀ m ∈ mem id, ∃ k f via, Reaches env id m.2 k f via)
    (hs : SizedP env dep) (hf : Sized (flatEnv env mem) depth) :
    ∀ t, (∀ id ∈ t.refs, P id) → Flat w env mem (fun id => zeroS w env dep (.ref id)) t (zeroS w env dep t)
      (zeroR (envReading (flatDecls w env mem) (flatEnv env mem)) depth t) := by
  obtain ⟨rank, hlt, hr⟩ := goRec_reading (w := flatDecls w env mem) hf
  have key : ∀ n t, (∀ id ∈ t.refs, P id) → (∀ id ∈ NTy.inside t, rank id < n) → Flat w env mem (fun id => zeroS w env dep (.ref id)) t (zeroS w env dep t)
      (zeroR (envReading (flatDecls w env mem) (flatEnv env mem)) depth t) := by
    intro n
    induction n with
    | zero =>
      intro t hp hn
      induction t with
      | base t => rw [zeroS_base, zeroR_base]; exact .base _
      | slice t ih => rw [zeroS_slice, zeroR_slice]; exact .sliceNil
      | array k t ih =>
        rw [zeroS_array, zeroR_array]
        exact flat_array (pts_replicate (ih hp hn) k)
      | map k t ih => rw [zeroS_map, zeroR_map]; exact .mapNil
      | ptr t ih => rw [zeroS_ptr, zeroR_ptr]; exact .ptrNil
      | ref id => exact absurd (hn id (by simp [NTy.inside])) (by omega)
    | succ n ihn =>
      intro t hp hn
      induction t with
      | base t => rw [zeroS_base, zeroR_base]; exact .base _
      | slice t ih => rw [zeroS_slice, zeroR_slice]; exact .sliceNil
      | array k t ih =>
        rw [zeroS_array, zeroR_array]
        exact flat_array (pts_replicate (ih hp hn) k)
      | map k t ih => rw [zeroS_map, zeroR_map]; exact .mapNil
      | ptr t ih => rw [zeroS_ptr, zeroR_ptr]; exact .ptrNil
      | ref id =>
        have hid : P id := hp id (by simp [NTy.refs])
        have hrk := hn id (by simp [NTy.inside])
        obtain ⟨f1, f2⟩ := flat_fields ho hid
        have hz : zeroR (envReading (flatDecls w env mem) (flatEnv env mem)) depth (.ref id) =
            .struct ((places env mem id).map fun q => zeroR (envReading (flatDecls w env mem) (flatEnv env mem)) depth (fieldReading w env.ty (option q.field))) := by
          rw [zeroR_enough hr depth (depth + 1) (.ref id) (fun i _ => hlt i) (fun i _ => Nat.lt_succ_of_lt (hlt i)), zeroR_ref]
          have := congrArg (List.map (zeroR (envReading (flatDecls w env mem) (flatEnv env mem)) depth)) f2
          simpa [List.map_map, Function.comp_def] using this
        have hplace : ∀ q ∈ places env mem id, HasField (fun id => zeroS w env dep (.ref id)) q.way q.idx (zeroS w env dep (.ref id)) ∧
            look (fun id => zeroS w env dep (.ref id)) q.way q.idx (zeroS w env dep (.ref id)) = zeroS w env dep (reading w env.ty q.field.type) := by
          intro q hq
          obtain ⟨m, hm, hq⟩ := List.mem_filterMap.1 hq
          obtain ⟨k, f, via, hre⟩ := hre id hid m hm
          obtain ⟨l1, l2, l3⟩ := look_zero (w := w) hs hre hq
          rw [l1]
          exact ⟨l2, l3⟩
        rw [hz]
        rw [zeroS_struct hs] at hplace ⊢
        refine .struct (fun q hq => (hplace q hq).1) (by simp) ?_
        intro i q u hq hu
        simp only [List.getElem?_map, hq, Option.map_some, Option.some.injEq] at hu
        subst hu
        have hqm := List.mem_of_getElem? hq
        rw [(hplace q hqm).2]
        by_cases hfr : fieldReading w env.ty (option q.field) = reading w env.ty (option q.field).1
        · have hin : ∀ id' ∈ NTy.inside (fieldReading w env.ty (option q.field)), rank id' < rank id := by
            intro id' hid'
            have hmem : fieldReading w env.ty (option q.field) ∈ (envReading (flatDecls w env mem) (flatEnv env mem) id).map (·.2) := by
              rw [f2]; exact List.mem_map.2 ⟨q, hqm, rfl⟩
            obtain ⟨g, hg, e⟩ := List.mem_map.1 hmem
            exact hr id g hg id' (by rw [e]; exact hid')
          have := ihn (fieldReading w env.ty (option q.field)) (ho.closed id hid q hqm) (fun id' h => by have := hin id' h; omega)
          have e : zeroS w env dep (fieldReading w env.ty (option q.field)) = zeroS w env dep (reading w env.ty q.field.type) := by rw [hfr]; rfl
          rw [e] at this
          exact this
        · obtain ⟨ty, e1, e2⟩ := zeroS_quoted (depth := dep) hfr
          have e3 : zeroS w env dep (reading w env.ty q.field.type) = zero ty := e2
          rw [e1, e3, zeroR_base]
          exact .base _
  intro t hp
  exact key depth t hp (fun id _ => hlt id)

end JC
