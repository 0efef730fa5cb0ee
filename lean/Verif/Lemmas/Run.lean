import Verif.Spec.Run
import Verif.Props.Codec
import Verif.Props.Recur
/-!
Lemmas for C82.
-/
namespace JC
open Spec Props

variable {c : DCfg} {dyn : Ty → Dec} {w : Decls} {env : TyEnv}

theorem byMethod_isPtr {m : Meths} {t : GT} {s : NTy} (h : s.isPtr = false) : (byMethod w m t s).isPtr = false := by
  unfold byMethod
  repeat' split
  all_goals first | rfl | exact h

theorem reading_isPtr : ∀ t : GT, (reading w env t).isPtr = t.isPtr
  | .special s => by cases s <;> rfl
  | .basic k m => by
    rw [reading, byMethod_isPtr]; rfl
    cases k <;> rfl
  | .ifc m => rfl
  | .array n e m => by rw [reading, byMethod_isPtr] <;> rfl
  | .slice e m => by
    rw [reading, byMethod_isPtr]; rfl
    split <;> rfl
  | .map k e m => by
    rw [reading, byMethod_isPtr]; rfl
    repeat' split
    all_goals rfl
  | .ptr e => rfl
  | .struct id => by rw [reading, byMethod_isPtr] <;> rfl
  | .other m => by rw [reading, byMethod_isPtr] <;> rfl

theorem run_method {S : Nat → Dec} {z : GT → DV} {S' : Nat → Dec} {z' : NTy → DV} {m : Meths} {t : GT} {d : DC} {s : NTy}
    (h : run c dyn w S z d t = decWith c dyn S' z' s) : run c dyn w S z (goChooseDec m d) t = decWith c dyn S' z' (byMethod w m t s) := by
  unfold goChooseDec byMethod
  split
  · rfl
  · split
    · rfl
    · exact h

theorem goKeyDec_reading {k : KeyTy} (hd : k.kind ≠ .duration) : (goKeyDec k = none ∧ keyReading w k = none) ∨
    ∃ d kt, goKeyDec k = some d ∧ keyReading w k = some kt ∧ keyFun w k d = some kt ∧ (d = .textU true → k.m.ptr.textU = true) := by
  unfold goKeyDec keyReading
  split
  · rename_i h; exact .inr ⟨_, _, rfl, rfl, rfl, fun _ => h⟩
  · cases hk : k.kind with
    | string => exact .inr ⟨_, _, rfl, rfl, rfl, by simp⟩
    | stringLike => exact .inr ⟨_, _, rfl, rfl, rfl, by simp⟩
    | duration => exact absurd hk hd
    | int i => exact .inr ⟨_, _, rfl, rfl, rfl, by simp⟩
    | other => exact .inl ⟨rfl, rfl⟩

/-- running what Go chooses for a type is reading the type -/
theorem run_goDec {S S' : Nat → Dec} {z : GT → DV} {z' : NTy → DV} (hz : ∀ t, z t = z' (reading w env t)) : ∀ (t : GT) (a : Bool), NoDurKeys t →
    (∀ x ∈ ctx t a, S x.1 = S' x.1) → run c dyn w S z (goDec env t) t = decWith c dyn S' z' (reading w env t)
  | .special s, a, _, _ => rfl
  | .basic k m, a, _, _ => by rw [goDec, reading]; exact run_method rfl
  | .ifc m, a, _, _ => by rw [goDec, reading, run, decWith, dec]
  | .array n e m, a, hd, hs => by
    rw [goDec, reading]
    refine run_method ?_
    rw [run, decWith, GT.elem, run_goDec hz e a hd hs, hz]
  | .slice e m, a, hd, hs => by
    rw [goDec, reading]
    refine run_method ?_
    have : goBytesDec e = plainByte e := by
      unfold goBytesDec plainByte; rfl
    rw [this]
    split
    · rw [run, decWith, dec]
    · rw [run, decWith, GT.elem, run_goDec hz e true hd hs, hz]
  | .map k e m, a, hd, hs => by
    rw [goDec, reading]
    refine run_method ?_
    split
    · rw [run, decWith]
    · split
      · rw [run, decWith]
      · rcases goKeyDec_reading (w := w) hd.1 with ⟨h1, h2⟩ | ⟨d, kt, h1, h2, h3, h4⟩
        · rw [h1, h2]
          rw [run, decWith, dec]
        · rw [h1, h2]
          simp only []
          rw [run, decWith, runMap, GT.elem, run_goDec hz e false hd.2 hs, hz]
          simp only [h3]
          rw [if_neg]
          rintro ⟨e1, e2⟩
          rw [h4 e1] at e2; cases e2
  | .ptr e, a, hd, hs => by
    rw [goDec, reading, run, decWith, GT.elem, run_goDec hz e true hd hs, hz, reading_isPtr]
  | .struct id, a, _, hs => by
    rw [goDec, reading]
    refine run_method ?_
    rw [run, decWith]
    exact hs (id, a) (by simp [ctx])
  | .other m, a, _, _ => by
    rw [goDec, reading]
    refine run_method ?_
    rw [run, decWith, dec]

/-- scalars and pointers to scalars have no struct types in them -/
theorem reading_scalar {t : GT} {i : Bool} (h : goScalar (goPointee t) = some i) : ∃ u, (reading w env t = .base u ∨ reading w env t = .ptr (.base u)) := by
  have base : ∀ e, goScalar e = some i → ∃ u, reading w env e = .base u := by
    intro e he
    cases e with
    | special s => exact ⟨_, rfl⟩
    | basic k m =>
      rw [reading]; unfold byMethod
      repeat' split
      all_goals exact ⟨_, rfl⟩
    | _ => simp [goScalar] at he
  cases t with
  | ptr e =>
    obtain ⟨u, hu⟩ := base e h
    exact ⟨u, .inr (by rw [reading, hu])⟩
  | _ =>
    obtain ⟨u, hu⟩ := base _ h
    exact ⟨u, .inl hu⟩

theorem run_field {S S' : Nat → Dec} {z : GT → DV} {z' : NTy → DV} (hz : ∀ t, z t = z' (reading w env t)) (hb : ∀ t, z' (.base t) = zero t)
    (f : GT × Bool) (a : Bool) (hd : NoDurKeys f.1)
    (hs : ∀ x ∈ ctx f.1 a, S x.1 = S' x.1) : run c dyn w S z (goFieldDec env f) f.1 = decWith c dyn S' z' (fieldReading w env f) := by
  have h := run_goDec (c := c) (dyn := dyn) hz f.1 a hd hs
  have hq : ∀ i, goScalar (goPointee f.1) = some i → run c dyn w S z (goDec env f.1) f.1 = dec c dyn (scalarTy (reading w env f.1)) := by
    intro i hi
    rw [h]
    obtain ⟨u, hu | hu⟩ := reading_scalar (w := w) (env := env) hi
    · rw [hu]; rfl
    · rw [hu, decWith, decWith, hb, scalarTy, dec]
      rfl
  unfold goFieldDec fieldReading
  split
  · cases hi : goScalar (goPointee f.1) with
    | none => exact h
    | some b =>
      cases b
      · simp only []
        rw [run, hq _ hi, decWith, dec]
      · simp only []
        rw [run, hq _ hi, decWith, dec]
  · exact h

theorem zipWith_of_map {α β γ δ : Type} {g : α → δ} {s : β → δ} {F : α → δ → γ} : ∀ (l : List α) (cs : List β), cs.map s = l.map g →
    List.zipWith (fun f d => F f (s d)) l cs = l.map fun f => F f (g f)
  | [], [], _ => rfl
  | [], _ :: _, h => by simp at h
  | _ :: _, [], h => by simp at h
  | x :: l, y :: cs, h => by
    simp only [List.map_cons, List.cons.injEq] at h
    simp only [List.zipWith_cons_cons, List.map_cons]
    rw [h.1, zipWith_of_map l cs h.2]

theorem zip_fst {α β : Type} : ∀ (l : List α) (m : List β), l.length = m.length → (l.zip m).map (·.1) = l
  | [], [], _ => rfl
  | [], _ :: _, h => by simp at h
  | _ :: _, [], h => by simp at h
  | x :: l, y :: m, h => by simp only [List.zip_cons_cons, List.map_cons]; rw [zip_fst l m (by simpa using h)]

theorem zip_snd {α β γ : Type} (g : β → γ) : ∀ (l : List α) (m : List β), l.length = m.length → ((l.zip m).map fun f => g f.2) = m.map g
  | [], [], _ => rfl
  | [], _ :: _, h => by simp at h
  | _ :: _, [], h => by simp at h
  | x :: l, y :: m, h => by simp only [List.zip_cons_cons, List.map_cons]; rw [zip_snd g l m (by simpa using h)]

/-- the closures of the struct types that are met -/
theorem runStruct_eq {t : GT} {r : Codec × CSeen} (hr : RightDec env t r) (hn : HasNames w env)
    (hd : ∀ id a, Meets env t id a → ∀ f ∈ (env id).fields, NoDurKeys f.1) (depth : Nat) : ∀ (n id : Nat) (a : Bool), Meets env t id a →
    runStruct c dyn w env r.2 (fun t => zeroR (envReading w env) depth (reading w env t)) n id = structR c dyn (envReading w env) depth n id
  | 0, _, _, _ => rfl
  | n + 1, id, a, hm => by
    obtain ⟨cs, h1, h2⟩ := hr.2 id a hm
    have hlen : (w.names id).length = ((env id).fields.map (fieldReading w env)).length := by rw [hn id, List.length_map]
    rw [runStruct, structR, h1]
    simp only []
    rw [zipWith_of_map (F := fun f d => run c dyn w (runStruct c dyn w env r.2 (fun t => zeroR (envReading w env) depth (reading w env t)) n)
        (fun t => zeroR (envReading w env) depth (reading w env t)) d f.1) _ _ h2]
    rw [envReading, zip_fst _ _ hlen, zip_snd (fun f => decWith c dyn (structR c dyn (envReading w env) depth n) (zeroR (envReading w env) depth) f) _ _ hlen, List.map_map]
    congr 1
    refine List.map_congr_left fun f hf => ?_
    refine run_field (fun _ => rfl) (fun t => zeroR_base _ _ t) f a (hd id a hm f hf) ?_
    intro x hx
    exact runStruct_eq hr hn hd depth n x.1 x.2 (.field hm hf hx)

theorem inside_byMethod {m : Meths} {t : GT} {s : NTy} {id : Nat} (h : id ∈ NTy.inside (byMethod w m t s)) : id ∈ NTy.inside s := by
  unfold byMethod at h
  repeat' split at h
  · simp [NTy.inside] at h
  · simp [NTy.inside] at h
  · exact h

theorem inside_reading {id : Nat} : ∀ t : GT, id ∈ NTy.inside (reading w env t) → id ∈ insideOf t
  | .special s, h => by simp [reading, NTy.inside] at h
  | .basic k m, h => by
    rw [reading] at h
    have := inside_byMethod h
    simp [NTy.inside] at this
  | .ifc m, h => by simp [reading, NTy.inside] at h
  | .array n e m, h => by
    rw [reading] at h
    have := inside_byMethod h
    rw [NTy.inside] at this
    rw [insideOf]
    exact inside_reading e this
  | .slice e m, h => by
    rw [reading] at h
    have := inside_byMethod h
    split at this <;> simp [NTy.inside] at this
  | .map k e m, h => by
    rw [reading] at h
    have := inside_byMethod h
    repeat' split at this
    all_goals simp [NTy.inside] at this
  | .ptr e, h => by simp [reading, NTy.inside] at h
  | .struct id', h => by
    rw [reading] at h
    have := inside_byMethod h
    simpa [NTy.inside, insideOf] using this
  | .other m, h => by
    rw [reading] at h
    have := inside_byMethod h
    simp [NTy.inside] at this

theorem goRec_reading {depth : Nat} (h : Sized env depth) : GoRec (envReading w env) depth := by
  obtain ⟨rank, h1, h2⟩ := h
  refine ⟨rank, h1, ?_⟩
  intro id f hf id' hid
  have hf' : f.2 ∈ (env id).fields.map (fieldReading w env) := (List.of_mem_zip hf).2
  obtain ⟨g, hg, e⟩ := List.mem_map.1 hf'
  rw [← e] at hid
  refine h2 id g hg id' (inside_reading (w := w) (env := env) g.1 ?_)
  unfold fieldReading at hid
  repeat' split at hid
  · simp [NTy.inside] at hid
  · simp [NTy.inside] at hid
  · exact hid
  · exact hid

end JC
