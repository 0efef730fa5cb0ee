import Verif.Lemmas.WorkSquare
import Verif.Props.WorkTyped
import Verif.Lemmas.DecTrail
/-!
Property C88: the work of decoding any text into variables of any type is at most the square of its length.
-/
namespace JC.Props
open JC Spec

section
variable {c : DCfg}

theorem unmarshalW_square {P : DV → Prop} {A n : Nat} {t : Ty} {p : DV} (h : CostQD P A 0 (decNW c n t)) (hA : 50 ≤ A) (hp : P p) (b : Bytes) :
    (unmarshalW c n t b p).2 ≤ (A + 10) * ((b.length + 1) * (b.length + 1)) := by
  have h0 := parseIntoW_square h (by rw [decNW_fst]; exact decN_err c n t) hA b p hp
  unfold unmarshalW
  revert h0
  show CostQ _ _ _ _ → _ ≤ (A + 10) * sq b.length
  generalize parseIntoW (decNW c n t) b p = d
  obtain ⟨d, k⟩ := d
  cases d with
  | ok v r => intro h0; obtain ⟨h1, h2⟩ := h0; simp only [] at h2 ⊢; omega
  | err v r e => intro h0; simp only [CostQ] at h0 ⊢; omega
  | crash x => intro h0; simp only [CostQ] at h0 ⊢; omega

theorem perSquare_ge (m q n : Nat) : 400 ≤ perSquare m q n := by
  cases n with
  | zero => have := quad_ge m 0 q; simp only [perSquare]; omega
  | succ n => have := quad_ge m (perSquare m q n + 10) q; simp only [perSquare]; omega

/-- **C88** Whatever the text, the square of its length is enough, times a number that depends only on how many pointers there are in a row, how many
`string` options inside one another and how deep pointers in interfaces go, but not on how deep the type is. -/
theorem C88_square {m q n : Nat} {t : Ty} (ht : Bounded m q t) (b : Bytes) (p : DV) (hp : Held (Bounded m q) p n) :
    (unmarshalW c n t b p).2 ≤ (perSquare m q n + 10) * ((b.length + 1) * (b.length + 1)) :=
  unmarshalW_square (decNW_square c m q n t ht) (by have := perSquare_ge m q n; omega) hp b

mutual
theorem concrete_bounded {m : Nat} : ∀ (t : Ty) (q : Nat), Concrete m q t → Bounded m q t ∧ NoIface t
  | .slice t, q, h | .array _ t, q, h | .map _ t, q, h => by
    all_goals simp only [Concrete] at h; simp only [Bounded, NoIface]; exact concrete_bounded t q h
  | .ptr t, q, h => by simp only [Concrete] at h; simp only [Bounded, NoIface]; exact ⟨⟨h.1, (concrete_bounded t q h.2).1⟩, (concrete_bounded t q h.2).2⟩
  | .struct fs, q, h => by simp only [Concrete] at h; simp only [Bounded, NoIface]; exact concreteF_bounded fs q h
  | .quoted t, q, h | .quotedInt t, q, h => by
    all_goals
      simp only [Concrete] at h
      obtain ⟨a, rfl, h⟩ := h
      simp only [Bounded, NoIface]
      exact ⟨⟨a, rfl, (concrete_bounded t a h).1⟩, (concrete_bounded t a h).2⟩
  | .iface, _, h | .ifaceM _, _, h | .mapSI, _, h => by all_goals simp [Concrete] at h
  | .bool, _, _ | .int _, _, _ | .float32, _, _ | .float64, _, _ | .number, _, _ | .string, _, _ | .bytes, _, _ | .duration, _, _ | .time, _, _
  | .raw, _, _ | .mapRaw, _, _ | .jsonU _, _, _ | .textU _, _, _ | .unsupported, _, _ => by all_goals simp [Bounded, NoIface]
theorem concreteF_bounded {m : Nat} : ∀ (fs : List (Bytes × Ty)) (q : Nat), ConcreteF m q fs → BoundedF m q fs ∧ NoIfaceF fs
  | [], _, _ => by simp [BoundedF, NoIfaceF]
  | (_, t) :: fs, q, h => by
    simp only [ConcreteF] at h
    have h1 := concrete_bounded t q h.1
    have h2 := concreteF_bounded fs q h.2
    simp only [BoundedF, NoIfaceF]
    exact ⟨⟨h1.1, h2.1⟩, h1.2, h2.2⟩
end

theorem dynQ_none (k : Nat) : DynQ (fun _ => True) k 1 fun _ _ _ => (.crash .fuel, 0) := by
  refine ⟨fun m' _ t _ b p _ => ?_, fun m' _ t _ b p x r _ h => by simp [plainAll, DecW.plain] at h, fun t b p v r e h => by simp [DecW.plain] at h⟩
  have hs := skip_len b
  have := sq_pos b.length
  exact costQ_crash (by omega)

/-- **C88** Without interfaces that holds for every destination. -/
theorem C88_concrete {m q : Nat} {t : Ty} (ht : Concrete m q t) (n : Nat) (b : Bytes) (p : DV) :
    (unmarshalW c n t b p).2 ≤ (quad m 1 q + 10) * ((b.length + 1) * (b.length + 1)) := by
  obtain ⟨hb, hn⟩ := concrete_bounded t q ht
  obtain ⟨k, hk⟩ := held_any p
  have e : decNW c n t = decW c (fun _ _ _ => (.crash .fuel, 0)) t := by cases n <;> exact decW_noIface _ t hn
  have := decW_square (c := c) (dynQ_none k) t q hb
  rw [← e] at this
  exact unmarshalW_square this.any (by have := quad_ge m 1 q; omega) hk b

/-! ### Recursive types -/

mutual
theorem bounded_mono {m m' : Nat} (hm : m ≤ m') : ∀ (t : Ty) (q q' : Nat), q ≤ q' → Bounded m q t → Bounded m' q' t
  | .slice t, q, q', hq, h | .array _ t, q, q', hq, h | .map _ t, q, q', hq, h => by
    all_goals simp only [Bounded] at h ⊢; exact bounded_mono hm t q q' hq h
  | .ptr t, q, q', hq, h => by
    simp only [Bounded] at h ⊢; exact ⟨Nat.le_trans h.1 hm, bounded_mono hm t q q' hq h.2⟩
  | .struct fs, q, q', hq, h => by simp only [Bounded] at h ⊢; exact boundedF_mono hm fs q q' hq h
  | .quoted t, q, q', hq, h | .quotedInt t, q, q', hq, h => by
    all_goals
      simp only [Bounded] at h ⊢
      obtain ⟨a, rfl, h⟩ := h
      obtain ⟨d, rfl⟩ := Nat.exists_eq_add_of_le hq
      exact ⟨a + d, by omega, bounded_mono hm t a (a + d) (by omega) h⟩
  | .iface, _, _, _, _ | .ifaceM _, _, _, _, _ | .mapSI, _, _, _, _
  | .bool, _, _, _, _ | .int _, _, _, _, _ | .float32, _, _, _, _ | .float64, _, _, _, _ | .number, _, _, _, _ | .string, _, _, _, _
  | .bytes, _, _, _, _ | .duration, _, _, _, _ | .time, _, _, _, _ | .raw, _, _, _, _ | .mapRaw, _, _, _, _ | .jsonU _, _, _, _, _
  | .textU _, _, _, _, _ | .unsupported, _, _, _, _ => by all_goals simp [Bounded]
theorem boundedF_mono {m m' : Nat} (hm : m ≤ m') : ∀ (fs : List (Bytes × Ty)) (q q' : Nat), q ≤ q' → BoundedF m q fs → BoundedF m' q' fs
  | [], _, _, _, _ => by simp [BoundedF]
  | (_, t) :: fs, q, q', hq, h => by
    simp only [BoundedF] at h ⊢
    exact ⟨bounded_mono hm t q q' hq h.1, boundedF_mono hm fs q q' hq h.2⟩
end

mutual
theorem bounded_of : ∀ t : Ty, ∃ m, Bounded m m t
  | .slice t | .array _ t | .map _ t => by
    all_goals
      obtain ⟨m, hc⟩ := bounded_of t
      exact ⟨m, by simpa only [Bounded] using hc⟩
  | .ptr t => by
    obtain ⟨m, hc⟩ := bounded_of t
    exact ⟨m + ptrs t + 1, by simp only [Bounded]; exact ⟨by omega, bounded_mono (by omega) t m _ (by omega) hc⟩⟩
  | .struct fs => by
    obtain ⟨m, hc⟩ := boundedF_of fs
    exact ⟨m, by simpa only [Bounded] using hc⟩
  | .quoted t | .quotedInt t => by
    all_goals
      obtain ⟨m, hc⟩ := bounded_of t
      exact ⟨m + 1, by simp only [Bounded]; exact ⟨m, rfl, bounded_mono (by omega) t m _ (by omega) hc⟩⟩
  | .iface | .ifaceM _ | .mapSI
  | .bool | .int _ | .float32 | .float64 | .number | .string | .bytes | .duration | .time | .raw
  | .mapRaw | .jsonU _ | .textU _ | .unsupported => by all_goals exact ⟨0, by simp [Bounded]⟩
theorem boundedF_of : ∀ fs : List (Bytes × Ty), ∃ m, BoundedF m m fs
  | [] => ⟨0, by simp [BoundedF]⟩
  | (_, t) :: fs => by
    obtain ⟨m, hc⟩ := bounded_of t
    obtain ⟨m', hc'⟩ := boundedF_of fs
    refine ⟨m + m', ?_⟩
    simp only [BoundedF]
    exact ⟨bounded_mono (by omega) t m _ (by omega) hc, boundedF_mono (by omega) fs m' _ (by omega) hc'⟩
end

/-- A type that refers to struct types keeps to a bound that depends only on itself and them. -/
theorem unrollWith_bounded : ∀ t : NTy, ∃ m, ∀ m', m ≤ m' → ∀ structs, (∀ id, ptrs (structs id) = 0 ∧ Bounded m' m' (structs id)) →
    ptrs (unrollWith structs t) ≤ m ∧ Bounded m' m' (unrollWith structs t)
  | .base t => by
    obtain ⟨m, h⟩ := bounded_of t
    exact ⟨m + ptrs t, fun m' hm S _ => ⟨by simp only [unrollWith]; omega, by simp only [unrollWith]; exact bounded_mono (by omega) t m m' (by omega) h⟩⟩
  | .slice t | .array _ t | .map _ t => by
    all_goals
      obtain ⟨m, h⟩ := unrollWith_bounded t
      exact ⟨m, fun m' hm S hS => ⟨by simp [unrollWith, ptrs], by simp only [unrollWith, Bounded]; exact (h m' hm S hS).2⟩⟩
  | .ptr t => by
    obtain ⟨m, h⟩ := unrollWith_bounded t
    refine ⟨m + 1, fun m' hm S hS => ?_⟩
    have := h m' (by omega) S hS
    simp only [unrollWith, ptrs, Bounded]
    exact ⟨by omega, by omega, this.2⟩
  | .ref id => ⟨0, fun m' _ S hS => ⟨by simp only [unrollWith]; have := (hS id).1; omega, by simp only [unrollWith]; exact (hS id).2⟩⟩

theorem fields_bounded : ∀ fs : List (Bytes × NTy), ∃ m, ∀ m', m ≤ m' → ∀ structs, (∀ id, ptrs (structs id) = 0 ∧ Bounded m' m' (structs id)) →
    BoundedF m' m' (fs.map fun f => (f.1, unrollWith structs f.2))
  | [] => ⟨0, fun _ _ _ _ => by simp [BoundedF]⟩
  | (nm, t) :: fs => by
    obtain ⟨m, h⟩ := unrollWith_bounded t
    obtain ⟨m1, h1⟩ := fields_bounded fs
    refine ⟨m + m1, fun m' hm S hS => ?_⟩
    simp only [List.map_cons, BoundedF]
    exact ⟨(h m' (by omega) S hS).2, h1 m' (by omega) S hS⟩

theorem decls_bounded : ∀ L : List (List (Bytes × NTy)), ∃ m, ∀ m', m ≤ m' → ∀ fs ∈ L, ∀ structs, (∀ id, ptrs (structs id) = 0 ∧ Bounded m' m' (structs id)) →
    BoundedF m' m' (fs.map fun f => (f.1, unrollWith structs f.2))
  | [] => ⟨0, fun _ _ fs h => by simp at h⟩
  | fs :: L => by
    obtain ⟨m, h⟩ := decls_bounded L
    obtain ⟨m1, h1⟩ := fields_bounded fs
    refine ⟨m + m1, fun m' hm gs hg S hS => ?_⟩
    rcases List.mem_cons.1 hg with rfl | hg
    · exact h1 m' (by omega) S hS
    · exact h m' (by omega) gs hg S hS

/-- However often they are written out, the types of a program keep to one bound. -/
theorem unroll_bounded {env : REnv} {L : List (List (Bytes × NTy))} (hL : ∀ id, env id ∈ L) (t : NTy) : ∃ m, ∀ i, Bounded m m (unroll env i t) := by
  obtain ⟨m0, h0⟩ := decls_bounded L
  obtain ⟨m1, h1⟩ := unrollWith_bounded t
  refine ⟨m0 + m1, ?_⟩
  have key : ∀ i, ∃ S, unroll env i = unrollWith S ∧ ∀ id, ptrs (S id) = 0 ∧ Bounded (m0 + m1) (m0 + m1) (S id) := by
    intro i
    induction i with
    | zero => exact ⟨_, rfl, fun id => by simp [ptrs, Bounded, BoundedF]⟩
    | succ i ih =>
      obtain ⟨S, hS, hb⟩ := ih
      refine ⟨_, rfl, fun id => ⟨by simp [ptrs], ?_⟩⟩
      simp only [Bounded, hS]
      exact h0 _ (by omega) _ (hL id) S hb
  intro i
  obtain ⟨S, hS, hb⟩ := key i
  rw [hS]
  exact (h1 _ (by omega) S hb).2

/-- **C88** For every type of a program with finitely many struct types `L`, recursive or not, with or without interfaces, there is a number such that for all texts its product with the
square of their length is enough. Pointers in interfaces in the destination are only followed if they go no deeper than `n` and their types keep to a
bound as well. -/
theorem C88_program {env : REnv} {L : List (List (Bytes × NTy))} (hL : ∀ id, env id ∈ L) (t : NTy) (n : Nat) : ∃ m k, ∀ (i : Nat) (b : Bytes) (p : DV),
    Held (Bounded m m) p n → (unmarshalW c n (unroll env i t) b p).2 ≤ k * ((b.length + 1) * (b.length + 1)) := by
  obtain ⟨m, h⟩ := unroll_bounded hL t
  exact ⟨m, _, fun i b p hp => C88_square (h i) b p hp⟩

/-- **C88** In particular that holds for new variables. -/
theorem C88_new {env : REnv} {L : List (List (Bytes × NTy))} (hL : ∀ id, env id ∈ L) (t : NTy) (n : Nat) : ∃ k, ∀ (i : Nat) (b : Bytes),
    (unmarshalW c n (unroll env i t) b (zero (unroll env i t))).2 ≤ k * ((b.length + 1) * (b.length + 1)) := by
  obtain ⟨m, k, h⟩ := C88_program (c := c) hL t n
  exact ⟨k, fun i b => h i b _ (held_zero _ n _)⟩

/-- **C88** For lists the square is met: for `badList k` the steps lie between two multiples of it. -/
theorem C88_list (n k i : Nat) (hi : k < i) (p : DV) : (badList k).length = 6 * k + 1 ∧
    3 * (k * k) ≤ (unmarshalW c n (listTy i) (badList k) p).2 ∧ (unmarshalW c n (listTy i) (badList k) p).2 ≤ 1664 * ((3 * k + 1) * (3 * k + 1)) := by
  obtain ⟨-, h1, h2⟩ := C84_list c n k i hi p
  refine ⟨h1, h2, ?_⟩
  have h := C88_concrete (c := c) (list_concrete i) n (badList k) p
  rw [h1, show 6 * k + 1 + 1 = 2 * (3 * k + 1) by omega, Nat.mul_mul_mul_comm, show quad 1 1 0 + 10 = 416 from rfl] at h
  omega

end

/-! ### Concrete cases -/

/-- A slice of interfaces with pointers to structs that have a number as string. -/
example : Bounded 1 1 (.slice .iface) ∧ Bounded 1 1 (.struct [(bs! "a", .quoted (.ptr (.int .int)))]) := by
  simp [Bounded, BoundedF, ptrs]

/-- Two pointers in a row need a larger bound. -/
example : ¬ Bounded 1 0 (.ptr (.ptr .bool)) := by simp [Bounded, ptrs]

example : perSquare 1 0 0 = 405 ∧ perSquare 0 1 1 = 168200 := by decide

/-- An interface with a pointer to a struct. -/
example : Held (Bounded 1 1) (.slice [.iface (.ptr (.struct [(bs! "a", .bool)])) (.ptr (.struct [.bool false]))] []) 1 := by
  simp [Held, HeldL, Bounded, BoundedF]

/-- The type of lists is one of a program. -/
example : ∀ id, listEnv id ∈ [listEnv 0] := fun _ => List.mem_singleton.2 rfl

/-- Without any bound on the pointers in a row there is no bound for all programs: one with infinitely many types can have types with ever more. -/
example : ¬ ∃ m, ∀ i, Bounded m m (unroll (fun id => [(bs! "n", (List.range id).foldr (fun _ t => .ptr t) (.base .bool))]) (i + 1) (.ref i)) := by
  rintro ⟨m, h⟩
  have hp : ∀ n (l : List Nat), l.length = n → ptrs (unroll (fun id => [(bs! "n", (List.range id).foldr (fun _ t => .ptr t) (.base .bool))]) (m + 1)
      (l.foldr (fun _ t => .ptr t) (.base .bool))) = n := by
    intro n l
    induction l generalizing n with
    | nil => intro h; subst h; rfl
    | cons a l ih => intro h; subst h; simp only [List.foldr_cons, unroll_ptr, ptrs, ih _ rfl, List.length_cons]
  have h1 := h (m + 1)
  simp only [unroll_ref, List.map_cons, List.map_nil, Bounded, BoundedF, and_true] at h1
  have h2 := hp (m + 1) (List.range (m + 1)) (by simp)
  rw [List.range_succ_eq_map, List.foldr_cons, unroll_ptr] at h1 h2
  simp only [Bounded, ptrs] at h1 h2
  omega

end JC.Props
