import Verif.Model.Cache
/-!
Property C43: the codec cache is transparent under concurrency.
-/
namespace JC.Props
open JC

variable {T C : Type} [DecidableEq T]

/-- All entries are what construction gives. -/
def Right (build : T → C) (m : CodecMap T C) : Prop := ∀ t c, m t = some c → c = build t

/-- What holds of a call. -/
def CallRight (build : T → C) : CallSt T C → Prop
  | .idle => True
  | .begun _ => True
  | .loaded _ old => Right build old
  | .missed _ old => Right build old
  | .built t c old => c = build t ∧ Right build old
  | .inUse t c => c = build t

theorem merge_right {build : T → C} {old : CodecMap T C} (h : Right build old) (t : T) : Right build (cacheMerge t (build t) old) := by
  intro x c hx
  unfold cacheMerge at hx
  simp only [] at hx
  cases ho : old x with
  | some c' => rw [ho] at hx; cases hx; exact h x c ho
  | none =>
    rw [ho] at hx; simp only [] at hx
    split at hx
    · subst_vars; cases hx; rfl
    · cases hx

theorem setCall_right {build : T → C} {s : CacheSt T C} (hs : ∀ i, CallRight build (s.calls i)) (i : Nat) {c : CallSt T C} (hc : CallRight build c) :
    ∀ j, CallRight build ((s.setCall i c).calls j) := by
  intro j
  simp only [CacheSt.setCall]
  split
  · exact hc
  · exact hs j

theorem next_right {build : T → C} {s : CacheSt T C} (hm : Right build s.cache) (hs : ∀ i, CallRight build (s.calls i)) (e : CacheEv T) :
    Right build (s.next build e).cache ∧ ∀ i, CallRight build ((s.next build e).calls i) := by
  cases e with
  | begin i t =>
    simp only [CacheSt.next]
    split
    · exact ⟨hm, setCall_right hs i trivial⟩
    · exact ⟨hm, hs⟩
  | step i =>
    have hi := hs i
    simp only [CacheSt.next]
    cases hc : s.calls i with
    | idle => exact ⟨hm, hs⟩
    | begun t => exact ⟨hm, setCall_right hs i hm⟩
    | loaded t old =>
      rw [hc] at hi
      simp only []
      cases ho : old t with
      | some c => exact ⟨hm, setCall_right hs i (hi t c ho)⟩
      | none => exact ⟨hm, setCall_right hs i hi⟩
    | missed t old => rw [hc] at hi; exact ⟨hm, setCall_right hs i ⟨rfl, hi⟩⟩
    | built t c old =>
      rw [hc] at hi
      obtain ⟨rfl, hi⟩ := hi
      exact ⟨merge_right hi t, setCall_right hs i rfl⟩
    | inUse t c => exact ⟨hm, setCall_right hs i trivial⟩

theorem run_right {build : T → C} : ∀ (es : List (CacheEv T)) {s : CacheSt T C}, Right build s.cache → (∀ i, CallRight build (s.calls i)) →
    Right build (s.run build es).cache ∧ ∀ i, CallRight build ((s.run build es).calls i)
  | [], _, hm, hs => ⟨hm, hs⟩
  | e :: es, _, hm, hs => run_right es (next_right hm hs e).1 (next_right hm hs e).2

/-- **C43** Whatever the schedule, a call runs the codec that a fresh construction for its type gives. -/
theorem C43_transparent (build : T → C) (es : List (CacheEv T)) (i : Nat) (t : T) (c : C)
    (h : ((CacheSt.init (T := T) (C := C)).run build es).calls i = .inUse t c) : c = build t := by
  have := (run_right es (s := CacheSt.init) (build := build) (by intro t c h; cases h) (fun _ => trivial)).2 i
  rw [h] at this
  exact this

/-- **C43** ... and so does every entry of the cache. -/
theorem C43_entries (build : T → C) (es : List (CacheEv T)) (t : T) (c : C)
    (h : ((CacheSt.init (T := T) (C := C)).run build es).cache t = some c) : c = build t :=
  (run_right es (s := CacheSt.init) (build := build) (by intro t c h; cases h) (fun _ => trivial)).1 t c h

/-- The type a call is for. -/
def callFor : CallSt T C → Option T
  | .idle => none
  | .begun t => some t
  | .loaded t _ => some t
  | .missed t _ => some t
  | .built t _ _ => some t
  | .inUse t _ => some t

/-- **C43** A call that has begun for a type runs for that type: each of its steps keeps the type until it
ends, and steps of other calls do not touch it. -/
theorem C43_own_type (build : T → C) (s : CacheSt T C) (e : CacheEv T) (i : Nat) (t : T) (h : callFor (s.calls i) = some t) :
    callFor ((s.next build e).calls i) = some t ∨ (∃ c, s.calls i = .inUse t c) ∧ e = .step i := by
  cases e with
  | begin j u =>
    left
    simp only [CacheSt.next]
    cases hj : s.calls j <;> simp only [CacheSt.setCall] <;> try exact h
    split
    · subst_vars; rw [hj] at h; cases h
    · exact h
  | step j =>
    by_cases hij : j = i
    · subst hij
      simp only [CacheSt.next]
      cases hj : s.calls j with
      | idle => rw [hj] at h; cases h
      | begun u => left; rw [hj] at h; simp only [CacheSt.setCall, if_true]; exact h
      | loaded u old =>
        left; rw [hj] at h
        simp only []
        cases old u <;> (simp only [CacheSt.setCall, if_true]; exact h)
      | missed u old => left; rw [hj] at h; simp only [CacheSt.setCall, if_true]; exact h
      | built u c old => left; rw [hj] at h; simp only [CacheSt.setCall, if_true]; exact h
      | inUse u c => right; rw [hj] at h; cases h; exact ⟨⟨c, rfl⟩, trivial⟩
    · left
      have hne : i ≠ j := fun h => hij h.symm
      simp only [CacheSt.next]
      cases hj : s.calls j <;> simp only [CacheSt.setCall, if_neg hne] <;> try exact h
      split <;> simp only [if_neg hne] <;> exact h

/-- Number of steps a call needs before it runs its codec. -/
def stepsLeft : CallSt T C → Nat
  | .idle => 0
  | .begun _ => 4
  | .loaded _ _ => 3
  | .missed _ _ => 2
  | .built _ _ _ => 1
  | .inUse _ _ => 0

/-- **C43** A call waits for no other one: each of its own steps brings it closer to running its codec, and
steps of others do not set it back. -/
theorem C43_progress (build : T → C) (s : CacheSt T C) (i : Nat) (h : 0 < stepsLeft (s.calls i)) :
    stepsLeft ((s.next build (.step i)).calls i) < stepsLeft (s.calls i) ∧
    ∀ e, e ≠ .step i → (s.next build e).calls i = s.calls i := by
  constructor
  · simp only [CacheSt.next]
    cases hj : s.calls i with
    | loaded u old => simp only []; cases old u <;> simp [CacheSt.setCall, stepsLeft]
    | idle => rw [hj] at h; cases h
    | inUse u c => rw [hj] at h; cases h
    | begun u => simp [CacheSt.setCall, stepsLeft]
    | missed u old => simp [CacheSt.setCall, stepsLeft]
    | built u c old => simp [CacheSt.setCall, stepsLeft]
  · intro e he
    cases e with
    | begin j u =>
      simp only [CacheSt.next]
      cases hj : s.calls j <;> simp only [CacheSt.setCall]
      split
      · subst_vars; rw [hj] at h; cases h
      · rfl
    | step j =>
      have hne : i ≠ j := fun h => he (by rw [h])
      simp only [CacheSt.next]
      cases hj : s.calls j <;> simp only [CacheSt.setCall, if_neg hne]
      split <;> simp only [if_neg hne]

/-- The steps of one call in a row. -/
def wholeCall (i : Nat) (t : T) : List (CacheEv T) := [.begin i t, .step i, .step i, .step i, .step i, .step i]

/-- **C43** Without overlapping calls nothing is lost: after a call the type is in the cache, and so is all that
was there before. -/
theorem C43_sequential (build : T → C) (s : CacheSt T C) (i : Nat) (t : T) (hi : s.calls i = .idle) :
    ((s.run build (wholeCall i t)).cache t).isSome ∧ ∀ u c, s.cache u = some c → (s.run build (wholeCall i t)).cache u = some c := by
  unfold wholeCall
  simp only [CacheSt.run]
  cases hc : s.cache t with
  | some c =>
    simp [CacheSt.next, CacheSt.setCall, hi, hc]
  | none =>
    simp only [CacheSt.next, CacheSt.setCall, hi, hc, if_true]
    constructor
    · simp [cacheMerge, hc]
    · intro u c hu
      simp [cacheMerge, hu]

/-- Concrete case: two calls overlap on their first use of two types; both run the right codec,
and the second store loses the entry of the first. -/
example :
    let build : Nat → String := fun t => s!"codec {t}"
    let s := (CacheSt.init (T := Nat) (C := String)).run build
      [.begin 0 7, .begin 1 8, .step 0, .step 1, .step 0, .step 0, .step 1, .step 1, .step 0, .step 1]
    (s.cache 7, s.cache 8) = (none, some "codec 8") ∧ callFor (s.calls 0) = some 7 ∧ callFor (s.calls 1) = some 8 := by
  decide +kernel

/-- The cache can lose entries: it is only an optimisation. -/
theorem C43_lossy : ∃ (es : List (CacheEv Nat)) (e : CacheEv Nat) (t : Nat),
    (((CacheSt.init (T := Nat) (C := Nat)).run id es).cache t).isSome ∧
    (((CacheSt.init (T := Nat) (C := Nat)).run id (es ++ [e])).cache t).isNone :=
  ⟨[.begin 0 7, .begin 1 8, .step 0, .step 1, .step 0, .step 0, .step 1, .step 1, .step 0], .step 1, 7, by decide +kernel⟩

end JC.Props
