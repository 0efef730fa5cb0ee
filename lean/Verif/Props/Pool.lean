import Verif.Spec.Pool
/-!
Property C44: pooled buffers do not leak between calls.
-/
namespace JC.Props
open JC Spec

variable {α : Type}

def arrOf : PoolCall α → Option Nat
  | .idle => none
  | .busy _ h _ => some h.1
  | .ended h => some h.1

/-- The call works on the content the unshared call has. -/
def CallMatch (mem : Nat → List α) : PoolCall α → OwnCall α → Prop
  | .idle, .idle => True
  | .busy u h t, .busy u' xs t' => u = u' ∧ t = t' ∧ (mem h.1).take h.2 = xs
  | .ended _, .ended => True
  | _, _ => False

structure PoolInv (pol : PoolPolicy) (s : PoolSt α) (o : OwnSt α) : Prop where
  poolLt : ∀ a ∈ s.pool.map (·.1), a < s.fresh
  poolNodup : (s.pool.map (·.1)).Nodup
  callLt : ∀ i a, arrOf (s.calls i) = some a → a < s.fresh
  callPool : ∀ i a, arrOf (s.calls i) = some a → a ∉ s.pool.map (·.1)
  callCall : ∀ i j a, arrOf (s.calls i) = some a → arrOf (s.calls j) = some a → i = j
  resLt : ∀ a ∈ s.results.map (·.1), a < s.fresh
  resNodup : (s.results.map (·.1)).Nodup
  resPool : ∀ a ∈ s.results.map (·.1), a ∉ s.pool.map (·.1)
  resCall : ∀ i a, arrOf (s.calls i) = some a → a ∉ s.results.map (·.1)
  poolLen : pol.onGet = true ∨ ∀ h ∈ s.pool, h.2 = 0
  calls : ∀ i, CallMatch s.mem (s.calls i) (o.calls i)
  results : o.results = s.results.map s.content

theorem match_setAt {mem : Nat → List α} {c : PoolCall α} {d : OwnCall α} (h : CallMatch mem c d) {a : Nat} (ha : arrOf c ≠ some a) (x : List α) :
    CallMatch (setAt mem a x) c d := by
  cases c <;> cases d <;> simp only [CallMatch, arrOf, setAt] at *
  rw [if_neg (by intro h; exact ha (by rw [h]))]
  exact h

theorem content_setAt {s : PoolSt α} {h : SliceHdr} {a : Nat} (ha : h.1 ≠ a) (x : List α) (m : Nat → List α) (hm : m = setAt s.mem a x) :
    (m h.1).take h.2 = s.content h := by
  subst hm
  simp [PoolSt.content, setAt, ha]

theorem map_content {s s' : PoolSt α} {l : List SliceHdr} (h : ∀ x ∈ l, s'.content x = s.content x) : l.map s'.content = l.map s.content :=
  List.map_congr_left h

theorem mem_fst {l : List SliceHdr} {h : SliceHdr} (hm : h ∈ l) : h.1 ∈ l.map (·.1) := List.mem_map_of_mem hm

theorem setAt_same {β : Type} (f : Nat → β) (i : Nat) (x : β) : setAt f i x i = x := by simp [setAt]

theorem setAt_ne {β : Type} (f : Nat → β) {i j : Nat} (x : β) (h : j ≠ i) : setAt f i x j = f j := by simp [setAt, h]

/-- Moving call `i` to a state that owns an array owned by nobody else. -/
theorem inv_call {pol : PoolPolicy} {s : PoolSt α} {o : OwnSt α} (h : PoolInv pol s o) (i : Nat) {c : PoolCall α} {d : OwnCall α}
    (hm : CallMatch s.mem c d) (hlt : ∀ a, arrOf c = some a → a < s.fresh) (hp : ∀ a, arrOf c = some a → a ∉ s.pool.map (·.1))
    (hc : ∀ j a, j ≠ i → arrOf c = some a → arrOf (s.calls j) ≠ some a) (hr : ∀ a, arrOf c = some a → a ∉ s.results.map (·.1)) :
    PoolInv pol { s with calls := setAt s.calls i c } { o with calls := setAt o.calls i d } where
  poolLt := h.poolLt
  poolNodup := h.poolNodup
  callLt := by intro j a; simp only [setAt]; (split; exact hlt a; exact h.callLt j a)
  callPool := by intro j a; simp only [setAt]; (split; exact hp a; exact h.callPool j a)
  callCall := by
    intro j k a
    simp only [setAt]
    split <;> split <;> intro h1 h2
    · subst_vars; rfl
    · exact absurd h2 (hc k a ‹_› h1)
    · exact absurd h1 (hc j a ‹_› h2)
    · exact h.callCall j k a h1 h2
  resLt := h.resLt
  resNodup := h.resNodup
  resPool := h.resPool
  resCall := by intro j a; simp only [setAt]; (split; exact hr a; exact h.resCall j a)
  poolLen := h.poolLen
  calls := by intro j; simp only [setAt]; (split; exact hm; exact h.calls j)
  results := h.results

/-- Giving the array of call `i` up. -/
theorem inv_idle {pol : PoolPolicy} {s : PoolSt α} {o : OwnSt α} (h : PoolInv pol s o) (i : Nat) :
    PoolInv pol { s with calls := setAt s.calls i .idle } { o with calls := setAt o.calls i .idle } :=
  inv_call h i trivial (by intro a h; cases h) (by intro a h; cases h) (by intro j a _ h; cases h) (by intro a h; cases h)

/-- Writing an array that neither another call nor a receiver has. -/
theorem inv_mem {pol : PoolPolicy} {s : PoolSt α} {o : OwnSt α} (h : PoolInv pol s o) (a : Nat) (x : List α)
    (hc : ∀ j, arrOf (s.calls j) ≠ some a) (hr : a ∉ s.results.map (·.1)) : PoolInv pol { s with mem := setAt s.mem a x } o where
  poolLt := h.poolLt
  poolNodup := h.poolNodup
  callLt := h.callLt
  callPool := h.callPool
  callCall := h.callCall
  resLt := h.resLt
  resNodup := h.resNodup
  resPool := h.resPool
  resCall := h.resCall
  poolLen := h.poolLen
  calls := fun j => match_setAt (h.calls j) (hc j) x
  results := by
    rw [h.results]
    refine List.map_congr_left fun y hy => (content_setAt ?_ x _ rfl).symm
    rintro rfl
    exact hr (mem_fst hy)

/-- Allocating an array. -/
theorem inv_alloc {pol : PoolPolicy} {s : PoolSt α} {o : OwnSt α} (h : PoolInv pol s o) (x : List α) :
    PoolInv pol { s with mem := setAt s.mem s.fresh x, fresh := s.fresh + 1 } o := by
  have h' := inv_mem h s.fresh x (fun j hj => Nat.lt_irrefl _ (h.callLt j _ hj)) (fun hr => Nat.lt_irrefl _ (h.resLt _ hr))
  exact { h' with
    poolLt := fun a ha => Nat.lt_succ_of_lt (h.poolLt a ha)
    callLt := fun i a ha => Nat.lt_succ_of_lt (h.callLt i a ha)
    resLt := fun a ha => Nat.lt_succ_of_lt (h.resLt a ha) }

theorem inv_erase {pol : PoolPolicy} {s : PoolSt α} {o : OwnSt α} (h : PoolInv pol s o) (k : Nat) : PoolInv pol { s with pool := s.pool.eraseIdx k } o := by
  have sub : (s.pool.eraseIdx k).Sublist s.pool := List.eraseIdx_sublist ..
  have sub' := sub.map (fun h : SliceHdr => h.1)
  exact { h with
    poolLt := fun a ha => h.poolLt a (sub'.subset ha)
    poolNodup := h.poolNodup.sublist sub'
    callPool := fun i a hi ha => h.callPool i a hi (sub'.subset ha)
    resPool := fun a hr ha => h.resPool a hr (sub'.subset ha)
    poolLen := h.poolLen.imp id fun hl x hx => hl x (sub.subset hx) }

theorem not_mem_erase {l : List SliceHdr} {k : Nat} {h : SliceHdr} (hk : l[k]? = some h) (hn : (l.map (·.1)).Nodup) : h.1 ∉ (l.eraseIdx k).map (·.1) := by
  induction l generalizing k with
  | nil => simp at hk
  | cons x l ih =>
    simp only [List.map_cons, List.nodup_cons] at hn
    cases k with
    | zero => simp at hk; subst hk; simpa using hn.1
    | succ k =>
      simp at hk
      simp only [List.eraseIdx_cons_succ, List.map_cons, List.mem_cons, not_or]
      refine ⟨?_, ih hk hn.2⟩
      rintro e
      exact hn.1 (e ▸ mem_fst (List.mem_of_getElem? hk))

theorem setAt_twice {β : Type} (f : Nat → β) (i : Nat) (x y : β) : setAt (setAt f i x) i y = setAt f i y := by
  funext j; simp only [setAt]; split <;> rfl

theorem inv_next {pol : PoolPolicy} (hpol : pol.onGet = true ∨ pol.onPut = true) (zero : α) {s : PoolSt α} {o : OwnSt α} (h : PoolInv pol s o) (e : PoolEv α) :
    PoolInv pol (s.next pol zero e).1 (o.next e).1 ∧ (s.next pol zero e).2 = (o.next e).2 := by
  cases e with
  | start i use ops k arr =>
    have hi := h.calls i
    simp only [PoolSt.next, OwnSt.next]
    cases hc : s.calls i <;> cases hd : o.calls i <;> rw [hc, hd] at hi <;> simp only [CallMatch] at hi <;> try exact ⟨h, rfl⟩
    simp only []
    cases hk : s.pool[k]? with
    | some g =>
      have hg := mem_fst (List.mem_of_getElem? hk)
      have hcut : (cut pol.onGet g).1 = g.1 := by unfold cut; split <;> rfl
      have hlen : (cut pol.onGet g).2 = 0 := by
        unfold cut
        rcases h.poolLen with hl | hl
        · rw [if_pos hl]
        · split
          · rfl
          · exact hl g (List.mem_of_getElem? hk)
      refine ⟨inv_call (inv_erase h k) i ⟨rfl, rfl, by rw [hlen]; rfl⟩ ?_ ?_ ?_ ?_, by rfl⟩ <;> simp only [arrOf, hcut]
      · rintro a ⟨⟩; exact h.poolLt _ hg
      · rintro a ⟨⟩; exact not_mem_erase hk h.poolNodup
      · rintro j a _ ⟨⟩ hj; exact h.callPool j _ hj hg
      · rintro a ⟨⟩ hr; exact h.resPool _ hr hg
    | none =>
      refine ⟨inv_call (inv_alloc h arr) i ⟨rfl, rfl, rfl⟩ ?_ ?_ ?_ ?_, by rfl⟩ <;> simp only [arrOf]
      · rintro a ⟨⟩; exact Nat.lt_succ_self _
      · rintro a ⟨⟩ hp; exact Nat.lt_irrefl _ (h.poolLt _ hp)
      · rintro j a _ ⟨⟩ hj; exact Nat.lt_irrefl _ (h.callLt j _ hj)
      · rintro a ⟨⟩ hr; exact Nat.lt_irrefl _ (h.resLt _ hr)
  | op i grow tail =>
    have hi := h.calls i
    simp only [PoolSt.next, OwnSt.next]
    cases hc : s.calls i with
    | idle => rw [hc] at hi; cases hd : o.calls i <;> rw [hd] at hi <;> simp only [CallMatch] at hi; exact ⟨h, rfl⟩
    | ended g => rw [hc] at hi; cases hd : o.calls i <;> rw [hd] at hi <;> simp only [CallMatch] at hi; exact ⟨h, rfl⟩
    | busy use g todo =>
      rw [hc] at hi
      cases hd : o.calls i <;> rw [hd] at hi <;> simp only [CallMatch] at hi
      obtain ⟨rfl, rfl, rfl⟩ := hi
      cases todo with
      | nil => exact ⟨h, rfl⟩
      | cons f todo =>
        simp only []
        have hown : arrOf (s.calls i) = some g.1 := by rw [hc]; rfl
        rw [show (s.mem g.1).take g.2 = s.content g from rfl]
        generalize f (s.content g) = xs
        split
        · have h1 := inv_mem (inv_idle h i) g.1 (xs ++ (s.mem g.1).drop xs.length) (by
            intro j hj
            simp only [setAt] at hj
            split at hj
            · cases hj
            · exact absurd (h.callCall j i _ hj hown) ‹_›) (h.resCall i _ hown)
          have h2 := inv_call h1 i (c := .busy use (g.1, xs.length) todo) (d := .busy use xs todo) ⟨rfl, rfl, by simp [setAt]⟩
            (by rintro a ⟨⟩; exact h.callLt i _ hown) (by rintro a ⟨⟩; exact h.callPool i _ hown)
            (by rintro j a hj ⟨⟩ hh; simp only [setAt_ne _ _ hj] at hh; exact hj (h.callCall j i _ hh hown))
            (by rintro a ⟨⟩; exact h.resCall i _ hown)
          simp only [setAt_twice] at h2
          exact ⟨h2, rfl⟩
        · have h2 := inv_call (inv_alloc h (xs ++ tail)) i (c := .busy use (s.fresh, xs.length) todo) (d := .busy use xs todo) ⟨rfl, rfl, by simp [setAt]⟩
            (by rintro a ⟨⟩; exact Nat.lt_succ_self _) (by rintro a ⟨⟩ hp; exact Nat.lt_irrefl _ (h.poolLt _ hp))
            (by rintro j a hj ⟨⟩ hh; exact Nat.lt_irrefl _ (h.callLt j _ hh))
            (by rintro a ⟨⟩ hr; exact Nat.lt_irrefl _ (h.resLt _ hr))
          exact ⟨h2, rfl⟩
  | peek i =>
    have hi := h.calls i
    simp only [PoolSt.next, OwnSt.next]
    cases hc : s.calls i <;> cases hd : o.calls i <;> rw [hc, hd] at hi <;> simp only [CallMatch] at hi <;> try exact ⟨h, rfl⟩
    exact ⟨h, by rw [← hi.2.2]; rfl⟩
  | finish i =>
    have hi := h.calls i
    simp only [PoolSt.next, OwnSt.next]
    cases hc : s.calls i with
    | idle => rw [hc] at hi; cases hd : o.calls i <;> rw [hd] at hi <;> simp only [CallMatch] at hi; exact ⟨h, rfl⟩
    | ended g => rw [hc] at hi; cases hd : o.calls i <;> rw [hd] at hi <;> simp only [CallMatch] at hi; exact ⟨h, rfl⟩
    | busy use g todo =>
      rw [hc] at hi
      cases hd : o.calls i <;> rw [hd] at hi <;> simp only [CallMatch] at hi
      obtain ⟨rfl, rfl, rfl⟩ := hi
      have hown : arrOf (s.calls i) = some g.1 := by rw [hc]; rfl
      have hcall : ∀ {t : PoolSt α} {o : OwnSt α}, PoolInv pol t o → t.calls = s.calls →
          PoolInv pol { t with calls := setAt t.calls i (.ended g) } { o with calls := setAt o.calls i .ended } := by
        intro t o ht hs
        have hown' : arrOf (t.calls i) = some g.1 := by rw [hs]; exact hown
        exact inv_call ht i trivial (by rintro a ⟨⟩; exact ht.callLt i _ hown') (by rintro a ⟨⟩; exact ht.callPool i _ hown')
          (by rintro j a hj ⟨⟩ hh; exact hj (ht.callCall j i _ hh hown')) (by rintro a ⟨⟩; exact ht.resCall i _ hown')
      cases todo with
      | cons f todo => cases use <;> exact ⟨h, rfl⟩
      | nil =>
        cases use with
        | «show» => exact ⟨hcall h rfl, rfl⟩
        | copy =>
          simp only []
          refine ⟨?_, rfl⟩
          rw [show (s.mem g.1).take g.2 = s.content g from rfl]
          have h1 := inv_alloc h (s.content g)
          have hbase : ∀ a ∈ s.results.map (·.1), a ≠ s.fresh := fun a ha e => Nat.lt_irrefl _ (e ▸ h.resLt a ha)
          have h2 : PoolInv pol { s with mem := setAt s.mem s.fresh (s.content g), fresh := s.fresh + 1, results := s.results ++ [(s.fresh, g.2)] }
              { o with results := o.results ++ [s.content g] } :=
            { h1 with
              resLt := by
                intro a ha
                simp only [List.map_append, List.mem_append, List.map_cons, List.map_nil, List.mem_singleton] at ha
                rcases ha with ha | rfl
                · exact h1.resLt a ha
                · exact Nat.lt_succ_self _
              resNodup := by
                rw [List.map_append, List.nodup_append]
                refine ⟨h.resNodup, by simp, ?_⟩
                intro a ha b hb
                simp at hb
                subst hb
                exact hbase a ha
              resPool := by
                intro a ha hp
                simp only [List.map_append, List.mem_append, List.map_cons, List.map_nil, List.mem_singleton] at ha
                rcases ha with ha | rfl
                · exact h1.resPool a ha hp
                · exact Nat.lt_irrefl _ (h.poolLt _ hp)
              resCall := by
                intro j a hj ha
                simp only [List.map_append, List.mem_append, List.map_cons, List.map_nil, List.mem_singleton] at ha
                rcases ha with ha | rfl
                · exact h1.resCall j a hj ha
                · exact Nat.lt_irrefl _ (h.callLt j _ hj)
              results := by
                rw [List.map_append, h1.results]
                congr 1
                simp [PoolSt.content, setAt, List.take_take] }
          exact hcall h2 rfl
  | fail i put =>
    have hi := h.calls i
    simp only [PoolSt.next, OwnSt.next]
    cases hc : s.calls i <;> cases hd : o.calls i <;> rw [hc, hd] at hi <;> simp only [CallMatch] at hi <;> try exact ⟨h, rfl⟩
    cases put with
    | false => exact ⟨inv_idle h i, rfl⟩
    | true =>
      rename_i use g todo _ _ _
      have hown : arrOf (s.calls i) = some g.1 := by rw [hc]; rfl
      exact ⟨inv_call h i trivial (by rintro a ⟨⟩; exact h.callLt i _ hown) (by rintro a ⟨⟩; exact h.callPool i _ hown)
          (by rintro j a hj ⟨⟩ hh; exact hj (h.callCall j i _ hh hown)) (by rintro a ⟨⟩; exact h.resCall i _ hown), rfl⟩
  | put i =>
    have hi := h.calls i
    simp only [PoolSt.next, OwnSt.next]
    cases hc : s.calls i <;> cases hd : o.calls i <;> rw [hc, hd] at hi <;> simp only [CallMatch] at hi <;> try exact ⟨h, rfl⟩
    rename_i g
    have hown : arrOf (s.calls i) = some g.1 := by rw [hc]; rfl
    refine ⟨?_, rfl⟩
    have hcut : (cut pol.onPut g).1 = g.1 := by unfold cut; split <;> rfl
    have hoth : ∀ j, arrOf (setAt s.calls i .idle j) ≠ some g.1 := by
      intro j hj
      simp only [setAt] at hj
      split at hj
      · cases hj
      · exact absurd (h.callCall j i _ hj hown) ‹_›
    have hput : ∀ {t : PoolSt α} {o' : OwnSt α}, PoolInv pol t o' → t.calls = setAt s.calls i .idle → t.pool = s.pool → t.results = s.results → t.fresh = s.fresh →
        PoolInv pol { t with pool := cut pol.onPut g :: t.pool } o' := by
      intro t o' ht hcs hp hr hfr
      exact { ht with
        poolLt := by
          intro a ha
          simp only [List.map_cons, List.mem_cons, hcut] at ha
          rcases ha with rfl | ha
          · exact hfr ▸ h.callLt i _ hown
          · exact ht.poolLt a ha
        poolNodup := by
          simp only [List.map_cons, List.nodup_cons, hcut]
          exact ⟨hp ▸ h.callPool i _ hown, ht.poolNodup⟩
        callPool := by
          intro j a hj ha
          simp only [List.map_cons, List.mem_cons, hcut] at ha
          rcases ha with rfl | ha
          · exact hoth j (hcs ▸ hj)
          · exact ht.callPool j a hj ha
        resPool := by
          intro a hra ha
          simp only [List.map_cons, List.mem_cons, hcut] at ha
          rcases ha with rfl | ha
          · exact h.resCall i _ hown (hr ▸ hra)
          · exact ht.resPool a hra ha
        poolLen := by
          rcases ht.poolLen with hl | hl
          · exact .inl hl
          · rcases hpol with hg | hg
            · exact .inl hg
            · refine .inr fun x hx => ?_
              rcases List.mem_cons.1 hx with rfl | hx
              · simp [cut, hg]
              · exact hl x hx }
    cases hpp : pol.onPut with
    | false =>
      rw [hpp] at hput
      exact hput (inv_idle h i) rfl rfl rfl rfl
    | true =>
      rw [hpp] at hput
      exact hput (inv_mem (inv_idle h i) g.1 _ hoth (h.resCall i _ hown)) rfl rfl rfl rfl
  | gc k => exact ⟨inv_erase h k, rfl⟩
  | read r =>
    simp only [PoolSt.next, OwnSt.next]
    rw [h.results, List.getElem?_map]
    cases s.results[r]? <;> exact ⟨h, rfl⟩
  | scribble r f =>
    simp only [PoolSt.next, OwnSt.next]
    rw [h.results, List.getElem?_map]
    cases hr : s.results[r]? with
    | none => exact ⟨by rw [← h.results]; exact h, rfl⟩
    | some g =>
      simp only [Option.map_some]
      have hg := mem_fst (List.mem_of_getElem? hr)
      refine ⟨{ h with calls := fun j => match_setAt (h.calls j) (fun hj => h.resCall j _ hj hg) _, results := ?_ }, trivial⟩
      simp only []
      apply List.ext_getElem?
      intro n
      rw [List.getElem?_set, List.getElem?_map, List.getElem?_map, List.length_map]
      by_cases hn : r = n
      · subst hn
        rw [hr, if_pos rfl, if_pos (by have := List.getElem?_eq_some_iff.1 hr; exact this.1)]
        simp only [Option.map_some, PoolSt.content, setAt, if_true, Option.some.injEq]
        generalize s.mem g.1 = m
        by_cases hl : g.2 ≤ m.length
        · rw [List.take_left' (by simp [hl])]
        · rw [List.drop_of_length_le (by omega), List.append_nil]
          exact (List.take_of_length_le (by simp; omega)).symm
      · rw [if_neg hn]
        cases hx : s.results[n]? with
        | none => rfl
        | some x =>
          simp only [Option.map_some, Option.some.injEq]
          refine (content_setAt ?_ _ _ rfl).symm
          intro e
          have h1 : (s.results.map (·.1))[n]? = some g.1 := by rw [List.getElem?_map, hx]; simp [e]
          have h2 : (s.results.map (·.1))[r]? = some g.1 := by rw [List.getElem?_map, hr]; rfl
          exact hn ((List.getElem?_inj (List.getElem?_eq_some_iff.1 h2).1 h.resNodup).1 (h2.trans h1.symm))

theorem run_refines {pol : PoolPolicy} (hpol : pol.onGet = true ∨ pol.onPut = true) (zero : α) : ∀ (es : List (PoolEv α)) {s : PoolSt α} {o : OwnSt α},
    PoolInv pol s o → s.run pol zero es = o.run es
  | [], _, _, _ => rfl
  | e :: es, s, o, h => by
    have h1 := inv_next hpol zero h e
    rw [PoolSt.run, OwnSt.run, h1.2, run_refines hpol zero es h1.1]

/-- **C44** Whatever the interleaving of calls, collections, growth of buffers and writes to returned slices:
everything that is returned, written or read later is what calls on lists of their own, with
results that are values, give. For the buffers of `Marshal` and `Encode` and for mapslices. -/
theorem C44_refines {pol : PoolPolicy} (hp : pol = bufferPolicy ∨ pol = mapslicePolicy) (zero : α) (es : List (PoolEv α)) :
    (PoolSt.init (α := α)).run pol zero es = OwnSt.init.run es := by
  refine run_refines (by rcases hp with rfl | rfl <;> simp [bufferPolicy, mapslicePolicy]) zero es ?_
  exact ⟨by simp [PoolSt.init], by simp [PoolSt.init], by simp [PoolSt.init, arrOf], by simp [PoolSt.init, arrOf], by simp [PoolSt.init, arrOf],
    by simp [PoolSt.init], by simp [PoolSt.init], by simp [PoolSt.init], by simp [PoolSt.init, arrOf], by simp [PoolSt.init],
    fun _ => trivial, by simp [PoolSt.init, OwnSt.init]⟩

/-- The unshared state after a history. -/
def OwnSt.after : OwnSt α → List (PoolEv α) → OwnSt α
  | s, [] => s
  | s, e :: es => OwnSt.after (s.next e).1 es

theorem own_result (s : OwnSt α) (e : PoolEv α) (r : Nat) (xs : List α) (h : s.results[r]? = some xs) (hs : ∀ f, e ≠ .scribble r f) :
    (s.next e).1.results[r]? = some xs := by
  have hl := (List.getElem?_eq_some_iff.1 h).1
  cases e <;> simp only [OwnSt.next] <;> try (split <;> exact h)
  · split
    · rw [List.getElem?_append_left hl]; exact h
    · exact h
    · exact h
  · exact h
  · rename_i q f
    have hq : q ≠ r := fun e => hs f (by rw [e])
    split
    · simp only []; rw [List.getElem?_set_ne hq]; exact h
    · exact h

/-- What is seen last in a history. -/
theorem own_append (s : OwnSt α) (es : List (PoolEv α)) (e : PoolEv α) : s.run (es ++ [e]) = s.run es ++ [((OwnSt.after s es).next e).2] := by
  induction es generalizing s with
  | nil => rfl
  | cons x es ih => simp only [List.cons_append, OwnSt.run, OwnSt.after, ih]

/-- A call that is under way has made the first operations it was started with. -/
def Came (es : List (PoolEv α)) (i : Nat) : OwnCall α → Prop
  | .busy use xs todo => ∃ done k arr, PoolEv.start i use (done ++ todo) k arr ∈ es ∧ xs = done.foldl (fun x f => f x) []
  | _ => True

theorem came_more {es : List (PoolEv α)} {i : Nat} {c : OwnCall α} (h : Came es i c) (e : PoolEv α) : Came (es ++ [e]) i c := by
  cases c with
  | busy use xs todo =>
    obtain ⟨done, k, arr, hm, hx⟩ := h
    exact ⟨done, k, arr, List.mem_append_left _ hm, hx⟩
  | _ => trivial

theorem came_next {es : List (PoolEv α)} {s : OwnSt α} (h : ∀ i, Came es i (s.calls i)) (e : PoolEv α) (i : Nat) :
    Came (es ++ [e]) i ((s.next e).1.calls i) := by
  have hm := fun i => came_more (h i) e
  cases e with
  | start j use ops k arr =>
    simp only [OwnSt.next]
    split
    · simp only [setAt]
      split
      · subst_vars; exact ⟨[], k, arr, by simp, rfl⟩
      · exact hm i
    · exact hm i
  | op j grow tail =>
    simp only [OwnSt.next]
    split
    · rename_i use xs f ops hj
      simp only [setAt]
      split
      · subst_vars
        have := hm j
        rw [hj] at this
        obtain ⟨done, k, arr, h1, h2⟩ := this
        exact ⟨done ++ [f], k, arr, by simpa using h1, by simp [h2]⟩
      · exact hm i
    · exact hm i
  | peek j => simp only [OwnSt.next]; split <;> exact hm i
  | finish j =>
    simp only [OwnSt.next]
    split
    · simp only [setAt]; (split; exact trivial; exact hm i)
    · simp only [setAt]; (split; exact trivial; exact hm i)
    · exact hm i
  | fail j put =>
    simp only [OwnSt.next]
    split
    · simp only [setAt]; (split; (cases put <;> exact trivial); exact hm i)
    · exact hm i
  | put j =>
    simp only [OwnSt.next]
    split
    · simp only [setAt]; (split; exact trivial; exact hm i)
    · exact hm i
  | gc k => exact hm i
  | read r => simp only [OwnSt.next]; split <;> exact hm i
  | scribble r f => simp only [OwnSt.next]; split <;> exact hm i

theorem came_after : ∀ (es : List (PoolEv α)) {pre : List (PoolEv α)} {s : OwnSt α}, (∀ i, Came pre i (s.calls i)) →
    ∀ i, Came (pre ++ es) i ((OwnSt.after s es).calls i)
  | [], pre, s, h, i => by simpa [OwnSt.after] using h i
  | e :: es, pre, s, h, i => by
    have := came_after es (pre := pre ++ [e]) (came_next h e) i
    simpa [OwnSt.after] using this

/-- **C44** What `Marshal` returns is exactly what the operations of that call make of an empty buffer: no
byte of another call, and none of its own missing. -/
theorem C44_content {pol : PoolPolicy} (hp : pol = bufferPolicy ∨ pol = mapslicePolicy) (zero : α) (es : List (PoolEv α)) (i : Nat) (xs : List α)
    (h : ((PoolSt.init (α := α)).run pol zero (es ++ [.finish i])).getLast? = some (.returned xs) ∨
      ((PoolSt.init (α := α)).run pol zero (es ++ [.finish i])).getLast? = some (.shown xs)) :
    ∃ use ops k arr, PoolEv.start i use ops k arr ∈ es ∧ xs = ops.foldl (fun x f => f x) [] := by
  rw [C44_refines hp, own_append, List.getLast?_concat] at h
  have hc := came_after es (pre := []) (s := OwnSt.init) (fun _ => trivial) i
  rw [List.nil_append] at hc
  simp only [OwnSt.next] at h
  split at h
  · rename_i ys hb
    rw [hb] at hc
    obtain ⟨done, k, arr, h1, h2⟩ := hc
    rcases h with h | h <;> cases h
    exact ⟨_, _, k, arr, h1, by simpa using h2⟩
  · rename_i ys hb
    rw [hb] at hc
    obtain ⟨done, k, arr, h1, h2⟩ := hc
    rcases h with h | h <;> cases h
    exact ⟨_, _, k, arr, h1, by simpa using h2⟩
  · rcases h with h | h <;> cases h

theorem own_after_result : ∀ (es : List (PoolEv α)) (s : OwnSt α) (r : Nat) (xs : List α), s.results[r]? = some xs → (∀ f, .scribble r f ∉ es) →
    (OwnSt.after s es).results[r]? = some xs
  | [], _, _, _, h, _ => h
  | e :: es, s, r, xs, h, hs =>
    own_after_result es _ r xs (own_result s e r xs h (fun f he => hs f (he ▸ List.mem_cons_self))) fun f hf => hs f (List.mem_cons_of_mem _ hf)

theorem own_after_append (s : OwnSt α) : ∀ (es es' : List (PoolEv α)), OwnSt.after s (es ++ es') = OwnSt.after (OwnSt.after s es) es'
  | [], _ => rfl
  | _ :: es, es' => own_after_append _ es es'

/-- **C44** The slice returned by `Marshal` does not change: as long as its receiver does not write to it, it reads
the same after any further history. -/
theorem C44_unchanged {pol : PoolPolicy} (hp : pol = bufferPolicy ∨ pol = mapslicePolicy) (zero : α) (es es' : List (PoolEv α)) (r : Nat) (xs : List α)
    (h : ((PoolSt.init (α := α)).run pol zero (es ++ [.read r])).getLast? = some (.result xs)) (hs : ∀ f, .scribble r f ∉ es') :
    ((PoolSt.init (α := α)).run pol zero (es ++ es' ++ [.read r])).getLast? = some (.result xs) := by
  rw [C44_refines hp, own_append, List.getLast?_concat] at h ⊢
  simp only [OwnSt.next] at h
  split at h
  · rename_i ys hy
    cases h
    simp only [OwnSt.next]
    rw [own_after_append, own_after_result es' _ r xs hy hs]
  · cases h

/-- Concrete case: two overlapping calls of `Marshal`, then a third that reuses a buffer; the
first result is changed by its receiver. -/
example :
    let ap : List Nat → List Nat → List Nat := fun x b => b ++ x
    (PoolSt.init (α := Nat)).run bufferPolicy 0
      [.start 0 .copy [ap [1, 2], ap [3]] 0 [0, 0], .op 0 false [], .start 1 .copy [ap [9]] 0 [], .op 0 false [7], .finish 0, .op 1 false [], .put 0,
       .start 2 .copy [ap [4]] 0 [], .op 2 false [], .finish 1, .finish 2, .scribble 0 (· + 1), .read 0, .read 1, .read 2] =
    [.none, .none, .none, .none, .returned [1, 2, 3], .none, .none, .none, .none, .returned [9], .returned [4], .none,
     .result [2, 3, 4], .result [9], .result [4]] := by
  rfl

/-- Without cutting the slice at either end the next call would start with old elements. -/
theorem C44_policy_needed : ∃ es : List (PoolEv Nat), (PoolSt.init (α := Nat)).run ⟨false, false⟩ 0 es ≠ OwnSt.init.run es := by
  refine ⟨[.start 0 .show [fun b => b ++ [1]] 0 [0, 0], .op 0 false [], .finish 0, .put 0, .start 0 .show [] 0 [], .peek 0], ?_⟩
  intro h
  have : (PoolObs.shown [1] : PoolObs Nat) = .shown [] := by
    have := congrArg (fun l => l.getLast?) h
    exact Option.some.inj this
  cases this

end JC.Props
