import Verif.Spec.Graph
import Verif.Lemmas.EncLoc
import Verif.Lemmas.Meaning
import Verif.Lemmas.Paint
/-! Encoding values with references. -/
namespace JC
open Spec

/-- No error: a panic or success. -/
def NoErr (o : Out) : Prop := o = .panic ∨ ∃ b d, o = .done b d none

/-- The stack is used up. -/
def Dies (f : Enc) : Prop := ∀ b d, f b d = .panic

/-- What follows about an outcome from its parts. -/
def Tri (o : Out) (dies succ : Prop) : Prop := NoErr o ∧ (dies → o = .panic) ∧ (succ → o ≠ .panic)

theorem Tri.imp {o : Out} {p q p' q' : Prop} (h : Tri o p q) (hp : p' → p) (hq : q' → q) : Tri o p' q' :=
  ⟨h.1, fun x => h.2.1 (hp x), fun x => h.2.2 (hq x)⟩

theorem succeeds_ne {f : Enc} (h : Succeeds f) (b : Bytes) (d : Int) : f b d ≠ .panic := by
  obtain ⟨b', d', e⟩ := h b d
  rw [e]; simp

theorem arrayLoop_tri {c : Cfg} {start : Nat} : ∀ (fs : List Enc), (∀ f ∈ fs, ∀ b d, NoErr (f b d)) → ∀ first b d,
    Tri (arrayLoop c start first fs b d) (∃ f ∈ fs, Dies f) (∀ f ∈ fs, Succeeds f)
  | [], _, first, b, d => by
    simp only [arrayLoop]
    exact ⟨.inr ⟨_, _, rfl⟩, fun ⟨f, hf, _⟩ => by simp at hf, fun _ => by simp⟩
  | f :: fs, h, first, b, d => by
    simp only [arrayLoop]
    generalize c.appendIndent d _ = b1
    rcases h f (by simp) b1 d with h1 | ⟨b2, d2, h1⟩
    · rw [h1]
      exact ⟨.inl rfl, fun _ => rfl, fun hs => absurd h1 (succeeds_ne (hs f (by simp)) b1 d)⟩
    · rw [h1]
      refine (arrayLoop_tri fs (fun g hg => h g (by simp [hg])) false b2 d2).imp ?_ (fun hs g hg => hs g (by simp [hg]))
      rintro ⟨g, hg, hd⟩
      rcases List.mem_cons.1 hg with rfl | hg
      · have := hd b1 d; rw [this] at h1; cases h1
      · exact ⟨g, hg, hd⟩

theorem encodeArray_tri {c : Cfg} {fs : List Enc} (h : ∀ f ∈ fs, ∀ b d, NoErr (f b d)) (b : Bytes) (d : Int) :
    Tri (encodeArray c fs b d) (∃ f ∈ fs, Dies f) (∀ f ∈ fs, Succeeds f) := by
  unfold encodeArray
  simp only []
  split
  · have := arrayLoop_tri (c := c) (start := b.length) fs h true (appendPunc c.clrs b (ch! '[')) (c.push d)
    generalize arrayLoop c b.length true fs (appendPunc c.clrs b (ch! '[')) (c.push d) = o at this ⊢
    rcases this.1 with h1 | ⟨b, d, h1⟩
    · subst h1
      exact ⟨.inl rfl, fun _ => rfl, fun hq => absurd rfl (this.2.2 hq)⟩
    · subst h1
      exact ⟨.inr ⟨_, _, rfl⟩, fun hp => by simpa using this.2.1 hp, fun _ => by simp⟩
  · rename_i hf
    have : fs = [] := by cases fs; rfl; simp at hf
    subst this
    exact ⟨.inr ⟨_, _, rfl⟩, fun ⟨f, hf, _⟩ => by simp at hf, fun _ => by simp⟩

theorem mapLoop_tri {c : Cfg} {start : Nat} : ∀ (es : List (MKey × Enc)), (∀ e ∈ es, Succeeds (encodeMKey c e.1)) → (∀ e ∈ es, ∀ b d, NoErr (e.2 b d)) →
    ∀ first b d, Tri (mapLoop c start first es b d) (∃ e ∈ es, Dies e.2) (∀ e ∈ es, Succeeds e.2)
  | [], _, _, first, b, d => by
    simp only [mapLoop]
    exact ⟨.inr ⟨_, _, rfl⟩, fun ⟨f, hf, _⟩ => by simp at hf, fun _ => by simp⟩
  | (k, f) :: es, hk, h, first, b, d => by
    simp only [mapLoop]
    generalize c.appendIndent d _ = b1
    obtain ⟨b3, d3, h3⟩ := hk (k, f) (by simp) b1 d
    simp only [] at h3
    rw [h3]
    simp only []
    generalize c.appendByte _ (ch! ' ') = b4
    rcases h (k, f) (by simp) b4 d3 with h1 | ⟨b2, d2, h1⟩
    · simp only [] at h1
      rw [h1]
      exact ⟨.inl rfl, fun _ => rfl, fun hs => absurd h1 (succeeds_ne (hs (k, f) (by simp)) b4 d3)⟩
    · simp only [] at h1
      rw [h1]
      refine (mapLoop_tri es (fun g hg => hk g (by simp [hg])) (fun g hg => h g (by simp [hg])) false b2 d2).imp ?_ (fun hs g hg => hs g (by simp [hg]))
      rintro ⟨g, hg, hd⟩
      rcases List.mem_cons.1 hg with rfl | hg
      · have := hd b4 d3; simp only [] at this; rw [this] at h1; cases h1
      · exact ⟨g, hg, hd⟩

theorem encodeMap_tri {c : Cfg} {es : List (MKey × Enc)} (hk : ∀ e ∈ es, Succeeds (encodeMKey c e.1) ∧ e.1.uncallable = false)
    (h : ∀ e ∈ es, ∀ b d, NoErr (e.2 b d)) (b : Bytes) (d : Int) :
    Tri (encodeMap c es b d) (∃ e ∈ es, Dies e.2) (∀ e ∈ es, Succeeds e.2) := by
  unfold encodeMap
  rw [if_neg (by
    rintro ⟨_, _, h3⟩
    obtain ⟨e, he, h4⟩ := List.any_eq_true.1 h3
    rw [(hk e he).2] at h4; cases h4)]
  simp only []
  have hm : ∀ e, e ∈ (if c.sortMapKeys = true then sortBy (fun e => e.1.sortText) es else es) ↔ e ∈ es := by
    intro e
    split
    · exact mem_sortBy _ _ _
    · rfl
  generalize (if c.sortMapKeys = true then sortBy (fun e => e.1.sortText) es else es) = es' at *
  split
  · have := mapLoop_tri (c := c) (start := b.length) es' (fun e he => (hk e ((hm e).1 he)).1) (fun e he => h e ((hm e).1 he)) true
      (c.appendByte (appendPunc c.clrs b (ch! '{')) 0x0a) (c.push d)
    generalize mapLoop c b.length true es' (c.appendByte (appendPunc c.clrs b (ch! '{')) 0x0a) (c.push d) = o at this ⊢
    refine Tri.imp (p := ∃ e ∈ es', Dies e.2) (q := ∀ e ∈ es', Succeeds e.2) ?_ ?_ ?_
    · rcases this.1 with h1 | ⟨b, d, h1⟩
      · subst h1
        exact ⟨.inl rfl, fun _ => rfl, fun hq => absurd rfl (this.2.2 hq)⟩
      · subst h1
        exact ⟨.inr ⟨_, _, rfl⟩, fun hp => by simpa using this.2.1 hp, fun _ => by simp⟩
    · rintro ⟨e, he, hd⟩; exact ⟨e, (hm e).2 he, hd⟩
    · intro hs e he; exact hs e ((hm e).1 he)
  · rename_i hf
    have : es' = [] := by cases es'; rfl; simp at hf
    subst this
    exact ⟨.inr ⟨_, _, rfl⟩, fun ⟨f, hf, _⟩ => by simpa using (hm f).2 hf, fun _ => by simp⟩

/-- The outcome of a loop over string-keyed entries. -/
def NoErrL (o : LoopR) : Prop := o = .panic ∨ ∃ b d, o = .fin b d

def TriL (o : LoopR) (dies succ : Prop) : Prop := NoErrL o ∧ (dies → o = .panic) ∧ (succ → o ≠ .panic)

theorem TriL.imp {o : LoopR} {p q p' q' : Prop} (h : TriL o p q) (hp : p' → p) (hq : q' → q) : TriL o p' q' :=
  ⟨h.1, fun x => h.2.1 (hp x), fun x => h.2.2 (hq x)⟩

theorem encodeKey_succeeds (c : Cfg) (k : Bytes) : Succeeds (encodeKey c k) := by
  intro b d
  unfold encodeKey colored encStr
  cases c.clrs <;> exact ⟨_, _, rfl⟩

theorem strLoop_tri {c : Cfg} : ∀ (es : List (Bytes × Enc)), (∀ e ∈ es, ∀ b d, NoErr (e.2 b d)) →
    ∀ first b d, TriL (strLoop c first es b d) (∃ e ∈ es, Dies e.2) (∀ e ∈ es, Succeeds e.2)
  | [], _, first, b, d => by
    simp only [strLoop]
    exact ⟨.inr ⟨_, _, rfl⟩, fun ⟨f, hf, _⟩ => by simp at hf, fun _ => by simp⟩
  | (k, f) :: es, h, first, b, d => by
    simp only [strLoop]
    generalize c.appendIndent d _ = b1
    obtain ⟨b3, d3, h3⟩ := encodeKey_succeeds c k b1 d
    rw [h3]
    simp only []
    generalize c.appendByte _ (ch! ' ') = b4
    rcases h (k, f) (by simp) b4 d3 with h1 | ⟨b2, d2, h1⟩
    · simp only [] at h1
      rw [h1]
      exact ⟨.inl rfl, fun _ => rfl, fun hs => absurd h1 (succeeds_ne (hs (k, f) (by simp)) b4 d3)⟩
    · simp only [] at h1
      rw [h1]
      refine (strLoop_tri es (fun g hg => h g (by simp [hg])) false b2 d2).imp ?_ (fun hs g hg => hs g (by simp [hg]))
      rintro ⟨g, hg, hd⟩
      rcases List.mem_cons.1 hg with rfl | hg
      · have := hd b4 d3; simp only [] at this; rw [this] at h1; cases h1
      · exact ⟨g, hg, hd⟩

theorem encodeMapSI_tri {c : Cfg} {es : List (Bytes × Enc)} (h : ∀ e ∈ es, ∀ b d, NoErr (e.2 b d)) (b : Bytes) (d : Int) :
    Tri (encodeMapSI c es b d) (∃ e ∈ es, Dies e.2) (∀ e ∈ es, Succeeds e.2) := by
  unfold encodeMapSI
  split
  · unfold strMapSorted
    simp only []
    have hm : ∀ e, e ∈ sortBy (fun e => e.1) es ↔ e ∈ es := fun e => mem_sortBy _ _ _
    generalize sortBy (fun e => e.1) es = es' at *
    split
    · have := (strLoop_tri (c := c) es' (fun e he => h e ((hm e).1 he)) true (c.appendByte (appendPunc c.clrs b (ch! '{')) 0x0a) (c.push d))
      generalize strLoop c true es' (c.appendByte (appendPunc c.clrs b (ch! '{')) 0x0a) (c.push d) = o at this ⊢
      refine Tri.imp (p := ∃ e ∈ es', Dies e.2) (q := ∀ e ∈ es', Succeeds e.2) ?_ ?_ ?_
      · rcases this.1 with h1 | ⟨b, d, h1⟩
        · subst h1
          exact ⟨.inl rfl, fun _ => rfl, fun hq => absurd rfl (this.2.2 hq)⟩
        · subst h1
          exact ⟨.inr ⟨_, _, rfl⟩, fun hp => by simpa using this.2.1 hp, fun _ => by simp⟩
      · rintro ⟨e, he, hd⟩; exact ⟨e, (hm e).2 he, hd⟩
      · intro hs e he; exact hs e ((hm e).1 he)
    · rename_i hf
      have : es' = [] := by cases es'; rfl; simp at hf
      subst this
      exact ⟨.inr ⟨_, _, rfl⟩, fun ⟨f, hf, _⟩ => by simpa using (hm f).2 hf, fun _ => by simp⟩
  · unfold mapSIUnsorted
    simp only []
    split
    · have := (strLoop_tri (c := c) es h true (c.appendByte (appendPunc c.clrs b (ch! '{')) 0x0a) (c.push d))
      generalize strLoop c true es (c.appendByte (appendPunc c.clrs b (ch! '{')) 0x0a) (c.push d) = o at this ⊢
      rcases this.1 with h1 | ⟨b, d, h1⟩
      · subst h1
        exact ⟨.inl rfl, fun _ => rfl, fun hq => absurd rfl (this.2.2 hq)⟩
      · subst h1
        exact ⟨.inr ⟨_, _, rfl⟩, fun hp => by simpa using this.2.1 hp, fun _ => by simp⟩
    · rename_i hf
      have : es = [] := by cases es; rfl; simp at hf
      subst this
      exact ⟨.inr ⟨_, _, rfl⟩, fun ⟨f, hf, _⟩ => by simp at hf, fun _ => by simp⟩

/-- The field is written. -/
abbrev Shown (e : FMeta × Bool × Enc) : Prop := ¬ (e.1.omitempty = true ∧ e.2.1 = true)

theorem structLoop_tri {c : Cfg} {start : Nat} : ∀ (es : List (FMeta × Bool × Enc)), (∀ e ∈ es, Shown e → ∀ b d, NoErr (e.2.2 b d)) →
    ∀ n b d, Tri (structLoop c start n es b d).1 (∃ e ∈ es, Shown e ∧ Dies e.2.2) (∀ e ∈ es, Shown e → Succeeds e.2.2)
  | [], _, n, b, d => by
    simp only [structLoop]
    exact ⟨.inr ⟨_, _, rfl⟩, fun ⟨f, hf, _⟩ => by simp at hf, fun _ => by simp⟩
  | (m, em, f) :: es, h, n, b, d => by
    simp only [structLoop]
    split
    · rename_i ho
      refine (structLoop_tri es (fun g hg => h g (by simp [hg])) n b d).imp ?_ (fun hs g hg => hs g (by simp [hg]))
      rintro ⟨g, hg, hs, hd⟩
      rcases List.mem_cons.1 hg with rfl | hg
      · exact absurd ho hs
      · exact ⟨g, hg, hs, hd⟩
    · rename_i ho
      generalize c.appendByte _ (ch! ' ') = b4
      rcases h (m, em, f) (by simp) ho b4 d with h1 | ⟨b2, d2, h1⟩
      · simp only [] at h1
        rw [h1]
        exact ⟨.inl rfl, fun _ => rfl, fun hs => absurd h1 (succeeds_ne (hs (m, em, f) (by simp) ho) b4 d)⟩
      · simp only [] at h1
        rw [h1]
        refine (structLoop_tri es (fun g hg => h g (by simp [hg])) (n + 1) b2 d2).imp ?_ (fun hs g hg => hs g (by simp [hg]))
        rintro ⟨g, hg, hs, hd⟩
        rcases List.mem_cons.1 hg with rfl | hg
        · have := hd b4 d; simp only [] at this; rw [this] at h1; cases h1
        · exact ⟨g, hg, hs, hd⟩

theorem encodeStruct_tri {c : Cfg} {es : List (FMeta × Bool × Enc)} (h : ∀ e ∈ es, Shown e → ∀ b d, NoErr (e.2.2 b d)) (b : Bytes) (d : Int) :
    Tri (encodeStruct c es b d) (∃ e ∈ es, Shown e ∧ Dies e.2.2) (∀ e ∈ es, Shown e → Succeeds e.2.2) := by
  unfold encodeStruct
  simp only []
  generalize (if es.length > 0 then c.appendByte (appendPunc c.clrs b (ch! '{')) 0x0a else appendPunc c.clrs b (ch! '{')) = b1
  have := structLoop_tri (c := c) (start := b.length) es h 0 b1 (c.push d)
  generalize structLoop c b.length 0 es b1 (c.push d) = o at this ⊢
  obtain ⟨o, n⟩ := o
  simp only [] at this
  rcases this.1 with h1 | ⟨b, d, h1⟩
  · subst h1
    exact ⟨.inl rfl, fun _ => rfl, fun hq => absurd rfl (this.2.2 hq)⟩
  · subst h1
    exact ⟨.inr ⟨_, _, rfl⟩, fun hp => by simpa using this.2.1 hp, fun _ => by simp⟩

theorem encodeToString_tri {c : Cfg} {f : Enc} (h : ∀ b d, NoErr (f b d)) (b : Bytes) (d : Int) :
    Tri (encodeToString c f b d) (Dies f) (Succeeds f) := by
  unfold encodeToString
  simp only []
  rcases h b d with h1 | ⟨b2, d2, h1⟩
  · rw [h1]
    exact ⟨.inl rfl, fun _ => rfl, fun hs => absurd h1 (succeeds_ne hs b d)⟩
  · rw [h1]
    refine ⟨.inr ⟨_, _, rfl⟩, fun hd => ?_, fun _ => by simp⟩
    rw [hd] at h1; cases h1

theorem encNL_map (c : Cfg) (h : NMem) (ref : NV → Enc) : ∀ xs : List NV, encNL c h ref xs = xs.map (encN c h ref)
  | [] => rfl
  | v :: vs => by rw [encNL, encNL_map c h ref vs]; rfl

theorem encNF_map (c : Cfg) (h : NMem) (ref : NV → Enc) : ∀ fs : List (FMeta × NV),
    encNF c h ref fs = fs.map fun e => (e.1, isEmptyN h e.2, encN c h ref e.2)
  | [] => rfl
  | (m, v) :: fs => by rw [encNF, encNF_map c h ref fs]; rfl

theorem sound_part {c : Cfg} {h : NMem} {v w : NV} (hs : Sound c h v) (hp : Part h v w) : Sound c h w :=
  ⟨fun g hg => hs.1 g (.step _ _ _ hp hg), fun a ha => hs.2 a (.step _ _ _ hp ha)⟩

theorem endless_part {h : NMem} {v : NV} (he : Endless h v) : ∃ w, Part h v w ∧ Endless h w := by
  obtain ⟨p, h0, hp⟩ := he
  exact ⟨p 1, h0 ▸ hp 0, fun i => p (i + 1), rfl, fun i => hp (i + 1)⟩

/-- What is known of the encoder of a value: no errors, and the stack is used up if
there is no end. -/
def Fate (c : Cfg) (h : NMem) (f : NV → Enc) (v : NV) : Prop := Sound c h v → (∀ b d, NoErr (f v b d)) ∧ (Endless h v → Dies (f v))

theorem encN_fate {c : Cfg} {h : NMem} {ref : NV → Enc} (hr : ∀ w, Fate c h ref w) : ∀ v, Fate c h (encN c h ref) v
  | .leaf g => fun hs => ⟨fun b d => .inr (by
      obtain ⟨b', d', e⟩ := hs.1 g (.refl _) b d
      exact ⟨b', d', by rw [encN, e]⟩), fun he => by obtain ⟨w, hw, _⟩ := endless_part he; cases hw⟩
  | .ptr a => fun hs => by
    have := hr _ (sound_part hs (.ptr a))
    rw [encN]
    exact ⟨this.1, fun he => this.2 (by obtain ⟨w, hw, he⟩ := endless_part he; cases hw; exact he)⟩
  | .emb a z => fun hs => by
    have := hr _ (sound_part hs (.emb a z))
    rw [encN]
    exact ⟨this.1, fun he => this.2 (by obtain ⟨w, hw, he⟩ := endless_part he; cases hw; exact he)⟩
  | .slice a => fun hs => by
    have ih : ∀ w ∈ h.elems a, _ := fun w hw => hr w (sound_part hs (.slice a w hw))
    have tri := encodeArray_tri (c := c) (fs := (h.elems a).map ref) (by
      intro f hf
      obtain ⟨w, hw, rfl⟩ := List.mem_map.1 hf
      exact (ih w hw).1)
    rw [encN]
    refine ⟨fun b d => (tri b d).1, fun he b d => (tri b d).2.1 ?_⟩
    obtain ⟨w, hw, he⟩ := endless_part he
    cases hw with
    | slice _ _ hw => exact ⟨ref w, List.mem_map.2 ⟨w, hw, rfl⟩, (ih w hw).2 he⟩
  | .array xs => fun hs => by
    have ih : ∀ w ∈ xs, _ := fun w hw => encN_fate hr w (sound_part hs (.array xs w hw))
    have tri := encodeArray_tri (c := c) (fs := xs.map (encN c h ref)) (by
      intro f hf
      obtain ⟨w, hw, rfl⟩ := List.mem_map.1 hf
      exact (ih w hw).1)
    rw [encN, encNL_map]
    refine ⟨fun b d => (tri b d).1, fun he b d => (tri b d).2.1 ?_⟩
    obtain ⟨w, hw, he⟩ := endless_part he
    cases hw with
    | array _ _ hw => exact ⟨_, List.mem_map.2 ⟨w, hw, rfl⟩, (ih w hw).2 he⟩
  | .map a => fun hs => by
    have ih : ∀ e ∈ h.maps a, _ := fun e he => hr e.2 (sound_part hs (.map a e.1 e.2 he))
    have tri := encodeMap_tri (c := c) (es := (h.maps a).map fun e => (e.1, ref e.2)) (by
      intro f hf
      obtain ⟨e, he, rfl⟩ := List.mem_map.1 hf
      exact hs.2 a (.refl _) e he) (by
      intro f hf
      obtain ⟨e, he, rfl⟩ := List.mem_map.1 hf
      exact (ih e he).1)
    rw [encN]
    refine ⟨fun b d => (tri b d).1, fun he b d => (tri b d).2.1 ?_⟩
    obtain ⟨w, hw, he⟩ := endless_part he
    cases hw with
    | map _ k _ hw => exact ⟨_, List.mem_map.2 ⟨(k, w), hw, rfl⟩, (ih (k, w) hw).2 he⟩
  | .mapSI a => fun hs => by
    have ih : ∀ e ∈ h.mapsSI a, _ := fun e he => hr e.2 (sound_part hs (.mapSI a e.1 e.2 he))
    have tri := encodeMapSI_tri (c := c) (es := (h.mapsSI a).map fun e => (e.1, ref e.2)) (by
      intro f hf
      obtain ⟨e, he, rfl⟩ := List.mem_map.1 hf
      exact (ih e he).1)
    rw [encN]
    refine ⟨fun b d => (tri b d).1, fun he b d => (tri b d).2.1 ?_⟩
    obtain ⟨w, hw, he⟩ := endless_part he
    cases hw with
    | mapSI _ k _ hw => exact ⟨_, List.mem_map.2 ⟨(k, w), hw, rfl⟩, (ih (k, w) hw).2 he⟩
  | .struct fs => fun hs => by
    have ih : ∀ e ∈ fs, ¬ Omitted h e → _ := fun e he ho => encN_fate hr e.2 (sound_part hs (.struct fs e.1 e.2 he ho))
    have tri := encodeStruct_tri (c := c) (es := fs.map fun e => (e.1, isEmptyN h e.2, encN c h ref e.2)) (by
      intro f hf ho
      obtain ⟨e, he, rfl⟩ := List.mem_map.1 hf
      exact (ih e he ho).1)
    rw [encN, encNF_map]
    refine ⟨fun b d => (tri b d).1, fun he b d => (tri b d).2.1 ?_⟩
    obtain ⟨w, hw, he⟩ := endless_part he
    cases hw with
    | struct _ m _ hw ho => exact ⟨_, List.mem_map.2 ⟨(m, w), hw, rfl⟩, ho, (ih (m, w) hw ho).2 he⟩
  | .iface v => fun hs => by
    have := encN_fate hr v (sound_part hs (.iface v))
    rw [encN]
    exact ⟨this.1, fun he => this.2 (by obtain ⟨w, hw, he⟩ := endless_part he; cases hw; exact he)⟩
  | .quoted v => fun hs => by
    have := encN_fate hr v (sound_part hs (.quoted v))
    rw [encN]
    have tri := encodeToString_tri (c := c) this.1
    exact ⟨fun b d => (tri b d).1, fun he b d => (tri b d).2.1 (this.2 (by obtain ⟨w, hw, he⟩ := endless_part he; cases hw; exact he))⟩
termination_by v => sizeOf v
decreasing_by
  all_goals simp_wf
  · have := List.sizeOf_lt_of_mem hw; omega
  · have := List.sizeOf_lt_of_mem he
    have : sizeOf e.2 < sizeOf e := by cases e; simp; omega
    omega

theorem encG_fate (c : Cfg) (h : NMem) : ∀ n v, Fate c h (encG c h n) v
  | 0, _ => fun _ => ⟨fun _ _ => .inl rfl, fun _ _ _ => rfl⟩
  | n + 1, v => encN_fate (encG_fate c h n) v

/-! ### Trees -/

theorem eventually_all {l : Nat} {P : Nat → Nat → Prop} (h : ∀ i, i < l → ∃ N, ∀ n, N ≤ n → P i n) : ∃ N, ∀ n, N ≤ n → ∀ i, i < l → P i n := by
  induction l with
  | zero => exact ⟨0, fun n _ i hi => absurd hi (Nat.not_lt_zero _)⟩
  | succ l ih =>
    obtain ⟨N, hN⟩ := ih fun i hi => h i (by omega)
    obtain ⟨M, hM⟩ := h l (by omega)
    refine ⟨N + M, fun n hn i hi => ?_⟩
    by_cases e : i = l
    · subst e; exact hM n (by omega)
    · exact hN n (by omega) i (by omega)

/-- Two lists, related member by member, that agree in time. -/
theorem eventually_map {α β γ : Type} {xs : List α} {ys : List β} (hl : ys.length = xs.length) {f : Nat → α → γ} {g : β → γ}
    (h : ∀ (i : Nat) x y, xs[i]? = some x → ys[i]? = some y → ∃ N, ∀ n, N ≤ n → f n x = g y) : ∃ N, ∀ n, N ≤ n → xs.map (f n) = ys.map g := by
  obtain ⟨N, hN⟩ := eventually_all (l := xs.length) (P := fun i n => ∀ x y, xs[i]? = some x → ys[i]? = some y → f n x = g y) (by
    intro i hi
    have hi2 : i < ys.length := by omega
    obtain ⟨N, hN⟩ := h i xs[i] ys[i] (List.getElem?_eq_getElem hi) (List.getElem?_eq_getElem hi2)
    refine ⟨N, fun n hn x y hx hy => ?_⟩
    rw [List.getElem?_eq_getElem hi] at hx
    rw [List.getElem?_eq_getElem hi2] at hy
    cases hx; cases hy
    exact hN n hn)
  refine ⟨N, fun n hn => List.ext_getElem (by simp [hl]) fun i h1 h2 => ?_⟩
  simp only [List.length_map] at h1 h2
  rw [List.getElem_map, List.getElem_map]
  exact hN n hn i h1 _ _ (List.getElem?_eq_getElem h1) (List.getElem?_eq_getElem h2)

theorem fst_length {α β γ : Type} {xs : List (α × β)} {ys : List (α × γ)} (h : ys.map Prod.fst = xs.map Prod.fst) : ys.length = xs.length := by
  have := congrArg List.length h
  simpa using this

theorem fst_get {α β γ : Type} {xs : List (α × β)} {ys : List (α × γ)} (h : ys.map Prod.fst = xs.map Prod.fst) {i : Nat} {x : α × β} {y : α × γ}
    (hx : xs[i]? = some x) (hy : ys[i]? = some y) : y.1 = x.1 := by
  have := congrArg (fun l => l[i]?) h
  simpa [hx, hy] using this

/-- Omitted fields do not matter. -/
theorem structLoop_omit {c : Cfg} {start : Nat} : ∀ (xs ys : List (FMeta × Bool × Enc)),
    ys.length = xs.length → (∀ (i : Nat) x y, xs[i]? = some x → ys[i]? = some y → y.1 = x.1 ∧ y.2.1 = x.2.1 ∧ (Shown x → y.2.2 = x.2.2)) →
    ∀ n b d, structLoop c start n xs b d = structLoop c start n ys b d
  | [], [], _, _, n, b, d => rfl
  | [], _ :: _, hl, _, _, _, _ => by simp at hl
  | _ :: _, [], hl, _, _, _, _ => by simp at hl
  | (m, em, f) :: xs, (m', em', f') :: ys, hl, h, n, b, d => by
    obtain ⟨h1, h2, h3⟩ := h 0 _ _ rfl rfl
    simp only [] at h1 h2 h3
    subst h1 h2
    have ih := structLoop_omit (c := c) (start := start) xs ys (by simpa using hl) (fun i x y hx hy => h (i + 1) x y (by simpa using hx) (by simpa using hy))
    simp only [structLoop]
    split
    · exact ih _ _ _
    · rename_i ho
      rw [h3 ho]
      split
      · rfl
      · split
        · exact ih _ _ _
        · rfl
      · exact ih _ _ _

theorem encodeStruct_omit {c : Cfg} {xs ys : List (FMeta × Bool × Enc)} (hl : ys.length = xs.length)
    (h : ∀ (i : Nat) x y, xs[i]? = some x → ys[i]? = some y → y.1 = x.1 ∧ y.2.1 = x.2.1 ∧ (Shown x → y.2.2 = x.2.2)) :
    encodeStruct c xs = encodeStruct c ys := by
  funext b d
  unfold encodeStruct
  simp only [hl]
  rw [structLoop_omit xs ys hl h]

theorem encG_tree {c : Cfg} {h : NMem} {v : NV} {t : GV} (ht : IsTree h v t) : ∃ N, ∀ n, N ≤ n → encG c h n v = enc c t := by
  have up : ∀ {P : Nat → Prop}, (∃ N, ∀ n, N ≤ n → P n) → (∃ N, ∀ n, N ≤ n → ∃ k, n = k + 1 ∧ P k ∧ P n) := by
    rintro P ⟨N, hN⟩
    exact ⟨N + 1, fun n hn => ⟨n - 1, by omega, hN _ (by omega), hN _ (by omega)⟩⟩
  induction ht with
  | leaf g => exact ⟨1, fun n hn => by obtain ⟨k, rfl⟩ : ∃ k, n = k + 1 := ⟨n - 1, by omega⟩; rw [encG, encN]⟩
  | ptr a t _ ih =>
    obtain ⟨N, hN⟩ := up ih
    exact ⟨N, fun n hn => by obtain ⟨k, rfl, h1, _⟩ := hN n hn; rw [encG, encN, h1, enc]⟩
  | emb a z t _ ih =>
    obtain ⟨N, hN⟩ := up ih
    exact ⟨N, fun n hn => by obtain ⟨k, rfl, h1, _⟩ := hN n hn; rw [encG, encN, h1, enc]⟩
  | slice a ts hl _ ih =>
    obtain ⟨N, hN⟩ := up (eventually_map hl (f := encG c h) (g := enc c) ih)
    exact ⟨N, fun n hn => by obtain ⟨k, rfl, h1, _⟩ := hN n hn; rw [encG, encN, h1, enc, encL_map]⟩
  | array xs ts hl _ ih =>
    obtain ⟨N, hN⟩ := up (eventually_map hl (f := encG c h) (g := enc c) ih)
    exact ⟨N, fun n hn => by
      obtain ⟨k, rfl, _, h1⟩ := hN n hn
      rw [encG, encN, encNL_map, enc, encL_map, ← h1]
      rfl⟩
  | map a ts hk _ ih =>
    obtain ⟨N, hN⟩ := up (eventually_map (fst_length hk) (f := fun n (e : MKey × NV) => (e.1, encG c h n e.2)) (g := fun e : MKey × GV => (e.1, enc c e.2)) (by
      intro i x y hx hy
      obtain ⟨N, hN⟩ := ih i x y hx hy
      exact ⟨N, fun n hn => by rw [hN n hn, fst_get hk hx hy]⟩))
    exact ⟨N, fun n hn => by obtain ⟨k, rfl, h1, _⟩ := hN n hn; rw [encG, encN, h1, enc, JC.encE_map]⟩
  | mapSI a ts hk _ ih =>
    obtain ⟨N, hN⟩ := up (eventually_map (fst_length hk) (f := fun n (e : Bytes × NV) => (e.1, encG c h n e.2)) (g := fun e : Bytes × GV => (e.1, enc c e.2)) (by
      intro i x y hx hy
      obtain ⟨N, hN⟩ := ih i x y hx hy
      exact ⟨N, fun n hn => by rw [hN n hn, fst_get hk hx hy]⟩))
    exact ⟨N, fun n hn => by obtain ⟨k, rfl, h1, _⟩ := hN n hn; rw [encG, encN, h1, enc, JC.encS_map]⟩
  | struct fs ts hk hem _ ih =>
    have hl := fst_length hk
    obtain ⟨N, hN⟩ := eventually_all (l := fs.length) (P := fun i n => ∀ x y, fs[i]? = some x → ts[i]? = some y → ¬ Omitted h x → encG c h n x.2 = enc c y.2) (by
      intro i hi
      have hi2 : i < ts.length := by omega
      by_cases ho : Omitted h fs[i]
      · refine ⟨0, fun n _ x y hx _ hn => ?_⟩
        rw [List.getElem?_eq_getElem hi] at hx
        cases hx
        exact absurd ho hn
      · obtain ⟨N, hN⟩ := ih i fs[i] ts[i] (List.getElem?_eq_getElem hi) (List.getElem?_eq_getElem hi2) ho
        refine ⟨N, fun n hn x y hx hy _ => ?_⟩
        rw [List.getElem?_eq_getElem hi] at hx
        rw [List.getElem?_eq_getElem hi2] at hy
        cases hx; cases hy
        exact hN n hn)
    refine ⟨N + 1, fun n hn => ?_⟩
    obtain ⟨k, rfl⟩ : ∃ k, n = k + 1 := ⟨n - 1, by omega⟩
    rw [encG, encN, encNF_map, enc, encF_map]
    refine encodeStruct_omit (by simp [hl]) fun i x y hx hy => ?_
    rw [List.getElem?_map] at hx hy
    obtain ⟨x, hx', rfl⟩ := Option.map_eq_some_iff.1 hx
    obtain ⟨y, hy', rfl⟩ := Option.map_eq_some_iff.1 hy
    refine ⟨fst_get hk hx' hy', hem i x y hx' hy', fun hs => ?_⟩
    have hi : i < fs.length := (List.getElem?_eq_some_iff.1 hx').1
    exact (hN (k + 1) (by omega) i hi x y hx' hy' hs).symm
  | iface v t _ ih =>
    obtain ⟨N, hN⟩ := up ih
    exact ⟨N, fun n hn => by
      obtain ⟨k, rfl, _, h1⟩ := hN n hn
      rw [encG, encN, enc, ← h1]; rfl⟩
  | quoted v t _ ih =>
    obtain ⟨N, hN⟩ := up ih
    exact ⟨N, fun n hn => by
      obtain ⟨k, rfl, _, h1⟩ := hN n hn
      rw [encG, encN, enc, ← h1]; rfl⟩

/-! ### Trees or endless -/

theorem isTree_isEmpty {h : NMem} {v : NV} {t : GV} (ht : IsTree h v t) : isEmpty t = isEmptyN h v := by
  induction ht with
  | leaf g => rfl
  | ptr => rfl
  | slice a ts hl => simp [isEmpty, isEmptyN, hl]
  | array xs ts hl => simp [isEmpty, isEmptyN, hl]
  | map a ts hk => simp [isEmpty, isEmptyN, fst_length hk]
  | mapSI a ts hk => simp [isEmpty, isEmptyN, fst_length hk]
  | struct => rfl
  | iface => rfl
  | quoted v t _ ih => simpa [isEmpty, isEmptyN] using ih
  | emb => rfl

theorem tree_or_part {h : NMem} {v : NV} (hp : ∀ w, Part h v w → ∃ t, IsTree h w t) : ∃ t, IsTree h v t := by
  have many : ∀ {xs : List NV}, (∀ w ∈ xs, ∃ t, IsTree h w t) →
      ∃ ts : List GV, ts.length = xs.length ∧ ∀ (i : Nat) v t, xs[i]? = some v → ts[i]? = some t → IsTree h v t := by
    intro xs
    induction xs with
    | nil => exact fun _ => ⟨[], rfl, fun i v t hv => by simp at hv⟩
    | cons x xs ih =>
      intro hx
      obtain ⟨t, ht⟩ := hx x (by simp)
      obtain ⟨ts, hl, hts⟩ := ih fun w hw => hx w (by simp [hw])
      refine ⟨t :: ts, by simp [hl], fun i v u hv hu => ?_⟩
      cases i with
      | zero => simp at hv hu; subst hv hu; exact ht
      | succ i => exact hts i v u (by simpa using hv) (by simpa using hu)
  have pairs : ∀ {α : Type} {xs : List (α × NV)}, (∀ e ∈ xs, ∃ t, IsTree h e.2 t) →
      ∃ ts : List (α × GV), ts.map Prod.fst = xs.map Prod.fst ∧ ∀ (i : Nat) v t, xs[i]? = some v → ts[i]? = some t → IsTree h v.2 t.2 := by
    intro α xs
    induction xs with
    | nil => exact fun _ => ⟨[], rfl, fun i v t hv => by simp at hv⟩
    | cons x xs ih =>
      intro hx
      obtain ⟨t, ht⟩ := hx x (by simp)
      obtain ⟨ts, hl, hts⟩ := ih fun w hw => hx w (by simp [hw])
      refine ⟨(x.1, t) :: ts, by simp [hl], fun i v u hv hu => ?_⟩
      cases i with
      | zero => simp at hv hu; subst hv hu; exact ht
      | succ i => exact hts i v u (by simpa using hv) (by simpa using hu)
  cases v with
  | leaf g => exact ⟨_, .leaf g⟩
  | ptr a => obtain ⟨t, ht⟩ := hp _ (.ptr a); exact ⟨_, .ptr a t ht⟩
  | slice a => obtain ⟨ts, h1, h2⟩ := many fun w hw => hp w (.slice a w hw); exact ⟨_, .slice a ts h1 h2⟩
  | array xs => obtain ⟨ts, h1, h2⟩ := many fun w hw => hp w (.array xs w hw); exact ⟨_, .array xs ts h1 h2⟩
  | map a => obtain ⟨ts, h1, h2⟩ := pairs fun e he => hp e.2 (.map a e.1 e.2 he); exact ⟨_, .map a ts h1 h2⟩
  | mapSI a => obtain ⟨ts, h1, h2⟩ := pairs fun e he => hp e.2 (.mapSI a e.1 e.2 he); exact ⟨_, .mapSI a ts h1 h2⟩
  | iface v => obtain ⟨t, ht⟩ := hp _ (.iface v); exact ⟨_, .iface v t ht⟩
  | quoted v => obtain ⟨t, ht⟩ := hp _ (.quoted v); exact ⟨_, .quoted v t ht⟩
  | emb a z => obtain ⟨t, ht⟩ := hp _ (.emb a z); exact ⟨_, .emb a z t ht⟩
  | struct fs =>
    have : ∀ {gs : List (FMeta × NV)}, (∀ e ∈ gs, ¬ Omitted h e → ∃ t, IsTree h e.2 t) →
        ∃ ts : List (FMeta × GV), ts.map Prod.fst = gs.map Prod.fst ∧
          (∀ (i : Nat) v t, gs[i]? = some v → ts[i]? = some t → isEmpty t.2 = isEmptyN h v.2) ∧
          (∀ (i : Nat) v t, gs[i]? = some v → ts[i]? = some t → ¬ Omitted h v → IsTree h v.2 t.2) := by
      intro gs
      induction gs with
      | nil => exact fun _ => ⟨[], rfl, fun i v t hv => by simp at hv, fun i v t hv => by simp at hv⟩
      | cons x xs ih =>
        intro hx
        obtain ⟨ts, hl, he, hts⟩ := ih fun w hw => hx w (by simp [hw])
        have ⟨t, ht1, ht2⟩ : ∃ t, isEmpty t = isEmptyN h x.2 ∧ (¬ Omitted h x → IsTree h x.2 t) := by
          by_cases ho : Omitted h x
          · exact ⟨.nil, ho.2.symm, fun hn => absurd ho hn⟩
          · obtain ⟨t, ht⟩ := hx x (by simp) ho
            exact ⟨t, isTree_isEmpty ht, fun _ => ht⟩
        refine ⟨(x.1, t) :: ts, by simp [hl], fun i v u hv hu => ?_, fun i v u hv hu => ?_⟩
        · cases i with
          | zero => simp at hv hu; subst hv hu; exact ht1
          | succ i => exact he i v u (by simpa using hv) (by simpa using hu)
        · cases i with
          | zero => simp at hv hu; subst hv hu; exact ht2
          | succ i => exact hts i v u (by simpa using hv) (by simpa using hu)
    obtain ⟨ts, h1, h2, h3⟩ := this fun e he ho => hp e.2 (.struct fs e.1 e.2 he ho)
    exact ⟨_, .struct fs ts h1 h2 h3⟩

theorem tree_or_endless (h : NMem) (v : NV) : (∃ t, IsTree h v t) ∨ Endless h v := by
  by_cases hv : ∃ t, IsTree h v t
  · exact .inl hv
  · refine .inr ?_
    have next : ∀ u : { u : NV // ¬ ∃ t, IsTree h u t }, ∃ w : { u : NV // ¬ ∃ t, IsTree h u t }, Part h u.1 w.1 := by
      rintro ⟨u, hu⟩
      apply Classical.byContradiction
      intro hn
      apply hu
      apply tree_or_part
      intro w hw
      apply Classical.byContradiction
      intro hw2
      exact hn ⟨⟨w, hw2⟩, hw⟩
    let p : Nat → { u : NV // ¬ ∃ t, IsTree h u t } := fun n => Nat.rec ⟨v, hv⟩ (fun _ u => Classical.choose (next u)) n
    exact ⟨fun n => (p n).1, rfl, fun i => Classical.choose_spec (next (p i))⟩

theorem get_of_mem {α : Type} {x : α} {xs : List α} (h : x ∈ xs) : ∃ i : Nat, xs[i]? = some x := List.mem_iff_getElem?.1 h

theorem get_len {α β : Type} {xs : List α} {ys : List β} (h : ys.length = xs.length) {i : Nat} {x : α} (hx : xs[i]? = some x) : ∃ y, ys[i]? = some y := by
  have : i < ys.length := by have := (List.getElem?_eq_some_iff.1 hx).1; omega
  exact ⟨_, List.getElem?_eq_getElem this⟩

theorem tree_not_endless {h : NMem} {v : NV} {t : GV} (ht : IsTree h v t) : ¬ Endless h v := by
  induction ht with
  | leaf g => exact fun he => by obtain ⟨w, hw, _⟩ := endless_part he; cases hw
  | ptr a t _ ih => exact fun he => by obtain ⟨w, hw, he⟩ := endless_part he; cases hw; exact ih he
  | emb a z t _ ih => exact fun he => by obtain ⟨w, hw, he⟩ := endless_part he; cases hw; exact ih he
  | iface v t _ ih => exact fun he => by obtain ⟨w, hw, he⟩ := endless_part he; cases hw; exact ih he
  | quoted v t _ ih => exact fun he => by obtain ⟨w, hw, he⟩ := endless_part he; cases hw; exact ih he
  | slice a ts hl _ ih =>
    intro he
    obtain ⟨w, hw, he⟩ := endless_part he
    cases hw with
    | slice _ _ hw =>
      obtain ⟨i, hi⟩ := get_of_mem hw
      obtain ⟨y, hy⟩ := get_len hl hi
      exact ih i w y hi hy he
  | array xs ts hl _ ih =>
    intro he
    obtain ⟨w, hw, he⟩ := endless_part he
    cases hw with
    | array _ _ hw =>
      obtain ⟨i, hi⟩ := get_of_mem hw
      obtain ⟨y, hy⟩ := get_len hl hi
      exact ih i w y hi hy he
  | map a ts hk _ ih =>
    intro he
    obtain ⟨w, hw, he⟩ := endless_part he
    cases hw with
    | map _ k _ hw =>
      obtain ⟨i, hi⟩ := get_of_mem hw
      obtain ⟨y, hy⟩ := get_len (fst_length hk) hi
      exact ih i (k, w) y hi hy he
  | mapSI a ts hk _ ih =>
    intro he
    obtain ⟨w, hw, he⟩ := endless_part he
    cases hw with
    | mapSI _ k _ hw =>
      obtain ⟨i, hi⟩ := get_of_mem hw
      obtain ⟨y, hy⟩ := get_len (fst_length hk) hi
      exact ih i (k, w) y hi hy he
  | struct fs ts hk _ _ ih =>
    intro he
    obtain ⟨w, hw, he⟩ := endless_part he
    cases hw with
    | struct _ m _ hw ho =>
      obtain ⟨i, hi⟩ := get_of_mem hw
      obtain ⟨y, hy⟩ := get_len (fst_length hk) hi
      exact ih i (m, w) y hi hy ho he

/-! ### Sound trees are encoded -/

theorem succeeds_noErr {f : Enc} (h : Succeeds f) (b : Bytes) (d : Int) : NoErr (f b d) := .inr (h b d)

theorem succeeds_of_tri {f : Enc} {P Q : Prop} (hq : Q) (h : ∀ b d, Tri (f b d) P Q) : Succeeds f := fun b d => by
  rcases (h b d).1 with h1 | h1
  · exact absurd h1 ((h b d).2.2 hq)
  · exact h1

theorem tree_succeeds {c : Cfg} {h : NMem} {v : NV} {t : GV} (ht : IsTree h v t) : Sound c h v → Succeeds (enc c t) := by
  induction ht with
  | leaf g => exact fun hs => hs.1 g (.refl _)
  | ptr a t _ ih => exact fun hs => by rw [enc]; exact ih (sound_part hs (.ptr a))
  | emb a z t _ ih => exact fun hs => by rw [enc]; exact ih (sound_part hs (.emb a z))
  | iface v t _ ih => exact fun hs => by rw [enc]; exact ih (sound_part hs (.iface v))
  | quoted v t _ ih =>
    intro hs
    rw [enc]
    have := ih (sound_part hs (.quoted v))
    exact succeeds_of_tri this (encodeToString_tri (succeeds_noErr this))
  | slice a ts hl _ ih =>
    intro hs
    rw [enc, encL_map]
    have : ∀ f ∈ ts.map (enc c), Succeeds f := by
      intro f hf
      obtain ⟨t, ht, rfl⟩ := List.mem_map.1 hf
      obtain ⟨i, hi⟩ := get_of_mem ht
      obtain ⟨y, hy⟩ := get_len hl.symm hi
      exact ih i y t hy hi (sound_part hs (.slice a y (List.mem_of_getElem? hy)))
    exact succeeds_of_tri this (encodeArray_tri fun f hf => succeeds_noErr (this f hf))
  | array xs ts hl _ ih =>
    intro hs
    rw [enc, encL_map]
    have : ∀ f ∈ ts.map (enc c), Succeeds f := by
      intro f hf
      obtain ⟨t, ht, rfl⟩ := List.mem_map.1 hf
      obtain ⟨i, hi⟩ := get_of_mem ht
      obtain ⟨y, hy⟩ := get_len hl.symm hi
      exact ih i y t hy hi (sound_part hs (.array xs y (List.mem_of_getElem? hy)))
    exact succeeds_of_tri this (encodeArray_tri fun f hf => succeeds_noErr (this f hf))
  | map a ts hk _ ih =>
    intro hs
    rw [enc, JC.encE_map]
    have : ∀ e ∈ ts.map (fun e => (e.1, enc c e.2)), Succeeds e.2 := by
      intro f hf
      obtain ⟨t, ht, rfl⟩ := List.mem_map.1 hf
      obtain ⟨i, hi⟩ := get_of_mem ht
      obtain ⟨y, hy⟩ := get_len (fst_length hk).symm hi
      exact ih i y t hy hi (sound_part hs (.map a y.1 y.2 (List.mem_of_getElem? hy)))
    refine succeeds_of_tri this (encodeMap_tri ?_ fun f hf => succeeds_noErr (this f hf))
    intro f hf
    obtain ⟨t, ht, rfl⟩ := List.mem_map.1 hf
    obtain ⟨i, hi⟩ := get_of_mem ht
    obtain ⟨y, hy⟩ := get_len (fst_length hk).symm hi
    have := hs.2 a (.refl _) y (List.mem_of_getElem? hy)
    rw [← fst_get hk hy hi] at this
    exact this
  | mapSI a ts hk _ ih =>
    intro hs
    rw [enc, JC.encS_map]
    have : ∀ e ∈ ts.map (fun e => (e.1, enc c e.2)), Succeeds e.2 := by
      intro f hf
      obtain ⟨t, ht, rfl⟩ := List.mem_map.1 hf
      obtain ⟨i, hi⟩ := get_of_mem ht
      obtain ⟨y, hy⟩ := get_len (fst_length hk).symm hi
      exact ih i y t hy hi (sound_part hs (.mapSI a y.1 y.2 (List.mem_of_getElem? hy)))
    exact succeeds_of_tri this (encodeMapSI_tri fun f hf => succeeds_noErr (this f hf))
  | struct fs ts hk hem _ ih =>
    intro hs
    rw [enc, encF_map]
    have : ∀ e ∈ ts.map (fun e => (e.1, isEmpty e.2, enc c e.2)), Shown e → Succeeds e.2.2 := by
      intro f hf ho
      obtain ⟨t, ht, rfl⟩ := List.mem_map.1 hf
      obtain ⟨i, hi⟩ := get_of_mem ht
      obtain ⟨y, hy⟩ := get_len (fst_length hk).symm hi
      have ho' : ¬ Omitted h y := by
        rintro ⟨h1, h2⟩
        exact ho ⟨by rw [fst_get hk hy hi]; exact h1, by rw [hem i y t hy hi]; exact h2⟩
      exact ih i y t hy hi ho' (sound_part hs (.struct fs y.1 y.2 (List.mem_of_getElem? hy) ho'))
    exact succeeds_of_tri this (encodeStruct_tri fun f hf ho => succeeds_noErr (this f hf ho))

end JC
