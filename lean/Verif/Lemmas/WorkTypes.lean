import Verif.Lemmas.DecErrLen
import Verif.Spec.WorkTyped
/-!
How many steps decoding into a type takes.
-/
namespace JC
open Spec Props

mutual
theorem perError_ge (k : Nat) : ∀ t, k + 200 ≤ perError k t
  | .slice t | .array _ t | .map _ t | .ptr t | .quoted t | .quotedInt t => by
    all_goals have := perError_ge k t; simp only [perError]; omega
  | .struct fs => by have := perErrorF_ge k fs; simp only [perError]; omega
  | .bool | .int _ | .float32 | .float64 | .number | .string | .bytes | .duration | .time | .raw | .iface | .ifaceM _ | .mapSI | .mapRaw
  | .jsonU _ | .textU _ | .unsupported => by all_goals simp only [perError]; omega
theorem perErrorF_ge (k : Nat) : ∀ fs, k + 200 ≤ perErrorF k fs
  | [] => Nat.le_refl _
  | (_, t) :: fs => by have := perErrorF_ge k fs; simp only [perErrorF]; omega
end

theorem perByte_ge (m q : Nat) : 50 + 5 * m ≤ perByte m q := Nat.le_mul_of_pos_right _ (Nat.pow_pos (by omega))

theorem perByte_succ (m q : Nat) : perByte m (q + 1) = 5 * perByte m q := by
  unfold perByte
  rw [Nat.pow_succ, ← Nat.mul_assoc, Nat.mul_comm]

theorem CostD.any {K s E : Nat} {d : DecW} (h : CostD K s E d) : CostD K 0 E d := fun b p => (h b p).mono (Nat.zero_le _) (Nat.le_refl _) (Nat.le_refl _)

theorem CostD.leaf {m q k : Nat} {d : DecW} (h : CostD 50 20 60 d) (hk : perByte m q ≤ k) : CostD (perByte m q) (20 + 5 * m) (k + 200) d :=
  fun b p => (h b p).more (5 * m) (perByte_ge m q) (by omega)

variable {c : DCfg} {dyn : Ty → DecW}

mutual
theorem decW_cost {m k : Nat} : ∀ (t : Ty) (q : Nat), Concrete m q t → perByte m q ≤ k →
    CostD (perByte m q) (20 + 5 * (m - ptrs t)) (perError k t) (decW c dyn t)
  | .bool, q, _, hk => decodeBoolW_cost.leaf hk
  | .int k, q, _, hk => (decodeIntW_cost k).leaf hk
  | .float32, q, _, hk => (decodeFloatW_cost _ _).leaf hk
  | .float64, q, _, hk => (decodeFloatW_cost _ _).leaf hk
  | .number, q, _, hk => decodeNumberW_cost.leaf hk
  | .string, q, _, hk => decodeStringW_cost.leaf hk
  | .bytes, q, _, hk => fun b p => (decodeBytesW_cost b p).more (5 * m) (perByte_ge m q) (by simp only [perError]; omega)
  | .duration, q, _, hk => (decodeDurationW_cost _).leaf hk
  | .time, q, _, hk => (decodeTimeW_cost _).leaf hk
  | .raw, q, _, hk => decodeRawW_cost.leaf hk
  | .iface, q, h, _ => absurd h (by simp [Concrete])
  | .ifaceM _, q, h, _ => absurd h (by simp [Concrete])
  | .mapSI, q, h, _ => absurd h (by simp [Concrete])
  | .slice t, q, h, hk => by
    have := perByte_ge m q
    have := perError_ge k t
    exact decodeSliceT_cost (decW_cost t q (by simpa only [Concrete] using h) hk).any (by omega) (by omega) (by simp only [ptrs]; omega) _
  | .array n t, q, h, hk => by
    have := perByte_ge m q
    have := perError_ge k t
    exact decodeArrayW_cost (decW_cost t q (by simpa only [Concrete] using h) hk).any (by omega) (by omega) (by simp only [ptrs]; omega) _ _
  | .map kt t, q, h, hk => by
    have := perByte_ge m q
    have := perError_ge k t
    exact decodeMapT_cost (decW_cost t q (by simpa only [Concrete] using h) hk).any (by omega) (by omega) (by omega) (by simp only [ptrs]; omega) _ _
  | .mapRaw, q, _, hk => by
    have := perByte_ge m q
    exact decodeMapT_cost (decodeRawW_cost.leaf (m := m) hk).any (by omega) (by omega) (by omega) (by simp only [ptrs]; omega) _ _
  | .ptr t, q, h, hk => by
    have := perByte_ge m q
    simp only [Concrete] at h
    have ih := decW_cost t q h.2 hk
    rw [show 20 + 5 * (m - ptrs t) = 20 + 5 * (m - ptrs (.ptr t)) + 5 by simp only [ptrs]; omega] at ih
    exact decodePointerW_cost ih (by omega) (by omega) _ _
  | .struct fs, q, h, hk => by
    have := perByte_ge m q
    have := perErrorF_ge k fs
    exact decodeStructT_cost (decWF_cost fs q (by simpa only [Concrete] using h) hk) (by omega) (by omega) (by omega) (by simp only [ptrs]; omega) _
  | .quoted t, q, h, hk => by
    simp only [Concrete] at h
    obtain ⟨q', rfl, h⟩ := h
    have := perByte_ge m q'
    have := perError_ge k t
    rw [perByte_succ] at hk ⊢
    exact decodeFromStringW_cost (decW_cost t q' h (by omega)).any (by omega) (by omega) (by simp only [ptrs]; omega)
  | .quotedInt t, q, h, hk => by
    simp only [Concrete] at h
    obtain ⟨q', rfl, h⟩ := h
    have := perByte_ge m q'
    have := perError_ge k t
    rw [perByte_succ] at hk ⊢
    exact decodeFromStringToIntW_cost c.lib (decW_cost t q' h (by omega)).any (by omega) (by omega) (by omega) (by simp only [ptrs]; omega)
  | .jsonU f, q, _, hk => (decodeJSONUW_cost f).leaf hk
  | .textU f, q, _, hk => (decodeTextUW_cost f).leaf hk
  | .unsupported, q, _, hk => unsupportedW_cost.leaf hk
theorem decWF_cost {m k : Nat} : ∀ (fs : List (Bytes × Ty)) (q : Nat), ConcreteF m q fs → perByte m q ≤ k →
    ∀ d ∈ decWF c dyn fs, CostD (perByte m q) 0 (perErrorF k fs) d
  | [], _, _, _ => by intro d hd; simp [decWF] at hd
  | (_, t) :: fs, q, h, hk => by
    intro d hd
    simp only [decWF, List.mem_cons] at hd
    simp only [ConcreteF] at h
    rcases hd with rfl | hd
    · exact fun b p => (decW_cost t q h.1 hk b p).mono (Nat.zero_le _) (Nat.le_refl _) (by simp only [perErrorF]; omega)
    · exact fun b p => (decWF_cost fs q h.2 hk d hd b p).mono (Nat.zero_le _) (Nat.le_refl _) (by simp only [perErrorF]; omega)
end

theorem decNW_cost {m q k : Nat} {t : Ty} (h : Concrete m q t) (hk : perByte m q ≤ k) (n : Nat) : CostD (perByte m q) 0 (perError k t) (decNW c n t) := by
  cases n <;> exact (decW_cost t q h hk).any

end JC
