import Verif.Spec.Words
import Verif.Model.Value
import Verif.Props.Maps
import Verif.Props.Syntax
/-!
**C41**: interfaces with `omitempty`. **C57**: numbers where the `string` option asks for a string.
-/
namespace JC.Props
open JC Spec

theorem nilWord_iff : ∀ v : DV, v.nilWord = true ↔ NilWord v := by
  intro v
  refine ⟨fun h => ?_, fun h => ?_⟩
  · fun_induction DV.nilWord v with
    | case1 => exact .ptr
    | case2 => exact .map
    | case3 v ih => exact .struct v (ih h)
    | case4 v ih => exact .array v (ih h)
    | case5 => cases h
  · induction h with
    | ptr | map => rfl
    | struct v _ ih => simpa [DV.nilWord] using ih
    | array v _ ih => simpa [DV.nilWord] using ih

/-- **C41** A field of type `interface{}` with `omitempty` that holds a value is left out exactly if the value is one nil
pointer or map, perhaps within structs and arrays of one element. By Go's rule (`GoEmpty`) it is never left out. -/
theorem C41_iface_exact (t : Ty) (v : DV) : (isEmpty (toGV (.iface t v) .iface) = true ↔ NilWord v) ∧ ¬ GoEmpty (toGV (.iface t v) .iface) := by
  refine ⟨?_, ?_⟩
  · rw [← nilWord_iff]; simp [toGV, isEmpty]
  · simp [toGV, GoEmpty]

example : NilWord (.struct [.array [.mapNil]]) ∧ ¬ NilWord (.struct [.ptrNil, .ptrNil]) ∧
    (enc {} (.struct [({ name := bs! "a", omitempty := true }, toGV (.iface (.struct [(bs! "p", .ptr .bool)]) (.struct [.ptrNil])) .iface)]) [] 0) =
      .done (bs! "{}") 0 none := ⟨.struct _ (.array _ .map), (nomatch ·), by with_unfolding_all rfl⟩

/-- **C57** A number where an integer with the `string` option is expected: it is not decoded, and the error is an `*UnmarshalTypeError` exactly
if the number has a fraction or an exponent and is out of the range of `float64`. -/
theorem C57_unquoted (l : Lib) (dec : Dec) {v r : Bytes} (hv : JNumber v) (hr : NumStop r) (p : DV) :
    ∃ e, decodeFromStringToInt l dec (v ++ r) p = .err p r e ∧ e ≠ .syntax ∧
      (e = .unmarshalType ↔ (0x2e ∈ v ∨ 0x65 ∈ v ∨ 0x45 ∈ v) ∧ l.parseFloat false v = none) := by
  have hp := parseNumber_complete hv hr
  obtain ⟨c, t, e1, hc⟩ := parseNumber_head hp
  have hn : hasNullPrefix (v ++ r) = false := by
    rw [e1]
    have : c ≠ 0x6e := by
      rcases hc with rfl | hc
      · decide
      · rintro rfl; revert hc; decide
    simp [hasNullPrefix, this]
  have hq : v ++ r ≠ [] ∧ (v ++ r).head? ≠ some (ch! '"') := by
    rw [e1]
    refine ⟨by simp, ?_⟩
    rcases hc with rfl | hc
    · simp
    · intro h
      simp only [List.head?_cons, Option.some.injEq] at h
      subst h; revert hc; decide
  have hi : ∀ c : UInt8, indexByte v c ≠ none ↔ c ∈ v := fun c => by rw [Ne, indexByte_none]; simp
  unfold decodeFromStringToInt
  rw [hn, if_neg (by simp), if_pos hq]
  unfold unquotedErr
  rw [hp]
  simp only [hi, Option.isNone_iff_eq_none]
  by_cases h : (0x2e ∈ v ∨ 0x65 ∈ v ∨ 0x45 ∈ v) ∧ l.parseFloat false v = none
  · rw [if_pos h]; exact ⟨_, rfl, by simp, by simp [h]⟩
  · rw [if_neg h]; exact ⟨_, rfl, by simp, by simp [h]⟩

/-- `1` is a number in place of a string; `1e999` is moreover out of range. -/
example : (unquotedErr noLib (bs! "1,")).2 = .other 1 ∧ (unquotedErr { noLib with parseFloat := fun _ _ => none } (bs! "1e999")).2 = .unmarshalType := by
  decide +kernel

end JC.Props
