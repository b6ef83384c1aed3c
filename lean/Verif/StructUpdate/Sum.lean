import Verif.StructUpdate.Props

/-!
# Which lengths work, exactly (C99)
-/
namespace Gel.StructUpdate

/-- **C99**, exactly: `STRUCT_UPDATE_ARRAY` captures `length` elements if and only if the length is not a sum, or the last summand is 0,
or the elements are bytes. -/
theorem C99_exact (elem : Nat) (he : 0 < elem) (l : Length) :
    arraySize elem l = elem * l.value ↔ (∃ n, l = .one n) ∨ (∃ a, l = .sum a 0) ∨ elem = 1 := by
  constructor
  · intro h
    cases l with
    | one n => exact .inl ⟨n, rfl⟩
    | sum a b =>
      by_cases hb : b = 0
      · subst hb; exact .inr (.inl ⟨a, rfl⟩)
      · by_cases h1 : elem = 1
        · exact .inr (.inr h1)
        · have := C99_wrong elem a b (by omega) (by omega)
          omega
  · rintro (⟨n, rfl⟩ | ⟨a, rfl⟩ | h)
    · exact C99_array_partial elem _ (.inl ⟨n, rfl⟩)
    · rfl
    · exact C99_array_partial elem l (.inr h)

-- elements of 4 bytes: `3 + 0` is right by accident, `2 + 1` is 9 bytes instead of 12
example : arraySize 4 (.sum 3 0) = 12 ∧ arraySize 4 (.sum 2 1) = 9 ∧ arraySize 1 (.sum 2 1) = 3 := by decide

end Gel.StructUpdate
