import Verif.Props.BellStage

/-! # C01: the treble -/

namespace Bellframe.Props

/-- `Bell::TREBLE` is the one bell with index 0, with number 1 and with the name 1. -/
theorem C01_treble (b : Bell) :
    (b = .treble ↔ b.index = 0) ∧ (b = .treble ↔ b.number = 1) ∧ (b = .treble ↔ b.name = ['1']) ∧
    (b = .treble ↔ Bell.fromName '1' = some b) ∧ (b = .treble ↔ Bell.fromNumber 1 = some b) := by
  have h0 : b = .treble ↔ b.index = 0 := ⟨fun h => by rw [h]; rfl, fun h => by cases b; cases h; rfl⟩
  have h1 : Bell.fromName '1' = some .treble := by decide
  have h2 : b = .treble ↔ Bell.fromName '1' = some b := by
    rw [h1, Option.some.injEq]
    exact eq_comm
  refine ⟨h0, ?_, ?_, h2, ?_⟩
  · rw [h0, (C01_number 1 b).1]
    omega
  · constructor
    · rintro rfl
      exact C01_name_of_named '1' _ h1
    · intro h
      rcases C01_name_cases b with ⟨-, c, h3, h4⟩ | ⟨-, -, h4⟩
      · rw [h4] at h
        obtain rfl : c = '1' := by simpa using h
        rw [h2]
        exact (C01_from_name_iff_to_char _ _).2 h3
      · rw [h4] at h
        simp at h
  · rw [(C01_number 1 b).2.1, h0, (C01_number 1 b).1]
    omega

example := C01_treble ⟨4⟩

end Bellframe.Props
