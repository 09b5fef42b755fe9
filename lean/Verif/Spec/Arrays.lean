import Verif.Model.PhikMatrix

/-! # The data frame of two arrays -/

namespace Phik.Spec

open scoped Classical in
/-- The data frame that two lists of equal length mean: two columns 'x' and 'y' of numbers; or, if there is any string in
them, two columns of strings, where `render` writes a number as a string. -/
noncomputable def arrayFrame (render : ℚ → String) (x y : List Cell) : Frame :=
  if ∃ s, Cell.str s ∈ x ∨ Cell.str s ∈ y then
    ⟨x.length, [⟨"x", false, x.map (asStr render)⟩, ⟨"y", false, y.map (asStr render)⟩]⟩
  else ⟨x.length, [⟨"x", true, x⟩, ⟨"y", true, y⟩]⟩

end Phik.Spec

namespace Phik
open Spec

theorem arraysToFrame_eq (render : ℚ → String) {x y : List Cell} (h : x.length = y.length) :
    arraysToFrame render x y = .ok (arrayFrame render x y) := by
  unfold arraysToFrame arrayFrame
  rw [if_neg (by simpa using h)]
  have : ((x ++ y).any Cell.isStr = true) ↔ ∃ s, Cell.str s ∈ x ∨ Cell.str s ∈ y := by
    simp only [List.any_eq_true, List.mem_append]
    constructor
    · rintro ⟨c, hc, hs⟩
      cases c with
      | str s => exact ⟨s, hc⟩
      | nan => cases hs
      | num q => cases hs
    · rintro ⟨s, hs⟩
      exact ⟨_, hs, rfl⟩
  by_cases hs : (x ++ y).any Cell.isStr = true
  · rw [if_pos hs, if_pos (this.1 hs)]
  · rw [if_neg hs, if_neg (fun h => hs (this.2 h))]

theorem arrayFrame_cols (render : ℚ → String) (x y : List Cell) :
    ∃ b cx cy, (arrayFrame render x y).cols = [⟨"x", b, cx⟩, ⟨"y", b, cy⟩] ∧ cx.length = x.length ∧ cy.length = y.length ∧
      (arrayFrame render x y).nrows = x.length := by
  unfold arrayFrame
  split
  · exact ⟨_, _, _, rfl, by simp, by simp, rfl⟩
  · exact ⟨_, _, _, rfl, rfl, rfl, rfl⟩

theorem arrayFrame_names (render : ℚ → String) (x y : List Cell) : (arrayFrame render x y).names = ["x", "y"] := by
  obtain ⟨b, cx, cy, h, -⟩ := arrayFrame_cols render x y
  unfold Frame.names
  rw [h]
  rfl

theorem arrayFrame_wf (render : ℚ → String) {x y : List Cell} (hlen : x.length = y.length) : (arrayFrame render x y).WF := by
  obtain ⟨b, cx, cy, h, h1, h2, h3⟩ := arrayFrame_cols render x y
  refine ⟨?_, by rw [arrayFrame_names]; decide⟩
  intro c hc
  rw [h] at hc
  simp only [List.mem_cons, List.not_mem_nil, or_false] at hc
  rcases hc with rfl | rfl
  · rw [h3, ← h1]
  · rw [h3, hlen, ← h2]

end Phik
