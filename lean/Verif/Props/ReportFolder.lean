import Verif.Model.Report

/-! # Property C63: the folder of the plots -/

namespace Phik.Props

/-- Only the part after the last slash is left out. -/
theorem dirname_split (d b : List Char) (hb : '/' ∉ b) :
    dirname (d ++ '/' :: b) =
      if ∀ c ∈ d, c = '/' then d ++ ['/'] else (d.reverse.dropWhile (· = '/')).reverse := by
  have hrev : (d ++ '/' :: b).reverse.dropWhile (· ≠ '/') = '/' :: d.reverse := by
    rw [List.reverse_append, List.reverse_cons, List.append_assoc, List.dropWhile_append_of_pos]
    · simp
    · intro x hx
      have : x ∈ b := by simpa using hx
      simp only [ne_eq, decide_not, Bool.not_eq_eq_eq_not, Bool.not_true, decide_eq_false_iff_not]
      rintro rfl
      exact hb this
  unfold dirname
  simp only [hrev]
  by_cases h : ∀ c ∈ d, c = '/'
  · rw [if_pos h, if_pos]
    · simp
    · simp only [List.all_eq_true, List.mem_reverse, List.mem_cons, decide_eq_true_eq]
      rintro x (rfl | hx)
      · rfl
      · exact h x (by simpa using hx)
  · rw [if_neg h, if_neg]
    · simp
    · intro hx
      apply h
      simp only [List.all_eq_true, List.mem_reverse, List.mem_cons, decide_eq_true_eq] at hx
      exact fun c hc => hx c (.inr (by simpa using hc))

/-- **C63.** When every plot is stored, the plots go to the folder of the given file: the part before the last slash, if that
does not end in a slash. -/
theorem report_folder (d b : String) (hb : '/' ∉ b.toList) (c : Char) (hc : c ≠ '/') :
    reportFolder (d ++ String.singleton c ++ "/" ++ b) = d ++ String.singleton c ++ "/" := by
  unfold reportFolder
  have h : (d ++ String.singleton c ++ "/" ++ b).toList = (d.toList ++ [c]) ++ '/' :: b.toList := by simp
  rw [h, dirname_split _ _ hb, if_neg (by intro h; exact hc (h c (by simp)))]
  simp only [List.reverse_append, List.reverse_cons, List.reverse_nil, List.nil_append, List.cons_append]
  rw [List.dropWhile_cons_of_neg (by simpa using hc)]
  simp only [List.reverse_cons, List.reverse_reverse]
  rw [if_neg (by simp)]
  apply String.toList_injective
  simp

/-- **C63.** A file name without a slash means the current folder. -/
theorem report_folder_here (b : String) (hb : '/' ∉ b.toList) : reportFolder b = "./" := by
  unfold reportFolder dirname
  have h : b.toList.reverse.dropWhile (· ≠ '/') = [] := by
    have hx : ∀ x ∈ b.toList.reverse, (decide (x ≠ '/')) = true := by
      intro x hx
      have : x ∈ b.toList := by simpa using hx
      simp only [ne_eq, decide_not, Bool.not_eq_eq_eq_not, Bool.not_true, decide_eq_false_iff_not]
      rintro rfl
      exact hb this
    generalize b.toList.reverse = l at hx
    induction l with
    | nil => rfl
    | cons x l ih =>
      have h1 := hx x (by simp)
      have h2 := ih fun y hy => hx y (by simp [hy])
      simp only [List.dropWhile, h1, h2]
  rw [h]
  rfl

example : reportFolder "out/a b/report.pdf" = "out/a b/" := report_folder "out/a " "report.pdf" (by decide) 'b' (by decide)
example : reportFolder "report.pdf" = "./" := report_folder_here "report.pdf" (by decide)
example : reportFolder "/report.pdf" = "//" := by decide

end Phik.Props
