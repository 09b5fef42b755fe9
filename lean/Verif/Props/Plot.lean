import Verif.Spec.Report

/-! # Property C53: `plot_correlation_matrix` -/

namespace Phik

open Spec

theorem axisTicks_length (fmt0 : ℚ → String) (top n : ℕ) (labels : List Cell) :
    (axisTicks fmt0 top n labels).length = labels.length := by
  unfold axisTicks
  split <;> simp

theorem axisTicks_nodup (fmt0 : ℚ → String) (top n : ℕ) (labels : List Cell) :
    ((axisTicks fmt0 top n labels).map Prod.fst).Nodup := by
  unfold axisTicks
  have key : ∀ g : ℕ → ℚ, Function.Injective g →
      ((labels.mapIdx fun i l => (g i, tickText fmt0 top l)).map Prod.fst).Nodup := by
    intro g hg
    rw [List.nodup_iff_injective_getElem]
    intro i j h
    simp only [List.getElem_map, List.getElem_mapIdx] at h
    exact Fin.ext (hg h)
  split
  · exact key (fun i => (i : ℚ)) Nat.cast_injective
  · exact key (fun i => (i : ℚ) + 1 / 2) fun i j h => by
      have : (i : ℚ) = j := by simpa using h
      exact_mod_cast this

theorem mem_mapIdx_of {labels : List Cell} {g : ℕ → Cell → ℚ × String} {i : ℕ} {l : Cell} (h : labels[i]? = some l) :
    g i l ∈ labels.mapIdx g := by
  obtain ⟨hi, rfl⟩ := List.getElem?_eq_some_iff.1 h
  rw [List.mem_mapIdx]
  exact ⟨i, hi, rfl⟩

theorem axis_shows (fmt0 : ℚ → String) (top n : ℕ) (identity : Bool) (labels : List Cell) :
    AxisShows (tickText fmt0 top) n identity labels
      (axisTicks fmt0 top n (if identity then labels.reverse else labels)) where
  count := by rw [axisTicks_length]; cases identity <;> simp
  distinct := axisTicks_nodup ..
  middle h k l hl := by
    cases identity with
    | false =>
      simp only [place, Bool.false_eq_true, if_false, axisTicks, show ¬ labels.length = n + 1 by omega]
      exact mem_mapIdx_of (g := fun i l => ((i : ℚ) + 1 / 2, tickText fmt0 top l)) hl
    | true =>
      simp only [place, if_true, axisTicks, List.length_reverse, show ¬ labels.length = n + 1 by omega, if_false]
      refine mem_mapIdx_of (g := fun i l => ((i : ℚ) + 1 / 2, tickText fmt0 top l)) ?_
      have := k.2
      rw [List.getElem?_reverse (by rw [Fin.val_rev]; omega), ← hl]
      congr 1
      rw [Fin.val_rev]; omega
  edges h k l l' hl hl' := by
    have hk := k.2
    cases identity with
    | false =>
      simp only [place, Bool.false_eq_true, if_false, axisTicks, h, if_true]
      constructor
      · exact mem_mapIdx_of (g := fun i l => ((i : ℚ), tickText fmt0 top l)) hl
      · have := mem_mapIdx_of (g := fun i l => ((i : ℚ), tickText fmt0 top l)) hl'
        push_cast at this
        exact this
    | true =>
      simp only [place, if_true, axisTicks, List.length_reverse, h]
      constructor
      · refine mem_mapIdx_of (g := fun i l => ((i : ℚ), tickText fmt0 top l)) ?_
        rw [List.getElem?_reverse (by rw [Fin.val_rev]; omega), ← hl']
        congr 1
        rw [Fin.val_rev]; omega
      · have := mem_mapIdx_of (g := fun i l => ((i : ℚ), tickText fmt0 top l)) (labels := labels.reverse)
          (i := k.rev + 1) (l := l) ?_
        · push_cast at this
          exact this
        · rw [List.getElem?_reverse (by rw [Fin.val_rev]; omega), ← hl]
          congr 1
          rw [Fin.val_rev]; omega

theorem place_place (identity : Bool) {n : ℕ} (k : Fin n) : place identity (place identity k) = k := by
  cases identity <;> simp [place]

theorem layout_eq {r c : ℕ} (identity : Bool) (a : Fin r → Fin c → FVal) :
    (if identity then (Arr2.revCols ⟨r, c, a⟩) else ⟨r, c, a⟩) =
      (⟨r, c, fun j k => a j (place identity k)⟩ : Arr2 FVal) := by
  cases identity <;> rfl

theorem mem_drawNotes {r c : ℕ} (fmt2 : EReal → String) (vmin vmax : ℝ) (identity both : Bool)
    (numbers colors : Fin r → Fin c → FVal) :
    ∃ notes, drawNotes fmt2 vmin vmax both ⟨r, c, fun j k => numbers j (place identity k)⟩
        ⟨r, c, fun j k => colors j (place identity k)⟩ = .ok notes ∧
      ∀ n : Note, n ∈ notes ↔ ∃ (j : Fin r) (k : Fin c),
        n.x = ((place identity k).val : ℚ) + 1 / 2 ∧ n.white = whiteCond vmin vmax (colors j k) ∧
        if both then n.y = (j : ℕ) + 7 / 10 ∧ n.text = numText fmt2 (numbers j k) ∨
          n.y = (j : ℕ) + 1 / 4 ∧ n.text = numText fmt2 (colors j k)
        else n.y = (j : ℕ) + 1 / 2 ∧ n.text = numText fmt2 (numbers j k) := by
  unfold drawNotes
  rw [dif_pos (.inl ⟨le_refl _, le_refl _⟩)]
  refine ⟨_, rfl, fun n => ?_⟩
  simp only [List.mem_flatMap, List.mem_finRange, true_and]
  constructor
  · rintro ⟨i, j, h⟩
    refine ⟨j, place identity i, ?_⟩
    rw [place_place]
    unfold cellNotes at h
    cases both with
    | false =>
      simp only [Bool.false_eq_true, if_false, List.mem_singleton] at h
      subst h
      exact ⟨rfl, rfl, rfl, rfl⟩
    | true =>
      simp only [if_true, List.mem_cons, List.not_mem_nil, or_false] at h
      rcases h with rfl | rfl
      · exact ⟨rfl, rfl, .inl ⟨rfl, rfl⟩⟩
      · exact ⟨rfl, rfl, .inr ⟨rfl, rfl⟩⟩
  · rintro ⟨j, k, h1, h2, h3⟩
    refine ⟨place identity k, j, ?_⟩
    unfold cellNotes
    simp only [place_place, Fin.eta]
    obtain ⟨nx, ny, nt, nw⟩ := n
    cases both with
    | false =>
      simp only [Bool.false_eq_true, if_false, List.mem_singleton] at h3 ⊢
      simp_all
    | true =>
      simp only [if_true, List.mem_cons, List.not_mem_nil, or_false] at h3 ⊢
      rcases h3 with h3 | h3
      · left; simp_all
      · right; simp_all

theorem numText_eq (fmt2 : EReal → String) (v : FVal) : numText fmt2 v = shownNumber fmt2 v := by cases v <;> rfl

theorem tickText_eq (fmt0 : ℚ → String) (top : ℕ) : tickText fmt0 top = shownLabel fmt0 top := by
  funext l
  cases l <;> simp only [tickText, shownLabel, ← not_le, ite_not]

theorem whiteCond_iff (vmin vmax : ℝ) (v : FVal) : whiteCond vmin vmax v = true ↔ OnDark vmin vmax v := by
  cases v with
  | none => exact ⟨fun _ => trivial, fun _ => rfl⟩
  | some x => simp only [whiteCond, OnDark, Bool.or_eq_true, decide_eq_true_eq]

theorem white_eq_iff (vmin vmax : ℝ) (v : FVal) (b : Bool) : b = whiteCond vmin vmax v ↔ (b = true ↔ OnDark vmin vmax v) := by
  rw [← whiteCond_iff]
  exact Bool.eq_iff_iff

namespace Props

/-- **C53.** `plot_correlation_matrix` of an `r`×`c` matrix with one label per column and row, or labels for the
edges of the columns and rows: if it returns, every cell is drawn in the column and row of its own labels, with its own
colour, and its own number (from `matrix_numbers` if given, possibly together with the number of `matrix_colors`) is
written there; nothing else is written.  This holds with `identity_layout`, where the columns are mirrored,
and without. -/
theorem plot_correct (fmt0 : ℚ → String) (fmt2 : EReal → String) {r c : ℕ} (colors : Fin r → Fin c → FVal)
    (xLabels yLabels : List Cell) (vmin vmax : ℝ) (top : ℕ) (numbers : Option (Fin r → Fin c → FVal))
    (printBoth identity : Bool) {fig : Figure}
    (h : plotCorrelation fmt0 fmt2 ⟨r, c, colors⟩ xLabels yLabels vmin vmax top
      (numbers.map fun m => ⟨r, c, m⟩) printBoth identity = .ok fig) :
    (xLabels.length = c ∨ xLabels.length = c + 1) ∧ (yLabels.length = r ∨ yLabels.length = r + 1) ∧
    AxisShows (shownLabel fmt0 top) c identity xLabels fig.xticks ∧
    AxisShows (shownLabel fmt0 top) r false yLabels fig.yticks ∧
    ShowsCells fmt2 (OnDark vmin vmax) identity (numbers.isSome && printBoth) (numbers.getD colors) colors fig := by
  unfold plotCorrelation at h
  simp only [bind, Except.bind, throw, throwThe, MonadExceptOf.throw, pure, Except.pure] at h
  have hn : (Option.map (fun m => (⟨r, c, m⟩ : Arr2 FVal)) numbers).getD ⟨r, c, colors⟩ =
      ⟨r, c, numbers.getD colors⟩ := by cases numbers <;> rfl
  simp only [hn, layout_eq] at h
  by_cases hy : r = yLabels.length ∨ r + 1 = yLabels.length
  swap
  · simp [hy] at h
  by_cases hx : c = xLabels.length ∨ c + 1 = xLabels.length
  swap
  · simp [hy, hx] at h
  simp only [hy, hx, not_true_eq_false, if_false] at h
  split at h
  · cases h
  split at h
  · cases h
  split at h
  · cases h
  split at h
  · cases h
  split at h
  · cases h
  obtain ⟨notes, hd, hnotes⟩ := mem_drawNotes fmt2 vmin vmax identity (numbers.isSome && printBoth) (numbers.getD colors) colors
  have hb : (if (Option.map (fun m => (⟨r, c, m⟩ : Arr2 FVal)) numbers).isSome = true then printBoth else false) =
      (numbers.isSome && printBoth) := by cases numbers <;> simp
  rw [hb, hd] at h
  simp only [Except.ok.injEq] at h
  subst h
  refine ⟨by omega, by omega, tickText_eq fmt0 top ▸ axis_shows fmt0 top c identity xLabels, ?_, ⟨_, rfl, ?_⟩, by simpa only [white_eq_iff, numText_eq] using hnotes⟩
  · have := tickText_eq fmt0 top ▸ axis_shows fmt0 top r false yLabels
    simpa using this
  · intro j k
    rw [place_place]

/-- It returns for a matrix with at least one row, two or more labels on each axis that fit, and numbers of the
shape given by the labels. -/
theorem plot_returns (fmt0 : ℚ → String) (fmt2 : EReal → String) {r c : ℕ} (colors : Fin r → Fin c → FVal)
    (xLabels yLabels : List Cell) (vmin vmax : ℝ) (top : ℕ) (numbers : Option (Fin r → Fin c → FVal))
    (printBoth identity : Bool) (hr : 0 < r)
    (hx : xLabels.length = c ∨ (xLabels.length = c + 1 ∧ numbers = none))
    (hy : yLabels.length = r ∨ (yLabels.length = r + 1 ∧ numbers = none))
    (hx1 : xLabels.length = 1 → ∃ s, xLabels = [.str s]) (hy1 : yLabels.length = 1 → ∃ s, yLabels = [.str s]) :
    ∃ fig, plotCorrelation fmt0 fmt2 ⟨r, c, colors⟩ xLabels yLabels vmin vmax top
      (numbers.map fun m => ⟨r, c, m⟩) printBoth identity = .ok fig := by
  have hlen : ∀ l : List Cell, (l.length = 1 → ∃ s, l = [.str s]) → lenCheck l = .ok () := by
    intro l hl
    match l, hl with
    | [], _ => rfl
    | [a], hl => obtain ⟨s, hs⟩ := hl rfl; cases hs; rfl
    | a :: b :: l, _ => simp [lenCheck]
  have hxr : lenCheck (if identity then xLabels.reverse else xLabels) = .ok () := by
    cases identity with
    | false => exact hlen _ hx1
    | true =>
      refine hlen _ fun h => ?_
      obtain ⟨s, hs⟩ := hx1 (by simpa using h)
      exact ⟨s, by simp [hs]⟩
  unfold plotCorrelation
  simp only [bind, Except.bind, throw, throwThe, MonadExceptOf.throw, pure, Except.pure]
  have hn : (Option.map (fun m => (⟨r, c, m⟩ : Arr2 FVal)) numbers).getD ⟨r, c, colors⟩ =
      ⟨r, c, numbers.getD colors⟩ := by cases numbers <;> rfl
  simp only [hn, layout_eq]
  have e1 : ¬ ¬ (r = yLabels.length ∨ r + 1 = yLabels.length) := by omega
  have e2 : ¬ ¬ (c = xLabels.length ∨ c + 1 = xLabels.length) := by omega
  have e3 : ¬ ((Option.map (fun m => (⟨r, c, m⟩ : Arr2 FVal)) numbers).isSome = true ∧ ¬ r = yLabels.length) := by
    rintro ⟨h1, h2⟩
    rcases hy with h | ⟨-, h⟩
    · omega
    · subst h; simp at h1
  have e4 : ¬ ((Option.map (fun m => (⟨r, c, m⟩ : Arr2 FVal)) numbers).isSome = true ∧ ¬ c = xLabels.length) := by
    rintro ⟨h1, h2⟩
    rcases hx with h | ⟨-, h⟩
    · omega
    · subst h; simp at h1
  have e5 : ¬ (identity = true ∧ r = 0) := by omega
  rw [if_neg e1, if_neg e2, if_neg e3, if_neg e4, if_neg e5]
  simp only [hxr, hlen yLabels hy1]
  have hb : (if (Option.map (fun m => (⟨r, c, m⟩ : Arr2 FVal)) numbers).isSome = true then printBoth else false) =
      (numbers.isSome && printBoth) := by cases numbers <;> simp
  obtain ⟨notes, hd, -⟩ := mem_drawNotes fmt2 vmin vmax identity (numbers.isSome && printBoth) (numbers.getD colors) colors
  rw [hb, hd]
  exact ⟨_, rfl⟩

/-- **C53 (labels that do not fit).** A matrix whose number of rows is neither the number of labels nor one less is
rejected, and so is one whose number of columns does not fit. -/
theorem plot_shape (fmt0 : ℚ → String) (fmt2 : EReal → String) (colors : Arr2 FVal) (xLabels yLabels : List Cell)
    (vmin vmax : ℝ) (top : ℕ) (numbers : Option (Arr2 FVal)) (printBoth identity : Bool)
    (h : (yLabels.length ≠ colors.r ∧ yLabels.length ≠ colors.r + 1) ∨
      (xLabels.length ≠ colors.c ∧ xLabels.length ≠ colors.c + 1)) :
    plotCorrelation fmt0 fmt2 colors xLabels yLabels vmin vmax top numbers printBoth identity = .error .assertion := by
  unfold plotCorrelation
  simp only [bind, Except.bind, throw, throwThe, MonadExceptOf.throw, pure, Except.pure]
  by_cases h1 : colors.r = yLabels.length ∨ colors.r + 1 = yLabels.length
  · have h2 : ¬ (colors.c = xLabels.length ∨ colors.c + 1 = xLabels.length) := by omega
    simp [h1, h2]
  · simp [h1]

/-- **C53 (violated: separate numbers and labels for edges).** When the labels of the columns are those of the edges,
`matrix_numbers` is required to have a column more than `matrix_colors`, and then no figure is drawn. -/
theorem plot_numbers_edges (fmt0 : ℚ → String) (fmt2 : EReal → String) (colors numbers : Arr2 FVal)
    (xLabels yLabels : List Cell) (vmin vmax : ℝ) (top : ℕ) (printBoth identity : Bool)
    (hy : 0 < yLabels.length) (hx : xLabels.length = colors.c + 1) (fig : Figure) :
    plotCorrelation fmt0 fmt2 colors xLabels yLabels vmin vmax top (some numbers) printBoth identity ≠ .ok fig := by
  intro h
  unfold plotCorrelation at h
  simp only [bind, Except.bind, throw, throwThe, MonadExceptOf.throw, pure, Except.pure, Option.isSome_some, true_and,
    Option.getD_some] at h
  split at h
  · cases h
  split at h
  · cases h
  split at h
  · cases h
  rename_i h3
  split at h
  · cases h
  rename_i h4
  split at h
  · cases h
  split at h
  · cases h
  split at h
  · cases h
  have hd : ∀ both a b, a.r = numbers.r → a.c = numbers.c → b.r = colors.r → b.c = colors.c →
      drawNotes fmt2 vmin vmax both a b = .error .index := by
    intro both a b h1 h2 h3 h4
    unfold drawNotes
    rw [dif_neg (by omega)]
  rw [hd _ _ _ (by cases identity <;> rfl) (by cases identity <;> rfl) (by cases identity <;> rfl)
    (by cases identity <;> rfl)] at h
  cases h

/-- **C53 (violated: a single label that is a number).** The only label of an axis must be a string: if it is a number or missing, a
TypeError is raised although the shapes fit (several labels may be numbers). -/
theorem plot_single_number (fmt0 : ℚ → String) (fmt2 : EReal → String) {r c : ℕ} (colors : Fin r → Fin c → FVal)
    (xLabels yLabels : List Cell) (vmin vmax : ℝ) (top : ℕ) (printBoth identity : Bool) (hr : 0 < r)
    (hx : xLabels.length = c ∨ xLabels.length = c + 1) (hy : yLabels.length = r ∨ yLabels.length = r + 1)
    (h : (∃ q, xLabels = [.num q]) ∨ xLabels = [.nan] ∨ (∃ q, yLabels = [.num q]) ∨ yLabels = [.nan]) :
    plotCorrelation fmt0 fmt2 ⟨r, c, colors⟩ xLabels yLabels vmin vmax top none printBoth identity = .error .type := by
  unfold plotCorrelation
  simp only [bind, Except.bind, throw, throwThe, MonadExceptOf.throw, pure, Except.pure]
  have e1 : ¬ ¬ (r = yLabels.length ∨ r + 1 = yLabels.length) := by omega
  have e2 : ¬ ¬ (c = xLabels.length ∨ c + 1 = xLabels.length) := by omega
  have e5 : ¬ (identity = true ∧ r = 0) := by omega
  simp only [Option.isSome_none, Bool.false_eq_true, false_and, if_false]
  rw [if_neg e1, if_neg e2, if_neg e5]
  have herr : ∀ l, (∃ q, l = [Cell.num q]) ∨ l = [.nan] → lenCheck l = .error .type := by
    rintro l (⟨q, rfl⟩ | rfl) <;> rfl
  have hany : ∀ l, lenCheck l = .error .type ∨ lenCheck l = .ok () := by
    intro l
    unfold lenCheck
    split <;> simp
  have hrev : (∃ q, xLabels = [.num q]) ∨ xLabels = [.nan] →
      (if identity = true then xLabels.reverse else xLabels) = xLabels := by
    rintro (⟨q, rfl⟩ | rfl) <;> cases identity <;> rfl
  rw [← or_assoc] at h
  rcases h with h | h
  · rw [hrev h, herr _ h]
  · rw [herr _ h]
    rcases hany (if identity = true then xLabels.reverse else xLabels) with h1 | h1 <;> rw [h1]

/-- **C53 (text of the labels).** With the default `top=20`, a label of up to 20 characters is written as it is, and
a longer one as its first 17 characters followed by three dots, 20 characters in all. -/
theorem tick_default (fmt0 : ℚ → String) (s : String) :
    (s.length ≤ 20 → tickText fmt0 20 (.str s) = s) ∧
    (20 < s.length → tickText fmt0 20 (.str s) = String.ofList (s.toList.take 17) ++ "..." ∧
      (tickText fmt0 20 (.str s)).length = 20) := by
  refine ⟨fun h => ?_, fun h => ?_⟩
  · simp only [tickText, show ¬ 20 < s.length by omega, if_false]
  · have e : tickText fmt0 20 (.str s) = String.ofList (s.toList.take 17) ++ "..." := by
      simp only [tickText, h, if_true]
    refine ⟨e, ?_⟩
    have hl : 17 ≤ s.toList.length := by rw [String.length_toList]; omega
    rw [e, String.length_append, String.length_ofList, List.length_take, Nat.min_eq_left hl]
    rfl

/-- **C53 (violated: `top`).** "Only print the top `top` characters" holds for the default only.  For every other number,
labels that are longer than `top` are still cut to 17 characters and dots: for a smaller number the text is longer than
`top` characters (for every label that is too long), for a larger one it is shorter than `top`. -/
theorem tick_top_violated (fmt0 : ℚ → String) (top : ℕ) (s : String) (h : top < s.length) :
    (tickText fmt0 top (.str s)).length = min 17 s.length + 3 ∧
    (top < 20 → top < (tickText fmt0 top (.str s)).length) ∧
    (20 < top → (tickText fmt0 top (.str s)).length < top) := by
  have e : (tickText fmt0 top (.str s)).length = min 17 s.length + 3 := by
    simp only [tickText, h, if_true]
    rw [String.length_append, String.length_ofList, List.length_take, String.length_toList]
    rfl
  omega

/-- A 2×1 matrix with the label 3 for its column. -/
example (fmt0 : ℚ → String) (fmt2 : EReal → String) (colors : Fin 2 → Fin 1 → FVal) :
    plotCorrelation fmt0 fmt2 ⟨2, 1, colors⟩ [.num 3] [.str "p", .str "q"] 0 1 20 none false true = .error .type :=
  plot_single_number fmt0 fmt2 colors _ _ 0 1 20 false true (by norm_num) (.inl rfl) (.inl rfl) (.inl ⟨3, rfl⟩)

/-- The hypotheses of `plot_correct` and `plot_returns` hold for a 2×3 matrix with separate numbers, one of them NaN. -/
example (fmt0 : ℚ → String) (fmt2 : EReal → String) :
    ∃ fig, plotCorrelation fmt0 fmt2 ⟨2, 3, ![![some 1, some 2, none], ![some 4, some ⊤, some 6]]⟩
      [.str "u", .str "v", .str "w"] [.str "p", .num 1] 0 1 20 (some ⟨2, 3, fun _ _ => some 0⟩) true true = .ok fig ∧
      fig.xticks = [(1 / 2, "w"), (3 / 2, "v"), (5 / 2, "u")] := by
  obtain ⟨fig, h⟩ := plot_returns fmt0 fmt2 (r := 2) (c := 3) ![![some 1, some 2, none], ![some 4, some ⊤, some 6]]
    [.str "u", .str "v", .str "w"] [.str "p", .num 1] 0 1 20 (some fun _ _ => some 0) true true (by norm_num)
    (.inl rfl) (.inl rfl) (by simp) (by simp)
  refine ⟨fig, h, ?_⟩
  simp [plotCorrelation, bind, Except.bind, pure, Except.pure, lenCheck, drawNotes, Arr2.revCols] at h
  rw [← h]
  simp [axisTicks, tickText]
  refine ⟨by decide +kernel, ⟨by norm_num, by decide +kernel⟩, by norm_num, by decide +kernel⟩

end Props
end Phik
