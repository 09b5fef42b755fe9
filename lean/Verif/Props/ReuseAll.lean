import Verif.Props.Reuse
import Verif.Props.SigReturns
import Verif.Model.Outliers

/-! # Property C12 for all functions on rebinned frames, in any sequence -/

namespace Phik

open Spec Props

namespace Props

/-- A call of a function on a rebinned frame, without the flags. -/
inductive RebinnedCall (F : Type) where
  /-- `phik_from_rebinned_df` -/
  | phik (nm : Numerics) (sched : Option (List ℕ)) (noise : Bool)
  /-- `significance_from_rebinned_df` -/
  | significance (S : SigNum) (R : ℕ → SimRun F) (method : String)
  /-- `hist2d_from_rebinned_df` -/
  | hist2d
  /-- `outlier_significance_matrix_from_rebinned_df` -/
  | outliers (N : OutNum) (fmt : ℚ → String) (dict : List (String × List (ℚ × ℚ))) (ci : String)

/-- The type of the result of a call. -/
def RebinnedCall.Result {F : Type} : RebinnedCall F → Type
  | .phik .. => LTable
  | .significance .. => LTab EReal
  | .hist2d => Hist
  | .outliers .. => Option OutTab

/-- The call on the frame `r` with the given flags. -/
noncomputable def RebinnedCall.run {F : Type} (r : Ref) (dropna du dof : Bool) : (c : RebinnedCall F) → M c.Result
  | .phik nm sched noise => phikFromRebinned nm sched r noise dropna du dof
  | .significance S R method => sigFromRebinned S R r method dropna du dof
  | .hist2d => hist2dFromRebinned r dropna du dof
  | .outliers N fmt dict ci => outlierFromRebinned N fmt r dict ci dropna du dof

/-- The results (or exceptions) of calls one after the other on the same frame. -/
noncomputable def runCalls {F : Type} (r : Ref) (dropna du dof : Bool) :
    List (RebinnedCall F) → World → List ((c : RebinnedCall F) × Except Err c.Result)
  | [], _ => []
  | c :: rest, w => ⟨c, ((c.run r dropna du dof).exec w).1⟩ :: runCalls r dropna du dof rest ((c.run r dropna du dof).exec w).2

theorem applyFlags_idem {f : Frame} {dropna du dof : Bool}
    (h : dropna = true ∨ ∀ c ∈ f.cols, (du = true → Cell.str "UF" ∉ c.cells) ∧ (dof = true → Cell.str "OF" ∉ c.cells)) :
    applyFlags dropna du dof (applyFlags dropna du dof f) = applyFlags dropna du dof f := by
  rw [applyFlags_eq, applyFlags_eq, mapCells_comp]
  apply mapCells_congr
  intro c hc x hx
  rcases h with rfl | h
  · unfold flagCell
    by_cases e1 : x = .str "UF"
    · subst e1; cases du <;> cases dof <;> simp
    · by_cases e2 : x = .str "OF"
      · subst e2; cases du <;> cases dof <;> simp
      · cases du <;> cases dof <;> simp [e1, e2]
  · obtain ⟨h1, h2⟩ := h c hc
    have e1 : du = true → x ≠ .str "UF" := fun hd e => h1 hd (e ▸ hx)
    have e2 : dof = true → x ≠ .str "OF" := fun hd e => h2 hd (e ▸ hx)
    unfold flagCell
    by_cases e3 : x = .nan
    · subst e3; cases dropna <;> cases du <;> cases dof <;> simp
    · cases dropna <;> cases du <;> cases dof <;> simp_all

/-- The loop over the pairs of columns neither looks at the other frames nor at the warnings. -/
theorem sigLoop_result {F : Type} (S : SigNum) (R : ℕ → SimRun F) (method : String) (f : Frame) (pairs : List (String × String)) (k : ℕ) :
    ∃ res ws, ∀ w, (sigLoop S R method f k pairs).exec w = (res, ⟨w.heap, w.warns ++ ws⟩) := by
  induction pairs generalizing k with
  | nil => exact ⟨.ok [], [], fun w => by simp [sigLoop]⟩
  | cons co rest ih =>
    obtain ⟨c0, c1⟩ := co
    obtain ⟨res, ws, hr⟩ := ih (k + 1)
    unfold sigLoop
    simp only [M.exec_bind, M.exec_ofExcept]
    cases ha : f.getCol c0 with
    | error e => exact ⟨.error e, [], fun w => by simp⟩
    | ok a =>
      cases hb : f.getCol c1 with
      | error e => exact ⟨.error e, [], fun w => by simp⟩
      | ok b =>
        simp only
        split
        · cases res with
          | error e => exact ⟨.error e, _ :: ws, fun w => by simp [M.exec_bind, hr, List.append_assoc]; rfl⟩
          | ok l => exact ⟨.ok _, _ :: ws, fun w => by simp [M.exec_bind, hr, List.append_assoc]; exact ⟨rfl, rfl⟩⟩
        · cases hs : sigFromHist2d S (R k) (histOfPairs (a.cells.zip b.cells)).values method with
          | error e => exact ⟨.error e, [], fun w => by simp [M.exec_bind]⟩
          | ok v =>
            cases res with
            | error e => exact ⟨.error e, ws, fun w => by simp [M.exec_bind, hr]⟩
            | ok l => exact ⟨.ok _, ws, fun w => by simp [M.exec_bind, hr]; rfl⟩

/-- The result of `m` depends on the frame `r` only through the frame with the flags applied (that of `f`), and the frame is left with the flags applied, or as it is. -/
def DependsOnFlagged {α : Type} (m : M α) (r : Ref) (dropna du dof : Bool) (f : Frame) : Prop :=
  ∃ res, ∀ (w : World) (g : Frame), w.heap[r]? = some g → applyFlags dropna du dof g = applyFlags dropna du dof f →
    (m.exec w).1 = res ∧ ((m.exec w).2.heap = w.heap.set r (applyFlags dropna du dof f) ∨ (m.exec w).2.heap = w.heap)

theorem phik_flagged (nm : Numerics) (sched : Option (List ℕ)) (r : Ref) (noise dropna du dof : Bool) (f : Frame) :
    DependsOnFlagged (phikFromRebinned nm sched r noise dropna du dof) r dropna du dof f := by
  refine ⟨phikOfFrame nm sched (applyFlags dropna du dof f) noise, fun w g hg he => ?_⟩
  rw [phikFromRebinned_exec nm sched hg, he]
  exact ⟨rfl, .inl rfl⟩

theorem sig_flagged {F : Type} (S : SigNum) (R : ℕ → SimRun F) (method : String) (r : Ref) (dropna du dof : Bool) (f : Frame) :
    DependsOnFlagged (sigFromRebinned S R r method dropna du dof) r dropna du dof f := by
  obtain ⟨res, ws, hl⟩ := sigLoop_result S R method (applyFlags dropna du dof f) (cwr (applyFlags dropna du dof f).names) 0
  cases res with
  | error e =>
    refine ⟨.error e, fun w g hg he => ?_⟩
    unfold sigFromRebinned
    rw [M.exec_bind, M.exec_read_of hg]
    simp only [M.exec_bind, M.exec_write, he, hl]
    first | exact ⟨rfl, .inl rfl⟩ | exact ⟨trivial, .inl trivial⟩ | simp
  | ok l =>
    by_cases h0 : l.length = 0
    · refine ⟨.ok ⟨(applyFlags dropna du dof f).names, (applyFlags dropna du dof f).names, fun _ _ => none⟩, fun w g hg he => ?_⟩
      unfold sigFromRebinned
      rw [M.exec_bind, M.exec_read_of hg]
      simp only [M.exec_bind, M.exec_write, he, hl, h0, if_true]
      first | exact ⟨rfl, .inl rfl⟩ | exact ⟨trivial, .inl trivial⟩ | simp
    · refine ⟨.ok (((overview l).reindexCols (applyFlags dropna du dof f).names).reindexRows (applyFlags dropna du dof f).names), fun w g hg he => ?_⟩
      unfold sigFromRebinned
      rw [M.exec_bind, M.exec_read_of hg]
      simp only [M.exec_bind, M.exec_write, he, hl, h0, if_false]
      first | exact ⟨rfl, .inl rfl⟩ | exact ⟨trivial, .inl trivial⟩ | simp

theorem flagged_length (g : Frame) (dropna du dof : Bool) : (applyFlags dropna du dof g).cols.length = g.cols.length := by
  have := congrArg List.length (applyFlags_names dropna du dof g)
  simpa [Frame.names] using this

/-- What `hist2d_from_rebinned_df` does. -/
theorem hist_exec {r : Ref} {dropna du dof : Bool} {w : World} {g f : Frame} (hg : w.heap[r]? = some g)
    (he : applyFlags dropna du dof g = applyFlags dropna du dof f) : (hist2dFromRebinned r dropna du dof).exec w =
      match (applyFlags dropna du dof f).cols with
      | [a, b] => (.ok (histOfPairs (a.cells.zip b.cells)), ⟨w.heap.set r (applyFlags dropna du dof f), w.warns⟩)
      | _ => (.error .value, w) := by
  by_cases h2 : (applyFlags dropna du dof f).cols.length = 2
  · obtain ⟨a, b, hab⟩ := List.length_eq_two.1 h2
    have hg2 : g.cols.length = 2 := by rw [← flagged_length g dropna du dof, he]; exact h2
    unfold hist2dFromRebinned
    rw [M.exec_bind, M.exec_read_of hg]
    simp only [M.exec_bind, M.exec_write, he, hab, hg2, ne_eq, not_true_eq_false, if_false]
    rfl
  · have hg2 : g.cols.length ≠ 2 := by rw [← flagged_length g dropna du dof, he]; exact h2
    have e : (match (applyFlags dropna du dof f).cols with
      | [a, b] => ((.ok (histOfPairs (a.cells.zip b.cells)) : Except Err Hist), (⟨w.heap.set r (applyFlags dropna du dof f), w.warns⟩ : World))
      | _ => (.error .value, w)) = (.error .value, w) := by
      split
      · rename_i h; rw [h] at h2; simp at h2
      · rfl
    rw [e]
    unfold hist2dFromRebinned
    rw [M.exec_bind, M.exec_read_of hg]
    simp only [M.exec_bind, hg2, ne_eq, not_false_eq_true, if_true]
    rfl

theorem hist_flagged (r : Ref) (dropna du dof : Bool) (f : Frame) : DependsOnFlagged (hist2dFromRebinned r dropna du dof) r dropna du dof f := by
  refine ⟨match (applyFlags dropna du dof f).cols with
      | [a, b] => .ok (histOfPairs (a.cells.zip b.cells))
      | _ => .error .value, fun w g hg he => ?_⟩
  rw [hist_exec hg he]
  split
  · exact ⟨rfl, .inl rfl⟩
  · exact ⟨rfl, .inr rfl⟩

theorem outlier_flagged (N : OutNum) (fmt : ℚ → String) (dict : List (String × List (ℚ × ℚ))) (ci : String) (r : Ref) (dropna du dof : Bool) (f : Frame) :
    DependsOnFlagged (outlierFromRebinned N fmt r dict ci dropna du dof) r dropna du dof f := by
  by_cases h2 : (applyFlags dropna du dof f).cols.length = 2
  · obtain ⟨a, b, hab⟩ := List.length_eq_two.1 h2
    let h := histOfPairs (a.cells.zip b.cells)
    let rest : M (Option OutTab) :=
      if (h.rows.length = 1 ∨ h.cols.length = 1) ∨ (h.rows.length = 0 ∨ h.cols.length = 0) then do
        M.warn (.tooFewOut a.name h.rows.length b.name h.cols.length)
        pure none
      else do
        let rows ← M.ofExcept (relabel fmt dict a h.rows)
        let cols ← M.ofExcept (relabel fmt dict b h.cols)
        let t ← M.ofExcept (outlierFromHist2d N h.arr ci)
        if hs : t.r = rows.length ∧ t.c = cols.length then
          pure (some ⟨rows, cols, fun i j => (t.v (i.cast hs.1.symm) (j.cast hs.2.symm)).2⟩)
        else throw .value
    have hrest : ∃ res ws, ∀ w : World, rest.exec w = (res, ⟨w.heap, w.warns ++ ws⟩) := by
      simp only [rest]
      split
      · exact ⟨.ok none, [_], fun w => rfl⟩
      · cases h1 : relabel fmt dict a h.rows with
        | error e => exact ⟨.error e, [], fun w => by simp [M.exec_bind]⟩
        | ok rows =>
          cases h2 : relabel fmt dict b h.cols with
          | error e => exact ⟨.error e, [], fun w => by simp [M.exec_bind]⟩
          | ok cols =>
            cases h3 : outlierFromHist2d N h.arr ci with
            | error e => exact ⟨.error e, [], fun w => by simp [M.exec_bind]⟩
            | ok t =>
              by_cases hs : t.r = rows.length ∧ t.c = cols.length
              · exact ⟨.ok (some ⟨rows, cols, fun i j => (t.v (i.cast hs.1.symm) (j.cast hs.2.symm)).2⟩), [], fun w => by simp [M.exec_bind, hs]⟩
              · exact ⟨.error .value, [], fun w => by simp [M.exec_bind, hs]⟩
    obtain ⟨res, ws, hres⟩ := hrest
    refine ⟨res, fun w g hg he => ?_⟩
    have hrl : r < w.heap.length := (List.getElem?_eq_some_iff.1 hg).1
    have hx : (outlierFromRebinned N fmt r dict ci dropna du dof).exec w = rest.exec ⟨w.heap.set r (applyFlags dropna du dof f), w.warns⟩ := by
      unfold outlierFromRebinned
      rw [M.exec_bind, hist_exec hg he, hab]
      simp only [M.exec_bind, M.exec_read_of (f := applyFlags dropna du dof f) (w := ⟨w.heap.set r (applyFlags dropna du dof f), w.warns⟩) (r := r) (by simp [hrl]), hab]
      rfl
    rw [hx, hres]
    exact ⟨rfl, .inl rfl⟩
  · refine ⟨.error .value, fun w g hg he => ?_⟩
    have hx : (outlierFromRebinned N fmt r dict ci dropna du dof).exec w = (.error .value, w) := by
      unfold outlierFromRebinned
      rw [M.exec_bind, hist_exec hg he]
      split
      · rename_i h; split at h
        · rename_i h'; rw [h'] at h2; simp at h2
        · cases h
      · rename_i h; split at h
        · rename_i h'; rw [h'] at h2; simp at h2
        · cases h; rfl
    rw [hx]
    exact ⟨rfl, .inr rfl⟩

theorem run_flagged {F : Type} (r : Ref) (dropna du dof : Bool) (c : RebinnedCall F) (f : Frame) :
    DependsOnFlagged (c.run r dropna du dof) r dropna du dof f := by
  cases c with
  | phik nm sched noise => exact phik_flagged nm sched r noise dropna du dof f
  | significance S R method => exact sig_flagged S R method r dropna du dof f
  | hist2d => exact hist_flagged r dropna du dof f
  | outliers N fmt dict ci => exact outlier_flagged N fmt dict ci r dropna du dof f

/-- **C12.** Any sequence of calls of `phik_from_rebinned_df`, `significance_from_rebinned_df`, `hist2d_from_rebinned_df` and
`outlier_significance_matrix_from_rebinned_df` on the same frame with the same flags: every call returns (or raises) what it would have as the first call,
if missing values are dropped or the frame has no underflow (overflow) that is to be dropped. -/
theorem reuse_any_sequence {F : Type} {r : Ref} {w : World} {f : Frame} (hr : w.heap[r]? = some f) {dropna du dof : Bool}
    (h : dropna = true ∨ ∀ c ∈ f.cols, (du = true → Cell.str "UF" ∉ c.cells) ∧ (dof = true → Cell.str "OF" ∉ c.cells))
    (calls : List (RebinnedCall F)) :
    runCalls r dropna du dof calls w = calls.map fun c => ⟨c, ((c.run r dropna du dof).exec w).1⟩ := by
  have key : ∀ (calls : List (RebinnedCall F)) (w' : World) (g : Frame), w'.heap[r]? = some g → applyFlags dropna du dof g = applyFlags dropna du dof f →
      runCalls r dropna du dof calls w' = calls.map fun c => ⟨c, ((c.run r dropna du dof).exec w).1⟩ := by
    intro calls
    induction calls with
    | nil => intros; rfl
    | cons c rest ih =>
      intro w' g hg he
      obtain ⟨res, hres⟩ := run_flagged r dropna du dof c f
      have h1 := hres w' g hg he
      have h2 := hres w f hr rfl
      rw [runCalls, List.map_cons, h1.1, ← h2.1]
      congr 1
      rcases h1.2 with h3 | h3
      · have hrl : r < w'.heap.length := (List.getElem?_eq_some_iff.1 hg).1
        exact ih _ (applyFlags dropna du dof f) (by rw [h3]; simp [hrl]) (applyFlags_idem h)
      · exact ih _ g (by rw [h3]; exact hg) he
  exact key calls w f hr rfl

/-- A frame with a missing value, an underflow and an overflow, with `dropna=True`: phi_k, then the histogram, then the outliers, then phi_k again. -/
example {F : Type} (nm : Numerics) (N : OutNum) (S : SigNum) (R : ℕ → SimRun F) (fmt : ℚ → String) :=
  reuse_any_sequence (F := F) (r := 0) (w := ⟨[⟨5, [⟨"a", false, [.str "UF", .num 1, .num 2, .nan, .str "OF"]⟩, ⟨"b", false, [.str "u", .str "u", .str "v", .str "v", .str "u"]⟩]⟩], []⟩)
    rfl (dropna := true) (du := true) (dof := true) (.inl rfl)
    [.phik nm none true, .hist2d, .outliers N fmt [] "poisson", .significance S R "asymptotic", .phik nm none true]

/-- The histogram of a frame whose only record with a second value of the first column is an underflow, twice with the same flags: the second one counts the underflow as a
missing value. -/
theorem hist_reuse_violated (dof : Bool) :
    ∃ h1 h2 w1 w2, (hist2dFromRebinned 0 false true dof).exec ⟨[ufFrame], []⟩ = (.ok h1, w1) ∧
      (hist2dFromRebinned 0 false true dof).exec w1 = (.ok h2, w2) ∧ Cell.str "NaN" ∉ h1.rows ∧ Cell.str "NaN" ∈ h2.rows := by
  have hf1 : applyFlags false true dof ufFrame =
      ⟨3, [⟨"a", false, [.nan, .num 1, .num 1]⟩, ⟨"b", false, [.str "u", .str "u", .str "v"]⟩]⟩ := by
    cases dof <;> rfl
  have hf2 : applyFlags false true dof (applyFlags false true dof ufFrame) =
      ⟨3, [⟨"a", false, [.str "NaN", .num 1, .num 1]⟩, ⟨"b", false, [.str "u", .str "u", .str "v"]⟩]⟩ := by
    rw [hf1]; cases dof <;> rfl
  have e1 := hist_exec (r := 0) (dropna := false) (du := true) (dof := dof) (w := ⟨[ufFrame], []⟩) (g := ufFrame) rfl rfl
  rw [hf1] at e1
  have e2 := hist_exec (r := 0) (dropna := false) (du := true) (dof := dof)
    (w := ⟨[⟨3, [⟨"a", false, [.nan, .num 1, .num 1]⟩, ⟨"b", false, [.str "u", .str "u", .str "v"]⟩]⟩], []⟩)
    (g := applyFlags false true dof ufFrame) (by rw [hf1]; rfl) rfl
  rw [hf2] at e2
  refine ⟨_, _, _, _, e1, e2, ?_, ?_⟩ <;> simp [histOfPairs, Finset.mem_sort, Cell.isNan]

end Props
end Phik
