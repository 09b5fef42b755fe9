import Verif.Model.Duplicates
import Verif.Lemmas.World
import Verif.Lemmas.Overview
import Verif.Props.Matrix
import Verif.Props.DataQuality

/-!
# C89: frames in which several columns have the same name
-/

namespace Phik

open M

/-! ### the quality check -/

theorem nuniqueDup_unique {f : Frame} {c : String} (h : f.names.count c ≤ 1) : f.nuniqueDup c = .ok (f.nunique c) := by
  unfold Frame.nuniqueDup; rw [if_neg (by omega)]

theorem nuniqueDup_dup {f : Frame} {c : String} (h : 1 < f.names.count c) : f.nuniqueDup c = .error .value := by
  unfold Frame.nuniqueDup; rw [if_pos h]

theorem dqManyDup_dup {f : Frame} {c : String} (h : 1 < f.names.count c) (l : List String) (hc : c ∈ l) (w : World) :
    ∃ w', (dqManyDup f l).exec w = (.error .value, w') ∧ w'.heap = w.heap := by
  induction l generalizing w with
  | nil => simp at hc
  | cons x xs ih =>
    unfold dqManyDup
    rw [exec_bind, exec_ofExcept]
    by_cases hx : 1 < f.names.count x
    · rw [nuniqueDup_dup hx]; exact ⟨w, rfl, rfl⟩
    · rw [nuniqueDup_unique (by omega)]
      have hc' : c ∈ xs := by
        rcases List.mem_cons.1 hc with rfl | hc
        · exact absurd h hx
        · exact hc
      dsimp only
      split_ifs
      · rw [exec_bind, exec_warn]
        exact ih hc' { w with warns := w.warns ++ [.manyUnique x] }
      · exact ih hc' w

theorem dqManyDup_unique {f : Frame} (hn : ∀ c, f.names.count c ≤ 1) (l : List String) (w : World) :
    (dqManyDup f l).exec w = (warnAll ((l.filter fun c => decide (1000 < f.nunique c)).map .manyUnique)).exec w := by
  induction l generalizing w with
  | nil => rfl
  | cons x xs ih =>
    unfold dqManyDup
    rw [exec_bind, exec_ofExcept, nuniqueDup_unique (hn x)]
    dsimp only
    rw [List.filter_cons]
    by_cases h : 1000 < f.nunique x
    · rw [if_pos h, if_pos (by simpa using h), exec_bind, exec_warn, List.map_cons, warnAll, exec_bind, exec_warn]
      exact ih _
    · rw [if_neg h, if_neg (by simpa using h)]
      exact ih _

theorem dqFewDup_dup {f : Frame} {few : ℕ → Bool} {c : String} (h : 1 < f.names.count c) (l : List String) (hc : c ∈ l) (w : World) :
    ∃ w', (dqFewDup f few l).exec w = (.error .value, w') ∧ w'.heap = w.heap := by
  induction l generalizing w with
  | nil => simp at hc
  | cons x xs ih =>
    unfold dqFewDup
    rw [exec_bind, exec_ofExcept]
    by_cases hx : 1 < f.names.count x
    · rw [nuniqueDup_dup hx]; exact ⟨w, rfl, rfl⟩
    · rw [nuniqueDup_unique (by omega)]
      have hc' : c ∈ xs := by
        rcases List.mem_cons.1 hc with rfl | hc
        · exact absurd h hx
        · exact hc
      dsimp only
      split_ifs
      · rw [exec_bind, exec_warn]
        obtain ⟨w', h1, h2⟩ := ih hc' { w with warns := w.warns ++ [.notEnoughUnique x] }
        dsimp only
        rw [exec_bind, h1]
        exact ⟨w', rfl, h2⟩
      · exact ih hc' w

theorem dqFewDup_unique {f : Frame} (hn : ∀ c, f.names.count c ≤ 1) (few : ℕ → Bool) (l : List String) (w : World) :
    (dqFewDup f few l).exec w =
      (.ok (l.filter fun c => few (f.nunique c)),
        ((warnAll ((l.filter fun c => few (f.nunique c)).map .notEnoughUnique)).exec w).2) := by
  induction l generalizing w with
  | nil => rfl
  | cons x xs ih =>
    unfold dqFewDup
    rw [exec_bind, exec_ofExcept, nuniqueDup_unique (hn x)]
    dsimp only
    rw [List.filter_cons]
    by_cases h : few (f.nunique x) = true
    · rw [if_pos h, if_pos h, exec_bind, exec_warn]
      dsimp only
      rw [exec_bind, ih, List.map_cons, warnAll]
      rfl
    · rw [if_neg h, if_neg h]
      exact ih _

theorem dqManyDup_heap (f : Frame) (l : List String) (w : World) :
    (∃ w', (dqManyDup f l).exec w = (.error .value, w') ∧ w'.heap = w.heap) ∨ ∃ w', (dqManyDup f l).exec w = (.ok (), w') ∧ w'.heap = w.heap := by
  induction l generalizing w with
  | nil => exact .inr ⟨w, rfl, rfl⟩
  | cons x xs ih =>
    unfold dqManyDup
    rw [exec_bind, exec_ofExcept]
    by_cases hx : 1 < f.names.count x
    · rw [nuniqueDup_dup hx]; exact .inl ⟨w, rfl, rfl⟩
    · rw [nuniqueDup_unique (by omega)]
      dsimp only
      split_ifs
      · rw [exec_bind, exec_warn]
        exact ih { w with warns := w.warns ++ [.manyUnique x] }
      · exact ih w

/-- The quality check of a frame in which some name is repeated raises ValueError before it makes a copy. -/
theorem dq_check_duplicates {w : World} {r : Ref} {f : Frame} (hr : w.heap[r]? = some f) (hd : ¬ f.names.Nodup) (ic : List String) (dropna : Bool) :
    ∃ w', (dqCheckDup r ic dropna).exec w = (.error .value, w') ∧ w'.heap = w.heap := by
  rw [List.nodup_iff_count_le_one] at hd
  push Not at hd
  obtain ⟨c, hc⟩ := hd
  have hmem : c ∈ f.names := List.count_pos_iff.1 (by omega)
  unfold dqCheckDup
  rw [exec_bind, exec_read_of hr]
  dsimp only
  set ic' := ic.filter fun c => f.names.contains c with hic
  rw [exec_bind]
  by_cases h : c ∈ ic'
  · rcases dqManyDup_heap f (otherCols f ic') w with ⟨w1, h1, h2⟩ | ⟨w1, h1, h2⟩
    · rw [h1]; exact ⟨w1, rfl, h2⟩
    · rw [h1]
      dsimp only
      obtain ⟨w2, h3, h4⟩ := dqFewDup_dup (few := fun n => decide (n < 2)) hc ic' h w1
      rw [exec_bind, h3]
      exact ⟨w2, rfl, h4.trans h2⟩
  · have hc' : c ∈ otherCols f ic' := by
      unfold otherCols
      rw [Finset.mem_sort, Finset.mem_sdiff]
      simpa using ⟨hmem, h⟩
    obtain ⟨w1, h1, h2⟩ := dqManyDup_dup hc _ hc' w
    rw [h1]; exact ⟨w1, rfl, h2⟩

/-- Without repeated names it is the check of the rest of the model. -/
theorem dqCheckDup_unique {w : World} {r : Ref} {f : Frame} (hr : w.heap[r]? = some f) (hd : f.names.Nodup) (ic : List String) (dropna : Bool) :
    (dqCheckDup r ic dropna).exec w = (dqCheck r ic dropna).exec w := by
  have hn : ∀ c, f.names.count c ≤ 1 := List.nodup_iff_count_le_one.1 hd
  unfold dqCheckDup dqCheck
  rw [exec_bind, exec_bind, exec_read_of hr]
  dsimp only
  rw [exec_bind, exec_bind, dqManyDup_unique hn, exec_warnAll]
  dsimp only
  rw [exec_bind, exec_bind, dqFewDup_unique hn, exec_warnAll, exec_warnAll]
  dsimp only
  rw [exec_bind, dqFewDup_unique hn, exec_warnAll]
  dsimp only
  unfold dropCols
  rw [List.map_append, List.append_assoc]

/-! ### the functions on frames -/

theorem onClean_duplicates {α : Type} {w : World} {r : Ref} {f : Frame} (hr : w.heap[r]? = some f) (hd : ¬ f.names.Nodup)
    (ic : Option (List String)) (dropna : Bool) (rest : Ref × List String → M α) :
    ∃ w', (onClean dqCheckDup r ic dropna rest).exec w = (.error .value, w') ∧ w'.heap = w.heap := by
  obtain ⟨w', h1, h2⟩ := dq_check_duplicates hr hd (ic.getD (guessIntervalCols f)) dropna
  refine ⟨w', ?_, h2⟩
  unfold onClean
  rw [exec_bind, exec_read_of hr]
  dsimp only
  rw [exec_bind, h1]

theorem onClean_unique {α : Type} {w : World} {r : Ref} {f : Frame} (hr : w.heap[r]? = some f) (hd : f.names.Nodup)
    (ic : Option (List String)) (dropna : Bool) (rest : Ref × List String → M α) :
    (onClean dqCheckDup r ic dropna rest).exec w = (onClean dqCheck r ic dropna rest).exec w := by
  unfold onClean
  rw [exec_bind, exec_bind, exec_read_of hr]
  dsimp only
  rw [exec_bind, exec_bind, dqCheckDup_unique hr hd]

/-- **C89.** Every function that takes a data frame raises ValueError when two columns have the same name, whatever the data and the options are,
and no data frame was changed or created: a repeated name never gives a result. -/
theorem duplicate_names_refused {w : World} {r : Ref} {f : Frame} (hr : w.heap[r]? = some f) (hd : ¬ f.names.Nodup) {F : Type}
    (nm : Numerics) (sched : Option (List ℕ)) (S : SigNum) (R : ℕ → SimRun F) (N : OutNum) (fmt fmt0 : ℚ → String) (fmt2 : EReal → String)
    (fl : ℚ → ℚ) (pf : String → Option (Option ℚ)) (gnan : LTable → Except Err (List GVal)) (ic : Option (List String)) (bins : Bins)
    (quantile noise dropna du dof doOutliers storeEach : Bool) (pdf sigMethod ci : String) (sigThr corrThr : ℝ)
    (combinations : List (String × String)) :
    (∃ w', (phikMatrixDup nm sched fl pf r ic bins quantile noise dropna du dof).exec w = (.error .value, w') ∧ w'.heap = w.heap) ∧
    (∃ w', (globalPhikArrayDup nm sched fl pf r ic bins quantile noise dropna du dof).exec w = (.error .value, w') ∧ w'.heap = w.heap) ∧
    (∃ w', (significanceMatrixDup S R fl pf r ic bins sigMethod dropna du dof).exec w = (.error .value, w') ∧ w'.heap = w.heap) ∧
    (∃ w', (outlierMatrixDup N fmt fl pf r ic ci bins quantile dropna du dof).exec w = (.error .value, w') ∧ w'.heap = w.heap) ∧
    (∃ w', (outlierMatricesDup N fmt fl pf r ic ci bins quantile combinations dropna du dof).exec w = (.error .value, w') ∧ w'.heap = w.heap) ∧
    (∃ w', (correlationReportDup nm sched S R N fmt fmt0 fmt2 fl pf gnan r ic bins quantile doOutliers pdf sigThr corrThr noise storeEach
        sigMethod ci).exec w = (.error .value, w') ∧ w'.heap = w.heap) := by
  refine ⟨onClean_duplicates hr hd _ _ _, onClean_duplicates hr hd _ _ _, onClean_duplicates hr hd _ _ _, ?_, onClean_duplicates hr hd _ _ _,
    onClean_duplicates hr hd _ _ _⟩
  unfold outlierMatrixDup
  rw [exec_bind, exec_read_of hr]
  dsimp only
  split_ifs
  · exact ⟨w, rfl, rfl⟩
  · exact onClean_duplicates hr hd _ _ _

/-- **C89.** For a frame without repeated names these functions do what the rest of the model says. -/
theorem unique_names_same {w : World} {r : Ref} {f : Frame} (hr : w.heap[r]? = some f) (hd : f.names.Nodup) {F : Type}
    (nm : Numerics) (sched : Option (List ℕ)) (S : SigNum) (R : ℕ → SimRun F) (N : OutNum) (fmt fmt0 : ℚ → String) (fmt2 : EReal → String)
    (fl : ℚ → ℚ) (pf : String → Option (Option ℚ)) (gnan : LTable → Except Err (List GVal)) (ic : Option (List String)) (bins : Bins)
    (quantile noise dropna du dof doOutliers storeEach : Bool) (pdf sigMethod ci : String) (sigThr corrThr : ℝ)
    (combinations : List (String × String)) :
    (phikMatrixDup nm sched fl pf r ic bins quantile noise dropna du dof).exec w =
      (phikMatrix nm sched fl pf r ic bins quantile noise dropna du dof).exec w ∧
    (globalPhikArrayDup nm sched fl pf r ic bins quantile noise dropna du dof).exec w =
      (globalPhikArray nm sched fl pf r ic bins quantile noise dropna du dof).exec w ∧
    (significanceMatrixDup S R fl pf r ic bins sigMethod dropna du dof).exec w =
      (significanceMatrix S R fl pf r ic bins sigMethod dropna du dof).exec w ∧
    (outlierMatrixDup N fmt fl pf r ic ci bins quantile dropna du dof).exec w =
      (outlierMatrix N fmt fl pf r ic ci bins quantile dropna du dof).exec w ∧
    (outlierMatricesDup N fmt fl pf r ic ci bins quantile combinations dropna du dof).exec w =
      (outlierMatrices N fmt fl pf r ic ci bins quantile combinations dropna du dof).exec w ∧
    (correlationReportDup nm sched S R N fmt fmt0 fmt2 fl pf gnan r ic bins quantile doOutliers pdf sigThr corrThr noise storeEach
        sigMethod ci).exec w =
      (correlationReport nm sched S R N fmt fmt0 fmt2 fl pf gnan r ic bins quantile doOutliers pdf sigThr corrThr noise storeEach
        sigMethod ci).exec w := by
  refine ⟨onClean_unique hr hd _ _ _, onClean_unique hr hd _ _ _, onClean_unique hr hd _ _ _, ?_, onClean_unique hr hd _ _ _,
    onClean_unique hr hd _ _ _⟩
  unfold outlierMatrixDup outlierMatrix
  rw [exec_bind, exec_bind, exec_read_of hr]
  dsimp only
  split_ifs
  · rfl
  · rw [onClean_unique hr hd]
    unfold onClean
    rw [exec_bind, exec_read_of hr]

/-! ### binned data with repeated names -/

/-- **C89.** The phik matrix of binned data in which all columns have the same name is 1 everywhere, whatever the columns contain: the names
are compared instead of the columns. -/
theorem same_name_everywhere {w : World} {r : Ref} {f : Frame} (hr : w.heap[r]? = some f) {n : ℕ} {a : String}
    (hn : f.names = List.replicate (n + 1) a) (nm : Numerics) {sched : Option (List ℕ)} (hs : Spec.ValidSched (cwr f.names).length sched)
    (noise dropna du dof : Bool) :
    ∃ t w', (phikFromRebinnedDup nm sched r noise dropna du dof).exec w = (.ok t, w') ∧
      t.rows = f.names ∧ t.cols = f.names ∧ ∀ x ∈ t.rows, ∀ y ∈ t.cols, t.v x y = some 1 := by
  set g := applyFlags dropna du dof f with hg
  have hgn : g.names = f.names := applyFlags_names _ _ _ _
  have hall : ∀ co ∈ cwr f.names, co = (a, a) := by
    intro co hco
    have h : (co.1, co.2) ∈ cwr f.names := hco
    have h12 : co.1 ∈ f.names ∧ co.2 ∈ f.names := by
      rcases mem_cwr.1 h with ⟨h1, h2⟩ | h1
      · exact ⟨h2, h1 ▸ h2⟩
      · exact ⟨h1.subset (by simp), h1.subset (by simp)⟩
    rw [hn] at h12
    exact Prod.ext (List.eq_of_mem_replicate h12.1) (List.eq_of_mem_replicate h12.2)
  have hrun : runTasks sched ((cwr f.names).map (calcPhikDup nm g noise)) =
      .ok ((cwr f.names).map fun co => (co.1, co.2, (some 1 : Option ℝ))) := by
    rw [runTasks_ok_iff (by simpa using hs), List.map_map]
    apply List.map_congr_left
    intro co hco
    rw [hall co hco]
    simp [calcPhikDup]
  have ha : a ∈ f.names := by rw [hn]; simp
  have hne : ((cwr f.names).map fun co => (co.1, co.2, (some 1 : Option ℝ))).length ≠ 0 := by
    intro h
    rw [List.length_map, List.length_eq_zero_iff] at h
    have := cwr_eq_nil h
    rw [hn] at this
    simp at this
  set T := ((overview ((cwr f.names).map fun co => (co.1, co.2, (some 1 : Option ℝ)))).reindexCols f.names).reindexRows f.names with hT
  have hphik : phikOfFrameDup nm sched g noise = .ok T := by
    unfold phikOfFrameDup
    rw [hgn, hrun]
    simp only [bind, Except.bind]
    rw [if_neg hne]
    rfl
  refine ⟨T, { w with heap := w.heap.set r g }, ?_, rfl, rfl, ?_⟩
  · unfold phikFromRebinnedDup
    rw [exec_bind, exec_read_of hr]
    dsimp only
    rw [exec_bind, exec_write]
    dsimp only
    rw [exec_ofExcept, hphik]
  · intro x hx y hy
    have hx' : x ∈ f.names := hx
    have hy' : y ∈ f.names := hy
    rw [hn] at hx' hy'
    rw [List.eq_of_mem_replicate hx', List.eq_of_mem_replicate hy', hT, overview_reindex]
    apply overview_value
    · exact .inl (List.mem_map.2 ⟨(a, a), mem_cwr.2 (.inl ⟨rfl, ha⟩), rfl⟩)
    · intro p hp _
      obtain ⟨co, -, rfl⟩ := List.mem_map.1 hp
      rfl

/-- **C89.** If one name is repeated and another name occurs too, the phik matrix of binned data is never returned: an exception is raised. -/
theorem repeated_and_other_refused {w : World} {r : Ref} {f : Frame} (hr : w.heap[r]? = some f) {a b : String} (ha : 1 < f.names.count a)
    (hb : b ∈ f.names) (hab : a ≠ b) (nm : Numerics) {sched : Option (List ℕ)} (hs : Spec.ValidSched (cwr f.names).length sched)
    (noise dropna du dof : Bool) :
    ∃ e w', (phikFromRebinnedDup nm sched r noise dropna du dof).exec w = (.error e, w') := by
  set g := applyFlags dropna du dof f with hg
  have hgn : g.names = f.names := applyFlags_names _ _ _ _
  have hfail : ∃ co ∈ cwr f.names, calcPhikDup nm g noise co = .error .value := by
    have hmem : a ∈ f.names := List.count_pos_iff.1 (by omega)
    rcases sublist_total hmem hb hab with h | h
    · refine ⟨(a, b), mem_cwr.2 (.inr h), ?_⟩
      unfold calcPhikDup
      rw [if_neg hab, if_pos (by rw [hgn]; exact .inl ha)]
    · refine ⟨(b, a), mem_cwr.2 (.inr h), ?_⟩
      unfold calcPhikDup
      rw [if_neg (Ne.symm hab), if_pos (by rw [hgn]; exact .inr ha)]
  cases hrun : runTasks sched ((cwr f.names).map (calcPhikDup nm g noise)) with
  | ok l =>
    exfalso
    rw [runTasks_ok_iff (by simpa using hs)] at hrun
    obtain ⟨co, hco, h⟩ := hfail
    have hm : (.error .value : Except Err (String × String × Option ℝ)) ∈ (cwr f.names).map (calcPhikDup nm g noise) :=
      List.mem_map.2 ⟨co, hco, h⟩
    rw [hrun] at hm
    obtain ⟨x, -, hx⟩ := List.mem_map.1 hm
    cases hx
  | error e =>
    refine ⟨e, { w with heap := w.heap.set r g }, ?_⟩
    unfold phikFromRebinnedDup
    rw [exec_bind, exec_read_of hr]
    dsimp only
    rw [exec_bind, exec_write]
    dsimp only
    rw [exec_ofExcept]
    unfold phikOfFrameDup
    rw [← hg, hgn, hrun]
    rfl

/-- **C89.** Binned data without repeated names. -/
theorem unique_names_same_binned {w : World} {r : Ref} {f : Frame} (hr : w.heap[r]? = some f) (hd : f.names.Nodup) (nm : Numerics)
    (sched : Option (List ℕ)) (noise dropna du dof : Bool) :
    (phikFromRebinnedDup nm sched r noise dropna du dof).exec w = (phikFromRebinned nm sched r noise dropna du dof).exec w := by
  set g := applyFlags dropna du dof f with hg
  have hgn : g.names = f.names := applyFlags_names _ _ _ _
  have hcalc : calcPhikDup nm g noise = calcPhik nm g noise := by
    funext co
    unfold calcPhikDup
    have hc : ∀ c, f.names.count c ≤ 1 := List.nodup_iff_count_le_one.1 hd
    have h1 := hc co.1
    have h2 := hc co.2
    rw [← hgn] at h1 h2
    split_ifs with h h'
    · unfold calcPhik; rw [if_pos h]; rfl
    · omega
    · rfl
  unfold phikFromRebinnedDup phikFromRebinned
  rw [exec_bind, exec_bind, exec_read_of hr]
  dsimp only
  unfold phikOfFrameDup phikOfFrame
  rw [← hg, hcalc]

/-! ### the hypotheses are met -/

/-- Two unrelated columns with the same name. -/
def dupFrame : Frame :=
  ⟨4, [⟨"a", false, [.str "x", .str "x", .str "y", .str "y"]⟩, ⟨"a", false, [.str "x", .str "y", .str "x", .str "y"]⟩]⟩

/-- The same with another column. -/
def dupFrame3 : Frame :=
  ⟨4, dupFrame.cols ++ [⟨"b", false, [.str "p", .str "q", .str "q", .str "p"]⟩]⟩

example : ¬ dupFrame.names.Nodup ∧ ¬ dupFrame3.names.Nodup := by decide

example : dupFrame.names = List.replicate (1 + 1) "a" := rfl

example : 1 < dupFrame3.names.count "a" ∧ "b" ∈ dupFrame3.names ∧ "a" ≠ "b" := by decide

/-- Two unrelated columns of the same name: a matrix of ones (their correlation is 0). -/
example (nm : Numerics) : ∃ t w', (phikFromRebinnedDup nm none 0 true true true true).exec ⟨[dupFrame], []⟩ = (.ok t, w') ∧
    t.rows = ["a", "a"] ∧ t.cols = ["a", "a"] ∧ ∀ x ∈ t.rows, ∀ y ∈ t.cols, t.v x y = some 1 :=
  same_name_everywhere (w := ⟨[dupFrame], []⟩) (r := 0) (f := dupFrame) (n := 1) (a := "a") rfl rfl nm (sched := none)
    (fun order h => by cases h) true true true true

end Phik
