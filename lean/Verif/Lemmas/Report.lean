import Verif.Props.Plot
import Verif.Props.OutlierPairs
import Verif.Props.Reuse
import Verif.Props.SigMatrix
import Verif.Props.Global

/-! # Running `correlation_report` -/

namespace Phik

open Spec Props

theorem applyFlags_idem (du dof : Bool) (f : Frame) :
    applyFlags true du dof (applyFlags true du dof f) = applyFlags true du dof f := by
  rw [applyFlags_eq, applyFlags_eq, mapCells_comp]
  apply mapCells_congr
  intro c _ x _
  unfold flagCell
  by_cases e1 : x = .str "UF"
  · subst e1; cases du <;> cases dof <;> simp
  · by_cases e2 : x = .str "OF"
    · subst e2; cases du <;> cases dof <;> simp
    · cases du <;> cases dof <;> simp [e1, e2]

/-! ### significance -/

theorem sigLoop_local {F : Type} (S : SigNum) (R : ℕ → SimRun F) (method : String) (f : Frame)
    (pairs : List (String × String)) (k : ℕ) :
    ∃ res ws, ∀ w : World, (sigLoop S R method f k pairs).exec w = (res, ⟨w.heap, w.warns ++ ws⟩) := by
  induction pairs generalizing k with
  | nil => exact ⟨.ok [], [], fun w => by simp [sigLoop]⟩
  | cons co rest ih =>
    obtain ⟨c0, c1⟩ := co
    obtain ⟨res, ws, h⟩ := ih (k + 1)
    cases ha : f.getCol c0 with
    | error e => exact ⟨.error e, [], fun w => by simp [sigLoop, M.exec_bind, ha]⟩
    | ok a =>
      cases hb : f.getCol c1 with
      | error e => exact ⟨.error e, [], fun w => by simp [sigLoop, M.exec_bind, ha, hb]⟩
      | ok b =>
        by_cases hf : ((histOfPairs (a.cells.zip b.cells)).rows.length = 1 ∨
          (histOfPairs (a.cells.zip b.cells)).cols.length = 1) ∨
          ((histOfPairs (a.cells.zip b.cells)).rows.length = 0 ∨
          (histOfPairs (a.cells.zip b.cells)).cols.length = 0)
        · refine ⟨res.map fun l => (c0, c1, none) :: l, [.tooFewSig c0 (histOfPairs (a.cells.zip b.cells)).rows.length c1
            (histOfPairs (a.cells.zip b.cells)).cols.length] ++ ws, fun w => ?_⟩
          rw [sigLoop]
          simp only [M.exec_bind, M.exec_ofExcept, ha, hb, hf, if_true, M.exec_warn, h]
          rw [← List.append_assoc]
          cases res <;> rfl
        · cases hz : sigFromHist2d S (R k) (histOfPairs (a.cells.zip b.cells)).values method with
          | error e =>
            exact ⟨.error e, [], fun w => by
              rw [sigLoop]
              simp only [M.exec_bind, M.exec_ofExcept, ha, hb, hf, if_false, hz, List.append_nil]⟩
          | ok pz =>
            refine ⟨res.map fun l => (c0, c1, pz.2) :: l, ws, fun w => ?_⟩
            rw [sigLoop]
            simp only [M.exec_bind, M.exec_ofExcept, ha, hb, hf, if_false, hz, h]
            cases res <;> rfl

/-- `significance_from_rebinned_df` as a function of the frame after the replacements. -/
theorem sigFromRebinned_local {F : Type} (S : SigNum) (R : ℕ → SimRun F) (method : String) (g : Frame) :
    ∃ res ws, ∀ (r : Ref) (w : World) (f : Frame) (dropna du dof : Bool), w.heap[r]? = some f →
      applyFlags dropna du dof f = g →
      (sigFromRebinned S R r method dropna du dof).exec w = (res, ⟨w.heap.set r g, w.warns ++ ws⟩) := by
  obtain ⟨res, ws, h⟩ := sigLoop_local S R method g (cwr g.names) 0
  refine ⟨res.map fun l => if l.length = 0 then ⟨g.names, g.names, fun _ _ => none⟩
    else (((overview l).reindexCols g.names).reindexRows g.names), ws, fun r w f a b c hr hg => ?_⟩
  unfold sigFromRebinned
  simp only [M.exec_bind, M.exec_read_of hr, M.exec_write, hg, h]
  cases res with
  | error e => rfl
  | ok l =>
    simp only [Except.map]
    split <;> rfl

/-! ### outliers -/

/-- The result of `outlier_significance_matrix_from_rebinned_df` is determined by the frame after the replacements. -/
theorem pairResult_congr (N : OutNum) (fmt : ℚ → String) {n n' : ℕ} {a b a' b' : Column} {dropna du dof : Bool}
    (h : applyFlags dropna du dof ⟨n, [a, b]⟩ = applyFlags dropna du dof ⟨n', [a', b']⟩)
    (dict : List (String × List (ℚ × ℚ))) (ci : String) :
    ((outlierFromRebinned N fmt 0 dict ci dropna du dof).exec ⟨[⟨n, [a, b]⟩], []⟩).1 =
      ((outlierFromRebinned N fmt 0 dict ci dropna du dof).exec ⟨[⟨n', [a', b']⟩], []⟩).1 := by
  have key : (hist2dFromRebinned 0 dropna du dof).exec ⟨[⟨n, [a, b]⟩], []⟩ =
      (hist2dFromRebinned 0 dropna du dof).exec ⟨[⟨n', [a', b']⟩], []⟩ := by
    unfold hist2dFromRebinned
    rw [M.exec_bind, M.exec_bind, M.exec_read_of (f := ⟨n, [a, b]⟩) rfl, M.exec_read_of (f := ⟨n', [a', b']⟩) rfl]
    simp [M.exec_bind, h]
  unfold outlierFromRebinned
  rw [M.exec_bind, M.exec_bind, key]

theorem relabel_length {fmt : ℚ → String} {dict : List (String × List (ℚ × ℚ))} {col : Column} {labels l : List Cell}
    (h : relabel fmt dict col labels = .ok l) : l.length = labels.length := by
  unfold relabel at h
  split at h
  · unfold axisLabels at h
    simp only at h
    split at h
    · rename_i h2; cases h; exact h2
    · cases h
  · cases h; rfl

/-- An outlier matrix has at least two rows and columns. -/
theorem pairResult_size {N : OutNum} {fmt : ℚ → String} {data : Frame} {dict : List (String × List (ℚ × ℚ))}
    {ci : String} {dropna du dof : Bool} {a b : Column} {t : OutTab}
    (h : pairResult N fmt data dict ci dropna du dof a b = .ok (some t)) : 2 ≤ t.rows.length ∧ 2 ≤ t.cols.length := by
  obtain ⟨a', b', h1, -⟩ := hist_of_flags dropna du dof ⟨data.nrows, [a, b]⟩ rfl
  have hstart : (hist2dFromRebinned 0 dropna du dof).exec ⟨[⟨data.nrows, [a, b]⟩], []⟩ =
      (.ok (histOfPairs (a'.cells.zip b'.cells)), ⟨[applyFlags dropna du dof ⟨data.nrows, [a, b]⟩], []⟩) := by
    unfold hist2dFromRebinned
    rw [M.exec_bind, M.exec_read_of (f := ⟨data.nrows, [a, b]⟩) rfl]
    simp [M.exec_bind, h1]
  unfold pairResult outlierFromRebinned at h
  rw [M.exec_bind, hstart] at h
  simp only at h
  rw [M.exec_bind, M.exec_read_of (f := applyFlags dropna du dof ⟨data.nrows, [a, b]⟩) rfl] at h
  simp only [h1] at h
  split at h
  · cases h
  · rename_i hf
    simp only [M.exec_bind, M.exec_ofExcept] at h
    cases hr : relabel fmt dict a' (histOfPairs (a'.cells.zip b'.cells)).rows with
    | error e => rw [hr] at h; cases h
    | ok rows =>
      cases hc : relabel fmt dict b' (histOfPairs (a'.cells.zip b'.cells)).cols with
      | error e => rw [hr, hc] at h; cases h
      | ok cols =>
        have e1 := relabel_length hr
        have e2 := relabel_length hc
        rw [hr, hc] at h
        simp only at h
        cases ht : outlierFromHist2d N (histOfPairs (a'.cells.zip b'.cells)).arr ci with
        | error e => rw [ht] at h; cases h
        | ok t' =>
          rw [ht] at h
          simp only at h
          split at h
          · cases h
            simp only
            omega
          · cases h

/-- What the loop of `correlation_report` does with one pair, given the outcome `pr` of its outlier matrix. -/
noncomputable def reportStep (fmt0 : ℚ → String) (fmt2 : EReal → String) (folder : Option String)
    (pr : String → String → Except Err (Option OutTab)) (st : LoopState) (p : String × String) : Except Err LoopState :=
  match pr p.1 p.2 with
  | .error e => .error e
  | .ok none => .error .attribute
  | .ok (some t) =>
    match plotCorrelation fmt0 fmt2 ⟨t.rows.length, t.cols.length, t.v⟩ t.cols t.rows (-5) 5 20 none true false with
    | .error e => .error e
    | .ok fig => .ok ⟨dictSet st.outliers (reportKey p.1 p.2) t,
        (match folder with
          | some d => dictSet st.files (reportKey p.1 p.2) (d ++ "pulls_" ++ reportKey p.1 p.2 ++ ".pdf")
          | none => st.files), st.figures ++ [fig]⟩

theorem reportLoop_exec (N : OutNum) (fmt fmt0 : ℚ → String) (fmt2 : EReal → String) {r : Ref} {data : Frame}
    (hn : data.names.Nodup) (dict : List (String × List (ℚ × ℚ))) (ci : String) (sigThr corrThr : ℝ)
    (folder : Option String) (phik : LTable) (sig : LTab EReal) (g : String → Column)
    (hg : ∀ c ∈ data.cols, g c.name = c) (pairs : List (String × String))
    (hp : ∀ p ∈ pairs, p.1 ∈ data.names ∧ p.2 ∈ data.names) (st : LoopState) (w : World)
    (hr : w.heap[r]? = some data) :
    ((reportLoop N fmt fmt0 fmt2 r dict ci sigThr corrThr folder phik sig pairs st).exec w).1 =
      (pairs.filter fun p => !reportSkip sigThr corrThr (sig.v p.1 p.2) (phik.v p.1 p.2)).foldlM
        (reportStep fmt0 fmt2 folder fun a b => pairResult N fmt data dict ci true true true (g a) (g b)) st := by
  induction pairs generalizing st w with
  | nil => rfl
  | cons p pairs ih =>
    obtain ⟨c0, c1⟩ := p
    have ih := ih fun q hq => hp q (List.mem_cons_of_mem _ hq)
    rw [reportLoop]
    by_cases hs : reportSkip sigThr corrThr (sig.v c0 c1) (phik.v c0 c1) = true
    · rw [if_pos hs, List.filter_cons_of_neg (by simp [hs])]
      exact ih st w hr
    · rw [if_neg hs, List.filter_cons_of_pos (by simp [hs]), List.foldlM_cons]
      obtain ⟨m0, m1⟩ := hp _ List.mem_cons_self
      obtain ⟨a, ha, ea⟩ := List.mem_map.1 m0
      obtain ⟨b, hb, eb⟩ := List.mem_map.1 m1
      simp only at ea eb
      subst ea eb
      simp only [M.exec_bind, M.exec_read_of hr, M.exec_ofExcept, getCol_of_mem hn ha, getCol_of_mem hn hb, M.exec_alloc]
      obtain ⟨res, ws, hloc⟩ := outlierFromRebinned_local N fmt dict ci true true true (f := ⟨data.nrows, [a, b]⟩) rfl
      have hp : pairResult N fmt data dict ci true true true a b = res := by
        unfold pairResult
        rw [hloc 0 ⟨[⟨data.nrows, [a, b]⟩], []⟩ rfl]
      rw [hloc w.heap.length ⟨w.heap ++ [(⟨data.nrows, [a, b]⟩ : Frame)], w.warns⟩ (by simp)]
      have hk : ((w.heap ++ [(⟨data.nrows, [a, b]⟩ : Frame)]).set w.heap.length
          (applyFlags true true true ⟨data.nrows, [a, b]⟩))[r]? = some data := by
        have hlt := (List.getElem?_eq_some_iff.1 hr).1
        rw [List.getElem?_set_ne (by omega), List.getElem?_append_left hlt, hr]
      set step := reportStep fmt0 fmt2 folder fun a b => pairResult N fmt data dict ci true true true (g a) (g b) with hstep
      have e : step st (a.name, b.name) = reportStep fmt0 fmt2 folder (fun _ _ => res) st (a.name, b.name) := by
        rw [hstep]; simp only [reportStep, hg a ha, hg b hb, hp]
      rw [e]
      match res with
      | .error e => rfl
      | .ok none => rfl
      | .ok (some t) =>
        simp only [M.exec_bind, M.exec_ofExcept, reportStep]
        cases plotCorrelation fmt0 fmt2 ⟨t.rows.length, t.cols.length, t.v⟩ t.cols t.rows (-5) 5 20 none true false with
        | error e => rfl
        | ok fig => exact ih _ _ hk

/-! ### the whole report -/

/-- The files listed for the three matrices. -/
def reportFiles (folder : Option String) : List (String × String) :=
  matrixFile folder "phik_matrix" ++ matrixFile folder "global_phik" ++ matrixFile folder "significance_matrix"

/-- The report of a binned frame `g` after the replacements; `sigRes` is the outcome of the significances, `pr` that of
the outlier matrices. -/
noncomputable def reportOf (nm : Numerics) (sched : Option (List ℕ)) (fmt0 : ℚ → String) (fmt2 : EReal → String)
    (gnan : LTable → Except Err (List GVal)) (g : Frame) (sigRes : Except Err (LTab EReal))
    (pr : String → String → Except Err (Option OutTab)) (doOutliers : Bool) (pdf : String)
    (sigThr corrThr : ℝ) (noise storeEach : Bool) : Except Err Report := do
  let folder := if storeEach then some (reportFolder pdf) else none
  let pdf := if storeEach then "" else pdf
  let phik ← phikOfFrame nm sched g noise
  let fig1 ← plotCorrelation fmt0 fmt2 (phik.values.map fvalOfReal) (phik.cols.map .str)
    (phik.rows.map .str) 0 1 20 none true true
  let gl ← globalOrNan gnan phik
  let fig2 ← plotCorrelation fmt0 fmt2 ⟨gl.length, 1, fun i _ => fvalOfG gl[i]⟩ [.str ""]
    (phik.rows.map .str) 0 1 20 none true true
  let sig ← sigRes
  let fig3 ← plotCorrelation fmt0 fmt2 (sig.values.map fun z => some (z.getD 0))
    (sig.cols.map .str) (sig.rows.map .str) (-5) 5 20 none true true
  let st ← if doOutliers then
      ((comb2 g.names).filter fun p => !reportSkip sigThr corrThr (sig.v p.1 p.2) (phik.v p.1 p.2)).foldlM
        (reportStep fmt0 fmt2 folder pr) ⟨[], reportFiles folder, [fig1, fig2, fig3]⟩
    else pure ⟨[], reportFiles folder, [fig1, fig2, fig3]⟩
  let files := if pdf ≠ "" then dictSet st.files "all" pdf else st.files
  pure ⟨phik, gl, sig, st.outliers, files, st.figures⟩

theorem flags_names' (dropna du dof : Bool) (f : Frame) : (applyFlags dropna du dof f).names = f.names :=
  applyFlags_names dropna du dof f

section
variable {F : Type} (nm : Numerics) (sched : Option (List ℕ)) (S : SigNum) (R : ℕ → SimRun F)
    (N : OutNum) (fmt fmt0 : ℚ → String) (fmt2 : EReal → String) (fl : ℚ → ℚ)
    (pf : String → Option (Option ℚ)) (gnan : LTable → Except Err (List GVal))

/-- The report from the binned frame on. -/
theorem report_exec {r : Ref} {w : World} {data : Frame} (hr : w.heap[r]? = some data) (hn : data.names.Nodup)
    (ic : Option (List String)) (bins : Bins) (quantile doOutliers : Bool) (pdf : String)
    (sigThr corrThr : ℝ) (noise storeEach : Bool) (sigMethod ci : String) :
    ∃ icc w1 clean, (dqCheck r (ic.getD (guessIntervalCols data)) true).exec w = (.ok (w.heap.length, icc), w1) ∧
      w1.heap = w.heap ++ [clean] ∧ clean.names.Nodup ∧
      ∀ gcol : Frame → String → Column, (∀ f : Frame, f.names.Nodup → ∀ c ∈ f.cols, gcol f c.name = c) →
      ((correlationReport nm sched S R N fmt fmt0 fmt2 fl pf gnan r ic bins quantile doOutliers pdf sigThr corrThr noise
          storeEach sigMethod ci).exec w).1 =
        match binDataCore fl pf clean icc bins quantile with
        | .error e => .error e
        | .ok (out, dict) =>
          let g := applyFlags true true true out
          reportOf nm sched fmt0 fmt2 gnan g (((sigFromRebinned S R 0 sigMethod true true true).exec ⟨[g], []⟩).1)
            (fun a b => pairResult N fmt g dict ci true true true (gcol g a) (gcol g b))
            doOutliers pdf sigThr corrThr noise storeEach := by
  obtain ⟨icc, w1, clean, ws, h1, h2, -, h4, -⟩ := dq_check hr hn (ic.getD (guessIntervalCols data)) true
  have hcn : clean.names.Nodup := by
    refine hn.sublist ?_
    unfold Frame.names; rw [h4]; exact List.filter_sublist.map _
  refine ⟨icc, w1, clean, h1, h2, hcn, fun gcol hgcol => ?_⟩
  unfold correlationReport
  rw [M.exec_bind, M.exec_read_of hr]
  simp only [M.exec_bind, h1]
  rw [binData_exec fl pf (data := clean) (by rw [h2]; simp)]
  cases hb : binDataCore fl pf clean icc bins quantile with
  | error e => rfl
  | ok v =>
    obtain ⟨out, dict⟩ := v
    have hon : out.names.Nodup := by rw [(binDataCore_names hb).1]; exact hcn
    simp only
    set g := applyFlags true true true out with hg
    have hgn : g.names.Nodup := by rw [hg, applyFlags_names]; exact hon
    have hgg : applyFlags true true true g = g := by rw [hg, applyFlags_idem]
    have hp1 := phikFromRebinned_exec nm sched (r := w1.heap.length) (w := ⟨w1.heap ++ [out], w1.warns⟩) (f := out)
      (by simp) noise true true true
    rw [hp1]
    rw [← hg]
    have hset : (w1.heap ++ [out]).set w1.heap.length g = w1.heap ++ [g] := by simp
    simp only [hset]
    unfold reportOf
    cases hph : phikOfFrame nm sched g noise with
    | error e => rfl
    | ok t =>
      have eb : ∀ {α β : Type} (x : α) (k : α → Except Err β), (Except.ok x >>= k) = k x := fun _ _ => rfl
      simp only [M.exec_ofExcept, eb]
      cases hf1 : plotCorrelation fmt0 fmt2 (Arr2.map fvalOfReal t.values) (t.cols.map .str) (t.rows.map .str) 0 1 20 none true true with
      | error e => rfl
      | ok fig1 =>
        simp only
        have hp2 := phikFromRebinned_exec nm sched (r := w1.heap.length) (w := ⟨w1.heap ++ [g], w1.warns⟩) (f := g)
          (by simp) noise true true true
        rw [hgg, hph] at hp2
        have hset' : (w1.heap ++ [g]).set w1.heap.length g = w1.heap ++ [g] := by simp
        simp only [hset'] at hp2
        simp only [eb, hp2]
        cases globalOrNan gnan t with
        | error e => rfl
        | ok gl =>
          simp only [eb]
          cases plotCorrelation fmt0 fmt2 ⟨gl.length, 1, fun i _ => fvalOfG gl[i]⟩ [.str ""]
            (t.rows.map .str) 0 1 20 none true true with
          | error e => rfl
          | ok fig2 =>
            simp only [eb]
            obtain ⟨res, ws', hsig⟩ := sigFromRebinned_local S R sigMethod g
            rw [hsig w1.heap.length ⟨w1.heap ++ [g], w1.warns⟩ g true true true (by simp) hgg,
              hsig 0 ⟨[g], []⟩ g true true true (by simp) hgg, hset']
            cases res with
            | error e => rfl
            | ok sig =>
              simp only [eb]
              cases plotCorrelation fmt0 fmt2 (Arr2.map (fun z => some (z.getD 0)) sig.values) (sig.cols.map .str)
                (sig.rows.map .str) (-5) 5 20 none true true with
              | error e => rfl
              | ok fig3 =>
                simp only [eb]
                rw [M.exec_read_of (w := ⟨w1.heap ++ [g], _⟩) (f := g) (by simp)]
                simp only
                cases doOutliers with
                | false => rfl
                | true =>
                  simp only [if_true, M.exec_bind]
                  rw [show matrixFile (if storeEach = true then some (reportFolder pdf) else none) "phik_matrix" ++
                    matrixFile (if storeEach = true then some (reportFolder pdf) else none) "global_phik" ++
                    matrixFile (if storeEach = true then some (reportFolder pdf) else none) "significance_matrix" =
                    reportFiles (if storeEach = true then some (reportFolder pdf) else none) from rfl]
                  have hl := reportLoop_exec N fmt fmt0 fmt2 (r := w1.heap.length) hgn dict ci sigThr corrThr
                    (if storeEach = true then some (reportFolder pdf) else none) t sig (gcol g) (hgcol g hgn)
                    (comb2 g.names) (fun p hp => by
                      have := mem_comb2.1 (show (p.1, p.2) ∈ comb2 g.names from hp)
                      exact ⟨this.subset (by simp), this.subset (by simp)⟩)
                    ⟨[], reportFiles (if storeEach = true then some (reportFolder pdf) else none), [fig1, fig2, fig3]⟩
                    ⟨w1.heap ++ [g], w1.warns ++ ws'⟩ (by simp)
                  rw [← hl]
                  rcases (reportLoop N fmt fmt0 fmt2 w1.heap.length dict ci sigThr corrThr
                    (if storeEach = true then some (reportFolder pdf) else none) t sig (comb2 g.names)
                    ⟨[], reportFiles (if storeEach = true then some (reportFolder pdf) else none), [fig1, fig2, fig3]⟩).exec
                    ⟨w1.heap ++ [g], w1.warns ++ ws'⟩ with ⟨res, w'⟩
                  cases res <;> rfl

end

end Phik
