import Verif.Props.MatrixPipeline
import Verif.Props.SigMatrix
import Verif.Model.Outliers
import Verif.Model.Report

/-! # Property C11: no public function changes a data frame of the caller -/

namespace Phik
namespace M

theorem Has.hist2dFromRebinned {H : List Frame} {r : Ref} (hr : H.length ≤ r) (dropna du dof : Bool) :
    Tr (Has H) (Phik.hist2dFromRebinned r dropna du dof) (fun _ w => Has H w) (Has H) := by
  refine Tr.bind (Has.read r) fun data => ?_
  simp only
  split
  · exact Tr.bind (Q := fun _ _ => False) (Tr.throw fun _ h => h) fun _ _ h => h.elim
  · refine Tr.bind (Has.write hr _) fun _ => ?_
    split
    · exact Tr.pure fun _ h => h
    · exact Tr.throw fun _ h => h

theorem Has.outlierFromRebinned {H : List Frame} (N : OutNum) (fmt : ℚ → String) {r : Ref}
    (hr : H.length ≤ r) (dict : List (String × List (ℚ × ℚ))) (ci : String) (dropna du dof : Bool) :
    Tr (Has H) (Phik.outlierFromRebinned N fmt r dict ci dropna du dof) (fun _ w => Has H w) (Has H) := by
  refine Tr.bind (Has.hist2dFromRebinned hr _ _ _) fun h => Tr.bind (Has.read r) fun data => ?_
  split
  · split
    · exact Tr.bind (Has.warn _) fun _ => Tr.pure fun _ h => h
    · refine Tr.bind (Has.ofExcept _) fun rows => Tr.bind (Has.ofExcept _) fun cols =>
        Tr.bind (Has.ofExcept _) fun t => ?_
      split
      · exact Tr.pure fun _ h => h
      · exact Tr.throw fun _ h => h
  · exact Tr.throw fun _ h => h

theorem Has.outlierLoop {H : List Frame} (N : OutNum) (fmt : ℚ → String) (r : Ref)
    (dict : List (String × List (ℚ × ℚ))) (ci : String) (dropna du dof : Bool)
    (pairs : List (String × String)) :
    Tr (Has H) (Phik.outlierLoop N fmt r dict ci dropna du dof pairs) (fun _ w => Has H w) (Has H) := by
  induction pairs with
  | nil => exact Tr.pure fun _ h => h
  | cons co rest ih =>
    obtain ⟨c0, c1⟩ := co
    rw [Phik.outlierLoop]
    refine Tr.bind (Has.read r) fun data => Tr.bind (Has.ofExcept _) fun a =>
      Tr.bind (Has.ofExcept _) fun b => ?_
    simp only
    split
    · exact Tr.bind (Q := fun _ _ => False) (Tr.throw fun _ h => h) fun _ _ h => h.elim
    · refine Tr.bind (Has.alloc _) fun s => Tr.of_and fun hs => ?_
      exact Tr.bind (Has.outlierFromRebinned N fmt hs _ _ _ _ _) fun t =>
        Tr.bind ih fun l => Tr.pure fun _ h => h

theorem Has.reportLoop {H : List Frame} (N : OutNum) (fmt fmt0 : ℚ → String) (fmt2 : EReal → String) (r : Ref)
    (dict : List (String × List (ℚ × ℚ))) (ci : String) (sigThr corrThr : ℝ) (folder : Option String)
    (phik : LTable) (sig : LTab EReal) (pairs : List (String × String)) (st : LoopState) :
    Tr (Has H) (Phik.reportLoop N fmt fmt0 fmt2 r dict ci sigThr corrThr folder phik sig pairs st)
      (fun _ w => Has H w) (Has H) := by
  induction pairs generalizing st with
  | nil => exact Tr.pure fun _ h => h
  | cons co rest ih =>
    obtain ⟨c0, c1⟩ := co
    rw [Phik.reportLoop]
    split
    · exact ih _
    · refine Tr.bind (Has.read r) fun data => Tr.bind (Has.ofExcept _) fun a =>
        Tr.bind (Has.ofExcept _) fun b => Tr.bind (Has.alloc _) fun s => Tr.of_and fun hs => ?_
      refine Tr.bind (Has.outlierFromRebinned N fmt hs _ _ _ _ _) fun z => ?_
      cases z with
      | none => exact Tr.throw fun _ h => h
      | some t => exact Tr.bind (Has.ofExcept _) fun fig => ih _

end M

namespace Props
open M

/-- `outlier_significance_matrices_from_rebinned_df` works on copies, so that here even the binned frame
it is given stays as it is. -/
theorem has_outlier_matrices_from_rebinned {H : List Frame} (N : OutNum) (fmt : ℚ → String) (r : Ref)
    (dict : List (String × List (ℚ × ℚ))) (ci : String) (co : List (String × String)) (dropna du dof : Bool) :
    Tr (Has H) (outlierMatricesFromRebinned N fmt r dict ci co dropna du dof) (fun _ w => Has H w) (Has H) :=
  Tr.bind (Has.read r) fun _ => Has.outlierLoop N fmt r dict ci dropna du dof _

theorem has_outlier_matrix {H : List Frame} (N : OutNum) (fmt : ℚ → String) (fl : ℚ → ℚ)
    (pf : String → Option (Option ℚ)) (r : Ref) (ic : Option (List String)) (ci : String)
    (bins : Bins) (quantile dropna du dof : Bool) :
    Tr (Has H) (outlierMatrix N fmt fl pf r ic ci bins quantile dropna du dof) (fun _ w => Has H w)
      (Has H) := by
  refine Tr.bind (Has.read r) fun df => ?_
  simp only
  split
  · exact Tr.bind (Q := fun _ _ => False) (Tr.throw fun _ h => h) fun _ _ h => h.elim
  refine Tr.bind (Has.dqCheck r _ dropna) ?_
  rintro ⟨clean, icc⟩
  refine Tr.of_and fun _ => Tr.bind (Has.binData fl pf clean icc bins quantile) ?_
  rintro ⟨binned, dict⟩
  exact Tr.of_and fun hc => Tr.bind (Has.outlierFromRebinned N fmt hc _ _ _ _ _) fun t =>
    Tr.pure fun _ h => h

theorem has_outlier_matrices {H : List Frame} (N : OutNum) (fmt : ℚ → String) (fl : ℚ → ℚ)
    (pf : String → Option (Option ℚ)) (r : Ref) (ic : Option (List String)) (ci : String)
    (bins : Bins) (quantile : Bool) (co : List (String × String)) (dropna du dof : Bool) :
    Tr (Has H) (outlierMatrices N fmt fl pf r ic ci bins quantile co dropna du dof) (fun _ w => Has H w)
      (Has H) := by
  refine Tr.bind (Has.read r) fun df => Tr.bind (Has.dqCheck r _ dropna) ?_
  rintro ⟨clean, icc⟩
  refine Tr.of_and fun _ => Tr.bind (Has.binData fl pf clean icc bins quantile) ?_
  rintro ⟨binned, dict⟩
  exact Tr.of_and fun hc => Tr.bind (has_outlier_matrices_from_rebinned N fmt binned _ _ _ _ _ _) fun t =>
    Tr.pure fun _ h => h

/-- **C11 for `outlier_significance_matrix`.** -/
theorem outlier_matrix_keeps_frames (N : OutNum) (fmt : ℚ → String) (fl : ℚ → ℚ)
    (pf : String → Option (Option ℚ)) (r : Ref) (w : World) (ic : Option (List String)) (ci : String)
    (bins : Bins) (quantile dropna du dof : Bool) :
    w.heap <+: ((outlierMatrix N fmt fl pf r ic ci bins quantile dropna du dof).exec w).2.heap :=
  (has_outlier_matrix N fmt fl pf r ic ci bins quantile dropna du dof).final (fun _ _ h => h) rfl

/-- **C11 for `outlier_significance_matrices`.** -/
theorem outlier_matrices_keeps_frames (N : OutNum) (fmt : ℚ → String) (fl : ℚ → ℚ)
    (pf : String → Option (Option ℚ)) (r : Ref) (w : World) (ic : Option (List String)) (ci : String)
    (bins : Bins) (quantile : Bool) (co : List (String × String)) (dropna du dof : Bool) :
    w.heap <+: ((outlierMatrices N fmt fl pf r ic ci bins quantile co dropna du dof).exec w).2.heap :=
  (has_outlier_matrices N fmt fl pf r ic ci bins quantile co dropna du dof).final (fun _ _ h => h) rfl

/-- **C11 for `outlier_significance_matrices_from_rebinned_df`**: even its own argument is kept. -/
theorem outlier_matrices_from_rebinned_keeps_frames (N : OutNum) (fmt : ℚ → String) (r : Ref) (w : World)
    (dict : List (String × List (ℚ × ℚ))) (ci : String) (co : List (String × String)) (dropna du dof : Bool) :
    w.heap <+: ((outlierMatricesFromRebinned N fmt r dict ci co dropna du dof).exec w).2.heap :=
  (has_outlier_matrices_from_rebinned N fmt r dict ci co dropna du dof).final (fun _ _ h => h) rfl

theorem has_correlation_report {F : Type} {H : List Frame} (nm : Numerics) (sched : Option (List ℕ)) (S : SigNum)
    (R : ℕ → SimRun F) (N : OutNum) (fmt fmt0 : ℚ → String) (fmt2 : EReal → String) (fl : ℚ → ℚ)
    (pf : String → Option (Option ℚ)) (gnan : LTable → Except Err (List GVal)) (r : Ref)
    (ic : Option (List String)) (bins : Bins) (quantile doOutliers : Bool) (pdf : String)
    (sigThr corrThr : ℝ) (noise storeEach : Bool) (sigMethod ci : String) :
    Tr (Has H) (correlationReport nm sched S R N fmt fmt0 fmt2 fl pf gnan r ic bins quantile doOutliers pdf sigThr
      corrThr noise storeEach sigMethod ci) (fun _ w => Has H w) (Has H) := by
  refine Tr.bind (Has.read r) fun df => Tr.bind (Has.dqCheck r _ true) ?_
  rintro ⟨clean, icc⟩
  refine Tr.of_and fun _ => Tr.bind (Has.binData fl pf clean icc bins quantile) ?_
  rintro ⟨binned, dict⟩
  refine Tr.of_and fun hc => Tr.bind (Has.phikFromRebinned nm sched hc _ _ _ _) fun phik =>
    Tr.bind (Has.ofExcept _) fun fig1 => Tr.bind (Has.phikFromRebinned nm sched hc _ _ _ _) fun again =>
    Tr.bind (Has.ofExcept _) fun g => Tr.bind (Has.ofExcept _) fun fig2 =>
    Tr.bind (Has.sigFromRebinned S R sigMethod hc _ _ _) fun sig => Tr.bind (Has.ofExcept _) fun fig3 =>
    Tr.bind (Has.read binned) fun data => ?_
  simp only
  split
  · exact Tr.bind (Has.reportLoop N fmt fmt0 fmt2 binned dict ci sigThr corrThr _ _ _ _ _) fun st =>
      Tr.pure fun _ h => h
  · exact Tr.pure fun _ h => h

/-- **C11 for `correlation_report`.** -/
theorem correlation_report_keeps_frames {F : Type} (nm : Numerics) (sched : Option (List ℕ)) (S : SigNum)
    (R : ℕ → SimRun F) (N : OutNum) (fmt fmt0 : ℚ → String) (fmt2 : EReal → String) (fl : ℚ → ℚ)
    (pf : String → Option (Option ℚ)) (gnan : LTable → Except Err (List GVal)) (r : Ref) (w : World)
    (ic : Option (List String)) (bins : Bins) (quantile doOutliers : Bool) (pdf : String)
    (sigThr corrThr : ℝ) (noise storeEach : Bool) (sigMethod ci : String) :
    w.heap <+: ((correlationReport nm sched S R N fmt fmt0 fmt2 fl pf gnan r ic bins quantile doOutliers pdf sigThr
      corrThr noise storeEach sigMethod ci).exec w).2.heap :=
  (has_correlation_report nm sched S R N fmt fmt0 fmt2 fl pf gnan r ic bins quantile doOutliers pdf sigThr corrThr
    noise storeEach sigMethod ci).final (fun _ _ h => h) rfl

/-! ### sequences of calls -/

/-- One call of a public function on a data frame, with all its arguments. -/
inductive Call (F : Type)
  | binData (fl : ℚ → ℚ) (pf : String → Option (Option ℚ)) (r : Ref) (cols : List String) (bins : Bins)
      (quantile : Bool)
  | hist2d (fl : ℚ → ℚ) (pf : String → Option (Option ℚ)) (r : Ref) (ic : Option (List String)) (bins : Bins)
      (quantile dropna du dof : Bool)
  | phikMatrix (nm : Numerics) (sched : Option (List ℕ)) (fl : ℚ → ℚ) (pf : String → Option (Option ℚ))
      (r : Ref) (ic : Option (List String)) (bins : Bins) (quantile noise dropna du dof : Bool)
  | globalPhik (nm : Numerics) (sched : Option (List ℕ)) (fl : ℚ → ℚ) (pf : String → Option (Option ℚ))
      (r : Ref) (ic : Option (List String)) (bins : Bins) (quantile noise dropna du dof : Bool)
  | significanceMatrix (S : SigNum) (R : ℕ → SimRun F) (fl : ℚ → ℚ) (pf : String → Option (Option ℚ))
      (r : Ref) (ic : Option (List String)) (bins : Bins) (method : String) (dropna du dof : Bool)
  | outlierMatrix (N : OutNum) (fmt : ℚ → String) (fl : ℚ → ℚ) (pf : String → Option (Option ℚ)) (r : Ref)
      (ic : Option (List String)) (ci : String) (bins : Bins) (quantile dropna du dof : Bool)
  | outlierMatrices (N : OutNum) (fmt : ℚ → String) (fl : ℚ → ℚ) (pf : String → Option (Option ℚ)) (r : Ref)
      (ic : Option (List String)) (ci : String) (bins : Bins) (quantile : Bool) (co : List (String × String))
      (dropna du dof : Bool)
  | report (nm : Numerics) (sched : Option (List ℕ)) (S : SigNum) (R : ℕ → SimRun F) (N : OutNum)
      (fmt fmt0 : ℚ → String) (fmt2 : EReal → String) (fl : ℚ → ℚ) (pf : String → Option (Option ℚ))
      (gnan : LTable → Except Err (List GVal)) (r : Ref) (ic : Option (List String)) (bins : Bins)
      (quantile doOutliers : Bool) (pdf : String) (sigThr corrThr : ℝ) (noise storeEach : Bool) (sigMethod ci : String)

/-- The state after a call, whether it returned or raised. -/
noncomputable def Call.after {F : Type} : Call F → World → World
  | .binData fl pf r cols bins q, w => ((Phik.binData fl pf r cols bins q).exec w).2
  | .hist2d fl pf r ic bins q a b c, w => ((Phik.hist2d fl pf r ic bins q a b c).exec w).2
  | .phikMatrix nm s fl pf r ic bins q n a b c, w =>
    ((Phik.phikMatrix nm s fl pf r ic bins q n a b c).exec w).2
  | .globalPhik nm s fl pf r ic bins q n a b c, w =>
    ((Phik.globalPhikArray nm s fl pf r ic bins q n a b c).exec w).2
  | .significanceMatrix S R fl pf r ic bins m a b c, w =>
    ((Phik.significanceMatrix S R fl pf r ic bins m a b c).exec w).2
  | .outlierMatrix N fmt fl pf r ic ci bins q a b c, w =>
    ((Phik.outlierMatrix N fmt fl pf r ic ci bins q a b c).exec w).2
  | .outlierMatrices N fmt fl pf r ic ci bins q co a b c, w =>
    ((Phik.outlierMatrices N fmt fl pf r ic ci bins q co a b c).exec w).2
  | .report nm s S R N fmt fmt0 fmt2 fl pf gnan r ic bins q o pdf st ct n e m ci, w =>
    ((Phik.correlationReport nm s S R N fmt fmt0 fmt2 fl pf gnan r ic bins q o pdf st ct n e m ci).exec w).2

/-- **C11.** After any sequence of calls, on any frames and with any arguments, whichever of them raised,
every frame that existed at the start still has the same rows, columns and cells. -/
theorem calls_keep_frames {F : Type} (calls : List (Call F)) (w : World) (r : Ref) (f : Frame)
    (hf : w.heap[r]? = some f) : (calls.foldl (fun w c => c.after w) w).heap[r]? = some f := by
  have one : ∀ (c : Call F) (w : World), w.heap <+: (c.after w).heap := by
    intro c w
    cases c with
    | binData fl pf r cols bins q => exact bin_data_keeps_frames fl pf r w cols bins q
    | hist2d fl pf r ic bins q a b c => exact hist2d_keeps_frames fl pf r w ic bins q a b c
    | phikMatrix nm s fl pf r ic bins q n a b c =>
      exact phik_matrix_keeps_frames nm s fl pf r w ic bins q n a b c
    | globalPhik nm s fl pf r ic bins q n a b c =>
      exact global_phik_array_keeps_frames nm s fl pf r w ic bins q n a b c
    | significanceMatrix S R fl pf r ic bins m a b c =>
      exact significance_matrix_keeps_frames S R m fl pf r w ic bins a b c
    | outlierMatrix N fmt fl pf r ic ci bins q a b c =>
      exact outlier_matrix_keeps_frames N fmt fl pf r w ic ci bins q a b c
    | outlierMatrices N fmt fl pf r ic ci bins q co a b c =>
      exact outlier_matrices_keeps_frames N fmt fl pf r w ic ci bins q co a b c
    | report nm s S R N fmt fmt0 fmt2 fl pf gnan r ic bins q o pdf st ct n e m ci =>
      exact correlation_report_keeps_frames nm s S R N fmt fmt0 fmt2 fl pf gnan r w ic bins q o pdf st ct n e m ci
  have all : w.heap <+: (calls.foldl (fun w c => c.after w) w).heap := by
    induction calls generalizing w with
    | nil => exact List.prefix_rfl
    | cons c cs ih =>
      refine (one c w).trans (ih (c.after w) ?_)
      obtain ⟨t, ht⟩ := one c w
      rw [← ht, List.getElem?_append_left (List.getElem?_eq_some_iff.1 hf).1, hf]
  obtain ⟨t, ht⟩ := all
  rw [← ht, List.getElem?_append_left (List.getElem?_eq_some_iff.1 hf).1, hf]

/-- Calls that return and calls that raise, on a frame with a missing value; in contrast
`hist2d_from_rebinned_df`, which is not in the list, does change its argument. -/
example (fl : ℚ → ℚ) (pf : String → Option (Option ℚ)) (N : OutNum) (fmt : ℚ → String) :
    let f : Frame := ⟨2, [⟨"a", true, [.num 1, .nan]⟩, ⟨"b", false, [.str "u", .str "UF"]⟩]⟩
    let w : World := ⟨[f], []⟩
    (([.hist2d fl pf 0 none (.one (.num 2)) false true true true,
      .outlierMatrix N fmt fl pf 0 (some ["absent"]) "poisson" (.one (.num 2)) false true true true,
      .outlierMatrices N fmt fl pf 0 none "no such method" (.one (.num 2)) false [] true true true] :
      List (Call Unit)).foldl (fun w c => c.after w) w).heap[0]? = some f ∧
    ((hist2dFromRebinned 0 false true true).exec w).2.heap[0]? ≠ some f := by
  intro f w
  refine ⟨calls_keep_frames _ w 0 f rfl, ?_⟩
  rw [show ((hist2dFromRebinned 0 false true true).exec w).2.heap[0]?
    = some (applyFlags false true true f) from rfl]
  decide +kernel

end Props
end Phik
