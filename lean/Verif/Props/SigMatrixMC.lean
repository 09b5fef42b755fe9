import Verif.Props.SigReturns
import Verif.Props.SigArrays

/-! # Property C87 for the Monte-Carlo method with every sampler -/

namespace Phik.Props

open Spec

variable {F : Type}

open scoped Classical in
/-- **C87 (`significance_matrix`, Monte-Carlo method).** With every sampler, the hypergeometric one for up to 46340 records included, the call returns for every
proper frame whose interval columns hold numbers and missing values only, and entries are NaN only for columns with too few values in common records. -/
theorem significance_matrix_mc_returns (S : SigNum) {R : ℕ → SimRun F}
    (fl : ℚ → ℚ) (pf : String → Option (Option ℚ)) {r : Ref} {w : World} {data : Frame}
    (hr : w.heap[r]? = some data) (hwf : data.WF) (ic : Option (List String)) (bins : Bins) (dropna du dof : Bool)
    (hR : ∀ k (n : ℝ), 0 < n → n ≤ data.nrows → GoodRun (R k) n) (hsim : ∀ k, 0 < (R k).nsim)
    (hnum : ∀ c ∈ data.cols, c.name ∈ ic.getD (guessIntervalCols data) → ∀ s, Cell.str s ∉ c.cells)
    (hbins : ∀ n ∈ ic.getD (guessIntervalCols data), ∃ s, EntryFor bins n s ∧ GoodEntry s) :
    ∃ t w', (significanceMatrix S R fl pf r ic bins "MC" dropna du dof).exec w = (.ok t, w') ∧
      t.rows = (data.cols.filter (fun c => decide (Kept (ic.getD (guessIntervalCols data)) dropna c))).map (·.name) := by
  obtain ⟨icc, w1, clean, ws, h1, h2, hrows, g4, -⟩ := dq_check hr hwf.nodup (ic.getD (guessIntervalCols data)) dropna
  have hclean : w1.heap[w.heap.length]? = some clean := by rw [h2]; simp
  have hexec : (significanceMatrix S R fl pf r ic bins "MC" dropna du dof).exec w =
      match (binData fl pf w.heap.length icc bins false).exec w1 with
      | (.error e, w2) => (.error e, w2)
      | (.ok (r2, _), w2) => (sigFromRebinned S R r2 "MC" dropna du dof).exec w2 := by
    unfold significanceMatrix
    rw [M.exec_bind, M.exec_read_of hr]
    simp only [M.exec_bind, h1]
    rcases (binData fl pf w.heap.length icc bins false).exec w1 with ⟨res, w2⟩
    cases res <;> rfl
  obtain ⟨-, ⟨out, dict⟩, hc⟩ := prepared_bins fl pf hr hwf.nodup _ icc bins false dropna h1 hclean hnum hbins
  have hcw : clean.WF := by
    refine ⟨fun c hcm => ?_, ?_⟩
    · rw [hrows]; rw [g4] at hcm; exact hwf.len c (List.mem_filter.1 hcm).1
    · have hsub : clean.names.Sublist data.names := by
        unfold Frame.names; rw [g4]; exact List.filter_sublist.map _
      exact hwf.nodup.sublist hsub
  have how := binDataCore_wf hcw hc
  obtain ⟨hnames, hnr⟩ := binDataCore_names hc
  rw [hexec, binData_exec fl pf hclean, hc]
  have hout : (w1.heap ++ [out])[w1.heap.length]? = some out := by simp
  obtain ⟨t, w', e1, e2⟩ := significance_mc_returns S (R := R) (w := ⟨w1.heap ++ [out], w1.warns⟩) hout how.nodup dropna du dof
    (fun k n hn hle => hR k n hn (by rw [hnr, hrows] at hle; exact hle)) hsim how.len
  refine ⟨t, w', e1, ?_⟩
  rw [e2.rows, hnames]; unfold Frame.names; rw [g4]

/-- Non-vacuity: the hypergeometric sampler with exact arithmetic. -/
example (R : ℕ → SimRun ℚ) (hd : ∀ k i, GoodDraws ((R k).draws i)) (hm : ∀ k, (R k).method = "hypergeometric") (hl : ∀ k, (R k).lambda = "pearson")
    (hn : ∀ k, (R k).nsim = 1000) (hs : ∀ k, (R k).sched = none) (he : ∀ k, (R k).env = exactEnv)
    (fl : ℚ → ℚ) (pf : String → Option (Option ℚ)) :
    ∃ t w', (significanceMatrix trueSig R fl pf 0 none (.one (.num 10)) "MC" true true true).exec ⟨[exFrame], []⟩ = (.ok t, w') := by
  obtain ⟨t, w', h, -⟩ := significance_matrix_mc_returns trueSig (R := R) fl pf (r := 0) (w := ⟨[exFrame], []⟩) rfl
    ⟨by simp [exFrame], by simp [exFrame, Frame.names]⟩ none (.one (.num 10)) true true true
    (fun k n h1 h2 => ⟨hd k, .inr ⟨hm k, by
      rw [he k]
      have h2 : n ≤ 3 := by norm_num [exFrame] at h2; linarith
      exact ⟨rfl, exactEnv_round, exactEnv_laws, by linarith, by norm_num [exactEnv]; linarith, le_rfl⟩⟩, by rw [hl k]; simp, fun o ho => by rw [hs k] at ho; cases ho⟩) (fun k => by rw [hn k]; norm_num)
    (by simp [exFrame, guessIntervalCols]) fun n _ => ⟨_, .one _ _, .inr ⟨10, rfl, by norm_num⟩⟩
  exact ⟨t, w', h⟩

end Phik.Props
