import Verif.Props.ReportNan
import Verif.Props.OutlierTable

/-! # Property C63: reports that are returned -/

namespace Phik

open Spec Props Out

namespace Props

section
variable {F : Type} (nm : Numerics) (sched : Option (List ℕ)) (S : SigNum) (R : ℕ → SimRun F)
    (N : OutNum) (fmt fmt0 : ℚ → String) (fmt2 : EReal → String) (fl : ℚ → ℚ)
    (pf : String → Option (Option ℚ)) (gnan : LTable → Except Err (List GVal))

/-- **C63.** When the single functions return, there is a column that passes the quality check and no outlier matrix of a
selected pair is NaN, then the report is returned. -/
theorem report_returns {r : Ref} {w : World} {data : Frame} (hr : w.heap[r]? = some data) (hn : data.names.Nodup)
    (ic : Option (List String)) (bins : Bins) (quantile doOutliers : Bool) (pdf : String)
    (sigThr corrThr : ℝ) (noise storeEach : Bool) (sigMethod ci : String) {t : LTable} {s : LTab EReal} {gl : List GVal × List String}
    (ht : ((phikMatrix nm sched fl pf r ic bins quantile noise true true true).exec w).1 = .ok t)
    (hkept : ∃ c ∈ data.cols, Kept (ic.getD (guessIntervalCols data)) true c)
    (hg : ((globalPhikArray nm sched fl pf r ic bins quantile noise true true true).exec w).1 = .ok gl)
    (hs : ((significancesOf S R fl pf r ic bins quantile sigMethod).exec w).1 = .ok s)
    (hout : doOutliers = true → ∀ a b, [a, b].Sublist t.rows → Selected sigThr corrThr (s.v a b) (t.v a b) →
      ∃ o dict, ((outlierMatrices N fmt fl pf r ic ci bins quantile [(a, b)] true true true).exec w).1 =
        .ok ([(a ++ ":" ++ b, some o)], dict)) :
    ∃ rep, ((correlationReport nm sched S R N fmt fmt0 fmt2 fl pf gnan r ic bins quantile doOutliers pdf sigThr corrThr
      noise storeEach sigMethod ci).exec w).1 = .ok rep := by
  rcases report_parts nm sched S R N fmt fmt0 fmt2 fl pf gnan hr hn ic bins quantile doOutliers pdf sigThr corrThr noise
    storeEach sigMethod ci with ⟨e, -, he⟩ | ⟨g, dict, pr, hgn', hnames, p1, p2, p3, p4, p5, -⟩
  · rw [ht] at he; cases he
  cases hrep : ((correlationReport nm sched S R N fmt fmt0 fmt2 fl pf gnan r ic bins quantile doOutliers pdf sigThr corrThr
      noise storeEach sigMethod ci).exec w).1 with
  | ok rep => exact ⟨rep, rfl⟩
  | error e =>
    exfalso
    rw [p5] at hrep
    have hng : globalOf t ≠ .error .nonfinite := by
      intro h
      rw [global_phik_array_result, ht] at hg
      simp only [h] at hg
      cases hg
    rcases reportOf_error p2 (fun t' gl h h' => by
      rw [p1, h] at ht; cases ht; exact absurd h' hng) p4 hrep with h | ⟨t', ht', h⟩
    · rw [p1, h] at ht; cases ht
    · rw [p1, ht'] at ht
      obtain ⟨l1, l2⟩ := phikOfFrame_labels ht'
      cases ht
      rcases h with ⟨h, -⟩ | h | h | ⟨hd, s', hs', a, b, hab, hsel, h⟩
      · obtain ⟨c, hc, hk⟩ := hkept
        have : c.name ∈ g.names := by
          rw [hnames]
          exact List.mem_map_of_mem (List.mem_filter.2 ⟨hc, by simpa using hk⟩)
        rw [h] at this; cases this
      · rw [global_phik_array_result, p1, ht'] at hg
        unfold globalOrNan at h
        split at h
        · rename_i hx; exact hng hx
        · simp only [h] at hg; cases hg
      · rw [hs] at h; cases h
      · rw [hs] at hs'
        cases hs'
        obtain ⟨o, dict', ho⟩ := hout hd a b (by rw [l1]; exact hab) hsel
        have := p3 a b hab
        simp only at this
        rw [this] at ho
        rcases h with h | ⟨h, -⟩
        · rw [h] at ho; cases ho
        · rw [h] at ho; cases ho

end

/-! ### an example -/

/-- Nine records of two independent columns with three categories. -/
def pairFrame : Frame := ⟨9, [
  ⟨"b", true, [.num 0, .num 0, .num 0, .num 1, .num 1, .num 1, .num 2, .num 2, .num 2]⟩,
  ⟨"c", true, [.num 0, .num 1, .num 2, .num 0, .num 1, .num 2, .num 0, .num 1, .num 2]⟩]⟩

open scoped Classical in
/-- The two columns, treated as categories, have a report with an outlier matrix of the pair, when the thresholds are 0. -/
example {F : Type} {nm : Numerics} (hg : GoodNumerics nm) (R : SimRun F) (hR : R.lambda = "pearson") (fmt fmt0 : ℚ → String)
    (fmt2 : EReal → String) (fl : ℚ → ℚ) (pf : String → Option (Option ℚ)) (gnan : LTable → Except Err (List GVal)) :
    ∃ rep, ((correlationReport nm none ⟨fun _ _ => some (1 / 2), fun _ _ _ => none, fun _ _ => none, fun _ _ _ => none,
        normPpf, fun _ => .ok 0⟩ (fun _ => R) trueOut fmt fmt0 fmt2 fl pf gnan 0 (some []) (.one (.num 10)) false true
      "report.pdf" 0 0 true false "asymptotic" "poisson").exec ⟨[pairFrame], []⟩).1 = .ok rep ∧ rep.outliers.length = 1 := by
  set S : SigNum := ⟨fun _ _ => some (1 / 2), fun _ _ _ => none, fun _ _ => none, fun _ _ _ => none,
        normPpf, fun _ => .ok 0⟩ with hS
  have hn : pairFrame.names.Nodup := by decide
  have hkept : ∀ c ∈ pairFrame.cols, Kept [] true c := by
    intro c hc
    unfold Kept
    rw [← nunique_eq]
    revert c
    decide
  have hkf : pairFrame.cols.filter (fun c => decide (Kept [] true c)) = pairFrame.cols :=
    List.filter_eq_self.2 fun c hc => by simpa using hkept c hc
  have hr : (⟨[pairFrame], []⟩ : World).heap[0]? = some pairFrame := rfl
  obtain ⟨icc, w1, clean, ws, g1, g2, g3, g4, g5, -⟩ := dq_check hr hn ((some ([] : List String)).getD (guessIntervalCols pairFrame)) true
  obtain rfl : icc = [] := by rw [g5]; rfl
  obtain rfl : clean = pairFrame := by
    cases clean
    simp only at g3 g4
    rw [g3, g4]
    exact congrArg (Frame.mk 9) hkf
  have hb0 : binDataCore fl pf pairFrame [] (.one (.num 10)) false = .ok (pairFrame, []) := rfl
  have hfl : applyFlags true true true pairFrame = pairFrame := by decide
  -- phik
  obtain ⟨icc', w1', clean', k1, k2, k3⟩ := phikMatrix_exec nm none fl pf hr hn (some []) (.one (.num 10)) false true true true true
  rw [g1] at k1
  cases k1
  rw [g2] at k2
  obtain ⟨-, h⟩ := List.append_inj' k2 rfl
  cases h
  rw [hb0] at k3
  obtain ⟨t, ht⟩ := phikOfFrame_total hg hn (sched := none) (fun _ h => by cases h) true true true true
  have hsp := phikOfFrame_spec hn (sched := none) (fun _ h => by cases h) ht
  simp only [ht] at k3
  have hrows : t.rows = ["b", "c"] := hsp.rows
  have hbc : t.v "b" "c" = some 0 := by
    have hbc := matrix_entry hg.mvn hsp hn
      (a := ⟨"b", true, [.num 0, .num 0, .num 0, .num 1, .num 1, .num 1, .num 2, .num 2, .num 2]⟩)
      (b := ⟨"c", true, [.num 0, .num 1, .num 2, .num 0, .num 1, .num 2, .num 0, .num 1, .num 2]⟩)
      (by simp [pairFrame]) (by simp [pairFrame]) (by simp)
    have hnum := varied_numbers hg.mvn hn (by decide) hsp
    have hne := hnum "b" (by rw [hrows]; simp) "c" (by rw [hrows]; simp)
    obtain ⟨x, hx⟩ := Option.ne_none_iff_exists'.1 hne
    simp only at hbc
    rw [hx] at hbc ⊢
    have := isPhik_independent hg hbc (by
      rintro a b ⟨b', hb'⟩ ⟨a', ha'⟩
      have key : ∀ p ∈ records true true true
          ⟨"b", true, [.num 0, .num 0, .num 0, .num 1, .num 1, .num 1, .num 2, .num 2, .num 2]⟩
          ⟨"c", true, [.num 0, .num 1, .num 2, .num 0, .num 1, .num 2, .num 0, .num 1, .num 2]⟩,
          (p.1 = some (.num 0) ∨ p.1 = some (.num 1) ∨ p.1 = some (.num 2)) ∧
          (p.2 = some (.num 0) ∨ p.2 = some (.num 1) ∨ p.2 = some (.num 2)) := by decide
      have k1 := (key _ hb').1
      have k2 := (key _ ha').2
      simp only [Option.some.injEq] at k1 k2
      rcases k1 with rfl | rfl | rfl <;> rcases k2 with rfl | rfl | rfl <;> decide)
    rw [this]
  -- global correlations
  have hglob : ∃ gl, globalOf t = .ok gl := by
    have hbb := hsp.diag "b" (by decide)
    have hcc := hsp.diag "c" (by decide)
    have hcb : t.v "c" "b" = some 0 := (hsp.symm "c" (by decide) "b" (by decide)).trans hbc
    have hall : AllNumbers t := varied_numbers hg.mvn hn (by decide) hsp
    have hdet : (tableMatrix t).det ≠ 0 := by
      clear hsp k3 ht hall
      obtain ⟨rows, cols, v⟩ := t
      simp only at hrows hbc hbb hcc hcb
      subst hrows
      have hM : (tableMatrix ⟨["b", "c"], cols, v⟩ : Matrix (Fin 2) (Fin 2) ℝ) = !![1, 0; 0, 1] := by
        ext i j
        fin_cases i <;> fin_cases j <;> simp [tableMatrix, hbb, hcc, hbc, hcb]
      change (tableMatrix ⟨["b", "c"], cols, v⟩ : Matrix (Fin 2) (Fin 2) ℝ).det ≠ 0
      rw [hM, Matrix.det_fin_two]
      simp
    exact ⟨_, globalOf_eq hall hdet⟩
  obtain ⟨gl, hgl⟩ := hglob
  have hgarr : ((globalPhikArray nm none fl pf 0 (some []) (.one (.num 10)) false true true true true).exec
      ⟨[pairFrame], []⟩).1 = .ok (gl, t.rows) := by
    rw [global_phik_array_result, k3]
    simp only [hgl]
    rfl
  -- significances
  have hsig : ∃ s, ((significancesOf S (fun _ => R) fl pf 0 (some []) (.one (.num 10)) false "asymptotic").exec
      ⟨[pairFrame], []⟩).1 = .ok s := by
    unfold significancesOf
    rw [M.exec_bind, M.exec_read_of hr]
    simp only [M.exec_bind, g1]
    rw [binData_exec fl pf (data := pairFrame) (by rw [g2]; simp), hb0]
    simp only
    rcases significance_of_frame S (fun _ => R) "asymptotic" (r := w1.heap.length)
      (w := ⟨w1.heap ++ [pairFrame], w1.warns⟩) (f := pairFrame) (by simp) hn true true true with
      ⟨s, w', q1, -⟩ | ⟨e, w', -, -, k, ca, hca, cb, hcb, hk, h, htab, h2, h3, h4⟩
    · exact ⟨s, by rw [q1]⟩
    · exfalso
      obtain ⟨chi2, -, -, -, hchi, -⟩ := phik_of_data hg.mvn hg.brentq (table_data htab) h2 h3 true
      unfold sigFromHist2d at h4
      rw [hR, hchi] at h4
      simp only [Bind.bind, Except.bind, if_true, sigAsymptotic, sigFromNdof] at h4
      rw [if_neg (by simp [hS])] at h4
      cases h4
  obtain ⟨s, hs⟩ := hsig
  -- the outlier matrix
  have hout : ∀ a b, [a, b].Sublist t.rows → ∃ o dict, ((outlierMatrices trueOut fmt fl pf 0 (some []) "poisson" (.one (.num 10))
      false [(a, b)] true true true).exec ⟨[pairFrame], []⟩).1 = .ok ([(a ++ ":" ++ b, some o)], dict) := by
    intro a b hab
    have hab' : [a, b].Sublist pairFrame.names := by rw [← hsp.rows]; exact hab
    rw [outlierMatrices_pair trueOut fmt fl pf hr g1 g2 hn "poisson" (.one (.num 10)) false (hab'.subset (by simp))
      (hab'.subset (by simp)) (by rintro rfl; have := hn.sublist hab'; simp at this), hb0]
    simp only [hfl]
    obtain ⟨ca, hca, rfl⟩ := List.mem_map.1 (hab'.subset (by simp : a ∈ [a, b]))
    obtain ⟨cb, hcb, rfl⟩ := List.mem_map.1 (hab'.subset (by simp : b ∈ [ca.name, b]))
    rw [colOf_name hn hca, colOf_name hn hcb]
    obtain ⟨a', b', h1, h2⟩ := hist_of_flags true true true ⟨pairFrame.nrows, [ca, cb]⟩ rfl
    have hne : ca.name ≠ cb.name := by
      intro he; rw [he] at hab'; have := hn.sublist hab'; simp at this
    have hnum : t.v ca.name cb.name ≠ none :=
      varied_numbers hg.mvn hn (by decide) hsp _ (hab.subset (by simp)) _ (hab.subset (by simp))
    obtain ⟨h', ht', hph⟩ := matrix_entry hg.mvn hsp hn hca hcb hne
    obtain rfl := table_unique h2 ht'
    have hmany : 2 ≤ (histOfPairs (a'.cells.zip b'.cells)).rows.length ∧ 2 ≤ (histOfPairs (a'.cells.zip b'.cells)).cols.length := by
      rcases hph with ⟨-, h⟩ | ⟨h, h', -⟩
      · exact absurd h hnum
      · exact ⟨h, h'⟩
    obtain ⟨v, hv, -⟩ := outlier_table trueOut_exact (histOfPairs (a'.cells.zip b'.cells)).arr
    have hstart : (hist2dFromRebinned 0 true true true).exec ⟨[⟨pairFrame.nrows, [ca, cb]⟩], []⟩ =
        (.ok (histOfPairs (a'.cells.zip b'.cells)), ⟨[applyFlags true true true ⟨pairFrame.nrows, [ca, cb]⟩], []⟩) := by
      unfold hist2dFromRebinned
      rw [M.exec_bind, M.exec_read_of (f := ⟨pairFrame.nrows, [ca, cb]⟩) rfl]
      simp [M.exec_bind, h1]
    unfold pairResult outlierFromRebinned
    rw [M.exec_bind, hstart]
    simp only
    rw [M.exec_bind, M.exec_read_of (f := applyFlags true true true ⟨pairFrame.nrows, [ca, cb]⟩) rfl]
    simp only [h1]
    rw [if_neg (by omega)]
    simp only [M.exec_bind, M.exec_ofExcept, relabel, List.lookup_nil, hv]
    rw [dif_pos ⟨rfl, rfl⟩]
    exact ⟨_, _, rfl⟩
  obtain ⟨rep, hrep⟩ := report_returns nm none S (fun _ => R) trueOut fmt fmt0 fmt2 fl pf gnan hr hn (some []) (.one (.num 10)) false
    true "report.pdf" 0 0 true false "asymptotic" "poisson" (by rw [k3]) ⟨_, List.mem_cons_self, hkept _ List.mem_cons_self⟩ hgarr hs
    (fun _ a b hab _ => hout a b hab)
  refine ⟨rep, hrep, ?_⟩
  obtain ⟨q1, -, -, q2, -, sel, tabs, -, -, -, -, q3, q4, q5, -, q6, -⟩ := report_agrees nm none S (fun _ => R) trueOut fmt fmt0
    fmt2 fl pf gnan hr hn (some []) (.one (.num 10)) false true "report.pdf" 0 0 true false "asymptotic" "poisson" hrep
  have hpt : rep.phik = t := by rw [k3] at q1; exact (Except.ok.inj q1).symm
  rw [hpt, hrows] at q3 q4 q6
  have hmem : ("b", "c") ∈ sel := by
    refine (q4 "b" "c").2 ⟨rfl, List.Sublist.refl _, fun z _ => ?_, fun p hp => ?_⟩
    · have := le_total z 0
      simpa using this
    · rw [hbc] at hp; cases hp; rfl
  have hlen : sel.length ≤ 1 := q3.length_le
  have hlen' : 0 < sel.length := List.length_pos_of_mem hmem
  rw [q6 (by decide), List.length_map, List.length_zip, ← q5.length_eq]
  omega

end Props
end Phik
