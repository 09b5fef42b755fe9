import Verif.Props.ReportNan
import Verif.Props.SigReturns

/-! # Property C52: the exception of the report for pairs with too few categories -/

namespace Phik

open Spec Props

namespace Props

section
variable {F : Type} (nm : Numerics) (sched : Option (List ℕ)) (S : SigNum) (R : ℕ → SimRun F)
    (N : OutNum) (fmt fmt0 : ℚ → String) (fmt2 : EReal → String) (fl : ℚ → ℚ)
    (pf : String → Option (Option ℚ)) (gnan : LTable → Except Err (List GVal))

open scoped Classical in
/-- **C52 (violated).** If the phik of two columns is NaN, and neither the global correlations, nor the significances, nor the outlier matrices of the pairs whose phik is a
number raise an exception, then a report with outliers raises AttributeError, whatever the thresholds are. -/
theorem report_nan_attribute {r : Ref} {w : World} {data : Frame} (hr : w.heap[r]? = some data) (hn : data.names.Nodup)
    (ic : Option (List String)) (bins : Bins) (quantile : Bool) (pdf : String)
    (sigThr corrThr : ℝ) (noise storeEach : Bool) (sigMethod ci : String)
    (hs : ValidSched (cwr ((data.cols.filter
      (fun c => decide (Kept (ic.getD (guessIntervalCols data)) true c))).map (·.name))).length sched)
    {t : LTable} (ht : ((phikMatrix nm sched fl pf r ic bins quantile noise true true true).exec w).1 = .ok t)
    {a b : String} (hab : [a, b].Sublist t.rows) (hv : t.v a b = none)
    (hlen : ∀ t gl, gnan t = .ok gl → gl.length = t.rows.length) (hgl : ∃ gl, gnan t = .ok gl)
    (hsig : ∃ s, ((significancesOf S R fl pf r ic bins quantile sigMethod).exec w).1 = .ok s)
    (hout : ∀ c d, [c, d].Sublist t.rows → t.v c d ≠ none →
      ∃ o, ((outlierMatrices N fmt fl pf r ic ci bins quantile [(c, d)] true true true).exec w).1 = .ok o) :
    ((correlationReport nm sched S R N fmt fmt0 fmt2 fl pf gnan r ic bins quantile true pdf sigThr corrThr
      noise storeEach sigMethod ci).exec w).1 = .error .attribute := by
  obtain ⟨e, he⟩ := report_nan nm sched S R N fmt fmt0 fmt2 fl pf gnan hr hn ic bins quantile pdf sigThr corrThr noise storeEach sigMethod ci hs ht hab hv
  rw [he]
  rcases report_raises nm sched S R N fmt fmt0 fmt2 fl pf gnan hr hn hlen ic bins quantile true pdf sigThr corrThr noise storeEach sigMethod ci he with h | ⟨t', ht', h⟩
  · rw [ht] at h; cases h
  rw [ht] at ht'
  cases ht'
  rcases report_parts nm sched S R N fmt fmt0 fmt2 fl pf gnan hr hn ic bins quantile true pdf sigThr corrThr noise
    storeEach sigMethod ci with ⟨e, -, he⟩ | ⟨g, dict, pr, hgn, hnames, p1, p2, p3, p4, p5, p6, p7, p8⟩
  · rw [ht] at he; cases he
  have hrows := ht
  rw [p1] at hrows
  have hsp := phikOfFrame_spec (dropna := true) (du := true) (dof := true) hgn (by rw [hnames]; exact hs) (by rw [p6]; exact hrows)
  rcases h with ⟨hk, -⟩ | h | h | ⟨-, s, -, c, d, hcd, -, h⟩
  · exfalso
    have : a ∈ t.rows := hab.subset (by simp)
    rw [hsp.rows, hnames] at this
    obtain ⟨x, hx, -⟩ := List.mem_map.1 this
    rw [List.mem_filter] at hx
    exact hk x hx.1 (by simpa using hx.2)
  · exfalso
    rw [if_pos ⟨a, hab.subset (by simp), b, hab.subset (by simp), hv⟩] at h
    obtain ⟨gl, hgl⟩ := hgl
    rw [hgl] at h; cases h
  · obtain ⟨s, hs⟩ := hsig
    rw [hs] at h; cases h
  · rcases h with h | ⟨-, h⟩
    · exfalso
      by_cases hcv : t.v c d = none
      · have hcd' := hcd
        rw [hsp.rows] at hcd'
        obtain ⟨ca, ha, cb, hb, rfl, rfl, hh, htab, hph⟩ := hsp.entry c d hcd'
        have hfew : hh.rows.length < 2 ∨ hh.cols.length < 2 := by
          rcases hph with ⟨h, -⟩ | ⟨-, -, x, -, hx⟩
          · exact h
          · rw [hcv] at hx; cases hx
        have hz := congrFun (congrFun p8 ca.name) cb.name
        have hpo := p3 ca.name cb.name hcd'
        simp only at hpo
        rw [hpo, hz, colOf_name hgn ha, colOf_name hgn hb, pairResult_few N fmt dict ci ca cb htab hfew] at h
        cases h
      · obtain ⟨o, ho⟩ := hout c d hcd hcv
        rw [ho] at h; cases h
    · rw [h]

open scoped Classical in
/-- **C52 (violated), on frames.** Two text columns, each with at least two values, that are never both known in one row: a report with outliers raises AttributeError. -/
theorem report_disjoint_attribute (hg : GoodNumerics nm) {r : Ref} {w : World} {data : Frame} (hr : w.heap[r]? = some data)
    (bins : Bins) (hbins : ∀ d, bins ≠ .dict d) (quantile : Bool) (pdf : String)
    (sigThr corrThr : ℝ) (noise storeEach : Bool) {sigMethod : String} (hS : ∀ k, SigTotal S sigMethod (R k)) (ci : String)
    (hs : ValidSched 3 sched) {ca cb : Column} (hab : data.cols = [ca, cb]) (hne : ca.name ≠ cb.name) (ha : 2 ≤ distinct ca) (hb : 2 ≤ distinct cb)
    (hdis : ∀ p ∈ ca.cells.zip cb.cells, p.1 = .nan ∨ p.2 = .nan)
    (hlen : ∀ t gl, gnan t = .ok gl → gl.length = t.rows.length) (hgl : ∀ t, ∃ gl, gnan t = .ok gl) :
    ((correlationReport nm sched S R N fmt fmt0 fmt2 fl pf gnan r (some []) bins quantile true pdf sigThr corrThr
      noise storeEach sigMethod ci).exec w).1 = .error .attribute := by
  have hk : ∀ c, 2 ≤ distinct c → decide (Kept [] true c) = true := fun c h => by simpa [Kept] using h
  have hfil : data.cols.filter (fun c => decide (Kept [] true c)) = [ca, cb] := by
    rw [hab]; simp [hk ca ha, hk cb hb]
  have hn : data.names.Nodup := by simp [Frame.names, hab, hne]
  have hs' : ValidSched (cwr ((data.cols.filter fun c => decide (Kept [] true c)).map (·.name))).length sched := by
    rw [hfil]; exact hs
  obtain ⟨⟨t, ht, hsub, hnone⟩, -⟩ := report_disjoint nm sched S R N fmt fmt0 fmt2 fl pf gnan hg hr hn bins hbins quantile pdf sigThr corrThr noise storeEach sigMethod ci hs'
    (ca := ca) (cb := cb) (by rw [hab]) ha hb hdis
  rcases report_parts nm sched S R N fmt fmt0 fmt2 fl pf gnan hr hn (some []) bins quantile true pdf sigThr corrThr noise
    storeEach sigMethod ci with ⟨e, -, he⟩ | ⟨g, dict, pr, hgn, hnames, p1, p2, p3, p4, p5, p6, p7, p8⟩
  · rw [ht] at he; cases he
  have hrows : t.rows = [ca.name, cb.name] := by
    have h := ht
    rw [p1] at h
    rw [(phikOfFrame_labels h).1, hnames]
    exact (congrArg (List.map _) hfil).trans rfl
  refine report_nan_attribute nm sched S R N fmt fmt0 fmt2 fl pf gnan hr hn (some []) bins quantile pdf sigThr corrThr noise storeEach sigMethod ci hs' ht hsub hnone hlen
    (hgl t) ?_ ?_
  · rw [p7]
    obtain ⟨s, w', h, -⟩ := significance_returns (f := g) hS (r := 0) (w := ⟨[g], []⟩) rfl hgn true true true
    exact ⟨s, by rw [h]⟩
  · intro c d hcd hv
    rw [hrows] at hcd
    have := hcd.eq_of_length rfl
    simp only [List.cons.injEq, and_true] at this
    rw [this.1, this.2] at hv
    exact absurd hnone hv

end

/-- Two columns that are never both known, with exact functions. -/
example {F : Type} {nm : Numerics} (hg : GoodNumerics nm) {R : ℕ → SimRun F} (hR : ∀ k, (R k).lambda = "log-likelihood") (N : OutNum) (fmt fmt0 : ℚ → String)
    (fmt2 : EReal → String) (fl : ℚ → ℚ) (pf : String → Option (Option ℚ)) :
    ((correlationReport nm none trueSig R N fmt fmt0 fmt2 fl pf (fun t => .ok (t.rows.map fun _ => .byZero)) 0 (some []) (.one (.num 10)) false true "" 5 (1 / 2)
      true false "asymptotic" "poisson").exec ⟨[disjointFrame], []⟩).1 = .error .attribute := by
  obtain ⟨hn, ca, cb, hab, ha, hb, hd⟩ := disjointFrame_ok
  exact report_disjoint_attribute nm none trueSig R N fmt fmt0 fmt2 fl pf _ hg (data := disjointFrame) rfl _ (by intro d h; cases h) false "" 5 (1 / 2) true false
    (fun k => .inl ⟨rfl, trueSig_spec, trueSig_far, by rw [hR k]; simp⟩) "poisson" (by intro o h; cases h) hab
    (by simpa [Frame.names, hab] using hn) ha hb hd (by intro t gl h; cases h; simp) (fun t => ⟨_, rfl⟩)

end Props

end Phik
