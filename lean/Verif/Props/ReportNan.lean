import Verif.Props.Report

/-! # Property C52: the report and pairs with too few categories -/

namespace Phik

open Spec Props

theorem cwr_index {a b : String} {l : List String} (h : [a, b].Sublist l) : ∃ k : ℕ, (cwr l)[k]? = some (a, b) :=
  List.getElem?_of_mem (mem_cwr.2 (.inr h))

/-- The outlier matrix of a pair with fewer than two categories is NaN. -/
theorem pairResult_few (N : OutNum) (fmt : ℚ → String) {g : Frame} (dict : List (String × List (ℚ × ℚ)))
    (ci : String) (a b : Column) {h : Hist} (ht : IsTable (records true true true a b) h)
    (hf : h.rows.length < 2 ∨ h.cols.length < 2) :
    pairResult N fmt g dict ci true true true a b = .ok none := by
  obtain ⟨a', b', h1, h2⟩ := hist_of_flags true true true ⟨g.nrows, [a, b]⟩ rfl
  obtain rfl := table_unique h2 ht
  have hstart : (hist2dFromRebinned 0 true true true).exec ⟨[⟨g.nrows, [a, b]⟩], []⟩ =
      (.ok (histOfPairs (a'.cells.zip b'.cells)), ⟨[applyFlags true true true ⟨g.nrows, [a, b]⟩], []⟩) := by
    unfold hist2dFromRebinned
    rw [M.exec_bind, M.exec_read_of (f := ⟨g.nrows, [a, b]⟩) rfl]
    simp [M.exec_bind, h1]
  unfold pairResult outlierFromRebinned
  rw [M.exec_bind, hstart]
  simp only
  rw [M.exec_bind, M.exec_read_of (f := applyFlags true true true ⟨g.nrows, [a, b]⟩) rfl]
  simp only [h1]
  rw [if_pos (by omega)]
  rfl

namespace Props

section
variable {F : Type} (nm : Numerics) (sched : Option (List ℕ)) (S : SigNum) (R : ℕ → SimRun F)
    (N : OutNum) (fmt fmt0 : ℚ → String) (fmt2 : EReal → String) (fl : ℚ → ℚ)
    (pf : String → Option (Option ℚ)) (gnan : LTable → Except Err (List GVal))

open scoped Classical in
/-- **C52 (violated).** If the phik of two columns is NaN, then a report with outliers is never returned, whatever the
thresholds are; unless an earlier step raises an exception, it is an AttributeError or an exception of the outlier matrix
of another pair. -/
theorem report_nan {r : Ref} {w : World} {data : Frame} (hr : w.heap[r]? = some data) (hn : data.names.Nodup)
    (ic : Option (List String)) (bins : Bins) (quantile : Bool) (pdf : String)
    (sigThr corrThr : ℝ) (noise storeEach : Bool) (sigMethod ci : String)
    (hs : ValidSched (cwr ((data.cols.filter
      (fun c => decide (Kept (ic.getD (guessIntervalCols data)) true c))).map (·.name))).length sched)
    {t : LTable} (ht : ((phikMatrix nm sched fl pf r ic bins quantile noise true true true).exec w).1 = .ok t)
    {a b : String} (hab : [a, b].Sublist t.rows) (hv : t.v a b = none) :
    ∃ e, ((correlationReport nm sched S R N fmt fmt0 fmt2 fl pf gnan r ic bins quantile true pdf sigThr corrThr
      noise storeEach sigMethod ci).exec w).1 = .error e := by
  rcases report_parts nm sched S R N fmt fmt0 fmt2 fl pf gnan hr hn ic bins quantile true pdf sigThr corrThr noise
    storeEach sigMethod ci with ⟨e, he, -⟩ | ⟨g, dict, pr, hgn, hnames, p1, p2, p3, p4, p5, p6, p7, p8⟩
  · exact ⟨e, he⟩
  cases hrep : ((correlationReport nm sched S R N fmt fmt0 fmt2 fl pf gnan r ic bins quantile true pdf sigThr corrThr
      noise storeEach sigMethod ci).exec w).1 with
  | error e => exact ⟨e, rfl⟩
  | ok rep =>
    exfalso
    rw [p5] at hrep
    obtain ⟨k1, k2, k3, tabs, fig1, fig2, fig3, figs, k4, -⟩ := reportOf_ok p4 hrep
    have hrt : rep.phik = t := by rw [p1, k1] at ht; exact Except.ok.inj ht
    rw [hrt] at k1 k4
    have hsp := phikOfFrame_spec (dropna := true) (du := true) (dof := true) hgn (by rw [hnames]; exact hs) (by rw [p6]; exact k1)
    rw [hsp.rows] at hab
    obtain ⟨ca, ha, cb, hb, rfl, rfl, hh, htab, hph⟩ := hsp.entry a b hab
    have hfew : hh.rows.length < 2 ∨ hh.cols.length < 2 := by
      rcases hph with ⟨h, -⟩ | ⟨-, -, x, -, hx⟩
      · exact h
      · rw [hv] at hx; cases hx
    have hsig : rep.significance.v ca.name cb.name = none := by
      rcases significance_of_frame S R sigMethod (r := 0) (w := ⟨[g], []⟩) (f := g) rfl hgn true true true with
        ⟨s, w', q1, q2, -⟩ | ⟨e, w', q1, -⟩
      · rw [p7, q1] at k3
        cases k3
        obtain ⟨k, hk⟩ := cwr_index hab
        obtain ⟨ca', ha', cb', hb', ea, eb, h', ht', hc⟩ := q2.entry k _ _ hk
        obtain rfl : ca' = ca := by rw [← colOf_name hgn ha', ← colOf_name hgn ha, ea]
        obtain rfl : cb' = cb := by rw [← colOf_name hgn hb', ← colOf_name hgn hb, eb]
        obtain rfl := table_unique ht' htab
        rcases hc with ⟨-, h⟩ | ⟨hnf, -⟩
        · exact h
        · exact absurd hfew (by unfold Few at hnf; omega)
      · rw [p7, q1] at k3; cases k3
    have hmem : (ca.name, cb.name) ∈ (comb2 g.names).filter fun p =>
        !reportSkip sigThr corrThr (rep.significance.v p.1 p.2) (t.v p.1 p.2) := by
      rw [List.mem_filter]
      exact ⟨mem_comb2.2 hab, by rw [reportSkip_iff, hsig, hv]; exact ⟨by simp, by simp⟩⟩
    simp only [if_true] at k4
    obtain ⟨i, hi⟩ := List.getElem?_of_mem hmem
    obtain ⟨hlt, hi⟩ := List.getElem?_eq_some_iff.1 hi
    have := List.forall₂_iff_get.1 k4
    have := this.2 i hlt (by rw [← this.1]; exact hlt)
    simp only [List.get_eq_getElem, hi] at this
    have hz := congrFun (congrFun p8 ca.name) cb.name
    rw [hz, colOf_name hgn ha, colOf_name hgn hb, pairResult_few N fmt dict ci ca cb htab hfew] at this
    cases this

open scoped Classical in
/-- **C52 (violated), on frames.** Two text columns, each with at least two values, that are never both known in one row: a report
with outliers raises an exception, although the phik matrix is returned and all arguments are valid. -/
theorem report_disjoint (hg : GoodNumerics nm) {r : Ref} {w : World} {data : Frame} (hr : w.heap[r]? = some data)
    (hn : data.names.Nodup) (bins : Bins) (hbins : ∀ d, bins ≠ .dict d) (quantile : Bool) (pdf : String)
    (sigThr corrThr : ℝ) (noise storeEach : Bool) (sigMethod ci : String)
    (hs : ValidSched (cwr ((data.cols.filter fun c => decide (Kept [] true c)).map (·.name))).length sched)
    {ca cb : Column} (hab : [ca, cb].Sublist data.cols) (ha : 2 ≤ distinct ca) (hb : 2 ≤ distinct cb)
    (hdis : ∀ p ∈ ca.cells.zip cb.cells, p.1 = .nan ∨ p.2 = .nan) :
    (∃ t, ((phikMatrix nm sched fl pf r (some []) bins quantile noise true true true).exec w).1 = .ok t ∧
      [ca.name, cb.name].Sublist t.rows ∧ t.v ca.name cb.name = none) ∧
    ∃ e, ((correlationReport nm sched S R N fmt fmt0 fmt2 fl pf gnan r (some []) bins quantile true pdf sigThr corrThr
      noise storeEach sigMethod ci).exec w).1 = .error e := by
  obtain ⟨icc, w1, clean, h1, h2, h3⟩ := phikMatrix_exec nm sched fl pf hr hn (some []) bins quantile noise true true true
  obtain ⟨icc', w1', clean', ws, g1, g2, -, g4, g5, -⟩ := dq_check hr hn ((some ([] : List String)).getD (guessIntervalCols data)) true
  rw [g1] at h1
  cases h1
  rw [g2] at h2
  obtain ⟨-, h⟩ := List.append_inj' h2 rfl
  cases h
  obtain rfl : icc = [] := by rw [g5]; rfl
  have hb0 : binDataCore fl pf clean [] bins quantile = .ok (clean, []) := by
    unfold binDataCore
    cases bins with
    | one s => cases s <;> rfl
    | dict d => exact absurd rfl (hbins d)
  rw [hb0] at h3
  simp only at h3
  have hcn : clean.names.Nodup := by
    refine hn.sublist ?_
    unfold Frame.names; rw [g4]; exact List.filter_sublist.map _
  have hnm : clean.names = ((data.cols.filter fun c => decide (Kept [] true c)).map (·.name)) := by
    unfold Frame.names; rw [g4]; rfl
  obtain ⟨t, ht⟩ := phikOfFrame_total hg hcn (by rw [hnm]; exact hs) noise true true true
  have hsp := phikOfFrame_spec hcn (by rw [hnm]; exact hs) ht
  rw [ht] at h3
  have hk : ∀ c, 2 ≤ distinct c → decide (Kept [] true c) = true := fun c h => by simpa [Kept] using h
  have hsub : [ca, cb].Sublist clean.cols := by
    rw [g4]
    have := hab.filter fun c => decide (Kept ((some ([] : List String)).getD (guessIntervalCols data)) true c)
    rwa [List.filter_eq_self.2] at this
    intro c hc
    simp only [List.mem_cons, List.not_mem_nil, or_false] at hc
    rcases hc with rfl | rfl
    · exact hk _ ha
    · exact hk _ hb
  have hsub' : [ca.name, cb.name].Sublist clean.names := hsub.map (f := fun c : Column => c.name)
  obtain ⟨ca', ha', cb', hb', ea, eb, hph⟩ := hsp.entry ca.name cb.name hsub'
  obtain rfl : ca' = ca := by rw [← colOf_name hcn ha', ← colOf_name hcn (hsub.subset (by simp) : ca ∈ clean.cols), ea]
  obtain rfl : cb' = cb := by rw [← colOf_name hcn hb', ← colOf_name hcn (hsub.subset (by simp) : cb ∈ clean.cols), eb]
  have hnone : t.v ca'.name cb'.name = none := by
    rw [isPhik_none_iff hph]
    left
    intro a b a' b' hm
    obtain ⟨p, hp, he⟩ := List.mem_map.1 hm
    rcases hdis p hp with h | h <;> rw [h] at he <;> simp [view] at he
  exact ⟨⟨t, by rw [h3], by rw [hsp.rows]; exact hsub', hnone⟩,
    report_nan nm sched S R N fmt fmt0 fmt2 fl pf gnan hr hn (some []) bins quantile pdf sigThr corrThr noise storeEach
      sigMethod ci hs (t := t) (by rw [h3]) (by rw [hsp.rows]; exact hsub') hnone⟩

end

/-- Two columns that are never both known. -/
def disjointFrame : Frame :=
  ⟨4, [⟨"a", false, [.str "x", .str "y", .nan, .nan]⟩, ⟨"b", false, [.nan, .nan, .str "x", .str "y"]⟩]⟩

theorem disjointFrame_ok : disjointFrame.names.Nodup ∧ ∃ ca cb, disjointFrame.cols = [ca, cb] ∧ 2 ≤ distinct ca ∧ 2 ≤ distinct cb ∧
    ∀ p ∈ ca.cells.zip cb.cells, p.1 = .nan ∨ p.2 = .nan := by
  refine ⟨by simp [disjointFrame, Frame.names], _, _, rfl, ?_, ?_, by simp⟩
  · have : {x | x ∈ [Cell.str "x", .str "y", .nan, .nan] ∧ x ≠ Cell.nan} = {Cell.str "x", Cell.str "y"} := by
      ext x; simp; constructor
      · rintro ⟨h | h | h, h'⟩ <;> simp_all
      · rintro (rfl | rfl) <;> simp
    unfold distinct
    simp only [this]
    rw [Set.ncard_pair (by simp)]
  · have : {x | x ∈ [Cell.nan, .nan, .str "x", .str "y"] ∧ x ≠ Cell.nan} = {Cell.str "x", Cell.str "y"} := by
      ext x; simp; constructor
      · rintro ⟨h | h | h, h'⟩ <;> simp_all
      · rintro (rfl | rfl) <;> simp
    unfold distinct
    simp only [this]
    rw [Set.ncard_pair (by simp)]

theorem lastOfEachKey_short {sel : List (String × String)} {tabs : List OutTab} {outliers : List (String × OutTab)}
    (h : LastOfEachKey ((sel.zip tabs).map fun p => (pairLabel p.1.1 p.1.2, p.2)) outliers)
    {a b c d : String} (hab : (a, b) ∈ sel) (hcd : (c, d) ∈ sel) (hne : (a, b) ≠ (c, d))
    (hk : pairLabel a b = pairLabel c d) : outliers.length < sel.length := by
  have hsub : outliers.map Prod.fst ⊆ (sel.map fun p => pairLabel p.1 p.2) := by
    intro k hk
    obtain ⟨⟨k', t⟩, hm, rfl⟩ := List.mem_map.1 hk
    obtain ⟨i, hi, -⟩ := (h.2 k' t).1 hm
    obtain ⟨⟨p, t'⟩, hp, he⟩ := List.mem_map.1 (List.mem_of_getElem? hi)
    cases he
    exact List.mem_map_of_mem (f := fun p : String × String => pairLabel p.1 p.2) (List.of_mem_zip hp).1
  have h1 : (outliers.map Prod.fst).toFinset ⊆ (sel.map fun p => pairLabel p.1 p.2).toFinset := by
    intro x hx
    rw [List.mem_toFinset] at hx ⊢
    exact hsub hx
  have h2 := Finset.card_le_card h1
  rw [List.toFinset_card_of_nodup h.1, List.length_map] at h2
  refine lt_of_le_of_lt h2 ?_
  have h3 : ¬ (sel.map fun p => pairLabel p.1 p.2).Nodup := by
    intro hnd
    exact hne (List.inj_on_of_nodup_map hnd hab hcd hk)
  have h4 := List.toFinset_card_le (sel.map fun p => pairLabel p.1 p.2)
  rw [List.length_map] at h4
  refine lt_of_le_of_ne h4 fun he => h3 ?_
  rw [← List.dedup_eq_self]
  refine (List.dedup_sublist _).eq_of_length ?_
  rw [← List.card_toFinset, he, List.length_map]

/-- **C52 (violated).** Selected pairs whose names differ only in spaces and underscores, or by the place of a colon, have
one entry together: a report in which two selected pairs have the same label has fewer entries than selected pairs. -/
theorem report_collision {F : Type} (nm : Numerics) (sched : Option (List ℕ)) (S : SigNum) (R : ℕ → SimRun F)
    (N : OutNum) (fmt fmt0 : ℚ → String) (fmt2 : EReal → String) (fl : ℚ → ℚ)
    (pf : String → Option (Option ℚ)) (gnan : LTable → Except Err (List GVal)) {r : Ref} {w : World} {data : Frame}
    (hr : w.heap[r]? = some data) (hn : data.names.Nodup)
    (ic : Option (List String)) (bins : Bins) (quantile : Bool) (pdf : String)
    (sigThr corrThr : ℝ) (noise storeEach : Bool) (sigMethod ci : String) {rep : Report}
    (h : ((correlationReport nm sched S R N fmt fmt0 fmt2 fl pf gnan r ic bins quantile true pdf sigThr corrThr
      noise storeEach sigMethod ci).exec w).1 = .ok rep)
    {a b c d : String} (hab : [a, b].Sublist rep.phik.rows) (hcd : [c, d].Sublist rep.phik.rows) (hne : (a, b) ≠ (c, d))
    (hab' : Selected sigThr corrThr (rep.significance.v a b) (rep.phik.v a b))
    (hcd' : Selected sigThr corrThr (rep.significance.v c d) (rep.phik.v c d))
    (hk : pairLabel a b = pairLabel c d) :
    rep.outliers.length < {p : String × String | [p.1, p.2].Sublist rep.phik.rows ∧
      Selected sigThr corrThr (rep.significance.v p.1 p.2) (rep.phik.v p.1 p.2)}.ncard := by
  obtain ⟨h1, -, -, -, -, sel, tabs, -, -, -, -, hs1, hs2, -, hs3, -⟩ :=
    report_agrees nm sched S R N fmt fmt0 fmt2 fl pf gnan hr hn ic bins quantile true pdf sigThr corrThr
      noise storeEach sigMethod ci h
  have hlt := lastOfEachKey_short hs3 ((hs2 a b).2 ⟨rfl, hab, hab'⟩) ((hs2 c d).2 ⟨rfl, hcd, hcd'⟩) hne hk
  have hnd : rep.phik.rows.Nodup := by
    rcases report_parts nm sched S R N fmt fmt0 fmt2 fl pf gnan hr hn ic bins quantile true pdf sigThr corrThr noise
      storeEach sigMethod ci with ⟨e, -, he⟩ | ⟨g, dict, pr, hgn, -, p1, -⟩
    · rw [h1] at he; cases he
    · rw [(phikOfFrame_labels (p1.symm.trans h1)).1]; exact hgn
  have hset : {p : String × String | [p.1, p.2].Sublist rep.phik.rows ∧
      Selected sigThr corrThr (rep.significance.v p.1 p.2) (rep.phik.v p.1 p.2)} = (sel.toFinset : Set (String × String)) := by
    ext ⟨x, y⟩
    simp only [Set.mem_setOf_eq, List.coe_toFinset, hs2 x y, true_and]
  rw [hset, Set.ncard_coe_finset, List.toFinset_card_of_nodup ((nodup_comb2 hnd).sublist hs1)]
  exact hlt

example : pairLabel "my age" "c" = pairLabel "my_age" "c" ∧ pairLabel "a:b" "c" = pairLabel "a" "b:c" := by decide

end Props

end Phik
