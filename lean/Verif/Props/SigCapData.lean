import Verif.Props.SigCap
import Verif.Props.SigMatrixMC

/-! # Property C101 for `significance_matrix` and for arrays -/

namespace Phik.Props

open Spec

variable {F : Type}

theorem prepArray_map (render : ℚ → String) (dropna du dof : Bool) : ∃ g : Cell → Cell, ∀ x, prepArray render dropna du dof x = x.map g := by
  refine ⟨fun c => (prepArray render dropna du dof [c]).headD .nan, fun x => ?_⟩
  cases dropna <;> cases du <;> cases dof <;> simp [prepArray, List.map_map]

/-- **C101 (arrays).** The asymptotic significance of two arrays of length `n` is below `√(2 n log k)`, where `k` is the smaller number of
different entries. -/
theorem significance_array_cap (rn : SimRun F) (hl : rn.lambda = "log-likelihood") (render : ℚ → String) {x y : List Cell} (hlen : x.length = y.length)
    (dropna du dof : Bool) {w w' : World} {p : Option ℝ} {z : EReal}
    (hrun : (sigFromBinnedArray trueSig rn render x y "asymptotic" dropna du dof).exec w = (.ok (p, some z), w')) :
    z < (√(2 * x.length * Real.log (min x.toFinset.card y.toFinset.card : ℕ)) : ℝ) := by
  obtain ⟨res, w2, h1, -, h, ht, hres⟩ := (significance_array trueSig rn render x y "asymptotic" dropna du dof w).2 hlen
  rw [hrun] at h1
  cases h1
  obtain ⟨g, hg⟩ := prepArray_map render dropna du dof
  have hs : IsSig trueSig rn "asymptotic" (((prepArray render dropna du dof x).zip (prepArray render dropna du dof y)).map
      fun p => (p.1.opt, p.2.opt)) (some z) := by
    refine ⟨h, ht, ?_⟩
    rcases hres with ⟨hf, e⟩ | ⟨hf, e⟩
    · simp at e
    · exact .inr ⟨hf, p, e.symm⟩
  have len : (((prepArray render dropna du dof x).zip (prepArray render dropna du dof y)).map fun p => (p.1.opt, p.2.opt)).length = x.length := by
    simp [hg, hlen]
  have fin : ∀ l : List Cell, z < (√(2 * x.length * Real.log (l.toFinset.image g).card) : ℝ) → z < (√(2 * x.length * Real.log l.toFinset.card) : ℝ) := by
    intro l q
    refine q.trans_le (EReal.coe_le_coe_iff.2 (Real.sqrt_le_sqrt (mul_le_mul_of_nonneg_left ?_ (by positivity))))
    rcases Nat.eq_zero_or_pos (l.toFinset.image g).card with h0 | h0
    · rw [h0, Nat.cast_zero, Real.log_zero]
      exact Real.log_natCast_nonneg _
    · exact Real.log_le_log (by exact_mod_cast h0) (by exact_mod_cast Finset.card_image_le)
  have img : ∀ {l : List Cell} {c a : Cell}, c ∈ prepArray render dropna du dof l → c.opt = some a → a ∈ l.toFinset.image g := by
    intro l c a hc ha
    rw [hg] at hc
    obtain ⟨d, hd, rfl⟩ := List.mem_map.1 hc
    rw [(opt_eq_some.1 ha).1.symm]
    exact Finset.mem_image_of_mem _ (List.mem_toFinset.2 hd)
  have b1 := fin x (by
    rw [← len]
    refine records_cap rn hl hs _ (.inl fun q hq a hqa => ?_)
    obtain ⟨u, hu, rfl⟩ := List.mem_map.1 hq
    exact img (List.of_mem_zip hu).1 hqa)
  have b2 := fin y (by
    rw [← len]
    refine records_cap rn hl hs _ (.inr fun q hq a hqa => ?_)
    obtain ⟨u, hu, rfl⟩ := List.mem_map.1 hq
    exact img (List.of_mem_zip hu).2 hqa)
  rcases min_choice x.toFinset.card y.toFinset.card with q | q <;> rw [q]
  · exact b1
  · exact b2

open scoped Classical in
/-- **C101 (`significance_matrix`).** For every proper frame of `n` records, every entry of the asymptotic significance matrix is below
`√(2 n log n)`, and below `√(2 n log k)` if one of the two columns is not an interval column and has `k` different entries. -/
theorem significance_matrix_pipeline_cap {R : ℕ → SimRun F} (hl : ∀ k, (R k).lambda = "log-likelihood") (fl : ℚ → ℚ) (pf : String → Option (Option ℚ))
    {r : Ref} {w w' : World} {data : Frame} (hr : w.heap[r]? = some data) (hwf : data.WF) (ic : Option (List String)) (bins : Bins) (dropna du dof : Bool)
    (hbins : ∀ n ∈ ic.getD (guessIntervalCols data), ∃ s, EntryFor bins n s ∧ s ≠ .other) {t : LTab EReal}
    (hrun : (significanceMatrix trueSig R fl pf r ic bins "asymptotic" dropna du dof).exec w = (.ok t, w')) {a b : String} (ha : a ∈ t.rows) (hb : b ∈ t.rows)
    {z : EReal} (hz : t.v a b = some z) :
    z < (√(2 * data.nrows * Real.log data.nrows) : ℝ) ∧
    ∀ c ∈ data.cols, c.name = a ∨ c.name = b → c.name ∉ ic.getD (guessIntervalCols data) →
      z < (√(2 * data.nrows * Real.log c.cells.toFinset.card) : ℝ) := by
  obtain ⟨icc, w1, clean, ws, h1, h2, hrows, g4, g5⟩ := dq_check hr hwf.nodup (ic.getD (guessIntervalCols data)) dropna
  have hclean : w1.heap[w.heap.length]? = some clean := by rw [h2]; simp
  have hexec : (significanceMatrix trueSig R fl pf r ic bins "asymptotic" dropna du dof).exec w =
      match (binData fl pf w.heap.length icc bins false).exec w1 with
      | (.error e, w2) => (.error e, w2)
      | (.ok (r2, _), w2) => (sigFromRebinned trueSig R r2 "asymptotic" dropna du dof).exec w2 := by
    unfold significanceMatrix
    rw [M.exec_bind, M.exec_read_of hr]
    simp only [M.exec_bind, h1]
    rcases (binData fl pf w.heap.length icc bins false).exec w1 with ⟨res, w2⟩
    cases res <;> rfl
  rw [hexec] at hrun
  rcases hbd : (binData fl pf w.heap.length icc bins false).exec w1 with ⟨res, w2⟩
  rw [hbd] at hrun
  cases res with
  | error e => simp at hrun
  | ok v =>
    obtain ⟨r2, dict⟩ := v
    simp only at hrun
    have hent : ∀ name ∈ icc, ∃ s, EntryFor bins name s ∧ s ≠ .other := fun n hn' => hbins n (by rw [g5.1] at hn'; exact (List.mem_filter.1 hn').1)
    obtain ⟨-, -, out, hout, onr, onames, ocols, -⟩ := bin_data_columns fl pf hclean hent hbd
    have hcw : clean.WF := by
      refine ⟨fun c hcm => ?_, ?_⟩
      · rw [hrows]; rw [g4] at hcm; exact hwf.len c (List.mem_filter.1 hcm).1
      · have hsub : clean.names.Sublist data.names := by
          unfold Frame.names; rw [g4]; exact List.filter_sublist.map _
        exact hwf.nodup.sublist hsub
    have how : out.WF := by
      rw [binData_exec fl pf hclean] at hbd
      cases hc : binDataCore fl pf clean icc bins false with
      | error e => rw [hc] at hbd; simp at hbd
      | ok v =>
        obtain ⟨out', dict'⟩ := v
        rw [hc] at hbd
        simp only [Prod.mk.injEq, Except.ok.injEq] at hbd
        obtain ⟨⟨rfl, rfl⟩, rfl⟩ := hbd
        have e : out' = out := by simpa using hout
        exact e ▸ binDataCore_wf hcw hc
    have hm : IsSigMatrix trueSig R "asymptotic" dropna du dof out t := by
      rcases significance_of_frame trueSig R "asymptotic" hout how.nodup dropna du dof with ⟨t', w'', e, hm, -⟩ | ⟨e', w'', e, -⟩
      · rw [hrun] at e
        cases e
        exact hm
      · rw [hrun] at e
        cases e
    rw [hm.rows] at ha hb
    obtain ⟨ca, hca, rfl⟩ := List.mem_map.1 ha
    obtain ⟨cb, hcb, rfl⟩ := List.mem_map.1 hb
    have cap := significance_matrix_cap hl hout how.nodup how.len dropna du dof hrun hca hcb hz
    rw [onr, hrows] at cap
    have weaken : ∀ k : ℕ, min ca.cells.toFinset.card cb.cells.toFinset.card ≤ k → z < (√(2 * data.nrows * Real.log k) : ℝ) := by
      intro k hk
      refine cap.trans_le (EReal.coe_le_coe_iff.2 (Real.sqrt_le_sqrt (mul_le_mul_of_nonneg_left ?_ (by positivity))))
      rcases Nat.eq_zero_or_pos (min ca.cells.toFinset.card cb.cells.toFinset.card) with h0 | h0
      · rw [h0, Nat.cast_zero, Real.log_zero]
        exact Real.log_natCast_nonneg _
      · exact Real.log_le_log (by exact_mod_cast h0) (by exact_mod_cast hk)
    refine ⟨weaken _ ((min_le_left _ _).trans ?_), fun c hc hname hnot => weaken _ ?_⟩
    · have := List.toFinset_card_le ca.cells
      rw [how.len ca hca, onr, hrows] at this
      exact this
    · -- the column is unchanged in the binned frame
      have hin : c.name ∈ clean.names := by
        rw [← onames]
        rcases hname with q | q
        · rw [q]; exact ha
        · rw [q]; exact hb
      obtain ⟨c0, hc0, e0⟩ := List.mem_map.1 hin
      have hc0d : c0 ∈ data.cols := by rw [g4] at hc0; exact (List.mem_filter.1 hc0).1
      have e1 : c0 = c := by rw [← colOf_name hwf.nodup hc0d, ← colOf_name hwf.nodup hc, e0]
      subst e1
      obtain ⟨i, hi⟩ := List.getElem?_of_mem hc0
      obtain ⟨c', hc', hsame, -⟩ := ocols i c0 hi
      have e2 : c' = c0 := hsame fun q => hnot (by rw [g5.1] at q; exact (List.mem_filter.1 q).1)
      subst e2
      have hco : c' ∈ out.cols := List.mem_of_getElem? hc'
      rcases hname with q | q
      · have e3 : c' = ca := by rw [← colOf_name how.nodup hco, ← colOf_name how.nodup hca, q]
        rw [e3]; exact min_le_left _ _
      · have e3 : c' = cb := by rw [← colOf_name how.nodup hco, ← colOf_name how.nodup hcb, q]
        rw [e3]; exact min_le_right _ _

/-- Non-vacuity: two arrays of four entries; the call returns numbers. -/
example (rn : SimRun F) (hl : rn.lambda = "log-likelihood") (render : ℚ → String) (w : World) :
    ∃ p z w', (sigFromBinnedArray trueSig rn render [.str "x", .str "x", .str "y", .str "y"] [.str "u", .str "u", .str "v", .str "v"] "asymptotic"
      true false false).exec w = (.ok (some p, some z), w') := by
  obtain ⟨res, w2, h1, -, h, ht, hres⟩ := (significance_array trueSig rn render [.str "x", .str "x", .str "y", .str "y"]
    [.str "u", .str "u", .str "v", .str "v"] "asymptotic" true false false w).2 rfl
  have two : ∀ {l : List Cell} {u v : Cell}, u ≠ v → u ∈ l → v ∈ l → 2 ≤ l.length := by
    intro l u v huv hu hv
    by_contra hlt
    match l, hlt with
    | [], _ => simp at hu
    | [x], _ => simp at hu hv; exact huv (hu.trans hv.symm)
    | _ :: _ :: _, hlt => simp at hlt
  have r1 := two (l := h.rows) (u := .str "x") (v := .str "y") (by decide)
    ((ht.rows_mem _).2 ⟨.str "u", by simp [prepArray, Cell.opt]⟩) ((ht.rows_mem _).2 ⟨.str "v", by simp [prepArray, Cell.opt]⟩)
  have r2 := two (l := h.cols) (u := .str "u") (v := .str "v") (by decide)
    ((ht.cols_mem _).2 ⟨.str "x", by simp [prepArray, Cell.opt]⟩) ((ht.cols_mem _).2 ⟨.str "y", by simp [prepArray, Cell.opt]⟩)
  rcases hres with ⟨hf, -⟩ | ⟨-, e⟩
  · unfold Few at hf; omega
  · obtain ⟨p, z, hp, -⟩ := asymptotic_cap_log_likelihood rn hl (a := h.values) (data_isCount (table_data ht) r1) r1 r2
    exact ⟨p, z, w2, by rw [h1, e, hp]⟩

/-- Non-vacuity: a frame of two columns of strings; the call returns a number for the pair. -/
example {R : ℕ → SimRun F} (hl : ∀ k, (R k).lambda = "log-likelihood") (fl : ℚ → ℚ) (pf : String → Option (Option ℚ)) :
    ∃ (data : Frame) (t : LTab EReal) (w' : World) (z : EReal), data.WF ∧ guessIntervalCols data = [] ∧
      (significanceMatrix trueSig R fl pf 0 none (.one (.num 10)) "asymptotic" true true true).exec ⟨[data], []⟩ = (.ok t, w') ∧
      "a" ∈ t.rows ∧ "b" ∈ t.rows ∧ t.v "a" "b" = some z := by
  classical
  set ca : Column := ⟨"a", false, [.str "x", .str "x", .str "y", .str "y"]⟩ with hca
  set cb : Column := ⟨"b", false, [.str "u", .str "u", .str "v", .str "v"]⟩ with hcb
  set f : Frame := ⟨4, [ca, cb]⟩ with hf
  have hn : f.names.Nodup := by simp [hf, hca, hcb, Frame.names]
  have hg : guessIntervalCols f = [] := by simp [hf, hca, hcb, guessIntervalCols]
  have hk : ∀ c ∈ f.cols, Kept ((none : Option (List String)).getD (guessIntervalCols f)) true c := by
    rw [hg]
    intro c hc
    simp only [hf, List.mem_cons, List.not_mem_nil, or_false] at hc
    rcases hc with rfl | rfl
    · have e : {x | x ∈ ca.cells ∧ x ≠ Cell.nan} = {Cell.str "x", Cell.str "y"} := by
        ext x; simp only [hca, Set.mem_setOf_eq, List.mem_cons, Set.mem_insert_iff, Set.mem_singleton_iff, List.not_mem_nil, or_false]
        constructor
        · rintro ⟨h | h | h | h, -⟩ <;> simp [h]
        · rintro (h | h) <;> simp [h]
      rw [Kept, if_pos (.inr rfl), distinct, e, Set.ncard_pair (by decide)]
    · have e : {x | x ∈ cb.cells ∧ x ≠ Cell.nan} = {Cell.str "u", Cell.str "v"} := by
        ext x; simp only [hcb, Set.mem_setOf_eq, List.mem_cons, Set.mem_insert_iff, Set.mem_singleton_iff, List.not_mem_nil, or_false]
        constructor
        · rintro ⟨h | h | h | h, -⟩ <;> simp [h]
        · rintro (h | h) <;> simp [h]
      rw [Kept, if_pos (.inr rfl), distinct, e, Set.ncard_pair (by decide)]
  have hS : ∀ k, SigTotal trueSig "asymptotic" (R k) := fun k => .inl ⟨rfl, trueSig_spec, trueSig_far, by rw [hl k]; simp⟩
  obtain ⟨icc, w1, clean, ws, h1, h2, hrows, g4, g5, -⟩ := dq_check (r := 0) (w := ⟨[f], []⟩) (data := f) rfl hn
    ((none : Option (List String)).getD (guessIntervalCols f)) true
  have e4 : clean = f := by
    have : clean.cols = f.cols := by
      rw [g4, List.filter_eq_self]
      exact fun c hc => decide_eq_true (hk c hc)
    cases clean
    simp only at this hrows
    rw [this, hrows]
  have e5 : icc = [] := by rw [g5, hg]; rfl
  subst e4 e5
  have hclean : w1.heap[1]? = some f := by rw [h2]; rfl
  have hexec : (significanceMatrix trueSig R fl pf 0 none (.one (.num 10)) "asymptotic" true true true).exec ⟨[f], []⟩ =
      match (binData fl pf 1 [] (.one (.num 10)) false).exec w1 with
      | (.error e, w2) => (.error e, w2)
      | (.ok (r2, _), w2) => (sigFromRebinned trueSig R r2 "asymptotic" true true true).exec w2 := by
    unfold significanceMatrix
    rw [M.exec_bind, M.exec_read_of (f := f) rfl]
    simp only [M.exec_bind, h1]
    change (match (binData fl pf 1 [] (.one (.num 10)) false).exec w1 with | _ => _) = _
    rcases (binData fl pf 1 [] (.one (.num 10)) false).exec w1 with ⟨res, w2⟩
    cases res <;> rfl
  have hc : binDataCore fl pf f [] (.one (.num 10)) false = .ok (f, []) := rfl
  rw [binData_exec fl pf hclean, hc] at hexec
  have hout : (w1.heap ++ [f])[w1.heap.length]? = some f := by simp
  obtain ⟨t, w', h, g⟩ := significance_returns (S := trueSig) (method := "asymptotic") (R := R) hS (r := w1.heap.length)
    (w := ⟨w1.heap ++ [f], w1.warns⟩) (f := f) hout hn true true true
  obtain ⟨d1, m1, d2, m2, n1, n2, hs⟩ := g 1 "a" "b" rfl
  have hm : IsSigMatrix trueSig R "asymptotic" true true true f t := by
    rcases significance_of_frame trueSig R "asymptotic" (r := w1.heap.length) (w := ⟨w1.heap ++ [f], w1.warns⟩) hout hn true true true with ⟨t', w'', e, hm, -⟩ | ⟨e', w'', e, -⟩
    · rw [h] at e
      cases e
      exact hm
    · rw [h] at e
      cases e
  have e1 : d1 = ca := by rw [← colOf_name hn m1, n1]; rfl
  have e2 : d2 = cb := by rw [← colOf_name hn m2, n2]; rfl
  have hne : t.v "a" "b" ≠ none := by
    intro q
    obtain ⟨T, hT, few⟩ := hs.1 q
    rw [e1, e2] at hT
    have two : ∀ {l : List Cell} {u v : Cell}, u ≠ v → u ∈ l → v ∈ l → 2 ≤ l.length := by
      intro l u v huv hu hv
      by_contra hlt
      match l, hlt with
      | [], _ => simp at hu
      | [x], _ => simp at hu hv; exact huv (hu.trans hv.symm)
      | _ :: _ :: _, hlt => simp at hlt
    have r1 := two (l := T.rows) (u := .str "x") (v := .str "y") (by decide)
      ((hT.rows_mem _).2 ⟨.str "u", by simp [records, hca, hcb, view]⟩)
      ((hT.rows_mem _).2 ⟨.str "v", by simp [records, hca, hcb, view]⟩)
    have r2 := two (l := T.cols) (u := .str "u") (v := .str "v") (by decide)
      ((hT.cols_mem _).2 ⟨.str "x", by simp [records, hca, hcb, view]⟩)
      ((hT.cols_mem _).2 ⟨.str "y", by simp [records, hca, hcb, view]⟩)
    omega
  obtain ⟨z, hz⟩ := Option.ne_none_iff_exists'.1 hne
  exact ⟨f, t, w', z, ⟨by simp [hf, hca, hcb], hn⟩, hg, by rw [hexec]; exact h, by rw [hm.rows]; simp [hf, hca, hcb, Frame.names],
    by rw [hm.rows]; simp [hf, hca, hcb, Frame.names], hz⟩

end Phik.Props
