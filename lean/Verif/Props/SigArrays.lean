import Verif.Props.SigMatrix
import Verif.Props.Arrays

/-! # Properties C33 (totality) and C59: significances from arrays -/

namespace Phik.Props

open Phik.Spec Phik

variable {F : Type}

/-- What the caller can rely on when simulating: draws, method, statistic, schedule. -/
structure GoodRun (R : SimRun F) (n : ℝ) : Prop where
  draws : ∀ i, GoodDraws (R.draws i)
  method : R.method ∈ ["multinominal", "row_product_multinominal", "col_product_multinominal"] ∨
    R.method = "hypergeometric" ∧ CanSample R.env n
  lambda : R.lambda ∈ ["pearson", "log-likelihood", "cressie-read"]
  sched : ValidSched R.nsim R.sched

/-- **C33 (totality, Monte-Carlo method).** With the Monte-Carlo method the matrix is returned for every
frame with distinct column names, every sampling method and all draws. -/
theorem significance_mc_returns (S : SigNum) {R : ℕ → SimRun F} {r : Ref} {w : World}
    {f : Frame} (hr : w.heap[r]? = some f) (hn : f.names.Nodup) (dropna du dof : Bool)
    (hR : ∀ k (n : ℝ), 0 < n → n ≤ f.nrows → GoodRun (R k) n) (hsim : ∀ k, 0 < (R k).nsim)
    (hlen : ∀ c ∈ f.cols, c.cells.length = f.nrows) :
    ∃ t w', (sigFromRebinned S R r "MC" dropna du dof).exec w = (.ok t, w') ∧
      IsSigMatrix S R "MC" dropna du dof f t := by
  rcases significance_of_frame S R "MC" hr hn dropna du dof with
    ⟨t, w', h1, h2, -⟩ | ⟨e, w', -, -, k, ca, ha, cb, hb, -, h, ht, h2r, h2c, he⟩
  · exact ⟨t, w', h1, h2⟩
  · exfalso
    have hd := table_data ht
    have hc : IsCount h.values := data_count hd h2r
    have hle : h.values.total ≤ f.nrows := by
      obtain ⟨-, -, h3⟩ := table_totals ht
      have h4 : h.values.total = ((∑ i, ∑ j, h.v i j : ℕ) : ℝ) := by
        push_cast; rfl
      have h6 : ∑ i, ∑ j, h.v i j ≤ (records dropna du dof ca cb).length := by
        refine le_trans (le_of_eq h3) (List.countP_le_length)
      rw [h4]
      have h5 : (records dropna du dof ca cb).length = f.nrows := by
        unfold records
        rw [List.length_map, List.length_zip, hlen ca ha, hlen cb hb, min_self]
      rw [h5] at h6
      exact_mod_cast h6
    have hg := hR k h.values.total hc.pos hle
    obtain ⟨x, l, -, -, -, h7⟩ := mc_returns S hg.draws hd h2r h2c hg.method hg.lambda (hsim k) hg.sched
    rw [he] at h7
    cases h7

/-- The hypotheses of `significance_mc_returns` can be met, with the true distribution functions: a frame
of two text columns (with missing values) and the hypergeometric sampler. -/
example (hw : World) : ∃ t w', (sigFromRebinned trueSig
      (fun _ => (⟨exactEnv, fun i => seeded (i % 10 : ℕ), some [2, 0, 1], 3, "pearson", "hypergeometric"⟩ :
        SimRun ℚ)) hw.heap.length "MC" true true true).exec
      { hw with heap := hw.heap ++ [⟨4, [⟨"a", false, [.str "x", .str "y", .str "y", .nan]⟩,
        ⟨"b", false, [.str "u", .str "u", .str "v", .str "v"]⟩]⟩] } = (.ok t, w') ∧ t.rows = ["a", "b"] := by
  have hg : ∀ n : ℝ, 0 < n → n ≤ ((4 : ℕ) : ℝ) → GoodRun (⟨exactEnv, fun i => seeded (i % 10 : ℕ),
      some [2, 0, 1], 3, "pearson", "hypergeometric"⟩ : SimRun ℚ) n := by
    intro n h0 h4
    refine ⟨fun i => seeded_good (by positivity) (by omega), .inr ⟨rfl, ?_⟩, by simp,
      fun o h => by cases h; decide⟩
    have h4' : n ≤ 4 := by exact_mod_cast h4
    exact ⟨rfl, exactEnv_round, exactEnv_laws, by linarith, by norm_num [exactEnv]; linarith, le_rfl⟩
  obtain ⟨t, w', h1, h2⟩ := significance_mc_returns trueSig
    (R := fun _ => (⟨exactEnv, fun i => seeded (i % 10 : ℕ), some [2, 0, 1], 3, "pearson", "hypergeometric"⟩ :
        SimRun ℚ)) (r := hw.heap.length) (w := { hw with heap := hw.heap ++ [⟨4, [⟨"a", false, [.str "x",
        .str "y", .str "y", .nan]⟩, ⟨"b", false, [.str "u", .str "u", .str "v", .str "v"]⟩]⟩] })
    (f := ⟨4, [⟨"a", false, [.str "x", .str "y", .str "y", .nan]⟩,
        ⟨"b", false, [.str "u", .str "u", .str "v", .str "v"]⟩]⟩) (by simp) (by simp [Frame.names])
    true true true (fun _ => hg) (fun _ => by norm_num) (by simp)
  exact ⟨t, w', h1, h2.rows⟩

/-- **C59 (`significance_from_binned_array`).** Arrays of equal length: (NaN, NaN) if the table of the
prepared entries has fewer than two rows or columns, otherwise what `significance_from_hist2d` gives for
that table; no frame is touched.  Arrays of different length: ValueError. -/
theorem significance_array (S : SigNum) (R : SimRun F) (render : ℚ → String) (x y : List Cell)
    (method : String) (dropna du dof : Bool) (w : World) :
    (x.length ≠ y.length →
      (sigFromBinnedArray S R render x y method dropna du dof).exec w = (.error .value, w)) ∧
    (x.length = y.length →
      ∃ res w', (sigFromBinnedArray S R render x y method dropna du dof).exec w = (res, w') ∧
        w'.heap = w.heap ∧
        ∃ h, IsTable (((prepArray render dropna du dof x).zip (prepArray render dropna du dof y)).map
            fun p => (p.1.opt, p.2.opt)) h ∧
          (Few h ∧ res = .ok (none, none) ∨ ¬ Few h ∧ res = sigFromHist2d S R h.values method)) := by
  constructor
  · intro h
    unfold sigFromBinnedArray
    rw [if_pos h]
    rfl
  · intro hlen
    have ht := histOfPairs_table ((prepArray render dropna du dof x).zip (prepArray render dropna du dof y))
    unfold sigFromBinnedArray
    simp only [hlen, ne_eq, not_true_eq_false, if_false]
    set h := histOfPairs ((prepArray render dropna du dof x).zip (prepArray render dropna du dof y)) with hh
    obtain ⟨ws, e, -⟩ := dqCheckHist2d_exec h.rows.length h.cols.length w
    rw [M.exec_bind, e]
    by_cases hs : 2 ≤ h.rows.length ∧ 2 ≤ h.cols.length
    · simp only [hs, and_self, decide_true, Bool.not_true, Bool.false_eq_true, if_false, M.exec_ofExcept]
      exact ⟨_, _, rfl, rfl, h, ht, .inr ⟨by unfold Few; omega, rfl⟩⟩
    · simp only [hs, decide_false, Bool.not_false, if_true]
      exact ⟨_, _, rfl, rfl, h, ht, .inl ⟨by unfold Few; omega, rfl⟩⟩

/-- Prepared arrays are renamed records, with a renaming that keeps different values apart. -/
theorem prep_records {render : ℚ → String} {x y : List Cell} (hx : GoodRender render x)
    (hy : GoodRender render y) (dropna du dof : Bool)
    (hn : (Cell.nan ∉ x ∧ Cell.nan ∉ y) ∨ dropna = false ∨ (du = false ∧ dof = false)) :
    ((prepArray render dropna du dof x).zip (prepArray render dropna du dof y)).map
        (fun p => (p.1.opt, p.2.opt)) = (records dropna du dof ⟨"x", false, x⟩ ⟨"y", false, y⟩).map
          fun p => (p.1.map (rendering render dropna du dof), p.2.map (rendering render dropna du dof)) := by
  have hnx : Cell.nan ∉ x ∨ dropna = false ∨ (du = false ∧ dof = false) := hn.imp_left And.left
  have hny : Cell.nan ∉ y ∨ dropna = false ∨ (du = false ∧ dof = false) := hn.imp_left And.right
  rw [prepArray_eq, prepArray_eq, List.zip_map]
  unfold records
  rw [List.map_map, List.map_map]
  apply List.map_congr_left
  rintro ⟨a, b⟩ hab
  obtain ⟨ha, hb⟩ := List.of_mem_zip hab
  simp only [Function.comp, Prod.map, prep_view hx hnx ha, prep_view hy hny hb]

/-- Tables that differ by the order of rows and columns. -/
theorem sameTable_reindex {a b : Arr2 ℝ} (e : Fin a.r ≃ Fin b.r) (f : Fin a.c ≃ Fin b.c)
    (h : ∀ i j, b.v (e i) (f j) = a.v i j) : SameTable a b := by
  refine ⟨⟨fun i => ⟨e i.1, ?_⟩, fun i => ⟨e.symm i.1, ?_⟩, ?_, ?_⟩,
    ⟨fun j => ⟨f j.1, ?_⟩, fun j => ⟨f.symm j.1, ?_⟩, ?_, ?_⟩, ?_⟩
  · obtain ⟨j, hj⟩ := i.2; exact ⟨f j, by rwa [h]⟩
  · obtain ⟨j, hj⟩ := i.2
    refine ⟨f.symm j, ?_⟩
    rw [← h]; simpa using hj
  · intro i; simp
  · intro i; simp
  · obtain ⟨i, hj⟩ := j.2; exact ⟨e i, by rwa [h]⟩
  · obtain ⟨i, hj⟩ := j.2
    refine ⟨e.symm i, ?_⟩
    rw [← h]; simpa using hj
  · intro i; simp
  · intro i; simp
  · intro i j; exact h i.1 j.1

/-- **C59 (agreement with the matrix).** With the asymptotic method the array interface gives the
significance of the records as `significance_from_rebinned_df` sees them, under the conditions of C26. -/
theorem significance_array_agrees (S : SigNum) (R : SimRun F) {render : ℚ → String} {x y : List Cell}
    (hlen : x.length = y.length) (hx : GoodRender render x) (hy : GoodRender render y)
    (dropna du dof : Bool)
    (hn : (Cell.nan ∉ x ∧ Cell.nan ∉ y) ∨ dropna = false ∨ (du = false ∧ dof = false)) (w : World)
    {p : Option ℝ} {v : Option EReal} {w' : World}
    (hrun : (sigFromBinnedArray S R render x y "asymptotic" dropna du dof).exec w = (.ok (p, v), w')) :
    IsSig S R "asymptotic" (records dropna du dof ⟨"x", false, x⟩ ⟨"y", false, y⟩) v := by
  obtain ⟨res, w'', h1, -, h', ht', hc⟩ := (significance_array S R render x y "asymptotic" dropna du dof w).2 hlen
  rw [hrun] at h1
  cases h1
  rw [prep_records hx hy dropna du dof hn] at ht'
  obtain ⟨h, ht⟩ := exists_table (records dropna du dof ⟨"x", false, x⟩ ⟨"y", false, y⟩)
  have hrec : ∀ a b, (some a, some b) ∈ records dropna du dof ⟨"x", false, x⟩ ⟨"y", false, y⟩ →
      ∃ c d, c ∈ x ∧ d ∈ y ∧ view dropna du dof c = some a ∧ view dropna du dof d = some b := by
    intro a b h
    obtain ⟨⟨c, d⟩, h1, h2⟩ := List.mem_map.1 h
    obtain ⟨hc, hd⟩ := List.of_mem_zip h1
    simp only [Prod.mk.injEq] at h2
    exact ⟨c, d, hc, hd, h2.1, h2.2⟩
  obtain ⟨e, f, hl1, hl2, hval⟩ := table_rename
    (fun a b a' b' h h' he => by
      obtain ⟨c, -, hc, -, ha, -⟩ := hrec a b h
      obtain ⟨c', -, hc', -, ha', -⟩ := hrec a' b' h'
      exact rendering_inj hx hc hc' ha ha' he)
    (fun a b a' b' h h' he => by
      obtain ⟨-, d, -, hd, -, hb⟩ := hrec a b h
      obtain ⟨-, d', -, hd', -, hb'⟩ := hrec a' b' h'
      exact rendering_inj hy hd hd' hb hb' he) ht ht'
  have hfew : Few h' ↔ Few h := by unfold Few; rw [hl1, hl2]
  refine ⟨h, ht, ?_⟩
  rcases hc with ⟨h1, h2⟩ | ⟨h1, h2⟩
  · cases h2; exact .inl ⟨hfew.1 h1, rfl⟩
  · refine .inr ⟨fun hf => h1 (hfew.2 hf), p, ?_⟩
    rw [h2]
    have hsame : SameTable h.values h'.values := sameTable_reindex (a := h.values) (b := h'.values) e f
      fun i j => congrArg (Nat.cast (R := ℝ)) (hval i j)
    unfold sigFromHist2d sigAsymptotic
    rw [get_chi2_sameTable hsame]
    have : theoreticalNdof h.values = theoreticalNdof h'.values := by
      rw [theoretical_ndof_value, theoretical_ndof_value]
      change ((h.rows.length : ℤ) - 1) * ((h.cols.length : ℤ) - 1) =
        ((h'.rows.length : ℤ) - 1) * ((h'.cols.length : ℤ) - 1)
      rw [hl1, hl2]
    rw [this]
    rfl

/-- **C59 (`significance_from_array`, nothing to bin).** Without variables to bin: ValueError for arrays of different
length, otherwise (NaN, NaN) or what `significance_from_hist2d` gives for the table of the arrays as given. -/
theorem significance_from_array_plain (S : SigNum) (R : SimRun F) (render : ℚ → String) (fl : ℚ → ℚ)
    (pf : String → Option (Option ℚ)) (x y : List Cell) (bins : Bins) (quantile : Bool) (method : String)
    (dropna du dof : Bool) (w : World) :
    (x.length ≠ y.length →
      (sigFromArray S R render fl pf x y [] bins quantile method dropna du dof).exec w = (.error .value, w)) ∧
    (x.length = y.length →
      ∃ res w', (sigFromArray S R render fl pf x y [] bins quantile method dropna du dof).exec w = (res, w') ∧
        w'.heap = w.heap ∧
        ∃ h, IsTable (((prepArray render dropna du dof x).zip (prepArray render dropna du dof y)).map
            fun p => (p.1.opt, p.2.opt)) h ∧
          (Few h ∧ res = .ok (none, none) ∨ ¬ Few h ∧ res = sigFromHist2d S R h.values method)) :=
  significance_array S R render x y method dropna du dof w

/-- **C59 (`significance_from_array`).** With variables to bin it is `bin_data` on the frame of the two arrays
followed by the significance of the two binned columns: it raises what `bin_data` raises, otherwise it gives
(NaN, NaN) or what `significance_from_hist2d` gives for the table of the two binned columns.  Existing frames are
unchanged. -/
theorem significance_from_array_result (S : SigNum) (R : SimRun F) (render : ℚ → String) (fl : ℚ → ℚ)
    (pf : String → Option (Option ℚ)) {x y : List Cell} (hlen : x.length = y.length) {numVars : List String}
    (hnv : numVars ≠ []) (bins : Bins) (quantile : Bool) (method : String) (dropna du dof : Bool) (w : World) :
    ∃ res w', (sigFromArray S R render fl pf x y numVars bins quantile method dropna du dof).exec w = (res, w') ∧
      w.heap <+: w'.heap ∧
      ((∃ e, res = .error e ∧ ((binData fl pf w.heap.length numVars bins quantile).exec
        ⟨w.heap ++ [arrayFrame render x y], w.warns⟩).1 = .error e) ∨
       ∃ r' dict w1 out cx cy, (binData fl pf w.heap.length numVars bins quantile).exec
          ⟨w.heap ++ [arrayFrame render x y], w.warns⟩ = (.ok (r', dict), w1) ∧
        w1.heap[r']? = some out ∧ out.cols = [cx, cy] ∧ cx.name = "x" ∧ cy.name = "y" ∧
        cx.cells.length = cy.cells.length ∧
        ∃ h, IsTable (((prepArray render dropna du dof cx.cells).zip (prepArray render dropna du dof cy.cells)).map
            fun p => (p.1.opt, p.2.opt)) h ∧
          (Few h ∧ res = .ok (none, none) ∨ ¬ Few h ∧ res = sigFromHist2d S R h.values method)) := by
  have hpos : numVars.length > 0 := List.length_pos_iff.2 hnv
  set df : Frame := arrayFrame render x y with hdf
  have hframe : arraysToFrame render x y = .ok df := arraysToFrame_eq render hlen
  have hwf : df.WF := arrayFrame_wf render hlen
  have hr : (w.heap ++ [df])[w.heap.length]? = some df := by simp
  unfold sigFromArray
  simp only [hpos, if_true, hframe, M.exec_bind, M.exec_ofExcept, M.exec_alloc]
  rw [binData_exec fl pf (w := ⟨w.heap ++ [df], w.warns⟩) hr]
  cases hc : binDataCore fl pf df numVars bins quantile with
  | error e => exact ⟨_, _, rfl, by simp, .inl ⟨e, rfl, rfl⟩⟩
  | ok p =>
    obtain ⟨out, dict⟩ := p
    simp only
    have hout : (w.heap ++ [df] ++ [out])[(w.heap ++ [df]).length]? = some out := by
      rw [List.getElem?_append_right le_rfl]; simp
    obtain ⟨g1, g2⟩ := binDataCore_names hc
    have hwo := binDataCore_wf hwf hc
    have hcols : ∃ cx cy, out.cols = [cx, cy] ∧ cx.name = "x" ∧ cy.name = "y" := by
      have : out.cols.map (·.name) = ["x", "y"] := g1.trans (arrayFrame_names render x y)
      have hlen2 : out.cols.length = 2 := by simpa using congrArg List.length this
      obtain ⟨a, b, hab⟩ := List.length_eq_two.1 hlen2
      rw [hab] at this
      simp only [List.map_cons, List.map_nil, List.cons.injEq, and_true] at this
      exact ⟨a, b, hab, this.1, this.2⟩
    obtain ⟨cx, cy, hco, nx, ny⟩ := hcols
    rw [M.exec_read_of hout]
    simp only [hco]
    have hl2 : cx.cells.length = cy.cells.length := by
      rw [hwo.len cx (by rw [hco]; simp), hwo.len cy (by rw [hco]; simp)]
    obtain ⟨res, w', e1, e2, e3⟩ :=
      (significance_array S R render cx.cells cy.cells method dropna du dof ⟨w.heap ++ [df] ++ [out], w.warns⟩).2 hl2
    refine ⟨res, w', e1, ?_, .inr ⟨_, dict, _, out, cx, cy, rfl, hout, hco, nx, ny, hl2, e3⟩⟩
    rw [e2, List.append_assoc]; exact List.prefix_append _ _

end Phik.Props
