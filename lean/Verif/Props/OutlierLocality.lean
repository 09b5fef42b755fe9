import Verif.Props.Locality
import Verif.Props.OutlierPairs
import Verif.Props.OutlierNull

/-! # Property C67 for outlier matrices: the matrix of a pair depends on its own two columns only -/

namespace Phik

open Spec Props Out

namespace Props

/-- The arguments of a call the properties of outlier matrices speak about: distinct column names without colons, an entry of
`bins` with ascending edges or a number for each interval column, values of interval columns representable in the
arithmetic. -/
structure OutlierArgs (fl : ℚ → ℚ) (pf : String → Option (Option ℚ)) (bins : Bins) (ics : List String) (data : Frame) : Prop where
  nodup : data.names.Nodup
  entries : ∀ name ∈ ics, ∃ s, EntryFor bins name s
  sorted : ∀ name ∈ ics, ∀ s, EntryFor bins name s → SortedSpec s
  exact : ∀ c ∈ data.cols, c.name ∈ ics → ∀ x ∈ c.cells, ∀ q, toFloat pf x = .ok (some q) → fl q = q

theorem edgesFor_unique {fl : ℚ → ℚ} {pf : String → Option (Option ℚ)} {quantile : Bool} {bins : Bins} {ic ic' : List String}
    {c : Column} (hi : c.name ∈ ic ↔ c.name ∈ ic') {e e' : Option (List ℚ)} (h : EdgesFor fl pf quantile bins ic c e)
    (h' : EdgesFor fl pf quantile bins ic' c e') : e = e' := by
  cases e with
  | none =>
    cases e' with
    | none => rfl
    | some _ => exact absurd (hi.2 h'.1) h
  | some _ =>
    cases e' with
    | none => exact absurd (hi.1 h.1) h'
    | some _ =>
      obtain ⟨-, arr, s, h1, h2, h3⟩ := h
      obtain ⟨-, arr', s', h1', h2', h3'⟩ := h'
      obtain rfl : arr = arr' := by rw [h1] at h1'; exact Except.ok.inj h1'
      obtain rfl := entryFor_unique h2 h2'
      rw [requested_unique h3 h3']

theorem outTab_ext {t u : OutTab} (h1 : t.rows = u.rows) (h2 : t.cols = u.cols)
    (h3 : ∀ i j i' j', i'.val = i.val → j'.val = j.val → t.v i j = u.v i' j') : t = u := by
  obtain ⟨r, c, v⟩ := t
  obtain ⟨r', c', v'⟩ := u
  simp only at h1 h2
  subst h1 h2
  congr 1
  funext i j
  exact h3 i j i j rfl rfl

theorem isOutlierMatrix_unique {N : OutNum} {fmt : ℚ → String} {ci : String} {ra rb : List Category}
    {n : Fin ra.length → Fin rb.length → ℕ} {x y : Except Err (Option OutTab)} (hx : IsOutlierMatrix N fmt ci ra rb n x)
    (hy : IsOutlierMatrix N fmt ci ra rb n y) : x = y := by
  rcases x with e | _ | t <;> rcases y with e' | _ | u
  · have := hx.2.2.symm.trans hy.2.2; rw [Except.error.inj this]
  · obtain ⟨h1, h2, -⟩ := hx; rcases hy with h | h <;> omega
  · obtain ⟨-, -, -, -, z, hz, -⟩ := hy; rw [hx.2.2] at hz; cases hz
  · obtain ⟨h1, h2, -⟩ := hy; rcases hx with h | h <;> omega
  · rfl
  · obtain ⟨h1, h2, -⟩ := hy; rcases hx with h | h <;> omega
  · obtain ⟨-, -, -, -, z, hz, -⟩ := hx; rw [hy.2.2] at hz; cases hz
  · obtain ⟨h1, h2, -⟩ := hx; rcases hy with h | h <;> omega
  · obtain ⟨-, -, hr, hc, z, hz, hv⟩ := hx
    obtain ⟨-, -, hr', hc', z', hz', hv'⟩ := hy
    rw [hz] at hz'
    obtain rfl : z = z' := by simpa using hz'
    congr 2
    refine outTab_ext (hr.trans hr'.symm) (hc.trans hc'.symm) fun i j i' j' h1 h2 => ?_
    have li : i.val < ra.length := i.2.trans_eq (by rw [hr, List.length_map])
    have lj : j.val < rb.length := j.2.trans_eq (by rw [hc, List.length_map])
    rw [hv i j ⟨i, li⟩ ⟨j, lj⟩ rfl rfl, hv' i' j' ⟨i, li⟩ ⟨j, lj⟩ h1.symm h2.symm]

/-- Edges and columns determine the outlier matrix. -/
theorem outlier_unique {N : OutNum} {fmt : ℚ → String} {ci : String} {fl : ℚ → ℚ} {pf : String → Option (Option ℚ)}
    {quantile dropna du dof : Bool} {bins : Bins} {ic ic' : List String} {a b : Column}
    (hia : a.name ∈ ic ↔ a.name ∈ ic') (hib : b.name ∈ ic ↔ b.name ∈ ic') {x y : Except Err (Option OutTab)}
    (hx : ∃ ea eb ra rb n, EdgesFor fl pf quantile bins ic a ea ∧ EdgesFor fl pf quantile bins ic b eb ∧
      Counts pf dropna du dof ea eb a b ra rb n ∧ IsOutlierMatrix N fmt ci ra rb n x)
    (hy : ∃ ea eb ra rb n, EdgesFor fl pf quantile bins ic' a ea ∧ EdgesFor fl pf quantile bins ic' b eb ∧
      Counts pf dropna du dof ea eb a b ra rb n ∧ IsOutlierMatrix N fmt ci ra rb n y) : x = y := by
  obtain ⟨ea, eb, ra, rb, n, h1, h2, h3, h4⟩ := hx
  obtain ⟨ea', eb', ra', rb', n', k1, k2, k3, k4⟩ := hy
  obtain rfl := edgesFor_unique hia h1 k1
  obtain rfl := edgesFor_unique hib h2 k2
  obtain rfl : ra = ra' := by
    refine categories_unique (pf := pf) (dropna := dropna) (du := du) (dof := dof) (e := ea) (xs := a.cells) h3.rows_order
      k3.rows_order (fun c => by rw [h3.rows_mem, k3.rows_mem]) fun c hc => ?_
    obtain ⟨p, hp, hb, -⟩ := (h3.rows_mem c).1 hc
    exact ⟨p.1, (List.of_mem_zip hp).1, hb⟩
  obtain rfl : rb = rb' := by
    refine categories_unique (pf := pf) (dropna := dropna) (du := du) (dof := dof) (e := eb) (xs := b.cells) h3.cols_order
      k3.cols_order (fun c => by rw [h3.cols_mem, k3.cols_mem]) fun c hc => ?_
    obtain ⟨p, hp, -, hb⟩ := (h3.cols_mem c).1 hc
    exact ⟨p.2, (List.of_mem_zip hp).2, hb⟩
  obtain rfl : n = n' := by
    funext i j
    rw [h3.counts, k3.counts]
  exact isOutlierMatrix_unique h4 k4

open scoped Classical in
/-- The entry of a pair of columns in the result. -/
theorem outlier_entry (N : OutNum) (fmt : ℚ → String) {fl : ℚ → ℚ} (hfl : fl = (fun x => x) ∨ fl = rne53)
    {pf : String → Option (Option ℚ)} {bins : Bins} {ci : String} {quantile dropna du dof : Bool} {r : Ref} {w w' : World}
    {f : Frame} (hr : w.heap[r]? = some f) {ic : Option (List String)}
    (hc : OutlierArgs fl pf bins (ic.getD (guessIntervalCols f)) f) (hcol : ∀ n ∈ f.names, ':' ∉ n.toList)
    {comb : List (String × String)}
    (hcomb : ∀ p ∈ comb, p.1 ≠ p.2 ∧ ∀ n ∈ [p.1, p.2], ∃ c ∈ f.cols, c.name = n ∧ Kept (ic.getD (guessIntervalCols f)) dropna c)
    {d : List (String × Option OutTab)} {dict : List (String × List (ℚ × ℚ))}
    (h : (outlierMatrices N fmt fl pf r ic ci bins quantile comb dropna du dof).exec w = (.ok (d, dict), w'))
    {a b : Column} (ha : a ∈ f.cols) (hb : b ∈ f.cols) {t : Option OutTab} (ht : (a.name ++ ":" ++ b.name, t) ∈ d) :
    ∃ ea eb ra rb n, EdgesFor fl pf quantile bins (ic.getD (guessIntervalCols f)) a ea ∧
      EdgesFor fl pf quantile bins (ic.getD (guessIntervalCols f)) b eb ∧
      Counts pf dropna du dof ea eb a b ra rb n ∧ IsOutlierMatrix N fmt ci ra rb n (.ok t) := by
  set ics := ic.getD (guessIntervalCols f) with hics
  set kept : Frame := ⟨f.nrows, f.cols.filter fun c => decide (Kept ics dropna c)⟩ with hkept
  have hkm : ∀ c, c ∈ kept.cols ↔ c ∈ f.cols ∧ Kept ics dropna c := by
    intro c; simp [hkept, List.mem_filter]
  have hkn : ∀ n ∈ kept.names, n ∈ f.names := by
    intro n hn
    obtain ⟨c, hc, rfl⟩ := List.mem_map.1 hn
    exact List.mem_map_of_mem ((hkm c).1 hc).1
  have hcomb' : ∀ p ∈ comb, p.1 ∈ kept.names ∧ p.2 ∈ kept.names ∧ p.1 ≠ p.2 := by
    intro p hp
    obtain ⟨h1, h2⟩ := hcomb p hp
    refine ⟨?_, ?_, h1⟩
    · obtain ⟨c, m, e, k⟩ := h2 p.1 (by simp)
      rw [← e]; exact List.mem_map_of_mem ((hkm c).2 ⟨m, k⟩)
    · obtain ⟨c, m, e, k⟩ := h2 p.2 (by simp)
      rw [← e]; exact List.mem_map_of_mem ((hkm c).2 ⟨m, k⟩)
  obtain ⟨pairs, hp1, hp2, hres⟩ := outlier_matrices_result N fmt hfl pf hr hc.nodup ic ci bins comb quantile dropna du dof
    hc.entries hc.sorted hc.exact (kept := kept) rfl rfl hcomb'
  have hpk : ∀ p ∈ pairs, p.1 ∈ kept.names ∧ p.2 ∈ kept.names := by
    intro p hp
    by_cases hce : comb = []
    · have := ((hp2 hce).2 p.1 p.2).1 hp
      exact ⟨this.subset (by simp), this.subset (by simp)⟩
    · rw [hp1 hce] at hp
      exact ⟨(hcomb' p hp).1, (hcomb' p hp).2.1⟩
  rw [h] at hres
  rcases hres with ⟨e, he, -⟩ | ⟨g, hg, hres⟩
  · cases he
  rcases hres with ⟨_, _, _, _, -, -, -, he⟩ | ⟨d', dict', hd, hnd, hkeys, hent⟩
  · cases he
  obtain ⟨rfl, rfl⟩ : d = d' ∧ dict = dict' := by simpa using hd
  obtain ⟨hall, -⟩ := hent fun n hn => hcol n (hkn n hn)
  obtain ⟨p, hp, hk⟩ := (hkeys _).1 (List.mem_map_of_mem (f := Prod.fst) ht)
  obtain ⟨m1, m2⟩ := hpk p hp
  have han : a.name ∈ f.names := List.mem_map_of_mem ha
  have hbn : b.name ∈ f.names := List.mem_map_of_mem hb
  obtain ⟨e1, e2⟩ := spark_key_inj (hcol _ han) (hcol _ hbn) (hcol _ (hkn _ m1)) (hcol _ (hkn _ m2)) (by
    unfold pairKey; simpa using congrArg String.toList hk)
  obtain ⟨t', ht1, ht2⟩ := hall p hp
  obtain rfl : t = t' := by
    rw [← e1, ← e2] at ht2
    have := List.inj_on_of_nodup_map hnd ht ht2 rfl
    exact (Prod.ext_iff.1 this).2
  obtain ⟨a', ha', ea'⟩ := List.mem_map.1 m1
  obtain ⟨b', hb', eb'⟩ := List.mem_map.1 m2
  obtain rfl : a' = a := col_unique hc.nodup ((hkm _).1 ha').1 ha (ea'.trans e1.symm)
  obtain rfl : b' = b := col_unique hc.nodup ((hkm _).1 hb').1 hb (eb'.trans e2.symm)
  have := hg a' ha' b' hb'
  rw [e1, e2, ht1] at this
  exact this

open scoped Classical in
/-- **C67 for `outlier_significance_matrices`.** Two calls on frames `f` and `g` that both contain the columns `a` and `b` (in any
order, among different other columns, in different worlds), for all pairs or for some combinations, with the same options, where
`a` and `b` are interval columns in both calls or in neither: if both results contain an outlier matrix of the pair `a:b`, then
it is the same one, labels included. -/
theorem outlier_matrices_local (N : OutNum) (fmt : ℚ → String) {fl : ℚ → ℚ} (hfl : fl = (fun x => x) ∨ fl = rne53)
    (pf : String → Option (Option ℚ)) (bins : Bins) (ci : String) (quantile dropna du dof : Bool)
    {r s : Ref} {w w' x x' : World} {f g : Frame} (hf : w.heap[r]? = some f) (hg : x.heap[s]? = some g)
    {icf icg : Option (List String)}
    (cf : OutlierArgs fl pf bins (icf.getD (guessIntervalCols f)) f) (cg : OutlierArgs fl pf bins (icg.getD (guessIntervalCols g)) g)
    (colf : ∀ n ∈ f.names, ':' ∉ n.toList) (colg : ∀ n ∈ g.names, ':' ∉ n.toList) {combf combg : List (String × String)}
    (hcf : ∀ p ∈ combf, p.1 ≠ p.2 ∧ ∀ n ∈ [p.1, p.2], ∃ c ∈ f.cols, c.name = n ∧ Kept (icf.getD (guessIntervalCols f)) dropna c)
    (hcg : ∀ p ∈ combg, p.1 ≠ p.2 ∧ ∀ n ∈ [p.1, p.2], ∃ c ∈ g.cols, c.name = n ∧ Kept (icg.getD (guessIntervalCols g)) dropna c)
    {d e : List (String × Option OutTab)} {dd ee : List (String × List (ℚ × ℚ))}
    (h1 : (outlierMatrices N fmt fl pf r icf ci bins quantile combf dropna du dof).exec w = (.ok (d, dd), w'))
    (h2 : (outlierMatrices N fmt fl pf s icg ci bins quantile combg dropna du dof).exec x = (.ok (e, ee), x'))
    {a b : Column} (haf : a ∈ f.cols) (hag : a ∈ g.cols) (hbf : b ∈ f.cols) (hbg : b ∈ g.cols)
    (hia : a.name ∈ icf.getD (guessIntervalCols f) ↔ a.name ∈ icg.getD (guessIntervalCols g))
    (hib : b.name ∈ icf.getD (guessIntervalCols f) ↔ b.name ∈ icg.getD (guessIntervalCols g))
    {t u : Option OutTab} (ht : (a.name ++ ":" ++ b.name, t) ∈ d) (hu : (a.name ++ ":" ++ b.name, u) ∈ e) : t = u :=
  Except.ok.inj (outlier_unique hia hib (outlier_entry N fmt hfl hf cf colf hcf h1 haf hbf ht)
    (outlier_entry N fmt hfl hg cg colg hcg h2 hag hbg hu))

open scoped Classical in
/-- **C67 for `outlier_significance_matrix`.** The outlier matrix of a frame with the two columns `a` and `b` only is the one that
`outlier_significance_matrices` has for this pair, called with the same options on any frame that contains these columns. -/
theorem outlier_matrix_same (N : OutNum) (fmt : ℚ → String) {fl : ℚ → ℚ} (hfl : fl = (fun x => x) ∨ fl = rne53)
    (pf : String → Option (Option ℚ)) (bins : Bins) (ci : String) (quantile dropna du dof : Bool)
    {r s : Ref} {w w' x x' : World} {f g : Frame} (hf : w.heap[r]? = some f) (hg : x.heap[s]? = some g)
    {icf icg : Option (List String)}
    (cf : OutlierArgs fl pf bins (icf.getD (guessIntervalCols f)) f) (cg : OutlierArgs fl pf bins (icg.getD (guessIntervalCols g)) g)
    (colg : ∀ n ∈ g.names, ':' ∉ n.toList) {combg : List (String × String)}
    (hcg : ∀ p ∈ combg, p.1 ≠ p.2 ∧ ∀ n ∈ [p.1, p.2], ∃ c ∈ g.cols, c.name = n ∧ Kept (icg.getD (guessIntervalCols g)) dropna c)
    {t : Option OutTab} {e : List (String × Option OutTab)} {dd ee : List (String × List (ℚ × ℚ))} {a b : Column}
    (hab : f.cols = [a, b]) (ka : Kept (icf.getD (guessIntervalCols f)) dropna a) (kb : Kept (icf.getD (guessIntervalCols f)) dropna b)
    (hag : a ∈ g.cols) (hbg : b ∈ g.cols)
    (h1 : (outlierMatrix N fmt fl pf r icf ci bins quantile dropna du dof).exec w = (.ok (t, dd), w'))
    (h2 : (outlierMatrices N fmt fl pf s icg ci bins quantile combg dropna du dof).exec x = (.ok (e, ee), x'))
    (hia : a.name ∈ icf.getD (guessIntervalCols f) ↔ a.name ∈ icg.getD (guessIntervalCols g))
    (hib : b.name ∈ icf.getD (guessIntervalCols f) ↔ b.name ∈ icg.getD (guessIntervalCols g))
    {u : Option OutTab} (hu : (a.name ++ ":" ++ b.name, u) ∈ e) : t = u := by
  have hn : a.name ≠ b.name := by
    have := cf.nodup
    unfold Frame.names at this
    rw [hab] at this
    simpa using this
  have hx := outlier_matrix_labels N fmt hfl pf hf hab hn icf ci bins quantile dropna du dof cf.entries cf.sorted cf.exact ka kb
  rw [h1] at hx
  rcases hx with ⟨_, he, -⟩ | hx
  · cases he
  · exact Except.ok.inj (outlier_unique hia hib hx (outlier_entry N fmt hfl hg cg colg hcg h2 hag hbg hu))

open scoped Classical in
/-- With exact functions and numeric interval columns `outlier_significance_matrices` returns a result, and it has an entry for
every pair of columns that pass the quality check. -/
theorem outlier_matrices_returns {N : OutNum} (hN : OutExact N) {ci : String} (hci : GoodCI N ci) (fmt : ℚ → String) {fl : ℚ → ℚ}
    (hfl : fl = (fun x => x) ∨ fl = rne53) (pf : String → Option (Option ℚ)) (bins : Bins) (quantile dropna du dof : Bool)
    {r : Ref} {w : World} {f : Frame} (hf : w.heap[r]? = some f) {ic : Option (List String)}
    (cf : OutlierArgs fl pf bins (ic.getD (guessIntervalCols f)) f)
    (hnum : ∀ c ∈ f.cols, c.name ∈ ic.getD (guessIntervalCols f) → ∀ s, Cell.str s ∉ c.cells) :
    ∃ d dict w', (outlierMatrices N fmt fl pf r ic ci bins quantile [] dropna du dof).exec w = (.ok (d, dict), w') ∧
      ∀ a b, [a, b].Sublist f.cols → Kept (ic.getD (guessIntervalCols f)) dropna a → Kept (ic.getD (guessIntervalCols f)) dropna b →
        ∃ t, (a.name ++ ":" ++ b.name, t) ∈ d := by
  set ics := ic.getD (guessIntervalCols f) with hics
  set kept : Frame := ⟨f.nrows, f.cols.filter fun c => decide (Kept ics dropna c)⟩ with hkept
  obtain ⟨pairs, -, hp2, hres⟩ := outlier_matrices_result N fmt hfl pf hf cf.nodup ic ci bins [] quantile dropna du dof
    cf.entries cf.sorted cf.exact (kept := kept) rfl rfl (by simp)
  obtain ⟨hpn, hpm⟩ := hp2 rfl
  have hgood : ∀ n ∈ ics, ∃ s, EntryFor bins n s ∧ GoodEntry s := by
    intro n hn
    obtain ⟨s, hs⟩ := cf.entries n hn
    refine ⟨s, hs, ?_⟩
    have := cf.sorted n hn s hs
    cases s with
    | edges l => exact .inl ⟨l, rfl⟩
    | num q => exact .inr ⟨q, rfl, zero_le_one.trans this.1⟩
    | other => exact this.elim
  obtain ⟨icc, w1, clean, ws, g1, g2, gnr, g4, g5, -⟩ := dq_check hf cf.nodup ics dropna
  have hclean : clean = kept := by
    cases clean
    simp only at gnr g4
    rw [hkept, ← gnr, ← g4]
  obtain ⟨-, v, hv⟩ := prepared_bins fl pf hf cf.nodup ics icc bins quantile dropna g1 (clean := clean) (by rw [g2]; simp) hnum hgood
  rw [hclean, g5] at hv
  rcases hres with ⟨e, -, he⟩ | ⟨g, hg, hres⟩
  · exfalso
    have : (ics.filter fun n => decide (n ∈ clean.names)) = ics.filter fun n => decide (n ∈ kept.names) := by rw [hclean]
    first
      | (rw [this] at hv; rw [hv] at he; cases he)
      | (rw [hv] at he; cases he)
  · have hok : ∀ p ∈ pairs, ∃ t, g p.1 p.2 = .ok t := by
      intro p hp
      have hs := (hpm p.1 p.2).1 hp
      obtain ⟨a, ha, e1⟩ := List.mem_map.1 (hs.subset (by simp : p.1 ∈ [p.1, p.2]))
      obtain ⟨b, hb, e2⟩ := List.mem_map.1 (hs.subset (by simp : p.2 ∈ [p.1, p.2]))
      obtain ⟨ea, eb, ra, rb, n, -, -, -, h4⟩ := hg a ha b hb
      rw [e1, e2] at h4
      cases hq : g p.1 p.2 with
      | ok t => exact ⟨t, rfl⟩
      | error e =>
        rw [hq] at h4
        obtain ⟨z, hz, -⟩ := cellZ_table hN hci n
        rw [h4.2.2] at hz
        cases hz
    rcases hres with ⟨pre, p, post, e, hpp, -, he, -⟩ | ⟨d, dict, hd, hnd, hkeys, -⟩
    · obtain ⟨t, ht⟩ := hok p (by rw [hpp]; simp)
      rw [ht] at he; cases he
    · refine ⟨d, dict, _, Prod.ext hd rfl, fun a b hs ka kb => ?_⟩
      have : [a, b].Sublist kept.cols := by
        have := hs.filter fun c => decide (Kept ics dropna c)
        simpa [ka, kb] using this
      have := (hkeys (a.name ++ ":" ++ b.name)).2 ⟨(a.name, b.name), (hpm _ _).2 (List.Sublist.map Column.name this), rfl⟩
      obtain ⟨⟨k, t⟩, hm, rfl⟩ := List.mem_map.1 this
      exact ⟨t, hm⟩

open scoped Classical in
/-- Non-vacuity: two calls on frames sharing the columns `a` and `b` return, both have an entry for the pair, and it is the same. -/
example {N : OutNum} (hN : OutExact N) (fmt : ℚ → String) (pf : String → Option (Option ℚ)) :
    ∃ d dd w' e ee x' t,
      (outlierMatrices N fmt (fun x => x) pf 0 (some ["a"]) "poisson" (.one (.num 2)) false [] true false false).exec ⟨[exF], []⟩ =
        (.ok (d, dd), w') ∧
      (outlierMatrices N fmt (fun x => x) pf 0 (some ["a"]) "poisson" (.one (.num 2)) false [] true false false).exec
        ⟨[⟨3, [⟨"a", true, [.num 1, .nan, .num 5]⟩, ⟨"b", false, [.str "x", .str "y", .str "y"]⟩]⟩], []⟩ = (.ok (e, ee), x') ∧
      ("a:b", t) ∈ d ∧ ("a:b", t) ∈ e := by
  set fG : Frame := ⟨3, [⟨"a", true, [.num 1, .nan, .num 5]⟩, ⟨"b", false, [.str "x", .str "y", .str "y"]⟩]⟩ with hG
  have hs : SortedSpec (.num 2) := by norm_num [SortedSpec]
  have hsp : ∀ n ∈ ["a"], ∀ s, EntryFor (.one (.num 2)) n s → SortedSpec s := by
    intro n _ s h
    cases h
    exact hs
  have cF : OutlierArgs (fun x => x) pf (.one (.num 2)) ["a"] exF := ⟨by decide, fun n _ => ⟨_, .one _ _⟩, hsp, by intros; rfl⟩
  have cG : OutlierArgs (fun x => x) pf (.one (.num 2)) ["a"] fG := ⟨by decide, fun n _ => ⟨_, .one _ _⟩, hsp, by intros; rfl⟩
  have ka : Kept ["a"] true ⟨"a", true, [.num 1, .nan, .num 5]⟩ := by unfold Kept; rw [← nunique_eq]; decide
  have kb : Kept ["a"] true ⟨"b", false, [.str "x", .str "y", .str "y"]⟩ := by unfold Kept; rw [← nunique_eq]; decide
  obtain ⟨d, dd, w', h1, p1⟩ := outlier_matrices_returns hN (ci := "poisson") (.inl rfl) fmt (fl := fun x => x) (.inl rfl) pf
    (.one (.num 2)) false true false false (r := 0) (w := ⟨[exF], []⟩) (f := exF) rfl (ic := some ["a"]) cF (by
      intro c hc hn s
      simp only [exF, List.mem_cons, List.not_mem_nil, or_false, Option.getD_some] at hc hn
      rcases hc with rfl | rfl | rfl <;> simp_all)
  obtain ⟨e, ee, x', h2, p2⟩ := outlier_matrices_returns hN (ci := "poisson") (.inl rfl) fmt (fl := fun x => x) (.inl rfl) pf
    (.one (.num 2)) false true false false (r := 0) (w := ⟨[fG], []⟩) (f := fG) rfl (ic := some ["a"]) cG (by
      intro c hc hn s
      simp only [hG, List.mem_cons, List.not_mem_nil, or_false, Option.getD_some] at hc hn
      rcases hc with rfl | rfl <;> simp_all)
  obtain ⟨t, ht⟩ := p1 _ _ (by simp only [exF]; decide) ka kb
  obtain ⟨u, hu⟩ := p2 _ _ (by rw [hG]) ka kb
  have := outlier_matrices_local N fmt (fl := fun x => x) (.inl rfl) pf (.one (.num 2)) "poisson" false true false false (f := exF) (g := fG) rfl rfl
    (icf := some ["a"]) (icg := some ["a"]) cF cG (by decide) (by decide) (by simp) (by simp) h1 h2
    (a := ⟨"a", true, [.num 1, .nan, .num 5]⟩) (b := ⟨"b", false, [.str "x", .str "y", .str "y"]⟩)
    (by simp [exF]) (by simp [hG]) (by simp [exF]) (by simp [hG]) Iff.rfl Iff.rfl ht hu
  subst this
  exact ⟨d, dd, w', e, ee, x', t, h1, h2, ht, hu⟩

end Props

end Phik
