import Verif.Props.Phik

/-!
# Properties C20, C22, C27, C54: invariance, round trip, perfect association, theoretical table
-/

namespace Phik.Props

open Spec

/-! ### C27: one variable determines the other -/

/-- The uncorrected chi2 is maximal when the first variable determines the second. -/
theorem determined_sum {a : Arr2 ℝ} (h : IsCount a) (hc : ∀ j, FullCol a j) (hd : Determines a) :
    ∑ i, ∑ j, pearsonCell (a.v i j) (expect a i j) = a.total * ((a.c : ℝ) - 1) := by
  rw [pearson_sum h]
  have key : ∀ i j, a.v i j ^ 2 / expect a i j = a.total * (a.v i j / a.colSum j) := by
    intro i j
    by_cases hv : a.v i j = 0
    · simp [hv]
    have hR : a.rowSum i = a.v i j := by
      refine Finset.sum_eq_single j (fun j' _ hj' => ?_) (fun h => absurd (Finset.mem_univ _) h)
      by_contra hv'
      exact hj' (hd i j' j hv' hv)
    have hC : a.colSum j ≠ 0 := (fullCol_iff h j).1 (hc j)
    change a.v i j ^ 2 / (a.rowSum i * a.colSum j / a.total) = _
    rw [hR]
    have := h.pos.ne'
    field_simp
  simp only [key]
  rw [Finset.sum_comm]
  have : ∀ j, ∑ i, a.total * (a.v i j / a.colSum j) = a.total := by
    intro j
    rw [← Finset.mul_sum, ← Finset.sum_div]
    change a.total * (a.colSum j / a.colSum j) = _
    rw [div_self ((fullCol_iff h j).1 (hc j)), mul_one]
  simp only [this, Finset.sum_const, Finset.card_univ, Fintype.card_fin, nsmul_eq_mul]
  ring

/-- When the first variable determines the second, there are at least as many rows as columns. -/
theorem determined_shape {a : Arr2 ℝ} (hc : ∀ j, FullCol a j) (hd : Determines a) : a.c ≤ a.r := by
  choose f hf using hc
  have : Function.Injective f := by
    intro j j' e
    exact hd (f j) j j' (hf j) (by rw [e]; exact hf j')
  simpa using Fintype.card_le_of_injective f this

/-- **C27.** phik is exactly 1 for every table built from data in which one variable determines the other
(in particular for two identical columns), unless the table is two by two. -/
theorem phik_determined {mvn : ℝ → Rect → ℝ} (hm : MvnSpec mvn)
    {brentq : (ℝ → ℝ) → ℝ → ℝ → ℝ → Except Err ℝ} (hb : BrentqSpec brentq) {a : Arr2 ℝ}
    (h : DataTable a) (hr : 2 ≤ a.r) (hc : 2 ≤ a.c) (h22 : ¬ (a.r = 2 ∧ a.c = 2))
    (hd : Determines a ∨ Determines a.transpose) (noise : Bool) :
    phikFromHist2d mvn brentq a noise = .ok 1 := by
  have ha := data_isCount h hr
  obtain ⟨chi2, ped, mx, x, hchi, -, hmx, -, -, hx, -, -, -, h1, -⟩ := phik_of_data hm hb h hr hc noise
  rw [hx, h1]
  have e1 : nRows a = a.r := by
    unfold nRows; rw [Nat.card_congr (Equiv.subtypeUnivEquiv h.rows), Nat.card_fin]
  have e2 : nCols a = a.c := by
    unfold nCols; rw [Nat.card_congr (Equiv.subtypeUnivEquiv h.cols), Nat.card_fin]
  have hstat : statistic pearsonCell a = ∑ i, ∑ j, pearsonCell (a.v i j) (expect a i j) := by
    unfold statistic
    rw [e1, e2, if_neg (by omega)]
    refine Finset.sum_congr rfl fun i _ => Finset.sum_congr rfl fun j _ => ?_
    rw [if_neg h22]
    split
    · next he => rw [he]; simp [pearsonCell]
    · rfl
  rw [(get_chi2_value ha).1, Except.ok.injEq, hstat] at hchi
  rw [← hchi, hmx]
  rcases hd with hd | hd
  · rw [determined_sum ha h.cols hd]
    have := determined_shape h.cols hd
    rw [min_eq_right (by omega), Nat.cast_sub (by omega)]; simp
  · have h2 := determined_sum (a := a.transpose) (isCount_transpose ha) h.rows hd
    rw [show a.transpose.total = a.total from Finset.sum_comm] at h2
    have h3 := determined_shape (a := a.transpose) h.rows hd
    change a.r ≤ a.c at h3
    have h4 : ∑ i, ∑ j, pearsonCell (a.transpose.v i j) (expect a.transpose i j) =
        ∑ i, ∑ j, pearsonCell (a.v i j) (expect a i j) := by
      rw [Finset.sum_comm]
      refine Finset.sum_congr rfl fun i _ => Finset.sum_congr rfl fun j _ => ?_
      have : expect a.transpose j i = expect a i j := by
        change _ * _ / a.transpose.total = _ * _ / a.total
        rw [show a.transpose.total = a.total from Finset.sum_comm, mul_comm]; rfl
      rw [this]; rfl
    rw [h4] at h2
    rw [h2, min_eq_left (by omega), Nat.cast_sub (by omega)]
    change a.total * ((a.r : ℝ) - 1) = _
    simp

/-- The table of two identical columns with three categories. -/
noncomputable def exDiag : Arr2 ℝ := ⟨3, 3, ![![5, 0, 0], ![0, 2, 0], ![0, 0, 1]]⟩

theorem exDiag_data : DataTable exDiag ∧ Determines exDiag := by
  refine ⟨⟨?_, ?_, ?_⟩, ?_⟩
  · intro i j
    change Fin 3 at i j
    exact ⟨(![![5, 0, 0], ![0, 2, 0], ![0, 0, 1]] : Fin 3 → Fin 3 → ℕ) i j, by fin_cases i <;> fin_cases j <;> simp [exDiag]⟩
  · intro i; change Fin 3 at i; exact ⟨i, by fin_cases i <;> simp [exDiag]⟩
  · intro i; change Fin 3 at i; exact ⟨i, by fin_cases i <;> simp [exDiag]⟩
  · intro i j j'
    change Fin 3 at i j j'
    fin_cases i <;> fin_cases j <;> fin_cases j' <;> simp [exDiag]

theorem corrected_strict {o e : ℝ} (h : o ≠ e) : |corrected o e - e| < |o - e| := by
  unfold corrected
  split
  · simp only [sub_self, abs_zero]; exact abs_pos.2 (sub_ne_zero.2 h)
  · next h1 =>
    split
    · next h2 =>
      rw [abs_of_pos (by linarith : 0 < e - o)] at h1
      rw [abs_of_neg (by linarith), abs_of_neg (by linarith)]; linarith
    · next h2 =>
      have : e < o := lt_of_le_of_ne (not_lt.1 h2) (Ne.symm h)
      rw [abs_of_neg (by linarith : e - o < 0)] at h1
      rw [abs_of_pos (by linarith), abs_of_pos (by linarith)]; linarith

/-- **C27 (violated for binary columns).** For every two by two table built from data, even for two
identical columns, chi2 is strictly below its maximum, so phik is not recognised as 1: it is the root
finder's approximation of a correlation strictly below 1 (or 0). -/
theorem phik_binary_below {mvn : ℝ → Rect → ℝ} (hm : MvnSpec mvn)
    {brentq : (ℝ → ℝ) → ℝ → ℝ → ℝ → Except Err ℝ} (hb : BrentqSpec brentq) {a : Arr2 ℝ}
    (h : DataTable a) (hr : a.r = 2) (hc : a.c = 2) (noise : Bool) :
    ∃ chi2 x x₀ : ℝ, getChi2 a "pearson" = .ok chi2 ∧ chi2 < a.total * (min (a.r - 1) (a.c - 1) : ℕ) ∧
      phikFromHist2d mvn brentq a noise = .ok x ∧ 0 ≤ x₀ ∧ x₀ < 1 ∧
      |x - x₀| ≤ 1 / 10 ^ 5 + 4 * 2 ^ (-52 : ℤ) * |x₀| := by
  have ha := data_isCount h (by omega)
  obtain ⟨chi2, ped, mx, x, hchi, -, hmx, hpm, hle, hx, -, -, h0, -, hroot⟩ :=
    phik_of_data hm hb h (by omega) (by omega) noise
  have e1 : nRows a = a.r := by
    unfold nRows; rw [Nat.card_congr (Equiv.subtypeUnivEquiv h.rows), Nat.card_fin]
  have e2 : nCols a = a.c := by
    unfold nCols; rw [Nat.card_congr (Equiv.subtypeUnivEquiv h.cols), Nat.card_fin]
  have hv := (get_chi2_value ha).1
  have hlt : chi2 < mx := by
    rw [hv, Except.ok.injEq] at hchi
    refine lt_of_le_of_ne hle fun heq => ?_
    -- the uncorrected sum is at most the maximum
    have hsum : ∑ i, ∑ j, pearsonCell (a.v i j) (expect a i j) ≤ mx := by
      have h1 : min (a.r - 1) (a.c - 1) = 1 := by omega
      have h2 : (nRows a : ℝ) = 2 := by rw [e1, hr]; norm_num
      rw [pearson_sum ha, hmx, h1]
      have := sum_sq_le ha
      rw [h2] at this
      push_cast
      linarith
    have hcell : ∀ i j, (if expect a i j = 0 then 0 else pearsonCell
        (corrected (a.v i j) (expect a i j)) (expect a i j)) ≤ pearsonCell (a.v i j) (expect a i j) := by
      intro i j
      split
      · next he => rw [he]; simp [pearsonCell]
      · exact pearsonCell_corrected_le (expect_nonneg ha i j)
    have hstat : statistic pearsonCell a = ∑ i, ∑ j, (if expect a i j = 0 then 0 else pearsonCell
        (corrected (a.v i j) (expect a i j)) (expect a i j)) := by
      unfold statistic
      rw [e1, e2, if_neg (by omega)]
      simp only [hr, hc, and_self, if_true]
    -- equality forces every cell to equal its expectation
    have hall : ∀ i j, a.v i j = expect a i j := by
      by_contra hne
      push Not at hne
      obtain ⟨i, j, hne⟩ := hne
      have hepos : 0 < expect a i j := by
        refine lt_of_le_of_ne (expect_nonneg ha i j) fun e => hne ?_
        rw [← e]; exact zero_of_expect_zero ha e.symm
      have hstrict : (if expect a i j = 0 then 0 else pearsonCell
          (corrected (a.v i j) (expect a i j)) (expect a i j)) < pearsonCell (a.v i j) (expect a i j) := by
        rw [if_neg hepos.ne']
        unfold pearsonCell
        rw [div_lt_div_iff_of_pos_right hepos, sq_lt_sq]
        exact corrected_strict hne
      have : statistic pearsonCell a < ∑ i, ∑ j, pearsonCell (a.v i j) (expect a i j) := by
        rw [hstat]
        refine Finset.sum_lt_sum (fun i _ => Finset.sum_le_sum fun j _ => hcell i j)
          ⟨i, Finset.mem_univ _, ?_⟩
        exact Finset.sum_lt_sum (fun j _ => hcell i j) ⟨j, Finset.mem_univ _, hstrict⟩
      linarith
    have hzero : statistic pearsonCell a = 0 := by
      rw [hstat]
      refine Finset.sum_eq_zero fun i _ => Finset.sum_eq_zero fun j _ => ?_
      rw [← hall i j]
      simp [corrected, pearsonCell]
    have hpos : 0 < mx := by
      rw [hmx, hr, hc]; simpa using ha.pos
    linarith
  refine ⟨chi2, x, ?_⟩
  rcases le_or_gt chi2 ped with h1 | h1
  · refine ⟨0, hchi, hmx ▸ hlt, hx, le_rfl, one_pos, ?_⟩
    rw [h0 h1]; norm_num
  · obtain ⟨x₀, a1, a2, a3, a4⟩ := hroot h1 hlt
    refine ⟨x₀, hchi, hmx ▸ hlt, hx, a1, lt_of_le_of_ne a2 fun e => ?_, a4⟩
    rw [e, (theory_ends hm (by omega) (by omega) a.total ped).2, ← hmx] at a3
    linarith

/-- The table of two identical binary columns. -/
noncomputable def exBinary : Arr2 ℝ := ⟨2, 2, ![![6, 0], ![0, 3]]⟩

theorem exBinary_data : DataTable exBinary ∧ Determines exBinary := by
  refine ⟨⟨?_, ?_, ?_⟩, ?_⟩
  · intro i j
    change Fin 2 at i j
    exact ⟨(![![6, 0], ![0, 3]] : Fin 2 → Fin 2 → ℕ) i j, by fin_cases i <;> fin_cases j <;> simp [exBinary]⟩
  · intro i; change Fin 2 at i; exact ⟨i, by fin_cases i <;> simp [exBinary]⟩
  · intro i; change Fin 2 at i; exact ⟨i, by fin_cases i <;> simp [exBinary]⟩
  · intro i j j'
    change Fin 2 at i j j'
    fin_cases i <;> fin_cases j <;> fin_cases j' <;> simp [exBinary]

/-! ### C20: order of categories and of variables -/

theorem countCells_comp {r c : ℕ} (p : Fin r → Fin c → Prop) (e : Fin r ≃ Fin r) (f : Fin c ≃ Fin c) :
    countCells (fun i j => p (e i) (f j)) = countCells p := by
  classical
  unfold countCells
  rw [← e.sum_comp fun i => ∑ j, if p i j then 1 else 0]
  exact Finset.sum_congr rfl fun i _ => f.sum_comp fun j => if p (e i) j then 1 else 0

theorem countCells_swap {r c : ℕ} (p : Fin r → Fin c → Prop) :
    countCells (fun j i => p i j) = countCells p := by
  unfold countCells
  exact Finset.sum_comm

theorem expectedFreq_zero_count_perm (a : Arr2 ℝ) (e : Fin a.r ≃ Fin a.r) (f : Fin a.c ≃ Fin a.c) :
    (⟨a.r, a.c, fun i j => a.v (e i) (f j)⟩ : Arr2 ℝ).total = a.total ∧
    estimateSimpleNdof ⟨a.r, a.c, fun i j => a.v (e i) (f j)⟩ = estimateSimpleNdof a := by
  obtain ⟨r, c, v⟩ := a
  simp only at e f ⊢
  set a : Arr2 ℝ := ⟨r, c, v⟩ with ha
  set b : Arr2 ℝ := ⟨r, c, fun i j => v (e i) (f j)⟩ with hb
  have hrow : ∀ i : Fin r, b.rowSum i = a.rowSum (e i) := fun i => f.sum_comp (fun j => v (e i) j)
  have hcol : ∀ j : Fin c, b.colSum j = a.colSum (f j) := fun j => e.sum_comp (fun i => v i (f j))
  have ht : b.total = a.total := by
    change ∑ i : Fin r, b.rowSum i = ∑ i : Fin r, a.rowSum i
    rw [Finset.sum_congr rfl fun i _ => hrow i]
    exact e.sum_comp a.rowSum
  refine ⟨ht, ?_⟩
  have hv : ∀ (i : Fin r) (j : Fin c), (expectedFreq b).v i j = (expectedFreq a).v (e i) (f j) := by
    intro i j
    change (if b.total = 0 then none else some (b.rowSum i * b.colSum j / b.total)) =
      (if a.total = 0 then none else some (a.rowSum (e i) * a.colSum (f j) / a.total))
    rw [ht, hrow, hcol]
  have hcount : countCells (fun i j => (expectedFreq b).v i j = some 0) =
      countCells (fun i j => (expectedFreq a).v i j = some 0) := by
    rw [← countCells_comp (fun i j => (expectedFreq a).v i j = some 0) e f]
    congr 1
    funext i j
    exact congrArg (· = some 0) (hv i j)
  unfold estimateSimpleNdof
  simp only [hcount]
  rfl

/-- **C20.** phik does not depend on the order of the categories: permuting rows and columns of a table
does not change it (whether it is a number or an error). -/
theorem phik_perm (mvn : ℝ → Rect → ℝ) (brentq : (ℝ → ℝ) → ℝ → ℝ → ℝ → Except Err ℝ) (a : Arr2 ℝ)
    (noise : Bool) (e : Fin a.r ≃ Fin a.r) (f : Fin a.c ≃ Fin a.c) :
    phikFromHist2d mvn brentq ⟨a.r, a.c, fun i j => a.v (e i) (f j)⟩ noise =
      phikFromHist2d mvn brentq a noise := by
  obtain ⟨h1, h2⟩ := expectedFreq_zero_count_perm a e f
  unfold phikFromHist2d
  rw [← get_chi2_sameTable (sameTable_perm a e f), h1, h2]

theorem list_range_sum (n : ℕ) (g : ℕ → ℝ) : ((List.range n).map g).sum = ∑ i ∈ Finset.range n, g i := by
  induction n with
  | zero => simp
  | succ n ih => simp [List.range_succ, Finset.sum_range_succ, ih]

theorem distance_sum (mvn : ℝ → Rect → ℝ) (r c : ℕ) (rho : ℝ) : distance mvn r c rho =
    ∑ i ∈ Finset.range r, ∑ j ∈ Finset.range c,
      (mvn rho (cellRect (uniformEdges r) (uniformEdges c) i j) -
        mvn 0 (cellRect (uniformEdges r) (uniformEdges c) i j)) ^ 2 /
        mvn 0 (cellRect (uniformEdges r) (uniformEdges c) i j) := by
  unfold distance gridCells
  rw [uniform_length, uniform_length, List.map_flatMap, List.flatMap, List.sum_flatten, ← list_range_sum]
  simp only [Nat.add_sub_cancel, List.map_map, ← list_range_sum]
  rfl

theorem distance_swap {mvn : ℝ → Rect → ℝ} (hm : MvnSpec mvn) (r c : ℕ) (rho : ℝ) :
    distance mvn c r rho = distance mvn r c rho := by
  rw [distance_sum, distance_sum, Finset.sum_comm]
  refine Finset.sum_congr rfl fun i _ => Finset.sum_congr rfl fun j _ => ?_
  unfold cellRect
  rw [hm.swap rho ((uniformEdges r).getD i 0), hm.swap 0 ((uniformEdges r).getD i 0)]

theorem estimate_transpose (a : Arr2 ℝ) : a.transpose.total = a.total ∧
    estimateSimpleNdof a.transpose = estimateSimpleNdof a := by
  obtain ⟨r, c, v⟩ := a
  set a : Arr2 ℝ := ⟨r, c, v⟩ with ha
  have ht : a.transpose.total = a.total := Finset.sum_comm
  refine ⟨ht, ?_⟩
  have hv : ∀ (i : Fin r) (j : Fin c), (expectedFreq a.transpose).v j i = (expectedFreq a).v i j := by
    intro i j
    change (if a.transpose.total = 0 then none else some (a.transpose.rowSum j * a.transpose.colSum i / a.transpose.total)) =
      (if a.total = 0 then none else some (a.rowSum i * a.colSum j / a.total))
    rw [ht, mul_comm]; rfl
  have hcount : countCells (fun i j => (expectedFreq a.transpose).v i j = some 0) =
      countCells (fun i j => (expectedFreq a).v i j = some 0) := by
    rw [← countCells_swap (fun i j => (expectedFreq a).v i j = some 0)]
    congr 1
    funext j i
    exact congrArg (· = some 0) (hv i j)
  unfold estimateSimpleNdof
  simp only [hcount]
  have : nominalDof (expectedFreq a.transpose).r (expectedFreq a.transpose).c =
      nominalDof (expectedFreq a).r (expectedFreq a).c := by
    change nominalDof a.c a.r = nominalDof a.r a.c
    unfold nominalDof; push_cast; ring
  rw [this]

/-- **C20.** Exchanging the two variables does not change phik. -/
theorem phik_transpose {mvn : ℝ → Rect → ℝ} (hm : MvnSpec mvn)
    (brentq : (ℝ → ℝ) → ℝ → ℝ → ℝ → Except Err ℝ) {a : Arr2 ℝ} (h : IsCount a) (noise : Bool) :
    phikFromHist2d mvn brentq a.transpose noise = phikFromHist2d mvn brentq a noise := by
  obtain ⟨h1, h2⟩ := estimate_transpose a
  obtain ⟨hr, hc⟩ := size_pos h.pos.ne'
  unfold phikFromHist2d
  rw [(get_chi2_transpose h).1, (get_chi2_value h).1, h1, h2]
  simp only [bind, Except.bind]
  generalize hq : (if (if noise = true then estimateSimpleNdof a else 0) < 0 then 0
    else (if noise = true then estimateSimpleNdof a else 0 : ℤ) : ℤ) = ped
  have hp : (0 : ℝ) ≤ (ped : ℝ) := by
    have : (0 : ℤ) ≤ ped := by rw [← hq]; split <;> omega
    exact_mod_cast this
  change phikFromChi2 mvn brentq _ _ (a.c : ℤ) (a.r : ℤ) none none _ = _
  rw [phikFromChi2_eq hm brentq hc hr _ _ hp, phikFromChi2_eq hm brentq hr hc _ _ hp]
  simp only [distance_swap hm a.r a.c, min_comm (a.c - 1)]

/-! ### C22: round trip -/

/-- **C22.** Converting a correlation to chi2 and back returns it up to the tolerance of the root
finder, for every correlation in [0, 1], when the theoretical curve is strictly increasing. -/
theorem phik_round_trip {mvn : ℝ → Rect → ℝ} (hm : MvnSpec mvn)
    {brentq : (ℝ → ℝ) → ℝ → ℝ → ℝ → Except Err ℝ} (hb : BrentqSpec brentq) {r c : ℕ} (hr : 2 ≤ r)
    (hc : 2 ≤ c) {n ped rho : ℝ} (hn : 0 < n) (hp : 0 ≤ ped) (hmax : ped < n * (min (r - 1) (c - 1) : ℕ))
    (hmono : StrictMonoOn (theoryChi2 mvn r c n ped) (Set.Icc 0 1)) (h0 : 0 ≤ rho) (h1 : rho ≤ 1) :
    ∃ chi2 x : ℝ, chi2FromPhik mvn rho n 0 none none none none ped r c = .ok chi2 ∧
      phikFromChi2 mvn brentq chi2 n r c none none ped = .ok x ∧
      |x - rho| ≤ 1 / 10 ^ 5 + 4 * 2 ^ (-52 : ℤ) * |rho| := by
  have hone : n * distance mvn r c 1 ≠ 0 := (mul_pos hn (distance_one_pos hm hr hc)).ne'
  have hchi : chi2FromPhik mvn rho n 0 none none none none ped r c = .ok (theoryChi2 mvn r c n ped rho) := by
    unfold chi2FromPhik
    simp only [edgesOr_uniform (show 1 ≤ r by omega), edgesOr_uniform (show 1 ≤ c by omega), bind,
      Except.bind, Option.getD_none, ratioSum_distance hm (show 1 ≤ r by omega) (show 1 ≤ c by omega),
      if_neg hone, pure, Except.pure, chi2Rho, chi2Max_nat n (show 1 ≤ r by omega) (show 1 ≤ c by omega)]
    rw [theory_eq hn.ne', sub_zero]
  refine ⟨theoryChi2 mvn r c n ped rho, ?_⟩
  suffices hs : ∃ x, phikFromChi2 mvn brentq (theoryChi2 mvn r c n ped rho) n r c none none ped = .ok x ∧
      |x - rho| ≤ 1 / 10 ^ 5 + 4 * 2 ^ (-52 : ℤ) * |rho| by
    obtain ⟨x, hx⟩ := hs; exact ⟨x, hchi, hx⟩
  obtain ⟨c1, c2, c3⟩ := phik_from_chi2_cases hm brentq hr hc
    (chi2 := theoryChi2 mvn r c n ped rho) hp hn hmax
  obtain ⟨t0, t1⟩ := theory_ends hm hr hc n ped
  have mem0 : (0 : ℝ) ∈ Set.Icc (0 : ℝ) 1 := ⟨le_rfl, zero_le_one⟩
  have mem1 : (1 : ℝ) ∈ Set.Icc (0 : ℝ) 1 := ⟨zero_le_one, le_rfl⟩
  rcases h0.eq_or_lt with rfl | h0
  · refine ⟨0, c1 t0.le, ?_⟩; norm_num
  rcases h1.eq_or_lt with rfl | h1
  · refine ⟨1, c2 t1.ge, ?_⟩; norm_num
  have m0 := hmono mem0 ⟨h0.le, h1.le⟩ h0
  have m1 := hmono ⟨h0.le, h1.le⟩ mem1 h1
  rw [t0] at m0
  rw [t1] at m1
  obtain ⟨x, e1, -, x₀, g0, g1, g2⟩ := hb.root
    (fun r' => theoryChi2 mvn r c n ped r' - theoryChi2 mvn r c n ped rho)
    0 1 (1 / 10 ^ 5) zero_le_one (by norm_num) ((theory_cont hm _ _ _ _).sub continuousOn_const)
    (by simp only [t0]; linarith) (by simp only [t1]; linarith)
  have : x₀ = rho := hmono.injOn g0 ⟨h0.le, h1.le⟩ (by linarith)
  subst this
  exact ⟨x, (c3 m0 m1).trans e1, g2⟩

/-! ### C54: the theoretical table -/

theorem theoryLoop_ok {cell : Rect → ℝ} {sx sy : List ℝ} {rows cols : ℕ} (l : List (ℕ × ℕ))
    (t : ℕ → ℕ → ℝ) (hl : ∀ p ∈ l, p.2 < rows ∧ p.1 < cols) :
    ∃ t', theoryLoop cell sx sy rows cols l t = .ok t' ∧
      ∀ j i, t' j i = if (i, j) ∈ l then cell (cellRect sx sy i j) else t j i := by
  induction l generalizing t with
  | nil => exact ⟨t, rfl, by simp⟩
  | cons p l ih =>
    obtain ⟨i, j⟩ := p
    rw [theoryLoop, if_pos (hl _ List.mem_cons_self)]
    obtain ⟨t', h1, h2⟩ := ih (fun j' i' => if j' = j ∧ i' = i then cell (cellRect sx sy i j) else t j' i')
      (fun p hp => hl p (List.mem_cons_of_mem _ hp))
    refine ⟨t', h1, fun j' i' => ?_⟩
    rw [h2]
    by_cases h3 : (i', j') ∈ l
    · simp [h3]
    · by_cases h4 : j' = j ∧ i' = i
      · obtain ⟨rfl, rfl⟩ := h4; simp [h3]
      · simp only [h3, if_false, h4, List.mem_cons, Prod.mk.injEq, or_false]
        rw [if_neg (fun h => h4 ⟨h.2, h.1⟩)]

/-- **C54.** With `nx, ny ≥ 1` bins the theoretical table has `ny` rows and `nx` columns, and its entries
are `n` times the integrals over the cells of the uniform grid, raised to machine epsilon where smaller;
so all entries are positive. -/
theorem theory_table (mvn : ℝ → Rect → ℝ) (rho : ℝ) {nx ny : ℕ} (hx : 1 ≤ nx) (hy : 1 ≤ ny) {n : ℝ}
    (hn : 1 ≤ n) : ∃ t : Arr2 ℝ, bivariateNormalTheory mvn rho nx ny n none none = .ok t ∧
      t.r = ny ∧ t.c = nx ∧ (∀ i j, 0 < t.v i j) ∧
      ∀ (j : Fin t.r) (i : Fin t.c), t.v j i = max (2 ^ (-52 : ℤ)) (n * mvn rho
        (((-5 + 10 * (i : ℕ) / nx : ℝ), (-5 + 10 * (j : ℕ) / ny : ℝ)),
         ((-5 + 10 * ((i : ℕ) + 1) / nx : ℝ), (-5 + 10 * ((j : ℕ) + 1) / ny : ℝ)))) := by
  unfold bivariateNormalTheory
  simp only [not_lt.2 hn, if_false, edgesOr_uniform hx, edgesOr_uniform hy, bind, Except.bind, pure,
    Except.pure, uniform_length, Nat.add_sub_cancel, Int.toNat_natCast]
  rw [if_neg (by omega)]
  obtain ⟨t', h1, h2⟩ := theoryLoop_ok (cell := mvn rho) (sx := uniformEdges nx) (sy := uniformEdges ny)
    (rows := ny) (cols := nx)
    ((List.range nx).flatMap fun i => (List.range ny).map fun j => (i, j)) (fun _ _ => 0) (by
      intro p hp
      simp only [List.mem_flatMap, List.mem_range, List.mem_map] at hp
      obtain ⟨i, hi, j, hj, rfl⟩ := hp
      exact ⟨hj, hi⟩)
  simp only [h1]
  have hval : ∀ x : ℝ, (if x < 2 ^ (-52 : ℤ) then (2 : ℝ) ^ (-52 : ℤ) else x) = max (2 ^ (-52 : ℤ)) x := by
    intro x
    split
    · next h => rw [max_eq_left h.le]
    · next h => rw [max_eq_right (not_lt.1 h)]
  refine ⟨_, rfl, rfl, rfl, ?_, ?_⟩
  · intro i j
    simp only [hval]
    exact lt_of_lt_of_le (by positivity) (le_max_left _ _)
  · intro j i
    change Fin ny at j
    change Fin nx at i
    change (if _ < _ then _ else _) = _
    rw [hval, h2, if_pos, mul_comm]
    · unfold cellRect
      rw [uniform_getD (by omega), uniform_getD (by omega), uniform_getD (by omega), uniform_getD (by omega)]
      push_cast
      rfl
    · simp only [List.mem_flatMap, List.mem_range, List.mem_map]
      exact ⟨i, i.2, j, j.2, rfl⟩

/-- **C54 (errors).** Fewer than one entry is a ValueError. -/
theorem theory_table_few (mvn : ℝ → Rect → ℝ) (rho : ℝ) (nx ny : ℤ) {n : ℝ} (hn : n < 1)
    (sx sy : Option (List ℝ)) : bivariateNormalTheory mvn rho nx ny n sx sy = .error .value := by
  unfold bivariateNormalTheory
  simp [hn, bind, Except.bind, throw, throwThe, MonadExceptOf.throw]

/-- **C54 (violated alternative).** Passing bin edges instead of the numbers of bins (which then keep
their default -1) always raises. -/
theorem theory_table_edges (mvn : ℝ → Rect → ℝ) (rho : ℝ) {n : ℝ} (hn : 1 ≤ n) (sx sy : List ℝ) :
    bivariateNormalTheory mvn rho (-1) (-1) n (some sx) (some sy) = .error .value := by
  unfold bivariateNormalTheory
  simp [not_lt.2 hn, bind, Except.bind, throw, throwThe, MonadExceptOf.throw, edgesOr]

end Phik.Props
