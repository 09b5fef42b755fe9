import Verif.Spec.Consistency
import Verif.Props.PhikShape

/-! # Property C84: what phik of a large sample is -/

namespace Phik.Props

open Spec Gauss Topology
open Filter hiding bind map

variable {r c : ℕ}

/-- The table of counts as the code sees it. -/
def countArr (t : Fin r → Fin c → ℕ) : Arr2 ℝ := ⟨r, c, fun i j => (t i j : ℝ)⟩

theorem countArr_total (t : Fin r → Fin c → ℕ) : (countArr t).total = ∑ i, ∑ j, (t i j : ℝ) := rfl

/-! ### the tables are complete from some point on -/

section
variable {T : ℕ → Fin r → Fin c → ℕ} {p : Fin r → Fin c → ℝ} (hT : Approaches T p)
include hT

theorem approaches_total : Tendsto (fun n => (countArr (T n)).total) atTop atTop := by
  have := tendsto_natCast_atTop_atTop (R := ℝ).comp hT.grows
  refine this.congr fun n => ?_
  simp [countArr_total]

theorem approaches_row (i : Fin r) :
    Tendsto (fun n => (∑ j, (T n i j : ℝ)) / (countArr (T n)).total) atTop (𝓝 (∑ j, p i j)) := by
  have := tendsto_finsetSum Finset.univ fun j _ => hT.props i j
  refine this.congr fun n => ?_
  rw [Finset.sum_div]; rfl

theorem approaches_col (j : Fin c) :
    Tendsto (fun n => (∑ i, (T n i j : ℝ)) / (countArr (T n)).total) atTop (𝓝 (∑ i, p i j)) := by
  have := tendsto_finsetSum Finset.univ fun i _ => hT.props i j
  refine this.congr fun n => ?_
  rw [Finset.sum_div]; rfl

theorem approaches_data (hp : IsJoint p) : ∀ᶠ n in atTop, DataTable (countArr (T n)) := by
  have h1 : ∀ᶠ n in atTop, ∀ i, 0 < (∑ j, (T n i j : ℝ)) / (countArr (T n)).total :=
    eventually_all.2 fun i => (approaches_row hT i).eventually_const_lt (hp.rows i)
  have h2 : ∀ᶠ n in atTop, ∀ j, 0 < (∑ i, (T n i j : ℝ)) / (countArr (T n)).total :=
    eventually_all.2 fun j => (approaches_col hT j).eventually_const_lt (hp.cols j)
  filter_upwards [h1, h2] with n h1 h2
  refine ⟨fun i j => ⟨T n i j, rfl⟩, fun i => ?_, fun j => ?_⟩
  · by_contra hcon
    have : ∀ j, (T n i j : ℝ) = 0 := by simpa [FullRow, countArr] using hcon
    have h := h1 i
    simp [this] at h
  · by_contra hcon
    have : ∀ i, (T n i j : ℝ) = 0 := by simpa [FullCol, countArr] using hcon
    have h := h2 j
    simp [this] at h

/-- The expected frequencies, relative to the number of records. -/
theorem approaches_expect (i : Fin r) (j : Fin c) :
    Tendsto (fun n => expect (countArr (T n)) i j / (countArr (T n)).total) atTop (𝓝 ((∑ j', p i j') * ∑ i', p i' j)) := by
  refine ((approaches_row hT i).mul (approaches_col hT j)).congr fun n => ?_
  unfold expect
  change _ = (∑ j', (T n i j' : ℝ)) * (∑ i', (T n i' j : ℝ)) / (countArr (T n)).total / (countArr (T n)).total
  rw [div_mul_div_comm, div_div]

omit hT in
theorem corrected_near (o e : ℝ) : |corrected o e - o| ≤ 1 / 2 := by
  unfold corrected
  split
  · assumption
  · split <;> simp [abs_of_nonneg]

/-- A statistic of the form of Pearson's or the likelihood ratio, relative to the number of records. -/
theorem approaches_statistic (hp : IsJoint p) (hr : 2 ≤ r) (hc : 2 ≤ c) {cell : ℝ → ℝ → ℝ}
    (hom : ∀ k o e, 0 < k → cell (k * o) (k * e) = k * cell o e)
    (cont : ∀ o e, 0 < e → ContinuousAt (fun z : ℝ × ℝ => cell z.1 z.2) (o, e)) :
    Tendsto (fun n => statistic cell (countArr (T n)) / (countArr (T n)).total) atTop
      (𝓝 (∑ i, ∑ j, cell (p i j) ((∑ j', p i j') * ∑ i', p i' j))) := by
  have htot := approaches_total hT
  set obs : ℕ → Fin r → Fin c → ℝ := fun n i j =>
    if r = 2 ∧ c = 2 then corrected (T n i j) (expect (countArr (T n)) i j) else T n i j with hobs
  have hlim : ∀ i j, Tendsto (fun n => obs n i j / (countArr (T n)).total) atTop (𝓝 (p i j)) := by
    intro i j
    have h0 : Tendsto (fun n => 1 / 2 / (countArr (T n)).total) atTop (𝓝 0) := htot.const_div_atTop _
    have h1 : Tendsto (fun n => obs n i j / (countArr (T n)).total - T n i j / (countArr (T n)).total) atTop (𝓝 0) := by
      refine squeeze_zero_norm' ?_ h0
      filter_upwards [htot.eventually_gt_atTop 0] with n hn
      rw [Real.norm_eq_abs, ← sub_div, abs_div, abs_of_pos hn]
      apply div_le_div_of_nonneg_right _ hn.le
      rw [hobs]
      dsimp only
      split
      · exact corrected_near _ _
      · simp
    have := h1.add (hT.props i j)
    rw [zero_add] at this
    refine this.congr fun n => ?_
    rw [← countArr_total]
    ring
  have hcell : ∀ i j, Tendsto (fun n => cell (obs n i j / (countArr (T n)).total)
      (expect (countArr (T n)) i j / (countArr (T n)).total)) atTop (𝓝 (cell (p i j) ((∑ j', p i j') * ∑ i', p i' j))) := by
    intro i j
    exact (cont _ _ (mul_pos (hp.rows i) (hp.cols j))).tendsto.comp ((hlim i j).prodMk_nhds (approaches_expect hT i j))
  refine (tendsto_finsetSum Finset.univ fun i _ => tendsto_finsetSum Finset.univ fun j _ => hcell i j).congr' ?_
  have hpos : ∀ᶠ n in atTop, ∀ i j, 0 < expect (countArr (T n)) i j / (countArr (T n)).total :=
    eventually_all.2 fun i => eventually_all.2 fun j =>
      (approaches_expect hT i j).eventually_const_lt (mul_pos (hp.rows i) (hp.cols j))
  filter_upwards [approaches_data hT hp, htot.eventually_gt_atTop 0, hpos] with n hd hn hpos
  have e1 : nRows (countArr (T n)) = r := by
    unfold nRows; rw [Nat.card_congr (Equiv.subtypeUnivEquiv hd.rows), Nat.card_fin]; rfl
  have e2 : nCols (countArr (T n)) = c := by
    unfold nCols; rw [Nat.card_congr (Equiv.subtypeUnivEquiv hd.cols), Nat.card_fin]; rfl
  unfold statistic
  rw [e1, e2, if_neg (by omega), eq_div_iff hn.ne', Finset.sum_mul]
  refine Finset.sum_congr rfl fun i _ => ?_
  rw [Finset.sum_mul]
  refine Finset.sum_congr rfl fun j _ => ?_
  have he : expect (countArr (T n)) i j ≠ 0 := fun h0 => by
    have := hpos i j
    rw [h0, zero_div] at this
    exact lt_irrefl _ this
  rw [if_neg he, mul_comm, ← hom _ _ _ hn, mul_div_cancel₀ _ hn.ne', mul_div_cancel₀ _ hn.ne']
  rfl

end

theorem pearsonCell_hom (k o e : ℝ) (hk : 0 < k) : pearsonCell (k * o) (k * e) = k * pearsonCell o e := by
  unfold pearsonCell
  rw [← mul_sub, mul_pow, pow_two, mul_assoc, mul_div_mul_left _ _ hk.ne', mul_div_assoc]

theorem gCell_hom (k o e : ℝ) (hk : 0 < k) : gCell (k * o) (k * e) = k * gCell o e := by
  unfold gCell
  rw [mul_div_mul_left _ _ hk.ne']; ring

theorem pearsonCell_cont (o e : ℝ) (he : 0 < e) : ContinuousAt (fun z : ℝ × ℝ => pearsonCell z.1 z.2) (o, e) := by
  unfold pearsonCell
  exact ((continuousAt_fst.sub continuousAt_snd).pow 2).div continuousAt_snd he.ne'

theorem gCell_cont (o e : ℝ) (he : 0 < e) : ContinuousAt (fun z : ℝ × ℝ => gCell z.1 z.2) (o, e) := by
  have h : (fun z : ℝ × ℝ => gCell z.1 z.2) =ᶠ[𝓝 (o, e)]
      fun z : ℝ × ℝ => 2 * (z.2 * ((z.1 / z.2) * Real.log (z.1 / z.2))) := by
    have : ∀ᶠ z : ℝ × ℝ in 𝓝 (o, e), z.2 ≠ 0 := continuousAt_snd.eventually_ne he.ne'
    filter_upwards [this] with z hz
    unfold gCell
    field_simp
  refine ContinuousAt.congr ?_ h.symm
  have hd : ContinuousAt (fun z : ℝ × ℝ => z.1 / z.2) (o, e) := continuousAt_fst.div continuousAt_snd he.ne'
  exact continuousAt_const.mul (continuousAt_snd.mul ((Real.continuous_mul_log.continuousAt).comp hd))

/-- **C84 (chi2).** Divided by the number of records, Pearson's chi2 of a growing sample tends to the mean square contingency of the
distribution, and the likelihood-ratio statistic to twice the mutual information. -/
theorem chi2_consistent (hr : 2 ≤ r) (hc : 2 ≤ c) {p : Fin r → Fin c → ℝ} (hp : IsJoint p) {T : ℕ → Fin r → Fin c → ℕ}
    (hT : Approaches T p) {ε : ℝ} (hε : 0 < ε) :
    ∀ᶠ n in atTop, ∃ y g, getChi2 (countArr (T n)) "pearson" = .ok y ∧ getChi2 (countArr (T n)) "log-likelihood" = .ok g ∧
      |y / (∑ i, ∑ j, (T n i j : ℝ)) - phi2 p| < ε ∧ |g / (∑ i, ∑ j, (T n i j : ℝ)) - 2 * mutualInfo p| < ε := by
  have h1 := approaches_statistic hT hp hr hc pearsonCell_hom pearsonCell_cont
  have h2 := approaches_statistic hT hp hr hc gCell_hom gCell_cont
  have e2 : ∑ i, ∑ j, gCell (p i j) ((∑ j', p i j') * ∑ i', p i' j) = 2 * mutualInfo p := by
    unfold mutualInfo gCell
    simp only [Finset.mul_sum]
  rw [e2] at h2
  filter_upwards [approaches_data hT hp, Metric.tendsto_nhds.1 h1 ε hε, Metric.tendsto_nhds.1 h2 ε hε] with n hd h1 h2
  have ha := data_isCount hd hr
  exact ⟨_, _, (get_chi2_value ha).1, (get_chi2_value ha).2, h1, h2⟩

/-! ### phik of a distribution -/

/-- The distribution as a table of frequencies. -/
def lawArr (p : Fin r → Fin c → ℝ) : Arr2 ℝ := ⟨r, c, p⟩

theorem lawArr_expect {p : Fin r → Fin c → ℝ} (hp : IsJoint p) (i : Fin r) (j : Fin c) :
    expect (lawArr p) i j = (∑ j', p i j') * ∑ i', p i' j := by
  unfold expect
  change (∑ j', p i j') * (∑ i', p i' j) / (∑ i', ∑ j', p i' j') = _
  rw [hp.total, div_one]

theorem lawArr_isCount {p : Fin r → Fin c → ℝ} (hp : IsJoint p) : IsCount (lawArr p) :=
  ⟨hp.nonneg, by change 0 < ∑ i, ∑ j, p i j; rw [hp.total]; exact one_pos⟩

theorem phi2_nonneg {p : Fin r → Fin c → ℝ} (hp : IsJoint p) : 0 ≤ phi2 p :=
  Finset.sum_nonneg fun i _ => Finset.sum_nonneg fun j _ => div_nonneg (sq_nonneg _) (mul_pos (hp.rows i) (hp.cols j)).le

theorem phi2_eq_zero {p : Fin r → Fin c → ℝ} (hp : IsJoint p) : phi2 p = 0 ↔ IndepJoint p := by
  have hnn : ∀ i j, 0 ≤ (p i j - (∑ j', p i j') * ∑ i', p i' j) ^ 2 / ((∑ j', p i j') * ∑ i', p i' j) :=
    fun i j => div_nonneg (sq_nonneg _) (mul_pos (hp.rows i) (hp.cols j)).le
  unfold phi2 IndepJoint
  rw [Finset.sum_eq_zero_iff_of_nonneg fun i _ => Finset.sum_nonneg fun j _ => hnn i j]
  refine ⟨fun h i j => ?_, fun h i _ => Finset.sum_eq_zero fun j _ => by rw [← h i j]; simp⟩
  have h1 := (Finset.sum_eq_zero_iff_of_nonneg fun j _ => hnn i j).1 (h i (Finset.mem_univ i)) j (Finset.mem_univ j)
  rw [div_eq_zero_iff, or_iff_left (mul_pos (hp.rows i) (hp.cols j)).ne', sq_eq_zero_iff, sub_eq_zero] at h1
  exact h1

theorem phi2_sum {p : Fin r → Fin c → ℝ} (hp : IsJoint p) :
    phi2 p = (∑ i, ∑ j, (lawArr p).v i j ^ 2 / expect (lawArr p) i j) - 1 := by
  have h := pearson_sum (lawArr_isCount hp)
  have ht : (lawArr p).total = 1 := hp.total
  rw [ht] at h
  rw [← h]
  unfold phi2 pearsonCell
  exact Finset.sum_congr rfl fun i _ => Finset.sum_congr rfl fun j _ => by rw [lawArr_expect hp]; rfl

theorem lawArr_full {p : Fin r → Fin c → ℝ} (hp : IsJoint p) : (∀ i, FullRow (lawArr p) i) ∧ ∀ j, FullCol (lawArr p) j := by
  constructor
  · intro i
    obtain ⟨j, -, hj⟩ := Finset.exists_ne_zero_of_sum_ne_zero (hp.rows i).ne'
    exact ⟨j, hj⟩
  · intro j
    obtain ⟨i, -, hi⟩ := Finset.exists_ne_zero_of_sum_ne_zero (hp.cols j).ne'
    exact ⟨i, hi⟩

theorem isJoint_swap {p : Fin r → Fin c → ℝ} (hp : IsJoint p) : IsJoint fun j i => p i j :=
  ⟨fun j i => hp.nonneg i j, by rw [Finset.sum_comm]; exact hp.total, hp.cols, hp.rows⟩

theorem phi2_swap (p : Fin r → Fin c → ℝ) : phi2 (fun j i => p i j) = phi2 p := by
  unfold phi2
  rw [Finset.sum_comm]
  refine Finset.sum_congr rfl fun i _ => Finset.sum_congr rfl fun j _ => by rw [mul_comm]

theorem phi2_rows {p : Fin r → Fin c → ℝ} (hp : IsJoint p) :
    phi2 p ≤ r - 1 ∧ (phi2 p = r - 1 → ∀ j i i', p i j ≠ 0 → p i' j ≠ 0 → i = i') := by
  have hcount := lawArr_isCount hp
  have hle : ∀ i j, (lawArr p).v i j ^ 2 / expect (lawArr p) i j ≤ p i j / ∑ j', p i j' := by
    intro i j
    have := sq_div_le_row hcount i j
    rwa [show (lawArr p).total = 1 from hp.total, one_mul] at this
  have hsum : ∑ i, ∑ j, p i j / ∑ j', p i j' = r := by
    have : ∀ i, ∑ j, p i j / ∑ j', p i j' = 1 := fun i => by
      rw [← Finset.sum_div, div_self (hp.rows i).ne']
    simp [this]
  refine ⟨?_, fun he => ?_⟩
  · rw [phi2_sum hp, ← hsum]
    exact sub_le_sub_right (Finset.sum_le_sum fun i _ => Finset.sum_le_sum fun j _ => hle i j) _
  · rw [phi2_sum hp, ← hsum, sub_left_inj] at he
    have h1 := (Finset.sum_eq_sum_iff_of_le fun i _ => Finset.sum_le_sum fun j _ => hle i j).1 he
    have h2 : ∀ i j, (lawArr p).v i j ^ 2 / expect (lawArr p) i j = p i j / ∑ j', p i j' := fun i j =>
      (Finset.sum_eq_sum_iff_of_le fun j _ => hle i j).1 (h1 i (Finset.mem_univ i)) j (Finset.mem_univ j)
    have h3 : ∀ i j, p i j ≠ 0 → p i j = ∑ i', p i' j := by
      intro i j hij
      have h := h2 i j
      rw [lawArr_expect hp] at h
      change p i j ^ 2 / _ = _ at h
      have hr := (hp.rows i).ne'
      have hc := (hp.cols j).ne'
      rw [div_eq_div_iff (mul_ne_zero hr hc) hr] at h
      have : p i j * (∑ j', p i j') * (p i j) = p i j * (∑ j', p i j') * ∑ i', p i' j := by nlinarith
      exact mul_left_cancel₀ (mul_ne_zero hij hr) this
    intro j i i' hi hi'
    by_contra hne
    have h4 := h3 i j hi
    have h5 : p i j + p i' j ≤ ∑ i', p i' j := by
      rw [← Finset.sum_pair (f := fun i => p i j) hne]
      exact Finset.sum_le_sum_of_subset_of_nonneg (Finset.subset_univ _) fun k _ _ => hp.nonneg k j
    have := lt_of_le_of_ne (hp.nonneg i' j) (Ne.symm hi')
    linarith

/-- The mean square contingency is at most `min(r-1, c-1)`, with equality only if one of the variables determines the other. -/
theorem phi2_max (hr : 1 ≤ r) (hc : 1 ≤ c) {p : Fin r → Fin c → ℝ} (hp : IsJoint p) :
    phi2 p ≤ (min (r - 1) (c - 1) : ℕ) ∧
    (phi2 p = (min (r - 1) (c - 1) : ℕ) ↔ Determines (lawArr p) ∨ Determines (lawArr p).transpose) := by
  have e1 : ((r - 1 : ℕ) : ℝ) = r - 1 := by rw [Nat.cast_sub hr]; simp
  have e2 : ((c - 1 : ℕ) : ℝ) = c - 1 := by rw [Nat.cast_sub hc]; simp
  obtain ⟨a1, a2⟩ := phi2_rows hp
  obtain ⟨b1, b2⟩ := phi2_rows (isJoint_swap hp)
  rw [phi2_swap] at b1 b2
  have hdet : ∀ {r c : ℕ} {p : Fin r → Fin c → ℝ}, IsJoint p → Determines (lawArr p) → phi2 p = c - 1 ∧ c ≤ r := by
    intro r c p hp hd
    have h := determined_sum (lawArr_isCount hp) (lawArr_full hp).2 hd
    refine ⟨?_, determined_shape (lawArr_full hp).2 hd⟩
    have := pearson_sum (lawArr_isCount hp)
    rw [phi2_sum hp]
    rw [show (lawArr p).total = 1 from hp.total] at h this
    change _ = (1 : ℝ) * ((c : ℝ) - 1) at h
    linarith
  constructor
  · rw [Nat.cast_min, e1, e2]; exact le_min a1 b1
  constructor
  · intro h
    rcases le_total (r - 1) (c - 1) with hl | hl
    · rw [min_eq_left hl, e1] at h
      right
      intro j i i' hi hi'
      exact a2 h j i i' hi hi'
    · rw [min_eq_right hl, e2] at h
      left
      intro i j j' hj hj'
      exact b2 h i j j' hj hj'
  · rintro (hd | hd)
    · obtain ⟨h1, h2⟩ := hdet hp hd
      rw [h1, min_eq_right (by omega), e2]
    · obtain ⟨h1, h2⟩ := hdet (isJoint_swap hp) hd
      rw [phi2_swap] at h1
      rw [h1, min_eq_left (by omega), e1]

/-- **C84 (phik of a distribution).** Every joint distribution has a phik, between 0 and 1; if the distance of the binned normal
distributions grows with the correlation (`square_distance_strict`), it is the only one, it is 0 exactly for independent variables and
1 exactly if one of the variables determines the other. -/
theorem phik_of_law {mvn : ℝ → Rect → ℝ} (hm : MvnSpec mvn) (hr : 2 ≤ r) (hc : 2 ≤ c) {p : Fin r → Fin c → ℝ} (hp : IsJoint p) :
    (∃ rho, IsPhikOfLaw mvn p rho) ∧
    (StrictMonoOn (distance mvn r c) (Set.Icc 0 1) → ∀ rho, IsPhikOfLaw mvn p rho →
      (∀ rho', IsPhikOfLaw mvn p rho' → rho' = rho) ∧ (rho = 0 ↔ IndepJoint p) ∧
      (rho = 1 ↔ Determines (lawArr p) ∨ Determines (lawArr p).transpose)) := by
  have hd1 := distance_one_pos hm hr hc
  have hK : (0 : ℝ) < (min (r - 1) (c - 1) : ℕ) := by
    have : 0 < min (r - 1) (c - 1) := by omega
    exact_mod_cast this
  obtain ⟨hmax, hmaxi⟩ := phi2_max (by omega) (by omega) hp
  constructor
  · obtain ⟨x, hx, hx0⟩ := intermediate_value_Icc (zero_le_one' ℝ) ((distance_cont hm r c).div_const (distance mvn r c 1))
      (show phi2 p / (min (r - 1) (c - 1) : ℕ) ∈ Set.Icc _ _ by
        rw [distance_zero, zero_div, div_self hd1.ne']
        exact ⟨div_nonneg (phi2_nonneg hp) hK.le, (div_le_one hK).2 hmax⟩)
    exact ⟨x, hx.1, hx.2, hx0⟩
  · rintro hs rho ⟨h0, h1, hrho⟩
    have z0 : (0 : ℝ) ∈ Set.Icc (0 : ℝ) 1 := ⟨le_rfl, zero_le_one⟩
    have z1 : (1 : ℝ) ∈ Set.Icc (0 : ℝ) 1 := ⟨zero_le_one, le_rfl⟩
    refine ⟨?_, ?_, ?_⟩
    · rintro rho' ⟨h0', h1', hrho'⟩
      rw [← hrho, div_left_inj' hd1.ne'] at hrho'
      exact hs.injOn ⟨h0', h1'⟩ ⟨h0, h1⟩ hrho'
    · rw [← phi2_eq_zero hp, ← hs.injOn.eq_iff ⟨h0, h1⟩ z0, distance_zero]
      rw [div_eq_div_iff hd1.ne' hK.ne'] at hrho
      constructor
      · intro h
        rw [h, zero_mul, eq_comm, mul_eq_zero] at hrho
        exact hrho.resolve_right hd1.ne'
      · intro h
        rw [h, zero_mul, mul_eq_zero] at hrho
        exact hrho.resolve_right hK.ne'
    · rw [← hmaxi, ← hs.injOn.eq_iff ⟨h0, h1⟩ z1]
      rw [div_eq_div_iff hd1.ne' hK.ne'] at hrho
      constructor
      · intro h
        rw [h, mul_comm] at hrho
        exact (mul_right_cancel₀ hd1.ne' hrho).symm
      · intro h
        rw [h, mul_comm] at hrho
        exact mul_left_cancel₀ hK.ne' hrho

/-! ### phik of a growing sample -/

/-- **C84 (any grid).** As the sample grows, phik comes within the tolerance of the root finder of the correlations whose binned normal
distribution is as far from independence as the distribution of the data, with and without noise correction. -/
theorem phik_consistent_curve {mvn : ℝ → Rect → ℝ} (hm : MvnSpec mvn) {brentq : (ℝ → ℝ) → ℝ → ℝ → ℝ → Except Err ℝ}
    (hb : BrentqSpec brentq) (hr : 2 ≤ r) (hc : 2 ≤ c) {p : Fin r → Fin c → ℝ} (hp : IsJoint p) {T : ℕ → Fin r → Fin c → ℕ}
    (hT : Approaches T p) (noise : Bool) {ε : ℝ} (hε : 0 < ε) :
    ∀ᶠ n in atTop, ∃ x x₀, phikFromHist2d mvn brentq (countArr (T n)) noise = .ok x ∧ x₀ ∈ Set.Icc (0 : ℝ) 1 ∧ |x - x₀| ≤ rootTol ∧
      |distance mvn r c x₀ / distance mvn r c 1 - phi2 p / (min (r - 1) (c - 1) : ℕ)| < ε := by
  have hK : (0 : ℝ) < (min (r - 1) (c - 1) : ℕ) := by
    have : 0 < min (r - 1) (c - 1) := by omega
    exact_mod_cast this
  set K : ℝ := ((min (r - 1) (c - 1) : ℕ) : ℝ) with hKdef
  set pedZ : ℤ := if noise then ((r : ℤ) - 1) * ((c : ℤ) - 1) else 0 with hped
  have hp0 : (0 : ℤ) ≤ pedZ := by
    rw [hped]; split
    · apply mul_nonneg <;> omega
    · exact le_rfl
  set ped : ℝ := (pedZ : ℝ) with hpedR
  have hp0' : (0 : ℝ) ≤ ped := by rw [hpedR]; exact_mod_cast hp0
  have htot := approaches_total hT
  have h1 := approaches_statistic hT hp hr hc pearsonCell_hom pearsonCell_cont
  change Tendsto _ atTop (𝓝 (phi2 p)) at h1
  have h2 : Tendsto (fun n => ped / (countArr (T n)).total) atTop (𝓝 0) := htot.const_div_atTop _
  have h3 : Tendsto (fun n => (max (ped / (countArr (T n)).total) (statistic pearsonCell (countArr (T n)) / (countArr (T n)).total) -
      ped / (countArr (T n)).total) / (K - ped / (countArr (T n)).total)) atTop (𝓝 (phi2 p / K)) := by
    have := ((h2.max h1).sub h2).div ((tendsto_const_nhds (x := K)).sub h2) (by rw [sub_zero]; exact hK.ne')
    rwa [max_eq_right (phi2_nonneg hp), sub_zero, sub_zero] at this
  filter_upwards [approaches_data hT hp, htot.eventually_gt_atTop 0, Metric.tendsto_nhds.1 h3 ε hε] with n hd hn hε
  have ha := data_isCount hd hr
  have hchi := (get_chi2_value ha).1
  have hend : estimateSimpleNdof (countArr (T n)) = ((r : ℤ) - 1) * ((c : ℤ) - 1) := (estimate_simple_ndof_full ha).2 hd.rows hd.cols
  obtain ⟨-, -, hle⟩ := pearson_bounds ha hchi
  have hmax : ped < (countArr (T n)).total * K := by
    refine lt_of_le_of_lt ?_ (data_max_above_pedestal hd hr hc)
    change (pedZ : ℝ) ≤ ((((r : ℤ) - 1) * ((c : ℤ) - 1) : ℤ) : ℝ)
    rw [hped]
    split
    · exact le_rfl
    · have : (0 : ℤ) ≤ ((r : ℤ) - 1) * ((c : ℤ) - 1) := by apply mul_nonneg <;> omega
      exact_mod_cast this
  obtain ⟨x, x₀, g1, g2, g3, g4⟩ := phik_near hm hb hr hc hn hp0' hmax (statistic pearsonCell (countArr (T n)))
  refine ⟨x, x₀, ?_, g2, g3, ?_⟩
  · unfold phikFromHist2d
    rw [hchi]
    simp only [Bind.bind, Except.bind]
    have : (if noise = true then estimateSimpleNdof (countArr (T n)) else 0) = pedZ := by rw [hend]
    rw [this, if_neg (not_lt.2 hp0)]
    exact g1
  · have hxeq : distance mvn r c x₀ / distance mvn r c 1 =
        (max (ped / (countArr (T n)).total) (statistic pearsonCell (countArr (T n)) / (countArr (T n)).total) -
          ped / (countArr (T n)).total) / (K - ped / (countArr (T n)).total) := by
      change statistic pearsonCell (countArr (T n)) ≤ (countArr (T n)).total * K at hle
      rw [← hKdef, min_eq_left hle] at g4
      unfold theoryChi2 at g4
      rw [← hKdef] at g4
      have hpos : 0 < (countArr (T n)).total * K - ped := sub_pos.2 hmax
      rw [max_div_div_right hn.le, ← sub_div, ← g4]
      rw [show K - ped / (countArr (T n)).total = ((countArr (T n)).total * K - ped) / (countArr (T n)).total by field_simp]
      rw [div_div_div_cancel_right₀ hn.ne', add_sub_cancel_left, mul_div_cancel_left₀ _ hpos.ne']
    rw [hxeq]
    exact hε

/-- **C84.** As the sample grows, phik converges to phik of the distribution, up to the tolerance of the root finder, with and
without noise correction: for every grid on which the distance of the binned normal distributions grows with the correlation. -/
theorem phik_consistent {mvn : ℝ → Rect → ℝ} (hm : MvnSpec mvn) {brentq : (ℝ → ℝ) → ℝ → ℝ → ℝ → Except Err ℝ}
    (hb : BrentqSpec brentq) (hr : 2 ≤ r) (hc : 2 ≤ c) (hs : StrictMonoOn (distance mvn r c) (Set.Icc 0 1))
    {p : Fin r → Fin c → ℝ} (hp : IsJoint p) {rho : ℝ} (hrho : IsPhikOfLaw mvn p rho) {T : ℕ → Fin r → Fin c → ℕ}
    (hT : Approaches T p) (noise : Bool) {ε : ℝ} (hε : 0 < ε) :
    ∀ᶠ n in atTop, ∃ x, phikFromHist2d mvn brentq (countArr (T n)) noise = .ok x ∧ |x - rho| ≤ rootTol + ε := by
  have hd1 := distance_one_pos hm hr hc
  obtain ⟨h0, h1, hrho⟩ := hrho
  set D : ℝ → ℝ := fun z => distance mvn r c z / distance mvn r c 1 with hD
  have hDm : StrictMonoOn D (Set.Icc 0 1) := fun x hx y hy hxy => div_lt_div_of_pos_right (hs hx hy hxy) hd1
  have e2 : rho ∈ Set.Icc (0 : ℝ) 1 := ⟨h0, h1⟩
  obtain ⟨δ, hδ, hclose⟩ : ∃ δ > 0, ∀ z ∈ Set.Icc (0 : ℝ) 1, |D z - D rho| < δ → |z - rho| ≤ ε := by
    refine ⟨min (if rho + ε ≤ 1 then D (rho + ε) - D rho else 1) (if 0 ≤ rho - ε then D rho - D (rho - ε) else 1), ?_, ?_⟩
    · refine lt_min ?_ ?_
      · split
        · next h' => exact sub_pos.2 (hDm e2 ⟨by linarith [e2.1], h'⟩ (by linarith))
        · exact one_pos
      · split
        · next h' => exact sub_pos.2 (hDm ⟨h', by linarith [e2.2]⟩ e2 (by linarith))
        · exact one_pos
    · intro z hz hlt
      by_contra hcon
      rw [not_le, lt_abs] at hcon
      rcases hcon with hcon | hcon
      · have h1 : rho + ε ≤ 1 := by linarith [hz.2]
        have := hlt.trans_le (min_le_left _ _)
        rw [if_pos h1] at this
        have := hDm ⟨by linarith [e2.1], h1⟩ hz (show rho + ε < z by linarith)
        have := le_abs_self (D z - D rho)
        linarith
      · have h1 : 0 ≤ rho - ε := by linarith [hz.1]
        have := hlt.trans_le (min_le_right _ _)
        rw [if_pos h1] at this
        have := hDm hz ⟨h1, by linarith [e2.2]⟩ (show z < rho - ε by linarith)
        have := neg_abs_le (D z - D rho)
        linarith
  filter_upwards [phik_consistent_curve hm hb hr hc hp hT noise hδ] with n h
  obtain ⟨x, x₀, g1, g2, g3, g4⟩ := h
  refine ⟨x, g1, ?_⟩
  rw [← hrho] at g4
  have := abs_le.1 (hclose x₀ g2 g4)
  have := abs_le.1 g3
  exact abs_le.2 ⟨by linarith, by linarith⟩

end Phik.Props
