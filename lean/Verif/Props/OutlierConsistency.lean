import Verif.Lemmas.OutlierLimit
import Verif.Props.OutlierFrame
import Verif.Props.ConsistencyData
import Verif.Props.ConsistencyWitness
import Verif.Props.NullSig

/-! # Property C94: the outlier significances of a growing sample -/

namespace Phik.Props
open Phik.Spec Phik.Out MeasureTheory ProbabilityTheory Topology
open Filter (Tendsto atTop Eventually)

variable {r c : ℕ} {N : OutNum}

/-! ### the four blocks of the distribution -/

theorem law_row (p : Fin r → Fin c → ℝ) (i : Fin r) (j : Fin c) :
    ∑ l ∈ Finset.univ.erase j, p i l = (∑ l, p i l) - p i j := by
  rw [← Finset.add_sum_erase _ _ (Finset.mem_univ j)]; ring

theorem law_col (p : Fin r → Fin c → ℝ) (i : Fin r) (j : Fin c) :
    ∑ k ∈ Finset.univ.erase i, p k j = (∑ k, p k j) - p i j := by
  rw [← Finset.add_sum_erase _ (fun k => p k j) (Finset.mem_univ i)]; ring

theorem law_rest {p : Fin r → Fin c → ℝ} (hp : IsJoint p) (i : Fin r) (j : Fin c) :
    ∑ k ∈ Finset.univ.erase i, ∑ l ∈ Finset.univ.erase j, p k l = 1 - (∑ l, p i l) - (∑ k, p k j) + p i j := by
  simp only [law_row]
  rw [Finset.sum_sub_distrib, law_col]
  have := hp.total
  rw [← Finset.add_sum_erase _ _ (Finset.mem_univ i)] at this
  linarith

theorem law_excess {p : Fin r → Fin c → ℝ} (hp : IsJoint p) (i : Fin r) (j : Fin c) :
    p i j - (∑ l, p i l) * ∑ k, p k j =
      p i j * (∑ k ∈ Finset.univ.erase i, ∑ l ∈ Finset.univ.erase j, p k l) -
        (∑ l ∈ Finset.univ.erase j, p i l) * ∑ k ∈ Finset.univ.erase i, p k j := by
  rw [law_rest hp, law_row, law_col]; ring

section
variable {T : ℕ → Fin r → Fin c → ℕ} {p : Fin r → Fin c → ℝ} (hT : Approaches T p)
include hT

theorem approaches_blocks (i : Fin r) (j : Fin c) :
    Tendsto (fun n => (((⟨r, c, T n⟩ : Arr2 ℕ).total : ℕ) : ℝ)) atTop atTop ∧
    Tendsto (fun n => ((T n i j : ℕ) : ℝ) / ((⟨r, c, T n⟩ : Arr2 ℕ).total : ℕ)) atTop (𝓝 (p i j)) ∧
    Tendsto (fun n => ((inRow ⟨r, c, T n⟩ i j : ℕ) : ℝ) / ((⟨r, c, T n⟩ : Arr2 ℕ).total : ℕ)) atTop
      (𝓝 (∑ l ∈ Finset.univ.erase j, p i l)) ∧
    Tendsto (fun n => ((inCol ⟨r, c, T n⟩ i j : ℕ) : ℝ) / ((⟨r, c, T n⟩ : Arr2 ℕ).total : ℕ)) atTop
      (𝓝 (∑ k ∈ Finset.univ.erase i, p k j)) ∧
    Tendsto (fun n => ((elsewhere ⟨r, c, T n⟩ i j : ℕ) : ℝ) / ((⟨r, c, T n⟩ : Arr2 ℕ).total : ℕ)) atTop
      (𝓝 (∑ k ∈ Finset.univ.erase i, ∑ l ∈ Finset.univ.erase j, p k l)) := by
  have ht : ∀ n, (((⟨r, c, T n⟩ : Arr2 ℕ).total : ℕ) : ℝ) = ∑ i', ∑ j', (T n i' j' : ℝ) := by
    intro n; unfold Arr2.total; push_cast; rfl
  simp only [ht]
  refine ⟨?_, hT.props i j, ?_, ?_, ?_⟩
  · exact approaches_total hT
  · refine (tendsto_finsetSum (Finset.univ.erase j) fun l _ => hT.props i l).congr fun n => ?_
    unfold inRow; push_cast; rw [Finset.sum_div]
  · refine (tendsto_finsetSum (Finset.univ.erase i) fun k _ => hT.props k j).congr fun n => ?_
    unfold inCol; push_cast; rw [Finset.sum_div]
  · refine (tendsto_finsetSum (Finset.univ.erase i) fun k _ => tendsto_finsetSum (Finset.univ.erase j) fun l _ => hT.props k l).congr fun n => ?_
    unfold elsewhere; push_cast; rw [Finset.sum_div]
    exact Finset.sum_congr rfl fun k _ => by rw [Finset.sum_div]

/-- What the outlier matrix has for a cell, from some point on, with the limit of the p-value. -/
theorem outlier_cell (h : OutExact N) {ci : String} (hci : GoodCI N ci) (hp : IsJoint p) (i : Fin r) (j : Fin c)
    (hD : 0 < ∑ k ∈ Finset.univ.erase i, ∑ l ∈ Finset.univ.erase j, p k l)
    (hBC : 0 < (∑ l ∈ Finset.univ.erase j, p i l) + ∑ k ∈ Finset.univ.erase i, p k j) :
    ∃ P : ℕ → ℝ, (∀ᶠ n in atTop, ∃ v, ∃ z : ℝ, outlierFromHist2d N ⟨r, c, T n⟩ ci = .ok ⟨r, c, v⟩ ∧
        v i j = (some (P n), some (z : EReal)) ∧ P n = normCdf (-z)) ∧
      ((∑ l, p i l) * ∑ k, p k j < p i j → Tendsto P atTop (𝓝 0)) ∧
      (p i j < (∑ l, p i l) * ∑ k, p k j → Tendsto P atTop (𝓝 1)) := by
  obtain ⟨hN, hA, hB, hC, hDl⟩ := approaches_blocks hT i j
  have hβ : 0 ≤ ∑ l ∈ Finset.univ.erase j, p i l := Finset.sum_nonneg fun l _ => hp.nonneg i l
  have hγ : 0 ≤ ∑ k ∈ Finset.univ.erase i, p k j := Finset.sum_nonneg fun k _ => hp.nonneg k j
  obtain ⟨l0, l1⟩ := midTail_limit hci.unc hN hA hB hC hDl (hp.nonneg i j) hβ hγ hD hBC
  refine ⟨_, ?_, fun hlt => l0 ?_, fun hlt => l1 ?_⟩
  · have e1 := hDl.eventually (lt_mem_nhds hD)
    have e2 := (hB.add hC).eventually (lt_mem_nhds hBC)
    filter_upwards [e1, e2] with n h1 h2
    obtain ⟨v, hv, hc⟩ := outlier_table_any h hci ⟨r, c, T n⟩
    obtain ⟨-, g, -⟩ := hc i j
    have d0 : elsewhere ⟨r, c, T n⟩ i j ≠ 0 := fun h0 => by rw [h0] at h1; simp at h1
    have d1 : ¬ (inRow ⟨r, c, T n⟩ i j = 0 ∧ inCol ⟨r, c, T n⟩ i j = 0) := fun h0 => by rw [h0.1, h0.2] at h2; simp at h2
    obtain ⟨g1, -, -, z, g2, g3⟩ := g d0 d1
    refine ⟨v, z, hv, ?_, g2.symm⟩
    rw [g1] at g3 ⊢
    rw [← g3]
  · rw [div_lt_iff₀ hD]
    have := law_excess hp i j
    linarith
  · rw [lt_div_iff₀ hD]
    have := law_excess hp i j
    linarith

theorem z_of_small {P : ℕ → ℝ} (hP : Tendsto P atTop (𝓝 0)) (M : ℝ) : ∀ᶠ n in atTop, ∀ z : ℝ, P n = normCdf (-z) → M < z := by
  filter_upwards [hP.eventually (gt_mem_nhds (normCdf_pos (-M)))] with n h z hz
  rw [hz] at h
  have := lt_of_not_ge fun h1 => absurd (normCdf_le_iff.2 h1) (not_le.2 h)
  linarith

/-- **C94 (tables).** The counts approach a distribution in which the combination of the `i`-th and the `j`-th value is more frequent than for independent variables,
and at least one of the two values also occurs in other combinations: its p-value tends to 0 and its outlier significance exceeds every bound. -/
theorem outlier_found (h : OutExact N) {ci : String} (hci : GoodCI N ci) (hp : IsJoint p) {i : Fin r} {j : Fin c} (hmore : (∑ l, p i l) * ∑ k, p k j < p i j)
    (hother : (∃ l, l ≠ j ∧ 0 < p i l) ∨ ∃ k, k ≠ i ∧ 0 < p k j) (M : ℝ) {ε : ℝ} (hε : 0 < ε) :
    ∀ᶠ n in atTop, ∃ v, ∃ P z : ℝ, outlierFromHist2d N ⟨r, c, T n⟩ ci = .ok ⟨r, c, v⟩ ∧ v i j = (some P, some (z : EReal)) ∧ P < ε ∧ M < z := by
  have hβ : 0 ≤ ∑ l ∈ Finset.univ.erase j, p i l := Finset.sum_nonneg fun l _ => hp.nonneg i l
  have hγ : 0 ≤ ∑ k ∈ Finset.univ.erase i, p k j := Finset.sum_nonneg fun k _ => hp.nonneg k j
  have hδ : 0 ≤ ∑ k ∈ Finset.univ.erase i, ∑ l ∈ Finset.univ.erase j, p k l :=
    Finset.sum_nonneg fun k _ => Finset.sum_nonneg fun l _ => hp.nonneg k l
  have hD : 0 < ∑ k ∈ Finset.univ.erase i, ∑ l ∈ Finset.univ.erase j, p k l := by
    rcases hδ.eq_or_lt with h0 | h0
    · have := law_excess hp i j
      rw [← h0] at this
      nlinarith [mul_nonneg hβ hγ]
    · exact h0
  have hBC : 0 < (∑ l ∈ Finset.univ.erase j, p i l) + ∑ k ∈ Finset.univ.erase i, p k j := by
    rcases hother with ⟨l, h1, h2⟩ | ⟨k, h1, h2⟩
    · refine add_pos_of_pos_of_nonneg (h2.trans_le ?_) hγ
      exact Finset.single_le_sum (fun l _ => hp.nonneg i l) (Finset.mem_erase.2 ⟨h1, Finset.mem_univ _⟩)
    · refine add_pos_of_nonneg_of_pos hβ (h2.trans_le ?_)
      exact Finset.single_le_sum (f := fun k => p k j) (fun k _ => hp.nonneg k j) (Finset.mem_erase.2 ⟨h1, Finset.mem_univ _⟩)
  obtain ⟨P, h1, h2, -⟩ := outlier_cell hT h hci hp i j hD hBC
  filter_upwards [h1, z_of_small hT (h2 hmore) M, (h2 hmore).eventually (gt_mem_nhds hε)] with n ⟨v, z, g1, g2, g3⟩ hz hs
  exact ⟨v, P n, z, g1, g2, hs, hz z g3⟩

/-- **C94 (tables).** If the combination is less frequent than for independent variables, and some records have neither value:
its p-value tends to 1 and its outlier significance falls below every bound. -/
theorem outlier_lack (h : OutExact N) {ci : String} (hci : GoodCI N ci) (hp : IsJoint p) {i : Fin r} {j : Fin c} (hless : p i j < (∑ l, p i l) * ∑ k, p k j)
    (hrest : ∃ k l, k ≠ i ∧ l ≠ j ∧ 0 < p k l) (M : ℝ) {ε : ℝ} (hε : 0 < ε) :
    ∀ᶠ n in atTop, ∃ v, ∃ P z : ℝ, outlierFromHist2d N ⟨r, c, T n⟩ ci = .ok ⟨r, c, v⟩ ∧ v i j = (some P, some (z : EReal)) ∧ 1 - ε < P ∧ z < M := by
  have hβ : 0 ≤ ∑ l ∈ Finset.univ.erase j, p i l := Finset.sum_nonneg fun l _ => hp.nonneg i l
  have hγ : 0 ≤ ∑ k ∈ Finset.univ.erase i, p k j := Finset.sum_nonneg fun k _ => hp.nonneg k j
  have hD : 0 < ∑ k ∈ Finset.univ.erase i, ∑ l ∈ Finset.univ.erase j, p k l := by
    obtain ⟨k, l, hk, hl, hkl⟩ := hrest
    refine hkl.trans_le ?_
    refine (Finset.single_le_sum (fun l _ => hp.nonneg k l) (Finset.mem_erase.2 ⟨hl, Finset.mem_univ _⟩)).trans ?_
    exact Finset.single_le_sum (f := fun k => ∑ l ∈ Finset.univ.erase j, p k l) (fun k _ => Finset.sum_nonneg fun l _ => hp.nonneg k l)
      (Finset.mem_erase.2 ⟨hk, Finset.mem_univ _⟩)
  have hBC : 0 < (∑ l ∈ Finset.univ.erase j, p i l) + ∑ k ∈ Finset.univ.erase i, p k j := by
    by_contra h0
    have e1 : ∑ l ∈ Finset.univ.erase j, p i l = 0 := by linarith
    have := law_excess hp i j
    rw [e1] at this
    have h2 := mul_nonneg (hp.nonneg i j) hD.le
    linarith
  obtain ⟨P, h1, -, h2⟩ := outlier_cell hT h hci hp i j hD hBC
  have hl := (h2 hless).eventually (lt_mem_nhds (normCdf_lt_one (-M)))
  filter_upwards [h1, hl, (h2 hless).eventually (lt_mem_nhds (show 1 - ε < 1 by linarith))] with n ⟨v, z, g1, g2, g3⟩ hz hs
  refine ⟨v, P n, z, g1, g2, hs, ?_⟩
  rw [g3] at hz
  have := lt_of_not_ge fun h1 => absurd (normCdf_le_iff.2 h1) (not_le.2 hz)
  linarith

end

/-! ### records and frames -/

deriving instance DecidableEq for Category

instance : Countable Category := by
  have : Function.Injective (fun c : Category => (match c with
    | .value x => Sum.inl x
    | .interval lo hi => Sum.inr (Sum.inl (lo, hi))
    | .special s => Sum.inr (Sum.inr (Cell.str s)) : Cell ⊕ (ℚ × ℚ) ⊕ Cell)) := by
    rintro (_ | _ | _) (_ | _ | _) h <;> simp at h
    · rw [h]
    · rw [h.1, h.2]
    · rw [h]
  exact this.countable

/-- The outlier matrix does not depend on the order of the rows and columns. -/
theorem outlier_perm (h : OutExact N) {ci : String} (hci : GoodCI N ci) {r' c' : ℕ} {t : Fin r → Fin c → ℕ} {t' : Fin r' → Fin c' → ℕ} (e : Fin r ≃ Fin r') (f : Fin c ≃ Fin c')
    (het : ∀ i j, t' (e i) (f j) = t i j) {v v'} (hv : outlierFromHist2d N ⟨r, c, t⟩ ci = .ok ⟨r, c, v⟩)
    (hv' : outlierFromHist2d N ⟨r', c', t'⟩ ci = .ok ⟨r', c', v'⟩) (i : Fin r) (j : Fin c) : v' (e i) (f j) = v i j := by
  have b1 : inRow ⟨r', c', t'⟩ (e i) (f j) = inRow ⟨r, c, t⟩ i j := by
    unfold inRow
    refine (Finset.sum_equiv f (fun l => by simp) fun l _ => (het i l).symm).symm
  have b2 : inCol ⟨r', c', t'⟩ (e i) (f j) = inCol ⟨r, c, t⟩ i j := by
    unfold inCol
    refine (Finset.sum_equiv e (fun l => by simp) fun l _ => (het l j).symm).symm
  have b3 : elsewhere ⟨r', c', t'⟩ (e i) (f j) = elsewhere ⟨r, c, t⟩ i j := by
    unfold elsewhere
    refine (Finset.sum_equiv e (fun l => by simp) fun k _ => Finset.sum_equiv f (fun l => by simp) fun l _ => (het k l).symm).symm
  obtain ⟨w, hw, g⟩ := outlier_table_any h hci ⟨r, c, t⟩
  obtain ⟨w', hw', g'⟩ := outlier_table_any h hci ⟨r', c', t'⟩
  rw [hv] at hw
  rw [hv'] at hw'
  have ew : v = w := by injection hw with hw; injection hw
  have ew' : v' = w' := by injection hw' with hw'; injection hw'
  subst ew ew'
  have G := g i j
  have G' := g' (e i) (f j)
  have a1 : t' (e i) (f j) = t i j := het i j
  simp only [b1, b2, b3, a1] at G'
  obtain ⟨x1, x2, x3⟩ := G
  obtain ⟨y1, y2, y3⟩ := G'
  by_cases d : elsewhere ⟨r, c, t⟩ i j = 0
  · rw [x1 d, y1 d]
  by_cases d1 : inRow ⟨r, c, t⟩ i j = 0 ∧ inCol ⟨r, c, t⟩ i j = 0
  · by_cases d2 : t i j = 0
    · rw [(x3 d d1.1 d1.2).1 d2, (y3 d d1.1 d1.2).1 d2]
    · rw [(x3 d d1.1 d1.2).2 d2, (y3 d d1.1 d1.2).2 d2]
  · rw [(x2 d d1).1, (y2 d d1).1]

/-- `K` is the pair of categories of every record of `A` and `B`. -/
def CategoriesOf (pf : String → Option (Option ℚ)) (dropna du dof : Bool) (ea eb : Option (List ℚ)) (A B : ℕ → Cell)
    (K : ℕ → Option Category × Option Category) : Prop :=
  ∀ k, (∀ x, (K k).1 = some x ↔ Belongs pf dropna du dof ea (A k) x) ∧ ∀ y, (K k).2 = some y ↔ Belongs pf dropna du dof eb (B k) y

/-- The categories and counts of the first `n` records. -/
theorem counts_cells {pf : String → Option (Option ℚ)} {dropna du dof : Bool} {ea eb : Option (List ℚ)} {A B : ℕ → Cell}
    {K : ℕ → Option Category × Option Category} (hK : CategoriesOf pf dropna du dof ea eb A B K) {u : Fin r → Category} {v : Fin c → Category}
    (hu : Function.Injective u) (hv : Function.Injective v) (hlab : ∀ k a b, K k = (some a, some b) → a ∈ Set.range u ∧ b ∈ Set.range v) {n : ℕ}
    (hd : DataTable (countArr (firstCounts K u v n))) {a b : Column} (ha : a.cells = (List.range n).map A) (hb : b.cells = (List.range n).map B)
    {ra rb : List Category} {m : Fin ra.length → Fin rb.length → ℕ} (hC : Counts pf dropna du dof ea eb a b ra rb m) :
    ∃ (e : Fin r ≃ Fin ra.length) (f : Fin c ≃ Fin rb.length), (∀ i, ra[e i] = u i) ∧ (∀ j, rb[f j] = v j) ∧
      ∀ i j, m (e i) (f j) = firstCounts K u v n i j := by
  have hz : a.cells.zip b.cells = (List.range n).map fun k => (A k, B k) := by rw [ha, hb, List.zip_map']
  have hrow : ∀ x, x ∈ ra ↔ ∃ y, ∃ k < n, K k = (some x, some y) := by
    intro x
    rw [hC.rows_mem, hz]
    constructor
    · rintro ⟨p, hp, h1, y, h2⟩
      obtain ⟨k, hk, rfl⟩ := List.mem_map.1 hp
      exact ⟨y, k, List.mem_range.1 hk, Prod.ext (((hK k).1 x).2 h1) (((hK k).2 y).2 h2)⟩
    · rintro ⟨y, k, hk, e⟩
      exact ⟨_, List.mem_map.2 ⟨k, List.mem_range.2 hk, rfl⟩, ((hK k).1 x).1 (by rw [e]), y, ((hK k).2 y).1 (by rw [e])⟩
  have hcol : ∀ y, y ∈ rb ↔ ∃ x, ∃ k < n, K k = (some x, some y) := by
    intro y
    rw [hC.cols_mem, hz]
    constructor
    · rintro ⟨p, hp, ⟨x, h1⟩, h2⟩
      obtain ⟨k, hk, rfl⟩ := List.mem_map.1 hp
      exact ⟨x, k, List.mem_range.1 hk, Prod.ext (((hK k).1 x).2 h1) (((hK k).2 y).2 h2)⟩
    · rintro ⟨x, k, hk, e⟩
      exact ⟨_, List.mem_map.2 ⟨k, List.mem_range.2 hk, rfl⟩, ⟨x, ((hK k).1 x).1 (by rw [e])⟩, ((hK k).2 y).1 (by rw [e])⟩
  have hpos : ∀ i j, (countArr (firstCounts K u v n)).v i j ≠ 0 → ∃ k < n, K k = (some (u i), some (v j)) := by
    intro i j h0
    have h1 : firstCounts K u v n i j ≠ 0 := fun h => h0 (by change ((firstCounts K u v n i j : ℕ) : ℝ) = 0; rw [h]; simp)
    have := List.count_pos_iff.1 (Nat.pos_of_ne_zero h1)
    obtain ⟨k, hk, e⟩ := List.mem_map.1 this
    exact ⟨k, List.mem_range.1 hk, e⟩
  have irr : ∀ {ra : List Category}, ra.Pairwise Category.Before → (∀ x ∈ ra, ¬ x.Before x) → ra.Nodup := by
    intro ra h1 h2
    refine h1.imp_of_mem fun {x y} hx _ hxy e => ?_
    rw [← e] at hxy
    exact h2 x hx hxy
  have hr : ra.Nodup := irr hC.rows_order fun x hx => by
    obtain ⟨p, -, h, -⟩ := (hC.rows_mem x).1 hx
    exact Phik.Out.Belongs.irrefl h
  have hc : rb.Nodup := irr hC.cols_order fun x hx => by
    obtain ⟨p, -, -, h⟩ := (hC.cols_mem x).1 hx
    exact Phik.Out.Belongs.irrefl h
  have h1 : ∀ i, ∃ k : Fin ra.length, ra[k] = u i := by
    intro i
    obtain ⟨j, hj⟩ := hd.rows i
    obtain ⟨k, hk, e⟩ := List.getElem_of_mem ((hrow (u i)).2 ⟨v j, hpos i j hj⟩)
    exact ⟨⟨k, hk⟩, e⟩
  have h2 : ∀ j, ∃ k : Fin rb.length, rb[k] = v j := by
    intro j
    obtain ⟨i, hi⟩ := hd.cols j
    obtain ⟨k, hk, e⟩ := List.getElem_of_mem ((hcol (v j)).2 ⟨u i, hpos i j hi⟩)
    exact ⟨⟨k, hk⟩, e⟩
  choose e he using h1
  choose f hf using h2
  have be : Function.Bijective e := by
    constructor
    · intro i i' hi
      apply hu
      rw [← he i, ← he i', hi]
    · intro k
      obtain ⟨y, l, -, hl⟩ := (hrow ra[k]).1 (List.getElem_mem _)
      obtain ⟨i, hi⟩ := (hlab _ _ _ hl).1
      exact ⟨i, Fin.ext (hr.getElem_inj_iff.1 ((he i).trans hi))⟩
  have bf : Function.Bijective f := by
    constructor
    · intro i i' hi
      apply hv
      rw [← hf i, ← hf i', hi]
    · intro k
      obtain ⟨y, l, -, hl⟩ := (hcol rb[k]).1 (List.getElem_mem _)
      obtain ⟨i, hi⟩ := (hlab _ _ _ hl).2
      exact ⟨i, Fin.ext (hc.getElem_inj_iff.1 ((hf i).trans hi))⟩
  refine ⟨Equiv.ofBijective e be, Equiv.ofBijective f bf, he, hf, fun i j => ?_⟩
  change m (e i) (f j) = firstCounts K u v n i j
  rw [hC.counts, hz]
  unfold firstCounts
  rw [List.count, List.countP_map, List.countP_map]
  refine List.countP_congr fun k _ => ?_
  simp only [Function.comp, decide_eq_true_eq, beq_iff_eq]
  rw [he i, hf j, ← (hK k).1, ← (hK k).2, Prod.ext_iff]

/-- The outlier matrix of the first `n` records has the values of the table of their counts, under the names of the categories. -/
theorem outlier_of_counts (h : OutExact N) {ci : String} (hci : GoodCI N ci) (fmt : ℚ → String) (hr : 2 ≤ r) (hc : 2 ≤ c) {t : Fin r → Fin c → ℕ} {u : Fin r → Category} {v : Fin c → Category}
    {ra rb : List Category} {m : Fin ra.length → Fin rb.length → ℕ} (e : Fin r ≃ Fin ra.length) (f : Fin c ≃ Fin rb.length)
    (he : ∀ i, ra[e i] = u i) (hf : ∀ j, rb[f j] = v j) (hm : ∀ i j, m (e i) (f j) = t i j) {res : Except Err (Option OutTab)}
    (hres : IsOutlierMatrix N fmt ci ra rb m res) {w} (hw : outlierFromHist2d N ⟨r, c, t⟩ ci = .ok ⟨r, c, w⟩) :
    ∃ o : OutTab, res = .ok (some o) ∧ ∀ i j, ∃ x y, o.rows[x] = (u i).name fmt ∧ o.cols[y] = (v j).name fmt ∧ o.v x y = (w i j).2 := by
  have l1 : ra.length = r := by simpa using (Fintype.card_congr e).symm
  have l2 : rb.length = c := by simpa using (Fintype.card_congr f).symm
  obtain ⟨z, hz, -⟩ := outlier_table_any h hci ⟨ra.length, rb.length, m⟩
  match res, hres with
  | .ok none, hres => exact absurd hres (by change ¬ (_ ∨ _); omega)
  | .error e, hres => exact absurd (hz.symm.trans hres.2.2) (by simp)
  | .ok (some o), hres =>
    obtain ⟨-, -, g1, g2, z', g3, g4⟩ := hres
    refine ⟨o, rfl, fun i j => ?_⟩
    refine ⟨⟨(e i).val, by rw [g1, List.length_map]; exact (e i).isLt⟩, ⟨(f j).val, by rw [g2, List.length_map]; exact (f j).isLt⟩, ?_, ?_, ?_⟩
    · simp only [Fin.getElem_fin, g1, List.getElem_map]
      rw [← he i]; rfl
    · simp only [Fin.getElem_fin, g2, List.getElem_map]
      rw [← hf j]; rfl
    · rw [g4 _ _ (e i) (f j) rfl rfl, outlier_perm h hci e f hm hw g3]

section
variable {p : Fin r → Fin c → ℝ} {law : Option Category × Option Category → ℝ} {q : ℝ} {u : Fin r → Category} {v : Fin c → Category}
  {Ω : Type} [MeasurableSpace Ω] {μ : Measure Ω} {A B : ℕ → Ω → Cell} {K : ℕ → Ω → Option Category × Option Category}
  {pf : String → Option (Option ℚ)} {dropna du dof : Bool} {ea eb : Option (List ℚ)}

/-- The calls of C94 that return an outlier matrix of the columns with the first `n` of the draws `A` and `B`: the result is `res`.  Either
`outlier_significance_matrix_from_rebinned_df`, for a frame with the two columns binned with the edges `ea`, `eb` (or not binned); or
`outlier_significance_matrix` for a frame with the two columns, where the bin specification gives these edges and no column is dropped. -/
inductive OutlierCall (N : OutNum) (ci : String) (fmt : ℚ → String) (pf : String → Option (Option ℚ)) (dropna du dof : Bool) (ea eb : Option (List ℚ)) (A B : List Cell) :
    Except Err (Option OutTab) → Prop
  | rebinned {ref : Ref} {w w' : World} {f : Frame} {dict : List (String × List (ℚ × ℚ))} {a b a' b' : Column} {res : Except Err (Option OutTab)}
      (hf : w.heap[ref]? = some f) (hcols : f.cols = [a', b']) (ha : a.cells = A) (hb : b.cells = B)
      (hA : BinnedCol pf dict a a' ea) (hB : BinnedCol pf dict b b' eb) (gA : GoodEdges ea) (gB : GoodEdges eb)
      (hexec : (outlierFromRebinned N fmt ref dict ci dropna du dof).exec w = (res, w')) : OutlierCall N ci fmt pf dropna du dof ea eb A B res
  | matrix {fl : ℚ → ℚ} (hfl : fl = (fun x => x) ∨ fl = rne53) {ref : Ref} {w w' : World} {f : Frame} {a b : Column} {ic : Option (List String)} {bins : Bins}
      {quantile : Bool} {res : Except Err (Option OutTab × List (String × List (ℚ × ℚ)))} (hf : w.heap[ref]? = some f) (hcols : f.cols = [a, b])
      (hne : a.name ≠ b.name) (ha : a.cells = A) (hb : b.cells = B)
      (hent : ∀ name ∈ ic.getD (guessIntervalCols f), ∃ s, EntryFor bins name s)
      (hspec : ∀ name ∈ ic.getD (guessIntervalCols f), ∀ s, EntryFor bins name s → SortedSpec s)
      (hrep : ∀ c ∈ f.cols, c.name ∈ ic.getD (guessIntervalCols f) → ∀ x ∈ c.cells, ∀ q, toFloat pf x = .ok (some q) → fl q = q)
      (ka : Kept (ic.getD (guessIntervalCols f)) dropna a) (kb : Kept (ic.getD (guessIntervalCols f)) dropna b)
      (hea : ∀ e, EdgesFor fl pf quantile bins (ic.getD (guessIntervalCols f)) a e → e = ea)
      (heb : ∀ e, EdgesFor fl pf quantile bins (ic.getD (guessIntervalCols f)) b e → e = eb)
      (hbin : ∃ x, ((binData fl pf ref ((ic.getD (guessIntervalCols f)).filter fun n => decide (n ∈ f.names)) bins quantile).exec w).1 = .ok x)
      (hexec : (outlierMatrix N fmt fl pf ref ic ci bins quantile dropna du dof).exec w = (res, w')) :
      OutlierCall N ci fmt pf dropna du dof ea eb A B (res.map Prod.fst)

theorem OutlierCall.counts {ci : String} {fmt : ℚ → String} {A B : List Cell} {res : Except Err (Option OutTab)} (h : OutlierCall N ci fmt pf dropna du dof ea eb A B res) :
    ∃ (a b : Column) (ra rb : List Category) (m : Fin ra.length → Fin rb.length → ℕ), a.cells = A ∧ b.cells = B ∧
      Counts pf dropna du dof ea eb a b ra rb m ∧ IsOutlierMatrix N fmt ci ra rb m res := by
  cases h with
  | rebinned hf hcols ha hb hA hB gA gB hexec =>
    obtain ⟨ra, rb, m, res', w'', e1, e2, e3, -⟩ := outlierFromRebinned_exec N fmt hf hcols hA hB gA gB ci dropna du dof
    rw [hexec] at e1
    cases e1
    exact ⟨_, _, ra, rb, m, ha, hb, e2, e3⟩
  | matrix hfl hf hcols hne ha hb hent hspec hrep ka kb hea heb hbin hexec =>
    rcases outlier_matrix_labels N fmt hfl pf hf hcols hne _ ci _ _ dropna du dof hent hspec hrep ka kb with ⟨e, -, h2⟩ | ⟨e1, e2, ra, rb, m, h1, h2, h3, h4⟩
    · obtain ⟨x, hx⟩ := hbin
      rw [hx] at h2; cases h2
    · rw [hexec] at h4
      rw [hea e1 h1, heb e2 h2] at h3
      exact ⟨_, _, ra, rb, m, ha, hb, h3, h4⟩

/-- Almost surely the counts of the first records approach the distribution, and what the calls return from some point on. -/
theorem outlier_calls (h : OutExact N) {ci : String} (hci : GoodCI N ci) (fmt : ℚ → String) (hr : 2 ≤ r) (hc : 2 ≤ c) (hp : IsJoint p) (hl : CompleteLaw law q p u v)
    (hR : IIDRecords μ K law) (hK : ∀ ω, CategoriesOf pf dropna du dof ea eb (A · ω) (B · ω) (K · ω)) :
    ∀ᵐ ω ∂μ, Approaches (firstCounts (K · ω) u v) p ∧ ∀ᶠ n in atTop, ∀ w, outlierFromHist2d N ⟨r, c, firstCounts (K · ω) u v n⟩ ci = .ok ⟨r, c, w⟩ →
      ∀ res, OutlierCall N ci fmt pf dropna du dof ea eb ((List.range n).map (A · ω)) ((List.range n).map (B · ω)) res →
      ∃ o : OutTab, res = .ok (some o) ∧ ∀ i j, ∃ x y, o.rows[x] = (u i).name fmt ∧ o.cols[y] = (v j).name fmt ∧ o.v x y = (w i j).2 := by
  filter_upwards [hR.frequency] with ω h0
  obtain ⟨h1, h2⟩ := h0
  have hT := approaches_of_frequency hl hp h2
  refine ⟨hT, ?_⟩
  have hlab : ∀ k a b, K k ω = (some a, some b) → a ∈ Set.range u ∧ b ∈ Set.range v := by
    intro k a b hk
    have := h1 k
    rw [hk] at this
    exact hl.other a b this
  filter_upwards [approaches_data hT hp] with n hd w hw res hres
  obtain ⟨a, b, ra, rb, m, ha, hb, hC, hO⟩ := hres.counts
  obtain ⟨e, f, g1, g2, g3⟩ := counts_cells (hK ω) hl.u_inj hl.v_inj hlab hd ha hb hC
  exact outlier_of_counts h hci fmt hr hc e f g1 g2 g3 hO hw

/-- **C94.** Of independent draws of records, binned with given edges or not: if the combination of the categories `u i` and `v j` is more frequent among the complete
records than for independent variables, and one of the two also occurs in other combinations, then almost surely the outlier significance of the combination exceeds
every bound when the sample is large enough. -/
theorem outlier_detected (h : OutExact N) {ci : String} (hci : GoodCI N ci) (fmt : ℚ → String) (hr : 2 ≤ r) (hc : 2 ≤ c) (hp : IsJoint p) (hl : CompleteLaw law q p u v)
    (hR : IIDRecords μ K law) (hK : ∀ ω, CategoriesOf pf dropna du dof ea eb (A · ω) (B · ω) (K · ω)) {i : Fin r} {j : Fin c}
    (hmore : (∑ l, p i l) * ∑ k, p k j < p i j) (hother : (∃ l, l ≠ j ∧ 0 < p i l) ∨ ∃ k, k ≠ i ∧ 0 < p k j) :
    ∀ᵐ ω ∂μ, ∀ M : ℝ, ∀ᶠ n in atTop, ∀ res,
      OutlierCall N ci fmt pf dropna du dof ea eb ((List.range n).map (A · ω)) ((List.range n).map (B · ω)) res →
      ∃ (o : OutTab) (x : Fin o.rows.length) (y : Fin o.cols.length) (z : ℝ), res = .ok (some o) ∧
        o.rows[x] = (u i).name fmt ∧ o.cols[y] = (v j).name fmt ∧ o.v x y = some (z : EReal) ∧ M < z := by
  filter_upwards [outlier_calls h hci fmt hr hc hp hl hR hK] with ω ⟨hT, h2⟩ M
  filter_upwards [h2, outlier_found hT h hci hp hmore hother M one_pos] with n hn ⟨w, P, z, g1, g2, _, g3⟩ res hres
  obtain ⟨o, ho, hij⟩ := hn w g1 res hres
  obtain ⟨x, y, k1, k2, k3⟩ := hij i j
  exact ⟨o, x, y, z, ho, k1, k2, by rw [k3, g2], g3⟩

/-- **C94.** If the combination is less frequent than for independent variables, and some complete records have neither of the two categories, then almost surely
its outlier significance falls below every bound. -/
theorem outlier_lack_detected (h : OutExact N) {ci : String} (hci : GoodCI N ci) (fmt : ℚ → String) (hr : 2 ≤ r) (hc : 2 ≤ c) (hp : IsJoint p) (hl : CompleteLaw law q p u v)
    (hR : IIDRecords μ K law) (hK : ∀ ω, CategoriesOf pf dropna du dof ea eb (A · ω) (B · ω) (K · ω)) {i : Fin r} {j : Fin c}
    (hless : p i j < (∑ l, p i l) * ∑ k, p k j) (hrest : ∃ k l, k ≠ i ∧ l ≠ j ∧ 0 < p k l) :
    ∀ᵐ ω ∂μ, ∀ M : ℝ, ∀ᶠ n in atTop, ∀ res,
      OutlierCall N ci fmt pf dropna du dof ea eb ((List.range n).map (A · ω)) ((List.range n).map (B · ω)) res →
      ∃ (o : OutTab) (x : Fin o.rows.length) (y : Fin o.cols.length) (z : ℝ), res = .ok (some o) ∧
        o.rows[x] = (u i).name fmt ∧ o.cols[y] = (v j).name fmt ∧ o.v x y = some (z : EReal) ∧ z < M := by
  filter_upwards [outlier_calls h hci fmt hr hc hp hl hR hK] with ω ⟨hT, h2⟩ M
  filter_upwards [h2, outlier_lack hT h hci hp hless hrest M one_pos] with n hn ⟨w, P, z, g1, g2, _, g3⟩ res hres
  obtain ⟨o, ho, hij⟩ := hn w g1 res hres
  obtain ⟨x, y, k1, k2, k3⟩ := hij i j
  exact ⟨o, x, y, z, ho, k1, k2, by rw [k3, g2], g3⟩

end

/-! ### a case -/

/-- A column of the numbers 1, 2, 3, binned with the edges 0, 1, 2, 3, a column of the texts "a", "b", "c", a quarter of the records incomplete: the combination of
the interval from 0 to 1 with "a" is found in every outlier matrix of a large sample, and that of the same interval with "b" is found missing. -/
example {ci : String} (hci : ci = "poisson" ∨ ci = "exact_poisson") (fmt : ℚ → String) (pf : String → Option (Option ℚ)) : ∃ (Ω : Type) (_ : MeasurableSpace Ω) (μ : Measure Ω) (_ : IsProbabilityMeasure μ) (A B : ℕ → Ω → Cell),
    ∀ᵐ ω ∂μ, ∀ M : ℝ, ∀ᶠ n in atTop, ∀ res,
      OutlierCall trueOut ci fmt pf true true true (some [0, 1, 2, 3]) none ((List.range n).map (A · ω)) ((List.range n).map (B · ω)) res →
      (∃ (o : OutTab) (x : Fin o.rows.length) (y : Fin o.cols.length) (z : ℝ), res = .ok (some o) ∧
        o.rows[x] = .str (fmt 0 ++ "_" ++ fmt 1) ∧ o.cols[y] = .str "a" ∧ o.v x y = some (z : EReal) ∧ M < z) ∧
      ∃ (o : OutTab) (x : Fin o.rows.length) (y : Fin o.cols.length) (z : ℝ), res = .ok (some o) ∧
        o.rows[x] = .str (fmt 0 ++ "_" ++ fmt 1) ∧ o.cols[y] = .str "b" ∧ o.v x y = some (z : EReal) ∧ z < M := by
  obtain ⟨Ω, _, μ, D, hD⟩ := draws_exist agreeLaw_joint (q := 3 / 4) (by norm_num) (by norm_num)
  let u : Fin 3 → Category := ![.interval 0 1, .interval 1 2, .interval 2 3]
  let v : Fin 3 → Category := ![.value (.str "a"), .value (.str "b"), .value (.str "c")]
  have hu : Function.Injective u := by decide
  have hv : Function.Injective v := by decide
  obtain ⟨law, hl, hR⟩ := hD u v hu hv
  let A : ℕ → Ω → Cell := fun k ω => match D k ω with
    | none => .nan
    | some z => .num ((z.1 : ℕ) + 1 : ℕ)
  let B : ℕ → Ω → Cell := fun k ω => match D k ω with
    | none => .nan
    | some z => ![.str "a", .str "b", .str "c"] z.2
  have ha : ∀ (i : Fin 3) x, some (u i) = some x ↔ Belongs pf true true true (some [0, 1, 2, 3]) (.num ((i : ℕ) + 1 : ℕ)) x := by
    intro i x
    rw [belongs_bin true true true (by norm_num) (by simp) (a := some (((i : ℕ) + 1 : ℕ) : ℚ)) rfl]
    have hb : binCell [0, 1, 2, 3] (some (((i : ℕ) + 1 : ℕ) : ℚ)) = .num ((i : ℕ) + 1 : ℕ) := by
      rw [binCell_num_iff _ (by norm_num)]
      fin_cases i <;> exact ⟨_, rfl, by norm_num⟩
    rw [hb]
    fin_cases i <;> simp [view, binCat, edgePair, u]
  have hb : ∀ (i : Fin 3) x, some (v i) = some x ↔ Belongs pf true true true none (![.str "a", .str "b", .str "c"] i) x := by
    intro i x
    have hw : view true true true (![.str "a", .str "b", .str "c"] i) = some (![.str "a", .str "b", .str "c"] i) := by fin_cases i <;> rfl
    have hvi : v i = .value (![.str "a", .str "b", .str "c"] i) := by fin_cases i <;> rfl
    rw [hvi, Option.some.injEq]
    constructor
    · rintro rfl; exact .value hw
    · intro h
      cases h with
      | value h => rw [hw] at h; cases h; rfl
  have hK : ∀ ω, CategoriesOf pf true true true (some [0, 1, 2, 3]) none (A · ω) (B · ω)
      fun k => ((D k ω).map fun z => u z.1, (D k ω).map fun z => v z.2) := by
    intro ω k
    dsimp only [A, B]
    cases hz : D k ω with
    | none =>
      constructor
      · intro x
        simp only [Option.map_none, reduceCtorEq, false_iff]
        intro h
        cases h <;> simp_all [toFloat]
      · intro x
        simp only [Option.map_none, reduceCtorEq, false_iff]
        intro h
        cases h with
        | value h => simp [view] at h
    | some z => exact ⟨fun x => ha z.1 x, fun x => hb z.2 x⟩
  refine ⟨Ω, _, μ, hR.prob, A, B, ?_⟩
  have m1 : (∑ l, agreeLaw 0 l) * ∑ k, agreeLaw k 0 < agreeLaw 0 0 := by
    simp only [Fin.sum_univ_three, agreeLaw, if_pos, show (0 : Fin 3) ≠ 1 by decide, show (0 : Fin 3) ≠ 2 by decide, show (1 : Fin 3) ≠ 0 by decide,
      show (2 : Fin 3) ≠ 0 by decide, if_false]; norm_num
  have m2 : agreeLaw 0 1 < (∑ l, agreeLaw 0 l) * ∑ k, agreeLaw k 1 := by
    norm_num [agreeLaw, Fin.sum_univ_three, Fin.ext_iff]
  filter_upwards [outlier_detected trueOut_exact (goodCI_true hci) fmt (by norm_num) (by norm_num) agreeLaw_joint hl hR.iid hK m1
      (.inl ⟨1, by decide, by simp [agreeLaw]⟩),
    outlier_lack_detected trueOut_exact (goodCI_true hci) fmt (by norm_num) (by norm_num) agreeLaw_joint hl hR.iid hK m2
      ⟨1, 0, by decide, by decide, by simp [agreeLaw]⟩] with ω h1 h2 M
  filter_upwards [h1 M, h2 M] with n h1 h2 res hres
  exact ⟨h1 res hres, h2 res hres⟩

/-- Both kinds of calls exist: for a frame with a column to be binned and a column of texts. -/
example (ci : String) (fmt : ℚ → String) (pf : String → Option (Option ℚ)) :
    let x : List Cell := [.num 1, .num 3, .num 7, .num 7]
    let y : List Cell := [.str "a", .str "b", .str "a", .str "b"]
    (∃ res, OutlierCall trueOut ci fmt pf true true true (some [0, 2, 4, 6, 8]) none x y res) ∧ ∃ res, OutlierCall trueOut ci fmt pf true true true none none x y res := by
  refine ⟨⟨_, .matrix (.inl rfl) (ref := 0) (w := ⟨[gapFrame], []⟩) (f := gapFrame) (ic := some ["x"]) (bins := .dict [("x", .edges [0, 2, 4, 6, 8])])
    (quantile := false) rfl rfl (by decide) rfl rfl ?_ ?_ ?_ ?_ ?_ ?_ ?_ ?_ rfl⟩, ⟨_, .rebinned (ref := 0) (w := ⟨[gapFrame], []⟩) (f := gapFrame)
    (dict := []) rfl rfl rfl rfl ⟨rfl, rfl⟩ ⟨rfl, rfl⟩ trivial trivial rfl⟩⟩
  · intro name h; simp at h; subst h; exact ⟨_, .dict _ _ _ rfl⟩
  · intro name h s hs
    simp at h; subst h
    cases hs with
    | dict _ _ _ h => simp at h; subst h; exact ⟨by simp, by norm_num⟩
  · intros; rfl
  · unfold Kept; rw [← nunique_eq]; decide
  · unfold Kept; rw [← nunique_eq]; decide
  · intro e h
    cases e with
    | none => exact absurd (by simp) h
    | some e =>
      obtain ⟨-, arr, s, -, hs, hq⟩ := h
      cases hs with
      | dict _ _ _ h => simp at h; subst h; cases hq; rfl
  · intro e h
    cases e with
    | none => rfl
    | some e => exact absurd h.1 (by decide)
  · rw [binData_exec (fun x => x) pf (r := 0) (w := ⟨[gapFrame], []⟩) (data := gapFrame) rfl]
    have : ∃ v, binDataCore (fun x => x) pf gapFrame (["x"].filter fun n => decide (n ∈ gapFrame.names))
        (.dict [("x", .edges [0, 2, 4, 6, 8])]) false = .ok v := ⟨_, rfl⟩
    obtain ⟨v, hv⟩ := this
    simp only [Option.getD_some, hv]
    exact ⟨_, rfl⟩

end Phik.Props
