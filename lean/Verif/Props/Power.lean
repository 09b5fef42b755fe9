import Verif.Props.ConsistencyData
import Verif.Props.SigTrue
import Verif.Props.Locality
import Verif.Props.SigMatrix
import Verif.Props.SigArrays
import Verif.Props.HybridWitness
import Verif.Props.StatBounds

/-! # Property C85: a dependence becomes significant with ever more records -/

namespace Phik.Props

open Spec MeasureTheory Topology
open Filter (Tendsto atTop Eventually)

variable {F : Type} {r c : ℕ}

/-- The mutual information of two variables is positive unless they are independent. -/
theorem mutualInfo_pos {p : Fin r → Fin c → ℝ} (hp : IsJoint p) : 0 ≤ mutualInfo p ∧ (mutualInfo p = 0 ↔ IndepJoint p) := by
  have hpos : ∀ i j, 0 < (∑ j', p i j') * ∑ i', p i' j := fun i j => mul_pos (hp.rows i) (hp.cols j)
  have hcols : ∑ j, ∑ i, p i j = 1 := by rw [Finset.sum_comm]; exact hp.total
  have hone : ∑ i, ∑ j, (∑ j', p i j') * (∑ i', p i' j) = 1 := by
    simp only [← Finset.mul_sum, hcols, mul_one, hp.total]
  have key : ∑ i, ∑ j, (gCell (p i j) ((∑ j', p i j') * ∑ i', p i' j) - 2 * (p i j - (∑ j', p i j') * ∑ i', p i' j)) = 2 * mutualInfo p := by
    simp only [Finset.sum_sub_distrib, ← Finset.mul_sum, hone, hp.total, hcols]
    unfold mutualInfo gCell
    simp only [Finset.mul_sum, hp.total, hcols]
    simp [← Finset.mul_sum, hp.total]
  have hnn := fun i j => (gibbs_cell (hp.nonneg i j) (hpos i j)).1
  constructor
  · have : 0 ≤ 2 * mutualInfo p := key ▸ Finset.sum_nonneg fun i _ => Finset.sum_nonneg fun j _ => hnn i j
    linarith
  · have h2 : mutualInfo p = 0 ↔ 2 * mutualInfo p = 0 := by constructor <;> intro h <;> linarith
    rw [h2, ← key, Finset.sum_eq_zero_iff_of_nonneg fun i _ => Finset.sum_nonneg fun j _ => hnn i j]
    unfold IndepJoint
    refine forall_congr' fun i => ?_
    rw [Finset.sum_eq_zero_iff_of_nonneg fun j _ => hnn i j]
    simp only [Finset.mem_univ, true_imp_iff]
    exact forall_congr' fun j => (gibbs_cell (hp.nonneg i j) (hpos i j)).2

theorem log_le_half {u : ℝ} (h : 0 < u) : Real.log u ≤ u / 2 := by
  have h1 := Real.log_le_sub_one_of_pos (half_pos h)
  rw [Real.log_div h.ne' (by norm_num)] at h1
  have h2 := Real.log_le_sub_one_of_pos (show (0 : ℝ) < 2 by norm_num)
  linarith

/-- The significance of a large enough value of the statistic is as large as desired, whether or not the p-value underflows. -/
theorem significance_unbounded {S : SigNum} (hS : SigSpec S) (hv : TailsVanish S) {k : ℝ} (hk : 0 < k) (z0 : ℝ) :
    ∃ x0, ∀ x, x0 ≤ x → ∃ p z, sigFromNdof S x k = .ok (some p, some z) ∧ (z0 : EReal) < z := by
  obtain ⟨p0, hp0, hp1, hz⟩ := hv.ppf z0
  obtain ⟨x1, p1, e1, h1⟩ := hv.chi2 k hk p0 hp0
  refine ⟨max (max x1 1) (2 * (2 * z0 ^ 2 + 1 + Real.log (2 * Real.pi) + k)), fun x hx => ?_⟩
  have hx1 : x1 ≤ x := (le_max_left _ _).trans ((le_max_left _ _).trans hx)
  have hx0 : 0 < x := lt_of_lt_of_le one_pos ((le_max_right _ _).trans ((le_max_left _ _).trans hx))
  have hx2 := (le_max_right _ _).trans hx
  obtain ⟨p, e, q0, q1⟩ := hS.chi2_range x k hk
  by_cases h0 : p = 0
  · subst h0
    have hu : 2 * z0 ^ 2 + 1 ≤ chernoffU x k := by
      unfold chernoffU
      have := log_le_half (div_pos hx0 hk)
      have h3 : k * (x / k / 2) ≤ k * (x / k - Real.log (x / k)) := mul_le_mul_of_nonneg_left (by linarith) hk.le
      have h4 : k * (x / k / 2) = x / 2 := by field_simp
      nlinarith
    have hpos : 0 < chernoffU x k := by nlinarith [sq_nonneg z0]
    refine ⟨0, _, ((chernoff_value hS e).1 hpos).1, ?_⟩
    rw [EReal.coe_lt_coe_iff]
    refine Real.lt_sqrt_of_sq_lt ?_
    have := log_le_half hpos
    linarith
  · refine ⟨p, -S.ppf p, ?_, ?_⟩
    · unfold sigFromNdof zOfP
      simp [e, h0, pure, Except.pure, bind, Except.bind]
    · have hle : p ≤ p0 := (hS.chi2_anti _ _ _ _ _ hx1 e1 e).trans h1.le
      have := (hS.ppf_mono ⟨q0, q1⟩ ⟨hp0.le, hp1⟩ hle).trans_lt hz
      rw [EReal.lt_neg_comm]
      exact_mod_cast this

/-- **C85 (tables).** Let the proportions of ever more records approach a distribution whose variables are not independent.  Then the
asymptotic significance of the table exceeds every bound, with the statistics of Pearson, of the likelihood ratio and of Cressie and Read, and is never NaN or an exception. -/
theorem asymptotic_power {S : SigNum} (hS : SigSpec S) (hv : TailsVanish S) (hr : 2 ≤ r) (hc : 2 ≤ c) {p : Fin r → Fin c → ℝ} (hp : IsJoint p)
    (hdep : ¬ IndepJoint p) {T : ℕ → Fin r → Fin c → ℕ} (hT : Approaches T p) {lam : String} (hl : lam ∈ ["pearson", "log-likelihood", "cressie-read"]) (z0 : ℝ) :
    ∀ᶠ n in atTop, ∀ R : SimRun F, R.lambda = lam →
      ∃ q z, sigFromHist2d S R (countArr (T n)) "asymptotic" = .ok (some q, some z) ∧ (z0 : EReal) < z := by
  have hk : (0 : ℝ) < (((r : ℤ) - 1) * ((c : ℤ) - 1) : ℤ) := by
    exact_mod_cast mul_pos (show (0 : ℤ) < r - 1 by omega) (show (0 : ℤ) < c - 1 by omega)
  obtain ⟨x0, hx0⟩ := significance_unbounded hS hv hk z0
  have hphi : 0 < phi2 p := lt_of_le_of_ne (phi2_nonneg hp) fun h => hdep ((phi2_eq_zero hp).1 h.symm)
  have hmi : 0 < mutualInfo p := lt_of_le_of_ne (mutualInfo_pos hp).1 fun h => hdep ((mutualInfo_pos hp).2.1 h.symm)
  set d := min (phi2 p) (mutualInfo p) with hd
  have hdpos : 0 < d := lt_min hphi hmi
  have hbig := (approaches_total hT).eventually_ge_atTop (max 1 (2 * |x0| / (d / 2)))
  filter_upwards [chi2_consistent hr hc hp hT (half_pos hdpos), hbig] with n hn hb R hR
  obtain ⟨y, g, ey, eg, hy, hg⟩ := hn
  have hN : (∑ i, ∑ j, (T n i j : ℝ)) = (countArr (T n)).total := rfl
  rw [hN] at hy hg
  set N := (countArr (T n)).total
  have hN1 : 1 ≤ N := (le_max_left _ _).trans hb
  have hN3 : 2 * |x0| ≤ d / 2 * N := by
    have := (le_max_right _ _).trans hb
    rw [div_le_iff₀ (half_pos hdpos)] at this
    linarith
  have hN2 : x0 ≤ d / 2 * N := by
    have := le_abs_self x0
    have := abs_nonneg x0
    linarith
  have hN0 : 0 < N := by linarith
  have hgN : d / 2 * N ≤ g := by
    have h1 := (abs_lt.1 hg).1
    have h2 : d / 2 ≤ g / N := by have := min_le_right (phi2 p) (mutualInfo p); linarith
    rwa [le_div_iff₀ hN0] at h2
  have key : ∃ x, getChi2 (countArr (T n)) lam = .ok x ∧ x0 ≤ x := by
    simp only [List.mem_cons, List.not_mem_nil, or_false] at hl
    rcases hl with rfl | rfl | rfl
    · refine ⟨y, ey, hN2.trans ?_⟩
      have h1 := (abs_lt.1 hy).1
      have h2 : d / 2 ≤ y / N := by have := min_le_left (phi2 p) (mutualInfo p); linarith
      rwa [le_div_iff₀ hN0] at h2
    · exact ⟨g, eg, hN2.trans hgN⟩
    · obtain ⟨_, g', cr, -, eg', ec, hcr, -⟩ := statistics_compare (a := countArr (T n)) ⟨fun i j => Nat.cast_nonneg _, hN0⟩
      rw [eg] at eg'
      obtain rfl : g = g' := Except.ok.inj eg'
      refine ⟨cr, ec, ?_⟩
      have := le_abs_self x0
      have := abs_nonneg x0
      linarith
  obtain ⟨x, ex, hx⟩ := key
  obtain ⟨q, z, e, hz⟩ := hx0 x hx
  refine ⟨q, z, ?_, hz⟩
  unfold sigFromHist2d
  rw [hR, ex]
  change sigAsymptotic S (countArr (T n)) x = _
  unfold sigAsymptotic
  rw [theoretical_ndof_value]
  exact e

/-- The asymptotic significance of records, from the table of counts. -/
theorem sig_of_labelled (S : SigNum) (rn : SimRun F) {R : ℕ → Option Cell × Option Cell} {u : Fin r → Cell} {v : Fin c → Cell} (hr : 2 ≤ r) (hc : 2 ≤ c)
    (hu : Function.Injective u) (hv : Function.Injective v)
    (hlab : ∀ k a b, R k = (some a, some b) → a ∈ Set.range u ∧ b ∈ Set.range v) {n : ℕ}
    (hd : DataTable (countArr (firstCounts R u v n))) {p : Option ℝ} {z : Option EReal}
    (hx : sigFromHist2d S rn (countArr (firstCounts R u v n)) "asymptotic" = .ok (p, z)) :
    IsSig S rn "asymptotic" ((List.range n).map R) z := by
  obtain ⟨h, ht⟩ := exists_table ((List.range n).map R)
  obtain ⟨e, f, hef⟩ := table_of_counts hu hv hlab hd ht
  have l1 : h.rows.length = r := by simpa using (Fintype.card_congr e).symm
  have l2 : h.cols.length = c := by simpa using (Fintype.card_congr f).symm
  have hs := sameTable_reindex (a := countArr (firstCounts R u v n)) (b := h.values) e f hef
  refine ⟨h, ht, .inr ⟨by unfold Few; omega, p, ?_⟩⟩
  rw [← hx]
  unfold sigFromHist2d sigAsymptotic
  rw [get_chi2_sameTable hs, theoretical_ndof_value, theoretical_ndof_value, show h.values.r = r from l1, show h.values.c = c from l2]
  rfl

/-- **C85 (records).** Of independent draws of records, the complete ones of which have a joint distribution that is not independent: almost surely
the asymptotic significance of the first `n` records tends to infinity. -/
theorem asymptotic_detects {S : SigNum} (hS : SigSpec S) (hv : TailsVanish S) (hr : 2 ≤ r) (hc : 2 ≤ c) {p : Fin r → Fin c → ℝ} (hp : IsJoint p)
    (hdep : ¬ IndepJoint p) {law : Option Cell × Option Cell → ℝ} {q : ℝ} {u : Fin r → Cell} {v : Fin c → Cell}
    (hl : CompleteLaw law q p u v) {Ω : Type} [MeasurableSpace Ω] {μ : Measure Ω} {R : ℕ → Ω → Option Cell × Option Cell}
    (hR : IIDRecords μ R law) {lam : String} (hlam : lam ∈ ["pearson", "log-likelihood", "cressie-read"]) :
    ∀ᵐ ω ∂μ, ∀ z0 : ℝ, ∀ᶠ n in atTop, ∀ rn : SimRun F, rn.lambda = lam →
      ∃ z, IsSig S rn "asymptotic" ((List.range n).map (R · ω)) (some z) ∧ (z0 : EReal) < z := by
  filter_upwards [hR.frequency] with ω h z0
  obtain ⟨h1, h2⟩ := h
  have hT := approaches_of_frequency hl hp h2
  have hlab : ∀ k a b, R k ω = (some a, some b) → a ∈ Set.range u ∧ b ∈ Set.range v := by
    intro k a b hk
    have := h1 k
    rw [hk] at this
    exact hl.other a b this
  filter_upwards [asymptotic_power (F := F) hS hv hr hc hp hdep hT hlam z0, approaches_data hT hp] with n hn hd rn hrn
  obtain ⟨q, z, e, hz⟩ := hn rn hrn
  exact ⟨z, sig_of_labelled S rn hr hc hl.u_inj hl.v_inj hlab hd e, hz⟩

/-- The entry of a significance matrix for two columns. -/
theorem sig_entry_of_columns {S : SigNum} {R : ℕ → SimRun F} {dropna du dof : Bool} {f : Frame} {t : LTab EReal} (hnd : f.names.Nodup)
    (ht : IsSigMatrix S R "asymptotic" dropna du dof f t) {ca cb : Column} (hca : ca ∈ f.cols) (hcb : cb ∈ f.cols) :
    ∃ k, IsSig S (R k) "asymptotic" (records dropna du dof ca cb) (t.v ca.name cb.name) := by
  have hrec' : records dropna du dof ca cb = (records dropna du dof cb ca).map Prod.swap := by
    unfold records
    rw [List.map_map, ← List.zip_swap ca.cells cb.cells, List.map_map]
    congr 1
  have huniq : ∀ {c1 c2 : Column}, c1 ∈ f.cols → c2 ∈ f.cols → c1.name = c2.name → c1 = c2 := by
    intro c1 c2 h1 h2 he
    have := col?_of_mem hnd h1
    rw [he, col?_of_mem hnd h2] at this
    exact (Option.some.inj this).symm
  have na : ca.name ∈ f.names := List.mem_map.2 ⟨ca, hca, rfl⟩
  have nb : cb.name ∈ f.names := List.mem_map.2 ⟨cb, hcb, rfl⟩
  obtain ⟨k, hk | hk⟩ := pair_index na nb
  · obtain ⟨ca', ha', cb', hb', e1, e2, hsig⟩ := ht.entry k _ _ hk
    rw [huniq ha' hca e1, huniq hb' hcb e2] at hsig
    exact ⟨k, hsig⟩
  · obtain ⟨ca', ha', cb', hb', e1, e2, hsig⟩ := ht.entry k _ _ hk
    rw [huniq ha' hcb e1, huniq hb' hca e2] at hsig
    rw [ht.symm _ na _ nb, hrec']
    exact ⟨k, isSig_swap hsig⟩

/-- **C85 (`significance_from_rebinned_df`).** Two columns of a data frame hold the first `n` of independent draws of dependent variables, the frame may have any
other columns: almost surely, for all `n` large enough, if the call returns, the entry of the two columns exceeds `z0`. -/
theorem significance_detects {S : SigNum} (hS : SigSpec S) (hv : TailsVanish S) (hr : 2 ≤ r) (hc : 2 ≤ c) {p : Fin r → Fin c → ℝ} (hp : IsJoint p)
    (hdep : ¬ IndepJoint p) {law : Option Cell × Option Cell → ℝ} {q : ℝ} {u : Fin r → Cell} {v : Fin c → Cell}
    (hl : CompleteLaw law q p u v) {Ω : Type} [MeasurableSpace Ω] {μ : Measure Ω} {A B : ℕ → Ω → Cell} (dropna du dof : Bool)
    (hR : IIDRecords μ (fun k ω => (view dropna du dof (A k ω), view dropna du dof (B k ω))) law) {lam : String}
    (hlam : lam ∈ ["pearson", "log-likelihood", "cressie-read"]) :
    ∀ᵐ ω ∂μ, ∀ z0 : ℝ, ∀ᶠ n in atTop, ∀ (R : ℕ → SimRun F) (w w' : World) (ref : Ref) (f : Frame) (ca cb : Column) (t : LTab EReal),
      (∀ k, (R k).lambda = lam) → w.heap[ref]? = some f → f.names.Nodup → ca ∈ f.cols → cb ∈ f.cols →
      ca.cells = (List.range n).map (A · ω) → cb.cells = (List.range n).map (B · ω) →
      (sigFromRebinned S R ref "asymptotic" dropna du dof).exec w = (.ok t, w') → ∃ z, t.v ca.name cb.name = some z ∧ (z0 : EReal) < z := by
  filter_upwards [asymptotic_detects (F := F) hS hv hr hc hp hdep hl hR hlam] with ω h z0
  filter_upwards [h z0] with n hn R w w' ref f ca cb t hRl hf hnd hca hcb ea eb hrun
  have hrec : records dropna du dof ca cb =
      (List.range n).map fun k => (view dropna du dof (A k ω), view dropna du dof (B k ω)) := by
    unfold records
    rw [ea, eb, List.zip_map']
    rw [List.map_map]
    rfl
  rcases significance_of_frame S R "asymptotic" hf hnd dropna du dof with ⟨t', w2, g1, g2, -⟩ | ⟨e, w2, g1, -⟩
  · rw [hrun] at g1
    cases g1
    obtain ⟨k, hk⟩ := sig_entry_of_columns hnd g2 hca hcb
    obtain ⟨z, hz, hz'⟩ := hn (R k) (hRl k)
    rw [hrec] at hk
    exact ⟨z, isSig_unique hk hz, hz'⟩
  · rw [hrun] at g1; cases g1

open scoped Classical in
/-- What the quality check and the binning make of two columns with many different prepared values. -/
theorem prepared_pair {fl : ℚ → ℚ} {pf : String → Option (Option ℚ)} {w w1 w2 : World} {ref r2 : Ref} {data clean binned : Frame} {ic : List String}
    {icc : List String} {bins : Bins} {quantile : Bool} {dict : List (String × List (ℚ × ℚ))} {dropna du dof : Bool} (hf : w.heap[ref]? = some data)
    (hnd : data.names.Nodup) (g1 : (dqCheck ref ic dropna).exec w = (.ok (w.heap.length, icc), w1)) (g2 : w1.heap[w.heap.length]? = some clean)
    (g3 : clean.cols = data.cols.filter fun c => decide (Kept ic dropna c))
    (g4 : (binData fl pf w.heap.length icc bins quantile).exec w1 = (.ok (r2, dict), w2)) (g5 : w2.heap[r2]? = some binned)
    (hnum : ∀ c ∈ data.cols, c.name ∈ ic → ∀ s, Cell.str s ∉ c.cells) (hbins : ∀ n ∈ ic, ∃ s, EntryFor bins n s ∧ GoodEntry s)
    {ca cb : Column} (hca : ca ∈ data.cols) (hcb : cb ∈ data.cols) {gA gB : Cell → Cell} (pa : PreparedBy fl quantile ic bins ca gA)
    (pb : PreparedBy fl quantile ic bins cb gB) (keptA : Kept ic dropna ca) (keptB : Kept ic dropna cb) :
    binned.names.Nodup ∧ ∃ ca' ∈ binned.cols, ∃ cb' ∈ binned.cols, ca'.name = ca.name ∧ cb'.name = cb.name ∧
      records dropna du dof ca' cb' = (ca.cells.zip cb.cells).map fun x => (view dropna du dof (gA x.1), view dropna du dof (gB x.2)) := by
  obtain ⟨icc', w1', clean', ws, d1, d2, -, d4, d5, -⟩ := dq_check hf hnd ic dropna
  rw [g1] at d1
  cases d1
  have hclean : w1.heap[w.heap.length]? = some clean' := by rw [d2]; simp
  rw [hclean] at g2
  obtain rfl : clean' = clean := by simpa using g2
  have hcaC : ca ∈ clean'.cols := by rw [g3, List.mem_filter]; exact ⟨hca, by simpa using keptA⟩
  have hcbC : cb ∈ clean'.cols := by rw [g3, List.mem_filter]; exact ⟨hcb, by simpa using keptB⟩
  have hsub : clean'.names.Sublist data.names := by
    unfold Frame.names; rw [g3]; exact List.filter_sublist.map _
  have hnc : clean'.names.Nodup := hnd.sublist hsub
  rw [binData_exec fl pf hclean] at g4
  cases hcore : binDataCore fl pf clean' icc bins quantile with
  | error e => rw [hcore] at g4; simp at g4
  | ok val =>
  obtain ⟨out, dict'⟩ := val
  rw [hcore] at g4
  simp only [Prod.mk.injEq, Except.ok.injEq] at g4
  obtain ⟨⟨rfl, rfl⟩, rfl⟩ := g4
  obtain rfl : out = binned := by simpa using g5
  have hicc : ∀ c ∈ clean'.cols, (c.name ∈ icc ↔ c.name ∈ ic) := by
    intro c hc
    rw [d5, List.mem_filter]
    have : c.name ∈ clean'.names := List.mem_map.2 ⟨c, hc, rfl⟩
    simp [this]
  obtain ⟨f, h1, -, h3, -⟩ := binDataCore_spec (fun name hname => by
    rw [d5, List.mem_filter] at hname
    obtain ⟨s, hs1, hs2⟩ := hbins name hname.1
    refine ⟨s, hs1, ?_⟩
    rintro rfl
    rcases hs2 with ⟨l, hl⟩ | ⟨q, hq, -⟩
    · cases hl
    · cases hq) hcore
  have prepA : PreparedBy fl quantile icc bins ca gA := by
    unfold PreparedBy; rw [hicc ca hcaC]; exact pa
  have prepB : PreparedBy fl quantile icc bins cb gB := by
    unfold PreparedBy; rw [hicc cb hcbC]; exact pb
  have colA := prepared_column hnc h1 hcaC prepA fun hi => hnum ca hca ((hicc ca hcaC).1 hi)
  have colB := prepared_column hnc h1 hcbC prepB fun hi => hnum cb hcb ((hicc cb hcbC).1 hi)
  set ca' : Column := if ca.name ∈ icc then ⟨ca.name, false, (f ca.name).1⟩ else ca with hca'
  set cb' : Column := if cb.name ∈ icc then ⟨cb.name, false, (f cb.name).1⟩ else cb with hcb'
  have hnames : out.names = clean'.names := (binDataCore_names hcore).1
  refine ⟨by rw [hnames]; exact hnc, ca', by rw [h3]; exact List.mem_map.2 ⟨ca, hcaC, rfl⟩, cb', by rw [h3]; exact List.mem_map.2 ⟨cb, hcbC, rfl⟩,
    by rw [hca']; split <;> rfl, by rw [hcb']; split <;> rfl, ?_⟩
  unfold records
  rw [colA, colB, List.zip_map, List.map_map]
  rfl

/-- **C85 (`significance_matrix`).** The same with the quality check and the binning, for columns that are binned or not (`gA` and `gB` say what
the binning makes of an entry). -/
theorem significance_matrix_detects {S : SigNum} (hS : SigSpec S) (hv : TailsVanish S) (hr : 2 ≤ r) (hc : 2 ≤ c) {p : Fin r → Fin c → ℝ} (hp : IsJoint p)
    (hdep : ¬ IndepJoint p) {law : Option Cell × Option Cell → ℝ} {q : ℝ} {u : Fin r → Cell} {v : Fin c → Cell}
    (hl : CompleteLaw law q p u v) {Ω : Type} [MeasurableSpace Ω] {μ : Measure Ω} {A B : ℕ → Ω → Cell} (gA gB : Cell → Cell) (dropna du dof : Bool)
    (hR : IIDRecords μ (fun k ω => (view dropna du dof (gA (A k ω)), view dropna du dof (gB (B k ω)))) law) {lam : String}
    (hlam : lam ∈ ["pearson", "log-likelihood", "cressie-read"]) :
    ∀ᵐ ω ∂μ, ∀ z0 : ℝ, ∀ᶠ n in atTop, ∀ (R : ℕ → SimRun F) (fl : ℚ → ℚ) (pf : String → Option (Option ℚ)) (w w' : World) (ref : Ref)
      (data : Frame) (ic : Option (List String)) (bins : Bins) (ca cb : Column) (t : LTab EReal),
      (∀ k, (R k).lambda = lam) → w.heap[ref]? = some data → data.names.Nodup →
      (∀ c ∈ data.cols, c.name ∈ ic.getD (guessIntervalCols data) → ∀ s, Cell.str s ∉ c.cells) →
      (∀ n ∈ ic.getD (guessIntervalCols data), ∃ s, EntryFor bins n s ∧ GoodEntry s) →
      ca ∈ data.cols → cb ∈ data.cols →
      ca.cells = (List.range n).map (A · ω) → cb.cells = (List.range n).map (B · ω) →
      PreparedBy fl false (ic.getD (guessIntervalCols data)) bins ca gA → PreparedBy fl false (ic.getD (guessIntervalCols data)) bins cb gB →
      (dropna = true ∨ ca.name ∉ ic.getD (guessIntervalCols data) ∨ 3 ≤ r) → (dropna = true ∨ cb.name ∉ ic.getD (guessIntervalCols data) ∨ 3 ≤ c) →
      (significanceMatrix S R fl pf ref ic bins "asymptotic" dropna du dof).exec w = (.ok t, w') →
      ∃ z, t.v ca.name cb.name = some z ∧ (z0 : EReal) < z := by
  filter_upwards [asymptotic_detects (F := F) hS hv hr hc hp hdep hl hR hlam, labels_occur hp hl hR] with ω h hocc z0
  filter_upwards [h z0, hocc] with n hn hocc R fl pf w w' ref data ic bins ca cb t hRl hf hnd hnum hbins hca hcb ea eb pa pb ka kb hrun
  obtain ⟨icc, w1, clean, g1, g2, g3, hres⟩ := significance_matrix_result S R "asymptotic" fl pf hf hnd ic bins dropna du dof
  rcases hres with ⟨t', w3, r2, dict, w2, binned, ws, k1, k2, k3, k4, -⟩ | ⟨e, w3, k1, -⟩
  · rw [hrun] at k1
    cases k1
    have keptA : Kept (ic.getD (guessIntervalCols data)) dropna ca := by
      refine kept_of_labels pa.nan hr hl.u_inj (du := du) (dof := dof) (fun i => ?_) ka
      obtain ⟨k, hk, e⟩ := hocc.1 i
      exact ⟨A k ω, by rw [ea]; exact List.mem_map.2 ⟨k, List.mem_range.2 hk, rfl⟩, e⟩
    have keptB : Kept (ic.getD (guessIntervalCols data)) dropna cb := by
      refine kept_of_labels pb.nan hc hl.v_inj (du := du) (dof := dof) (fun i => ?_) kb
      obtain ⟨k, hk, e⟩ := hocc.2 i
      exact ⟨B k ω, by rw [eb]; exact List.mem_map.2 ⟨k, List.mem_range.2 hk, rfl⟩, e⟩
    obtain ⟨hnb, ca', mA, cb', mB, nA, nB, hrec⟩ := prepared_pair (du := du) (dof := dof) hf hnd g1 g2 g3 k2 k3 hnum hbins hca hcb pa pb keptA keptB
    obtain ⟨k, hk⟩ := sig_entry_of_columns hnb k4 mA mB
    obtain ⟨z, hz, hz'⟩ := hn (R k) (hRl k)
    rw [hrec, ea, eb, List.zip_map', List.map_map] at hk
    rw [← nA, ← nB]
    exact ⟨z, isSig_unique hk hz, hz'⟩
  · rw [hrun] at k1; cases k1

/-! ### the true distribution functions, and underflow -/

theorem trueSig_tails : TailsVanish trueSig := by
  constructor
  · intro k hk ε hε
    have : Fact (0 < k) := ⟨hk⟩
    have h := tendsto_measure_iInter_atTop (μ := chi2Law k) (s := fun n : ℕ => Set.Ioi (n : ℝ)) (fun n => measurableSet_Ioi.nullMeasurableSet)
      (fun a b hab => Set.Ioi_subset_Ioi (by exact_mod_cast hab)) ⟨0, measure_ne_top _ _⟩
    have he : (⋂ n : ℕ, Set.Ioi (n : ℝ)) = ∅ := by
      ext x
      simp only [Set.mem_iInter, Set.mem_Ioi, Set.mem_empty_iff_false, iff_false, not_forall, not_lt]
      exact exists_nat_ge x
    rw [he, measure_empty] at h
    obtain ⟨n, hn⟩ := (h.eventually_lt_const (show (0 : ENNReal) < ENNReal.ofReal ε by simpa using hε)).exists
    refine ⟨n, _, by simp [trueSig, not_le.2 hk]; rfl, ?_⟩
    rw [measureReal_def]
    exact (ENNReal.lt_ofReal_iff_toReal_lt (measure_ne_top _ _)).1 hn
  · intro z
    refine ⟨normCdf (-z - 1), normCdf_pos _, (normCdf_lt_one _).le, ?_⟩
    change normPpf _ < _
    rw [normPpf_cdf]
    exact_mod_cast (by linarith : -z - 1 < -z)

theorem flushed_tails {S : SigNum} (hS : SigSpec S) (hv : TailsVanish S) : TailsVanish (flushed S) := by
  refine ⟨fun k hk ε hε => ?_, hv.ppf⟩
  obtain ⟨p, hp, -⟩ := hS.chi2_range 1001 k hk
  exact ⟨1001, 0, by norm_num [flushed, hp], hε⟩

end Phik.Props
