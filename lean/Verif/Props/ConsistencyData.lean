import Verif.Props.Consistency
import Verif.Props.Rename
import Verif.Props.MatrixPipeline
import Mathlib.Probability.StrongLaw
import Mathlib.Probability.ProductMeasure

/-! # Property C84 on records and data frames: independent draws -/

namespace Phik.Props

open Spec MeasureTheory ProbabilityTheory Topology
open Filter (Tendsto atTop Eventually)

/-! ### frequencies of independent draws -/

section
variable {Ω α : Type} [MeasurableSpace Ω] [Countable α] [BEq α] [LawfulBEq α]

/-- Almost surely all values drawn have positive probability, and the relative frequency of every value tends to its probability. -/
theorem _root_.Phik.Spec.IIDRecords.frequency {μ : Measure Ω} {R : ℕ → Ω → α} {law : α → ℝ} (h : IIDRecords μ R law) :
    ∀ᵐ ω ∂μ, (∀ k, law (R k ω) ≠ 0) ∧
      ∀ z, Tendsto (fun n : ℕ => (((List.range n).map (R · ω)).count z : ℝ) / n) atTop (𝓝 (law z)) := by
  classical
  letI : MeasurableSpace α := ⊤
  haveI : MeasurableSingletonClass α := ⟨fun _ => trivial⟩
  haveI := h.prob
  have hmeas : ∀ k, Measurable (R k) := fun k => measurable_to_countable' fun z => h.meas k z
  have hmap : ∀ k z, μ.map (R k) {z} = ENNReal.ofReal (law z) := fun k z => by
    rw [Measure.map_apply (hmeas k) (measurableSet_singleton z)]; exact h.dist k z
  have hpm : ∀ k, IsProbabilityMeasure (μ.map (R k)) := fun k => Measure.isProbabilityMeasure_map (hmeas k).aemeasurable
  have hind : Pairwise fun k l => IndepFun (R k) (R l) μ := by
    intro k l hkl
    change IndepFun (R k) (R l) μ
    rw [indepFun_iff_map_prod_eq_prod_map_map (hmeas k).aemeasurable (hmeas l).aemeasurable]
    refine Measure.ext_of_singleton fun ⟨z, z'⟩ => ?_
    rw [Measure.map_apply ((hmeas k).prodMk (hmeas l)) (measurableSet_singleton _), ← Set.singleton_prod_singleton,
      Measure.prod_prod, hmap, hmap, ← ENNReal.ofReal_mul (h.nonneg _)]
    exact h.indep k l hkl z z'
  have hsupp : ∀ᵐ ω ∂μ, ∀ k, law (R k ω) ≠ 0 := ae_all_iff.2 fun k => by
    refine ae_of_ae_map (hmeas k).aemeasurable (p := fun z => law z ≠ 0) ?_
    rw [ae_iff_of_countable]
    intro z hz h0
    rw [hmap, h0, ENNReal.ofReal_zero] at hz
    exact hz rfl
  let φ : α → α → ℝ := fun z x => if x = z then 1 else 0
  have hφ : ∀ z, Measurable (φ z) := fun z => Measurable.of_discrete
  have hint : ∀ z k, Integrable (φ z) (μ.map (R k)) := by
    intro z k
    refine Integrable.of_bound (hφ z).aestronglyMeasurable 1 (Filter.Eventually.of_forall fun x => ?_)
    change ‖if x = z then (1 : ℝ) else 0‖ ≤ 1
    split <;> simp
  have hsame : ∀ k, μ.map (R k) = μ.map (R 0) := fun k => Measure.ext_of_singleton fun z => by rw [hmap, hmap]
  have hslln : ∀ z, _ := fun z => strong_law_ae_real (fun k ω => φ z (R k ω)) ((hint z 0).comp_measurable (hmeas 0))
    (fun k l hkl => (hind hkl).comp (hφ z) (hφ z)) fun k => ⟨((hφ z).comp (hmeas k)).aemeasurable,
      ((hφ z).comp (hmeas 0)).aemeasurable, by
        rw [show (fun ω => φ z (R k ω)) = φ z ∘ R k from rfl, show (fun ω => φ z (R 0 ω)) = φ z ∘ R 0 from rfl,
          ← Measure.map_map (hφ z) (hmeas k), ← Measure.map_map (hφ z) (hmeas 0), hsame k]⟩
  have hmean : ∀ z, ∫ ω, φ z (R 0 ω) ∂μ = law z := by
    intro z
    rw [← integral_map (hmeas 0).aemeasurable (hφ z).aestronglyMeasurable]
    have : φ z = Set.indicator {z} 1 := by
      funext x; simp [φ, Set.indicator]
    rw [this, integral_indicator_one (measurableSet_singleton z), measureReal_def, hmap, ENNReal.toReal_ofReal (h.nonneg z)]
  filter_upwards [ae_all_iff.2 hslln, hsupp] with ω h1 h2
  refine ⟨h2, fun z => ?_⟩
  have := h1 z
  rw [hmean] at this
  refine this.congr fun n => ?_
  congr 1
  induction n with
  | zero => simp
  | succ n ih =>
    rw [Finset.sum_range_succ, ih, List.range_succ, List.map_append, List.count_append]
    push_cast
    congr 1
    simp only [List.map_cons, List.map_nil, List.count_singleton, φ]
    by_cases hz : R n ω = z <;> simp [hz]

end

/-! ### the table of the draws -/

instance : Countable Char := (show Function.Injective Char.toNat from fun a b h => Char.ext (UInt32.toNat_inj.1 h)).countable

instance : Countable Cell := by
  have : Function.Injective (fun c : Cell => (match c with
    | .nan => Sum.inl none
    | .num q => Sum.inl (some q)
    | .str s => Sum.inr s.toList : Option ℚ ⊕ List Char)) := by
    rintro (_ | q | s) (_ | q' | s') h <;> simp at h
    · rfl
    · rw [h]
    · rw [String.toList_inj.1 h]
  exact this.countable

variable {r c : ℕ}

/-- The counts of the first `n` records. -/
def firstCounts {α β : Type} [BEq α] [BEq β] (R : ℕ → Option α × Option β) (u : Fin r → α) (v : Fin c → β) (n : ℕ) (i : Fin r) (j : Fin c) :
    ℕ :=
  ((List.range n).map R).count (some (u i), some (v j))

theorem approaches_of_frequency {α β : Type} [BEq α] [BEq β] {law : Option α × Option β → ℝ} {q : ℝ} {p : Fin r → Fin c → ℝ}
    {u : Fin r → α} {v : Fin c → β} (hl : CompleteLaw law q p u v) (hp : IsJoint p) {R : ℕ → Option α × Option β}
    (hf : ∀ z, Tendsto (fun n : ℕ => (((List.range n).map R).count z : ℝ) / n) atTop (𝓝 (law z))) :
    Approaches (firstCounts R u v) p := by
  have hsum : Tendsto (fun n : ℕ => (∑ i, ∑ j, (firstCounts R u v n i j : ℝ)) / n) atTop (𝓝 q) := by
    have := tendsto_finsetSum Finset.univ fun i _ => tendsto_finsetSum Finset.univ fun j _ => hf (some (u i), some (v j))
    simp only [hl.value, ← Finset.mul_sum, hp.total, mul_one] at this
    refine this.congr fun n => ?_
    rw [Finset.sum_div]
    exact Finset.sum_congr rfl fun i _ => by rw [Finset.sum_div]; rfl
  constructor
  · rw [← tendsto_natCast_atTop_iff (R := ℝ)]
    have := hsum.pos_mul_atTop hl.pos (tendsto_natCast_atTop_atTop (R := ℝ))
    refine this.congr' ?_
    filter_upwards [Filter.eventually_gt_atTop 0] with n hn
    have : (n : ℝ) ≠ 0 := by exact_mod_cast hn.ne'
    rw [div_mul_cancel₀ _ this]
    push_cast
    rfl
  · intro i j
    have := (hf (some (u i), some (v j))).div hsum hl.pos.ne'
    rw [hl.value, mul_div_cancel_left₀ _ hl.pos.ne'] at this
    refine this.congr' ?_
    filter_upwards [Filter.eventually_gt_atTop 0] with n hn
    have : (n : ℝ) ≠ 0 := by exact_mod_cast hn.ne'
    exact div_div_div_cancel_right₀ this _ _

/-- The table of the records is the table of counts, in some order of rows and columns. -/
theorem table_of_counts {R : ℕ → Option Cell × Option Cell} {u : Fin r → Cell} {v : Fin c → Cell}
    (hu : Function.Injective u) (hv : Function.Injective v)
    (hlab : ∀ k a b, R k = (some a, some b) → a ∈ Set.range u ∧ b ∈ Set.range v) {n : ℕ}
    (hd : DataTable (countArr (firstCounts R u v n))) {h : Hist} (ht : IsTable ((List.range n).map R) h) :
    ∃ (e : Fin r ≃ Fin h.rows.length) (f : Fin c ≃ Fin h.cols.length), ∀ i j,
      h.values.v (e i) (f j) = (countArr (firstCounts R u v n)).v i j := by
  have hr : h.rows.Nodup := ht.rows_sorted.imp (fun h => ne_of_lt h)
  have hc : h.cols.Nodup := ht.cols_sorted.imp (fun h => ne_of_lt h)
  have hmem : ∀ a b, (some a, some b) ∈ (List.range n).map R → a ∈ Set.range u ∧ b ∈ Set.range v := by
    intro a b hab
    obtain ⟨k, -, hk⟩ := List.mem_map.1 hab
    exact hlab k a b hk
  have hpos : ∀ i j, (countArr (firstCounts R u v n)).v i j ≠ 0 → (some (u i), some (v j)) ∈ (List.range n).map R := by
    intro i j hij
    have : firstCounts R u v n i j ≠ 0 := fun h0 => hij (by
      change ((firstCounts R u v n i j : ℕ) : ℝ) = 0
      rw [h0]; simp)
    exact List.count_pos_iff.1 (Nat.pos_of_ne_zero this)
  have h1 : ∀ i, ∃ k : Fin h.rows.length, h.rows[k] = u i := by
    intro i
    obtain ⟨j, hj⟩ := hd.rows i
    obtain ⟨k, hk, e⟩ := List.getElem_of_mem ((ht.rows_mem (u i)).2 ⟨_, hpos i j hj⟩)
    exact ⟨⟨k, hk⟩, e⟩
  have h2 : ∀ j, ∃ k : Fin h.cols.length, h.cols[k] = v j := by
    intro j
    obtain ⟨i, hi⟩ := hd.cols j
    obtain ⟨k, hk, e⟩ := List.getElem_of_mem ((ht.cols_mem (v j)).2 ⟨_, hpos i j hi⟩)
    exact ⟨⟨k, hk⟩, e⟩
  choose e he using h1
  choose f hf using h2
  have be : Function.Bijective e := by
    constructor
    · intro i i' hi
      apply hu
      rw [← he i, ← he i', hi]
    · intro k
      obtain ⟨b, hb⟩ := (ht.rows_mem h.rows[k]).1 (List.getElem_mem _)
      obtain ⟨i, hi⟩ := (hmem _ _ hb).1
      refine ⟨i, ?_⟩
      have := (he i).trans hi
      exact Fin.ext (hr.getElem_inj_iff.1 this)
  have bf : Function.Bijective f := by
    constructor
    · intro i i' hi
      apply hv
      rw [← hf i, ← hf i', hi]
    · intro k
      obtain ⟨b, hb⟩ := (ht.cols_mem h.cols[k]).1 (List.getElem_mem _)
      obtain ⟨i, hi⟩ := (hmem _ _ hb).2
      refine ⟨i, ?_⟩
      have := (hf i).trans hi
      exact Fin.ext (hc.getElem_inj_iff.1 this)
  refine ⟨Equiv.ofBijective e be, Equiv.ofBijective f bf, fun i j => ?_⟩
  change ((h.v (e i) (f j) : ℕ) : ℝ) = ((firstCounts R u v n i j : ℕ) : ℝ)
  rw [ht.counts]
  unfold firstCounts
  congr 3
  · rw [he i]
  · rw [hf j]

/-- phik of the records is phik of the table of counts. -/
theorem phik_of_labelled (nm : Numerics) {R : ℕ → Option Cell × Option Cell} {u : Fin r → Cell} {v : Fin c → Cell} (hr : 2 ≤ r) (hc : 2 ≤ c)
    (hu : Function.Injective u) (hv : Function.Injective v)
    (hlab : ∀ k a b, R k = (some a, some b) → a ∈ Set.range u ∧ b ∈ Set.range v) {n : ℕ}
    (hd : DataTable (countArr (firstCounts R u v n))) {noise : Bool} {x : ℝ}
    (hx : phikFromHist2d nm.mvn nm.brentq (countArr (firstCounts R u v n)) noise = .ok x) :
    IsPhik nm noise ((List.range n).map R) (some x) := by
  obtain ⟨h, ht⟩ := exists_table ((List.range n).map R)
  obtain ⟨e, f, hef⟩ := table_of_counts hu hv hlab hd ht
  have l1 : h.rows.length = r := by simpa using (Fintype.card_congr e).symm
  have l2 : h.cols.length = c := by simpa using (Fintype.card_congr f).symm
  have key := phik_reindex nm noise (a := countArr (firstCounts R u v n)) (b := h.values) e f hef
  exact ⟨h, ht, .inr ⟨l1 ▸ hr, l2 ▸ hc, x, key ▸ hx, rfl⟩⟩

/-- **C84 (records).** Of independent draws of records from a distribution whose complete records have the joint distribution `p`,
almost surely, phik of the first `n` converges to phik of `p`, up to the tolerance of the root finder: with and
without noise correction, whatever the values are called and however many records have missing entries. -/
theorem phik_estimates {nm : Numerics} (hg : GoodNumerics nm) (hr : 2 ≤ r) (hc : 2 ≤ c)
    (hs : StrictMonoOn (distance nm.mvn r c) (Set.Icc 0 1)) {p : Fin r → Fin c → ℝ} (hp : IsJoint p) {rho : ℝ}
    (hrho : IsPhikOfLaw nm.mvn p rho) {law : Option Cell × Option Cell → ℝ} {q : ℝ} {u : Fin r → Cell} {v : Fin c → Cell}
    (hl : CompleteLaw law q p u v) {Ω : Type} [MeasurableSpace Ω] {μ : Measure Ω} {R : ℕ → Ω → Option Cell × Option Cell}
    (hR : IIDRecords μ R law) :
    ∀ᵐ ω ∂μ, ∀ ε : ℝ, 0 < ε → ∀ᶠ n in atTop, ∀ noise, ∃ x, IsPhik nm noise ((List.range n).map (R · ω)) (some x) ∧ |x - rho| ≤ rootTol + ε := by
  filter_upwards [hR.frequency] with ω h ε hε
  obtain ⟨h1, h2⟩ := h
  have hT := approaches_of_frequency hl hp h2
  have hlab : ∀ k a b, R k ω = (some a, some b) → a ∈ Set.range u ∧ b ∈ Set.range v := by
    intro k a b hk
    have := h1 k
    rw [hk] at this
    exact hl.other a b this
  have hev : ∀ᶠ n in atTop, ∀ noise : Bool, ∃ x, phikFromHist2d nm.mvn nm.brentq (countArr (firstCounts (R · ω) u v n)) noise = .ok x ∧
      |x - rho| ≤ rootTol + ε :=
    Filter.eventually_all.2 fun noise => phik_consistent hg.mvn hg.brentq hr hc hs hp hrho hT noise hε
  filter_upwards [hev, approaches_data hT hp] with n hn hd noise
  obtain ⟨x, hx, hx'⟩ := hn noise
  exact ⟨x, phik_of_labelled nm hr hc hl.u_inj hl.v_inj hlab hd hx, hx'⟩

theorem entry_of_columns {nm : Numerics} (hg : GoodNumerics nm) {noise dropna du dof : Bool} {f : Frame} {t : LTable} (hnd : f.names.Nodup)
    (ht : IsPhikMatrix nm noise dropna du dof f t) {ca cb : Column} (hca : ca ∈ f.cols) (hcb : cb ∈ f.cols) (hne : ca.name ≠ cb.name)
    {v : Option ℝ} (hv : IsPhik nm noise (records dropna du dof ca cb) v) : t.v ca.name cb.name = v := by
  have hrec' : records dropna du dof cb ca = (records dropna du dof ca cb).map Prod.swap := by
    unfold records
    rw [List.map_map, ← List.zip_swap cb.cells ca.cells, List.map_map]
    congr 1
  have huniq : ∀ {c1 c2 : Column}, c1 ∈ f.cols → c2 ∈ f.cols → c1.name = c2.name → c1 = c2 := by
    intro c1 c2 h1 h2 he
    have := col?_of_mem hnd h1
    rw [he, col?_of_mem hnd h2] at this
    exact (Option.some.inj this).symm
  have na : ca.name ∈ f.names := List.mem_map.2 ⟨ca, hca, rfl⟩
  have nb : cb.name ∈ f.names := List.mem_map.2 ⟨cb, hcb, rfl⟩
  rcases sublist_total na nb hne with hsub | hsub
  · obtain ⟨ca', ha', cb', hb', e1, e2, hphi⟩ := ht.entry _ _ hsub
    rw [huniq ha' hca e1, huniq hb' hcb e2] at hphi
    exact isPhik_unique hphi hv
  · rw [ht.symm _ na _ nb]
    obtain ⟨ca', ha', cb', hb', e1, e2, hphi⟩ := ht.entry _ _ hsub
    rw [huniq ha' hcb e1, huniq hb' hca e2, hrec'] at hphi
    exact isPhik_unique ((isPhik_swap hg.mvn noise _).1 hphi) hv

/-- **C84 (`phik_from_rebinned_df`).** Two columns of a data frame hold the first `n` of independent draws, the frame may have any other columns:
almost surely, for all `n` large enough, the entry of the phik matrix for the two columns is phik of the distribution up to the
tolerance of the root finder and `ε`. -/
theorem phik_matrix_estimates {nm : Numerics} (hg : GoodNumerics nm) (hr : 2 ≤ r) (hc : 2 ≤ c)
    (hs : StrictMonoOn (distance nm.mvn r c) (Set.Icc 0 1)) {p : Fin r → Fin c → ℝ} (hp : IsJoint p) {rho : ℝ}
    (hrho : IsPhikOfLaw nm.mvn p rho) {law : Option Cell × Option Cell → ℝ} {q : ℝ} {u : Fin r → Cell} {v : Fin c → Cell}
    (hl : CompleteLaw law q p u v) {Ω : Type} [MeasurableSpace Ω] {μ : Measure Ω} {A B : ℕ → Ω → Cell} (dropna du dof : Bool)
    (hR : IIDRecords μ (fun k ω => (view dropna du dof (A k ω), view dropna du dof (B k ω))) law) :
    ∀ᵐ ω ∂μ, ∀ ε : ℝ, 0 < ε → ∀ᶠ n in atTop, ∀ (noise : Bool) (w : World) (ref : Ref) (f : Frame) (sched : Option (List ℕ)) (ca cb : Column),
      w.heap[ref]? = some f → f.names.Nodup → ValidSched (cwr f.names).length sched → ca ∈ f.cols → cb ∈ f.cols → ca.name ≠ cb.name →
      ca.cells = (List.range n).map (A · ω) → cb.cells = (List.range n).map (B · ω) →
      ∃ t w' x, (phikFromRebinned nm sched ref noise dropna du dof).exec w = (.ok t, w') ∧
        t.v ca.name cb.name = some x ∧ |x - rho| ≤ rootTol + ε := by
  filter_upwards [phik_estimates hg hr hc hs hp hrho hl hR] with ω h ε hε
  filter_upwards [h ε hε] with n hn noise w ref f sched ca cb hf hnd hsch hca hcb hne ea eb
  obtain ⟨x, hx, hx'⟩ := hn noise
  obtain ⟨t, w', g1, g2, -⟩ := phik_matrix_of_frame hg hf hnd hsch noise dropna du dof
  refine ⟨t, w', x, g1, ?_, hx'⟩
  have hrec : records dropna du dof ca cb =
      (List.range n).map fun k => (view dropna du dof (A k ω), view dropna du dof (B k ω)) := by
    unfold records
    rw [ea, eb, List.zip_map']
    rw [List.map_map]
    rfl
  exact entry_of_columns hg hnd g2 hca hcb hne (by rw [hrec]; exact hx)

/-! ### with the binning -/

theorem countP_split {l : List ℚ} {q : ℚ} {k : ℕ} (hk : k ≤ l.length) (h1 : ∀ i, i < k → ∀ hi : i < l.length, l[i] < q)
    (h2 : ∀ i, k ≤ i → ∀ hi : i < l.length, q ≤ l[i]) : l.countP (· < q) = k := by
  rw [← List.take_append_drop k l, List.countP_append, List.countP_eq_length.2, List.countP_eq_zero.2]
  · simp [hk]
  · intro x hx
    obtain ⟨i, hi, rfl⟩ := List.getElem_of_mem hx
    rw [List.getElem_drop]
    have := h2 (k + i) (by omega) (by simp at hi; omega)
    simpa using this
  · intro x hx
    obtain ⟨i, hi, rfl⟩ := List.getElem_of_mem hx
    rw [List.getElem_take]
    simp only [List.length_take] at hi
    have := h1 i (by omega) (by omega)
    simpa using this

/-- Binning with sorted edges is `binLabel` on every entry. -/
theorem binCell_label {e : List ℚ} (hs : e.Pairwise (· ≤ ·)) (q : ℚ) : binCell e (some q) = binLabel e (.num q) := by
  obtain ⟨-, b, c, d⟩ := searchGo_spec e q 0 e.length (Nat.zero_le _)
  set k := searchGo e q 0 e.length with hk
  have hmono : ∀ i j, i ≤ j → ∀ (hi : i < e.length) (hj : j < e.length), e[i] ≤ e[j] := by
    intro i j hij hi hj
    rcases Nat.eq_or_lt_of_le hij with rfl | h
    · exact le_rfl
    · exact List.pairwise_iff_getElem.1 hs i j hi hj h
  have hgetD : ∀ i (hi : i < e.length), e.getD i 0 = e[i] := by
    intro i hi; simp [List.getD, hi]
  have h1 : ∀ i, i < k → ∀ hi : i < e.length, e[i] < q := by
    intro i hik hi
    have hc := c (by omega)
    rw [hgetD _ (by omega)] at hc
    exact (hmono i (k - 1) (by omega) hi (by omega)).trans_lt hc
  have h2 : ∀ i, k ≤ i → ∀ hi : i < e.length, q ≤ e[i] := by
    intro i hik hi
    have hd := d (by omega)
    rw [hgetD _ (by omega)] at hd
    exact hd.trans (hmono k i hik (by omega) hi)
  have hcount := countP_split b h1 h2
  have hu : (∀ x ∈ e, q ≤ x) ↔ k = 0 := by
    constructor
    · intro h
      by_contra h0
      have := h1 0 (by omega) (by omega)
      exact absurd (h _ (List.getElem_mem _)) (not_le.2 this)
    · intro h0 x hx
      obtain ⟨i, hi, rfl⟩ := List.getElem_of_mem hx
      exact h2 i (by omega) hi
  have ho : (∀ x ∈ e, x < q) ↔ k = e.length := by
    constructor
    · intro h
      by_contra h0
      have := h2 k le_rfl (by omega)
      exact absurd (h _ (List.getElem_mem _)) (not_lt.2 this)
    · intro h0 x hx
      obtain ⟨i, hi, rfl⟩ := List.getElem_of_mem hx
      exact h1 i (by omega) hi
  unfold binLabel
  simp only [hu, ho, hcount]
  unfold binCell
  simp only [← hk]

theorem _root_.Phik.Spec.PreparedBy.nan {fl : ℚ → ℚ} {quantile : Bool} {ic : List String} {bins : Bins} {c : Column} {g : Cell → Cell}
    (h : PreparedBy fl quantile ic bins c g) : g .nan = .nan := by
  by_cases hn : c.name ∈ ic
  · obtain ⟨s, e, -, -, -, rfl⟩ := h.1 hn; rfl
  · rw [h.2 hn]; rfl

/-- A column in which `m` different prepared values occur passes the quality check. -/
theorem kept_of_labels {ic : List String} {dropna du dof : Bool} {ca : Column} {g : Cell → Cell} (hg : g .nan = .nan) {m : ℕ} (hm : 2 ≤ m)
    {u : Fin m → Cell} (hu : Function.Injective u) (hocc : ∀ i, ∃ x ∈ ca.cells, view dropna du dof (g x) = some (u i))
    (hk : dropna = true ∨ ca.name ∉ ic ∨ 3 ≤ m) : Kept ic dropna ca := by
  choose x hx hv using hocc
  have hxi : Function.Injective x := by
    intro i j hij
    apply hu
    have := hv i
    rw [hij, hv j] at this
    exact (Option.some.inj this).symm
  have hfin : {y | y ∈ ca.cells ∧ y ≠ Cell.nan}.Finite := (List.finite_toSet ca.cells).subset fun y hy => hy.1
  have hcard : ∀ s : Finset (Fin m), (∀ i ∈ s, x i ≠ .nan) → s.card ≤ distinct ca := by
    intro s hs
    unfold distinct
    rw [← Finset.card_image_of_injective s hxi, ← Set.ncard_coe_finset]
    refine Set.ncard_le_ncard ?_ hfin
    intro y hy
    obtain ⟨i, hi, rfl⟩ := Finset.mem_image.1 (Finset.mem_coe.1 hy)
    exact ⟨hx i, hs i hi⟩
  have hle : m - 1 ≤ distinct ca ∧ (dropna = true → m ≤ distinct ca) := by
    constructor
    · by_cases h : ∃ i, x i = .nan
      · obtain ⟨i, hi⟩ := h
        have := hcard (Finset.univ.erase i) fun j hj hj' => (Finset.mem_erase.1 hj).1 (hxi (hj'.trans hi.symm))
        rwa [Finset.card_erase_of_mem (Finset.mem_univ i), Finset.card_univ, Fintype.card_fin] at this
      · push Not at h
        have := hcard Finset.univ fun j _ => h j
        rw [Finset.card_univ, Fintype.card_fin] at this
        omega
    · rintro rfl
      have := hcard Finset.univ fun j _ hj => by
        have := hv j
        rw [hj, hg] at this
        simp [view] at this
      rwa [Finset.card_univ, Fintype.card_fin] at this
  unfold Kept
  split
  · rcases hk with h | h | h
    · have := hle.2 h; omega
    · next h' =>
      have := hle.2 (h'.resolve_left h); omega
    · omega
  · omega

theorem numbers_of_floats {pf : String → Option (Option ℚ)} {c : Column} (hnum : ∀ s, Cell.str s ∉ c.cells) {arr : List (Option ℚ)}
    (h : c.cells.mapM (toFloat pf) = .ok arr) : arr = numberList c := by
  unfold numberList
  generalize c.cells = cells at *
  induction cells generalizing arr with
  | nil =>
    simp only [List.mapM_nil, pure, Except.pure, Except.ok.injEq] at h
    subst h; rfl
  | cons x xs ih =>
    rw [List.mapM_cons] at h
    obtain ⟨y, hy, h⟩ := except_bind_ok h
    obtain ⟨ys, hys, h⟩ := except_bind_ok h
    simp only [pure, Except.pure, Except.ok.injEq] at h
    subst h
    rw [List.map_cons, ih (fun s hs => hnum s (List.mem_cons_of_mem _ hs)) hys]
    congr 1
    cases x with
    | nan => simp only [toFloat, Except.ok.injEq] at hy; exact hy.symm
    | num q => simp only [toFloat, Except.ok.injEq] at hy; exact hy.symm
    | str s => exact absurd List.mem_cons_self (hnum s)

/-- The prepared column. -/
theorem prepared_column {fl : ℚ → ℚ} {pf : String → Option (Option ℚ)} {bins : Bins} {quantile : Bool} {ic : List String} {g : Cell → Cell}
    {clean : Frame} (hn : clean.names.Nodup) {f : String → List Cell × List (ℚ × ℚ)}
    (hf : ∀ name ∈ ic, ∃ arr e s, colFloats pf clean name = .ok arr ∧ EntryFor bins name s ∧ Requested fl quantile arr s e ∧ f name = binArray arr e)
    {ca : Column} (hca : ca ∈ clean.cols) (hp : PreparedBy fl quantile ic bins ca g) (hnum : ca.name ∈ ic → ∀ s, Cell.str s ∉ ca.cells) :
    (if ca.name ∈ ic then (⟨ca.name, false, (f ca.name).1⟩ : Column) else ca).cells = ca.cells.map g := by
  split
  · next hic =>
    obtain ⟨s0, e, he, hreq, hs, rfl⟩ := hp.1 hic
    obtain ⟨arr, e', s, h1, h2, h3, h4⟩ := hf _ hic
    have : s = s0 := by rw [← entry_of h2, entry_of he]
    subst this
    unfold colFloats at h1
    rw [getCol_of_mem hn hca] at h1
    change ca.cells.mapM (toFloat pf) = .ok arr at h1
    replace hnum := hnum hic
    obtain rfl : e' = e := by
      cases hreq with
      | edges => cases h3; rfl
      | num q _ hb =>
        cases h3 with
        | num _ _ hb' =>
          rw [numbers_of_floats hnum h1, hb] at hb'
          exact (Except.ok.inj hb').symm
    change (f ca.name).1 = _
    rw [h4, binArray_fst]
    clear hf h4 hp he hca h3 hreq h2
    generalize ca.cells = cells at *
    induction cells generalizing arr with
    | nil =>
      simp only [List.mapM_nil, pure, Except.pure, Except.ok.injEq] at h1
      subst h1; rfl
    | cons x xs ih =>
      rw [List.mapM_cons] at h1
      obtain ⟨y, hy, h1⟩ := except_bind_ok h1
      obtain ⟨ys, hys, h1⟩ := except_bind_ok h1
      simp only [pure, Except.pure, Except.ok.injEq] at h1
      subst h1
      rw [List.map_cons, List.map_cons, ih ys hys fun s hs => hnum s (List.mem_cons_of_mem _ hs)]
      congr 1
      cases x with
      | nan => simp only [toFloat, Except.ok.injEq] at hy; subst hy; rfl
      | num q => simp only [toFloat, Except.ok.injEq] at hy; subst hy; exact binCell_label hs q
      | str s => exact absurd List.mem_cons_self (hnum s)
  · next hic =>
    rw [hp.2 hic]; simp

/-- Independent draws are pairwise independent. -/
theorem _root_.Phik.Spec.IndepRecords.iid {Ω α : Type} [MeasurableSpace Ω] {μ : Measure Ω} {R : ℕ → Ω → α} {law : α → ℝ}
    (h : IndepRecords μ R law) : IIDRecords μ R law := by
  refine ⟨h.prob, h.nonneg, h.meas, fun k z => ?_, fun k l hkl z z' => ?_⟩
  · have := h.joint {k} fun _ => z
    simpa using this
  · have := h.joint {k, l} fun m => if m = k then z else z'
    rw [Finset.prod_pair hkl, if_pos rfl, if_neg hkl.symm, ← ENNReal.ofReal_mul (h.nonneg z)] at this
    rw [← this]
    congr 1
    ext ω
    simp [hkl.symm]

/-- Almost surely, all values occur among the first `n` records, for `n` large enough. -/
theorem labels_occur {p : Fin r → Fin c → ℝ} (hp : IsJoint p) {law : Option Cell × Option Cell → ℝ} {q : ℝ} {u : Fin r → Cell} {v : Fin c → Cell}
    (hl : CompleteLaw law q p u v) {Ω : Type} [MeasurableSpace Ω] {μ : Measure Ω} {R : ℕ → Ω → Option Cell × Option Cell}
    (hR : IIDRecords μ R law) :
    ∀ᵐ ω ∂μ, ∀ᶠ n in atTop, (∀ i, ∃ k < n, (R k ω).1 = some (u i)) ∧ ∀ j, ∃ k < n, (R k ω).2 = some (v j) := by
  filter_upwards [hR.frequency] with ω h
  filter_upwards [approaches_data (approaches_of_frequency hl hp h.2) hp] with n hd
  have hpos : ∀ i j, (countArr (firstCounts (R · ω) u v n)).v i j ≠ 0 → ∃ k < n, R k ω = (some (u i), some (v j)) := by
    intro i j hij
    have : firstCounts (R · ω) u v n i j ≠ 0 := fun h0 => hij (by
      change ((firstCounts (R · ω) u v n i j : ℕ) : ℝ) = 0
      rw [h0]; simp)
    obtain ⟨k, hk, e⟩ := List.mem_map.1 (List.count_pos_iff.1 (Nat.pos_of_ne_zero this))
    exact ⟨k, List.mem_range.1 hk, e⟩
  constructor
  · intro i
    obtain ⟨j, hj⟩ := hd.rows i
    obtain ⟨k, hk, e⟩ := hpos i j hj
    exact ⟨k, hk, by rw [e]⟩
  · intro j
    obtain ⟨i, hi⟩ := hd.cols j
    obtain ⟨k, hk, e⟩ := hpos i j hi
    exact ⟨k, hk, by rw [e]⟩

open scoped Classical in
/-- **C84 (`phik_matrix`).** Two columns of a data frame hold the first `n` of independent draws and are binned or not
(`gA` and `gB` say what the binning makes of an entry); the frame may have any other columns: almost surely, for all `n` large enough, both columns pass the quality
check, `phik_matrix` returns, and its entry for the two columns is phik of the distribution of the binned values, up to the
tolerance of the root finder and `ε`.  (With `dropna=False` an interval column needs three categories: the quality check does not count the missing values.) -/
theorem phik_matrix_binned_estimates {nm : Numerics} (hg : GoodNumerics nm) (hr : 2 ≤ r) (hc : 2 ≤ c)
    (hs : StrictMonoOn (distance nm.mvn r c) (Set.Icc 0 1)) {p : Fin r → Fin c → ℝ} (hp : IsJoint p) {rho : ℝ}
    (hrho : IsPhikOfLaw nm.mvn p rho) {law : Option Cell × Option Cell → ℝ} {q : ℝ} {u : Fin r → Cell} {v : Fin c → Cell}
    (hl : CompleteLaw law q p u v) {Ω : Type} [MeasurableSpace Ω] {μ : Measure Ω} {A B : ℕ → Ω → Cell} (gA gB : Cell → Cell)
    (dropna du dof : Bool)
    (hR : IIDRecords μ (fun k ω => (view dropna du dof (gA (A k ω)), view dropna du dof (gB (B k ω)))) law) :
    ∀ᵐ ω ∂μ, ∀ ε : ℝ, 0 < ε → ∀ᶠ n in atTop, ∀ (noise quantile : Bool) (fl : ℚ → ℚ) (pf : String → Option (Option ℚ)) (w : World) (ref : Ref)
      (data : Frame) (ic : Option (List String)) (bins : Bins) (sched : Option (List ℕ)) (ca cb : Column),
      w.heap[ref]? = some data → data.names.Nodup →
      ValidSched (cwr ((data.cols.filter (fun c => decide (Kept (ic.getD (guessIntervalCols data)) dropna c))).map (·.name))).length sched →
      (∀ c ∈ data.cols, c.name ∈ ic.getD (guessIntervalCols data) → ∀ s, Cell.str s ∉ c.cells) →
      (∀ n ∈ ic.getD (guessIntervalCols data), ∃ s, EntryFor bins n s ∧ GoodEntry s) →
      ca ∈ data.cols → cb ∈ data.cols → ca.name ≠ cb.name →
      ca.cells = (List.range n).map (A · ω) → cb.cells = (List.range n).map (B · ω) →
      PreparedBy fl quantile (ic.getD (guessIntervalCols data)) bins ca gA → PreparedBy fl quantile (ic.getD (guessIntervalCols data)) bins cb gB →
      (dropna = true ∨ ca.name ∉ ic.getD (guessIntervalCols data) ∨ 3 ≤ r) → (dropna = true ∨ cb.name ∉ ic.getD (guessIntervalCols data) ∨ 3 ≤ c) →
      ∃ t w' x, (phikMatrix nm sched fl pf ref ic bins quantile noise dropna du dof).exec w = (.ok t, w') ∧
        t.v ca.name cb.name = some x ∧ |x - rho| ≤ rootTol + ε := by
  filter_upwards [phik_estimates hg hr hc hs hp hrho hl hR, labels_occur hp hl hR] with ω h hocc ε hε
  filter_upwards [h ε hε, hocc] with n hn hocc noise quantile fl pf w ref data ic bins sched ca cb hf hnd hsch hnum hbins hca hcb hne ea eb pa pb ka kb
  obtain ⟨x, hx, hx'⟩ := hn noise
  obtain ⟨t, w', hrun⟩ := phik_matrix_returns hg fl pf hf hnd ic bins quantile noise dropna du dof hsch hnum hbins
  refine ⟨t, w', x, hrun, ?_, hx'⟩
  have hres := phik_matrix_result hg fl pf hf hnd ic bins quantile noise dropna du dof hsch
  rw [hrun] at hres
  obtain ⟨icc, w1, clean, g1, g2, g3, r2, dict, w2, binned, g4, g5, g6, -, -⟩ := hres
  obtain ⟨icc', w1', clean', ws, d1, d2, -, d4, d5, -⟩ := dq_check hf hnd (ic.getD (guessIntervalCols data)) dropna
  rw [g1] at d1
  cases d1
  rw [d2] at g2
  obtain rfl : clean' = clean := by simpa using g2
  have keptA : Kept (ic.getD (guessIntervalCols data)) dropna ca := by
    refine kept_of_labels pa.nan hr hl.u_inj (du := du) (dof := dof) (fun i => ?_) ka
    obtain ⟨k, hk, e⟩ := hocc.1 i
    exact ⟨A k ω, by rw [ea]; exact List.mem_map.2 ⟨k, List.mem_range.2 hk, rfl⟩, e⟩
  have keptB : Kept (ic.getD (guessIntervalCols data)) dropna cb := by
    refine kept_of_labels pb.nan hc hl.v_inj (du := du) (dof := dof) (fun i => ?_) kb
    obtain ⟨k, hk, e⟩ := hocc.2 i
    exact ⟨B k ω, by rw [eb]; exact List.mem_map.2 ⟨k, List.mem_range.2 hk, rfl⟩, e⟩
  have hcaC : ca ∈ clean'.cols := by rw [g3, List.mem_filter]; exact ⟨hca, by simpa using keptA⟩
  have hcbC : cb ∈ clean'.cols := by rw [g3, List.mem_filter]; exact ⟨hcb, by simpa using keptB⟩
  have hsub : clean'.names.Sublist data.names := by
    unfold Frame.names; rw [g3]; exact List.filter_sublist.map _
  have hnc : clean'.names.Nodup := hnd.sublist hsub
  have hclean : w1.heap[w.heap.length]? = some clean' := by rw [d2]; simp
  rw [binData_exec fl pf hclean] at g4
  cases hcore : binDataCore fl pf clean' icc bins quantile with
  | error e => rw [hcore] at g4; simp at g4
  | ok val =>
  obtain ⟨out, dict'⟩ := val
  rw [hcore] at g4
  simp only [Prod.mk.injEq, Except.ok.injEq] at g4
  obtain ⟨⟨rfl, rfl⟩, rfl⟩ := g4
  obtain rfl : out = binned := by simpa using g5
  have hicc : ∀ c ∈ clean'.cols, (c.name ∈ icc ↔ c.name ∈ ic.getD (guessIntervalCols data)) := by
    intro c hc
    rw [d5, List.mem_filter]
    have : c.name ∈ clean'.names := List.mem_map.2 ⟨c, hc, rfl⟩
    simp [this]
  obtain ⟨f, h1, -, h3, -⟩ := binDataCore_spec (fun name hname => by
    rw [d5, List.mem_filter] at hname
    obtain ⟨s, hs1, hs2⟩ := hbins name hname.1
    refine ⟨s, hs1, ?_⟩
    rintro rfl
    rcases hs2 with ⟨l, hl⟩ | ⟨q, hq, -⟩
    · cases hl
    · cases hq) hcore
  have prepA : PreparedBy fl quantile icc bins ca gA := by
    unfold PreparedBy; rw [hicc ca hcaC]; exact pa
  have prepB : PreparedBy fl quantile icc bins cb gB := by
    unfold PreparedBy; rw [hicc cb hcbC]; exact pb
  have colA := prepared_column hnc h1 hcaC prepA fun hi => hnum ca hca ((hicc ca hcaC).1 hi)
  have colB := prepared_column hnc h1 hcbC prepB fun hi => hnum cb hcb ((hicc cb hcbC).1 hi)
  set ca' : Column := if ca.name ∈ icc then ⟨ca.name, false, (f ca.name).1⟩ else ca with hca'
  set cb' : Column := if cb.name ∈ icc then ⟨cb.name, false, (f cb.name).1⟩ else cb with hcb'
  have nA : ca'.name = ca.name := by rw [hca']; split <;> rfl
  have nB : cb'.name = cb.name := by rw [hcb']; split <;> rfl
  have mA : ca' ∈ out.cols := by rw [h3]; exact List.mem_map.2 ⟨ca, hcaC, rfl⟩
  have mB : cb' ∈ out.cols := by rw [h3]; exact List.mem_map.2 ⟨cb, hcbC, rfl⟩
  have hnames : out.names = clean'.names := (binDataCore_names hcore).1
  have hrec : records dropna du dof ca' cb' =
      (List.range n).map fun k => (view dropna du dof (gA (A k ω)), view dropna du dof (gB (B k ω))) := by
    unfold records
    rw [colA, colB, ea, eb, List.map_map, List.map_map, List.zip_map']
    rw [List.map_map]
    rfl
  rw [← nA, ← nB]
  exact entry_of_columns hg (by rw [hnames]; exact hnc) g6 mA mB (by rw [nA, nB]; exact hne) (by rw [hrec]; exact hx)

end Phik.Props
