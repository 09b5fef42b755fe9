import Verif.Props.NullSig

/-! # Property C86: the significance matrix of independent variables -/

namespace Phik.Props

open Spec MeasureTheory ProbabilityTheory Topology Gauss
open Filter (Tendsto atTop Eventually)

variable {r c : ℕ} {p : Fin r → Fin c → ℝ} {law : Option Cell × Option Cell → ℝ} {q : ℝ} {u : Fin r → Cell} {v : Fin c → Cell}
  {Ω : Type} [MeasurableSpace Ω] {μ : Measure Ω} {F : Type}

/-- Numbers that are the asymptotic significance of the first `n` records as soon as all cells of the table are filled, off sets `E n` whose
probability vanishes. -/
theorem null_entry_off (hr : 2 ≤ r) (hc : 2 ≤ c) (hp : IsJoint p) (hi : IndepJoint p) (hl : CompleteLaw law q p u v)
    {R : ℕ → Ω → Option Cell × Option Cell} (hR : IndepRecords μ R law) {lam : String}
    (hlam : lam ∈ ["pearson", "log-likelihood", "cressie-read", "freeman-tukey", "neyman", "mod-log-likelihood"]) (z0 : ℝ) {o : ℕ → Ω → Option EReal} {E : ℕ → Set Ω} (hE : Tendsto (fun n => μ (E n)) atTop (𝓝 0))
    (ho : ∀ ω n, ω ∉ E n → (∀ i j, 0 < firstCounts (R · ω) u v n i j) →
      ∃ rn : SimRun F, rn.lambda = lam ∧ IsSig trueSig rn "asymptotic" ((List.range n).map (R · ω)) (o n ω)) :
    Tendsto (fun n => μ {ω | ∃ z, o n ω = some z ∧ (z0 : EReal) < z}) atTop (𝓝 (gaussianReal 0 1 (Set.Ioi z0))) := by
  obtain ⟨cell, hcell⟩ : ∃ cell, cellOf lam = some cell := by
    simp only [List.mem_cons, List.not_mem_nil, or_false] at hlam
    rcases hlam with h | h | h | h | h | h <;> rw [h] <;> exact ⟨_, rfl⟩
  have hk := dof_pos hr hc
  rw [normal_tail, ← chi2Tail_uniform_lt hk (normCdf_pos _) (normCdf_lt_one _)]
  refine null_event_off hr hc hp hi hl hR (cellOf_quadratic hcell) (measurableSet_lt (chi2Tail_cont hk).measurable measurable_const)
    (measure_mono_null (frontier_lt_subset_eq (chi2Tail_cont hk) continuous_const) (chi2Tail_level hk (normCdf_pos _) (normCdf_lt_one _))) hE ?_
  filter_upwards [hR.iid.frequency] with ω hω n hb hd hpos
  have hlab : ∀ k a b, R k ω = (some a, some b) → a ∈ Set.range u ∧ b ∈ Set.range v := by
    intro k a b hk
    have := hω.1 k
    rw [hk] at this
    exact hl.other a b this
  obtain ⟨rn, rfl, hrn⟩ := ho ω n hb hpos
  have e := sig_of_labelled trueSig rn hr hc hl.u_inj hl.v_inj hlab hd (asymptotic_eval hr hc rn hcell hd hpos)
  have := isSig_unique hrn e
  constructor
  · rintro ⟨z, h1, h2⟩
    rw [h1, Option.some.injEq] at this
    rw [this] at h2
    exact tail_key.1 h2
  · intro h
    exact ⟨_, this, tail_key.2 h⟩

theorem null_entry (hr : 2 ≤ r) (hc : 2 ≤ c) (hp : IsJoint p) (hi : IndepJoint p) (hl : CompleteLaw law q p u v)
    {R : ℕ → Ω → Option Cell × Option Cell} (hR : IndepRecords μ R law) {lam : String}
    (hlam : lam ∈ ["pearson", "log-likelihood", "cressie-read", "freeman-tukey", "neyman", "mod-log-likelihood"]) (z0 : ℝ) {o : ℕ → Ω → Option EReal}
    (ho : ∀ ω n, (∀ i j, 0 < firstCounts (R · ω) u v n i j) →
      ∃ rn : SimRun F, rn.lambda = lam ∧ IsSig trueSig rn "asymptotic" ((List.range n).map (R · ω)) (o n ω)) :
    Tendsto (fun n => μ {ω | ∃ z, o n ω = some z ∧ (z0 : EReal) < z}) atTop (𝓝 (gaussianReal 0 1 (Set.Ioi z0))) :=
  null_entry_off hr hc hp hi hl hR hlam z0 (E := fun _ => ∅) (by simp) fun ω n _ => ho ω n

theorem three_of_six {lam : String} (h : lam ∈ ["pearson", "log-likelihood", "cressie-read"]) :
    lam ∈ ["pearson", "log-likelihood", "cressie-read", "freeman-tukey", "neyman", "mod-log-likelihood"] := by
  simp only [List.mem_cons, List.not_mem_nil, or_false] at h ⊢
  tauto

/-- **C86 (`significance_from_rebinned_df`).** Two columns of a data frame hold the first `n` of independent draws of records with independent variables, the
frame may have any other columns, and the calls return: the probability that the significance of the two columns exceeds `z0` tends to the
normal tail probability.  (The other three statistics are not finite for a table with an empty cell, as is the table of a column with itself.) -/
theorem null_rebinned (hr : 2 ≤ r) (hc : 2 ≤ c) (hp : IsJoint p) (hi : IndepJoint p) (hl : CompleteLaw law q p u v)
    {A B : ℕ → Ω → Cell} (dropna du dof : Bool)
    (hR : IndepRecords μ (fun k ω => (view dropna du dof (A k ω), view dropna du dof (B k ω))) law) {lam : String}
    (hlam : lam ∈ ["pearson", "log-likelihood", "cressie-read"]) (z0 : ℝ)
    {R : ℕ → Ω → ℕ → SimRun F} {w w' : ℕ → Ω → World} {ref : ℕ → Ω → Ref} {f : ℕ → Ω → Frame} {ca cb : ℕ → Ω → Column} {t : ℕ → Ω → LTab EReal}
    (hRl : ∀ n ω k, (R n ω k).lambda = lam) (hf : ∀ n ω, (w n ω).heap[ref n ω]? = some (f n ω)) (hnd : ∀ n ω, (f n ω).names.Nodup)
    (hca : ∀ n ω, ca n ω ∈ (f n ω).cols) (hcb : ∀ n ω, cb n ω ∈ (f n ω).cols)
    (ea : ∀ n ω, (ca n ω).cells = (List.range n).map (A · ω)) (eb : ∀ n ω, (cb n ω).cells = (List.range n).map (B · ω))
    (hrun : ∀ n ω, (sigFromRebinned trueSig (R n ω) (ref n ω) "asymptotic" dropna du dof).exec (w n ω) = (.ok (t n ω), w' n ω)) :
    Tendsto (fun n => μ {ω | ∃ z, (t n ω).v (ca n ω).name (cb n ω).name = some z ∧ (z0 : EReal) < z}) atTop
      (𝓝 (gaussianReal 0 1 (Set.Ioi z0))) := by
  refine null_entry (F := F) hr hc hp hi hl hR (three_of_six hlam) z0 fun ω n _ => ?_
  have hrec : records dropna du dof (ca n ω) (cb n ω) =
      (List.range n).map fun k => (view dropna du dof (A k ω), view dropna du dof (B k ω)) := by
    unfold records
    rw [ea, eb, List.zip_map', List.map_map]
    rfl
  rcases significance_of_frame trueSig (R n ω) "asymptotic" (hf n ω) (hnd n ω) dropna du dof with ⟨t', w2, g1, g2, -⟩ | ⟨e, w2, g1, -⟩
  · rw [hrun] at g1
    cases g1
    obtain ⟨k, hk⟩ := sig_entry_of_columns (hnd n ω) g2 (hca n ω) (hcb n ω)
    rw [hrec] at hk
    exact ⟨_, hRl n ω k, hk⟩
  · rw [hrun] at g1; cases g1

/-- The same with the quality check and the binning, off sets `E n` whose
probability vanishes. -/
theorem null_matrix_off (hr : 2 ≤ r) (hc : 2 ≤ c) (hp : IsJoint p) (hi : IndepJoint p) (hl : CompleteLaw law q p u v)
    {A B : ℕ → Ω → Cell} (gA gB : Cell → Cell) (dropna du dof : Bool)
    (hR : IndepRecords μ (fun k ω => (view dropna du dof (gA (A k ω)), view dropna du dof (gB (B k ω)))) law) {lam : String}
    (hlam : lam ∈ ["pearson", "log-likelihood", "cressie-read"]) (z0 : ℝ)
    {E : ℕ → Set Ω} (hE : Tendsto (fun n => μ (E n)) atTop (𝓝 0)) (fl : ℚ → ℚ) (pf : String → Option (Option ℚ))
    {R : ℕ → Ω → ℕ → SimRun F} {w w' : ℕ → Ω → World} {ref : ℕ → Ω → Ref} {data : ℕ → Ω → Frame} {ic : ℕ → Ω → Option (List String)} {bins : ℕ → Ω → Bins}
    {ca cb : ℕ → Ω → Column} {t : ℕ → Ω → LTab EReal}
    (hRl : ∀ n ω k, (R n ω k).lambda = lam) (hf : ∀ n ω, (w n ω).heap[ref n ω]? = some (data n ω)) (hnd : ∀ n ω, (data n ω).names.Nodup)
    (hnum : ∀ n ω, ∀ c ∈ (data n ω).cols, c.name ∈ (ic n ω).getD (guessIntervalCols (data n ω)) → ∀ s, Cell.str s ∉ c.cells)
    (hbins : ∀ n ω, ∀ name ∈ (ic n ω).getD (guessIntervalCols (data n ω)), ∃ s, EntryFor (bins n ω) name s ∧ GoodEntry s)
    (hca : ∀ n ω, ca n ω ∈ (data n ω).cols) (hcb : ∀ n ω, cb n ω ∈ (data n ω).cols)
    (ea : ∀ n ω, (ca n ω).cells = (List.range n).map (A · ω)) (eb : ∀ n ω, (cb n ω).cells = (List.range n).map (B · ω))
    (pa : ∀ n ω, ω ∉ E n → PreparedBy fl false ((ic n ω).getD (guessIntervalCols (data n ω))) (bins n ω) (ca n ω) gA)
    (pb : ∀ n ω, ω ∉ E n → PreparedBy fl false ((ic n ω).getD (guessIntervalCols (data n ω))) (bins n ω) (cb n ω) gB)
    (ka : ∀ n ω, dropna = true ∨ (ca n ω).name ∉ (ic n ω).getD (guessIntervalCols (data n ω)) ∨ 3 ≤ r)
    (kb : ∀ n ω, dropna = true ∨ (cb n ω).name ∉ (ic n ω).getD (guessIntervalCols (data n ω)) ∨ 3 ≤ c)
    (hrun : ∀ n ω, (significanceMatrix trueSig (R n ω) fl pf (ref n ω) (ic n ω) (bins n ω) "asymptotic" dropna du dof).exec (w n ω) =
      (.ok (t n ω), w' n ω)) :
    Tendsto (fun n => μ {ω | ∃ z, (t n ω).v (ca n ω).name (cb n ω).name = some z ∧ (z0 : EReal) < z}) atTop
      (𝓝 (gaussianReal 0 1 (Set.Ioi z0))) := by
  refine null_entry_off (F := F) hr hc hp hi hl hR (three_of_six hlam) z0 hE fun ω n hb hpos => ?_
  have hocc : ∀ i j, ∃ k < n, (view dropna du dof (gA (A k ω)), view dropna du dof (gB (B k ω))) = (some (u i), some (v j)) := by
    intro i j
    obtain ⟨k, hk, e⟩ := List.mem_map.1 (List.count_pos_iff.1 (hpos i j))
    exact ⟨k, List.mem_range.1 hk, e⟩
  obtain ⟨icc, w1, clean, g1, g2, g3, hres⟩ := significance_matrix_result trueSig (R n ω) "asymptotic" fl pf (hf n ω) (hnd n ω) (ic n ω) (bins n ω) dropna du dof
  rcases hres with ⟨t', w3, r2, dict, w2, binned, ws, k1, k2, k3, k4, -⟩ | ⟨e, w3, k1, -⟩
  · rw [hrun] at k1
    cases k1
    have keptA : Kept ((ic n ω).getD (guessIntervalCols (data n ω))) dropna (ca n ω) := by
      refine kept_of_labels (pa n ω hb).nan hr hl.u_inj (du := du) (dof := dof) (fun i => ?_) (ka n ω)
      obtain ⟨k, hk, e⟩ := hocc i ⟨0, by omega⟩
      exact ⟨A k ω, by rw [ea]; exact List.mem_map.2 ⟨k, List.mem_range.2 hk, rfl⟩, (Prod.mk.inj e).1⟩
    have keptB : Kept ((ic n ω).getD (guessIntervalCols (data n ω))) dropna (cb n ω) := by
      refine kept_of_labels (pb n ω hb).nan hc hl.v_inj (du := du) (dof := dof) (fun i => ?_) (kb n ω)
      obtain ⟨k, hk, e⟩ := hocc ⟨0, by omega⟩ i
      exact ⟨B k ω, by rw [eb]; exact List.mem_map.2 ⟨k, List.mem_range.2 hk, rfl⟩, (Prod.mk.inj e).2⟩
    obtain ⟨hnb, ca', mA, cb', mB, nA, nB, hrec⟩ := prepared_pair (du := du) (dof := dof) (hf n ω) (hnd n ω) g1 g2 g3 k2 k3 (hnum n ω) (hbins n ω)
      (hca n ω) (hcb n ω) (pa n ω hb) (pb n ω hb) keptA keptB
    obtain ⟨k, hk⟩ := sig_entry_of_columns hnb k4 mA mB
    rw [hrec, ea, eb, List.zip_map', List.map_map] at hk
    rw [← nA, ← nB]
    exact ⟨_, hRl n ω k, hk⟩
  · rw [hrun] at k1; cases k1

/-- **C86 (`significance_matrix`).** The same with the quality check and the binning, for columns that are binned or not (`gA` and `gB` say what the
binning makes of an entry). -/
theorem null_matrix (hr : 2 ≤ r) (hc : 2 ≤ c) (hp : IsJoint p) (hi : IndepJoint p) (hl : CompleteLaw law q p u v)
    {A B : ℕ → Ω → Cell} (gA gB : Cell → Cell) (dropna du dof : Bool)
    (hR : IndepRecords μ (fun k ω => (view dropna du dof (gA (A k ω)), view dropna du dof (gB (B k ω)))) law) {lam : String}
    (hlam : lam ∈ ["pearson", "log-likelihood", "cressie-read"]) (z0 : ℝ)
    (fl : ℚ → ℚ) (pf : String → Option (Option ℚ))
    {R : ℕ → Ω → ℕ → SimRun F} {w w' : ℕ → Ω → World} {ref : ℕ → Ω → Ref} {data : ℕ → Ω → Frame} {ic : ℕ → Ω → Option (List String)} {bins : ℕ → Ω → Bins}
    {ca cb : ℕ → Ω → Column} {t : ℕ → Ω → LTab EReal}
    (hRl : ∀ n ω k, (R n ω k).lambda = lam) (hf : ∀ n ω, (w n ω).heap[ref n ω]? = some (data n ω)) (hnd : ∀ n ω, (data n ω).names.Nodup)
    (hnum : ∀ n ω, ∀ c ∈ (data n ω).cols, c.name ∈ (ic n ω).getD (guessIntervalCols (data n ω)) → ∀ s, Cell.str s ∉ c.cells)
    (hbins : ∀ n ω, ∀ name ∈ (ic n ω).getD (guessIntervalCols (data n ω)), ∃ s, EntryFor (bins n ω) name s ∧ GoodEntry s)
    (hca : ∀ n ω, ca n ω ∈ (data n ω).cols) (hcb : ∀ n ω, cb n ω ∈ (data n ω).cols)
    (ea : ∀ n ω, (ca n ω).cells = (List.range n).map (A · ω)) (eb : ∀ n ω, (cb n ω).cells = (List.range n).map (B · ω))
    (pa : ∀ n ω, PreparedBy fl false ((ic n ω).getD (guessIntervalCols (data n ω))) (bins n ω) (ca n ω) gA)
    (pb : ∀ n ω, PreparedBy fl false ((ic n ω).getD (guessIntervalCols (data n ω))) (bins n ω) (cb n ω) gB)
    (ka : ∀ n ω, dropna = true ∨ (ca n ω).name ∉ (ic n ω).getD (guessIntervalCols (data n ω)) ∨ 3 ≤ r)
    (kb : ∀ n ω, dropna = true ∨ (cb n ω).name ∉ (ic n ω).getD (guessIntervalCols (data n ω)) ∨ 3 ≤ c)
    (hrun : ∀ n ω, (significanceMatrix trueSig (R n ω) fl pf (ref n ω) (ic n ω) (bins n ω) "asymptotic" dropna du dof).exec (w n ω) =
      (.ok (t n ω), w' n ω)) :
    Tendsto (fun n => μ {ω | ∃ z, (t n ω).v (ca n ω).name (cb n ω).name = some z ∧ (z0 : EReal) < z}) atTop
      (𝓝 (gaussianReal 0 1 (Set.Ioi z0))) :=
  null_matrix_off hr hc hp hi hl gA gB dropna du dof hR hlam z0 (E := fun _ => ∅) (by simp) fl pf hRl hf hnd hnum hbins hca hcb ea eb
    (fun n ω _ => pa n ω) (fun n ω _ => pb n ω) ka kb hrun

end Phik.Props
