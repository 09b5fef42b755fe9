import Verif.Props.SimPatefield
import Verif.Props.PowerDiv
import Verif.Props.Matrix

/-! # Property C55: the simulated distribution of the test statistic -/

namespace Phik.Props

open Spec Finset

variable {F : Type}

/-- The table of expected frequencies. -/
noncomputable def expTable (a : Arr2 ℝ) : Arr2 ℝ := ⟨a.r, a.c, fun i j => expect a i j⟩

theorem expTable_row {a : Arr2 ℝ} (h : IsCount a) (i : Fin a.r) :
    ∑ j, (expTable a).v i j = ∑ j, a.v i j := by
  change ∑ j, expect a i j = _
  unfold Spec.expect
  rw [← Finset.sum_div, ← Finset.mul_sum]
  have : ∑ j, ∑ i', a.v i' j = a.total := Finset.sum_comm
  rw [this]
  exact mul_div_cancel_right₀ _ h.pos.ne'

theorem expTable_col {a : Arr2 ℝ} (h : IsCount a) (j : Fin a.c) :
    ∑ i, (expTable a).v i j = ∑ i, a.v i j := by
  change ∑ i, expect a i j = _
  unfold Spec.expect
  rw [← Finset.sum_div, ← Finset.sum_mul]
  exact mul_div_cancel_left₀ _ h.pos.ne'

theorem expTable_total {a : Arr2 ℝ} (h : IsCount a) : (expTable a).total = a.total :=
  Finset.sum_congr rfl fun i _ => expTable_row h i

theorem expTable_count {a : Arr2 ℝ} (h : IsCount a) : IsCount (expTable a) :=
  ⟨fun i j => expect_nonneg h i j, by rw [expTable_total h]; exact h.pos⟩

theorem data_count {a : Arr2 ℝ} (h : DataTable a) (hr : 2 ≤ a.r) : IsCount a := by
  refine ⟨fun i j => by obtain ⟨k, hk⟩ := h.counts i j; rw [hk]; positivity, ?_⟩
  have hnn : ∀ i j, 0 ≤ a.v i j := fun i j => by obtain ⟨k, hk⟩ := h.counts i j; rw [hk]; positivity
  obtain ⟨j, hj⟩ := h.rows ⟨0, by omega⟩
  refine lt_of_lt_of_le ((hnn _ j).lt_of_ne hj.symm) ?_
  exact (Finset.single_le_sum (f := fun j => a.v ⟨0, by omega⟩ j) (fun j _ => hnn _ j) (mem_univ j)).trans
    (Finset.single_le_sum (f := fun i => ∑ j, a.v i j) (fun i _ => Finset.sum_nonneg fun j _ => hnn i j)
      (mem_univ _))

theorem data_whole {a : Arr2 ℝ} (h : DataTable a) : WholeRows a ∧ WholeCols a := by
  choose k hk using h.counts
  constructor
  · intro i
    refine ⟨∑ j, k i j, ?_, by push_cast; exact Finset.sum_congr rfl fun j _ => hk i j⟩
    obtain ⟨j, hj⟩ := h.rows i
    have : 0 < k i j := by
      rcases Nat.eq_zero_or_pos (k i j) with h0 | h0
      · rw [hk, h0] at hj; simp at hj
      · exact h0
    exact this.trans_le (Finset.single_le_sum (f := fun j => k i j) (fun _ _ => Nat.zero_le _) (mem_univ j))
  · intro j
    refine ⟨∑ i, k i j, ?_, by push_cast; exact Finset.sum_congr rfl fun i _ => hk i j⟩
    obtain ⟨i, hj⟩ := h.cols j
    have : 0 < k i j := by
      rcases Nat.eq_zero_or_pos (k i j) with h0 | h0
      · rw [hk, h0] at hj; simp at hj
      · exact h0
    exact this.trans_le (Finset.single_le_sum (f := fun i => k i j) (fun _ _ => Nat.zero_le _) (mem_univ i))

/-- The extension can serve the table: it is installed, its arithmetic meets the laws of the sampler, its
loops may run long enough, and the total is at most 46340. -/
structure CanSample (env : SimEnv F) (n : ℝ) : Prop where
  cpp : env.cpp = true
  round : RoundOK env.ops
  laws : ∃ G, FloatLaws env.ops G
  small : n ≤ 46340
  fuel : n + 2 ≤ env.fuel
  passes : 2 ≤ env.passes

theorem toReal_count {t : Arr2 ℤ} (h0 : ∀ i j, 0 ≤ t.v i j) {n : ℝ} (hn : 0 < n)
    (h1 : ((∑ i, ∑ j, t.v i j : ℤ) : ℝ) = n) : IsCount t.toReal ∧ t.toReal.total = n := by
  have h2 : t.toReal.total = n := by rw [← h1]; push_cast; rfl
  exact ⟨⟨fun i j => by have := h0 i j; change (0 : ℝ) ≤ (t.v i j : ℝ); exact_mod_cast this,
    by rw [h2]; exact hn⟩, h2⟩

/-- One simulated data set: for every table of counts without empty rows and columns, every method and
all random draws, a table with as many records as the data. -/
theorem sim_any_run (env : SimEnv F) {d : Draws F} (hd : GoodDraws d) {a : Arr2 ℝ} (ha : DataTable a)
    (h2r : 2 ≤ a.r) (h2c : 2 ≤ a.c) {method : String}
    (hm : method ∈ ["multinominal", "row_product_multinominal", "col_product_multinominal"] ∨
      method = "hypergeometric" ∧ CanSample env a.total) :
    ∃ t, simData env d (expTable a) method = .ok t ∧ IsCount t.toReal ∧ t.toReal.total = a.total ∧
      (t.r = a.r ∧ t.c = a.c ∨ t.r = a.c ∧ t.c = a.r) := by
  have hc := data_count ha h2r
  have he := expTable_count hc
  obtain ⟨hwr, hwc⟩ := data_whole ha
  have hwr' : WholeRows (expTable a) := fun i => by
    obtain ⟨k, h1, h2⟩ := hwr i
    exact ⟨k, h1, (expTable_row hc i).trans h2⟩
  have hwc' : WholeCols (expTable a) := fun i => by
    obtain ⟨k, h1, h2⟩ := hwc i
    exact ⟨k, h1, (expTable_col hc i).trans h2⟩
  have hrow : ∀ i, 0 < ∑ j, (expTable a).v i j := fun i => by
    obtain ⟨k, h1, h2⟩ := hwr' i
    rw [h2]; exact_mod_cast h1
  have hcol : ∀ j, 0 < ∑ i, (expTable a).v i j := fun j => by
    obtain ⟨k, h1, h2⟩ := hwc' j
    rw [h2]; exact_mod_cast h1
  have hrf : ∀ i, ((⌊∑ j, (expTable a).v i j⌋ : ℤ) : ℝ) = ∑ j, (expTable a).v i j := fun i => by
    obtain ⟨k, h1, h2⟩ := hwr' i
    rw [h2]; simp
  have hcf : ∀ i, ((⌊∑ j, (expTable a).v j i⌋ : ℤ) : ℝ) = ∑ j, (expTable a).v j i := fun i => by
    obtain ⟨k, h1, h2⟩ := hwc' i
    rw [h2]; simp
  have htf : ((⌊∑ i, ∑ j, (expTable a).v i j⌋ : ℤ) : ℝ) = a.total := by
    have : ∑ i, ∑ j, (expTable a).v i j = ((∑ i, ⌊∑ j, (expTable a).v i j⌋ : ℤ) : ℝ) := by
      push_cast; exact Finset.sum_congr rfl fun i _ => (hrf i).symm
    rw [this, Int.floor_intCast, ← this]
    exact expTable_total hc
  have htot : ∑ i, ∑ j, (expTable a).v i j = a.total := expTable_total hc
  rcases hm with hm | ⟨rfl, hs⟩
  · simp only [List.mem_cons, List.not_mem_nil, or_false] at hm
    rcases hm with rfl | rfl | rfl
    · obtain ⟨v, h1, h2, h3⟩ := multinominal_run env hd he
      obtain ⟨g1, g2⟩ := toReal_count (t := ⟨(expTable a).r, (expTable a).c, v⟩) (fun i j => (h2 i j).1) hc.pos
        (by rw [← htf]; exact congrArg (Int.cast : ℤ → ℝ) h3)
      exact ⟨_, h1, g1, g2, .inl ⟨rfl, rfl⟩⟩
    · obtain ⟨v, h1, h2, h3⟩ := row_product_run env hd he.nonneg hcol
      obtain ⟨g1, g2⟩ := toReal_count (t := ⟨(expTable a).r, (expTable a).c, v⟩) (fun i j => (h2 i j).1) hc.pos
        (by
          rw [Finset.sum_comm]
          change ((∑ j, ∑ i, v i j : ℤ) : ℝ) = _
          rw [Int.cast_sum, ← htot, Finset.sum_comm]
          exact Finset.sum_congr rfl fun j _ => by rw [h3 j]; exact hcf j)
      exact ⟨_, h1, g1, g2, .inl ⟨rfl, rfl⟩⟩
    · obtain ⟨v, h1, h2, h3⟩ := col_product_run env hd he.nonneg hrow
      obtain ⟨g1, g2⟩ := toReal_count (t := ⟨(expTable a).r, (expTable a).c, v⟩) (fun i j => (h2 i j).1) hc.pos
        (by
          change ((∑ i, ∑ j, v i j : ℤ) : ℝ) = _
          rw [Int.cast_sum, ← htot]
          exact Finset.sum_congr rfl fun j _ => by rw [h3 j]; exact hrf j)
      exact ⟨_, h1, g1, g2, .inl ⟨rfl, rfl⟩⟩
  · obtain ⟨hcpp, hR, ⟨G, hL⟩, hsm, hfu, hpa⟩ := hs
    obtain ⟨v, h1, h2, h3, -⟩ := patefield_py_total (seed := none) hcpp hR hL hd hwr' hwc' h2r h2c
      (by rw [htot]; exact hsm) (by rw [htot]; exact hfu) hpa (fun s hs => by cases hs)
    obtain ⟨g1, g2⟩ := toReal_count (t := ⟨(expTable a).c, (expTable a).r, v⟩) (fun i j => h2 i j) hc.pos
      (by
        change ((∑ j, ∑ i, v j i : ℤ) : ℝ) = _
        rw [Int.cast_sum, ← htot, Finset.sum_comm]
        exact Finset.sum_congr rfl fun j _ => h3 j)
    refine ⟨_, ?_, g1, g2, .inr ⟨rfl, rfl⟩⟩
    simpa [simData] using h1

/-- **C55.** For every table of data with at least two rows and columns, every simulation method, both
test statistics, all random draws and every order in which the workers finish, the simulated distribution
has exactly `nsim` entries; the `k`-th is the statistic of the `k`-th simulated data set, which has as
many records as the data; it is not negative, and for Pearson's statistic at most
`n * min(rows - 1, cols - 1)`. -/
theorem sim_chi2_distribution (env : SimEnv F) {draws : ℕ → Draws F} (hd : ∀ i, GoodDraws (draws i))
    {a : Arr2 ℝ} (ha : DataTable a) (h2r : 2 ≤ a.r) (h2c : 2 ≤ a.c) {method lambda : String}
    (hm : method ∈ ["multinominal", "row_product_multinominal", "col_product_multinominal"] ∨
      method = "hypergeometric" ∧ CanSample env a.total)
    (hlam : lambda ∈ ["pearson", "log-likelihood", "cressie-read"]) (nsim : ℕ) {sched : Option (List ℕ)}
    (hs : ValidSched nsim sched) :
    ∃ l, simChi2 env draws sched a nsim lambda method false = .ok l ∧ l.length = nsim ∧
      ∀ k (hk : k < l.length), 0 ≤ l[k] ∧
        (lambda = "pearson" → l[k] ≤ (∑ i, ∑ j, a.v i j) * (min (a.r - 1) (a.c - 1) : ℕ)) ∧
        ∃ t, simData env (draws k) (expTable a) method = .ok t ∧ t.toReal.total = ∑ i, ∑ j, a.v i j ∧
          getChi2 t.toReal lambda = .ok l[k] := by
  have hc := data_count ha h2r
  have key : ∀ k, ∃ x t, simulateAndFit env (expTable a) method lambda (draws k) = .ok x ∧ 0 ≤ x ∧
      (lambda = "pearson" → x ≤ (∑ i, ∑ j, a.v i j) * (min (a.r - 1) (a.c - 1) : ℕ)) ∧
      simData env (draws k) (expTable a) method = .ok t ∧ t.toReal.total = ∑ i, ∑ j, a.v i j ∧
      getChi2 t.toReal lambda = .ok x := by
    intro k
    obtain ⟨t, h1, h2, h3, h4⟩ := sim_any_run env (hd k) ha h2r h2c hm
    have hfit : ∀ x, getChi2 t.toReal lambda = .ok x →
        simulateAndFit env (expTable a) method lambda (draws k) = .ok x := by
      intro x hx
      unfold simulateAndFit
      rw [h1]; exact hx
    by_cases hp : lambda = "pearson"
    · subst hp
      obtain ⟨b1, b2, b3⟩ := pearson_bounds h2 (get_chi2_value h2).1
      refine ⟨_, t, hfit _ (get_chi2_value h2).1, b1, fun _ => ?_, h1, h3, (get_chi2_value h2).1⟩
      refine b3.trans (le_of_eq ?_)
      rw [h3]
      change a.total * ((min (t.r - 1) (t.c - 1) : ℕ) : ℝ) = _
      rcases h4 with ⟨e1, e2⟩ | ⟨e1, e2⟩
      · rw [e1, e2]; rfl
      · rw [e1, e2, min_comm]; rfl
    · obtain ⟨g, hg, hg0⟩ := get_chi2_three h2 hlam
      exact ⟨g, t, hfit _ hg, hg0, fun h => absurd h hp, h1, h3, hg⟩
  choose x t hx using key
  refine ⟨(List.range nsim).map x, ?_, by simp, fun k hk => ?_⟩
  · have hne : ¬ (a.total = 0 ∧ 0 < nsim) := fun h => hc.pos.ne' h.1
    have he : (⟨a.r, a.c, expected a⟩ : Arr2 ℝ) = expTable a := rfl
    unfold simChi2
    simp only [Bool.false_eq_true, if_false, hne, he]
    rw [runTasks_ok_iff (by simpa using hs), List.map_map]
    exact List.map_congr_left fun k _ => (hx k).1
  · simp only [List.getElem_map, List.getElem_range]
    exact ⟨(hx k).2.1, (hx k).2.2.1, t k, (hx k).2.2.2⟩

/-- **C55.** The result does not depend on the order in which the workers finish. -/
theorem sim_chi2_schedule (env : SimEnv F) (draws : ℕ → Draws F) (a : Arr2 ℝ) (nsim : ℕ)
    (lambda method : String) (alt : Bool) {sched : Option (List ℕ)} (hs : ValidSched nsim sched) (l : List ℝ) :
    simChi2 env draws sched a nsim lambda method alt = .ok l ↔
      simChi2 env draws none a nsim lambda method alt = .ok l := by
  have h0 : ∀ n, ValidSched n none := fun n o h => by cases h
  unfold simChi2
  split
  · rw [runTasks_ok_iff (by simpa using hs), runTasks_ok_iff (h0 _)]
  · split
    · rfl
    · rw [runTasks_ok_iff (by simpa using hs), runTasks_ok_iff (h0 _)]

/-- A 2 by 2 table of data for the examples. -/
theorem ones_data : DataTable ones :=
  ⟨fun _ _ => ⟨1, by simp [ones]⟩, fun _ => ⟨(0 : Fin 2), one_ne_zero (α := ℝ)⟩,
    fun _ => ⟨(0 : Fin 2), one_ne_zero (α := ℝ)⟩⟩

theorem ones_total : ones.total = 4 := by
  change ∑ _i : Fin 2, ∑ _j : Fin 2, (1 : ℝ) = 4
  norm_num

theorem exactEnv_can : CanSample exactEnv ones.total :=
  ⟨rfl, exactEnv_round, exactEnv_laws, by rw [ones_total]; norm_num,
    by rw [ones_total]; norm_num [exactEnv], le_rfl⟩

/-- The hypotheses of `sim_chi2_distribution` can be met, with three workers finishing in another order
and the hypergeometric method. -/
example : ∃ l, simChi2 exactEnv (fun i => seeded (i % 10 : ℕ)) (some [2, 0, 1]) ones 3 "log-likelihood"
    "hypergeometric" false = .ok l ∧ l.length = 3 := by
  obtain ⟨l, h1, h2, -⟩ := sim_chi2_distribution exactEnv (draws := fun i => seeded (i % 10 : ℕ)) (a := ones) (lambda := "log-likelihood")
    (fun i => seeded_good (by positivity) (by omega)) ones_data le_rfl le_rfl
    (.inr ⟨rfl, exactEnv_can⟩) (by simp) 3 (sched := some [2, 0, 1])
    (fun o h => by cases h; decide)
  exact ⟨l, h1, h2⟩

end Phik.Props
