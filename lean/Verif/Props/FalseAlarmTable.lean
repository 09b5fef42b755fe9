import Verif.Props.FalseAlarm
import Verif.Props.PatefieldLaw

/-! # Property C69 for the fixed-margin simulations -/

namespace Phik

open Spec MeasureTheory Finset

/-- The table of the records `(x a, y (σ a))`: the second variable shuffled against the first. -/
def shuffled {N r c : ℕ} (x : Fin N → Fin r) (y : Fin N → Fin c) (σ : Equiv.Perm (Fin N)) (i : Fin r) (j : Fin c) : ℕ :=
  #{a | x a = i ∧ y (σ a) = j}

/-- Counting version of the bound: tuples of `n + 1` elements of a finite set. -/
theorem count_alarm {P : Type} [Fintype P] {n : ℕ} (g : P → ℝ) {α : ℝ} (hα : 0 ≤ α) :
    ((n : ℝ) + 1) * (Nat.card {w : Fin (n + 1) → P // pAmong (g ∘ w) 0 ≤ α} : ℝ) ≤ (2 * α * n + 2) * (Fintype.card P : ℝ) ^ (n + 1) := by
  classical
  have h0 : Nat.card {w : Fin (n + 1) → P // pAmong (g ∘ w) 0 ≤ α} = #{w : Fin (n + 1) → P | pAmong (g ∘ w) 0 ≤ α} := by
    rw [Nat.card_eq_fintype_card, Fintype.card_subtype]
  have he : ∀ i, #{w : Fin (n + 1) → P | pAmong (g ∘ w) i ≤ α} = #{w : Fin (n + 1) → P | pAmong (g ∘ w) 0 ≤ α} := by
    intro i
    refine Finset.card_bij (fun w _ => w ∘ Equiv.swap 0 i) (fun w hw => ?_) (fun w _ w' _ h => ?_) fun w hw => ?_
    · simp only [mem_filter, mem_univ, true_and] at hw ⊢
      rw [← Function.comp_assoc, pAmong_comp]; simpa using hw
    · exact (Equiv.swap 0 i).surjective.injective_comp_right h
    · refine ⟨w ∘ Equiv.swap 0 i, ?_, ?_⟩
      · simp only [mem_filter, mem_univ, true_and] at hw ⊢
        rw [← Function.comp_assoc, pAmong_comp]; simpa using hw
      · funext k; simp
  have hs : ∑ i : Fin (n + 1), #{w : Fin (n + 1) → P | pAmong (g ∘ w) i ≤ α} =
      ∑ w : Fin (n + 1) → P, #{i | pAmong (g ∘ w) i ≤ α} := by
    simp only [Finset.card_filter]
    exact Finset.sum_comm
  simp only [he, sum_const, card_univ, Fintype.card_fin, smul_eq_mul] at hs
  rw [h0]
  have hs' : ((n : ℝ) + 1) * (#{w : Fin (n + 1) → P | pAmong (g ∘ w) 0 ≤ α} : ℝ) =
      ∑ w : Fin (n + 1) → P, (#{i | pAmong (g ∘ w) i ≤ α} : ℝ) := by exact_mod_cast hs
  rw [hs']
  calc ∑ w : Fin (n + 1) → P, (#{i | pAmong (g ∘ w) i ≤ α} : ℝ) ≤ ∑ _w : Fin (n + 1) → P, (2 * α * n + 2) :=
        Finset.sum_le_sum fun w _ => few_small (g ∘ w) hα
    _ = _ := by simp; ring

/-- A run of the sampler on the tape `u` with the totals of the records yields the table `X`. -/
def Yields {N r c : ℕ} (x : Fin N → Fin r) (y : Fin N → Fin c) (fuel passes : ℕ) (st : Statics ℝ) (buf : List (Option ℤ)) {L : ℕ}
    (u : Fin L → ℝ) (X : Fin r → Fin c → ℕ) : Prop :=
  (∀ i, 0 < u i ∧ u i ≤ 1) ∧ ∃ out,
    rcont2 exactOps tape fuel passes r c (List.ofFn fun i => (#{a | x a = i} : ℤ)) (List.ofFn fun j => (#{a | y a = j} : ℤ))
      false st (List.ofFn u) buf = .ok out ∧ out.ierror = 0 ∧
    ∀ i j, out.matrix[i.1 + j.1 * r]? = some (some (X i j : ℤ))

/-- The probability that `n` runs of the sampler on independent tapes yield tables with property `Q` is at most
that for `n` independent shuffles. -/
theorem runs_le {N r c : ℕ} (x : Fin N → Fin r) (y : Fin N → Fin c) (hr : 2 ≤ r) (hc : 2 ≤ c)
    (hx : Function.Surjective x) (hy : Function.Surjective y) (hN : N ≤ 46340) {fuel passes : ℕ} (hf : N + 1 ≤ fuel)
    (hp : 1 ≤ passes) (st : Statics ℝ) {buf : List (Option ℤ)} (hlen : buf.length = r * c) {L : ℕ} (hL : (r - 1) * (c - 1) ≤ L)
    {n : ℕ} (Q : (Fin n → Fin r → Fin c → ℕ) → Prop) :
    volume {u : Fin n → Fin L → ℝ | ∃ T : Fin n → Fin r → Fin c → ℕ, (∀ k, Yields x y fuel passes st buf (u k) (T k)) ∧ Q T} ≤
      ENNReal.ofReal ((Nat.card {τ : Fin n → Equiv.Perm (Fin N) // Q fun k => shuffled x y (τ k)} : ℝ) / (N.factorial : ℝ) ^ n) := by
  classical
  set W : Finset (Fin n → Fin r → Fin c → ℕ) :=
    (univ : Finset (Fin n → Equiv.Perm (Fin N))).image (fun τ k => shuffled x y (τ k)) with hW
  have hE : ∀ X : Fin r → Fin c → ℕ, volume {u : Fin L → ℝ | Yields x y fuel passes st buf u X} =
      ENNReal.ofReal ((#{σ : Equiv.Perm (Fin N) | shuffled x y σ = X} : ℝ) / N.factorial) := by
    intro X
    have := Props.patefield_shuffle x y hr hc hx hy hN hf hp st hlen hL X
    simp only [funext_iff, shuffled]
    exact this
  have hT : ∀ T : Fin n → Fin r → Fin c → ℕ, volume {u : Fin n → Fin L → ℝ | (∀ k, Yields x y fuel passes st buf (u k) (T k))} =
      ENNReal.ofReal ((#{τ : Fin n → Equiv.Perm (Fin N) | (fun k => shuffled x y (τ k)) = T} : ℝ) / (N.factorial : ℝ) ^ n) := by
    intro T
    have e : {u : Fin n → Fin L → ℝ | (∀ k, Yields x y fuel passes st buf (u k) (T k))} =
        Set.univ.pi fun k => {u : Fin L → ℝ | Yields x y fuel passes st buf u (T k)} := by
      ext u; simp
    rw [e, volume_pi_pi]
    simp only [hE]
    rw [← ENNReal.ofReal_prod_of_nonneg (fun _ _ => by positivity), Finset.prod_div_distrib]
    have : ({τ : Fin n → Equiv.Perm (Fin N) | (fun k => shuffled x y (τ k)) = T} : Finset _) =
        Fintype.piFinset fun k => ({σ : Equiv.Perm (Fin N) | shuffled x y σ = T k} : Finset _) := by
      ext τ; simp [funext_iff]
    rw [this, Fintype.card_piFinset]
    simp
  have hsub : {u : Fin n → Fin L → ℝ | ∃ T : Fin n → Fin r → Fin c → ℕ, (∀ k, Yields x y fuel passes st buf (u k) (T k)) ∧ Q T} ⊆
      ⋃ T : Fin n → Fin r → Fin c → ℕ, {u | (∀ k, Yields x y fuel passes st buf (u k) (T k)) ∧ Q T} := by
    rintro u ⟨T, hu⟩; exact Set.mem_iUnion.2 ⟨T, hu⟩
  refine (measure_mono hsub).trans ((measure_iUnion_le _).trans ?_)
  have hb : ∀ T : Fin n → Fin r → Fin c → ℕ, volume {u : Fin n → Fin L → ℝ | (∀ k, Yields x y fuel passes st buf (u k) (T k)) ∧ Q T} ≤
      ENNReal.ofReal ((#{τ : Fin n → Equiv.Perm (Fin N) | (fun k => shuffled x y (τ k)) = T ∧ Q T} : ℝ) / (N.factorial : ℝ) ^ n) := by
    intro T
    by_cases hq : Q T
    · simp only [hq, and_true]; exact (hT T).le
    · simp [hq]
  refine (ENNReal.tsum_le_tsum hb).trans ?_
  rw [tsum_eq_sum (s := W), ← ENNReal.ofReal_sum_of_nonneg (fun _ _ => by positivity), ← Finset.sum_div]
  · refine ENNReal.ofReal_le_ofReal (le_of_eq ?_)
    congr 1
    rw [Nat.card_eq_fintype_card, Fintype.card_subtype,
      Finset.card_eq_sum_card_fiberwise (f := fun τ k => shuffled x y (τ k)) (t := W) (fun τ _ => by simp [hW])]
    push_cast
    refine Finset.sum_congr rfl fun T _ => ?_
    congr 2
    ext τ
    simp only [mem_filter, mem_univ, true_and]
    constructor
    · rintro ⟨rfl, h⟩; exact ⟨h, rfl⟩
    · rintro ⟨h, rfl⟩; exact ⟨rfl, h⟩
  · intro T hT'
    have : #{τ : Fin n → Equiv.Perm (Fin N) | (fun k => shuffled x y (τ k)) = T ∧ Q T} = 0 := by
      rw [Finset.card_eq_zero, Finset.filter_eq_empty_iff]
      rintro τ - ⟨rfl, -⟩
      exact hT' (by simp [hW])
    simp [this]

namespace Props

/-- **C69 (end to end).** Records of two variables, the second one shuffled at random (so there is no correlation); `n` data sets from the
fixed-margin sampler, run on independent tapes of independent uniform random numbers in exact arithmetic; any statistic `f` of
the tables.  The probability that the Monte-Carlo method reports a p-value of at most `α` for the shuffled records is at
most `(2 α n + 2) / (n + 1)`. -/
theorem mc_false_alarm_sampler {F : Type} (S : SigNum) (R : SimRun F) (values : Arr2 ℝ) {N r c : ℕ} (x : Fin N → Fin r)
    (y : Fin N → Fin c) (hr : 2 ≤ r) (hc : 2 ≤ c)
    (hx : Function.Surjective x) (hy : Function.Surjective y) (hN : N ≤ 46340) {fuel passes : ℕ} (hf : N + 1 ≤ fuel)
    (hp : 1 ≤ passes) (st : Statics ℝ) {buf : List (Option ℤ)} (hlen : buf.length = r * c) {L : ℕ} (hL : (r - 1) * (c - 1) ≤ L)
    (f : (Fin r → Fin c → ℕ) → ℝ) {n : ℕ} (hn : 0 < n) {α : ℝ} (hα : 0 ≤ α) :
    (∑ σ : Equiv.Perm (Fin N), volume {u : Fin n → Fin L → ℝ | ∃ T : Fin n → Fin r → Fin c → ℕ, (∀ k, Yields x y fuel passes st buf (u k) (T k)) ∧
      Alarm S R values α (Fin.cons (f (shuffled x y σ)) fun k => f (T k))}) / (N.factorial : ENNReal) ≤
      ENNReal.ofReal ((2 * α * n + 2) / (n + 1)) := by
  classical
  have hN0 : (0 : ℝ) < N.factorial := by exact_mod_cast N.factorial_pos
  simp only [alarm_iff S R values hn]
  have h1 : ∀ σ : Equiv.Perm (Fin N), volume {u : Fin n → Fin L → ℝ | ∃ T : Fin n → Fin r → Fin c → ℕ, (∀ k, Yields x y fuel passes st buf (u k) (T k)) ∧
      pAmong (Fin.cons (f (shuffled x y σ)) fun k => f (T k)) 0 ≤ α} ≤
      ENNReal.ofReal ((#{τ : Fin n → Equiv.Perm (Fin N) | pAmong (Fin.cons (f (shuffled x y σ)) fun k => f (shuffled x y (τ k))) 0 ≤ α} : ℝ) /
        (N.factorial : ℝ) ^ n) := by
    intro σ
    have := runs_le x y hr hc hx hy hN hf hp st hlen hL
      (fun T => pAmong (Fin.cons (f (shuffled x y σ)) fun k => f (T k) : Fin (n + 1) → ℝ) 0 ≤ α)
    rwa [Nat.card_eq_fintype_card, Fintype.card_subtype] at this
  have h2 := count_alarm (P := Equiv.Perm (Fin N)) (n := n) (fun σ => f (shuffled x y σ)) hα
  have h3 : Nat.card {w : Fin (n + 1) → Equiv.Perm (Fin N) // pAmong ((fun σ => f (shuffled x y σ)) ∘ w) 0 ≤ α} =
      ∑ σ : Equiv.Perm (Fin N), #{τ : Fin n → Equiv.Perm (Fin N) |
        pAmong (Fin.cons (f (shuffled x y σ)) fun k => f (shuffled x y (τ k)) : Fin (n + 1) → ℝ) 0 ≤ α} := by
    rw [Nat.card_eq_fintype_card, Fintype.card_subtype,
      Finset.card_eq_sum_card_fiberwise (f := fun w : Fin (n + 1) → Equiv.Perm (Fin N) => w 0) (t := univ) (fun _ _ => by simp)]
    refine Finset.sum_congr rfl fun σ _ => ?_
    refine Finset.card_bij (fun w _ => Fin.tail w) (fun w hw => ?_) (fun w hw w' hw' h => ?_) fun τ hτ => ?_
    · simp only [mem_filter, mem_univ, true_and] at hw ⊢
      obtain ⟨hw, rfl⟩ := hw
      convert hw using 2
      funext i
      refine Fin.cases ?_ (fun j => ?_) i <;> simp [Fin.tail]
    · simp only [mem_filter, mem_univ, true_and] at hw hw'
      rw [← Fin.cons_self_tail w, ← Fin.cons_self_tail w', h, hw.2, hw'.2]
    · refine ⟨Fin.cons σ τ, ?_, by simp⟩
      simp only [mem_filter, mem_univ, true_and] at hτ ⊢
      refine ⟨?_, by simp⟩
      convert hτ using 2
      funext i
      refine Fin.cases ?_ (fun j => ?_) i <;> simp
  rw [h3, Fintype.card_perm, Fintype.card_fin] at h2
  refine (ENNReal.div_le_div_right (Finset.sum_le_sum fun σ _ => h1 σ) _).trans ?_
  rw [← ENNReal.ofReal_sum_of_nonneg (fun _ _ => by positivity), ← ENNReal.ofReal_natCast (N.factorial),
    ← ENNReal.ofReal_div_of_pos hN0, ← Finset.sum_div]
  refine ENNReal.ofReal_le_ofReal ?_
  push_cast at h2
  rw [div_div, ← pow_succ, div_le_div_iff₀ (by positivity) (by positivity)]
  linarith

/-- A table of counts as `numpy` array. -/
def countTable {r c : ℕ} (X : Fin r → Fin c → ℕ) : Arr2 ℝ := ⟨r, c, fun i j => (X i j : ℝ)⟩

theorem countTable_transpose {r c : ℕ} (X : Fin r → Fin c → ℕ) (lam : String) :
    getChi2 (countTable X).transpose lam = getChi2 (countTable X) lam := get_chi2_swap _ lam

/-- **C69 (end to end, chi2).** The same for the test statistic of the package: chi2 of the shuffled records against the chi2 values of the
simulated tables, which the sampler's wrapper returns transposed (C37). -/
theorem mc_false_alarm_chi2 {F : Type} (S : SigNum) (R : SimRun F) (values : Arr2 ℝ) {N r c : ℕ} (x : Fin N → Fin r)
    (y : Fin N → Fin c) (hr : 2 ≤ r) (hc : 2 ≤ c)
    (hx : Function.Surjective x) (hy : Function.Surjective y) (hN : N ≤ 46340) {fuel passes : ℕ} (hf : N + 1 ≤ fuel)
    (hp : 1 ≤ passes) (st : Statics ℝ) {buf : List (Option ℤ)} (hlen : buf.length = r * c) {L : ℕ} (hL : (r - 1) * (c - 1) ≤ L)
    {lam : String} {n : ℕ} (hn : 0 < n) {α : ℝ} (hα : 0 ≤ α) :
    (∑ σ : Equiv.Perm (Fin N), volume {u : Fin n → Fin L → ℝ | ∃ T : Fin n → Fin r → Fin c → ℕ, ∃ obs : ℝ, ∃ sims : Fin n → ℝ,
      (∀ k, Yields x y fuel passes st buf (u k) (T k)) ∧ getChi2 (countTable (shuffled x y σ)) lam = .ok obs ∧
      (∀ k, getChi2 (countTable (T k)).transpose lam = .ok (sims k)) ∧ Alarm S R values α (Fin.cons obs sims)}) /
        (N.factorial : ENNReal) ≤
      ENNReal.ofReal ((2 * α * n + 2) / (n + 1)) := by
  let f : (Fin r → Fin c → ℕ) → ℝ := fun X => match getChi2 (countTable X) lam with
    | .ok v => v
    | .error _ => 0
  refine le_trans ?_ (mc_false_alarm_sampler S R values x y hr hc hx hy hN hf hp st hlen hL f hn hα)
  refine ENNReal.div_le_div_right (Finset.sum_le_sum fun σ _ => measure_mono ?_) _
  rintro u ⟨T, obs, sims, h1, h2, h3, h4⟩
  refine ⟨T, h1, ?_⟩
  have e1 : f (shuffled x y σ) = obs := by simp only [f, h2]
  have e2 : (fun k => f (T k)) = sims := by
    funext k
    have := h3 k
    rw [countTable_transpose (T k)] at this
    simp only [f, this]
  rw [e1, e2]
  exact h4

/-- Non-vacuity: six records of two binary variables, 99 simulations, one random number for each of them. -/
example {F : Type} (S : SigNum) (R : SimRun F) (values : Arr2 ℝ) (st : Statics ℝ) :
    (∑ σ : Equiv.Perm (Fin 6), volume {u : Fin 99 → Fin 1 → ℝ | ∃ T : Fin 99 → Fin 2 → Fin 2 → ℕ, ∃ obs : ℝ, ∃ sims : Fin 99 → ℝ,
      (∀ k, Yields (![0, 1, 0, 1, 0, 1] : Fin 6 → Fin 2) ![0, 0, 0, 1, 1, 1] 7 1 st (List.replicate 4 none) (u k) (T k)) ∧
      getChi2 (countTable (shuffled (![0, 1, 0, 1, 0, 1] : Fin 6 → Fin 2) (![0, 0, 0, 1, 1, 1] : Fin 6 → Fin 2) σ)) "pearson" = .ok obs ∧
      (∀ k, getChi2 (countTable (T k)).transpose "pearson" = .ok (sims k)) ∧ Alarm S R values (1 / 20) (Fin.cons obs sims)}) /
        (Nat.factorial 6 : ENNReal) ≤ ENNReal.ofReal (119 / 1000) := by
  have h := mc_false_alarm_chi2 S R values (![0, 1, 0, 1, 0, 1] : Fin 6 → Fin 2) ![0, 0, 0, 1, 1, 1] le_rfl le_rfl (by decide) (by decide)
    (by norm_num) (fuel := 7) (passes := 1) le_rfl le_rfl st (buf := List.replicate 4 none) rfl (L := 1) (by norm_num)
    (lam := "pearson") (n := 99) (by norm_num) (α := 1 / 20) (by norm_num)
  norm_num at h ⊢
  exact h

end Props

end Phik
