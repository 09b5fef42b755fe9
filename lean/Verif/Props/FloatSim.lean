import Verif.Lemmas.FloatSim
import Verif.Props.FloatStatsWitness
import Verif.Props.SimPatefield

/-! # Property C91: the number of simulated records in floating point arithmetic -/

namespace Phik.Props

open Spec

variable {F : Type} {fl : ℚ → ℚ} {order : SumSite → List ℚ → SumTree} {ords : SimOrders} {r c : ℕ}

/-! ### the weights the records are drawn with -/

/-- The table handed to `sim_data`: the computed expectations, or the data with `alt_hypothesis=True`. -/
def simWeights (fl : ℚ → ℚ) (order : SumSite → List ℚ → SumTree) (T : Fin r → Fin c → ℕ) (alt : Bool) (i : Fin r) (j : Fin c) : ℚ :=
  if alt then T i j else flExpected fl order ⟨r, c, fun i j => (T i j : ℚ)⟩ i j

/-- The same in exact arithmetic. -/
def exactWeights (T : Fin r → Fin c → ℕ) (alt : Bool) (i : Fin r) (j : Fin c) : ℚ :=
  if alt then T i j else exactE T i j

theorem flSimulated_eq (hfl : RelRounding fl) (ho : AddsAll order) (ords : SimOrders) (env : SimEnv F) (d : Draws F) (T : Fin r → Fin c → ℕ)
    (hpos : 0 < ∑ i, ∑ j, T i j) (hN : ∑ i, ∑ j, T i j ≤ 2 ^ 39) (method : String) (alt : Bool) :
    flSimulated fl order ords env d ⟨r, c, fun i j => (T i j : ℚ)⟩ method alt = flSimData fl ords env d ⟨r, c, simWeights fl order T alt⟩ method := by
  unfold flSimulated simWeights
  cases alt with
  | true => simp
  | false =>
    have := flTotal_eq hfl ho .total T (hN.trans (by norm_num))
    simp only [Bool.false_eq_true, if_false]
    erw [if_neg]
    erw [this]
    exact_mod_cast hpos.ne'

theorem exactE_transpose (T : Fin r → Fin c → ℕ) (i : Fin r) (j : Fin c) : exactE (fun j i => T i j) j i = exactE T i j := by
  unfold exactE
  rw [mul_comm, Finset.sum_comm]

section
variable (hfl : RelRounding fl) (ho : AddsAll order) (T : Fin r → Fin c → ℕ) (hpos : 0 < ∑ i, ∑ j, T i j) (hN : ∑ i, ∑ j, T i j ≤ 2 ^ 39) (alt : Bool)
include hfl ho hpos hN

theorem simWeights_bounds (i : Fin r) (j : Fin c) :
    0 ≤ exactWeights T alt i j ∧ (1 - uRound) ^ 2 * exactWeights T alt i j ≤ simWeights fl order T alt i j ∧
      simWeights fl order T alt i j ≤ (1 + uRound) ^ 2 * exactWeights T alt i j ∧ fl (simWeights fl order T alt i j) = simWeights fl order T alt i j := by
  cases alt with
  | true =>
    simp only [exactWeights, simWeights, if_true]
    have h0 : (0 : ℚ) ≤ T i j := Nat.cast_nonneg _
    refine ⟨h0, ?_, ?_, ?_⟩
    · norm_num; linarith
    · norm_num; linarith
    · have hT : T i j ≤ 2 ^ 39 := by
        refine le_trans ?_ hN
        refine le_trans ?_ (marg_le T i j).1
        exact Finset.single_le_sum (f := fun j => T i j) (fun _ _ => Nat.zero_le _) (Finset.mem_univ j)
      have := hfl.int (T i j : ℤ) (by
        rw [abs_of_nonneg (by positivity)]
        have : ((T i j : ℕ) : ℤ) ≤ 2 ^ 39 := by exact_mod_cast hT
        linarith)
      exact_mod_cast this
  | false =>
    simp only [exactWeights, simWeights, Bool.false_eq_true, if_false]
    have hb := flExpected_bounds hfl ho T (hN.trans (by norm_num)) hpos i j
    refine ⟨by unfold exactE; positivity, hb.1, hb.2, ?_⟩
    unfold flExpected
    exact hfl.idem _

theorem exactWeights_total : ∑ i, ∑ j, exactWeights T alt i j = (∑ i, ∑ j, T i j : ℕ) := by
  cases alt with
  | true => simp [exactWeights]
  | false => simpa [exactWeights] using exactE_sum T hpos

theorem exactWeights_row (i : Fin r) : ∑ j, exactWeights T alt i j = (∑ j, T i j : ℕ) := by
  cases alt with
  | true => simp [exactWeights]
  | false => simpa [exactWeights] using exactE_rows T hpos i

theorem exactWeights_col (j : Fin c) : ∑ i, exactWeights T alt i j = (∑ i, T i j : ℕ) := by
  cases alt with
  | true => simp [exactWeights]
  | false =>
    have := exactE_rows (fun j i => T i j) (by rw [Finset.sum_comm]; exact hpos) j
    simp only [exactE_transpose] at this
    simpa [exactWeights] using this

end

/-! ### rounded sums of weights -/

/-- The computed sum of numbers that are within two roundings of numbers with the whole sum `n`. -/
theorem npSum_near (hfl : RelRounding fl) {ord : List ℚ → SumTree} {l : List ℚ} (ho : GoodOrder ord l.length) (h0 : ∀ x ∈ l, 0 ≤ x) {n : ℕ}
    (hn : n ≤ 2 ^ 39) (h1 : (1 - uRound) ^ 2 * n ≤ l.sum) (h2 : l.sum ≤ (1 + uRound) ^ 2 * n) :
    |npSum fl ord l - n| < 1 / 2 := by
  obtain ⟨b1, b2⟩ := npSum_bounds hfl ho h0
  have hn0 : (0 : ℚ) ≤ n := Nat.cast_nonneg n
  have hn' : (n : ℚ) ≤ 549755813888 := by exact_mod_cast (hn.trans (by norm_num))
  have u1 := pow_upper_rat (m := 4096) (by norm_num)
  have u2 := pow_lower_rat 4096
  rw [pow_add] at u1 u2
  rw [Nat.cast_ofNat] at u1 u2
  have p1 : 0 ≤ (1 + uRound) ^ 4096 := pow_nonneg (by norm_num) _
  have p2 : 0 ≤ (1 - uRound) ^ 4096 := pow_nonneg (by norm_num) _
  generalize (1 + uRound) ^ 4096 = p at *
  generalize (1 - uRound) ^ 4096 = q at *
  have g1 := mul_le_mul_of_nonneg_left h1 p2
  have g2 := mul_le_mul_of_nonneg_left h2 p1
  have g3 := mul_le_mul_of_nonneg_right u1 hn0
  have g4 := mul_le_mul_of_nonneg_right u2 hn0
  rw [mul_assoc] at g3 g4
  simp only [uRound] at *
  rw [abs_lt]
  constructor <;> linarith

theorem floor_near {x : ℚ} {n : ℕ} (h : |x - n| < 1 / 2) : ⌊x⌋₊ = n ∨ ⌊x⌋₊ + 1 = n := by
  obtain ⟨h1, h2⟩ := abs_lt.1 h
  rcases Nat.eq_zero_or_pos n with rfl | hn
  · left
    rw [Nat.floor_eq_zero]
    push_cast at h2
    linarith
  · have hn' : (1 : ℚ) ≤ n := by exact_mod_cast hn
    have hx : 0 ≤ x := by linarith
    by_cases hl : (n : ℚ) ≤ x
    · left
      rw [Nat.floor_eq_iff hx]
      exact ⟨hl, by linarith⟩
    · right
      obtain ⟨m, rfl⟩ : ∃ m, n = m + 1 := ⟨n - 1, by omega⟩
      push_cast at *
      congr 1
      rw [Nat.floor_eq_iff hx]
      exact ⟨by linarith, by push Not at hl; linarith⟩

theorem rhe_near {x : ℚ} {n : ℕ} (h : |x - n| < 1 / 2) : rhe x = n := by
  have h1 := rhe_spec x
  obtain ⟨a1, a2⟩ := abs_lt.1 h
  obtain ⟨b1, b2⟩ := abs_le.1 h1
  have c1 : ((rhe x : ℤ) : ℚ) < ((n + 1 : ℤ) : ℚ) := by push_cast; linarith
  have c2 : ((n - 1 : ℤ) : ℚ) < ((rhe x : ℤ) : ℚ) := by push_cast; linarith
  have d1 : rhe x < n + 1 := by exact_mod_cast c1
  have d2 : (n : ℤ) - 1 < rhe x := by exact_mod_cast c2
  omega

theorem sum_getD {out : List ℕ} {m : ℕ} (h : out.length = m) : ∑ j : Fin m, ((out.getD j 0 : ℕ) : ℤ) = (out.sum : ℤ) := by
  subst h
  rw [← Nat.cast_sum]
  congr 1
  conv_rhs => rw [← List.ofFn_getElem (xs := out), List.sum_ofFn]
  exact Finset.sum_congr rfl fun j _ => by simp [List.getD]

theorem GoodOrder.mono {ord : List ℚ → SumTree} {m n : ℕ} (h : GoodOrder ord n) (hmn : m ≤ n) : GoodOrder ord m :=
  ⟨h.perm, fun l hl hlen => h.depth l hl (hlen.trans hmn)⟩

/-- One draw from the weights `l`, which are within two roundings of exact weights `e` with the whole sum `n`. -/
theorem draw_records (hfl : RelRounding fl) {ord : List ℚ → SumTree} {binom : ℕ → ℕ → ℝ → ℕ} (h1 : ∀ j n p, binom j n p ≤ n)
    (h2 : ∀ j n, binom j n 0 = 0) {l : List ℚ} (ho : GoodOrder ord l.length) (hlen : l.length ≤ 2 ^ 26) (h0 : ∀ x ∈ l, 0 ≤ x) (hrep : ∀ x ∈ l, fl x = x)
    {n : ℕ} (hn0 : 0 < n) (hn : n ≤ 2 ^ 39) (b1 : (1 - uRound) ^ 2 * n ≤ l.sum) (b2 : l.sum ≤ (1 + uRound) ^ 2 * n) :
    ∃ out, flSimVec fl ord binom l 0 = .ok out ∧ out.length = l.length ∧ (out.sum = n ∨ out.sum + 1 = n) ∧
      ((∀ x ∈ l, ∃ k : ℕ, x = k) → l.sum = n → out.sum = n) ∧ ∀ k, k + 1 < l.length → l[k]? = some 0 → out.getD k 0 = 0 := by
  have hpos : 0 < l.sum := lt_of_lt_of_le (mul_pos (by norm_num) (by exact_mod_cast hn0)) b1
  obtain ⟨out, g1, g2, g3, g4⟩ := flSimVec_spec hfl h1 h2 ho (hlen.trans (by norm_num)) h0 hrep hpos
  refine ⟨out, g1, g2, ?_, fun hi hs => ?_, g4⟩
  · rw [g3]
    exact floor_near (npSum_near hfl ho h0 hn b1 b2)
  · rw [g3, npSum_int hfl ho hi, hs, Nat.floor_natCast]
    rw [hs]
    exact_mod_cast hn.trans (by norm_num)

/-! ### the theorems -/

/-- **C91, 'multinominal'.** For every table of at most 2^39 records and 2^26 cells, every rounded arithmetic, every order of the additions and
all random draws: the simulation of a data set never fails; it returns a table of the same shape without negative entries that has either as many
records as the data or exactly one less, and as many with `alt_hypothesis=True`. A cell of expectation 0 gets no record unless it is the last. -/
theorem float_multinominal_records (hfl : RelRounding fl) (ho : AddsAll order) (hos : GoodOrders ords (r * c)) (env : SimEnv F) {d : Draws F}
    (hd : GoodDraws d) (T : Fin r → Fin c → ℕ) (hpos : 0 < ∑ i, ∑ j, T i j) (hN : ∑ i, ∑ j, T i j ≤ 2 ^ 39) (hs : r * c ≤ 2 ^ 26) (alt : Bool) :
    ∃ v : Fin r → Fin c → ℤ, flSimulated fl order ords env d ⟨r, c, fun i j => (T i j : ℚ)⟩ "multinominal" alt = .ok ⟨r, c, v⟩ ∧
      (∀ i j, 0 ≤ v i j) ∧
      (∑ i, ∑ j, v i j = ∑ i, ∑ j, (T i j : ℤ) ∨ ∑ i, ∑ j, v i j = ∑ i, ∑ j, (T i j : ℤ) - 1) ∧
      (alt = true → ∑ i, ∑ j, v i j = ∑ i, ∑ j, (T i j : ℤ)) ∧
      (∀ (i : Fin r) (j : Fin c), i.val + 1 < r ∨ j.val + 1 < c →
        (if alt = true then T i j = 0 else (∀ j', T i j' = 0) ∨ ∀ i', T i' j = 0) → v i j = 0) := by
  rw [flSimulated_eq hfl ho ords env d T hpos hN]
  have hw := simWeights_bounds hfl ho T hpos hN alt
  set W := simWeights fl order T alt with hW
  have htot := exactWeights_total hfl ho T hpos hN alt
  have hsum : ((⟨r, c, W⟩ : Arr2 ℚ).ravel).sum = ∑ i, ∑ j, W i j := ravel_sum' _
  have hW0 : ∀ i j, 0 ≤ W i j := fun i j => le_trans (mul_nonneg (by norm_num) (hw i j).1) (hw i j).2.1
  obtain ⟨out, g1, g2, g3, g4, g5⟩ := draw_records (l := (⟨r, c, W⟩ : Arr2 ℚ).ravel) (binom := d.binom 0) hfl (hd.le 0) (hd.zero 0)
    (by rw [ravel_length]; exact hos.all) (by rw [ravel_length]; exact hs)
    (fun x hx => by obtain ⟨i, j, rfl⟩ := mem_ravel.1 hx; exact hW0 i j)
    (fun x hx => by obtain ⟨i, j, rfl⟩ := mem_ravel.1 hx; exact (hw i j).2.2.2) hpos hN
    (by
      rw [hsum, ← htot]
      simp only [Finset.mul_sum]
      exact Finset.sum_le_sum fun i _ => Finset.sum_le_sum fun j _ => (hw i j).2.1)
    (by
      rw [hsum, ← htot]
      simp only [Finset.mul_sum]
      exact Finset.sum_le_sum fun i _ => Finset.sum_le_sum fun j _ => (hw i j).2.2.1)
  rw [ravel_length] at g2 g5
  have hv : ∑ i : Fin r, ∑ j : Fin c, ((out.getD (i.val * c + j.val) 0 : ℕ) : ℤ) = (out.sum : ℤ) := sum_reshape g2
  have hT : ((∑ i, ∑ j, T i j : ℕ) : ℤ) = ∑ i, ∑ j, (T i j : ℤ) := by push_cast; rfl
  refine ⟨fun i j => ((out.getD (i.val * c + j.val) 0 : ℕ) : ℤ), ?_, fun i j => Int.natCast_nonneg _, ?_, fun ha => ?_, fun i j hl hz => ?_⟩
  · unfold flSimData flSim2dData
    rw [if_pos rfl, g1]; rfl
  · rw [hv, ← hT]
    omega
  · rw [hv, ← hT, g4]
    · intro x hx
      obtain ⟨i, j, rfl⟩ := mem_ravel.1 hx
      exact ⟨T i j, by simp [hW, simWeights, ha]⟩
    · rw [hsum]
      simp [hW, simWeights, ha]
  · have hr := ravel_get (⟨r, c, W⟩ : Arr2 ℚ) i j
    have hlt : i.val * c + j.val + 1 < r * c := by
      have h1 := i.isLt
      have h2 := j.isLt
      rcases hl with hl | hl
      · calc i.val * c + j.val + 1 ≤ i.val * c + c := by omega
          _ = (i.val + 1) * c := by ring
          _ < (i.val + 1) * c + c := by omega
          _ = (i.val + 2) * c := by ring
          _ ≤ r * c := Nat.mul_le_mul_right _ (by omega)
      · calc i.val * c + j.val + 1 < i.val * c + c := by omega
          _ = (i.val + 1) * c := by ring
          _ ≤ r * c := Nat.mul_le_mul_right _ (by omega)
    have hz0 : exactWeights T alt i j = 0 := by
      cases alt with
      | true => simpa [exactWeights] using hz
      | false =>
        simp only [Bool.false_eq_true, if_false] at hz
        simp only [exactWeights, Bool.false_eq_true, if_false, exactE]
        rcases hz with hz | hz <;> simp [hz]
    have hWz : W i j = 0 := by
      have := hw i j
      rw [hz0] at this
      linarith [this.2.1, this.2.2.1]
    have := g5 (i.val * c + j.val) hlt (by rw [hr]; exact congrArg some hWz)
    change ((out.getD (i.val * c + j.val) 0 : ℕ) : ℤ) = 0
    rw [this]; rfl

/-- Rows of a table of weights, drawn separately. -/
theorem flSimRows_records (hfl : RelRounding fl) {ord : ℕ → List ℚ → SumTree} {d : Draws F} (hd : GoodDraws d) {m n : ℕ} {W X : Fin m → Fin n → ℚ}
    (hos : ∀ i, GoodOrder (ord i) n) (hs : n ≤ 2 ^ 26) (h0 : ∀ i j, 0 ≤ X i j) (b1 : ∀ i j, (1 - uRound) ^ 2 * X i j ≤ W i j)
    (b2 : ∀ i j, W i j ≤ (1 + uRound) ^ 2 * X i j) (hrep : ∀ i j, fl (W i j) = W i j) {R : Fin m → ℕ} (hR : ∀ i, ∑ j, X i j = R i)
    (hN : ∀ i, R i ≤ 2 ^ 39) :
    ((∀ i, 0 < R i) → ∃ v : Fin m → Fin n → ℤ, flSimRows fl ord d.binom ⟨m, n, W⟩ = .ok ⟨m, n, v⟩ ∧ (∀ i j, 0 ≤ v i j) ∧
      (∀ i, ∑ j, v i j = R i ∨ ∑ j, v i j = R i - 1) ∧
      (∀ i, (∀ j, ∃ k : ℕ, W i j = k) → ∑ j, W i j = R i → ∑ j, v i j = R i)) ∧
    ((∃ i, R i = 0) → flSimRows fl ord d.binom ⟨m, n, W⟩ = .error .value) := by
  have hW0 : ∀ i j, 0 ≤ W i j := fun i j => le_trans (mul_nonneg (by norm_num) (h0 i j)) (b1 i j)
  have rs : ∀ (w : Fin n → ℚ), ((List.finRange n).map w).sum = ∑ j, w j := fun w => by rw [← List.ofFn_eq_map, List.sum_ofFn]
  have hdraw : ∀ i, 0 < R i → ∃ out, flSimVec fl (ord i.val) (d.binom i.val) ((List.finRange n).map (W i)) 0 = .ok out ∧
      out.length = n ∧ (out.sum = R i ∨ out.sum + 1 = R i) ∧ ((∀ j, ∃ k : ℕ, W i j = k) → ∑ j, W i j = R i → out.sum = R i) := by
    intro i hi
    obtain ⟨out, g1, g2, g3, g4, -⟩ := draw_records (ord := ord i.val) (l := (List.finRange n).map (W i)) (binom := d.binom i.val) hfl (hd.le _) (hd.zero _)
      (by rw [List.length_map, List.length_finRange]; exact hos i) (by rw [List.length_map, List.length_finRange]; exact hs)
      (fun x hx => by obtain ⟨j, -, rfl⟩ := List.mem_map.1 hx; exact hW0 i j)
      (fun x hx => by obtain ⟨j, -, rfl⟩ := List.mem_map.1 hx; exact hrep i j) hi (hN i)
      (by rw [rs, ← hR, Finset.mul_sum]; exact Finset.sum_le_sum fun j _ => b1 i j)
      (by rw [rs, ← hR, Finset.mul_sum]; exact Finset.sum_le_sum fun j _ => b2 i j)
    rw [List.length_map, List.length_finRange] at g2
    refine ⟨out, g1, g2, g3, fun h h' => g4 (fun x hx => ?_) (by rw [rs]; exact h')⟩
    obtain ⟨j, -, rfl⟩ := List.mem_map.1 hx
    exact h j
  constructor
  · intro hp
    choose out h1 h2 h3 h4 using fun i => hdraw i (hp i)
    have hsum : ∀ i, ∑ j : Fin n, (((out i).getD j 0 : ℕ) : ℤ) = ((out i).sum : ℤ) := fun i => sum_getD (h2 i)
    refine ⟨fun i j => ((out i).getD j 0 : ℕ), ?_, fun i j => Int.natCast_nonneg _, fun i => ?_, fun i hk hs => ?_⟩
    · unfold flSimRows
      rw [mapM_ok_all (g := out) fun i _ => h1 i]
      simp only [bind, Except.bind, pure, Except.pure, Except.ok.injEq, Arr2.mk.injEq, heq_eq_eq, true_and]
      funext i j
      simp [List.getD]
    · have := h3 i
      rw [hsum]
      omega
    · rw [hsum, h4 i hk hs]
  · rintro ⟨i, hi⟩
    unfold flSimRows
    rw [mapM_error_of (e := .value)]
    · rfl
    · intro k _
      rcases Nat.eq_zero_or_pos (R k) with hk | hk
      · right
        have hz : ∀ x ∈ (List.finRange n).map (W k), x = 0 := by
          intro x hx
          obtain ⟨j, -, rfl⟩ := List.mem_map.1 hx
          have hX : X k j = 0 := by
            have := hR k
            rw [hk, Nat.cast_zero, Finset.sum_eq_zero_iff_of_nonneg fun j _ => h0 k j] at this
            exact this j (Finset.mem_univ j)
          have a := b1 k j
          have b := b2 k j
          rw [hX] at a b
          linarith
        have hs0 : npSum fl (ord k.val) ((List.finRange n).map (W k)) = 0 := by
          have hl : ((List.finRange n).map (W k)).sum = 0 := List.sum_eq_zero hz
          rw [npSum_int hfl (by rw [List.length_map, List.length_finRange]; exact hos k), hl]
          · intro x hx; exact ⟨0, by rw [hz x hx]; simp⟩
          · rw [hl]; norm_num
        unfold flSimVec
        rw [hs0]
        simp
      · left
        obtain ⟨out, g, -⟩ := hdraw k hk
        exact ⟨out, g⟩
    · refine ⟨i, List.mem_finRange i, ?_⟩
      have hz : ∀ x ∈ (List.finRange n).map (W i), x = 0 := by
        intro x hx
        obtain ⟨j, -, rfl⟩ := List.mem_map.1 hx
        have hX : X i j = 0 := by
          have := hR i
          rw [hi, Nat.cast_zero, Finset.sum_eq_zero_iff_of_nonneg fun j _ => h0 i j] at this
          exact this j (Finset.mem_univ j)
        have a := b1 i j
        have b := b2 i j
        rw [hX] at a b
        linarith
      have hs0 : npSum fl (ord i.val) ((List.finRange n).map (W i)) = 0 := by
        have hl : ((List.finRange n).map (W i)).sum = 0 := List.sum_eq_zero hz
        rw [npSum_int hfl (by rw [List.length_map, List.length_finRange]; exact hos i), hl]
        · intro x hx; exact ⟨0, by rw [hz x hx]; simp⟩
        · rw [hl]; norm_num
      change flSimVec fl (ord i.val) (d.binom i.val) ((List.finRange n).map (W i)) 0 = _
      unfold flSimVec
      rw [hs0]
      simp

theorem le_prod_left {r c : ℕ} (T : Fin r → Fin c → ℕ) (hpos : 0 < ∑ i, ∑ j, T i j) : r ≤ r * c ∧ c ≤ r * c := by
  have hr : 0 < r := by
    rcases Nat.eq_zero_or_pos r with rfl | h
    · simp at hpos
    · exact h
  have hc : 0 < c := by
    rcases Nat.eq_zero_or_pos c with rfl | h
    · simp at hpos
    · exact h
  exact ⟨Nat.le_mul_of_pos_right _ hc, Nat.le_mul_of_pos_left _ hr⟩

/-- **C91, 'col_product_multinominal'.** Every row total of the result is that of the data or one less, exactly that of the data with
`alt_hypothesis=True`; a table with an empty row is refused. -/
theorem float_col_product_records (hfl : RelRounding fl) (ho : AddsAll order) (hos : GoodOrders ords (r * c)) (env : SimEnv F) {d : Draws F}
    (hd : GoodDraws d) (T : Fin r → Fin c → ℕ) (hpos : 0 < ∑ i, ∑ j, T i j) (hN : ∑ i, ∑ j, T i j ≤ 2 ^ 39) (hs : r * c ≤ 2 ^ 26) (alt : Bool) :
    ((∀ i, ∃ j, T i j ≠ 0) → ∃ v : Fin r → Fin c → ℤ,
      flSimulated fl order ords env d ⟨r, c, fun i j => (T i j : ℚ)⟩ "col_product_multinominal" alt = .ok ⟨r, c, v⟩ ∧ (∀ i j, 0 ≤ v i j) ∧
      (∀ i, ∑ j, v i j = ∑ j, (T i j : ℤ) ∨ ∑ j, v i j = ∑ j, (T i j : ℤ) - 1) ∧ (alt = true → ∀ i, ∑ j, v i j = ∑ j, (T i j : ℤ))) ∧
    ((∃ i, ∀ j, T i j = 0) → flSimulated fl order ords env d ⟨r, c, fun i j => (T i j : ℚ)⟩ "col_product_multinominal" alt = .error .value) := by
  rw [flSimulated_eq hfl ho ords env d T hpos hN]
  have hw := simWeights_bounds hfl ho T hpos hN alt
  have hle := le_prod_left T hpos
  have key := flSimRows_records (ord := ords.row) hfl hd (fun i => GoodOrder.mono (hos.row i) hle.2) (hle.2.trans hs) (fun i j => (hw i j).1)
    (fun i j => (hw i j).2.1) (fun i j => (hw i j).2.2.1) (fun i j => (hw i j).2.2.2) (fun i => exactWeights_row hfl ho T hpos hN alt i)
    (fun i => by
      refine le_trans ?_ hN
      exact Finset.single_le_sum (f := fun i => ∑ j', T i j') (fun _ _ => Nat.zero_le _) (Finset.mem_univ i))
  have e : flSimData fl ords env d ⟨r, c, simWeights fl order T alt⟩ "col_product_multinominal" = flSimRows fl ords.row d.binom ⟨r, c, simWeights fl order T alt⟩ := by
    simp [flSimData, flSimProduct]
  rw [e]
  constructor
  · intro h
    obtain ⟨v, g1, g2, g3, g4⟩ := key.1 fun i => by
      obtain ⟨j, hj⟩ := h i
      exact lt_of_lt_of_le (Nat.pos_of_ne_zero hj) (Finset.single_le_sum (f := fun j => T i j) (fun _ _ => Nat.zero_le _) (Finset.mem_univ j))
    refine ⟨v, g1, g2, fun i => ?_, fun ha i => ?_⟩
    · simpa using g3 i
    · have := g4 i (fun j => ⟨T i j, by simp [simWeights, ha]⟩) (by simp [simWeights, ha])
      simpa using this
  · rintro ⟨i, hi⟩
    exact key.2 ⟨i, by simp [hi]⟩

/-- **C91, 'row_product_multinominal'.** Every column total of the result is that of the data or one less, exactly that of the data with
`alt_hypothesis=True`; a table with an empty column is refused. -/
theorem float_row_product_records (hfl : RelRounding fl) (ho : AddsAll order) (hos : GoodOrders ords (r * c)) (env : SimEnv F) {d : Draws F}
    (hd : GoodDraws d) (T : Fin r → Fin c → ℕ) (hpos : 0 < ∑ i, ∑ j, T i j) (hN : ∑ i, ∑ j, T i j ≤ 2 ^ 39) (hs : r * c ≤ 2 ^ 26) (alt : Bool) :
    ((∀ j, ∃ i, T i j ≠ 0) → ∃ v : Fin r → Fin c → ℤ,
      flSimulated fl order ords env d ⟨r, c, fun i j => (T i j : ℚ)⟩ "row_product_multinominal" alt = .ok ⟨r, c, v⟩ ∧ (∀ i j, 0 ≤ v i j) ∧
      (∀ j, ∑ i, v i j = ∑ i, (T i j : ℤ) ∨ ∑ i, v i j = ∑ i, (T i j : ℤ) - 1) ∧ (alt = true → ∀ j, ∑ i, v i j = ∑ i, (T i j : ℤ))) ∧
    ((∃ j, ∀ i, T i j = 0) → flSimulated fl order ords env d ⟨r, c, fun i j => (T i j : ℚ)⟩ "row_product_multinominal" alt = .error .value) := by
  rw [flSimulated_eq hfl ho ords env d T hpos hN]
  have hw := simWeights_bounds hfl ho T hpos hN alt
  have hle := le_prod_left T hpos
  have key := flSimRows_records (ord := ords.col) (W := fun j i => simWeights fl order T alt i j) hfl hd (fun i => GoodOrder.mono (hos.col i) hle.1) (hle.1.trans hs) (fun j i => (hw i j).1)
    (fun j i => (hw i j).2.1) (fun j i => (hw i j).2.2.1) (fun j i => (hw i j).2.2.2) (fun j => exactWeights_col hfl ho T hpos hN alt j)
    (fun j => by
      refine le_trans ?_ hN
      rw [Finset.sum_comm (f := T)]
      exact Finset.single_le_sum (f := fun j => ∑ i', T i' j) (fun _ _ => Nat.zero_le _) (Finset.mem_univ j))
  have e : flSimData fl ords env d ⟨r, c, simWeights fl order T alt⟩ "row_product_multinominal" = (do
      let t ← flSimRows fl ords.col d.binom ⟨c, r, fun j i => simWeights fl order T alt i j⟩
      pure t.transpose) := by
    simp [flSimData, flSimProduct, Arr2.transpose]
  rw [e]
  constructor
  · intro h
    obtain ⟨v, g1, g2, g3, g4⟩ := key.1 fun j => by
      obtain ⟨i, hi⟩ := h j
      exact lt_of_lt_of_le (Nat.pos_of_ne_zero hi) (Finset.single_le_sum (f := fun i => T i j) (fun _ _ => Nat.zero_le _) (Finset.mem_univ i))
    refine ⟨fun i j => v j i, by rw [g1]; rfl, fun i j => g2 j i, fun j => ?_, fun ha j => ?_⟩
    · simpa using g3 j
    · have := g4 j (fun i => ⟨T i j, by simp [simWeights, ha]⟩) (by simp [simWeights, ha])
      simpa using this
  · rintro ⟨j, hj⟩
    rw [key.2 ⟨j, by simp [hj]⟩]
    rfl

/-- **C91, 'hypergeometric'.** The margins handed to the sampler are exactly those of the data: rounding to the nearest integer repairs the
rounding errors of the sums, so that the method returns what it returns in exact arithmetic. -/
theorem float_hypergeometric (hfl : RelRounding fl) (ho : AddsAll order) (hos : GoodOrders ords (r * c)) (env : SimEnv F) (d : Draws F)
    (T : Fin r → Fin c → ℕ) (hpos : 0 < ∑ i, ∑ j, T i j) (hN : ∑ i, ∑ j, T i j ≤ 2 ^ 39) (alt : Bool) :
    flSimulated fl order ords env d ⟨r, c, fun i j => (T i j : ℚ)⟩ "hypergeometric" alt =
      simPatefield env d ⟨r, c, fun i j => (T i j : ℝ)⟩ none := by
  rw [flSimulated_eq hfl ho ords env d T hpos hN]
  have hw := simWeights_bounds hfl ho T hpos hN alt
  have hle := le_prod_left T hpos
  have hW0 : ∀ i j, 0 ≤ simWeights fl order T alt i j := fun i j => le_trans (mul_nonneg (by norm_num) (hw i j).1) (hw i j).2.1
  have hrow : ∀ i : Fin r, rhe (npSum fl (ords.row i.val) ((List.finRange c).map (simWeights fl order T alt i))) = rint (∑ j, (T i j : ℝ)) := by
    intro i
    have hlen : ((List.finRange c).map (simWeights fl order T alt i)).length = c := by simp
    have hsum : ((List.finRange c).map (simWeights fl order T alt i)).sum = ∑ j, simWeights fl order T alt i j := by
      rw [← List.ofFn_eq_map, List.sum_ofFn]
    rw [rhe_near (n := ∑ j, T i j), ← Nat.cast_sum, rint_nat]
    apply npSum_near hfl (by rw [hlen]; exact GoodOrder.mono (hos.row i) hle.2)
    · intro x hx; obtain ⟨j, -, rfl⟩ := List.mem_map.1 hx; exact hW0 i j
    · refine le_trans ?_ hN
      exact Finset.single_le_sum (f := fun i => ∑ j', T i j') (fun _ _ => Nat.zero_le _) (Finset.mem_univ i)
    · rw [hsum, ← exactWeights_row hfl ho T hpos hN alt, Finset.mul_sum]; exact Finset.sum_le_sum fun j _ => (hw i j).2.1
    · rw [hsum, ← exactWeights_row hfl ho T hpos hN alt, Finset.mul_sum]; exact Finset.sum_le_sum fun j _ => (hw i j).2.2.1
  have hcol : ∀ j : Fin c, rhe (npSum fl (ords.col j.val) ((List.finRange r).map fun i => simWeights fl order T alt i j)) = rint (∑ i, (T i j : ℝ)) := by
    intro j
    have hlen : ((List.finRange r).map fun i => simWeights fl order T alt i j).length = r := by simp
    have hsum : ((List.finRange r).map fun i => simWeights fl order T alt i j).sum = ∑ i, simWeights fl order T alt i j := by
      rw [← List.ofFn_eq_map, List.sum_ofFn]
    rw [rhe_near (n := ∑ i, T i j), ← Nat.cast_sum, rint_nat]
    apply npSum_near hfl (by rw [hlen]; exact GoodOrder.mono (hos.col j) hle.1)
    · intro x hx; obtain ⟨i, -, rfl⟩ := List.mem_map.1 hx; exact hW0 i j
    · refine le_trans ?_ hN
      rw [Finset.sum_comm (f := T)]
      exact Finset.single_le_sum (f := fun j => ∑ i', T i' j) (fun _ _ => Nat.zero_le _) (Finset.mem_univ j)
    · rw [hsum, ← exactWeights_col hfl ho T hpos hN alt, Finset.mul_sum]; exact Finset.sum_le_sum fun i _ => (hw i j).2.1
    · rw [hsum, ← exactWeights_col hfl ho T hpos hN alt, Finset.mul_sum]; exact Finset.sum_le_sum fun i _ => (hw i j).2.2.1
  unfold flSimData
  rw [if_neg (by decide), if_pos rfl]
  unfold flSimPatefield simPatefield
  simp only [Arr2.rowSum, Arr2.colSum, hrow, hcol]

/-! ### what goes wrong -/

/-- The number of records is the truncated computed sum of the weights. -/
theorem float_multinominal_total (hfl : RelRounding fl) (ho : AddsAll order) (hos : GoodOrders ords (r * c)) (env : SimEnv F) {d : Draws F}
    (hd : GoodDraws d) (T : Fin r → Fin c → ℕ) (hpos : 0 < ∑ i, ∑ j, T i j) (hN : ∑ i, ∑ j, T i j ≤ 2 ^ 39) (hs : r * c ≤ 2 ^ 26) (alt : Bool) :
    ∃ v : Fin r → Fin c → ℤ, flSimulated fl order ords env d ⟨r, c, fun i j => (T i j : ℚ)⟩ "multinominal" alt = .ok ⟨r, c, v⟩ ∧
      ∑ i, ∑ j, v i j = (⌊npSum fl ords.all (⟨r, c, simWeights fl order T alt⟩ : Arr2 ℚ).ravel⌋₊ : ℕ) := by
  rw [flSimulated_eq hfl ho ords env d T hpos hN]
  have hw := simWeights_bounds hfl ho T hpos hN alt
  have htot := exactWeights_total hfl ho T hpos hN alt
  have hsum : ((⟨r, c, simWeights fl order T alt⟩ : Arr2 ℚ).ravel).sum = ∑ i, ∑ j, simWeights fl order T alt i j := ravel_sum' _
  obtain ⟨out, g1, g2, g3, -⟩ := flSimVec_spec (l := (⟨r, c, simWeights fl order T alt⟩ : Arr2 ℚ).ravel) (binom := d.binom 0) hfl (hd.le 0) (hd.zero 0)
    (by rw [ravel_length]; exact hos.all) (by rw [ravel_length]; exact hs.trans (by norm_num))
    (fun x hx => by obtain ⟨i, j, rfl⟩ := mem_ravel.1 hx; exact le_trans (mul_nonneg (by norm_num) (hw i j).1) (hw i j).2.1)
    (fun x hx => by obtain ⟨i, j, rfl⟩ := mem_ravel.1 hx; exact (hw i j).2.2.2)
    (by
      rw [hsum]
      refine lt_of_lt_of_le (mul_pos (by norm_num : 0 < (1 - uRound) ^ 2) (?_ : 0 < ((∑ i, ∑ j, T i j : ℕ) : ℚ))) ?_
      · exact_mod_cast hpos
      · rw [← htot]
        simp only [Finset.mul_sum]
        exact Finset.sum_le_sum fun i _ => Finset.sum_le_sum fun j _ => (hw i j).2.1)
  rw [ravel_length] at g2
  refine ⟨fun i j => ((out.getD (i.val * c + j.val) 0 : ℕ) : ℤ), ?_, ?_⟩
  · unfold flSimData flSim2dData
    rw [if_pos rfl, g1]; rfl
  · rw [← g3]
    exact sum_reshape g2

/-- All sums of a simulation from left to right. -/
def leftOrders : SimOrders := ⟨leftOrder .total, fun _ => leftOrder .total, fun _ => leftOrder .total⟩

/-- All sums of a simulation in the order of numpy (below 16 numbers). -/
def numpyOrders : SimOrders := ⟨numpyOrder .total, fun _ => numpyOrder .total, fun _ => numpyOrder .total⟩

theorem goodOrder_of {order : SumSite → List ℚ → SumTree} (h : AddsAll order) (s : SumSite) {n : ℕ} (hn : n ≤ 4097) : GoodOrder (order s) n :=
  ⟨h s, fun l hl hlen => by
    have := (order s l).depth_lt
    rw [(h s l hl).length_eq] at this
    omega⟩

theorem leftOrders_good {n : ℕ} (hn : n ≤ 4097) : GoodOrders leftOrders n :=
  ⟨goodOrder_of leftOrder_addsAll _ hn, fun _ => goodOrder_of leftOrder_addsAll _ hn, fun _ => goodOrder_of leftOrder_addsAll _ hn⟩

theorem numpyOrders_good {n : ℕ} (hn : n ≤ 4097) : GoodOrders numpyOrders n :=
  ⟨goodOrder_of numpyOrder_addsAll _ hn, fun _ => goodOrder_of numpyOrder_addsAll _ hn, fun _ => goodOrder_of numpyOrder_addsAll _ hn⟩

/-- Three records in a 2 by 2 table. -/
def threeRecords : Fin 2 → Fin 2 → ℕ := ![![1, 0], ![1, 1]]

/-- **C91 (a record is lost).** The data have 3 records; with binary64 arithmetic every simulated data set has only 2, for all random draws and
with either order of the additions, because the sum of the four expectations 2/3, 1/3, 4/3, 2/3 is computed as 2.9999999999999996 and truncated.
In exact arithmetic every simulated data set has 3 records (`multinominal_run`). -/
theorem float_multinominal_records_violated (env : SimEnv F) {d : Draws F} (hd : GoodDraws d) (ords : SimOrders) (h : ords = leftOrders ∨ ords = numpyOrders) :
    ∑ i, ∑ j, threeRecords i j = 3 ∧
    ∃ v : Fin 2 → Fin 2 → ℤ, flSimulated rne53 numpyOrder ords env d ⟨2, 2, fun i j => (threeRecords i j : ℚ)⟩ "multinominal" false = .ok ⟨2, 2, v⟩ ∧
      ∑ i, ∑ j, v i j = 2 := by
  refine ⟨by decide, ?_⟩
  have hos : GoodOrders ords (2 * 2) := by
    rcases h with rfl | rfl
    · exact leftOrders_good (by norm_num)
    · exact numpyOrders_good (by norm_num)
  obtain ⟨v, h1, h2⟩ := float_multinominal_total RelRounding_rne53 numpyOrder_addsAll hos env hd threeRecords (by decide) (by decide) (by norm_num) false
  refine ⟨v, h1, h2.trans ?_⟩
  have e : ⌊npSum rne53 ords.all (⟨2, 2, simWeights rne53 numpyOrder threeRecords false⟩ : Arr2 ℚ).ravel⌋₊ = 2 := by
    rcases h with rfl | rfl
    · decide +kernel
    · decide +kernel
  rw [e]; rfl

/-- Three records, and none in the last cell. -/
def lastEmpty : Fin 2 → Fin 2 → ℕ := ![![1, 1], ![1, 0]]

/-- Draws that return 0 whenever the probability allows it. -/
noncomputable def lazyDraws : Draws F := ⟨fun _ _ n p => open scoped Classical in if p = 1 then n else 0, 0, ⟨none, 0⟩⟩

theorem lazyDraws_good : GoodDraws (lazyDraws : Draws F) := by
  refine ⟨fun i j n p => ?_, fun i j n => ?_, fun i j n => ?_, le_rfl, by simp [lazyDraws]⟩
  · simp only [lazyDraws]; split <;> omega
  · simp [lazyDraws]
  · simp [lazyDraws]

/-- **C91 (a record in a cell of probability 0).** With `alt_hypothesis=True` the cell without records has probability 0. In binary64 arithmetic
the remaining probability of the last cell is not 0 but about 5e-17, and there are draws that put all records there. In exact arithmetic there are
none (`multinominal_run`). -/
theorem float_multinominal_support_violated (env : SimEnv F) :
    ∃ d : Draws F, GoodDraws d ∧ ∃ v : Fin 2 → Fin 2 → ℤ,
      flSimulated rne53 numpyOrder numpyOrders env d ⟨2, 2, fun i j => (lastEmpty i j : ℚ)⟩ "multinominal" true = .ok ⟨2, 2, v⟩ ∧
      lastEmpty 1 1 = 0 ∧ v 1 1 = 3 := by
  refine ⟨lazyDraws, lazyDraws_good, ?_⟩
  have hl : (⟨2, 2, fun i j => (lastEmpty i j : ℚ)⟩ : Arr2 ℚ).ravel = [1, 1, 1, 0] := by decide +kernel
  have hs : npSum rne53 numpyOrders.all [1, 1, 1, 0] = 3 := by decide +kernel
  have hp : ([1, 1, 1, 0] : List ℚ).map (fun x => rne53 (x / 3)) = [rne53 (1 / 3), rne53 (1 / 3), rne53 (1 / 3), 0] := by decide +kernel
  have hvec : flSimVec rne53 numpyOrders.all ((lazyDraws : Draws F).binom 0) [1, 1, 1, 0] 0 = .ok [0, 0, 0, 3] := by
    unfold flSimVec
    simp only [hs, le_refl, if_true]
    rw [if_neg (by norm_num), if_neg (by norm_num), hp]
    have h3 : ⌊(3 : ℚ)⌋₊ = 3 := Nat.floor_ofNat 3
    rw [h3]
    unfold flMultinomial
    rw [if_neg (by decide +kernel), if_neg (by decide +kernel)]
    have lz : ∀ (k n : ℕ) (q : ℚ), q ≠ 1 → (lazyDraws : Draws F).binom 0 k n (q : ℝ) = 0 := by
      intro k n q hq
      have : (q : ℝ) ≠ 1 := by exact_mod_cast hq
      simp [lazyDraws, this]
    have q1 : rne53 (rne53 (1 / 3) / 1) ≠ 1 := by decide +kernel
    have q2 : rne53 (rne53 (1 / 3) / rne53 (1 - rne53 (1 / 3))) ≠ 1 := by decide +kernel
    have q3 : rne53 (rne53 (1 / 3) / rne53 (rne53 (1 - rne53 (1 / 3)) - rne53 (1 / 3))) ≠ 1 := by decide +kernel
    simp only [flMultiLoop, lz _ _ _ q1, lz _ _ _ q2, lz _ _ _ q3]
    simp
  refine ⟨fun i j => (([0, 0, 0, 3] : List ℕ).getD (i.val * 2 + j.val) 0 : ℕ), ?_, by decide, by simp⟩
  unfold flSimulated flSimData flSim2dData
  simp only [if_true]
  rw [hl, hvec]
  rfl

/-- The hypotheses of the theorems can be met: binary64 arithmetic, the order of numpy, a table with an empty row. -/
example (env : SimEnv ℚ) (alt : Bool) : ∃ v : Fin 3 → Fin 3 → ℤ,
    flSimulated rne53 numpyOrder numpyOrders env (seeded 5) ⟨3, 3, fun i j => ((![![5, 0, 0], ![0, 0, 0], ![1, 4, 4]] i j : ℕ) : ℚ)⟩ "multinominal" alt = .ok ⟨3, 3, v⟩ ∧
      (∀ i j, 0 ≤ v i j) ∧ (∑ i, ∑ j, v i j = 14 ∨ ∑ i, ∑ j, v i j = 13) ∧ (∀ j, v 1 j = 0) := by
  obtain ⟨v, h1, h2, h3, -, h5⟩ := float_multinominal_records RelRounding_rne53 numpyOrder_addsAll (numpyOrders_good (n := 3 * 3) (by norm_num)) env
    (seeded_good (by norm_num) (by norm_num) : GoodDraws (seeded 5)) (![![5, 0, 0], ![0, 0, 0], ![1, 4, 4]] : Fin 3 → Fin 3 → ℕ) (by decide) (by decide)
    (by norm_num) alt
  refine ⟨v, h1, h2, ?_, fun j => h5 1 j (.inl (by simp)) ?_⟩
  · rwa [show ∑ i, ∑ j, (((![![5, 0, 0], ![0, 0, 0], ![1, 4, 4]] : Fin 3 → Fin 3 → ℕ) i j : ℕ) : ℤ) = 14 by decide] at h3
  · fin_cases j <;> cases alt <;> simp [Fin.forall_fin_succ]

/-- The product methods and the sampler on a concrete table without empty rows and columns. -/
example (env : SimEnv ℚ) :
    (∃ v : Fin 2 → Fin 2 → ℤ, flSimulated rne53 numpyOrder numpyOrders env (seeded 5) ⟨2, 2, fun i j => (threeRecords i j : ℚ)⟩ "col_product_multinominal" true =
      .ok ⟨2, 2, v⟩ ∧ ∀ i, ∑ j, v i j = ∑ j, (threeRecords i j : ℤ)) ∧
    (∃ v : Fin 2 → Fin 2 → ℤ, flSimulated rne53 numpyOrder numpyOrders env (seeded 5) ⟨2, 2, fun i j => (threeRecords i j : ℚ)⟩ "row_product_multinominal" true =
      .ok ⟨2, 2, v⟩ ∧ ∀ j, ∑ i, v i j = ∑ i, (threeRecords i j : ℤ)) ∧
    flSimulated rne53 numpyOrder numpyOrders env (seeded 5) ⟨2, 2, fun i j => (threeRecords i j : ℚ)⟩ "hypergeometric" false =
      simPatefield env (seeded 5) ⟨2, 2, fun i j => (threeRecords i j : ℝ)⟩ none := by
  have hg : GoodDraws (seeded 5) := seeded_good (by norm_num) (by norm_num)
  have ho := numpyOrders_good (n := 2 * 2) (by norm_num)
  obtain ⟨v, a1, -, -, a4⟩ := (float_col_product_records RelRounding_rne53 numpyOrder_addsAll ho env hg threeRecords (by decide) (by decide) (by norm_num) true).1
    (by decide)
  obtain ⟨w, b1, -, -, b4⟩ := (float_row_product_records RelRounding_rne53 numpyOrder_addsAll ho env hg threeRecords (by decide) (by decide) (by norm_num) true).1
    (by decide)
  exact ⟨⟨v, a1, a4 rfl⟩, ⟨w, b1, b4 rfl⟩, float_hypergeometric RelRounding_rne53 numpyOrder_addsAll ho env _ threeRecords (by decide) (by decide) false⟩

end Phik.Props
