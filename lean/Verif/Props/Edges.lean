import Verif.Lemmas.Edges
import Mathlib.Tactic.IntervalCases
import Mathlib.Order.Interval.Finset.Nat
import Mathlib.Data.Rat.Floor

/-! # Property C61: the edges of automatic binning -/

namespace Phik

theorem lerp_exact (a b g : ℚ) : lerp (fun x => x) a b g = a + g * (b - a) := by
  unfold lerp; split <;> ring

theorem quantile1_exact {s : List ℚ} (hne : s ≠ []) {q : ℚ} (h0 : 0 ≤ q) (h1 : q ≤ 1) :
    quantile1 (fun x => x) s q = s.getD ⌊((s.length : ℚ) - 1) * q⌋.toNat 0 +
      (((s.length : ℚ) - 1) * q - ⌊((s.length : ℚ) - 1) * q⌋) *
        (s.getD (⌊((s.length : ℚ) - 1) * q⌋.toNat + 1) 0 - s.getD ⌊((s.length : ℚ) - 1) * q⌋.toNat 0) := by
  rw [quantile1_eq RelRounding_id hne (fun _ _ => rfl), lerp_exact]
  split
  · rename_i h
    have hl : 0 < s.length := List.length_pos_of_ne_nil hne
    have hm0 : (0 : ℚ) ≤ (s.length : ℚ) - 1 := by
      have : (1 : ℚ) ≤ s.length := by exact_mod_cast hl
      linarith
    have e : ((s.length : ℚ) - 1) * q = ((s.length - 1 : ℕ) : ℚ) := by
      rw [Nat.cast_sub hl]; push_cast
      exact le_antisymm (by nlinarith) h
    rw [e, Int.floor_natCast]
    simp
  · rfl

namespace Props

/-- **C61.** Uniform binning, exact arithmetic: for data with smallest value `lo` and largest value `hi` and `n ≥ 1` bins,
the `n + 1` edges divide the range from `lo - 1e-14` to `hi` into equal parts. -/
theorem uniform_edges {values : List ℚ} {lo hi : ℚ} (hlo : lo ∈ values) (hhi : hi ∈ values)
    (h : ∀ x ∈ values, lo ≤ x ∧ x ≤ hi) {n : ℕ} (hn : 1 ≤ n) :
    ∃ e, binEdges (fun x => x) values n false = .ok e ∧ e.length = n + 1 ∧
      ∀ i (hi' : i < e.length), e[i] = (lo - 1 / 10 ^ 14) + i * ((hi - (lo - 1 / 10 ^ 14)) / n) := by
  have hne : values ≠ [] := List.ne_nil_of_mem hlo
  have e1 : values.min? = some lo := List.min?_eq_some_iff.2 ⟨hlo, fun x hx => (h x hx).1⟩
  have e2 : values.max? = some hi := List.max?_eq_some_iff.2 ⟨hhi, fun x hx => (h x hx).2⟩
  obtain ⟨l, h1, h2, h3, h4⟩ := linspace_getElem RelRounding_id (start := lo - 1 / 10 ^ 14) (stop := hi)
    (by have := (h lo hlo).2; norm_num; linarith) rfl hn
  refine ⟨l, ?_, h2, fun i hi' => ?_⟩
  · unfold binEdges
    simp only [e1, e2, Bool.false_eq_true, if_false]
    exact h1
  · have hn0 : (n : ℚ) ≠ 0 := by exact_mod_cast (by omega : n ≠ 0)
    rcases (show i ≤ n by omega).lt_or_eq with hi'' | rfl
    · rw [h3 i hi' hi'']; ring
    · rw [h4 hi']; field_simp; ring

example : binEdges (fun x => x) [3, 7, 5] 2 false = .ok [3 - 1 / 10 ^ 14, 5 - 1 / (2 * 10 ^ 14), 7] := by
  obtain ⟨e, h1, h2, h3⟩ := uniform_edges (values := [3, 7, 5]) (lo := 3) (hi := 7) (n := 2) (by simp) (by simp)
    (by intro x hx; simp at hx; rcases hx with rfl | rfl | rfl <;> norm_num) (by norm_num)
  rw [show ((2 : ℕ) : ℤ) = 2 from rfl] at h1
  rw [h1]
  congr 1
  apply List.ext_getElem (by simp [h2])
  intro i hi hi'
  rw [h3 i hi]
  have : i < 3 := by simpa using hi'
  interval_cases i <;> simp <;> norm_num

/-- **C61.** Quantile binning, exact arithmetic: with the values sorted, `s[0], …, s[N-1]`, edge number `i ≥ 1` of `n` is the
`i/n`-quantile, interpolated linearly between the neighbours of position `(N-1) i/n`; the first edge is 1e-14 below the
smallest value. -/
theorem quantile_edges {values s : List ℚ} (hs : s.Perm values) (hsort : s.Pairwise (· ≤ ·)) (hne : values ≠ []) {n : ℕ}
    (hn : 1 ≤ n) :
    ∃ e, binEdges (fun x => x) values n true = .ok e ∧ e.length = n + 1 ∧
      (∀ h0 : 0 < e.length, e[0] = s.getD 0 0 - 1 / 10 ^ 14) ∧
      ∀ i (hi : i < e.length), 0 < i → ∀ p : ℚ, p = ((values.length : ℚ) - 1) * i / n →
        e[i] = s.getD ⌊p⌋.toNat 0 + (p - ⌊p⌋) * (s.getD (⌊p⌋.toNat + 1) 0 - s.getD ⌊p⌋.toNat 0) := by
  have es : values.mergeSort = s := by
    refine List.Perm.eq_of_pairwise (fun a b _ _ h1 h2 => le_antisymm h1 h2) (sorted_mergeSort values) hsort ?_
    exact (List.mergeSort_perm values _).trans hs.symm
  have hsne : s ≠ [] := by rintro rfl; exact hne (List.nil_perm.1 hs)
  have hlen : s.length = values.length := hs.length_eq
  obtain ⟨l, h1, h2, h3, h4⟩ := linspace_getElem RelRounding_id (start := 0) (stop := 1) zero_le_one rfl hn
  have hn0 : (0 : ℚ) < n := by exact_mod_cast (by omega : 0 < n)
  have hl : ∀ i (hi : i < l.length), l[i] = (i : ℚ) / n := by
    intro i hi
    rcases (show i ≤ n by omega).lt_or_eq with hi'' | rfl
    · rw [h3 i hi hi'']; ring
    · rw [h4 hi, div_self hn0.ne']
  cases l with
  | nil => simp at h2
  | cons q0 qs =>
    have hq0 : q0 = 0 := by have := hl 0 (by simp); simp only [List.getElem_cons_zero] at this; simpa using this
    have hse : s.isEmpty = false := by cases s with
      | nil => exact absurd rfl hsne
      | cons => rfl
    refine ⟨(quantile1 (fun x => x) s q0 - 1 / 10 ^ 14) :: qs.map (quantile1 (fun x => x) s), ?_, by simpa using h2, ?_, ?_⟩
    · unfold binEdges
      simp only [if_true, h1, bind, Except.bind, es, hse, List.map_cons]
      rfl
    · intro h0
      simp only [List.getElem_cons_zero]
      rw [hq0, quantile1_exact hsne le_rfl zero_le_one]
      simp
    · intro i hi hi0 p hp
      obtain ⟨k, rfl⟩ : ∃ k, i = k + 1 := ⟨i - 1, by omega⟩
      have hk : k < qs.length := by simpa using hi
      have hqk : qs[k] = ((k + 1 : ℕ) : ℚ) / n := by
        have := hl (k + 1) (by simpa using hk)
        rwa [List.getElem_cons_succ] at this
      simp only [List.getElem_cons_succ, List.getElem_map]
      have hkn : ((k + 1 : ℕ) : ℚ) ≤ n := by
        have : k + 1 ≤ n := by simp at h2; omega
        exact_mod_cast this
      rw [hqk, quantile1_exact hsne (by positivity) ((div_le_one hn0).2 hkn)]
      have : ((s.length : ℚ) - 1) * (((k + 1 : ℕ) : ℚ) / n) = p := by rw [hp, hlen, mul_div_assoc]
      rw [this]

example : binEdges (fun x => x) [30, 10, 20, 40] 2 true = .ok [10 - 1 / 10 ^ 14, 25, 40] := by
  obtain ⟨e, h1, h2, h3, h4⟩ := quantile_edges (values := [30, 10, 20, 40]) (s := [10, 20, 30, 40]) (n := 2)
    (by decide) (by norm_num) (by simp) (by norm_num)
  rw [show ((2 : ℕ) : ℤ) = 2 from rfl] at h1
  rw [h1]
  congr 1
  apply List.ext_getElem (by simp [h2])
  intro i hi hi'
  have : i < 3 := by simpa using hi'
  have f : ⌊(3 / 2 : ℚ)⌋ = 1 := by rw [Int.floor_eq_iff]; norm_num
  interval_cases i
  · rw [h3 (by omega)]; rfl
  · rw [h4 1 hi (by norm_num) (3 / 2) (by norm_num), f]
    norm_num
  · rw [h4 2 hi (by norm_num) 3 (by norm_num), show ⌊(3 : ℚ)⌋ = 3 from Int.floor_natCast 3]
    simp [show (3 : ℤ).toNat = 3 from rfl]

/-- **C61.** Quantile binning balances the bins: for `N` distinct values (exact arithmetic), bin number `i ≥ 2` contains
`⌊(N-1) i/n⌋ - ⌊(N-1) (i-1)/n⌋` of them, and the first bin `⌊(N-1)/n⌋ + 1`. -/
theorem quantile_bins_balanced {values : List ℚ} (hd : values.Nodup) (hne : values ≠ []) {n : ℕ} (hn : 1 ≤ n) :
    ∃ e, binEdges (fun x => x) values n true = .ok e ∧ e.length = n + 1 ∧
      ∀ i (hi : i + 1 < e.length), (values.countP fun x => decide (e[i] < x ∧ x ≤ e[i + 1])) =
        if i = 0 then (values.length - 1) / n + 1
        else (values.length - 1) * (i + 1) / n - (values.length - 1) * i / n := by
  obtain ⟨e, h1, h2, h3, h4⟩ := quantile_edges (List.mergeSort_perm values _) (sorted_mergeSort values) hne hn
  refine ⟨e, h1, h2, fun i hi => ?_⟩
  set s := values.mergeSort with hsdef
  have hperm : s.Perm values := List.mergeSort_perm values _
  have hlen : s.length = values.length := hperm.length_eq
  have hpos : 0 < values.length := List.length_pos_of_ne_nil hne
  have hstr : s.Pairwise (· < ·) := by
    have h1 := sorted_mergeSort values
    have h2 : s.Nodup := hperm.nodup_iff.2 hd
    exact (h1.and h2).imp fun h => lt_of_le_of_ne h.1 h.2
  have smono : ∀ a b (ha : a < s.length) (hb : b < s.length), s[a] < s[b] ↔ a < b := by
    intro a b ha hb
    constructor
    · intro h
      by_contra hc
      rcases (not_lt.1 hc).lt_or_eq with hc | rfl
      · have := List.pairwise_iff_getElem.1 hstr b a hb ha hc
        exact lt_asymm h this
      · exact lt_irrefl _ h
    · exact List.pairwise_iff_getElem.1 hstr a b ha hb
  -- position of an edge among the sorted values
  have hedge : ∀ j (hj : j < e.length), 0 < j → ∀ k (hk : k < s.length), s[k] ≤ e[j] ↔ k ≤ (values.length - 1) * j / n := by
    intro j hj hj0 k hk
    rw [h4 j hj hj0 _ rfl]
    set p : ℚ := ((values.length : ℚ) - 1) * j / n with hp
    have hp' : p = (((values.length - 1) * j : ℕ) : ℚ) / n := by
      rw [hp]; push_cast [Nat.cast_sub hpos]; norm_num
    have hfl : ⌊p⌋ = (((values.length - 1) * j / n : ℕ) : ℤ) := by
      rw [hp', Rat.floor_natCast_div_natCast]; rfl
    rw [hfl, Int.toNat_natCast]
    set m := (values.length - 1) * j / n with hm
    have hmle : m ≤ values.length - 1 := by
      rw [hm]
      refine Nat.div_le_of_le_mul ?_
      rw [mul_comm n]
      exact Nat.mul_le_mul_left _ (by omega)
    have hml : m < s.length := by omega
    have hf0 : 0 ≤ p - ((m : ℤ) : ℚ) := by rw [← hfl]; linarith [Int.floor_le p]
    have hf1 : p - ((m : ℤ) : ℚ) < 1 := by rw [← hfl]; linarith [Int.lt_floor_add_one p]
    rw [getD_lt hml]
    constructor
    · intro h
      by_contra hc
      push Not at hc
      have hm1 : m + 1 < s.length := by omega
      rw [getD_lt hm1] at h
      have a1 : s[m + 1] ≤ s[k] := by
        rcases (show m + 1 ≤ k by omega).lt_or_eq with hc | rfl
        · exact ((smono _ _ hm1 hk).2 hc).le
        · exact le_rfl
      have a2 := (smono m (m + 1) hml hm1).2 (by omega)
      nlinarith
    · intro h
      have a1 : s[k] ≤ s[m] := by
        rcases h.lt_or_eq with hc | rfl
        · exact ((smono _ _ hk hml).2 hc).le
        · exact le_rfl
      by_cases hm1 : m + 1 < s.length
      · rw [getD_lt hm1]
        have a2 := (smono m (m + 1) hml hm1).2 (by omega)
        nlinarith
      · have e1 : m = values.length - 1 := by omega
        have : p ≤ (m : ℚ) := by
          rw [hp', div_le_iff₀ (by exact_mod_cast (by omega : 0 < n)), e1]
          exact_mod_cast Nat.mul_le_mul_left _ (by omega)
        have : p - ((m : ℤ) : ℚ) = 0 := by
          push_cast at hf0 ⊢; linarith
        rw [this]; linarith
  rw [← hperm.countP_eq]
  have hrange : s = (List.range s.length).map fun k => s.getD k 0 := by
    apply List.ext_getElem (by simp)
    intro k hk hk'
    simp [hk]
  have hcount : ∀ (f : ℕ → Prop) [DecidablePred f] (P : ℚ → Bool), (∀ k (hk : k < s.length), P s[k] = true ↔ f k) →
      s.countP P = ((Finset.range s.length).filter f).card := by
    intro f _ P h
    rw [hrange, List.countP_map, List.length_map, List.length_range, List.countP_eq_length_filter]
    rw [← Finset.length_toList]
    refine List.Perm.length_eq ?_
    refine (List.perm_ext_iff_of_nodup (List.nodup_range.filter _) (Finset.nodup_toList _)).2 fun k => ?_
    simp only [List.mem_filter, List.mem_range, Function.comp, Finset.mem_toList, Finset.mem_filter, Finset.mem_range]
    refine and_congr_right fun hk => ?_
    rw [getD_lt hk]
    exact h k hk
  have hmlt : ∀ j, j < e.length → (values.length - 1) * j / n < s.length := by
    intro j hj
    have : (values.length - 1) * j / n ≤ values.length - 1 := by
      refine Nat.div_le_of_le_mul ?_
      rw [mul_comm n]
      exact Nat.mul_le_mul_left _ (by omega)
    omega
  have hup := hmlt (i + 1) hi
  by_cases hi0 : i = 0
  · subst hi0
    rw [if_pos rfl, hcount (fun k => k ≤ (values.length - 1) * 1 / n)]
    · have : (Finset.range s.length).filter (fun k => k ≤ (values.length - 1) * 1 / n) =
          Finset.range ((values.length - 1) * 1 / n + 1) := by
        ext k; simp only [Finset.mem_filter, Finset.mem_range]; simp only [zero_add] at hup; omega
      rw [this, Finset.card_range, mul_one]
    · intro k hk
      have := hedge 1 (by omega) one_pos k hk
      simp only [zero_add, decide_eq_true_eq]
      rw [this, and_iff_right_iff_imp]
      intro _
      rw [h3 (by omega)]
      have hs0 : 0 < s.length := by omega
      rw [getD_lt hs0]
      have : s[0] ≤ s[k] := by
        rcases Nat.eq_zero_or_pos k with rfl | hk0
        · exact le_rfl
        · exact ((smono 0 k hs0 hk).2 hk0).le
      norm_num at this ⊢
      linarith
  · rw [if_neg hi0, hcount (fun k => (values.length - 1) * i / n < k ∧ k ≤ (values.length - 1) * (i + 1) / n)]
    · have : (Finset.range s.length).filter (fun k => (values.length - 1) * i / n < k ∧
          k ≤ (values.length - 1) * (i + 1) / n) =
          Finset.Ioc ((values.length - 1) * i / n) ((values.length - 1) * (i + 1) / n) := by
        ext k; simp only [Finset.mem_filter, Finset.mem_range, Finset.mem_Ioc]; omega
      rw [this, Nat.card_Ioc]
    · intro k hk
      have a1 := hedge (i + 1) hi (by omega) k hk
      have a2 := hedge i (by omega) (by omega) k hk
      simp only [decide_eq_true_eq]
      rw [a1, ← not_le, a2, not_le]

example : ∃ e, binEdges (fun x => x) [30, 10, 20, 40, 15] 2 true = .ok e ∧ ∃ (h : 2 < e.length),
    ([30, 10, 20, 40, 15].countP fun x => decide (e[0] < x ∧ x ≤ e[1])) = 3 ∧
    ([30, 10, 20, 40, 15].countP fun x => decide (e[1] < x ∧ x ≤ e[2])) = 2 := by
  obtain ⟨e, h1, h2, h3⟩ := quantile_bins_balanced (values := [30, 10, 20, 40, 15]) (n := 2) (by decide) (by simp)
    (by norm_num)
  exact ⟨e, h1, by omega, h3 0 (by omega), h3 1 (by omega)⟩

/-- **C61.** The automatic edges (uniform or quantile) are in ascending order, in exact arithmetic (`fl = id`) and in binary64
(`fl = rne53`), for any data representable there and up to 2^48 bins. -/
theorem auto_edges_sorted {fl : ℚ → ℚ} (hfl : fl = (fun x => x) ∨ fl = rne53) {values : List ℚ}
    (hrep : ∀ x ∈ values, fl x = x) {n : ℕ} (hn : 1 ≤ n) (hb : n ≤ 2 ^ 48) {quantile : Bool} {edges : List ℚ}
    (h : binEdges fl values n quantile = .ok edges) : edges.Pairwise (· ≤ ·) := by
  have : RelRounding fl := by
    rcases hfl with rfl | rfl
    · exact RelRounding_id
    · exact RelRounding_rne53
  exact binEdges_sorted this hrep hn (by simpa using hb) h

end Props

end Phik
