import Verif.Lemmas.Binning

/-!
# Properties C01-C07: binning
-/

namespace Phik.Props

/-- **C01.** For sorted edges, `bin_array` returns one entry per input entry, in order: NaN exactly for
NaN, 'UF' exactly for values not above the first edge, 'OF' exactly for values above the last edge, and
the bin number `k` exactly for values in `(edges[k-1], edges[k]]`. -/
theorem bin_index {edges : List ℚ} (hs : edges.Pairwise (· ≤ ·)) (hne : edges ≠ [])
    (arr : List (Option ℚ)) :
    (binArray arr edges).1.length = arr.length ∧
    ∀ (i : ℕ) (hi : i < arr.length) (ho : i < (binArray arr edges).1.length),
      ((binArray arr edges).1[i] = .nan ↔ arr[i] = none) ∧
      ((binArray arr edges).1[i] = .str "UF" ↔
        ∃ x, arr[i] = some x ∧ x ≤ edges.head hne) ∧
      ((binArray arr edges).1[i] = .str "OF" ↔
        ∃ x, arr[i] = some x ∧ edges.getLast hne < x) ∧
      (∀ q, (binArray arr edges).1[i] = .num q ↔ ∃ (x : ℚ) (k : ℕ) (hk : k + 1 < edges.length),
        arr[i] = some x ∧ q = (k + 1 : ℕ) ∧ edges[k] < x ∧ x ≤ edges[k + 1]) ∧
      (∀ s, (binArray arr edges).1[i] = .str s → s = "UF" ∨ s = "OF") := by
  refine ⟨binArray_length _ _, fun i hi ho => ?_⟩
  have hl : 0 < edges.length := List.length_pos_of_ne_nil hne
  have e : (binArray arr edges).1[i] = binCell edges arr[i] := by simp [binArray_fst]
  have hh : edges.getD 0 0 = edges.head hne := by rw [getD_lt hl, List.head_eq_getElem]
  have hlast : edges.getD (edges.length - 1) 0 = edges.getLast hne := by
    rw [getD_lt (by omega), List.getLast_eq_getElem]
  rw [e]
  cases hx : arr[i] with
  | none => simp [binCell]
  | some x =>
    refine ⟨?_, ?_, ?_, fun q => ?_, fun s h => ?_⟩
    · simp only [binCell]
      constructor
      · intro h; split at h <;> [cases h; split at h <;> cases h]
      · intro h; cases h
    · rw [binCell_uf_iff x hs hne, hh]; simp
    · rw [binCell_of_iff x hs hne, hlast]; simp
    · rw [binCell_num_iff x hs]
      constructor
      · rintro ⟨k, rfl, h1, h2, h3, h4⟩
        obtain ⟨k, rfl⟩ : ∃ m, k = m + 1 := ⟨k - 1, by omega⟩
        refine ⟨x, k, h2, rfl, rfl, ?_, ?_⟩
        · rw [getD_lt (by omega)] at h3; simpa using h3
        · rwa [getD_lt h2] at h4
      · rintro ⟨y, k, hk, hy, rfl, h3, h4⟩
        cases hy
        refine ⟨k + 1, rfl, by omega, hk, ?_, ?_⟩
        · rw [getD_lt (by omega)]; simpa using h3
        · rwa [getD_lt hk]
    · simp only [binCell] at h
      split at h
      · cases h; exact Or.inl rfl
      · split at h
        · cases h; exact Or.inr rfl
        · cases h

example : (binArray [some 1, none, some (-3), some 7, some 2] [0, 1, 5]).1 =
    [.num 1, .nan, .str "UF", .str "OF", .num 2] := by
  simp [binArray_fst, binCell, searchGo]; norm_num

/-- **C02.** The returned labels are, in increasing order and each once, the edge pairs of exactly the
bins that hold at least one value. -/
theorem bin_labels {edges : List ℚ} (hs : edges.Pairwise (· ≤ ·)) (arr : List (Option ℚ)) :
    ∃ bins : List ℕ, bins.Pairwise (· < ·) ∧
      (∀ k, k ∈ bins ↔ ∃ h : k + 1 < edges.length, ∃ x, some x ∈ arr ∧ edges[k] < x ∧ x ≤ edges[k + 1]) ∧
      (binArray arr edges).2 = bins.map fun k => (edges.getD k 0, edges.getD (k + 1) 0) := by
  have key : ∀ k, k + 1 < edges.length → (k + 1 ∈ arr.map (searchsorted edges) ↔
      ∃ x, some x ∈ arr ∧ edges.getD k 0 < x ∧ x ≤ edges.getD (k + 1) 0) := by
    intro k hk
    simp only [List.mem_map]
    constructor
    · rintro ⟨x, hx, h⟩
      cases x with
      | none => simp only [searchsorted] at h; omega
      | some x =>
        obtain ⟨-, b, c, d⟩ := searchGo_spec edges x 0 edges.length (Nat.zero_le _)
        simp only [searchsorted] at h
        rw [h] at c d
        exact ⟨x, hx, c (by omega), d hk⟩
    · rintro ⟨x, hx, h1, h2⟩
      exact ⟨some x, hx, binCell_of hs (by omega) hk (by simpa using h1) h2⟩
  refine ⟨(List.range (edges.length - 1)).filter (fun k => decide (k + 1 ∈ arr.map (searchsorted edges))),
    ?_, ?_, ?_⟩
  · exact List.Pairwise.filter _ List.pairwise_lt_range
  · intro k
    simp only [List.mem_filter, List.mem_range, decide_eq_true_eq]
    constructor
    · rintro ⟨h1, h2⟩
      have hk : k + 1 < edges.length := by omega
      obtain ⟨x, a, b, c⟩ := (key k hk).1 h2
      rw [getD_lt (by omega)] at b
      rw [getD_lt hk] at c
      exact ⟨hk, x, a, b, c⟩
    · rintro ⟨hk, x, a, b, c⟩
      refine ⟨by omega, (key k hk).2 ⟨x, a, ?_, ?_⟩⟩
      · rwa [getD_lt (by omega)]
      · rwa [getD_lt hk]
  · unfold binArray
    simp only
    generalize List.range (edges.length - 1) = l
    induction l with
    | nil => rfl
    | cons a l ih =>
      by_cases h : a + 1 ∈ arr.map (searchsorted edges)
      · simp only [List.filterMap_cons, List.filter_cons, h, if_true, decide_true, List.map_cons, ih]
      · simp only [List.filterMap_cons, List.filter_cons, h, if_false, decide_false, Bool.false_eq_true, ih]

example : (binArray [some 1, none, some (-3), some 7] [0, 1, 5]).2 = [(0, 1)] := by
  simp [binArray, searchsorted, searchGo, List.range_succ]; norm_num

/-- **C03 and C04.** In exact arithmetic, for every number of bins `n ≥ 1` and any data with at least
one value, the automatic uniform (`quantile = false`) or quantile (`quantile = true`) binning succeeds
with `n + 1` edges and puts every value of the data in a regular bin `1..n`. -/
theorem auto_binning_loses_nothing (arr : List (Option ℚ)) (hne : ∃ x, some x ∈ arr)
    (hlen : arr.length ≤ 4503599627370496) (n : ℕ) (hn : 1 ≤ n) (quantile : Bool) :
    ∃ edges, binEdges (fun x => x) (arr.filterMap id) n quantile = .ok edges ∧ edges.length = n + 1 ∧
      ∀ (i : ℕ) (hi : i < arr.length) (ho : i < (binArray arr edges).1.length), arr[i] ≠ none →
        ∃ k : ℕ, (binArray arr edges).1[i] = .num k ∧ 1 ≤ k ∧ k ≤ n := by
  have hne' : arr.filterMap id ≠ [] := by
    obtain ⟨x, hx⟩ := hne
    intro h
    have : x ∈ arr.filterMap id := by simpa using hx
    rw [h] at this; simp at this
  obtain ⟨edges, lo, hi, h1, h2, h3, h4, h5, h6, h7⟩ := binEdges_spec Rounding_id hne' (fun _ _ => rfl)
    (le_trans (List.length_filterMap_le _ _) hlen) n hn quantile
  refine ⟨edges, h1, h2, fun i hi ho hsome => ?_⟩
  obtain ⟨x, hx⟩ := Option.ne_none_iff_exists'.1 hsome
  have hmem : x ∈ arr.filterMap id := by
    simp only [List.mem_filterMap, id]
    exact ⟨some x, hx ▸ List.getElem_mem hi, rfl⟩
  have e : (binArray arr edges).1[i] = binCell edges arr[i] := by simp [binArray_fst]
  obtain ⟨k, g1, g2, g3⟩ := binCell_regular (edges := edges) (x := x) (by omega)
    (by rw [h6]; have := (h5 x hmem).1; norm_num; linarith)
    (by rw [h2]; simp only [Nat.add_sub_cancel]; rw [h7]; exact (h5 x hmem).2)
  exact ⟨k, by rw [e, hx, g1], g2, by omega⟩

example : ∃ edges, binEdges (fun x => x) ([some 5, none, some 5].filterMap id) 4 true = .ok edges ∧
    edges.length = 5 := by
  obtain ⟨e, h1, h2, -⟩ := auto_binning_loses_nothing [some 5, none, some 5] ⟨5, by simp⟩ (by simp) 4
    (by norm_num) true
  exact ⟨e, h1, h2⟩

/-- **C05.** In binary64 arithmetic, for binary64 data, automatic binning (uniform or quantile) marks a
value as underflow exactly when it is the minimum and the minimum is above 128 or not above -128; every
other value is put in a regular bin.  So the smallest record is kept exactly for minima in
`(-128, 128]`. -/
theorem binary64_underflow_iff (arr : List (Option ℚ)) (hne : ∃ x, some x ∈ arr)
    (hrep : ∀ x, some x ∈ arr → IsF53 x)
    (hlen : arr.length ≤ 4503599627370496) (n : ℕ) (hn : 1 ≤ n) (quantile : Bool) :
    ∃ edges, binEdges rne53 (arr.filterMap id) n quantile = .ok edges ∧ edges.length = n + 1 ∧
      ∀ (i : ℕ) (hi : i < arr.length) (ho : i < (binArray arr edges).1.length) (x : ℚ), arr[i] = some x →
        ((∀ y, some y ∈ arr → x ≤ y) ∧ (x ≤ -128 ∨ 128 < x) →
          (binArray arr edges).1[i] = .str "UF") ∧
        (¬ ((∀ y, some y ∈ arr → x ≤ y) ∧ (x ≤ -128 ∨ 128 < x)) →
          ∃ k : ℕ, (binArray arr edges).1[i] = .num k ∧ 1 ≤ k ∧ k ≤ n) := by
  have hmem : ∀ x, x ∈ arr.filterMap id ↔ some x ∈ arr := by intro x; simp
  have hne' : arr.filterMap id ≠ [] := by
    obtain ⟨x, hx⟩ := hne
    intro h
    have := (hmem x).2 hx
    rw [h] at this; simp at this
  have hrep' : ∀ x ∈ arr.filterMap id, IsF53 x := fun x hx => hrep x ((hmem x).1 hx)
  obtain ⟨edges, lo, hi, h1, h2, h3, h4, h5, h6, h7⟩ := binEdges_spec Rounding_rne53 hne'
    (fun x hx => (hrep' x hx).rne) (le_trans (List.length_filterMap_le _ _) hlen) n hn quantile
  refine ⟨edges, h1, h2, fun i hi ho x hx => ?_⟩
  have hxm : some x ∈ arr := hx ▸ List.getElem_mem _
  have e : (binArray arr edges).1[i] = binCell edges (some x) := by
    rw [← hx]; simp [binArray_fst]
  rw [e]
  change edges.getD 0 0 = rne53 (lo - eps14) at h6
  have hregular : edges.getD 0 0 < x → ∃ k : ℕ, binCell edges (some x) = .num k ∧ 1 ≤ k ∧ k ≤ n := by
    intro hlt
    obtain ⟨k, g1, g2, g3⟩ := binCell_regular (edges := edges) (x := x) (by omega) hlt
      (by rw [h2]; simp only [Nat.add_sub_cancel]; rw [h7]; exact (h5 x ((hmem x).2 hxm)).2)
    exact ⟨k, g1, g2, by omega⟩
  have hlox := (h5 x ((hmem x).2 hxm)).1
  have habs : lo ≤ -128 ∨ 128 < lo → edges.getD 0 0 = lo := by
    rintro (h | h)
    · rw [h6, absorb_neg (hrep' _ h3) h]
    · rw [h6, absorb_pos (hrep' _ h3) h]
  constructor
  · rintro ⟨hmin, hr⟩
    have hxl : x = lo := le_antisymm (hmin lo ((hmem lo).1 h3)) hlox
    rw [hxl] at hr ⊢
    refine binCell_under (by intro h; rw [h] at h2; simp at h2) ?_
    exact binEdges_ge hne' hrep' n hn quantile h1 (fun y hy => (h5 y hy).1) (habs hr)
  · intro hc
    apply hregular
    by_cases hr : lo ≤ -128 ∨ 128 < lo
    · rw [habs hr]
      refine lt_of_le_of_ne hlox ?_
      rintro rfl
      exact hc ⟨fun y hy => (h5 y ((hmem y).2 hy)).1, hr⟩
    · push Not at hr
      rw [h6]
      exact lt_of_lt_of_le (not_absorbed (hrep' _ h3) hr.1 hr.2) hlox

/-- A concrete violation of C05: with the data 200, 300 the record 200 becomes underflow. -/
example : ∃ edges, binEdges rne53 [200, 300] 10 false = .ok edges ∧
    (binArray [some 200, some 300] edges).1[0]? = some (.str "UF") := by
  obtain ⟨edges, h1, h2, h3⟩ := binary64_underflow_iff [some 200, some 300] ⟨200, by simp⟩
    (by
      intro x hx
      simp at hx
      rcases hx with rfl | rfl
      · exact ⟨200, 0, by norm_num, by norm_num⟩
      · exact ⟨300, 0, by norm_num, by norm_num⟩) (by simp) 10 (by norm_num) false
  refine ⟨edges, h1, ?_⟩
  have hl : 0 < (binArray [some 200, some 300] edges).1.length := by simp [binArray_length]
  have := (h3 0 (by simp) hl 200 rfl).1
    (by constructor; (intro y hy; simp at hy; rcases hy with rfl | rfl <;> norm_num); norm_num)
  rw [List.getElem?_eq_getElem hl, this]

end Phik.Props
