import Verif.Model.Binning
import Verif.Lemmas.Float
import Mathlib.Tactic.Linarith
import Mathlib.Tactic.NormNum

/-! # Lemmas about the binning functions -/

namespace Phik

theorem getD_lt {α : Type*} {l : List α} {d : α} {i : ℕ} (h : i < l.length) : l.getD i d = l[i] := by
  simp [List.getD_eq_getElem?_getD, h]

/-- What the binary search guarantees for arbitrary (even unsorted) edges. -/
theorem searchGo_spec (edges : List ℚ) (x : ℚ) (lo hi : ℕ) (h : lo ≤ hi) :
    lo ≤ searchGo edges x lo hi ∧ searchGo edges x lo hi ≤ hi ∧
    (lo < searchGo edges x lo hi → edges.getD (searchGo edges x lo hi - 1) 0 < x) ∧
    (searchGo edges x lo hi < hi → x ≤ edges.getD (searchGo edges x lo hi) 0) := by
  induction lo, hi using searchGo.induct edges x with
  | case1 lo hi hlt mid hmid ih =>
    rw [searchGo, dif_pos hlt, if_pos hmid]
    have hm : lo ≤ mid ∧ mid < hi := by simp only [mid]; omega
    obtain ⟨a, b, c, d⟩ := ih (by omega)
    change lo ≤ searchGo edges x (mid + 1) hi ∧ _
    refine ⟨by omega, b, fun _ => ?_, d⟩
    by_cases e : mid + 1 < searchGo edges x (mid + 1) hi
    · exact c e
    · have : searchGo edges x (mid + 1) hi = mid + 1 := by omega
      change edges.getD (searchGo edges x (mid + 1) hi - 1) 0 < x
      rw [this]; exact hmid
  | case2 lo hi hlt mid hmid ih =>
    rw [searchGo, dif_pos hlt, if_neg hmid]
    have hm : lo ≤ mid ∧ mid < hi := by simp only [mid]; omega
    obtain ⟨a, b, c, d⟩ := ih (by omega)
    change lo ≤ searchGo edges x lo mid ∧ searchGo edges x lo mid ≤ hi ∧ _
    refine ⟨a, by omega, c, fun _ => ?_⟩
    by_cases e : searchGo edges x lo mid < mid
    · exact d e
    · have : searchGo edges x lo mid = mid := by omega
      change x ≤ edges.getD (searchGo edges x lo mid) 0
      rw [this]; exact not_lt.1 hmid
  | case3 lo hi hlt =>
    rw [searchGo, dif_neg hlt]
    refine ⟨le_rfl, h, fun c => absurd c (lt_irrefl _), fun c => absurd c hlt⟩

/-- The cell `bin_array` produces for one value. -/
def binCell (edges : List ℚ) : Option ℚ → Cell
  | none => .nan
  | some x =>
    if searchGo edges x 0 edges.length = 0 then .str "UF"
    else if searchGo edges x 0 edges.length = edges.length then .str "OF"
    else .num (searchGo edges x 0 edges.length)

theorem binArray_fst (arr : List (Option ℚ)) (edges : List ℚ) :
    (binArray arr edges).1 = arr.map (binCell edges) := by
  unfold binArray
  simp only [List.map_map, List.zipWith_map_right, List.map_zipWith]
  have hself : ∀ (f : Option ℚ → Option ℚ → Cell), List.zipWith f arr arr = arr.map fun x => f x x := by
    intro f; induction arr with
    | nil => rfl
    | cons x xs ih => simp [ih]
  rw [hself]
  apply List.map_congr_left
  intro x _
  · cases x with
    | none => simp [binCell]
    | some x =>
      simp only [Option.isNone_some, Bool.false_eq_true, if_false, binCell, Function.comp, searchsorted]
      generalize searchGo edges x 0 edges.length = k
      by_cases h0 : k = 0
      · simp [h0]
      · by_cases h1 : k = edges.length
        · subst h1
          have : edges ≠ [] := by rintro rfl; simp at h0
          simp [this]
        · simp [h0, h1]

theorem binArray_length (arr : List (Option ℚ)) (edges : List ℚ) :
    (binArray arr edges).1.length = arr.length := by simp [binArray_fst]

theorem binCell_uf {edges : List ℚ} {x : ℚ} (hne : edges ≠ []) (h : x ≤ edges.getD 0 0)
    (hs : edges.Pairwise (· ≤ ·)) : binCell edges (some x) = .str "UF" := by
  obtain ⟨-, b, c, -⟩ := searchGo_spec edges x 0 edges.length (Nat.zero_le _)
  by_cases h0 : searchGo edges x 0 edges.length = 0
  · simp [binCell, h0]
  · exfalso
    have h1 := c (by omega)
    have hl : 0 < edges.length := List.length_pos_of_ne_nil hne
    generalize searchGo edges x 0 edges.length = k at *
    have hk : k - 1 < edges.length := by omega
    rw [getD_lt hk] at h1
    rw [getD_lt hl] at h
    rcases Nat.eq_zero_or_pos (k - 1) with e | e
    · simp only [e] at h1; linarith
    · have := List.pairwise_iff_getElem.1 hs 0 (k - 1) hl hk e
      linarith

theorem binCell_of {edges : List ℚ} {x : ℚ} (hs : edges.Pairwise (· ≤ ·)) {k : ℕ} (hk0 : 0 < k)
    (hk : k < edges.length) (h1 : edges.getD (k - 1) 0 < x) (h2 : x ≤ edges.getD k 0) :
    searchGo edges x 0 edges.length = k := by
  obtain ⟨-, b, c, d⟩ := searchGo_spec edges x 0 edges.length (Nat.zero_le _)
  generalize searchGo edges x 0 edges.length = m at *
  have mono : ∀ i j, i ≤ j → j < edges.length → edges.getD i 0 ≤ edges.getD j 0 := by
    intro i j hij hj
    rw [getD_lt hj, getD_lt (by omega)]
    rcases hij.lt_or_eq with e | e
    · exact List.pairwise_iff_getElem.1 hs i j (by omega) hj e
    · subst e; exact le_rfl
  rcases lt_trichotomy m k with e | e | e
  · have := d (by omega)
    have := mono m (k - 1) (by omega) (by omega)
    linarith
  · exact e
  · have := c (by omega)
    have := mono k (m - 1) (by omega) (by omega)
    linarith

theorem binCell_num_iff {edges : List ℚ} (x : ℚ) (hs : edges.Pairwise (· ≤ ·)) (q : ℚ) :
    binCell edges (some x) = .num q ↔ ∃ k : ℕ, q = k ∧ 0 < k ∧ k < edges.length ∧
      edges.getD (k - 1) 0 < x ∧ x ≤ edges.getD k 0 := by
  obtain ⟨-, b, c, d⟩ := searchGo_spec edges x 0 edges.length (Nat.zero_le _)
  constructor
  · intro h
    simp only [binCell] at h
    split at h
    · cases h
    split at h
    · cases h
    · simp only [Cell.num.injEq] at h
      refine ⟨_, h.symm, by omega, by omega, c (by omega), d (by omega)⟩
  · rintro ⟨k, rfl, h1, h2, h3, h4⟩
    have := binCell_of hs h1 h2 h3 h4
    simp only [binCell, this]
    rw [if_neg (by omega), if_neg (by omega)]

theorem binCell_uf_iff {edges : List ℚ} (x : ℚ) (hs : edges.Pairwise (· ≤ ·)) (hne : edges ≠ []) :
    binCell edges (some x) = .str "UF" ↔ x ≤ edges.getD 0 0 := by
  obtain ⟨-, b, c, d⟩ := searchGo_spec edges x 0 edges.length (Nat.zero_le _)
  have hl : 0 < edges.length := List.length_pos_of_ne_nil hne
  constructor
  · intro h
    simp only [binCell] at h
    split at h
    · rename_i h0; rw [h0] at d; exact d hl
    split at h <;> simp at h
  · intro h; exact binCell_uf hne h hs

theorem binCell_of_iff {edges : List ℚ} (x : ℚ) (hs : edges.Pairwise (· ≤ ·)) (hne : edges ≠ []) :
    binCell edges (some x) = .str "OF" ↔ edges.getD (edges.length - 1) 0 < x := by
  obtain ⟨-, b, c, d⟩ := searchGo_spec edges x 0 edges.length (Nat.zero_le _)
  have hl : 0 < edges.length := List.length_pos_of_ne_nil hne
  constructor
  · intro h
    simp only [binCell] at h
    split at h
    · simp at h
    split at h
    · rename_i h0 h1; rw [h1] at c; exact c hl
    · simp at h
  · intro h
    have hlast : ∀ i, i < edges.length → edges.getD i 0 ≤ edges.getD (edges.length - 1) 0 := by
      intro i hi
      rw [getD_lt hi, getD_lt (by omega)]
      rcases (show i ≤ edges.length - 1 by omega).lt_or_eq with e | e
      · exact List.pairwise_iff_getElem.1 hs i _ hi (by omega) e
      · subst e; exact le_rfl
    have hk : searchGo edges x 0 edges.length = edges.length := by
      by_contra hc
      have := d (by omega)
      have := hlast _ (show searchGo edges x 0 edges.length < edges.length by omega)
      linarith
    simp only [binCell, hk]
    rw [if_neg (by omega)]; simp

/-- No sortedness is needed to see that a value between the first and the last edge is in a bin. -/
theorem binCell_regular {edges : List ℚ} {x : ℚ} (hl : 2 ≤ edges.length)
    (h1 : edges.getD 0 0 < x) (h2 : x ≤ edges.getD (edges.length - 1) 0) :
    ∃ k : ℕ, binCell edges (some x) = .num k ∧ 1 ≤ k ∧ k ≤ edges.length - 1 := by
  obtain ⟨-, b, c, d⟩ := searchGo_spec edges x 0 edges.length (Nat.zero_le _)
  have h0 : searchGo edges x 0 edges.length ≠ 0 := by
    intro h; rw [h] at d; have := d (by omega); linarith
  have hn : searchGo edges x 0 edges.length ≠ edges.length := by
    intro h; rw [h] at c; have := c (by omega); linarith
  refine ⟨searchGo edges x 0 edges.length, ?_, by omega, by omega⟩
  simp only [binCell]; rw [if_neg h0, if_neg hn]

/-- A value at or below the first edge is underflow when the other edges are not below it. -/
theorem binCell_under {edges : List ℚ} {x : ℚ} (hl : edges ≠ [])
    (h1 : ∀ e ∈ edges, x ≤ e) : binCell edges (some x) = .str "UF" := by
  obtain ⟨-, b, c, d⟩ := searchGo_spec edges x 0 edges.length (Nat.zero_le _)
  have h0 : searchGo edges x 0 edges.length = 0 := by
    by_contra h
    have := c (by omega)
    rw [getD_lt (by omega)] at this
    have := h1 _ (List.getElem_mem (show searchGo edges x 0 edges.length - 1 < edges.length by omega))
    linarith
  simp [binCell, h0]

/-! ### linspace -/

theorem linspace_spec {fl : ℚ → ℚ} (hfl : Rounding fl) {start stop : ℚ} (n : ℕ) (hn : 1 ≤ n)
    (hstart : fl start = start) :
    ∃ l, linspace fl start stop ((n : ℤ) + 1) = .ok l ∧ l.length = n + 1 ∧ l.getD 0 0 = start ∧
      l.getD n 0 = stop := by
  have h0 : fl 0 = 0 := by simpa using hfl.int 0 (by simp)
  have hne : ¬ ((n : ℤ) + 1 < 0) := by omega
  unfold linspace
  rw [if_neg hne]
  refine ⟨_, rfl, ?_, ?_, ?_⟩
  · simp
  · have e : ((n : ℤ) + 1).toNat = n + 1 := by omega
    rw [e, getD_lt (by simp)]
    simp only [List.getElem_map, List.getElem_range]
    rw [if_neg (by omega), if_pos (by push_cast; simp; omega)]
    split <;> simp [h0, hstart]
  · have e : ((n : ℤ) + 1).toNat = n + 1 := by omega
    rw [e, getD_lt (by simp)]
    simp only [List.getElem_map, List.getElem_range]
    rw [if_pos ⟨by omega, trivial⟩]

/-- Monotone rounding makes `linspace` start with its smallest element. -/
theorem linspace_ge {fl : ℚ → ℚ} (hfl : Rounding fl) {start stop : ℚ} (n : ℕ)
    (hle : start ≤ stop) (hstart : fl start = start) {l : List ℚ}
    (h : linspace fl start stop ((n : ℤ) + 1) = .ok l) : ∀ e ∈ l, start ≤ e := by
  have h0 : fl 0 = 0 := by simpa using hfl.int 0 (by simp)
  have nn : ∀ x, 0 ≤ x → 0 ≤ fl x := fun x hx => by
    have := hfl.mono _ _ hx; rwa [h0] at this
  have hne : ¬ ((n : ℤ) + 1 < 0) := by omega
  unfold linspace at h
  rw [if_neg hne] at h
  simp only [Except.ok.injEq] at h
  have hd : 0 ≤ fl (stop - start) := nn _ (by linarith)
  have key : ∀ x, 0 ≤ x → start ≤ fl (fl x + start) := by
    intro x hx
    calc start = fl start := hstart.symm
      _ ≤ _ := hfl.mono _ _ (by linarith [nn x hx])
  have hdiv : (0 : ℚ) ≤ (((n : ℤ) + 1 : ℤ) : ℚ) - 1 := by push_cast; linarith [Nat.cast_nonneg (α := ℚ) n]
  intro e he
  rw [← h] at he
  simp only [List.mem_map, List.mem_range] at he
  obtain ⟨i, -, rfl⟩ := he
  split
  · exact hle
  · have hi : (0 : ℚ) ≤ (i : ℚ) := Nat.cast_nonneg i
    split
    · split
      · exact key _ (mul_nonneg (nn _ (div_nonneg hi hdiv)) hd)
      · exact key _ (mul_nonneg hi (nn _ (div_nonneg hd hdiv)))
    · exact key _ (mul_nonneg hi hd)

/-! ### quantiles -/

theorem quantile1_zero {fl : ℚ → ℚ} (hfl : Rounding fl) {s : List ℚ} (hs : s ≠ [])
    (hrep : ∀ x ∈ s, fl x = x) : quantile1 fl s 0 = s.getD 0 0 := by
  have h0 : fl 0 = 0 := by simpa using hfl.int 0 (by simp)
  have h1 : fl 1 = 1 := by simpa using hfl.int 1 (by simp)
  have hl : 0 < s.length := List.length_pos_of_ne_nil hs
  have hr : fl (s.getD 0 0) = s.getD 0 0 := by
    rw [getD_lt hl]; exact hrep _ (List.getElem_mem hl)
  unfold quantile1
  simp only [mul_zero, h0, Int.floor_zero, Int.toNat_zero, Int.cast_zero, sub_zero]
  rw [if_pos (by norm_num)]
  by_cases ht : (s.length : ℚ) - 1 ≤ 0
  · have : s.length = 1 := by
      have : (s.length : ℚ) ≤ 1 := by linarith
      have : s.length ≤ 1 := by exact_mod_cast this
      omega
    simp [this, h0, -List.getD_eq_getElem?_getD, hr]
  · simp [ht, h0, -List.getD_eq_getElem?_getD, hr]

theorem quantile1_one {fl : ℚ → ℚ} (hfl : Rounding fl) {s : List ℚ} (hs : s ≠ [])
    (hrep : ∀ x ∈ s, fl x = x) (hlen : s.length ≤ 4503599627370496) :
    quantile1 fl s 1 = s.getD (s.length - 1) 0 := by
  have h0 : fl 0 = 0 := by simpa using hfl.int 0 (by simp)
  have hl : 0 < s.length := List.length_pos_of_ne_nil hs
  have hr : fl (s.getD (s.length - 1) 0) = s.getD (s.length - 1) 0 := by
    rw [getD_lt (by omega)]; exact hrep _ (List.getElem_mem _)
  have hv : fl ((s.length : ℚ) - 1) = (s.length : ℚ) - 1 := by
    have := hfl.int ((s.length : ℤ) - 1) (by rw [abs_of_nonneg (by omega)]; omega)
    push_cast at this; exact this
  unfold quantile1
  simp only [mul_one, hv, le_refl, decide_true, if_true, sub_self, h0, zero_mul, add_zero, sub_zero, hr,
    ite_self]

/-- The smallest and the largest element of the sorted data. -/
theorem sort_bounds (arr : List ℚ) : ∀ x ∈ arr,
    (arr.mergeSort).getD 0 0 ≤ x ∧ x ≤ (arr.mergeSort).getD (arr.mergeSort.length - 1) 0 := by
  intro x hx
  have hs : arr.mergeSort.Pairwise (· ≤ ·) := by
    have := List.pairwise_mergeSort (le := fun a b : ℚ => decide (a ≤ b))
      (by intro a b c; simpa using le_trans) (by intro a b; simpa using le_total a b) arr
    simpa using this
  have hm : x ∈ arr.mergeSort := by simpa using hx
  obtain ⟨i, hi, rfl⟩ := List.getElem_of_mem hm
  rw [getD_lt (by omega), getD_lt (by omega)]
  constructor
  · rcases Nat.eq_zero_or_pos i with e | e
    · subst e; exact le_rfl
    · exact List.pairwise_iff_getElem.1 hs 0 i _ hi e
  · rcases (show i ≤ arr.mergeSort.length - 1 by omega).lt_or_eq with e | e
    · exact List.pairwise_iff_getElem.1 hs i _ hi _ e
    · simp only [← e]; exact le_rfl

theorem sort_first_mem {arr : List ℚ} (h : arr ≠ []) : (arr.mergeSort).getD 0 0 ∈ arr := by
  have hl : 0 < arr.mergeSort.length := by simpa using List.length_pos_of_ne_nil h
  rw [getD_lt hl]
  exact List.mem_mergeSort.1 (List.getElem_mem hl)

theorem sort_last_mem {arr : List ℚ} (h : arr ≠ []) :
    (arr.mergeSort).getD (arr.mergeSort.length - 1) 0 ∈ arr := by
  have hl : 0 < arr.mergeSort.length := by simpa using List.length_pos_of_ne_nil h
  rw [getD_lt (by omega)]
  exact List.mem_mergeSort.1 (List.getElem_mem _)

theorem min?_spec {arr : List ℚ} {m : ℚ} (h : arr.min? = some m) : m ∈ arr ∧ ∀ x ∈ arr, m ≤ x :=
  ⟨List.min?_mem h, fun x hx => (List.le_min?_iff h).1 le_rfl x hx⟩

theorem max?_spec {arr : List ℚ} {m : ℚ} (h : arr.max? = some m) : m ∈ arr ∧ ∀ x ∈ arr, x ≤ m :=
  ⟨List.max?_mem h, fun x hx => (List.max?_le_iff h).1 le_rfl x hx⟩

/-- `np.linspace(0, 1, n+1)` is a list of non-negative numbers from 0 to 1. -/
theorem linspace01 {fl : ℚ → ℚ} (hfl : Rounding fl) (n : ℕ) (hn : 1 ≤ n) :
    ∃ l, linspace fl 0 1 ((n : ℤ) + 1) = .ok l ∧ l.length = n + 1 ∧ l.getD 0 0 = 0 ∧
      l.getD n 0 = 1 ∧ ∀ q ∈ l, 0 ≤ q := by
  have h0 : fl 0 = 0 := by simpa using hfl.int 0 (by simp)
  obtain ⟨l, h1, h2, h3, h4⟩ := linspace_spec hfl (start := 0) (stop := 1) n hn h0
  exact ⟨l, h1, h2, h3, h4, linspace_ge hfl n (by norm_num) h0 h1⟩

/-- The edges computed from data with a number of bins: their number, the first and the last. -/
theorem binEdges_spec {fl : ℚ → ℚ} (hfl : Rounding fl) {arr : List ℚ} (hne : arr ≠ [])
    (hrep : ∀ x ∈ arr, fl x = x) (hlen : arr.length ≤ 4503599627370496) (n : ℕ) (hn : 1 ≤ n)
    (quantile : Bool) :
    ∃ edges lo hi, binEdges fl arr n quantile = .ok edges ∧ edges.length = n + 1 ∧ lo ∈ arr ∧ hi ∈ arr ∧
      (∀ x ∈ arr, lo ≤ x ∧ x ≤ hi) ∧ edges.getD 0 0 = fl (lo - fl (1 / 10 ^ 14)) ∧
      edges.getD n 0 = hi := by
  cases quantile with
  | true =>
    obtain ⟨l, h1, h2, h3, h4, h5⟩ := linspace01 hfl n hn
    have hs : arr.mergeSort ≠ [] := by
      intro h; apply hne; have := congrArg List.length h; simpa using this
    have hrep' : ∀ x ∈ arr.mergeSort, fl x = x := fun x hx => hrep x (List.mem_mergeSort.1 hx)
    cases l with
    | nil => simp at h2
    | cons q0 qs =>
      have hq0 : q0 = 0 := by simpa using h3
      refine ⟨fl (quantile1 fl arr.mergeSort q0 - fl (1 / 10 ^ 14)) :: qs.map (quantile1 fl arr.mergeSort),
        _, _, ?_, ?_, sort_first_mem hne, sort_last_mem hne, sort_bounds arr, ?_, ?_⟩
      · unfold binEdges
        have hs' : arr.mergeSort.isEmpty = false := by
          cases h : arr.mergeSort with
          | nil => exact absurd h hs
          | cons => rfl
        simp only [if_true, h1, bind, Except.bind, hs', List.map_cons]
        rfl
      · simpa using h2
      · simp only [hq0, List.getD_cons_zero]
        rw [quantile1_zero hfl hs hrep']
      · obtain ⟨m, rfl⟩ : ∃ m, n = m + 1 := ⟨n - 1, by omega⟩
        rw [List.getD_cons_succ] at h4 ⊢
        have hm : m < qs.length := by simp at h2; omega
        rw [getD_lt hm] at h4
        rw [getD_lt (by simpa using hm), List.getElem_map, h4,
          quantile1_one hfl hs hrep' (by simpa using hlen)]
  | false =>
    obtain ⟨lo, hlo⟩ : ∃ m, arr.min? = some m := by
      cases h : arr.min? with
      | none => exact absurd (List.min?_eq_none_iff.1 h) hne
      | some m => exact ⟨m, rfl⟩
    obtain ⟨hi, hhi⟩ : ∃ m, arr.max? = some m := by
      cases h : arr.max? with
      | none => exact absurd (List.max?_eq_none_iff.1 h) hne
      | some m => exact ⟨m, rfl⟩
    obtain ⟨l, h1, h2, h3, h4⟩ := linspace_spec hfl (start := fl (lo - fl (1 / 10 ^ 14))) (stop := hi) n hn
      (hfl.idem _)
    refine ⟨l, lo, hi, ?_, h2, (min?_spec hlo).1, (max?_spec hhi).1,
      fun x hx => ⟨(min?_spec hlo).2 x hx, (max?_spec hhi).2 x hx⟩, h3, h4⟩
    unfold binEdges
    simp only [hlo, hhi, Bool.false_eq_true, if_false]
    exact h1

/-! ### binary64: no edge is below the first one -/

theorem rne53_half {x : ℚ} (h : IsF53 x) : rne53 (x / 2) = x / 2 := by
  obtain ⟨z, e, hz, rfl⟩ := h
  have := rne53_exact z (e - 1) hz
  rw [zpow_sub₀ (by norm_num : (2:ℚ) ≠ 0), zpow_one] at this
  rwa [mul_div_assoc]

theorem rne53_le_two {x : ℚ} (h : 0 ≤ x) : rne53 x ≤ 2 * x := by
  rcases h.lt_or_eq with h | h
  · have h1 := rne53_err x
    obtain ⟨h2, -⟩ := ulpExp_spec h.ne'
    rw [abs_of_pos h] at h2
    have h3 : (2 : ℚ) ^ ulpExp x ≤ 2 ^ (ulpExp x + 52) := zpow_le_zpow_right₀ (by norm_num) (by omega)
    rw [abs_le] at h1
    have := two_zpow_pos (ulpExp x)
    linarith [h1.2]
  · rw [← h, rne53_zero]; norm_num

theorem quantile1_ge {s : List ℚ} (hs : s.Pairwise (· ≤ ·)) (hne : s ≠ []) (hrep : ∀ x ∈ s, IsF53 x)
    {q : ℚ} (hq : 0 ≤ q) : s.getD 0 0 ≤ quantile1 rne53 s q := by
  have hl : 0 < s.length := List.length_pos_of_ne_nil hne
  have mono : ∀ i j, i ≤ j → j < s.length → s.getD i 0 ≤ s.getD j 0 := by
    intro i j hij hj
    rw [getD_lt hj, getD_lt (by omega)]
    rcases hij.lt_or_eq with e | e
    · exact List.pairwise_iff_getElem.1 hs i j (by omega) hj e
    · subst e; exact le_rfl
  have rep : ∀ i, i < s.length → IsF53 (s.getD i 0) := fun i hi => by
    rw [getD_lt hi]; exact hrep _ (List.getElem_mem hi)
  have hn1 : (0 : ℚ) ≤ (s.length : ℚ) - 1 := by
    have : (1 : ℚ) ≤ s.length := by exact_mod_cast hl
    linarith
  unfold quantile1
  simp only
  set v := rne53 (((s.length : ℚ) - 1) * q) with hv
  have hv0 : 0 ≤ v := rne53_nonneg (mul_nonneg hn1 hq)
  -- the two neighbours
  obtain ⟨i, j, hij, hj, ha, hb⟩ : ∃ i j, i ≤ j ∧ j < s.length ∧
      (if decide ((s.length : ℚ) - 1 ≤ v) = true then s.length - 1 else ⌊v⌋.toNat) = i ∧
      (if decide ((s.length : ℚ) - 1 ≤ v) = true then s.getD (s.length - 1) 0
        else s.getD (i + 1) 0) = s.getD j 0 := by
    by_cases ht : (s.length : ℚ) - 1 ≤ v
    · simp only [ht, decide_true, if_true]
      exact ⟨_, s.length - 1, le_rfl, by omega, rfl, rfl⟩
    · simp only [ht, decide_false, Bool.false_eq_true, if_false]
      refine ⟨_, ⌊v⌋.toNat + 1, by omega, ?_, rfl, rfl⟩
      have h1 : ⌊v⌋ < (s.length : ℤ) - 1 := by
        rw [Int.floor_lt]; push_cast; linarith
      have h2 : 0 ≤ ⌊v⌋ := Int.floor_nonneg.2 hv0
      omega
  rw [ha, hb]
  set a := s.getD i 0
  set b := s.getD j 0
  have hab : a ≤ b := mono i j hij hj
  have h0a : s.getD 0 0 ≤ a := mono 0 i (Nat.zero_le _) (by omega)
  have hfa : rne53 a = a := (rep i (by omega)).rne
  have hg0 : 0 ≤ rne53 (v - ⌊v⌋) := rne53_nonneg (by linarith [Int.floor_le v])
  have hd0 : 0 ≤ rne53 (b - a) := rne53_nonneg (by linarith)
  split
  · refine le_trans h0a ?_
    calc a = rne53 a := hfa.symm
      _ ≤ _ := rne53_mono (by linarith [rne53_nonneg (mul_nonneg hd0 hg0)])
  · rename_i hg
    refine le_trans h0a ?_
    have h1 : rne53 (1 - rne53 (v - ⌊v⌋)) ≤ 1 / 2 := by
      have e : rne53 (1 / 2) = 1 / 2 := by
        have := rne53_exact 1 (-1) (by norm_num)
        norm_num at this ⊢; exact this
      rw [← e]; exact rne53_mono (by linarith [not_lt.1 hg])
    have h2 : rne53 (rne53 (b - a) * rne53 (1 - rne53 (v - ⌊v⌋))) ≤ rne53 (b - a) / 2 := by
      rw [← rne53_half (rne53_isF53 (b - a))]
      refine rne53_mono ?_
      nlinarith
    have h3 := rne53_le_two (show 0 ≤ b - a by linarith)
    calc a = rne53 a := hfa.symm
      _ ≤ _ := rne53_mono (by linarith)

/-- In binary64 arithmetic no edge is below the first one. -/
theorem binEdges_ge {arr : List ℚ} (hne : arr ≠ []) (hrep : ∀ x ∈ arr, IsF53 x) (n : ℕ) (hn : 1 ≤ n)
    (quantile : Bool) {edges : List ℚ} (h : binEdges rne53 arr n quantile = .ok edges) {m : ℚ}
    (hm : ∀ x ∈ arr, m ≤ x) (hfirst : edges.getD 0 0 = m) : ∀ e ∈ edges, m ≤ e := by
  cases quantile with
  | true =>
    obtain ⟨l, h1, h2, h3, h4, h5⟩ := linspace01 Rounding_rne53 n hn
    have hs : arr.mergeSort ≠ [] := by
      intro h; apply hne; have := congrArg List.length h; simpa using this
    have hsorted : arr.mergeSort.Pairwise (· ≤ ·) := by
      have := List.pairwise_mergeSort (le := fun a b : ℚ => decide (a ≤ b))
        (by intro a b c; simpa using le_trans) (by intro a b; simpa using le_total a b) arr
      simpa using this
    unfold binEdges at h
    have hs' : arr.mergeSort.isEmpty = false := by
      cases h : arr.mergeSort with
      | nil => exact absurd h hs
      | cons => rfl
    cases l with
    | nil => simp at h2
    | cons q0 qs =>
      simp only [if_true, h1, bind, Except.bind, hs', List.map_cons] at h
      have h : edges = rne53 (quantile1 rne53 arr.mergeSort q0 - rne53 (1 / 10 ^ 14)) ::
          qs.map (quantile1 rne53 arr.mergeSort) := by
        have : Except.ok (rne53 (quantile1 rne53 arr.mergeSort q0 - rne53 (1 / 10 ^ 14)) ::
          qs.map (quantile1 rne53 arr.mergeSort)) = (Except.ok edges : Except Err _) := h
        injection this with this
        exact this.symm
      intro e he
      rw [h] at he hfirst
      rcases List.mem_cons.1 he with rfl | he
      · simp only [List.getD_cons_zero] at hfirst; exact hfirst.ge
      · obtain ⟨q, hq, rfl⟩ := List.mem_map.1 he
        exact le_trans (hm _ (sort_first_mem hne)) (quantile1_ge hsorted hs
          (fun x hx => hrep x (List.mem_mergeSort.1 hx)) (h5 q (List.mem_cons_of_mem _ hq)))
  | false =>
    unfold binEdges at h
    cases hlo : arr.min? with
    | none => exact absurd (List.min?_eq_none_iff.1 hlo) hne
    | some lo =>
      cases hhi : arr.max? with
      | none => exact absurd (List.max?_eq_none_iff.1 hhi) hne
      | some hi =>
        simp only [hlo, hhi, Bool.false_eq_true, if_false] at h
        obtain ⟨l, g1, g2, g3, g4⟩ := linspace_spec Rounding_rne53
          (start := rne53 (lo - rne53 (1 / 10 ^ 14))) (stop := hi) n hn (rne53_idem _)
        have : l = edges := by rw [g1] at h; injection h
        subst this
        rw [g3] at hfirst
        have hlohi : lo ≤ hi := (max?_spec hhi).2 _ (min?_spec hlo).1
        have hst : rne53 (lo - rne53 (1 / 10 ^ 14)) ≤ hi := by
          rw [hfirst]; exact le_trans (hm _ (min?_spec hlo).1) hlohi
        have := linspace_ge Rounding_rne53 n hst (rne53_idem _) g1
        rwa [hfirst] at this

end Phik
