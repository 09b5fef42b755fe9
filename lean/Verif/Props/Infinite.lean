import Verif.Lemmas.Infinite
import Verif.Props.Matrix

/-! # Property C82: infinite values in a column -/

namespace Phik

open Spec Props

/-! ### automatic edges for infinite data -/

theorem linspaceX_inf (fl : ℚ → ℚ) {start stop : XF} (h : ∀ q, XF.sub fl stop start ≠ .fin q) {num : ℤ} (hn : 0 ≤ num) :
    linspaceX fl start stop num = .ok ((List.range num.toNat).map fun i => if 1 < num.toNat ∧ i + 1 = num.toNat then stop
      else XF.add fl (XF.scale fl i (XF.sub fl stop start)) start) := by
  unfold linspaceX
  rw [if_neg (by omega)]
  have hd : ∀ d, XF.divPos fl (XF.sub fl stop start) d = XF.sub fl stop start := by
    intro d
    cases hx : XF.sub fl stop start with
    | fin q => exact absurd hx (h q)
    | _ => rfl
  simp only [hd, h, if_false, ite_self]

theorem scale_pinf (fl : ℚ → ℚ) (i : ℕ) : XF.scale fl i .pinf = if i = 0 then .nan else .pinf := by
  rcases Nat.eq_zero_or_pos i with rfl | hi
  · simp [XF.scale]
  · simp only [XF.scale]
    rw [if_neg (by positivity), if_pos (by positivity), if_neg (by omega)]

theorem linspaceX_shape (fl : ℚ → ℚ) {lo hi : XF} (h1 : lo ≠ .nan) (h2 : hi ≠ .nan) (hle : lo ≤ hi)
    (hinf : lo = .ninf ∨ hi = .pinf) {num : ℤ} (hn : 0 ≤ num) :
    ∃ y : ℕ → XF, (y 0 = .nan ∧ ((∀ i, y i = .nan) ∨ (hi = .pinf ∧ ∀ i, 0 < i → y i = .pinf))) ∧
      linspaceX fl (XF.sub fl lo (.fin (fl (1 / 10 ^ 14)))) hi num =
        .ok ((List.range num.toNat).map fun i => if 1 < num.toNat ∧ i + 1 = num.toNat then hi else y i) := by
  have hn1 : ∀ i : ℕ, XF.add fl (XF.scale fl i .pinf) .ninf = .nan := by
    intro i; rw [scale_pinf]; split <;> rfl
  have hn2 : ∀ (i : ℕ) (s : XF), XF.add fl (XF.scale fl i .nan) s = .nan := fun i s => by cases s <;> rfl
  cases lo with
  | nan => exact absurd rfl h1
  | ninf =>
    change ∃ y : ℕ → XF, _ ∧ linspaceX fl .ninf hi num = _
    have key : ∀ d, XF.sub fl hi .ninf = d → (d = .pinf ∨ d = .nan) →
        ∃ y : ℕ → XF, (y 0 = .nan ∧ ((∀ i, y i = .nan) ∨ (hi = .pinf ∧ ∀ i, 0 < i → y i = .pinf))) ∧
        linspaceX fl .ninf hi num =
        .ok ((List.range num.toNat).map fun i => if 1 < num.toNat ∧ i + 1 = num.toNat then hi else y i) := by
      intro d hd hd'
      have hy : ∀ i : ℕ, XF.add fl (XF.scale fl i d) .ninf = .nan := by
        intro i
        rcases hd' with rfl | rfl
        · exact hn1 i
        · exact hn2 i _
      refine ⟨fun i => XF.add fl (XF.scale fl i d) .ninf, ⟨hy 0, Or.inl hy⟩, ?_⟩
      rw [linspaceX_inf fl (by rw [hd]; rcases hd' with rfl | rfl <;> simp) hn, hd]
    cases hi with
    | nan => exact absurd rfl h2
    | ninf => exact key _ rfl (Or.inr rfl)
    | fin b => exact key _ rfl (Or.inl rfl)
    | pinf => exact key _ rfl (Or.inl rfl)
  | fin a =>
    rcases hinf with h | rfl
    · cases h
    · change ∃ y : ℕ → XF, _ ∧ linspaceX fl (.fin (fl (a + -fl (1 / 10 ^ 14)))) .pinf num = _
      generalize fl (a + -fl (1 / 10 ^ 14)) = s
      have hd : XF.sub fl .pinf (.fin s) = .pinf := rfl
      refine ⟨fun i => XF.add fl (XF.scale fl i .pinf) (.fin s), ⟨?_, Or.inr ⟨rfl, fun i hi => ?_⟩⟩, ?_⟩
      · simp only [scale_pinf]; rfl
      · simp only [scale_pinf, if_neg (show i ≠ 0 by omega)]; rfl
      · rw [linspaceX_inf fl (by rw [hd]; simp) hn, hd]
  | pinf =>
    obtain rfl : hi = .pinf := le_antisymm (XF.le_pinf h2) hle
    change ∃ y : ℕ → XF, _ ∧ linspaceX fl .pinf .pinf num = _
    have hd : XF.sub fl .pinf .pinf = .nan := rfl
    refine ⟨fun i => XF.add fl (XF.scale fl i .nan) .pinf, ⟨hn2 0 _, Or.inl fun i => hn2 i _⟩, ?_⟩
    rw [linspaceX_inf fl (by rw [hd]; simp) hn, hd]

theorem shape_search {hi : XF} (h2 : hi ≠ .nan) {y : ℕ → XF}
    (hy : y 0 = .nan ∧ ((∀ i, y i = .nan) ∨ (hi = .pinf ∧ ∀ i, 0 < i → y i = .pinf))) {n : ℕ} {edges : List XF}
    (he : edges = (List.range n).map fun i => if 1 < n ∧ i + 1 = n then hi else y i) :
    (∀ e ∈ edges, e = .nan ∨ e = hi) ∧ ∃ c, (c = 0 ∨ c = edges.length) ∧ searchGoX edges .nan 0 edges.length = c ∧
      searchGoX edges .nan 0 (if c < edges.length then c + 1 else edges.length) = c := by
  have hlen : edges.length = n := by simp [he]
  have hget : ∀ i, i < n → edges.getD i .nan = if 1 < n ∧ i + 1 = n then hi else y i := by
    intro i hi
    rw [getD_lt (by omega)]
    simp [he]
  refine ⟨?_, ?_⟩
  · intro e hmem
    rw [he] at hmem
    obtain ⟨i, -, rfl⟩ := List.mem_map.1 hmem
    split
    · exact Or.inr rfl
    · rcases hy.2 with h | ⟨h, h'⟩
      · exact Or.inl (h i)
      · rcases Nat.eq_zero_or_pos i with rfl | hi0
        · exact Or.inl hy.1
        · exact Or.inr ((h' i hi0).trans h.symm)
  · rw [hlen]
    -- all interior edges NaN, at least three edges, or at most one edge
    by_cases hA : (∀ i, i + 1 < n → edges.getD i .nan = .nan) ∧ n ≠ 2
    · have key : ∀ j, j ≤ n → searchGoX edges .nan 0 j = 0 := by
        intro j hj
        rcases Nat.eq_zero_or_pos j with rfl | hj0
        · rw [searchGoX]; simp
        · rw [searchGoX, dif_pos hj0]
          simp only [Nat.sub_zero, Nat.zero_add]
          have hmid : edges.getD (j / 2) .nan = .nan := by
            rcases Nat.lt_or_ge (j / 2 + 1) n with h | h
            · exact hA.1 _ h
            · have hn1 : n = 1 := by omega
              subst hn1
              rw [hget _ (by omega)]
              have : j / 2 = 0 := by omega
              rw [this]; simpa using hy.1
          rw [hmid, if_neg (lt_irrefl _)]
          obtain ⟨-, b, c, -⟩ := searchGoX_spec edges .nan 0 (j / 2) (Nat.zero_le _)
          by_contra hne
          have := c (by omega)
          rw [hA.1 _ (by omega)] at this
          exact lt_irrefl _ this
      refine ⟨0, Or.inl rfl, key _ le_rfl, key _ ?_⟩
      split <;> omega
    · have hB : 2 ≤ n ∧ ∀ i, 0 < i → i < n → edges.getD i .nan ≠ .nan := by
        by_cases hn2 : n = 2
        · refine ⟨by omega, fun i hi hin => ?_⟩
          rw [hget i hin, if_pos (by omega)]
          exact h2
        · have hA' : ¬ ∀ i, i + 1 < n → edges.getD i .nan = .nan := fun h => hA ⟨h, hn2⟩
          push Not at hA'
          obtain ⟨i, hi, hne⟩ := hA'
          refine ⟨by omega, fun j hj hjn => ?_⟩
          rw [hget i (by omega), if_neg (by omega)] at hne
          rcases hy.2 with h | ⟨h, h'⟩
          · exact absurd (h i) hne
          · rw [hget j hjn]
            split
            · exact h2
            · rw [h' j hj]; simp
      have key : searchGoX edges .nan 0 n = n := by
        have hpos : 0 < searchGoX edges .nan 0 n := by
          rw [searchGoX, dif_pos (by omega)]
          simp only [Nat.sub_zero, Nat.zero_add]
          rw [if_pos (XF.lt_nan.2 (hB.2 _ (by omega) (by omega)))]
          have := (searchGoX_spec edges .nan (n / 2 + 1) n (by omega)).1
          omega
        obtain ⟨-, b, -, d⟩ := searchGoX_spec edges .nan 0 n (Nat.zero_le _)
        by_contra hne
        have := d (by omega)
        exact hB.2 _ hpos (by omega) (le_antisymm (XF.le_nan _) this)
      refine ⟨n, Or.inr rfl, key, ?_⟩
      rw [if_neg (lt_irrefl _)]
      exact key

theorem labels_nil {arr edges : List XF} {c : ℕ} (hc : c = 0 ∨ c = edges.length)
    (h : searchsortedX edges arr = arr.map fun x => if x = .nan then c else 0) : (binArrayX arr edges).2 = [] := by
  unfold binArrayX
  simp only [h]
  rw [List.filterMap_eq_nil_iff]
  intro i hi
  rw [List.mem_range] at hi
  rw [if_neg]
  simp only [List.mem_map, not_exists, not_and]
  intro x _ hx
  split at hx <;> omega

namespace Props

/-- The order of the values of a column: minus infinity, the numbers, infinity; NaN is the largest. -/
theorem infinite_order (a b : ℚ) :
    (XF.fin a < XF.fin b ↔ a < b) ∧ XF.ninf < .fin a ∧ XF.fin a < .pinf ∧ XF.pinf < .nan :=
  ⟨XF.fin_lt_fin, XF.ninf_lt_fin a, XF.fin_lt_pinf a, XF.pinf_lt_nan⟩

/-- **C82 (search).** Although numpy starts the search of every value from the bounds of the one before, for sorted edges it
returns the number of edges below the value (a NaN is above every edge that is a number). -/
theorem infinite_search {edges : List XF} (hs : edges.Pairwise (· ≤ ·)) (arr : List XF) :
    searchsortedX edges arr = arr.map fun x => (edges.filter fun e => decide (e < x)).length :=
  searchsortedX_below hs arr

example : searchsortedX [.fin 0, .fin 1, .pinf] [.pinf, .nan, .ninf, .fin 1, .fin 2] = [2, 3, 0, 1, 2] := by
  rw [infinite_search (by
    simp only [List.pairwise_cons, List.mem_cons, List.not_mem_nil, or_false, forall_eq_or_imp, forall_eq, XF.fin_le_fin]
    exact ⟨⟨by norm_num, (XF.fin_lt_pinf 0).le⟩, (XF.fin_lt_pinf 1).le, by simp, by simp⟩)]
  simp [List.filter_cons, XF.fin_lt_fin, XF.fin_lt_pinf, XF.pinf_lt_nan, XF.fin_lt_nan, XF.not_lt_ninf,
    (XF.fin_lt_pinf _).not_gt]

/-- **C82 (given edges).** `bin_array` with sorted edges and any data: NaN exactly for NaN, 'UF' exactly for values not above
the first edge, 'OF' exactly for values above the last edge, and the bin number `k` exactly for values in
`(edges[k-1], edges[k]]`, where values and edges may be infinite. -/
theorem infinite_bin_index {edges : List XF} (hs : edges.Pairwise (· ≤ ·)) (hne : edges ≠ []) (arr : List XF) :
    (binArrayX arr edges).1.length = arr.length ∧
    ∀ (i : ℕ) (hi : i < arr.length) (ho : i < (binArrayX arr edges).1.length),
      ((binArrayX arr edges).1[i] = .nan ↔ arr[i] = .nan) ∧
      ((binArrayX arr edges).1[i] = .str "UF" ↔ arr[i] ≠ .nan ∧ arr[i] ≤ edges.head hne) ∧
      ((binArrayX arr edges).1[i] = .str "OF" ↔ arr[i] ≠ .nan ∧ edges.getLast hne < arr[i]) ∧
      (∀ q, (binArrayX arr edges).1[i] = .num q ↔ arr[i] ≠ .nan ∧ ∃ (k : ℕ) (hk : k + 1 < edges.length),
        q = (k + 1 : ℕ) ∧ edges[k] < arr[i] ∧ arr[i] ≤ edges[k + 1]) := by
  have hfst := binArrayX_fst (searchsortedX_below hs arr)
  refine ⟨by rw [hfst, List.length_map], fun i hi ho => ?_⟩
  have e : (binArrayX arr edges).1[i] = xcellOf edges.length arr[i] (below edges arr[i]) := by simp [hfst]
  rw [e]
  generalize arr[i] = x
  have hl : 0 < edges.length := List.length_pos_of_ne_nil hne
  have hb := fun {i : ℕ} (hi : i < edges.length) => below_iff hs x hi
  have hle := below_le edges x
  have hhead : x ≤ edges.head hne ↔ below edges x = 0 := by
    have := hb hl
    rw [getD_lt hl] at this
    rw [List.head_eq_getElem, ← not_lt, this]
    omega
  have hlast : edges.getLast hne < x ↔ below edges x = edges.length := by
    have := hb (i := edges.length - 1) (by omega)
    rw [getD_lt (by omega)] at this
    rw [List.getLast_eq_getElem, this]
    omega
  unfold xcellOf
  by_cases hx : x = .nan
  · simp [hx]
  · simp only [hx, if_false, ne_eq, not_false_eq_true, true_and]
    rw [hhead, hlast]
    refine ⟨?_, ?_, ?_, fun q => ?_⟩
    · simp only [iff_false]; split
      · simp
      · split <;> simp
    · split
      · simp [*]
      · next h => simp only [h, iff_false]; split <;> simp
    · split
      · next h => simp only [h]; simp; omega
      · split <;> simp [*]
    · constructor
      · intro h
        split at h
        · cases h
        · split at h
          · cases h
          · next h0 h1 =>
            cases h
            refine ⟨below edges x - 1, by omega, by congr 1; omega, ?_, ?_⟩
            · have := (hb (i := below edges x - 1) (by omega)).2 (by omega)
              rwa [getD_lt] at this
            · have : ¬ edges.getD (below edges x) .nan < x := by rw [hb (by omega)]; omega
              rw [getD_lt (by omega), not_lt] at this
              have e : below edges x - 1 + 1 = below edges x := by omega
              simpa only [e] using this
      · rintro ⟨k, hk, rfl, h1, h2⟩
        have g1 := hb (i := k) (by omega)
        have g2 := hb hk
        rw [getD_lt (by omega)] at g1
        rw [getD_lt hk] at g2
        have g3 := g1.1 h1
        have g4 : ¬ k + 1 < below edges x := fun h => absurd (g2.2 h) (not_lt.2 h2)
        have : below edges x = k + 1 := by omega
        rw [this, if_neg (by omega), if_neg (by omega)]

/-- **C82 (given edges, infinite data).** Minus infinity is an underflow for all sorted edges, even when the first edge is minus
infinity.  Infinity is an overflow, except that with infinity as the last edge it is in the first bin with that upper edge. -/
theorem infinite_given_edges {edges : List XF} (hs : edges.Pairwise (· ≤ ·)) (hne : edges ≠ []) (hnan : XF.nan ∉ edges)
    (arr : List XF) (i : ℕ) (hi : i < arr.length) (ho : i < (binArrayX arr edges).1.length) :
    (arr[i] = .ninf → (binArrayX arr edges).1[i] = .str "UF") ∧
    (arr[i] = .pinf → edges.getLast hne ≠ .pinf → (binArrayX arr edges).1[i] = .str "OF") ∧
    (arr[i] = .pinf → edges.getLast hne = .pinf → edges.head hne ≠ .pinf →
      ∃ (k : ℕ) (hk : k + 1 < edges.length), (binArrayX arr edges).1[i] = .num (k + 1 : ℕ) ∧ edges[k] ≠ .pinf ∧
        edges[k + 1] = .pinf) := by
  obtain ⟨h1, h2, h3, h4⟩ := (infinite_bin_index hs hne arr).2 i hi ho
  have hmem : ∀ e ∈ edges, e ≤ .pinf := fun e he => XF.le_pinf (fun h => hnan (h ▸ he))
  refine ⟨fun h => ?_, fun h hl => ?_, fun h hl hh => ?_⟩
  · rw [h2, h]; exact ⟨by simp, XF.ninf_le _⟩
  · rw [h3, h]; exact ⟨by simp, lt_of_le_of_ne (hmem _ (List.getLast_mem hne)) hl⟩
  · generalize hc : (binArrayX arr edges).1[i] = c at *
    cases c with
    | nan => exact absurd (h.symm.trans (h1.1 rfl)) (by simp)
    | num q =>
      obtain ⟨-, k, hk, rfl, g1, g2⟩ := (h4 q).1 rfl
      rw [h] at g1 g2
      exact ⟨k, hk, rfl, g1.ne, le_antisymm (hmem _ (List.getElem_mem _)) g2⟩
    | str s =>
      exfalso
      have hfst := binArrayX_fst (searchsortedX_below hs arr)
      have e : (binArrayX arr edges).1[i] = xcellOf edges.length arr[i] (below edges arr[i]) := by simp [hfst]
      rw [hc] at e
      unfold xcellOf at e
      rw [h] at e
      simp only [reduceCtorEq, if_false] at e
      split at e
      · have := (h2.1 e).2
        rw [h] at this
        exact hh (le_antisymm (hmem _ (List.head_mem hne)) this)
      · split at e
        · have := (h3.1 e).2
          rw [h, hl] at this
          exact lt_irrefl _ this
        · cases e

/-- **C82 (automatic bins).** Uniform automatic binning of a column with an infinite value, for every number of bins from -1:
it succeeds, but every value of the column, finite or not, becomes an underflow, NaN stays NaN, and no bin is reported. -/
theorem infinite_auto_all_underflow (fl : ℚ → ℚ) {arr : List XF} (hinf : XF.ninf ∈ arr ∨ XF.pinf ∈ arr) {n : ℤ} (hn : -1 ≤ n) :
    ∃ edges, binEdgesX fl (arr.filter (· ≠ .nan)) n false = .ok edges ∧ edges.length = (n + 1).toNat ∧
      (binArrayX arr edges).1 = arr.map (fun x => if x = .nan then Cell.nan else Cell.str "UF") ∧
      (binArrayX arr edges).2 = [] := by
  set v := arr.filter (· ≠ .nan) with hv
  have hvne : v ≠ [] := by
    intro h
    have : ∀ x ∈ arr, x = .nan := by
      intro x hx
      by_contra hne
      have : x ∈ v := by rw [hv]; simpa using ⟨hx, hne⟩
      rw [h] at this; simp at this
    rcases hinf with h' | h' <;> simpa using this _ h'
  obtain ⟨lo, hlo⟩ : ∃ a, v.min? = some a := by
    cases hm : v.min? with
    | none => exact absurd (List.min?_eq_none_iff.1 hm) hvne
    | some a => exact ⟨a, rfl⟩
  obtain ⟨hi, hhi⟩ : ∃ a, v.max? = some a := by
    cases hm : v.max? with
    | none => exact absurd (List.max?_eq_none_iff.1 hm) hvne
    | some a => exact ⟨a, rfl⟩
  obtain ⟨l1, l2⟩ := (List.min?_eq_some_iff (xs := v)).1 hlo
  obtain ⟨m1, m2⟩ := (List.max?_eq_some_iff (xs := v)).1 hhi
  have hmem : ∀ x, x ∈ v ↔ x ∈ arr ∧ x ≠ .nan := by intro x; rw [hv]; simp
  have hlon := ((hmem lo).1 l1).2
  have hhin := ((hmem hi).1 m1).2
  have hends : lo = .ninf ∨ hi = .pinf := by
    rcases hinf with h | h
    · exact Or.inl (le_antisymm (l2 _ ((hmem _).2 ⟨h, by simp⟩)) (XF.ninf_le _))
    · exact Or.inr (le_antisymm (XF.le_pinf hhin) (m2 _ ((hmem _).2 ⟨h, by simp⟩)))
  obtain ⟨y, hy, hl⟩ := linspaceX_shape fl hlon hhin (m2 _ l1) hends (num := n + 1) (by omega)
  refine ⟨(List.range (n + 1).toNat).map fun i => if 1 < (n + 1).toNat ∧ i + 1 = (n + 1).toNat then hi else y i, ?_,
    by rw [List.length_map, List.length_range], ?_⟩
  · unfold binEdgesX
    simp only [Bool.false_eq_true, if_false, hlo, hhi]
    exact hl
  · obtain ⟨g1, c, g2, g3, g4⟩ := shape_search hhin hy (n := (n + 1).toNat) rfl
    have hs : searchsortedX ((List.range (n + 1).toNat).map
        fun i => if 1 < (n + 1).toNat ∧ i + 1 = (n + 1).toNat then hi else y i) arr =
        arr.map fun x => if x = .nan then c else 0 := by
      generalize hE : ((List.range (n + 1).toNat).map
        fun i => if 1 < (n + 1).toNat ∧ i + 1 = (n + 1).toNat then hi else y i) = E at *
      unfold searchsortedX
      cases arr with
      | nil => rfl
      | cons x xs =>
        apply searchKeys_none g3 g4
        · intro z hz hzn e he hlt
          rcases g1 e he with rfl | rfl
          · exact XF.not_nan_lt _ hlt
          · exact absurd hlt (not_lt.2 (m2 _ ((hmem _).2 ⟨hz, hzn⟩)))
        · exact fun _ => Or.inr rfl
        · exact fun _ => rfl
        · exact le_rfl
    refine ⟨?_, labels_nil g2 hs⟩
    rw [binArrayX_fst hs]
    apply List.map_congr_left
    intro x _
    unfold xcellOf
    by_cases hx : x = .nan
    · simp [hx]
    · simp [hx]

end Props

/-! ### the columns of `bin_data` -/

theorem getXCol_mem {f : XFrame} {name : String} {c : XColumn} (h : getXCol f name = .ok c) : c ∈ f ∧ c.name = name := by
  unfold getXCol at h
  cases hf : f.find? (fun c => c.name == name) with
  | none => rw [hf] at h; cases h
  | some d =>
    rw [hf] at h
    cases h
    exact ⟨List.mem_of_find?_eq_some hf, by simpa using List.find?_some hf⟩

theorem getXCol_of_mem {f : XFrame} (hn : (f.map (·.name)).Nodup) {c : XColumn} (h : c ∈ f) : getXCol f c.name = .ok c := by
  unfold getXCol
  cases hf : f.find? (fun d => d.name == c.name) with
  | none => simpa using (List.find?_eq_none.1 hf) c h
  | some d =>
    have h1 := List.mem_of_find?_eq_some hf
    have h2 : d.name = c.name := by simpa using List.find?_some hf
    simp only [Except.ok.injEq]
    exact List.inj_on_of_nodup_map hn h1 h h2

theorem setXCol_names (f : XFrame) (name : String) (c : XColumn) (hc : c.name = name) :
    (setXCol f name c).map (·.name) = f.map (·.name) := by
  unfold setXCol
  rw [List.map_map]
  apply List.map_congr_left
  intro d _
  simp only [Function.comp]
  split
  · next h => rw [hc]; exact (by simpa using h : d.name = name).symm
  · rfl

theorem mapM_mem {α β : Type} {g : α → Except Err β} {l : List α} {arr : List β} (h : l.mapM g = .ok arr) :
    (∀ x ∈ l, ∃ y ∈ arr, g x = .ok y) ∧ ∀ y ∈ arr, ∃ x ∈ l, g x = .ok y := by
  induction l generalizing arr with
  | nil => simp only [List.mapM_nil] at h; cases h; simp
  | cons a l ih =>
    rw [List.mapM_cons] at h
    obtain ⟨b, hb, h⟩ := except_bind_ok h
    obtain ⟨bs, hbs, h⟩ := except_bind_ok h
    cases h
    obtain ⟨h1, h2⟩ := ih hbs
    constructor
    · intro x hx
      rcases List.mem_cons.1 hx with rfl | hx
      · exact ⟨b, by simp, hb⟩
      · obtain ⟨y, hy, hxy⟩ := h1 x hx
        exact ⟨y, by simp [hy], hxy⟩
    · intro y hy
      rcases List.mem_cons.1 hy with rfl | hy
      · exact ⟨a, by simp, hb⟩
      · obtain ⟨x, hx, hxy⟩ := h2 y hy
        exact ⟨x, by simp [hx], hxy⟩

/-- What the loop of `bin_data` leaves in the columns with a number of bins. -/
theorem binLoopX_cols {fl : ℚ → ℚ} {pf : String → Option XF} {data : XFrame} {bins : XBins} {quantile : Bool}
    {cols : List String} {xbins : Option (List XF)} {out out' : XFrame} {dict dict' : List (String × List (XF × XF))}
    (h : binLoopX fl pf data bins quantile cols xbins out dict = .ok (out', dict')) :
    out'.map (·.name) = out.map (·.name) ∧
    ∀ name q, bins.entry name = .num q → (name ∈ cols ∨ ∃ arr e, colFloatsX pf data name = .ok arr ∧
        binEdgesX fl (arr.filter (· ≠ .nan)) (truncQ q) quantile = .ok e ∧
        ∀ d ∈ out, d.name = name → d.cells = (binArrayX arr e).1.map .cell) →
      ∃ arr e, colFloatsX pf data name = .ok arr ∧
        binEdgesX fl (arr.filter (· ≠ .nan)) (truncQ q) quantile = .ok e ∧
        ∀ d ∈ out', d.name = name → d.cells = (binArrayX arr e).1.map .cell := by
  induction cols generalizing xbins out dict with
  | nil =>
    cases h
    refine ⟨rfl, fun name q hq h => ?_⟩
    rcases h with h | h
    · simp at h
    · exact h
  | cons n rest ih =>
    unfold binLoopX at h
    obtain ⟨xb, hx, h⟩ := except_bind_ok h
    obtain ⟨arr, ha, h⟩ := except_bind_ok h
    cases xb with
    | none => cases h
    | some e =>
      simp only at h
      obtain ⟨h1, h2⟩ := ih h
      refine ⟨h1.trans (setXCol_names _ _ _ rfl), fun name q hq hc => ?_⟩
      refine h2 name q hq ?_
      by_cases hnn : name = n
      · subst hnn
        right
        unfold selectEdgesX at hx
        rw [hq] at hx
        simp only at hx
        obtain ⟨arr', ha', hx⟩ := except_bind_ok hx
        obtain ⟨e', he', hx⟩ := except_bind_ok hx
        cases hx
        rw [ha] at ha'
        cases ha'
        refine ⟨arr, e, ha, he', fun d hd hdn => ?_⟩
        unfold setXCol at hd
        obtain ⟨d0, hd0, rfl⟩ := List.mem_map.1 hd
        by_cases hh : d0.name = name
        · simp [hh]
        · rw [if_neg (by simpa using hh)] at hdn
          exact absurd hdn hh
      · rcases hc with hc | ⟨arr', e', g1, g2, g3⟩
        · left
          rcases List.mem_cons.1 hc with hc | hc
          · exact absurd hc hnn
          · exact hc
        · right
          refine ⟨arr', e', g1, g2, fun d hd hdn => ?_⟩
          unfold setXCol at hd
          obtain ⟨d0, hd0, rfl⟩ := List.mem_map.1 hd
          by_cases hh : d0.name = n
          · rw [if_pos (by simpa using hh)] at hdn
            exact absurd hdn.symm hnn
          · rw [if_neg (by simpa using hh)] at hdn ⊢
            exact g3 d0 hd0 hdn

theorem binDataX_cols {fl : ℚ → ℚ} {pf : String → Option XF} {data : XFrame} {bins : XBins} {quantile : Bool}
    {cols : List String} {out : XFrame} {dict : List (String × List (XF × XF))}
    (h : binDataX fl pf data cols bins quantile = .ok (out, dict)) :
    out.map (·.name) = data.map (·.name) ∧
    ∀ name q, bins.entry name = .num q → name ∈ cols →
      ∃ arr e, colFloatsX pf data name = .ok arr ∧
        binEdgesX fl (arr.filter (· ≠ .nan)) (truncQ q) quantile = .ok e ∧
        ∀ d ∈ out, d.name = name → d.cells = (binArrayX arr e).1.map .cell := by
  unfold binDataX at h
  obtain ⟨u, -, h⟩ := except_bind_ok h
  obtain ⟨h1, h2⟩ := binLoopX_cols h
  exact ⟨h1, fun name q hq hc => h2 name q hq (Or.inl hc)⟩

/-! ### after binning -/

/-- The replacement of one entry. -/
def flagX (dropna du dof : Bool) (c : Cell) : Cell :=
  let c := if dropna then c else if c = .nan then .str "NaN" else c
  let c := if du then (if c = .str "UF" then .nan else c) else c
  if dof then (if c = .str "OF" then .nan else c) else c

theorem applyFlagsX_eq (dropna du dof : Bool) (f : XFrame) :
    applyFlagsX dropna du dof f = f.map fun c => { c with cells := c.cells.map (XCell.map (flagX dropna du dof)) } := by
  unfold applyFlagsX flagX
  have hid : ∀ l : List XCell, l.map (XCell.map fun c => c) = l := by
    intro l
    conv_rhs => rw [← List.map_id l]
    apply List.map_congr_left
    intro x _
    cases x <;> rfl
  have hcomp : ∀ (g g' : Cell → Cell), XCell.map g ∘ XCell.map g' = XCell.map (g ∘ g') := by
    intro g g'
    funext x
    cases x <;> rfl
  cases dropna <;> cases du <;> cases dof <;> simp [hcomp, Function.comp_def, hid]

theorem countsX_small {l : List (XCell × XCell)}
    (h : (∃ v, ∀ p ∈ l, p.1.isNan = true ∨ p.1 = v) ∨ (∃ v, ∀ p ∈ l, p.2.isNan = true ∨ p.2 = v)) :
    (countsX l).r ≤ 1 ∨ (countsX l).c ≤ 1 := by
  have key : ∀ (s : Finset XCell) (v : XCell), (∀ x ∈ s, x = v) → (s.sort (· ≤ ·)).length ≤ 1 := by
    intro s v hs
    rw [Finset.length_sort, Finset.card_le_one]
    intro a ha b hb
    rw [hs a ha, hs b hb]
  rcases h with ⟨v, h⟩ | ⟨v, h⟩
  · left
    refine key _ v fun x hx => ?_
    simp only [List.mem_toFinset, List.mem_map, List.mem_filter, Bool.and_eq_true, Bool.not_eq_true'] at hx
    obtain ⟨p, ⟨hp, h1, h2⟩, rfl⟩ := hx
    rcases h p hp with h' | h'
    · rw [h'] at h1; cases h1
    · exact h'
  · right
    refine key _ v fun x hx => ?_
    simp only [List.mem_toFinset, List.mem_map, List.mem_filter, Bool.and_eq_true, Bool.not_eq_true'] at hx
    obtain ⟨p, ⟨hp, h1, h2⟩, rfl⟩ := hx
    rcases h p hp with h' | h'
    · rw [h'] at h2; cases h2
    · exact h'

theorem calcPhikX_names {nm : Numerics} {f : XFrame} {noise : Bool} {co : String × String}
    {p : String × String × Option ℝ} (h : calcPhikX nm f noise co = .ok p) : p.1 = co.1 ∧ p.2.1 = co.2 := by
  unfold calcPhikX at h
  split at h
  · cases h; exact ⟨rfl, rfl⟩
  · obtain ⟨a, -, h⟩ := except_bind_ok h
    obtain ⟨b, -, h⟩ := except_bind_ok h
    simp only at h
    split at h
    · cases h; exact ⟨rfl, rfl⟩
    · obtain ⟨x, -, h⟩ := except_bind_ok h
      cases h; exact ⟨rfl, rfl⟩

theorem calcPhikX_none {nm : Numerics} {f : XFrame} {noise : Bool} {co : String × String}
    {p : String × String × Option ℝ} (h : calcPhikX nm f noise co = .ok p) (hne : co.1 ≠ co.2)
    (hc : ∃ v, (∀ d ∈ f, d.name = co.1 → ∀ x ∈ d.cells, x.isNan = true ∨ x = v) ∨
      (∀ d ∈ f, d.name = co.2 → ∀ x ∈ d.cells, x.isNan = true ∨ x = v)) : p.2.2 = none := by
  unfold calcPhikX at h
  rw [if_neg hne] at h
  obtain ⟨a, ha, h⟩ := except_bind_ok h
  obtain ⟨b, hb, h⟩ := except_bind_ok h
  obtain ⟨a1, a2⟩ := getXCol_mem ha
  obtain ⟨b1, b2⟩ := getXCol_mem hb
  have hsmall := countsX_small (l := a.cells.zip b.cells) (by
    obtain ⟨v, hc | hc⟩ := hc
    · exact Or.inl ⟨v, fun p hp => hc a a1 a2 _ (List.of_mem_zip (a := p.1) (b := p.2) hp).1⟩
    · exact Or.inr ⟨v, fun p hp => hc b b1 b2 _ (List.of_mem_zip (a := p.1) (b := p.2) hp).2⟩)
  simp only at h
  rw [if_pos (by omega)] at h
  cases h
  rfl

theorem phikFromRebinnedX_spec {nm : Numerics} {sched : Option (List ℕ)} {f : XFrame} (hn : (f.map (·.name)).Nodup)
    (hs : ValidSched (cwr (f.map (·.name))).length sched) {noise dropna du dof : Bool} {t : LTable}
    (h : phikFromRebinnedX nm sched f noise dropna du dof = .ok t) :
    IsCorrTable (f.map (·.name)) (fun a b v => ∃ p, calcPhikX nm (applyFlagsX dropna du dof f) noise (a, b) = .ok p ∧
      p.2.2 = v) t := by
  have hnames : (applyFlagsX dropna du dof f).map (·.name) = f.map (·.name) := by
    rw [applyFlagsX_eq, List.map_map]; rfl
  unfold phikFromRebinnedX at h
  simp only [hnames] at h
  obtain ⟨l, h1, h⟩ := except_bind_ok h
  rw [runTasks_ok_iff (by simpa using hs)] at h1
  split at h
  · next h0 =>
    cases h
    have hnil : f.map (·.name) = [] := by
      apply cwr_eq_nil
      have : l = [] := List.length_eq_zero_iff.1 h0
      rw [this] at h1
      simpa using h1
    rw [hnil]
    exact ⟨rfl, rfl, by simp, by simp, by simp⟩
  · cases h
    exact pairs_table hn (fun co p hp => calcPhikX_names hp)
      (fun a p hp => by unfold calcPhikX at hp; rw [if_pos rfl] at hp; cases hp; rfl) h1

namespace Props

/-- **C82 (`phik_matrix`).** A column with an infinite value that is binned automatically with uniform bins gets NaN with every
other column, whatever the data — unless missing values and underflows are both kept and the column has missing values. -/
theorem infinite_column_lost {nm : Numerics} {sched : Option (List ℕ)} {fl : ℚ → ℚ} {pf : String → Option XF} {f : XFrame}
    (hn : (f.map (·.name)).Nodup) {ic : Option (List String)} {bins : XBins} {noise dropna du dof : Bool} {t : LTable}
    (h : phikMatrixX nm sched fl pf f ic bins false noise dropna du dof = .ok t)
    (hs : ValidSched (cwr t.rows).length sched) {c : XColumn} (hc : c ∈ f)
    (hic : c.name ∈ ic.getD ((f.filter (·.numeric)).map (·.name)))
    (hinf : ∃ x ∈ c.cells, toFloatX pf x = .ok .ninf ∨ toFloatX pf x = .ok .pinf)
    {q : ℚ} (hq : bins.entry c.name = .num q)
    (hflags : dropna = true ∨ du = true ∨ ∀ x ∈ c.cells, toFloatX pf x ≠ .ok .nan)
    (hkept : c.name ∈ t.rows) {b : String} (hb : b ∈ t.rows) (hne : b ≠ c.name) :
    t.v c.name b = none ∧ t.v b c.name = none := by
  unfold phikMatrixX at h
  simp only at h
  generalize hclean : dqCheckX f (ic.getD ((f.filter (·.numeric)).map (·.name))) dropna = cl at h
  obtain ⟨clean, icc⟩ := cl
  simp only at h
  obtain ⟨⟨out, dict⟩, hbin, h⟩ := except_bind_ok h
  simp only at h
  obtain ⟨hnames, hcols⟩ := binDataX_cols hbin
  have hcl : clean.Sublist f ∧ (c ∈ clean → c.name ∈ icc) := by
    unfold dqCheckX at hclean
    simp only [Prod.mk.injEq] at hclean
    obtain ⟨rfl, rfl⟩ := hclean
    refine ⟨List.filter_sublist, fun hmem => ?_⟩
    rw [List.mem_filter] at hmem ⊢
    refine ⟨List.mem_filter.2 ⟨hic, ?_⟩, hmem.2⟩
    simpa using ⟨c, hc, rfl⟩
  have hn' : (clean.map (·.name)).Nodup := hn.sublist (hcl.1.map _)
  have hno : (out.map (·.name)).Nodup := by rw [hnames]; exact hn'
  have hrows : t.rows = out.map (·.name) := by
    have hfl : (applyFlagsX dropna du dof out).map (·.name) = out.map (·.name) := by
      rw [applyFlagsX_eq, List.map_map]; rfl
    unfold phikFromRebinnedX at h
    simp only [hfl] at h
    obtain ⟨l, -, h⟩ := except_bind_ok h
    split at h <;> cases h <;> rfl
  rw [hrows] at hs hkept hb
  have hspec := phikFromRebinnedX_spec hno hs h
  have hcc : c ∈ clean := by
    rw [hnames] at hkept
    obtain ⟨d, hd, hdn⟩ := List.mem_map.1 hkept
    have := List.inj_on_of_nodup_map hn (hcl.1.subset hd) hc hdn
    exact this ▸ hd
  obtain ⟨arr, e, g1, g2, g3⟩ := hcols c.name q hq (hcl.2 hcc)
  have harr : c.cells.mapM (toFloatX pf) = .ok arr := by
    unfold colFloatsX at g1
    rw [getXCol_of_mem hn' hcc] at g1
    exact g1
  have hmem : ∀ x ∈ c.cells, ∀ y, toFloatX pf x = .ok y → y ∈ arr := by
    intro x hx y hy
    obtain ⟨y', hy', hxy⟩ := (mapM_mem harr).1 x hx
    rw [hy] at hxy; cases hxy; exact hy'
  have hmem' : ∀ y ∈ arr, ∃ x ∈ c.cells, toFloatX pf x = .ok y := (mapM_mem harr).2
  have hinf' : XF.ninf ∈ arr ∨ XF.pinf ∈ arr := by
    obtain ⟨x, hx, h' | h'⟩ := hinf
    · exact Or.inl (hmem x hx _ h')
    · exact Or.inr (hmem x hx _ h')
  have hq1 : -1 ≤ truncQ q := by
    by_contra hlt
    unfold binEdgesX linspaceX at g2
    simp only [Bool.false_eq_true, if_false] at g2
    split at g2
    · rw [if_pos (by omega)] at g2; cases g2
    · cases g2
  obtain ⟨e', g2', -, g4, -⟩ := infinite_auto_all_underflow fl hinf' hq1
  rw [g2] at g2'
  cases g2'
  have hcells : ∃ v, ∀ d ∈ applyFlagsX dropna du dof out, d.name = c.name → ∀ x ∈ d.cells, x.isNan = true ∨ x = v := by
    refine ⟨.cell (if du then .str "NaN" else .str "UF"), fun d hd hdn x hx => ?_⟩
    rw [applyFlagsX_eq] at hd
    obtain ⟨d0, hd0, rfl⟩ := List.mem_map.1 hd
    simp only at hx hdn
    rw [g3 d0 hd0 hdn, g4] at hx
    simp only [List.map_map, List.mem_map, Function.comp] at hx
    obtain ⟨y, hy, rfl⟩ := hx
    by_cases hyn : y = .nan
    · subst hyn
      rw [if_pos rfl]
      rcases hflags with rfl | rfl | hfl
      · left; cases du <;> cases dof <;> simp [XCell.map, flagX, XCell.isNan, Cell.isNan]
      · cases dropna <;> cases dof <;> simp [XCell.map, flagX, XCell.isNan, Cell.isNan]
      · obtain ⟨x, hx, hxy⟩ := hmem' _ hy
        exact absurd hxy (hfl x hx)
    · rw [if_neg hyn]
      cases dropna <;> cases du <;> cases dof <;> simp [XCell.map, flagX, XCell.isNan, Cell.isNan]
  obtain ⟨v, hv⟩ := hcells
  rw [hspec.symm b hb c.name hkept, and_self]
  rcases sublist_total hkept hb hne.symm with hsub | hsub
  · obtain ⟨p, hp, hpv⟩ := hspec.entry _ _ hsub
    rw [← hpv]
    exact calcPhikX_none hp hne.symm ⟨v, Or.inl hv⟩
  · obtain ⟨p, hp, hpv⟩ := hspec.entry _ _ hsub
    rw [hspec.symm c.name hkept b hb, ← hpv]
    exact calcPhikX_none hp hne ⟨v, Or.inr hv⟩

end Props

end Phik
