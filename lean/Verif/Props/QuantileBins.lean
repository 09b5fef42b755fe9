import Verif.Spec.Quantiles
import Verif.Props.AutoBins
import Verif.Lemmas.Edges

/-! # Property C84 for bins at the quantiles of the data -/

namespace Phik.Props

open Spec MeasureTheory ProbabilityTheory Topology
open Filter (Tendsto atTop Eventually)

/-! ### sorted lists -/

theorem sorted_get {s : List ℚ} (hs : s.Pairwise (· ≤ ·)) {k : ℕ} (hk : k < s.length) {x : ℚ} (h1 : s.countP (fun y => decide (y < x)) ≤ k)
    (h2 : k < s.countP fun y => decide (y ≤ x)) : s[k] = x := by
  have hmono : ∀ i j (hi : i < s.length) (hj : j < s.length), i ≤ j → s[i] ≤ s[j] := by
    intro i j hi hj hij
    rcases hij.lt_or_eq with h | rfl
    · exact List.pairwise_iff_getElem.1 hs i j hi hj h
    · exact le_rfl
  apply le_antisymm
  · by_contra hlt
    rw [not_le] at hlt
    have e : s.countP (fun y => decide (y ≤ x)) = (s.take k).countP (fun y => decide (y ≤ x)) + (s.drop k).countP fun y => decide (y ≤ x) := by
      rw [← List.countP_append, List.take_append_drop]
    have e2 : (s.drop k).countP (fun y => decide (y ≤ x)) = 0 := by
      rw [List.countP_eq_zero]
      intro y hy
      obtain ⟨i, hi, rfl⟩ := List.getElem_of_mem hy
      rw [List.getElem_drop]
      have := hmono k (k + i) hk (by rw [List.length_drop] at hi; omega) (by omega)
      simp only [decide_eq_true_eq, not_le]
      exact hlt.trans_le this
    have e3 : (s.take k).countP (fun y => decide (y ≤ x)) ≤ k := List.countP_le_length.trans (by rw [List.length_take]; omega)
    omega
  · by_contra hlt
    rw [not_le] at hlt
    have e : (s.take (k + 1)).countP (fun y => decide (y < x)) ≤ s.countP fun y => decide (y < x) := (List.take_sublist _ _).countP_le
    have e2 : (s.take (k + 1)).countP (fun y => decide (y < x)) = (s.take (k + 1)).length := by
      rw [List.countP_eq_length]
      intro y hy
      obtain ⟨i, hi, rfl⟩ := List.getElem_of_mem hy
      rw [List.length_take] at hi
      rw [List.getElem_take]
      have := hmono i k (by omega) hk (by omega)
      simp only [decide_eq_true_eq]
      exact this.trans_lt hlt
    rw [List.length_take] at e2
    omega

/-- A quantile of a sorted list that lies inside the run of a value. -/
theorem quantile1_run {fl : ℚ → ℚ} (hfl : RelRounding fl) {s : List ℚ} (hs : s.Pairwise (· ≤ ·)) (hrep : ∀ x ∈ s, fl x = x) {t x v : ℚ}
    (hv : v = fl (((s.length : ℚ) - 1) * t)) (hx : x ∈ s) (hv0 : 0 ≤ v)
    (h1 : (s.countP (fun y => decide (y < x)) : ℚ) ≤ v - 1 ∨ ∀ y ∈ s, x ≤ y)
    (h2 : v + 1 < (s.countP fun y => decide (y ≤ x)) ∨ ∀ y ∈ s, y ≤ x) : quantile1 fl s t = x := by
  have hne : s ≠ [] := List.ne_nil_of_mem hx
  have hlen : 0 < s.length := List.length_pos_of_ne_nil hne
  have cle : s.countP (fun y => decide (y ≤ x)) ≤ s.length := List.countP_le_length
  have clt : s.countP (fun y => decide (y < x)) < s.length := by
    refine lt_of_le_of_ne List.countP_le_length fun h => ?_
    rw [List.countP_eq_length] at h
    have := h x hx
    simp at this
  have h1' : ∀ k : ℕ, v - 1 < k → s.countP (fun y => decide (y < x)) ≤ k := by
    intro k hk
    rcases h1 with h | h
    · have : (s.countP (fun y => decide (y < x)) : ℚ) < k := h.trans_lt hk
      exact_mod_cast this.le
    · rw [List.countP_eq_zero.2 fun y hy => by simpa using h y hy]; omega
  have h2' : ∀ k : ℕ, (k : ℚ) ≤ v + 1 → k < s.length → k < s.countP fun y => decide (y ≤ x) := by
    intro k hk hl
    rcases h2 with h | h
    · have : (k : ℚ) < s.countP (fun y => decide (y ≤ x)) := hk.trans_lt h
      exact_mod_cast this
    · rwa [List.countP_eq_length.2 fun y hy => by simpa using h y hy]
  rw [quantile1_eq hfl hne hrep, ← hv]
  by_cases htop : (s.length : ℚ) - 1 ≤ v
  · rw [if_pos htop, getD_lt (by omega)]
    refine sorted_get hs _ (by omega) (h2' _ ?_ (by omega))
    rw [Nat.cast_sub (by omega)]
    push_cast
    linarith
  · rw [if_neg htop]
    rw [not_le] at htop
    have f0 : 0 ≤ ⌊v⌋ := Int.floor_nonneg.2 hv0
    have f1 : ((⌊v⌋.toNat : ℕ) : ℚ) = (⌊v⌋ : ℚ) := by
      have : ((⌊v⌋.toNat : ℕ) : ℤ) = ⌊v⌋ := Int.toNat_of_nonneg f0
      exact_mod_cast this
    have f2 : (⌊v⌋ : ℚ) ≤ v := Int.floor_le v
    have f3 : v < ⌊v⌋ + 1 := Int.lt_floor_add_one v
    have hk : ⌊v⌋.toNat + 1 < s.length := by
      have : ((⌊v⌋.toNat : ℕ) : ℚ) + 1 < s.length := by rw [f1]; linarith
      exact_mod_cast this
    have e1 : s[⌊v⌋.toNat]'(by omega) = x := sorted_get hs _ (h1' _ (by rw [f1]; linarith)) (h2' _ (by rw [f1]; linarith) (by omega))
    have e2 : s[⌊v⌋.toNat + 1] = x := sorted_get hs _ (h1' _ (by push_cast; rw [f1]; linarith)) (h2' _ (by push_cast; rw [f1]; linarith) (by omega))
    rw [getD_lt (by omega), getD_lt (by omega), e1, e2]
    unfold lerp
    simp [hfl.zero, hrep x hx]

/-! ### frequencies of events -/

section
variable {α : Type} [BEq α] [LawfulBEq α]

open scoped Classical in
theorem countP_eq_sum (S : Finset α) (P : α → Prop) (l : List α) (h : ∀ x ∈ l, x ∈ S) :
    l.countP (fun x => decide (P x)) = ∑ z ∈ S with P z, l.count z := by
  induction l with
  | nil => simp
  | cons a l ih =>
    simp only [List.count_cons, Finset.sum_add_distrib]
    rw [List.countP_cons, ih fun x hx => h x (List.mem_cons_of_mem _ hx)]
    congr 1
    simp only [beq_iff_eq]
    rw [Finset.sum_ite_eq (S.filter P) a fun _ => 1]
    simp [h a List.mem_cons_self]

/-- The sequence has only records with positive probability, with their frequencies. -/
def Typical (raw : α → ℝ) (R : ℕ → α) : Prop :=
  (∀ k, raw (R k) ≠ 0) ∧ ∀ z, Tendsto (fun n : ℕ => (((List.range n).map R).count z : ℝ) / n) atTop (𝓝 (raw z))

variable {raw : α → ℝ} {R : ℕ → α} {S : Finset α} {var : α → Cell}

open scoped Classical in
theorem Typical.event (h : Typical raw R) (hS : ∀ x, raw x ≠ 0 → x ∈ S) (P : α → Prop) :
    Tendsto (fun n : ℕ => (((List.range n).map R).countP (fun x => decide (P x)) : ℝ) / n) atTop (𝓝 (probOf S raw P)) := by
  have := tendsto_finsetSum (S.filter P) fun z _ => h.2 z
  refine this.congr fun n => ?_
  rw [countP_eq_sum S P _ fun x hx => by
    obtain ⟨k, -, rfl⟩ := List.mem_map.1 hx
    exact hS _ (h.1 k)]
  push_cast
  rw [Finset.sum_div]

/-- The numbers of the first `n` records. -/
def numbersOf (var : α → Cell) (R : ℕ → α) (n : ℕ) : List ℚ :=
  ((List.range n).map R).filterMap fun z => match var z with
    | .num y => some y
    | _ => none

omit [BEq α] [LawfulBEq α] in
theorem mem_numbersOf {n : ℕ} {x : ℚ} : x ∈ numbersOf var R n ↔ ∃ k < n, var (R k) = .num x := by
  unfold numbersOf
  simp only [List.mem_filterMap, List.mem_map, List.mem_range]
  constructor
  · rintro ⟨a, ⟨k, hk, rfl⟩, h⟩
    refine ⟨k, hk, ?_⟩
    revert h
    cases var (R k) <;> simp
  · rintro ⟨k, hk, h⟩
    exact ⟨_, ⟨k, hk, rfl⟩, by rw [h]⟩

omit [BEq α] [LawfulBEq α] in
open scoped Classical in
theorem countP_numbersOf (P : ℚ → Prop) [DecidablePred P] (n : ℕ) :
    (numbersOf var R n).countP (fun y => decide (P y)) = ((List.range n).map R).countP fun z => decide (∃ y, var z = .num y ∧ P y) := by
  unfold numbersOf
  rw [List.countP_filterMap]
  refine List.countP_congr fun z _ => ?_
  cases h : var z <;> simp

open scoped Classical in
/-- A quantile of the data is that of the distribution, from some point on. -/
theorem Typical.quantile (h : Typical raw R) (hpos : ∀ z, 0 ≤ raw z) (hS : ∀ x, raw x ≠ 0 → x ∈ S) {fl : ℚ → ℚ} (hfl : RelRounding fl) {u : ℚ}
    (hu : ∀ x, |fl x - x| ≤ u * |x|) (hrep : ∀ z y, raw z ≠ 0 → var z = .num y → fl y = y) {t x : ℚ} (ht : 0 ≤ t) (hx : QuantileAt S raw var u t x) :
    ∀ᶠ n in atTop, quantile1 fl (numbersOf var R n).mergeSort t = x := by
  set P0 := probOf S raw (fun z => ∃ y, var z = .num y) with hP0
  have hcnt : ∀ (P : ℚ → Prop) [DecidablePred P], Tendsto (fun n : ℕ => ((numbersOf var R n).countP (fun y => decide (P y)) : ℝ) / n) atTop
      (𝓝 (probOf S raw fun z => ∃ y, var z = .num y ∧ P y)) := by
    intro P _
    refine (h.event hS fun z => ∃ y, var z = .num y ∧ P y).congr fun n => ?_
    rw [countP_numbersOf]
  have hlen : Tendsto (fun n : ℕ => ((numbersOf var R n).length : ℝ) / n) atTop (𝓝 P0) := by
    have := hcnt fun _ => True
    simp only [and_true] at this
    refine this.congr fun n => ?_
    congr 2
    exact List.countP_eq_length.2 fun _ _ => by simp
  have hinv : Tendsto (fun n : ℕ => 1 / (n : ℝ)) atTop (𝓝 0) := tendsto_one_div_atTop_nhds_zero_nat
  have hzP : ∀ (P : α → Prop) z, raw z ≠ 0 → P z → 0 < probOf S raw P := by
    intro P z hz hP
    have h1 : 0 < raw z := lt_of_le_of_ne (hpos z) hz.symm
    exact h1.trans_le (Finset.single_le_sum (f := raw) (fun z _ => hpos z) (Finset.mem_filter.2 ⟨hS z hz, hP⟩))
  obtain ⟨z0, hz0, hz1⟩ := hx.occurs
  have hmem : ∀ᶠ n in atTop, x ∈ numbersOf var R n := by
    have hq := hcnt fun y => y = x
    filter_upwards [hq.eventually (lt_mem_nhds (hzP _ z0 hz0 ⟨x, hz1, rfl⟩))] with n hn
    have : 0 < (numbersOf var R n).countP fun y => decide (y = x) := by
      rcases Nat.eq_zero_or_pos ((numbersOf var R n).countP fun y => decide (y = x)) with h0 | h0
      · rw [h0] at hn; simp at hn
      · exact h0
    obtain ⟨y, hy, e⟩ := List.countP_pos_iff.1 this
    simp only [decide_eq_true_eq] at e
    rwa [e] at hy
  have hb : ∀ᶠ n in atTop, (∀ y ∈ numbersOf var R n, x ≤ y) ∨
      ((numbersOf var R n).countP (fun y => decide (y < x)) : ℝ) < (((numbersOf var R n).length : ℝ) - 1) * t * (1 - u) - 1 := by
    rcases hx.below with h1 | h1
    · refine .of_forall fun n => .inl fun y hy => ?_
      obtain ⟨k, -, hk⟩ := mem_numbersOf.1 hy
      exact h1 _ _ (h.1 k) hk
    · have l1 := hcnt fun y => y < x
      have l2 : Tendsto (fun n : ℕ => (((numbersOf var R n).length : ℝ) / n - 1 / n) * t * (1 - u) - 1 / n) atTop (𝓝 ((P0 - 0) * t * (1 - u) - 0)) :=
        (((hlen.sub hinv).mul_const _).mul_const _).sub hinv
      have l3 : probOf S raw (fun z => ∃ y, var z = .num y ∧ y < x) < (P0 - 0) * t * (1 - u) - 0 := by
        refine h1.trans_eq ?_
        ring
      filter_upwards [l1.eventually_lt l2 l3, Filter.eventually_gt_atTop 0] with n hn hn0
      right
      have hn0 : (0 : ℝ) < n := by exact_mod_cast hn0
      rw [div_lt_iff₀ hn0] at hn
      refine hn.trans_eq ?_
      field_simp
  have ha : ∀ᶠ n in atTop, (∀ y ∈ numbersOf var R n, y ≤ x) ∨
      (((numbersOf var R n).length : ℝ) - 1) * t * (1 + u) + 1 < ((numbersOf var R n).countP (fun y => decide (y ≤ x)) : ℝ) := by
    rcases hx.above with h1 | h1
    · refine .of_forall fun n => .inl fun y hy => ?_
      obtain ⟨k, -, hk⟩ := mem_numbersOf.1 hy
      exact h1 _ _ (h.1 k) hk
    · have l1 := hcnt fun y => y ≤ x
      have l2 : Tendsto (fun n : ℕ => (((numbersOf var R n).length : ℝ) / n - 1 / n) * t * (1 + u) + 1 / n) atTop (𝓝 ((P0 - 0) * t * (1 + u) + 0)) :=
        (((hlen.sub hinv).mul_const _).mul_const _).add hinv
      have l3 : (P0 - 0) * t * (1 + u) + 0 < probOf S raw (fun z => ∃ y, var z = .num y ∧ y ≤ x) := by
        refine lt_of_eq_of_lt ?_ h1
        ring
      filter_upwards [l2.eventually_lt l1 l3, Filter.eventually_gt_atTop 0] with n hn hn0
      right
      have hn0 : (0 : ℝ) < n := by exact_mod_cast hn0
      rw [lt_div_iff₀ hn0] at hn
      refine lt_of_eq_of_lt ?_ hn
      field_simp
  filter_upwards [hmem, hb, ha] with n hm hb ha
  set l := numbersOf var R n with hl
  have hperm : l.mergeSort.Perm l := List.mergeSort_perm _ _
  have hlen1 : 1 ≤ l.length := List.length_pos_of_mem hm
  have h0 : 0 ≤ ((l.length : ℚ) - 1) * t := mul_nonneg (by have : (1 : ℚ) ≤ l.length := by exact_mod_cast hlen1
                                                           linarith) ht
  have herr := abs_le.1 (hu (((l.length : ℚ) - 1) * t))
  rw [abs_of_nonneg h0] at herr
  refine quantile1_run hfl (sorted_mergeSort l) ?_ rfl (hperm.mem_iff.2 hm) ?_ ?_ ?_
  · intro y hy
    obtain ⟨k, -, hk⟩ := mem_numbersOf.1 (hperm.mem_iff.1 hy)
    exact hrep _ _ (h.1 k) hk
  · rw [hperm.length_eq]; exact hfl.nonneg h0
  · rw [hperm.length_eq, hperm.countP_eq]
    rcases hb with hb | hb
    · exact .inr fun y hy => hb y (hperm.mem_iff.1 hy)
    · left
      have hb' : (l.countP (fun y => decide (y < x)) : ℚ) < ((l.length : ℚ) - 1) * t * (1 - u) - 1 := by
        have : ((l.countP (fun y => decide (y < x)) : ℚ) : ℝ) < (((((l.length : ℚ) - 1) * t * (1 - u) - 1 : ℚ)) : ℝ) := by
          push_cast; exact hb
        exact_mod_cast this
      have : ((l.length : ℚ) - 1) * t * (1 - u) = ((l.length : ℚ) - 1) * t - u * (((l.length : ℚ) - 1) * t) := by ring
      linarith [herr.1]
  · rw [hperm.length_eq, hperm.countP_eq]
    rcases ha with ha | ha
    · exact .inr fun y hy => ha y (hperm.mem_iff.1 hy)
    · left
      have ha' : ((l.length : ℚ) - 1) * t * (1 + u) + 1 < (l.countP (fun y => decide (y ≤ x)) : ℚ) := by
        have : (((((l.length : ℚ) - 1) * t * (1 + u) + 1 : ℚ)) : ℝ) < ((l.countP (fun y => decide (y ≤ x)) : ℚ) : ℝ) := by
          push_cast; exact ha
        exact_mod_cast this
      have : ((l.length : ℚ) - 1) * t * (1 + u) = ((l.length : ℚ) - 1) * t + u * (((l.length : ℚ) - 1) * t) := by ring
      linarith [herr.2]

omit [BEq α] [LawfulBEq α] in
theorem linspace_nonneg {fl : ℚ → ℚ} (hfl : RelRounding fl) {m : ℤ} {qs : List ℚ} (h : linspace fl 0 1 m = .ok qs) : ∀ t ∈ qs, 0 ≤ t := by
  unfold linspace at h
  split at h
  · cases h
  · simp only [Except.ok.injEq] at h
    intro t ht
    rw [← h] at ht
    obtain ⟨i, -, rfl⟩ := List.mem_map.1 ht
    have hi : (0 : ℚ) ≤ i := Nat.cast_nonneg i
    have hd : 0 ≤ fl ((1 : ℚ) - 0) := hfl.nonneg (by norm_num)
    split
    · norm_num
    · split
      · next hdiv =>
        have hs : 0 ≤ fl (fl ((1 : ℚ) - 0) / ((m : ℚ) - 1)) := hfl.nonneg (div_nonneg hd hdiv.le)
        split
        · rw [add_zero]
          exact hfl.nonneg (hfl.nonneg (mul_nonneg (hfl.nonneg (div_nonneg hi hdiv.le)) hd))
        · rw [add_zero]
          exact hfl.nonneg (hfl.nonneg (mul_nonneg hi hs))
      · rw [add_zero]
        exact hfl.nonneg (hfl.nonneg (mul_nonneg hi hd))

/-- The edges computed from the data are those of the distribution, from some point on. -/
theorem Typical.edges (h : Typical raw R) (hpos : ∀ z, 0 ≤ raw z) (hS : ∀ x, raw x ≠ 0 → x ∈ S) {fl : ℚ → ℚ} (hfl : RelRounding fl) {u : ℚ}
    (hu : ∀ x, |fl x - x| ≤ u * |x|) (hrep : ∀ z y, raw z ≠ 0 → var z = .num y → fl y = y) {quantile : Bool} {s : BinSpec} {e : List ℚ}
    (hs : SettlesOn S raw var fl u quantile s e) :
    ∀ᶠ n in atTop, ∀ (values : List (Option ℚ)), values.filterMap id = numbersOf var R n →
      Requested fl quantile values s e ∧ ∀ e', Requested fl quantile values s e' → e' = e := by
  suffices hn : ∀ q, s = .num q → ∀ᶠ n in atTop, binEdges fl (numbersOf var R n) (truncQ q) quantile = .ok e by
    cases hs with
    | edges =>
      refine .of_forall fun n values _ => ⟨.edges _, fun e' he' => ?_⟩
      cases he'; rfl
    | uniform hr hb =>
      filter_upwards [hn _ rfl] with n hn values hv
      rw [← hv] at hn
      refine ⟨.num _ _ hn, fun e' he' => ?_⟩
      cases he' with
      | num _ _ h' => rw [hn] at h'; cases h'; rfl
    | quantile hqs hq =>
      filter_upwards [hn _ rfl] with n hn values hv
      rw [← hv] at hn
      refine ⟨.num _ _ hn, fun e' he' => ?_⟩
      cases he' with
      | num _ _ h' => rw [hn] at h'; cases h'; rfl
  rintro q rfl
  have occ : ∀ {x z}, raw z ≠ 0 → var z = .num x → ∀ᶠ n in atTop, x ∈ numbersOf var R n := by
    intro x z hz hx
    have hp : 0 < raw z := lt_of_le_of_ne (hpos z) hz.symm
    filter_upwards [(h.2 z).eventually_const_lt hp] with n hn
    have : 0 < ((List.range n).map R).count z := by
      rcases Nat.eq_zero_or_pos (((List.range n).map R).count z) with h0 | h0
      · rw [h0] at hn; simp at hn
      · exact h0
    obtain ⟨k, hk, e⟩ := List.mem_map.1 (List.count_pos_iff.1 this)
    exact mem_numbersOf.2 ⟨k, List.mem_range.1 hk, by rw [e, hx]⟩
  cases hs with
  | uniform hr hb =>
    obtain ⟨x, hx, ex⟩ := hr.low
    obtain ⟨y, hy, ey⟩ := hr.high
    filter_upwards [occ hx ex, occ hy ey] with n h1 h2
    rw [edges_of_range fl h1 h2 fun z hz => ?_, hb]
    obtain ⟨k, -, hk⟩ := mem_numbersOf.1 hz
    exact hr.within _ _ (h.1 k) hk
  | @quantile _ x xs qs hqs hq =>
    have hall : ∀ {qs ys : List ℚ}, (∀ t ∈ qs, 0 ≤ t) → List.Forall₂ (QuantileAt S raw var u) qs ys →
        ∀ᶠ n in atTop, qs.map (quantile1 fl (numbersOf var R n).mergeSort) = ys := by
      intro qs ys h0 hq
      induction hq with
      | nil => exact .of_forall fun _ => rfl
      | cons hx _ ih =>
        filter_upwards [h.quantile hpos hS hfl hu hrep (h0 _ List.mem_cons_self) hx, ih fun t ht => h0 t (List.mem_cons_of_mem _ ht)] with n h1 h2
        rw [List.map_cons, h1, h2]
    have hx : ∃ z, raw z ≠ 0 ∧ var z = .num x := by
      cases hq with
      | cons hx _ => exact hx.occurs
    obtain ⟨z, hz, ez⟩ := hx
    filter_upwards [hall (linspace_nonneg hfl hqs) hq, occ hz ez] with n h1 h2
    unfold binEdges
    simp only [if_true]
    rw [hqs]
    have hne : (numbersOf var R n).mergeSort.isEmpty = false := by
      have := (List.mergeSort_perm (numbersOf var R n) (fun a b => decide (a ≤ b))).mem_iff.2 h2
      rw [List.isEmpty_eq_false_iff]
      exact List.ne_nil_of_mem this
    simp only [bind, Except.bind, hne, Bool.false_eq_true, if_false, h1]
    rfl

end

section
variable {α : Type} [BEq α] [LawfulBEq α] {raw : α → ℝ} {S : Finset α} {var : α → Cell} {Ω : Type} [MeasurableSpace Ω] [Countable α] {μ : Measure Ω}

theorem _root_.Phik.Spec.IIDRecords.typical {R : ℕ → Ω → α} (h : IIDRecords μ R raw) : ∀ᵐ ω ∂μ, Typical raw (R · ω) := h.frequency

omit [BEq α] [LawfulBEq α] [Countable α] in
theorem numberList_eq {R : ℕ → α} {n : ℕ} {c : Column} (hc : c.cells = (List.range n).map fun k => var (R k)) :
    (numberList c).filterMap id = numbersOf var R n := by
  unfold numberList numbersOf
  rw [hc, List.map_map, List.filterMap_map, List.filterMap_map]
  refine List.filterMap_congr fun k _ => ?_
  simp only [Function.comp, id]
  cases var (R k) <;> rfl

omit [Countable α] in
/-- The binned columns of almost every sequence of records are those of the distribution, from some point on. -/
theorem prepared_limit {R : ℕ → α} (h : Typical raw R) (hpos : ∀ z, 0 ≤ raw z) (hS : ∀ x, raw x ≠ 0 → x ∈ S) {fl : ℚ → ℚ} (hfl : RelRounding fl)
    {u : ℚ} (hu : ∀ x, |fl x - x| ≤ u * |x|) (hrep : ∀ z y, raw z ≠ 0 → var z = .num y → fl y = y) {quantile : Bool} {o : Option BinSpec} {g : Cell → Cell}
    (ho : LimitBins S raw var fl u quantile o g) :
    ∀ᶠ n in atTop, ∀ (ic : List String) (bins : Bins) (c : Column), c.cells = ((List.range n).map fun k => var (R k)) → BinsAs ic bins c.name o →
      PreparedBy fl quantile ic bins c g := by
  cases ho with
  | none => exact .of_forall fun n ic bins c _ hb => ⟨fun hm => absurd hm hb, fun _ => rfl⟩
  | some hs hso =>
    filter_upwards [h.edges hpos hS hfl hu hrep hs] with n hn ic bins c hc hb
    exact ⟨fun _ => ⟨_, _, hb.2, (hn _ (numberList_eq hc)).1, hso, rfl⟩, fun hm => absurd hb.1 hm⟩

end

variable {r c : ℕ}

open scoped Classical in
/-- **C84 (automatic bins).** Records drawn from a distribution with finitely many values; each of the two columns is not binned, binned with given edges, in a
given number of equal bins between its smallest and its largest value, or in bins between its quantiles (`quantile=True`), where the distribution has
unique quantiles of the orders used.  Almost surely, for all `n` large enough, `phik_matrix` returns, and the entry for the two columns is phik of the distribution of
the records in the bins of the distribution, up to the tolerance of the root finder and `ε`. -/
theorem phik_matrix_settled_estimates {nm : Numerics} (hg : GoodNumerics nm) (hr : 2 ≤ r) (hc : 2 ≤ c)
    (hs : StrictMonoOn (distance nm.mvn r c) (Set.Icc 0 1)) {p : Fin r → Fin c → ℝ} (hp : IsJoint p) {rho : ℝ}
    (hrho : IsPhikOfLaw nm.mvn p rho) {raw : Cell × Cell → ℝ} {S : Finset (Cell × Cell)} (hS : ∀ x, raw x ≠ 0 → x ∈ S)
    {fl : ℚ → ℚ} (hfl : RelRounding fl) {e : ℚ} (he : ∀ x, |fl x - x| ≤ e * |x|) {quantile : Bool} {oa ob : Option BinSpec} {gA gB : Cell → Cell}
    (hA : LimitBins S raw Prod.fst fl e quantile oa gA) (hB : LimitBins S raw Prod.snd fl e quantile ob gB)
    (repA : ∀ z y, raw z ≠ 0 → z.1 = .num y → fl y = y) (repB : ∀ z y, raw z ≠ 0 → z.2 = .num y → fl y = y)
    (dropna du dof : Bool) {q : ℝ} {u : Fin r → Cell} {v : Fin c → Cell}
    (hl : CompleteLaw (pushLaw S raw fun x => (view dropna du dof (gA x.1), view dropna du dof (gB x.2))) q p u v)
    {Ω : Type} [MeasurableSpace Ω] {μ : Measure Ω} {A B : ℕ → Ω → Cell} (hR : IIDRecords μ (fun k ω => (A k ω, B k ω)) raw) :
    ∀ᵐ ω ∂μ, ∀ ε : ℝ, 0 < ε → ∀ᶠ n in atTop, ∀ (noise : Bool) (pf : String → Option (Option ℚ)) (w : World) (ref : Ref)
      (data : Frame) (ic : Option (List String)) (bins : Bins) (sched : Option (List ℕ)) (ca cb : Column),
      w.heap[ref]? = some data → data.names.Nodup →
      ValidSched (cwr ((data.cols.filter (fun c => decide (Kept (ic.getD (guessIntervalCols data)) dropna c))).map (·.name))).length sched →
      (∀ c ∈ data.cols, c.name ∈ ic.getD (guessIntervalCols data) → ∀ s, Cell.str s ∉ c.cells) →
      (∀ n ∈ ic.getD (guessIntervalCols data), ∃ s, EntryFor bins n s ∧ GoodEntry s) →
      ca ∈ data.cols → cb ∈ data.cols → ca.name ≠ cb.name →
      ca.cells = (List.range n).map (A · ω) → cb.cells = (List.range n).map (B · ω) →
      BinsAs (ic.getD (guessIntervalCols data)) bins ca.name oa → BinsAs (ic.getD (guessIntervalCols data)) bins cb.name ob →
      (dropna = true ∨ oa = none ∨ 3 ≤ r) → (dropna = true ∨ ob = none ∨ 3 ≤ c) →
      ∃ t w' x, (phikMatrix nm sched fl pf ref ic bins quantile noise dropna du dof).exec w = (.ok t, w') ∧
        t.v ca.name cb.name = some x ∧ |x - rho| ≤ rootTol + ε := by
  have hm := hR.map hS fun x => (view dropna du dof (gA x.1), view dropna du dof (gB x.2))
  filter_upwards [phik_matrix_binned_estimates hg hr hc hs hp hrho hl gA gB dropna du dof hm, hR.typical] with ω h ht ε hε
  filter_upwards [h ε hε, prepared_limit ht hR.nonneg hS hfl he repA hA, prepared_limit ht hR.nonneg hS hfl he repB hB] with n hn pa pb
    noise pf w ref data ic bins sched ca cb hf hnd hsch hnum hbins hca hcb hne ea eb ba bb ka kb
  refine hn noise quantile fl pf w ref data ic bins sched ca cb hf hnd hsch hnum hbins hca hcb hne ea eb (pa _ _ _ ea ba) (pb _ _ _ eb bb) ?_ ?_
  · rcases ka with h | rfl | h
    · exact .inl h
    · exact .inr (.inl ba)
    · exact .inr (.inr h)
  · rcases kb with h | rfl | h
    · exact .inl h
    · exact .inr (.inl bb)
    · exact .inr (.inr h)

end Phik.Props
