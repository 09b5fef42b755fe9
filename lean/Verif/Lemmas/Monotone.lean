import Verif.Model.Binning
import Mathlib.Order.Monotone.Basic
import Mathlib.Data.List.Sort
import Mathlib.Data.List.GetD
import Mathlib.Tactic.Linarith
import Mathlib.Tactic.Ring
import Mathlib.Tactic.FieldSimp

/-! # Quantile edges only see the order of the data -/

namespace Phik

/-- Exact quantile: linear interpolation between neighbours of the sorted data. -/
theorem quantile1_interp (s : List ℚ) (hs : s ≠ []) (q : ℚ) : ∃ (k l : ℕ) (g : ℚ), k < s.length ∧ l < s.length ∧ (l = k ∨ l = k + 1) ∧ 0 ≤ g ∧ g < 1 ∧
    ∀ t : List ℚ, t.length = s.length → quantile1 id t q = t.getD k 0 + (t.getD l 0 - t.getD k 0) * g := by
  have hn : 0 < s.length := List.length_pos_iff.2 hs
  set v : ℚ := ((s.length : ℚ) - 1) * q with hv
  have hg0 : (0 : ℚ) ≤ v - ⌊v⌋ := sub_nonneg.2 (Int.floor_le v)
  have hg1 : v - ⌊v⌋ < 1 := by have := Int.lt_floor_add_one v; linarith
  by_cases ht : (s.length : ℚ) - 1 ≤ v
  · refine ⟨s.length - 1, s.length - 1, v - ⌊v⌋, by omega, by omega, .inl rfl, hg0, hg1, fun t e => ?_⟩
    unfold quantile1
    simp only [e, id, ← hv, ht, decide_true, if_true]
    split <;> ring
  · refine ⟨⌊v⌋.toNat, ⌊v⌋.toNat + 1, v - ⌊v⌋, ?_, ?_, .inr rfl, hg0, hg1, fun t e => ?_⟩
    · have h1 : v < s.length := by push Not at ht; linarith
      have : ⌊v⌋ < s.length := Int.floor_lt.2 (by exact_mod_cast h1)
      omega
    · have h1 : v < ((s.length - 1 : ℤ) : ℚ) := by push_cast; push Not at ht; exact ht
      have h2 : ⌊v⌋ < (s.length : ℤ) - 1 := Int.floor_lt.2 h1
      have h3 : v < 0 ∨ 0 ≤ v := lt_or_ge v 0
      rcases h3 with h3 | h3
      · have : ⌊v⌋ < 0 := Int.floor_lt.2 (by simpa using h3)
        have h4 : s.length ≠ 1 := by
          intro h
          have : v = 0 := by rw [hv, h]; simp
          linarith
        omega
      · have := Int.floor_nonneg.2 h3
        omega
    · unfold quantile1
      simp only [e, id, ← hv, ht, decide_false, Bool.false_eq_true, if_false]
      split <;> ring

theorem pairwise_getD {s : List ℚ} (hs : s.Pairwise (· ≤ ·)) {i j : ℕ} (hij : i ≤ j) (hj : j < s.length) :
    s.getD i 0 ≤ s.getD j 0 := by
  rw [List.getD_eq_getElem _ _ (by omega), List.getD_eq_getElem _ _ hj]
  rcases Nat.lt_or_ge i j with h | h
  · exact List.pairwise_iff_getElem.1 hs i j (by omega) hj h
  · have : i = j := by omega
    subst this; exact le_refl _

/-- Whether a data value lies above a quantile of the data depends on the order of the data only. -/
theorem quantile1_lt_iff {s : List ℚ} (hs : s.Pairwise (· ≤ ·)) {f : ℚ → ℚ} (hf : ∀ x ∈ s, ∀ y ∈ s, x < y → f x < f y)
    (q : ℚ) {x : ℚ} (hx : x ∈ s) : quantile1 id s q < x ↔ quantile1 id (s.map f) q < f x := by
  obtain ⟨k, l, g, hk, hl, hkl, hg0, hg1, hq⟩ := quantile1_interp s (List.ne_nil_of_mem hx) q
  rw [hq s rfl, hq (s.map f) (by simp)]
  obtain ⟨m, hm, rfl⟩ := List.getElem_of_mem hx
  have ek : (s.map f).getD k 0 = f (s.getD k 0) := by
    rw [List.getD_eq_getElem _ _ (by simpa using hk), List.getD_eq_getElem _ _ hk, List.getElem_map]
  have el : (s.map f).getD l 0 = f (s.getD l 0) := by
    rw [List.getD_eq_getElem _ _ (by simpa using hl), List.getD_eq_getElem _ _ hl, List.getElem_map]
  rw [ek, el]
  have hmk : s.getD k 0 ∈ s := by rw [List.getD_eq_getElem _ _ hk]; exact List.getElem_mem hk
  have hml : s.getD l 0 ∈ s := by rw [List.getD_eq_getElem _ _ hl]; exact List.getElem_mem hl
  have hab : s.getD k 0 ≤ s.getD l 0 := pairwise_getD hs (by omega) hl
  have hmx : s[m] ≤ s.getD k 0 ∨ s.getD l 0 ≤ s[m] := by
    have e : s[m] = s.getD m 0 := by rw [List.getD_eq_getElem _ _ hm]
    rw [e]
    rcases Nat.lt_or_ge k m with h | h
    · exact .inr (pairwise_getD hs (by omega) hm)
    · exact .inl (pairwise_getD hs h hk)
  generalize s.getD k 0 = a at *
  generalize s.getD l 0 = b at *
  generalize s[m] = y at *
  have mono : ∀ u ∈ s, ∀ w ∈ s, u ≤ w → f u ≤ f w := by
    intro u hu w hw h
    rcases eq_or_lt_of_le h with rfl | h
    · exact le_refl _
    · exact (hf u hu w hw h).le
  have strict : ∀ u ∈ s, ∀ w ∈ s, (u < w ↔ f u < f w) := by
    intro u hu w hw
    refine ⟨hf u hu w hw, fun h => ?_⟩
    by_contra hc
    exact absurd (mono w hw u hu (not_lt.1 hc)) (not_le.2 h)
  rcases eq_or_lt_of_le hab with rfl | hlt
  · simp only [sub_self, zero_mul, add_zero]; exact strict a hmk y hx
  · have hflt := hf a hmk b hml hlt
    rcases eq_or_lt_of_le hg0 with rfl | hg
    · simp only [mul_zero, add_zero]; exact strict a hmk y hx
    · have p1 : 0 < (b - a) * g := mul_pos (by linarith) hg
      have p2 : (b - a) * g < b - a := by nlinarith
      have p3 : 0 < (f b - f a) * g := mul_pos (by linarith) hg
      have p4 : (f b - f a) * g < f b - f a := by nlinarith
      rcases hmx with h | h
      · have := mono y hx a hmk h
        constructor <;> intro h' <;> linarith
      · have := mono b hml y hx h
        constructor <;> intro h' <;> linarith

theorem mergeSort_map {s : List ℚ} {f : ℚ → ℚ} (hf : ∀ x ∈ s, ∀ y ∈ s, x < y → f x < f y) :
    (s.map f).mergeSort = s.mergeSort.map f := by
  have hp : (s.mergeSort.map f).Perm (s.map f).mergeSort :=
    ((List.mergeSort_perm s _).map f).trans (List.mergeSort_perm _ _).symm
  refine (hp.eq_of_pairwise (le := (· ≤ ·)) (fun a b _ _ h1 h2 => le_antisymm h1 h2) ?_ ?_).symm
  · rw [List.pairwise_map]
    have h := List.pairwise_mergeSort (le := fun a b : ℚ => decide (a ≤ b)) (by intro a b c h1 h2; simp at *; linarith)
      (by intro a b; simp; exact le_total a b) s
    refine List.Pairwise.imp_of_mem ?_ h
    intro a b ha hb hab
    have hab : a ≤ b := by simpa using hab
    rcases eq_or_lt_of_le hab with rfl | h
    · exact le_refl _
    · exact (hf a ((List.mergeSort_perm s _).mem_iff.1 ha) b ((List.mergeSort_perm s _).mem_iff.1 hb) h).le
  · have h := List.pairwise_mergeSort (le := fun a b : ℚ => decide (a ≤ b)) (by intro a b c h1 h2; simp at *; linarith)
      (by intro a b; simp; exact le_total a b) (s.map f)
    exact h.imp fun h => by simpa using h

/-- The edges `e` cut the data `d` as the edges `e'` cut the transformed data. -/
def SameCuts (f : ℚ → ℚ) (d : List ℚ) (e e' : List ℚ) : Prop :=
  e'.length = e.length ∧ ∀ i, i < e.length → ∀ x ∈ d, (e.getD i 0 < x ↔ e'.getD i 0 < f x)

theorem linspace_id_zero {num : ℤ} {l : List ℚ} {start stop : ℚ} (h : linspace id start stop num = .ok l) (hl : 1 < l.length) :
    l.getD 0 0 = start := by
  unfold linspace at h
  split at h
  · cases h
  · simp only [id, Except.ok.injEq] at h
    subst h
    simp only [List.length_map, List.length_range] at hl
    rw [List.getD_eq_getElem _ _ (by simp; omega)]
    simp only [List.getElem_map, List.getElem_range]
    rw [if_neg (by omega)]
    split
    · split <;> simp
    · simp

theorem linspace_length {fl : ℚ → ℚ} {num : ℤ} {l : List ℚ} {start stop : ℚ} (h : linspace fl start stop num = .ok l) :
    l.length = num.toNat ∧ 0 ≤ num := by
  unfold linspace at h
  split at h
  · cases h
  · next hn =>
    simp only [Except.ok.injEq] at h
    subst h
    exact ⟨by simp, by omega⟩

theorem sortedMerge (arr : List ℚ) : arr.mergeSort.Pairwise (· ≤ ·) := by
  have h := List.pairwise_mergeSort (le := fun a b : ℚ => decide (a ≤ b)) (by intro a b c h1 h2; simp at *; linarith)
    (by intro a b; simp; exact le_total a b) arr
  exact h.imp fun h => by simpa using h

theorem quantile1_zero_le {s : List ℚ} (hs : s.Pairwise (· ≤ ·)) {x : ℚ} (hx : x ∈ s) : quantile1 id s 0 ≤ x := by
  obtain ⟨m, hm, rfl⟩ := List.getElem_of_mem hx
  have h0 : quantile1 id s 0 = s.getD 0 0 := by
    unfold quantile1
    simp only [id, mul_zero, Int.floor_zero, Int.cast_zero, sub_self]
    rw [if_pos (by norm_num)]
    by_cases h : (s.length : ℚ) - 1 ≤ 0
    · have h1 : s.length = 1 := by
        have : (s.length : ℚ) ≤ 1 := by linarith
        have : s.length ≤ 1 := by exact_mod_cast this
        omega
      simp [h1]
    · simp [h]
  have e : s[m] = s.getD m 0 := by rw [List.getD_eq_getElem _ _ hm]
  rw [h0, e]
  exact pairwise_getD hs (Nat.zero_le m) hm

/-- The quantile edges of transformed data cut it in the same way. -/
theorem binEdges_quantile_cuts {arr : List ℚ} {f : ℚ → ℚ} (hf : ∀ x ∈ arr, ∀ y ∈ arr, x < y → f x < f y) {n : ℤ} {e : List ℚ}
    (h : binEdges id arr n true = .ok e) : ∃ e', binEdges id (arr.map f) n true = .ok e' ∧ SameCuts f arr e e' := by
  have hf' : ∀ x ∈ arr.mergeSort, ∀ y ∈ arr.mergeSort, x < y → f x < f y := by
    intro x hx y hy
    exact hf x ((List.mergeSort_perm _ _).mem_iff.1 hx) y ((List.mergeSort_perm _ _).mem_iff.1 hy)
  unfold binEdges at h ⊢
  simp only [if_true] at h ⊢
  rw [mergeSort_map hf]
  cases hq : linspace id 0 1 (n + 1) with
  | error e => rw [hq] at h; simp [bind, Except.bind] at h
  | ok qs =>
    rw [hq] at h
    simp only [bind, Except.bind] at h ⊢
    have hl := linspace_length hq
    cases hs : arr.mergeSort.isEmpty with
    | true => rw [hs] at h; simp [throw, throwThe, MonadExceptOf.throw] at h
    | false =>
      rw [hs] at h
      have hs' : (arr.mergeSort.map f).isEmpty = false := by simpa using hs
      rw [hs']
      simp only [Bool.false_eq_true, if_false] at h ⊢
      cases qs with
      | nil => simp [throw, throwThe, MonadExceptOf.throw] at h
      | cons q0 qs =>
        simp only [List.map_cons, pure, Except.pure, Except.ok.injEq] at h ⊢
        subst h
        refine ⟨_, rfl, by simp, ?_⟩
        intro i hi x hx
        have hx' : x ∈ arr.mergeSort := (List.mergeSort_perm _ _).mem_iff.2 hx
        have key := fun q => quantile1_lt_iff (sortedMerge arr) hf' q hx'
        cases i with
        | zero =>
          simp only [List.getD_cons_zero, id]
          have h0 : q0 = 0 := by
            by_cases h1 : 1 < (q0 :: qs).length
            · simpa using linspace_id_zero hq h1
            · have h2 : n + 1 = 1 := by
                obtain ⟨hl1, hl2⟩ := hl
                rw [List.length_cons] at hl1 h1
                omega
              rw [h2] at hq
              unfold linspace at hq
              simp at hq
              exact hq.1.symm
          subst h0
          have p1 := quantile1_zero_le (sortedMerge arr) hx'
          have p2 : quantile1 id (arr.mergeSort.map f) 0 ≤ f x := by
            refine quantile1_zero_le ?_ (List.mem_map_of_mem hx')
            rw [← mergeSort_map hf]; exact sortedMerge _
          constructor <;> intro _ <;> linarith
        | succ i =>
          simp only [List.getD_cons_succ]
          have hi' : i < qs.length := by simpa using hi
          rw [List.getD_eq_getElem _ _ (by simpa using hi'), List.getD_eq_getElem _ _ (by simpa using hi')]
          simp only [List.getElem_map]
          exact key _

/-- Uniform edges of shifted data are the shifted edges. -/
theorem binEdges_shift_cuts {arr : List ℚ} {b : ℚ} {n : ℤ} {e : List ℚ}
    (h : binEdges id arr n false = .ok e) :
    ∃ e', binEdges id (arr.map (· + b)) n false = .ok e' ∧ SameCuts (· + b) arr e e' := by
  unfold binEdges at h ⊢
  simp only [Bool.false_eq_true, if_false] at h ⊢
  have hmin : (arr.map (· + b)).min? = arr.min?.map (· + b) := by
    induction arr with
    | nil => rfl
    | cons x xs ih => 
      clear ih h
      simp only [List.map_cons, List.min?_cons', Option.map_some, Option.some.injEq]
      induction xs generalizing x with
      | nil => rfl
      | cons y ys ih => 
        simp only [List.map_cons, List.foldl_cons]
        rw [← ih, min_add_add_right]
  have hmax : (arr.map (· + b)).max? = arr.max?.map (· + b) := by
    induction arr with
    | nil => rfl
    | cons x xs ih => 
      clear ih h hmin
      simp only [List.map_cons, List.max?_cons', Option.map_some, Option.some.injEq]
      induction xs generalizing x with
      | nil => rfl
      | cons y ys ih => 
        simp only [List.map_cons, List.foldl_cons]
        rw [← ih, max_add_add_right]
  rw [hmin, hmax]
  cases hlo : arr.min? with
  | none => rw [hlo] at h; simp [throw, throwThe, MonadExceptOf.throw] at h
  | some lo =>
    cases hhi : arr.max? with
    | none => rw [hlo, hhi] at h; simp [throw, throwThe, MonadExceptOf.throw] at h
    | some hi =>
      rw [hlo, hhi] at h
      simp only [Option.map_some, id] at h ⊢
      unfold linspace at h ⊢
      split at h
      · cases h
      · next hn =>
        rw [if_neg hn]
        simp only [id, Except.ok.injEq] at h
        subst h
        refine ⟨_, rfl, by simp, ?_⟩
        intro i hi' x hx
        simp only [List.length_map, List.length_range] at hi'
        rw [List.getD_eq_getElem _ _ (by simpa using hi'), List.getD_eq_getElem _ _ (by simpa using hi')]
        simp only [List.getElem_map, List.getElem_range, id]
        have e1 : hi + b - (lo + b - 1 / 10 ^ 14) = hi - (lo - 1 / 10 ^ 14) := by ring
        rw [e1]
        split
        · constructor <;> intro _ <;> linarith
        · split
          · split
            · constructor <;> intro _ <;> linarith
            · constructor <;> intro _ <;> linarith
          · constructor <;> intro _ <;> linarith

theorem searchGo_congr {e e' : List ℚ} {x y : ℚ} (lo hi : ℕ) (h : ∀ i, i < hi → (e.getD i 0 < x ↔ e'.getD i 0 < y)) :
    searchGo e x lo hi = searchGo e' y lo hi := by
  induction hk : hi - lo using Nat.strong_induction_on generalizing lo hi with
  | _ n ih =>
    rw [searchGo, searchGo]
    by_cases hlt : lo < hi
    · simp only [hlt, dif_pos]
      have hm : lo + (hi - lo) / 2 < hi := by omega
      by_cases hc : e.getD (lo + (hi - lo) / 2) 0 < x
      · rw [if_pos hc, if_pos ((h _ hm).1 hc)]
        exact ih _ (by omega) _ _ h rfl
      · rw [if_neg hc, if_neg (fun h' => hc ((h _ hm).2 h'))]
        exact ih _ (by omega) _ _ (fun i hi' => h i (by omega)) rfl
    · simp only [hlt, dif_neg, not_false_iff]

theorem binArray_cuts {f : ℚ → ℚ} {arr : List (Option ℚ)} {e e' : List ℚ} (h : SameCuts f (arr.filterMap id) e e') :
    (binArray (arr.map (Option.map f)) e').1 = (binArray arr e).1 := by
  have hidx : (arr.map (Option.map f)).map (searchsorted e') = arr.map (searchsorted e) := by
    rw [List.map_map]
    refine List.map_congr_left fun o ho => ?_
    cases o with
    | none => exact h.1
    | some x =>
      simp only [Function.comp, Option.map_some, searchsorted]
      rw [h.1]
      exact (searchGo_congr 0 e.length fun i hi => h.2 i hi x (List.mem_filterMap.2 ⟨_, ho, rfl⟩)).symm
  unfold binArray
  simp only [hidx, h.1]
  congr 2
  rw [List.zipWith_map_left]
  congr 1
  funext x b
  cases x <;> rfl

theorem binEdges_quantile_back {arr : List ℚ} {f : ℚ → ℚ} (hf : ∀ x ∈ arr, ∀ y ∈ arr, x < y → f x < f y) {n : ℤ} {e : List ℚ}
    (h : binEdges id (arr.map f) n true = .ok e) : ∃ e', binEdges id arr n true = .ok e' := by
  unfold binEdges at h ⊢
  simp only [if_true] at h ⊢
  rw [mergeSort_map hf] at h
  cases hq : linspace id 0 1 (n + 1) with
  | error e => rw [hq] at h; simp [bind, Except.bind] at h
  | ok qs =>
    rw [hq] at h
    simp only [bind, Except.bind] at h ⊢
    have hs' : (arr.mergeSort.map f).isEmpty = arr.mergeSort.isEmpty := by simp
    rw [hs'] at h
    cases hs : arr.mergeSort.isEmpty with
    | true => rw [hs] at h; simp [throw, throwThe, MonadExceptOf.throw] at h
    | false =>
      rw [hs] at h
      simp only [Bool.false_eq_true, if_false] at h ⊢
      cases qs with
      | nil => simp [throw, throwThe, MonadExceptOf.throw] at h
      | cons q0 qs => exact ⟨_, rfl⟩

end Phik
