import Verif.Lemmas.Binning

/-! # Automatic edges are sorted, in exact and in binary64 arithmetic -/

namespace Phik

/-- Rounding with a relative error of at most 2^-53; exact arithmetic and binary64 are instances. -/
structure RelRounding (fl : ℚ → ℚ) : Prop extends Rounding fl where
  err : ∀ x, |fl x - x| ≤ |x| / 9007199254740992

theorem RelRounding_id : RelRounding (fun x => x) where
  toRounding := Rounding_id
  err x := by simp only [sub_self, abs_zero]; positivity

theorem RelRounding_rne53 : RelRounding rne53 where
  toRounding := Rounding_rne53
  err x := by
    by_cases hx : x = 0
    · simp [hx, rne53_zero]
    · refine le_trans (rne53_err x) ?_
      have h1 := (ulpExp_spec hx).1
      have h2 : (2 : ℚ) ^ (ulpExp x + 52) = 2 ^ ulpExp x * 4503599627370496 := by
        have := zpow_split (ulpExp x) 52
        push_cast at this
        rw [this]
      rw [h2] at h1
      rw [div_le_div_iff₀ (by norm_num) (by norm_num)]
      linarith

namespace RelRounding
variable {fl : ℚ → ℚ} (hfl : RelRounding fl)
include hfl

theorem zero : fl 0 = 0 := by simpa using hfl.int 0 (by simp)
theorem one : fl 1 = 1 := by simpa using hfl.int 1 (by simp)
theorem half : fl (1 / 2) = 1 / 2 := by simpa using hfl.exact 1 (by norm_num)

theorem nonneg {x : ℚ} (h : 0 ≤ x) : 0 ≤ fl x := by
  have := hfl.mono _ _ h; rwa [hfl.zero] at this

theorem le_mul {x : ℚ} (h : 0 ≤ x) : fl x ≤ x * (1 + 1 / 9007199254740992) := by
  have := (abs_le.1 (hfl.err x)).2
  rw [abs_of_nonneg h] at this
  linarith

theorem mul_le {x : ℚ} (h : 0 ≤ x) : x * (1 - 1 / 9007199254740992) ≤ fl x := by
  have := (abs_le.1 (hfl.err x)).1
  rw [abs_of_nonneg h] at this
  linarith

theorem eq_zero {x : ℚ} (h : 0 ≤ x) (h0 : fl x = 0) : x = 0 := by
  have := hfl.mul_le h
  rw [h0] at this
  nlinarith

end RelRounding

/-- Elements of `linspace` in a form convenient for proofs. -/
theorem linspace_getElem {fl : ℚ → ℚ} (hfl : RelRounding fl) {start stop : ℚ} (hle : start ≤ stop)
    (h1 : fl start = start) {n : ℕ} (hn : 1 ≤ n) :
    ∃ l, linspace fl start stop ((n : ℤ) + 1) = .ok l ∧ l.length = n + 1 ∧
      (∀ i (h : i < l.length), i < n → l[i] = fl (fl (i * fl (fl (stop - start) / n)) + start)) ∧
      (∀ h : n < l.length, l[n] = stop) := by
  have hne : ¬ ((n : ℤ) + 1 < 0) := by omega
  have e : ((n : ℤ) + 1).toNat = n + 1 := by omega
  have hn0 : (0 : ℚ) < n := by exact_mod_cast hn
  unfold linspace
  rw [if_neg hne]
  refine ⟨_, rfl, by simp, fun i h hi => ?_, fun h => ?_⟩
  · simp only [List.getElem_map, List.getElem_range, e]
    rw [if_neg (by omega), if_pos (by push_cast; linarith)]
    push_cast
    simp only [add_sub_cancel_right]
    split
    · rename_i hs
      have hd : fl (stop - start) / n = 0 := hfl.eq_zero (div_nonneg (hfl.nonneg (by linarith)) hn0.le) hs
      rw [hs]
      have : fl (stop - start) = 0 := by
        rcases div_eq_zero_iff.1 hd with h | h
        · exact h
        · exact absurd h hn0.ne'
      rw [this]; simp [hfl.zero]
    · rfl
  · simp only [List.getElem_map, List.getElem_range, e]
    rw [if_pos ⟨by omega, trivial⟩]

/-- `linspace` is sorted. -/
theorem linspace_sorted {fl : ℚ → ℚ} (hfl : RelRounding fl) {start stop : ℚ} (hle : start ≤ stop)
    (h1 : fl start = start) (h2 : fl stop = stop) {n : ℕ} (hn : 1 ≤ n) (hb : n ≤ 281474976710656) {l : List ℚ}
    (h : linspace fl start stop ((n : ℤ) + 1) = .ok l) : l.Pairwise (· ≤ ·) := by
  obtain ⟨l', e0, e1, e2, e3⟩ := linspace_getElem hfl hle h1 hn
  rw [h] at e0
  obtain rfl : l = l' := by injection e0
  have hn0 : (0 : ℚ) < n := by exact_mod_cast hn
  have hb' : (n : ℚ) ≤ 281474976710656 := by exact_mod_cast hb
  set step := fl (fl (stop - start) / n) with hstep
  have hd : 0 ≤ fl (stop - start) := hfl.nonneg (by linarith)
  have hs0 : 0 ≤ step := hfl.nonneg (div_nonneg hd hn0.le)
  have hsb : step * n ≤ (stop - start) * (1 + 1 / 9007199254740992) ^ 2 := by
    have a1 := hfl.le_mul (show 0 ≤ stop - start by linarith)
    have a2 := hfl.le_mul (div_nonneg hd hn0.le)
    rw [← hstep, div_mul_eq_mul_div, le_div_iff₀ hn0] at a2
    nlinarith
  rw [List.pairwise_iff_getElem]
  intro i j hi hj hij
  have hin : i < n := by omega
  rw [e2 i hi hin]
  by_cases hjn : j < n
  · rw [e2 j hj hjn]
    refine hfl.mono _ _ (add_le_add_left (hfl.mono _ _ ?_) _)
    exact mul_le_mul_of_nonneg_right (by exact_mod_cast hij.le) hs0
  · obtain rfl : j = n := by omega
    rw [e3 hj, ← h2]
    refine hfl.mono _ _ ?_
    have hi' : (i : ℚ) ≤ j - 1 := by
      have : (i : ℚ) + 1 ≤ j := by exact_mod_cast hin
      linarith
    have hi0 : (0 : ℚ) ≤ i := Nat.cast_nonneg _
    have a1 := hfl.le_mul (mul_nonneg hi0 hs0)
    have a2 : (i : ℚ) * step * j ≤ (j - 1) * (stop - start) * (1 + 1 / 9007199254740992) ^ 2 := by
      have := mul_le_mul hi' hsb (mul_nonneg hs0 hn0.le) (by linarith)
      linarith
    have a3 : fl (i * step) * j ≤ (j - 1) * (1 + 1 / 9007199254740992) ^ 3 * (stop - start) := by
      have := mul_le_mul_of_nonneg_right a1 hn0.le
      nlinarith
    have a4 : ((j : ℚ) - 1) * (1 + 1 / 9007199254740992) ^ 3 ≤ j := by nlinarith
    have a5 : fl (i * step) * j ≤ (stop - start) * j := by
      have := mul_le_mul_of_nonneg_right a4 (show 0 ≤ stop - start by linarith)
      linarith
    have := le_of_mul_le_mul_right a5 hn0
    linarith

/-- Neighbouring elements of `linspace(0, 1, n + 1)` are apart by more than 26 times the unit of rounding. -/
theorem linspace01_gap {fl : ℚ → ℚ} (hfl : RelRounding fl) {n : ℕ} (hn : 1 ≤ n) (hb : n ≤ 281474976710656) {l : List ℚ}
    (h : linspace fl 0 1 ((n : ℤ) + 1) = .ok l) :
    l.length = n + 1 ∧ (∀ q ∈ l, 0 ≤ q ∧ q ≤ 1) ∧
      l.Pairwise fun p q => p + 26 / 9007199254740992 ≤ q := by
  obtain ⟨l', e0, e1, e2, e3⟩ := linspace_getElem hfl zero_le_one hfl.zero hn
  rw [h] at e0
  obtain rfl : l = l' := by injection e0
  have hs := linspace_sorted hfl zero_le_one hfl.zero hfl.one hn hb h
  have hn0 : (0 : ℚ) < n := by exact_mod_cast hn
  have hb' : (n : ℚ) ≤ 281474976710656 := by exact_mod_cast hb
  have hinv : (32 : ℚ) / 9007199254740992 ≤ 1 / n := by
    rw [div_le_div_iff₀ (by norm_num) hn0]; linarith
  set step := fl (fl (1 - 0) / n) with hstep
  have hst : step = fl (1 / n) := by rw [hstep, sub_zero, hfl.one]
  have hle := hfl.le_mul (show 0 ≤ 1 / (n : ℚ) by positivity)
  have hge := hfl.mul_le (show 0 ≤ 1 / (n : ℚ) by positivity)
  rw [← hst] at hle hge
  have hs0 : 0 ≤ step := hst ▸ hfl.nonneg (by positivity)
  have hel : ∀ i (h : i < l.length), i < n → l[i] = fl (i * step) := by
    intro i hi hin
    rw [e2 i hi hin, add_zero, hfl.idem]
  have h0 : ∀ q ∈ l, 0 ≤ q := linspace_ge hfl.toRounding n (by norm_num) hfl.zero h
  have h1 : ∀ q ∈ l, q ≤ 1 := by
    intro q hq
    obtain ⟨i, hi, rfl⟩ := List.getElem_of_mem hq
    have hnl : n < l.length := by omega
    rw [← e3 hnl]
    rcases (show i ≤ n by omega).lt_or_eq with hi' | rfl
    · exact List.pairwise_iff_getElem.1 hs i n hi hnl hi'
    · exact le_rfl
  refine ⟨e1, fun q hq => ⟨h0 q hq, h1 q hq⟩, ?_⟩
  rw [List.pairwise_iff_getElem]
  intro i j hi hj hij
  have hin : i < n := by omega
  have hi0 : (0 : ℚ) ≤ i := Nat.cast_nonneg _
  have hij' : (i : ℚ) + 1 ≤ j := by exact_mod_cast hij
  have hnn : (n : ℚ) * (1 / n) = 1 := by field_simp
  rw [hel i hi hin]
  have a1 := hfl.le_mul (mul_nonneg hi0 hs0)
  by_cases hjn : j < n
  · rw [hel j hj hjn]
    have hjn' : (j : ℚ) + 1 ≤ n := by exact_mod_cast hjn
    have a2 := hfl.mul_le (mul_nonneg (show (0:ℚ) ≤ j by linarith) hs0)
    have a3 : (j : ℚ) * step ≤ 2 := by nlinarith
    have a4 : step ≤ (j - i) * step := by nlinarith
    nlinarith
  · obtain rfl : j = n := by omega
    rw [e3 hj]
    have a3 : (i : ℚ) * step ≤ (1 - 1 / j) * (1 + 1 / 9007199254740992) := by nlinarith
    nlinarith

/-- Linear interpolation as in `quantile1`. -/
def lerp (fl : ℚ → ℚ) (a b g : ℚ) : ℚ :=
  if g < 1 / 2 then fl (a + fl (fl (b - a) * g)) else fl (b - fl (fl (b - a) * fl (1 - g)))

theorem lerp_bounds {fl : ℚ → ℚ} (hfl : RelRounding fl) {a b g : ℚ} (hab : a ≤ b) (ha : fl a = a) (hb : fl b = b)
    (h0 : 0 ≤ g) (h1 : g ≤ 1) : a ≤ lerp fl a b g ∧ lerp fl a b g ≤ b := by
  have hd : 0 ≤ fl (b - a) := hfl.nonneg (by linarith)
  have hd1 := hfl.le_mul (show 0 ≤ b - a by linarith)
  have key : ∀ t, 0 ≤ t → t ≤ 1 / 2 → 0 ≤ fl (fl (b - a) * t) ∧ fl (fl (b - a) * t) ≤ b - a := by
    intro t t0 t1
    have := hfl.le_mul (mul_nonneg hd t0)
    refine ⟨hfl.nonneg (mul_nonneg hd t0), le_trans this ?_⟩
    nlinarith
  unfold lerp
  split
  · rename_i hg
    obtain ⟨k1, k2⟩ := key g h0 hg.le
    constructor
    · calc a = fl a := ha.symm
        _ ≤ _ := hfl.mono _ _ (by linarith)
    · calc _ ≤ fl b := hfl.mono _ _ (by linarith)
        _ = b := hb
  · rename_i hg
    have g1 : fl (1 - g) ≤ 1 / 2 := by
      rw [← hfl.half]; exact hfl.mono _ _ (by linarith [not_lt.1 hg])
    obtain ⟨k1, k2⟩ := key (fl (1 - g)) (hfl.nonneg (by linarith)) g1
    constructor
    · calc a = fl a := ha.symm
        _ ≤ _ := hfl.mono _ _ (by linarith)
    · calc _ ≤ fl b := hfl.mono _ _ (by linarith)
        _ = b := hb

theorem lerp_mono {fl : ℚ → ℚ} (hfl : RelRounding fl) {a b g g' : ℚ} (hab : a ≤ b)
    (h0 : 0 ≤ g) (hgg : g + 22 / 9007199254740992 ≤ g') (h1 : g' ≤ 1) : lerp fl a b g ≤ lerp fl a b g' := by
  have hd : 0 ≤ fl (b - a) := hfl.nonneg (by linarith)
  have hd1 := hfl.le_mul (show 0 ≤ b - a by linarith)
  unfold lerp
  split
  · split
    · refine hfl.mono _ _ (add_le_add_right (hfl.mono _ _ ?_) _)
      exact mul_le_mul_of_nonneg_left (by linarith) hd
    · refine hfl.mono _ _ ?_
      have g0 := hfl.nonneg (show 0 ≤ 1 - g' by linarith)
      have k0 := hfl.le_mul (show 0 ≤ 1 - g' by linarith)
      have k1 := hfl.le_mul (mul_nonneg hd h0)
      have k2 := hfl.le_mul (mul_nonneg hd g0)
      have k3 : g + fl (1 - g') ≤ 1 - 20 / 9007199254740992 := by nlinarith
      have k4 : fl (b - a) * (g + fl (1 - g')) ≤
          (b - a) * (1 + 1 / 9007199254740992) * (1 - 20 / 9007199254740992) :=
        mul_le_mul hd1 k3 (by linarith) (by nlinarith)
      nlinarith
  · rw [if_neg (by linarith)]
    refine hfl.mono _ _ (sub_le_sub_left (hfl.mono _ _ ?_) _)
    exact mul_le_mul_of_nonneg_left (hfl.mono _ _ (by linarith)) hd

theorem quantile1_eq {fl : ℚ → ℚ} (hfl : RelRounding fl) {s : List ℚ} (hne : s ≠ []) (hrep : ∀ x ∈ s, fl x = x) (q : ℚ) :
    quantile1 fl s q = if (s.length : ℚ) - 1 ≤ fl (((s.length : ℚ) - 1) * q) then s.getD (s.length - 1) 0 else
      lerp fl (s.getD ⌊fl (((s.length : ℚ) - 1) * q)⌋.toNat 0) (s.getD (⌊fl (((s.length : ℚ) - 1) * q)⌋.toNat + 1) 0)
        (fl (fl (((s.length : ℚ) - 1) * q) - ⌊fl (((s.length : ℚ) - 1) * q)⌋)) := by
  have hl : 0 < s.length := List.length_pos_of_ne_nil hne
  have hr : fl (s.getD (s.length - 1) 0) = s.getD (s.length - 1) 0 := by
    rw [getD_lt (by omega)]; exact hrep _ (List.getElem_mem _)
  unfold quantile1 lerp
  by_cases h : (s.length : ℚ) - 1 ≤ fl (((s.length : ℚ) - 1) * q)
  · simp only [h, decide_true, if_true]
    simp only [sub_self, hfl.zero, zero_mul, add_zero, sub_zero, hr, ite_self]
  · simp only [h, decide_false, Bool.false_eq_true, if_false]

theorem quantile1_mono {fl : ℚ → ℚ} (hfl : RelRounding fl) {s : List ℚ} (hs : s.Pairwise (· ≤ ·)) (hne : s ≠ [])
    (hrep : ∀ x ∈ s, fl x = x) {q q' : ℚ} (h0 : 0 ≤ q) (hqq : q + 26 / 9007199254740992 ≤ q') (h1 : q' ≤ 1) :
    quantile1 fl s q ≤ quantile1 fl s q' := by
  have hl : 0 < s.length := List.length_pos_of_ne_nil hne
  have mono : ∀ i j, i ≤ j → j < s.length → s.getD i 0 ≤ s.getD j 0 := by
    intro i j hij hj
    rw [getD_lt hj, getD_lt (by omega)]
    rcases hij.lt_or_eq with e | e
    · exact List.pairwise_iff_getElem.1 hs i j (by omega) hj e
    · subst e; exact le_rfl
  have rep : ∀ i, i < s.length → fl (s.getD i 0) = s.getD i 0 := fun i hi => by
    rw [getD_lt hi]; exact hrep _ (List.getElem_mem hi)
  rw [quantile1_eq hfl hne hrep, quantile1_eq hfl hne hrep]
  set m : ℚ := (s.length : ℚ) - 1 with hm
  have hm0 : 0 ≤ m := by
    have : (1 : ℚ) ≤ s.length := by exact_mod_cast hl
    linarith
  set v := fl (m * q) with hv
  set v' := fl (m * q') with hv'
  have hv0 : 0 ≤ v := hfl.nonneg (mul_nonneg hm0 h0)
  have hvv : v ≤ v' := hfl.mono _ _ (mul_le_mul_of_nonneg_left (by linarith) hm0)
  -- position and fraction below the top
  have pos : ∀ w : ℚ, 0 ≤ w → w < m → ⌊w⌋.toNat + 1 < s.length ∧ ((⌊w⌋.toNat : ℕ) : ℚ) = ⌊w⌋ ∧ 0 ≤ fl (w - ⌊w⌋) ∧
      fl (w - ⌊w⌋) ≤ 1 := by
    intro w w0 wm
    have f0 : 0 ≤ ⌊w⌋ := Int.floor_nonneg.2 w0
    have f1 : ⌊w⌋ < (s.length : ℤ) - 1 := by
      rw [Int.floor_lt]; push_cast; linarith
    refine ⟨by omega, ?_, hfl.nonneg (by linarith [Int.floor_le w]), ?_⟩
    · have : ((⌊w⌋.toNat : ℕ) : ℤ) = ⌊w⌋ := by omega
      exact_mod_cast this
    · rw [← hfl.one]; exact hfl.mono _ _ (by linarith [Int.lt_floor_add_one w])
  by_cases ht : m ≤ v
  · rw [if_pos ht, if_pos (le_trans ht hvv)]
  rw [if_neg ht]
  obtain ⟨p1, p2, p3, p4⟩ := pos v hv0 (not_le.1 ht)
  obtain ⟨b1, b2⟩ := lerp_bounds hfl (mono ⌊v⌋.toNat (⌊v⌋.toNat + 1) (by omega) p1) (rep _ (by omega)) (rep _ p1) p3 p4
  by_cases ht' : m ≤ v'
  · rw [if_pos ht']
    exact le_trans b2 (mono _ _ (by omega) (by omega))
  rw [if_neg ht']
  obtain ⟨p1', p2', p3', p4'⟩ := pos v' (le_trans hv0 hvv) (not_le.1 ht')
  obtain ⟨b1', b2'⟩ := lerp_bounds hfl (mono ⌊v'⌋.toNat (⌊v'⌋.toNat + 1) (by omega) p1') (rep _ (by omega)) (rep _ p1')
    p3' p4'
  have hfloor : ⌊v⌋ ≤ ⌊v'⌋ := Int.floor_mono hvv
  rcases hfloor.lt_or_eq with hf | hf
  · refine le_trans b2 (le_trans (mono _ _ ?_ (by omega)) b1')
    have : 0 ≤ ⌊v⌋ := Int.floor_nonneg.2 hv0
    omega
  · rw [← hf]
    refine lerp_mono hfl (mono _ _ (by omega) p1) p3 ?_ (by rw [hf]; exact p4')
    have hm1 : 1 ≤ m := by
      have : (2 : ℚ) ≤ s.length := by exact_mod_cast (show 2 ≤ s.length by omega)
      linarith
    have k1 := hfl.le_mul (mul_nonneg hm0 h0)
    have k2 := hfl.mul_le (mul_nonneg hm0 (show 0 ≤ q' by linarith))
    rw [← hv] at k1
    rw [← hv'] at k2
    have l1 := Int.floor_le v
    have l2 := Int.lt_floor_add_one v'
    have l3 := Int.floor_le v'
    rw [← hf] at l2 l3
    have k3 := hfl.le_mul (show 0 ≤ v - ⌊v⌋ by linarith)
    have k4 := hfl.mul_le (show 0 ≤ v' - ⌊v⌋ by linarith)
    have k5 : v + 24 / 9007199254740992 ≤ v' := by
      have : m * q' ≤ m := by nlinarith
      have : m * q ≤ m := by nlinarith
      nlinarith
    linarith

theorem sorted_mergeSort (arr : List ℚ) : arr.mergeSort.Pairwise (· ≤ ·) := by
  have := List.pairwise_mergeSort (le := fun a b : ℚ => decide (a ≤ b))
    (by intro a b c; simpa using le_trans) (by intro a b; simpa using le_total a b) arr
  simpa using this

/-- The automatic edges are sorted. -/
theorem binEdges_sorted {fl : ℚ → ℚ} (hfl : RelRounding fl) {arr : List ℚ} (hrep : ∀ x ∈ arr, fl x = x) {n : ℕ}
    (hn : 1 ≤ n) (hb : n ≤ 281474976710656) {quantile : Bool} {edges : List ℚ}
    (h : binEdges fl arr n quantile = .ok edges) : edges.Pairwise (· ≤ ·) := by
  have heps : 0 ≤ fl (1 / 10 ^ 14) := hfl.nonneg (by norm_num)
  cases quantile with
  | true =>
    obtain ⟨l, h1, -⟩ := linspace01 hfl.toRounding n hn
    obtain ⟨g1, g2, g3⟩ := linspace01_gap hfl hn hb h1
    unfold binEdges at h
    simp only [if_true, h1, bind, Except.bind] at h
    cases hs : arr.mergeSort.isEmpty with
    | true => rw [hs] at h; cases h
    | false =>
      have hne : arr.mergeSort ≠ [] := by intro h; rw [h] at hs; simp at hs
      cases l with
      | nil => simp at g1
      | cons q0 qs =>
        simp only [hs, List.map_cons] at h
        have h : Except.ok (fl (quantile1 fl arr.mergeSort q0 - fl (1 / 10 ^ 14)) ::
          qs.map (quantile1 fl arr.mergeSort)) = (Except.ok edges : Except Err _) := h
        injection h with h
        have hrep' : ∀ x ∈ arr.mergeSort, fl x = x := fun x hx => hrep x (List.mem_mergeSort.1 hx)
        have hq : ((q0 :: qs).map (quantile1 fl arr.mergeSort)).Pairwise (· ≤ ·) := by
          rw [List.pairwise_map]
          refine List.Pairwise.imp_of_mem ?_ g3
          intro p q hp hq hpq
          exact quantile1_mono hfl (sorted_mergeSort arr) hne hrep' (g2 p hp).1 hpq (g2 q hq).2
        rw [List.map_cons, List.pairwise_cons] at hq
        rw [← h, List.pairwise_cons]
        refine ⟨fun e he => ?_, hq.2⟩
        -- all values come from data or are fixed by rounding
        have hle := hq.1 e he
        have hfe : fl e = e := by
          obtain ⟨q, -, rfl⟩ := List.mem_map.1 he
          rw [quantile1_eq hfl hne hrep']
          split
          · have hl : 0 < arr.mergeSort.length := List.length_pos_of_ne_nil hne
            rw [getD_lt (by omega)]; exact hrep' _ (List.getElem_mem _)
          · unfold lerp; split <;> exact hfl.idem _
        rw [← hfe]
        exact hfl.mono _ _ (by linarith)
  | false =>
    unfold binEdges at h
    cases hlo : arr.min? with
    | none => simp only [hlo] at h; cases h
    | some lo =>
      cases hhi : arr.max? with
      | none => simp only [hlo, hhi] at h; cases h
      | some hi =>
        simp only [hlo, hhi, Bool.false_eq_true, if_false] at h
        have hr := hrep hi (max?_spec hhi).1
        have hlohi : lo ≤ hi := (min?_spec hlo).2 _ (max?_spec hhi).1
        refine linspace_sorted hfl ?_ (hfl.idem _) hr hn hb h
        rw [← hr]
        exact hfl.mono _ _ (by linarith)

end Phik
