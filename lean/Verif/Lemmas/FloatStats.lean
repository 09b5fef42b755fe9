import Verif.Model.FloatStats
import Verif.Lemmas.Edges
import Verif.Lemmas.Stats
import Mathlib.Analysis.InnerProductSpace.PiL2
import Mathlib.Analysis.SpecialFunctions.Exp
import Mathlib.Analysis.Complex.Exponential

/-! # Rounding errors of the Pearson statistic: lemmas -/

namespace Phik

/-- Half of the distance from 1 to the next larger binary64 number. -/
abbrev uRound : ℚ := 1 / 9007199254740992

variable {fl : ℚ → ℚ}

namespace SumTree

theorem depth_lt (t : SumTree) : t.depth < t.leaves.length := by
  induction t with
  | leaf x => simp [depth, leaves]
  | node s t hs ht => simp only [depth, leaves, List.length_append]; omega

theorem eval_bounds (hfl : RelRounding fl) (t : SumTree) (h : ∀ x ∈ t.leaves, 0 ≤ x) :
    (1 - uRound) ^ t.depth * t.leaves.sum ≤ t.eval fl ∧ t.eval fl ≤ (1 + uRound) ^ t.depth * t.leaves.sum := by
  induction t with
  | leaf x => simp [depth, leaves, eval]
  | node s t hs ht =>
    simp only [leaves, List.mem_append] at h
    have hs := hs fun x hx => h x (.inl hx)
    have ht := ht fun x hx => h x (.inr hx)
    have ps : 0 ≤ s.leaves.sum := List.sum_nonneg fun x hx => h x (.inl hx)
    have pt : 0 ≤ t.leaves.sum := List.sum_nonneg fun x hx => h x (.inr hx)
    simp only [depth, leaves, eval, List.sum_append, pow_succ]
    have a1 : (1 - uRound) ^ max s.depth t.depth ≤ (1 - uRound) ^ s.depth := pow_le_pow_of_le_one (by norm_num) (by norm_num) (le_max_left _ _)
    have a2 : (1 - uRound) ^ max s.depth t.depth ≤ (1 - uRound) ^ t.depth := pow_le_pow_of_le_one (by norm_num) (by norm_num) (le_max_right _ _)
    have b1 : (1 + uRound) ^ s.depth ≤ (1 + uRound) ^ max s.depth t.depth := pow_le_pow_right₀ (by norm_num) (le_max_left _ _)
    have b2 : (1 + uRound) ^ t.depth ≤ (1 + uRound) ^ max s.depth t.depth := pow_le_pow_right₀ (by norm_num) (le_max_right _ _)
    have c1 : (0 : ℚ) ≤ (1 - uRound) ^ max s.depth t.depth := pow_nonneg (by norm_num) _
    have lo : (1 - uRound) ^ max s.depth t.depth * (s.leaves.sum + t.leaves.sum) ≤ s.eval fl + t.eval fl := by
      have := mul_le_mul_of_nonneg_right a1 ps
      have := mul_le_mul_of_nonneg_right a2 pt
      rw [mul_add]; linarith [hs.1, ht.1]
    have hi : s.eval fl + t.eval fl ≤ (1 + uRound) ^ max s.depth t.depth * (s.leaves.sum + t.leaves.sum) := by
      have := mul_le_mul_of_nonneg_right b1 ps
      have := mul_le_mul_of_nonneg_right b2 pt
      rw [mul_add]; linarith [hs.2, ht.2]
    have p0 : 0 ≤ s.eval fl + t.eval fl := le_trans (mul_nonneg c1 (add_nonneg ps pt)) lo
    constructor
    · refine le_trans ?_ (hfl.mul_le p0)
      have := mul_le_mul_of_nonneg_right lo (by norm_num : (0 : ℚ) ≤ 1 - uRound)
      calc _ = (1 - uRound) ^ max s.depth t.depth * (s.leaves.sum + t.leaves.sum) * (1 - uRound) := by ring
        _ ≤ _ := this
    · refine le_trans (hfl.le_mul p0) ?_
      have := mul_le_mul_of_nonneg_right hi (by norm_num : (0 : ℚ) ≤ 1 + uRound)
      calc _ ≤ (1 + uRound) ^ max s.depth t.depth * (s.leaves.sum + t.leaves.sum) * (1 + uRound) := this
        _ = _ := by ring

theorem eval_int (hfl : RelRounding fl) (t : SumTree) (h : ∀ x ∈ t.leaves, ∃ k : ℕ, x = k) (hs : t.leaves.sum ≤ 4503599627370496) :
    t.eval fl = t.leaves.sum := by
  induction t with
  | leaf x => simp [leaves, eval]
  | node s t hs' ht =>
    simp only [leaves, List.mem_append] at h
    simp only [leaves, List.sum_append] at hs
    have ps : 0 ≤ s.leaves.sum := List.sum_nonneg fun x hx => by obtain ⟨k, rfl⟩ := h x (.inl hx); positivity
    have pt : 0 ≤ t.leaves.sum := List.sum_nonneg fun x hx => by obtain ⟨k, rfl⟩ := h x (.inr hx); positivity
    have key : ∀ l : List ℚ, (∀ x ∈ l, ∃ k : ℕ, x = k) → ∃ k : ℕ, l.sum = k := by
      intro l hl
      induction l with
      | nil => exact ⟨0, by simp⟩
      | cons x l ih =>
        obtain ⟨k, hk⟩ := ih fun y hy => hl y (List.mem_cons_of_mem _ hy)
        obtain ⟨m, rfl⟩ := hl x List.mem_cons_self
        exact ⟨m + k, by simp [hk]⟩
    obtain ⟨k, hk⟩ := key (s.leaves ++ t.leaves) fun x hx => h x (List.mem_append.1 hx)
    rw [List.sum_append] at hk
    simp only [eval, leaves, List.sum_append]
    rw [hs' (fun x hx => h x (.inl hx)) (by linarith), ht (fun x hx => h x (.inr hx)) (by linarith), hk]
    rw [hk] at hs
    have := hfl.exact (2 * k) (by
      rw [abs_of_nonneg (by positivity)]
      have : k ≤ 4503599627370496 := by exact_mod_cast hs
      omega)
    push_cast at this
    rwa [mul_div_cancel_left₀ _ (by norm_num : (2 : ℚ) ≠ 0)] at this

end SumTree

section
variable {order : SumSite → List ℚ → SumTree}

theorem flSum_int (hfl : RelRounding fl) (ho : ∀ s l, l ≠ [] → (order s l).leaves.Perm l) (s : SumSite) {l : List ℚ} (h : ∀ x ∈ l, ∃ k : ℕ, x = k)
    (hs : l.sum ≤ 4503599627370496) : flSum fl order s l = l.sum := by
  unfold flSum
  split
  · next hl => simp [hl]
  · next hl =>
    rw [SumTree.eval_int hfl _ (fun x hx => h x ((ho s l hl).mem_iff.1 hx)) (by rwa [(ho s l hl).sum_eq]), (ho s l hl).sum_eq]

theorem flSum_bounds (hfl : RelRounding fl) (ho : ∀ s l, l ≠ [] → (order s l).leaves.Perm l) (s : SumSite) {l : List ℚ} (h : ∀ x ∈ l, 0 ≤ x) {D : ℕ}
    (hD : l ≠ [] → (order s l).depth ≤ D) :
    (1 - uRound) ^ D * l.sum ≤ flSum fl order s l ∧ flSum fl order s l ≤ (1 + uRound) ^ D * l.sum := by
  unfold flSum
  split
  · next hl => simp [hl]
  · next hl =>
    have hp := ho s l hl
    have := SumTree.eval_bounds hfl (order s l) fun x hx => h x (hp.mem_iff.1 hx)
    rw [hp.sum_eq] at this
    have ps : 0 ≤ l.sum := List.sum_nonneg h
    refine ⟨le_trans (mul_le_mul_of_nonneg_right (pow_le_pow_of_le_one (by norm_num) (by norm_num) (hD hl)) ps) this.1,
      le_trans this.2 (mul_le_mul_of_nonneg_right (pow_le_pow_right₀ (by norm_num) (hD hl)) ps)⟩

end

theorem cellList_sum {r c : ℕ} (v : Fin r → Fin c → ℚ) : (cellList v).sum = ∑ i, ∑ j, v i j := by
  unfold cellList
  rw [List.sum_flatten, List.map_ofFn, List.sum_ofFn]
  exact Finset.sum_congr rfl fun i _ => List.sum_ofFn

theorem mem_cellList {r c : ℕ} {v : Fin r → Fin c → ℚ} {x : ℚ} : x ∈ cellList v ↔ ∃ i j, v i j = x := by
  unfold cellList
  simp only [List.mem_flatten, List.mem_ofFn]
  constructor
  · rintro ⟨l, ⟨i, rfl⟩, hx⟩
    obtain ⟨j, rfl⟩ := List.mem_ofFn.1 hx
    exact ⟨i, j, rfl⟩
  · rintro ⟨i, j, rfl⟩
    exact ⟨_, ⟨i, rfl⟩, List.mem_ofFn.2 ⟨j, rfl⟩⟩

theorem cellList_length {r c : ℕ} (v : Fin r → Fin c → ℚ) : (cellList v).length = r * c := by
  unfold cellList
  simp [List.length_flatten, List.map_ofFn, Function.comp_def, List.sum_ofFn]

/-! ### single operations -/

theorem abs_fl_bounds (hfl : RelRounding fl) (x : ℚ) : (1 - uRound) * |x| ≤ |fl x| ∧ |fl x| ≤ (1 + uRound) * |x| := by
  have h := hfl.err x
  have h1 := abs_sub_abs_le_abs_sub (fl x) x
  have h2 := abs_sub_abs_le_abs_sub x (fl x)
  rw [abs_sub_comm] at h2
  constructor <;> simp only [uRound] <;> linarith

/-- The computed expectation has a relative error of two roundings. -/
theorem fl_expect_bounds (hfl : RelRounding fl) {x n : ℚ} (hx : 0 ≤ x) (hn : 0 < n) :
    (1 - uRound) ^ 2 * (x / n) ≤ fl (fl x / n) ∧ fl (fl x / n) ≤ (1 + uRound) ^ 2 * (x / n) := by
  have h1 := hfl.mul_le hx
  have h2 := hfl.le_mul hx
  have h0 := hfl.nonneg hx
  have p : 0 ≤ fl x / n := div_nonneg h0 hn.le
  constructor
  · refine le_trans ?_ (hfl.mul_le p)
    have := div_le_div_of_nonneg_right h1 hn.le
    have := mul_le_mul_of_nonneg_right this (by norm_num : (0 : ℚ) ≤ 1 - uRound)
    calc _ = x * (1 - 1 / 9007199254740992) / n * (1 - uRound) := by simp only [uRound]; ring
      _ ≤ _ := this
  · refine le_trans (hfl.le_mul p) ?_
    have := div_le_div_of_nonneg_right h2 hn.le
    have := mul_le_mul_of_nonneg_right this (by norm_num : (0 : ℚ) ≤ 1 + uRound)
    calc _ ≤ x * (1 + 1 / 9007199254740992) / n * (1 + uRound) := this
      _ = _ := by simp only [uRound]; ring

/-- A term of the statistic has a relative error of four roundings, for the given observation and expectation. -/
theorem flTerm_bounds (hfl : RelRounding fl) (o : ℚ) {e : ℚ} (he : 0 < e) :
    (1 - uRound) ^ 4 * ((o - e) ^ 2 / e) ≤ flTerm fl o e ∧ flTerm fl o e ≤ (1 + uRound) ^ 4 * ((o - e) ^ 2 / e) := by
  obtain ⟨h1, h2⟩ := abs_fl_bounds hfl (o - e)
  have hsq : fl (o - e) * fl (o - e) = |fl (o - e)| ^ 2 := by rw [sq_abs, sq]
  have q1 : ((1 - uRound) * |o - e|) ^ 2 ≤ fl (o - e) * fl (o - e) := by
    rw [hsq]
    exact pow_le_pow_left₀ (mul_nonneg (by norm_num) (abs_nonneg _)) h1 2
  have q2 : fl (o - e) * fl (o - e) ≤ ((1 + uRound) * |o - e|) ^ 2 := by
    rw [hsq]
    exact pow_le_pow_left₀ (abs_nonneg _) h2 2
  obtain ⟨h3, h4⟩ := fl_expect_bounds hfl (mul_self_nonneg (fl (o - e))) he
  unfold flTerm
  constructor
  · refine le_trans ?_ h3
    have := mul_le_mul_of_nonneg_left (div_le_div_of_nonneg_right q1 he.le) (by norm_num : (0 : ℚ) ≤ (1 - uRound) ^ 2)
    refine le_trans (le_of_eq ?_) this
    rw [mul_pow, sq_abs]; ring
  · refine le_trans h4 ?_
    have := mul_le_mul_of_nonneg_left (div_le_div_of_nonneg_right q2 he.le) (by norm_num : (0 : ℚ) ≤ (1 + uRound) ^ 2)
    refine le_trans this (le_of_eq ?_)
    rw [mul_pow, sq_abs]; ring

/-- The correction moves the observation by the difference, cut off at one half. -/
def clip (x : ℚ) : ℚ := max (-(1 / 2)) (min (1 / 2) x)

theorem clip_lip (x y : ℚ) : |clip x - clip y| ≤ |x - y| := by
  unfold clip
  refine le_trans (abs_max_sub_max_le_max (-(1 / 2)) (min (1 / 2) x) (-(1 / 2)) (min (1 / 2) y)) (max_le (by simp) ?_)
  exact le_trans (abs_min_sub_min_le_max (1 / 2) x (1 / 2) y) (max_le (by simp) le_rfl)

theorem clip_eq (x : ℚ) : min (1 / 2) |x| * SignType.sign x = clip x := by
  unfold clip
  rcases lt_trichotomy x 0 with h | rfl | h
  · rw [abs_of_neg h, sign_neg h, min_eq_right (by linarith : x ≤ 1 / 2)]
    simp only [SignType.coe_neg_one, mul_neg, mul_one]
    rw [← max_neg_neg, neg_neg]
  · norm_num
  · rw [abs_of_pos h, sign_pos h, max_eq_right (le_min (by norm_num) (by linarith))]
    simp

theorem clip_abs (x : ℚ) : |clip x| ≤ |x| := by
  have := clip_lip x 0
  have h0 : clip 0 = 0 := by norm_num [clip]
  rwa [h0, sub_zero, sub_zero] at this

theorem flYates_error (hfl : RelRounding fl) {o e e' : ℚ} (ho : 0 ≤ o) (he : 0 ≤ e) (h1 : (1 - uRound) ^ 2 * e ≤ e') (h2 : e' ≤ (1 + uRound) ^ 2 * e) :
    |(flYates fl o e' - e') - (o + clip (e - o) - e)| ≤ 10 * uRound * (e + o) := by
  have hcl : flYates fl o e' = fl (o + clip (fl (e' - o))) := by
    unfold flYates
    simp only [clip_eq]
    congr 2
    unfold clip
    rcases le_total (fl (e' - o)) (1 / 2) with h | h
    · rw [min_eq_right h]
      rcases le_total (-(1 / 2)) (fl (e' - o)) with h' | h'
      · rw [max_eq_right h', hfl.idem]
      · rw [max_eq_left h']
        have := hfl.exact (-1) (by norm_num)
        norm_num at this ⊢
        exact this
    · rw [min_eq_left h, max_eq_right (by norm_num), hfl.half]
  rw [hcl]
  set d := fl (e' - o) with hd
  have hee : |e' - e| ≤ 5 / 2 * uRound * e := by
    rw [abs_le]
    constructor <;> norm_num [uRound] at h1 h2 ⊢ <;> linarith
  have he' : |e'| ≤ 2 * e := by
    rw [abs_le]
    constructor <;> norm_num [uRound] at h1 h2 ⊢ <;> linarith
  have hg : |e' - o| ≤ 2 * e + o := by
    refine le_trans (abs_sub e' o) ?_
    rw [abs_of_nonneg ho]; linarith
  have hd1 : |d - (e' - o)| ≤ uRound * (2 * e + o) := by
    refine le_trans (hfl.err _) ?_
    rw [div_eq_mul_one_div, mul_comm]
    exact mul_le_mul_of_nonneg_left hg (by norm_num)
  have hd2 : |d| ≤ 3 * e + 2 * o := by
    have := (abs_fl_bounds hfl (e' - o)).2
    rw [← hd] at this
    have h3 := mul_le_mul_of_nonneg_left hg (by norm_num : (0 : ℚ) ≤ 1 + uRound)
    norm_num [uRound] at this h3 ⊢
    linarith
  have hr : |fl (o + clip d) - (o + clip d)| ≤ uRound * (3 * e + 3 * o) := by
    refine le_trans (hfl.err _) ?_
    rw [div_eq_mul_one_div, mul_comm]
    refine mul_le_mul_of_nonneg_left ?_ (by norm_num)
    refine le_trans (abs_add_le _ _) ?_
    rw [abs_of_nonneg ho]
    linarith [clip_abs d]
  have hc : |clip d - clip (e - o)| ≤ uRound * (2 * e + o) + 5 / 2 * uRound * e := by
    refine le_trans (clip_lip _ _) ?_
    have : d - (e - o) = (d - (e' - o)) + (e' - e) := by ring
    rw [this]
    exact le_trans (abs_add_le _ _) (add_le_add hd1 hee)
  have : fl (o + clip d) - e' - (o + clip (e - o) - e) = (fl (o + clip d) - (o + clip d)) + ((clip d - clip (e - o)) + (e - e')) := by ring
  rw [this]
  refine le_trans (abs_add_le _ _) (le_trans (add_le_add hr (le_trans (abs_add_le _ _) (add_le_add hc (le_of_eq_of_le (abs_sub_comm e e') hee)))) ?_)
  norm_num [uRound]
  linarith

end Phik
