import Verif.Model.Float
import Verif.Lemmas.Rcont2Top
import Mathlib.Tactic.Linarith
import Mathlib.Tactic.FieldSimp
import Mathlib.Tactic.Ring
import Mathlib.Tactic.Positivity

/-! # Facts about `rne53` -/

namespace Phik

theorem rhe_spec (q : ℚ) : |(rhe q : ℚ) - q| ≤ 1 / 2 := by
  have h1 := Int.floor_le q
  have h2 := Int.lt_floor_add_one q
  unfold rhe
  rw [abs_le]
  split
  · constructor <;> linarith
  split
  · push_cast; constructor <;> linarith
  split
  · constructor <;> linarith
  · push_cast; constructor <;> linarith

theorem rhe_int (z : ℤ) : rhe z = z := by unfold rhe; simp

theorem rhe_le_of_le_int {q : ℚ} {z : ℤ} (h : q ≤ z) : rhe q ≤ z := by
  have h1 : ⌊q⌋ ≤ z := by
    have := Int.floor_mono h; simpa using this
  rcases lt_or_eq_of_le h1 with h2 | h2
  · unfold rhe; split_ifs <;> omega
  · have h3 := Int.floor_le q
    have h4 : q = z := by rw [← h2] at h ⊢; linarith
    rw [h4, rhe_int]

theorem rhe_ge_of_int_le {q : ℚ} {z : ℤ} (h : (z : ℚ) ≤ q) : z ≤ rhe q := by
  have h1 : z ≤ ⌊q⌋ := Int.le_floor.2 h
  unfold rhe; split_ifs <;> omega

theorem rhe_mono {p q : ℚ} (h : p ≤ q) : rhe p ≤ rhe q := by
  have hf := Int.floor_mono h
  rcases lt_or_eq_of_le hf with h1 | h1
  · have : rhe p ≤ ⌊p⌋ + 1 := by unfold rhe; split_ifs <;> omega
    have : ⌊q⌋ ≤ rhe q := by unfold rhe; split_ifs <;> omega
    omega
  · unfold rhe
    rw [h1]
    have h2 : p - ⌊q⌋ ≤ q - ⌊q⌋ := by linarith
    split_ifs <;> first | omega | (exfalso; linarith)

theorem rhe_neg (q : ℚ) : rhe (-q) = -rhe q := by
  by_cases hz : (⌊q⌋ : ℚ) = q
  · rw [← hz]
    have : -((⌊q⌋ : ℤ) : ℚ) = ((-⌊q⌋ : ℤ) : ℚ) := by push_cast; ring
    rw [this, rhe_int, rhe_int]
  · have h1 := Int.floor_le q
    have h2 := Int.lt_floor_add_one q
    have hlt : (⌊q⌋ : ℚ) < q := lt_of_le_of_ne h1 hz
    have hf : ⌊-q⌋ = -⌊q⌋ - 1 := by
      rw [Int.floor_eq_iff]; push_cast; constructor <;> linarith
    have hd : -q - (⌊-q⌋ : ℤ) = 1 - (q - ⌊q⌋) := by rw [hf]; push_cast; ring
    have u1 : rhe (-q) = if 1 - (q - ⌊q⌋) < 1 / 2 then -⌊q⌋ - 1
        else if 1 / 2 < 1 - (q - ⌊q⌋) then -⌊q⌋ - 1 + 1
        else if (-⌊q⌋ - 1) % 2 = 0 then -⌊q⌋ - 1 else -⌊q⌋ - 1 + 1 := by
      unfold rhe; rw [hd, hf]
    rw [u1]
    unfold rhe
    split_ifs <;> first | omega | (exfalso; linarith)

theorem two_zpow_pos (e : ℤ) : (0 : ℚ) < 2 ^ e := zpow_pos (by norm_num) e

theorem rne53_zero : rne53 0 = 0 := by simp [rne53]

theorem rne53_neg (x : ℚ) : rne53 (-x) = -rne53 x := by
  unfold rne53 ulpExp
  by_cases h : x = 0
  · simp [h]
  · rw [if_neg h, if_neg (by simpa using h), abs_neg, neg_div, rhe_neg]
    push_cast; ring

/-- `2^(e+52) ≤ |x| < 2^(e+53)` for `e = ulpExp x`. -/
theorem ulpExp_spec {x : ℚ} (hx : x ≠ 0) :
    (2 : ℚ) ^ (ulpExp x + 52) ≤ |x| ∧ |x| < (2 : ℚ) ^ (ulpExp x + 53) := by
  have hpos : 0 < |x| := abs_pos.2 hx
  have h1 := Int.zpow_log_le_self (b := 2) (by norm_num) hpos
  have h2 := Int.lt_zpow_succ_log_self (b := 2) (by norm_num) |x|
  unfold ulpExp
  constructor
  · have e : Int.log 2 |x| - 52 + 52 = Int.log 2 |x| := by ring
    rw [e]; exact_mod_cast h1
  · have e : Int.log 2 |x| - 52 + 53 = Int.log 2 |x| + 1 := by ring
    rw [e]; exact_mod_cast h2

theorem zpow_split (e : ℤ) (k : ℕ) : (2 : ℚ) ^ (e + k) = 2 ^ e * (2 ^ k : ℕ) := by
  rw [zpow_add₀ (by norm_num)]; push_cast; rw [zpow_natCast]

/-- The exponent is determined by the bounds. -/
theorem ulpExp_eq {x : ℚ} {e : ℤ} (h1 : (2 : ℚ) ^ (e + 52) ≤ |x|) (h2 : |x| < (2 : ℚ) ^ (e + 53)) :
    ulpExp x = e := by
  have hpos : 0 < |x| := lt_of_lt_of_le (two_zpow_pos _) h1
  have hx : x ≠ 0 := abs_pos.1 hpos
  obtain ⟨g1, g2⟩ := ulpExp_spec hx
  have a : e + 52 < ulpExp x + 53 := by
    have := lt_of_le_of_lt h1 g2
    exact (zpow_lt_zpow_iff_right₀ (by norm_num : (1:ℚ) < 2)).1 this
  have b : ulpExp x + 52 < e + 53 := by
    have := lt_of_le_of_lt g1 h2
    exact (zpow_lt_zpow_iff_right₀ (by norm_num : (1:ℚ) < 2)).1 this
  omega

/-- Rounding moves a number by at most half a unit in the last place. -/
theorem rne53_err (x : ℚ) : |rne53 x - x| ≤ 2 ^ ulpExp x / 2 := by
  by_cases h : x = 0
  · subst h; rw [rne53_zero, sub_zero, abs_zero]; have := two_zpow_pos (ulpExp 0); linarith
  · unfold rne53; rw [if_neg h]
    have hp := two_zpow_pos (ulpExp x)
    have e : (rhe (x / 2 ^ ulpExp x) : ℚ) * 2 ^ ulpExp x - x =
        ((rhe (x / 2 ^ ulpExp x) : ℚ) - x / 2 ^ ulpExp x) * 2 ^ ulpExp x := by
      field_simp
    rw [e, abs_mul, abs_of_pos hp]
    have := rhe_spec (x / 2 ^ ulpExp x)
    nlinarith

/-- Numbers with at most 53 significant bits are not changed. -/
theorem rne53_exact (z e : ℤ) (hz : |z| ≤ 2 ^ 53) : rne53 (z * 2 ^ e) = z * 2 ^ e := by
  by_cases h0 : z = 0
  · subst h0; simp [rne53]
  have hp := two_zpow_pos e
  have hx : ((z : ℚ) * 2 ^ e) ≠ 0 := mul_ne_zero (by exact_mod_cast h0) (ne_of_gt hp)
  unfold rne53
  rw [if_neg hx]
  obtain ⟨g1, g2⟩ := ulpExp_spec hx
  have habs : |(z : ℚ) * 2 ^ e| = (|z| : ℤ) * 2 ^ e := by
    rw [abs_mul, abs_of_pos hp]; push_cast; rfl
  generalize ulpExp ((z : ℚ) * 2 ^ e) = u at *
  have hu := two_zpow_pos u
  -- it suffices that the scaled number is an integer
  suffices h : ∃ w : ℤ, (z : ℚ) * 2 ^ e / 2 ^ u = w by
    obtain ⟨w, hw⟩ := h
    rw [hw, rhe_int, ← hw]
    field_simp
  by_cases hle : u ≤ e
  · obtain ⟨k, hk⟩ := Int.eq_ofNat_of_zero_le (sub_nonneg.2 hle)
    refine ⟨z * 2 ^ k, ?_⟩
    have : e = u + k := by omega
    rw [this, zpow_split]
    push_cast
    field_simp
  · have hz' : ((|z| : ℤ) : ℚ) ≤ 2 ^ 53 := by exact_mod_cast hz
    have h1 : |(z : ℚ) * 2 ^ e| ≤ 2 ^ (e + 53) := by
      rw [habs, show (e + 53 : ℤ) = e + (53 : ℕ) by norm_num, zpow_split, mul_comm]
      exact mul_le_mul_of_nonneg_left (by exact_mod_cast hz) hp.le
    have h2 : u + 52 ≤ e + 53 := by
      have := le_trans g1 h1
      exact (zpow_le_zpow_iff_right₀ (by norm_num : (1:ℚ) < 2)).1 this
    have hue : u = e + 1 := by omega
    -- then |z| = 2^53
    have h3 : |z| = 2 ^ 53 := by
      have : (2 : ℚ) ^ (e + 53) ≤ (|z| : ℤ) * 2 ^ e := by
        rw [← habs]; rw [hue] at g1
        rwa [show (e + 1 + 52 : ℤ) = e + 53 by ring] at g1
      rw [show (e + 53 : ℤ) = e + (53 : ℕ) by norm_num, zpow_split, mul_comm] at this
      have := le_of_mul_le_mul_right this hp
      have : (2 ^ 53 : ℤ) ≤ |z| := by exact_mod_cast this
      omega
    have h4 : ∃ w : ℤ, z = 2 * w := by
      rcases abs_choice z with h | h
      · exact ⟨2 ^ 52, by omega⟩
      · exact ⟨-2 ^ 52, by omega⟩
    obtain ⟨w, hw⟩ := h4
    refine ⟨w, ?_⟩
    rw [hue, hw, zpow_add₀ (by norm_num : (2:ℚ) ≠ 0)]
    push_cast
    field_simp

/-- A binary64 number (without exponent limits). -/
def IsF53 (x : ℚ) : Prop := ∃ z e : ℤ, |z| ≤ 2 ^ 53 ∧ x = z * 2 ^ e

theorem IsF53.rne {x : ℚ} (h : IsF53 x) : rne53 x = x := by
  obtain ⟨z, e, hz, rfl⟩ := h; exact rne53_exact z e hz

theorem rne53_isF53 (x : ℚ) : IsF53 (rne53 x) := by
  by_cases h : x = 0
  · subst h; exact ⟨0, 0, by norm_num, by simp [rne53]⟩
  · refine ⟨rhe (x / 2 ^ ulpExp x), ulpExp x, ?_, by unfold rne53; rw [if_neg h]⟩
    obtain ⟨-, g2⟩ := ulpExp_spec h
    have hu := two_zpow_pos (ulpExp x)
    rw [show (ulpExp x + 53 : ℤ) = ulpExp x + (53 : ℕ) by norm_num, zpow_split] at g2
    have : |x / 2 ^ ulpExp x| ≤ (2 ^ 53 : ℕ) := by
      rw [abs_div, abs_of_pos hu, div_le_iff₀ hu]; linarith
    rw [abs_le] at this ⊢
    constructor
    · apply rhe_ge_of_int_le; push_cast at *; linarith [this.1]
    · apply rhe_le_of_le_int; push_cast at *; linarith [this.2]

theorem rne53_idem (x : ℚ) : rne53 (rne53 x) = rne53 x := (rne53_isF53 x).rne

theorem rne53_nonneg {x : ℚ} (h : 0 ≤ x) : 0 ≤ rne53 x := by
  unfold rne53
  split
  · exact le_rfl
  · have hu := two_zpow_pos (ulpExp x)
    have : (0 : ℤ) ≤ rhe (x / 2 ^ ulpExp x) := rhe_ge_of_int_le (by push_cast; positivity)
    have : (0 : ℚ) ≤ rhe (x / 2 ^ ulpExp x) := by exact_mod_cast this
    positivity

theorem rne53_pos_bounds {x : ℚ} (h : 0 < x) :
    (2 : ℚ) ^ (ulpExp x + 52) ≤ rne53 x ∧ rne53 x ≤ (2 : ℚ) ^ (ulpExp x + 53) := by
  obtain ⟨g1, g2⟩ := ulpExp_spec h.ne'
  have hu := two_zpow_pos (ulpExp x)
  rw [abs_of_pos h] at g1 g2
  rw [show (ulpExp x + 53 : ℤ) = ulpExp x + (53 : ℕ) by norm_num,
    show (ulpExp x + 52 : ℤ) = ulpExp x + (52 : ℕ) by norm_num, zpow_split] at *
  rw [zpow_split] at *
  unfold rne53
  rw [if_neg h.ne']
  constructor
  · have : ((2 ^ 52 : ℕ) : ℤ) ≤ rhe (x / 2 ^ ulpExp x) := by
      apply rhe_ge_of_int_le
      rw [le_div_iff₀ hu]; push_cast at *; linarith
    have : (((2 ^ 52 : ℕ) : ℤ) : ℚ) ≤ rhe (x / 2 ^ ulpExp x) := by exact_mod_cast this
    push_cast at *
    nlinarith
  · have : rhe (x / 2 ^ ulpExp x) ≤ ((2 ^ 53 : ℕ) : ℤ) := by
      apply rhe_le_of_le_int
      rw [div_le_iff₀ hu]; push_cast at *; linarith
    have : (rhe (x / 2 ^ ulpExp x) : ℚ) ≤ (((2 ^ 53 : ℕ) : ℤ) : ℚ) := by exact_mod_cast this
    push_cast at *
    nlinarith

theorem ulpExp_mono {x y : ℚ} (hx : 0 < x) (h : x ≤ y) : ulpExp x ≤ ulpExp y := by
  obtain ⟨g1, -⟩ := ulpExp_spec hx.ne'
  obtain ⟨-, g2⟩ := ulpExp_spec (lt_of_lt_of_le hx h).ne'
  rw [abs_of_pos hx] at g1
  rw [abs_of_pos (lt_of_lt_of_le hx h)] at g2
  have := (zpow_lt_zpow_iff_right₀ (by norm_num : (1:ℚ) < 2)).1 (lt_of_le_of_lt (le_trans g1 h) g2)
  omega

theorem rne53_mono_pos {x y : ℚ} (hx : 0 < x) (h : x ≤ y) : rne53 x ≤ rne53 y := by
  have hy := lt_of_lt_of_le hx h
  rcases (ulpExp_mono hx h).lt_or_eq with h1 | h1
  · refine le_trans (rne53_pos_bounds hx).2 (le_trans ?_ (rne53_pos_bounds hy).1)
    exact zpow_le_zpow_right₀ (by norm_num) (by omega)
  · unfold rne53
    rw [if_neg hx.ne', if_neg hy.ne', h1]
    have hu := two_zpow_pos (ulpExp y)
    have : rhe (x / 2 ^ ulpExp y) ≤ rhe (y / 2 ^ ulpExp y) := rhe_mono (by gcongr)
    have : (rhe (x / 2 ^ ulpExp y) : ℚ) ≤ rhe (y / 2 ^ ulpExp y) := by exact_mod_cast this
    nlinarith

theorem rne53_mono : Monotone rne53 := by
  intro x y h
  rcases lt_trichotomy x 0 with hx | hx | hx
  · rcases lt_or_ge y 0 with hy | hy
    · have := rne53_mono_pos (neg_pos.2 hy) (neg_le_neg h)
      rw [rne53_neg, rne53_neg] at this
      linarith
    · have h1 := rne53_nonneg (neg_nonneg.2 hx.le)
      rw [rne53_neg] at h1
      linarith [rne53_nonneg hy]
  · subst hx; rw [rne53_zero]; exact rne53_nonneg h
  · exact rne53_mono_pos hx h

theorem Rounding_rne53 : Rounding rne53 where
  mono _ _ h := rne53_mono h
  idem := rne53_idem
  exact z hz := by
    have := rne53_exact z (-1) (by simpa using hz)
    rwa [zpow_neg_one, ← div_eq_mul_inv] at this

/-- The binary64 value of the literal `4.656612875E-10` of `asa159.cpp`. -/
def uniLit : ℚ := rne53 (4656612875 / 10 ^ 19)

theorem uniLit_bounds : 0 ≤ uniLit ∧ uniLit * 2147483646 ≤ 1 := by
  refine ⟨rne53_nonneg (by norm_num), ?_⟩
  have h1 : uniLit ≤ ((2 ^ 31 + 2 : ℤ) : ℚ) * 2 ^ (-62 : ℤ) := by
    rw [← rne53_exact _ _ (by norm_num)]
    exact rne53_mono (by norm_num)
  have h2 : ((2 ^ 31 + 2 : ℤ) : ℚ) * 2 ^ (-62 : ℤ) * 2147483646 ≤ 1 := by norm_num
  nlinarith

/-- The constant `1E-14` of `binning.py`. -/
def eps14 : ℚ := rne53 (1 / 10 ^ 14)

theorem eps14_bounds : (2 : ℚ) ^ (-47 : ℤ) < eps14 ∧ eps14 < (2 : ℚ) ^ (-46 : ℤ) := by
  have e : ulpExp (1 / 10 ^ 14) = -99 := by
    apply ulpExp_eq
    · rw [abs_of_pos (by norm_num)]; norm_num
    · rw [abs_of_pos (by norm_num)]; norm_num
  have := rne53_err (1 / 10 ^ 14)
  rw [e, abs_le] at this
  unfold eps14
  norm_num at *
  constructor <;> linarith [this.1, this.2]

/-- A binary64 number is a multiple of every unit in the last place not above its own. -/
theorem IsF53.multiple {m : ℚ} (hm : IsF53 m) (u : ℤ) (hu : u ≤ ulpExp m) :
    ∃ w : ℤ, m = w * 2 ^ u := by
  by_cases h : m = 0
  · exact ⟨0, by simp [h]⟩
  have := hm.rne
  unfold rne53 at this
  rw [if_neg h] at this
  obtain ⟨k, hk⟩ := Int.eq_ofNat_of_zero_le (sub_nonneg.2 hu)
  have e : ulpExp m = u + k := by omega
  refine ⟨rhe (m / 2 ^ ulpExp m) * 2 ^ k, ?_⟩
  conv_lhs => rw [← this, e, zpow_split]
  rw [e, zpow_split]
  push_cast
  ring

theorem rhe_sub_small {w : ℤ} {t : ℚ} (h0 : 0 ≤ t) (h1 : t < 1 / 2) : rhe (w - t) = w := by
  have h := rhe_spec ((w : ℚ) - t)
  rw [abs_le] at h
  have a : ((rhe ((w : ℚ) - t) : ℤ) : ℚ) < ((w + 1 : ℤ) : ℚ) := by push_cast; linarith [h.2]
  have b : ((w - 1 : ℤ) : ℚ) < ((rhe ((w : ℚ) - t) : ℤ) : ℚ) := by push_cast; linarith [h.1]
  have a' : rhe ((w : ℚ) - t) < w + 1 := by exact_mod_cast a
  have b' : w - 1 < rhe ((w : ℚ) - t) := by exact_mod_cast b
  omega

/-- Above 128 the subtraction of `1E-14` is absorbed. -/
theorem absorb_pos {m : ℚ} (hm : IsF53 m) (h : 128 < m) : rne53 (m - eps14) = m := by
  obtain ⟨d0, d1⟩ := eps14_bounds
  have hd0 : 0 < eps14 := lt_trans (two_zpow_pos _) d0
  have hm0 : 0 < m := by linarith
  have hum : -45 ≤ ulpExp m := by
    obtain ⟨-, g⟩ := ulpExp_spec hm0.ne'
    rw [abs_of_pos hm0] at g
    have : (2 : ℚ) ^ (7 : ℤ) < 2 ^ (ulpExp m + 53) := lt_trans (by norm_num; exact h) g
    have := (zpow_lt_zpow_iff_right₀ (by norm_num : (1:ℚ) < 2)).1 this
    omega
  -- m is at least 2^-45 above 128
  have hge : 128 + (2 : ℚ) ^ (-45 : ℤ) ≤ m := by
    obtain ⟨w, hw⟩ := hm.multiple (-45) hum
    have h1 : ((2 ^ 52 : ℤ) : ℚ) < (w : ℚ) := by
      rw [hw] at h
      have : (128 : ℚ) = ((2 ^ 52 : ℤ) : ℚ) * 2 ^ (-45 : ℤ) := by norm_num
      rw [this] at h
      exact lt_of_mul_lt_mul_right h (two_zpow_pos _).le
    have h2 : (2 ^ 52 : ℤ) + 1 ≤ w := by exact_mod_cast h1
    have h3 : (((2 ^ 52 : ℤ) + 1 : ℤ) : ℚ) ≤ (w : ℚ) := by exact_mod_cast h2
    rw [hw]
    have h4 := mul_le_mul_of_nonneg_right h3 (two_zpow_pos (-45)).le
    refine le_trans (le_of_eq ?_) h4
    norm_num
  have hx : 128 ≤ m - eps14 := by
    have : (2 : ℚ) ^ (-46 : ℤ) < 2 ^ (-45 : ℤ) := by norm_num
    linarith
  have hx0 : 0 < m - eps14 := by linarith
  have hux : -45 ≤ ulpExp (m - eps14) := by
    obtain ⟨-, g⟩ := ulpExp_spec hx0.ne'
    rw [abs_of_pos hx0] at g
    have : (2 : ℚ) ^ (7 : ℤ) < 2 ^ (ulpExp (m - eps14) + 53) := lt_of_le_of_lt (by norm_num; linarith) g
    have := (zpow_lt_zpow_iff_right₀ (by norm_num : (1:ℚ) < 2)).1 this
    omega
  obtain ⟨w, hw⟩ := hm.multiple (ulpExp (m - eps14)) (ulpExp_mono hx0 (by linarith))
  unfold rne53
  rw [if_neg hx0.ne']
  have hu := two_zpow_pos (ulpExp (m - eps14))
  have hle : (2 : ℚ) ^ (-45 : ℤ) ≤ 2 ^ ulpExp (m - eps14) := zpow_le_zpow_right₀ (by norm_num) hux
  have e : (m - eps14) / 2 ^ ulpExp (m - eps14) = w - eps14 / 2 ^ ulpExp (m - eps14) := by
    rw [sub_div]
    congr 1
    rw [div_eq_iff hu.ne']; exact hw
  rw [e, rhe_sub_small (by positivity)]
  · exact hw.symm
  · rw [div_lt_iff₀ hu]
    norm_num at d1 hle ⊢
    linarith

/-- At and below -128 the subtraction of `1E-14` is absorbed. -/
theorem absorb_neg {m : ℚ} (hm : IsF53 m) (h : m ≤ -128) : rne53 (m - eps14) = m := by
  obtain ⟨d0, d1⟩ := eps14_bounds
  have hd0 : 0 < eps14 := lt_trans (two_zpow_pos _) d0
  obtain ⟨n, rfl⟩ : ∃ n, m = -n := ⟨-m, by ring⟩
  have hn : 128 ≤ n := by linarith
  have hn0 : 0 < n := by linarith
  have hnf : IsF53 n := by
    obtain ⟨z, e, hz, h⟩ := hm
    exact ⟨-z, e, by simpa using hz, by push_cast; linarith⟩
  rw [show -n - eps14 = -(n + eps14) by ring, rne53_neg, neg_inj]
  have hun : -45 ≤ ulpExp n := by
    obtain ⟨-, g⟩ := ulpExp_spec hn0.ne'
    rw [abs_of_pos hn0] at g
    have : (2 : ℚ) ^ (7 : ℤ) < 2 ^ (ulpExp n + 53) := lt_of_le_of_lt (by norm_num; linarith) g
    have := (zpow_lt_zpow_iff_right₀ (by norm_num : (1:ℚ) < 2)).1 this
    omega
  have hu := two_zpow_pos (ulpExp n)
  have hle : (2 : ℚ) ^ (-45 : ℤ) ≤ 2 ^ ulpExp n := zpow_le_zpow_right₀ (by norm_num) hun
  obtain ⟨w, hw⟩ := hnf.multiple (ulpExp n) le_rfl
  have hx0 : 0 < n + eps14 := by linarith
  have heq : ulpExp (n + eps14) = ulpExp n := by
    obtain ⟨g1, g2⟩ := ulpExp_spec hn0.ne'
    rw [abs_of_pos hn0] at g1 g2
    apply ulpExp_eq
    · rw [abs_of_pos hx0]; linarith
    · rw [abs_of_pos hx0]
      rw [show (ulpExp n + 53 : ℤ) = ulpExp n + (53 : ℕ) by norm_num, zpow_split] at g2 ⊢
      have h1 : (w : ℚ) < ((2 ^ 53 : ℕ) : ℚ) := by
        by_contra hc
        push Not at hc
        have := mul_le_mul_of_nonneg_right hc hu.le
        linarith
      have h2 : w + 1 ≤ ((2 ^ 53 : ℕ) : ℤ) := by
        have : w < ((2 ^ 53 : ℕ) : ℤ) := by exact_mod_cast h1
        omega
      have h3 : ((w + 1 : ℤ) : ℚ) ≤ ((2 ^ 53 : ℕ) : ℚ) := by exact_mod_cast h2
      have h4 := mul_le_mul_of_nonneg_right h3 hu.le
      push_cast at h4
      have h5 : (w : ℚ) * 2 ^ ulpExp n = n := hw.symm
      have h6 : eps14 < 2 ^ ulpExp n := by norm_num at d1 hle ⊢; linarith
      push_cast
      linarith
  unfold rne53
  rw [if_neg hx0.ne', heq]
  have e : (n + eps14) / 2 ^ ulpExp n = -(((-w : ℤ) : ℚ) - eps14 / 2 ^ ulpExp n) := by
    rw [add_div]
    have : n / 2 ^ ulpExp n = w := by rw [div_eq_iff hu.ne']; exact hw
    rw [this]; push_cast; ring
  rw [e, rhe_neg, rhe_sub_small (by positivity)]
  · push_cast; rw [neg_neg]; exact hw.symm
  · rw [div_lt_iff₀ hu]
    norm_num at d1 hle ⊢
    linarith

/-- Between -128 and 128 the subtraction of `1E-14` gives a smaller number. -/
theorem not_absorbed {m : ℚ} (hm : IsF53 m) (h1 : -128 < m) (h2 : m ≤ 128) :
    rne53 (m - eps14) < m := by
  obtain ⟨d0, d1⟩ := eps14_bounds
  have hd0 : 0 < eps14 := lt_trans (two_zpow_pos _) d0
  refine lt_of_le_of_ne ?_ ?_
  · calc rne53 (m - eps14) ≤ rne53 m := rne53_mono (by linarith)
      _ = m := hm.rne
  intro hc
  have herr := rne53_err (m - eps14)
  rw [hc, show m - (m - eps14) = eps14 by ring, abs_of_pos hd0] at herr
  have hu : -45 ≤ ulpExp (m - eps14) := by
    have : (2 : ℚ) ^ (-46 : ℤ) < 2 ^ ulpExp (m - eps14) := by norm_num at d0 ⊢; linarith
    have := (zpow_lt_zpow_iff_right₀ (by norm_num : (1:ℚ) < 2)).1 this
    omega
  have hx0 : m - eps14 ≠ 0 := by
    intro h0
    rw [h0] at hu
    simp [ulpExp] at hu
  obtain ⟨g, -⟩ := ulpExp_spec hx0
  have hbig : 128 ≤ |m - eps14| := by
    refine le_trans ?_ g
    calc (128 : ℚ) = 2 ^ (7 : ℤ) := by norm_num
      _ ≤ _ := zpow_le_zpow_right₀ (by norm_num) (by omega)
  rcases abs_cases (m - eps14) with ⟨h, _⟩ | ⟨h, hneg⟩
  · rw [h] at hbig; linarith
  · rw [h] at hbig
    have hm0 : m ≠ 0 := by rintro rfl; norm_num at d1; linarith
    have hmneg : m < 0 := by norm_num at d1; linarith
    have hum : ulpExp m = -46 := by
      apply ulpExp_eq
      · rw [abs_of_neg hmneg]; norm_num at d1 ⊢; linarith
      · rw [abs_of_neg hmneg]; norm_num; linarith
    obtain ⟨w, hw⟩ := hm.multiple (-46) (by omega)
    have a : ((-2 ^ 53 : ℤ) : ℚ) < w := by
      rw [hw] at h1
      have : (-128 : ℚ) = ((-2 ^ 53 : ℤ) : ℚ) * 2 ^ (-46 : ℤ) := by norm_num
      rw [this] at h1
      exact lt_of_mul_lt_mul_right h1 (two_zpow_pos _).le
    have b : (-2 ^ 53 : ℤ) + 1 ≤ w := by exact_mod_cast a
    have c : (((-2 ^ 53 : ℤ) + 1 : ℤ) : ℚ) ≤ (w : ℚ) := by exact_mod_cast b
    have d := mul_le_mul_of_nonneg_right c (two_zpow_pos (-46)).le
    rw [← hw] at d
    norm_num at d d1
    linarith

end Phik
