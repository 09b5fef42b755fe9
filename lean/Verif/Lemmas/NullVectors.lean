import Verif.Lemmas.NullLimit
import Mathlib.Analysis.InnerProductSpace.PiL2
import Mathlib.LinearAlgebra.Matrix.NonsingularInverse

/-! # The quadratic form of the deviations is a sum of squares of uncorrelated coordinates -/

namespace Phik.Props

open Spec Topology

/-- An orthogonal matrix, one row of which is a given vector of length one. -/
structure Rotation {k : ℕ} (U : Fin k → Fin k → ℝ) (m0 : Fin k) (x : Fin k → ℝ) : Prop where
  first : U m0 = x
  rows : ∀ m m', ∑ i, U m i * U m' i = if m = m' then 1 else 0
  cols : ∀ i i', ∑ m, U m i * U m i' = if i = i' then 1 else 0

theorem rotation_exists {k : ℕ} (m0 : Fin k) {x : Fin k → ℝ} (hx : ∑ i, x i * x i = 1) : ∃ U, Rotation U m0 x := by
  let v : Fin k → EuclideanSpace ℝ (Fin k) := fun _ => WithLp.toLp 2 x
  have hn : ‖WithLp.toLp 2 x‖ = 1 := by
    rw [EuclideanSpace.norm_eq]
    simp only [Real.norm_eq_abs, sq_abs]
    rw [Real.sqrt_eq_one, ← hx]
    exact Finset.sum_congr rfl fun i _ => pow_two _
  have hv : Orthonormal ℝ (Set.domRestrict {m0} v) := by
    refine ⟨fun i => hn, fun i j hij => absurd (Subsingleton.elim i j) hij⟩
  obtain ⟨b, hb⟩ := hv.exists_orthonormalBasis_extension_of_card_eq (by simp)
  have hrows : ∀ m m', ∑ i, b m i * b m' i = if m = m' then 1 else 0 := by
    intro m m'
    have := (orthonormal_iff_ite.1 b.orthonormal) m m'
    rw [← this]
    simp [PiLp.inner_apply, mul_comm]
  refine ⟨fun m i => b m i, ?_, hrows, ?_⟩
  · funext i
    rw [hb m0 rfl]
  · have h1 : (Matrix.of fun m i => b m i) * (Matrix.of fun m i => b m i).transpose = 1 := by
      ext m m'
      rw [Matrix.mul_apply, Matrix.one_apply, ← hrows]
      rfl
    have h2 := mul_eq_one_comm.1 h1
    intro i i'
    have := congrFun (congrFun h2 i) i'
    rw [Matrix.mul_apply, Matrix.one_apply] at this
    exact this

section
variable {k : ℕ} {U : Fin k → Fin k → ℝ} {m0 : Fin k} {x : Fin k → ℝ} (hU : Rotation U m0 x)
include hU

/-- The rows preserve sums of squares. -/
theorem Rotation.isometry (s : {m // m ≠ m0} → ℝ) : ∑ i, (∑ m : {m // m ≠ m0}, U m i * s m) ^ 2 = ∑ m, s m ^ 2 := by
  have : ∀ i, (∑ m : {m // m ≠ m0}, U m i * s m) ^ 2 = ∑ m : {m // m ≠ m0}, ∑ m' : {m // m ≠ m0}, s m * s m' * (U m i * U m' i) := by
    intro i
    rw [pow_two, Finset.sum_mul_sum]
    exact Finset.sum_congr rfl fun m _ => Finset.sum_congr rfl fun m' _ => by ring
  simp_rw [this]
  rw [Finset.sum_comm]
  refine Finset.sum_congr rfl fun m _ => ?_
  rw [Finset.sum_comm]
  simp_rw [← Finset.mul_sum, hU.rows]
  rw [Finset.sum_eq_single m]
  · simp [pow_two]
  · intro m' _ hm
    rw [if_neg fun h => hm (Subtype.ext h.symm), mul_zero]
  · simp

/-- The other rows are orthogonal to the given vector. -/
theorem Rotation.orth (m : {m // m ≠ m0}) : ∑ i, x i * U m i = 0 := by
  have := hU.rows m0 m
  rw [hU.first, if_neg (Ne.symm m.2)] at this
  exact this

/-- Projection on the other rows. -/
theorem Rotation.project (g : Fin k → ℝ) (i : Fin k) :
    ∑ m : {m // m ≠ m0}, U m i * ∑ i', U m i' * g i' = g i - x i * ∑ i', x i' * g i' := by
  have h1 : ∑ m, U m i * ∑ i', U m i' * g i' = g i := by
    simp_rw [Finset.mul_sum]
    rw [Finset.sum_comm]
    simp_rw [← mul_assoc, ← Finset.sum_mul, hU.cols]
    simp
  have h2 : ∑ m, U m i * ∑ i', U m i' * g i' = U m0 i * (∑ i', U m0 i' * g i') + ∑ m : {m // m ≠ m0}, U m i * ∑ i', U m i' * g i' :=
    Fintype.sum_eq_add_sum_subtype_ne _ m0
  rw [hU.first] at h2
  linarith

end

section
variable {r c : ℕ} {p : Fin r → Fin c → ℝ} {q : ℝ} {U : Fin r → Fin r → ℝ} {V : Fin c → Fin c → ℝ} {m0 : Fin r} {n0 : Fin c}

/-- The vector of a cell. -/
noncomputable def cellVec (q : ℝ) (p : Fin r → Fin c → ℝ) (U : Fin r → Fin r → ℝ) (V : Fin c → Fin c → ℝ) (m0 : Fin r) (n0 : Fin c) (i : Fin r) (j : Fin c) :
    EuclideanSpace ℝ ({m // m ≠ m0} × {n // n ≠ n0}) :=
  WithLp.toLp 2 fun mn => U mn.1 i * V mn.2 j / √(q * ((∑ j', p i j') * ∑ i', p i' j))

theorem sqrt_cell (hp : IsJoint p) (hq : 0 < q) (i : Fin r) (j : Fin c) :
    √(q * ((∑ j', p i j') * ∑ i', p i' j)) = √q * (√(∑ j', p i j') * √(∑ i', p i' j)) ∧ 0 < √(q * ((∑ j', p i j') * ∑ i', p i' j)) := by
  refine ⟨?_, Real.sqrt_pos.2 (mul_pos hq (mul_pos (hp.rows i) (hp.cols j)))⟩
  rw [Real.sqrt_mul hq.le, Real.sqrt_mul (hp.rows i).le]

theorem inner_cellVec (t : EuclideanSpace ℝ ({m // m ≠ m0} × {n // n ≠ n0})) (i : Fin r) (j : Fin c) :
    inner ℝ t (cellVec q p U V m0 n0 i j) =
      (∑ m : {m // m ≠ m0}, U m i * ∑ n : {n // n ≠ n0}, V n j * t (m, n)) / √(q * ((∑ j', p i j') * ∑ i', p i' j)) := by
  rw [PiLp.inner_apply, Fintype.sum_prod_type, Finset.sum_div]
  refine Finset.sum_congr rfl fun m _ => ?_
  rw [Finset.mul_sum, Finset.sum_div]
  refine Finset.sum_congr rfl fun n _ => ?_
  simp only [cellVec, RCLike.inner_apply, conj_trivial]
  ring

variable (hp : IsJoint p) (hi : IndepJoint p) (hq : 0 < q) (hU : Rotation U m0 fun i => √(∑ j, p i j)) (hV : Rotation V n0 fun j => √(∑ i, p i j))
include hp hi hq hU hV

theorem cellVec_mean (t : EuclideanSpace ℝ ({m // m ≠ m0} × {n // n ≠ n0})) :
    ∑ i, ∑ j, q * p i j * inner ℝ t (cellVec q p U V m0 n0 i j) = 0 := by
  have e : ∀ i j, q * p i j * inner ℝ t (cellVec q p U V m0 n0 i j) =
      √q * (√(∑ j', p i j') * ∑ m : {m // m ≠ m0}, U m i * (∑ n : {n // n ≠ n0}, √(∑ i', p i' j) * V n j * t (m, n))) := by
    intro i j
    obtain ⟨h1, h2⟩ := sqrt_cell hp hq i j
    rw [inner_cellVec, hi i j]
    nth_rw 1 [← Real.mul_self_sqrt (mul_pos hq (mul_pos (hp.rows i) (hp.cols j))).le]
    rw [mul_assoc, mul_div_cancel₀ _ h2.ne', h1, mul_assoc, mul_assoc]
    congr 2
    rw [Finset.mul_sum]
    refine Finset.sum_congr rfl fun m _ => ?_
    rw [mul_left_comm, Finset.mul_sum]
    congr 1
    exact Finset.sum_congr rfl fun n _ => by ring
  simp_rw [e, ← Finset.mul_sum]
  have h0 : ∀ i, (∑ j, ∑ m : {m // m ≠ m0}, U m i * (∑ n : {n // n ≠ n0}, √(∑ i', p i' j) * V n j * t (m, n))) = 0 := by
    intro i
    rw [Finset.sum_comm]
    refine Finset.sum_eq_zero fun m _ => ?_
    rw [← Finset.mul_sum, Finset.sum_comm]
    have h1 : ∀ n : {n // n ≠ n0}, ∑ j, √(∑ i', p i' j) * V n j * t (m, n) = 0 := fun n => by
      rw [← Finset.sum_mul, hV.orth n, zero_mul]
    simp_rw [h1]
    simp
  simp_rw [h0]
  simp

omit hp hi hq in
theorem two_isometries (t : {m // m ≠ m0} × {n // n ≠ n0} → ℝ) :
    ∑ i, ∑ j, (∑ m : {m // m ≠ m0}, U m i * ∑ n : {n // n ≠ n0}, V n j * t (m, n)) ^ 2 = ∑ mn, t mn ^ 2 := by
  rw [Finset.sum_comm]
  simp_rw [hU.isometry fun m => ∑ n : {n // n ≠ n0}, V n _ * t (m, n)]
  rw [Finset.sum_comm, Fintype.sum_prod_type]
  exact Finset.sum_congr rfl fun m _ => hV.isometry fun n => t (m, n)

theorem cellVec_var (t : EuclideanSpace ℝ ({m // m ≠ m0} × {n // n ≠ n0})) :
    ∑ i, ∑ j, q * p i j * inner ℝ t (cellVec q p U V m0 n0 i j) ^ 2 = ‖t‖ ^ 2 := by
  rw [EuclideanSpace.real_norm_sq_eq, ← two_isometries hU hV (fun mn => t mn)]
  refine Finset.sum_congr rfl fun i _ => Finset.sum_congr rfl fun j _ => ?_
  have hpos := mul_pos hq (mul_pos (hp.rows i) (hp.cols j))
  rw [inner_cellVec, hi i j, div_pow, Real.sq_sqrt hpos.le]
  exact mul_div_cancel₀ _ hpos.ne'

/-- The sum of the vectors of the records, divided by the square root of their number: its squared length is the quadratic form. -/
theorem quadForm_eq_norm {n : ℝ} (hn : 0 < n) (t : Fin r → Fin c → ℕ) :
    ‖(√n)⁻¹ • ∑ i, ∑ j, (t i j : ℝ) • cellVec q p U V m0 n0 i j‖ ^ 2 = quadForm q p (deviation q p n t) := by
  have hs : 0 < √n := Real.sqrt_pos.2 hn
  set w := deviation q p n t with hw
  set g : Fin r → Fin c → ℝ := fun i j => w i j / √(q * ((∑ j', p i j') * ∑ i', p i' j)) with hg
  -- the coordinates of the sum
  have hcoord : ∀ mn, ((√n)⁻¹ • ∑ i, ∑ j, (t i j : ℝ) • cellVec q p U V m0 n0 i j) mn = ∑ i, U mn.1 i * ∑ j, V mn.2 j * g i j := by
    intro mn
    have e1 : ((√n)⁻¹ • ∑ i, ∑ j, (t i j : ℝ) • cellVec q p U V m0 n0 i j) mn =
        (√n)⁻¹ * ∑ i, ∑ j, (t i j : ℝ) * (U mn.1 i * V mn.2 j / √(q * ((∑ j', p i j') * ∑ i', p i' j))) := by
      simp [cellVec]
    have e2 : ∀ i j, (t i j : ℝ) * (U mn.1 i * V mn.2 j / √(q * ((∑ j', p i j') * ∑ i', p i' j))) =
        n * √q * ((√(∑ j', p i j') * U mn.1 i) * (√(∑ i', p i' j) * V mn.2 j)) + √n * (U mn.1 i * (V mn.2 j * g i j)) := by
      intro i j
      obtain ⟨h1, h2⟩ := sqrt_cell hp hq i j
      have h3 : (t i j : ℝ) = n * (√(q * ((∑ j', p i j') * ∑ i', p i' j)) * √(q * ((∑ j', p i j') * ∑ i', p i' j))) + √n * w i j := by
        rw [Real.mul_self_sqrt (mul_pos hq (mul_pos (hp.rows i) (hp.cols j))).le, hw, deviation, ← hi i j, mul_div_cancel₀ _ hs.ne']
        ring
      have h4 : w i j = g i j * √(q * ((∑ j', p i j') * ∑ i', p i' j)) := by
        rw [hg]; exact (div_mul_cancel₀ _ h2.ne').symm
      rw [h3, h4]
      have h5 : √(q * ((∑ j', p i j') * ∑ i', p i' j)) ≠ 0 := h2.ne'
      calc _ = n * √(q * ((∑ j', p i j') * ∑ i', p i' j)) * (U mn.1 i * V mn.2 j) + √n * (U mn.1 i * (V mn.2 j * g i j)) := by
              generalize √(q * ((∑ j', p i j') * ∑ i', p i' j)) = z at h5
              field_simp
        _ = _ := by rw [h1]; ring
    rw [e1]
    simp_rw [e2, Finset.sum_add_distrib, ← Finset.mul_sum, hV.orth mn.2]
    simp only [mul_zero, Finset.sum_const_zero, zero_add]
    rw [inv_mul_cancel_left₀ hs.ne']
  -- the residuals
  have hres : ∀ i j, residual p w i j / √(q * ((∑ j', p i j') * ∑ i', p i' j)) =
      ∑ m : {m // m ≠ m0}, U m i * ∑ n : {n // n ≠ n0}, V n j * ∑ i', U m i' * ∑ j', V n j' * g i' j' := by
    intro i j
    have e1 : ∀ m : {m // m ≠ m0}, (∑ n : {n // n ≠ n0}, V n j * ∑ i', U m i' * ∑ j', V n j' * g i' j') =
        ∑ i', U m i' * (g i' j - √(∑ i, p i j) * ∑ j', √(∑ i, p i j') * g i' j') := by
      intro m
      rw [Finset.sum_congr rfl fun (n : {n // n ≠ n0}) _ => Finset.mul_sum Finset.univ (fun i' => U m i' * ∑ j', V n j' * g i' j') (V n j), Finset.sum_comm]
      refine Finset.sum_congr rfl fun i' _ => ?_
      rw [← hV.project (g i') j, Finset.mul_sum]
      exact Finset.sum_congr rfl fun n _ => by ring
    simp_rw [e1]
    rw [hU.project (fun i' => g i' j - √(∑ i, p i j) * ∑ j', √(∑ i, p i j') * g i' j') i]
    obtain ⟨h1, h2⟩ := sqrt_cell hp hq i j
    have ha : ∀ i', √(∑ j, p i' j) * √(∑ j, p i' j) = ∑ j, p i' j := fun i' => Real.mul_self_sqrt (hp.rows i').le
    have hb : ∀ j', √(∑ i, p i j') * √(∑ i, p i j') = ∑ i, p i j' := fun j' => Real.mul_self_sqrt (hp.cols j').le
    have hA : ∀ i', √(∑ j, p i' j) ≠ 0 := fun i' => (Real.sqrt_pos.2 (hp.rows i')).ne'
    have hB : ∀ j', √(∑ i, p i j') ≠ 0 := fun j' => (Real.sqrt_pos.2 (hp.cols j')).ne'
    have hQ : √q ≠ 0 := (Real.sqrt_pos.2 hq).ne'
    have hgv : ∀ i' j', √(∑ j, p i' j) * g i' j' = w i' j' / (√q * √(∑ i, p i j')) := by
      intro i' j'
      rw [hg]
      simp only
      rw [(sqrt_cell hp hq i' j').1]
      have := hA i'; have := hB j'
      field_simp
    have hgv2 : ∀ i' j', √(∑ i, p i j') * g i' j' = w i' j' / (√q * √(∑ j, p i' j)) := by
      intro i' j'
      rw [hg]
      simp only
      rw [(sqrt_cell hp hq i' j').1]
      have := hA i'; have := hB j'
      field_simp
    have s1 : ∑ i', √(∑ j, p i' j) * (g i' j - √(∑ i, p i j) * ∑ j', √(∑ i, p i j') * g i' j') =
        (∑ i', w i' j) / (√q * √(∑ i, p i j)) - √(∑ i, p i j) * ((∑ i', ∑ j', w i' j') / √q) := by
      simp_rw [mul_sub, Finset.sum_sub_distrib, hgv, hgv2]
      rw [← Finset.sum_div]
      congr 1
      rw [Finset.sum_div, Finset.mul_sum]
      refine Finset.sum_congr rfl fun i' _ => ?_
      rw [← Finset.sum_div]
      have := hA i'
      field_simp
    have s2 : ∑ j', √(∑ i, p i j') * g i j' = (∑ j', w i j') / (√q * √(∑ j, p i j)) := by
      simp_rw [hgv2]
      rw [Finset.sum_div]
    rw [s1, s2]
    have e5 : g i j = w i j / (√q * (√(∑ j', p i j') * √(∑ i', p i' j))) := by rw [hg, ← h1]
    rw [e5, h1]
    unfold residual
    rw [← ha i, ← hb j]
    simp only [Real.sqrt_mul_self (Real.sqrt_nonneg _)]
    have := hA i; have := hB j
    field_simp
    ring
  rw [EuclideanSpace.real_norm_sq_eq]
  simp_rw [hcoord]
  rw [← two_isometries hU hV fun mn => ∑ i, U mn.1 i * ∑ j, V mn.2 j * g i j]
  unfold quadForm
  refine Finset.sum_congr rfl fun i _ => Finset.sum_congr rfl fun j _ => ?_
  rw [← hres i j, div_pow, Real.sq_sqrt (mul_pos hq (mul_pos (hp.rows i) (hp.cols j))).le]

end

end Phik.Props
