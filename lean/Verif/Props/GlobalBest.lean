import Verif.Props.Global
import Verif.Props.Locality

/-! # Property C72: the global correlation is the best linear one -/

namespace Phik

open Spec Props Matrix

section
variable {n : ℕ} {V : Matrix (Fin n) (Fin n) ℝ}

theorem quad_expand (w : Fin n → ℝ) : w ⬝ᵥ (V *ᵥ w) = ∑ j, ∑ k, w j * w k * V j k := by
  simp only [dotProduct, mulVec, Finset.mul_sum]
  refine Finset.sum_congr rfl fun j _ => Finset.sum_congr rfl fun k _ => ?_
  ring

theorem quad_symm (hV : V.PosDef) (v w : Fin n → ℝ) : v ⬝ᵥ (V *ᵥ w) = w ⬝ᵥ (V *ᵥ v) := by
  have hT : Vᵀ = V := by
    ext j k
    have := hV.isHermitian.apply j k
    simpa using this
  rw [dotProduct_mulVec, ← mulVec_transpose, hT, dotProduct_comm]

/-- The largest squared correlation with a combination of the others, from the inverse. -/
theorem quad_best (hV : V.PosDef) (i : Fin n) (h1 : V i i = 1) :
    (∀ w : Fin n → ℝ, w i = 0 → (∑ j, w j * V i j) ^ 2 ≤ (1 - 1 / V⁻¹ i i) * ∑ j, ∑ k, w j * w k * V j k) ∧
    (2 ≤ n → ∃ w : Fin n → ℝ, w i = 0 ∧ w ≠ 0 ∧
      (∑ j, w j * V i j) ^ 2 = (1 - 1 / V⁻¹ i i) * ∑ j, ∑ k, w j * w k * V j k) := by
  obtain ⟨hq1, hq0⟩ := quad_inv hV i h1
  have hdet : IsUnit V.det := hV.det_pos.ne'.isUnit
  set q := V⁻¹ i i with hq
  have hqp : 0 < q := by linarith
  set e : Fin n → ℝ := Pi.single i 1 with he
  set u : Fin n → ℝ := V⁻¹ *ᵥ e with hu
  have hVu : V *ᵥ u = e := by rw [hu, mulVec_mulVec, mul_nonsing_inv _ hdet, one_mulVec]
  have hui : u i = q := by rw [hu, he]; simp [hq]
  have hb : ∀ w : Fin n → ℝ, e ⬝ᵥ (V *ᵥ w) = ∑ j, w j * V i j := by
    intro w
    rw [he, single_dotProduct, one_mul]
    simp only [mulVec, dotProduct]
    exact Finset.sum_congr rfl fun j _ => mul_comm _ _
  have hee : e ⬝ᵥ (V *ᵥ e) = 1 := by rw [he]; simp [h1]
  have hue : ∀ w : Fin n → ℝ, w ⬝ᵥ (V *ᵥ u) = w i := by intro w; rw [hVu, he]; simp
  have hnn : ∀ v : Fin n → ℝ, 0 ≤ v ⬝ᵥ (V *ᵥ v) := fun v => by
    have := hV.posSemidef.dotProduct_mulVec_nonneg v
    simpa using this
  refine ⟨fun w hw => ?_, fun hn => ?_⟩
  · rw [← quad_expand, ← hb]
    set b := e ⬝ᵥ (V *ᵥ w) with hbd
    set W := w ⬝ᵥ (V *ᵥ w) with hW
    -- the form at `e + t w - u / q`
    have hpoly : ∀ s : ℝ, 0 ≤ W * (s * s) + 2 * b * s + (1 - 1 / q) := by
      intro s
      have h := hnn (e + s • w - (1 / q) • u)
      have e1 : w ⬝ᵥ (V *ᵥ e) = b := quad_symm hV w e
      have e2 : u ⬝ᵥ (V *ᵥ e) = 1 := by rw [quad_symm hV, hue, he]; simp
      have e3 : u ⬝ᵥ (V *ᵥ w) = 0 := by rw [quad_symm hV, hue, hw]
      have e4 : e ⬝ᵥ (V *ᵥ u) = 1 := by rw [hue, he]; simp
      have e5 : w ⬝ᵥ (V *ᵥ u) = 0 := by rw [hue, hw]
      have e6 : u ⬝ᵥ (V *ᵥ u) = q := by rw [hue, hui]
      simp only [mulVec_sub, mulVec_add, mulVec_smul, dotProduct_sub, sub_dotProduct, dotProduct_add, add_dotProduct, smul_dotProduct,
        dotProduct_smul, smul_eq_mul, e1, e2, e3, e4, e5, e6, hee, ← hbd, ← hW] at h
      have : 1 / q * (1 / q * q) = 1 / q := by field_simp
      nlinarith [this, h]
    have := discrim_le_zero hpoly
    unfold discrim at this
    nlinarith
  · rcases eq_or_lt_of_le hq1 with h | h
    · have h0 := hq0.1 h.symm
      have : ∃ j : Fin n, j ≠ i := by
        by_contra hcon
        push Not at hcon
        have : Subsingleton (Fin n) := ⟨fun a b => (hcon a).trans (hcon b).symm⟩
        have := Fintype.card_le_one_iff_subsingleton.2 this
        simp at this; omega
      obtain ⟨j, hj⟩ := this
      refine ⟨Pi.single j 1, by simp [hj.symm], by simp, ?_⟩
      rw [← h]
      simp [Pi.single_apply, h0 j hj]
    · set w : Fin n → ℝ := u - q • e with hw
      have hwi : w i = 0 := by simp [hw, hui, he]
      have hWv : w ⬝ᵥ (V *ᵥ w) = q * (q - 1) := by
        have e2 : u ⬝ᵥ (V *ᵥ e) = 1 := by rw [quad_symm hV, hue, he]; simp
        have e4 : e ⬝ᵥ (V *ᵥ u) = 1 := by rw [hue, he]; simp
        have e6 : u ⬝ᵥ (V *ᵥ u) = q := by rw [hue, hui]
        rw [hw]
        simp only [mulVec_sub, mulVec_smul, dotProduct_sub, sub_dotProduct, smul_dotProduct, dotProduct_smul, smul_eq_mul, e2, e4, e6, hee]
        ring
      have hbv : e ⬝ᵥ (V *ᵥ w) = 1 - q := by
        have e4 : e ⬝ᵥ (V *ᵥ u) = 1 := by rw [hue, he]; simp
        rw [hw]
        simp only [mulVec_sub, mulVec_smul, dotProduct_sub, dotProduct_smul, smul_eq_mul, e4, hee]
        ring
      refine ⟨w, hwi, fun h0 => ?_, ?_⟩
      · rw [h0] at hbv
        simp at hbv
        linarith
      · rw [← quad_expand, ← hb, hWv, hbv]
        field_simp
        ring

end

namespace Props

/-- **C72.** If the phik matrix is positive definite with ones on the diagonal, the global correlation of column `i` is the highest possible
correlation, with phik in place of the pairwise correlations, between the column and a linear combination `w` of the other columns: the
squared correlation `(∑ w_j V_ij)² / (∑ w_j w_k V_jk)` is at most its square, and equal to it for some combination.  In particular it is not
less than any phik of the column. -/
theorem global_best {t : LTable} (h : AllNumbers t) (hdiag : ∀ a ∈ t.rows, t.v a a = some 1) (hp : (tableMatrix t).PosDef) :
    ∃ g : List ℝ, globalOf t = .ok (g.map .num) ∧ g.length = t.rows.length ∧
      ∀ (i : Fin t.rows.length) (hg : i.1 < g.length),
        (∀ w : Fin t.rows.length → ℝ, w i = 0 →
          (∑ j, w j * tableMatrix t i j) ^ 2 ≤ g[i.1] ^ 2 * ∑ j, ∑ k, w j * w k * tableMatrix t j k) ∧
        (2 ≤ t.rows.length → ∃ w : Fin t.rows.length → ℝ, w i = 0 ∧ w ≠ 0 ∧ 0 < ∑ j, ∑ k, w j * w k * tableMatrix t j k ∧
          (∑ j, w j * tableMatrix t i j) ^ 2 = g[i.1] ^ 2 * ∑ j, ∑ k, w j * w k * tableMatrix t j k) ∧
        ∀ j, j ≠ i → |tableMatrix t i j| ≤ g[i.1] := by
  have hone : ∀ i, tableMatrix t i i = 1 := by
    intro i
    unfold tableMatrix
    have := hdiag _ (List.getElem_mem i.2)
    simp only [Fin.getElem_fin, this, Option.getD_some]
  refine ⟨(List.finRange t.rows.length).map fun i => Real.sqrt (1 - 1 / (tableMatrix t)⁻¹ i i), ?_, by simp, ?_⟩
  · rw [globalOf_eq h hp.det_pos.ne', List.map_map]
    congr 1
    apply List.map_congr_left
    intro i _
    obtain ⟨h1, -⟩ := quad_inv hp i (hone i)
    have hpos : 0 < (tableMatrix t)⁻¹ i i := by linarith
    have h2 : 1 / (tableMatrix t)⁻¹ i i ≤ 1 := by rw [div_le_one hpos]; exact h1
    simp only [hone i, one_mul]
    rw [if_neg hpos.ne', if_neg (by linarith)]
    rfl
  · intro i hg
    obtain ⟨h1, -⟩ := quad_inv hp i (hone _)
    have hpos : 0 < (tableMatrix t)⁻¹ i i := by linarith
    have h2 : 1 / (tableMatrix t)⁻¹ i i ≤ 1 := by rw [div_le_one hpos]; exact h1
    obtain ⟨b1, b2⟩ := quad_best hp i (hone i)
    have hgi : ((List.finRange t.rows.length).map fun i => Real.sqrt (1 - 1 / (tableMatrix t)⁻¹ i i))[i.1] =
        Real.sqrt (1 - 1 / (tableMatrix t)⁻¹ i i) := by simp
    rw [hgi, Real.sq_sqrt (by linarith)]
    refine ⟨b1, fun hn => ?_, fun j hj => ?_⟩
    · obtain ⟨w, hw1, hw2, hw3⟩ := b2 hn
      refine ⟨w, hw1, hw2, ?_, hw3⟩
      have := hp.dotProduct_mulVec_pos hw2
      simp only [star_trivial] at this
      rwa [quad_expand] at this
    · have := b1 (Pi.single j 1) (by simp [hj.symm])
      simp only [Pi.single_apply, ite_mul, one_mul, zero_mul, mul_ite, mul_one, mul_zero, Finset.sum_ite_eq', Finset.mem_univ, if_true,
        hone j] at this
      exact Real.abs_le_sqrt this

/-- **C72 (more columns).** A global correlation does not decrease when columns are added, as long as the phik matrix remains positive
definite. -/
theorem global_more_columns {t u : LTable} (hu : AllNumbers u) (hdiag : ∀ a ∈ u.rows, u.v a a = some 1) (hp : (tableMatrix u).PosDef)
    (hnt : t.rows.Nodup) (hnu : u.rows.Nodup) (hsub : ∀ a ∈ t.rows, a ∈ u.rows) (hv : ∀ a ∈ t.rows, ∀ b ∈ t.rows, t.v a b = u.v a b) :
    ∃ g k : List ℝ, globalOf t = .ok (g.map .num) ∧ globalOf u = .ok (k.map .num) ∧ g.length = t.rows.length ∧
      k.length = u.rows.length ∧
      ∀ (i j : ℕ) (hi : i < t.rows.length) (hj : j < u.rows.length) (hg : i < g.length) (hk : j < k.length),
        t.rows[i] = u.rows[j] → g[i] ≤ k[j] := by
  have ht : AllNumbers t := fun a ha b hb => by rw [hv a ha b hb]; exact hu a (hsub a ha) b (hsub b hb)
  have htd : ∀ a ∈ t.rows, t.v a a = some 1 := fun a ha => by rw [hv a ha a ha]; exact hdiag a (hsub a ha)
  have hf : ∀ i : Fin t.rows.length, ∃ j : Fin u.rows.length, u.rows[j] = t.rows[i] := fun i => by
    obtain ⟨j, hj, e⟩ := List.getElem_of_mem (hsub _ (List.getElem_mem i.2))
    exact ⟨⟨j, hj⟩, e⟩
  choose f hf using hf
  have hinj : Function.Injective f := by
    intro i j e
    have h1 := hf i
    rw [e, hf j] at h1
    exact Fin.ext ((List.Nodup.getElem_inj_iff hnt).1 h1.symm)
  have hmat : tableMatrix t = (tableMatrix u).submatrix f f := by
    ext i j
    rw [Matrix.submatrix_apply]
    unfold tableMatrix
    rw [hf i, hf j]
    exact congrArg (·.getD 0) (hv _ (List.getElem_mem i.2) _ (List.getElem_mem j.2))
  have hpt : (tableMatrix t).PosDef := by rw [hmat]; exact hp.submatrix hinj
  obtain ⟨g, g1, g2, g3⟩ := global_best ht htd hpt
  obtain ⟨k, k1, k2, k3⟩ := global_best hu hdiag hp
  obtain ⟨g', g1', g2', g3'⟩ := global_range ht htd hpt
  obtain ⟨k', k1', k2', k3'⟩ := global_range hu hdiag hp
  have hinjv : Function.Injective GVal.num := fun a b e => by cases e; rfl
  have eg : g' = g := by
    rw [g1, Except.ok.injEq] at g1'
    exact (List.map_injective_iff.2 hinjv g1').symm
  have ek : k' = k := by
    rw [k1, Except.ok.injEq] at k1'
    exact (List.map_injective_iff.2 hinjv k1').symm
  subst eg ek
  refine ⟨g', k', g1, k1, g2, k2, fun i j hi hj hg hk hij => ?_⟩
  obtain ⟨p1, p2, p3⟩ := g3' i hi hg
  obtain ⟨q1, -, -⟩ := k3' j hj hk
  by_cases hn : 2 ≤ t.rows.length
  · obtain ⟨w, w1, w2, w3, w4⟩ := (g3 ⟨i, hi⟩ hg).2.1 hn
    set w' : Fin u.rows.length → ℝ := fun a => ∑ b, if f b = a then w b else 0 with hw'
    have hsum : ∀ X : Fin u.rows.length → ℝ, ∑ a, w' a * X a = ∑ b, w b * X (f b) := by
      intro X
      simp only [hw', Finset.sum_mul, ite_mul, zero_mul]
      rw [Finset.sum_comm]
      refine Finset.sum_congr rfl fun b _ => ?_
      rw [Finset.sum_ite_eq Finset.univ (f b) fun a => w b * X a, if_pos (Finset.mem_univ _)]
    have hj' : f ⟨i, hi⟩ = ⟨j, hj⟩ := by
      have h1 := hf ⟨i, hi⟩
      have h2 : u.rows[(f ⟨i, hi⟩).1] = u.rows[j] := h1.trans hij
      exact Fin.ext ((List.Nodup.getElem_inj_iff hnu).1 h2)
    have hw0 : w' ⟨j, hj⟩ = 0 := by
      rw [hw']
      refine Finset.sum_eq_zero fun b _ => ?_
      split
      · next e => rw [← hj'] at e; rw [hinj e, w1]
      · rfl
    have key := (k3 ⟨j, hj⟩ hk).1 w' hw0
    have e1 : ∑ a, w' a * tableMatrix u ⟨j, hj⟩ a = ∑ b, w b * tableMatrix t ⟨i, hi⟩ b := by
      rw [hsum, hmat, ← hj']; rfl
    have e2 : ∑ a, ∑ b, w' a * w' b * tableMatrix u a b = ∑ a, ∑ b, w a * w b * tableMatrix t a b := by
      simp only [mul_assoc, ← Finset.mul_sum]
      rw [hsum]
      refine Finset.sum_congr rfl fun a _ => ?_
      rw [hsum, hmat]; rfl
    rw [e1, e2, w4] at key
    exact abs_le_of_sq_le_sq' (le_of_mul_le_mul_right key w3) q1 |>.2
  · have h0 : g'[i] = 0 := by
      rw [p3]
      intro j hj hji
      omega
    rw [h0]; exact q1

open scoped Classical in
/-- **C72 for `global_phik_array`.** Two frames, the columns of the first among those of the second (in any order), with the same options:
if the phik matrix of the second is positive definite, both calls return numbers, and the global correlation of a column of the first
frame is not less in the second. -/
theorem global_phik_array_more_columns {nm : Numerics} (hg : GoodNumerics nm) (fl : ℚ → ℚ) (pf : String → Option (Option ℚ))
    (bins : Bins) (quantile noise dropna du dof : Bool)
    {r s : Ref} {w w' x x' : World} {f g : Frame} (hf : w.heap[r]? = some f) (hgr : x.heap[s]? = some g)
    (hnf : f.names.Nodup) (hng : g.names.Nodup) {icf icg : Option (List String)} {sf sg : Option (List ℕ)}
    (hsf : ValidSched (cwr ((f.cols.filter
      (fun c => decide (Kept (icf.getD (guessIntervalCols f)) dropna c))).map (·.name))).length sf)
    (hsg : ValidSched (cwr ((g.cols.filter
      (fun c => decide (Kept (icg.getD (guessIntervalCols g)) dropna c))).map (·.name))).length sg)
    (hbg : ∀ c ∈ g.cols, c.name ∈ icg.getD (guessIntervalCols g) → ∃ e, EntryFor bins c.name e ∧ e ≠ .other)
    (hsub : ∀ c ∈ f.cols, c ∈ g.cols)
    (hic : ∀ c ∈ f.cols, c.name ∈ icf.getD (guessIntervalCols f) ↔ c.name ∈ icg.getD (guessIntervalCols g))
    {t u : LTable} (ht : (phikMatrix nm sf fl pf r icf bins quantile noise dropna du dof).exec w = (.ok t, w'))
    (hu : (phikMatrix nm sg fl pf s icg bins quantile noise dropna du dof).exec x = (.ok u, x'))
    (hnum : AllNumbers u) (hp : (tableMatrix u).PosDef) :
    ∃ a b : List ℝ,
      ((globalPhikArray nm sf fl pf r icf bins quantile noise dropna du dof).exec w).1 = .ok (a.map .num, t.rows) ∧
      ((globalPhikArray nm sg fl pf s icg bins quantile noise dropna du dof).exec x).1 = .ok (b.map .num, u.rows) ∧
      a.length = t.rows.length ∧ b.length = u.rows.length ∧
      ∀ (i j : ℕ) (hi : i < t.rows.length) (hj : j < u.rows.length) (ha : i < a.length) (hb : j < b.length),
        t.rows[i] = u.rows[j] → a[i] ≤ b[j] := by
  have hbf : ∀ c ∈ f.cols, c.name ∈ icf.getD (guessIntervalCols f) → ∃ e, EntryFor bins c.name e ∧ e ≠ .other :=
    fun c hc hi => hbg c (hsub c hc) ((hic c hc).1 hi)
  have loc := fun {a b : Column} (ha : a ∈ f.cols) (hb : b ∈ f.cols) => phik_matrix_local hg fl pf bins quantile noise dropna du dof hf hgr
    hnf hng hsf hsg hbf hbg ht hu ha (hsub a ha) hb (hsub b hb) (hic a ha) (hic b hb)
  obtain ⟨_, _, _, -, -, -, h4⟩ := phik_matrix_result hg fl pf hf hnf icf bins quantile noise dropna du dof hsf
  obtain ⟨_, _, _, -, -, -, k4⟩ := phik_matrix_result hg fl pf hgr hng icg bins quantile noise dropna du dof hsg
  rw [ht] at h4
  rw [hu] at k4
  obtain ⟨_, _, _, _, -, -, h5, h6, -⟩ := h4
  obtain ⟨_, _, _, _, -, -, k5, k6, -⟩ := k4
  have nod : ∀ {F : Frame} (q : Column → Bool), F.names.Nodup → ((F.cols.filter q).map (·.name)).Nodup := fun q h =>
    h.sublist (List.filter_sublist.map _)
  have hcol : ∀ n ∈ t.rows, ∃ c ∈ f.cols, c.name = n := by
    intro n hn
    rw [h6] at hn
    obtain ⟨c, hc, rfl⟩ := List.mem_map.1 hn
    exact ⟨c, (List.mem_filter.1 hc).1, rfl⟩
  obtain ⟨a, b, r1, r2, r3, r4, r5⟩ := global_more_columns (t := t) hnum (fun n hn => k5.diag n (by rwa [← k5.rows])) hp
    (by rw [h6]; exact nod _ hnf) (by rw [k6]; exact nod _ hng)
    (fun n hn => by obtain ⟨c, hc, rfl⟩ := hcol n hn; exact (loc hc hc).1.1 hn)
    (fun n hn m hm => by
      obtain ⟨c, hc, rfl⟩ := hcol n hn
      obtain ⟨d, hd, rfl⟩ := hcol m hm
      exact (loc hc hd).2 hn hm)
  refine ⟨a, b, ?_, ?_, r3, r4, r5⟩
  · rw [global_phik_array_result, ht]; simp only [r1]; rfl
  · rw [global_phik_array_result, hu]; simp only [r2]; rfl

/-- Three columns, two of them with phik 1/2. -/
noncomputable def exThree : LTable := ⟨["a", "b", "c"], ["a", "b", "c"],
  fun x y => if x = y then some 1 else if x = "c" ∨ y = "c" then some (1 / 4) else some (1 / 2)⟩

theorem exThree_ok : AllNumbers exThree ∧ (∀ a ∈ exThree.rows, exThree.v a a = some 1) ∧ (tableMatrix exThree).PosDef := by
  refine ⟨fun a _ b _ => by unfold exThree; simp only; split_ifs <;> simp, fun a _ => by simp [exThree], ?_⟩
  refine Matrix.PosDef.of_dotProduct_mulVec_pos ?_ ?_
  · ext i j
    change Fin 3 at i j
    fin_cases i <;> fin_cases j <;> simp [tableMatrix, exThree]
  · intro x hx
    change Fin 3 → ℝ at x
    have : (star x ⬝ᵥ ((tableMatrix exThree : Matrix (Fin 3) (Fin 3) ℝ) *ᵥ x)) =
        3 / 4 * (x 0 + x 1 / 2 + x 2 / 4 ) ^ 2 + 1 / 4 * (x 0 + x 1 / 2 + x 2 / 4) ^ 2 + 3 / 4 * (x 1 + x 2 / 6) ^ 2 + 11 / 12 * x 2 ^ 2 := by
      have hM : (tableMatrix exThree : Matrix (Fin 3) (Fin 3) ℝ) = !![1, 1 / 2, 1 / 4; 1 / 2, 1, 1 / 4; 1 / 4, 1 / 4, 1] := by
        ext i j
        fin_cases i <;> fin_cases j <;> simp [tableMatrix, exThree]
      have key : ∀ M : Matrix (Fin 3) (Fin 3) ℝ, M = !![1, 1 / 2, 1 / 4; 1 / 2, 1, 1 / 4; 1 / 4, 1 / 4, 1] →
          star x ⬝ᵥ (M *ᵥ x) = 3 / 4 * (x 0 + x 1 / 2 + x 2 / 4) ^ 2 + 1 / 4 * (x 0 + x 1 / 2 + x 2 / 4) ^ 2 +
            3 / 4 * (x 1 + x 2 / 6) ^ 2 + 11 / 12 * x 2 ^ 2 := by
        rintro M rfl
        simp [Matrix.mulVec, dotProduct, Fin.sum_univ_three]
        ring
      exact key _ hM
    refine lt_of_lt_of_eq ?_ this.symm
    by_contra hc
    have p1 := sq_nonneg (x 0 + x 1 / 2 + x 2 / 4)
    have p2 := sq_nonneg (x 1 + x 2 / 6)
    have p3 := sq_nonneg (x 2)
    have h2 : x 2 = 0 := by
      have : x 2 ^ 2 = 0 := by linarith
      exact pow_eq_zero_iff (two_ne_zero) |>.1 this
    have h1 : x 1 = 0 := by
      have : (x 1 + x 2 / 6) ^ 2 = 0 := by linarith
      have := pow_eq_zero_iff (two_ne_zero) |>.1 this
      linarith
    have h0 : x 0 = 0 := by
      have : (x 0 + x 1 / 2 + x 2 / 4) ^ 2 = 0 := by linarith
      have := pow_eq_zero_iff (two_ne_zero) |>.1 this
      linarith
    apply hx
    funext i
    change Fin 3 at i
    fin_cases i <;> assumption

/-- The hypotheses are met by a table of three correlated columns; without the third column the global correlations are not larger. -/
example := global_best exThree_ok.1 exThree_ok.2.1 exThree_ok.2.2

example := global_more_columns (t := ⟨["b", "a"], ["b", "a"], exThree.v⟩) exThree_ok.1 exThree_ok.2.1 exThree_ok.2.2 (by decide) (by decide)
  (by intro a ha; simp [exThree] at ha ⊢; tauto) (fun _ _ _ _ => rfl)

end Props

end Phik
