import Verif.Lemmas.HyperTable
import Verif.Lemmas.Shuffle
import Verif.Props.Patefield

/-! # Property C65: the distribution of the fixed-margin (Patefield) sampler -/

namespace Phik

open Finset Spec MeasureTheory

theorem HoldsTable_isTab {nrowt ncolt : List ℤ} {buf : List (Option ℤ)} {X : ℕ → ℕ → ℤ} (h : HoldsTable nrowt ncolt buf X) :
    IsTab nrowt.length ncolt.length (fun l => nrowt.getD l 0) (fun j => ncolt.getD j 0) X := by
  refine ⟨h.nonneg, fun l hl => ?_, fun j hj => ?_⟩
  · rw [h.rows l hl]; simp [List.getD_eq_getElem?_getD, hl]
  · rw [h.cols j hj]; simp [List.getD_eq_getElem?_getD, hj]

/-- A run on a tape of numbers from (0, 1]. -/
theorem tape_run {nrowt ncolt : List ℤ} (hv : ValidMargins nrowt ncolt) (hN : nrowt.sum ≤ 46340) {fuel passes : ℕ}
    (hf : nrowt.sum + 1 ≤ fuel) (hp : 1 ≤ passes) (st : Statics ℝ) {buf : List (Option ℤ)}
    (hlen : buf.length = nrowt.length * ncolt.length) {u : List ℝ} (hu : ∀ v ∈ u, 0 < v ∧ v ≤ 1)
    (hL : (nrowt.length - 1) * (ncolt.length - 1) ≤ u.length) :
    ∃ out, rcont2 exactOps tape fuel passes nrowt.length ncolt.length nrowt ncolt false st u buf = .ok out ∧ out.ierror = 0 ∧
      ∃ X, HoldsTable nrowt ncolt out.matrix X ∧
        Match (boxes nrowt.sum fuel passes ncolt.length (fun l => nrowt.getD l 0) (fun j => ncolt.getD j 0) X
          ((nrowt.length - 1) * (ncolt.length - 1))) u := by
  have hc := hv.two_cols
  have hp := rcont2_gen_post (O := exactOps) (T := True) tape nrowt ncolt hv fuel passes
    (Φ := TapeInv nrowt.sum fuel passes ncolt.length (fun l => nrowt.getD l 0) (fun j => ncolt.getD j 0) u)
    (fun _ => tape_spec hN hf hp hc hu hL) st u ⟨by omega, by simp [boxes], by simp [boxes, Match]⟩ buf hlen
  cases h : rcont2 exactOps tape fuel passes nrowt.length ncolt.length nrowt ncolt false st u buf with
  | error e =>
    rw [h] at hp
    cases e <;> simp [BadErr] at hp
    omega
  | ok out =>
    rw [h] at hp
    obtain ⟨h1, -, X, h3, -, -, h4⟩ := hp
    exact ⟨out, rfl, h1, X, h3, by simpa using h4⟩

theorem IsTab.ext {nrow ncol : ℕ} {rt ct : ℕ → ℤ} {X X' : ℕ → ℕ → ℤ} (hX : IsTab nrow ncol rt ct X) (hX' : IsTab nrow ncol rt ct X')
    (h : ∀ l < nrow - 1, ∀ j < ncol - 1, X l j = X' l j) : ∀ l < nrow, ∀ j < ncol, X l j = X' l j := by
  have h1 : ∀ l < nrow - 1, ∀ j < ncol, X l j = X' l j := by
    intro l hl j hj
    by_cases hj' : j < ncol - 1
    · exact h l hl j hj'
    obtain rfl : j = ncol - 1 := by omega
    have r1 := hX.rows l (by omega)
    have r2 := hX'.rows l (by omega)
    rw [show ncol = ncol - 1 + 1 by omega, Finset.sum_range_succ] at r1 r2
    have : ∑ j ∈ range (ncol - 1), X l j = ∑ j ∈ range (ncol - 1), X' l j :=
      Finset.sum_congr rfl fun j hj => h l hl j (mem_range.1 hj)
    omega
  intro l hl j hj
  by_cases hl' : l < nrow - 1
  · exact h1 l hl' j hj
  obtain rfl : l = nrow - 1 := by omega
  have r1 := hX.cols j hj
  have r2 := hX'.cols j hj
  rw [show nrow = nrow - 1 + 1 by omega, Finset.sum_range_succ] at r1 r2
  have : ∑ l ∈ range (nrow - 1), X l j = ∑ l ∈ range (nrow - 1), X' l j :=
    Finset.sum_congr rfl fun l hl => h1 l (mem_range.1 hl) j hj
  omega

theorem list_box_prod (B : List (ℝ × ℝ)) {L : ℕ} (h : B.length ≤ L) :
    ∏ i : Fin L, (if hi : i.1 < B.length then B[i.1].2 - B[i.1].1 else 1) = (B.map fun b => b.2 - b.1).prod := by
  induction B generalizing L with
  | nil => simp
  | cons b B ih =>
    cases L with
    | zero => simp at h
    | succ L =>
      rw [Fin.prod_univ_succ, List.map_cons, List.prod_cons, ← ih (L := L) (by simpa using h)]
      simp

theorem IsTab.prob {nrowt ncolt : List ℤ} {X : ℕ → ℕ → ℤ} (hr : 2 ≤ nrowt.length) (hc : 2 ≤ ncolt.length)
    (hs : nrowt.sum = ncolt.sum)
    (hX : IsTab nrowt.length ncolt.length (fun l => nrowt.getD l 0) (fun j => ncolt.getD j 0) X) :
    ∏ i ∈ range ((nrowt.length - 1) * (ncolt.length - 1)),
      cellP ncolt.length (fun l => nrowt.getD l 0) (fun j => ncolt.getD j 0) X (i / (ncolt.length - 1)) (i % (ncolt.length - 1)) =
      tableProb nrowt ncolt X := by
  have p := fun k => (fz_pos k).ne'
  rw [rows_prod hX hc (nrowt.length - 1) (by omega)]
  set rt : ℕ → ℤ := fun l => nrowt.getD l 0 with hrt
  set ct : ℕ → ℤ := fun j => ncolt.getD j 0 with hct
  have e0 : blockTot ncolt.length ct X 0 0 = nrowt.sum := by
    unfold blockTot
    rw [hs, ← sum_range_getD, ← Finset.range_eq_Ico]
    exact Finset.sum_congr rfl fun j _ => by simp [left, hct]
  have hlast : ∀ j < ncolt.length, left ct X (nrowt.length - 1) j = X (nrowt.length - 1) j := by
    intro j hj
    rw [hX.left_eq (by omega) hj]
    have : Ico (nrowt.length - 1) nrowt.length = {nrowt.length - 1} := by ext j; simp only [mem_Ico, mem_singleton]; omega
    rw [this, Finset.sum_singleton]
  have e1 : blockTot ncolt.length ct X (nrowt.length - 1) 0 = rt (nrowt.length - 1) := by
    unfold blockTot
    rw [← hX.rows _ (by omega), ← Finset.range_eq_Ico]
    exact Finset.sum_congr rfl fun j hj => hlast j (mem_range.1 hj)
  have hprod : ∀ a : List ℤ, (a.map fun v => (v.toNat.factorial : ℝ)).prod = ∏ i ∈ range a.length, fz (a.getD i 0) := by
    intro a
    induction a with
    | nil => simp
    | cons x a ih =>
      rw [List.length_cons, Finset.prod_range_succ', List.map_cons, List.prod_cons, ih]
      simp [fz, mul_comm]
  have e2 : ∏ j ∈ range ncolt.length, (fz (ct j) / (fz (left ct X (nrowt.length - 1) j) * ∏ i ∈ range (nrowt.length - 1), fz (X i j))) =
      (∏ j ∈ range ncolt.length, fz (ct j)) / ∏ i ∈ range nrowt.length, ∏ j ∈ range ncolt.length, fz (X i j) := by
    rw [Finset.prod_comm, ← Finset.prod_div_distrib]
    refine Finset.prod_congr rfl fun j hj => ?_
    rw [hlast j (mem_range.1 hj)]
    have := Finset.prod_range_succ (fun i => fz (X i j)) (nrowt.length - 1)
    rw [show nrowt.length - 1 + 1 = nrowt.length by omega] at this
    rw [this, mul_comm]
  have e3 : ∏ i ∈ range nrowt.length, fz (rt i) = (∏ i ∈ range (nrowt.length - 1), fz (rt i)) * fz (rt (nrowt.length - 1)) := by
    have := Finset.prod_range_succ (fun i => fz (rt i)) (nrowt.length - 1)
    rwa [show nrowt.length - 1 + 1 = nrowt.length by omega] at this
  unfold tableProb
  rw [hprod, hprod, e0, e1, e2]
  change _ = ((∏ i ∈ range nrowt.length, fz (rt i)) * _) / (fz nrowt.sum * ∏ i ∈ range nrowt.length, ∏ j ∈ range ncolt.length, fz (X i j))
  rw [e3, div_mul_eq_div_div]
  ring

namespace Props

/-- **C65 (every tape gives a table).** In exact arithmetic, with any numbers from (0, 1] as random numbers, the sampler
returns a table with the requested margins and uses at most one number for each entry that is not in the last row or column. -/
theorem patefield_exact_total {nrowt ncolt : List ℤ} (hv : ValidMargins nrowt ncolt) (hN : nrowt.sum ≤ 46340) {fuel passes : ℕ}
    (hf : nrowt.sum + 1 ≤ fuel) (hp : 1 ≤ passes) (st : Statics ℝ) {buf : List (Option ℤ)}
    (hlen : buf.length = nrowt.length * ncolt.length) {u : List ℝ} (hu : ∀ v ∈ u, 0 < v ∧ v ≤ 1)
    (hL : (nrowt.length - 1) * (ncolt.length - 1) ≤ u.length) :
    ∃ out X, rcont2 exactOps tape fuel passes nrowt.length ncolt.length nrowt ncolt false st u buf = .ok out ∧ out.ierror = 0 ∧
      HoldsTable nrowt ncolt out.matrix X := by
  obtain ⟨out, h1, h2, X, h3, -⟩ := tape_run hv hN hf hp st hlen hu hL
  exact ⟨out, X, h1, h2, h3⟩

/-- **C65.** In exact arithmetic, with independent random numbers that are uniform on (0, 1], the sampler returns each table `X`
with the requested margins with probability exactly `tableProb`: the probability that the table of the records is `X` when
the values of one variable are shuffled at random (`shuffle_law`). -/
theorem patefield_law {nrowt ncolt : List ℤ} (hv : ValidMargins nrowt ncolt) (hN : nrowt.sum ≤ 46340) {fuel passes : ℕ}
    (hf : nrowt.sum + 1 ≤ fuel) (hp : 1 ≤ passes) (st : Statics ℝ) {buf : List (Option ℤ)}
    (hlen : buf.length = nrowt.length * ncolt.length) {L : ℕ} (hL : (nrowt.length - 1) * (ncolt.length - 1) ≤ L)
    {X : ℕ → ℕ → ℤ} (hpos : ∀ i < nrowt.length, ∀ j < ncolt.length, 0 ≤ X i j)
    (hrow : ∀ i, (h : i < nrowt.length) → ∑ j ∈ range ncolt.length, X i j = nrowt[i])
    (hcol : ∀ j, (h : j < ncolt.length) → ∑ i ∈ range nrowt.length, X i j = ncolt[j]) :
    volume {u : Fin L → ℝ | (∀ i, 0 < u i ∧ u i ≤ 1) ∧ ∃ out,
      rcont2 exactOps tape fuel passes nrowt.length ncolt.length nrowt ncolt false st (List.ofFn u) buf = .ok out ∧
      out.ierror = 0 ∧ HoldsTable nrowt ncolt out.matrix X} = ENNReal.ofReal (tableProb nrowt ncolt X) := by
  have hr2 := hv.two_rows
  have hc2 := hv.two_cols
  have hX : IsTab nrowt.length ncolt.length (fun l => nrowt.getD l 0) (fun j => ncolt.getD j 0) X := by
    refine ⟨hpos, fun l hl => ?_, fun j hj => ?_⟩
    · rw [hrow l hl]; simp [List.getD_eq_getElem?_getD, hl]
    · rw [hcol j hj]; simp [List.getD_eq_getElem?_getD, hj]
  have hct : ∑ j ∈ range ncolt.length, ncolt.getD j 0 = nrowt.sum := by rw [sum_range_getD, hv.sums]
  set B := boxes nrowt.sum fuel passes ncolt.length (fun l => nrowt.getD l 0) (fun j => ncolt.getD j 0) X
    ((nrowt.length - 1) * (ncolt.length - 1)) with hB
  have hBL : B.length ≤ L := (boxes_length X _).trans hL
  have hBu : ∀ b ∈ B, 0 ≤ b.1 ∧ b.1 ≤ b.2 ∧ b.2 ≤ 1 := fun b hb => boxes_unit hN hf hp hc2 hct hX hb
  have hset : {u : Fin L → ℝ | (∀ i, 0 < u i ∧ u i ≤ 1) ∧ ∃ out,
      rcont2 exactOps tape fuel passes nrowt.length ncolt.length nrowt ncolt false st (List.ofFn u) buf = .ok out ∧
      out.ierror = 0 ∧ HoldsTable nrowt ncolt out.matrix X} =
      Set.pi Set.univ fun i : Fin L => if hi : i.1 < B.length then Set.Ioc B[i.1].1 B[i.1].2 else Set.Ioc 0 1 := by
    ext u
    rw [Set.mem_ofPred_eq, Set.mem_univ_pi]
    constructor
    · rintro ⟨hu, out, h1, h2, h3⟩ i
      have hu' : ∀ v ∈ List.ofFn u, 0 < v ∧ v ≤ 1 := by
        intro v hv
        obtain ⟨i, rfl⟩ := List.mem_ofFn.1 hv
        exact hu i
      obtain ⟨out', g1, g2, X', g3, g4⟩ := tape_run hv hN hf hp st hlen hu' (by simpa using hL)
      obtain rfl : out = out' := by rw [h1] at g1; simpa using g1
      have hXX : ∀ l < nrowt.length, ∀ j < ncolt.length, X' l j = X l j := by
        intro l hl j hj
        have := (g3.cells l hl j hj).symm.trans (h3.cells l hl j hj)
        simpa using this
      have hm : Match B (List.ofFn u) := by
        have := boxes_congr (N := nrowt.sum) (fuel := fuel) (passes := passes) (rt := fun l => nrowt.getD l 0)
          (ct := fun j => ncolt.getD j 0) (X := X') (X' := X) (l := nrowt.length - 1) (m := 0) hc2 (by omega)
          (fun l' j h => hXX l' (by omega) j (by omega))
        rw [add_zero] at this
        rw [hB, ← this]
        exact g4
      rw [Match_ofFn B u hBL] at hm
      split
      · next hi => exact hm i hi
      · exact hu i
    · intro hu
      have hm : Match B (List.ofFn u) := by
        rw [Match_ofFn B u hBL]
        intro i hi
        have := hu i
        rw [dif_pos hi] at this
        exact this
      have hu1 : ∀ i, 0 < u i ∧ u i ≤ 1 := by
        intro i
        have := hu i
        split at this
        · next hi =>
          obtain ⟨q1, q2, q3⟩ := hBu _ (List.getElem_mem hi)
          exact ⟨q1.trans_lt this.1, this.2.trans q3⟩
        · exact this
      have hu' : ∀ v ∈ List.ofFn u, 0 < v ∧ v ≤ 1 := by
        intro v hv
        obtain ⟨i, rfl⟩ := List.mem_ofFn.1 hv
        exact hu1 i
      refine ⟨hu1, ?_⟩
      obtain ⟨out, g1, g2, X', g3, g4⟩ := tape_run hv hN hf hp st hlen hu' (by simpa using hL)
      refine ⟨out, g1, g2, ?_⟩
      have hX' := HoldsTable_isTab g3
      have hq := boxes_unique hN hf hp hc2 hct hX hX' _ le_rfl hm g4
      have hXX := hX.ext hX' (by
        intro l hl j hj
        have hi : l * (ncolt.length - 1) + j < (nrowt.length - 1) * (ncolt.length - 1) := by
          have := Nat.mul_le_mul_right (ncolt.length - 1) (show l + 1 ≤ nrowt.length - 1 by omega)
          rw [Nat.succ_mul] at this
          omega
        have := hq _ hi
        have d1 : (l * (ncolt.length - 1) + j) / (ncolt.length - 1) = l := by
          rw [mul_comm, Nat.mul_add_div (by omega), Nat.div_eq_of_lt hj, add_zero]
        have d2 : (l * (ncolt.length - 1) + j) % (ncolt.length - 1) = j := by
          rw [mul_comm, Nat.mul_add_mod, Nat.mod_eq_of_lt hj]
        rwa [d1, d2] at this)
      exact ⟨g3.size, fun i hi j hj => by rw [hXX i hi j hj]; exact g3.cells i hi j hj, hpos, hrow, hcol⟩
  rw [hset, volume_pi, Measure.pi_pi, ← hX.prob hr2 hc2 hv.sums, ← boxes_prod (N := nrowt.sum) (fuel := fuel) (passes := passes) X hX hc2 _ le_rfl,
    ← hB, ← list_box_prod B hBL, ENNReal.ofReal_prod_of_nonneg]
  · refine Finset.prod_congr rfl fun i _ => ?_
    split
    · rw [Real.volume_Ioc]
    · simp
  · intro i _
    split
    · next hi => linarith [(hBu _ (List.getElem_mem hi)).2.1]
    · norm_num

end Props

/-- Margins of records as lists. -/
theorem counts_valid {N r c : ℕ} {x : Fin N → Fin r} {y : Fin N → Fin c} (hr : 2 ≤ r) (hc : 2 ≤ c)
    (hx : Function.Surjective x) (hy : Function.Surjective y) :
    ValidMargins (List.ofFn fun i => (#{a | x a = i} : ℤ)) (List.ofFn fun j => (#{a | y a = j} : ℤ)) ∧
      (List.ofFn fun i => (#{a | x a = i} : ℤ)).sum = N := by
  have h1 : ∀ {s : ℕ} (f : Fin N → Fin s), (List.ofFn fun i => (#{a | f a = i} : ℤ)).sum = N := by
    intro s f
    rw [List.sum_ofFn]
    have := Finset.card_eq_sum_card_fiberwise (s := (univ : Finset (Fin N))) (f := f) (t := univ) (fun _ _ => mem_coe.2 (mem_univ _))
    rw [Finset.card_univ, Fintype.card_fin] at this
    exact_mod_cast this.symm
  have h2 : ∀ {s : ℕ} (f : Fin N → Fin s), Function.Surjective f → ∀ v ∈ List.ofFn fun i => (#{a | f a = i} : ℤ), 0 < v := by
    intro s f hf v hv
    obtain ⟨i, rfl⟩ := List.mem_ofFn.1 hv
    obtain ⟨a, ha⟩ := hf i
    have : 0 < #{a | f a = i} := Finset.card_pos.2 ⟨a, by simp [ha]⟩
    exact_mod_cast this
  exact ⟨⟨by simpa using hr, by simpa using hc, h2 x hx, h2 y hy, by rw [h1, h1]⟩, h1 x⟩

theorem shuffle_law {N r c : ℕ} (x : Fin N → Fin r) (y : Fin N → Fin c) (X : Fin r → Fin c → ℕ)
    (hr : ∀ i, ∑ j, X i j = #{a | x a = i}) (hc : ∀ j, ∑ i, X i j = #{a | y a = j}) (Y : ℕ → ℕ → ℤ)
    (hY : ∀ i j, Y i.1 j.1 = X i j) :
    (#{σ : Equiv.Perm (Fin N) | ∀ i j, #{a | x a = i ∧ y (σ a) = j} = X i j} : ℝ) / N.factorial =
      tableProb (List.ofFn fun i => (#{a | x a = i} : ℤ)) (List.ofFn fun j => (#{a | y a = j} : ℤ)) Y := by
  have hs : (List.ofFn fun i => (#{a | x a = i} : ℤ)).sum = N := by
    rw [List.sum_ofFn]
    have := Finset.card_eq_sum_card_fiberwise (s := (univ : Finset (Fin N))) (f := x) (t := univ) (fun _ _ => mem_coe.2 (mem_univ _))
    rw [Finset.card_univ, Fintype.card_fin] at this
    exact_mod_cast this.symm
  have h := shuffle_count x y X hr hc
  unfold tableProb
  rw [hs, List.length_ofFn, List.length_ofFn, List.map_ofFn, List.map_ofFn, List.prod_ofFn, List.prod_ofFn]
  have e1 : ∏ i ∈ range r, ∏ j ∈ range c, ((Y i j).toNat.factorial : ℝ) = ∏ i, ∏ j, ((X i j).factorial : ℝ) := by
    rw [Finset.prod_range]
    refine Finset.prod_congr rfl fun i _ => ?_
    rw [Finset.prod_range]
    refine Finset.prod_congr rfl fun j _ => ?_
    rw [hY, Int.toNat_natCast]
  rw [e1]
  simp only [Function.comp, Int.toNat_natCast]
  have hne : ∏ i, ∏ j, ((X i j).factorial : ℝ) ≠ 0 :=
    Finset.prod_ne_zero_iff.2 fun i _ => Finset.prod_ne_zero_iff.2 fun j _ => by exact_mod_cast (X i j).factorial_ne_zero
  have hN : (N.factorial : ℝ) ≠ 0 := by exact_mod_cast N.factorial_ne_zero
  have h' : (#{σ : Equiv.Perm (Fin N) | ∀ i j, #{a | x a = i ∧ y (σ a) = j} = X i j} : ℝ) * ∏ i, ∏ j, ((X i j).factorial : ℝ) =
      (∏ i, ((#{a | x a = i}).factorial : ℝ)) * ∏ j, ((#{a | y a = j}).factorial : ℝ) := by norm_cast; convert h
  rw [← h']
  field_simp

namespace Props

/-- **C65.** Let `x` and `y` be the two variables of `N` records in which every category occurs, and let the sampler be run on
their counts, in exact arithmetic and with independent random numbers uniform on (0, 1].  Then the probability that it returns
the table `X` is exactly the share of the `N!` shuffles of `y` after which the records have the table `X`.  (For a table with
other margins both are 0.) -/
theorem patefield_shuffle {N r c : ℕ} (x : Fin N → Fin r) (y : Fin N → Fin c) (hr : 2 ≤ r) (hc : 2 ≤ c)
    (hx : Function.Surjective x) (hy : Function.Surjective y) (hN : N ≤ 46340) {fuel passes : ℕ} (hf : N + 1 ≤ fuel)
    (hp : 1 ≤ passes) (st : Statics ℝ) {buf : List (Option ℤ)} (hlen : buf.length = r * c) {L : ℕ} (hL : (r - 1) * (c - 1) ≤ L)
    (X : Fin r → Fin c → ℕ) :
    volume {u : Fin L → ℝ | (∀ i, 0 < u i ∧ u i ≤ 1) ∧ ∃ out,
      rcont2 exactOps tape fuel passes r c (List.ofFn fun i => (#{a | x a = i} : ℤ)) (List.ofFn fun j => (#{a | y a = j} : ℤ))
        false st (List.ofFn u) buf = .ok out ∧ out.ierror = 0 ∧
      ∀ i j, out.matrix[i.1 + j.1 * r]? = some (some (X i j : ℤ))} =
    ENNReal.ofReal ((#{σ : Equiv.Perm (Fin N) | ∀ i j, #{a | x a = i ∧ y (σ a) = j} = X i j} : ℝ) / N.factorial) := by
  obtain ⟨hv, hsum⟩ := counts_valid hr hc hx hy
  set nrowt := List.ofFn fun i => (#{a | x a = i} : ℤ) with hnr
  set ncolt := List.ofFn fun j => (#{a | y a = j} : ℤ) with hnc
  have l1 : nrowt.length = r := by rw [hnr, List.length_ofFn]
  have l2 : ncolt.length = c := by rw [hnc, List.length_ofFn]
  have g1 : ∀ i, (h : i < nrowt.length) → nrowt[i] = #{a | x a = ⟨i, l1 ▸ h⟩} := by intro i h; simp [hnr]
  have g2 : ∀ j, (h : j < ncolt.length) → ncolt[j] = #{a | y a = ⟨j, l2 ▸ h⟩} := by intro i h; simp [hnc]
  set Y : ℕ → ℕ → ℤ := fun i j => if h : i < r ∧ j < c then X ⟨i, h.1⟩ ⟨j, h.2⟩ else 0 with hYdef
  have hY : ∀ i : Fin r, ∀ j : Fin c, Y i.1 j.1 = X i j := by intro i j; simp [hYdef]
  have hrs : ∀ i : Fin r, ∑ j ∈ range c, Y i.1 j = ((∑ j, X i j : ℕ) : ℤ) := by
    intro i; rw [Finset.sum_range]; push_cast; exact Finset.sum_congr rfl fun j _ => hY i j
  have hcs : ∀ j : Fin c, ∑ i ∈ range r, Y i j.1 = ((∑ i, X i j : ℕ) : ℤ) := by
    intro j; rw [Finset.sum_range]; push_cast; exact Finset.sum_congr rfl fun i _ => hY i j
  have hlen' : buf.length = nrowt.length * ncolt.length := by rw [l1, l2]; exact hlen
  by_cases hm : (∀ i, ∑ j, X i j = #{a | x a = i}) ∧ ∀ j, ∑ i, X i j = #{a | y a = j}
  · rw [shuffle_law x y X hm.1 hm.2 Y hY]
    have key := patefield_law hv (by omega) (fuel := fuel) (passes := passes) (by omega) hp st hlen' (L := L)
      (by rw [l1, l2]; exact hL) (X := Y)
      (fun i _ j _ => by simp only [hYdef]; split <;> omega)
      (fun i h => by rw [g1 i h, l2, hrs ⟨i, l1 ▸ h⟩, hm.1])
      (fun j h => by rw [g2 j h, l1, hcs ⟨j, l2 ▸ h⟩, hm.2])
    rw [← key]
    congr 1
    ext u
    simp only [Set.mem_ofPred_eq]
    rw [l1, l2]
    refine and_congr_right fun hu => exists_congr fun out => and_congr_right fun ho => and_congr_right fun he => ?_
    constructor
    · intro hcell
      have hu' : ∀ v ∈ List.ofFn u, 0 < v ∧ v ≤ 1 := by
        intro v hv
        obtain ⟨i, rfl⟩ := List.mem_ofFn.1 hv
        exact hu i
      obtain ⟨out', o1, o2, X', o3, -⟩ := tape_run hv (by omega) (fuel := fuel) (passes := passes) (by omega) hp st hlen' hu'
        (by rw [l1, l2]; simpa using hL)
      rw [l1, l2] at o1
      obtain rfl : out = out' := by rw [ho] at o1; simpa using o1
      refine ⟨o3.size, ?_, fun i _ j _ => by simp only [hYdef]; split <;> omega,
        fun i h => by rw [g1 i h, l2, hrs ⟨i, l1 ▸ h⟩, hm.1], fun j h => by rw [g2 j h, l1, hcs ⟨j, l2 ▸ h⟩, hm.2]⟩
      intro i hi j hj
      rw [l1]
      rw [l1] at hi
      rw [l2] at hj
      have := hcell ⟨i, hi⟩ ⟨j, hj⟩
      rw [this, hY ⟨i, hi⟩ ⟨j, hj⟩]
    · intro h i j
      have := h.cells i.1 (by rw [l1]; exact i.2) j.1 (by rw [l2]; exact j.2)
      rw [l1] at this
      rw [this, hY]
  · have e1 : #{σ : Equiv.Perm (Fin N) | ∀ i j, #{a | x a = i ∧ y (σ a) = j} = X i j} = 0 := by
      rw [Finset.card_eq_zero, Finset.filter_eq_empty_iff]
      intro σ _ hσ
      refine hm ⟨fun i => ?_, fun j => ?_⟩
      · rw [Finset.card_eq_sum_card_fiberwise (f := fun a => y (σ a)) (t := univ) (fun _ _ => mem_coe.2 (mem_univ _))]
        refine Finset.sum_congr rfl fun j _ => ?_
        rw [← hσ i j, Finset.filter_filter]
      · have : #{a | y a = j} = #{a | y (σ a) = j} := by
          symm
          refine Finset.card_bij (fun a _ => σ a) (fun a ha => by simpa using ha) (fun _ _ _ _ h => σ.injective h) ?_
          intro a ha
          exact ⟨σ⁻¹ a, by simpa using ha, by simp⟩
        rw [this, Finset.card_eq_sum_card_fiberwise (f := x) (t := univ) (fun _ _ => mem_coe.2 (mem_univ _))]
        refine Finset.sum_congr rfl fun i _ => ?_
        rw [← hσ i j, Finset.filter_filter]
        congr 1; ext a; simp [and_comm]
    rw [e1]
    simp only [Nat.cast_zero, zero_div, ENNReal.ofReal_zero]
    convert measure_empty (μ := (volume : Measure (Fin L → ℝ)))
    rw [Set.eq_empty_iff_forall_notMem]
    rintro u ⟨hu, out, ho, -, hcell⟩
    have hu' : ∀ v ∈ List.ofFn u, 0 < v ∧ v ≤ 1 := by
      intro v hv
      obtain ⟨i, rfl⟩ := List.mem_ofFn.1 hv
      exact hu i
    obtain ⟨out', o1, o2, X', o3, -⟩ := tape_run hv (by omega) (fuel := fuel) (passes := passes) (by omega) hp st hlen' hu'
      (by rw [l1, l2]; simpa using hL)
    rw [l1, l2] at o1
    obtain rfl : out = out' := by rw [ho] at o1; simpa using o1
    have hXX : ∀ i : Fin r, ∀ j : Fin c, X' i.1 j.1 = X i j := by
      intro i j
      have q := o3.cells i.1 (by rw [l1]; exact i.2) j.1 (by rw [l2]; exact j.2)
      rw [l1, hcell i j] at q
      simpa using q.symm
    refine hm ⟨fun i => ?_, fun j => ?_⟩
    · have q := o3.rows i.1 (by rw [l1]; exact i.2)
      rw [g1, l2, Finset.sum_range, Finset.sum_congr rfl fun j _ => hXX i j] at q
      exact_mod_cast q
    · have q := o3.cols j.1 (by rw [l2]; exact j.2)
      rw [g2, l1, Finset.sum_range, Finset.sum_congr rfl fun i _ => hXX i j] at q
      exact_mod_cast q

/-- Non-vacuity, a concrete case: five records in a 2x3 table; one particular table has probability 1/10. -/
example : volume {u : Fin 2 → ℝ | (∀ i, 0 < u i ∧ u i ≤ 1) ∧ ∃ out,
      rcont2 exactOps tape 6 1 2 3 [3, 2] [1, 2, 2] false ⟨none, 0⟩ (List.ofFn u) (List.replicate 6 none) = .ok out ∧
      out.ierror = 0 ∧ HoldsTable [3, 2] [1, 2, 2] out.matrix
        (fun i j => (([[1, 2, 0], [0, 0, 2]] : List (List ℤ)).getD i []).getD j 0)} = ENNReal.ofReal (1 / 10) := by
  have h := patefield_law margins_ok (fuel := 6) (passes := 1) (by simp) (by simp) le_rfl ⟨none, 0⟩
    (buf := List.replicate 6 none) (by simp) (L := 2) (by simp)
    (X := fun i j => (([[1, 2, 0], [0, 0, 2]] : List (List ℤ)).getD i []).getD j 0)
    (by intro i hi j hj; simp at hi hj; interval_cases i <;> interval_cases j <;> simp)
    (by intro i hi; simp at hi; interval_cases i <;> simp [Finset.sum_range_succ])
    (by intro j hj; simp at hj; interval_cases j <;> simp [Finset.sum_range_succ])
  have e : tableProb [3, 2] [1, 2, 2] (fun i j => (([[1, 2, 0], [0, 0, 2]] : List (List ℤ)).getD i []).getD j 0) = 1 / 10 := by
    simp [tableProb, Finset.prod_range_succ, Nat.factorial]
    norm_num
  rw [e] at h
  exact_mod_cast h

/-- The hypotheses of `patefield_shuffle` can be met. -/
example : Function.Surjective (![0, 0, 0, 1, 1] : Fin 5 → Fin 2) ∧ Function.Surjective (![0, 1, 1, 2, 2] : Fin 5 → Fin 3) ∧
    (List.ofFn fun i => (#{a | (![0, 0, 0, 1, 1] : Fin 5 → Fin 2) a = i} : ℤ)) = [3, 2] := by
  refine ⟨by decide, by decide, by decide⟩

end Props

end Phik
