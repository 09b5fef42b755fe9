import Verif.Lemmas.HyperCell
import Verif.Lemmas.Rcont2Top
import Mathlib.MeasureTheory.Measure.Lebesgue.Basic

/-! # The boxes of random numbers that lead to a table -/

namespace Phik
open Finset Spec

/-- The cuts of the unit interval by the search for one entry (`cell_exact`). -/
def CellCut (N : ℤ) (fuel passes : ℕ) (a d e : ℤ) (α : ℤ → ℝ) : Prop :=
  (∀ k, Feas a d e k → 0 ≤ α k ∧ α k + hyp a d e k ≤ 1 ∧ ∀ r, α k < r → r ≤ α k + hyp a d e k →
    ∀ (σ : Type) (gen : σ → Except Err (ℝ × σ)) (seed : σ),
      cellLoop exactOps gen (factTable exactOps N) fuel a (e - a) (e - d) d e (e - a - d) passes r seed none = .ok (k, seed)) ∧
  ∀ r, 0 < r → r ≤ 1 → ∃ k, Feas a d e k ∧ α k < r ∧ r ≤ α k + hyp a d e k

open scoped Classical in
noncomputable def cut (N : ℤ) (fuel passes : ℕ) (a d e : ℤ) : ℤ → ℝ :=
  if h : ∃ α, CellCut N fuel passes a d e α then h.choose else fun _ => 0

theorem cut_spec {N a d e : ℤ} (hc : CellPre N a d e) (hN : N ≤ 46340) {fuel passes : ℕ} (hf : N + 1 ≤ fuel) (hp : 1 ≤ passes) :
    CellCut N fuel passes a d e (cut N fuel passes a d e) := by
  have h : ∃ α, CellCut N fuel passes a d e α := cell_exact hc hN hf hp
  unfold cut
  rw [dif_pos h]
  exact h.choose_spec

/-- The numbers at the front of a tape lie in the boxes. -/
def Match : List (ℝ × ℝ) → List ℝ → Prop
  | [], _ => True
  | b :: bs, u :: us => (b.1 < u ∧ u ≤ b.2) ∧ Match bs us
  | _ :: _, [] => False

theorem Match_append (B C : List (ℝ × ℝ)) (u : List ℝ) : Match (B ++ C) u ↔ Match B u ∧ Match C (u.drop B.length) := by
  induction B generalizing u with
  | nil => simp [Match]
  | cons b B ih =>
    cases u with
    | nil => simp [Match]
    | cons v u => simp [Match, ih, and_assoc]

theorem Match_ofFn (B : List (ℝ × ℝ)) {L : ℕ} (u : Fin L → ℝ) (h : B.length ≤ L) :
    Match B (List.ofFn u) ↔ ∀ i : Fin L, (hi : i.1 < B.length) → B[i.1].1 < u i ∧ u i ≤ B[i.1].2 := by
  induction B generalizing L with
  | nil => simp [Match]
  | cons b B ih =>
    cases L with
    | zero => simp at h
    | succ L =>
      rw [List.ofFn_succ, Match, ih _ (by simpa using h), Fin.forall_fin_succ]
      simp

section
variable (N : ℤ) (fuel passes ncol : ℕ) (rt ct : ℕ → ℤ)

/-- Row remainder, column remainder and block total when the entry of row `l`, column `m` is drawn. -/
def rowRem (X : ℕ → ℕ → ℤ) (l m : ℕ) : ℤ := rt l - ∑ j ∈ range m, X l j
def blockTot (X : ℕ → ℕ → ℤ) (l m : ℕ) : ℤ := ∑ j ∈ Ico m ncol, left ct X l j

/-- The probability of the entry drawn at row `l`, column `m` of the table `X`. -/
noncomputable def cellP (X : ℕ → ℕ → ℤ) (l m : ℕ) : ℝ := hyp (rowRem rt X l m) (left ct X l m) (blockTot ncol ct X l m) (X l m)

/-- The numbers that lead to the entry, none when no number is drawn. -/
noncomputable def box (X : ℕ → ℕ → ℤ) (t : ℕ) : Option (ℝ × ℝ) :=
  let l := t / (ncol - 1)
  let m := t % (ncol - 1)
  if blockTot ncol ct X l m = 0 then none else
    some (cut N fuel passes (rowRem rt X l m) (left ct X l m) (blockTot ncol ct X l m) (X l m),
      cut N fuel passes (rowRem rt X l m) (left ct X l m) (blockTot ncol ct X l m) (X l m) + cellP ncol rt ct X l m)

/-- The boxes of the first `t` entries. -/
noncomputable def boxes (X : ℕ → ℕ → ℤ) (t : ℕ) : List (ℝ × ℝ) := (List.range t).filterMap (box N fuel passes ncol rt ct X)

variable {N fuel passes ncol rt ct}

theorem boxes_succ (X : ℕ → ℕ → ℤ) (t : ℕ) : boxes N fuel passes ncol rt ct X (t + 1) =
    boxes N fuel passes ncol rt ct X t ++ (box N fuel passes ncol rt ct X t).toList := by
  unfold boxes
  rw [List.range_succ, List.filterMap_append]
  cases h : box N fuel passes ncol rt ct X t <;> simp [h]

theorem boxes_length (X : ℕ → ℕ → ℤ) (t : ℕ) : (boxes N fuel passes ncol rt ct X t).length ≤ t := by
  unfold boxes
  exact (List.length_filterMap_le _ _).trans (by simp)

theorem left_congr {X X' : ℕ → ℕ → ℤ} {l j : ℕ} (h : ∀ l' < l, X l' j = X' l' j) : left ct X l j = left ct X' l j := by
  unfold left
  rw [Finset.sum_congr rfl fun l' hl' => h l' (mem_range.1 hl')]

theorem box_congr {X X' : ℕ → ℕ → ℤ} {t : ℕ}
    (h : ∀ l' j, l' < t / (ncol - 1) ∧ j < ncol ∨ l' = t / (ncol - 1) ∧ j ≤ t % (ncol - 1) → X l' j = X' l' j)
    (hm : t % (ncol - 1) < ncol) : box N fuel passes ncol rt ct X t = box N fuel passes ncol rt ct X' t := by
  have e1 : ∀ j < ncol, left ct X (t / (ncol - 1)) j = left ct X' (t / (ncol - 1)) j := fun j hj =>
    left_congr fun l' hl' => h l' j (.inl ⟨hl', hj⟩)
  have e2 : blockTot ncol ct X (t / (ncol - 1)) (t % (ncol - 1)) = blockTot ncol ct X' (t / (ncol - 1)) (t % (ncol - 1)) := by
    unfold blockTot
    exact Finset.sum_congr rfl fun j hj => e1 j (by simp only [mem_Ico] at hj; omega)
  have e3 : rowRem rt X (t / (ncol - 1)) (t % (ncol - 1)) = rowRem rt X' (t / (ncol - 1)) (t % (ncol - 1)) := by
    unfold rowRem
    rw [Finset.sum_congr rfl fun j hj => h _ j (.inr ⟨rfl, (mem_range.1 hj).le⟩)]
  have e4 := h _ _ (.inr ⟨rfl, le_rfl⟩)
  simp only [box, cellP]
  rw [e1 _ hm, e2, e3, e4]

theorem boxes_congr {X X' : ℕ → ℕ → ℤ} {l m : ℕ} (hc : 2 ≤ ncol) (hm : m ≤ ncol - 1)
    (h : ∀ l' j, l' < l ∧ j < ncol ∨ l' = l ∧ j < m → X l' j = X' l' j) :
    boxes N fuel passes ncol rt ct X (l * (ncol - 1) + m) = boxes N fuel passes ncol rt ct X' (l * (ncol - 1) + m) := by
  unfold boxes
  refine List.filterMap_congr fun i hi => ?_
  rw [List.mem_range] at hi
  have h1 : i % (ncol - 1) < ncol - 1 := Nat.mod_lt _ (by omega)
  have h2 := Nat.div_add_mod i (ncol - 1)
  have h3 : i / (ncol - 1) < l ∨ i / (ncol - 1) = l ∧ i % (ncol - 1) < m := by
    rcases Nat.lt_trichotomy (i / (ncol - 1)) l with h3 | h3 | h3
    · exact .inl h3
    · rw [h3, mul_comm] at h2
      exact .inr ⟨h3, by omega⟩
    · have := Nat.mul_le_mul_right (ncol - 1) h3
      rw [Nat.succ_mul] at this
      rw [mul_comm] at h2
      omega
  refine box_congr (fun l' j hj => h l' j ?_) (by omega)
  omega

/-- What is known about the tape when the entries `X` up to column `m` of row `l` have been drawn. -/
def TapeInv (N : ℤ) (fuel passes ncol : ℕ) (rt ct : ℕ → ℤ) (u : List ℝ) (l m : ℕ) (X : ℕ → ℕ → ℤ) (s : List ℝ) : Prop :=
  m ≤ ncol - 1 ∧ s = u.drop (boxes N fuel passes ncol rt ct X (l * (ncol - 1) + m)).length ∧
    Match (boxes N fuel passes ncol rt ct X (l * (ncol - 1) + m)) u

theorem tape_spec {nrow : ℕ} (hN : N ≤ 46340) (hf : N + 1 ≤ fuel) (hp : 1 ≤ passes) (hc : 2 ≤ ncol) {u : List ℝ}
    (hu : ∀ v ∈ u, 0 < v ∧ v ≤ 1) (hL : (nrow - 1) * (ncol - 1) ≤ u.length) :
    CellSpec exactOps tape (factTable exactOps N) fuel passes N True nrow ncol rt ct (TapeInv N fuel passes ncol rt ct u) := by
  constructor
  · rintro l m X X' s h ⟨h1, h2, h3⟩
    rw [boxes_congr hc h1 h] at h2 h3
    exact ⟨h1, h2, h3⟩
  · rintro l m X s hl hm hcp ⟨h1, h2, h3⟩
    obtain ⟨g1, g2⟩ := cut_spec hcp hN hf hp
    have hlen := boxes_length (N := N) (fuel := fuel) (passes := passes) (ncol := ncol) (rt := rt) (ct := ct) X (l * (ncol - 1) + m)
    have hlt : l * (ncol - 1) + m < (nrow - 1) * (ncol - 1) := by
      have := Nat.mul_le_mul_right (ncol - 1) (show l + 1 ≤ nrow - 1 by omega)
      rw [Nat.succ_mul] at this
      omega
    set B := boxes N fuel passes ncol rt ct X (l * (ncol - 1) + m) with hB
    have hBu : B.length < u.length := by omega
    have hs : s = u[B.length] :: u.drop (B.length + 1) := by rw [h2, List.drop_eq_getElem_cons hBu]
    obtain ⟨v0, v1⟩ := hu _ (List.getElem_mem hBu)
    obtain ⟨k, k1, k2, k3⟩ := g2 _ v0 v1
    obtain ⟨f1, f2, f3⟩ := g1 k k1
    unfold drawCell
    rw [hs]
    simp only [tape, bind, Except.bind]
    rw [f3 _ k2 k3]
    refine ⟨k1, by omega, ?_⟩
    set X' : ℕ → ℕ → ℤ := fun l' j => if l' = l ∧ j = m then k else X l' j with hX'
    have e1 : l * (ncol - 1) + (m + 1) = (l * (ncol - 1) + m) + 1 := by ring
    have e2 : boxes N fuel passes ncol rt ct X' (l * (ncol - 1) + m) = B := by
      rw [hB]
      refine boxes_congr hc h1 fun l' j h => ?_
      simp only [hX']
      rw [if_neg (by omega)]
    have d1 : (l * (ncol - 1) + m) / (ncol - 1) = l := by
      rw [mul_comm, Nat.mul_add_div (by omega), Nat.div_eq_of_lt hm, add_zero]
    have d2 : (l * (ncol - 1) + m) % (ncol - 1) = m := by
      rw [mul_comm, Nat.mul_add_mod, Nat.mod_eq_of_lt hm]
    have r1 : rowRem rt X' l m = rt l - ∑ j ∈ range m, X l j := by
      unfold rowRem
      congr 1
      refine Finset.sum_congr rfl fun j hj => ?_
      simp only [mem_range] at hj
      simp only [hX']
      rw [if_neg (by omega)]
    have r2 : ∀ j, left ct X' l j = left ct X l j := fun j => left_congr fun l' hl' => by
      simp only [hX']
      rw [if_neg (by omega)]
    have r3 : blockTot ncol ct X' l m = ∑ j ∈ Ico m ncol, left ct X l j := by
      unfold blockTot
      simp only [r2]
    have r4 : X' l m = k := by simp [hX']
    have e3 : box N fuel passes ncol rt ct X' (l * (ncol - 1) + m) =
        some (cut N fuel passes (rt l - ∑ j ∈ range m, X l j) (left ct X l m) (∑ j ∈ Ico m ncol, left ct X l j) k,
          cut N fuel passes (rt l - ∑ j ∈ range m, X l j) (left ct X l m) (∑ j ∈ Ico m ncol, left ct X l j) k +
            hyp (rt l - ∑ j ∈ range m, X l j) (left ct X l m) (∑ j ∈ Ico m ncol, left ct X l j) k) := by
      simp only [box, cellP, d1, d2, r1, r2, r3, r4]
      rw [if_neg hcp.ie_pos.ne']
    rw [e1, boxes_succ, e2, e3]
    refine ⟨by simp, (Match_append _ _ _).2 ⟨h3, ?_⟩⟩
    rw [← h2, hs]
    exact ⟨⟨k2, k3⟩, trivial⟩
  · rintro l m X s hl hm hw ⟨h1, h2, h3⟩
    set X' : ℕ → ℕ → ℤ := fun l' j => if l' = l ∧ m ≤ j then 0 else X l' j with hX'
    have key : ∀ i, m + i ≤ ncol - 1 → boxes N fuel passes ncol rt ct X' (l * (ncol - 1) + (m + i)) =
        boxes N fuel passes ncol rt ct X (l * (ncol - 1) + m) := by
      intro i hi
      induction i with
      | zero =>
        refine boxes_congr hc h1 fun l' j h => ?_
        simp only [hX']
        rw [if_neg (by omega)]
      | succ i ih =>
        have e1 : l * (ncol - 1) + (m + (i + 1)) = (l * (ncol - 1) + (m + i)) + 1 := by ring
        have hmi : m + i < ncol - 1 := by omega
        have d1 : (l * (ncol - 1) + (m + i)) / (ncol - 1) = l := by
          rw [mul_comm, Nat.mul_add_div (by omega), Nat.div_eq_of_lt hmi, add_zero]
        have d2 : (l * (ncol - 1) + (m + i)) % (ncol - 1) = m + i := by
          rw [mul_comm, Nat.mul_add_mod, Nat.mod_eq_of_lt hmi]
        have r3 : blockTot ncol ct X' l (m + i) = 0 := by
          unfold blockTot
          refine Finset.sum_eq_zero fun j hj => ?_
          simp only [mem_Ico] at hj
          rw [← hw j (by omega) hj.2]
          refine left_congr fun l' hl' => ?_
          simp only [hX']
          rw [if_neg (by omega)]
        have e3 : box N fuel passes ncol rt ct X' (l * (ncol - 1) + (m + i)) = none := by
          simp only [box, d1, d2]
          rw [if_pos r3]
        rw [e1, boxes_succ, ih (by omega), e3]
        simp
    have k := key (ncol - 1 - m) (by omega)
    rw [show m + (ncol - 1 - m) = ncol - 1 by omega] at k
    refine ⟨le_rfl, ?_, ?_⟩
    · rw [k]; exact h2
    · rw [k]; exact h3
  · rintro l X s hl ⟨h1, h2, h3⟩
    refine ⟨by omega, ?_, ?_⟩
    · rw [h2]; congr 3; ring
    · rw [show (l + 1) * (ncol - 1) + 0 = l * (ncol - 1) + (ncol - 1) by ring]; exact h3

/-- A table with the given totals. -/
structure IsTab (nrow ncol : ℕ) (rt ct : ℕ → ℤ) (X : ℕ → ℕ → ℤ) : Prop where
  nonneg : ∀ l < nrow, ∀ j < ncol, 0 ≤ X l j
  rows : ∀ l < nrow, ∑ j ∈ range ncol, X l j = rt l
  cols : ∀ j < ncol, ∑ l ∈ range nrow, X l j = ct j

variable {nrow : ℕ} {X : ℕ → ℕ → ℤ}

theorem IsTab.rowRem_eq (h : IsTab nrow ncol rt ct X) {l m : ℕ} (hl : l < nrow) (hm : m ≤ ncol) :
    rowRem rt X l m = ∑ j ∈ Ico m ncol, X l j := by
  unfold rowRem
  rw [← h.rows l hl, Finset.sum_Ico_eq_sub _ hm]

theorem IsTab.left_eq (h : IsTab nrow ncol rt ct X) {l j : ℕ} (hl : l ≤ nrow) (hj : j < ncol) :
    left ct X l j = ∑ l' ∈ Ico l nrow, X l' j := by
  unfold left
  rw [← h.cols j hj, Finset.sum_Ico_eq_sub _ hl]

theorem IsTab.left_nonneg (h : IsTab nrow ncol rt ct X) {l j : ℕ} (hl : l ≤ nrow) (hj : j < ncol) : 0 ≤ left ct X l j := by
  rw [h.left_eq hl hj]
  exact Finset.sum_nonneg fun l' hl' => h.nonneg l' (mem_Ico.1 hl').2 j hj

/-- The quantities of one cell in terms of four blocks of the table. -/
theorem IsTab.blocks (h : IsTab nrow ncol rt ct X) {l m : ℕ} (hl : l < nrow) (hm : m < ncol) :
    ∃ p q t : ℤ, 0 ≤ X l m ∧ 0 ≤ p ∧ 0 ≤ q ∧ 0 ≤ t ∧ rowRem rt X l m = X l m + p ∧ left ct X l m = X l m + q ∧
      blockTot ncol ct X l m = X l m + p + q + t ∧ rowRem rt X l (m + 1) = p ∧ left ct X (l + 1) m = q ∧
      blockTot ncol ct X l (m + 1) = p + t := by
  refine ⟨∑ j ∈ Ico (m + 1) ncol, X l j, ∑ l' ∈ Ico (l + 1) nrow, X l' m,
    ∑ j ∈ Ico (m + 1) ncol, ∑ l' ∈ Ico (l + 1) nrow, X l' j, h.nonneg l hl m hm,
    Finset.sum_nonneg fun j hj => h.nonneg l hl j (mem_Ico.1 hj).2,
    Finset.sum_nonneg fun l' hl' => h.nonneg l' (mem_Ico.1 hl').2 m hm,
    Finset.sum_nonneg fun j hj => Finset.sum_nonneg fun l' hl' => h.nonneg l' (mem_Ico.1 hl').2 j (mem_Ico.1 hj).2, ?_, ?_, ?_, ?_, ?_, ?_⟩
  · rw [h.rowRem_eq hl hm.le, Finset.sum_eq_sum_Ico_succ_bot hm]
  · rw [h.left_eq hl.le hm, Finset.sum_eq_sum_Ico_succ_bot hl]
  · unfold blockTot
    rw [Finset.sum_eq_sum_Ico_succ_bot hm, h.left_eq hl.le hm, Finset.sum_eq_sum_Ico_succ_bot hl]
    have : ∑ j ∈ Ico (m + 1) ncol, left ct X l j = ∑ j ∈ Ico (m + 1) ncol, X l j +
        ∑ j ∈ Ico (m + 1) ncol, ∑ l' ∈ Ico (l + 1) nrow, X l' j := by
      rw [← Finset.sum_add_distrib]
      refine Finset.sum_congr rfl fun j hj => ?_
      rw [h.left_eq hl.le (mem_Ico.1 hj).2, Finset.sum_eq_sum_Ico_succ_bot hl]
    rw [this]; ring
  · rw [h.rowRem_eq hl hm]
  · rw [h.left_eq hl hm]
  · unfold blockTot
    rw [← Finset.sum_add_distrib]
    refine Finset.sum_congr rfl fun j hj => ?_
    rw [h.left_eq hl.le (mem_Ico.1 hj).2, Finset.sum_eq_sum_Ico_succ_bot hl]

theorem IsTab.feas (h : IsTab nrow ncol rt ct X) {l m : ℕ} (hl : l < nrow) (hm : m < ncol) :
    Feas (rowRem rt X l m) (left ct X l m) (blockTot ncol ct X l m) (X l m) := by
  obtain ⟨p, q, t, h0, h1, h2, h3, e1, e2, e3, -⟩ := h.blocks hl hm
  rw [e1, e2, e3]
  exact ⟨by omega, by omega, by omega, by omega⟩

theorem IsTab.blockTot_le (h : IsTab nrow ncol rt ct X) {l m : ℕ} (hl : l < nrow) (_hm : m < ncol)
    (hct : ∑ j ∈ range ncol, ct j = N) : blockTot ncol ct X l m ≤ N := by
  unfold blockTot
  have h1 : ∑ j ∈ Ico m ncol, left ct X l j ≤ ∑ j ∈ range ncol, left ct X l j := by
    rw [Finset.range_eq_Ico]
    refine Finset.sum_le_sum_of_subset_of_nonneg (fun j hj => ?_) fun j hj _ => h.left_nonneg hl.le (mem_Ico.1 hj).2
    simp only [mem_Ico] at hj ⊢; omega
  refine h1.trans ?_
  rw [← hct]
  refine Finset.sum_le_sum fun j hj => ?_
  unfold left
  have : 0 ≤ ∑ l' ∈ range l, X l' j := Finset.sum_nonneg fun l' hl' =>
    h.nonneg l' (by have := mem_range.1 hl'; omega) j (mem_range.1 hj)
  omega

theorem IsTab.pre (h : IsTab nrow ncol rt ct X) {l m : ℕ} (hl : l < nrow) (hm : m < ncol)
    (hct : ∑ j ∈ range ncol, ct j = N) (hpos : blockTot ncol ct X l m ≠ 0) :
    CellPre N (rowRem rt X l m) (left ct X l m) (blockTot ncol ct X l m) := by
  have hle := h.blockTot_le hl hm hct
  obtain ⟨p, q, t, h0, h1, h2, h3, e1, e2, e3, -⟩ := h.blocks hl hm
  rw [e3] at hpos hle
  rw [e1, e2, e3]
  exact ⟨by omega, by omega, by omega, by omega, by omega, hle⟩

/-- A tape matches the boxes of one table only. -/
theorem boxes_unique (hN : N ≤ 46340) (hf : N + 1 ≤ fuel) (hp : 1 ≤ passes) (hc : 2 ≤ ncol)
    (hct : ∑ j ∈ range ncol, ct j = N) {X X' : ℕ → ℕ → ℤ} (hX : IsTab nrow ncol rt ct X) (hX' : IsTab nrow ncol rt ct X') {u : List ℝ}
    (t : ℕ) (ht : t ≤ (nrow - 1) * (ncol - 1)) (h : Match (boxes N fuel passes ncol rt ct X t) u)
    (h' : Match (boxes N fuel passes ncol rt ct X' t) u) :
    ∀ i < t, X (i / (ncol - 1)) (i % (ncol - 1)) = X' (i / (ncol - 1)) (i % (ncol - 1)) := by
  induction t with
  | zero => intro i hi; omega
  | succ t ih =>
    rw [boxes_succ, Match_append] at h h'
    have ih' := ih (by omega) h.1 h'.1
    set l := t / (ncol - 1) with hl
    set m := t % (ncol - 1) with hm
    have hdm := Nat.div_add_mod t (ncol - 1)
    rw [← hl, ← hm] at hdm
    have hmlt : m < ncol - 1 := Nat.mod_lt _ (by omega)
    have hllt : l < nrow - 1 := Nat.div_lt_of_lt_mul (by rw [mul_comm]; omega)
    -- all entries before agree
    have hcell : ∀ l' j, j < ncol - 1 → l' < l ∨ l' = l ∧ j < m → X l' j = X' l' j := by
      intro l' j hj hlt
      have hi : l' * (ncol - 1) + j < t := by
        rcases hlt with hlt | ⟨rfl, hlt⟩
        · have := Nat.mul_le_mul_right (ncol - 1) (show l' + 1 ≤ l by omega)
          rw [Nat.succ_mul] at this
          rw [mul_comm] at hdm
          omega
        · rw [mul_comm] at hdm; omega
      have := ih' _ hi
      have d1 : (l' * (ncol - 1) + j) / (ncol - 1) = l' := by
        rw [mul_comm, Nat.mul_add_div (by omega), Nat.div_eq_of_lt hj, add_zero]
      have d2 : (l' * (ncol - 1) + j) % (ncol - 1) = j := by
        rw [mul_comm, Nat.mul_add_mod, Nat.mod_eq_of_lt hj]
      rwa [d1, d2] at this
    have hall : ∀ l' j, l' < l ∧ j < ncol ∨ l' = l ∧ j < m → X l' j = X' l' j := by
      intro l' j hlj
      by_cases hj : j < ncol - 1
      · exact hcell l' j hj (by omega)
      · have hl' : l' < l := by omega
        have hj' : j = ncol - 1 := by omega
        subst hj'
        have r1 := hX.rows l' (by omega)
        have r2 := hX'.rows l' (by omega)
        rw [show ncol = ncol - 1 + 1 by omega, Finset.sum_range_succ] at r1 r2
        have : ∑ j ∈ range (ncol - 1), X l' j = ∑ j ∈ range (ncol - 1), X' l' j :=
          Finset.sum_congr rfl fun j hj => hcell l' j (mem_range.1 hj) (.inl hl')
        omega
    have eB : boxes N fuel passes ncol rt ct X t = boxes N fuel passes ncol rt ct X' t := by
      have := boxes_congr (N := N) (fuel := fuel) (passes := passes) (rt := rt) (ct := ct) hc hmlt.le hall
      rwa [mul_comm, hdm] at this
    have e1 : ∀ j < ncol, left ct X l j = left ct X' l j := fun j hj => left_congr fun l' hl' => hall l' j (.inl ⟨hl', hj⟩)
    have e2 : blockTot ncol ct X l m = blockTot ncol ct X' l m :=
      Finset.sum_congr rfl fun j hj => e1 j (mem_Ico.1 hj).2
    have e3 : rowRem rt X l m = rowRem rt X' l m := by
      unfold rowRem
      rw [Finset.sum_congr rfl fun j hj => hall _ j (.inr ⟨rfl, mem_range.1 hj⟩)]
    intro i hi
    rcases Nat.lt_succ_iff_lt_or_eq.1 hi with hi | rfl
    · exact ih' i hi
    rw [← hl, ← hm]
    by_cases hz : blockTot ncol ct X l m = 0
    · have hz' := e2 ▸ hz
      obtain ⟨p, q, t, h0, h1, h2, h3, -, -, e3, -⟩ := hX.blocks (show l < nrow by omega) (show m < ncol by omega)
      obtain ⟨p', q', t', h0', h1', h2', h3', -, -, e3', -⟩ := hX'.blocks (show l < nrow by omega) (show m < ncol by omega)
      omega
    · have b1 : box N fuel passes ncol rt ct X i =
          some (cut N fuel passes (rowRem rt X l m) (left ct X l m) (blockTot ncol ct X l m) (X l m),
            cut N fuel passes (rowRem rt X l m) (left ct X l m) (blockTot ncol ct X l m) (X l m) + cellP ncol rt ct X l m) := by
        simp only [box, ← hl, ← hm]
        rw [if_neg hz]
      have b2 : box N fuel passes ncol rt ct X' i =
          some (cut N fuel passes (rowRem rt X l m) (left ct X l m) (blockTot ncol ct X l m) (X' l m),
            cut N fuel passes (rowRem rt X l m) (left ct X l m) (blockTot ncol ct X l m) (X' l m) +
              hyp (rowRem rt X l m) (left ct X l m) (blockTot ncol ct X l m) (X' l m)) := by
        rw [e2, e3, e1 m (by omega)]
        simp only [box, cellP, ← hl, ← hm]
        rw [if_neg (e2 ▸ hz)]
      obtain ⟨g1, -⟩ := cut_spec (hX.pre (show l < nrow by omega) (show m < ncol by omega) hct hz) hN hf hp
      have m1 := h.2
      have m2 := h'.2
      rw [b1] at m1
      rw [b2, ← eB] at m2
      have f1 := hX.feas (show l < nrow by omega) (show m < ncol by omega)
      have f2 := hX'.feas (show l < nrow by omega) (show m < ncol by omega)
      rw [← e2, ← e3, ← e1 m (by omega)] at f2
      cases hd : u.drop (boxes N fuel passes ncol rt ct X i).length with
      | nil => rw [hd] at m1; exact m1.elim
      | cons v us =>
        rw [hd] at m1 m2
        have q1 := (g1 _ f1).2.2 v m1.1.1 m1.1.2 Unit (fun _ => .error .fuel) ()
        have q2 := (g1 _ f2).2.2 v m2.1.1 m2.1.2 Unit (fun _ => .error .fuel) ()
        rw [q1] at q2
        simpa using q2

/-- The product of the lengths of the boxes is the product of the probabilities of the entries. -/
theorem boxes_prod (X : ℕ → ℕ → ℤ) (hX : IsTab nrow ncol rt ct X) (hc : 2 ≤ ncol) (t : ℕ) (ht : t ≤ (nrow - 1) * (ncol - 1)) :
    ((boxes N fuel passes ncol rt ct X t).map fun b => b.2 - b.1).prod =
      ∏ i ∈ range t, cellP ncol rt ct X (i / (ncol - 1)) (i % (ncol - 1)) := by
  induction t with
  | zero => simp [boxes]
  | succ t ih =>
    rw [boxes_succ, List.map_append, List.prod_append, ih (by omega), Finset.prod_range_succ]
    congr 1
    have hmlt : t % (ncol - 1) < ncol - 1 := Nat.mod_lt _ (by omega)
    have hllt : t / (ncol - 1) < nrow - 1 := Nat.div_lt_of_lt_mul (by rw [mul_comm]; omega)
    by_cases hz : blockTot ncol ct X (t / (ncol - 1)) (t % (ncol - 1)) = 0
    · have : box N fuel passes ncol rt ct X t = none := by simp only [box]; rw [if_pos hz]
      rw [this]
      obtain ⟨p, q, t', h0, h1, h2, h3, e1, e2, e3, -⟩ := hX.blocks (show t / (ncol - 1) < nrow by omega)
        (show t % (ncol - 1) < ncol by omega)
      have z1 : X (t / (ncol - 1)) (t % (ncol - 1)) = 0 := by omega
      unfold cellP hyp
      rw [e1, e2, e3, z1, show p = 0 by omega, show q = 0 by omega, show t' = 0 by omega]
      simp [fz]
    · simp only [box]
      rw [if_neg hz]
      simp

/-- The boxes lie in the unit interval. -/
theorem boxes_unit (hN : N ≤ 46340) (hf : N + 1 ≤ fuel) (hp : 1 ≤ passes) (hc : 2 ≤ ncol)
    (hct : ∑ j ∈ range ncol, ct j = N) (hX : IsTab nrow ncol rt ct X) {b : ℝ × ℝ}
    (hb : b ∈ boxes N fuel passes ncol rt ct X ((nrow - 1) * (ncol - 1))) : 0 ≤ b.1 ∧ b.1 ≤ b.2 ∧ b.2 ≤ 1 := by
  unfold boxes at hb
  obtain ⟨t, ht, hbt⟩ := List.mem_filterMap.1 hb
  rw [List.mem_range] at ht
  have hmlt : t % (ncol - 1) < ncol - 1 := Nat.mod_lt _ (by omega)
  have hllt : t / (ncol - 1) < nrow - 1 := Nat.div_lt_of_lt_mul (by rw [mul_comm]; omega)
  simp only [box] at hbt
  split at hbt
  · simp at hbt
  · next hz =>
    simp only [Option.some.injEq] at hbt
    obtain ⟨g1, -⟩ := cut_spec (hX.pre (show t / (ncol - 1) < nrow by omega) (show t % (ncol - 1) < ncol by omega) hct hz) hN hf hp
    obtain ⟨q1, q2, -⟩ := g1 _ (hX.feas (show t / (ncol - 1) < nrow by omega) (show t % (ncol - 1) < ncol by omega))
    subst hbt
    have := hyp_pos (rowRem rt X (t / (ncol - 1)) (t % (ncol - 1))) (left ct X (t / (ncol - 1)) (t % (ncol - 1)))
      (blockTot ncol ct X (t / (ncol - 1)) (t % (ncol - 1))) (X (t / (ncol - 1)) (t % (ncol - 1)))
    exact ⟨q1, by simp only [cellP]; linarith, q2⟩

/-- The probability of one row, given the rows above. -/
theorem row_prod (hX : IsTab nrow ncol rt ct X) {l : ℕ} (hl : l < nrow) (m : ℕ) (hm : m ≤ ncol) :
    ∏ j ∈ range m, cellP ncol rt ct X l j =
      fz (rt l) * fz (blockTot ncol ct X l 0 - rt l) / fz (blockTot ncol ct X l 0) *
        (fz (blockTot ncol ct X l m) / (fz (rowRem rt X l m) * fz (blockTot ncol ct X l m - rowRem rt X l m))) *
        ∏ j ∈ range m, fz (left ct X l j) / (fz (X l j) * fz (left ct X (l + 1) j)) := by
  have p := fun k => (fz_pos k).ne'
  induction m with
  | zero =>
    have : rowRem rt X l 0 = rt l := by simp [rowRem]
    simp only [range_zero, Finset.prod_empty, mul_one, this]
    have := p (rt l); have := p (blockTot ncol ct X l 0 - rt l); have := p (blockTot ncol ct X l 0)
    field_simp
  | succ m ih =>
    rw [Finset.prod_range_succ, ih (by omega), Finset.prod_range_succ]
    obtain ⟨a, q, t, h0, h1, h2, h3, e1, e2, e3, e4, e5, e6⟩ := hX.blocks hl (show m < ncol by omega)
    unfold cellP hyp
    rw [e1, e2, e3, e4, e5, e6]
    have s1 : X l m + a + q + t - (X l m + a) = q + t := by ring
    have s2 : X l m + a + q + t - (X l m + q) = a + t := by ring
    have s3 : X l m + q - X l m = q := by ring
    have s4 : X l m + a - X l m = a := by ring
    have s5 : q + t - (X l m + q) + X l m = t := by ring
    have s6 : a + t - a = t := by ring
    rw [s1, s2, s3, s4, s5, s6]
    have := p (X l m + a); have := p (q + t); have := p (a + t); have := p (X l m + q); have := p (X l m + a + q + t)
    have := p (X l m); have := p q; have := p a; have := p t
    field_simp

theorem row_prod_all (hX : IsTab nrow ncol rt ct X) (hc : 2 ≤ ncol) {l : ℕ} (hl : l < nrow) :
    ∏ j ∈ range (ncol - 1), cellP ncol rt ct X l j =
      fz (rt l) * fz (blockTot ncol ct X (l + 1) 0) / fz (blockTot ncol ct X l 0) *
        ∏ j ∈ range ncol, fz (left ct X l j) / (fz (X l j) * fz (left ct X (l + 1) j)) := by
  rw [row_prod hX hl (ncol - 1) (by omega)]
  have e0 : blockTot ncol ct X l 0 - rt l = blockTot ncol ct X (l + 1) 0 := by
    unfold blockTot
    rw [← hX.rows l hl, Finset.range_eq_Ico, ← Finset.sum_sub_distrib]
    refine Finset.sum_congr rfl fun j _ => ?_
    unfold left
    rw [Finset.sum_range_succ]; ring
  have e1 : blockTot ncol ct X l (ncol - 1) = left ct X l (ncol - 1) := by
    unfold blockTot
    have : Ico (ncol - 1) ncol = {ncol - 1} := by ext j; simp only [mem_Ico, mem_singleton]; omega
    rw [this, Finset.sum_singleton]
  have e2 : rowRem rt X l (ncol - 1) = X l (ncol - 1) := by
    rw [hX.rowRem_eq hl (by omega)]
    have : Ico (ncol - 1) ncol = {ncol - 1} := by ext j; simp only [mem_Ico, mem_singleton]; omega
    rw [this, Finset.sum_singleton]
  have e3 : left ct X l (ncol - 1) - X l (ncol - 1) = left ct X (l + 1) (ncol - 1) := by
    unfold left
    rw [Finset.sum_range_succ]; ring
  rw [e0, e1, e2, e3]
  have e4 : ∏ j ∈ range ncol, fz (left ct X l j) / (fz (X l j) * fz (left ct X (l + 1) j)) =
      (∏ j ∈ range (ncol - 1), fz (left ct X l j) / (fz (X l j) * fz (left ct X (l + 1) j))) *
        (fz (left ct X l (ncol - 1)) / (fz (X l (ncol - 1)) * fz (left ct X (l + 1) (ncol - 1)))) := by
    have := Finset.prod_range_succ (fun j => fz (left ct X l j) / (fz (X l j) * fz (left ct X (l + 1) j))) (ncol - 1)
    rwa [show ncol - 1 + 1 = ncol by omega] at this
  rw [e4]
  ring

theorem rows_prod (hX : IsTab nrow ncol rt ct X) (hc : 2 ≤ ncol) (l : ℕ) (hl : l ≤ nrow) :
    ∏ i ∈ range (l * (ncol - 1)), cellP ncol rt ct X (i / (ncol - 1)) (i % (ncol - 1)) =
      (∏ i ∈ range l, fz (rt i)) * (fz (blockTot ncol ct X l 0) / fz (blockTot ncol ct X 0 0)) *
        ∏ j ∈ range ncol, (fz (ct j) / (fz (left ct X l j) * ∏ i ∈ range l, fz (X i j))) := by
  have p := fun k => (fz_pos k).ne'
  induction l with
  | zero =>
    have : ∀ j, left ct X 0 j = ct j := fun j => by simp [left]
    simp [this, p]
  | succ l ih =>
    rw [Nat.succ_mul, Finset.prod_range_add, ih (by omega)]
    have e : ∏ x ∈ range (ncol - 1), cellP ncol rt ct X ((l * (ncol - 1) + x) / (ncol - 1)) ((l * (ncol - 1) + x) % (ncol - 1)) =
        ∏ x ∈ range (ncol - 1), cellP ncol rt ct X l x := by
      refine Finset.prod_congr rfl fun j hj => ?_
      have hj := mem_range.1 hj
      have d1 : (l * (ncol - 1) + j) / (ncol - 1) = l := by
        rw [mul_comm, Nat.mul_add_div (by omega), Nat.div_eq_of_lt hj, add_zero]
      have d2 : (l * (ncol - 1) + j) % (ncol - 1) = j := by
        rw [mul_comm, Nat.mul_add_mod, Nat.mod_eq_of_lt hj]
      rw [d1, d2]
    rw [e, row_prod_all hX hc (by omega), Finset.prod_range_succ]
    have e2 : ∏ j ∈ range ncol, (fz (ct j) / (fz (left ct X (l + 1) j) * ∏ i ∈ range (l + 1), fz (X i j))) =
        (∏ j ∈ range ncol, (fz (ct j) / (fz (left ct X l j) * ∏ i ∈ range l, fz (X i j)))) *
          ∏ j ∈ range ncol, fz (left ct X l j) / (fz (X l j) * fz (left ct X (l + 1) j)) := by
      rw [← Finset.prod_mul_distrib]
      refine Finset.prod_congr rfl fun j _ => ?_
      rw [Finset.prod_range_succ]
      have q : ∏ i ∈ range l, fz (X i j) ≠ 0 := Finset.prod_ne_zero_iff.2 fun i _ => p _
      have := p (left ct X (l + 1) j); have := p (left ct X l j); have := p (X l j)
      field_simp
    rw [e2]
    have := p (blockTot ncol ct X l 0); have := p (blockTot ncol ct X 0 0)
    field_simp

end

end Phik
