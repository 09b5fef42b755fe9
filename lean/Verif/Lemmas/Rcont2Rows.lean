import Verif.Lemmas.Rcont2Pass
import Mathlib.Algebra.BigOperators.Intervals
import Mathlib.Algebra.Order.BigOperators.Group.Finset
import Mathlib.Algebra.BigOperators.Group.List.Basic

/-!
# The loops over columns and rows of `rcont2` (asa159.cpp:612-778)
-/

namespace Phik

open Finset

/-- Entry `(l, j)` of the column-major buffer, `none` if unset or out of range. -/
def at2 (mat : List (Option ℤ)) (nrow l j : ℕ) : Option ℤ := (mat[l + j * nrow]?).join

theorem idx_lt {nrow ncol l j : ℕ} (hl : l < nrow) (hj : j < ncol) :
    l + j * nrow < nrow * ncol := by
  have : (j + 1) * nrow ≤ ncol * nrow := Nat.mul_le_mul_right _ hj
  nlinarith

theorem idx_inj {nrow l j l' j' : ℕ} (hl : l < nrow) (hl' : l' < nrow)
    (h : l + j * nrow = l' + j' * nrow) : l = l' ∧ j = j' := by
  have h1 : (l + j * nrow) % nrow = (l' + j' * nrow) % nrow := by rw [h]
  simp only [Nat.add_mul_mod_self_right, Nat.mod_eq_of_lt hl, Nat.mod_eq_of_lt hl'] at h1
  subst h1
  have h2 : j * nrow = j' * nrow := by omega
  exact ⟨rfl, Nat.eq_of_mul_eq_mul_right (by omega) h2⟩

theorem wr_nat {a : List (Option ℤ)} {i : ℕ} {v : ℤ} (h : i < a.length) :
    wr a (i : ℤ) v = .ok (a.set i (some v)) := by
  unfold wr
  rw [if_pos ⟨by omega, by simpa using h⟩]
  simp

theorem at2_set {mat : List (Option ℤ)} {nrow ncol l j l' j' : ℕ} {v : ℤ}
    (hlen : mat.length = nrow * ncol) (hl : l < nrow) (hj : j < ncol) (hl' : l' < nrow) :
    at2 (mat.set (l + j * nrow) (some v)) nrow l' j' =
      if l' = l ∧ j' = j then some v else at2 mat nrow l' j' := by
  unfold at2
  rw [List.getElem?_set]
  split
  · rename_i h
    obtain ⟨rfl, rfl⟩ := idx_inj hl hl' h
    rw [if_pos (by rw [hlen]; exact idx_lt hl hj)]
    simp
  · rename_i h
    rw [if_neg]
    rintro ⟨rfl, rfl⟩
    exact h rfl

theorem rdO_nat {a : List (Option ℤ)} {i : ℕ} {v : ℤ} (h : a[i]? = some (some v)) :
    rdO a (i : ℤ) = .ok v := by
  obtain ⟨h1, h2⟩ := List.getElem?_eq_some_iff.1 h
  unfold rdO
  rw [rd_nat h1, h2]
  rfl

theorem idx_int32 {N : ℤ} {nrow ncol l j : ℕ} (hr : (nrow : ℤ) ≤ N) (hcN : (ncol : ℤ) ≤ N)
    (hl : l < nrow) (hj : j < ncol) (hN : N ≤ 46340) :
    inInt32 ((j : ℤ) * nrow) ∧ inInt32 ((l : ℤ) + (j : ℤ) * nrow) := by
  have h1 : (nrow : ℤ) * ncol ≤ 2147395600 := mul_le_sq (by omega) (by omega) hr hcN hN
  have h2 := idx_lt hl hj
  have h3 : (l : ℤ) + (j : ℤ) * nrow < nrow * ncol := by exact_mod_cast h2
  have h4 : (0 : ℤ) ≤ (j : ℤ) * nrow := by positivity
  constructor <;> constructor <;> omega

section
variable {N : ℤ} {T : Prop} {nrow ncol : ℕ}

/-- Writing an entry: the two index computations and the store. -/
theorem write_post (hr : (nrow : ℤ) ≤ N) (hcN : (ncol : ℤ) ≤ N) {l j : ℕ} (hl : l < nrow)
    (hj : j < ncol) {mat : List (Option ℤ)} (hlen : mat.length = nrow * ncol) {v : ℤ} {β : Type}
    {f : List (Option ℤ) → Except Err β} {Q : β → Prop}
    (h : Post (f (mat.set (l + j * nrow) (some v))) (BadErr N T) Q) :
    Post (do let t ← int32 ((j : ℤ) * nrow)
             let ix ← int32 ((l : ℤ) + t)
             let mat ← wr mat ix v
             f mat) (BadErr N T) Q := by
  refine Post_bind' (Post_int32 (x := (j : ℤ) * nrow)
    (fun hN => (idx_int32 hr hcN hl hj hN).1)) ?_
  rintro _ rfl
  refine Post_bind' (Post_int32 (x := (l : ℤ) + (j : ℤ) * nrow)
    (fun hN => (idx_int32 hr hcN hl hj hN).2)) ?_
  rintro _ rfl
  have e : (l : ℤ) + (j : ℤ) * nrow = ((l + j * nrow : ℕ) : ℤ) := by push_cast; ring
  rw [e, wr_nat (by rw [hlen]; exact idx_lt hl hj)]
  exact h

theorem zeroFill_post (hr : (nrow : ℤ) ≤ N) (hcN : (ncol : ℤ) ≤ N) {l : ℕ} (hl : l < nrow)
    (k j : ℕ) (hk : j + k = ncol) (mat : List (Option ℤ)) (hlen : mat.length = nrow * ncol) :
    Post (zeroFill (l : ℤ) nrow k (j : ℤ) mat) (BadErr N T) (fun m' =>
      m'.length = nrow * ncol ∧ ∀ l' j', l' < nrow → j' < ncol →
        at2 m' nrow l' j' = if l' = l ∧ j ≤ j' then some 0 else at2 mat nrow l' j') := by
  induction k generalizing j mat with
  | zero =>
    refine ⟨hlen, ?_⟩
    intro l' j' _ hj'
    rw [if_neg (by omega)]
  | succ k ih =>
    unfold zeroFill
    refine write_post hr hcN hl (by omega) hlen ?_
    have e : (j : ℤ) + 1 = ((j + 1 : ℕ) : ℤ) := by push_cast; ring
    rw [e]
    refine (ih (j + 1) (by omega) _ (by simpa using hlen)).imp ?_
    rintro m' ⟨h1, h2⟩
    refine ⟨h1, ?_⟩
    intro l' j' hl' hj'
    rw [h2 l' j' hl' hj', at2_set hlen hl (by omega) hl']
    by_cases h : l' = l
    · by_cases h3 : j' = j
      · simp [h, h3]
      · by_cases h4 : j + 1 ≤ j'
        · simp [h, h4, show j ≤ j' by omega]
        · simp [h, h3, h4, show ¬ j ≤ j' by omega]
    · simp [h]

/-- Invariant of the loop over the columns of row `l` (asa159.cpp:630-763): `w j` is what is left
of column `j` before this row, `R` is the row total, `x j` the entries drawn so far; `Φ` is what is known about the random
numbers used so far. -/
structure RInv {σ : Type} (Φ : ℕ → (ℕ → ℤ) → σ → Prop) (nrow ncol l : ℕ) (w : ℕ → ℤ) (R : ℤ) (mat0 : List (Option ℤ))
    (m : ℕ) (x : ℕ → ℤ) (s : RowSt σ) : Prop where
  x_bd : ∀ j < m, 0 ≤ x j ∧ x j ≤ w j
  ia_eq : s.ia = R - ∑ j ∈ range m, x j
  ia0 : 0 ≤ s.ia
  ia_le : s.ia ≤ s.ic
  ic_eq : s.ic = ∑ j ∈ Ico m ncol, w j
  jlen : s.jwork.length = ncol
  jw : ∀ j < ncol - 1, s.jwork[j]? = some (some (if j < m then w j - x j else w j))
  mlen : s.matrix.length = nrow * ncol
  mrow : ∀ j < m, at2 s.matrix nrow l j = some (x j)
  mother : ∀ l' j, l' < nrow → j < ncol → l' ≠ l → at2 s.matrix nrow l' j = at2 mat0 nrow l' j
  seed : Φ m x s.seed
  ib : 0 < m → s.ib = some (∑ j ∈ Ico (m - 1) ncol, w j - s.ia - x (m - 1))

variable {F : Type} {O : FloatOps F} {σ : Type}

/-- The random number and the search for one entry. -/
def drawCell (O : FloatOps F) (gen : σ → Except Err (F × σ)) (fact : List F) (fuel passes : ℕ) (ia id ie : ℤ) (seed : σ) :
    Except Err (ℤ × σ) := do
  let (r, seed) ← gen seed
  cellLoop O gen fact fuel ia (ie - ia) (ie - id) id ie (ie - ia - id) passes r seed none

theorem rowLoop_post (gen : σ → Except Err (F × σ)) (fact : List F) (fuel passes : ℕ)
    (hr : (nrow : ℤ) ≤ N) (hcN : (ncol : ℤ) ≤ N) {l : ℕ} (hl : l < nrow)
    (w : ℕ → ℤ) (hw : ∀ j < ncol, 0 ≤ w j) (hwN : ∑ j ∈ range ncol, w j ≤ N) (R : ℤ)
    (mat0 : List (Option ℤ)) {Φ : ℕ → (ℕ → ℤ) → σ → Prop}
    (hcell : ∀ m x seed, m < ncol - 1 → CellPre N (R - ∑ j ∈ range m, x j) (w m) (∑ j ∈ Ico m ncol, w j) → Φ m x seed →
      Post (drawCell O gen fact fuel passes (R - ∑ j ∈ range m, x j) (w m) (∑ j ∈ Ico m ncol, w j) seed) (BadErr N T)
        fun p => Feas (R - ∑ j ∈ range m, x j) (w m) (∑ j ∈ Ico m ncol, w j) p.1 ∧
          Φ (m + 1) (fun j => if j = m then p.1 else x j) p.2)
    (hzero : ∀ m x seed, m < ncol - 1 → (∀ j, m ≤ j → j < ncol → w j = 0) → Φ m x seed →
      Φ (ncol - 1) (fun j => if j < m then x j else 0) seed)
    (k m : ℕ) (hk : m + k + 1 = ncol) (x : ℕ → ℤ) (s : RowSt σ)
    (hs : RInv Φ nrow ncol l w R mat0 m x s) :
    Post (rowLoop O gen fact fuel passes (l : ℤ) nrow ncol k (m : ℤ) s) (BadErr N T)
      (fun t => ∃ x', RInv Φ nrow ncol l w R mat0 (ncol - 1) x' t) := by
  induction k generalizing m x s with
  | zero =>
    refine ⟨x, ?_⟩
    have : ncol - 1 = m := by omega
    rw [this]; exact hs
  | succ k ih =>
    have hm : m < ncol - 1 := by omega
    unfold rowLoop
    have hjm := hs.jw m hm
    rw [if_neg (by omega)] at hjm
    rw [rdO_nat hjm]
    -- facts about sums
    have hsplit : s.ic = w m + ∑ j ∈ Ico (m + 1) ncol, w j := by
      rw [hs.ic_eq, Finset.sum_eq_sum_Ico_succ_bot (by omega)]
    have hrest : 0 ≤ ∑ j ∈ Ico (m + 1) ncol, w j :=
      Finset.sum_nonneg (fun j hj => hw j (by simp only [mem_Ico] at hj; omega))
    have hwm := hw m (by omega)
    have hicN : s.ic ≤ N := by
      rw [hs.ic_eq]
      refine le_trans ?_ hwN
      rw [Finset.range_eq_Ico]
      refine Finset.sum_le_sum_of_subset_of_nonneg ?_ ?_
      · intro j hj; simp only [mem_Ico] at hj ⊢; omega
      · intro j hj _; simp only [mem_Ico] at hj; exact hw j (by omega)
    have hia0 := hs.ia0
    have hial := hs.ia_le
    simp only [bind, Except.bind]
    refine Post_bind' (Post_int32 (x := s.ic - w m) (fun hN => ⟨by omega, by omega⟩)) ?_
    rintro _ rfl
    refine Post_bind' (Post_int32 (x := s.ic - s.ia) (fun hN => ⟨by omega, by omega⟩)) ?_
    rintro _ rfl
    refine Post_bind' (Post_int32 (x := s.ic - s.ia - w m) (fun hN => ⟨by omega, by omega⟩)) ?_
    rintro _ rfl
    split
    · -- asa159.cpp:639-648
      rename_i hie
      have e : ((ncol : ℤ) - (m : ℤ)).toNat = k + 1 + 1 := by omega
      rw [e]
      refine Post_bind' (zeroFill_post (T := T) hr hcN hl (k + 1 + 1) m (by omega) s.matrix hs.mlen) ?_
      rintro mat ⟨hm1, hm2⟩
      have hia : s.ia = 0 := by omega
      have hw0 : ∀ j, m ≤ j → j < ncol → w j = 0 := by
        have h0 : ∑ j ∈ Ico m ncol, w j = 0 := by rw [← hs.ic_eq]; exact hie
        have h1 := (Finset.sum_eq_zero_iff_of_nonneg (fun j hj => hw j
          (by simp only [mem_Ico] at hj; omega))).1 h0
        intro j hj1 hj2
        exact h1 j (by simp only [mem_Ico]; omega)
      refine ⟨fun j => if j < m then x j else 0, ?_⟩
      have hsum : ∑ j ∈ range (ncol - 1), (if j < m then x j else 0) = ∑ j ∈ range m, x j := by
        rw [← Finset.sum_filter]
        apply Finset.sum_congr _ (fun _ _ => rfl)
        ext j; simp only [mem_filter, mem_range]; omega
      constructor
      · intro j hj
        split
        · rename_i h; exact hs.x_bd j h
        · exact ⟨le_refl _, hw j (by omega)⟩
      · rw [hsum]; have := hs.ia_eq; dsimp only; omega
      · dsimp only; omega
      · dsimp only; omega
      · dsimp only
        have hw1 : ∑ j ∈ Ico (ncol - 1) ncol, w j = 0 :=
          Finset.sum_eq_zero (fun j hj => hw0 j (by simp only [mem_Ico] at hj; omega)
            (by simp only [mem_Ico] at hj; omega))
        rw [hw1, hie, hw0 m (le_refl _) (by omega)]; rfl
      · exact hs.jlen
      · intro j hj
        dsimp only
        rw [hs.jw j hj, if_pos hj]
        congr 2
        split
        · rfl
        · rw [hw0 j (by omega) (by omega)]; rfl
      · exact hm1
      · intro j hj
        dsimp only
        rw [hm2 l j hl (by omega)]
        by_cases h : j < m
        · rw [if_neg (by omega), if_pos h]; exact hs.mrow j h
        · rw [if_pos (by omega), if_neg h]
      · intro l' j hl' hj hne
        dsimp only
        rw [hm2 l' j hl' hj, if_neg (by omega)]
        exact hs.mother l' j hl' hj hne
      · exact hzero m x _ hm hw0 hs.seed
      · intro _
        dsimp only
        have hw1 : ∑ j ∈ Ico (ncol - 1 - 1) ncol, w j = 0 :=
          Finset.sum_eq_zero (fun j hj => hw0 j (by simp only [mem_Ico] at hj; omega)
            (by simp only [mem_Ico] at hj; omega))
        rw [hw1, hie, hia, if_neg (by omega)]
        simp
    · rename_i hie
      have hcp : CellPre N s.ia (w m) s.ic := ⟨hia0, hwm, hial, by omega, by omega, hicN⟩
      have hce := hcell m x s.seed hm (by rw [← hs.ia_eq, ← hs.ic_eq]; exact hcp) hs.seed
      rw [← hs.ia_eq, ← hs.ic_eq] at hce
      unfold drawCell at hce
      cases hg : gen s.seed with
      | error e => rw [hg] at hce; exact hce
      | ok q =>
      obtain ⟨r, sd⟩ := q
      rw [hg] at hce
      simp only [bind, Except.bind] at hce ⊢
      refine Post_bind' hce ?_
      rintro ⟨n, sd'⟩ ⟨hn, hsd'⟩
      dsimp only at hn hsd' ⊢
      obtain ⟨n0, n1, n2, n3⟩ := hn
      refine write_post hr hcN hl (by omega) hs.mlen ?_
      refine Post_bind' (Post_int32 (x := s.ia - n) (fun hN => ⟨by omega, by omega⟩)) ?_
      rintro _ rfl
      refine Post_bind' (Post_int32 (x := w m - n) (fun hN => ⟨by omega, by omega⟩)) ?_
      rintro _ rfl
      rw [wr_nat (by rw [hs.jlen]; omega)]
      simp only [bind, Except.bind]
      have e : (m : ℤ) + 1 = ((m + 1 : ℕ) : ℤ) := by push_cast; ring
      rw [e]
      refine ih (m + 1) (by omega) (fun j => if j = m then n else x j) _ ?_
      have hsum : ∑ j ∈ range (m + 1), (if j = m then n else x j) = ∑ j ∈ range m, x j + n := by
        rw [Finset.sum_range_succ, if_pos rfl]
        congr 1
        apply Finset.sum_congr rfl
        intro j hj
        rw [if_neg (by simp only [mem_range] at hj; omega)]
      constructor
      · intro j hj
        split
        · rename_i h; subst h; exact ⟨n0, n3⟩
        · exact hs.x_bd j (by omega)
      · rw [hsum]; have := hs.ia_eq; dsimp only; omega
      · dsimp only; omega
      · dsimp only; omega
      · dsimp only; omega
      · dsimp only; rw [List.length_set]; exact hs.jlen
      · intro j hj
        dsimp only
        rw [List.getElem?_set]
        split
        · rename_i h
          subst h
          rw [if_pos (by rw [hs.jlen]; omega), if_pos (by omega), if_pos rfl]
        · rename_i h
          rw [hs.jw j hj]
          congr 2
          by_cases h2 : j < m
          · rw [if_pos h2, if_pos (by omega), if_neg (by omega)]
          · rw [if_neg h2, if_neg (by omega)]
      · dsimp only; rw [List.length_set]; exact hs.mlen
      · intro j hj
        dsimp only
        rw [at2_set hs.mlen hl (by omega) hl]
        by_cases h : j = m
        · simp [h]
        · rw [if_neg (by omega), if_neg h]; exact hs.mrow j (by omega)
      · intro l' j hl' hj hne
        dsimp only
        rw [at2_set hs.mlen hl (by omega) hl', if_neg (by omega)]
        exact hs.mother l' j hl' hj hne
      · exact hsd'
      · intro _
        dsimp only
        rw [Nat.add_sub_cancel, if_pos rfl, ← hs.ic_eq]
        congr 1
        omega

/-- Invariant of the loop over the rows (asa159.cpp:623-765): rows below `l` are filled with `X`. -/
structure MInv {σ : Type} (Φ : ℕ → ℕ → (ℕ → ℕ → ℤ) → σ → Prop) (nrow ncol : ℕ) (rt ct : ℕ → ℤ) (l : ℕ) (X : ℕ → ℕ → ℤ)
    (s : RowsSt σ) : Prop where
  x0 : ∀ l' < l, ∀ j < ncol, 0 ≤ X l' j
  rows : ∀ l' < l, ∑ j ∈ range ncol, X l' j = rt l'
  w0 : ∀ j < ncol, 0 ≤ ct j - ∑ l' ∈ range l, X l' j
  jc_w : s.jc = ∑ j ∈ range ncol, (ct j - ∑ l' ∈ range l, X l' j)
  jc_r : s.jc = ∑ l' ∈ Ico l nrow, rt l'
  jlen : s.jwork.length = ncol
  jw : ∀ j < ncol - 1, s.jwork[j]? = some (some (ct j - ∑ l' ∈ range l, X l' j))
  mlen : s.matrix.length = nrow * ncol
  mat : ∀ l' < l, ∀ j < ncol, at2 s.matrix nrow l' j = some (X l' j)
  seed : Φ l 0 X s.seed
  ib : 0 < l → s.ib = some ((ct (ncol - 2) - ∑ l' ∈ range l, X l' (ncol - 2)) +
    (ct (ncol - 1) - ∑ l' ∈ range l, X l' (ncol - 1)))

/-- What is left of column `j` before row `l`, when the rows above are `X`. -/
def left (ct : ℕ → ℤ) (X : ℕ → ℕ → ℤ) (l j : ℕ) : ℤ := ct j - ∑ l' ∈ range l, X l' j

/-- What a random number and a search achieve for each entry, given `Φ l m X seed`: what is known about the random numbers
used when the entries `X` have been drawn up to column `m` of row `l`. -/
structure CellSpec (O : FloatOps F) (gen : σ → Except Err (F × σ)) (fact : List F) (fuel passes : ℕ) (N : ℤ) (T : Prop)
    (nrow ncol : ℕ) (rt ct : ℕ → ℤ) (Φ : ℕ → ℕ → (ℕ → ℕ → ℤ) → σ → Prop) : Prop where
  congr : ∀ l m X X' s, (∀ l' j, l' < l ∧ j < ncol ∨ l' = l ∧ j < m → X l' j = X' l' j) → Φ l m X s → Φ l m X' s
  cell : ∀ l m X s, l < nrow - 1 → m < ncol - 1 →
    CellPre N (rt l - ∑ j ∈ range m, X l j) (left ct X l m) (∑ j ∈ Ico m ncol, left ct X l j) → Φ l m X s →
    Post (drawCell O gen fact fuel passes (rt l - ∑ j ∈ range m, X l j) (left ct X l m) (∑ j ∈ Ico m ncol, left ct X l j) s)
      (BadErr N T) fun p =>
      Feas (rt l - ∑ j ∈ range m, X l j) (left ct X l m) (∑ j ∈ Ico m ncol, left ct X l j) p.1 ∧
        Φ l (m + 1) (fun l' j => if l' = l ∧ j = m then p.1 else X l' j) p.2
  zero : ∀ l m X s, l < nrow - 1 → m < ncol - 1 → (∀ j, m ≤ j → j < ncol → left ct X l j = 0) → Φ l m X s →
    Φ l (ncol - 1) (fun l' j => if l' = l ∧ m ≤ j then 0 else X l' j) s
  next : ∀ l X s, l < nrow - 1 → Φ l (ncol - 1) X s → Φ (l + 1) 0 X s

theorem rowsLoop_post (gen : σ → Except Err (F × σ)) (fact : List F) (fuel passes : ℕ)
    {Φ : ℕ → ℕ → (ℕ → ℕ → ℤ) → σ → Prop}
    (hr : (nrow : ℤ) ≤ N) (hcN : (ncol : ℤ) ≤ N) (hc2 : 2 ≤ ncol)
    (nrowt : List ℤ) (rt ct : ℕ → ℤ) (hrt : ∀ l < nrow, nrowt[l]? = some (rt l))
    (hrt0 : ∀ l < nrow, 0 < rt l) (hct : ∑ j ∈ range ncol, ct j = N)
    (hΦ : CellSpec O gen fact fuel passes N T nrow ncol rt ct Φ)
    (k l : ℕ) (hk : l + k + 1 = nrow) (X : ℕ → ℕ → ℤ) (s : RowsSt σ)
    (hs : MInv Φ nrow ncol rt ct l X s) :
    Post (rowsLoop O gen fact fuel passes nrow ncol nrowt k (l : ℤ) s) (BadErr N T)
      (fun t => ∃ X', MInv Φ nrow ncol rt ct (nrow - 1) X' t) := by
  induction k generalizing l X s with
  | zero =>
    refine ⟨X, ?_⟩
    have : nrow - 1 = l := by omega
    rw [this]; exact hs
  | succ k ih =>
    have hl : l < nrow := by omega
    unfold rowsLoop
    obtain ⟨hl1, hl2⟩ := List.getElem?_eq_some_iff.1 (hrt l hl)
    rw [rd_nat hl1, hl2]
    simp only [bind, Except.bind]
    set w : ℕ → ℤ := fun j => ct j - ∑ l' ∈ range l, X l' j with hwdef
    have hjcw : s.jc = ∑ j ∈ range ncol, w j := hs.jc_w
    have hjc_split : s.jc = rt l + ∑ l' ∈ Ico (l + 1) nrow, rt l' := by
      rw [hs.jc_r, Finset.sum_eq_sum_Ico_succ_bot hl]
    have hrest : 0 ≤ ∑ l' ∈ Ico (l + 1) nrow, rt l' :=
      Finset.sum_nonneg (fun j hj => le_of_lt (hrt0 j (by simp only [mem_Ico] at hj; omega)))
    have hrtl := hrt0 l hl
    have hwN : ∑ j ∈ range ncol, w j ≤ N := by
      rw [← hct]
      refine Finset.sum_le_sum (fun j hj => ?_)
      simp only [mem_range] at hj
      have : 0 ≤ ∑ l' ∈ range l, X l' j :=
        Finset.sum_nonneg (fun l' hl' => hs.x0 l' (by simpa using hl') j hj)
      simp only [hwdef]; omega
    refine Post_bind' (Post_int32 (x := s.jc - rt l) (fun hN => ⟨by omega, by omega⟩)) ?_
    rintro _ rfl
    have e : ((ncol : ℤ) - 1).toNat = ncol - 1 := by omega
    rw [e]
    have hleft : ∀ (x : ℕ → ℤ) j, left ct (fun l' j => if l' = l then x j else X l' j) l j = w j := by
      intro x j
      simp only [left, hwdef]
      congr 1
      refine Finset.sum_congr rfl fun l' hl' => ?_
      simp only [mem_range] at hl'
      rw [if_neg (by omega)]
    refine Post_bind' (rowLoop_post (T := T) (ncol := ncol) (nrow := nrow) gen
      fact fuel passes hr hcN hl w hs.w0 hwN (rt l) s.matrix
      (Φ := fun m x sd => Φ l m (fun l' j => if l' = l then x j else X l' j) sd) ?_ ?_ (ncol - 1) 0 (by omega)
      (X l) _ ?_) ?_
    · intro m x sd hm hcp hsd
      have h := hΦ.cell l m (fun l' j => if l' = l then x j else X l' j) sd (by omega) hm
      simp only [if_true, hleft] at h
      refine (h hcp hsd).imp ?_
      rintro ⟨n, sd'⟩ ⟨h1, h2⟩
      refine ⟨h1, hΦ.congr _ _ _ _ _ ?_ h2⟩
      intro l' j _
      by_cases e1 : l' = l <;> by_cases e2 : j = m <;> simp [e1, e2]
    · intro m x sd hm hw0 hsd
      refine hΦ.congr _ _ _ _ _ ?_ (hΦ.zero l m _ sd (by omega) hm (fun j h1 h2 => by rw [hleft]; exact hw0 j h1 h2) hsd)
      intro l' j _
      by_cases e1 : l' = l <;> by_cases e2 : j < m <;> simp [e1, e2, not_le.2, not_lt.1]
      all_goals intro h; omega
    · constructor
      · intro j hj; omega
      · simp
      · dsimp only; omega
      · dsimp only; omega
      · dsimp only; rw [hjcw, Finset.range_eq_Ico]
      · exact hs.jlen
      · intro j hj; rw [if_neg (by omega)]; exact hs.jw j hj
      · exact hs.mlen
      · intro j hj; omega
      · intro l' j _ _ _; rfl
      · refine hΦ.congr _ _ _ _ _ ?_ hs.seed
        intro l' j h
        rw [if_neg (by omega)]
      · intro h; omega
    rintro t ⟨x, ht⟩
    have htic : t.ic = w (ncol - 1) := by
      rw [ht.ic_eq]
      have : Ico (ncol - 1) ncol = {ncol - 1} := by
        ext j; simp only [mem_Ico, mem_singleton]; omega
      rw [this, Finset.sum_singleton]
    refine Post_bind' (Post_int32 (x := (ncol : ℤ) - 1) (fun hN => ⟨by omega, by omega⟩)) ?_
    rintro _ rfl
    have e2 : (ncol : ℤ) - 1 = ((ncol - 1 : ℕ) : ℤ) := by omega
    rw [e2]
    refine write_post hr hcN hl (by omega) ht.mlen ?_
    have e3 : (l : ℤ) + 1 = ((l + 1 : ℕ) : ℤ) := by push_cast; ring
    rw [e3]
    set y : ℕ → ℤ := fun j => if j = ncol - 1 then t.ia else x j with hy
    refine ih (l + 1) (by omega) (fun l' j => if l' = l then y j else X l' j) _ ?_
    have hy0 : ∀ j < ncol, 0 ≤ y j ∧ y j ≤ w j := by
      intro j hj
      simp only [hy]
      split
      · rename_i h; subst h; rw [← htic]; exact ⟨ht.ia0, ht.ia_le⟩
      · exact ht.x_bd j (by omega)
    have hysum : ∑ j ∈ range ncol, y j = rt l := by
      have hn : ncol = (ncol - 1) + 1 := by omega
      rw [hn, Finset.sum_range_succ]
      have h1 : y (ncol - 1) = t.ia := by simp [hy]
      have h2 : ∑ j ∈ range (ncol - 1), y j = ∑ j ∈ range (ncol - 1), x j := by
        refine Finset.sum_congr rfl (fun j hj => ?_)
        simp only [mem_range] at hj
        simp only [hy]; rw [if_neg (by omega)]
      rw [h1, h2, ht.ia_eq]; ring
    have hcol : ∀ j, ct j - ∑ l' ∈ range (l + 1), (if l' = l then y j else X l' j) = w j - y j := by
      intro j
      rw [Finset.sum_range_succ, if_pos rfl]
      have : ∑ l' ∈ range l, (if l' = l then y j else X l' j) = ∑ l' ∈ range l, X l' j := by
        refine Finset.sum_congr rfl (fun l' hl' => ?_)
        simp only [mem_range] at hl'
        rw [if_neg (by omega)]
      rw [this]; simp only [hwdef]; ring
    constructor
    · intro l' hl' j hj
      split
      · exact (hy0 j hj).1
      · exact hs.x0 l' (by omega) j hj
    · intro l' hl'
      by_cases h : l' = l
      · subst h; simp only [if_true]; exact hysum
      · simp only [h, if_false]; exact hs.rows l' (by omega)
    · intro j hj
      rw [hcol j]
      have := (hy0 j hj).2
      omega
    · dsimp only
      rw [hjcw]
      have : ∀ j ∈ range ncol, ct j - ∑ l' ∈ range (l + 1), (if l' = l then y j else X l' j) =
          w j - y j := fun j _ => hcol j
      rw [Finset.sum_congr rfl this, Finset.sum_sub_distrib w y, hysum]
    · dsimp only; omega
    · exact ht.jlen
    · intro j hj
      dsimp only
      rw [ht.jw j hj, if_pos hj, hcol j]
      simp only [hy]
      rw [if_neg (by omega)]
    · dsimp only; rw [List.length_set]; exact ht.mlen
    · intro l' hl' j hj
      dsimp only
      rw [at2_set ht.mlen hl (by omega) (by omega)]
      by_cases h : l' = l
      · subst h
        by_cases h2 : j = ncol - 1
        · simp [h2, hy]
        · rw [if_neg (by omega), if_pos rfl, ht.mrow j (by omega)]
          simp only [hy]; rw [if_neg h2]
      · rw [if_neg (by omega), if_neg h, ht.mother l' j (by omega) hj h]
        exact hs.mat l' (by omega) j hj
    · refine hΦ.next l _ _ (by omega) (hΦ.congr _ _ _ _ _ ?_ ht.seed)
      intro l' j h
      by_cases e1 : l' = l
      · have e2 : j ≠ ncol - 1 := by omega
        simp [e1, hy, e2]
      · simp [e1]
    · intro _
      dsimp only
      rw [ht.ib (by omega), hcol, hcol]
      have e4 : ncol - 1 - 1 = ncol - 2 := by omega
      rw [e4]
      have hn : Ico (ncol - 2) ncol = {ncol - 2, ncol - 1} := by
        ext j; simp only [mem_Ico, mem_insert, mem_singleton]; omega
      rw [hn, Finset.sum_pair (by omega)]
      congr 1
      have h1 : y (ncol - 1) = t.ia := by simp [hy]
      have h2 : y (ncol - 2) = x (ncol - 2) := by
        simp only [hy]; rw [if_neg (by omega)]
      rw [h1, h2]; ring

theorem lastRow_post (hr : (nrow : ℤ) ≤ N) (hcN : (ncol : ℤ) ≤ N) (hr1 : 0 < nrow)
    (jw : List (Option ℤ)) (w : ℕ → ℤ) (hjw : ∀ j < ncol - 1, jw[j]? = some (some (w j)))
    (k j : ℕ) (hk : j + k + 1 = ncol) (mat : List (Option ℤ)) (hlen : mat.length = nrow * ncol) :
    Post (lastRow (nrow : ℤ) jw k (j : ℤ) mat) (BadErr N T) (fun m' =>
      m'.length = nrow * ncol ∧ ∀ l' j', l' < nrow → j' < ncol →
        at2 m' nrow l' j' = if l' = nrow - 1 ∧ j ≤ j' ∧ j' < ncol - 1 then some (w j')
          else at2 mat nrow l' j') := by
  induction k generalizing j mat with
  | zero =>
    refine ⟨hlen, ?_⟩
    intro l' j' _ hj'
    rw [if_neg (by omega)]
  | succ k ih =>
    unfold lastRow
    rw [rdO_nat (hjw j (by omega))]
    simp only [bind, Except.bind]
    have e1 : (nrow : ℤ) - 1 = ((nrow - 1 : ℕ) : ℤ) := by omega
    rw [e1]
    refine write_post hr hcN (by omega) (by omega) hlen ?_
    have e : (j : ℤ) + 1 = ((j + 1 : ℕ) : ℤ) := by push_cast; ring
    rw [e]
    refine (ih (j + 1) (by omega) _ (by simpa using hlen)).imp ?_
    rintro m' ⟨h1, h2⟩
    refine ⟨h1, ?_⟩
    intro l' j' hl' hj'
    rw [h2 l' j' hl' hj', at2_set hlen (by omega) (by omega) hl']
    by_cases h : l' = nrow - 1
    · by_cases h3 : j' = j
      · subst h3
        rw [if_neg (by omega), if_pos ⟨h, rfl⟩, if_pos (by omega)]
      · by_cases h4 : j + 1 ≤ j' ∧ j' < ncol - 1
        · rw [if_pos (by omega), if_pos (by omega)]
        · rw [if_neg (by omega), if_neg (by omega), if_neg (by omega)]
    · rw [if_neg (by omega), if_neg (by omega), if_neg (by omega)]

theorem initWork_post {E : Err → Prop} (ncolt : List ℤ) (ct : ℕ → ℤ)
    (hct : ∀ j < ncol, ncolt[j]? = some (ct j))
    (k i : ℕ) (hk : i + k + 1 = ncol) (jw : List (Option ℤ)) (hlen : jw.length = ncol)
    (hjw : ∀ j < i, jw[j]? = some (some (ct j))) :
    Post (initWork ncolt k (i : ℤ) jw) E (fun jw' =>
      jw'.length = ncol ∧ ∀ j < ncol - 1, jw'[j]? = some (some (ct j))) := by
  induction k generalizing i jw with
  | zero =>
    refine ⟨hlen, ?_⟩
    intro j hj
    exact hjw j (by omega)
  | succ k ih =>
    unfold initWork
    obtain ⟨hl1, hl2⟩ := List.getElem?_eq_some_iff.1 (hct i (by omega))
    rw [rd_nat hl1, hl2]
    simp only [bind, Except.bind]
    rw [wr_nat (by omega)]
    simp only []
    have e : (i : ℤ) + 1 = ((i + 1 : ℕ) : ℤ) := by push_cast; ring
    rw [e]
    refine ih (i + 1) (by omega) _ (by simpa using hlen) ?_
    intro j hj
    rw [List.getElem?_set]
    split
    · rename_i h; subst h; rw [if_pos (by omega)]
    · exact hjw j (by omega)

/-- The buffer holds a table with the given margins: what the sampler promises. -/
structure TableWith (nrow ncol : ℕ) (rt ct : ℕ → ℤ) (mat : List (Option ℤ)) (X : ℕ → ℕ → ℤ) :
    Prop where
  len : mat.length = nrow * ncol
  cells : ∀ l < nrow, ∀ j < ncol, mat[l + j * nrow]? = some (some (X l j))
  nonneg : ∀ l < nrow, ∀ j < ncol, 0 ≤ X l j
  rows : ∀ l < nrow, ∑ j ∈ range ncol, X l j = rt l
  cols : ∀ j < ncol, ∑ l ∈ range nrow, X l j = ct j

theorem rcont2Body_post (gen : σ → Except Err (F × σ)) (fact : List F) (fuel passes : ℕ)
    {Φ : ℕ → ℕ → (ℕ → ℕ → ℤ) → σ → Prop}
    (hr : (nrow : ℤ) ≤ N) (hcN : (ncol : ℤ) ≤ N) (hc2 : 2 ≤ ncol) (hr2 : 2 ≤ nrow)
    (nrowt ncolt : List ℤ) (rt ct : ℕ → ℤ) (hrt : ∀ l < nrow, nrowt[l]? = some (rt l))
    (hctl : ∀ j < ncol, ncolt[j]? = some (ct j))
    (hrt0 : ∀ l < nrow, 0 < rt l) (hct0 : ∀ j < ncol, 0 < ct j)
    (hct : ∑ j ∈ range ncol, ct j = N) (hrtN : ∑ l ∈ range nrow, rt l = N)
    (hΦ : CellSpec O gen fact fuel passes N T nrow ncol rt ct Φ)
    (seed : σ) (hseed : Φ 0 0 (fun _ _ => 0) seed) (mat : List (Option ℤ)) (hlen : mat.length = nrow * ncol) :
    Post (rcont2Body O gen fuel passes nrow ncol nrowt ncolt ⟨some fact, N⟩ seed mat) (BadErr N T)
      (fun out => out.ierror = 0 ∧ out.statics = ⟨some fact, N⟩ ∧
        ∃ X, TableWith nrow ncol rt ct out.matrix X ∧ Φ (nrow - 1) 0 X out.seed) := by
  unfold rcont2Body
  simp only [bind, Except.bind]
  have e : ((ncol : ℤ) - 1).toNat = ncol - 1 := by omega
  have e' : ((nrow : ℤ) - 1).toNat = nrow - 1 := by omega
  rw [e, e']
  refine Post_bind' (initWork_post (ncol := ncol) ncolt ct hctl (ncol - 1) 0 (by omega) _ (by simp)
    (by intro j hj; omega)) ?_
  rintro jw ⟨hj1, hj2⟩
  refine Post_bind' (rowsLoop_post (T := T) gen fact fuel passes
    hr hcN hc2 nrowt rt ct hrt hrt0 hct hΦ (nrow - 1) 0 (by omega) (fun _ _ => 0) _ ?_) ?_
  · constructor
    · intro l' hl'; omega
    · intro l' hl'; omega
    · intro j hj; simpa using le_of_lt (hct0 j hj)
    · simpa using hct.symm
    · rw [← Finset.range_eq_Ico]; exact hrtN.symm
    · exact hj1
    · intro j hj; simpa using hj2 j hj
    · exact hlen
    · intro l' hl'; omega
    · exact hseed
    · intro h; omega
  rintro s ⟨X, hs⟩
  set w : ℕ → ℤ := fun j => ct j - ∑ l' ∈ range (nrow - 1), X l' j with hw
  refine Post_bind' (lastRow_post (T := T) hr hcN (by omega) s.jwork w hs.jw (ncol - 1) 0 (by omega)
    s.matrix hs.mlen) ?_
  rintro m1 ⟨hm1, hm2⟩
  rw [hs.ib (by omega)]
  simp only []
  have e1 : (ncol : ℤ) - 2 = ((ncol - 2 : ℕ) : ℤ) := by omega
  have e2 : (ncol : ℤ) - 1 = ((ncol - 1 : ℕ) : ℤ) := by omega
  have e3 : (nrow : ℤ) - 1 = ((nrow - 1 : ℕ) : ℤ) := by omega
  rw [e1, e2, e3]
  refine Post_bind' (Post_int32 (x := ((ncol - 2 : ℕ) : ℤ) * nrow)
    (fun hN => (idx_int32 (l := nrow - 1) hr hcN (by omega) (by omega) hN).1)) ?_
  rintro _ rfl
  refine Post_bind' (Post_int32 (x := ((nrow - 1 : ℕ) : ℤ) + ((ncol - 2 : ℕ) : ℤ) * nrow)
    (fun hN => (idx_int32 hr hcN (by omega) (by omega) hN).2)) ?_
  rintro _ rfl
  have hat : at2 m1 nrow (nrow - 1) (ncol - 2) = some (w (ncol - 2)) := by
    rw [hm2 _ _ (by omega) (by omega), if_pos (by omega)]
  have hread : m1[nrow - 1 + (ncol - 2) * nrow]? = some (some (w (ncol - 2))) := by
    unfold at2 at hat
    cases h : m1[nrow - 1 + (ncol - 2) * nrow]? with
    | none => rw [h] at hat; simp at hat
    | some v => rw [h] at hat; simp at hat; rw [hat]
  have e4 : ((nrow - 1 : ℕ) : ℤ) + ((ncol - 2 : ℕ) : ℤ) * nrow =
      ((nrow - 1 + (ncol - 2) * nrow : ℕ) : ℤ) := by push_cast; ring
  rw [e4, rdO_nat hread]
  simp only []
  refine Post_bind' (Post_int32 (x := ((ncol - 1 : ℕ) : ℤ) * nrow)
    (fun hN => (idx_int32 (l := nrow - 1) hr hcN (by omega) (by omega) hN).1)) ?_
  rintro _ rfl
  refine Post_bind' (Post_int32 (x := ((nrow - 1 : ℕ) : ℤ) + ((ncol - 1 : ℕ) : ℤ) * nrow)
    (fun hN => (idx_int32 hr hcN (by omega) (by omega) hN).2)) ?_
  rintro _ rfl
  have e5 : ct (ncol - 2) - ∑ l' ∈ range (nrow - 1), X l' (ncol - 2) +
      (ct (ncol - 1) - ∑ l' ∈ range (nrow - 1), X l' (ncol - 1)) - w (ncol - 2) = w (ncol - 1) := by
    simp only [hw]; ring
  rw [e5]
  have hw0 : ∀ j < ncol, 0 ≤ w j := hs.w0
  have hwle : w (ncol - 1) ≤ N := by
    have h1 : 0 ≤ ∑ l' ∈ range (nrow - 1), X l' (ncol - 1) :=
      Finset.sum_nonneg (fun l' hl' => hs.x0 l' (by simpa using hl') _ (by omega))
    have h2 : ct (ncol - 1) ≤ ∑ j ∈ range ncol, ct j :=
      Finset.single_le_sum (f := ct) (fun j hj => le_of_lt (hct0 j (by simpa using hj)))
        (by simp only [mem_range]; omega)
    simp only [hw]; omega
  have hwl := hw0 (ncol - 1) (by omega)
  refine Post_bind' (Post_int32 (x := w (ncol - 1)) (fun hN => ⟨by omega, by omega⟩)) ?_
  rintro _ rfl
  have e6 : ((nrow - 1 : ℕ) : ℤ) + ((ncol - 1 : ℕ) : ℤ) * nrow =
      ((nrow - 1 + (ncol - 1) * nrow : ℕ) : ℤ) := by push_cast; ring
  rw [e6, wr_nat (by rw [hm1]; exact idx_lt (by omega) (by omega))]
  refine ⟨rfl, rfl, fun l j => if l = nrow - 1 then w j else X l j, ?_, hΦ.congr _ _ _ _ _ (fun l' j h => by
    rw [if_neg (by omega)]) hs.seed⟩
  constructor
  · dsimp only; rw [List.length_set]; exact hm1
  · intro l hl j hj
    have h1 : at2 (m1.set (nrow - 1 + (ncol - 1) * nrow) (some (w (ncol - 1)))) nrow l j =
        some (if l = nrow - 1 then w j else X l j) := by
      rw [at2_set hm1 (by omega) (by omega) hl]
      by_cases h : l = nrow - 1
      · subst h
        by_cases h2 : j = ncol - 1
        · simp [h2]
        · rw [if_neg (by omega), hm2 _ _ (by omega) hj, if_pos (by omega), if_pos rfl]
      · rw [if_neg (by omega), hm2 l j hl hj, if_neg (by omega), if_neg h]
        exact hs.mat l (by omega) j hj
    unfold at2 at h1
    dsimp only
    cases h : (m1.set (nrow - 1 + (ncol - 1) * nrow) (some (w (ncol - 1))))[l + j * nrow]? with
    | none => rw [h] at h1; simp at h1
    | some v => rw [h] at h1; simp only [Option.join_some] at h1; rw [h1]
  · intro l hl j hj
    split
    · exact hw0 j hj
    · exact hs.x0 l (by omega) j hj
  · intro l hl
    by_cases h : l = nrow - 1
    · subst h
      simp only [if_true]
      have h1 := hs.jc_w
      rw [hs.jc_r] at h1
      have : Ico (nrow - 1) nrow = {nrow - 1} := by
        ext j; simp only [mem_Ico, mem_singleton]; omega
      rw [this, Finset.sum_singleton] at h1
      exact h1.symm
    · simp only [h, if_false]; exact hs.rows l (by omega)
  · intro j hj
    have hn : nrow = (nrow - 1) + 1 := by omega
    rw [hn, Finset.sum_range_succ]
    have : ∑ l ∈ range (nrow - 1), (if l = nrow - 1 + 1 - 1 then w j else X l j) =
        ∑ l ∈ range (nrow - 1), X l j := by
      refine Finset.sum_congr rfl (fun l hl => ?_)
      simp only [mem_range] at hl
      rw [if_neg (by omega)]
    rw [this, if_pos (by omega)]
    simp only [hw]; ring

end

end Phik
