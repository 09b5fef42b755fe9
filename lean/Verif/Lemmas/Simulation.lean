import Verif.Spec.Simulation
import Verif.Props.Patefield

/-! # Lemmas about simulated data sets -/

namespace Phik

open Spec

/-! ### flattening -/

theorem ravel_length {K : Type} (a : Arr2 K) : a.ravel.length = a.r * a.c := by
  simp [Arr2.ravel, List.length_flatMap]

theorem flatMap_get {K : Type} {r c : ℕ} (f : Fin r → Fin c → K) (i : Fin r) (j : Fin c) :
    ((List.finRange r).flatMap fun i => (List.finRange c).map fun j => f i j)[i.val * c + j.val]? =
      some (f i j) := by
  induction r with
  | zero => exact i.elim0
  | succ r ih =>
    rw [List.finRange_succ, List.flatMap_cons, List.flatMap_map]
    refine Fin.cases ?_ (fun i' => ?_) i
    · rw [List.getElem?_append_left (by simp)]
      simp
    · rw [List.getElem?_append_right (by simp [Nat.succ_mul]; omega)]
      simp only [List.length_map, List.length_finRange, Fin.val_succ, Nat.succ_mul]
      rw [show i'.val * c + c + j.val - c = i'.val * c + j.val by omega]
      exact ih (fun i j => f i.succ j) i'

theorem ravel_get {K : Type} (a : Arr2 K) (i : Fin a.r) (j : Fin a.c) :
    a.ravel[i.val * a.c + j.val]? = some (a.v i j) := flatMap_get a.v i j

theorem ravel_sum' {K : Type} [AddCommMonoid K] (a : Arr2 K) : a.ravel.sum = a.total := by
  unfold Arr2.ravel Arr2.total
  rw [List.flatMap, List.sum_flatten, List.map_map]
  simp only [Function.comp_def, ← List.ofFn_eq_map, List.sum_ofFn]

theorem ravel_sum (a : Arr2 ℝ) : a.ravel.sum = a.total := ravel_sum' a

theorem sum_map_div (l : List ℝ) (c : ℝ) : (l.map fun x => x / c).sum = l.sum / c := by
  induction l with
  | nil => simp
  | cons x l ih => simp [ih, add_div]

theorem mem_ravel {K : Type} {a : Arr2 K} {x : K} : x ∈ a.ravel ↔ ∃ i j, a.v i j = x := by
  simp [Arr2.ravel]

/-- Position of a cell in the flattened table. -/
theorem pos_lt {r c : ℕ} (i : Fin r) (j : Fin c) : i.val * c + j.val < r * c := by
  have h1 := i.isLt
  have h2 := j.isLt
  calc i.val * c + j.val < i.val * c + c := by omega
    _ = (i.val + 1) * c := by ring
    _ ≤ r * c := Nat.mul_le_mul_right _ h1

theorem list_eq_ravel {l : List ℕ} {r c : ℕ} (h : l.length = r * c) :
    l = (⟨r, c, fun i j => l.getD (i.val * c + j.val) 0⟩ : Arr2 ℕ).ravel := by
  apply List.ext_getElem?
  intro k
  by_cases hk : k < r * c
  · have hc : 0 < c := by
      rcases Nat.eq_zero_or_pos c with rfl | h
      · simp at hk
      · exact h
    have hi : k / c < r := Nat.div_lt_of_lt_mul (by rwa [Nat.mul_comm])
    have hj : k % c < c := Nat.mod_lt _ hc
    have := ravel_get (⟨r, c, fun i j => l.getD (i.val * c + j.val) 0⟩ : Arr2 ℕ) ⟨k / c, hi⟩ ⟨k % c, hj⟩
    simp only [Nat.div_add_mod'] at this
    rw [this, List.getElem?_eq_getElem (h ▸ hk)]
    simp [List.getD, List.getElem?_eq_getElem (h ▸ hk)]
  · rw [List.getElem?_eq_none (by omega), List.getElem?_eq_none (by rw [ravel_length]; simp; omega)]

theorem sum_reshape {l : List ℕ} {r c : ℕ} (h : l.length = r * c) :
    ∑ i, ∑ j, (reshape l r c).v i j = (l.sum : ℤ) := by
  have := congrArg List.sum (list_eq_ravel h)
  rw [ravel_sum'] at this
  rw [this]
  simp [reshape, Arr2.total]
  rfl

/-! ### multinomial draws -/

theorem multiLoop_spec {binom : ℕ → ℕ → ℝ → ℕ} (h1 : ∀ j n p, binom j n p ≤ n)
    (h2 : ∀ j n, binom j n 0 = 0) (h3 : ∀ j n, binom j n 1 = n) (ps : List ℝ) :
    ∀ (j : ℕ) (dn : ℕ), ps ≠ [] → (∀ p ∈ ps, 0 ≤ p) → 0 < ps.sum →
    List.Forall₂ (fun p (x : ℕ) => p = 0 → x = 0) ps (multiLoop binom j ps.sum dn ps) ∧
      (multiLoop binom j ps.sum dn ps).sum = dn := by
  induction ps with
  | nil => intro _ _ h; exact absurd rfl h
  | cons p ps ih =>
    intro j dn _ hnn hpos
    cases ps with
    | nil =>
      simp only [multiLoop, List.sum_cons, List.sum_nil, add_zero] at hpos ⊢
      exact ⟨.cons (fun h => absurd h hpos.ne') .nil, trivial⟩
    | cons q ps =>
      rw [multiLoop]
      set S := (p :: q :: ps).sum with hS
      set x := binom j dn (p / S) with hx
      have hx0 : p = 0 → x = 0 := by rintro rfl; rw [hx, zero_div]; exact h2 _ _
      have hxle : x ≤ dn := h1 _ _ _
      by_cases hd : dn - x = 0
      · rw [if_pos hd]
        refine ⟨.cons hx0 ?_, ?_⟩
        · rw [show ps.length + 1 = (q :: ps).length from rfl]
          generalize q :: ps = l
          induction l with
          | nil => exact .nil
          | cons y l ih => exact .cons (fun _ => rfl) ih
        · simp only [List.sum_cons, List.sum_replicate, smul_zero, add_zero]; omega
      · rw [if_neg hd]
        have hne : p ≠ S := by
          intro h
          apply hd
          rw [hx, h, div_self hpos.ne', h3]
          exact Nat.sub_self _
        have hSp : S - p = (q :: ps).sum := by rw [hS, List.sum_cons]; ring
        have hnn' : ∀ p ∈ q :: ps, 0 ≤ p := fun y hy => hnn y (List.mem_cons_of_mem _ hy)
        have hpos' : 0 < (q :: ps).sum := by
          refine lt_of_le_of_ne (List.sum_nonneg hnn') (fun h => hne ?_)
          rw [hS, List.sum_cons, ← h]; ring
        rw [hSp]
        obtain ⟨g1, g2⟩ := ih (j + 1) (dn - x) (by simp) hnn' hpos'
        refine ⟨.cons hx0 g1, ?_⟩
        rw [List.sum_cons, g2]; omega

/-- Draws that lead to given counts. -/
noncomputable def aim (t : ℕ → ℕ) (j n : ℕ) (p : ℝ) : ℕ :=
  open scoped Classical in if p = 0 then 0 else if p = 1 then n else min (t j) n

theorem aim_le (t : ℕ → ℕ) (j n : ℕ) (p : ℝ) : aim t j n p ≤ n := by
  unfold aim
  split <;> [exact Nat.zero_le _; split <;> [exact le_rfl; exact min_le_right _ _]]

theorem aim_zero (t : ℕ → ℕ) (j n : ℕ) : aim t j n 0 = 0 := by simp [aim]
theorem aim_one (t : ℕ → ℕ) (j n : ℕ) : aim t j n 1 = n := by simp [aim]

theorem multiLoop_aim (t : ℕ → ℕ) (ps : List ℝ) :
    ∀ (j : ℕ) (xs : List ℕ), (∀ p ∈ ps, 0 ≤ p) → 0 < ps.sum →
    List.Forall₂ (fun p (x : ℕ) => p = 0 → x = 0) ps xs → (∀ k (h : k < xs.length), t (j + k) = xs[k]) →
    multiLoop (aim t) j ps.sum xs.sum ps = xs := by
  induction ps with
  | nil => intro j xs _ h; simp at h
  | cons p ps ih =>
    intro j xs hnn hpos hf ht
    cases hf with
    | @cons _ x _ xs hx hf =>
    cases ps with
    | nil =>
      cases hf
      simp [multiLoop]
    | cons q ps =>
      rw [multiLoop]
      set S := (p :: q :: ps).sum with hS
      have hnn' : ∀ p ∈ q :: ps, 0 ≤ p := fun y hy => hnn y (List.mem_cons_of_mem _ hy)
      have hzero : ∀ {l : List ℝ} {l' : List ℕ}, List.Forall₂ (fun p (x : ℕ) => p = 0 → x = 0) l l' →
          (∀ p ∈ l, 0 ≤ p) → l.sum = 0 → l' = List.replicate l.length 0 := by
        intro l l' h
        induction h with
        | nil => intros; rfl
        | @cons a b l l' h1 h2 ih =>
          intro hn hs
          rw [List.sum_cons] at hs
          have ha := hn a (by simp)
          have hl := List.sum_nonneg fun y hy => hn y (List.mem_cons_of_mem _ hy)
          rw [ih (fun y hy => hn y (List.mem_cons_of_mem _ hy)) (by linarith), h1 (by linarith)]
          rfl
      have hxa : aim t j (x :: xs).sum (p / S) = x := by
        unfold aim
        by_cases h0 : p / S = 0
        · rw [if_pos h0]
          exact (hx (by simpa [hpos.ne'] using h0)).symm
        · rw [if_neg h0]
          by_cases h1 : p / S = 1
          · rw [if_pos h1]
            have : p = S := by rwa [div_eq_one_iff_eq hpos.ne'] at h1
            have hs0 : (q :: ps).sum = 0 := by rw [hS, List.sum_cons] at this; linarith
            rw [hzero hf hnn' hs0]
            simp
          · rw [if_neg h1]
            have := ht 0 (by simp)
            simp only [add_zero, List.getElem_cons_zero] at this
            rw [this, List.sum_cons]
            omega
      simp only [hxa]
      rw [show (x :: xs).sum - x = xs.sum by simp]
      by_cases hd : xs.sum = 0
      · rw [if_pos hd]
        have : xs = List.replicate xs.length 0 := List.eq_replicate_iff.2 ⟨rfl, fun y hy => by
          have := List.single_le_sum (fun _ _ => Nat.zero_le _) y hy
          omega⟩
        rw [this, ← hf.length_eq]; rfl
      · rw [if_neg hd]
        have hSp : S - p = (q :: ps).sum := by rw [hS, List.sum_cons]; ring
        have hpos' : 0 < (q :: ps).sum := by
          refine lt_of_le_of_ne (List.sum_nonneg hnn') (fun h => hd ?_)
          rw [hzero hf hnn' h.symm]; simp
        rw [hSp, ih (j + 1) xs hnn' hpos' hf (fun k hk => by
          have := ht (k + 1) (by simpa using hk)
          rw [show j + 1 + k = j + (k + 1) by omega]
          simpa using this)]

/-- The draw of one vector of non-negative numbers with positive sum. -/
theorem simVec_eq {binom : ℕ → ℕ → ℝ → ℕ} {h : List ℝ} (hnn : ∀ x ∈ h, 0 ≤ x) (hpos : 0 < h.sum) :
    simVec binom h 0 = .ok (multiLoop binom 0 (h.map fun x => x / h.sum).sum ⌊h.sum⌋₊
      (h.map fun x => x / h.sum)) := by
  have hs : (h.map fun x => x / h.sum).sum = 1 := by
    rw [sum_map_div, div_self hpos.ne']
  have hle : ∀ x ∈ h, x ≤ h.sum := fun x hx => List.single_le_sum hnn x hx
  unfold simVec multinomial
  simp only [le_refl, if_true]
  rw [if_neg (not_le.2 hpos), if_neg hpos.ne', if_neg, if_neg, hs]
  · rw [not_lt]
    have : ((h.map fun x => x / h.sum).dropLast).sum ≤ (h.map fun x => x / h.sum).sum :=
      List.Sublist.sum_le_sum (List.dropLast_sublist _) (fun x hx => by
        obtain ⟨y, hy, rfl⟩ := List.mem_map.1 hx
        exact div_nonneg (hnn y hy) hpos.le)
    rw [hs] at this
    norm_num
    linarith
  · rintro ⟨p, hp, hbad⟩
    obtain ⟨y, hy, rfl⟩ := List.mem_map.1 hp
    rcases hbad with hbad | hbad
    · exact absurd (div_nonneg (hnn y hy) hpos.le) (not_le.2 hbad)
    · rw [one_lt_div hpos] at hbad
      exact absurd (hle y hy) (not_le.2 hbad)

theorem simVec_spec {binom : ℕ → ℕ → ℝ → ℕ} (h1 : ∀ j n p, binom j n p ≤ n)
    (h2 : ∀ j n, binom j n 0 = 0) (h3 : ∀ j n, binom j n 1 = n) {h : List ℝ} (hnn : ∀ x ∈ h, 0 ≤ x)
    (hpos : 0 < h.sum) :
    ∃ out, simVec binom h 0 = .ok out ∧ out.length = h.length ∧
      List.Forall₂ (fun p (x : ℕ) => p = 0 → x = 0) h out ∧ out.sum = ⌊h.sum⌋₊ := by
  have hs : (h.map fun x => x / h.sum).sum = 1 := by
    rw [sum_map_div, div_self hpos.ne']
  have hne : h ≠ [] := by rintro rfl; simp at hpos
  obtain ⟨g1, g2⟩ := multiLoop_spec h1 h2 h3 (h.map fun x => x / h.sum) 0 ⌊h.sum⌋₊ (by simpa using hne)
    (fun p hp => by
      obtain ⟨y, hy, rfl⟩ := List.mem_map.1 hp
      exact div_nonneg (hnn y hy) hpos.le) (by rw [hs]; norm_num)
  refine ⟨_, simVec_eq hnn hpos, by rw [← g1.length_eq, List.length_map], ?_, g2⟩
  rw [List.forall₂_map_left_iff] at g1
  exact g1.imp fun a b hab h0 => hab (by rw [h0, zero_div])

theorem simVec_aim {t : ℕ → ℕ} {h : List ℝ} (hnn : ∀ x ∈ h, 0 ≤ x) (hpos : 0 < h.sum) {xs : List ℕ}
    (hf : List.Forall₂ (fun p (x : ℕ) => p = 0 → x = 0) h xs) (hsum : xs.sum = ⌊h.sum⌋₊)
    (ht : ∀ k (h : k < xs.length), t k = xs[k]) : simVec (aim t) h 0 = .ok xs := by
  have hs : (h.map fun x => x / h.sum).sum = 1 := by
    rw [sum_map_div, div_self hpos.ne']
  rw [simVec_eq hnn hpos, ← hsum, multiLoop_aim t _ 0 xs]
  · intro p hp
    obtain ⟨y, hy, rfl⟩ := List.mem_map.1 hp
    exact div_nonneg (hnn y hy) hpos.le
  · rw [hs]; norm_num
  · rw [List.forall₂_map_left_iff]
    exact hf.imp fun a b hab h0 => hab (by simpa [hpos.ne'] using h0)
  · intro k hk; rw [Nat.zero_add]; exact ht k hk

end Phik
