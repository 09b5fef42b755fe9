import Verif.Spec.Multinomial
import Verif.Lemmas.Simulation
import Mathlib.Data.Nat.Choose.Cast
import Mathlib.Tactic.FieldSimp
import Mathlib.Tactic.Ring

/-! # The loop of the multinomial generator as a product of binomial draws -/

namespace Phik
open Spec MeasureTheory

/-- The binomial draws (trials, probability, result) with which the loop returns `ks`; `none` if it cannot. -/
noncomputable def drawsFor : ℝ → ℕ → List ℝ → List ℕ → Option (List (ℕ × ℝ × ℕ))
  | _, _, [], ks => if ks = [] then some [] else none
  | _, dn, [_], ks => if ks = [dn] then some [] else none
  | _, _, _ :: _ :: _, [] => none
  | S, dn, p :: q :: ps, k :: ks =>
    if dn - k = 0 then (if ks = List.replicate (ps.length + 1) 0 then some [(dn, p / S, k)] else none)
    else (drawsFor (S - p) (dn - k) (q :: ps) ks).map ((dn, p / S, k) :: ·)

/-- The draws from index `j` on give these results. -/
def Answers (b : ℕ → ℕ → ℝ → ℕ) (j : ℕ) (D : List (ℕ × ℝ × ℕ)) : Prop :=
  ∀ t (h : t < D.length), b (j + t) D[t].1 D[t].2.1 = D[t].2.2

theorem answers_cons {b : ℕ → ℕ → ℝ → ℕ} {j : ℕ} {n k : ℕ} {p : ℝ} {D} :
    Answers b j ((n, p, k) :: D) ↔ b j n p = k ∧ Answers b (j + 1) D := by
  constructor
  · intro h
    refine ⟨h 0 (by simp), fun t ht => ?_⟩
    have := h (t + 1) (by simpa using ht)
    rw [show j + 1 + t = j + (t + 1) by omega]
    simpa using this
  · rintro ⟨h0, h⟩ t ht
    cases t with
    | zero => simpa using h0
    | succ t =>
      have := h t (by simpa using ht)
      rw [show j + 1 + t = j + (t + 1) by omega] at this
      simpa using this

theorem multiLoop_eq_iff (b : ℕ → ℕ → ℝ → ℕ) (ps : List ℝ) : ∀ (j : ℕ) (S : ℝ) (dn : ℕ) (ks : List ℕ),
    multiLoop b j S dn ps = ks ↔ ∃ D, drawsFor S dn ps ks = some D ∧ Answers b j D := by
  induction ps with
  | nil =>
    intro j S dn ks
    simp only [multiLoop, drawsFor]
    by_cases h : ks = []
    · simp [h, Answers]
    · simp only [h, if_false]
      simp [eq_comm, h]
  | cons p ps ih =>
    intro j S dn ks
    cases ps with
    | nil =>
      simp only [multiLoop, drawsFor]
      by_cases h : ks = [dn]
      · simp [h, Answers]
      · simp only [h, if_false]
        simp only [reduceCtorEq, false_and, exists_false, iff_false]
        exact fun h' => h h'.symm
    | cons q ps =>
      cases ks with
      | nil =>
        simp only [multiLoop, drawsFor]
        split <;> simp
      | cons k ks =>
        rw [multiLoop, drawsFor]
        by_cases hb : b j dn (p / S) = k
        · simp only [hb]
          by_cases hd : dn - k = 0
          · rw [if_pos hd, if_pos hd]
            by_cases hk : ks = List.replicate (ps.length + 1) 0
            · simp only [hk, if_true, true_iff]
              exact ⟨_, rfl, answers_cons.2 ⟨hb, fun t ht => by simp at ht⟩⟩
            · simp only [hk, if_false]
              simp only [List.cons.injEq, true_and, reduceCtorEq, false_and, exists_false, iff_false]
              exact fun h' => hk h'.symm
          · rw [if_neg hd, if_neg hd]
            simp only [List.cons.injEq, true_and, ih, Option.map_eq_some_iff]
            constructor
            · rintro ⟨D, h1, h2⟩
              exact ⟨_, ⟨D, h1, rfl⟩, answers_cons.2 ⟨hb, h2⟩⟩
            · rintro ⟨_, ⟨D, h1, rfl⟩, h2⟩
              exact ⟨D, h1, (answers_cons.1 h2).2⟩
        · constructor
          · intro h
            exfalso
            apply hb
            split at h <;> exact (List.cons.inj h).1
          · rintro ⟨D, h1, h2⟩
            exfalso
            apply hb
            by_cases hd : dn - k = 0
            · rw [if_pos hd] at h1
              split at h1
              · rw [← Option.some.inj h1] at h2
                exact (answers_cons.1 h2).1
              · exact absurd h1 (by simp)
            · rw [if_neg hd, Option.map_eq_some_iff] at h1
              obtain ⟨D', _, rfl⟩ := h1
              exact (answers_cons.1 h2).1

theorem drawsFor_length {S : ℝ} {dn : ℕ} {ps : List ℝ} {ks : List ℕ} {D}
    (h : drawsFor S dn ps ks = some D) : ks.length = ps.length := by
  induction ps generalizing S dn ks D with
  | nil => simp only [drawsFor] at h; split at h <;> simp_all
  | cons p ps ih =>
    cases ps with
    | nil => simp only [drawsFor] at h; split at h <;> simp_all
    | cons q ps =>
      cases ks with
      | nil => simp [drawsFor] at h
      | cons k ks =>
        rw [drawsFor] at h
        split at h
        · split at h
          · simp_all
          · simp at h
        · rw [Option.map_eq_some_iff] at h
          obtain ⟨D', h, _⟩ := h
          have := ih h
          simp_all

/-- All requests have a probability between 0 and 1. -/
theorem drawsFor_prob {dn : ℕ} {ps : List ℝ} {ks : List ℕ} {D} (hnn : ∀ p ∈ ps, 0 ≤ p)
    (h : drawsFor ps.sum dn ps ks = some D) : ∀ x ∈ D, 0 ≤ x.2.1 ∧ x.2.1 ≤ 1 := by
  induction ps generalizing dn ks D with
  | nil => simp only [drawsFor] at h; split at h <;> simp_all
  | cons p ps ih =>
    cases ps with
    | nil => simp only [drawsFor] at h; split at h <;> simp_all
    | cons q ps =>
      cases ks with
      | nil => simp [drawsFor] at h
      | cons k ks =>
        have hnn' : ∀ p ∈ q :: ps, 0 ≤ p := fun y hy => hnn y (List.mem_cons_of_mem _ hy)
        have hp0 : 0 ≤ p := hnn p (by simp)
        have hs0 : 0 ≤ (q :: ps).sum := List.sum_nonneg hnn'
        have hS : (p :: q :: ps).sum = p + (q :: ps).sum := List.sum_cons
        have hp : 0 ≤ p / (p :: q :: ps).sum ∧ p / (p :: q :: ps).sum ≤ 1 :=
          ⟨div_nonneg hp0 (by rw [hS]; linarith), div_le_one_of_le₀ (by rw [hS]; linarith) (by rw [hS]; linarith)⟩
        rw [drawsFor] at h
        split at h
        · split at h
          · rw [← Option.some.inj h]
            intro x hx
            rw [List.mem_singleton] at hx
            rw [hx]; exact hp
          · simp at h
        · rw [Option.map_eq_some_iff, show (p :: q :: ps).sum - p = (q :: ps).sum by rw [hS]; ring] at h
          obtain ⟨D', h, rfl⟩ := h
          intro x hx
          rcases List.mem_cons.1 hx with rfl | hx
          · exact hp
          · exact ih hnn' h x hx

/-- Multinomial probability of a list of counts, with weights `ps` of sum `S`. -/
noncomputable def lmult (S : ℝ) (n : ℕ) (ps : List ℝ) (ks : List ℕ) : ℝ :=
  if ks.length = ps.length ∧ ks.sum = n then
    n.factorial / (ks.map fun k => (k.factorial : ℝ)).prod * (List.zipWith (fun p k => (p / S) ^ k) ps ks).prod
  else 0

/-- Probability of a list of independent binomial draws. -/
noncomputable def dprob (D : List (ℕ × ℝ × ℕ)) : ℝ := (D.map fun x => binomProb x.1 x.2.2 x.2.1).prod

theorem fprod_ne (ks : List ℕ) : (ks.map fun k => (k.factorial : ℝ)).prod ≠ 0 := by
  induction ks with
  | nil => simp
  | cons k ks ih =>
    rw [List.map_cons, List.prod_cons]
    exact mul_ne_zero (by exact_mod_cast Nat.factorial_ne_zero k) ih

theorem zip_rescale (S T : ℝ) (hS : S ≠ 0) (hT : T ≠ 0) (ps : List ℝ) (ks : List ℕ)
    (h : ks.length = ps.length) :
    (List.zipWith (fun p k => (p / S) ^ k) ps ks).prod =
      (T / S) ^ ks.sum * (List.zipWith (fun p k => (p / T) ^ k) ps ks).prod := by
  induction ps generalizing ks with
  | nil => cases ks <;> simp_all
  | cons p ps ih =>
    cases ks with
    | nil => simp at h
    | cons k ks =>
      rw [List.zipWith_cons_cons, List.zipWith_cons_cons, List.prod_cons, List.prod_cons, List.sum_cons,
        ih ks (by simpa using h), pow_add, show p / S = T / S * (p / T) by field_simp, mul_pow]
      ring

theorem zip_zero {ps : List ℝ} {ks : List ℕ} (S : ℝ) (h0 : ∀ p ∈ ps, p = 0) (hl : ks.length = ps.length)
    (h : ks.sum ≠ 0) : (List.zipWith (fun p k => (p / S) ^ k) ps ks).prod = 0 := by
  induction ps generalizing ks with
  | nil => cases ks <;> simp_all
  | cons p ps ih =>
    cases ks with
    | nil => simp at hl
    | cons k ks =>
      rw [List.zipWith_cons_cons, List.prod_cons]
      by_cases hk : k = 0
      · rw [ih (fun y hy => h0 y (List.mem_cons_of_mem _ hy)) (by simpa using hl) (by simpa [hk] using h), mul_zero]
      · rw [h0 p (by simp), zero_div, zero_pow hk, zero_mul]

theorem zip_replicate (S : ℝ) (ps : List ℝ) :
    (List.zipWith (fun p k => (p / S) ^ k) ps (List.replicate ps.length 0)).prod = 1 := by
  induction ps with
  | nil => simp
  | cons p ps ih => simp only [List.length_cons, List.replicate_succ, List.zipWith_cons_cons, List.prod_cons, ih]; simp

theorem eq_zero_of_sum_zero {ps : List ℝ} (hnn : ∀ p ∈ ps, 0 ≤ p) (h : ps.sum = 0) : ∀ p ∈ ps, p = 0 :=
  fun p hp => le_antisymm (h ▸ List.single_le_sum hnn p hp) (hnn p hp)

theorem eq_replicate_of_sum_zero {ks : List ℕ} (h : ks.sum = 0) : ks = List.replicate ks.length 0 :=
  List.eq_replicate_iff.2 ⟨rfl, fun y hy => by
    have := List.single_le_sum (fun _ _ => Nat.zero_le _) y hy
    omega⟩

/-- The step of the loop: one binomial factor. -/
theorem lmult_cons {p : ℝ} {ps : List ℝ} {k : ℕ} {ks : List ℕ} {n : ℕ} (hnn : ∀ p ∈ ps, 0 ≤ p) (hp : 0 ≤ p)
    (hpos : 0 < p + ps.sum) (hk : k < n) :
    lmult (p + ps.sum) n (p :: ps) (k :: ks) =
      binomProb n k (p / (p + ps.sum)) * lmult ps.sum (n - k) ps ks := by
  have hl : (k :: ks).length = (p :: ps).length ∧ (k :: ks).sum = n ↔ ks.length = ps.length ∧ ks.sum = n - k := by
    simp only [List.length_cons, List.sum_cons]
    omega
  unfold lmult
  by_cases h : ks.length = ps.length ∧ ks.sum = n - k
  · rw [if_pos (hl.2 h), if_pos h]
    rw [List.zipWith_cons_cons, List.prod_cons, List.map_cons, List.prod_cons]
    rcases (List.sum_nonneg hnn).eq_or_lt with h0 | h0
    · rw [zip_zero _ (eq_zero_of_sum_zero hnn h0.symm) h.1 (by omega)]
      unfold binomProb
      rw [← h0, add_zero, div_self (by linarith), sub_self, zero_pow (by omega)]
      simp
    · rw [zip_rescale _ ps.sum hpos.ne' h0.ne' ps ks h.1, h.2]
      unfold binomProb
      rw [Nat.cast_choose ℝ hk.le]
      have h1 : 1 - p / (p + ps.sum) = ps.sum / (p + ps.sum) := by field_simp; ring
      rw [h1]
      have hf := fprod_ne ks
      have hk0 : (k.factorial : ℝ) ≠ 0 := by exact_mod_cast Nat.factorial_ne_zero k
      have hn0 : ((n - k).factorial : ℝ) ≠ 0 := by exact_mod_cast Nat.factorial_ne_zero _
      field_simp
  · rw [if_neg (fun h' => h (hl.1 h')), if_neg h, mul_zero]

theorem lmult_last {p : ℝ} {ps : List ℝ} {k : ℕ} {ks : List ℕ} {n : ℕ} (S : ℝ) (hk : n ≤ k) :
    lmult S n (p :: ps) (k :: ks) =
      if ks = List.replicate ps.length 0 then binomProb n k (p / S) else 0 := by
  unfold lmult
  by_cases h : ks = List.replicate ps.length 0
  · rw [if_pos h]
    by_cases hkn : k = n
    · subst hkn
      rw [if_pos (by simp [h]), List.zipWith_cons_cons, List.prod_cons, h, zip_replicate]
      have hk0 : (k.factorial : ℝ) ≠ 0 := by exact_mod_cast Nat.factorial_ne_zero k
      simp [binomProb, hk0]
    · rw [if_neg (by simp [h, hkn])]
      unfold binomProb
      rw [Nat.choose_eq_zero_of_lt (by omega)]
      simp
  · rw [if_neg h, if_neg]
    rintro ⟨h1, h2⟩
    apply h
    simp only [List.sum_cons, List.length_cons] at h1 h2
    have := eq_replicate_of_sum_zero (ks := ks) (by omega)
    rwa [show ks.length = ps.length by omega] at this

/-- The draws that lead to `ks` have the multinomial probability of `ks`. -/
theorem drawsFor_dprob (ps : List ℝ) (n : ℕ) (ks : List ℕ) (hne : ps ≠ []) (hnn : ∀ p ∈ ps, 0 ≤ p)
    (hpos : 0 < ps.sum) :
    ((drawsFor ps.sum n ps ks).map dprob).getD 0 = lmult ps.sum n ps ks := by
  induction ps generalizing n ks with
  | nil => exact absurd rfl hne
  | cons p ps ih =>
    cases ps with
    | nil =>
      simp only [drawsFor]
      by_cases h : ks = [n]
      · rw [if_pos h]
        have hp : p ≠ 0 := by
          rintro rfl
          simp at hpos
        have hn0 : (n.factorial : ℝ) ≠ 0 := by exact_mod_cast Nat.factorial_ne_zero n
        simp [dprob, lmult, h, hp, hn0]
      · rw [if_neg h]
        unfold lmult
        rw [if_neg]
        · rfl
        · rintro ⟨h1, h2⟩
          apply h
          rw [List.length_singleton, List.length_eq_one_iff] at h1
          obtain ⟨x, rfl⟩ := h1
          simpa using h2
    | cons q ps =>
      cases ks with
      | nil => simp [drawsFor, lmult]
      | cons k ks =>
        have hnn' : ∀ p ∈ q :: ps, 0 ≤ p := fun y hy => hnn y (List.mem_cons_of_mem _ hy)
        have hp0 : 0 ≤ p := hnn p (by simp)
        have hS : (p :: q :: ps).sum = p + (q :: ps).sum := List.sum_cons
        rw [drawsFor]
        by_cases hd : n - k = 0
        · rw [if_pos hd, lmult_last _ (by omega)]
          rw [show (q :: ps).length = ps.length + 1 from rfl]
          split <;> simp [dprob]
        · rw [if_neg hd, hS, lmult_cons hnn' hp0 (by rw [← hS]; exact hpos) (by omega)]
          rw [show p + (q :: ps).sum - p = (q :: ps).sum by ring]
          rcases (List.sum_nonneg hnn').eq_or_lt with h0 | h0
          · have hb : binomProb n k (p / (p + (q :: ps).sum)) = 0 := by
              unfold binomProb
              rw [← h0, add_zero, div_self (by rw [hS, ← h0] at hpos; linarith), sub_self, zero_pow hd, mul_zero]
            rw [hb, zero_mul]
            cases drawsFor (q :: ps).sum (n - k) (q :: ps) ks with
            | none => rfl
            | some D =>
              simp only [Option.map_some, Option.getD_some, dprob, List.map_cons, List.prod_cons, hb, zero_mul]
          · rw [← ih (n - k) ks (by simp) hnn' h0]
            cases drawsFor (q :: ps).sum (n - k) (q :: ps) ks with
            | none => simp
            | some D => simp [dprob]

end Phik
