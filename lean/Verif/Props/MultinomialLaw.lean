import Verif.Lemmas.Multinomial
import Verif.Props.SimChi2
import Mathlib.Algebra.BigOperators.Fin

/-! # Property C74: the distribution of the multinomial samplers -/

namespace Phik.Props
open Spec MeasureTheory Finset

variable {F Ω : Type} [MeasurableSpace Ω]

theorem dprob_range (D : List (ℕ × ℝ × ℕ)) : dprob D =
    ∏ t ∈ range D.length, binomProb (D.getD t (0, 0, 0)).1 (D.getD t (0, 0, 0)).2.2 (D.getD t (0, 0, 0)).2.1 := by
  unfold dprob
  induction D with
  | nil => simp
  | cons x D ih =>
    rw [List.map_cons, List.prod_cons, List.length_cons, prod_range_succ', ih, mul_comm]
    simp

/-- Several multinomial draws, with different indices `e i` of the generator. -/
theorem rows_law {ι κ : Type} [Fintype κ] {μ : Measure Ω} {B : Ω → ι → ℕ → ℕ → ℝ → ℕ} (hB : IdealBinom μ B)
    (e : κ ↪ ι) (n : κ → ℕ) (ps : κ → List ℝ) (ks : κ → List ℕ) (hne : ∀ i, ps i ≠ [])
    (hnn : ∀ i, ∀ p ∈ ps i, 0 ≤ p) (hpos : ∀ i, 0 < (ps i).sum) :
    MeasurableSet {ω | ∀ i, multiLoop (B ω (e i)) 0 (ps i).sum (n i) (ps i) = ks i} ∧
    μ {ω | ∀ i, multiLoop (B ω (e i)) 0 (ps i).sum (n i) (ps i) = ks i} =
      ENNReal.ofReal (∏ i, lmult (ps i).sum (n i) (ps i) (ks i)) := by
  classical
  by_cases hall : ∀ i, ∃ D, drawsFor (ps i).sum (n i) (ps i) (ks i) = some D
  · choose D hD using hall
    let s₀ : Finset (κ × ℕ) := (univ.sigma fun i => range (D i).length).map
      (Equiv.sigmaEquivProd κ ℕ).toEmbedding
    have hs₀ : ∀ q : κ × ℕ, q ∈ s₀ ↔ q.1 ∈ univ ∧ q.2 ∈ range (D q.1).length := by
      rintro ⟨i, j⟩
      simp only [s₀, mem_map_equiv, mem_sigma]
      rfl
    let E : κ × ℕ ↪ ι × ℕ := e.prodMap (Function.Embedding.refl ℕ)
    let s : Finset (ι × ℕ) := s₀.map E
    let G₀ : κ × ℕ → ℕ × ℝ × ℕ := fun q => (D q.1).getD q.2 (0, 0, 0)
    let G : ι × ℕ → ℕ × ℝ × ℕ := fun q => if h : ∃ x, E x = q then G₀ h.choose else (0, 0, 0)
    have hGE : ∀ x, G (E x) = G₀ x := by
      intro x
      have h : ∃ y, E y = E x := ⟨x, rfl⟩
      simp only [G, dif_pos h]
      congr 1
      exact E.injective h.choose_spec
    have hG : ∀ x ∈ s₀, G₀ x ∈ D x.1 := by
      rintro ⟨i, j⟩ hq
      have h2 : j < (D i).length := mem_range.1 ((hs₀ _).1 hq).2
      simp only [G₀, List.getD, List.getElem?_eq_getElem h2, Option.getD_some]
      exact List.getElem_mem h2
    have hp : ∀ q ∈ s, 0 ≤ (G q).2.1 ∧ (G q).2.1 ≤ 1 := by
      intro q hq
      obtain ⟨x, hx, rfl⟩ := mem_map.1 hq
      rw [hGE]
      exact drawsFor_prob (hnn x.1) (hD x.1) _ (hG x hx)
    have hset : {ω | ∀ i, multiLoop (B ω (e i)) 0 (ps i).sum (n i) (ps i) = ks i} =
        {ω | ∀ q ∈ s, B ω q.1 q.2 (G q).1 (G q).2.1 = (G q).2.2} := by
      ext ω
      simp only [Set.mem_ofPred_eq]
      constructor
      · intro h q hq
        obtain ⟨⟨i, j⟩, hx, rfl⟩ := mem_map.1 hq
        rw [hGE]
        have h2 : j < (D i).length := mem_range.1 ((hs₀ _).1 hx).2
        obtain ⟨E', hE', hA⟩ := (multiLoop_eq_iff _ _ _ _ _ _).1 (h i)
        rw [hD i] at hE'
        rw [← Option.some.inj hE'] at hA
        have := hA j h2
        simp only [G₀, List.getD, List.getElem?_eq_getElem h2, Option.getD_some]
        simpa [E] using this
      · intro h i
        refine (multiLoop_eq_iff _ _ _ _ _ _).2 ⟨D i, hD i, fun t ht => ?_⟩
        have hq : (i, t) ∈ s₀ := (hs₀ _).2 ⟨mem_univ _, mem_range.2 ht⟩
        have := h _ (mem_map_of_mem E hq)
        rw [hGE] at this
        simp only [G₀, List.getD, List.getElem?_eq_getElem ht, Option.getD_some] at this
        simpa [E] using this
    rw [hset]
    refine ⟨?_, ?_⟩
    · have : {ω | ∀ q ∈ s, B ω q.1 q.2 (G q).1 (G q).2.1 = (G q).2.2} =
          ⋂ q ∈ s, {ω | B ω q.1 q.2 (G q).1 (G q).2.1 = (G q).2.2} := by
        ext ω; simp
      rw [this]
      exact Finset.measurableSet_biInter _ fun q hq => hB.measurable _ _ _ _ _ (hp q hq)
    · rw [hB.law s (fun q => (G q).1) (fun q => (G q).2.2) (fun q => (G q).2.1) hp]
      congr 1
      rw [prod_map, prod_finset_product s₀ univ (fun i => range (D i).length) hs₀]
      refine prod_congr rfl fun i _ => ?_
      have := drawsFor_dprob (ps i) (n i) (ks i) (hne i) (hnn i) (hpos i)
      rw [hD i, Option.map_some, Option.getD_some, dprob_range] at this
      rw [← this]
      simp only [hGE, G₀]
  · obtain ⟨i, hi⟩ := not_forall.1 hall
    have hnone : drawsFor (ps i).sum (n i) (ps i) (ks i) = none := by
      cases h : drawsFor (ps i).sum (n i) (ps i) (ks i) with
      | none => rfl
      | some D => exact absurd ⟨D, h⟩ hi
    have h0 : lmult (ps i).sum (n i) (ps i) (ks i) = 0 := by
      rw [← drawsFor_dprob (ps i) (n i) (ks i) (hne i) (hnn i) (hpos i), hnone]; rfl
    have hemp : {ω | ∀ i, multiLoop (B ω (e i)) 0 (ps i).sum (n i) (ps i) = ks i} = ∅ := by
      ext ω
      simp only [Set.mem_ofPred_eq, Set.mem_empty_iff_false, iff_false]
      intro h
      obtain ⟨D, hD, _⟩ := (multiLoop_eq_iff _ _ _ _ _ _).1 (h i)
      rw [hnone] at hD
      cases hD
    rw [prod_eq_zero (mem_univ i) h0, ENNReal.ofReal_zero, hemp]
    exact ⟨MeasurableSet.empty, measure_empty⟩

/-- A sampler that makes one multinomial draw for each of `R` groups of cells. -/
structure RowForm (F : Type) (a : Arr2 ℝ) (run : Draws F → Except Err (Arr2 ℤ))
    (P : (Fin a.r → Fin a.c → ℕ) → ℝ) where
  R : ℕ
  n : Fin R → ℕ
  ps : Fin R → List ℝ
  ks : (Fin a.r → Fin a.c → ℕ) → Fin R → List ℕ
  hne : ∀ i, ps i ≠ []
  hnn : ∀ i, ∀ p ∈ ps i, 0 ≤ p
  hpos : ∀ i, 0 < (ps i).sum
  run_iff : ∀ d X, run d = .ok ⟨a.r, a.c, fun i j => (X i j : ℤ)⟩ ↔
    ∀ i : Fin R, multiLoop (d.binom i.val) 0 (ps i).sum (n i) (ps i) = ks X i
  run_ok : ∀ d, ∃ X : Fin a.r → Fin a.c → ℕ, run d = .ok ⟨a.r, a.c, fun i j => (X i j : ℤ)⟩
  prob : ∀ X, P X = ∏ i, lmult (ps i).sum (n i) (ps i) (ks X i)

theorem lmult_finRange {c : ℕ} (S : ℝ) (n : ℕ) (w : Fin c → ℝ) (X : Fin c → ℕ) :
    lmult S n ((List.finRange c).map w) ((List.finRange c).map X) = multinomProb n (fun j => w j / S) X := by
  unfold lmult multinomProb
  simp only [List.length_map, true_and, List.map_map, List.zipWith_map, List.zipWith_self, Function.comp_def]
  simp only [← List.ofFn_eq_map, List.sum_ofFn, List.prod_ofFn]

theorem lmult_ravel (S : ℝ) (n : ℕ) (a : Arr2 ℝ) (X : Fin a.r → Fin a.c → ℕ) :
    lmult S n a.ravel (⟨a.r, a.c, X⟩ : Arr2 ℕ).ravel =
      multinomProb n (fun q : Fin a.r × Fin a.c => a.v q.1 q.2 / S) (fun q => X q.1 q.2) := by
  have hz : ∀ (r c : ℕ) (w : Fin r → Fin c → ℝ) (X : Fin r → Fin c → ℕ),
      List.zipWith (fun p k => (p / S) ^ k) ((List.finRange r).flatMap fun i => (List.finRange c).map fun j => w i j)
        ((List.finRange r).flatMap fun i => (List.finRange c).map fun j => X i j) =
      (List.finRange r).flatMap fun i => (List.finRange c).map fun j => (w i j / S) ^ X i j := by
    intro r c w X
    induction r with
    | zero => rfl
    | succ r ih =>
      rw [List.finRange_succ, List.flatMap_cons, List.flatMap_cons, List.flatMap_cons, List.zipWith_append (by simp)]
      simp only [List.flatMap_map, ih, List.zipWith_map, List.zipWith_self]
  have hp : ∀ (r c : ℕ) (f : Fin r → Fin c → ℝ),
      ((List.finRange r).flatMap fun i => (List.finRange c).map fun j => f i j).prod = ∏ q : Fin r × Fin c, f q.1 q.2 := by
    intro r c f
    rw [List.flatMap, List.prod_flatten, List.map_map, Fintype.prod_prod_type]
    simp only [Function.comp_def, ← List.ofFn_eq_map, List.prod_ofFn]
  have hsum : (⟨a.r, a.c, X⟩ : Arr2 ℕ).ravel.sum = ∑ q : Fin a.r × Fin a.c, X q.1 q.2 := by
    rw [ravel_sum', Fintype.sum_prod_type]; rfl
  unfold lmult multinomProb
  rw [ravel_length, ravel_length, hsum]
  simp only [true_and]
  have h1 := hz a.r a.c a.v X
  have h2 := hp a.r a.c fun i j => (a.v i j / S) ^ X i j
  have h3 := hp a.r a.c fun i j => ((X i j).factorial : ℝ)
  rw [← h3, ← h2, ← h1]
  simp only [Arr2.ravel, List.map_flatMap, List.map_map, Function.comp_def]

theorem reshape_eq_iff {r c : ℕ} {l : List ℕ} (hl : l.length = r * c) (X : Fin r → Fin c → ℕ) :
    reshape l r c = ⟨r, c, fun i j => (X i j : ℤ)⟩ ↔ l = (⟨r, c, X⟩ : Arr2 ℕ).ravel := by
  constructor
  · intro h
    rw [list_eq_ravel hl]
    congr 2
    unfold reshape at h
    simp only [Arr2.mk.injEq, heq_eq_eq, true_and] at h
    funext i j
    have := congrFun (congrFun h i) j
    exact_mod_cast this
  · rintro rfl
    unfold reshape
    congr 1
    funext i j
    have := ravel_get (⟨r, c, X⟩ : Arr2 ℕ) i j
    simp only at this
    simp [List.getD, this]

theorem multiLoop_length (b : ℕ → ℕ → ℝ → ℕ) (ps : List ℝ) : ∀ (j : ℕ) (S : ℝ) (dn : ℕ),
    (multiLoop b j S dn ps).length = ps.length := fun j S dn => by
  obtain ⟨D, h, _⟩ := (multiLoop_eq_iff b ps j S dn _).1 rfl
  exact drawsFor_length h

theorem multinominal_form (env : SimEnv F) {a : Arr2 ℝ} (ha : IsCount a) :
    Nonempty (RowForm F a (fun d => simData env d a "multinominal") (sampleProb "multinominal" a)) := by
  have hnn : ∀ x ∈ a.ravel, 0 ≤ x := fun x hx => by obtain ⟨i, j, rfl⟩ := mem_ravel.1 hx; exact ha.nonneg i j
  have hpos : 0 < a.ravel.sum := by rw [ravel_sum]; exact ha.pos
  set ps := a.ravel.map fun x => x / a.ravel.sum with hps
  have hs : ps.sum = 1 := by rw [hps, sum_map_div, div_self hpos.ne']
  have hrun : ∀ d : Draws F, simData env d a "multinominal" =
      .ok (reshape (multiLoop (d.binom 0) 0 ps.sum ⌊a.total⌋₊ ps) a.r a.c) := by
    intro d
    unfold simData sim2dData
    rw [if_pos rfl, simVec_eq hnn hpos, ← hps, ravel_sum]
    rfl
  refine ⟨{
    R := 1
    n := fun _ => ⌊a.total⌋₊
    ps := fun _ => ps
    ks := fun X _ => (⟨a.r, a.c, X⟩ : Arr2 ℕ).ravel
    hne := fun _ h => by rw [h] at hs; simp at hs
    hnn := fun _ p hp => by
      obtain ⟨y, hy, rfl⟩ := List.mem_map.1 hp
      exact div_nonneg (hnn y hy) hpos.le
    hpos := fun _ => by rw [hs]; norm_num
    run_iff := fun d X => by
      simp only [Fin.forall_fin_one, Fin.val_zero]
      rw [hrun, Except.ok.injEq, reshape_eq_iff]
      rw [multiLoop_length, hps, List.length_map, ravel_length]
    run_ok := fun d => ⟨_, hrun d⟩
    prob := fun X => by
      rw [Fin.prod_univ_one, hs]
      unfold sampleProb
      rw [if_pos rfl]
      have := lmult_ravel 1 ⌊a.total⌋₊ ⟨a.r, a.c, fun i j => a.v i j / a.total⟩ X
      simp only [div_one] at this
      refine this.symm.trans ?_
      congr 1
      rw [hps, ravel_sum]
      simp only [Arr2.ravel, List.map_flatMap, List.map_map, Function.comp_def] }⟩

theorem simRows_form {a : Arr2 ℝ} (hnn : ∀ i j, 0 ≤ a.v i j) (hpos : ∀ i, 0 < ∑ j, a.v i j) :
    Nonempty (RowForm F a (fun d => simRows d.binom a) fun X =>
      ∏ i, multinomProb ⌊∑ j, a.v i j⌋₊ (fun j => a.v i j / ∑ k, a.v i k) (X i)) := by
  set ps : Fin a.r → List ℝ := fun i => (List.finRange a.c).map fun j => a.v i j / ∑ k, a.v i k with hps
  have hs : ∀ i, (ps i).sum = 1 := by
    intro i
    simp only [hps, ← List.ofFn_eq_map, List.sum_ofFn, ← Finset.sum_div]
    exact div_self (hpos i).ne'
  have hrow : ∀ (d : Draws F) (i : Fin a.r), simVec (d.binom i.val) ((List.finRange a.c).map (a.v i)) 0 =
      .ok (multiLoop (d.binom i.val) 0 (ps i).sum ⌊∑ j, a.v i j⌋₊ (ps i)) := by
    intro d i
    rw [simVec_eq]
    · rw [row_sum]
      simp only [hps, List.map_map, Function.comp_def]
    · intro x hx
      obtain ⟨j, _, rfl⟩ := List.mem_map.1 hx
      exact hnn i j
    · rw [row_sum]; exact hpos i
  have hrun : ∀ d : Draws F, simRows d.binom a = .ok ⟨a.r, a.c, fun i j =>
      (((multiLoop (d.binom i.val) 0 (ps i).sum ⌊∑ j, a.v i j⌋₊ (ps i)).getD j 0 : ℕ) : ℤ)⟩ := by
    intro d
    unfold simRows
    rw [mapM_ok_all (fun i _ => hrow d i)]
    simp only [bind, Except.bind, pure, Except.pure, Except.ok.injEq, Arr2.mk.injEq, heq_eq_eq, true_and]
    funext i j
    have hi : ((List.finRange a.r).map fun i : Fin a.r =>
        multiLoop (d.binom i.val) 0 (ps i).sum ⌊∑ j, a.v i j⌋₊ (ps i)).getD i.val [] =
        multiLoop (d.binom i.val) 0 (ps i).sum ⌊∑ j, a.v i j⌋₊ (ps i) := by simp [List.getD]
    rw [hi]
  refine ⟨{
    R := a.r
    n := fun i => ⌊∑ j, a.v i j⌋₊
    ps := ps
    ks := fun X i => (List.finRange a.c).map (X i)
    hne := fun i h => by have := hs i; rw [h] at this; simp at this
    hnn := fun i p hp => by
      obtain ⟨j, hj, rfl⟩ := List.mem_map.1 hp
      exact div_nonneg (hnn i j) (hpos i).le
    hpos := fun i => by rw [hs]; norm_num
    run_ok := fun d => ⟨_, hrun d⟩
    run_iff := fun d X => ?_
    prob := fun X => prod_congr rfl fun i _ => by
      rw [hs, lmult_finRange]
      simp only [div_one] }⟩
  rw [hrun]
  simp only [Except.ok.injEq, Arr2.mk.injEq, heq_eq_eq, true_and]
  constructor
  · intro h i
    have hlen := multiLoop_length (d.binom i.val) (ps i) 0 (ps i).sum ⌊∑ j, a.v i j⌋₊
    refine List.ext_getElem (by rw [hlen]; simp [hps]) fun j h1 h2 => ?_
    have hj : j < a.c := by simpa using h2
    have := congrFun (congrFun h i) ⟨j, hj⟩
    rw [List.getD, List.getElem?_eq_getElem h1, Option.getD_some] at this
    simp only [List.getElem_map, List.getElem_finRange]
    exact_mod_cast this
  · intro h
    funext i j
    simp [List.getD, h]

theorem col_product_form (env : SimEnv F) {a : Arr2 ℝ} (hnn : ∀ i j, 0 ≤ a.v i j) (hpos : ∀ i, 0 < ∑ j, a.v i j) :
    Nonempty (RowForm F a (fun d => simData env d a "col_product_multinominal")
      (sampleProb "col_product_multinominal" a)) := by
  have h1 : (fun d : Draws F => simData env d a "col_product_multinominal") = fun d => simRows d.binom a := by
    funext d; simp [simData, simProduct]
  have h2 : sampleProb "col_product_multinominal" a = fun X =>
      ∏ i, multinomProb ⌊∑ j, a.v i j⌋₊ (fun j => a.v i j / ∑ k, a.v i k) (X i) := by
    funext X; simp [sampleProb]
  rw [h1, h2]
  exact simRows_form hnn hpos

theorem row_product_form (env : SimEnv F) {a : Arr2 ℝ} (hnn : ∀ i j, 0 ≤ a.v i j) (hpos : ∀ j, 0 < ∑ i, a.v i j) :
    Nonempty (RowForm F a (fun d => simData env d a "row_product_multinominal")
      (sampleProb "row_product_multinominal" a)) := by
  obtain ⟨f⟩ := simRows_form (F := F) (a := a.transpose) (fun i j => hnn j i) hpos
  have hdef : ∀ d : Draws F, simData env d a "row_product_multinominal" = (do
      let t ← simRows d.binom a.transpose
      pure t.transpose) := fun d => by simp [simData, simProduct]
  have hiff : ∀ (d : Draws F) (X : Fin a.r → Fin a.c → ℕ), simData env d a "row_product_multinominal" =
      .ok ⟨a.r, a.c, fun i j => (X i j : ℤ)⟩ ↔ simRows d.binom a.transpose =
      .ok ⟨a.transpose.r, a.transpose.c, fun j i => (X i j : ℤ)⟩ := by
    intro d X
    rw [hdef]
    cases simRows d.binom a.transpose with
    | error e => simp [bind, Except.bind]
    | ok t =>
      simp only [bind, Except.bind, pure, Except.pure, Except.ok.injEq]
      constructor
      · intro h
        have : t = t.transpose.transpose := rfl
        rw [this, h]; rfl
      · rintro rfl; rfl
  exact ⟨{
    R := f.R
    n := f.n
    ps := f.ps
    ks := fun X => f.ks fun j i => X i j
    hne := f.hne
    hnn := f.hnn
    hpos := f.hpos
    run_iff := fun d X => (hiff d X).trans (f.run_iff d fun j i => X i j)
    run_ok := fun d => by
      obtain ⟨X, hX⟩ := f.run_ok d
      exact ⟨fun i j => X j i, (hiff d _).2 hX⟩
    prob := fun X => by
      rw [← f.prob]
      simp [sampleProb]; rfl }⟩

theorem RowForm.law {a : Arr2 ℝ} {run P} (f : RowForm F a run P) {μ : Measure Ω} {d : Ω → Draws F}
    (hd : IdealBinom μ fun ω => (d ω).binom) (X : Fin a.r → Fin a.c → ℕ) :
    μ {ω | run (d ω) = .ok ⟨a.r, a.c, fun i j => (X i j : ℤ)⟩} = ENNReal.ofReal (P X) := by
  simp only [f.run_iff, f.prob]
  exact (rows_law hd Fin.valEmbedding f.n f.ps (f.ks X) f.hne f.hnn f.hpos).2

/-- **C74, 'multinominal'.** With an ideal binomial generator, every table `X` is returned with its multinomial
probability: the records of the sample are independent, and each falls in a cell with the share that the cell has in
the given table. -/
theorem multinominal_law {μ : Measure Ω} {d : Ω → Draws F} (hd : IdealBinom μ fun ω => (d ω).binom) (env : SimEnv F)
    {a : Arr2 ℝ} (ha : IsCount a) (X : Fin a.r → Fin a.c → ℕ) :
    μ {ω | simData env (d ω) a "multinominal" = .ok ⟨a.r, a.c, fun i j => (X i j : ℤ)⟩} =
      ENNReal.ofReal (multinomProb ⌊∑ i, ∑ j, a.v i j⌋₊
        (fun q : Fin a.r × Fin a.c => a.v q.1 q.2 / ∑ i, ∑ j, a.v i j) fun q => X q.1 q.2) := by
  obtain ⟨f⟩ := multinominal_form (F := F) env ha
  rw [f.law hd X]
  simp [sampleProb]

/-- **C74, 'col_product_multinominal'.** Every row of the sample is an independent multinomial draw of the (truncated)
row total, with the shares of the cells in their row. -/
theorem col_product_law {μ : Measure Ω} {d : Ω → Draws F} (hd : IdealBinom μ fun ω => (d ω).binom) (env : SimEnv F)
    {a : Arr2 ℝ} (hnn : ∀ i j, 0 ≤ a.v i j) (hpos : ∀ i, 0 < ∑ j, a.v i j) (X : Fin a.r → Fin a.c → ℕ) :
    μ {ω | simData env (d ω) a "col_product_multinominal" = .ok ⟨a.r, a.c, fun i j => (X i j : ℤ)⟩} =
      ENNReal.ofReal (∏ i, multinomProb ⌊∑ j, a.v i j⌋₊ (fun j => a.v i j / ∑ k, a.v i k) (X i)) := by
  obtain ⟨f⟩ := col_product_form (F := F) env hnn hpos
  rw [f.law hd X]
  simp [sampleProb]

/-- **C74, 'row_product_multinominal'.** Every column of the sample is an independent multinomial draw of the
(truncated) column total, with the shares of the cells in their column. -/
theorem row_product_law {μ : Measure Ω} {d : Ω → Draws F} (hd : IdealBinom μ fun ω => (d ω).binom) (env : SimEnv F)
    {a : Arr2 ℝ} (hnn : ∀ i j, 0 ≤ a.v i j) (hpos : ∀ j, 0 < ∑ i, a.v i j) (X : Fin a.r → Fin a.c → ℕ) :
    μ {ω | simData env (d ω) a "row_product_multinominal" = .ok ⟨a.r, a.c, fun i j => (X i j : ℤ)⟩} =
      ENNReal.ofReal (∏ j, multinomProb ⌊∑ i, a.v i j⌋₊ (fun i => a.v i j / ∑ k, a.v k j) fun i => X i j) := by
  obtain ⟨f⟩ := row_product_form (F := F) env hnn hpos
  rw [f.law hd X]
  simp [sampleProb]

end Phik.Props
