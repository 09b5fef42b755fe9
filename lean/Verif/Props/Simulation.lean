import Verif.Lemmas.Simulation

/-! # Properties C34, C35: what the sampling methods keep fixed -/

namespace Phik.Props

open Spec

variable {F : Type}

/-- Draws aimed at given counts, with harmless values elsewhere. -/
noncomputable def aimed (t : ℕ → ℕ → ℕ) : Draws F := ⟨fun i => aim (t i), 0, ⟨none, 0⟩⟩

theorem aimed_good (t : ℕ → ℕ → ℕ) : GoodDraws (aimed t : Draws F) :=
  ⟨fun _ _ _ _ => aim_le _ _ _ _, fun _ _ _ => aim_zero _ _ _, fun _ _ _ => aim_one _ _ _, le_rfl,
    by simp [aimed]⟩

theorem floor_cast {x : ℝ} (hx : 0 ≤ x) : ((⌊x⌋₊ : ℕ) : ℤ) = ⌊x⌋ := Int.natCast_floor_eq_floor hx

/-- **C35, 'multinominal', every run.** For every table of counts and all random draws the method returns
a table of the same shape without negative entries, with no record in a cell of expectation zero, whose
total is the (truncated) total of the table. -/
theorem multinominal_run (env : SimEnv F) {d : Draws F} (hd : GoodDraws d) {a : Arr2 ℝ} (h : IsCount a) :
    ∃ v, simData env d a "multinominal" = .ok ⟨a.r, a.c, v⟩ ∧ Supported a v ∧
      ∑ i, ∑ j, v i j = ⌊∑ i, ∑ j, a.v i j⌋ := by
  obtain ⟨out, h1, h2, h3, h4⟩ := simVec_spec (binom := d.binom 0) (hd.le 0) (hd.zero 0) (hd.one 0)
    (h := a.ravel) (fun x hx => by obtain ⟨i, j, rfl⟩ := mem_ravel.1 hx; exact h.nonneg i j)
    (by rw [ravel_sum]; exact h.pos)
  rw [ravel_length] at h2
  refine ⟨(reshape out a.r a.c).v, ?_, fun i j => ⟨?_, fun h0 => ?_⟩, ?_⟩
  · unfold simData sim2dData
    rw [if_pos rfl, h1]; rfl
  · exact Int.natCast_nonneg _
  · have hlt := pos_lt i j
    have hr := ravel_get a i j
    rw [List.getElem?_eq_getElem (by rw [ravel_length]; exact hlt)] at hr
    have := List.Forall₂.get h3 (i := i.val * a.c + j.val) (by rw [ravel_length]; exact hlt) (by omega)
    simp only [List.get_eq_getElem] at this
    rw [Option.some.injEq] at hr
    have := this (by rw [hr, h0])
    simp only [reshape, List.getD, List.getElem?_eq_getElem (show i.val * a.c + j.val < out.length by omega),
      Option.getD_some, this, Nat.cast_zero]
  · refine (sum_reshape h2).trans ?_
    rw [h4, ravel_sum, floor_cast h.pos.le]; rfl

theorem forall₂_ravel {a : Arr2 ℝ} {v : Fin a.r → Fin a.c → ℕ} (h : ∀ i j, a.v i j = 0 → v i j = 0) :
    List.Forall₂ (fun p (x : ℕ) => p = 0 → x = 0) a.ravel (⟨a.r, a.c, v⟩ : Arr2 ℕ).ravel := by
  unfold Arr2.ravel
  rw [List.flatMap, List.flatMap]
  apply List.rel_flatten
  rw [List.forall₂_map_left_iff, List.forall₂_map_right_iff, List.forall₂_same]
  intro i _
  rw [List.forall₂_map_left_iff, List.forall₂_map_right_iff, List.forall₂_same]
  exact fun j _ => h i j

/-- **C35, 'multinominal', every result.** The results the method can return are exactly the supported
tables with the (truncated) total of the given table: nothing else is kept fixed. -/
theorem multinominal_iff (env : SimEnv F) {a : Arr2 ℝ} (h : IsCount a) (v : Fin a.r → Fin a.c → ℤ) :
    (∃ d : Draws F, GoodDraws d ∧ simData env d a "multinominal" = .ok ⟨a.r, a.c, v⟩) ↔
      Supported a v ∧ ∑ i, ∑ j, v i j = ⌊∑ i, ∑ j, a.v i j⌋ := by
  constructor
  · rintro ⟨d, hd, hv⟩
    obtain ⟨w, h1, h2⟩ := multinominal_run env hd h
    rw [h1] at hv
    simp only [Except.ok.injEq, Arr2.mk.injEq, heq_eq_eq, true_and] at hv
    rw [← hv]; exact h2
  · rintro ⟨hs, hsum⟩
    obtain ⟨w, rfl⟩ : ∃ w : Fin a.r → Fin a.c → ℕ, v = fun i j => (w i j : ℤ) :=
      ⟨fun i j => (v i j).toNat, by funext i j; rw [Int.toNat_of_nonneg (hs i j).1]⟩
    set l := (⟨a.r, a.c, w⟩ : Arr2 ℕ).ravel with hl
    refine ⟨aimed fun _ k => l.getD k 0, aimed_good _, ?_⟩
    unfold simData sim2dData
    rw [if_pos rfl]
    have hvec : simVec ((aimed (fun _ k => l.getD k 0) : Draws F).binom 0) a.ravel 0 = .ok l := by
      apply simVec_aim
      · intro x hx; obtain ⟨i, j, rfl⟩ := mem_ravel.1 hx; exact h.nonneg i j
      · rw [ravel_sum]; exact h.pos
      · exact forall₂_ravel fun i j h0 => by exact Int.natCast_eq_zero.1 ((hs i j).2 h0)
      · rw [hl, ravel_sum', ravel_sum]
        have := floor_cast h.pos.le
        have h3 : ((⌊a.total⌋₊ : ℕ) : ℤ) = ((∑ i, ∑ j, w i j : ℕ) : ℤ) := by
          rw [this]; push_cast; exact hsum.symm
        exact_mod_cast h3.symm
      · intro k hk; simp [List.getD, List.getElem?_eq_getElem hk]
    rw [hvec]
    simp only [bind, Except.bind, pure, Except.pure, reshape, Except.ok.injEq, Arr2.mk.injEq, heq_eq_eq,
      true_and]
    funext i j
    have := ravel_get (⟨a.r, a.c, w⟩ : Arr2 ℕ) i j
    simp only [← hl] at this
    simp [List.getD, this]

/-! ### product methods -/

theorem mapM_ok_all {α β : Type} {f : α → Except Err β} {g : α → β} {l : List α}
    (h : ∀ x ∈ l, f x = .ok (g x)) : l.mapM f = .ok (l.map g) := by
  induction l with
  | nil => rfl
  | cons x l ih =>
    rw [List.mapM_cons, h x (by simp), ih fun y hy => h y (List.mem_cons_of_mem _ hy)]
    rfl

theorem mapM_error_of {α β : Type} {f : α → Except Err β} {e : Err} {l : List α}
    (h : ∀ x ∈ l, (∃ y, f x = .ok y) ∨ f x = .error e) (h2 : ∃ x ∈ l, f x = .error e) :
    l.mapM f = .error e := by
  induction l with
  | nil => simp at h2
  | cons x l ih =>
    rw [List.mapM_cons]
    rcases h x (by simp) with ⟨y, hy⟩ | hy
    · rw [hy]
      obtain ⟨z, hz, hz2⟩ := h2
      rcases List.mem_cons.1 hz with rfl | hz
      · rw [hz2] at hy; cases hy
      · simp only [bind, Except.bind]
        rw [ih (fun y hy => h y (List.mem_cons_of_mem _ hy)) ⟨z, hz, hz2⟩]
    · rw [hy]; rfl

theorem row_sum (a : Arr2 ℝ) (i : Fin a.r) : ((List.finRange a.c).map (a.v i)).sum = ∑ j, a.v i j := by
  rw [← List.ofFn_eq_map, List.sum_ofFn]

theorem simRows_run {d : Draws F} (hd : GoodDraws d) {a : Arr2 ℝ} (hnn : ∀ i j, 0 ≤ a.v i j)
    (hpos : ∀ i, 0 < ∑ j, a.v i j) :
    ∃ v, simRows d.binom a = .ok ⟨a.r, a.c, v⟩ ∧ Supported a v ∧ ∀ i, ∑ j, v i j = ⌊∑ j, a.v i j⌋ := by
  have key : ∀ i : Fin a.r, ∃ out, simVec (d.binom i.val) ((List.finRange a.c).map (a.v i)) 0 = .ok out ∧
      out.length = a.c ∧ (∀ j : Fin a.c, a.v i j = 0 → out.getD j 0 = 0) ∧
      ∑ j : Fin a.c, ((out.getD j 0 : ℕ) : ℤ) = ⌊∑ j, a.v i j⌋ := by
    intro i
    obtain ⟨out, h1, h2, h3, h4⟩ := simVec_spec (binom := d.binom i.val) (hd.le _) (hd.zero _) (hd.one _)
      (h := (List.finRange a.c).map (a.v i)) (fun x hx => by
        obtain ⟨j, -, rfl⟩ := List.mem_map.1 hx; exact hnn i j) (by rw [row_sum]; exact hpos i)
    rw [List.length_map, List.length_finRange] at h2
    refine ⟨out, h1, h2, fun j h0 => ?_, ?_⟩
    · have := List.Forall₂.get h3 (i := j.val) (by simp) (by rw [h2]; exact j.isLt)
      simp only [List.get_eq_getElem, List.getElem_map, List.getElem_finRange] at this
      simp only [List.getD, List.getElem?_eq_getElem (show j.val < out.length by omega), Option.getD_some]
      exact this (by simpa using h0)
    · rw [row_sum] at h4
      rw [← floor_cast (hpos i).le, ← h4, ← Nat.cast_sum]
      congr 1
      generalize a.c = c at h2 ⊢
      subst h2
      conv_rhs => rw [← List.ofFn_getElem (xs := out), List.sum_ofFn]
      exact Finset.sum_congr rfl fun j _ => by simp [List.getD]
  choose out h1 h2 h3 h4 using key
  refine ⟨fun i j => ((out i).getD j 0 : ℕ), ?_, fun i j => ⟨Int.natCast_nonneg _, fun h0 => ?_⟩, h4⟩
  · unfold simRows
    rw [mapM_ok_all (g := out) fun i _ => h1 i]
    simp only [bind, Except.bind, pure, Except.pure, Except.ok.injEq, Arr2.mk.injEq, heq_eq_eq, true_and]
    funext i j
    simp [List.getD]
  · exact Int.natCast_eq_zero.2 (h3 i j h0)

theorem simRows_iff {a : Arr2 ℝ} (hnn : ∀ i j, 0 ≤ a.v i j)
    (hpos : ∀ i, 0 < ∑ j, a.v i j) (v : Fin a.r → Fin a.c → ℤ) :
    (∃ d : Draws F, GoodDraws d ∧ simRows d.binom a = .ok ⟨a.r, a.c, v⟩) ↔
      Supported a v ∧ ∀ i, ∑ j, v i j = ⌊∑ j, a.v i j⌋ := by
  constructor
  · rintro ⟨d, hd, hv⟩
    obtain ⟨w, h1, h2⟩ := simRows_run hd hnn hpos
    rw [h1] at hv
    simp only [Except.ok.injEq, Arr2.mk.injEq, heq_eq_eq, true_and] at hv
    rw [← hv]; exact h2
  · rintro ⟨hs, hsum⟩
    obtain ⟨w, rfl⟩ : ∃ w : Fin a.r → Fin a.c → ℕ, v = fun i j => (w i j : ℤ) :=
      ⟨fun i j => (v i j).toNat, by funext i j; rw [Int.toNat_of_nonneg (hs i j).1]⟩
    set t : ℕ → ℕ → ℕ := fun i j => if h : i < a.r ∧ j < a.c then w ⟨i, h.1⟩ ⟨j, h.2⟩ else 0 with ht
    have htw : ∀ (i : Fin a.r) (j : Fin a.c), t i j = w i j := fun i j => by simp [ht]
    refine ⟨aimed t, aimed_good _, ?_⟩
    unfold simRows
    rw [mapM_ok_all (g := fun i : Fin a.r => (List.finRange a.c).map fun j => w i j)]
    · simp only [bind, Except.bind, pure, Except.pure, Except.ok.injEq, Arr2.mk.injEq, heq_eq_eq, true_and]
      funext i j
      simp [List.getD]
    · intro i _
      apply simVec_aim
      · intro x hx; obtain ⟨j, -, rfl⟩ := List.mem_map.1 hx; exact hnn i j
      · rw [row_sum]; exact hpos i
      · rw [List.forall₂_map_left_iff, List.forall₂_map_right_iff, List.forall₂_same]
        intro j _ h0
        exact Int.natCast_eq_zero.1 ((hs i j).2 h0)
      · rw [row_sum, ← List.ofFn_eq_map, List.sum_ofFn]
        have h3 : ((⌊∑ j, a.v i j⌋₊ : ℕ) : ℤ) = ((∑ j, w i j : ℕ) : ℤ) := by
          rw [floor_cast (hpos i).le]; push_cast; exact (hsum i).symm
        exact_mod_cast h3.symm
      · intro k hk
        simp only [List.length_map, List.length_finRange] at hk
        simp only [List.getElem_map, List.getElem_finRange]
        exact htw i ⟨k, hk⟩

/-- **C35, 'col_product_multinominal', every run.** The method keeps the ROW totals (not the column
totals its name and documentation say): for all random draws, the result has the shape of the table and
its (truncated) row sums. -/
theorem col_product_run (env : SimEnv F) {d : Draws F} (hd : GoodDraws d) {a : Arr2 ℝ}
    (hnn : ∀ i j, 0 ≤ a.v i j) (hpos : ∀ i, 0 < ∑ j, a.v i j) :
    ∃ v, simData env d a "col_product_multinominal" = .ok ⟨a.r, a.c, v⟩ ∧ Supported a v ∧
      ∀ i, ∑ j, v i j = ⌊∑ j, a.v i j⌋ := by
  obtain ⟨v, h1, h2⟩ := simRows_run hd hnn hpos
  refine ⟨v, ?_, h2⟩
  simpa [simData, simProduct] using h1

/-- **C35, 'col_product_multinominal', every result.** The possible results are exactly the supported
tables with these row sums. -/
theorem col_product_iff (env : SimEnv F) {a : Arr2 ℝ} (hnn : ∀ i j, 0 ≤ a.v i j)
    (hpos : ∀ i, 0 < ∑ j, a.v i j) (v : Fin a.r → Fin a.c → ℤ) :
    (∃ d : Draws F, GoodDraws d ∧ simData env d a "col_product_multinominal" = .ok ⟨a.r, a.c, v⟩) ↔
      Supported a v ∧ ∀ i, ∑ j, v i j = ⌊∑ j, a.v i j⌋ := by
  rw [← simRows_iff (F := F) hnn hpos]
  simp [simData, simProduct]

/-- **C35, 'row_product_multinominal', every run.** The method keeps the COLUMN totals. -/
theorem row_product_run (env : SimEnv F) {d : Draws F} (hd : GoodDraws d) {a : Arr2 ℝ}
    (hnn : ∀ i j, 0 ≤ a.v i j) (hpos : ∀ j, 0 < ∑ i, a.v i j) :
    ∃ v, simData env d a "row_product_multinominal" = .ok ⟨a.r, a.c, v⟩ ∧ Supported a v ∧
      ∀ j, ∑ i, v i j = ⌊∑ i, a.v i j⌋ := by
  obtain ⟨v, h1, h2, h3⟩ := simRows_run (a := a.transpose) hd (fun i j => hnn j i) hpos
  refine ⟨fun i j => v j i, ?_, fun i j => h2 j i, h3⟩
  have : simData env d a "row_product_multinominal" = (do
      let t ← simRows d.binom a.transpose
      pure t.transpose) := by simp [simData, simProduct]
  rw [this, h1]; rfl

/-- **C35, 'row_product_multinominal', every result.** The possible results are exactly the supported
tables with these column sums. -/
theorem row_product_iff (env : SimEnv F) {a : Arr2 ℝ} (hnn : ∀ i j, 0 ≤ a.v i j)
    (hpos : ∀ j, 0 < ∑ i, a.v i j) (v : Fin a.r → Fin a.c → ℤ) :
    (∃ d : Draws F, GoodDraws d ∧ simData env d a "row_product_multinominal" = .ok ⟨a.r, a.c, v⟩) ↔
      Supported a v ∧ ∀ j, ∑ i, v i j = ⌊∑ i, a.v i j⌋ := by
  constructor
  · rintro ⟨d, hd, hv⟩
    obtain ⟨w, h1, h2⟩ := row_product_run env hd hnn hpos
    rw [h1] at hv
    simp only [Except.ok.injEq, Arr2.mk.injEq, heq_eq_eq, true_and] at hv
    rw [← hv]; exact h2
  · rintro ⟨hs, hsum⟩
    obtain ⟨d, hd, h⟩ := (simRows_iff (F := F) (a := a.transpose) (fun i j => hnn j i) hpos
      fun j i => v i j).2 ⟨fun j i => hs i j, hsum⟩
    refine ⟨d, hd, ?_⟩
    have : simData env d a "row_product_multinominal" = (do
        let t ← simRows d.binom a.transpose
        pure t.transpose) := by simp [simData, simProduct]
    rw [this, h]; rfl

/-- The table of the examples: 2 records in every cell of a 2 by 2 table. -/
def twos : Arr2 ℝ := ⟨2, 2, fun _ _ => 2⟩

theorem twos_count : IsCount twos := ⟨fun _ _ => by simp [twos], by
  change 0 < ∑ i : Fin 2, ∑ j : Fin 2, (2 : ℝ)
  norm_num⟩

/-- **C35 (violation).** 'row_product_multinominal' does not keep the row totals it is documented to keep:
from the table of twos it can return rows with 8 and 0 records.  In the same way
'col_product_multinominal' does not keep the column totals. -/
theorem product_names_swapped (env : SimEnv F) :
    (∃ d : Draws F, GoodDraws d ∧ simData env d twos "row_product_multinominal" =
      .ok ⟨2, 2, fun i _ => if i = 0 then 4 else 0⟩) ∧
    (∃ d : Draws F, GoodDraws d ∧ simData env d twos "col_product_multinominal" =
      .ok ⟨2, 2, fun _ j => if j = 0 then 4 else 0⟩) := by
  constructor
  · apply (row_product_iff env (a := twos) (fun _ _ => by simp [twos]) (fun _ => by
      change 0 < ∑ _i : Fin 2, (2 : ℝ)
      norm_num) _).2
    refine ⟨fun i j => ⟨by dsimp only; split <;> norm_num, fun h => absurd h (two_ne_zero (α := ℝ))⟩, fun j => ?_⟩
    change ∑ i : Fin 2, (if i = 0 then (4 : ℤ) else 0) = ⌊∑ i : Fin 2, (2 : ℝ)⌋
    norm_num
  · apply (col_product_iff env (a := twos) (fun _ _ => by simp [twos]) (fun _ => by
      change 0 < ∑ _i : Fin 2, (2 : ℝ)
      norm_num) _).2
    refine ⟨fun i j => ⟨by dsimp only; split <;> norm_num, fun h => absurd h (two_ne_zero (α := ℝ))⟩, fun j => ?_⟩
    change ∑ i : Fin 2, (if i = 0 then (4 : ℤ) else 0) = ⌊∑ i : Fin 2, (2 : ℝ)⌋
    norm_num

/-- Non-trivial use of the multinomial characterisation: from the table of twos all eight records can end
up in one cell. -/
example (env : SimEnv F) : ∃ d : Draws F, GoodDraws d ∧ simData env d twos "multinominal" =
    .ok ⟨2, 2, fun i j => if i = 0 ∧ j = 0 then 8 else 0⟩ := by
  apply (multinominal_iff env twos_count _).2
  refine ⟨fun i j => ⟨by dsimp only; split <;> norm_num, fun h => absurd h (two_ne_zero (α := ℝ))⟩, ?_⟩
  change ∑ i : Fin 2, ∑ j : Fin 2, (if i = 0 ∧ j = 0 then (8 : ℤ) else 0) = ⌊∑ i : Fin 2, ∑ j : Fin 2, (2 : ℝ)⌋
  simp [Fin.sum_univ_two]
  norm_num

/-- **C35.** A table with a row (column) that sums to zero is refused by the product methods with
ValueError, and a table of zeros by the multinomial method. -/
theorem product_empty (env : SimEnv F) (d : Draws F) (hd : GoodDraws d) {a : Arr2 ℝ}
    (hnn : ∀ i j, 0 ≤ a.v i j) :
    ((∃ i, ∑ j, a.v i j = 0) → simData env d a "col_product_multinominal" = .error .value) ∧
    ((∃ j, ∑ i, a.v i j = 0) → simData env d a "row_product_multinominal" = .error .value) ∧
    ((∑ i, ∑ j, a.v i j = 0) → simData env d a "multinominal" = .error .value) := by
  have key : ∀ b : Arr2 ℝ, (∀ i j, 0 ≤ b.v i j) → (∃ i, ∑ j, b.v i j = 0) →
      simRows d.binom b = .error .value := by
    intro b hb hz
    have hzero : ∀ i : Fin b.r, ∑ j, b.v i j = 0 →
        simVec (d.binom i.val) ((List.finRange b.c).map (b.v i)) 0 = .error .value := by
      intro i hi
      unfold simVec
      simp only [row_sum, hi, le_refl, if_true]
    unfold simRows
    rw [mapM_error_of (e := .value)]
    · rfl
    · intro i _
      rcases (Finset.sum_nonneg fun j _ => hb i j : 0 ≤ ∑ j, b.v i j).eq_or_lt with h0 | h0
      · exact .inr (hzero i h0.symm)
      · obtain ⟨out, h1, -⟩ := simVec_spec (binom := d.binom i.val) (hd.le _) (hd.zero _) (hd.one _)
          (h := (List.finRange b.c).map (b.v i)) (fun x hx => by
            obtain ⟨j, -, rfl⟩ := List.mem_map.1 hx; exact hb i j) (by rw [row_sum]; exact h0)
        exact .inl ⟨out, h1⟩
    · obtain ⟨i, hi⟩ := hz
      exact ⟨i, List.mem_finRange i, hzero i hi⟩
  refine ⟨fun h => ?_, fun h => ?_, fun h => ?_⟩
  · simpa [simData, simProduct] using key a hnn h
  · have : simData env d a "row_product_multinominal" = (do
        let t ← simRows d.binom a.transpose
        pure t.transpose) := by simp [simData, simProduct]
    rw [this, key a.transpose (fun i j => hnn j i) h]; rfl
  · unfold simData sim2dData simVec
    simp only [ravel_sum, Arr2.total, h, le_refl, if_true]
    rfl

/-- **C34 (simulation).** An unknown simulation method, an axis other than 0 and 1, and the hypergeometric
method without the extension raise NotImplementedError. -/
theorem sim_method_unknown (env : SimEnv F) (d : Draws F) (a : Arr2 ℝ) {method : String}
    (h : method ∉ ["multinominal", "hypergeometric", "row_product_multinominal",
      "col_product_multinominal"]) :
    simData env d a method = .error .notImplemented := by
  simp only [List.mem_cons, List.not_mem_nil, or_false, not_or] at h
  simp [simData, h]

theorem product_axis_unknown (binom : ℕ → ℕ → ℕ → ℝ → ℕ) (a : Arr2 ℝ) {axis : ℤ} (h0 : axis ≠ 0)
    (h1 : axis ≠ 1) : simProduct binom a axis = .error .notImplemented := by
  simp [simProduct, h0, h1]

theorem patefield_no_extension {env : SimEnv F} (h : env.cpp = false) (d : Draws F) (a : Arr2 ℝ)
    (seed : Option ℤ) :
    simPatefield env d a seed = .error .notImplemented ∧
    simData env d a "hypergeometric" = .error .notImplemented := by
  have : ∀ s, simPatefield env d a s = .error .notImplemented := by
    intro s; unfold simPatefield; rw [h]; rfl
  exact ⟨this _, by simp [simData, this]⟩

example : "multinomial" ∉ ["multinominal", "hypergeometric", "row_product_multinominal",
      "col_product_multinominal"] := by decide

end Phik.Props
