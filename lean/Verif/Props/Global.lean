import Verif.Props.Records
import Mathlib.Analysis.Matrix.PosDef

/-! # Property C24: global correlations -/

namespace Phik

open Spec Props Matrix

open scoped Classical in
theorem globalOf_eq {t : LTable} (h : AllNumbers t) (hd : (tableMatrix t).det ≠ 0) :
    globalOf t = .ok ((List.finRange t.rows.length).map fun i =>
      (if tableMatrix t i i * (tableMatrix t)⁻¹ i i = 0 then GVal.byZero
      else if 1 - 1 / (tableMatrix t i i * (tableMatrix t)⁻¹ i i) < 0 then GVal.nan
      else GVal.num (Real.sqrt (1 - 1 / (tableMatrix t i i * (tableMatrix t)⁻¹ i i))))) := by
  unfold globalOf
  rw [if_neg]
  · change (if (tableMatrix t).det = 0 then _ else _) = _
    rw [if_neg hd]
    rfl
  · rintro ⟨a, ha, b, hb, hab⟩
    exact h a ha b hb hab

theorem zip_self {α : Type} (l : List α) : l.zip l = l.map fun x => (x, x) := by
  induction l with
  | nil => rfl
  | cons x xs ih => simp [ih]

theorem quad_inv {n : ℕ} {V : Matrix (Fin n) (Fin n) ℝ} (hV : V.PosDef) (i : Fin n) (h1 : V i i = 1) :
    1 ≤ V⁻¹ i i ∧ (V⁻¹ i i = 1 ↔ ∀ j, j ≠ i → V i j = 0) := by
  have hdet : IsUnit V.det := hV.det_pos.ne'.isUnit
  set e : Fin n → ℝ := Pi.single i 1 with he
  set u : Fin n → ℝ := V⁻¹ *ᵥ e with hu
  have hVu : V *ᵥ u = e := by rw [hu, mulVec_mulVec, mul_nonsing_inv _ hdet, one_mulVec]
  have hui : u i = V⁻¹ i i := by rw [hu, he]; simp
  have hsymm : ∀ j k, V j k = V k j := fun j k => by
    have := hV.isHermitian.apply j k
    simpa using this.symm
  have hVe : ∀ j, (V *ᵥ e) j = V i j := fun j => by rw [he]; simp [hsymm j i]
  have huVe : u ⬝ᵥ (V *ᵥ e) = 1 := by
    have hT : Vᵀ = V := by ext j k; exact hsymm k j
    rw [dotProduct_mulVec, ← mulVec_transpose, hT, hVu, he]
    simp
  have hquad : (u - e) ⬝ᵥ (V *ᵥ (u - e)) = V⁻¹ i i - 1 := by
    rw [mulVec_sub, dotProduct_sub, sub_dotProduct, sub_dotProduct, hVu, huVe]
    have h2 : u ⬝ᵥ e = V⁻¹ i i := by rw [he]; simp [hui]
    have h3 : e ⬝ᵥ e = 1 := by rw [he]; simp
    have h4 : e ⬝ᵥ (V *ᵥ e) = 1 := by rw [he]; simp [h1]
    rw [h2, h3, h4]; ring
  have hnn : 0 ≤ (u - e) ⬝ᵥ (V *ᵥ (u - e)) := by
    have := hV.posSemidef.dotProduct_mulVec_nonneg (u - e)
    simpa using this
  refine ⟨by linarith, ?_, ?_⟩
  · intro h
    have hzero : u - e = 0 := by
      by_contra hne
      have := hV.dotProduct_mulVec_pos hne
      simp only [star_trivial] at this
      rw [hquad, h] at this
      linarith
    have hue : u = e := sub_eq_zero.1 hzero
    rw [hue] at hVu
    intro j hj
    rw [← hVe j, hVu, he]
    simp [hj]
  · intro h
    have : V *ᵥ e = e := by
      funext j
      rw [hVe j]
      by_cases hj : j = i
      · rw [hj, h1, he]; simp
      · rw [h j hj, he]; simp [hj]
    have hue : u = e := by
      rw [hu]
      conv_lhs => rw [← this]
      rw [mulVec_mulVec, nonsing_inv_mul _ hdet, one_mulVec]
    rw [← hui, hue, he]; simp

namespace Props

/-- **C24 (positive definite).** If the phik matrix is positive definite with ones on the diagonal, there is
one global correlation per column, a number in [0, 1), and it is zero exactly for the columns that are
uncorrelated with all others. -/
theorem global_range {t : LTable} (h : AllNumbers t) (hdiag : ∀ a ∈ t.rows, t.v a a = some 1)
    (hp : (tableMatrix t).PosDef) :
    ∃ g : List ℝ, globalOf t = .ok (g.map .num) ∧ g.length = t.rows.length ∧
      ∀ (i : ℕ) (hi : i < t.rows.length) (hg : i < g.length), 0 ≤ g[i] ∧ g[i] < 1 ∧
        (g[i] = 0 ↔ ∀ (j : ℕ) (hj : j < t.rows.length), j ≠ i → t.v t.rows[i] t.rows[j] = some 0) := by
  have hone : ∀ i, tableMatrix t i i = 1 := by
    intro i
    unfold tableMatrix
    have := hdiag _ (List.getElem_mem i.2)
    simp only [Fin.getElem_fin, this, Option.getD_some]
  refine ⟨(List.finRange t.rows.length).map fun i => Real.sqrt (1 - 1 / (tableMatrix t)⁻¹ i i), ?_, by simp, ?_⟩
  · rw [globalOf_eq h hp.det_pos.ne', List.map_map]
    congr 1
    apply List.map_congr_left
    intro i _
    obtain ⟨h1, -⟩ := quad_inv hp i (hone i)
    have hpos : 0 < (tableMatrix t)⁻¹ i i := by linarith
    have h2 : 1 / (tableMatrix t)⁻¹ i i ≤ 1 := by rw [div_le_one hpos]; exact h1
    simp only [hone i, one_mul]
    rw [if_neg hpos.ne', if_neg (by linarith)]
    rfl
  · intro i hi hg
    obtain ⟨h1, h3⟩ := quad_inv hp ⟨i, hi⟩ (hone _)
    have hpos : 0 < (tableMatrix t)⁻¹ ⟨i, hi⟩ ⟨i, hi⟩ := by linarith
    have h2 : 1 / (tableMatrix t)⁻¹ ⟨i, hi⟩ ⟨i, hi⟩ ≤ 1 := by rw [div_le_one hpos]; exact h1
    have h4 : 0 < 1 / (tableMatrix t)⁻¹ ⟨i, hi⟩ ⟨i, hi⟩ := by positivity
    simp only [List.getElem_map, List.getElem_finRange, Fin.cast_mk]
    refine ⟨Real.sqrt_nonneg _, ?_, ?_⟩
    · rw [Real.sqrt_lt' one_pos]; linarith
    · rw [Real.sqrt_eq_zero (by linarith), sub_eq_zero, eq_div_iff hpos.ne', one_mul, h3]
      constructor
      · intro hz j hj hji
        have := hz ⟨j, hj⟩ (by simpa using hji)
        unfold tableMatrix at this
        cases hv : t.v t.rows[i] t.rows[j] with
        | none => exact absurd hv (h _ (List.getElem_mem _) _ (List.getElem_mem _))
        | some x =>
          simp only [Fin.getElem_fin, hv, Option.getD_some] at this
          rw [this]
      · intro hz j hji
        have := hz j j.2 (fun e => hji (Fin.ext e))
        unfold tableMatrix
        simp only [Fin.getElem_fin, this, Option.getD_some]

/-- **C24 (singular).** A singular phik matrix raises LinAlgError. -/
theorem global_singular {t : LTable} (h : AllNumbers t) (hd : (tableMatrix t).det = 0) :
    globalOf t = .error .linAlg := by
  unfold globalOf
  rw [if_neg]
  · exact if_pos hd
  · rintro ⟨a, ha, b, hb, hab⟩
    exact h a ha b hb hab

/-- **C24 (singular, two columns with the same correlations).** -/
theorem global_twins {t : LTable} (h : AllNumbers t) {a b : String} (ha : a ∈ t.rows)
    (hb : b ∈ t.rows) (hab : a ≠ b) (htwin : ∀ c ∈ t.rows, t.v a c = t.v b c) :
    globalOf t = .error .linAlg := by
  apply global_singular h
  obtain ⟨i, hi, rfl⟩ := List.getElem_of_mem ha
  obtain ⟨j, hj, rfl⟩ := List.getElem_of_mem hb
  have hij : (⟨i, hi⟩ : Fin t.rows.length) ≠ ⟨j, hj⟩ := by
    intro e
    simp only [Fin.mk.injEq] at e
    subst e
    exact hab rfl
  refine Matrix.det_zero_of_row_eq hij ?_
  funext k
  unfold tableMatrix
  simp only [Fin.getElem_fin]
  rw [htwin _ (List.getElem_mem _)]

/-- **C24 (two columns).** For two columns both global correlations are their phik, unless that is 1. -/
theorem global_two {t : LTable} {a b : String} (hrows : t.rows = [a, b]) {p : ℝ} (haa : t.v a a = some 1)
    (hbb : t.v b b = some 1) (hab : t.v a b = some p) (hba : t.v b a = some p) (h0 : 0 ≤ p) (h1 : p < 1) :
    globalOf t = .ok [.num p, .num p] := by
  obtain ⟨rows, cols, v⟩ := t
  simp only at hrows haa hbb hab hba
  subst hrows
  set t : LTable := ⟨[a, b], cols, v⟩ with ht
  have hall : AllNumbers t := by
    intro x hx y hy
    simp only [ht, List.mem_cons, List.not_mem_nil, or_false] at hx hy
    rcases hx with rfl | rfl <;> rcases hy with rfl | rfl <;> simp_all
  have hM : (tableMatrix t : Matrix (Fin 2) (Fin 2) ℝ) = !![1, p; p, 1] := by
    ext i j
    fin_cases i <;> fin_cases j <;> simp [tableMatrix, ht, haa, hbb, hab, hba]
  have hdet : (tableMatrix t : Matrix (Fin 2) (Fin 2) ℝ).det = 1 - p ^ 2 := by
    rw [hM, Matrix.det_fin_two_of]; ring
  have hpos : 0 < 1 - p ^ 2 := by nlinarith
  have hinv : ∀ i, (tableMatrix t : Matrix (Fin 2) (Fin 2) ℝ)⁻¹ i i = 1 / (1 - p ^ 2) := by
    intro i
    rw [Matrix.inv_def, hdet, hM, Matrix.adjugate_fin_two_of]
    fin_cases i <;> simp
  have hone : ∀ i, (tableMatrix t : Matrix (Fin 2) (Fin 2) ℝ) i i = 1 := by
    intro i; rw [hM]; fin_cases i <;> simp
  rw [globalOf_eq hall (by rw [show (tableMatrix t).det = 1 - p ^ 2 from hdet]; exact hpos.ne')]
  classical
  have hval : ∀ i : Fin 2, (if tableMatrix t i i * (tableMatrix t)⁻¹ i i = 0 then GVal.byZero
      else if 1 - 1 / (tableMatrix t i i * (tableMatrix t)⁻¹ i i) < 0 then .nan
      else .num (Real.sqrt (1 - 1 / (tableMatrix t i i * (tableMatrix t)⁻¹ i i)))) = .num p := by
    intro i
    have e1 : tableMatrix t i i * (tableMatrix t)⁻¹ i i = 1 / (1 - p ^ 2) := by
      rw [show tableMatrix t i i = 1 from hone i, show (tableMatrix t)⁻¹ i i = 1 / (1 - p ^ 2) from hinv i]
      ring
    have e2 : 1 - 1 / (1 / (1 - p ^ 2)) = p ^ 2 := by field_simp; ring
    rw [e1, e2, if_neg (one_div_pos.2 hpos).ne', if_neg (not_lt.2 (sq_nonneg p)), Real.sqrt_sq h0]
  change Except.ok (((List.finRange 2).map _)) = _
  have : List.finRange 2 = [0, 1] := rfl
  rw [this]
  simp only [List.map_cons, List.map_nil]
  congr 1
  exact congrArg₂ (fun x y => [x, y]) (hval 0) (hval 1)

/-- The entry of two different columns, in any order. -/
theorem matrix_entry {nm : Numerics} (hm : MvnSpec nm.mvn) {noise dropna du dof : Bool} {f : Frame} {t : LTable}
    (h : IsPhikMatrix nm noise dropna du dof f t) (hn : f.names.Nodup) {a b : Column} (ha : a ∈ f.cols)
    (hb : b ∈ f.cols) (hab : a.name ≠ b.name) :
    IsPhik nm noise (records dropna du dof a b) (t.v a.name b.name) := by
  have huniq : ∀ c ∈ f.cols, ∀ d ∈ f.cols, c.name = d.name → c = d := fun c hc d hd e =>
    List.inj_on_of_nodup_map hn hc hd e
  have hma : a.name ∈ f.names := List.mem_map_of_mem ha
  have hmb : b.name ∈ f.names := List.mem_map_of_mem hb
  rcases sublist_total hma hmb hab with hs | hs
  · obtain ⟨ca, hca, cb, hcb, ea, eb, hp⟩ := h.entry _ _ hs
    rw [huniq ca hca a ha ea, huniq cb hcb b hb eb] at hp
    exact hp
  · obtain ⟨cb, hcb, ca, hca, eb, ea, hp⟩ := h.entry _ _ hs
    rw [huniq ca hca a ha ea, huniq cb hcb b hb eb, ← h.symm _ hma _ hmb, ← isPhik_swap hm noise] at hp
    have : (records dropna du dof b a).map Prod.swap = records dropna du dof a b := by
      unfold records
      rw [← List.zip_swap a.cells b.cells, List.map_map, List.map_map]
      rfl
    rwa [this] at hp

/-- **C24.** `global_phik_from_rebinned_df` returns the global correlations of the phik matrix of the
frame with the column names, or raises what their computation raises. -/
theorem global_of_frame {nm : Numerics} (hg : GoodNumerics nm) {sched : Option (List ℕ)} {r : Ref}
    {w : World} {f : Frame} (hr : w.heap[r]? = some f) (hn : f.names.Nodup)
    (hs : ValidSched (cwr f.names).length sched) (noise dropna du dof : Bool) :
    ∃ t, IsPhikMatrix nm noise dropna du dof f t ∧
      ((globalFromRebinned nm sched r noise dropna du dof).exec w).1 =
        (globalOf t).map fun g => (g, f.names) := by
  obtain ⟨t, w', h1, h2, -⟩ := phik_matrix_of_frame hg hr hn hs noise dropna du dof
  refine ⟨t, h2, ?_⟩
  unfold globalFromRebinned
  rw [M.exec_bind, h1]
  simp only [M.exec_bind, M.exec_ofExcept]
  cases globalOf t with
  | error e => rfl
  | ok g => simp only [Except.map]; rw [← h2.rows]; rfl

/-- **C24.** `global_phik_array` is `phik_matrix` with the same arguments followed by the computation of the
global correlations; it raises exactly what one of the two raises. -/
theorem global_phik_array_result (nm : Numerics) (sched : Option (List ℕ)) (fl : ℚ → ℚ)
    (pf : String → Option (Option ℚ)) (r : Ref) (w : World) (ic : Option (List String)) (bins : Bins)
    (quantile noise dropna du dof : Bool) :
    ((globalPhikArray nm sched fl pf r ic bins quantile noise dropna du dof).exec w).1 =
      match ((phikMatrix nm sched fl pf r ic bins quantile noise dropna du dof).exec w).1 with
      | .error e => .error e
      | .ok t => (globalOf t).map fun g => (g, t.rows) := by
  unfold globalPhikArray phikMatrix globalFromRebinned
  simp only [M.exec_bind]
  cases (M.read r).exec w with
  | mk res w1 =>
    cases res with
    | error e => rfl
    | ok df =>
      simp only [M.exec_bind]
      cases (dqCheck r (ic.getD (guessIntervalCols df)) dropna).exec w1 with
      | mk res w2 =>
        cases res with
        | error e => rfl
        | ok p =>
          obtain ⟨clean, icc⟩ := p
          simp only [M.exec_bind]
          cases (binData fl pf clean icc bins quantile).exec w2 with
          | mk res w3 =>
            cases res with
            | error e => rfl
            | ok p =>
              obtain ⟨binned, d⟩ := p
              simp only [M.exec_bind]
              cases (phikFromRebinned nm sched binned noise dropna du dof).exec w3 with
              | mk res w4 =>
                cases res with
                | error e => rfl
                | ok t =>
                  simp only [M.exec_bind, M.exec_ofExcept]
                  cases globalOf t <;> rfl

/-- **C24 (duplicated column).** A frame with two identical columns that take at least three values on
their kept records has no global correlations: LinAlgError is raised (when no entry of the phik matrix
is NaN). -/
theorem global_duplicate {nm : Numerics} (hg : GoodNumerics nm) {sched : Option (List ℕ)} {r : Ref}
    {w : World} {f : Frame} (hr : w.heap[r]? = some f) (hn : f.names.Nodup)
    (hs : ValidSched (cwr f.names).length sched) (noise dropna du dof : Bool) {a b : Column}
    (ha : a ∈ f.cols) (hb : b ∈ f.cols) (hab : a.name ≠ b.name) (hcells : a.cells = b.cells)
    {x y z : Cell} (hx : x ∈ a.cells) (hy : y ∈ a.cells) (hz : z ∈ a.cells) {x' y' z' : Cell}
    (hx' : view dropna du dof x = some x') (hy' : view dropna du dof y = some y')
    (hz' : view dropna du dof z = some z') (hxy : x' ≠ y') (hxz : x' ≠ z') (hyz : y' ≠ z')
    (hnum : ∀ t, IsPhikMatrix nm noise dropna du dof f t → AllNumbers t) :
    ((globalFromRebinned nm sched r noise dropna du dof).exec w).1 = .error .linAlg := by
  obtain ⟨t, h1, h2⟩ := global_of_frame hg hr hn hs noise dropna du dof
  have hma : a.name ∈ f.names := List.mem_map_of_mem ha
  have hmb : b.name ∈ f.names := List.mem_map_of_mem hb
  have hrec : ∀ u u' : Option Cell, (u, u') ∈ records dropna du dof a b ↔
      ∃ c ∈ a.cells, view dropna du dof c = u ∧ view dropna du dof c = u' := by
    intro u u'
    unfold records
    rw [← hcells, zip_self]
    simp only [List.map_map, List.mem_map, Function.comp, Prod.mk.injEq]
  have hab1 : t.v a.name b.name = some 1 := by
    refine isPhik_determined hg (matrix_entry hg.mvn h1 hn ha hb hab) (.inl ?_) ⟨?_, ?_⟩ (.inl ?_)
    · intro u v v' h h'
      obtain ⟨c, -, e1, e2⟩ := (hrec _ _).1 h
      obtain ⟨c', -, e1', e2'⟩ := (hrec _ _).1 h'
      have : some v = some v' := by rw [← e2, ← e2', e1, e1']
      exact Option.some.inj this
    · exact ⟨x', x', y', y', (hrec _ _).2 ⟨x, hx, hx', hx'⟩, (hrec _ _).2 ⟨y, hy, hy', hy'⟩, hxy⟩
    · exact ⟨x', x', y', y', (hrec _ _).2 ⟨x, hx, hx', hx'⟩, (hrec _ _).2 ⟨y, hy, hy', hy'⟩, hxy⟩
    · exact ⟨x', x', y', y', z', z', (hrec _ _).2 ⟨x, hx, hx', hx'⟩, (hrec _ _).2 ⟨y, hy, hy', hy'⟩,
        (hrec _ _).2 ⟨z, hz, hz', hz'⟩, hxy, hxz, hyz⟩
  have := global_twins (hnum t h1) (a := a.name) (b := b.name) (by rw [h1.rows]; exact hma)
    (by rw [h1.rows]; exact hmb) hab (by
      intro c hc
      rw [h1.rows] at hc
      obtain ⟨d, hd, rfl⟩ := List.mem_map.1 hc
      by_cases e1 : d.name = a.name
      · rw [e1, h1.diag _ hma, h1.symm _ hmb _ hma, hab1]
      by_cases e2 : d.name = b.name
      · rw [e2, h1.diag _ hmb, hab1]
      have k1 := matrix_entry hg.mvn h1 hn ha hd (Ne.symm e1)
      have k2 := matrix_entry hg.mvn h1 hn hb hd (Ne.symm e2)
      have : records dropna du dof a d = records dropna du dof b d := by unfold records; rw [hcells]
      rw [this] at k1
      exact isPhik_unique k1 k2)
  rw [h2, this]
  rfl

/-- The pairs of columns of the frame are not constant on their common kept records. -/
def Varied (dropna du dof : Bool) (f : Frame) : Prop :=
  ∀ c ∈ f.cols, ∀ d ∈ f.cols, c.name ≠ d.name →
    (∃ p ∈ records dropna du dof c d, ∃ q ∈ records dropna du dof c d, p.1.isSome ∧ p.2.isSome ∧ q.1.isSome ∧
      q.2.isSome ∧ p.1 ≠ q.1) ∧
    (∃ p ∈ records dropna du dof c d, ∃ q ∈ records dropna du dof c d, p.1.isSome ∧ p.2.isSome ∧ q.1.isSome ∧
      q.2.isSome ∧ p.2 ≠ q.2)

instance (dropna du dof : Bool) (f : Frame) : Decidable (Varied dropna du dof f) := by
  unfold Varied; infer_instance

theorem varied_numbers {nm : Numerics} (hm : MvnSpec nm.mvn) {noise dropna du dof : Bool} {f : Frame}
    (hn : f.names.Nodup) (hv : Varied dropna du dof f) {t : LTable} (ht : IsPhikMatrix nm noise dropna du dof f t) :
    AllNumbers t := by
  intro x hx y hy
  rw [ht.rows] at hx hy
  obtain ⟨c, hc, rfl⟩ := List.mem_map.1 hx
  obtain ⟨d, hd, rfl⟩ := List.mem_map.1 hy
  by_cases e : c.name = d.name
  · rw [← e, ht.diag _ hx]; simp
  have := matrix_entry hm ht hn hc hd e
  rw [Ne, isPhik_none_iff this, not_or]
  obtain ⟨⟨p, hp, q, hq, s1, s2, s3, s4, hne⟩, ⟨p', hp', q', hq', s1', s2', s3', s4', hne'⟩⟩ := hv c hc d hd e
  constructor
  · intro h
    obtain ⟨p1, p2⟩ := p
    obtain ⟨q1, q2⟩ := q
    obtain ⟨p1, rfl⟩ := Option.isSome_iff_exists.1 s1
    obtain ⟨p2, rfl⟩ := Option.isSome_iff_exists.1 s2
    obtain ⟨q1, rfl⟩ := Option.isSome_iff_exists.1 s3
    obtain ⟨q2, rfl⟩ := Option.isSome_iff_exists.1 s4
    exact hne (congrArg some (h _ _ _ _ hp hq))
  · intro h
    obtain ⟨p1, p2⟩ := p'
    obtain ⟨q1, q2⟩ := q'
    obtain ⟨p1, rfl⟩ := Option.isSome_iff_exists.1 s1'
    obtain ⟨p2, rfl⟩ := Option.isSome_iff_exists.1 s2'
    obtain ⟨q1, rfl⟩ := Option.isSome_iff_exists.1 s3'
    obtain ⟨q2, rfl⟩ := Option.isSome_iff_exists.1 s4'
    exact hne' (congrArg some (h _ _ _ _ hp' hq'))

/-- Two copies of a column with three categories and a third column. -/
example : ((globalFromRebinned ⟨toyMvn, idealBrentq⟩ none 0 true true true true).exec
    ⟨[⟨4, [⟨"a", false, [.str "u", .str "v", .str "w", .str "w"]⟩,
      ⟨"b", false, [.str "u", .str "v", .str "w", .str "w"]⟩,
      ⟨"c", false, [.str "p", .str "q", .str "p", .str "q"]⟩]⟩], []⟩).1 = .error .linAlg := by
  have hg : GoodNumerics ⟨toyMvn, idealBrentq⟩ := ⟨toyMvn_spec, idealBrentq_spec⟩
  exact global_duplicate hg rfl (by decide) (fun _ h => by cases h) _ _ _ _
    (a := ⟨"a", false, [.str "u", .str "v", .str "w", .str "w"]⟩)
    (b := ⟨"b", false, [.str "u", .str "v", .str "w", .str "w"]⟩) (by simp) (by simp) (by simp) rfl
    (x := .str "u") (y := .str "v") (z := .str "w") (by simp) (by simp) (by simp) (by simp [view]; rfl)
    (by simp [view]; rfl) (by simp [view]; rfl) (by simp) (by simp) (by simp)
    fun t ht => varied_numbers hg.mvn (by decide) (by decide) ht

/-- Nine records of two independent columns with three categories each and a column that determines both. -/
def gridFrame : Frame := ⟨9, [
  ⟨"a", true, [.num 0, .num 1, .num 2, .num 3, .num 4, .num 5, .num 6, .num 7, .num 8]⟩,
  ⟨"b", true, [.num 0, .num 0, .num 0, .num 1, .num 1, .num 1, .num 2, .num 2, .num 2]⟩,
  ⟨"c", true, [.num 0, .num 1, .num 2, .num 0, .num 1, .num 2, .num 0, .num 1, .num 2]⟩]⟩

theorem grid_entries {nm : Numerics} (hg : GoodNumerics nm) {noise : Bool} {t : LTable}
    (h : IsPhikMatrix nm noise true true true gridFrame t) :
    t.v "a" "b" = some 1 ∧ t.v "a" "c" = some 1 ∧ t.v "b" "c" = some 0 := by
  have hn : gridFrame.names.Nodup := by decide
  have hab := matrix_entry hg.mvn h hn
    (a := ⟨"a", true, [.num 0, .num 1, .num 2, .num 3, .num 4, .num 5, .num 6, .num 7, .num 8]⟩)
    (b := ⟨"b", true, [.num 0, .num 0, .num 0, .num 1, .num 1, .num 1, .num 2, .num 2, .num 2]⟩)
    (by simp [gridFrame]) (by simp [gridFrame]) (by simp)
  have hac := matrix_entry hg.mvn h hn
    (a := ⟨"a", true, [.num 0, .num 1, .num 2, .num 3, .num 4, .num 5, .num 6, .num 7, .num 8]⟩)
    (b := ⟨"c", true, [.num 0, .num 1, .num 2, .num 0, .num 1, .num 2, .num 0, .num 1, .num 2]⟩)
    (by simp [gridFrame]) (by simp [gridFrame]) (by simp)
  have hbc := matrix_entry hg.mvn h hn
    (a := ⟨"b", true, [.num 0, .num 0, .num 0, .num 1, .num 1, .num 1, .num 2, .num 2, .num 2]⟩)
    (b := ⟨"c", true, [.num 0, .num 1, .num 2, .num 0, .num 1, .num 2, .num 0, .num 1, .num 2]⟩)
    (by simp [gridFrame]) (by simp [gridFrame]) (by simp)
  have hnum := varied_numbers hg.mvn hn (by decide) h
  refine ⟨?_, ?_, ?_⟩
  · refine isPhik_determined hg hab (.inl ?_) ⟨?_, ?_⟩ (.inl ?_)
    · have : ∀ p ∈ records true true true
          ⟨"a", true, [.num 0, .num 1, .num 2, .num 3, .num 4, .num 5, .num 6, .num 7, .num 8]⟩
          ⟨"b", true, [.num 0, .num 0, .num 0, .num 1, .num 1, .num 1, .num 2, .num 2, .num 2]⟩,
          ∀ q ∈ records true true true
          ⟨"a", true, [.num 0, .num 1, .num 2, .num 3, .num 4, .num 5, .num 6, .num 7, .num 8]⟩
          ⟨"b", true, [.num 0, .num 0, .num 0, .num 1, .num 1, .num 1, .num 2, .num 2, .num 2]⟩,
          p.1 = q.1 → p.2 = q.2 := by decide
      intro a b b' h1 h2
      exact Option.some.inj (this _ h1 _ h2 rfl)
    · exact ⟨.num 0, .num 0, .num 1, .num 0, by decide, by decide, by decide⟩
    · exact ⟨.num 0, .num 0, .num 3, .num 1, by decide, by decide, by decide⟩
    · exact ⟨.num 0, .num 0, .num 3, .num 1, .num 4, .num 1, by decide, by decide, by decide, by decide, by decide, by decide⟩
  · refine isPhik_determined hg hac (.inl ?_) ⟨?_, ?_⟩ (.inl ?_)
    · have : ∀ p ∈ records true true true
          ⟨"a", true, [.num 0, .num 1, .num 2, .num 3, .num 4, .num 5, .num 6, .num 7, .num 8]⟩
          ⟨"c", true, [.num 0, .num 1, .num 2, .num 0, .num 1, .num 2, .num 0, .num 1, .num 2]⟩,
          ∀ q ∈ records true true true
          ⟨"a", true, [.num 0, .num 1, .num 2, .num 3, .num 4, .num 5, .num 6, .num 7, .num 8]⟩
          ⟨"c", true, [.num 0, .num 1, .num 2, .num 0, .num 1, .num 2, .num 0, .num 1, .num 2]⟩,
          p.1 = q.1 → p.2 = q.2 := by decide
      intro a b b' h1 h2
      exact Option.some.inj (this _ h1 _ h2 rfl)
    · exact ⟨.num 0, .num 0, .num 1, .num 1, by decide, by decide, by decide⟩
    · exact ⟨.num 0, .num 0, .num 1, .num 1, by decide, by decide, by decide⟩
    · exact ⟨.num 0, .num 0, .num 1, .num 1, .num 3, .num 0, by decide, by decide, by decide, by decide, by decide, by decide⟩
  · have hne : t.v "b" "c" ≠ none := hnum _ (by rw [h.rows]; decide) _ (by rw [h.rows]; decide)
    obtain ⟨x, hx⟩ := Option.ne_none_iff_exists'.1 hne
    simp only at hbc
    rw [hx] at hbc ⊢
    have := isPhik_independent hg hbc (by
      rintro a b ⟨b', hb'⟩ ⟨a', ha'⟩
      have key : ∀ p ∈ records true true true
          ⟨"b", true, [.num 0, .num 0, .num 0, .num 1, .num 1, .num 1, .num 2, .num 2, .num 2]⟩
          ⟨"c", true, [.num 0, .num 1, .num 2, .num 0, .num 1, .num 2, .num 0, .num 1, .num 2]⟩,
          (p.1 = some (.num 0) ∨ p.1 = some (.num 1) ∨ p.1 = some (.num 2)) ∧
          (p.2 = some (.num 0) ∨ p.2 = some (.num 1) ∨ p.2 = some (.num 2)) := by decide
      have k1 := (key _ hb').1
      have k2 := (key _ ha').2
      simp only [Option.some.injEq] at k1 k2
      rcases k1 with rfl | rfl | rfl <;> rcases k2 with rfl | rfl | rfl <;> decide)
    rw [this]

/-- **C24 (violated in general).** A global correlation can exceed 1: two independent columns with three
categories and a column that determines both have the phik matrix ((1,1,1),(1,1,0),(1,0,1)), which is not
positive definite; the global correlation of the third column is the square root of 2, and those of the
other two are results of a division by zero. -/
theorem global_above_one {nm : Numerics} (hg : GoodNumerics nm) (noise : Bool) :
    ((globalFromRebinned nm none 0 noise true true true).exec ⟨[gridFrame], []⟩).1 =
      .ok ([.num (Real.sqrt 2), .byZero, .byZero], ["a", "b", "c"]) := by
  obtain ⟨t, h1, h2⟩ := global_of_frame hg (w := ⟨[gridFrame], []⟩) (r := 0) rfl (by decide)
    (sched := none) (fun _ h => by cases h) noise true true true
  have hnames : gridFrame.names = ["a", "b", "c"] := rfl
  obtain ⟨hab, hac, hbc⟩ := grid_entries hg h1
  have hnum := varied_numbers hg.mvn (by decide) (by decide) h1
  have haa := h1.diag "a" (by decide)
  have hbb := h1.diag "b" (by decide)
  have hcc := h1.diag "c" (by decide)
  have hba : t.v "b" "a" = some 1 := (h1.symm "b" (by decide) "a" (by decide)).trans hab
  have hca : t.v "c" "a" = some 1 := (h1.symm "c" (by decide) "a" (by decide)).trans hac
  have hcb : t.v "c" "b" = some 0 := (h1.symm "c" (by decide) "b" (by decide)).trans hbc
  have hrows := h1.rows
  rw [h2, hnames]
  rw [hnames] at hrows
  clear h1 h2
  obtain ⟨rows, cols, v⟩ := t
  simp only at hrows hab hac hbc haa hbb hcc hba hca hcb
  subst hrows
  set t : LTable := ⟨["a", "b", "c"], cols, v⟩ with ht
  have hM : (tableMatrix t : Matrix (Fin 3) (Fin 3) ℝ) = !![1, 1, 1; 1, 1, 0; 1, 0, 1] := by
    ext i j
    fin_cases i <;> fin_cases j <;> simp [tableMatrix, ht, haa, hbb, hcc, hab, hba, hac, hca, hbc, hcb]
  have hdet : (tableMatrix t : Matrix (Fin 3) (Fin 3) ℝ).det = -1 := by
    rw [hM, Matrix.det_fin_three]; simp
  have hinv : (tableMatrix t : Matrix (Fin 3) (Fin 3) ℝ)⁻¹ = !![-1, 1, 1; 1, 0, -1; 1, -1, 0] := by
    apply Matrix.inv_eq_right_inv
    rw [hM]
    ext i j
    fin_cases i <;> fin_cases j <;> simp [Matrix.mul_apply, Fin.sum_univ_three]
  rw [globalOf_eq hnum (by rw [show (tableMatrix t).det = -1 from hdet]; norm_num)]
  classical
  have hval : ∀ i : Fin 3, (if tableMatrix t i i * (tableMatrix t)⁻¹ i i = 0 then GVal.byZero
      else if 1 - 1 / (tableMatrix t i i * (tableMatrix t)⁻¹ i i) < 0 then .nan
      else .num (Real.sqrt (1 - 1 / (tableMatrix t i i * (tableMatrix t)⁻¹ i i)))) =
      (![.num (Real.sqrt 2), .byZero, .byZero] : Fin 3 → GVal) i := by
    intro i
    rw [show tableMatrix t i i = (!![1, 1, 1; 1, 1, 0; 1, 0, 1] : Matrix (Fin 3) (Fin 3) ℝ) i i from
        congrFun (congrFun hM i) i,
      show (tableMatrix t)⁻¹ i i = (!![-1, 1, 1; 1, 0, -1; 1, -1, 0] : Matrix (Fin 3) (Fin 3) ℝ) i i from
        congrFun (congrFun hinv i) i]
    fin_cases i
    · simp; norm_num
    · simp
    · simp
  change (Except.ok (((List.finRange 3).map _))).map _ = _
  have : List.finRange 3 = [0, 1, 2] := rfl
  rw [this]
  simp only [List.map_cons, List.map_nil, Except.map]
  congr 2
  exact congrArg₂ (fun x y => x :: y) (hval 0) (congrArg₂ (fun x y => [x, y]) (hval 1) (hval 2))

/-- The hypotheses of `global_range` are met: three columns, of which one is uncorrelated with the others
and two have phik 1/2. -/
example : ∃ g : List ℝ, globalOf ⟨["a", "b", "c"], ["a", "b", "c"],
    fun x y => if x = y then some 1 else if x = "c" ∨ y = "c" then some 0 else some (1 / 2)⟩ = .ok (g.map .num) ∧
    g.length = 3 := by
  obtain ⟨g, h1, h2, -⟩ := global_range (t := ⟨["a", "b", "c"], ["a", "b", "c"],
    fun x y => if x = y then some 1 else if x = "c" ∨ y = "c" then some 0 else some (1 / 2)⟩) (by
      intro a _ b _
      simp only
      split_ifs <;> simp) (by simp) (by
      refine Matrix.PosDef.of_dotProduct_mulVec_pos ?_ ?_
      · ext i j
        change Fin 3 at i j
        fin_cases i <;> fin_cases j <;> simp [tableMatrix]
      · intro x hx
        change Fin 3 → ℝ at x
        have : (star x ⬝ᵥ ((tableMatrix ⟨["a", "b", "c"], ["a", "b", "c"],
          fun x y => if x = y then some 1 else if x = "c" ∨ y = "c" then some 0 else some (1 / 2)⟩ :
            Matrix (Fin 3) (Fin 3) ℝ) *ᵥ x)) = (x 0 + x 1 / 2) ^ 2 + 3 / 4 * x 1 ^ 2 + x 2 ^ 2 := by
          simp [tableMatrix, Matrix.mulVec, dotProduct, Fin.sum_univ_three]
          ring
        refine lt_of_lt_of_eq ?_ this.symm
        by_contra hc
        have h2 : x 2 = 0 := by nlinarith [sq_nonneg (x 0 + x 1 / 2), sq_nonneg (x 1), sq_nonneg (x 2)]
        have h1 : x 1 = 0 := by nlinarith [sq_nonneg (x 0 + x 1 / 2), sq_nonneg (x 1), sq_nonneg (x 2)]
        have h0 : x 0 = 0 := by
          rw [h1, h2] at hc
          nlinarith [sq_nonneg (x 0)]
        apply hx
        funext i
        change Fin 3 at i
        fin_cases i <;> assumption)
  exact ⟨g, h1, h2⟩

end Props
end Phik
