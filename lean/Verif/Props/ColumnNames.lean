import Verif.Lemmas.ColumnNames
import Verif.Model.Named
import Verif.Spec.Arrays
import Verif.Props.OutlierPairs

/-! # Property C81: the names of the columns are only labels -/

namespace Phik

open Spec M

section
variable {α β γ δ : Type} {ρ : String → String} {w0 : World} {r0 : Ref}

/-- A program, and the program with the renamed arguments, end alike. -/
def Ren (ρ : String → String) (w0 : World) (r0 : Ref) (R : α → β → Prop) (m : M α) (m' : M β) : Prop :=
  ∀ w w', SameState ρ w0 r0 w w' → EndAlike ρ w0 r0 R (m.exec w) (m'.exec w')

/-- The frame whose columns are renamed, or a new frame. -/
def Acc (w0 : World) (r0 r : Ref) : Prop := r = r0 ∨ w0.heap.length ≤ r

theorem Ren.pure {R : α → β → Prop} {a : α} {b : β} (h : R a b) : Ren ρ w0 r0 R (pure a) (pure b) := fun _ _ hw => ⟨h, hw⟩

theorem Ren.throw {R : α → β → Prop} (e : Err) : Ren ρ w0 r0 R (throw e) (throw e) := fun _ _ hw => ⟨rfl, hw⟩

theorem Ren.bind {R : α → β → Prop} {S : γ → δ → Prop} {m : M α} {m' : M β} {k : α → M γ} {k' : β → M δ}
    (h : Ren ρ w0 r0 R m m') (hk : ∀ a b, R a b → Ren ρ w0 r0 S (k a) (k' b)) : Ren ρ w0 r0 S (m >>= k) (m' >>= k') := by
  intro w w' hw
  have h1 := h w w' hw
  rw [exec_bind, exec_bind]
  revert h1
  rcases m.exec w with ⟨x, v⟩
  rcases m'.exec w' with ⟨y, v'⟩
  cases x <;> cases y <;> unfold EndAlike <;> simp only
  · exact id
  · exact fun h => h.1.elim
  · exact fun h => h.1.elim
  · exact fun h => hk _ _ h.1 _ _ h.2

theorem Ren.ofExcept {R : α → β → Prop} {x : Except Err α} {y : Except Err β}
    (h : match x, y with
      | .ok a, .ok b => R a b
      | .error e, .error e' => e = e'
      | _, _ => False) : Ren ρ w0 r0 R (M.ofExcept x) (M.ofExcept y) := by
  intro w w' hw
  rw [exec_ofExcept, exec_ofExcept]
  exact ⟨h, hw⟩

theorem Ren.except_map (g : α → β) (x : Except Err α) : Ren ρ w0 r0 (fun a b => b = g a) (M.ofExcept x) (M.ofExcept (x.map g)) := by
  refine Ren.ofExcept ?_
  cases x <;> rfl

theorem Ren.except (x : Except Err α) : Ren ρ w0 r0 Eq (M.ofExcept x) (M.ofExcept x) := by
  refine Ren.ofExcept ?_
  cases x <;> rfl

theorem Ren.warn (x : Warning) : Ren ρ w0 r0 (fun _ _ => True) (warn x) (warn (renameWarning ρ x)) := by
  rintro w w' ⟨h1, h2, h3, h4, l, l', e, e', hp⟩
  refine ⟨trivial, h1, h2, h3, h4, l ++ [x], l' ++ [renameWarning ρ x], ?_, ?_, ?_⟩
  · simp [e]
  · simp [e']
  · rw [List.map_append]; exact hp.append_right _

theorem Ren.warnAll {k k' : List Warning} (h : k'.Perm (k.map (renameWarning ρ))) :
    Ren ρ w0 r0 (fun _ _ => True) (M.warnAll k) (M.warnAll k') := by
  have key : ∀ (l : List Warning) (w : World), (M.warnAll l).exec w = (.ok (), ⟨w.heap, w.warns ++ l⟩) := by
    intro l
    induction l with
    | nil => intro w; simp [M.warnAll]
    | cons x l ih => intro w; simp only [M.warnAll, exec_bind, exec_warn, ih]; simp
  rintro w w' ⟨h1, h2, h3, h4, l, l', e, e', hp⟩
  rw [key, key]
  refine ⟨trivial, h1, h2, h3, h4, l ++ k, l' ++ k', ?_, ?_, ?_⟩
  · simp [e]
  · simp [e']
  · rw [List.map_append]; exact hp.append h

theorem Ren.read {r : Ref} (hr : Acc w0 r0 r) : Ren ρ w0 r0 (fun f g => g = renameFrame ρ f) (read r) (read r) := by
  intro w w' hw
  have h := hw.2.2.1 r hr
  rw [exec_read, exec_read, h]
  cases w.heap[r]? with
  | none => exact ⟨rfl, hw⟩
  | some f => exact ⟨rfl, hw⟩

theorem Ren.alloc (f : Frame) : Ren ρ w0 r0 (fun a b => a = b ∧ Acc w0 r0 a) (alloc f) (alloc (renameFrame ρ f)) := by
  rintro w w' ⟨h1, h2, h3, h4, h5⟩
  rw [exec_alloc, exec_alloc]
  refine ⟨⟨h2, .inr h1⟩, ?_, ?_, ?_, ?_, h5⟩
  · simp; omega
  · simp [h2]
  · intro i hi
    simp only
    rcases lt_or_ge i w.heap.length with hl | hl
    · rw [List.getElem?_append_left hl, List.getElem?_append_left (h2 ▸ hl)]
      exact h3 i hi
    · rw [List.getElem?_append_right hl, List.getElem?_append_right (h2 ▸ hl), h2]
      rw [← List.getElem?_map]
      rfl
  · intro i hi
    have hl : i < w.heap.length := by
      by_contra hc
      exact hi (.inr (h1.trans (not_lt.1 hc)))
    simp only
    rw [List.getElem?_append_left hl, List.getElem?_append_left (h2 ▸ hl)]
    exact h4 i hi

theorem Ren.write {r : Ref} (hr : Acc w0 r0 r) (f : Frame) :
    Ren ρ w0 r0 (fun _ _ => True) (write r f) (write r (renameFrame ρ f)) := by
  rintro w w' ⟨h1, h2, h3, h4, h5⟩
  rw [exec_write, exec_write]
  refine ⟨trivial, ?_, ?_, ?_, ?_, h5⟩
  · simpa using h1
  · simpa using h2
  · intro i hi
    simp only
    rw [List.getElem?_set, List.getElem?_set]
    by_cases e : r = i
    · rw [if_pos e, if_pos e, h2]
      split <;> rfl
    · rw [if_neg e, if_neg e]; exact h3 i hi
  · intro i hi
    have e : r ≠ i := fun e => hi (e ▸ hr)
    simp only
    rw [List.getElem?_set_ne e, List.getElem?_set_ne e]
    exact h4 i hi

theorem Ren.mono {R S : α → β → Prop} {m : M α} {m' : M β} (h : Ren ρ w0 r0 R m m') (hRS : ∀ a b, R a b → S a b) :
    Ren ρ w0 r0 S m m' := by
  intro w w' hw
  have h1 := h w w' hw
  revert h1
  rcases m.exec w with ⟨x, v⟩
  rcases m'.exec w' with ⟨y, v'⟩
  cases x <;> cases y <;> unfold EndAlike <;> simp only
  · exact id
  · exact fun h => h.1.elim
  · exact fun h => h.1.elim
  · exact fun h => ⟨hRS _ _ h.1, h.2⟩

theorem Ren.ite {R : α → β → Prop} {p : Prop} {i j : Decidable p} {m k : M α} {m' k' : M β}
    (h1 : p → Ren ρ w0 r0 R m m') (h2 : ¬ p → Ren ρ w0 r0 R k k') : Ren ρ w0 r0 R (@ite _ p i m k) (@ite _ p j m' k') := by
  by_cases h : p
  · rw [if_pos h, if_pos h]; exact h1 h
  · rw [if_neg h, if_neg h]; exact h2 h

theorem Ren.throw_bind {R : α → β → Prop} (e : Err) {k : γ → M α} {k' : γ → M β} :
    Ren ρ w0 r0 R ((MonadExcept.throw e : M γ) >>= k) ((MonadExcept.throw e : M γ) >>= k') :=
  Ren.bind (R := fun _ _ => False) (Ren.throw _) fun _ _ h => h.elim

/-! ### the functions -/

variable (hρ : Function.Injective ρ)
include hρ

theorem dqCheck_ren {r : Ref} (hr : Acc w0 r0 r) (ic : List String) (dropna : Bool) :
    Ren ρ w0 r0 (fun a b => b.1 = a.1 ∧ b.2 = a.2.map ρ ∧ Acc w0 r0 a.1) (dqCheck r ic dropna) (dqCheck r (ic.map ρ) dropna) := by
  unfold dqCheck
  refine Ren.bind (Ren.read hr) ?_
  rintro f _ rfl
  dsimp only
  have e : (ic.map ρ).filter (fun c => (renameFrame ρ f).names.contains c) = (ic.filter fun c => f.names.contains c).map ρ := by
    rw [List.filter_map, renameFrame_names]
    congr 2
    funext c
    exact contains_ren hρ _ _
  rw [e]
  set ic' := ic.filter fun c => f.names.contains c with hic
  refine Ren.bind (Ren.warnAll ?_) fun _ _ _ => ?_
  · rw [List.map_map]
    refine ((otherCols_filter_ren hρ f ic' fun k => decide (1000 < k)).map _).trans (List.Perm.of_eq ?_)
    rw [List.map_map]
    rfl
  have hd := dropCols_ren hρ f ic' dropna
  refine Ren.bind (Ren.warnAll ?_) fun _ _ _ => ?_
  · rw [List.map_map]
    refine (hd.map _).trans (List.Perm.of_eq ?_)
    rw [List.map_map]
    rfl
  refine Ren.bind (Ren.alloc f) ?_
  rintro c _ ⟨rfl, hc⟩
  have hl : (dropCols (renameFrame ρ f) (ic'.map ρ) dropna).length = (dropCols f ic' dropna).length := by
    rw [hd.length_eq, List.length_map]
  rw [hl]
  split
  · rw [drop_ren hρ f hd]
    refine Ren.bind (Ren.write hc _) fun _ _ _ => Ren.pure ⟨rfl, ?_, hc⟩
    simp only
    rw [List.filter_map]
    congr 2
    funext n
    simp only [Function.comp_apply]
    rw [← contains_ren hρ (dropCols f ic' dropna)]
    congr 1
    rw [Bool.eq_iff_iff, List.contains_iff_mem, List.contains_iff_mem]
    exact hd.mem_iff
  · exact Ren.pure ⟨rfl, rfl, hc⟩

theorem binData_ren {r : Ref} (hr : Acc w0 r0 r) (fl : ℚ → ℚ) (pf : String → Option (Option ℚ)) (cols : List String) (bins : Bins)
    (q : Bool) : Ren ρ w0 r0 (fun a b => b.1 = a.1 ∧ b.2 = renameKeys ρ a.2 ∧ Acc w0 r0 a.1) (binData fl pf r cols bins q)
      (binData fl pf r (cols.map ρ) (renameBins ρ bins) q) := by
  unfold binData
  refine Ren.bind (Ren.read hr) ?_
  rintro f _ rfl
  refine Ren.bind (Ren.alloc f) ?_
  rintro c _ ⟨rfl, hc⟩
  rw [binDataCore_ren hρ]
  refine Ren.bind (Ren.except_map _ _) ?_
  rintro ⟨o, d⟩ _ rfl
  exact Ren.bind (Ren.write hc _) fun _ _ _ => Ren.pure ⟨rfl, rfl, hc⟩

theorem phikFromRebinned_ren {r : Ref} (hr : Acc w0 r0 r) (nm : Numerics) (sched : Option (List ℕ)) (noise dropna du dof : Bool) :
    Ren ρ w0 r0 (SameLabelled ρ) (phikFromRebinned nm sched r noise dropna du dof) (phikFromRebinned nm sched r noise dropna du dof) := by
  unfold phikFromRebinned
  refine Ren.bind (Ren.read hr) ?_
  rintro f _ rfl
  rw [applyFlags_ren]
  refine Ren.bind (Ren.write hr _) fun _ _ _ => Ren.ofExcept ?_
  have h := phikOfFrame_ren hρ nm sched (applyFlags dropna du dof f) noise
  revert h
  cases phikOfFrame nm sched (applyFlags dropna du dof f) noise <;>
    cases phikOfFrame nm sched (renameFrame ρ (applyFlags dropna du dof f)) noise <;> exact id

omit hρ in
theorem getD_ren (ic : Option (List String)) (f : Frame) :
    (ic.map (List.map ρ)).getD (guessIntervalCols (renameFrame ρ f)) = (ic.getD (guessIntervalCols f)).map ρ := by
  cases ic with
  | none => exact guess_ren f
  | some l => rfl

theorem phikMatrix_ren {r : Ref} (hr : Acc w0 r0 r) (nm : Numerics) (sched : Option (List ℕ)) (fl : ℚ → ℚ)
    (pf : String → Option (Option ℚ)) (ic : Option (List String)) (bins : Bins) (quantile noise dropna du dof : Bool) :
    Ren ρ w0 r0 (SameLabelled ρ) (phikMatrix nm sched fl pf r ic bins quantile noise dropna du dof)
      (phikMatrix nm sched fl pf r (ic.map (List.map ρ)) (renameBins ρ bins) quantile noise dropna du dof) := by
  unfold phikMatrix
  refine Ren.bind (Ren.read hr) ?_
  rintro f _ rfl
  dsimp only
  rw [getD_ren]
  refine Ren.bind (dqCheck_ren hρ hr _ dropna) ?_
  rintro ⟨c, l⟩ ⟨_, _⟩ ⟨h1, h2, hc⟩
  simp only at h1 h2
  subst h1 h2
  refine Ren.bind (binData_ren hρ hc fl pf _ bins quantile) ?_
  rintro ⟨b, d⟩ ⟨_, _⟩ ⟨h1, -, hb⟩
  simp only at h1
  subst h1
  exact phikFromRebinned_ren hρ hb nm sched noise dropna du dof

omit hρ in
theorem globalOf_ren {t t' : LTable} (h : SameLabelled ρ t t') : globalOf t' = globalOf t := by
  classical
  obtain ⟨rows, cols, v⟩ := t
  obtain ⟨rows', cols', v'⟩ := t'
  obtain ⟨h1, h2, h3⟩ := h
  simp only at h1 h2 h3
  subst h1
  unfold globalOf
  simp only
  have e1 : (∃ a ∈ rows.map ρ, ∃ b ∈ rows.map ρ, v' a b = none) ↔ ∃ a ∈ rows, ∃ b ∈ rows, v a b = none := by
    simp only [List.mem_map, exists_exists_and_eq_and, h3]
  by_cases hn : ∃ a ∈ rows, ∃ b ∈ rows, v a b = none
  · rw [if_pos hn, if_pos (e1.2 hn)]
  rw [if_neg hn, if_neg (fun h => hn (e1.1 h))]
  have hl : (rows.map ρ).length = rows.length := List.length_map ..
  have key : ∀ (n : ℕ) (hn : n = rows.length) (V : Matrix (Fin n) (Fin n) ℝ),
      (∀ i j, V i j = (v rows[i] rows[j]).getD 0) →
      (if V.det = 0 then (.error .linAlg : Except Err (List GVal)) else .ok ((List.finRange n).map fun i =>
        if V i i * V⁻¹ i i = 0 then .byZero
        else if 1 - 1 / (V i i * V⁻¹ i i) < 0 then .nan else .num (Real.sqrt (1 - 1 / (V i i * V⁻¹ i i))))) =
      (if (show Matrix (Fin rows.length) (Fin rows.length) ℝ from fun i j => (v rows[i] rows[j]).getD 0).det = 0 then .error .linAlg
        else .ok ((List.finRange rows.length).map fun i =>
          let W := (show Matrix (Fin rows.length) (Fin rows.length) ℝ from fun i j => (v rows[i] rows[j]).getD 0)
          if W i i * W⁻¹ i i = 0 then .byZero
          else if 1 - 1 / (W i i * W⁻¹ i i) < 0 then .nan else .num (Real.sqrt (1 - 1 / (W i i * W⁻¹ i i))))) := by
    rintro n rfl V hV
    obtain rfl : V = fun i j => (v rows[i] rows[j]).getD 0 := by
      funext i j
      exact hV i j
    rfl
  refine key _ hl _ fun i j => ?_
  simp only [Fin.getElem_fin, List.getElem_map, h3]

theorem globalPhikArray_ren {r : Ref} (hr : Acc w0 r0 r) (nm : Numerics) (sched : Option (List ℕ)) (fl : ℚ → ℚ)
    (pf : String → Option (Option ℚ)) (ic : Option (List String)) (bins : Bins) (quantile noise dropna du dof : Bool) :
    Ren ρ w0 r0 (fun a b => b.1 = a.1 ∧ b.2 = a.2.map ρ) (globalPhikArray nm sched fl pf r ic bins quantile noise dropna du dof)
      (globalPhikArray nm sched fl pf r (ic.map (List.map ρ)) (renameBins ρ bins) quantile noise dropna du dof) := by
  unfold globalPhikArray
  refine Ren.bind (Ren.read hr) ?_
  rintro f _ rfl
  dsimp only
  rw [getD_ren]
  refine Ren.bind (dqCheck_ren hρ hr _ dropna) ?_
  rintro ⟨c, l⟩ ⟨_, _⟩ ⟨h1, h2, hc⟩
  simp only at h1 h2
  subst h1 h2
  refine Ren.bind (binData_ren hρ hc fl pf _ bins quantile) ?_
  rintro ⟨b, d⟩ ⟨_, _⟩ ⟨h1, -, hb⟩
  simp only at h1
  subst h1
  unfold globalFromRebinned
  refine Ren.bind (phikFromRebinned_ren hρ hb nm sched noise dropna du dof) ?_
  intro t t' ht
  rw [globalOf_ren ht]
  refine Ren.bind (Ren.except _) ?_
  rintro x _ rfl
  exact Ren.pure ⟨rfl, ht.1⟩

theorem sigLoop_ren {F : Type} (S : SigNum) (R : ℕ → SimRun F) (sm : String) (f : Frame) (k : ℕ) (co : List (String × String)) :
    Ren ρ w0 r0 (fun a b => b = renamePairs ρ a) (sigLoop S R sm f k co)
      (sigLoop S R sm (renameFrame ρ f) k (co.map fun p => (ρ p.1, ρ p.2))) := by
  induction co generalizing k with
  | nil => exact Ren.pure rfl
  | cons p rest ih =>
    obtain ⟨c0, c1⟩ := p
    simp only [List.map_cons, sigLoop]
    rw [getCol_ren hρ, getCol_ren hρ]
    refine Ren.bind (Ren.except_map _ _) ?_
    rintro a _ rfl
    refine Ren.bind (Ren.except_map _ _) ?_
    rintro b _ rfl
    refine Ren.ite (fun _ => ?_) (fun _ => ?_)
    · refine Ren.bind (Ren.warn _) fun _ _ _ => Ren.bind (ih _) ?_
      rintro l _ rfl
      exact Ren.pure rfl
    · refine Ren.bind (Ren.except _) ?_
      rintro ⟨x, z⟩ _ rfl
      refine Ren.bind (ih _) ?_
      rintro l _ rfl
      exact Ren.pure rfl

theorem sigFromRebinned_ren {F : Type} {r : Ref} (hr : Acc w0 r0 r) (S : SigNum) (R : ℕ → SimRun F) (sm : String)
    (dropna du dof : Bool) :
    Ren ρ w0 r0 (SameLabelled ρ) (sigFromRebinned S R r sm dropna du dof) (sigFromRebinned S R r sm dropna du dof) := by
  unfold sigFromRebinned
  refine Ren.bind (Ren.read hr) ?_
  rintro f _ rfl
  rw [applyFlags_ren]
  refine Ren.bind (Ren.write hr _) fun _ _ _ => ?_
  dsimp only
  rw [renameFrame_names, cwr_ren]
  refine Ren.bind (sigLoop_ren hρ S R sm _ 0 _) ?_
  rintro l _ rfl
  have h := overview_table hρ (applyFlags dropna du dof f).names l
  have e : (renamePairs ρ l).length = l.length := by simp [renamePairs]
  rw [e] at h ⊢
  by_cases hl : l.length = 0
  · rw [if_pos hl, if_pos hl] at h ⊢; exact Ren.pure h
  · rw [if_neg hl, if_neg hl] at h ⊢; exact Ren.pure h

theorem significanceMatrix_ren {F : Type} {r : Ref} (hr : Acc w0 r0 r) (S : SigNum) (R : ℕ → SimRun F) (fl : ℚ → ℚ)
    (pf : String → Option (Option ℚ)) (ic : Option (List String)) (bins : Bins) (sm : String) (dropna du dof : Bool) :
    Ren ρ w0 r0 (SameLabelled ρ) (significanceMatrix S R fl pf r ic bins sm dropna du dof)
      (significanceMatrix S R fl pf r (ic.map (List.map ρ)) (renameBins ρ bins) sm dropna du dof) := by
  unfold significanceMatrix
  refine Ren.bind (Ren.read hr) ?_
  rintro f _ rfl
  dsimp only
  rw [getD_ren]
  refine Ren.bind (dqCheck_ren hρ hr _ dropna) ?_
  rintro ⟨c, l⟩ ⟨_, _⟩ ⟨h1, h2, hc⟩
  simp only at h1 h2
  subst h1 h2
  refine Ren.bind (binData_ren hρ hc fl pf _ bins false) ?_
  rintro ⟨b, d⟩ ⟨_, _⟩ ⟨h1, -, hb⟩
  simp only at h1
  subst h1
  exact sigFromRebinned_ren hρ hb S R sm dropna du dof

omit hρ in
theorem hist2dFromRebinned_ren {r : Ref} (hr : Acc w0 r0 r) (dropna du dof : Bool) :
    Ren ρ w0 r0 Eq (hist2dFromRebinned r dropna du dof) (hist2dFromRebinned r dropna du dof) := by
  unfold hist2dFromRebinned
  refine Ren.bind (Ren.read hr) ?_
  rintro f _ rfl
  rw [applyFlags_ren]
  have hl : (renameFrame ρ f).cols.length = f.cols.length := by simp [renameFrame_cols]
  rw [hl]
  refine Ren.ite (fun _ => Ren.throw_bind _) fun _ => ?_
  refine Ren.bind (Ren.write hr _) fun _ _ _ => ?_
  rw [renameFrame_cols]
  rcases (applyFlags dropna du dof f).cols with _ | ⟨a, _ | ⟨b, _ | ⟨c, l⟩⟩⟩
  · exact Ren.throw _
  · exact Ren.throw _
  · exact Ren.pure rfl
  · exact Ren.throw _

theorem hist2d_ren {r : Ref} (hr : Acc w0 r0 r) (fl : ℚ → ℚ) (pf : String → Option (Option ℚ)) (ic : Option (List String))
    (bins : Bins) (quantile dropna du dof : Bool) :
    Ren ρ w0 r0 (fun a b => b.1 = a.1 ∧ b.2 = renameKeys ρ a.2) (hist2d fl pf r ic bins quantile dropna du dof)
      (hist2d fl pf r (ic.map (List.map ρ)) (renameBins ρ bins) quantile dropna du dof) := by
  unfold hist2d
  refine Ren.bind (Ren.read hr) ?_
  rintro f _ rfl
  dsimp only
  rw [getD_ren]
  have hl : (renameFrame ρ f).cols.length = f.cols.length := by simp [renameFrame_cols]
  rw [hl]
  refine Ren.ite (fun _ => Ren.throw_bind _) fun _ => ?_
  refine Ren.bind (binData_ren hρ hr fl pf _ bins quantile) ?_
  rintro ⟨b, d⟩ ⟨_, _⟩ ⟨h1, h2, hb⟩
  simp only at h1 h2
  subst h1 h2
  refine Ren.bind (hist2dFromRebinned_ren hb dropna du dof) ?_
  rintro h _ rfl
  exact Ren.pure ⟨rfl, rfl⟩

theorem relabel_ren (fmt : ℚ → String) (d : List (String × List (ℚ × ℚ))) (c : Column) (labels : List Cell) :
    relabel fmt (renameKeys ρ d) (renCol ρ c) labels = relabel fmt d c labels := by
  unfold relabel
  rw [renCol_name, lookup_ren hρ]
  rfl

theorem outlierFromRebinned_ren {r : Ref} (hr : Acc w0 r0 r) (N : OutNum) (fmt : ℚ → String)
    (d : List (String × List (ℚ × ℚ))) (ci : String) (dropna du dof : Bool) :
    Ren ρ w0 r0 Eq (outlierFromRebinned N fmt r d ci dropna du dof)
      (outlierFromRebinned N fmt r (renameKeys ρ d) ci dropna du dof) := by
  unfold outlierFromRebinned
  refine Ren.bind (hist2dFromRebinned_ren hr dropna du dof) ?_
  rintro h _ rfl
  refine Ren.bind (Ren.read hr) ?_
  rintro f _ rfl
  rw [renameFrame_cols]
  rcases f.cols with _ | ⟨a, _ | ⟨b, _ | ⟨c, l⟩⟩⟩
  · exact Ren.throw _
  · exact Ren.throw _
  · simp only [List.map_cons, List.map_nil]
    rw [relabel_ren hρ, relabel_ren hρ]
    refine Ren.ite (fun _ => ?_) (fun _ => ?_)
    · exact Ren.bind (Ren.warn _) fun _ _ _ => Ren.pure rfl
    · refine Ren.bind (Ren.except _) ?_
      rintro rows _ rfl
      refine Ren.bind (Ren.except _) ?_
      rintro cols _ rfl
      refine Ren.bind (Ren.except _) ?_
      rintro t _ rfl
      split
      · exact Ren.pure rfl
      · exact Ren.throw _
  · exact Ren.throw _

theorem outlierMatrix_ren {r : Ref} (hr : Acc w0 r0 r) (N : OutNum) (fmt : ℚ → String) (fl : ℚ → ℚ)
    (pf : String → Option (Option ℚ)) (ic : Option (List String)) (ci : String) (bins : Bins) (quantile dropna du dof : Bool) :
    Ren ρ w0 r0 (fun a b => b.1 = a.1 ∧ b.2 = renameKeys ρ a.2) (outlierMatrix N fmt fl pf r ic ci bins quantile dropna du dof)
      (outlierMatrix N fmt fl pf r (ic.map (List.map ρ)) ci (renameBins ρ bins) quantile dropna du dof) := by
  unfold outlierMatrix
  refine Ren.bind (Ren.read hr) ?_
  rintro f _ rfl
  dsimp only
  rw [getD_ren]
  have hl : (renameFrame ρ f).cols.length = f.cols.length := by simp [renameFrame_cols]
  rw [hl]
  refine Ren.ite (fun _ => Ren.throw_bind _) fun _ => ?_
  refine Ren.bind (dqCheck_ren hρ hr _ dropna) ?_
  rintro ⟨c, l⟩ ⟨_, _⟩ ⟨h1, h2, hc⟩
  simp only at h1 h2
  subst h1 h2
  refine Ren.bind (binData_ren hρ hc fl pf _ bins quantile) ?_
  rintro ⟨b, d⟩ ⟨_, _⟩ ⟨h1, h2, hb⟩
  simp only at h1 h2
  subst h1 h2
  refine Ren.bind (outlierFromRebinned_ren hρ hb N fmt d ci dropna du dof) ?_
  rintro h _ rfl
  exact Ren.pure ⟨rfl, rfl⟩

theorem outlierLoop_ren {r : Ref} (hr : Acc w0 r0 r) (N : OutNum) (fmt : ℚ → String)
    (d : List (String × List (ℚ × ℚ))) (ci : String) (dropna du dof : Bool) (co : List (String × String)) :
    Ren ρ w0 r0 (fun a b => b = renamePairs ρ a) (outlierLoop N fmt r d ci dropna du dof co)
      (outlierLoop N fmt r (renameKeys ρ d) ci dropna du dof (co.map fun p => (ρ p.1, ρ p.2))) := by
  induction co with
  | nil => exact Ren.pure rfl
  | cons p rest ih =>
    obtain ⟨c0, c1⟩ := p
    simp only [List.map_cons, outlierLoop]
    refine Ren.bind (Ren.read hr) ?_
    rintro f _ rfl
    rw [getCol_ren hρ, getCol_ren hρ]
    refine Ren.bind (Ren.except_map _ _) ?_
    rintro a _ rfl
    refine Ren.bind (Ren.except_map _ _) ?_
    rintro b _ rfl
    simp only [hρ.eq_iff]
    refine Ren.ite (fun _ => Ren.throw_bind _) fun _ => ?_
    refine Ren.bind (Ren.alloc ⟨f.nrows, [a, b]⟩) ?_
    rintro s _ ⟨rfl, hs⟩
    refine Ren.bind (outlierFromRebinned_ren hρ hs N fmt d ci dropna du dof) ?_
    rintro t _ rfl
    refine Ren.bind ih ?_
    rintro l _ rfl
    exact Ren.pure rfl

theorem outlierMatrices_ren {r : Ref} (hr : Acc w0 r0 r) (N : OutNum) (fmt : ℚ → String) (fl : ℚ → ℚ)
    (pf : String → Option (Option ℚ)) (ic : Option (List String)) (ci : String) (bins : Bins) (quantile : Bool)
    (co : List (String × String)) (dropna du dof : Bool) :
    Ren ρ w0 r0 (fun a b => (∃ l, a.1 = joinDict l ∧ b.1 = joinDict (renamePairs ρ l)) ∧ b.2 = renameKeys ρ a.2)
      (outlierMatrices N fmt fl pf r ic ci bins quantile co dropna du dof)
      (outlierMatrices N fmt fl pf r (ic.map (List.map ρ)) ci (renameBins ρ bins) quantile (co.map fun p => (ρ p.1, ρ p.2))
        dropna du dof) := by
  unfold outlierMatrices
  refine Ren.bind (Ren.read hr) ?_
  rintro f _ rfl
  dsimp only
  rw [getD_ren]
  refine Ren.bind (dqCheck_ren hρ hr _ dropna) ?_
  rintro ⟨c, l⟩ ⟨_, _⟩ ⟨h1, h2, hc⟩
  simp only at h1 h2
  subst h1 h2
  refine Ren.bind (binData_ren hρ hc fl pf _ bins quantile) ?_
  rintro ⟨b, d⟩ ⟨_, _⟩ ⟨h1, h2, hb⟩
  simp only at h1 h2
  subst h1 h2
  refine Ren.bind (R := fun a b => b = renamePairs ρ a) ?_ ?_
  · unfold outlierMatricesFromRebinned
    refine Ren.bind (Ren.read hb) ?_
    rintro g _ rfl
    dsimp only
    have e : (if (co.map fun p => (ρ p.1, ρ p.2)).isEmpty then comb2 (renameFrame ρ g).names else co.map fun p => (ρ p.1, ρ p.2)) =
        (if co.isEmpty then comb2 g.names else co).map fun p => (ρ p.1, ρ p.2) := by
      rw [renameFrame_names, comb2_ren]
      cases co <;> rfl
    rw [e]
    exact outlierLoop_ren hρ hb N fmt d ci dropna du dof _
  · rintro l _ rfl
    exact Ren.pure ⟨⟨l, rfl, rfl⟩, rfl⟩

/-! ### arrays -/

omit hρ in
theorem arraysToFrameN_ren (render : ℚ → String) (nx ny : String) (x y : List Cell) :
    arraysToFrameN render (ρ nx) (ρ ny) x y = (arraysToFrameN render nx ny x y).map (renameFrame ρ) := by
  unfold arraysToFrameN
  split
  · rfl
  · split <;> rfl

omit hρ in
theorem dqCheckHist2d_ren (r c : ℕ) : Ren ρ w0 r0 Eq (dqCheckHist2d r c) (dqCheckHist2d r c) := by
  unfold dqCheckHist2d
  refine Ren.ite (fun _ => Ren.bind (Ren.warn (.tooFew r c)) fun _ _ _ => Ren.pure rfl) fun _ => ?_
  have h2 : Ren ρ w0 r0 Eq (if 1000 < c then do M.warn (.manyBinsY r); pure true else pure true)
      (if 1000 < c then do M.warn (.manyBinsY r); pure true else pure true) :=
    Ren.ite (fun _ => Ren.bind (Ren.warn (.manyBinsY r)) fun _ _ _ => Ren.pure rfl) fun _ => Ren.pure rfl
  exact Ren.ite (fun _ => Ren.bind (Ren.warn (.manyBinsX r)) fun _ _ _ => h2) fun _ => h2

theorem phikFromArrayN_ren (nm : Numerics) (render : ℚ → String) (fl : ℚ → ℚ) (pf : String → Option (Option ℚ)) (nx ny : String)
    (x y : List Cell) (nv : List String) (bins : Bins) (quantile noise dropna du dof : Bool) :
    Ren ρ w0 r0 Eq (phikFromArrayN nm render fl pf nx ny x y nv bins quantile noise dropna du dof)
      (phikFromArrayN nm render fl pf (ρ nx) (ρ ny) x y (nv.map ρ) (renameBins ρ bins) quantile noise dropna du dof) := by
  have hb : ∀ x y : List Cell, Ren ρ w0 r0 Eq (phikFromBinnedArray nm render x y noise dropna du dof)
      (phikFromBinnedArray nm render x y noise dropna du dof) := by
    intro x y
    unfold phikFromBinnedArray
    refine Ren.ite (fun _ => Ren.throw_bind _) fun _ => ?_
    refine Ren.bind (dqCheckHist2d_ren _ _) ?_
    rintro b _ rfl
    refine Ren.ite (fun _ => Ren.pure rfl) fun _ => ?_
    refine Ren.bind (Ren.except _) ?_
    rintro v _ rfl
    exact Ren.pure rfl
  unfold phikFromArrayN
  rw [List.length_map]
  split
  · rw [arraysToFrameN_ren]
    refine Ren.bind (Ren.except_map _ _) ?_
    rintro f _ rfl
    refine Ren.bind (Ren.alloc f) ?_
    rintro r _ ⟨rfl, hr⟩
    refine Ren.bind (binData_ren hρ hr fl pf nv bins quantile) ?_
    rintro ⟨b, d⟩ ⟨_, _⟩ ⟨h1, h2, hb'⟩
    simp only at h1 h2
    subst h1 h2
    refine Ren.bind (Ren.read hb') ?_
    rintro g _ rfl
    rw [renameFrame_cols]
    rcases g.cols with _ | ⟨a, _ | ⟨b, _ | ⟨c, l⟩⟩⟩
    · exact Ren.throw _
    · exact Ren.throw _
    · exact hb _ _
    · exact Ren.throw _
  · exact hb x y

theorem sigFromArrayN_ren {F : Type} (S : SigNum) (R : SimRun F) (render : ℚ → String) (fl : ℚ → ℚ)
    (pf : String → Option (Option ℚ)) (nx ny : String) (x y : List Cell) (nv : List String) (bins : Bins) (quantile : Bool)
    (sm : String) (dropna du dof : Bool) :
    Ren ρ w0 r0 Eq (sigFromArrayN S R render fl pf nx ny x y nv bins quantile sm dropna du dof)
      (sigFromArrayN S R render fl pf (ρ nx) (ρ ny) x y (nv.map ρ) (renameBins ρ bins) quantile sm dropna du dof) := by
  have hb : ∀ x y : List Cell, Ren ρ w0 r0 Eq (sigFromBinnedArray S R render x y sm dropna du dof)
      (sigFromBinnedArray S R render x y sm dropna du dof) := by
    intro x y
    unfold sigFromBinnedArray
    refine Ren.ite (fun _ => Ren.throw_bind _) fun _ => ?_
    refine Ren.bind (dqCheckHist2d_ren _ _) ?_
    rintro b _ rfl
    exact Ren.ite (fun _ => Ren.pure rfl) fun _ => Ren.except _
  unfold sigFromArrayN
  rw [List.length_map]
  split
  · rw [arraysToFrameN_ren]
    refine Ren.bind (Ren.except_map _ _) ?_
    rintro f _ rfl
    refine Ren.bind (Ren.alloc f) ?_
    rintro r _ ⟨rfl, hr⟩
    refine Ren.bind (binData_ren hρ hr fl pf nv bins quantile) ?_
    rintro ⟨b, d⟩ ⟨_, _⟩ ⟨h1, h2, hb'⟩
    simp only at h1 h2
    subst h1 h2
    refine Ren.bind (Ren.read hb') ?_
    rintro g _ rfl
    rw [renameFrame_cols]
    rcases g.cols with _ | ⟨a, _ | ⟨b, _ | ⟨c, l⟩⟩⟩
    · exact Ren.throw _
    · exact Ren.throw _
    · exact hb _ _
    · exact Ren.throw _
  · exact hb x y

theorem outlierFromArrayN_ren (N : OutNum) (fmt render : ℚ → String) (fl : ℚ → ℚ) (pf : String → Option (Option ℚ))
    (nx ny : String) (x y : List Cell) (nv : Option (List String)) (bins : Bins) (quantile : Bool) (ci : String)
    (dropna du dof : Bool) :
    Ren ρ w0 r0 Eq (outlierFromArrayN N fmt render fl pf nx ny x y nv bins quantile ci dropna du dof)
      (outlierFromArrayN N fmt render fl pf (ρ nx) (ρ ny) x y (nv.map (List.map ρ)) (renameBins ρ bins) quantile ci
        dropna du dof) := by
  unfold outlierFromArrayN
  rw [arraysToFrameN_ren]
  refine Ren.bind (Ren.except_map _ _) ?_
  rintro f _ rfl
  refine Ren.bind (Ren.alloc f) ?_
  rintro r _ ⟨rfl, hr⟩
  dsimp only
  rw [getD_ren]
  refine Ren.bind (outlierMatrix_ren hρ hr N fmt fl pf (some _) ci bins quantile dropna du dof) ?_
  rintro ⟨t, d⟩ ⟨_, _⟩ ⟨h1, -⟩
  exact Ren.pure h1.symm

theorem hist2dFromArrayN_ren (render : ℚ → String) (fl : ℚ → ℚ) (pf : String → Option (Option ℚ))
    (nx ny : String) (x y : List Cell) (ic : Option (List String)) (bins : Bins) (quantile dropna du dof : Bool) :
    Ren ρ w0 r0 (fun a b => b.1 = a.1 ∧ b.2 = renameKeys ρ a.2)
      (hist2dFromArrayN render fl pf nx ny x y ic bins quantile dropna du dof)
      (hist2dFromArrayN render fl pf (ρ nx) (ρ ny) x y (ic.map (List.map ρ)) (renameBins ρ bins) quantile dropna du dof) := by
  unfold hist2dFromArrayN
  rw [arraysToFrameN_ren]
  refine Ren.bind (Ren.except_map _ _) ?_
  rintro f _ rfl
  refine Ren.bind (Ren.alloc f) ?_
  rintro r _ ⟨rfl, hr⟩
  exact hist2d_ren hρ hr fl pf ic bins quantile dropna du dof

end

namespace Props

/-- The state in which the columns of frame number `r` have other names. -/
theorem renamed_start {ρ : String → String} {w : World} {r : Ref} {f : Frame} (hr : w.heap[r]? = some f) :
    SameState ρ w r w { w with heap := w.heap.set r (renameFrame ρ f) } := by
  have hl : r < w.heap.length := (List.getElem?_eq_some_iff.1 hr).1
  refine ⟨le_rfl, by simp, ?_, ?_, [], [], by simp, by simp, List.Perm.refl _⟩
  · rintro i (rfl | hi)
    · simp only
      rw [List.getElem?_set_self hl, hr]
      rfl
    · simp only
      rw [List.getElem?_eq_none (by simpa using hi), List.getElem?_eq_none hi]
      rfl
  · intro i hi
    simp only
    rw [List.getElem?_set_ne (fun e => hi (.inl e.symm))]

theorem same_start (ρ : String → String) (w : World) : SameState ρ w w.heap.length w w := by
  refine ⟨le_rfl, rfl, ?_, fun _ _ => rfl, [], [], by simp, by simp, List.Perm.refl _⟩
  rintro i hi
  have hi : w.heap.length ≤ i := by rcases hi with rfl | hi <;> [exact le_rfl; exact hi]
  rw [List.getElem?_eq_none hi]
  rfl

/-- **C81 for the correlation functions.** Renaming the columns of a frame, and the names in the arguments in the same way,
changes nothing but the labels: `phik_matrix` returns the same numbers in the same order, `global_phik_array` the same numbers, or
both runs raise the same exception; the same warnings are issued. -/
theorem column_names_phik {ρ : String → String} (hρ : Function.Injective ρ) (nm : Numerics) (sched : Option (List ℕ))
    (fl : ℚ → ℚ) (pf : String → Option (Option ℚ)) {r : Ref} {w : World} {f : Frame} (hr : w.heap[r]? = some f)
    (ic : Option (List String)) (bins : Bins) (quantile noise dropna du dof : Bool) :
    EndAlike ρ w r (SameLabelled ρ) ((phikMatrix nm sched fl pf r ic bins quantile noise dropna du dof).exec w)
      ((phikMatrix nm sched fl pf r (ic.map (List.map ρ)) (renameBins ρ bins) quantile noise dropna du dof).exec
        { w with heap := w.heap.set r (renameFrame ρ f) }) ∧
    EndAlike ρ w r (fun a b => b.1 = a.1 ∧ b.2 = a.2.map ρ)
      ((globalPhikArray nm sched fl pf r ic bins quantile noise dropna du dof).exec w)
      ((globalPhikArray nm sched fl pf r (ic.map (List.map ρ)) (renameBins ρ bins) quantile noise dropna du dof).exec
        { w with heap := w.heap.set r (renameFrame ρ f) }) ∧
    EndAlike ρ w r (SameLabelled ρ) ((phikFromRebinned nm sched r noise dropna du dof).exec w)
      ((phikFromRebinned nm sched r noise dropna du dof).exec { w with heap := w.heap.set r (renameFrame ρ f) }) :=
  ⟨phikMatrix_ren hρ (.inl rfl) nm sched fl pf ic bins quantile noise dropna du dof _ _ (renamed_start hr),
    globalPhikArray_ren hρ (.inl rfl) nm sched fl pf ic bins quantile noise dropna du dof _ _ (renamed_start hr),
    phikFromRebinned_ren hρ (.inl rfl) nm sched noise dropna du dof _ _ (renamed_start hr)⟩

/-- **C81 for the significance functions.** The same for `significance_matrix` and `significance_from_rebinned_df`, when the
simulations for the pairs are the same. -/
theorem column_names_significance {ρ : String → String} (hρ : Function.Injective ρ) {F : Type} (S : SigNum) (R : ℕ → SimRun F)
    (fl : ℚ → ℚ) (pf : String → Option (Option ℚ)) {r : Ref} {w : World} {f : Frame} (hr : w.heap[r]? = some f)
    (ic : Option (List String)) (bins : Bins) (sm : String) (dropna du dof : Bool) :
    EndAlike ρ w r (SameLabelled ρ) ((significanceMatrix S R fl pf r ic bins sm dropna du dof).exec w)
      ((significanceMatrix S R fl pf r (ic.map (List.map ρ)) (renameBins ρ bins) sm dropna du dof).exec
        { w with heap := w.heap.set r (renameFrame ρ f) }) ∧
    EndAlike ρ w r (SameLabelled ρ) ((sigFromRebinned S R r sm dropna du dof).exec w)
      ((sigFromRebinned S R r sm dropna du dof).exec { w with heap := w.heap.set r (renameFrame ρ f) }) :=
  ⟨significanceMatrix_ren hρ (.inl rfl) S R fl pf ic bins sm dropna du dof _ _ (renamed_start hr),
    sigFromRebinned_ren hρ (.inl rfl) S R sm dropna du dof _ _ (renamed_start hr)⟩

/-- **C81 for binning and for the outlier functions.** The same for `bin_data`, `hist2d`, `outlier_significance_matrix` and
`outlier_significance_matrices`.  The last one returns a dictionary with the keys 'a:b': in both runs it is the dictionary of
the same list of results, for the renamed pairs (where a later result replaces an earlier one with the same key). -/
theorem column_names_frames {ρ : String → String} (hρ : Function.Injective ρ) (N : OutNum) (fmt : ℚ → String)
    (fl : ℚ → ℚ) (pf : String → Option (Option ℚ)) {r : Ref} {w : World} {f : Frame} (hr : w.heap[r]? = some f)
    (cols : List String) (ic : Option (List String)) (bins : Bins) (ci : String) (co : List (String × String))
    (quantile dropna du dof : Bool) :
    EndAlike ρ w r (fun a b => b.1 = a.1 ∧ b.2 = renameKeys ρ a.2 ∧ (a.1 = r ∨ w.heap.length ≤ a.1))
      ((binData fl pf r cols bins quantile).exec w)
      ((binData fl pf r (cols.map ρ) (renameBins ρ bins) quantile).exec { w with heap := w.heap.set r (renameFrame ρ f) }) ∧
    EndAlike ρ w r (fun a b => b.1 = a.1 ∧ b.2 = renameKeys ρ a.2)
      ((hist2d fl pf r ic bins quantile dropna du dof).exec w)
      ((hist2d fl pf r (ic.map (List.map ρ)) (renameBins ρ bins) quantile dropna du dof).exec
        { w with heap := w.heap.set r (renameFrame ρ f) }) ∧
    EndAlike ρ w r (fun a b => b.1 = a.1 ∧ b.2 = renameKeys ρ a.2)
      ((outlierMatrix N fmt fl pf r ic ci bins quantile dropna du dof).exec w)
      ((outlierMatrix N fmt fl pf r (ic.map (List.map ρ)) ci (renameBins ρ bins) quantile dropna du dof).exec
        { w with heap := w.heap.set r (renameFrame ρ f) }) ∧
    EndAlike ρ w r (fun a b => b.2 = renameKeys ρ a.2 ∧ ∃ l : List (String × String × Option OutTab),
        (∀ k v, (k, v) ∈ a.1 ↔ ∃ pre p post, l = pre ++ p :: post ∧ k = p.1 ++ ":" ++ p.2.1 ∧ v = p.2.2 ∧
          ∀ q ∈ post, q.1 ++ ":" ++ q.2.1 ≠ k) ∧
        (∀ k v, (k, v) ∈ b.1 ↔ ∃ pre p post, l = pre ++ p :: post ∧ k = ρ p.1 ++ ":" ++ ρ p.2.1 ∧ v = p.2.2 ∧
          ∀ q ∈ post, ρ q.1 ++ ":" ++ ρ q.2.1 ≠ k))
      ((outlierMatrices N fmt fl pf r ic ci bins quantile co dropna du dof).exec w)
      ((outlierMatrices N fmt fl pf r (ic.map (List.map ρ)) ci (renameBins ρ bins) quantile (co.map fun p => (ρ p.1, ρ p.2))
        dropna du dof).exec { w with heap := w.heap.set r (renameFrame ρ f) }) := by
  refine ⟨binData_ren hρ (.inl rfl) fl pf cols bins quantile _ _ (renamed_start hr),
    hist2d_ren hρ (.inl rfl) fl pf ic bins quantile dropna du dof _ _ (renamed_start hr),
    outlierMatrix_ren hρ (.inl rfl) N fmt fl pf ic ci bins quantile dropna du dof _ _ (renamed_start hr),
    (outlierMatrices_ren hρ (.inl rfl) N fmt fl pf ic ci bins quantile co dropna du dof).mono ?_ _ _ (renamed_start hr)⟩
  rintro a b ⟨⟨l, h1, h2⟩, h3⟩
  refine ⟨h3, l, fun k v => by rw [h1]; exact mem_joinDict l k v, fun k v => ?_⟩
  rw [h2, mem_joinDict]
  constructor
  · rintro ⟨pre, p, post, e, hk, hv, hq⟩
    obtain ⟨l1, l2, rfl, e1, e2⟩ := List.map_eq_append_iff.1 e
    obtain ⟨q, l3, rfl, rfl, rfl⟩ := List.map_eq_cons_iff.1 e2
    exact ⟨l1, q, l3, rfl, hk, hv, fun q hq' => hq _ (List.mem_map.2 ⟨q, hq', rfl⟩)⟩
  · rintro ⟨pre, p, post, rfl, hk, hv, hq⟩
    refine ⟨renamePairs ρ pre, (ρ p.1, ρ p.2.1, p.2.2), renamePairs ρ post, by simp [renamePairs], hk, hv, ?_⟩
    intro q hq'
    obtain ⟨q', h4, rfl⟩ := List.mem_map.1 hq'
    exact hq q' h4

/-- A renaming that keeps finitely many names apart agrees on them with an injective renaming: it is no restriction to consider
only injective ones. -/
theorem renaming_extends {ρ : String → String} {names : List String} (h : ∀ a ∈ names, ∀ b ∈ names, ρ a = ρ b → a = b) :
    ∃ σ : String → String, Function.Injective σ ∧ ∀ a ∈ names, σ a = ρ a := by
  classical
  induction names with
  | nil => exact ⟨id, Function.injective_id, fun _ h => by cases h⟩
  | cons n names ih =>
    obtain ⟨σ, h1, h2⟩ := ih fun a ha b hb => h a (.tail _ ha) b (.tail _ hb)
    by_cases hn : n ∈ names
    · refine ⟨σ, h1, fun a ha => ?_⟩
      rcases List.mem_cons.1 ha with rfl | ha
      · exact h2 _ hn
      · exact h2 _ ha
    · refine ⟨Equiv.swap (σ n) (ρ n) ∘ σ, (Equiv.injective _).comp h1, fun a ha => ?_⟩
      rcases List.mem_cons.1 ha with rfl | ha
      · simp
      · have hne : a ≠ n := fun e => hn (e ▸ ha)
        simp only [Function.comp_apply]
        rw [Equiv.swap_apply_of_ne_of_ne, h2 a ha]
        · exact fun e => hne (h1 e)
        · rw [h2 a ha]
          exact fun e => hne (h a (.tail _ ha) n (.head _) e)

/-- **C81 for arrays.** The functions of two arrays give the same result for two Series with other names, when the names in the
arguments are changed accordingly.  Here `ρ` takes 'x' and 'y' to the names of the Series. -/
theorem series_names {ρ : String → String} (hρ : Function.Injective ρ) (nm : Numerics) {F : Type} (S : SigNum) (R : SimRun F)
    (N : OutNum) (fmt render : ℚ → String) (fl : ℚ → ℚ) (pf : String → Option (Option ℚ)) (x y : List Cell) (nv : List String)
    (ic : Option (List String)) (bins : Bins) (sm ci : String) (quantile noise dropna du dof : Bool) (w : World) :
    EndAlike ρ w w.heap.length Eq ((phikFromArray nm render fl pf x y nv bins quantile noise dropna du dof).exec w)
      ((phikFromArrayN nm render fl pf (ρ "x") (ρ "y") x y (nv.map ρ) (renameBins ρ bins) quantile noise dropna du dof).exec w) ∧
    EndAlike ρ w w.heap.length Eq ((sigFromArray S R render fl pf x y nv bins quantile sm dropna du dof).exec w)
      ((sigFromArrayN S R render fl pf (ρ "x") (ρ "y") x y (nv.map ρ) (renameBins ρ bins) quantile sm dropna du dof).exec w) ∧
    EndAlike ρ w w.heap.length Eq ((outlierFromArray N fmt render fl pf x y ic bins quantile ci dropna du dof).exec w)
      ((outlierFromArrayN N fmt render fl pf (ρ "x") (ρ "y") x y (ic.map (List.map ρ)) (renameBins ρ bins) quantile ci
        dropna du dof).exec w) ∧
    EndAlike ρ w w.heap.length (fun a b => b.1 = a.1 ∧ b.2 = renameKeys ρ a.2)
      ((hist2dFromArray render fl pf x y ic bins quantile dropna du dof).exec w)
      ((hist2dFromArrayN render fl pf (ρ "x") (ρ "y") x y (ic.map (List.map ρ)) (renameBins ρ bins) quantile
        dropna du dof).exec w) :=
  ⟨phikFromArrayN_ren hρ nm render fl pf "x" "y" x y nv bins quantile noise dropna du dof _ _ (same_start ρ w),
    sigFromArrayN_ren hρ S R render fl pf "x" "y" x y nv bins quantile sm dropna du dof _ _ (same_start ρ w),
    outlierFromArrayN_ren hρ N fmt render fl pf "x" "y" x y ic bins quantile ci dropna du dof _ _ (same_start ρ w),
    hist2dFromArrayN_ren hρ render fl pf "x" "y" x y ic bins quantile dropna du dof _ _ (same_start ρ w)⟩

/-- Two different names are the images of 'x' and 'y' under some injective renaming. -/
example {nx ny : String} (h : nx ≠ ny) : ∃ ρ : String → String, Function.Injective ρ ∧ ρ "x" = nx ∧ ρ "y" = ny := by
  obtain ⟨σ, h1, h2⟩ := renaming_extends (ρ := fun a => if a = "x" then nx else ny) (names := ["x", "y"]) (by
    intro a ha b hb e
    simp only [List.mem_cons, List.not_mem_nil, or_false] at ha hb
    rcases ha with rfl | rfl <;> rcases hb with rfl | rfl
    · rfl
    · simp at e; exact absurd e h
    · simp at e; exact absurd e.symm h
    · rfl)
  exact ⟨σ, h1, by simpa using h2 "x" (by simp), by simpa using h2 "y" (by simp)⟩

/-- **C81 violated: the documented names.** `num_vars=['x']`, as in the documentation of `phik_from_array` and
`significance_from_array`, raises KeyError if `x` is a Series with another name, unless the other one is named 'x'; and every
other name that is not that of one of the two arrays does so too. -/
theorem documented_names (nm : Numerics) {F : Type} (S : SigNum) (R : SimRun F) (render : ℚ → String) (fl : ℚ → ℚ)
    (pf : String → Option (Option ℚ)) {nx ny n : String} (h1 : n ≠ nx) (h2 : n ≠ ny) {x y : List Cell} (hl : x.length = y.length)
    (s : BinSpec) (sm : String) (quantile noise dropna du dof : Bool) (w : World) :
    ((phikFromArrayN nm render fl pf nx ny x y [n] (.one s) quantile noise dropna du dof).exec w).1 = .error .key ∧
    ((sigFromArrayN S R render fl pf nx ny x y [n] (.one s) quantile sm dropna du dof).exec w).1 = .error .key := by
  obtain ⟨f, hf, hc⟩ : ∃ f, arraysToFrameN render nx ny x y = .ok f ∧ f.col? n = none := by
    unfold arraysToFrameN
    rw [if_neg (by simpa using hl)]
    have e1 : (nx == n) = false := by simpa using h1.symm
    have e2 : (ny == n) = false := by simpa using h2.symm
    split
    · exact ⟨_, rfl, by simp [Frame.col?, e1, e2]⟩
    · exact ⟨_, rfl, by simp [Frame.col?, e1, e2]⟩
  have hfl : colFloats pf f n = .error .key := by simp [colFloats, Frame.getCol, hc, bind, Except.bind]
  have hb : binDataCore fl pf f [n] (.one s) quantile = .error .key := by
    cases s <;> simp [binDataCore, dictCheck, binLoop, selectEdges, Bins.entry, hfl, bind, Except.bind, pure, Except.pure]
  have hr : (⟨w.heap ++ [f], w.warns⟩ : World).heap[w.heap.length]? = some f := by simp
  have hd : (binData fl pf w.heap.length [n] (.one s) quantile).exec ⟨w.heap ++ [f], w.warns⟩ =
      (.error .key, ⟨w.heap ++ [f] ++ [f], w.warns⟩) := by
    rw [binData_exec fl pf hr, hb]
  constructor
  · unfold phikFromArrayN
    rw [if_pos (by simp), exec_bind, exec_ofExcept, hf]
    simp only
    rw [exec_bind, exec_alloc]
    simp only
    rw [exec_bind, hd]
  · unfold sigFromArrayN
    rw [if_pos (by simp), exec_bind, exec_ofExcept, hf]
    simp only
    rw [exec_bind, exec_alloc]
    simp only
    rw [exec_bind, hd]

/-! ### hist2d_from_array -/

/-- **C81.** `hist2d_from_array` raises ValueError for arrays of different lengths; otherwise it is `hist2d` of the data frame of
the two arrays. -/
theorem hist2d_array_result (render : ℚ → String) (fl : ℚ → ℚ) (pf : String → Option (Option ℚ)) (x y : List Cell)
    (ic : Option (List String)) (bins : Bins) (quantile dropna du dof : Bool) (w : World) :
    (x.length ≠ y.length →
      (hist2dFromArray render fl pf x y ic bins quantile dropna du dof).exec w = (.error .value, w)) ∧
    (x.length = y.length →
      (hist2dFromArray render fl pf x y ic bins quantile dropna du dof).exec w =
        (hist2d fl pf w.heap.length ic bins quantile dropna du dof).exec ⟨w.heap ++ [arrayFrame render x y], w.warns⟩ ∧
      w.heap <+: ((hist2dFromArray render fl pf x y ic bins quantile dropna du dof).exec w).2.heap) := by
  constructor
  · intro h
    unfold hist2dFromArray arraysToFrame
    rw [if_pos h]
    rfl
  · intro h
    have e : (hist2dFromArray render fl pf x y ic bins quantile dropna du dof).exec w =
        (hist2d fl pf w.heap.length ic bins quantile dropna du dof).exec ⟨w.heap ++ [arrayFrame render x y], w.warns⟩ := by
      unfold hist2dFromArray
      rw [arraysToFrame_eq render h]
      rfl
    refine ⟨e, ?_⟩
    rw [e]
    exact (List.prefix_append _ [arrayFrame render x y]).trans
      (hist2d_keeps_frames fl pf w.heap.length ⟨w.heap ++ [arrayFrame render x y], w.warns⟩ ic bins quantile dropna du dof)

/-- **C81 violated: a list of numbers beside a list with a string.** With the default `interval_cols=None` nothing is binned,
whatever the `bins`: the table counts the numbers written as strings, and a missing value, written 'nan', is a category although
`dropna` is set. -/
theorem hist2d_array_text (render : ℚ → String) (fl : ℚ → ℚ) (pf : String → Option (Option ℚ)) {x y : List Cell}
    (hl : x.length = y.length) {s : String} (hs : Cell.str s ∈ x ∨ Cell.str s ∈ y)
    {ic : Option (List String)} (hic : ic = none ∨ ic = some []) (bins : Bins) (quantile dropna du dof : Bool) (w : World) :
    ∃ h w', (hist2dFromArray render fl pf x y ic bins quantile dropna du dof).exec w = (.ok (h, []), w') ∧
      IsTable ((x.zip y).map fun p => (view dropna du dof (asStr render p.1), view dropna du dof (asStr render p.2))) h := by
  rw [((hist2d_array_result render fl pf x y ic bins quantile dropna du dof w).2 hl).1]
  have hf : arrayFrame render x y = ⟨x.length, [⟨"x", false, x.map (asStr render)⟩, ⟨"y", false, y.map (asStr render)⟩]⟩ := by
    unfold arrayFrame
    rw [if_pos ⟨s, hs⟩]
  rw [hf]
  set data : Frame := ⟨x.length, [⟨"x", false, x.map (asStr render)⟩, ⟨"y", false, y.map (asStr render)⟩]⟩ with hdata
  have hr : (⟨w.heap ++ [data], w.warns⟩ : World).heap[w.heap.length]? = some data := by simp
  have hb : binDataCore fl pf data (ic.getD (guessIntervalCols data)) bins quantile = .ok (data, []) := by
    rcases hic with rfl | rfl <;> cases bins <;> rfl
  have h := hist2d_table fl pf hr (ic := ic) (bins := bins) (quantile := quantile) (dropna := dropna) (du := du) (dof := dof)
  rw [binData_exec fl pf hr, hb] at h
  revert h
  rcases (hist2d fl pf w.heap.length ic bins quantile dropna du dof).exec ⟨w.heap ++ [data], w.warns⟩ with ⟨_ | ⟨hist, dict⟩, w'⟩
  · rintro ⟨-, ⟨h, -⟩ | h⟩
    · exact absurd rfl h
    · cases h
  · rintro ⟨-, -, r', w1, out, a, b, h1, h2, h3, h4⟩
    simp only [Prod.mk.injEq, Except.ok.injEq] at h1
    obtain ⟨⟨rfl, rfl⟩, rfl⟩ := h1
    simp only [List.getElem?_append_right (le_refl _)] at h2
    refine ⟨hist, w', rfl, ?_⟩
    simp at h2
    subst h2
    simp only [hdata, List.cons.injEq, and_true] at h3
    obtain ⟨rfl, rfl⟩ := h3
    have e : (x.map (asStr render)).zip (y.map (asStr render)) = (x.zip y).map fun p => (asStr render p.1, asStr render p.2) := by
      rw [List.zip_map]; rfl
    simp only [e, List.map_map] at h4
    exact h4

/-- The lists [0, 1, NaN] and ['a', 'b', 'c'], with `interval_cols=[]` and `dropna=True`: `hist2d` of the data frame leaves the
third record out, `hist2d_from_array` counts it. -/
example (render : ℚ → String) (fl : ℚ → ℚ) (pf : String → Option (Option ℚ)) (bins : Bins) (w : World) :
    (∃ h w', (hist2dFromArray render fl pf [.num 0, .num 1, .nan] [.str "a", .str "b", .str "c"] (some []) bins false true true
        true).exec w = (.ok (h, []), w') ∧ Cell.str "c" ∈ h.cols) ∧
    (∃ h w', (hist2d fl pf w.heap.length (some []) bins false true true true).exec
        ⟨w.heap ++ [⟨3, [⟨"x", true, [.num 0, .num 1, .nan]⟩, ⟨"y", false, [.str "a", .str "b", .str "c"]⟩]⟩], w.warns⟩ =
          (.ok (h, []), w') ∧ Cell.str "c" ∉ h.cols) := by
  constructor
  · obtain ⟨h, w', h1, h2⟩ := hist2d_array_text render fl pf (x := [.num 0, .num 1, .nan]) (y := [.str "a", .str "b", .str "c"]) rfl
      (s := "a") (by simp) (ic := some []) (.inr rfl) bins false true true true w
    refine ⟨h, w', h1, (h2.cols_mem _).2 ⟨.str "nan", ?_⟩⟩
    simp [asStr, view]
  · set data : Frame := ⟨3, [⟨"x", true, [.num 0, .num 1, .nan]⟩, ⟨"y", false, [.str "a", .str "b", .str "c"]⟩]⟩ with hdata
    have hr : (⟨w.heap ++ [data], w.warns⟩ : World).heap[w.heap.length]? = some data := by simp
    have hb : binDataCore fl pf data [] bins false = .ok (data, []) := by cases bins <;> rfl
    have h := hist2d_table fl pf hr (ic := some []) (bins := bins) (quantile := false) (dropna := true) (du := true) (dof := true)
    rw [Option.getD_some, binData_exec fl pf hr, hb] at h
    revert h
    rcases (hist2d fl pf w.heap.length (some []) bins false true true true).exec ⟨w.heap ++ [data], w.warns⟩ with
      ⟨_ | ⟨hist, dict⟩, w'⟩
    · rintro ⟨-, ⟨h, -⟩ | h⟩
      · exact absurd rfl h
      · cases h
    · rintro ⟨-, -, r', w1, out, a, b, h1, h2, h3, h4⟩
      simp only [Prod.mk.injEq, Except.ok.injEq] at h1
      obtain ⟨⟨rfl, rfl⟩, rfl⟩ := h1
      refine ⟨hist, w', rfl, fun hc => ?_⟩
      simp at h2
      subst h2
      simp only [hdata, List.cons.injEq, and_true] at h3
      obtain ⟨rfl, rfl⟩ := h3
      obtain ⟨a, ha⟩ := (h4.cols_mem _).1 hc
      simp [view] at ha

end Props

end Phik
