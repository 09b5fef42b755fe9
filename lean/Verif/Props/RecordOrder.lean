import Verif.Lemmas.RecordOrder
import Verif.Props.Arrays

/-! # Property C66: the order of the records is irrelevant -/

namespace Phik

open Spec M

theorem dqCheck_same (r : Ref) (ic : List String) (dropna : Bool) : Same Eq (dqCheck r ic dropna) (dqCheck r ic dropna) := by
  unfold dqCheck
  refine Same.bind (Same.read r) fun f g h => ?_
  obtain ⟨idx, hs⟩ := shuffled_iff.1 h
  dsimp only
  simp only [hs.names, hs.otherCols, hs.nunique, hs.dropCols]
  refine Same.bind (Same.warnAll _) fun _ _ _ => Same.bind (Same.warnAll _) fun _ _ _ => Same.bind (Same.alloc h) ?_
  rintro c _ rfl
  split
  · exact Same.bind (Same.write c (shuffled_iff.2 ⟨idx, hs.drop _⟩)) fun _ _ _ => Same.pure rfl
  · exact Same.pure rfl

theorem binData_same (fl : ℚ → ℚ) (pf : String → Option (Option ℚ)) (r : Ref) (cols : List String) (bins : Bins) (q : Bool) :
    Same Eq (binData fl pf r cols bins q) (binData fl pf r cols bins q) := by
  unfold binData
  refine Same.bind (Same.read r) fun f g h => Same.bind (Same.alloc h) ?_
  rintro c _ rfl
  refine Same.bind (Same.ofExcept (binDataCore_shuf fl pf h cols bins q)) ?_
  rintro ⟨o, d⟩ ⟨o', d'⟩ ⟨h1, h2⟩
  simp only at h1 h2
  subst h2
  exact Same.bind (Same.write c h1) fun _ _ _ => Same.pure rfl

theorem calcPhik_shuf (nm : Numerics) {f g : Frame} (h : Shuffled f g) (noise : Bool) (co : String × String) :
    calcPhik nm g noise co = calcPhik nm f noise co := by
  unfold calcPhik
  split
  · rfl
  rcases h.pair co.1 co.2 with ⟨e, h1, h2⟩ | ⟨a, a', h1, h2, -, -, ⟨e, h3, h4⟩ | ⟨b, b', h3, h4, -, -, hz, -⟩⟩
  · simp only [h1, h2, bind, Except.bind]
  · simp only [h1, h2, h3, h4, bind, Except.bind]
  · simp only [h1, h2, h3, h4, bind, Except.bind, histOfPairs_perm hz]

theorem phikOfFrame_shuf (nm : Numerics) (sched : Option (List ℕ)) {f g : Frame} (h : Shuffled f g) (noise : Bool) :
    phikOfFrame nm sched g noise = phikOfFrame nm sched f noise := by
  unfold phikOfFrame
  rw [h.names, show calcPhik nm g noise = calcPhik nm f noise from funext fun co => calcPhik_shuf nm h noise co]

theorem phikFromRebinned_same (nm : Numerics) (sched : Option (List ℕ)) (r : Ref) (noise dropna du dof : Bool) :
    Same Eq (phikFromRebinned nm sched r noise dropna du dof) (phikFromRebinned nm sched r noise dropna du dof) := by
  unfold phikFromRebinned
  refine Same.bind (Same.read r) fun f g h => ?_
  have h' := applyFlags_shuf h dropna du dof
  refine Same.bind (Same.write r h') fun _ _ _ => ?_
  rw [phikOfFrame_shuf nm sched h']
  exact Same.except _

theorem phikMatrix_same (nm : Numerics) (sched : Option (List ℕ)) (fl : ℚ → ℚ) (pf : String → Option (Option ℚ)) (r : Ref)
    (ic : Option (List String)) (bins : Bins) (quantile noise dropna du dof : Bool) :
    Same Eq (phikMatrix nm sched fl pf r ic bins quantile noise dropna du dof)
      (phikMatrix nm sched fl pf r ic bins quantile noise dropna du dof) := by
  unfold phikMatrix
  refine Same.bind (Same.read r) fun f g h => ?_
  dsimp only
  rw [h.guess]
  refine Same.bind (dqCheck_same r _ dropna) ?_
  rintro ⟨c, icc⟩ _ rfl
  refine Same.bind (binData_same fl pf c icc bins quantile) ?_
  rintro ⟨b, d⟩ _ rfl
  exact phikFromRebinned_same nm sched b noise dropna du dof

theorem globalFromRebinned_same (nm : Numerics) (sched : Option (List ℕ)) (r : Ref) (noise dropna du dof : Bool) :
    Same Eq (globalFromRebinned nm sched r noise dropna du dof) (globalFromRebinned nm sched r noise dropna du dof) := by
  unfold globalFromRebinned
  refine Same.bind (phikFromRebinned_same nm sched r noise dropna du dof) ?_
  rintro t _ rfl
  refine Same.bind (Same.except _) ?_
  rintro x _ rfl
  exact Same.pure rfl

theorem globalPhikArray_same (nm : Numerics) (sched : Option (List ℕ)) (fl : ℚ → ℚ) (pf : String → Option (Option ℚ)) (r : Ref)
    (ic : Option (List String)) (bins : Bins) (quantile noise dropna du dof : Bool) :
    Same Eq (globalPhikArray nm sched fl pf r ic bins quantile noise dropna du dof)
      (globalPhikArray nm sched fl pf r ic bins quantile noise dropna du dof) := by
  unfold globalPhikArray
  refine Same.bind (Same.read r) fun f g h => ?_
  dsimp only
  rw [h.guess]
  refine Same.bind (dqCheck_same r _ dropna) ?_
  rintro ⟨c, icc⟩ _ rfl
  refine Same.bind (binData_same fl pf c icc bins quantile) ?_
  rintro ⟨b, d⟩ _ rfl
  exact globalFromRebinned_same nm sched b noise dropna du dof

theorem sigLoop_same {F : Type} (S : SigNum) (R : ℕ → SimRun F) (sm : String) {f g : Frame} (h : Shuffled f g) (k : ℕ)
    (co : List (String × String)) : Same Eq (sigLoop S R sm f k co) (sigLoop S R sm g k co) := by
  induction co generalizing k with
  | nil => exact Same.pure rfl
  | cons p rest ih =>
    obtain ⟨c0, c1⟩ := p
    simp only [sigLoop]
    rcases h.pair c0 c1 with ⟨e, h1, h2⟩ | ⟨a, a', h1, h2, -, -, ⟨e, h3, h4⟩ | ⟨b, b', h3, h4, -, -, hz, -⟩⟩
    · rw [h1, h2]; exact Same.bind (R := fun _ _ => False) (Same.ofExcept rfl) fun _ _ h => h.elim
    · rw [h1, h2, h3, h4]
      refine Same.bind (R := fun x y => x = a ∧ y = a') (Same.ofExcept ⟨rfl, rfl⟩) ?_
      rintro _ _ ⟨rfl, rfl⟩
      exact Same.bind (R := fun _ _ => False) (Same.ofExcept rfl) fun _ _ h => h.elim
    · rw [h1, h2, h3, h4]
      refine Same.bind (R := fun x y => x = a ∧ y = a') (Same.ofExcept ⟨rfl, rfl⟩) ?_
      rintro _ _ ⟨rfl, rfl⟩
      refine Same.bind (R := fun x y => x = b ∧ y = b') (Same.ofExcept ⟨rfl, rfl⟩) ?_
      rintro _ _ ⟨rfl, rfl⟩
      rw [histOfPairs_perm hz]
      split
      · refine Same.bind (Same.warn _) fun _ _ _ => Same.bind (ih _) ?_
        rintro l _ rfl
        exact Same.pure rfl
      · refine Same.bind (Same.except _) ?_
        rintro ⟨x, z⟩ _ rfl
        refine Same.bind (ih _) ?_
        rintro l _ rfl
        exact Same.pure rfl

theorem sigFromRebinned_same {F : Type} (S : SigNum) (R : ℕ → SimRun F) (r : Ref) (sm : String) (dropna du dof : Bool) :
    Same Eq (sigFromRebinned S R r sm dropna du dof) (sigFromRebinned S R r sm dropna du dof) := by
  unfold sigFromRebinned
  refine Same.bind (Same.read r) fun f g h => ?_
  have h' := applyFlags_shuf h dropna du dof
  refine Same.bind (Same.write r h') fun _ _ _ => ?_
  dsimp only
  rw [h'.names]
  refine Same.bind (sigLoop_same S R sm h' 0 _) ?_
  rintro l _ rfl
  split <;> exact Same.pure rfl

theorem significanceMatrix_same {F : Type} (S : SigNum) (R : ℕ → SimRun F) (fl : ℚ → ℚ) (pf : String → Option (Option ℚ)) (r : Ref)
    (ic : Option (List String)) (bins : Bins) (sm : String) (dropna du dof : Bool) :
    Same Eq (significanceMatrix S R fl pf r ic bins sm dropna du dof) (significanceMatrix S R fl pf r ic bins sm dropna du dof) := by
  unfold significanceMatrix
  refine Same.bind (Same.read r) fun f g h => ?_
  dsimp only
  rw [h.guess]
  refine Same.bind (dqCheck_same r _ dropna) ?_
  rintro ⟨c, icc⟩ _ rfl
  refine Same.bind (binData_same fl pf c icc bins false) ?_
  rintro ⟨b, d⟩ _ rfl
  exact sigFromRebinned_same S R b sm dropna du dof

theorem two_cols_shuf {f g : Frame} (h : Shuffled f g) :
    f.cols.length ≠ 2 ∧ g.cols.length ≠ 2 ∨ ∃ a b a' b', f.cols = [a, b] ∧ g.cols = [a', b'] ∧ a'.name = a.name ∧ b'.name = b.name ∧
      a'.cells.Perm a.cells ∧ b'.cells.Perm b.cells ∧ (a'.cells.zip b'.cells).Perm (a.cells.zip b.cells) := by
  obtain ⟨idx, h⟩ := shuffled_iff.1 h
  by_cases hl : f.cols.length = 2
  · obtain ⟨a, b, hab⟩ := List.length_eq_two.1 hl
    have hc := h.cols
    rw [hab] at hc
    have ha : a ∈ f.cols := by rw [hab]; simp
    have hb : b ∈ f.cols := by rw [hab]; simp
    refine .inr ⟨a, b, _, _, hab, hc, rfl, rfl, h.cells_perm ha, h.cells_perm hb, ?_⟩
    dsimp only
    rw [pk_zip _ _ ((h.rect a ha).trans (h.rect b hb).symm) (h.lt' ha)]
    refine pk_perm _ ?_
    rw [List.length_zip, h.rect a ha, h.rect b hb, min_self]
    exact h.perm
  · exact .inl ⟨hl, by rw [h.length]; exact hl⟩

theorem hist2dFromRebinned_same (r : Ref) (dropna du dof : Bool) :
    Same Eq (hist2dFromRebinned r dropna du dof) (hist2dFromRebinned r dropna du dof) := by
  unfold hist2dFromRebinned
  refine Same.bind (Same.read r) fun f g h => ?_
  have h' := applyFlags_shuf h dropna du dof
  have hlen : ∀ f : Frame, (applyFlags dropna du dof f).cols.length = f.cols.length := by
    intro f; unfold applyFlags Frame.mapCells; cases dropna <;> cases du <;> cases dof <;> simp
  rcases two_cols_shuf h' with ⟨h1, h2⟩ | ⟨a, b, a', b', h1, h2, -, -, -, -, hz⟩
  · rw [hlen] at h1 h2
    rw [if_pos h1, if_pos h2]
    exact Same.bind (R := fun _ _ => False) (Same.throw _) fun _ _ h => h.elim
  · have e1 : f.cols.length = 2 := by rw [← hlen, h1]; rfl
    have e2 : g.cols.length = 2 := by rw [← hlen, h2]; rfl
    rw [if_neg (by simp [e1]), if_neg (by simp [e2])]
    refine Same.bind (Same.write r h') fun _ _ _ => ?_
    rw [h1, h2]
    dsimp only
    rw [histOfPairs_perm hz]
    exact Same.pure rfl

theorem hist2d_same (fl : ℚ → ℚ) (pf : String → Option (Option ℚ)) (r : Ref) (ic : Option (List String)) (bins : Bins)
    (quantile dropna du dof : Bool) :
    Same Eq (hist2d fl pf r ic bins quantile dropna du dof) (hist2d fl pf r ic bins quantile dropna du dof) := by
  unfold hist2d
  refine Same.bind (Same.read r) fun f g h => ?_
  obtain ⟨idx, hs⟩ := shuffled_iff.1 h
  rw [hs.length]
  split
  · exact Same.bind (R := fun _ _ => False) (Same.throw _) fun _ _ h => h.elim
  · dsimp only
    rw [h.guess]
    refine Same.bind (binData_same fl pf r _ bins quantile) ?_
    rintro ⟨b, d⟩ _ rfl
    refine Same.bind (hist2dFromRebinned_same b dropna du dof) ?_
    rintro x _ rfl
    exact Same.pure rfl

theorem relabel_perm (fmt : ℚ → String) (dict : List (String × List (ℚ × ℚ))) {a a' : Column} (hn : a'.name = a.name)
    (hp : a'.cells.Perm a.cells) (l : List Cell) : relabel fmt dict a' l = relabel fmt dict a l := by
  unfold relabel axisLabels
  rw [hn, List.toFinset_eq_of_perm _ _ (hp.filter _)]

theorem outlierFromRebinned_same (N : OutNum) (fmt : ℚ → String) (r : Ref) (dict : List (String × List (ℚ × ℚ))) (ci : String)
    (dropna du dof : Bool) :
    Same Eq (outlierFromRebinned N fmt r dict ci dropna du dof) (outlierFromRebinned N fmt r dict ci dropna du dof) := by
  unfold outlierFromRebinned
  refine Same.bind (hist2dFromRebinned_same r dropna du dof) ?_
  rintro h _ rfl
  refine Same.bind (Same.read r) fun f g hs => ?_
  rcases two_cols_shuf hs with ⟨h1, h2⟩ | ⟨a, b, a', b', h1, h2, n1, n2, p1, p2, -⟩
  · split
    · next e => rw [e] at h1; simp at h1
    split
    · next e => rw [e] at h2; simp at h2
    exact Same.throw _
  · rw [h1, h2]
    dsimp only
    rw [n1, n2, relabel_perm fmt dict n1 p1, relabel_perm fmt dict n2 p2]
    split
    · exact Same.bind (Same.warn _) fun _ _ _ => Same.pure rfl
    · refine Same.bind (Same.except _) ?_
      rintro x _ rfl
      refine Same.bind (Same.except _) ?_
      rintro y _ rfl
      refine Same.bind (Same.except _) ?_
      rintro t _ rfl
      split
      · exact Same.pure rfl
      · exact Same.throw _

theorem outlierMatrix_same (N : OutNum) (fmt : ℚ → String) (fl : ℚ → ℚ) (pf : String → Option (Option ℚ)) (r : Ref)
    (ic : Option (List String)) (ci : String) (bins : Bins) (quantile dropna du dof : Bool) :
    Same Eq (outlierMatrix N fmt fl pf r ic ci bins quantile dropna du dof)
      (outlierMatrix N fmt fl pf r ic ci bins quantile dropna du dof) := by
  unfold outlierMatrix
  refine Same.bind (Same.read r) fun f g h => ?_
  obtain ⟨idx, hs⟩ := shuffled_iff.1 h
  rw [hs.length]
  split
  · exact Same.bind (R := fun _ _ => False) (Same.throw _) fun _ _ h => h.elim
  · dsimp only
    rw [h.guess]
    refine Same.bind (dqCheck_same r _ dropna) ?_
    rintro ⟨c, icc⟩ _ rfl
    refine Same.bind (binData_same fl pf c icc bins quantile) ?_
    rintro ⟨b, d⟩ _ rfl
    refine Same.bind (outlierFromRebinned_same N fmt b d ci dropna du dof) ?_
    rintro t _ rfl
    exact Same.pure rfl

theorem outlierLoop_same (N : OutNum) (fmt : ℚ → String) (r : Ref) (dict : List (String × List (ℚ × ℚ))) (ci : String)
    (dropna du dof : Bool) (co : List (String × String)) :
    Same Eq (outlierLoop N fmt r dict ci dropna du dof co) (outlierLoop N fmt r dict ci dropna du dof co) := by
  induction co with
  | nil => exact Same.pure rfl
  | cons p rest ih =>
    obtain ⟨c0, c1⟩ := p
    simp only [outlierLoop]
    refine Same.bind (Same.read r) fun f g h => ?_
    rcases h.pair c0 c1 with ⟨e, h1, h2⟩ | ⟨a, a', h1, h2, -, -, ⟨e, h3, h4⟩ | ⟨b, b', h3, h4, -, -, -, hs⟩⟩
    · rw [h1, h2]; exact Same.bind (R := fun _ _ => False) (Same.ofExcept rfl) fun _ _ h => h.elim
    · rw [h1, h2, h3, h4]
      refine Same.bind (R := fun x y => x = a ∧ y = a') (Same.ofExcept ⟨rfl, rfl⟩) ?_
      rintro _ _ ⟨rfl, rfl⟩
      exact Same.bind (R := fun _ _ => False) (Same.ofExcept rfl) fun _ _ h => h.elim
    · rw [h1, h2, h3, h4]
      refine Same.bind (R := fun x y => x = a ∧ y = a') (Same.ofExcept ⟨rfl, rfl⟩) ?_
      rintro _ _ ⟨rfl, rfl⟩
      refine Same.bind (R := fun x y => x = b ∧ y = b') (Same.ofExcept ⟨rfl, rfl⟩) ?_
      rintro _ _ ⟨rfl, rfl⟩
      split
      · exact Same.bind (R := fun _ _ => False) (Same.throw _) fun _ _ h => h.elim
      · refine Same.bind (Same.alloc hs) ?_
        rintro s _ rfl
        refine Same.bind (outlierFromRebinned_same N fmt s dict ci dropna du dof) ?_
        rintro t _ rfl
        refine Same.bind ih ?_
        rintro l _ rfl
        exact Same.pure rfl

theorem outlierMatricesFromRebinned_same (N : OutNum) (fmt : ℚ → String) (r : Ref) (dict : List (String × List (ℚ × ℚ)))
    (ci : String) (co : List (String × String)) (dropna du dof : Bool) :
    Same Eq (outlierMatricesFromRebinned N fmt r dict ci co dropna du dof)
      (outlierMatricesFromRebinned N fmt r dict ci co dropna du dof) := by
  unfold outlierMatricesFromRebinned
  refine Same.bind (Same.read r) fun f g h => ?_
  dsimp only
  rw [h.names]
  exact outlierLoop_same N fmt r dict ci dropna du dof _

theorem outlierMatrices_same (N : OutNum) (fmt : ℚ → String) (fl : ℚ → ℚ) (pf : String → Option (Option ℚ)) (r : Ref)
    (ic : Option (List String)) (ci : String) (bins : Bins) (quantile : Bool) (co : List (String × String)) (dropna du dof : Bool) :
    Same Eq (outlierMatrices N fmt fl pf r ic ci bins quantile co dropna du dof)
      (outlierMatrices N fmt fl pf r ic ci bins quantile co dropna du dof) := by
  unfold outlierMatrices
  refine Same.bind (Same.read r) fun f g h => ?_
  dsimp only
  rw [h.guess]
  refine Same.bind (dqCheck_same r _ dropna) ?_
  rintro ⟨c, icc⟩ _ rfl
  refine Same.bind (binData_same fl pf c icc bins quantile) ?_
  rintro ⟨b, d⟩ _ rfl
  refine Same.bind (outlierMatricesFromRebinned_same N fmt b d ci co dropna du dof) ?_
  rintro l _ rfl
  exact Same.pure rfl

theorem reportLoop_same (N : OutNum) (fmt fmt0 : ℚ → String) (fmt2 : EReal → String) (r : Ref)
    (dict : List (String × List (ℚ × ℚ))) (ci : String) (st ct : ℝ) (folder : Option String) (phik : LTable) (sig : LTab EReal)
    (co : List (String × String)) (s : LoopState) :
    Same Eq (reportLoop N fmt fmt0 fmt2 r dict ci st ct folder phik sig co s)
      (reportLoop N fmt fmt0 fmt2 r dict ci st ct folder phik sig co s) := by
  induction co generalizing s with
  | nil => exact Same.pure rfl
  | cons p rest ih =>
    obtain ⟨c0, c1⟩ := p
    simp only [reportLoop]
    split
    · exact ih s
    refine Same.bind (Same.read r) fun f g h => ?_
    rcases h.pair c0 c1 with ⟨e, h1, h2⟩ | ⟨a, a', h1, h2, -, -, ⟨e, h3, h4⟩ | ⟨b, b', h3, h4, -, -, -, hs⟩⟩
    · rw [h1, h2]; exact Same.bind (R := fun _ _ => False) (Same.ofExcept rfl) fun _ _ h => h.elim
    · rw [h1, h2, h3, h4]
      refine Same.bind (R := fun x y => x = a ∧ y = a') (Same.ofExcept ⟨rfl, rfl⟩) ?_
      rintro _ _ ⟨rfl, rfl⟩
      exact Same.bind (R := fun _ _ => False) (Same.ofExcept rfl) fun _ _ h => h.elim
    · rw [h1, h2, h3, h4]
      refine Same.bind (R := fun x y => x = a ∧ y = a') (Same.ofExcept ⟨rfl, rfl⟩) ?_
      rintro _ _ ⟨rfl, rfl⟩
      refine Same.bind (R := fun x y => x = b ∧ y = b') (Same.ofExcept ⟨rfl, rfl⟩) ?_
      rintro _ _ ⟨rfl, rfl⟩
      refine Same.bind (Same.alloc hs) ?_
      rintro q _ rfl
      refine Same.bind (outlierFromRebinned_same N fmt q dict ci true true true) ?_
      rintro t _ rfl
      cases t with
      | none => exact Same.throw _
      | some t =>
        refine Same.bind (Same.except _) ?_
        rintro fig _ rfl
        exact ih _

theorem correlationReport_same {F : Type} (nm : Numerics) (sched : Option (List ℕ)) (S : SigNum) (R : ℕ → SimRun F)
    (N : OutNum) (fmt fmt0 : ℚ → String) (fmt2 : EReal → String) (fl : ℚ → ℚ)
    (pf : String → Option (Option ℚ)) (gnan : LTable → Except Err (List GVal)) (r : Ref)
    (ic : Option (List String)) (bins : Bins) (quantile doOutliers : Bool) (pdf : String)
    (st ct : ℝ) (noise storeEach : Bool) (sm ci : String) :
    Same Eq (correlationReport nm sched S R N fmt fmt0 fmt2 fl pf gnan r ic bins quantile doOutliers pdf st ct noise storeEach sm ci)
      (correlationReport nm sched S R N fmt fmt0 fmt2 fl pf gnan r ic bins quantile doOutliers pdf st ct noise storeEach sm ci) := by
  unfold correlationReport
  refine Same.bind (Same.read r) fun f g h => ?_
  dsimp only
  rw [h.guess]
  refine Same.bind (dqCheck_same r _ true) ?_
  rintro ⟨c, icc⟩ _ rfl
  refine Same.bind (binData_same fl pf c icc bins quantile) ?_
  rintro ⟨b, d⟩ _ rfl
  refine Same.bind (phikFromRebinned_same nm sched b noise true true true) ?_
  rintro phik _ rfl
  refine Same.bind (Same.except _) ?_
  rintro fig1 _ rfl
  refine Same.bind (phikFromRebinned_same nm sched b noise true true true) ?_
  rintro again _ rfl
  refine Same.bind (Same.except _) ?_
  rintro gl _ rfl
  refine Same.bind (Same.except _) ?_
  rintro fig2 _ rfl
  refine Same.bind (sigFromRebinned_same S R b sm true true true) ?_
  rintro sig _ rfl
  refine Same.bind (Same.except _) ?_
  rintro fig3 _ rfl
  refine Same.bind (Same.read b) fun f g h => ?_
  rw [h.names]
  split
  · refine Same.bind (reportLoop_same N fmt fmt0 fmt2 b d ci st ct _ phik sig _ _) ?_
    rintro s _ rfl
    exact Same.pure rfl
  · refine Same.bind (Same.pure (R := Eq) rfl) ?_
    rintro s _ rfl
    exact Same.pure rfl

/-! ### arrays -/

theorem prepArray_map (render : ℚ → String) (dropna du dof : Bool) : ∃ g : Cell → Cell, ∀ x, prepArray render dropna du dof x = x.map g := by
  unfold prepArray
  cases dropna <;> cases du <;> cases dof <;>
    simp only [Bool.or_false, Bool.or_true, Bool.false_or, if_true, if_false, Bool.false_eq_true, List.map_map] <;>
    first | exact ⟨_, fun x => rfl⟩ | exact ⟨id, fun x => by simp⟩

theorem prep_zip_perm (render : ℚ → String) (dropna du dof : Bool) {idx : List ℕ} {x y : List Cell} (hl : x.length = y.length)
    (hi : idx.Perm (List.range x.length)) :
    ((prepArray render dropna du dof (pk .nan idx x)).zip (prepArray render dropna du dof (pk .nan idx y))).Perm
      ((prepArray render dropna du dof x).zip (prepArray render dropna du dof y)) := by
  obtain ⟨g, hg⟩ := prepArray_map render dropna du dof
  have h1 : ∀ i ∈ idx, i < x.length := fun i h => List.mem_range.1 (hi.mem_iff.1 h)
  rw [hg, hg, hg, hg, ← pk_map' .nan .nan g h1, ← pk_map' .nan .nan g (hl ▸ h1), pk_zip _ _ (by simpa using hl) (by simpa using h1)]
  exact pk_perm _ (by simpa [List.length_zip, ← hl] using hi)

theorem pk_length {α : Type} (d : α) {idx : List ℕ} {l : List α} (h : idx.Perm (List.range l.length)) :
    (pk d idx l).length = l.length := (pk_perm d h).length_eq

theorem dqCheckHist2d_same (a b : ℕ) : Same Eq (dqCheckHist2d a b) (dqCheckHist2d a b) := by
  unfold dqCheckHist2d
  by_cases h0 : (a = 0 ∨ b = 0) ∨ (a = 1 ∨ b = 1) <;> by_cases h1 : 1000 < a <;> by_cases h2 : 1000 < b <;>
    simp only [h0, h1, h2, if_true, if_false] <;>
    repeat first
      | exact Same.pure rfl
      | refine Same.bind (Same.warn _) fun _ _ _ => ?_

theorem phikFromBinnedArray_same (nm : Numerics) (render : ℚ → String) {x y x' y' : List Cell} (hx : x'.length = x.length)
    (hy : y'.length = y.length) (noise dropna du dof : Bool)
    (h : x.length = y.length → ((prepArray render dropna du dof x').zip (prepArray render dropna du dof y')).Perm
      ((prepArray render dropna du dof x).zip (prepArray render dropna du dof y))) :
    Same Eq (phikFromBinnedArray nm render x y noise dropna du dof) (phikFromBinnedArray nm render x' y' noise dropna du dof) := by
  unfold phikFromBinnedArray
  rw [hx, hy]
  split
  · exact Same.bind (R := fun _ _ => False) (Same.throw _) fun _ _ h => h.elim
  · next hl =>
    dsimp only
    rw [histOfPairs_perm (h (by simpa using hl))]
    refine Same.bind (dqCheckHist2d_same _ _) ?_
    rintro ok _ rfl
    split
    · exact Same.pure rfl
    · refine Same.bind (Same.except _) ?_
      rintro v _ rfl
      exact Same.pure rfl

theorem sigFromBinnedArray_same {F : Type} (S : SigNum) (R : SimRun F) (render : ℚ → String) {x y x' y' : List Cell}
    (hx : x'.length = x.length) (hy : y'.length = y.length) (sm : String) (dropna du dof : Bool)
    (h : x.length = y.length → ((prepArray render dropna du dof x').zip (prepArray render dropna du dof y')).Perm
      ((prepArray render dropna du dof x).zip (prepArray render dropna du dof y))) :
    Same Eq (sigFromBinnedArray S R render x y sm dropna du dof) (sigFromBinnedArray S R render x' y' sm dropna du dof) := by
  unfold sigFromBinnedArray
  rw [hx, hy]
  split
  · exact Same.bind (R := fun _ _ => False) (Same.throw _) fun _ _ h => h.elim
  · next hl =>
    dsimp only
    rw [histOfPairs_perm (h (by simpa using hl))]
    refine Same.bind (dqCheckHist2d_same _ _) ?_
    rintro ok _ rfl
    split
    · exact Same.pure rfl
    · exact Same.except _

theorem arraysToFrame_shuf (render : ℚ → String) {idx : List ℕ} {x y : List Cell} (hl : x.length = y.length)
    (hi : idx.Perm (List.range x.length)) :
    ∃ f g, arraysToFrame render x y = .ok f ∧ arraysToFrame render (pk .nan idx x) (pk .nan idx y) = .ok g ∧ Shuffled f g := by
  have hi' : idx.Perm (List.range y.length) := hl ▸ hi
  have hx := pk_perm Cell.nan hi
  have hy := pk_perm Cell.nan hi'
  have h1 : ∀ i ∈ idx, i < x.length := fun i h => List.mem_range.1 (hi.mem_iff.1 h)
  unfold arraysToFrame
  rw [if_neg (show ¬ x.length ≠ y.length by simpa using hl),
    if_neg (show ¬ (pk Cell.nan idx x).length ≠ (pk Cell.nan idx y).length by rw [hx.length_eq, hy.length_eq]; simpa using hl),
    (hx.append hy).any_eq, hx.length_eq]
  split
  · refine ⟨_, _, rfl, rfl, ?_, rfl, idx, hi, ?_⟩
    · simp [hl]
    · simp only [List.map_cons, List.map_nil, pick_eq]
      rw [pk_map' Cell.nan Cell.nan (asStr render) h1, pk_map' Cell.nan Cell.nan (asStr render) (hl ▸ h1)]
  · refine ⟨_, _, rfl, rfl, ?_, rfl, idx, hi, rfl⟩
    simp [hl]

theorem phikFromArray_same (nm : Numerics) (render : ℚ → String) (fl : ℚ → ℚ) (pf : String → Option (Option ℚ)) {idx : List ℕ}
    {x y : List Cell} (hl : x.length = y.length) (hi : idx.Perm (List.range x.length)) (nv : List String) (bins : Bins)
    (quantile noise dropna du dof : Bool) :
    Same Eq (phikFromArray nm render fl pf x y nv bins quantile noise dropna du dof)
      (phikFromArray nm render fl pf (pk .nan idx x) (pk .nan idx y) nv bins quantile noise dropna du dof) := by
  unfold phikFromArray
  split
  · obtain ⟨f, g, e1, e2, hs⟩ := arraysToFrame_shuf render hl hi
    rw [e1, e2]
    refine Same.bind (R := Shuffled) (Same.ofExcept hs) fun f g hs => Same.bind (Same.alloc hs) ?_
    rintro r _ rfl
    refine Same.bind (binData_same fl pf r nv bins quantile) ?_
    rintro ⟨b, d⟩ _ rfl
    refine Same.bind (Same.read b) fun f g h => ?_
    obtain ⟨idx', h⟩ := shuffled_iff.1 h
    have hc := h.cols
    by_cases h2 : f.cols.length = 2
    · obtain ⟨a, b, hab⟩ := List.length_eq_two.1 h2
      rw [hab] at hc
      have ha : a ∈ f.cols := by rw [hab]; simp
      have hb : b ∈ f.cols := by rw [hab]; simp
      rw [hab, hc]
      refine phikFromBinnedArray_same nm render (h.cells_perm ha).length_eq (h.cells_perm hb).length_eq noise dropna du dof fun hl => ?_
      exact prep_zip_perm render dropna du dof hl (by rw [h.rect a ha]; exact h.perm)
    · have h3 : g.cols.length ≠ 2 := by rw [h.length]; exact h2
      split
      · next e => rw [e] at h2; simp at h2
      split
      · next e => rw [e] at h3; simp at h3
      exact Same.throw _
  · exact phikFromBinnedArray_same nm render (pk_length _ hi) (pk_length _ (hl ▸ hi)) noise dropna du dof fun hl =>
      prep_zip_perm render dropna du dof hl hi

theorem sigFromArray_same {F : Type} (S : SigNum) (R : SimRun F) (render : ℚ → String) (fl : ℚ → ℚ)
    (pf : String → Option (Option ℚ)) {idx : List ℕ} {x y : List Cell} (hl : x.length = y.length)
    (hi : idx.Perm (List.range x.length)) (nv : List String) (bins : Bins) (quantile : Bool) (sm : String) (dropna du dof : Bool) :
    Same Eq (sigFromArray S R render fl pf x y nv bins quantile sm dropna du dof)
      (sigFromArray S R render fl pf (pk .nan idx x) (pk .nan idx y) nv bins quantile sm dropna du dof) := by
  unfold sigFromArray
  split
  · obtain ⟨f, g, e1, e2, hs⟩ := arraysToFrame_shuf render hl hi
    rw [e1, e2]
    refine Same.bind (R := Shuffled) (Same.ofExcept hs) fun f g hs => Same.bind (Same.alloc hs) ?_
    rintro r _ rfl
    refine Same.bind (binData_same fl pf r nv bins quantile) ?_
    rintro ⟨b, d⟩ _ rfl
    refine Same.bind (Same.read b) fun f g h => ?_
    obtain ⟨idx', h⟩ := shuffled_iff.1 h
    have hc := h.cols
    by_cases h2 : f.cols.length = 2
    · obtain ⟨a, b, hab⟩ := List.length_eq_two.1 h2
      rw [hab] at hc
      have ha : a ∈ f.cols := by rw [hab]; simp
      have hb : b ∈ f.cols := by rw [hab]; simp
      rw [hab, hc]
      refine sigFromBinnedArray_same S R render (h.cells_perm ha).length_eq (h.cells_perm hb).length_eq sm dropna du dof fun hl => ?_
      exact prep_zip_perm render dropna du dof hl (by rw [h.rect a ha]; exact h.perm)
    · have h3 : g.cols.length ≠ 2 := by rw [h.length]; exact h2
      split
      · next e => rw [e] at h2; simp at h2
      split
      · next e => rw [e] at h3; simp at h3
      exact Same.throw _
  · exact sigFromBinnedArray_same S R render (pk_length _ hi) (pk_length _ (hl ▸ hi)) sm dropna du dof fun hl =>
      prep_zip_perm render dropna du dof hl hi

theorem outlierFromArray_same (N : OutNum) (fmt render : ℚ → String) (fl : ℚ → ℚ) (pf : String → Option (Option ℚ))
    {idx : List ℕ} {x y : List Cell} (hl : x.length = y.length) (hi : idx.Perm (List.range x.length)) (nv : Option (List String))
    (bins : Bins) (quantile : Bool) (ci : String) (dropna du dof : Bool) :
    Same Eq (outlierFromArray N fmt render fl pf x y nv bins quantile ci dropna du dof)
      (outlierFromArray N fmt render fl pf (pk .nan idx x) (pk .nan idx y) nv bins quantile ci dropna du dof) := by
  unfold outlierFromArray
  obtain ⟨f, g, e1, e2, hs⟩ := arraysToFrame_shuf render hl hi
  rw [e1, e2]
  refine Same.bind (R := Shuffled) (Same.ofExcept hs) fun f g hs => Same.bind (Same.alloc hs) ?_
  rintro r _ rfl
  dsimp only
  rw [hs.guess]
  refine Same.bind (outlierMatrix_same N fmt fl pf r _ ci bins quantile dropna du dof) ?_
  rintro t _ rfl
  exact Same.pure rfl

/-! ### the properties -/

namespace Props

/-- **C66 for data frames.** Run on the same records in another order, every function returns the same result or raises the same
exception, and issues the same warnings: `hist2d`, `phik_matrix`, `global_phik_array`, `significance_matrix` (given the same
simulated tables), `outlier_significance_matrix`, `outlier_significance_matrices` and `correlation_report`. -/
theorem record_order {F : Type} (nm : Numerics) (sched : Option (List ℕ)) (S : SigNum) (R : ℕ → SimRun F)
    (N : OutNum) (fmt fmt0 : ℚ → String) (fmt2 : EReal → String) (fl : ℚ → ℚ) (pf : String → Option (Option ℚ))
    (gnan : LTable → Except Err (List GVal)) (r : Ref) {w w' : World} (hw : SameWorld w w') (ic : Option (List String)) (bins : Bins)
    (quantile noise dropna du dof doOutliers storeEach : Bool) (sm ci pdf : String) (co : List (String × String)) (st ct : ℝ) :
    SameEnd ((hist2d fl pf r ic bins quantile dropna du dof).exec w) ((hist2d fl pf r ic bins quantile dropna du dof).exec w') ∧
    SameEnd ((phikMatrix nm sched fl pf r ic bins quantile noise dropna du dof).exec w)
      ((phikMatrix nm sched fl pf r ic bins quantile noise dropna du dof).exec w') ∧
    SameEnd ((globalPhikArray nm sched fl pf r ic bins quantile noise dropna du dof).exec w)
      ((globalPhikArray nm sched fl pf r ic bins quantile noise dropna du dof).exec w') ∧
    SameEnd ((significanceMatrix S R fl pf r ic bins sm dropna du dof).exec w)
      ((significanceMatrix S R fl pf r ic bins sm dropna du dof).exec w') ∧
    SameEnd ((outlierMatrix N fmt fl pf r ic ci bins quantile dropna du dof).exec w)
      ((outlierMatrix N fmt fl pf r ic ci bins quantile dropna du dof).exec w') ∧
    SameEnd ((outlierMatrices N fmt fl pf r ic ci bins quantile co dropna du dof).exec w)
      ((outlierMatrices N fmt fl pf r ic ci bins quantile co dropna du dof).exec w') ∧
    SameEnd ((correlationReport nm sched S R N fmt fmt0 fmt2 fl pf gnan r ic bins quantile doOutliers pdf st ct noise storeEach sm ci).exec w)
      ((correlationReport nm sched S R N fmt fmt0 fmt2 fl pf gnan r ic bins quantile doOutliers pdf st ct noise storeEach sm ci).exec w') :=
  ⟨Same.eq (hist2d_same _ _ _ _ _ _ _ _ _) hw, Same.eq (phikMatrix_same _ _ _ _ _ _ _ _ _ _ _ _) hw,
    Same.eq (globalPhikArray_same _ _ _ _ _ _ _ _ _ _ _ _) hw,
    Same.eq (significanceMatrix_same _ _ _ _ _ _ _ _ _ _ _) hw,
    Same.eq (outlierMatrix_same _ _ _ _ _ _ _ _ _ _ _ _) hw,
    Same.eq (outlierMatrices_same _ _ _ _ _ _ _ _ _ _ _ _ _) hw,
    Same.eq (correlationReport_same _ _ _ _ _ _ _ _ _ _ _ _ _ _ _ _ _ _ _ _ _ _ _) hw⟩

/-- **C66 for `bin_data`.** The binned frame holds the same binned records in the other order, and the bin edges of the labels
are the same. -/
theorem record_order_bin_data (fl : ℚ → ℚ) (pf : String → Option (Option ℚ)) (r : Ref) {w w' : World} (hw : SameWorld w w')
    (cols : List String) (bins : Bins) (quantile : Bool) :
    SameEnd ((binData fl pf r cols bins quantile).exec w) ((binData fl pf r cols bins quantile).exec w') :=
  Same.eq (binData_same _ _ _ _ _ _) hw

/-- **C66 for arrays.** The same holds for pairs of arrays when both are reordered alike. -/
theorem record_order_arrays {F : Type} (nm : Numerics) (S : SigNum) (R : SimRun F) (N : OutNum) (fmt render : ℚ → String) (fl : ℚ → ℚ)
    (pf : String → Option (Option ℚ)) {x y : List Cell} (hl : x.length = y.length) {idx : List ℕ}
    (hi : idx.Perm (List.range x.length)) {w : World} (hw : ∀ f ∈ w.heap, f.WF) (nv : List String) (nv' : Option (List String))
    (bins : Bins) (quantile noise dropna du dof : Bool) (sm ci : String) :
    SameEnd ((phikFromArray nm render fl pf x y nv bins quantile noise dropna du dof).exec w)
      ((phikFromArray nm render fl pf (pick idx x) (pick idx y) nv bins quantile noise dropna du dof).exec w) ∧
    SameEnd ((sigFromArray S R render fl pf x y nv bins quantile sm dropna du dof).exec w)
      ((sigFromArray S R render fl pf (pick idx x) (pick idx y) nv bins quantile sm dropna du dof).exec w) ∧
    SameEnd ((outlierFromArray N fmt render fl pf x y nv' bins quantile ci dropna du dof).exec w)
      ((outlierFromArray N fmt render fl pf (pick idx x) (pick idx y) nv' bins quantile ci dropna du dof).exec w) := by
  have hh : ∀ H : List Frame, (∀ f ∈ H, f.WF) → List.Forall₂ Shuffled H H := by
    intro H hH
    rw [List.forall₂_same]
    intro f hf
    refine ⟨(hH f hf).len, rfl, _, List.Perm.refl _, ?_⟩
    symm
    refine (List.map_congr_left fun c hc => ?_).trans (List.map_id _)
    have : pick (List.range f.nrows) c.cells = c.cells := by
      unfold pick
      apply List.ext_getElem
      · simp [(hH f hf).len c hc]
      · intro i h1 h2; simp [List.getD_eq_getElem?_getD, h2]
    rw [this]; rfl
  have hs : SameWorld w w := ⟨rfl, hh _ hw⟩
  exact ⟨((phikFromArray_same nm render fl pf hl hi nv bins quantile noise dropna du dof).eq hs),
    ((sigFromArray_same S R render fl pf hl hi nv bins quantile sm dropna du dof).eq hs),
    ((outlierFromArray_same N fmt render fl pf hl hi nv' bins quantile ci dropna du dof).eq hs)⟩

/-- Non-vacuity: a frame with a numeric and a text column and the same records in reversed order. -/
example : SameWorld ⟨[⟨3, [⟨"a", true, [.num 1, .nan, .num 5]⟩, ⟨"b", false, [.str "x", .str "y", .str "x"]⟩]⟩], []⟩
    ⟨[⟨3, [⟨"a", true, [.num 5, .nan, .num 1]⟩, ⟨"b", false, [.str "x", .str "y", .str "x"]⟩]⟩], []⟩ := by
  refine ⟨rfl, .cons ⟨?_, rfl, [2, 1, 0], by decide, by simp [pick]⟩ .nil⟩
  simp

end Props

end Phik
