import Verif.Model.Infinite
import Verif.Lemmas.Binning
import Verif.Lemmas.Except

/-! # Lemmas about infinite values -/

namespace Phik

/-! ### order -/

namespace XF

theorem lt_enc {a b : XF} : a < b ↔ a.enc < b.enc := Iff.rfl

theorem fin_lt_fin {a b : ℚ} : fin a < fin b ↔ a < b := by
  rw [lt_enc]; simp [enc, Prod.Lex.toLex_lt_toLex]

theorem fin_le_fin {a b : ℚ} : fin a ≤ fin b ↔ a ≤ b := by
  rw [← not_lt, fin_lt_fin, not_lt]

theorem ninf_lt_fin (q : ℚ) : ninf < fin q := by rw [lt_enc]; simp [enc, Prod.Lex.toLex_lt_toLex]
theorem fin_lt_pinf (q : ℚ) : fin q < pinf := by rw [lt_enc]; simp [enc, Prod.Lex.toLex_lt_toLex]
theorem pinf_lt_nan : pinf < nan := by rw [lt_enc]; simp [enc, Prod.Lex.toLex_lt_toLex]
theorem fin_lt_nan (q : ℚ) : fin q < nan := (fin_lt_pinf q).trans pinf_lt_nan
theorem ninf_lt_pinf : ninf < pinf := (ninf_lt_fin 0).trans (fin_lt_pinf 0)
theorem ninf_lt_nan : ninf < nan := ninf_lt_pinf.trans pinf_lt_nan

theorem le_nan (a : XF) : a ≤ nan := by
  cases a
  · exact ninf_lt_nan.le
  · exact (fin_lt_nan _).le
  · exact pinf_lt_nan.le
  · exact le_rfl

theorem lt_nan {a : XF} : a < nan ↔ a ≠ nan :=
  ⟨fun h => h.ne, fun h => lt_of_le_of_ne (le_nan a) h⟩

theorem not_nan_lt (a : XF) : ¬ nan < a := not_lt.2 (le_nan a)

theorem ninf_le (a : XF) : ninf ≤ a := by
  cases a
  · exact le_rfl
  · exact (ninf_lt_fin _).le
  · exact ninf_lt_pinf.le
  · exact ninf_lt_nan.le

theorem not_lt_ninf (a : XF) : ¬ a < ninf := not_lt.2 (ninf_le a)

theorem le_pinf {a : XF} (h : a ≠ nan) : a ≤ pinf := by
  cases a
  · exact ninf_lt_pinf.le
  · exact (fin_lt_pinf _).le
  · exact le_rfl
  · exact absurd rfl h

theorem not_pinf_lt {a : XF} (h : a ≠ nan) : ¬ pinf < a := not_lt.2 (le_pinf h)

end XF

/-! ### the search -/

theorem searchGoX_spec (edges : List XF) (x : XF) (lo hi : ℕ) (h : lo ≤ hi) :
    lo ≤ searchGoX edges x lo hi ∧ searchGoX edges x lo hi ≤ hi ∧
    (lo < searchGoX edges x lo hi → edges.getD (searchGoX edges x lo hi - 1) .nan < x) ∧
    (searchGoX edges x lo hi < hi → x ≤ edges.getD (searchGoX edges x lo hi) .nan) := by
  induction lo, hi using searchGoX.induct edges x with
  | case1 lo hi hlt mid hmid ih =>
    rw [searchGoX, dif_pos hlt, if_pos hmid]
    have hm : lo ≤ mid ∧ mid < hi := by simp only [mid]; omega
    obtain ⟨a, b, c, d⟩ := ih (by omega)
    change lo ≤ searchGoX edges x (mid + 1) hi ∧ _
    refine ⟨by omega, b, fun _ => ?_, d⟩
    by_cases e : mid + 1 < searchGoX edges x (mid + 1) hi
    · exact c e
    · have : searchGoX edges x (mid + 1) hi = mid + 1 := by omega
      change edges.getD (searchGoX edges x (mid + 1) hi - 1) .nan < x
      rw [this]; exact hmid
  | case2 lo hi hlt mid hmid ih =>
    rw [searchGoX, dif_pos hlt, if_neg hmid]
    have hm : lo ≤ mid ∧ mid < hi := by simp only [mid]; omega
    obtain ⟨a, b, c, d⟩ := ih (by omega)
    change lo ≤ searchGoX edges x lo mid ∧ searchGoX edges x lo mid ≤ hi ∧ _
    refine ⟨a, by omega, c, fun _ => ?_⟩
    by_cases e : searchGoX edges x lo mid < mid
    · exact d e
    · have : searchGoX edges x lo mid = mid := by omega
      change x ≤ edges.getD (searchGoX edges x lo mid) .nan
      rw [this]; exact not_lt.1 hmid
  | case3 lo hi hlt =>
    rw [searchGoX, dif_neg hlt]
    refine ⟨le_rfl, h, fun c => absurd c (lt_irrefl _), fun c => absurd c hlt⟩

/-- Number of edges below a key. -/
def below (edges : List XF) (x : XF) : ℕ := (edges.filter fun e => decide (e < x)).length

theorem below_le (edges : List XF) (x : XF) : below edges x ≤ edges.length := List.length_filter_le _ _

/-- In sorted edges the edges below a key are the first ones. -/
theorem below_iff {edges : List XF} (hs : edges.Pairwise (· ≤ ·)) (x : XF) {i : ℕ} (hi : i < edges.length) :
    edges.getD i .nan < x ↔ i < below edges x := by
  induction edges generalizing i with
  | nil => simp at hi
  | cons e es ih =>
    rw [List.pairwise_cons] at hs
    by_cases he : e < x
    · have hb : below (e :: es) x = below es x + 1 := by simp [below, he]
      rw [hb]
      cases i with
      | zero => simp [he]
      | succ i =>
        simp only [List.length_cons] at hi
        rw [List.getD_cons_succ, ih hs.2 (by omega)]
        omega
    · have hb : below (e :: es) x = 0 := by
        unfold below
        rw [List.length_eq_zero_iff, List.filter_eq_nil_iff]
        intro a ha
        rcases List.mem_cons.1 ha with rfl | ha
        · simpa using he
        · simpa using (not_lt.1 he).trans (hs.1 a ha)
      rw [hb]
      simp only [not_lt_zero, iff_false, not_lt]
      cases i with
      | zero => simpa using he
      | succ i =>
        simp only [List.length_cons] at hi
        rw [List.getD_cons_succ, getD_lt (by omega)]
        exact (not_lt.1 he).trans (hs.1 _ (List.getElem_mem _))

theorem searchGoX_below {edges : List XF} (hs : edges.Pairwise (· ≤ ·)) (x : XF) {lo hi : ℕ}
    (h1 : lo ≤ below edges x) (h2 : below edges x ≤ hi) (h3 : hi ≤ edges.length) :
    searchGoX edges x lo hi = below edges x := by
  obtain ⟨a, b, c, d⟩ := searchGoX_spec edges x lo hi (h1.trans h2)
  generalize searchGoX edges x lo hi = k at *
  apply le_antisymm
  · rcases Nat.lt_or_ge lo k with h | h
    · have := (below_iff hs x (i := k - 1) (by omega)).1 (c h)
      omega
    · omega
  · rcases Nat.lt_or_ge k hi with h | h
    · by_contra hk
      have := (below_iff hs x (i := k) (by omega)).2 (by omega)
      exact absurd this (not_lt.2 (d h))
    · omega

theorem below_mono (edges : List XF) {x y : XF} (h : x ≤ y) : below edges x ≤ below edges y := by
  unfold below
  apply List.Sublist.length_le
  apply List.monotone_filter_right
  intro e
  simp only [decide_eq_true_eq]
  exact fun he => he.trans_le h

theorem searchKeys_below {edges : List XF} (hs : edges.Pairwise (· ≤ ·)) (keys : List XF) {last : XF} {lo hi : ℕ}
    (h1 : lo ≤ below edges last) (h2 : below edges last ≤ hi) (h3 : hi ≤ edges.length) :
    searchKeys edges keys last lo hi = keys.map (below edges) := by
  induction keys generalizing last lo hi with
  | nil => rfl
  | cons x xs ih =>
    have hx := below_le edges x
    have e : searchGoX edges x (if last < x then lo else 0)
        (if last < x then edges.length else if hi < edges.length then hi + 1 else edges.length) = below edges x := by
      by_cases h : last < x
      · rw [if_pos h, if_pos h]
        exact searchGoX_below hs x (h1.trans (below_mono edges h.le)) hx le_rfl
      · rw [if_neg h, if_neg h]
        have hm := below_mono edges (not_lt.1 h)
        split
        · exact searchGoX_below hs x (Nat.zero_le _) (by omega) (by omega)
        · exact searchGoX_below hs x (Nat.zero_le _) hx le_rfl
    unfold searchKeys
    simp only [e, List.map_cons]
    rw [ih le_rfl le_rfl hx]

theorem searchsortedX_below {edges : List XF} (hs : edges.Pairwise (· ≤ ·)) (arr : List XF) :
    searchsortedX edges arr = arr.map (below edges) := by
  unfold searchsortedX
  cases arr with
  | nil => rfl
  | cons x xs => exact searchKeys_below hs (x :: xs) (Nat.zero_le _) (below_le _ _) le_rfl

/-- If no edge is below any key that is a number, and the keys NaN get the same result `c` from the bounds that occur. -/
theorem searchKeys_none {edges : List XF} {c : ℕ} (hc1 : searchGoX edges .nan 0 edges.length = c)
    (hc2 : searchGoX edges .nan 0 (if c < edges.length then c + 1 else edges.length) = c) (keys : List XF)
    (hk : ∀ x ∈ keys, x ≠ .nan → ∀ e ∈ edges, ¬ e < x) {last : XF} {lo hi : ℕ}
    (h1 : last = .nan → hi = c ∨ hi = edges.length) (h2 : last ≠ .nan → lo = 0) (h3 : hi ≤ edges.length) :
    searchKeys edges keys last lo hi = keys.map fun x => if x = .nan then c else 0 := by
  induction keys generalizing last lo hi with
  | nil => rfl
  | cons x xs ih =>
    have h0 : (if last < x then lo else 0) = 0 := by
      split
      · next h => exact h2 (fun e => by subst e; exact XF.not_nan_lt x h)
      · rfl
    have e : searchGoX edges x (if last < x then lo else 0)
        (if last < x then edges.length else if hi < edges.length then hi + 1 else edges.length) =
          if x = .nan then c else 0 := by
      rw [h0]
      by_cases hx : x = .nan
      · subst hx
        rw [if_pos rfl]
        by_cases hl : last = .nan
        · subst hl
          rw [if_neg (lt_irrefl _)]
          rcases h1 rfl with rfl | rfl
          · exact hc2
          · rw [if_neg (lt_irrefl _)]; exact hc1
        · rw [if_pos (XF.lt_nan.2 hl)]; exact hc1
      · rw [if_neg hx]
        generalize hj : (if last < x then edges.length else if hi < edges.length then hi + 1 else edges.length) = j
        have hjl : j ≤ edges.length := by
          rw [← hj]; split
          · exact le_rfl
          · split <;> omega
        obtain ⟨-, b, cc, -⟩ := searchGoX_spec edges x 0 j (Nat.zero_le _)
        by_contra hne
        have hlt := cc (by omega)
        rw [getD_lt (by omega)] at hlt
        exact hk x List.mem_cons_self hx _ (List.getElem_mem _) hlt
    unfold searchKeys
    simp only [e, List.map_cons]
    congr 1
    apply ih (fun y hy => hk y (List.mem_cons_of_mem _ hy))
    · rintro rfl; exact Or.inl (if_pos rfl)
    · intro hx; exact if_neg hx
    · split
      · have := (searchGoX_spec edges .nan 0 edges.length (Nat.zero_le _)).2.1
        omega
      · omega

/-! ### bin_array -/

/-- The entry `bin_array` makes of one value with index `k`. -/
def xcellOf (n : ℕ) (x : XF) (k : ℕ) : Cell :=
  if x = .nan then .nan else if k = 0 then .str "UF" else if k = n then .str "OF" else .num k

theorem binArrayX_fst {arr edges : List XF} {g : XF → ℕ} (h : searchsortedX edges arr = arr.map g) :
    (binArrayX arr edges).1 = arr.map fun x => xcellOf edges.length x (g x) := by
  unfold binArrayX
  simp only [h, List.map_map, List.zipWith_map_right, List.map_zipWith]
  have hself : ∀ (f : XF → XF → Cell), List.zipWith f arr arr = arr.map fun x => f x x := by
    intro f; induction arr with
    | nil => rfl
    | cons x xs ih => simp [ih]
  rw [hself]
  apply List.map_congr_left
  intro x _
  unfold xcellOf
  by_cases hx : x = .nan
  · simp [hx]
  · simp only [hx, if_false, Function.comp]
    by_cases h0 : g x = 0
    · simp [h0]
    · by_cases h1 : g x = edges.length
      · have : edges ≠ [] := by rintro rfl; simp at h1; exact h0 h1
        simp [h1, this]
      · simp [h0, h1]

end Phik
