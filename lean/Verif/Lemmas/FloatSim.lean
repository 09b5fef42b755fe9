import Verif.Spec.FloatSim
import Verif.Lemmas.FloatStats
import Verif.Lemmas.Simulation

/-! # Lemmas for property C91: sums, probabilities and draws in floating point arithmetic -/

namespace Phik

open Spec

variable {fl : ℚ → ℚ}

/-! ### sums -/

namespace SumTree

/-- With a monotone rounding, no number is larger than a sum it is part of. -/
theorem leaf_le_eval (hfl : RelRounding fl) (t : SumTree) (h0 : ∀ x ∈ t.leaves, 0 ≤ x) (h1 : ∀ x ∈ t.leaves, fl x = x) :
    0 ≤ t.eval fl ∧ ∀ x ∈ t.leaves, x ≤ t.eval fl := by
  induction t with
  | leaf x => simp only [leaves, List.mem_singleton, forall_eq, eval] at h0 ⊢; exact ⟨h0, le_rfl⟩
  | node s t hs ht =>
    simp only [leaves, List.mem_append] at h0 h1 ⊢
    obtain ⟨s0, s1⟩ := hs (fun x hx => h0 x (.inl hx)) (fun x hx => h1 x (.inl hx))
    obtain ⟨t0, t1⟩ := ht (fun x hx => h0 x (.inr hx)) (fun x hx => h1 x (.inr hx))
    rw [eval]
    refine ⟨hfl.nonneg (by linarith), fun x hx => ?_⟩
    rw [← h1 x hx]
    apply hfl.mono
    rcases hx with hx | hx
    · have := s1 x hx; linarith
    · have := t1 x hx; linarith

end SumTree

section
variable {ord : List ℚ → SumTree} {l : List ℚ}

theorem npSum_bounds (hfl : RelRounding fl) (ho : GoodOrder ord l.length) (h : ∀ x ∈ l, 0 ≤ x) :
    (1 - uRound) ^ 4096 * l.sum ≤ npSum fl ord l ∧ npSum fl ord l ≤ (1 + uRound) ^ 4096 * l.sum :=
  flSum_bounds (order := fun _ => ord) (D := 4096) hfl (fun _ l hl => ho.perm l hl) .total h fun hl => ho.depth l hl le_rfl

theorem npSum_int (hfl : RelRounding fl) (ho : GoodOrder ord l.length) (h : ∀ x ∈ l, ∃ k : ℕ, x = k) (hs : l.sum ≤ 4503599627370496) :
    npSum fl ord l = l.sum :=
  flSum_int (order := fun _ => ord) hfl (fun _ l hl => ho.perm l hl) .total h hs

theorem le_npSum (hfl : RelRounding fl) (ho : GoodOrder ord l.length) (h0 : ∀ x ∈ l, 0 ≤ x) (h1 : ∀ x ∈ l, fl x = x) :
    ∀ x ∈ l, x ≤ npSum fl ord l := by
  intro x hx
  have hl : l ≠ [] := by rintro rfl; simp at hx
  unfold npSum
  rw [if_neg hl]
  have hp := ho.perm l hl
  exact ((ord l).leaf_le_eval hfl (fun y hy => h0 y (hp.mem_iff.1 hy)) (fun y hy => h1 y (hp.mem_iff.1 hy))).2 x (hp.mem_iff.2 hx)

end

theorem pow_lower (n : ℕ) : 1 - n * uRound ≤ (1 - uRound) ^ n := by
  have := one_add_mul_le_pow (a := -uRound) (by norm_num) n
  rw [← sub_eq_add_neg] at this
  linarith

theorem pow_upper {n : ℕ} (hn : n ≤ 8192) : (1 + uRound) ^ n ≤ 1 + 2 * n * uRound := by
  have h1 : (1 + uRound) ^ n * (1 - uRound) ^ n ≤ 1 := by
    rw [← mul_pow]
    exact pow_le_one₀ (by norm_num) (by norm_num)
  have h2 := pow_lower n
  have hn' : (n : ℚ) ≤ 8192 := by exact_mod_cast hn
  have h0 : (0 : ℚ) ≤ n := by positivity
  have h3 : (1 + uRound) ^ n * (1 - n * uRound) ≤ 1 :=
    le_trans (mul_le_mul_of_nonneg_left h2 (by positivity)) h1
  have h4 : 1 ≤ (1 + 2 * n * uRound) * (1 - n * uRound) := by
    simp only [uRound] at *
    nlinarith
  have h5 : 0 < 1 - n * uRound := by simp only [uRound]; linarith
  exact le_of_mul_le_mul_right (h3.trans h4) h5

/-! ### compensated summation -/

/-- One step of the compensated sum: `Q` has been added exactly, `δ` is the error so far. -/
theorem kahan_step (hfl : RelRounding fl) {s c p Q δ : ℚ} (hp : 0 ≤ p) (hQ : 0 ≤ Q) (hQp : Q + p ≤ 11 / 10) (hδ : δ ≤ 1 / 100)
    (hc : |c| ≤ 4 * uRound) (hs : |s - c - Q| ≤ δ) :
    |fl (fl (fl (s + fl (p - c)) - s) - fl (p - c))| ≤ 4 * uRound ∧
    |fl (s + fl (p - c)) - fl (fl (fl (s + fl (p - c)) - s) - fl (p - c)) - (Q + p)| ≤ δ + 2 * uRound * p + 20 * uRound ^ 2 := by
  have e1 := hfl.err (p - c)
  set y := fl (p - c) with hy
  have e2 := hfl.err (s + y)
  set t := fl (s + y) with ht
  have e3 := hfl.err (t - s)
  set g := fl (t - s) with hg
  have e4 := hfl.err (g - y)
  set c' := fl (g - y) with hc'
  clear_value y t g c'
  simp only [uRound] at hc ⊢
  obtain ⟨c1, c2⟩ := abs_le.1 hc
  obtain ⟨s1, s2⟩ := abs_le.1 hs
  have b1 : |p - c| ≤ p + 4 * (1 / 9007199254740992) := by rw [abs_le]; constructor <;> linarith
  have e1' : |y - (p - c)| ≤ (p + 4 * (1 / 9007199254740992)) / 9007199254740992 := e1.trans (by gcongr)
  obtain ⟨y1, y2⟩ := abs_le.1 e1'
  have b2 : |s + y| ≤ 2 := by rw [abs_le]; constructor <;> linarith
  have e2' : |t - (s + y)| ≤ 2 / 9007199254740992 := e2.trans (by gcongr)
  obtain ⟨t1, t2⟩ := abs_le.1 e2'
  have b3 : |t - s| ≤ p + 8 * (1 / 9007199254740992) := by rw [abs_le]; constructor <;> linarith
  have e3' : |g - (t - s)| ≤ (p + 8 * (1 / 9007199254740992)) / 9007199254740992 := e3.trans (by gcongr)
  obtain ⟨g1, g2⟩ := abs_le.1 e3'
  have b4 : |g - y| ≤ 4 * (1 / 9007199254740992) := by rw [abs_le]; constructor <;> linarith
  have e4' : |c' - (g - y)| ≤ 4 * (1 / 9007199254740992) / 9007199254740992 := e4.trans (by gcongr)
  obtain ⟨d1, d2⟩ := abs_le.1 e4'
  constructor
  · rw [abs_le]; constructor <;> linarith
  · rw [abs_le]; constructor <;> linarith

theorem kahanGo_bound (hfl : RelRounding fl) (ps : List ℚ) : ∀ {s c Q δ : ℚ}, (∀ p ∈ ps, 0 ≤ p) → 0 ≤ Q → Q + ps.sum ≤ 11 / 10 →
    |c| ≤ 4 * uRound → |s - c - Q| ≤ δ → δ + 2 * uRound * ps.sum + 20 * uRound ^ 2 * ps.length ≤ 1 / 100 →
    kahanGo fl s c ps ≤ Q + ps.sum + (δ + 2 * uRound * ps.sum + 20 * uRound ^ 2 * ps.length) + 4 * uRound := by
  induction ps with
  | nil =>
    intro s c Q δ _ _ _ hc hs _
    have := (abs_le.1 hc).2
    have := (abs_le.1 hs).2
    simp only [kahanGo, List.sum_nil, List.length_nil]
    push_cast
    linarith
  | cons p ps ih =>
    intro s c Q δ hnn hQ hsum hc hs hδ
    rw [List.sum_cons] at hsum hδ ⊢
    rw [List.length_cons] at hδ ⊢
    push_cast at hδ ⊢
    have hp := hnn p (by simp)
    have hnn' : ∀ q ∈ ps, 0 ≤ q := fun q hq => hnn q (List.mem_cons_of_mem _ hq)
    have hps : 0 ≤ ps.sum := List.sum_nonneg hnn'
    have hlen : (0 : ℚ) ≤ ps.length := by positivity
    obtain ⟨h1, h2⟩ := kahan_step hfl hp hQ (by linarith) (by simp only [uRound] at *; nlinarith) hc hs
    have := ih (s := fl (s + fl (p - c))) hnn' (by linarith : 0 ≤ Q + p) (by linarith) h1 h2 (by linarith)
    simp only [kahanGo]
    linarith

/-- The compensated sum of at most 2^26 nonnegative numbers. -/
theorem kahanSum_le (hfl : RelRounding fl) {l : List ℚ} (h0 : ∀ p ∈ l, 0 ≤ p) (hlen : l.length ≤ 67108864) {B : ℚ} (hB : l.sum ≤ B) (hB2 : B ≤ 11 / 10) :
    kahanSum fl l ≤ B + 8 * uRound := by
  cases l with
  | nil => simp only [kahanSum, List.sum_nil, uRound] at *; linarith
  | cons p ps =>
    rw [List.sum_cons] at hB
    rw [List.length_cons] at hlen
    have hp := h0 p (by simp)
    have hnn' : ∀ q ∈ ps, 0 ≤ q := fun q hq => h0 q (List.mem_cons_of_mem _ hq)
    have hps : 0 ≤ ps.sum := List.sum_nonneg hnn'
    have hl : (ps.length : ℚ) ≤ 67108864 := by exact_mod_cast (by omega : ps.length ≤ 67108864)
    have := kahanGo_bound hfl ps (s := p) (c := 0) (Q := p) (δ := 0) hnn' hp (by linarith) (by norm_num) (by simp)
      (by simp only [uRound]; linarith)
    unfold kahanSum
    simp only [uRound] at *
    linarith

/-! ### draws -/

theorem flMultiLoop_spec {binom : ℕ → ℕ → ℝ → ℕ} (h1 : ∀ j n p, binom j n p ≤ n) (ps : List ℚ) :
    ∀ (j : ℕ) (S : ℚ) (dn : ℕ), ps ≠ [] → (flMultiLoop fl binom j S dn ps).length = ps.length ∧ (flMultiLoop fl binom j S dn ps).sum = dn := by
  induction ps with
  | nil => intro _ _ _ h; exact absurd rfl h
  | cons p ps ih =>
    intro j S dn _
    cases ps with
    | nil => simp [flMultiLoop]
    | cons q ps =>
      rw [flMultiLoop]
      set x := binom j dn ((fl (p / S) : ℚ) : ℝ) with hx
      have hxle : x ≤ dn := h1 _ _ _
      split_ifs with hd
      · simp only [List.length_cons, List.length_replicate, List.sum_cons, List.sum_replicate, smul_zero, add_zero]
        exact ⟨trivial, by omega⟩
      · obtain ⟨g1, g2⟩ := ih (j + 1) (fl (S - p)) (dn - x) (by simp)
        rw [List.length_cons, g1, List.sum_cons, g2]
        exact ⟨rfl, by omega⟩

theorem flMultiLoop_zero (h0 : fl 0 = 0) {binom : ℕ → ℕ → ℝ → ℕ} (h2 : ∀ j n, binom j n 0 = 0) (ps : List ℚ) :
    ∀ (j : ℕ) (S : ℚ) (dn k : ℕ), k + 1 < ps.length → ps[k]? = some 0 → (flMultiLoop fl binom j S dn ps).getD k 0 = 0 := by
  induction ps with
  | nil => intro _ _ _ _ h; simp at h
  | cons p ps ih =>
    intro j S dn k hk hz
    cases ps with
    | nil => simp at hk
    | cons q ps =>
      rw [flMultiLoop]
      cases k with
      | zero =>
        obtain rfl : p = 0 := by simpa using hz
        have hx : binom j dn ((fl (0 / S) : ℚ) : ℝ) = 0 := by rw [zero_div, h0, Rat.cast_zero, h2]
        split_ifs
        · simpa using hx
        · simpa using hx
      | succ k =>
        split_ifs
        · simp [List.getD, List.getElem?_replicate]
          split_ifs <;> rfl
        · have := ih (j + 1) (fl (S - p)) (dn - binom j dn ((fl (p / S) : ℚ) : ℝ)) k (by simpa using hk) (by simpa using hz)
          simpa using this

/-- One multinomial draw: neither check of numpy fires, and the number of records is the truncated floating point sum. -/
theorem flSimVec_spec (hfl : RelRounding fl) {ord : List ℚ → SumTree} {binom : ℕ → ℕ → ℝ → ℕ} (h1 : ∀ j n p, binom j n p ≤ n)
    (h2 : ∀ j n, binom j n 0 = 0) {l : List ℚ} (ho : GoodOrder ord l.length) (hlen : l.length ≤ 67108864) (h0 : ∀ x ∈ l, 0 ≤ x) (hrep : ∀ x ∈ l, fl x = x) (hpos : 0 < l.sum) :
    ∃ out, flSimVec fl ord binom l 0 = .ok out ∧ out.length = l.length ∧ out.sum = ⌊npSum fl ord l⌋₊ ∧
      ∀ k, k + 1 < l.length → l[k]? = some 0 → out.getD k 0 = 0 := by
  have hne : l ≠ [] := by rintro rfl; simp at hpos
  obtain ⟨b1, -⟩ := npSum_bounds hfl ho h0
  have hpl : 1 - 4096 * uRound ≤ (1 - uRound) ^ 4096 := by
    have := pow_lower 4096
    rwa [Nat.cast_ofNat] at this
  generalize (1 - uRound) ^ 4096 = q at b1 hpl
  set s := npSum fl ord l with hs
  have hspos : 0 < s := lt_of_lt_of_le (mul_pos (lt_of_lt_of_le (by norm_num) hpl) hpos) b1
  have hle := le_npSum hfl ho h0 hrep
  have hprob : ∀ x ∈ l, 0 ≤ fl (x / s) ∧ fl (x / s) ≤ 1 := by
    intro x hx
    refine ⟨hfl.nonneg (div_nonneg (h0 x hx) hspos.le), ?_⟩
    have := hfl.mono _ _ ((div_le_one hspos).2 (hle x hx))
    rwa [hfl.one] at this
  have hsum : ∀ l' : List ℚ, (∀ x ∈ l', 0 ≤ x) → (l'.map fun x => fl (x / s)).sum ≤ (1 + uRound) * (l'.sum / s) := by
    intro l'
    induction l' with
    | nil => simp
    | cons x xs ih =>
      intro h
      rw [List.map_cons, List.sum_cons, List.sum_cons]
      have := ih fun y hy => h y (List.mem_cons_of_mem _ hy)
      have h2 := hfl.le_mul (x := x / s) (div_nonneg (h x (by simp)) hspos.le)
      rw [add_div]
      simp only [uRound] at *
      linarith
  have hall : (l.map fun x => fl (x / s)).sum ≤ 1 + 4100 * uRound := by
    refine (hsum l h0).trans ?_
    have h3 : l.sum * (1 - 4096 * uRound) ≤ s := by
      refine le_trans ?_ b1
      rw [mul_comm]
      exact mul_le_mul_of_nonneg_right hpl hpos.le
    have h4 : l.sum / s ≤ 1 / (1 - 4096 * uRound) := by
      rw [div_le_div_iff₀ hspos (by norm_num), one_mul]
      exact h3
    refine (mul_le_mul_of_nonneg_left h4 (by norm_num)).trans ?_
    norm_num
  unfold flSimVec
  rw [if_pos le_rfl, ← hs]
  dsimp only
  rw [if_neg (not_le.2 hspos), if_neg hspos.ne']
  unfold flMultinomial
  rw [if_neg, if_neg]
  · obtain ⟨g1, g2⟩ := flMultiLoop_spec (fl := fl) h1 (l.map fun x => fl (x / s)) 0 1 ⌊s⌋₊ (by simpa using hne)
    have hz := flMultiLoop_zero (fl := fl) hfl.zero h2 (l.map fun x => fl (x / s)) 0 1 ⌊s⌋₊
    refine ⟨_, rfl, by rw [g1, List.length_map], g2, fun k hk h0 => hz k (by simpa using hk) ?_⟩
    rw [List.getElem?_map, h0]
    simp [hfl.zero]
  · rw [not_lt]
    have hsub : ((l.map fun x => fl (x / s)).dropLast).sum ≤ 1 + 4100 * uRound := by
      refine le_trans ?_ hall
      refine List.Sublist.sum_le_sum (List.dropLast_sublist _) ?_
      intro y hy
      obtain ⟨x, hx, rfl⟩ := List.mem_map.1 hy
      exact (hprob x hx).1
    have hk := kahanSum_le hfl (l := (l.map fun x => fl (x / s)).dropLast) (fun y hy => by
      obtain ⟨x, hx, rfl⟩ := List.mem_map.1 (List.mem_of_mem_dropLast hy)
      exact (hprob x hx).1) (by rw [List.length_dropLast, List.length_map]; omega) hsub (by norm_num)
    refine hk.trans ?_
    have a1 := hfl.mul_le (x := 1 / 10 ^ 12) (by norm_num)
    have a2 := hfl.mul_le (x := 1 + fl (1 / 10 ^ 12)) (by have := hfl.nonneg (x := 1 / 10 ^ 12) (by norm_num); linarith)
    simp only [uRound]
    linarith
  · rintro ⟨y, hy, h⟩
    obtain ⟨x, hx, rfl⟩ := List.mem_map.1 hy
    have := hprob x hx
    rcases h with h | h <;> linarith

end Phik
