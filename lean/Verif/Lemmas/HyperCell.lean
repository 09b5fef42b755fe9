import Verif.Spec.SamplerLaw
import Verif.Lemmas.Rcont2Pass
import Mathlib.Data.Nat.Choose.Vandermonde
import Mathlib.Tactic.FieldSimp
import Mathlib.Algebra.BigOperators.Intervals
import Mathlib.Order.Interval.Finset.Basic
import Mathlib.Data.Int.Interval
import Mathlib.Data.Nat.Choose.Cast
import Mathlib.Algebra.BigOperators.Field
import Mathlib.Data.Nat.Choose.Sum

/-! # The search for one entry in exact arithmetic draws from the hypergeometric distribution -/

namespace Phik
open Finset Spec

/-- Factorial of an integer. -/
noncomputable def fz (n : ℤ) : ℝ := (n.toNat.factorial : ℝ)

theorem fz_pos (n : ℤ) : 0 < fz n := by unfold fz; exact_mod_cast Nat.factorial_pos _

theorem fz_succ {n : ℤ} (h : 0 ≤ n) : fz (n + 1) = (n + 1) * fz n := by
  obtain ⟨m, rfl⟩ := Int.eq_ofNat_of_zero_le h
  unfold fz
  have : ((m : ℤ) + 1).toNat = m + 1 := by omega
  rw [this, Nat.factorial_succ]
  push_cast
  simp

/-- The hypergeometric probability of the entry `k` (row remainder `a`, column remainder `d`, block total `e`). -/
noncomputable def hyp (a d e k : ℤ) : ℝ :=
  fz a * fz (e - a) * fz (e - d) * fz d / (fz e * fz k * fz (d - k) * fz (a - k) * fz (e - a - d + k))

theorem hyp_pos (a d e k : ℤ) : 0 < hyp a d e k := by
  unfold hyp
  have := fz_pos
  have h1 := fz_pos a; have h2 := fz_pos (e - a); have h3 := fz_pos (e - d); have h4 := fz_pos d
  have h5 := fz_pos e; have h6 := fz_pos k; have h7 := fz_pos (d - k); have h8 := fz_pos (a - k)
  have h9 := fz_pos (e - a - d + k)
  positivity

theorem hyp_up {a d e k : ℤ} (h : Feas a d e k) (h' : Feas a d e (k + 1)) :
    hyp a d e k * (((d - k) * (a - k) : ℤ) : ℝ) / (((k + 1) * (e - a - d + (k + 1)) : ℤ) : ℝ) = hyp a d e (k + 1) := by
  obtain ⟨h1, h2, h3, h4⟩ := h
  obtain ⟨g1, g2, g3, g4⟩ := h'
  have e1 : fz (k + 1) = (k + 1) * fz k := fz_succ h1
  have e2 : fz (d - k) = (d - (k + 1) + 1) * fz (d - (k + 1)) := by
    have := fz_succ (n := d - (k + 1)) (by omega)
    push_cast at this
    rw [← this]; congr 1; ring
  have e3 : fz (a - k) = (a - (k + 1) + 1) * fz (a - (k + 1)) := by
    have := fz_succ (n := a - (k + 1)) (by omega)
    push_cast at this
    rw [← this]; congr 1; ring
  have e4 : fz (e - a - d + (k + 1)) = (e - a - d + k + 1) * fz (e - a - d + k) := by
    have := fz_succ (n := e - a - d + k) (by omega)
    push_cast at this
    rw [← this]; congr 1; ring
  unfold hyp
  rw [e1, e2, e3, e4]
  have p1 := (fz_pos e).ne'; have p2 := (fz_pos k).ne'; have p3 := (fz_pos (d - (k + 1))).ne'
  have p4 := (fz_pos (a - (k + 1))).ne'; have p5 := (fz_pos (e - a - d + k)).ne'
  have q1 : (k : ℝ) + 1 ≠ 0 := by
    have : (0 : ℝ) ≤ k := by exact_mod_cast h1
    linarith
  have q2 : (d : ℝ) - (k + 1) + 1 ≠ 0 := by
    have : ((k + 1 : ℤ) : ℝ) ≤ d := by exact_mod_cast g4
    push_cast at this
    linarith
  have q3 : (a : ℝ) - (k + 1) + 1 ≠ 0 := by
    have : ((k + 1 : ℤ) : ℝ) ≤ a := by exact_mod_cast g3
    push_cast at this
    linarith
  have q4 : (e : ℝ) - a - d + k + 1 ≠ 0 := by
    have : ((a + d - e : ℤ) : ℝ) ≤ (k : ℤ) := by exact_mod_cast h2
    push_cast at this
    linarith
  push_cast
  have q4' : (e : ℝ) - a - d + (k + 1) ≠ 0 := by intro h; apply q4; linarith
  field_simp
  ring

theorem hyp_down {a d e k : ℤ} (h : Feas a d e k) (h' : Feas a d e (k - 1)) :
    hyp a d e k * ((k * (e - a - d + k) : ℤ) : ℝ) / (((d - (k - 1)) * (a - (k - 1)) : ℤ) : ℝ) = hyp a d e (k - 1) := by
  have hu := hyp_up (a := a) (d := d) (e := e) (k := k - 1) h' (by rwa [sub_add_cancel])
  simp only [sub_add_cancel] at hu
  obtain ⟨h1, h2, h3, h4⟩ := h
  obtain ⟨g1, g2, g3, g4⟩ := h'
  rw [← hu]
  have q1 : ((k * (e - a - d + k) : ℤ) : ℝ) ≠ 0 := by
    have : 0 < k * (e - a - d + k) := mul_pos (by omega) (by omega)
    exact_mod_cast this.ne'
  have q2 : (((d - (k - 1)) * (a - (k - 1)) : ℤ) : ℝ) ≠ 0 := by
    have : 0 < (d - (k - 1)) * (a - (k - 1)) := mul_pos (by omega) (by omega)
    exact_mod_cast this.ne'
  field_simp

/-- Smallest and largest feasible entry. -/
def loF (a d e : ℤ) : ℤ := max 0 (a + d - e)
def hiF (a d : ℤ) : ℤ := min a d

theorem feas_iff {a d e k : ℤ} : Feas a d e k ↔ loF a d e ≤ k ∧ k ≤ hiF a d := by
  unfold Feas loF hiF; omega

open scoped Classical in
/-- The probabilities sum to 1. -/
theorem hyp_sum {N a d e : ℤ} (hc : CellPre N a d e) : ∑ k ∈ Icc (loF a d e) (hiF a d), hyp a d e k = 1 := by
  obtain ⟨c1, c2, c3, c4, c5, -⟩ := hc
  obtain ⟨a, rfl⟩ := Int.eq_ofNat_of_zero_le c1
  obtain ⟨d, rfl⟩ := Int.eq_ofNat_of_zero_le c2
  obtain ⟨e, rfl⟩ := Int.eq_ofNat_of_zero_le (c1.trans c3)
  have ha : a ≤ e := by exact_mod_cast c3
  have hd : d ≤ e := by exact_mod_cast c4
  have hv := Nat.add_choose_eq d (e - d) a
  rw [show d + (e - d) = e by omega, Finset.Nat.sum_antidiagonal_eq_sum_range_succ (fun i j => d.choose i * (e - d).choose j)] at hv
  have hC : (0 : ℝ) < (e.choose a : ℝ) := by exact_mod_cast Nat.choose_pos ha
  have h1 : ∑ i ∈ range (a + 1), ((d.choose i : ℝ) * ((e - d).choose (a - i) : ℝ)) = e.choose a := by exact_mod_cast hv.symm
  have key : ∀ i ∈ (range (a + 1)).filter (fun i : ℕ => Feas (a : ℤ) d e i),
      ((d.choose i : ℝ) * ((e - d).choose (a - i) : ℝ)) / e.choose a = hyp a d e i := by
    intro i hi
    simp only [mem_filter, mem_range] at hi
    obtain ⟨f1, f2, f3, f4⟩ := hi.2
    have f3' : i ≤ a := by omega
    have f4' : i ≤ d := by omega
    rw [Nat.cast_choose ℝ f4', Nat.cast_choose ℝ (show a - i ≤ e - d by omega), Nat.cast_choose ℝ ha]
    unfold hyp fz
    have t1 : ((a : ℤ)).toNat = a := by omega
    have t2 : ((e : ℤ) - a).toNat = e - a := by omega
    have t3 : ((e : ℤ) - d).toNat = e - d := by omega
    have t4 : ((d : ℤ)).toNat = d := by omega
    have t5 : ((e : ℤ)).toNat = e := by omega
    have t6 : ((i : ℤ)).toNat = i := by omega
    have t7 : ((d : ℤ) - i).toNat = d - i := by omega
    have t8 : ((a : ℤ) - i).toNat = a - i := by omega
    have t9 : ((e : ℤ) - a - d + i).toNat = e - d - (a - i) := by omega
    rw [t1, t2, t3, t4, t5, t6, t7, t8, t9]
    have p : ∀ n : ℕ, (n.factorial : ℝ) ≠ 0 := fun n => by exact_mod_cast Nat.factorial_ne_zero n
    have := p a; have := p d; have := p e; have := p i; have := p (e - a); have := p (e - d); have := p (d - i)
    have := p (a - i); have := p (e - d - (a - i))
    field_simp
  have h2 : ∑ i ∈ (range (a + 1)).filter (fun i : ℕ => Feas (a : ℤ) d e i), ((d.choose i : ℝ) * ((e - d).choose (a - i) : ℝ)) =
      e.choose a := by
    rw [← h1]
    refine Finset.sum_filter_of_ne fun i hi hne => ?_
    simp only [mem_range] at hi
    have g1 : i ≤ d := by
      by_contra h
      exact hne (by rw [Nat.choose_eq_zero_of_lt (by omega)]; simp)
    have g2 : a - i ≤ e - d := by
      by_contra h
      exact hne (by rw [Nat.choose_eq_zero_of_lt (show e - d < a - i by omega)]; simp)
    exact ⟨by omega, by omega, by omega, by omega⟩
  rw [← div_self hC.ne']
  nth_rw 1 [← h2]
  rw [Finset.sum_div, Finset.sum_congr rfl key]
  refine Finset.sum_nbij' (fun k : ℤ => k.toNat) (fun i : ℕ => (i : ℤ)) ?_ ?_ ?_ ?_ ?_
  · intro k hk
    have := feas_iff.2 (mem_Icc.1 hk)
    have h0 : ((k.toNat : ℕ) : ℤ) = k := Int.toNat_of_nonneg this.1
    simp only [mem_filter, mem_range, h0]
    exact ⟨by have := this.2.2.1; omega, this⟩
  · intro i hi
    simp only [mem_filter] at hi
    exact mem_Icc.2 (feas_iff.1 hi.2)
  · intro k hk
    exact Int.toNat_of_nonneg (feas_iff.2 (mem_Icc.1 hk)).1
  · intro i _; simp
  · intro k hk
    rw [Int.toNat_of_nonneg (feas_iff.2 (mem_Icc.1 hk)).1]

/-- The sum of the probabilities of the entries from `i` to `j`. -/
noncomputable def hsum (a d e i j : ℤ) : ℝ := ∑ k ∈ Icc i j, hyp a d e k

theorem hsum_up {a d e i j : ℤ} (h : i ≤ j + 1) : hsum a d e i (j + 1) = hsum a d e i j + hyp a d e (j + 1) := by
  unfold hsum
  have : Icc i (j + 1) = insert (j + 1) (Icc i j) := by ext k; simp only [mem_Icc, mem_insert]; omega
  rw [this, Finset.sum_insert (by simp), add_comm]

theorem hsum_down {a d e i j : ℤ} (h : i - 1 ≤ j) : hsum a d e (i - 1) j = hsum a d e i j + hyp a d e (i - 1) := by
  unfold hsum
  have : Icc (i - 1) j = insert (i - 1) (Icc i j) := by ext k; simp only [mem_Icc, mem_insert]; omega
  rw [this, Finset.sum_insert (by simp), add_comm]

theorem hsum_le {N a d e i j : ℤ} (hc : CellPre N a d e) (hi : loF a d e ≤ i) (hj : j ≤ hiF a d) : hsum a d e i j ≤ 1 := by
  rw [← hyp_sum hc]
  refine Finset.sum_le_sum_of_subset_of_nonneg (fun k hk => ?_) fun k _ _ => (hyp_pos _ _ _ _).le
  simp only [mem_Icc] at hk ⊢; omega

/-- Invariant of the search in exact arithmetic: the entries from `nll` to `nlm` have been visited. -/
structure EInv (a d e : ℤ) (s : Srch ℝ) : Prop where
  le : s.nll ≤ s.nlm
  lo : loF a d e ≤ s.nll
  hi : s.nlm ≤ hiF a d
  x : s.x = hyp a d e s.nlm
  y : s.y = hyp a d e s.nll
  sum : s.sumprb = hsum a d e s.nll s.nlm
  lsp : s.lsp = true → s.nlm = hiF a d
  lsm : s.lsm = true → s.nll = loF a d e

/-- The unvisited entries cut the rest of the unit interval into pieces whose lengths are their probabilities, and a number
in the piece of an entry makes `run` return that entry. -/
def Cover (a d e : ℤ) (s : Srch ℝ) (run : ℝ → Except Err (Srch ℝ)) : Prop :=
  ∃ α : ℤ → ℝ,
    (∀ k, Feas a d e k → ¬ (s.nll ≤ k ∧ k ≤ s.nlm) → s.sumprb ≤ α k ∧ α k + hyp a d e k ≤ 1 ∧
      ∀ r, α k < r → r ≤ α k + hyp a d e k → ∃ t, run r = .ok t ∧ t.nlm = k ∧ (t.done1 = true ∨ t.done1 = false ∧ t.done2 = some true)) ∧
    ∀ r, s.sumprb < r → r ≤ 1 → ∃ k, Feas a d e k ∧ ¬ (s.nll ≤ k ∧ k ≤ s.nlm) ∧ α k < r ∧ r ≤ α k + hyp a d e k

section
variable {N a d e : ℤ}

theorem Cover.full (hc : CellPre N a d e) {s : Srch ℝ} (hs : EInv a d e s) (h1 : s.nll = loF a d e) (h2 : s.nlm = hiF a d)
    (run : ℝ → Except Err (Srch ℝ)) : Cover a d e s run := by
  have h : s.sumprb = 1 := by rw [hs.sum, h1, h2]; exact hyp_sum hc
  refine ⟨fun _ => 0, fun k hk hn => ?_, fun r h3 h4 => ?_⟩
  · rw [feas_iff] at hk; exact absurd ⟨by omega, by omega⟩ hn
  · rw [h] at h3; linarith

theorem Cover.congr {s s' : Srch ℝ} {run run' : ℝ → Except Err (Srch ℝ)} (h1 : s'.nll = s.nll) (h2 : s'.nlm = s.nlm)
    (h3 : s'.sumprb = s.sumprb) (h : Cover a d e s run) (hr : ∀ r, s.sumprb < r → run' r = run r) : Cover a d e s' run' := by
  obtain ⟨α, g1, g2⟩ := h
  refine ⟨α, fun k hk hn => ?_, fun r => ?_⟩
  · rw [h1, h2] at hn
    obtain ⟨f1, f2, f3⟩ := g1 k hk hn
    refine ⟨h3 ▸ f1, f2, fun r q1 q2 => ?_⟩
    rw [hr r (f1.trans_lt q1)]
    exact f3 r q1 q2
  · rw [h1, h2, h3]; exact g2 r

/-- Visiting one more entry. -/
theorem Cover.step (hc : CellPre N a d e) {s s' : Srch ℝ} (hs' : EInv a d e s') (v : ℤ)
    (hv : ∀ k, (s'.nll ≤ k ∧ k ≤ s'.nlm) ↔ (s.nll ≤ k ∧ k ≤ s.nlm) ∨ k = v) (hvn : ¬ (s.nll ≤ v ∧ v ≤ s.nlm))
    (hsum : s'.sumprb = s.sumprb + hyp a d e v) {run run' : ℝ → Except Err (Srch ℝ)}
    (h1 : ∀ r, s.sumprb < r → r ≤ s'.sumprb → ∃ t, run r = .ok t ∧ t.nlm = v ∧ (t.done1 = true ∨ t.done1 = false ∧ t.done2 = some true))
    (h2 : ∀ r, s'.sumprb < r → run r = run' r) (h : Cover a d e s' run') : Cover a d e s run := by
  obtain ⟨α, g1, g2⟩ := h
  have hp := hyp_pos a d e v
  refine ⟨fun k => if k = v then s.sumprb else α k, fun k hk hn => ?_, fun r q1 q2 => ?_⟩
  · by_cases hkv : k = v
    · subst hkv
      simp only [if_true]
      refine ⟨le_rfl, ?_, ?_⟩
      · rw [← hsum, hs'.sum]; exact hsum_le hc hs'.lo hs'.hi
      · rw [← hsum]; exact h1
    · simp only [hkv, if_false]
      obtain ⟨f1, f2, f3⟩ := g1 k hk (by rw [hv]; tauto)
      refine ⟨by linarith, f2, fun r q1 q2 => ?_⟩
      rw [h2 r (f1.trans_lt q1)]
      exact f3 r q1 q2
  · by_cases hr : r ≤ s'.sumprb
    · have hv' : s'.nll ≤ v ∧ v ≤ s'.nlm := (hv v).2 (.inr rfl)
      refine ⟨v, feas_iff.2 ⟨by have := hs'.lo; omega, by have := hs'.hi; omega⟩, hvn, ?_⟩
      simp only [if_true, ← hsum]
      exact ⟨q1, hr⟩
    · obtain ⟨k, f1, f2, f3⟩ := g2 r (by linarith) q2
      rw [hv] at f2
      refine ⟨k, f1, by tauto, ?_⟩
      simp only [show k ≠ v by tauto, if_false]
      exact f3

/-- One decrement. -/
theorem dec_eq (hc : CellPre N a d e) (hN : N ≤ 46340) {s : Srch ℝ} (hs : EInv a d e s) (hlsm : s.lsm = false) (r : ℝ) (n : ℕ) :
    decLoop exactOps r a d (e - a - d) (n + 1) s =
      if s.nll = loF a d e then .ok { s with lsm := true }
      else if r ≤ s.sumprb + hyp a d e (s.nll - 1) then
        .ok { s with nll := s.nll - 1, y := hyp a d e (s.nll - 1), sumprb := s.sumprb + hyp a d e (s.nll - 1),
                     nlm := s.nll - 1, done2 := some true }
      else if s.lsp = false then
        .ok { s with nll := s.nll - 1, y := hyp a d e (s.nll - 1), sumprb := s.sumprb + hyp a d e (s.nll - 1) }
      else decLoop exactOps r a d (e - a - d) n
        { s with nll := s.nll - 1, y := hyp a d e (s.nll - 1), sumprb := s.sumprb + hyp a d e (s.nll - 1) } := by
  obtain ⟨c1, c2, c3, c4, c5, c6⟩ := hc
  have g1 := hs.lo; have g2 := hs.hi; have g3 := hs.le
  have fe : Feas a d e s.nll := feas_iff.2 ⟨g1, g3.trans g2⟩
  obtain ⟨f1, f2, f3, f4⟩ := fe
  rw [decLoop, if_neg (by simp [hlsm]), int32_of ⟨by omega, by omega⟩]
  simp only [bind, Except.bind]
  rw [int32_of (inInt32_mul f1 (by omega) (by omega) (by omega) hN)]
  simp only []
  have hj : s.nll * (e - a - d + s.nll) = 0 ↔ s.nll = loF a d e := by
    rw [mul_eq_zero]
    unfold loF at g1 ⊢
    omega
  by_cases h : s.nll = loF a d e
  · rw [if_pos (hj.2 h), if_pos h]
  rw [if_neg (fun h' => h (hj.1 h')), if_neg h]
  have hfe : Feas a d e (s.nll - 1) := feas_iff.2 ⟨by omega, by omega⟩
  rw [int32_of ⟨by omega, by omega⟩]
  simp only []
  rw [int32_of ⟨by omega, by omega⟩]
  simp only []
  rw [int32_of ⟨by omega, by omega⟩]
  simp only []
  have hd : 0 < (d - (s.nll - 1)) * (a - (s.nll - 1)) := mul_pos (by omega) (by omega)
  obtain ⟨k1, k2, k3, k4⟩ := hfe
  rw [int32_of (inInt32_mul (by omega) (by omega) (by omega) (by omega) hN)]
  simp only []
  rw [if_neg hd.ne']
  have hy : exactOps.div (exactOps.mul s.y (exactOps.ofInt (s.nll * (e - a - d + s.nll))))
      (exactOps.ofInt ((d - (s.nll - 1)) * (a - (s.nll - 1)))) = hyp a d e (s.nll - 1) := by
    have := hyp_down (a := a) (d := d) (e := e) (k := s.nll) ⟨f1, f2, f3, f4⟩ ⟨k1, k2, k3, k4⟩
    rw [← hs.y] at this
    exact this
  rw [hy]
  simp only [exactOps, decide_eq_true_eq]

/-- One increment. -/
theorem inc_eq (hc : CellPre N a d e) (hN : N ≤ 46340) {s : Srch ℝ} (hs : EInv a d e s) (r : ℝ) :
    incStep exactOps r a d (e - a - d) s =
      if s.nlm = hiF a d then .ok ({ s with lsp := true }, false)
      else if r ≤ s.sumprb + hyp a d e (s.nlm + 1) then
        .ok ({ s with nlm := s.nlm + 1, x := hyp a d e (s.nlm + 1), sumprb := s.sumprb + hyp a d e (s.nlm + 1),
                      done1 := true }, true)
      else .ok ({ s with nlm := s.nlm + 1, x := hyp a d e (s.nlm + 1), sumprb := s.sumprb + hyp a d e (s.nlm + 1) }, false) := by
  obtain ⟨c1, c2, c3, c4, c5, c6⟩ := hc
  have g1 := hs.lo; have g2 := hs.hi; have g3 := hs.le
  have fe : Feas a d e s.nlm := feas_iff.2 ⟨g1.trans g3, g2⟩
  obtain ⟨f1, f2, f3, f4⟩ := fe
  rw [incStep, int32_of ⟨by omega, by omega⟩]
  simp only [bind, Except.bind]
  rw [int32_of ⟨by omega, by omega⟩]
  simp only []
  rw [int32_of (inInt32_mul (by omega) (by omega) (by omega) (by omega) hN)]
  simp only []
  have hj : (d - s.nlm) * (a - s.nlm) = 0 ↔ s.nlm = hiF a d := by
    rw [mul_eq_zero]
    unfold hiF at g2 ⊢
    omega
  by_cases h : s.nlm = hiF a d
  · rw [if_pos (hj.2 h), if_pos h]
  rw [if_neg (fun h' => h (hj.1 h')), if_neg h]
  have hfe : Feas a d e (s.nlm + 1) := feas_iff.2 ⟨by omega, by omega⟩
  rw [int32_of ⟨by omega, by omega⟩]
  simp only []
  rw [int32_of ⟨by omega, by omega⟩]
  simp only []
  have hd : 0 < (s.nlm + 1) * (e - a - d + (s.nlm + 1)) := mul_pos (by omega) (by omega)
  obtain ⟨k1, k2, k3, k4⟩ := hfe
  rw [int32_of (inInt32_mul (by omega) (by omega) (by omega) (by omega) hN)]
  simp only []
  rw [if_neg hd.ne']
  have hy : exactOps.div (exactOps.mul s.x (exactOps.ofInt ((d - s.nlm) * (a - s.nlm))))
      (exactOps.ofInt ((s.nlm + 1) * (e - a - d + (s.nlm + 1)))) = hyp a d e (s.nlm + 1) := by
    have := hyp_up (a := a) (d := d) (e := e) (k := s.nlm) ⟨f1, f2, f3, f4⟩ ⟨k1, k2, k3, k4⟩
    rw [← hs.x] at this
    exact this
  rw [hy]
  simp only [exactOps, decide_eq_true_eq]

/-- What follows the decrements in the loop over the increments. -/
noncomputable def contin (r : ℝ) (a d ii : ℤ) (fuel n : ℕ) (s2 : Srch ℝ) : Except Err (Srch ℝ) :=
  match s2.done2 with
  | none => .error .uninit
  | some true => .ok s2
  | some false => incLoop exactOps fuel r a d ii n s2

/-- The decrements when no increment is left. -/
theorem dec_cover_all (hc : CellPre N a d e) (hN : N ≤ 46340) (fuel m : ℕ) (n : ℕ) (s : Srch ℝ) (hs : EInv a d e s)
    (hlsp : s.lsp = true) (hd1 : s.done1 = false) (hn : s.nll - loF a d e < n) :
    Cover a d e s fun r => decLoop exactOps r a d (e - a - d) n s >>= contin r a d (e - a - d) fuel m := by
  induction n generalizing s with
  | zero => have := hs.lo; omega
  | succ n ih =>
    by_cases hfull : s.nll = loF a d e
    · exact Cover.full hc hs hfull (hs.lsp hlsp) _
    have hlsm : s.lsm = false := by
      cases h : s.lsm with
      | false => rfl
      | true => exact absurd (hs.lsm h) hfull
    have hlo := hs.lo
    have hs' : EInv a d e { s with nll := s.nll - 1, y := hyp a d e (s.nll - 1), sumprb := s.sumprb + hyp a d e (s.nll - 1) } := by
      refine ⟨?_, ?_, hs.hi, hs.x, rfl, ?_, hs.lsp, ?_⟩
      · have := hs.le; dsimp only; omega
      · dsimp only; omega
      · dsimp only; rw [hs.sum, hsum_down (by have := hs.le; omega)]
      · intro h; rw [hlsm] at h; simp at h
    refine Cover.step hc hs' (s.nll - 1) ?_ ?_ rfl ?_ ?_ (ih _ hs' hlsp hd1 (by push_cast at hn; dsimp only; omega))
    · intro k; have := hs.le; dsimp only; omega
    · omega
    · intro r h1 h2
      dsimp only at h2
      rw [dec_eq hc hN hs hlsm, if_neg hfull, if_pos h2]
      exact ⟨_, rfl, rfl, .inr ⟨hd1, rfl⟩⟩
    · intro r h1
      dsimp only at h1
      rw [dec_eq hc hN hs hlsm, if_neg hfull, if_neg (not_le.2 h1), if_neg (by simp [hlsp])]

/-- The loop over the increments. -/
theorem inc_cover (hc : CellPre N a d e) (hN : N ≤ 46340) (fuel : ℕ) (hf : N + 1 ≤ fuel) (n : ℕ) (s : Srch ℝ) (hs : EInv a d e s)
    (hlsp : s.lsp = false) (hd1 : s.done1 = false) (hn : hiF a d - s.nlm < n) :
    Cover a d e s fun r => incLoop exactOps fuel r a d (e - a - d) n s := by
  induction n generalizing s with
  | zero => have := hs.hi; omega
  | succ n ih =>
    have hlo := hs.lo; have hhi := hs.hi; have hle := hs.le
    have hhiN : hiF a d ≤ N := by have := hc.ia_le; have := hc.ie_le; unfold hiF; omega
    have hlo0 : 0 ≤ loF a d e := by unfold loF; omega
    obtain ⟨f, rfl⟩ : ∃ f, fuel = f + 1 := ⟨fuel - 1, by omega⟩
    have unf : ∀ r, incLoop exactOps (f + 1) r a d (e - a - d) (n + 1) s =
        incStep exactOps r a d (e - a - d) s >>= fun p => if p.2 then .ok p.1 else
          decLoop exactOps r a d (e - a - d) (f + 1) { p.1 with done2 := some false } >>= contin r a d (e - a - d) (f + 1) n := by
      intro r
      rw [incLoop, if_neg (by simp [hlsp])]
      rfl
    by_cases hmax : s.nlm = hiF a d
    · -- no increment left
      have hs1 : EInv a d e { s with lsp := true, done2 := some false } :=
        ⟨hs.le, hs.lo, hs.hi, hs.x, hs.y, hs.sum, fun _ => hmax, hs.lsm⟩
      refine Cover.congr (s := { s with lsp := true, done2 := some false }) rfl rfl rfl
        (dec_cover_all hc hN (f + 1) n (f + 1) _ hs1 rfl hd1 (by push_cast at hf ⊢; omega)) fun r _ => ?_
      rw [unf, inc_eq hc hN hs, if_pos hmax]
      rfl
    · set s1 : Srch ℝ := { s with nlm := s.nlm + 1, x := hyp a d e (s.nlm + 1), sumprb := s.sumprb + hyp a d e (s.nlm + 1) } with hs1d
      have hs1 : EInv a d e s1 := by
        refine ⟨?_, hs.lo, ?_, rfl, hs.y, ?_, ?_, hs.lsm⟩
        · simp only [hs1d]; omega
        · simp only [hs1d]; omega
        · simp only [hs1d]; rw [hs.sum, hsum_up (by omega)]
        · intro h; simp only [hs1d, hlsp] at h; simp at h
      refine Cover.step (run' := fun r => decLoop exactOps r a d (e - a - d) (f + 1) { s1 with done2 := some false } >>=
        contin r a d (e - a - d) (f + 1) n) hc hs1 (s.nlm + 1) ?_ ?_ rfl ?_ ?_ ?_
      · intro k; simp only [hs1d]; omega
      · omega
      · intro r _ h2
        simp only [hs1d] at h2
        rw [unf, inc_eq hc hN hs, if_neg hmax, if_pos h2]
        exact ⟨_, rfl, rfl, .inl rfl⟩
      · intro r h1
        simp only [hs1d] at h1
        rw [unf, inc_eq hc hN hs, if_neg hmax, if_neg (not_le.2 h1)]
        rfl
      · -- the decrement
        have hsd : EInv a d e { s1 with done2 := some false } := ⟨hs1.le, hs1.lo, hs1.hi, hs1.x, hs1.y, hs1.sum, hs1.lsp, hs1.lsm⟩
        have hlsp1 : s1.lsp = false := hlsp
        have hn1 : hiF a d - s1.nlm < n := by simp only [hs1d]; push_cast at hn; omega
        by_cases hlsm : s1.lsm = true
        · refine Cover.congr (s := { s1 with done2 := some false }) rfl rfl rfl (ih _ hsd hlsp1 hd1 hn1) fun r _ => ?_
          have : decLoop exactOps r a d (e - a - d) (f + 1) { s1 with done2 := some false } = .ok { s1 with done2 := some false } := by
            rw [decLoop, if_pos hlsm]
          rw [this]
          rfl
        · have hlsm' : s1.lsm = false := by simpa using hlsm
          by_cases hfull : s1.nll = loF a d e
          · have hsm : EInv a d e { s1 with done2 := some false, lsm := true } :=
              ⟨hs1.le, hs1.lo, hs1.hi, hs1.x, hs1.y, hs1.sum, hs1.lsp, fun _ => hfull⟩
            refine Cover.congr (s := { s1 with done2 := some false, lsm := true }) rfl rfl rfl (ih _ hsm hlsp1 hd1 hn1) fun r _ => ?_
            rw [dec_eq hc hN hsd hlsm', if_pos hfull]
            rfl
          · have hs2 : EInv a d e { s1 with done2 := some false, nll := s1.nll - 1, y := hyp a d e (s1.nll - 1),
                                            sumprb := s1.sumprb + hyp a d e (s1.nll - 1) } := by
              have := hs1.le; have := hs1.lo
              refine ⟨?_, ?_, hs1.hi, hs1.x, rfl, ?_, hs1.lsp, ?_⟩
              · dsimp only; omega
              · dsimp only; omega
              · dsimp only; rw [hs1.sum, hsum_down (by omega)]
              · intro h; rw [hlsm'] at h; simp at h
            refine Cover.step hc hs2 (s1.nll - 1) ?_ ?_ rfl ?_ ?_ (ih _ hs2 hlsp1 hd1 hn1)
            · intro k; have := hs1.le; dsimp only; omega
            · omega
            · intro r h1 h2
              dsimp only at h2
              rw [dec_eq hc hN hsd hlsm', if_neg hfull, if_pos h2]
              exact ⟨_, rfl, rfl, .inr ⟨hd1, rfl⟩⟩
            · intro r h1
              dsimp only at h1
              rw [dec_eq hc hN hsd hlsm', if_neg hfull, if_neg (not_le.2 h1), if_pos hlsp1]
              rfl

/-- The table of logarithms of factorials. -/
theorem factFrom_exact (n i : ℕ) (k : ℕ) (hk : k < n) :
    (factFrom exactOps n (i + 1) (Real.log i.factorial))[k]? = some (Real.log ((i + 1 + k).factorial)) := by
  induction n generalizing i k with
  | zero => omega
  | succ n ih =>
    unfold factFrom
    have hx : exactOps.add (Real.log i.factorial) (exactOps.log (exactOps.ofInt ((i + 1 : ℕ) : ℤ))) =
        Real.log ((i + 1).factorial) := by
      simp only [exactOps]
      rw [Nat.factorial_succ]
      push_cast
      rw [Real.log_mul (by positivity) (by positivity), add_comm]
    simp only [hx]
    cases k with
    | zero => simp
    | succ k =>
      rw [List.getElem?_cons_succ, ih (i + 1) k (by omega)]
      congr 4
      omega

theorem factTable_exact {n : ℤ} {k : ℤ} (h0 : 0 ≤ k) (h1 : k ≤ n) : rd (factTable exactOps n) k = .ok (Real.log (fz k)) := by
  obtain ⟨k, rfl⟩ := Int.eq_ofNat_of_zero_le h0
  unfold rd factTable fz
  rw [if_neg (by omega)]
  cases k with
  | zero => simp [exactOps]
  | succ k =>
    have := factFrom_exact n.toNat 0 k (by omega)
    simp only [Nat.factorial_zero, Nat.cast_one, Real.log_one, zero_add] at this
    have e : (((k + 1 : ℕ) : ℤ)).toNat = k + 1 := by omega
    have ez : exactOps.zero = 0 := rfl
    rw [e, ez, List.getElem?_cons_succ, this, Nat.add_comm 1 k]

/-- The rounded conditional expectation is feasible. -/
theorem exactOps_roundOK : RoundOK exactOps := by
  intro a d e h1 h2 h3 h4 h5 _ _
  have e0 : (0 : ℝ) < e := by exact_mod_cast h5
  have r1 : (0 : ℝ) ≤ a := by exact_mod_cast h1
  have r2 : (0 : ℝ) ≤ d := by exact_mod_cast h2
  have r3 : (a : ℝ) ≤ e := by exact_mod_cast h3
  have r4 : (d : ℝ) ≤ e := by exact_mod_cast h4
  have hq : (0 : ℝ) ≤ a * d / e := by positivity
  have hn : exactOps.toInt (exactOps.add (exactOps.div (exactOps.ofInt (a * d)) (exactOps.ofInt e)) exactOps.half) =
      ⌊(a : ℝ) * d / e + 1 / 2⌋ := by
    simp only [exactOps]
    push_cast
    rw [if_pos (by positivity)]
  rw [hn]
  have hup : ∀ b : ℤ, (a : ℝ) * d / e ≤ b → ⌊(a : ℝ) * d / e + 1 / 2⌋ ≤ b := by
    intro b hb
    rw [← Int.lt_add_one_iff, Int.floor_lt]
    push_cast
    linarith
  have hlo : ∀ b : ℤ, (b : ℝ) ≤ (a : ℝ) * d / e → b ≤ ⌊(a : ℝ) * d / e + 1 / 2⌋ := by
    intro b hb
    rw [Int.le_floor]
    linarith
  refine ⟨hlo 0 (by simpa using hq), hlo _ ?_, hup a ?_, hup d ?_⟩
  · push_cast
    rw [le_div_iff₀ e0]
    nlinarith [mul_nonneg (sub_nonneg.2 r3) (sub_nonneg.2 r4)]
  · rw [div_le_iff₀ e0]
    exact mul_le_mul_of_nonneg_left r4 r1
  · rw [div_le_iff₀ e0, mul_comm]
    exact mul_le_mul_of_nonneg_left r3 r2

/-- The first guess and its probability. -/
theorem firstGuess_exact (hc : CellPre N a d e) (hN : N ≤ 46340) :
    ∃ n, Feas a d e n ∧ firstGuess exactOps (factTable exactOps N) a (e - a) (e - d) d e (e - a - d) = .ok (n, hyp a d e n) := by
  obtain ⟨c1, c2, c3, c4, c5, c6⟩ := hc
  have hp := inInt32_mul c1 c2 (show a ≤ N by omega) (by omega) hN
  have hn := exactOps_roundOK a d e c1 c2 c3 c4 c5 (by omega) hp.2
  set n := exactOps.toInt (exactOps.add (exactOps.div (exactOps.ofInt (a * d)) (exactOps.ofInt e)) exactOps.half) with hn'
  refine ⟨n, hn, ?_⟩
  obtain ⟨n0, n1, n2, n3⟩ := hn
  unfold firstGuess
  rw [int32_of hp]
  simp only [bind, Except.bind]
  rw [← hn', int32_of ⟨by omega, by omega⟩]
  simp only []
  rw [int32_of ⟨by omega, by omega⟩]
  simp only []
  rw [int32_of ⟨by omega, by omega⟩]
  simp only []
  rw [int32_of ⟨by omega, by omega⟩]
  simp only []
  rw [int32_of ⟨by omega, by omega⟩]
  simp only []
  rw [int32_of ⟨by omega, by omega⟩]
  simp only []
  rw [int32_of ⟨by omega, by omega⟩]
  simp only []
  rw [factTable_exact (by omega) (by omega), factTable_exact (by omega) (by omega), factTable_exact (by omega) (by omega),
    factTable_exact (by omega) (by omega), factTable_exact (by omega) (by omega), factTable_exact (by omega) (by omega),
    factTable_exact (by omega) (by omega), factTable_exact (by omega) (by omega), factTable_exact (by omega) (by omega)]
  simp only [exactOps]
  congr 2
  have t1 : a + 1 - 1 = a := by ring
  have t2 : d + 1 - 1 = d := by ring
  have t3 : n + 1 - 1 = n := by ring
  have t4 : d + 1 - n - 1 = d - n := by ring
  have t5 : a + 1 - n - 1 = a - n := by ring
  have t6 : e - a - d + (n + 1) - 1 = e - a - d + n := by ring
  rw [t1, t2, t3, t4, t5, t6]
  simp only [Real.exp_add, Real.exp_sub, Real.exp_log (fz_pos _)]
  unfold hyp
  have p := fun k => (fz_pos k).ne'
  have := p a; have := p (e - a); have := p (e - d); have := p d; have := p e; have := p n; have := p (d - n)
  have := p (a - n); have := p (e - a - d + n)
  field_simp

/-- **One entry.** The unit interval is cut into pieces, one for each feasible entry, with the hypergeometric
probabilities as lengths; a number in the piece of an entry makes the search return this entry, in the first pass. -/
theorem cell_exact (hc : CellPre N a d e) (hN : N ≤ 46340) {fuel passes : ℕ} (hf : N + 1 ≤ fuel) (hp : 1 ≤ passes) :
    ∃ α : ℤ → ℝ,
      (∀ k, Feas a d e k → 0 ≤ α k ∧ α k + hyp a d e k ≤ 1 ∧ ∀ r, α k < r → r ≤ α k + hyp a d e k →
        ∀ (σ : Type) (gen : σ → Except Err (ℝ × σ)) (seed : σ),
          cellLoop exactOps gen (factTable exactOps N) fuel a (e - a) (e - d) d e (e - a - d) passes r seed none = .ok (k, seed)) ∧
      ∀ r, 0 < r → r ≤ 1 → ∃ k, Feas a d e k ∧ α k < r ∧ r ≤ α k + hyp a d e k := by
  obtain ⟨n, hn, hg⟩ := firstGuess_exact hc hN
  have hn' := feas_iff.1 hn
  obtain ⟨p, rfl⟩ : ∃ p, passes = p + 1 := ⟨passes - 1, by omega⟩
  set s0 : Srch ℝ := { nlm := n, nll := n, x := hyp a d e n, y := hyp a d e n, sumprb := hyp a d e n, lsp := false,
                       lsm := false, done1 := false, done2 := none } with hs0
  have hs : EInv a d e s0 := by
    refine ⟨le_rfl, hn'.1, hn'.2, rfl, rfl, ?_, by simp [hs0], by simp [hs0]⟩
    simp [hs0, hsum]
  have hhiN : hiF a d ≤ N := by have := hc.ia_le; have := hc.ie_le; unfold hiF; omega
  obtain ⟨α, g1, g2⟩ := inc_cover hc hN fuel hf fuel s0 hs rfl rfl (by
    have := hn.1; simp only [hs0]; omega)
  have hpn := hyp_pos a d e n
  have hle1 : hyp a d e n ≤ 1 := by
    have := hsum_le hc hs.lo hs.hi
    rwa [← hs.sum] at this
  refine ⟨fun k => if k = n then 0 else α k, fun k hk => ?_, fun r h1 h2 => ?_⟩
  · by_cases hkn : k = n
    · subst hkn
      simp only [if_true, zero_add]
      refine ⟨le_rfl, hle1, fun r _ h2 σ gen seed => ?_⟩
      rw [cellLoop, hg]
      simp only [bind, Except.bind]
      rw [if_pos (by simpa [exactOps] using h2)]
    · simp only [hkn, if_false]
      obtain ⟨f1, f2, f3⟩ := g1 k hk (by simp only [hs0]; omega)
      refine ⟨hpn.le.trans f1, f2, fun r h1 h2 σ gen seed => ?_⟩
      obtain ⟨t, t1, t2, t3⟩ := f3 r h1 h2
      have hr : ¬ r ≤ hyp a d e n := not_le.2 (f1.trans_lt h1)
      rw [cellLoop, hg]
      simp only [bind, Except.bind]
      rw [if_neg (by simpa [exactOps] using hr)]
      simp only [hs0] at t1
      rw [t1]
      simp only []
      rcases t3 with t3 | ⟨t3, t4⟩
      · rw [if_pos t3, t2]
      · rw [if_neg (by simp [t3]), t4, t2]
  · by_cases hr : r ≤ hyp a d e n
    · exact ⟨n, hn, by simpa using h1, by simpa using hr⟩
    · obtain ⟨k, f1, f2, f3⟩ := g2 r (by simpa [hs0] using hr) h2
      have : k ≠ n := by rintro rfl; exact f2 ⟨le_rfl, le_rfl⟩
      exact ⟨k, f1, by simpa [this] using f3⟩

end

end Phik
