import Verif.Lemmas.Rcont2Cell

/-!
# At most two passes: a failing pass does not depend on the random number
-/

namespace Phik

section
variable {F : Type} {O : FloatOps F}

theorem bind_eq_ok {ε α β : Type} {x : Except ε α} {f : α → Except ε β} {b : β} :
    (x >>= f) = .ok b ↔ ∃ a, x = .ok a ∧ f a = .ok b := by
  cases x <;> simp [bind, Except.bind]

theorem decLoop_two (r r' : F) (ia id ii : ℤ) (n : ℕ) (s t : Srch F)
    (h : decLoop O r ia id ii n s = .ok t) (hd : t.done2 = some false) :
    (∃ t', decLoop O r' ia id ii n s = .ok t' ∧ t'.done2 = some true) ∨
    (decLoop O r' ia id ii n s = .ok t ∧ (t.sumprb = s.sumprb ∨ O.le r' t.sumprb = false)) := by
  induction n generalizing s with
  | zero => simp [decLoop] at h
  | succ n ih =>
    unfold decLoop at h ⊢
    by_cases hl : s.lsm
    · simp only [hl, if_true] at h ⊢
      right
      refine ⟨h, Or.inl ?_⟩
      cases h; rfl
    · simp only [hl, Bool.false_eq_true, if_false] at h ⊢
      obtain ⟨a, ha, h⟩ := bind_eq_ok.1 h
      obtain ⟨j, hj, h⟩ := bind_eq_ok.1 h
      rw [ha]; simp only [bind, Except.bind]; rw [hj]; simp only [bind, Except.bind] at h ⊢
      by_cases hj0 : j = 0
      · simp only [hj0, if_true] at h ⊢
        right
        refine ⟨h, Or.inl ?_⟩
        cases h; rfl
      · simp only [hj0, if_false] at h ⊢
        obtain ⟨nll, h1, h⟩ := bind_eq_ok.1 h
        obtain ⟨a', h2, h⟩ := bind_eq_ok.1 h
        obtain ⟨b', h3, h⟩ := bind_eq_ok.1 h
        obtain ⟨d, h4, h⟩ := bind_eq_ok.1 h
        simp only [h1, h2, h3, h4]
        by_cases hd0 : d = 0
        · simp [hd0] at h
        · simp only [hd0, if_false] at h ⊢
          set y' := O.div (O.mul s.y (O.ofInt j)) (O.ofInt d) with hy'
          by_cases hr : O.le r (O.add s.sumprb y') = true
          · simp only [hr, if_true] at h
            cases h
            simp at hd
          · simp only [hr, Bool.false_eq_true, if_false] at h
            by_cases hr' : O.le r' (O.add s.sumprb y') = true
            · simp only [hr', if_true]
              exact Or.inl ⟨_, rfl, rfl⟩
            · simp only [hr', Bool.false_eq_true, if_false]
              have hr'' : O.le r' (O.add s.sumprb y') = false := by simpa using hr'
              by_cases hp : s.lsp = false
              · simp only [hp, if_true] at h ⊢
                right
                refine ⟨h, Or.inr ?_⟩
                cases h; exact hr''
              · simp only [hp, if_false] at h ⊢
                rcases ih _ h with h5 | ⟨h5, h6⟩
                · exact Or.inl h5
                · right
                  refine ⟨h5, Or.inr ?_⟩
                  rcases h6 with h6 | h6
                  · rw [h6]; exact hr''
                  · exact h6

theorem incStep_two (r r' : F) (ia id ii : ℤ) (s t : Srch F) (d : Option Bool)
    (h : incStep O r ia id ii s = .ok (t, false)) (hd1 : s.done1 = false) :
    (∃ t', incStep O r' ia id ii { s with done2 := d } = .ok (t', true) ∧ t'.done1 = true) ∨
    (incStep O r' ia id ii { s with done2 := d } = .ok ({ t with done2 := d }, false) ∧
      (t.sumprb = s.sumprb ∨ O.le r' t.sumprb = false)) := by
  unfold incStep at h ⊢
  obtain ⟨a, h1, h⟩ := bind_eq_ok.1 h
  obtain ⟨b, h2, h⟩ := bind_eq_ok.1 h
  obtain ⟨j, h3, h⟩ := bind_eq_ok.1 h
  simp only [h1, h2, h3, bind, Except.bind] at h ⊢
  by_cases hj0 : j = 0
  · simp only [hj0, if_true] at h ⊢
    right
    cases h
    exact ⟨rfl, Or.inl rfl⟩
  · simp only [hj0, if_false] at h ⊢
    obtain ⟨nlm, h4, h⟩ := bind_eq_ok.1 h
    obtain ⟨t', h5, h⟩ := bind_eq_ok.1 h
    obtain ⟨d', h6, h⟩ := bind_eq_ok.1 h
    simp only [h4, h5, h6]
    by_cases hd0 : d' = 0
    · simp [hd0] at h
    · simp only [hd0, if_false] at h ⊢
      set x' := O.div (O.mul s.x (O.ofInt j)) (O.ofInt d') with hx'
      by_cases hr : O.le r (O.add s.sumprb x') = true
      · simp [hr] at h
      · simp only [hr, Bool.false_eq_true, if_false] at h
        by_cases hr' : O.le r' (O.add s.sumprb x') = true
        · simp only [hr', if_true]
          exact Or.inl ⟨_, rfl, rfl⟩
        · simp only [hr', Bool.false_eq_true, if_false]
          right
          cases h
          exact ⟨rfl, Or.inr (by simpa using hr')⟩

theorem decLoop_done1 {r : F} {ia id ii : ℤ} {n : ℕ} {s t : Srch F}
    (h : decLoop O r ia id ii n s = .ok t) : t.done1 = s.done1 := by
  induction n generalizing s with
  | zero => simp [decLoop] at h
  | succ n ih =>
    unfold decLoop at h
    split at h
    · cases h; rfl
    · obtain ⟨a, _, h⟩ := bind_eq_ok.1 h
      obtain ⟨b, _, h⟩ := bind_eq_ok.1 h
      split at h
      · cases h; rfl
      · obtain ⟨a, _, h⟩ := bind_eq_ok.1 h
        obtain ⟨b, _, h⟩ := bind_eq_ok.1 h
        obtain ⟨j, _, h⟩ := bind_eq_ok.1 h
        obtain ⟨j, _, h⟩ := bind_eq_ok.1 h
        dsimp only at h
        split at h
        · simp at h
        · split at h
          · cases h; rfl
          · split at h
            · cases h; rfl
            · have := ih h
              exact this

theorem incLoop_two (fuel : ℕ) (r r' : F) (ia id ii : ℤ) (n : ℕ) (s t : Srch F) (d : Option Bool)
    (h : incLoop O fuel r ia id ii n s = .ok t) (hd1 : s.done1 = false)
    (ht1 : t.done1 = false) (ht2 : t.done2 = some false)
    (hlsp : s.lsp = true → d = s.done2) :
    (∃ t', incLoop O fuel r' ia id ii n { s with done2 := d } = .ok t' ∧
      (t'.done1 = true ∨ t'.done2 = some true)) ∨
    (incLoop O fuel r' ia id ii n { s with done2 := d } = .ok t ∧
      (t.sumprb = s.sumprb ∨ O.le r' t.sumprb = false)) := by
  induction n generalizing s d with
  | zero => simp [incLoop] at h
  | succ n ih =>
    unfold incLoop at h ⊢
    by_cases hl : s.lsp = true
    · rw [if_pos hl] at h
      rw [if_pos (by simpa using hl)]
      right
      cases h
      rw [hlsp hl]
      exact ⟨rfl, Or.inl rfl⟩
    · rw [if_neg hl] at h
      rw [if_neg (by simpa using hl)]
      obtain ⟨⟨s1, brk⟩, h1, h⟩ := bind_eq_ok.1 h
      dsimp only at h
      cases brk with
      | true =>
        simp only [if_true, Except.ok.injEq] at h
        have : s1.done1 = true := by
          unfold incStep at h1
          obtain ⟨a, _, h1⟩ := bind_eq_ok.1 h1
          obtain ⟨b, _, h1⟩ := bind_eq_ok.1 h1
          obtain ⟨j, _, h1⟩ := bind_eq_ok.1 h1
          split at h1
          · simp at h1
          · obtain ⟨a, _, h1⟩ := bind_eq_ok.1 h1
            obtain ⟨b, _, h1⟩ := bind_eq_ok.1 h1
            obtain ⟨j, _, h1⟩ := bind_eq_ok.1 h1
            dsimp only at h1
            split at h1
            · simp at h1
            · split at h1
              · simp only [Except.ok.injEq, Prod.mk.injEq, and_true] at h1
                rw [← h1]
              · simp at h1
        rw [← h, this] at ht1; simp at ht1
      | false =>
        simp only [Bool.false_eq_true, if_false] at h
        obtain ⟨s2, h2, h⟩ := bind_eq_ok.1 h
        have hs1d : s1.done1 = false := by
          unfold incStep at h1
          obtain ⟨a, _, h1⟩ := bind_eq_ok.1 h1
          obtain ⟨b, _, h1⟩ := bind_eq_ok.1 h1
          obtain ⟨j, _, h1⟩ := bind_eq_ok.1 h1
          split at h1
          · simp only [Except.ok.injEq, Prod.mk.injEq, and_true] at h1
            rw [← h1]; exact hd1
          · obtain ⟨a, _, h1⟩ := bind_eq_ok.1 h1
            obtain ⟨b, _, h1⟩ := bind_eq_ok.1 h1
            obtain ⟨j, _, h1⟩ := bind_eq_ok.1 h1
            dsimp only at h1
            split at h1
            · simp at h1
            · split at h1
              · simp at h1
              · simp only [Except.ok.injEq, Prod.mk.injEq, and_true] at h1
                rw [← h1]; exact hd1
        rcases incStep_two r r' ia id ii s s1 d h1 hd1 with ⟨t', h3, h4⟩ | ⟨h3, h4⟩
        · left
          simp only [h3, bind, Except.bind, if_true]
          exact ⟨t', rfl, Or.inl h4⟩
        · simp only [h3, bind, Except.bind, Bool.false_eq_true, if_false]
          cases hs2 : s2.done2 with
          | none => rw [hs2] at h; simp at h
          | some b =>
            cases b with
            | true =>
              rw [hs2] at h
              simp only [Except.ok.injEq] at h
              rw [h] at hs2
              rw [hs2] at ht2
              simp at ht2
            | false =>
              rw [hs2] at h
              rcases decLoop_two r r' ia id ii fuel _ s2 h2 hs2 with ⟨t', h5, h6⟩ | ⟨h5, h6⟩
              · left
                rw [h5]
                simp only [h6]
                exact ⟨t', rfl, Or.inr h6⟩
              · rw [h5]
                simp only [hs2]
                have hs2d : s2.done1 = false := by
                  have := decLoop_done1 h5
                  simpa [hs1d] using this
                rcases ih s2 (some false) h hs2d (fun _ => hs2.symm) with h7 | ⟨h7, h8⟩
                · left
                  rw [← hs2] at h7
                  exact h7
                · right
                  rw [← hs2] at h7
                  refine ⟨h7, ?_⟩
                  rcases h8 with h8 | h8
                  · rcases h6 with h6 | h6
                    · rcases h4 with h4 | h4
                      · left; rw [h8, h6]; exact h4
                      · right; rw [h8, h6]; exact h4
                    · right; rw [h8]; exact h6
                  · exact Or.inr h8

/-- The conversion `(int)((double)(ia*id)/(double)ie + 0.5)` yields a feasible entry
(asa159.cpp:660). Derived below for every monotone rounding of the rationals. -/
def RoundOK (O : FloatOps F) : Prop :=
  ∀ ia id ie : ℤ, 0 ≤ ia → 0 ≤ id → ia ≤ ie → id ≤ ie → 0 < ie → ie ≤ 2147483647 →
    ia * id ≤ 2147483647 →
    Feas ia id ie (O.toInt (O.add (O.div (O.ofInt (ia * id)) (O.ofInt ie)) O.half))

theorem rd_nat {α : Type} {a : List α} {i : ℕ} (h : i < a.length) : rd a (i : ℤ) = .ok a[i] := by
  unfold rd
  rw [if_neg (by omega)]
  simp [h]

theorem Post_rd {α : Type} {a : List α} {i : ℤ} {E : Err → Prop} (h0 : 0 ≤ i)
    (h : i < a.length) : Post (rd a i) E (fun v => v = a[i.toNat]'(by omega)) := by
  obtain ⟨n, rfl⟩ := Int.eq_ofNat_of_zero_le h0
  rw [rd_nat (by omega)]
  simp

variable {G : F → Prop} {N ia ib ic id ie ii : ℤ} {T : Prop}

theorem int32_spec (x : ℤ) {T : Prop} (hov : ¬ inInt32 x → 46340 < N) :
    Post (int32 x) (BadErr N T) (fun y => y = x ∧ inInt32 x) := by
  unfold int32
  split
  · rename_i h; exact ⟨rfl, h⟩
  · rename_i h; exact hov h

theorem firstGuess_post (hR : RoundOK O) (hexp : ∀ x, G (O.exp x)) (hN31 : N ≤ 2147483647)
    (hc : CellPre N ia id ie) (hib : ib = ie - ia) (hic : ic = ie - id)
    (hii : ii = ie - ia - id) (fact : List F) (hf : (fact.length : ℤ) = N + 1) :
    Post (firstGuess O fact ia ib ic id ie ii) (BadErr N T)
      (fun p => Feas ia id ie p.1 ∧ G p.2) := by
  obtain ⟨c1, c2, c3, c4, c5, c6⟩ := hc
  unfold firstGuess
  refine Post_bind' (int32_spec (ia * id) ?_) ?_
  · intro h
    by_contra hN
    exact h (inInt32_mul c1 c2 (by omega) (by omega) (by omega : N ≤ 46340))
  rintro _ ⟨rfl, hp⟩
  have hn := hR ia id ie c1 c2 c3 c4 c5 (by omega) hp.2
  set n := O.toInt (O.add (O.div (O.ofInt (ia * id)) (O.ofInt ie)) O.half) with hn'
  have ⟨n0, n1, n2, n3⟩ := hn
  refine Post_bind' (Post_int32 (x := n) (fun _ => ⟨by omega, by omega⟩)) ?_
  rintro _ rfl
  refine Post_bind' (Post_int32 (x := ia + 1) (fun _ => ⟨by omega, by omega⟩)) ?_
  rintro _ rfl
  refine Post_bind' (Post_int32 (x := id + 1) (fun _ => ⟨by omega, by omega⟩)) ?_
  rintro _ rfl
  refine Post_bind' (Post_int32 (x := id + 1 - n) (fun _ => ⟨by omega, by omega⟩)) ?_
  rintro _ rfl
  refine Post_bind' (Post_int32 (x := ia + 1 - n) (fun _ => ⟨by omega, by omega⟩)) ?_
  rintro _ rfl
  refine Post_bind' (Post_int32 (x := n + 1) (fun _ => ⟨by omega, by omega⟩)) ?_
  rintro _ rfl
  refine Post_bind' (Post_int32 (x := ii + (n + 1)) (fun _ => ⟨by omega, by omega⟩)) ?_
  rintro _ rfl
  refine Post_bind' (Post_rd (by omega) (by omega)) ?_
  rintro _ -
  refine Post_bind' (Post_rd (by omega) (by omega)) ?_
  rintro _ -
  refine Post_bind' (Post_rd (by omega) (by omega)) ?_
  rintro _ -
  refine Post_bind' (Post_rd (by omega) (by omega)) ?_
  rintro _ -
  refine Post_bind' (Post_rd (by omega) (by omega)) ?_
  rintro _ -
  refine Post_bind' (Post_rd (by omega) (by omega)) ?_
  rintro _ -
  refine Post_bind' (Post_rd (by omega) (by omega)) ?_
  rintro _ -
  refine Post_bind' (Post_rd (by omega) (by omega)) ?_
  rintro _ -
  refine Post_bind' (Post_rd (by omega) (by omega)) ?_
  rintro _ -
  exact ⟨hn, hexp _⟩

theorem r8_post {E : Err → Prop} {s : ℤ} (h : inInt32 s) :
    Post (r8Uniform01 O s) E (fun p => p.1 = O.mul (O.ofInt p.2) O.uni ∧
      p.2 = 16807 * s % 2147483647 ∧ 0 ≤ p.2 ∧ p.2 ≤ 2147483646) := by
  unfold r8Uniform01
  rw [nextSeed_eq h]
  refine ⟨rfl, rfl, ?_, ?_⟩
  · exact Int.emod_nonneg _ (by norm_num)
  · have := Int.emod_lt_of_pos (16807 * s) (by norm_num : (0 : ℤ) < 2147483647)
    show 16807 * s % 2147483647 ≤ 2147483646
    omega

/-- The search for one entry returns a feasible value.  `T` (whatever implies enough fuel and the
float laws) excludes running out of fuel: two passes suffice. -/
theorem cellLoop_post (hR : RoundOK O) (hexp : ∀ x, G (O.exp x))
    (hG : ∀ x y, G x → G y → G (O.add x y))
    (hG' : ∀ x (j d : ℤ), G x → 0 ≤ j → 0 < d → G (O.div (O.mul x (O.ofInt j)) (O.ofInt d)))
    (hT : T → ∀ x (s : ℤ), G x → 0 ≤ s → s ≤ 2147483646 →
      O.le (O.mul x (O.mul (O.ofInt s) O.uni)) x = true)
    (hN31 : N ≤ 2147483647)
    (hc : CellPre N ia id ie) (hib : ib = ie - ia) (hic : ic = ie - id)
    (hii : ii = ie - ia - id) (fact : List F) (hf : (fact.length : ℤ) = N + 1)
    (fuel : ℕ) (hfuel : T → N + 2 ≤ fuel) (passes : ℕ) (hpass : T → 2 ≤ passes)
    (r : F) (seed : ℤ) (hseed : 0 ≤ seed ∧ seed ≤ 2147483646) (d2 : Option Bool) :
    Post (cellLoop O (r8Uniform01 O) fact fuel ia ib ic id ie ii passes r seed d2) (BadErr N T)
      (fun p => Feas ia id ie p.1 ∧ 0 ≤ p.2 ∧ p.2 ≤ 2147483646) := by
  -- one step, for arbitrary continuation
  have hFG := firstGuess_post (T := T) hR hexp hN31 hc hib hic hii fact hf
  have hIL : ∀ r n x d2, Feas ia id ie n → G x →
      Post (incLoop O fuel r ia id ii fuel
        { nlm := n, nll := n, x := x, y := x, sumprb := x, lsp := false, lsm := false,
          done1 := false, done2 := d2 }) (BadErr N T) (fun t =>
        SInv G ia id ie t ∧ (t.done1 = true ∨ t.done1 = false ∧ t.done2 ≠ none)) := by
    intro r n x d2 hn hx
    refine incLoop_post (T := T) hG hG' hc hii fuel hfuel r fuel _ ⟨hn, hn, hx, hx, hx⟩ rfl
      (by simp) ?_
    intro h
    have := hfuel h
    have h1 := hc.ie_le
    have h2 := hn.1
    simp only [Bool.false_eq_true, if_false]
    omega
  -- when the fuel argument is irrelevant, plain induction
  have key : ∀ (p : ℕ) (r : F) (seed : ℤ) (d2 : Option Bool), (0 ≤ seed ∧ seed ≤ 2147483646) →
      (T → (2 ≤ p ∨ 1 ≤ p ∧ ∃ n x s r0 d0, firstGuess O fact ia ib ic id ie ii = .ok (n, x) ∧
        incLoop O fuel r0 ia id ii fuel
        { nlm := n, nll := n, x := x, y := x, sumprb := x, lsp := false, lsm := false,
          done1 := false, done2 := d0 } = .ok s ∧ s.done1 = false ∧ s.done2 = some false ∧
          O.le r s.sumprb = true)) →
      Post (cellLoop O (r8Uniform01 O) fact fuel ia ib ic id ie ii p r seed d2) (BadErr N T)
        (fun q => Feas ia id ie q.1 ∧ 0 ≤ q.2 ∧ q.2 ≤ 2147483646) := by
    intro p
    induction p with
    | zero =>
      intro r seed d2 _ h
      simp only [cellLoop, Post_error, BadErr]
      intro hT'
      rcases h hT' with h | h <;> omega
    | succ p ih =>
      intro r seed d2 hseed h
      unfold cellLoop
      cases hfg : firstGuess O fact ia ib ic id ie ii with
      | error e => rw [hfg] at hFG; exact hFG
      | ok v =>
        obtain ⟨n, x⟩ := v
        rw [hfg] at hFG
        obtain ⟨hn, hx⟩ := hFG
        dsimp only at hn hx
        simp only [bind, Except.bind]
        by_cases hle : O.le r x = true
        · rw [if_pos hle]; exact ⟨hn, hseed⟩
        · rw [if_neg hle]
          have hil := hIL r n x d2 hn hx
          cases hinc : incLoop O fuel r ia id ii fuel
              { nlm := n, nll := n, x := x, y := x, sumprb := x, lsp := false, lsm := false,
                done1 := false, done2 := d2 } with
          | error e => rw [hinc] at hil; exact hil
          | ok s =>
            rw [hinc] at hil
            obtain ⟨hs, hsd⟩ := hil
            dsimp only
            by_cases hd1 : s.done1 = true
            · rw [if_pos hd1]; exact ⟨hs.nlm, hseed⟩
            · rw [if_neg hd1]
              have hd1' : s.done1 = false := by simpa using hd1
              cases hd2 : s.done2 with
              | none => rcases hsd with h | h
                        · exact absurd h hd1
                        · exact absurd hd2 h.2
              | some b =>
                cases b with
                | true => exact ⟨hs.nlm, hseed⟩
                | false =>
                  dsimp only
                  have hr8 := r8_post (O := O) (E := BadErr N T) (s := seed)
                    ⟨by omega, by omega⟩
                  cases h8 : r8Uniform01 O seed with
                  | error e => rw [h8] at hr8; exact hr8
                  | ok w =>
                    obtain ⟨u, seed'⟩ := w
                    rw [h8] at hr8
                    obtain ⟨hu, _, hs0, hs1⟩ := hr8
                    dsimp only at hu hs0 hs1 ⊢
                    refine ih _ _ _ ⟨hs0, hs1⟩ ?_
                    intro hT'
                    rcases h hT' with h2 | ⟨h1, n', x', s', r0, d0, e1, e2, e3, e4, e5⟩
                    · right
                      refine ⟨by omega, n, x, s, r, d2, hfg, hinc, hd1', hd2, ?_⟩
                      rw [hu]
                      exact hT hT' _ _ hs.gs hs0 hs1
                    · -- the second pass cannot fail
                      exfalso
                      rw [hfg] at e1
                      obtain ⟨rfl, rfl⟩ : n = n' ∧ x = x' := by simpa using e1
                      rcases incLoop_two fuel r0 r ia id ii fuel _ s' d2 e2 rfl e3 e4 (by simp)
                        with ⟨t', f1, f2⟩ | ⟨f1, f2⟩
                      · rw [hinc] at f1
                        obtain rfl : s = t' := by simpa using f1
                        rcases f2 with f2 | f2
                        · exact hd1 f2
                        · rw [hd2] at f2; simp at f2
                      · rcases f2 with f2 | f2
                        · rw [f2] at e5; exact hle e5
                        · rw [f2] at e5; simp at e5
  exact key passes r seed d2 hseed (fun h => Or.inl (hpass h))

end

end Phik
