import Verif.Model.PhikMatrix

/-! # Property C25: parallel evaluation equals serial evaluation -/

namespace Phik.Props

variable {α : Type}

theorem mapM_ok_iff (tasks : List (Except Err α)) (l : List α) :
    tasks.mapM id = .ok l ↔ tasks = l.map .ok := by
  induction tasks generalizing l with
  | nil => cases l <;> simp [pure, Except.pure]
  | cons t ts ih =>
    rw [List.mapM_cons]
    cases t with
    | error e => cases l <;> simp [bind, Except.bind]
    | ok a =>
      simp only [id, bind, Except.bind]
      cases h : ts.mapM id with
      | error e =>
        simp only [reduceCtorEq, false_iff]
        intro hl
        cases l with
        | nil => simp at hl
        | cons b l =>
          simp only [List.map_cons, List.cons.injEq] at hl
          rw [(ih l).2 hl.2] at h
          cases h
      | ok l' =>
        simp only [pure, Except.pure, Except.ok.injEq]
        cases l with
        | nil => simp
        | cons b l =>
          simp only [List.map_cons, List.cons.injEq, Except.ok.injEq]
          rw [← ih l, h, Except.ok.injEq]

theorem mapM_error {tasks : List (Except Err α)} {e : Err} (h : tasks.mapM id = .error e) :
    .error e ∈ tasks := by
  induction tasks with
  | nil => cases h
  | cons t ts ih =>
    rw [List.mapM_cons] at h
    cases t with
    | error e' => simp only [id, bind, Except.bind, Except.error.injEq] at h; subst h; simp
    | ok a =>
      simp only [id, bind, Except.bind] at h
      cases h2 : ts.mapM id with
      | error e' => rw [h2] at h; cases h; exact List.mem_cons_of_mem _ (ih h2)
      | ok l => rw [h2] at h; cases h

theorem runOrder_ok (l : List α) (order : List ℕ) (slots : List (Option α))
    (ho : ∀ k ∈ order, k < l.length) (hs : slots.length = l.length) :
    ∃ s, runOrder (l.map .ok) order slots = .ok s ∧ s.length = l.length ∧
      ∀ k, s[k]? = if k ∈ order then some l[k]? else slots[k]? := by
  induction order generalizing slots with
  | nil => exact ⟨slots, rfl, hs, by simp⟩
  | cons k rest ih =>
    have hk := ho k List.mem_cons_self
    rw [runOrder, List.getElem?_map, List.getElem?_eq_getElem hk]
    simp only [Option.map_some]
    obtain ⟨s, h1, h2, h3⟩ := ih (slots.set k (some l[k])) (fun j hj => ho j (List.mem_cons_of_mem _ hj))
      (by simpa using hs)
    refine ⟨s, h1, h2, fun j => ?_⟩
    rw [h3 j]
    by_cases hj : j ∈ rest
    · simp [hj]
    · by_cases hjk : j = k
      · subst hjk
        simp [hj, hs, hk]
      · simp [hj, hjk, List.getElem?_set, Ne.symm hjk]

theorem runOrder_error (tasks : List (Except Err α)) (order : List ℕ) (slots : List (Option α))
    (ho : ∀ k ∈ order, k < tasks.length) {e : Err} (h : runOrder tasks order slots = .error e) :
    .error e ∈ tasks := by
  induction order generalizing slots with
  | nil => cases h
  | cons k rest ih =>
    have hk := ho k List.mem_cons_self
    rw [runOrder, List.getElem?_eq_getElem hk] at h
    cases ht : tasks[k] with
    | ok a => simp only [ht] at h; exact ih _ (fun j hj => ho j (List.mem_cons_of_mem _ hj)) h
    | error e' => simp only [ht, Except.error.injEq] at h; subst h; rw [← ht]; exact List.getElem_mem hk

theorem runOrder_ok_all (tasks : List (Except Err α)) (order : List ℕ) (slots : List (Option α))
    {s : List (Option α)} (h : runOrder tasks order slots = .ok s) :
    ∀ k ∈ order, ∃ a, tasks[k]? = some (.ok a) := by
  induction order generalizing slots with
  | nil => simp
  | cons k rest ih =>
    rw [runOrder] at h
    cases ht : tasks[k]? with
    | none => simp [ht] at h
    | some t =>
      cases t with
      | error e => simp [ht] at h
      | ok a =>
        simp only [ht] at h
        intro j hj
        rcases List.mem_cons.1 hj with rfl | hj
        · exact ⟨a, ht⟩
        · exact ih _ h j hj

theorem collect_some (l : List α) : collect (l.map some) = .ok l := by
  induction l with
  | nil => rfl
  | cons a l ih => simp [collect, ih, Except.map]

theorem all_ok {tasks : List (Except Err α)} (h : ∀ k < tasks.length, ∃ a, tasks[k]? = some (.ok a)) :
    ∃ l : List α, tasks = l.map .ok := by
  induction tasks with
  | nil => exact ⟨[], rfl⟩
  | cons t ts ih =>
    obtain ⟨a, ha⟩ := h 0 (by simp)
    obtain ⟨l, hl⟩ := ih (fun k hk => by
      have := h (k + 1) (by simpa using hk)
      simpa using this)
    simp only [List.getElem?_cons_zero, Option.some.injEq] at ha
    exact ⟨a :: l, by simp [ha, hl]⟩

/-- **C25.** For every order in which the workers finish (every task exactly once), the parallel run
returns exactly the list the serial loop returns, in the same order; and if some task raises, both
raise, and what is raised is an exception of one of the tasks. -/
theorem parallel_eq_serial (tasks : List (Except Err α)) {order : List ℕ}
    (ho : order.Perm (List.range tasks.length)) :
    (∀ l, runTasks (some order) tasks = .ok l ↔ runTasks none tasks = .ok l) ∧
    ((∃ e, .error e ∈ tasks) → ∃ e, runTasks (some order) tasks = .error e) ∧
    (∀ e sched, (sched = none ∨ sched = some order) → runTasks sched tasks = .error e → .error e ∈ tasks) := by
  have hmem : ∀ k, k ∈ order ↔ k < tasks.length := fun k => by rw [ho.mem_iff, List.mem_range]
  have hpar : ∀ l, runTasks (some order) tasks = .ok l ↔ tasks = l.map .ok := by
    intro l
    constructor
    · intro h
      simp only [runTasks, bind, Except.bind] at h
      cases h1 : runOrder tasks order (tasks.map fun _ => none) with
      | error e => rw [h1] at h; cases h
      | ok s =>
        rw [h1] at h
        obtain ⟨l', hl'⟩ := all_ok (fun k hk => runOrder_ok_all _ _ _ h1 k ((hmem k).2 hk))
        obtain ⟨s', e1, e2, e3⟩ := runOrder_ok l' order (tasks.map fun _ => none)
          (fun k hk => by have := (hmem k).1 hk; rw [hl'] at this; simpa using this) (by rw [hl']; simp)
        rw [← hl', h1] at e1
        cases e1
        have : s = l'.map some := by
          apply List.ext_getElem?
          intro k
          rw [e3 k]
          by_cases hk : k < tasks.length
          · rw [if_pos ((hmem k).2 hk)]
            have : k < l'.length := by rw [hl'] at hk; simpa using hk
            simp [this]
          · rw [if_neg (fun h => hk ((hmem k).1 h))]
            have : ¬ k < l'.length := by rw [hl'] at hk; simpa using hk
            rw [List.getElem?_eq_none (by simpa using hk), List.getElem?_eq_none (by simpa using this)]
        simp only [this, collect_some, Except.ok.injEq] at h
        subst h
        exact hl'
    · intro hl
      obtain ⟨s, e1, e2, e3⟩ := runOrder_ok l order (tasks.map fun _ => none)
        (fun k hk => by have := (hmem k).1 hk; rw [hl] at this; simpa using this) (by rw [hl]; simp)
      simp only [runTasks, bind, Except.bind]
      have e1' : runOrder tasks order (tasks.map fun _ => none) = .ok s := by
        conv_lhs => arg 1; rw [hl]
        exact e1
      rw [e1']
      have : s = l.map some := by
        apply List.ext_getElem?
        intro k
        rw [e3 k]
        by_cases hk : k < tasks.length
        · rw [if_pos ((hmem k).2 hk)]
          have : k < l.length := by rw [hl] at hk; simpa using hk
          simp [this]
        · rw [if_neg (fun h => hk ((hmem k).1 h))]
          have : ¬ k < l.length := by rw [hl] at hk; simpa using hk
          rw [List.getElem?_eq_none (by simpa using hk), List.getElem?_eq_none (by simpa using this)]
      simp only [this, collect_some]
  have hlen : ∀ e, runTasks (some order) tasks = .error e → .error e ∈ tasks := by
    intro e h
    simp only [runTasks, bind, Except.bind] at h
    cases h1 : runOrder tasks order (tasks.map fun _ => none) with
    | error e' =>
      rw [h1] at h; cases h
      exact runOrder_error tasks order _ (fun k hk => (hmem k).1 hk) h1
    | ok s =>
      obtain ⟨l', hl'⟩ := all_ok (fun k hk => runOrder_ok_all _ _ _ h1 k ((hmem k).2 hk))
      have := (hpar l').2 hl'
      simp only [runTasks, bind, Except.bind] at this
      rw [h] at this
      cases this
  refine ⟨fun l => by rw [hpar l]; exact (mapM_ok_iff tasks l).symm, ?_, ?_⟩
  · rintro ⟨e, he⟩
    cases h : runTasks (some order) tasks with
    | error e' => exact ⟨e', rfl⟩
    | ok l =>
      rw [hpar l] at h
      rw [h] at he
      simp at he
  · rintro e sched (rfl | rfl) h
    · exact mapM_error h
    · exact hlen e h

/-- Three tasks finishing in the order 2, 0, 1. -/
example : runTasks (some [2, 0, 1]) [.ok 10, .ok 11, .ok 12] = (.ok [10, 11, 12] : Except Err (List ℕ)) := rfl

end Phik.Props
