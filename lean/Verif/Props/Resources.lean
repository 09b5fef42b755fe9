import Verif.Model.Resources

/-! # C90: the files that come with the package -/

namespace Phik

/-- Looking up a name in the dictionary of a directory. -/
theorem lookup_globDict (disk : Disk) (dir ext name : String) :
    (globDict disk dir ext).lookup name = if (dir, name) ∈ disk ∧ ext.toList <:+ name.toList then some ⟨dir, name⟩ else none := by
  unfold globDict
  induction disk with
  | nil => simp
  | cons p rest ih =>
    obtain ⟨d, n⟩ := p
    rw [List.filter_cons]
    by_cases hd : d = dir ∧ ext.toList <:+ n.toList
    · rw [if_pos (by simpa using hd), List.map_cons, List.lookup_cons]
      obtain ⟨rfl, hext⟩ := hd
      by_cases hn : name = n
      · subst hn
        simp [hext]
      · rw [show (name == n) = false by simpa using hn]
        rw [ih]
        simp [hn]
    · rw [if_neg (by simpa using hd), ih]
      congr 1
      simp only [List.mem_cons, Prod.mk.injEq, eq_iff_iff]
      constructor
      · rintro ⟨h1, h2⟩; exact ⟨.inr h1, h2⟩
      · rintro ⟨⟨rfl, rfl⟩ | h1, h2⟩
        · exact absurd ⟨rfl, h2⟩ hd
        · exact ⟨h1, h2⟩

/-- **C90.** Whatever happened to the disk since the import: `fixture(name)` returns the path of the file of this name in the data directory of the
package if the file was there at the import and is there now, and raises FileNotFoundError otherwise. -/
theorem fixture_spec (data notebooks name : String) (disk : Disk) (ops : List DiskOp) :
    let r := (importResources data notebooks disk).fixture (disk.after ops) name
    ((data, name) ∈ disk ∧ (data, name) ∈ disk.after ops → r = .ok (data ++ "/" ++ name)) ∧
    (¬ ((data, name) ∈ disk ∧ (data, name) ∈ disk.after ops) → r = .error .fileNotFound) := by
  have key : (importResources data notebooks disk).fixture (disk.after ops) name =
      if (data, name) ∈ disk ∧ (data, name) ∈ disk.after ops then .ok (data ++ "/" ++ name) else .error .fileNotFound := by
    change (match (globDict disk data "").lookup name with
      | some p => if p.existsOn (disk.after ops) then Except.ok p.str else Except.error ResErr.fileNotFound
      | none => Except.error ResErr.fileNotFound) = _
    rw [lookup_globDict]
    by_cases h1 : (data, name) ∈ disk
    · rw [if_pos ⟨h1, by simp⟩]
      simp [ResPath.existsOn, ResPath.str, h1]
    · rw [if_neg (fun h => h1 h.1), if_neg (fun h => h1 h.1)]
  exact ⟨fun h => by rw [key, if_pos h], fun h => by rw [key, if_neg h]⟩

/-- **C90.** `notebook(name)`: the same for the files of the notebook directory whose names end in `.ipynb`. -/
theorem notebook_spec (data notebooks name : String) (disk : Disk) (ops : List DiskOp) :
    let r := (importResources data notebooks disk).notebook (disk.after ops) name
    ((notebooks, name) ∈ disk ∧ (notebooks, name) ∈ disk.after ops ∧ (∃ stem, name = stem ++ ".ipynb") → r = .ok (notebooks ++ "/" ++ name)) ∧
    (¬ ((notebooks, name) ∈ disk ∧ (notebooks, name) ∈ disk.after ops ∧ (∃ stem, name = stem ++ ".ipynb")) → r = .error .fileNotFound) := by
  have hext : (".ipynb".toList <:+ name.toList) ↔ ∃ stem, name = stem ++ ".ipynb" := by
    constructor
    · rintro ⟨t, ht⟩
      exact ⟨String.ofList t, by rw [← String.toList_inj, ← ht]; simp⟩
    · rintro ⟨stem, rfl⟩
      exact ⟨stem.toList, by simp⟩
  classical
  have key : (importResources data notebooks disk).notebook (disk.after ops) name =
      if (notebooks, name) ∈ disk ∧ (notebooks, name) ∈ disk.after ops ∧ (∃ stem, name = stem ++ ".ipynb") then .ok (notebooks ++ "/" ++ name)
      else .error .fileNotFound := by
    change (match (globDict disk notebooks ".ipynb").lookup name with
      | some p => if p.existsOn (disk.after ops) then Except.ok p.str else Except.error ResErr.fileNotFound
      | none => Except.error ResErr.fileNotFound) = _
    rw [lookup_globDict]
    by_cases h1 : (notebooks, name) ∈ disk ∧ ".ipynb".toList <:+ name.toList
    · rw [if_pos h1]
      simp [ResPath.existsOn, ResPath.str, h1.1, hext.1 h1.2]
    · rw [if_neg h1, if_neg (fun h => h1 ⟨h.1, hext.2 h.2.2⟩)]
  exact ⟨fun h => by rw [key, if_pos h], fun h => by rw [key, if_neg h]⟩

/-- **C90.** The last thing that happened to the file decides whether it is there. -/
theorem mem_after (disk : Disk) (ops : List DiskOp) (d n : String) (op : DiskOp) :
    ((d, n) ∈ (disk.after (ops ++ [.create d n])) ∧ (d, n) ∉ (disk.after (ops ++ [.remove d n]))) ∧
    (op ≠ .create d n → op ≠ .remove d n → ((d, n) ∈ disk.after (ops ++ [op]) ↔ (d, n) ∈ disk.after ops)) := by
  unfold Disk.after
  simp only [List.foldl_append, List.foldl_cons, List.foldl_nil]
  generalize List.foldl DiskOp.run disk ops = x
  refine ⟨⟨?_, by simp [DiskOp.run]⟩, fun h1 h2 => ?_⟩
  · unfold DiskOp.run
    dsimp only
    split_ifs with h
    · exact h
    · simp
  · cases op with
    | create d' n' =>
      have : (d, n) ≠ (d', n') := fun h => h1 (by rw [Prod.mk.injEq] at h; rw [h.1, h.2])
      unfold DiskOp.run
      dsimp only
      split_ifs
      · rfl
      · simpa using fun e1 e2 => absurd (Prod.ext e1 e2) this
    | remove d' n' =>
      have : (d, n) ≠ (d', n') := fun h => h2 (by rw [Prod.mk.injEq] at h; rw [h.1, h.2])
      unfold DiskOp.run
      rw [List.mem_filter]
      simp only [decide_not, Bool.not_eq_eq_eq_not, Bool.not_true, decide_eq_false_iff_not, and_iff_left_iff_imp]
      exact fun _ => this

/-- **C90.** Consequences: a file that is added after the import is not found, a file that is removed is not found, and found again when it is put
back. -/
theorem fixture_history (data notebooks name : String) (disk : Disk) (ops : List DiskOp) :
    ((data, name) ∉ disk → (importResources data notebooks disk).fixture (disk.after (ops ++ [.create data name])) name = .error .fileNotFound) ∧
    (importResources data notebooks disk).fixture (disk.after (ops ++ [.remove data name])) name = .error .fileNotFound ∧
    ((data, name) ∈ disk → (importResources data notebooks disk).fixture (disk.after (ops ++ [.remove data name, .create data name])) name =
      .ok (data ++ "/" ++ name)) := by
  refine ⟨fun h => (fixture_spec data notebooks name disk _).2 (fun h' => h h'.1),
    (fixture_spec data notebooks name disk _).2 (fun h' => (mem_after disk ops data name (.create data name)).1.2 h'.2), fun h => ?_⟩
  refine (fixture_spec data notebooks name disk _).1 ⟨h, ?_⟩
  rw [show ops ++ [DiskOp.remove data name, .create data name] = (ops ++ [.remove data name]) ++ [.create data name] by simp]
  exact (mem_after disk (ops ++ [.remove data name]) data name (.create data name)).1.1

/-- **C90.** No name leads out of the directory: names of files do not contain a slash, so a name with a slash is never found. -/
theorem no_traversal (data notebooks name : String) (disk : Disk) (ops : List DiskOp) (hdisk : ∀ p ∈ disk, '/' ∉ p.2.toList)
    (hname : '/' ∈ name.toList) :
    (importResources data notebooks disk).fixture (disk.after ops) name = .error .fileNotFound ∧
    (importResources data notebooks disk).notebook (disk.after ops) name = .error .fileNotFound :=
  ⟨(fixture_spec data notebooks name disk ops).2 (fun h => hdisk _ h.1 hname),
    (notebook_spec data notebooks name disk ops).2 (fun h => hdisk _ h.1 hname)⟩

/-- The package as it is: one data set, two notebooks, and a file that is no notebook. -/
example :
    let disk : Disk := [("d", "fake_insurance_data.csv.gz"), ("n", "phik_tutorial_basic.ipynb"), ("n", "readme.txt")]
    (importResources "d" "n" disk).fixture disk "fake_insurance_data.csv.gz" = .ok "d/fake_insurance_data.csv.gz" ∧
    (importResources "d" "n" disk).fixture disk "phik_tutorial_basic.ipynb" = .error .fileNotFound ∧
    (importResources "d" "n" disk).notebook disk "phik_tutorial_basic.ipynb" = .ok "n/phik_tutorial_basic.ipynb" ∧
    (importResources "d" "n" disk).notebook disk "readme.txt" = .error .fileNotFound ∧
    (importResources "d" "n" disk).fixture disk "../n/readme.txt" = .error .fileNotFound := by
  refine ⟨(fixture_spec "d" "n" _ _ []).1 (by decide), (fixture_spec "d" "n" _ _ []).2 (by decide),
    (notebook_spec "d" "n" _ _ []).1 ⟨by decide, by decide, "phik_tutorial_basic", by decide⟩, (notebook_spec "d" "n" _ _ []).2 ?_,
    (fixture_spec "d" "n" _ _ []).2 (by decide)⟩
  rintro ⟨-, -, stem, h⟩
  have := congrArg (fun s : String => s.toList.reverse.head?) h
  simp at this

end Phik
