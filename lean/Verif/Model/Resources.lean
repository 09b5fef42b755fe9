import Mathlib.Data.List.Basic

/-!
# phik/resources.py: the files that come with the package

The dictionaries of the files are made once, when the module is imported; the existence of a file is checked when it is asked for.
-/

namespace Phik

/-- The files on the disk: directory and name.  Links, permissions and races inside of one call are left out. (phik/resources.py:22-24) -/
abbrev Disk := List (String × String)

/-- What can happen to the disk between the import and a call. (phik/resources.py:43) -/
inductive DiskOp
  | create (dir name : String)
  | remove (dir name : String)

/-- One change of the disk. (phik/resources.py:43) -/
def DiskOp.run (disk : Disk) : DiskOp → Disk
  | .create d n => if (d, n) ∈ disk then disk else disk ++ [(d, n)]
  | .remove d n => disk.filter fun p => p ≠ (d, n)

/-- Changes one after the other. (phik/resources.py:43) -/
def Disk.after (disk : Disk) (ops : List DiskOp) : Disk := ops.foldl DiskOp.run disk

/-- `FileNotFoundError`, and the `KeyError` of `_RESOURCES[resource_type]`. (phik/resources.py:41-46) -/
inductive ResErr
  | fileNotFound | key
  deriving DecidableEq

/-- A `pathlib.Path`: directory and name; `str` puts a slash between. (phik/resources.py:22-24, 44) -/
structure ResPath where
  dir : String
  name : String

/-- `str(path)`. (phik/resources.py:44) -/
def ResPath.str (p : ResPath) : String := p.dir ++ "/" ++ p.name

/-- `path.exists()`. (phik/resources.py:43) -/
def ResPath.existsOn (p : ResPath) (disk : Disk) : Bool := decide ((p.dir, p.name) ∈ disk)

/-- `{_.name: _ for _ in pathlib.Path(dir).glob('*' + ext)}`. (phik/resources.py:22-24) -/
def globDict (disk : Disk) (dir ext : String) : List (String × ResPath) :=
  (disk.filter fun p => decide (p.1 = dir) && decide (ext.toList <:+ p.2.toList)).map fun p => (p.2, ⟨p.1, p.2⟩)

/-- The module after the import: `_RESOURCES`. (phik/resources.py:22-30) -/
structure Resources where
  dicts : List (String × List (String × ResPath))

/-- The import of the module; `data` and `notebooks` are the two directories of the package. (phik/resources.py:22-30) -/
def importResources (data notebooks : String) (disk : Disk) : Resources :=
  ⟨[("fixture", globDict disk data ""), ("notebook", globDict disk notebooks ".ipynb")]⟩

/-- `_resource` (resources.py:33-46). -/
def Resources.resource (m : Resources) (disk : Disk) (type name : String) : Except ResErr String :=
  match m.dicts.lookup type with
  | none => .error .key
  | some d =>
    match d.lookup name with
    | some p => if p.existsOn disk then .ok p.str else .error .fileNotFound
    | none => .error .fileNotFound

/-- `fixture` (resources.py:49-57). -/
def Resources.fixture (m : Resources) (disk : Disk) (name : String) : Except ResErr String := m.resource disk "fixture" name

/-- `notebook` (resources.py:60-68). -/
def Resources.notebook (m : Resources) (disk : Disk) (name : String) : Except ResErr String := m.resource disk "notebook" name

end Phik
