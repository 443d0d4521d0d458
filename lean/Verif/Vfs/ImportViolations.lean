import Verif.Vfs.ImportProps
import Verif.Vfs.OverlayViolations

/-!
# C18, C17: examples, and imports whose change is not told
-/

namespace Verif.Vfs

/-! ## Disks -/

def modDisk : Disk := [(["use.py"], .file "import foo"), (["foo.py"], .file "x = 1")]
def stubDisk : Disk := [(["use.py"], .file "import foo"), (["foo.py"], .file "x = 1"), (["foo.pyi"], .file "x: str")]
def bothDisk : Disk := [(["use.py"], .file "import foo"), (["foo.py"], .file "x = 1"), (["foo"], .dir), (["foo", "__init__.py"], .file "x = 2")]
def plainDisk : Disk := [(["use.py"], .file "import foo"), (["foo"], .file "text")]
def pkgDisk : Disk := [(["use.py"], .file "import foo"), (["foo"], .dir), (["foo", "__init__.py"], .file "x = 2")]
def typedDisk : Disk := [(["use.py"], .file "import foo"), (["foo"], .dir), (["foo", "__init__.py"], .file "x = 2"), (["foo", "py.typed"], .file "")]
def noDisk : Disk := [(["use.py"], .file "import foo")]

/-- A disk with paths of length at most two, whose directories are listed: a check. -/
def smallOk (d : Disk) : Bool :=
  d.all fun x => match x.1 with
    | [_] => true
    | [a, _] => diskGet d [a] == some .dir
    | _ => false

theorem smallOk_ok {d : Disk} (h : smallOk d = true) : DiskOk d := by
  refine diskOk_small ?_
  intro x hx
  have := List.all_eq_true.mp h x hx
  split at this
  · rename_i a ha; exact .inl ⟨a, ha⟩
  · rename_i a b hab; exact .inr ⟨a, b, hab, by simpa using this⟩
  · cases this

/-- Two disks differ only at and below a path: a check. -/
def differsAt (d d' : Disk) (p : Path) : Bool :=
  (d.all fun x => p.isPrefixOf x.1 || diskGet d' x.1 == diskGet d x.1) && (d'.all fun x => p.isPrefixOf x.1 || diskGet d' x.1 == diskGet d x.1)

theorem get_mem {d : Disk} {p : Path} {n : DiskNode} (h : diskGet d p = some n) : ∃ x ∈ d, x.1 = p := by
  rw [diskGet] at h
  obtain ⟨x, hx, _⟩ := Option.map_eq_some_iff.mp h
  exact ⟨x, List.mem_of_find?_eq_some hx, by simpa using List.find?_some hx⟩

theorem differsAt_changed {d d' : Disk} {p : Path} (h : differsAt d d' p = true) (hk : diskGet d p ≠ some .dir ∨ diskGet d' p ≠ some .dir) : ChangedAt d d' p := by
  rw [differsAt, Bool.and_eq_true] at h
  refine ⟨?_, ?_⟩
  · intro q hq
    have hpre : p.isPrefixOf q = false := by
      cases hc : p.isPrefixOf q with
      | false => rfl
      | true => exact absurd (List.isPrefixOf_iff_prefix.mp hc) hq
    cases h1 : diskGet d q with
    | some n =>
      obtain ⟨x, hx, rfl⟩ := get_mem h1
      have := List.all_eq_true.mp h.1 x hx
      rw [hpre, Bool.false_or] at this
      rw [← h1]; simpa using this
    | none =>
      cases h2 : diskGet d' q with
      | none => rfl
      | some n =>
        obtain ⟨x, hx, rfl⟩ := get_mem h2
        have := List.all_eq_true.mp h.2 x hx
        rw [hpre, Bool.false_or] at this
        rw [← h1, ← h2]; simpa using this
  · intro a b
    rcases hk with hk | hk
    · exact absurd a hk
    · exact absurd b hk

/-! ## The histories -/

/-- The importing file is read, and then imports `foo` in the workspace. After that the disk changes
to `d2`. The import resolves to something else than before, and the importing file is not
invalidated. -/
def Untold (d1 d2 : Disk) (p : Path) (needs follow : Bool) : Prop :=
  ∃ s r s1 s2 r2,
    DiskOk d1 ∧
    Orderly d1 (([Deed.event (.need ["use.py"])] ++ [Deed.event (.disk p d2)]).filterMap Deed.happening) ∧
    AlwaysHoused (fun _ => none) d1 (([Deed.event (.need ["use.py"])] ++ [Deed.event (.disk p d2)]).filterMap Deed.happening) ∧
    perform (fun _ => none) d1 [.event (.need ["use.py"])] (Vfs.start d1) = .ok s ∧ 0 < s.files.length ∧ UsesText s 0 ["use.py"] "import foo" ∧
    pythonImport d1 0 follow true "foo" [([], needs)] s = (r, s1) ∧
    perform (fun _ => none) d1 [.event (.disk p d2)] s1 = .ok s2 ∧
    Resolves (fun _ => none) d2 true "foo" [[]] r2 ∧
    r2 ≠ r.map Resolution.places ∧ ¬ MarkedIn s1 s2 0

theorem untold {d1 d2 : Disk} {p : Path} {needs follow : Bool} (s : Vfs) (r : Option Resolution) (s1 s2 : Vfs) (r2 : Option (Path ⊕ List Path))
    (h1 : smallOk d1 = true) (h2 : smallOk d2 = true) (hp : p ≠ []) (hc : differsAt d1 d2 p = true) (hk : diskGet d1 p ≠ some .dir ∨ diskGet d2 p ≠ some .dir)
    (hl1 : Listed d1) (hl2 : Listed d2)
    (ha : perform (fun _ => none) d1 [.event (.need ["use.py"])] (Vfs.start d1) = .ok s) (hu : UsesText s 0 ["use.py"] "import foo")
    (hb : pythonImport d1 0 follow true "foo" [([], needs)] s = (r, s1))
    (hd : perform (fun _ => none) d1 [.event (.disk p d2)] s1 = .ok s2)
    (hr : Resolves (fun _ => none) d2 true "foo" [[]] r2) (hne : r2 ≠ r.map Resolution.places) (hm : s2.marks = s1.marks) : Untold d1 d2 p needs follow := by
  refine ⟨s, r, s1, s2, r2, smallOk_ok h1, ⟨hp, smallOk_ok h2, differsAt_changed hc hk, trivial⟩, ⟨housed_nil _, hl1, housed_nil _, hl1, housed_nil _, hl2⟩, ha, ?_, hu, hb, hd, hr, hne, not_marked hm⟩
  obtain ⟨f, hf, _⟩ := hu
  exact (List.getElem?_eq_some_iff.mp hf).1

theorem firstFile_of {docs : Docs} {d : Disk} (a : List Path) (f : Path) (b : List Path) (t : String) (ha : ∀ x ∈ a, docs x = none ∧ ∀ t, diskGet d x ≠ some (.file t))
    (hf : diskGet d f = some (.file t)) : FirstFile docs d (a ++ f :: b) f := by
  refine ⟨a, b, rfl, .inr ⟨t, hf⟩, ?_⟩
  rintro x hx (⟨t, ht⟩ | ⟨t, ht⟩)
  · rw [(ha x hx).1] at ht; cases ht
  · exact (ha x hx).2 t ht

theorem candidates_foo : ([[]] : List Path).flatMap (candidates true "foo") =
    [["foo", "__init__.pyi"], ["foo", "__init__.py"], ["foo.pyi"], ["foo.py"]] := rfl

/-- **C17 fails.** A module `foo.py` was found. A stub `foo.pyi` or a package `foo` that appears later
is more important, but the importer is not told. -/
theorem shadowed_module_violation : Untold modDisk stubDisk ["foo.pyi"] false true ∧ Untold modDisk bothDisk ["foo"] false true := by
  constructor
  · refine untold _ _ _ _ (some (.inl ["foo.pyi"])) (by decide +kernel) (by decide +kernel) (by simp) (by decide +kernel) (.inl (by decide +kernel)) (by unfold Listed; decide +kernel)
      (by unfold Listed; decide +kernel) rfl ⟨_, rfl, rfl, rfl⟩ rfl rfl ?_ (by decide +kernel) (by decide +kernel)
    refine .file _ ?_
    rw [candidates_foo]
    refine firstFile_of [["foo", "__init__.pyi"], ["foo", "__init__.py"]] _ _ "x: str" ?_ (by decide +kernel)
    intro x hx
    simp only [List.mem_cons, List.not_mem_nil, or_false] at hx
    rcases hx with rfl | rfl <;> exact ⟨rfl, fun t h => by cases h⟩
  · refine untold _ _ _ _ (some (.inl ["foo", "__init__.py"])) (by decide +kernel) (by decide +kernel) (by simp) (by decide +kernel) (.inl (by decide +kernel)) (by unfold Listed; decide +kernel)
      (by unfold Listed; decide +kernel) rfl ⟨_, rfl, rfl, rfl⟩ rfl rfl ?_ (by decide +kernel) (by decide +kernel)
    refine .file _ ?_
    rw [candidates_foo]
    refine firstFile_of [["foo", "__init__.pyi"]] _ _ "x = 2" ?_ (by decide +kernel)
    intro x hx
    simp only [List.mem_cons, List.not_mem_nil, or_false] at hx
    subst hx
    exact ⟨rfl, fun t h => by cases h⟩

/-- **C17 fails.** A module was found without `py.typed` in a directory that needs it. It is removed
later, but the importer is not told. -/
theorem untyped_module_violation : Untold modDisk noDisk ["foo.py"] true false := by
  refine untold _ _ _ _ none (by decide +kernel) (by decide +kernel) (by simp) (by decide +kernel) (.inl (by decide +kernel)) (by unfold Listed; decide +kernel)
    (by unfold Listed; decide +kernel) rfl ⟨_, rfl, rfl, rfl⟩ rfl rfl ?_ (by decide +kernel) (by decide +kernel)
  refine .nothing ?_ ?_
  · rw [candidates_foo]
    intro x hx
    simp only [List.mem_cons, List.not_mem_nil, or_false] at hx
    rcases hx with rfl | rfl | rfl | rfl <;> rintro (⟨t, ht⟩ | ⟨t, ht⟩) <;> cases ht
  · intro p hp
    simp only [List.mem_cons, List.not_mem_nil, or_false] at hp
    subst hp
    intro h
    cases h

/-- **C17 fails.** A file is named like the package. It is replaced by a package later, but the importer
is not told. -/
theorem replaced_file_violation : Untold plainDisk pkgDisk ["foo"] false true := by
  refine untold _ _ _ _ (some (.inl ["foo", "__init__.py"])) (by decide +kernel) (by decide +kernel) (by simp) (by decide +kernel) (.inl (by decide +kernel)) (by unfold Listed; decide +kernel)
    (by unfold Listed; decide +kernel) rfl ⟨_, rfl, rfl, rfl⟩ rfl rfl ?_ (by decide +kernel) (by decide +kernel)
  refine .file _ ?_
  rw [candidates_foo]
  refine firstFile_of [["foo", "__init__.pyi"]] _ _ "x = 2" ?_ (by decide +kernel)
  intro x hx
  simp only [List.mem_cons, List.not_mem_nil, or_false] at hx
  subst hx
  exact ⟨rfl, fun t h => by cases h⟩

/-- **C17 fails.** A package was found without `py.typed`, in a directory that needs it, and is not
used. The `py.typed` is added later; an import would use the package now, but the importer is not
told. -/
theorem typed_marker_violation : ∃ s s1 s2 s3,
    perform (fun _ => none) pkgDisk [.event (.need ["use.py"])] (Vfs.start pkgDisk) = .ok s ∧
    pythonImport pkgDisk 0 false true "foo" [([], true)] s = (some (.untyped ["foo", "__init__.py"]), s1) ∧
    ChangedAt pkgDisk typedDisk ["foo", "py.typed"] ∧
    perform (fun _ => none) pkgDisk [.event (.disk ["foo", "py.typed"] typedDisk)] s1 = .ok s2 ∧
    ¬ MarkedIn s1 s2 0 ∧
    pythonImport typedDisk 0 false true "foo" [([], true)] s2 = (some (.file ["foo", "__init__.py"]), s3) :=
  ⟨_, _, _, _, rfl, rfl, differsAt_changed (by decide +kernel) (.inl (by decide +kernel)), rfl, not_marked (by decide +kernel), rfl⟩

/-! ## The hypotheses are met -/

/-- Nothing is found, and the importer is told when the package appears. -/
example : ∃ s s1 s2, DiskOk noDisk ∧
    Orderly noDisk (([Deed.event (.need ["use.py"])] ++ [Deed.event (.disk ["foo"] pkgDisk)]).filterMap Deed.happening) ∧
    AlwaysHoused (fun _ => none) noDisk (([Deed.event (.need ["use.py"])] ++ [Deed.event (.disk ["foo"] pkgDisk)]).filterMap Deed.happening) ∧
    perform (fun _ => none) noDisk [.event (.need ["use.py"])] (Vfs.start noDisk) = .ok s ∧ 0 < s.files.length ∧ inTree s [] = true ∧
    PlainDir (fun _ => none) noDisk true "foo" [] ∧
    pythonImport noDisk 0 true true "foo" [([], false)] s = (none, s1) ∧
    perform (fun _ => none) noDisk [.event (.disk ["foo"] pkgDisk)] s1 = .ok s2 ∧ MarkedIn s1 s2 0 := by
  have hl1 : Listed noDisk := by unfold Listed; decide +kernel
  have hl2 : Listed pkgDisk := by unfold Listed; decide +kernel
  refine ⟨_, _, _, smallOk_ok (by decide +kernel), ⟨by simp, smallOk_ok (by decide +kernel), differsAt_changed (by decide +kernel) (.inl (by decide +kernel)), trivial⟩,
    ⟨housed_nil _, hl1, housed_nil _, hl1, housed_nil _, hl2⟩, rfl, by decide +kernel, by decide +kernel, ?_, rfl, rfl, [(0, none)], none, by decide +kernel, by decide +kernel⟩
  refine ⟨?_, ?_⟩
  · intro x hx
    have hx' : x ∈ [["foo", "__init__.pyi"], ["foo", "__init__.py"], ["foo.pyi"], ["foo.py"]] := hx
    simp only [List.mem_cons, List.not_mem_nil, or_false] at hx'
    rcases hx' with rfl | rfl | rfl | rfl <;> intro h <;> cases h
  · rintro (⟨t, ht⟩ | ⟨t, ht⟩) <;> cases ht

/-- A search in two directories: the first one has a namespace, the second one a stub and a module. -/
example : ∃ s s1 s2,
    perform (fun _ => none) [(["src"], .dir), (["src", "foo"], .dir), (["use.py"], .file ""), (["foo.py"], .file ""), (["foo.pyi"], .file "")]
      [.event (.need ["use.py"]), .import 0 true true "src" [([], false)]]
      (Vfs.start [(["src"], .dir), (["src", "foo"], .dir), (["use.py"], .file ""), (["foo.py"], .file ""), (["foo.pyi"], .file "")]) = .ok s ∧
    0 < s.files.length ∧ inTree s ["src"] = true ∧ inTree s [] = true ∧
    pythonImport [(["src"], .dir), (["src", "foo"], .dir), (["use.py"], .file ""), (["foo.py"], .file ""), (["foo.pyi"], .file "")] 0 true true "foo" [(["src"], false), ([], false)] s
      = (some (.file ["foo.pyi"]), s1) ∧
    pythonImport [(["src"], .dir), (["src", "foo"], .dir), (["use.py"], .file ""), (["foo.py"], .file ""), (["foo.pyi"], .file "")] 0 true true "foo" [(["src"], false)] s
      = (some (.namespace [["src", "foo"]]), s2) :=
  ⟨_, _, _, rfl, by decide +kernel, by decide +kernel, by decide +kernel, rfl, rfl⟩

end Verif.Vfs
