import Verif.Vfs.OverlayTotal

/-!
# C16, C15: examples, and histories in which the code does something else
-/

namespace Verif.Vfs

/-- The disk of the examples. -/
def disk1 : Disk := [(["lib"], .dir), (["lib", "m.py"], .file "old"), (["lib", "b.pyi"], .file "B"), (["use.py"], .file "import lib.m")]

/-- The directory was removed. -/
def disk2 : Disk := [(["use.py"], .file "import lib.m")]

/-- The directory was replaced by a file. -/
def disk3 : Disk := [(["lib"], .file "text"), (["use.py"], .file "import lib.m")]

/-- The directory came back with another file. -/
def disk4 : Disk := [(["lib"], .dir), (["lib", "m.py"], .file "old"), (["lib", "n.py"], .file "N"), (["use.py"], .file "import lib.m")]

theorem get_cons (x : Path × DiskNode) (d : Disk) (p : Path) : diskGet (x :: d) p = if x.1 = p then some x.2 else diskGet d p := by
  rw [diskGet, List.find?_cons]
  by_cases h : x.1 = p
  · have : (x.1 == p) = true := by simpa using h
    rw [this, if_pos h]; rfl
  · have : (x.1 == p) = false := by simpa using h
    rw [this, if_neg h]; rfl

theorem prefix_two {q : Path} {a b : String} (h1 : q ≠ []) (h2 : q <+: [a, b]) (h3 : q ≠ [a, b]) : q = [a] := by
  obtain ⟨t, ht⟩ := h2
  match q, ht with
  | [], _ => exact absurd rfl h1
  | [x], ht => cases ht; rfl
  | [x, y], ht => cases ht; exact absurd rfl h3
  | x :: y :: z :: w, ht => simp at ht

theorem prefix_one {q : Path} {a : String} (h1 : q ≠ []) (h2 : q <+: [a]) (h3 : q ≠ [a]) : False := by
  obtain ⟨t, ht⟩ := h2
  match q, ht with
  | [], _ => exact absurd rfl h1
  | [x], ht => cases ht; exact absurd rfl h3
  | x :: y :: w, ht => simp at ht

/-- A disk with paths of length at most two, whose directories are listed. -/
theorem diskOk_small {d : Disk} (h : ∀ x ∈ d, (∃ a, x.1 = [a]) ∨ ∃ a b, x.1 = [a, b] ∧ diskGet d [a] = some .dir) : DiskOk d := by
  intro p n hp q h1 h2 h3
  have hm : (p, n) ∈ d := by
    rw [diskGet] at hp
    obtain ⟨x, hx, rfl⟩ := Option.map_eq_some_iff.mp hp
    have : x.1 = p := by simpa using List.find?_some hx
    rw [← this]; exact List.mem_of_find?_eq_some hx
  rcases h _ hm with ⟨a, ha⟩ | ⟨a, b, hab, hd⟩
  · have : p = [a] := ha
    subst this
    exact (prefix_one h1 h2 h3).elim
  · have : p = [a, b] := hab
    subst this
    rw [prefix_two h1 h2 h3]; exact hd

theorem disk1_ok : DiskOk disk1 := diskOk_small (by
  intro x hx
  simp only [disk1, List.mem_cons, List.not_mem_nil, or_false] at hx
  rcases hx with rfl | rfl | rfl | rfl
  · exact .inl ⟨_, rfl⟩
  · exact .inr ⟨_, _, rfl, rfl⟩
  · exact .inr ⟨_, _, rfl, rfl⟩
  · exact .inl ⟨_, rfl⟩)

theorem disk2_ok : DiskOk disk2 := diskOk_small (by
  intro x hx
  simp only [disk2, List.mem_cons, List.not_mem_nil, or_false] at hx
  subst hx
  exact .inl ⟨_, rfl⟩)

theorem disk3_ok : DiskOk disk3 := diskOk_small (by
  intro x hx
  simp only [disk3, List.mem_cons, List.not_mem_nil, or_false] at hx
  rcases hx with rfl | rfl
  · exact .inl ⟨_, rfl⟩
  · exact .inl ⟨_, rfl⟩)

theorem disk4_ok : DiskOk disk4 := diskOk_small (by
  intro x hx
  simp only [disk4, List.mem_cons, List.not_mem_nil, or_false] at hx
  rcases hx with rfl | rfl | rfl | rfl
  · exact .inl ⟨_, rfl⟩
  · exact .inr ⟨_, _, rfl, rfl⟩
  · exact .inr ⟨_, _, rfl, rfl⟩
  · exact .inl ⟨_, rfl⟩)

theorem lib_below {q : Path} (h : ¬ ["lib"] <+: q) : q ≠ ["lib"] ∧ q ≠ ["lib", "m.py"] ∧ q ≠ ["lib", "b.pyi"] ∧ q ≠ ["lib", "n.py"] :=
  ⟨(by rintro rfl; exact h (List.prefix_refl _)), (by rintro rfl; exact h ⟨["m.py"], rfl⟩), (by rintro rfl; exact h ⟨["b.pyi"], rfl⟩),
    (by rintro rfl; exact h ⟨["n.py"], rfl⟩)⟩

theorem changed12 : ChangedAt disk1 disk2 ["lib"] := by
  refine ⟨?_, ?_⟩
  · intro q hq
    obtain ⟨a, b, c, _⟩ := lib_below hq
    simp only [disk1, disk2, get_cons, if_neg (Ne.symm a), if_neg (Ne.symm b), if_neg (Ne.symm c)]
  · intro _ h; exact absurd h (by decide)

theorem changed13 : ChangedAt disk1 disk3 ["lib"] := by
  refine ⟨?_, ?_⟩
  · intro q hq
    obtain ⟨a, b, c, _⟩ := lib_below hq
    simp only [disk1, disk3, get_cons, if_neg (Ne.symm a), if_neg (Ne.symm b), if_neg (Ne.symm c)]
  · intro _ h; exact absurd h (by decide)

theorem changed24 : ChangedAt disk2 disk4 ["lib"] := by
  refine ⟨?_, ?_⟩
  · intro q hq
    obtain ⟨a, b, _, c⟩ := lib_below hq
    simp only [disk2, disk4, get_cons, if_neg (Ne.symm a), if_neg (Ne.symm b), if_neg (Ne.symm c)]
  · intro h; exact absurd h (by decide)

/-- Opening, editing and reading; the directory of the open document is removed and comes back;
closing. -/
def history1 : List Happening :=
  [.need ["use.py"], .edit ["lib", "m.py"] "new", .depend 0 ["lib", "m.py"], .need ["lib", "b.pyi"], .disk ["lib"] disk2,
    .disk ["lib"] disk4, .mention ["lib", "m.py"], .missing 0 ["lib", "x.py"]]

/-- The hypotheses of `overlay_partial` hold for it, and it does not crash. -/
example : Orderly disk1 history1 ∧ (∀ p, Happening.preload p ∉ history1) ∧
    ∃ s, happenAll (fun _ => none) disk1 history1 (Vfs.start disk1) = .ok s ∧ UsesText s 1 ["lib", "m.py"] "new" ∧ s.code 2 = none := by
  refine ⟨⟨by simp, disk2_ok, changed12, by simp, disk4_ok, changed24, trivial⟩, ?_, _, rfl, ⟨_, rfl, rfl, rfl⟩, rfl⟩
  intro p hp
  simp [history1] at hp

/-- The places of directories in it. -/
example : DiskKinds (fun p => p = ["lib"]) disk1 ∧ Settled (fun p => p = ["lib"]) history1 := by
  have h1 : DiskKinds (fun p => p = ["lib"]) disk1 := by
    intro x hx
    simp only [disk1, List.mem_cons, List.not_mem_nil, or_false] at hx
    rcases hx with rfl | rfl | rfl | rfl <;> simp
  refine ⟨h1, ?_⟩
  intro x hx
  simp only [history1, List.mem_cons, List.not_mem_nil, or_false] at hx
  rcases hx with rfl | rfl | rfl | rfl | rfl | rfl | rfl | rfl <;> try trivial
  · refine ⟨by simp, by simp, ?_⟩
    intro q a b c
    exact prefix_two a b c
  · intro x hx
    simp only [disk2, List.mem_cons, List.not_mem_nil, or_false] at hx
    subst hx
    simp
  · intro x hx
    simp only [disk4, List.mem_cons, List.not_mem_nil, or_false] at hx
    rcases hx with rfl | rfl | rfl | rfl <;> simp

/-- **C16 does not hold in full**: when a removed directory contains a file that everything depends
on, `invalidate_path` returns early (vfs.rs 740-745) and does not put the open documents back into
the tree. When the directory comes back, the open document is read from disk. -/
theorem overlay_preload_violation :
    ∃ hs, Orderly disk1 hs ∧ ∃ s, happenAll (fun _ => none) disk1 hs (Vfs.start disk1) = .ok s ∧
      (outsideAll (fun _ => none) disk1 hs).1 ["lib", "m.py"] = some "new" ∧ (load disk4 ["lib", "m.py"] s).1 = some 2 ∧
      UsesText s 2 ["lib", "m.py"] "old" := by
  refine ⟨[.preload ["lib", "b.pyi"], .edit ["lib", "m.py"] "new", .disk ["lib"] disk2, .disk ["lib"] disk4, .need ["lib", "m.py"]], ?_, _, rfl, ?_, ?_, ?_⟩
  · exact ⟨by simp, disk2_ok, changed12, by simp, disk4_ok, changed24, trivial⟩
  · rfl
  · rfl
  · exact ⟨_, rfl, rfl, rfl⟩

/-- **C16 does not hold in full**: when the directory of an open document is replaced by a file,
the document cannot be put back and the program crashes (`unimplemented!`, workspaces.rs 589). -/
theorem overlay_crash_violation :
    ∃ hs, Orderly disk1 hs ∧ happenAll (fun _ => none) disk1 hs (Vfs.start disk1) = .error .inTheWay := by
  refine ⟨[.edit ["lib", "m.py"] "new", .disk ["lib"] disk3], ?_, rfl⟩
  exact ⟨by simp, disk3_ok, changed13, trivial⟩

/-- **C15 does not hold in full**: after the directory of an open document was removed, the document
has a new entry in the tree, which collects the dependents, but its file still has the old one. The
next edit changes the text and invalidates nobody, although file 0 is recorded as dependent. -/
theorem stale_entry_violation :
    ∃ hs, Orderly disk1 hs ∧ ∃ s, happenAll (fun _ => none) disk1 hs (Vfs.start disk1) = .ok s ∧
      (∃ e l, treeGet s.tree ["lib", "m.py"] = some (.file e) ∧ s.inv e = .files l ∧ 0 ∈ l) ∧
      UsesText s 1 ["lib", "m.py"] "new" ∧
      ∃ r s', store disk2 ["lib", "m.py"] "newer" s = .ok (r, s') ∧ UsesText s' 1 ["lib", "m.py"] "newer" ∧ s'.marks = s.marks ∧ r = .files := by
  refine ⟨[.need ["use.py"], .edit ["lib", "m.py"] "new", .depend 0 ["lib", "m.py"], .disk ["lib"] disk2, .depend 0 ["lib", "m.py"]], ?_, _, rfl, ?_, ?_, ?_⟩
  · exact ⟨by simp, disk2_ok, changed12, trivial⟩
  · exact ⟨_, _, rfl, rfl, by simp⟩
  · exact ⟨_, rfl, rfl, rfl⟩
  · exact ⟨_, _, rfl, ⟨_, rfl, rfl, rfl⟩, rfl, rfl⟩

/-- **C17 does not hold**: the directory of an open document is removed; it stays in the tree for the
sake of the document. When a directory is moved to its place, that is ignored
(`is_unnecessary_invalidation`, local_fs.rs 176-199), and the files in it are not found. -/
theorem returned_directory_violation :
    ∃ hs, Orderly disk1 hs ∧ ∃ s, happenAll (fun _ => none) disk1 hs (Vfs.start disk1) = .ok s ∧
      (outsideAll (fun _ => none) disk1 hs).2 = disk4 ∧ diskText disk4 ["lib", "n.py"] = some "N" ∧ (load disk4 ["lib", "n.py"] s).1 = none := by
  refine ⟨[.edit ["lib", "m.py"] "new", .disk ["lib"] disk2, .disk ["lib"] disk4], ?_, _, rfl, rfl, rfl, rfl⟩
  exact ⟨by simp, disk2_ok, changed12, by simp, disk4_ok, changed24, trivial⟩

end Verif.Vfs
