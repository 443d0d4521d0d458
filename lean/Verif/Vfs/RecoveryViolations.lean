import Verif.Vfs.RecoveryProps

/-!
# C28: examples, and histories in which the code does something else
-/

namespace Verif.Vfs

/-- A file changed. -/
def disk5 : Disk := [(["lib"], .dir), (["lib", "m.py"], .file "old"), (["lib", "b.pyi"], .file "B"), (["use.py"], .file "pass")]

/-- Documents are opened and edited around panics, one of which happens in the parser; the directory
of an open document is removed. -/
def history2 : List Incident :=
  [.happens (.need ["use.py"]), .happens (.edit ["lib", "m.py"] "new"), .panic, .happens (.edit ["use.py"] "use"), .panicParsing ["lib", "m.py"] "((",
    .happens (.disk ["lib"] disk2), .panic]

/-- The hypotheses of `recovery_partial` hold for it, the document `use.py` is still open. -/
example : Watched disk1 history2 ∧ docsAfterAll (fun _ => none) history2 ["use.py"] = some "use" ∧
    brokenAfterAll (fun _ => false) history2 ["use.py"] = false ∧ brokenAfterAll (fun _ => false) history2 ["lib", "m.py"] = true ∧
    ∃ s, reactAll disk1 history2 (Vfs.start disk1) = .ok s ∧ OpenPath s ["use.py"] ∧ UsesText s 0 ["use.py"] "use" ∧ ["use.py"] ∈ s.hooks := by
  refine ⟨⟨by simp, disk2_ok, changed12, trivial⟩, rfl, rfl, rfl, _, rfl, ⟨0, ?_⟩, ⟨_, rfl, rfl, rfl⟩, ?_⟩
  · exact List.mem_cons_self ..
  · exact List.mem_cons_self ..

/-- The places of directories in it. -/
example : SettledEvents (fun p => p = ["lib"]) history2 := by
  intro x hx
  simp only [history2, List.mem_cons, List.not_mem_nil, or_false] at hx
  have hm : DocPath (fun p => p = ["lib"]) ["lib", "m.py"] := ⟨by simp, by simp, fun q a b c => prefix_two a b c⟩
  rcases hx with rfl | rfl | rfl | rfl | rfl | rfl | rfl
  · trivial
  · exact hm
  · trivial
  · exact ⟨by simp, by simp, fun q a b c => (prefix_one a b c).elim⟩
  · exact hm
  · intro x hx
    simp only [disk2, List.mem_cons, List.not_mem_nil, or_false] at hx
    subst hx
    simp
  · trivial

/-- **C28 does not hold in full**: when parsing the new text of an open document panics, the file has
been unloaded and has no text yet, so `into_panic_recovery` drops it (vfs.rs 174). The server then
uses the text on disk, although the editor has the document open. -/
theorem parse_panic_violation :
    ∃ es, Watched disk1 es ∧ ∃ s, reactAll disk1 es (Vfs.start disk1) = .ok s ∧
      docsAfterAll (fun _ => none) es ["lib", "m.py"] = some "newer" ∧ ¬ OpenPath s ["lib", "m.py"] ∧ UsesText s 0 ["lib", "m.py"] "old" := by
  refine ⟨[.happens (.edit ["lib", "m.py"] "new"), .panicParsing ["lib", "m.py"] "newer", .happens (.need ["lib", "m.py"])], trivial, _, rfl, rfl, ?_, ⟨_, rfl, rfl, rfl⟩⟩
  rintro ⟨i, hi⟩
  exact absurd hi (List.not_mem_nil)

/-- **C28 does not hold in full**: after an error of the watcher the project is dropped without
carrying anything over (server.rs 612-618). -/
theorem watch_error_violation :
    ∃ es, ∃ s, reactAll disk1 es (Vfs.start disk1) = .ok s ∧
      docsAfterAll (fun _ => none) es ["lib", "m.py"] = some "new" ∧ ¬ OpenPath s ["lib", "m.py"] ∧ UsesText s 0 ["lib", "m.py"] "old" := by
  refine ⟨[.happens (.edit ["lib", "m.py"] "new"), .watchError, .happens (.need ["lib", "m.py"])], _, rfl, rfl, ?_, ⟨_, rfl, rfl, rfl⟩⟩
  rintro ⟨i, hi⟩
  exact absurd hi (List.not_mem_nil)

/-- **C16 does not hold across panics**: a change of the disk whose report was not read before the
panic is never noticed, because the text is carried over (server.rs 584-588, vfs.rs 170-176). -/
theorem unread_report_violation :
    ∃ es, ∃ s, reactAll disk1 es (Vfs.start disk1) = .ok s ∧ diskAfterAll disk1 es = disk5 ∧
      docsAfterAll (fun _ => none) es ["use.py"] = none ∧ diskGet disk5 ["use.py"] = some (.file "pass") ∧
      (load disk5 ["use.py"] s).1 = some 0 ∧ UsesText (load disk5 ["use.py"] s).2 0 ["use.py"] "import lib.m" :=
  ⟨[.happens (.need ["use.py"]), .panicUnread ["use.py"] disk5], _, rfl, rfl, rfl, rfl, rfl, ⟨_, rfl, rfl, rfl⟩⟩

/-- **C28 does not hold in full**: when the directory of an open document was replaced by a file, the
recovery panics itself (workspaces.rs 589), outside of `catch_unwind` (server.rs 267). -/
theorem recovery_panic_violation :
    ∃ es, ChangedAt disk1 disk3 ["lib"] ∧ DiskOk disk3 ∧ reactAll disk1 es (Vfs.start disk1) = .error .inTheWay :=
  ⟨[.happens (.edit ["lib", "m.py"] "new"), .panicUnread ["lib"] disk3], changed13, disk3_ok, rfl⟩

end Verif.Vfs
