import Verif.Vfs.ImportNotes
import Verif.Vfs.TidyProps

/-!
# C18, C17: imports resolve by priority, and importers are told about changes

The theorems range over all histories of the virtual file system with imports, in which the documents
of the editor are in directories of the disk.
-/

namespace Verif.Vfs

/-- **C18.** After every history, an import finds the first file of the search directories, packages
before stubs before modules in each directory. It finds a namespace only if there is no such file. -/
theorem import_priority (d0 : Disk) (hd : DiskOk d0) (ds : List Deed) (ho : Orderly d0 (ds.filterMap Deed.happening))
    (ht : AlwaysHoused (fun _ => none) d0 (ds.filterMap Deed.happening)) (hn : ∀ p, Deed.event (.preload p) ∉ ds)
    (docs : Docs) (d : Disk) (hout : outsideAll (fun _ => none) d0 (ds.filterMap Deed.happening) = (docs, d))
    (s : Vfs) (hok : perform (fun _ => none) d0 ds (Vfs.start d0) = .ok s)
    (i : Nat) (hi : i < s.files.length) (follow stubs : Bool) (name : String) (dirs : List (Path × Bool)) (hdirs : ∀ x ∈ dirs, inTree s x.1 = true) :
    Resolves docs d stubs name (dirs.map (·.1)) ((pythonImport d i follow stubs name dirs s).1.map Resolution.places) ∧
    ∀ r, Resolves docs d stubs name (dirs.map (·.1)) r → r = (pythonImport d i follow stubs name dirs s).1.map Resolution.places := by
  obtain ⟨h, _, a, b, c⟩ := perform_neat ds _ d0 _ s (start_neat (tidy_head ht).2) hd ho ht hn hok
  rw [hout] at h a b c
  have hS := (importFrom_spec (follow := follow) (stubs := stubs) (name := name) b a c dirs [] s h hi (fun x hx => (inTree_iff s x.1).mp (hdirs x hx)) _ _ rfl).2
  have hres : Resolves docs d stubs name (dirs.map (·.1)) ((pythonImport d i follow stubs name dirs s).1.map Resolution.places) := by
    rw [pythonImport]
    cases hr : (importFrom d i follow stubs name dirs [] s).1 with
    | none =>
      rw [hr] at hS
      obtain ⟨h1, l, h2, h3, _⟩ := hS.other (by intro f; exact ⟨(fun h => by cases h), (fun h => by cases h)⟩)
      refine .nothing h1 ?_
      intro p hp hD
      have hl : l = [] := by
        cases l with
        | nil => rfl
        | cons _ _ => simp at h3
      rw [hl] at h2
      have := List.filter_eq_nil_iff.mp h2.symm (p ++ [name]) (List.mem_map.mpr ⟨p, hp, rfl⟩)
      rw [show diskGet d (p ++ [name]) = some .dir from hD] at this
      simp at this
    | some x =>
      rw [hr] at hS
      cases x with
      | file f => exact .file f (hS.file f (.inl rfl))
      | untyped f => exact .file f (hS.file f (.inr rfl))
      | «namespace» ps =>
        obtain ⟨h1, l, h2, h3, _⟩ := hS.other (by intro f; exact ⟨(fun h => by cases h), (fun h => by cases h)⟩)
        rw [List.nil_append] at h3
        have hne : l ≠ [] := by rintro rfl; simp at h3
        rw [if_neg (by simpa using hne)] at h3
        cases h3
        subst h2
        exact .namespace h1 hne
  exact ⟨hres, fun r hr => (hr.unique hres)⟩

/-- **C17.** File `i` imports a name, in search directories in which no directory is named like a
module and no file is named like the package. Whatever happens after that: the import resolves to the
same, or file `i` has been invalidated since; or the import found a module file, and a more important
file has appeared in the directory of the module.

What is missing: the last case, for which `shadowed_module_violation` shows that the importer is not
told, imports without `py.typed`, and names of the wrong kind. -/
theorem imports_are_told_partial (d0 : Disk) (hd : DiskOk d0) (before after : List Deed)
    (ho : Orderly d0 ((before ++ after).filterMap Deed.happening)) (ht : AlwaysHoused (fun _ => none) d0 ((before ++ after).filterMap Deed.happening))
    (hn : ∀ p, Deed.event (.preload p) ∉ before ++ after)
    (docs1 : Docs) (d1 : Disk) (hout1 : outsideAll (fun _ => none) d0 (before.filterMap Deed.happening) = (docs1, d1))
    (docs2 : Docs) (d2 : Disk) (hout2 : outsideAll docs1 d1 (after.filterMap Deed.happening) = (docs2, d2))
    (s : Vfs) (hok1 : perform (fun _ => none) d0 before (Vfs.start d0) = .ok s)
    (i : Nat) (hi : i < s.files.length) (follow stubs : Bool) (name : String) (dirs : List (Path × Bool)) (hdirs : ∀ x ∈ dirs, inTree s x.1 = true)
    (hfollow : follow = true ∨ ∀ x ∈ dirs, x.2 = false) (hplain : ∀ x ∈ dirs, PlainDir docs1 d1 stubs name x.1)
    (r : Option Resolution) (s1 : Vfs) (himp : pythonImport d1 i follow stubs name dirs s = (r, s1))
    (s2 : Vfs) (hok2 : perform docs1 d1 after s1 = .ok s2)
    (r2 : Option (Path ⊕ List Path)) (hr2 : Resolves docs2 d2 stubs name (dirs.map (·.1)) r2) :
    r2 = r.map Resolution.places ∨ MarkedIn s1 s2 i ∨
    ∃ x ∈ dirs, ∃ f g, (f = x.1 ++ [name ++ ".pyi"] ∨ f = x.1 ++ [name ++ ".py"]) ∧ r = some (.file f) ∧ r2 = some (.inl g) ∧ MoreImportant stubs name x.1 g f := by
  rw [List.filterMap_append] at ho ht
  obtain ⟨o1, o2, o3⟩ := orderly_append _ _ (fun _ => none) d0 hd ho
  obtain ⟨t1, t2⟩ := tidy_append _ _ _ _ ht
  obtain ⟨h, _, a, b, c⟩ := perform_neat before _ d0 _ s (start_neat (tidy_head t1).2) hd o1 t1 (fun p hp => hn p (by simp [hp])) hok1
  rw [hout1] at h a b c o2 t2
  obtain ⟨gI, hS⟩ := importFrom_spec (follow := follow) (stubs := stubs) (name := name) b a c dirs [] s h hi (fun x hx => (inTree_iff s x.1).mp (hdirs x hx)) _ _ himp
  obtain ⟨h2, g2, a2, b2, c2⟩ := perform_neat after docs1 d1 s1 s2 gI.neat a o2 t2 (fun p hp => hn p (by simp [hp])) hok2
  rw [hout2] at h2 a2 b2 c2
  by_cases hm : MarkedIn s1 s2 i
  · exact .inr (.inl hm)
  have hplain' : ∀ p ∈ dirs.map (·.1), PlainDir docs1 d1 stubs name p := by
    intro p hp
    obtain ⟨x, hx, rfl⟩ := List.mem_map.mp hp
    exact hplain x hx
  have other : (∀ f, r ≠ some (.file f) ∧ r ≠ some (.untyped f)) → r2 = r.map Resolution.places := by
    intro hno
    obtain ⟨_, l, _, h3, h4⟩ := hS.other hno
    have hN := (h4 hplain').keep g2 hm
    obtain ⟨k1, k2⟩ := hN.none_there h2 a2 c2
    rw [List.nil_append] at h3
    cases l with
    | nil =>
      rw [if_pos (show ([] : List Path).isEmpty = true from rfl)] at h3
      rw [h3]
      refine hr2.unique (.nothing k1 ?_)
      intro p hp hD
      have := List.filter_eq_nil_iff.mp k2 (p ++ [name]) (List.mem_map.mpr ⟨p, hp, rfl⟩)
      rw [show diskGet d2 (p ++ [name]) = some .dir from hD] at this
      simp at this
    | cons y l =>
      rw [if_neg (by simp)] at h3
      rw [h3]
      refine hr2.unique ?_
      have := Resolves.namespace (docs := docs2) (d := d2) (stubs := stubs) (name := name) (dirs := dirs.map (·.1)) k1 (by rw [k2]; simp)
      rw [k2] at this
      exact this
  cases hr : r with
  | none => rw [← hr]; exact .inl (other (by rw [hr]; intro f; exact ⟨(fun h => by cases h), (fun h => by cases h)⟩))
  | some x =>
    cases x with
    | file f =>
      have hN := (hS.noted hplain' f hr).keep g2 hm
      obtain ⟨g, hg, hor⟩ := hN.first h2 a2 c2
      have hr2' := hr2.unique (.file g hg)
      rcases hor with rfl | ⟨p, hp, hf, hmore⟩
      · exact .inl hr2'
      · obtain ⟨x, hx, rfl⟩ := List.mem_map.mp hp
        exact .inr (.inr ⟨x, hx, f, g, hf, rfl, hr2', hmore⟩)
    | untyped f =>
      obtain ⟨h1, p, h3⟩ := hS.typed f hr
      rcases hfollow with hfo | hfo
      · rw [h1] at hfo; cases hfo
      · have := hfo _ h3; cases this
    | «namespace» ps => rw [← hr]; exact .inl (other (by rw [hr]; intro f; exact ⟨(fun h => by cases h), (fun h => by cases h)⟩))

end Verif.Vfs
