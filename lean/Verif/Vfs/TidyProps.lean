import Verif.Vfs.TidyLemmas

/-!
# C15, C16: files are found, and readers are told about changes

The theorems range over all histories in which the documents of the editor are in directories of the
disk.
-/

namespace Verif.Vfs

/-- **C16.** In every history in which the documents of the editor are in directories of the disk,
and in which no file of the workspace was preloaded, the analysis finds a file exactly if it is open
or on disk, and then uses the text that it should have. -/
theorem overlay_complete (d0 : Disk) (hd : DiskOk d0) (hs : List Happening) (ho : Orderly d0 hs) (ht : AlwaysHoused (fun _ => none) d0 hs)
    (hn : ∀ p, Happening.preload p ∉ hs) (s : Vfs) (hok : happenAll (fun _ => none) d0 hs (Vfs.start d0) = .ok s)
    (docs : Docs) (d : Disk) (hout : outsideAll (fun _ => none) d0 hs = (docs, d)) (p : Path) (hp : p ≠ []) :
    ((load d p s).1 = none ↔ expected docs d p = none) ∧
    ∀ text, expected docs d p = some text ↔ ∃ i, (load d p s).1 = some i ∧ UsesText (load d p s).2 i p text := by
  have h := (happenAll_neat hs _ d0 _ s (start_neat (tidy_head ht).2) hd ho ht hn hok).1
  have hs' : hs = hs ++ [] := by simp
  have hd' := (orderly_append hs [] (fun _ => none) d0 hd (hs' ▸ ho)).2.2
  have hl' := (tidy_head (tidy_append hs [] (fun _ => none) d0 (hs' ▸ ht)).2).2
  rw [hout] at h hd' hl'
  have key : ∀ text, expected docs d p = some text ↔ ∃ i, (load d p s).1 = some i ∧ UsesText (load d p s).2 i p text := by
    intro text
    refine ⟨load_there h hl' hd' hp, ?_⟩
    rintro ⟨i, _, f, a, b, c⟩
    exact (load_neat p h hl').1.inv.texts i f p text a b c
  refine ⟨?_, key⟩
  constructor
  · intro hnone
    cases he : expected docs d p with
    | none => rfl
    | some text =>
      obtain ⟨i, hi, _⟩ := (key text).mp he
      rw [hnone] at hi; cases hi
  · intro hnone
    cases he : (load d p s).1 with
    | none => rfl
    | some i =>
      obtain ⟨text, _, h2⟩ := (load_inv p h.inv).2 i he
      rw [hnone] at h2; cases h2

/-- **C15.** The analysis of file `i` reads the file at `p` and records that. Whatever happens after
that: the text that the file at `p` should have is the text that was read, or file `i` has been
invalidated since. -/
theorem reader_is_told (d0 : Disk) (hd : DiskOk d0) (before after : List Happening) (i : Nat) (p : Path) (hp : p ≠ [])
    (ho : Orderly d0 (before ++ [.need p, .depend i p] ++ after)) (ht : AlwaysHoused (fun _ => none) d0 (before ++ [.need p, .depend i p] ++ after))
    (hn : ∀ p', Happening.preload p' ∉ before ++ [.need p, .depend i p] ++ after)
    (docs1 : Docs) (d1 : Disk) (hout1 : outsideAll (fun _ => none) d0 (before ++ [.need p, .depend i p]) = (docs1, d1))
    (docs2 : Docs) (d2 : Disk) (hout2 : outsideAll docs1 d1 after = (docs2, d2))
    (s1 s2 : Vfs) (h1 : happenAll (fun _ => none) d0 (before ++ [.need p, .depend i p]) (Vfs.start d0) = .ok s1) (h2 : happenAll docs1 d1 after s1 = .ok s2)
    (hi : i < s1.files.length) (text : String) (hread : expected docs1 d1 p = some text) :
    expected docs2 d2 p = some text ∨ MarkedIn s1 s2 i := by
  obtain ⟨o1, o2, o3⟩ := orderly_append (before ++ [.need p, .depend i p]) after (fun _ => none) d0 hd ho
  obtain ⟨t1, t2⟩ := tidy_append (before ++ [.need p, .depend i p]) after _ _ ht
  obtain ⟨o4, _, o6⟩ := orderly_append before [.need p, .depend i p] (fun _ => none) d0 hd o1
  obtain ⟨t4, t5⟩ := tidy_append before [.need p, .depend i p] _ _ t1
  have hl := (tidy_head t5).2
  have hout : outsideAll (fun _ => none) d0 before = (docs1, d1) := by rw [outsideAll_append] at hout1; exact hout1
  obtain ⟨s, a, b⟩ := happenAll_append before [.need p, .depend i p] _ _ _ _ h1
  have hn' : ∀ p', Happening.preload p' ∉ before := fun p' hp' => hn p' (by simp [hp'])
  have hN := (happenAll_neat before _ d0 _ s (start_neat (tidy_head t4).2) hd o4 t4 hn' a).1
  rw [hout] at hN b o6 hl
  simp only [happenAll, happen, outside, Except.ok.injEq] at b
  obtain ⟨j, hj, hu⟩ := load_there hN hl o6 hp hread
  have hN1 := (load_neat p hN hl).1
  have hfl : (depend i p (load d1 p s).2).files = (load d1 p s).2.files := by
    rw [depend]
    split
    · split <;> rfl
    · rfl
  have hr := depend_reads hN1 (by rw [← b, hfl] at hi; exact hi) hu
  have hN2 := (depend_neat i p hN1).1
  rw [b] at hr hN2
  rw [hout1] at o2 o3 t2
  obtain ⟨c1, c2⟩ := happenAll_neat after docs1 d1 s1 s2 hN2 o3 o2 t2 (fun p' hp' => hn p' (by simp [hp'])) h2
  rw [hout2] at c1
  rcases c2.reads i p text hr with h | h
  · exact .inl (reads_expected c1.inv h)
  · exact .inr h

/-- **C17.** The analysis of file `i` finds nothing at `p`, in a directory of the disk, and records
that. Whatever happens after that: there is nothing at `p`, or file `i` has been invalidated since. -/
theorem absence_is_told (d0 : Disk) (hd : DiskOk d0) (before after : List Happening) (i : Nat) (p : Path) (hp : p ≠ [])
    (ho : Orderly d0 (before ++ [.need p, .missing i p] ++ after)) (ht : AlwaysHoused (fun _ => none) d0 (before ++ [.need p, .missing i p] ++ after))
    (hn : ∀ p', Happening.preload p' ∉ before ++ [.need p, .missing i p] ++ after)
    (docs1 : Docs) (d1 : Disk) (hout1 : outsideAll (fun _ => none) d0 (before ++ [.need p, .missing i p]) = (docs1, d1))
    (docs2 : Docs) (d2 : Disk) (hout2 : outsideAll docs1 d1 after = (docs2, d2))
    (s1 s2 : Vfs) (h1 : happenAll (fun _ => none) d0 (before ++ [.need p, .missing i p]) (Vfs.start d0) = .ok s1) (h2 : happenAll docs1 d1 after s1 = .ok s2)
    (hi : i < s1.files.length) (hdirs : ∀ q, q ≠ [] → q <+: p → q ≠ p → HasDir d1 q) (hnone : HasNothing docs1 d1 p) :
    HasNothing docs2 d2 p ∨ MarkedIn s1 s2 i := by
  obtain ⟨o1, o2, o3⟩ := orderly_append (before ++ [.need p, .missing i p]) after (fun _ => none) d0 hd ho
  obtain ⟨t1, t2⟩ := tidy_append (before ++ [.need p, .missing i p]) after _ _ ht
  obtain ⟨o4, _, o6⟩ := orderly_append before [.need p, .missing i p] (fun _ => none) d0 hd o1
  obtain ⟨t4, t5⟩ := tidy_append before [.need p, .missing i p] _ _ t1
  have hl := (tidy_head t5).2
  have hout : outsideAll (fun _ => none) d0 before = (docs1, d1) := by rw [outsideAll_append] at hout1; exact hout1
  obtain ⟨s, a, b⟩ := happenAll_append before [.need p, .missing i p] _ _ _ _ h1
  have hn' : ∀ p', Happening.preload p' ∉ before := fun p' hp' => hn p' (by simp [hp'])
  have hN := (happenAll_neat before _ d0 _ s (start_neat (tidy_head t4).2) hd o4 t4 hn' a).1
  rw [hout] at hN b o6 hl
  simp only [happenAll, happen, outside, Except.ok.injEq] at b
  have hN1 := (load_neat p hN hl).1
  have hpar : ParentsOk (load d1 p s).2 p := by
    rw [parentsOk_congr (load_same_tree d1 p s)]
    have := findFile_parents hl p [] s hN.inv hN.mirror (.inl rfl) (parentsOk_nil s) hp (fun q _ x y z => hdirs q x y z)
    rwa [List.nil_append] at this
  have hfl : (addMissing i p (load d1 p s).2).files = (load d1 p s).2.files := by
    rw [addMissing]
    split
    · split <;> rfl
    · rfl
  have hr := addMissing_notes hN1 hp hpar (by rw [← b, hfl] at hi; exact hi) hnone
  have hN2 := (addMissing_neat i p hN1).1
  rw [b] at hr hN2
  rw [hout1] at o2 o3 t2
  obtain ⟨c1, c2⟩ := happenAll_neat after docs1 d1 s1 s2 hN2 o3 o2 t2 (fun p' hp' => hn p' (by simp [hp'])) h2
  rw [hout2] at c1
  rcases c2.missing i p hr with h | h
  · exact .inl (missing_nothing c1 h)
  · exact .inr h

/-! ## The hypotheses are met -/

theorem housed_nil (d : Disk) : Housed (fun _ => none) d := by intro p t h; cases h

/-- A package with two modules. -/
def tidyDisk : Disk := [(["pkg"], .dir), (["pkg", "a.py"], .file "import pkg.b"), (["pkg", "b.py"], .file "x = 1")]

theorem tidyDisk_ok : DiskOk tidyDisk := by
  intro p n hp q hq hqp hne
  have hmem : p = ["pkg"] ∨ p = ["pkg", "a.py"] ∨ p = ["pkg", "b.py"] := by
    rw [tidyDisk, diskGet_cons, diskGet_cons, diskGet_cons] at hp
    by_cases h1 : ["pkg"] = p
    · exact .inl h1.symm
    · by_cases h2 : ["pkg", "a.py"] = p
      · exact .inr (.inl h2.symm)
      · by_cases h3 : ["pkg", "b.py"] = p
        · exact .inr (.inr h3.symm)
        · rw [if_neg h1, if_neg h2, if_neg h3] at hp; cases hp
  obtain ⟨u, hu⟩ := hqp
  cases q with
  | nil => exact absurd rfl hq
  | cons x q =>
    rcases hmem with rfl | rfl | rfl
    · simp only [List.cons_append, List.cons.injEq, List.append_eq_nil_iff] at hu
      obtain ⟨rfl, rfl, _⟩ := hu
      exact absurd rfl hne
    all_goals
      simp only [List.cons_append, List.cons.injEq] at hu
      obtain ⟨rfl, hu⟩ := hu
      cases q with
      | nil => rfl
      | cons y q =>
        simp only [List.cons_append, List.cons.injEq, List.append_eq_nil_iff] at hu
        obtain ⟨rfl, rfl, _⟩ := hu
        exact absurd rfl hne

theorem housed_b (text : String) : Housed (fun q => if q = ["pkg", "b.py"] then some text else none) tidyDisk := by
  intro p t hp
  by_cases h : p = ["pkg", "b.py"]
  · subst h
    refine ⟨by decide +kernel, ?_⟩
    intro q a b c
    exact tidyDisk_ok ["pkg", "b.py"] (.file "x = 1") (by decide +kernel) q a b c
  · simp [h] at hp

/-- Module `a` reads module `b` and looks for a stub of it. The editor then changes the text of `b`. -/
def tidyBefore : List Happening := [.need ["pkg", "a.py"]]

/-- The hypotheses of `reader_is_told` are met, and file 0 is invalidated. -/
example : ∃ s1 s2, DiskOk tidyDisk ∧ Orderly tidyDisk (tidyBefore ++ [.need ["pkg", "b.py"], .depend 0 ["pkg", "b.py"]] ++ [.edit ["pkg", "b.py"] "x = ''"]) ∧
    AlwaysHoused (fun _ => none) tidyDisk (tidyBefore ++ [.need ["pkg", "b.py"], .depend 0 ["pkg", "b.py"]] ++ [.edit ["pkg", "b.py"] "x = ''"]) ∧
    happenAll (fun _ => none) tidyDisk (tidyBefore ++ [.need ["pkg", "b.py"], .depend 0 ["pkg", "b.py"]]) (Vfs.start tidyDisk) = .ok s1 ∧
    happenAll (fun _ => none) tidyDisk [.edit ["pkg", "b.py"] "x = ''"] s1 = .ok s2 ∧ 0 < s1.files.length ∧
    expected (fun _ => none) tidyDisk ["pkg", "b.py"] = some "x = 1" ∧ s1.marks = [] ∧ (0, some 1) ∈ s2.marks := by
  have hl : Listed tidyDisk := by unfold Listed; decide +kernel
  refine ⟨_, _, tidyDisk_ok, trivial, ⟨housed_nil _, hl, housed_nil _, hl, housed_nil _, hl, housed_nil _, hl, housed_b _, hl⟩, rfl, rfl, ?_, ?_, ?_, ?_⟩ <;> decide +kernel

/-- The hypotheses of `absence_is_told` are met, and file 0 is invalidated when the stub is made. -/
example : ∃ s1 s2, happenAll (fun _ => none) tidyDisk (tidyBefore ++ [.need ["pkg", "b.pyi"], .missing 0 ["pkg", "b.pyi"]]) (Vfs.start tidyDisk) = .ok s1 ∧
    happenAll (fun _ => none) tidyDisk [.disk ["pkg", "b.pyi"] ((["pkg", "b.pyi"], .file "x: str") :: tidyDisk)] s1 = .ok s2 ∧ 0 < s1.files.length ∧
    HasDir tidyDisk ["pkg"] ∧ HasNothing (fun _ => none) tidyDisk ["pkg", "b.pyi"] ∧ s1.marks = [] ∧ (0, none) ∈ s2.marks := by
  refine ⟨_, _, rfl, rfl, ?_, rfl, ⟨rfl, ?_⟩, ?_, ?_⟩ <;> decide +kernel

end Verif.Vfs
