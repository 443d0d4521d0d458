import Verif.Vfs.OverlayNotify

/-!
# C16: unsaved editor content overrides the disk

The theorems range over all histories of openings, edits and closings of documents, changes of the
disk with their notification, and reads and recorded dependencies of the analysis.
-/

namespace Verif.Vfs

/-- What the virtual file system does for a happening, when the disk is `d` before it. -/
def happen (d : Disk) : Happening → Vfs → Except Fault Vfs
  | .edit p text, s => (store d p text s).map (·.2)
  | .close p, s => (close d p s).map (·.2)
  | .disk p d', s => (notify d' p s).map (·.2)
  | .need p, s => .ok (load d p s).2
  | .preload p, s => .ok (preload d p s)
  | .mention p, s => .ok (reserve d p s)
  | .depend i p, s => .ok (depend i p s)
  | .missing i p, s => .ok (addMissing i p s)

/-- A history. -/
def happenAll (docs : Docs) (d : Disk) : List Happening → Vfs → Except Fault Vfs
  | [], s => .ok s
  | h :: hs, s =>
    match happen d h s with
    | .error x => .error x
    | .ok s' => happenAll (outside docs d h).1 (outside docs d h).2 hs s'

theorem map_ok {α β : Type} {f : α → β} {x : Except Fault α} {b : β} (h : x.map f = .ok b) : ∃ a, x = .ok a ∧ f a = b := by
  cases x with
  | error e => cases h
  | ok a => cases h; exact ⟨a, rfl, rfl⟩

theorem start_inv (d : Disk) : Inv (fun _ => none) d (Vfs.start d) := by
  have hb : Base (fun _ => False) { entries := [], files := [], tree := [], mem := [], marks := [], hooks := [] } := by
    refine ⟨⟨?_, ?_, ?_, ?_, ?_, ?_⟩, ?_, ?_, ?_, ?_, ?_, ?_, ?_, ?_⟩ <;> simp [treeGet, Vfs.inv, Detail.empty]
  obtain ⟨h1, h2⟩ := readChildren_spec [] d _ hb (.inl rfl) (by intro q a b; exact absurd (List.prefix_nil.mp b) a) (by
    intro q _ _ n hn; simp [treeGet] at hn)
  refine Inv.extends (s := { entries := [], files := [], tree := [], mem := [], marks := [], hooks := [] }) ⟨hb, ?_, ?_⟩ h1 h2
  · intro i f p c a; simp at a
  · intro p
    exact ⟨(fun t ht => by cases ht), fun _ => rfl⟩

theorem happenAll_inv : ∀ (hs : List Happening) (docs : Docs) (d : Disk) (s s' : Vfs), Inv docs d s → DiskOk d → Orderly d hs →
    (∀ p, Happening.preload p ∉ hs) → happenAll docs d hs s = .ok s' → Inv (outsideAll docs d hs).1 (outsideAll docs d hs).2 s' := by
  intro hs
  induction hs with
  | nil => intro docs d s s' h _ _ _ hok; rw [happenAll] at hok; cases hok; exact h
  | cons x hs ih =>
    intro docs d s s' h hd ho hn hok
    rw [happenAll] at hok
    cases h1 : happen d x s with
    | error e => rw [h1] at hok; cases hok
    | ok s1 =>
      rw [h1] at hok
      rw [outsideAll]
      have hn' : ∀ p, Happening.preload p ∉ hs := fun p hp => hn p (List.mem_cons_of_mem _ hp)
      cases x with
      | edit p text =>
        obtain ⟨⟨r, s2⟩, a, rfl⟩ := map_ok h1
        exact ih _ _ _ _ (store_inv h a).2 hd ho hn' hok
      | close p =>
        obtain ⟨⟨r, s2⟩, a, rfl⟩ := map_ok h1
        exact ih _ _ _ _ (close_inv h a).2 hd ho hn' hok
      | disk p d' =>
        obtain ⟨⟨r, s2⟩, a, rfl⟩ := map_ok h1
        exact ih _ _ _ _ (notify_inv h hd ho.1 ho.2.2.1 a).2 ho.2.1 ho.2.2.2 hn' hok
      | need p => cases h1; exact ih _ _ _ _ (load_inv p h).1 hd ho hn' hok
      | preload p => exact absurd (List.mem_cons_self ..) (hn p)
      | mention p => cases h1; exact ih _ _ _ _ (reserve_inv p h) hd ho hn' hok
      | depend i p => cases h1; exact ih _ _ _ _ (depend_inv i p h) hd ho hn' hok
      | missing i p => cases h1; exact ih _ _ _ _ (addMissing_inv i p h) hd ho hn' hok

/-- **C16.** After every history without a crash, in which no file of the workspace was preloaded:
every text in use is the text of the open document or else the text on disk, an open document is
found and has its text, and a file that is read gets the text that it should have.

Missing: histories that preload a file of the workspace (see `overlay_preload_violation`), and
histories with a crash (see `overlay_crash_violation`). -/
theorem overlay_partial (d0 : Disk) (hd : DiskOk d0) (hs : List Happening) (ho : Orderly d0 hs) (hn : ∀ p, Happening.preload p ∉ hs)
    (s : Vfs) (hok : happenAll (fun _ => none) d0 hs (Vfs.start d0) = .ok s)
    (docs : Docs) (d : Disk) (hout : outsideAll (fun _ => none) d0 hs = (docs, d)) :
    (∀ i p text, UsesText s i p text → expected docs d p = some text) ∧
    (∀ p text, docs p = some text → ∃ i, (load d p s).1 = some i ∧ UsesText (load d p s).2 i p text) ∧
    (∀ p i, (load d p s).1 = some i → ∃ text, UsesText (load d p s).2 i p text ∧ expected docs d p = some text) := by
  have h := happenAll_inv hs _ d0 _ s (start_inv d0) hd ho hn hok
  rw [hout] at h
  refine ⟨?_, ?_, ?_⟩
  · rintro i p text ⟨f, a, b, c⟩
    exact h.texts i f p text a b c
  · intro p text hp
    obtain ⟨i, a, b⟩ := load_open h hp
    exact ⟨i, by rw [a], by rw [a]; exact b⟩
  · intro p i hi
    exact (load_inv p h).2 i hi

end Verif.Vfs
