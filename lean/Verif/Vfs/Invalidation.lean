import Verif.Vfs.Lemmas

/-! # Results of a propagation, in terms of the state before it -/

namespace Verif.Vfs

theorem invalidateFiles_files {orig : Option Nat} {l : List Nat} {s : Vfs} {r : Res} {s' : Vfs}
    (hw : ∀ fs ∈ s.files, fs.entry < s.entries.length) (h : invalidateFiles orig (.files l) s = .ok (r, s')) :
    Post orig (· ∈ l) s r s' := by
  rw [invalidateFiles, invalidateFilesWith] at h
  exact post_list (fun i t r t' hb h => post_byIndex orig _ i t r t' hb h) l s r s' hw h

theorem invalidateFiles_total {orig : Option Nat} {l : List Nat} {s : Vfs} (hb : Bounded s) (hl : ∀ i ∈ l, i < s.files.length) :
    ∃ r s', invalidateFiles orig (.files l) s = .ok (r, s') := by
  rw [invalidateFiles, invalidateFilesWith]
  exact list_total (w := s.entries.length) (orig := orig) (fun j t hbt hj hwt => byIndex_total orig _ j t hbt hj (by omega))
    (fun j t r t' hbt h => post_byIndex orig _ j t r t' hbt h) l s hb hl (work_le s)

/-- The visited files are the reached ones. -/
theorem Post.visited {orig : Option Nat} {roots : Nat → Prop} {s s' : Vfs} (h : Post orig roots s .files s') :
    ∃ m hk, s'.marks = s.marks ++ m ∧ s'.hooks = s.hooks ++ hk ∧ (∀ x ∈ m, x.2 = orig) ∧
      (∀ k, k ∈ m.map (·.1) ↔ Reach s roots k) ∧
      (∀ k, Reach s roots k → ¬ WholeDb s k ∧ ∃ fs, s.files[k]? = some fs ∧ s'.inv fs.entry = .files []) ∧
      (∀ p, p ∈ hk ↔ ∃ k, Reach s roots k ∧ HookOf s p k) ∧
      (∀ e, (∀ k fs, Reach s roots k → s.files[k]? = some fs → fs.entry ≠ e) → s'.inv e = s.inv e) := by
  obtain ⟨m, hk, b1, b2, b3, b4, b5, b6, b7, _⟩ := h.grow
  have hvis : ∀ k, k ∈ m.map (·.1) ↔ Reach s roots k := by
    intro k
    constructor
    · intro hk
      obtain ⟨x, hx, rfl⟩ := List.mem_map.mp hk
      exact (b3 x hx).2
    · intro hr
      induction hr with
      | root hr => exact b5 rfl _ hr
      | @step i j _ hrec ih =>
        obtain ⟨x, hx, rfl⟩ := List.mem_map.mp ih
        obtain ⟨fs, hfs, he⟩ := b4 rfl x hx
        rw [records_iff] at hrec
        obtain ⟨fs', l, hfs', hl, hj⟩ := hrec
        rw [hfs] at hfs'
        cases hfs'
        rcases b6 fs.entry with h' | ⟨l', h1, _, h3, _⟩
        · rw [h', hl] at he
          cases he
          simp at hj
        · rw [hl] at h1
          cases h1
          exact h3 rfl j hj
  refine ⟨m, hk, b1, b2, fun x hx => (b3 x hx).1, hvis, ?_, ?_, ?_⟩
  · intro k hr
    obtain ⟨x, hx, rfl⟩ := List.mem_map.mp ((hvis k).mpr hr)
    obtain ⟨fs, hfs, he⟩ := b4 rfl x hx
    refine ⟨?_, fs, hfs, he⟩
    intro hwd
    obtain ⟨fs', hfs', hd⟩ := (wholeDb_iff s' x.1).mp ((h.wholeDb x.1).mpr hwd)
    rw [h.files, hfs] at hfs'
    cases hfs'
    rw [he] at hd
    cases hd
  · intro p
    rw [b7 rfl]
    constructor
    · rintro ⟨i, hi, h⟩; exact ⟨i, (hvis i).mp hi, h⟩
    · rintro ⟨i, hi, h⟩; exact ⟨i, (hvis i).mpr hi, h⟩
  · intro e he
    rcases b6 e with h' | ⟨_, _, _, _, x, hx, fs, hfs, hfe⟩
    · exact h'
    · exact absurd hfe (he x fs ((hvis x).mp hx) hfs)

theorem invalidateAndUnload_eq {i : Nat} {s : Vfs} {fs : FileState} (hfs : s.files[i]? = some fs) :
    invalidateAndUnload i s = invalidateFiles (some i) (s.inv fs.entry) ((s.unload i).setInv fs.entry (s.inv fs.entry).afterTake) := by
  rw [invalidateAndUnload, hfs]
  rfl

/-- The state in which the propagation starts after a file was changed. -/
def started (s : Vfs) (i : Nat) (e : Nat) : Vfs := (s.unload i).setInv e (.files [])

theorem files_unload (s : Vfs) (i k : Nat) :
    (s.unload i).files[k]? = (s.files[k]?).map (fun f => if i = k then { f with code := none } else f) := by
  rw [Vfs.unload, getElem?_modify']
  by_cases h : i = k
  · simp [h]
  · simp [h]

theorem files_started (s : Vfs) (i e k : Nat) (fs : FileState) (h : s.files[k]? = some fs) :
    ∃ fs', (started s i e).files[k]? = some fs' ∧ fs'.entry = fs.entry ∧ fs'.path = fs.path := by
  refine ⟨if i = k then { fs with code := none } else fs, ?_, ?_, ?_⟩
  · show (s.unload i).files[k]? = _
    rw [files_unload, h]; rfl
  · split <;> rfl
  · split <;> rfl

theorem files_started_conv (s : Vfs) (i e k : Nat) (fs' : FileState) (h : (started s i e).files[k]? = some fs') :
    ∃ fs, s.files[k]? = some fs ∧ fs'.entry = fs.entry ∧ fs'.path = fs.path := by
  have h' : (s.unload i).files[k]? = some fs' := h
  rw [files_unload] at h'
  cases hk : s.files[k]? with
  | none => rw [hk] at h'; cases h'
  | some fs =>
    rw [hk] at h'
    obtain rfl := Option.some.inj h'
    refine ⟨fs, rfl, ?_, ?_⟩
    · split <;> rfl
    · split <;> rfl

theorem started_entry {s : Vfs} (hw : ∀ fs ∈ s.files, fs.entry < s.entries.length) (i e : Nat) :
    ∀ fs ∈ (started s i e).files, fs.entry < (started s i e).entries.length := by
  intro fs hfs
  obtain ⟨k, hk⟩ := List.getElem?_of_mem hfs
  obtain ⟨fs0, h0, h1, _⟩ := files_started_conv s i e k fs hk
  rw [h1]
  show _ < ((s.unload i).setInv e (.files [])).entries.length
  rw [length_setInv]
  exact hw fs0 (List.mem_of_getElem? h0)

theorem inv_started {s : Vfs} {e : Nat} (he : e < s.entries.length) (i e' : Nat) :
    (started s i e).inv e' = if e = e' then .files [] else s.inv e' := by
  rw [started, inv_setInv _ _ _ _ (by exact he)]
  rfl

theorem started_bounded {s : Vfs} (hb : Bounded s) {i e : Nat} (he : e < s.entries.length) : Bounded (started s i e) := by
  refine ⟨started_entry hb.1 i e, ?_⟩
  intro e' l hl j hj
  have hlen : (started s i e).files.length = s.files.length := by
    show (s.unload i).files.length = _
    simp [Vfs.unload]
  rw [hlen]
  rw [inv_started he] at hl
  split at hl
  · cases hl; simp at hj
  · exact hb.2 e' l hl j hj

/-- From the state in which the propagation starts, the dependents of the changed file are reached. -/
theorem reach_started {s : Vfs} {i : Nat} {fs : FileState} {l : List Nat} (hfs : s.files[i]? = some fs)
    (he : fs.entry < s.entries.length) (hl : s.inv fs.entry = .files l) (k : Nat) :
    Reach (started s i fs.entry) (· ∈ l) k ↔ Dependent s i k := by
  constructor
  · intro h
    induction h with
    | root h => exact .direct ((records_iff s i _).mpr ⟨fs, l, hfs, hl, h⟩)
    | @step a b _ hr ih =>
      refine .step ih ?_
      rw [records_iff] at hr ⊢
      obtain ⟨fa, la, h1, h2, h3⟩ := hr
      obtain ⟨f0, h4, h5, _⟩ := files_started_conv s i _ _ _ h1
      rw [inv_started he] at h2
      split at h2
      · cases h2; simp at h3
      · exact ⟨f0, la, h4, h5 ▸ h2, h3⟩
  · intro h
    induction h with
    | direct h =>
      rw [records_iff] at h
      obtain ⟨fs', l', h1, h2, h3⟩ := h
      rw [hfs] at h1; cases h1
      rw [hl] at h2; cases h2
      exact .root h3
    | @step a b _ hr ih =>
      rw [records_iff] at hr
      obtain ⟨fa, la, h1, h2, h3⟩ := hr
      by_cases hee : fs.entry = fa.entry
      · rw [← hee, hl] at h2
        cases h2
        exact .root h3
      · refine .step ih ?_
        rw [records_iff]
        obtain ⟨f', h4, h5, _⟩ := files_started s i fs.entry a fa h1
        exact ⟨f', la, h4, by rw [h5, inv_started he, if_neg hee]; exact h2, h3⟩

theorem wholeDb_started {s : Vfs} {i : Nat} {fs : FileState} {l : List Nat}
    (he : fs.entry < s.entries.length) (hl : s.inv fs.entry = .files l) (k : Nat) :
    WholeDb (started s i fs.entry) k ↔ WholeDb s k := by
  rw [wholeDb_iff, wholeDb_iff]
  constructor
  · rintro ⟨fk, h1, h2⟩
    obtain ⟨f0, h4, h5, _⟩ := files_started_conv s i _ _ _ h1
    rw [inv_started he] at h2
    split at h2
    · cases h2
    · exact ⟨f0, h4, h5 ▸ h2⟩
  · rintro ⟨fk, h1, h2⟩
    obtain ⟨f', h4, h5, _⟩ := files_started s i fs.entry k fk h1
    refine ⟨f', h4, ?_⟩
    rw [h5, inv_started he]
    split
    · rename_i hee; rw [← hee, hl] at h2; cases h2
    · exact h2

theorem hookOf_started (s : Vfs) (i e : Nat) (p : Path) (k : Nat) :
    HookOf (started s i e) p k ↔ OpenPath s p ∧ HasPath s k p := by
  have hm : (started s i e).isOpen (some p) = s.isOpen (some p) := rfl
  simp only [HookOf, hm, isOpen_iff]
  constructor
  · rintro ⟨f, h1, h2, h3⟩
    obtain ⟨x, hx, rfl⟩ := List.mem_map.mp h3
    obtain ⟨f0, h4, _, h6⟩ := files_started_conv s i _ _ _ h1
    exact ⟨⟨x.2, hx⟩, f0, h4, h6 ▸ h2⟩
  · rintro ⟨⟨j, hj⟩, f, h1, h2⟩
    obtain ⟨f', h4, _, h6⟩ := files_started s i e k f h1
    exact ⟨f', h4, h6 ▸ h2, List.mem_map.mpr ⟨(p, j), hj, rfl⟩⟩

end Verif.Vfs
