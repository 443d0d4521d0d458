import Verif.Vfs.OverlaySpec
import Verif.Vfs.DependentsProps

/-! # The overlay: lemmas about the tree and the invariant of the virtual file system -/

namespace Verif.Vfs

/-! ## Maps -/

theorem treeGet_set (t : List (Path × Node)) (p q : Path) (n : Node) :
    treeGet (treeSet t p n) q = if p = q then some n else treeGet t q := by
  rw [treeGet, treeSet, List.find?_cons]
  by_cases h : p = q
  · subst h; simp
  · have h1 : (p == q) = false := by simpa using h
    simp only [h1, if_neg h]
    rw [treeGet]
    congr 1
    induction t with
    | nil => rfl
    | cons x t ih =>
      by_cases hx : x.1 = p
      · have h2 : (x.1 == q) = false := by rw [hx]; exact h1
        rw [List.filter_cons, if_neg (by simpa using hx), List.find?_cons, h2, ih]
      · rw [List.filter_cons, if_pos (by simpa using hx), List.find?_cons, List.find?_cons, ih]

theorem treeGet_remove (t : List (Path × Node)) (p q : Path) :
    treeGet (treeRemove t p) q = if p <+: q then none else treeGet t q := by
  rw [treeGet, treeRemove, treeGet]
  induction t with
  | nil => simp
  | cons x t ih =>
    rw [List.filter_cons]
    by_cases hx : p <+: x.1
    · have h1 : (!p.isPrefixOf x.1) = false := by simpa using hx
      simp only [h1, Bool.false_eq_true, if_false, ih, List.find?_cons]
      split
      · rfl
      · rename_i hq
        have h2 : (x.1 == q) = false := by
          rw [beq_eq_false_iff_ne]
          rintro rfl
          exact hq hx
        rw [h2]
    · have h1 : (!p.isPrefixOf x.1) = true := by
        rw [Bool.not_eq_true', ← Bool.not_eq_true, List.isPrefixOf_iff_prefix]; exact hx
      simp only [h1, if_true, List.find?_cons]
      by_cases hq : x.1 = q
      · have h2 : (x.1 == q) = true := by simpa using hq
        rw [h2, if_neg (by rw [← hq]; exact hx)]
      · have h2 : (x.1 == q) = false := by simpa using hq
        rw [h2, ih]

theorem mem_of_treeGet {t : List (Path × Node)} {p : Path} {n : Node} (h : treeGet t p = some n) : (p, n) ∈ t := by
  rw [treeGet] at h
  obtain ⟨x, hx, rfl⟩ := Option.map_eq_some_iff.mp h
  have h1 := List.mem_of_find?_eq_some hx
  have h2 := List.find?_some hx
  have : x.1 = p := by simpa using h2
  rw [← this]; exact h1

theorem mem_treeSet {t : List (Path × Node)} {p : Path} {n : Node} {x : Path × Node} (h : x ∈ treeSet t p n) : x = (p, n) ∨ x ∈ t := by
  rcases List.mem_cons.mp h with h | h
  · exact .inl h
  · exact .inr (List.mem_filter.mp h).1

theorem memGet_mem {s : Vfs} {p : Path} {i : Nat} (h : s.memGet p = some i) : (p, i) ∈ s.mem := by
  rw [Vfs.memGet] at h
  obtain ⟨x, hx, rfl⟩ := Option.map_eq_some_iff.mp h
  have h1 := List.mem_of_find?_eq_some hx
  have h2 := List.find?_some hx
  have : x.1 = p := by simpa using h2
  rw [← this]; exact h1

theorem memGet_none {s : Vfs} {p : Path} : s.memGet p = none ↔ s.isOpen (some p) = false := by
  rw [Vfs.memGet, Vfs.isOpen, Option.map_eq_none_iff, List.find?_eq_none]
  simp

theorem memGet_filter (s : Vfs) (p q : Path) :
    Vfs.memGet { s with mem := s.mem.filter (fun m => m.1 != p) } q = if p = q then none else s.memGet q := by
  rw [Vfs.memGet, Vfs.memGet]
  show Option.map _ ((s.mem.filter (fun m => m.1 != p)).find? _) = _
  induction s.mem with
  | nil => simp
  | cons x t ih =>
    rw [List.filter_cons, List.find?_cons]
    by_cases hx : x.1 = p
    · rw [if_neg (by simpa using hx), ih]
      by_cases hq : p = q
      · rw [if_pos hq, if_pos hq]
      · have : (x.1 == q) = false := by rw [hx]; simpa using hq
        rw [if_neg hq, if_neg hq, this]
    · rw [if_pos (by simpa using hx), List.find?_cons]
      by_cases hq : p = q
      · subst hq
        have : (x.1 == p) = false := by simpa using hx
        rw [if_pos rfl, this, ih, if_pos rfl]
      · rw [if_neg hq]
        by_cases hxq : x.1 = q
        · have : (x.1 == q) = true := by simpa using hxq
          rw [this]
        · have : (x.1 == q) = false := by simpa using hxq
          rw [this, ih, if_neg hq]

theorem memGet_set (s : Vfs) (p q : Path) (i : Nat) : (s.memSet p i).memGet q = if p = q then some i else s.memGet q := by
  have h := memGet_filter s p q
  rw [Vfs.memGet] at h ⊢
  rw [Vfs.memSet, List.find?_cons]
  by_cases hq : p = q
  · subst hq; simp
  · have : (p == q) = false := by simpa using hq
    simp only [this, if_neg hq]
    rw [if_neg hq] at h
    exact h

theorem index_append (s : Vfs) (x : FileEntry) (e : Nat) (t : List (Path × Node)) :
    Vfs.index { s with entries := s.entries ++ [x], tree := t } e = if e = s.entries.length then x.index else s.index e := by
  rw [Vfs.index, Vfs.index]
  show (match (s.entries ++ [x])[e]? with | some x => x.index | none => none) = _
  by_cases h : e = s.entries.length
  · subst h; simp
  · rw [if_neg h]
    by_cases h1 : e < s.entries.length
    · rw [List.getElem?_append_left h1]
      cases s.entries[e]? <;> rfl
    · rw [List.getElem?_eq_none (by simp; omega), List.getElem?_eq_none (by omega)]

theorem inv_append (s : Vfs) (x : FileEntry) (e : Nat) (t : List (Path × Node)) :
    Vfs.inv { s with entries := s.entries ++ [x], tree := t } e = if e = s.entries.length then x.inv else s.inv e := by
  rw [Vfs.inv, Vfs.inv]
  show (match (s.entries ++ [x])[e]? with | some x => x.inv | none => .empty) = _
  by_cases h : e = s.entries.length
  · subst h; simp
  · rw [if_neg h]
    by_cases h1 : e < s.entries.length
    · rw [List.getElem?_append_left h1]
      cases s.entries[e]? <;> rfl
    · rw [List.getElem?_eq_none (by simp; omega), List.getElem?_eq_none (by omega)]

/-! ## The invariant -/

/-- All directories above `p` are in the tree and were read. -/
def ParentsOk (s : Vfs) (p : Path) : Prop := ∀ q, q ≠ [] → q <+: p → q ≠ p → treeGet s.tree q = some (.dir true)

/-- The structure of the state. Files in `X` may be loaded without being in the tree. -/
structure Base (X : Nat → Prop) (s : Vfs) : Prop where
  wf : WellFormed s
  noDb : ∀ e, s.inv e ≠ .invalidatesDb
  noDbMissing : ∀ x ∈ s.tree, x.2 ≠ .missing .invalidatesDb
  closed : ∀ p n, treeGet s.tree p = some n → p ≠ [] ∧ ParentsOk s p
  entryPath : ∀ p e i, treeGet s.tree p = some (.file e) → s.index e = some i → ∃ f, s.files[i]? = some f ∧ f.path = some p
  entryUniq : ∀ p q e, treeGet s.tree p = some (.file e) → treeGet s.tree q = some (.file e) → p = q
  loadedAt : ∀ (i : Nat) (f : FileState) p c, s.files[i]? = some f → f.path = some p → f.code = some c →
    X i ∨ ∃ e, treeGet s.tree p = some (.file e) ∧ s.index e = some i
  memPath : ∀ p i, (p, i) ∈ s.mem → ∃ f, s.files[i]? = some f ∧ f.path = some p
  memUniq : ∀ p i j, (p, i) ∈ s.mem → (p, j) ∈ s.mem → i = j

/-- The texts of loaded files are as expected. -/
def TextsOk (ex : Path → Option String) (s : Vfs) : Prop :=
  ∀ (i : Nat) (f : FileState) p c, s.files[i]? = some f → f.path = some p → f.code = some c → ex p = some c

/-- The open documents are known with their text. -/
def OpenOk (docs : Docs) (s : Vfs) : Prop :=
  ∀ p, (∀ t, docs p = some t → ∃ i, s.memGet p = some i ∧ s.code i = some t) ∧ (docs p = none → s.memGet p = none)

/-- A place in the tree that holds nothing that is in use. -/
def Free (s : Vfs) (p : Path) : Prop :=
  ∀ n, treeGet s.tree p = some n → (∃ d, n = .missing d) ∨ n = .dir false ∨ ∃ e, n = .file e ∧ s.index e = none

theorem mem_entries_inv {s : Vfs} {x : FileEntry} (h : x ∈ s.entries) : ∃ e, s.entries[e]? = some x ∧ s.inv e = x.inv ∧ s.index e = x.index := by
  obtain ⟨e, he⟩ := List.getElem?_of_mem h
  exact ⟨e, he, by rw [Vfs.inv, he], by rw [Vfs.index, he]⟩

theorem index_lt {X} {s : Vfs} (h : Base X s) {e i : Nat} (hi : s.index e = some i) : i < s.files.length := by
  rw [Vfs.index] at hi
  cases he : s.entries[e]? with
  | none => rw [he] at hi; cases hi
  | some x => rw [he] at hi; exact h.wf.index x (List.mem_of_getElem? he) i hi

/-- Setting a directory or a missing entry. -/
theorem base_setNode {X} {s : Vfs} (h : Base X s) {p : Path} (hf : Free s p) (hp : p ≠ []) (hpar : ParentsOk s p) {n : Node}
    (hn : ∀ e, n ≠ .file e) (hdb : n ≠ .missing .invalidatesDb)
    (hm : ∀ l, n = .missing (.files l) → ∀ i ∈ l, i < s.files.length) :
    Base X { s with tree := treeSet s.tree p n } := by
  have hother : ∀ q e, treeGet (treeSet s.tree p n) q = some (.file e) → q ≠ p ∧ treeGet s.tree q = some (.file e) := by
    intro q e hq
    rw [treeGet_set] at hq
    split at hq
    · cases hq; exact absurd rfl (hn e)
    · rename_i hne; exact ⟨fun h => hne h.symm, hq⟩
  have hpar' : ∀ q, q ≠ [] → q <+: p → q ≠ p → treeGet (treeSet s.tree p n) q = some (.dir true) := by
    intro q h1 h2 h3
    rw [treeGet_set, if_neg (fun h => h3 h.symm)]
    exact hpar q h1 h2 h3
  refine ⟨⟨h.wf.entry, h.wf.index, h.wf.dependents, ?_, ?_, h.wf.mem⟩, h.noDb, ?_, ?_, ?_, ?_, ?_, h.memPath, h.memUniq⟩
  · intro x hx l hl
    rcases mem_treeSet hx with rfl | hx
    · exact hm l hl
    · exact h.wf.missing x hx l hl
  · intro x hx e he
    rcases mem_treeSet hx with rfl | hx
    · exact absurd he (hn e)
    · exact h.wf.node x hx e he
  · intro x hx
    rcases mem_treeSet hx with rfl | hx
    · exact hdb
    · exact h.noDbMissing x hx
  · intro q m hq
    rw [show treeGet ({ s with tree := treeSet s.tree p n } : Vfs).tree q = treeGet (treeSet s.tree p n) q from rfl, treeGet_set] at hq
    split at hq
    · rename_i hpq
      subst hpq
      exact ⟨hp, hpar'⟩
    · rename_i hpq
      obtain ⟨h1, h2⟩ := h.closed q m hq
      refine ⟨h1, fun r r1 r2 r3 => ?_⟩
      show treeGet (treeSet s.tree p n) r = _
      rw [treeGet_set]
      split
      · rename_i hpr
        subst hpr
        have hd := h2 p r1 r2 r3
        rcases hf _ hd with ⟨d, hd⟩ | hd | ⟨e, hd, _⟩ <;> cases hd
      · exact h2 r r1 r2 r3
  · intro q e i hq hi
    exact h.entryPath q e i (hother q e hq).2 hi
  · intro q r e hq hr
    exact h.entryUniq q r e (hother q e hq).2 (hother r e hr).2
  · intro i f q c h1 h2 h3
    rcases h.loadedAt i f q c h1 h2 h3 with hx | ⟨e, h4, h5⟩
    · exact .inl hx
    · refine .inr ⟨e, ?_, h5⟩
      show treeGet (treeSet s.tree p n) q = _
      rw [treeGet_set]
      split
      · rename_i hpq
        subst hpq
        rcases hf _ h4 with ⟨d, hd⟩ | hd | ⟨e', hd, hi⟩
        · cases hd
        · cases hd
        · cases hd; rw [hi] at h5; cases h5
      · exact h4

theorem addEntry_index (s : Vfs) (p : Path) (e : Nat) : (s.addEntry p).index e = s.index e := by
  rw [Vfs.addEntry, index_append]
  split
  · rename_i h
    subst h
    rw [Vfs.index, List.getElem?_eq_none (Nat.le_refl _)]
  · rfl

theorem addEntry_inv (s : Vfs) (p : Path) (e : Nat) : (s.addEntry p).inv e = s.inv e := by
  rw [Vfs.addEntry, inv_append]
  split
  · rename_i h
    subst h
    rw [Vfs.inv, List.getElem?_eq_none (Nat.le_refl _)]
  · rfl

theorem base_addEntry {X} {s : Vfs} (h : Base X s) {p : Path} (hf : Free s p) (hp : p ≠ []) (hpar : ParentsOk s p) :
    Base X (s.addEntry p) := by
  have hget : ∀ q, treeGet (s.addEntry p).tree q = if p = q then some (.file s.entries.length) else treeGet s.tree q :=
    fun q => treeGet_set _ _ _ _
  have hlt : ∀ q e, treeGet s.tree q = some (.file e) → e < s.entries.length := fun q e hq => h.wf.node _ (mem_of_treeGet hq) e rfl
  have hnew : s.index s.entries.length = none := by rw [Vfs.index, List.getElem?_eq_none (Nat.le_refl _)]
  have hlen : (s.addEntry p).entries.length = s.entries.length + 1 := by simp [Vfs.addEntry]
  refine ⟨⟨?_, ?_, ?_, ?_, ?_, h.wf.mem⟩, ?_, ?_, ?_, ?_, ?_, ?_, h.memPath, h.memUniq⟩
  · intro f hf'; rw [hlen]; exact Nat.lt_succ_of_lt (h.wf.entry f hf')
  · intro x hx i hi
    rcases List.mem_append.mp hx with hx | hx
    · exact h.wf.index x hx i hi
    · rw [List.mem_singleton] at hx; subst hx; cases hi
  · intro x hx l hl i hi
    rcases List.mem_append.mp hx with hx | hx
    · exact h.wf.dependents x hx l hl i hi
    · rw [List.mem_singleton] at hx; subst hx; cases hl; simp at hi
  · intro x hx l hl
    rcases mem_treeSet hx with rfl | hx
    · cases hl
    · exact h.wf.missing x hx l hl
  · intro x hx e he
    rw [hlen]
    rcases mem_treeSet hx with rfl | hx
    · cases he; exact Nat.lt_succ_self _
    · exact Nat.lt_succ_of_lt (h.wf.node x hx e he)
  · intro e; rw [addEntry_inv]; exact h.noDb e
  · intro x hx
    rcases mem_treeSet hx with rfl | hx
    · intro hc; cases hc
    · exact h.noDbMissing x hx
  · intro q m hq
    rw [hget] at hq
    split at hq
    · rename_i hpq
      subst hpq
      refine ⟨hp, fun r r1 r2 r3 => ?_⟩
      rw [hget, if_neg (fun hc => r3 hc.symm)]
      exact hpar r r1 r2 r3
    · obtain ⟨h1, h2⟩ := h.closed q m hq
      refine ⟨h1, fun r r1 r2 r3 => ?_⟩
      rw [hget]
      split
      · rename_i hpr
        subst hpr
        have hd := h2 p r1 r2 r3
        rcases hf _ hd with ⟨d, hd⟩ | hd | ⟨e, hd, _⟩ <;> cases hd
      · exact h2 r r1 r2 r3
  · intro q e i hq hi
    rw [addEntry_index] at hi
    rw [hget] at hq
    split at hq
    · cases hq; rw [hnew] at hi; cases hi
    · exact h.entryPath q e i hq hi
  · intro q r e hq hr
    rw [hget] at hq hr
    split at hq
    · rename_i h1
      cases hq
      split at hr
      · rename_i h2; rw [← h1, ← h2]
      · have := hlt r _ hr; omega
    · split at hr
      · cases hr
        have := hlt q _ hq; omega
      · exact h.entryUniq q r e hq hr
  · intro i f q c h1 h2 h3
    rcases h.loadedAt i f q c h1 h2 h3 with hx | ⟨e, h4, h5⟩
    · exact .inl hx
    · refine .inr ⟨e, ?_, by rw [addEntry_index]; exact h5⟩
      rw [hget]
      split
      · rename_i hpq
        subst hpq
        rcases hf _ h4 with ⟨d, hd⟩ | hd | ⟨e', hd, hi⟩
        · cases hd
        · cases hd
        · cases hd; rw [hi] at h5; cases h5
      · exact h4

/-- What reading directories and adding entries does not change. -/
structure Extends (s s' : Vfs) : Prop where
  files : s'.files = s.files
  mem : s'.mem = s.mem
  marks : s'.marks = s.marks
  hooks : s'.hooks = s.hooks
  idx : ∀ e, s'.index e = s.index e
  inv : ∀ e, s'.inv e = s.inv e
  /-- Files that have an index stay in the tree, and directories that were read. -/
  kept : ∀ q e i, treeGet s.tree q = some (.file e) → s.index e = some i → treeGet s'.tree q = some (.file e)
  dirs : ∀ q, treeGet s.tree q = some (.dir true) → treeGet s'.tree q = some (.dir true)
  /-- New files have no index. -/
  fresh : ∀ q e, treeGet s'.tree q = some (.file e) → treeGet s.tree q = some (.file e) ∨ s.index e = none

theorem Extends.refl (s : Vfs) : Extends s s :=
  ⟨rfl, rfl, rfl, rfl, fun _ => rfl, fun _ => rfl, fun _ _ _ h _ => h, fun _ h => h, fun _ _ h => .inl h⟩

theorem Extends.trans {s t u : Vfs} (h1 : Extends s t) (h2 : Extends t u) : Extends s u := by
  refine ⟨h2.files.trans h1.files, h2.mem.trans h1.mem, h2.marks.trans h1.marks, h2.hooks.trans h1.hooks,
    fun e => (h2.idx e).trans (h1.idx e), fun e => (h2.inv e).trans (h1.inv e), ?_, fun q hq => h2.dirs q (h1.dirs q hq), ?_⟩
  · intro q e i hq hi
    exact h2.kept q e i (h1.kept q e i hq hi) (by rw [h1.idx]; exact hi)
  · intro q e hq
    rcases h2.fresh q e hq with h | h
    · exact h1.fresh q e h
    · exact .inr (by rw [← h1.idx]; exact h)

theorem Extends.parentsOk {s s' : Vfs} (h : Extends s s') {p : Path} (hp : ParentsOk s p) : ParentsOk s' p :=
  fun q h1 h2 h3 => h.dirs q (hp q h1 h2 h3)

theorem extends_setNode {s : Vfs} {p : Path} (hf : Free s p) {n : Node} (hn : ∀ e, n ≠ .file e) : Extends s { s with tree := treeSet s.tree p n } := by
  refine ⟨rfl, rfl, rfl, rfl, fun _ => rfl, fun _ => rfl, ?_, ?_, ?_⟩
  · intro q e i hq hi
    show treeGet (treeSet s.tree p n) q = _
    rw [treeGet_set]
    split
    · rename_i hpq
      subst hpq
      rcases hf _ hq with ⟨d, hd⟩ | hd | ⟨e', hd, hi'⟩
      · cases hd
      · cases hd
      · cases hd; rw [hi] at hi'; cases hi'
    · exact hq
  · intro q hq
    show treeGet (treeSet s.tree p n) q = _
    rw [treeGet_set]
    split
    · rename_i hpq
      subst hpq
      rcases hf _ hq with ⟨d, hd⟩ | hd | ⟨e', hd, hi'⟩ <;> cases hd
    · exact hq
  · intro q e hq
    rw [show treeGet ({ s with tree := treeSet s.tree p n } : Vfs).tree q = treeGet (treeSet s.tree p n) q from rfl, treeGet_set] at hq
    split at hq
    · cases hq; exact absurd rfl (hn e)
    · exact .inl hq

theorem extends_addEntry {s : Vfs} {p : Path} (hf : Free s p) : Extends s (s.addEntry p) := by
  have hget : ∀ q, treeGet (s.addEntry p).tree q = if p = q then some (.file s.entries.length) else treeGet s.tree q :=
    fun q => treeGet_set _ _ _ _
  refine ⟨rfl, rfl, rfl, rfl, addEntry_index s p, addEntry_inv s p, ?_, ?_, ?_⟩
  · intro q e i hq hi
    rw [hget]
    split
    · rename_i hpq
      subst hpq
      rcases hf _ hq with ⟨d, hd⟩ | hd | ⟨e', hd, hi'⟩
      · cases hd
      · cases hd
      · cases hd; rw [hi] at hi'; cases hi'
    · exact hq
  · intro q hq
    rw [hget]
    split
    · rename_i hpq
      subst hpq
      rcases hf _ hq with ⟨d, hd⟩ | hd | ⟨e', hd, hi'⟩ <;> cases hd
    · exact hq
  · intro q e hq
    rw [hget] at hq
    split at hq
    · cases hq
      right
      rw [Vfs.index, List.getElem?_eq_none (Nat.le_refl _)]
    · exact .inl hq

/-! ## Reading directories -/

theorem parentsOk_child {s : Vfs} {p q : Path} (hp : p = [] ∨ treeGet s.tree p = some (.dir true)) (hpar : ParentsOk s p) (hq : q ≠ [])
    (hd : q.dropLast = p) : ParentsOk s q := by
  intro r h1 h2 h3
  have hq' : q = p ++ [q.getLast hq] := by rw [← hd]; exact (List.dropLast_concat_getLast hq).symm
  have hrp : r <+: p := by
    rw [hq'] at h2
    rcases List.prefix_concat_iff.mp h2 with h | h
    · exact absurd (h.trans hq'.symm) h3
    · exact h
  by_cases hr : r = p
  · subst hr
    rcases hp with h | h
    · exact absurd h h1
    · exact h
  · exact hpar r h1 hrp hr

/-- Children of a directory that hold nothing in use. -/
def FreeBelow (s : Vfs) (p : Path) : Prop := ∀ q, q ≠ [] → q.dropLast = p → Free s q

theorem readChild_spec {X} {s : Vfs} (h : Base X s) {p : Path} (hp : p = [] ∨ treeGet s.tree p = some (.dir true)) (hpar : ParentsOk s p)
    (hfree : FreeBelow s p) (x : Path × DiskNode) :
    Base X (readChild p s x) ∧ Extends s (readChild p s x) ∧ FreeBelow (readChild p s x) p := by
  rw [readChild]
  split
  · rename_i hx
    have hparx := parentsOk_child hp hpar hx.1 hx.2
    have hfx := hfree x.1 hx.1 hx.2
    cases x.2 with
    | file t =>
      refine ⟨base_addEntry h hfx hx.1 hparx, extends_addEntry hfx, ?_⟩
      intro q h1 h2 n hn
      rw [show treeGet (s.addEntry x.1).tree q = if x.1 = q then some (.file s.entries.length) else treeGet s.tree q from treeGet_set _ _ _ _] at hn
      split at hn
      · cases hn
        refine .inr (.inr ⟨_, rfl, ?_⟩)
        rw [addEntry_index, Vfs.index, List.getElem?_eq_none (Nat.le_refl _)]
      · rcases hfree q h1 h2 n hn with h | h | ⟨e, h, hi⟩
        · exact .inl h
        · exact .inr (.inl h)
        · exact .inr (.inr ⟨e, h, by rw [addEntry_index]; exact hi⟩)
    | dir =>
      refine ⟨base_setNode h hfx hx.1 hparx (by intro e he; cases he) (by intro he; cases he) (by intro l hl; cases hl),
        extends_setNode hfx (by intro e he; cases he), ?_⟩
      intro q h1 h2 n hn
      rw [show treeGet ({ s with tree := treeSet s.tree x.1 (.dir false) } : Vfs).tree q = treeGet (treeSet s.tree x.1 (.dir false)) q from rfl,
        treeGet_set] at hn
      split at hn
      · cases hn; exact .inr (.inl rfl)
      · exact hfree q h1 h2 n hn
  · exact ⟨h, .refl s, hfree⟩

theorem readChildren_spec {X} (p : Path) : ∀ (d : Disk) (s : Vfs), Base X s → (p = [] ∨ treeGet s.tree p = some (.dir true)) → ParentsOk s p →
    FreeBelow s p → Base X (d.foldl (readChild p) s) ∧ Extends s (d.foldl (readChild p) s) := by
  intro d
  induction d with
  | nil => intro s h _ _ _; exact ⟨h, .refl s⟩
  | cons x d ih =>
    intro s h hp hpar hfree
    rw [List.foldl_cons]
    obtain ⟨h1, h2, h3⟩ := readChild_spec h hp hpar hfree x
    have hp' : p = [] ∨ treeGet (readChild p s x).tree p = some (.dir true) := by
      rcases hp with hp | hp
      · exact .inl hp
      · exact .inr (h2.dirs p hp)
    obtain ⟨h4, h5⟩ := ih _ h1 hp' (h2.parentsOk hpar) h3
    exact ⟨h4, h2.trans h5⟩

theorem readDir_spec {X} (d : Disk) {s : Vfs} (h : Base X s) {p : Path} (hp : p ≠ []) (hf : Free s p) (hpar : ParentsOk s p) :
    Base X (readDir d p s) ∧ Extends s (readDir d p s) ∧ treeGet (readDir d p s).tree p = some (.dir true) := by
  have hb := base_setNode h hf hp hpar (n := .dir true) (by intro e he; cases he) (by intro he; cases he) (by intro l hl; cases hl)
  have hx := extends_setNode hf (n := .dir true) (by intro e he; cases he)
  have hget : treeGet ({ s with tree := treeSet s.tree p (.dir true) } : Vfs).tree p = some (.dir true) := by
    show treeGet (treeSet s.tree p (.dir true)) p = _
    rw [treeGet_set, if_pos rfl]
  have hfree : FreeBelow { s with tree := treeSet s.tree p (.dir true) } p := by
    intro q h1 h2 n hn
    exfalso
    have hq' : q = p ++ [q.getLast h1] := by rw [← h2]; exact (List.dropLast_concat_getLast h1).symm
    have hpq : p <+: q := ⟨_, hq'.symm⟩
    have hne : p ≠ q := by
      intro hc
      have h5 : q.length = p.length + 1 := (congrArg List.length hq').trans (by simp)
      rw [hc] at h5
      omega
    rw [show treeGet ({ s with tree := treeSet s.tree p (.dir true) } : Vfs).tree q = treeGet (treeSet s.tree p (.dir true)) q from rfl,
      treeGet_set, if_neg hne] at hn
    have hd := (h.closed q n hn).2 p hp hpq hne
    rcases hf _ hd with ⟨d, hd⟩ | hd | ⟨e', hd, hi'⟩ <;> cases hd
  obtain ⟨h4, h5⟩ := readChildren_spec p d _ hb (.inr hget) (hx.parentsOk hpar) hfree
  exact ⟨h4, hx.trans h5, h5.dirs p hget⟩

end Verif.Vfs
