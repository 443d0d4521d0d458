import Verif.Vfs.OverlayLemmas

/-! # The overlay: what the operations preserve -/

namespace Verif.Vfs

/-! ## Finding and making files -/

/-- A list of dependents that exist. -/
def InvOk (s : Vfs) (d : Detail) : Prop := ∃ l, d = .files l ∧ ∀ i ∈ l, i < s.files.length

theorem invOk_empty (s : Vfs) : InvOk s .empty := ⟨[], rfl, by simp⟩

theorem invOk_extend {s : Vfs} {a b : Detail} (ha : InvOk s a) (hb : InvOk s b) : InvOk s (a.extend b) := by
  obtain ⟨l, rfl, h1⟩ := ha
  obtain ⟨m, rfl, h2⟩ := hb
  refine ⟨_, rfl, ?_⟩
  intro i hi
  rcases List.mem_append.mp hi with h | h
  · exact h1 i h
  · exact h2 i (List.mem_filter.mp h).1

theorem invOk_of_missing {X} {s : Vfs} (h : Base X s) {p : Path} {d : Detail} (hp : treeGet s.tree p = some (.missing d)) : InvOk s d := by
  have hm := mem_of_treeGet hp
  cases d with
  | invalidatesDb => exact absurd rfl (h.noDbMissing _ hm)
  | files l => exact ⟨l, rfl, h.wf.missing _ hm l rfl⟩

theorem invOk_files {s s' : Vfs} (hf : s'.files = s.files) {d : Detail} (h : InvOk s' d) : InvOk s d := by
  obtain ⟨l, rfl, h1⟩ := h
  exact ⟨l, rfl, hf ▸ h1⟩

theorem parentsOk_append {s : Vfs} {base : Path} (hb : base = [] ∨ treeGet s.tree base = some (.dir true)) (hpar : ParentsOk s base) (name : String) :
    ParentsOk s (base ++ [name]) :=
  parentsOk_child hb hpar (by simp) (by simp)

theorem ensureFileIn_spec {X} {s : Vfs} (h : Base X s) {p : Path} (hp : p ≠ []) (hpar : ParentsOk s p) {e : Nat} {inv : Detail} {s' : Vfs}
    (hok : ensureFileIn p s = .ok (e, inv, s')) :
    Base X s' ∧ Extends s s' ∧ treeGet s'.tree p = some (.file e) ∧ InvOk s inv := by
  have hset : treeGet (s.addEntry p).tree p = some (.file s.entries.length) := by
    show treeGet (treeSet s.tree p _) p = _
    rw [treeGet_set, if_pos rfl]
  rw [ensureFileIn] at hok
  cases hg : treeGet s.tree p with
  | none =>
    rw [hg] at hok
    cases hok
    have hf : Free s p := by intro n hn; rw [hg] at hn; cases hn
    exact ⟨base_addEntry h hf hp hpar, extends_addEntry hf, hset, invOk_empty s⟩
  | some n =>
    rw [hg] at hok
    cases n with
    | file e' => cases hok; exact ⟨h, .refl s, hg, invOk_empty s⟩
    | dir b => cases hok
    | missing d =>
      cases hok
      have hf : Free s p := by intro n hn; rw [hg] at hn; cases hn; exact .inl ⟨_, rfl⟩
      exact ⟨base_addEntry h hf hp hpar, extends_addEntry hf, hset, invOk_of_missing h hg⟩

theorem ensure_spec {X} (d : Disk) : ∀ (rest : List String) (base : Path) (s : Vfs) (e : Nat) (inv : Detail) (s' : Vfs), Base X s →
    (base = [] ∨ treeGet s.tree base = some (.dir true)) → ParentsOk s base → ensureDirsAndFile d base rest s = .ok (e, inv, s') →
    Base X s' ∧ Extends s s' ∧ treeGet s'.tree (base ++ rest) = some (.file e) ∧ InvOk s inv := by
  intro rest
  induction rest with
  | nil => intro base s e inv s' _ _ _ hok; rw [ensureDirsAndFile] at hok; cases hok
  | cons name rest ih =>
    intro base s e inv s' h hb hpar hok
    have hpar' := parentsOk_append hb hpar name
    have hne : base ++ [name] ≠ [] := by simp
    cases rest with
    | nil =>
      rw [ensureDirsAndFile] at hok
      exact ensureFileIn_spec h hne hpar' hok
    | cons next more =>
      have happ : base ++ name :: next :: more = (base ++ [name]) ++ next :: more := by simp
      rw [happ]
      have hnew : Free s (base ++ [name]) → ∀ e inv s', ensureDirsAndFile d (base ++ [name]) (next :: more) (readDir d (base ++ [name]) s) = .ok (e, inv, s') →
          Base X s' ∧ Extends s s' ∧ treeGet s'.tree ((base ++ [name]) ++ next :: more) = some (.file e) ∧ InvOk s inv := by
        intro hf e inv s' hok
        obtain ⟨h1, h2, h3⟩ := readDir_spec d h hne hf hpar'
        obtain ⟨h4, h5, h6, h7⟩ := ih (base ++ [name]) _ e inv s' h1 (.inr h3) (h2.parentsOk hpar') hok
        exact ⟨h4, h2.trans h5, h6, invOk_files h2.files h7⟩
      rw [ensureDirsAndFile] at hok
      cases hg : treeGet s.tree (base ++ [name]) with
      | none =>
        rw [hg] at hok
        exact hnew (by intro n hn; rw [hg] at hn; cases hn) _ _ _ hok
      | some n =>
        rw [hg] at hok
        cases n with
        | file e' => cases hok
        | dir b =>
          cases b with
          | true => exact ih (base ++ [name]) s e inv s' h (.inr hg) hpar' hok
          | false => exact hnew (by intro n hn; rw [hg] at hn; cases hn; exact .inr (.inl rfl)) _ _ _ hok
        | missing dd =>
          simp only at hok
          cases hr : ensureDirsAndFile d (base ++ [name]) (next :: more) (readDir d (base ++ [name]) s) with
          | error x => rw [hr] at hok; cases hok
          | ok v =>
            obtain ⟨e1, i1, s1⟩ := v
            rw [hr] at hok
            cases hok
            obtain ⟨h4, h5, h6, h7⟩ := hnew (by intro n hn; rw [hg] at hn; cases hn; exact .inl ⟨_, rfl⟩) _ _ _ hr
            exact ⟨h4, h5, h6, invOk_extend h7 (invOk_of_missing h hg)⟩

theorem ensureFile_spec {X} {d : Disk} {p : Path} {s : Vfs} {e : Nat} {inv : Detail} {s' : Vfs} (h : Base X s)
    (hok : ensureFile d p s = .ok (e, inv, s')) :
    Base X s' ∧ Extends s s' ∧ treeGet s'.tree p = some (.file e) ∧ InvOk s inv :=
  ensure_spec d p [] s e inv s' h (.inl rfl) (by intro q h1 h2; exact absurd (List.prefix_nil.mp h2) h1) hok

theorem findFile_spec {X} (d : Disk) : ∀ (rest : List String) (base : Path) (s : Vfs), Base X s →
    (base = [] ∨ treeGet s.tree base = some (.dir true)) → ParentsOk s base →
    Base X (findFile d base rest s).2 ∧ Extends s (findFile d base rest s).2 ∧
      ∀ e, (findFile d base rest s).1 = some e → treeGet (findFile d base rest s).2.tree (base ++ rest) = some (.file e) := by
  intro rest
  induction rest with
  | nil => intro base s h _ _; rw [findFile]; exact ⟨h, .refl s, by intro e he; cases he⟩
  | cons name rest ih =>
    intro base s h hb hpar
    have hpar' := parentsOk_append hb hpar name
    have hne : base ++ [name] ≠ [] := by simp
    cases rest with
    | nil =>
      rw [findFile]
      cases hg : treeGet s.tree (base ++ [name]) with
      | none => exact ⟨h, .refl s, by intro e he; cases he⟩
      | some n =>
        cases n with
        | file e => exact ⟨h, .refl s, by intro e' he; cases he; exact hg⟩
        | dir b => exact ⟨h, .refl s, by intro e he; cases he⟩
        | missing dd => exact ⟨h, .refl s, by intro e he; cases he⟩
    | cons next more =>
      have happ : base ++ name :: next :: more = (base ++ [name]) ++ next :: more := by simp
      rw [happ, findFile]
      cases hg : treeGet s.tree (base ++ [name]) with
      | none => exact ⟨h, .refl s, by intro e he; cases he⟩
      | some n =>
        cases n with
        | file e => exact ⟨h, .refl s, by intro e he; cases he⟩
        | missing dd => exact ⟨h, .refl s, by intro e he; cases he⟩
        | dir b =>
          cases b with
          | true => exact ih (base ++ [name]) s h (.inr hg) hpar'
          | false =>
            have hf : Free s (base ++ [name]) := by intro n hn; rw [hg] at hn; cases hn; exact .inr (.inl rfl)
            obtain ⟨h1, h2, h3⟩ := readDir_spec d h hne hf hpar'
            obtain ⟨h4, h5, h6⟩ := ih (base ++ [name]) _ h1 (.inr h3) (h2.parentsOk hpar')
            exact ⟨h4, h2.trans h5, h6⟩

theorem parentsLoaded_spec (t : List (Path × Node)) : ∀ (rest : List String) (base : Path), parentsLoaded t base rest = true →
    rest ≠ [] ∧ ∀ q, base <+: q → q ≠ base → q <+: base ++ rest → q ≠ base ++ rest → treeGet t q = some (.dir true) := by
  intro rest
  induction rest with
  | nil => intro base h; rw [parentsLoaded] at h; cases h
  | cons name rest ih =>
    intro base h
    refine ⟨by simp, ?_⟩
    cases rest with
    | nil =>
      intro q h1 h2 h3 h4
      rcases List.prefix_concat_iff.mp h3 with h | h
      · exact absurd h h4
      · exact absurd (h.eq_of_length (Nat.le_antisymm h.length_le h1.length_le)) h2
    | cons next more =>
      rw [parentsLoaded] at h
      cases hg : treeGet t (base ++ [name]) with
      | none => rw [hg] at h; cases h
      | some n =>
        rw [hg] at h
        cases n with
        | file e => cases h
        | missing dd => cases h
        | dir b =>
          cases b with
          | false => cases h
          | true =>
            intro q h1 h2 h3 h4
            have happ : base ++ name :: next :: more = (base ++ [name]) ++ next :: more := by simp
            rw [happ] at h3 h4
            obtain ⟨t', rfl⟩ := h1
            cases t' with
            | nil => simp at h2
            | cons a t' =>
              have ha : a = name := by
                have h5 : a :: t' <+: name :: next :: more := by
                  have := h3
                  rw [← happ] at this
                  exact (List.prefix_append_right_inj base).mp this
                exact (List.cons_prefix_cons.mp h5).1
              subst ha
              have hb : base ++ [a] <+: base ++ a :: t' := ⟨t', by simp⟩
              by_cases hq : base ++ a :: t' = base ++ [a]
              · rw [hq]; exact hg
              · exact (ih (base ++ [a]) h).2 _ hb hq h3 h4

theorem parentsOk_of_loaded {s : Vfs} {p : Path} (h : parentsLoaded s.tree [] p = true) : p ≠ [] ∧ ParentsOk s p := by
  obtain ⟨h1, h2⟩ := parentsLoaded_spec s.tree p [] h
  exact ⟨h1, fun q a b c => h2 q (List.nil_prefix) a b c⟩

/-! ## Invalidation -/

/-- What propagation and unloading may do. -/
structure Shrinks (s s' : Vfs) : Prop where
  tree : s'.tree = s.tree
  mem : s'.mem = s.mem
  len : s'.entries.length = s.entries.length
  idx : ∀ e, s'.index e = s.index e
  inv : ∀ e, s'.inv e = s.inv e ∨ s'.inv e = .files []
  flen : s'.files.length = s.files.length
  files : ∀ (i : Nat) (f' : FileState), s'.files[i]? = some f' → ∃ f, s.files[i]? = some f ∧ f'.path = f.path ∧ f'.entry = f.entry ∧ (f'.code = f.code ∨ f'.code = none)

theorem Shrinks.refl (s : Vfs) : Shrinks s s := ⟨rfl, rfl, rfl, fun _ => rfl, fun _ => .inl rfl, rfl, fun _ f h => ⟨f, h, rfl, rfl, .inl rfl⟩⟩

theorem Shrinks.trans {s t u : Vfs} (h1 : Shrinks s t) (h2 : Shrinks t u) : Shrinks s u := by
  refine ⟨h2.tree.trans h1.tree, h2.mem.trans h1.mem, h2.len.trans h1.len, fun e => (h2.idx e).trans (h1.idx e), ?_, h2.flen.trans h1.flen, ?_⟩
  · intro e
    rcases h2.inv e with h | h
    · rcases h1.inv e with h' | h'
      · exact .inl (h.trans h')
      · exact .inr (h.trans h')
    · exact .inr h
  · intro i f hf
    obtain ⟨g, hg, a1, a2, a3⟩ := h2.files i f hf
    obtain ⟨k, hk, b1, b2, b3⟩ := h1.files i g hg
    refine ⟨k, hk, a1.trans b1, a2.trans b2, ?_⟩
    rcases a3 with a3 | a3
    · rcases b3 with b3 | b3
      · exact .inl (a3.trans b3)
      · exact .inr (a3.trans b3)
    · exact .inr a3

theorem Shrinks.fwd {s s' : Vfs} (h : Shrinks s s') {i : Nat} {f : FileState} (hf : s.files[i]? = some f) :
    ∃ f', s'.files[i]? = some f' ∧ f'.path = f.path ∧ f'.entry = f.entry ∧ (f'.code = f.code ∨ f'.code = none) := by
  have hlt : i < s'.files.length := by
    rw [h.flen]; exact (List.getElem?_eq_some_iff.mp hf).1
  obtain ⟨g, hg, h1⟩ := h.files i _ (List.getElem?_eq_getElem hlt)
  rw [hf] at hg
  cases hg
  exact ⟨_, List.getElem?_eq_getElem hlt, h1⟩

theorem mem_of_inv {s : Vfs} (h : WellFormed s) {e : Nat} {l : List Nat} (hl : s.inv e = .files l) : ∀ i ∈ l, i < s.files.length :=
  h.bounded.2 e l hl

theorem Shrinks.base {X} {s s' : Vfs} (h : Shrinks s s') (hb : Base X s) : Base X s' := by
  refine ⟨⟨?_, ?_, ?_, ?_, ?_, ?_⟩, ?_, ?_, ?_, ?_, ?_, ?_, ?_, ?_⟩
  · intro f' hf'
    obtain ⟨i, hi⟩ := List.getElem?_of_mem hf'
    obtain ⟨f, hf, _, h2, _⟩ := h.files i f' hi
    rw [h2, h.len]
    exact hb.wf.entry f (List.mem_of_getElem? hf)
  · intro x hx i hi
    obtain ⟨e, _, _, h3⟩ := mem_entries_inv hx
    rw [h.flen]
    exact index_lt hb (by rw [← h.idx e, h3]; exact hi)
  · intro x hx l hl i hi
    obtain ⟨e, _, h2, _⟩ := mem_entries_inv hx
    rw [h.flen]
    rcases h.inv e with h' | h'
    · exact mem_of_inv hb.wf (e := e) (l := l) (by rw [← h', h2]; exact hl) i hi
    · rw [h2, hl] at h'; cases h'; simp at hi
  · rw [h.tree, h.flen]; exact hb.wf.missing
  · rw [h.tree, h.len]; exact hb.wf.node
  · rw [h.mem, h.flen]; exact hb.wf.mem
  · intro e hc
    rcases h.inv e with h' | h'
    · exact hb.noDb e (h' ▸ hc)
    · rw [h'] at hc; cases hc
  · rw [h.tree]; exact hb.noDbMissing
  · intro p n hp
    rw [h.tree] at hp
    obtain ⟨h1, h2⟩ := hb.closed p n hp
    exact ⟨h1, fun q a b c => by rw [h.tree]; exact h2 q a b c⟩
  · intro p e i hp hi
    rw [h.tree] at hp
    rw [h.idx] at hi
    obtain ⟨f, hf, h1⟩ := hb.entryPath p e i hp hi
    obtain ⟨f', hf', h2, _⟩ := h.fwd hf
    exact ⟨f', hf', h2.trans h1⟩
  · rw [h.tree]; exact hb.entryUniq
  · intro i f' p c h1 h2 h3
    obtain ⟨f, hf, a1, _, a3⟩ := h.files i f' h1
    rcases a3 with a3 | a3
    · rcases hb.loadedAt i f p c hf (a1 ▸ h2) (a3 ▸ h3) with hx | ⟨e, h4, h5⟩
      · exact .inl hx
      · exact .inr ⟨e, by rw [h.tree]; exact h4, by rw [h.idx]; exact h5⟩
    · rw [a3] at h3; cases h3
  · intro p i hp
    rw [h.mem] at hp
    obtain ⟨f, hf, h1⟩ := hb.memPath p i hp
    obtain ⟨f', hf', h2, _⟩ := h.fwd hf
    exact ⟨f', hf', h2.trans h1⟩
  · rw [h.mem]; exact hb.memUniq

theorem Shrinks.texts {ex} {s s' : Vfs} (h : Shrinks s s') (ht : TextsOk ex s) : TextsOk ex s' := by
  intro i f' p c h1 h2 h3
  obtain ⟨f, hf, a1, _, a3⟩ := h.files i f' h1
  rcases a3 with a3 | a3
  · exact ht i f p c hf (a1 ▸ h2) (a3 ▸ h3)
  · rw [a3] at h3; cases h3

theorem Post.shrinks {orig roots s r s'} (h : Post orig roots s r s') : Shrinks s s' := by
  refine ⟨h.tree, h.mem, h.len, h.idx, ?_, by rw [h.files], ?_⟩
  · intro e
    rcases h.inv e with h' | ⟨_, _, h'⟩
    · exact .inl h'
    · exact .inr h'
  · intro i f hf
    rw [h.files] at hf
    exact ⟨f, hf, rfl, rfl, .inl rfl⟩

theorem noWholeDb {X} {s : Vfs} (h : Base X s) (k : Nat) : ¬ WholeDb s k := by
  rw [wholeDb_iff]
  rintro ⟨fs, _, h2⟩
  exact h.noDb _ h2

theorem Post.res {X} {orig roots s r s'} (h : Post orig roots s r s') (hb : Base X s) : r = .files := by
  cases r with
  | files => rfl
  | db =>
    obtain ⟨k, _, hk⟩ := h.db rfl
    exact absurd hk (noWholeDb hb k)

theorem unload_shrinks (s : Vfs) (i : Nat) : Shrinks s (s.unload i) := by
  refine ⟨rfl, rfl, rfl, fun _ => rfl, fun _ => .inl rfl, by simp [Vfs.unload], ?_⟩
  intro k f' hf'
  rw [files_unload] at hf'
  obtain ⟨f, hf, rfl⟩ := Option.map_eq_some_iff.mp hf'
  refine ⟨f, hf, ?_, ?_, ?_⟩
  · split <;> rfl
  · split <;> rfl
  · split
    · exact .inr rfl
    · exact .inl rfl

theorem setInv_shrinks (s : Vfs) (e : Nat) (he : e < s.entries.length) : Shrinks s (s.setInv e (.files [])) := by
  refine ⟨rfl, rfl, length_setInv _ _ _, fun e' => index_setInv _ _ e' _, ?_, rfl, fun _ f h => ⟨f, h, rfl, rfl, .inl rfl⟩⟩
  intro e'
  rw [inv_setInv _ _ _ _ he]
  split
  · exact .inr rfl
  · exact .inl rfl

theorem code_eq {s : Vfs} {i : Nat} {f : FileState} (h : s.files[i]? = some f) : s.code i = f.code := by rw [Vfs.code, h]

theorem invalidateFiles_spec {X} {orig : Option Nat} {d : Detail} {s : Vfs} {r : Res} {s' : Vfs} (hb : Base X s) (hd : InvOk s d)
    (h : invalidateFiles orig d s = .ok (r, s')) : r = .files ∧ Shrinks s s' ∧ s'.files = s.files := by
  obtain ⟨l, rfl, _⟩ := hd
  have hp := invalidateFiles_files hb.wf.entry h
  exact ⟨hp.res hb, hp.shrinks, hp.files⟩

theorem invalidateFile_spec {X} {orig : Option Nat} {i : Nat} {s : Vfs} {r : Res} {s' : Vfs} (hb : Base X s)
    (h : invalidateFile orig i s = .ok (r, s')) : r = .files ∧ Shrinks s s' ∧ s'.files = s.files := by
  have hp := post_byIndex orig _ i s r s' hb.wf.entry h
  exact ⟨hp.res hb, hp.shrinks, hp.files⟩

theorem invalidateAndUnload_spec {X} {i : Nat} {s : Vfs} {r : Res} {s' : Vfs} (hb : Base X s)
    (h : invalidateAndUnload i s = .ok (r, s')) : r = .files ∧ Shrinks s s' ∧ s'.files = (s.unload i).files := by
  cases hfs : s.files[i]? with
  | none => rw [invalidateAndUnload, hfs] at h; cases h
  | some fs =>
    rw [invalidateAndUnload_eq hfs] at h
    have he := hb.wf.entry fs (List.mem_of_getElem? hfs)
    cases hd : s.inv fs.entry with
    | invalidatesDb => exact absurd hd (hb.noDb _)
    | files l =>
      rw [hd] at h
      have hsh : Shrinks s (started s i fs.entry) := (unload_shrinks s i).trans (setInv_shrinks (s.unload i) fs.entry he)
      have hb' := hsh.base hb
      have hp := invalidateFiles_files (s := started s i fs.entry) hb'.wf.entry h
      exact ⟨hp.res hb', hsh.trans hp.shrinks, hp.files⟩

/-! ## Loading texts -/

/-- A place in the tree leads to this index. -/
def At (s : Vfs) (p : Path) (i : Nat) : Prop := ∃ e, treeGet s.tree p = some (.file e) ∧ s.index e = some i

theorem At.unique {s : Vfs} {p : Path} {i j : Nat} (h1 : At s p i) (h2 : At s p j) : i = j := by
  obtain ⟨e, a1, a2⟩ := h1
  obtain ⟨e', b1, b2⟩ := h2
  rw [a1] at b1; cases b1
  rw [a2] at b2; cases b2
  rfl

theorem At.path {X} {s : Vfs} (h : Base X s) {p : Path} {i : Nat} (ha : At s p i) : ∃ f, s.files[i]? = some f ∧ f.path = some p := by
  obtain ⟨e, a1, a2⟩ := ha
  exact h.entryPath p e i a1 a2

/-- Replacing a file state by a loaded one with the same path, at its place in the tree. -/
theorem base_setFile {X} {s : Vfs} (h : Base X s) {p : Path} {i e : Nat} {text : Option String} (ha : At s p i) (he : e < s.entries.length)
    : Base X { s with files := s.files.set i ⟨some p, e, text⟩ } := by
  obtain ⟨f0, hf0, hp0⟩ := ha.path h
  have hlt : i < s.files.length := (List.getElem?_eq_some_iff.mp hf0).1
  have hget : ∀ k, (s.files.set i ⟨some p, e, text⟩)[k]? = if i = k then some ⟨some p, e, text⟩ else s.files[k]? := by
    intro k
    rw [List.getElem?_set]
    split
    · rename_i hik; subst hik; simp
    · rfl
  have hpath : ∀ (k : Nat) q, (∃ f, s.files[k]? = some f ∧ f.path = some q) →
      ∃ f, (s.files.set i ⟨some p, e, text⟩)[k]? = some f ∧ f.path = some q := by
    rintro k q ⟨f, hf, hq⟩
    rw [hget]
    by_cases hik : i = k
    · subst hik
      rw [hf0] at hf; cases hf
      rw [hp0] at hq; cases hq
      exact ⟨_, by rw [if_pos rfl], rfl⟩
    · exact ⟨f, by rw [if_neg hik]; exact hf, hq⟩
  refine ⟨⟨?_, ?_, ?_, ?_, h.wf.node, ?_⟩, h.noDb, h.noDbMissing, h.closed, ?_, h.entryUniq, ?_, ?_, h.memUniq⟩
  · intro f hf
    rcases List.mem_or_eq_of_mem_set hf with hf | rfl
    · exact h.wf.entry f hf
    · exact he
  · intro x hx k hk
    show k < (s.files.set i _).length
    rw [List.length_set]; exact h.wf.index x hx k hk
  · intro x hx l hl k hk
    show k < (s.files.set i _).length
    rw [List.length_set]; exact h.wf.dependents x hx l hl k hk
  · intro x hx l hl k hk
    show k < (s.files.set i _).length
    rw [List.length_set]; exact h.wf.missing x hx l hl k hk
  · intro m hm
    show m.2 < (s.files.set i _).length
    rw [List.length_set]; exact h.wf.mem m hm
  · intro q e' k hq hk
    exact hpath k q (h.entryPath q e' k hq hk)
  · intro k f q c h1 h2 h3
    rw [show ({ s with files := s.files.set i ⟨some p, e, text⟩ } : Vfs).files[k]? = (s.files.set i ⟨some p, e, text⟩)[k]? from rfl, hget] at h1
    split at h1
    · rename_i hik
      subst hik
      cases h1
      cases h2
      exact .inr ha
    · exact h.loadedAt k f q c h1 h2 h3
  · intro q k hq
    exact hpath k q (h.memPath q k hq)

theorem update_eq {s : Vfs} {i : Nat} {f : FileState} (hf : s.files[i]? = some f) (text : String) :
    s.update i text = { s with files := s.files.set i ⟨f.path, f.entry, some (f.code.getD text)⟩ } := by
  rw [Vfs.update]
  congr 1
  apply List.ext_getElem?
  intro k
  rw [getElem?_modify', List.getElem?_set]
  by_cases h : i = k
  · subst h
    rw [if_pos rfl, if_pos rfl, if_pos (List.getElem?_eq_some_iff.mp hf).1, hf]
    rfl
  · rw [if_neg h, if_neg h]

theorem index_setIndexIfNone (s : Vfs) (e i e' : Nat) (he : e < s.entries.length) :
    (s.setIndexIfNone e i).index e' = if e = e' then some ((s.index e).getD i) else s.index e' := by
  simp only [Vfs.index, Vfs.setIndexIfNone, getElem?_modify']
  by_cases h : e = e'
  · subst h
    rw [if_pos rfl, if_pos rfl, List.getElem?_eq_getElem he]
    rfl
  · rw [if_neg h, if_neg h]

theorem inv_setIndexIfNone (s : Vfs) (e i e' : Nat) : (s.setIndexIfNone e i).inv e' = s.inv e' := by
  simp only [Vfs.inv, Vfs.setIndexIfNone, getElem?_modify']
  by_cases h : e = e'
  · subst h
    rw [if_pos rfl]
    cases s.entries[e]? <;> rfl
  · rw [if_neg h]

/-- A new file for an entry of the tree without index. -/
theorem base_newFile {X} {s : Vfs} (h : Base X s) {p : Path} {e : Nat} {text : Option String} (ht : treeGet s.tree p = some (.file e)) (hi : s.index e = none) :
    Base X { s.setIndexIfNone e s.files.length with files := s.files ++ [⟨some p, e, text⟩] } := by
  have he : e < s.entries.length := h.wf.node _ (mem_of_treeGet ht) e rfl
  have hidx : ∀ e', Vfs.index { s.setIndexIfNone e s.files.length with files := s.files ++ [⟨some p, e, text⟩] } e' =
      if e = e' then some s.files.length else s.index e' := by
    intro e'
    show (s.setIndexIfNone e s.files.length).index e' = _
    rw [index_setIndexIfNone _ _ _ _ he, hi]
    rfl
  have hinv : ∀ e', Vfs.inv { s.setIndexIfNone e s.files.length with files := s.files ++ [⟨some p, e, text⟩] } e' = s.inv e' :=
    fun e' => inv_setIndexIfNone s e s.files.length e'
  have hlen : (s.setIndexIfNone e s.files.length).entries.length = s.entries.length := by simp [Vfs.setIndexIfNone]
  have hold : ∀ (k : Nat) f, s.files[k]? = some f → (s.files ++ [⟨some p, e, text⟩])[k]? = some f := by
    intro k f hf
    rw [List.getElem?_append_left (List.getElem?_eq_some_iff.mp hf).1]; exact hf
  have hnew : (s.files ++ [⟨some p, e, text⟩])[s.files.length]? = some (⟨some p, e, text⟩ : FileState) := by simp
  have hflen : (s.files ++ [(⟨some p, e, text⟩ : FileState)]).length = s.files.length + 1 := by simp
  refine ⟨⟨?_, ?_, ?_, ?_, ?_, ?_⟩, ?_, h.noDbMissing, h.closed, ?_, h.entryUniq, ?_, ?_, h.memUniq⟩
  · intro f hf
    show f.entry < (s.setIndexIfNone e s.files.length).entries.length
    rw [hlen]
    rcases List.mem_append.mp hf with hf | hf
    · exact h.wf.entry f hf
    · rw [List.mem_singleton] at hf; subst hf; exact he
  · intro x hx k hk
    obtain ⟨e', _, _, h3⟩ := mem_entries_inv (s := { s.setIndexIfNone e s.files.length with files := s.files ++ [⟨some p, e, text⟩] }) hx
    rw [hidx, hk] at h3
    show k < (s.files ++ [_]).length
    rw [hflen]
    split at h3
    · cases h3; exact Nat.lt_succ_self _
    · exact Nat.lt_succ_of_lt (index_lt h h3)
  · intro x hx l hl k hk
    obtain ⟨e', _, h3, _⟩ := mem_entries_inv (s := { s.setIndexIfNone e s.files.length with files := s.files ++ [⟨some p, e, text⟩] }) hx
    rw [hinv, hl] at h3
    show k < (s.files ++ [_]).length
    rw [hflen]
    exact Nat.lt_succ_of_lt (mem_of_inv h.wf h3 k hk)
  · intro x hx l hl k hk
    show k < (s.files ++ [_]).length
    rw [hflen]; exact Nat.lt_succ_of_lt (h.wf.missing x hx l hl k hk)
  · intro x hx e' he'
    show e' < (s.setIndexIfNone e s.files.length).entries.length
    rw [hlen]; exact h.wf.node x hx e' he'
  · intro m hm
    show m.2 < (s.files ++ [_]).length
    rw [hflen]; exact Nat.lt_succ_of_lt (h.wf.mem m hm)
  · intro e'; rw [hinv]; exact h.noDb e'
  · intro q e' k hq hk
    rw [hidx] at hk
    split at hk
    · rename_i hee
      subst hee
      cases hk
      have := h.entryUniq q p _ hq ht
      subst this
      exact ⟨_, hnew, rfl⟩
    · obtain ⟨f, hf, h1⟩ := h.entryPath q e' k hq hk
      exact ⟨f, hold k f hf, h1⟩
  · intro k f q c h1 h2 h3
    by_cases hk : k < s.files.length
    · have h1' : s.files[k]? = some f := by
        rw [← h1]
        exact (List.getElem?_append_left hk).symm
      rcases h.loadedAt k f q c h1' h2 h3 with hx | ⟨e', h4, h5⟩
      · exact .inl hx
      · refine .inr ⟨e', h4, ?_⟩
        rw [hidx, if_neg]
        · exact h5
        · rintro rfl; rw [hi] at h5; cases h5
    · have hk2 : k < (s.files ++ [(⟨some p, e, text⟩ : FileState)]).length := (List.getElem?_eq_some_iff.mp h1).1
      have hke : k = s.files.length := by rw [hflen] at hk2; omega
      subst hke
      have : f = ⟨some p, e, text⟩ := by
        have h1' : (s.files ++ [(⟨some p, e, text⟩ : FileState)])[s.files.length]? = some f := h1
        rw [hnew] at h1'
        exact (Option.some.inj h1').symm
      subst this
      cases h2
      exact .inr ⟨e, ht, by rw [hidx, if_pos rfl]⟩
  · intro q k hq
    obtain ⟨f, hf, h1⟩ := h.memPath q k hq
    exact ⟨f, hold k f hf, h1⟩

theorem base_memSet {X} {s : Vfs} (h : Base X s) {p : Path} {i : Nat} (hp : ∃ f, s.files[i]? = some f ∧ f.path = some p) : Base X (s.memSet p i) := by
  have hm : ∀ x ∈ (s.memSet p i).mem, x = (p, i) ∨ x ∈ s.mem ∧ x.1 ≠ p := by
    intro x hx
    rcases List.mem_cons.mp hx with rfl | hx
    · exact .inl rfl
    · exact .inr ⟨(List.mem_filter.mp hx).1, by simpa using (List.mem_filter.mp hx).2⟩
  refine ⟨⟨h.wf.entry, h.wf.index, h.wf.dependents, h.wf.missing, h.wf.node, ?_⟩, h.noDb, h.noDbMissing, h.closed, h.entryPath, h.entryUniq, h.loadedAt, ?_, ?_⟩
  · intro m hmm
    rcases hm m hmm with rfl | ⟨h1, _⟩
    · obtain ⟨f, hf, _⟩ := hp
      exact (List.getElem?_eq_some_iff.mp hf).1
    · exact h.wf.mem m h1
  · intro q j hq
    rcases hm _ hq with h1 | ⟨h1, _⟩
    · cases h1; exact hp
    · exact h.memPath q j h1
  · intro q j k hj hk
    rcases hm _ hj with h1 | ⟨h1, h1'⟩
    · cases h1
      rcases hm _ hk with h2 | ⟨h2, h2'⟩
      · cases h2; rfl
      · exact absurd rfl h2'
    · rcases hm _ hk with h2 | ⟨h2, h2'⟩
      · cases h2; exact absurd rfl h1'
      · exact h.memUniq q j k h1 h2

theorem base_memFilter {X} {s : Vfs} (h : Base X s) (p : Path) : Base X { s with mem := s.mem.filter (fun m => m.1 != p) } :=
  ⟨⟨h.wf.entry, h.wf.index, h.wf.dependents, h.wf.missing, h.wf.node, fun m hm => h.wf.mem m (List.mem_filter.mp hm).1⟩, h.noDb, h.noDbMissing,
    h.closed, h.entryPath, h.entryUniq, h.loadedAt, fun q j hq => h.memPath q j (List.mem_filter.mp hq).1,
    fun q j k hj hk => h.memUniq q j k (List.mem_filter.mp hj).1 (List.mem_filter.mp hk).1⟩

theorem base_hook {X} {s : Vfs} (h : Base X s) (p : Path) : Base X (s.hook p) :=
  ⟨⟨h.wf.entry, h.wf.index, h.wf.dependents, h.wf.missing, h.wf.node, h.wf.mem⟩, h.noDb, h.noDbMissing, h.closed, h.entryPath, h.entryUniq,
    h.loadedAt, h.memPath, h.memUniq⟩

theorem Base.weaken {X Y : Nat → Prop} {s : Vfs} (h : Base X s) (hxy : ∀ i, X i → Y i) : Base Y s :=
  ⟨h.wf, h.noDb, h.noDbMissing, h.closed, h.entryPath, h.entryUniq,
    fun i f p c h1 h2 h3 => (h.loadedAt i f p c h1 h2 h3).imp (hxy i) id, h.memPath, h.memUniq⟩

end Verif.Vfs
