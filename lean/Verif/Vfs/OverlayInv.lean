import Verif.Vfs.OverlayOps

/-! # The overlay: every operation keeps the texts as expected -/

namespace Verif.Vfs

/-- The invariant of all histories. -/
structure Inv (docs : Docs) (d : Disk) (s : Vfs) : Prop where
  base : Base (fun _ => False) s
  texts : TextsOk (expected docs d) s
  opened : OpenOk docs s

theorem loadedAt' {s : Vfs} (h : Base (fun _ => False) s) {i : Nat} {f : FileState} {p : Path} {c : String} (h1 : s.files[i]? = some f)
    (h2 : f.path = some p) (h3 : f.code = some c) : At s p i := by
  rcases h.loadedAt i f p c h1 h2 h3 with h | h
  · exact h.elim
  · exact h

theorem code_some {s : Vfs} {i : Nat} {c : String} (h : s.code i = some c) : ∃ f, s.files[i]? = some f ∧ f.code = some c := by
  rw [Vfs.code] at h
  cases hf : s.files[i]? with
  | none => rw [hf] at h; cases h
  | some f => rw [hf] at h; exact ⟨f, rfl, h⟩

theorem open_at {docs : Docs} {d : Disk} {s : Vfs} (h : Inv docs d s) {p : Path} {t : String} (hp : docs p = some t) :
    ∃ i, s.memGet p = some i ∧ s.code i = some t ∧ At s p i := by
  obtain ⟨i, h1, h2⟩ := (h.opened p).1 t hp
  obtain ⟨f, hf, hc⟩ := code_some h2
  obtain ⟨f', hf', hp'⟩ := h.base.memPath p i (memGet_mem h1)
  rw [hf] at hf'; cases hf'
  exact ⟨i, h1, h2, loadedAt' h.base hf hp' hc⟩

theorem memGet_congr {s s' : Vfs} (h : s'.mem = s.mem) (p : Path) : s'.memGet p = s.memGet p := by rw [Vfs.memGet, Vfs.memGet, h]

theorem code_congr {s s' : Vfs} (h : s'.files = s.files) (i : Nat) : s'.code i = s.code i := by rw [Vfs.code, Vfs.code, h]

theorem Inv.same {docs : Docs} {d : Disk} {s s' : Vfs} (h : Inv docs d s) (hb : Base (fun _ => False) s') (hf : s'.files = s.files) (hm : s'.mem = s.mem) :
    Inv docs d s' := by
  refine ⟨hb, ?_, ?_⟩
  · intro i f p c h1 h2 h3; rw [hf] at h1; exact h.texts i f p c h1 h2 h3
  · intro p
    refine ⟨fun t ht => ?_, fun hn => ?_⟩
    · obtain ⟨i, h1, h2⟩ := (h.opened p).1 t ht
      exact ⟨i, by rw [memGet_congr hm]; exact h1, by rw [code_congr hf]; exact h2⟩
    · rw [memGet_congr hm]; exact (h.opened p).2 hn

theorem Inv.extends {docs : Docs} {d : Disk} {s s' : Vfs} (h : Inv docs d s) (hb : Base (fun _ => False) s') (hx : Extends s s') : Inv docs d s' :=
  h.same hb hx.files hx.mem

theorem Inv.shrinks {docs : Docs} {d : Disk} {s s' : Vfs} (h : Inv docs d s) (hx : Shrinks s s') (hf : s'.files = s.files) : Inv docs d s' :=
  h.same (hx.base h.base) hf hx.mem

theorem Inv.disk {docs : Docs} {d d' : Disk} {s : Vfs} (h : Inv docs d s) (ht : TextsOk (expected docs d') s) : Inv docs d' s :=
  ⟨h.base, ht, h.opened⟩

theorem Extends.at {s s' : Vfs} (h : Extends s s') {p : Path} {i : Nat} (ha : At s p i) : At s' p i := by
  obtain ⟨e, h1, h2⟩ := ha
  exact ⟨e, h.kept p e i h1 h2, by rw [h.idx]; exact h2⟩

theorem Shrinks.at {s s' : Vfs} (h : Shrinks s s') {p : Path} {i : Nat} : At s' p i ↔ At s p i := by
  constructor
  · rintro ⟨e, h1, h2⟩; exact ⟨e, h.tree ▸ h1, by rw [← h.idx]; exact h2⟩
  · rintro ⟨e, h1, h2⟩; exact ⟨e, by rw [h.tree]; exact h1, by rw [h.idx]; exact h2⟩

theorem expected_open {docs : Docs} (d d' : Disk) {p : Path} {t : String} (h : docs p = some t) : expected docs d p = expected docs d' p := by
  rw [expected, expected, h]

theorem expected_edit (docs : Docs) (d : Disk) (p q : Path) (text : String) :
    expected (fun q => if q = p then some text else docs q) d q = if q = p then some text else expected docs d q := by
  rw [expected]
  by_cases h : q = p
  · rw [if_pos h, if_pos h]
  · rw [if_neg h, if_neg h]; rfl

theorem expected_close (docs : Docs) (d : Disk) (p q : Path) :
    expected (fun q => if q = p then none else docs q) d q = if q = p then diskText d p else expected docs d q := by
  rw [expected]
  by_cases h : q = p
  · subst h; rw [if_pos rfl, if_pos rfl, diskText]; rfl
  · rw [if_neg h, if_neg h]; rfl

theorem expected_none {docs : Docs} {d : Disk} {p : Path} (h : docs p = none) : expected docs d p = diskText d p := by
  rw [expected, h]; rfl

/-! ## Opening and editing -/

theorem inv_stored {docs : Docs} {d : Disk} {s : Vfs} {p : Path} {text : String} {i : Nat} (hb : Base (fun _ => False) s) (ha : At s p i)
    (hm : s.memGet p = some i) (hc : s.code i = some text)
    (ht : ∀ (k : Nat) (f : FileState) q c, k ≠ i → s.files[k]? = some f → f.path = some q → f.code = some c → expected docs d q = some c)
    (ho : ∀ q, q ≠ p → (∀ t, docs q = some t → ∃ i, s.memGet q = some i ∧ s.code i = some t) ∧ (docs q = none → s.memGet q = none)) :
    Inv (fun q => if q = p then some text else docs q) d s := by
  refine ⟨hb, ?_, ?_⟩
  · intro k f q c h1 h2 h3
    rw [expected_edit]
    by_cases hk : k = i
    · subst hk
      obtain ⟨f', hf', hp'⟩ := ha.path hb
      rw [h1] at hf'; cases hf'
      rw [h2] at hp'; cases hp'
      rw [if_pos rfl, ← hc, code_eq h1, h3]
    · rw [if_neg]
      · exact ht k f q c hk h1 h2 h3
      · rintro rfl
        exact hk ((loadedAt' hb h1 h2 h3).unique ha)
  · intro q
    by_cases hq : q = p
    · subst hq
      refine ⟨fun t h => ?_, fun h => ?_⟩
      · simp at h; subst h; exact ⟨i, hm, hc⟩
      · simp at h
    · simp only [if_neg hq]; exact ho q hq

theorem files_set {s : Vfs} {i : Nat} (x : FileState) (h : i < s.files.length) (k : Nat) :
    (s.files.set i x)[k]? = if i = k then some x else s.files[k]? := by
  rw [List.getElem?_set]
  by_cases hik : i = k
  · subst hik; rw [if_pos rfl, if_pos rfl, if_pos h]
  · rw [if_neg hik, if_neg hik]

theorem storeExisting_inv {docs : Docs} {d : Disk} {s : Vfs} {p : Path} {text : String} {e i : Nat} {inv : Detail} {r : Res} {s' : Vfs}
    (hb : Base (fun _ => False) s) (he : treeGet s.tree p = some (.file e)) (ha : At s p i) (hm : s.memGet p = some i) (hd : InvOk s inv)
    (ht : TextsOk (expected docs d) s)
    (ho : ∀ q, q ≠ p → (∀ t, docs q = some t → ∃ i, s.memGet q = some i ∧ s.code i = some t) ∧ (docs q = none → s.memGet q = none))
    (hok : storeExisting p text e inv i s = .ok (r, s')) :
    r = .files ∧ Inv (fun q => if q = p then some text else docs q) d s' := by
  rw [storeExisting] at hok
  split at hok
  · rename_i hc
    cases hok
    exact ⟨rfl, inv_stored hb ha hm hc (fun k f q c _ h1 h2 h3 => ht k f q c h1 h2 h3) ho⟩
  · cases h1 : invalidateAndUnload i s with
    | error x => rw [h1] at hok; cases hok
    | ok v =>
      obtain ⟨r1, s1⟩ := v
      rw [h1] at hok
      obtain ⟨rfl, hsh, hfiles⟩ := invalidateAndUnload_spec hb h1
      simp only [if_neg (show ¬ (Res.files = Res.db) by intro h; cases h)] at hok
      cases h2 : invalidateFiles (some i) inv { s1 with files := s1.files.set i ⟨some p, e, some text⟩ } with
      | error x => rw [h2] at hok; cases hok
      | ok v =>
        obtain ⟨r2, s4⟩ := v
        rw [h2] at hok
        cases hok
        have hb1 := hsh.base hb
        have ha1 : At s1 p i := hsh.at.mpr ha
        have hlen : e < s1.entries.length := by rw [hsh.len]; exact hb.wf.node _ (mem_of_treeGet he) e rfl
        have hb3 := base_setFile (text := some text) hb1 ha1 hlen
        have hi1 : i < s1.files.length := by
          obtain ⟨f, hf, _⟩ := ha1.path hb1
          exact (List.getElem?_eq_some_iff.mp hf).1
        have hd3 : InvOk { s1 with files := s1.files.set i ⟨some p, e, some text⟩ } inv := by
          obtain ⟨l, rfl, hl⟩ := hd
          refine ⟨l, rfl, fun k hk => ?_⟩
          show k < (s1.files.set i _).length
          rw [List.length_set, hsh.flen]; exact hl k hk
        obtain ⟨rfl, hsh2, hf2⟩ := invalidateFiles_spec hb3 hd3 h2
        refine ⟨rfl, ?_⟩
        have hother : ∀ k, k ≠ i → s1.files[k]? = s.files[k]? := by
          intro k hk
          rw [hfiles, files_unload]
          cases s.files[k]? with
          | none => rfl
          | some f => rw [Option.map_some, if_neg (fun h => hk (Eq.symm h))]
        refine Inv.shrinks (s := { s1 with files := s1.files.set i ⟨some p, e, some text⟩ }) ?_ hsh2 hf2
        refine inv_stored hb3 ha1 ((memGet_congr hsh.mem p).trans hm) ?_ ?_ ?_
        · have hx : (s1.files.set i ⟨some p, e, some text⟩)[i]? = some ⟨some p, e, some text⟩ := by rw [files_set _ hi1, if_pos rfl]
          exact code_eq (s := { s1 with files := s1.files.set i ⟨some p, e, some text⟩ }) hx
        · intro k f q c hk a1 a2 a3
          have a1' : (s1.files.set i ⟨some p, e, some text⟩)[k]? = some f := a1
          rw [files_set _ hi1, if_neg (fun h => hk h.symm), hother k hk] at a1'
          exact ht k f q c a1' a2 a3
        · intro q hq
          have hmq : Vfs.memGet { s1 with files := s1.files.set i ⟨some p, e, some text⟩ } q = s.memGet q := memGet_congr hsh.mem q
          rw [hmq]
          refine ⟨fun t htq => ?_, (ho q hq).2⟩
          obtain ⟨j, b1, b2⟩ := (ho q hq).1 t htq
          refine ⟨j, b1, ?_⟩
          have hj : j ≠ i := by
            rintro rfl
            obtain ⟨f1, c1, c2⟩ := hb.memPath q j (memGet_mem b1)
            obtain ⟨f2, c3, c4⟩ := ha.path hb
            rw [c1] at c3; cases c3
            rw [c2] at c4; cases c4
            exact hq rfl
          rw [← b2, Vfs.code, Vfs.code]
          show (match (s1.files.set i ⟨some p, e, some text⟩)[j]? with | some f => f.code | none => none) = _
          rw [files_set _ hi1, if_neg (fun h => hj h.symm), hother j hj]
          cases s.files[j]? <;> rfl

theorem withAddedFile_new {s : Vfs} {e : Nat} (h : s.index e = none) (p : Path) (text : String) :
    withAddedFile e p text s = (s.files.length, { s.setIndexIfNone e s.files.length with files := s.files ++ [⟨some p, e, some text⟩] }) := by
  rw [withAddedFile, h]

theorem withAddedFile_old {s : Vfs} {e i : Nat} (h : s.index e = some i) (p : Path) (text : String) :
    withAddedFile e p text s = (i, s.update i text) := by
  rw [withAddedFile, h]

theorem code_append (s : Vfs) (e : Nat) (x : FileState) (k : Nat) :
    Vfs.code { s.setIndexIfNone e s.files.length with files := s.files ++ [x] } k = if k = s.files.length then x.code else s.code k := by
  rw [Vfs.code, Vfs.code]
  show (match (s.files ++ [x])[k]? with | some f => f.code | none => none) = _
  by_cases h : k = s.files.length
  · subst h; simp
  · rw [if_neg h]
    by_cases h1 : k < s.files.length
    · rw [List.getElem?_append_left h1]
      cases s.files[k]? <;> rfl
    · rw [List.getElem?_eq_none (by simp; omega), List.getElem?_eq_none (by omega)]

theorem at_new {s : Vfs} {e : Nat} {p : Path} (h : treeGet s.tree p = some (.file e)) (he : e < s.entries.length) (hi : s.index e = none) (x : FileState) :
    At { s.setIndexIfNone e s.files.length with files := s.files ++ [x] } p s.files.length := by
  refine ⟨e, h, ?_⟩
  show (s.setIndexIfNone e s.files.length).index e = _
  rw [index_setIndexIfNone _ _ _ _ he, if_pos rfl, hi]
  rfl

theorem store_inv {docs : Docs} {d : Disk} {s : Vfs} {p : Path} {text : String} {r : Res} {s' : Vfs} (h : Inv docs d s)
    (hok : store d p text s = .ok (r, s')) : r = .files ∧ Inv (fun q => if q = p then some text else docs q) d s' := by
  rw [store] at hok
  cases h1 : ensureFile d p s with
  | error x => rw [h1] at hok; cases hok
  | ok v =>
    obtain ⟨e, inv, s1⟩ := v
    rw [h1] at hok
    simp only at hok
    obtain ⟨hb1, hx1, ht1, hd1⟩ := ensureFile_spec h.base h1
    have hi1 : Inv docs d s1 := h.extends hb1 hx1
    have hd1' : InvOk s1 inv := by
      obtain ⟨l, rfl, hl⟩ := hd1
      exact ⟨l, rfl, by rw [hx1.files]; exact hl⟩
    cases hm : s1.memGet p with
    | some i =>
      rw [hm] at hok
      have hdoc : ∃ t, docs p = some t := by
        cases hdp : docs p with
        | none => rw [(hi1.opened p).2 hdp] at hm; cases hm
        | some t => exact ⟨t, rfl⟩
      obtain ⟨t, hdp⟩ := hdoc
      obtain ⟨j, hj, _, hat⟩ := open_at hi1 hdp
      rw [hm] at hj; cases hj
      exact storeExisting_inv (s := s1.hook p) (base_hook hb1 p) ht1 hat hm hd1' hi1.texts (fun q _ => hi1.opened q) hok
    | none =>
      rw [hm] at hok
      cases hi : s1.index e with
      | some i =>
        rw [hi] at hok
        have hat : At s1 p i := ⟨e, ht1, hi⟩
        refine storeExisting_inv (s := (s1.memSet p i).hook p) (base_hook (base_memSet hb1 (hat.path hb1)) p) ht1 hat ?_ hd1' hi1.texts ?_ hok
        · show (s1.memSet p i).memGet p = _
          rw [memGet_set, if_pos rfl]
        · intro q hq
          have : ((s1.memSet p i).hook p).memGet q = s1.memGet q := by
            show (s1.memSet p i).memGet q = _
            rw [memGet_set, if_neg (fun h => hq h.symm)]
          rw [this]
          exact hi1.opened q
      | none =>
        rw [hi] at hok
        have hih : (s1.hook p).index e = none := hi
        simp only [withAddedFile_new hih] at hok
        have he : e < s1.entries.length := hb1.wf.node _ (mem_of_treeGet ht1) e rfl
        have hb2 := base_newFile (text := some text) (base_hook hb1 p) (e := e) ht1 hih
        have hat2 := at_new (s := s1.hook p) ht1 he hih ⟨some p, e, some text⟩
        have hb3 := base_memSet hb2 (hat2.path hb2)
        have hd3 : InvOk (Vfs.memSet { (s1.hook p).setIndexIfNone e (s1.hook p).files.length with
            files := (s1.hook p).files ++ [⟨some p, e, some text⟩] } p (s1.hook p).files.length) inv := by
          obtain ⟨l, rfl, hl⟩ := hd1'
          refine ⟨l, rfl, fun k hk => ?_⟩
          show k < (s1.files ++ [_]).length
          have := hl k hk
          simp
          omega
        obtain ⟨rfl, hsh, hf⟩ := invalidateFiles_spec hb3 hd3 hok
        refine ⟨rfl, ?_⟩
        refine Inv.shrinks ?_ hsh hf
        refine inv_stored (i := s1.files.length) hb3 hat2 ?_ ?_ ?_ ?_
        · rw [memGet_set, if_pos rfl]; rfl
        · have := code_append (s1.hook p) e ⟨some p, e, some text⟩ (s1.hook p).files.length
          rw [if_pos rfl] at this
          exact this
        · intro k f q c hk a1 a2 a3
          have a1' : (s1.files ++ [(⟨some p, e, some text⟩ : FileState)])[k]? = some f := a1
          have hlt : k < (s1.files ++ [(⟨some p, e, some text⟩ : FileState)]).length := (List.getElem?_eq_some_iff.mp a1').1
          have hlt' : k < s1.files.length := by simp at hlt; omega
          rw [List.getElem?_append_left hlt'] at a1'
          exact hi1.texts k f q c a1' a2 a3
        · intro q hq
          rw [memGet_set, if_neg (fun h => hq h.symm)]
          have hmq : Vfs.memGet { (s1.hook p).setIndexIfNone e (s1.hook p).files.length with
            files := (s1.hook p).files ++ [⟨some p, e, some text⟩] } q = s1.memGet q := rfl
          rw [hmq]
          refine ⟨fun t htq => ?_, (hi1.opened q).2⟩
          obtain ⟨j, b1, b2⟩ := (hi1.opened q).1 t htq
          refine ⟨j, b1, ?_⟩
          have hj := hb1.wf.mem _ (memGet_mem b1)
          have := code_append (s1.hook p) e ⟨some p, e, some text⟩ j
          rw [if_neg (by show j ≠ s1.files.length; exact Nat.ne_of_lt hj)] at this
          exact this.trans b2

/-! ## Closing -/

theorem treeGet_remove_some {t : List (Path × Node)} {p q : Path} {n : Node} (h : treeGet (treeRemove t p) q = some n) : ¬ p <+: q ∧ treeGet t q = some n := by
  rw [treeGet_remove] at h
  split at h
  · cases h
  · exact ⟨by assumption, h⟩

theorem base_remove {X Y : Nat → Prop} {s : Vfs} (h : Base X s) (p : Path) (hxy : ∀ i, X i → Y i) (hy : ∀ q i, p <+: q → At s q i → Y i) :
    Base Y { s with tree := treeRemove s.tree p } := by
  have hmem : ∀ x ∈ treeRemove s.tree p, x ∈ s.tree := fun x hx => (List.mem_filter.mp hx).1
  refine ⟨⟨h.wf.entry, h.wf.index, h.wf.dependents, fun x hx => h.wf.missing x (hmem x hx), fun x hx => h.wf.node x (hmem x hx), h.wf.mem⟩,
    h.noDb, fun x hx => h.noDbMissing x (hmem x hx), ?_, ?_, ?_, ?_, h.memPath, h.memUniq⟩
  · intro q n hq
    obtain ⟨h1, h2⟩ := treeGet_remove_some hq
    obtain ⟨h3, h4⟩ := h.closed q n h2
    refine ⟨h3, fun r a b c => ?_⟩
    show treeGet (treeRemove s.tree p) r = _
    rw [treeGet_remove, if_neg (fun hp => h1 (hp.trans b))]
    exact h4 r a b c
  · intro q e i hq hi
    exact h.entryPath q e i (treeGet_remove_some hq).2 hi
  · intro q q' e hq hq'
    exact h.entryUniq q q' e (treeGet_remove_some hq).2 (treeGet_remove_some hq').2
  · intro i f q c h1 h2 h3
    rcases h.loadedAt i f q c h1 h2 h3 with hx | ⟨e, h4, h5⟩
    · exact .inl (hxy i hx)
    · by_cases hp : p <+: q
      · exact .inl (hy q i hp ⟨e, h4, h5⟩)
      · refine .inr ⟨e, ?_, h5⟩
        show treeGet (treeRemove s.tree p) q = _
        rw [treeGet_remove, if_neg hp]
        exact h4

theorem Base.strengthen {X Y : Nat → Prop} {s : Vfs} (h : Base X s) (hxy : ∀ i, X i → s.code i = none ∨ Y i) : Base Y s := by
  refine ⟨h.wf, h.noDb, h.noDbMissing, h.closed, h.entryPath, h.entryUniq, ?_, h.memPath, h.memUniq⟩
  intro i f p c h1 h2 h3
  rcases h.loadedAt i f p c h1 h2 h3 with hx | hx
  · rcases hxy i hx with h' | h'
    · rw [code_eq h1, h3] at h'; cases h'
    · exact .inl h'
  · exact .inr hx

theorem code_unload (s : Vfs) (i k : Nat) : (s.unload i).code k = if i = k then none else s.code k := by
  rw [Vfs.code, Vfs.code, files_unload]
  cases s.files[k]? with
  | none => simp
  | some f =>
    simp only [Option.map_some]
    split <;> rfl

/-- The documents after closing one, when every other file is as before. -/
theorem inv_closed {docs : Docs} {d : Disk} {s0 s : Vfs} {p : Path} {i : Nat} (h0 : Inv docs d s0) (ha : At s0 p i) (hb : Base (fun _ => False) s)
    (hm : ∀ q, s.memGet q = if p = q then none else s0.memGet q)
    (hf : ∀ k, k ≠ i → s.files[k]? = s0.files[k]?)
    (hi : ∀ f c, s.files[i]? = some f → f.code = some c → f.path = some p ∧ diskText d p = some c) :
    Inv (fun q => if q = p then none else docs q) d s := by
  refine ⟨hb, ?_, ?_⟩
  · intro k f q c h1 h2 h3
    rw [expected_close]
    by_cases hk : k = i
    · subst hk
      obtain ⟨h4, h5⟩ := hi f c h1 h3
      rw [h2] at h4; cases h4
      rw [if_pos rfl]; exact h5
    · rw [hf k hk] at h1
      rw [if_neg]
      · exact h0.texts k f q c h1 h2 h3
      · rintro rfl
        exact hk ((loadedAt' h0.base h1 h2 h3).unique ha)
  · intro q
    by_cases hq : q = p
    · subst hq
      refine ⟨fun t h => ?_, fun _ => ?_⟩
      · simp at h
      · rw [hm, if_pos rfl]
    · simp only [if_neg hq]
      rw [hm, if_neg (fun h => hq h.symm)]
      refine ⟨fun t htq => ?_, (h0.opened q).2⟩
      obtain ⟨j, b1, b2⟩ := (h0.opened q).1 t htq
      refine ⟨j, b1, ?_⟩
      have hj : j ≠ i := by
        rintro rfl
        obtain ⟨f1, c1, c2⟩ := h0.base.memPath q j (memGet_mem b1)
        obtain ⟨f2, c3, c4⟩ := ha.path h0.base
        rw [c1] at c3; cases c3
        rw [c2] at c4; cases c4
        exact hq rfl
      rw [← b2, Vfs.code, Vfs.code, hf j hj]

theorem close_inv {docs : Docs} {d : Disk} {s : Vfs} {p : Path} {r : Res} {s' : Vfs} (h : Inv docs d s)
    (hok : close d p s = .ok (r, s')) : r = .files ∧ Inv (fun q => if q = p then none else docs q) d s' := by
  rw [close] at hok
  cases hm : s.memGet p with
  | none =>
    rw [hm] at hok
    cases hok
    refine ⟨rfl, ?_⟩
    have : (fun q => if q = p then none else docs q) = docs := by
      funext q
      by_cases hq : q = p
      · subst hq
        rw [if_pos rfl]
        cases hd : docs q with
        | none => rfl
        | some t =>
          obtain ⟨i, h1, _⟩ := (h.opened q).1 t hd
          rw [hm] at h1; cases h1
      · rw [if_neg hq]
    rw [this]; exact h
  | some i =>
    rw [hm] at hok
    have hdoc : ∃ t, docs p = some t := by
      cases hdp : docs p with
      | none => rw [(h.opened p).2 hdp] at hm; cases hm
      | some t => exact ⟨t, rfl⟩
    obtain ⟨t, hdp⟩ := hdoc
    obtain ⟨j, hj, hcj, ha⟩ := open_at h hdp
    rw [hm] at hj; cases hj
    obtain ⟨fi, hfi, hpi⟩ := ha.path h.base
    have hlt : i < s.files.length := (List.getElem?_eq_some_iff.mp hfi).1
    have hb1 := base_memFilter h.base p
    have hm1 := memGet_filter s p
    cases hd : diskText d p with
    | some text =>
      rw [hd] at hok
      simp only at hok
      split at hok
      · rename_i hc
        cases hok
        refine ⟨rfl, inv_closed h ha hb1 hm1 (fun k _ => rfl) ?_⟩
        intro f c h1 h2
        have h1' : s.files[i]? = some f := h1
        rw [hfi] at h1'; cases h1'
        have hc' : s.code i = some text := hc
        rw [code_eq hfi, h2] at hc'
        cases hc'
        exact ⟨hpi, hd⟩
      · rw [updateFile] at hok
        cases hu : invalidateAndUnload i { s with mem := s.mem.filter (fun m => m.1 != p) } with
        | error x => rw [hu] at hok; cases hok
        | ok v =>
          obtain ⟨r1, s1⟩ := v
          rw [hu] at hok
          cases hok
          obtain ⟨rfl, hsh, hfiles⟩ := invalidateAndUnload_spec hb1 hu
          refine ⟨rfl, ?_⟩
          have hget : ∀ k, s1.files[k]? = (s.files[k]?).map (fun f => if i = k then { f with code := none } else f) := by
            intro k; rw [hfiles]; exact files_unload _ i k
          have hs1 : s1.files[i]? = some { fi with code := none } := by rw [hget, hfi]; simp
          have hi1 : i < s1.files.length := (List.getElem?_eq_some_iff.mp hs1).1
          have hat1 : At s1 p i := hsh.at.mpr ha
          rw [update_eq hs1]
          have hbe : fi.entry < s1.entries.length := by
            rw [hsh.len]; exact h.base.wf.entry fi (List.mem_of_getElem? hfi)
          have hb3 := base_setFile (text := some text) (hsh.base hb1) hat1 hbe
          have hfx : (⟨fi.path, fi.entry, some ((none : Option String).getD text)⟩ : FileState) = ⟨some p, fi.entry, some text⟩ := by rw [hpi]; rfl
          show Inv _ d { s1 with files := s1.files.set i ⟨fi.path, fi.entry, some ((none : Option String).getD text)⟩ }
          rw [hfx]
          refine inv_closed h ha hb3 (fun q => (memGet_congr hsh.mem q).trans (hm1 q)) ?_ ?_
          · intro k hk
            show (s1.files.set i _)[k]? = _
            rw [files_set _ hi1, if_neg (fun h => hk h.symm), hget]
            cases s.files[k]? with
            | none => rfl
            | some f => rw [Option.map_some, if_neg (fun h => hk (Eq.symm h))]
          · intro f c h1 h2
            have h1' : (s1.files.set i ⟨some p, fi.entry, some text⟩)[i]? = some f := h1
            rw [files_set _ hi1, if_pos rfl] at h1'
            cases h1'
            cases h2
            exact ⟨rfl, hd⟩
    | none =>
      rw [hd] at hok
      simp only [hfi, hpi] at hok
      have htree : ∃ e, treeGet s.tree p = some (.file e) ∧ s.index e = some i := ha
      obtain ⟨e, he, hie⟩ := htree
      rw [unloadTree] at hok
      simp only [he] at hok
      have hbX : Base (fun k => k = i) { { s with mem := s.mem.filter (fun m => m.1 != p) } with tree := treeRemove s.tree p } := by
        refine base_remove (s := { s with mem := s.mem.filter (fun m => m.1 != p) }) hb1 p (fun _ h => h.elim) ?_
        rintro q k hpq ⟨e', h1, h2⟩
        by_cases hq : q = p
        · subst hq
          exact At.unique (s := s) ⟨e', h1, h2⟩ ha
        · have hpne : p ≠ [] := (h.base.closed p _ he).1
          have := (h.base.closed q _ h1).2 p hpne hpq (fun h => hq h.symm)
          rw [he] at this; cases this
      obtain ⟨rfl, hsh, hfiles⟩ := invalidateAndUnload_spec hbX hok
      refine ⟨rfl, ?_⟩
      have hget : ∀ k, s'.files[k]? = (s.files[k]?).map (fun f => if i = k then { f with code := none } else f) := by
        intro k; rw [hfiles]; exact files_unload _ i k
      have hcode : s'.code i = none := by rw [Vfs.code, hget, hfi]; simp
      have hbF : Base (fun _ => False) s' := (hsh.base hbX).strengthen (by rintro k rfl; exact .inl hcode)
      refine inv_closed h ha hbF (fun q => (memGet_congr hsh.mem q).trans (hm1 q)) ?_ ?_
      · intro k hk
        rw [hget]
        cases s.files[k]? with
        | none => rfl
        | some f => rw [Option.map_some, if_neg (fun h => hk (Eq.symm h))]
      · intro f c h1 h2
        rw [code_eq h1, h2] at hcode
        cases hcode

end Verif.Vfs
