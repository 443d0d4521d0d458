import Verif.Vfs.OverlayInv

/-! # The overlay: what the analysis does -/

namespace Verif.Vfs

/-- Two states with the same files up to one that gets a text. -/
theorem inv_loaded {docs : Docs} {d : Disk} {s0 s : Vfs} {p : Path} {i : Nat} {text : String} (h0 : Inv docs d s0) (hb : Base (fun _ => False) s)
    (hm : s.mem = s0.mem) (hf : ∀ k, k ≠ i → s.code k = s0.code k ∧ ∀ f c, s.files[k]? = some f → f.code = some c → s0.files[k]? = some f)
    (hi0 : s0.code i = none) (hi : ∃ f, s.files[i]? = some f ∧ f.path = some p ∧ f.code = some text) (hex : expected docs d p = some text) :
    Inv docs d s := by
  refine ⟨hb, ?_, ?_⟩
  · intro k f q c h1 h2 h3
    by_cases hk : k = i
    · subst hk
      obtain ⟨f', a1, a2, a3⟩ := hi
      rw [h1] at a1; cases a1
      rw [h2] at a2; cases a2
      rw [h3] at a3; cases a3
      exact hex
    · exact h0.texts k f q c ((hf k hk).2 f c h1 h3) h2 h3
  · intro q
    rw [memGet_congr hm]
    refine ⟨fun t htq => ?_, (h0.opened q).2⟩
    obtain ⟨j, b1, b2⟩ := (h0.opened q).1 t htq
    refine ⟨j, b1, ?_⟩
    have hj : j ≠ i := by rintro rfl; rw [hi0] at b2; cases b2
    rw [(hf j hj).1, b2]

theorem docs_none_of_unloaded {docs : Docs} {d : Disk} {s : Vfs} (h : Inv docs d s) {p : Path} {e : Nat} (ht : treeGet s.tree p = some (.file e))
    (hc : ∀ i, s.index e = some i → s.code i = none) : docs p = none := by
  cases hd : docs p with
  | none => rfl
  | some t =>
    obtain ⟨i, _, h2, e', h3, h4⟩ := open_at h hd
    rw [ht] at h3; cases h3
    rw [hc i h4] at h2; cases h2

theorem load_inv {docs : Docs} {d : Disk} {s : Vfs} (p : Path) (h : Inv docs d s) :
    Inv docs d (load d p s).2 ∧ ∀ i, (load d p s).1 = some i → ∃ t, UsesText (load d p s).2 i p t ∧ expected docs d p = some t := by
  obtain ⟨hb1, hx1, ht1⟩ := findFile_spec d p [] s h.base (.inl rfl) (by intro q h1 h2; exact absurd (List.prefix_nil.mp h2) h1)
  have hi1 := h.extends hb1 hx1
  rw [load]
  cases hff : findFile d [] p s with
  | mk o s1 =>
    rw [hff] at hb1 hx1 ht1 hi1
    cases o with
    | none => exact ⟨hi1, by intro i hi; cases hi⟩
    | some e =>
      have ht := ht1 e rfl
      simp only at ht hi1 hb1 hx1 ⊢
      rw [List.nil_append] at ht
      have he : e < s1.entries.length := hb1.wf.node _ (mem_of_treeGet ht) e rfl
      cases hie : s1.index e with
      | some i =>
        dsimp only
        obtain ⟨f, hf, hp⟩ := hb1.entryPath p e i ht hie
        cases hc : s1.code i with
        | some c =>
          have hfc : f.code = some c := by rw [← hc, code_eq hf]
          refine ⟨hi1, ?_⟩
          intro j hj
          cases hj
          exact ⟨c, ⟨f, hf, hp, hfc⟩, hi1.texts i f p c hf hp hfc⟩
        | none =>
          have hfc : f.code = none := by rw [← hc, code_eq hf]
          have hdn := docs_none_of_unloaded hi1 ht (by intro j hj; rw [hie] at hj; cases hj; exact hc)
          cases hd : diskText d p with
          | none => exact ⟨hi1, by intro i hi; cases hi⟩
          | some text =>
            have hex : expected docs d p = some text := by rw [expected_none hdn, hd]
            simp only
            rw [update_eq hf, hfc, hp]
            have hlt : i < s1.files.length := (List.getElem?_eq_some_iff.mp hf).1
            have hb2 := base_setFile (text := some text) hb1 (p := p) (i := i) (e := f.entry) ⟨e, ht, hie⟩ (hb1.wf.entry f (List.mem_of_getElem? hf))
            have hget : (s1.files.set i ⟨some p, f.entry, some text⟩)[i]? = some ⟨some p, f.entry, some text⟩ := by rw [files_set _ hlt, if_pos rfl]
            refine ⟨inv_loaded hi1 hb2 rfl ?_ hc ⟨_, hget, rfl, rfl⟩ hex, ?_⟩
            · intro k hk
              have hk' : (s1.files.set i ⟨some p, f.entry, some text⟩)[k]? = s1.files[k]? := by
                rw [files_set _ hlt, if_neg (fun h => hk h.symm)]
              refine ⟨?_, fun f' c h1 _ => ?_⟩
              · rw [Vfs.code, Vfs.code]
                show (match (s1.files.set i ⟨some p, f.entry, some text⟩)[k]? with | some f => f.code | none => none) = _
                rw [hk']
                cases s1.files[k]? <;> rfl
              · rw [← hk']; exact h1
            · intro j hj
              cases hj
              exact ⟨text, ⟨_, hget, rfl, rfl⟩, hex⟩
      | none =>
        have hdn := docs_none_of_unloaded hi1 ht (by intro j hj; rw [hie] at hj; cases hj)
        cases hd : diskText d p with
        | none => exact ⟨hi1, by intro i hi; cases hi⟩
        | some text =>
          have hex : expected docs d p = some text := by rw [expected_none hdn, hd]
          simp only [withAddedFile_new hie]
          have hb2 := base_newFile (text := some text) hb1 (e := e) ht hie
          have hget : (s1.files ++ [(⟨some p, e, some text⟩ : FileState)])[s1.files.length]? = some ⟨some p, e, some text⟩ := by simp
          have hnone : s1.code s1.files.length = none := by rw [Vfs.code, List.getElem?_eq_none (Nat.le_refl _)]
          refine ⟨inv_loaded (p := p) hi1 hb2 rfl ?_ hnone ⟨_, hget, rfl, rfl⟩ hex, ?_⟩
          · intro k hk
            refine ⟨?_, fun f' c h1 _ => ?_⟩
            · rw [code_append, if_neg hk]
            · have h1' : (s1.files ++ [(⟨some p, e, some text⟩ : FileState)])[k]? = some f' := h1
              have hlt : k < (s1.files ++ [(⟨some p, e, some text⟩ : FileState)]).length := (List.getElem?_eq_some_iff.mp h1').1
              have hlt' : k < s1.files.length := by simp at hlt; omega
              rw [List.getElem?_append_left hlt'] at h1'
              exact h1'
          · intro j hj
            cases hj
            exact ⟨text, ⟨_, hget, rfl, rfl⟩, hex⟩

theorem findFile_found (d : Disk) : ∀ (rest : List String) (base : Path) (s : Vfs) (e : Nat), treeGet s.tree (base ++ rest) = some (.file e) → rest ≠ [] →
    (∀ q, base <+: q → q ≠ base → q <+: base ++ rest → q ≠ base ++ rest → treeGet s.tree q = some (.dir true)) →
    findFile d base rest s = (some e, s) := by
  intro rest
  induction rest with
  | nil => intro base s e _ h; exact absurd rfl h
  | cons name rest ih =>
    intro base s e h _ hpar
    cases rest with
    | nil => rw [findFile, h]
    | cons next more =>
      have happ : base ++ name :: next :: more = (base ++ [name]) ++ next :: more := by simp
      have hdir := hpar (base ++ [name]) (List.prefix_append _ _) (by simp) ⟨next :: more, by simp⟩ (by simp)
      rw [findFile]
      rw [hdir]
      refine ih (base ++ [name]) s e (by rw [← happ]; exact h) (by simp) ?_
      intro q h1 h2 h3 h4
      refine hpar q ((List.prefix_append _ _).trans h1) ?_ (by rw [happ]; exact h3) (by rw [happ]; exact h4)
      rintro rfl
      have := h1.length_le
      simp at this
      omega

/-- An open document is found, with its text. -/
theorem load_open {docs : Docs} {d : Disk} {s : Vfs} {p : Path} {t : String} (h : Inv docs d s) (hp : docs p = some t) :
    ∃ i, load d p s = (some i, s) ∧ UsesText s i p t := by
  obtain ⟨i, hm, hc, e, h1, h2⟩ := open_at h hp
  obtain ⟨hne, hpar⟩ := h.base.closed p _ h1
  have hff := findFile_found d p [] s e h1 hne (fun q _ a b c => hpar q a b c)
  obtain ⟨f, hf, hpf⟩ := h.base.entryPath p e i h1 h2
  refine ⟨i, ?_, f, hf, hpf, by rw [← hc, code_eq hf]⟩
  rw [load, hff]
  simp only [h2, hc]

theorem reserve_inv {docs : Docs} {d : Disk} {s : Vfs} (p : Path) (h : Inv docs d s) : Inv docs d (reserve d p s) := by
  obtain ⟨hb1, hx1, ht1⟩ := findFile_spec d p [] s h.base (.inl rfl) (by intro q h1 h2; exact absurd (List.prefix_nil.mp h2) h1)
  have hi1 := h.extends hb1 hx1
  rw [reserve]
  cases hff : findFile d [] p s with
  | mk o s1 =>
    rw [hff] at hb1 hx1 ht1 hi1
    cases o with
    | none => exact hi1
    | some e =>
      have ht := ht1 e rfl
      simp only at ht hi1 hb1 hx1 ⊢
      rw [List.nil_append] at ht
      cases hie : s1.index e with
      | some i => exact hi1
      | none =>
        have hb2 := base_newFile (text := none) hb1 (e := e) ht hie
        refine ⟨hb2, ?_, ?_⟩
        · intro k f q c h1 h2 h3
          have h1' : (s1.files ++ [(⟨some p, e, none⟩ : FileState)])[k]? = some f := h1
          by_cases hk : k < s1.files.length
          · rw [List.getElem?_append_left hk] at h1'
            exact hi1.texts k f q c h1' h2 h3
          · rw [List.getElem?_append_right (by omega)] at h1'
            obtain ⟨hz, hh⟩ := List.getElem?_eq_some_iff.mp h1'
            simp at hz
            have : k - s1.files.length = 0 := by omega
            simp [this] at hh
            rw [← hh] at h3
            cases h3
        · intro q
          have hmq : Vfs.memGet { s1.setIndexIfNone e s1.files.length with files := s1.files ++ [⟨some p, e, none⟩] } q = s1.memGet q := rfl
          rw [hmq]
          refine ⟨fun t htq => ?_, (hi1.opened q).2⟩
          obtain ⟨j, b1, b2⟩ := (hi1.opened q).1 t htq
          refine ⟨j, b1, ?_⟩
          have hj := hb1.wf.mem _ (memGet_mem b1)
          rw [code_append, if_neg (Nat.ne_of_lt hj), b2]

theorem inv_addInvalidation (s : Vfs) (e i e' : Nat) (he : e < s.entries.length) :
    (s.addInvalidation e i).inv e' = if e = e' then (s.inv e).add i else s.inv e' := by
  rw [Vfs.addInvalidation, inv_setInv _ _ _ _ he]

theorem base_addInvalidation {X} {s : Vfs} (h : Base X s) {e i : Nat} (he : e < s.entries.length) (hi : i < s.files.length) :
    Base X (s.addInvalidation e i) := by
  have hidx : ∀ e', (s.addInvalidation e i).index e' = s.index e' := fun e' => by rw [Vfs.addInvalidation, index_setInv]
  refine ⟨wellFormed_add h.wf he hi, ?_, h.noDbMissing, h.closed, ?_, h.entryUniq, ?_, h.memPath, h.memUniq⟩
  · intro e' hc
    rw [inv_addInvalidation _ _ _ _ he] at hc
    split at hc
    · cases hd : s.inv e with
      | invalidatesDb => exact h.noDb e hd
      | files l =>
        rw [hd, Detail.add] at hc
        split at hc <;> cases hc
    · exact h.noDb e' hc
  · intro p e' k h1 h2
    rw [hidx] at h2
    exact h.entryPath p e' k h1 h2
  · intro k f p c h1 h2 h3
    rcases h.loadedAt k f p c h1 h2 h3 with hx | ⟨e', h4, h5⟩
    · exact .inl hx
    · exact .inr ⟨e', h4, by rw [hidx]; exact h5⟩

theorem depend_inv {docs : Docs} {d : Disk} {s : Vfs} (i : Nat) (p : Path) (h : Inv docs d s) : Inv docs d (depend i p s) := by
  rw [depend]
  split
  · rename_i e he
    split
    · rename_i hlt
      exact h.same (base_addInvalidation h.base (h.base.wf.node _ (mem_of_treeGet he) e rfl) hlt) rfl rfl
    · exact h
  · exact h

theorem addMissing_inv {docs : Docs} {d : Disk} {s : Vfs} (i : Nat) (p : Path) (h : Inv docs d s) : Inv docs d (addMissing i p s) := by
  rw [addMissing]
  split
  · rename_i hc
    rw [Bool.and_eq_true] at hc
    obtain ⟨hp, hpar⟩ := parentsOk_of_loaded hc.1
    have hlt : i < s.files.length := by simpa using hc.2
    split
    · rename_i inv hm
      have hf : Free s p := by intro n hn; rw [hm] at hn; cases hn; exact .inl ⟨_, rfl⟩
      obtain ⟨l, rfl, hl⟩ := invOk_of_missing h.base hm
      have hadd : ∃ l', (Detail.files l).add i = .files l' ∧ ∀ k ∈ l', k < s.files.length := by
        rw [Detail.add]
        split
        · exact ⟨l, rfl, hl⟩
        · refine ⟨l ++ [i], rfl, fun k hk => ?_⟩
          rcases List.mem_append.mp hk with hk | hk
          · exact hl k hk
          · rw [List.mem_singleton.mp hk]; exact hlt
      obtain ⟨l', h1, h2⟩ := hadd
      rw [h1]
      refine h.same (base_setNode h.base hf hp hpar (by intro e he; cases he) (by intro he; cases he) ?_) rfl rfl
      intro l hl; cases hl; exact h2
    · rename_i e he
      exact h.same (base_addInvalidation h.base (h.base.wf.node _ (mem_of_treeGet he) e rfl) hlt) rfl rfl
    · exact h
    · rename_i hm
      have hf : Free s p := by intro n hn; rw [hm] at hn; cases hn
      refine h.same (base_setNode h.base hf hp hpar (by intro e he; cases he) (by intro he; cases he) ?_) rfl rfl
      intro l hl; cases hl
      intro k hk; rw [List.mem_singleton.mp hk]; exact hlt
  · exact h

end Verif.Vfs
