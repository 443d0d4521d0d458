import Verif.Vfs.RecoveryLemmas

/-! # Recovery: panics while a document is parsed -/

namespace Verif.Vfs

theorem isOpen_filter (s : Vfs) (p q : Path) (h : q ≠ p) :
    Vfs.isOpen { s with mem := s.mem.filter (fun m => m.1 != p) } (some q) = s.isOpen (some q) := by
  have h1 := memGet_filter s p q
  rw [if_neg (fun h' => h h'.symm)] at h1
  cases ho : s.isOpen (some q) with
  | false =>
    rw [memGet_none.mpr ho] at h1
    exact memGet_none.mp h1
  | true =>
    cases ho' : Vfs.isOpen { s with mem := s.mem.filter (fun m => m.1 != p) } (some q) with
    | true => rfl
    | false =>
      rw [memGet_none.mpr ho'] at h1
      rw [memGet_none.mp h1.symm] at ho
      cases ho

theorem filterMap_congr' {α β : Type} {g g' : α → Option β} : ∀ {l : List α}, (∀ x ∈ l, g x = g' x) → l.filterMap g = l.filterMap g' := by
  intro l
  induction l with
  | nil => intro _; rfl
  | cons x l ih =>
    intro h
    rw [List.filterMap_cons, List.filterMap_cons, h x (List.mem_cons_self ..), ih (fun y hy => h y (List.mem_cons_of_mem _ hy))]

/-- A document without text is not carried over. -/
theorem intoRecovery_filter {s : Vfs} {p : Path} (h : ∀ f ∈ s.files, f.path = some p → f.code = none) :
    intoRecovery { s with mem := s.mem.filter (fun m => m.1 != p) } = intoRecovery s := by
  refine filterMap_congr' ?_
  intro f hf
  cases hp : f.path with
  | none => rfl
  | some q =>
    cases hc : f.code with
    | none => rfl
    | some t =>
      have hq : q ≠ p := by
        rintro rfl
        rw [h f hf hp] at hc
        cases hc
      simp only [isOpen_filter s p q hq]
      rfl

/-- The state when parsing the text of a document with index `i` panics. -/
theorem unloaded_inv {docs : Docs} {d : Disk} {s1 s2 s3 : Vfs} {p : Path} {i : Nat} {r : Res} (h : Inv docs d s1) (ha : At s1 p i)
    (hb2 : Base (fun _ => False) s2) (hf2 : s2.files = s1.files) (hm2 : ∀ q, q ≠ p → s2.memGet q = s1.memGet q)
    (h3 : invalidateAndUnload i s2 = .ok (r, s3)) :
    Inv (fun q => if q = p then none else docs q) d { s3 with mem := s3.mem.filter (fun m => m.1 != p) } ∧
    ∀ f ∈ s3.files, f.path = some p → f.code = none := by
  obtain ⟨rfl, hsh, hfiles⟩ := invalidateAndUnload_spec hb2 h3
  obtain ⟨fi, hfi, hpi⟩ := ha.path h.base
  have hget : ∀ k, s3.files[k]? = (s1.files[k]?).map (fun f => if i = k then { f with code := none } else f) := by
    intro k; rw [hfiles, ← hf2]; exact files_unload _ i k
  have hs3 : s3.files[i]? = some { fi with code := none } := by rw [hget, hfi]; simp
  have hother : ∀ k, k ≠ i → s3.files[k]? = s1.files[k]? := by
    intro k hk
    rw [hget]
    cases s1.files[k]? with
    | none => rfl
    | some f => rw [Option.map_some, if_neg (fun h => hk (Eq.symm h))]
  refine ⟨inv_closed h ha (base_memFilter (hsh.base hb2) p) ?_ hother ?_, ?_⟩
  · intro q
    rw [memGet_filter]
    by_cases hq : p = q
    · rw [if_pos hq, if_pos hq]
    · rw [if_neg hq, if_neg hq, memGet_congr hsh.mem, hm2 q (fun h => hq h.symm)]
  · intro f c a b
    have a' : s3.files[i]? = some f := a
    rw [hs3] at a'
    cases a'
    cases b
  · intro f hf hp
    obtain ⟨k, hk⟩ := List.mem_iff_getElem?.mp hf
    by_cases hki : k = i
    · subst hki
      rw [hs3] at hk
      cases hk
      rfl
    · rw [hother k hki] at hk
      cases hc : f.code with
      | none => rfl
      | some c => exact absurd ((loadedAt' h.base hk hp hc).unique ha) hki

theorem restart_congr {d : Disk} {s s2 s' : Vfs} (h : intoRecovery s2 = intoRecovery s) (hh : ∀ p ∈ recoveryHooks s2, p ∈ recoveryHooks s)
    (hok : restart d s = .ok s') : ∃ s3, restart d s2 = .ok s3 ∧ (∀ p ∈ s3.hooks, p ∈ s'.hooks) ∧ s' = { s3 with hooks := s'.hooks } := by
  rw [restart] at hok ⊢
  rw [recover, h]
  rw [recover] at hok
  cases h1 : loadRecovery d (intoRecovery s) (Vfs.start d) with
  | error x => rw [h1] at hok; cases hok
  | ok s1 =>
    rw [h1] at hok
    cases hok
    refine ⟨_, rfl, ?_, rfl⟩
    intro p hp
    rcases List.mem_append.mp hp with hp | hp
    · exact List.mem_append_left _ (hh p hp)
    · exact List.mem_append_right _ hp

theorem hooks_filter {s : Vfs} (p q : Path) (h : q ∈ recoveryHooks { s with mem := s.mem.filter (fun m => m.1 != p) }) : q ∈ recoveryHooks s := by
  obtain ⟨f, hf, hq⟩ := List.mem_filterMap.mp h
  refine List.mem_filterMap.mpr ⟨f, hf, ?_⟩
  cases hp : f.path with
  | none => rw [hp] at hq; cases hq
  | some r =>
    rw [hp] at hq
    simp only at hq ⊢
    split at hq
    · rename_i ho
      cases hq
      rw [if_pos]
      by_cases hr : q = p
      · subst hr
        have := memGet_filter s q q
        rw [if_pos rfl] at this
        rw [memGet_none.mp this] at ho
        cases ho
      · rw [isOpen_filter s p q hr] at ho
        exact ho
    · cases hq

theorem restart_unloaded {docs : Docs} {d : Disk} {s1 s2 s3 s' : Vfs} {p : Path} {i : Nat} {r : Res} (h : Inv docs d s1) (ha : At s1 p i)
    (hb2 : Base (fun _ => False) s2) (hf2 : s2.files = s1.files) (hm2 : ∀ q, q ≠ p → s2.memGet q = s1.memGet q)
    (h3 : invalidateAndUnload i s2 = .ok (r, s3)) (hok : restart d s3 = .ok s') :
    Inv (fun q => if q = p then none else docs q) d s' ∧ ∀ q t, q ≠ p → docs q = some t → q ∈ s'.hooks := by
  obtain ⟨hi, hno⟩ := unloaded_inv h ha hb2 hf2 hm2 h3
  obtain ⟨s4, h4, h5, h6⟩ := restart_congr (intoRecovery_filter hno) (hooks_filter p) hok
  obtain ⟨h7, h8⟩ := restart_inv hi h4
  refine ⟨?_, ?_⟩
  · rw [h6]; exact h7.hooks _
  · intro q t hq hd
    exact h5 q (h8 q t (by rw [if_neg hq]; exact hd))

theorem restart_parsing {docs : Docs} {d : Disk} {s s1 s' : Vfs} {p : Path} {text : String} (h : Inv docs d s)
    (h1 : storeUntilParse d p text s = .ok s1) (h2 : restart d s1 = .ok s') :
    ∃ docs', Inv docs' d s' ∧ (∀ q, q ≠ p → docs' q = docs q) ∧ (docs' p = some text ∨ docs' p = none) ∧
      ∀ q t, q ≠ p → docs q = some t → q ∈ s'.hooks := by
  have hclosed : Inv (fun q => if q = p then none else docs q) d s' → (∀ q t, q ≠ p → docs q = some t → q ∈ s'.hooks) →
      ∃ docs', Inv docs' d s' ∧ (∀ q, q ≠ p → docs' q = docs q) ∧ (docs' p = some text ∨ docs' p = none) ∧
      ∀ q t, q ≠ p → docs q = some t → q ∈ s'.hooks :=
    fun a b => ⟨_, a, (fun q hq => if_neg hq), .inr (if_pos rfl), b⟩
  rw [storeUntilParse] at h1
  cases h3 : ensureFile d p s with
  | error x => rw [h3] at h1; cases h1
  | ok v =>
    obtain ⟨e, inv, s2⟩ := v
    rw [h3] at h1
    simp only at h1
    obtain ⟨hb2, hx2, ht2, _⟩ := ensureFile_spec h.base h3
    have hi2 : Inv docs d s2 := h.extends hb2 hx2
    cases hm : s2.memGet p with
    | some i =>
      rw [hm] at h1
      have hdoc : ∃ t, docs p = some t := by
        cases hdp : docs p with
        | none => rw [(hi2.opened p).2 hdp] at hm; cases hm
        | some t => exact ⟨t, rfl⟩
      obtain ⟨t, hdp⟩ := hdoc
      obtain ⟨j, hj, hcj, hat⟩ := open_at hi2 hdp
      rw [hm] at hj; cases hj
      simp only at h1
      split at h1
      · rename_i hc
        cases h1
        rw [hc] at hcj; cases hcj
        obtain ⟨a, b⟩ := restart_inv (hi2.hooks (s2.hooks ++ [p])) h2
        exact ⟨docs, a, fun _ _ => rfl, .inl hdp, fun q t _ hq => b q t hq⟩
      · obtain ⟨⟨r, s3⟩, a, rfl⟩ := map_ok h1
        obtain ⟨b, c⟩ := restart_unloaded hi2 hat (base_hook hb2 p) rfl (fun _ _ => rfl) a h2
        exact hclosed b c
    | none =>
      rw [hm] at h1
      simp only at h1
      have hdp : docs p = none := by
        cases hd : docs p with
        | none => rfl
        | some t =>
          obtain ⟨i, a, _⟩ := (hi2.opened p).1 t hd
          rw [hm] at a; cases a
      cases hi : s2.index e with
      | some i =>
        rw [hi] at h1
        have hat : At s2 p i := ⟨e, ht2, hi⟩
        have hbm := base_hook (base_memSet hb2 (hat.path hb2)) p
        simp only at h1
        split at h1
        · rename_i hc
          cases h1
          have hinv : Inv (fun q => if q = p then some text else docs q) d ((s2.memSet p i).hook p) := by
            refine inv_stored (i := i) hbm hat ?_ hc ?_ ?_
            · show (s2.memSet p i).memGet p = _
              rw [memGet_set, if_pos rfl]
            · intro k f q c _ a1 a2 a3
              exact hi2.texts k f q c a1 a2 a3
            · intro q hq
              have : ((s2.memSet p i).hook p).memGet q = s2.memGet q := by
                show (s2.memSet p i).memGet q = _
                rw [memGet_set, if_neg (fun h => hq h.symm)]
              rw [this]
              exact hi2.opened q
          obtain ⟨a, b⟩ := restart_inv hinv h2
          exact ⟨_, a, (fun q hq => if_neg hq), .inl (if_pos rfl), fun q t hq hd => b q t (by rw [if_neg hq]; exact hd)⟩
        · obtain ⟨⟨r, s3⟩, a, rfl⟩ := map_ok h1
          obtain ⟨b, c⟩ := restart_unloaded hi2 hat hbm rfl (by
            intro q hq
            show (s2.memSet p i).memGet q = _
            rw [memGet_set, if_neg (fun h => hq h.symm)]) a h2
          exact hclosed b c
      | none =>
        rw [hi] at h1
        cases h1
        have hinv := addedUnread_inv (hi2.hooks (s2.hooks ++ [p])) (p := p) (e := e) ht2 hi
        obtain ⟨a, b⟩ := restart_inv hinv h2
        exact ⟨docs, a, fun _ _ => rfl, .inr hdp, fun q t _ hq => b q t hq⟩

end Verif.Vfs
