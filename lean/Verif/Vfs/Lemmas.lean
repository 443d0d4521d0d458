import Verif.Vfs.Spec

/-! # Propagation of invalidations: the invariant of the depth first search -/

namespace Verif.Vfs

theorem getElem?_modify' {α : Type} (l : List α) (i j : Nat) (f : α → α) :
    (l.modify i f)[j]? = if i = j then l[j]?.map f else l[j]? := by
  rw [List.getElem?_modify]
  split
  · rfl
  · cases l[j]? <;> rfl

theorem inv_setInv (s : Vfs) (e e' : Nat) (d : Detail) (h : e < s.entries.length) :
    (s.setInv e d).inv e' = if e = e' then d else s.inv e' := by
  simp only [Vfs.inv, Vfs.setInv, getElem?_modify']
  by_cases he : e = e'
  · subst he
    rw [if_pos rfl, if_pos rfl, List.getElem?_eq_getElem h]
    rfl
  · rw [if_neg he, if_neg he]

theorem index_setInv (s : Vfs) (e e' : Nat) (d : Detail) : (s.setInv e d).index e' = s.index e' := by
  simp only [Vfs.index, Vfs.setInv, getElem?_modify']
  by_cases he : e = e'
  · subst he
    rw [if_pos rfl]
    cases s.entries[e]? <;> rfl
  · rw [if_neg he]

theorem length_setInv (s : Vfs) (e : Nat) (d : Detail) : (s.setInv e d).entries.length = s.entries.length := by
  simp [Vfs.setInv]

/-- `Records` through the accessor of the model. -/
theorem records_iff (s : Vfs) (a b : Nat) :
    Records s a b ↔ ∃ fs l, s.files[a]? = some fs ∧ s.inv fs.entry = .files l ∧ b ∈ l := by
  constructor
  · rintro ⟨fs, e, l, h1, h2, h3, h4⟩
    exact ⟨fs, l, h1, by rw [Vfs.inv, h2]; exact h3, h4⟩
  · rintro ⟨fs, l, h1, h2, h3⟩
    rw [Vfs.inv] at h2
    cases he : s.entries[fs.entry]? with
    | none =>
      rw [he] at h2
      have : ([] : List Nat) = l := by
        have h2' : Detail.files [] = Detail.files l := h2
        exact Detail.files.inj h2'
      subst this
      simp at h3
    | some e =>
      rw [he] at h2
      exact ⟨fs, e, l, h1, he, h2, h3⟩

theorem wholeDb_iff (s : Vfs) (a : Nat) :
    WholeDb s a ↔ ∃ fs, s.files[a]? = some fs ∧ s.inv fs.entry = .invalidatesDb := by
  constructor
  · rintro ⟨fs, e, h1, h2, h3⟩
    exact ⟨fs, h1, by rw [Vfs.inv, h2]; exact h3⟩
  · rintro ⟨fs, h1, h2⟩
    rw [Vfs.inv] at h2
    cases he : s.entries[fs.entry]? with
    | none => rw [he] at h2; cases h2
    | some e =>
      rw [he] at h2
      exact ⟨fs, e, h1, he, h2⟩

/-- Reached from a set of roots in zero or more recorded steps. -/
inductive Reach (s : Vfs) (roots : Nat → Prop) : Nat → Prop where
  | root {i : Nat} : roots i → Reach s roots i
  | step {i j : Nat} : Reach s roots i → Records s i j → Reach s roots j

theorem Reach.mono {s t : Vfs} {R Q : Nat → Prop} (hr : ∀ a b, Records s a b → Records t a b)
    (hR : ∀ i, R i → Reach t Q i) {k : Nat} (h : Reach s R k) : Reach t Q k := by
  induction h with
  | root h => exact hR _ h
  | step _ h ih => exact .step ih (hr _ _ h)

/-- The path of an open file in the log of hooks. -/
def HookOf (s : Vfs) (p : Path) (i : Nat) : Prop :=
  ∃ fs, s.files[i]? = some fs ∧ fs.path = some p ∧ s.isOpen (some p) = true

/-- What a propagation from `roots` does to a state. -/
structure Post (orig : Option Nat) (roots : Nat → Prop) (s : Vfs) (r : Res) (s' : Vfs) : Prop where
  files : s'.files = s.files
  tree : s'.tree = s.tree
  mem : s'.mem = s.mem
  len : s'.entries.length = s.entries.length
  idx : ∀ e, s'.index e = s.index e
  grow : ∃ m h, s'.marks = s.marks ++ m ∧ s'.hooks = s.hooks ++ h ∧
    (∀ x ∈ m, x.2 = orig ∧ Reach s roots x.1) ∧
    (r = .files → ∀ x ∈ m, ∃ fs, s.files[x.1]? = some fs ∧ s'.inv fs.entry = .files []) ∧
    (r = .files → ∀ i, roots i → i ∈ m.map (·.1)) ∧
    (∀ e, s'.inv e = s.inv e ∨ ∃ l, s.inv e = .files l ∧ s'.inv e = .files [] ∧ (r = .files → ∀ j ∈ l, j ∈ m.map (·.1)) ∧
      ∃ x ∈ m.map (·.1), ∃ fs, s.files[x]? = some fs ∧ fs.entry = e) ∧
    (r = .files → ∀ p, p ∈ h ↔ ∃ i ∈ m.map (·.1), HookOf s p i) ∧
    (r = .db → ∀ p, p ∈ h ↔ s.isOpen (some p) = true)
  db : r = .db → ∃ k, Reach s roots k ∧ WholeDb s k

theorem Post.inv {orig roots s r s'} (h : Post orig roots s r s') (e : Nat) :
    s'.inv e = s.inv e ∨ ∃ l, s.inv e = .files l ∧ s'.inv e = .files [] := by
  obtain ⟨m, hk, _, _, _, _, _, h6, _⟩ := h.grow
  rcases h6 e with h | ⟨l, h1, h2, _⟩
  · exact .inl h
  · exact .inr ⟨l, h1, h2⟩

theorem Post.records {orig roots s r s'} (h : Post orig roots s r s') (a b : Nat) (hr : Records s' a b) : Records s a b := by
  rw [records_iff] at hr ⊢
  obtain ⟨fs, l, h1, h2, h3⟩ := hr
  rw [h.files] at h1
  rcases h.inv fs.entry with h' | ⟨l', h4, h5⟩
  · exact ⟨fs, l, h1, h' ▸ h2, h3⟩
  · rw [h5] at h2
    cases h2
    simp at h3

theorem Post.wholeDb {orig roots s r s'} (h : Post orig roots s r s') (a : Nat) : WholeDb s' a ↔ WholeDb s a := by
  rw [wholeDb_iff, wholeDb_iff, h.files]
  constructor
  · rintro ⟨fs, h1, h2⟩
    refine ⟨fs, h1, ?_⟩
    rcases h.inv fs.entry with h' | ⟨l', h4, h5⟩
    · exact h' ▸ h2
    · rw [h5] at h2; cases h2
  · rintro ⟨fs, h1, h2⟩
    refine ⟨fs, h1, ?_⟩
    rcases h.inv fs.entry with h' | ⟨l', h4, h5⟩
    · exact h'.trans h2
    · rw [h4] at h2; cases h2

theorem isOpen_eq {s t : Vfs} (h : t.mem = s.mem) (p : Option Path) : t.isOpen p = s.isOpen p := by
  cases p with
  | none => rfl
  | some p => simp only [Vfs.isOpen, h]

theorem hookOf_eq {s t : Vfs} (h : t.mem = s.mem) (hf : t.files = s.files) (p : Path) (i : Nat) : HookOf t p i ↔ HookOf s p i := by
  simp only [HookOf, hf, isOpen_eq h]

theorem isOpen_iff (s : Vfs) (p : Path) : s.isOpen (some p) = true ↔ p ∈ s.mem.map (·.1) := by
  simp [Vfs.isOpen]

theorem mono_empty {s' s'' : Vfs} {e : Nat} (h : s''.inv e = s'.inv e ∨ ∃ l, s'.inv e = .files l ∧ s''.inv e = .files [])
    (h' : s'.inv e = .files []) : s''.inv e = .files [] := by
  rcases h with h | ⟨l, _, h2⟩
  · exact h.trans h'
  · exact h2

theorem Post.seq {orig : Option Nat} {i : Nat} {is : List Nat} {s s' s'' : Vfs} {r : Res}
    (h1 : Post orig (· = i) s .files s') (h2 : Post orig (· ∈ is) s' r s'') : Post orig (· ∈ i :: is) s r s'' := by
  obtain ⟨m1, k1, a1, a2, a3, a4, a5, a6, a7, _⟩ := h1.grow
  obtain ⟨m2, k2, b1, b2, b3, b4, b5, b6, b7, b8⟩ := h2.grow
  have hroot1 : ∀ x, x = i → Reach s (· ∈ i :: is) x := fun x hx => .root (by simp [hx])
  have hroot2 : ∀ x, x ∈ is → Reach s (· ∈ i :: is) x := fun x hx => .root (by simp [hx])
  refine ⟨h2.files.trans h1.files, h2.tree.trans h1.tree, h2.mem.trans h1.mem, h2.len.trans h1.len,
    fun e => (h2.idx e).trans (h1.idx e), ⟨m1 ++ m2, k1 ++ k2, ?_, ?_, ?_, ?_, ?_, ?_, ?_, ?_⟩, ?_⟩
  · rw [b1, a1, List.append_assoc]
  · rw [b2, a2, List.append_assoc]
  · intro x hx
    rcases List.mem_append.mp hx with hx | hx
    · exact ⟨(a3 x hx).1, (a3 x hx).2.mono (fun _ _ h => h) hroot1⟩
    · exact ⟨(b3 x hx).1, (b3 x hx).2.mono h1.records hroot2⟩
  · intro hr x hx
    rcases List.mem_append.mp hx with hx | hx
    · obtain ⟨fs, hf, he⟩ := a4 rfl x hx
      exact ⟨fs, hf, mono_empty (h2.inv fs.entry) he⟩
    · obtain ⟨fs, hf, he⟩ := b4 hr x hx
      rw [h1.files] at hf
      exact ⟨fs, hf, he⟩
  · intro hr j hj
    rw [List.map_append]
    rcases List.mem_cons.mp hj with rfl | hj
    · exact List.mem_append_left _ (a5 rfl _ rfl)
    · exact List.mem_append_right _ (b5 hr _ hj)
  · intro e
    rw [List.map_append]
    rcases a6 e with ha | ⟨l, ha, ha', hm⟩
    · rcases b6 e with hb | ⟨l, hb, hb', hm⟩
      · exact .inl (hb.trans ha)
      · obtain ⟨hm, x, hx, fs, hfs, he⟩ := hm
        exact .inr ⟨l, ha ▸ hb, hb', fun hr j hj => List.mem_append_right _ (hm hr j hj),
          x, List.mem_append_right _ hx, fs, h1.files ▸ hfs, he⟩
    · obtain ⟨hm, x, hx, fs, hfs, he⟩ := hm
      exact .inr ⟨l, ha, mono_empty (h2.inv e) ha', fun _ j hj => List.mem_append_left _ (hm rfl j hj),
        x, List.mem_append_left _ hx, fs, hfs, he⟩
  · intro hr p
    rw [List.mem_append, a7 rfl, b7 hr, List.map_append]
    simp only [List.mem_append, hookOf_eq h1.mem h1.files]
    constructor
    · rintro (⟨j, hj, h⟩ | ⟨j, hj, h⟩)
      · exact ⟨j, .inl hj, h⟩
      · exact ⟨j, .inr hj, h⟩
    · rintro ⟨j, hj | hj, h⟩
      · exact .inl ⟨j, hj, h⟩
      · exact .inr ⟨j, hj, h⟩
  · intro hr p
    rw [List.mem_append, a7 rfl, b8 hr, isOpen_eq h1.mem]
    constructor
    · rintro (⟨j, _, fs, _, _, h⟩ | h)
      · exact h
      · exact h
    · exact .inr
  · intro hr
    obtain ⟨k, hk, hw⟩ := h2.db hr
    exact ⟨k, hk.mono h1.records hroot2, (h1.wholeDb k).mp hw⟩

theorem Post.weaken {orig : Option Nat} {R Q : Nat → Prop} {s s' : Vfs} (h : Post orig R s .db s') (hR : ∀ i, R i → Q i) :
    Post orig Q s .db s' := by
  obtain ⟨m, k, b1, b2, b3, b4, b5, b6, b7, b8⟩ := h.grow
  refine ⟨h.files, h.tree, h.mem, h.len, h.idx, ⟨m, k, b1, b2, ?_, b4, ?_, b6, b7, b8⟩, ?_⟩
  · exact fun x hx => ⟨(b3 x hx).1, (b3 x hx).2.mono (fun _ _ h => h) (fun i hi => .root (hR i hi))⟩
  · intro hr; cases hr
  · intro hr
    obtain ⟨k, hk, hw⟩ := h.db hr
    exact ⟨k, hk.mono (fun _ _ h => h) (fun i hi => .root (hR i hi)), hw⟩

theorem post_list {orig : Option Nat} {f : Nat → Vfs → Except Fault (Res × Vfs)}
    (hf : ∀ i s r s', (∀ fs ∈ s.files, fs.entry < s.entries.length) → f i s = .ok (r, s') → Post orig (· = i) s r s') :
    ∀ (l : List Nat) (s : Vfs) (r : Res) (s' : Vfs), (∀ fs ∈ s.files, fs.entry < s.entries.length) →
      invalidateList f l s = .ok (r, s') → Post orig (· ∈ l) s r s' := by
  intro l
  induction l with
  | nil =>
    intro s r s' _ h
    rw [invalidateList] at h
    cases h
    refine ⟨rfl, rfl, rfl, rfl, fun _ => rfl, ⟨[], [], by simp, by simp, by simp, by simp, by simp, fun _ => .inl rfl, ?_, ?_⟩, ?_⟩
    · intro _ p; simp
    · intro hr; cases hr
    · intro hr; cases hr
  | cons i is ih =>
    intro s r s' hw h
    rw [invalidateList] at h
    cases hfi : f i s with
    | error x => rw [hfi] at h; cases h
    | ok v =>
      obtain ⟨r1, s1⟩ := v
      rw [hfi] at h
      have hp := hf i s r1 s1 hw hfi
      cases r1 with
      | db =>
        cases h
        exact hp.weaken (fun j hj => by simp [hj])
      | files =>
        exact hp.seq (ih s1 r s' (by rw [hp.files, hp.len]; exact hw) h)

theorem post_byIndex (orig : Option Nat) :
    ∀ (n i : Nat) (s : Vfs) (r : Res) (s' : Vfs), (∀ fs ∈ s.files, fs.entry < s.entries.length) →
      invalidateByIndex n orig i s = .ok (r, s') → Post orig (· = i) s r s' := by
  intro n
  induction n with
  | zero => intro i s r s' _ h; rw [invalidateByIndex] at h; cases h
  | succ n ih =>
    intro i s r s' hw h
    rw [invalidateByIndex] at h
    cases hfs : s.files[i]? with
    | none => rw [hfs] at h; cases h
    | some fs =>
      rw [hfs] at h
      have hlt : fs.entry < s.entries.length := hw fs (List.mem_of_getElem? hfs)
      simp only at h
      cases hd : s.inv fs.entry with
      | invalidatesDb =>
        rw [hd, invalidateFilesWith] at h
        simp only at h
        cases h
        refine ⟨rfl, rfl, rfl, length_setInv _ _ _, fun e => index_setInv _ _ e _, ⟨[(i, orig)], s.mem.map (·.1), rfl, rfl, ?_, ?_, ?_, ?_, ?_, ?_⟩, ?_⟩
        · intro x hx
          rw [List.mem_singleton] at hx
          subst hx
          exact ⟨rfl, .root rfl⟩
        · intro hr; cases hr
        · intro hr; cases hr
        · intro e
          left
          show (s.setInv fs.entry Detail.invalidatesDb.afterTake).inv e = _
          rw [inv_setInv _ _ _ _ hlt]
          split
          · rename_i he; subst he; rw [hd]; rfl
          · rfl
        · intro hr; cases hr
        · intro _ p; exact (isOpen_iff s p).symm
        · intro _
          exact ⟨i, .root rfl, (wholeDb_iff s i).mpr ⟨fs, hfs, hd⟩⟩
      | files l =>
        rw [hd, invalidateFilesWith] at h
        generalize hs2 : ({ s.setInv fs.entry (Detail.files l).afterTake with marks := (s.setInv fs.entry (Detail.files l).afterTake).marks ++ [(i, orig)] } : Vfs) = s2 at h
        have h2f : s2.files = s.files := by rw [← hs2]; rfl
        have h2t : s2.tree = s.tree := by rw [← hs2]; rfl
        have h2m : s2.mem = s.mem := by rw [← hs2]; rfl
        have h2k : s2.marks = s.marks ++ [(i, orig)] := by rw [← hs2]; rfl
        have h2h : s2.hooks = s.hooks := by rw [← hs2]; rfl
        have h2l : s2.entries.length = s.entries.length := by rw [← hs2]; exact length_setInv _ _ _
        have h2x : ∀ e, s2.index e = s.index e := by intro e; rw [← hs2]; exact index_setInv _ _ e _
        have h2i : ∀ e, s2.inv e = if fs.entry = e then .files [] else s.inv e := by
          intro e; rw [← hs2]; exact inv_setInv _ _ e _ hlt
        have hrec : ∀ a b, Records s2 a b → Records s a b := by
          intro a b hr
          rw [records_iff] at hr ⊢
          obtain ⟨fs', l', h1, h3, h4⟩ := hr
          rw [h2f] at h1
          rw [h2i] at h3
          split at h3
          · cases h3; simp at h4
          · exact ⟨fs', l', h1, h3, h4⟩
        have hwd : ∀ a, WholeDb s2 a → WholeDb s a := by
          intro a hr
          rw [wholeDb_iff] at hr ⊢
          obtain ⟨fs', h1, h3⟩ := hr
          rw [h2f] at h1
          rw [h2i] at h3
          split at h3
          · cases h3
          · exact ⟨fs', h1, h3⟩
        have hroots : ∀ j, j ∈ l → Reach s (· = i) j := fun j hj =>
          .step (.root rfl) ((records_iff s i j).mpr ⟨fs, l, hfs, hd, hj⟩)
        cases hl : invalidateList (invalidateByIndex n orig) l s2 with
        | error x => rw [hl] at h; cases h
        | ok v =>
          obtain ⟨r3, s3⟩ := v
          rw [hl] at h
          have hp := post_list ih l s2 r3 s3 (by rw [h2f, h2l]; exact hw) hl
          obtain ⟨m, k, b1, b2, b3, b4, b5, b6, b7, b8⟩ := hp.grow
          have hx : ∀ x ∈ (i, orig) :: m, x.2 = orig ∧ Reach s (· = i) x.1 := by
            intro x hx
            rcases List.mem_cons.mp hx with rfl | hx
            · exact ⟨rfl, .root rfl⟩
            · exact ⟨(b3 x hx).1, (b3 x hx).2.mono hrec hroots⟩
          cases r3 with
          | db =>
            cases h
            refine ⟨hp.files.trans h2f, hp.tree.trans h2t, hp.mem.trans h2m, hp.len.trans h2l,
              fun e => (hp.idx e).trans (h2x e), ⟨(i, orig) :: m, k, ?_, ?_, hx, ?_, ?_, ?_, ?_, ?_⟩, ?_⟩
            · rw [b1, h2k, List.append_assoc]; rfl
            · rw [b2, h2h]
            · intro hr; cases hr
            · intro hr; cases hr
            · intro e
              have hcomb := b6 e
              rw [h2i e] at hcomb
              by_cases he : fs.entry = e
              · subst he
                right
                refine ⟨l, hd, ?_, ?_, i, by simp, fs, hfs, rfl⟩
                · rcases hcomb with hc | ⟨_, _, hc, _⟩
                  · simpa using hc
                  · exact hc
                · intro hr; cases hr
              · rw [if_neg he] at hcomb
                rcases hcomb with hc | ⟨l', h1, h3, _, x, hx, fs', hf', he'⟩
                · exact .inl hc
                · exact .inr ⟨l', h1, h3, (fun hr => by cases hr), x, by rw [List.map_cons]; exact List.mem_cons_of_mem _ hx,
                    fs', h2f ▸ hf', he'⟩
            · intro hr; cases hr
            · intro _ p; rw [b8 rfl, isOpen_eq h2m]
            · intro _
              obtain ⟨k, hk, hw'⟩ := hp.db rfl
              exact ⟨k, hk.mono hrec hroots, hwd k hw'⟩
          | files =>
            have h' : r = .files ∧ s' = s3.hookIfOpen fs.path := by
              cases h; exact ⟨rfl, rfl⟩
            obtain ⟨rfl, hs'⟩ := h'
            have h4 : s'.files = s3.files ∧ s'.tree = s3.tree ∧ s'.mem = s3.mem ∧ s'.entries = s3.entries ∧ s'.marks = s3.marks ∧
                ∃ k', s'.hooks = s3.hooks ++ k' ∧ ∀ p, p ∈ k' ↔ HookOf s p i := by
              rw [hs']
              have h3m : s3.mem = s.mem := hp.mem.trans h2m
              cases hpath : fs.path with
              | none =>
                refine ⟨rfl, rfl, rfl, rfl, rfl, [], by simp [Vfs.hookIfOpen], ?_⟩
                intro p
                constructor
                · intro h; simp at h
                · rintro ⟨fs', h1, h2, _⟩
                  rw [hfs] at h1; cases h1
                  rw [hpath] at h2; cases h2
              | some q =>
                rw [Vfs.hookIfOpen]
                by_cases ho : s3.isOpen (some q) = true
                · simp only [ho, if_true]
                  refine ⟨trivial, trivial, trivial, trivial, trivial, [q], rfl, ?_⟩
                  intro p
                  rw [List.mem_singleton]
                  constructor
                  · rintro rfl
                    exact ⟨fs, hfs, hpath, (isOpen_eq h3m _) ▸ ho⟩
                  · rintro ⟨fs', h1, h2, _⟩
                    rw [hfs] at h1; cases h1
                    rw [hpath] at h2; cases h2; rfl
                · simp only [ho]
                  refine ⟨rfl, rfl, rfl, rfl, rfl, [], by simp, ?_⟩
                  intro p
                  constructor
                  · intro h; simp at h
                  · rintro ⟨fs', h1, h2, h3⟩
                    rw [hfs] at h1; cases h1
                    rw [hpath] at h2; cases h2
                    rw [isOpen_eq h3m] at ho
                    exact absurd h3 ho
            obtain ⟨c1, c2, c3, c4, c5, k', c6, c7⟩ := h4
            have hinv : ∀ e, s'.inv e = s3.inv e := fun e => by simp only [Vfs.inv, c4]
            have hidx : ∀ e, s'.index e = s3.index e := fun e => by simp only [Vfs.index, c4]
            have hself : s'.inv fs.entry = .files [] := by
              rw [hinv]
              exact mono_empty (hp.inv fs.entry) (by rw [h2i, if_pos rfl])
            refine ⟨c1.trans (hp.files.trans h2f), c2.trans (hp.tree.trans h2t), c3.trans (hp.mem.trans h2m),
              (by rw [c4]; exact hp.len.trans h2l), fun e => (hidx e).trans ((hp.idx e).trans (h2x e)),
              ⟨(i, orig) :: m, k ++ k', ?_, ?_, hx, ?_, ?_, ?_, ?_, ?_⟩, ?_⟩
            · rw [c5, b1, h2k, List.append_assoc]; rfl
            · rw [c6, b2, h2h, List.append_assoc]
            · intro _ x hx'
              rcases List.mem_cons.mp hx' with rfl | hx'
              · exact ⟨fs, hfs, hself⟩
              · obtain ⟨fs', h1, h2⟩ := b4 rfl x hx'
                rw [h2f] at h1
                exact ⟨fs', h1, by rw [hinv]; exact h2⟩
            · rintro _ j rfl
              simp
            · intro e
              have hcomb := b6 e
              rw [h2i e] at hcomb
              rw [hinv]
              by_cases he : fs.entry = e
              · subst he
                right
                refine ⟨l, hd, (hinv _) ▸ hself, ?_, i, by simp, fs, hfs, rfl⟩
                intro _ j hj
                rw [List.map_cons]
                exact List.mem_cons_of_mem _ (b5 rfl j hj)
              · rw [if_neg he] at hcomb
                rcases hcomb with hc | ⟨l', h1, h3, h4, x, hx, fs', hf', he'⟩
                · exact .inl hc
                · refine .inr ⟨l', h1, h3, fun hr j hj => ?_, x, by rw [List.map_cons]; exact List.mem_cons_of_mem _ hx,
                    fs', h2f ▸ hf', he'⟩
                  rw [List.map_cons]
                  exact List.mem_cons_of_mem _ (h4 hr j hj)
            · intro _ p
              rw [List.mem_append, b7 rfl, c7, List.map_cons]
              simp only [hookOf_eq h2m h2f, List.mem_cons]
              constructor
              · rintro (⟨j, hj, h⟩ | h)
                · exact ⟨j, .inr hj, h⟩
                · exact ⟨i, .inl rfl, h⟩
              · rintro ⟨j, rfl | hj, h⟩
                · exact .inr h
                · exact .inl ⟨j, hj, h⟩
            · intro hr; cases hr
            · intro hr; cases hr

/-! ## The recursion ends -/

/-- The entry still has dependents to visit. -/
def busy (e : FileEntry) : Bool :=
  match e.inv with
  | .invalidatesDb => false
  | .files l => !l.isEmpty

/-- The number of entries that still have dependents to visit. -/
def work (s : Vfs) : Nat := s.entries.countP busy

theorem countP_mono {α : Type} (p : α → Bool) : ∀ (l l' : List α), l'.length = l.length →
    (∀ j : Nat, ∀ a b : α, l[j]? = some a → l'[j]? = some b → p b = true → p a = true) → l'.countP p ≤ l.countP p := by
  intro l
  induction l with
  | nil => intro l' hl _; rw [List.length_eq_zero_iff.mp hl]; exact Nat.le_refl _
  | cons a l ih =>
    intro l' hl h
    cases l' with
    | nil => simp at hl
    | cons b l' =>
      have h0 := h 0 a b rfl rfl
      have ht := ih l' (by simpa using hl) (fun j a b h1 h2 => h (j + 1) a b (by simpa using h1) (by simpa using h2))
      rw [List.countP_cons, List.countP_cons]
      by_cases hb : p b = true
      · rw [if_pos hb, if_pos (h0 hb)]; omega
      · rw [if_neg hb]; split <;> omega

theorem countP_modify_lt {α : Type} (p : α → Bool) (f : α → α) : ∀ (l : List α) (i : Nat) (a : α), l[i]? = some a →
    p a = true → p (f a) = false → (l.modify i f).countP p < l.countP p := by
  intro l
  induction l with
  | nil => intro i a h; simp at h
  | cons b l ih =>
    intro i a h ha hfa
    cases i with
    | zero =>
      have : b = a := by simpa using h
      subst this
      rw [List.modify_zero_cons, List.countP_cons, List.countP_cons, hfa, ha]
      simp
    | succ i =>
      rw [List.modify_succ_cons, List.countP_cons, List.countP_cons]
      have := ih i a (by simpa using h) ha hfa
      omega

theorem Post.work {orig roots s r s'} (h : Post orig roots s r s') : work s' ≤ work s := by
  apply countP_mono _ _ _ h.len
  intro j a b ha hb hbusy
  have h1 : s.inv j = a.inv := by rw [Vfs.inv, ha]
  have h2 : s'.inv j = b.inv := by rw [Vfs.inv, hb]
  rcases h.inv j with h' | ⟨l, _, h'⟩
  · rw [busy, ← h1, ← h', h2]
    rwa [busy] at hbusy
  · rw [busy, ← h2, h'] at hbusy
    cases hbusy

/-- All recorded dependents exist. -/
def Bounded (s : Vfs) : Prop := (∀ fs ∈ s.files, fs.entry < s.entries.length) ∧
  ∀ (e : Nat) (l : List Nat), s.inv e = .files l → ∀ i ∈ l, i < s.files.length

theorem WellFormed.bounded {s : Vfs} (h : WellFormed s) : Bounded s := by
  refine ⟨h.entry, fun e l hl i hi => ?_⟩
  rw [Vfs.inv] at hl
  cases he : s.entries[e]? with
  | none =>
    rw [he] at hl
    have : Detail.files [] = Detail.files l := hl
    cases this
    simp at hi
  | some x =>
    rw [he] at hl
    exact h.dependents x (List.mem_of_getElem? he) l hl i hi

theorem Post.bounded {orig roots s r s'} (h : Post orig roots s r s') (hb : Bounded s) : Bounded s' := by
  refine ⟨by rw [h.files, h.len]; exact hb.1, fun e l hl i hi => ?_⟩
  rw [h.files]
  rcases h.inv e with h' | ⟨l', _, h'⟩
  · exact hb.2 e l (h' ▸ hl) i hi
  · rw [h'] at hl; cases hl; simp at hi

theorem bounded_take {s : Vfs} (hb : Bounded s) (e : Nat) (he : e < s.entries.length) (m : List (Nat × Option Nat)) :
    Bounded { s.setInv e (.files []) with marks := m } := by
  refine ⟨by rw [length_setInv]; exact hb.1, fun e' l hl i hi => ?_⟩
  have hl' : (s.setInv e (.files [])).inv e' = .files l := hl
  rw [inv_setInv _ _ _ _ he] at hl'
  split at hl'
  · cases hl'; simp at hi
  · exact hb.2 e' l hl' i hi

theorem list_total {f : Nat → Vfs → Except Fault (Res × Vfs)} {orig : Option Nat} {w : Nat}
    (hf : ∀ i s, Bounded s → i < s.files.length → work s ≤ w → ∃ r s', f i s = .ok (r, s'))
    (hp : ∀ i s r s', (∀ fs ∈ s.files, fs.entry < s.entries.length) → f i s = .ok (r, s') → Post orig (· = i) s r s') :
    ∀ (l : List Nat) (s : Vfs), Bounded s → (∀ i ∈ l, i < s.files.length) → work s ≤ w → ∃ r s', invalidateList f l s = .ok (r, s') := by
  intro l
  induction l with
  | nil => intro s _ _ _; exact ⟨.files, s, rfl⟩
  | cons i is ih =>
    intro s hb hl hw
    obtain ⟨r, s', h⟩ := hf i s hb (hl i (by simp)) hw
    have hpost := hp i s r s' hb.1 h
    rw [invalidateList, h]
    cases r with
    | db => exact ⟨.db, s', rfl⟩
    | files =>
      exact ih s' (hpost.bounded hb) (fun j hj => by rw [hpost.files]; exact hl j (by simp [hj])) (Nat.le_trans hpost.work hw)

theorem byIndex_total (orig : Option Nat) : ∀ (n i : Nat) (s : Vfs), Bounded s → i < s.files.length → work s < n →
    ∃ r s', invalidateByIndex n orig i s = .ok (r, s') := by
  intro n
  induction n with
  | zero => intro i s _ _ h; omega
  | succ n ih =>
    intro i s hb hi hw
    rw [invalidateByIndex, List.getElem?_eq_getElem hi]
    generalize hfs : s.files[i] = fs
    have hlt : fs.entry < s.entries.length := hb.1 fs (hfs ▸ List.getElem_mem hi)
    simp only
    cases hd : s.inv fs.entry with
    | invalidatesDb => exact ⟨.db, _, rfl⟩
    | files l =>
      rw [invalidateFilesWith]
      have hb2 := bounded_take hb fs.entry hlt (s.marks ++ [(i, orig)])
      have : ∃ r s', invalidateList (invalidateByIndex n orig) l { s.setInv fs.entry (.files []) with marks := s.marks ++ [(i, orig)] } = .ok (r, s') := by
        cases l with
        | nil => exact ⟨.files, _, rfl⟩
        | cons a l =>
          have hent : ∃ x, s.entries[fs.entry]? = some x ∧ x.inv = .files (a :: l) := by
            refine ⟨_, List.getElem?_eq_getElem hlt, ?_⟩
            rw [Vfs.inv, List.getElem?_eq_getElem hlt] at hd
            exact hd
          obtain ⟨x, hx1, hx2⟩ := hent
          have hless : work (s.setInv fs.entry (.files [])) < work s := by
            refine countP_modify_lt busy _ _ _ x hx1 ?_ ?_
            · rw [busy, hx2]; rfl
            · rfl
          refine list_total (w := n - 1) (orig := orig) (fun j t hbt hj hwt => ih j t hbt hj (by omega))
            (fun j t r t' hbt h => post_byIndex orig n j t r t' hbt h) _ _ hb2 ?_ ?_
          · intro j hj
            exact hb.2 fs.entry _ hd j hj
          · show work (s.setInv fs.entry (.files [])) ≤ n - 1
            omega
      obtain ⟨r, s', h⟩ := this
      have h' : invalidateList (invalidateByIndex n orig) l
          { s.setInv fs.entry (Detail.files l).afterTake with marks := (s.setInv fs.entry (Detail.files l).afterTake).marks ++ [(i, orig)] } = .ok (r, s') := h
      rw [h']
      cases r with
      | db => exact ⟨_, _, rfl⟩
      | files => exact ⟨_, _, rfl⟩

theorem work_le (s : Vfs) : work s ≤ s.entries.length := List.countP_le_length

/-- More fuel does not change a result. -/
theorem byIndex_fuel (orig : Option Nat) : ∀ (n k i : Nat) (s : Vfs) (v : Res × Vfs),
    invalidateByIndex n orig i s = .ok v → invalidateByIndex (n + k) orig i s = .ok v := by
  intro n
  induction n with
  | zero => intro k i s v h; rw [invalidateByIndex] at h; cases h
  | succ n ih =>
    intro k i s v h
    have hl : ∀ (l : List Nat) (t : Vfs) (v : Res × Vfs), invalidateList (invalidateByIndex n orig) l t = .ok v →
        invalidateList (invalidateByIndex (n + k) orig) l t = .ok v := by
      intro l
      induction l with
      | nil => intro t v h; exact h
      | cons a l ihl =>
        intro t v h
        rw [invalidateList] at h ⊢
        cases ha : invalidateByIndex n orig a t with
        | error x => rw [ha] at h; cases h
        | ok w =>
          rw [ih k a t w ha]
          rw [ha] at h
          obtain ⟨r, t'⟩ := w
          cases r with
          | db => exact h
          | files => exact ihl t' v h
    have hN : n + 1 + k = n + k + 1 := by omega
    rw [hN]
    rw [invalidateByIndex] at h ⊢
    cases hfs : s.files[i]? with
    | none => rw [hfs] at h; cases h
    | some fs =>
      rw [hfs] at h
      simp only at h ⊢
      cases hd : s.inv fs.entry with
      | invalidatesDb =>
        rw [hd] at h
        rw [invalidateFilesWith] at h ⊢
        exact h
      | files l =>
        rw [hd] at h
        rw [invalidateFilesWith] at h ⊢
        generalize hq : invalidateList (invalidateByIndex n orig) l _ = q at h
        cases q with
        | error x => cases h
        | ok w => rw [hl _ _ _ hq]; exact h

end Verif.Vfs
