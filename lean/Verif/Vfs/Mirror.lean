import Verif.Vfs.MirrorSpec
import Verif.Vfs.OverlayProps

/-! # The tree shows the disk and the open documents -/

namespace Verif.Vfs

/-! ## Reading a directory of a disk that lists every path once -/

theorem diskGet_cons (x : Path × DiskNode) (d : Disk) (q : Path) : diskGet (x :: d) q = if x.1 = q then some x.2 else diskGet d q := by
  rw [diskGet, diskGet, List.find?_cons]
  by_cases h : x.1 = q
  · rw [if_pos h, show (x.1 == q) = true by simpa using h]; rfl
  · rw [if_neg h, show (x.1 == q) = false by simpa using h]

theorem diskGet_none_of {d : Disk} {q : Path} (h : q ∉ d.map (·.1)) : diskGet d q = none := by
  rw [diskGet, Option.map_eq_none_iff, List.find?_eq_none]
  intro x hx hc
  exact h (List.mem_map.mpr ⟨x, hx, by simpa using hc⟩)

theorem readChild_tree (p : Path) (s : Vfs) (x : Path × DiskNode) (q : Path) (h : x.1 ≠ q) : treeGet (readChild p s x).tree q = treeGet s.tree q := by
  rw [readChild]
  split
  · cases x.2 with
    | file t => exact (treeGet_set _ _ _ _).trans (if_neg h)
    | dir => exact (treeGet_set _ _ _ _).trans (if_neg h)
  · rfl

theorem readChild_len (p : Path) (s : Vfs) (x : Path × DiskNode) : s.entries.length ≤ (readChild p s x).entries.length := by
  rw [readChild]
  split
  · cases x.2 with
    | file t => simp [Vfs.addEntry]
    | dir => exact Nat.le_refl _
  · exact Nat.le_refl _

theorem readChildren_other (p : Path) : ∀ (d : Disk) (s : Vfs) (q : Path), ¬ (q ≠ [] ∧ q.dropLast = p) →
    treeGet (d.foldl (readChild p) s).tree q = treeGet s.tree q := by
  intro d
  induction d with
  | nil => intro s q _; rfl
  | cons x d ih =>
    intro s q hq
    rw [List.foldl_cons, ih _ q hq]
    by_cases hx : x.1 = q
    · rw [readChild, if_neg (by rw [hx]; exact hq)]
    · exact readChild_tree p s x q hx

theorem readChildren_absent (p : Path) : ∀ (d : Disk) (s : Vfs) (q : Path), diskGet d q = none →
    treeGet (d.foldl (readChild p) s).tree q = treeGet s.tree q := by
  intro d
  induction d with
  | nil => intro s q _; rfl
  | cons x d ih =>
    intro s q hq
    rw [diskGet_cons] at hq
    split at hq
    · cases hq
    · rename_i hne
      rw [List.foldl_cons, ih _ q hq]
      exact readChild_tree p s x q hne

theorem readChildren_there (p : Path) : ∀ (d : Disk) (s : Vfs) (q : Path) (n : DiskNode), Listed d → diskGet d q = some n → q ≠ [] → q.dropLast = p →
    (∃ t e, n = .file t ∧ treeGet (d.foldl (readChild p) s).tree q = some (.file e)) ∨
    (n = .dir ∧ treeGet (d.foldl (readChild p) s).tree q = some (.dir false)) := by
  intro d
  induction d with
  | nil => intro s q n _ h; cases h
  | cons x d ih =>
    intro s q n hl hq h1 h2
    rw [Listed, List.map_cons, List.nodup_cons] at hl
    rw [diskGet_cons] at hq
    split at hq
    · rename_i hx
      cases hq
      rw [List.foldl_cons, readChildren_absent p d _ q (diskGet_none_of (by rw [← hx]; exact hl.1))]
      rw [readChild, if_pos (by rw [hx]; exact ⟨h1, h2⟩)]
      cases x.2 with
      | file t => exact .inl ⟨t, s.entries.length, rfl, (treeGet_set _ _ _ _).trans (if_pos hx)⟩
      | dir => exact .inr ⟨rfl, (treeGet_set _ _ _ _).trans (if_pos hx)⟩
    · rw [List.foldl_cons]
      exact ih _ q n hl.2 hq h1 h2

/-! ## The invariant -/

/-- The directories in the tree that were read show what is there. -/
structure Mirror (docs : Docs) (d : Disk) (s : Vfs) : Prop where
  file : ∀ p t, p ≠ [] → ParentsOk s p → diskGet d p = some (.file t) → ∃ e, treeGet s.tree p = some (.file e)
  dir : ∀ p, p ≠ [] → ParentsOk s p → diskGet d p = some .dir → ∃ b, treeGet s.tree p = some (.dir b)
  fileBack : ∀ p e, treeGet s.tree p = some (.file e) → HasFile docs d p
  dirBack : ∀ p b, treeGet s.tree p = some (.dir b) → diskGet d p = some .dir

theorem parentsOk_congr {s s' : Vfs} (h : s'.tree = s.tree) {p : Path} : ParentsOk s' p ↔ ParentsOk s p := by
  rw [ParentsOk, ParentsOk, h]

theorem Mirror.congr {docs : Docs} {d : Disk} {s s' : Vfs} (h : Mirror docs d s) (ht : s'.tree = s.tree) : Mirror docs d s' := by
  refine ⟨?_, ?_, ?_, ?_⟩
  · intro p t h1 h2 h3; rw [ht]; exact h.file p t h1 ((parentsOk_congr ht).mp h2) h3
  · intro p h1 h2 h3; rw [ht]; exact h.dir p h1 ((parentsOk_congr ht).mp h2) h3
  · intro p e h1; rw [ht] at h1; exact h.fileBack p e h1
  · intro p e h1; rw [ht] at h1; exact h.dirBack p e h1

theorem dropLast_prefix {p q : Path} (hq : q ≠ []) (h : q.dropLast = p) : p <+: q ∧ p ≠ q := by
  have hq' : q = p ++ [q.getLast hq] := by rw [← h]; exact (List.dropLast_concat_getLast hq).symm
  refine ⟨⟨_, hq'.symm⟩, ?_⟩
  intro hc
  have h5 : q.length = p.length + 1 := (congrArg List.length hq').trans (by simp)
  rw [hc] at h5
  omega

/-- Reading a directory that was not read yet. -/
theorem readDir_mirror {docs : Docs} {d : Disk} {s : Vfs} {p : Path} (hi : Inv docs d s) (h : Mirror docs d s) (hl : Listed d)
    (hp : treeGet s.tree p = some (.dir false)) : Mirror docs d (readDir d p s) := by
  have hpne := (hi.base.closed p _ hp).1
  have hppar := (hi.base.closed p _ hp).2
  -- the nodes of the new tree
  have hself : treeGet (readDir d p s).tree p = some (.dir true) := by
    rw [readDir, readChildren_other p d _ p (fun hc => (dropLast_prefix hc.1 hc.2).2 rfl)]
    exact (treeGet_set _ _ _ _).trans (if_pos rfl)
  have hother : ∀ q, q ≠ p → ¬ (q ≠ [] ∧ q.dropLast = p) → treeGet (readDir d p s).tree q = treeGet s.tree q := by
    intro q h1 h2
    rw [readDir, readChildren_other p d _ q h2]
    exact (treeGet_set _ _ _ _).trans (if_neg (fun h => h1 h.symm))
  have hno : ∀ q, p <+: q → p ≠ q → treeGet s.tree q = none := by
    intro q h1 h2
    cases hq : treeGet s.tree q with
    | none => rfl
    | some n =>
      have := (hi.base.closed q n hq).2 p hpne h1 h2
      rw [hp] at this; cases this
  have habs : ∀ q, q ≠ [] → q.dropLast = p → diskGet d q = none → treeGet (readDir d p s).tree q = none := by
    intro q h1 h2 h3
    obtain ⟨h4, h5⟩ := dropLast_prefix h1 h2
    rw [readDir, readChildren_absent p d _ q h3]
    exact ((treeGet_set _ _ _ _).trans (if_neg h5)).trans (hno q h4 h5)
  have hthere : ∀ q n, q ≠ [] → q.dropLast = p → diskGet d q = some n →
      (∃ t e, n = .file t ∧ treeGet (readDir d p s).tree q = some (.file e)) ∨ (n = .dir ∧ treeGet (readDir d p s).tree q = some (.dir false)) :=
    fun q n h1 h2 h3 => readChildren_there p d _ q n hl h3 h1 h2
  -- parents that were read now were read before, but for the children of the directory
  have hpar : ∀ q, q ≠ [] → q.dropLast ≠ p → ParentsOk (readDir d p s) q → ParentsOk s q := by
    intro q hq0 hq h r r1 r2 r3
    have h1 := h r r1 r2 r3
    by_cases hrp : r = p
    · subst hrp
      -- the next directory towards `q` is a child of `p`
      exfalso
      obtain ⟨t, rfl⟩ := r2
      cases t with
      | nil => simp at r3
      | cons a t =>
        cases t with
        | nil => exact hq (by simp)
        | cons b t =>
          have h2 := h (r ++ [a]) (by simp) ⟨b :: t, by simp⟩ (by simp)
          have h3 : (r ++ [a]).dropLast = r := by simp
          cases hd : diskGet d (r ++ [a]) with
          | none => rw [habs _ (by simp) h3 hd] at h2; cases h2
          | some n =>
            rcases hthere _ n (by simp) h3 hd with ⟨_, _, _, h4⟩ | ⟨_, h4⟩
            · rw [h4] at h2; cases h2
            · rw [h4] at h2; cases h2
    · by_cases hrc : r.dropLast = p
      · exfalso
        cases hd : diskGet d r with
        | none => rw [habs _ r1 hrc hd] at h1; cases h1
        | some n =>
          rcases hthere _ n r1 hrc hd with ⟨_, _, _, h4⟩ | ⟨_, h4⟩
          · rw [h4] at h1; cases h1
          · rw [h4] at h1; cases h1
      · rw [hother r hrp (fun hc => hrc hc.2)] at h1
        exact h1
  refine ⟨?_, ?_, ?_, ?_⟩
  · intro q t h1 h2 h3
    by_cases hc : q.dropLast = p
    · rcases hthere q _ h1 hc h3 with ⟨_, e, _, h4⟩ | ⟨h4, _⟩
      · exact ⟨e, h4⟩
      · cases h4
    · obtain ⟨e, he⟩ := h.file q t h1 (hpar q h1 hc h2) h3
      by_cases hqp : q = p
      · subst hqp; rw [hp] at he; cases he
      · exact ⟨e, by rw [hother q hqp (fun hh => hc hh.2)]; exact he⟩
  · intro q h1 h2 h3
    by_cases hc : q.dropLast = p
    · rcases hthere q _ h1 hc h3 with ⟨_, e, h4, _⟩ | ⟨_, h4⟩
      · cases h4
      · exact ⟨false, h4⟩
    · by_cases hqp : q = p
      · subst hqp; exact ⟨true, hself⟩
      · obtain ⟨b, hb⟩ := h.dir q h1 (hpar q h1 hc h2) h3
        exact ⟨b, by rw [hother q hqp (fun hh => hc hh.2)]; exact hb⟩
  · intro q e hq
    by_cases hqp : q = p
    · subst hqp; rw [hself] at hq; cases hq
    · by_cases hc : q ≠ [] ∧ q.dropLast = p
      · cases hd : diskGet d q with
        | none => rw [habs q hc.1 hc.2 hd] at hq; cases hq
        | some n =>
          rcases hthere q n hc.1 hc.2 hd with ⟨t, _, rfl, _⟩ | ⟨_, h4⟩
          · exact .inr ⟨t, hd⟩
          · rw [h4] at hq; cases hq
      · rw [hother q hqp hc] at hq
        exact h.fileBack q e hq
  · intro q b hq
    by_cases hqp : q = p
    · subst hqp; exact h.dirBack q _ hp
    · by_cases hc : q ≠ [] ∧ q.dropLast = p
      · cases hd : diskGet d q with
        | none => rw [habs q hc.1 hc.2 hd] at hq; cases hq
        | some n =>
          rcases hthere q n hc.1 hc.2 hd with ⟨t, _, rfl, h4⟩ | ⟨rfl, _⟩
          · rw [h4] at hq; cases hq
          · rfl
      · rw [hother q hqp hc] at hq
        exact h.dirBack q b hq

theorem readDir_inv {docs : Docs} {d : Disk} {s : Vfs} {p : Path} (hi : Inv docs d s) (hp : treeGet s.tree p = some (.dir false)) :
    Inv docs d (readDir d p s) ∧ treeGet (readDir d p s).tree p = some (.dir true) ∧ Extends s (readDir d p s) := by
  obtain ⟨h1, h2⟩ := hi.base.closed p _ hp
  obtain ⟨h3, h4, h5⟩ := readDir_spec d hi.base h1 (by intro n hn; rw [hp] at hn; cases hn; exact .inr (.inl rfl)) h2
  exact ⟨hi.extends h3 h4, h5, h4⟩

theorem findFile_mirror {docs : Docs} {d : Disk} (hl : Listed d) : ∀ (rest : List String) (base : Path) (s : Vfs), Inv docs d s → Mirror docs d s →
    (base = [] ∨ treeGet s.tree base = some (.dir true)) → ParentsOk s base →
    Mirror docs d (findFile d base rest s).2 ∧
    (HasFile docs d (base ++ rest) → rest ≠ [] → (∀ q, base <+: q → q ≠ base → q <+: base ++ rest → q ≠ base ++ rest → diskGet d q = some .dir) →
      ∃ e, (findFile d base rest s).1 = some e) := by
  intro rest
  induction rest with
  | nil => intro base s _ h _ _; rw [findFile]; exact ⟨h, fun _ hn => absurd rfl hn⟩
  | cons name rest ih =>
    intro base s hi h hb hpar
    have hpar' := parentsOk_append hb hpar name
    have hne : base ++ [name] ≠ [] := by simp
    cases rest with
    | nil =>
      have hfile : HasFile docs d (base ++ [name]) → ∃ e, treeGet s.tree (base ++ [name]) = some (.file e) := by
        rintro (⟨t, ht⟩ | ⟨t, ht⟩)
        · obtain ⟨_, _, _, e, h1, _⟩ := open_at hi ht
          exact ⟨e, h1⟩
        · exact h.file _ t hne hpar' ht
      rw [findFile]
      cases hg : treeGet s.tree (base ++ [name]) with
      | none =>
        refine ⟨h, fun hf _ _ => ?_⟩
        obtain ⟨e, he⟩ := hfile hf
        rw [hg] at he; cases he
      | some n =>
        cases n with
        | file e => exact ⟨h, fun _ _ _ => ⟨e, rfl⟩⟩
        | dir b =>
          refine ⟨h, fun hf _ _ => ?_⟩
          obtain ⟨e, he⟩ := hfile hf
          rw [hg] at he; cases he
        | missing dd =>
          refine ⟨h, fun hf _ _ => ?_⟩
          obtain ⟨e, he⟩ := hfile hf
          rw [hg] at he; cases he
    | cons next more =>
      have happ : base ++ name :: next :: more = (base ++ [name]) ++ next :: more := by simp
      have hdir : (∀ q, base <+: q → q ≠ base → q <+: base ++ name :: next :: more → q ≠ base ++ name :: next :: more → diskGet d q = some .dir) →
          (∃ b, treeGet s.tree (base ++ [name]) = some (.dir b)) ∧
          ∀ q, base ++ [name] <+: q → q ≠ base ++ [name] → q <+: (base ++ [name]) ++ next :: more → q ≠ (base ++ [name]) ++ next :: more → diskGet d q = some .dir := by
        intro hq
        refine ⟨h.dir _ hne hpar' (hq _ (List.prefix_append _ _) (by simp) ⟨next :: more, by simp⟩ (by simp)), ?_⟩
        intro q h1 h2 h3 h4
        refine hq q ((List.prefix_append _ _).trans h1) ?_ (by rw [happ]; exact h3) (by rw [happ]; exact h4)
        rintro rfl
        have := h1.length_le
        simp at this
        omega
      rw [findFile]
      cases hg : treeGet s.tree (base ++ [name]) with
      | none =>
        refine ⟨h, fun _ _ hq => ?_⟩
        obtain ⟨⟨b, hb⟩, _⟩ := hdir hq
        rw [hg] at hb; cases hb
      | some n =>
        cases n with
        | file e =>
          refine ⟨h, fun _ _ hq => ?_⟩
          obtain ⟨⟨b, hb⟩, _⟩ := hdir hq
          rw [hg] at hb; cases hb
        | missing dd =>
          refine ⟨h, fun _ _ hq => ?_⟩
          obtain ⟨⟨b, hb⟩, _⟩ := hdir hq
          rw [hg] at hb; cases hb
        | dir b =>
          cases b with
          | true =>
            obtain ⟨h1, h2⟩ := ih (base ++ [name]) s hi h (.inr hg) hpar'
            refine ⟨h1, fun hf _ hq => h2 (by rw [← happ]; exact hf) (by simp) (hdir hq).2⟩
          | false =>
            obtain ⟨a1, a2, a3⟩ := readDir_inv hi hg
            obtain ⟨h1, h2⟩ := ih (base ++ [name]) _ a1 (readDir_mirror hi h hl hg) (.inr a2) (a3.parentsOk hpar')
            refine ⟨h1, fun hf _ hq => h2 (by rw [← happ]; exact hf) (by simp) (hdir hq).2⟩

/-! ## Changing nodes -/

/-- A node that is no directory that was read does not matter for parents. -/
theorem parentsOk_set {s s' : Vfs} {p : Path} (hn : treeGet s'.tree p ≠ some (.dir true)) (ho : ∀ q, q ≠ p → treeGet s'.tree q = treeGet s.tree q) {q : Path}
    (h : ParentsOk s' q) : ParentsOk s q := by
  intro r h1 h2 h3
  have h4 := h r h1 h2 h3
  by_cases hr : r = p
  · subst hr; exact absurd h4 hn
  · rw [ho r hr] at h4; exact h4

/-- Recording that something is missing. -/
theorem Mirror.setMissing {docs : Docs} {d : Disk} {s s' : Vfs} {p : Path} (h : Mirror docs d s) (hold : (∀ e, treeGet s.tree p ≠ some (.file e)) ∧ ∀ b, treeGet s.tree p ≠ some (.dir b))
    {inv : Detail} (hnew : treeGet s'.tree p = some (.missing inv)) (ho : ∀ q, q ≠ p → treeGet s'.tree q = treeGet s.tree q) : Mirror docs d s' := by
  have hpar : ∀ q, ParentsOk s' q → ParentsOk s q := fun q hq => parentsOk_set (by rw [hnew]; intro hc; cases hc) ho hq
  refine ⟨?_, ?_, ?_, ?_⟩
  · intro q t h1 h2 h3
    obtain ⟨e, he⟩ := h.file q t h1 (hpar q h2) h3
    by_cases hq : q = p
    · subst hq; exact absurd he (hold.1 e)
    · exact ⟨e, by rw [ho q hq]; exact he⟩
  · intro q h1 h2 h3
    obtain ⟨b, hb⟩ := h.dir q h1 (hpar q h2) h3
    by_cases hq : q = p
    · subst hq; exact absurd hb (hold.2 b)
    · exact ⟨b, by rw [ho q hq]; exact hb⟩
  · intro q e hq
    by_cases hqp : q = p
    · subst hqp; rw [hnew] at hq; cases hq
    · rw [ho q hqp] at hq; exact h.fileBack q e hq
  · intro q b hq
    by_cases hqp : q = p
    · subst hqp; rw [hnew] at hq; cases hq
    · rw [ho q hqp] at hq; exact h.dirBack q b hq

/-- A document is opened where there was no file in the tree. -/
theorem Mirror.addFile {docs : Docs} {d : Disk} {s s' : Vfs} {p : Path} {text : String} {e : Nat} (h : Mirror docs d s)
    (hold : ∀ b, treeGet s.tree p ≠ some (.dir b))
    (hnew : treeGet s'.tree p = some (.file e)) (ho : ∀ q, q ≠ p → treeGet s'.tree q = treeGet s.tree q) :
    Mirror (fun q => if q = p then some text else docs q) d s' := by
  have hpar : ∀ q, ParentsOk s' q → ParentsOk s q := fun q hq => parentsOk_set (by rw [hnew]; intro hc; cases hc) ho hq
  refine ⟨?_, ?_, ?_, ?_⟩
  · intro q t h1 h2 h3
    by_cases hq : q = p
    · subst hq; exact ⟨e, hnew⟩
    · obtain ⟨e, he⟩ := h.file q t h1 (hpar q h2) h3
      exact ⟨e, by rw [ho q hq]; exact he⟩
  · intro q h1 h2 h3
    obtain ⟨b, hb⟩ := h.dir q h1 (hpar q h2) h3
    by_cases hq : q = p
    · subst hq; exact absurd hb (hold b)
    · exact ⟨b, by rw [ho q hq]; exact hb⟩
  · intro q e' hq
    by_cases hqp : q = p
    · exact .inl ⟨text, if_pos hqp⟩
    · rw [ho q hqp] at hq
      rcases h.fileBack q e' hq with ⟨t, ht⟩ | ht
      · exact .inl ⟨t, (if_neg hqp).trans ht⟩
      · exact .inr ht
  · intro q b hq
    by_cases hqp : q = p
    · subst hqp; rw [hnew] at hq; cases hq
    · rw [ho q hqp] at hq; exact h.dirBack q b hq

/-- Opening a document makes a file node at its path in a tree that otherwise only reads directories. -/
theorem ensure_mirror {docs : Docs} {d : Disk} (hl : Listed d) (text : String) : ∀ (rest : List String) (base : Path) (s : Vfs) (e : Nat) (inv : Detail) (s' : Vfs),
    Inv docs d s → Mirror docs d s → (base = [] ∨ treeGet s.tree base = some (.dir true)) → ParentsOk s base →
    (∀ q, base <+: q → q ≠ base → q <+: base ++ rest → q ≠ base ++ rest → diskGet d q = some .dir) →
    ensureDirsAndFile d base rest s = .ok (e, inv, s') →
    Mirror (fun q => if q = base ++ rest then some text else docs q) d s' := by
  intro rest
  induction rest with
  | nil => intro base s e inv s' _ _ _ _ _ hok; rw [ensureDirsAndFile] at hok; cases hok
  | cons name rest ih =>
    intro base s e inv s' hi h hb hpar hq hok
    have hpar' := parentsOk_append hb hpar name
    have hne : base ++ [name] ≠ [] := by simp
    cases rest with
    | nil =>
      rw [ensureDirsAndFile, ensureFileIn] at hok
      have hset : ∀ q, q ≠ base ++ [name] → treeGet (s.addEntry (base ++ [name])).tree q = treeGet s.tree q :=
        fun q hqn => (treeGet_set _ _ _ _).trans (if_neg (fun hh => hqn hh.symm))
      have hself : treeGet (s.addEntry (base ++ [name])).tree (base ++ [name]) = some (.file s.entries.length) :=
        (treeGet_set _ _ _ _).trans (if_pos rfl)
      cases hg : treeGet s.tree (base ++ [name]) with
      | none =>
        rw [hg] at hok; cases hok
        exact h.addFile (by intro b hb; rw [hg] at hb; cases hb) hself hset
      | some n =>
        rw [hg] at hok
        cases n with
        | file e' => cases hok; exact h.addFile (by intro b hb; rw [hg] at hb; cases hb) hg (fun _ _ => rfl)
        | dir b => cases hok
        | missing dd =>
          cases hok
          exact h.addFile (by intro b hb; rw [hg] at hb; cases hb) hself hset
    | cons next more =>
      have happ : base ++ name :: next :: more = (base ++ [name]) ++ next :: more := by simp
      obtain ⟨b, hg⟩ := h.dir _ hne hpar' (hq _ (List.prefix_append _ _) (by simp) ⟨next :: more, by simp⟩ (by simp))
      have hq' : ∀ q, base ++ [name] <+: q → q ≠ base ++ [name] → q <+: (base ++ [name]) ++ next :: more → q ≠ (base ++ [name]) ++ next :: more → diskGet d q = some .dir := by
        intro q h1 h2 h3 h4
        refine hq q ((List.prefix_append _ _).trans h1) ?_ (by rw [happ]; exact h3) (by rw [happ]; exact h4)
        rintro rfl
        have := h1.length_le
        simp at this
        omega
      rw [ensureDirsAndFile, hg] at hok
      rw [happ]
      cases b with
      | true => exact ih (base ++ [name]) s e inv s' hi h (.inr hg) hpar' hq' hok
      | false =>
        obtain ⟨a1, a2, a3⟩ := readDir_inv hi hg
        exact ih (base ++ [name]) _ e inv s' a1 (readDir_mirror hi h hl hg) (.inr a2) (a3.parentsOk hpar') hq' hok

theorem ensureFile_mirror {docs : Docs} {d : Disk} (hl : Listed d) {p : Path} (text : String) {s : Vfs} {e : Nat} {inv : Detail} {s' : Vfs}
    (hi : Inv docs d s) (h : Mirror docs d s) (hh : ∀ q, q ≠ [] → q <+: p → q ≠ p → diskGet d q = some .dir)
    (hok : ensureFile d p s = .ok (e, inv, s')) : Mirror (fun q => if q = p then some text else docs q) d s' :=
  ensure_mirror hl text p [] s e inv s' hi h (.inl rfl) (by intro q h1 h2; exact absurd (List.prefix_nil.mp h2) h1)
    (fun q _ a b c => hh q a b c) hok

/-- A file is gone. -/
theorem Mirror.removeFile {docs : Docs} {d : Disk} {s s' : Vfs} {p : Path} (h : Mirror docs d s) (hd : ∀ t, diskGet d p ≠ some (.file t))
    (hold : ∀ b, treeGet s.tree p ≠ some (.dir b))
    (hnew : treeGet s'.tree p = none) (ho : ∀ q, q ≠ p → treeGet s'.tree q = treeGet s.tree q) :
    Mirror (fun q => if q = p then none else docs q) d s' := by
  have hpar : ∀ q, ParentsOk s' q → ParentsOk s q := fun q hq => parentsOk_set (by rw [hnew]; intro hc; cases hc) ho hq
  refine ⟨?_, ?_, ?_, ?_⟩
  · intro q t h1 h2 h3
    by_cases hq : q = p
    · subst hq; exact absurd h3 (hd t)
    · obtain ⟨e, he⟩ := h.file q t h1 (hpar q h2) h3
      exact ⟨e, by rw [ho q hq]; exact he⟩
  · intro q h1 h2 h3
    obtain ⟨b, hb⟩ := h.dir q h1 (hpar q h2) h3
    by_cases hq : q = p
    · subst hq; exact absurd hb (hold b)
    · exact ⟨b, by rw [ho q hq]; exact hb⟩
  · intro q e' hq
    by_cases hqp : q = p
    · subst hqp; rw [hnew] at hq; cases hq
    · rw [ho q hqp] at hq
      rcases h.fileBack q e' hq with ⟨t, ht⟩ | ht
      · exact .inl ⟨t, (if_neg hqp).trans ht⟩
      · exact .inr ht
  · intro q b hq
    by_cases hqp : q = p
    · subst hqp; rw [hnew] at hq; cases hq
    · rw [ho q hqp] at hq; exact h.dirBack q b hq

end Verif.Vfs
