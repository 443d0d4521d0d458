import Verif.Server.Notebook
/-
C33: each code cell sees the code cell before it.
-/
namespace Verif.Server.Notebook

/-! ### Specification -/

/-- What the client shows: the cell documents of each open notebook. -/
abbrev View := Nat → Option (List Nat)

/-- Which cell document the analysis uses as the predecessor of a cell. -/
def PredIs (s : State) (p : Nat) (q : Option Nat) : Prop :=
  ∃ i f, s.index p = some i ∧ s.files i = some f ∧
    match q with
    | none => f.parent = none
    | some q => ∃ j, s.index q = some j ∧ (s.files j).isSome ∧ f.parent = some j

/-- The predecessor of each cell is the cell directly before it. -/
def Linked (s : State) (cells : List Nat) : Prop :=
  ∀ a p b, cells = a ++ p :: b → PredIs s p a.getLast?

/-- Documents that are open in some notebook of the view. -/
def Shown (v : View) (p : Nat) : Prop := ∃ url cells, v url = some cells ∧ p ∈ cells

/-- All cells are code cells and their documents are given. -/
def Docs (cells : List Cell) (docs : List (Nat × Nat)) : Prop :=
  docs.map (·.1) = cells.map (·.doc) ∧ ∀ c ∈ cells, c.code = true

/-- What happens between client and server in the histories of `linked_partial`: notebooks are opened
and closed, cells are edited, and cells are removed and added at the end of a notebook. -/
inductive Step (v : View) (s : State) : View → State → Prop
  | open (url : Nat) (cells : List Cell) (docs : List (Nat × Nat)) (hv : v url = none)
      (hd : Docs cells docs) (hn : (cells.map (·.doc)).Nodup) (hf : ∀ c ∈ cells, ¬ Shown v c.doc) :
      Step v s (upd v url (some (cells.map (·.doc)))) (openNotebook s url cells docs).1
  | change (url : Nat) (keep gone : List Nat) (cells : List Cell) (docs : List (Nat × Nat))
      (closed : Option (List Nat)) (hv : v url = some (keep ++ gone))
      (hd : Docs cells docs) (hn : (cells.map (·.doc)).Nodup)
      (hc : closed = some gone ∨ (closed = none ∧ gone = []))
      (hf : ∀ c ∈ cells, ¬ Shown (upd v url (some keep)) c.doc) :
      Step v s (upd v url (some (keep ++ cells.map (·.doc))))
        (changeStructure s url
          { start := keep.length, deleteCount := gone.length, cells := some cells, didOpen := docs,
            didClose := closed }).1
  | edit (url : Nat) (cells : List Nat) (p code : Nat) (hv : v url = some cells) (hp : p ∈ cells) :
      Step v s v (changeText s p code).1
  | close (url : Nat) (cells : List Nat) (hv : v url = some cells) :
      Step v s (upd v url none) (closeNotebook s url cells)

/-- Histories. -/
inductive Reach : View → State → Prop
  | init : Reach (fun _ => none) init
  | step {v s v' s'} (h : Reach v s) (hs : Step v s v' s') : Reach v' s'

/-! ### Invariant -/

structure Core (v : View) (s : State) : Prop where
  nodup : ∀ url cells, v url = some cells → cells.Nodup
  disjoint : ∀ u u' c c' p, v u = some c → v u' = some c' → p ∈ c → p ∈ c' → u = u'
  linked : ∀ url cells, v url = some cells → Linked s cells
  inj : ∀ p q i, s.index p = some i → s.index q = some i → p = q
  bound : ∀ p i, s.index p = some i → i < s.next
  fileBound : ∀ i f, s.files i = some f → i < s.next
  subBound : ∀ i f j, s.files i = some f → j ∈ f.subs → j < s.next
  subs : ∀ i f j g, s.files i = some f → j ∈ f.subs → s.files j = some g → g.parent = some i

structure Inv (v : View) (s : State) : Prop extends Core v s where
  table : ∀ url, s.notebooks url = v url
  fresh : ∀ p i, s.index p = some i → Shown v p

theorem upd_same {α : Type} (f : Nat → α) (k : Nat) (v : α) : upd f k v k = v := by simp [upd]
theorem upd_ne {α : Type} (f : Nat → α) (k x : Nat) (v : α) (h : x ≠ k) : upd f k v x = f x := by
  simp [upd, h]

theorem linked_prefix (s : State) (a b : List Nat) (h : Linked s (a ++ b)) : Linked s a := by
  intro x p y hxy
  exact h x p (y ++ b) (by simp [hxy])

/-- Forgetting cells at the end of a notebook. -/
theorem core_prefix (v : View) (s : State) (url : Nat) (keep gone : List Nat)
    (h : Core v s) (hv : v url = some (keep ++ gone)) : Core (upd v url (some keep)) s := by
  have key : ∀ u c, upd v url (some keep) u = some c → ∃ c', v u = some (c ++ c') := by
    intro u c hu
    by_cases he : u = url
    · subst he
      rw [upd_same] at hu
      cases hu
      exact ⟨gone, hv⟩
    · rw [upd_ne _ _ _ _ he] at hu
      exact ⟨[], by simpa using hu⟩
  refine ⟨?_, ?_, ?_, h.inj, h.bound, h.fileBound, h.subBound, h.subs⟩
  · intro u c hu
    obtain ⟨c', hc⟩ := key u c hu
    exact (List.nodup_append.1 (h.nodup _ _ hc)).1
  · intro u u' c c' p hu hu' hp hp'
    obtain ⟨d, hd⟩ := key u c hu
    obtain ⟨d', hd'⟩ := key u' c' hu'
    exact h.disjoint u u' _ _ p hd hd' (List.mem_append_left _ hp) (List.mem_append_left _ hp')
  · intro u c hu
    obtain ⟨c', hc⟩ := key u c hu
    exact linked_prefix s c c' (h.linked _ _ hc)

/-- Forgetting a notebook. -/
theorem core_forget (v : View) (s : State) (url : Nat) (h : Core v s) : Core (upd v url none) s := by
  have key : ∀ u c, upd v url none u = some c → v u = some c := by
    intro u c hu
    by_cases he : u = url
    · subst he; rw [upd_same] at hu; cases hu
    · rwa [upd_ne _ _ _ _ he] at hu
  exact ⟨fun u c hu => h.nodup u c (key u c hu),
    fun u u' c c' p hu hu' => h.disjoint u u' c c' p (key _ _ hu) (key _ _ hu'),
    fun u c hu => h.linked u c (key u c hu), h.inj, h.bound, h.fileBound, h.subBound, h.subs⟩

theorem linked_shown (v : View) (s : State) (h : Core v s) (p : Nat) (hp : Shown v p) :
    ∃ i f, s.index p = some i ∧ s.files i = some f := by
  obtain ⟨url, cells, hv, hm⟩ := hp
  obtain ⟨a, b, rfl⟩ := List.append_of_mem hm
  obtain ⟨i, f, hi, hf, -⟩ := h.linked url _ hv a p b rfl
  exact ⟨i, f, hi, hf⟩

theorem getLast?_mem' (a : List Nat) (q : Nat) (h : a.getLast? = some q) : q ∈ a :=
  List.mem_of_getLast? h

/-- Closing a document that is not shown changes nothing for the cells that are. -/
theorem core_close (v : View) (s : State) (p : Nat) (h : Core v s) (hp : ¬ Shown v p) :
    Core v (closeFile s p).1 := by
  unfold closeFile
  cases hi : s.index p with
  | none => exact h
  | some i =>
    simp only
    let subs : List Nat := match s.files i with
      | some f => f.subs
      | none => []
    have hsubs : ∀ j, j ∈ subs → ∃ f, s.files i = some f ∧ j ∈ f.subs := by
      intro j hj
      simp only [subs] at hj
      split at hj
      · rename_i f hf; exact ⟨f, hf, hj⟩
      · simp at hj
    let files1 : Nat → Option File := orphan s.files subs
    have hfiles1 : ∀ j f, files1 j = some f → ∃ g, s.files j = some g ∧ f.subs = g.subs := by
      intro j f hf
      simp only [files1, orphan] at hf
      split at hf
      · rename_i g hg
        split at hf
        · cases hf; exact ⟨g, hg, rfl⟩
        · cases hf; exact ⟨_, hg, rfl⟩
      · cases hf
    have hkeep : ∀ j g, s.files j = some g → g.parent ≠ some i → files1 j = some g := by
      intro j g hg hne
      simp only [files1, orphan, hg]
      rw [if_neg]
      intro hc
      obtain ⟨f, hf, hm⟩ := hsubs j (by simpa using hc)
      exact hne (h.subs i f j g hf hm hg)
    have hsome : ∀ j g, s.files j = some g → ∃ g', files1 j = some g' := by
      intro j g hg
      simp only [files1, orphan, hg]
      split <;> exact ⟨_, rfl⟩
    have hlive : ∀ q, Shown v q → s.index q ≠ some i := by
      intro q hq he
      exact hp (h.inj q p i he hi ▸ hq)
    refine ⟨h.nodup, h.disjoint, ?_, ?_, ?_, ?_, ?_, ?_⟩
    · intro url cells hv a q b hab
      have hq : Shown v q := ⟨url, cells, hv, by simp [hab]⟩
      obtain ⟨j, f, hj, hf, hpar⟩ := h.linked url cells hv a q b hab
      have hji : j ≠ i := fun he => hlive q hq (he ▸ hj)
      have hqp : q ≠ p := fun he => hp (he ▸ hq)
      refine ⟨j, f, ?_, ?_, ?_⟩
      · show upd s.index p none q = some j
        rw [upd_ne _ _ _ _ hqp]; exact hj
      · show upd files1 i none j = some f
        rw [upd_ne _ _ _ _ hji]
        refine hkeep j f hf ?_
        cases hl : a.getLast? with
        | none => rw [hl] at hpar; simp only at hpar; simp [hpar]
        | some r =>
          rw [hl] at hpar
          obtain ⟨k, hk, -, hpk⟩ := hpar
          rw [hpk]
          intro he
          cases he
          exact hlive r ⟨url, cells, hv, by simp [hab, getLast?_mem' a r hl]⟩ hk
      · cases hl : a.getLast? with
        | none => rw [hl] at hpar; exact hpar
        | some r =>
          rw [hl] at hpar
          obtain ⟨k, hk, hks, hpk⟩ := hpar
          have hr : Shown v r := ⟨url, cells, hv, by simp [hab, getLast?_mem' a r hl]⟩
          have hki : k ≠ i := fun he => hlive r hr (he ▸ hk)
          have hrp : r ≠ p := fun he => hp (he ▸ hr)
          refine ⟨k, ?_, ?_, hpk⟩
          · show upd s.index p none r = some k
            rw [upd_ne _ _ _ _ hrp]; exact hk
          · show (upd files1 i none k).isSome = true
            rw [upd_ne _ _ _ _ hki]
            obtain ⟨g, hg⟩ := Option.isSome_iff_exists.1 hks
            obtain ⟨g', hg'⟩ := hsome k g hg
            simp [hg']
    · intro x y j hx hy
      have e : ∀ z, upd s.index p none z = some j → s.index z = some j := by
        intro z hz
        by_cases hzp : z = p
        · subst hzp; rw [upd_same] at hz; cases hz
        · rwa [upd_ne _ _ _ _ hzp] at hz
      exact h.inj x y j (e x hx) (e y hy)
    · intro x j hx
      by_cases hxp : x = p
      · subst hxp
        have hx' : upd s.index x none x = some j := hx
        rw [upd_same] at hx'; cases hx'
      · have hx' : upd s.index p none x = some j := hx
        rw [upd_ne _ _ _ _ hxp] at hx'
        exact h.bound x j hx'
    · intro j f hf
      have hf' : upd files1 i none j = some f := hf
      by_cases hji : j = i
      · subst hji; rw [upd_same] at hf'; cases hf'
      · rw [upd_ne _ _ _ _ hji] at hf'
        obtain ⟨g, hg, -⟩ := hfiles1 j f hf'
        exact h.fileBound j g hg
    · intro j f k hf hk
      have hf' : upd files1 i none j = some f := hf
      by_cases hji : j = i
      · subst hji; rw [upd_same] at hf'; cases hf'
      · rw [upd_ne _ _ _ _ hji] at hf'
        obtain ⟨g, hg, hs⟩ := hfiles1 j f hf'
        exact h.subBound j g k hg (hs ▸ hk)
    · intro j f k g hf hk hg
      have hf' : upd files1 i none j = some f := hf
      have hg' : upd files1 i none k = some g := hg
      by_cases hji : j = i
      · subst hji; rw [upd_same] at hf'; cases hf'
      · by_cases hki : k = i
        · subst hki; rw [upd_same] at hg'; cases hg'
        · rw [upd_ne _ _ _ _ hji] at hf'
          rw [upd_ne _ _ _ _ hki] at hg'
          obtain ⟨f0, hf0, hs⟩ := hfiles1 j f hf'
          obtain ⟨g0, hg0, -⟩ := hfiles1 k g hg'
          have hpar := h.subs j f0 k g0 hf0 (hs ▸ hk) hg0
          have := hkeep k g0 hg0 (by rw [hpar]; simpa using hji)
          rw [this] at hg'
          cases hg'
          exact hpar

/-- Changes of texts and of the lists of sub files. -/
theorem core_touch (v : View) (s s' : State) (h : Core v s) (hidx : s'.index = s.index)
    (hnext : s'.next = s.next)
    (hfw : ∀ j g, s.files j = some g → ∃ g', s'.files j = some g' ∧ g'.parent = g.parent)
    (hbw : ∀ j g', s'.files j = some g' → ∃ g, s.files j = some g ∧ ∀ k ∈ g'.subs, k ∈ g.subs ∨
      ∃ c, s.files k = some c ∧ c.parent = some j) : Core v s' := by
  refine ⟨h.nodup, h.disjoint, ?_, ?_, ?_, ?_, ?_, ?_⟩
  · intro url cells hv a q b hab
    obtain ⟨j, f, hj, hf, hpar⟩ := h.linked url cells hv a q b hab
    obtain ⟨f', hf', hp'⟩ := hfw j f hf
    refine ⟨j, f', by rw [hidx]; exact hj, hf', ?_⟩
    cases hl : a.getLast? with
    | none => rw [hl] at hpar; exact hp'.trans hpar
    | some r =>
      rw [hl] at hpar
      obtain ⟨k, hk, hks, hpk⟩ := hpar
      obtain ⟨g, hg⟩ := Option.isSome_iff_exists.1 hks
      obtain ⟨g', hg', -⟩ := hfw k g hg
      exact ⟨k, by rw [hidx]; exact hk, by simp [hg'], hp'.trans hpk⟩
  · rw [hidx]; exact h.inj
  · rw [hidx, hnext]; exact h.bound
  · intro i f hf
    obtain ⟨g, hg, -⟩ := hbw i f hf
    rw [hnext]; exact h.fileBound i g hg
  · intro i f j hf hj
    obtain ⟨g, hg, hs⟩ := hbw i f hf
    rw [hnext]
    rcases hs j hj with hs | ⟨c, hc, -⟩
    · exact h.subBound i g j hg hs
    · exact h.fileBound j c hc
  · intro i f j g' hf hj hg'
    obtain ⟨f0, hf0, hs⟩ := hbw i f hf
    obtain ⟨g, hg, -⟩ := hbw j g' hg'
    obtain ⟨g'', hg'', hp⟩ := hfw j g hg
    rw [hg'] at hg''
    cases hg''
    rw [hp]
    rcases hs j hj with hs | ⟨c, hc, hcp⟩
    · exact h.subs i f0 j g hf0 hs hg
    · rw [hg] at hc; cases hc; exact hcp

/-- Registering a sub file with its parent. -/
def pushSub (s : State) (p j : Nat) : State :=
  match s.files p with
  | some f => { s with files := upd s.files p (some { f with subs := f.subs ++ [j] }) }
  | none => s

theorem pushSub_index (s : State) (p j : Nat) : (pushSub s p j).index = s.index := by
  unfold pushSub; split <;> rfl
theorem pushSub_next (s : State) (p j : Nat) : (pushSub s p j).next = s.next := by
  unfold pushSub; split <;> rfl
theorem pushSub_notebooks (s : State) (p j : Nat) : (pushSub s p j).notebooks = s.notebooks := by
  unfold pushSub; split <;> rfl

theorem core_pushSub (v : View) (s : State) (p j : Nat) (h : Core v s)
    (hj : ∃ c, s.files j = some c ∧ c.parent = some p) : Core v (pushSub s p j) := by
  refine core_touch v s _ h (pushSub_index s p j) (pushSub_next s p j) ?_ ?_
  · intro k g hg
    unfold pushSub
    cases hp : s.files p with
    | none => exact ⟨g, hg, rfl⟩
    | some f =>
      simp only
      by_cases hk : k = p
      · subst hk
        rw [upd_same]
        rw [hg] at hp; cases hp
        exact ⟨_, rfl, rfl⟩
      · rw [upd_ne _ _ _ _ hk]
        exact ⟨g, hg, rfl⟩
  · intro k g' hg'
    unfold pushSub at hg'
    cases hp : s.files p with
    | none =>
      rw [hp] at hg'
      exact ⟨g', hg', fun k hk => .inl hk⟩
    | some f =>
      rw [hp] at hg'
      simp only at hg'
      by_cases hk : k = p
      · subst hk
        rw [upd_same] at hg'
        cases hg'
        refine ⟨f, hp, fun m hm => ?_⟩
        simp only [List.mem_append, List.mem_singleton] at hm
        rcases hm with hm | rfl
        · exact .inl hm
        · exact .inr hj
      · rw [upd_ne _ _ _ _ hk] at hg'
        exact ⟨g', hg', fun m hm => .inl hm⟩

/-- A new file without sub files. -/
def addFile (s : State) (p code : Nat) (parent : Option Nat) : State :=
  { s with files := upd s.files s.next (some { code, parent, subs := [] }),
           index := upd s.index p (some s.next), next := s.next + 1 }

theorem store_new (s : State) (p code : Nat) (parent : Option Nat) (hi : s.index p = none) :
    store s p code parent = match parent with
      | none => addFile s p code none
      | some q => pushSub (addFile s p code (some q)) q s.next := by
  unfold store
  cases parent with
  | none => simp only [hi]; rfl
  | some q => simp only [hi]; rfl

/-- The cells of a notebook one longer. -/
theorem core_addFile (v : View) (s : State) (url : Nat) (cells : List Nat) (p code : Nat)
    (parent : Option Nat) (h : Core v s) (hv : v url = some cells) (hp : ¬ Shown v p)
    (hi : s.index p = none)
    (hpar : match cells.getLast? with
      | none => parent = none
      | some q => ∃ j, s.index q = some j ∧ parent = some j) :
    Core (upd v url (some (cells ++ [p]))) (addFile s p code parent) := by
  have hidx : ∀ q, Shown v q → (addFile s p code parent).index q = s.index q := by
    intro q hq
    exact upd_ne _ _ _ _ (fun he => hp (he ▸ hq))
  have hfile : ∀ j f, s.files j = some f → (addFile s p code parent).files j = some f := by
    intro j f hf
    show upd s.files s.next _ j = some f
    rw [upd_ne _ _ _ _ (Nat.ne_of_lt (h.fileBound j f hf))]
    exact hf
  have hold : ∀ url' cells', v url' = some cells' → Linked (addFile s p code parent) cells' := by
    intro url' cells' hv' a q b hab
    have hq : Shown v q := ⟨url', cells', hv', by simp [hab]⟩
    obtain ⟨j, f, hj, hf, hpr⟩ := h.linked url' cells' hv' a q b hab
    refine ⟨j, f, by rw [hidx q hq]; exact hj, hfile j f hf, ?_⟩
    cases hl : a.getLast? with
    | none => rw [hl] at hpr; exact hpr
    | some r =>
      rw [hl] at hpr
      obtain ⟨k, hk, hks, hpk⟩ := hpr
      obtain ⟨g, hg⟩ := Option.isSome_iff_exists.1 hks
      have hr : Shown v r := ⟨url', cells', hv', by simp [hab, getLast?_mem' a r hl]⟩
      exact ⟨k, by rw [hidx r hr]; exact hk, by simp [hfile k g hg], hpk⟩
  have hpc : ∀ u c, v u = some c → p ∉ c := fun u c hu hm => hp ⟨u, c, hu, hm⟩
  refine ⟨?_, ?_, ?_, ?_, ?_, ?_, ?_, ?_⟩
  · intro u c hu
    by_cases he : u = url
    · subst he
      rw [upd_same] at hu
      cases hu
      rw [List.nodup_append]
      refine ⟨h.nodup u _ hv, by simp, ?_⟩
      intro x hx y hy hxy
      simp only [List.mem_singleton] at hy
      subst hy; subst hxy
      exact hpc u cells hv hx
    · rw [upd_ne _ _ _ _ he] at hu
      exact h.nodup u c hu
  · have key : ∀ u c q, upd v url (some (cells ++ [p])) u = some c → q ∈ c →
        (∃ c', v u = some c' ∧ q ∈ c') ∨ (u = url ∧ q = p) := by
      intro u c q hu hq
      by_cases he : u = url
      · subst he
        rw [upd_same] at hu
        cases hu
        simp only [List.mem_append, List.mem_singleton] at hq
        rcases hq with hq | hq
        · exact .inl ⟨cells, hv, hq⟩
        · exact .inr ⟨rfl, hq⟩
      · rw [upd_ne _ _ _ _ he] at hu
        exact .inl ⟨c, hu, hq⟩
    intro u u' c c' q hu hu' hq hq'
    rcases key u c q hu hq with ⟨d, hd, hm⟩ | ⟨e1, e2⟩ <;>
      rcases key u' c' q hu' hq' with ⟨d', hd', hm'⟩ | ⟨e1', e2'⟩
    · exact h.disjoint u u' d d' q hd hd' hm hm'
    · exact absurd (e2' ▸ hm) (hpc u d hd)
    · exact absurd (e2 ▸ hm') (hpc u' d' hd')
    · exact e1.trans e1'.symm
  · intro u c hu
    by_cases he : u = url
    · subst he
      rw [upd_same] at hu
      cases hu
      intro a q b hab
      rcases List.eq_nil_or_concat b with rfl | ⟨b', x, rfl⟩
      · have := List.append_inj_right' hab rfl
        have ha := List.append_inj_left' hab rfl
        cases this
        subst ha
        refine ⟨s.next, { code, parent, subs := [] }, upd_same _ _ _, upd_same _ _ _, ?_⟩
        cases hl : cells.getLast? with
        | none => rw [hl] at hpar; exact hpar
        | some r =>
          rw [hl] at hpar
          obtain ⟨j, hj, hpj⟩ := hpar
          have hr : Shown v r := ⟨u, cells, hv, getLast?_mem' cells r hl⟩
          obtain ⟨j', g, hj', hg⟩ := linked_shown v s h r hr
          rw [hj] at hj'; cases hj'
          exact ⟨j, by rw [hidx r hr]; exact hj, by simp [hfile j g hg], hpj⟩
      · have hab' : cells ++ [p] = (a ++ q :: b') ++ [x] := by simpa using hab
        have ha := List.append_inj_left' hab' rfl
        exact hold u cells hv a q b' ha
    · rw [upd_ne _ _ _ _ he] at hu
      exact hold u c hu
  · intro x y i hx hy
    have hx' : upd s.index p (some s.next) x = some i := hx
    have hy' : upd s.index p (some s.next) y = some i := hy
    by_cases ex : x = p <;> by_cases ey : y = p
    · rw [ex, ey]
    · subst ex
      rw [upd_same] at hx'; rw [upd_ne _ _ _ _ ey] at hy'
      cases hx'
      exact absurd (h.bound y _ hy') (Nat.lt_irrefl _)
    · subst ey
      rw [upd_same] at hy'; rw [upd_ne _ _ _ _ ex] at hx'
      cases hy'
      exact absurd (h.bound x _ hx') (Nat.lt_irrefl _)
    · rw [upd_ne _ _ _ _ ex] at hx'; rw [upd_ne _ _ _ _ ey] at hy'
      exact h.inj x y i hx' hy'
  · intro x i hx
    have hx' : upd s.index p (some s.next) x = some i := hx
    show i < s.next + 1
    by_cases ex : x = p
    · subst ex; rw [upd_same] at hx'; cases hx'; omega
    · rw [upd_ne _ _ _ _ ex] at hx'
      have := h.bound x i hx'; omega
  · intro i f hf
    have hf' : upd s.files s.next (some { code, parent, subs := [] }) i = some f := hf
    show i < s.next + 1
    by_cases e : i = s.next
    · omega
    · rw [upd_ne _ _ _ _ e] at hf'
      have := h.fileBound i f hf'; omega
  · intro i f j hf hj
    have hf' : upd s.files s.next (some { code, parent, subs := [] }) i = some f := hf
    show j < s.next + 1
    by_cases e : i = s.next
    · subst e; rw [upd_same] at hf'; cases hf'; simp at hj
    · rw [upd_ne _ _ _ _ e] at hf'
      have := h.subBound i f j hf' hj; omega
  · intro i f j g hf hj hg
    have hf' : upd s.files s.next (some { code, parent, subs := [] }) i = some f := hf
    have hg' : upd s.files s.next (some { code, parent, subs := [] }) j = some g := hg
    by_cases e : i = s.next
    · subst e; rw [upd_same] at hf'; cases hf'; simp at hj
    · rw [upd_ne _ _ _ _ e] at hf'
      have := h.subBound i f j hf' hj
      rw [upd_ne _ _ _ _ (by omega)] at hg'
      exact h.subs i f j g hf' hj hg'

theorem core_notebooks (v : View) (s : State) (nb : Nat → Option (List Nat)) (h : Core v s) :
    Core v { s with notebooks := nb } :=
  ⟨h.nodup, h.disjoint, fun u c hu a p b hab => h.linked u c hu a p b hab, h.inj, h.bound, h.fileBound,
    h.subBound, h.subs⟩

theorem shown_append (v : View) (url : Nat) (cells : List Nat) (p q : Nat) (hv : v url = some cells) :
    Shown (upd v url (some (cells ++ [p]))) q ↔ Shown v q ∨ q = p := by
  constructor
  · rintro ⟨u, c, hu, hm⟩
    by_cases e : u = url
    · subst e
      rw [upd_same] at hu; cases hu
      simp only [List.mem_append, List.mem_singleton] at hm
      rcases hm with hm | hm
      · exact .inl ⟨u, cells, hv, hm⟩
      · exact .inr hm
    · rw [upd_ne _ _ _ _ e] at hu
      exact .inl ⟨u, c, hu, hm⟩
  · rintro (⟨u, c, hu, hm⟩ | rfl)
    · by_cases e : u = url
      · subst e
        rw [hv] at hu; cases hu
        exact ⟨u, cells ++ [p], upd_same _ _ _, by simp [hm]⟩
      · exact ⟨u, c, by rw [upd_ne _ _ _ _ e]; exact hu, hm⟩
    · exact ⟨url, cells ++ [q], upd_same _ _ _, by simp⟩

theorem upd_upd {α : Type} (f : Nat → α) (k : Nat) (a b : α) : upd (upd f k a) k b = upd f k b := by
  funext x; simp only [upd]; split <;> rfl

/-- One new cell at the end of a notebook. -/
theorem inv_add (v : View) (s : State) (url : Nat) (cells : List Nat) (p code : Nat)
    (h : Inv v s) (hv : v url = some cells) (hp : ¬ Shown v p) :
    ∃ s1 par s2, addCell s url p cells.length = some (s1, par) ∧
      storeWithParent s1 p code par = (s2, .ok) ∧ Inv (upd v url (some (cells ++ [p]))) s2 := by
  have hi : s.index p = none := by
    cases hi : s.index p with
    | none => rfl
    | some i => exact absurd (h.fresh p i hi) hp
  have hnb : s.notebooks url = some cells := by rw [h.table, hv]
  let s1 : State := { s with notebooks := upd s.notebooks url (some (cells ++ [p])) }
  have hadd : addCell s url p cells.length = some (s1, cells.getLast?) := by
    unfold addCell
    rw [hnb]
    simp only [Nat.lt_irrefl, gt_iff_lt, if_false, List.take_length, List.drop_length]
    congr 2
    rw [List.getLast?_eq_getElem?]
    cases cells with
    | nil => rfl
    | cons a l =>
      have : (a :: l).length - 1 < (a :: l).length := by simp
      rw [if_pos (by simp), List.getElem?_append_left this]
  have hcore : ∀ par, (match cells.getLast? with
      | none => par = none
      | some q => ∃ j, s1.index q = some j ∧ par = some j) →
      Core (upd v url (some (cells ++ [p]))) (addFile s1 p code par) := fun par hpar =>
    core_addFile v s1 url cells p code par (core_notebooks v s _ h.toCore) hv hp hi hpar
  have hfresh : ∀ q i, upd s.index p (some s.next) q = some i → Shown (upd v url (some (cells ++ [p]))) q := by
    intro q i hq
    rw [shown_append v url cells p q hv]
    by_cases e : q = p
    · exact .inr e
    · rw [upd_ne _ _ _ _ e] at hq
      exact .inl (h.fresh q i hq)
  have htable : ∀ u, s1.notebooks u = upd v url (some (cells ++ [p])) u := by
    intro u
    show upd s.notebooks url _ u = _
    by_cases e : u = url
    · subst e; rw [upd_same, upd_same]
    · rw [upd_ne _ _ _ _ e, upd_ne _ _ _ _ e, h.table]
  have hi1 : s1.index p = none := hi
  cases hl : cells.getLast? with
  | none =>
    refine ⟨s1, none, _, by rw [hadd, hl], rfl, ?_⟩
    rw [store_new s1 p code none hi1]
    have := hcore none (by rw [hl])
    exact ⟨this, htable, hfresh⟩
  | some r =>
    obtain ⟨j, g, hj, hg⟩ := linked_shown v s h.toCore r ⟨url, cells, hv, getLast?_mem' cells r hl⟩
    have hj1 : s1.index r = some j := hj
    refine ⟨s1, some r, store s1 p code (some j), by rw [hadd, hl], by simp [storeWithParent, hj1], ?_⟩
    rw [store_new s1 p code (some j) hi1]
    have hc := hcore (some j) (by rw [hl]; exact ⟨j, hj1, rfl⟩)
    refine ⟨core_pushSub _ _ j s1.next hc ⟨{ code, parent := some j, subs := [] }, upd_same _ _ _, rfl⟩, ?_, ?_⟩
    · rw [pushSub_notebooks]; exact htable
    · rw [pushSub_index]; exact hfresh

/-- New cells at the end of a notebook. -/
theorem inv_newCells (url : Nat) : ∀ (cs : List Cell) (docs : List (Nat × Nat)) (v : View) (s : State)
    (cells : List Nat), Inv v s → v url = some cells → Docs cs docs → (cs.map (·.doc)).Nodup →
    (∀ c ∈ cs, ¬ Shown v c.doc) →
    ∃ s', newCells s url docs cells.length cs = (s', .ok) ∧
      Inv (upd v url (some (cells ++ cs.map (·.doc)))) s'
  | [], docs, v, s, cells, h, hv, _, _, _ => by
    refine ⟨s, rfl, ?_⟩
    have : upd v url (some (cells ++ [])) = v := by
      funext u
      by_cases e : u = url
      · subst e; rw [upd_same, hv]; simp
      · rw [upd_ne _ _ _ _ e]
    show Inv (upd v url (some (cells ++ []))) s
    rw [this]; exact h
  | c :: cs, docs, v, s, cells, h, hv, hd, hn, hf => by
    obtain ⟨hd1, hd2⟩ := hd
    cases docs with
    | nil => simp at hd1
    | cons d ds =>
      simp only [List.map_cons, List.cons.injEq] at hd1
      obtain ⟨s1, par, s2, e1, e2, h2⟩ := inv_add v s url cells c.doc d.2 h hv (hf c (by simp))
      have hn' := List.nodup_cons.1 (by simpa using hn : (c.doc :: cs.map (·.doc)).Nodup)
      have hlen : cells.length + 1 = (cells ++ [c.doc]).length := by simp
      obtain ⟨s', e3, h3⟩ := inv_newCells url cs ds _ s2 (cells ++ [c.doc]) h2 (upd_same _ _ _)
        ⟨hd1.2, fun x hx => hd2 x (by simp [hx])⟩ hn'.2 (by
          intro x hx hs
          rw [shown_append v url cells c.doc x.doc hv] at hs
          rcases hs with hs | hs
          · exact hf x (by simp [hx]) hs
          · exact hn'.1 (hs ▸ List.mem_map_of_mem hx))
      refine ⟨s', ?_, ?_⟩
      · rw [newCells, if_pos (hd2 c (by simp))]
        have hfind : (d :: ds).find? (fun x => x.1 == c.doc) = some d := by
          rw [List.find?_cons_of_pos]; simp [hd1.1]
        have herase : (d :: ds).eraseP (fun x => x.1 == c.doc) = ds := by
          rw [List.eraseP_cons_of_pos]; simp [hd1.1]
        rw [hfind, herase]
        simp only [e1, e2]
        rw [hlen]
        exact e3
      · rw [upd_upd] at h3
        simpa using h3

/-- Closing documents that are not shown. -/
theorem core_closeCells (v : View) : ∀ (ps : List Nat) (s : State), Core v s → (∀ p ∈ ps, ¬ Shown v p) →
    Core v (closeCells s ps).1 ∧ (closeCells s ps).1.notebooks = s.notebooks ∧
      ∀ q i, (closeCells s ps).1.index q = some i → s.index q = some i ∧ q ∉ ps
  | [], s, h, _ => ⟨h, rfl, fun q i hq => ⟨hq, by simp⟩⟩
  | p :: ps, s, h, hp => by
    obtain ⟨h1, h2, h3⟩ := core_closeCells v ps (closeFile s p).1 (core_close v s p h (hp p (by simp)))
      (fun q hq => hp q (by simp [hq]))
    have e1 : (closeFile s p).1.notebooks = s.notebooks := by unfold closeFile; split <;> rfl
    refine ⟨h1, h2.trans e1, fun q i hq => ?_⟩
    obtain ⟨h4, h5⟩ := h3 q i hq
    unfold closeFile at h4
    split at h4
    · rename_i hn
      refine ⟨h4, ?_⟩
      simp only [List.mem_cons, not_or]
      refine ⟨?_, h5⟩
      rintro rfl
      rw [hn] at h4; cases h4
    · have h4' : upd s.index p none q = some i := h4
      by_cases e : q = p
      · subst e; rw [upd_same] at h4'; cases h4'
      · rw [upd_ne _ _ _ _ e] at h4'
        exact ⟨h4', by simp [e, h5]⟩

/-- Replacing the text of a file and keeping its parent. -/
def setFile (s : State) (i : Nat) (f : File) : State := { s with files := upd s.files i (some f) }

theorem core_setFile (v : View) (s : State) (i : Nat) (f f' : File) (h : Core v s) (hf : s.files i = some f)
    (hp : f'.parent = f.parent) (hs : f'.subs = []) : Core v (setFile s i f') := by
  refine core_touch v s _ h rfl rfl ?_ ?_
  · intro j g hg
    by_cases e : j = i
    · subst e
      rw [hf] at hg; cases hg
      exact ⟨f', upd_same _ _ _, hp⟩
    · exact ⟨g, by rw [← hg]; exact upd_ne _ _ _ _ e, rfl⟩
  · intro j g' hg'
    have hg'' : upd s.files i (some f') j = some g' := hg'
    by_cases e : j = i
    · subst e
      rw [upd_same] at hg''; cases hg''
      exact ⟨f, hf, by simp [hs]⟩
    · rw [upd_ne _ _ _ _ e] at hg''
      exact ⟨g', hg'', fun k hk => .inl hk⟩

theorem inv_text (v : View) (s : State) (p code : Nat) (h : Inv v s) (hp : Shown v p) :
    (changeText s p code).2 = .ok ∧ Inv v (changeText s p code).1 := by
  obtain ⟨i, f, hi, hf⟩ := linked_shown v s h.toCore p hp
  unfold changeText
  simp only [hi, hf, true_and]
  have hself : upd s.files i (some f) = s.files := by
    funext x
    by_cases e : x = i
    · subst e; rw [upd_same, hf]
    · rw [upd_ne _ _ _ _ e]
  have key : ∃ s1, Core v s1 ∧ s1.notebooks = s.notebooks ∧ s1.index = s.index ∧
      (∃ c, s1.files i = some c ∧ c.parent = f.parent) ∧
      store s p code f.parent = match f.parent with
        | none => s1
        | some q => pushSub s1 q i := by
    by_cases hc : f.code == code
    · refine ⟨s, h.toCore, rfl, rfl, ⟨f, hf, rfl⟩, ?_⟩
      unfold store
      cases hq : f.parent with
      | none => simp only [hi, hf, hc, if_true]
      | some q =>
        have : ({ f with parent := some q } : File) = f := by rw [← hq]
        simp only [hi, hf, this, hself, hc, if_true]
        rfl
    · refine ⟨setFile s i { code, parent := f.parent, subs := [] },
        core_setFile v s i f _ h.toCore hf rfl rfl, rfl, rfl, ⟨_, upd_same _ _ _, rfl⟩, ?_⟩
      unfold store
      cases hq : f.parent with
      | none => simp only [hi, hf, hc]; rfl
      | some q =>
        have : ({ f with parent := some q } : File) = f := by rw [← hq]
        simp only [hi, hf, this, hself, hc]
        rfl
  obtain ⟨s1, h1, h2, h3, h4, h5⟩ := key
  rw [h5]
  cases hq : f.parent with
  | none => exact ⟨h1, by rw [h2]; exact h.table, by rw [h3]; exact h.fresh⟩
  | some q =>
    simp only
    refine ⟨core_pushSub v s1 q i h1 (hq ▸ h4), ?_, ?_⟩
    · rw [pushSub_notebooks, h2]; exact h.table
    · rw [pushSub_index, h3]; exact h.fresh

theorem shown_upd (v : View) (url : Nat) (cells : List Nat) (q : Nat) :
    Shown (upd v url (some cells)) q ↔ q ∈ cells ∨ ∃ u c, u ≠ url ∧ v u = some c ∧ q ∈ c := by
  constructor
  · rintro ⟨u, c, hu, hm⟩
    by_cases e : u = url
    · subst e; rw [upd_same] at hu; cases hu; exact .inl hm
    · rw [upd_ne _ _ _ _ e] at hu; exact .inr ⟨u, c, e, hu, hm⟩
  · rintro (hm | ⟨u, c, e, hu, hm⟩)
    · exact ⟨url, cells, upd_same _ _ _, hm⟩
    · exact ⟨u, c, by rw [upd_ne _ _ _ _ e]; exact hu, hm⟩

/-- Removing cells at the end of a notebook. -/
theorem inv_remove (v : View) (s : State) (url : Nat) (keep gone : List Nat) (h : Inv v s)
    (hv : v url = some (keep ++ gone)) :
    Inv (upd v url (some keep))
      { (closeCells s gone).1 with notebooks := upd (closeCells s gone).1.notebooks url (some keep) } := by
  have hnd := List.nodup_append.1 (h.nodup url _ hv)
  have hns : ∀ p ∈ gone, ¬ Shown (upd v url (some keep)) p := by
    intro p hp hs
    rw [shown_upd] at hs
    rcases hs with hs | ⟨u, c, hne, hu, hm⟩
    · exact hnd.2.2 p hs p hp rfl
    · exact hne (h.disjoint u url c _ p hu hv hm (by simp [hp]))
  obtain ⟨h1, h2, h3⟩ := core_closeCells (upd v url (some keep)) gone s
    (core_prefix v s url keep gone h.toCore hv) hns
  refine ⟨core_notebooks _ _ _ h1, ?_, ?_⟩
  · intro u
    show upd (closeCells s gone).1.notebooks url (some keep) u = _
    rw [h2]
    by_cases e : u = url
    · subst e; rw [upd_same, upd_same]
    · rw [upd_ne _ _ _ _ e, upd_ne _ _ _ _ e, h.table]
  · intro q i hq
    obtain ⟨h4, h5⟩ := h3 q i hq
    obtain ⟨u, c, hu, hm⟩ := h.fresh q i h4
    rw [shown_upd]
    by_cases e : u = url
    · subst e
      rw [hv] at hu; cases hu
      simp only [List.mem_append] at hm
      rcases hm with hm | hm
      · exact .inl hm
      · exact absurd hm h5
    · exact .inr ⟨u, c, e, hu, hm⟩

theorem inv_init : Inv (fun _ => none) init := by
  refine ⟨⟨?_, ?_, ?_, ?_, ?_, ?_, ?_, ?_⟩, fun _ => rfl, ?_⟩ <;> simp [init]

theorem inv_step (v v' : View) (s s' : State) (h : Inv v s) (hs : Step v s v' s') : Inv v' s' := by
  cases hs with
  | «open» url cells docs hv hd hn hf =>
    have h0 : Inv (upd v url (some [])) { s with notebooks := upd s.notebooks url (some []) } := by
      have hshown : ∀ q, Shown v q → Shown (upd v url (some [])) q := by
        rintro q ⟨u, c, hu, hm⟩
        refine ⟨u, c, ?_, hm⟩
        rw [upd_ne _ _ _ _ (by rintro rfl; rw [hv] at hu; cases hu)]; exact hu
      have key : ∀ u c, upd v url (some []) u = some c → c = [] ∨ v u = some c := by
        intro u c hu
        by_cases e : u = url
        · subst e; rw [upd_same] at hu; cases hu; exact .inl rfl
        · rw [upd_ne _ _ _ _ e] at hu; exact .inr hu
      refine ⟨⟨?_, ?_, ?_, h.inj, h.bound, h.fileBound, h.subBound, h.subs⟩, ?_, ?_⟩
      · intro u c hu
        rcases key u c hu with rfl | hu
        · exact List.nodup_nil
        · exact h.nodup u c hu
      · intro u u' c c' p hu hu' hp hp'
        rcases key u c hu with rfl | hu
        · simp at hp
        rcases key u' c' hu' with rfl | hu'
        · simp at hp'
        exact h.disjoint u u' c c' p hu hu' hp hp'
      · intro u c hu
        rcases key u c hu with rfl | hu
        · intro a p b hab; simp at hab
        · intro a p b hab; exact h.linked u c hu a p b hab
      · intro u
        by_cases e : u = url
        · subst e; show upd _ _ _ _ = _; rw [upd_same, upd_same]
        · show upd _ _ _ _ = _; rw [upd_ne _ _ _ _ e, upd_ne _ _ _ _ e, h.table]
      · intro q i hq; exact hshown q (h.fresh q i hq)
    obtain ⟨s', e, h'⟩ := inv_newCells url cells docs _ _ [] h0 (upd_same _ _ _) hd hn (by
      intro c hc hs
      rw [shown_upd] at hs
      rcases hs with hs | ⟨u, d, -, hu, hm⟩
      · simp at hs
      · exact hf c hc ⟨u, d, hu, hm⟩)
    rw [upd_upd] at h'
    have e' : openNotebook s url cells docs = (s', .ok) := e
    rw [e']
    exact h'
  | change url keep gone cells docs closed hv hd hn hc hf =>
    have h0 : ∃ s2, Inv (upd v url (some keep)) s2 ∧
        ∀ s3, newCells s2 url docs keep.length cells = (s3, .ok) →
          changeStructure s url ⟨keep.length, gone.length, some cells, docs, closed⟩ =
            relink s3 url (keep.length + cells.length) := by
      rcases hc with rfl | ⟨rfl, rfl⟩
      · refine ⟨_, inv_remove v s url keep gone h hv, ?_⟩
        have hnb : (closeCells s gone).1.notebooks url = some (keep ++ gone) := by
          have hns : ∀ p ∈ gone, ¬ Shown (upd v url (some keep)) p := by
            intro p hp hs
            have hnd := List.nodup_append.1 (h.nodup url _ hv)
            rw [shown_upd] at hs
            rcases hs with hs | ⟨u, c, hne, hu, hm⟩
            · exact hnd.2.2 p hs p hp rfl
            · exact hne (h.disjoint u url c _ p hu hv hm (by simp [hp]))
          rw [(core_closeCells (upd v url (some keep)) gone s
            (core_prefix v s url keep gone h.toCore hv) hns).2.1, h.table, hv]
        intro s3 hs3
        have hdrop : (keep ++ gone).drop (keep.length + gone.length) = [] := by
          apply List.drop_eq_nil_of_le; simp
        unfold changeStructure
        simp only [hnb, hdrop, List.append_nil, hs3, List.length_append, Nat.lt_irrefl, gt_iff_lt, if_false, List.take_left,
          Option.map_some, Option.getD_some]
      · refine ⟨s, ?_, ?_⟩
        · have : upd v url (some keep) = v := by
            funext u
            by_cases e : u = url
            · subst e; rw [upd_same, hv]; simp
            · rw [upd_ne _ _ _ _ e]
          rw [this]; exact h
        · intro s3 hs3
          unfold changeStructure
          simp only [hs3, Option.map_some, Option.getD_some]
    obtain ⟨s2, h2, e2⟩ := h0
    obtain ⟨s3, e3, h3⟩ := inv_newCells url cells docs _ s2 keep h2 (upd_same _ _ _) hd hn hf
    rw [upd_upd] at h3
    rw [e2 s3 e3]
    have hnb : s3.notebooks url = some (keep ++ cells.map (·.doc)) := by rw [h3.table, upd_same]
    have hget : (keep ++ cells.map (·.doc))[keep.length + cells.length]? = none := by
      apply List.getElem?_eq_none; simp
    simp only [relink, hnb, hget]
    exact h3
  | edit url cells p code hv hp => exact (inv_text v s p code h ⟨url, cells, hv, hp⟩).2
  | close url cells hv =>
    have hns : ∀ p ∈ cells, ¬ Shown (upd v url none) p := by
      rintro p hp ⟨u, c, hu, hm⟩
      by_cases e : u = url
      · subst e; rw [upd_same] at hu; cases hu
      · rw [upd_ne _ _ _ _ e] at hu
        exact e (h.disjoint u url c cells p hu hv hm hp)
    obtain ⟨h1, h2, h3⟩ := core_closeCells (upd v url none) cells s (core_forget v s url h.toCore) hns
    refine ⟨core_notebooks _ _ _ h1, ?_, ?_⟩
    · intro u
      show upd (closeCells s cells).1.notebooks url none u = _
      rw [h2]
      by_cases e : u = url
      · subst e; rw [upd_same, upd_same]
      · rw [upd_ne _ _ _ _ e, upd_ne _ _ _ _ e, h.table]
    · intro q i hq
      obtain ⟨h4, h5⟩ := h3 q i hq
      obtain ⟨u, c, hu, hm⟩ := h.fresh q i h4
      by_cases e : u = url
      · subst e; rw [hv] at hu; cases hu; exact absurd hm h5
      · exact ⟨u, c, by rw [upd_ne _ _ _ _ e]; exact hu, hm⟩

/-! ### C33 -/

/-- C33, partial: in every history in which notebooks of code cells are opened and closed, cells are
edited, and cells are added and removed at the end of a notebook, each cell of each open notebook is
analysed with the cell directly before it as its predecessor, and the first cell has none.  Missing:
changes before an existing cell (`linked_violation`, `remove_violation`), moved cells
(`move_violation`), recovery after a panic (`recover_violation`) and cells that are not code, which
clients do not send because only Python cells are asked for (capabilities.rs:32-41). -/
theorem linked_partial (v : View) (s : State) (h : Reach v s) (url : Nat) (cells : List Nat)
    (hv : v url = some cells) : Linked s cells := by
  have : Inv v s := by
    clear hv
    induction h with
    | init => exact inv_init
    | step _ hs ih => exact inv_step _ _ _ _ ih hs
  exact this.linked url cells hv

/-- Two cells are opened, the first one is edited, the second one is removed and another one added. -/
example : ∃ v s, Reach v s ∧ v 7 = some [1, 3] := by
  refine ⟨_, _, ((((Reach.init.step (.open 7 [⟨1, true⟩, ⟨2, true⟩] [(1, 10), (2, 20)] rfl ?_ ?_ ?_)).step
    (.edit 7 [1, 2] 1 11 rfl (by simp))).step
    (.change 7 [1] [2] [⟨3, true⟩] [(3, 30)] (some [2]) rfl ?_ ?_ (.inl rfl) ?_))), rfl⟩
  · exact ⟨rfl, by simp⟩
  · decide
  · rintro c - ⟨u, cs, hu, -⟩; cases hu
  · exact ⟨rfl, by simp⟩
  · decide
  · intro c hc
    rw [shown_upd]
    simp only [List.mem_singleton] at hc
    subst hc
    rintro (h | ⟨u, cs, hne, hu, -⟩)
    · simp at h
    · simp [upd, hne] at hu

theorem follow_self (s : State) (i code : Nat) (subs : List Nat)
    (h : s.files i = some { code, parent := some i, subs }) (n : Nat) : follow s i n = some i := by
  induction n with
  | zero => rfl
  | succ n ih => simp only [follow, h]; exact ih

/-- C33 fails: after the cells 1 and 2 were opened and cell 3 is inserted between them, cell 2 is its
own predecessor.  Following the predecessors, as the lookup of flags and names does, never ends. -/
theorem linked_violation :
    let s := (openNotebook init 7 [⟨1, true⟩, ⟨2, true⟩] [(1, 10), (2, 20)]).1
    let r := changeStructure s 7 ⟨1, 0, some [⟨3, true⟩], [(3, 30)], none⟩
    r.2 = .ok ∧ r.1.notebooks 7 = some [1, 3, 2] ∧ PredIs r.1 2 (some 2) ∧ ¬ Linked r.1 [1, 3, 2] ∧
      ∃ i, r.1.index 2 = some i ∧ ∀ n, follow r.1 i n = some i := by
  refine ⟨rfl, rfl, ⟨1, _, rfl, rfl, 1, rfl, rfl, rfl⟩, ?_, 1, rfl, fun n => follow_self _ 1 20 [1] rfl n⟩
  intro h
  obtain ⟨i, f, hi, hf, j, hj, -, hp⟩ := h [1, 3] 2 [] rfl
  cases hi
  cases hf
  cases hj
  cases hp

/-- C33 fails also when a cell before another one is removed. -/
theorem remove_violation :
    let s := (openNotebook init 7 [⟨1, true⟩, ⟨2, true⟩, ⟨3, true⟩] [(1, 10), (2, 20), (3, 30)]).1
    let r := changeStructure s 7 ⟨1, 1, none, [], some [2]⟩
    r.2 = .ok ∧ r.1.notebooks 7 = some [1, 3] ∧ ¬ Linked r.1 [1, 3] ∧
      ∃ i, r.1.index 3 = some i ∧ ∀ n, follow r.1 i n = some i := by
  refine ⟨rfl, rfl, ?_, 2, rfl, fun n => follow_self _ 2 30 [2] rfl n⟩
  intro h
  obtain ⟨i, f, hi, hf, j, hj, -, hp⟩ := h [1] 3 [] rfl
  cases hi
  cases hf
  cases hj
  cases hp

/-- C33 fails when a cell is moved: the client removes it and inserts it elsewhere without closing and
opening its document; the change is refused and the order of the server stays as it was. -/
theorem move_violation :
    let s := (openNotebook init 7 [⟨1, true⟩, ⟨2, true⟩] [(1, 10), (2, 20)]).1
    let r := changeStructure s 7 ⟨0, 2, some [⟨2, true⟩, ⟨1, true⟩], [], none⟩
    r.2 = .bail ∧ r.1.notebooks 7 = some [1, 2] ∧ ¬ Linked r.1 [2, 1] := by
  refine ⟨rfl, rfl, ?_⟩
  intro h
  obtain ⟨i, f, hi, hf, hp⟩ := h [] 2 [1] rfl
  cases hi
  cases hf
  cases hp

/-- C33 fails after a recovery: the cells no longer have predecessors. -/
theorem recover_violation :
    let s := recover (openNotebook init 7 [⟨1, true⟩, ⟨2, true⟩] [(1, 10), (2, 20)]).1
    s.notebooks 7 = some [1, 2] ∧ ¬ Linked s [1, 2] := by
  refine ⟨rfl, ?_⟩
  intro h
  obtain ⟨i, f, hi, hf, j, hj, -, hp⟩ := h [1] 2 [] rfl
  cases hi
  cases hf
  cases hj
  cases hp

end Verif.Server.Notebook
