import Verif.Select.Spec

/-!
# Lemmas about the selection of files
-/

namespace Verif.Select

variable (w : World)

mutual
  def outEntry (gs : List Nat) (root rel : Path) (parent : Entries) (n : Name) : Entry → List Path
    | .file =>
      if !skipFile w (rel ++ [n]) n && !overwritten parent n && !ignored w gs (root ++ rel ++ [n]) false then
        [root ++ rel ++ [n]] else []
    | .dir nested es =>
      if !w.excluded (rel ++ [n]) && !ignored w gs (root ++ rel ++ [n]) true && !nested then
        outList (gs ++ (gitignoreOf w es).toList) root (rel ++ [n]) es es else []
    | .gitignore _ => []
    | .missing => []
  def outList (gs : List Nat) (root rel : Path) (parent : Entries) : Entries → List Path
    | [] => []
    | e :: es => outEntry gs root rel parent e.1 e.2 ++ outList gs root rel parent es
end

/-- A state with more files. -/
def State.more (s : State) (fs : List Path) : State := ⟨s.files ++ fs, s.added || !fs.isEmpty, s.gitignores⟩

theorem State.more_nil (s : State) : s.more [] = s := by simp [State.more]

theorem State.more_more (s : State) (a b : List Path) : (s.more a).more b = s.more (a ++ b) := by
  simp [State.more, List.append_assoc, Bool.or_assoc]
  cases a <;> simp

theorem State.add_eq (s : State) (f : Path) : s.add f = s.more [f] := by simp [State.more, State.add]

theorem State.push_gitignores (s : State) (o : Option Nat) : (s.push o).gitignores = s.gitignores ++ o.toList := by
  cases o <;> simp [State.push]

theorem State.push_pop (s : State) (o : Option Nat) (fs : List Path) : ((s.push o).more fs).pop o = s.more fs := by
  cases o <;> simp [State.push, State.pop, State.more]

theorem State.more_gitignores (s : State) (fs : List Path) : (s.more fs).gitignores = s.gitignores := rfl

mutual
  theorem handleEntry_eq (root rel : Path) (parent : Entries) (n : Name) :
      (e : Entry) → (s : State) → handleEntry w root rel parent n e s = s.more (outEntry w s.gitignores root rel parent n e)
    | .file, s => by
      rw [handleEntry, outEntry]; split
      · exact State.add_eq _ _
      · exact (State.more_nil s).symm
    | .dir nested es, s => by
      rw [handleEntry, outEntry]; split
      · rw [handleList_eq root (rel ++ [n]) es es, State.push_pop, State.push_gitignores]
      · exact (State.more_nil s).symm
    | .gitignore _, s => by rw [handleEntry, outEntry, State.more_nil]
    | .missing, s => by rw [handleEntry, outEntry, State.more_nil]
  theorem handleList_eq (root rel : Path) (parent : Entries) :
      (es : Entries) → (s : State) → handleList w root rel parent es s = s.more (outList w s.gitignores root rel parent es)
    | [], s => by rw [handleList, outList, State.more_nil]
    | (n, e) :: es, s => by
      rw [handleList, outList, handleList_eq root rel parent es, handleEntry_eq root rel parent n e, State.more_more]
      rfl
end

/-- The files of a directory. -/
def outDir (gs : List Nat) (root rel : Path) (es : Entries) : List Path :=
  outList w (gs ++ (gitignoreOf w es).toList) root rel es es

theorem handleEntries_eq (root rel : Path) (es : Entries) (s : State) :
    handleEntries w root rel es s = s.more (outDir w s.gitignores root rel es) := by
  rw [handleEntries, handleList_eq, State.push_pop, State.push_gitignores, outDir]

/-! ## What is in these lists -/

theorem gitignoreOf_iff (es : Entries) (g : Nat) :
    gitignoreOf w es = some g ↔ w.useGitignore = true ∧ Spec.HasIgnore es g := by
  unfold gitignoreOf
  have key : ∀ es : Entries, es.findSome? (fun e => e.2.asGitignore) = some g ↔ Spec.HasIgnore es g := by
    intro es
    induction es with
    | nil => simp [Spec.HasIgnore]
    | cons e es ih =>
      obtain ⟨n, e⟩ := e
      have skip : (∀ g' : Nat, e ≠ .gitignore g') →
          (Spec.HasIgnore ((n, e) :: es) g ↔ Spec.HasIgnore es g) := by
        intro hne
        constructor
        · rintro ⟨pre, m, post, h, hp⟩
          cases pre with
          | nil => simp at h; exact absurd h.1.2 (hne g)
          | cons a pre =>
            simp at h
            exact ⟨pre, m, post, h.2, fun e he => hp e (List.mem_cons_of_mem _ he)⟩
        · rintro ⟨pre, m, post, h, hp⟩
          refine ⟨(n, e) :: pre, m, post, by simp [h], ?_⟩
          intro x hx
          rcases List.mem_cons.1 hx with rfl | hx
          · exact hne
          · exact hp x hx
      cases e with
      | gitignore g0 =>
        simp [List.findSome?, Entry.asGitignore]
        constructor
        · rintro rfl; exact ⟨[], n, es, rfl, by simp⟩
        · rintro ⟨pre, m, post, h, hp⟩
          cases pre with
          | nil => simp at h; exact h.1.2
          | cons a pre =>
            simp at h
            exact absurd (by rw [← h.1]) (hp a (List.mem_cons_self ..) g0)
      | file => rw [skip (by simp)]; simpa [List.findSome?, Entry.asGitignore] using ih
      | dir a b => rw [skip (by simp)]; simpa [List.findSome?, Entry.asGitignore] using ih
      | missing => rw [skip (by simp)]; simpa [List.findSome?, Entry.asGitignore] using ih
  split
  · rename_i h; rw [key]; simp [h]
  · rename_i h; simp [h]

theorem hasIgnore_unique {es : Entries} {g g' : Nat} (h : Spec.HasIgnore es g) (h' : Spec.HasIgnore es g') : g = g' := by
  have a := (gitignoreOf_iff ⟨fun _ => false, fun _ _ _ => .no, true⟩ es g).2 ⟨rfl, h⟩
  have b := (gitignoreOf_iff ⟨fun _ => false, fun _ _ _ => .no, true⟩ es g').2 ⟨rfl, h'⟩
  rw [a] at b; exact Option.some.inj b

theorem overwritten_iff (es : Entries) (n : Name) :
    overwritten es n = true ↔ n.ending = .py ∧ (⟨n.stem, .pyi⟩, Entry.file) ∈ es := by
  simp only [overwritten, Bool.and_eq_true, beq_iff_eq, List.any_eq_true]
  constructor
  · rintro ⟨h, ⟨m, e⟩, hm, h1, h2⟩
    refine ⟨h, ?_⟩
    cases e <;> simp [Entry.isFile] at h2
    simp at h1; rw [← h1]; exact hm
  · rintro ⟨h, hm⟩; exact ⟨h, _, hm, rfl, rfl⟩

/-- A file is in the list of a directory; `gs` has the `.gitignore` of this directory, too. -/
inductive Sel (root : Path) : List Nat → Path → Entries → Path → Prop
  | file (gs : List Nat) (rel : Path) (es : Entries) (n : Name) :
    (n, Entry.file) ∈ es → skipFile w (rel ++ [n]) n = false → overwritten es n = false →
    ignored w gs (root ++ rel ++ [n]) false = false → Sel root gs rel es (root ++ rel ++ [n])
  | dir (gs : List Nat) (rel : Path) (es : Entries) (n : Name) (sub : Entries) (f : Path) :
    (n, Entry.dir false sub) ∈ es → w.excluded (rel ++ [n]) = false →
    ignored w gs (root ++ rel ++ [n]) true = false →
    Sel root (gs ++ (gitignoreOf w sub).toList) (rel ++ [n]) sub f → Sel root gs rel es f

theorem mem_outList (gs : List Nat) (root rel : Path) (parent es : Entries) (f : Path) :
    f ∈ outList w gs root rel parent es ↔ ∃ e ∈ es, f ∈ outEntry w gs root rel parent e.1 e.2 := by
  induction es with
  | nil => simp [outList]
  | cons e es ih => simp [outList, ih]

mutual
  theorem outEntry_sel (gs : List Nat) (root rel : Path) (parent : Entries) (n : Name) :
      (e : Entry) → (n, e) ∈ parent → ∀ f ∈ outEntry w gs root rel parent n e, Sel w root gs rel parent f
    | .file, hm, f, hf => by
      rw [outEntry] at hf
      split at hf
      · rename_i h
        simp only [Bool.and_eq_true, Bool.not_eq_true'] at h
        simp at hf; subst hf
        simpa using Sel.file gs rel parent n hm h.1.1 h.1.2 (by simpa using h.2)
      · simp at hf
    | .dir nested es, hm, f, hf => by
      rw [outEntry] at hf
      split at hf
      · rename_i h
        simp only [Bool.and_eq_true, Bool.not_eq_true'] at h
        obtain ⟨⟨h1, h2⟩, rfl⟩ := h
        exact Sel.dir gs rel parent n es f hm h1 h2 (outList_sel _ root (rel ++ [n]) es es (fun _ h => h) f hf)
      · simp at hf
    | .gitignore _, _, f, hf => by simp [outEntry] at hf
    | .missing, _, f, hf => by simp [outEntry] at hf
  theorem outList_sel (gs : List Nat) (root rel : Path) (parent : Entries) :
      (es : Entries) → (∀ e ∈ es, e ∈ parent) → ∀ f ∈ outList w gs root rel parent es, Sel w root gs rel parent f
    | [], _, f, hf => by simp [outList] at hf
    | (n, e) :: es, hsub, f, hf => by
      rw [outList] at hf
      rcases List.mem_append.1 hf with hf | hf
      · exact outEntry_sel gs root rel parent n e (hsub _ (List.mem_cons_self ..)) f hf
      · exact outList_sel gs root rel parent es (fun e he => hsub e (List.mem_cons_of_mem _ he)) f hf
end

theorem mem_outDir (gs : List Nat) (root rel : Path) (es : Entries) (f : Path) :
    f ∈ outDir w gs root rel es ↔ Sel w root (gs ++ (gitignoreOf w es).toList) rel es f := by
  constructor
  · intro h; exact outList_sel w _ root rel es es (fun _ h => h) f h
  · have gen : ∀ gs rel es, Sel w root gs rel es f → f ∈ outList w gs root rel es es := by
      intro gs rel es h
      induction h with
      | file gs rel es n hm h1 h2 h3 =>
        rw [mem_outList]
        refine ⟨_, hm, ?_⟩
        rw [outEntry, if_pos (by simp only [h1, h2, h3]; rfl)]
        simp
      | dir gs rel es n sub f hm h1 h2 _ ih =>
        rw [mem_outList]
        refine ⟨_, hm, ?_⟩
        rw [outEntry, if_pos (by simp only [h1, h2]; rfl)]
        exact ih
    exact gen _ _ _

/-! ## The specification -/

/-- These are the `.gitignore` files in these directories. -/
def InForce (gs : List Nat) (up : List (Path × Entries)) : Prop :=
  ∀ g : Nat, g ∈ gs ↔ w.useGitignore = true ∧ ∃ d ∈ up, Spec.HasIgnore d.2 g

theorem inForce_here (es : Entries) : InForce w ([] ++ (gitignoreOf w es).toList) [([], es)] := by
  intro g
  have := gitignoreOf_iff w es g
  simp [this]

theorem inForce_step {gs : List Nat} {up : List (Path × Entries)} (h : InForce w gs up) (p : Path) (sub : Entries) :
    InForce w (gs ++ (gitignoreOf w sub).toList) ((p, sub) :: up) := by
  intro g
  have a := gitignoreOf_iff w sub g
  have b := h g
  rw [List.mem_append, Option.mem_toList, a, b]
  simp only [List.mem_cons, exists_eq_or_imp]
  constructor
  · rintro (⟨h, h'⟩ | ⟨h, h'⟩)
    · exact ⟨h, .inr h'⟩
    · exact ⟨h, .inl h'⟩
  · rintro ⟨h, h' | h'⟩
    · exact .inr ⟨h, h'⟩
    · exact .inl ⟨h, h'⟩

theorem ignored_iff {gs : List Nat} {up : List (Path × Entries)} (h : InForce w gs up) (abs p : Path) (isDir : Bool) :
    ignored w gs (abs ++ p) isDir = true ↔ Spec.IgnoredBy w abs up p isDir := by
  simp only [ignored, List.any_eq_true, isIgnored, beq_iff_eq, Spec.IgnoredBy]
  constructor
  · rintro ⟨g, hg, hm⟩
    obtain ⟨hu, d, hd, hi⟩ := (h g).1 hg
    exact ⟨hu, d, hd, g, hi, hm⟩
  · rintro ⟨hu, d, hd, g, hi, hm⟩
    exact ⟨g, (h g).2 ⟨hu, d, hd, hi⟩, hm⟩

theorem ignored_false {gs : List Nat} {up : List (Path × Entries)} (h : InForce w gs up) (abs p : Path) (isDir : Bool) :
    ignored w gs (abs ++ p) isDir = false ↔ ¬ Spec.IgnoredBy w abs up p isDir := by
  rw [← ignored_iff w h]; simp

theorem skipFile_false (p : Path) (n : Name) :
    skipFile w p n = false ↔ (n.ending = .py ∨ n.ending = .pyi) ∧ w.excluded p = false := by
  simp only [skipFile, Bool.or_eq_false_iff, beq_eq_false_iff_ne]
  cases n.ending <;> simp

theorem sel_selected (root rel0 : Path) (es0 : Entries) (gs : List Nat) (rel : Path) (es : Entries) (f : Path)
    (h : Sel w root gs rel es f) :
    ∀ (up : List (Path × Entries)) (p : Path), rel = rel0 ++ p → Spec.Below es0 up p es →
      Spec.Open w (root ++ rel0) rel0 up → InForce w gs up → Spec.Selected w (root ++ rel0) rel0 es0 f := by
  induction h with
  | file gs rel es n hm h1 h2 h3 =>
    rintro up p rfl hb ho hf
    rw [skipFile_false] at h1
    refine ⟨up, p, es, n, hb, by simp, hm, h1.1, ?_, by simpa using h1.2, ho, ?_⟩
    · rw [← overwritten_iff, h2]; simp
    · rw [← ignored_false w hf]; simpa using h3
  | dir gs rel es n sub f hm h1 h2 _ ih =>
    rintro up p rfl hb ho hf
    refine ih ((p ++ [n], sub) :: up) (p ++ [n]) (by simp) (.step up p es n sub hb hm) ?_ (inForce_step w hf _ _)
    refine .step _ _ ho (by simpa using h1) ?_
    rw [← ignored_false w hf]; simpa using h2

theorem below_ne {es0 : Entries} {up : List (Path × Entries)} {p : Path} {es : Entries} (h : Spec.Below es0 up p es) :
    up ≠ [] := by cases h <;> simp

theorem open_step {abs rel : Path} {d : Path × Entries} {up : List (Path × Entries)} (h : Spec.Open w abs rel (d :: up))
    (hu : up ≠ []) : Spec.Open w abs rel up ∧ w.excluded (rel ++ d.1) = false ∧ ¬ Spec.IgnoredBy w abs up d.1 true := by
  generalize hl : d :: up = l at h
  cases h with
  | here es => simp at hl; exact absurd hl.2 hu
  | step d' up' h1 h2 h3 => cases hl; exact ⟨h1, h2, h3⟩

theorem selected_sel (root rel0 : Path) (es0 : Entries) (f : Path) (up : List (Path × Entries)) (p : Path) (es : Entries)
    (hb : Spec.Below es0 up p es) :
    Spec.Open w (root ++ rel0) rel0 up →
    (∀ gs, InForce w gs up → Sel w root gs (rel0 ++ p) es f) →
    Sel w root ([] ++ (gitignoreOf w es0).toList) rel0 es0 f := by
  induction hb with
  | here =>
    intro _ h
    simpa using h _ (inForce_here w es0)
  | step up p cur n sub hb hm ih =>
    intro ho h
    obtain ⟨ho, h1, h2⟩ := open_step w ho (below_ne hb)
    refine ih ho ?_
    intro gs hf
    refine .dir gs _ cur n sub f hm (by simpa using h1) ?_ ?_
    · rw [← ignored_false w hf] at h2; simpa using h2
    · simpa using h _ (inForce_step w hf (p ++ [n]) sub)

theorem mem_outDir_iff (root rel : Path) (es : Entries) (f : Path) :
    f ∈ outDir w [] root rel es ↔ Spec.Selected w (root ++ rel) rel es f := by
  rw [mem_outDir]
  constructor
  · intro h
    exact sel_selected w root rel es _ rel es f h [([], es)] [] (by simp) .here (.here es) (inForce_here w es)
  · rintro ⟨up, p, cur, n, hb, rfl, hm, h1, h2, h3, ho, h4⟩
    refine selected_sel w root rel es _ up p cur hb ho ?_
    intro gs hf
    have := Sel.file (w := w) (root := root) gs (rel ++ p) cur n hm ((skipFile_false w _ _).2 ⟨h1, by simpa using h3⟩)
      (by rw [← overwritten_iff] at h2; simpa using h2)
      (by rw [← ignored_false w hf] at h4; simpa using h4)
    simpa using this

/-! ## Workspaces and arguments -/

theorem handleWorkspaces_eq (p : Workspace → Bool) (wss : List Workspace) (s : State) (hs : s.gitignores = []) :
    handleWorkspaces w p wss s = s.more ((wss.filter p).flatMap fun ws => outDir w [] ws.root [] ws.entries) := by
  unfold handleWorkspaces
  generalize wss.filter p = l
  induction l generalizing s with
  | nil => simp [State.more_nil]
  | cons a l ih =>
    rw [List.foldl_cons, handleEntries_eq, hs, ih _ (by rw [State.more_gitignores, hs]), State.more_more]
    simp

/-- The files of the workspaces. -/
def outWss (p : Workspace → Bool) (wss : List Workspace) : List Path :=
  (wss.filter p).flatMap fun ws => outDir w [] ws.root [] ws.entries

theorem mem_outWss (p : Workspace → Bool) (wss : List Workspace) (f : Path) :
    f ∈ outWss w p wss ↔ ∃ ws ∈ wss, p ws = true ∧ Spec.Selected w ws.root [] ws.entries f := by
  simp only [outWss, List.mem_flatMap, List.mem_filter, mem_outDir_iff, List.append_nil]
  constructor
  · rintro ⟨a, ⟨h1, h2⟩, h3⟩; exact ⟨a, h1, h2, h3⟩
  · rintro ⟨a, h1, h2, h3⟩; exact ⟨a, ⟨h1, h2⟩, h3⟩

def outFound : Found → List Path
  | .dir root rel es => outDir w [] root rel es
  | .file f => [f]
  | .nothing => []

def outArg (wss : List Workspace) (a : Arg) : List Path :=
  match a.found with
  | .nothing =>
    if outWss w (fun ws => ws.checked && a.path.isPrefixOf ws.root) wss ≠ [] then
      outWss w (fun ws => ws.checked && a.path.isPrefixOf ws.root) wss
    else if outWss w (fun ws => a.path.isPrefixOf ws.root) wss ≠ [] then
      outWss w (fun ws => a.path.isPrefixOf ws.root) wss
    else outFound w a.fallback
  | x => outFound w x

theorem handleArg_eq (wss : List Workspace) (a : Arg) (s : State) (hs : s.gitignores = []) (ha : s.added = false) :
    handleArg w wss a s = s.more (outArg w wss a) := by
  unfold handleArg outArg
  cases a.found with
  | dir root rel es => simp only [outFound]; rw [handleEntries_eq, hs]
  | file f => simp only [outFound]; exact State.add_eq _ _
  | nothing =>
    simp only
    rw [handleWorkspaces_eq w _ wss s hs]
    change _ = s.more _
    have e : ∀ p, ((wss.filter p).flatMap fun ws => outDir w [] ws.root [] ws.entries) = outWss w p wss := fun _ => rfl
    rw [e]
    generalize outWss w (fun ws => ws.checked && a.path.isPrefixOf ws.root) wss = l1
    have added : ∀ l, (s.more l).added = !l.isEmpty := by intro l; simp [State.more, ha]
    cases l1 with
    | cons x l1 => simp [added]
    | nil =>
      rw [State.more_nil, ha]
      simp only [ne_eq, not_true, if_false, Bool.false_eq_true]
      rw [handleWorkspaces_eq w _ wss s hs, e]
      generalize outWss w (fun ws => a.path.isPrefixOf ws.root) wss = l2
      cases l2 with
      | cons x l2 => simp [added]
      | nil =>
        rw [State.more_nil, ha]
        simp only [not_true, if_false, Bool.false_eq_true]
        cases a.fallback with
        | dir root rel es => simp only [outFound, handleFound]; rw [handleEntries_eq, hs]
        | file f => simp only [outFound, handleFound]; exact State.add_eq _ _
        | nothing => simp [outFound, handleFound, State.more_nil]

theorem searchArgs_some (wss : List Workspace) (args : List Arg) (s s' : State) (hs : s.gitignores = [])
    (h : searchArgs w wss args s = some s') :
    s'.gitignores = [] ∧ s'.files = s.files ++ args.flatMap (outArg w wss) ∧ ∀ a ∈ args, outArg w wss a ≠ [] := by
  induction args generalizing s with
  | nil => simp only [searchArgs, Option.some.injEq] at h; subst h; simp [hs]
  | cons a args ih =>
    simp only [searchArgs] at h
    rw [handleArg_eq w wss a { s with added := false } hs rfl] at h
    split at h
    · rename_i hadd
      obtain ⟨h1, h2, h3⟩ := ih _ (by rw [State.more_gitignores]; exact hs) h
      refine ⟨h1, by rw [h2]; simp [State.more, List.append_assoc], ?_⟩
      intro b hb
      rcases List.mem_cons.1 hb with rfl | hb
      · intro h; simp [State.more, h] at hadd
      · exact h3 b hb
    · simp at h

theorem searchArgs_none (wss : List Workspace) (args : List Arg) (s : State) (hs : s.gitignores = [])
    (h : searchArgs w wss args s = none) : ∃ a ∈ args, outArg w wss a = [] := by
  induction args generalizing s with
  | nil => simp [searchArgs] at h
  | cons a args ih =>
    simp only [searchArgs] at h
    rw [handleArg_eq w wss a { s with added := false } hs rfl] at h
    split at h
    · obtain ⟨b, hb, h'⟩ := ih _ (by rw [State.more_gitignores]; exact hs) h
      exact ⟨b, List.mem_cons_of_mem _ hb, h'⟩
    · rename_i hadd
      refine ⟨a, List.mem_cons_self .., ?_⟩
      cases hl : outArg w wss a with
      | nil => rfl
      | cons x l => simp [State.more, hl] at hadd

/-! ## Wildcards -/

mutual
  def globOut (gs : List Nat) (glob : Path → Bool) (root rel : Path) (parent : Entries) (n : Name) : Entry → List Path
    | .file => if glob (root ++ rel ++ [n]) then outEntry w gs root rel parent n .file else []
    | .dir nested es =>
      if glob (root ++ rel ++ [n]) then outEntry w gs root rel parent n (.dir nested es)
      else if nested then globOuts gs glob (root ++ rel ++ [n]) [] es es
      else globOuts gs glob root (rel ++ [n]) es es
    | .gitignore _ => []
    | .missing => []
  def globOuts (gs : List Nat) (glob : Path → Bool) (root rel : Path) (parent : Entries) : Entries → List Path
    | [] => []
    | e :: es => globOut gs glob root rel parent e.1 e.2 ++ globOuts gs glob root rel parent es
end

mutual
  theorem globEntry_eq (glob : Path → Bool) (root rel : Path) (parent : Entries) (n : Name) :
      (e : Entry) → (s : State) →
        globEntry w glob root rel parent n e s = s.more (globOut w s.gitignores glob root rel parent n e)
    | .file, s => by
      rw [globEntry, globOut]; split
      · exact handleEntry_eq ..
      · exact (State.more_nil s).symm
    | .dir nested es, s => by
      rw [globEntry, globOut]; split
      · exact handleEntry_eq ..
      · split
        · exact globList_eq glob (root ++ rel ++ [n]) [] es es s
        · exact globList_eq glob root (rel ++ [n]) es es s
    | .gitignore _, s => by rw [globEntry, globOut, State.more_nil]
    | .missing, s => by rw [globEntry, globOut, State.more_nil]
  theorem globList_eq (glob : Path → Bool) (root rel : Path) (parent : Entries) :
      (es : Entries) → (s : State) →
        globList w glob root rel parent es s = s.more (globOuts w s.gitignores glob root rel parent es)
    | [], s => by rw [globList, globOuts, State.more_nil]
    | (n, e) :: es, s => by
      rw [globList, globOuts, globList_eq glob root rel parent es, globEntry_eq glob root rel parent n e, State.more_more]
      rfl
end

def globWss (glob : Path → Bool) (wss : List Workspace) : List Path :=
  (wss.filter (·.checked)).flatMap fun ws => globOuts w [] glob ws.root [] ws.entries ws.entries

theorem searchGlobs_eq (glob : Path → Bool) (wss : List Workspace) (s : State) (hs : s.gitignores = []) :
    searchGlobs w glob wss s = s.more (globWss w glob wss) := by
  unfold searchGlobs globWss
  generalize wss.filter (·.checked) = l
  induction l generalizing s with
  | nil => simp [State.more_nil]
  | cons a l ih =>
    rw [List.foldl_cons, globList_eq, hs, ih _ (by rw [State.more_gitignores, hs]), State.more_more]
    simp

theorem mem_globOuts (gs : List Nat) (glob : Path → Bool) (root rel : Path) (parent es : Entries) (f : Path) :
    f ∈ globOuts w gs glob root rel parent es ↔ ∃ e ∈ es, f ∈ globOut w gs glob root rel parent e.1 e.2 := by
  induction es with
  | nil => simp [globOuts]
  | cons e es ih => simp [globOuts, ih]

end Verif.Select
