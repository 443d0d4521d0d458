import Verif.References.Model

/-!
What references are, as relations on where names lead to, without the order in which the search
looks at them and without positions as identities.
-/
namespace Verif.References.Spec

/-- The name at `s` in the file `f` leads to something, through any number of imports (and global
and nonlocal statements) that keep the name. -/
inductive Leads (w : World) : Nat → Nat → Name → Prop where
  | step {f s n} : n ∈ w.goto f s → Leads w f s n
  | through {f s g t n} : Name.tree g t ∈ w.goto f s → w.isFollowed g t = true →
      Leads w g t n → Leads w f s n

/-- The name leads to something, through at most one import. -/
inductive Near (w : World) : Nat → Nat → Name → Prop where
  | step {f s n} : n ∈ w.goto f s → Near w f s n
  | through {f s g t n} : Name.tree g t ∈ w.goto f s → w.isFollowed g t = true →
      n ∈ w.goto g t → Near w f s n

/-- What the search takes for the definition of the name at `s` in the file `f`: the first thing
the name leads to or, if that is an import that keeps the name, the first thing that leads to. -/
inductive Symbol (w : World) : Nat → Nat → Name → Prop where
  | direct {f s n rest} : w.goto f s = n :: rest →
      (∀ g t, n = .tree g t → w.isFollowed g t = false ∨ w.goto g t = []) → Symbol w f s n
  | imported {f s g t rest n rest'} : w.goto f s = .tree g t :: rest →
      w.isFollowed g t = true → w.goto g t = n :: rest' → Symbol w f s n

/-- All the declarations of a symbol: the definition, its other definitions in the same scope, and
the same in the stub, or in the file of the stub. -/
inductive DeclarationOf (w : World) (n : Name) : Name → Prop where
  | itself : DeclarationOf w n n
  | other {f s t} : n = .tree f s → t ∈ w.others f s → DeclarationOf w n (.tree f t)
  | counterpart {o} : w.counterpart n = some o → DeclarationOf w n o
  | counterpartOther {f s t} : w.counterpart n = some (.tree f s) → t ∈ w.others f s →
      DeclarationOf w n (.tree f t)

/-- Where a name is. -/
def fileOf : Name → Nat
  | .tree f _ | .module f | .node f _ => f

/-- Where a name starts in its file. -/
def startOf : Name → Nat
  | .tree _ s | .node _ s => s
  | .module _ => 0

/-- Something that the search may look at. -/
inductive Mentioned (w : World) : Name → Prop where
  | name {f s c} : (s, c) ∈ w.names f → Mentioned w (.tree f s)
  | goto {f s n} : n ∈ w.goto f s → Mentioned w n
  | declaration {n d} : Mentioned w n → DeclarationOf w n d → Mentioned w d

/-- No two different things start at the same place, for example no name is at the very start of a
file that is also imported as a module. -/
def Apart (w : World) : Prop :=
  ∀ n m, Mentioned w n → Mentioned w m → fileOf n = fileOf m → startOf n = startOf m → n = m

/-- A place where the name is written, in a file that is searched. Local names are only searched
in the current file, the others where the goal says. -/
inductive Searched (w : World) (goal : Goal) (f : Nat) (n : Name) (name : String) : Nat → Prop where
  | current : (∃ g t, n = .tree g t ∧ w.inFunction g t = true) ∨ goal = .onlyCurrentFile →
      Searched w goal f n name f
  | checked {g} : (∀ g t, n = .tree g t → w.inFunction g t = false) →
      goal = .onlyTypeCheckedWorkspaces → g ∈ w.checkedFiles → w.mentions g name = true →
      Searched w goal f n name g
  | all {g} : (∀ g t, n = .tree g t → w.inFunction g t = false) →
      goal = .allFilesIncludingDependencies → g ∈ w.allFiles → w.mentions g name = true →
      Searched w goal f n name g

/-- The names, files and definitions are listed without repetition. -/
structure WellFormed (w : World) : Prop where
  checked : w.checkedFiles.Nodup
  all : w.allFiles.Nodup
  names : ∀ f, ((w.names f).map (·.1)).Nodup
  others : ∀ f s, (s :: w.others f s).Nodup
  counterpart : ∀ n o, w.counterpart n = some o → fileOf o ≠ fileOf n

/-- A rename changes the name at this place. -/
def Changed (c : RenameChanges) (f s : Nat) : Prop := ∃ l, (f, l) ∈ c.changes ∧ s ∈ l

end Verif.References.Spec
