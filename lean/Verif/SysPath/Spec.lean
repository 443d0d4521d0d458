import Verif.SysPath.Model

/-!
# `site.py` of Python, and the newest library
-/

namespace Verif.SysPath.Spec

/-- White space. -/
def Blank (s : List Char) : Prop := ∀ c ∈ s, c = ' ' ∨ c = '\t' ∨ c = '\n' ∨ c = '\r'

/-- The text without the white space around it. -/
def Strip (s t : List Char) : Prop :=
  ∃ a b, s = a ++ t ++ b ∧ Blank a ∧ Blank b ∧
    (∀ c, t.head? = some c → ¬ Blank [c]) ∧ (∀ c, t.getLast? = some c → ¬ Blank [c])

/-- The line sets `include-system-site-packages` to the value, like `site.py` reads it. -/
def Sets (line value : List Char) : Prop :=
  ∃ k v k' v', line = k ++ '=' :: v ∧ '=' ∉ k ∧ Strip k k' ∧ k'.map Char.toLower = "include-system-site-packages".toList ∧
    Strip v v' ∧ v'.map Char.toLower = value

/-- The system's site-packages are used: the last line that sets the value sets it to `true`, or no line does. -/
def Enabled (lines : List (List Char)) : Prop :=
  (∀ l ∈ lines, ∀ v, ¬ Sets l v) ∨
  ∃ before l after, lines = before ++ l :: after ∧ Sets l "true".toList ∧ ∀ x ∈ after, ∀ v, ¬ Sets x v

/-- The newest of the directories that exist. -/
def Newest (ls : List Lib) (l : Lib) : Prop := l ∈ ls ∧ l.present = true ∧ ∀ x ∈ ls, x.present = true → x.version ≤ l.version

end Verif.SysPath.Spec
