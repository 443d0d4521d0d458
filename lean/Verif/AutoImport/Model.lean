/-!
# Auto imports

Models the code action that adds an import: `create_import_code_action` and `position_for_import` (auto_imports.rs 246-373),
`insertion_point_for_new_name` (parsa_python_cst/src/lib.rs 3238-3277) and `initial_imports_end_code_index`
(parsa_python_cst/src/ranges.rs 54-104). Texts are lists of characters, positions count characters (bytes in the code).
-/

namespace Verif.AutoImport

/-- Inserting a text, as the client does it for an edit with an empty range. -/
def insertAt (pos : Nat) (add text : List Char) : List Char := text.take pos ++ add ++ text.drop pos

/-! ## Adding a name to an import -/

/-- A leaf of the tree with the whitespace and comments before it. -/
structure Leaf where
  pre : List Char
  text : List Char
deriving DecidableEq, Repr

/-- A child of a node: its leaves. -/
abbrev Child := List Leaf

/-- `import_from`, parsa_python/src/lib.rs 67-70: the leaves of `from x import`, and the children of the targets. -/
structure ImportFrom where
  head : List Leaf
  targets : List Child
deriving DecidableEq, Repr

def code (ls : List Leaf) : List Char := ls.flatMap fun l => l.pre ++ l.text

/-- `as_code`: without the whitespace before the node. -/
def childCode : Child → List Char
  | [] => []
  | l :: ls => l.text ++ code ls

/-- The second last child, by the fold of lib.rs 3243-3247; `None` is a panic. -/
def secondLast (cs : List Child) : Option Child :=
  (cs.foldl (fun (acc : Option Child × Option Child) next => (acc.2, some next)) (none, none)).1

/-- `suffix` of the second last child: what is before the last one. -/
def suffix (cs : List Child) : List Char :=
  match cs.getLast? with
  | some (l :: _) => l.pre
  | _ => []

/-- `insertion_point_for_new_name`, parsa_python_cst/src/lib.rs 3238-3271. Positions are relative to the beginning of the
import with its whitespace. -/
def insertionPoint (i : ImportFrom) (name : List Char) : Option (Nat × List Char) :=
  match i.targets with
  | [] => none
  | first :: _ =>
    if childCode first = ['('] then
      match secondLast i.targets with
      | none => none
      | some sl =>
        let stop := (code (i.head ++ i.targets.dropLast.flatten)).length
        if childCode sl = [','] then
          if (suffix i.targets).head? = some ' ' then some (stop + 1, name)
          else some (stop, ' ' :: name)
        else some (stop, [',', ' '] ++ name)
    else some ((code (i.head ++ i.targets.flatten)).length, [',', ' '] ++ name)

/-! ## Which import gets the name -/

/-- An import of the file: its position in the tree, whether it is in the global scope (also within `if`), and the file it
imports from. -/
structure Imp where
  index : Nat
  inGlobalScope : Bool
  file : Option Nat
deriving DecidableEq, Repr

/-- The loop of `create_import_code_action`, auto_imports.rs 255-280. -/
def choose (imps : List Imp) (useIndex : Nat) (useInFunction : Bool) (file : Nat) : Option Imp :=
  imps.find? fun i => i.inGlobalScope && (decide (i.index < useIndex) || useInFunction) && (i.file == some file)

/-! ## A new import -/

/-- `ImportKind`, auto_imports.rs 375-380, in the order of `PartialOrd`. -/
inductive Kind where
  | stdLib
  | thirdParty
  | project
deriving DecidableEq, Repr

def Kind.rank : Kind → Nat
  | .stdLib => 0
  | .thirdParty => 1
  | .project => 2

/-- What a simple statement is. The kind of an import is `None` for namespaces and for modules that are not found
(auto_imports.rs 390-417). -/
inductive SKind where
  | imp (kind : Option Kind)
  | str
  | other
deriving DecidableEq, Repr

structure Simple where
  text : List Char
  kind : SKind
deriving DecidableEq, Repr

/-- A statement of the file: simple statements with what is between them, and the rest before the newline; or a compound
statement. -/
inductive Body where
  | simple (first : Simple) (more : List (List Char × Simple)) (tail : List Char)
  | compound (text : List Char)
deriving DecidableEq, Repr

structure Stmt where
  pre : List Char
  body : Body
  nl : List Char
deriving DecidableEq, Repr

def moreText (more : List (List Char × Simple)) : List Char := more.flatMap fun m => m.1 ++ m.2.text

def Body.text : Body → List Char
  | .simple first more tail => first.text ++ (moreText more ++ tail)
  | .compound t => t

def Stmt.text (s : Stmt) : List Char := s.pre ++ (s.body.text ++ s.nl)

/-- The code of the file; `endPre` is what is before the end marker. -/
def render (stmts : List Stmt) (endPre : List Char) : List Char := (stmts.flatMap Stmt.text) ++ endPre

/-- The loop over the simple statements of the closure `is_import`, ranges.rs 64-84. -/
def allImports (i : Nat) : List Simple → Bool
  | [] => true
  | s :: rest =>
    match s.kind with
    | .str => i == 0
    | .imp _ => allImports i rest
    | .other => false

/-- The closure `is_import`, ranges.rs 56-85. -/
def isImport (i : Nat) (s : Stmt) : Bool :=
  match s.body with
  | .simple first more _ => allImports i (first :: more.map (·.2))
  | .compound _ => false

/-- `u8::is_ascii_whitespace` -/
def isWs (c : Char) : Bool := c == ' ' || c == '\t' || c == '\n' || c == '\r' || c == '\x0c'

/-- The loop over the reversed prefix, ranges.rs 92-98. -/
def scan : List Char → Nat → Nat → Option Nat
  | [], _, _ => none
  | c :: cs, i, last =>
    if c = '\n' then scan cs (i + 1) i
    else if !isWs c then some last
    else scan cs (i + 1) last

/-- Where the imports end before a child of the root, ranges.rs 86-100. `off` is the end of the previous leaf. -/
def endBefore (i off : Nat) (pre : List Char) : Nat :=
  if i = 0 then
    match scan pre.reverse 0 0 with
    | some last => off + pre.length - last
    | none => off
  else off

/-- `initial_imports_end_code_index`, ranges.rs 54-104. -/
def endOfImports (endPre : List Char) : Nat → Nat → List Stmt → Nat
  | i, off, [] => endBefore i off endPre
  | i, off, s :: rest =>
    if isImport i s then endOfImports endPre (i + 1) (off + s.text.length) rest
    else endBefore i off s.pre

/-- An import of the file: where it starts, where it ends and its kind. -/
structure Pos where
  start : Nat
  stop : Nat
  kind : Option Kind
deriving DecidableEq, Repr

def simplePos (off : Nat) (s : Simple) : List Pos :=
  match s.kind with
  | .imp k => [⟨off, off + s.text.length, k⟩]
  | _ => []

def morePos (off : Nat) : List (List Char × Simple) → List Pos
  | [] => []
  | m :: rest => simplePos (off + m.1.length) m.2 ++ morePos (off + m.1.length + m.2.text.length) rest

def stmtPos (off : Nat) (s : Stmt) : List Pos :=
  match s.body with
  | .simple first more _ =>
    simplePos (off + s.pre.length) first ++ morePos (off + s.pre.length + first.text.length) more
  | .compound _ => []

/-- `all_imports` of the file in their order. Those within compound statements are left out; they are after the end of the
initial imports and therefore not used. -/
def allPos (off : Nat) : List Stmt → List Pos
  | [] => []
  | s :: rest => stmtPos off s ++ allPos (off + s.text.length) rest

/-- The closure `newline_end_after_import`, auto_imports.rs 344-352. Without a newline this is a recoverable error. -/
def newlineEnd (text : List Char) (stop : Nat) : Nat :=
  match (text.drop stop).findIdx? (· == '\n') with
  | some i => stop + i + 1
  | none => stop

/-- The end of `position_for_import`, auto_imports.rs 356-363: the position and whether there is a newline at the start. -/
def finish (eoi : Nat) (auto : Kind) : Option (Kind × Nat) → Nat × Bool
  | some (k, p) => (p, decide (k.rank < auto.rank))
  | none => (eoi, false)

/-- The loop of `position_for_import`, auto_imports.rs 327-355. -/
def positionLoop (text : List Char) (eoi : Nat) (auto : Kind) : Option (Kind × Nat) → List Pos → Nat × Bool
  | prev, [] => finish eoi auto prev
  | prev, p :: rest =>
    if eoi ≤ p.start then finish eoi auto prev
    else
      match p.kind with
      | none => positionLoop text eoi auto prev rest
      | some k =>
        if auto.rank < k.rank then
          match prev with
          | some (pk, q) => (q, decide (pk.rank < auto.rank))
          | none => (p.start, false)
        else positionLoop text eoi auto (some (k, newlineEnd text p.stop)) rest

/-- `position_for_import`, auto_imports.rs 318-363. -/
def position (stmts : List Stmt) (endPre : List Char) (auto : Kind) : Nat × Bool :=
  positionLoop (render stmts endPre) (endOfImports endPre 0 0 stmts) auto none (allPos 0 stmts)

/-- `additional_newline_needed`, auto_imports.rs 284-291. -/
def moreNewline (text : List Char) (pos : Nat) : List Char :=
  match text[pos]? with
  | some c => if c = '\n' ∨ c = '\r' then [] else ['\n']
  | none => ['\n']

/-- The new text, auto_imports.rs 283-316. `line` is the import without its newline. -/
def edited (stmts : List Stmt) (endPre : List Char) (auto : Kind) (line : List Char) : List Char :=
  let r := position stmts endPre auto
  let text := render stmts endPre
  insertAt r.1 ((if r.2 then ['\n'] else []) ++ line ++ ['\n'] ++ moreNewline text r.1) text

end Verif.AutoImport
