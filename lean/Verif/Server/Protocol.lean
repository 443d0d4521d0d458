import Verif.Lines.Model
/-
Model of the parts of the language server that translate results into protocol messages:
crates/zubanls/src/capabilities.rs, semantic_tokens.rs, request_handlers.rs; and of
crates/zuban_python/src/lib.rs (renaming files, the summary of a run).
-/
namespace Verif.Server

open Verif.Lines (Enc)

/-! ### Position encodings -/

/-- The part of `lsp_types::ClientCapabilities` read by `negotiate_encoding`:
`general.position_encodings`, as names. -/
abbrev EncodingCaps := Option (Option (List String))

/-- The loop of `ClientCapabilities::negotiate_encoding` (capabilities.rs:184-193). -/
def negotiateLoop : List String → Enc
  | [] => .utf16
  | e :: es => if e = "utf-8" then .utf8 else if e = "utf-32" then .utf32 else negotiateLoop es

/-- `ClientCapabilities::negotiate_encoding` (capabilities.rs:178-194). -/
def negotiate (caps : EncodingCaps) : Enc :=
  negotiateLoop (match caps with
    | some general => general.getD []
    | none => [])

/-- `PositionEncodingKind::from(NegotiatedEncoding)` (capabilities.rs:321-329), announced in
`server_capabilities` (capabilities.rs:22). -/
def announce : Enc → String
  | .utf8 => "utf-8"
  | .utf16 => "utf-16"
  | .utf32 => "utf-32"

/-- `GlobalState::to_position` (request_handlers.rs:94-101) of the place at a byte offset. -/
def toPosition (enc : Enc) (code : List Char) (byte : Nat) : Option (Nat × Nat) :=
  (Verif.Lines.column enc code byte).map fun c => ((Verif.Lines.positionInfos code byte).1, c)

/-- `NegotiatedEncoding::input_position` (capabilities.rs:331-341) followed by
`line_column_to_byte`. -/
def fromPosition (enc : Enc) (code : List Char) (pos : Nat × Nat) : Option Nat :=
  match Verif.Lines.lineColumnToByte enc (Verif.Lines.lineEnds 0 code) code pos.1 pos.2 with
  | .ok (b, _) => some b
  | .error _ => none

/-! ### Semantic tokens -/

/-- `SemanticTokenProperties` (zuban_python/src/semantic_tokens.rs:245-255). -/
structure TokenProps where
  definition : Bool
  declaration : Bool
  inStdlib : Bool
  readOnly : Bool
  static : Bool
  deprecated : Bool
  abstract : Bool
  async : Bool
  deriving DecidableEq

/-- The arguments of `SemanticTokensBuilder::push` (semantic_tokens.rs:172-178). -/
structure Token where
  line : Nat
  char : Nat
  len : Nat
  type : String
  props : TokenProps
  deriving DecidableEq

/-- `lsp_types::SemanticToken`. -/
structure Encoded where
  deltaLine : Nat
  deltaStart : Nat
  length : Nat
  tokenType : Nat
  modifiers : Nat
  deriving DecidableEq

/-- `SUPPORTED_TYPES` (semantic_tokens.rs:27-30, 44-70), by the names `lsp_types` gives the
constants. -/
def supportedTypes : List String :=
  ["namespace", "type", "class", "enum", "interface", "struct", "typeParameter", "parameter",
   "variable", "property", "enumMember", "event", "function", "method", "macro", "keyword",
   "modifier", "comment", "string", "number", "regexp", "operator", "decorator"]

/-- `SUPPORTED_MODIFIERS` (semantic_tokens.rs:100-103, 114-125). -/
def supportedModifiers : List String :=
  ["declaration", "definition", "readonly", "static", "deprecated", "abstract", "async",
   "defaultLibrary"]

/-- `ModifierSet |= modifier` (semantic_tokens.rs:143-151); `position(..).unwrap()` panics for an
unknown modifier, which cannot happen as all calls name a modifier of the list. -/
def addModifier (bits : Nat) (m : String) : Nat := bits ||| (1 <<< supportedModifiers.idxOf m)

/-- The modifiers of a token (semantic_tokens.rs:179-192). -/
def modifierBits (p : TokenProps) : Nat :=
  let add (bits : Nat) (on : Bool) (m : String) : Nat := if on then addModifier bits m else bits
  let b := add 0 p.definition "definition"
  let b := add b p.declaration "declaration"
  let b := add b p.inStdlib "defaultLibrary"
  let b := add b p.readOnly "readonly"
  let b := add b p.static "static"
  let b := add b p.deprecated "deprecated"
  let b := add b p.async "async"
  add b p.abstract "abstract"

/-- `SemanticTokensBuilder` (semantic_tokens.rs:156-160). -/
structure Builder where
  prevLine : Nat
  prevChar : Nat
  data : List Encoded

/-- `SemanticTokensBuilder::push` (semantic_tokens.rs:172-216); `none` stands for the overflow of a
`u32` subtraction (semantic_tokens.rs:198, 200) or the unreachable branch of `type_index`
(semantic_tokens.rs:226-231). -/
def push (b : Builder) (t : Token) : Option Builder :=
  let delta : Option (Nat × Nat) :=
    if b.data.isEmpty then some (t.line, t.char)
    else if t.line < b.prevLine then none
    else
      let l := t.line - b.prevLine
      if l = 0 then
        if t.char < b.prevChar then none else some (l, t.char - b.prevChar)
      else some (l, t.char)
  match delta with
  | none => none
  | some (l, c) =>
    if supportedTypes.contains t.type then
      some { prevLine := t.line, prevChar := t.char,
             data := b.data ++ [{ deltaLine := l, deltaStart := c, length := t.len,
                                  tokenType := supportedTypes.idxOf t.type,
                                  modifiers := modifierBits t.props }] }
    else none

/-- The loop of `semantic_tokens_internal` (request_handlers.rs:681-696). -/
def encodeTokens (ts : List Token) : Option (List Encoded) :=
  (ts.foldlM push { prevLine := 0, prevChar := 0, data := [] }).map (·.data)

/-- The length given to `push` for a name (zuban_python/src/semantic_tokens.rs:205-207): the number
of UTF-8 bytes, whatever was negotiated. -/
def tokenLength (_enc : Enc) (name : List Char) : Nat := Verif.Lines.size name

/-! ### Completions -/

/-- One hexadecimal digit of `format!("{:x}")`. -/
def hexDigit (n : Nat) : Char := if n < 10 then Char.ofNat (48 + n) else Char.ofNat (87 + n)

/-- `format!("{n:x}")`. -/
def hex (n : Nat) : List Char :=
  if n < 16 then [hexDigit n] else hex (n / 16) ++ [hexDigit (n % 16)]
termination_by n
decreasing_by omega

/-- `format!("{i:05x}")` (request_handlers.rs:180). -/
def sortText (i : Nat) : List Char :=
  let h := hex i
  List.replicate (5 - h.length) '0' ++ h

/-- The loop that numbers completions (request_handlers.rs:179-181). -/
def withSortText {α : Type} (cs : List α) : List (α × List Char) :=
  cs.zipIdx.map fun (c, i) => (c, sortText i)

/-! ### Goto -/

/-- A name found by goto: uri, range of the whole definition, range of the name. -/
structure Found where
  uri : String
  target : Nat × Nat
  name : Nat × Nat
  deriving DecidableEq

/-- `GotoDefinitionResponse`: `Array` of locations (uri and range) or `Link`s (uri, target range,
selection range). -/
inductive GotoResponse where
  | array (ls : List (String × (Nat × Nat)))
  | link (ls : List (String × (Nat × Nat) × (Nat × Nat)))
  deriving DecidableEq

/-- `run_goto_like` (request_handlers.rs:331-368).  `support` is
`ClientCapabilities::location_link()` (capabilities.rs:212-214). -/
def runGotoLike (support : Bool) (names : List Found) : Option GotoResponse :=
  if support then
    let result := names.map fun n => (n.uri, n.name)
    if result.isEmpty then none else some (.array result)
  else
    let result := names.map fun n => (n.uri, n.target, n.name)
    if result.isEmpty then none else some (.link result)

/-! ### Symbols -/

/-- `SymbolKind` as far as it is looked at. -/
inductive Kind where
  | cls | enum | other
  deriving DecidableEq

/-- A name with its symbol table: `NameSymbol` (name, kind), a unique location, and the symbols of
the class body for classes and enums (`class_symbols`, zuban_python/src/name.rs:286-309; a name that
merely refers to a class has no symbols of its own: its `body` is empty). -/
inductive Sym where
  | mk (name : List Char) (kind : Kind) (loc : Nat) (body : List Sym)

def Sym.name : Sym → List Char | .mk n _ _ _ => n
def Sym.kind : Sym → Kind | .mk _ k _ _ => k
def Sym.loc : Sym → Nat | .mk _ _ l _ => l
def Sym.body : Sym → List Sym | .mk _ _ _ b => b

/-- `str::contains`. -/
def containsStr (s q : List Char) : Bool :=
  match s with
  | [] => q.isEmpty
  | c :: cs => q.isPrefixOf (c :: cs) || containsStr cs q

mutual
/-- `nested_workspace_doc_symbols` (request_handlers.rs:617-642), one symbol: the names and
locations passed to `add`, in order. -/
def workspaceSymbol (q : List Char) : Sym → List (List Char × Nat)
  | .mk name kind loc body =>
    if containsStr name q then
      (if kind = .cls then workspaceSymbols q body else []) ++ [(name, loc)]
    else []
/-- `nested_workspace_doc_symbols` (request_handlers.rs:617-642). -/
def workspaceSymbols (q : List Char) : List Sym → List (List Char × Nat)
  | [] => []
  | s :: ss => workspaceSymbol q s ++ workspaceSymbols q ss
end

/-- `DocumentSymbol` (name, kind, location, children). -/
inductive DocSym where
  | mk (name : List Char) (kind : Kind) (loc : Nat) (children : Option (List DocSym))

mutual
/-- `nested_doc_symbols` (request_handlers.rs:559-583), one symbol. -/
def nestedSymbol : Sym → DocSym
  | .mk name kind loc body =>
    .mk name kind loc (if kind = .cls ∨ kind = .enum then some (nestedSymbols body) else none)
/-- `nested_doc_symbols` (request_handlers.rs:559-583). -/
def nestedSymbols : List Sym → List DocSym
  | [] => []
  | s :: ss => nestedSymbol s :: nestedSymbols ss
end

/-- `SymbolInformation`: name, kind, location and container name. -/
structure FlatSym where
  name : List Char
  kind : Kind
  loc : Nat
  container : Option (List Char)
  deriving DecidableEq

mutual
/-- `flat_doc_symbols` (request_handlers.rs:585-615), one symbol. -/
def flatSymbol (container : Option (List Char)) : Sym → List FlatSym
  | .mk name kind loc body =>
    { name, kind, loc, container } ::
      (if kind = .cls ∨ kind = .enum then flatSymbols (some name) body else [])
/-- `flat_doc_symbols` (request_handlers.rs:585-615). -/
def flatSymbols (container : Option (List Char)) : List Sym → List FlatSym
  | [] => []
  | s :: ss => flatSymbol container s ++ flatSymbols container ss
end

/-! ### Renaming files -/

/-- Split at the last occurrence of a character: what `Path::parent` / `file_name` do with `/`
(for paths with a non-empty parent that has no trailing separator) and `file_stem` / `extension` do
with `.`. -/
def splitLast (c : Char) : List Char → Option (List Char × List Char)
  | [] => none
  | x :: xs =>
    match splitLast c xs with
    | some (a, b) => some (x :: a, b)
    | none => if x = c then some ([], xs) else none

/-- `Path::file_stem` and `Path::extension` of a file name: the last dot separates them unless it is
the first character. -/
def stemExt (file : List Char) : List Char × Option (List Char) :=
  match splitLast '.' file with
  | some ([], _) => (file, none)
  | some (a, b) => (a, some b)
  | none => (file, none)

/-- `FileRename::to_uri` (zuban_python/src/lib.rs:504-524); `none` stands for a panicking `unwrap`.
Trailing and doubled separators, which `Path::parent` skips, are not modelled. -/
def renameToUri (uri new : List Char) : Option (List Char) :=
  match splitLast '/' uri with
  | none => none
  | some (parent, file) =>
    match stemExt file with
    | (_, none) => none
    | (oldName, some ext) =>
      let (parent', maybeInit) :=
        if oldName = "__init__".toList then
          match splitLast '/' parent with
          | some (parParent, _) => (parParent, oldName ++ ['/'])
          | none => (parent, [])
        else (parent, [])
      some (parent' ++ ['/'] ++ new ++ maybeInit ++ ['.'] ++ ext)

/-! ### The summary of a run -/

/-- `Severity` (zuban_python/src/diagnostics.rs), as far as it matters. -/
inductive Severity where
  | error | other
  deriving DecidableEq

/-- `Diagnostics` (zuban_python/src/lib.rs:563-568). -/
structure Report where
  checkedFiles : Nat
  filesWithErrors : Nat
  issues : List Severity

/-- `Project::diagnostics` (zuban_python/src/lib.rs:205-223), given the issues of each checked
file. -/
def report (files : List (List Severity)) : Report where
  checkedFiles := files.length
  filesWithErrors := (files.filter fun f => !f.isEmpty).length
  issues := files.flatten

/-- `error_count` (zuban_python/src/lib.rs:595-603). -/
def errorCount (r : Report) : Nat := (r.issues.filter (· = .error)).length

/-- A summary line: `Success: no issues found in {checked} source file{s}` or `Found {n} error{s} in
{m} file{s} (checked {checked} source file{s})`; the booleans say whether an `s` follows. -/
inductive Summary where
  | success (checked : Nat) (checkedS : Bool)
  | found (errors : Nat) (errorS : Bool) (files : Nat) (fileS : Bool) (checked : Nat) (checkedS : Bool)
  deriving DecidableEq

/-- The closure `s_if_plural` (zuban_python/src/lib.rs:572-575). -/
def sIfPlural (n : Nat) : Bool := n != 1

/-- `Diagnostics::summary` (zuban_python/src/lib.rs:571-593). -/
def summary (r : Report) : Summary :=
  if errorCount r = 0 then .success r.checkedFiles (sIfPlural r.checkedFiles)
  else .found (errorCount r) (sIfPlural r.issues.length) r.filesWithErrors
    (sIfPlural r.filesWithErrors) r.checkedFiles (sIfPlural r.checkedFiles)

/-- The exit code (crates/zmypy/src/lib.rs:48, 50-53); `none` is an error of
`with_diagnostics_from_cli`. -/
def exitCode (r : Option Report) : Nat :=
  match r with
  | some r => if errorCount r > 0 then 1 else 0
  | none => 2

end Verif.Server
