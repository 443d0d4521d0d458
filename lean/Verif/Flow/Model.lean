/-
Model of the flow analysis of zuban: how narrowed types are kept in a stack of
frames while the statements of a function are checked.

Source: /repo/crates/zuban_python/src/file/flow_analysis.rs (cited below as
`flow_analysis.rs`) and the statement loop of
/repo/crates/zuban_python/src/file/diagnostics.rs.

Not modelled: `widens` and redefinitions (names are taken to have a declared
type, `allow_redefinition` is off), pattern matching, accumulating types,
parent unions (narrowing `a` because `a.b` was narrowed), partial types, the
`FrameKind`, and whether an unreachable statement was reported already.  Types
are a parameter (`Ops`): the union, the common sub type and the tests are
functions the model is given.  A comparison between two keys is not modelled;
a test is about one key.
-/

namespace Verif.Flow

/-- The last part of a key: an attribute or an index with a literal.
flow_analysis.rs 72-80 (`Member`, `Index`) and 137-142 (`FlowKeyIndex`). -/
inductive Sub where
  | attr (s : String)
  | int (i : Int)
  | str (s : String)
deriving DecidableEq, Repr

/-- flow_analysis.rs 71-80 (`FlowKey`); the `node_index` of an index is only
used to infer it again and does not take part in `equals` (97-117). -/
inductive Key where
  | name (n : Nat)
  | sub (base : Key) (s : Sub)
deriving DecidableEq, Repr

/-- flow_analysis.rs 83-95 (`is_child_of`, `base_key`). -/
def Key.isChildOf : Key → Key → Bool
  | .name _, _ => false
  | .sub b _, k => decide (b = k) || b.isChildOf k

/-- The operations on types the analysis is given.
`join` is `simplified_union`, `meet` is `common_sub_type`, `never` recognises
`Type::Never`, `bottom` is `Type::Never` itself, `error` is `Type::ERROR`,
`split p t` is what a test `p` makes out of `t` when it succeeds and when it
fails, and `decl` is the declared type of a key. -/
structure Ops (Ty P : Type) where
  join : Ty → Ty → Ty
  meet : Ty → Ty → Option Ty
  never : Ty → Bool
  bottom : Ty
  error : Ty
  split : P → Ty → Option (Ty × Ty)
  decl : Key → Ty

/-- flow_analysis.rs 144-158 (`EntryKind`, `Entry`); `kind = none` is
`OriginalDeclaration`. -/
structure Entry (Ty : Type) where
  key : Key
  kind : Option Ty
  mods : Bool
  deleted : Bool
deriving DecidableEq, Repr

/-- flow_analysis.rs 263-269 (`Frame`). -/
structure Frame (Ty : Type) where
  entries : List (Entry Ty)
  unreachable : Bool
deriving DecidableEq, Repr

/-- flow_analysis.rs 281-288 (`new_conditional`). -/
def Frame.conditional {Ty : Type} : Frame Ty := ⟨[], false⟩

/-- flow_analysis.rs 299-306 (`new_unreachable`). -/
def Frame.dead {Ty : Type} : Frame Ty := ⟨[], true⟩

/-- An expression whose value is assigned: any expression of the given type, or
the value of a key. -/
inductive Expr (Ty : Type) where
  | opaque (t : Ty)
  | key (k : Key)
deriving Repr

/-- A condition.  `expr t p` tests the value of some expression of type `t`,
`test k p` the value of a key, `walrus n e p` is `(n := e)` tested by `p`. -/
inductive Cond (Ty P : Type) where
  | expr (t : Ty) (p : P)
  | test (k : Key) (p : P)
  | not (c : Cond Ty P)
  | and (c d : Cond Ty P)
  | or (c d : Cond Ty P)
  | walrus (n : Nat) (e : Expr Ty) (p : P)

/-- A statement.  `read l k` is an expression that looks at the type of `k`;
`untyped k` assigns a value of type `Any` to `k`; `leave` is `return`;
`guarded b` is a `with` statement that may suppress exceptions;
`tryS b n hs he e f` is a `try` with `n` handlers, an `else` block when `he`
is set, and a `finally` block `f` (`skip` when there is none). -/
inductive Stmt (Ty P : Type) where
  | skip
  | read (l : Nat) (k : Key)
  | assign (k : Key) (e : Expr Ty)
  | untyped (k : Key)
  | del (n : Nat)
  | assert (c : Cond Ty P)
  | leave
  | raise
  | brk
  | cont
  | seq (a b : Stmt Ty P)
  | ite (c : Cond Ty P) (a b : Stmt Ty P)
  | whileS (c : Cond Ty P) (b e : Stmt Ty P)
  | forS (k : Key) (t : Ty) (b e : Stmt Ty P)
  | guarded (b : Stmt Ty P)
  | tryS (b : Stmt Ty P) (n : Nat) (hs : Fin n → Stmt Ty P) (he : Bool) (e f : Stmt Ty P)

/-- What a read of a key says. -/
inductive Claim (Ty : Type) where
  | typ (t : Ty)
  | deleted
deriving DecidableEq, Repr

/-- What is noted down while analysing: every read with what it said, every
loop with the frames it was entered in, every `break` with the frames
between the loop and the `break`, and every `try` block with the frames before
it and the entries noted for its handlers.  Only the reads are seen by the
user; the others are there to state what the theorems are about. -/
inductive Event (Ty P : Type) where
  | read (l : Nat) (k : Key) (c : Claim Ty)
  | loop (frames : List (Frame Ty)) (body : Stmt Ty P) (target : Option Key)
  | brk (frames : List (Frame Ty))
  | tried (frames : List (Frame Ty)) (entries : List (Entry Ty))

/-- flow_analysis.rs 366-371 (`LoopDetails`). -/
structure LoopDetails (Ty : Type) where
  breaks : List (Frame Ty)
  continues : List (Frame Ty)
  index : Nat

/-- flow_analysis.rs 412-422 (`FlowAnalysis`); `frames` has the top of the
stack first, and so has `tries`. -/
structure St (Ty P : Type) where
  frames : List (Frame Ty)
  tries : List (List (Entry Ty))
  loop : Option (LoopDetails Ty)
  log : List (Event Ty P)

section
variable {Ty P : Type} (O : Ops Ty P)

/-! ### Entries -/

/-- flow_analysis.rs 188-205 (`simplified_union`), without widening. -/
def simplifiedUnion (a b : Entry Ty) : Option Ty :=
  match a.kind, b.kind with
  | some s, some t => some (O.join s t)
  | _, _ => none

/-- flow_analysis.rs 207-237 (`union`, `union_of_refs`). -/
def union (a b : Entry Ty) : Entry Ty :=
  { key := a.key
    kind :=
      match a.deleted, b.deleted with
      | false, true => a.kind
      | true, false => b.kind
      | _, _ => simplifiedUnion O a b
    mods := a.mods || b.mods
    deleted := a.deleted && b.deleted }

/-- flow_analysis.rs 239-247 (`common_sub_type`). -/
def commonSubType (a b : Entry Ty) : Option (Option Ty) :=
  match a.kind with
  | none => some b.kind
  | some s =>
    match b.kind with
    | none => some a.kind
    | some t => (O.meet s t).map some

/-- flow_analysis.rs 171-187 (`with_declaration`), without redefinitions. -/
def withDeclaration (a : Entry Ty) : Entry Ty :=
  { a with kind := none }

/-! ### Frames -/

/-- The entry of a key in a list of entries, flow_analysis.rs 346-348
(`lookup_entry`). -/
def find (k : Key) (es : List (Entry Ty)) : Option (Entry Ty) :=
  es.find? (fun e => decide (e.key = k))

/-- The loops of the form "if there is an entry of that key change it, otherwise
push a new one", flow_analysis.rs 329-337, 696-713, 719-731, 837-847. -/
def upsert (f : Entry Ty → Entry Ty) (new : Entry Ty) : List (Entry Ty) → List (Entry Ty)
  | [] => [new]
  | e :: es => if e.key = new.key then f e :: es else e :: upsert f new es

/-- flow_analysis.rs 362-364 (`invalidate_child_entries`). -/
def invalidate (k : Key) (es : List (Entry Ty)) : List (Entry Ty) :=
  es.filter (fun e => !e.key.isChildOf k)

/-- flow_analysis.rs 350-355 (`from_type`). -/
def fromType (k : Key) (t : Ty) : Frame Ty :=
  if O.never t then Frame.dead else ⟨[⟨k, some t, false, false⟩], false⟩

/-- flow_analysis.rs 339-344 (`from_type_without_entry`). -/
def fromTypeWithoutEntry (t : Ty) : Frame Ty :=
  if O.never t then Frame.dead else Frame.conditional

/-- The first entry of a key in the frames, flow_analysis.rs 564-595. -/
def lookup (frames : List (Frame Ty)) (k : Key) : Option (Entry Ty) :=
  frames.findSome? (fun f => find k f.entries)

/-- flow_analysis.rs 776-800 (`merge_key_with_ancestor_assignment`). -/
def mergeKey (frames : List (Frame Ty)) (e : Entry Ty) : Entry Ty :=
  match lookup frames e.key with
  | some e0 => union O e0 e
  | none => withDeclaration e

/-- What an assignment does to the entries of one `try`,
flow_analysis.rs 684-714. -/
def tryAdd (frames : List (Frame Ty)) (new : Entry Ty) (es : List (Entry Ty)) :
    List (Entry Ty) :=
  let es := invalidate new.key es
  if es.any (fun e => new.key.isChildOf e.key) then es
  else
    let n := mergeKey O frames new
    upsert (fun e => union O e n) n es

/-- What an assignment does to the frame at the top, flow_analysis.rs 720-731. -/
def overwriteTop (new : Entry Ty) (f : Frame Ty) : Frame Ty :=
  { f with entries := upsert (fun _ => new) new (invalidate new.key f.entries) }

/-- flow_analysis.rs 683-731 (`overwrite_entry`). -/
def overwriteEntry (st : St Ty P) (new : Entry Ty) : St Ty P :=
  { st with
    tries := st.tries.map (tryAdd O st.frames new)
    frames :=
      match st.frames with
      | [] => []
      | f :: fs => overwriteTop new f :: fs }

/-- flow_analysis.rs 820-848 (`overwrite_entries`), on the entries of the frame
at the top. -/
def overwriteEntries (new : List (Entry Ty)) (overwritten : Bool) (es : List (Entry Ty)) :
    List (Entry Ty) :=
  new.foldl
    (fun es n => upsert (fun e => { n with mods := n.mods || (e.mods || overwritten) }) n es)
    (new.foldl (fun es n => invalidate n.key es) es)

/-- Changes the frame at the top. -/
def mapTop (g : Frame Ty → Frame Ty) : List (Frame Ty) → List (Frame Ty)
  | [] => []
  | f :: fs => g f :: fs

/-- Changes the frame at the top of a state. -/
def onTop (g : Frame Ty → Frame Ty) (st : St Ty P) : St Ty P :=
  { st with frames := mapTop g st.frames }

/-- flow_analysis.rs 988-992 (`mark_current_frame_unreachable`). -/
def markUnreachable (st : St Ty P) : St Ty P :=
  onTop (fun f => { f with unreachable := true }) st

/-- flow_analysis.rs 597-599 (`is_unreachable`). -/
def isUnreachable (st : St Ty P) : Bool :=
  match st.frames with
  | [] => false
  | f :: _ => f.unreachable

/-- The first entry of a key in a frame no longer counts as one that modifies
ancestors, flow_analysis.rs 669-670 and 1117. -/
def handled (k : Key) : List (Entry Ty) → List (Entry Ty)
  | [] => []
  | e :: es => if e.key = k then { e with mods := false } :: es else e :: handled k es

/-- One step of the loop of flow_analysis.rs 654-681
(`merge_assignments_for_first_frame`). -/
def mergeStep (acc : St Ty P × List (Entry Ty)) (first : Entry Ty) :
    St Ty P × List (Entry Ty) :=
  if first.mods then
    match find first.key acc.2 with
    | some other =>
      (overwriteEntry O acc.1
        (if other.mods then union O first other else union O other first),
       handled first.key acc.2)
    | none => (overwriteEntry O acc.1 (mergeKey O acc.1.frames first), acc.2)
  else acc

/-- flow_analysis.rs 633-652 (`merge_conditional`). -/
def mergeConditional (st : St Ty P) (t f : Frame Ty) : St Ty P :=
  if f.unreachable || t.unreachable then
    if !f.unreachable then
      onTop (fun tos =>
        { tos with entries := overwriteEntries f.entries (!t.entries.isEmpty) tos.entries }) st
    else if !t.unreachable then
      onTop (fun tos =>
        { tos with entries := overwriteEntries t.entries (!f.entries.isEmpty) tos.entries }) st
    else markUnreachable st
  else
    let r := t.entries.foldl (mergeStep O) (st, f.entries)
    (r.2.foldl (mergeStep O) (r.1, t.entries)).1

/-- `add_entry` of flow_analysis.rs 1102-1105. -/
def orAdd (frames : List (Frame Ty)) (acc : List (Entry Ty)) (e : Entry Ty) :
    List (Entry Ty) :=
  invalidate e.key acc ++ [mergeKey O frames e]

/-- One step of the loop over the first frame, flow_analysis.rs 1106-1134. -/
def orStepX (frames : List (Frame Ty)) (optional : Bool)
    (acc : List (Entry Ty) × List (Entry Ty)) (x : Entry Ty) :
    List (Entry Ty) × List (Entry Ty) :=
  match find x.key acc.2 with
  | some y => (acc.1 ++ [union O x y], handled x.key acc.2)
  | none =>
    if x.mods then
      if optional then (acc.1 ++ [x], acc.2) else (orAdd O frames acc.1 x, acc.2)
    else acc

/-- One step of the loop over the second frame, flow_analysis.rs 1135-1146. -/
def orStepY (frames : List (Frame Ty)) (acc : List (Entry Ty)) (y : Entry Ty) :
    List (Entry Ty) :=
  if y.mods && !acc.any (fun e => y.key.isChildOf e.key) then orAdd O frames acc y else acc

/-- flow_analysis.rs 1087-1149 (`merge_or`). -/
def mergeOr (frames : List (Frame Ty)) (x y : Frame Ty) (optional : Bool) : Frame Ty :=
  if x.unreachable then y
  else if y.unreachable then x
  else
    let r := x.entries.foldl (orStepX O frames optional) ([], y.entries)
    ⟨r.2.foldl (orStepY O frames) r.1, false⟩

/-- The inner loop of flow_analysis.rs 1191-1207, for one entry of the second
frame. -/
def andStep (x : Frame Ty) (y : Entry Ty) : Frame Ty :=
  match find y.key x.entries with
  | none => { x with entries := x.entries ++ [y] }
  | some xe =>
    if y.mods then { x with entries := upsert (fun _ => y) y x.entries }
    else
      match commonSubType O xe y with
      | some t => { x with entries := upsert (fun e => { e with kind := t }) y x.entries }
      | none =>
        { entries := upsert (fun e => { e with kind := some O.bottom }) y x.entries
          unreachable := true }

/-- flow_analysis.rs 1182-1212 (`merge_and`). -/
def mergeAnd (x y : Frame Ty) : Frame Ty :=
  if x.unreachable then x
  else if y.unreachable then y
  else y.entries.foldl (andStep O) x

/-- flow_analysis.rs 976-986 (`merge_frames_for_index`), given the frames from
that index on. -/
def mergeFrames (frames : List (Frame Ty)) : Frame Ty :=
  ⟨frames.foldl
    (fun es f => f.entries.foldl
      (fun es e => if (find e.key es).isSome then es else es ++ [e]) es) [], false⟩

/-! ### Reads -/

/-- flow_analysis.rs 4913-4941 (`maybe_has_primary_entry`). -/
def primaryEntry (k : Key) : List (Frame Ty) → Option (Entry Ty)
  | [] => none
  | f :: fs =>
    match find k f.entries with
    | some e => some e
    | none =>
      if f.entries.any (fun e => e.mods && k.isChildOf e.key) then none
      else primaryEntry k fs

/-- flow_analysis.rs 1731-1753 (`maybe_lookup_narrowed_name`,
`maybe_lookup_narrowed_primary`) and the type of the declaration otherwise. -/
def readClaim (frames : List (Frame Ty)) (k : Key) : Claim Ty :=
  match k with
  | .name _ =>
    match lookup frames k with
    | none => .typ (O.decl k)
    | some e => if e.deleted then .deleted else .typ (e.kind.getD (O.decl k))
  | .sub _ _ =>
    match primaryEntry k frames with
    | none => .typ (O.decl k)
    | some e => .typ (e.kind.getD (O.decl k))

/-- The type of an expression; reading a deleted name gives an error. -/
def exprType (frames : List (Frame Ty)) : Expr Ty → Ty
  | .opaque t => t
  | .key k =>
    match readClaim O frames k with
    | .typ t => t
    | .deleted => O.error

/-! ### Conditions -/

/-- flow_analysis.rs 1947-1960 (`save_narrowed`). -/
def saveNarrowed (st : St Ty P) (k : Key) (t : Ty) : St Ty P :=
  overwriteEntry O st ⟨k, some t, true, false⟩

/-- flow_analysis.rs 932-942 (`with_frame`, `with_frame_and_result`). -/
def withFrame (f : Frame Ty) (g : St Ty P → St Ty P) (st : St Ty P) : Frame Ty × St Ty P :=
  let st' := g { st with frames := f :: st.frames }
  (st'.frames.headD Frame.conditional, { st' with frames := st'.frames.tail })

/-- `Frame::overwrite_entry`, flow_analysis.rs 329-337. -/
def frameOverwrite (f : Frame Ty) (e : Entry Ty) : Frame Ty :=
  { f with entries := upsert (fun _ => e) e f.entries }

/-- The frames of a test of an expression, flow_analysis.rs 4008-4037 and
4044-4065. -/
def exprGuards (frames : List (Frame Ty)) (e : Expr Ty) (p : P) : Frame Ty × Frame Ty :=
  match O.split p (exprType O frames e) with
  | none => (Frame.conditional, Frame.conditional)
  | some (a, b) =>
    match e with
    | .opaque _ => (fromTypeWithoutEntry O a, fromTypeWithoutEntry O b)
    | .key k => (fromType O k a, fromType O k b)

/-- The walrus of flow_analysis.rs 3895-3964: the entries that are added to the
frames of its value. -/
def walrusGuards (st : St Ty P) (n : Nat) (e : Expr Ty) (p : P) : St Ty P × Frame Ty × Frame Ty :=
  let g := exprGuards O st.frames e p
  let t := exprType O st.frames e
  let w := withFrame Frame.conditional (fun s => saveNarrowed O s (.name n) t) st
  match O.split p t with
  | some (a, b) =>
    (w.2, frameOverwrite g.1 ⟨.name n, some a, true, false⟩,
      frameOverwrite g.2 ⟨.name n, some b, false, false⟩)
  | none =>
    (w.2, w.1.entries.foldl frameOverwrite g.1, w.1.entries.foldl frameOverwrite g.2)

/-- The frames when a condition holds and when it does not.
flow_analysis.rs 3888-3985 (`find_guards_in_named_expr`), 4039-4174
(`find_guards_in_expression_parts_inner`), 2889-2945 (`check_conjunction`),
2957-3021 (`check_disjunction`), 1151-1168 (`merge_conjunction`). -/
def guards : Cond Ty P → St Ty P → St Ty P × Frame Ty × Frame Ty
  | .expr t p, st => (st, exprGuards O st.frames (.opaque t) p)
  | .test k p, st => (st, exprGuards O st.frames (.key k) p)
  | .not c, st =>
    let g := guards c st
    (g.1, g.2.2, g.2.1)
  | .and c d, st =>
    let l := guards c st
    if l.2.1.unreachable then
      (l.1, mergeAnd O l.2.1 Frame.conditional,
        mergeOr O l.1.frames l.2.2 Frame.conditional true)
    else
      let r := guards d { l.1 with frames := l.2.1 :: l.1.frames }
      let left := r.1.frames.headD Frame.conditional
      let st' := { r.1 with frames := r.1.frames.tail }
      (st', mergeAnd O left r.2.1, mergeOr O st'.frames l.2.2 r.2.2 true)
  | .or c d, st =>
    let l := guards c st
    if l.2.2.unreachable then
      (l.1, mergeOr O l.1.frames l.2.1 Frame.conditional true,
        mergeAnd O l.2.2 Frame.conditional)
    else
      let r := guards d { l.1 with frames := l.2.2 :: l.1.frames }
      let left := r.1.frames.headD Frame.conditional
      let st' := { r.1 with frames := r.1.frames.tail }
      (st', mergeOr O st'.frames l.2.1 r.2.1 true, mergeAnd O left r.2.2)
  | .walrus n e p, st => walrusGuards O st n e p

/-! ### Statements -/

/-- flow_analysis.rs 850-853 (`overwrite_frame`). -/
def overwriteFrame (st : St Ty P) (new : Frame Ty) : St Ty P :=
  onTop (fun tos =>
    ⟨overwriteEntries new.entries false tos.entries, tos.unreachable || new.unreachable⟩) st

/-- flow_analysis.rs 811-818 (`remove_key_if_modifies_ancestors`). -/
def removeIfMods (k : Key) (st : St Ty P) : St Ty P :=
  onTop (fun f =>
    { f with entries := f.entries.filter (fun e => !e.mods || !decide (e.key = k)) }) st

/-- The frames from an index (counted from the bottom) on, top first. -/
def above (n : Nat) (frames : List (Frame Ty)) : List (Frame Ty) :=
  frames.take (frames.length - n)

/-- flow_analysis.rs 2210-2222 (`flow_analysis_for_break_stmt`). -/
def breakStmt (st : St Ty P) : St Ty P :=
  match st.loop with
  | none => st
  | some l =>
    markUnreachable { st with
      loop := some { l with breaks := l.breaks ++ [mergeFrames (above l.index st.frames)] }
      log := st.log ++ [.brk (above l.index st.frames)] }

/-- flow_analysis.rs 2224-2236 (`flow_analysis_for_continue_stmt`). -/
def continueStmt (st : St Ty P) : St Ty P :=
  match st.loop with
  | none => st
  | some l =>
    markUnreachable { st with
      loop := some { l with
        continues := l.continues ++ [mergeFrames (above l.index st.frames)] } }

/-- flow_analysis.rs 963-974 (`with_new_loop_frame`). -/
def withLoopFrame (f : Frame Ty) (g : St Ty P → St Ty P) (st : St Ty P) :
    Frame Ty × LoopDetails Ty × St Ty P :=
  let r := withFrame f g { st with loop := some ⟨[], [], st.frames.length⟩ }
  (r.1, r.2.loop.getD ⟨[], [], 0⟩, { r.2 with loop := st.loop })

/-- The rest of flow_analysis.rs 2169-2208 (`process_loop`), from the frames of
the condition on. -/
def processLoop (cond : Bool) (truthy falsey : Frame Ty) (body orelse : St Ty P → St Ty P)
    (st : St Ty P) : St Ty P :=
  let b := withLoopFrame truthy body st
  let st1 := b.2.2
  let after := b.2.1.continues.foldl (fun a c => mergeOr O st1.frames a c false) b.1
  let after := if cond then mergeAnd O after falsey else after
  let after := mergeOr O st1.frames falsey after false
  let e := withFrame after orelse st1
  let after := b.2.1.breaks.foldl (fun a c => mergeOr O e.2.frames a c false) e.1
  mergeConditional O e.2 after Frame.dead

/-- flow_analysis.rs 951-961 (`with_new_try_frame`) around the frame of the
block: the frame at its end, the entries of the `try`, and the state. -/
def withTryFrame (g : St Ty P → St Ty P) (st : St Ty P) : Frame Ty × Frame Ty × St Ty P :=
  let r := withFrame Frame.conditional g { st with tries := [] :: st.tries }
  (r.1, ⟨r.2.tries.headD [], false⟩,
    { r.2 with
      tries := r.2.tries.tail
      log := r.2.log ++ [.tried st.frames (r.2.tries.headD [])] })

/-- One `except` block, flow_analysis.rs 2521-2577 (`check_block`). -/
def handlerStep (start : Frame Ty) (acc : Frame Ty × St Ty P) (h : St Ty P → St Ty P) :
    Frame Ty × St Ty P :=
  let r := withFrame start h acc.2
  (mergeOr O r.2.frames r.1 acc.1 false, r.2)

/-- The `else` block of a `try`, flow_analysis.rs 2619-2637: what `after_ok`
becomes.  The frame of the `try` is dropped. -/
def tryElse (tried : Frame Ty) (orelse : St Ty P → St Ty P) (st : St Ty P) :
    Frame Ty × St Ty P :=
  let start := if tried.unreachable then Frame.dead else Frame.conditional
  let r := withFrame start orelse { st with frames := tried :: st.frames }
  (mergeOr O r.2.frames Frame.dead r.1 false, { r.2 with frames := r.2.frames.tail })

/-- flow_analysis.rs 2444-2479 (`flow_analysis_for_try_stmt`): the end, with the
`finally` block. -/
def tryEnd (ok exc : Frame Ty) (fin : St Ty P → St Ty P) (st : St Ty P) : St Ty P :=
  let st := mergeConditional O st ok exc
  if isUnreachable st then
    markUnreachable
      (fin (onTop (fun f => { f with unreachable := false }) st))
  else fin st

/-- A statement that is not reachable is not analysed, diagnostics.rs 396-424
(without the language server). -/
def whenReachable (g : St Ty P → St Ty P) (st : St Ty P) : St Ty P :=
  if isUnreachable st then st else g st

/-- Analysing a statement, diagnostics.rs 428-546 (`handle_stmt_like`). -/
def analyse : Stmt Ty P → St Ty P → St Ty P
  | .skip => fun st => st
  | .read l k => whenReachable fun st =>
      { st with log := st.log ++ [.read l k (readClaim O st.frames k)] }
  | .assign k e => whenReachable fun st => saveNarrowed O st k (exprType O st.frames e)
  | .untyped k => whenReachable (removeIfMods k)
  | .del n => whenReachable fun st => overwriteEntry O st ⟨.name n, some O.error, true, true⟩
  | .assert c => whenReachable fun st =>
      let g := guards O c st
      overwriteFrame g.1 g.2.1
  | .leave => whenReachable markUnreachable
  | .raise => whenReachable markUnreachable
  | .brk => whenReachable breakStmt
  | .cont => whenReachable continueStmt
  | .seq a b => fun st => analyse b (analyse a st)
  | .ite c a b => whenReachable fun st =>
      let g := guards O c st
      let t := withFrame g.2.1 (analyse a) g.1
      let f := withFrame g.2.2 (analyse b) t.2
      mergeConditional O f.2 t.1 f.1
  | .whileS c b e => whenReachable fun st =>
      let g := guards O c st
      processLoop O true g.2.1 g.2.2 (analyse b) (analyse e)
        { g.1 with log := g.1.log ++ [.loop g.1.frames b none] }
  | .forS k t b e => whenReachable fun st =>
      processLoop O false Frame.conditional Frame.conditional
        (fun s => analyse b (saveNarrowed O s k t)) (analyse e)
        { st with log := st.log ++ [.loop st.frames b (some k)] }
  | .guarded b => whenReachable fun st =>
      let r := withTryFrame (analyse b) st
      onTop (fun tos =>
        { tos with entries := overwriteEntries r.2.1.entries false tos.entries }) r.2.2
  | .tryS b n hs he e f => whenReachable fun st =>
      let r := withTryFrame (analyse b) st
      let h := (List.finRange n).foldl
        (fun acc i => handlerStep O r.2.1 acc (analyse (hs i))) (Frame.dead, r.2.2)
      if he then
        let o := tryElse O r.1 (analyse e) h.2
        tryEnd O o.1 h.1 (analyse f) o.2
      else
        tryEnd O (mergeOr O h.2.frames r.1 Frame.dead false) h.1 (analyse f) h.2

/-- The state at the start of a function, flow_analysis.rs 855-867
(`with_new_func_frame_and_return_unreachable`). -/
def start : St Ty P := ⟨[⟨[], false⟩], [], none, []⟩

/-- Analysing the body of a function: what is noted down on the way, and whether
its end is unreachable.  flow_analysis.rs 855-867, diagnostics.rs 1510-1530. -/
def analyseFunction (s : Stmt Ty P) : List (Event Ty P) × Bool :=
  let st := analyse O s start
  (st.log, isUnreachable st)

end
end Verif.Flow
