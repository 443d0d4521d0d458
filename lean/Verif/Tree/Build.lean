import Verif.Tree.Lemmas

/-!
# The parser's stack writes the array of the tree (C60)
-/

namespace Verif.Tree

mutual
/-- The nodes of the spine while they are open, and the first token. -/
def Deriv.opened : Deriv → List Node
  | .leaf k s l => [⟨0, true, k, s, l⟩]
  | .node k opt f _ => (if opt then [] else [⟨0, false, k, f.firstToken.start, 0⟩]) ++ f.opened
def Derivs.opened : Derivs → List Node
  | .one t => t.opened
  | .cons t _ => t.opened
end

/-- Where the first child is stored. -/
def childPos (opt : Bool) (p : Nat) : Nat := if opt then p else p + 1

mutual
/-- The frames of the spine, if the tree is stored at `p`. -/
def Deriv.frames : Deriv → Nat → List Frame
  | .leaf .., _ => []
  | .node k opt f _, p => f.frames (childPos opt p) ++ [⟨p, childPos opt p, k, opt, 1⟩]
def Derivs.frames : Derivs → Nat → List Frame
  | .one t, p => t.frames p
  | .cons t _, p => t.frames p
end

def bump : List Frame → List Frame
  | [] => []
  | f :: fs => { f with count := f.count + 1 } :: fs

theorem countChild_frames (s : Stack) : s.countChild = ⟨bump s.frames, s.nodes⟩ := by
  unfold Stack.countChild bump
  cases h : s.frames with
  | nil => cases s; simp at h; subst h; rfl
  | cons f fs => rfl

mutual
theorem Deriv.open_spine : ∀ (t : Deriv) (frs : List Frame) (nodes : List Node) (start : Nat), t.firstToken.start = start →
    (t.spine.foldl (fun (s : Stack) k => s.push k.1 k.2 start) ⟨frs, nodes⟩).countChild.frames = t.frames nodes.length ++ bump frs ∧
    (t.spine.foldl (fun (s : Stack) k => s.push k.1 k.2 start) ⟨frs, nodes⟩).countChild.nodes ++
      [⟨0, true, t.firstToken.kind, start, t.firstToken.length⟩] = nodes ++ t.opened
  | .leaf .., frs, nodes, start, h => by
    rw [Deriv.spine, List.foldl_nil, countChild_frames]
    refine ⟨rfl, ?_⟩
    rw [← h]
    rfl
  | .node k opt f ls, frs, nodes, start, h => by
    rw [Deriv.firstToken] at h
    have hf := Derivs.open_spine f (⟨nodes.length, childPos opt nodes.length, k, opt, 0⟩ :: bump frs)
      (nodes ++ (if opt then [] else [⟨0, false, k, start, 0⟩])) start h
    rw [Deriv.spine, List.foldl_cons, Deriv.frames, Deriv.opened, Deriv.firstToken]
    have e : Stack.push (Stack.mk frs nodes) k opt start =
        ⟨⟨nodes.length, childPos opt nodes.length, k, opt, 0⟩ :: bump frs, nodes ++ (if opt then [] else [⟨0, false, k, start, 0⟩])⟩ := by
      unfold Stack.push
      rw [countChild_frames]
      cases opt <;> simp [childPos]
    have el : (nodes ++ (if opt then [] else [Node.mk 0 false k start 0])).length = childPos opt nodes.length := by
      cases opt <;> simp [childPos]
    rw [el] at hf
    simp only [e]
    refine ⟨?_, ?_⟩
    · rw [hf.1]; simp [bump]
    · rw [hf.2, h]; simp
theorem Derivs.open_spine : ∀ (f : Derivs) (frs : List Frame) (nodes : List Node) (start : Nat), f.firstToken.start = start →
    (f.spine.foldl (fun (s : Stack) k => s.push k.1 k.2 start) ⟨frs, nodes⟩).countChild.frames = f.frames nodes.length ++ bump frs ∧
    (f.spine.foldl (fun (s : Stack) k => s.push k.1 k.2 start) ⟨frs, nodes⟩).countChild.nodes ++
      [⟨0, true, f.firstToken.kind, start, f.firstToken.length⟩] = nodes ++ f.opened
  | .one t, frs, nodes, start, h => Deriv.open_spine t frs nodes start h
  | .cons t _, frs, nodes, start, h => Deriv.open_spine t frs nodes start h
end

theorem run_append (s : Stack) (a b : List Step) : s.run (a ++ b) = (s.run a).bind (·.run b) := by
  induction a generalizing s with
  | nil => rfl
  | cons e a ih =>
    simp only [List.cons_append, Stack.run]
    cases s.step e with
    | none => rfl
    | some s => exact ih s

theorem modify_append_length (A : List Node) (n : Node) (B : List Node) (g : Node → Node) :
    (A ++ n :: B).modify A.length g = A ++ g n :: B := by
  induction A with
  | nil => rfl
  | cons a A ih => simp [ih]

theorem insert_append_length (A : List Node) (n : Node) (B : List Node) :
    (A ++ B).insertIdx A.length n = A ++ n :: B := by
  induction A with
  | nil => cases B <;> rfl
  | cons a A ih => simp [ih]

/-- Linking the latest child and opening the spine of a forest. -/
theorem link_open (f : Derivs) (s : Stack) (left : Bool) (fr : Frame) (frs : List Frame) (N : List Node) (t : Tree)
    (hX : s.reopen left = some ⟨fr :: frs, N ++ t.flat 0⟩) (hN : N.length = fr.latestChild) (hne : N.length ≠ 0) :
    s.applyPlan left f.spine f.firstToken =
      some ⟨f.frames (N.length + t.size) ++ { fr with latestChild := N.length + t.size, count := fr.count + 1 } :: frs,
        N ++ t.flat t.size ++ f.opened⟩ := by
  have hb := t.below_length
  simp only [Stack.applyPlan, hX, Option.bind_some, Stack.calculatePreviousNextNode]
  rw [if_pos (by omega)]
  have hlen : (N ++ t.flat 0).length = N.length + t.size := by rw [List.length_append, Tree.flat_length]
  have hm : (N ++ t.flat 0).modify fr.latestChild (fun n => { n with offset := (N ++ t.flat 0).length - fr.latestChild }) = N ++ t.flat t.size := by
    rw [hlen, ← hN, Tree.flat_eq, Tree.flat_eq, modify_append_length]
    rw [show N.length + t.size - N.length = t.size by omega]
    rfl
  rw [hm, hlen]
  have h := f.open_spine ({ fr with latestChild := N.length + t.size } :: frs) (N ++ t.flat t.size) _ rfl
  rw [List.length_append, Tree.flat_length] at h
  simp only [Option.map_some, Stack.addToken]
  rw [h.1, h.2]
  rfl

/-- The tree of a node that may lack its length. -/
def Pre (t : Tree) (T : List Node) : Prop :=
  ∃ n, T = n :: t.nodesBelow ∧ n.start = t.start ∧ { n with length := t.stop - t.start } = t.head 0 ∧
    ∃ m, T.getLast? = some m ∧ m.stop = t.stop

theorem pre_flat (t : Tree) : Pre t (t.flat 0) := by
  obtain ⟨m, h1, -, h2⟩ := t.flat_last 0
  exact ⟨t.head 0, t.flat_eq 0, rfl, rfl, m, h1, h2⟩

theorem pre_node (k : Nat) (f : Forest) (s : Nat) (hs : s = f.start) : Pre (.node k f) (⟨0, false, k, s, 0⟩ :: f.flat) := by
  obtain ⟨m, h1, -, h2⟩ := f.flat_last
  refine ⟨_, rfl, hs, ?_, m, ?_, h2⟩
  · subst hs; rfl
  · rw [List.getLast?_cons, h1]; rfl

theorem update_pre {t : Tree} {T : List Node} (h : Pre t T) (N : List Node) (fr : Frame) (hf : fr.treeNode = N.length) :
    updatePosition (N ++ T) fr = some (N ++ t.flat 0) := by
  obtain ⟨n, rfl, hs, h1, m, h2, h3⟩ := h
  unfold updatePosition
  have : (N ++ n :: t.nodesBelow).getLast? = some m := by rw [List.getLast?_append, h2]; rfl
  rw [this]
  simp only
  rw [if_pos (by rw [hf]; simp), hf, modify_append_length, h3]
  simp only [hs] at h1 ⊢
  rw [h1, Tree.flat_eq]

theorem insert_flat (t : Tree) (N : List Node) (fr : Frame) (hf : fr.treeNode = N.length) :
    insertNode (N ++ t.flat 0) fr = some (N ++ [⟨0, false, fr.kind, t.start, 0⟩] ++ t.flat 0) := by
  unfold insertNode
  have : (N ++ t.flat 0)[fr.treeNode]? = some (t.head 0) := by rw [hf, Tree.flat_eq]; simp
  rw [this, hf]
  simp only
  rw [insert_append_length]
  simp [Tree.head]

mutual
theorem Deriv.start_eq : ∀ t : Deriv, t.tree.start = t.firstToken.start
  | .leaf .. => rfl
  | .node k opt f ls => by
    have hf := Derivs.start_eq f
    rw [Deriv.firstToken]
    cases opt <;> cases f <;> rw [Deriv.tree.eq_def] <;> simp only <;> rw [Lefts.wrap_start] <;> exact hf
theorem Derivs.start_eq : ∀ f : Derivs, f.forest.start = f.firstToken.start
  | .one t => Deriv.start_eq t
  | .cons t _ => Deriv.start_eq t
theorem Lefts.wrap_start (k : Nat) (t : Tree) : ∀ ls : Lefts, (ls.wrap k t).start = t.start
  | .nil => rfl
  | .cons f ls => by rw [Lefts.wrap, Lefts.wrap_start]; rfl
end

/-- The base of a node: its tree before the left recursions. -/
def base (k : Nat) (opt : Bool) (f : Derivs) : Tree :=
  match opt, f with
  | true, .one t => t.tree
  | _, f => .node k f.forest

mutual
theorem Deriv.run_rest : ∀ (t : Deriv) (frs : List Frame) (nodes : List Node), nodes.length ≠ 0 →
    Stack.run ⟨t.frames nodes.length ++ frs, nodes ++ t.opened⟩ t.rest = some ⟨frs, nodes ++ t.tree.flat 0⟩
  | .leaf k s l, frs, nodes, _ => by
    simp [Deriv.rest, Stack.run, Deriv.frames, Deriv.opened, Tree.flat, Tree.head, Tree.isLeaf, Tree.kind, Tree.start, Tree.stop, Deriv.tree]
  | .node k opt f ls, frs, nodes, hne => by
    have hbase : ∃ last c T, Pre (base k opt f) T ∧
        Stack.run ⟨f.frames (childPos opt nodes.length) ++ ⟨nodes.length, childPos opt nodes.length, k, opt, 1⟩ :: frs,
          nodes ++ (Deriv.node k opt f ls).opened⟩ f.rest = some ⟨⟨nodes.length, last, k, opt, c⟩ :: frs, nodes ++ T⟩ := by
      cases opt with
      | false =>
        obtain ⟨last, c, -, h⟩ := Derivs.run_rest f ⟨nodes.length, nodes.length + 1, k, false, 1⟩ frs
          (nodes ++ [⟨0, false, k, f.firstToken.start, 0⟩]) (by simp) (by simp) (by simp)
        refine ⟨last, c, _, pre_node k f.forest f.firstToken.start (Derivs.start_eq f).symm, ?_⟩
        rw [List.length_append, List.length_singleton] at h
        have e1 : childPos false nodes.length = nodes.length + 1 := rfl
        have e2 : nodes ++ (Deriv.node k false f ls).opened = nodes ++ [⟨0, false, k, f.firstToken.start, 0⟩] ++ f.opened := by
          simp [Deriv.opened]
        rw [e1, e2, h]
        simp
      | true =>
        have e1 : childPos true nodes.length = nodes.length := rfl
        have e2 : (Deriv.node k true f ls).opened = f.opened := by simp [Deriv.opened]
        rw [e1, e2]
        match f with
        | .one t =>
          refine ⟨nodes.length, 1, _, pre_flat t.tree, ?_⟩
          exact Deriv.run_rest t (⟨nodes.length, nodes.length, k, true, 1⟩ :: frs) nodes hne
        | .cons t f =>
          have ht := Deriv.run_rest t (⟨nodes.length, nodes.length, k, true, 1⟩ :: frs) nodes hne
          obtain ⟨last, c, -, h⟩ := Derivs.run_rest f ⟨nodes.length, nodes.length + 1 + t.tree.size, k, true, 2⟩ frs
            (nodes ++ [⟨0, false, k, t.tree.start, 0⟩] ++ t.tree.flat t.tree.size)
            (by simp only [List.length_append, List.length_singleton, Tree.flat_length]) (by simp) (by simp)
          refine ⟨last, c, ⟨0, false, k, t.tree.start, 0⟩ :: (Forest.cons t.tree f.forest).flat, ?_, ?_⟩
          · exact pre_node k (.cons t.tree f.forest) t.tree.start rfl
          · rw [Derivs.rest, run_append, Derivs.frames, Derivs.opened, ht]
            simp only [Option.bind_some, Stack.run, Stack.step]
            have hr : Stack.reopen ⟨⟨nodes.length, nodes.length, k, true, 1⟩ :: frs, nodes ++ t.tree.flat 0⟩ false =
                some ⟨⟨nodes.length, nodes.length + 1, k, true, 1⟩ :: frs, nodes ++ [⟨0, false, k, t.tree.start, 0⟩] ++ t.tree.flat 0⟩ := by
              simp only [Stack.reopen]
              rw [if_neg (by decide), if_pos (by simp), insert_flat _ _ _ rfl]
              rfl
            rw [link_open f _ false _ _ _ _ hr (by simp) (by simp)]
            simp only [Option.bind_some, List.length_append, List.length_singleton, Tree.flat_length] at h ⊢
            rw [h]
            simp [Forest.flat]
    obtain ⟨last, c, T, hT, hrun⟩ := hbase
    have hl := Lefts.run_rest ls nodes.length last k opt c frs nodes T (base k opt f) hT rfl hne
    rw [Deriv.rest, run_append, Deriv.frames, List.append_assoc, List.singleton_append, hrun, Option.bind_some, hl]
    have e : (Deriv.node k opt f ls).tree = ls.wrap k (base k opt f) := by
      cases opt <;> cases f <;> rw [Deriv.tree.eq_def] <;> rfl
    rw [e]
theorem Derivs.run_rest : ∀ (f : Derivs) (fr : Frame) (frs : List Frame) (nodes : List Node), nodes.length = fr.latestChild →
    nodes.length ≠ 0 → (fr.opt = true → 2 ≤ fr.count) →
    ∃ last c, (fr.opt = true → 2 ≤ c) ∧ Stack.run ⟨f.frames nodes.length ++ fr :: frs, nodes ++ f.opened⟩ f.rest =
      some ⟨⟨fr.treeNode, last, fr.kind, fr.opt, c⟩ :: frs, nodes ++ f.forest.flat⟩
  | .one t, fr, frs, nodes, _, hne, hc => ⟨fr.latestChild, fr.count, hc, Deriv.run_rest t (fr :: frs) nodes hne⟩
  | .cons t f, fr, frs, nodes, hl, hne, hc => by
    have ht := Deriv.run_rest t (fr :: frs) nodes hne
    obtain ⟨last, c, hc', hf⟩ := Derivs.run_rest f { fr with latestChild := nodes.length + t.tree.size, count := fr.count + 1 } frs
      (nodes ++ t.tree.flat t.tree.size) (by rw [List.length_append, Tree.flat_length]) (by rw [List.length_append]; omega)
      (by intro h; have := hc h; simp only; omega)
    refine ⟨last, c, hc', ?_⟩
    rw [Derivs.rest, run_append, Derivs.frames, Derivs.opened, ht]
    simp only [Option.bind_some, Stack.run, Stack.step]
    have hr : Stack.reopen ⟨fr :: frs, nodes ++ t.tree.flat 0⟩ false = some ⟨fr :: frs, nodes ++ t.tree.flat 0⟩ := by
      simp only [Stack.reopen]
      rw [if_neg (by decide), if_neg]
      rintro ⟨h1, h2⟩
      have := hc h1
      omega
    rw [link_open f _ false _ _ _ _ hr hl hne]
    simp only [Option.bind_some]
    rw [List.length_append, Tree.flat_length] at hf
    rw [hf, Derivs.forest, Forest.flat, List.append_assoc]
theorem Lefts.run_rest : ∀ (ls : Lefts) (p last k : Nat) (opt : Bool) (c : Nat) (frs : List Frame) (nodes T : List Node) (t : Tree),
    Pre t T → p = nodes.length → nodes.length ≠ 0 →
    Stack.run ⟨⟨p, last, k, opt, c⟩ :: frs, nodes ++ T⟩ (ls.rest ++ [.pop]) = some ⟨frs, nodes ++ (ls.wrap k t).flat 0⟩
  | .nil, p, last, k, opt, c, frs, nodes, T, t, hT, hp, hne => by
    simp only [Lefts.rest, List.nil_append, Stack.run, Stack.step, Stack.popNormal]
    rw [update_pre hT nodes _ hp]
    rfl
  | .cons f ls, p, last, k, opt, c, frs, nodes, T, t, hT, hp, hne => by
    obtain ⟨last', c', -, hf⟩ := Derivs.run_rest f ⟨p, nodes.length + 1 + t.size, k, opt, 2⟩ frs
      (nodes ++ [⟨0, false, k, t.start, 0⟩] ++ t.flat t.size)
      (by simp only [List.length_append, List.length_singleton, Tree.flat_length]) (by simp) (by simp)
    have hpre : Pre (.node k (.cons t f.forest)) (⟨0, false, k, t.start, 0⟩ :: (Forest.cons t f.forest).flat) :=
      pre_node k (.cons t f.forest) t.start rfl
    have hl := Lefts.run_rest ls p last' k opt c' frs nodes _ _ hpre hp hne
    have hr : Stack.reopen ⟨⟨p, last, k, opt, c⟩ :: frs, nodes ++ T⟩ true =
        some ⟨⟨p, nodes.length + 1, k, opt, 1⟩ :: frs, nodes ++ [⟨0, false, k, t.start, 0⟩] ++ t.flat 0⟩ := by
      simp only [Stack.reopen]
      rw [if_pos trivial, update_pre hT nodes _ hp]
      simp only [Option.bind_some]
      rw [insert_flat t nodes _ hp, hp]
      rfl
    rw [Lefts.rest, List.cons_append, Stack.run, Stack.step, link_open f _ true _ _ _ _ hr (by simp) (by simp), Option.bind_some]
    rw [show f.rest ++ ls.rest ++ [Step.pop] = f.rest ++ (ls.rest ++ [Step.pop]) from List.append_assoc .., run_append]
    simp only [List.length_append, List.length_singleton, Tree.flat_length] at hf ⊢
    rw [hf, Option.bind_some, Lefts.wrap, ← hl]
    simp [Forest.flat]
end

/-- C60: reading the tokens of a file with the moves of the parser leaves the array of the tree, and an empty stack. -/
theorem build (k : Nat) (f : Derivs) : (Stack.new k).run (f.steps ++ [.pop]) = some ⟨[], stored k f.forest⟩ := by
  obtain ⟨last, c, -, h⟩ := Derivs.run_rest f ⟨0, 1, k, false, 1⟩ [] [⟨0, false, k, 0, 0⟩] rfl (by simp) (by simp)
  have ho := f.open_spine [⟨0, 1, k, false, 0⟩] [⟨0, false, k, 0, 0⟩] _ rfl
  have hp : (Stack.new k).applyPlan false f.spine f.firstToken =
      some ⟨f.frames 1 ++ [⟨0, 1, k, false, 1⟩], [⟨0, false, k, 0, 0⟩] ++ f.opened⟩ := by
    simp only [Stack.applyPlan, Stack.reopen, Stack.new]
    rw [if_neg (by decide), if_neg (by simp)]
    simp only [Stack.calculatePreviousNextNode, Option.bind_some, List.length_singleton, ne_eq, not_true_eq_false, if_false,
      Option.map_some, Stack.addToken] at ho ⊢
    rw [ho.1, ho.2]
    rfl
  rw [run_append, Derivs.steps, Stack.run, Stack.step, hp, Option.bind_some]
  rw [List.length_singleton] at h
  rw [h]
  obtain ⟨n, h1, -, h3⟩ := f.forest.flat_last
  have hlast : ([Node.mk 0 false k 0 0] ++ f.forest.flat).getLast? = some n := by rw [List.getLast?_append, h1]; rfl
  simp only [Option.bind_some, Stack.run, Stack.step, Stack.popNormal, updatePosition, hlast]
  simp [stored, h3]

/-- A derivation with a left recursion (`a + b + c`, rule 2) inside rules that are left out (3) or not (1). -/
def derivation : Derivs :=
  .one (.node 1 false (.one (.node 3 true (.one (.node 2 true (.one (.leaf 9 0 1))
    (.cons (.cons (.leaf 8 2 1) (.one (.leaf 9 4 1))) (.cons (.cons (.leaf 8 6 1) (.one (.leaf 9 8 1))) .nil)))) .nil)) .nil)

example : (Stack.new 0).run (derivation.steps ++ [.pop]) = some ⟨[],
    [⟨0, false, 0, 0, 9⟩, ⟨0, false, 1, 0, 9⟩, ⟨0, false, 2, 0, 9⟩, ⟨4, false, 2, 0, 5⟩, ⟨1, true, 9, 0, 1⟩, ⟨1, true, 8, 2, 1⟩,
     ⟨0, true, 9, 4, 1⟩, ⟨1, true, 8, 6, 1⟩, ⟨0, true, 9, 8, 1⟩]⟩ := by decide +kernel

end Verif.Tree
