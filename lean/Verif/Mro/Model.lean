/-!
# Method resolution order

Model of `linearize_mro_and_return_linearizable`,
`crates/zuban_python/src/file/type_computation/class.rs` 2077-2249.

A base is given by its class and the method resolution order stored for it (without the class
itself and without `object`, as in the code).  Classes are not generic: `to_base_kind` compares the
classes, the remapping of type variables (2098-2139) is the identity and the comparison of
type arguments (2197-2211) always succeeds.  Tuples and named tuples, which put an additional type
into the list (2150-2153), are not modelled.
-/

namespace Verif.Mro

variable {C : Type} [DecidableEq C]

/-- The iterators of line 2146-2172: the base itself, then its stored order, enumerated. -/
def iterators (bases : List (C × List C)) : List (List (C × Nat)) :=
  bases.map fun (b, mro) => (b :: mro).zipIdx

/-- `conflicts`, 2181-2186: the candidate is behind the first place of some iterator. -/
def conflicts (its : List (List (C × Nat))) (c : C) : Bool :=
  its.any fun it => it.tail.any fun other => other.1 == c

/-- The `for` loop over the allowed iterators, 2178-2222: the first head without conflicts.
`its` are all iterators, the recursion goes over the allowed ones. -/
def findCandidate (its : List (List (C × Nat))) : List (List (C × Nat)) → Option (C × Nat)
  | [] => none
  | [] :: rest => findCandidate its rest
  | (head :: _) :: rest => if conflicts its head.1 then findCandidate its rest else some head

/-- `next_if` on all iterators, 2189-2213. -/
def advance (its : List (List (C × Nat))) (c : C) : List (List (C × Nat)) :=
  its.map fun it => match it with
    | [] => []
    | head :: rest => if head.1 = c then rest else head :: rest

/-- How often `allowed_to_use` is incremented inside `next_if`, 2192-2194: for every iterator
whose head has the index 0, consumed or not. -/
def bumps (its : List (List (C × Nat))) : Nat :=
  (its.filter fun it => match it with
    | [] => false
    | head :: _ => head.2 == 0).length

/-- `had_entry`, 2177, 2180. -/
def hadEntry (its : List (List (C × Nat))) : Bool := its.any fun it => !it.isEmpty

/-- The first iterator that is not empty and what is left, 2226-2228. -/
def popFirst : List (List (C × Nat)) → Option ((C × Nat) × List (List (C × Nat)))
  | [] => none
  | [] :: rest => (popFirst rest).map fun (x, its) => (x, [] :: its)
  | (head :: tail) :: rest => some (head, tail :: rest)

def total (its : List (List (C × Nat))) : Nat := (its.map List.length).sum

omit [DecidableEq C] in
theorem popFirst_total {its : List (List (C × Nat))} {x its'} (h : popFirst its = some (x, its')) :
    total its' < total its := by
  induction its generalizing its' with
  | nil => simp [popFirst] at h
  | cons it its ih =>
    cases it with
    | nil =>
      simp only [popFirst, Option.map_eq_some_iff] at h
      obtain ⟨⟨y, l⟩, hl, he⟩ := h
      simp only [Prod.mk.injEq] at he
      obtain ⟨rfl, rfl⟩ := he
      have := ih hl
      simpa [total] using this
    | cons a t =>
      simp only [popFirst, Option.some.injEq, Prod.mk.injEq] at h
      obtain ⟨rfl, rfl⟩ := h
      simp [total]

theorem findCandidate_mem {its its' : List (List (C × Nat))} {x} (h : findCandidate its its' = some x) :
    ∃ t, (x :: t) ∈ its' := by
  induction its' with
  | nil => simp [findCandidate] at h
  | cons it its' ih =>
    cases it with
    | nil => obtain ⟨t, ht⟩ := ih h; exact ⟨t, by simp [ht]⟩
    | cons a t =>
      simp only [findCandidate] at h
      split at h
      · obtain ⟨t, ht⟩ := ih h; exact ⟨t, by simp [ht]⟩
      · simp only [Option.some.injEq] at h; subst h; exact ⟨t, by simp⟩

theorem advance_total {its : List (List (C × Nat))} {x t} (h : (x :: t) ∈ its) : total (advance its x.1) < total its := by
  have le : ∀ its : List (List (C × Nat)), total (advance its x.1) ≤ total its := by
    intro its
    induction its with
    | nil => simp [advance, total]
    | cons it its ih =>
      simp only [advance, total, List.map_cons, List.sum_cons] at ih ⊢
      have : (match it with
        | [] => []
        | head :: rest => if head.1 = x.1 then rest else head :: rest).length ≤ it.length := by
        cases it with
        | nil => simp
        | cons a t => simp only; split <;> simp
      omega
  induction its with
  | nil => simp at h
  | cons it its ih =>
    rcases List.mem_cons.mp h with rfl | h
    · have := le its
      simp only [advance, total, List.map_cons, List.sum_cons, if_true, List.length_cons] at this ⊢
      omega
    · have := ih h
      have h2 : (match it with
        | [] => []
        | head :: rest => if head.1 = x.1 then rest else head :: rest).length ≤ it.length := by
        cases it with
        | nil => simp
        | cons a t => simp only; split <;> simp
      simp only [advance, total, List.map_cons, List.sum_cons] at this ⊢
      omega

theorem candidate_total {its : List (List (C × Nat))} {k x} (h : findCandidate its (its.take k) = some x) :
    total (advance its x.1) < total its := by
  obtain ⟨t, ht⟩ := findCandidate_mem h
  exact advance_total (List.mem_of_mem_take ht)

/-- The loop `'outer`, 2176-2247.  `mro` has the classes found so far and whether they are direct
bases; `object` is not pushed.  `unreachable!()` (2246) is modelled as the end of the loop. -/
def loop (object : C) (its : List (List (C × Nat))) (allowed : Nat) (mro : List (C × Bool)) (linearizable : Bool) :
    List (C × Bool) × Bool :=
  match h : findCandidate its (its.take (min allowed its.length)) with
  | some candidate =>
    let nonObject := candidate.1 ≠ object
    loop object (advance its candidate.1)
      (allowed + bumps its + (if nonObject ∧ candidate.2 = 0 then 1 else 0))
      (if nonObject then mro ++ [(candidate.1, candidate.2 == 0)] else mro) linearizable
  | none =>
    if hadEntry (its.take (min allowed its.length)) then
      match h' : popFirst its with
      | some (x, its') =>
        if mro.any (fun b => b.1 == x.1) ∧ x.1 ≠ object then
          loop object its' (if x.2 = 0 then allowed + 1 else allowed) (mro ++ [(x.1, x.2 == 0)]) false
        else loop object its' allowed mro false
      | none => (mro, linearizable)
    else (mro, linearizable)
termination_by total its
decreasing_by
  · exact candidate_total h
  · exact popFirst_total h'
  · exact popFirst_total h'

/-- The check of `object` in the bases, 2084-2093: `object` may only be the last base. -/
def objectLast (object : C) (bases : List C) : Bool :=
  match bases.idxOf? object with
  | none => true
  | some index => index == bases.length - 1

/-- `linearize_mro_and_return_linearizable`, 2077-2249: the order with the direct base flags, and
whether it is linearizable. -/
def linearize (object : C) (bases : List (C × List C)) : List (C × Bool) × Bool :=
  loop object (iterators bases) 1 [] (objectLast object (bases.map (·.1)))

/-- A class statement: its name and its bases. -/
structure ClassDef (C : Type) where
  name : C
  bases : List C

/-- The orders stored for all classes of a program, the last class first.  Every class gets the
result of `linearize` for its bases with the orders stored for them (class.rs 2077-2083); a class without bases gets an empty
list, and `object` has none.  The flag says that all classes could be linearized. -/
def build (object : C) : List (ClassDef C) → List (C × List C) × Bool
  | [] => ([], true)
  | d :: defs =>
    let (table, ok) := build object defs
    let (mro, linearizable) := linearize object (d.bases.map fun b => (b, (table.lookup b).getD []))
    ((d.name, mro.map (·.1)) :: table, ok && linearizable)

end Verif.Mro
