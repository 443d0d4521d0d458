import Verif.Venv.Spec

/-!
# The virtual environment: priorities, and what it changes

C242 to C245.
-/

set_option linter.unusedVariables false
set_option linter.unusedSimpArgs false

namespace Verif.Venv

open Spec

/-! ## Helper lemmas -/

theorem containsAt_iff (word name : List Char) : containsAt word name = true ↔ Has word name := by
  induction name with
  | nil =>
    simp only [containsAt, List.isEmpty_iff]
    constructor
    · rintro rfl
      exact ⟨[], [], rfl⟩
    · rintro ⟨a, b, h⟩
      have := congrArg List.length h
      simp at this
      exact List.eq_nil_of_length_eq_zero (by omega)
  | cons c rest ih =>
    simp only [containsAt, Bool.or_eq_true, ih, List.isPrefixOf_iff_prefix]
    constructor
    · rintro (⟨b, h⟩ | ⟨a, b, h⟩)
      · exact ⟨[], b, by simpa using h.symm⟩
      · exact ⟨c :: a, b, by simp [h]⟩
    · rintro ⟨a, b, h⟩
      cases a with
      | nil => exact Or.inl ⟨b, by simpa using h.symm⟩
      | cons x a =>
        simp only [List.cons_append, List.cons.injEq] at h
        exact Or.inr ⟨a, b, h.2⟩

theorem rank_iff (name : List Char) (k : Nat) : rank name = k ↔ Rank name k := by
  have e1 : "venv".toList = ['v', 'e', 'n', 'v'] := by decide
  have e2 : ".venv".toList = ['.', 'v', 'e', 'n', 'v'] := by decide
  have e3 : "virtualenv".toList = ['v', 'i', 'r', 't', 'u', 'a', 'l', 'e', 'n', 'v'] := by decide
  have h1 : Has "venv".toList "venv".toList := ⟨[], [], by simp⟩
  have h2 : Has "venv".toList ".venv".toList := ⟨['.'], [], by decide⟩
  have total : Rank name (rank name) := by
    unfold rank
    rw [← e2, ← e3, ← e1]
    split
    · rename_i h; rw [h]; exact .venv
    · rename_i hn1
      split
      · rename_i h; rw [h]; exact .dotVenv
      · rename_i hn2
        split
        · rename_i h; exact .hasVenv hn1 hn2 ((containsAt_iff _ _).mp h)
        · rename_i hn3
          rw [containsAt_iff] at hn3
          split
          · rename_i h; exact .hasVirtualenv hn3 ((containsAt_iff _ _).mp h)
          · rename_i h; rw [containsAt_iff] at h; exact .rest hn3 h
  have unique : ∀ {n : List Char} {i j : Nat}, Rank n i → Rank n j → i = j := by
    have ne : ".venv".toList ≠ "venv".toList := by decide
    intro n i j hi hj
    generalize hm : n = m at hj
    cases hi with
    | venv =>
      cases hj with
      | venv => rfl
      | dotVenv => exact absurd hm.symm ne
      | hasVenv a b c => exact absurd hm.symm a
      | hasVirtualenv a b => exact absurd (hm ▸ h1) a
      | rest a b => exact absurd (hm ▸ h1) a
    | dotVenv =>
      cases hj with
      | venv => exact absurd hm ne
      | dotVenv => rfl
      | hasVenv a b c => exact absurd hm.symm b
      | hasVirtualenv a b => exact absurd (hm ▸ h2) a
      | rest a b => exact absurd (hm ▸ h2) a
    | hasVenv x y z =>
      cases hj with
      | venv => exact absurd hm x
      | dotVenv => exact absurd hm y
      | hasVenv a b c => rfl
      | hasVirtualenv a b => exact absurd (hm ▸ z) a
      | rest a b => exact absurd (hm ▸ z) a
    | hasVirtualenv x y =>
      cases hj with
      | venv => exact absurd (hm ▸ h1) x
      | dotVenv => exact absurd (hm ▸ h2) x
      | hasVenv a b c => exact absurd (hm ▸ c) x
      | hasVirtualenv a b => rfl
      | rest a b => exact absurd (hm ▸ y) b
    | rest x y =>
      cases hj with
      | venv => exact absurd (hm ▸ h1) x
      | dotVenv => exact absurd (hm ▸ h2) x
      | hasVenv a b c => exact absurd (hm ▸ c) x
      | hasVirtualenv a b => exact absurd (hm ▸ b) y
      | rest a b => rfl
  constructor
  · rintro rfl
    exact total
  · intro h
    exact unique total h

theorem rank_le (name : List Char) : rank name ≤ 4 := by
  unfold rank
  repeat' split
  all_goals omega

/-- The entries that are environments. -/
def isEnv (e : Entry) : Bool := e.isDir && e.utf8 && e.cfg.isSome

theorem isEnv_iff (e : Entry) : isEnv e = true ↔ ∃ v, IsEnv e v := by
  unfold isEnv IsEnv
  cases h : e.cfg <;> simp [and_assoc]

theorem firstEnv_find (es : List Entry) (hd : ∀ e ∈ es, e.isDir = true) :
    firstEnv es = (es.find? isEnv).bind fun e => e.cfg.map fun v => (e.path, v) := by
  induction es with
  | nil => rfl
  | cons e es ih =>
    have hi := ih fun x hx => hd x (by simp [hx])
    have he := hd e (by simp)
    rw [firstEnv, List.find?_cons]
    cases hu : e.utf8 with
    | false => simp [isEnv, hu, hi]
    | true =>
      cases hc : e.cfg with
      | none => simp [isEnv, hc, hi]
      | some v => simp [isEnv, hu, hc, he]

theorem sorted_find (es : List Entry) (p : Entry → Bool) :
    (sorted es).find? p =
      ((((es.find? fun e => p e && rank e.name == 0).or (es.find? fun e => p e && rank e.name == 1)).or
        (es.find? fun e => p e && rank e.name == 2)).or (es.find? fun e => p e && rank e.name == 3)).or
        (es.find? fun e => p e && rank e.name == 4) := by
  have hb : ∀ a b : Nat, (a == b) = decide (a = b) := fun a b => by by_cases h : a = b <;> simp [h]
  simp [sorted, List.find?_append, List.find?_filter, Bool.and_comm, Option.or_assoc, hb]

theorem find_rank_none {es : List Entry} {p : Entry → Bool} {k : Nat}
    (h : es.find? (fun e => p e && rank e.name == k) = none) : ∀ x ∈ es, p x = true → rank x.name ≠ k := by
  rw [List.find?_eq_none] at h
  intro x hx hp hk
  exact h x hx (by simp [hp, hk])

theorem sorted_find_some {es : List Entry} {p : Entry → Bool} {e : Entry} (h : (sorted es).find? p = some e) :
    es.find? (fun x => p x && rank x.name == rank e.name) = some e ∧ ∀ x ∈ es, p x = true → rank e.name ≤ rank x.name := by
  rw [sorted_find] at h
  have key : ∀ k, es.find? (fun x => p x && rank x.name == k) = some e → rank e.name = k := by
    intro k hk
    have := List.find?_some hk
    simp at this
    exact this.2
  cases h0 : es.find? fun e => p e && rank e.name == 0 with
  | some x =>
    simp [h0] at h
    subst h
    have := key 0 h0
    exact ⟨by rw [this]; exact h0, fun _ _ _ => by omega⟩
  | none =>
  have n0 := find_rank_none h0
  cases h1 : es.find? fun e => p e && rank e.name == 1 with
  | some x =>
    simp [h0, h1] at h
    subst h
    have := key 1 h1
    exact ⟨by rw [this]; exact h1, fun y hy hp => by have := n0 y hy hp; omega⟩
  | none =>
  have n1 := find_rank_none h1
  cases h2 : es.find? fun e => p e && rank e.name == 2 with
  | some x =>
    simp [h0, h1, h2] at h
    subst h
    have := key 2 h2
    exact ⟨by rw [this]; exact h2, fun y hy hp => by have := n0 y hy hp; have := n1 y hy hp; omega⟩
  | none =>
  have n2 := find_rank_none h2
  cases h3 : es.find? fun e => p e && rank e.name == 3 with
  | some x =>
    simp [h0, h1, h2, h3] at h
    subst h
    have := key 3 h3
    exact ⟨by rw [this]; exact h3, fun y hy hp => by
      have := n0 y hy hp; have := n1 y hy hp; have := n2 y hy hp; omega⟩
  | none =>
  have n3 := find_rank_none h3
  simp only [h0, h1, h2, h3, Option.none_or] at h
  have := key 4 h
  exact ⟨by rw [this]; exact h, fun y hy hp => by
    have := n0 y hy hp; have := n1 y hy hp; have := n2 y hy hp; have := n3 y hy hp; omega⟩

theorem sorted_find_none {es : List Entry} {p : Entry → Bool} (h : (sorted es).find? p = none) : ∀ x ∈ es, p x = false := by
  intro x hx
  rw [List.find?_eq_none] at h
  have hm : x ∈ sorted es := by
    have := rank_le x.name
    simp only [sorted, List.mem_flatMap, List.mem_filter, beq_iff_eq]
    exact ⟨rank x.name, by simp; omega, hx, rfl⟩
  simpa using h x hm

/-- The environment of a directory, in terms of the specification. -/
theorem firstEnv_best (es : List Entry) :
    (∀ r, firstEnv (sorted (es.filter (·.isDir))) = some r → ∃ e, Best es e r.2 ∧ e.path = r.1) ∧
    (firstEnv (sorted (es.filter (·.isDir))) = none → ∀ e ∈ es, ∀ v, ¬ IsEnv e v) := by
  have hd : ∀ e ∈ sorted (es.filter (·.isDir)), e.isDir = true := by
    intro e he
    simp only [sorted, List.mem_flatMap, List.mem_filter] at he
    obtain ⟨_, _, ⟨_, h⟩, _⟩ := he
    exact h
  rw [firstEnv_find _ hd]
  constructor
  · rintro ⟨path, version⟩ h
    rw [Option.bind_eq_some_iff] at h
    obtain ⟨e, h1, h2⟩ := h
    rw [Option.map_eq_some_iff] at h2
    obtain ⟨v, h2, h3⟩ := h2
    simp only [Prod.mk.injEq] at h3
    obtain ⟨rfl, rfl⟩ := h3
    have h4 := sorted_find_some h1
    rw [List.find?_filter] at h4
    obtain ⟨h5, h6⟩ := h4
    rw [List.find?_eq_some_iff_append] at h5
    obtain ⟨h7, before, after, h8, h9⟩ := h5
    simp only [Bool.and_eq_true, beq_self_eq_true, and_true, decide_eq_true_eq] at h7
    have henv : isEnv e = true := h7.2
    have env_of : ∀ x v, IsEnv x v → isEnv x = true := fun x v hx => (isEnv_iff x).mpr ⟨v, hx⟩
    refine ⟨e, ⟨before, after, rank e.name, h8, ?_, (rank_iff _ _).mp rfl, ?_, ?_⟩, rfl⟩
    · obtain ⟨v', hv⟩ := (isEnv_iff e).mp henv
      have : v' = v := by
        have := hv.2.2
        rw [h2] at this
        exact (Option.some.inj this).symm
      exact this ▸ hv
    · intro x hx v' j hxe hj
      rw [← rank_iff] at hj
      have hle := h6 x (by simp [h8, hx, hxe.1]) (env_of x v' hxe)
      have hne := h9 x hx
      simp [hxe.1, env_of x v' hxe] at hne
      omega
    · intro x hx v' j hxe hj
      rw [← rank_iff] at hj
      have hle := h6 x (by simp [h8, hx, hxe.1]) (env_of x v' hxe)
      omega
  · intro h e he v hv
    have henv : isEnv e = true := (isEnv_iff e).mpr ⟨v, hv⟩
    cases hf : (sorted (es.filter (·.isDir))).find? isEnv with
    | none =>
      have := sorted_find_none hf e (by simp [he, hv.1])
      rw [henv] at this
      simp at this
    | some x =>
      rw [hf] at h
      have hx := List.find?_some hf
      unfold isEnv at hx
      cases hc : x.cfg with
      | none => simp [hc] at hx
      | some _ => simp [hc] at h

theorem findInDir_cases (w : World) (dir : List Char) (s : Settings) :
    (findInDir w dir s = (s, false) ∧ NoEnv w dir) ∨
    ∃ es e v, w.list dir = some es ∧ Best es e v ∧
      findInDir w dir s =
        ({ s with environment := some e.path, version := if s.version.isNone then v else s.version }, true) := by
  unfold findInDir
  cases hl : w.list dir with
  | none => exact Or.inl ⟨rfl, by intro es h; rw [hl] at h; simp at h⟩
  | some es =>
    have hb := firstEnv_best es
    cases hf : firstEnv (sorted (es.filter (·.isDir))) with
    | none =>
      left
      refine ⟨by simp only [hf], ?_⟩
      intro es' h
      rw [hl] at h
      cases h
      exact hb.2 hf
    | some r =>
      right
      obtain ⟨e, h1, h2⟩ := hb.1 r hf
      exact ⟨es, e, r.2, rfl, h1, by simp only [hf, h2]⟩

/-! ## C242: priorities -/

/-- C242: an environment in the settings is kept.  Otherwise the best environment of the first directory that has one is
used, where the base directory comes first and then `mypy_path` in its order, and its version if none is configured.  Otherwise the variables `VIRTUAL_ENV` and
then `CONDA_PREFIX` are used. -/
theorem environment_priority (w : World) (base : List Char) (s : Settings) :
    (∀ p, s.environment = some p → findEnvironment w base s = s) ∧
    (s.environment = none →
      (∃ before dir after es e v, base :: s.mypyPath = before ++ dir :: after ∧ (∀ d ∈ before, NoEnv w d) ∧
        w.list dir = some es ∧ Best es e v ∧ (findEnvironment w base s).environment = some e.path ∧
        (s.version = none → (findEnvironment w base s).version = v)) ∨
      ((∀ d ∈ base :: s.mypyPath, NoEnv w d) ∧
        (∀ p, w.var "VIRTUAL_ENV" = some p → (findEnvironment w base s).environment = some (w.absolute p)) ∧
        (∀ p, w.var "VIRTUAL_ENV" = none → w.var "CONDA_PREFIX" = some p →
          (findEnvironment w base s).environment = some (w.absolute p)) ∧
        (w.var "VIRTUAL_ENV" = none → w.var "CONDA_PREFIX" = none → findEnvironment w base s = s))) := by
  constructor
  · intro p hp
    simp [findEnvironment, hp]
  · intro hn
    rcases findInDir_cases w base s with ⟨h1, h2⟩ | ⟨es, e, v, h1, h2, h3⟩
    · have loop : ∀ ps : List (List Char),
          (findInPaths w base s ps = (s, false) ∧ ∀ d ∈ ps, NoEnv w d) ∨
          ∃ before dir after es e v s', ps = before ++ dir :: after ∧ (∀ d ∈ before, NoEnv w d) ∧ w.list dir = some es ∧
            Best es e v ∧ findInPaths w base s ps = (s', true) ∧ s'.environment = some e.path ∧
              (s.version = none → s'.version = v) := by
        intro ps
        induction ps with
        | nil => exact Or.inl ⟨rfl, by simp⟩
        | cons p ps ih =>
          have stepOn : NoEnv w p → findInPaths w base s (p :: ps) = findInPaths w base s ps →
              (findInPaths w base s (p :: ps) = (s, false) ∧ ∀ d ∈ p :: ps, NoEnv w d) ∨
              ∃ before dir after es e v s', p :: ps = before ++ dir :: after ∧ (∀ d ∈ before, NoEnv w d) ∧
                w.list dir = some es ∧ Best es e v ∧ findInPaths w base s (p :: ps) = (s', true) ∧
                s'.environment = some e.path ∧
              (s.version = none → s'.version = v) := by
            intro hno heq
            rw [heq]
            rcases ih with ⟨a, b⟩ | ⟨before, dir, after, es, e, v, s', a, b, c⟩
            · left
              refine ⟨a, ?_⟩
              intro d hd
              rcases List.mem_cons.mp hd with rfl | hd
              · exact hno
              · exact b d hd
            · right
              refine ⟨p :: before, dir, after, es, e, v, s', by simp [a], ?_, c⟩
              intro d hd
              rcases List.mem_cons.mp hd with rfl | hd
              · exact hno
              · exact b d hd
          by_cases hp : p = base
          · exact stepOn (hp ▸ h2) (by simp [findInPaths, hp])
          · rcases findInDir_cases w p s with ⟨a, b⟩ | ⟨es, e, v, a, b, c⟩
            · exact stepOn b (by simp [findInPaths, hp, a])
            · right
              exact ⟨[], p, ps, es, e, v, _, rfl, by simp, a, b, by rw [findInPaths, if_pos hp, c], rfl, by
                intro hv; simp [hv]⟩
      rcases loop s.mypyPath with ⟨h3, h4⟩ | ⟨before, dir, after, es, e, v, s', a, b, c, d, f, g⟩
      · right
        refine ⟨?_, ?_, ?_, ?_⟩
        · intro d hd
          rcases List.mem_cons.mp hd with rfl | hd
          · exact h2
          · exact h4 d hd
        · intro p hp
          simp [findEnvironment, hn, h1, h3, hp]
        · intro p hp hq
          simp [findEnvironment, hn, h1, h3, hp, hq]
        · intro hp hq
          simp [findEnvironment, hn, h1, h3, hp, hq]
      · left
        refine ⟨base :: before, dir, after, es, e, v, by simp [a], ?_, c, d, by simp [findEnvironment, hn, h1, f, g.1], by
          intro hv; simp [findEnvironment, hn, h1, f, g.2 hv]⟩
        intro x hx
        rcases List.mem_cons.mp hx with rfl | hx
        · exact h2
        · exact b x hx
    · left
      exact ⟨[], base, s.mypyPath, es, e, v, rfl, by simp, h1, h2, by simp [findEnvironment, hn, h3], by
        intro hv; simp [findEnvironment, hn, h3, hv]⟩

/-! ## C243: the order in which directories are listed -/

theorem best_unique (es fs : List Entry) (hp : ∀ e, e ∈ es ↔ e ∈ fs)
    (hu : ∀ a ∈ es, ∀ b ∈ es, ∀ v u k, IsEnv a v → IsEnv b u → Rank a.name k → Rank b.name k → a = b)
    (e f : Entry) (v u : Option Nat) (he : Best es e v) (hf : Best fs f u) : e = f ∧ v = u := by
  obtain ⟨b1, a1, k1, e1, i1, r1, x1, y1⟩ := he
  obtain ⟨b2, a2, k2, e2, i2, r2, x2, y2⟩ := hf
  have me : e ∈ es := by rw [e1]; simp
  have mf : f ∈ fs := by rw [e2]; simp
  have le1 : ∀ x ∈ es, ∀ v j, IsEnv x v → Rank x.name j → k1 ≤ j := by
    intro x hx v j hi hj
    rw [e1, List.mem_append, List.mem_cons] at hx
    rcases hx with hx | rfl | hx
    · exact Nat.le_of_lt (x1 x hx v j hi hj)
    · exact Nat.le_of_eq (((rank_iff _ _).mpr r1).symm.trans ((rank_iff _ _).mpr hj))
    · exact y1 x hx v j hi hj
  have le2 : ∀ x ∈ fs, ∀ v j, IsEnv x v → Rank x.name j → k2 ≤ j := by
    intro x hx v j hi hj
    rw [e2, List.mem_append, List.mem_cons] at hx
    rcases hx with hx | rfl | hx
    · exact Nat.le_of_lt (x2 x hx v j hi hj)
    · exact Nat.le_of_eq (((rank_iff _ _).mpr r2).symm.trans ((rank_iff _ _).mpr hj))
    · exact y2 x hx v j hi hj
  have hk : k1 = k2 := Nat.le_antisymm (le1 f ((hp f).mpr mf) u k2 i2 r2) (le2 e ((hp e).mp me) v k1 i1 r1)
  have hef : e = f := hu e me f ((hp f).mpr mf) v u k1 i1 i2 r1 (hk ▸ r2)
  subst hef
  refine ⟨rfl, ?_⟩
  have := i1.2.2
  rw [i2.2.2] at this
  exact (Option.some.inj this).symm

/-- C243: if no two environments of a directory have the same rank, the order in which the directory is listed does not
matter. -/
theorem listing_order_partial (w w' : World) (dir : List Char) (s : Settings) (es fs : List Entry)
    (hw : w.list dir = some es) (hw' : w'.list dir = some fs) (hp : ∀ e, e ∈ es ↔ e ∈ fs)
    (hu : ∀ a ∈ es, ∀ b ∈ es, ∀ v u k, IsEnv a v → IsEnv b u → Rank a.name k → Rank b.name k → a = b) :
    findInDir w dir s = findInDir w' dir s := by
  have mem : ∀ {xs : List Entry} {e v}, Best xs e v → e ∈ xs ∧ IsEnv e v := by
    rintro xs e v ⟨b, a, k, h, i, -⟩
    exact ⟨by rw [h]; simp, i⟩
  rcases findInDir_cases w dir s with ⟨h1, h2⟩ | ⟨xs, e, v, h1, h2, h3⟩
  · rcases findInDir_cases w' dir s with ⟨h1', h2'⟩ | ⟨ys, f, u, h1', h2', h3'⟩
    · rw [h1, h1']
    · rw [hw'] at h1'
      cases h1'
      exact absurd (mem h2').2 (h2 es hw f ((hp f).mpr (mem h2').1) u)
  · rw [hw] at h1
    cases h1
    rcases findInDir_cases w' dir s with ⟨h1', h2'⟩ | ⟨ys, f, u, h1', h2', h3'⟩
    · exact absurd (mem h2).2 (h2' fs hw' e ((hp e).mp (mem h2).1) v)
    · rw [hw'] at h1'
      cases h1'
      obtain ⟨rfl, rfl⟩ := best_unique es fs hp hu e f v u h2 h2'
      rw [h3, h3']

/-- The environments `venv1` and `venv2`. -/
def sampleEntries : List Entry :=
  [{ name := "venv1".toList, path := "/p/venv1".toList, cfg := some (some 11) },
   { name := "venv2".toList, path := "/p/venv2".toList, cfg := some (some 12) }]

/-- With two environments like `venv1` and `venv2`, the one that the operating system lists first is used, together with
its version of Python; that order is not specified. -/
theorem listing_order_violation :
    firstEnv (sorted sampleEntries) = some ("/p/venv1".toList, some 11) ∧
    firstEnv (sorted sampleEntries.reverse) = some ("/p/venv2".toList, some 12) := by decide +kernel

/-- A project with a directory `src` and an environment `.venv`. -/
def sampleWorld : World where
  list d := if d = "/p".toList then
      some [{ name := "src".toList, path := "/p/src".toList, cfg := none },
        { name := "env".toList, path := "/p/env".toList, cfg := some none },
        { name := ".venv".toList, path := "/p/.venv".toList, cfg := some (some 12) }]
    else none
  absolute p := "/p/".toList ++ p
  var v := if v = "VIRTUAL_ENV" then some "other".toList else if v = "MYPYPATH" then some "a:b".toList else none

example : applyVariables sampleWorld "/p".toList {} =
    { mypyPath := ["/p/a".toList, "/p/b".toList], environment := some "/p/.venv".toList, version := some 12 } ∧
    (applyVariables sampleWorld "/q".toList {}).environment = some "/p/other".toList := by decide +kernel

/-! ## C244: the version of Python -/

/-- C244: a version in the settings is never changed, and a version is only taken from the environment that is used. -/
theorem version_kept (w : World) (base : List Char) (s : Settings) :
    (∀ v, s.version = some v → (findEnvironment w base s).version = some v) ∧
    (∀ v, s.version = none → (findEnvironment w base s).version = some v →
      ∃ dir es e, dir ∈ base :: s.mypyPath ∧ w.list dir = some es ∧ e ∈ es ∧ IsEnv e (some v) ∧
        (findEnvironment w base s).environment = some e.path) := by
  have key : findEnvironment w base s = s ∨
      (∃ p, findEnvironment w base s = { s with environment := some p }) ∨
      ∃ dir es e v, dir ∈ base :: s.mypyPath ∧ w.list dir = some es ∧ Best es e v ∧ findEnvironment w base s =
        { s with environment := some e.path, version := if s.version.isNone then v else s.version } := by
    unfold findEnvironment
    split
    · exact Or.inl rfl
    · rcases findInDir_cases w base s with ⟨h1, -⟩ | ⟨es, e, v, h1, h2, h3⟩
      · rw [h1]
        simp only
        have loop : ∀ ps : List (List Char), (∃ s', findInPaths w base s ps = (s', false)) ∨
            ∃ dir es e v, dir ∈ ps ∧ w.list dir = some es ∧ Best es e v ∧ findInPaths w base s ps =
              ({ s with environment := some e.path, version := if s.version.isNone then v else s.version }, true) := by
          intro ps
          induction ps with
          | nil => exact Or.inl ⟨s, rfl⟩
          | cons p ps ih =>
            have up : findInPaths w base s (p :: ps) = findInPaths w base s ps →
                (∃ s', findInPaths w base s (p :: ps) = (s', false)) ∨
                ∃ dir es e v, dir ∈ p :: ps ∧ w.list dir = some es ∧ Best es e v ∧ findInPaths w base s (p :: ps) =
                  ({ s with environment := some e.path, version := if s.version.isNone then v else s.version }, true) := by
              intro heq
              rw [heq]
              rcases ih with h | ⟨dir, es, e, v, a, b⟩
              · exact Or.inl h
              · exact Or.inr ⟨dir, es, e, v, by simp [a], b⟩
            by_cases hp : p = base
            · exact up (by simp [findInPaths, hp])
            · rcases findInDir_cases w p s with ⟨a, -⟩ | ⟨es, e, v, a, b, c⟩
              · exact up (by simp [findInPaths, hp, a])
              · exact Or.inr ⟨p, es, e, v, by simp, a, b, by rw [findInPaths, if_pos hp, c]⟩
        rcases loop s.mypyPath with ⟨s', h⟩ | ⟨dir, es, e, v, a, b, c, d⟩
        · rw [h]
          simp only
          split
          · exact Or.inr (Or.inl ⟨_, rfl⟩)
          · exact Or.inl rfl
        · rw [d]
          exact Or.inr (Or.inr ⟨dir, es, e, v, by simp [a], b, c, rfl⟩)
      · rw [h3]
        exact Or.inr (Or.inr ⟨base, es, e, v, by simp, h1, h2, rfl⟩)
  rcases key with h | ⟨p, h⟩ | ⟨dir, es, e, v, h1, h2, h3, h4⟩
  · rw [h]
    refine ⟨fun _ h => h, ?_⟩
    intro v a b
    rw [a] at b
    simp at b
  · rw [h]
    refine ⟨fun _ h => h, ?_⟩
    intro v a b
    simp only at b
    rw [a] at b
    simp at b
  · rw [h4]
    constructor
    · intro x hx
      simp [hx]
    · intro x hx hy
      simp [hx] at hy
      subst hy
      obtain ⟨b, a, k, e1, i1, -⟩ := h3
      exact ⟨dir, es, e, h1, h2, by rw [e1]; simp, i1, rfl⟩

/-! ## C245: `PYTHONPATH` and `MYPYPATH` -/

theorem split_plain {p : List Char} (h : ':' ∉ p) : splitColon p = [p] := by
  induction p with
  | nil => rfl
  | cons c p ih =>
    simp only [List.mem_cons, not_or] at h
    simp [splitColon, Ne.symm h.1, ih h.2]

theorem split_append {p : List Char} (rest : List Char) (h : ':' ∉ p) : splitColon (p ++ ':' :: rest) = p :: splitColon rest := by
  induction p with
  | nil => simp [splitColon]
  | cons c p ih =>
    simp only [List.mem_cons, not_or] at h
    simp [splitColon, Ne.symm h.1, ih h.2]

theorem split_joined (ps : List (List Char)) (hne : ps ≠ []) (h : ∀ p ∈ ps, ':' ∉ p) : splitColon (joined ps) = ps := by
  induction ps with
  | nil => exact absurd rfl hne
  | cons p ps ih =>
    cases ps with
    | nil => exact split_plain (h p (by simp))
    | cons q qs =>
      rw [joined, split_append _ (h p (by simp)), ih (by simp) fun x hx => h x (by simp [hx])]

theorem findEnvironment_path (w : World) (base : List Char) (s : Settings) : (findEnvironment w base s).mypyPath = s.mypyPath := by
  have hd : ∀ d, (findInDir w d s).1.mypyPath = s.mypyPath := by
    intro d
    unfold findInDir
    split
    · rfl
    · split <;> rfl
  have hp : ∀ ps, (findInPaths w base s ps).1.mypyPath = s.mypyPath := by
    intro ps
    induction ps with
    | nil => rfl
    | cons p ps ih =>
      rw [findInPaths]
      split
      · split
        · rename_i s' heq
          have := hd p
          rw [heq] at this
          exact this
        · exact ih
      · exact ih
  unfold findEnvironment
  split
  · rfl
  · split
    · rename_i s' heq
      have := hd base
      rw [heq] at this
      exact this
    · split
      · rename_i s' heq
        have := hp s.mypyPath
        rw [heq] at this
        exact this
      · split <;> rfl

/-- C245: the directories of `PYTHONPATH` and then those of `MYPYPATH` are added after those of the settings, in order.
Missing: an empty variable, and paths with a colon. -/
theorem path_variables_partial (w : World) (base : List Char) (s : Settings) (ps qs : List (List Char))
    (hp : (ps = [] ∧ w.var "PYTHONPATH" = none) ∨ (ps ≠ [] ∧ w.var "PYTHONPATH" = some (joined ps)))
    (hq : (qs = [] ∧ w.var "MYPYPATH" = none) ∨ (qs ≠ [] ∧ w.var "MYPYPATH" = some (joined qs)))
    (hps : ∀ p ∈ ps, ':' ∉ p) (hqs : ∀ p ∈ qs, ':' ∉ p) :
    (applyVariables w base s).mypyPath = s.mypyPath ++ ps.map w.absolute ++ qs.map w.absolute := by
  rw [applyVariables, findEnvironment_path]
  have add : ∀ (t : Settings) (v : Option (List Char)) (xs : List (List Char)),
      ((xs = [] ∧ v = none) ∨ (xs ≠ [] ∧ v = some (joined xs))) → (∀ p ∈ xs, ':' ∉ p) →
      (addToPath w t v).mypyPath = t.mypyPath ++ xs.map w.absolute := by
    rintro t v xs (⟨rfl, rfl⟩ | ⟨h1, rfl⟩) h
    · simp [addToPath]
    · simp [addToPath, split_joined xs h1 h]
  rw [add _ _ qs hq hqs, add _ _ ps hp hps]

/-- An empty `PYTHONPATH`, which Python treats like one that is not set, adds the base directory. -/
theorem empty_violation (w : World) (base : List Char) (s : Settings) (h : w.var "PYTHONPATH" = some [])
    (h' : w.var "MYPYPATH" = none) :
    (applyVariables w base s).mypyPath = s.mypyPath ++ [w.absolute []] ∧ (applyVariables w base s).mypyPath ≠ s.mypyPath := by
  rw [applyVariables, findEnvironment_path, h, h']
  simp [addToPath, splitColon]

/-- On Windows, where paths have colons after the letter of the drive, one directory becomes two. -/
theorem windows_violation : splitColon "C:\\lib".toList = ["C".toList, "\\lib".toList] := by decide

example : splitColon "a:b".toList = ["a".toList, "b".toList] ∧ joined ["a".toList, "b".toList] = "a:b".toList := by decide

end Verif.Venv
