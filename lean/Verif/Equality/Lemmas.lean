import Verif.Equality.Spec

/-! # Lemmas on the narrowing by comparisons -/

namespace Verif.Equality

variable {w : World} {r : Run}

theorem mem_others {e n i j : Nat} (hj : j < n) (hne : j ≠ i) :
    Ty.member e j ∈ ((List.range n).filter (· ≠ i)).map (Ty.member e) :=
  List.mem_map.mpr ⟨j, List.mem_filter.mpr ⟨List.mem_range.mpr hj, by simpa using hne⟩, rfl⟩

/-! ## Members of enums -/

theorem enumPart_then {e i : Nat} {isEq : Bool} {t : Ty} {hit : Bool} {others : List Ty}
    (h : enumPart w e i isEq t = some (hit, others)) {x : Val} (hx : t.Has w r x)
    (hcls : ∀ (c : Nat), t = .cls c → ¬ (Ty.cls c).Has w r (.member e i))
    (hvar : ∀ (n : Nat), t = .typeVar n → ¬ r.vars n (.member e i))
    (hi : i < w.members e)
    (hsame : x = .member e i) : hit = true := by
  subst hsame
  cases t with
  | any => simp only [enumPart] at h; split at h <;> simp_all
  | object => simp only [enumPart] at h; split at h <;> simp_all
  | none => cases hx
  | ellipsis => cases hx
  | sentinel n => cases hx
  | cls c => exact absurd hx (hcls c rfl)
  | lit l b => cases hx
  | enum e' =>
    obtain ⟨j, hj, hh⟩ := hx
    injection hh with h1 h2
    subst h1; subst h2
    simp only [enumPart, if_true] at h
    injection h with h; injection h with h _
    rw [← h]
    exact decide_eq_true hi
  | member e' i' =>
    injection hx with h1 h2
    subst h1; subst h2
    simp [enumPart] at h
    exact h.1
  | typeVar n => exact absurd hx (hvar n rfl)

theorem enumPart_else {e i : Nat} {isEq : Bool} {t : Ty} {hit : Bool} {others : List Ty}
    (h : enumPart w e i isEq t = some (hit, others)) {x : Val} (hx : t.Has w r x)
    (hne : x ≠ .member e i) : Has w r others x := by
  have keep : others = [t] → Has w r others x := by
    rintro rfl
    exact ⟨t, List.mem_singleton.mpr rfl, hx⟩
  cases t with
  | enum e' =>
    simp only [enumPart] at h
    split at h
    · rename_i he
      subst he
      injection h with h; injection h with _ h
      obtain ⟨j, hj, rfl⟩ := hx
      have hji : j ≠ i := fun hh => hne (by rw [hh])
      split at h
      · subst h
        exact ⟨_, List.mem_singleton.mpr rfl, j, hj, rfl⟩
      · rename_i hf
        subst h
        rcases hj with hj | hj
        · exact ⟨_, mem_others hj hji, rfl⟩
        · exact absurd hj hf
    · split at h
      · cases h
      · split at h
        · cases h
        · injection h with h; injection h with _ h
          exact keep h.symm
  | member e' i' =>
    simp only [enumPart] at h
    split at h
    · rename_i he
      obtain ⟨rfl, rfl⟩ := he
      exact absurd hx hne
    · split at h
      · cases h
      · injection h with h; injection h with _ h
        exact keep h.symm
  | any | object =>
    simp only [enumPart] at h
    split at h
    · cases h
    · injection h with h; injection h with _ h
      exact keep h.symm
  | none =>
    simp only [enumPart] at h
    injection h with h; injection h with _ h
    exact keep h.symm
  | _ =>
    simp only [enumPart] at h
    split at h
    · cases h
    · split at h
      · cases h
      · injection h with h; injection h with _ h
        exact keep h.symm

theorem splitEnum_cons {e i : Nat} {isEq : Bool} {t : Ty} {ts tr fa : List Ty}
    (h : splitEnum w e i isEq (t :: ts) = some (tr, fa)) :
    ∃ (hit : Bool) (others tr' fa' : List Ty), enumPart w e i isEq t = some (hit, others) ∧
      splitEnum w e i isEq ts = some (tr', fa') ∧
      tr = (if hit then [.member e i] else tr') ∧ fa = others ++ fa' := by
  simp only [splitEnum] at h
  split at h
  · rename_i hit others tr' fa' h1 h2
    injection h with h; injection h with h h'
    exact ⟨hit, others, tr', fa', h1, h2, h.symm, h'.symm⟩
  · cases h

theorem splitEnum_nil_or {e i : Nat} {isEq : Bool} {ts tr fa : List Ty}
    (h : splitEnum w e i isEq ts = some (tr, fa)) : tr = [] ∨ tr = [.member e i] := by
  induction ts generalizing tr fa with
  | nil => simp only [splitEnum] at h; injection h with h; injection h with h _; exact .inl h.symm
  | cons t ts ih =>
    obtain ⟨hit, others, tr', fa', _, h2, rfl, _⟩ := splitEnum_cons h
    cases hit
    · exact ih h2
    · exact .inr rfl

theorem splitEnum_hit {e i : Nat} {isEq : Bool} {ts tr fa : List Ty}
    (h : splitEnum w e i isEq ts = some (tr, fa)) {t : Ty} (ht : t ∈ ts)
    (hhit : ∀ (hit : Bool) (others : List Ty),
      enumPart w e i isEq t = some (hit, others) → hit = true) : tr = [.member e i] := by
  induction ts generalizing tr fa with
  | nil => cases ht
  | cons u us ih =>
    obtain ⟨hit, others, tr', fa', h1, h2, rfl, _⟩ := splitEnum_cons h
    rcases List.mem_cons.mp ht with rfl | ht
    · rw [hhit hit others h1]; rfl
    · have := ih h2 ht
      cases hit
      · exact this
      · rfl

theorem splitEnum_part {e i : Nat} {isEq : Bool} {ts tr fa : List Ty}
    (h : splitEnum w e i isEq ts = some (tr, fa)) {t : Ty} (ht : t ∈ ts) :
    ∃ (hit : Bool) (others : List Ty), enumPart w e i isEq t = some (hit, others) ∧
      ∀ u ∈ others, u ∈ fa := by
  induction ts generalizing tr fa with
  | nil => cases ht
  | cons u us ih =>
    obtain ⟨hit, others, tr', fa', h1, h2, rfl, rfl⟩ := splitEnum_cons h
    rcases List.mem_cons.mp ht with rfl | ht
    · exact ⟨hit, others, h1, fun u hu => List.mem_append.mpr (.inl hu)⟩
    · obtain ⟨hit', others', h1', h2'⟩ := ih h2 ht
      exact ⟨hit', others', h1', fun u hu => List.mem_append.mpr (.inr (h2' u hu))⟩

theorem splitEnum_mem {e i : Nat} {isEq : Bool} {ts tr fa : List Ty}
    (h : splitEnum w e i isEq ts = some (tr, fa)) {u : Ty} (hu : u ∈ fa) :
    ∃ t ∈ ts, ∃ (hit : Bool) (others : List Ty),
      enumPart w e i isEq t = some (hit, others) ∧ u ∈ others := by
  induction ts generalizing tr fa with
  | nil => simp only [splitEnum] at h; injection h with h; injection h with _ h; subst h; cases hu
  | cons t ts ih =>
    obtain ⟨hit, others, tr', fa', h1, h2, rfl, rfl⟩ := splitEnum_cons h
    rcases List.mem_append.mp hu with hu | hu
    · exact ⟨t, by simp, hit, others, h1, hu⟩
    · obtain ⟨t', ht', rest⟩ := ih h2 hu
      exact ⟨t', by simp [ht'], rest⟩

/-! ## Single objects -/

/-- The type has only the value. -/
def Only (w : World) (r : Run) (s : Ty) (y : Val) : Prop := OneValue s ∧ s.Has w r y

theorem only_eq {s : Ty} {y x : Val} (h : Only w r s y) (hx : s.Has w r x) : x = y := by
  obtain ⟨h1, h2⟩ := h
  cases s <;> first | exact h1.elim | exact hx.trans h2.symm

theorem lit_cls {l : Lit} : Val.classOf w (.lit l) = l.cls := by cases l <;> rfl

theorem singletonPart_then {s : Ty} {isEq : Bool} {t : Ty} {x y : Val} (hs : Only w r s y)
    (hm : ∀ (e i : Nat), s ≠ .member e i) (hn : isEq = true → s ≠ .none)
    (hx : t.Has w r x)
    (hcls : y.Single → ∀ (c : Nat), t = .cls c → ¬ (Ty.cls c).Has w r y)
    (hb : Builtins w)
    (hsame : x = y ∨ (isEq = true ∧ SaysCustom w t y)) :
    Has w r (singletonPart w s isEq t).1 x := by
  have hsy := hs.2
  have self : Has w r [t] x := ⟨t, List.mem_singleton.mpr rfl, hx⟩
  have single : x = y → Has w r [s] x := fun h => ⟨s, List.mem_singleton.mpr rfl, h ▸ hsy⟩
  cases t with
  | any =>
    simp only [singletonPart]
    cases isEq
    · exact single (by simpa using hsame)
    · exact self
  | typeVar n =>
    simp only [singletonPart]
    cases isEq
    · exact single (by simpa using hsame)
    · exact self
  | object => exact single (by simpa [SaysCustom] using hsame)
  | lit l b =>
    have hxy : x = y := by simpa [SaysCustom] using hsame
    cases hx
    subst hxy
    cases s with
    | lit l' b' =>
      injection hsy with hsy
      subst hsy
      simp only [singletonPart, if_true]
      exact ⟨_, List.mem_singleton.mpr rfl, rfl⟩
    | none | ellipsis | sentinel n | member e i => cases hsy
    | _ => exact hs.1.elim
  | none | ellipsis | sentinel n =>
    have hxy : x = y := by simpa [SaysCustom] using hsame
    cases hx
    subst hxy
    cases s with
    | none | ellipsis | sentinel m | member e i =>
      cases hsy <;> simp only [singletonPart, if_true] <;> exact ⟨_, List.mem_singleton.mpr rfl, rfl⟩
    | lit l b => cases hsy
    | _ => exact hs.1.elim
  | cls c =>
    cases s with
    | lit l b =>
      have hy : y = .lit l := hsy
      subst hy
      simp only [singletonPart]
      rw [if_neg (by simp)]
      simp only [literalPart]
      cases hsp : splitBool (.cls c) l with
      | some yn =>
        simp only
        cases l with
        | bool b' =>
          simp only [splitBool] at hsp
          split at hsp
          · rename_i hc
            subst hc
            injection hsp with hsp
            subst hsp
            refine ⟨_, List.mem_singleton.mpr rfl, ?_⟩
            rcases hsame with h | ⟨_, h, _⟩
            · exact h
            · rw [hb.boolEq] at h; cases h
          · cases hsp
        | _ => simp [splitBool] at hsp
      | none =>
        simp only
        split
        · exact self
        · rename_i hcu
          have hxy : x = .lit l := by
            rcases hsame with h | ⟨_, h, _⟩
            · exact h
            · exact absurd h hcu
          subst hxy
          have hacc : accepts w (.cls c) (.lit l b) = true := by
            have : w.sub (Val.classOf w (.lit l)) c = true := hx
            rw [lit_cls] at this
            exact this
          rw [if_pos hacc]
          exact ⟨_, List.mem_singleton.mpr rfl, rfl⟩
    | none | ellipsis | sentinel n =>
      have hy := hsy
      simp only [Ty.Has] at hy
      subst hy
      have hno := hcls (by trivial) c rfl
      rcases hsame with h | ⟨he, _, h1, h2⟩
      · subst h; exact absurd hx hno
      · first
          | exact absurd rfl (hn he)
          | exact absurd rfl h1
          | exact absurd rfl (h2 _)
    | member e i => exact absurd rfl (hm e i)
    | _ => exact hs.1.elim
  | enum e =>
    obtain ⟨j, hj, rfl⟩ := hx
    cases s with
    | lit l b =>
      cases hsy
      rcases hsame with h | ⟨_, ⟨h, _⟩ | ⟨hk, _⟩⟩
      · cases h
      · have : hasCustomEq w (.enum e) = true := h
        simp only [singletonPart]
        rw [if_neg (by simp)]
        simp only [literalPart, splitBool]
        rw [if_pos this]
        exact self
      · simp only [singletonPart]
        rw [if_neg (by simp)]
        simp only [literalPart, splitBool]
        have hk : w.kind e = .intEnum ∨ w.kind e = .strEnum := by
          cases h : w.kind e
          · exact absurd h hk
          · exact .inl rfl
          · exact .inr rfl
        split
        · exact self
        · split
          · rename_i h; simp [accepts] at h
          · exact self
    | none | ellipsis | sentinel n =>
      cases hsy
      rcases hsame with h | ⟨he, ⟨_, h1, h2⟩ | ⟨_, l, h⟩⟩
      · cases h
      · first
          | exact absurd rfl (hn he)
          | exact absurd rfl h1
          | exact absurd rfl (h2 _)
      · cases h
    | member e i => exact absurd rfl (hm e i)
    | _ => exact hs.1.elim
  | member e i =>
    cases hx
    cases s with
    | lit l b =>
      cases hsy
      rcases hsame with h | ⟨_, h, _⟩
      · cases h
      · have : hasCustomEq w (.member e i) = true := h
        simp only [singletonPart]
        rw [if_neg (by simp)]
        simp only [literalPart, splitBool]
        rw [if_pos this]
        exact self
    | none | ellipsis | sentinel n =>
      cases hsy
      rcases hsame with h | ⟨he, _, h1, h2⟩
      · cases h
      · first
          | exact absurd rfl (hn he)
          | exact absurd rfl h1
          | exact absurd rfl (h2 _)
    | member e i => exact absurd rfl (hm e i)
    | _ => exact hs.1.elim

theorem splitBool_some {t : Ty} {l : Lit} {a b : Ty} (h : splitBool t l = some (a, b)) :
    ∃ (c : Bool), t = .cls cBool ∧ l = .bool c ∧ a = .lit (.bool c) false ∧
      b = .lit (.bool (!c)) false := by
  unfold splitBool at h
  split at h
  · rename_i c b'
    split at h
    · rename_i hc
      subst hc
      injection h with h; injection h with h1 h2
      exact ⟨b', rfl, rfl, h1.symm, h2.symm⟩
    · cases h
  · cases h

theorem singletonPart_else {s : Ty} {isEq : Bool} {t : Ty} {x y : Val} (hs : Only w r s y)
    (hx : t.Has w r x) (hb : Builtins w) (hne : x ≠ y) :
    Has w r (singletonPart w s isEq t).2 x := by
  have hsy := hs.2
  have self : Has w r [t] x := ⟨t, List.mem_singleton.mpr rfl, hx⟩
  have nots : s ≠ t := fun h => hne (only_eq hs (h ▸ hx))
  have lit : ∀ (l : Lit) (b : Bool), s = .lit l b → Has w r (literalPart w l b t).2 x := by
    rintro l b rfl
    unfold literalPart
    cases hsp : splitBool t l with
    | some yn =>
      obtain ⟨yes, no⟩ := yn
      obtain ⟨c, rfl, rfl, rfl, rfl⟩ := splitBool_some hsp
      obtain ⟨d, rfl⟩ := hb.boolOnly x hx
      cases hsy
      refine ⟨_, List.mem_singleton.mpr rfl, ?_⟩
      have : d ≠ c := fun h => hne (by rw [h])
      cases c <;> cases d <;> simp at this ⊢ <;> rfl
    | none =>
      simp only
      repeat' split
      all_goals exact self
  cases t with
  | any => exact self
  | typeVar n => exact self
  | object => exact self
  | lit l b =>
    simp only [singletonPart]
    split
    · split
      · rename_i h
        subst h
        cases hx
        cases hsy
        exact absurd rfl hne
      · exact self
    · exact self
  | _ =>
    simp only [singletonPart]
    rw [if_neg nots]
    split
    · exact lit _ _ rfl
    · exact self

theorem has_flatMap {f : Ty → List Ty} {ts : List Ty} {t : Ty} {x : Val} (ht : t ∈ ts)
    (h : Has w r (f t) x) : Has w r (ts.flatMap f) x := by
  obtain ⟨u, hu, hx⟩ := h
  exact ⟨u, List.mem_flatMap.mpr ⟨t, ht, hu⟩, hx⟩

theorem of_has_flatMap {f : Ty → List Ty} {ts : List Ty} {x : Val}
    (h : Has w r (ts.flatMap f) x) : ∃ t ∈ ts, Has w r (f t) x := by
  obtain ⟨u, hu, hx⟩ := h
  obtain ⟨t, ht, hu⟩ := List.mem_flatMap.mp hu
  exact ⟨t, ht, u, hu, hx⟩

/-! ## The cases of `narrow_is_or_eq` -/

inductive Case (w : World) (checking other : List Ty) (isEq : Bool) : Learned → Learned → Prop
  /-- `x == None` -/
  | eqNone : other = [.none] → isEq = true →
      Case w checking other isEq none (some (splitSingleton w .none isEq checking).2)
  /-- `x is None` for a type variable -/
  | isNoneVar (n : Nat) : other = [.none] → isEq = false → checking = [.typeVar n] →
      Case w checking other isEq (some [.none]) (some [.typeVar n])
  | single (s : Ty) : other = [s] → OneValue s → (∀ (e i : Nat), s ≠ .member e i) →
      (isEq = true → s ≠ .none) →
      Case w checking other isEq (some (splitSingleton w s isEq checking).1)
        (some (splitSingleton w s isEq checking).2)
  | member (e i : Nat) (tr fa : List Ty) :
      (other = [.member e i] ∨ other = [.enum e] ∧ w.members e = 1 ∧ i = 0) →
      splitEnum w e i isEq checking = some (tr, fa) →
      Case w checking other isEq (some tr) (some fa)
  | optional : 2 ≤ checking.length → Ty.none ∈ checking → other ≠ [.none] →
      Case w checking other isEq (some (splitSingleton w .none isEq checking).2) none

theorem narrow_case {simpleKey : Bool} {checking other : List Ty} {isEq : Bool} {t f : Learned}
    (h : narrow w simpleKey checking other isEq = some (t, f)) :
    Case w checking other isEq t f := by
  unfold narrow at h
  have rest : other ≠ [.none] → (if 2 ≤ checking.length ∧ Ty.none ∈ checking then
      let falsey := (splitSingleton w .none isEq checking).2
      if acceptsAll w other falsey ∨ acceptsAll w falsey other then some (some falsey, none)
      else none
    else none) = some (t, f) → Case w checking other isEq t f := by
    intro hne h
    split at h
    · rename_i hc
      simp only at h
      split at h
      · injection h with h; injection h with h1 h2
        subst h1; subst h2
        exact .optional hc.1 hc.2 hne
      · cases h
    · cases h
  have mem : ∀ (e i : Nat),
      (other = [.member e i] ∨ other = [.enum e] ∧ w.members e = 1 ∧ i = 0) →
      (match splitEnum w e i isEq checking with
        | some (truthy, falsey) => some (some truthy, some falsey)
        | none => none) = some (t, f) → Case w checking other isEq t f := by
    intro e i ho h
    split at h
    · rename_i tr fa hs
      injection h with h; injection h with h1 h2
      subst h1; subst h2
      exact .member e i tr fa ho hs
    · cases h
  simp only at h
  split at h
  · split at h
    · rename_i he
      injection h with h; injection h with h1 h2
      subst h1; subst h2
      exact .eqNone rfl he
    · rename_i he
      have he : isEq = false := by simpa using he
      split at h
      · injection h with h; injection h with h1 h2
        subst h1; subst h2
        exact .isNoneVar _ rfl he rfl
      · injection h with h; injection h with h1 h2
        subst h1; subst h2
        exact .single .none rfl trivial (by simp) (by simp [he])
  · exact mem _ _ (.inl rfl) h
  · split at h
    · rename_i hm
      exact mem _ _ (.inr ⟨rfl, hm, rfl⟩) h
    · exact rest (by simp) h
  · split at h
    · injection h with h; injection h with h1 h2
      subst h1; subst h2
      exact .single _ rfl trivial (by simp) (by simp)
    · exact rest (by simp) h
  · injection h with h; injection h with h1 h2
    subst h1; subst h2
    exact .single _ rfl trivial (by simp) (by simp)
  · injection h with h; injection h with h1 h2
    subst h1; subst h2
    exact .single _ rfl trivial (by simp) (by simp)
  · rename_i hne _ _ _ _ _
    exact rest hne h

theorem has_one {s : Ty} {y : Val} (h : Has w r [s] y) : s.Has w r y := by
  obtain ⟨u, hu, hh⟩ := h
  rwa [List.mem_singleton.mp hu] at hh

theorem narrow_then {simpleKey : Bool} {checking other : List Ty} {isEq : Bool} {t f : Learned}
    (hb : Builtins w) (h : narrow w simpleKey checking other isEq = some (t, f)) {x y : Val}
    (hx : Has w r checking x) (hy : Has w r other y)
    (hc : Handled w r checking other isEq y)
    (hsame : ∀ t ∈ checking, t.Has w r x → x = y ∨ (isEq = true ∧ SaysCustom w t y)) :
    Fits w r t x := by
  obtain ⟨u, hu, hux⟩ := hx
  cases narrow_case h with
  | eqNone => intro ts hts; cases hts
  | isNoneVar n ho he hch =>
    intro ts hts
    cases hts
    subst ho
    have hy := has_one hy
    rcases hsame u hu hux with h | ⟨h, _⟩
    · exact ⟨_, List.mem_singleton.mpr rfl, h.trans hy⟩
    · rw [he] at h; cases h
  | single s ho h1 h2 h3 =>
    intro ts hts
    cases hts
    subst ho
    have hy := has_one hy
    refine has_flatMap hu (singletonPart_then ⟨h1, hy⟩ h2 h3 hux ?_ hb (hsame u hu hux))
    intro hs c hcl
    exact hc.noClass hs c (hcl ▸ hu)
  | member e i tr fa ho hs =>
    intro ts hts
    cases hts
    have hyv : y = .member e i ∧ i < w.members e := by
      rcases ho with ho | ⟨ho, hm, hi⟩
      · have := hc.valid e i ho
        subst ho; exact ⟨has_one hy, this⟩
      · have hf := hc.noFlag e ho
        subst ho
        obtain ⟨j, hj, rfl⟩ := has_one hy
        rw [hf, hm] at hj
        subst hi
        rcases hj with hj | hj
        · have : j = 0 := by omega
          exact ⟨by rw [this], by omega⟩
        · cases hj
    obtain ⟨rfl, hi⟩ := hyv
    rcases hsame u hu hux with rfl | ⟨he, hcu⟩
    · have := splitEnum_hit hs hu fun hit others hp => enumPart_then hp hux
        (fun c hcl => hc.noClass trivial c (hcl ▸ hu))
        (fun n hn => hc.noVar e i n rfl (hn ▸ hu)) hi rfl
      subst this
      exact ⟨_, List.mem_singleton.mpr rfl, rfl⟩
    · exfalso
      obtain ⟨hit, others, hp, _⟩ := splitEnum_part hs hu
      have hno := hc.noCustom e i rfl he
      subst he
      cases u with
      | any => simp [enumPart] at hp
      | cls c =>
        have : hasCustomEq w (.cls c) = true := hcu.1
        simp [enumPart, this] at hp
      | typeVar n =>
        have : hasCustomEq w (.typeVar n) = true := hcu
        simp [enumPart, this] at hp
      | enum e' =>
        have hcu := hcu.resolve_right fun ⟨_, l, hl⟩ => nomatch hl
        by_cases hee : e = e'
        · subst hee
          have := hcu.1
          rw [hno] at this; cases this
        · have : hasCustomEq w (.enum e') = true := hcu.1
          simp [enumPart, this, hee] at hp
      | member e' i' =>
        by_cases hee : e = e' ∧ i = i'
        · obtain ⟨rfl, rfl⟩ := hee
          have := hcu.1
          rw [hno] at this; cases this
        · have : hasCustomEq w (.member e' i') = true := hcu.1
          simp only [enumPart, if_neg hee, this] at hp
          cases hp
      | _ => exact hcu
  | optional hl hn ho =>
    intro ts hts
    cases hts
    have hyn : y ≠ .none := fun h => ho (hc.noneAlone h)
    have hxn : x ≠ .none := by
      rintro rfl
      rcases hsame .none hn rfl with h | ⟨_, h⟩
      · exact hyn h.symm
      · exact h
    exact has_flatMap hu (singletonPart_else ⟨trivial, rfl⟩ hux hb hxn)

theorem narrow_else {simpleKey : Bool} {checking other : List Ty} {isEq : Bool} {t f : Learned}
    (hb : Builtins w) (h : narrow w simpleKey checking other isEq = some (t, f)) {x y : Val}
    (hx : Has w r checking x) (hy : Has w r other y) (hne : x ≠ y)
    (hflag : ∀ (e : Nat), other = [.enum e] → w.isFlag e = false) : Fits w r f x := by
  obtain ⟨u, hu, hux⟩ := hx
  cases narrow_case h with
  | eqNone ho he =>
    intro ts hts
    cases hts
    subst ho
    exact has_flatMap hu (singletonPart_else ⟨trivial, has_one hy⟩ hux hb hne)
  | isNoneVar n ho he hch =>
    intro ts hts
    cases hts
    subst hch
    exact ⟨u, hu, hux⟩
  | single s ho h1 h2 h3 =>
    intro ts hts
    cases hts
    subst ho
    exact has_flatMap hu (singletonPart_else ⟨h1, has_one hy⟩ hux hb hne)
  | member e i tr fa ho hs =>
    intro ts hts
    cases hts
    have hyv : y = .member e i := by
      rcases ho with ho | ⟨ho, hm, hi⟩
      · subst ho; exact has_one hy
      · have hf := hflag e ho
        subst ho
        obtain ⟨j, hj, rfl⟩ := has_one hy
        rw [hf, hm] at hj
        subst hi
        rcases hj with hj | hj
        · have : j = 0 := by omega
          rw [this]
        · cases hj
    subst hyv
    obtain ⟨hit, others, hp, hsub⟩ := splitEnum_part hs hu
    obtain ⟨v, hv, hvx⟩ := enumPart_else hp hux hne
    exact ⟨v, hsub v hv, hvx⟩
  | optional => intro ts hts; cases hts

/-! ## Nothing is added, and what is split off is gone -/

theorem has_singleton {t : Ty} {x : Val} (h : Has w r [t] x) : t.Has w r x := has_one h

theorem not_has_nil {x : Val} (h : Has w r [] x) : False := by
  obtain ⟨_, h, _⟩ := h
  cases h

theorem enumPart_inside {e i : Nat} {isEq : Bool} {t : Ty} {hit : Bool} {others : List Ty}
    (h : enumPart w e i isEq t = some (hit, others)) {x : Val} (hx : Has w r others x) :
    t.Has w r x := by
  cases t with
  | enum e' =>
    simp only [enumPart] at h
    split at h
    · rename_i he
      subst he
      injection h with h; injection h with _ h
      split at h
      · subst h; exact has_one hx
      · subst h
        obtain ⟨u, hu, hh⟩ := hx
        obtain ⟨j, hj, rfl⟩ := List.mem_map.mp hu
        have := List.mem_range.mp (List.mem_filter.mp hj).1
        exact ⟨j, .inl this, hh⟩
    · split at h
      · cases h
      · split at h
        · cases h
        · injection h with h; injection h with _ h
          subst h; exact has_one hx
  | member e' i' =>
    simp only [enumPart] at h
    split at h
    · injection h with h; injection h with _ h
      subst h; exact (not_has_nil hx).elim
    · split at h
      · cases h
      · injection h with h; injection h with _ h
        subst h; exact has_one hx
  | any | object =>
    simp only [enumPart] at h
    split at h
    · cases h
    · injection h with h; injection h with _ h
      subst h; exact has_one hx
  | none =>
    simp only [enumPart] at h
    injection h with h; injection h with _ h
    subst h; exact has_one hx
  | _ =>
    simp only [enumPart] at h
    split at h
    · cases h
    · split at h
      · cases h
      · injection h with h; injection h with _ h
        subst h; exact has_one hx

theorem enumPart_exact {e i : Nat} {isEq : Bool} {t : Ty} {hit : Bool} {others : List Ty}
    (hb : Builtins w) (hf : Finite w t)
    (h : enumPart w e i isEq t = some (hit, others)) {x : Val} (hx : Has w r others x) :
    x ≠ .member e i := by
  have hin := enumPart_inside h hx
  rintro rfl
  cases t with
  | enum e' =>
    obtain ⟨j, _, hh⟩ := hin
    injection hh with h1 h2
    subst h1; subst h2
    simp only [enumPart, if_true] at h
    injection h with h; injection h with _ h
    rw [if_neg (by simp [hf.1])] at h
    subst h
    obtain ⟨u, hu, hh⟩ := hx
    obtain ⟨j, hj, rfl⟩ := List.mem_map.mp hu
    injection hh with _ h2
    have := (List.mem_filter.mp hj).2
    simp [h2] at this
  | member e' i' =>
    injection hin with h1 h2
    subst h1; subst h2
    simp only [enumPart, and_self, if_true] at h
    injection h with h; injection h with _ h
    subst h; exact not_has_nil hx
  | cls c =>
    have hf : c = cBool := hf
    subst hf
    obtain ⟨b, hh⟩ := hb.boolOnly _ hin
    cases hh
  | none | ellipsis | sentinel n | lit l b => cases hin
  | _ => exact hf

theorem literalPart_inside {l : Lit} {b : Bool} {t : Ty} (hb : Builtins w) {x : Val}
    (hx : Has w r (literalPart w l b t).2 x) : t.Has w r x := by
  unfold literalPart at hx
  cases hsp : splitBool t l with
  | some yn =>
    obtain ⟨yes, no⟩ := yn
    obtain ⟨c, rfl, rfl, rfl, rfl⟩ := splitBool_some hsp
    rw [hsp] at hx
    have : x = .lit (.bool (!c)) := has_one hx
    subst this
    exact hb.boolSub
  | none =>
    rw [hsp] at hx
    simp only at hx
    repeat' split at hx
    all_goals exact has_one hx

theorem singletonPart_inside {s : Ty} {isEq : Bool} {t : Ty} (hb : Builtins w) {x : Val}
    (hx : Has w r (singletonPart w s isEq t).2 x) : t.Has w r x := by
  cases t with
  | any => trivial
  | object => trivial
  | typeVar n => exact has_one hx
  | lit l b =>
    simp only [singletonPart] at hx
    split at hx
    · split at hx
      · exact (not_has_nil hx).elim
      · exact has_one hx
    · exact has_one hx
  | _ =>
    simp only [singletonPart] at hx
    split at hx
    · exact (not_has_nil hx).elim
    · split at hx
      · exact literalPart_inside hb hx
      · exact has_one hx

theorem singletonPart_exact {s : Ty} {isEq : Bool} {t : Ty} {x y : Val} (hb : Builtins w)
    (hs : Only w r s y) (hm : ∀ (e i : Nat), s ≠ .member e i) (hf : Finite w t)
    (hx : Has w r (singletonPart w s isEq t).2 x) :
    x ≠ y := by
  have hin := singletonPart_inside hb hx
  have hsy := hs.2
  rintro rfl
  cases t with
  | lit l b =>
    cases hin
    cases s with
    | lit l' b' =>
      cases hsy
      simp only [singletonPart, if_true] at hx
      exact not_has_nil hx
    | none | ellipsis | sentinel n | member e i => cases hsy
    | _ => exact hs.1
  | none | ellipsis | sentinel n | member e i =>
    cases hin
    cases s with
    | lit l' b' => cases hsy
    | none | ellipsis | sentinel n | member e i =>
      cases hsy <;> simp only [singletonPart, if_true] at hx <;> exact not_has_nil hx
    | _ => exact hs.1
  | enum e =>
    obtain ⟨j, _, rfl⟩ := hin
    cases s with
    | member e' i' =>
      exact absurd rfl (hm e' i')
    | lit l' b' | none | ellipsis | sentinel n => cases hsy
    | _ => exact hs.1
  | cls c =>
    have hf : c = cBool := hf
    subst hf
    obtain ⟨b, rfl⟩ := hb.boolOnly _ hin
    cases s with
    | lit l' b' =>
      cases hsy
      simp [singletonPart, literalPart, splitBool] at hx
      have := has_one hx
      cases b <;> cases this
    | none | ellipsis | sentinel n | member e i => cases hsy
    | _ => exact hs.1
  | _ => exact hf

/-! ## Excluding all values -/

theorem enumPart_is {e i : Nat} {t : Ty} : ∃ (hit : Bool) (others : List Ty),
    enumPart w e i false t = some (hit, others) := by
  cases t with
  | enum e' =>
    simp only [enumPart]
    split
    · exact ⟨_, _, rfl⟩
    · exact ⟨_, _, rfl⟩
  | member e' i' =>
    simp only [enumPart]
    split
    · exact ⟨_, _, rfl⟩
    · exact ⟨_, _, rfl⟩
  | _ => exact ⟨_, _, rfl⟩

theorem splitEnum_is {e i : Nat} (ts : List Ty) : ∃ (tr fa : List Ty),
    splitEnum w e i false ts = some (tr, fa) := by
  induction ts with
  | nil => exact ⟨[], [], rfl⟩
  | cons t ts ih =>
    obtain ⟨tr, fa, h⟩ := ih
    obtain ⟨hit, others, h'⟩ := enumPart_is (w := w) (e := e) (i := i) (t := t)
    simp only [splitEnum, h, h']
    exact ⟨_, _, rfl⟩

theorem enumPart_finite {e i : Nat} {isEq : Bool} {t : Ty} {hit : Bool} {others : List Ty}
    (hf : Finite w t) (h : enumPart w e i isEq t = some (hit, others)) :
    ∀ u ∈ others, Finite w u := by
  have keep : others = [t] → ∀ u ∈ others, Finite w u := by
    rintro rfl u hu
    rw [List.mem_singleton.mp hu]; exact hf
  cases t with
  | enum e' =>
    simp only [enumPart] at h
    split at h
    · rename_i he
      subst he
      injection h with h; injection h with _ h
      rw [if_neg (by simp [hf.1])] at h
      subst h
      intro u hu
      obtain ⟨j, hj, rfl⟩ := List.mem_map.mp hu
      trivial
    · split at h
      · cases h
      · split at h
        · cases h
        · injection h with h; injection h with _ h
          exact keep h.symm
  | member e' i' =>
    simp only [enumPart] at h
    split at h
    · injection h with h; injection h with _ h
      subst h
      intro u hu; cases hu
    · split at h
      · cases h
      · injection h with h; injection h with _ h
        exact keep h.symm
  | any | object => exact hf.elim
  | none =>
    simp only [enumPart] at h
    injection h with h; injection h with _ h
    exact keep h.symm
  | _ =>
    simp only [enumPart] at h
    split at h
    · cases h
    · split at h
      · cases h
      · injection h with h; injection h with _ h
        exact keep h.symm

theorem singletonPart_finite {s : Ty} {isEq : Bool} {t : Ty} (hf : Finite w t) :
    ∀ u ∈ (singletonPart w s isEq t).2, Finite w u := by
  have keep : ∀ u ∈ [t], Finite w u := by
    intro u hu
    rw [List.mem_singleton.mp hu]; exact hf
  have nil : ∀ u ∈ ([] : List Ty), Finite w u := by
    intro u hu; cases hu
  have lit : ∀ (l : Lit) (b : Bool), ∀ u ∈ (literalPart w l b t).2, Finite w u := by
    intro l b
    unfold literalPart
    cases hsp : splitBool t l with
    | some yn =>
      obtain ⟨yes, no⟩ := yn
      obtain ⟨c, rfl, rfl, rfl, rfl⟩ := splitBool_some hsp
      intro u hu
      rw [List.mem_singleton.mp hu]
      trivial
    | none =>
      simp only
      repeat' split
      all_goals exact keep
  cases t with
  | any | object | typeVar n => exact hf.elim
  | lit l b =>
    simp only [singletonPart]
    repeat' split
    all_goals first | exact keep | exact nil
  | _ =>
    simp only [singletonPart]
    split
    · exact nil
    · split
      · exact lit _ _
      · exact keep

theorem finite_inhabited {t : Ty} (r : Run) (hb : Builtins w) (hf : Finite w t) :
    ∃ (x : Val), t.Has w r x := by
  cases t with
  | none => exact ⟨.none, rfl⟩
  | ellipsis => exact ⟨.ellipsis, rfl⟩
  | sentinel n => exact ⟨.sentinel n, rfl⟩
  | lit l b => exact ⟨.lit l, rfl⟩
  | member e i => exact ⟨.member e i, rfl⟩
  | enum e => exact ⟨.member e 0, 0, .inl hf.2, rfl⟩
  | cls c =>
    have hf : c = cBool := hf
    subst hf
    exact ⟨.lit (.bool true), hb.boolSub⟩
  | _ => exact hf.elim

/-- One test with `is` against one object: the other branch has the same values but that one. -/
theorem exclude_one {simpleKey : Bool} {ts : List Ty} {s : Ty} (hb : Builtins w)
    (hf : ∀ t ∈ ts, Finite w t) (hs : OneValue s) :
    ∃ (t : Learned) (f : List Ty), narrow w simpleKey ts [s] false = some (t, some f) ∧
      (∀ u ∈ f, Finite w u) ∧
      ∀ (x : Val), Has w r f x ↔ (Has w r ts x ∧ ¬ s.Has w r x) := by
  have single : (∀ (e i : Nat), s ≠ .member e i) →
      narrow w simpleKey ts [s] false = some (some (splitSingleton w s false ts).1,
        some (splitSingleton w s false ts).2) →
      ∃ (t : Learned) (f : List Ty), narrow w simpleKey ts [s] false = some (t, some f) ∧
      (∀ u ∈ f, Finite w u) ∧
      ∀ (x : Val), Has w r f x ↔ (Has w r ts x ∧ ¬ s.Has w r x) := by
    intro hm h
    have only : ∀ (y : Val), s.Has w r y → Only w r s y := fun y hy => ⟨hs, hy⟩
    obtain ⟨y, hy⟩ : ∃ (y : Val), s.Has w r y := by
      cases s with
      | none => exact ⟨.none, rfl⟩
      | ellipsis => exact ⟨.ellipsis, rfl⟩
      | sentinel n => exact ⟨.sentinel n, rfl⟩
      | lit l b => exact ⟨.lit l, rfl⟩
      | member e i => exact ⟨.member e i, rfl⟩
      | _ => exact hs.elim
    refine ⟨_, _, h, ?_, fun x => ⟨fun hx => ?_, fun hx => ?_⟩⟩
    · intro u hu
      obtain ⟨t, ht, hu⟩ := List.mem_flatMap.mp hu
      exact singletonPart_finite (hf t ht) u hu
    · obtain ⟨t, ht, hx⟩ := of_has_flatMap hx
      refine ⟨⟨t, ht, singletonPart_inside hb hx⟩, fun hsx => ?_⟩
      exact singletonPart_exact hb (only x hsx) hm (hf t ht) hx rfl
    · obtain ⟨⟨t, ht, hx⟩, hns⟩ := hx
      exact has_flatMap ht (singletonPart_else (only y hy) hx hb fun hxy => hns (hxy ▸ hy))
  cases s with
  | none =>
    refine single (by simp) ?_
    simp only [narrow]
    have : ∀ (n : Nat), ts ≠ [.typeVar n] := by
      rintro n rfl
      exact hf _ (List.mem_singleton.mpr rfl)
    split
    · rename_i hh; cases hh
    · split
      · rename_i n
        exact absurd rfl (this n)
      · rfl
  | ellipsis => exact single (by simp) rfl
  | sentinel n => exact single (by simp) rfl
  | lit l b => exact single (by simp) rfl
  | member e i =>
    obtain ⟨tr, fa, h⟩ := splitEnum_is (w := w) (e := e) (i := i) ts
    refine ⟨some tr, fa, by simp [narrow, h], ?_, fun x => ⟨fun hx => ?_, fun hx => ?_⟩⟩
    · intro u hu
      obtain ⟨t, ht, hit, others, hp, hu⟩ := splitEnum_mem h hu
      exact enumPart_finite (hf t ht) hp u hu
    · obtain ⟨u, hu, hx⟩ := hx
      obtain ⟨t, ht, hit, others, hp, hu⟩ := splitEnum_mem h hu
      have hx : Has w r others x := ⟨u, hu, hx⟩
      exact ⟨⟨t, ht, enumPart_inside hp hx⟩, enumPart_exact hb (hf t ht) hp hx⟩
    · obtain ⟨⟨t, ht, hx⟩, hns⟩ := hx
      obtain ⟨hit, others, hp, hsub⟩ := splitEnum_part h ht
      obtain ⟨v, hv, hvx⟩ := enumPart_else hp hx hns
      exact ⟨v, hsub v hv, hvx⟩
  | _ => exact hs.elim

/-! ## Truth -/

theorem checkLiteral_then {t : Ty} {l : Lit} {tr fa : List Ty}
    (h : checkLiteral t l = some (tr, fa)) {x : Val} (hx : t.Has w r x) :
    (l.IsTrue → Has w r tr x) ∧ (¬ l.IsTrue → Has w r fa x) := by
  have self : Has w r [t] x := ⟨t, List.mem_singleton.mpr rfl, hx⟩
  cases l with
  | bool b =>
    cases b <;> simp only [checkLiteral] at h <;> injection h with h <;> injection h with h1 h2 <;>
      subst h1 <;> subst h2
    · exact ⟨fun h => (nomatch h), fun _ => self⟩
    · exact ⟨fun _ => self, fun h => absurd rfl h⟩
  | int i =>
    simp only [checkLiteral] at h
    split at h
    · rename_i hi
      injection h with h; injection h with h1 h2
      subst h1; subst h2
      exact ⟨fun _ => self, fun h => absurd hi h⟩
    · rename_i hi
      injection h with h; injection h with h1 h2
      subst h1; subst h2
      exact ⟨fun h => absurd h hi, fun _ => self⟩
  | _ => cases h

/-- A class without `__bool__` and `__len__` has only true instances. -/
theorem truth_plain {c : Nat} {x : Val} (hb : Builtins w)
    (hc : x.classOf w = c) (h1 : w.boolRet c = .missing) (h2 : w.lenRet c = .missing)
    (hne : ∀ (l : Lit), x ≠ .lit l) : Truth w r x = true := by
  subst hc
  cases x with
  | none => exact absurd h1 hb.noneBool
  | ellipsis => rfl
  | sentinel n => rfl
  | lit l => exact absurd rfl (hne l)
  | float i => exact absurd h1 hb.floatBool
  | member e i => simp only [Truth]; rw [if_neg (by simp [h1]), if_neg (by simp [h2])]
  | obj c id => simp only [Truth]; rw [if_neg (by simp [h1]), if_neg (by simp [h2])]

/-- The direct instances of a class of the builtins with literals. -/
theorem builtin_lit {x : Val} (hb : Builtins w)
    (hc : x.classOf w = cInt ∨ x.classOf w = cStr ∨ x.classOf w = cBytes) :
    ∃ (l : Lit), x = .lit l := by
  cases x with
  | lit l => exact ⟨l, rfl⟩
  | member e i =>
    have : 8 < w.enumClass e := hb.enumClasses e
    simp only [Val.classOf, cInt, cStr, cBytes] at hc
    omega
  | obj d id =>
    simp only [Val.classOf, cInt, cStr, cBytes] at hc
    omega
  | _ => simp [Val.classOf, cInt, cStr, cBytes, cNone, cFloat] at hc

theorem truthPart_sound {t : Ty} {tr fa : List Ty} (hb : Builtins w)
    (h : truthPart w t = some (tr, fa)) {x : Val} (hx : t.Has w r x) (hh : Honest w r x)
    (hd : Direct w t x) :
    (Truth w r x = true → Has w r tr x) ∧ (Truth w r x = false → Has w r fa x) := by
  have self : Has w r [t] x := ⟨t, List.mem_singleton.mpr rfl, hx⟩
  have use : ∀ (l : Lit), checkLiteral t l = some (tr, fa) → (Truth w r x = true ↔ l.IsTrue) →
      (Truth w r x = true → Has w r tr x) ∧ (Truth w r x = false → Has w r fa x) := by
    intro l hc hl
    have := checkLiteral_then hc hx
    refine ⟨fun h => this.1 (hl.mp h), fun h => this.2 fun ht => ?_⟩
    rw [hl.mpr ht] at h; cases h
  have enum : ∀ (e : Nat), x.classOf w = w.enumClass e → (∀ (l : Lit), x ≠ .lit l) →
      (match byReturn t (w.boolRet (w.enumClass e)) with
        | some r => r
        | none =>
          match byReturn t (w.lenRet (w.enumClass e)) with
          | some r => r
          | none => some ([t], [])) = some (tr, fa) →
      (Truth w r x = true → Has w r tr x) ∧ (Truth w r x = false → Has w r fa x) := by
    intro e hc hne h
    cases h1 : w.boolRet (w.enumClass e) with
    | unknown => rw [h1] at h; cases h
    | lit l => rw [h1] at h; exact use l h (hh.bool l (hc ▸ h1))
    | missing =>
      rw [h1] at h
      cases h2 : w.lenRet (w.enumClass e) with
      | unknown => rw [h2] at h; cases h
      | lit l => rw [h2] at h; exact use l h (hh.len (hc ▸ h1) l (hc ▸ h2))
      | missing =>
        rw [h2] at h
        injection h with h; injection h with h3 h4
        subst h3; subst h4
        have := truth_plain (r := r) hb hc h1 h2 hne
        exact ⟨fun _ => self, fun h => by rw [this] at h; cases h⟩
  cases t with
  | none =>
    injection h with h; injection h with h1 h2
    subst h1; subst h2
    cases hx
    exact ⟨fun h => (by cases h), fun _ => self⟩
  | lit l b =>
    cases hx
    refine use l h ?_
    cases l <;> simp [Truth, Lit.IsTrue]
  | enum e =>
    obtain ⟨j, _, rfl⟩ := hx
    exact enum e rfl (by simp) h
  | member e i =>
    cases hx
    exact enum e rfl (by simp) h
  | cls c =>
    have hc := hd c rfl
    simp only [truthPart] at h
    cases hsp : splitBool (.cls c) (.bool true) with
    | some yn =>
      obtain ⟨yes, no⟩ := yn
      obtain ⟨b, hcb, hbt, rfl, rfl⟩ := splitBool_some hsp
      injection hcb with hcb
      injection hbt with hbt
      subst hcb; subst hbt
      rw [hsp] at h
      injection h with h; injection h with h1 h2
      subst h1; subst h2
      obtain ⟨d, rfl⟩ := hb.boolOnly x hx
      cases d
      · exact ⟨fun h => (by cases h), fun _ => ⟨_, List.mem_singleton.mpr rfl, rfl⟩⟩
      · exact ⟨fun _ => ⟨_, List.mem_singleton.mpr rfl, rfl⟩, fun h => (by cases h)⟩
    | none =>
      have hnb : c ≠ cBool := by
        rintro rfl
        simp [splitBool] at hsp
      rw [hsp] at h
      simp only at h
      -- the instances of the builtins
      have lits : ∀ (l : Lit), x = .lit l → l.cls = c := by
        rintro l rfl
        rw [← hc, lit_cls]
      split at h
      · rename_i hci
        subst hci
        injection h with h; injection h with h1 h2
        subst h1; subst h2
        refine ⟨fun _ => self, fun hf => ⟨_, List.mem_singleton.mpr rfl, ?_⟩⟩
        obtain ⟨l, rfl⟩ := builtin_lit hb (.inl hc)
        cases l with
        | int i =>
          have : i = 0 := by simpa [Truth] using hf
          rw [this]; rfl
        | _ => cases hc
      · rename_i hni
        split at h
        · rename_i hcs
          subst hcs
          injection h with h; injection h with h1 h2
          subst h1; subst h2
          refine ⟨fun _ => self, fun hf => ⟨_, List.mem_singleton.mpr rfl, ?_⟩⟩
          obtain ⟨l, rfl⟩ := builtin_lit hb (.inr (.inl hc))
          cases l with
          | str s =>
            have : s = "" := by simpa [Truth] using hf
            rw [this]; rfl
          | _ => cases hc
        · rename_i hns
          split at h
          · rename_i hcy
            subst hcy
            injection h with h; injection h with h1 h2
            subst h1; subst h2
            refine ⟨fun _ => self, fun hf => ⟨_, List.mem_singleton.mpr rfl, ?_⟩⟩
            obtain ⟨l, rfl⟩ := builtin_lit hb (.inr (.inr hc))
            cases l with
            | bytes s =>
              have : s = "" := by simpa [Truth] using hf
              rw [this]; rfl
            | _ => cases hc
          · rename_i hny
            have hne : ∀ (l : Lit), x ≠ .lit l := by
              intro l hl
              have := lits l hl
              cases l
              · exact hnb this.symm
              · exact hni this.symm
              · exact hns this.symm
              · exact hny this.symm
            cases h1 : w.boolRet c with
            | unknown => rw [h1] at h; cases h
            | lit l => rw [h1] at h; exact use l h (hh.bool l (hc ▸ h1))
            | missing =>
              rw [h1] at h
              simp only [byReturn] at h
              split at h
              · rename_i n hn
                refine use (.int n) h ?_
                have := hh.fields (hc ▸ h1) n (hc ▸ hn)
                rw [this]
                simp [Lit.IsTrue]
              · cases h2 : w.lenRet c with
                | unknown => rw [h2] at h; cases h
                | lit l => rw [h2] at h; exact use l h (hh.len (hc ▸ h1) l (hc ▸ h2))
                | missing =>
                  rw [h2] at h
                  simp only at h
                  split at h
                  · injection h with h; injection h with h3 h4
                    subst h3; subst h4
                    have := truth_plain (r := r) hb hc h1 h2 hne
                    exact ⟨fun _ => self, fun h => by rw [this] at h; cases h⟩
                  · cases h
  | _ => cases h

/-! ## Tuples -/

theorem inTuple_sound {meet : List Ty → List Ty → List Ty} {simpleKey : Bool}
    {checking : List Ty} (hb : Builtins w)
    (hmeet : ∀ (a b : List Ty) (v : Val), Has w r a v → Has w r b v → Has w r (meet a b) v)
    {items : List (List Ty)} {ys : List Val} (hys : EachHas w r items ys) {x : Val}
    (hx : Has w r checking x) {acc res : Learned × Learned}
    (h : inTuple w meet simpleKey checking items acc = some res) :
    ((∀ (item : List Ty) (y : Val), Has w r item y → item ∈ items → y ∈ ys →
        Handled w r checking item true y ∧ EqualOnlyIfSame w r checking x y) →
      (Fits w r acc.1 x ∨ In w r x ys) → Fits w r res.1 x) ∧
    ((∀ (e : Nat), [.enum e] ∈ items → w.isFlag e = false) →
      Fits w r acc.2 x → ¬ In w r x ys → Fits w r res.2 x) := by
  induction hys generalizing acc res with
  | nil =>
    simp only [inTuple] at h
    injection h with h
    subst h
    refine ⟨fun _ hin => ?_, fun _ ha _ => ha⟩
    rcases hin with h | ⟨y, hy, _⟩
    · exact h
    · cases hy
  | @cons item y items ys hy _ ih =>
    obtain ⟨a1, a2⟩ := acc
    simp only [inTuple] at h
    split at h
    · cases h
    · rename_i t f hn
      obtain ⟨ih1, ih2⟩ := ih h
      constructor
      · intro hall hin
        refine ih1 (fun i z hz hi hzz => hall i z hz (by simp [hi]) (by simp [hzz])) ?_
        have merged : ∀ (l : Learned), (l = a1 ∨ l = t) → Fits w r l x →
            Fits w r (mergeOr a1 t) x := by
          intro l hl hfit ts hts
          cases a1 with
          | none => cases hts
          | some a =>
            cases t with
            | none => cases hts
            | some b =>
              injection hts with hts
              subst hts
              rcases hl with rfl | rfl
              · obtain ⟨u, hu, hux⟩ := hfit a rfl
                exact ⟨u, List.mem_append.mpr (.inl hu), hux⟩
              · obtain ⟨u, hu, hux⟩ := hfit b rfl
                exact ⟨u, List.mem_append.mpr (.inr hu), hux⟩
        rcases hin with hfit | ⟨z, hz, htest⟩
        · exact .inl (merged a1 (.inl rfl) hfit)
        · rcases List.mem_cons.mp hz with rfl | hz
          · obtain ⟨hh, he⟩ := hall item z hy (by simp) (by simp)
            refine .inl (merged t (.inr rfl) (narrow_then hb hn hx hy hh fun u hu hux => ?_))
            rcases htest with h | h
            · exact .inl h
            · by_cases hs : SaysCustom w u z
              · exact .inr ⟨rfl, hs⟩
              · exact .inl (he u hu hux hs h)
          · exact .inr ⟨z, hz, htest⟩
      · intro hflag ha hnot
        refine ih2 (fun e he => hflag e (by simp [he])) ?_
          (fun ⟨z, hz, h⟩ => hnot ⟨z, by simp [hz], h⟩)
        have hne : x ≠ y := fun h => hnot ⟨y, by simp, .inl h⟩
        have hf := narrow_else hb hn hx hy hne fun e he => hflag e (by simp [he])
        intro ts hts
        cases a2 with
        | none => exact hf ts hts
        | some a =>
          cases f with
          | none => exact ha ts hts
          | some b =>
            injection hts with hts
            subst hts
            exact hmeet a b x (ha a rfl) (hf b rfl)

end Verif.Equality
