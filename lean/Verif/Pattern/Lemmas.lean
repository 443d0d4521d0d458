import Verif.Pattern.Spec

/-!
# Lemmas about patterns
-/

namespace Verif.Pattern

variable {B V : Type} {r : Run B V} {w : World B}

/-! ## Types -/

theorem has_iff {T : Un B} {v : V} : Has r T v ↔ ∃ t ∈ T, t.Has r v := by
  induction T with
  | nil => simp [Has]
  | cons t T ih => simp [Has, ih]

theorem has_mono {T U : Un B} {v : V} (h : ∀ t ∈ T, t ∈ U) (hx : Has r T v) : Has r U v := by
  obtain ⟨t, ht, hv⟩ := has_iff.mp hx
  exact has_iff.mpr ⟨t, h t ht, hv⟩

theorem has_left {T U : Un B} {v : V} (hx : Has r T v) : Has r (T ++ U) v :=
  has_mono (fun _ h => List.mem_append_left _ h) hx

theorem has_right {T U : Un B} {v : V} (hx : Has r U v) : Has r (T ++ U) v :=
  has_mono (fun _ h => List.mem_append_right _ h) hx

theorem has_single {t : Ty B} {v : V} : Has r [t] v ↔ t.Has r v := by simp [Has]

theorem has_ne {T : Un B} {v : V} (h : Has r T v) : T ≠ [] := by
  rintro rfl
  exact h

theorem has_flatMap {α : Type} {f : α → Un B} {l : List α} {a : α} {v : V} (ha : a ∈ l)
    (h : Has r (f a) v) : Has r (l.flatMap f) v := by
  obtain ⟨t, ht, hv⟩ := has_iff.mp h
  exact has_iff.mpr ⟨t, List.mem_flatMap.mpr ⟨a, ha, ht⟩, hv⟩

theorem has_flatten {Ts : List (Un B)} {T : Un B} {v : V} (ha : T ∈ Ts)
    (h : Has r T v) : Has r Ts.flatten v := by
  obtain ⟨t, ht, hv⟩ := has_iff.mp h
  exact has_iff.mpr ⟨t, List.mem_flatten.mpr ⟨T, ha, ht⟩, hv⟩

theorem hasAll_length : ∀ {Ts : List (Un B)} {vs : List V}, HasAll r Ts vs → Ts.length = vs.length
  | [], vs, h => by simp only [HasAll] at h; subst h; rfl
  | T :: Ts, vs, h => by
    simp only [HasAll] at h
    obtain ⟨v, rest, rfl, _, h⟩ := h
    simp [hasAll_length h]

theorem hasAll_cons {T : Un B} {Ts : List (Un B)} {v : V} {vs : List V} :
    HasAll r (T :: Ts) (v :: vs) ↔ Has r T v ∧ HasAll r Ts vs := by
  simp only [HasAll]
  constructor
  · rintro ⟨v', rest, h, h1, h2⟩
    injection h with ha hb
    subst ha hb
    exact ⟨h1, h2⟩
  · rintro ⟨h1, h2⟩
    exact ⟨v, vs, rfl, h1, h2⟩

theorem hasAll_append : ∀ {As Bs : List (Un B)} {us vs : List V}, HasAll r As us →
    HasAll r Bs vs → HasAll r (As ++ Bs) (us ++ vs)
  | [], Bs, us, vs, h, h' => by simp only [HasAll] at h; subst h; simpa using h'
  | T :: As, Bs, us, vs, h, h' => by
    simp only [HasAll] at h
    obtain ⟨v, rest, rfl, hv, h⟩ := h
    exact hasAll_cons.mpr ⟨hv, hasAll_append h h'⟩

theorem hasAll_split : ∀ {As Bs : List (Un B)} {us vs : List V}, As.length = us.length →
    HasAll r (As ++ Bs) (us ++ vs) → HasAll r As us ∧ HasAll r Bs vs
  | [], Bs, us, vs, hl, h => by
    have : us = [] := List.length_eq_zero_iff.mp (by simpa using hl.symm)
    subst this
    exact ⟨rfl, by simpa using h⟩
  | T :: As, Bs, us, vs, hl, h => by
    cases us with
    | nil => simp at hl
    | cons u us =>
      have h := hasAll_cons.mp h
      have := hasAll_split (by simpa using hl) h.2
      exact ⟨hasAll_cons.mpr ⟨h.1, this.1⟩, this.2⟩

theorem hasAll_mem : ∀ {Ts : List (Un B)} {vs : List V}, HasAll r Ts vs → ∀ x ∈ vs,
    ∃ T ∈ Ts, Has r T x
  | [], vs, h, x, hx => by simp only [HasAll] at h; subst h; cases hx
  | T :: Ts, vs, h, x, hx => by
    simp only [HasAll] at h
    obtain ⟨v, rest, rfl, hv, h⟩ := h
    rcases List.mem_cons.mp hx with rfl | hx
    · exact ⟨T, List.mem_cons_self, hv⟩
    · obtain ⟨U, hU, hx⟩ := hasAll_mem h x hx
      exact ⟨U, List.mem_cons_of_mem _ hU, hx⟩

theorem hasAll_flatten {Ts : List (Un B)} {vs : List V} (h : HasAll r Ts vs) :
    ∀ x ∈ vs, Has r Ts.flatten x := by
  intro x hx
  obtain ⟨T, hT, hx⟩ := hasAll_mem h x hx
  exact has_flatten hT hx

/-! ## Names -/

theorem bound_nil {caps : List (Nat × Un B)} : Bound r ([] : Binds V) caps := by
  intro n x h
  cases h

theorem bound_append {σ σ' : Binds V} {c c' : List (Nat × Un B)} (h : Bound r σ c)
    (h' : Bound r σ' c') : Bound r (σ ++ σ') (c ++ c') := by
  intro n x hx
  rcases List.mem_append.mp hx with hx | hx
  · obtain ⟨T, hT, h⟩ := h n x hx
    exact ⟨T, List.mem_append_left _ hT, h⟩
  · obtain ⟨T, hT, h⟩ := h' n x hx
    exact ⟨T, List.mem_append_right _ hT, h⟩

theorem bound_mono {σ : Binds V} {c c' : List (Nat × Un B)} (hc : ∀ k ∈ c, k ∈ c')
    (h : Bound r σ c) : Bound r σ c' := by
  intro n x hx
  obtain ⟨T, hT, h⟩ := h n x hx
  exact ⟨T, hc _ hT, h⟩

theorem bound_one {n : Nat} {v : V} {T : Un B} (h : Has r T v) : Bound r [(n, v)] [(n, T)] := by
  intro m x hx
  simp only [List.mem_singleton, Prod.mk.injEq] at hx
  obtain ⟨rfl, rfl⟩ := hx
  exact ⟨T, List.mem_singleton_self _, h⟩

theorem matchesAll_length : ∀ {ps : List Pat} {vs : List V} {σ : Binds V},
    MatchesAll r ps vs σ → ps.length = vs.length
  | [], vs, σ, h => by simp only [MatchesAll] at h; rw [h.1]; rfl
  | p :: ps, vs, σ, h => by
    simp only [MatchesAll] at h
    obtain ⟨x, rest, σ1, σ2, rfl, _, h, _⟩ := h
    simp [matchesAll_length h]

/-! ## Patterns that always match -/

mutual

theorem total_matches : ∀ (p : Pat), Total p → ∀ (v : V), ∃ (σ : Binds V), Matches r p v σ
  | .capture n, _, v => ⟨_, rfl⟩
  | .wild, _, v => ⟨_, rfl⟩
  | .value _, h, _ => h.elim
  | .as p n, h, v => by
    obtain ⟨σ, hm⟩ := total_matches p h v
    exact ⟨_, σ, hm, rfl⟩
  | .or ps, h, v => totalAny_matches ps h v
  | .cls _ _ _, h, _ => h.elim
  | .seq _ _ _, h, _ => h.elim

theorem totalAny_matches : ∀ (ps : List Pat), TotalAny ps → ∀ (v : V),
    ∃ (σ : Binds V), MatchesOr r ps v σ
  | [], h, _ => h.elim
  | p :: ps, h, v => by
    by_cases hp : ∃ (σ : Binds V), Matches r p v σ
    · obtain ⟨σ, hp⟩ := hp
      exact ⟨σ, .inl hp⟩
    · rcases h with h | h
      · exact absurd (total_matches p h v) hp
      · obtain ⟨σ, hm⟩ := totalAny_matches ps h v
        exact ⟨σ, .inr ⟨fun σ' h' => hp ⟨σ', h'⟩, hm⟩⟩

end

theorem posNames_match : ∀ {pos : List Pat} {ns : List Nat} {self : Prop} {v : V},
    pos.length ≤ ns.length → (∀ n ∈ ns, (r.attr v n).isSome) → (∀ p ∈ pos, Total p) →
    ∃ (σ : Binds V), MatchesPos r pos (some ns) self v σ
  | [], ns, self, v, _, _, _ => ⟨[], rfl⟩
  | p :: pos, [], self, v, h, _, _ => by simp at h
  | p :: pos, n :: ns, self, v, h, ha, hp => by
    obtain ⟨x, hx⟩ := Option.isSome_iff_exists.mp (ha n List.mem_cons_self)
    obtain ⟨σ1, h1⟩ := total_matches (r := r) p (hp p List.mem_cons_self) x
    obtain ⟨σ2, h2⟩ := posNames_match (pos := pos) (ns := ns) (self := self) (v := v)
      (by simpa using h) (fun m hm => ha m (List.mem_cons_of_mem _ hm))
      (fun q hq => hp q (List.mem_cons_of_mem _ hq))
    exact ⟨_, x, σ1, σ2, hx, h1, h2, rfl⟩

theorem posTotal_match {c : Nat} {pos : List Pat} {v : V} (h : PosTotal r c pos)
    (hi : r.inst c v) : ∃ (σ : Binds V), MatchesPos r pos (r.matchArgs c) (r.selfMatch c) v σ := by
  rcases h with rfl | ⟨ns, hn, hl, ha, hp⟩ | ⟨p, rfl, hn, hs, hp⟩
  · exact ⟨[], rfl⟩
  · rw [hn]
    exact posNames_match hl (ha v hi) hp
  · obtain ⟨σ, hm⟩ := total_matches (r := r) p hp v
    refine ⟨σ, ?_⟩
    rw [hn]
    exact ⟨hs, rfl, hm⟩

theorem kwTotal_match : ∀ {kw : List (Nat × Pat)} {v : V},
    (∀ (n : Nat) (p : Pat), (n, p) ∈ kw → Total p ∧ (r.attr v n).isSome) →
    ∃ (σ : Binds V), MatchesKw r kw v σ
  | [], v, _ => ⟨[], rfl⟩
  | (n, p) :: kw, v, h => by
    obtain ⟨hp, ha⟩ := h n p List.mem_cons_self
    obtain ⟨x, hx⟩ := Option.isSome_iff_exists.mp ha
    obtain ⟨σ1, h1⟩ := total_matches (r := r) p hp x
    obtain ⟨σ2, h2⟩ := kwTotal_match (kw := kw) (v := v)
      (fun m q hq => h m q (List.mem_cons_of_mem _ hq))
    exact ⟨_, x, σ1, σ2, hx, h1, h2, rfl⟩

/-! ## Safe types -/

theorem star_caps_bound {star : Option (Option Nat)} {vs : List V} {σ : Binds V} {T : Un B}
    (hs : Sound r w) (h : match star with
      | some (some n) => ∃ (l : V), r.newList vs l ∧ σ = [(n, l)]
      | _ => σ = []) (hT : ∀ x ∈ vs, Has r T x) :
    Bound r σ (starCaps star (.leaf (w.listOf T))) := by
  match star with
  | some (some n) =>
    obtain ⟨l, hl, h⟩ := h
    subst h
    exact bound_one (has_single.mpr (hs.listOf T vs l hl hT))
  | some none => cases h; exact bound_nil
  | none => cases h; exact bound_nil

theorem star_exists (hs : Sound r w) (star : Option (Option Nat)) (vs : List V) :
    ∃ (σ : Binds V), match star with
      | some (some n) => ∃ (l : V), r.newList vs l ∧ σ = [(n, l)]
      | _ => σ = [] := by
  match star with
  | some (some n) =>
    obtain ⟨l, hl⟩ := hs.fresh vs
    exact ⟨_, l, hl, rfl⟩
  | some none => exact ⟨[], rfl⟩
  | none => exact ⟨[], rfl⟩

/-! ## If the pattern does not match -/

/-- What is known about a list of patterns that cannot fail. -/
def ZipSure (r : Run B V) (w : World B) (ps : List Pat) (Ts : List (Un B)) : Prop :=
  ∀ (vs : List V), HasAll r Ts vs → ps.length = Ts.length →
    (guardsZip w ps Ts).types ≠ none → (guardsZip w ps Ts).sure = true →
    ∃ (σ : Binds V), MatchesAll r ps vs σ

theorem andThen_falsey {z z' : Zip B} {caps : List (Nat × Un B)}
    {build : List (Un B) → List (Un B) → Ty B} {all : Ty B} {exact' : Bool} {v : V}
    (hv : all.Has r v)
    (h : z.types ≠ none → z'.types ≠ none → z.sure = true → z'.sure = true → exact' = true → False) :
    Has r (z.andThen caps z' build all exact').falsey v := by
  unfold Zip.andThen
  cases hz : z.types with
  | none => exact has_single.mpr hv
  | some ts =>
    cases hz' : z'.types with
    | none => exact has_single.mpr hv
    | some ts' =>
      dsimp only
      split
      · rename_i hc
        simp only [Bool.and_eq_true] at hc
        exact (h (by simp [hz]) (by simp [hz']) hc.1.1 hc.1.2 hc.2).elim
      · exact has_single.mpr hv

/-- The parts of a sequence pattern. -/
abbrev parts (w : World B) (before : List Pat) (star : Option (Option Nat)) (after : List Pat) :
    Parts B :=
  ⟨before.length, after.length, fun Ts => guardsZip w before Ts, fun Ts => guardsZip w after Ts,
    fun item => guardsSeq w before item, fun item => guardsSeq w after item, star⟩

/-- The stars of a sequence pattern are handled well with a type. -/
def SeqOk (r : Run B V) (w : World B) (before : List Pat) (star : Option (Option Nat)) (after : List Pat)
    (t : Ty B) : Prop :=
  (star = none ∧ after = [] ∧ StarlessAll before) ∨ ∃ (P : Ty B → Prop), StarSafe r w P ∧ P t

theorem tuplePart_else (hs : Sound r w) {before after : List Pat} {star : Option (Option Nat)}
    {t : Ty B} {v : V} (hv : t.Has r v) (hok : SeqOk r w before star after t)
    (hf : Fails r (.seq before star after) v)
    (hz : ∀ (Ts : List (Un B)), t = .fixed Ts →
      ZipSure r w before (Ts.take before.length) ∧
      ZipSure r w after (Ts.drop (Ts.length - after.length))) :
    Has r (tuplePart w (parts w before star after) t).falsey v := by
  cases t with
  | leaf b => exact has_single.mpr hv
  | seq T => exact has_single.mpr hv
  | arb T => exact has_single.mpr hv
  | unpack bs m as =>
    rcases hok with ⟨rfl, _⟩ | ⟨P, hP, hp⟩
    · simp only [tuplePart]
      split
      · exact has_single.mpr hv
      · exact andThen_falsey hv fun _ _ _ _ h => nomatch h
    · exact absurd hp (hP.noUnpack _ _ _)
  | fixed Ts =>
    obtain ⟨hzb, hza⟩ := hz Ts rfl
    have hv' := hv
    simp only [Ty.Has] at hv
    obtain ⟨htup, vs, hvs, hall⟩ := hv
    simp only [tuplePart]
    split
    · exact has_single.mpr hv'
    · rename_i hlen
      simp only [not_or, not_and, Nat.not_lt] at hlen
      refine andThen_falsey hv' fun h1 h2 h3 h4 _ => ?_
      have hl := hasAll_length hall
      -- the three parts of the values
      have hn : before.length + after.length ≤ Ts.length := hlen.2
      have e : Ts = Ts.take before.length ++ ((Ts.drop before.length).take
          (Ts.length - (before.length + after.length)) ++ Ts.drop (Ts.length - after.length)) := by
        have : Ts.drop (Ts.length - after.length) =
            (Ts.drop before.length).drop (Ts.length - (before.length + after.length)) := by
          rw [List.drop_drop]; congr 1; omega
        rw [this, List.take_append_drop, List.take_append_drop]
      have e' : vs = vs.take before.length ++ ((vs.drop before.length).take
          (vs.length - (before.length + after.length)) ++ vs.drop (vs.length - after.length)) := by
        have : vs.drop (vs.length - after.length) =
            (vs.drop before.length).drop (vs.length - (before.length + after.length)) := by
          rw [List.drop_drop]; congr 1; omega
        rw [this, List.take_append_drop, List.take_append_drop]
      rw [e, e'] at hall
      obtain ⟨ha, hrest⟩ := hasAll_split (by simp; omega) hall
      obtain ⟨_, hb⟩ := hasAll_split (by simp; omega) hrest
      obtain ⟨σ1, m1⟩ := hzb _ ha (by simp; omega) h1 h3
      obtain ⟨σ3, m3⟩ := hza _ hb (by simp; omega) h2 h4
      obtain ⟨σ2, m2⟩ := star_exists hs star
        ((vs.drop before.length).take (vs.length - (before.length + after.length)))
      refine hf (σ1 ++ σ2 ++ σ3) ⟨hs.noText v htup, _, _, _, σ1, σ2, σ3, ?_, m1, m3, ?_, m2, rfl⟩
      · rw [hvs, List.append_assoc, ← e']
      · rintro rfl
        have := hlen.1 rfl
        rw [show vs.length - (before.length + after.length) = 0 by omega, List.take_zero]

theorem seqPart_else (hs : Sound r w) {before after : List Pat} {star : Option (Option Nat)}
    {t : Ty B} {v : V} (hv : t.Has r v) (hok : SeqOk r w before star after t)
    (hf : Fails r (.seq before star after) v)
    (hz : ∀ (u : Ty B), SeqOk r w before star after u → ∀ (Ts : List (Un B)), u = .fixed Ts →
      ZipSure r w before (Ts.take before.length) ∧
      ZipSure r w after (Ts.drop (Ts.length - after.length))) :
    Has r (seqPart w (parts w before star after) t).falsey v := by
  cases t with
  | leaf b =>
    simp only [seqPart]
    cases hk : w.kind b with
    | text => exact has_single.mpr hv
    | any => exact has_single.mpr hv
    | sequence T => exact has_single.mpr hv
    | other => exact has_single.mpr hv
    | tuple args =>
      have hok' : SeqOk r w before star after args := by
        rcases hok with h | ⟨P, hP, hp⟩
        · exact .inl h
        · exact .inr ⟨P, hP, hP.tuple b args hp hk⟩
      exact tuplePart_else hs (hs.tuple b v args hk hv) hok' hf (hz _ hok')
  | seq T => exact has_single.mpr hv
  | arb T => exact tuplePart_else hs hv hok hf (hz _ hok)
  | unpack bs m as => exact tuplePart_else hs hv hok hf (hz _ hok)
  | fixed Ts => exact tuplePart_else hs hv hok hf (hz _ hok)

/-! ## The set of safe types is closed -/

variable {P : Ty B → Prop}

/-- All members of all unions are in the set. -/
abbrev AllIn (P : Ty B → Prop) (Ts : List (Un B)) : Prop := ∀ T ∈ Ts, ∀ u ∈ T, P u

theorem tuplePart_falsey (ps : Parts B) (t : Ty B) :
    ∀ u ∈ (tuplePart w ps t).falsey, u = t := by
  have one : ∀ u ∈ [t], u = t := fun u hu => List.mem_singleton.mp hu
  have hz : ∀ (z z' : Zip B) (caps : List (Nat × Un B)) (build : List (Un B) → List (Un B) → Ty B)
      (e : Bool), ∀ u ∈ (z.andThen caps z' build t e).falsey, u = t := by
    intro z z' caps build e u hu
    unfold Zip.andThen at hu
    split at hu
    · exact one u hu
    · split at hu
      · exact one u hu
      · dsimp only at hu
        split at hu
        · cases hu
        · exact one u hu
  cases t with
  | leaf b => exact one
  | seq T => exact one
  | arb T => exact one
  | unpack bs m as =>
    simp only [tuplePart]
    split
    · exact one
    · exact hz _ _ _ _ _
  | fixed Ts =>
    simp only [tuplePart]
    split
    · exact one
    · exact hz _ _ _ _ _

theorem seqPart_safe (hP : StarSafe r w P) (ps : Parts B) {t : Ty B} (ht : P t) :
    ∀ u ∈ (seqPart w ps t).falsey, P u := by
  have one : ∀ u ∈ [t], P u := fun u hu => by rw [List.mem_singleton.mp hu]; exact ht
  have tp : ∀ (s : Ty B), P s → ∀ u ∈ (tuplePart w ps s).falsey, P u := fun s hs u hu => by
    rw [tuplePart_falsey ps s u hu]; exact hs
  cases t with
  | leaf b =>
    simp only [seqPart]
    cases hk : w.kind b with
    | text => exact one
    | any => exact one
    | sequence T => exact one
    | other => exact one
    | tuple args => exact tp _ (hP.tuple b args ht hk)
  | seq T => exact one
  | arb T => exact tp _ ht
  | unpack bs m as => exact tp _ ht
  | fixed Ts => exact tp _ ht

theorem classPart_types (t : Ty B) (pos kw : Args × List (Nat × Un B)) :
    (∀ u ∈ (classPart t pos kw).truthy, u = t) ∧ ∀ u ∈ (classPart t pos kw).falsey, u = t := by
  unfold classPart
  split
  · exact ⟨fun u h => List.mem_singleton.mp h, fun u h => List.mem_singleton.mp h⟩
  · exact ⟨(fun u h => nomatch h), fun u h => List.mem_singleton.mp h⟩
  · exact ⟨(fun u h => nomatch h), fun u h => List.mem_singleton.mp h⟩
  · split
    · exact ⟨(fun u h => nomatch h), fun u h => List.mem_singleton.mp h⟩
    · exact ⟨fun u h => List.mem_singleton.mp h, (fun u h => nomatch h)⟩

mutual

theorem guards_safe (hP : StarSafe r w P) : ∀ (p : Pat) (T : Un B), (∀ t ∈ T, P t) →
    ∀ t ∈ (guards w p T).falsey, P t
  | .capture n, T, h => fun t ht => nomatch ht
  | .wild, T, h => fun t ht => nomatch ht
  | .value k, T, h => hP.value k T h
  | .as p n, T, h => guards_safe hP p T h
  | .or ps, T, h => guardsOr_safe hP ps T h
  | .cls c pos kw, T, h => by
    have hi := hP.isa c T h
    simp only [guards, gather]
    intro t ht
    rcases List.mem_append.mp ht with ht | ht
    · exact hi.2 t ht
    · obtain ⟨x, hx, ht⟩ := List.mem_flatMap.mp ht
      obtain ⟨u, hu, rfl⟩ := List.mem_map.mp hx
      rw [(classPart_types u _ _).2 t ht]
      exact hi.1 u hu
  | .seq before star after, T, h => by
    simp only [guards, gather]
    intro t ht
    obtain ⟨x, hx, ht⟩ := List.mem_flatMap.mp ht
    obtain ⟨u, hu, rfl⟩ := List.mem_map.mp hx
    exact seqPart_safe hP _ (h u hu) t ht

theorem guardsOr_safe (hP : StarSafe r w P) : ∀ (ps : List Pat) (T : Un B), (∀ t ∈ T, P t) →
    ∀ t ∈ (guardsOr w ps T).falsey, P t
  | [], T, h => h
  | p :: ps, T, h => guardsOr_safe hP ps _ (guards_safe hP p T h)

end

/-! ## The other branch -/

/-- The starred patterns of a list are handled well with types for each of them. -/
def ZipOk (r : Run B V) (w : World B) (ps : List Pat) (Ts : List (Un B)) : Prop :=
  StarlessAll ps ∨ ∃ (P : Ty B → Prop), StarSafe r w P ∧ AllIn P Ts

theorem seqOk_zip {before after : List Pat} {star : Option (Option Nat)} {Ts : List (Un B)}
    (h : SeqOk r w before star after (.fixed Ts)) :
    ZipOk r w before (Ts.take before.length) ∧ ZipOk r w after (Ts.drop (Ts.length - after.length)) := by
  rcases h with ⟨_, rfl, h⟩ | ⟨P, hP, h⟩
  · exact ⟨.inl h, .inl trivial⟩
  · have h := hP.fixed Ts h
    exact ⟨.inr ⟨P, hP, fun T hT => h T (List.mem_of_mem_take hT)⟩,
      .inr ⟨P, hP, fun T hT => h T (List.mem_of_mem_drop hT)⟩⟩

theorem starsOk_seq {before after : List Pat} {star : Option (Option Nat)} {T : Un B} {t : Ty B}
    (h : StarsOk r w (.seq before star after) T) (ht : t ∈ T) : SeqOk r w before star after t := by
  rcases h with h | ⟨P, hP, h⟩
  · exact .inl h
  · exact .inr ⟨P, hP, h t ht⟩

mutual

theorem else_pat (hs : Sound r w) : ∀ (p : Pat), ArgsTotal r p → ∀ (T : Un B) (v : V),
    StarsOk r w p T → Has r T v → Fails r p v → Has r (guards w p T).falsey v
  | .capture n, _, T, v, _, _, hf => (hf _ rfl).elim
  | .wild, _, T, v, _, _, hf => (hf _ rfl).elim
  | .value k, _, T, v, _, hv, hf => (hs.value k T v hv).2 fun he => hf [] ⟨he, rfl⟩
  | .as p n, ha, T, v, hok, hv, hf =>
    else_pat hs p ha T v hok hv fun σ hm => hf _ ⟨σ, hm, rfl⟩
  | .or ps, ha, T, v, hok, hv, hf => else_or hs ps ha T v hok hv hf
  | .cls c pos kw, ha, T, v, _, hv, hf => by
    by_cases hi : r.inst c v
    · obtain ⟨σ1, h1⟩ := posTotal_match ha.1 hi
      obtain ⟨σ2, h2⟩ := kwTotal_match (r := r) (kw := kw) (v := v)
        fun n p h => ⟨(ha.2 n p h).1, (ha.2 n p h).2 v hi⟩
      exact (hf _ ⟨hi, σ1, σ2, h1, h2, rfl⟩).elim
    · exact has_left ((hs.isa c T v hv).2 hi)
  | .seq before star after, ha, T, v, hok, hv, hf => by
    obtain ⟨t, ht, hv⟩ := has_iff.mp hv
    have hok := starsOk_seq hok ht
    simp only [guards, gather]
    refine has_flatMap (List.mem_map.mpr ⟨t, ht, rfl⟩) (seqPart_else hs hv hok hf ?_)
    intro u hu Ts he
    subst he
    have hz := seqOk_zip hu
    exact ⟨zip_sure hs before ha.1 _ hz.1, zip_sure hs after ha.2 _ hz.2⟩

theorem else_or (hs : Sound r w) : ∀ (ps : List Pat), ArgsTotalAll r ps → ∀ (T : Un B) (v : V),
    StarsOk r w (.or ps) T → Has r T v → (∀ σ, ¬ MatchesOr r ps v σ) →
    Has r (guardsOr w ps T).falsey v
  | [], _, T, v, _, hv, _ => hv
  | p :: ps, ha, T, v, hok, hv, hf => by
    have hp : Fails r p v := fun σ hm => hf σ (.inl hm)
    have h1 := else_pat hs p ha.1 T v (hok.imp (·.1) id) hv hp
    refine else_or hs ps ha.2 _ v ?_ h1 fun σ hm => hf σ (.inr ⟨hp, hm⟩)
    rcases hok with h | ⟨P, hP, h⟩
    · exact .inl h.2
    · exact .inr ⟨P, hP, guards_safe hP p T h⟩

theorem zip_sure (hs : Sound r w) : ∀ (ps : List Pat), ArgsTotalAll r ps → ∀ (Ts : List (Un B)),
    ZipOk r w ps Ts → ZipSure r w ps Ts
  | [], _, Ts, _, vs, hv, hl, _, _ => by
    have : Ts = [] := List.length_eq_zero_iff.mp hl.symm
    subst this
    simp only [HasAll] at hv
    exact ⟨[], hv, rfl⟩
  | p :: ps, _, [], _, vs, _, hl, _, _ => nomatch hl
  | p :: ps, ha, T :: Ts, hok, vs, hv, hl, h1, h2 => by
    simp only [HasAll] at hv
    obtain ⟨x, rest, rfl, hx, hv⟩ := hv
    simp only [guardsZip] at h1 h2
    split at h1
    · exact (h1 rfl).elim
    · rename_i hne
      rw [if_neg hne] at h2
      simp only [Bool.and_eq_true, List.isEmpty_iff] at h2
      have hokp : StarsOk r w p T := by
        rcases hok with h | ⟨P, hP, h⟩
        · exact .inl h.1
        · exact .inr ⟨P, hP, h T List.mem_cons_self⟩
      have hokr : ZipOk r w ps Ts := by
        rcases hok with h | ⟨P, hP, h⟩
        · exact .inl h.2
        · exact .inr ⟨P, hP, fun T' h' => h T' (List.mem_cons_of_mem _ h')⟩
      have hm : ∃ σ, Matches r p x σ := by
        apply Classical.byContradiction
        intro hno
        have := else_pat hs p ha.1 T x hokp hx fun σ hm => hno ⟨σ, hm⟩
        rw [h2.1] at this
        exact this
      obtain ⟨σ1, hm⟩ := hm
      obtain ⟨σ2, hr⟩ := zip_sure hs ps ha.2 Ts hokr rest hv (by simpa using hl)
        (fun h => h1 (by simp [h])) h2.2
      exact ⟨_, x, rest, σ1, σ2, rfl, hm, hr, rfl⟩

end

/-! ## Tuples with an unpacked part -/

section
variable {err : Ty B} {bs : List (Un B)} {m : Un B} {as : List (Un B)} {n : Nat}

theorem nexts_after : ∀ (as' pre : List (Un B)) (i : Nat), as = pre ++ as' →
    i + as'.length = n →
    (nexts err bs m as n false as'.length i bs.length pre.length).1 = as'
  | [], pre, i, _, _ => rfl
  | T :: as', pre, i, h, hi => by
    have hn : next err bs m as n false i bs.length pre.length =
        (T, bs.length, (pre ++ [T]).length) := by
      unfold next
      rw [List.getElem?_eq_none (Nat.le_refl _)]
      dsimp only
      rw [if_neg (by simp at hi; simp [h]; omega)]
      simp [h]
    have ih := nexts_after as' (pre ++ [T]) (i + 1) (by simp [h]) (by simp at hi; omega)
    simp only [List.length_cons, nexts, hn, ih]

theorem nexts_mid {v3 : List V} (h3 : HasAll r as v3) : ∀ (v2 : List V) (i : Nat),
    (∀ x ∈ v2, Has r m x) → i + v2.length + as.length = n →
    HasAll r (nexts err bs m as n false (v2.length + as.length) i bs.length 0).1 (v2 ++ v3)
  | [], i, _, hi => by
    have := nexts_after (err := err) (bs := bs) (m := m) (n := n) as [] i rfl (by simpa using hi)
    simp only [List.length_nil, Nat.zero_add, List.nil_append] at this ⊢
    rw [this]
    exact h3
  | x :: v2, i, h, hi => by
    have hn : next err bs m as n false i bs.length 0 = (m, bs.length, 0) := by
      unfold next
      rw [List.getElem?_eq_none (Nat.le_refl _)]
      dsimp only
      rw [if_pos (by simp at hi; simp; omega)]
    have ih := nexts_mid h3 v2 (i + 1) (fun y hy => h y (List.mem_cons_of_mem _ hy))
      (by simp at hi; omega)
    rw [show (x :: v2).length + as.length = (v2.length + as.length) + 1 by simp; omega]
    simp only [nexts, hn]
    exact hasAll_cons.mpr ⟨h x List.mem_cons_self, ih⟩

theorem nexts_before {v2 v3 : List V} (h2 : ∀ x ∈ v2, Has r m x) (h3 : HasAll r as v3) :
    ∀ (bs' pre : List (Un B)) (v1 : List V) (i : Nat), bs = pre ++ bs' → HasAll r bs' v1 →
    i + bs'.length + v2.length + as.length = n →
    HasAll r (nexts err bs m as n false (bs'.length + v2.length + as.length) i pre.length 0).1
      (v1 ++ v2 ++ v3)
  | [], pre, v1, i, h, h1, hi => by
    simp only [HasAll] at h1
    subst h1
    simp only [List.append_nil] at h
    subst h
    have := nexts_mid (err := err) (bs := bs) (n := n) h3 v2 i h2 (by simpa using hi)
    simpa using this
  | T :: bs', pre, v1, i, h, h1, hi => by
    simp only [HasAll] at h1
    obtain ⟨x, rest, rfl, hx, h1⟩ := h1
    have hn : next err bs m as n false i pre.length 0 = (T, (pre ++ [T]).length, 0) := by
      unfold next
      simp [h]
    have ih := nexts_before h2 h3 bs' (pre ++ [T]) rest (i + 1) (by simp [h]) h1
      (by simp at hi; omega)
    rw [show (T :: bs').length + v2.length + as.length = (bs'.length + v2.length + as.length) + 1
      by simp; omega]
    simp only [nexts, hn]
    exact hasAll_cons.mpr ⟨hx, ih⟩

end

/-! ## Each value is in one of the branches -/

/-- If no pattern of a list can fail, then the values have the types of the patterns. -/
def ZipCover (r : Run B V) (w : World B) (ps : List Pat) (Ts : List (Un B)) : Prop :=
  ∀ (vs : List V) (ts : List (Un B)), HasAll r Ts vs → ps.length = Ts.length →
    (guardsZip w ps Ts).types = some ts → (guardsZip w ps Ts).sure = true → HasAll r ts vs

theorem tuplePart_cover {before after : List Pat} {star : Option (Option Nat)}
    {t : Ty B} {v : V} (hv : t.Has r v) (hok : SeqOk r w before star after t)
    (hz : ∀ (Ts : List (Un B)), ZipOk r w before Ts → ZipCover r w before Ts)
    (hz' : ∀ (Ts : List (Un B)), ZipOk r w after Ts → ZipCover r w after Ts) :
    Has r (tuplePart w (parts w before star after) t).truthy v ∨
    Has r (tuplePart w (parts w before star after) t).falsey v := by
  cases t with
  | leaf b => exact .inr (has_single.mpr hv)
  | seq T => exact .inr (has_single.mpr hv)
  | arb T => exact .inr (has_single.mpr hv)
  | unpack bs m as =>
    right
    rcases hok with ⟨rfl, _⟩ | ⟨P, hP, hp⟩
    · simp only [tuplePart]
      split
      · exact has_single.mpr hv
      · exact andThen_falsey hv fun _ _ _ _ h => nomatch h
    · exact absurd hp (hP.noUnpack _ _ _)
  | fixed Ts =>
    have hzz := seqOk_zip hok
    have hv' := hv
    obtain ⟨htup, vs, hvs, hall⟩ := hv
    simp only [tuplePart]
    split
    · exact .inr (has_single.mpr hv')
    · rename_i hlen
      simp only [not_or, not_and, Nat.not_lt] at hlen
      have hn : before.length + after.length ≤ Ts.length := hlen.2
      have hl := hasAll_length hall
      have e : Ts = Ts.take before.length ++ ((Ts.drop before.length).take
          (Ts.length - (before.length + after.length)) ++ Ts.drop (Ts.length - after.length)) := by
        have : Ts.drop (Ts.length - after.length) =
            (Ts.drop before.length).drop (Ts.length - (before.length + after.length)) := by
          rw [List.drop_drop]; congr 1; omega
        rw [this, List.take_append_drop, List.take_append_drop]
      have e' : vs = vs.take before.length ++ ((vs.drop before.length).take
          (vs.length - (before.length + after.length)) ++ vs.drop (vs.length - after.length)) := by
        have : vs.drop (vs.length - after.length) =
            (vs.drop before.length).drop (vs.length - (before.length + after.length)) := by
          rw [List.drop_drop]; congr 1; omega
        rw [this, List.take_append_drop, List.take_append_drop]
      have hall' := hall
      rw [e, e'] at hall
      obtain ⟨ha, hrest⟩ := hasAll_split (by simp; omega) hall
      obtain ⟨hm, hb⟩ := hasAll_split (by simp; omega) hrest
      unfold Zip.andThen
      cases e1 : (guardsZip w before (Ts.take before.length)).types with
      | none => exact .inr (has_single.mpr hv')
      | some ts =>
        cases e3 : (guardsZip w after (Ts.drop (Ts.length - after.length))).types with
        | none => exact .inr (has_single.mpr hv')
        | some ts' =>
          dsimp only
          split
          · rename_i hc
            simp only [Bool.and_eq_true] at hc
            refine .inl (has_single.mpr ⟨htup, vs, hvs, ?_⟩)
            rw [e']
            have h1 := hz _ hzz.1 _ _ ha (by simp; omega) e1 hc.1.1
            have h3 := hz' _ hzz.2 _ _ hb (by simp; omega) e3 hc.1.2
            rw [List.append_assoc]
            exact hasAll_append h1 (hasAll_append hm h3)
          · exact .inr (has_single.mpr hv')

theorem seqPart_cover (hs : Sound r w) {before after : List Pat} {star : Option (Option Nat)}
    {t : Ty B} {v : V} (hv : t.Has r v) (hok : SeqOk r w before star after t)
    (hz : ∀ (Ts : List (Un B)), ZipOk r w before Ts → ZipCover r w before Ts)
    (hz' : ∀ (Ts : List (Un B)), ZipOk r w after Ts → ZipCover r w after Ts) :
    Has r (seqPart w (parts w before star after) t).truthy v ∨
    Has r (seqPart w (parts w before star after) t).falsey v := by
  cases t with
  | leaf b =>
    simp only [seqPart]
    cases hk : w.kind b with
    | text => exact .inr (has_single.mpr hv)
    | any => exact .inr (has_single.mpr hv)
    | sequence T => exact .inr (has_single.mpr hv)
    | other => exact .inr (has_single.mpr hv)
    | tuple args =>
      have hok' : SeqOk r w before star after args := by
        rcases hok with h | ⟨P, hP, hp⟩
        · exact .inl h
        · exact .inr ⟨P, hP, hP.tuple b args hp hk⟩
      exact tuplePart_cover (hs.tuple b v args hk hv) hok' hz hz'
  | seq T => exact .inr (has_single.mpr hv)
  | arb T => exact tuplePart_cover hv hok hz hz'
  | unpack bs m as => exact tuplePart_cover hv hok hz hz'
  | fixed Ts => exact tuplePart_cover hv hok hz hz'

theorem classPart_cover (t : Ty B) (pos kw : Args × List (Nat × Un B)) :
    t ∈ (classPart t pos kw).truthy ∨ t ∈ (classPart t pos kw).falsey := by
  unfold classPart
  split
  · exact .inl (List.mem_singleton_self _)
  · exact .inr (List.mem_singleton_self _)
  · exact .inr (List.mem_singleton_self _)
  · split
    · exact .inr (List.mem_singleton_self _)
    · exact .inl (List.mem_singleton_self _)

mutual

theorem cover_pat (hs : Sound r w) : ∀ (p : Pat) (T : Un B) (v : V), StarsOk r w p T → Has r T v →
    Has r (guards w p T).truthy v ∨ Has r (guards w p T).falsey v
  | .capture n, T, v, _, hv => .inl hv
  | .wild, T, v, _, hv => .inl hv
  | .value k, T, v, _, hv => by
    by_cases he : r.equals k v
    · exact .inl ((hs.value k T v hv).1 he)
    · exact .inr ((hs.value k T v hv).2 he)
  | .as p n, T, v, hok, hv => cover_pat hs p T v hok hv
  | .or ps, T, v, hok, hv => cover_or hs ps T v hok hv
  | .cls c pos kw, T, v, _, hv => by
    simp only [guards, gather]
    rw [if_neg (by simpa using has_ne hv)]
    by_cases hi : r.inst c v
    · obtain ⟨t, ht, hv⟩ := has_iff.mp ((hs.isa c T v hv).1 hi)
      rcases classPart_cover t (guardsPos w pos t (w.matchArgs t) (pos.length + kw.length))
        (guardsKw w kw t) with h | h
      · exact .inl (has_flatMap (List.mem_map.mpr ⟨t, ht, rfl⟩) (has_iff.mpr ⟨t, h, hv⟩))
      · exact .inr (has_right
          (has_flatMap (List.mem_map.mpr ⟨t, ht, rfl⟩) (has_iff.mpr ⟨t, h, hv⟩)))
    · exact .inr (has_left ((hs.isa c T v hv).2 hi))
  | .seq before star after, T, v, hok, hv => by
    obtain ⟨t, ht, hv⟩ := has_iff.mp hv
    simp only [guards, gather]
    rcases seqPart_cover hs hv (starsOk_seq hok ht) (fun Ts h => cover_zip hs before Ts h)
      (fun Ts h => cover_zip hs after Ts h) with h | h
    · exact .inl (has_flatMap (List.mem_map.mpr ⟨t, ht, rfl⟩) h)
    · exact .inr (has_flatMap (List.mem_map.mpr ⟨t, ht, rfl⟩) h)

theorem cover_or (hs : Sound r w) : ∀ (ps : List Pat) (T : Un B) (v : V), StarsOk r w (.or ps) T →
    Has r T v → Has r (guardsOr w ps T).truthy v ∨ Has r (guardsOr w ps T).falsey v
  | [], T, v, _, hv => .inr hv
  | p :: ps, T, v, hok, hv => by
    rcases cover_pat hs p T v (hok.imp (·.1) id) hv with h | h
    · exact .inl (has_left h)
    · rcases cover_or hs ps _ v (by
        rcases hok with h | ⟨P, hP, h⟩
        · exact .inl h.2
        · exact .inr ⟨P, hP, guards_safe hP p T h⟩) h with h | h
      · exact .inl (has_right h)
      · exact .inr h

theorem cover_zip (hs : Sound r w) : ∀ (ps : List Pat) (Ts : List (Un B)), ZipOk r w ps Ts →
    ZipCover r w ps Ts
  | [], Ts, _, vs, ts, hv, hl, ht, _ => by
    have : Ts = [] := List.length_eq_zero_iff.mp hl.symm
    subst this
    simp only [guardsZip, Option.some.injEq] at ht
    subst ht
    exact hv
  | p :: ps, [], _, vs, ts, _, hl, _, _ => nomatch hl
  | p :: ps, T :: Ts, hok, vs, ts, hv, hl, h1, h2 => by
    simp only [HasAll] at hv
    obtain ⟨x, rest, rfl, hx, hv⟩ := hv
    simp only [guardsZip] at h1 h2
    split at h1
    · cases h1
    · rename_i hne
      rw [if_neg hne] at h2
      simp only [Bool.and_eq_true, List.isEmpty_iff] at h2
      have hokp : StarsOk r w p T := by
        rcases hok with h | ⟨P, hP, h⟩
        · exact .inl h.1
        · exact .inr ⟨P, hP, h T List.mem_cons_self⟩
      have hokr : ZipOk r w ps Ts := by
        rcases hok with h | ⟨P, hP, h⟩
        · exact .inl h.2
        · exact .inr ⟨P, hP, fun T' h' => h T' (List.mem_cons_of_mem _ h')⟩
      cases e : (guardsZip w ps Ts).types with
      | none => simp [e] at h1
      | some us =>
        simp only [e, Option.map_some, Option.some.injEq] at h1
        subst h1
        refine hasAll_cons.mpr ⟨?_, cover_zip hs ps Ts hokr rest us hv (by simpa using hl) e h2.2⟩
        rcases cover_pat hs p T x hokp hx with h | h
        · exact h
        · rw [h2.1] at h
          exact h.elim

end

/-! ## If the pattern matches -/

/-- What is known about a list of patterns that matches. -/
def ZipThen (r : Run B V) (w : World B) (ps : List Pat) (Ts : List (Un B)) : Prop :=
  ∀ (vs : List V) (σ : Binds V), HasAll r Ts vs → MatchesAll r ps vs σ →
    ∃ (ts : List (Un B)), (guardsZip w ps Ts).types = some ts ∧ HasAll r ts vs ∧
      (ArgsKnown w ∧ OrsTotalAll r ps → Bound r σ (guardsZip w ps Ts).caps)

/-- What is known about a list of patterns that matches items of the same type. -/
def SeqThen (r : Run B V) (w : World B) (ps : List Pat) (T : Un B) : Prop :=
  ∀ (vs : List V) (σ : Binds V), (∀ x ∈ vs, Has r T x) → MatchesAll r ps vs σ →
    (∀ x ∈ vs, Has r (guardsSeq w ps T).1 x) ∧
    (ArgsKnown w ∧ OrsTotalAll r ps → Bound r σ (guardsSeq w ps T).2)

theorem andThen_truthy {z z' : Zip B} {caps : List (Nat × Un B)}
    {build : List (Un B) → List (Un B) → Ty B} {all : Ty B} {exact' : Bool} {v : V}
    {ts ts' : List (Un B)} {σ1 σ2 σ3 : Binds V} {K : Prop}
    (h : z.types = some ts) (h' : z'.types = some ts') (hv : (build ts ts').Has r v)
    (h1 : K → Bound r σ1 z.caps) (h2 : Bound r σ2 caps) (h3 : K → Bound r σ3 z'.caps) :
    Has r (z.andThen caps z' build all exact').truthy v ∧
      (K → Bound r (σ1 ++ σ2 ++ σ3) (z.andThen caps z' build all exact').caps) := by
  unfold Zip.andThen
  rw [h, h']
  exact ⟨has_single.mpr hv, fun hk => bound_append (bound_append (h1 hk) h2) (h3 hk)⟩

theorem parts_bound (hs : Sound r w) {before after : List Pat} {star : Option (Option Nat)}
    {T : Un B} {v1 v2 v3 : List V} {σ1 σ2 σ3 : Binds V} (hT : ∀ x ∈ v1 ++ v2 ++ v3, Has r T x)
    (hb : SeqThen r w before T) (ha : SeqThen r w after T) (m1 : MatchesAll r before v1 σ1)
    (m3 : MatchesAll r after v3 σ3)
    (m2 : match star with
      | some (some n) => ∃ (l : V), r.newList v2 l ∧ σ2 = [(n, l)]
      | _ => σ2 = []) (hk : ArgsKnown w ∧ OrsTotalAll r before ∧ OrsTotalAll r after) :
    Bound r (σ1 ++ σ2 ++ σ3) ((parts w before star after).caps w T) :=
  bound_append (bound_append
    ((hb v1 σ1 (fun x hx => hT x (by simp [hx])) m1).2 ⟨hk.1, hk.2.1⟩)
    (star_caps_bound hs m2 fun x hx => hT x (by simp [hx])))
    ((ha v3 σ3 (fun x hx => hT x (by simp [hx])) m3).2 ⟨hk.1, hk.2.2⟩)

theorem tuplePart_then (hs : Sound r w) {before after : List Pat} {star : Option (Option Nat)}
    {t : Ty B} {v : V} {σ : Binds V} (hv : t.Has r v) (hok : SeqOk r w before star after t)
    (hm : Matches r (.seq before star after) v σ)
    (hl : (∀ (b : B), t ≠ .leaf b) ∧ ∀ (T : Un B), t ≠ .seq T)
    (hz : ∀ (Ts : List (Un B)), ZipOk r w before Ts → ZipThen r w before Ts)
    (hz' : ∀ (Ts : List (Un B)), ZipOk r w after Ts → ZipThen r w after Ts)
    (hq : ∀ (T : Un B), StarlessAll before ∨ (∃ P, StarSafe r w P ∧ ∀ u ∈ T, P u) →
      SeqThen r w before T)
    (hq' : ∀ (T : Un B), StarlessAll after ∨ (∃ P, StarSafe r w P ∧ ∀ u ∈ T, P u) →
      SeqThen r w after T) :
    Has r (tuplePart w (parts w before star after) t).truthy v ∧
      (ArgsKnown w ∧ OrsTotalAll r before ∧ OrsTotalAll r after →
        Bound r σ (tuplePart w (parts w before star after) t).caps) := by
  simp only [Matches] at hm
  obtain ⟨_, v1, v2, v3, σ1, σ2, σ3, hi, m1, m3, hst, m2, rfl⟩ := hm
  cases t with
  | leaf b => exact absurd rfl (hl.1 b)
  | seq T => exact absurd rfl (hl.2 T)
  | arb T =>
    refine ⟨has_single.mpr hv, fun hk => ?_⟩
    obtain ⟨_, vs, hvs, hall⟩ := hv
    rw [hi] at hvs
    injection hvs with hvs
    subst hvs
    refine parts_bound hs hall (hq T ?_) (hq' T ?_) m1 m3 m2 hk
    · rcases hok with h | ⟨P, hP, h⟩
      · exact .inl h.2.2
      · exact .inr ⟨P, hP, hP.arb T h⟩
    · rcases hok with ⟨_, rfl, _⟩ | ⟨P, hP, h⟩
      · exact .inl trivial
      · exact .inr ⟨P, hP, hP.arb T h⟩
  | unpack bs m as =>
    rcases hok with ⟨rfl, rfl, hst'⟩ | ⟨P, hP, hp⟩
    · have := hst rfl
      subst this
      simp only [MatchesAll] at m3
      obtain ⟨rfl, rfl⟩ := m3
      cases m2
      obtain ⟨ht, u1, u2, u3, hu, h1, h2, h3⟩ := hv
      rw [hi] at hu
      injection hu with hu
      simp only [List.append_nil] at hu hi
      subst hu
      have hlen := matchesAll_length m1
      have hl1 := hasAll_length h1
      have hl3 := hasAll_length h3
      simp only [List.length_append] at hlen
      simp only [tuplePart, List.length_nil, Nat.add_zero, Option.isNone_none, true_and,
        Option.isSome_none]
      rw [if_neg (by omega)]
      have hn := nexts_before (err := .leaf w.any) (bs := bs) (n := before.length) h2 h3 bs [] u1 0
        rfl h1 (by omega)
      rw [show bs.length + u2.length + as.length = before.length by omega] at hn
      obtain ⟨ts, e, hts, hb⟩ := hz _ (.inl hst') _ _ hn m1
      have := andThen_truthy (r := r) (z := guardsZip w before _)
        (z' := guardsZip w [] (nexts (.leaf w.any) bs m as before.length false 0
          (before.length + 1) bs.length (as.length - 0)).1) (σ3 := []) (σ2 := [])
        (caps := starCaps none (.leaf (w.listOf ((bs.drop (nexts (.leaf w.any) bs m as
          before.length false before.length 0 0 0).2).flatten ++ m ++
          (as.take (as.length - 0)).flatten))))
        (build := fun us us' => .fixed (us ++ us')) (all := .unpack bs m as) (exact' := false)
        (K := ArgsKnown w ∧ OrsTotalAll r before)
        e rfl (v := v) ⟨ht, _, hi, by simpa using hts⟩ hb bound_nil (fun _ => bound_nil)
      refine ⟨this.1, fun hk => ?_⟩
      simpa using this.2 ⟨hk.1, hk.2.1⟩
    · exact absurd hp (hP.noUnpack _ _ _)
  | fixed Ts =>
    have hzz := seqOk_zip hok
    obtain ⟨ht, vs, hvs, hall⟩ := hv
    rw [hi] at hvs
    injection hvs with hvs
    subst hvs
    have hlen := hasAll_length hall
    have hl1 := matchesAll_length m1
    have hl3 := matchesAll_length m3
    simp only [List.length_append] at hlen
    simp only [tuplePart]
    rw [if_neg (by
      rintro (⟨h1, h2⟩ | h)
      · have := hst (Option.isNone_iff_eq_none.mp h1)
        subst this
        simp at hlen; omega
      · omega)]
    have e : Ts = Ts.take before.length ++ ((Ts.drop before.length).take
        (Ts.length - (before.length + after.length)) ++ Ts.drop (Ts.length - after.length)) := by
      have : Ts.drop (Ts.length - after.length) =
          (Ts.drop before.length).drop (Ts.length - (before.length + after.length)) := by
        rw [List.drop_drop]; congr 1; omega
      rw [this, List.take_append_drop, List.take_append_drop]
    rw [e, List.append_assoc] at hall
    obtain ⟨ha, hrest⟩ := hasAll_split (by simp; omega) hall
    obtain ⟨hmid, hb⟩ := hasAll_split (by simp; omega) hrest
    obtain ⟨ts, e1, hts, b1⟩ := hz _ hzz.1 _ _ ha m1
    obtain ⟨ts', e3, hts', b3⟩ := hz' _ hzz.2 _ _ hb m3
    exact andThen_truthy e1 e3 ⟨ht, _, hi, hasAll_append (hasAll_append hts hmid) hts'⟩
      (fun hk => b1 ⟨hk.1, hk.2.1⟩) (star_caps_bound hs m2 (hasAll_flatten hmid))
      (fun hk => b3 ⟨hk.1, hk.2.2⟩)

theorem seqPart_then (hs : Sound r w) {before after : List Pat} {star : Option (Option Nat)}
    {t : Ty B} {v : V} {σ : Binds V} (hv : t.Has r v) (hok : SeqOk r w before star after t)
    (hm : Matches r (.seq before star after) v σ)
    (hz : ∀ (Ts : List (Un B)), ZipOk r w before Ts → ZipThen r w before Ts)
    (hz' : ∀ (Ts : List (Un B)), ZipOk r w after Ts → ZipThen r w after Ts)
    (hq : ∀ (T : Un B), StarlessAll before ∨ (∃ P, StarSafe r w P ∧ ∀ u ∈ T, P u) →
      SeqThen r w before T)
    (hq' : ∀ (T : Un B), StarlessAll after ∨ (∃ P, StarSafe r w P ∧ ∀ u ∈ T, P u) →
      SeqThen r w after T) :
    Has r (seqPart w (parts w before star after) t).truthy v ∧
      (ArgsKnown w ∧ OrsTotalAll r before ∧ OrsTotalAll r after →
        Bound r σ (seqPart w (parts w before star after) t).caps) := by
  have hm' := hm
  simp only [Matches] at hm
  obtain ⟨hnt, v1, v2, v3, σ1, σ2, σ3, hi, m1, m3, hst, m2, rfl⟩ := hm
  -- without a starred pattern the items have the types that are found for the patterns
  have sq : ∀ (T : Un B), (star = none ∧ after = [] ∧ StarlessAll before) →
      (∀ x ∈ v1 ++ v2 ++ v3, Has r T x) →
      (Ty.seq ((parts w before star after).item T)).Has r v ∧
      (ArgsKnown w ∧ OrsTotalAll r before ∧ OrsTotalAll r after →
        Bound r (σ1 ++ σ2 ++ σ3) ((parts w before star after).caps w T)) := by
    rintro T ⟨rfl, rfl, hst'⟩ hT
    refine ⟨⟨_, hi, ?_⟩, fun hk => parts_bound hs hT (hq T (.inl hst')) (hq' T (.inl trivial))
      m1 m3 m2 hk⟩
    have := hst rfl
    subst this
    simp only [MatchesAll] at m3
    obtain ⟨rfl, rfl⟩ := m3
    simp only [List.append_nil] at hT ⊢
    intro x hx
    exact has_left ((hq T (.inl hst') v1 σ1 hT m1).1 x hx)
  cases t with
  | leaf b =>
    simp only [seqPart]
    cases hk : w.kind b with
    | text =>
      rcases hs.text b v hk hv with h | h
      · exact absurd h hnt
      · rw [h] at hi; cases hi
    | any =>
      refine ⟨has_single.mpr hv, fun hk => parts_bound hs (fun x _ => has_single.mpr (hs.any x))
        (hq _ ?_) (hq' _ ?_) m1 m3 m2 hk⟩
      · rcases hok with h | ⟨P, hP, h⟩
        · exact .inl h.2.2
        · exact .inr ⟨P, hP, fun u hu => by rw [List.mem_singleton.mp hu]; exact hP.any⟩
      · rcases hok with ⟨_, rfl, _⟩ | ⟨P, hP, h⟩
        · exact .inl trivial
        · exact .inr ⟨P, hP, fun u hu => by rw [List.mem_singleton.mp hu]; exact hP.any⟩
    | sequence T =>
      obtain ⟨vs, hvs, hall⟩ := hs.sequence b v T hk hv
      rw [hi] at hvs
      injection hvs with hvs
      subst hvs
      refine ⟨has_single.mpr hv, fun hk' => parts_bound hs hall
        (hq _ ?_) (hq' _ ?_) m1 m3 m2 hk'⟩
      · rcases hok with h | ⟨P, hP, h⟩
        · exact .inl h.2.2
        · exact .inr ⟨P, hP, hP.sequence b T h hk⟩
      · rcases hok with ⟨_, rfl, _⟩ | ⟨P, hP, h⟩
        · exact .inl trivial
        · exact .inr ⟨P, hP, hP.sequence b T h hk⟩
    | other =>
      rcases hok with h | ⟨P, hP, h⟩
      · have := sq [.leaf w.object] h fun x _ => has_single.mpr (hs.object x)
        exact ⟨has_single.mpr this.1, this.2⟩
      · rcases hP.noOther b v h hk hv with h | h
        · exact absurd h hnt
        · rw [h] at hi; cases hi
    | tuple args =>
      have hok' : SeqOk r w before star after args := by
        rcases hok with h | ⟨P, hP, hp⟩
        · exact .inl h
        · exact .inr ⟨P, hP, hP.tuple b args hp hk⟩
      exact tuplePart_then hs (hs.tuple b v args hk hv) hok' hm' (hs.tupleArgs b args hk)
        hz hz' hq hq'
  | seq T =>
    rcases hok with h | ⟨P, hP, h⟩
    · obtain ⟨vs, hvs, hall⟩ := hv
      rw [hi] at hvs
      injection hvs with hvs
      subst hvs
      have := sq T h hall
      exact ⟨has_single.mpr this.1, this.2⟩
    · exact absurd h (hP.noSeq T)
  | arb T => exact tuplePart_then hs hv hok hm' ⟨by simp, by simp⟩ hz hz' hq hq'
  | unpack bs m as => exact tuplePart_then hs hv hok hm' ⟨by simp, by simp⟩ hz hz' hq hq'
  | fixed Ts => exact tuplePart_then hs hv hok hm' ⟨by simp, by simp⟩ hz hz' hq hq'

/-- The names of the positional arguments are the same in the checker and in Python. -/
def ArgsAgree (args : MatchArgs) (real : Option (List Nat)) : Prop :=
  match args with
  | .names ns => real = some ns
  | .missing => real = none
  | .unknown => True

theorem starsOk_attr {p : Pat} {t : Ty B} {n : Nat}
    (h : Starless p ∨ ∃ P, StarSafe r w P ∧ P t) :
    StarsOk r w p ((w.attr t n).getD [.leaf w.any]) := by
  rcases h with h | ⟨P, hP, h⟩
  · exact .inl h
  · refine .inr ⟨P, hP, ?_⟩
    cases ha : w.attr t n with
    | none => intro u hu; rw [List.mem_singleton.mp hu]; exact hP.any
    | some T => exact hP.attr t n T h ha

theorem has_attr (hs : Sound r w) {t : Ty B} {n : Nat} {v x : V} (hv : t.Has r v)
    (hx : r.attr v n = some x) : Has r ((w.attr t n).getD [.leaf w.any]) x := by
  cases ha : w.attr t n with
  | none => exact has_single.mpr (hs.any x)
  | some T => exact hs.attr t n v x T hv hx ha

mutual

theorem then_pat (hs : Sound r w) (hsame : SameArgs r w) : ∀ (p : Pat) (T : Un B)
    (v : V) (σ : Binds V), StarsOk r w p T → Has r T v → Matches r p v σ →
    Has r (guards w p T).truthy v ∧
      (ArgsKnown w ∧ OrsTotal r p → Bound r σ (guards w p T).caps)
  | .capture n, T, v, σ, _, hv, hm => by
    cases hm
    exact ⟨hv, fun _ => bound_one hv⟩
  | .wild, T, v, σ, _, hv, hm => by
    cases hm
    exact ⟨hv, fun _ => bound_nil⟩
  | .value k, T, v, σ, _, hv, hm => by
    obtain ⟨he, rfl⟩ := hm
    exact ⟨(hs.value k T v hv).1 he, fun _ => bound_nil⟩
  | .as p n, T, v, σ, hok, hv, hm => by
    simp only [Matches] at hm
    obtain ⟨σ', hm, rfl⟩ := hm
    have := then_pat hs hsame p T v σ' hok hv hm
    exact ⟨this.1, fun hk => bound_append (this.2 hk) (bound_one this.1)⟩
  | .or ps, T, v, σ, hok, hv, hm => then_or hs hsame ps T v σ hok hv hm
  | .cls c pos kw, T, v, σ, hok, hv, hm => by
    simp only [Matches] at hm
    obtain ⟨hi, σ1, σ2, m1, m2, rfl⟩ := hm
    have hne := has_ne hv
    obtain ⟨t, ht, htv⟩ := has_iff.mp ((hs.isa c T v hv).1 hi)
    have hagree : ArgsAgree (w.matchArgs t) (r.matchArgs c) := hsame c T t ht
    have hokp : StarlessAll pos ∨ ∃ P, StarSafe r w P ∧ P t := by
      rcases hok with h | ⟨P, hP, h⟩
      · exact .inl h.1
      · exact .inr ⟨P, hP, (hP.isa c T h).1 t ht⟩
    have hokk : StarlessKw kw ∨ ∃ P, StarSafe r w P ∧ P t := by
      rcases hok with h | ⟨P, hP, h⟩
      · exact .inl h.2
      · exact .inr ⟨P, hP, (hP.isa c T h).1 t ht⟩
    have h1 := then_pos hs hsame pos t v σ1 (w.matchArgs t) (r.matchArgs c) (r.selfMatch c)
      (pos.length + kw.length) hokp htv hagree m1
    have h2 := then_kw hs hsame kw t v σ2 hokk htv m2
    have key : Has r (classPart t (guardsPos w pos t (w.matchArgs t) (pos.length + kw.length))
        (guardsKw w kw t)).truthy v ∧
        (ArgsKnown w ∧ OrsTotal r (.cls c pos kw) → Bound r (σ1 ++ σ2) (classPart t
          (guardsPos w pos t (w.matchArgs t) (pos.length + kw.length)) (guardsKw w kw t)).caps) := by
      unfold classPart
      rcases h1.1 with h | ⟨h, hu⟩
      · rw [h]
        dsimp only
        rw [if_neg (by rw [h2.1]; decide)]
        refine ⟨has_single.mpr htv, fun hk => bound_append
          (h1.2 ⟨hk.1, hk.2.1⟩ (hk.1 t)) (h2.2 ⟨hk.1, hk.2.2⟩)⟩
      · rw [h]
        exact ⟨has_single.mpr htv, fun hk => absurd hu (hk.1 t)⟩
    simp only [guards, gather]
    rw [if_neg (by simpa using hne)]
    refine ⟨has_flatMap (List.mem_map.mpr ⟨t, ht, rfl⟩) key.1, fun hk => ?_⟩
    refine bound_mono (fun k hk' => ?_) (key.2 hk)
    exact List.mem_flatMap.mpr ⟨_, List.mem_map.mpr ⟨t, ht, rfl⟩, hk'⟩
  | .seq before star after, T, v, σ, hok, hv, hm => by
    obtain ⟨t, ht, hv⟩ := has_iff.mp hv
    have key := seqPart_then hs hv (starsOk_seq hok ht) hm
      (fun Ts hz => then_zip hs hsame before Ts hz)
      (fun Ts hz => then_zip hs hsame after Ts hz)
      (fun U hz => then_seq hs hsame before U hz)
      (fun U hz => then_seq hs hsame after U hz)
    simp only [guards, gather]
    refine ⟨has_flatMap (List.mem_map.mpr ⟨t, ht, rfl⟩) key.1, fun hk => ?_⟩
    refine bound_mono (fun k hk' => ?_) (key.2 hk)
    exact List.mem_flatMap.mpr ⟨_, List.mem_map.mpr ⟨t, ht, rfl⟩, hk'⟩

theorem then_or (hs : Sound r w) (hsame : SameArgs r w) : ∀ (ps : List Pat) (T : Un B)
    (v : V) (σ : Binds V), StarsOk r w (.or ps) T → Has r T v → MatchesOr r ps v σ →
    Has r (guardsOr w ps T).truthy v ∧
      (ArgsKnown w ∧ OrsTotalAll r ps ∧ ArgsTotalAll r ps → Bound r σ (guardsOr w ps T).caps)
  | [], T, v, σ, _, _, hm => hm.elim
  | p :: ps, T, v, σ, hok, hv, hm => by
    have hokp : StarsOk r w p T := hok.imp (·.1) id
    rcases hm with hm | ⟨hf, hm⟩
    · have := then_pat hs hsame p T v σ hokp hv hm
      exact ⟨has_left this.1, fun hk => bound_mono (fun _ h => List.mem_append_left _ h)
        (this.2 ⟨hk.1, hk.2.1.1⟩)⟩
    · have hokr : StarsOk r w (.or ps) (guards w p T).falsey := by
        rcases hok with h | ⟨P, hP, h⟩
        · exact .inl h.2
        · exact .inr ⟨P, hP, guards_safe hP p T h⟩
      refine ⟨?_, fun hk => ?_⟩
      · rcases cover_pat hs p T v hokp hv with h | h
        · exact has_left h
        · exact has_right (then_or hs hsame ps _ v σ hokr h hm).1
      · have h1 := else_pat hs p hk.2.2.1 T v hokp hv hf
        exact bound_mono (fun _ h => List.mem_append_right _ h)
          ((then_or hs hsame ps _ v σ hokr h1 hm).2 ⟨hk.1, hk.2.1.2, hk.2.2.2⟩)

theorem then_pos (hs : Sound r w) (hsame : SameArgs r w) : ∀ (pos : List Pat)
    (t : Ty B) (v : V) (σ : Binds V) (args : MatchArgs) (real : Option (List Nat)) (self : Prop)
    (total : Nat), (StarlessAll pos ∨ ∃ P, StarSafe r w P ∧ P t) → t.Has r v → ArgsAgree args real →
    MatchesPos r pos real self v σ →
    ((guardsPos w pos t args total).1 = .ok ∨
      ((guardsPos w pos t args total).1 = .unknown ∧ args = .unknown)) ∧
    (ArgsKnown w ∧ OrsTotalAll r pos → args ≠ .unknown →
      Bound r σ (guardsPos w pos t args total).2)
  | [], t, v, σ, args, real, self, total, _, _, _, hm => by
    simp only [MatchesPos] at hm
    subst hm
    exact ⟨.inl rfl, fun _ _ => bound_nil⟩
  | p :: ps, t, v, σ, args, real, self, total, hok, hv, hag, hm => by
    have hokp : Starless p ∨ ∃ P, StarSafe r w P ∧ P t := hok.imp (·.1) id
    have hokr : StarlessAll ps ∨ ∃ P, StarSafe r w P ∧ P t := hok.imp (·.2) id
    match args with
    | .unknown => exact ⟨.inr ⟨rfl, rfl⟩, fun _ h => absurd rfl h⟩
    | .names ns =>
      simp only [ArgsAgree] at hag
      subst hag
      match ns with
      | [] => exact hm.elim
      | n :: ns =>
        simp only [MatchesPos] at hm
        obtain ⟨x, σ1, σ2, hx, m1, m2, rfl⟩ := hm
        have h1 := then_pat hs hsame p _ x σ1 (starsOk_attr hokp) (has_attr hs hv hx) m1
        have h2 := then_pos hs hsame ps t v σ2 (.names ns) (some ns) self total hokr hv rfl m2
        simp only [guardsPos]
        rw [if_neg (by simpa using has_ne h1.1)]
        refine ⟨.inl (h2.1.resolve_right fun h => nomatch h.2), fun hk _ => ?_⟩
        exact bound_append (h1.2 ⟨hk.1, hk.2.1⟩) (h2.2 ⟨hk.1, hk.2.2⟩ (by simp))
    | .missing =>
      simp only [ArgsAgree] at hag
      subst hag
      simp only [MatchesPos] at hm
      obtain ⟨_, rfl, hm⟩ := hm
      simp only [guardsPos]
      split
      · have h1 := then_pat hs hsame p [t] v σ (by
          rcases hokp with h | ⟨P, hP, h⟩
          · exact .inl h
          · exact .inr ⟨P, hP, fun u hu => by rw [List.mem_singleton.mp hu]; exact h⟩)
          (has_single.mpr hv) hm
        exact ⟨.inl rfl, fun hk _ => h1.2 ⟨hk.1, hk.2.1⟩⟩
      · have h1 := then_pat hs hsame p [.leaf w.any] v σ (by
          rcases hokp with h | ⟨P, hP, h⟩
          · exact .inl h
          · exact .inr ⟨P, hP, fun u hu => by rw [List.mem_singleton.mp hu]; exact hP.any⟩)
          (has_single.mpr (hs.any v)) hm
        exact ⟨.inl rfl, fun hk _ => by simpa using h1.2 ⟨hk.1, hk.2.1⟩⟩

theorem then_kw (hs : Sound r w) (hsame : SameArgs r w) : ∀ (kw : List (Nat × Pat))
    (t : Ty B) (v : V) (σ : Binds V),
    (StarlessKw kw ∨ ∃ P, StarSafe r w P ∧ P t) → t.Has r v → MatchesKw r kw v σ →
    (guardsKw w kw t).1 = .ok ∧
      (ArgsKnown w ∧ OrsTotalKw r kw → Bound r σ (guardsKw w kw t).2)
  | [], t, v, σ, _, _, hm => by
    simp only [MatchesKw] at hm
    subst hm
    exact ⟨rfl, fun _ => bound_nil⟩
  | (n, p) :: kw, t, v, σ, hok, hv, hm => by
    simp only [MatchesKw] at hm
    obtain ⟨x, σ1, σ2, hx, m1, m2, rfl⟩ := hm
    have h1 := then_pat hs hsame p _ x σ1 (starsOk_attr (hok.imp (·.1) id))
      (has_attr hs hv hx) m1
    have h2 := then_kw hs hsame kw t v σ2 (hok.imp (·.2) id) hv m2
    simp only [guardsKw]
    rw [if_neg (by simpa using has_ne h1.1)]
    exact ⟨h2.1, fun hk => bound_append (h1.2 ⟨hk.1, hk.2.1⟩) (h2.2 ⟨hk.1, hk.2.2⟩)⟩

theorem then_zip (hs : Sound r w) (hsame : SameArgs r w) : ∀ (ps : List Pat)
    (Ts : List (Un B)), ZipOk r w ps Ts → ZipThen r w ps Ts
  | [], Ts, _, vs, σ, hv, hm => by
    simp only [MatchesAll] at hm
    obtain ⟨rfl, rfl⟩ := hm
    exact ⟨[], rfl, rfl, fun _ => bound_nil⟩
  | p :: ps, [], _, vs, σ, hv, hm => by
    simp only [HasAll] at hv
    subst hv
    simp only [MatchesAll] at hm
    obtain ⟨x, rest, σ1, σ2, h, _⟩ := hm
    cases h
  | p :: ps, T :: Ts, hok, vs, σ, hv, hm => by
    simp only [MatchesAll] at hm
    obtain ⟨x, rest, σ1, σ2, rfl, m1, m2, rfl⟩ := hm
    have hv := hasAll_cons.mp hv
    have hokp : StarsOk r w p T := by
      rcases hok with h | ⟨P, hP, h⟩
      · exact .inl h.1
      · exact .inr ⟨P, hP, h T List.mem_cons_self⟩
    have hokr : ZipOk r w ps Ts := by
      rcases hok with h | ⟨P, hP, h⟩
      · exact .inl h.2
      · exact .inr ⟨P, hP, fun T' h' => h T' (List.mem_cons_of_mem _ h')⟩
    have h1 := then_pat hs hsame p T x σ1 hokp hv.1 m1
    obtain ⟨ts, e, h2, hb⟩ := then_zip hs hsame ps Ts hokr rest σ2 hv.2 m2
    simp only [guardsZip]
    rw [if_neg (by simpa using has_ne h1.1), e]
    exact ⟨_, rfl, hasAll_cons.mpr ⟨h1.1, h2⟩, fun hk =>
      bound_append (h1.2 ⟨hk.1, hk.2.1⟩) (hb ⟨hk.1, hk.2.2⟩)⟩

theorem then_seq (hs : Sound r w) (hsame : SameArgs r w) : ∀ (ps : List Pat)
    (T : Un B), (StarlessAll ps ∨ ∃ P, StarSafe r w P ∧ ∀ u ∈ T, P u) → SeqThen r w ps T
  | [], T, _, vs, σ, hv, hm => by
    simp only [MatchesAll] at hm
    obtain ⟨rfl, rfl⟩ := hm
    exact ⟨(fun x hx => nomatch hx), fun _ => bound_nil⟩
  | p :: ps, T, hok, vs, σ, hv, hm => by
    simp only [MatchesAll] at hm
    obtain ⟨x, rest, σ1, σ2, rfl, m1, m2, rfl⟩ := hm
    have h1 := then_pat hs hsame p T x σ1 (hok.imp (·.1) id) (hv x List.mem_cons_self) m1
    have h2 := then_seq hs hsame ps T (hok.imp (·.2) id) rest σ2
      (fun y hy => hv y (List.mem_cons_of_mem _ hy)) m2
    simp only [guardsSeq]
    refine ⟨fun y hy => ?_, fun hk =>
      bound_append (h1.2 ⟨hk.1, hk.2.1⟩) (h2.2 ⟨hk.1, hk.2.2⟩)⟩
    rcases List.mem_cons.mp hy with rfl | hy
    · exact has_left h1.1
    · exact has_right (h2.1 y hy)

end

/-! ## No values are added -/

theorem andThen_inside {z z' : Zip B} {caps : List (Nat × Un B)}
    {build : List (Un B) → List (Un B) → Ty B} {all : Ty B} {e : Bool} {v : V}
    (h : ∀ ts ts', z.types = some ts → z'.types = some ts' → (build ts ts').Has r v → all.Has r v) :
    (Has r (z.andThen caps z' build all e).truthy v → all.Has r v) ∧
    (Has r (z.andThen caps z' build all e).falsey v → all.Has r v) := by
  unfold Zip.andThen
  cases hz : z.types with
  | none => exact ⟨False.elim, has_single.mp⟩
  | some ts =>
    cases hz' : z'.types with
    | none => exact ⟨False.elim, has_single.mp⟩
    | some ts' =>
      refine ⟨fun hx => h ts ts' hz hz' (has_single.mp hx), fun hx => ?_⟩
      dsimp only at hx
      split at hx
      · exact hx.elim
      · exact has_single.mp hx

theorem guardsZip_length : ∀ (ps : List Pat) (Ts : List (Un B)) (ts : List (Un B)),
    (guardsZip w ps Ts).types = some ts → ts.length = ps.length
  | [], Ts, ts, h => by
    simp only [guardsZip, Option.some.injEq] at h
    subst h; rfl
  | p :: ps, [], ts, h => nomatch h
  | p :: ps, T :: Ts, ts, h => by
    simp only [guardsZip] at h
    split at h
    · cases h
    · cases hr : (guardsZip w ps Ts).types with
      | none => simp [hr] at h
      | some rest =>
        simp only [hr, Option.map_some, Option.some.injEq] at h
        subst h
        simp [guardsZip_length ps Ts rest hr]

/-- The types of a list of patterns are inside of the types of the entries. -/
def ZipInside (r : Run B V) (w : World B) (ps : List Pat) (Ts : List (Un B)) : Prop :=
  ∀ (vs : List V) (ts : List (Un B)), (guardsZip w ps Ts).types = some ts →
    ps.length = Ts.length → HasAll r ts vs → HasAll r Ts vs

theorem seqPart_inside (hP : Sequences w P) {before after : List Pat} {star : Option (Option Nat)}
    {t : Ty B} (ht : P t) {v : V}
    (hz : ∀ Ts, ZipInside r w before Ts) (hz' : ∀ Ts, ZipInside r w after Ts)
    (hq : ∀ T x, Has r (guardsSeq w before T).1 x → Has r T x)
    (hq' : ∀ T x, Has r (guardsSeq w after T).1 x → Has r T x) :
    (Has r (seqPart w (parts w before star after) t).truthy v → t.Has r v) ∧
    (Has r (seqPart w (parts w before star after) t).falsey v → t.Has r v) := by
  cases t with
  | leaf b =>
    simp only [seqPart]
    cases hk : w.kind b with
    | text => exact ⟨False.elim, has_single.mp⟩
    | any => exact ⟨has_single.mp, has_single.mp⟩
    | sequence T => exact ⟨has_single.mp, has_single.mp⟩
    | other => exact absurd hk (hP.noOther b ht)
    | tuple args => exact absurd hk (hP.noTuple b args ht)
  | seq T =>
    refine ⟨fun hx => ?_, has_single.mp⟩
    obtain ⟨vs, hvs, hall⟩ := has_single.mp hx
    refine ⟨vs, hvs, fun x hx => ?_⟩
    obtain ⟨u, hu, hx⟩ := has_iff.mp (hall x hx)
    rcases List.mem_append.mp hu with hu | hu
    · exact hq T x (has_iff.mpr ⟨u, hu, hx⟩)
    · exact hq' T x (has_iff.mpr ⟨u, hu, hx⟩)
  | arb T => exact ⟨has_single.mp, has_single.mp⟩
  | unpack bs m as => exact absurd ht (hP.noUnpack _ _ _)
  | fixed Ts =>
    simp only [seqPart, tuplePart]
    split
    · exact ⟨False.elim, has_single.mp⟩
    · rename_i hlen
      simp only [not_or, not_and, Nat.not_lt] at hlen
      apply andThen_inside
      rintro ts ts' e1 e3 ⟨htup, vs, hvs, hall⟩
      refine ⟨htup, vs, hvs, ?_⟩
      have hl := hasAll_length hall
      have l1 := guardsZip_length _ _ _ e1
      have l3 := guardsZip_length _ _ _ e3
      have hn : before.length + after.length ≤ Ts.length := hlen.2
      simp only [List.length_append, List.length_take, List.length_drop] at hl
      have e : Ts = Ts.take before.length ++ ((Ts.drop before.length).take
          (Ts.length - (before.length + after.length)) ++ Ts.drop (Ts.length - after.length)) := by
        have : Ts.drop (Ts.length - after.length) =
            (Ts.drop before.length).drop (Ts.length - (before.length + after.length)) := by
          rw [List.drop_drop]; congr 1; omega
        rw [this, List.take_append_drop, List.take_append_drop]
      have e' : vs = vs.take before.length ++ ((vs.drop before.length).take
          (vs.length - (before.length + after.length)) ++ vs.drop (vs.length - after.length)) := by
        have : vs.drop (vs.length - after.length) =
            (vs.drop before.length).drop (vs.length - (before.length + after.length)) := by
          rw [List.drop_drop]; congr 1; omega
        rw [this, List.take_append_drop, List.take_append_drop]
      rw [e', List.append_assoc] at hall
      obtain ⟨h1, hrest⟩ := hasAll_split (by simp; omega) hall
      obtain ⟨h2, h3⟩ := hasAll_split (by simp; omega) hrest
      have h1 := hz _ _ _ e1 (by simp; omega) h1
      have h3 := hz' _ _ _ e3 (by simp; omega) h3
      rw [e', e]
      exact hasAll_append h1 (hasAll_append h2 h3)

theorem inside_cls (hn : Narrows r w) (c : Nat) (pos : List Pat) (kw : List (Nat × Pat)) (T : Un B)
    (v : V) : (Has r (guards w (.cls c pos kw) T).truthy v → Has r T v) ∧
    (Has r (guards w (.cls c pos kw) T).falsey v → Has r T v) := by
  simp only [guards, gather]
  have key : ∀ (t u : Ty B), t ∈ (w.isa c T).1 → u = t → u.Has r v → Has r T v := by
    rintro t u ht rfl hu
    exact hn.isaThen c T v (has_iff.mpr ⟨_, ht, hu⟩)
  refine ⟨fun hx => ?_, fun hx => ?_⟩
  · split at hx
    · exact hx.elim
    · obtain ⟨u, hu, hx⟩ := has_iff.mp hx
      obtain ⟨x, hx', hu⟩ := List.mem_flatMap.mp hu
      obtain ⟨t, ht, rfl⟩ := List.mem_map.mp hx'
      exact key t u ht ((classPart_types t _ _).1 u hu) hx
  · obtain ⟨u, hu, hx⟩ := has_iff.mp hx
    rcases List.mem_append.mp hu with hu | hu
    · exact hn.isaElse c T v (has_iff.mpr ⟨u, hu, hx⟩)
    · obtain ⟨x, hx', hu⟩ := List.mem_flatMap.mp hu
      obtain ⟨t, ht, rfl⟩ := List.mem_map.mp hx'
      exact key t u ht ((classPart_types t _ _).2 u hu) hx

theorem inside_cons {A F A' T : Un B} {v : V} (h1 : (Has r A v → Has r T v) ∧ (Has r F v → Has r T v))
    (h2 : Has r A' v → Has r F v) : Has r (A ++ A') v → Has r T v := by
  intro hx
  obtain ⟨u, hu, hx⟩ := has_iff.mp hx
  rcases List.mem_append.mp hu with hu | hu
  · exact h1.1 (has_iff.mpr ⟨u, hu, hx⟩)
  · exact h1.2 (h2 (has_iff.mpr ⟨u, hu, hx⟩))

mutual

theorem inside_seqless (hn : Narrows r w) : ∀ (p : Pat), Seqless p → ∀ (T : Un B) (v : V),
    (Has r (guards w p T).truthy v → Has r T v) ∧ (Has r (guards w p T).falsey v → Has r T v)
  | .capture n, _, T, v => ⟨id, False.elim⟩
  | .wild, _, T, v => ⟨id, False.elim⟩
  | .value k, _, T, v => ⟨hn.valueThen k T v, hn.valueElse k T v⟩
  | .as p n, h, T, v => inside_seqless hn p h T v
  | .or ps, h, T, v => inside_seqless_or hn ps h T v
  | .cls c pos kw, _, T, v => inside_cls hn c pos kw T v
  | .seq _ _ _, h, _, _ => h.elim

theorem inside_seqless_or (hn : Narrows r w) : ∀ (ps : List Pat), SeqlessAll ps → ∀ (T : Un B)
    (v : V), (Has r (guardsOr w ps T).truthy v → Has r T v) ∧
    (Has r (guardsOr w ps T).falsey v → Has r T v)
  | [], _, T, v => ⟨False.elim, id⟩
  | p :: ps, h, T, v => by
    have h1 := inside_seqless hn p h.1 T v
    have h2 := inside_seqless_or hn ps h.2 (guards w p T).falsey v
    exact ⟨inside_cons h1 h2.1, fun hx => h1.2 (h2.2 hx)⟩

end

theorem inside_zip (hn : Narrows r w) : ∀ (ps : List Pat), SeqlessAll ps → ∀ (Ts : List (Un B)),
    ZipInside r w ps Ts
  | [], _, Ts, vs, ts, h, hl, hv => by
    have : Ts = [] := List.length_eq_zero_iff.mp hl.symm
    subst this
    simp only [guardsZip, Option.some.injEq] at h
    subst h
    exact hv
  | p :: ps, _, [], vs, ts, h, hl, hv => nomatch hl
  | p :: ps, hp, T :: Ts, vs, ts, h, hl, hv => by
    simp only [guardsZip] at h
    split at h
    · cases h
    · cases hr : (guardsZip w ps Ts).types with
      | none => simp [hr] at h
      | some rest =>
        simp only [hr, Option.map_some, Option.some.injEq] at h
        subst h
        simp only [HasAll] at hv
        obtain ⟨x, xs, rfl, hx, hv⟩ := hv
        exact hasAll_cons.mpr ⟨(inside_seqless hn p hp.1 T x).1 hx,
          inside_zip hn ps hp.2 Ts xs rest hr (by simpa using hl) hv⟩

theorem inside_items (hn : Narrows r w) : ∀ (ps : List Pat), SeqlessAll ps → ∀ (T : Un B) (x : V),
    Has r (guardsSeq w ps T).1 x → Has r T x
  | [], _, T, x, h => h.elim
  | p :: ps, hp, T, x, h => by
    obtain ⟨u, hu, hx⟩ := has_iff.mp h
    rcases List.mem_append.mp hu with hu | hu
    · exact (inside_seqless hn p hp.1 T x).1 (has_iff.mpr ⟨u, hu, hx⟩)
    · exact inside_items hn ps hp.2 T x (has_iff.mpr ⟨u, hu, hx⟩)

theorem seqPart_sequences (hP : Sequences w P) (ps : Parts B) {t : Ty B} (ht : P t) :
    ∀ u ∈ (seqPart w ps t).falsey, P u := by
  have one : ∀ u ∈ [t], P u := fun u hu => by rw [List.mem_singleton.mp hu]; exact ht
  have tp : ∀ (s : Ty B), P s → ∀ u ∈ (tuplePart w ps s).falsey, P u := fun s hs u hu => by
    rw [tuplePart_falsey ps s u hu]; exact hs
  cases t with
  | leaf b =>
    simp only [seqPart]
    cases hk : w.kind b with
    | text => exact one
    | any => exact one
    | sequence T => exact one
    | other => exact one
    | tuple args => exact absurd hk (hP.noTuple b args ht)
  | seq T => exact one
  | arb T => exact tp _ ht
  | unpack bs m as => exact tp _ ht
  | fixed Ts => exact tp _ ht

mutual

theorem guards_sequences (hP : Sequences w P) : ∀ (p : Pat) (T : Un B), (∀ t ∈ T, P t) →
    ∀ t ∈ (guards w p T).falsey, P t
  | .capture n, T, h => fun t ht => nomatch ht
  | .wild, T, h => fun t ht => nomatch ht
  | .value k, T, h => hP.value k T h
  | .as p n, T, h => guards_sequences hP p T h
  | .or ps, T, h => guardsOr_sequences hP ps T h
  | .cls c pos kw, T, h => by
    have hi := hP.isa c T h
    simp only [guards, gather]
    intro t ht
    rcases List.mem_append.mp ht with ht | ht
    · exact hi.2 t ht
    · obtain ⟨x, hx, ht⟩ := List.mem_flatMap.mp ht
      obtain ⟨u, hu, rfl⟩ := List.mem_map.mp hx
      rw [(classPart_types u _ _).2 t ht]
      exact hi.1 u hu
  | .seq before star after, T, h => by
    simp only [guards, gather]
    intro t ht
    obtain ⟨x, hx, ht⟩ := List.mem_flatMap.mp ht
    obtain ⟨u, hu, rfl⟩ := List.mem_map.mp hx
    exact seqPart_sequences hP _ (h u hu) t ht

theorem guardsOr_sequences (hP : Sequences w P) : ∀ (ps : List Pat) (T : Un B), (∀ t ∈ T, P t) →
    ∀ t ∈ (guardsOr w ps T).falsey, P t
  | [], T, h => h
  | p :: ps, T, h => guardsOr_sequences hP ps _ (guards_sequences hP p T h)

end

mutual

theorem inside_flat (hn : Narrows r w) (hP : Sequences w P) : ∀ (p : Pat), Flat p → ∀ (T : Un B)
    (v : V), (∀ t ∈ T, P t) →
    (Has r (guards w p T).truthy v → Has r T v) ∧ (Has r (guards w p T).falsey v → Has r T v)
  | .capture n, _, T, v, _ => ⟨id, False.elim⟩
  | .wild, _, T, v, _ => ⟨id, False.elim⟩
  | .value k, _, T, v, _ => ⟨hn.valueThen k T v, hn.valueElse k T v⟩
  | .as p n, hf, T, v, h => inside_flat hn hP p hf T v h
  | .or ps, hf, T, v, h => inside_flat_or hn hP ps hf T v h
  | .cls c pos kw, _, T, v, _ => inside_cls hn c pos kw T v
  | .seq before star after, hf, T, v, h => by
    have key := fun t (ht : t ∈ T) => seqPart_inside (r := r) (v := v) (star := star) hP (h t ht)
      (inside_zip hn before hf.1) (inside_zip hn after hf.2)
      (inside_items hn before hf.1) (inside_items hn after hf.2)
    simp only [guards, gather]
    refine ⟨fun hx => ?_, fun hx => ?_⟩
    · obtain ⟨u, hu, hx⟩ := has_iff.mp hx
      obtain ⟨x, hx', hu⟩ := List.mem_flatMap.mp hu
      obtain ⟨t, ht, rfl⟩ := List.mem_map.mp hx'
      exact has_iff.mpr ⟨t, ht, (key t ht).1 (has_iff.mpr ⟨u, hu, hx⟩)⟩
    · obtain ⟨u, hu, hx⟩ := has_iff.mp hx
      obtain ⟨x, hx', hu⟩ := List.mem_flatMap.mp hu
      obtain ⟨t, ht, rfl⟩ := List.mem_map.mp hx'
      exact has_iff.mpr ⟨t, ht, (key t ht).2 (has_iff.mpr ⟨u, hu, hx⟩)⟩

theorem inside_flat_or (hn : Narrows r w) (hP : Sequences w P) : ∀ (ps : List Pat), FlatAll ps →
    ∀ (T : Un B) (v : V), (∀ t ∈ T, P t) →
    (Has r (guardsOr w ps T).truthy v → Has r T v) ∧ (Has r (guardsOr w ps T).falsey v → Has r T v)
  | [], _, T, v, h => ⟨False.elim, id⟩
  | p :: ps, hf, T, v, h => by
    have h1 := inside_flat hn hP p hf.1 T v h
    have h2 := inside_flat_or hn hP ps hf.2 _ v (guards_sequences hP p T h)
    exact ⟨inside_cons h1 h2.1, fun hx => h1.2 (h2.2 hx)⟩

end

/-! ## Patterns that always match leave nothing -/

mutual

theorem guards_never (hv : ∀ (k : Nat), (w.value k []).2 = [])
    (hi : ∀ (c : Nat), w.isa c [] = ([], [])) : ∀ (p : Pat), (guards w p []).falsey = []
  | .capture _ => rfl
  | .wild => rfl
  | .value k => hv k
  | .as p _ => guards_never hv hi p
  | .or ps => guardsOr_never hv hi ps
  | .cls c pos kw => by simp [guards, gather, hi]
  | .seq _ _ _ => by simp [guards, gather]

theorem guardsOr_never (hv : ∀ (k : Nat), (w.value k []).2 = [])
    (hi : ∀ (c : Nat), w.isa c [] = ([], [])) : ∀ (ps : List Pat), (guardsOr w ps []).falsey = []
  | [] => rfl
  | p :: ps => by
    simp only [guardsOr, guards_never hv hi p]
    exact guardsOr_never hv hi ps

end

mutual

theorem guards_total (hv : ∀ (k : Nat), (w.value k []).2 = [])
    (hi : ∀ (c : Nat), w.isa c [] = ([], [])) : ∀ (p : Pat), Total p → ∀ (T : Un B),
    (guards w p T).falsey = []
  | .capture _, _, _ => rfl
  | .wild, _, _ => rfl
  | .as p _, h, T => guards_total hv hi p h T
  | .or ps, h, T => guardsOr_total hv hi ps h T
  | .value _, h, _ => h.elim
  | .cls _ _ _, h, _ => h.elim
  | .seq _ _ _, h, _ => h.elim

theorem guardsOr_total (hv : ∀ (k : Nat), (w.value k []).2 = [])
    (hi : ∀ (c : Nat), w.isa c [] = ([], [])) : ∀ (ps : List Pat), TotalAny ps → ∀ (T : Un B),
    (guardsOr w ps T).falsey = []
  | [], h, _ => h.elim
  | p :: ps, h, T => by
    simp only [guardsOr]
    rcases h with h | h
    · rw [guards_total hv hi p h T]
      exact guardsOr_never hv hi ps
    · exact guardsOr_total hv hi ps h _

end

/-- The pattern is a name or `_`. -/
abbrev IsName (p : Pat) : Prop := (∃ (n : Nat), p = .capture n) ∨ p = .wild

theorem name_truthy {p : Pat} (h : IsName p) (T : Un B) : (guards w p T).truthy = T := by
  rcases h with ⟨n, rfl⟩ | rfl <;> rfl

theorem name_falsey {p : Pat} (h : IsName p) (T : Un B) : (guards w p T).falsey = [] := by
  rcases h with ⟨n, rfl⟩ | rfl <;> rfl

theorem attr_ne {t : Ty B} (h : ∀ (n : Nat), w.attr t n ≠ some []) (n : Nat) :
    (w.attr t n).getD [.leaf w.any] ≠ [] := by
  cases ha : w.attr t n with
  | none => simp
  | some T => rintro rfl; exact h n ha

theorem guardsPos_names {t : Ty B} (ha : ∀ (n : Nat), w.attr t n ≠ some []) {total : Nat} :
    ∀ (pos : List Pat) (ns : List Nat), (∀ p ∈ pos, IsName p) → pos.length ≤ ns.length →
    (guardsPos w pos t (.names ns) total).1 = .ok
  | [], _, _, _ => rfl
  | p :: pos, [], _, h => by simp at h
  | p :: pos, n :: ns, hp, h => by
    have hne : (guards w p ((w.attr t n).getD [.leaf w.any])).truthy ≠ [] := by
      rw [name_truthy (hp p List.mem_cons_self)]
      exact attr_ne ha n
    simp only [guardsPos]
    rw [if_neg (by simpa using hne)]
    exact guardsPos_names ha pos ns (fun q hq => hp q (List.mem_cons_of_mem _ hq)) (by simpa using h)

theorem guardsKw_names {t : Ty B} (ha : ∀ (n : Nat), w.attr t n ≠ some []) :
    ∀ (kw : List (Nat × Pat)), (∀ k ∈ kw, IsName k.2) → (guardsKw w kw t).1 = .ok
  | [], _ => rfl
  | (n, p) :: kw, hp => by
    have hne : (guards w p ((w.attr t n).getD [.leaf w.any])).truthy ≠ [] := by
      rw [name_truthy (hp (n, p) List.mem_cons_self)]
      exact attr_ne ha n
    simp only [guardsKw]
    rw [if_neg (by simpa using hne)]
    exact guardsKw_names ha kw fun q hq => hp q (List.mem_cons_of_mem _ hq)

theorem guardsZip_names : ∀ (ps : List Pat) (Ts : List (Un B)), (∀ p ∈ ps, IsName p) →
    ps.length = Ts.length → (∀ T ∈ Ts, T ≠ []) →
    (guardsZip w ps Ts).types = some Ts ∧ (guardsZip w ps Ts).sure = true
  | [], Ts, _, h, _ => by
    have : Ts = [] := List.length_eq_zero_iff.mp h.symm
    subst this
    exact ⟨rfl, rfl⟩
  | p :: ps, [], _, h, _ => nomatch h
  | p :: ps, T :: Ts, hp, h, hne => by
    have ih := guardsZip_names ps Ts (fun q hq => hp q (List.mem_cons_of_mem _ hq))
      (by simpa using h) fun U hU => hne U (List.mem_cons_of_mem _ hU)
    have hT : T ≠ [] := hne T List.mem_cons_self
    simp only [guardsZip, name_truthy (hp p List.mem_cons_self),
      name_falsey (hp p List.mem_cons_self)]
    rw [if_neg (by simpa using hT), ih.1]
    exact ⟨rfl, by simp [ih.2]⟩

/-! ## The statement -/

theorem executes_or_falls (cs : List (Pat × Option (Guard B × GuardRun V))) (v : V) :
    FallsThrough r cs v ∨ ∃ (i : Nat) (σ : Binds V), Executes r cs v i σ := by
  induction cs with
  | nil => exact .inl .nil
  | cons c cs ih =>
    obtain ⟨p, g⟩ := c
    by_cases hm : ∃ (σ : Binds V), Matches r p v σ
    · obtain ⟨σ, hm⟩ := hm
      match g with
      | none => exact .inr ⟨0, σ, .plain hm⟩
      | some (g, holds) =>
        by_cases hh : holds σ
        · exact .inr ⟨0, σ, .holds hm hh⟩
        · rcases ih with ih | ⟨i, σ', ih⟩
          · exact .inl (.guard hm hh ih)
          · exact .inr ⟨i + 1, σ', .guard hm hh ih⟩
    · have hf : Fails r p v := fun σ h => hm ⟨σ, h⟩
      rcases ih with ih | ⟨i, σ', ih⟩
      · exact .inl (.fails hf ih)
      · exact .inr ⟨i + 1, σ', .fails hf ih⟩

theorem getLast_filterMap {α β : Type} {f : α → Option β} {l : List α} {y : β}
    (h : (l.filterMap f).getLast? = some y) : ∃ a ∈ l, f a = some y :=
  List.mem_filterMap.mp (List.mem_of_getLast? h)

/-- The names that the guard may narrow are names of the value. -/
theorem simpleNames_binds {p : Pat} {n : Nat} {v : V} {σ : Binds V} (h : n ∈ simpleNames p)
    (hm : Matches r p v σ) : (n, v) ∈ σ := by
  unfold simpleNames at h
  split at h
  · simp only [Matches] at hm
    subst hm
    simpa using h
  · simp only [Matches] at hm
    obtain ⟨σ', rfl, rfl⟩ := hm
    simpa using h
  · simp only [Matches] at hm
    obtain ⟨σ', _, rfl⟩ := hm
    simp only [List.mem_singleton] at h
    subst h
    simp
  · cases h

theorem simpleNames_total {p : Pat} {n : Nat} (h : n ∈ simpleNames p)
    (ht : ∀ (q : Pat) (m : Nat), p = .as q m → Total q) : Total p := by
  cases p with
  | capture => trivial
  | as q m => exact ht q m rfl
  | _ => cases h

/-- The cases as the checker sees them. -/
abbrev erase (cs : List (Pat × Option (Guard B × GuardRun V))) : List (Pat × Option (Guard B)) :=
  cs.map fun c => (c.1, c.2.map (·.1))

theorem rest_step (hs : Sound r w) {p : Pat} {g : Option (Guard B × GuardRun V)} {T : Un B} {v : V}
    (hc : CaseOk r p g) (hok : StarsOk r w p T) (hv : Has r T v)
    (h : Fails r p v ∨ ∃ g' holds σ, g = some (g', holds) ∧ Matches r p v σ ∧ ¬ holds σ) :
    Has r (restOfCase w p (g.map (·.1)) T) v := by
  obtain ⟨ha, ho, hg⟩ := hc
  match g with
  | none =>
    rcases h with h | ⟨_, _, _, h, _⟩
    · exact else_pat hs p ha T v hok hv h
    · cases h
  | some (g, holds) =>
    obtain ⟨hsound, htot⟩ := hg g holds rfl
    simp only [restOfCase, Option.map_some]
    split
    · rename_i U hU
      obtain ⟨n, hn, hf⟩ := getLast_filterMap hU
      rcases h with h | ⟨g', holds', σ, he, hm, hh⟩
      · obtain ⟨σ, hm⟩ := total_matches (r := r) p (simpleNames_total hn htot) v
        exact absurd hm (h σ)
      · injection he with he
        injection he with he1 he2
        subst he1 he2
        exact (hsound σ hh).1 n U v hf (simpleNames_binds hn hm)
    · split
      · rename_i hd
        rcases h with h | ⟨g', holds', σ, he, hm, hh⟩
        · exact else_pat hs p ha T v hok hv h
        · injection he with he
          injection he with he1 he2
          subst he1 he2
          rw [(hsound σ hh).2] at hd
          exact absurd hd.2 (by simp)
      · exact hv

theorem casesOk_head {p : Pat} {g : Option (Guard B × GuardRun V)}
    {cs : List (Pat × Option (Guard B × GuardRun V))} {T : Un B}
    (h : CasesOk r w ((p, g) :: cs) T) : StarsOk r w p T := by
  rcases h with h | ⟨P, hP, h, _⟩
  · exact .inl (h _ List.mem_cons_self)
  · exact .inr ⟨P, hP, h⟩

theorem casesOk_tail {p : Pat} {g : Option (Guard B × GuardRun V)}
    {cs : List (Pat × Option (Guard B × GuardRun V))} {T : Un B}
    (h : CasesOk r w ((p, g) :: cs) T) : CasesOk r w cs (restOfCase w p (g.map (·.1)) T) := by
  rcases h with h | ⟨P, hP, h, hg⟩
  · exact .inl fun c hc => h c (List.mem_cons_of_mem _ hc)
  · refine .inr ⟨P, hP, ?_, fun q g' holds n U hm => hg q g' holds n U (List.mem_cons_of_mem _ hm)⟩
    match g with
    | none => exact guards_safe hP p T h
    | some (g, holds) =>
      simp only [restOfCase, Option.map_some]
      split
      · rename_i U hU
        obtain ⟨n, _, hf⟩ := getLast_filterMap hU
        exact hg p g holds n U List.mem_cons_self hf
      · split
        · exact guards_safe hP p T h
        · exact h

theorem guardsKw_mismatch {t : Ty B} {n : Nat} {p : Pat} : ∀ (kw : List (Nat × Pat)), (n, p) ∈ kw →
    (guards w p ((w.attr t n).getD [.leaf w.any])).truthy = [] → (guardsKw w kw t).1 = .mismatch
  | [], hm, _ => absurd hm List.not_mem_nil
  | (n', p') :: kw, hm, he => by
    unfold guardsKw
    dsimp only
    split
    · rfl
    · rename_i hne
      rcases List.mem_cons.mp hm with h | h
      · cases h
        exact absurd (by rw [he]; rfl) hne
      · exact guardsKw_mismatch kw h he

theorem guardsPos_mismatch {t : Ty B} {total : Nat} : ∀ (pos : List Pat) (ns : List Nat),
    (ns.length < pos.length ∨ ∃ (i n : Nat) (p : Pat), pos[i]? = some p ∧ ns[i]? = some n ∧
      (guards w p ((w.attr t n).getD [.leaf w.any])).truthy = []) →
    (guardsPos w pos t (.names ns) total).1 ≠ .ok
  | [], ns, h => by
    rcases h with h | ⟨i, n, p, h, _⟩
    · exact absurd h (Nat.not_lt_zero _)
    · cases h
  | p :: ps, [], _ => by
    unfold guardsPos
    exact nofun
  | p :: ps, n :: ns, h => by
    unfold guardsPos
    dsimp only
    split
    · exact nofun
    · rename_i hne
      apply guardsPos_mismatch ps ns
      rcases h with h | ⟨i, n', p', h1, h2, h3⟩
      · exact .inl (by simpa using h)
      · cases i with
        | zero =>
          cases h1
          cases h2
          exact absurd (by rw [h3]; rfl) hne
        | succ i => exact .inr ⟨i, n', p', h1, h2, h3⟩

end Verif.Pattern
