import Verif.Call.Reports

/-!
# C76-C80: calls

`check ps call` is what zuban finds out about a call before it compares types: `stream` is the order in which
the arguments are handed out, `matchArguments` pairs them with the parameters.  The specification of calls is in
`Spec.lean` and does not know about either.
-/

namespace Verif.Call

open Verif.Call.Spec

variable {α τ : Type} {ps : List (Param τ)} {call : List (CallArg α)}

/-- `SimpleArgs::iter` and `match_arguments_against_params`. -/
def check (ps : List (Param τ)) (call : List (CallArg α)) : Outcome α τ := matchArguments ps (stream call)

/-- The value is compared with the annotation of parameter number `j`. -/
def Compared (o : Outcome α τ) (j : Nat) (v : α) : Prop := ∃ p a, (p, some a) ∈ o.pairs ∧ p.idx = j ∧ a.value = v

/-! ## The connection -/

theorem orderly_known (hk : Known call) : Orderly call := by
  have h1 : ∀ a ∈ call, ¬ isUnknownStar a := by
    rintro a ha ⟨vs, w, rfl⟩
    exact (hk _ ha).1 _ _ rfl
  have h2 : ∀ a ∈ call, ¬ isUnknownDouble a := by
    rintro a ha ⟨vs, w, rfl⟩
    exact (hk _ ha).2 _ _ rfl
  refine ⟨?_, ?_, ?_⟩
  · exact List.pairwise_iff_forall_sublist.mpr fun {a b} hab h => absurd h (h1 a (hab.subset (by simp)))
  · exact List.pairwise_iff_forall_sublist.mpr fun {a b} hab => h2 a (hab.subset (by simp))
  · rintro ⟨a, ha, h⟩
    exact absurd h (h2 a ha)

structure Connects (ps : List (Param τ)) (call : List (CallArg α)) (ab : Ab α) : Prop where
  sig : Sig ps
  shape : ∃ P s E k, ab = start P s E k
  stream : stream call = ab.flat
  runs : ∀ {P K}, Supplies call P K → ∃ ws es, Runs ab P K ws es
  exist : ∀ ws es, (∀ w ∈ ws, ab.s = some w) → (∀ e ∈ es, ab.k = some e.2) → ∃ P K, Supplies call P K ∧ Runs ab P K ws es
  star : ab.s = none ↔ ∀ a ∈ call, ¬ isUnknownStar a
  double : ab.k = none ↔ ∀ a ∈ call, ¬ isUnknownDouble a
  names : ∀ e ∈ ab.R, mentions call e.name

theorem connects (hs : Signature ps) (hg : Grammatical call) (ho : Orderly call) : ∃ ab, Connects ps call ab := by
  obtain ⟨P0, s, E, k, h1, h2, h3, h4, h5⟩ := stream_parts hg ho
  have hR : (start P0 s E k).R = E := by simp [start, Ab.R]
  refine ⟨start P0 s E k, ⟨sig_of hs, ⟨_, _, _, _, rfl⟩, h1, ?_, ?_, ?_, ?_, ?_⟩⟩
  · intro P K hsup
    obtain ⟨ws, es, e1, e2, e3, e4⟩ := supplies_parts hsup ho
    refine ⟨ws, es, ⟨rfl, by rw [e1, ← h2]; rfl, ?_, ?_, ?_⟩⟩
    · intro w hw
      have := e2 w hw
      rw [← h3] at this
      simpa [start] using this
    · rw [hR]
      exact e3.trans (List.Perm.append_right _ (h4.map _).symm)
    · intro e he
      have := e4 e he
      rw [← h5] at this
      simpa [start] using this
  · intro ws es hw he
    obtain ⟨K, e1, e2⟩ := parts_supplies ho ws es
      (by intro w h; rw [← h3]; have : s = some w := hw w h; rw [this]; rfl)
      (by intro e h; rw [← h5]; have : k = some e.2 := he e h; rw [this]; rfl)
    refine ⟨_, K, e1, ⟨rfl, by rw [← h2]; rfl, hw, ?_, he⟩⟩
    rw [hR]
    exact e2.trans (List.Perm.append_right _ (h4.map _).symm)
  · have : s = none ↔ call.flatMap moreOf = [] := by
      rw [← h3]
      cases s <;> simp
    show s = none ↔ _
    rw [this, List.flatMap_eq_nil_iff]
    refine forall_congr' fun a => forall_congr' fun _ => ?_
    cases a with
    | star vs more => cases more <;> simp [moreOf, isUnknownStar]
    | _ => simp [moreOf, isUnknownStar]
  · have : k = none ↔ call.flatMap extraOf = [] := by
      rw [← h5]
      cases k <;> simp
    show k = none ↔ _
    rw [this, List.flatMap_eq_nil_iff]
    refine forall_congr' fun a => forall_congr' fun _ => ?_
    cases a with
    | starStar vs more => cases more <;> simp [extraOf, isUnknownDouble]
    | _ => simp [extraOf, isUnknownDouble]
  · intro e he
    rw [hR] at he
    obtain ⟨a, ha, he⟩ := List.mem_flatMap.mp (h4.mem_iff.mp he)
    refine ⟨a, ha, ?_⟩
    cases a with
    | pos v => simp [namedOf] at he
    | star vs w => simp [namedOf] at he
    | kw n v =>
      simp [namedOf] at he
      left
      exact ⟨v, by rw [he]⟩
    | starStar ms extra =>
      simp only [namedOf, List.mem_map] at he
      obtain ⟨m, hm, rfl⟩ := he
      exact Or.inr ⟨ms, extra, m.2, rfl, hm⟩

theorem Connects.fits {ab : Ab α} (h : Connects ps call ab) : (check ps call).fits = true ↔ Fine ps ab := by
  obtain ⟨P, s, E, k, rfl⟩ := h.shape
  have h1 := (matchArguments_ideal h.sig.hasNames P s E k).2
  rw [← fit_fine ps _ h.sig]
  unfold check
  rw [h.stream]
  exact h1

theorem Connects.compared {ab : Ab α} (h : Connects ps call ab) (hs : Signature ps) (hn : (ab.R.map Named.name).Nodup)
    (hr : Room ps ab) (j : Nat) (v : α) : Compared (check ps call) j v ↔ ∃ a, Take ps ab j a ∧ a.value = v := by
  obtain ⟨P, s, E, k, rfl⟩ := h.shape
  have h1 := (matchArguments_ideal h.sig.hasNames P s E k).1
  have h2 : ∀ a, Paired (ideal ps (start P s E k)).1 j a ↔ Take ps (start P s E k) j a := by
    intro a
    have := pairs_take ps (start P s E k) 0 j a h.sig (numbered_of hs) hn hr
    rwa [Nat.zero_add] at this
  unfold Compared check
  rw [h.stream, h1]
  constructor
  · rintro ⟨p, a, h3, h4, h5⟩
    exact ⟨a, (h2 a).mp ⟨p, h3, h4⟩, h5⟩
  · rintro ⟨a, h3, h5⟩
    obtain ⟨p, h3, h4⟩ := (h2 a).mpr h3
    exact ⟨p, a, h3, h4, h5⟩

theorem nodup_of_accepts {ab : Ab α} {P K ws es} (h : Runs ab P K ws es) (ha : Accepts ps P K) :
    (ab.R.map Named.name).Nodup := by
  apply h.nodup
  by_contra hn
  exact ha.once (Or.inl hn)

theorem nil_of_none {β γ : Type} {ws : List β} {s : Option γ} {f : β → γ} (hs : s = none) (h : ∀ w ∈ ws, s = some (f w)) : ws = [] := by
  cases ws with
  | nil => rfl
  | cons w ws =>
    have := h w List.mem_cons_self
    rw [hs] at this
    cases this

/-! ## C76: calls with known arguments -/

/-- A call that Python accepts is accepted, and every value is compared with the annotation of the parameter that gets
it, and with no other one. -/
theorem accepted_call_binds (hs : Signature ps) (hg : Grammatical call) (hk : Known call) {P K}
    (hsup : Supplies call P K) (ha : Accepts ps P K) :
    (check ps call).fits = true ∧ ∀ j v, Compared (check ps call) j v ↔ Gets ps P K j v := by
  have ho := orderly_known hk
  obtain ⟨ab, hc⟩ := connects hs hg ho
  obtain ⟨ws, es, hr⟩ := hc.runs hsup
  have hsn : ab.s = none := hc.star.mpr (by rintro a ha ⟨vs, w, rfl⟩; exact (hk _ ha).1 _ _ rfl)
  have hkn : ab.k = none := hc.double.mpr (by rintro a ha ⟨vs, w, rfl⟩; exact (hk _ ha).2 _ _ rfl)
  have hf := fine_of_accepts hs hr hsn ha
  refine ⟨hc.fits.mpr hf, fun j v => ?_⟩
  rw [hc.compared hs (nodup_of_accepts hr ha) hf.room]
  constructor
  · rintro ⟨a, ht, rfl⟩
    exact gets_of_take hr hsn hkn ha ht
  · exact take_of_gets hs hr ha hf (Or.inl hsn)

/-- A call that is accepted has a place for every argument and an argument for every parameter.  If a parameter is given
twice, then there is a `**kwargs` (see `repeated_argument_violation`). -/
theorem accepted_call_fills_partial (hs : Signature ps) (hg : Grammatical call) (hk : Known call) {P K}
    (hsup : Supplies call P K) (hfit : (check ps call).fits = true) :
    Fills ps P K ∧ (Repeated ps P K → ∃ p ∈ ps, p.kind = .starStar) := by
  have ho := orderly_known hk
  obtain ⟨ab, hc⟩ := connects hs hg ho
  obtain ⟨ws, es, hr⟩ := hc.runs hsup
  have hsn : ab.s = none := hc.star.mpr (by rintro a ha ⟨vs, w, rfl⟩; exact (hk _ ha).1 _ _ rfl)
  have hkn : ab.k = none := hc.double.mpr (by rintro a ha ⟨vs, w, rfl⟩; exact (hk _ ha).2 _ _ rfl)
  obtain ⟨ws', es', h1, h2, h3⟩ := complete hs (hc.fits.mp hfit)
  have e1 : ws' = ws := by rw [hr.ws_nil hsn]; exact nil_of_none hsn h1
  have e2 : es' = es := by rw [hr.es_nil hkn]; exact nil_of_none (f := Prod.snd) hkn h2
  subst e1 e2
  exact h3 P K hr

/-- Without a `**kwargs` exactly the calls that Python accepts are accepted. -/
theorem call_accepted_iff (hs : Signature ps) (hg : Grammatical call) (hk : Known call) {P K}
    (hsup : Supplies call P K) (hno : ∀ p ∈ ps, p.kind ≠ .starStar) :
    (check ps call).fits = true ↔ Accepts ps P K := by
  constructor
  · intro h
    obtain ⟨h1, h2⟩ := accepted_call_fills_partial hs hg hk hsup h
    refine ⟨h1, fun hr => ?_⟩
    obtain ⟨p, hp, hpk⟩ := h2 hr
    exact hno p hp hpk
  · exact fun h => (accepted_call_binds hs hg hk hsup h).1

/-! ## C77: every value is compared -/

/-- In an orderly call every value that can reach a parameter is compared with its annotation, if there is not both a `*`
of unknown length and an argument that a parameter behind it could get by name. -/
theorem every_value_compared_partial (hs : Signature ps) (hg : Grammatical call) (ho : Orderly call)
    (hone : (∀ a ∈ call, ¬ isUnknownStar a) ∨ ((∀ a ∈ call, ¬ isUnknownDouble a) ∧
      ((∀ p ∈ ps, p.kind ≠ .starStar) ∨ ∀ n, mentions call n → ∀ p ∈ ps, positional p → ¬ named p n)))
    (hfit : (check ps call).fits = true) {P K} (hsup : Supplies call P K) (ha : Accepts ps P K) {j v}
    (hget : Gets ps P K j v) : Compared (check ps call) j v := by
  obtain ⟨ab, hc⟩ := connects hs hg ho
  obtain ⟨ws, es, hr⟩ := hc.runs hsup
  have hf := hc.fits.mp hfit
  rw [hc.compared hs (nodup_of_accepts hr ha) hf.room]
  refine take_of_gets hs hr ha hf ?_ hget
  rcases hone with h | ⟨h1, h2⟩
  · exact Or.inl (hc.star.mpr h)
  · refine Or.inr ⟨hc.double.mpr h1, ?_⟩
    rcases h2 with h2 | h2
    · left
      rintro ⟨p, hp, hpk⟩
      exact h2 p hp hpk
    · exact Or.inr fun e he => h2 _ (hc.names e he)

/-! ## C78: an accepted call can succeed -/

/-- For an orderly call that is accepted there are lengths and names of the unknown arguments with which Python accepts
it; or it gives a parameter twice and there is a `**kwargs`. -/
theorem accepted_call_can_succeed_partial (hs : Signature ps) (hg : Grammatical call) (ho : Orderly call)
    (hfit : (check ps call).fits = true) :
    ∃ P K, Supplies call P K ∧ Fills ps P K ∧ (Repeated ps P K → ∃ p ∈ ps, p.kind = .starStar) := by
  obtain ⟨ab, hc⟩ := connects hs hg ho
  obtain ⟨ws, es, h1, h2, h3⟩ := complete hs (hc.fits.mp hfit)
  obtain ⟨P, K, h4, h5⟩ := hc.exist ws es h1 h2
  exact ⟨P, K, h4, h3 P K h5⟩

theorem accepted_call_succeeds_partial (hs : Signature ps) (hg : Grammatical call) (ho : Orderly call)
    (hno : ∀ p ∈ ps, p.kind ≠ .starStar) (hfit : (check ps call).fits = true) :
    ∃ P K, Supplies call P K ∧ Accepts ps P K := by
  obtain ⟨P, K, h1, h2, h3⟩ := accepted_call_can_succeed_partial hs hg ho hfit
  refine ⟨P, K, h1, h2, fun hr => ?_⟩
  obtain ⟨p, hp, hpk⟩ := h3 hr
  exact hno p hp hpk

/-! ## C79: a call that can succeed is not refused -/

theorem possible_call_accepted_partial (hs : Signature ps) (hg : Grammatical call) (ho : Orderly call)
    (hstar : ∀ a ∈ call, ¬ isUnknownStar a) {P K} (hsup : Supplies call P K) (ha : Accepts ps P K) :
    (check ps call).fits = true := by
  obtain ⟨ab, hc⟩ := connects hs hg ho
  obtain ⟨ws, es, hr⟩ := hc.runs hsup
  exact hc.fits.mpr (fine_of_accepts hs hr (hc.star.mpr hstar) ha)

/-! ## C80: messages -/

/-- Every refused call has a message, and only refused ones, for any parameters and arguments. -/
theorem refused_iff_reported (ps : List (Param τ)) (args : List (Arg α)) :
    (matchArguments ps args).fits = false ↔ (matchArguments ps args).reports ≠ [] := by
  unfold matchArguments
  refine finish_reports ps _ _ (collect_kept _ ?_)
  intro a ha
  cases ha

/-- The `unreachable!()` in the loop over unused arguments (utils.rs 1187) is not reached: they all have names. -/
theorem unused_arguments_have_names (ps : List (Param τ)) (args : List (Arg α)) :
    ∀ a ∈ (hasUnused (collect { args := args, params := ps }).2).2.unused, ∃ n, a.keywordName = some n := by
  intro a ha
  have h : Kept ({ args := args, params := ps } : It α τ) := by
    intro a ha
    cases ha
  exact Option.isSome_iff_exists.mp (hasUnused_kept _ (collect_kept _ h) a ha)

/-- What the messages say about a call with known arguments is true. -/
theorem reports_are_true (hs : Signature ps) (hg : Grammatical call) (hk : Known call) {P K}
    (hsup : Supplies call P K) {r : Report} (hr : r ∈ (check ps call).reports) : Holds ps P K r := by
  have ho := orderly_known hk
  obtain ⟨ab, hc⟩ := connects hs hg ho
  obtain ⟨ws, es, hrun⟩ := hc.runs hsup
  have hsn : ab.s = none := hc.star.mpr (by rintro a ha ⟨vs, w, rfl⟩; exact (hk _ ha).1 _ _ rfl)
  have hkn : ab.k = none := hc.double.mpr (by rintro a ha ⟨vs, w, rfl⟩; exact (hk _ ha).2 _ _ rfl)
  have hP : P = ab.P := by rw [hrun.P, hrun.ws_nil hsn, List.append_nil]
  have hes := hrun.es_nil hkn
  have htm : ab.tooMany = false := hrun.tooMany
  have h0 : At { args := ab.flat, params := ps } ps none none ab := by
    obtain ⟨P, s, E, k, rfl⟩ := hc.shape
    exact ⟨rfl, rfl, rfl, rfl, rfl, rfl⟩
  obtain ⟨e1, e2⟩ := collect_ideal ps hc.sig.hasNames h0
  obtain ⟨e3, e4⟩ := ideal_known ps ab hc.sig hsn hkn
  unfold check matchArguments at hr
  rw [hc.stream] at hr
  have hnoroom : ¬ Room ps ab →
      ¬ ((∃ p ∈ ps, p.kind = .star) ∨ ∀ j < P.length, ∃ p, ps[j]? = some p ∧ positional p) := by
    intro h1 h2
    apply h1
    rw [hP] at h2
    exact h2
  have hno : ∀ {j q}, ps[j]? = some q → required q → (∀ a, ¬ takesOne q ab j a) → ∀ v, ¬ Gets ps P K j v := by
    intro j q hj hq ht v hv
    cases hv with
    | position h1 h2 h3 =>
      rename_i q'
      rw [hj] at h1
      injection h1 with h1
      subst h1
      rw [hP] at h3
      have : byPos ab j (.pos v) := Or.inl ⟨v, h3, rfl⟩
      refine ht (.pos v) ?_
      unfold takesOne
      rcases h2 with h2 | h2 <;> rw [h2]
      · exact this
      · exact Or.inl this
    | rest h1 h2 _ _ =>
      rw [hj] at h1
      injection h1 with h1
      subst h1
      exact hq.1 h2
    | name h1 h2 h3 =>
      rename_i q' n
      rw [hj] at h1
      injection h1 with h1
      subst h1
      rcases hrun.mem.mp h3 with ⟨e, he, hen, _⟩ | h4
      · have hb : byName q.name ab e.arg := Or.inl ⟨e, he, by rw [hen, h2.2], rfl⟩
        rcases h2.1 with hk | hk
        · by_cases hlt : j < ab.P.length
          · refine ht (.pos ab.P[j]) ?_
            unfold takesOne
            rw [hk]
            exact Or.inl (Or.inl ⟨_, List.getElem?_eq_getElem hlt, rfl⟩)
          · refine ht e.arg ?_
            unfold takesOne
            rw [hk]
            exact Or.inr ⟨hsn, by omega, hb⟩
        · refine ht e.arg ?_
          unfold takesOne
          rw [hk]
          exact hb
      · rw [hes] at h4
        cases h4
    | other h1 h2 _ _ =>
      rw [hj] at h1
      injection h1 with h1
      subst h1
      exact hq.2.1 h2
  rcases finish_known ps _ e2 e3 e4 hr with ⟨rfl, h1⟩ | ⟨rfl, h1⟩ | ⟨⟨h1, h2⟩, h3⟩
  · refine hnoroom fun hroom => ?_
    rw [(ideal_room ps ab hc.sig hroom).1, htm] at h1
    cases h1
  · exact hnoroom fun hroom => h1 (ideal_room ps ab hc.sig hroom).2
  · have hroom := (room_of_ideal ps ab hc.sig h1 h2).2
    obtain ⟨l1, l2⟩ := ideal_left ps ab hc.sig hroom
    have lacks : ∀ q ∈ missing (ideal ps ab).1, Lacks ps P K q := by
      intro q hq
      obtain ⟨m1, j, m2, m3⟩ := l2 q hq
      exact ⟨m1.1, m1.2.1, m1.2.2, j, m2, hno m2 m1 m3⟩
    have hmiss := reportMissing_mem (missing (ideal ps ab).1) (fun q hq => by
      obtain ⟨m1, j, m2, _⟩ := l2 q hq
      exact ⟨m1, hs.names q (List.mem_of_getElem? m2)⟩)
    rw [e1] at h3
    rcases h3 with ⟨e, he, rfl⟩ | h3 | ⟨h3, rfl⟩
    · obtain ⟨m1, m2, m3⟩ := l1 e he
      have hmem : e.name ∈ K.map Prod.fst := by
        rw [hrun.names.mem_iff, List.mem_append]
        exact Or.inl (List.mem_map_of_mem m1)
      have hkp : hasKeywordParam ps e.name = true ↔ ∃ p ∈ ps, named p e.name := by
        unfold hasKeywordParam named
        simp only [List.any_eq_true, Bool.and_eq_true, beq_iff_eq, Bool.or_eq_true]
        exact exists_congr fun q => and_congr Iff.rfl and_comm
      cases hb : hasKeywordParam ps e.name with
      | true =>
        obtain ⟨p, hp, hn⟩ := hkp.mp hb
        refine ⟨hmem, ⟨p, hp, hn⟩, ?_⟩
        by_cases ht : Taken ps ab e.name
        · left
          rw [hrun.names.nodup_iff, hes]
          simpa using m3 ht
        · right
          obtain ⟨j, hj⟩ := List.getElem?_of_mem hp
          have hnw : ¬ wants p ab j e.name := fun hw => ht ⟨j, p, hj, hw⟩
          have hkk : p.kind = .posOrKw := by
            rcases hn.1 with hk | hk
            · exact hk
            · exact absurd ⟨hn, Or.inl hk⟩ hnw
          refine ⟨j, p, e.name, hj, hn, Or.inr hkk, ?_, hmem⟩
          rw [hP]
          by_contra hlt
          exact hnw ⟨hn, Or.inr ⟨hsn, by omega⟩⟩
      | false =>
        refine ⟨hmem, fun p hp hn => ?_, fun p hp hpk => m2 ⟨p, hp, hpk⟩⟩
        rw [hkp.mpr ⟨p, hp, hn⟩] at hb
        cases hb
    · rcases hmiss.1 r h3 with ⟨p, hp, hpk, rfl⟩ | ⟨p, hp, n, hpk, hpn, rfl⟩
      · exact ⟨p, hpk, lacks p hp⟩
      · exact ⟨p, hpk, hpn, lacks p hp⟩
    · refine ⟨h3, fun n hn => ?_⟩
      obtain ⟨p, hp, hpk, hpn⟩ := hmiss.2 n hn
      exact ⟨p, hpk, hpn, lacks p hp⟩

end Verif.Call
