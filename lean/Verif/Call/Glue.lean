import Verif.Call.Calls
import Mathlib.Data.List.Dedup

/-!
# From the calls of Python to the arguments that are handed out
-/

namespace Verif.Call

open Verif.Call.Spec

variable {α τ : Type} {ps : List (Param τ)}

theorem sig_of (h : Signature ps) : Sig ps := ⟨h.order, h.names, h.different⟩

theorem numbered_of (h : Signature ps) : Numbered 0 ps := fun j p hj => by rw [h.idx j p hj]; omega

/-- Only one parameter has a name. -/
theorem named_unique (h : Signature ps) {i j : Nat} {p q : Param τ} {n : String} (hi : ps[i]? = some p) (hj : ps[j]? = some q)
    (hp : named p n) (hq : named q n) : i = j := by
  by_contra hne
  have key : ∀ {i j : Nat} {p q : Param τ}, i < j → ps[i]? = some p → ps[j]? = some q → named p n → named q n → False := by
    intro i j p q hlt hi hj hp hq
    obtain ⟨hi1, hi2⟩ := List.getElem?_eq_some_iff.mp hi
    obtain ⟨hj1, hj2⟩ := List.getElem?_eq_some_iff.mp hj
    have := List.pairwise_iff_getElem.mp h.different i j hi1 hj1 hlt n
    rw [hi2, hj2] at this
    exact this hp hq
  rcases Nat.lt_or_gt_of_ne hne with hlt | hlt
  · exact key hlt hi hj hp hq
  · exact key hlt hj hi hq hp

/-- Positional parameters come first. -/
theorem positional_before (h : Signature ps) {i j : Nat} {q : Param τ} (hj : ps[j]? = some q) (hq : positional q) (hij : i ≤ j) :
    ∃ p, ps[i]? = some p ∧ positional p := by
  rcases Nat.lt_or_eq_of_le hij with hlt | rfl
  · obtain ⟨hj1, hj2⟩ := List.getElem?_eq_some_iff.mp hj
    have hi1 : i < ps.length := by omega
    refine ⟨ps[i], List.getElem?_eq_getElem hi1, ?_⟩
    have := (List.pairwise_iff_getElem.mp h.order i j hi1 hj1 hlt).1
    rw [hj2] at this
    unfold positional at *
    cases hk : (ps[i]).kind <;> rcases hq with hq | hq <;> rw [hk, hq] at this <;> simp [rank] at this ⊢
  · exact ⟨q, hj, hq⟩

/-- What is known about the values of a call: `ab` are the arguments that are handed out, `P` and `K` the values at run
time. -/
structure Runs (ab : Ab α) (P : List α) (K : List (String × α)) (ws : List α) (es : List (String × α)) : Prop where
  tooMany : ab.tooMany = false
  P : P = ab.P ++ ws
  ws : ∀ w ∈ ws, ab.s = some w
  K : K.Perm (ab.R.map Named.pair ++ es)
  es : ∀ e ∈ es, ab.k = some e.2

variable {ab : Ab α} {P : List α} {K : List (String × α)} {ws : List α} {es : List (String × α)}

theorem Runs.ws_nil (h : Runs ab P K ws es) (hs : ab.s = none) : ws = [] := by
  cases ws with
  | nil => rfl
  | cons w ws => have := h.ws w List.mem_cons_self; rw [hs] at this; cases this

theorem Runs.es_nil (h : Runs ab P K ws es) (hs : ab.k = none) : es = [] := by
  cases es with
  | nil => rfl
  | cons w ws => have := h.es w List.mem_cons_self; rw [hs] at this; cases this

theorem Runs.mem (h : Runs ab P K ws es) {n : String} {v : α} : (n, v) ∈ K ↔ (∃ e ∈ ab.R, e.name = n ∧ e.v = v) ∨ (n, v) ∈ es := by
  rw [h.K.mem_iff, List.mem_append, List.mem_map]
  refine or_congr (exists_congr fun e => and_congr Iff.rfl ?_) Iff.rfl
  simp [Named.pair]

theorem Runs.names (h : Runs ab P K ws es) : (K.map Prod.fst).Perm (ab.R.map Named.name ++ es.map Prod.fst) := by
  have := h.K.map Prod.fst
  simpa [Named.pair, Function.comp_def] using this

theorem Runs.nodup (h : Runs ab P K ws es) (hn : (K.map Prod.fst).Nodup) : (ab.R.map Named.name).Nodup := by
  have := h.names.nodup_iff.mp hn
  exact (List.nodup_append.mp this).1

/-- A call that Python accepts is fine, if no `*` has an unknown length. -/
theorem fine_of_accepts (hsig : Signature ps) (h : Runs ab P K ws es) (hs : ab.s = none) (ha : Accepts ps P K) : Fine ps ab := by
  have hws := h.ws_nil hs
  have hP : P = ab.P := by rw [h.P, hws, List.append_nil]
  have hnd : (K.map Prod.fst).Nodup := by
    by_contra hn
    exact ha.once (Or.inl hn)
  have hlate : ∀ {j p n}, ps[j]? = some p → named p n → n ∈ K.map Prod.fst → p.kind = .kwOnly ∨ (ab.s = none ∧ ab.P.length ≤ j) := by
    intro j p n hj hp hn
    rcases hp.1 with hk | hk
    · right
      refine ⟨hs, ?_⟩
      by_contra hlt
      exact ha.once (Or.inr ⟨j, p, n, hj, hp, Or.inr hk, by rw [hP]; omega, hn⟩)
    · exact Or.inl hk
  refine ⟨h.tooMany, ?_, ?_, ?_⟩
  · rcases ha.room with hr | hr
    · exact Or.inl hr
    · exact Or.inr (by rw [← hP]; exact hr)
  · intro j p hj hr
    obtain ⟨v, hv⟩ := ha.filled j p hj hr.1 hr.2.1 hr.2.2
    cases hv with
    | position hq hpos hv =>
      rw [hj] at hq
      injection hq with hq
      subst hq
      rw [hP] at hv
      refine ⟨.pos v, ?_⟩
      have : byPos ab j (.pos v) := Or.inl ⟨v, hv, rfl⟩
      unfold takesOne
      rcases hpos with hk | hk <;> rw [hk]
      · exact this
      · exact Or.inl this
    | rest hq hk _ _ =>
      rw [hj] at hq
      injection hq with hq
      subst hq
      exact absurd hk hr.1
    | name hq hn hv =>
      rename_i q n
      rw [hj] at hq
      injection hq with hq
      subst hq
      have hb : ∃ a, byName p.name ab a := by
        rw [hn.2]
        by_cases hex : ∃ e ∈ ab.R, e.name = n
        · obtain ⟨e, he, he2⟩ := hex
          exact ⟨e.arg, Or.inl ⟨e, he, by rw [he2], rfl⟩⟩
        · rcases h.mem.mp hv with ⟨e, he, he2, _⟩ | hv
          · exact absurd ⟨e, he, he2⟩ hex
          · refine ⟨_, Or.inr ⟨fun e he h1 => hex ⟨e, he, by injection h1⟩, v, h.es _ hv, rfl⟩⟩
      obtain ⟨a, hb⟩ := hb
      refine ⟨a, ?_⟩
      unfold takesOne
      rcases hn.1 with hk | hk <;> rw [hk]
      · rcases hlate hj hn (List.mem_map_of_mem (f := Prod.fst) hv) with h1 | h1
        · rw [hk] at h1; cases h1
        · exact Or.inr ⟨h1.1, h1.2, hb⟩
      · exact hb
    | other hq hk _ _ =>
      rw [hj] at hq
      injection hq with hq
      subst hq
      exact absurd hk hr.2.1
  · by_cases hss : hasKind .starStar ps
    · exact Or.inl hss
    · refine Or.inr ⟨h.nodup hnd, fun e he => ?_⟩
      have hmem : e.name ∈ K.map Prod.fst := by
        rw [h.names.mem_iff, List.mem_append]
        exact Or.inl (List.mem_map_of_mem he)
      rcases ha.known _ hmem with ⟨p, hp, hn⟩ | hk
      · obtain ⟨j, hj⟩ := List.getElem?_of_mem hp
        exact ⟨j, p, hj, hn, hlate hj hn hmem⟩
      · exact absurd hk hss

/-- Every value that reaches a parameter was paired with it, if there is no unknown `*`, or no unknown `**` and no named
argument for a positional parameter. -/
theorem take_of_gets (hsig : Signature ps) (h : Runs ab P K ws es) (ha : Accepts ps P K) (hf : Fine ps ab)
    (hs : ab.s = none ∨ (ab.k = none ∧ (¬ hasKind .starStar ps ∨ ∀ e ∈ ab.R, ∀ p ∈ ps, positional p → ¬ named p e.name)))
    {j : Nat} {v : α} (hg : Gets ps P K j v) : ∃ a, Take ps ab j a ∧ a.value = v := by
  have hnd : (K.map Prod.fst).Nodup := by
    by_contra hn
    exact ha.once (Or.inl hn)
  have hget : ∀ {i : Nat} {v}, P[i]? = some v → ab.P[i]? = some v ∨ (ab.P.length ≤ i ∧ ab.s = some v) := by
    intro i v hv
    rw [h.P] at hv
    by_cases hi : i < ab.P.length
    · rw [List.getElem?_append_left hi] at hv
      exact Or.inl hv
    · rw [List.getElem?_append_right (by omega)] at hv
      exact Or.inr ⟨by omega, h.ws v (List.mem_of_getElem? hv)⟩
  cases hg with
  | position hj hp hv =>
    rename_i p
    have hb : ∃ a, byPos ab j a ∧ a.value = v := by
      rcases hget hv with h1 | ⟨h1, h2⟩
      · exact ⟨_, Or.inl ⟨v, h1, rfl⟩, rfl⟩
      · exact ⟨_, Or.inr ⟨h1, v, h2, rfl⟩, rfl⟩
    obtain ⟨a, hb, hv⟩ := hb
    refine ⟨a, ⟨p, hj, ?_⟩, hv⟩
    unfold takes takesOne
    rcases hp with hk | hk <;> rw [hk]
    · exact hb
    · exact Or.inl hb
  | rest hj hk hi hv =>
    rename_i p i
    rcases hget hv with h1 | ⟨_, h2⟩
    · refine ⟨.pos v, ⟨p, hj, ?_⟩, rfl⟩
      unfold takes
      rw [hk]
      exact Or.inl ⟨i, v, hi, h1, rfl⟩
    · refine ⟨.star v, ⟨p, hj, ?_⟩, rfl⟩
      unfold takes
      rw [hk]
      exact Or.inr ⟨v, h2, rfl⟩
  | name hj hn hv =>
    rename_i p n
    have hb : ∃ a, byName p.name ab a ∧ a.value = v := by
      rw [hn.2]
      rcases h.mem.mp hv with ⟨e, he, he2, hev⟩ | hv'
      · exact ⟨e.arg, Or.inl ⟨e, he, by rw [he2], rfl⟩, hev⟩
      · refine ⟨_, Or.inr ⟨fun e he h1 => ?_, v, h.es _ hv', rfl⟩, rfl⟩
        injection h1 with h1
        have := h.names.nodup_iff.mp hnd
        have := (List.nodup_append.mp this).2.2 e.name (List.mem_map_of_mem he) n (List.mem_map_of_mem (f := Prod.fst) hv')
        exact this h1
    obtain ⟨a, hb, hav⟩ := hb
    refine ⟨a, ⟨p, hj, ?_⟩, hav⟩
    unfold takes takesOne
    rcases hn.1 with hk | hk <;> rw [hk]
    · right
      rcases hs with hs | ⟨hs1, hs2⟩
      · refine ⟨hs, ?_, hb⟩
        by_contra hlt
        have hws := h.ws_nil hs
        exact ha.once (Or.inr ⟨j, p, n, hj, hn, Or.inr hk, by rw [h.P, hws]; simp; omega,
          List.mem_map_of_mem (f := Prod.fst) hv⟩)
      · have hes := h.es_nil hs1
        rcases h.mem.mp hv with ⟨e, he, he2, hev⟩ | hv'
        · rcases hs2 with hs2 | hs2
          · rcases hf.left with h1 | ⟨_, h1⟩
            · exact absurd h1 hs2
            · obtain ⟨i, q, hi, hw⟩ := h1 e he
              rw [he2] at hw
              have := named_unique hsig hi hj hw.1 hn
              subst this
              rw [hi] at hj
              injection hj with hj
              subst hj
              rcases hw.2 with h2 | h2
              · rw [hk] at h2; cases h2
              · exact ⟨h2.1, h2.2, hb⟩
          · exact absurd (by rw [he2]; exact hn) (hs2 e he p (List.mem_of_getElem? hj) (Or.inr hk))
        · rw [hes] at hv'
          cases hv'
    · exact hb
  | other hj hk hno hv =>
    rename_i p n
    rcases h.mem.mp hv with ⟨e, he, he2, hev⟩ | hv'
    · refine ⟨e.arg, ⟨p, hj, ?_⟩, hev⟩
      unfold takes
      rw [hk]
      refine Or.inl ⟨e, he, ?_, rfl⟩
      rintro ⟨i, q, hi, hw⟩
      rw [he2] at hw
      exact hno q (List.mem_of_getElem? hi) hw.1
    · refine ⟨.starStar v, ⟨p, hj, ?_⟩, rfl⟩
      unfold takes
      rw [hk]
      exact Or.inr ⟨v, h.es _ hv', rfl⟩

/-- What is paired reaches the parameter, if all arguments are known. -/
theorem gets_of_take (h : Runs ab P K ws es) (hs : ab.s = none) (hk : ab.k = none)
    (ha : Accepts ps P K) {j : Nat} {a : Arg α} (ht : Take ps ab j a) : Gets ps P K j a.value := by
  have hP : P = ab.P := by rw [h.P, h.ws_nil hs, List.append_nil]
  obtain ⟨p, hj, ht⟩ := ht
  have hpos : positional p → byPos ab j a → Gets ps P K j a.value := by
    rintro hp (⟨v, h1, rfl⟩ | ⟨_, v, h1, _⟩)
    · exact Gets.position hj hp (by rw [hP]; exact h1)
    · rw [hs] at h1; cases h1
  have hname : (p.kind = .posOrKw ∨ p.kind = .kwOnly) → byName p.name ab a → Gets ps P K j a.value := by
    rintro hp (⟨e, he, h1, rfl⟩ | ⟨_, v, h1, _⟩)
    · exact Gets.name hj ⟨hp, h1.symm⟩ (h.mem.mpr (Or.inl ⟨e, he, rfl, rfl⟩))
    · rw [hk] at h1; cases h1
  unfold takes takesOne at ht
  cases hpk : p.kind <;> rw [hpk] at ht
  · exact hpos (Or.inl hpk) ht
  · rcases ht with ht | ht
    · exact hpos (Or.inr hpk) ht
    · exact hname (Or.inl hpk) ht.2.2
  · exact hname (Or.inr hpk) ht
  · rcases ht with ⟨i, v, h1, h2, rfl⟩ | ⟨v, h1, _⟩
    · exact Gets.rest hj hpk h1 (by rw [hP]; exact h2)
    · rw [hs] at h1; cases h1
  · rcases ht with ⟨e, he, h1, rfl⟩ | ⟨v, h1, _⟩
    · have hv : (e.name, e.v) ∈ K := h.mem.mpr (Or.inl ⟨e, he, rfl, rfl⟩)
      refine Gets.other hj hpk (fun q hq hn => h1 ?_) hv
      obtain ⟨i, hi⟩ := List.getElem?_of_mem hq
      refine ⟨i, q, hi, hn, ?_⟩
      rcases hn.1 with hqk | hqk
      · right
        refine ⟨hs, ?_⟩
        by_contra hlt
        exact ha.once (Or.inr ⟨i, q, e.name, hi, hn, Or.inr hqk, by rw [hP]; omega,
          List.mem_map_of_mem (f := Prod.fst) hv⟩)
      · exact Or.inl hqk
    · rw [hk] at h1; cases h1

theorem named_opt (p : Param τ) (n : String) : named p n → p.name = some n := And.right

open Classical in
/-- A call that fits can be completed. -/
theorem complete (hsig : Signature ps) (hf : Fine ps ab) :
    ∃ (ws : List α) (es : List (String × α)), (∀ w ∈ ws, ab.s = some w) ∧ (∀ e ∈ es, ab.k = some e.2) ∧
      ∀ P K, Runs ab P K ws es → Fills ps P K ∧ (Repeated ps P K → ∃ p ∈ ps, p.kind = .starStar) := by
  -- how many positional parameters there are
  let m := (ps.filter fun p => decide (positional p)).length
  have hm : ∀ {j p}, ps[j]? = some p → (positional p ↔ j < m) := by
    have key : ∀ (ps : List (Param τ)), ps.Pairwise (fun p q => rank p.kind ≤ rank q.kind) → ∀ (j : Nat) p, ps[j]? = some p →
        (positional p ↔ j < (ps.filter fun p => decide (positional p)).length) := by
      intro ps
      induction ps with
      | nil => intro _ j p hj; simp at hj
      | cons q ps ih =>
        intro hp j p hj
        obtain ⟨h1, h2⟩ := List.pairwise_cons.mp hp
        by_cases hq : positional q
        · rw [List.filter_cons_of_pos (by simpa using hq)]
          cases j with
          | zero => simp at hj; subst hj; simp [hq]
          | succ j => simp at hj; rw [ih h2 j p hj]; simp
        · have hall : ∀ p ∈ q :: ps, ¬ positional p := by
            intro p hp
            rcases List.mem_cons.mp hp with rfl | hp
            · exact hq
            · have := h1 p hp
              unfold positional at *
              cases hk : q.kind <;> cases hk2 : p.kind <;> simp [hk, hk2, rank] at *
          have : (q :: ps).filter (fun p => decide (positional p)) = [] := by
            rw [List.filter_eq_nil_iff]
            intro p hp
            simpa using hall p hp
          rw [this]
          simp [hall p (List.mem_of_getElem? hj)]
    intro j p hj
    exact key ps (hsig.order.imp fun h => h.1) j p hj
  let ws : List α := match ab.s with
    | none => []
    | some w => List.replicate (m - ab.P.length) w
  have hws : ∀ w ∈ ws, ab.s = some w := by
    intro w hw
    simp only [ws] at hw
    split at hw
    · cases hw
    · rename_i u hu
      rw [(List.mem_replicate.mp hw).2, hu]
  have hlen : ∀ w, ab.s = some w → ws.length = m - ab.P.length := by
    intro w hw
    simp only [ws, hw, List.length_replicate]
  have hlen0 : ab.s = none → ws = [] := by
    intro hw
    simp only [ws, hw]
  let open_ : String → Prop := fun n => ∃ (j : Nat) (p : Param τ), ps[j]? = some p ∧ required p ∧ wants p ab j n ∧ ∀ e ∈ ab.R, e.name ≠ n
  let ns : List String := ((ps.filterMap fun p => p.name).dedup).filter fun n => decide (open_ n)
  have hns : ∀ n, n ∈ ns ↔ open_ n := by
    intro n
    simp only [ns, List.mem_filter, List.mem_dedup, List.mem_filterMap, decide_eq_true_eq, and_iff_right_iff_imp]
    rintro ⟨j, p, hj, _, hw, _⟩
    exact ⟨p, List.mem_of_getElem? hj, hw.1.2⟩
  have hnsd : ns.Nodup := (List.nodup_dedup _).filter _
  let es : List (String × α) := match ab.k with
    | none => []
    | some w => ns.map fun n => (n, w)
  have hes : ∀ e ∈ es, ab.k = some e.2 := by
    intro e he
    simp only [es] at he
    split at he
    · cases he
    · rename_i u hu
      obtain ⟨n, _, rfl⟩ := List.mem_map.mp he
      exact hu
  have hes1 : ∀ n ∈ es.map Prod.fst, open_ n := by
    intro n hn
    simp only [es] at hn
    split at hn
    · cases hn
    · rw [← hns]
      simpa [Function.comp_def] using hn
  have hesn : (es.map Prod.fst).Nodup := by
    simp only [es]
    split
    · simp
    · simpa [Function.comp_def] using hnsd
  refine ⟨ws, es, hws, hes, fun P K h => ⟨⟨?_, ?_, ?_⟩, ?_⟩⟩
  · rcases hf.room with hr | hr
    · exact Or.inl hr
    · right
      intro j hj
      rw [h.P, List.length_append] at hj
      by_cases hlt : j < ab.P.length
      · exact hr j hlt
      · cases hs : ab.s with
        | none => rw [hlen0 hs] at hj; simp at hj; omega
        | some w =>
          rw [hlen w hs] at hj
          have hjm : j < m := by omega
          have hjl : j < ps.length := Nat.lt_of_lt_of_le hjm (List.length_filter_le _ _)
          exact ⟨ps[j], List.getElem?_eq_getElem hjl, (hm (List.getElem?_eq_getElem hjl)).mpr hjm⟩
  · intro n hn
    rw [h.names.mem_iff, List.mem_append] at hn
    rcases hn with hn | hn
    · obtain ⟨e, he, rfl⟩ := List.mem_map.mp hn
      rcases hf.left with h1 | h1
      · exact Or.inr h1
      · obtain ⟨j, p, hj, hw⟩ := h1.2 e he
        exact Or.inl ⟨p, List.mem_of_getElem? hj, hw.1⟩
    · obtain ⟨j, p, hj, _, hw, _⟩ := hes1 n hn
      exact Or.inl ⟨p, List.mem_of_getElem? hj, hw.1⟩
  · intro j p hj hk1 hk2 hd
    have hreq : required p := ⟨hk1, hk2, hd⟩
    obtain ⟨a, ha⟩ := hf.filled j p hj hreq
    have hpos : positional p → byPos ab j a → ∃ v, Gets ps P K j v := by
      rintro hp (⟨v, h1, _⟩ | ⟨h1, w, h2, _⟩)
      · refine ⟨v, Gets.position hj hp ?_⟩
        rw [h.P, List.getElem?_append_left (List.getElem?_eq_some_iff.mp h1).1]
        exact h1
      · have hjm := (hm hj).mp hp
        have hl := hlen w h2
        have : j - ab.P.length < ws.length := by omega
        refine ⟨ws[j - ab.P.length], Gets.position hj hp ?_⟩
        rw [h.P, List.getElem?_append_right h1]
        exact List.getElem?_eq_getElem this
    have hname : ∀ n, wants p ab j n → byName p.name ab a → ∃ v, Gets ps P K j v := by
      rintro n hw (⟨e, he, h1, _⟩ | ⟨h1, w, h2, _⟩)
      · exact ⟨e.v, Gets.name hj ⟨hw.1.1, h1.symm⟩ (h.mem.mpr (Or.inl ⟨e, he, rfl, rfl⟩))⟩
      · refine ⟨w, Gets.name hj hw.1 (h.mem.mpr (Or.inr ?_))⟩
        simp only [es, h2]
        refine List.mem_map.mpr ⟨n, (hns n).mpr ⟨j, p, hj, hreq, hw, fun e he h3 => h1 e he ?_⟩, rfl⟩
        rw [hw.1.2, h3]
    unfold takesOne at ha
    cases hk : p.kind <;> rw [hk] at ha
    · exact hpos (Or.inl hk) ha
    · rcases ha with ha | ⟨ha1, ha2, ha3⟩
      · exact hpos (Or.inr hk) ha
      · obtain ⟨n, hn⟩ := hsig.names p (List.mem_of_getElem? hj) (Or.inl hk)
        exact hname n ⟨⟨Or.inl hk, hn⟩, Or.inr ⟨ha1, ha2⟩⟩ ha3
    · obtain ⟨n, hn⟩ := hsig.names p (List.mem_of_getElem? hj) (Or.inr hk)
      exact hname n ⟨⟨Or.inr hk, hn⟩, Or.inl hk⟩ ha
    · exact ha.elim
    · exact ha.elim
  · intro hrep
    rcases hf.left with h1 | ⟨h1, h2⟩
    · exact h1
    · exfalso
      rcases hrep with hrep | ⟨j, p, n, hj, hn, hp, hlt, hmem⟩
      · apply hrep
        rw [h.names.nodup_iff, List.nodup_append]
        refine ⟨h1, hesn, ?_⟩
        rintro n hn _ hn' rfl
        obtain ⟨e, he, he2⟩ := List.mem_map.mp hn
        obtain ⟨_, _, _, _, _, h3⟩ := hes1 n hn'
        exact h3 e he he2
      · have hk : p.kind = .posOrKw := by
          rcases hn.1 with hk | hk
          · exact hk
          · rcases hp with hp | hp <;> rw [hk] at hp <;> cases hp
        have hw : wants p ab j n := by
          rw [h.names.mem_iff, List.mem_append] at hmem
          rcases hmem with hmem | hmem
          · obtain ⟨e, he, rfl⟩ := List.mem_map.mp hmem
            obtain ⟨i, q, hi, hw⟩ := h2 e he
            have := named_unique hsig hi hj hw.1 hn
            subst this
            rw [hi] at hj
            injection hj with hj
            subst hj
            exact hw
          · obtain ⟨i, q, hi, _, hw, _⟩ := hes1 n hmem
            have := named_unique hsig hi hj hw.1 hn
            subst this
            rw [hi] at hj
            injection hj with hj
            subst hj
            exact hw
        rcases hw.2 with h3 | ⟨h3, h4⟩
        · rw [hk] at h3; cases h3
        · rw [h.P, hlen0 h3] at hlt
          simp at hlt
          omega

end Verif.Call
