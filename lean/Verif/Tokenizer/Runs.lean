import Verif.Tokenizer.Moves

/-! # The tokenizer: sequences of calls -/

namespace Verif.Tokenizer

theorem good_start (code : List Char) : Good (State.start code) :=
  ⟨⟨by simp [State.start], rfl⟩, fun _ h => h.elim (fun h => h rfl) (fun h => h rfl)⟩

theorem step_ended {L : Lexers} {s : State} (h : s.ended = true) : step L s = .ok .stop := by rw [step, if_pos h]

/-- What a sequence of calls keeps. -/
structure RunOk (s : State) (ts : List Token) (s' : State) : Prop where
  whole : s'.seen.reverse ++ s'.rest = s.seen.reverse ++ s.rest
  good : Good s'
  depth : depth (s.indents.length - 1) ts = some (s'.indents.length - 1)
  ended : s'.ended = true → s.ended = true ∧ ts = [] ∨
    ∃ ts' t, ts = ts' ++ [t] ∧ t.kind = .endmarker ∧ t.text = [] ∧ t.start = size s'.seen ∧ s'.rest = [] ∧ s'.indents = [0] ∧ ∀ x ∈ ts', x.kind ≠ .endmarker
  going : s'.ended = false → s.ended = false ∧ ∀ x ∈ ts, x.kind ≠ .endmarker

theorem depth_step {k : Kind} {l l' : List Nat} {t : Token} {ts : List Token} (hk : KindOk k l l') (ht : t.kind = k) (hl : l ≠ []) :
    depth (l.length - 1) (t :: ts) = depth (l'.length - 1) ts := by
  have hpos := List.length_pos_iff.mpr hl
  rw [depth, ht]
  cases k with
  | indent =>
    obtain ⟨n, rfl⟩ := hk
    simp only [List.length_cons]
    congr 1
    omega
  | dedent =>
    obtain ⟨n, rfl, hne⟩ := hk
    have := List.length_pos_iff.mpr hne
    simp only [List.length_cons]
    rw [if_neg (by omega)]
    congr 1
  | errorDedent =>
    obtain ⟨n, m, b, rfl, rfl⟩ := hk
    rfl
  | _ =>
    have hk : l' = l := hk
    rw [hk]

theorem run_ok {L : Lexers} (hL : L.Sound) {s s' : State} {ts : List Token} (h : Steps L s ts s') (hg : Good s) : RunOk s ts s' := by
  induction h with
  | refl s => exact ⟨rfl, hg, rfl, fun h => .inl ⟨h, rfl⟩, fun h => ⟨h, by simp⟩⟩
  | @emit s s1 s2 t ts h hs ih =>
    have he : s.ended = false := by
      cases he : s.ended with
      | false => rfl
      | true => rw [step_ended he] at h; cases h
    have hm := step_move hL hg he
    rw [h] at hm
    have hm : Move s t s1 := hm
    have := ih hm.good
    refine ⟨this.whole.trans hm.whole, this.good, ?_, ?_, ?_⟩
    · rw [depth_step hm.kind rfl hg.stacked.ne]; exact this.depth
    · intro h2
      refine .inr ?_
      rcases this.ended h2 with ⟨h3, rfl⟩ | ⟨ts', t', rfl, k1, k2, k3, k4, k5, k6⟩
      · have hend := hm.ended.mp h3
        obtain ⟨l1, l2, l3, l4⟩ := hm.last hend
        have : s2 = s1 := by
          cases hs with
          | refl => rfl
          | again h5 _ => rw [step_ended h3] at h5; cases h5
        subst this
        exact ⟨[], t, rfl, hend, l3, l4, l2, l1, by simp⟩
      · refine ⟨t :: ts', t', rfl, k1, k2, k3, k4, k5, ?_⟩
        intro x hx
        rcases List.mem_cons.mp hx with rfl | hx
        · intro hend
          have h3 := hm.ended.mpr hend
          cases hs' : ts' ++ [t'] with
          | nil => simp at hs'
          | cons a b =>
            rw [hs'] at hs
            cases hs with
            | emit h5 _ => rw [step_ended h3] at h5; cases h5
            | again h5 _ => rw [step_ended h3] at h5; cases h5
        · exact k6 x hx
    · intro h2
      obtain ⟨h3, h4⟩ := this.going h2
      refine ⟨he, ?_⟩
      intro x hx
      rcases List.mem_cons.mp hx with rfl | hx
      · intro hend
        rw [hm.ended.mpr hend] at h3
        cases h3
      · exact h4 x hx
  | @again s s1 s2 ts h hs ih =>
    have he : s.ended = false := by
      cases he : s.ended with
      | false => rfl
      | true => rw [step_ended he] at h; cases h
    have hm := step_move hL hg he
    rw [h] at hm
    have hm : Retry s s1 := hm
    have := ih hm.good
    have hd := this.depth
    rw [hm.indents] at hd
    refine ⟨this.whole.trans hm.whole, this.good, hd, ?_, ?_⟩
    · intro h2
      rcases this.ended h2 with ⟨h3, _⟩ | h3
      · rw [hm.ended, he] at h3; cases h3
      · exact .inr h3
    · intro h2; exact ⟨he, (this.going h2).2⟩

/-- Every run comes to an end. -/
theorem runs_end {L : Lexers} (hL : L.Sound) : ∀ (a b c : Nat) (s : State), s.rest.length = a → s.indents.sum = b → s.fstack.length = c → Good s → s.ended = false →
    ∃ ts s', Steps L s ts s' ∧ (step L s' = .ok .stop ∨ step L s' = .error .boundary) := by
  intro a
  induction a using Nat.strongRecOn with
  | ind a iha =>
    intro b
    induction b using Nat.strongRecOn with
    | ind b ihb =>
      intro c
      induction c using Nat.strongRecOn with
      | ind c ihc =>
        intro s ha hb hc hg he
        have next : ∀ s', Less s' s → Good s' → s'.ended = false → ∃ ts s'', Steps L s' ts s'' ∧ (step L s'' = .ok .stop ∨ step L s'' = .error .boundary) := by
          intro s' hl hg' he'
          rcases hl with hl | ⟨hl, hi | ⟨hi, hf⟩⟩
          · exact iha _ (by omega) _ _ s' rfl rfl rfl hg' he'
          · rcases Nat.lt_or_eq_of_le hl with hl | hl
            · exact iha _ (by omega) _ _ s' rfl rfl rfl hg' he'
            · exact ihb _ (by omega) _ s' (by omega) rfl rfl hg' he'
          · rcases Nat.lt_or_eq_of_le hl with hl | hl
            · exact iha _ (by omega) _ _ s' rfl rfl rfl hg' he'
            · exact ihc _ (by omega) s' (by omega) (by rw [hi]; exact hb) rfl hg' he'
        have hm := step_move hL hg he
        cases hs : step L s with
        | error e =>
          rw [hs] at hm
          have hm : e = .boundary := hm
          subst hm
          exact ⟨[], s, .refl s, .inr hs⟩
        | ok x =>
          rw [hs] at hm
          cases x with
          | stop => exact hm.elim
          | emit t s' =>
            have hm : Move s t s' := hm
            cases he' : s'.ended with
            | true => exact ⟨[t], s', .emit hs (.refl s'), .inl (step_ended he')⟩
            | false =>
              obtain ⟨ts, s'', h1, h2⟩ := next s' (hm.less he') hm.good he'
              exact ⟨t :: ts, s'', .emit hs h1, h2⟩
          | again s' =>
            have hm : Retry s s' := hm
            obtain ⟨ts, s'', h1, h2⟩ := next s' hm.less hm.good (hm.ended.trans he)
            exact ⟨ts, s'', .again hs h1, h2⟩

/-- There is only one run. -/
theorem runs_unique {L : Lexers} {s s1 s2 : State} {ts1 ts2 : List Token} (h1 : Steps L s ts1 s1) (h2 : Steps L s ts2 s2)
    (e1 : ∀ t s', step L s1 ≠ .ok (.emit t s')) (e1' : ∀ s', step L s1 ≠ .ok (.again s'))
    (e2 : ∀ t s', step L s2 ≠ .ok (.emit t s')) (e2' : ∀ s', step L s2 ≠ .ok (.again s')) : ts1 = ts2 ∧ s1 = s2 := by
  induction h1 generalizing ts2 s2 with
  | refl s =>
    cases h2 with
    | refl => exact ⟨rfl, rfl⟩
    | emit h _ => exact absurd h (e1 _ _)
    | again h _ => exact absurd h (e1' _)
  | emit h hs ih =>
    cases h2 with
    | refl => exact absurd h (e2 _ _)
    | emit h' hs' =>
      rw [h] at h'
      cases h'
      obtain ⟨r1, r2⟩ := ih hs' e1 e1' e2 e2'
      exact ⟨by rw [r1], r2⟩
    | again h' _ => rw [h] at h'; cases h'
  | again h hs ih =>
    cases h2 with
    | refl => exact absurd h (e2' _)
    | emit h' hs' => rw [h] at h'; cases h'
    | again h' hs' =>
      rw [h] at h'
      cases h'
      exact ih hs' e1 e1' e2 e2'

end Verif.Tokenizer
