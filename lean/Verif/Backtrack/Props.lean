import Verif.Backtrack.Spec

/-!
# Backtracking replays the same tokens (C09)
-/

namespace Verif.Backtrack

/-- How the tokenizer represents the cursor; `base` is the position of the first recorded token. -/
structure Rep (file : List Token) (base : Nat) (c : Client) (k : Cursor) : Prop where
  seen : base + c.state.tokens.length = k.seen
  seenLe : k.seen ≤ file.length
  rest : c.state.tokenizer = file.drop k.seen
  tokens : c.state.tokens = (file.drop base).take c.state.tokens.length
  posLe : k.pos ≤ k.seen
  points : c.points.map (· + base) = k.points
  recording : c.state.isRecording = !k.points.isEmpty
  empty : c.state.tokens = [] → k.pos = k.seen ∧ k.points = []
  index : c.state.tokens ≠ [] → base ≤ k.pos ∧ k.pos ≤ base + c.state.nextIndex ∧
    (base + c.state.nextIndex = k.pos ∨ k.fresh = false ∧ k.pos = file.length)
  pointsLt : ∀ p ∈ c.points, p < c.state.tokens.length
  last : k.fresh = true → 0 < k.pos ∧ c.last = file[k.pos - 1]? ∧ (c.state.tokens ≠ [] → base < k.pos)

theorem lastLeafLoop_eq (l : List Token) (t : Token) (A B : List Token) (hl : l = A ++ t :: B)
    (hB : ∀ b ∈ B, ¬ (b.start = t.start ∧ b.length = t.length)) :
    lastLeafLoop t.start t.length l.reverse l.length = some (A.length + 1) := by
  subst hl
  have : ∀ (B R : List Token), (∀ b ∈ B, ¬ (b.start = t.start ∧ b.length = t.length)) → ∀ n,
      lastLeafLoop t.start t.length (B ++ R) (n + B.length) = lastLeafLoop t.start t.length R n := by
    intro B
    induction B with
    | nil => intro R _ n; rfl
    | cons b B ih =>
      intro R h n
      rw [List.cons_append, lastLeafLoop, if_neg (h b (by simp)), List.length_cons, show n + (B.length + 1) - 1 = n + B.length by omega]
      exact ih R (fun b hb => h b (by simp [hb])) n
  have h := this B.reverse (t :: A.reverse) (by intro b hb; exact hB b (by simpa using hb)) (A.length + 1)
  rw [List.reverse_append, List.reverse_cons, List.append_assoc, List.singleton_append]
  rw [show (A ++ t :: B).length = A.length + 1 + B.reverse.length by simp; omega, h, lastLeafLoop, if_pos ⟨rfl, rfl⟩]

theorem rep_new (file : List Token) : Rep file 0 ⟨Tokenizer.new file, [], none⟩ ⟨0, [], 0, false⟩ := by
  constructor <;> simp [Tokenizer.new]

theorem take_next (file : List Token) (base n : Nat) (t : Token) (h : file[base + n]? = some t) :
    (file.drop base).take n ++ [t] = (file.drop base).take (n + 1) := by
  rw [List.take_add_one, List.getElem?_drop, h]
  rfl

theorem step_rep {file : List Token} (hord : Ordered file) {base : Nat} {c : Client} {k k' : Cursor} {o : Op} {out : List (Option Token)}
    (h : Rep file base c k) (hs : k.Step file o k' out) : ∃ c' base', c.step o = some (c', out) ∧ Rep file base' c' k' := by
  obtain ⟨⟨tokenizer, tokens, nextIndex, isRecording⟩, points, last⟩ := c
  obtain ⟨h1, h2, h3, h4, h5, h6, h7, h8, h9, h10, h11⟩ := h
  simp only at h1 h2 h3 h4 h5 h6 h7 h8 h9 h10 h11
  cases hs with
  | @next t ht =>
    have hlt := (List.getElem?_eq_some_iff.mp ht).1
    by_cases he : tokens = []
    · subst he
      obtain ⟨e1, e2⟩ := h8 rfl
      have hd : tokenizer.head? = some t := by rw [h3, List.head?_drop, ← e1, ht]
      have hmax : max k.seen (k.pos + 1) = k.seen + 1 := by omega
      refine ⟨⟨⟨tokenizer.tail, [], nextIndex, isRecording⟩, points, some t⟩, k.seen + 1, ?_, ?_⟩
      · simp [Client.step, Tokenizer.next, hd]
      · rw [e2] at h6
        simp only [List.map_eq_nil_iff] at h6
        subst h6
        rw [hmax]
        constructor
        · simp
        · simp only; omega
        · simp only; rw [h3, List.tail_drop]
        · simp
        · simp only; omega
        · simp [e2]
        · simpa using h7
        · simp [e1, e2]
        · simp
        · simp
        · intro _; exact ⟨Nat.succ_pos _, by simp [ht], by simp⟩
    · obtain ⟨i1, i2, i3⟩ := h9 he
      have hi : base + nextIndex = k.pos := by
        rcases i3 with i3 | ⟨-, i3⟩
        · exact i3
        · omega
      have hemp : tokens.isEmpty = false := by
        cases htk : tokens with
        | nil => exact absurd htk he
        | cons _ _ => rfl
      by_cases hin : nextIndex < tokens.length
      · have hg : tokens[nextIndex]? = some t := by
          rw [h4, List.getElem?_take, if_pos (by omega), List.getElem?_drop, hi, ht]
        have hmax : max k.seen (k.pos + 1) = k.seen := by omega
        refine ⟨⟨⟨tokenizer, tokens, nextIndex + 1, isRecording⟩, points, some t⟩, base, ?_, ?_⟩
        · simp [Client.step, Tokenizer.next, hemp, hg]
        · rw [hmax]
          constructor
          · exact h1
          · exact h2
          · exact h3
          · exact h4
          · simp only; omega
          · exact h6
          · exact h7
          · intro h; exact absurd h he
          · intro _; simp only; exact ⟨by omega, by omega, .inl (by omega)⟩
          · exact h10
          · intro _; exact ⟨Nat.succ_pos _, by simp [ht], fun _ => by simp only; omega⟩
      · have hg : tokens[nextIndex]? = none := List.getElem?_eq_none (by omega)
        have hseen : k.seen = k.pos := by omega
        have hd : tokenizer.head? = some t := by rw [h3, List.head?_drop, hseen, ht]
        have hmax : max k.seen (k.pos + 1) = k.seen + 1 := by omega
        have htl : tokenizer.tail = file.drop (k.seen + 1) := by rw [h3, List.tail_drop]
        cases hr : isRecording with
        | true =>
          refine ⟨⟨⟨tokenizer.tail, tokens ++ [t], nextIndex + 1, true⟩, points, some t⟩, base, ?_, ?_⟩
          · simp [Client.step, Tokenizer.next, hemp, hg, hd]
          · rw [hmax]
            constructor
            · simp only [List.length_append, List.length_singleton]; omega
            · simp only; omega
            · exact htl
            · simp only [List.length_append, List.length_singleton]
              rw [← take_next file base tokens.length t (by rw [h1, hseen, ht]), ← h4]
            · simp only; omega
            · exact h6
            · rw [hr] at h7; exact h7
            · simp
            · intro _; simp only; exact ⟨by omega, by omega, .inl (by omega)⟩
            · intro p hp; have := h10 p hp; simp only [List.length_append]; omega
            · intro _; exact ⟨Nat.succ_pos _, by simp [ht], fun _ => by simp only; omega⟩
        | false =>
          have hpn : k.points = [] := by
            rw [hr] at h7
            cases hk : k.points with
            | nil => rfl
            | cons _ _ => rw [hk] at h7; cases h7
          rw [hpn] at h6
          simp only [List.map_eq_nil_iff] at h6
          subst h6
          refine ⟨⟨⟨tokenizer.tail, [], 0, false⟩, [], some t⟩, k.seen + 1, ?_, ?_⟩
          · simp [Client.step, Tokenizer.next, hemp, hg, hd]
          · rw [hmax]
            constructor
            · simp
            · simp only; omega
            · exact htl
            · simp
            · simp only; omega
            · simp [hpn]
            · simp [hpn]
            · intro _; simp only; exact ⟨by omega, hpn⟩
            · simp
            · simp
            · intro _; exact ⟨Nat.succ_pos _, by simp [ht], by simp⟩
  | atEnd ht =>
    have hge : file.length ≤ k.pos := by
      rcases Nat.lt_or_ge k.pos file.length with h | h
      · rw [List.getElem?_eq_getElem h] at ht; cases ht
      · exact h
    have hseen : k.seen = file.length := by omega
    have hnil : tokenizer = [] := by rw [h3, hseen, List.drop_length]
    subst hnil
    by_cases he : tokens = []
    · subst he
      obtain ⟨e1, e2⟩ := h8 rfl
      refine ⟨⟨⟨[], [], nextIndex, isRecording⟩, points, none⟩, base, ?_, ?_⟩
      · simp [Client.step, Tokenizer.next]
      · exact ⟨h1, h2, h3, h4, h5, h6, h7, fun _ => ⟨e1, e2⟩, by simp, by simpa using h10, by simp⟩
    · obtain ⟨i1, i2, i3⟩ := h9 he
      have hemp : tokens.isEmpty = false := by
        cases htk : tokens with
        | nil => exact absurd htk he
        | cons _ _ => rfl
      have hg : tokens[nextIndex]? = none := List.getElem?_eq_none (by omega)
      cases hr : isRecording with
      | true =>
        refine ⟨⟨⟨[], tokens, nextIndex + 1, true⟩, points, none⟩, base, ?_, ?_⟩
        · simp [Client.step, Tokenizer.next, hemp, hg]
        · refine ⟨h1, h2, h3, h4, h5, h6, by rw [hr] at h7; exact h7, fun h => absurd h he, ?_, h10, by simp⟩
          intro _
          simp only
          exact ⟨i1, by omega, .inr ⟨by simp, by omega⟩⟩
      | false =>
        have hpn : k.points = [] := by
            rw [hr] at h7
            cases hk : k.points with
            | nil => rfl
            | cons _ _ => rw [hk] at h7; cases h7
        rw [hpn] at h6
        simp only [List.map_eq_nil_iff] at h6
        subst h6
        refine ⟨⟨⟨[], [], 0, false⟩, [], none⟩, k.seen, ?_, ?_⟩
        · simp [Client.step, Tokenizer.next, hemp, hg]
        · refine ⟨by simp, h2, h3, by simp, h5, by simp [hpn], by simp [hpn], fun _ => ?_, by simp, by simp, by simp⟩
          simp only
          exact ⟨by omega, hpn⟩
  | start hf =>
    obtain ⟨l1, l2, l3⟩ := h11 hf
    have hlt : k.pos - 1 < file.length := by omega
    have hl : last = some file[k.pos - 1] := by rw [l2, List.getElem?_eq_getElem hlt]
    by_cases he : tokens = []
    · subst he
      obtain ⟨e1, e2⟩ := h8 rfl
      rw [e2] at h6
      simp only [List.map_eq_nil_iff] at h6
      subst h6
      refine ⟨⟨⟨tokenizer, [file[k.pos - 1]], 1, true⟩, [0], last⟩, k.pos - 1, ?_, ?_⟩
      · simp [Client.step, Tokenizer.start, hl]
      · constructor
        · simp only [List.length_singleton]; omega
        · exact h2
        · exact h3
        · simp only [List.length_singleton]
          rw [List.drop_eq_getElem_cons hlt]
          rfl
        · exact h5
        · simp [e2]
        · simp [e2]
        · simp
        · intro _; simp only; exact ⟨by omega, by omega, .inl (by omega)⟩
        · simp
        · intro _; exact ⟨l1, l2, fun _ => by simp only; omega⟩
    · have hb := l3 he
      obtain ⟨i1, i2, i3⟩ := h9 he
      have hi : base + nextIndex = k.pos := by
        rcases i3 with i3 | ⟨i3, -⟩
        · exact i3
        · rw [hf] at i3; cases i3
      have hemp : tokens.isEmpty = false := by
        cases htk : tokens with
        | nil => exact absurd htk he
        | cons _ _ => rfl
      refine ⟨⟨⟨tokenizer, tokens, nextIndex, true⟩, points ++ [nextIndex - 1], last⟩, base, ?_, ?_⟩
      · simp only [Client.step, hl, Tokenizer.start, hemp]
        rw [if_neg (by decide), if_neg (by omega)]
        rfl
      · constructor
        · exact h1
        · exact h2
        · exact h3
        · exact h4
        · exact h5
        · simp only [List.map_append, List.map_singleton, h6]
          rw [show nextIndex - 1 + base = k.pos - 1 by omega]
        · simp
        · intro h; exact absurd h he
        · intro _; simp only; exact ⟨i1, i2, .inl hi⟩
        · intro p hp
          rcases List.mem_append.mp hp with hp | hp
          · exact h10 p hp
          · rw [List.mem_singleton] at hp; simp only; omega
        · intro _; exact ⟨l1, l2, l3⟩
  | @reset n p hp =>
    have hpp : ∃ q, points[n]? = some q ∧ q + base = p := by
      rw [← h6, List.getElem?_map] at hp
      cases hq : points[n]? with
      | none => rw [hq] at hp; simp at hp
      | some q => rw [hq] at hp; simp at hp; exact ⟨q, rfl, hp⟩
    obtain ⟨q, hq, hqp⟩ := hpp
    have hql := h10 q (List.mem_of_getElem? hq)
    refine ⟨⟨⟨tokenizer, tokens, q, isRecording⟩, points, none⟩, base, ?_, ?_⟩
    · simp [Client.step, hq, Tokenizer.reset]
    · refine ⟨h1, h2, h3, h4, by simp only; omega, h6, h7, ?_, ?_, h10, by simp⟩
      · rintro rfl; simp at hql
      · intro _; simp only; exact ⟨by omega, by omega, .inl (by omega)⟩
  | @lastLeaf q t p hp hpq hqs hq hl =>
    have hbase : base ≤ p := by
      rw [← h6, List.mem_map] at hp
      obtain ⟨r, -, hr⟩ := hp
      omega
    have he : tokens ≠ [] := by
      intro he
      rw [(h8 he).2] at hp
      simp at hp
    have hg : tokens[q - base]? = some t := by
      rw [h4, List.getElem?_take, if_pos (by omega), List.getElem?_drop, show base + (q - base) = q by omega, hq]
    have hsplit : tokens = tokens.take (q - base) ++ t :: tokens.drop (q - base + 1) := by
      have hlt := (List.getElem?_eq_some_iff.mp hg).1
      have e := (List.getElem?_eq_some_iff.mp hg).2
      rw [← e, ← List.drop_eq_getElem_cons hlt, List.take_append_drop]
    have hloop := lastLeafLoop_eq tokens t _ _ hsplit (by
      intro b hb
      obtain ⟨r, hr⟩ := List.mem_iff_getElem?.mp hb
      rw [List.getElem?_drop] at hr
      have hrl := (List.getElem?_eq_some_iff.mp hr).1
      rw [h4, List.getElem?_take, if_pos (by omega), List.getElem?_drop] at hr
      have := hord q (base + (q - base + 1 + r)) t b (by omega) hq hr
      omega)
    have hlen : (tokens.take (q - base)).length + 1 = q - base + 1 := by rw [List.length_take]; omega
    rw [hlen] at hloop
    refine ⟨⟨⟨tokenizer, tokens, q - base + 1, isRecording⟩, points, none⟩, base, ?_, ?_⟩
    · simp [Client.step, Tokenizer.resetToLastLeaf, hloop]
    · refine ⟨h1, h2, h3, h4, by simp only; omega, h6, h7, fun h => absurd h he, ?_, h10, by simp⟩
      intro _
      simp only
      exact ⟨by omega, by omega, .inl (by omega)⟩
  | stop =>
    refine ⟨⟨⟨tokenizer, tokens, nextIndex, false⟩, [], last⟩, base, rfl, ?_⟩
    exact ⟨h1, h2, h3, h4, h5, by simp, by simp, fun h => ⟨(h8 h).1, rfl⟩, h9, by simp, h11⟩

/-- C09: whatever the parser does with the tokenizer, it reads what a cursor over the tokens of the file reads, and
nothing panics. -/
theorem replay (file : List Token) (hord : Ordered file) (os : List Op) (outs : List (Option Token))
    (h : Cursor.Run file ⟨0, [], 0, false⟩ os outs) : Client.run ⟨Tokenizer.new file, [], none⟩ os = some outs := by
  have : ∀ (k : Cursor) (os : List Op) (outs : List (Option Token)), Cursor.Run file k os outs → ∀ (c : Client) (base : Nat), Rep file base c k → c.run os = some outs := by
    intro k os outs hr
    induction hr with
    | nil => intro c base _; rfl
    | cons hs _ ih =>
      intro c base hc
      obtain ⟨c', base', e, hc'⟩ := step_rep hord hc hs
      rw [Client.run, e]
      simp only
      rw [ih c' base' hc']
      rfl
  exact this _ _ _ h _ 0 (rep_new file)

/-! ## Examples -/

def a : Token := ⟨0, 1, 0⟩
def b : Token := ⟨1, 1, 1⟩
def d : Token := ⟨3, 2, 2⟩
def e : Token := ⟨5, 0, 3⟩

/-- Two nested backtracking points, returning to the outer one, stopping in the middle of the replay, a new point there,
and the end of the file. -/
def ops : List Op := [.next, .start, .next, .start, .next, .reset 0, .next, .stop, .next, .start, .next, .next, .next, .reset 0, .next, .stop, .next, .next, .next]

example : Client.run ⟨Tokenizer.new [a, b, d, e], [], none⟩ ops =
    some [some a, some b, some d, some a, some b, some d, some e, none, some b, some d, some e, none] := by decide +kernel

/-- The cursor allows these operations. -/
example : Cursor.Run [a, b, d, e] ⟨0, [], 0, false⟩ [.next, .start, .next, .next, .lastLeaf 1 1, .next, .reset 0, .next]
    [some a, some b, some d, some d, some a] := by
  refine .cons (out := [_]) (.next rfl) <| .cons (out := []) (.start rfl) <| .cons (out := [_]) (.next rfl) <| .cons (out := [_]) (.next rfl) <|
    .cons (out := []) (.lastLeaf (q := 1) (t := b) (p := 0) (by simp) (by decide) (by decide) rfl (by decide)) <|
    .cons (out := [_]) (.next rfl) <| .cons (out := []) (.reset rfl) <| .cons (out := [_]) (.next rfl) .nil

example : Ordered [a, b, d, e] := by
  intro i j x y hij hx hy
  have hi : i < 4 := (List.getElem?_eq_some_iff.mp hx).1
  have hj : j < 4 := (List.getElem?_eq_some_iff.mp hy).1
  have : i = 0 ∨ i = 1 ∨ i = 2 ∨ i = 3 := by omega
  have : j = 0 ∨ j = 1 ∨ j = 2 ∨ j = 3 := by omega
  rcases ‹i = 0 ∨ _› with rfl | rfl | rfl | rfl <;> rcases ‹j = 0 ∨ _› with rfl | rfl | rfl | rfl <;>
    first | omega | (simp at hx hy; subst hx; subst hy; decide)

end Verif.Backtrack
