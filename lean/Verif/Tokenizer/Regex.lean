import Verif.Tokenizer.Model

/-!
# The regular expressions of the tokenizer

Regular expressions of the `regex` crate with their priorities (leftmost-first): `ways` lists what is
left of the text after each match, the preferred one first. The constants of
crates/parsa_python/src/tokenizer.rs 10-75.
-/

namespace Verif.Tokenizer

/-- The regular expressions that are used. -/
inductive Rx where
  | empty
  | set (p : Char → Bool)
  | seq (a b : Rx)
  | alt (a b : Rx)
  | star (a : Rx)

/-- Repetition: first as often as possible. `n` is a bound for the repetitions. -/
def starWays (f : List Char → List (List Char)) : Nat → List Char → List (List Char)
  | 0, cs => [cs]
  | n + 1, cs => (f cs).flatMap (starWays f n) ++ [cs]

/-- The matches at the beginning of a text in order of preference. -/
def Rx.ways : Rx → List Char → List (List Char)
  | .empty, cs => [cs]
  | .set p, cs => match cs with
    | [] => []
    | c :: cs => if p c then [cs] else []
  | .seq a b, cs => (a.ways cs).flatMap b.ways
  | .alt a b, cs => a.ways cs ++ b.ways cs
  | .star a, cs => starWays a.ways cs.length cs

/-- The length of the match. -/
def Rx.find (r : Rx) (cs : List Char) : Option Nat := (r.ways cs).head?.map (fun rest => cs.length - rest.length)

def Rx.opt (a : Rx) : Rx := .alt a .empty
def Rx.chr (c : Char) : Rx := .set (· == c)
def Rx.oneOf (cs : List Char) : Rx := .set cs.contains
def Rx.noneOf (cs : List Char) : Rx := .set (fun c => !cs.contains c)
/-- `.` without and with the flag `s` -/
def Rx.dot : Rx := .noneOf ['\n']
def Rx.dotAll : Rx := .set (fun _ => true)
def Rx.all : List Rx → Rx
  | [] => .empty
  | [a] => a
  | a :: as => .seq a (Rx.all as)
/-- `or`, tokenizer.rs 55-57 -/
def Rx.any : List Rx → Rx
  | [] => .empty
  | [a] => a
  | a :: as => .alt a (Rx.any as)
def Rx.word (cs : List Char) : Rx := Rx.all (cs.map Rx.chr)

def digit : Rx := .set (fun c => '0' ≤ c && c ≤ '9')
def rest_ (d : Rx) : Rx := .star (.seq (.opt (.chr '_')) d)
/-- `[0-9](_?[0-9])*` -/
def digits : Rx := .seq digit (rest_ digit)
/-- tokenizer.rs 10-14 -/
def hexNumber : Rx := .all [.chr '0', .oneOf ['x', 'X'], .seq (.opt (.chr '_')) hexDigit, rest_ hexDigit]
where hexDigit : Rx := .set (fun c => ('0' ≤ c && c ≤ '9') || ('a' ≤ c && c ≤ 'f') || ('A' ≤ c && c ≤ 'F'))
def binNumber : Rx := .all [.chr '0', .oneOf ['b', 'B'], .seq (.opt (.chr '_')) (.oneOf ['0', '1']), rest_ (.oneOf ['0', '1'])]
def octNumber : Rx := .all [.chr '0', .oneOf ['o', 'O'], .seq (.opt (.chr '_')) octDigit, rest_ octDigit]
where octDigit : Rx := .set (fun c => '0' ≤ c && c ≤ '7')
def decNumber : Rx := .alt (.seq (.chr '0') (rest_ (.chr '0'))) (.seq (.set (fun c => '1' ≤ c && c ≤ '9')) (rest_ digit))
def exponent : Rx := .all [.oneOf ['e', 'E'], .opt (.oneOf ['-', '+']), digits]
/-- tokenizer.rs 17-23 -/
def intNumber : Rx := .any [hexNumber, binNumber, octNumber, decNumber]
def expFloat : Rx := .seq digits exponent
def pointFloat : Rx := .seq (.alt (.all [digits, .chr '.', .opt digits]) (.seq (.chr '.') digits)) (.opt exponent)
def floatNumber : Rx := .alt pointFloat expFloat
def imagNumber : Rx := .seq (.alt digits floatNumber) (.oneOf ['j', 'J'])
/-- tokenizer.rs 24-26 -/
def numberRx : Rx := .any [imagNumber, floatNumber, intNumber]

/-- tokenizer.rs 34-37 -/
def operatorRx : Rx := .any [
  .seq (.word ['*', '*']) (.opt (.chr '=')), .seq (.word ['>', '>']) (.opt (.chr '=')), .seq (.word ['<', '<']) (.opt (.chr '=')),
  .seq (.word ['/', '/']) (.opt (.chr '=')), .word ['-', '>'], .word ['.', '.', '.'], .seq (.chr ':') (.opt (.chr '=')),
  .seq (.oneOf ['+', '-', '*', '/', '%', '&', '@', '`', '|', '^', '!', '=', '<', '>']) (.opt (.chr '=')),
  .oneOf ['[', ']', '(', ')', '{', '}'], .oneOf ['~', ';', '.', ',', '@']]

/-- tokenizer.rs 62, `\\(\r\n?|\n|.)` -/
def withBackslash : Rx := .seq (.chr '\\') (.any [.seq (.chr '\r') (.opt (.chr '\n')), .chr '\n', .dot])
/-- `single` and `double`, tokenizer.rs 64-65 -/
def shortRx (q : Char) : Rx := .all [.chr q, .star (.alt withBackslash (.noneOf ['\r', '\n', q, '\\'])), .chr q]
/-- The repeated part of `single3` and `double3`, tokenizer.rs 67-68. -/
def longItem (q : Char) : Rx := .any [
  .seq (.chr '\\') .dotAll, .all [.chr q, .noneOf [q, '\\']], .all [.chr q, .chr '\\', .dotAll], .all [.chr q, .chr q, .noneOf [q, '\\']],
  .all [.chr q, .chr q, .chr '\\', .dotAll], .noneOf [q, '\\']]
def longRx (q : Char) : Rx := .seq (.word [q, q, q]) (.opt (.seq (.star (longItem q)) (.word [q, q, q])))
/-- `all_string_regexes`, tokenizer.rs 59-71 -/
def bodyRx : Rx := .any [longRx '\'', longRx '"', shortRx '\'', shortRx '"']
/-- tokenizer.rs 28-29 -/
def stringRx : Rx := .seq (.any [.empty, .oneOf ['r', 'R'], .oneOf ['u', 'U'], .oneOf ['t', 'T']]) bodyRx
def bytesRx : Rx := .seq (.any [.seq (.oneOf ['b', 'B']) (.opt (.oneOf ['r', 'R'])), .seq (.oneOf ['r', 'R']) (.oneOf ['b', 'B'])]) bodyRx
/-- tokenizer.rs 40 -/
def fstartRx : Rx := .seq (.any [.seq (.oneOf ['F', 'f']) (.opt (.oneOf ['R', 'r'])), .seq (.oneOf ['R', 'r']) (.oneOf ['F', 'f'])])
  (.any [.word ['"', '"', '"'], .word ['\'', '\'', '\''], .chr '\'', .chr '"'])
/-- tokenizer.rs 41 -/
def charNameRx : Rx :=
  let part := Rx.set (fun c => ('A' ≤ c && c ≤ 'Z') || ('a' ≤ c && c ≤ 'z') || ('0' ≤ c && c ≤ '9') || c == '-')
  let word := Rx.seq part (.star part)
  .all [.chr '{', word, .star (.seq (.chr ' ') word), .chr '}']

/-- A search without `^`: the end of the first match, in bytes. -/
def Rx.search (r : Rx) (bytes : Nat) : List Char → Option Nat
  | [] => (r.find []).map (bytes + ·)
  | c :: cs => match r.find (c :: cs) with
    | some n => some (bytes + size ((c :: cs).take n))
    | none => r.search (bytes + c.utf8Size) cs

/-- The regular expressions of the tokenizer, for some classes of letters and digits. -/
def python (alphabetic numeric : Char → Bool) : Lexers where
  number := numberRx.find
  operator := operatorRx.find
  string := stringRx.find
  bytes := bytesRx.find
  fstart := fstartRx.find
  charName := charNameRx.search 0
  alphabetic := alphabetic
  numeric := numeric

/-! ## Every match has at least one character -/

/-- The least number of characters of a match. -/
def Rx.least : Rx → Nat
  | .empty => 0
  | .set _ => 1
  | .seq a b => a.least + b.least
  | .alt a b => min a.least b.least
  | .star _ => 0

theorem starWays_length {f : List Char → List (List Char)} (hf : ∀ cs, ∀ r ∈ f cs, r.length ≤ cs.length) : ∀ (n : Nat) (cs : List Char), ∀ r ∈ starWays f n cs, r.length ≤ cs.length := by
  intro n
  induction n with
  | zero => intro cs r hr; rw [starWays, List.mem_singleton] at hr; rw [hr]; exact Nat.le_refl _
  | succ n ih =>
    intro cs r hr
    rw [starWays, List.mem_append] at hr
    rcases hr with hr | hr
    · obtain ⟨x, hx, hr⟩ := List.mem_flatMap.mp hr
      exact Nat.le_trans (ih x r hr) (hf cs x hx)
    · rw [List.mem_singleton] at hr; rw [hr]; exact Nat.le_refl _

theorem Rx.ways_length (r : Rx) : ∀ (cs : List Char), ∀ x ∈ r.ways cs, x.length + r.least ≤ cs.length := by
  induction r with
  | empty => intro cs x hx; rw [Rx.ways, List.mem_singleton] at hx; rw [hx]; exact Nat.le_refl _
  | set p =>
    intro cs x hx
    cases cs with
    | nil => cases hx
    | cons c cs =>
      rw [Rx.ways] at hx
      split at hx
      · rw [List.mem_singleton] at hx; rw [hx]; exact Nat.le_refl _
      · cases hx
  | seq a b iha ihb =>
    intro cs x hx
    rw [Rx.ways] at hx
    obtain ⟨y, hy, hx⟩ := List.mem_flatMap.mp hx
    have h1 := iha cs y hy
    have h2 := ihb y x hx
    rw [Rx.least]
    omega
  | alt a b iha ihb =>
    intro cs x hx
    rw [Rx.ways, List.mem_append] at hx
    rw [Rx.least]
    rcases hx with hx | hx
    · have := iha cs x hx; omega
    · have := ihb cs x hx; omega
  | star a iha =>
    intro cs x hx
    rw [Rx.ways] at hx
    exact starWays_length (fun cs r hr => Nat.le_trans (Nat.le_add_right _ _) (iha cs r hr)) _ cs x hx

theorem Rx.find_bounded {r : Rx} (h : 0 < r.least) {cs : List Char} {n : Nat} (hn : r.find cs = some n) : 0 < n ∧ n ≤ cs.length := by
  rw [Rx.find, Option.map_eq_some_iff] at hn
  obtain ⟨x, hx, rfl⟩ := hn
  have := r.ways_length cs x (List.mem_of_head? hx)
  omega

end Verif.Tokenizer
