import Verif.Model.Utf8
import Verif.Model.Basic
/-
Regular expressions, as the crate `regex` reads and matches them.

The crate is not part of /repo; this is a model of the part of its syntax (crate regex-syntax) that the patterns of
src/regex.rs use: literals, escapes, `.`, `^`, `$`, bracketed classes with ranges and `[:punct:]`, groups, alternation and
greedy or lazy repetition.  Text outside this part (flags, named groups, Unicode classes such as `\w`, nested classes, set
operations) is not accepted by the model, whether or not the crate accepts it.  The crate's limits on nesting and on the
size of compiled patterns are not modelled.
-/
namespace Tokengeex

/-- A regular expression. -/
inductive Re where
  /-- the empty text -/
  | empty
  /-- one character with (or, if `negated`, without) a code point in one of the ranges -/
  | cls (negated : Bool) (ranges : List (Nat × Nat))
  /-- `^`: the beginning of the text -/
  | start
  /-- `$`: the end of the text -/
  | stop
  | cat (a b : Re)
  | alt (a b : Re)
  /-- at least `min` and at most `max` times -/
  | rep (a : Re) (min : Nat) (max : Option Nat)
  deriving DecidableEq, Repr

namespace Re

/-! ### Reading: tokens -/

/-- The pieces of a pattern. -/
inductive Tok where
  | atom (r : Re)
  | post (min : Nat) (max : Option Nat)
  | bar
  | opening
  | closing
  deriving DecidableEq, Repr

/-- A character as a class. -/
def lit (c : Char) : Re := .cls false [(c.toNat, c.toNat)]

/-- The property White_Space of Unicode: `\s`, and what `str::trim` removes. -/
def whitespace : List (Nat × Nat) :=
  [(9, 13), (32, 32), (0x85, 0x85), (0xA0, 0xA0), (0x1680, 0x1680), (0x2000, 0x200A), (0x2028, 0x2029), (0x202F, 0x202F),
    (0x205F, 0x205F), (0x3000, 0x3000)]

/-- `[:punct:]`: ASCII punctuation. -/
def punct : List (Nat × Nat) := [(33, 47), (58, 64), (91, 96), (123, 126)]

/-- Characters that `regex::escape` puts a backslash in front of (`regex_syntax::is_meta_character`); these may always be
written with a backslash. -/
def isMeta (c : Char) : Bool :=
  c ∈ ['\\', '.', '+', '*', '?', '(', ')', '|', '[', ']', '{', '}', '^', '$', '#', '&', '-', '~']

/-- `regex::escape`. -/
def escape (s : Str) : Str := s.flatMap fun c => if isMeta c then ['\\', c] else [c]

def hexValue (c : Char) : Option Nat :=
  if '0' ≤ c ∧ c ≤ '9' then some (c.toNat - 48)
  else if 'a' ≤ c ∧ c ≤ 'f' then some (c.toNat - 87)
  else if 'A' ≤ c ∧ c ≤ 'F' then some (c.toNat - 55)
  else none

/-- Exactly `n` hexadecimal digits. -/
def lexHex : Nat → Nat → Str → Option (Nat × Str)
  | 0, acc, s => some (acc, s)
  | _ + 1, _, [] => none
  | n + 1, acc, c :: s => (hexValue c).bind fun v => lexHex n (acc * 16 + v) s

/-- What follows a backslash: the characters it stands for. -/
def lexEscape : Str → Option (List (Nat × Nat) × Str)
  | [] => none
  | c :: s =>
    if c = 'n' then some ([(10, 10)], s)
    else if c = 't' then some ([(9, 9)], s)
    else if c = 'r' then some ([(13, 13)], s)
    else if c = 's' then some (whitespace, s)
    else if c = 'x' then (lexHex 2 0 s).map fun p => ([(p.1, p.1)], p.2)
    else if c = 'u' then (lexHex 4 0 s).bind fun p => if p.1.isValidChar then some ([(p.1, p.1)], p.2) else none
    else if isMeta c then some ([(c.toNat, c.toNat)], s)
    else none

/-- A member of a bracketed class, before a possible `-`. -/
def lexMember : Str → Option (List (Nat × Nat) × Str)
  | [] => none
  | c :: s => if c = '\\' then lexEscape s else some ([(c.toNat, c.toNat)], s)

/-- Is this the beginning of something in a class that is not modelled: nested classes and set operations. -/
def unsupported (s : Str) : Bool :=
  ['['].isPrefixOf s || ['&', '&'].isPrefixOf s || ['-', '-'].isPrefixOf s || ['~', '~'].isPrefixOf s

/-- If what follows a member of a class is the `-` of a range: the text after it. -/
def rangeEnd : Str → Option Str
  | '-' :: d :: s => if d = ']' ∨ unsupported ('-' :: d :: s) = true then none else some (d :: s)
  | _ => none

/-- A range of two members, which must be single characters in order. -/
def range : List (Nat × Nat) → List (Nat × Nat) → Option (Nat × Nat)
  | [(a, _)], [(b, _)] => if a ≤ b then some (a, b) else none
  | _, _ => none

/-- The members of a bracketed class up to the closing bracket. -/
def lexClass : Nat → Str → Option (List (Nat × Nat) × Str)
  | 0, _ => none
  | _ + 1, [] => none
  | fuel + 1, c :: s =>
    if c = ']' then some ([], s)
    else if "[:punct:]".toList.isPrefixOf (c :: s) then
      (lexClass fuel ((c :: s).drop 9)).map fun p => (punct ++ p.1, p.2)
    else if unsupported (c :: s) then none
    else (lexMember (c :: s)).bind fun lo =>
      match rangeEnd lo.2 with
      | none => (lexClass fuel lo.2).map fun p => (lo.1 ++ p.1, p.2)
      | some r => (lexMember r).bind fun hi => (range lo.1 hi.1).bind fun ab =>
        (lexClass fuel hi.2).map fun p => (ab :: p.1, p.2)

/-- Whether the text begins with `c`, and what follows it then. -/
def strip (c : Char) : Str → Bool × Str
  | [] => (false, [])
  | d :: s => if d = c then (true, s) else (false, d :: s)

/-- A bracketed class, after `[`: negated or not, and a bracket in the first place is a member. -/
def lexBracket (s : Str) : Option (Re × Str) :=
  let negated := strip '^' s
  let bracket := strip ']' negated.2
  (lexClass (bracket.2.length + 1) bracket.2).map fun p =>
    (.cls negated.1 (if bracket.1 then (93, 93) :: p.1 else p.1), p.2)

def isDigit (c : Char) : Bool := '0' ≤ c ∧ c ≤ '9'

/-- Decimal digits. -/
def lexNat (acc : Nat) : Str → Nat × Str
  | [] => (acc, [])
  | c :: s => if isDigit c then lexNat (acc * 10 + (c.toNat - 48)) s else (acc, c :: s)

/-- A question mark after a repetition makes it lazy, which does not change what is matched. -/
def dropLazy : Str → Str
  | '?' :: s => s
  | s => s

/-- `{m,n}`, after `n`. -/
def lexCountEnd (m n : Nat) : Str → Option (Tok × Str)
  | [] => none
  | c :: s => if c = '}' ∧ m ≤ n then some (.post m (some n), dropLazy s) else none

/-- `{m,}` and `{m,n}`, after the comma. -/
def lexCountMax (m : Nat) : Str → Option (Tok × Str)
  | [] => none
  | c :: s =>
    if c = '}' then some (.post m none, dropLazy s)
    else if isDigit c then lexCountEnd m (lexNat 0 (c :: s)).1 (lexNat 0 (c :: s)).2
    else none

/-- `{m}`, `{m,}` and `{m,n}`, after `m`. -/
def lexCountMin (m : Nat) : Str → Option (Tok × Str)
  | [] => none
  | c :: s =>
    if c = '}' then some (.post m (some m), dropLazy s)
    else if c = ',' then lexCountMax m s
    else none

/-- `{m}`, `{m,}` and `{m,n}`, after the brace. -/
def lexCount : Str → Option (Tok × Str)
  | [] => none
  | c :: s => if isDigit c then lexCountMin (lexNat 0 (c :: s)).1 (lexNat 0 (c :: s)).2 else none

/-- A group, after the parenthesis: `(?:` and `(` are the same for what is matched; other kinds are not modelled. -/
def lexOpening (s : Str) : Option (Tok × Str) :=
  let question := strip '?' s
  if question.1 then
    let colon := strip ':' question.2
    if colon.1 then some (.opening, colon.2) else none
  else some (.opening, s)

/-- The next token. -/
def lexOne : Str → Option (Tok × Str)
  | [] => none
  | c :: s =>
    if c = '(' then lexOpening s
    else if c = ')' then some (.closing, s)
    else if c = '|' then some (.bar, s)
    else if c = '.' then some (.atom (.cls true [(10, 10)]), s)
    else if c = '^' then some (.atom .start, s)
    else if c = '$' then some (.atom .stop, s)
    else if c = '?' then some (.post 0 (some 1), dropLazy s)
    else if c = '*' then some (.post 0 none, dropLazy s)
    else if c = '+' then some (.post 1 none, dropLazy s)
    else if c = '{' then lexCount s
    else if c = '\\' then (lexEscape s).map fun p => (.atom (.cls false p.1), p.2)
    else if c = '[' then (lexBracket s).map fun p => (.atom p.1, p.2)
    else some (.atom (lit c), s)

/-- All tokens.  Every token has at least one character, so `fuel = s.length` is enough. -/
def lexAll : Nat → Str → Option (List Tok)
  | _, [] => some []
  | 0, _ :: _ => none
  | fuel + 1, c :: s => (lexOne (c :: s)).bind fun p => (lexAll fuel p.2).map (p.1 :: ·)

def lex (s : Str) : Option (List Tok) := lexAll s.length s

/-! ### Reading: structure -/

/-- A group that is being read: the alternatives that are complete, and the items of the current one, both latest first. -/
structure Frame where
  alts : List Re := []
  items : List Re := []

/-- The concatenation of items given latest first. -/
def catAll : List Re → Re
  | [] => .empty
  | [a] => a
  | a :: rest => .cat (catAll rest) a

/-- The alternation, latest first. -/
def altAll : Re → List Re → Re
  | last, [] => last
  | last, a :: rest => .alt (altAll a rest) last

/-- The whole group. -/
def Frame.finish (f : Frame) : Re := altAll (catAll f.items) f.alts

/-- Reading one token; the groups that are open, innermost first. -/
def step (frames : List Frame) (t : Tok) : Option (List Frame) :=
  match frames with
  | [] => none
  | f :: outer =>
    match t with
    | .atom r => some ({ f with items := r :: f.items } :: outer)
    | .post min max =>
      match f.items with
      | [] => none
      | a :: rest => some ({ f with items := .rep a min max :: rest } :: outer)
    | .bar => some ({ alts := catAll f.items :: f.alts, items := [] } :: outer)
    | .opening => some ({} :: f :: outer)
    | .closing =>
      match outer with
      | [] => none
      | g :: outer => some ({ g with items := f.finish :: g.items } :: outer)

/-- `regex_syntax::parse`, for the modelled syntax. -/
def parse (s : Str) : Option Re := do
  let toks ← lex s
  let frames ← toks.foldlM step [{}]
  match frames with
  | [f] => some f.finish
  | _ => none

/-! ### Matching -/

def inClass (negated : Bool) (ranges : List (Nat × Nat)) (c : Char) : Bool :=
  (ranges.any fun r => decide (r.1 ≤ c.toNat ∧ c.toNat ≤ r.2)) != negated

/-- What can be left after `k` matches in a row. -/
def exactly (ends : Bool → Str → List Str) : Nat → Bool → Str → List Str
  | 0, _, rest => [rest]
  | k + 1, first, rest => (ends first rest).flatMap fun r => exactly ends k (first && r.length == rest.length) r

/-- What can be left after at most `k` matches in a row, none of them empty. -/
def atMost (ends : Bool → Str → List Str) : Nat → Bool → Str → List Str
  | 0, _, rest => [rest]
  | k + 1, first, rest =>
    rest :: ((ends first rest).filter fun r => decide (r.length < rest.length)).flatMap fun r => atMost ends k false r

/-- What can be left of `rest` after a match at its beginning; `first` says whether this is the beginning of the text.  The
crate compiles patterns to automata; only the set of matches is modelled, not the order in which it finds them. -/
def ends : Re → Bool → Str → List Str
  | .empty, _, rest => [rest]
  | .cls negated ranges, _, rest =>
    match rest with
    | [] => []
    | c :: r => if inClass negated ranges c then [r] else []
  | .start, first, rest => if first then [rest] else []
  | .stop, _, rest => if rest.isEmpty then [rest] else []
  | .cat a b, first, rest => (a.ends first rest).flatMap fun r => b.ends (first && r.length == rest.length) r
  | .alt a b, first, rest => a.ends first rest ++ b.ends first rest
  | .rep a min max, first, rest =>
    if max.any (· < min) then []
    else (exactly a.ends min first rest).flatMap fun r =>
      atMost a.ends (max.elim r.length (· - min)) (first && r.length == rest.length) r

/-- Is there a match at the beginning of `rest` or later? -/
def matchesFrom (re : Re) : Bool → Str → Bool
  | first, [] => !(re.ends first []).isEmpty
  | first, c :: rest => !(re.ends first (c :: rest)).isEmpty || matchesFrom re false rest

/-- `Regex::is_match`. -/
def isMatch (re : Re) (s : Str) : Bool := matchesFrom re true s

end Re

/-- `Regex` of the crate: the pattern keeps its text (`as_str`). -/
structure Regex where
  text : Str
  re : Re
  deriving DecidableEq, Repr

/-- `Regex::new`. -/
def Regex.new (text : Str) : Option Regex := (Re.parse text).map fun re => ⟨text, re⟩

/-- `Regex::is_match`. -/
def Regex.isMatch (r : Regex) (s : Str) : Bool := r.re.isMatch s

/-- `Result::unwrap` and `Option::unwrap`. -/
def unwrap {α : Type} : Option α → Res α
  | some a => .ok a
  | none => .error .panic

end Tokengeex
