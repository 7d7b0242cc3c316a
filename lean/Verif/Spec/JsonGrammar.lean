import Verif.Model.Json
/-
The grammar of JSON texts (RFC 8259, sections 2 to 7), with the values the texts stand for.  Two things go beyond the RFC's
grammar: `\u` escapes of surrogates must form pairs (section 8.2 leaves open what happens to others), and nesting is bounded.
-/
namespace Tokengeex.Spec
variable {F : Type}

/-- White space (section 2). -/
def White (s : Str) : Prop := ∀ c ∈ s, c = ' ' ∨ c = '\t' ∨ c = '\n' ∨ c = '\r'

/-! ### Numbers (section 6) -/

/-- One or more decimal digits, and the numbers they stand for. -/
def Digits (s : Str) (ds : List Nat) : Prop := ds ≠ [] ∧ (∀ d ∈ ds, d < 10) ∧ s.map Char.toNat = ds.map (48 + ·)

/-- An optional minus sign. -/
inductive Minus : Str → Bool → Prop
  | no : Minus [] false
  | yes : Minus ['-'] true

/-- An optional fraction. -/
inductive Fraction : Str → Option (List Nat) → Prop
  | no : Fraction [] none
  | yes {s : Str} {ds : List Nat} : Digits s ds → Fraction ('.' :: s) (some ds)

/-- An optional exponent; `true` if it is not negative. -/
inductive Exponent : Str → Option (Bool × List Nat) → Prop
  | no : Exponent [] none
  | unsigned {e : Char} {s : Str} {ds : List Nat} : e = 'e' ∨ e = 'E' → Digits s ds → Exponent (e :: s) (some (true, ds))
  | plus {e : Char} {s : Str} {ds : List Nat} : e = 'e' ∨ e = 'E' → Digits s ds → Exponent (e :: '+' :: s) (some (true, ds))
  | minus {e : Char} {s : Str} {ds : List Nat} : e = 'e' ∨ e = 'E' → Digits s ds → Exponent (e :: '-' :: s) (some (false, ds))

/-- A number: the integer part has no leading zeros. -/
def NumberText (s : Str) (t : NumTok) : Prop :=
  ∃ a b c d, s = a ++ b ++ c ++ d ∧ Minus a t.negative ∧ Digits b t.int ∧ (t.int.head? = some 0 → t.int = [0]) ∧
    Fraction c t.frac ∧ Exponent d t.exp

/-! ### Strings (section 7) -/

/-- A hexadecimal digit and its value. -/
def Hex (c : Char) (n : Nat) : Prop :=
  (c.toNat = 48 + n ∧ n < 10) ∨ (10 ≤ n ∧ n < 16 ∧ (c.toNat = 65 + (n - 10) ∨ c.toNat = 97 + (n - 10)))

/-- Four hexadecimal digits and their value. -/
inductive Hex4 : Str → Nat → Prop
  | mk {a b c d : Char} {i j k l : Nat} : Hex a i → Hex b j → Hex c k → Hex d l →
    Hex4 [a, b, c, d] (i * 4096 + j * 256 + k * 16 + l)

/-- The text of a character in a string; `true` if it is escaped. -/
inductive CharText : Str → Char → Bool → Prop
  | plain {c : Char} : c ≠ '"' → c ≠ '\\' → 32 ≤ c.toNat → CharText [c] c false
  | quote : CharText ['\\', '"'] '"' true
  | backslash : CharText ['\\', '\\'] '\\' true
  | slash : CharText ['\\', '/'] '/' true
  | backspace : CharText ['\\', 'b'] '\x08' true
  | formFeed : CharText ['\\', 'f'] '\x0c' true
  | lineFeed : CharText ['\\', 'n'] '\n' true
  | return : CharText ['\\', 'r'] '\r' true
  | tab : CharText ['\\', 't'] '\t' true
  | unicode {h : Str} {c : Char} : Hex4 h c.toNat → CharText ('\\' :: 'u' :: h) c true
  | pair {h g : Str} {hi lo : Nat} {c : Char} : Hex4 h (0xD800 + hi) → Hex4 g (0xDC00 + lo) → hi < 1024 → lo < 1024 →
    c.toNat = 0x10000 + hi * 1024 + lo → CharText ('\\' :: 'u' :: h ++ '\\' :: 'u' :: g) c true

/-- What is between the quotes of a string. -/
inductive StringText : Str → RawStr → Prop
  | nil : StringText [] ⟨[], false⟩
  | cons {s rest : Str} {c : Char} {e : Bool} {r : RawStr} : CharText s c e → StringText rest r →
    StringText (s ++ rest) ⟨c :: r.text, e || r.escaped⟩

/-! ### Values (sections 3 to 5) -/

mutual
/-- A value with at most the given number of nested arrays and objects. -/
inductive ValueText (N : NumText F) : Nat → Str → Json RawStr F → Prop
  | null {n : Nat} : ValueText N n "null".toList .null
  | true {n : Nat} : ValueText N n "true".toList (.bool true)
  | false {n : Nat} : ValueText N n "false".toList (.bool false)
  | number {n : Nat} {s : Str} {t : NumTok} {x : F} : NumberText s t → N.value t = some x → ValueText N n s (.num x)
  | string {n : Nat} {s : Str} {r : RawStr} : StringText s r → ValueText N n ('"' :: s ++ ['"']) (.str r)
  | noItems {n : Nat} {w : Str} : White w → ValueText N (n + 1) ('[' :: w ++ [']']) (.arr [])
  | items {n : Nat} {s : Str} {xs : List (Json RawStr F)} : ItemsText N n s xs → ValueText N (n + 1) ('[' :: s ++ [']']) (.arr xs)
  | noMembers {n : Nat} {w : Str} : White w → ValueText N (n + 1) ('{' :: w ++ ['}']) (.obj [])
  | members {n : Nat} {s : Str} {ms : List (RawStr × Json RawStr F)} : MembersText N n s ms →
    ValueText N (n + 1) ('{' :: s ++ ['}']) (.obj ms)

/-- Items separated by commas. -/
inductive ItemsText (N : NumText F) : Nat → Str → List (Json RawStr F) → Prop
  | last {n : Nat} {a s b : Str} {x : Json RawStr F} : White a → ValueText N n s x → White b →
    ItemsText N n (a ++ (s ++ b)) [x]
  | cons {n : Nat} {a s b rest : Str} {x : Json RawStr F} {xs : List (Json RawStr F)} : White a → ValueText N n s x → White b →
    ItemsText N n rest xs → ItemsText N n (a ++ (s ++ (b ++ ',' :: rest))) (x :: xs)

/-- Members, that is names with values, separated by commas. -/
inductive MembersText (N : NumText F) : Nat → Str → List (RawStr × Json RawStr F) → Prop
  | last {n : Nat} {a k b c s d : Str} {name : RawStr} {x : Json RawStr F} : White a → StringText k name → White b → White c →
    ValueText N n s x → White d → MembersText N n (a ++ '"' :: (k ++ '"' :: (b ++ ':' :: (c ++ (s ++ d))))) [(name, x)]
  | cons {n : Nat} {a k b c s d rest : Str} {name : RawStr} {x : Json RawStr F} {ms : List (RawStr × Json RawStr F)} : White a →
    StringText k name → White b → White c → ValueText N n s x → White d → MembersText N n rest ms →
    MembersText N n (a ++ '"' :: (k ++ '"' :: (b ++ ':' :: (c ++ (s ++ (d ++ ',' :: rest)))))) ((name, x) :: ms)
end

/-- A JSON text: a value between white space. -/
def JsonText (N : NumText F) (depth : Nat) (s : Str) (x : Json RawStr F) : Prop :=
  ∃ a v b, s = a ++ v ++ b ∧ White a ∧ ValueText N depth v x ∧ White b

end Tokengeex.Spec
