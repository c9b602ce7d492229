/-!
# Specification: the value of a string constant in a C source file

The translation phases of C (C11, 5.1.1.2) as far as a file needs them that declares one string.
Bytes are ASCII; a file ends where the list ends.
-/

namespace Lib842.Spec

/-- Phase 1: the trigraphs.  GNU C leaves them alone, ISO C up to C17 replaces them. -/
def trigraphs : List (BitVec 8) → List (BitVec 8)
  | 63 :: 63 :: c :: l =>  -- ??
    if c = 61 then 35 :: trigraphs l            -- ??= is #
    else if c = 40 then 91 :: trigraphs l       -- ??( is [
    else if c = 47 then 92 :: trigraphs l       -- ??/ is \
    else if c = 41 then 93 :: trigraphs l       -- ??) is ]
    else if c = 39 then 94 :: trigraphs l       -- ??' is ^
    else if c = 60 then 123 :: trigraphs l      -- ??< is {
    else if c = 33 then 124 :: trigraphs l      -- ??! is |
    else if c = 62 then 125 :: trigraphs l      -- ??> is }
    else if c = 45 then 126 :: trigraphs l      -- ??- is ~
    else 63 :: trigraphs (63 :: c :: l)
  | c :: l => c :: trigraphs l
  | [] => []
  termination_by l => l.length

/-- Phase 2: lines are joined at a backslash before the end of the line. -/
def splice : List (BitVec 8) → List (BitVec 8)
  | 92 :: 10 :: l => splice l
  | c :: l => c :: splice l
  | [] => []

/-- Where the lexer is: between literals, in one, or behind a backslash in one. -/
inductive LexState
  | between
  | inside
  | escape
  deriving DecidableEq, Repr

/-- The simple escape sequences.  Octal, hexadecimal and universal ones are not needed. -/
def escapeValue (c : BitVec 8) : Option (BitVec 8) :=
  if c = 110 then some 10        -- \n
  else if c = 92 then some 92    -- \\
  else if c = 34 then some 34    -- \"
  else if c = 39 then some 39    -- \'
  else if c = 63 then some 63    -- \?
  else if c = 97 then some 7     -- \a
  else if c = 98 then some 8     -- \b
  else if c = 102 then some 12   -- \f
  else if c = 114 then some 13   -- \r
  else if c = 116 then some 9    -- \t
  else if c = 118 then some 11   -- \v
  else none

/-- Phases 3 to 6 behind the `=`: the value of the adjacent literals up to the semicolon that ends
the declaration, and with it the file.  `none` if this is not what the text is. -/
def literals : LexState → List (BitVec 8) → Option (List (BitVec 8))
  | .between, 34 :: l => literals .inside l
  | .between, 59 :: l => if l.all (fun c => c = 32 ∨ c = 10) then some [] else none
  | .between, c :: l => if c = 32 ∨ c = 10 then literals .between l else none
  | .inside, 34 :: l => literals .between l
  | .inside, 92 :: l => literals .escape l
  | .inside, c :: l => if c = 10 then none else (literals .inside l).map (c :: ·)
  | .escape, c :: l =>
    match escapeValue c with
    | some v => (literals .inside l).map (v :: ·)
    | none => none
  | _, [] => none

/-- `const char *` -/
def constCharPtr : List (BitVec 8) := [99, 111, 110, 115, 116, 32, 99, 104, 97, 114, 32, 42]

/-- A letter or an underscore, or, unless at the beginning, a digit -/
def isIdentifier (name : List (BitVec 8)) : Bool :=
  let letter (c : BitVec 8) : Bool := (65 ≤ c ∧ c ≤ 90) ∨ (97 ≤ c ∧ c ≤ 122) ∨ c = 95
  match name with
  | [] => false
  | c :: l => letter c && l.all fun c => letter c || (48 ≤ c ∧ c ≤ 57 : Bool)

/-- The text consists of the declaration `const char *name = …;`, and the array initialised by
the literals has this value (and a NUL behind it). -/
def Declares (text name value : List (BitVec 8)) : Prop :=
  isIdentifier name = true ∧ ∃ l, splice text = constCharPtr ++ name ++ [32, 61] ++ l ∧ literals .between l = some value

/-- The C string at the beginning of an array -/
def cString (a : List (BitVec 8)) : List (BitVec 8) := a.takeWhile (· ≠ 0)

end Lib842.Spec
