/-!
# Compiler options of OpenCL

How the text passed to `clBuildProgram` is read: words separated by spaces, each definition is the word `-D` followed by `NAME=VALUE`.
-/

namespace Lib842.Spec

/-- The pieces of a text between the characters `c` -/
def splitOn (c : Char) : List Char → List (List Char)
  | [] => [[]]
  | x :: xs =>
    if x = c then [] :: splitOn c xs
    else match splitOn c xs with
      | [] => [[x]]
      | w :: ws => (x :: w) :: ws

/-- `NAME=VALUE`; the value may contain further `=` -/
def nameValue : List Char → Option (List Char × List Char)
  | [] => none
  | x :: xs => if x = '=' then some ([], xs) else (nameValue xs).map fun p => (x :: p.1, p.2)

/-- The definitions made by a list of words; `none` if there is a word that is neither -/
def definitions : List (List Char) → Option (List (List Char × List Char))
  | [] => some []
  | [_] => none
  | d :: w :: ws => if d = ['-', 'D'] then do return (← nameValue w) :: (← definitions ws) else none

/-- The value of a macro -/
def macroOf (options : List Char) (name : String) : Option (List Char) := do
  (← definitions (splitOn ' ' options)).lookup name.toList

/-- A decimal digit -/
def digitVal (c : Char) : Option Nat := if 48 ≤ c.toNat ∧ c.toNat ≤ 57 then some (c.toNat - 48) else none

/-- The digits after the first ones, which denote `n` -/
def numberFrom (n : Nat) : List Char → Option Nat
  | [] => some n
  | c :: cs => do numberFrom (10 * n + (← digitVal c)) cs

/-- The number that a decimal constant of C denotes (one that begins with `0` is octal) -/
def number : List Char → Option Nat
  | [] => none
  | ['0'] => some 0
  | '0' :: _ => none
  | cs => numberFrom 0 cs

/-- The elements of an initializer `{a,b,c}` or `{a,b,c,}` of decimal constants -/
def initializer : List Char → Option (List Nat)
  | '{' :: cs =>
    if cs.getLast? = some '}' then
      let ws := splitOn ',' cs.dropLast
      (if ws.getLast? = some [] then ws.dropLast else ws).mapM number
    else none
  | _ => none

end Lib842.Spec
