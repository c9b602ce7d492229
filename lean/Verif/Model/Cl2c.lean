import Verif.Model.Basic
/-!
# The tool that embeds files into C sources

`/repo/src/tools/cl2c.cpp`.  Strings are given by the values of their characters.
-/

namespace Lib842

/-- The `switch` in the loop, `cl2c.cpp` 23-36 -/
def cl2cChar (c : Byte) : List Byte :=
  if c = 10 then [92, 110, 34, 10, 34]  -- '\n': "\\n\"\n\""
  else if c = 92 then [92, 92]          -- '\\': "\\\\"
  else if c = 34 then [92, 34]          -- '\"': "\\\""
  else [c]

/-- What is written to the output file, `cl2c.cpp` 18-38, if the characters read are those of `file`. -/
def cl2cText (name file : List Byte) : List Byte :=
  -- 18: "const char *" << argv[3] << " =\n\""
  [99, 111, 110, 115, 116, 32, 99, 104, 97, 114, 32, 42] ++ name ++ [32, 61, 10, 34] ++
  -- 21-36
  file.flatMap cl2cChar ++
  -- 38: "\"\n;\n"
  [34, 10, 59, 10]

/-- `main`, `cl2c.cpp` 6-41: exit status and output file (`none`: not created).  `input` is `none` if it cannot be
opened: that sets `failbit`, for which no exception is enabled, and `get` returns `EOF`.  If the
output cannot be created, in the same way nothing happens.  Errors while reading or writing (`badbit`,
an exception, nonzero status) are not modelled. -/
def cl2cMain (args : List (List Byte)) (input : Option (List Byte)) (outputOpens : Bool) : Nat × Option (List Byte) :=
  match args with
  | [_, _, name] => (0, if outputOpens then some (cl2cText name (input.getD [])) else none)
  | _ => (1, none)

end Lib842
