import Verif.Model.Source
/-!
# Checking texts without loading them

`validate_program` and `validate_query`, which the browser can call as `validateProgramCode` and
`validateQueryCode` (wasm/wasm.cpp:30-40).  Both are given a text and have no access to the members of the organizer
but `this`, which they do not use; hence they are functions of the text here.
-/
namespace PBfs

/-- What `parse_program` or `parse_query` throws, caught and returned. -/
def Report.parsed (text : List Char) : Parsed α → Report
  | .ok _ => .empty
  | .error pos => .error .parse (errorRow text pos)
  | .blank => .empty

/-- `validate_program` (bfs_organizer.cpp:153-162) -/
def validateProgram (text : List Char) : Report := .parsed text (parseProgram text)

/-- `validate_query` (bfs_organizer.cpp:164-174) -/
def validateQuery (text : List Char) : Report := .parsed (appendDot text) (parseQuery (appendDot text))

end PBfs
