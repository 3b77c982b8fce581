import Verif.Model.Source
/-! # The notices of the web page: the alert and the marks in the editors

web/assets/js/prolog_bfs/classes/SyntaxError.js, Alert.js, and the parts of InterpreterHandler.js and main.js that use them.

Simplified: the `cause` in the text of the alert and the column are left out; both marks of an error (for the line and for the column,
SyntaxError.js:23-36) are one; scrolling is left out.  The marks that Ace itself makes are left out, the numbers of marks are counted for
both editors together.  What a successful run does is in Model/Page.lean; here only the texts it was started with are recorded.  -/
namespace PBfs

/-- The two editors (`ace.edit("program")`, `ace.edit("query")`). -/
inductive Side where
  | program
  | query
  deriving DecidableEq, Repr

/-- The text of the alert: "Syntax error in program line …", "Compiler error in query line …" and so on (InterpreterHandler.js:51-68), or
"Error getting result. Probably ran out of memory …" (main.js:71). -/
inductive Notice where
  | wrong (s : Side) (type : CErr) (row : Nat)
  | trouble
  deriving DecidableEq, Repr

/-- A mark in an editor; rows are counted from 0. -/
structure Mark where
  side : Side
  id : Nat
  row : Nat
  deriving DecidableEq, Repr

structure Desk where
  program : List Char
  query : List Char
  /-- what the alert says, if it is shown -/
  alert : Option Notice
  marks : List Mark
  nextId : Nat
  /-- `syntaxError.ace_session` and the number of its mark -/
  current : Option (Side × Nat)
  /-- the functions that listen to the changes of each editor (SyntaxError.js:42-45); there is no `off` -/
  listeners : List Side
  /-- the runs that were started: program and query -/
  started : List (List Char × List Char)
  deriving DecidableEq, Repr

namespace Desk

/-- main.js:12-17; the texts come from cookies (ace_editor_setup.js:13-28). -/
def new (program query : List Char) : Desk := ⟨program, query, none, [], 0, none, [], []⟩

def text (d : Desk) : Side → List Char
  | .program => d.program
  | .query => d.query

/-- `SyntaxError.show` (SyntaxError.js:12-46) followed by `alert.show` (Alert.js:9-20) -/
def display (s : Side) (e : CErr) (row : Nat) (d : Desk) : Desk :=
  { d with current := some (s, d.nextId), marks := d.marks ++ [⟨s, d.nextId, row - 1⟩], nextId := d.nextId + 1,
           listeners := d.listeners ++ [s], alert := some (.wrong s e row) }

/-- `SyntaxError.hide` and `alert.hide` (SyntaxError.js:48-51, Alert.js:25-27) -/
def hide (d : Desk) : Desk :=
  match d.current with
  | none => { d with alert := none }
  | some (s, i) => { d with marks := d.marks.filter (fun m => !(m.side == s && m.id == i)), alert := none }

/-- Calls all functions that listen to this editor. -/
def notify (s : Side) : List Side → Desk → Desk
  | [], d => d
  | l :: ls, d => notify s ls (if l = s then d.hide else d)

def setText (s : Side) (t : List Char) (d : Desk) : Desk :=
  match s with
  | .program => { d with program := t }
  | .query => { d with query := t }

/-- The user changes a text. -/
def edit (s : Side) (t : List Char) (d : Desk) : Desk := notify s d.listeners (d.setText s t)

/-- `onRunClicked` and `tryExecute` (main.js:62-78, InterpreterHandler.js:39-72) -/
def run (ord : HashOrder) (d : Desk) : Desk :=
  match Org.init with
  | .error _ => d
  | .ok o =>
    match o.programReport ord d.program with
    | .exception => { d with alert := some .trouble }
    | .error e row => d.display .program e row
    | .empty =>
      match (o.loadProgramText ord d.program).1.queryReport ord d.query with
      | .exception => { d with alert := some .trouble }
      | .error e row => d.display .query e row
      | .empty => { d with started := d.started ++ [(d.program, d.query)] }

/-- What a user does. -/
inductive Action where
  | edit (s : Side) (t : List Char)
  | run (ord : HashOrder)
  /-- a click on the cross of the alert (web/index.html:72) -/
  | dismiss

def act : Action → Desk → Desk
  | .edit s t, d => if t = d.text s then d else d.edit s t
  | .run ord, d => d.run ord
  | .dismiss, d => { d with alert := none }

def acts : List Action → Desk → Desk
  | [], d => d
  | a :: as, d => acts as (act a d)

end Desk
end PBfs
