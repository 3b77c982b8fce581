import Verif.Model.Draw
import Verif.Model.Console
/-!
# The web page

`web/assets/js/prolog_bfs/main.js`, `classes/InterpreterHandler.js`, `classes/Result.js`, `TreeView.draw`
(`classes/TreeView.js:69-121`) and the wrapper class `wasm/wasm.cpp`, as a state machine: one step is one task of the event loop of the
browser, i.e. a click or a timer that goes off.

Simplified: a handler is known by its place in the list instead of by the time of its creation in milliseconds (two clicks within the
same millisecond would overwrite each other); only the boxes of accepted queries are listed; the editors, the storage of the texts in
cookies and the memory bar are left out; the modal dialogue is not modelled, the drawing is there all the time.
-/
namespace PBfs

/-- A pending call of `runOnce` (InterpreterHandler.js:102-138): with the callback of `tryExecute` (lines 79-89) or that of `onNextClicked`
(lines 156-165). -/
inductive Poll where
  | first
  | next
  deriving DecidableEq, Repr

/-- An `InterpreterHandler` with its `Result` and its `TreeView`. -/
structure Page where
  /-- `interpreter`; undefined when the box has been closed -/
  org : Option Org
  /-- what has been put behind `?- ` into `innerHTML` (Result.js:47) -/
  query : Name
  /-- the paragraphs in the result list -/
  lines : List Name
  nextOn : Bool
  treeOn : Bool
  /-- timers that have been set -/
  polls : List Poll
  /-- `treeView.drawing_id` -/
  drawn : Nat

/-- The page. -/
structure Site where
  pages : List Page
  /-- `TreeView.newest_drawing_id` -/
  newest : Nat
  /-- the content of `modal_tree_result_body`: whose tree, and the tree -/
  view : Option (Nat × Drawing)
  /-- what `load_program` or `load_query` said to a text that was not accepted (shown by `alert`) -/
  alerts : List Org.Load

/-- TreeView.js:317 -/
def Site.empty : Site := ⟨[], 1, none, []⟩

/-- The circumstances of a call of `get_answer`: the clock; whether the memory is exhausted when the clock readings are used up;
`isMemoryLimitReached()` (main.js:94-96) afterwards. -/
structure Call where
  clock : List Bool
  exhausted : Bool
  full : Bool

/-- `get_answer` (bfs_organizer.cpp:50-57) -/
def Org.getAnswerOf (fuel : Nat) (c : Call) (o : Org) : R (Org × Org.Res) := do
  let (o, r) ← o.getAnswer fuel c.clock
  match r with
  | .running => if c.exhausted then pure (o.clearMemory, .error ⟨.outOfMemory, []⟩) else .error .hang
  | r => pure (o, r)

def softLimitText : Name := n!"Soft memory limit reached. Please close some results."

/-- `result.getAnswerAsString()` and `result.getError().getExplanation()` -/
def Org.Res.text : Org.Res → Name
  | .answer bs => answerStr (some bs)
  | .noAnswer => answerStr none
  | .error e => e.explanation
  | .running => []

namespace Page

/-- The callbacks (InterpreterHandler.js:79-89, 156-165). -/
def callback (k : Poll) (s : Name) (p : Page) : Page :=
  let p := { p with lines := p.lines ++ [s] }
  match k with
  | .first => { p with nextOn := if s = n!"false" then p.nextOn else true, treeOn := true }
  | .next => { p with nextOn := if s = n!"false" then false else p.nextOn }

/-- `runOnce` (InterpreterHandler.js:102-138) -/
def runOnce (fuel : Nat) (c : Call) (k : Poll) (p : Page) : R Page :=
  match p.org with
  | none => pure p
  | some o => do
    let (o, r) ← o.getAnswerOf fuel c
    let p := { p with org := some o }
    match r with
    | .error e =>
      if e.kind = .outOfTime then
        if c.full then pure (p.callback k softLimitText) else pure { p with polls := p.polls ++ [k] }
      else pure (p.callback k r.text)
    | r => pure (p.callback k r.text)

end Page

/-- What happens. -/
inductive Event where
  /-- a click on "Run" with these texts in the editors -/
  | run (ord : HashOrder) (program query : List Char) (c : Call)
  /-- the timer number `j` of the box `i` goes off -/
  | timer (i j : Nat) (c : Call)
  /-- a click on "Next" in the box `i` -/
  | next (i : Nat) (c : Call)
  /-- a click on "Show tree view" in the box `i` -/
  | tree (i : Nat)
  /-- a click on the node with this number in the drawing -/
  | node (n : Int) (c : Call)
  /-- a click on the cross of the box `i` -/
  | close (i : Nat)

namespace Site

/-- `onNextClicked` (InterpreterHandler.js:155-169) -/
def onNext (fuel : Nat) (i : Nat) (c : Call) (s : Site) : R Site :=
  match s.pages[i]? with
  | none => pure s
  | some p => do
    let p ← p.runOnce fuel c .next
    pure { s with pages := s.pages.set i p, newest := s.newest + 1 }

/-- `treeView.draw(getUnificationTree())` (TreeView.js:69-121, InterpreterHandler.js:151-153, 174).  The tree is made in any case. -/
def drawTree (fuel : Nat) (i : Nat) (s : Site) : R Site :=
  match s.pages[i]? with
  | none => pure s
  | some p =>
    match p.org with
    | none => pure s -- a TypeError
    | some o => do
      let t ← o.unificationTree fuel
      if p.drawn = s.newest then pure s
      else do
        let d ← o.draw fuel t
        pure { s with pages := s.pages.set i { p with drawn := s.newest + 1 }, newest := s.newest + 1, view := some (i, d) }

/-- One task of the event loop.  A click on a button that is not there or disabled does nothing. -/
def step (fuel : Nat) (e : Event) (s : Site) : R Site :=
  match e with
  | .run ord program query c => -- main.js:62-83, InterpreterHandler.js:39-94
    match Org.init with
    | .error _ => pure s
    | .ok o =>
      match o.loadProgramText ord program with
      | (o, .ok) =>
        match o.loadQueryText ord query with
        | (o, .ok) => do
          let p ← (⟨some o, query, [], false, false, [], 0⟩ : Page).runOnce fuel c .first
          pure { s with pages := s.pages ++ [p], newest := s.newest + 1 }
        | (_, l) => pure { s with alerts := s.alerts ++ [l] }
      | (_, l) => pure { s with alerts := s.alerts ++ [l] }
  | .timer i j c =>
    match s.pages[i]? with
    | none => pure s
    | some p =>
      match p.polls[j]? with
      | none => pure s
      | some k => do
        let p ← { p with polls := p.polls.eraseIdx j }.runOnce fuel c k
        pure { s with pages := s.pages.set i p }
  | .next i c =>
    match s.pages[i]? with
    | none => pure s
    | some p => if p.org.isSome ∧ p.nextOn then s.onNext fuel i c else pure s
  | .tree i =>
    match s.pages[i]? with
    | none => pure s
    | some p => if p.org.isSome ∧ p.treeOn then s.drawTree fuel i else pure s
  | .node n c => -- TreeView.js:110-120
    match s.view with
    | none => pure s
    | some (i, d) =>
      if n ∈ d.buttons then do
        let s ← s.onNext fuel i c
        s.drawTree fuel i
      else pure s
  | .close i => -- InterpreterHandler.js:180-188, Result.js:64-66
    match s.pages[i]? with
    | none => pure s
    | some p => pure { s with pages := s.pages.set i { p with org := none } }

def steps (fuel : Nat) : List Event → Site → R Site
  | [], s => pure s
  | e :: es, s => do
    let s ← s.step fuel e
    steps fuel es s

end Site
end PBfs
