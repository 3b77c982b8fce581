import Verif.Model.Basic
/-!
# Saving the texts of the editors

`web/assets/js/prolog_bfs/main.js:92-120` and `ace_editor_setup.js:7-28`: the texts of the two editors are put into cookies every minute and
when a page is left, and taken from there when a page is opened.  The cookies belong to the browser, all pages share them.

Taken as given: the library js-cookie gives back the text that was stored (the library is not part of the repository), and a browser does not store a cookie that is too
long but keeps the one it has; which texts are too long is a parameter `fits`.
-/
namespace PBfs

/-- The texts in the two editors of a page. -/
structure Texts where
  program : Name
  query : Name
  deriving DecidableEq, Repr

/-- The cookies `programcode` and `querycode`, and the pages that are open. -/
structure Browser where
  programCode : Option Name
  queryCode : Option Name
  pages : List Texts
  deriving DecidableEq, Repr

/-- What happens. -/
inductive Deed where
  /-- the page is opened once more -/
  | open
  /-- the text of the program on page `i` is changed -/
  | program (i : Nat) (text : Name)
  /-- the text of the query on page `i` is changed -/
  | query (i : Nat) (text : Name)
  /-- a minute is over on page `i` (main.js:118-120) -/
  | tick (i : Nat)
  /-- page `i` is closed (main.js:111-113) -/
  | close (i : Nat)
  /-- the browser crashes -/
  | crash
  /-- the cookies are older than `autosaveCookieLifetime` (config.js:5) -/
  | expire
  deriving DecidableEq, Repr

namespace Browser

def new : Browser := ⟨none, none, []⟩

/-- `Cookies.set` -/
def put (fits : Name → Bool) (old : Option Name) (text : Name) : Option Name := if fits text then some text else old

/-- `autosave` (main.js:96-106) on a page with these texts -/
def save (fits : Name → Bool) (t : Texts) (b : Browser) : Browser :=
  { b with programCode := put fits b.programCode t.program, queryCode := put fits b.queryCode t.query }

/-- `if (Cookies.get(…))` (ace_editor_setup.js:13-17, 24-28): the empty string counts as false. -/
def get (c : Option Name) (otherwise : Name) : Name :=
  match c with
  | some (x :: xs) => x :: xs
  | _ => otherwise

def step (fits : Name → Bool) (b : Browser) : Deed → Browser
  | .open => { b with pages := b.pages ++ [⟨get b.programCode n!"your_program_code_here.", get b.queryCode n!"your_query_code_here."⟩] }
  | .program i text =>
    match b.pages[i]? with
    | some t => { b with pages := b.pages.set i { t with program := text } }
    | none => b
  | .query i text =>
    match b.pages[i]? with
    | some t => { b with pages := b.pages.set i { t with query := text } }
    | none => b
  | .tick i =>
    match b.pages[i]? with
    | some t => b.save fits t
    | none => b
  | .close i =>
    match b.pages[i]? with
    | some t => { b.save fits t with pages := b.pages.eraseIdx i }
    | none => b
  | .crash => { b with pages := [] }
  | .expire => { b with programCode := none, queryCode := none }

def steps (fits : Name → Bool) (b : Browser) : List Deed → Browser
  | [] => b
  | d :: ds => steps fits (b.step fits d) ds

end Browser
end PBfs
