import Verif.Model.Source
import Verif.Spec.Syntax
import Verif.Spec.Blank
/-! # How a program is laid out

Specification for C62: where the clauses, heads and goals of a program stand in its text.  Between them there is only
punctuation, white space and comments. -/
namespace PBfs

/-- The row in which a text ends; rows are counted from 1. -/
def lastRow : List Char → Nat
  | [] => 1
  | c :: s => lastRow s + if c = '\n' then 1 else 0

/-- No white space at the beginning and the end. -/
def Trimmed (v : List Char) : Prop := (∃ c cs, v = c :: cs ∧ isSpace c = false) ∧ ∃ cs c, v = cs ++ [c] ∧ isSpace c = false

/-- `i` describes the text `v` which stands after `pre`. -/
def Info.Describes (i : Info) (pre v : List Char) : Prop :=
  i.value = v ∧ i.lineBegin = lastRow pre ∧ i.lineEnd = lastRow (pre ++ v) ∧ Trimmed v

/-- `v` is a text of the goal. -/
def GoalText (a : Node) (v : List Char) : Prop := ∃ ts, GoalSyn a ts ∧ Spell ts v

/-- `v` is a text of the head. -/
def HeadText (a : Node) (v : List Char) : Prop := ∃ ts, HeadSyn a ts ∧ Spell ts v

/-- Goals separated by commas, after `pre`. -/
inductive GoalsLaid : List Char → List (Node × Info) → List Char → Prop
  | one {pre a i v} : GoalText a v → i.Describes pre v → GoalsLaid pre [(a, i)] v
  | more {pre a i v w w' as t} : GoalText a v → i.Describes pre v → Blank w → Blank w' →
      GoalsLaid (pre ++ (v ++ w ++ [','] ++ w')) as t → GoalsLaid pre ((a, i) :: as) (v ++ w ++ [','] ++ w' ++ t)

/-- A clause with its dot, after `pre`. -/
inductive ClauseLaid : List Char → (Node × Info) × List (Node × Info) → List Char → Prop
  | fact {pre h i v w} : HeadText h v → i.Describes pre v → Blank w → ClauseLaid pre ((h, i), []) (v ++ w ++ ['.'])
  | rule {pre h i v w w' as t w''} : HeadText h v → i.Describes pre v → Blank w → Blank w' →
      GoalsLaid (pre ++ (v ++ w ++ [':', '-'] ++ w')) as t → Blank w'' →
      ClauseLaid pre ((h, i), as) (v ++ w ++ [':', '-'] ++ w' ++ t ++ w'' ++ ['.'])

/-- Clauses and comments, after `pre`. -/
inductive ProgLaid : List Char → List ClauseAt → List Char → Prop
  | nil {pre w} : Blank w → ProgLaid pre [] w
  | comment {pre w t p s} : Blank w → '\n' ∉ t → ProgLaid (pre ++ (w ++ ['%'] ++ t ++ ['\n'])) p s →
      ProgLaid pre p (w ++ ['%'] ++ t ++ ['\n'] ++ s)
  | clause {pre w c v p s} : Blank w → ClauseLaid (pre ++ w) (c.head, c.body) v → c.info.Describes (pre ++ w) v →
      ProgLaid (pre ++ (w ++ v)) p s → ProgLaid pre (c :: p) (w ++ v ++ s)

end PBfs
