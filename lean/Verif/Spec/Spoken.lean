import Verif.Spec.Shown
import Verif.Spec.Console
/-!
# What can be read off the console
-/
namespace PBfs

/-- The text `s` on the console shows these values of the variables of the query: for each variable, once, a line with its name and the text of its value (no end of line
after the last one); "true" if there are no variables. -/
def Spoken (atoms : List Node) (ρ : Name → ITree) (s : List Char) : Prop :=
  ∃ bs : List (Name × Name), (bs.map (·.1)).Nodup ∧ (∀ x, x ∈ bs.map (·.1) ↔ InQuery atoms x) ∧ (∀ b ∈ bs, ∃ u : Tree, ρ b.1 = u.fold itreeAlg ∧ Text u b.2) ∧
    (bs = [] → s = n!"true\n") ∧ (bs ≠ [] → s = ((bs.map fun b => n!"[" ++ b.1 ++ n!" / " ++ b.2 ++ n!"]").intersperse n!"\n").flatten)

/-- What an exchange about this query says about the solutions. -/
structure Exchange.Fits (P : List Clause) (q : List Node) (x : Exchange) : Prop where
  /-- Every result but errors and "false" shows a solution. -/
  sound : ∀ r ∈ x.results, r = .noAnswer ∨ (∃ e, r = .error e) ∨ ∃ ρ, Solves P q ρ ∧ Spoken q ρ (said r)

/-- What an exchange about this query, without `is`, `==` and `\\==`, says about the solutions. -/
structure Exchange.FitsAll (P : List Clause) (q : List Node) (x : Exchange) : Prop where
  /-- There are no errors but time-outs. -/
  errors : ∀ e, Org.Res.error e ∈ x.results → e.kind = .outOfTime
  /-- If the last result is "false", then all solutions have been shown. -/
  complete : x.results.getLast? = some .noAnswer → ∀ ρ, Solves P q ρ → ∃ r ∈ x.results, Spoken q ρ (said r)

end PBfs
