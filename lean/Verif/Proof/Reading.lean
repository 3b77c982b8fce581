import Verif.Model.Reading
import Verif.Spec.Reading
import Verif.Proof.ParserTotal
/-!
# The steps of the parser

Without the steps `Model/Reading.lean` is `Model/Parser.lean`.  Then the bound: what is read successfully takes a number of steps proportional
to the length of what is consumed, twice as many for each level of lists.
-/
namespace PBfs

namespace Timed

theorem bind_res (x : Timed α) (k : α → List Char → Timed β) : (x.bind k).res = x.res.bind fun a r => (k a r).res := by
  unfold bind PR.bind
  cases x.res <;> rfl

theorem must_res (x : Timed α) (pos) : (x.must pos).res = x.res.must pos := rfl

theorem orElse_res (x y : Timed α) : (x.orElse y).res = x.res.orElse y.res := by
  unfold orElse PR.orElse
  cases h : x.res <;> simp [h]

theorem map_res (f : α → β) (x : Timed α) : (x.map f).res = x.res.map f := rfl

end Timed

open Timed

theorem constantT_res (s) : (constantT s).res = constantP s := rfl
theorem variableT_res (s) : (variableT s).res = variableP s := rfl
theorem numberT_res (s) : (numberT s).res = numberP s := rfl
theorem litT_res (t s) : (litT t s).res = lit t s := rfl
theorem exactlyT_res (t s) : (exactlyT t s).res = exactly t s := rfl
theorem wordT_res (p s) : (wordT p s).res = word p s := rfl

/-- Without the steps it is that parser. -/
def Erases (p : TP α) (q : P α) : Prop := ∀ s, (p s).res = q s

theorem manyT_res {p : TP α} {q : P α} (h : Erases p q) : ∀ n, Erases (manyT p n) (many q n)
  | 0, s => rfl
  | n + 1, s => by
    unfold manyT many
    rw [h s]
    cases hq : q s with
    | ok a r => simp only []; rw [manyT_res h n r]
    | _ => rfl

theorem sepBy1T_res {p : TP α} {q : P α} (h : Erases p q) (sep n) : Erases (sepBy1T p sep n) (sepBy1 q sep n) := by
  intro s
  unfold sepBy1T sepBy1
  rw [bind_res, h s]
  congr 1
  funext a r
  rw [map_res, manyT_res (q := fun s => (lit sep s).bind fun _ r => q r) _ n r]
  intro s
  rw [bind_res, litT_res]
  congr 1
  funext _ r
  exact h r

theorem valueT_res {ex : TP Node} {e : P Node} (h : Erases ex e) : Erases (valueT ex) (valueP e) := by
  intro s
  unfold valueT valueP
  rw [orElse_res, orElse_res, bind_res, variableT_res, numberT_res, litT_res]
  congr 3
  funext _ r
  rw [bind_res, must_res, h r]
  rfl

theorem chainedT_res {operand : TP Node} {q : P Node} (h : Erases operand q) : ∀ ops, Erases (chainedT operand ops) (chainedP q ops)
  | [], s => rfl
  | op :: ops, s => by
    unfold chainedT chainedP
    rw [orElse_res, bind_res, litT_res, chainedT_res h ops s]
    congr 2
    funext _ r
    rw [map_res, must_res, h r]

theorem powerT_res {ex : TP Node} {e : P Node} (h : Erases ex e) : Erases (powerT ex) (powerP e) := by
  intro s
  unfold powerT powerP
  rw [bind_res, valueT_res h s]
  congr 1
  funext v r
  rw [orElse_res, map_res, chainedT_res (valueT_res h) _ r]
  cases chainedP (valueP e) [n!"^"] r <;> rfl

theorem chainT_res {operand : TP Node} {q : P Node} (h : Erases operand q) (ops) : Erases (chainT operand ops) (chainP q ops) := by
  intro s
  unfold chainT chainP
  rw [bind_res, h s]
  congr 1
  funext v r
  rw [map_res, manyT_res (chainedT_res h ops) _ r]

theorem productT_res {ex : TP Node} {e : P Node} (h : Erases ex e) : Erases (productT ex) (productP e) := chainT_res (powerT_res h) _

theorem expressionT_res : ∀ n, Erases (expressionT n) (expressionP n)
  | 0, _ => rfl
  | n + 1, s => chainT_res (productT_res (expressionT_res n)) _ s

theorem functorT_res {el : TP Node} {e : P Node} (h : Erases el e) : Erases (functorT el) (functorP e) := by
  intro s
  unfold functorT functorP
  rw [bind_res, wordT_res]
  congr 1
  funext w r
  rw [bind_res, exactlyT_res]
  congr 1
  funext _ r
  rw [bind_res, must_res, sepBy1T_res h _ _ r]
  rfl

theorem listT_res {el ls : TP Node} {e l : P Node} (h : Erases el e) (g : Erases ls l) : Erases (listT el ls) (listP e l) := by
  intro s
  unfold listT listP
  simp only [orElse_res, bind_res, litT_res, map_res, sepBy1T_res h _ _ _, variableT_res, g _]

theorem elementListT_res : ∀ n, Erases (elementListT n).1 (elementList n).1 ∧ Erases (elementListT n).2 (elementList n).2
  | 0 => ⟨fun _ => rfl, fun _ => rfl⟩
  | n + 1 => by
    obtain ⟨h, g⟩ := elementListT_res n
    refine ⟨fun s => ?_, listT_res h g⟩
    show (((functorT _ s).orElse _)).res = (functorP _ s).orElse _
    rw [orElse_res, orElse_res, orElse_res, functorT_res h s, constantT_res, listT_res h g s, expressionT_res (n + 1) s]

theorem elementT_res (n) : Erases (elementT n) (elementP n) := (elementListT_res n).1

theorem infixT_res {el rhs : TP Node} {e r : P Node} (h : Erases el e) (g : Erases rhs r) (op) : Erases (infixT el op rhs) (infixP e op r) := by
  intro s
  unfold infixT infixP
  simp only [bind_res, litT_res, map_res, h _, g _]

theorem atomT_res (n) : Erases (atomT n) (atomP n) := by
  intro s
  unfold atomT atomP
  simp only [orElse_res, infixT_res (elementT_res n) (elementT_res n) _ _, infixT_res (elementT_res n) (expressionT_res n) _ _,
    functorT_res (elementT_res n) _, constantT_res]

theorem commentT_res : Erases commentT commentP := by
  intro s
  unfold commentT commentP
  rw [bind_res, litT_res]

theorem clauseT_res (n) : Erases (clauseT n) (clauseP n) := by
  intro s
  unfold clauseT clauseP
  simp only [orElse_res, bind_res, litT_res, map_res, must_res, functorT_res (elementT_res n) _, constantT_res, sepBy1T_res (atomT_res n) _ _ _]

theorem ruleT_res (n) : Erases (ruleT n) (ruleP n) := by
  intro s
  unfold ruleT ruleP
  rw [bind_res, clauseT_res n s]
  congr 1
  funext c r
  rw [orElse_res, map_res, commentT_res r]
  cases commentP r <;> rfl

theorem lineT_res (n) : Erases (lineT n) (lineP n) := by
  intro s
  unfold lineT lineP
  rw [orElse_res, map_res, map_res, commentT_res s, ruleT_res n s]

end PBfs
