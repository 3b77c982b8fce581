import Verif.Spec.Answers
/-!
# How terms are written

The text of a ground term, described without the program that prints it.
-/
namespace PBfs

/-- Texts separated by commas. -/
def commas : List Name → Name
  | [] => []
  | [s] => s
  | s :: r => s ++ ',' :: commas r

/-- The number a sequence of digits stands for. -/
def decValue (s : List Char) : Nat := s.foldl (fun n c => 10 * n + (c.toNat - '0'.toNat)) 0

/-- A natural number in decimal: digits only, at least one, no leading zero. -/
def NatText (n : Nat) (s : Name) : Prop :=
  s ≠ [] ∧ (∀ c ∈ s, c.isDigit) ∧ decValue s = n ∧ (s.head? = some '0' → s = ['0'])

/-- An integer in decimal. -/
def IntText (v : Int) (s : Name) : Prop :=
  (0 ≤ v ∧ NatText v.natAbs s) ∨ (v < 0 ∧ ∃ r, s = '-' :: r ∧ NatText v.natAbs r)

/-- `t` is the proper list of `ts`; `[h|t]` is the functor `[` with the arguments `h` and `t`, the empty list
the functor `[` without arguments. -/
inductive ProperList : Tree → List Tree → Prop
  | nil : ProperList (.fn n!"[" []) []
  | cons {h t ts} : ProperList t ts → ProperList (.fn n!"[" [h, t]) (h :: ts)

/-- `s` is the text of the ground term: constants by their name, integers in decimal, proper lists as
`[e1,...,en]`, other functors as `name(arg,...)`, arithmetic functors as `(l op r)`. -/
inductive Text : Tree → Name → Prop
  | cons {n} : Text (.cons n) n
  | int {v s} : IntText v s → Text (.int v) s
  | list {t ts ss} : ProperList t ts → ss.length = ts.length →
      (∀ (i : Nat) t s, ts[i]? = some t → ss[i]? = some s → Text t s) → Text t (n!"[" ++ commas ss ++ n!"]")
  | fn {f ts ss} : f ≠ n!"[" → ts ≠ [] → ss.length = ts.length →
      (∀ (i : Nat) t s, ts[i]? = some t → ss[i]? = some s → Text t s) → Text (.fn f ts) (f ++ n!"(" ++ commas ss ++ n!")")
  | efn {f l r s s'} : Text l s → Text r s' → Text (.efn f [l, r]) (n!"(" ++ s ++ n!" " ++ f ++ n!" " ++ s' ++ n!")")

/-- Characters with a meaning in the text of terms. -/
def isPunct (c : Char) : Bool := c = '(' || c = ')' || c = '[' || c = ']' || c = ',' || c = ' '

/-- A name that cannot be confused with anything else: not empty and without punctuation. -/
def CleanName (n : Name) : Prop := n ≠ [] ∧ ∀ c ∈ n, isPunct c = false

/-- All names in the term are clean, and no constant looks like a number. -/
inductive Clean : Tree → Prop
  | cons {n} : CleanName n → (∀ c, n.head? = some c → c ≠ '-' ∧ c.isDigit = false) → Clean (.cons n)
  | int {v} : Clean (.int v)
  | fn {f ts} : (f = n!"[" ∨ CleanName f) → (∀ t ∈ ts, Clean t) → Clean (.fn f ts)
  | efn {f ts} : CleanName f → (∀ t ∈ ts, Clean t) → Clean (.efn f ts)

mutual
/-- The term contains no unbound variable. -/
def OTerm.ground : OTerm → Bool
  | .var _ => false
  | .cons _ => true
  | .int _ => true
  | .fn _ ts => OTerm.grounds ts
  | .efn _ ts => OTerm.grounds ts
def OTerm.grounds : List OTerm → Bool
  | [] => true
  | t :: ts => OTerm.ground t && OTerm.grounds ts
end

/-- Going down the list at address `a`: the addresses of the elements passed, and the address of the rest. -/
inductive ListFrom (st : Storage) (H : HV) : Nat → List Nat → Nat → Prop
  | stop {a} : ListFrom st H a [] a
  | elem {a d i es tl} : DerefTo H a d → H d = some (.fn i 2) → st.functorAt i = some ⟨n!"[", 2⟩ →
      ListFrom st H (d + 2) es tl → ListFrom st H a ((d + 1) :: es) tl

end PBfs
