import Verif.Model.Machine
/-!
# Printing answers

`src/wam/visual/substitution_util.cpp`, `src/wam/bfs_organizer/data/result.cpp`,
`src/wam/bfs_organizer/util/bfs_util.cpp`.
-/
namespace PBfs

/-- `is_user_entered_var` (substitution_util.cpp:11-18) -/
def isUserVar (subs : List (Name × Nat)) (v : Name) : Bool := subs.any (·.1 = v)

/-- `functor_view::is_list` (functor_view.h:18-20) -/
def FV.isList (f : FV) : Bool := f.name = n!"["

/-- `functor_view::is_empty_list` (functor_view.h:21-23) -/
def FV.isEmptyList (f : FV) : Bool := f.name = n!"[" && f.arity = 0

/-- The arguments of a normal functor (substitution_util.cpp:145-149): all but the last followed by a
comma. `rep` prints the term at an address; arguments `i, i+1, …, last`, `k = last - i` still to do
before the last one. -/
def renderArgs (rep : Nat → R Name) (d i : Nat) : Nat → R Name
  | 0 => rep (d + i)
  | k + 1 => do
    let s ← rep (d + i)
    let t ← renderArgs rep d (i + 1) k
    pure (s ++ n!"," ++ t)

/-- `string_representation_of` (substitution_util.cpp:71-183).  `contig` is the argument
`is_contigous_list`.  The first number bounds the depth of the recursion. -/
def stringRep (pre : Nat → Option Cell) (h : Hp) (st : Storage) (subs : List (Name × Nat)) :
    Nat → Bool → Nat → R Name
  | 0, _, _ => .error .hang
  | n + 1, contig, index => do
    let d ← deref pre h index
    let c ← orFault (h.at? pre d)
    match c with
    | .ref _ v => do
      let name ← orFault (st.varAt v)
      pure (if index = d ∧ !isUserVar subs name then name ++ natStr index else name)
    | .int v => pure (intStr v)
    | .cons i => do
      let f ← orFault (st.functorAt i)
      pure f.name
    | .fn i _ => do
      let f ← orFault (st.functorAt i)
      if f.isEmptyList then pure (if contig then [] else n!"[]")
      else if f.name = n!"|" then .error .memory -- assert(false)
      else if f.isList then do
        let hd ← stringRep pre h st subs n false (d + 1)
        let r ← deref pre h (d + 2)
        let rest ← orFault (h.at? pre r)
        let tl ← stringRep pre h st subs n true (d + 2)
        let body := hd ++ (if rest.isRef then n!"|" else n!",") ++ tl
        pure (if contig then body else (n!"[" ++ body).dropLast ++ n!"]")
      else do
        -- arity 0 would print the functor itself again: index d + 0
        let args ← (match f.arity with
          | 0 => stringRep pre h st subs n false d
          | k + 1 => renderArgs (stringRep pre h st subs n false) d 1 k)
        pure (f.name ++ n!"(" ++ args ++ n!")")
    | .efn f _ => do
      -- arithmetic::functor_of (arith_functor.cpp:56-65); the arity is always 2
      let l ← stringRep pre h st subs n false (d + 1)
      let r ← stringRep pre h st subs n false (d + 2)
      pure (n!"(" ++ l ++ n!" " ++ arithNames.getD f [] ++ n!" " ++ r ++ n!")")
    | .str _ => .error .memory -- assert(false)

/-- `wam::var_binding` (include/prolog_bfs/wam/data/var_binding.h) -/
structure Binding where
  name : Name
  value : Name
  deriving DecidableEq, Repr

/-- `operator<<` for bindings (src/wam/data/var_binding.cpp:3-6) -/
def Binding.str (b : Binding) : Name := n!"[" ++ b.name ++ n!" / " ++ b.value ++ n!"]"

/-- All bindings separated by blanks (result.cpp:20-26). -/
def bindingsStr : List Binding → Name
  | [] => []
  | [b] => b.str
  | b :: bs => b.str ++ n!" " ++ bindingsStr bs

/-- `result::get_answer_as_str` (result.cpp:8-27) for results that are not errors. -/
def answerStr : Option (List Binding) → Name
  | none => n!"false"
  | some [] => n!"true"
  | some bs => bindingsStr bs

/-- `std::isspace` in the "C" locale -/
def isSpace (c : Char) : Bool :=
  c = ' ' || c = '\t' || c = '\n' || c = '\r' || c = Char.ofNat 11 || c = Char.ofNat 12

/-- `append_dot_if_not_present` (bfs_util.cpp:8-20), on the reversed string: skip white space, stop at
the last other character. -/
def appendDotRev : List Char → List Char → Option (List Char)
  | [], _ => none
  | c :: cs, skipped =>
    if isSpace c then appendDotRev cs (c :: skipped)
    else if c = '.' then none
    else some ((c :: cs).reverse ++ '.' :: skipped)

/-- `append_dot_if_not_present` (bfs_util.cpp:8-20) -/
def appendDot (q : Name) : Name := (appendDotRev q.reverse []).getD q

end PBfs
