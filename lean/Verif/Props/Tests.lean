import Verif.Spec.Demo
import Verif.Model.Parser
import Verif.Model.Tree
import Verif.Model.Source
/-! # The tests of the repository, executed on the model

Every `example` below is one or more tests of /repo/test with the same program: the program and the queries are copied from it, and what it requires
of the answers is stated with `Want`.  The kernel executes the model on them.  They do not prove any property; they show
that the model does what the authors of the program observed of the program.  DESIGN.md lists the tests that are left
out. -/
namespace PBfs.Tests

/-- What a test requires of the result of one `get_answer`. -/
inductive Want where
  | yes                              -- `has_value()`
  | no                               -- `!has_value()`, and no error
  | exactly (bs : List Binding)      -- these bindings in any order (`has_all_of_these`)
  | at (n : Nat) (value : Name)      -- `at(n).binding == value`
  | oneOf (values : List Name)       -- `at(0).binding` is one of them
  | error (k : ErrKind)              -- `get_error().err_code`

def Want.holds : Want → Org.Res → Bool
  | .yes, .answer _ => true
  | .no, .noAnswer => true
  | .exactly bs, .answer cs =>
    bs.length == cs.length && bs.all (fun b => cs.contains b) && cs.all (fun c => bs.contains c)
  | .at n v, .answer cs => cs[n]?.map (·.value) == some v
  | .oneOf vs, .answer cs => cs.head?.any (fun c => vs.contains c.value)
  | .error k, .error e => e.kind == k
  | _, _ => false

def fuel : Nat := 100

/-- no iteration takes too long -/
def clock : List Bool := List.replicate 1000 false

/-- `get_answer` for every requirement, followed by `get_unification_tree` if the test does this. -/
def asks (tree : Bool) : List Want → Org → Option Org
  | [], o => some o
  | w :: ws, o =>
    match o.getAnswer fuel clock with
    | .ok (o, r) => if w.holds r && (!tree || (o.unificationTree fuel).isOk) then asks tree ws o else none
    | .error _ => none

/-- `load_query` and the requirements, for all queries in turn. -/
def queries (tree : Bool) : List (Name × List Want) → Org → Option Org
  | [], o => some o
  | (q, ws) :: qs, o =>
    match o.loadQueryText id q with
    | (o, .ok) => (asks tree ws o).bind (queries tree qs)
    | _ => none

/-- `bfs_organizer org; org.load_program(…);` -/
def start (prog : Option Name) : Option Org :=
  match prog with
  | none => some Org.init0
  | some p =>
    match Org.init0.loadProgramText id p with
    | (o, .ok) => some o
    | _ => none

/-- Every section starts with a new interpreter. -/
def passes (prog : Option Name) (sections : List (List (Name × List Want))) (tree := false) : Bool :=
  match start prog with
  | some o => sections.all fun qs => (queries tree qs o).isSome
  | none => false


/-- test/bfs_organizer_L1_test.cpp:26-36; test/bfs_organizer_L1_test.cpp:37-47 -/
example : passes (some n!"a.")
   [[(n!"a.", [.exactly []])],
    [(n!"b.", [.no])]] = true := by decide +kernel

/-- test/bfs_organizer_L1_test.cpp:48-65 -/
example : passes (some n!"p(f(X),h(Y,f(a)),Y).")
   [[(n!"p(Z,h(Z,W),f(W)).", [.exactly [⟨n!"W", n!"f(a)"⟩, ⟨n!"Z", n!"f(f(a))"⟩]])]] = true := by decide +kernel

/-- test/bfs_organizer_L1_test.cpp:66-76 -/
example : passes (some n!"f(X).")
   [[(n!"f(g).", [.exactly []])]] = true := by decide +kernel

/-- test/bfs_organizer_L1_test.cpp:77-86 -/
example : passes (some n!"f(Lhs, Rhs).")
   [[(n!"f(a, b).", [.exactly []])]] = true := by decide +kernel

/-- test/bfs_organizer_L1_test.cpp:87-94 -/
example : passes (some n!"r(Z,h(Z,f(a)),f(Z)).")
   [[(n!"r(x,h(Z,W),f(g)).", [.no])]] = true := by decide +kernel

/-- test/bfs_organizer_L1_test.cpp:95-102; test/bfs_organizer_L1_test.cpp:103-110 -/
example : passes (some n!"r(x).")
   [[(n!"r(x,x).", [.no])],
    [(n!"r(f(X),h(a,b),x).", [.no])]] = true := by decide +kernel

/-- test/bfs_organizer_L1_test.cpp:111-124 -/
example : passes (some n!"r(f(a),h(D,Z)).")
   [[(n!"r(f(X),h(a,b)).", [.exactly [⟨n!"X", n!"a"⟩]])]] = true := by decide +kernel

/-- test/bfs_organizer_L1_test.cpp:125-138 -/
example : passes (some n!"r(f(a),h(D,Z),J).")
   [[(n!"r(f(X),h(a,b),x).", [.exactly [⟨n!"X", n!"a"⟩]])]] = true := by decide +kernel

/-- test/bfs_organizer_L1_test.cpp:139-152 -/
example : passes (some n!"r(f(f(f(a))),h(f(f(f(f(b)))),b)).")
   [[(n!"r(f(f(f(X))),h(f(f(f(f(Z)))),b)).", [.exactly [⟨n!"X", n!"a"⟩, ⟨n!"Z", n!"b"⟩]])]] = true := by decide +kernel

/-- test/bfs_organizer_L1_test.cpp:153-171; test/bfs_organizer_L1_test.cpp:172-180 -/
example : passes (some n!"r(f(h(a,f(f(b)))),h(f(f(f(f(b)))),b)).")
   [[(n!"r(f(h(X,f(f(Z)))),h(f(f(f(f(Z)))),Y)).", [.exactly [⟨n!"X", n!"a"⟩, ⟨n!"Z", n!"b"⟩, ⟨n!"Y", n!"b"⟩]])],
    [(n!"r(f(h(X,f(f(Z)))),h(f(f(f(f(Z)))),X)).", [.no])]] = true := by decide +kernel

/-- test/bfs_organizer_L2_test.cpp:39-53; test/bfs_organizer_L2_test.cpp:54-67; test/bfs_organizer_L2_test.cpp:68-83; test/bfs_organizer_L2_test.cpp:84-101; test/bfs_organizer_L2_test.cpp:102-118; test/bfs_organizer_L2_test.cpp:119-135; test/bfs_organizer_L2_test.cpp:136-152; test/bfs_organizer_L2_test.cpp:153-158 -/
example : passes (some n!"p(X,Y) :- q(X,Z), r(Z,Y).q(x,z).r(z,y).a(A,B) :- b(B,C), c(C,D), d(D,E), e(E,F), f(F,A).b(b,c).c(c,d).d(d,e).e(e,f).f(f,a).h(g(f(A),X),f(b),f(g(h(X,Y,B),c))) :- c(c,d), a(A,B), p(X,Y),e(E,F).a.b.c.d.")
   [[(n!"p(X,Y).", [.exactly [⟨n!"X", n!"x"⟩, ⟨n!"Y", n!"y"⟩]])],
    [(n!"a(A,B).", [.exactly [⟨n!"A", n!"a"⟩, ⟨n!"B", n!"b"⟩]])],
    [(n!"h(g(f(A),X),f(b),f(F)).", [.exactly [⟨n!"A", n!"a"⟩, ⟨n!"X", n!"x"⟩, ⟨n!"F", n!"g(h(x,y,b),c)"⟩]])],
    [(n!"h(g(f(A),X),f(b),f(F)), p(X,Y), a(A,B).", [.exactly [⟨n!"A", n!"a"⟩, ⟨n!"X", n!"x"⟩, ⟨n!"B", n!"b"⟩, ⟨n!"Y", n!"y"⟩, ⟨n!"F", n!"g(h(x,y,b),c)"⟩]])],
    [(n!"h(g(f(A),X),f(b),f(F)), p(X,Y), a(A,B),p(X,Y), a(A,B).", [.exactly [⟨n!"A", n!"a"⟩, ⟨n!"X", n!"x"⟩, ⟨n!"B", n!"b"⟩, ⟨n!"Y", n!"y"⟩, ⟨n!"F", n!"g(h(x,y,b),c)"⟩]])],
    [(n!"h(g(f(A),X),f(b),f(F)), a, p(X,Y),b, a(A,B),p(X,Y), c,a(A,B),d.", [.exactly [⟨n!"A", n!"a"⟩, ⟨n!"X", n!"x"⟩, ⟨n!"B", n!"b"⟩, ⟨n!"Y", n!"y"⟩, ⟨n!"F", n!"g(h(x,y,b),c)"⟩]])],
    [(n!"a,d ,h(g(f(A),X),f(b),f(F)), a, p(X,Y),b, a(A,B),p(X,Y), c,a(A,B),d.", [.exactly [⟨n!"A", n!"a"⟩, ⟨n!"X", n!"x"⟩, ⟨n!"B", n!"b"⟩, ⟨n!"Y", n!"y"⟩, ⟨n!"F", n!"g(h(x,y,b),c)"⟩]])],
    [(n!"a,d ,h(g(f(A),X),f(b),f(F)), a,fault, p(X,Y),b, a(A,B),p(X,Y), c,a(A,B),d.", [.no])]] = true := by decide +kernel

/-- test/bfs_organizer_L3_test.cpp:14-27 -/
example : passes (some n!"h(a).o(X) :- h(X).nat(b).nat(a).one(X) :- nat(X), o(X).two(b).l([a, b, [Y, [X]]], f(b([a, [a] | [Z]]))) :- one(Y), one(X), two(Z).")
   [[(n!"l([a, b, [a, [a]]], f(b([a, [a] | [b]]))).", [.yes])]] = true := by decide +kernel

/-- test/bfs_organizer_L3_test.cpp:52-79 -/
example : passes (some n!"p(X,Y) :- q(X,Z), r(Z,Y).q(x,z).r(z,y).a(A,B) :- b(B,C), c(C,D), d(D,E), e(E,F), f(F,A).b(b,c).c(c,d).d(d,e).e(e,f).f(f,a).h(g(f(A),X),f(b),f(g(h(X,Y,B),c))) :- c(c,d), a(A,B), p(X,Y),e(E,F).g(a,f(h(f(d),a,b))) :- c(c,d), a(A,B), p(X,Y),e(E,F).g(a,f(b)).z(X) :- z(X).z(a).")
   [[(n!"z(A).", [.exactly [⟨n!"A", n!"a"⟩]])]] = true := by decide +kernel

/-- test/bfs_organizer_L3_test.cpp:95-116 -/
example : passes (some n!"p(X,Y) :- q(X,Z), r(Z,Y).q(x,z).r(z,y).a(A,B) :- b(B,C), c(C,D), d(D,E), e(E,F), f(F,A).b(b,c).c(c,d).d(d,e).e(e,f).f(f,a).h(g(f(A),X),f(b),f(g(h(X,Y,B),c))) :- c(c,d), a(A,B), p(X,Y),e(E,F).g(a,f(h(f(d),a,b))) :- c(c,d), a(A,B), p(X,Y),e(E,F).g(a,f(b)).x(A) :- a(A,B).x(A) :- a(a,A).")
   [[(n!"x(A).", [.exactly [⟨n!"A", n!"a"⟩],
       .exactly [⟨n!"A", n!"b"⟩],
       .no])]] = true := by decide +kernel

/-- test/bfs_organizer_L3_test.cpp:117-138 -/
example : passes (some n!"p(X,Y) :- q(X,Z), r(Z,Y).q(x,z).r(z,y).a(A,B) :- b(B,C), c(C,D), d(D,E), e(E,F), f(F,A).b(b,c).c(c,d).d(d,e).e(e,f).f(f,a).h(g(f(A),X),f(b),f(g(h(X,Y,B),c))) :- c(c,d), a(A,B), p(X,Y),e(E,F).g(a,f(h(f(d),a,b))) :- c(c,d), a(A,B), p(X,Y),e(E,F).g(a,f(b)).x(A) :- p(x,Y),a(A,B),c(C,d).x(A) :- h(X,Y,Z), p(D,J), a(a,A).")
   [[(n!"x(A).", [.exactly [⟨n!"A", n!"a"⟩],
       .exactly [⟨n!"A", n!"b"⟩],
       .no])]] = true := by decide +kernel

/-- test/bfs_organizer_list_test.cpp:22-40 -/
example : passes (some n!"p([a,b],[a,b,c],[a,b,c,d]).")
   [[(n!"p([A,B], [A,b,C], Z).", [.exactly [⟨n!"A", n!"a"⟩, ⟨n!"B", n!"b"⟩, ⟨n!"C", n!"c"⟩, ⟨n!"Z", n!"[a,b,c,d]"⟩]])]] = true := by decide +kernel

/-- test/bfs_organizer_list_test.cpp:41-55 -/
example : passes (some n!"append([a | B]).")
   [[(n!"append([a,b]).", [.exactly []])]] = true := by decide +kernel

/-- test/bfs_organizer_list_test.cpp:56-70 -/
example : passes (some n!"append([a | R]).")
   [[(n!"append([a,b,c]).", [.exactly []])]] = true := by decide +kernel

/-- test/bfs_organizer_list_test.cpp:71-85 -/
example : passes (some n!"f([a,b]).")
   [[(n!"f([a| B ]).", [.exactly [⟨n!"B", n!"[b]"⟩]])]] = true := by decide +kernel

/-- test/bfs_organizer_list_test.cpp:86-98 -/
example : passes none
   [[(n!"append(Z, [a], [a]).", [.exactly [⟨n!"Z", n!"[]"⟩]])]] = true := by decide +kernel

/-- test/bfs_organizer_list_test.cpp:99-111 -/
example : passes none
   [[(n!"append(Z, [b, c], [a, b, c]).", [.exactly [⟨n!"Z", n!"[a]"⟩]])]] = true := by decide +kernel

/-- test/bfs_organizer_list_test.cpp:112-124 -/
example : passes none
   [[(n!"append([a],Z, [a,b]).", [.exactly [⟨n!"Z", n!"[b]"⟩]])]] = true := by decide +kernel

/-- test/bfs_organizer_list_test.cpp:125-137 -/
example : passes none
   [[(n!"append([a,b,c],[d,e], Z).", [.exactly [⟨n!"Z", n!"[a,b,c,d,e]"⟩]])]] = true := by decide +kernel

/-- test/bfs_organizer_list_test.cpp:138-151 -/
example : passes none
   [[(n!"append([a,b],[], Z).", [.exactly [⟨n!"Z", n!"[a,b]"⟩]])]] = true := by decide +kernel

/-- test/bfs_organizer_list_test.cpp:167-181 -/
example : passes (some n!"f([[a]]).")
   [[(n!"f([A]).", [.exactly [⟨n!"A", n!"[a]"⟩]])]] = true := by decide +kernel

/-- test/bfs_organizer_list_test.cpp:182-199 -/
example : passes (some n!"f([[a], [b], [c]]).")
   [[(n!"f([A, B | C]).", [.exactly [⟨n!"A", n!"[a]"⟩, ⟨n!"B", n!"[b]"⟩, ⟨n!"C", n!"[[c]]"⟩]])]] = true := by decide +kernel

/-- test/bfs_organizer_list_test.cpp:200-208 -/
example : passes (some n!"r([a, b, c]).")
   [[(n!"r(Z).", [.yes])]] = true := by decide +kernel

/-- test/bfs_organizer_list_test.cpp:209-216 -/
example : passes (some n!"g([[a,b], [a,Y] | X]).")
   [[(n!"g(Z).", [.yes])]] = true := by decide +kernel

/-- test/bfs_organizer_list_test.cpp:217-226 -/
example : passes (some n!"r(f(a)) :- g(H).g(d).")
   [[(n!"r(Z).", [.yes])]] = true := by decide +kernel

/-- test/bfs_organizer_list_test.cpp:227-247 -/
example : passes (some n!"r([a, b, c]) :- g(H).g([[d,e], [f, Y ] | X]).")
   [[(n!"r(Z).", [.exactly [⟨n!"Z", n!"[a,b,c]"⟩]])]] = true := by decide +kernel

/-- test/bfs_organizer_list_test.cpp:248-263, the number is a place on the heap -/
example : passes (some n!"g([[a,Y]]).")
   [[(n!"g(Z).", [.exactly [⟨n!"Z", n!"[[a,Y9]]"⟩]])]] = true := by decide +kernel

/-- test/list_test.cpp:15-30 -/
example : passes (some n!"len([X | R], Y) :- len(R, LR), Y is 1 + LR.len([], 0).l([1]).")
   [[(n!"l(X), len(X, Y)", [.exactly [⟨n!"X", n!"[1]"⟩, ⟨n!"Y", n!"1"⟩]])]] (tree := true) = true := by decide +kernel

/-- test/list_test.cpp:32-60, the first two of three answers -/
example : passes (some n!"len([X | R], Y) :- len(R, LR), Y is 1 + LR.len([], 0).alt([1,0 | R]) :- alt(R).alt([]).")
   [[(n!"alt(X), len(X, R)", [.exactly [⟨n!"X", n!"[]"⟩, ⟨n!"R", n!"0"⟩],
       .exactly [⟨n!"X", n!"[1,0]"⟩, ⟨n!"R", n!"2"⟩]])]] (tree := true) = true := by decide +kernel

/-- test/list_test.cpp:62-85, the numbers are places on the heap -/
example : passes (some n!"istdrin(X, [X|Xs]).istdrin(X, [Y|Xs]) :- istdrin(X, Xs).")
   [[(n!"istdrin(a, Zs)", [.exactly [⟨n!"Zs", n!"[a|Xs]"⟩],
       .exactly [⟨n!"Zs", n!"[Y3,a|Xs]"⟩],
       .exactly [⟨n!"Zs", n!"[Y3,Y6,a|Xs1]"⟩]])]] (tree := true) = true := by decide +kernel

/-- test/v1_test.cpp:26-31; test/v1_test.cpp:32-44 -/
example : passes (some n!"natSymb(o). %o ist ein natsymb\nnatSymb(s(A)) :- natSymb(A). %o ist ein natsymb\ntest(X) :- test(X).\ntest(a).\ntest(b).")
   [[(n!"natSymb(s(A)).", [.at 0 n!"o"])],
    [(n!"test(Z).", [.oneOf [n!"a", n!"b"],
       .oneOf [n!"a", n!"b"],
       .oneOf [n!"a", n!"b"],
       .oneOf [n!"a", n!"b"],
       .oneOf [n!"a", n!"b"]])]] = true := by decide +kernel

/-- test/integers.cpp:12-21 -/
example : passes (some n!"a(1).")
   [[(n!"a(X).", [.at 0 n!"1"])]] = true := by decide +kernel

/-- test/integers.cpp:23-40 -/
example : passes (some n!"h(1).o(X) :- h(X).nat(2).nat(1).one(X) :- nat(X), o(X).two(2).l([a, b, [Y, [X]]], f(b([a, [a] | [Z]]))) :- one(Y), one(X), two(Z).")
   [[(n!"l([Y, b, [1, [X]]], f(b([a, [a] | [Z]]))).", [.exactly [⟨n!"Y", n!"a"⟩, ⟨n!"X", n!"1"⟩, ⟨n!"Z", n!"2"⟩]])]] = true := by decide +kernel

/-- test/integers.cpp:42-57 -/
example : passes (some n!"alt([]).alt([1, 0 | R]) :- alt(R).")
   [[(n!"alt(X).", [.at 0 n!"[]",
       .at 0 n!"[1,0]",
       .at 0 n!"[1,0,1,0]"])]] = true := by decide +kernel

/-- test/arithmetic.cpp:15-21 -/
example : passes none
   [[(n!"X is 1 // 0.", [.error .divByZero])]] = true := by decide +kernel

/-- test/arithmetic.cpp:30-51 -/
example : passes (some n!"c(a).f(g(a)).l([]).")
   [[(n!"f(Y), X is Y.", [.error .notArithmetic]),
     (n!"l(Y), X is Y.", [.error .notArithmetic]),
     (n!"c(Y), X is Y.", [.error .notArithmetic])]] = true := by decide +kernel

/-- test/visual.cpp:13-26 -/
example : passes (some n!"g(X, X).")
   [[(n!"g(Z1, Z2).", [.exactly [⟨n!"Z1", n!"Z2"⟩, ⟨n!"Z2", n!"Z2"⟩]])]] (tree := true) = true := by decide +kernel

/-- test/built_in_preds/append.cpp:8-14 -/
example : passes none
   [[(n!"append([], [a], [a])", [.yes])]] (tree := true) = true := by decide +kernel

/-- test/built_in_preds/append.cpp:16-23 -/
example : passes none
   [[(n!"append([a,[X],c], [1], Z).", [.at 0 n!"[a,[X],c,1]"])]] (tree := true) = true := by decide +kernel

/-- test/built_in_preds/equals_pred.cpp:15-23 -/
example : passes (some n!"eq(X, Y) :- X == Y.")
   [[(n!"eq(a, a).", [.yes])]] (tree := true) = true := by decide +kernel

/-- test/built_in_preds/equals_pred.cpp:25-36 -/
example : passes (some n!"a(a).b(a).eq(X,Y) :- a(X), b(Y), X == Y.")
   [[(n!"eq(X, Y).", [.yes])]] (tree := true) = true := by decide +kernel

/-- test/built_in_preds/equals_pred.cpp:39-50 -/
example : passes (some n!"a(a).b(b).eq(X,Y) :- a(X), b(Y), X == Y.")
   [[(n!"eq(X, Y).", [.no])]] (tree := true) = true := by decide +kernel

/-- test/built_in_preds/equals_pred.cpp:52-63 -/
example : passes (some n!"a(x(d,f)).b(x(e,f)).eq(X,Y) :- a(X), b(Y), X == Y.")
   [[(n!"eq(X, Y).", [.no])]] (tree := true) = true := by decide +kernel

/-- test/built_in_preds/equals_pred.cpp:65-76 -/
example : passes (some n!"a(x(H,f)).b(x(G,f)).eq(X,Y) :- a(X), b(Y), X == Y.")
   [[(n!"eq(X, Y).", [.no])]] (tree := true) = true := by decide +kernel

/-- test/built_in_preds/equals_pred.cpp:78-84 -/
example : passes none
   [[(n!"X == X.", [.yes])]] (tree := true) = true := by decide +kernel

/-- test/built_in_preds/equals_pred.cpp:86-92 -/
example : passes none
   [[(n!"Y == X.", [.no])]] (tree := true) = true := by decide +kernel

/-- test/built_in_preds/equals_pred.cpp:96-107 -/
example : passes (some n!"a(X).b(X).eq(X,Y) :- a(X), b(Y), X == Y.")
   [[(n!"eq(A,B).", [.no])]] (tree := true) = true := by decide +kernel

/-- test/built_in_preds/equals_pred.cpp:110-122 -/
example : passes (some n!"eq(X, X) :- X == X.")
   [[(n!"eq(X, X).", [.yes]),
     (n!"X == X.", [.yes])]] (tree := true) = true := by decide +kernel

/-- test/built_in_preds/equals_pred.cpp:124-126 -/
example : passes none
   [[(n!"3 == 3.", [.yes])]] (tree := true) = true := by decide +kernel

/-- test/built_in_preds/equals_pred.cpp:128-130 -/
example : passes none
   [[(n!"3 ==4.", [.no])]] (tree := true) = true := by decide +kernel

/-- test/built_in_preds/equals_pred.cpp:132-134 -/
example : passes none
   [[(n!"a == a.", [.yes])]] (tree := true) = true := by decide +kernel

/-- test/built_in_preds/equals_pred.cpp:136-138 -/
example : passes none
   [[(n!"a == b.", [.no])]] (tree := true) = true := by decide +kernel

/-- test/built_in_preds/not_equals_pred.cpp:8-15 -/
example : passes (some n!"eq(X, Y) :- X \\== Y.")
   [[(n!"eq(b, a).", [.yes])]] = true := by decide +kernel

/-- test/built_in_preds/not_equals_pred.cpp:17-27 -/
example : passes (some n!"a(a).b(b).eq(X,Y) :- a(X), b(Y), X \\== Y.")
   [[(n!"eq(X, Y).", [.yes])]] = true := by decide +kernel

/-- test/built_in_preds/not_equals_pred.cpp:29-39 -/
example : passes (some n!"a(a).b(a).eq(X,Y) :- a(X), b(Y), X \\== Y.")
   [[(n!"eq(X, Y).", [.no])]] = true := by decide +kernel

/-- test/built_in_preds/not_equals_pred.cpp:41-51 -/
example : passes (some n!"a(x(d,f)).b(x(d,f)).eq(X,Y) :- a(X), b(Y), X \\== Y.")
   [[(n!"eq(X, Y).", [.no])]] = true := by decide +kernel

/-- test/built_in_preds/not_equals_pred.cpp:53-63 -/
example : passes (some n!"a(x(H,f)).b(x(H,f)).eq(X,Y) :- a(X), b(Y), X \\== Y.")
   [[(n!"eq(X, Y).", [.yes])]] = true := by decide +kernel

/-- test/built_in_preds/not_equals_pred.cpp:65-70 -/
example : passes none
   [[(n!"X \\== X.", [.no])]] = true := by decide +kernel

/-- test/built_in_preds/not_equals_pred.cpp:72-77 -/
example : passes none
   [[(n!"Y \\== X.", [.yes])]] = true := by decide +kernel

/-- test/built_in_preds/not_equals_pred.cpp:81-91 -/
example : passes (some n!"a(X).b(X).eq(X,Y) :- a(X), b(Y), X \\== Y.")
   [[(n!"eq(A,B).", [.yes])]] = true := by decide +kernel

/-- test/built_in_preds/arithmetic/is.cpp:11-35; test/built_in_preds/arithmetic/is.cpp:11-35; test/built_in_preds/arithmetic/is.cpp:11-35; test/built_in_preds/arithmetic/is.cpp:11-35; test/built_in_preds/arithmetic/is.cpp:11-35; test/built_in_preds/arithmetic/is.cpp:11-35; test/built_in_preds/arithmetic/is.cpp:11-35; test/built_in_preds/arithmetic/is.cpp:11-35; test/built_in_preds/arithmetic/is.cpp:11-35; test/built_in_preds/arithmetic/is.cpp:11-35 -/
example : passes none
   [[(n!"X is 3.", [.at 0 n!"3"])],
    [(n!"X is 3 + 3.", [.at 0 n!"6"])],
    [(n!"X is 3 - 4.", [.at 0 n!"-1"])],
    [(n!"X is 3 * 3.", [.at 0 n!"9"])],
    [(n!"X is 9 // 3.", [.at 0 n!"3"])],
    [(n!"X is 2^3.", [.at 0 n!"8"])],
    [(n!"X is 3 * 3 - 1.", [.at 0 n!"8"])],
    [(n!"X is (4 + 4) * 4 - ((2 + 3)*2).", [.at 0 n!"22"])],
    [(n!"X is 2 ^ 3 * 4.", [.at 0 n!"32"])],
    [(n!"X is (((3^2)-1)*1+2) - 10.", [.at 0 n!"0"])]] = true := by decide +kernel

/-- test/built_in_preds/arithmetic/is.cpp:45-55 -/
example : passes (some n!"e(1 + 1).")
   [[(n!"e(Y), X is Y", [.at 0 n!"2"]),
     (n!"e(Y), X is Y", [.at 1 n!"(1 + 1)"])]] = true := by decide +kernel

/-- test/built_in_preds/arithmetic/is.cpp:57-68 -/
example : passes none
   [[(n!"[] is 3.", [.no]),
     (n!"a is 3.", [.no]),
     (n!"f(a) is 3.", [.no])]] = true := by decide +kernel

/-- test/built_in_preds/arithmetic/is.cpp:70-94; test/built_in_preds/arithmetic/is.cpp:105-124 -/
example : passes (some n!"add(X, X + 1).min(X, X - 1).double(X, X * 2).div(X, X // 2).")
   [[(n!"add(X, A),add(A, B),double(B, C),double(C, D),min(D, E),div(E, R), X is 1, V is R.", [.exactly [⟨n!"X", n!"1"⟩, ⟨n!"A", n!"(1 + 1)"⟩, ⟨n!"B", n!"((1 + 1) + 1)"⟩, ⟨n!"C", n!"(((1 + 1) + 1) * 2)"⟩, ⟨n!"D", n!"((((1 + 1) + 1) * 2) * 2)"⟩, ⟨n!"E", n!"(((((1 + 1) + 1) * 2) * 2) - 1)"⟩, ⟨n!"R", n!"((((((1 + 1) + 1) * 2) * 2) - 1) // 2)"⟩, ⟨n!"V", n!"5"⟩]])],
    [(n!"X is 3,double(X, R),add(R, R2),div(R2, R3),Y is R3", [.exactly [⟨n!"X", n!"3"⟩, ⟨n!"R", n!"(3 * 2)"⟩, ⟨n!"R2", n!"((3 * 2) + 1)"⟩, ⟨n!"R3", n!"(((3 * 2) + 1) // 2)"⟩, ⟨n!"Y", n!"3"⟩]])]] = true := by decide +kernel

/-- test/practical5_test_list.cpp:56-68; test/practical5_test_list.cpp:69-85; test/practical5_test_list.cpp:86-92; test/practical5_test_list.cpp:93-99; test/practical5_test_list.cpp:100-106; test/practical5_test_list.cpp:107-119; test/practical5_test_list.cpp:133-146 -/
example : passes (some n!"zustand(readSigma).zustand(dele).sigma(a).sigma(b).kellerSym(raute).kellerSym(a).delta(readSigma, nix, raute, readSigma,nil).delta(readSigma, a, raute, readSigma ,list(a,list(raute,nil))).delta(readSigma, a, a, readSigma ,list(a,list(a,nil))).delta(readSigma, nix, a, dele, list(a,nil)).delta(readSigma, b, a, dele ,nil).delta(dele, b, a, dele,nil).delta(dele, nix, raute, dele ,nil).startZ(readSigma).startKeller(raute).sigma_stern(nil).sigma_stern(list(W, Rs)) :- sigma(W), sigma_stern(Rs).lappend(nil, Xs, Xs).lappend(list(X, Rs), Xs, list(X, Ns)) :- lappend(Rs, Xs, Ns).es(Zustand, list(W, WRs) , list(G,GRs), ZNext, WRs, Stack_neu) :- delta(Zustand, W, G, ZNext, WriteBack), lappend(WriteBack, GRs, Stack_neu).es(Zustand, W, list(G, GRs), ZNext, W, Stack_neu) :- delta(Zustand, nix, G, ZNext, WriteBack), lappend(WriteBack, GRs, Stack_neu).es_plus(Z0, W, G, Z1, WNeu, GNeu) :- es(Z0, W, G, Z1 , WNeu, GNeu).es_plus(Z0, W, G, ZNeu, WRs, Stack_neu) :- es(Z0, W, G, ZNext, WRest, Stack), es_plus(ZNext, WRest, Stack, ZNeu, WRs, Stack_neu).lVonM(Ws) :- startZ(Z0), zustand(EndZ), startKeller(K) , es_plus(Z0, Ws, list(K,nil), EndZ, nil, nil).")
   [[(n!"startZ(Z).", [.exactly [⟨n!"Z", n!"readSigma"⟩]])],
    [(n!"zustand(Z).", [.exactly [⟨n!"Z", n!"readSigma"⟩],
       .exactly [⟨n!"Z", n!"dele"⟩]])],
    [(n!"lappend(list(a,list(b,list(c,nil))),list(d,list(e,list(f,nil))),Z).", [.at 0 n!"list(a,list(b,list(c,list(d,list(e,list(f,nil))))))"])],
    [(n!"lappend(nil, list(a,list(b,nil)),Z).", [.at 0 n!"list(a,list(b,nil))"])],
    [(n!"lappend(list(a,list(b, nil)),nil, Z).", [.at 0 n!"list(a,list(b,nil))"])],
    [(n!"es(readSigma, list(a,nil), list(raute,nil), ZN, nil,list(a,list(raute,nil))).", [.exactly [⟨n!"ZN", n!"readSigma"⟩],
       .no])],
    [(n!"lVonM(Z).", [.yes])]] = true := by decide +kernel

/-! ## Texts that are rejected -/

/-- test/arithmetic.cpp:23-28 -/
example : Org.init0.queryReport id n!"X is 1 + Y." = .error .undefinedVar 1 := by decide +kernel

/-- test/arithmetic.cpp:53-57 -/
example : Org.init0.queryReport id n!"X is 1 / 0." = .error .parse 1 := by decide +kernel

/-- test/built_in_preds/append.cpp:25-32 -/
example : Org.init0.programReport id n!"append(bla, bla, bla)." = .error .redefinition 1 := by decide +kernel

/-- test/parser/program.cpp:14-18 -/
example : Org.init0.programReport id n!"f(a) :- f(b)." = .empty := by decide +kernel

/-- test/parser/program.cpp:19-25 -/
example : Org.init0.programReport id n!"f(a) :- f(b) X.\nf(a) :- f(b), f(c)" = .error .parse 1 := by
  decide +kernel

/-- test/parser/program.cpp:27-32 -/
example : Org.init0.programReport id n!"aa)." = .error .parse 1 := by decide +kernel

/-- test/parser/program.cpp:34-39 -/
example : Org.init0.programReport id n!"JOKES_AND_STUFF." = .error .parse 1 := by decide +kernel

/-- test/parser/query.cpp:14-20 -/
example : Org.init0.queryReport id n!"DFS, LKJ, f(b), d." = .error .parse 1 := by decide +kernel

/-- test/parser/query.cpp:22-26 -/
example : Org.init0.queryReport id n!"f(a), f(b), d." = .empty := by decide +kernel

/-- test/parser/query.cpp:28-34 -/
example : Org.init0.queryReport id n!"aa)." = .error .parse 1 := by decide +kernel

/-! ## Trees -/

/-- `get_children()[n]` of a `query_node`, `get_continuing_query()` of a `var_binding_node` (number 0). -/
def below : List Nat → UTree → Option UInfo
  | [], .node i _ => some i
  | n :: ns, .node _ kids =>
    match kids[n]? with
    | some k => below ns k
    | none => none

/-- The executor of a node. -/
def stateOf (o : Org) (i : UInfo) : Option EState := (o.execs[i.exec]?).map (·.state)

/-- Load, ask for an answer, build the tree, and look at it. -/
def treeIs (prog : Name) (q : Name) (check : Org → UTree → Bool) : Bool :=
  match (start (some prog)).bind (queries false [(q, [.yes])]) with
  | some o =>
    match o.unificationTree fuel with
    | .ok t => check o t
    | .error _ => false
  | none => false

def title (n : Name) (i : Option UInfo) : Bool := i.any fun i => i.goal && i.title == n
def binds (bs : List Binding) (i : Option UInfo) : Bool :=
  i.any fun i => !i.goal && (Want.exactly bs).holds (.answer i.bindings)
def binds0 (b : Binding) (i : Option UInfo) : Bool := i.any fun i => !i.goal && i.bindings.head? == some b
def finals (bs : List Binding) (i : Option UInfo) : Bool := i.any fun i => i.final == some bs
def state (s : EState) (o : Org) (i : Option UInfo) : Bool := i.any fun i => stateOf o i == some s

/-- test/unification_tree/tree_test.cpp:12-103, with the clauses of test_src/arithmetic.pl that the query uses -/
example : treeIs n!"natSymb(o). % hi\nnatSymb(s(A)) :- natSymb(A).\nadd(o, A, A).\nadd(s(A), B, C) :- natSymb(A), natSymb(B), natSymb(C), add(A, s(B), C).\nmult(o, X, o).\nmult(s(A), B, C) :- mult(A, B, D), add(D, B, C)."
    n!"mult(s(o),s(s(s(o))),Z)." (fun o t =>
      title n!"mult(s(o), s(s(s(o))), Z)" (below [] t) &&
      state .fail o (below [0] t) && state .archived o (below [1] t) &&
      binds [⟨n!"B", n!"s(s(s(o)))"⟩, ⟨n!"C", n!"Z"⟩, ⟨n!"A", n!"o"⟩] (below [1] t) &&
      title n!"mult(o, s(s(s(o))), D)" (below [1, 0] t) &&
      state .fail o (below [1, 0, 1] t) && (below [1, 0, 2] t).isNone &&
      binds [⟨n!"D", n!"o"⟩, ⟨n!"X", n!"s(s(s(o)))"⟩] (below [1, 0, 0] t) &&
      (below [1, 0, 0, 0] t).isSome && (below [1, 0, 0, 0, 2] t).isNone &&
      state .running o (below [1, 0, 0, 0, 1] t) &&
      binds [⟨n!"A", n!"s(s(s(o)))"⟩, ⟨n!"Z", n!"s(s(s(o)))"⟩] (below [1, 0, 0, 0, 0] t) &&
      finals [⟨n!"Z", n!"s(s(s(o)))"⟩] (below [1, 0, 0, 0, 0] t)) = true := by decide +kernel

/-- test/unification_tree/tree_test.cpp:108-135 -/
example : treeIs n!"p(X) :- addVar(X), unifyVar(X).addVar(s(Y)).unifyVar(s(s(o)))." n!"p(Y)." (fun _ t =>
      binds0 ⟨n!"X", n!"Y"⟩ (below [0] t) && title n!"addVar(Y)" (below [0, 0] t) &&
      binds [⟨n!"Y", n!"s(Y)"⟩] (below [0, 0, 0] t) && title n!"unifyVar(s(Y))" (below [0, 0, 0, 0] t) &&
      binds0 ⟨n!"Y", n!"s(o)"⟩ (below [0, 0, 0, 0, 0] t)) = true := by decide +kernel

/-- test/unification_tree/tree_test.cpp:137-166 -/
example : treeIs n!"p(X) :- p(X).p(a)." n!"p(Z)." (fun o t =>
      binds0 ⟨n!"X", n!"Z"⟩ (below [0] t) && state .running o (below [0, 0] t) &&
      finals [⟨n!"Z", n!"a"⟩] (below [1] t)) = true := by decide +kernel

/-- test/unification_tree/tree_test.cpp:191-218 -/
example : treeIs n!"r([a, b, c]) :- g(X), h(Y), c(Z), f(Single).g([[a,b], [a,Y] | X]).h([]).c([X, Y]).f([a])." n!"r(Z)."
    (fun _ t =>
      binds0 ⟨n!"Z", n!"[a, b, c]"⟩ (below [0] t) &&
      binds0 ⟨n!"X", n!"[[a, b], [a, Y], X]"⟩ (below [0, 0, 0] t) &&
      binds0 ⟨n!"Y", n!"[]"⟩ (below [0, 0, 0, 0, 0] t) &&
      binds0 ⟨n!"Z", n!"[X, Y]"⟩ (below [0, 0, 0, 0, 0, 0, 0] t) &&
      binds0 ⟨n!"Single", n!"[a]"⟩ (below [0, 0, 0, 0, 0, 0, 0, 0, 0] t)) = true := by decide +kernel

/-- test/unification_tree/tree_test.cpp:229-239: the tree is built although `ges` is not in the program -/
example : passes (some n!"weiblich(e2).weiblich(k2).schwester(X,Y) :- weiblich(X), ges(X,Y).")
    [[(n!"schwester(X, Y).", [.no])]] (tree := true) = true := by decide +kernel

/-- test/built_in_preds/arithmetic/is.cpp:95-103 -/
example : treeIs n!"add(X, X + 1).min(X, X - 1).double(X, X * 2).div(X, X // 2)."
    n!"add(X, A),add(A, B),double(B, C),double(C, D),min(D, E),div(E, R), X is 1, V is R." (fun _ t =>
      title n!"add(X, A)" (below [] t) && title n!"add((X + 1), B)" (below [0, 0] t) &&
      title n!"double(((X + 1) + 1), C)" (below [0, 0, 0, 0] t)) = true := by decide +kernel

end PBfs.Tests
