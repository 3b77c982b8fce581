import Verif.Props.Exact
/-! # What `append/3` is asked most often: splitting and joining lists -/
namespace PBfs
open Org

def appendNil : Clause := ⟨.fn n!"append" [.nil, .var n!"List2", .var n!"List2"], []⟩
def appendCons : Clause :=
  ⟨.fn n!"append" [.fn n!"[" [.var n!"X", .var n!"Xs"], .var n!"Ys", .fn n!"[" [.var n!"X", .var n!"Rs"]],
    [.fn n!"append" [.var n!"Xs", .var n!"Ys", .var n!"Rs"]]⟩

/-- The clauses of `append/3` are those of the interpreter, whatever the program is. -/
theorem append_clauses (p : List Clause) : (inForce p).filter (·.head.fv = ⟨n!"append", 3⟩) = [appendNil, appendCons] := by
  rw [inForce, List.filter_append]
  have h1 : (p.filter fun c => !builtinFVs.contains c.head.fv).filter (·.head.fv = ⟨n!"append", 3⟩) = [] := by
    refine List.filter_eq_nil_iff.2 fun c hc he => ?_
    have h2 := (List.mem_filter.1 hc).2
    rw [of_decide_eq_true he] at h2
    revert h2; decide
  rw [h1, List.nil_append]
  rfl

theorem append_calls {p : List Clause} {args : List Node} (hl : args.length = 3) {f} (h : MayCall p [.fn n!"append" args] f) : f = ⟨n!"append", 3⟩ := by
  refine h.of (Q := fun f => f = ⟨n!"append", 3⟩) (fun a ha => ?_) fun c hc hf b hb => ?_
  · rw [List.mem_singleton] at ha
    subst ha
    simp [Node.fv, Node.name, Node.children, hl]
  · have : c ∈ (inForce p).filter (·.head.fv = ⟨n!"append", 3⟩) := List.mem_filter.2 ⟨hc, by simp [hf]⟩
    rw [append_clauses] at this
    simp only [List.mem_cons, List.not_mem_nil, or_false] at this
    rcases this with rfl | rfl
    · cases hb
    · simp only [appendCons, List.mem_singleton] at hb
      subst hb; rfl

theorem append_wellModed {p : List Clause} {args : List Node} (hl : args.length = 3) {M : Modes} (hb : M.BuiltinsOK) (h1 : M.ClauseOK appendNil)
    (h2 : M.ClauseOK appendCons) (hq : M.Chain [] [] [.fn n!"append" args]) : WellModed M p [.fn n!"append" args] := by
  refine ⟨hb, fun c hc hm => ?_, hq⟩
  have : c ∈ (inForce p).filter (·.head.fv = ⟨n!"append", 3⟩) := List.mem_filter.2 ⟨hc, by simp [append_calls hl hm]⟩
  rw [append_clauses] at this
  simp only [List.mem_cons, List.not_mem_nil, or_false] at this
  rcases this with rfl | rfl
  · exact h1
  · exact h2

/-- From the third argument to the first two. -/
def backward : Modes := ⟨fun f i => f == ⟨n!"append", 3⟩ && i == 2, fun f i => f == ⟨n!"append", 3⟩ && (i == 0 || i == 1)⟩

/-- From the first two arguments to the third. -/
def forward : Modes := ⟨fun f i => f == ⟨n!"append", 3⟩ && (i == 0 || i == 1), fun f i => f == ⟨n!"append", 3⟩ && i == 2⟩

theorem fold_listTo {D} (A : Alg D) (ts : List Tree) (u : Tree) : (listTo treeAlg ts u).fold A = listTo A (ts.map (Tree.fold A)) (u.fold A) := by
  induction ts with
  | nil => rfl
  | cons t ts ih =>
    show (Tree.fn n!"[" [t, listTo treeAlg ts u]).fold A = A.fn n!"[" [t.fold A, listTo A (ts.map (Tree.fold A)) (u.fold A)]
    rw [Tree.fold, Tree.folds, Tree.folds, Tree.folds, ih]

theorem fold_properList {D} (A : Alg D) (ts : List Tree) : (properList treeAlg ts).fold A = properList A (ts.map (Tree.fold A)) :=
  fold_listTo A ts _

theorem ground_fold {z : Node} (hg : z.vars = []) {t : Tree} {ρ0 : Name → Tree} (hz : z.eval treeAlg ρ0 = t) (ρ : Name → ITree) :
    z.eval itreeAlg ρ = t.fold itreeAlg := by
  rw [← hz, Node.fold_eval]
  exact Node.eval_congr _ _ fun v hv => by rw [hg] at hv; cases hv

/-- The values of all goals `append(d,Y,Z)` where the first `i` elements have been moved from `Z` to `X`. -/
def splitAt (x y : Name) (zs : List ITree) (i : Nat) : Insts := fun ρq gs =>
  ∃ d, ρq x = listTo itreeAlg (zs.take i) d ∧ gs = [⟨n!"append", [d, ρq y, properList itreeAlg (zs.drop i)]⟩]

theorem splitAt_query {x y : Name} {z : Node} {zs} (hz : ∀ ρ, z.eval itreeAlg ρ = properList itreeAlg zs) :
    Insts.query [.fn n!"append" [.var x, .var y, z]] = splitAt x y zs 0 := by
  funext ρq gs
  refine propext ⟨fun h => ⟨ρq x, rfl, ?_⟩, fun ⟨d, h1, h2⟩ => ?_⟩
  · rw [h]
    simp [Node.inst, Node.name, Node.children, Node.evals, Node.eval, hz]
  · rw [h2]
    have : ρq x = d := h1
    simp [Insts.query, Node.inst, Node.name, Node.children, Node.evals, Node.eval, hz, this]

theorem listTo_append {D} (A : Alg D) (es fs : List D) (d : D) : listTo A (es ++ fs) d = listTo A es (listTo A fs d) := by
  simp [listTo, List.foldr_append]

theorem splitAt_nil {x y : Name} {zs : List ITree} {i ρq gs} :
    (splitAt x y zs i).enter appendNil ρq gs ↔ ρq x = properList itreeAlg (zs.take i) ∧ ρq y = properList itreeAlg (zs.drop i) ∧ gs = [] := by
  constructor
  · rintro ⟨ρ, rest, ⟨d, h1, h2⟩, rfl⟩
    simp only [appendNil, Node.inst, Node.name, Node.children, Node.evals, Node.nil, Node.eval, List.cons.injEq, GAtom.mk.injEq, true_and, and_true] at h2
    obtain ⟨⟨rfl, h3, h4⟩, rfl⟩ := h2
    exact ⟨h1, by rw [← h3, h4], rfl⟩
  · rintro ⟨h1, h2, rfl⟩
    refine ⟨fun _ => ρq y, [], ⟨_, h1, ?_⟩, rfl⟩
    simp [appendNil, Node.inst, Node.name, Node.children, Node.evals, Node.nil, Node.eval, h2]

theorem splitAt_cons {x y : Name} {zs : List ITree} {i : Nat} (hi : i < zs.length) : (splitAt x y zs i).enter appendCons = splitAt x y zs (i + 1) := by
  have hdrop : zs.drop i = zs[i] :: zs.drop (i + 1) := List.drop_eq_getElem_cons hi
  have htake : zs.take (i + 1) = zs.take i ++ [zs[i]] := by rw [List.take_append_getElem hi]
  funext ρq gs
  refine propext ⟨?_, ?_⟩
  · rintro ⟨ρ, rest, ⟨d, h1, h2⟩, rfl⟩
    simp only [appendCons, Node.inst, Node.name, Node.children, Node.evals, Node.eval, List.cons.injEq, GAtom.mk.injEq, true_and, and_true] at h2
    obtain ⟨⟨rfl, h3, h4⟩, rfl⟩ := h2
    rw [hdrop] at h4
    have h5 := (itreeAlg_sharp.fn_inj h4).2
    simp only [List.cons.injEq, and_true] at h5
    refine ⟨ρ n!"Xs", ?_, ?_⟩
    · rw [htake, listTo_append, h1, h5.1]; rfl
    · simp only [appendCons, Node.inst, Node.name, Node.children, Node.evals, Node.eval, List.map_cons, List.map_nil, List.append_nil, h3, h5.2]; rfl
  · rintro ⟨d, h1, rfl⟩
    refine ⟨fun n => if n = n!"X" then zs[i] else if n = n!"Xs" then d else if n = n!"Ys" then ρq y else properList itreeAlg (zs.drop (i + 1)), [],
      ⟨itreeAlg.fn n!"[" [zs[i], d], ?_, ?_⟩, ?_⟩
    · rw [h1, htake, listTo_append]; rfl
    · rw [hdrop]; rfl
    · rfl

theorem splitAt_end {x y : Name} {zs : List ITree} : ((splitAt x y zs zs.length).enter appendCons).Empty := by
  rintro ρq gs ⟨ρ, rest, ⟨d, h1, h2⟩, rfl⟩
  simp only [appendCons, Node.inst, Node.name, Node.children, Node.evals, Node.eval, List.cons.injEq, GAtom.mk.injEq, true_and, and_true] at h2
  have h4 := h2.1.2.2
  rw [List.drop_length] at h4
  have h5 := (itreeAlg_sharp.fn_inj h4).2
  cases h5

theorem splitAt_ne {x y : Name} (hxy : x ≠ y) {zs : List ITree} {i : Nat} : ¬ ((splitAt x y zs i).enter appendNil).Empty := by
  intro h
  refine h (fun n => if n = x then properList itreeAlg (zs.take i) else properList itreeAlg (zs.drop i)) [] (splitAt_nil.2 ⟨if_pos rfl, ?_, rfl⟩)
  exact if_neg fun h => hxy h.symm

/-- What the search reports from the `i`-th split on. -/
def splitReps (x y : Name) (zs : List ITree) (i : Nat) : Nat → List (Option Rep)
  | 0 => [none, some (.answer ((splitAt x y zs i).enter appendNil)), none]
  | k + 1 => none :: some (.answer ((splitAt x y zs i).enter appendNil)) :: none :: splitReps x y zs (i + 1) k

theorem splitReps_run {x y : Name} (hxy : x ≠ y) (p : List Clause) {zs : List ITree} : ∀ {k i : Nat}, i + k = zs.length →
    SRun (inForce p) [.goals [.goal ⟨n!"append", 3⟩] (splitAt x y zs i)] (splitReps x y zs i k) [] := by
  have t1 : ∀ S, STurn (inForce p) (.goals [.goal ⟨n!"append", 3⟩] S) [.clause appendNil [] S, .clause appendCons [] S] none := by
    intro S
    have := STurn.call (P := inForce p) (f := ⟨n!"append", 3⟩) (ts := []) (S := S) (by decide)
    rwa [append_clauses] at this
  have t2 : ∀ i, STurn (inForce p) (.clause appendNil [] (splitAt x y zs i)) [] (some (.answer ((splitAt x y zs i).enter appendNil))) :=
    fun i => .answer (splitAt_ne hxy) (fun f hf => by cases hf)
  intro k
  induction k with
  | zero =>
    rintro i rfl
    exact .cons (t1 _) (.cons (t2 _) (.cons (.reject splitAt_end) .nil))
  | succ k ih =>
    intro i hi
    have hlt : i < zs.length := by omega
    have t3 : STurn (inForce p) (.clause appendCons [] (splitAt x y zs i)) [.goals [.goal ⟨n!"append", 3⟩] (splitAt x y zs (i + 1))] none := by
      rw [← splitAt_cons hlt]
      refine STurn.enter (c := appendCons) (ts := []) (fun hE => ?_) (fun hn => hn ⟨n!"append", 3⟩ (.head _))
      rw [splitAt_cons hlt] at hE
      refine splitAt_ne hxy (x := x) (y := y) (zs := zs) (i := i + 1) fun ρq gs h => ?_
      obtain ⟨_, _, h, _⟩ := h
      exact hE _ _ h
    exact .cons (t1 _) (.cons (t2 _) (.cons t3 (ih (by omega))))

theorem splitReps_reports {x y : Name} {zs : List ITree} : ∀ {k i : Nat},
    (splitReps x y zs i k).filterMap id = (List.range' i (k + 1)).map fun j => .answer ((splitAt x y zs j).enter appendNil)
  | 0, i => rfl
  | k + 1, i => by
    rw [List.range'_succ, List.map_cons, ← splitReps_reports (k := k)]; rfl

theorem splitReps_length {x y : Name} {zs : List ITree} : ∀ {k i : Nat}, (splitReps x y zs i k).length = 3 * (k + 1)
  | 0, i => rfl
  | k + 1, i => by simp only [splitReps, List.length_cons, splitReps_length (k := k)]; omega

theorem properList_proper : ∀ ts : List Tree, ProperList (properList treeAlg ts) ts
  | [] => .nil
  | _ :: ts => .cons (properList_proper ts)

/-- The text of a list. -/
theorem properList_text {ts : List Tree} {ss : List Name} (hl : ss.length = ts.length)
    (h : ∀ (i : Nat) t s, ts[i]? = some t → ss[i]? = some s → Text t s) : Text (properList treeAlg ts) (n!"[" ++ commas ss ++ n!"]") :=
  .list (properList_proper ts) hl h

theorem forall₂_left {α β} {R : α → β → Prop} {l : List α} {m : List β} (h : List.Forall₂ R l m) {i : Nat} {a} (ha : l[i]? = some a) :
    ∃ b, m[i]? = some b ∧ R a b := by
  induction h generalizing i with
  | nil => simp at ha
  | cons h _ ih =>
    cases i with
    | zero => simp only [List.getElem?_cons_zero, Option.some.injEq] at ha ⊢; subst ha; exact ⟨_, rfl, h⟩
    | succ i => exact ih ha

/-- The lines of an answer about two variables. -/
theorem ShowsInsts.two {st atoms fuel bs S} (h : ShowsInsts st atoms fuel bs S) {x y : Name} (hxy : x ≠ y)
    (hv : ∀ v, (∃ a ∈ atoms, v ∈ Node.varss a.children) ↔ v = x ∨ v = y) {s s' : Name} (hx : ∀ b ∈ bs, b.name = x → b.value = s)
    (hy : ∀ b ∈ bs, b.name = y → b.value = s') : bs.Perm [⟨x, s⟩, ⟨y, s'⟩] := by
  obtain ⟨pre, hp, L, _, P, hn, _⟩ := h
  have hname : ∀ b ∈ bs, b.name = x ∨ b.name = y := by
    intro b hb
    obtain ⟨a, ha, _⟩ := P.value b hb
    exact (hv _).1 ((hn _).1 (List.mem_map.2 ⟨_, ha, rfl⟩))
  have hex : ∀ v, v = x ∨ v = y → ∃ b ∈ bs, b.name = v := by
    intro v h
    obtain ⟨q, hq, rfl⟩ := List.mem_map.1 ((hn v).2 ((hv v).2 h))
    obtain ⟨b, hb, he⟩ := List.mem_map.1 (P.all q hq)
    exact ⟨b, hb, he⟩
  have hnd : bs.Nodup := by
    have := P.once
    exact (List.pairwise_map.1 this).imp fun h e => h (by rw [e])
  refine (List.perm_ext_iff_of_nodup hnd (by simp [hxy])).2 fun b => ?_
  simp only [List.mem_cons, List.not_mem_nil, or_false]
  constructor
  · intro hb
    rcases hname b hb with h | h
    · exact .inl (by cases b; simp only at h; subst h; rw [← hx _ hb rfl])
    · exact .inr (by cases b; simp only at h; subst h; rw [← hy _ hb rfl])
  · rintro (rfl | rfl)
    · obtain ⟨b, hb, h⟩ := hex x (.inl rfl)
      have := hx b hb h
      cases b; simp only at h this; subst h this; exact hb
    · obtain ⟨b, hb, h⟩ := hex y (.inr rfl)
      have := hy b hb h
      cases b; simp only at h this; subst h this; exact hb

/-- **C59**: `append(X,Y,z)` enumerates the splits of the list `z`, in any program.  If `z` is a ground list whose `n` elements have the texts `ss`, then with
enough time `n + 1` calls of `get_answer` return one answer each, the `i`-th (from 0) with the first `i` elements for `X` and the others for `Y`, and the next one says that there are
no more.  Whatever the clock does, the calls return an initial part of this, and all of it if one says that there are no more. -/
theorem C59_splits {o : Org} {p x y z} {ts : List Tree} {ss : List Name} (h : Asked o p [.fn n!"append" [.var x, .var y, z]]) (hpr : Printable o.st) (hxy : x ≠ y) (hg : z.vars = [])
    {ρ0 : Name → Tree} (hz : z.eval treeAlg ρ0 = properList treeAlg ts) (hl : ss.length = ts.length)
    (htx : ∀ (i : Nat) t s, ts[i]? = some t → ss[i]? = some s → Text t s) :
    ∃ (fuel0 : Nat) (oe : Org) (ans : List Res), ans.length = ts.length + 1 ∧
      (∀ (i : Nat) r, ans[i]? = some r → ∃ bs, r = .answer bs ∧
        bs.Perm [⟨x, n!"[" ++ commas (ss.take i) ++ n!"]"⟩, ⟨y, n!"[" ++ commas (ss.drop i) ++ n!"]"⟩]) ∧
      ∀ fuel, fuel0 ≤ fuel →
        (∀ m, 3 * (ts.length + 1) ≤ m → o.session fuel (List.replicate (ts.length + 2) (List.replicate m false)) = .ok (oe, ans ++ [.noAnswer])) ∧
        ∀ clocks, ∃ o' rs rest, o.session fuel clocks = .ok (o', rs) ∧ ans = rs.filter Res.isReport ++ rest ∧ (.noAnswer ∈ rs → rest = []) := by
  have hvars : Node.varss [Node.var x, .var y, z] = [x, y] := by simp [Node.varss, Node.vars, hg]
  have hwm : WellModed backward p [.fn n!"append" [.var x, .var y, z]] := by
    refine append_wellModed rfl ⟨fun _ => rfl, fun _ => rfl, fun _ _ => rfl⟩ (by decide) (by decide) ⟨fun v hv => ?_, fun v hv => by cases hv⟩
    have : backward.inVars (.fn n!"append" [.var x, .var y, z]) = z.vars ++ [] := rfl
    rw [this, hg] at hv
    cases hv
  have hfold : ∀ ρ, z.eval itreeAlg ρ = properList itreeAlg (ts.map (Tree.fold itreeAlg)) := fun ρ => by
    rw [ground_fold hg hz ρ, fold_properList]
  have hrun := splitReps_run hxy p (zs := ts.map (Tree.fold itreeAlg)) (k := ts.length) (i := 0) (by simp)
  rw [← splitAt_query hfold] at hrun
  obtain ⟨fuel0, oe, ans, h1, h2⟩ := C58_exact h hpr hwm (fun hm => absurd (append_calls rfl hm) (by decide)) hrun
  rw [splitReps_reports] at h1
  have hlen : ans.length = ts.length + 1 := by rw [h1.length_eq]; simp
  rw [hlen, splitReps_length] at h2
  refine ⟨fuel0, oe, ans, hlen, fun i r hr => ?_, h2⟩
  have hi : i < ts.length + 1 := by
    have := (List.getElem?_eq_some_iff.1 hr).1
    omega
  obtain ⟨rep, hrep, hm⟩ := forall₂_left h1 hr
  have : rep = .answer ((splitAt x y (ts.map (Tree.fold itreeAlg)) i).enter appendNil) := by
    rw [List.getElem?_map, List.getElem?_range' (by omega)] at hrep
    simpa using hrep.symm
  subst this
  cases hm with
  | @answer bs _ hS =>
    refine ⟨bs, rfl, hS.two hxy (fun v => ?_) (fun b hb hn => ?_) fun b hb hn => ?_⟩
    · simp only [exists_eq_left, Node.children, hvars, List.mem_cons, List.not_mem_nil, or_false]
    · refine hS.text hpr h.stOK (fun ρ gs hS => ?_) (properList_text (ts := ts.take i) (by simp [hl]) fun j t s h3 h4 => ?_) hb hn
      · rw [(splitAt_nil.1 hS).1, fold_properList, List.map_take]
      · rw [List.getElem?_take] at h3 h4
        split at h3
        · rename_i hj
          rw [if_pos hj] at h4
          exact htx j t s h3 h4
        · cases h3
    · refine hS.text hpr h.stOK (fun ρ gs hS => ?_) (properList_text (ts := ts.drop i) (by simp [hl]) fun j t s h3 h4 => ?_) hb hn
      · rw [(splitAt_nil.1 hS).2.1, fold_properList, List.map_drop]
      · rw [List.getElem?_drop] at h3 h4
        exact htx _ t s h3 h4

/-! ## Joining -/

/-- The values of all goals `append(X,Y,d)` where the first `i` elements have been moved from `X` to `Z`. -/
def joinAt (z : Name) (xs : List ITree) (u : ITree) (i : Nat) : Insts := fun ρq gs =>
  ∃ d, ρq z = listTo itreeAlg (xs.take i) d ∧ gs = [⟨n!"append", [properList itreeAlg (xs.drop i), u, d]⟩]

theorem joinAt_query {z : Name} {x y : Node} {xs u} (hx : ∀ ρ, x.eval itreeAlg ρ = properList itreeAlg xs) (hy : ∀ ρ, y.eval itreeAlg ρ = u) :
    Insts.query [.fn n!"append" [x, y, .var z]] = joinAt z xs u 0 := by
  funext ρq gs
  refine propext ⟨fun h => ⟨ρq z, rfl, ?_⟩, fun ⟨d, h1, h2⟩ => ?_⟩
  · rw [h]
    simp [Node.inst, Node.name, Node.children, Node.evals, Node.eval, hx, hy]
  · rw [h2]
    have : ρq z = d := h1
    simp [Insts.query, Node.inst, Node.name, Node.children, Node.evals, Node.eval, hx, hy, this]

theorem joinAt_nil {z : Name} {xs : List ITree} {u : ITree} {i : Nat} (hi : i < xs.length) : ((joinAt z xs u i).enter appendNil).Empty := by
  rintro ρq gs ⟨ρ, rest, ⟨d, h1, h2⟩, rfl⟩
  simp only [appendNil, Node.inst, Node.name, Node.children, Node.evals, Node.nil, Node.eval, List.cons.injEq, GAtom.mk.injEq, true_and, and_true] at h2
  have h4 := h2.1.1
  rw [List.drop_eq_getElem_cons hi] at h4
  cases (itreeAlg_sharp.fn_inj h4).2

theorem joinAt_last {z : Name} {xs : List ITree} {u : ITree} {ρq gs} :
    (joinAt z xs u xs.length).enter appendNil ρq gs ↔ ρq z = listTo itreeAlg xs u ∧ gs = [] := by
  constructor
  · rintro ⟨ρ, rest, ⟨d, h1, h2⟩, rfl⟩
    simp only [appendNil, Node.inst, Node.name, Node.children, Node.evals, Node.nil, Node.eval, List.cons.injEq, GAtom.mk.injEq, true_and, and_true] at h2
    obtain ⟨⟨_, h3, h4⟩, rfl⟩ := h2
    rw [List.take_length] at h1
    exact ⟨by rw [h1, ← h4, h3], rfl⟩
  · rintro ⟨h1, rfl⟩
    refine ⟨fun _ => u, [], ⟨u, by rw [List.take_length]; exact h1, ?_⟩, rfl⟩
    rw [List.drop_length]
    rfl

theorem joinAt_cons {z : Name} {xs : List ITree} {u : ITree} {i : Nat} (hi : i < xs.length) : (joinAt z xs u i).enter appendCons = joinAt z xs u (i + 1) := by
  have hdrop : xs.drop i = xs[i] :: xs.drop (i + 1) := List.drop_eq_getElem_cons hi
  have htake : xs.take (i + 1) = xs.take i ++ [xs[i]] := by rw [List.take_append_getElem hi]
  funext ρq gs
  refine propext ⟨?_, ?_⟩
  · rintro ⟨ρ, rest, ⟨d, h1, h2⟩, rfl⟩
    simp only [appendCons, Node.inst, Node.name, Node.children, Node.evals, Node.eval, List.cons.injEq, GAtom.mk.injEq, true_and, and_true] at h2
    obtain ⟨⟨h4, h3, rfl⟩, rfl⟩ := h2
    rw [hdrop] at h4
    have h5 := (itreeAlg_sharp.fn_inj h4).2
    simp only [List.cons.injEq, and_true] at h5
    refine ⟨ρ n!"Rs", ?_, ?_⟩
    · rw [htake, listTo_append, h1, h5.1]; rfl
    · simp only [appendCons, Node.inst, Node.name, Node.children, Node.evals, Node.eval, List.map_cons, List.map_nil, List.append_nil, h3, h5.2]; rfl
  · rintro ⟨d, h1, rfl⟩
    refine ⟨fun n => if n = n!"X" then xs[i] else if n = n!"Xs" then properList itreeAlg (xs.drop (i + 1)) else if n = n!"Ys" then u else d, [],
      ⟨itreeAlg.fn n!"[" [xs[i], d], ?_, ?_⟩, ?_⟩
    · rw [h1, htake, listTo_append]; rfl
    · rw [hdrop]; rfl
    · rfl

theorem joinAt_end {z : Name} {xs : List ITree} {u : ITree} : ((joinAt z xs u xs.length).enter appendCons).Empty := by
  rintro ρq gs ⟨ρ, rest, ⟨d, h1, h2⟩, rfl⟩
  simp only [appendCons, Node.inst, Node.name, Node.children, Node.evals, Node.eval, List.cons.injEq, GAtom.mk.injEq, true_and, and_true] at h2
  have h4 := h2.1.1
  rw [List.drop_length] at h4
  cases (itreeAlg_sharp.fn_inj h4).2

/-- What the search reports when `k` elements are left. -/
def joinReps (z : Name) (xs : List ITree) (u : ITree) : Nat → List (Option Rep)
  | 0 => [none, some (.answer ((joinAt z xs u xs.length).enter appendNil)), none]
  | k + 1 => none :: none :: none :: joinReps z xs u k

theorem joinReps_run {z : Name} (p : List Clause) {xs : List ITree} {u : ITree} : ∀ {k i : Nat}, i + k = xs.length →
    SRun (inForce p) [.goals [.goal ⟨n!"append", 3⟩] (joinAt z xs u i)] (joinReps z xs u k) [] := by
  have t1 : ∀ S, STurn (inForce p) (.goals [.goal ⟨n!"append", 3⟩] S) [.clause appendNil [] S, .clause appendCons [] S] none := by
    intro S
    have := STurn.call (P := inForce p) (f := ⟨n!"append", 3⟩) (ts := []) (S := S) (by decide)
    rwa [append_clauses] at this
  intro k
  induction k with
  | zero =>
    rintro i rfl
    refine .cons (t1 _) (.cons (.answer (fun hE => ?_) (fun f hf => by cases hf)) (.cons (.reject joinAt_end) .nil))
    exact hE (fun _ => listTo itreeAlg xs u) [] (joinAt_last.2 ⟨rfl, rfl⟩)
  | succ k ih =>
    intro i hi
    have hlt : i < xs.length := by omega
    have t3 : STurn (inForce p) (.clause appendCons [] (joinAt z xs u i)) [.goals [.goal ⟨n!"append", 3⟩] (joinAt z xs u (i + 1))] none := by
      rw [← joinAt_cons hlt]
      refine STurn.enter (c := appendCons) (ts := []) (fun hE => ?_) (fun hn => hn ⟨n!"append", 3⟩ (.head _))
      rw [joinAt_cons hlt] at hE
      exact hE (fun _ => listTo itreeAlg (xs.take (i + 1)) u) _ ⟨u, rfl, rfl⟩
    exact .cons (t1 _) (.cons (.reject (joinAt_nil hlt)) (.cons t3 (ih (by omega))))

theorem joinReps_reports {z : Name} {xs : List ITree} {u : ITree} : ∀ {k : Nat},
    (joinReps z xs u k).filterMap id = [.answer ((joinAt z xs u xs.length).enter appendNil)]
  | 0 => rfl
  | k + 1 => joinReps_reports (k := k)

theorem joinReps_length {z : Name} {xs : List ITree} {u : ITree} : ∀ {k : Nat}, (joinReps z xs u k).length = 3 * (k + 1)
  | 0 => rfl
  | k + 1 => by simp only [joinReps, List.length_cons, joinReps_length (k := k)]; omega

/-- The line of an answer about one variable. -/
theorem ShowsInsts.one {st atoms fuel bs S} (h : ShowsInsts st atoms fuel bs S) {x : Name}
    (hv : ∀ v, (∃ a ∈ atoms, v ∈ Node.varss a.children) ↔ v = x) {s : Name} (hx : ∀ b ∈ bs, b.name = x → b.value = s) : bs = [⟨x, s⟩] := by
  obtain ⟨pre, hp, L, _, P, hn, _⟩ := h
  have hname : ∀ b ∈ bs, b = ⟨x, s⟩ := by
    intro b hb
    obtain ⟨a, ha, _⟩ := P.value b hb
    have h := (hv _).1 ((hn _).1 (List.mem_map.2 ⟨_, ha, rfl⟩))
    have := hx b hb h
    cases b; simp only at h this; subst h this; rfl
  obtain ⟨q, hq, rfl⟩ := List.mem_map.1 ((hn x).2 ((hv x).2 rfl))
  obtain ⟨b, hb, he⟩ := List.mem_map.1 (P.all q hq)
  have hnd : bs.Nodup := by
    have := P.once
    exact (List.pairwise_map.1 this).imp fun h e => h (by rw [e])
  match bs, hb, hname, hnd with
  | [c], _, hname, _ => rw [hname c (by simp)]
  | c :: c' :: _, _, hname, hnd =>
    exfalso
    rw [hname c (by simp), hname c' (by simp)] at hnd
    simp at hnd

/-- **C59**: `append(x,y,Z)` joins `x` and `y`, in any program.  If `x` is a ground list and `y` a ground term, and if the list `x` with `y` for its
end has the text `s`, then with enough time the first call of `get_answer` returns the answer `Z = s`, and the second says that there are no more.  Whatever the
clock does, no other answer and no error of the program is returned. -/
theorem C59_join {o : Org} {p x y z} {ts : List Tree} {u : Tree} {s : Name} (h : Asked o p [.fn n!"append" [x, y, .var z]]) (hpr : Printable o.st)
    (hgx : x.vars = []) (hgy : y.vars = []) {ρ0 : Name → Tree} (hx : x.eval treeAlg ρ0 = properList treeAlg ts) (hy : y.eval treeAlg ρ0 = u)
    (htx : Text (listTo treeAlg ts u) s) :
    ∃ (fuel0 : Nat) (oe : Org), ∀ fuel, fuel0 ≤ fuel →
      (∀ m, 3 * (ts.length + 1) ≤ m → o.session fuel [List.replicate m false, List.replicate m false] = .ok (oe, [.answer [⟨z, s⟩], .noAnswer])) ∧
      ∀ clocks, ∃ o' rs rest, o.session fuel clocks = .ok (o', rs) ∧ [.answer [⟨z, s⟩]] = rs.filter Res.isReport ++ rest ∧ (.noAnswer ∈ rs → rest = []) := by
  have hwm : WellModed forward p [.fn n!"append" [x, y, .var z]] := by
    refine append_wellModed rfl ⟨fun _ => rfl, fun _ => rfl, fun _ _ => rfl⟩ (by decide) (by decide) ⟨fun v hv => ?_, fun v hv => by cases hv⟩
    have : forward.inVars (.fn n!"append" [x, y, .var z]) = x.vars ++ (y.vars ++ []) := rfl
    rw [this, hgx, hgy] at hv
    cases hv
  have hrun := joinReps_run p (z := z) (xs := ts.map (Tree.fold itreeAlg)) (u := u.fold itreeAlg) (k := ts.length) (i := 0) (by simp)
  rw [← joinAt_query (x := x) (y := y) (fun ρ => by rw [ground_fold hgx hx ρ, fold_properList]) (fun ρ => ground_fold hgy hy ρ)] at hrun
  obtain ⟨fuel0, oe, ans, h1, h2⟩ := C58_exact h hpr hwm (fun hm => absurd (append_calls rfl hm) (by decide)) hrun
  rw [joinReps_reports] at h1
  cases h1 with
  | cons h3 h4 =>
    cases h4
    cases h3 with
    | @answer bs _ hS =>
      have hvars : Node.varss [x, y, Node.var z] = [z] := by simp [Node.varss, Node.vars, hgx, hgy]
      obtain rfl := hS.one (x := z) (s := s) (fun v => by simp only [List.mem_singleton, exists_eq_left, Node.children, hvars]) fun b hb hn => by
        refine hS.text hpr h.stOK (fun ρ gs hS => ?_) htx hb hn
        rw [(joinAt_last.1 hS).1, fold_listTo]
      rw [joinReps_length] at h2
      exact ⟨fuel0, oe, h2⟩

/-- **C18, all splits are found** if the third argument is ground, or the first two are: the case that a turn of the machine does not end, which
`C18_all_splits_partial` leaves open, does not occur. -/
theorem C18_all_splits_ground {o : Org} {p x y z} (h : Asked o p [.fn n!"append" [x, y, z]]) (hb : OnlyClauses p [.fn n!"append" [x, y, z]])
    (hpr : Printable o.st) (hg : z.vars = [] ∨ x.vars = [] ∧ y.vars = []) {ρ : Name → Tree} {es : List Tree}
    (hx : x.eval treeAlg ρ = properList treeAlg es) (hz : z.eval treeAlg ρ = listTo treeAlg es (y.eval treeAlg ρ)) :
    ∃ k fuel0 bs, HasInstance o.st [.fn n!"append" [x, y, z]] fuel0 bs ρ ∧ ∀ fuel, fuel0 ≤ fuel →
      (∀ clocks o' rs, o.session fuel clocks = .ok (o', rs) → k ≤ (rs.filter Org.Res.isReport).length ∨ rs.getLast? = some .noAnswer →
        Org.Res.answer bs ∈ rs) ∧
      ∃ j o' rs, j ≤ k ∧ o.session fuel (List.replicate j (List.replicate k false)) = .ok (o', rs) ∧ rs.getLast? = some (.answer bs) := by
  have hp : ∀ a ∈ [Node.fn n!"append" [x, y, z]], Proves treeAlg (inForce p) (a.inst treeAlg ρ) := by
    intro a ha
    simp only [List.mem_singleton] at ha
    subst ha
    exact (C18_append_is_concatenation treeAlg p _ _ _).2 ⟨es, hx, hz⟩
  rcases hg with hg | ⟨hgx, hgy⟩
  · refine C57_complete h hpr (M := backward) (append_wellModed rfl ⟨fun _ => rfl, fun _ => rfl, fun _ _ => rfl⟩ (by decide) (by decide)
      ⟨fun v hv => ?_, fun v hv => by cases hv⟩) hb hp
    rw [show backward.inVars (.fn n!"append" [x, y, z]) = z.vars ++ [] from rfl, hg] at hv
    cases hv
  · refine C57_complete h hpr (M := forward) (append_wellModed rfl ⟨fun _ => rfl, fun _ => rfl, fun _ _ => rfl⟩ (by decide) (by decide)
      ⟨fun v hv => ?_, fun v hv => by cases hv⟩) hb hp
    rw [show forward.inVars (.fn n!"append" [x, y, z]) = x.vars ++ (y.vars ++ []) from rfl, hgx, hgy] at hv
    cases hv

/-! ## Concrete cases -/

namespace SplitsExamples
open SoundExamples AppendExamples

/-- `append([a],[b],Z)` -/
def join : List Node := [.fn n!"append" [.list [.cons n!"a"], .list [.cons n!"b"], .var n!"Z"]]

/-- The hypotheses are met. -/
example : Asked (demo [] splits) [] splits ∧ Printable (demo [] splits).st ∧ (Node.list [.cons n!"a", .cons n!"b"]).vars = [] ∧
    (∀ ρ, (Node.list [.cons n!"a", .cons n!"b"]).eval treeAlg ρ = properList treeAlg [.cons n!"a", .cons n!"b"]) ∧
    (∀ (i : Nat) t s, [Tree.cons n!"a", .cons n!"b"][i]? = some t → [n!"a", n!"b"][i]? = some s → Text t s) := by
  refine ⟨asked_demo (by decide +kernel) (by decide +kernel) (safe_of_b (by decide +kernel)) (by decide) (by simp [splits]) (by decide +kernel),
    ⟨by decide +kernel, by decide +kernel, by decide +kernel, by decide +kernel⟩, by decide, fun _ => rfl, fun i t s h1 h2 => ?_⟩
  match i with
  | 0 => cases h1; cases h2; exact .cons
  | 1 => cases h1; cases h2; exact .cons
  | _ + 2 => cases h1

example : Asked (demo [] join) [] join ∧ Printable (demo [] join).st ∧ (Node.list [.cons n!"a"]).vars = [] ∧ (Node.list [.cons n!"b"]).vars = [] ∧
    (∀ ρ, (Node.list [.cons n!"a"]).eval treeAlg ρ = properList treeAlg [.cons n!"a"]) ∧
    Text (listTo treeAlg [.cons n!"a"] ((Node.list [.cons n!"b"]).eval treeAlg fun _ => .int 0)) n!"[a,b]" ∧
    ((demo [] join).session 20 [List.replicate 6 false, List.replicate 6 false]).toOption.map (·.2) = some [.answer [⟨n!"Z", n!"[a,b]"⟩], .noAnswer] := by
  refine ⟨asked_demo (by decide +kernel) (by decide +kernel) (safe_of_b (by decide +kernel)) (by decide) (by simp [join]) (by decide +kernel),
    ⟨by decide +kernel, by decide +kernel, by decide +kernel, by decide +kernel⟩, by decide, by decide, fun _ => rfl, ?_, by decide +kernel⟩
  refine properList_text (ts := [.cons n!"a", .cons n!"b"]) (ss := [n!"a", n!"b"]) rfl fun i t s h1 h2 => ?_
  match i with
  | 0 => cases h1; cases h2; exact .cons
  | 1 => cases h1; cases h2; exact .cons
  | _ + 2 => cases h1

end SplitsExamples
end PBfs
