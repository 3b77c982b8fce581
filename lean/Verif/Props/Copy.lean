import Verif.Model.Copy
import Verif.Proof.Tree2
import Verif.Props.Tree
/-! # The copies of the unification tree -/
namespace PBfs
open Org

/-! ## What the claims are about -/

mutual
/-- For every node of a tree, how many nodes are above it; `d` for the topmost one. -/
def UTree.depths (d : Nat) : UTree → List Nat
  | .node _ ks => d :: UTree.depthss (d + 1) ks
def UTree.depthss (d : Nat) : List UTree → List Nat
  | [] => []
  | t :: ts => UTree.depths d t ++ UTree.depthss d ts
end

/-! ## Trees that are equal to their copies -/

mutual
def GoalOK (o : Org) : UTree → Prop
  | .node i ks => i.goal = true ∧ i.bindings = [] ∧ i.firstFact = 0 ∧ i.final = none ∧ ClausesOK o ks
def ClauseOK (o : Org) : UTree → Prop
  | .node i ks => i.goal = false ∧ i.title = [] ∧ o.copyFinal i ks = .ok i.final ∧ NextOK o ks
def ClausesOK (o : Org) : List UTree → Prop
  | [] => True
  | t :: ts => ClauseOK o t ∧ ClausesOK o ts
def NextOK (o : Org) : List UTree → Prop
  | [] => True
  | t :: ts => GoalOK o t ∧ ts = []
end

mutual
theorem copyGoal_same {o : Org} : ∀ {t : UTree}, GoalOK o t → o.copyGoal t = .ok (t, t.nodes.length)
  | .node i ks, h => by
    simp only [GoalOK] at h
    obtain ⟨h1, h2, h3, h4, h5⟩ := h
    cases i
    simp only at h1 h2 h3 h4
    subst h1 h2 h3 h4
    simp [copyGoal, copyClauses_same h5, UTree.nodes, ok_bind, pure, Except.pure]
theorem copyClause_same {o : Org} : ∀ {t : UTree}, ClauseOK o t → o.copyClause t = .ok (t, t.nodes.length)
  | .node i ks, h => by
    simp only [ClauseOK] at h
    obtain ⟨h1, h2, h3, h4⟩ := h
    cases i
    simp only at h1 h2
    subst h1 h2
    simp [copyClause, copyNext_same h4, h3, UTree.nodes, ok_bind, pure, Except.pure]
theorem copyClauses_same {o : Org} : ∀ {ts : List UTree}, ClausesOK o ts → o.copyClauses ts = .ok (ts, (UTree.nodess ts).length)
  | [], _ => rfl
  | t :: ts, h => by
    simp only [ClausesOK] at h
    simp [copyClauses, copyClause_same h.1, copyClauses_same h.2, UTree.nodess, ok_bind, pure, Except.pure]
theorem copyNext_same {o : Org} : ∀ {ts : List UTree}, NextOK o ts → o.copyNext ts = .ok (ts, (UTree.nodess ts).length)
  | [], _ => rfl
  | t :: ts, h => by
    simp only [NextOK] at h
    obtain ⟨h, rfl⟩ := h
    simp [copyNext, copyGoal_same h, UTree.nodess, ok_bind, pure, Except.pure]
end

/-! ## The sizes of all the trees -/

mutual
theorem UTree.depths_length : ∀ (t : UTree) (d : Nat), (t.depths d).length = t.nodes.length
  | .node i ks, d => by simp only [depths, nodes, List.length_cons, UTree.depthss_length ks]
theorem UTree.depthss_length : ∀ (ts : List UTree) (d : Nat), (depthss d ts).length = (nodess ts).length
  | [], d => rfl
  | t :: ts, d => by simp only [depthss, nodess, List.length_append, UTree.depths_length t, UTree.depthss_length ts]
end

mutual
/-- The sum of the sizes of a tree and all the trees in it. -/
def UTree.sizes : UTree → Nat
  | .node i ks => (UTree.node i ks).nodes.length + UTree.sizess ks
def UTree.sizess : List UTree → Nat
  | [] => 0
  | t :: ts => UTree.sizes t + UTree.sizess ts
end

mutual
theorem UTree.depths_sum : ∀ (t : UTree) (d : Nat), (t.depths d).sum + t.nodes.length = t.sizes + d * t.nodes.length
  | .node i ks, d => by
    have := UTree.depthss_sum ks (d + 1)
    simp only [depths, sizes, nodes, List.sum_cons, List.length_cons, Nat.mul_add, Nat.add_mul] at this ⊢
    omega
theorem UTree.depthss_sum : ∀ (ts : List UTree) (d : Nat), (depthss d ts).sum + (nodess ts).length = sizess ts + d * (nodess ts).length
  | [], d => by simp [depthss, sizess, nodess]
  | t :: ts, d => by
    have h1 := UTree.depths_sum t d
    have h2 := UTree.depthss_sum ts d
    simp only [depthss, sizess, nodess, List.sum_append, List.length_append, Nat.mul_add] at *
    omega
end

/-! ## Building -/

theorem builtAll_same {o : Org} {f : Nat → Nat → R (UTree × Nat)} {g : Nat → Nat → R (UTree × Nat × Nat)}
    (hfg : ∀ k c, g k c = (f k c).map fun x => (x.1, x.2, UTree.sizess x.1.kids))
    (hok : ∀ k c t c', f k c = .ok (t, c') → ClauseOK o t) :
    ∀ ks c, o.builtAll g ks c = (treesOf f ks c).map fun x => (x.1, x.2, UTree.sizess x.1)
  | [], c => rfl
  | k :: ks, c => by
    simp only [builtAll, treesOf, hfg]
    cases h : f k c with
    | error x => rfl
    | ok r =>
      obtain ⟨t, c1⟩ := r
      have ih := builtAll_same hfg hok ks c1
      simp only [Except.map, ok_bind, copyClause_same (hok _ _ _ _ h), ih]
      cases treesOf f ks c1 with
      | error x => rfl
      | ok r =>
        obtain ⟨ts, c2⟩ := r
        cases t
        simp only [ok_bind, pure, Except.pure, UTree.sizess, UTree.sizes, UTree.kids]
        congr 3
        omega

theorem treesOf_ok {o : Org} {f : Nat → Nat → R (UTree × Nat)} (hok : ∀ k c t c', f k c = .ok (t, c') → ClauseOK o t) :
    ∀ {ks c ts c'}, treesOf f ks c = .ok (ts, c') → ClausesOK o ts
  | [], c, ts, c', h => by
    simp only [treesOf, pure_ok, Prod.mk.injEq] at h
    obtain ⟨rfl, _⟩ := h
    exact trivial
  | k :: ks, c, ts, c', h => by
    simp only [treesOf, bind_ok, pure_ok, Prod.mk.injEq] at h
    obtain ⟨⟨t, c1⟩, h1, ⟨ts1, c2⟩, h2, rfl, rfl⟩ := h
    exact ⟨hok _ _ _ _ h1, treesOf_ok hok h2⟩

theorem clauseTree_ok {fuel : Nat} {o : Org} {f : Nat → Nat → R (UTree × Nat)} (hok : ∀ k c t c', f k c = .ok (t, c') → GoalOK o t)
    {k c t c'} (h : o.clauseTree fuel f k c = .ok (t, c')) : ClauseOK o t := by
  unfold clauseTree at h
  simp only [bind_ok] at h
  obtain ⟨e, he, h⟩ := h
  split at h
  · rename_i hs
    simp only [bind_ok, pure_ok, Prod.mk.injEq] at h
    obtain ⟨bs, _, rfl, rfl⟩ := h
    simp [ClauseOK, NextOK, copyFinal, he, ok_bind, hs, pure, Except.pure]
  · simp only [bind_ok, pure_ok, Prod.mk.injEq] at h
    obtain ⟨g, _, ⟨t1, c1⟩, h1, rfl, rfl⟩ := h
    simp [ClauseOK, NextOK, copyFinal, hok _ _ _ _ h1, pure, Except.pure]
  · rename_i hs _
    simp only [pure_ok, Prod.mk.injEq] at h
    obtain ⟨rfl, rfl⟩ := h
    have hs : e.state ≠ .success := hs
    simp [ClauseOK, NextOK, copyFinal, he, ok_bind, hs, pure, Except.pure]

theorem goalTree_ok {fuel : Nat} {o : Org} : ∀ n k c t c', o.goalTree fuel n k c = .ok (t, c') → GoalOK o t := by
  intro n
  induction n with
  | zero => intro k c t c' h; simp [goalTree] at h
  | succ n ih =>
    intro k c t c' h
    simp only [goalTree, bind_ok, pure_ok, Prod.mk.injEq] at h
    obtain ⟨e, he, ⟨ts, c1⟩, h1, rfl, rfl⟩ := h
    have := treesOf_ok (o := o) (fun k c t c' h => clauseTree_ok ih h) h1
    simp [GoalOK, this]

theorem buildGoal_same {fuel : Nat} {o : Org} : ∀ n k c,
    o.buildGoal fuel n k c = (o.goalTree fuel n k c).map fun x => (x.1, x.2, UTree.sizess x.1.kids) := by
  intro n
  induction n with
  | zero => intro k c; rfl
  | succ n ih =>
    intro k c
    simp only [buildGoal, goalTree]
    cases o.exec k with
    | error x => rfl
    | ok e =>
      have hall := builtAll_same (o := o) (f := o.clauseTree fuel (o.goalTree fuel n)) (g := o.buildClause fuel (o.buildGoal fuel n))
        (by
          intro k c
          simp only [buildClause, clauseTree]
          cases o.exec k with
          | error x => rfl
          | ok e =>
            simp only [ok_bind]
            cases hs : e.state with
            | success =>
              simp only
              cases o.answer fuel k with
              | error x => rfl
              | ok bs => simp [ok_bind, Except.map, pure, Except.pure, UTree.kids, UTree.sizess]
            | archived =>
              simp only
              cases orFault e.children.getLast? with
              | error x => rfl
              | ok g =>
                simp only [ok_bind, ih]
                cases hg : o.goalTree fuel n g (c + 1) with
                | error x => rfl
                | ok r =>
                  obtain ⟨t, c'⟩ := r
                  simp only [Except.map, ok_bind, copyGoal_same (goalTree_ok _ _ _ _ _ hg), pure, Except.pure, UTree.kids, UTree.sizess]
                  cases t
                  simp only [UTree.sizes]
                  congr 3
                  omega
            | _ => simp [Except.map, pure, Except.pure, UTree.kids, UTree.sizess])
        (fun k c t c' h => clauseTree_ok (goalTree_ok n) h)
      simp only [ok_bind, hall]
      cases treesOf (o.clauseTree fuel (o.goalTree fuel n)) e.children (c + 1) with
      | error x => rfl
      | ok r => simp [ok_bind, Except.map, pure, Except.pure, UTree.kids]

/-! ## Filling in -/

theorem copyFinal_nil {o : Org} {i j : UInfo} {ks ks' : List UTree} (he : i.exec = j.exec) (hf : i.final = j.final)
    (hk : ks = [] ↔ ks' = []) : o.copyFinal i ks = o.copyFinal j ks' := by
  cases ks <;> cases ks' <;> simp_all [copyFinal]

mutual
theorem resolveGoal_ok {fuel : Nat} {o : Org} : ∀ {t t' : UTree}, GoalOK o t → o.resolveGoal fuel t = .ok t' → GoalOK o t'
  | .node i ks, t', hg, h => by
    simp only [GoalOK] at hg
    obtain ⟨h1, h2, h3, h4, h5⟩ := hg
    simp only [resolveGoal, bind_ok] at h
    obtain ⟨e, _, n, _, h⟩ := h
    cases n with
    | none => simp only [pure_ok] at h; subst h; simp [GoalOK, h1, h2, h3, h4, h5]
    | some n =>
      simp only [bind_ok] at h
      obtain ⟨s, _, h⟩ := h
      split at h
      · simp only [pure_ok] at h; subst h; simp [GoalOK, h1, h2, h3, h4, h5]
      · simp only [bind_ok, pure_ok] at h
        obtain ⟨ks', h6, rfl⟩ := h
        simp [GoalOK, h1, h2, h3, h4, resolveClauses_ok h5 h6]
theorem resolveClauses_ok {fuel : Nat} {o : Org} {n : RNode} : ∀ {ts ts' : List UTree}, ClausesOK o ts →
    o.resolveClauses fuel n ts = .ok ts' → ClausesOK o ts'
  | [], ts', _, h => by simp only [resolveClauses, pure_ok] at h; subst h; exact trivial
  | .node i ks :: ts, ts', hg, h => by
    simp only [ClausesOK] at hg
    simp only [resolveClauses, bind_ok, pure_ok] at h
    obtain ⟨e, _, t, h1, ts1, h2, rfl⟩ := h
    refine ⟨?_, resolveClauses_ok hg.2 h2⟩
    have hg := hg.1
    simp only [ClauseOK] at hg
    obtain ⟨g1, g2, g3, g4⟩ := hg
    split at h1
    · simp only [pure_ok] at h1; subst h1; exact ⟨g1, g2, g3, g4⟩
    · simp only [bind_ok, pure_ok] at h1
      obtain ⟨x, _, ks', h3, rfl⟩ := h1
      obtain ⟨k1, k2⟩ := resolveNext_ok g4 h3
      refine ⟨g1, g2, ?_, k1⟩
      rw [← g3]
      exact copyFinal_nil rfl rfl k2
theorem resolveNext_ok {fuel : Nat} {o : Org} : ∀ {ts ts' : List UTree}, NextOK o ts → o.resolveNext fuel ts = .ok ts' →
    NextOK o ts' ∧ (ts' = [] ↔ ts = [])
  | [], ts', _, h => by simp only [resolveNext, pure_ok] at h; subst h; exact ⟨trivial, .rfl⟩
  | t :: ts, ts', hg, h => by
    simp only [NextOK] at hg
    obtain ⟨hg, rfl⟩ := hg
    simp only [resolveNext, bind_ok, pure_ok] at h
    obtain ⟨t1, h1, ts1, rfl, rfl⟩ := h
    exact ⟨⟨resolveGoal_ok hg h1, rfl⟩, by simp⟩
end

mutual
theorem UTree.sizes_skel : ∀ t : UTree, t.skel.sizes = t.sizes
  | .node i ks => by
    simp only [skel, sizes, nodes, List.length_cons, UTree.nodess_skel, List.length_map, UTree.sizess_skel ks]
theorem UTree.sizess_skel : ∀ ts : List UTree, sizess (skels ts) = sizess ts
  | [] => rfl
  | t :: ts => by simp only [skels, sizess, UTree.sizes_skel t, UTree.sizess_skel ts]
end

/-- **C66 (the page gets the tree, and what that takes).**  The tree which the page gets, after all the copies which are
made while it is put together, is the tree of `Model/Tree`: no node, text or binding gets lost, there is a fault only
where there is one without the copies.  On the way each node is copied once, and once more for every node above it. -/
theorem C66_page_tree (fuel : Nat) (o : Org) :
    o.pageTree fuel = (o.unificationTree fuel).map fun t => (t, ((t.depths 0).map (· + 1)).sum) := by
  simp only [pageTree, buildTree, unificationTree, buildGoal_same]
  cases h0 : o.goalTree fuel o.execs.length 0 0 with
  | error x => rfl
  | ok r =>
    obtain ⟨t0, c⟩ := r
    simp only [Except.map, ok_bind]
    cases h1 : o.resolveGoal fuel t0 with
    | error x => rfl
    | ok t =>
      have hok := resolveGoal_ok (goalTree_ok _ _ _ _ _ h0) h1
      simp only [ok_bind, pure, Except.pure, copyGoal_same hok]
      congr 2
      have hs := resolveGoal_skel h1
      have e1 : t.sizes = t0.sizes := by rw [← t.sizes_skel, hs, t0.sizes_skel]
      have e2 : t.nodes.length = t0.nodes.length := by
        have := congrArg (fun s => s.nodes.length) hs
        simpa [UTree.nodes_skel] using this
      have e3 := t.depths_sum 0
      have e4 : t0.sizes = t0.nodes.length + UTree.sizess t0.kids := by cases t0; rfl
      have e5 : ∀ l : List Nat, (l.map (· + 1)).sum = l.sum + l.length := by
        intro l
        induction l with
        | nil => rfl
        | cons a l ih => simp only [List.map_cons, List.sum_cons, List.length_cons, ih]; omega
      have e6 : (t.depths 0).length = t.nodes.length := t.depths_length 0
      rw [e5, e6]
      omega

/-! ## How many copies that are -/

mutual
theorem UTree.sizes_le : ∀ t : UTree, 2 * t.sizes ≤ t.nodes.length * (t.nodes.length + 1)
  | .node i ks => by
    have h := UTree.sizess_le ks
    simp only [sizes, nodes, List.length_cons]
    generalize (nodess ks).length = m at *
    grind
theorem UTree.sizess_le : ∀ ts : List UTree, 2 * sizess ts ≤ (nodess ts).length * ((nodess ts).length + 1)
  | [] => by simp [sizess]
  | t :: ts => by
    have h1 := UTree.sizes_le t
    have h2 := UTree.sizess_le ts
    simp only [sizess, nodess, List.length_append]
    generalize (nodess ts).length = m at *
    generalize t.nodes.length = n at *
    have : 0 ≤ n * m := Nat.zero_le _
    grind
end

mutual
theorem UTree.sizes_line : ∀ t : UTree, (∀ s ∈ t.nodes, s.kids.length ≤ 1) → 2 * t.sizes = t.nodes.length * (t.nodes.length + 1)
  | .node i ks, h => by
    have h0 := h _ (UTree.self_mem _)
    have h := UTree.sizess_line ks h0 (fun s hs => h s (by simp [nodes, hs]))
    simp only [sizes, nodes, List.length_cons]
    generalize (nodess ks).length = m at *
    grind
theorem UTree.sizess_line : ∀ ts : List UTree, ts.length ≤ 1 → (∀ s ∈ nodess ts, s.kids.length ≤ 1) →
    2 * sizess ts = (nodess ts).length * ((nodess ts).length + 1)
  | [], _, _ => by simp [sizess, nodess]
  | t :: ts, hl, h => by
    have : ts = [] := by simpa using hl
    subst this
    have h1 := UTree.sizes_line t (fun s hs => h s (by simp [nodess, hs]))
    simpa [sizess, nodess] using h1
end

theorem pageTree_sizes {fuel : Nat} {o : Org} {t n} (h : o.pageTree fuel = .ok (t, n)) : o.unificationTree fuel = .ok t ∧ n = t.sizes := by
  rw [C66_page_tree] at h
  cases hu : o.unificationTree fuel with
  | error x => rw [hu] at h; cases h
  | ok t' =>
    rw [hu] at h
    simp only [Except.map, Except.ok.injEq, Prod.mk.injEq] at h
    obtain ⟨rfl, rfl⟩ := h
    have e5 : ∀ l : List Nat, (l.map (· + 1)).sum = l.sum + l.length := by
      intro l
      induction l with
      | nil => rfl
      | cons a l ih => simp only [List.map_cons, List.sum_cons, List.length_cons, ih]; omega
    have e3 := t'.depths_sum 0
    rw [e5, t'.depths_length]
    exact ⟨rfl, by omega⟩

/-- **C66 (at most quadratic).**  For a tree of `n` nodes at least `n` and at most `n (n + 1) / 2` copies of nodes are made. -/
theorem C66_at_most {fuel : Nat} {o : Org} {t k} (h : o.pageTree fuel = .ok (t, k)) :
    t.nodes.length ≤ k ∧ 2 * k ≤ t.nodes.length * (t.nodes.length + 1) := by
  obtain ⟨_, rfl⟩ := pageTree_sizes h
  refine ⟨?_, t.sizes_le⟩
  cases t
  simp only [UTree.sizes]
  omega

/-- **C66 (quadratic without branches).**  If no goal of the tree has more than one alternative, it is all of them. -/
theorem C66_line {fuel : Nat} {o : Org} {t k} (h : o.pageTree fuel = .ok (t, k)) (hl : ∀ s ∈ t.nodes, s.kids.length ≤ 1) :
    2 * k = t.nodes.length * (t.nodes.length + 1) := by
  obtain ⟨_, rfl⟩ := pageTree_sizes h
  exact t.sizes_line hl

/-! ## Examples -/

/-- The number of nodes, the number of copies and whether there are branches, after `n` iterations. -/
def copiesOf (fuel n : Nat) (o : Org) : Option (Nat × Nat × Bool) :=
  match o.iterate fuel n with
  | .ok r => match r.1.pageTree fuel with
    | .ok (t, k) => some (t.nodes.length, k, t.nodes.any fun s => decide (1 < s.kids.length))
    | .error _ => none
  | .error _ => none

/-- The tree for `r(X)` with `p(a). p(b). r(X) :- p(X), q(X). q(b).`: 9 nodes, 36 copies. -/
theorem C66_sample : copiesOf 20 20 (demo Demo.prog [.fn n!"r" [.var n!"X"]]) = some (9, 36, true) := by decide +kernel

/-- `loop :- loop.` -/
def Demo.spin : List Clause := [⟨.cons n!"loop", [.cons n!"loop"]⟩]

/-- The hypothesis of `C66_line` is met: with `loop :- loop.` there are 21 nodes after 20 iterations and 231 copies are made
to show them. -/
theorem C66_line_sample : copiesOf 20 8 (demo Demo.spin [.cons n!"loop"]) = some (9, 45, false) ∧
    copiesOf 20 20 (demo Demo.spin [.cons n!"loop"]) = some (21, 231, false) := by decide +kernel

end PBfs
