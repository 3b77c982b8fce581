import Verif.Proof.Tree
import Verif.Proof.Search3
/-! # The unification tree shows the tree of executors -/
namespace PBfs
open Org

/-! ## Trees -/

theorem UTree.info_node {i ks} : (UTree.node i ks).info = i := rfl
theorem UTree.kids_node {i ks} : (UTree.node i ks).kids = ks := rfl

mutual
/-- The tree without what is filled in last. -/
def UTree.skel : UTree → UTree
  | .node i ks => .node { i with title := [], bindings := [], firstFact := 0 } (UTree.skels ks)
def UTree.skels : List UTree → List UTree
  | [] => []
  | t :: ts => UTree.skel t :: UTree.skels ts
end

theorem UTree.skels_eq (ts : List UTree) : skels ts = ts.map skel := by
  induction ts with
  | nil => rfl
  | cons t ts ih => simp [skels, ih]

mutual
theorem UTree.nodes_skel : ∀ t : UTree, t.skel.nodes = t.nodes.map skel
  | .node i ks => by
    simp only [skel, nodes, List.map_cons, UTree.nodess_skel ks]
theorem UTree.nodess_skel : ∀ ts : List UTree, nodess (skels ts) = (nodess ts).map skel
  | [] => rfl
  | t :: ts => by
    simp only [skels, nodess, List.map_append, UTree.nodes_skel t, UTree.nodess_skel ts]
end

theorem UTree.skel_info (t : UTree) :
    t.skel.info.exec = t.info.exec ∧ t.skel.info.id = t.info.id ∧ t.skel.info.goal = t.info.goal ∧ t.skel.info.final = t.info.final ∧
    t.skel.kids = t.kids.map skel := by
  cases t with
  | node i ks => simp [skel, info, kids, UTree.skels_eq]

theorem UTree.self_mem (t : UTree) : t ∈ t.nodes := by
  cases t; simp [nodes]

theorem UTree.mem_nodess {ts : List UTree} {s} : s ∈ nodess ts ↔ ∃ t ∈ ts, s ∈ t.nodes := by
  induction ts with
  | nil => simp [nodess]
  | cons t ts ih => simp [nodess, ih]

mutual
theorem UTree.kid_mem : ∀ (t : UTree) {s k : UTree}, s ∈ t.nodes → k ∈ s.kids → k ∈ t.nodes
  | .node i ks, s, k, hs, hk => by
    simp only [nodes, List.mem_cons] at hs ⊢
    rcases hs with rfl | hs
    · exact .inr (mem_nodess.2 ⟨k, hk, k.self_mem⟩)
    · exact .inr (UTree.kid_mems ks hs hk)
theorem UTree.kid_mems : ∀ (ts : List UTree) {s k : UTree}, s ∈ nodess ts → k ∈ s.kids → k ∈ nodess ts
  | [], s, k, hs, _ => by simp [nodess] at hs
  | t :: ts, s, k, hs, hk => by
    simp only [nodess, List.mem_append] at hs ⊢
    exact hs.imp (fun h => UTree.kid_mem t h hk) (fun h => UTree.kid_mems ts h hk)
end

/-! ## What is filled in last -/

mutual
theorem resolveGoal_skel {fuel : Nat} {o : Org} : ∀ {t t' : UTree}, o.resolveGoal fuel t = .ok t' → t'.skel = t.skel
  | .node i ks, t', h => by
    simp only [resolveGoal, bind_ok] at h
    obtain ⟨e, _, n, _, h⟩ := h
    cases n with
    | none => simp only [pure_ok] at h; subst h; rfl
    | some n =>
      simp only [bind_ok] at h
      obtain ⟨s, _, h⟩ := h
      split at h
      · simp only [pure_ok] at h; subst h; rfl
      · simp only [bind_ok, pure_ok] at h
        obtain ⟨ks', h1, rfl⟩ := h
        simp only [UTree.skel, resolveClauses_skel h1]
theorem resolveClauses_skel {fuel : Nat} {o : Org} {n : RNode} : ∀ {ts ts' : List UTree}, o.resolveClauses fuel n ts = .ok ts' →
    UTree.skels ts' = UTree.skels ts
  | [], ts', h => by simp only [resolveClauses, pure_ok] at h; subst h; rfl
  | .node i ks :: ts, ts', h => by
    simp only [resolveClauses, bind_ok, pure_ok] at h
    obtain ⟨e, _, t, h1, ts1, h2, rfl⟩ := h
    simp only [UTree.skels, resolveClauses_skel h2]
    congr 1
    split at h1
    · simp only [pure_ok] at h1; subst h1; rfl
    · simp only [bind_ok, pure_ok] at h1
      obtain ⟨x, _, ks', h3, rfl⟩ := h1
      simp only [UTree.skel, resolveNext_skel h3]
theorem resolveNext_skel {fuel : Nat} {o : Org} : ∀ {ts ts' : List UTree}, o.resolveNext fuel ts = .ok ts' → UTree.skels ts' = UTree.skels ts
  | [], ts', h => by simp only [resolveNext, pure_ok] at h; subst h; rfl
  | t :: ts, ts', h => by
    simp only [resolveNext, bind_ok, pure_ok] at h
    obtain ⟨t1, h1, ts1, h2, rfl⟩ := h
    simp only [UTree.skels, resolveGoal_skel h1, resolveNext_skel h2]
end

/-- What does not depend on what is filled in last may be checked before. -/
theorem unificationTree_skel {fuel : Nat} {o : Org} {t : UTree} (h : o.unificationTree fuel = .ok t) :
    ∃ t0 c, o.goalTree fuel o.execs.length 0 0 = .ok (t0, c) ∧ t.skel = t0.skel ∧ ∀ s ∈ t.nodes, ∃ s0 ∈ t0.nodes, s.skel = s0.skel := by
  simp only [unificationTree, bind_ok] at h
  obtain ⟨⟨t0, c⟩, h1, h2⟩ := h
  have hs := resolveGoal_skel h2
  refine ⟨t0, c, h1, hs, fun s hm => ?_⟩
  have : s.skel ∈ t.skel.nodes := by rw [UTree.nodes_skel]; exact List.mem_map_of_mem hm
  rw [hs, UTree.nodes_skel] at this
  obtain ⟨s0, k1, k2⟩ := List.mem_map.1 this
  exact ⟨s0, k1, k2.symm⟩

/-! ## Numbers -/

theorem treesOf_ids {f : Nat → Nat → R (UTree × Nat)}
    (hf : ∀ k c t c', f k c = .ok (t, c') → ∃ d, c' = c + d ∧ t.nodes.map (·.info.id) = List.range' c d) :
    ∀ {ks c ts c'}, treesOf f ks c = .ok (ts, c') → ∃ d, c' = c + d ∧ (UTree.nodess ts).map (·.info.id) = List.range' c d := by
  intro ks
  induction ks with
  | nil =>
    intro c ts c' h
    simp only [treesOf, pure_ok, Prod.mk.injEq] at h
    obtain ⟨rfl, rfl⟩ := h
    exact ⟨0, rfl, rfl⟩
  | cons k ks ih =>
    intro c ts c' h
    simp only [treesOf, bind_ok, pure_ok, Prod.mk.injEq] at h
    obtain ⟨⟨t, c1⟩, h1, ⟨ts1, c2⟩, h2, rfl, rfl⟩ := h
    obtain ⟨d1, rfl, k1⟩ := hf _ _ _ _ h1
    obtain ⟨d2, rfl, k2⟩ := ih h2
    refine ⟨d1 + d2, by omega, ?_⟩
    rw [UTree.nodess, List.map_append, k1, k2, List.range'_append_1]

theorem clauseTree_ids {fuel : Nat} {o : Org} {f : Nat → Nat → R (UTree × Nat)}
    (hf : ∀ k c t c', f k c = .ok (t, c') → ∃ d, c' = c + d ∧ t.nodes.map (·.info.id) = List.range' c d) {k c t c'}
    (h : o.clauseTree fuel f k c = .ok (t, c')) : ∃ d, c' = c + d ∧ t.nodes.map (·.info.id) = List.range' c d := by
  unfold clauseTree at h
  simp only [bind_ok] at h
  obtain ⟨e, he, h⟩ := h
  split at h
  · simp only [bind_ok, pure_ok, Prod.mk.injEq] at h
    obtain ⟨bs, _, rfl, rfl⟩ := h
    exact ⟨1, rfl, rfl⟩
  · simp only [bind_ok, pure_ok, Prod.mk.injEq] at h
    obtain ⟨g, _, ⟨t1, c1⟩, h1, rfl, rfl⟩ := h
    obtain ⟨d, rfl, k1⟩ := hf _ _ _ _ h1
    refine ⟨d + 1, by simp only; omega, ?_⟩
    simp [UTree.nodes, UTree.nodess, UTree.info_node, k1, List.range']
  · simp only [pure_ok, Prod.mk.injEq] at h
    obtain ⟨rfl, rfl⟩ := h
    exact ⟨1, rfl, rfl⟩

theorem goalTree_ids {fuel : Nat} {o : Org} : ∀ n k c t c', o.goalTree fuel n k c = .ok (t, c') →
    ∃ d, c' = c + d ∧ t.nodes.map (·.info.id) = List.range' c d := by
  intro n
  induction n with
  | zero => intro k c t c' h; simp [goalTree] at h
  | succ n ih =>
    intro k c t c' h
    simp only [goalTree, bind_ok, pure_ok, Prod.mk.injEq] at h
    obtain ⟨e, he, ⟨ts, c1⟩, h1, rfl, rfl⟩ := h
    obtain ⟨d, rfl, k1⟩ := treesOf_ids (fun k c t c' h => clauseTree_ids ih h) h1
    refine ⟨d + 1, by simp only; omega, ?_⟩
    simp [UTree.nodes, UTree.info_node, k1, List.range']

/-! ## Which executors are shown -/

/-- What is right about one node. -/
structure NodeOK (fuel : Nat) (o : Org) (lab : Nat → Bool) (s : UTree) : Prop where
  ex : ∃ e, o.execs[s.info.exec]? = some e
  lab : lab s.info.exec = s.info.goal
  kids : s.kids.map (·.info.exec) = createdBy o.execs s.info.exec
  alt : ∀ k ∈ s.kids, k.info.goal = !s.info.goal
  final : ∀ e, o.execs[s.info.exec]? = some e →
    s.info.final = if s.info.goal = false ∧ e.state = .success then (o.answer fuel s.info.exec).toOption else none
  answered : ∀ e, o.execs[s.info.exec]? = some e → s.info.goal = false → e.state = .success → ∃ bs, o.answer fuel s.info.exec = .ok bs

theorem treesOf_good {P : UTree → Prop} {f : Nat → Nat → R (UTree × Nat)} {L : List Nat}
    (hf : ∀ k c t c', k ∈ L → f k c = .ok (t, c') → t.info.exec = k ∧ t.info.goal = false ∧ ∀ s ∈ t.nodes, P s) :
    ∀ {ks c ts c'}, (∀ k ∈ ks, k ∈ L) → treesOf f ks c = .ok (ts, c') →
      ts.map (·.info.exec) = ks ∧ (∀ t ∈ ts, t.info.goal = false) ∧ ∀ s ∈ UTree.nodess ts, P s := by
  intro ks
  induction ks with
  | nil =>
    intro c ts c' _ h
    simp only [treesOf, pure_ok, Prod.mk.injEq] at h
    obtain ⟨rfl, rfl⟩ := h
    exact ⟨rfl, by simp, by simp [UTree.nodess]⟩
  | cons k ks ih =>
    intro c ts c' hL h
    simp only [treesOf, bind_ok, pure_ok, Prod.mk.injEq] at h
    obtain ⟨⟨t, c1⟩, h1, ⟨ts1, c2⟩, h2, rfl, rfl⟩ := h
    obtain ⟨a1, a2, a3⟩ := hf _ _ _ _ (hL k (by simp)) h1
    obtain ⟨b1, b2, b3⟩ := ih (fun k hk => hL k (by simp [hk])) h2
    refine ⟨by simp [a1, b1], ?_, ?_⟩
    · intro t' ht'
      simp only [List.mem_cons] at ht'
      rcases ht' with rfl | ht'
      · exact a2
      · exact b2 _ ht'
    · intro s hs
      simp only [UTree.nodess, List.mem_append] at hs
      exact hs.elim (a3 s) (b3 s)

theorem exec_ok {o : Org} {k e} (h : o.exec k = .ok e) : o.execs[k]? = some e := by
  simpa [Org.exec, orFault_ok] using h

theorem KInv.unarchived {o : Org} {lab id e} (h : KInv o lab) (inv : o.Inv) (he : o.execs[id]? = some e) (ha : e.state ≠ .archived) :
    createdBy o.execs id = [] := by
  rw [List.eq_nil_iff_forall_not_mem]
  intro k hk
  obtain ⟨y, k1, k2⟩ := mem_createdBy.1 hk
  obtain ⟨_, e', k3, k4⟩ := inv.par _ _ _ k1 k2
  rw [he] at k3; cases k3
  exact ha k4

theorem clauseTree_good {fuel : Nat} {o : Org} {lab} (hk : KInv o lab) (inv : o.Inv) {f : Nat → Nat → R (UTree × Nat)}
    (hf : ∀ k c t c', lab k = true → f k c = .ok (t, c') → t.info.exec = k ∧ t.info.goal = true ∧ ∀ s ∈ t.nodes, NodeOK fuel o lab s)
    {k c t c'} (hl : lab k = false) (h : o.clauseTree fuel f k c = .ok (t, c')) :
    t.info.exec = k ∧ t.info.goal = false ∧ ∀ s ∈ t.nodes, NodeOK fuel o lab s := by
  unfold clauseTree at h
  simp only [bind_ok] at h
  obtain ⟨e, he, h⟩ := h
  have he := exec_ok he
  split at h
  · rename_i hs
    simp only [bind_ok, pure_ok, Prod.mk.injEq] at h
    obtain ⟨bs, hb, rfl, rfl⟩ := h
    refine ⟨rfl, rfl, fun s hs' => ?_⟩
    simp only [UTree.nodes, UTree.nodess, List.mem_singleton] at hs'
    subst hs'
    refine ⟨⟨e, he⟩, hl, ?_, by simp [UTree.kids_node], ?_, ?_⟩
    · simp [UTree.kids_node, UTree.info_node, hk.unarchived inv he (by simp [hs])]
    · intro e' he'
      simp only [UTree.info_node] at he' ⊢
      rw [he] at he'; cases he'
      simp [hs, hb, Except.toOption]
    · intro e' he' _ _
      exact ⟨bs, hb⟩
  · rename_i hs
    simp only [bind_ok, pure_ok, Prod.mk.injEq] at h
    obtain ⟨g, hg, ⟨t1, c1⟩, h1, rfl, rfl⟩ := h
    obtain ⟨g', hg'⟩ := hk.one _ _ he hl hs
    rw [hg'] at hg
    have : g' = g := by simpa using hg
    subst this
    have hcb := hk.kids _ _ he
    rw [hg'] at hcb
    obtain ⟨y, k1, k2⟩ := mem_createdBy.1 (show g' ∈ createdBy o.execs k by rw [← hcb]; simp)
    have hlg : lab g' = true := by rw [hk.alt _ _ _ k1 k2, hl]; rfl
    obtain ⟨a1, a2, a3⟩ := hf _ _ _ _ hlg h1
    refine ⟨rfl, rfl, fun s hs' => ?_⟩
    simp only [UTree.nodes, UTree.nodess, List.append_nil, List.mem_cons] at hs'
    rcases hs' with rfl | hs'
    · refine ⟨⟨e, he⟩, hl, ?_, ?_, ?_, ?_⟩
      · simp only [UTree.kids_node, List.map_cons, List.map_nil, a1, UTree.info_node]
        exact hcb
      · simp [UTree.kids_node, a2, UTree.info_node]
      · intro e' he'
        simp only [UTree.info_node] at he' ⊢
        rw [he] at he'; cases he'
        simp [hs]
      · intro e' he' _ hs2
        simp only [UTree.info_node] at he'
        rw [he] at he'; cases he'
        rw [hs] at hs2; cases hs2
    · exact a3 s hs'
  · rename_i hs1 hs2
    simp only [pure_ok, Prod.mk.injEq] at h
    obtain ⟨rfl, rfl⟩ := h
    refine ⟨rfl, rfl, fun s hs' => ?_⟩
    simp only [UTree.nodes, UTree.nodess, List.mem_singleton] at hs'
    subst hs'
    refine ⟨⟨e, he⟩, hl, ?_, by simp [UTree.kids_node], ?_, ?_⟩
    · simp [UTree.kids_node, UTree.info_node, hk.unarchived inv he hs2]
    · intro e' he'
      simp only [UTree.info_node] at he' ⊢
      rw [he] at he'; cases he'
      rw [if_neg (fun h => hs1 h.2)]
    · intro e' he' _ hs2
      simp only [UTree.info_node] at he'
      rw [he] at he'; cases he'
      exact absurd hs2 hs1

theorem goalTree_good {fuel : Nat} {o : Org} {lab} (hk : KInv o lab) (inv : o.Inv) : ∀ n k c t c', lab k = true → o.goalTree fuel n k c = .ok (t, c') →
    t.info.exec = k ∧ t.info.goal = true ∧ ∀ s ∈ t.nodes, NodeOK fuel o lab s := by
  intro n
  induction n with
  | zero => intro k c t c' _ h; simp [goalTree] at h
  | succ n ih =>
    intro k c t c' hl h
    simp only [goalTree, bind_ok, pure_ok, Prod.mk.injEq] at h
    obtain ⟨e, he, ⟨ts, c1⟩, h1, rfl, rfl⟩ := h
    have he := exec_ok he
    obtain ⟨a1, a2, a3⟩ := treesOf_good (P := NodeOK fuel o lab) (L := e.children) (fun k' c t c' hm h => by
      rw [hk.kids _ _ he] at hm
      obtain ⟨y, k1, k2⟩ := mem_createdBy.1 hm
      exact clauseTree_good hk inv ih (by rw [hk.alt _ _ _ k1 k2, hl]; rfl) h) (fun _ h => h) h1
    refine ⟨rfl, rfl, fun s hs => ?_⟩
    simp only [UTree.nodes, List.mem_cons] at hs
    rcases hs with rfl | hs
    · refine ⟨⟨e, he⟩, hl, ?_, ?_, ?_, ?_⟩
      · simp only [UTree.kids_node, UTree.info_node, a1]; exact hk.kids _ _ he
      · intro k hk'; rw [a2 k hk']; rfl
      · intro e' he'; simp [UTree.info_node]
      · intro e' he' h; simp [UTree.info_node] at h
    · exact a3 s hs

/-- Every node of the finished tree. -/
theorem tree_nodes {fuel : Nat} {o : Org} {lab t} (hk : KInv o lab) (inv : o.Inv) (h : o.unificationTree fuel = .ok t) :
    t.info.exec = 0 ∧ t.info.goal = true ∧ ∀ s ∈ t.nodes, NodeOK fuel o lab s := by
  obtain ⟨t0, c, h1, h2, h3⟩ := unificationTree_skel h
  obtain ⟨a1, a2, a3⟩ := goalTree_good hk inv _ _ _ _ _ hk.root h1
  have e1 := t.skel_info
  have e2 := t0.skel_info
  refine ⟨by rw [← e1.1, h2, e2.1, a1], by rw [← e1.2.2.1, h2, e2.2.2.1, a2], fun s hs => ?_⟩
  obtain ⟨s0, k1, k2⟩ := h3 s hs
  have b := a3 s0 k1
  obtain ⟨f1, _, f3, f4, f5⟩ := s.skel_info
  obtain ⟨g1, _, g3, g4, g5⟩ := s0.skel_info
  have x1 : s.info.exec = s0.info.exec := by rw [← f1, k2, g1]
  have x3 : s.info.goal = s0.info.goal := by rw [← f3, k2, g3]
  have x4 : s.info.final = s0.info.final := by rw [← f4, k2, g4]
  have x5 : s.kids.map UTree.skel = s0.kids.map UTree.skel := by rw [← f5, k2, g5]
  refine ⟨x1 ▸ b.ex, by rw [x1, x3]; exact b.lab, ?_, ?_, by rw [x1, x3, x4]; exact b.final, by rw [x1, x3]; exact b.answered⟩
  · rw [x1, ← b.kids]
    have : ∀ l : List UTree, l.map (·.info.exec) = (l.map UTree.skel).map (·.info.exec) := by
      intro l
      rw [List.map_map]
      apply List.map_congr_left
      intro u _
      exact u.skel_info.1.symm
    rw [this, x5, ← this]
  · intro k hk
    have : k.skel ∈ s0.kids.map UTree.skel := by rw [← x5]; exact List.mem_map_of_mem hk
    obtain ⟨k0, y1, y2⟩ := List.mem_map.1 this
    rw [x3, ← b.alt k0 y1, ← k.skel_info.2.2.1, ← y2, k0.skel_info.2.2.1]

/-! ## Every executor is shown once -/

/-- `a` is `b`, or `b` came out of `a`. -/
inductive Anc (l : List Exec) (a : Nat) : Nat → Prop
  | refl : Anc l a a
  | step {b p : Nat} {e : Exec} : l[b]? = some e → e.parent = some p → Anc l a p → Anc l a b

theorem Anc.le {l : List Exec} (hpl : ParLt l) {a b} (h : Anc l a b) : a ≤ b := by
  induction h with
  | refl => exact Nat.le_refl _
  | step h1 h2 _ ih => have := hpl _ _ _ h1 h2; omega

theorem Anc.total {l : List Exec} {a b c} (h1 : Anc l a c) (h2 : Anc l b c) : Anc l a b ∨ Anc l b a := by
  induction h1 with
  | refl => exact .inr h2
  | step k1 k2 k3 ih =>
    cases h2 with
    | refl => exact .inl (.step k1 k2 k3)
    | step m1 m2 m3 =>
      rw [k1] at m1; cases m1
      rw [k2] at m2; cases m2
      exact ih m3

theorem Anc.siblings {l : List Exec} (hpl : ParLt l) {a b c p} (ha : a ∈ createdBy l p) (hb : b ∈ createdBy l p) (h1 : Anc l a c) (h2 : Anc l b c) :
    a = b := by
  have key : ∀ {a b}, a ∈ createdBy l p → b ∈ createdBy l p → Anc l a b → a = b := by
    intro a b ha hb h
    cases h with
    | refl => rfl
    | step k1 k2 k3 =>
      obtain ⟨x, a1, a2⟩ := mem_createdBy.1 ha
      obtain ⟨y, b1, b2⟩ := mem_createdBy.1 hb
      rw [k1] at b1; cases b1
      rw [k2] at b2; cases b2
      have := k3.le hpl
      have := hpl _ _ _ a1 a2
      omega
  rcases h1.total h2 with h | h
  · exact key ha hb h
  · exact (key hb ha h).symm

theorem anc_up {l : List Exec} {a b p : Nat} {e : Exec} (h1 : l[a]? = some e) (h2 : e.parent = some p) (h : Anc l a b) : Anc l p b := by
  induction h with
  | refl => exact .step h1 h2 .refl
  | step k1 k2 _ ih => exact .step k1 k2 ih

mutual
theorem UTree.desc {l : List Exec} : ∀ (t : UTree), (∀ s ∈ t.nodes, s.kids.map (·.info.exec) = createdBy l s.info.exec) →
    ∀ s ∈ t.nodes, Anc l t.info.exec s.info.exec
  | .node i ks, h, s, hs => by
    simp only [nodes, List.mem_cons] at hs
    rcases hs with rfl | hs
    · exact .refl
    · obtain ⟨t, ht, hd⟩ := UTree.descs ks (fun s hs => h s (by simp [nodes, hs])) s hs
      have h0 := h (.node i ks) (self_mem _)
      have : t.info.exec ∈ createdBy l i.exec := by
        have : t.info.exec ∈ ks.map (·.info.exec) := List.mem_map_of_mem (f := fun t : UTree => t.info.exec) ht
        simp only [kids_node, info_node] at h0
        rwa [← h0]
      obtain ⟨y, k1, k2⟩ := mem_createdBy.1 this
      exact anc_up k1 k2 hd
theorem UTree.descs {l : List Exec} : ∀ (ts : List UTree), (∀ s ∈ nodess ts, s.kids.map (·.info.exec) = createdBy l s.info.exec) →
    ∀ s ∈ nodess ts, ∃ t ∈ ts, Anc l t.info.exec s.info.exec
  | [], _, s, hs => by simp [nodess] at hs
  | t :: ts, h, s, hs => by
    simp only [nodess, List.mem_append] at hs
    rcases hs with hs | hs
    · exact ⟨t, by simp, UTree.desc t (fun s hs => h s (by simp [nodess, hs])) s hs⟩
    · obtain ⟨u, hu, hd⟩ := UTree.descs ts (fun s hs => h s (by simp [nodess, hs])) s hs
      exact ⟨u, by simp [hu], hd⟩
end

mutual
theorem UTree.execs_nodup {l : List Exec} (hpl : ParLt l) : ∀ (t : UTree), (∀ s ∈ t.nodes, s.kids.map (·.info.exec) = createdBy l s.info.exec) →
    (t.nodes.map (·.info.exec)).Nodup
  | .node i ks, h => by
    have h0 := h (.node i ks) (self_mem _)
    simp only [kids_node, info_node] at h0
    have hk : ∀ s ∈ nodess ks, s.kids.map (·.info.exec) = createdBy l s.info.exec := fun s hs => h s (by simp [nodes, hs])
    simp only [nodes, List.map_cons, info_node, List.nodup_cons]
    refine ⟨fun hm => ?_, UTree.execs_nodups hpl ks i.exec hk (fun k hm => h0 ▸ hm) (h0 ▸ createdBy_nodup l _)⟩
    obtain ⟨s, hs, he⟩ := List.mem_map.1 hm
    obtain ⟨t, ht, hd⟩ := UTree.descs ks hk s hs
    have : t.info.exec ∈ createdBy l i.exec := by
      rw [← h0]
      exact List.mem_map_of_mem (f := fun t : UTree => t.info.exec) ht
    obtain ⟨y, k1, k2⟩ := mem_createdBy.1 this
    have := hpl _ _ _ k1 k2
    have := hd.le hpl
    omega
theorem UTree.execs_nodups {l : List Exec} (hpl : ParLt l) : ∀ (ts : List UTree) (p : Nat),
    (∀ s ∈ nodess ts, s.kids.map (·.info.exec) = createdBy l s.info.exec) → (∀ k ∈ ts.map (·.info.exec), k ∈ createdBy l p) →
    (ts.map (·.info.exec)).Nodup → ((nodess ts).map (·.info.exec)).Nodup
  | [], _, _, _, _ => by simp [nodess]
  | t :: ts, p, h, hc, hn => by
    simp only [List.map_cons, List.nodup_cons] at hn
    simp only [nodess, List.map_append]
    rw [List.nodup_append]
    refine ⟨UTree.execs_nodup hpl t (fun s hs => h s (by simp [nodess, hs])),
      UTree.execs_nodups hpl ts p (fun s hs => h s (by simp [nodess, hs])) (fun k hk => hc k (List.mem_cons_of_mem _ hk)) hn.2, ?_⟩
    intro a ha b hb hab
    subst hab
    obtain ⟨s, hs, rfl⟩ := List.mem_map.1 ha
    obtain ⟨s', hs', he⟩ := List.mem_map.1 hb
    have d1 := UTree.desc t (fun s hs => h s (by simp [nodess, hs])) s hs
    obtain ⟨u, hu, d2⟩ := UTree.descs ts (fun s hs => h s (by simp [nodess, hs])) s' hs'
    rw [he] at d2
    have hum : u.info.exec ∈ ts.map (·.info.exec) := List.mem_map_of_mem (f := fun t : UTree => t.info.exec) hu
    have := d1.siblings hpl (hc _ (by simp)) (hc _ (List.mem_cons_of_mem _ hum)) d2
    rw [this] at hn
    exact hn.1 hum
end

/-- Every executor has a node. -/
theorem tree_complete {o : Org} {lab} {t : UTree} (hk : KInv o lab) (inv : o.Inv) (h0 : t.info.exec = 0)
    (h : ∀ s ∈ t.nodes, s.kids.map (·.info.exec) = createdBy o.execs s.info.exec) :
    ∀ j, j < o.execs.length → ∃ s ∈ t.nodes, s.info.exec = j := by
  intro j
  induction j using Nat.strongRecOn with
  | _ j ih =>
    intro hj
    obtain ⟨e, he⟩ : ∃ e, o.execs[j]? = some e := ⟨_, List.getElem?_eq_getElem hj⟩
    cases hp : e.parent with
    | none => exact ⟨t, t.self_mem, by rw [h0, (hk.par _ _ he).1 hp]⟩
    | some p =>
      have hlt := inv.parLt _ _ _ he hp
      obtain ⟨s, hs, rfl⟩ := ih p hlt (by omega)
      have : j ∈ s.kids.map (·.info.exec) := by rw [h s hs]; exact mem_createdBy.2 ⟨e, he, hp⟩
      obtain ⟨k, hk, rfl⟩ := List.mem_map.1 this
      exact ⟨k, t.kid_mem hs hk, rfl⟩

end PBfs
