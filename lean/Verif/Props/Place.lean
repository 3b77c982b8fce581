import Verif.Proof.Place2
import Verif.Props.Parser
/-! # C67: the texts at the tree tell where goals and clauses stand -/
namespace PBfs
open Org

theorem live_query {qf : List (CAtom × Info)} {atoms : List (Node × Info)} (h1 : QueryForm (atoms.map (·.1)) (qf.map (·.1)))
    (h2 : qf.map (fun x => (x.1.parsed, x.2)) = atoms) : live (qf.map (·.1)) (qf.map (·.2)) = lift atoms := by
  obtain ⟨_, _, h | ⟨n, g, gs, h3, ⟨ds, h4, _⟩, h5⟩⟩ := h1
  · have : qf = [] := by simpa using h
    subst this
    rw [← h2]; rfl
  · cases qf with
    | nil => cases h3
    | cons x qf =>
      simp only [List.map_cons, List.cons.injEq] at h3
      obtain ⟨rfl, rfl⟩ := h3
      rw [List.map_cons, List.map_cons, live_cons, item_goal (goal?_of_call (ds := allocInstrs n ++ ds) (by rw [h4, List.append_assoc])).1,
        live_goals (fun g hg => h5 _ (List.mem_map_of_mem hg)), ← h2]
      rfl

/-- After a query was loaded. -/
theorem GInv.loaded {a0 a : Placed} {ord text q cl} (hl : a0.loadQuery ord text = (a, .ok)) (hq : parseQueryAt (appendDot text) = .ok q) :
    GInv a cl (lift q) fun _ => lift q := by
  have ho := Placed.loadQuery_org (a := a0) (ord := ord) (text := text)
  rw [hl] at ho
  have ht : a0.org.loadQueryText ord text = a0.org.loadQuery ord (some (q.map (·.1))) := by
    unfold Org.loadQueryText
    rw [← parseQueryAt_erase, hq]; rfl
  rw [ht] at ho
  have hu := compileQueryAt_unlocated ord q a0.org.st
  unfold Placed.loadQuery at hl
  simp only [hq] at hl
  cases hc : compileQueryAt ord q a0.org.st with
  | error x =>
    obtain ⟨e, i, st⟩ := x
    rw [hc] at hu
    simp only [unlocated, error_bind] at hu
    obtain ⟨_, ho⟩ := ho
    unfold Org.loadQuery at ho
    simp only [← hu] at ho
    cases e <;> simp [Org.Load.ofErr] at ho
  | ok x =>
    obtain ⟨cs, st⟩ := x
    rw [hc, unlocated_of_ok rfl] at hu
    simp only [ok_bind] at hu
    rw [hc] at hl
    simp only [Prod.mk.injEq] at hl
    obtain ⟨rfl, _⟩ := hl
    simp only at ho
    have hx : (a0.org.loadQueryText ord text).1.execs = [initExec (cs.map (·.1))] ∧ (a0.org.loadQueryText ord text).1.queue = [0] := by
      rw [ho.1]
      unfold Org.loadQuery
      simp only [← hu]
      exact ⟨rfl, rfl⟩
    obtain ⟨hx, hqq⟩ := hx
    have hp : cs.map (fun x => (x.1.parsed, x.2)) = q := by
      unfold compileQueryAt at hc
      simp only [bind_ok, pure_ok, Prod.mk.injEq] at hc
      obtain ⟨⟨cs', g⟩, h1, rfl, _⟩ := hc
      exact compileQueryAtomsAt_parsed h1
    have hlv := live_query (compileQuery_form hu.symm) hp
    have only : ∀ (j : Nat) (e : Exec), (a0.org.loadQueryText ord text).1.execs[j]? = some e → j = 0 ∧ e = initExec (cs.map (·.1)) := by
      intro j e he
      rw [hx] at he
      cases j with
      | zero => simp at he; exact ⟨rfl, he.symm⟩
      | succ j => simp at he
    have nokids : ∀ j, createdBy (a0.org.loadQueryText ord text).1.execs j = [] := by
      intro j
      rw [List.eq_nil_iff_forall_not_mem]
      intro k hk
      obtain ⟨e, k1, k2⟩ := mem_createdBy.1 hk
      obtain ⟨_, rfl⟩ := only k e k1
      cases k2
    have hcod : (initExec (cs.map (·.1))).codes.map (·.atom) = cs.map (·.1) := by
      simp [initExec, Function.comp_def]
    refine ⟨by simp [hx], ?_, ?_, ?_, ?_, ?_, rfl, ?_, ?_⟩
    · intro j e he
      obtain ⟨rfl, rfl⟩ := only j e he
      simp [initExec, Placed.own]
    · intro j e he
      obtain ⟨rfl, rfl⟩ := only j e he
      rw [if_pos (by rfl), tlive, hcod]
      exact hlv
    · intro j e he t ht
      obtain ⟨rfl, rfl⟩ := only j e he
      simp only [initExec, List.mem_map] at ht
      obtain ⟨x, _, rfl⟩ := ht
      simp [Org.stale]
    · intro j e he _
      obtain ⟨rfl, rfl⟩ := only j e he
      rw [hqq]; simp
    · intro j e _ _ hn
      have : q.map (·.1) = [] := by simpa [lift] using hn
      have hp := parseQueryAt_erase (text := appendDot text)
      rw [hq] at hp
      exact (C41_well_formed.2 _ hp.symm).1 this
    · intro j e t g he hs
      obtain ⟨rfl, rfl⟩ := only j e he
      exact absurd rfl hs
    · intro j e t g _ _ _ k hk
      simp only at hk
      rw [nokids] at hk; cases hk

theorem GInv.getAnswer {fuel : Nat} {p qs} : ∀ {clock} {a a' : Placed} {G r}, GInv a (clausesAt p) qs G → FitsAt a p → FInv a.org →
    a.getAnswer fuel clock = .ok (a', r) → ∃ G', GInv a' (clausesAt p) qs G' := by
  intro clock
  induction clock with
  | nil =>
    intro a a' G r h _ _ ha
    unfold Placed.getAnswer at ha
    split at ha <;> (simp only [pure_ok, Prod.mk.injEq] at ha; rw [← ha.1]; exact ⟨G, h⟩)
  | cons b clock ih =>
    intro a a' G r h hft hf ha
    unfold Placed.getAnswer at ha
    split at ha
    · simp only [pure_ok, Prod.mk.injEq] at ha; rw [← ha.1]; exact ⟨G, h⟩
    · cases b with
      | true => simp only [pure_ok, Prod.mk.injEq] at ha; rw [← ha.1]; exact ⟨G, h⟩
      | false =>
        simp only [bind_ok] at ha
        obtain ⟨⟨a1, t⟩, h1, ha⟩ := ha
        obtain ⟨G1, hG1⟩ := h.turn hft hf h1
        obtain ⟨k1, k2, k3⟩ := Placed.turn_org h1
        obtain ⟨j1, j2, _⟩ := turn_builtins hf.rinv.inv k1
        cases t with
        | «continue» => exact ih hG1 (hft.congr j1 k3 j2 k2) (hf.turn k1) ha
        | answer => simp only [pure_ok, Prod.mk.injEq] at ha; rw [← ha.1]; exact ⟨G1, hG1⟩
        | error => simp only [pure_ok, Prod.mk.injEq] at ha; rw [← ha.1]; exact ⟨G1, hG1⟩

/-! ## The tree -/

theorem topAtom_fresh {o : Org} {e : Exec} {t ts} (hc : e.codes = t :: ts) (h : o.stale t = false) : o.topAtom e = .ok t.atom := by
  simp [Org.topAtom, hc, Org.code, h]

theorem info_top {a : Placed} {cl qs G} (h : GInv a cl qs G) {j : Nat} {e : Exec} (he : a.org.execs[j]? = some e) {t ts} (hc : e.codes = t :: ts) :
    ∃ i is, a.own j = i :: is ∧ a.info j = .ok i := by
  have hp := h.par j e he
  rw [hc] at hp
  cases ho : a.own j with
  | nil => rw [ho] at hp; cases hp
  | cons i is =>
    refine ⟨i, is, rfl, ?_⟩
    simp [Placed.info, Org.exec, he, topAtom_fresh hc (h.fresh j e he t (by rw [hc]; simp)), ho]

theorem lineText_placeText (i : Info) : Placed.lineText i = placeText i := by
  unfold Placed.lineText placeText builtinLine
  split <;> simp [Nat.repr]

theorem bindingsText_shown (bs : List Binding) : Placed.bindingsText bs = (bs.map shownBinding).flatten := by
  simp only [Placed.bindingsText, List.flatMap, Binding.str]
  congr 2
  funext b
  simp [shownBinding]

mutual
theorem shown_goal {a : Placed} {p qs G lab fuel} (h : GInv a (clausesAt p) qs G) (hk : KInv a.org lab) (hf : FInv a.org) : ∀ (s : UTree) {l},
    (∀ u ∈ s.nodes, NodeOK fuel a.org lab u) → s.info.goal = true → G s.info.exec = lift l → ShownGoal a p l s
  | .node n ks, l, hn, hgo, hG => by
    have ok := hn _ (UTree.self_mem _)
    obtain ⟨e, he⟩ := ok.ex
    simp only [UTree.info_node] at he hgo hG
    have hlab : lab n.exec = true := ok.lab.trans hgo
    have hco := h.code n.exec e he
    by_cases hrun : e.state = .running
    · have hks : ks = [] := by
        have := ok.kids
        simp only [UTree.kids_node, UTree.info_node, hk.unarchived hf.rinv.inv he (by rw [hrun]; simp)] at this
        simpa using this
      subst hks
      rw [if_pos hrun] at hco
      have hqd := h.queued _ _ he hrun
      obtain ⟨e', he', hst⟩ := hf.task _ hqd
      rw [he] at he'; cases he'
      cases hc : e.codes with
      | nil => rw [hc] at hco; exact absurd hco.symm (h.busy _ _ he hrun)
      | cons t ts =>
        rw [hc] at hst
        rcases hst.turn (fun h => qbase _ _ _ h) with ⟨ds, h1, _⟩ | hg | ⟨h1, _⟩
        · exfalso
          have := hk.goal _ _ he hlab hqd t (by rw [hc]; simp)
          rw [(head?_of_proceed h1).1] at this; cases this
        · obtain ⟨i, is, k1, k2⟩ := info_top h he hc
          rw [hc, k1, hG] at hco
          have hit := item_goal (i := i) hg.goal?.1
          have : tlive (t :: ts) (i :: is) = (some t.atom.parsed, i) :: tlive ts is := by
            show live (t.atom :: _) (i :: is) = _
            rw [live_cons, hit]; rfl
          rw [this] at hco
          cases l with
          | nil => cases hco
          | cons x l =>
            simp only [lift, List.map_cons, List.cons.injEq, Prod.mk.injEq, Option.some.injEq] at hco
            obtain ⟨⟨h3, h4⟩, _⟩ := hco
            obtain ⟨g, i'⟩ := x
            simp only at h3 h4
            subst h3 h4
            exact .next he hrun ⟨t, ts, hc, hg.goal?.1⟩ (by simp [Placed.goalTip, k2, lineText_placeText])
        · exact .later (fun hl => h.busy _ _ he hrun (by rw [hG, hl]; rfl)) he hrun ⟨t, ts, hc, h1⟩
    · rw [if_neg hrun] at hco
      obtain ⟨_, t, g, htop, hg⟩ := hk.called _ _ he hlab hrun
      cases hc : e.codes with
      | nil => simp [Exec.top, hc] at htop
      | cons t0 ts =>
        simp only [Exec.top, hc, List.head?_cons, Option.map_some, Option.some.injEq] at htop
        subst htop
        obtain ⟨i, is, k1, k2⟩ := info_top h he hc
        rw [hc, k1, hG] at hco
        have hit := item_goal (i := i) hg
        have : tlive (t0 :: ts) (i :: is) = (some g, i) :: tlive ts is := by
          show live (t0.atom :: _) (i :: is) = _
          rw [live_cons, hit]; rfl
        rw [this] at hco
        cases l with
        | nil => cases hco
        | cons x l =>
          simp only [lift, List.map_cons, List.take_succ_cons, List.take_zero, List.cons.injEq, Prod.mk.injEq, Option.some.injEq] at hco
          obtain ⟨⟨h3, h4⟩, _⟩ := hco
          obtain ⟨g', i'⟩ := x
          simp only at h3 h4
          subst h3 h4
          refine .called he hrun (by simp [Placed.goalTip, k2, lineText_placeText]) (shown_clauses (fuel := fuel) h hk hf ks ?_ ?_ ?_)
          · intro u hu
            exact hn u (by simp [UTree.nodes, hu])
          · intro u hu
            have := ok.alt u hu
            simpa [UTree.info_node, hgo] using this
          · have := h.alt _ _ _ _ he hrun (by simp [Exec.top, hc]) hg
            rw [hG] at this
            have hkk := ok.kids
            simp only [UTree.kids_node, UTree.info_node] at hkk
            rw [← hkk, List.map_map] at this
            exact this
theorem shown_clauses {a : Placed} {p qs G lab fuel} (h : GInv a (clausesAt p) qs G) (hk : KInv a.org lab) (hf : FInv a.org) : ∀ (ks : List UTree) {ws rest},
    (∀ u ∈ UTree.nodess ks, NodeOK fuel a.org lab u) → (∀ u ∈ ks, u.info.goal = false) →
    ks.map (G ∘ fun u => u.info.exec) = ws.map (fun w : Where => w.stack ++ lift rest) → ShownClauses a p ws rest ks
  | [], ws, rest, _, _, hG => by
    cases ws with
    | nil => exact .nil
    | cons => cases hG
  | .node n us :: ks, ws, rest, hn, hgo, hG => by
    cases ws with
    | nil => cases hG
    | cons w ws =>
      simp only [List.map_cons, List.cons.injEq, Function.comp, UTree.info_node] at hG
      obtain ⟨hG, hGs⟩ := hG
      have ih := shown_clauses (fuel := fuel) h hk hf ks (fun u hu => hn u (by simp [UTree.nodess, hu])) (fun u hu => hgo u (by simp [hu])) hGs
      have ok := hn (.node n us) (by simp [UTree.nodess, UTree.nodes])
      obtain ⟨e, he⟩ := ok.ex
      simp only [UTree.info_node] at he
      have hgof : n.goal = false := hgo (.node n us) (by simp)
      have hlab : lab n.exec = false := ok.lab.trans hgof
      obtain ⟨t, ts, hc, hhd⟩ := hk.head _ _ he hlab
      obtain ⟨hd, hhd⟩ := Option.isSome_iff_exists.1 hhd
      obtain ⟨i, is, k1, k2⟩ := info_top h he hc
      have hi : i = w.head := by
        have hco := h.code n.exec e he
        have hit := item_head (i := i) hhd
        have : tlive (t :: ts) (i :: is) = (none, i) :: tlive ts is := by
          show live (t.atom :: _) (i :: is) = _
          rw [live_cons, hit]; rfl
        rw [hc, k1, this, hG] at hco
        split at hco <;> simp [Where.stack] at hco <;> exact hco.1
      subst hi
      have htip : ∀ vs, a.clauseTip (.node n vs) = .ok (edgeText e.state w.head n.bindings) := by
        intro vs
        simp only [Placed.clauseTip, k2, ok_bind, Org.exec, he, orFault_some]
        cases hs : e.state <;> simp [edgeText, Exec.failed, hs, lineText_placeText, bindingsText_shown] <;> rfl
      have hkk := ok.kids
      simp only [UTree.kids_node, UTree.info_node] at hkk
      by_cases har : e.state = .archived
      · obtain ⟨k, hk1⟩ := hk.one _ _ he hlab har
        have hk2 := hk.kids _ _ he
        rw [hk1] at hk2
        rw [← hk2] at hkk
        match us, hkk with
        | [u], hkk =>
          refine .more he har (htip _) (shown_goal (fuel := fuel) h hk hf u ?_ ?_ ?_) ih
          · intro v hv
            exact hn v (by simp [UTree.nodess, UTree.nodes, hv])
          · have := ok.alt u (by simp [UTree.kids_node])
            simpa [UTree.info_node, hgof] using this
          · have hke : u.info.exec = k := by simpa using hkk
            rw [hke, h.next _ _ _ _ he (by simp [Exec.top, hc]) hhd k (by rw [← hk2]; simp), hG]
            simp [Where.stack, lift]
      · have hus : us = [] := by
          rw [hk.unarchived hf.rinv.inv he har] at hkk
          simpa using hkk
        subst hus
        exact .leaf he (htip _) ih
end

/-- The tree at any time while a query is answered: each goal stands where its title says, each alternative at the clause its title says, and
below the alternatives the goals of the clause come before the others. Missing: goals before which an environment is to be removed (`ShownGoal.later`),
for which the program shows an uninitialised line (`C67_no_line`). -/
theorem C67_tree_partial {a0 a a' : Placed} {p ord text q fuel t} (hs : PServes a0 p) (hl : a0.loadQuery ord text = (a, .ok))
    (hq : parseQueryAt (appendDot text) = .ok q) (ha : PAsked a a') (ht : a'.org.unificationTree fuel = .ok t) : ShownGoal a' p q t := by
  have hs1 : PServes a p := by
    have : a = (a0.loadQuery ord text).1 := by rw [hl]
    rw [this]; exact .query hs
  have key : PServes a' p ∧ ∃ G, GInv a' (clausesAt p) (lift q) G := by
    clear ht
    induction ha with
    | refl => exact ⟨hs1, _, GInv.loaded hl hq⟩
    | step _ hg ih =>
      obtain ⟨i1, G, i2⟩ := ih
      exact ⟨.answer i1 hg, i2.getAnswer i1.fits i1.reach.finv hg⟩
  obtain ⟨k1, G, k2⟩ := key
  obtain ⟨lab, hk⟩ := k1.reach.kinv
  obtain ⟨t1, t2, t3⟩ := tree_nodes hk k1.reach.finv.rinv.inv ht
  exact shown_goal (fuel := fuel) k2 hk k1.reach.finv t t3 t2 (by rw [t1]; exact k2.root)

/-! ## Concrete cases -/

mutual
def Placed.tips (a : Placed) : Bool → UTree → List (Option Name)
  | true, .node n ks => (match a.goalTip (.node n ks) with | .ok x => some x | _ => none) :: tipss a false ks
  | false, .node n ks => (match a.clauseTip (.node n ks) with | .ok x => x | _ => none) :: tipss a true ks
def Placed.tipss (a : Placed) : Bool → List UTree → List (Option Name)
  | _, [] => []
  | b, u :: us => tips a b u ++ tipss a b us
end

/-- The interpreter after a program and a query were loaded and `n` turns. -/
def Placed.demo (prog query : List Char) (n : Nat) : Option Placed :=
  match Placed.init with
  | .ok a =>
    match a.loadProgram id prog with
    | (a, .ok) =>
      match a.loadQuery id query with
      | (a, .ok) => match a.getAnswer 20 (List.replicate n false) with
        | .ok (a, _) => some a
        | _ => none
      | _ => none
    | _ => none
  | _ => none

/-- The texts in the tree, each node before those below it. -/
def Placed.demoTips (prog query : List Char) (n : Nat) : Option (List (Option String)) :=
  match Placed.demo prog query n with
  | some a => match a.org.unificationTree 20 with
    | .ok t => some ((a.tips true t).map (·.map String.ofList))
    | _ => none
  | _ => none

def Demo.lines : List Char := n!"p(X) :-\n  q(X, Y),\n  r(Y).\nq(1, 1).\nq(2, 2).\nr(2).\n"


/-- They are cases of the theorem. -/
theorem demo_meets {prog query : List Char} {n a' p} (h : Placed.demo prog query n = some a') (hp : parseProgramAt prog = .ok p) :
    ∃ a0 a, PServes a0 p ∧ a0.loadQuery id query = (a, .ok) ∧ PAsked a a' := by
  unfold Placed.demo at h
  split at h <;> try cases h
  rename_i a1 h1
  split at h <;> try cases h
  rename_i a2 h2
  split at h <;> try cases h
  rename_i a3 h3
  split at h <;> try cases h
  rename_i a4 r h4
  exact ⟨a2, a3, .program (.init h1) h2 hp, h3, .step .refl h4⟩

/-- A run, finished: the positions in the query are those in its text, the ones in the program those in the program. -/
theorem C67_sample : Placed.demoTips Demo.lines n!"p(X),\n X == 2" 20 = some
    [some "Line 1: p(X)", some "Line 1: p(X)\n", some "Line 2: q(X, Y)", some "Line 4: q(1, 1)\n[Y / 1] ",
      some "Line 3: r(Y)", some "Line 6: r(2)", some "Line 5: q(2, 2)\n[Y / 2] ", some "Line 3: r(Y)",
      some "Line 6: r(2)\n", some "Line 2: X == 2", some "built-in predicate: Lhs == Rhs\n[Lhs / 2] [Rhs / 2] "] := by decide +kernel

def Demo.early : List Char := n!"s(X) :-\n t(X, Y),\n u(Y).\ns(1).\nt(2, 2).\nu(2).\nv(1) :- w.\nw.\nv(2)."

/-- An answer has been found, the tree is drawn, and a goal in it has no line: the query goes on with `v(X)` there, in line 1. In C++ the
number shown is uninitialised. -/
theorem C67_no_line : Placed.demoTips Demo.early n!"s(X), v(X)" 200 = some
    [some "Line 1: s(X)", some "Line 1: s(X)\n", some "Line 2: t(X, Y)", some "Line 5: t(2, 2)\n[Y / 2] ",
      some "Line 3: u(Y)", some "Line 6: u(2)\n", some "Line 0: ", some "Line 4: s(1)\n[X / 1] ", some "Line 1: v(X)",
      some "Line 7: v(1)\n", some "Line 7: w", some "Line 8: w\n", some "Line 9: v(2)"] := by decide +kernel

/-- In one line of very long programs everything is shown as built-in. -/
theorem C67_far (i : Info) : (∃ s, Placed.lineText i = n!"built-in predicate" ++ s) ↔ i.lineBegin = 1696969 := by
  unfold Placed.lineText builtinLine
  split
  · rename_i h
    exact ⟨fun _ => h, fun _ => ⟨n!": " ++ i.value, by simp⟩⟩
  · rename_i h
    refine ⟨fun ⟨s, hs⟩ => ?_, fun h' => absurd h' h⟩
    simp at hs

end PBfs
