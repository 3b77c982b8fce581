import Verif.Spec.Special
import Verif.Props.Begun
/-! # C90: more special queries, and parts of queries -/
namespace PBfs
open Org

/-! ## Instances -/

/-- What the variables of the query stand for when those of the more special one stand for `ρ`. -/
def through (σ : Name → Node) (ρ : Name → ITree) (x : Name) : ITree := (σ x).eval itreeAlg ρ

mutual
theorem eval_put {σ ρ} : ∀ t : Node, (t.put σ).eval itreeAlg ρ = t.eval itreeAlg (through σ ρ)
  | .var _ => rfl
  | .cons _ => rfl
  | .int _ => rfl
  | .fn f cs => by simp only [Node.put, Node.eval, evals_puts cs]
  | .efn f cs => by simp only [Node.put, Node.eval, evals_puts cs]
theorem evals_puts {σ ρ} : ∀ ts : List Node, Node.evals itreeAlg ρ (Node.puts σ ts) = Node.evals itreeAlg (through σ ρ) ts
  | [] => rfl
  | t :: ts => by simp only [Node.puts, Node.evals, eval_put t, evals_puts ts]
end

theorem inst_special {σ ρ} (a : Node) : (a.special σ).inst itreeAlg ρ = a.inst itreeAlg (through σ ρ) := by
  cases a <;> simp [Node.special, Node.inst, Node.children, Node.name, evals_puts, Node.evals]

theorem insts_special {σ ρ} (atoms : List Node) : (atoms.map (Node.special σ)).map (Node.inst itreeAlg ρ) = atoms.map (Node.inst itreeAlg (through σ ρ)) := by
  simp [inst_special]

/-- What is proved of the more special query with certain clauses is what is proved of the query with them, where the variables stand for the terms. -/
theorem provedBy_special {P σ w ρ} {atoms : List Node} : ProvedBy P (atoms.map (Node.special σ)) w ρ ↔ ProvedBy P atoms w (through σ ρ) := by
  rw [ProvedBy, insts_special, ProvedBy]

/-- A beginning of a proof of the more special query is one of the query. -/
theorem BegunBy.general {P σ w} {atoms : List Node} : BegunBy P (atoms.map (Node.special σ)) w → BegunBy P atoms w := by
  rintro ⟨ρ, h⟩
  rw [insts_special] at h
  exact ⟨_, h⟩

theorem BeginsBy.append {P w gs} (h : BeginsBy P w gs) (more : List (GAtom ITree)) : BeginsBy P w (gs ++ more) := by
  induction h with
  | nil => exact .nil
  | clause hk _ ih => exact .clause hk (by rwa [List.append_assoc] at ih)
  | own h _ ih => exact .own h ih

/-- A beginning of a proof of the first goals of a query is one of the query. -/
theorem BegunBy.whole {P w} {atoms more : List Node} : BegunBy P atoms w → BegunBy P (atoms ++ more) w := by
  rintro ⟨ρ, h⟩
  exact ⟨ρ, by rw [List.map_append]; exact h.append _⟩

theorem BeginsBy.take {P w gs} (h : BeginsBy P w gs) : ∀ n, BeginsBy P (w.take n) gs := by
  induction h with
  | nil => intro n; rw [List.take_nil]; exact .nil
  | clause hk _ ih =>
    rintro (_ | n)
    · exact .nil
    · exact .clause hk (ih n)
  | own h _ ih => exact fun n => .own h (ih n)

/-- No beginning is longer than there are beginnings. -/
theorem BegunBy.length_lt {P w atoms} (h : BegunBy P atoms w) {L : List (List Nat)} (hL : ∀ w, BegunBy P atoms w → w ∈ L) : w.length < L.length := by
  obtain ⟨ρ, h⟩ := h
  have hn : ((List.range (w.length + 1)).map (w.take ·)).Nodup := by
    rw [List.Nodup, List.pairwise_map]
    refine List.Pairwise.imp_of_mem (fun {a b} ha hb hab e => hab ?_) List.nodup_range
    have := congrArg List.length e
    simp only [List.mem_range] at ha hb
    simp only [List.length_take] at this
    omega
  have := (List.subperm_of_subset hn fun v hv => by
    obtain ⟨n, _, rfl⟩ := List.mem_map.1 hv
    exact hL _ ⟨ρ, h.take n⟩).length_le
  simp at this
  omega

/-- If the beginnings of proofs of one query are among those of another, whose search has ended, its search ends as well. -/
theorem ends_of_begun {o oe o2 o' : Org} {p q1 q2 M N fuel k ts fuel2 k2 ts2 b m} (h : Asked o p q1) (hM : Directed M p q1) (h2 : Asked o2 p q2) (hN : Directed N p q2)
    (hw : ∀ w, BegunBy (inForce p) q2 w → BegunBy (inForce p) q1 w) (hb : AtMost b (inForce p)) (hm : ∀ c ∈ inForce p, c.body.length ≤ m)
    (hr : o.iterate fuel k = .ok (oe, ts)) (hq : oe.queue = []) (hr2 : o2.iterate fuel2 k2 = .ok (o', ts2)) :
    ts2.length ≤ perBeginning b m ts.length q2.length * ts.length ∧ (perBeginning b m ts.length q2.length * ts.length < k2 → o'.queue = []) := by
  classical
  obtain ⟨items, rs, h1, h3, h4⟩ := C42_breadth_first_resolution_partial h hr
  rw [hq] at h4
  obtain rfl := List.length_eq_zero_iff.1 h4
  obtain ⟨L, e, hL⟩ := h1.begun hM
  have e : L.length = ts.length := e.trans h3.length_eq.symm
  have hle : (L.filter fun w => decide (BegunBy (inForce p) q2 w)).length ≤ ts.length := e ▸ List.length_filter_le _ _
  obtain ⟨a1, a2⟩ := C89_most h2 hN (L := L.filter fun w => decide (BegunBy (inForce p) q2 w)) (fun w h => List.mem_filter.2 ⟨hL w (hw w h), by simpa using h⟩) (d := ts.length)
    (fun w h => Nat.le_of_lt (e ▸ (hw w (by simpa using (List.mem_filter.1 h).2)).length_lt hL)) hb hm hr2
  have hmul := Nat.mul_le_mul_left (perBeginning b m ts.length q2.length) hle
  exact ⟨Nat.le_trans a1 hmul, fun hk => a2 (Nat.lt_of_le_of_lt hmul hk)⟩

/-! ## The searches -/

/-- **C90, the end**: when the search for a query has ended after some iterations, the search for a more special query ends after a number of iterations that is bounded by that. -/
theorem C90_ends {o oe o2 o' : Org} {p atoms σ M N fuel k ts fuel2 k2 ts2 b m} (h : Asked o p atoms) (hM : Directed M p atoms) (h2 : Asked o2 p (atoms.map (Node.special σ)))
    (hN : Directed N p (atoms.map (Node.special σ))) (hb : AtMost b (inForce p)) (hm : ∀ c ∈ inForce p, c.body.length ≤ m)
    (hr : o.iterate fuel k = .ok (oe, ts)) (hq : oe.queue = []) (hr2 : o2.iterate fuel2 k2 = .ok (o', ts2)) :
    ts2.length ≤ perBeginning b m ts.length atoms.length * ts.length ∧ (perBeginning b m ts.length atoms.length * ts.length < k2 → o'.queue = []) := by
  have := ends_of_begun h hM h2 hN (fun _ => .general) hb hm hr hq hr2
  rwa [List.length_map] at this

/-- **C90, first goals**: when the search for a query has ended, the search for the first of its goals ends. -/
theorem C90_first {o oe o2 o' : Org} {p atoms more M N fuel k ts fuel2 k2 ts2 b m} (h : Asked o p (atoms ++ more)) (hM : Directed M p (atoms ++ more)) (h2 : Asked o2 p atoms)
    (hN : Directed N p atoms) (hb : AtMost b (inForce p)) (hm : ∀ c ∈ inForce p, c.body.length ≤ m)
    (hr : o.iterate fuel k = .ok (oe, ts)) (hq : oe.queue = []) (hr2 : o2.iterate fuel2 k2 = .ok (o', ts2)) :
    ts2.length ≤ perBeginning b m ts.length atoms.length * ts.length ∧ (perBeginning b m ts.length atoms.length * ts.length < k2 → o'.queue = []) :=
  ends_of_begun h hM h2 hN (fun _ => .whole) hb hm hr hq hr2

/-- **C90, answers**: when both searches have ended, every answer to the more special query is proved with the clauses of one of the answers to the query, different answers with those of different ones;
and these are all answers to the query that show an instance of the more special one. -/
theorem C90_answers {o oe o2 oe2 : Org} {p atoms σ M N fuel k ts fuel2 k2 ts2} (h : Asked o p atoms) (hM : Directed M p atoms) (h2 : Asked o2 p (atoms.map (Node.special σ)))
    (hN : Directed N p (atoms.map (Node.special σ))) (hr : o.iterate fuel k = .ok (oe, ts)) (hq : oe.queue = []) (hr2 : o2.iterate fuel2 k2 = .ok (oe2, ts2)) (hq2 : oe2.queue = []) :
    ∃ ws ws2 : List (List Nat), ws.Nodup ∧ ws2.Nodup ∧ (∀ w, w ∈ ws ↔ ∃ ρ, ProvedBy (inForce p) atoms w ρ) ∧
      (∀ w, w ∈ ws2 ↔ w ∈ ws ∧ ∃ ρ, ProvedBy (inForce p) atoms w (through σ ρ)) ∧
      ((reports ts).filter Res.isAnswer).length = ws.length ∧ ((reports ts2).filter Res.isAnswer).length = ws2.length ∧ ws2.length ≤ ws.length := by
  obtain ⟨ws, a1, a2, a3⟩ := C86_count h hM hr hq
  obtain ⟨ws2, b1, b2, b3⟩ := C86_count h2 hN hr2 hq2
  have key : ∀ w, w ∈ ws2 ↔ w ∈ ws ∧ ∃ ρ, ProvedBy (inForce p) atoms w (through σ ρ) := by
    intro w
    rw [b2, a2]
    constructor
    · rintro ⟨ρ, hw⟩
      exact ⟨⟨_, provedBy_special.1 hw⟩, ρ, provedBy_special.1 hw⟩
    · rintro ⟨_, ρ, hw⟩
      exact ⟨ρ, provedBy_special.2 hw⟩
  exact ⟨ws, ws2, a1, b1, a2, key, a3, b3, (List.subperm_of_subset b1 fun w hw => ((key w).1 hw).1).length_le⟩

/-- **C90, where answers come from**: when the search for a query has ended, every answer to a more special query, whether its search ends or not, shows exactly the instances that one of the answers to
the query shows and that have the terms in the place of the variables. -/
theorem C90_from {o oe o2 o' : Org} {p atoms σ M N fuel k ts fuel2 k2 ts2} (h : Asked o p atoms) (hM : Directed M p atoms) (h2 : Asked o2 p (atoms.map (Node.special σ)))
    (hN : Directed N p (atoms.map (Node.special σ))) (hr : o.iterate fuel k = .ok (oe, ts)) (hq : oe.queue = []) (hr2 : o2.iterate fuel2 k2 = .ok (o', ts2)) {bs2}
    (hb : Res.answer bs2 ∈ reports ts2) :
    ∃ bs S S2, Res.answer bs ∈ reports ts ∧ ShowsInsts o.st atoms fuel bs S ∧ ShowsInsts o2.st (atoms.map (Node.special σ)) fuel2 bs2 S2 ∧
      ∀ ρ, (∃ gs, S2 ρ gs) ↔ ∃ gs, S (through σ ρ) gs := by
  obtain ⟨reps, ws, a1, a2, _, a4⟩ := C86_proofs h hM hr
  obtain ⟨reps2, ws2, b1, b2, _, _⟩ := C86_proofs h2 hN hr2
  obtain ⟨w2, _, rep2, c1, c2⟩ := forall₂_of_mem (forall₂_trans b1 b2) hb
  cases c1 with
  | @answer _ S2 c1 =>
    cases c2 with
    | @answer _ w c2 =>
      obtain ⟨ρ, gs, hg⟩ := c1.some
      have hw := provedBy_special.1 ((c2 ρ).1 ⟨gs, hg⟩)
      obtain ⟨r, hr', rep, d1, d2⟩ := forall₂_of_mem' (forall₂_trans a1 a2) (a4 hq w _ hw)
      cases d2 with
      | @answer S _ d2 =>
        cases d1 with
        | @answer bs _ d1 => exact ⟨bs, S, S2, hr', d1, c1, fun ρ => by rw [c2, d2, provedBy_special]⟩

/-- **C90, false**: when the search for a query has ended without an answer, no more special query is ever answered, whether its search ends or not. -/
theorem C90_none {o oe o2 o' : Org} {p atoms σ M N fuel k ts fuel2 k2 ts2} (h : Asked o p atoms) (hM : Directed M p atoms) (h2 : Asked o2 p (atoms.map (Node.special σ)))
    (hN : Directed N p (atoms.map (Node.special σ))) (hr : o.iterate fuel k = .ok (oe, ts)) (hq : oe.queue = []) (hno : ∀ bs, Res.answer bs ∉ reports ts)
    (hr2 : o2.iterate fuel2 k2 = .ok (o', ts2)) : ∀ bs, Res.answer bs ∉ reports ts2 := by
  intro bs hbs
  obtain ⟨bs, _, _, h1, _⟩ := C90_from h hM h2 hN hr hq hr2 hbs
  exact hno bs h1

/-- **C90, the other way**: an answer to the query that shows an instance with the terms in the place of the variables leads to an answer to the more special query, after some number of iterations. -/
theorem C90_soon {o o1 : Org} {p atoms σ M N fuel k ts} (h : Asked o p atoms) (hM : Directed M p atoms) (hN : Directed N p (atoms.map (Node.special σ)))
    (hr : o.iterate fuel k = .ok (o1, ts)) {bs} (hb : Res.answer bs ∈ reports ts) :
    ∃ S, ShowsInsts o.st atoms fuel bs S ∧ ∀ ρ gs, S (through σ ρ) gs → ∃ K, ∀ {o2 o' : Org} {fuel2 k2 ts2}, Asked o2 p (atoms.map (Node.special σ)) → o2.iterate fuel2 k2 = .ok (o', ts2) →
      K ≤ ts2.length ∨ o'.queue = [] → ∃ bs2 S2, Res.answer bs2 ∈ reports ts2 ∧ ShowsInsts o2.st (atoms.map (Node.special σ)) fuel2 bs2 S2 ∧ ∀ ρ, (∃ gs, S2 ρ gs) ↔ ∃ gs, S (through σ ρ) gs := by
  obtain ⟨reps, ws, a1, a2, _, _⟩ := C86_proofs h hM hr
  obtain ⟨w, _, rep, c1, c2⟩ := forall₂_of_mem (forall₂_trans a1 a2) hb
  cases c1 with
  | @answer _ S c1 =>
    cases c2 with
    | @answer _ w c2 =>
      refine ⟨S, c1, fun ρ gs hg => ?_⟩
      obtain ⟨K, hK⟩ := C86_soon hN (provedBy_special.2 ((c2 _).1 ⟨gs, hg⟩))
      refine ⟨K, fun {o2 o' fuel2 k2 ts2} h2 hr2 hk => ?_⟩
      obtain ⟨bs2, S2, d1, d2, d3⟩ := hK h2 hr2 hk
      cases d3 with
      | answer d3 => exact ⟨bs2, S2, d1, d2, fun ρ => by rw [d3, c2, provedBy_special]⟩

/-- **C90, calls of `get_answer`**: if the calls for a query have gone on until there were no more answers, every answer to a more special query shows what one of the answers to the query shows of it. -/
theorem C90_sessions {o oe o2 o' : Org} {p atoms σ M N fuel clocks rs fuel2 clocks2 rs2} (h : Asked o p atoms) (hM : Directed M p atoms) (h2 : Asked o2 p (atoms.map (Node.special σ)))
    (hN : Directed N p (atoms.map (Node.special σ))) (hs : o.session fuel clocks = .ok (oe, rs)) (hl : rs.getLast? = some .noAnswer) (hs2 : o2.session fuel2 clocks2 = .ok (o', rs2)) {bs2}
    (hb : Res.answer bs2 ∈ rs2) :
    ∃ bs S S2, Res.answer bs ∈ rs ∧ ShowsInsts o.st atoms fuel bs S ∧ ShowsInsts o2.st (atoms.map (Node.special σ)) fuel2 bs2 S2 ∧
      ∀ ρ, (∃ gs, S2 ρ gs) ↔ ∃ gs, S (through σ ρ) gs := by
  obtain ⟨ts, a1, a2⟩ := C05_timeouts_transparent h.reach hs
  obtain ⟨ts2, b1, b2⟩ := C05_timeouts_transparent h2.reach hs2
  obtain ⟨bs, S, S2, c1, c2⟩ := C90_from h hM h2 hN a1 (session_exhausted hs hl h.reach.rinv) b1 (b2 ▸ List.mem_filter.2 ⟨hb, rfl⟩)
  exact ⟨bs, S, S2, (List.mem_filter.1 (a2 ▸ c1)).1, c2⟩

/-! ## Concrete cases -/

namespace SpecialExamples
open SoundExamples AppendExamples

/-- `[a]` in the place of `X` -/
def withA : Name → Node := fun x => if x = n!"X" then .list [.cons n!"a"] else .var x

/-- The hypotheses are met by `append(X, Y, [a,b])` and `append([a], Y, [a,b])`: both searches end, after 9 and 6 iterations, with three answers and with one. -/
example : splits.map (Node.special withA) = [.fn n!"append" [.list [.cons n!"a"], .var n!"Y", .list [.cons n!"a", .cons n!"b"]]] ∧
    Asked (demo [] splits) [] splits ∧ Directed .free [] splits ∧
    Asked (demo [] (splits.map (Node.special withA))) [] (splits.map (Node.special withA)) ∧ Directed .free [] (splits.map (Node.special withA)) ∧
    ((demo [] splits).iterate 20 100).toOption.map (fun r => (r.2.length, r.1.queue, (reports r.2).length)) = some (9, [], 3) ∧
    ((demo [] (splits.map (Node.special withA))).iterate 20 100).toOption.map (fun r => (r.2.length, r.1.queue, reports r.2)) = some (6, [], [.answer [⟨n!"Y", n!"[b]"⟩]]) :=
  ⟨rfl, asked_demo (by decide +kernel) (by decide +kernel) (safe_of_b (by decide +kernel)) (by decide) (by simp [splits]) (by decide +kernel),
   OnlyClauses.directed ⟨by decide, by decide⟩,
   asked_demo (by decide +kernel) (by decide +kernel) (safe_of_b (by decide +kernel)) (by decide) (by simp [splits]) (by decide +kernel),
   OnlyClauses.directed ⟨by decide, by decide⟩, by decide +kernel, by decide +kernel⟩

/-- `append(X, [b], Z)` -/
def joins : List Node := [.fn n!"append" [.var n!"X", .list [.cons n!"b"], .var n!"Z"]]

/-- A list of `n` times `a`, and then something. -/
def as (e : ITree) : Nat → ITree
  | 0 => e
  | n + 1 => itreeAlg.fn n!"[" [itreeAlg.cons n!"a", as e n]

/-- The converse does not hold: the search for `append([a], [b], Z)` ends, but the search for `append(X, [b], Z)` never does. -/
theorem C90_not_back : Asked (demo [] joins) [] joins ∧ Directed .free [] joins ∧ Asked (demo [] (joins.map (Node.special withA))) [] (joins.map (Node.special withA)) ∧
    ((demo [] (joins.map (Node.special withA))).iterate 20 100).toOption.map (fun r => r.1.queue) = some [] ∧
    ∀ {o o' : Org} {fuel k ts}, Asked o [] joins → o.iterate fuel k = .ok (o', ts) → o'.queue ≠ [] := by
  have hM : Directed .free [] joins := OnlyClauses.directed ⟨by decide, by decide⟩
  refine ⟨asked_demo (by decide +kernel) (by decide +kernel) (safe_of_b (by decide +kernel)) (by decide) (by simp [joins]) (by decide +kernel), hM,
    asked_demo (by decide +kernel) (by decide +kernel) (safe_of_b (by decide +kernel)) (by decide) (by simp [joins]) (by decide +kernel), by decide +kernel, fun {o o' fuel k ts} h hr hq => ?_⟩
  have hb : ∀ (e y : ITree) n, BeginsBy (inForce []) (List.replicate n 1) [⟨n!"append", [as e n, y, as e n]⟩] := by
    intro e y n
    induction n with
    | zero => exact .nil
    | succ n ih =>
      exact BeginsBy.clause (P := inForce []) (k := 1) (c := appendClauses[1])
        (σ := fun x => if x = n!"X" then itreeAlg.cons n!"a" else if x = n!"Ys" then y else as e n) (rest := []) rfl ih
  have := C89_least h hM hr hq (L := (List.range (ts.length + 1)).map (List.replicate · 1)) (by
    rw [List.Nodup, List.pairwise_map]
    refine List.nodup_range.imp fun {a b} hab h => hab ?_
    simpa using congrArg List.length h) (fun w hw => by
    obtain ⟨j, _, rfl⟩ := List.mem_map.1 hw
    exact ⟨fun _ => as (itreeAlg.int 0) j, hb (itreeAlg.int 0) _ j⟩)
  simp at this
  omega

end SpecialExamples
end PBfs
