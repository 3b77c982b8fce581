import Verif.Props.Linear
import Verif.Props.Append
import Verif.Props.Printing
/-! # Programs that respect modes: ground answers; splitting lists -/
namespace PBfs
open Org

mutual
/-- A term whose value does not depend on the open variables is ground. -/
theorem OTerm.ground_of_eval {D} {A : Alg D} (S : A.Sharp) {I : Int → FV} {ω ω' : Nat → D} (hω : ∀ a, ω a ≠ ω' a) :
    ∀ t : OTerm, t.eval A I ω = t.eval A I ω' → t.ground = true
  | .var a, h => absurd h (hω a)
  | .cons _, _ => rfl
  | .int _, _ => rfl
  | .fn _ ts, h => OTerm.grounds_of_evals S hω ts (S.fn_inj h).2
  | .efn _ ts, h => OTerm.grounds_of_evals S hω ts (S.efn_inj h).2
theorem OTerm.grounds_of_evals {D} {A : Alg D} (S : A.Sharp) {I : Int → FV} {ω ω' : Nat → D} (hω : ∀ a, ω a ≠ ω' a) :
    ∀ ts : List OTerm, OTerm.evals A I ω ts = OTerm.evals A I ω' ts → OTerm.grounds ts = true
  | [], _ => rfl
  | t :: ts, h => by
    simp only [OTerm.evals, List.cons.injEq] at h
    rw [OTerm.grounds, OTerm.ground_of_eval S hω t h.1, OTerm.grounds_of_evals S hω ts h.2]; rfl
end

mutual
theorem OTerm.eval_ground {D} {A : Alg D} {I : Int → FV} {ω ω' : Nat → D} : ∀ t : OTerm, t.ground = true → t.eval A I ω = t.eval A I ω'
  | .var a, h => by cases h
  | .cons _, _ => rfl
  | .int _, _ => rfl
  | .fn f ts, h => by rw [OTerm.eval, OTerm.eval, OTerm.evals_ground ts h]
  | .efn f ts, h => by rw [OTerm.eval, OTerm.eval, OTerm.evals_ground ts h]
theorem OTerm.evals_ground {D} {A : Alg D} {I : Int → FV} {ω ω' : Nat → D} : ∀ ts : List OTerm, OTerm.grounds ts = true →
    OTerm.evals A I ω ts = OTerm.evals A I ω' ts
  | [], _ => rfl
  | t :: ts, h => by
    simp only [OTerm.grounds, Bool.and_eq_true] at h
    rw [OTerm.evals, OTerm.evals, OTerm.eval_ground t h.1, OTerm.evals_ground ts h.2]
end

/-- **C57**: the outputs are ground.  If by the modes the goals of the query ground its variables `R`, then in every answer these variables
have ground terms, which together with some values of the others make the query provable over finite trees; and if such a term has a text, then
this text is shown for the variable. -/
theorem C57_answers_ground {o o' : Org} {p atoms M R fuel clocks rs bs} (h : Asked o p atoms) (hpr : Printable o.st) (hl : WellModed M p atoms)
    (hR : M.Chain R [] atoms) (hs : o.session fuel clocks = .ok (o', rs)) (hb : Org.Res.answer bs ∈ rs) :
    ∃ (pre : Nat → Option Cell) (hp : Hp) (L : List (Name × Nat)) (ρ : Name → Tree), Prints (stringRep pre hp o.st L fuel false) L bs ∧
      (∀ v, v ∈ L.map (·.1) ↔ ∃ a ∈ atoms, v ∈ Node.varss a.children) ∧
      (∀ x ∈ L, x.1 ∈ R → ∃ t, Reads (hp.at? pre) x.2 t ∧ t.ground = true ∧ ∀ ω, t.eval treeAlg (interpOf o.st) ω = ρ x.1) ∧
      (∀ a ∈ atoms, Proves treeAlg (inForce p) (a.inst treeAlg ρ)) ∧
      ∀ b ∈ bs, b.name ∈ R → ∀ s, Text (ρ b.name) s → b.value = s := by
  obtain ⟨pre, hp, L, hr, ⟨σ', m'⟩, hset⟩ := ((h.tame hl hR).2.session h.work.1 hpr (h.tame hl hR).1 clocks h.work.2).2 fuel o' rs bs hs hb
  have F := hr.2
  have hfin := F.good.reads_of m'
  obtain ⟨σ, m, hω⟩ := solve_finite treeAlg (interpOf o.st) F.good.dom hfin fun _ => .int 0
  obtain ⟨ρ, hρ⟩ := F.agree Tree treeAlg σ m
  have hgr : ∀ x ∈ L, x.1 ∈ R → ∃ t, Reads (hp.at? pre) x.2 t ∧ t.ground = true ∧ ∀ ω, t.eval treeAlg (interpOf o.st) ω = ρ x.1 := by
    intro x hx hxR
    obtain ⟨t, ht⟩ := hfin x.2 (F.lt x hx)
    obtain ⟨τ, n, hτ⟩ := solve_finite itreeAlg (interpOf o.st) F.good.dom hfin fun _ => itreeAlg.int 0
    obtain ⟨τ', n', hτ'⟩ := solve_finite itreeAlg (interpOf o.st) F.good.dom hfin fun _ => itreeAlg.int 1
    have hg : t.ground = true := OTerm.ground_of_eval itreeAlg_sharp (I := interpOf o.st) (ω := fun _ => itreeAlg.int 0) (ω' := fun _ => itreeAlg.int 1)
      (fun _ he => absurd (itreeAlg_sharp.int_inj he) (by decide)) t (by
        rw [← ht.eval n hτ, ← ht.eval n' hτ']
        exact hset τ τ' n n' x hx hxR)
    refine ⟨t, ht, hg, fun ω => ?_⟩
    rw [← hρ x hx, ht.eval m hω]
    exact OTerm.eval_ground t hg
  refine ⟨pre, hp, L, ρ, hr.prints, F.names, hgr, F.sound Tree treeAlg σ ρ m hρ, fun b hb' hbR s htx => ?_⟩
  obtain ⟨a, h1, h2⟩ := hr.prints.value b hb'
  obtain ⟨t, ht, hg, he⟩ := hgr _ h1 hbR
  rw [← he fun _ => .int 0] at htx
  rcases (C28_ground_text (L := L) hpr h.stOK F.good (F.lt _ h1) ht hg htx).2 fuel with hh | hh
  · rw [show (ctxOf o (interpOf o.st) p atoms).st = o.st from rfl, hh] at h2; cases h2
  · rw [show (ctxOf o (interpOf o.st) p atoms).st = o.st from rfl, hh] at h2; cases h2; rfl

/-! ## Concrete cases -/

namespace ModedExamples
open SoundExamples CompleteExamples

/-- `rev([],[]).  rev([X|Xs],Zs) :- rev(Xs,Ys), append(Ys,[X],Zs).` -/
def rev : List Clause :=
  [⟨.fn n!"rev" [.nil, .nil], []⟩,
   ⟨.fn n!"rev" [.fn n!"[" [.var n!"X", .var n!"Xs"], .var n!"Zs"],
    [.fn n!"rev" [.var n!"Xs", .var n!"Ys"], .fn n!"append" [.var n!"Ys", .list [.var n!"X"], .var n!"Zs"]]⟩]

/-- `rev([a,b],R)` -/
def askRev : List Node := [.fn n!"rev" [.list [.cons n!"a", .cons n!"b"], .var n!"R"]]

/-- `rev` goes from its first argument to its second, `append` from its first two to its third. -/
def forth : Modes where
  ins f i := if f = ⟨n!"rev", 2⟩ then i == 0 else if f = ⟨n!"append", 3⟩ then i == 0 || i == 1 else false
  outs f i := if f = ⟨n!"rev", 2⟩ then i == 1 else if f = ⟨n!"append", 3⟩ then i == 2 else false

/-- The hypotheses of C57 are met, by clauses with repeated variables in the head, to which C56 does not apply. -/
example : Asked (demo rev askRev) rev askRev ∧ Printable (demo rev askRev).st ∧ WellModed forth rev askRev ∧ forth.Chain [n!"R"] [] askRev ∧
    ¬ MayCall rev askRev ⟨n!"is", 2⟩ ∧ OnlyClauses rev askRev ∧ ¬ NoRepeats rev askRev ∧
    (demo rev askRev).reportsOf 40 20 = some [.answer [⟨n!"R", n!"[b,a]"⟩]] := by
  refine ⟨asked_demo (by decide +kernel) (by decide +kernel) (safe_of_b (by decide +kernel)) (by decide) (by simp [askRev]) (by decide +kernel),
    ⟨by decide +kernel, by decide +kernel, by decide +kernel, by decide +kernel⟩,
    .of [⟨n!"rev", 2⟩, ⟨n!"append", 3⟩] ⟨fun _ => rfl, fun _ => rfl, fun _ _ => rfl⟩ (by decide) (by decide) (by decide), by decide,
    NoArith.notCalled ⟨by decide, by decide⟩, ⟨by decide, by decide⟩, fun h => ?_, by decide +kernel⟩
  have hf : inForce rev = rev ++ appendClauses := rfl
  refine absurd (h ⟨.fn n!"append" [.nil, .var n!"List2", .var n!"List2"], []⟩ (by rw [hf]; simp [appendClauses]) ?_) (by decide)
  exact .body (c := ⟨.fn n!"rev" [.fn n!"[" [.var n!"X", .var n!"Xs"], .var n!"Zs"],
    [.fn n!"rev" [.var n!"Xs", .var n!"Ys"], .fn n!"append" [.var n!"Ys", .list [.var n!"X"], .var n!"Zs"]]⟩)
    (b := .fn n!"append" [.var n!"Ys", .list [.var n!"X"], .var n!"Zs"]) (by rw [hf]; simp [rev]) (.query (a := .fn n!"rev" [.list [.cons n!"a", .cons n!"b"], .var n!"R"]) (by simp [askRev])) (by simp)

/-- `len([],0).  len([X|Xs],N) :- len(Xs,M), N is M + 1.` -/
def len : List Clause :=
  [⟨.fn n!"len" [.nil, .int 0], []⟩,
   ⟨.fn n!"len" [.fn n!"[" [.var n!"X", .var n!"Xs"], .var n!"N"],
    [.fn n!"len" [.var n!"Xs", .var n!"M"], .fn n!"is" [.var n!"N", .efn n!"+" [.var n!"M", .int 1]]]⟩]

/-- `len([a,b],N), N == 2` -/
def askLen : List Node := [.fn n!"len" [.list [.cons n!"a", .cons n!"b"], .var n!"N"], .fn n!"==" [.var n!"N", .int 2]]

def count : Modes where
  ins f i := (f == ⟨n!"len", 2⟩ && i == 0) || (f == ⟨n!"is", 2⟩ && i == 1) || (f == ⟨n!"==", 2⟩)
  outs f i := (f == ⟨n!"len", 2⟩ && i == 1) || (f == ⟨n!"is", 2⟩ && i == 0)

/-- The same with arithmetic and comparison. -/
example : Asked (demo len askLen) len askLen ∧ Printable (demo len askLen).st ∧ WellModed count len askLen ∧ count.Chain [n!"N"] [] askLen ∧
    (demo len askLen).reportsOf 40 20 = some [.answer [⟨n!"N", n!"2"⟩]] := by
  refine ⟨asked_demo (by decide +kernel) (by decide +kernel) (safe_of_b (by decide +kernel)) (by decide) (by simp [askLen]) (by decide +kernel),
    ⟨by decide +kernel, by decide +kernel, by decide +kernel, by decide +kernel⟩,
    .of [⟨n!"len", 2⟩, ⟨n!"is", 2⟩, ⟨n!"==", 2⟩] ⟨fun i => rfl, fun i => rfl, fun i hi => ?_⟩ (by decide) (by decide) (by decide), by decide,
    by decide +kernel⟩
  simp [count, hi]

end ModedExamples

open LinearExamples in
/-- Some condition is needed: for the program and the query of `C56_needed`, whose second turn does not end, no modes will do. -/
theorem C57_needed (M : Modes) : ¬ WellModed M same askSame := by
  intro h
  obtain ⟨N, hN⟩ := C57_calls_end (C56_needed [] [] 0).1 (C56_needed [] [] 0).2.1 h [[false, false]]
  exact hN N (Nat.le_refl _) (C56_needed [] [] N).2.2

end PBfs
