import Verif.Proof.UnifyTerm
import Verif.Proof.Check
import Verif.Proof.DerefHang
/-!
# C09, C10, C11: unification

`WF st pre h`: the heap `h` on top of the parents' heap `pre` is well-formed (all pointers inside, no
endless reference chains, structures complete, cells from the symbol storage `st`).  `TreeSol I H σ`:
giving every address the ground term `σ` makes every cell of the heap right.
-/
namespace PBfs

/-- A well-formed heap. -/
def WF (st : Storage) (pre : Nat → Option Cell) (h : Hp) : Prop :=
  Good (ValidCell st) (h.at? pre) h.size h.size

/-- `σ` assigns ground terms to the addresses such that every cell of the heap describes its term. -/
def TreeSol (I : Int → FV) (H : HV) (σ : Nat → Tree) : Prop := Mod (toIAlg treeAlg I) H σ

/-- **C09** A successful `unify` produces a well-formed heap whose ground solutions are exactly the
solutions of the old heap that make both terms equal; only unbound variables were bound, and in *any*
interpretation of the symbols both terms are equal afterwards. -/
theorem C09_unify_exact {st : Storage} {I} (s : StOK st) (hI : Interp I st) {pre h fuel a b r}
    (wf : WF st pre h) (ha : a < h.size) (hb : b < h.size)
    (hr : unify pre fuel h a b = .ok r) (hok : r.ok = true) :
    WF st pre r.hp ∧ r.hp.size = h.size ∧ BindExt (h.at? pre) (r.hp.at? pre) ∧
    (∀ σ, TreeSol I (r.hp.at? pre) σ ↔ TreeSol I (h.at? pre) σ ∧ σ a = σ b) ∧
    (∀ {D : Type} (A : Alg D) σ, Mod (toIAlg A I) (r.hp.at? pre) σ →
      Mod (toIAlg A I) (h.at? pre) σ ∧ σ a = σ b) := by
  rcases unify_spec (ValidCell.laws s) (n := fuel) wf ha hb with ⟨r', hr', p⟩ | hh
  · rw [hr] at hr'; cases hr'
    refine ⟨?_, p.size, p.ext, fun σ => ⟨fun m => ?_, fun m => ?_⟩, fun A σ m => ?_⟩
    · have := p.good; unfold WF; rw [p.size]; exact this
    · have := p.sound hok _ σ m
      exact ⟨this.1, this.2.1⟩
    · exact (p.complete _ σ (treeAlg_free s hI) m.1 ⟨m.2, trivial⟩).2
    · have := p.sound hok _ σ m
      exact ⟨this.1, this.2.1⟩
  · rw [hr] at hh; cases hh

/-- **C10** If `unify` fails, no assignment of ground terms makes the two terms equal. -/
theorem C10_unify_fail_conclusive {st : Storage} {I} (s : StOK st) (hI : Interp I st) {pre h fuel a b r}
    (wf : WF st pre h) (ha : a < h.size) (hb : b < h.size)
    (hr : unify pre fuel h a b = .ok r) (hfail : r.ok = false) :
    ¬ ∃ σ, TreeSol I (h.at? pre) σ ∧ σ a = σ b := by
  rintro ⟨σ, m, e⟩
  rcases unify_spec (ValidCell.laws s) (n := fuel) wf ha hb with ⟨r', hr', p⟩ | hh
  · rw [hr] at hr'; cases hr'
    have := (p.complete _ σ (treeAlg_free s hI) m ⟨e, trivial⟩).1
    rw [hfail] at this; cases this
  · rw [hr] at hh; cases hh

/-- `unify` on a well-formed heap never does anything undefined: it gives a result or does not end. -/
theorem C09_unify_defined {st : Storage} (s : StOK st) {pre h fuel a b}
    (wf : WF st pre h) (ha : a < h.size) (hb : b < h.size) :
    (∃ r, unify pre fuel h a b = .ok r) ∨ unify pre fuel h a b = .error .hang := by
  rcases unify_spec (ValidCell.laws s) (n := fuel) wf ha hb with ⟨r', hr', _⟩ | hh
  · exact .inl ⟨r', hr'⟩
  · exact .inr hh

/-- **C11, part that holds.** If the two terms have a common finite instance, `unify` terminates, with
success, after at most as many iterations as this instance has nodes.  Missing: termination without
such an instance, which is false, see `C11_unify_may_hang`. -/
theorem C11_unify_terminates_partial {st : Storage} {I} (s : StOK st) (hI : Interp I st) {pre h a b σ}
    (wf : WF st pre h) (ha : a < h.size) (hb : b < h.size)
    (m : TreeSol I (h.at? pre) σ) (e : σ a = σ b) :
    ∃ r, r.ok = true ∧ ∀ fuel, (σ a).size ≤ fuel → unify pre fuel h a b = .ok r := by
  have ht : ∀ fuel, (σ a).size ≤ fuel → unify pre fuel h a b ≠ .error .hang := by
    intro fuel hf
    exact unifyLoop_terminates s hI fuel h [a, b] σ wf (by simp [ha, hb]) (by simp) m ⟨e, trivial⟩
      (by simpa [pdlWeight] using hf)
  rcases unify_spec (ValidCell.laws s) (n := (σ a).size) wf ha hb with ⟨r, hr, p⟩ | hh
  · refine ⟨r, (p.complete _ σ (treeAlg_free s hI) m ⟨e, trivial⟩).1, fun fuel hf => ?_⟩
    exact (unifyLoop_mono _ fuel h [a, b] hf (ht _ (Nat.le_refl _))).trans hr
  · exact absurd hh (ht _ (Nat.le_refl _))

/-! ## Concrete cases -/

namespace UnifyExamples

/-- Symbols `f/3`, `g/1` and variables `X`, `Y`. -/
def st : Storage := ⟨[⟨n!"f", 3⟩, ⟨n!"g", 1⟩], [n!"X", n!"Y"]⟩

/-- `f(X,X,Y)` at address 0 and `f(Y,g(X),g(Y))` at address 4. -/
def cyc : Hp := ⟨0, [], [.fn 0 3, .ref 1 0, .ref 1 0, .ref 3 1, .fn 0 3, .ref 3 1, .str 8, .str 10,
  .fn 1 1, .ref 1 0, .fn 1 1, .ref 3 1]⟩

/-- The same after the second and third arguments have been unified. -/
def cyc' : Hp := ⟨0, [], [.fn 0 3, .ref 8 0, .ref 1 0, .ref 10 1, .fn 0 3, .ref 3 1, .str 8, .str 10,
  .fn 1 1, .ref 1 0, .fn 1 1, .ref 3 1]⟩

theorem st_ok : StOK st := ⟨by decide, by decide⟩

theorem cyc_wf : WF st (fun _ => none) cyc := good_of_check (by decide)

theorem loop2 (n : Nat) : unifyLoop (fun _ => none) (n + 1) cyc' [9, 11] =
    unifyLoop (fun _ => none) n cyc' [11, 9] := by rfl
theorem loop3 (n : Nat) : unifyLoop (fun _ => none) (n + 1) cyc' [11, 9] =
    unifyLoop (fun _ => none) n cyc' [9, 11] := by rfl

theorem loop (n : Nat) : unifyLoop (fun _ => none) n cyc' [9, 11] = .error .hang ∧
    unifyLoop (fun _ => none) n cyc' [11, 9] = .error .hang := by
  induction n with
  | zero => exact ⟨rfl, rfl⟩
  | succ n ih => exact ⟨(loop2 n).trans ih.2, (loop3 n).trans ih.1⟩

theorem start (n : Nat) : unify (fun _ => none) (n + 4) cyc 0 4 = unifyLoop (fun _ => none) n cyc' [9, 11] := by
  rfl

/-- `f(X,Y)` at 0 and `f(g(Y),…)`: a case where unification succeeds and binds. -/
def fin : Hp := ⟨0, [], [.fn 1 1, .ref 1 0, .fn 1 1, .str 4, .fn 1 1, .ref 5 1]⟩

theorem fin_wf : WF st (fun _ => none) fin := good_of_check (by decide)

/-- `g(Y)` in ground form. -/
def gt (t : Tree) : Tree := .fn n!"g" [t]

/-- A ground solution of `fin` with both terms equal: `Y = c`, `X = g(c)`. -/
def finSol : Nat → Tree
  | 0 => gt (gt (.cons n!"c"))
  | 1 => gt (.cons n!"c")
  | 2 => gt (gt (.cons n!"c"))
  | 3 => gt (.cons n!"c")
  | 4 => gt (.cons n!"c")
  | _ => .cons n!"c"

end UnifyExamples

open UnifyExamples in
/-- **C11 is false in general**: `f(X,X,Y)` and `f(Y,g(X),g(Y))` make `unify` loop forever (there is no
occurs check, and the cyclic terms are then compared endlessly). -/
theorem C11_unify_may_hang : WF st (fun _ => none) cyc ∧
    ∀ fuel, unify (fun _ => none) fuel cyc 0 4 = .error .hang := by
  refine ⟨cyc_wf, fun n => ?_⟩
  by_contra hne
  have h4 := unifyLoop_mono n (n + 4) cyc [0, 4] (by omega) hne
  have : unify (fun _ => none) (n + 4) cyc 0 4 = .error .hang := (start n).trans (loop n).1
  exact hne (h4.symm.trans this)

open UnifyExamples in
/-- The hypotheses of C09 and C11 are met: `g(X)` and `g(g(Y))` unify. -/
example : ∃ I r σ, StOK st ∧ Interp I st ∧ WF st (fun _ => none) fin ∧ TreeSol I (fin.at? fun _ => none) σ ∧
    σ 0 = σ 2 ∧ unify (fun _ => none) 5 fin 0 2 = .ok r ∧ r.ok = true := by
  refine ⟨fun i => if i = 0 then ⟨n!"f", 3⟩ else ⟨n!"g", 1⟩, ⟨_, true⟩, finSol, st_ok, ?_, fin_wf, ?_, rfl,
    rfl, rfl⟩
  · intro k fv h
    rcases k with _ | _ | k
    · cases h; rfl
    · cases h; rfl
    · simp [st] at h
  · intro a c h
    have ha : a < 6 := by
      by_contra hn
      simp [Hp.at?, fin, hn] at h
    have : a = 0 ∨ a = 1 ∨ a = 2 ∨ a = 3 ∨ a = 4 ∨ a = 5 := by omega
    rcases this with rfl | rfl | rfl | rfl | rfl | rfl <;>
      (simp [Hp.at?, fin] at h; subst h;
       simp [CellEq, finSol, toIAlg, treeAlg, argVals, gt])

open UnifyExamples in
/-- The hypotheses of C10 are met: `f(X,X,Y)` and `g(X)` do not unify. -/
example : WF st (fun _ => none) cyc ∧ ∃ r, unify (fun _ => none) 5 cyc 0 8 = .ok r ∧ r.ok = false :=
  ⟨cyc_wf, ⟨_, false⟩, rfl, rfl⟩

end PBfs
