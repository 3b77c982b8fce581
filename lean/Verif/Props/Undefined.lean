import Verif.Proof.Faults
import Verif.Props.Resolution
/-! # What can be undefined -/
namespace PBfs
open Org

theorem Work.iterate_fault {X : Ctx} (ok : X.OK) (hpr : Printable X.st) {fuel : Nat} : ∀ {k : Nat} {o : Org} {is x}, Work X o → Queued X o is →
    o.iterate fuel k = .error x → x = .hang ∨ ∃ j o' ts rs td S is', j < k ∧ o.iterate fuel j = .ok (o', ts) ∧
      SRun X.P is rs (.own ⟨n!"is", 2⟩ td S :: is') ∧ List.Forall₂ (Tells X fuel) ts rs ∧ S.Always fun _ e => Undefined x e := by
  intro k
  induction k with
  | zero => intro o is x w hs h; cases h
  | succ k ih =>
    intro o is x w hs h
    unfold Org.iterate at h
    split at h
    · cases h
    · rename_i id q hq
      cases is with
      | nil => unfold Queued at hs; rw [hq] at hs; cases hs
      | cons i is =>
        rcases error_of_bind h with h | ⟨⟨o1, t⟩, h1, h⟩
        · rcases w.fault ok hpr hq hs h with h | ⟨td, S, rfl, h⟩
          · exact .inl h
          · exact .inr ⟨0, o, [], [], td, S, is, by omega, rfl, .nil, .nil, h⟩
        · rcases error_of_bind h with h | ⟨_, _, h⟩
          · obtain ⟨news, r, s1, s2, s3⟩ := w.resolves ok hq hs h1
            rcases ih (w.next ok h1) s3 h with h | ⟨j, o', ts, rs, td, S, is', hj, r1, r2, r3, r4⟩
            · exact .inl h
            · refine .inr ⟨j + 1, o', t :: ts, r :: rs, td, S, is', by omega, ?_, .cons s1 r2, .cons s2 r3, r4⟩
              unfold Org.iterate
              rw [hq]
              simp only [h1, ok_bind, r1]
              rfl
          · cases h

/-- A session goes wrong only if an iteration of the main loop does. -/
theorem session_fault {o : Org} {fuel clocks x} (hr : Reach o) (h : o.session fuel clocks = .error x) : ∃ k, o.iterate fuel k = .error x := by
  have ans : ∀ {clock : List Bool} {o : Org}, o.getAnswer fuel clock = .error x → ∃ k, o.iterate fuel k = .error x := by
    intro clock
    induction clock with
    | nil => intro o h; unfold Org.getAnswer at h; split at h <;> cases h
    | cons c clock ih =>
      intro o h
      unfold Org.getAnswer at h
      split at h
      · cases h
      · rename_i id q hq
        cases c with
        | true => cases h
        | false =>
          simp only at h
          rcases error_of_bind h with h | ⟨⟨o1, t⟩, h1, h⟩
          · refine ⟨1, ?_⟩
            unfold Org.iterate
            rw [hq]
            simp only [h]; rfl
          · cases t with
            | «continue» =>
              obtain ⟨k, hk⟩ := ih h
              refine ⟨k + 1, ?_⟩
              unfold Org.iterate
              rw [hq]
              simp only [h1, ok_bind, hk]; rfl
            | answer => cases h
            | error => cases h
  have hi := hr.rinv
  clear hr
  induction clocks generalizing o with
  | nil => cases h
  | cons c cs ih =>
    rw [Org.session] at h
    rcases error_of_bind h with h | ⟨⟨o1, r⟩, h1, h⟩
    · exact ans h
    · rcases error_of_bind h with h | ⟨_, _, h⟩
      · obtain ⟨ts, ht, _⟩ := (getAnswer_iterate hi).2 _ _ h1
        obtain ⟨k, hk⟩ := ih h (hi.getAnswer h1)
        refine ⟨ts.length + k, ?_⟩
        rw [iterate_add, ht]
        simp only [ok_bind] at hk ⊢
        rw [hk]; rfl
      · cases h

/-- **C34 with arithmetic (part that holds)**: the same for programs with `is`.  Whatever goes wrong in a session, apart from a loop that
does not end, goes wrong in a call of `is`: the search comes, after the same reports, to a call of `is` whose expression, in all its
instances, has a result that does not fit into 32 bits, or is not arithmetic, so that an error is to be reported.
Missing: programs with clauses that are compiled wrongly, tables of more than 32768 names. -/
theorem C34_defined_is_partial {o : Org} {p atoms} (h : Asked o p atoms) (hpr : Printable o.st) (fuel : Nat) (clocks) :
    o.session fuel clocks = .error .hang ∨ (∃ r, o.session fuel clocks = .ok r) ∨
    ∃ x, o.session fuel clocks = .error x ∧ ∃ j o' ts rs td S items, o.iterate fuel j = .ok (o', ts) ∧
      SRun (inForce p) [.goals (atoms.map (.goal ·.fv)) (Insts.query atoms)] rs (.own ⟨n!"is", 2⟩ td S :: items) ∧
      List.Forall₂ (Says o.st atoms fuel) ts rs ∧ S.Always fun _ e => Undefined x e := by
  cases hs : o.session fuel clocks with
  | ok r => exact .inr (.inl ⟨r, rfl⟩)
  | error x =>
    obtain ⟨k, hk⟩ := session_fault h.reach hs
    rcases h.work.2.iterate_fault h.work.1 hpr h.queued hk with rfl | ⟨j, o', ts, rs, td, S, is', _, r1, r2, r3, r4⟩
    · exact .inl rfl
    · exact .inr (.inr ⟨x, rfl, j, o', ts, rs, td, S, is', r1, r2, r3.imp fun _ _ => Tells.says, r4⟩)

namespace UndefinedExamples
open SoundExamples CompleteExamples

/-- `p(X) :- q(Y), X is Y+1.  q(41).  q(2147483647).` -/
def succ : List Clause :=
  [⟨.fn n!"p" [.var n!"X"], [.fn n!"q" [.var n!"Y"], .fn n!"is" [.var n!"X", .efn n!"+" [.var n!"Y", .int 1]]]⟩,
   ⟨.fn n!"q" [.int 41], []⟩, ⟨.fn n!"q" [.int 2147483647], []⟩]

/-- The hypotheses of C34 with arithmetic are met by a program of which one call of `get_answer` gives an answer and the next one is undefined,
... -/
example : Asked (demo succ askLoop) succ askLoop ∧ Printable (demo succ askLoop).st ∧
    ((demo succ askLoop).session 20 [List.replicate 20 false]).toOption.map (·.2) = some [.answer [⟨n!"X", n!"42"⟩]] ∧
    faultOf ((demo succ askLoop).session 20 [List.replicate 20 false, List.replicate 20 false]) = some .overflow :=
  ⟨asked_demo (by decide +kernel) (by decide +kernel) (safe_of_b (by decide +kernel)) (by decide) (by simp [askLoop]) (by decide +kernel),
   ⟨by decide +kernel, by decide +kernel, by decide +kernel, by decide +kernel⟩, by decide +kernel, by decide +kernel⟩

/-- ... and by the query `X is a`, the error of which cannot be reported. -/
example : Asked (demo [] [.fn n!"is" [.var n!"X", .cons n!"a"]]) [] [.fn n!"is" [.var n!"X", .cons n!"a"]] ∧
    Printable (demo [] [.fn n!"is" [.var n!"X", .cons n!"a"]]).st ∧
    faultOf ((demo [] [.fn n!"is" [.var n!"X", .cons n!"a"]]).session 20 [List.replicate 20 false]) = some .memory :=
  ⟨asked_demo (by decide +kernel) (by decide +kernel) (safe_of_b (by decide +kernel)) (by decide) (by simp) (by decide +kernel),
   ⟨by decide +kernel, by decide +kernel, by decide +kernel, by decide +kernel⟩, C34_is_message⟩

/-- Sums are too big exactly if they do not fit. -/
example : TooBig treeAlg (treeAlg.efn n!"+" [.int 2147483647, .int 1]) ∧ ¬ TooBig treeAlg (treeAlg.efn n!"+" [.int 2147483646, .int 1]) := by
  refine ⟨.op (a := 2147483647) (b := 1) .int .int (by decide) (by intro h; cases h) fun v h => ?_, fun h => ?_⟩
  · generalize hn : n!"+" = n at h
    cases h <;> try cases hn
    omega
  · have S := treeAlg_sharp
    generalize hx : treeAlg.efn n!"+" [.int 2147483646, .int 1] = x at h
    have no : ∀ {v}, ¬ TooBig treeAlg (.int v) := by
      intro v h
      generalize hy : Tree.int v = y at h
      cases h <;> cases hy
    cases h with
    | left h => cases hx; exact no h
    | right _ h => cases hx; exact no h
    | op h1 h2 _ _ h3 =>
      cases hx
      cases h1.int_inv S
      cases h2.int_inv S
      have := h3 _ .add
      omega

end UndefinedExamples

end PBfs
