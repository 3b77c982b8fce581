import Verif.Props.Complete
/-! # C18: `append/3` -/
namespace PBfs

/-- The list with the elements `es` and the end `tl`. -/
def listTo {D} (A : Alg D) (es : List D) (tl : D) : D := es.foldr (fun x l => A.fn n!"[" [x, l]) tl

/-- The proper list with the elements `es`. -/
def properList {D} (A : Alg D) (es : List D) : D := listTo A es (A.fn n!"[" [])

theorem append_fwd {D} {A : Alg D} {p : List Clause} {g} (h : Proves A (inForce p) g) :
    ∀ a b c, g = ⟨n!"append", [a, b, c]⟩ → ∃ es, a = properList A es ∧ c = listTo A es b := by
  induction h with
  | eq => intro a b c h; cases h
  | neq => intro a b c h; cases h
  | is => intro a b c h; cases h
  | @clause cl ρ hc _ ih =>
    intro a b c h
    rw [inForce, List.mem_append] at hc
    rcases hc with hc | hc
    · exfalso
      have h2 := (List.mem_filter.1 hc).2
      have hn : cl.head.name = n!"append" := congrArg GAtom.name h
      have hl : cl.head.children.length = 3 := by
        have := congrArg (fun g => g.args.length) h
        simpa [Node.inst, evals_length] using this
      have : cl.head.fv = ⟨n!"append", 3⟩ := by
        unfold Node.fv; rw [hn, hl]
      rw [this] at h2
      revert h2; decide
    · simp only [appendClauses, List.mem_cons, List.not_mem_nil, or_false] at hc
      rcases hc with rfl | rfl
      · cases h
        exact ⟨[], rfl, rfl⟩
      · cases h
        obtain ⟨es, h1, h2⟩ := ih _ (List.mem_singleton.2 rfl) _ _ _ rfl
        simp only [Node.eval] at h1 h2
        refine ⟨ρ n!"X" :: es, ?_, ?_⟩
        · show A.fn _ [_, ρ n!"Xs"] = _
          rw [h1]; rfl
        · show A.fn _ [_, ρ n!"Rs"] = _
          rw [h2]; rfl

theorem append_bwd {D} (A : Alg D) (p : List Clause) (es : List D) (b : D) :
    Proves A (inForce p) ⟨n!"append", [properList A es, b, listTo A es b]⟩ := by
  induction es with
  | nil =>
    exact Proves.clause (A := A) (c := ⟨.fn n!"append" [.nil, .var n!"List2", .var n!"List2"], []⟩) (ρ := fun _ => b)
      (by simp [inForce, appendClauses]) (fun _ h => by cases h)
  | cons e es ih =>
    have := Proves.clause (A := A) (P := inForce p)
      (c := ⟨.fn n!"append" [.fn n!"[" [.var n!"X", .var n!"Xs"], .var n!"Ys", .fn n!"[" [.var n!"X", .var n!"Rs"]],
        [.fn n!"append" [.var n!"Xs", .var n!"Ys", .var n!"Rs"]]⟩)
      (ρ := fun n => if n = n!"X" then e else if n = n!"Xs" then properList A es else if n = n!"Ys" then b else listTo A es b)
      (by simp [inForce, appendClauses]) (by
        intro x hx
        simp only [List.mem_singleton] at hx
        subst hx
        exact ih)
    exact this

/-- **C18, derivability.** In every program and over every interpretation of the symbols, `append(a,b,c)` follows from the clauses in force exactly if `a`
is a proper list and `c` is this list with its end replaced by `b`. -/
theorem C18_append_is_concatenation {D} (A : Alg D) (p : List Clause) (a b c : D) :
    Proves A (inForce p) ⟨n!"append", [a, b, c]⟩ ↔ ∃ es, a = properList A es ∧ c = listTo A es b :=
  ⟨fun h => append_fwd h a b c rfl, fun ⟨es, h1, h2⟩ => by rw [h1, h2]; exact append_bwd A p es b⟩

/-- **C18, answers.** Every answer to a query `append(X,Y,Z)`, with any terms in place of `X`, `Y`, `Z`, in any (safe) program,
describes concatenations only: under every solution of the heap it shows, the value of `Z` is the proper list that `X` is, with its end
replaced by the value of `Y`. -/
theorem C18_answers_are_concatenations {o o' : Org} {p x y z fuel clocks rs bs} (h : Asked o p [.fn n!"append" [x, y, z]])
    (hs : o.session fuel clocks = .ok (o', rs)) (hb : Org.Res.answer bs ∈ rs) :
    ∃ pre hp L, WF o.st pre hp ∧ Prints (stringRep pre hp o.st L fuel false) L bs ∧
      ∀ (D : Type) (A : Alg D) (σ : Nat → D), Mod (toIAlg A (interpOf o.st)) (hp.at? pre) σ →
        ∃ (ρ : Name → D) (es : List D), (∀ v ∈ L, ρ v.1 = σ v.2) ∧
          x.eval A ρ = properList A es ∧ z.eval A ρ = listTo A es (y.eval A ρ) := by
  obtain ⟨pre, hp, L, h1, h2, _, h3, _⟩ := C01_answers_sound_partial h hs hb
  refine ⟨pre, hp, L, h1, h2, fun D A σ m => ?_⟩
  obtain ⟨ρ, r1, r2⟩ := h3 D A σ m
  obtain ⟨es, e1, e2⟩ := (C18_append_is_concatenation A p _ _ _).1 (r2 _ (List.mem_singleton.2 rfl))
  exact ⟨ρ, es, r1, e1, e2⟩

/-- **C18, all splits are found.** If a ground instance of `append(X,Y,Z)` is a concatenation, then some answer has it as an
instance: it is among the answers of every exhausted session, and (unless the interpreter loops inside one step) it is reported
after finitely many steps.  Missing: excluding these loops, which come from the missing occurs check. -/
theorem C18_all_splits_partial {o : Org} {p x y z} (h : Asked o p [.fn n!"append" [x, y, z]])
    (hb : OnlyClauses p [.fn n!"append" [x, y, z]]) (hpr : Printable o.st) {ρ : Name → Tree} {es : List Tree}
    (hx : x.eval treeAlg ρ = properList treeAlg es) (hz : z.eval treeAlg ρ = listTo treeAlg es (y.eval treeAlg ρ)) :
    (∀ fuel clocks o' rs, o.session fuel clocks = .ok (o', rs) → rs.getLast? = some .noAnswer →
      ∃ bs, Org.Res.answer bs ∈ rs ∧ HasInstance o.st [.fn n!"append" [x, y, z]] fuel bs ρ) ∧
    ((∃ k, ∀ fuel, o.iterate fuel k = .error .hang) ∨
      ∃ k fuel0 bs, HasInstance o.st [.fn n!"append" [x, y, z]] fuel0 bs ρ ∧ ∀ fuel, fuel0 ≤ fuel →
        ∃ j o' rs, j ≤ k ∧ o.session fuel (List.replicate j (List.replicate k false)) = .ok (o', rs) ∧
          rs.getLast? = some (.answer bs)) := by
  have hp : ∀ a ∈ [Node.fn n!"append" [x, y, z]], Proves treeAlg (inForce p) (a.inst treeAlg ρ) := by
    intro a ha
    simp only [List.mem_singleton] at ha
    subst ha
    exact (C18_append_is_concatenation treeAlg p _ _ _).2 ⟨es, hx, hz⟩
  refine ⟨fun fuel clocks o' rs hs hl => C03_false_conclusive_partial h hb hs hl hp, ?_⟩
  rcases C02_complete_partial h hb hpr hp with h1 | ⟨k, f, bs, h1, h2⟩
  · exact .inl h1
  · exact .inr ⟨k, f, bs, h1, fun fuel hf => (h2 fuel hf).2⟩

namespace AppendExamples
open SoundExamples

/-- `append(X, Y, [a,b])` -/
def splits : List Node := [.fn n!"append" [.var n!"X", .var n!"Y", .list [.cons n!"a", .cons n!"b"]]]

/-- The hypotheses are met; the three splits are enumerated. -/
example : Asked (demo [] splits) [] splits ∧ OnlyClauses [] splits ∧ Printable (demo [] splits).st ∧
    (demo [] splits).reportsOf 20 20 = some [
      .answer [⟨n!"X", n!"[]"⟩, ⟨n!"Y", n!"[a,b]"⟩],
      .answer [⟨n!"X", n!"[a]"⟩, ⟨n!"Y", n!"[b]"⟩],
      .answer [⟨n!"X", n!"[a,b]"⟩, ⟨n!"Y", n!"[]"⟩]] :=
  ⟨asked_demo (by decide +kernel) (by decide +kernel) (safe_of_b (by decide +kernel)) (by decide) (by simp [splits]) (by decide +kernel),
   ⟨by decide, by decide⟩, ⟨by decide +kernel, by decide +kernel, by decide +kernel, by decide +kernel⟩, by decide +kernel⟩

end AppendExamples
end PBfs
