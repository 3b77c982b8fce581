import Verif.Props.Parser
import Verif.Proof.ParserPos
import Verif.Proof.Source
/-! # C60: where syntax errors are reported -/
namespace PBfs

/-- `c` is the beginning of a correct program. -/
def Continuable (c : List Char) : Prop := ∃ v p, ProgText p (c ++ v)

theorem lastRow_mono {a b c d : List Char} (h : a ++ b = c ++ d) (hl : a.length ≤ c.length) : lastRow a ≤ lastRow c := by
  rw [lastRow_eq, lastRow_eq]
  have : a <+: c := List.prefix_of_prefix_length_le (l₃ := a ++ b) ⟨b, rfl⟩ ⟨d, h.symm⟩ hl
  have := List.Sublist.count_le '\n' this.sublist
  omega

/-- **C60.** The position reported for a program lies after every correct program at the beginning of the text, and what stands before it is the
beginning of a correct program. -/
theorem C60_position {text pos : List Char} (h : parseProgram text = .error pos) :
    ∃ u, text = u ++ pos ∧ Continuable u ∧ ∀ a b p, text = a ++ b → ProgText p a → a.length ≤ u.length := by
  obtain ⟨u, v, p, rfl, hp⟩ := parseProgram_viable h
  refine ⟨u, rfl, ⟨v, p, hp⟩, fun a b q e ha => ?_⟩
  rw [e] at h
  have h1 := parseProgram_beyond h ha
  have h2 := congrArg List.length e
  simp only [List.length_append] at h2
  omega

/-- **C60.** The row shown with "Syntax error in program line …" is not before the end of the correct clauses in front and not after the first point
up to which the text cannot be continued to a correct program. -/
theorem C60_row {text pos : List Char} (h : parseProgram text = .error pos) :
    (∀ a b p, text = a ++ b → ProgText p a → lastRow a ≤ errorRow text pos) ∧
    ∀ c d, text = c ++ d → ¬ Continuable c → errorRow text pos ≤ lastRow c := by
  obtain ⟨u, rfl, ⟨v, p, hp⟩, h2⟩ := C60_position h
  rw [errorRow_eq]
  refine ⟨fun a b q e ha => lastRow_mono e.symm (h2 a b q e ha), fun c d e hc => lastRow_mono e ?_⟩
  rcases Nat.le_total u.length c.length with hl | hl
  · exact hl
  · obtain ⟨x, rfl⟩ : c <+: u := List.prefix_of_prefix_length_le (l₃ := u ++ pos) ⟨d, e.symm⟩ ⟨pos, rfl⟩ hl
    exact absurd ⟨x ++ v, p, by simpa using hp⟩ hc

/-- **C60.** A text is rejected only if it cannot be read, so such a point exists. -/
theorem C60_error_iff {text : List Char} : (∃ pos, parseProgram text = .error pos) ↔ ∀ p, ¬ ProgText p text := by
  constructor
  · rintro ⟨pos, h⟩ p hp
    rw [parseProgram_complete hp] at h
    cases h
  · intro h
    cases hp : parseProgram text with
    | ok p => exact absurd (parseProgram_sound hp) (h p)
    | error pos => exact ⟨pos, rfl⟩
    | blank =>
      exfalso
      unfold parseProgram at hp
      split at hp
      · split at hp <;> cases hp
      all_goals cases hp

/-- **C60.** The same for queries: what stands before the position is the beginning of a correct query. -/
theorem C60_query {text pos : List Char} (h : parseQuery text = .error pos) : ∃ u v q, text = u ++ pos ∧ QueryText q (u ++ v) :=
  parseQuery_viable h

/-- **C60.** The row need not be that of the mistake: if the body of a clause cannot be read, its `:-` is reported.  Here the text is correct up
to the dot in the second row. -/
theorem C60_row_not_exact : parseProgram n!"p :-\n  Q.\n" = .error n!":-\n  Q.\n" ∧ errorRow n!"p :-\n  Q.\n" n!":-\n  Q.\n" = 1 ∧
    Continuable n!"p :-\n  Q" ∧ lastRow n!"p :-\n  Q" = 2 :=
  ⟨by decide +kernel, by decide +kernel, ⟨n!" == a.", [⟨.cons n!"p", [.fn n!"==" [.var n!"Q", .cons n!"a"]]⟩], parseProgram_iff.1 (by decide +kernel)⟩,
    by decide +kernel⟩

/-- C60, concrete texts: a missing parenthesis, a missing argument, a missing operand, a missing dot, a comment without end, a stray character;
a list and a second goal that cannot be read. -/
theorem C60_samples : parseProgram n!"p(a).\nq(b\nr(c)." = .error n!"r(c)." ∧ parseProgram n!"p( , a)." = .error n!" , a)." ∧
    parseProgram n!"p(X) :- X is 1 + ." = .error n!" ." ∧ parseProgram n!"p(a)\nq(b)." = .error n!"q(b)." ∧
    parseProgram n!"p. % a" = .error [] ∧ parseProgram n!"p.\n ?" = .error n!"?" ∧ parseProgram n!"p([a, ?])." = .error n!"[a, ?])." ∧
    parseProgram n!"p :- q, R." = .error n!", R." ∧ parseQuery n!" p(X) q." = .error n!"q." ∧ parseQuery n!" P." = .error n!"P." := by
  refine ⟨?_, ?_, ?_, ?_, ?_, ?_, ?_, ?_, ?_, ?_⟩ <;> decide +kernel

/-- … and the row of the first of them. -/
example : errorRow n!"p(a).\nq(b\nr(c)." n!"r(c)." = 3 := by decide +kernel

end PBfs
