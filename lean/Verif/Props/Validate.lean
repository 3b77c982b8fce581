import Verif.Model.Validate
import Verif.Props.Source
import Verif.Props.Position
/-! # Checking texts without loading them -/
namespace PBfs
open Org

/-- **C64.** `validate_program` finds no error exactly if the text is a program of the grammar. -/
theorem C64_program {text : List Char} : validateProgram text = .empty ↔ ∃ p, ProgText p text := by
  unfold validateProgram
  constructor
  · intro h
    cases hp : parseProgram text with
    | ok p => exact ⟨p, parseProgram_sound hp⟩
    | error pos => rw [hp] at h; cases h
    | blank =>
      exfalso
      unfold parseProgram at hp
      split at hp
      · split at hp <;> cases hp
      all_goals cases hp
  · rintro ⟨p, hp⟩
    rw [parseProgram_complete hp]; rfl

/-- **C64.** The error it finds is the one that `load_program` reports for this text, in whatever state the interpreter is. -/
theorem C64_program_same {text : List Char} (h : validateProgram text ≠ .empty) (o : Org) (ord : HashOrder) :
    o.programReport ord text = validateProgram text := by
  unfold validateProgram at h ⊢
  unfold Org.programReport
  rw [← parseProgramAt_erase] at h ⊢
  cases hp : parseProgramAt text with
  | ok p => rw [hp] at h; exact absurd rfl h
  | error pos => rfl
  | blank => rfl

/-- The compiler does not report syntax errors. -/
def NotParse {α} (m : CR α) : Prop := ∀ st, m ≠ .error (.parse, st)

theorem NotParse.bind {α β} {m : CR α} {k : α → CR β} (h : NotParse m) (hk : ∀ a, NotParse (k a)) : NotParse (m >>= k) := by
  intro st he
  cases m with
  | error e => cases he; exact h _ rfl
  | ok a => exact hk a st he

theorem NotParse.pure {α} (a : α) : NotParse (Pure.pure a : CR α) := fun st h => by cases h

theorem Only.notParse {α} {m : CR α} (h : Only m) : NotParse m := fun _ he => by cases h _ _ he

theorem OnlyUndefined.notParse {α} {m : CR α} (h : OnlyUndefined m) : NotParse m := fun _ he => by rcases h _ _ he with e | e <;> cases e

theorem compileClause_notParse {ord b head body st} : NotParse (compileClause ord b head body st) := by
  unfold compileClause
  by_cases hr : (!b && redefines head) = true
  · simp only [hr, if_true]
    intro st h
    cases h
  · simp only [hr]
    cases body with
    | nil => exact (toProgram_only.notParse).bind fun _ => .pure _
    | cons a as =>
      exact toProgram_only.notParse.bind fun _ => toQuery_onlyUndefined.notParse.bind fun _ => compileQueryAtoms_onlyUndefined.notParse.bind fun _ => .pure _

theorem compileProgram_notParse {ord : HashOrder} : ∀ {cs p st}, NotParse (compileProgram ord cs p st) := by
  intro cs
  induction cs with
  | nil => intro p st; exact .pure _
  | cons c cs ih => intro p st; exact compileClause_notParse.bind fun _ => ih

theorem load_notParse {m : Except (CErr × Storage) α} (h : NotParse m) {e st} (he : m = .error (e, st)) : Org.Load.ofErr e ≠ .rejected .parse := by
  intro hl
  cases e with
  | parse => exact h _ he
  | _ => cases hl

/-- **C64.** In a text that it lets pass, `load_program` finds no syntax error (it may find others, see `C64_samples`). -/
theorem C64_program_passes {text : List Char} (h : validateProgram text = .empty) (o : Org) (ord : HashOrder) (row : Nat) :
    o.programReport ord text ≠ .error .parse row := by
  intro he
  have hs := (C62_same o ord text).1
  obtain ⟨p, hp⟩ := C64_program.1 h
  rw [he] at hs
  unfold Org.loadProgramText at hs
  rw [parseProgram_complete hp] at hs
  simp only [Org.loadProgram] at hs
  cases hc : compileProgram ord p [] o.st with
  | ok r => rw [hc] at hs; cases hs
  | error e =>
    rw [hc] at hs
    exact load_notParse compileProgram_notParse hc hs.symm

/-- **C64 (part that holds).** `validate_query` finds no error exactly if the text, with a dot unless there is one, is a query of the grammar, or a query followed by more
text.  Missing: the text behind the dot should be found (`C64_trailing_missed`). -/
theorem C64_query_partial {text : List Char} : validateQuery text = .empty ↔
    (∃ q, QueryText q (appendDot text)) ∨ ∃ q ts us, GoalsSyn q ts ∧ us ≠ [] ∧ Spell (ts ++ .sym ['.'] :: us) (appendDot text) := by
  unfold validateQuery
  constructor
  · intro h
    cases hp : parseQuery (appendDot text) with
    | ok q => exact .inl ⟨q, parseQuery_sound hp⟩
    | error pos => rw [hp] at h; cases h
    | blank => exact .inr (C41_trailing_text.1 hp)
  · rintro (⟨q, hq⟩ | hq)
    · rw [parseQuery_complete hq]; rfl
    · rw [C41_trailing_text.2 hq]; rfl

/-- **C64.** The error that `validate_query` finds is the one that `load_query` reports for this text, in whatever state the interpreter is. -/
theorem C64_query_same {text : List Char} (h : validateQuery text ≠ .empty) (o : Org) (ord : HashOrder) :
    o.queryReport ord text = validateQuery text := by
  unfold validateQuery at h ⊢
  unfold Org.queryReport
  rw [← parseQueryAt_erase] at h ⊢
  cases hp : parseQueryAt (appendDot text) with
  | ok p => rw [hp] at h; exact absurd rfl h
  | error pos => rfl
  | blank => rfl

/-- **C64.** In a text that it lets pass, `load_query` finds no syntax error. -/
theorem C64_query_passes {text : List Char} (h : validateQuery text = .empty) (o : Org) (ord : HashOrder) (row : Nat) :
    o.queryReport ord text ≠ .error .parse row := by
  intro he
  have hs := (C62_same o ord text).2
  rw [he] at hs
  unfold validateQuery at h
  unfold Org.loadQueryText at hs
  cases hp : parseQuery (appendDot text) with
  | ok q =>
    rw [hp] at hs
    simp only [Org.loadQuery] at hs
    cases hc : compileQuery ord q o.st with
    | ok r => rw [hc] at hs; cases hs
    | error e =>
      rw [hc] at hs
      exact load_notParse (compileQueryAtoms_onlyUndefined.notParse.bind fun _ => .pure _) hc hs.symm
  | error pos => rw [hp] at h; cases h
  | blank => rw [hp] at hs; cases hs

/-- **C60, the row reported for a program** is the row about which `C60_row` speaks. -/
theorem C60_program_row {o : Org} {ord : HashOrder} {text : List Char} {row : Nat} (h : o.programReport ord text = .error .parse row) :
    (∃ u pos, parseProgram text = .error pos ∧ text = u ++ pos ∧ Continuable u ∧ row = lastRow u) ∧
    (∀ a b p, text = a ++ b → ProgText p a → lastRow a ≤ row) ∧ ∀ c d, text = c ++ d → ¬ Continuable c → row ≤ lastRow c := by
  have hv : validateProgram text ≠ .empty := fun he => C64_program_passes he o ord row h
  have h' := (C64_program_same hv o ord).symm.trans h
  unfold validateProgram at h'
  cases hp : parseProgram text with
  | ok q => rw [hp] at h'; cases h'
  | blank => rw [hp] at h'; cases h'
  | error pos =>
    have hr : o.programReport ord text = .error .parse (errorRow text pos) := by
      unfold Org.programReport
      have := hp
      rw [← parseProgramAt_erase] at this
      cases ha : parseProgramAt text with
      | ok q => rw [ha] at this; cases this
      | error pos' => rw [ha] at this; cases this; rfl
      | blank => rw [ha] at this; cases this
    rw [hr] at h
    cases h
    obtain ⟨u, hu, hc, _⟩ := C60_position hp
    exact ⟨⟨u, pos, rfl, hu, hc, by rw [hu, errorRow_eq]⟩, C60_row hp⟩

/-- `c` is the beginning of a correct query. -/
def QContinuable (c : List Char) : Prop := ∃ v q, QueryText q (c ++ v)

/-- **C60, the row reported for a query.** "Syntax error in query line …" names the row of the place where the parser stopped in the text with its dot; what stands
before it is the beginning of a correct query, so it is not after the first point up to which the text cannot be continued to a correct query. -/
theorem C60_query_row {o : Org} {ord : HashOrder} {text : List Char} {row : Nat} (h : o.queryReport ord text = .error .parse row) :
    (∃ u pos, parseQuery (appendDot text) = .error pos ∧ appendDot text = u ++ pos ∧ QContinuable u ∧ row = lastRow u) ∧
    ∀ c d, appendDot text = c ++ d → ¬ QContinuable c → row ≤ lastRow c := by
  have hv : validateQuery text ≠ .empty := fun he => C64_query_passes he o ord row h
  have h' := (C64_query_same hv o ord).symm.trans h
  unfold validateQuery at h'
  cases hp : parseQuery (appendDot text) with
  | ok q => rw [hp] at h'; cases h'
  | blank => rw [hp] at h'; cases h'
  | error pos =>
    have hr : o.queryReport ord text = .error .parse (errorRow (appendDot text) pos) := by
      unfold Org.queryReport
      have := hp
      rw [← parseQueryAt_erase] at this
      cases ha : parseQueryAt (appendDot text) with
      | ok q => rw [ha] at this; cases this
      | error pos' => rw [ha] at this; cases this; rfl
      | blank => rw [ha] at this; cases this
    rw [hr] at h
    cases h
    obtain ⟨u, v, q, hu, hq⟩ := C60_query hp
    have e : errorRow (appendDot text) pos = lastRow u := by rw [hu, errorRow_eq]
    refine ⟨⟨u, pos, rfl, hu, ⟨v, q, hq⟩, e⟩, fun c d hc hn => ?_⟩
    rw [e]
    refine lastRow_mono (hu.symm.trans hc) ?_
    rcases Nat.le_total u.length c.length with hl | hl
    · exact hl
    · obtain ⟨x, rfl⟩ : c <+: u := List.prefix_of_prefix_length_le (l₃ := u ++ pos) ⟨d, (hu.symm.trans hc).symm⟩ ⟨pos, rfl⟩ hl
      exact absurd ⟨x ++ v, q, by simpa using hq⟩ hn

/-- C60, a query without a dot whose second row cannot be read. -/
theorem C60_query_sample : Org.init0.queryReport id n!"p(X), q(\n)" = .error .parse 1 ∧ Org.init0.queryReport id n!"p(X)\nq" = .error .parse 2 := by
  decide +kernel

/-- **C64 is false in general**: `p. q` is no query, but no error is found. -/
theorem C64_trailing_missed : validateQuery n!"p. q" = .empty ∧ ∀ q, ¬ QueryText q (appendDot n!"p. q") := by
  refine ⟨by decide +kernel, fun q hq => ?_⟩
  have h := parseQuery_complete hq
  have : parseQuery (appendDot n!"p. q") = .blank := by decide +kernel
  rw [this] at h
  cases h

/-- C64, concrete texts: the errors of the tests (test/parser/program.cpp:14-24, test/parser/query.cpp:14-33); texts that pass and cannot be
loaded, as a variable is not defined or a built-in predicate is defined anew. -/
theorem C64_samples : validateProgram n!"f(a) :- f(b)." = .empty ∧ validateProgram n!"f(a) :- f(b) X.\nf(a) :- f(b), f(c)" = .error .parse 1 ∧
    validateQuery n!"f(a), f(b), d." = .empty ∧ validateQuery n!"DFS, LKJ, f(b), d." = .error .parse 1 ∧ validateQuery n!"aa)." = .error .parse 1 ∧
    validateProgram n!"p(a).\nq(\n" = .error .parse 2 ∧
    validateProgram n!"q :- X is Y + 1." = .empty ∧ Org.init0.programReport id n!"q :- X is Y + 1." = .error .undefinedVar 1 ∧
    validateProgram n!"append(a,b,c)." = .empty ∧ Org.init0.programReport id n!"append(a,b,c)." = .error .redefinition 1 ∧
    validateQuery n!"X is Y + 1" = .empty ∧ Org.init0.queryReport id n!"X is Y + 1" = .error .undefinedVar 1 := by
  decide +kernel

end PBfs
