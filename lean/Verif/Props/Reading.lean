import Verif.Proof.Reading4
import Verif.Proof.Reading7
/-!
# C72: how long reading a text takes
-/
namespace PBfs

/-- The steps are those of the parser: without them, its rules are exactly those of the model of the grammar. -/
theorem C72_same_parser (n : Nat) (s : List Char) :
    (elementT n s).res = elementP n s ∧ (atomT n s).res = atomP n s ∧ (clauseT n s).res = clauseP n s ∧ (lineT n s).res = lineP n s :=
  ⟨elementT_res n s, atomT_res n s, clauseT_res n s, lineT_res n s⟩

/-- Whatever the text is, accepted or not, reading it as a program takes at most linearly many steps in its length, times a power of two with the number
of brackets around each other in it. -/
theorem C72_program (text : List Char) : programSteps text ≤ 320 * 2 ^ nesting text * (text.length + 1) := programSteps_all text

/-- The same for queries; here only the beginning of the text counts. -/
theorem C72_query (text : List Char) : querySteps text ≤ 320 * 2 ^ height text * (text.length + 1) := querySteps_all text

/-- For accepted programs the depth of the lists counts, however many brackets stand in comments. -/
theorem C72_accepted_program {text p} (h : parseProgram text = .ok p) : programSteps text ≤ 128 * 2 ^ listDepthOf p * (text.length + 1) :=
  programSteps_le h

/-- And for accepted queries. -/
theorem C72_accepted_query {text as} (h : parseQuery text = .ok as) : querySteps text ≤ 128 * 2 ^ Node.listDepths as * (text.length + 1) :=
  querySteps_le h

/-- The depth is at most what is seen in the text. -/
theorem C72_depth_sample : nesting n!"p([[a],[b|X]], [c]).\n% [[[[\n" = 4 ∧
    parseProgram n!"p([[a],[b|X]], [c]).\n% [[[[\n" = .ok [⟨.fn n!"p" [.list [.list [.cons n!"a"], .listWith (.var n!"X") [.cons n!"b"]], .list [.cons n!"c"]], []⟩] ∧
    listDepthOf [⟨.fn n!"p" [.list [.list [.cons n!"a"], .listWith (.var n!"X") [.cons n!"b"]], .list [.cons n!"c"]], []⟩] = 2 := by
  refine ⟨by decide +kernel, ?_, by decide +kernel⟩
  rfl

/-- Texts in which no bracket stands inside of another one are read in linear time, accepted or not. -/
theorem C72_flat_text {text} (h : nesting text ≤ 1) : programSteps text ≤ 640 * (text.length + 1) := by
  have h1 := programSteps_all text
  have h2 : 2 ^ nesting text ≤ 2 ^ 1 := Nat.pow_le_pow_right (by decide) h
  have h3 : 320 * 2 ^ nesting text * (text.length + 1) ≤ 640 * (text.length + 1) := Nat.mul_le_mul_right _ (by omega)
  omega

/-- In particular a program in which no list has a list as an element is read in linear time. -/
theorem C72_flat {text p} (h : parseProgram text = .ok p) (hd : ∀ c ∈ p, c.listDepth ≤ 1) : programSteps text ≤ 256 * (text.length + 1) := by
  have h1 : listDepthOf p ≤ 1 := by
    clear h
    induction p with
    | nil => exact Nat.zero_le _
    | cons c p ih =>
      have := hd c (by simp)
      have := ih fun c hc => hd c (by simp [hc])
      simp only [listDepthOf]
      omega
  have h2 := programSteps_le h
  have h3 : 2 ^ listDepthOf p ≤ 2 ^ 1 := Nat.pow_le_pow_right (by decide) h1
  have h4 : 128 * 2 ^ listDepthOf p * (text.length + 1) ≤ 256 * (text.length + 1) := Nat.mul_le_mul_right _ (by omega)
  omega

/-- The hypothesis is met by an ordinary program; its steps counted. -/
theorem C72_flat_sample : parseProgram n!"app([], L, L).\napp([H|T], L, [H|R]) :- app(T, L, R).\n" =
      .ok [⟨.fn n!"app" [.nil, .var n!"L", .var n!"L"], []⟩,
        ⟨.fn n!"app" [.fn n!"[" [.var n!"H", .var n!"T"], .var n!"L", .fn n!"[" [.var n!"H", .var n!"R"]], [.fn n!"app" [.var n!"T", .var n!"L", .var n!"R"]]⟩] ∧
    programSteps n!"app([], L, L).\napp([H|T], L, [H|R]) :- app(T, L, R).\n" = 412 := by
  refine ⟨?_, by decide +kernel⟩
  rfl

/-- But the power of two is real: the program `p([…[[X|X]|X]…|X]).` with `n` brackets is `4 * n + 5` characters long, is accepted, and is read in at least
`2 ^ n` steps.  The list is read once by the rule for lists without `|`, which fails at the `|`, and again by the rule for lists with it. -/
theorem C72_exponential (n : Nat) : (nestedProgram n).length = 4 * n + 5 ∧ nesting (nestedProgram n) = n ∧
    parseProgram (nestedProgram n) = .ok [⟨.fn n!"p" [nestedTerm n], []⟩] ∧ 2 ^ n ≤ programSteps (nestedProgram n) :=
  ⟨nestedProgram_length n, nestedProgram_nesting n, nested_program n⟩

/-- So no polynomial bounds the steps, not even for accepted programs. -/
theorem C72_no_polynomial : ¬ ∃ c d : Nat, ∀ text p, parseProgram text = .ok p → programSteps text ≤ c * (text.length + 1) ^ d := by
  intro ⟨c, d, h⟩
  obtain ⟨n, hn⟩ := beats c d
  obtain ⟨h1, _, h2, h3⟩ := C72_exponential n
  have := h _ _ h2
  rw [h1] at this
  have h4 : 2 ^ n ≤ c * (4 * n + 6) ^ d := Nat.le_trans h3 this
  omega

/-- And for the query that consists of `n` opening brackets, which is rejected. -/
theorem C72_open_brackets (n : Nat) : 2 ^ n ≤ querySteps (List.replicate n '[') := open_query n

/-- The steps for the first of these texts. -/
theorem C72_witness : programSteps n!"p([[[[X|X]|X]|X]|X])." = 400 ∧ programSteps n!"p([[[[[X|X]|X]|X]|X]|X])." = 800 ∧
    querySteps n!"[[[[" = 884 ∧ querySteps n!"[[[[[" = 1796 := by
  decide +kernel

end PBfs
