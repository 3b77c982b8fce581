import Verif.Proof.ParserComplete
import Verif.Props.Sound
import Verif.Props.Complete
import Verif.Props.Load
import Verif.Props.Text
/-! # Properties of the parser, and of loading texts -/
namespace PBfs

/-! ## C41: the parser accepts exactly the documented language -/

/-- **C41.** A text is read as the program `p` exactly if it is a text of `p`: a sequence of comments and clauses of the
grammar with arbitrary white space between the tokens. -/
theorem C41_program_text {text : List Char} {p : List Clause} : parseProgram text = .ok p ↔ ProgText p text := parseProgram_iff

/-- **C41**, queries. -/
theorem C41_query_text {text : List Char} {q : List Node} : parseQuery text = .ok q ↔ QueryText q text := parseQuery_iff

theorem char_range {lo hi : Nat} {l : List Char} (h : ∀ n, n < hi + 1 → (lo ≤ n ↔ Char.ofNat n ∈ l)) (hl : ∀ c ∈ l, c.toNat ≤ hi) (c : Char) :
    (lo ≤ c.toNat ∧ c.toNat ≤ hi) ↔ c ∈ l := by
  constructor
  · rintro ⟨h1, h2⟩
    have := (h c.toNat (by omega)).1 h1
    rwa [Char.ofNat_toNat] at this
  · intro hc
    have h2 := hl c hc
    refine ⟨(h c.toNat (by omega)).2 ?_, h2⟩
    rwa [Char.ofNat_toNat]

/-- **C41.** The characters the grammar speaks of, one by one. -/
theorem C41_characters (c : Char) :
    (isLower c = true ↔ c ∈ n!"abcdefghijklmnopqrstuvwxyz") ∧
    (isUpper c = true ↔ c ∈ n!"ABCDEFGHIJKLMNOPQRSTUVWXYZ") ∧
    (isDigit c = true ↔ c ∈ n!"0123456789") ∧
    (isWord c = true ↔ c ∈ n!"abcdefghijklmnopqrstuvwxyzABCDEFGHIJKLMNOPQRSTUVWXYZ_0123456789") ∧
    (isSpace c = true ↔ c ∈ [' ', '\t', '\n', '\r', '\x0b', '\x0c']) := by
  have le : ∀ a b : Char, a ≤ b ↔ a.toNat ≤ b.toNat := fun a b => Iff.rfl
  have hl : isLower c = true ↔ c ∈ n!"abcdefghijklmnopqrstuvwxyz" := by
    rw [← char_range (lo := 97) (hi := 122) (by decide) (by decide)]
    simp only [isLower, Bool.and_eq_true, decide_eq_true_eq, le]; rfl
  have hu : isUpper c = true ↔ c ∈ n!"ABCDEFGHIJKLMNOPQRSTUVWXYZ" := by
    rw [← char_range (lo := 65) (hi := 90) (by decide) (by decide)]
    simp only [isUpper, Bool.and_eq_true, decide_eq_true_eq, le]; rfl
  have hd : isDigit c = true ↔ c ∈ n!"0123456789" := by
    rw [← char_range (lo := 48) (hi := 57) (by decide) (by decide)]
    simp only [isDigit, Bool.and_eq_true, decide_eq_true_eq, le]; rfl
  refine ⟨hl, hu, hd, ?_, ?_⟩
  · have e : n!"abcdefghijklmnopqrstuvwxyzABCDEFGHIJKLMNOPQRSTUVWXYZ_0123456789" =
        n!"abcdefghijklmnopqrstuvwxyz" ++ n!"ABCDEFGHIJKLMNOPQRSTUVWXYZ" ++ ['_'] ++ n!"0123456789" := rfl
    rw [e]
    simp only [isWord, Bool.or_eq_true, hl, hu, hd, decide_eq_true_eq, List.mem_append, List.mem_singleton]
  · simp only [isSpace, Bool.or_eq_true, decide_eq_true_eq, List.mem_cons, List.not_mem_nil, or_false, or_assoc]

/-- **C41.** No text has two readings. -/
theorem C41_unambiguous {text : List Char} : (∀ {p p'}, ProgText p text → ProgText p' text → p = p') ∧
    ∀ {q q'}, QueryText q text → QueryText q' text → q = q' := by
  constructor
  · intro p p' h h'
    have h1 := parseProgram_complete h
    rw [parseProgram_complete h'] at h1
    cases h1; rfl
  · intro q q' h h'
    have h1 := parseQuery_complete h
    rw [parseQuery_complete h'] at h1
    cases h1; rfl

/-- **C41.** Parsing ends on every text (the bounds on the recursion of the model are never reached). -/
theorem C41_total (text : List Char) : many (lineP (text.length + 1)) (text.length + 1) text ≠ .hang ∧
    sepBy1 (atomP (text.length + 1)) [','] (text.length + 1) text ≠ .hang := ⟨lines_total text, goals_total text⟩

/-- The characters that are not white space, each as a token. -/
def garbage (s : List Char) : List Tok := (s.filter fun c => !isSpace c).map fun c => .sym [c]

theorem garbage_spell : ∀ s : List Char, ∀ ws, (∀ c ∈ ws, isSpace c = true) → Spell (garbage s) (ws ++ s)
  | [], ws, h => by simpa [garbage] using Spell.nil h
  | c :: s, ws, h => by
    by_cases hc : isSpace c = true
    · have := garbage_spell s (ws ++ [c]) (by
        intro d hd
        rcases List.mem_append.1 hd with hd | hd
        · exact h d hd
        · rw [List.mem_singleton.1 hd]; exact hc)
      simpa [garbage, hc] using this
    · have : garbage (c :: s) = .sym [c] :: garbage s := by simp [garbage, hc]
      rw [this]
      exact .cons h (sym_valid (by simpa using hc)) trivial (garbage_spell s [] (by simp))

theorem garbage_nil {s : List Char} (h : garbage s = []) : skipWs s = [] := by
  refine skipWs_all fun c hc => ?_
  unfold garbage at h
  rw [List.map_eq_nil_iff, List.filter_eq_nil_iff] at h
  simpa using h c hc

/-- **C41.** The remaining case: a query after whose dot there is more text. -/
theorem C41_trailing_text {text : List Char} : parseQuery text = .blank ↔
    ∃ q ts us, GoalsSyn q ts ∧ us ≠ [] ∧ Spell (ts ++ .sym ['.'] :: us) text := by
  constructor
  · intro h
    unfold parseQuery at h
    split at h
    · rename_i as r hl
      split at h
      · rename_i r' hr'
        split at h
        · cases h
        · rename_i hr
          obtain ⟨ts, h1, h2⟩ := goals_sound _ _ _ _ _ hl
          refine ⟨as, ts, garbage r', h1, fun e => hr (garbage_nil e), ?_⟩
          have := (h2 _ (lit_sound hr' (sym_valid rfl) .nil)).spell (garbage_spell r' [] (by simp))
          simpa using this
      · cases h
    · cases h
    · cases h
    · cases h
  · rintro ⟨q, ts, us, h1, h2, h3⟩
    obtain ⟨r, h4, h5⟩ := h1.reads (n := text.length + 1) (by omega) rfl h3
    obtain ⟨r1, h6, h7⟩ := lit_ok h5
    have h8 : skipWs r1 ≠ [] := by
      cases us with
      | nil => cases h2 rfl
      | cons t us =>
        obtain ⟨r2, e, hv, _⟩ := h7.cons_inv
        obtain ⟨c, cs, e', _⟩ := hv.head
        rw [e, e']; simp
    unfold parseQuery
    rw [h4 _ (by omega)]
    simp only [h6, h8, if_false]

deriving instance DecidableEq for Clause

/-- A text with comments, lists, arithmetic and all kinds of goals. -/
def sampleText : List Char :=
  n!"% lists\nsum([], 0).   % empty\nsum( [X | Xs] ,S):-sum(Xs,T), S is X+T * 2 .\n\nok :- f([a,b|[c]]) \\== f(Y), yes.\n"

def sampleProgram : List Clause :=
  [⟨.fn n!"sum" [.fn n!"[" [], .int 0], []⟩,
   ⟨.fn n!"sum" [.fn n!"[" [.var n!"X", .var n!"Xs"], .var n!"S"],
    [.fn n!"sum" [.var n!"Xs", .var n!"T"],
     .fn n!"is" [.var n!"S", .efn n!"+" [.var n!"X", .efn n!"*" [.var n!"T", .int 2]]]]⟩,
   ⟨.cons n!"ok",
    [.fn n!"\\==" [.fn n!"f" [.fn n!"[" [.cons n!"a", .fn n!"[" [.cons n!"b", .fn n!"[" [.cons n!"c", .fn n!"[" []]]]],
       .fn n!"f" [.var n!"Y"]],
     .cons n!"yes"]⟩]

theorem sample_read : parseProgram sampleText = .ok sampleProgram := by decide +kernel

/-- C41, a concrete text: -/
theorem C41_sample : ProgText sampleProgram sampleText ∧ QueryText [.fn n!"sum" [.fn n!"[" [.int 1, .fn n!"[" [.int (-2), .fn n!"[" []]], .var n!"R"]]
    n!"sum([ 1,-2 ],R) . " := ⟨parseProgram_iff.1 sample_read, parseQuery_iff.1 (by decide +kernel)⟩

/-- … and texts outside the language: white space before the parenthesis, a name with a capital letter as predicate, a missing
dot, two powers in a row, a comment without end of line. -/
theorem C41_rejected : (∀ p, ¬ ProgText p n!"p (a).") ∧ (∀ p, ¬ ProgText p n!"P(a).") ∧ (∀ p, ¬ ProgText p n!"p(a)") ∧
    (∀ p, ¬ ProgText p n!"p(2^3^4).") ∧ ∀ p, ¬ ProgText p n!"p. % a" := by
  have key : ∀ {text pos}, parseProgram text = .error pos → ∀ p, ¬ ProgText p text := by
    intro text pos h p hp
    rw [parseProgram_complete hp] at h
    cases h
  exact ⟨key (pos := n!"(a).") (by decide +kernel), key (pos := n!"P(a).") (by decide +kernel), key (pos := []) (by decide +kernel),
    key (pos := n!"^4).") (by decide +kernel), key (pos := []) (by decide +kernel)⟩

/-! ## What is read is well-formed -/

theorem listWith_wf {t : Node} (ht : t.wf = true) : ∀ {cs : List Node}, (∀ c ∈ cs, c.wf = true) → (Node.listWith t cs).wf = true
  | [], _ => ht
  | c :: cs, h => by
    have := listWith_wf ht (cs := cs) fun d hd => h d (by simp [hd])
    simp [Node.listWith, Node.wf, Node.wfs, h c (by simp), this]

theorem Syn.args_ne {as ts} (h : Syn .args as ts) : as ≠ [] := by
  cases h <;> simp

theorem Syn.wf {c as ts} (h : Syn c as ts) : ∀ a ∈ as, a.wf = true := by
  induction h with
  | var | num | cons | nil => intro a ha; rw [List.mem_singleton.1 ha]; rfl
  | paren _ ih | power1 _ ih | product1 _ ih | sum1 _ ih | elist _ ih | esum _ ih | one _ ih => exact ih
  | pow _ _ ih1 ih2 | mul _ _ _ ih1 ih2 | add _ _ _ ih1 ih2 =>
    intro a ha; rw [List.mem_singleton.1 ha]
    simp [Node.wf, Node.wfs, ih1 _ (List.mem_singleton_self _), ih2 _ (List.mem_singleton_self _)]
  | fn h ih =>
    intro a ha; rw [List.mem_singleton.1 ha]
    simp [Node.wf, Node.wfs_iff.2 ih, h.args_ne]
  | list _ ih | listVar _ ih =>
    intro a ha; rw [List.mem_singleton.1 ha]
    exact listWith_wf rfl ih
  | listList _ _ ih1 ih2 =>
    intro a ha; rw [List.mem_singleton.1 ha]
    exact listWith_wf (ih2 _ (List.mem_singleton_self _)) ih1
  | more _ _ ih1 ih2 =>
    intro a ha
    rcases List.mem_cons.1 ha with rfl | ha
    · exact ih1 _ (List.mem_singleton_self _)
    · exact ih2 a ha

theorem HeadSyn.wf {a ts} (h : HeadSyn a ts) : Node.goal a = true ∧ a.wf = true := by
  cases h with
  | fn h =>
    have := h.args_ne
    exact ⟨by simp [Node.goal, this], by simp [Node.wf, Node.wfs_iff.2 h.wf, this]⟩
  | cons => exact ⟨rfl, rfl⟩

theorem GoalSyn.wf {a ts} (h : GoalSyn a ts) : Node.goal a = true ∧ a.wf = true := by
  cases h with
  | eq h1 h2 | neq h1 h2 | is h1 h2 =>
    refine ⟨rfl, ?_⟩
    simp [Node.wf, Node.wfs, h1.wf _ (List.mem_singleton_self _), h2.wf _ (List.mem_singleton_self _)]
  | head h => exact h.wf

theorem GoalsSyn.wf {as ts} (h : GoalsSyn as ts) : as ≠ [] ∧ ∀ a ∈ as, Node.goal a = true ∧ a.wf = true := by
  induction h with
  | one h => exact ⟨by simp, fun a ha => by rw [List.mem_singleton.1 ha]; exact h.wf⟩
  | more h _ ih =>
    refine ⟨by simp, fun a ha => ?_⟩
    rcases List.mem_cons.1 ha with rfl | ha
    · exact h.wf
    · exact ih.2 a ha

theorem ProgSyn.wf {p ts} (h : ProgSyn p ts) : ∀ c ∈ p, c.wf := by
  induction h with
  | nil => simp
  | comment _ ih => exact ih
  | clause hc _ ih =>
    intro c hm
    rcases List.mem_cons.1 hm with rfl | hm
    · cases hc with
      | fact hh => intro a ha; rw [List.mem_singleton.1 ha]; exact hh.wf
      | rule hh hb =>
        intro a ha
        rcases List.mem_cons.1 ha with rfl | ha
        · exact hh.wf
        · exact hb.wf.2 a ha
    · exact ih c hm

/-- What the theorems about answers (C01, C02, C03, …) ask of programs and queries holds of everything that has been read from
a text: it remains that the program is free of register clashes. -/
theorem C41_well_formed {text : List Char} : (∀ p, parseProgram text = .ok p → (∀ c ∈ p, c.wf) ∧
      (Untangled p ↔ ∀ c ∈ p, c.untangled = true)) ∧
    ∀ q, parseQuery text = .ok q → q ≠ [] ∧ ∀ a ∈ q, Node.goal a = true ∧ a.wf = true := by
  constructor
  · intro p h
    obtain ⟨ts, h1, _⟩ := parseProgram_sound h
    exact ⟨h1.wf, fun hu c hc => (hu c hc).2, fun hu c hc => ⟨h1.wf c hc, hu c hc⟩⟩
  · intro q h
    obtain ⟨ts, h1, _⟩ := parseQuery_sound h
    exact h1.wf

/-- An interpreter serving a program that accepts a query text has been asked the query the text stands for. -/
theorem Asked.of_text {o o0 : Org} {p ord ord' text} (hs : Serves o0 ord p) (ho : ord.OK) (hu : Untangled p) (ho' : ord'.OK)
    (hl : o0.loadQueryText ord' text = (o, .ok)) (hb : parseQuery (appendDot text) ≠ .blank) (hsm : o.st.functors.length ≤ 65536) :
    ∃ q, QueryText q (appendDot text) ∧ Asked o p q := by
  unfold Org.loadQueryText at hl
  cases hq : parseQuery (appendDot text) with
  | ok q =>
    rw [hq] at hl
    obtain ⟨ts, h1, h2⟩ := parseQuery_sound hq
    exact ⟨q, ⟨ts, h1, h2⟩, ⟨⟨o0, ord, ord', hs, ho, hu, ho', hl⟩, h1.wf.2, h1.wf.1, hsm⟩⟩
  | error => rw [hq] at hl; exact absurd (congrArg Prod.snd hl) (by simp [Org.loadQuery])
  | blank => exact absurd hq hb

/-! ## C38: texts -/

/-- Every number in the text fits in 32 bits. -/
def SmallNumbers (text : List Char) : Prop :=
  ∀ a ds b, text = a ++ ds ++ b → (∀ d ∈ ds, isDigit d = true) → decimal ds ≤ 2147483647

theorem SmallNumbers.tail {a b} (h : SmallNumbers (a ++ b)) : SmallNumbers b := by
  intro a' ds b' e hd
  exact h (a ++ a') ds b' (by rw [e]; simp) hd

/-- The numbers among the tokens. -/
def SmallToks (ts : List Tok) : Prop := ∀ neg ds, Tok.num neg ds ∈ ts → decimal ds ≤ 2147483647

theorem Spell.small {ts s} (h : Spell ts s) (hs : SmallNumbers s) : SmallToks ts := by
  induction h with
  | nil => intro _ _ h; simp at h
  | @cons ws t ts s hw hv hst h ih =>
    intro neg ds hm
    rcases List.mem_cons.1 hm with rfl | hm
    · refine hs (ws ++ if neg then ['-'] else []) ds s (by simp [Tok.text]) hv.2
    · refine ih ?_ neg ds hm
      rw [← List.append_assoc] at hs
      exact hs.tail

theorem SmallToks.left {ts us} (h : SmallToks (ts ++ us)) : SmallToks ts := fun n d hm => h n d (List.mem_append_left _ hm)
theorem SmallToks.right {ts us} (h : SmallToks (ts ++ us)) : SmallToks us := fun n d hm => h n d (List.mem_append_right _ hm)
theorem SmallToks.tail {t us} (h : SmallToks (t :: us)) : SmallToks us := fun n d hm => h n d (List.mem_cons_of_mem _ hm)

theorem listWith_readable {t : Node} (ht : t.readable = true) : ∀ {cs : List Node}, (∀ c ∈ cs, c.readable = true) → (Node.listWith t cs).readable = true
  | [], _ => ht
  | c :: cs, h => by
    have := listWith_readable ht (cs := cs) fun d hd => h d (by simp [hd])
    simp [Node.listWith, Node.readable, Node.readables, h c (by simp), this]

theorem Syn.readable {c as ts} (h : Syn c as ts) : SmallToks ts → ∀ a ∈ as, a.readable = true := by
  induction h with
  | var | cons | nil => intro _ a ha; rw [List.mem_singleton.1 ha]; rfl
  | @num neg ds =>
    intro hs a ha
    rw [List.mem_singleton.1 ha]
    have := hs neg ds (by simp)
    simp only [Node.readable, decide_eq_true_eq]
    cases neg <;> simp <;> omega
  | paren _ ih => intro hs; exact ih hs.left.tail
  | power1 _ ih | product1 _ ih | sum1 _ ih | elist _ ih | esum _ ih | one _ ih => exact ih
  | pow _ _ ih1 ih2 =>
    intro hs a ha; rw [List.mem_singleton.1 ha]
    simp [Node.readable, Node.readables, ih1 hs.left _ (List.mem_singleton_self _), ih2 hs.right.tail _ (List.mem_singleton_self _), arithNames]
  | mul ho _ _ ih1 ih2 | add ho _ _ ih1 ih2 =>
    intro hs a ha; rw [List.mem_singleton.1 ha]
    simp only [Node.readable, Node.readables, ih1 hs.left _ (List.mem_singleton_self _), ih2 hs.right.tail _ (List.mem_singleton_self _), Bool.and_true]
    rcases ho with rfl | rfl <;> decide
  | fn _ ih =>
    intro hs a ha; rw [List.mem_singleton.1 ha]
    exact Node.readables_iff.2 (ih hs.left.tail)
  | list _ ih | listVar _ ih =>
    intro hs a ha; rw [List.mem_singleton.1 ha]
    exact listWith_readable rfl (ih hs.left.tail)
  | listList _ _ ih1 ih2 =>
    intro hs a ha; rw [List.mem_singleton.1 ha]
    exact listWith_readable (ih2 hs.left.right.tail _ (List.mem_singleton_self _)) (ih1 hs.left.left.tail)
  | more _ _ ih1 ih2 =>
    intro hs a ha
    rcases List.mem_cons.1 ha with rfl | ha
    · exact ih1 hs.left _ (List.mem_singleton_self _)
    · exact ih2 hs.right.tail a ha

theorem HeadSyn.readable {a ts} (h : HeadSyn a ts) (hs : SmallToks ts) : a.readable = true :=
  h.element.readable hs a (List.mem_singleton_self _)

theorem GoalSyn.readable {a ts} (h : GoalSyn a ts) (hs : SmallToks ts) : a.readable = true := by
  cases h with
  | eq h1 h2 | neq h1 h2 | is h1 h2 =>
    simp [Node.readable, Node.readables, h1.readable hs.left _ (List.mem_singleton_self _), h2.readable hs.right.tail _ (List.mem_singleton_self _)]
  | head h => exact h.readable hs

theorem GoalsSyn.readable {as ts} (h : GoalsSyn as ts) : SmallToks ts → ∀ a ∈ as, a.readable = true := by
  induction h with
  | one h => intro hs a ha; rw [List.mem_singleton.1 ha]; exact h.readable hs
  | more h _ ih =>
    intro hs a ha
    rcases List.mem_cons.1 ha with rfl | ha
    · exact h.readable hs.left
    · exact ih hs.right.tail a ha

theorem ProgSyn.readable {p ts} (h : ProgSyn p ts) : SmallToks ts → ∀ c ∈ p, ∀ a ∈ c.head :: c.body, a.readable = true := by
  induction h with
  | nil => simp
  | comment _ ih => intro hs; exact ih hs.tail
  | clause hc _ ih =>
    intro hs c hm
    rcases List.mem_cons.1 hm with rfl | hm
    · cases hc with
      | fact hh => intro a ha; rw [List.mem_singleton.1 ha]; exact hh.readable hs.left.left
      | rule hh hb =>
        intro a ha
        rcases List.mem_cons.1 ha with rfl | ha
        · exact hh.readable hs.left.left.left
        · exact hb.readable hs.left.left.right.tail a ha
    · exact ih hs.right c hm

theorem appendDot_small {text : List Char} (h : SmallNumbers text) : SmallNumbers (appendDot text) := by
  by_cases hb : Blank text ∨ EndsInDot text
  · rw [C31_unchanged hb]; exact h
  · obtain ⟨s, w, rfl, _, _, _, e⟩ := C31_completed (fun h => hb (.inl h)) (fun h => hb (.inr h))
    rw [e]
    intro a ds b e' hd
    -- the digits lie on one side of the dot
    have hdot : isDigit '.' = false := by decide
    rw [List.append_assoc, eq_comm, List.append_eq_append_iff] at e'
    rcases e' with ⟨a', e1, e2⟩ | ⟨a', e1, e2⟩
    · -- `s = a ++ a'`, `ds ++ b = a' ++ '.' :: w`
      rw [List.append_eq_append_iff] at e2
      rcases e2 with ⟨b', e3, e4⟩ | ⟨b', e3, e4⟩
      · exact h a ds (b' ++ w) (by rw [e1, e3]; simp) hd
      · cases b' with
        | nil =>
          simp only [List.append_nil] at e3
          exact h a ds w (by rw [e1, e3]) hd
        | cons c b' =>
          simp only [List.cons_append, List.cons.injEq] at e4
          have := hd c (by rw [e3]; simp)
          rw [← e4.1] at this
          exact absurd this (by decide)
    · cases a' with
      | nil =>
        simp only [List.nil_append] at e2
        cases ds with
        | nil => exact Nat.zero_le _
        | cons d ds =>
          simp only [List.cons_append, List.cons.injEq] at e2
          have := hd d (by simp)
          rw [← e2.1] at this
          exact absurd this (by decide)
      | cons c a' =>
        simp only [List.cons_append, List.cons.injEq] at e2
        exact h (s ++ a') ds b (by rw [e2.2]; simp) hd

/-- **C38**, for texts whose numbers fit in 32 bits: no exception leaves `load_program` or `load_query`; a program that is
accepted has been read; a query that is accepted has been read unless there is text after its dot. -/
theorem C38_texts_partial {o : Org} {ord : HashOrder} {text : List Char} (h : SmallNumbers text) :
    (o.loadProgramText ord text).2 ≠ .exception ∧ (o.loadQueryText ord text).2 ≠ .exception ∧
    ((o.loadProgramText ord text).2 = .ok → ∃ p, ProgText p text) ∧
    ((o.loadQueryText ord text).2 = .ok → (∀ a b, text = a ++ '.' :: b → Blank b) → ∃ q, QueryText q (appendDot text)) := by
  refine ⟨?_, ?_, ?_, ?_⟩
  · unfold Org.loadProgramText
    split
    · rename_i p hp
      obtain ⟨ts, h1, h2⟩ := parseProgram_sound hp
      refine C38_no_exception_partial.1 _ ?_
      rintro _ ⟨⟩
      exact h1.readable (h2.small h)
    · simp [Org.loadProgram]
  · unfold Org.loadQueryText
    split
    · rename_i q hq
      obtain ⟨ts, h1, h2⟩ := parseQuery_sound hq
      refine C38_no_exception_partial.2 _ ?_
      rintro _ ⟨⟩
      exact h1.readable (h2.small (appendDot_small h)).left
    · simp [Org.loadQuery]
    · simp
  · unfold Org.loadProgramText
    split
    · rename_i p hp; exact fun _ => ⟨p, parseProgram_sound hp⟩
    · simp [Org.loadProgram]
  · intro hl hd
    unfold Org.loadQueryText at hl
    cases hq : parseQuery (appendDot text) with
    | ok q => exact ⟨q, parseQuery_sound hq⟩
    | error => rw [hq] at hl; simp [Org.loadQuery] at hl
    | blank =>
      exfalso
      obtain ⟨q, ts, us, h1, h2, h3⟩ := C41_trailing_text.1 hq
      clear h1
      obtain ⟨a, b, e, hb⟩ : ∃ a b, appendDot text = a ++ '.' :: b ∧ ¬ Blank b := by
        clear hq hl
        generalize appendDot text = s at h3
        induction ts generalizing s with
        | nil =>
          cases h3 with
          | @cons ws t ts s hw _ _ hsp =>
            refine ⟨ws, s, rfl, fun hbl => ?_⟩
            cases us with
            | nil => exact h2 rfl
            | cons t us =>
              obtain ⟨r2, e, hv, _⟩ := hsp.cons_inv
              obtain ⟨c, cs, e', _⟩ := hv.head
              rw [skipWs_all hbl, e'] at e
              cases e
        | cons t ts ih =>
          cases h3 with
          | @cons ws t ts s hw _ _ hsp =>
            obtain ⟨a, b, rfl, hb⟩ := ih _ hsp
            exact ⟨ws ++ t.text ++ a, b, by simp, hb⟩
      by_cases hc : Blank text ∨ EndsInDot text
      · rw [C31_unchanged hc] at e
        exact hb (hd a b e)
      · obtain ⟨s, w, rfl, _, hlast, hw, e'⟩ := C31_completed (fun h => hc (.inl h)) (fun h => hc (.inr h))
        rw [e', eq_comm, List.append_eq_append_iff] at e
        rcases e with ⟨a', e1, e2⟩ | ⟨a', e1, e2⟩
        · cases a' with
          | nil =>
            simp only [List.nil_append, List.cons.injEq] at e2
            rw [e2.2] at hb
            exact hb hw
          | cons c a' =>
            simp only [List.cons_append, List.cons.injEq] at e2
            have := hd a (a' ++ w) (by rw [e1, ← e2.1]; simp)
            cases hl : a'.getLast? with
            | none =>
              rw [List.getLast?_eq_none_iff] at hl
              subst hl
              exact (hlast '.' (by rw [e1, ← e2.1]; simp)).2 rfl
            | some d =>
              have h1 := this d (List.mem_append_left _ (List.mem_of_getLast? hl))
              have h2 := (hlast d (by rw [e1, ← e2.1]; simp [List.getLast?_append, List.getLast?_cons, hl])).1
              rw [h1] at h2
              cases h2
        · cases a' with
          | nil =>
            simp only [List.nil_append, List.cons.injEq] at e2
            rw [← e2.2] at hb
            exact hb hw
          | cons c a' =>
            simp only [List.cons_append, List.cons.injEq] at e2
            refine hb fun d hd' => hw d ?_
            rw [e2.2]; simp [hd']

theorem decimal_lt : ∀ {ds : List Char}, (∀ d ∈ ds, isDigit d = true) → decimal ds < 10 ^ ds.length
  | [], _ => by simp [decimal]
  | d :: ds, h => by
    have h1 := decimal_lt (ds := ds) fun e he => h e (by simp [he])
    have h2 : d.toNat - '0'.toNat ≤ 9 := by
      have := h d (by simp)
      simp only [isDigit, Bool.and_eq_true, decide_eq_true_eq] at this
      have h3 : d.toNat ≤ '9'.toNat := this.2
      have : '9'.toNat = 57 := rfl
      have : '0'.toNat = 48 := rfl
      omega
    rw [decimal, List.length_cons, Nat.pow_succ]
    have := Nat.mul_le_mul_right (10 ^ ds.length) h2
    omega

/-- C38, a concrete text with numbers: -/
example : SmallNumbers n!"p(12, X)." := by
  intro a ds b e hd
  have h1 := congrArg List.length e
  simp only [List.length_append] at h1
  have h2 : ds.length ≤ 9 := by
    have : (n!"p(12, X).").length = 9 := rfl
    omega
  have h3 := decimal_lt hd
  have h4 : 10 ^ ds.length ≤ 10 ^ 9 := Nat.pow_le_pow_right (by decide) h2
  omega

/-- **C38 is false for queries with text after the dot**: `p(a). q(b).` is not read, nothing is loaded, but the error returned says that
there is no error; asked for an answer, the interpreter reports that there is none, although both goals hold. -/
theorem C38_rejection_unreported :
    let o := (Org.init0.loadProgramText id n!"p(a). q(b).").1
    (Org.init0.loadProgramText id n!"p(a). q(b).").2 = .ok ∧ (o.loadQueryText id n!"p(a). q(b).").2 = .ok ∧
    parseQuery n!"p(a). q(b)." = .blank ∧
    ((o.loadQueryText id n!"p(a). q(b).").1.session 20 [List.replicate 20 false]).toOption.map (·.2) = some [Org.Res.noAnswer] := by
  decide +kernel

end PBfs
