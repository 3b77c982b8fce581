import Verif.Spec.ReadBack
import Verif.Proof.ParserComplete
import Verif.Proof.Unambiguous
/-! # The text of a term is read as the term -/
namespace PBfs

/-- Nothing that would prolong a word. -/
def Ends (r : List Char) : Prop := ∀ c, r.head? = some c → isWord c = false ∧ c ≠ '('

/-- The text is a notation of the term. -/
def Reread (c : Cat) (t : Tree) (s : Name) : Prop :=
  ∃ n ts, Syn c [n] ts ∧ n.Denotes t ∧ ∀ us r, Ends r → Spell us r → Spell (ts ++ us) (s ++ r)

theorem Ends.of {c : Char} {r} (h : isWord c = false ∧ c ≠ '(') : Ends (c :: r) := by
  intro d hd; cases hd; exact h

theorem spell_sym {c : Char} {cs : List Char} {us r} (h : isSpace c = false) (hr : Spell us r) : Spell (.sym (c :: cs) :: us) (c :: cs ++ r) :=
  Spell.cons (ws := []) (by simp) ⟨c, cs, rfl, h⟩ trivial hr

theorem spell_space {us r} (hr : Spell us r) : Spell us (' ' :: r) := by
  cases hr with
  | nil h => exact .nil (by intro c hc; rcases List.mem_cons.1 hc with rfl | hc; · decide
                            · exact h c hc)
  | @cons ws t ts s h h1 h2 h3 =>
    exact .cons (ws := ' ' :: ws) (by intro c hc; rcases List.mem_cons.1 hc with rfl | hc; · decide
                                      · exact h c hc) h1 h2 h3

theorem isDigit_eq (c : Char) : isDigit c = c.isDigit := rfl

theorem decValue_decimal (s : List Char) : decValue s = decimal s := by
  have := foldl_decimal s 0
  simpa [decValue] using this

theorem Reread.int {v s} (h : IntText v s) : Reread .value (.int v) s := by
  have stop : ∀ r : List Char, Ends r → ∀ c, r.head? = some c → isDigit c = false := by
    intro r he c hc
    have := (he c hc).1
    simp only [isWord, Bool.or_eq_false_iff] at this
    exact this.2
  rcases h with ⟨h0, h1, h2, h3, _⟩ | ⟨h0, q, rfl, h1, h2, h3, _⟩
  · refine ⟨_, _, Syn.num (neg := false) (ds := s), ⟨by simp [Node.vars], fun ρ => ?_⟩, fun us r he hr => ?_⟩
    · rw [decValue_decimal] at h3
      simp only [Node.eval, treeAlg, Bool.false_eq_true, if_false, h3]
      rw [Int.natAbs_of_nonneg h0]
    · have := Spell.cons (ws := []) (t := .num false s) (by simp) ⟨h1, fun d hd => by rw [isDigit_eq]; exact h2 d hd⟩ (stop r he) hr
      simpa [Tok.text] using this
  · refine ⟨_, _, Syn.num (neg := true) (ds := q), ⟨by simp [Node.vars], fun ρ => ?_⟩, fun us r he hr => ?_⟩
    · rw [decValue_decimal] at h3
      simp only [Node.eval, treeAlg, if_true, h3]
      rw [Int.ofNat_natAbs_of_nonpos (by omega), Int.neg_neg]
    · have := Spell.cons (ws := []) (t := .num true q) (by simp) ⟨h1, fun d hd => by rw [isDigit_eq]; exact h2 d hd⟩ (stop r he) hr
      simpa [Tok.text] using this

theorem Reread.elem {t s} (h : Reread .value t s) : Reread .elem t s := by
  obtain ⟨n, ts, h1, h2⟩ := h
  exact ⟨n, ts, .esum (.sum1 (.product1 (.power1 h1))), h2⟩

theorem reread_args : ∀ {ts : List Tree} {ss : List Name}, ts ≠ [] → ss.length = ts.length →
    (∀ (i : Nat) t s, ts[i]? = some t → ss[i]? = some s → Reread .elem t s) →
    ∃ ns toks, Syn .args ns toks ∧ Node.varss ns = [] ∧ (∀ ρ, Node.evals treeAlg ρ ns = ts) ∧
      ∀ us r, Ends r → Spell us r → Spell (toks ++ us) (commas ss ++ r)
  | [], _, h, _, _ => absurd rfl h
  | [t], [s], _, _, h => by
    obtain ⟨n, toks, h1, h2, h3⟩ := h 0 t s rfl rfl
    exact ⟨[n], toks, .one h1, by simp [Node.varss, h2.1], fun ρ => by simp [Node.evals, h2.2], h3⟩
  | t :: t' :: ts, s :: s' :: ss, _, hl, h => by
    obtain ⟨n, toks, h1, h2, h3⟩ := h 0 t s rfl rfl
    obtain ⟨ns, toks', g1, g2, g3, g4⟩ := reread_args (ts := t' :: ts) (ss := s' :: ss) (by simp) (by simpa using hl)
      fun i t s a b => h (i + 1) t s a b
    refine ⟨n :: ns, _, .more h1 g1, by simp [Node.varss, h2.1, g2], fun ρ => by simp [Node.evals, h2.2, g3], fun us r he hr => ?_⟩
    have := h3 (.sym [','] :: (toks' ++ us)) (',' :: (commas (s' :: ss) ++ r)) (.of (by decide)) (spell_sym (cs := []) (by decide) (g4 us r he hr))
    simpa [commas, List.append_assoc] using this

theorem ProperList.eval {ρ : Name → Tree} : ∀ {ts : List Tree} {t} {ns : List Node}, ProperList t ts → Node.evals treeAlg ρ ns = ts →
    (Node.listWith (.fn n!"[" []) ns).eval treeAlg ρ = t
  | [], _, ns, h, he => by
    cases h
    cases ns with
    | nil => rfl
    | cons _ _ => simp [Node.evals] at he
  | u :: ts, _, ns, h, he => by
    cases h with
    | cons h =>
      cases ns with
      | nil => simp [Node.evals] at he
      | cons n ns =>
        simp only [Node.evals, List.cons.injEq] at he
        have := h.eval he.2
        simp only [Node.listWith, Node.eval, Node.evals, this, he.1]
        rfl

theorem listWith_closed : ∀ {ns : List Node}, Node.varss ns = [] → (Node.listWith (.fn n!"[" []) ns).vars = []
  | [], _ => by simp [Node.listWith, Node.vars, Node.varss]
  | n :: ns, h => by
    simp only [Node.varss, List.append_eq_nil_iff] at h
    simp [Node.listWith, Node.vars, Node.varss, h.1, listWith_closed h.2]

theorem ProperList.det {t : Tree} {ts ts'} (hp : ProperList t ts) (hp' : ProperList t ts') : ts = ts' := by
  induction hp generalizing ts' with
  | nil => cases hp'; rfl
  | cons _ ih => cases hp' with
    | cons h => rw [ih h]

theorem not_word_bracket : ¬ IsWord isLower n!"[" := by
  rintro ⟨c, cs, h, h1, _⟩
  cases h
  exact absurd h1 (by decide)

theorem Writable.numeric_efn {f ts} (h : Writable (.efn f ts)) : Numeric (.efn f ts) := by
  cases h with
  | num h => exact h
  | list h => cases h

theorem Text.reread {t s} (h : Text t s) : (Numeric t → Reread .value t s) ∧ (Writable t → Reread .elem t s) := by
  induction h with
  | cons =>
    refine ⟨fun h => (by cases h), fun h => ?_⟩
    cases h with
    | num h => cases h
    | list h => cases h
    | cons h =>
      refine ⟨_, _, Syn.cons, ⟨by simp [Node.vars], fun ρ => rfl⟩, fun us r he hr => ?_⟩
      exact Spell.cons (ws := []) (t := .name _) (by simp) h he hr
  | int h => exact ⟨fun _ => .int h, fun _ => (Reread.int h).elem⟩
  | @list t ts ss hp hl ht ih =>
    refine ⟨fun h => (by cases hp <;> cases h), fun h => ?_⟩
    have hw : ∀ u ∈ ts, Writable u := by
      cases h with
      | cons => cases hp
      | num h => cases hp <;> cases h
      | list hp' hw => rw [hp.det hp']; exact hw
      | fn hf => cases hp <;> exact absurd hf not_word_bracket
    cases ts with
    | nil =>
      cases hp
      cases ss with
      | cons _ _ => simp at hl
      | nil =>
        refine ⟨_, _, .elist .nil, ⟨by simp [Node.vars, Node.varss], fun ρ => rfl⟩, fun us r he hr => ?_⟩
        exact spell_sym (cs := []) (by decide) (spell_sym (cs := []) (by decide) hr)
    | cons u ts =>
      obtain ⟨ns, toks, h1, h2, h3, h4⟩ := reread_args (ts := u :: ts) (by simp) hl fun i t s a b =>
        (ih i t s a b).2 (hw t (List.mem_of_getElem? a))
      refine ⟨_, _, .elist (.list h1), ⟨listWith_closed h2, fun ρ => hp.eval (h3 ρ)⟩, fun us r he hr => ?_⟩
      have := spell_sym (c := '[') (cs := []) (by decide) (h4 (.sym [']'] :: us) (']' :: r) (.of (by decide)) (spell_sym (cs := []) (by decide) hr))
      simpa [List.append_assoc] using this
  | @fn f ts ss hf hne hl ht ih =>
    refine ⟨fun h => (by cases h), fun h => ?_⟩
    obtain ⟨hfw, hw⟩ : IsWord isLower f ∧ ∀ u ∈ ts, Writable u := by
      cases h with
      | num h => cases h
      | list hp => cases hp <;> exact absurd rfl hf
      | fn h1 _ h2 => exact ⟨h1, h2⟩
    obtain ⟨ns, toks, h1, h2, h3, h4⟩ := reread_args hne hl fun i t s a b =>
      (ih i t s a b).2 (hw t (List.mem_of_getElem? a))
    refine ⟨_, _, .fn (w := f) h1, ⟨by simp [Node.vars, h2], fun ρ => by rw [Node.eval, h3]; rfl⟩, fun us r he hr => ?_⟩
    have := Spell.cons (ws := []) (t := .opening f) (by simp) hfw trivial
      (h4 (.sym [')'] :: us) (')' :: r) (.of (by decide)) (spell_sym (cs := []) (by decide) hr))
    simpa [List.append_assoc, Tok.text] using this
  | @efn f l r s s' _ _ ih1 ih2 =>
    have key : Numeric (.efn f [l, r]) → Reread .value (.efn f [l, r]) (n!"(" ++ s ++ n!" " ++ f ++ n!" " ++ s' ++ n!")") := by
      intro h
      cases h with
      | efn hf hl hr =>
        obtain ⟨n, ts, a1, a2, a3⟩ := ih1.1 hl
        obtain ⟨m, us, b1, b2, b3⟩ := ih2.1 hr
        have syn : Syn .sum [.efn f [n, m]] (ts ++ .sym f :: us) ∧ ∃ c cs, f = c :: cs ∧ isSpace c = false := by
          simp only [List.mem_cons, List.not_mem_nil, or_false] at hf
          rcases hf with rfl | rfl | rfl | rfl | rfl
          · exact ⟨.sum1 (.product1 (.pow a1 b1)), _, _, rfl, by decide⟩
          · exact ⟨.sum1 (.mul (.inl rfl) (.power1 a1) (.product1 (.power1 b1))), _, _, rfl, by decide⟩
          · exact ⟨.sum1 (.mul (.inr rfl) (.power1 a1) (.product1 (.power1 b1))), _, _, rfl, by decide⟩
          · exact ⟨.add (.inl rfl) (.product1 (.power1 a1)) (.sum1 (.product1 (.power1 b1))), _, _, rfl, by decide⟩
          · exact ⟨.add (.inr rfl) (.product1 (.power1 a1)) (.sum1 (.product1 (.power1 b1))), _, _, rfl, by decide⟩
        obtain ⟨syn, c, cs, rfl, hc⟩ := syn
        refine ⟨_, _, .paren syn, ⟨by simp [Node.vars, Node.varss, a2.1, b2.1], fun ρ => ?_⟩, fun vs r he hr => ?_⟩
        · simp only [Node.eval, Node.evals, a2.2, b2.2]; rfl
        · have h1 := b3 (.sym [')'] :: vs) (')' :: r) (.of (by decide)) (spell_sym (cs := []) (by decide) hr)
          have h2 := spell_sym (cs := cs) hc (spell_space h1)
          have h3 := a3 _ _ (.of (c := ' ') (by decide)) (spell_space h2)
          have h4 := spell_sym (c := '(') (cs := []) (by decide) h3
          simpa [List.append_assoc] using h4
    exact ⟨key, fun h => (key h.numeric_efn).elem⟩

end PBfs
