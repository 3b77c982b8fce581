import Verif.Proof.ReadBack
import Verif.Props.Printing
/-! # C55: ground answers can be typed in again -/
namespace PBfs

theorem isWord_notPunct {c : Char} (h : isWord c = true) : isPunct c = false := by
  cases hp : isPunct c with
  | false => rfl
  | true =>
    simp only [isPunct, Bool.or_eq_true, decide_eq_true_eq] at hp
    rcases hp with ((((rfl | rfl) | rfl) | rfl) | rfl) | rfl <;> exact absurd h (by decide)

theorem lower_word {c : Char} (h : isLower c = true) : isWord c = true := by simp [isWord, h]

theorem IsWord.clean {n : Name} (h : IsWord isLower n) : CleanName n ∧ ∀ c, n.head? = some c → c ≠ '-' ∧ c.isDigit = false := by
  obtain ⟨c, cs, rfl, h1, h2⟩ := h
  refine ⟨⟨by simp, fun d hd => isWord_notPunct ?_⟩, fun d hd => ?_⟩
  · rcases List.mem_cons.1 hd with rfl | hd
    · exact lower_word h1
    · exact h2 d hd
  · cases hd
    refine ⟨fun e => by subst e; exact absurd h1 (by decide), ?_⟩
    cases hh : c.isDigit with
    | false => rfl
    | true => rw [digit_not_lower (by rw [isDigit_eq]; exact hh)] at h1; cases h1

theorem Numeric.facts {t} (h : Numeric t) : Clean t ∧ ∃ s, Text t s := by
  induction h with
  | int => exact ⟨.int, _, .int (intText _)⟩
  | @efn f l r hf _ _ ih1 ih2 =>
    obtain ⟨h1, s, h2⟩ := ih1
    obtain ⟨h3, s', h4⟩ := ih2
    refine ⟨.efn ?_ (by simp only [List.mem_cons, List.not_mem_nil, or_false]; rintro t (rfl | rfl) <;> assumption), _, .efn h2 h4⟩
    simp only [List.mem_cons, List.not_mem_nil, or_false] at hf
    rcases hf with rfl | rfl | rfl | rfl | rfl <;> exact ⟨by decide, by decide⟩

theorem texts_of {ts : List Tree} (h : ∀ u ∈ ts, ∃ s, Text u s) :
    ∃ ss : List Name, ss.length = ts.length ∧ ∀ (i : Nat) t s, ts[i]? = some t → ss[i]? = some s → Text t s := by
  induction ts with
  | nil => exact ⟨[], rfl, by simp⟩
  | cons t ts ih =>
    obtain ⟨s, hs⟩ := h t (by simp)
    obtain ⟨ss, h1, h2⟩ := ih fun u hu => h u (by simp [hu])
    refine ⟨s :: ss, by simp [h1], fun i u v a b => ?_⟩
    cases i with
    | zero => cases a; cases b; exact hs
    | succ i => exact h2 i u v a b

theorem ProperList.cleanAll {t ts} (h : ProperList t ts) (hc : ∀ u ∈ ts, Clean u) : Clean t := by
  induction h with
  | nil => exact .fn (.inl rfl) (by simp)
  | cons _ ih =>
    refine .fn (.inl rfl) ?_
    simp only [List.mem_cons, List.not_mem_nil, or_false]
    rintro u (rfl | rfl)
    · exact hc _ (by simp)
    · exact ih fun u hu => hc u (by simp [hu])

/-- Writable terms have clean names and a text. -/
theorem Writable.facts {t} (h : Writable t) : Clean t ∧ ∃ s, Text t s := by
  induction h with
  | cons h => exact ⟨.cons h.clean.1 h.clean.2, _, .cons⟩
  | num h => exact h.facts
  | list hp _ ih =>
    obtain ⟨ss, h1, h2⟩ := texts_of fun u hu => (ih u hu).2
    exact ⟨hp.cleanAll fun u hu => (ih u hu).1, _, .list hp h1 h2⟩
  | fn hf hne _ ih =>
    obtain ⟨ss, h1, h2⟩ := texts_of fun u hu => (ih u hu).2
    exact ⟨.fn (.inr hf.clean.1) fun u hu => (ih u hu).1, _,
      .fn (fun e => not_word_bracket (e ▸ hf)) hne h1 h2⟩

/-- **C55.** The text of a writable ground term, put as an argument into a query, is read as a term without variables that denotes this ground term; the
texts of several, separated by commas, are read as several. -/
theorem C55_text_is_read_partial {w : Name} (hw : IsWord isLower w) {ts : List Tree} {ss : List Name} (hne : ts ≠ []) (hl : ss.length = ts.length)
    (h : ∀ (i : Nat) t s, ts[i]? = some t → ss[i]? = some s → Writable t ∧ Text t s) :
    ∃ ns, parseQuery (w ++ n!"(" ++ commas ss ++ n!").") = .ok [.fn w ns] ∧ Node.varss ns = [] ∧ ∀ ρ, Node.evals treeAlg ρ ns = ts := by
  obtain ⟨ns, toks, h1, h2, h3, h4⟩ := reread_args hne hl fun i t s a b => (h i t s a b).2.reread.2 (h i t s a b).1
  refine ⟨ns, parseQuery_iff.2 ⟨_, .one (.head (.fn (w := w) h1)), ?_⟩, h2, h3⟩
  have := Spell.cons (ws := []) (t := .opening w) (by simp) hw trivial (h4 (.sym [')'] :: [.sym ['.']]) (')' :: ['.']) (.of (by decide))
    (spell_sym (cs := []) (by decide) (spell_sym (cs := []) (by decide) (.nil (ws := []) (by simp)))))
  simpa [List.append_assoc, Tok.text] using this

theorem getElem?_map_some {α β} {f : α → β} {l : List α} {i : Nat} {b : β} (h : (l.map f)[i]? = some b) : ∃ a, l[i]? = some a ∧ f a = b := by
  rw [List.getElem?_map] at h
  cases hh : l[i]? with
  | none => rw [hh] at h; cases h
  | some a => rw [hh] at h; cases h; exact ⟨a, rfl, rfl⟩

theorem evals_vars_map {D} {A : Alg D} {ρ : Name → D} : ∀ xs : List Name, Node.evals A ρ (xs.map .var) = xs.map ρ
  | [] => rfl
  | x :: xs => by simp [Node.evals, Node.eval, evals_vars_map xs]

/-- **C55.** Asking again: if a query `w(X1,…,Xn)` is answered by a heap without cyclic terms in which all variables of the query are
bound to writable ground terms, then `w(s1,…,sn).` with the texts shown for `X1,…,Xn` is the text of a query without variables, and this
query follows from the program. -/
theorem C55_asking_again_partial {o o' : Org} {p fuel clocks rs bs} {w : Name} (hw : IsWord isLower w) {xs : List Name} (hne : xs ≠ [])
    (h : Asked o p [.fn w (xs.map .var)]) (hpr : Printable o.st)
    (hs : o.session fuel clocks = .ok (o', rs)) (hb : Org.Res.answer bs ∈ rs) :
    ∃ pre hp L, Prints (stringRep pre hp o.st L fuel false) L bs ∧
      ((∀ a, a < hp.size → ∃ t, Reads (hp.at? pre) a t) →
       (∀ x ∈ L, ∀ t, Reads (hp.at? pre) x.2 t → t.ground = true ∧ ∀ ω, Writable (t.eval treeAlg (interpOf o.st) ω)) →
       ∃ ss : List Name, ss.length = xs.length ∧ (∀ (i : Nat) x s, xs[i]? = some x → ss[i]? = some s → ⟨x, s⟩ ∈ bs) ∧
         ∃ ns, parseQuery (w ++ n!"(" ++ commas ss ++ n!").") = .ok [.fn w ns] ∧ Node.varss ns = [] ∧
           ∀ ρ, Proves treeAlg (inForce p) ((Node.fn w ns).inst treeAlg ρ)) := by
  obtain ⟨pre, hp, L, hr⟩ := session_reported h hs hb
  have F := hr.2
  refine ⟨pre, hp, L, hr.prints, fun hfin hgr => ?_⟩
  obtain ⟨σ, m, hω⟩ := solve_finite treeAlg (interpOf o.st) F.good.dom hfin (fun _ => .int 0)
  obtain ⟨ρ0, hρ0⟩ := F.agree _ treeAlg σ m
  have hsol := F.sound _ treeAlg σ ρ0 m hρ0 _ (List.mem_singleton.2 rfl)
  have each : ∀ x ∈ xs, ∃ s, ⟨x, s⟩ ∈ bs ∧ Writable (ρ0 x) ∧ Text (ρ0 x) s := by
    intro x hx
    obtain ⟨y, hy, rfl⟩ := List.mem_map.1 ((F.names x).2 ⟨_, List.mem_singleton.2 rfl, by
      have : ∀ xs : List Name, x ∈ xs → x ∈ Node.varss (xs.map .var) := by
        intro xs
        induction xs with
        | nil => simp
        | cons z xs ih =>
          intro hm
          rcases List.mem_cons.1 hm with rfl | hm
          · simp [Node.varss, Node.vars]
          · simp [Node.varss, ih hm]
      exact this xs hx⟩)
    obtain ⟨b, hb', hbn⟩ := List.mem_map.1 (hr.prints.all y hy)
    obtain ⟨c, h1, h2⟩ := hr.prints.value b hb'
    obtain ⟨t, ht⟩ := hfin c (F.lt _ h1)
    obtain ⟨hg, hwr⟩ := hgr _ h1 t ht
    obtain ⟨_, s, htx⟩ := (hwr (fun _ => .int 0)).facts
    have hv : b.value = s := by
      rcases (C28_ground_text (L := L) hpr h.stOK F.good (F.lt _ h1) ht hg htx).2 fuel with hh | hh
      · rw [show (ctxOf o (interpOf o.st) p _).st = o.st from rfl, hh] at h2; cases h2
      · rw [show (ctxOf o (interpOf o.st) p _).st = o.st from rfl, hh] at h2; cases h2; rfl
    have e2 : σ c = t.eval treeAlg (interpOf o.st) (fun _ => .int 0) := ht.eval m hω
    have e3 := hρ0 _ h1
    simp only at e3
    have e4 : ρ0 y.1 = t.eval treeAlg (interpOf o.st) (fun _ => .int 0) := by rw [← hbn, ← e2, e3]
    rw [e4]
    refine ⟨s, ?_, hwr _, htx⟩
    rw [← hbn, ← hv]; exact hb'
  have pick : ∀ ys : List Name, (∀ x ∈ ys, x ∈ xs) → ∃ ss : List Name, ss.length = ys.length ∧
      ∀ (i : Nat) x s, ys[i]? = some x → ss[i]? = some s → (⟨x, s⟩ : Binding) ∈ bs ∧ Writable (ρ0 x) ∧ Text (ρ0 x) s := by
    intro ys
    induction ys with
    | nil => intro _; exact ⟨[], rfl, by simp⟩
    | cons y ys ih =>
      intro hy
      obtain ⟨s, hs'⟩ := each y (hy y (by simp))
      obtain ⟨ss, h1, h2⟩ := ih fun x hx => hy x (by simp [hx])
      refine ⟨s :: ss, by simp [h1], fun i x t a b => ?_⟩
      cases i with
      | zero => cases a; cases b; exact hs'
      | succ i => exact h2 i x t a b
  obtain ⟨ss, h1, h2⟩ := pick xs fun _ hx => hx
  obtain ⟨ns, h3, h4, h5⟩ := C55_text_is_read_partial hw (ts := xs.map ρ0) (ss := ss) (by simpa using hne) (by simp [h1]) fun i t s a b => by
    obtain ⟨x, hx, rfl⟩ := getElem?_map_some a
    exact (h2 i x s hx b).2
  refine ⟨ss, h1, fun i x s a b => (h2 i x s a b).1, ns, h3, h4, fun ρ => ?_⟩
  have : (Node.fn w ns).inst treeAlg ρ = (Node.fn w (xs.map .var)).inst treeAlg ρ0 := by
    simp only [Node.inst, Node.children, h5, evals_vars_map, Node.name]
  rw [this]
  exact hsol

/-! ## Concrete cases -/

namespace ReadBackExamples

/-- `half(X,X // 2).  t([1,f(a,[]),-2]).` -/
def p : List Clause :=
  [⟨.fn n!"half" [.var n!"X", .efn n!"//" [.var n!"X", .int 2]], []⟩,
   ⟨.fn n!"t" [.fn n!"[" [.int 1, .fn n!"[" [.fn n!"f" [.cons n!"a", .nil], .fn n!"[" [.int (-2), .nil]]]], []⟩]

/-- The hypotheses of `C55_asking_again_partial` are met by the query `t(A)` … -/
example : Asked (demo p [.fn n!"t" [.var n!"A"]]) p [.fn n!"t" [.var n!"A"]] ∧
    Printable (demo p [.fn n!"t" [.var n!"A"]]).st ∧ IsWord isLower n!"t" :=
  ⟨SoundExamples.asked_demo (by decide +kernel) (by decide +kernel) (SoundExamples.safe_of_b (by decide +kernel)) (by decide) (by simp) (by decide +kernel),
    ⟨by decide +kernel, by decide +kernel, by decide +kernel, by decide +kernel⟩, _, _, rfl, by decide, by decide⟩

/-- … whose answer, typed in again, is answered `true`. -/
example : (demo p [.fn n!"t" [.var n!"A"]]).reportsOf 20 20 = some [.answer [⟨n!"A", n!"[1,f(a,[]),-2]"⟩]] ∧
    parseQuery n!"t([1,f(a,[]),-2])." =
      .ok [.fn n!"t" [.fn n!"[" [.int 1, .fn n!"[" [.fn n!"f" [.cons n!"a", .nil], .fn n!"[" [.int (-2), .nil]]]]] ∧
    (demo p [.fn n!"t" [.fn n!"[" [.int 1, .fn n!"[" [.fn n!"f" [.cons n!"a", .nil], .fn n!"[" [.int (-2), .nil]]]]]).reportsOf 20 20 =
      some [.answer []] := ⟨by decide +kernel, by rfl, by decide +kernel⟩

/-- Its value is writable; so are arithmetic expressions on numbers. -/
example : Writable (.fn n!"[" [.int 1, .fn n!"[" [.fn n!"f" [.cons n!"a", .fn n!"[" []], .fn n!"[" [.int (-2), .fn n!"[" []]]]) ∧
    Writable (.efn n!"//" [.efn n!"-" [.int 7, .int (-1)], .int 2]) := by
  have w1 : IsWord isLower n!"f" := ⟨_, _, rfl, by decide, by decide⟩
  have w2 : IsWord isLower n!"a" := ⟨_, _, rfl, by decide, by decide⟩
  refine ⟨.list (.cons (.cons (.cons .nil))) ?_, .num (.efn (by decide) (.efn (by decide) .int .int) .int)⟩
  simp only [List.mem_cons, List.not_mem_nil, or_false]
  rintro u (rfl | rfl | rfl)
  · exact .num .int
  · refine .fn w1 (by simp) ?_
    simp only [List.mem_cons, List.not_mem_nil, or_false]
    rintro u (rfl | rfl)
    · exact .cons w2
    · exact .list .nil (by simp)
  · exact .num .int

/-- Arithmetic answers are read with the same nesting. -/
example : (demo p [.fn n!"half" [.efn n!"-" [.int 7, .int (-1)], .var n!"A"]]).reportsOf 20 20 = some [.answer [⟨n!"A", n!"((7 - -1) // 2)"⟩]] ∧
    parseQuery n!"q(((7 - -1) // 2))." = .ok [.fn n!"q" [.efn n!"//" [.efn n!"-" [.int 7, .int (-1)], .int 2]]] := ⟨by decide +kernel, by rfl⟩

end ReadBackExamples

open ReadBackExamples in
/-- **C55 is false** for arithmetic operators on other terms: `half(a,A)` is answered with a ground term whose text is not read. -/
theorem C55_unreadable :
    (demo p [.fn n!"half" [.cons n!"a", .var n!"A"]]).reportsOf 20 20 = some [.answer [⟨n!"A", n!"(a // 2)"⟩]] ∧
    Text (.efn n!"//" [.cons n!"a", .int 2]) n!"(a // 2)" ∧ ∀ q, parseQuery n!"q((a // 2))." ≠ .ok q :=
  ⟨by decide +kernel, .efn .cons (.int (intText 2)), fun q h => by
    have : parseQuery n!"q((a // 2))." = .error n!"a // 2))." := by decide +kernel
    rw [this] at h; cases h⟩

end PBfs
