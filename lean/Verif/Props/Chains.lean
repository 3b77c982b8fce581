import Verif.Spec.Chains
import Verif.Props.Parser
/-! # C17: chains of operators -/
namespace PBfs

theorem OpChain.sum {e es ts} (h : OpChain .product e es ts) (ho : ∀ x ∈ es, x.1 = n!"+" ∨ x.1 = n!"-") :
    Syn .sum [chainNode e es] ts := by
  induction h with
  | one h => exact .sum1 h
  | link h _ ih => exact .add (ho _ (List.mem_cons_self ..)) h (ih fun x hx => ho x (List.mem_cons_of_mem _ hx))

theorem OpChain.product {e es ts} (h : OpChain .power e es ts) (ho : ∀ x ∈ es, x.1 = n!"*" ∨ x.1 = n!"//") :
    Syn .product [chainNode e es] ts := by
  induction h with
  | one h => exact .product1 h
  | link h _ ih => exact .mul (ho _ (List.mem_cons_self ..)) h (ih fun x hx => ho x (List.mem_cons_of_mem _ hx))

/-- If all operators but the last are `+`, resp. all are `*`, nesting to the right does not matter. -/
theorem chain_plus {D} {A : Alg D} {ρ : Name → D} {es ys} (h : Operands A ρ es ys) :
    ∀ {e x v}, Evals A (e.eval A ρ) x → LeftToRight x ys v →
      (∀ op ∈ (es.map (·.1)).dropLast, op = n!"+") → (∀ y ∈ es, y.1 = n!"+" ∨ y.1 = n!"-") →
        ∃ v', Evals A ((chainNode e es).eval A ρ) v' ∧ v' = v := by
  induction h with
  | nil => intro e x v he hl _ _; cases hl; exact ⟨_, he, rfl⟩
  | @cons op e' es y ys hy hops ih =>
    intro e x v he hl hp ho
    cases hl with
    | @step _ _ _ z _ _ ha hr =>
    cases hops with
    | nil =>
      cases hr
      exact ⟨_, .op he hy ha, rfl⟩
    | @cons op2 e2 es y2 ys hy2 hops =>
      have h1 : op = n!"+" := hp op (by simp)
      subst h1
      cases ha
      have key : ∀ {ys x v}, LeftToRight x ys v → (∀ t ∈ ys, t.1 = n!"+" ∨ t.1 = n!"-") → ∀ d, LeftToRight (x - d) ys (v - d) := by
        intro ys x v h
        induction h with
        | done => intro _ d; exact .done
        | @step x op y z rest v ha _ ih =>
          intro hm d
          have := ih (fun t ht => hm t (List.mem_cons_of_mem _ ht)) d
          rcases hm _ (List.mem_cons_self ..) with e | e <;> simp only at e <;> subst e <;> cases ha
          · refine .step .add ?_
            rwa [show x - d + y = x + y - d by omega]
          · refine .step .sub ?_
            rwa [show x - d - y = x - y - d by omega]
      have hm : ∀ {es : List (Name × Node)} {ys : List (Name × Int)}, Operands A ρ es ys →
          (∀ y ∈ es, y.1 = n!"+" ∨ y.1 = n!"-") → ∀ t ∈ ys, t.1 = n!"+" ∨ t.1 = n!"-" := by
        intro es ys h
        induction h with
        | nil => simp
        | cons _ _ ih =>
          intro h t ht
          rcases List.mem_cons.1 ht with rfl | ht
          · exact h _ (List.mem_cons_self ..)
          · exact ih (fun y hy => h y (List.mem_cons_of_mem _ hy)) t ht
      have h2 := key hr (hm (.cons hy2 hops) fun t ht => ho t (List.mem_cons_of_mem _ ht)) x
      rw [show x + y - x = y by omega] at h2
      obtain ⟨v', h3, h4⟩ := ih hy h2 (fun op h => hp op (by simp only [List.map_cons, List.dropLast_cons_cons, List.mem_cons] at h ⊢; exact .inr h))
        (fun t ht => ho t (List.mem_cons_of_mem _ ht))
      refine ⟨_, .op he h3 .add, by omega⟩

theorem chain_times {D} {A : Alg D} {ρ : Name → D} {es ys} (h : Operands A ρ es ys) :
    ∀ {e x v}, Evals A (e.eval A ρ) x → LeftToRight x ys v → (∀ y ∈ es, y.1 = n!"*") →
        ∃ v', Evals A ((chainNode e es).eval A ρ) v' ∧ v' = v := by
  have key : ∀ {ys x v}, LeftToRight x ys v → (∀ t ∈ ys, t.1 = n!"*") → ∃ k, v = x * k ∧ ∀ d, LeftToRight d ys (d * k) := by
    intro ys x v h
    induction h with
    | done => intro _; exact ⟨1, by omega, fun d => by rw [Int.mul_one]; exact .done⟩
    | @step x op y z rest v ha _ ih =>
      intro hm
      obtain ⟨k, h1, h2⟩ := ih (fun t ht => hm t (List.mem_cons_of_mem _ ht))
      have e := hm _ (List.mem_cons_self ..)
      simp only at e
      subst e
      cases ha
      refine ⟨y * k, by rw [h1, Int.mul_assoc], fun d => .step .mul ?_⟩
      rw [← Int.mul_assoc]; exact h2 _
  induction h with
  | nil => intro e x v he hl _; cases hl; exact ⟨_, he, rfl⟩
  | @cons op e' es y ys hy hops ih =>
    intro e x v he hl ho
    have h1 : op = n!"*" := ho _ (List.mem_cons_self ..)
    subst h1
    cases hl with
    | @step _ _ _ z _ _ ha hr =>
    cases ha
    have hm : ∀ {es : List (Name × Node)} {ys : List (Name × Int)}, Operands A ρ es ys →
        (∀ y ∈ es, y.1 = n!"*") → ∀ t ∈ ys, t.1 = n!"*" := by
      intro es ys h
      induction h with
      | nil => simp
      | cons _ _ ih =>
        intro h t ht
        rcases List.mem_cons.1 ht with rfl | ht
        · exact h _ (List.mem_cons_self ..)
        · exact ih (fun y hy => h y (List.mem_cons_of_mem _ hy)) t ht
    obtain ⟨k, h2, h3⟩ := key hr (hm hops fun t ht => ho t (List.mem_cons_of_mem _ ht))
    obtain ⟨v', h4, h5⟩ := ih hy (h3 y) fun t ht => ho t (List.mem_cons_of_mem _ ht)
    exact ⟨_, .op he h4 .mul, by rw [h5, h2, Int.mul_assoc]⟩

/-- **C17, partial.** Whatever the operands, a chain `e0 op1 e1 … opn en` of `+` and `-` in which only the last operator may be `-`
is read as an expression with the value computed from left to right; so is a chain of `*`, and a chain with only one operator. -/
theorem C17_left_to_right_partial {w text} {e : Node} {es : List (Name × Node)} {ts}
    (ht : Spell ([.var w, .sym n!"is"] ++ ts ++ [.sym ['.']]) text)
    (hc : (OpChain .product e es ts ∧ (∀ x ∈ es, x.1 = n!"+" ∨ x.1 = n!"-") ∧ ∀ op ∈ (es.map (·.1)).dropLast, op = n!"+") ∨
      (OpChain .power e es ts ∧ (∀ x ∈ es, x.1 = n!"*" ∨ x.1 = n!"//") ∧ (es.length ≤ 1 ∨ ∀ x ∈ es, x.1 = n!"*"))) :
    ∃ a, parseQuery text = .ok [.fn n!"is" [.var w, a]] ∧
      ∀ (D : Type) (A : Alg D) (ρ : Name → D) x ys v, Evals A (e.eval A ρ) x → Operands A ρ es ys → LeftToRight x ys v →
        Evals A (a.eval A ρ) v := by
  have hs : Syn .sum [chainNode e es] ts := by
    rcases hc with ⟨h1, h2, _⟩ | ⟨h1, h2, _⟩
    · exact h1.sum h2
    · exact .sum1 (h1.product h2)
  refine ⟨chainNode e es, parseQuery_complete ⟨[.var w] ++ .sym n!"is" :: ts, .one (.is (.esum (.sum1 (.product1 (.power1 .var)))) hs), by simpa using ht⟩, ?_⟩
  intro D A ρ x ys v he hop hl
  rcases hc with ⟨_, h2, h3⟩ | ⟨_, h2, h3⟩
  · obtain ⟨_, h4, rfl⟩ := chain_plus hop he hl h3 h2
    exact h4
  · by_cases hlen : es.length ≤ 1
    · cases hop with
      | nil => cases hl; exact he
      | cons hy hops =>
        cases hops with
        | nil =>
          cases hl with
          | step ha hr => cases hr; exact .op he hy ha
        | cons _ _ => simp at hlen
    · obtain ⟨_, h4, rfl⟩ := chain_times hop he hl (h3.resolve_left hlen)
      exact h4

/-- C17, a concrete text: `X is 1 + Y * 2 - 3.` -/
example : ∃ e es ts, Spell ([.var n!"X", .sym n!"is"] ++ ts ++ [.sym ['.']]) n!"X is 1+Y * 2 - 3." ∧ OpChain .product e es ts ∧
    (∀ x ∈ es, x.1 = n!"+" ∨ x.1 = n!"-") ∧ (∀ op ∈ (es.map (·.1)).dropLast, op = n!"+") ∧ es.length = 2 := by
  refine ⟨.int 1, [(n!"+", .efn n!"*" [.var n!"Y", .int 2]), (n!"-", .int 3)],
    [.num false ['1'], .sym n!"+", .var n!"Y", .sym n!"*", .num false ['2'], .sym n!"-", .num false ['3']], ?_, ?_, ?_, ?_, rfl⟩
  · have hvar : ∀ c, isUpper c = true → Tok.Valid (.var [c]) := fun c h => ⟨c, [], rfl, h, by simp⟩
    refine .cons (ws := []) (by simp) (hvar _ rfl) (by simp [Tok.stops]; decide) ?_
    refine .cons (ws := [' ']) (by decide) (sym_valid rfl) trivial ?_
    refine .cons (ws := [' ']) (by decide) ⟨by simp, by decide⟩ (by simp [Tok.stops]; decide) ?_
    refine .cons (ws := []) (by decide) (sym_valid rfl) trivial ?_
    refine .cons (ws := []) (by decide) (hvar _ rfl) (by simp [Tok.stops]; decide) ?_
    refine .cons (ws := [' ']) (by decide) (sym_valid rfl) trivial ?_
    refine .cons (ws := [' ']) (by decide) ⟨by simp, by decide⟩ (by simp [Tok.stops]; decide) ?_
    refine .cons (ws := [' ']) (by decide) (sym_valid rfl) trivial ?_
    refine .cons (ws := [' ']) (by decide) ⟨by simp, by decide⟩ (by simp [Tok.stops]; decide) ?_
    refine .cons (ws := []) (by decide) (sym_valid rfl) trivial (.nil (ws := []) (by simp))
  · have num : ∀ d, Syn .power [.int (decimal [d])] [.num false [d]] := fun d => .power1 (.num (neg := false))
    refine .link (ts := [.num false ['1']]) (.product1 (num '1')) ?_
    refine .link (ts := [.var n!"Y", .sym n!"*", .num false ['2']]) ?_ (.one (.product1 (num '3')))
    exact .mul (ts := [.var n!"Y"]) (.inl rfl) (.power1 .var) (.product1 (num '2'))
  · simp
  · simp

/-- **C17 is false**: `X is 10 - 3 - 2` gives 9 instead of 5, and `X is 100 // 10 // 5` gives 50 instead of 2, although the values from left to
right are 5 and 2. -/
theorem C17_wrong : LeftToRight 10 [(n!"-", 3), (n!"-", 2)] 5 ∧
    ((Org.init0.loadQueryText id n!"X is 10 - 3 - 2").1.session 20 [List.replicate 20 false]).toOption.map (·.2) =
      some [Org.Res.answer [⟨n!"X", n!"9"⟩]] ∧
    LeftToRight 100 [(n!"//", 10), (n!"//", 5)] 2 ∧
    ((Org.init0.loadQueryText id n!"X is 100 // 10 // 5").1.session 20 [List.replicate 20 false]).toOption.map (·.2) =
      some [Org.Res.answer [⟨n!"X", n!"50"⟩]] :=
  ⟨.step .sub (.step .sub .done), by decide +kernel, .step (.div (by decide)) (.step (.div (by decide)) .done), by decide +kernel⟩

end PBfs
