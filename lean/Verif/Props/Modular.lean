import Verif.Props.History
import Verif.Spec.Needed
/-! # C71: only the clauses a query can lead to matter -/
namespace PBfs

section
variable {M : Cmp} {o o' : Org}

/-- Two interpreters with programs that agree about the predicates that may be called. -/
theorem Serves.relOn {ord ord' p p'} (h : Serves o ord p) (h' : Serves o' ord' p') (ho : ord.OK) (ho' : ord'.OK) (hs : o.Small) (hs' : o'.Small)
    (hex : ¬ M.ex) (heq : ∀ f, M.calls f → f ∉ builtinFVs → clausesFor f p = clausesFor f p')
    (hl : ∀ c ∈ p, M.calls c.head.fv → c.head.fv ∉ builtinFVs → ∀ a ∈ c.body, M.calls a.fv) : OrgRel M { o with queue := [] } { o' with queue := [] } := by
  have T : Twin M o.st o'.st := ⟨h.inv.nodup, h'.inv.nodup, fun _ => hs.1, fun _ => hs'.1, fun _ => hs.2, fun _ => hs'.2, h.kept.zero h'.kept, fun he => absurd he hex⟩
  have hb : PRel M o.st o'.st o.builtins o'.builtins := by
    rw [h.kept.builtins, h'.kept.builtins]
    exact builtins_rel T h.kept.grow.le h'.kept.grow.le
  refine ⟨T, fun f hf => ?_, ?_, ?_, hb, h.inv.gen, h'.inv.gen, rfl, fun hq => absurd rfl hq⟩
  · show ORel _ (o.program.rules? f) (o'.program.rules? f)
    by_cases hm : f ∈ builtinFVs
    · rw [h.inv.own f hm, h'.inv.own f hm]
      exact hb f hf
    · have hr' := h'.inv.rules f hm
      rw [show p'.filter (·.head.fv = f) = p.filter (·.head.fv = f) from (heq f hf hm).symm] at hr'
      have key := forall₂_mid (h.inv.rules f hm) hr' (S := RuleRel M o.st o'.st) ?_
      · have n1 := h.kept.noEmpty f
        have n2 := h'.kept.noEmpty f
        revert key n1 n2
        cases o.program.rules? f <;> cases o'.program.rules? f <;> intro key n1 n2
        · trivial
        · cases key; exact absurd rfl n2
        · cases key; exact absurd rfl n1
        · exact key
      · rintro r r' c hc ⟨s1, s2, h1, h2⟩ ⟨s1', s2', h1', h2'⟩
        obtain ⟨hc1, hc2⟩ := List.mem_filter.1 hc
        have hc2 : c.head.fv = f := by simpa using hc2
        have := compileClause_ss (z := ZRel.any hex) T ho ho' false c.head c.body (hl c hc1 (hc2 ▸ hf) (hc2 ▸ hm)) (st := s1) (st' := s1') trivial
        rw [h1, h1'] at this
        exact (this.2.2.2 h2 h2').2
  · show (o.builtins.map (·.1)).Nodup
    rw [h.inv.builtins.keys]; exact builtinFVs_nodup
  · show (o'.builtins.map (·.1)).Nodup
    rw [h'.inv.builtins.keys]; exact builtinFVs_nodup

theorem Serves.afterOn {ord ord' p p'} (h : Serves o ord p) (h' : Serves o' ord' p') (ho : ord.OK) (ho' : ord'.OK) (hex : ¬ M.ex)
    (heq : ∀ f, M.calls f → f ∉ builtinFVs → clausesFor f p = clausesFor f p')
    (hl : ∀ c ∈ p, M.calls c.head.fv → c.head.fv ∉ builtinFVs → ∀ a ∈ c.body, M.calls a.fv)
    {q qord qord'} (hqo : HashOrder.OK qord) (hqo' : HashOrder.OK qord') (hq : QueryCalls M.calls q)
    (hs : (o.loadQuery qord q).1.Small) (hs' : (o'.loadQuery qord' q).1.Small) :
    (o.loadQuery qord q).2 = (o'.loadQuery qord' q).2 ∧ OrgRel M (o.loadQuery qord q).1 (o'.loadQuery qord' q).1 ∧
    Reach (o.loadQuery qord q).1 ∧ Reach (o'.loadQuery qord' q).1 := by
  have small : ∀ {o : Org} {ord}, (o.loadQuery ord q).1.Small → o.Small := fun {o ord} hs =>
    ⟨Nat.le_trans (loadQuery_st (o := o) (ord := ord) (parsed := q)).1.le.functors.length_le hs.1,
      Nat.le_trans (loadQuery_st (o := o) (ord := ord) (parsed := q)).1.le.vars.length_le hs.2⟩
  have h0 := (h.relOn h' ho ho' (small hs) (small hs') hex heq hl).loadQuery hqo hqo' q hq
  exact ⟨h0.1, h0.2 (fun _ => hs) (fun _ => hs'), .query _ _ h.reach, .query _ _ h'.reach⟩

end

/-- **C71.** If two interpreters have programs with the same clauses, in the same order, for each predicate that the
query can lead to, then the query is accepted or rejected alike, and all results of `get_answer` are the same, in the
same order, whatever else is in the programs and happened before.  This is for queries that cannot lead to `is`, and at
most 32768 names (`C71_is` has the others). -/
theorem C71_needed {o o' ord ord' p p'} (h : Serves o ord p) (h' : Serves o' ord' p') (ho : ord.OK) (ho' : ord'.OK) {query : List Node}
    (heq : ∀ f, Needed p query f → f ∉ builtinFVs → clausesFor f p = clausesFor f p') (hi : ¬ Needed p query ⟨n!"is", 2⟩)
    {qord qord'} (hqo : HashOrder.OK qord) (hqo' : HashOrder.OK qord')
    (hs : (o.loadQuery qord (some query)).1.Small) (hs' : (o'.loadQuery qord' (some query)).1.Small) :
    (o.loadQuery qord (some query)).2 = (o'.loadQuery qord' (some query)).2 ∧
    ∀ fuel clocks, (o.loadQuery qord (some query)).1.talk fuel clocks = (o'.loadQuery qord' (some query)).1.talk fuel clocks := by
  obtain ⟨h1, h2, h3, h4⟩ := h.afterOn h' ho ho' (M := .noIs (Needed p query) hi) id heq (fun c hc hn hb a ha => .body hn hb hc ha) hqo hqo'
    (fun as e a ha => by cases e; exact .goal ha) hs hs'
  exact ⟨h1, fun fuel clocks => h2.talk h3 h4 id fuel clocks⟩

/-- **C71 with `is`.** The same for all queries, up to the text of "not an arithmetic term" messages - or what happens
because these are looked up at a wrong address. -/
theorem C71_is {o o' ord ord' p p'} (h : Serves o ord p) (h' : Serves o' ord' p') (ho : ord.OK) (ho' : ord'.OK) {query : List Node}
    (heq : ∀ f, Needed p query f → f ∉ builtinFVs → clausesFor f p = clausesFor f p')
    {qord qord'} (hqo : HashOrder.OK qord) (hqo' : HashOrder.OK qord')
    (hs : (o.loadQuery qord (some query)).1.Small) (hs' : (o'.loadQuery qord' (some query)).1.Small) :
    (o.loadQuery qord (some query)).2 = (o'.loadQuery qord' (some query)).2 ∧
    ∀ fuel clocks, Alike ((o.loadQuery qord (some query)).1.talk fuel clocks) ((o'.loadQuery qord' (some query)).1.talk fuel clocks) := by
  obtain ⟨h1, h2, h3, h4⟩ := h.afterOn h' ho ho' (M := .rough (Needed p query)) id heq (fun c hc hn hb a ha => .body hn hb hc ha) hqo hqo'
    (fun as e a ha => by cases e; exact .goal ha) hs hs'
  exact ⟨h1, fun fuel clocks => h2.alike h3 h4 fuel clocks⟩

/-- **C71, arrangement.** Clauses for different predicates may be put in any order: if each predicate has the same
clauses in the same order in both programs, no query that cannot lead to `is` tells them apart. -/
theorem C71_arrangement {o o' ord ord' p p'} (h : Serves o ord p) (h' : Serves o' ord' p') (ho : ord.OK) (ho' : ord'.OK)
    (heq : ∀ f, clausesFor f p = clausesFor f p') {query : List Node} (hi : ¬ Needed p query ⟨n!"is", 2⟩)
    {qord qord'} (hqo : HashOrder.OK qord) (hqo' : HashOrder.OK qord')
    (hs : (o.loadQuery qord (some query)).1.Small) (hs' : (o'.loadQuery qord' (some query)).1.Small) :
    (o.loadQuery qord (some query)).2 = (o'.loadQuery qord' (some query)).2 ∧
    ∀ fuel clocks, (o.loadQuery qord (some query)).1.talk fuel clocks = (o'.loadQuery qord' (some query)).1.talk fuel clocks :=
  C71_needed h h' ho ho' (fun f _ _ => heq f) hi hqo hqo' hs hs'

/-- **C71, extension.** Clauses for predicates that the query cannot lead to may be added anywhere. -/
theorem C71_extension {o o' ord ord' p q q'} (h : Serves o ord (p ++ q)) (h' : Serves o' ord' (p ++ q' ++ q)) (ho : ord.OK) (ho' : ord'.OK) {query : List Node}
    (hn : ∀ c ∈ q', ¬ Needed (p ++ q) query c.head.fv) (hi : ¬ Needed (p ++ q) query ⟨n!"is", 2⟩)
    {qord qord'} (hqo : HashOrder.OK qord) (hqo' : HashOrder.OK qord')
    (hs : (o.loadQuery qord (some query)).1.Small) (hs' : (o'.loadQuery qord' (some query)).1.Small) :
    (o.loadQuery qord (some query)).2 = (o'.loadQuery qord' (some query)).2 ∧
    ∀ fuel clocks, (o.loadQuery qord (some query)).1.talk fuel clocks = (o'.loadQuery qord' (some query)).1.talk fuel clocks := by
  refine C71_needed h h' ho ho' (fun f hf _ => ?_) hi hqo hqo' hs hs'
  have : q'.filter (·.head.fv = f) = [] := by
    rw [List.filter_eq_nil_iff]
    intro c hc e
    have e : c.head.fv = f := by simpa using e
    exact hn c hc (e ▸ hf)
  simp [clausesFor, List.filter_append, this]

/-! ## Witnesses -/

namespace Modular

/-- `p(a). p(b). q(b). r(X) :- p(X), q(X).`, and the same in another arrangement, with clauses for `s/1` and `is`. -/
def small : List Clause :=
  [⟨.fn n!"p" [.cons n!"a"], []⟩, ⟨.fn n!"p" [.cons n!"b"], []⟩, ⟨.fn n!"q" [.cons n!"b"], []⟩,
    ⟨.fn n!"r" [.var n!"X"], [.fn n!"p" [.var n!"X"], .fn n!"q" [.var n!"X"]]⟩]
def large : List Clause :=
  [⟨.fn n!"s" [.var n!"Z"], [.fn n!"is" [.var n!"Z", .cons n!"c"], .fn n!"r" [.var n!"Z"]]⟩,
    ⟨.fn n!"r" [.var n!"X"], [.fn n!"p" [.var n!"X"], .fn n!"q" [.var n!"X"]]⟩, ⟨.fn n!"q" [.cons n!"b"], []⟩,
    ⟨.fn n!"p" [.cons n!"a"], []⟩, ⟨.fn n!"s" [.cons n!"a"], []⟩, ⟨.fn n!"p" [.cons n!"b"], []⟩]
def goals : List Node := [.fn n!"r" [.var n!"X"]]

theorem needed {f} (h : Needed small goals f) : f = ⟨n!"r", 1⟩ ∨ f = ⟨n!"p", 1⟩ ∨ f = ⟨n!"q", 1⟩ := by
  induction h with
  | goal h =>
    simp only [goals, List.mem_cons, List.not_mem_nil, or_false] at h
    subst h
    exact .inl rfl
  | body _ _ hc ha ih =>
    simp only [small, List.mem_cons, List.not_mem_nil, or_false] at hc
    rcases hc with rfl | rfl | rfl | rfl
    · cases ha
    · cases ha
    · cases ha
    · simp only [List.mem_cons, List.not_mem_nil, or_false] at ha
      rcases ha with rfl | rfl
      · exact .inr (.inl rfl)
      · exact .inr (.inr rfl)

def after (p : List Clause) : Org := (Org.init0.loadProgram id (some p)).1

theorem serves {p} (h : (Org.init0.loadProgram id (some p)).2 = .ok) : Serves (after p) id p :=
  .program (.init (ord := id) Org.init_eq) (Prod.ext rfl h)

/-- The hypotheses of `C71_needed` are met by programs with different clauses, predicates and numbers. -/
example : Serves (after small) id small ∧ Serves (after large) id large ∧
    (∀ f, Needed small goals f → f ∉ builtinFVs → clausesFor f small = clausesFor f large) ∧ ¬ Needed small goals ⟨n!"is", 2⟩ ∧
    ((after small).loadQuery id (some goals)).1.Small ∧ ((after large).loadQuery id (some goals)).1.Small ∧
    (after small).st.functors ≠ (after large).st.functors := by
  refine ⟨serves (by decide +kernel), serves (by decide +kernel), fun f hf _ => ?_, fun h => ?_, by decide +kernel, by decide +kernel, by decide +kernel⟩
  · rcases needed hf with rfl | rfl | rfl <;> rfl
  · have := needed h; revert this; decide +kernel

example : ((after large).loadQuery id (some goals)).1.talk 20 [List.replicate 40 false, List.replicate 40 false] = .ok [.answer [⟨n!"X", n!"b"⟩], .noAnswer] := by
  decide +kernel

end Modular

/-- The order of the clauses for a predicate that is needed does matter. -/
theorem C71_order_matters : ∃ o o' p p' query, Serves o id p ∧ Serves o' id p' ∧ p.Perm p' ∧
    (o.loadQuery id (some query)).1.talk 20 [List.replicate 40 false] = .ok [.answer [⟨n!"X", n!"a"⟩]] ∧
    (o'.loadQuery id (some query)).1.talk 20 [List.replicate 40 false] = .ok [.answer [⟨n!"X", n!"b"⟩]] :=
  ⟨_, _, [⟨.fn n!"p" [.cons n!"a"], []⟩, ⟨.fn n!"p" [.cons n!"b"], []⟩], [⟨.fn n!"p" [.cons n!"b"], []⟩, ⟨.fn n!"p" [.cons n!"a"], []⟩], [.fn n!"p" [.var n!"X"]],
    Modular.serves (by decide +kernel), Modular.serves (by decide +kernel), .swap _ _ _, by decide +kernel, by decide +kernel⟩

end PBfs
