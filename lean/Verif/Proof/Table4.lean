import Verif.Proof.Table3
import Verif.Proof.Plain2
import Mathlib.Data.List.Perm.Subperm
/-! # What texts add to the tables of names -/
namespace PBfs
open Org

/-- `|` is not the name of a functor, and `[` is used for lists only. -/
def FV.Listy (f : FV) : Prop := f.name ≠ n!"|" ∧ (f.name = n!"[" → f.arity = 0 ∨ f.arity = 2)

theorem word_listy {w : Name} {k} (h : IsWord isLower w) : FV.Listy ⟨w, k⟩ := by
  obtain ⟨c, cs, rfl, hc, -⟩ := h
  refine ⟨fun e => ?_, fun e => ?_⟩ <;> (simp only [List.cons.injEq] at e; rw [e.1] at hc; exact absurd hc (by decide))

theorem Node.listWith_syms {P : FV → Prop} (h2 : P ⟨n!"[", 2⟩) {t : Node} {cs : List Node} (ht : ∀ x ∈ t.syms, P x) (hc : ∀ x ∈ Node.symss cs, P x) :
    ∀ x ∈ (Node.listWith t cs).syms, P x := by
  induction cs with
  | nil => exact ht
  | cons c cs ih =>
    simp only [Node.symss, List.mem_append] at hc
    have := ih fun x hx => hc x (.inr hx)
    intro x hx
    simp only [Node.listWith, Node.syms, Node.symss, List.mem_cons, List.mem_append, List.not_mem_nil, or_false, List.length_cons, List.length_nil] at hx
    rcases hx with rfl | hx | hx
    · exact h2
    · exact hc x (.inl hx)
    · exact this x hx

theorem Node.listWith_size (t : Node) (cs : List Node) : (Node.listWith t cs).size = Node.sizes cs + cs.length + t.size := by
  induction cs with
  | nil => simp [Node.listWith, Node.sizes]
  | cons c cs ih => simp only [Node.listWith, Node.size, Node.sizes, ih, List.length_cons]; omega

theorem Syn.listy {k es ts} (h : Syn k es ts) (hv : ∀ t ∈ ts, t.Valid) : ∀ x ∈ Node.symss es, x.Listy := by
  have h2 : FV.Listy ⟨n!"[", 2⟩ := ⟨by decide, fun _ => .inr rfl⟩
  have h0 : ∀ x ∈ (Node.fn n!"[" []).syms, x.Listy := by
    intro x hx
    simp only [Node.syms, Node.symss, List.mem_cons, List.not_mem_nil, or_false, List.length_nil] at hx
    subst hx
    exact ⟨by decide, fun _ => .inl rfl⟩
  induction h with
  | @var w => simp [Node.symss, Node.syms]
  | num => simp [Node.symss, Node.syms]
  | paren _ ih => exact ih fun t ht => hv t (by simp [ht])
  | power1 _ ih => exact ih hv
  | pow _ _ ih1 ih2 | mul _ _ _ ih1 ih2 | add _ _ _ ih1 ih2 =>
    have h1 := ih1 fun t ht => hv t (by simp [ht])
    have h2 := ih2 fun t ht => hv t (by simp [ht])
    simp only [Node.symss, Node.syms, List.append_nil, List.mem_append] at h1 h2 ⊢
    exact fun x hx => hx.elim (h1 x) (h2 x)
  | product1 _ ih => exact ih hv
  | sum1 _ ih => exact ih hv
  | @fn w _ _ _ ih =>
    have h1 := ih fun t ht => hv t (by simp [ht])
    have := hv (.opening w) (by simp)
    intro x hx
    simp only [Node.symss, Node.syms, List.append_nil, List.mem_cons] at hx
    rcases hx with rfl | hx
    · exact word_listy this
    · exact h1 x hx
  | @cons w =>
    have := hv (.name w) (by simp)
    intro x hx
    simp only [Node.symss, Node.syms, List.append_nil, List.mem_cons, List.not_mem_nil, or_false] at hx
    subst hx
    exact word_listy this
  | elist _ ih => exact ih hv
  | esum _ ih => exact ih hv
  | nil => rw [Node.symss, Node.symss, List.append_nil]; exact h0
  | list _ ih => rw [Node.symss, Node.symss, List.append_nil]; exact Node.listWith_syms h2 h0 (ih fun t ht => hv t (by simp [ht]))
  | @listVar _ _ w _ ih =>
    rw [Node.symss, Node.symss, List.append_nil]; exact Node.listWith_syms h2 (by simp [Node.syms]) (ih fun t ht => hv t (by simp [ht]))
  | listList _ _ ih1 ih2 =>
    have := ih2 fun t ht => hv t (by simp [ht])
    rw [Node.symss, Node.symss, List.append_nil] at this ⊢
    exact Node.listWith_syms h2 this (ih1 fun t ht => hv t (by simp [ht]))
  | one _ ih => exact ih hv
  | more _ _ ih1 ih2 =>
    have a1 := ih1 fun t ht => hv t (by simp [ht])
    have a2 := ih2 fun t ht => hv t (by simp [ht])
    simp only [Node.symss, List.append_nil, List.mem_append] at a1 a2 ⊢
    exact fun x hx => hx.elim (a1 x) (a2 x)

/-- There are at least as many tokens as symbols. -/
theorem Syn.tokens {k es ts} (h : Syn k es ts) : Node.sizes es ≤ ts.length ∧ (k = .args → Node.sizes es + es.length ≤ ts.length + 1) := by
  induction h with
  | var | num | cons | nil => simp [Node.sizes, Node.size]
  | _ => simp_all [Node.sizes, Node.size, Node.listWith_size] <;> omega

theorem HeadSyn.listy {a ts} (h : HeadSyn a ts) (hv : ∀ t ∈ ts, t.Valid) : ∀ x ∈ a.atomSyms, x.Listy := by
  cases h with
  | @fn w _ _ h => exact h.listy fun t ht => hv t (by simp [ht])
  | @cons w =>
    have := hv (.name w) (by simp)
    intro x hx
    simp only [Node.atomSyms, List.mem_cons, List.not_mem_nil, or_false] at hx
    subst hx
    exact word_listy this

theorem GoalSyn.listy {a ts} (h : GoalSyn a ts) (hv : ∀ t ∈ ts, t.Valid) : ∀ x ∈ a.atomSyms, x.Listy := by
  cases h with
  | head h => exact h.listy hv
  | eq h1 h2 | neq h1 h2 | is h1 h2 =>
    have a1 := h1.listy fun t ht => hv t (by simp [ht])
    have a2 := h2.listy fun t ht => hv t (by simp [ht])
    simp only [Node.atomSyms, Node.children, Node.symss, List.append_nil, List.mem_append] at a1 a2 ⊢
    exact fun x hx => hx.elim (a1 x) (a2 x)

theorem GoalsSyn.listy {q ts} (h : GoalsSyn q ts) (hv : ∀ t ∈ ts, t.Valid) : ∀ x ∈ querySyms q, x.Listy := by
  induction h with
  | one h => simpa [querySyms] using h.listy hv
  | more h _ ih =>
    have a1 := h.listy fun t ht => hv t (by simp [ht])
    have a2 := ih fun t ht => hv t (by simp [ht])
    intro x hx
    rw [querySyms, List.flatMap_cons, List.mem_append] at hx
    exact hx.elim (a1 x) (a2 x)

theorem ProgSyn.listy {p ts} (h : ProgSyn p ts) (hv : ∀ t ∈ ts, t.Valid) : ∀ x ∈ p.flatMap Clause.syms, x.Listy := by
  induction h with
  | nil => simp
  | comment _ ih => exact ih fun t ht => hv t (by simp [ht])
  | clause h _ ih =>
    intro x hx
    rw [List.flatMap_cons, List.mem_append] at hx
    rcases hx with hx | hx
    · rw [Clause.syms, querySyms, List.flatMap_cons, List.mem_append] at hx
      cases h with
      | fact h => exact (hx.resolve_right (by simp)) |> h.listy (fun t ht => hv t (by simp [ht])) x
      | rule h1 h2 => exact hx.elim (h1.listy (fun t ht => hv t (by simp [ht])) x) (h2.listy (fun t ht => hv t (by simp [ht])) x)
    · exact ih (fun t ht => hv t (by simp [ht])) x hx

theorem HeadSyn.tokens {a ts} (h : HeadSyn a ts) : a.size ≤ ts.length := by
  cases h with
  | fn h => have := h.tokens.1; simp [Node.size]; omega
  | cons => simp [Node.size]

theorem GoalSyn.tokens {a ts} (h : GoalSyn a ts) : a.size ≤ ts.length := by
  cases h with
  | head h => exact h.tokens
  | eq h1 h2 | neq h1 h2 | is h1 h2 =>
    have a1 := h1.tokens.1
    have a2 := h2.tokens.1
    simp only [Node.size, Node.sizes, List.length_append, List.length_cons] at a1 a2 ⊢
    omega

theorem GoalsSyn.tokens {q ts} (h : GoalsSyn q ts) : Node.sizes q ≤ ts.length := by
  induction h with
  | one h => have := h.tokens; simp only [Node.sizes]; omega
  | more h _ ih => have := h.tokens; simp only [Node.sizes, List.length_append, List.length_cons]; omega

theorem ProgSyn.tokens {p ts} (h : ProgSyn p ts) : (p.map fun c => c.head.size + Node.sizes c.body).sum ≤ ts.length := by
  induction h with
  | nil => simp
  | comment _ ih => exact Nat.le_succ_of_le ih
  | clause h _ ih =>
    simp only [List.map_cons, List.sum_cons, List.length_append]
    cases h with
    | fact h => have := h.tokens; simp only [Node.sizes, List.length_append]; omega
    | rule h1 h2 => have := h1.tokens; have := h2.tokens; simp only [List.length_append, List.length_cons]; omega

theorem Tok.Valid.pos {t : Tok} (h : t.Valid) : 1 ≤ t.text.length := by
  cases t with
  | name w => obtain ⟨c, cs, rfl, -⟩ := h; simp [Tok.text]
  | opening w => simp [Tok.text]
  | var w => obtain ⟨c, cs, rfl, -⟩ := h; simp [Tok.text]
  | num neg ds => have := List.length_pos_iff.2 h.1; simp [Tok.text]; omega
  | sym t => obtain ⟨c, cs, rfl, -⟩ := h; simp [Tok.text]
  | comment t => simp [Tok.text]

theorem Spell.length {ts s} (h : Spell ts s) : ts.length ≤ s.length := by
  induction h with
  | nil => simp
  | cons _ hv _ _ ih => have := hv.pos; simp only [List.length_append, List.length_cons]; omega

mutual
theorem Node.syms_length : ∀ n : Node, n.syms.length ≤ n.size
  | .cons _ => by simp [Node.syms, Node.size]
  | .var _ => by simp [Node.syms]
  | .int _ => by simp [Node.syms]
  | .fn f cs => by have := Node.symss_length cs; simp only [Node.syms, Node.size, List.length_cons]; omega
  | .efn f cs => by have := Node.symss_length cs; simp only [Node.syms, Node.size]; omega
theorem Node.symss_length : ∀ cs : List Node, (Node.symss cs).length ≤ Node.sizes cs
  | [] => by simp [Node.symss]
  | c :: cs => by
    have := Node.syms_length c; have := Node.symss_length cs
    simp only [Node.symss, Node.sizes, List.length_append]; omega
end

mutual
theorem Node.vars_size : ∀ n : Node, n.vars.length ≤ n.size
  | .cons _ => by simp [Node.vars]
  | .var _ => by simp [Node.vars, Node.size]
  | .int _ => by simp [Node.vars]
  | .fn f cs => by have := Node.varss_size cs; simp only [Node.vars, Node.size]; omega
  | .efn f cs => by have := Node.varss_size cs; simp only [Node.vars, Node.size]; omega
theorem Node.varss_size : ∀ cs : List Node, (Node.varss cs).length ≤ Node.sizes cs
  | [] => by simp [Node.varss]
  | c :: cs => by
    have := Node.vars_size c; have := Node.varss_size cs
    simp only [Node.varss, Node.sizes, List.length_append]; omega
end

theorem Node.atomSyms_length (a : Node) : a.atomSyms.length ≤ a.size := by
  cases a with
  | cons c => simp [Node.atomSyms, Node.size]
  | var v => simp [Node.atomSyms, Node.children, Node.symss]
  | int v => simp [Node.atomSyms, Node.children, Node.symss]
  | fn f cs => have := Node.symss_length cs; simp only [Node.atomSyms, Node.children, Node.size]; omega
  | efn f cs => have := Node.symss_length cs; simp only [Node.atomSyms, Node.children, Node.size]; omega

theorem querySyms_length : ∀ as, (querySyms as).length ≤ Node.sizes as
  | [] => by simp [querySyms]
  | a :: as => by
    have := a.atomSyms_length; have := querySyms_length as
    rw [querySyms, List.flatMap_cons, List.length_append, Node.sizes]
    rw [querySyms] at this
    omega

theorem progSyms_length : ∀ p : List Clause, (p.flatMap Clause.syms).length ≤ (p.map fun c => c.head.size + Node.sizes c.body).sum
  | [] => by simp
  | c :: p => by
    have h1 := querySyms_length (c.head :: c.body)
    have := progSyms_length p
    rw [List.flatMap_cons, List.length_append, List.map_cons, List.sum_cons]
    rw [Node.sizes] at h1
    have : c.syms.length ≤ c.head.size + Node.sizes c.body := h1
    omega

theorem entries_le : ∀ p : List Clause, (p.map Clause.entries).sum ≤ (p.map fun c => c.head.size + Node.sizes c.body).sum
  | [] => by simp
  | c :: p => by
    have := Node.varss_size c.body
    have := entries_le p
    simp only [List.map_cons, List.sum_cons, Clause.entries]; omega

theorem appendDotRev_length : ∀ {q sk r}, appendDotRev q sk = some r → r.length = q.length + sk.length + 1
  | [], _, _, h => by simp [appendDotRev] at h
  | c :: cs, sk, r, h => by
    rw [appendDotRev] at h
    split at h
    · have := appendDotRev_length h; simp only [List.length_cons] at this ⊢; omega
    · split at h
      · cases h
      · cases h; simp; omega

theorem appendDot_le (q : Name) : (appendDot q).length ≤ q.length + 1 := by
  unfold appendDot
  cases h : appendDotRev q.reverse [] with
  | none => simp
  | some r => have := appendDotRev_length h; simp at this; simp [this]

theorem parseProgram_syms {text p} (h : parseProgram text = .ok p) : (∀ x ∈ p.flatMap Clause.syms, x.Listy) ∧
    (p.flatMap Clause.syms).length ≤ text.length ∧ (p.map Clause.entries).sum ≤ text.length := by
  obtain ⟨ts, h1, h2⟩ := C41_program_text.1 h
  have a1 := h1.tokens
  have a2 := h2.length
  exact ⟨h1.listy h2.allValid, Nat.le_trans (progSyms_length p) (Nat.le_trans a1 a2), Nat.le_trans (entries_le p) (Nat.le_trans a1 a2)⟩

theorem parseQuery_syms {text q} (h : parseQuery text = .ok q) : (∀ x ∈ querySyms q, x.Listy) ∧
    (querySyms q).length < text.length ∧ (Node.varss q).length < text.length := by
  obtain ⟨ts, h1, h2⟩ := C41_query_text.1 h
  have a1 := h1.tokens
  have a2 := h2.length
  rw [List.length_append, List.length_singleton] at a2
  have := querySyms_length q
  have := Node.varss_size q
  exact ⟨h1.listy fun t ht => h2.allValid t (by simp [ht]), by omega, by omega⟩

theorem nodup_length {l a b : List FV} (hn : l.Nodup) (h : ∀ x ∈ l, x ∈ a ∨ x ∈ b) : l.length ≤ a.length + b.length := by
  have := (List.subperm_of_subset hn (l₂ := a ++ b) fun x hx => List.mem_append.2 (h x hx)).length_le
  rwa [List.length_append] at this

end PBfs
