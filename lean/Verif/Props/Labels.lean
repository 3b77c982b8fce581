import Verif.Proof.Labels
import Verif.Props.Tree
/-! # What is written at the nodes of the unification tree -/
namespace PBfs
open Org

/-! ## What is written is determined -/

theorem same_of_pointwise {α β} {P : α → β → Prop} {as : List α} {bs cs : List β} (h1 : bs.length = as.length) (h2 : cs.length = as.length)
    (hb : ∀ (j : Nat) a b, as[j]? = some a → bs[j]? = some b → ∀ c, P a c → b = c) (hc : ∀ (j : Nat) a c, as[j]? = some a → cs[j]? = some c → P a c) : bs = cs := by
  apply List.ext_getElem?
  intro j
  by_cases hj : j < as.length
  · rw [List.getElem?_eq_getElem (h1 ▸ hj), List.getElem?_eq_getElem (h2 ▸ hj)]
    congr 1
    exact hb j as[j] _ (List.getElem?_eq_getElem hj) (List.getElem?_eq_getElem _) _ (hc j as[j] _ (List.getElem?_eq_getElem hj) (List.getElem?_eq_getElem _))
  · rw [List.getElem?_eq_none (by omega), List.getElem?_eq_none (by omega)]

theorem StandsAt.unique {st : Storage} {H : Nat → Option Cell} {a n} (h : StandsAt st H a n) : ∀ {m}, StandsAt st H a m → n = m := by
  induction h with
  | ref h1 h2 _ ih =>
    intro m hm
    cases hm with
    | ref g1 _ g3 => rw [h1] at g1; cases g1; exact ih g3
    | _ => simp_all
  | str h1 h2 _ ih =>
    intro m hm
    cases hm with
    | str g1 _ g3 => rw [h1] at g1; cases g1; exact ih g3
    | _ => simp_all
  | var h1 h2 =>
    intro m hm
    cases hm <;> simp_all
  | cons h1 h2 =>
    intro m hm
    cases hm <;> simp_all
  | int h1 =>
    intro m hm
    cases hm <;> simp_all
  | @fn a i k f cs h1 h2 h3 h4 ih =>
    intro m hm
    cases hm with
    | @fn _ i' k' f' cs' g1 g2 g3 g4 =>
      rw [h1] at g1; cases g1
      rw [h2] at g2; cases g2
      congr 1
      refine same_of_pointwise (P := fun j c => StandsAt st H (a + 1 + j) c) (as := List.range f.arity) (by simp [h3]) (by simp [g3]) (fun j x b hx hb c hc => ?_) (fun j x c hx hc => ?_)
      all_goals
        obtain ⟨_, hx⟩ := List.getElem?_eq_some_iff.1 hx
        simp only [List.getElem_range] at hx
        subst hx
      · exact ih _ _ hb hc
      · exact g4 _ _ hc
    | _ => simp_all
  | @efn a f k cs h1 h3 h4 ih =>
    intro m hm
    cases hm with
    | @efn _ f' k' cs' g1 g3 g4 =>
      rw [h1] at g1; cases g1
      congr 1
      refine same_of_pointwise (P := fun j c => StandsAt st H (a + 1 + j) c) (as := List.range 2) (by simp [h3]) (by simp [g3]) (fun j x b hx hb c hc => ?_) (fun j x c hx hc => ?_)
      all_goals
        obtain ⟨_, hx⟩ := List.getElem?_eq_some_iff.1 hx
        simp only [List.getElem_range] at hx
        subst hx
      · exact ih _ _ hb hc
      · exact g4 _ _ hc
    | _ => simp_all

theorem Fills.unique {g : Name → RNode → Prop} (hg : ∀ v n m, g v n → g v m → n = m) {c n} (h : Fills g c n) : ∀ {m}, Fills g c m → n = m := by
  induction h with
  | var h => intro m hm; cases hm with | var h' => exact hg _ _ _ h h'
  | cons => intro m hm; cases hm; rfl
  | int => intro m hm; cases hm; rfl
  | fn h1 h2 ih =>
    intro m hm
    cases hm with
    | fn g1 g2 => congr 1; exact same_of_pointwise h1 g1 (fun j a b ha hb c hc => ih j a b ha hb hc) g2
  | efn h1 h2 ih =>
    intro m hm
    cases hm with
    | efn g1 g2 => congr 1; exact same_of_pointwise h1 g1 (fun j a b ha hb c hc => ih j a b ha hb hc) g2

theorem RestOf.unique {r ts} (h : RestOf r ts) : ∀ {us}, RestOf r us → ts = us := by
  induction h with
  | nil => intro us hu; cases hu with | nil => rfl | other h => exact absurd rfl (h _)
  | cons _ ih => intro us hu; cases hu with | cons h => rw [ih h] | other h => exact absurd rfl (h _)
  | other h =>
    intro us hu
    cases hu with
    | nil => exact absurd rfl (h _)
    | cons => exact absurd rfl (h _)
    | other => rfl

theorem NText.unique {n s} (h : NText n s) : ∀ {t}, NText n t → s = t := by
  induction h with
  | var => intro t ht; cases ht; rfl
  | cons => intro t ht; cases ht; rfl
  | int h => intro t ht; cases ht with | int h' => exact (IntText.eq h).trans (IntText.eq h').symm
  | nil => intro t ht; cases ht with | nil => rfl | fn h => exact absurd rfl h
  | list h1 h2 h3 ih =>
    intro t ht
    cases ht with
    | list g1 g2 g3 =>
      cases h1.unique g1
      rw [same_of_pointwise (by simpa using h2) (by simpa using g2) (fun j a b ha hb c hc => ih j a b ha hb hc) g3]
    | fn h => exact absurd rfl h
  | fn h0 h1 h2 h3 ih =>
    intro t ht
    cases ht with
    | nil => exact absurd rfl h0
    | list => exact absurd rfl h0
    | fn g0 g1 g2 g3 => rw [same_of_pointwise h2 g2 (fun j a b ha hb c hc => ih j a b ha hb hc) g3]
  | sign h ih => intro t ht; cases ht with | sign h' => rw [ih h']
  | efn h1 h2 ih1 ih2 => intro t ht; cases ht with | efn g1 g2 => rw [ih1 g1, ih2 g2]

theorem Holds.unique {e : Exec} {r : VarReg} {a b} (h : Holds e r a) (h' : Holds e r b) : a = b := by
  obtain ⟨c, h1, h2⟩ := h
  obtain ⟨d, g1, g2⟩ := h'
  rw [h1] at g1; cases g1
  rw [h2] at g2; cases g2; rfl

theorem inj_of_nodup {α β} {f : α → β} : ∀ {l : List α}, (l.map f).Nodup → ∀ {x y}, x ∈ l → y ∈ l → f x = f y → x = y
  | [], _, x, y, hx, _, _ => by cases hx
  | a :: l, h, x, y, hx, hy, hf => by
    simp only [List.map_cons, List.nodup_cons, List.mem_map, not_exists, not_and] at h
    rcases List.mem_cons.1 hx with hx | hx <;> rcases List.mem_cons.1 hy with hy | hy
    · rw [hx, hy]
    · exact absurd (hx ▸ hf.symm) (h.1 y hy)
    · exact absurd (hy ▸ hf) (h.1 x hx)
    · exact inj_of_nodup h.2 hx hy hf

theorem GoalIs.unique {o : Org} {e : Exec} {n m} (h : GoalIs o e n) (h' : GoalIs o e m) : n = m := by
  obtain ⟨a, ⟨t, ts, hc, rfl⟩, hl, hf⟩ := h
  obtain ⟨b, ⟨t', ts', hc', rfl⟩, _, hf'⟩ := h'
  rw [hc] at hc'; cases hc'
  refine hf.unique ?_ hf'
  rintro v x y ⟨r, ad, hr, hn, hh, hs⟩ ⟨r', ad', hr', hn', hh', hs'⟩
  cases inj_of_nodup hl.1 hr hr' (hn.trans hn'.symm)
  cases hh.unique hh'
  exact hs.unique hs'

theorem Shown.unique {st : Storage} {H : Nat → Option Cell} {vs bs} (h : Shown st H vs bs) : ∀ {cs}, Shown st H vs cs → bs = cs := by
  induction h with
  | nil => intro cs hc; cases hc; rfl
  | self h1 _ ih =>
    intro cs hc
    cases hc with
    | self _ h => exact ih h
    | bound g1 g2 => exact absurd (g1.unique h1) g2
  | bound h1 h2 h3 _ ih =>
    intro cs hc
    cases hc with
    | self g1 _ => exact absurd (h1.unique g1) h2
    | bound g1 g2 g3 g4 => cases h1.unique g1; rw [h3.unique g3, ih g4]

/-! ## The property -/

/-- **C54.** In every state of every history, whatever tree is drawn: a goal that has not been called yet has the title “cant
determine name yet” and nothing below it; any other goal has as its title the text of the goal, with every variable replaced by what it
stood for when the goal was called. -/
theorem C54_goal_titles {o : Org} {fuel t} (hr : Reach o) (h : o.unificationTree fuel = .ok t) : ∀ s ∈ t.nodes, s.info.goal = true →
    ∃ e, o.execs[s.info.exec]? = some e ∧ (e.state = .running → s.info.title = n!"cant determine name yet" ∧ s.kids = []) ∧
      (e.state ≠ .running → ∃ n, GoalIs o e n ∧ NText n s.info.title) := by
  intro s hs hg
  obtain ⟨e, h1, h2, h3⟩ := tree_labels hr h s hs hg
  exact ⟨e, h1, h2, fun hne => let ⟨n, g1, g2, _⟩ := h3 hne; ⟨n, g1, g2⟩⟩

/-- **C54.** In every state of every history, whatever tree is drawn: an alternative that failed, or has not been tried yet, shows no
bindings.  Any other alternative shows first what each variable of the goal is bound to there, each variable once, and then what each
variable of the head is bound to, leaving out variables bound to nothing; the count of the first group is right. -/
theorem C54_bindings {o : Org} {fuel t} (hr : Reach o) (h : o.unificationTree fuel = .ok t) : ∀ s ∈ t.nodes, s.info.goal = true → ∀ k ∈ s.kids,
    ∃ eg n, o.execs[s.info.exec]? = some eg ∧ GoalIs o eg n ∧ BindingsOK o n k := by
  intro s hs hg k hk
  obtain ⟨e, h1, h2, h3⟩ := tree_labels hr h s hs hg
  by_cases hne : e.state = .running
  · rw [(h2 hne).2] at hk; cases hk
  · obtain ⟨n, g1, _, g3⟩ := h3 hne
    exact ⟨e, n, h1, g1, g3 k hk⟩

/-- **C54.** The goal, its text and the bindings are determined by the state: there is only one right title for a goal, and only one
right list of bindings for variables. -/
theorem C54_determined {o : Org} {e : Exec} {n m : RNode} {s s' : Name} (h : GoalIs o e n) (h' : GoalIs o e m) (hs : NText n s) (hs' : NText m s') :
    n = m ∧ s = s' ∧ ∀ vs bs bs', Shown o.st (o.heap e) vs bs → Shown o.st (o.heap e) vs bs' → bs = bs' := by
  cases h.unique h'
  exact ⟨rfl, hs.unique hs', fun _ _ _ h1 h2 => h1.unique h2⟩

/-- A row of the tree with its bindings. -/
structure LabelRow where
  exec : Nat
  title : Name
  bindings : List (Name × Name)
  firstFact : Nat
  deriving DecidableEq

/-- The titles and bindings after `n` iterations. -/
def labelsOf (fuel n : Nat) (o : Org) : Option (List LabelRow) :=
  match o.iterate fuel n with
  | .ok r => match r.1.unificationTree fuel with
    | .ok t => some (t.nodes.map fun s => ⟨s.info.exec, s.info.title, s.info.bindings.map fun b => (b.name, b.value), s.info.firstFact⟩)
    | .error _ => none
  | .error _ => none

/-- The clauses `p(X, f(X, 1)).` and `p(a, b).` -/
def labelProg : List Clause := [⟨.fn n!"p" [.var n!"X", .fn n!"f" [.var n!"X", .int 1]], []⟩, ⟨.fn n!"p" [.cons n!"a", .cons n!"b"], []⟩]

/-- The query `p(g(Y, Z), X)`. -/
def labelQuery : List Node := [.fn n!"p" [.fn n!"g" [.var n!"Y", .var n!"Z"], .var n!"X"]]

/-- Both variables called `X`, that of the goal and that of the clause, are shown, in this order; the second clause failed. -/
example : labelsOf 20 20 (demo labelProg labelQuery) = some
    [⟨0, n!"p(g(Y, Z), X)", [], 0⟩, ⟨1, [], [(n!"X", n!"f(g(Y, Z), 1)"), (n!"X", n!"g(Y, Z)")], 1⟩, ⟨2, [], [], 0⟩] := by decide +kernel

/-- Before the clauses have been tried nothing is shown for them. -/
example : labelsOf 20 1 (demo labelProg labelQuery) = some [⟨0, n!"p(g(Y, Z), X)", [], 0⟩, ⟨1, [], [], 0⟩, ⟨2, [], [], 0⟩] := by decide +kernel

/-- Before the first iteration the goal has no name. -/
example : labelsOf 20 0 (demo labelProg labelQuery) = some [⟨0, n!"cant determine name yet", [], 0⟩] := by decide +kernel

/-- The theorems apply to these trees. -/
example : ∃ o t, Reach o ∧ o.unificationTree 20 = .ok t ∧ ∃ s ∈ t.nodes, s.info.goal = true ∧ ∃ k ∈ s.kids, k.info.bindings ≠ [] := by
  have h : (match (demo labelProg labelQuery).getAnswer 20 (List.replicate 20 false) with
    | .ok r => (match r.1.unificationTree 20 with
      | .ok t => t.nodes.any fun s => s.info.goal && s.kids.any fun k => !k.info.bindings.isEmpty
      | _ => false)
    | _ => false) = true := by decide +kernel
  split at h
  · rename_i r hr
    split at h
    · rename_i t ht
      refine ⟨r.1, t, .answer (o' := r.1) (r := r.2) (demo_reach _ _) hr, ht, ?_⟩
      simp only [List.any_eq_true, Bool.and_eq_true] at h
      obtain ⟨s, hs, hg, k, hk, hb⟩ := h
      refine ⟨s, hs, hg, k, hk, ?_⟩
      intro he
      rw [he] at hb
      cases hb
    · cases h
  · cases h

end PBfs
