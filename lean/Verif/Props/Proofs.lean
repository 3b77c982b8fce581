import Verif.Spec.Proofs
import Verif.Props.Total
/-! # C86: every proof is reported exactly once -/
namespace PBfs
open Org

/-! ## Proofs and truth -/

section
variable {P : List Clause}

theorem OwnTrue.truth {g} (h : OwnTrue g) : Truth itreeAlg P g := by
  cases h with
  | eq => exact .eq
  | neq h => exact .neq h
  | is h => exact .is h

theorem OwnTrue.fv {g} (h : OwnTrue g) : g.fv ∈ ownFVs := by
  cases h <;> simp [GAtom.fv, ownFVs]

theorem Follows.truth {w gs} (h : Follows P w gs) : ∀ g ∈ gs, Truth itreeAlg P g := by
  induction h with
  | nil => simp
  | @clause k c σ w rest hc _ ih =>
    intro g hg
    rcases List.mem_cons.1 hg with rfl | hg
    · exact .clause (List.mem_of_getElem? hc) fun b hb => ih _ (List.mem_append_left _ (List.mem_map_of_mem hb))
    · exact ih g (List.mem_append_right _ hg)
  | own h _ ih =>
    intro g hg
    rcases List.mem_cons.1 hg with rfl | hg
    · exact h.truth
    · exact ih g hg

theorem Steps.follows {n gs} (h : Steps P n gs) : ∃ w, Follows P w gs := by
  induction h with
  | nil => exact ⟨_, .nil⟩
  | clause hc _ ih =>
    obtain ⟨w, hw⟩ := ih
    obtain ⟨k, hk⟩ := List.mem_iff_getElem?.1 hc
    exact ⟨_, .clause hk hw⟩
  | eq _ ih => exact ih.imp fun w hw => .own .eq hw
  | neq h _ ih => exact ih.imp fun w hw => .own (.neq h) hw
  | is h _ ih => exact ih.imp fun w hw => .own (.is h) hw

/-- What is true has a proof, and nothing else. -/
theorem fulfils_iff {p : List Clause} {atoms ρ} : Fulfils (inForce p) atoms ρ ↔ ∃ w, ProvedBy (inForce p) atoms w ρ := by
  constructor
  · intro h
    obtain ⟨n, hn⟩ := h.steps
    exact hn.follows
  · rintro ⟨w, hw⟩ a ha
    exact hw.truth _ (List.mem_map_of_mem ha)

end

/-! ## The search, with the clauses that have been used -/

/-- The new items with the clauses used for them. -/
def retag (P : List Clause) (u : List Nat) (i : SItem) (news : List SItem) : List (List Nat × SItem) :=
  match i with
  | .goals (.goal f :: ts) S =>
    if f ∈ ownFVs then news.map (u, ·) else (P.zipIdx.filter (fun x => x.1.head.fv = f)).map fun x => (u ++ [x.2], .clause x.1 ts S)
  | _ => news.map (u, ·)

/-- Turns with the clauses used for the item in front. -/
inductive ARun (P : List Clause) : List (List Nat × SItem) → List (Option Rep × List Nat) → List (List Nat × SItem) → Prop
  | nil {q} : ARun P q [] q
  | cons {u i q news r rs q'} : STurn P i news r → ARun P (q ++ retag P u i news) rs q' → ARun P ((u, i) :: q) ((r, u) :: rs) q'

theorem retag_snd {P : List Clause} {u i news r} (t : STurn P i news r) : (retag P u i news).map Prod.snd = news := by
  cases t with
  | @call f ts S hf =>
    simp only [retag, hf, if_false, List.map_map]
    have : ∀ (l : List Clause) (n : Nat), ((l.zipIdx n).filter (fun x => x.1.head.fv = f)).map (Prod.snd ∘ fun x => (u ++ [x.2], SItem.clause x.1 ts S)) =
        (l.filter (·.head.fv = f)).map (.clause · ts S) := by
      intro l
      induction l with
      | nil => intro n; rfl
      | cons c l ih =>
        intro n
        rw [List.zipIdx_cons, List.filter_cons, List.filter_cons]
        by_cases hc : c.head.fv = f
        · simp only [hc, decide_true, if_true, List.map_cons, ih]; rfl
        · simp only [hc, decide_false, Bool.false_eq_true, if_false, ih]
    exact this P 0
  | callOwn hf => simp [retag, hf]
  | leave | reject | enter | answer | ownFail | ownPass | ownAnswer | error => simp [retag]

theorem SRun.tagged {P : List Clause} {q rs q'} (h : SRun P q rs q') : ∀ {aq : List (List Nat × SItem)}, aq.map Prod.snd = q →
    ∃ ars aq', ARun P aq ars aq' ∧ ars.map Prod.fst = rs ∧ aq'.map Prod.snd = q' := by
  induction h with
  | nil => exact fun {aq} h => ⟨[], aq, .nil, rfl, h⟩
  | @cons i q news r rs q' t _ ih =>
    intro aq haq
    match aq, haq with
    | (u, j) :: aq, haq =>
      simp only [List.map_cons, List.cons.injEq] at haq
      obtain ⟨rfl, rfl⟩ := haq
      obtain ⟨ars, aq', h1, h2, h3⟩ := ih (aq := aq ++ retag P u j news) (by rw [List.map_append, retag_snd t])
      exact ⟨(r, u) :: ars, aq', .cons t h1, by rw [List.map_cons, h2], h3⟩

theorem ARun.run {P : List Clause} {aq ars aq'} (h : ARun P aq ars aq') : SRun P (aq.map Prod.snd) (ars.map Prod.fst) (aq'.map Prod.snd) := by
  induction h with
  | nil => exact .nil
  | cons t _ ih =>
    refine .cons t ?_
    rwa [List.map_append, retag_snd t] at ih

/-! ## Different items, different clauses -/

theorem zipIdx_apart {α} : ∀ (l : List α) (n : Nat), ((l.zipIdx n).Pairwise fun a b => a.2 ≠ b.2)
  | [], _ => by simp
  | a :: l, n => by
    rw [List.zipIdx_cons, List.pairwise_cons]
    refine ⟨fun b hb => ?_, zipIdx_apart l _⟩
    have := List.le_snd_of_mem_zipIdx hb
    show n ≠ b.2
    omega

/-- None begins with the other. -/
def Apart (u v : List Nat) : Prop := ¬ u <+: v ∧ ¬ v <+: u

theorem Apart.symm {u v} (h : Apart u v) : Apart v u := ⟨h.2, h.1⟩

theorem Apart.extend {u v : List Nat} (h : Apart u v) (k : Nat) : Apart (u ++ [k]) v := by
  refine ⟨fun h1 => h.1 ((List.prefix_append _ _).trans h1), fun h1 => ?_⟩
  rcases List.prefix_concat_iff.1 h1 with h1 | h1
  · exact h.1 (h1 ▸ List.prefix_append _ _)
  · exact h.2 h1

theorem Apart.pair {u : List Nat} {k l : Nat} (h : k ≠ l) : Apart (u ++ [k]) (u ++ [l]) := by
  constructor <;> intro h1 <;> have := h1.eq_of_length (by simp) <;> simp at this <;> omega

theorem retag_apart {P : List Clause} {u i news r} (t : STurn P i news r) {L : List (List Nat)} (hu : ∀ v ∈ L, Apart u v) :
    ((retag P u i news).map Prod.fst).Pairwise Apart ∧ ∀ x ∈ (retag P u i news).map Prod.fst, ∀ v ∈ L, Apart x v := by
  have one : ∀ {j : SItem}, (([j].map (u, ·)).map Prod.fst).Pairwise Apart ∧ ∀ x ∈ ([j].map (u, ·)).map Prod.fst, ∀ v ∈ L, Apart x v := by
    intro j
    refine ⟨by simp, fun x hx => ?_⟩
    obtain rfl : x = u := by simpa using hx
    exact hu
  have none : ((([] : List SItem).map (u, ·)).map Prod.fst).Pairwise Apart ∧ ∀ x ∈ (([] : List SItem).map (u, ·)).map Prod.fst, ∀ v ∈ L, Apart x v := by simp
  cases t with
  | @call f ts S hf =>
    simp only [retag, hf, if_false, List.map_map]
    refine ⟨?_, fun x hx => ?_⟩
    · rw [List.pairwise_map]
      refine List.Pairwise.filter _ ?_
      exact (zipIdx_apart P 0).imp fun h => Apart.pair h
    · obtain ⟨y, _, rfl⟩ := List.mem_map.1 hx
      exact fun v hv => (hu v hv).extend _
  | callOwn hf => simp only [retag, hf, if_true]; exact one
  | leave => exact one
  | enter => exact one
  | ownPass => exact one
  | reject => exact none
  | answer => exact none
  | ownFail => exact none
  | ownAnswer => exact none
  | error => exact none

/-- The clauses used for the answers. -/
def answerTags (ars : List (Option Rep × List Nat)) : List (List Nat) :=
  ars.filterMap fun x => match x.1 with | some (.answer _) => some x.2 | _ => none

theorem ARun.apart {P : List Clause} {aq ars aq'} (h : ARun P aq ars aq') : ∀ {D : List (List Nat)}, (D ++ aq.map Prod.fst).Pairwise Apart → (D ++ answerTags ars ++ aq'.map Prod.fst).Pairwise Apart := by
  induction h with
  | nil => intro D h; simpa [answerTags] using h
  | @cons u i q news r rs q' t _ ih =>
    intro D hD
    have hD' : (u :: (D ++ q.map Prod.fst)).Pairwise Apart := (List.perm_middle.pairwise_iff Apart.symm).1 hD
    obtain ⟨hu, hDq⟩ := List.pairwise_cons.1 hD'
    obtain ⟨n1, n2⟩ := retag_apart t hu
    have other : ((D ++ answerTags rs) ++ q'.map Prod.fst).Pairwise Apart := by
      refine ih ?_
      rw [List.map_append, ← List.append_assoc]
      exact List.pairwise_append.2 ⟨hDq, n1, fun x hx y hy => (n2 y hy x hx).symm⟩
    cases r with
    | none => exact other
    | some rep =>
      cases rep with
      | error => exact other
      | answer S =>
        have hnil : retag P u i news = [] := by
          have h0 : news = [] := by cases t <;> rfl
          have := retag_snd (u := u) t
          rw [h0] at this ⊢
          exact List.map_eq_nil_iff.1 this
        rw [hnil, List.append_nil] at ih
        have := ih (D := D ++ [u]) (by simpa using hD)
        simpa [answerTags] using this

/-! ## What the items stand for -/

section
variable {M : Modes} {p : List Clause} {atoms : List Node}

/-- The instances are what is left of the proofs that begin with these clauses. -/
def Left (p : List Clause) (atoms : List Node) (u : List Nat) (S : Insts) : Prop :=
  ∀ ρ w, ProvedBy (inForce p) atoms (u ++ w) ρ ↔ ∃ gs, S ρ gs ∧ Follows (inForce p) w gs

def SItem.Left (p : List Clause) (atoms : List Node) (u : List Nat) : SItem → Prop
  | .goals _ S => PBfs.Left p atoms u S
  | .own _ _ S => PBfs.Left p atoms u S
  | .clause c _ S => ∃ u' k, u = u' ++ [k] ∧ (inForce p)[k]? = some c ∧ PBfs.Left p atoms u' S

/-- A goal for a predicate with clauses is proved by a clause. -/
theorem Follows.clause_inv {w} {g : GAtom ITree} {gs} (h : Follows (inForce p) w (g :: gs)) (hf : g.fv ∉ ownFVs) :
    ∃ k c σ w', w = k :: w' ∧ (inForce p)[k]? = some c ∧ g = c.head.inst itreeAlg σ ∧ Follows (inForce p) w' (c.body.map (Node.inst itreeAlg σ) ++ gs) := by
  cases h with
  | clause hk h => exact ⟨_, _, _, _, rfl, hk, rfl, h⟩
  | own ho => exact absurd ho.fv hf

theorem Follows.own_inv {w} {g : GAtom ITree} {gs} (h : Follows (inForce p) w (g :: gs)) (hf : g.fv ∈ ownFVs) : OwnTrue g ∧ Follows (inForce p) w gs := by
  cases h with
  | @clause k c σ w rest hk h =>
    rw [head_fv] at hf
    exact absurd hf (inForce_own c (List.mem_of_getElem? hk))
  | own ho h => exact ⟨ho, h⟩

theorem Steady.cons (hS : Steady M p atoms (f :: fs) S) {ρ gs} (hs : S ρ gs) : ∃ g rest, gs = g :: rest ∧ g.fv = f := by
  have := hS.fvs _ _ hs
  match gs, this with
  | g :: rest, this => exact ⟨g, rest, rfl, (List.cons.inj this).1⟩

theorem Left.enter {c : Clause} {fs S u k} (hk : (inForce p)[k]? = some c) (hS : Steady M p atoms (c.head.fv :: fs) S) (h : PBfs.Left p atoms u S) :
    PBfs.Left p atoms (u ++ [k]) (S.enter c) := by
  intro ρ w
  rw [List.append_assoc, List.singleton_append, h ρ (k :: w)]
  constructor
  · rintro ⟨gs, hs, hw⟩
    obtain ⟨g, rest, rfl, hg⟩ := hS.cons hs
    obtain ⟨k', c', σ, w', h1, h2, rfl, h3⟩ := hw.clause_inv (by rw [hg]; exact inForce_own c (List.mem_of_getElem? hk))
    obtain ⟨rfl, rfl⟩ := List.cons.inj h1
    obtain rfl : c = c' := by rw [hk] at h2; exact Option.some.inj h2
    exact ⟨_, ⟨σ, rest, hs, rfl⟩, h3⟩
  · rintro ⟨gs, ⟨σ, rest, hs, rfl⟩, hw⟩
    exact ⟨_, hs, .clause hk hw⟩

/-- What a predicate without clauses leaves, where its arguments are known. -/
theorem Steady.passes (h : Directed M p atoms) {f fs S S'} (hS : Steady M p atoms (f :: fs) S) (ho : Own f S (some S')) {ρ gs} :
    S' ρ gs ↔ ∃ g, S ρ (g :: gs) ∧ OwnTrue g := by
  obtain ⟨t1, t2, t3, t4, t5⟩ := h.tests
  cases ho with
  | eq_pass ha =>
    refine ⟨fun ⟨g, hg⟩ => ?_, fun ⟨g, hg, _⟩ => ⟨g, hg⟩⟩
    obtain ⟨d, e, rfl⟩ := hS.args hg
    obtain rfl := ha.2 _ _ _ _ _ hg
    exact ⟨_, hg, .eq⟩
  | neq_pass ha =>
    refine ⟨fun ⟨g, hg⟩ => ?_, fun ⟨g, hg, _⟩ => ⟨g, hg⟩⟩
    obtain ⟨d, e, rfl⟩ := hS.args hg
    obtain ⟨ρ', n', d', e', gs', hg', hne⟩ := ha
    refine ⟨_, hg, .neq ?_⟩
    rw [hS.first t4 hg hg', hS.second t5 hg hg']
    exact hne
  | @is_pass _ v ha =>
    constructor
    · rintro ⟨d, hg⟩
      cases ha.2 _ _ _ _ _ hg with
      | value hv => exact ⟨_, hg, .is hv⟩
    · rintro ⟨g, hg, ht⟩
      obtain ⟨d, e, rfl⟩ := hS.args hg
      generalize hx : (⟨n!"is", [d, e]⟩ : GAtom ITree) = x at ht
      cases ht with
      | eq => cases hx
      | neq => cases hx
      | is hv =>
        simp only [GAtom.mk.injEq, List.cons.injEq, and_true, true_and] at hx
        obtain ⟨rfl, rfl⟩ := hx
        cases ha.2 _ _ _ _ _ hg with
        | value hv' =>
          obtain rfl := hv.det itreeAlg_sharp hv'
          exact ⟨_, hg⟩

theorem Own.mem {f S r} (h : Own f S r) : f ∈ ownFVs := by cases h <;> simp [ownFVs]

theorem Left.own (h : Directed M p atoms) {f fs S S' u} (hS : Steady M p atoms (f :: fs) S) (ho : Own f S (some S')) (hl : PBfs.Left p atoms u S) : PBfs.Left p atoms u S' := by
  intro ρ w
  rw [hl ρ w]
  constructor
  · rintro ⟨gs, hs, hw⟩
    obtain ⟨g, rest, rfl, hg⟩ := hS.cons hs
    obtain ⟨h1, h2⟩ := hw.own_inv (by rw [hg]; exact ho.mem)
    exact ⟨rest, (hS.passes h ho).2 ⟨g, hs, h1⟩, h2⟩
  · rintro ⟨gs, hs, hw⟩
    obtain ⟨g, h1, h2⟩ := (hS.passes h ho).1 hs
    exact ⟨_, h1, .own h2 hw⟩

theorem Left.done {fs S u} (hS : Steady M p atoms fs S) (hf : fs = []) (hl : PBfs.Left p atoms u S) : ∀ ρ, (∃ gs, S ρ gs) ↔ ProvedBy (inForce p) atoms u ρ := by
  intro ρ
  have h := hl ρ []
  rw [List.append_nil] at h
  rw [h]
  refine ⟨fun ⟨gs, hs⟩ => ⟨gs, hs, ?_⟩, fun ⟨gs, hs, _⟩ => ⟨gs, hs⟩⟩
  have := hS.fvs _ _ hs
  rw [hf] at this
  rw [List.map_eq_nil_iff.1 this]
  exact .nil

theorem STurn.left (h : Directed M p atoms) {u i news r} (t : STurn (inForce p) i news r) (hm : i.Moded M p atoms) (hl : i.Left p atoms u) :
    (∀ x ∈ retag (inForce p) u i news, x.2.Left p atoms x.1) ∧ ∀ S, r = some (.answer S) → ∀ ρ, (∃ gs, S ρ gs) ↔ ProvedBy (inForce p) atoms u ρ := by
  have one : ∀ {j : SItem}, j.Left p atoms u → ∀ x ∈ [j].map (u, ·), x.2.Left p atoms x.1 := by
    intro j hj x hx
    obtain rfl : x = (u, j) := by simpa using hx
    exact hj
  cases t with
  | leave => exact ⟨one hl, by simp⟩
  | @call f ts S hf =>
    refine ⟨fun x hx => ?_, by simp⟩
    simp only [retag, hf, if_false] at hx
    obtain ⟨⟨c, k⟩, hc, rfl⟩ := List.mem_map.1 hx
    have := List.mem_zipIdx_iff_getElem?.1 (List.mem_filter.1 hc).1
    exact ⟨u, k, rfl, this, hl⟩
  | callOwn hf => exact ⟨by simp only [retag, hf, if_true]; exact one hl, by simp⟩
  | @enter c ts S =>
    obtain ⟨u', k, rfl, hk, hl⟩ := hl
    exact ⟨one (hl.enter hk hm.2), by simp⟩
  | @answer c ts S _ hn =>
    obtain ⟨u', k, rfl, hk, hl⟩ := hl
    refine ⟨by simp [retag], fun S hS => ?_⟩
    cases hS
    refine Left.done (hm.2.enter h hm.1) ?_ (hl.enter hk hm.2)
    rw [← calls_todo, ← calls_append]
    exact noGoal_calls hn
  | ownPass ho => exact ⟨one (Left.own h hm ho hl), by simp⟩
  | ownAnswer ho hn =>
    refine ⟨by simp [retag], fun S hS => ?_⟩
    cases hS
    exact Left.done (Steady.own h hm ho) (noGoal_calls hn) (Left.own h hm ho hl)
  | reject | ownFail | error => simp [retag]

theorem mem_retag {P : List Clause} {u i news r} (t : STurn P i news r) {x} (hx : x ∈ retag P u i news) : x.2 ∈ news := by
  rw [← retag_snd (u := u) t]
  exact List.mem_map_of_mem hx

theorem ARun.proven (h : Directed M p atoms) {aq ars aq'} (hr : ARun (inForce p) aq ars aq') (hm : ∀ x ∈ aq, x.2.Moded M p atoms ∧ x.2.Left p atoms x.1) :
    ∀ S u, (some (.answer S), u) ∈ ars → ∀ ρ, (∃ gs, S ρ gs) ↔ ProvedBy (inForce p) atoms u ρ := by
  induction hr with
  | nil => simp
  | @cons u i q news r rs q' t _ ih =>
    obtain ⟨h1, h2⟩ := hm _ List.mem_cons_self
    obtain ⟨h3, h4⟩ := t.left h h1 h2
    intro S v hS
    rcases List.mem_cons.1 hS with hS | hS
    · cases hS
      exact h4 S rfl
    · refine ih (fun x hx => ?_) S v hS
      rcases List.mem_append.1 hx with hx | hx
      · exact hm x (List.mem_cons_of_mem _ hx)
      · exact ⟨t.moded h h1 _ (mem_retag t hx), h3 x hx⟩

/-! ## Every proof is found -/

/-- With this item in the queue, the proof is found after a number of turns, or when the search ends. -/
def Heads (P : List Clause) (w : List Nat) (x : List Nat × SItem) : Prop :=
  ∀ q, x ∈ q → ∃ N, ∀ rs q', ARun P q rs q' → N ≤ rs.length ∨ q' = [] → ∃ S, (some (.answer S), w) ∈ rs

theorem heads_of {P : List Clause} {w u i} (h : ∀ news r, STurn P i news r → ((∃ S, r = some (.answer S)) ∧ u = w) ∨ ∃ x ∈ retag P u i news, Heads P w x) : Heads P w (u, i) := by
  intro q hi
  obtain ⟨pre, post, rfl⟩ := List.append_of_mem hi
  clear hi
  induction pre generalizing post with
  | nil =>
    by_cases ht : ∃ news r, STurn P i news r
    · obtain ⟨news, r, t⟩ := ht
      rcases h news r t with ⟨⟨S, rfl⟩, rfl⟩ | ⟨x, hx, hh⟩
      · refine ⟨1, fun rs q' hr hn => ?_⟩
        cases hr with
        | nil => rcases hn with hn | hn <;> simp at hn
        | cons t' _ =>
          obtain ⟨_, rfl⟩ := t.det t'
          exact ⟨S, .head _⟩
      · obtain ⟨N, hN⟩ := hh (post ++ retag P u i news) (List.mem_append_right _ hx)
        refine ⟨N + 1, fun rs q' hr hn => ?_⟩
        cases hr with
        | nil => rcases hn with hn | hn <;> simp at hn
        | cons t' hr =>
          obtain ⟨rfl, rfl⟩ := t.det t'
          obtain ⟨S, a⟩ := hN _ _ hr (hn.imp (by simp) id)
          exact ⟨S, .tail _ a⟩
    · refine ⟨1, fun rs q' hr hn => ?_⟩
      cases hr with
      | nil => rcases hn with hn | hn <;> simp at hn
      | cons t _ => exact absurd ⟨_, _, t⟩ ht
  | cons k pre ih =>
    by_cases ht : ∃ news r, STurn P k.2 news r
    · obtain ⟨news, r, t⟩ := ht
      obtain ⟨N, hN⟩ := ih (post ++ retag P k.1 k.2 news)
      refine ⟨N + 1, fun rs q' hr hn => ?_⟩
      cases hr with
      | nil => rcases hn with hn | hn <;> simp at hn
      | cons t' hr =>
        obtain ⟨rfl, rfl⟩ := t.det t'
        obtain ⟨S, a⟩ := hN _ _ (by simpa using hr) (hn.imp (by simp) id)
        exact ⟨S, .tail _ a⟩
    · refine ⟨1, fun rs q' hr hn => ?_⟩
      cases hr with
      | nil => rcases hn with hn | hn <;> simp at hn
      | cons t _ => exact absurd ⟨_, _, t⟩ ht

theorem calls_noGoal {ts : List Todo} (h : calls ts = []) : NoGoal ts := by
  intro f hf
  have : f ∈ calls ts := List.mem_filterMap.2 ⟨_, hf, rfl⟩
  rw [h] at this
  cases this

/-- Predicates without clauses neither fail nor report errors where they are true. -/
theorem Steady.no_fail (h : Directed M p atoms) {f fs S} (hS : Steady M p atoms (f :: fs) S) {ρ g gs} (hs : S ρ (g :: gs)) (hg : OwnTrue g) :
    ¬ Own f S none ∧ ∀ k, ¬ OwnErr f S k := by
  obtain ⟨t1, t2, t3, t4, t5⟩ := h.tests
  have hfv := hS.fvs _ _ hs
  simp only [List.map_cons, List.cons.injEq] at hfv
  cases hg with
  | @eq d =>
    obtain rfl : f = ⟨n!"==", 2⟩ := hfv.1.symm
    refine ⟨fun ho => ?_, fun k ho => by cases ho⟩
    cases ho with
    | eq_fail ho =>
      obtain ⟨ρ', n', d', e', gs', hg', hne⟩ := ho
      exact hne ((hS.first t2 hs hg').symm.trans (hS.second t3 hs hg'))
  | neq hne =>
    obtain rfl : f = ⟨n!"\\==", 2⟩ := hfv.1.symm
    refine ⟨fun ho => ?_, fun k ho => by cases ho⟩
    cases ho with
    | neq_fail ho => exact hne (ho.2 _ _ _ _ _ hs)
  | @is d v hv =>
    obtain rfl : f = ⟨n!"is", 2⟩ := hfv.1.symm
    have hA : S.Always (fun _ e => Outcome itreeAlg e (.inr v)) := by
      refine ⟨⟨_, _, _, _, _, hs, .value hv⟩, fun ρ' n' d' e' gs' hg' => ?_⟩
      rw [← hS.second t1 hs hg']
      exact .value hv
    have hi : S.is v ρ gs := ⟨_, hs⟩
    refine ⟨fun ho => ?_, fun k ho => ((Own.is_pass hA fun h0 => h0 _ _ hi).no_err ho).elim⟩
    cases ho with
    | is_fail ha h0 => cases ha.outcome hA; exact h0 _ _ hi

theorem heads_goals (h : Directed M p atoms) {ρ w gs} (hw : Follows (inForce p) w gs) : ∀ ts S u, Steady M p atoms (calls ts) S → S ρ gs → gs ≠ [] → Heads (inForce p) (u ++ w) (u, .goals ts S) := by
  induction hw with
  | nil => intro ts S u _ _ h0; exact absurd rfl h0
  | @clause k c σ w rest hk hw ih =>
    intro ts
    induction ts with
    | nil => exact fun S u hS hs _ => absurd (hS.fvs _ _ hs) (by simp [calls])
    | cons t ts ih2 =>
      intro S u hS hs _
      refine heads_of fun news r t => ?_
      have hc := List.mem_of_getElem? hk
      cases t with
      | leave => exact .inr ⟨_, .head _, ih2 S u hS hs (by simp)⟩
      | @call f _ _ hf =>
        have hfv : (c.head.inst itreeAlg σ :: rest).map GAtom.fv = f :: calls ts := hS.fvs _ _ hs
        simp only [List.map_cons, List.cons.injEq, head_fv] at hfv
        have hS' : Steady M p atoms (c.head.fv :: calls ts) S := by rw [hfv.1]; exact hS
        refine .inr ⟨(u ++ [k], .clause c ts S), ?_, ?_⟩
        · simp only [retag, hf, if_false]
          exact List.mem_map.2 ⟨(c, k), List.mem_filter.2 ⟨List.mem_zipIdx_iff_getElem?.2 hk, by simpa using hfv.1⟩, rfl⟩
        · have he : S.enter c ρ (c.body.map (Node.inst itreeAlg σ) ++ rest) := ⟨σ, rest, hs, rfl⟩
          have hE : Steady M p atoms (calls (c.todo ++ ts)) (S.enter c) := by rw [calls_append, calls_todo]; exact hS'.enter h hc
          rw [show u ++ k :: w = (u ++ [k]) ++ w by simp]
          refine heads_of fun news r t => ?_
          cases t with
          | reject h0 => exact absurd he (h0 _ _)
          | enter _ hn =>
            refine .inr ⟨_, .head _, ih _ _ _ hE he fun h0 => ?_⟩
            have := hE.fvs _ _ he
            rw [h0] at this
            exact hn (calls_noGoal this.symm)
          | answer _ hn =>
            refine .inl ⟨⟨_, rfl⟩, ?_⟩
            have := hE.fvs _ _ he
            rw [noGoal_calls hn] at this
            have h0 := List.map_eq_nil_iff.1 this
            rw [h0] at hw
            cases hw
            simp
      | callOwn hf =>
        have hfv : (c.head.inst itreeAlg σ :: rest).map GAtom.fv = _ :: calls ts := hS.fvs _ _ hs
        simp only [List.map_cons, List.cons.injEq, head_fv] at hfv
        exact absurd (by rw [hfv.1]; exact hf) (inForce_own c hc)
  | @own g w rest hg hw ih =>
    intro ts
    induction ts with
    | nil => exact fun S u hS hs _ => absurd (hS.fvs _ _ hs) (by simp [calls])
    | cons t ts ih2 =>
      intro S u hS hs _
      refine heads_of fun news r t => ?_
      cases t with
      | leave => exact .inr ⟨_, .head _, ih2 S u hS hs (by simp)⟩
      | @call f _ _ hf =>
        have hfv : (g :: rest).map GAtom.fv = f :: calls ts := hS.fvs _ _ hs
        simp only [List.map_cons, List.cons.injEq] at hfv
        exact absurd (by rw [← hfv.1]; exact hg.fv) hf
      | @callOwn f _ _ hf =>
        have hS : Steady M p atoms (f :: calls ts) S := hS
        refine .inr ⟨(u, .own f ts S), by simp [retag, hf], heads_of fun news r t => ?_⟩
        obtain ⟨n1, n2⟩ := hS.no_fail h hs hg
        cases t with
        | ownFail ho => exact absurd ho n1
        | error ho => exact absurd ho (n2 _)
        | ownPass ho hn =>
          have h1 := (hS.passes h ho).2 ⟨g, hs, hg⟩
          have hE := Steady.own h hS ho
          refine .inr ⟨_, .head _, ih _ _ _ hE h1 fun h0 => ?_⟩
          have := hE.fvs _ _ h1
          rw [h0] at this
          exact hn (calls_noGoal this.symm)
        | ownAnswer ho hn =>
          have h1 := (hS.passes h ho).2 ⟨g, hs, hg⟩
          refine .inl ⟨⟨_, rfl⟩, ?_⟩
          have := (Steady.own h hS ho).fvs _ _ h1
          rw [noGoal_calls hn] at this
          have h0 := List.map_eq_nil_iff.1 this
          rw [h0] at hw
          cases hw
          simp

/-! ## The search -/

theorem query_left (h : Directed M p atoms) : (SItem.goals (atoms.map (.goal ·.fv)) (Insts.query atoms)).Moded M p atoms ∧
    (SItem.goals (atoms.map (.goal ·.fv)) (Insts.query atoms)).Left p atoms [] := by
  refine ⟨by simp only [SItem.Moded, calls_goals]; exact .query h, fun ρ w => ?_⟩
  exact ⟨fun hw => ⟨_, rfl, hw⟩, fun ⟨gs, hs, hw⟩ => by rw [hs] at hw; exact hw⟩

theorem proven_list {P : List Clause} : ∀ {ars : List (Option Rep × List Nat)}, (∀ S u, (some (.answer S), u) ∈ ars → ∀ ρ, (∃ gs, S ρ gs) ↔ ProvedBy P atoms u ρ) →
    ∃ ws, List.Forall₂ (Proven P atoms) ((ars.map Prod.fst).filterMap id) ws ∧ ws.filterMap id = answerTags ars
  | [], _ => ⟨[], .nil, rfl⟩
  | (r, u) :: ars, h => by
    obtain ⟨ws, h1, h2⟩ := proven_list (ars := ars) fun S v hS => h S v (.tail _ hS)
    match r, h with
    | none, _ => exact ⟨ws, h1, h2⟩
    | some (.error k), _ => exact ⟨none :: ws, .cons .error h1, h2⟩
    | some (.answer S), h => exact ⟨some u :: ws, .cons (.answer (h S u (.head _))) h1, by simpa [answerTags] using h2⟩

/-- **C86, the search**: the answers found so far have been proved with different clauses, and each shows all that is proved with these; and every proof is among them after a number of turns that
depends on the proof only, or if the search has ended. -/
theorem SRun.proofs (h : Directed M p atoms) {rs items} (hr : SRun (inForce p) [.goals (atoms.map (.goal ·.fv)) (Insts.query atoms)] rs items) :
    ∃ ws, List.Forall₂ (Proven (inForce p) atoms) (rs.filterMap id) ws ∧ (ws.filterMap id).Nodup ∧ (items = [] → atoms ≠ [] → ∀ w ρ, ProvedBy (inForce p) atoms w ρ → some w ∈ ws) := by
  obtain ⟨ars, aq', h1, rfl, h3⟩ := hr.tagged (aq := [([], .goals (atoms.map (.goal ·.fv)) (Insts.query atoms))]) rfl
  have hp := h1.proven h (by simpa using query_left h)
  obtain ⟨ws, w1, w2⟩ := proven_list hp
  refine ⟨ws, w1, ?_, fun hi hne w ρ hw => ?_⟩
  · have := h1.apart (D := []) (by simp)
    rw [List.nil_append] at this
    rw [w2]
    exact (List.pairwise_append.1 this).1.imp fun {a b} (ha : Apart a b) (he : a = b) => by subst he; exact ha.1 List.prefix_rfl
  · obtain ⟨N, hN⟩ := heads_goals h hw _ _ [] (by rw [calls_goals]; exact .query h) rfl (by simpa using hne) _ (.head _)
    obtain ⟨S, hS⟩ := hN _ _ h1 (.inr (by rw [hi] at h3; exact List.map_eq_nil_iff.1 h3))
    have : w ∈ ws.filterMap id := by
      rw [w2]
      exact List.mem_filterMap.2 ⟨_, hS, rfl⟩
    simpa using this

theorem SRun.proof_soon (h : Directed M p atoms) (hne : atoms ≠ []) {w ρ} (hw : ProvedBy (inForce p) atoms w ρ) :
    ∃ N, ∀ rs items, SRun (inForce p) [.goals (atoms.map (.goal ·.fv)) (Insts.query atoms)] rs items → N ≤ rs.length ∨ items = [] →
      ∃ S, some (.answer S) ∈ rs ∧ Proven (inForce p) atoms (.answer S) (some w) := by
  obtain ⟨N, hN⟩ := heads_goals h hw _ _ [] (by rw [calls_goals]; exact .query h) rfl (by simpa using hne) _ (.head _)
  refine ⟨N, fun rs items hr hn => ?_⟩
  obtain ⟨ars, aq', h1, rfl, h3⟩ := hr.tagged (aq := [([], .goals (atoms.map (.goal ·.fv)) (Insts.query atoms))]) rfl
  obtain ⟨S, hS⟩ := hN _ _ h1 (hn.imp (by simp) fun hi => by rw [hi] at h3; exact List.map_eq_nil_iff.1 h3)
  exact ⟨S, List.mem_map_of_mem (f := Prod.fst) hS, .answer (h1.proven h (by simpa using query_left h) S _ hS)⟩

end

/-! ## The interpreter -/

/-- **C86**: to the answers reported there belong proofs, that is sequences of clauses, such that each answer shows exactly what can be proved with its clauses.  Different answers have different
proofs; and when the search has ended, every proof belongs to an answer. -/
theorem C86_proofs {o o' : Org} {p atoms M fuel k ts} (h : Asked o p atoms) (hM : Directed M p atoms) (hr : o.iterate fuel k = .ok (o', ts)) :
    ∃ reps ws, List.Forall₂ (Meets o.st atoms fuel) (reports ts) reps ∧ List.Forall₂ (Proven (inForce p) atoms) reps ws ∧ (ws.filterMap id).Nodup ∧
      (o'.queue = [] → ∀ w ρ, ProvedBy (inForce p) atoms w ρ → some w ∈ ws) := by
  obtain ⟨items, rs, h1, h2, h3⟩ := C42_breadth_first_resolution_partial h hr
  obtain ⟨ws, w1, w2, w3⟩ := h1.proofs hM
  refine ⟨_, ws, Says.meets h2, w1, w2, fun hq => w3 ?_ h.ne⟩
  rw [hq] at h3
  exact List.length_eq_zero_iff.1 h3

/-- Every proof is found after a number of turns that is known beforehand. -/
theorem C86_soon {p atoms M} (hM : Directed M p atoms) {w ρ} (hw : ProvedBy (inForce p) atoms w ρ) :
    ∃ N, ∀ {o o' : Org} {fuel k ts}, Asked o p atoms → o.iterate fuel k = .ok (o', ts) → N ≤ ts.length ∨ o'.queue = [] →
      ∃ bs S, Res.answer bs ∈ reports ts ∧ ShowsInsts o.st atoms fuel bs S ∧ Proven (inForce p) atoms (.answer S) (some w) := by
  by_cases hne : atoms = []
  · exact ⟨0, fun h => absurd hne h.ne⟩
  obtain ⟨N, hN⟩ := SRun.proof_soon hM hne hw
  refine ⟨N, fun {o o' fuel k ts} h hr hn => ?_⟩
  obtain ⟨items, rs, h1, h2, h3⟩ := C42_breadth_first_resolution_partial h hr
  obtain ⟨S, hS, hP⟩ := hN _ _ h1 (by
    rcases hn with hn | hn
    · left; rw [← h2.length_eq]; exact hn
    · right; rw [hn] at h3; exact List.length_eq_zero_iff.1 h3)
  obtain ⟨r, hr, g5⟩ := forall₂_of_mem' (Says.meets h2) (y := .answer S) (by simpa using hS)
  cases g5 with
  | @answer bs S g5 => exact ⟨bs, S, hr, g5, hP⟩

/-- The same for calls of `get_answer` that have gone on until there were no more answers, whatever the clock did. -/
theorem C86_sessions {o o' : Org} {p atoms M fuel clocks rs} (h : Asked o p atoms) (hM : Directed M p atoms) (hs : o.session fuel clocks = .ok (o', rs)) :
    ∃ reps ws, List.Forall₂ (Meets o.st atoms fuel) (rs.filter Res.isReport) reps ∧ List.Forall₂ (Proven (inForce p) atoms) reps ws ∧ (ws.filterMap id).Nodup ∧
      (rs.getLast? = some .noAnswer → ∀ w ρ, ProvedBy (inForce p) atoms w ρ → some w ∈ ws) := by
  obtain ⟨ts, a1, a2⟩ := C05_timeouts_transparent h.reach hs
  obtain ⟨reps, ws, h1, h2, h3, h4⟩ := C86_proofs h hM a1
  rw [a2]
  exact ⟨reps, ws, h1, h2, h3, fun hl => h4 (session_exhausted hs hl h.reach.rinv)⟩

theorem forall₂_some {α β} {R : α → Option β → Prop} {f : α → Bool} (hR : ∀ a b, R a b → (f a = true ↔ b.isSome = true)) :
    ∀ {as : List α} {bs : List (Option β)}, List.Forall₂ R as bs → (as.filter f).length = (bs.filterMap id).length
  | [], [], .nil => rfl
  | a :: as, b :: bs, .cons h hs => by
    have ih := forall₂_some hR hs
    have := hR a b h
    cases b with
    | none =>
      have : f a = false := by simpa using this
      simp [this, ih]
    | some b =>
      have : f a = true := by simpa using this
      simp [this, ih]

theorem forall₂_trans {α β γ} {R : α → β → Prop} {T : β → γ → Prop} : ∀ {as : List α} {bs : List β} {cs : List γ}, List.Forall₂ R as bs → List.Forall₂ T bs cs →
    List.Forall₂ (fun a c => ∃ b, R a b ∧ T b c) as cs
  | [], [], [], .nil, .nil => .nil
  | _ :: _, _ :: _, _ :: _, .cons h hs, .cons h' hs' => .cons ⟨_, h, h'⟩ (forall₂_trans hs hs')

def Res.isAnswer : Res → Bool
  | .answer _ => true
  | _ => false

/-- **C86, the number of answers**: a search that has ended has found as many answers as there are proofs. -/
theorem C86_count {o o' : Org} {p atoms M fuel k ts} (h : Asked o p atoms) (hM : Directed M p atoms) (hr : o.iterate fuel k = .ok (o', ts)) (hq : o'.queue = []) :
    ∃ ws : List (List Nat), ws.Nodup ∧ (∀ w, w ∈ ws ↔ ∃ ρ, ProvedBy (inForce p) atoms w ρ) ∧ ((reports ts).filter Res.isAnswer).length = ws.length := by
  obtain ⟨reps, ws, h1, h2, h3, h4⟩ := C86_proofs h hM hr
  have h5 := forall₂_trans h1 h2
  refine ⟨_, h3, fun w => ⟨fun hw => ?_, fun ⟨ρ, hw⟩ => by simpa using h4 hq w ρ hw⟩, forall₂_some ?_ h5⟩
  · obtain ⟨r, hr, rep, b1, b2⟩ := forall₂_of_mem' h5 (y := some w) (by simpa using hw)
    cases b2 with
    | answer b2 =>
      cases b1 with
      | answer b1 =>
        obtain ⟨ρ, gs, hg⟩ := b1.some
        exact ⟨ρ, (b2 ρ).1 ⟨gs, hg⟩⟩
  · rintro r ow ⟨rep, b1, b2⟩
    cases b2 <;> cases b1 <;> simp [Res.isAnswer]

/-- Nothing is known, and nothing has to be, but by the predicates without clauses. -/
def Modes.free : Modes where
  ins f _ := decide (f ∈ ownFVs)
  outs _ _ := false

theorem free_chain {R : List Name} (hR : R = []) : ∀ {as : List Node} {G : List Name}, (∀ a ∈ as, a.fv ∉ ownFVs) → Modes.free.Chain R G as
  | [], _, _ => by subst hR; simp [Modes.Chain]
  | a :: as, G, h => by
    refine ⟨fun v hv => ?_, free_chain hR fun b hb => h b (.tail _ hb)⟩
    rw [Modes.inVars, pick_false (fun i => by simpa [Modes.free] using h a (.head _))] at hv
    cases hv

/-- Where the predicates without clauses are not used, all programs and queries are meant. -/
theorem OnlyClauses.directed {p atoms} (h : OnlyClauses p atoms) : Directed .free p atoms where
  builtins := ⟨fun _ => rfl, fun _ => rfl, fun _ _ => rfl⟩
  tests := ⟨by decide, by decide, by decide, by decide, by decide⟩
  clauses c hc _ := free_chain (by rw [Modes.outVars, pick_false (J := Modes.free.outs c.head.fv) (fun _ => rfl)]; rfl) fun b hb => h.inForce c hc b hb
  query := free_chain rfl fun a ha => h.1 a ha

/-! ## The web page -/

/-- What a line shows: an error, or what is proved with certain clauses. -/
def LineProves (P : List Clause) (q : List Node) (l : Name) : Option (List Nat) → Prop
  | none => ∃ e, LineFor (.error e) l
  | some w => (∃ ρ, ProvedBy P q w ρ) ∧ ∀ ρ, ProvedBy P q w ρ → Line q ρ l

theorem forall₂_map_left {α β γ} {f : α → β} {R : α → γ → Prop} {T : β → γ → Prop} (h : ∀ a c, R a c → T (f a) c) : ∀ {as : List α} {cs : List γ}, List.Forall₂ R as cs →
    List.Forall₂ T (as.map f) cs
  | [], [], .nil => .nil
  | _ :: _, _ :: _, .cons h1 h2 => .cons (h _ _ h1) (forall₂_map_left h h2)

/-- **C86, the web page**: the lines of a box, besides "false" and messages about the memory limit, show errors and proofs, a proof no more than once; and in a box with "false" every proof has a
line. -/
theorem C86_lines {fuel : Nat} {es : List Event} {s : Site} (ha : Ample es) (ho : ProperRuns es) (h : Site.empty.steps fuel es = .ok s) :
    ∀ p ∈ s.pages, ∃ ord program c, Event.run ord program p.query c ∈ es ∧ ∀ cs q M, Readable program p.query cs q → Directed M cs q → HasValues (inForce cs) q →
      ∃ ws, List.Forall₂ (LineProves (inForce cs) q) ((p.lines.filter (· ≠ n!"Soft memory limit reached. Please close some results.")).filter (· ≠ n!"false")) ws ∧
        (ws.filterMap id).Nodup ∧ (n!"false" ∈ p.lines → ∀ w ρ, ProvedBy (inForce cs) q w ρ → some w ∈ ws) := by
  intro p hp
  obtain ⟨ord, program, c, o0, o, h1, h2, _, ts, k, h3, h4, h5⟩ := C50_lines_show_search ha h p hp
  refine ⟨ord, program, c, h1, fun cs q M hr hM hw => ?_⟩
  obtain ⟨a1, a2⟩ := h2.asked (ho _ _ _ _ h1) hr
  obtain ⟨reps, ws, b1, b2, b3, b4⟩ := C86_proofs a1 hM h3
  have nf : ∀ r ∈ reports ts, r.text ≠ n!"false" := by
    intro r hr
    obtain ⟨rep, _, g5⟩ := forall₂_of_mem b1 hr
    cases g5 with
    | answer => exact answer_not_false
    | error => exact error_not_false
  refine ⟨ws, ?_, b3, fun hf => b4 (h4 ?_)⟩
  · rw [h5, List.filter_append, List.filter_eq_self.2 (by
      intro l hl
      obtain ⟨r, hr, rfl⟩ := List.mem_map.1 hl
      simpa using nf r hr), List.filter_replicate_of_neg (by simp), List.append_nil]
    refine forall₂_map_left ?_ (forall₂_trans b1 b2)
    rintro r ow ⟨rep, g1, g2⟩
    cases g2 with
    | error =>
      cases g1 with
      | @error e => exact ⟨e, C50_texts _⟩
    | @answer S w g2 =>
      cases g1 with
      | @answer bs S g1 =>
        refine ⟨?_, fun ρ hρ => ?_⟩
        · obtain ⟨ρ, gs, hg⟩ := g1.some
          exact ⟨ρ, (g2 ρ).1 ⟨gs, hg⟩⟩
        · obtain ⟨gs, hg⟩ := (g2 ρ).2 hρ
          exact g1.line a2 a1.stOK (fun ρ gs hg => hw ρ (fulfils_iff.2 ⟨w, (g2 ρ).1 ⟨gs, hg⟩⟩)) hg
  · rintro rfl
    have : n!"false" ∈ p.lines.filter (· ≠ n!"Soft memory limit reached. Please close some results.") := List.mem_filter.2 ⟨hf, by decide⟩
    rw [h5, List.replicate_zero, List.append_nil] at this
    obtain ⟨r, hr, g3⟩ := List.mem_map.1 this
    exact nf r hr g3

/-! ## A concrete case -/

namespace ProofsExample
open ComputesExample SoundExamples CompleteExamples EffortExamples TotalExample

/-- There is only one proof: the second clause for all numbers but 0. -/
theorem only_proof : ∀ (n : Nat) {y w rest}, Follows (inForce fac) w (⟨n!"fac", [itreeAlg.int n, y]⟩ :: rest) → ∃ w', w = List.replicate n 1 ++ 0 :: w' ∧ Follows (inForce fac) w' rest := by
  have e : inForce fac = fac ++ appendClauses := rfl
  have cases4 : ∀ {k c}, (inForce fac)[k]? = some c → c.head.name = n!"fac" → (k = 0 ∧ c = ⟨.fn n!"fac" [.int 0, .int 1], []⟩) ∨
      (k = 1 ∧ c = ⟨.fn n!"fac" [.var n!"N", .var n!"F"],
    [.fn n!"\\==" [.var n!"N", .int 0], .fn n!"is" [.var n!"M", .efn n!"-" [.var n!"N", .int 1]], .fn n!"fac" [.var n!"M", .var n!"G"],
     .fn n!"is" [.var n!"F", .efn n!"*" [.var n!"N", .var n!"G"]]]⟩) := by
    intro k c hk hc
    rw [e] at hk
    match k, hk with
    | 0, hk => left; simpa [fac, appendClauses, eq_comm] using hk
    | 1, hk => right; simpa [fac, appendClauses, eq_comm] using hk
    | 2, hk =>
      simp only [fac, appendClauses, List.cons_append, List.nil_append, List.getElem?_cons_succ, List.getElem?_cons_zero, Option.some.injEq] at hk
      subst hk; exact absurd hc (by decide)
    | 3, hk =>
      simp only [fac, appendClauses, List.cons_append, List.nil_append, List.getElem?_cons_succ, List.getElem?_cons_zero, Option.some.injEq] at hk
      subst hk; exact absurd hc (by decide)
    | k + 4, hk => simp [fac, appendClauses] at hk
  intro n
  induction n with
  | zero =>
    intro y w rest h
    obtain ⟨k, c, σ, w', rfl, hk, hg, h1⟩ := h.clause_inv (by simp [GAtom.fv, ownFVs])
    rcases cases4 hk (congrArg GAtom.name hg).symm with ⟨rfl, rfl⟩ | ⟨rfl, rfl⟩
    · exact ⟨w', rfl, h1⟩
    · simp only [Node.inst, Node.children, Node.evals, Node.eval, GAtom.mk.injEq, List.cons.injEq, and_true] at hg
      simp only [List.map_cons, List.cons_append] at h1
      have := ((h1.own_inv (by simp [GAtom.fv, ownFVs, Node.inst, Node.name, Node.children, Node.evals])).1.truth (P := inForce fac)).neq_inv
      simp only [Node.eval] at this
      exact absurd hg.2.1.symm this
  | succ n ih =>
    intro y w rest h
    obtain ⟨k, c, σ, w', rfl, hk, hg, h1⟩ := h.clause_inv (by simp [GAtom.fv, ownFVs])
    rcases cases4 hk (congrArg GAtom.name hg).symm with ⟨rfl, rfl⟩ | ⟨rfl, rfl⟩
    · simp only [Node.inst, Node.children, Node.evals, Node.eval, GAtom.mk.injEq, List.cons.injEq, and_true] at hg
      exact absurd (itreeAlg_sharp.int_inj hg.2.1) (by omega)
    · simp only [Node.inst, Node.children, Node.evals, Node.eval, GAtom.mk.injEq, List.cons.injEq, and_true] at hg
      simp only [List.map_cons, List.map_nil, List.cons_append, List.nil_append] at h1
      obtain ⟨_, h2⟩ := h1.own_inv (by simp [GAtom.fv, ownFVs, Node.inst, Node.name, Node.children, Node.evals])
      obtain ⟨t3, h3⟩ := h2.own_inv (by simp [GAtom.fv, ownFVs, Node.inst, Node.name, Node.children, Node.evals])
      obtain ⟨m, h4, h5⟩ := (t3.truth (P := inForce fac)).is_inv
      simp only [Node.eval, Node.evals] at h4 h5
      rw [← hg.2.1] at h5
      obtain rfl : m = n := (h5.det itreeAlg_sharp (.op .int .int .sub)).trans (by omega)
      obtain ⟨w'', rfl, h6⟩ := ih (y := σ n!"G") (by rw [← h4]; exact h3)
      exact ⟨w'', rfl, (h6.own_inv (by simp [GAtom.fv, ownFVs, Node.inst, Node.name, Node.children, Node.evals])).2⟩

/-- **C86**, an example, together with C85: for every number up to 12, the factorial is answered once, and then there are no more answers. -/
theorem C86_factorial {n : Nat} (hn : n ≤ 12) {o : Org} (h : Asked o fac (askFac n)) (hpr : Printable o.st) :
    ∃ fuel0 oe s, IntText (fact n) s ∧ ∀ fuel, fuel0 ≤ fuel → ∀ t, enough 2 4 (n + 2) 1 ≤ t →
      o.session fuel [List.replicate t false, List.replicate t false] = .ok (oe, [.answer [⟨n!"F", s⟩], .noAnswer]) := by
  obtain ⟨fuel0, oe, s, k, h1, h2, h3⟩ := C85_factorial hn h hpr
  obtain ⟨reps, ws, a1, a2, a3, _⟩ := C86_sessions h (directed n) (h3 fuel0 (Nat.le_refl _) _ (Nat.le_refl _))
  have hws : ∀ x ∈ ws, x = some (List.replicate n 1 ++ [0]) := by
    intro x hx
    obtain ⟨rep, hr, b1⟩ := forall₂_of_mem' a2 hx
    obtain ⟨r, hr', b2⟩ := forall₂_of_mem' a1 hr
    cases b1 with
    | error =>
      cases b2
      simp [Res.isReport] at hr'
    | answer b1 =>
      cases b2 with
      | answer b2 =>
        obtain ⟨ρ, gs, hg⟩ := b2.some
        obtain ⟨w', rfl, hw⟩ := only_proof n ((b1 ρ).1 ⟨gs, hg⟩)
        cases hw
        rfl
  have hlen : ws.length = k := by
    rw [← a2.length_eq, ← a1.length_eq, List.filter_append]
    rw [List.filter_replicate_of_pos (by rfl)]
    simp [Res.isReport]
  have hk : k = 1 := by
    match ws, hws, hlen, a3 with
    | [], _, hlen, _ => simp at hlen; omega
    | [_], _, hlen, _ => simpa using hlen.symm
    | a :: b :: ws, hws, _, a3 =>
      rw [hws a (.head _), hws b (.tail _ (.head _))] at a3
      simp at a3
  subst hk
  exact ⟨fuel0, oe, s, h1, h3⟩

/-- `p(a).  p(a).` -/
def twice : List Clause := [⟨.fn n!"p" [.cons n!"a"], []⟩, ⟨.fn n!"p" [.cons n!"a"], []⟩]
def askTwice : List Node := [.fn n!"p" [.var n!"X"]]

/-- **C86**: what has two proofs is answered twice, and the two proofs are those of the theorem. -/
theorem C86_twice : Asked (demo twice askTwice) twice askTwice ∧ Directed .free twice askTwice ∧
    ((demo twice askTwice).iterate 20 20).toOption.map (fun r => (r.1.queue, reports r.2)) = some ([], [.answer [⟨n!"X", n!"a"⟩], .answer [⟨n!"X", n!"a"⟩]]) ∧
    (∀ w, (∃ ρ, ProvedBy (inForce twice) askTwice w ρ) ↔ w = [0] ∨ w = [1]) := by
  refine ⟨asked_demo (by decide +kernel) (by decide +kernel) (safe_of_b (by decide +kernel)) (by decide) (by simp [askTwice]) (by decide +kernel),
    OnlyClauses.directed ⟨by decide, by decide⟩, by decide +kernel, fun w => ⟨fun ⟨ρ, h⟩ => ?_, fun h => ⟨fun _ => itreeAlg.cons n!"a", ?_⟩⟩⟩
  · have e : inForce twice = twice ++ appendClauses := rfl
    obtain ⟨k, c, σ, w', rfl, hk, hg, h1⟩ := Follows.clause_inv h (by simp [GAtom.fv, ownFVs, Node.inst, Node.name, Node.children, Node.evals])
    have hc := (congrArg GAtom.name hg).symm
    rw [e] at hk
    match k, hk with
    | 0, hk =>
      simp only [twice, appendClauses, List.cons_append, List.nil_append, List.getElem?_cons_zero, Option.some.injEq] at hk
      subst hk; cases h1; exact .inl rfl
    | 1, hk =>
      simp only [twice, appendClauses, List.cons_append, List.nil_append, List.getElem?_cons_succ, List.getElem?_cons_zero, Option.some.injEq] at hk
      subst hk; cases h1; exact .inr rfl
    | 2, hk =>
      simp only [twice, appendClauses, List.cons_append, List.nil_append, List.getElem?_cons_succ, List.getElem?_cons_zero, Option.some.injEq] at hk
      subst hk; exact absurd hc (by simp [Node.inst, Node.name])
    | 3, hk =>
      simp only [twice, appendClauses, List.cons_append, List.nil_append, List.getElem?_cons_succ, List.getElem?_cons_zero, Option.some.injEq] at hk
      subst hk; exact absurd hc (by simp [Node.inst, Node.name])
    | k + 4, hk => simp [twice, appendClauses] at hk
  · rcases h with rfl | rfl
    · exact Follows.clause (P := inForce twice) (k := 0) (c := ⟨.fn n!"p" [.cons n!"a"], []⟩) (σ := fun _ => itreeAlg.cons n!"a") (rest := []) (w := []) rfl .nil
    · exact Follows.clause (P := inForce twice) (k := 1) (c := ⟨.fn n!"p" [.cons n!"a"], []⟩) (σ := fun _ => itreeAlg.cons n!"a") (rest := []) (w := []) rfl .nil

/-- The hypotheses of `C86_lines` are met. -/
example : Ample ComputesExample.clicks ∧ Readable text n!"fac(3,F)" fac (askFac 3) ∧ Directed modes fac (askFac 3) ∧ HasValues (inForce fac) (askFac 3) := by
  refine ⟨?_, ⟨C41_program_text.1 (by decide +kernel), C41_query_text.1 (by decide +kernel), safe_of_b (by decide +kernel), by decide⟩, directed 3, hasValues 3⟩
  intro e he c hc
  simp only [ComputesExample.clicks, List.mem_cons, List.not_mem_nil, or_false] at he
  rcases he with rfl | rfl | rfl <;> simp [Event.call?] at hc <;> subst hc <;> rfl

end ProofsExample

end PBfs
