import Verif.Spec.Acceptable
import Verif.Props.Effort
import Verif.Props.Moded
/-! # C76: searches that end -/
namespace PBfs
open Org

section
variable {P : List Clause} {lev : GAtom ITree → Nat → Prop} {I : GAtom ITree → Prop} {m : Nat}

/-- Each of the atoms has a level below the number given for it, if `I` holds of those before it. -/
def FitLevels (lev : GAtom ITree → Nat → Prop) (I : GAtom ITree → Prop) : List Nat → List (GAtom ITree) → Prop
  | _, [] => True
  | [], _ :: _ => False
  | e :: es, g :: gs => (g.fv ∈ ownFVs ∨ ∃ j, j < e ∧ lev g j) ∧ (I g → FitLevels lev I es gs)

/-- How many turns are left on a branch. -/
def turnsLeft (m : Nat) : List Todo → List Nat → Nat
  | [], _ => 0
  | .leave :: ts, es => 1 + turnsLeft m ts es
  | .goal _ :: ts, e :: es => 3 * (m + 1) ^ e + turnsLeft m ts es
  | .goal _ :: ts, [] => 3 + turnsLeft m ts []

theorem pot_append : ∀ (us ts : List Todo) (fs es : List Nat), fs.length = (calls us).length → turnsLeft m (us ++ ts) (fs ++ es) = turnsLeft m us fs + turnsLeft m ts es
  | [], ts, fs, es, h => by
    obtain rfl := List.length_eq_zero_iff.1 (by simpa [calls] using h)
    simp [turnsLeft]
  | .leave :: us, ts, fs, es, h => by
    simp only [List.cons_append, turnsLeft]
    rw [pot_append us ts fs es h]; omega
  | .goal f :: us, ts, [], es, h => by simp [calls, Todo.fv?] at h
  | .goal f :: us, ts, e :: fs, es, h => by
    simp only [List.cons_append, turnsLeft]
    rw [pot_append us ts fs es (by simpa [calls, Todo.fv?] using h)]; omega

theorem pot_goals (e : Nat) : ∀ ns : List Node, turnsLeft m (ns.map (.goal ·.fv)) (List.replicate ns.length e) = ns.length * (3 * (m + 1) ^ e)
  | [] => by simp [turnsLeft]
  | n :: ns => by
    simp only [List.map_cons, List.length_cons, List.replicate_succ, turnsLeft, pot_goals e ns, Nat.add_mul]; omega

theorem calls_goals (ns : List Node) : calls (ns.map (.goal ·.fv)) = ns.map (·.fv) := by
  induction ns with
  | nil => rfl
  | cons n ns ih => simp only [calls, List.map_cons, List.filterMap_cons, Todo.fv?] at ih ⊢; rw [ih]

theorem pot_todo (c : Clause) (e : Nat) : turnsLeft m c.todo (List.replicate c.body.length e) ≤ c.body.length * (3 * (m + 1) ^ e) + 1 := by
  unfold Clause.todo
  have : List.replicate c.body.length e = List.replicate c.body.length e ++ [] := by simp
  rw [this, pot_append _ _ _ _ (by rw [calls_goals]; simp), pot_goals]
  split <;> simp [turnsLeft]

theorem pow_pos' (e : Nat) : 1 ≤ (m + 1) ^ e := Nat.pow_pos (by omega)

theorem pot_enter {L e : Nat} (hL : L ≤ m) (he : 1 ≤ e) : L * (3 * (m + 1) ^ (e - 1)) + 3 ≤ 3 * (m + 1) ^ e := by
  obtain ⟨e, rfl⟩ := Nat.exists_eq_add_of_le he
  rw [show 1 + e - 1 = e by omega, show 1 + e = e + 1 by omega, Nat.pow_succ]
  have h1 := pow_pos' (m := m) e
  have h2 := Nat.mul_le_mul_right (3 * (m + 1) ^ e) hL
  have h3 : 3 * ((m + 1) ^ e * (m + 1)) = m * (3 * (m + 1) ^ e) + 3 * (m + 1) ^ e := by
    rw [Nat.mul_add]; rw [Nat.mul_add, Nat.mul_comm ((m+1)^e) m, ← Nat.mul_assoc, Nat.mul_comm 3 m, Nat.mul_assoc]; omega
  omega

theorem FitLevels.goals {es : List Nat} {e k : Nat} (hk : k ≤ e) {rest : List (GAtom ITree)} : ∀ gs : List (GAtom ITree), BelowLevel lev I k gs →
    ((∀ g ∈ gs, I g) → FitLevels lev I es rest) → FitLevels lev I (List.replicate gs.length e ++ es) (gs ++ rest)
  | [], _, h => by simpa using h (by simp)
  | g :: gs, hb, h => by
    obtain ⟨h1, h2⟩ := hb
    simp only [List.length_cons, List.replicate_succ, List.cons_append, FitLevels]
    refine ⟨?_, fun hg => FitLevels.goals hk gs (h2 hg) fun hgs => h ?_⟩
    · rcases h1 with h1 | ⟨j, hj, h1⟩
      · exact .inl h1
      · exact .inr ⟨j, by omega, h1⟩
    · intro x hx
      rcases List.mem_cons.1 hx with rfl | hx
      · exact hg
      · exact hgs x hx

/-- The item has at most `d` turns left on every branch. -/
def SItem.Fit (P : List Clause) (lev : GAtom ITree → Nat → Prop) (I : GAtom ITree → Prop) (m d : Nat) : SItem → Prop
  | .goals ts S => ∃ es : List Nat, es.length = (calls ts).length ∧ turnsLeft m ts es ≤ d ∧ ∀ ρ gs, S ρ gs → gs.map GAtom.fv = calls ts ∧ FitLevels lev I es gs
  | .clause c ts S => c ∈ P ∧ c.head.fv ∉ ownFVs ∧ ∃ (e : Nat) (es : List Nat), es.length = (calls ts).length ∧ 3 * (m + 1) ^ e + turnsLeft m ts es ≤ d + 1 ∧
      ∀ ρ gs, S ρ gs → gs.map GAtom.fv = c.head.fv :: calls ts ∧ FitLevels lev I (e :: es) gs
  | .own f ts S => ∃ (e : Nat) (es : List Nat), es.length = (calls ts).length ∧ 3 * (m + 1) ^ e + turnsLeft m ts es ≤ d + 1 ∧
      ∀ ρ gs, S ρ gs → gs.map GAtom.fv = f :: calls ts ∧ FitLevels lev I (e :: es) gs

theorem fits_pass {S S' : Insts} {f ts e es} (hS : ∀ ρ gs, S ρ gs → gs.map GAtom.fv = f :: calls ts ∧ FitLevels lev I (e :: es) gs)
    (h : ∀ ρ gs, S' ρ gs → ∃ g, S ρ (g :: gs) ∧ I g) : ∀ ρ gs, S' ρ gs → gs.map GAtom.fv = calls ts ∧ FitLevels lev I es gs := by
  intro ρ gs hs
  obtain ⟨g, h1, h2⟩ := h ρ gs hs
  obtain ⟨h3, h4⟩ := hS ρ _ h1
  simp only [List.map_cons, List.cons.injEq] at h3
  exact ⟨h3.2, h4.2 h2⟩

theorem two_args {g : GAtom ITree} {n : Name} (h : g.fv = ⟨n, 2⟩) : ∃ d e, g = ⟨n, [d, e]⟩ := by
  obtain ⟨n', as⟩ := g
  simp only [GAtom.fv, FV.mk.injEq] at h
  obtain ⟨rfl, h⟩ := h
  match as, h with
  | [d, e], _ => exact ⟨d, e, rfl⟩

theorem Own.holds (hI : Model P I) {f S S'} (h : Own f S (some S')) {ts : List Todo} (hS : ∀ ρ gs, S ρ gs → gs.map GAtom.fv = f :: calls ts) :
    ∀ ρ gs, S' ρ gs → ∃ g, S ρ (g :: gs) ∧ I g := by
  intro ρ gs hs
  cases h with
  | eq_pass ha =>
    obtain ⟨g, hg⟩ := hs
    have := hS _ _ hg
    simp only [List.map_cons, List.cons.injEq] at this
    obtain ⟨d, e, rfl⟩ := two_args this.1
    obtain rfl := ha.2 _ _ _ _ _ hg
    exact ⟨_, hg, hI.eq d⟩
  | neq_pass ha =>
    obtain ⟨g, hg⟩ := hs
    have := hS _ _ hg
    simp only [List.map_cons, List.cons.injEq] at this
    obtain ⟨d, e, rfl⟩ := two_args this.1
    exact ⟨_, hg, hI.neq d e⟩
  | is_pass ha =>
    obtain ⟨d, hg⟩ := hs
    have := ha.2 _ _ _ _ _ hg
    cases this with
    | value hv => exact ⟨_, hg, hI.is _ _ hv⟩

theorem STurn.fit_of (hI : ∀ c ∈ P, ∀ ρ, (∀ b ∈ c.body, I (b.inst itreeAlg ρ)) → I (c.head.inst itreeAlg ρ)) (hA : Acceptable P lev I) (hm : ∀ c ∈ P, c.body.length ≤ m)
    {i news r d} (h : STurn P i news r) (hi : i.Fit P lev I m d)
    (hO : ∀ f ts S S', i = .own f ts S → Own f S (some S') → (∀ ρ gs, S ρ gs → gs.map GAtom.fv = f :: calls ts) → ∀ ρ gs, S' ρ gs → ∃ g, S ρ (g :: gs) ∧ I g) :
    ∃ d', d = d' + 1 ∧ ∀ j ∈ news, j.Fit P lev I m d' := by
  cases h with
  | leave =>
    obtain ⟨es, h1, h2, h3⟩ := hi
    simp only [turnsLeft] at h2
    refine ⟨d - 1, by omega, ?_⟩
    intro j hj
    simp only [List.mem_singleton] at hj
    subst hj
    exact ⟨es, h1, by omega, h3⟩
  | @call f ts S hf =>
    obtain ⟨es, h1, h2, h3⟩ := hi
    have hc : calls (.goal f :: ts) = f :: calls ts := rfl
    rw [hc] at h1
    match es, h1 with
    | e :: es, h1 =>
      simp only [turnsLeft] at h2
      have := pow_pos' (m := m) e
      refine ⟨d - 1, by omega, ?_⟩
      intro j hj
      obtain ⟨c, hc', rfl⟩ := List.mem_map.1 hj
      obtain ⟨hc1, hc2⟩ := List.mem_filter.1 hc'
      have hc2 : c.head.fv = f := by simpa using hc2
      refine ⟨hc1, hc2 ▸ hf, e, es, by simpa using h1, by omega, fun ρ gs hs => ?_⟩
      rw [hc2]
      exact h3 ρ gs hs
  | @callOwn f ts S hf =>
    obtain ⟨es, h1, h2, h3⟩ := hi
    have hc : calls (.goal f :: ts) = f :: calls ts := rfl
    rw [hc] at h1
    match es, h1 with
    | e :: es, h1 =>
      simp only [turnsLeft] at h2
      have := pow_pos' (m := m) e
      refine ⟨d - 1, by omega, ?_⟩
      intro j hj
      simp only [List.mem_singleton] at hj
      subst hj
      exact ⟨e, es, by simpa using h1, by omega, h3⟩
  | reject =>
    obtain ⟨_, _, e, es, _, h2, _⟩ := hi
    have := pow_pos' (m := m) e
    exact ⟨d - 1, by omega, by simp⟩
  | answer =>
    obtain ⟨_, _, e, es, _, h2, _⟩ := hi
    have := pow_pos' (m := m) e
    exact ⟨d - 1, by omega, by simp⟩
  | ownFail =>
    obtain ⟨e, es, _, h2, _⟩ := hi
    have := pow_pos' (m := m) e
    exact ⟨d - 1, by omega, by simp⟩
  | ownAnswer =>
    obtain ⟨e, es, _, h2, _⟩ := hi
    have := pow_pos' (m := m) e
    exact ⟨d - 1, by omega, by simp⟩
  | error =>
    obtain ⟨e, es, _, h2, _⟩ := hi
    have := pow_pos' (m := m) e
    exact ⟨d - 1, by omega, by simp⟩
  | ownPass ho =>
    obtain ⟨e, es, h1, h2, h3⟩ := hi
    have := pow_pos' (m := m) e
    refine ⟨d - 1, by omega, ?_⟩
    intro j hj
    simp only [List.mem_singleton] at hj
    subst hj
    exact ⟨es, h1, by omega, fits_pass h3 (hO _ _ _ _ rfl ho fun ρ gs hs => (h3 ρ gs hs).1)⟩
  | @enter c ts S hne hg =>
    obtain ⟨hc, hown, e, es, h1, h2, h3⟩ := hi
    have key : ∀ ρ rest, ∀ ρq, S ρq (c.head.inst itreeAlg ρ :: rest) → ∃ k, k < e ∧ BelowLevel lev I k (c.body.map (Node.inst itreeAlg ρ)) := by
      intro ρ rest ρq hs
      have := (h3 _ _ hs).2.1
      rw [head_fv] at this
      obtain ⟨k, hk, hl⟩ := this.resolve_left hown
      exact ⟨k, hk, hA c hc ρ k hl⟩
    have he : 1 ≤ e := by
      by_contra h0
      refine hne fun ρq gs hs => ?_
      obtain ⟨ρ, rest, hs, _⟩ := hs
      obtain ⟨k, hk, _⟩ := key ρ rest ρq hs
      omega
    have hp := pot_enter (hm c hc) he
    have ht := pot_todo (m := m) c (e - 1)
    refine ⟨d - 1, by omega, ?_⟩
    intro j hj
    simp only [List.mem_singleton] at hj
    subst hj
    have hlen : (List.replicate c.body.length (e - 1)).length = (calls c.todo).length := by rw [calls_todo]; simp
    refine ⟨List.replicate c.body.length (e - 1) ++ es, by rw [List.length_append, calls_append, List.length_append, hlen, h1], ?_, fun ρq gs hs => ?_⟩
    · rw [pot_append _ _ _ _ hlen]; omega
    · obtain ⟨ρ, rest, hs, rfl⟩ := hs
      obtain ⟨k, hk, hb⟩ := key ρ rest ρq hs
      obtain ⟨h4, h5⟩ := h3 _ _ hs
      simp only [List.map_cons, List.cons.injEq] at h4
      refine ⟨by rw [List.map_append, inst_fvs, calls_append, calls_todo, h4.2], ?_⟩
      have := FitLevels.goals (es := es) (e := e - 1) (k := k) (by omega) (rest := rest) _ hb fun hall => h5.2 (hI c hc ρ fun b hb => hall _ (List.mem_map_of_mem hb))
      simpa using this

theorem SRun.length_le_of (hI : ∀ c ∈ P, ∀ ρ, (∀ b ∈ c.body, I (b.inst itreeAlg ρ)) → I (c.head.inst itreeAlg ρ)) (hA : Acceptable P lev I) (hm : ∀ c ∈ P, c.body.length ≤ m)
    {b} (hb : 1 ≤ b) (hP : AtMost b P) {J : SItem → Prop} (hJ : ∀ i news r, STurn P i news r → J i → ∀ j ∈ news, J j)
    (hO : ∀ f ts S S', J (.own f ts S) → Own f S (some S') → (∀ ρ gs, S ρ gs → gs.map GAtom.fv = f :: calls ts) → ∀ ρ gs, S' ρ gs → ∃ g, S ρ (g :: gs) ∧ I g)
    {q rs q'} (h : SRun P q rs q') :
    ∀ L : List (SItem × Nat), L.map (·.1) = q → (∀ x ∈ L, x.1.Fit P lev I m x.2 ∧ J x.1) → rs.length ≤ (L.map fun x => x.1.cost b x.2).sum := by
  induction h with
  | nil => intro L _ _; simp
  | @cons i q news r rs q' t _ ih =>
    intro L hL hf
    match L, hL with
    | (i', d) :: L, hL =>
      simp only [List.map_cons, List.cons.injEq] at hL
      obtain ⟨rfl, rfl⟩ := hL
      obtain ⟨hf1, hf2⟩ := hf _ List.mem_cons_self
      obtain ⟨d', rfl, hn⟩ := t.fit_of hI hA hm hf1 fun f ts S S' e => hO f ts S S' (e ▸ hf2)
      have := ih (L ++ news.map (·, d')) (by simp [Function.comp_def]) ?_
      · have hc := t.cost hP hb d'
        simp only [List.map_append, List.sum_append, List.map_map] at this
        have e : (news.map ((fun x : SItem × Nat => x.1.cost b x.2) ∘ (·, d'))).sum = costs b d' news := rfl
        rw [e] at this
        simp only [List.length_cons, List.map_cons, List.sum_cons]
        omega
      · intro x hx
        rcases List.mem_append.1 hx with hx | hx
        · exact hf x (List.mem_cons_of_mem _ hx)
        · obtain ⟨j, hj, rfl⟩ := List.mem_map.1 hx
          exact ⟨hn j hj, hJ _ _ _ t hf2 j hj⟩

theorem SRun.length_le (hI : Model P I) (hA : Acceptable P lev I) (hm : ∀ c ∈ P, c.body.length ≤ m) {b} (hb : 1 ≤ b) (hP : AtMost b P) {q rs q'} (h : SRun P q rs q')
    (L : List (SItem × Nat)) (hL : L.map (·.1) = q) (hf : ∀ x ∈ L, x.1.Fit P lev I m x.2) : rs.length ≤ (L.map fun x => x.1.cost b x.2).sum :=
  h.length_le_of hI.clause hA hm hb hP (J := fun _ => True) (fun _ _ _ _ _ _ _ => trivial) (fun _ _ _ _ _ ho hS => ho.holds hI hS) L hL fun x hx => ⟨hf x hx, trivial⟩

theorem query_fit {atoms n} (hq : Bounded lev I n atoms) :
    (SItem.goals (atoms.map (.goal ·.fv)) (Insts.query atoms)).Fit P lev I m (3 * atoms.length * (m + 1) ^ n) := by
  refine ⟨List.replicate atoms.length n, by rw [calls_goals]; simp, ?_, ?_⟩
  · rw [pot_goals, ← Nat.mul_assoc, Nat.mul_comm atoms.length 3]
  · rintro ρ gs rfl
    refine ⟨by rw [inst_fvs, calls_goals], ?_⟩
    have := FitLevels.goals (es := []) (e := n) (k := n) (Nat.le_refl _) (rest := []) _ (hq ρ) (fun _ => by simp [FitLevels])
    simpa using this

/-- Breadth-first resolution ends. -/
theorem C76_resolution (hI : Model P I) (hA : Acceptable P lev I) (hm : ∀ c ∈ P, c.body.length ≤ m) {b} (hb : 1 ≤ b) (hP : AtMost b P) {atoms n} (hq : Bounded lev I n atoms)
    {rs q'} (h : SRun P [.goals (atoms.map (.goal ·.fv)) (Insts.query atoms)] rs q') : rs.length ≤ enough b m n atoms.length := by
  have := h.length_le hI hA hm hb hP [(_, 3 * atoms.length * (m + 1) ^ n)] rfl (fun x hx => by
    simp only [List.mem_singleton] at hx
    subst hx
    exact query_fit hq)
  simpa [SItem.cost, enough] using this

end

/-! ## The theorems -/

/-- **C76**: if the clauses have a level mapping by which the goals of a clause are below its head, as far as the goals before hold, and all instances of
the query are below `n`, then the search makes no more than `enough b m n q` iterations and then ends, where `b` is the number of clauses a predicate may have,
`m` the number of goals a clause may have and `q` the number of goals of the query.  For iterations that end normally; no restriction to modes, and `is`, `==`, `\\==` may be called. -/
theorem C76_bound {o o' : Org} {p atoms fuel k ts b m n} {lev : GAtom ITree → Nat → Prop} {I : GAtom ITree → Prop} (h : Asked o p atoms) (hI : Model (inForce p) I)
    (hA : Acceptable (inForce p) lev I) (hq : Bounded lev I n atoms) (hb : AtMost b (inForce p)) (hm : ∀ c ∈ inForce p, c.body.length ≤ m)
    (hr : o.iterate fuel k = .ok (o', ts)) : ts.length ≤ enough b m n atoms.length ∧ (enough b m n atoms.length < k → o'.queue = []) := by
  obtain ⟨items, rs, h1, h2, _⟩ := C42_breadth_first_resolution_partial h hr
  have hl : ts.length ≤ enough b m n atoms.length := by
    rw [h2.length_eq]
    exact C76_resolution hI hA hm (by have := hb.two; omega) hb hq h1
  exact ⟨hl, fun hk => (iterate_length hr).2 (by omega)⟩

/-- The same for calls of `get_answer`: with enough time, they return one report after the other and then say that there are no more; and other calls return
an initial part. -/
theorem C76_ends {o oe : Org} {p atoms fuel ts b m n} {lev : GAtom ITree → Nat → Prop} {I : GAtom ITree → Prop} (h : Asked o p atoms) (hI : Model (inForce p) I)
    (hA : Acceptable (inForce p) lev I) (hq : Bounded lev I n atoms) (hb : AtMost b (inForce p)) (hm : ∀ c ∈ inForce p, c.body.length ≤ m)
    (hr : o.iterate fuel (enough b m n atoms.length + 1) = .ok (oe, ts)) :
    (reports ts).length ≤ enough b m n atoms.length ∧
    (∀ t, enough b m n atoms.length ≤ t →
      o.session fuel (List.replicate ((reports ts).length + 1) (List.replicate t false)) = .ok (oe, reports ts ++ [.noAnswer])) ∧
    ∀ clocks, ∃ o' rs rest, o.session fuel clocks = .ok (o', rs) ∧ reports ts = rs.filter Res.isReport ++ rest ∧ (.noAnswer ∈ rs → rest = []) := by
  obtain ⟨h1, h2⟩ := C76_bound h hI hA hq hb hm hr
  have hfin : Finished fuel o ts oe := .of hr (h2 (by omega))
  have hrep : (reports ts).length ≤ ts.length := reports_length ts
  refine ⟨by omega, fun t ht => hfin.calls rfl (by omega), fun clocks => ?_⟩
  obtain ⟨o1, rs, t2, s1, s2, s3⟩ := hfin.session h.reach.rinv (clocks := clocks)
  exact ⟨o1, rs, reports t2, s1, s2, s3⟩

/-- Sessions in which no call fails make no more than `enough` reports. -/
theorem C76_sessions {o o' : Org} {p atoms fuel clocks rs b m n} {lev : GAtom ITree → Nat → Prop} {I : GAtom ITree → Prop} (h : Asked o p atoms) (hI : Model (inForce p) I)
    (hA : Acceptable (inForce p) lev I) (hq : Bounded lev I n atoms) (hb : AtMost b (inForce p)) (hm : ∀ c ∈ inForce p, c.body.length ≤ m)
    (hs : o.session fuel clocks = .ok (o', rs)) : (rs.filter Res.isReport).length ≤ enough b m n atoms.length := by
  obtain ⟨ts, h1, h2⟩ := C05_timeouts_transparent h.reach hs
  have hrep : (reports ts).length ≤ ts.length := reports_length ts
  have := (C76_bound h hI hA hq hb hm h1).1
  rw [h2]; omega

/-- With modes, and without `is`, nothing can go wrong: the search ends, and the calls of `get_answer` return exactly what breadth-first resolution
finds. -/
theorem C76_exact {o : Org} {p atoms M b m n} {lev : GAtom ITree → Nat → Prop} {I : GAtom ITree → Prop} (h : Asked o p atoms) (hpr : Printable o.st) (hl : WellModed M p atoms)
    (hn : ¬ MayCall p atoms ⟨n!"is", 2⟩) (hI : Model (inForce p) I) (hA : Acceptable (inForce p) lev I) (hq : Bounded lev I n atoms) (hb : AtMost b (inForce p))
    (hm : ∀ c ∈ inForce p, c.body.length ≤ m) :
    ∃ reps, SRun (inForce p) [.goals (atoms.map (.goal ·.fv)) (Insts.query atoms)] reps [] ∧ reps.length ≤ enough b m n atoms.length ∧
      ∃ fuel0 oe ans, List.Forall₂ (Meets o.st atoms fuel0) ans (reps.filterMap id) ∧ ∀ fuel, fuel0 ≤ fuel → ∀ t, enough b m n atoms.length ≤ t →
        o.session fuel (List.replicate (ans.length + 1) (List.replicate t false)) = .ok (oe, ans ++ [.noAnswer]) := by
  obtain ⟨N, o', ts, items, rs, h1, h2, h3, h4, h5⟩ := C57_search h hpr hl hn (enough b m n atoms.length + 1)
  obtain ⟨h6, h7⟩ := C76_bound h hI hA hq hb hm (h1 N (Nat.le_refl _))
  rw [h7 (by omega)] at h5
  obtain rfl := List.length_eq_zero_iff.1 h5
  have hlen : rs.length ≤ enough b m n atoms.length := by rw [← h4.length_eq]; exact h6
  obtain ⟨fuel0, oe, ans, e1, e2⟩ := C58_exact h hpr hl hn h3
  exact ⟨rs, h3, hlen, fuel0, oe, ans, e1, fun fuel hf t ht => (e2 fuel hf).1 t (by omega)⟩

/-! ## The converse -/

section
variable {P : List Clause}

/-- Clauses can be used `n` times, one after the other, each for the first goal. -/
inductive ClauseUses (P : List Clause) : Nat → List (GAtom ITree) → Prop
  | zero {gs} : ClauseUses P 0 gs
  | succ {c ρ n gs} : c ∈ P → ClauseUses P n (c.body.map (Node.inst itreeAlg ρ) ++ gs) → ClauseUses P (n + 1) (c.head.inst itreeAlg ρ :: gs)

theorem ClauseUses.le {n gs} (h : ClauseUses P n gs) : ∀ {k}, k ≤ n → ClauseUses P k gs := by
  induction h with
  | zero => intro k hk; obtain rfl : k = 0 := by omega
            exact .zero
  | succ hc _ ih =>
    intro k hk
    cases k with
    | zero => exact .zero
    | succ k => exact .succ hc (ih (by omega))

theorem ClauseUses.append {n gs} (h : ClauseUses P n gs) (hs : List (GAtom ITree)) : ClauseUses P n (gs ++ hs) := by
  induction h with
  | zero => exact .zero
  | succ hc _ ih => exact .succ hc (by rw [List.append_assoc] at ih; exact ih)

/-- What can be proved can be taken away. -/
theorem Derives.uses {n j k gs} (h : Derives itreeAlg P n j k gs) (h0 : j + k = 0) {i} {hs : List (GAtom ITree)} (hu : ClauseUses P i hs) : ClauseUses P i (gs ++ hs) := by
  have : ClauseUses P (n + i) (gs ++ hs) := by
    induction h with
    | nil => simpa using hu
    | @cons c ρ n j k gs hc _ ih =>
      rw [show n + 1 + i = n + i + 1 by omega]
      have ih := ih h0
      rw [List.append_assoc] at ih
      exact .succ hc ih
    | neq => omega
    | is => omega
  exact this.le (by omega)

/-- The instances of the item can use `n` clauses. -/
def SItem.Can (P : List Clause) (n : Nat) : SItem → Prop
  | .goals ts S => ∃ ρ gs, S ρ gs ∧ calls ts = gs.map GAtom.fv ∧ ClauseUses P n gs
  | .clause c ts S => ∃ ρ σ gs, S ρ (c.head.inst itreeAlg σ :: gs) ∧ calls ts = gs.map GAtom.fv ∧ ClauseUses P n (c.body.map (Node.inst itreeAlg σ) ++ gs)
  | .own _ _ _ => False

theorem STurn.can (hown : ∀ c ∈ P, c.head.fv ∉ ownFVs) {i news r n} (h : STurn P i news r) (hi : i.Can P (n + 1)) : ∃ j ∈ news, j.Can P n := by
  have hle : ∀ {gs}, ClauseUses P (n + 1) gs → ClauseUses P n gs := fun h => h.le (by omega)
  cases h with
  | leave =>
    obtain ⟨ρ, gs, h1, h2, h3⟩ := hi
    exact ⟨_, .head _, ρ, gs, h1, h2, hle h3⟩
  | @call f ts S hf =>
    obtain ⟨ρ, gs, h1, h2, h3⟩ := hi
    cases h3 with
    | @succ c σ n gs hc hu =>
      have e : f :: calls ts = c.head.fv :: gs.map GAtom.fv := by rw [← head_fv (A := itreeAlg) (ρ := σ)]; exact h2
      injection e with e1 e2
      exact ⟨.clause c ts S, List.mem_map.2 ⟨c, List.mem_filter.2 ⟨hc, by simp [e1]⟩, rfl⟩, ρ, σ, gs, h1, e2, hu⟩
  | @callOwn f ts S hf =>
    obtain ⟨ρ, gs, h1, h2, h3⟩ := hi
    cases h3 with
    | @succ c σ n gs hc hu =>
      have e : f :: calls ts = c.head.fv :: gs.map GAtom.fv := by rw [← head_fv (A := itreeAlg) (ρ := σ)]; exact h2
      injection e with e1 e2
      exact absurd (e1 ▸ hf) (hown c hc)
  | reject hE =>
    obtain ⟨ρ, σ, gs, h1, h2, h3⟩ := hi
    exact absurd ⟨σ, gs, h1, rfl⟩ (hE ρ _)
  | @enter c ts S =>
    obtain ⟨ρ, σ, gs, h1, h2, h3⟩ := hi
    exact ⟨_, .head _, ρ, _, ⟨σ, gs, h1, rfl⟩, by rw [calls_append, calls_todo, h2, List.map_append, inst_fvs], hle h3⟩
  | @answer c ts S hE hn =>
    obtain ⟨ρ, σ, gs, h1, h2, h3⟩ := hi
    have hc : calls (c.todo ++ ts) = (c.body.map (Node.inst itreeAlg σ) ++ gs).map GAtom.fv := by
      rw [calls_append, calls_todo, h2, List.map_append, inst_fvs]
    have h0 : calls (c.todo ++ ts) = [] := by
      refine List.eq_nil_iff_forall_not_mem.2 fun f hf => ?_
      obtain ⟨t, ht, hf⟩ := List.mem_filterMap.1 hf
      cases t with
      | goal g => exact hn g ht
      | leave => cases hf
    rw [h0] at hc
    rw [List.map_eq_nil_iff.1 hc.symm] at h3
    cases h3
  | ownFail => exact hi.elim
  | ownPass => exact hi.elim
  | ownAnswer => exact hi.elim
  | error => exact hi.elim

theorem SRun.can (hown : ∀ c ∈ P, c.head.fv ∉ ownFVs) {q rs} (h : SRun P q rs []) : ∀ i ∈ q, ∀ n, i.Can P n → n ≤ rs.length := by
  generalize hq : ([] : List SItem) = q' at h
  induction h with
  | nil => subst hq; intro i hi; cases hi
  | @cons i q news r rs q' t h ih =>
    intro j hj n hn
    rcases List.mem_cons.1 hj with rfl | hj
    · cases n with
      | zero => omega
      | succ n =>
        obtain ⟨k, hk, hn⟩ := t.can hown hn
        have := ih hq k (List.mem_append_right _ hk) n hn
        simp only [List.length_cons]; omega
    · have := ih hq j (List.mem_append_left _ hj) n hn
      simp only [List.length_cons]; omega

/-- The least level mapping: how many clauses can be used. -/
def usable (P : List Clause) (g : GAtom ITree) (k : Nat) : Prop := ∀ n, ClauseUses P n [g] → n ≤ k

theorem below_usable {k : Nat} : ∀ {gs}, (∀ g ∈ gs, g.fv ∉ ownFVs) → (∀ g ∈ gs, Proves itreeAlg P g → ∃ n, Derives itreeAlg P n 0 0 [g]) →
    (∀ n, ClauseUses P n gs → n < k) → BelowLevel (usable P) (Proves itreeAlg P) k gs
  | [], _, _, _ => trivial
  | g :: gs, h1, h2, h => by
    have hk := h 0 .zero
    refine ⟨.inr ⟨k - 1, by omega, fun n hn => ?_⟩, fun hp => below_usable (fun x hx => h1 x (List.mem_cons_of_mem _ hx)) (fun x hx => h2 x (List.mem_cons_of_mem _ hx)) fun n hn => ?_⟩
    · have := h n (hn.append gs)
      omega
    · obtain ⟨i, hd⟩ := h2 g List.mem_cons_self hp
      exact h n (hd.uses rfl hn)

/-- Goals that can be taken away one after the other can be taken away together. -/
theorem taken_all : ∀ {hs : List (GAtom ITree)}, (∀ g ∈ hs, ∃ n, ∀ k gs, Derives itreeAlg P k 0 0 gs → Derives itreeAlg P (n + k) 0 0 (g :: gs)) →
    ∃ n, ∀ k gs, Derives itreeAlg P k 0 0 gs → Derives itreeAlg P (n + k) 0 0 (hs ++ gs)
  | [], _ => ⟨0, fun k gs h => by simpa using h⟩
  | g :: hs, h => by
    obtain ⟨n, h1⟩ := h g List.mem_cons_self
    obtain ⟨m, h2⟩ := taken_all fun x hx => h x (List.mem_cons_of_mem _ hx)
    refine ⟨n + m, fun k gs hd => ?_⟩
    rw [show n + m + k = n + (m + k) by omega]
    exact h1 _ _ (h2 _ _ hd)

theorem Proves.taken (hP : ∀ c ∈ P, ∀ b ∈ c.body, b.fv ∉ ownFVs) {g} (h : Proves itreeAlg P g) :
    g.fv ∉ ownFVs → ∃ n, ∀ k gs, Derives itreeAlg P k 0 0 gs → Derives itreeAlg P (n + k) 0 0 (g :: gs) := by
  induction h with
  | @clause c ρ hc _ ih =>
    intro _
    obtain ⟨n, hn⟩ := taken_all (P := P) (hs := c.body.map (Node.inst itreeAlg ρ)) fun g hg => by
      obtain ⟨b, hb, rfl⟩ := List.mem_map.1 hg
      exact ih b hb (by rw [head_fv]; exact hP c hc b hb)
    refine ⟨n + 1, fun k gs hd => ?_⟩
    rw [show n + 1 + k = n + k + 1 by omega]
    exact .cons hc (hn k gs hd)
  | eq => intro h; exact absurd (by simp [GAtom.fv, ownFVs]) h
  | neq => intro h; exact absurd (by simp [GAtom.fv, ownFVs]) h
  | is => intro h; exact absurd (by simp [GAtom.fv, ownFVs]) h

end

theorem OnlyClauses.inForce {p atoms} (h : OnlyClauses p atoms) : ∀ c ∈ inForce p, ∀ b ∈ c.body, b.fv ∉ ownFVs := by
  intro c hc b hb
  rcases List.mem_append.1 hc with hc | hc
  · exact h.2 c (List.mem_filter.1 hc).1 b hb
  · have : ∀ c ∈ appendClauses, ∀ b ∈ c.body, b.fv ∉ ownFVs := by decide
    exact this c hc b hb

theorem goals_le : ∀ P : List Clause, ∃ m, ∀ c ∈ P, c.body.length ≤ m
  | [] => ⟨0, by simp⟩
  | c :: P => by
    obtain ⟨m, hm⟩ := goals_le P
    refine ⟨c.body.length + m, fun d hd => ?_⟩
    rcases List.mem_cons.1 hd with rfl | hd
    · omega
    · have := hm d hd
      omega

/-- **C76, the converse**: if no goals call `is`, `==` or `\\==` and the search ends, then there are levels. -/
theorem C76_converse {o o' : Org} {p atoms fuel k ts} (h : Asked o p atoms) (hb : OnlyClauses p atoms) (hr : o.iterate fuel k = .ok (o', ts)) (hq : o'.queue = []) :
    ∃ lev I n, Model (inForce p) I ∧ Acceptable (inForce p) lev I ∧ Bounded lev I n atoms := by
  obtain ⟨items, rs, h1, _, h3⟩ := C42_breadth_first_resolution_partial h hr
  rw [hq] at h3
  obtain rfl := List.length_eq_zero_iff.1 h3
  refine ⟨usable (inForce p), Proves itreeAlg (inForce p), rs.length + 1, ⟨fun c hc ρ hb => .clause hc hb, fun _ => .eq, fun _ _ => .neq, fun _ _ h => .is h⟩, ?_, ?_⟩
  · intro c hc ρ k hl
    refine below_usable (fun g hg => ?_) (fun g hg hp => ?_) fun n hn => hl (n + 1) (.succ hc (by simpa using hn))
    · obtain ⟨b, hb', rfl⟩ := List.mem_map.1 hg
      rw [head_fv]; exact hb.inForce c hc b hb'
    · obtain ⟨b, hb', rfl⟩ := List.mem_map.1 hg
      obtain ⟨n, hn⟩ := hp.taken hb.inForce (by rw [head_fv]; exact hb.inForce c hc b hb')
      exact ⟨_, hn 0 [] .nil⟩
  · intro ρ
    refine below_usable (fun g hg => ?_) (fun g hg hp => ?_) fun n hn => ?_
    · obtain ⟨b, hb', rfl⟩ := List.mem_map.1 hg
      rw [head_fv]; exact hb.1 b hb'
    · obtain ⟨b, hb', rfl⟩ := List.mem_map.1 hg
      obtain ⟨n, hn⟩ := hp.taken hb.inForce (by rw [head_fv]; exact hb.1 b hb')
      exact ⟨_, hn 0 [] .nil⟩
    · have := h1.can inForce_own _ List.mem_cons_self n ⟨ρ, _, rfl, by rw [inst_fvs, calls_goals], hn⟩
      omega

/-- So levels are all there is to it: a search in which nothing goes wrong and no goals call `is`, `==` or `\\==` ends if and only if there are levels. -/
theorem C76_iff {o : Org} {p atoms M} (h : Asked o p atoms) (hpr : Printable o.st) (hl : WellModed M p atoms) (hb : OnlyClauses p atoms) :
    (∃ fuel k o' ts, o.iterate fuel k = .ok (o', ts) ∧ o'.queue = []) ↔
      ∃ lev I n, Model (inForce p) I ∧ Acceptable (inForce p) lev I ∧ Bounded lev I n atoms := by
  refine ⟨fun ⟨_, _, _, _, h1, h2⟩ => C76_converse h hb h1 h2, fun ⟨lev, I, n, h1, h2, h3⟩ => ?_⟩
  obtain ⟨m, hm⟩ := goals_le (inForce p)
  obtain ⟨N, o', ts, _, _, h4, _⟩ := C57_search h hpr hl hb.noArith.notCalled (enough (inForce p).length m n atoms.length + 1)
  have h5 := h4 N (Nat.le_refl _)
  exact ⟨_, _, _, _, h5, (C76_bound h h1 h2 h3 (fun f => List.length_filter_le _ _) hm h5).2 (by omega)⟩

/-! ## Programs without recursion -/

theorem below_true {lev : GAtom ITree → Nat → Prop} {k : Nat} : ∀ {hs : List (GAtom ITree)}, (∀ g ∈ hs, g.fv ∈ ownFVs ∨ ∃ j, j < k ∧ lev g j) → BelowLevel lev (fun _ => True) k hs
  | [], _ => trivial
  | g :: _, h => ⟨h g List.mem_cons_self, fun _ => below_true fun x hx => h x (List.mem_cons_of_mem _ hx)⟩

/-- **C76 for programs without recursion**: it is enough that every predicate the search may come to has a rank, and calls only predicates of lower rank. -/
theorem C76_no_recursion {o o' : Org} {p atoms fuel k ts b m n} (rank : FV → Option Nat) (h : Asked o p atoms)
    (hc : ∀ c ∈ inForce p, ∀ r, rank c.head.fv = some r → ∀ g ∈ c.body, g.fv ∈ ownFVs ∨ ∃ j, j < r ∧ rank g.fv = some j)
    (hq : ∀ g ∈ atoms, g.fv ∈ ownFVs ∨ ∃ j, j < n ∧ rank g.fv = some j) (hb : AtMost b (inForce p)) (hm : ∀ c ∈ inForce p, c.body.length ≤ m)
    (hr : o.iterate fuel k = .ok (o', ts)) : ts.length ≤ enough b m n atoms.length ∧ (enough b m n atoms.length < k → o'.queue = []) := by
  refine C76_bound (lev := fun g j => rank g.fv = some j) (I := fun _ => True) h ⟨by simp, by simp, by simp, by simp⟩ ?_ ?_ hb hm hr
  · intro c hc' ρ r hr
    rw [head_fv] at hr
    refine below_true fun g hg => ?_
    obtain ⟨b, hb, rfl⟩ := List.mem_map.1 hg
    simpa only [head_fv] using hc c hc' r hr b hb
  · intro ρ
    refine below_true fun g hg => ?_
    obtain ⟨b, hb, rfl⟩ := List.mem_map.1 hg
    simpa only [head_fv] using hq b hb

/-! ## Concrete cases -/

namespace AcceptableExamples
open SoundExamples CompleteExamples EffortExamples ModedExamples

/-- A list of `n` elements. -/
inductive IsList : Nat → ITree → Prop
  | nil : IsList 0 (itreeAlg.fn n!"[" [])
  | cons {n d e} : IsList n e → IsList (n + 1) (itreeAlg.fn n!"[" [d, e])

theorem IsList.cons_inv {n d e} (h : IsList n (itreeAlg.fn n!"[" [d, e])) : ∃ k, n = k + 1 ∧ IsList k e := by
  generalize hx : itreeAlg.fn n!"[" [d, e] = x at h
  cases h with
  | nil => have := (itreeAlg_sharp.fn_inj hx).2; cases this
  | cons h =>
    have := (itreeAlg_sharp.fn_inj hx).2
    simp only [List.cons.injEq, and_true] at this
    obtain ⟨rfl, rfl⟩ := this
    exact ⟨_, rfl, h⟩

theorem IsList.nil_inv {n} (h : IsList n (itreeAlg.fn n!"[" [])) : n = 0 := by
  generalize hx : itreeAlg.fn n!"[" [] = x at h
  cases h with
  | nil => rfl
  | cons h => have := (itreeAlg_sharp.fn_inj hx).2; cases this

theorem isList_eval {ρ : Name → ITree} : ∀ ns : List Node, IsList ns.length ((Node.list ns).eval itreeAlg ρ)
  | [] => by simpa [Node.list, Node.listWith, Node.nil, Node.eval, Node.evals] using IsList.nil
  | n :: ns => by
    have := isList_eval (ρ := ρ) ns
    simp only [Node.list, Node.listWith, Node.eval, Node.evals, List.length_cons] at this ⊢
    exact .cons this

/-- What is known of the lengths of lists. -/
def lengths (g : GAtom ITree) : Prop :=
  (∀ d e n, g = ⟨n!"rev", [d, e]⟩ → IsList n d → IsList n e) ∧
  (∀ d e f n k, g = ⟨n!"append", [d, e, f]⟩ → IsList n d → IsList k e → IsList (n + k) f)

/-- The level: the length of the first argument. -/
def first (g : GAtom ITree) (k : Nat) : Prop :=
  (∃ d e, g = ⟨n!"rev", [d, e]⟩ ∧ IsList k d) ∨ ∃ d e f, g = ⟨n!"append", [d, e, f]⟩ ∧ IsList k d

theorem rev_model : Model (inForce rev) lengths where
  clause := by
    have hf : inForce rev = rev ++ appendClauses := rfl
    rw [hf]
    intro c hc ρ hb
    simp only [rev, appendClauses, List.cons_append, List.nil_append, List.mem_cons, List.not_mem_nil, or_false] at hc
    rcases hc with rfl | rfl | rfl | rfl
    · refine ⟨fun d e n h => ?_, fun d e f n k h => ?_⟩
      · simp only [Node.inst, Node.name, Node.children, Node.nil, Node.evals, Node.eval, GAtom.mk.injEq, List.cons.injEq, true_and, and_true] at h
        obtain ⟨rfl, rfl⟩ := h
        exact id
      · simp [Node.inst, Node.name] at h
    · refine ⟨fun d e n h hl => ?_, fun d e f n k h => ?_⟩
      · simp only [Node.inst, Node.name, Node.children, Node.nil, Node.evals, Node.eval, GAtom.mk.injEq, List.cons.injEq, true_and, and_true] at h
        obtain ⟨rfl, rfl⟩ := h
        obtain ⟨k, rfl, hl'⟩ := hl.cons_inv
        have h1 := (hb _ List.mem_cons_self).1 _ _ _ rfl hl'
        exact (hb (.fn n!"append" [.var n!"Ys", .list [.var n!"X"], .var n!"Zs"]) (List.mem_cons_of_mem _ List.mem_cons_self)).2 _ _ _ _ _ rfl h1 (isList_eval [.var n!"X"])
      · simp [Node.inst, Node.name] at h
    · refine ⟨fun d e n h => by simp [Node.inst, Node.name] at h, fun d e f n k h h1 h2 => ?_⟩
      simp only [Node.inst, Node.name, Node.children, Node.nil, Node.evals, Node.eval, GAtom.mk.injEq, List.cons.injEq, true_and, and_true] at h
      obtain ⟨rfl, rfl, rfl⟩ := h
      rw [h1.nil_inv, Nat.zero_add]; exact h2
    · refine ⟨fun d e n h => by simp [Node.inst, Node.name] at h, fun d e f n k h h1 h2 => ?_⟩
      simp only [Node.inst, Node.name, Node.children, Node.nil, Node.evals, Node.eval, GAtom.mk.injEq, List.cons.injEq, true_and, and_true] at h
      obtain ⟨rfl, rfl, rfl⟩ := h
      obtain ⟨i, rfl, hl⟩ := h1.cons_inv
      have := (hb _ List.mem_cons_self).2 _ _ _ _ _ rfl hl h2
      rw [show i + 1 + k = (i + k) + 1 by omega]
      exact .cons this
  eq d := ⟨fun _ _ _ h => by simp at h, fun _ _ _ _ _ h => by simp at h⟩
  neq d e := ⟨fun _ _ _ h => by simp at h, fun _ _ _ _ _ h => by simp at h⟩
  is v e _ := ⟨fun _ _ _ h => by simp at h, fun _ _ _ _ _ h => by simp at h⟩

theorem rev_acceptable : Acceptable (inForce rev) first lengths := by
  have hf : inForce rev = rev ++ appendClauses := rfl
  rw [hf]
  intro c hc ρ k hl
  simp only [rev, appendClauses, List.cons_append, List.nil_append, List.mem_cons, List.not_mem_nil, or_false] at hc
  rcases hc with rfl | rfl | rfl | rfl
  · trivial
  · rcases hl with ⟨d, e, h, hl⟩ | ⟨d, e, f, h, hl⟩
    · simp only [Node.inst, Node.name, Node.children, Node.nil, Node.evals, Node.eval, GAtom.mk.injEq, List.cons.injEq, true_and, and_true] at h
      obtain ⟨rfl, rfl⟩ := h
      obtain ⟨k, rfl, hl'⟩ := hl.cons_inv
      exact ⟨.inr ⟨k, by omega, .inl ⟨_, _, rfl, hl'⟩⟩, fun hi => ⟨.inr ⟨k, by omega, .inr ⟨_, _, _, rfl, hi.1 _ _ _ rfl hl'⟩⟩, fun _ => trivial⟩⟩
    · simp [Node.inst, Node.name] at h
  · trivial
  · rcases hl with ⟨d, e, h, hl⟩ | ⟨d, e, f, h, hl⟩
    · simp [Node.inst, Node.name] at h
    · simp only [Node.inst, Node.name, Node.children, Node.nil, Node.evals, Node.eval, GAtom.mk.injEq, List.cons.injEq, true_and, and_true] at h
      obtain ⟨rfl, rfl, rfl⟩ := h
      obtain ⟨k, rfl, hl'⟩ := hl.cons_inv
      exact ⟨.inr ⟨k, by omega, .inr ⟨_, _, _, rfl, hl'⟩⟩, fun _ => trivial⟩

/-- `rev([…],R)` -/
def reverse (ns : List Node) : List Node := [.fn n!"rev" [.list ns, .var n!"R"]]

theorem rev_bounded (ns : List Node) : Bounded first lengths (ns.length + 1) (reverse ns) :=
  fun _ => ⟨.inr ⟨ns.length, by omega, .inl ⟨_, _, rfl, isList_eval ns⟩⟩, fun _ => trivial⟩

end AcceptableExamples

open AcceptableExamples ModedExamples EffortExamples SoundExamples in
/-- **C76 for the reversal of lists** of any length with any elements: the search for `rev([…],R)` always ends. -/
theorem C76_reverse {o o' : Org} {ns fuel k ts} (h : Asked o rev (reverse ns)) (hr : o.iterate fuel k = .ok (o', ts)) :
    ts.length ≤ enough 2 2 (ns.length + 1) 1 ∧ (enough 2 2 (ns.length + 1) 1 < k → o'.queue = []) :=
  C76_bound h rev_model rev_acceptable (rev_bounded ns) (atMost_of (by decide +kernel)) (by decide) hr

open AcceptableExamples ModedExamples SoundExamples in
/-- This is not empty: `rev([a,B],R)` can be asked, and the search ends after 19 iterations. -/
example : Asked (demo rev (reverse [.cons n!"a", .var n!"B"])) rev (reverse [.cons n!"a", .var n!"B"]) ∧
    ((demo rev (reverse [.cons n!"a", .var n!"B"])).iterate 40 100).toOption.map (fun r => (r.2.length, r.1.queue, reports r.2)) = some (19, [], [.answer [⟨n!"R", n!"[B,a]"⟩, ⟨n!"B", n!"B"⟩]]) := by
  refine ⟨asked_demo (by decide +kernel) (by decide +kernel) (safe_of_b (by decide +kernel)) (by decide) (by simp [reverse]) (by decide +kernel), by decide +kernel⟩

open AcceptableExamples ModedExamples EffortExamples SoundExamples in
/-- The hypotheses of `C76_exact` and of `C76_iff` are met. -/
example : Asked (demo rev askRev) rev askRev ∧ Printable (demo rev askRev).st ∧ WellModed forth rev askRev ∧ OnlyClauses rev askRev ∧ ¬ MayCall rev askRev ⟨n!"is", 2⟩ ∧
    Model (inForce rev) lengths ∧ Acceptable (inForce rev) first lengths ∧ Bounded first lengths 3 askRev ∧ AtMost 2 (inForce rev) ∧ ∀ c ∈ inForce rev, c.body.length ≤ 2 :=
  ⟨asked_demo (by decide +kernel) (by decide +kernel) (safe_of_b (by decide +kernel)) (by decide) (by simp [askRev]) (by decide +kernel),
    ⟨by decide +kernel, by decide +kernel, by decide +kernel, by decide +kernel⟩,
    .of [⟨n!"rev", 2⟩, ⟨n!"append", 3⟩] ⟨fun _ => rfl, fun _ => rfl, fun _ _ => rfl⟩ (by decide) (by decide) (by decide), ⟨by decide, by decide⟩,
    NoArith.notCalled ⟨by decide, by decide⟩, rev_model, rev_acceptable, rev_bounded _, atMost_of (by decide +kernel), by decide⟩

namespace AcceptableExamples

/-- `age(ann,30).  age(bob,20).  diff(X,Y,C) :- age(X,A), age(Y,B), A \\== B, C is A - B.` -/
def ages : List Clause :=
  [⟨.fn n!"age" [.cons n!"ann", .int 30], []⟩, ⟨.fn n!"age" [.cons n!"bob", .int 20], []⟩,
   ⟨.fn n!"diff" [.var n!"X", .var n!"Y", .var n!"C"],
     [.fn n!"age" [.var n!"X", .var n!"A"], .fn n!"age" [.var n!"Y", .var n!"B"], .fn n!"\\==" [.var n!"A", .var n!"B"], .fn n!"is" [.var n!"C", .efn n!"-" [.var n!"A", .var n!"B"]]]⟩]

def askAges : List Node := [.fn n!"diff" [.var n!"X", .var n!"Y", .var n!"C"]]

def rankAges (f : FV) : Option Nat := if f = ⟨n!"age", 2⟩ then some 0 else if f = ⟨n!"diff", 3⟩ then some 1 else none

end AcceptableExamples

open AcceptableExamples SoundExamples EffortExamples in
/-- The hypotheses of `C76_no_recursion` are met. -/
example : Asked (demo ages askAges) ages askAges ∧
    (∀ c ∈ inForce ages, ∀ r, rankAges c.head.fv = some r → ∀ g ∈ c.body, g.fv ∈ ownFVs ∨ ∃ j, j < r ∧ rankAges g.fv = some j) ∧
    (∀ g ∈ askAges, g.fv ∈ ownFVs ∨ ∃ j, j < 2 ∧ rankAges g.fv = some j) ∧ AtMost 2 (inForce ages) ∧ (∀ c ∈ inForce ages, c.body.length ≤ 4) ∧
    ((demo ages askAges).iterate 40 100).toOption.map (fun r => (r.2.length, r.1.queue, (reports r.2).length)) = some (23, [], 2) := by
  refine ⟨asked_demo (by decide +kernel) (by decide +kernel) (safe_of_b (by decide +kernel)) (by decide) (by simp [askAges]) (by decide +kernel), ?_, ?_,
    atMost_of (by decide +kernel), by decide, by decide +kernel⟩
  · have hf : inForce ages = ages ++ appendClauses := rfl
    rw [hf]
    intro c hc r hr g hg
    simp only [ages, appendClauses, List.cons_append, List.nil_append, List.mem_cons, List.not_mem_nil, or_false] at hc
    rcases hc with rfl | rfl | rfl | rfl | rfl
    · cases hg
    · cases hg
    · obtain rfl : 1 = r := by simpa [rankAges, Node.fv, Node.name, Node.children] using hr
      simp only [List.mem_cons, List.not_mem_nil, or_false] at hg
      rcases hg with rfl | rfl | rfl | rfl
      · exact .inr ⟨0, by decide, by decide⟩
      · exact .inr ⟨0, by decide, by decide⟩
      · exact .inl (by decide)
      · exact .inl (by decide)
    · cases hg
    · have : rankAges ⟨n!"append", 3⟩ = none := by decide
      exact absurd (this.symm.trans hr) (by simp)
  · intro g hg
    simp only [askAges, List.mem_singleton] at hg
    subst hg
    exact .inr ⟨1, by decide, by decide⟩

namespace AcceptableExamples

/-- `p(X) :- p(X).` -/
def loop : List Clause := [⟨.fn n!"p" [.var n!"X"], [.fn n!"p" [.var n!"X"]]⟩]

end AcceptableExamples

open AcceptableExamples in
/-- Some condition is needed: the search for `p(a)` with `p(X) :- p(X).` never ends, and no levels will do. -/
theorem C76_needed {lev : GAtom ITree → Nat → Prop} {I : GAtom ITree → Prop} {n} (hA : Acceptable (inForce loop) lev I) : ¬ Bounded lev I n [.fn n!"p" [.cons n!"a"]] := by
  intro hq
  have hown : (⟨n!"p", 1⟩ : FV) ∉ ownFVs := by decide
  have hd : ∀ k, ¬ lev ⟨n!"p", [itreeAlg.cons n!"a"]⟩ k := by
    intro k
    induction k using Nat.strongRecOn with
    | _ k ih =>
      intro hl
      obtain ⟨j, hj, hl⟩ := (hA _ (List.mem_append_left _ (List.mem_cons_self : _ ∈ loop)) (fun _ => itreeAlg.cons n!"a") k hl).1.resolve_left hown
      exact ih j hj hl
  obtain ⟨j, _, hl⟩ := (hq fun _ => itreeAlg.cons n!"a").1.resolve_left hown
  exact hd j hl

end PBfs
