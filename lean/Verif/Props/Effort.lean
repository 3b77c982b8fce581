import Verif.Spec.Effort
import Verif.Props.Exact
/-! # How many iterations it takes to find an answer -/
namespace PBfs
open Org

theorem effort_step {b : Nat} (hb : 1 ≤ b) : ∀ d, 1 + effort b d ≤ effort b (d + 1)
  | 0 => by simp [effort]
  | 1 => by simp [effort]; omega
  | d + 2 => by
    have ih := effort_step hb d
    show 1 + (1 + b * (1 + effort b d)) ≤ 1 + b * (1 + effort b (d + 1))
    have : b * (1 + (1 + effort b d)) ≤ b * (1 + effort b (d + 1)) := Nat.mul_le_mul_left _ (by omega)
    rw [Nat.mul_add b 1 (1 + effort b d)] at this
    omega

theorem effort_mono {b : Nat} (hb : 1 ≤ b) {d d' : Nat} (h : d ≤ d') : effort b d ≤ effort b d' := by
  induction h with
  | refl => exact Nat.le_refl _
  | @step d' _ ih =>
    have := effort_step hb d'
    exact Nat.le_trans ih (by rw [Nat.succ_eq_add_one]; omega)

/-! ## The abstract search -/

/-- What an item of the queue costs at most, with all that it leads to in `m` rounds. -/
def SItem.cost (b : Nat) : Nat → SItem → Nat
  | m, .goals _ _ => effort b m
  | 0, _ => 0
  | m + 1, _ => 1 + effort b m

def costs (b m : Nat) (q : List SItem) : Nat := (q.map (SItem.cost b m)).sum

theorem costs_append {b m : Nat} {q q' : List SItem} : costs b m (q ++ q') = costs b m q + costs b m q' := by simp [costs]

theorem costs_cons {b m : Nat} {i : SItem} {q : List SItem} : costs b m (i :: q) = i.cost b m + costs b m q := by simp [costs]

theorem costs_clauses {b : Nat} {ts S} : ∀ (m : Nat) (cs : List Clause), cs.length ≤ b → costs b m (cs.map (.clause · ts S)) + 1 ≤ effort b (m + 1) := by
  have key : ∀ (m : Nat) (cs : List Clause), costs b (m + 1) (cs.map (.clause · ts S)) = cs.length * (1 + effort b m) := by
    intro m cs
    induction cs with
    | nil => simp [costs]
    | cons c cs ih => simp only [List.map_cons, costs_cons, ih, SItem.cost, List.length_cons, Nat.add_mul]; omega
  intro m cs hc
  cases m with
  | zero =>
    have : costs b 0 (cs.map (.clause · ts S)) = 0 := by
      clear hc
      induction cs with
      | nil => simp [costs]
      | cons c cs ih => simp only [List.map_cons, costs_cons, ih, SItem.cost]
    rw [this]; exact Nat.le_refl _
  | succ m =>
    rw [key]
    show _ ≤ 1 + b * (1 + effort b m)
    have := Nat.mul_le_mul_right (1 + effort b m) hc
    omega

theorem STurn.cost {P b} (hP : AtMost b P) (hb : 1 ≤ b) {i news r} (h : STurn P i news r) (m : Nat) : costs b m news + 1 ≤ i.cost b (m + 1) := by
  cases h with
  | leave => simpa [costs, SItem.cost, Nat.add_comm] using effort_step hb m
  | call => exact costs_clauses m _ (hP _)
  | callOwn =>
    cases m with
    | zero => simp [costs, SItem.cost, effort]
    | succ m =>
      simp only [costs, SItem.cost, List.map_cons, List.map_nil, List.sum_cons, List.sum_nil, effort]
      have := Nat.le_mul_of_pos_left (1 + effort b m) hb
      omega
  | enter => simp [costs, SItem.cost, Nat.add_comm]
  | ownPass => simp [costs, SItem.cost, Nat.add_comm]
  | reject => simp [costs, SItem.cost]
  | answer => simp [costs, SItem.cost]
  | ownFail => simp [costs, SItem.cost]
  | ownAnswer => simp [costs, SItem.cost]
  | error => simp [costs, SItem.cost]

def Todo.fv? : Todo → Option FV
  | .goal f => some f
  | .leave => none

/-- The calls that are to be done. -/
def calls (ts : List Todo) : List FV := ts.filterMap Todo.fv?

def leaves (ts : List Todo) : Nat := (ts.filter fun t => t.fv?.isNone).length

/-- The item leads to an answer with the instance `ρ` in `m` rounds, with at most `K` evaluations. -/
def SItem.LeadsIn (P : List Clause) (ρ : Name → ITree) (K m : Nat) : SItem → Prop
  | .goals ts S => ∃ gs n j k, S ρ gs ∧ Derives itreeAlg P n j k gs ∧ calls ts = gs.map GAtom.fv ∧ 1 ≤ n + (j + k) ∧ depth n (j + k) + leaves ts ≤ m ∧ k ≤ K
  | .clause c ts S => ∃ ρc rest n j k, S ρ (c.head.inst itreeAlg ρc :: rest) ∧ Derives itreeAlg P n j k (c.body.map (Node.inst itreeAlg ρc) ++ rest) ∧
      calls ts = rest.map GAtom.fv ∧ depth (n + 1) (j + k) + leaves ts ≤ m + 1 ∧ k ≤ K
  | .own f ts S => ∃ d e rest n j k, S ρ (⟨f.name, [d, e]⟩ :: rest) ∧ Derives itreeAlg P n j k rest ∧
      calls ts = rest.map GAtom.fv ∧ depth n (j + k + 1) + leaves ts ≤ m + 1 ∧ k ≤ K ∧
      (f = ⟨n!"\\==", 2⟩ ∧ d ≠ e ∨ f = ⟨n!"is", 2⟩ ∧ k + 1 ≤ K ∧ ∃ v, d = itreeAlg.int v ∧ Evals itreeAlg e v)

theorem depth_clause {n k : Nat} : 2 ≤ depth (n + 1) k := by unfold depth; split <;> omega

theorem depth_is {n k : Nat} : 2 ≤ depth n (k + 1) := by unfold depth; split <;> omega

theorem depth_enter {n k : Nat} (h : 1 ≤ n + k) : depth n k + 3 ≤ depth (n + 1) k := by unfold depth; split <;> omega

theorem depth_pass {n k : Nat} : depth n k + 2 ≤ depth n (k + 1) ∨ n + k = 0 := by unfold depth; split <;> split <;> omega

theorem depth_pos {n k : Nat} (h : 1 ≤ n + k) : 2 ≤ depth n k := by unfold depth; split <;> omega

theorem SItem.LeadsIn.pos {P ρ K m} {i : SItem} (h : i.LeadsIn P ρ K m) : 1 ≤ m := by
  cases i with
  | goals => obtain ⟨_, n, j, k, _, _, _, h1, h, _⟩ := h; have := depth_pos h1; omega
  | clause => obtain ⟨_, _, n, j, k, _, _, _, h, _⟩ := h; have := depth_clause (n := n) (k := j + k); omega
  | own => obtain ⟨_, _, _, n, j, k, _, _, _, h, _⟩ := h; have := depth_is (n := n) (k := j + k); omega

theorem calls_append {ts us : List Todo} : calls (ts ++ us) = calls ts ++ calls us := List.filterMap_append

theorem leaves_append {ts us : List Todo} : leaves (ts ++ us) = leaves ts + leaves us := by simp [leaves]

theorem calls_todo {c : Clause} : calls c.todo = c.body.map (·.fv) := by
  have h : ∀ ns : List Node, calls (ns.map (.goal ·.fv)) = ns.map (·.fv) := by
    intro ns
    induction ns with
    | nil => rfl
    | cons n ns ih => simp only [calls, List.map_cons, List.filterMap_cons, Todo.fv?] at ih ⊢; rw [ih]
  unfold Clause.todo
  rw [calls_append, h]
  split <;> simp [calls, Todo.fv?]

theorem leaves_goals : ∀ ns : List Node, leaves (ns.map (.goal ·.fv)) = 0 := by
  intro ns
  induction ns with
  | nil => rfl
  | cons n ns ih => simp [leaves, Todo.fv?]

theorem leaves_todo {c : Clause} : leaves c.todo ≤ 1 := by
  unfold Clause.todo
  rw [leaves_append, leaves_goals]
  split <;> simp [leaves, Todo.fv?]

theorem inst_fvs {D} {A : Alg D} {ρ : Name → D} {ns : List Node} : (ns.map (Node.inst A ρ)).map GAtom.fv = ns.map (·.fv) := by
  rw [List.map_map]
  refine List.map_congr_left fun n _ => ?_
  show (⟨n.name, (Node.evals A ρ n.children).length⟩ : FV) = n.fv
  rw [evals_length]
  cases n <;> rfl

theorem Derives.zero {D} {A : Alg D} {P n j k gs} (h : Derives A P n j k gs) (h0 : n + (j + k) = 0) : gs = [] := by
  cases h with
  | nil => rfl
  | cons => omega
  | neq => omega
  | is => omega

theorem head_fv {D} {A : Alg D} {ρ : Name → D} {a : Node} : (a.inst A ρ).fv = a.fv := by
  have := inst_fvs (A := A) (ρ := ρ) (ns := [a])
  simpa using this

/-- The goals that are left are not none. -/
theorem goals_left {ts : List Todo} (hn : ¬ NoGoal ts) {gs : List (GAtom ITree)} (hc : calls ts = gs.map GAtom.fv) {P n j k} (hd : Derives itreeAlg P n j k gs) :
    1 ≤ n + (j + k) := by
  rcases Nat.eq_zero_or_pos (n + (j + k)) with h0 | h0
  · have e := hd.zero h0
    rw [e] at hc
    exfalso
    refine hn fun f hf => ?_
    have : f ∈ calls ts := List.mem_filterMap.2 ⟨_, hf, rfl⟩
    rw [hc] at this; cases this
  · exact h0

theorem STurn.leads {P : List Clause} (hown : ∀ c ∈ P, c.head.fv ∉ ownFVs) {ρ K m i news r} (h : STurn P i news r) (hi : i.LeadsIn P ρ K (m + 1)) :
    (∃ j ∈ news, j.LeadsIn P ρ K m) ∨ (∃ S gs, r = some (.answer S) ∧ S ρ gs) ∨ 0 < K ∧ r = some (.error .notInstantiated) := by
  cases h with
  | @leave ts S =>
    obtain ⟨gs, n, j, k, h1, h2, h3, h4, h5, h6⟩ := hi
    refine .inl ⟨_, .head _, gs, n, j, k, h1, h2, h3, h4, ?_, h6⟩
    have : leaves (.leave :: ts) = leaves ts + 1 := by simp [leaves, Todo.fv?]
    omega
  | @call f ts S hf =>
    obtain ⟨gs, n, j, k, h1, h2, h3, h4, h5, h6⟩ := hi
    have hlv : leaves (.goal f :: ts) = leaves ts := by simp [leaves, Todo.fv?]
    cases h2 with
    | nil => omega
    | @cons c ρc n j k rest hc hd =>
      have e : f :: calls ts = c.head.fv :: rest.map GAtom.fv := by rw [← head_fv (A := itreeAlg) (ρ := ρc)]; exact h3
      injection e with e1 e2
      exact .inl ⟨.clause c ts S, List.mem_map.2 ⟨c, List.mem_filter.2 ⟨hc, by simp [e1]⟩, rfl⟩, ρc, rest, n, j, k, h1, hd, e2, by omega, h6⟩
    | neq =>
      injection h3 with e1 e2
      exact absurd (e1 ▸ by simp [GAtom.fv, ownFVs]) hf
    | is =>
      injection h3 with e1 e2
      exact absurd (e1 ▸ by simp [GAtom.fv, ownFVs]) hf
  | @callOwn f ts S hf =>
    obtain ⟨gs, n, j, k, h1, h2, h3, h4, h5, h6⟩ := hi
    have hlv : leaves (.goal f :: ts) = leaves ts := by simp [leaves, Todo.fv?]
    cases h2 with
    | nil => omega
    | @cons c ρc n j k rest hc hd =>
      have e : f :: calls ts = c.head.fv :: rest.map GAtom.fv := by rw [← head_fv (A := itreeAlg) (ρ := ρc)]; exact h3
      injection e with e1 e2
      exact absurd (e1 ▸ hf) (hown c hc)
    | @neq d e n j k rest he hd =>
      injection h3 with e1 e2
      cases e1
      have : j + 1 + k = j + k + 1 := by omega
      exact .inl ⟨_, .head _, d, e, rest, n, j, k, h1, hd, e2, by rw [this] at h5; omega, h6, .inl ⟨rfl, he⟩⟩
    | @is d v n j k rest he hd =>
      injection h3 with e1 e2
      cases e1
      exact .inl ⟨_, .head _, _, d, rest, n, j, k, h1, hd, e2, by rw [← Nat.add_assoc] at h5; omega, by omega, .inr ⟨rfl, h6, v, rfl, he⟩⟩
  | reject hE =>
    obtain ⟨ρc, rest, n, j, k, h1, h2, h3, h4⟩ := hi
    exact absurd ⟨ρc, rest, h1, rfl⟩ (hE ρ _)
  | @enter c ts S hE hn =>
    obtain ⟨ρc, rest, n, j, k, h1, h2, h3, h4, h5⟩ := hi
    have hc : calls (c.todo ++ ts) = (c.body.map (Node.inst itreeAlg ρc) ++ rest).map GAtom.fv := by
      rw [calls_append, calls_todo, h3, List.map_append, inst_fvs]
    have hpos := goals_left hn hc h2
    refine .inl ⟨_, .head _, _, n, j, k, ⟨ρc, rest, h1, rfl⟩, h2, hc, hpos, ?_, h5⟩
    have := leaves_todo (c := c)
    have := depth_enter hpos
    rw [leaves_append]
    omega
  | answer hE hn =>
    obtain ⟨ρc, rest, n, j, k, h1, h2, h3, h4⟩ := hi
    exact .inr (.inl ⟨_, _, rfl, ρc, rest, h1, rfl⟩)
  | ownFail ho =>
    obtain ⟨d, e, rest, n, j, k, h1, h3, h4, h5, h6, ⟨rfl, h2⟩ | ⟨rfl, h2, v, rfl, h7⟩⟩ := hi
    · cases ho with
      | neq_fail ha => exact absurd (ha.2 ρ _ _ _ _ h1) h2
    · cases ho with
      | is_fail ha hE =>
        have := (ha.2 ρ _ _ _ _ h1).value_inv.det itreeAlg_sharp h7
        subst this
        exact absurd ⟨e, h1⟩ (hE ρ rest)
  | @ownPass f ts S S' ho hn =>
    obtain ⟨d, e, rest, n, j, k, h1, h3, h4, h5, h6, h7⟩ := hi
    have hpos := goals_left hn h4 h3
    have hm : depth n (j + k) + leaves ts ≤ m := by rcases depth_pass (n := n) (k := j + k) with h | h <;> omega
    rcases h7 with ⟨rfl, h2⟩ | ⟨rfl, h2, v, rfl, h7⟩
    · cases ho with
      | neq_pass ha => exact .inl ⟨_, .head _, rest, n, j, k, ⟨_, h1⟩, h3, h4, hpos, hm, h6⟩
    · cases ho with
      | is_pass ha hE =>
        have := (ha.2 ρ _ _ _ _ h1).value_inv.det itreeAlg_sharp h7
        subst this
        exact .inl ⟨_, .head _, rest, n, j, k, ⟨e, h1⟩, h3, h4, hpos, hm, h6⟩
  | ownAnswer ho =>
    obtain ⟨d, e, rest, n, j, k, h1, h3, h4, h5, h6, ⟨rfl, h2⟩ | ⟨rfl, h2, v, rfl, h7⟩⟩ := hi
    · cases ho with
      | neq_pass ha => exact .inr (.inl ⟨_, rest, rfl, _, h1⟩)
    · cases ho with
      | is_pass ha hE =>
        have := (ha.2 ρ _ _ _ _ h1).value_inv.det itreeAlg_sharp h7
        subst this
        exact .inr (.inl ⟨_, rest, rfl, e, h1⟩)
  | error ho =>
    obtain ⟨d, e, rest, n, j, k, h1, h3, h4, h5, h6, ⟨rfl, h2⟩ | ⟨rfl, h2, v, rfl, h7⟩⟩ := hi
    · cases ho
    · cases ho with
      | «open» => exact .inr (.inr ⟨by omega, rfl⟩)
      | other ha => exact absurd h7 ((ha.2 ρ _ _ _ _ h1).no_value itreeAlg_sharp rfl)

/-- The items of `q1` are in the current round, those of `q2` wait for the next. -/
theorem SRun.finds {P b} (hP : AtMost b P) (hb : 1 ≤ b) (hown : ∀ c ∈ P, c.head.fv ∉ ownFVs) {ρ K q rs q'} (h : SRun P q rs q') :
    ∀ {m q1 q2}, q = q1 ++ q2 → (∃ i ∈ q1, i.LeadsIn P ρ K (m + 1)) ∨ (∃ i ∈ q2, i.LeadsIn P ρ K m) →
      costs b (m + 1) q1 + costs b m q2 ≤ rs.length ∨ q' = [] →
      (∃ S gs, some (.answer S) ∈ rs ∧ S ρ gs) ∨ 0 < K ∧ some (.error .notInstantiated) ∈ rs := by
  induction h with
  | @nil q =>
    intro m q1 q2 e hl hc
    exfalso
    subst e
    have pos : ∀ (i : SItem) m, i.LeadsIn P ρ K (m + 1) → 1 ≤ i.cost b (m + 1) := by
      intro i m h
      cases i with
      | goals => have := effort_step hb m; show 1 ≤ effort b (m + 1); omega
      | clause => show 1 ≤ 1 + _; omega
      | own => show 1 ≤ 1 + _; omega
    have mem : ∀ {i : SItem} {q m}, i ∈ q → i.cost b m ≤ costs b m q := by
      intro i q m hi
      induction q with
      | nil => cases hi
      | cons j q ih =>
        rw [costs_cons]
        rcases List.mem_cons.1 hi with rfl | hi
        · omega
        · have := ih hi; omega
    rcases hl with ⟨i, hi, hl⟩ | ⟨i, hi, hl⟩
    · rcases hc with hc | hc
      · have := pos i m hl
        have := mem (m := m + 1) hi
        simp only [List.length_nil] at hc
        omega
      · have := List.append_eq_nil_iff.1 hc
        rw [this.1] at hi; cases hi
    · rcases hc with hc | hc
      · obtain ⟨m, rfl⟩ : ∃ k, m = k + 1 := ⟨m - 1, by have := hl.pos; omega⟩
        have := pos i m hl
        have := mem (m := m + 1) hi
        simp only [List.length_nil] at hc
        omega
      · have := List.append_eq_nil_iff.1 hc
        rw [this.2] at hi; cases hi
  | @cons i q news r rs q' t h ih =>
    have step : ∀ {m q1 q2}, q = q1 ++ q2 → (∃ j ∈ i :: q1, j.LeadsIn P ρ K (m + 1)) ∨ (∃ i ∈ q2, i.LeadsIn P ρ K m) →
        costs b (m + 1) (i :: q1) + costs b m q2 ≤ rs.length + 1 ∨ q' = [] →
        (∃ S gs, some (.answer S) ∈ r :: rs ∧ S ρ gs) ∨ 0 < K ∧ some (.error .notInstantiated) ∈ r :: rs := by
      intro m q1 q2 e hl hc
      have hcost := t.cost hP hb m
      have hc' : costs b (m + 1) q1 + costs b m (q2 ++ news) ≤ rs.length ∨ q' = [] := by
        refine hc.imp_left fun hc => ?_
        rw [costs_cons] at hc
        rw [costs_append]
        omega
      have go : (∃ j ∈ q1, j.LeadsIn P ρ K (m + 1)) ∨ (∃ i ∈ q2 ++ news, i.LeadsIn P ρ K m) →
          (∃ S gs, some (.answer S) ∈ r :: rs ∧ S ρ gs) ∨ 0 < K ∧ some (.error .notInstantiated) ∈ r :: rs := by
        intro hl
        rcases ih (by rw [e, List.append_assoc]) hl hc' with ⟨S, gs, h1, h2⟩ | ⟨h1, h2⟩
        · exact .inl ⟨S, gs, .tail _ h1, h2⟩
        · exact .inr ⟨h1, .tail _ h2⟩
      rcases hl with ⟨j, hj, hl⟩ | ⟨j, hj, hl⟩
      · rcases List.mem_cons.1 hj with rfl | hj
        · rcases t.leads hown hl with ⟨j, hj, hl⟩ | ⟨S, gs, rfl, hS⟩ | ⟨h1, rfl⟩
          · exact go (.inr ⟨j, List.mem_append_right _ hj, hl⟩)
          · exact .inl ⟨S, gs, .head _, hS⟩
          · exact .inr ⟨h1, .head _⟩
        · exact go (.inl ⟨j, hj, hl⟩)
      · exact go (.inr ⟨j, List.mem_append_left _ hj, hl⟩)
    intro m q1 q2 e hl hc
    cases q1 with
    | cons j q1 =>
      injection e with e1 e2
      subst e1
      exact step e2 hl hc
    | nil =>
      rcases hl with ⟨j, hj, _⟩ | ⟨j, hj, hl⟩
      · cases hj
      · obtain ⟨m, rfl⟩ : ∃ k, m = k + 1 := ⟨m - 1, by have := hl.pos; omega⟩
        simp only [List.nil_append] at e
        rw [← e] at hj hc
        refine step (q2 := []) (List.append_nil _).symm (.inl ⟨j, hj, hl⟩) (hc.imp_left fun hc => ?_)
        simpa [costs] using hc

/-! ## Answers with finite instances -/

/-- In one solution of the heap, what has a finite value can be read. -/
theorem Mod.reads_fin {V H size} (g : Good V H size size) {I : Int → FV} {τ : Nat → ITree} (m : Mod (toIAlg itreeAlg I) H τ) :
    ∀ (n : Nat) {u : Tree} {a}, u.size ≤ n → a < size → τ a = u.fold itreeAlg → ∃ t, Reads H a t := by
  intro n
  induction n with
  | zero => intro u a hu; have := u.size_pos; omega
  | succ n ih =>
    intro u a hu ha h
    obtain ⟨d, hd⟩ := g.ends a ha
    have h' : τ d = u.fold itreeAlg := (m.deref hd).symm.trans h
    have fin : ∀ {t}, Reads H d t → ∃ t, Reads H a t := fun h => ⟨_, (Reads.deref hd).2 h⟩
    rcases hd.end_cell.2 with ⟨v, hv⟩ | ⟨c, hc, hp⟩
    · exact fin (.var hv)
    · cases c with
      | cons => exact fin (.cons hc)
      | int => exact fin (.int hc)
      | ref => cases hp
      | str => cases hp
      | fn f k =>
        have k0 : itreeAlg.fn (I f).name (argVals τ (d + 1) k) = u.fold itreeAlg := (m _ _ hc).symm.trans h'
        cases u with
        | cons n => exact absurd k0.symm itreeAlg_sharp.cons_fn
        | int v => exact absurd k0.symm itreeAlg_sharp.int_fn
        | efn f ts => exact absurd k0 itreeAlg_sharp.fn_efn
        | fn f' us =>
          obtain ⟨hl, hus⟩ := folds_get (itreeAlg_sharp.fn_inj k0).2
          have hlt := g.fnArgs _ _ _ hc
          obtain ⟨ts, t1, t2⟩ := exists_list (k := k) (P := fun j t => Reads H (d + 1 + j) t) fun j hj => by
            have hj' : us[j]? = some us[j] := List.getElem?_eq_getElem (by omega)
            have := Tree.size_mem (List.mem_of_getElem? hj')
            simp only [Tree.size] at hu
            exact ih (by omega) (by omega) (hus j _ hj')
          exact fin (.fn hc t1 t2)
      | efn f k =>
        have k0 : itreeAlg.efn (arithNames.getD f []) (argVals τ (d + 1) k) = u.fold itreeAlg := (m _ _ hc).symm.trans h'
        cases u with
        | cons n => exact absurd k0.symm itreeAlg_sharp.cons_efn
        | int v => exact absurd k0.symm itreeAlg_sharp.int_efn
        | fn f ts => exact absurd k0.symm itreeAlg_sharp.fn_efn
        | efn f' us =>
          obtain ⟨hl, hus⟩ := folds_get (itreeAlg_sharp.efn_inj k0).2
          have hlt := g.efnArgs _ _ _ hc
          obtain ⟨ts, t1, t2⟩ := exists_list (k := k) (P := fun j t => Reads H (d + 1 + j) t) fun j hj => by
            have hj' : us[j]? = some us[j] := List.getElem?_eq_getElem (by omega)
            have := Tree.size_mem (List.mem_of_getElem? hj')
            simp only [Tree.size] at hu
            exact ih (by omega) (by omega) (hus j _ hj')
          exact fin (.efn hc t1 t2)

open Classical in
/-- The finite trees among the values `τ`. -/
noncomputable def finite (τ : Nat → ITree) (a : Nat) : Tree := if h : ∃ u : Tree, τ a = u.fold itreeAlg then h.choose else .int 0

theorem finite_eq {τ : Nat → ITree} {a} {u : Tree} (h : τ a = u.fold itreeAlg) : finite τ a = u := by
  have hx : ∃ u : Tree, τ a = u.fold itreeAlg := ⟨u, h⟩
  unfold finite
  rw [dif_pos hx]
  exact Tree.fold_inj (hx.choose_spec.symm.trans h)

mutual
theorem OTerm.eval_finite {I : Int → FV} {τ : Nat → ITree} : ∀ (t : OTerm) {u : Tree}, t.eval itreeAlg I τ = u.fold itreeAlg → t.eval treeAlg I (finite τ) = u
  | .var a, u, h => finite_eq h
  | .cons i, u, h => Tree.fold_inj (t := .cons (I i).name) h
  | .int v, u, h => Tree.fold_inj (t := .int v) h
  | .fn f ts, u, h => by
    cases u with
    | cons n => exact absurd h.symm itreeAlg_sharp.cons_fn
    | int v => exact absurd h.symm itreeAlg_sharp.int_fn
    | efn f ts => exact absurd h itreeAlg_sharp.fn_efn
    | fn f' us =>
      obtain ⟨e, hl⟩ := itreeAlg_sharp.fn_inj h
      rw [OTerm.eval, OTerm.evals_finite ts hl, e]; rfl
  | .efn f ts, u, h => by
    cases u with
    | cons n => exact absurd h.symm itreeAlg_sharp.cons_efn
    | int v => exact absurd h.symm itreeAlg_sharp.int_efn
    | fn f ts => exact absurd h.symm itreeAlg_sharp.fn_efn
    | efn f' us =>
      obtain ⟨e, hl⟩ := itreeAlg_sharp.efn_inj h
      rw [OTerm.eval, OTerm.evals_finite ts hl, e]; rfl
theorem OTerm.evals_finite {I : Int → FV} {τ : Nat → ITree} : ∀ (ts : List OTerm) {us : List Tree}, OTerm.evals itreeAlg I τ ts = Tree.folds itreeAlg us →
    OTerm.evals treeAlg I (finite τ) ts = us
  | [], us, h => by
    cases us with
    | nil => rfl
    | cons => cases h
  | t :: ts, us, h => by
    cases us with
    | nil => cases h
    | cons u us =>
      simp only [OTerm.evals, Tree.folds, List.cons.injEq] at h
      rw [OTerm.evals, OTerm.eval_finite t h.1, OTerm.evals_finite ts h.2]
end

theorem stringRep_lt {st : Storage} {pre : Nat → Option Cell} {hp : Hp} (g : WF st pre hp) {L fuel b a s} (h : stringRep pre hp st L fuel b a = .ok s) : a < hp.size := by
  cases fuel with
  | zero => cases h
  | succ n =>
    simp only [stringRep, bind_ok] at h
    obtain ⟨d, hd, _⟩ := h
    unfold deref derefN at hd
    cases hc : hp.at? pre a with
    | none => rw [hc] at hd; cases hd
    | some c => exact Good.lt g hc

/-- An answer that shows a finite instance is the text of terms of which it is an instance. -/
theorem ShowsInsts.hasInstance {st atoms fuel bs S} (h : ShowsInsts st atoms fuel bs S) {ρ : Name → Tree} {gs}
    (hS : S (fun v => (ρ v).fold itreeAlg) gs) : HasInstance st atoms fuel bs ρ := by
  obtain ⟨pre, hp, L, g, P, hn, ag, h⟩ := h
  obtain ⟨τ, m, hτ⟩ := (h fun v => (ρ v).fold itreeAlg).1 ⟨_, gs, hS, fun _ _ => rfl⟩
  refine ⟨pre, hp, L, g, P, hn, finite τ, fun x hx => ?_⟩
  have hlt : x.2 < hp.size := by
    obtain ⟨b, hb, hbn⟩ := List.mem_map.1 (P.all x hx)
    obtain ⟨a, ha, hs⟩ := P.value b hb
    have halt : a < hp.size := stringRep_lt g hs
    by_contra hge
    have key : ∀ d : ITree, d = τ a := by
      intro d
      have m' : Mod (toIAlg itreeAlg (interpOf st)) (hp.at? pre) fun y => if y < hp.size then τ y else d := mod_congr g (fun _ h => if_pos h) m
      obtain ⟨ρ', h'⟩ := ag _ m'
      have h1 := h' x hx
      have h2 := h' _ ha
      simp only [if_neg hge, if_pos halt] at h1 h2
      rw [h1, h2, hbn]
    have := itreeAlg_sharp.int_inj ((key (itreeAlg.int 0)).trans (key (itreeAlg.int 1)).symm)
    omega
  obtain ⟨t, ht⟩ := m.reads_fin g _ (Nat.le_refl _) hlt (hτ x hx)
  exact ⟨t, ht, OTerm.eval_finite t (by rw [← hτ x hx]; exact (ht.eval m fun _ _ _ => rfl).symm)⟩

/-! ## Derivations -/

theorem Evals.fold {D} (A : Alg D) {t : Tree} {v : Int} (h : Evals treeAlg t v) : Evals A (t.fold A) v := by
  induction h with
  | int => exact .int
  | op _ _ h ih1 ih2 => exact .op ih1 ih2 h

/-- Derivations over finite trees are derivations over finite and infinite trees. -/
theorem Derives.fold {P n j k gs} (h : Derives treeAlg P n j k gs) :
    Derives itreeAlg P n j k (gs.map fun g => ⟨g.name, Tree.folds itreeAlg g.args⟩) := by
  have inst : ∀ (ρ : Name → Tree) (a : Node), (⟨(a.inst treeAlg ρ).name, Tree.folds itreeAlg (a.inst treeAlg ρ).args⟩ : GAtom ITree) =
      a.inst itreeAlg fun v => (ρ v).fold itreeAlg := by
    intro ρ a
    simp only [Node.inst, Node.fold_evals]
  induction h with
  | nil => exact .nil
  | @cons c ρ n j k gs hc _ ih =>
    rw [List.map_cons, inst]
    refine .cons hc ?_
    rw [List.map_append, List.map_map] at ih
    have : c.body.map (Node.inst itreeAlg fun v => (ρ v).fold itreeAlg) =
        c.body.map ((fun g => (⟨g.name, Tree.folds itreeAlg g.args⟩ : GAtom ITree)) ∘ Node.inst treeAlg ρ) :=
      List.map_congr_left fun a _ => (inst ρ a).symm
    rw [this]
    exact ih
  | neq h _ ih => exact .neq (fun e => h (Tree.fold_inj e)) ih
  | is h _ ih => exact .is (h.fold itreeAlg) ih

theorem Derives.insts {P n j k} {ρ : Name → Tree} {atoms : List Node} (h : Derives treeAlg P n j k (atoms.map (Node.inst treeAlg ρ))) :
    Derives itreeAlg P n j k (atoms.map (Node.inst itreeAlg fun v => (ρ v).fold itreeAlg)) := by
  have := h.fold
  rw [List.map_map] at this
  have e : atoms.map (Node.inst itreeAlg fun v => (ρ v).fold itreeAlg) =
      atoms.map ((fun g => (⟨g.name, Tree.folds itreeAlg g.args⟩ : GAtom ITree)) ∘ Node.inst treeAlg ρ) :=
    List.map_congr_left fun a _ => by simp only [Node.inst, Node.fold_evals, Function.comp]
  rw [e]
  exact this

/-- What is derived is provable. -/
theorem Derives.proves {D} {A : Alg D} {P n j k gs} (h : Derives A P n j k gs) : ∀ g ∈ gs, Proves A P g := by
  induction h with
  | nil => intro g hg; cases hg
  | cons hc _ ih =>
    intro g hg
    rcases List.mem_cons.1 hg with rfl | hg
    · exact .clause hc fun b hb => ih _ (List.mem_append_left _ (List.mem_map.2 ⟨b, hb, rfl⟩))
    · exact ih _ (List.mem_append_right _ hg)
  | neq _ _ ih =>
    intro g hg
    rcases List.mem_cons.1 hg with rfl | hg
    · exact .neq
    · exact ih _ hg
  | is he _ ih =>
    intro g hg
    rcases List.mem_cons.1 hg with rfl | hg
    · exact .is he
    · exact ih _ hg

/-- Without `==` and `\\==`, what is provable has a derivation, of some size. -/
theorem DerL.derives {D} {A : Alg D} {P : List Clause} {n gs} (h : DerL A P n gs) : ∃ n k, Derives A P n 0 k gs := by
  induction h with
  | nil => exact ⟨0, 0, .nil⟩
  | cons hc _ ih => obtain ⟨n, k, h⟩ := ih; exact ⟨n + 1, k, .cons hc h⟩
  | is he _ ih => obtain ⟨n, k, h⟩ := ih; exact ⟨n, k + 1, .is he h⟩

/-- In a program and a query without `==` and `\\==`, the provable instances of the query are those that have a derivation. -/
theorem NoCompare.derives {D} {A : Alg D} {p atoms} (h : NoCompare p atoms) {ρ : Name → D} :
    (∀ a ∈ atoms, Proves A (inForce p) (a.inst A ρ)) ↔ ∃ n k, Derives A (inForce p) n 0 k (atoms.map (Node.inst A ρ)) := by
  constructor
  · intro hp
    have key : ∀ {f : FV}, f ≠ ⟨n!"==", 2⟩ ∧ f ≠ ⟨n!"\\==", 2⟩ → ∀ b : Builtin, b ≠ .is → f ≠ ⟨b.name, 2⟩ := by
      intro f hf b hb
      cases b with
      | eq => exact hf.1
      | neq => exact hf.2
      | is => exact absurd rfl hb
    have hb : ∀ c ∈ inForce p, ∀ a ∈ c.body, ∀ b : Builtin, b ≠ .is → a.fv ≠ ⟨b.name, 2⟩ := by
      intro c hc a ha
      rcases List.mem_append.1 hc with hc | hc
      · exact key (h.2 c (List.mem_filter.1 hc).1 a ha)
      · simp only [appendClauses, List.mem_cons, List.not_mem_nil, or_false] at hc
        rcases hc with rfl | rfl
        · cases ha
        · simp only [List.mem_singleton] at ha
          subst ha
          exact key (by decide)
    have all : ∀ l : List Node, (∀ a ∈ l, a ∈ atoms) → ∃ n, DerL A (inForce p) n (l.map (Node.inst A ρ)) := by
      intro l
      induction l with
      | nil => intro _; exact ⟨0, .nil⟩
      | cons a l ih =>
        intro hl
        obtain ⟨n, hn⟩ := ih fun a ha => hl a (.tail _ ha)
        refine DerL.of_proves hb (hp a (hl a (.head _))) (fun b h0 h1 h2 => ?_) hn
        refine key (h.1 a (hl a (.head _))) b h0 ?_
        simp only [Node.inst, evals_length] at h1 h2
        simp [Node.fv, h1, h2]
    obtain ⟨n, hn⟩ := all atoms fun _ h => h
    exact hn.derives
  · rintro ⟨n, k, hn⟩ a ha
    exact hn.proves _ (List.mem_map.2 ⟨a, ha, rfl⟩)

/-! ## The theorems -/

theorem inForce_own {p : List Clause} : ∀ c ∈ inForce p, c.head.fv ∉ ownFVs := by
  intro c hc
  rcases List.mem_append.1 hc with hc | hc
  · have := (List.mem_filter.1 hc).2
    simp only [Bool.not_eq_true', List.contains_eq_mem, decide_eq_false_iff_not] at this
    intro h
    refine this ?_
    simp only [ownFVs, builtinFVs, List.mem_cons, List.not_mem_nil, or_false] at h ⊢
    rcases h with h | h | h <;> simp [h]
  · simp only [appendClauses, List.mem_cons, List.not_mem_nil, or_false] at hc
    rcases hc with rfl | rfl <;> decide

theorem AtMost.two {b p} (h : AtMost b (inForce p)) : 2 ≤ b := by
  refine Nat.le_trans ?_ (h ⟨n!"append", 3⟩)
  rw [inForce, List.filter_append, List.length_append]
  have : (appendClauses.filter (·.head.fv = ⟨n!"append", 3⟩)).length = 2 := by decide
  omega

theorem reports_mem_error {ts : List Org.Turn} {err} (h : Org.Turn.error err ∈ ts) : Org.Res.error err ∈ reports ts := by
  induction ts with
  | nil => cases h
  | cons t ts ih =>
    rcases List.mem_cons.1 h with rfl | h'
    · simp [reports]
    · cases t with
      | «continue» => exact ih h'
      | answer bs' => exact List.mem_cons_of_mem _ (ih h')
      | error e => exact List.mem_cons_of_mem _ (ih h')

/-- The answer is found: within so many turns, or before the search ends. -/
theorem Asked.finds {o o' : Org} {p atoms fuel t ts b n j k} (h : Asked o p atoms) (hb : AtMost b (inForce p)) {ρ : Name → ITree}
    (hd : Derives itreeAlg (inForce p) n j k (atoms.map (Node.inst itreeAlg ρ))) (hr : o.iterate fuel t = .ok (o', ts))
    (hk : effort b (depth n (j + k)) ≤ t ∨ o'.queue = []) :
    (∃ bs S gs, Org.Turn.answer bs ∈ ts ∧ ShowsInsts o.st atoms fuel bs S ∧ S ρ gs) ∨ 0 < k ∧ ∃ err, Org.Turn.error err ∈ ts ∧ err.kind = .notInstantiated := by
  obtain ⟨items, rs, h1, h2, h3⟩ := C42_breadth_first_resolution_partial h hr
  have hpos : 1 ≤ n + (j + k) := by
    rcases Nat.eq_zero_or_pos (n + (j + k)) with h0 | h0
    · exact absurd (List.map_eq_nil_iff.1 (hd.zero h0)) h.ne
    · exact h0
  obtain ⟨m, hm⟩ : ∃ m, depth n (j + k) = m + 1 := ⟨depth n (j + k) - 1, by have := depth_pos hpos; omega⟩
  have hl : (SItem.goals (atoms.map (.goal ·.fv)) (Insts.query atoms)).LeadsIn (inForce p) ρ k (m + 1) := by
    refine ⟨_, n, j, k, rfl, hd, ?_, hpos, by rw [leaves_goals, hm], Nat.le_refl _⟩
    rw [inst_fvs]
    have := calls_todo (c := ⟨.var [], atoms⟩)
    unfold Clause.todo at this
    rw [calls_append] at this
    have e : ∀ b : Bool, calls (if b then [Todo.leave] else []) = [] := by decide
    simpa [e] using this
  have hq : costs b (m + 1) [SItem.goals (atoms.map (.goal ·.fv)) (Insts.query atoms)] + costs b m [] ≤ rs.length ∨ items = [] := by
    have ended : o'.queue = [] → items = [] := fun hq => List.length_eq_zero_iff.1 (by rw [h3, hq]; rfl)
    rcases hk with hk | hk
    · by_cases hlt : ts.length < t
      · exact .inr (ended ((iterate_length hr).2 hlt))
      · refine .inl ?_
        have := h2.length_eq
        rw [hm] at hk
        simp only [costs, List.map_cons, List.map_nil, List.sum_cons, List.sum_nil, SItem.cost]
        omega
    · exact .inr (ended hk)
  rcases h1.finds hb (by have := hb.two; omega) inForce_own (q2 := []) (List.append_nil _).symm (.inl ⟨_, .head _, hl⟩) hq with ⟨S, gs, hS, hρ⟩ | ⟨hk0, hS⟩
  · obtain ⟨i, hi⟩ := List.getElem?_of_mem hS
    obtain ⟨t, ht, hs⟩ := forall₂_find h2 hi
    cases hs with
    | answer hs => exact .inl ⟨_, S, gs, List.mem_of_getElem? ht, hs, hρ⟩
  · obtain ⟨i, hi⟩ := List.getElem?_of_mem hS
    obtain ⟨t, ht, hs⟩ := forall₂_find h2 hi
    generalize hx : some (Rep.error ErrKind.notInstantiated) = x at hs
    cases hs with
    | «continue» => cases hx
    | answer => cases hx
    | @error err => injection hx with hx; injection hx with hx; exact .inr ⟨hk0, err, List.mem_of_getElem? ht, hx.symm⟩

/-- **C63 (part that holds).** If `n` uses of clauses, `j` comparisons `\\==` of different values and `k` evaluations prove an instance `ρ` of the
query, over finite or infinite trees, and no predicate has more than `b` clauses, then an answer of which `ρ` is an instance is reported within the
first `effort b (depth n (j + k))` iterations of the main loop, whatever else there is to search, and whatever predicates the rest of the program uses;
or, if there are evaluations, the error that an expression is not sufficiently instantiated.
Missing: derivations with `==`; programs with clauses that are compiled wrongly (`Asked` demands `Untangled`); iterations that never end or end in undefined
behaviour. -/
theorem C63_within_partial {o o' : Org} {p atoms fuel t ts b n j k} (h : Asked o p atoms) (hb : AtMost b (inForce p)) {ρ : Name → ITree}
    (hd : Derives itreeAlg (inForce p) n j k (atoms.map (Node.inst itreeAlg ρ))) (hk : effort b (depth n (j + k)) ≤ t) (hr : o.iterate fuel t = .ok (o', ts)) :
    (∃ bs S gs, Org.Turn.answer bs ∈ ts.take (effort b (depth n (j + k))) ∧ ShowsInsts o.st atoms fuel bs S ∧ S ρ gs) ∨
    0 < k ∧ ∃ err, Org.Turn.error err ∈ ts.take (effort b (depth n (j + k))) ∧ err.kind = .notInstantiated := by
  obtain ⟨d, rfl⟩ := Nat.exists_eq_add_of_le hk
  rw [iterate_add] at hr
  simp only [bind_ok, pure_ok, Prod.mk.injEq] at hr
  obtain ⟨⟨o1, t1⟩, h1, ⟨o2, t2⟩, h2, rfl, rfl⟩ := hr
  have hin : ∀ x ∈ t1, x ∈ (t1 ++ t2).take (effort b (depth n (j + k))) := by
    intro x hx
    rw [List.take_append]
    refine List.mem_append_left _ ?_
    rw [List.take_of_length_le (iterate_length h1).1]
    exact hx
  rcases h.finds hb hd h1 (.inl (Nat.le_refl _)) with ⟨bs, S, gs, hm, hs⟩ | ⟨hk, err, hm, he⟩
  · exact .inl ⟨bs, S, gs, hin _ hm, hs⟩
  · exact .inr ⟨hk, err, hin _ hm, he⟩

/-- **C63 (part that holds), for finite instances and calls of `get_answer`.** The answer has `ρ` as an instance, or there are evaluations and the report is
the error above; every session contains this report that has made as many reports or has ended, and as many calls, with time for as many iterations each, are
enough to get it. -/
theorem C63_sessions_partial {o o' : Org} {p atoms fuel ts b n j k} (h : Asked o p atoms) (hb : AtMost b (inForce p)) {ρ : Name → Tree}
    (hd : Derives treeAlg (inForce p) n j k (atoms.map (Node.inst treeAlg ρ))) (hr : o.iterate fuel (effort b (depth n (j + k))) = .ok (o', ts)) :
    ∃ r, Accounts o.st atoms fuel ρ r ∧ (k = 0 → ∃ bs, r = .answer bs) ∧
      (∀ clocks o' rs, o.session fuel clocks = .ok (o', rs) →
        effort b (depth n (j + k)) ≤ (rs.filter Org.Res.isReport).length ∨ rs.getLast? = some .noAnswer → r ∈ rs) ∧
      ∃ i o' rs, i ≤ effort b (depth n (j + k)) ∧
        o.session fuel (List.replicate i (List.replicate (effort b (depth n (j + k))) false)) = .ok (o', rs) ∧ rs.getLast? = some r := by
  rcases h.finds hb hd.insts hr (.inl (Nat.le_refl _)) with ⟨bs, S, gs, h1, h2, h3⟩ | ⟨h0, err, h1, h2⟩
  · exact ⟨.answer bs, .inl ⟨bs, rfl, h2.hasInstance h3⟩, fun _ => ⟨bs, rfl⟩, h.sessions hr (reports_mem h1)⟩
  · exact ⟨.error err, .inr ⟨err, rfl, h2⟩, fun h => by omega, h.sessions hr (reports_mem_error h1)⟩

/-- **C03 for programs with any predicates (part that holds).** When the last call says that there is no answer, then every
instance of the query that is proved by clauses and comparisons `\\==` of different values is an instance of an answer given before; if evaluations are needed
to prove it, then it may be that the error was reported that an expression is not sufficiently instantiated.  The program may use `is`, `==` and `\\==` anywhere.
Missing: instances proved with `==`; programs with clauses that are compiled wrongly. -/
theorem C03_false_conclusive_derived_partial {o o' : Org} {p atoms fuel clocks rs n j k} (h : Asked o p atoms)
    (hs : o.session fuel clocks = .ok (o', rs)) (hl : rs.getLast? = some .noAnswer)
    {ρ : Name → Tree} (hd : Derives treeAlg (inForce p) n j k (atoms.map (Node.inst treeAlg ρ))) :
    ∃ r ∈ rs, Accounts o.st atoms fuel ρ r ∧ (k = 0 → ∃ bs, r = .answer bs) := by
  obtain ⟨ts, h1, h2⟩ := C05_timeouts_transparent h.reach hs
  have hq := session_exhausted hs hl h.reach.rinv
  rcases h.finds (b := (inForce p).length) (fun f => List.length_filter_le _ _) hd.insts h1 (.inr hq) with ⟨bs, S, gs, a1, a2, a3⟩ | ⟨h0, err, a1, a2⟩
  · refine ⟨.answer bs, ?_, .inl ⟨bs, rfl, a2.hasInstance a3⟩, fun _ => ⟨bs, rfl⟩⟩
    have := reports_mem a1
    rw [← h2] at this
    exact (List.mem_filter.1 this).1
  · refine ⟨.error err, ?_, .inr ⟨err, rfl, a2⟩, fun h => by omega⟩
    have := reports_mem_error a1
    rw [← h2] at this
    exact (List.mem_filter.1 this).1

/-! ## Concrete cases -/

namespace EffortExamples
open SoundExamples CompleteExamples

/-- The bound of `C63`, decided for a given program. -/
theorem atMost_of {b : Nat} {P : List Clause} (hb : (P.map (·.head.fv)).all fun f => (P.filter (·.head.fv = f)).length ≤ b) : AtMost b P := by
  intro f
  by_cases h : ∃ c ∈ P, c.head.fv = f
  · obtain ⟨c, hc, rfl⟩ := h
    have := List.all_eq_true.1 hb _ (List.mem_map.2 ⟨c, hc, rfl⟩)
    simpa using this
  · have : P.filter (·.head.fv = f) = [] := by
      rw [List.filter_eq_nil_iff]
      intro c hc he
      exact h ⟨c, hc, by simpa using he⟩
    rw [this]; exact Nat.zero_le _

/-- `t(X) :- t(X).  t(X) :- p(X), q(X).  p(a).  p(b).  q(b).`, where the search never ends. -/
def deep : List Clause :=
  [⟨.fn n!"t" [.var n!"X"], [.fn n!"t" [.var n!"X"]]⟩, ⟨.fn n!"t" [.var n!"X"], [.fn n!"p" [.var n!"X"], .fn n!"q" [.var n!"X"]]⟩,
    ⟨.fn n!"p" [.cons n!"a"], []⟩, ⟨.fn n!"p" [.cons n!"b"], []⟩, ⟨.fn n!"q" [.cons n!"b"], []⟩]

def askDeep : List Node := [.fn n!"t" [.var n!"A"]]

/-- The hypotheses are met: three uses of clauses prove `t(b)`, and no predicate has more than two clauses, so that the answer comes within
45 iterations. -/
example : Asked (demo deep askDeep) deep askDeep ∧ AtMost 2 (inForce deep) ∧
    Derives treeAlg (inForce deep) 3 0 0 (askDeep.map (Node.inst treeAlg fun _ => .cons n!"b")) ∧ effort 2 (depth 3 0) = 45 ∧
    ((demo deep askDeep).iterate 20 45).toOption.map (fun r => r.2.find? (· ≠ .continue)) = some (some (.answer [⟨n!"A", n!"b"⟩])) := by
  refine ⟨asked_demo (by decide +kernel) (by decide +kernel) (safe_of_b (by decide +kernel)) (by decide) (by simp [askDeep]) (by decide +kernel),
    atMost_of (by decide +kernel), ?_, by decide, by decide +kernel⟩
  have hf : inForce deep = deep ++ appendClauses := rfl
  exact Derives.cons (A := treeAlg) (c := ⟨.fn n!"t" [.var n!"X"], [.fn n!"p" [.var n!"X"], .fn n!"q" [.var n!"X"]]⟩) (ρ := fun _ => Tree.cons n!"b") (by rw [hf]; simp [deep])
    (Derives.cons (A := treeAlg) (c := ⟨.fn n!"p" [.cons n!"b"], []⟩) (ρ := fun _ => Tree.cons n!"b") (by rw [hf]; simp [deep])
      (Derives.cons (A := treeAlg) (c := ⟨.fn n!"q" [.cons n!"b"], []⟩) (ρ := fun _ => Tree.cons n!"b") (by rw [hf]; simp [deep]) .nil))

/-- `p(a).  p(b).` -/
def two : List Clause := [⟨.fn n!"p" [.cons n!"a"], []⟩, ⟨.fn n!"p" [.cons n!"b"], []⟩]

def askTwo : List Node := [.fn n!"p" [.cons n!"b"]]

/-- The bound is reached: one use of a clause proves `p(b)`, and the answer comes in iteration `effort 2 2 = 3`, not before. -/
example : Asked (demo two askTwo) two askTwo ∧ AtMost 2 (inForce two) ∧ Derives treeAlg (inForce two) 1 0 0 (askTwo.map (Node.inst treeAlg fun _ => .int 0)) ∧
    effort 2 (depth 1 0) = 3 ∧ ((demo two askTwo).iterate 20 3).toOption.map (·.2) = some [.continue, .continue, .answer []] := by
  refine ⟨asked_demo (by decide +kernel) (by decide +kernel) (safe_of_b (by decide +kernel)) (by decide) (by simp [askTwo]) (by decide +kernel),
    atMost_of (by decide +kernel), ?_, by decide, by decide +kernel⟩
  have hf : inForce two = two ++ appendClauses := rfl
  exact Derives.cons (A := treeAlg) (c := ⟨.fn n!"p" [.cons n!"b"], []⟩) (ρ := fun _ => Tree.int 0) (by rw [hf]; simp [two]) .nil

/-- `p(1).  p(2).` -/
def nums : List Clause := [⟨.fn n!"p" [.int 1], []⟩, ⟨.fn n!"p" [.int 2], []⟩]

/-- `p(X), p(Y), X \\== Y, Z is X - Y` -/
def askNums : List Node :=
  [.fn n!"p" [.var n!"X"], .fn n!"p" [.var n!"Y"], .fn n!"\\==" [.var n!"X", .var n!"Y"], .fn n!"is" [.var n!"Z", .efn n!"-" [.var n!"X", .var n!"Y"]]]

/-- With a comparison and an evaluation: `X = 2, Y = 1, Z = 1` is derived by two uses of clauses, one comparison and one evaluation. -/
example : Asked (demo nums askNums) nums askNums ∧ AtMost 2 (inForce nums) ∧
    Derives treeAlg (inForce nums) 2 1 1 (askNums.map (Node.inst treeAlg fun x => .int (if x = n!"X" then 2 else 1))) ∧ effort 2 (depth 2 (1 + 1)) = 93 ∧
    ((demo nums askNums).iterate 20 93).toOption.map (fun r => r.2.filter (· ≠ .continue)) =
      some [.answer [⟨n!"Z", n!"-1"⟩, ⟨n!"X", n!"1"⟩, ⟨n!"Y", n!"2"⟩], .answer [⟨n!"Z", n!"1"⟩, ⟨n!"X", n!"2"⟩, ⟨n!"Y", n!"1"⟩]] := by
  refine ⟨asked_demo (by decide +kernel) (by decide +kernel) (safe_of_b (by decide +kernel)) (by decide) (by simp [askNums]) (by decide +kernel),
    atMost_of (by decide +kernel), ?_, by decide, by decide +kernel⟩
  have hf : inForce nums = nums ++ appendClauses := rfl
  refine Derives.cons (A := treeAlg) (c := ⟨.fn n!"p" [.int 2], []⟩) (ρ := fun _ => Tree.int 0) (by rw [hf]; simp [nums]) ?_
  refine Derives.cons (A := treeAlg) (c := ⟨.fn n!"p" [.int 1], []⟩) (ρ := fun _ => Tree.int 0) (by rw [hf]; simp [nums]) ?_
  refine Derives.neq (A := treeAlg) (d := .int 2) (e := .int 1) (by intro h; cases h) ?_
  exact Derives.is (A := treeAlg) (d := .efn n!"-" [.int 2, .int 1]) (v := 1) (.op (A := treeAlg) .int .int .sub) .nil

end EffortExamples

open EffortExamples CompleteExamples in
/-- **C63 is false in general**: with `p(X,Y) :- q(Z,W).  q(a,b).`, whose clauses compete for registers, two uses of clauses prove `p(c,d)`, and
no predicate has more than two clauses, but the search ends without an answer. -/
theorem C63_lost_registers : AtMost 2 (inForce lost) ∧ (∀ ρ, Derives treeAlg (inForce lost) 2 0 0 (askLost.map (Node.inst treeAlg ρ))) ∧
    ((demo lost askLost).iterate 20 (effort 2 (depth 2 0))).toOption.map (·.2) = some (List.replicate 4 .continue) := by
  refine ⟨atMost_of (by decide +kernel), fun ρ => ?_, by decide +kernel⟩
  let ρ' : Name → Tree := fun v => if v = n!"X" then .cons n!"c" else if v = n!"Y" then .cons n!"d" else
    if v = n!"Z" then .cons n!"a" else .cons n!"b"
  exact Derives.cons (A := treeAlg) (c := ⟨.fn n!"p" [.var n!"X", .var n!"Y"], [.fn n!"q" [.var n!"Z", .var n!"W"]]⟩) (ρ := ρ') (by rw [lost_force]; simp [lost])
    (Derives.cons (A := treeAlg) (c := ⟨.fn n!"q" [.cons n!"a", .cons n!"b"], []⟩) (ρ := fun _ => Tree.int 0) (by rw [lost_force]; simp [lost]) .nil)

end PBfs
