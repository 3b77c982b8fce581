import Verif.Proof.Faults
/-! # Heads without repeated variables keep the heap free of cyclic terms -/
namespace PBfs

/-- The trees agree in the first `K` levels. -/
def Agr : Nat → ITree → Tree → Prop
  | 0, _, _ => True
  | _ + 1, d, .cons n => d = itreeAlg.cons n
  | _ + 1, d, .int v => d = itreeAlg.int v
  | K + 1, d, .fn f ts => ∃ ds, d = itreeAlg.fn f ds ∧ List.Forall₂ (Agr K) ds ts
  | K + 1, d, .efn f ts => ∃ ds, d = itreeAlg.efn f ds ∧ List.Forall₂ (Agr K) ds ts

theorem Agr.pred {K : Nat} : ∀ {d t}, Agr (K + 1) d t → Agr K d t := by
  induction K with
  | zero => intros; trivial
  | succ K ih =>
    have all : ∀ {ds ts}, List.Forall₂ (Agr (K + 1)) ds ts → List.Forall₂ (Agr K) ds ts := by
      intro ds ts h
      induction h with
      | nil => exact .nil
      | cons h _ ih' => exact .cons (ih h) ih'
    intro d t h
    cases t with
    | cons n => exact h
    | int v => exact h
    | fn f ts => obtain ⟨ds, h1, h2⟩ := h; exact ⟨ds, h1, all h2⟩
    | efn f ts => obtain ⟨ds, h1, h2⟩ := h; exact ⟨ds, h1, all h2⟩

theorem forall₂_exists {α β} {R : α → β → Prop} : ∀ {l : List α}, (∀ x ∈ l, ∃ y, R x y) → ∃ m, List.Forall₂ R l m
  | [], _ => ⟨[], .nil⟩
  | x :: l, h => by
    obtain ⟨y, hy⟩ := h x (by simp)
    obtain ⟨m, hm⟩ := forall₂_exists (R := R) (l := l) fun z hz => h z (by simp [hz])
    exact ⟨y :: m, .cons hy hm⟩

theorem mem_argVals {D} {σ : Nat → D} {a n x} (h : x ∈ argVals σ a n) : ∃ i, i < n ∧ x = σ (a + i) := by
  obtain ⟨i, hi⟩ := List.mem_iff_getElem?.1 h
  rw [argVals_get] at hi
  split at hi
  · cases hi; exact ⟨i, by assumption, rfl⟩
  · cases hi

theorem forall₂_argVals {D E} {R : D → E → Prop} {σ : Nat → D} {τ : Nat → E} {a n : Nat} (h : ∀ i, i < n → R (σ (a + i)) (τ (a + i))) :
    List.Forall₂ R (argVals σ a n) (argVals τ a n) := by
  induction n generalizing a with
  | zero => exact .nil
  | succ n ih =>
    refine .cons (h 0 (by omega)) (ih fun i hi => ?_)
    have := h (i + 1) (by omega)
    rwa [show a + 1 + i = a + (i + 1) by omega]

/-- If the open variables have proper values, then everything has: the first levels are those of a finite tree. -/
theorem Good.proper {V H size} (g : Good V H size size) {I : Int → FV} {τ : Nat → ITree} (m : Mod (toIAlg itreeAlg I) H τ)
    (h0 : ∀ a v, H a = some (.ref a v) → τ a = itreeAlg.int 0) : ∀ K a, a < size → ∃ t, Agr K (τ a) t := by
  intro K
  induction K with
  | zero => intro a _; exact ⟨.int 0, trivial⟩
  | succ K ih =>
    intro a ha
    obtain ⟨d, hd⟩ := g.ends a ha
    rw [show τ a = τ d from m.deref hd]
    rcases hd.end_cell.2 with ⟨v, hv⟩ | ⟨c, hc, hp⟩
    · exact ⟨.int 0, h0 _ _ hv⟩
    · cases c with
      | cons i => exact ⟨.cons (I i).name, m _ _ hc⟩
      | int v => exact ⟨.int v, m _ _ hc⟩
      | ref => cases hp
      | str => cases hp
      | fn f n =>
        have hlt := g.fnArgs _ _ _ hc
        obtain ⟨ts, hts⟩ := forall₂_exists (R := Agr K) (l := argVals τ (d + 1) n) fun x hx => by
          obtain ⟨i, hi, rfl⟩ := mem_argVals hx
          exact ih _ (by omega)
        exact ⟨.fn (I f).name ts, _, m _ _ hc, hts⟩
      | efn f n =>
        have hlt := g.efnArgs _ _ _ hc
        obtain ⟨ts, hts⟩ := forall₂_exists (R := Agr K) (l := argVals τ (d + 1) n) fun x hx => by
          obtain ⟨i, hi, rfl⟩ := mem_argVals hx
          exact ih _ (by omega)
        exact ⟨.efn (arithNames.getD f []) ts, _, m _ _ hc, hts⟩

/-- A heap without cyclic terms has a finite solution that agrees with a given solution in the first levels. -/
theorem Good.cut {V H size} (g : Good V H size size) {I : Int → FV} (hr : ∀ a, a < size → ∃ t, Reads H a t) {τ : Nat → ITree}
    (m : Mod (toIAlg itreeAlg I) H τ) (K : Nat) (hp : ∀ a, a < size → ∃ t, Agr K (τ a) t) :
    ∃ σ : Nat → Tree, Mod (toIAlg treeAlg I) H σ ∧ ∀ a, a < size → Agr K (τ a) (σ a) := by
  classical
  obtain ⟨σ, m', hω⟩ := solve_finite treeAlg I g.dom hr fun a => if h : ∃ t, Agr K (τ a) t then h.choose else .int 0
  refine ⟨σ, m', fun a ha => ?_⟩
  obtain ⟨t, ht⟩ := hr a ha
  clear ha
  induction ht with
  | @ref a b v t h1 h2 _ ih =>
    rw [show τ a = τ b from m _ _ h1, show σ a = σ b from m' _ _ h1]; exact ih
  | @str a b t h1 _ ih =>
    rw [show τ a = τ b from m _ _ h1, show σ a = σ b from m' _ _ h1]; exact ih
  | @var a v h1 =>
    have he := hp a (g.lt h1)
    rw [hω a v h1, dif_pos he]
    exact he.choose_spec
  | @cons a i h1 =>
    rw [show τ a = itreeAlg.cons (I i).name from m _ _ h1, show σ a = Tree.cons (I i).name from m' _ _ h1]
    cases K <;> first | trivial | rfl
  | @int a i h1 =>
    rw [show τ a = itreeAlg.int i from m _ _ h1, show σ a = Tree.int i from m' _ _ h1]
    cases K <;> first | trivial | rfl
  | @fn a f n ts h1 hl _ ih =>
    rw [show τ a = itreeAlg.fn (I f).name (argVals τ (a + 1) n) from m _ _ h1, show σ a = Tree.fn (I f).name (argVals σ (a + 1) n) from m' _ _ h1]
    refine Agr.pred ⟨_, rfl, forall₂_argVals fun i hi => ?_⟩
    exact ih i _ (List.getElem?_eq_getElem (by omega))
  | @efn a f n ts h1 hl _ ih =>
    rw [show τ a = itreeAlg.efn (arithNames.getD f []) (argVals τ (a + 1) n) from m _ _ h1, show σ a = Tree.efn (arithNames.getD f []) (argVals σ (a + 1) n) from m' _ _ h1]
    refine Agr.pred ⟨_, rfl, forall₂_argVals fun i hi => ?_⟩
    exact ih i _ (List.getElem?_eq_getElem (by omega))

theorem Agr.self : ∀ {K : Nat} (u : Tree), Agr K (u.fold itreeAlg) u := by
  intro K
  induction K with
  | zero => intro u; trivial
  | succ K ih =>
    have all : ∀ us : List Tree, List.Forall₂ (Agr K) (Tree.folds itreeAlg us) us := by
      intro us
      induction us with
      | nil => exact .nil
      | cons u us ih' => exact .cons (ih u) ih'
    intro u
    cases u with
    | cons n => rfl
    | int v => rfl
    | fn f us => exact ⟨_, rfl, all us⟩
    | efn f us => exact ⟨_, rfl, all us⟩

mutual
/-- A finite tree agrees in sufficiently many levels with itself only. -/
theorem Agr.fold_eq : ∀ (u : Tree) {K t}, u.size ≤ K → Agr K (u.fold itreeAlg) t → t = u
  | .cons c, K, t, hK, h => by
    cases K with
    | zero => simp [Tree.size] at hK
    | succ K =>
      cases t with
      | cons n => cases itreeAlg_sharp.cons_inj h; rfl
      | int v => exact absurd h itreeAlg_sharp.cons_int
      | fn f ts => obtain ⟨ds, h, _⟩ := h; exact absurd h itreeAlg_sharp.cons_fn
      | efn f ts => obtain ⟨ds, h, _⟩ := h; exact absurd h itreeAlg_sharp.cons_efn
  | .int v, K, t, hK, h => by
    cases K with
    | zero => simp [Tree.size] at hK
    | succ K =>
      cases t with
      | cons n => exact absurd h.symm itreeAlg_sharp.cons_int
      | int v => cases itreeAlg_sharp.int_inj h; rfl
      | fn f ts => obtain ⟨ds, h, _⟩ := h; exact absurd h itreeAlg_sharp.int_fn
      | efn f ts => obtain ⟨ds, h, _⟩ := h; exact absurd h itreeAlg_sharp.int_efn
  | .fn f us, K, t, hK, h => by
    cases K with
    | zero => simp [Tree.size] at hK
    | succ K =>
      cases t with
      | cons n => exact absurd h.symm itreeAlg_sharp.cons_fn
      | int v => exact absurd h.symm itreeAlg_sharp.int_fn
      | fn g ts =>
        obtain ⟨ds, h, hs⟩ := h
        obtain ⟨rfl, rfl⟩ := itreeAlg_sharp.fn_inj h
        rw [Agr.folds_eq us (by simp only [Tree.size] at hK; omega) hs]
      | efn g ts => obtain ⟨ds, h, _⟩ := h; exact absurd h itreeAlg_sharp.fn_efn
  | .efn f us, K, t, hK, h => by
    cases K with
    | zero => simp [Tree.size] at hK
    | succ K =>
      cases t with
      | cons n => exact absurd h.symm itreeAlg_sharp.cons_efn
      | int v => exact absurd h.symm itreeAlg_sharp.int_efn
      | fn g ts => obtain ⟨ds, h, _⟩ := h; exact absurd h.symm itreeAlg_sharp.fn_efn
      | efn g ts =>
        obtain ⟨ds, h, hs⟩ := h
        obtain ⟨rfl, rfl⟩ := itreeAlg_sharp.efn_inj h
        rw [Agr.folds_eq us (by simp only [Tree.size] at hK; omega) hs]
theorem Agr.folds_eq : ∀ (us : List Tree) {K ts}, Tree.sizes us ≤ K → List.Forall₂ (Agr K) (Tree.folds itreeAlg us) ts → ts = us
  | [], K, ts, _, h => by cases h; rfl
  | u :: us, K, ts, hK, h => by
    simp only [Tree.folds] at h
    simp only [Tree.sizes] at hK
    cases h with
    | cons h1 h2 => rw [Agr.fold_eq u (by omega) h1, Agr.folds_eq us (by omega) h2]
end

theorem Tree.fold_inj {t u : Tree} (h : t.fold itreeAlg = u.fold itreeAlg) : t = u :=
  (Agr.fold_eq t (Nat.le_refl _) (by rw [h]; exact Agr.self u)).symm

mutual
/-- A term without repeated variables matches every tree that looks like one of its instances near the root.  The variables that
stand for small finite trees in the instance keep their values. -/
theorem Node.match_agr {ρ : Name → ITree} {M : Nat} : ∀ (n : Node) {K t}, n.vars.Nodup → n.size + M ≤ K → Agr K (n.eval itreeAlg ρ) t →
    ∃ ρ', n.eval treeAlg ρ' = t ∧ ∀ v ∈ n.vars, ∀ u : Tree, u.size ≤ M → ρ v = u.fold itreeAlg → ρ' v = u
  | .var v, K, t, _, hK, h => by
    refine ⟨fun _ => t, rfl, fun w hw u hu he => ?_⟩
    simp only [Node.vars, List.mem_singleton] at hw
    subst hw
    refine Agr.fold_eq u (show u.size ≤ K by omega) (by rw [← he]; exact h)
  | .cons c, K, t, _, hK, h => by
    cases K with
    | zero => simp [Node.size] at hK
    | succ K =>
      cases t with
      | cons n => cases itreeAlg_sharp.cons_inj h; exact ⟨fun _ => .int 0, rfl, fun v hv => by cases hv⟩
      | int v => exact absurd h itreeAlg_sharp.cons_int
      | fn f ts => obtain ⟨ds, h, _⟩ := h; exact absurd h itreeAlg_sharp.cons_fn
      | efn f ts => obtain ⟨ds, h, _⟩ := h; exact absurd h itreeAlg_sharp.cons_efn
  | .int v, K, t, _, hK, h => by
    cases K with
    | zero => simp [Node.size] at hK
    | succ K =>
      cases t with
      | cons n => exact absurd h.symm itreeAlg_sharp.cons_int
      | int v => cases itreeAlg_sharp.int_inj h; exact ⟨fun _ => .int 0, rfl, fun v hv => by cases hv⟩
      | fn f ts => obtain ⟨ds, h, _⟩ := h; exact absurd h itreeAlg_sharp.int_fn
      | efn f ts => obtain ⟨ds, h, _⟩ := h; exact absurd h itreeAlg_sharp.int_efn
  | .fn f cs, K, t, hn, hK, h => by
    cases K with
    | zero => simp [Node.size] at hK
    | succ K =>
      cases t with
      | cons n => exact absurd h.symm itreeAlg_sharp.cons_fn
      | int v => exact absurd h.symm itreeAlg_sharp.int_fn
      | fn g ts =>
        obtain ⟨ds, h, hs⟩ := h
        obtain ⟨rfl, rfl⟩ := itreeAlg_sharp.fn_inj h
        obtain ⟨ρ', h', hk⟩ := Node.matches_agr (M := M) cs (by simpa [Node.vars] using hn) (by simp only [Node.size] at hK; omega) hs
        exact ⟨ρ', by rw [Node.eval, h']; rfl, hk⟩
      | efn g ts => obtain ⟨ds, h, _⟩ := h; exact absurd h itreeAlg_sharp.fn_efn
  | .efn f cs, K, t, hn, hK, h => by
    cases K with
    | zero => simp [Node.size] at hK
    | succ K =>
      cases t with
      | cons n => exact absurd h.symm itreeAlg_sharp.cons_efn
      | int v => exact absurd h.symm itreeAlg_sharp.int_efn
      | fn g ts => obtain ⟨ds, h, _⟩ := h; exact absurd h.symm itreeAlg_sharp.fn_efn
      | efn g ts =>
        obtain ⟨ds, h, hs⟩ := h
        obtain ⟨rfl, rfl⟩ := itreeAlg_sharp.efn_inj h
        obtain ⟨ρ', h', hk⟩ := Node.matches_agr (M := M) cs (by simpa [Node.vars] using hn) (by simp only [Node.size] at hK; omega) hs
        exact ⟨ρ', by rw [Node.eval, h']; rfl, hk⟩

theorem Node.matches_agr {ρ : Name → ITree} {M : Nat} : ∀ (cs : List Node) {K ts}, (Node.varss cs).Nodup → Node.sizes cs + M ≤ K →
    List.Forall₂ (Agr K) (Node.evals itreeAlg ρ cs) ts →
    ∃ ρ', Node.evals treeAlg ρ' cs = ts ∧ ∀ v ∈ Node.varss cs, ∀ u : Tree, u.size ≤ M → ρ v = u.fold itreeAlg → ρ' v = u
  | [], K, ts, _, _, h => by cases h; exact ⟨fun _ => .int 0, rfl, fun v hv => by cases hv⟩
  | c :: cs, K, ts, hn, hK, h => by
    simp only [Node.evals] at h
    cases h with
    | @cons _ t _ ts h1 h2 =>
      simp only [Node.varss, List.nodup_append] at hn
      obtain ⟨n1, n2, n3⟩ := hn
      simp only [Node.sizes] at hK
      obtain ⟨ρ1, e1, k1⟩ := Node.match_agr (M := M) c n1 (by omega) h1
      obtain ⟨ρ2, e2, k2⟩ := Node.matches_agr (M := M) cs n2 (by omega) h2
      refine ⟨fun v => if v ∈ c.vars then ρ1 v else ρ2 v, ?_, fun v hv u hu he => ?_⟩
      rotate_left
      · by_cases hc : v ∈ c.vars
        · simp only [if_pos hc]; exact k1 v hc u hu he
        · simp only [if_neg hc]
          exact k2 v ((List.mem_append.1 (by simpa [Node.varss] using hv)).resolve_left hc) u hu he
      simp only [Node.evals, List.cons.injEq]
      constructor
      · rw [← e1]
        exact Node.eval_congr _ c fun v hv => if_pos hv
      · rw [← e2]
        exact Node.evals_congr _ cs fun v hv => if_neg fun hc => n3 v hc v hv rfl
end

end PBfs
