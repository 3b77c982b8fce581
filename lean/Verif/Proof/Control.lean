import Verif.Proof.Frames3
/-! # Executors as lists of frames

A pending executor works on a list of frames, one for every clause (and finally the query) that has not
been finished; each frame consists of the remaining goals of the clause and the places of its variables. -/
namespace PBfs

/-- A partly executed clause or query. -/
structure Fr where
  yOf : Name → Option Nat
  ny : Nat
  query : Bool
  env : List Cell
  ν : VMap
  S : Sym
  codes : List CAtom
  atoms : List Node

/-- The code pointers of a frame. -/
def Fr.tcodes (g : Nat) (fr : Fr) : List TCode :=
  if fr.query then fr.codes.map (⟨0, ·⟩) else (fr.codes ++ deallocAtoms fr.ny).map (⟨g, ·⟩)

/-- The permanent registers of a frame. -/
def Fr.envs (fr : Fr) : List (List Cell) := if fr.ny = 0 then [] else [fr.env]

/-- Solutions of `H'` are solutions of `H`. -/
def ModLe (I : Int → FV) (H H' : HV) : Prop :=
  ∀ (D : Type) (A : Alg D) (σ : Nat → D), Mod (toIAlg A I) H' σ → Mod (toIAlg A I) H σ

theorem ModLe.refl {I H} : ModLe I H H := fun _ _ _ h => h

theorem ModLe.trans {I H H' H''} (h : ModLe I H H') (h' : ModLe I H' H'') : ModLe I H H'' :=
  fun D A σ m => h D A σ (h' D A σ m)

theorem ModLe.sem {I H H'} (h : ModLe I H H') {ν} : SemLe H ν H' ν I := fun D A σ _ m a => ⟨h D A σ m, a⟩

/-- A frame that waits for the end of a called goal. -/
structure FrOK (st : Storage) (I : Int → FV) (H : HV) (size : Nat) (fr : Fr) : Prop where
  sem : FrameSem st I fr.yOf fr.ny fr.S fr.codes fr.atoms
  ylt : ∀ n y, fr.yOf n = some y → y < fr.ny
  yinj : ∀ n m y, fr.yOf n = some y → fr.yOf m = some y → n = m
  pl : ∀ n, n ∈ fr.S.pl ↔ (fr.ν n).isSome
  νlt : ∀ n a, fr.ν n = some a → a < size
  env : fr.ny ≠ 0 → fr.env.length = fr.ny
  y : ∀ n y, fr.yOf n = some y → n ∈ fr.S.pl → ∃ cell b, fr.env[y]? = some cell ∧ cell.ptr = some b ∧ b < size ∧
    ValidCell st cell ∧ Den I H fr.ν b (.var n)
  idle : ∀ r, fr.S.x r = none
  fq : ∀ c ∈ fr.codes, c.fromQuery = fr.query

theorem FrOK.mono {st I H size fr H' size'} (h : FrOK st I H size fr) (m : ModLe I H H') (hs : size ≤ size') :
    FrOK st I H' size' fr :=
  { h with
    νlt := fun n a ha => Nat.lt_of_lt_of_le (h.νlt n a ha) hs
    y := fun n y hy hp => by
      obtain ⟨cell, b, h1, h2, h3, h4, h5⟩ := h.y n y hy hp
      exact ⟨cell, b, h1, h2, Nat.lt_of_lt_of_le h3 hs, h4, h5.mono m.sem⟩ }

/-- The waiting frames of an executor; the last one is the query. -/
inductive FrsOK (st : Storage) (I : Int → FV) (g : Nat) (H : HV) (size : Nat) : List Fr → Prop
  | query {fr} : fr.query = true → FrOK st I H size fr → FrsOK st I g H size [fr]
  | cons {fr fs} : fr.query = false → fr.tcodes g ≠ [] → FrOK st I H size fr → FrsOK st I g H size fs →
      FrsOK st I g H size (fr :: fs)

theorem FrsOK.mono {st I g H size fs H' size'} (h : FrsOK st I g H size fs) (m : ModLe I H H') (hs : size ≤ size') :
    FrsOK st I g H' size' fs := by
  induction h with
  | query h1 h2 => exact .query h1 (h2.mono m hs)
  | cons h1 h2 h3 _ ih => exact .cons h1 h2 (h3.mono m hs) ih

/-- The frames of a frame list on the stacks of an executor. -/
abbrev codesOf (g : Nat) (fs : List Fr) : List TCode := fs.flatMap (Fr.tcodes g)
abbrev envsOf (fs : List Fr) : List (List Cell) := fs.flatMap Fr.envs

/-- The goals that are left, given the values of the variables: those of the query have the values `ρq`. -/
inductive Goals {D} (A : Alg D) (σ : Nat → D) (ρq : Name → D) : List Fr → List (GAtom D) → Prop
  | nil : Goals A σ ρq [] []
  | cons {fr fs gs} (ρ : Name → D) : Agree fr.ν σ ρ → (fr.query = true → ρ = ρq) → Goals A σ ρq fs gs →
      Goals A σ ρq (fr :: fs) (fr.atoms.map (Node.inst A ρ) ++ gs)

theorem Goals.congr {D} {A : Alg D} {σ σ' : Nat → D} {ρq fs gs st I g H size} (ok : FrsOK st I g H size fs)
    (h : ∀ a, a < size → σ' a = σ a) (hg : Goals A σ ρq fs gs) : Goals A σ' ρq fs gs := by
  induction ok generalizing gs with
  | query h1 h2 =>
    cases hg with
    | cons ρ a b c =>
      cases c
      exact .cons ρ (fun n k hk => (h k (h2.νlt n k hk)).trans (a n k hk)) b .nil
  | cons h1 h2 h3 _ ih =>
    cases hg with
    | cons ρ a b c => exact .cons ρ (fun n k hk => (h k (h3.νlt n k hk)).trans (a n k hk)) b (ih c)

/-- A frame that became empty is not put back. -/
def pushFr (g : Nat) (fr : Fr) (fs : List Fr) : List Fr :=
  if fr.query = false ∧ fr.tcodes g = [] then fs else fr :: fs

theorem Fr.tcodes_nil {g fr} (hq : fr.query = false) (h : Fr.tcodes g fr = []) : fr.codes = [] ∧ fr.ny = 0 := by
  simp only [Fr.tcodes, hq, Bool.false_eq_true, if_false, List.map_eq_nil_iff, List.append_eq_nil_iff] at h
  refine ⟨h.1, ?_⟩
  have h2 := h.2
  unfold deallocAtoms at h2
  split at h2
  · assumption
  · cases h2

theorem codesOf_push {g fr fs} : codesOf g (pushFr g fr fs) = fr.tcodes g ++ codesOf g fs := by
  unfold pushFr
  split
  · rename_i h; simp [h.2]
  · simp

theorem envsOf_push {g fr fs} : envsOf (pushFr g fr fs) = fr.envs ++ envsOf fs := by
  unfold pushFr
  split
  · rename_i h
    simp [Fr.envs, (Fr.tcodes_nil h.1 h.2).2]
  · simp

theorem FrameSem.nil_iff {st I yOf ny S cs as} (h : FrameSem st I yOf ny S cs as) : cs = [] ↔ as = [] := by
  cases h <;> simp

theorem exists_agree {D} (d : D) (ν : VMap) (σ : Nat → D) : ∃ ρ, Agree ν σ ρ := by
  refine ⟨fun n => match ν n with
    | some a => σ a
    | none => d, fun n a h => by simp [h]⟩

theorem goals_push {D} {A : Alg D} {σ : Nat → D} {ρq g fr fs gs} (he : fr.codes = [] → fr.atoms = []) :
    Goals A σ ρq (pushFr g fr fs) gs ↔ Goals A σ ρq (fr :: fs) gs := by
  unfold pushFr
  split
  · rename_i h
    have hn := he (Fr.tcodes_nil h.1 h.2).1
    constructor
    · intro hg
      obtain ⟨ρ, hρ⟩ := exists_agree (A.int 0) fr.ν σ
      have := Goals.cons (A := A) (ρq := ρq) (fr := fr) ρ hρ (by simp [h.1]) hg
      rw [hn] at this
      simpa using this
    · intro hg
      cases hg with
      | cons ρ a b c => rw [hn]; simpa using c
  · rfl

theorem FrsOK.push {st I g H size fr fs} (hf : FrOK st I H size fr)
    (ht : (fr.query = true ∧ fs = []) ∨ (fr.query = false ∧ FrsOK st I g H size fs)) : FrsOK st I g H size (pushFr g fr fs) := by
  unfold pushFr
  rcases ht with ⟨h1, rfl⟩ | ⟨h1, h2⟩
  · rw [if_neg (by simp [h1])]; exact .query h1 hf
  · split
    · exact h2
    · rename_i h
      exact .cons h1 (fun h' => h ⟨h1, h'⟩) hf h2

/-- The ground atom called with these arguments. -/
def gAtom {D} (f : FV) (vals : List D) : GAtom D := ⟨f.name, vals.take f.arity⟩

theorem evals_length {D} (A : Alg D) (ρ : Name → D) (cs : List Node) : (Node.evals A ρ cs).length = cs.length := by
  rw [Node.evals_eq_map]; simp

theorem gAtom_inst {D} {A : Alg D} {ρ : Name → D} {n : Node} (hg : n.goal = true) :
    gAtom n.fv (Node.evals A ρ (atomArgs n)) = n.inst A ρ := by
  cases n with
  | cons c => rfl
  | fn f cs => simp [gAtom, Node.inst, Node.fv, atomArgs, Node.children, List.take_of_length_le, evals_length]
  | efn f cs => simp [gAtom, Node.inst, Node.fv, atomArgs, Node.children, List.take_of_length_le, evals_length]
  | _ => cases hg

theorem atomArgs_length {n : Node} (hg : n.goal = true) : (atomArgs n).length = max 1 n.fv.arity := by
  cases n with
  | cons c => rfl
  | fn f cs =>
    cases cs with
    | nil => cases hg
    | cons c cs => simp [atomArgs, Node.children, Node.fv]
  | efn f cs =>
    cases cs with
    | nil => cases hg
    | cons c cs => simp [atomArgs, Node.children, Node.fv]
  | _ => cases hg

/-- The arguments of a call are those of an instance of the head. -/
theorem evals_of_gAtom {D} {A : Alg D} {ρ : Name → D} {n : Node} (hg : n.goal = true) {vals : List D}
    (hl : vals.length = max 1 n.fv.arity) (h0 : n.fv.arity = 0 → vals = [A.cons n.name])
    (h : gAtom n.fv vals = n.inst A ρ) : vals = Node.evals A ρ (atomArgs n) := by
  have fnc : ∀ cs : List Node, cs ≠ [] → n.children = cs → atomArgs n = cs → vals = Node.evals A ρ (atomArgs n) := by
    intro cs hne hc ha
    have : cs.length ≠ 0 := by simpa using hne
    simp only [gAtom, Node.inst, Node.fv, GAtom.mk.injEq, true_and, hc] at h
    simp only [Node.fv, hc] at hl
    rw [List.take_of_length_le (by omega)] at h
    rw [ha]; exact h
  cases n with
  | cons c => rw [h0 rfl]; rfl
  | fn f cs => exact fnc cs (by rintro rfl; cases hg) rfl rfl
  | efn f cs => exact fnc cs (by rintro rfl; cases hg) rfl rfl
  | _ => cases hg

/-- The state in which the code of a clause is started: a goal `f` with arguments `ps`, and frames waiting
for its end. -/
structure Callee (st : Storage) (I : Int → FV) (g : Nat) (H : HV) (size : Nat) (regs : List Cell)
    (envs : List (List Cell)) (rest : List TCode) (f : FV) (ps : List Nat) (fs : List Fr) : Prop where
  good : Good (ValidCell st) H size size
  args : ∀ (i p : Nat), ps[i]? = some p → p < size ∧ ∃ cell, regs[i]? = some cell ∧ cell.ptr = some p ∧ ValidCell st cell
  len : ps.length = max 1 f.arity
  const : f.arity = 0 → ∀ (D : Type) (A : Alg D) (σ : Nat → D), Mod (toIAlg A I) H σ → ps.map σ = [A.cons f.name]
  frs : FrsOK st I g H size fs
  rest : rest = codesOf g fs
  envs : envs = envsOf fs

/-- An executor that is about to execute a goal or a `deallocate`. -/
structure Resume (st : Storage) (I : Int → FV) (g : Nat) (pre : Nat → Option Cell) (e : Exec) (fr : Fr) (fs : List Fr) : Prop where
  tail : (fr.query = true ∧ fs = []) ∨ (fr.query = false ∧ FrsOK st I g (e.hp.at? pre) e.hp.size fs)
  good : Good (ValidCell st) (e.hp.at? pre) e.hp.size e.hp.size
  codes : e.codes = fr.tcodes g ++ codesOf g fs
  ne : fr.tcodes g ≠ []
  envs : e.envs = fr.envs ++ envsOf fs
  sem : FrameSem st I fr.yOf fr.ny fr.S fr.codes fr.atoms
  ylt : ∀ n y, fr.yOf n = some y → y < fr.ny
  yinj : ∀ n m y, fr.yOf n = some y → fr.yOf m = some y → n = m
  rel : ∀ c cs, fr.codes = c :: cs → QRel ⟨st, I, pre, fr.yOf, fr.ny, c.regCount⟩ fr.ν fr.S
    { e with regs := Org.resize c.regCount e.regs } e.hp.size
  fq : ∀ c ∈ fr.codes, c.fromQuery = fr.query
  live : ∃ f ∈ fr :: fs, f.atoms ≠ []
  state : e.state = .running

theorem resize_length (n : Nat) (l : List Cell) : (Org.resize n l).length = n := by
  simp only [Org.resize, List.length_append, List.length_take, List.length_replicate]; omega

theorem resize_same {n : Nat} {l : List Cell} (h : l.length = n) : Org.resize n l = l := by
  subst h; simp [Org.resize]

theorem resize_get {n : Nat} {l : List Cell} {i : Nat} {c : Cell} (h : l[i]? = some c) (hi : i < n) : (Org.resize n l)[i]? = some c := by
  unfold Org.resize
  have := (List.getElem?_eq_some_iff.1 h).1
  rw [List.getElem?_append_left (by simp; omega), List.getElem?_take, if_pos hi]
  exact h

/-- Choosing for every element of a list. -/
theorem list_choice {α β} {Q : Nat → α → β → Prop} : ∀ {l : List α} {k : Nat},
    (∀ (i : Nat) x, l[i]? = some x → ∃ y, Q (k + i) x y) →
    ∃ ys : List β, ys.length = l.length ∧ ∀ (i : Nat) y, ys[i]? = some y → ∃ x, l[i]? = some x ∧ Q (k + i) x y := by
  intro l
  induction l with
  | nil => intro k _; exact ⟨[], rfl, by simp⟩
  | cons a l ih =>
    intro k h
    obtain ⟨y, hy⟩ := h 0 a rfl
    obtain ⟨ys, h1, h2⟩ := ih (k := k + 1) fun i x hx => by
      have := h (i + 1) x (by simpa using hx)
      rwa [show k + (i + 1) = k + 1 + i by omega] at this
    refine ⟨y :: ys, by simp [h1], ?_⟩
    intro i z hz
    cases i with
    | zero => cases hz; exact ⟨a, rfl, hy⟩
    | succ i =>
      obtain ⟨x, hx, hq⟩ := h2 i z (by simpa using hz)
      exact ⟨x, by simpa using hx, by rwa [show k + (i + 1) = k + 1 + i by omega]⟩

/-- The arguments of a call, after the code of a goal has run. -/
theorem goal_args {Γ : QCtx} {ν S e lim} (q : QRel Γ ν S e lim) {args : List Node} (ha : ∀ i n, args[i]? = some n → S.x i = some n) :
    ∃ ps : List Nat, ps.length = args.length ∧ (∀ (i p : Nat), ps[i]? = some p → p < e.hp.size ∧ ∃ cell, e.regs[i]? = some cell ∧
      cell.ptr = some p ∧ ValidCell Γ.st cell) ∧
      ∀ (D : Type) (A : Alg D) (σ : Nat → D) (ρ : Name → D), Mod (toIAlg A Γ.I) (Γ.H e) σ → Agree ν σ ρ →
        ps.map σ = Node.evals A ρ args := by
  obtain ⟨ps, h1, h2⟩ := list_choice (l := args) (k := 0)
    (Q := fun i n p => ∃ cell, e.regs[i]? = some cell ∧ cell.ptr = some p ∧ p < e.hp.size ∧ ValidCell Γ.st cell ∧ Den Γ.I (Γ.H e) ν p n) (by
      intro i n hi
      obtain ⟨cell, c1, b, c2, c3, c4, c5⟩ := q.x i n (ha i n hi)
      exact ⟨b, cell, by simpa using c1, c2, c3, c4, c5⟩)
  refine ⟨ps, h1, ?_, ?_⟩
  · intro i p hp
    obtain ⟨n, _, cell, c1, c2, c3, c4, _⟩ := h2 i p hp
    exact ⟨c3, cell, by simpa using c1, c2, c4⟩
  · intro D A σ ρ m g
    rw [Node.evals_eq_map]
    refine List.ext_getElem? fun i => ?_
    rw [List.getElem?_map, List.getElem?_map]
    cases hp : ps[i]? with
    | none =>
      rw [List.getElem?_eq_none_iff] at hp
      rw [List.getElem?_eq_none (by omega)]
      rfl
    | some p =>
      obtain ⟨n, hn, cell, _, _, _, _, c5⟩ := h2 i p hp
      rw [hn]
      exact congrArg some (c5 D A σ ρ m g)

/-- The frame left behind by a goal. -/
theorem QRel.frame {st I pre} {yOf : Name → Option Nat} {ny nr ν S e env cs as q} (r : QRel ⟨st, I, pre, yOf, ny, nr⟩ ν S e e.hp.size)
    (sem : FrameSem st I yOf ny S.next cs as) (ylt : ∀ n y, yOf n = some y → y < ny)
    (yinj : ∀ n m y, yOf n = some y → yOf m = some y → n = m)
    (henv : ny ≠ 0 → ∃ rest, e.envs = env :: rest) (hfq : ∀ c ∈ cs, c.fromQuery = q) :
    FrOK st I (e.hp.at? pre) e.hp.size ⟨yOf, ny, q, env, ν, S.next, cs, as⟩ where
  sem := sem
  ylt := ylt
  yinj := yinj
  pl := r.pl
  νlt := r.νlt
  env h := by
    obtain ⟨env', rest, h1, h2⟩ := r.env h
    obtain ⟨rest', h3⟩ := henv h
    rw [h3] at h1; cases h1; exact h2
  y n y hy hp := by
    obtain ⟨cell, h1, b, h2, h3, h4, h5⟩ := r.y n y hy hp
    have := ylt n y hy
    obtain ⟨rest, h6⟩ := henv (by omega)
    simp only [Exec.perm, h6, orFault_ok] at h1
    exact ⟨cell, b, h1, h2, h3, h4, h5⟩
  idle r := rfl
  fq := hfq

theorem Build.modLe {Γ ν e ν' e'} (b : Build Γ ν e ν' e') : ModLe Γ.I (Γ.H e) (Γ.H e') := by
  intro D A σ m
  obtain ⟨ρ, hρ⟩ := exists_agree (A.int 0) ν' σ
  exact (b.sem D A σ ρ m hρ).1

end PBfs
