import Verif.Spec.Registers
import Verif.Proof.Interp
import Verif.Proof.Turn
/-! # What addresses of a heap denote, relative to the places of the variables of a clause -/
namespace PBfs

/-- Where the variables of a clause are on the heap. -/
abbrev VMap := Name → Option Nat

/-- The values of the variables are the values of their places. -/
def Agree {D} (ν : VMap) (σ : Nat → D) (ρ : Name → D) : Prop := ∀ n a, ν n = some a → σ a = ρ n

def VMap.set (ν : VMap) (n : Name) (a : Nat) : VMap := fun m => if m = n then some a else ν m

theorem VMap.set_same (ν : VMap) (n a) : ν.set n a n = some a := by simp [VMap.set]

theorem VMap.set_ext {ν : VMap} {n a} (h : ν n = none) {m b} (hm : ν m = some b) :
    ν.set n a m = some b := by
  unfold VMap.set
  split
  · subst_vars; simp_all
  · exact hm

theorem agree_set {D} {ν : VMap} {σ : Nat → D} {ρ n a} (h : ν n = none) :
    Agree (ν.set n a) σ ρ ↔ Agree ν σ ρ ∧ σ a = ρ n := by
  constructor
  · intro g
    exact ⟨fun m b hm => g m b (VMap.set_ext h hm), g n a (VMap.set_same ..)⟩
  · rintro ⟨g, g'⟩ m b hm
    unfold VMap.set at hm
    split at hm
    · cases hm; subst_vars; exact g'
    · exact g m b hm

/-- The value of a term from the values of its children. -/
def Node.top {D} (A : Alg D) : Node → List D → Option D
  | .var _, _ => none
  | .cons c, _ => some (A.cons c)
  | .int v, _ => some (A.int v)
  | .fn f _, ds => some (A.fn f ds)
  | .efn f _, ds => some (A.efn f ds)

theorem Node.evals_eq_map {D} (A : Alg D) (ρ : Name → D) (cs : List Node) :
    Node.evals A ρ cs = cs.map (Node.eval A ρ) := by
  induction cs with
  | nil => rfl
  | cons c cs ih => simp [Node.evals, ih]

theorem Node.eval_top {D} (A : Alg D) (ρ : Name → D) {n : Node} (h : n.isVar = false) :
    n.top A (Node.evals A ρ n.children) = some (n.eval A ρ) := by
  cases n <;> simp_all [Node.top, Node.eval, Node.isVar, Node.children]

/-- The cell `c` of an instruction stands for the outermost symbol of `n`. -/
def CellIs (I : Int → FV) : Cell → Node → Prop
  | .cons i, .cons c => I i = ⟨c, 0⟩
  | .int v, .int w => v = w
  | .fn i k, .fn f cs => I i = ⟨f, k⟩ ∧ k = cs.length
  | .efn i k, .efn f cs => arithNames.getD i [] = f ∧ k = 2 ∧ cs.length = 2
  | _, _ => False

theorem Node.wfs_iff {cs : List Node} : Node.wfs cs = true ↔ ∀ c ∈ cs, c.wf = true := by
  induction cs with
  | nil => simp [Node.wfs]
  | cons c cs ih => simp [Node.wfs, ih]

theorem Node.wf_child {n c : Node} (h : n.wf = true) (hc : c ∈ n.children) : c.wf = true := by
  cases n <;> simp_all [Node.wf, Node.children]
  · exact Node.wfs_iff.1 h.2 c hc
  · exact Node.wfs_iff.1 h.2 c hc

theorem cellEq_iff {D} {A : Alg D} {I σ a c} {n : Node} (h : CellIs I c n) :
    CellEq (toIAlg A I) σ a c ↔ n.top A (argVals σ (a + 1) n.children.length) = some (σ a) := by
  unfold CellIs at h
  split at h
  · simp [CellEq, toIAlg, h, Node.top, eq_comm]
  · simp [CellEq, toIAlg, h, Node.top, eq_comm]
  · simp [CellEq, toIAlg, h, Node.top, Node.children, eq_comm]
  · obtain ⟨h1, h2, h3⟩ := h
    subst h2; subst h1
    simp [CellEq, toIAlg, h3, Node.top, Node.children, eq_comm]
  · exact h.elim

theorem indexOf?_get {α} [DecidableEq α] {x : α} : ∀ {l : List α} {i : Nat}, indexOf? x l = some i → l[i]? = some x
  | [], i, h => by simp [indexOf?] at h
  | y :: ys, i, h => by
    unfold indexOf? at h
    split at h
    · cases h; subst_vars; rfl
    · simp only [Option.map_eq_some_iff] at h
      obtain ⟨j, hj, rfl⟩ := h
      simpa using indexOf?_get hj

theorem indexOf?_none {α} [DecidableEq α] {x : α} : ∀ {l : List α}, indexOf? x l = none ↔ x ∉ l
  | [] => by simp [indexOf?]
  | y :: ys => by
    unfold indexOf?
    split
    · subst_vars; simp
    · rename_i h
      simp [indexOf?_none (l := ys), h]

theorem functorIndexOf_spec {s s' : Storage} {f i} (h : s.functorIndexOf f = (i, s')) :
    StLe s s' ∧ ∃ k : Nat, s'.functors[k]? = some f ∧ i = toShort k := by
  unfold Storage.functorIndexOf at h
  split at h
  · rename_i k hk
    cases h
    exact ⟨.refl _, _, indexOf?_get hk, rfl⟩
  · cases h
    exact ⟨⟨List.prefix_append .., List.prefix_refl _⟩, _, by simp, rfl⟩

theorem pushBackVar_spec {s s' : Storage} {n i} (h : s.pushBackVar n = (i, s')) :
    StLe s s' ∧ ∃ k : Nat, k < s'.vars.length ∧ i = toShort k := by
  unfold Storage.pushBackVar at h
  cases h
  exact ⟨⟨List.prefix_refl _, List.prefix_append ..⟩, _, by simp, rfl⟩

theorem pushBackVar_valid {s s' st : Storage} {n i} (h : s.pushBackVar n = (i, s')) (hs : StLe s' st) (a : Nat) :
    ValidCell st (.ref a i) := by
  obtain ⟨_, k, hk, rfl⟩ := pushBackVar_spec h
  exact ⟨k, by have := hs.2.length_le; omega, rfl⟩

theorem structCell_spec {n : Node} {g c g'} (h : structCell n g = .ok (c, g')) (hw : n.wf = true) :
    StLe g.st g'.st ∧ ∀ {st I}, StLe g'.st st → Interp I st → CellIs I c n ∧ ValidCell st c := by
  cases n with
  | var => cases h
  | int v =>
    simp only [structCell, stoi, bind_ok, pure_ok] at h
    obtain ⟨v', hv, h⟩ := h
    split at hv
    · cases hv; cases h
      exact ⟨.refl _, fun _ _ => ⟨rfl, by assumption⟩⟩
    · cases hv
  | cons n =>
    simp only [structCell, pure_ok] at h
    cases h
    obtain ⟨h1, k, hk, hi⟩ := functorIndexOf_spec (s := g.st) (f := ⟨n, 0⟩) (Prod.eta _).symm
    refine ⟨h1, fun hst hI => ?_⟩
    have hk' := prefix_getElem? hst.1 hk
    rw [hi]
    exact ⟨hI _ _ hk', _, _, hk', rfl, rfl⟩
  | fn f cs =>
    simp only [structCell, pure_ok] at h
    cases h
    obtain ⟨h1, k, hk, hi⟩ := functorIndexOf_spec (s := g.st) (f := ⟨f, cs.length⟩) (Prod.eta _).symm
    refine ⟨h1, fun hst hI => ?_⟩
    have hk' := prefix_getElem? hst.1 hk
    rw [hi]
    refine ⟨⟨hI _ _ hk', rfl⟩, _, _, hk', rfl, rfl, fun h0 => ?_⟩
    simp only [List.length_eq_zero_iff] at h0
    subst h0
    simpa [Node.wf, Node.wfs] using hw
  | efn f cs =>
    simp only [structCell] at h
    split at h
    · rename_i i hi
      simp only [pure_ok] at h
      cases h
      have hg := indexOf?_get hi
      refine ⟨.refl _, fun _ _ => ⟨⟨?_, rfl, ?_⟩, ?_, rfl⟩⟩
      · rw [List.getD_eq_getElem?_getD, hg]; rfl
      · simp only [Node.wf, Bool.and_eq_true, beq_iff_eq] at hw; exact hw.1
      · exact (List.getElem?_eq_some_iff.1 hg).1
    · cases h

/-- Address `a` denotes the term `n`. -/
def Den (I : Int → FV) (H : HV) (ν : VMap) (a : Nat) (n : Node) : Prop :=
  ∀ (D : Type) (A : Alg D) (σ : Nat → D) (ρ : Name → D),
    Mod (toIAlg A I) H σ → Agree ν σ ρ → σ a = n.eval A ρ

/-- Everything that holds in `H'` with `ν'` holds in `H` with `ν`. -/
def SemLe (H : HV) (ν : VMap) (H' : HV) (ν' : VMap) (I : Int → FV) : Prop :=
  ∀ (D : Type) (A : Alg D) (σ : Nat → D) (ρ : Name → D),
    Mod (toIAlg A I) H' σ → Agree ν' σ ρ → Mod (toIAlg A I) H σ ∧ Agree ν σ ρ

theorem SemLe.refl {H ν I} : SemLe H ν H ν I := fun _ _ _ _ m g => ⟨m, g⟩

theorem SemLe.trans {H ν H' ν' H'' ν'' I} (h : SemLe H ν H' ν' I) (h' : SemLe H' ν' H'' ν'' I) :
    SemLe H ν H'' ν'' I := fun D A σ ρ m g =>
  have ⟨m', g'⟩ := h' D A σ ρ m g
  h D A σ ρ m' g'

theorem Den.mono {I H ν H' ν' a n} (h : Den I H ν a n) (s : SemLe H ν H' ν' I) : Den I H' ν' a n :=
  fun D A σ ρ m g =>
    have ⟨m', g'⟩ := s D A σ ρ m g
    h D A σ ρ m' g'

mutual
theorem Node.beq_eq : ∀ {a b : Node}, Node.beq a b = true → a = b
  | .var a, .var b, h => by simpa [Node.beq] using h
  | .cons a, .cons b, h => by simpa [Node.beq] using h
  | .int a, .int b, h => by simpa [Node.beq] using h
  | .fn a as, .fn b bs, h => by
    simp only [Node.beq, Bool.and_eq_true, beq_iff_eq] at h
    rw [h.1, Node.beqs_eq h.2]
  | .efn a as, .efn b bs, h => by
    simp only [Node.beq, Bool.and_eq_true, beq_iff_eq] at h
    rw [h.1, Node.beqs_eq h.2]
  | .var _, .cons _, h => by simp [Node.beq] at h
  | .var _, .int _, h => by simp [Node.beq] at h
  | .var _, .fn _ _, h => by simp [Node.beq] at h
  | .var _, .efn _ _, h => by simp [Node.beq] at h
  | .cons _, .var _, h => by simp [Node.beq] at h
  | .cons _, .int _, h => by simp [Node.beq] at h
  | .cons _, .fn _ _, h => by simp [Node.beq] at h
  | .cons _, .efn _ _, h => by simp [Node.beq] at h
  | .int _, .var _, h => by simp [Node.beq] at h
  | .int _, .cons _, h => by simp [Node.beq] at h
  | .int _, .fn _ _, h => by simp [Node.beq] at h
  | .int _, .efn _ _, h => by simp [Node.beq] at h
  | .fn _ _, .var _, h => by simp [Node.beq] at h
  | .fn _ _, .cons _, h => by simp [Node.beq] at h
  | .fn _ _, .int _, h => by simp [Node.beq] at h
  | .fn _ _, .efn _ _, h => by simp [Node.beq] at h
  | .efn _ _, .var _, h => by simp [Node.beq] at h
  | .efn _ _, .cons _, h => by simp [Node.beq] at h
  | .efn _ _, .int _, h => by simp [Node.beq] at h
  | .efn _ _, .fn _ _, h => by simp [Node.beq] at h
theorem Node.beqs_eq : ∀ {as bs : List Node}, Node.beqs as bs = true → as = bs
  | [], [], _ => rfl
  | a :: as, b :: bs, h => by
    simp only [Node.beqs, Bool.and_eq_true] at h
    rw [Node.beq_eq h.1, Node.beqs_eq h.2]
  | [], _ :: _, h => by simp [Node.beqs] at h
  | _ :: _, [], h => by simp [Node.beqs] at h
end

mutual
theorem Node.beq_refl : ∀ (a : Node), Node.beq a a = true
  | .var a => by simp [Node.beq]
  | .cons a => by simp [Node.beq]
  | .int a => by simp [Node.beq]
  | .fn a as => by simp [Node.beq, Node.beqs_refl as]
  | .efn a as => by simp [Node.beq, Node.beqs_refl as]
theorem Node.beqs_refl : ∀ (as : List Node), Node.beqs as as = true
  | [] => rfl
  | a :: as => by simp [Node.beqs, Node.beq_refl a, Node.beqs_refl as]
end

instance : DecidableEq Node := fun a b =>
  if h : Node.beq a b = true then isTrue (Node.beq_eq h)
  else isFalse fun e => h (e ▸ Node.beq_refl a)

end PBfs
