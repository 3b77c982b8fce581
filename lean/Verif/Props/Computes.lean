import Verif.Spec.Computes
import Verif.Props.Spoken
/-! # C83: programs that compute and compare -/
namespace PBfs
open Org

section
variable {M : Modes} {p : List Clause} {atoms : List Node}

/-! ## What is known -/

def GAtom.ins (M : Modes) (g : GAtom ITree) : List ITree := pick (M.ins g.fv) g.args
def GAtom.outs (M : Modes) (g : GAtom ITree) : List ITree := pick (M.outs g.fv) g.args

/-- The inputs of the first goals are the same, and those of later goals if the outputs before are. -/
def Akin (M : Modes) : List (GAtom ITree) → List (GAtom ITree) → Prop
  | g :: gs, g' :: gs' => g.ins M = g'.ins M ∧ (g.outs M = g'.outs M → Akin M gs gs')
  | _, _ => True

theorem inst_ins {a : Node} {σ : Name → ITree} : (a.inst itreeAlg σ).ins M = Node.evals itreeAlg σ (pick (M.ins a.fv) a.children) := by
  unfold GAtom.ins
  rw [head_fv]
  exact pick_evals _ _ _ _

theorem inst_outs {a : Node} {σ : Name → ITree} : (a.inst itreeAlg σ).outs M = Node.evals itreeAlg σ (pick (M.outs a.fv) a.children) := by
  unfold GAtom.outs
  rw [head_fv]
  exact pick_evals _ _ _ _

theorem chain_alike {R : List Name} {σ σ' : Name → ITree} {rest rest' : List (GAtom ITree)} (hr : (∀ v ∈ R, σ v = σ' v) → Akin M rest rest') :
    ∀ {as : List Node} {G : List Name}, M.Chain R G as → (∀ v ∈ G, σ v = σ' v) →
      Akin M (as.map (Node.inst itreeAlg σ) ++ rest) (as.map (Node.inst itreeAlg σ') ++ rest')
  | [], G, hc, hG => hr fun v hv => hG v (hc v hv)
  | a :: as, G, hc, hG => by
    refine ⟨?_, fun ho => chain_alike hr hc.2 fun v hv => ?_⟩
    · rw [inst_ins, inst_ins]
      exact Node.evals_congr _ _ fun v hv => hG v (hc.1 v hv)
    · rcases List.mem_append.1 hv with hv | hv
      · rw [inst_outs, inst_outs] at ho
        exact Node.evals_inj itreeAlg_sharp _ ho v hv
      · exact hG v hv

/-- These predicates are to be called, and what is known of their inputs is known in all instances. -/
structure Steady (M : Modes) (p : List Clause) (atoms : List Node) (fs : List FV) (S : Insts) : Prop where
  may : ∀ f ∈ fs, MayCall p atoms f
  fvs : ∀ ρ gs, S ρ gs → gs.map GAtom.fv = fs
  alike : ∀ ρ gs ρ' gs', S ρ gs → S ρ' gs' → Akin M gs gs'

def SItem.Moded (M : Modes) (p : List Clause) (atoms : List Node) : SItem → Prop
  | .goals ts S => Steady M p atoms (calls ts) S
  | .clause c ts S => c ∈ inForce p ∧ Steady M p atoms (c.head.fv :: calls ts) S
  | .own f ts S => Steady M p atoms (f :: calls ts) S

theorem Steady.query (h : Directed M p atoms) : Steady M p atoms (atoms.map (·.fv)) (Insts.query atoms) where
  may f hf := by
    obtain ⟨a, ha, rfl⟩ := List.mem_map.1 hf
    exact .query ha
  fvs ρ gs hs := by rw [hs, inst_fvs]
  alike ρ gs ρ' gs' hs hs' := by
    rw [hs, hs']
    have := chain_alike (M := M) (R := []) (σ := ρ) (σ' := ρ') (rest := []) (rest' := []) (fun _ => trivial) h.query (by simp)
    simpa using this

theorem Steady.enter (h : Directed M p atoms) {c : Clause} (hc : c ∈ inForce p) {fs S} (hS : Steady M p atoms (c.head.fv :: fs) S) :
    Steady M p atoms (c.body.map (·.fv) ++ fs) (S.enter c) where
  may f hf := by
    rcases List.mem_append.1 hf with hf | hf
    · obtain ⟨b, hb, rfl⟩ := List.mem_map.1 hf
      exact .body hc (hS.may _ (.head _)) hb
    · exact hS.may f (.tail _ hf)
  fvs := by
    rintro ρ gs ⟨σ, rest, hs, rfl⟩
    have := hS.fvs _ _ hs
    simp only [List.map_cons, List.cons.injEq] at this
    rw [List.map_append, inst_fvs, this.2]
  alike := by
    rintro ρ gs ρ' gs' ⟨σ, rest, hs, rfl⟩ ⟨σ', rest', hs', rfl⟩
    obtain ⟨h1, h2⟩ := hS.alike _ _ _ _ hs hs'
    refine chain_alike (fun hR => h2 ?_) (h.clauses c hc (hS.may _ (.head _))) fun v hv => ?_
    · rw [inst_outs, inst_outs]
      exact Node.evals_congr _ _ hR
    · rw [inst_ins, inst_ins] at h1
      exact Node.evals_inj itreeAlg_sharp _ h1 v hv

theorem Steady.args (hS : Steady M p atoms (⟨n, 2⟩ :: fs) S) {ρ g gs} (hs : S ρ (g :: gs)) : ∃ d e, g = ⟨n, [d, e]⟩ := by
  have := hS.fvs _ _ hs
  simp only [List.map_cons, List.cons.injEq] at this
  exact two_args this.1

theorem two_ins {n : Name} {d e : ITree} (i : Nat) (hi : M.ins ⟨n, 2⟩ i = true) {d' e' : ITree} (h : GAtom.ins M ⟨n, [d, e]⟩ = GAtom.ins M ⟨n, [d', e']⟩) :
    [d, e][i]? = [d', e'][i]? :=
  pick_get (J := M.ins ⟨n, 2⟩) (l := [d, e]) (m := [d', e']) rfl h i hi

/-- The second argument is an input. -/
theorem Steady.second (hS : Steady M p atoms (⟨n, 2⟩ :: fs) S) (hi : M.ins ⟨n, 2⟩ 1 = true) {ρ n1 d e gs ρ' n2 d' e' gs'} (hs : S ρ (⟨n1, [d, e]⟩ :: gs))
    (hs' : S ρ' (⟨n2, [d', e']⟩ :: gs')) : e = e' := by
  obtain ⟨_, _, h1⟩ := hS.args hs
  obtain ⟨_, _, h2⟩ := hS.args hs'
  obtain rfl := congrArg GAtom.name h1
  obtain rfl := congrArg GAtom.name h2
  simpa using two_ins 1 hi (hS.alike _ _ _ _ hs hs').1

theorem Steady.first (hS : Steady M p atoms (⟨n, 2⟩ :: fs) S) (hi : M.ins ⟨n, 2⟩ 0 = true) {ρ n1 d e gs ρ' n2 d' e' gs'} (hs : S ρ (⟨n1, [d, e]⟩ :: gs))
    (hs' : S ρ' (⟨n2, [d', e']⟩ :: gs')) : d = d' := by
  obtain ⟨_, _, h1⟩ := hS.args hs
  obtain ⟨_, _, h2⟩ := hS.args hs'
  obtain rfl := congrArg GAtom.name h1
  obtain rfl := congrArg GAtom.name h2
  simpa using two_ins 0 hi (hS.alike _ _ _ _ hs hs').1

/-- The goals after one that makes no difference. -/
theorem Steady.pass (hS : Steady M p atoms (f :: fs) S) {S' : Insts} (h : ∀ ρ gs, S' ρ gs → ∃ g, S ρ (g :: gs))
    (ho : ∀ ρ gs ρ' gs', S' ρ gs → S' ρ' gs' → ∃ g g', S ρ (g :: gs) ∧ S ρ' (g' :: gs') ∧ g.outs M = g'.outs M) : Steady M p atoms fs S' where
  may f hf := hS.may f (.tail _ hf)
  fvs ρ gs hs := by
    obtain ⟨g, hg⟩ := h ρ gs hs
    have := hS.fvs _ _ hg
    simp only [List.map_cons, List.cons.injEq] at this
    exact this.2
  alike ρ gs ρ' gs' hs hs' := by
    obtain ⟨g, g', h1, h2, h3⟩ := ho ρ gs ρ' gs' hs hs'
    exact (hS.alike _ _ _ _ h1 h2).2 h3

theorem outs_false {n : Name} {d e d' e' : ITree} (h : ∀ i, M.outs ⟨n, 2⟩ i = false) : GAtom.outs M ⟨n, [d, e]⟩ = GAtom.outs M ⟨n, [d', e']⟩ := by
  unfold GAtom.outs
  rw [show (⟨n, [d, e]⟩ : GAtom ITree).fv = ⟨n, 2⟩ from rfl, show (⟨n, [d', e']⟩ : GAtom ITree).fv = ⟨n, 2⟩ from rfl, pick_false h, pick_false h]

theorem Steady.own (h : Directed M p atoms) {f fs S S'} (hS : Steady M p atoms (f :: fs) S) (ho : Own f S (some S')) : Steady M p atoms fs S' := by
  obtain ⟨b1, b2, b3⟩ := h.builtins
  cases ho with
  | eq_pass =>
    refine hS.pass (fun ρ gs hs => hs) ?_
    rintro ρ gs ρ' gs' ⟨g, hg⟩ ⟨g', hg'⟩
    obtain ⟨_, _, rfl⟩ := hS.args hg
    obtain ⟨_, _, rfl⟩ := hS.args hg'
    exact ⟨_, _, hg, hg', outs_false b1⟩
  | neq_pass =>
    refine hS.pass (fun ρ gs hs => hs) ?_
    rintro ρ gs ρ' gs' ⟨g, hg⟩ ⟨g', hg'⟩
    obtain ⟨_, _, rfl⟩ := hS.args hg
    obtain ⟨_, _, rfl⟩ := hS.args hg'
    exact ⟨_, _, hg, hg', outs_false b2⟩
  | is_pass =>
    refine hS.pass (fun ρ gs ⟨d, hs⟩ => ⟨_, hs⟩) ?_
    rintro ρ gs ρ' gs' ⟨d, hg⟩ ⟨d', hg'⟩
    refine ⟨_, _, hg, hg', ?_⟩
    unfold GAtom.outs
    refine pick_of_get rfl fun i hi => ?_
    cases i with
    | zero => rfl
    | succ i => exact absurd hi (by rw [show (⟨n!"is", [_, _]⟩ : GAtom ITree).fv = ⟨n!"is", 2⟩ from rfl, b3 (i + 1) (by omega)]; simp)

theorem STurn.moded (h : Directed M p atoms) {i news r} (t : STurn (inForce p) i news r) (hi : i.Moded M p atoms) : ∀ j ∈ news, j.Moded M p atoms := by
  cases t with
  | leave => exact fun j hj => by rw [List.mem_singleton.1 hj]; exact hi
  | @call f ts S hf =>
    intro j hj
    obtain ⟨c, hc, rfl⟩ := List.mem_map.1 hj
    obtain ⟨hc, hf⟩ := List.mem_filter.1 hc
    have hf : c.head.fv = f := by simpa using hf
    exact ⟨hc, by rw [hf]; exact hi⟩
  | callOwn => exact fun j hj => by rw [List.mem_singleton.1 hj]; exact hi
  | enter =>
    intro j hj
    rw [List.mem_singleton.1 hj]
    show Steady _ _ _ _ _
    rw [calls_append, calls_todo]
    exact hi.2.enter h hi.1
  | ownPass ho => exact fun j hj => by rw [List.mem_singleton.1 hj]; exact Steady.own h hi ho
  | reject | answer | ownFail | ownAnswer | error => exact fun j hj => by cases hj

/-! ## Nothing but solutions -/

/-- What is left to be proved is enough. -/
def SItem.Suffices (p : List Clause) (atoms : List Node) : SItem → Prop
  | .goals _ S => ∀ ρ gs, S ρ gs → (∀ g ∈ gs, Truth itreeAlg (inForce p) g) → Fulfils (inForce p) atoms ρ
  | .clause _ _ S => ∀ ρ gs, S ρ gs → (∀ g ∈ gs, Truth itreeAlg (inForce p) g) → Fulfils (inForce p) atoms ρ
  | .own _ _ S => ∀ ρ gs, S ρ gs → (∀ g ∈ gs, Truth itreeAlg (inForce p) g) → Fulfils (inForce p) atoms ρ

/-- What passes is true. -/
theorem Steady.true (h : Directed M p atoms) {f fs S S'} (hS : Steady M p atoms (f :: fs) S) (ho : Own f S (some S')) :
    ∀ ρ gs, S' ρ gs → ∃ g, S ρ (g :: gs) ∧ Truth itreeAlg (inForce p) g := by
  obtain ⟨t1, t2, t3, t4, t5⟩ := h.tests
  intro ρ gs hs
  cases ho with
  | eq_pass ha =>
    obtain ⟨g, hg⟩ := hs
    obtain ⟨d, e, rfl⟩ := hS.args hg
    obtain rfl := ha.2 _ _ _ _ _ hg
    exact ⟨_, hg, .eq⟩
  | neq_pass ha =>
    obtain ⟨g, hg⟩ := hs
    obtain ⟨d, e, rfl⟩ := hS.args hg
    obtain ⟨ρ', n', d', e', gs', hg', hne⟩ := ha
    refine ⟨_, hg, .neq ?_⟩
    rw [hS.first t4 hg hg', hS.second t5 hg hg']
    exact hne
  | is_pass ha =>
    obtain ⟨d, hg⟩ := hs
    have := ha.2 _ _ _ _ _ hg
    cases this with
    | value hv => exact ⟨_, hg, .is hv⟩

theorem Steady.done {fs S} (hS : Steady M p atoms fs S) (hf : fs = []) (hs : ∀ ρ gs, S ρ gs → (∀ g ∈ gs, Truth itreeAlg (inForce p) g) → Fulfils (inForce p) atoms ρ) :
    ∀ ρ gs, S ρ gs → Fulfils (inForce p) atoms ρ := by
  intro ρ gs h
  have := hS.fvs _ _ h
  rw [hf] at this
  obtain rfl := List.map_eq_nil_iff.1 this
  exact hs ρ _ h (by simp)

theorem suffices_enter {c : Clause} (hc : c ∈ inForce p) {S : Insts} (hs : ∀ ρ gs, S ρ gs → (∀ g ∈ gs, Truth itreeAlg (inForce p) g) → Fulfils (inForce p) atoms ρ) :
    ∀ ρ gs, S.enter c ρ gs → (∀ g ∈ gs, Truth itreeAlg (inForce p) g) → Fulfils (inForce p) atoms ρ := by
  rintro ρ gs ⟨σ, rest, h1, rfl⟩ hp
  refine hs ρ _ h1 fun g hg => ?_
  rcases List.mem_cons.1 hg with rfl | hg
  · exact .clause hc fun b hb => hp _ (List.mem_append_left _ (List.mem_map_of_mem hb))
  · exact hp g (List.mem_append_right _ hg)

theorem suffices_own (h : Directed M p atoms) {f fs S S'} (hS : Steady M p atoms (f :: fs) S) (ho : Own f S (some S'))
    (hs : ∀ ρ gs, S ρ gs → (∀ g ∈ gs, Truth itreeAlg (inForce p) g) → Fulfils (inForce p) atoms ρ) :
    ∀ ρ gs, S' ρ gs → (∀ g ∈ gs, Truth itreeAlg (inForce p) g) → Fulfils (inForce p) atoms ρ := by
  intro ρ gs h1 hp
  obtain ⟨g, h2, h3⟩ := hS.true h ho ρ gs h1
  refine hs ρ _ h2 fun x hx => ?_
  rcases List.mem_cons.1 hx with rfl | hx
  · exact h3
  · exact hp x hx

theorem STurn.suffices (h : Directed M p atoms) {i news r} (t : STurn (inForce p) i news r) (hi : i.Moded M p atoms) (hs : i.Suffices p atoms) :
    (∀ j ∈ news, j.Suffices p atoms) ∧ ∀ S, r = some (.answer S) → ∀ ρ gs, S ρ gs → Fulfils (inForce p) atoms ρ := by
  cases t with
  | leave => exact ⟨fun j hj => by rw [List.mem_singleton.1 hj]; exact hs, by simp⟩
  | call =>
    refine ⟨fun j hj => ?_, by simp⟩
    obtain ⟨c, hc, rfl⟩ := List.mem_map.1 hj
    exact hs
  | callOwn => exact ⟨fun j hj => by rw [List.mem_singleton.1 hj]; exact hs, by simp⟩
  | enter => exact ⟨fun j hj => by rw [List.mem_singleton.1 hj]; exact suffices_enter hi.1 hs, by simp⟩
  | answer _ hn =>
    refine ⟨by simp, fun S hS => ?_⟩
    cases hS
    refine (hi.2.enter h hi.1).done ?_ (suffices_enter hi.1 hs)
    rw [← calls_todo, ← calls_append]
    exact noGoal_calls hn
  | ownPass ho => exact ⟨fun j hj => by rw [List.mem_singleton.1 hj]; exact suffices_own h hi ho hs, by simp⟩
  | ownAnswer ho hn =>
    refine ⟨by simp, fun S hS => ?_⟩
    cases hS
    exact (Steady.own h hi ho).done (noGoal_calls hn) (suffices_own h hi ho hs)
  | reject | ownFail | error => simp

theorem SRun.suffices (h : Directed M p atoms) {q rs q'} (hr : SRun (inForce p) q rs q') (hm : ∀ i ∈ q, i.Moded M p atoms) (hs : ∀ i ∈ q, i.Suffices p atoms) :
    ∀ S, some (.answer S) ∈ rs → ∀ ρ gs, S ρ gs → Fulfils (inForce p) atoms ρ := by
  induction hr with
  | nil => simp
  | cons t _ ih =>
    intro S hS
    have h0 := t.moded h (hm _ List.mem_cons_self)
    obtain ⟨h1, h2⟩ := t.suffices h (hm _ List.mem_cons_self) (hs _ List.mem_cons_self)
    rcases List.mem_cons.1 hS with hS | hS
    · exact h2 S hS.symm
    · refine ih (fun i hi => ?_) (fun i hi => ?_) S hS <;> rcases List.mem_append.1 hi with hi | hi
      · exact hm i (List.mem_cons_of_mem _ hi)
      · exact h0 i hi
      · exact hs i (List.mem_cons_of_mem _ hi)
      · exact h1 i hi

/-! ## All solutions -/

/-- The goals are true, by so many steps. -/
inductive Steps (P : List Clause) : Nat → List (GAtom ITree) → Prop
  | nil : Steps P 0 []
  | clause {c σ n rest} : c ∈ P → Steps P n (c.body.map (Node.inst itreeAlg σ) ++ rest) → Steps P (n + 1) (c.head.inst itreeAlg σ :: rest)
  | eq {d n rest} : Steps P n rest → Steps P (n + 1) (⟨n!"==", [d, d]⟩ :: rest)
  | neq {d e n rest} : d ≠ e → Steps P n rest → Steps P (n + 1) (⟨n!"\\==", [d, e]⟩ :: rest)
  | is {d v n rest} : Evals itreeAlg d v → Steps P n rest → Steps P (n + 1) (⟨n!"is", [itreeAlg.int v, d]⟩ :: rest)

theorem steps_all {P : List Clause} : ∀ {gs : List (GAtom ITree)}, (∀ g ∈ gs, ∀ n rest, Steps P n rest → ∃ m, Steps P m (g :: rest)) →
    ∀ n rest, Steps P n rest → ∃ m, Steps P m (gs ++ rest)
  | [], _, n, rest, h => ⟨n, h⟩
  | g :: gs, h, n, rest, hr => by
    obtain ⟨m, hm⟩ := steps_all (fun x hx => h x (.tail _ hx)) n rest hr
    exact h g (.head _) m _ hm

theorem Truth.steps {P : List Clause} {g : GAtom ITree} (h : Truth itreeAlg P g) : ∀ n rest, Steps P n rest → ∃ m, Steps P m (g :: rest) := by
  induction h with
  | @clause c ρ hc _ ih =>
    intro n rest hr
    obtain ⟨m, hm⟩ := steps_all (gs := c.body.map (Node.inst itreeAlg ρ)) (fun g hg => by
      obtain ⟨b, hb, rfl⟩ := List.mem_map.1 hg
      exact ih b hb) n rest hr
    exact ⟨_, .clause hc hm⟩
  | eq => exact fun n rest hr => ⟨_, .eq hr⟩
  | neq h => exact fun n rest hr => ⟨_, .neq h hr⟩
  | is h => exact fun n rest hr => ⟨_, .is h hr⟩

theorem Fulfils.steps {ρ} (h : Fulfils (inForce p) atoms ρ) : ∃ n, Steps (inForce p) n (atoms.map (Node.inst itreeAlg ρ)) := by
  obtain ⟨m, hm⟩ := steps_all (P := inForce p) (gs := atoms.map (Node.inst itreeAlg ρ)) (fun g hg => by
    obtain ⟨a, ha, rfl⟩ := List.mem_map.1 hg
    exact (h a ha).steps) 0 [] .nil
  exact ⟨m, by simpa using hm⟩

/-- With this item in the queue, the instance is found after a number of turns, or when the search ends. -/
def Hot (P : List Clause) (ρ : Name → ITree) (i : SItem) : Prop :=
  ∀ q, i ∈ q → ∃ N, ∀ rs q', SRun P q rs q' → N ≤ rs.length ∨ q' = [] → ∃ S gs, some (.answer S) ∈ rs ∧ S ρ gs

theorem hot_of {P : List Clause} {ρ i} (h : ∀ news r, STurn P i news r → (∃ S gs, r = some (.answer S) ∧ S ρ gs) ∨ ∃ j ∈ news, Hot P ρ j) : Hot P ρ i := by
  intro q hi
  obtain ⟨pre, post, rfl⟩ := List.append_of_mem hi
  clear hi
  induction pre generalizing post with
  | nil =>
    by_cases ht : ∃ news r, STurn P i news r
    · obtain ⟨news, r, t⟩ := ht
      rcases h news r t with ⟨S, gs, rfl, hS⟩ | ⟨j, hj, hh⟩
      · refine ⟨1, fun rs q' hr hn => ?_⟩
        cases hr with
        | nil => rcases hn with hn | hn <;> simp at hn
        | cons t' _ =>
          obtain ⟨_, rfl⟩ := t.det t'
          exact ⟨S, gs, .head _, hS⟩
      · obtain ⟨N, hN⟩ := hh (post ++ news) (List.mem_append_right _ hj)
        refine ⟨N + 1, fun rs q' hr hn => ?_⟩
        cases hr with
        | nil => rcases hn with hn | hn <;> simp at hn
        | cons t' hr =>
          obtain ⟨rfl, rfl⟩ := t.det t'
          obtain ⟨S, gs, a, b⟩ := hN _ _ hr (hn.imp (by simp) id)
          exact ⟨S, gs, .tail _ a, b⟩
    · refine ⟨1, fun rs q' hr hn => ?_⟩
      cases hr with
      | nil => rcases hn with hn | hn <;> simp at hn
      | cons t _ => exact absurd ⟨_, _, t⟩ ht
  | cons k pre ih =>
    by_cases ht : ∃ news r, STurn P k news r
    · obtain ⟨news, r, t⟩ := ht
      obtain ⟨N, hN⟩ := ih (post ++ news)
      refine ⟨N + 1, fun rs q' hr hn => ?_⟩
      cases hr with
      | nil => rcases hn with hn | hn <;> simp at hn
      | cons t' hr =>
        obtain ⟨rfl, rfl⟩ := t.det t'
        obtain ⟨S, gs, a, b⟩ := hN _ _ (by simpa using hr) (hn.imp (by simp) id)
        exact ⟨S, gs, .tail _ a, b⟩
    · refine ⟨1, fun rs q' hr hn => ?_⟩
      cases hr with
      | nil => rcases hn with hn | hn <;> simp at hn
      | cons t _ => exact absurd ⟨_, _, t⟩ ht

theorem hot_clause (h : Directed M p atoms) {n ρ} (ih : ∀ ts S gs, Steady M p atoms (calls ts) S → S ρ gs → Steps (inForce p) n gs → Hot (inForce p) ρ (.goals ts S))
    {c ts S σ rest} (hc : c ∈ inForce p) (hS : Steady M p atoms (c.head.fv :: calls ts) S) (hs : S ρ (c.head.inst itreeAlg σ :: rest))
    (hd : Steps (inForce p) n (c.body.map (Node.inst itreeAlg σ) ++ rest)) : Hot (inForce p) ρ (.clause c ts S) := by
  have he : S.enter c ρ (c.body.map (Node.inst itreeAlg σ) ++ rest) := ⟨σ, rest, hs, rfl⟩
  refine hot_of fun news r t => ?_
  cases t with
  | reject h0 => exact absurd he (h0 _ _)
  | enter => exact .inr ⟨_, .head _, ih _ _ _ (by rw [calls_append, calls_todo]; exact hS.enter h hc) he hd⟩
  | answer => exact .inl ⟨_, _, rfl, he⟩

theorem hot_own (h : Directed M p atoms) {n ρ} (ih : ∀ ts S gs, Steady M p atoms (calls ts) S → S ρ gs → Steps (inForce p) n gs → Hot (inForce p) ρ (.goals ts S))
    {f ts S gs} (hf : f ∈ ownFVs) (hS : Steady M p atoms (f :: calls ts) S) (hs : S ρ gs) (hd : Steps (inForce p) (n + 1) gs) : Hot (inForce p) ρ (.own f ts S) := by
  obtain ⟨t1, t2, t3, t4, t5⟩ := h.tests
  have hfv := hS.fvs _ _ hs
  -- the goals after it
  have go : ∀ {S' : Insts} {rest}, Own f S (some S') → S' ρ rest → Steps (inForce p) n rest → Hot (inForce p) ρ (.goals ts S') :=
    fun ho hs hd => ih _ _ _ (Steady.own h hS ho) hs hd
  refine hot_of fun news r t => ?_
  cases hd with
  | @clause c σ _ rest hc =>
    simp only [List.map_cons, List.cons.injEq, head_fv] at hfv
    exact absurd (by rw [hfv.1]; exact hf) (inForce_own c hc)
  | @eq d _ rest hd =>
    simp only [List.map_cons, List.cons.injEq] at hfv
    obtain rfl : f = ⟨n!"==", 2⟩ := hfv.1.symm
    have hno : ¬ S.Once (· ≠ ·) := by
      rintro ⟨ρ', n', d', e', gs', hg', hne⟩
      exact hne ((hS.first t2 hs hg').symm.trans (hS.second t3 hs hg'))
    cases t with
    | ownFail ho => cases ho with | eq_fail ho => exact absurd ho hno
    | ownPass ho => cases ho with | eq_pass ha => exact .inr ⟨_, .head _, go (.eq_pass ha) ⟨_, hs⟩ hd⟩
    | ownAnswer ho => cases ho with | eq_pass ha => exact .inl ⟨_, _, rfl, _, hs⟩
    | error ho => cases ho
  | @neq d e _ rest hne hd =>
    simp only [List.map_cons, List.cons.injEq] at hfv
    obtain rfl : f = ⟨n!"\\==", 2⟩ := hfv.1.symm
    cases t with
    | ownFail ho => cases ho with | neq_fail ho => exact absurd (ho.2 _ _ _ _ _ hs) hne
    | ownPass ho => cases ho with | neq_pass ha => exact .inr ⟨_, .head _, go (.neq_pass ha) ⟨_, hs⟩ hd⟩
    | ownAnswer ho => cases ho with | neq_pass ha => exact .inl ⟨_, _, rfl, _, hs⟩
    | error ho => cases ho
  | @is d v _ rest hv hd =>
    simp only [List.map_cons, List.cons.injEq] at hfv
    obtain rfl : f = ⟨n!"is", 2⟩ := hfv.1.symm
    have hA : S.Always (fun _ e => Outcome itreeAlg e (.inr v)) := by
      refine ⟨⟨_, _, _, _, _, hs, .value hv⟩, fun ρ' n' d' e' gs' hg' => ?_⟩
      rw [← hS.second t1 hs hg']
      exact .value hv
    have hi : S.is v ρ rest := ⟨_, hs⟩
    cases t with
    | ownFail ho => cases ho with | is_fail ha h0 => cases ha.outcome hA; exact absurd hi (h0 _ _)
    | ownPass ho => cases ho with | is_pass ha h0 => cases ha.outcome hA; exact .inr ⟨_, .head _, go (.is_pass ha h0) hi hd⟩
    | ownAnswer ho => cases ho with | is_pass ha h0 => cases ha.outcome hA; exact .inl ⟨_, _, rfl, hi⟩
    | error ho => exact ((Own.is_pass hA fun h0 => h0 _ _ hi).no_err ho).elim

theorem hot_goals (h : Directed M p atoms) {ρ} : ∀ n ts S gs, Steady M p atoms (calls ts) S → S ρ gs → Steps (inForce p) n gs → Hot (inForce p) ρ (.goals ts S) := by
  intro n
  induction n with
  | zero =>
    intro ts
    induction ts with
    | nil => exact fun S gs _ _ _ => hot_of fun news r t => by cases t
    | cons t ts ih =>
      intro S gs hS hs hd
      refine hot_of fun news r t => ?_
      cases t with
      | leave => exact .inr ⟨_, .head _, ih S gs hS hs hd⟩
      | call | callOwn =>
        cases hd
        exact absurd (hS.fvs _ _ hs) (by simp [calls, Todo.fv?])
  | succ n ihn =>
    intro ts
    induction ts with
    | nil => exact fun S gs _ _ _ => hot_of fun news r t => by cases t
    | cons t ts ih =>
      intro S gs hS hs hd
      refine hot_of fun news r t => ?_
      cases t with
      | leave => exact .inr ⟨_, .head _, ih S gs hS hs hd⟩
      | @call f _ _ hf =>
        have hfv : gs.map GAtom.fv = f :: calls ts := hS.fvs _ _ hs
        cases hd with
        | @clause c σ _ rest hc hd =>
          simp only [List.map_cons, List.cons.injEq, head_fv] at hfv
          refine .inr ⟨.clause c ts S, List.mem_map.2 ⟨c, List.mem_filter.2 ⟨hc, by simpa using hfv.1⟩, rfl⟩, hot_clause h ihn hc ?_ hs hd⟩
          rw [hfv.1]; exact hS
        | eq | neq | is =>
          simp only [List.map_cons, List.cons.injEq] at hfv
          rw [← hfv.1] at hf
          exact absurd hf (by simp [GAtom.fv, ownFVs])
      | callOwn hf => exact .inr ⟨_, .head _, hot_own h ihn hf hS hs hd⟩

/-- **C83, the search**: the search finds every solution after a number of turns that depends on the solution only, or ends before. -/
theorem SRun.computes (h : Directed M p atoms) {ρ} (hs : Fulfils (inForce p) atoms ρ) :
    ∃ N, ∀ rs items, SRun (inForce p) [.goals (atoms.map (.goal ·.fv)) (Insts.query atoms)] rs items → N ≤ rs.length ∨ items = [] → ∃ S gs, some (.answer S) ∈ rs ∧ S ρ gs := by
  obtain ⟨n, hn⟩ := hs.steps
  exact hot_goals h n _ _ _ (by rw [calls_goals]; exact .query h) rfl hn _ (.head _)

theorem SRun.fulfils (h : Directed M p atoms) {rs items} (hr : SRun (inForce p) [.goals (atoms.map (.goal ·.fv)) (Insts.query atoms)] rs items) {S} (hS : some (.answer S) ∈ rs)
    {ρ gs} (hs : S ρ gs) : Fulfils (inForce p) atoms ρ :=
  hr.suffices h (by simp only [List.mem_singleton, forall_eq, SItem.Moded, calls_goals]; exact .query h)
    (by
      simp only [List.mem_singleton, forall_eq, SItem.Suffices]
      rintro ρ gs rfl hp a ha
      exact hp _ (List.mem_map_of_mem ha)) S hS ρ gs hs

end

/-! ## The interpreter -/

/-- **C83, all solutions**: if the search has ended, then the answers together show exactly the solutions of the query, errors or not.  For programs whose goals are called with known inputs. -/
theorem C83_solutions {o o' : Org} {p atoms M fuel k ts} (h : Asked o p atoms) (hM : Directed M p atoms) (hr : o.iterate fuel k = .ok (o', ts)) (hq : o'.queue = []) :
    ∃ reps, List.Forall₂ (Meets o.st atoms fuel) (reports ts) reps ∧ ∀ ρ, Gives reps ρ ↔ Fulfils (inForce p) atoms ρ := by
  obtain ⟨items, rs, h1, h2, h3⟩ := C42_breadth_first_resolution_partial h hr
  rw [hq] at h3
  obtain rfl := List.length_eq_zero_iff.1 h3
  refine ⟨_, Says.meets h2, fun ρ => ⟨fun hg => ?_, fun hs => ?_⟩⟩
  · obtain ⟨S, gs, hS, hs⟩ := gives_of.1 hg
    exact h1.fulfils hM hS hs
  · obtain ⟨N, hN⟩ := SRun.computes hM hs
    exact gives_of.2 (hN _ _ h1 (.inr rfl))

/-- **C83, nothing but solutions**, at any time. -/
theorem C83_sound {o o' : Org} {p atoms M fuel k ts} (h : Asked o p atoms) (hM : Directed M p atoms) (hr : o.iterate fuel k = .ok (o', ts)) :
    ∃ reps, List.Forall₂ (Meets o.st atoms fuel) (reports ts) reps ∧ ∀ ρ, Gives reps ρ → Fulfils (inForce p) atoms ρ := by
  obtain ⟨items, rs, h1, h2, _⟩ := C42_breadth_first_resolution_partial h hr
  refine ⟨_, Says.meets h2, fun ρ hg => ?_⟩
  obtain ⟨S, gs, hS, hs⟩ := gives_of.1 hg
  exact h1.fulfils hM hS hs

/-- **C83, soon**: for every solution there is a number, known beforehand, such that the solution is among the answers after so many turns. -/
theorem C83_soon {p atoms M} (hM : Directed M p atoms) {ρ} (hs : Fulfils (inForce p) atoms ρ) :
    ∃ N, ∀ {o o' : Org} {fuel k ts}, Asked o p atoms → o.iterate fuel k = .ok (o', ts) → N ≤ ts.length ∨ o'.queue = [] →
      ∃ reps, List.Forall₂ (Meets o.st atoms fuel) (reports ts) reps ∧ Gives reps ρ := by
  obtain ⟨N, hN⟩ := SRun.computes hM hs
  refine ⟨N, fun {o o' fuel k ts} h hr hn => ?_⟩
  obtain ⟨items, rs, h1, h2, h3⟩ := C42_breadth_first_resolution_partial h hr
  refine ⟨_, Says.meets h2, gives_of.2 (hN _ _ h1 ?_)⟩
  rcases hn with hn | hn
  · left; rw [← h2.length_eq]; exact hn
  · right; rw [hn] at h3; exact List.length_eq_zero_iff.1 h3

/-- The same for calls of `get_answer` that have gone on until there were no more answers, whatever the clock did. -/
theorem C83_sessions {o o' : Org} {p atoms M fuel clocks rs} (h : Asked o p atoms) (hM : Directed M p atoms) (hs : o.session fuel clocks = .ok (o', rs))
    (hl : rs.getLast? = some .noAnswer) :
    ∃ reps, List.Forall₂ (Meets o.st atoms fuel) (rs.filter Res.isReport) reps ∧ ∀ ρ, Gives reps ρ ↔ Fulfils (inForce p) atoms ρ := by
  obtain ⟨ts, a1, a2⟩ := C05_timeouts_transparent h.reach hs
  rw [a2]
  exact C83_solutions h hM a1 (session_exhausted hs hl h.reach.rinv)

/-! ## The web page -/

theorem error_not_false {e : RtErr} : (Res.error e).text ≠ n!"false" := by
  have h := C50_texts (.error e)
  intro h0
  rw [h0] at h
  simp only [LineFor] at h
  split at h
  · exact absurd h (by decide)
  · obtain ⟨pre, post, h1, ⟨t, h2⟩⟩ := h
    rw [← h2] at h1
    simp at h1
  · obtain ⟨post, h1⟩ := h
    simp at h1
  · exact absurd h (by decide)
  · exact absurd h (by decide)

/-- **C83, the web page**: if the goals of program and query are called with known inputs, then every line of a box is a message about the memory limit or an error, "false", or shows a solution of
the query; and a box with "false" has a line for every solution. -/
theorem C83_lines {fuel : Nat} {es : List Event} {s : Site} (ha : Ample es) (ho : ProperRuns es) (h : Site.empty.steps fuel es = .ok s) :
    ∀ p ∈ s.pages, ∃ ord program c, Event.run ord program p.query c ∈ es ∧ ∀ cs q M, Readable program p.query cs q → Directed M cs q → HasValues (inForce cs) q →
      (∀ l ∈ p.lines, l = n!"Soft memory limit reached. Please close some results." ∨ l = n!"false" ∨ (∃ e, LineFor (.error e) l) ∨ ∃ ρ, Fulfils (inForce cs) q ρ ∧ Line q ρ l) ∧
      (n!"false" ∈ p.lines → ∀ ρ, Fulfils (inForce cs) q ρ → ∃ l ∈ p.lines, Line q ρ l) := by
  intro p hp
  obtain ⟨ord, program, c, o0, o, h1, h2, _, ts, k, h3, h4, h5⟩ := C50_lines_show_search ha h p hp
  refine ⟨ord, program, c, h1, fun cs q M hr hM hw => ?_⟩
  obtain ⟨a1, a2⟩ := h2.asked (ho _ _ _ _ h1) hr
  obtain ⟨items, rs, b1, b2, b3⟩ := C42_breadth_first_resolution_partial a1 h3
  have b4 := Says.meets b2
  refine ⟨fun l hl => ?_, fun hf ρ hs => ?_⟩
  · by_cases hs : l = n!"Soft memory limit reached. Please close some results."
    · exact .inl hs
    · have : l ∈ p.lines.filter (· ≠ n!"Soft memory limit reached. Please close some results.") := List.mem_filter.2 ⟨hl, by simpa using hs⟩
      rw [h5] at this
      rcases List.mem_append.1 this with g3 | g3
      · obtain ⟨r, hr, rfl⟩ := List.mem_map.1 g3
        obtain ⟨rep, g4, g5⟩ := forall₂_of_mem b4 hr
        cases g5 with
        | @answer bs S g5 =>
          have hS : some (.answer S) ∈ rs := by simpa using g4
          obtain ⟨ρ, gs, hg⟩ := g5.some
          exact .inr (.inr (.inr ⟨ρ, b1.fulfils hM hS hg, g5.line a2 a1.stOK (fun ρ gs hg => hw ρ (b1.fulfils hM hS hg)) hg⟩))
        | @error e => exact .inr (.inr (.inl ⟨e, C50_texts _⟩))
      · exact .inr (.inl (List.eq_of_mem_replicate g3))
  · have hk : k ≠ 0 := by
      rintro rfl
      have : n!"false" ∈ p.lines.filter (· ≠ n!"Soft memory limit reached. Please close some results.") := List.mem_filter.2 ⟨hf, by decide⟩
      rw [h5, List.replicate_zero, List.append_nil] at this
      obtain ⟨r, hr, g3⟩ := List.mem_map.1 this
      obtain ⟨rep, _, g5⟩ := forall₂_of_mem b4 hr
      cases g5 with
      | @answer bs S g5 => exact answer_not_false g3
      | @error e => exact error_not_false g3
    rw [h4 hk] at b3
    obtain rfl := List.length_eq_zero_iff.1 b3
    obtain ⟨N, hN⟩ := SRun.computes hM hs
    obtain ⟨S, gs, hS, hg⟩ := hN _ _ b1 (.inr rfl)
    obtain ⟨r, hr, g5⟩ := forall₂_of_mem' b4 (y := .answer S) (by simpa using hS)
    cases g5 with
    | @answer bs S g5 =>
      refine ⟨_, ?_, g5.line a2 a1.stOK (fun ρ gs hg => hw ρ (b1.fulfils hM hS hg)) hg⟩
      have : (Res.answer bs).text ∈ p.lines.filter (· ≠ n!"Soft memory limit reached. Please close some results.") := by
        rw [h5]; exact List.mem_append_left _ (List.mem_map_of_mem hr)
      exact (List.mem_filter.1 this).1

/-! ## The console -/

/-- What an exchange about this query says about what is true. -/
structure Exchange.Tells (P : List Clause) (q : List Node) (x : Exchange) : Prop where
  /-- Every result but errors and "false" shows a solution. -/
  sound : ∀ r ∈ x.results, r = .noAnswer ∨ (∃ e, r = .error e) ∨ ∃ ρ, Fulfils P q ρ ∧ Spoken q ρ (said r)
  /-- If the last result is "false", then all solutions have been shown. -/
  complete : x.results.getLast? = some .noAnswer → ∀ ρ, Fulfils P q ρ → ∃ r ∈ x.results, Spoken q ρ (said r)

theorem session_tells {o o' : Org} {cs q M fuel clocks rs} (h : Asked o cs q) (hpr : Printable o.st) (hs : o.session fuel clocks = .ok (o', rs)) (hM : Directed M cs q)
    (hw : HasValues (inForce cs) q) :
    (∀ bs, .answer bs ∈ rs → ∃ ρ, Fulfils (inForce cs) q ρ ∧ Spoken q ρ (said (.answer bs))) ∧
    (rs.getLast? = some .noAnswer → ∀ ρ, Fulfils (inForce cs) q ρ → ∃ r ∈ rs, Spoken q ρ (said r)) := by
  obtain ⟨ts, h1, h2⟩ := C05_timeouts_transparent h.reach hs
  obtain ⟨items, rs', b1, b2, b3⟩ := C42_breadth_first_resolution_partial h h1
  have hm := Says.meets b2
  refine ⟨fun bs hb => ?_, fun hl ρ hsol => ?_⟩
  · have : .answer bs ∈ reports ts := by rw [← h2]; exact List.mem_filter.2 ⟨hb, rfl⟩
    obtain ⟨rep, c1, c2⟩ := forall₂_of_mem hm this
    cases c2 with
    | answer c2 =>
      rename_i S
      have hS : some (.answer S) ∈ rs' := by simpa using c1
      obtain ⟨ρ, gs, hg⟩ := c2.some
      exact ⟨ρ, b1.fulfils hM hS hg, c2.spoken hpr h.stOK (fun ρ gs hs => hw ρ (b1.fulfils hM hS hs)) hg⟩
  · have hq := session_exhausted hs hl h.reach.rinv
    obtain rfl : items = [] := by rw [hq] at b3; exact List.length_eq_zero_iff.1 b3
    obtain ⟨N, hN⟩ := SRun.computes hM hsol
    obtain ⟨S, gs, hS, hg⟩ := hN _ _ b1 (.inr rfl)
    obtain ⟨r, hr, h5⟩ := forall₂_of_mem' hm (y := .answer S) (by simpa using hS)
    cases h5 with
    | answer h5 =>
      rw [← h2] at hr
      exact ⟨_, (List.mem_filter.1 hr).1, h5.spoken hpr h.stOK (fun ρ gs hs => hw ρ (b1.fulfils hM hS hs)) hg⟩

theorem Talk.tells {fuel : Nat} {o xs o' ord cs n M} (h : Talk fuel o xs o') (hs : Serves o ord cs) (ho : ord.OK) (hu : Untangled cs) (hf : FedBy o n)
    (hn : n + (xs.map (·.text.length)).sum ≤ 32765) {x q} (hx : x ∈ xs) (hq : QueryText q (x.text ++ n!".")) (hd : Node.defined [] q = true) (hM : Directed M cs q)
    (hw : HasValues (inForce cs) q) : x.Tells (inForce cs) q := by
  obtain ⟨ys, zs, o1, ord', o2, l, clocks, o3, rfl, h1, h2, h3, h4, h5, h6⟩ := h.split hx
  have hlen : n + (ys.map (·.text.length)).sum + x.text.length ≤ 32765 := by simp at hn; omega
  obtain ⟨a1, a2, _⟩ := asked_of_text (h1.serves hs).1 (h1.fed hf) ho hu h3 h2.text h4 h5 hlen hq hd
  obtain ⟨b1, b2⟩ := session_tells a1 a2 h6 hM hw
  refine ⟨fun r hr => ?_, b2⟩
  rcases h2.told with ht | ⟨e, he, _⟩
  · rcases ht.results r hr with rfl | ⟨bs, rfl⟩
    · exact .inl rfl
    · exact .inr (.inr (b1 bs hr))
  · rw [he] at hr
    exact .inr (.inl ⟨e, List.mem_singleton.1 hr⟩)

/-- **C83, the console**: what has been typed is a sequence of exchanges, what has been written is what these show, and every exchange about a query whose goals are called with known inputs tells
solutions of the query only, and all of them if the last word is "false". -/
theorem C83_console {fuel : Nat} {ord : HashOrder} (ho : ord.OK) {args : List Name} {input : List Char} {o0 o : Org} (h0 : Org.init = .ok o0) (hl : Con.loadAll ord args o0 = some o)
    {cs} (hc : WorksWith args cs) (hu : Untangled cs) (hlen : (args.map List.length).sum + input.length ≤ 32765) {es c} (he : Envs es)
    (h : (Con.start ord args input o0).steps fuel es = .ok c) (hg : c.cin.good = true) (hp : c.phase = .prompt) :
    ∃ xs : List Exchange, input = xs.flatMap Exchange.typed ++ c.cin.rest ∧ c.out = (Con.start ord args input o0).out ++ xs.flatMap Exchange.shown ∧
      ∀ x ∈ xs, ∀ q M, QueryText q (x.text ++ n!".") → Node.defined [] q = true → Directed M cs q → HasValues (inForce cs) q → x.Tells (inForce cs) q := by
  have hst : Con.start ord args input o0 = ⟨o, ⟨input, true⟩, [], (Con.start ord args input o0).out, .prompt⟩ := by
    simp only [Con.start, hl]
  rw [hst] at h
  obtain ⟨xs, e1, e2, e3⟩ := (C43_conversation he h hg).1 hp
  have hf : FedBy o (0 + (args.map List.length).sum) := FedBy.loadAll (.init h0) hl
  have hlen' : (xs.flatMap Exchange.typed).length ≤ input.length := by rw [e2]; simp
  have := typed_lengths xs
  exact ⟨xs, e2, e3, fun x hx q M hq hd hM hw => e1.tells (hc.serves ho h0 hl) ho hu hf (by omega) hx hq hd hM hw⟩

/-! ## Concrete cases -/

section
variable {p : List Clause}

theorem Truth.neq_inv {d e : ITree} (h : Truth itreeAlg (inForce p) ⟨n!"\\==", [d, e]⟩) : d ≠ e := by
  generalize hg : (⟨n!"\\==", [d, e]⟩ : GAtom ITree) = g at h
  cases h with
  | @clause c ρ hc =>
    have h1 := congrArg GAtom.fv hg
    rw [head_fv] at h1
    exact absurd (by rw [← h1]; simp [GAtom.fv, ownFVs]) (inForce_own c hc)
  | eq | is => simp at hg
  | neq h =>
    simp only [GAtom.mk.injEq, List.cons.injEq, and_true, true_and] at hg
    rw [hg.1, hg.2]; exact h

theorem Truth.is_inv {d e : ITree} (h : Truth itreeAlg (inForce p) ⟨n!"is", [d, e]⟩) : ∃ v, d = itreeAlg.int v ∧ Evals itreeAlg e v := by
  generalize hg : (⟨n!"is", [d, e]⟩ : GAtom ITree) = g at h
  cases h with
  | @clause c ρ hc =>
    have h1 := congrArg GAtom.fv hg
    rw [head_fv] at h1
    exact absurd (by rw [← h1]; simp [GAtom.fv, ownFVs]) (inForce_own c hc)
  | eq | neq => simp at hg
  | is h =>
    simp only [GAtom.mk.injEq, List.cons.injEq, and_true, true_and] at hg
    rw [hg.1, hg.2]; exact ⟨_, rfl, h⟩

end

namespace ComputesExample
open SoundExamples CompleteExamples

/-- `fac(0,1).  fac(N,F) :- N \\== 0, M is N - 1, fac(M,G), F is N * G.` -/
def fac : List Clause :=
  [⟨.fn n!"fac" [.int 0, .int 1], []⟩,
   ⟨.fn n!"fac" [.var n!"N", .var n!"F"],
    [.fn n!"\\==" [.var n!"N", .int 0], .fn n!"is" [.var n!"M", .efn n!"-" [.var n!"N", .int 1]], .fn n!"fac" [.var n!"M", .var n!"G"],
     .fn n!"is" [.var n!"F", .efn n!"*" [.var n!"N", .var n!"G"]]]⟩]

/-- `fac(n,F)` -/
def askFac (n : Nat) : List Node := [.fn n!"fac" [.int n, .var n!"F"]]

def fact : Nat → Nat
  | 0 => 1
  | n + 1 => (n + 1) * fact n

def modes : Modes where
  ins f i := (f == ⟨n!"fac", 2⟩ && i == 0) || (f == ⟨n!"is", 2⟩ && i == 1) || f == ⟨n!"==", 2⟩ || f == ⟨n!"\\==", 2⟩
  outs f i := (f == ⟨n!"fac", 2⟩ && i == 1) || (f == ⟨n!"is", 2⟩ && i == 0)

theorem directed (n : Nat) : Directed modes fac (askFac n) := by
  refine .of [⟨n!"fac", 2⟩, ⟨n!"is", 2⟩, ⟨n!"\\==", 2⟩] ⟨fun i => rfl, fun i => rfl, fun i hi => ?_⟩ ⟨by decide, by decide, by decide, by decide, by decide⟩ ?_ (by decide) ?_
  · simp [modes, hi]
  · intro a ha
    obtain rfl := List.mem_singleton.1 ha
    exact .head _
  · refine ⟨?_, ?_⟩
    · intro v hv
      exact absurd hv (by simp [Modes.inVars, Node.fv, Node.name, Node.children, pick, modes, Node.varss, Node.vars])
    · intro v hv
      cases hv

theorem truth_only {g : GAtom ITree} (h : Truth itreeAlg (inForce fac) g) : g.name = n!"fac" → ∀ (n : Nat) y, g.args = [itreeAlg.int n, y] → y = itreeAlg.int (fact n) := by
  have e : inForce fac = fac ++ appendClauses := rfl
  induction h with
  | @clause c ρ hc hb ih =>
    rw [e] at hc
    simp only [fac, appendClauses, List.cons_append, List.nil_append, List.mem_cons, List.not_mem_nil, or_false] at hc
    rcases hc with rfl | rfl | rfl | rfl
    · intro _ n y h
      simp only [Node.inst, Node.children, Node.evals, Node.eval, List.cons.injEq, and_true] at h
      have := itreeAlg_sharp.int_inj h.1
      obtain rfl : n = 0 := by omega
      exact h.2.symm
    · intro _ n y h
      simp only [Node.inst, Node.children, Node.evals, Node.eval, List.cons.injEq, and_true] at h
      obtain ⟨hN, rfl⟩ := h
      have h1 := Truth.neq_inv (hb (.fn n!"\\==" [.var n!"N", .int 0]) (by simp))
      obtain ⟨m, h2, h3⟩ := Truth.is_inv (hb (.fn n!"is" [.var n!"M", .efn n!"-" [.var n!"N", .int 1]]) (by simp))
      have h4 := ih (.fn n!"fac" [.var n!"M", .var n!"G"]) (by simp) rfl
      obtain ⟨f, h5, h6⟩ := Truth.is_inv (hb (.fn n!"is" [.var n!"F", .efn n!"*" [.var n!"N", .var n!"G"]]) (by simp))
      simp only [Node.inst, Node.children, Node.evals, Node.eval] at h1 h2 h3 h4 h5 h6
      rw [hN] at h1 h3 h6
      cases n with
      | zero => exact absurd rfl h1
      | succ k =>
        obtain rfl : m = k := (h3.det itreeAlg_sharp (.op .int .int .sub)).trans (by omega)
        have h7 := h4 k _ (by rw [h2])
        rw [h7] at h6
        rw [h5, h6.det itreeAlg_sharp (.op .int .int .mul)]
        simp [fact]
    · simp [Node.inst, Node.name]
    · simp [Node.inst, Node.name]
  | eq => simp
  | neq => simp
  | is => simp

theorem truth_fact : ∀ n : Nat, Truth itreeAlg (inForce fac) ⟨n!"fac", [itreeAlg.int n, itreeAlg.int (fact n)]⟩
  | 0 => Truth.clause (A := itreeAlg) (P := inForce fac) (ρ := fun _ => itreeAlg.int 0) (c := ⟨.fn n!"fac" [.int 0, .int 1], []⟩) (.head _) (by simp)
  | n + 1 => by
    have := Truth.clause (A := itreeAlg) (P := inForce fac)
      (ρ := fun x => if x = n!"N" then itreeAlg.int (n + 1 : Nat) else if x = n!"M" then itreeAlg.int n else if x = n!"G" then itreeAlg.int (fact n) else itreeAlg.int (fact (n + 1)))
      (c := ⟨.fn n!"fac" [.var n!"N", .var n!"F"],
        [.fn n!"\\==" [.var n!"N", .int 0], .fn n!"is" [.var n!"M", .efn n!"-" [.var n!"N", .int 1]], .fn n!"fac" [.var n!"M", .var n!"G"],
         .fn n!"is" [.var n!"F", .efn n!"*" [.var n!"N", .var n!"G"]]]⟩) (.tail _ (.head _)) (by
        intro b hb
        simp only [List.mem_cons, List.not_mem_nil, or_false] at hb
        rcases hb with rfl | rfl | rfl | rfl
        · exact .neq fun h => absurd (itreeAlg_sharp.int_inj h) (by omega)
        · have : Truth itreeAlg (inForce fac) ⟨n!"is", [itreeAlg.int ((n + 1 : Nat) - 1 : Int), itreeAlg.efn n!"-" [itreeAlg.int (n + 1 : Nat), itreeAlg.int 1]]⟩ := .is (.op .int .int .sub)
          rwa [show ((n + 1 : Nat) - 1 : Int) = n by omega] at this
        · exact truth_fact n
        · have : Truth itreeAlg (inForce fac) ⟨n!"is", [itreeAlg.int ((n + 1 : Nat) * (fact n : Nat) : Int), itreeAlg.efn n!"*" [itreeAlg.int (n + 1 : Nat), itreeAlg.int (fact n)]]⟩ := .is (.op .int .int .mul)
          rwa [show ((n + 1 : Nat) * (fact n : Nat) : Int) = (fact (n + 1) : Nat) by simp [fact]] at this)
    exact this

/-- The solutions. -/
theorem solutions (n : Nat) (ρ) : Fulfils (inForce fac) (askFac n) ρ ↔ ρ n!"F" = itreeAlg.int (fact n) := by
  constructor
  · intro h
    exact truth_only (h _ (.head _)) rfl n _ rfl
  · intro h a ha
    obtain rfl := List.mem_singleton.1 ha
    have := truth_fact n
    rw [← h] at this
    exact this

/-- The hypotheses of the theorems are met. -/
theorem asked : Asked (demo fac (askFac 5)) fac (askFac 5) :=
  asked_demo (by decide +kernel) (by decide +kernel) (safe_of_b (by decide +kernel)) (by decide) (by simp [askFac]) (by decide +kernel)

theorem run : ((demo fac (askFac 5)).iterate 20 100).toOption.map (fun r => (r.1.queue, r.2.length, reports r.2)) = some ([], 54, [.answer [⟨n!"F", n!"120"⟩]]) := by decide +kernel

theorem inAsk {n : Nat} {x} : InQuery (askFac n) x ↔ x = n!"F" := by
  simp [InQuery, askFac, Node.children, Node.varss, Node.vars]

theorem fold_int {v : Int} : itreeAlg.int v = (Tree.int v).fold itreeAlg := by rw [Tree.fold]

theorem hasValues (n : Nat) : HasValues (inForce fac) (askFac n) := by
  intro ρ h x hx
  rw [inAsk.1 hx]
  exact ⟨.int (fact n), _, ((solutions n ρ).1 h).trans fold_int, .int (intText _)⟩

/-- What an answer that shows solutions looks like. -/
theorem bindings {n : Nat} {st : Storage} (hpr : Printable st) (sok : StOK st) {fuel bs S} (h : ShowsInsts st (askFac n) fuel bs S)
    (hS : ∀ ρ gs, S ρ gs → Fulfils (inForce fac) (askFac n) ρ) : bs = [⟨n!"F", intStr (fact n)⟩] := by
  obtain ⟨ρ, gs, hg⟩ := h.some
  obtain ⟨h1, h2, h3⟩ := h.values hpr sok (fun ρ gs hg => hasValues n ρ (hS ρ gs hg)) hg
  have hb : ∀ b ∈ bs, b = ⟨n!"F", intStr (fact n)⟩ := by
    rintro ⟨x, s⟩ hb
    have hx : x = n!"F" := inAsk.1 ((h2 x).1 (by simpa using ⟨_, hb, rfl⟩))
    subst hx
    obtain ⟨u, h4, h5⟩ := h3 (n!"F", s) (List.mem_map.2 ⟨_, hb, rfl⟩)
    have : u = .int (fact n) := (Tree.fold_inj (((solutions n ρ).1 (hS ρ gs hg)).symm.trans h4 |>.symm.trans fold_int))
    subst this
    cases h5 with
    | int h5 => rw [show s = _ from h5.eq]
    | list h5 => cases h5
  match bs, h1, h2, hb with
  | [], _, h2, _ => exact absurd ((h2 n!"F").2 (inAsk.2 rfl)) (by simp)
  | [b], _, _, hb => rw [hb b (.head _)]
  | b :: b' :: bs, h1, _, hb =>
    rw [hb b (.head _), hb b' (.tail _ (.head _))] at h1
    simp at h1

def text : List Char := n!"fac(0,1). fac(N,F) :- N \\== 0, M is N - 1, fac(M,G), F is N * G."

/-- One box; the button "Next" is clicked once. -/
def clicks : List Event := [.run id text n!"fac(3,F)" ⟨[false, false, true], false, false⟩, .timer 0 0 ⟨List.replicate 50 false, false, false⟩, .next 0 ⟨List.replicate 50 false, false, false⟩]

/-- The hypotheses of `C83_lines` are met, and the lines are those of the only solution and "false". -/
example : Ample clicks ∧ ProperRuns clicks ∧ Readable text n!"fac(3,F)" fac (askFac 3) ∧ Directed modes fac (askFac 3) ∧ HasValues (inForce fac) (askFac 3) ∧
    (Site.empty.steps 30 clicks).toOption.map (fun s => s.pages.map (fun p => (p.query, p.lines))) = some [(n!"fac(3,F)", [n!"[F / 6]", n!"false"])] := by
  refine ⟨?_, ?_, ⟨C41_program_text.1 (by decide +kernel), C41_query_text.1 (by decide +kernel), safe_of_b (by decide +kernel), by decide⟩, directed 3, hasValues 3, by decide +kernel⟩
  · intro e he c hc
    simp only [clicks, List.mem_cons, List.not_mem_nil, or_false] at he
    rcases he with rfl | rfl | rfl <;> simp [Event.call?] at hc <;> subst hc <;> rfl
  · intro ord program query c h
    simp only [clicks, List.mem_cons, List.not_mem_nil, or_false] at h
    rcases h with h | h | h <;> cases h
    exact HashOrder.id_ok

/-- The hypotheses of `C83_console` are met. -/
example : WorksWith [text] fac ∧ (Con.loadAll id [text] Org.init0).isSome = true ∧ Untangled fac ∧ QueryText (askFac 3) (n!"fac(3,F)" ++ n!".") ∧ Node.defined [] (askFac 3) = true ∧
    ((Con.start id [text] n!"fac(3,F).\n;\n" Org.init0).steps 30 (List.replicate 2 (id, List.replicate 50 false))).toOption.map (fun c => (c.out, c.phase, c.cin)) =
      some (Con.greeting ++ n!"?- [F / 6]false\n", .prompt, ⟨[], true⟩) :=
  ⟨.last (pre := []) (post := []) (C41_program_text.1 (by decide +kernel)) (by decide +kernel) (by decide +kernel) (by simp), by decide +kernel, safe_of_b (by decide +kernel),
    C41_query_text.1 (by decide +kernel), by decide +kernel, by decide +kernel⟩

/-- `e(X,X).` -/
def same : List Clause := [⟨.fn n!"e" [.var n!"X", .var n!"X"], []⟩]
/-- `A \\== b, e(A,b)` -/
def early : List Node := [.fn n!"\\==" [.var n!"A", .cons n!"b"], .fn n!"e" [.var n!"A", .cons n!"b"]]
/-- `A == b, e(A,b)` -/
def early' : List Node := [.fn n!"==" [.var n!"A", .cons n!"b"], .fn n!"e" [.var n!"A", .cons n!"b"]]

theorem same_args {g : GAtom ITree} (h : Truth itreeAlg (inForce same) g) : g.name = n!"e" → ∀ x y, g.args = [x, y] → x = y := by
  have e : inForce same = same ++ appendClauses := rfl
  cases h with
  | @clause c ρ hc =>
    rw [e] at hc
    simp only [same, appendClauses, List.cons_append, List.nil_append, List.mem_cons, List.not_mem_nil, or_false] at hc
    rcases hc with rfl | rfl | rfl
    · intro _ x y h
      simp only [Node.inst, Node.children, Node.evals, Node.eval, List.cons.injEq, and_true] at h
      exact h.1.symm.trans h.2
    · simp [Node.inst, Node.name]
    · simp [Node.inst, Node.name]
  | eq => simp
  | neq => simp
  | is => simp

end ComputesExample

open ComputesExample in
/-- **C83**, an example: whatever the number and whatever the clock does, every answer to `fac(n,F)` shows the factorial of `n`, and when there are no more answers,
then there has been one. -/
theorem C83_factorial (n : Nat) {o o' : Org} {fuel clocks rs} (h : Asked o fac (askFac n)) (hpr : Printable o.st) (hs : o.session fuel clocks = .ok (o', rs)) :
    ∃ s, IntText (fact n) s ∧ (∀ bs, .answer bs ∈ rs → bs = [⟨n!"F", s⟩]) ∧ (rs.getLast? = some .noAnswer → .answer [⟨n!"F", s⟩] ∈ rs) := by
  obtain ⟨ts, h1, h2⟩ := C05_timeouts_transparent h.reach hs
  obtain ⟨reps, b1, b2⟩ := C83_sound h (directed n) h1
  have key : ∀ bs, .answer bs ∈ rs → bs = [⟨n!"F", intStr (fact n)⟩] := by
    intro bs hb
    have : .answer bs ∈ reports ts := by rw [← h2]; exact List.mem_filter.2 ⟨hb, rfl⟩
    obtain ⟨S, c1, c2⟩ := forall₂_meet b1 this
    exact bindings hpr h.stOK c2 fun ρ gs hg => b2 ρ ⟨S, gs, c1, hg⟩
  refine ⟨_, intText _, key, fun hl => ?_⟩
  obtain ⟨reps', d1, d2⟩ := C83_sessions h (directed n) hs hl
  obtain ⟨S, gs, e1, e2⟩ := (d2 (fun _ => itreeAlg.int (fact n))).2 ((solutions n _).2 rfl)
  obtain ⟨r, hr, h5⟩ := forall₂_of_mem' d1 e1
  cases h5 with
  | @answer bs S h5 =>
    have hr := (List.mem_filter.1 hr).1
    rw [← key bs hr]
    exact hr

open ComputesExample SoundExamples in
/-- It is needed that the inputs are known: `A \\== b, e(A,b)` has no solution, but an answer; and `A == b, e(A,b)` has a solution, but no answer. -/
theorem C83_needed : (Asked (demo same early) same early ∧ (¬ ∃ ρ, Fulfils (inForce same) early ρ) ∧
      ((demo same early).iterate 20 20).toOption.map (fun r => (r.1.queue, reports r.2)) = some ([], [.answer [⟨n!"A", n!"b"⟩]])) ∧
    Asked (demo same early') same early' ∧ (∃ ρ, Fulfils (inForce same) early' ρ) ∧
      ((demo same early').iterate 20 20).toOption.map (fun r => (r.1.queue, reports r.2)) = some ([], []) := by
  refine ⟨⟨asked_demo (by decide +kernel) (by decide +kernel) (safe_of_b (by decide +kernel)) (by decide) (by simp [early]) (by decide +kernel), ?_, by decide +kernel⟩,
    asked_demo (by decide +kernel) (by decide +kernel) (safe_of_b (by decide +kernel)) (by decide) (by simp [early']) (by decide +kernel), ⟨fun _ => itreeAlg.cons n!"b", ?_⟩, by decide +kernel⟩
  · rintro ⟨ρ, h⟩
    exact (h _ (.head _)).neq_inv (same_args (h _ (.tail _ (.head _))) rfl _ _ rfl)
  · intro a ha
    simp only [early', List.mem_cons, List.not_mem_nil, or_false] at ha
    rcases ha with rfl | rfl
    · exact .eq
    · exact Truth.clause (A := itreeAlg) (P := inForce same) (ρ := fun _ => itreeAlg.cons n!"b") (c := ⟨.fn n!"e" [.var n!"X", .var n!"X"], []⟩) (.head _) (by simp)

end PBfs
