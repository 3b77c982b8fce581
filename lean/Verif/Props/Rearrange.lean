import Verif.Spec.Rearrange
import Verif.Props.Proofs
/-! # C87: another order of clauses and goals changes only the order of the answers -/
namespace PBfs
open Org

/-! ## Positions -/

/-- The positions at which the elements are after rearranging, and back. -/
theorem perm_index {α} {l l2 : List α} (h : l.Perm l2) : ∃ f g : Nat → Nat, ∀ i, i < l.length →
    l2[f i]? = l[i]? ∧ g (f i) = i ∧ f i < l.length ∧ l[g i]? = l2[i]? ∧ f (g i) = i ∧ g i < l.length := by
  induction h with
  | nil => exact ⟨id, id, fun i hi => absurd hi (by simp)⟩
  | @cons x l l2 h ih =>
    obtain ⟨f, g, ih⟩ := ih
    refine ⟨fun | 0 => 0 | i + 1 => f i + 1, fun | 0 => 0 | i + 1 => g i + 1, fun i hi => ?_⟩
    cases i with
    | zero => simp
    | succ i =>
      obtain ⟨h1, h2, h3, h4, h5, h6⟩ := ih i (by simpa using hi)
      exact ⟨by simpa using h1, by simp [h2], by simpa using h3, by simp only [List.getElem?_cons_succ, h4], by simp [h5], by simpa using h6⟩
  | swap x y l =>
    refine ⟨fun | 0 => 1 | 1 => 0 | i + 2 => i + 2, fun | 0 => 1 | 1 => 0 | i + 2 => i + 2, fun i hi => ?_⟩
    match i, hi with
    | 0, _ => simp
    | 1, _ => simp
    | i + 2, hi =>
      simp only [List.length_cons] at hi
      simp
      omega
  | @trans l1 l2 l3 h1 h2 ih1 ih2 =>
    obtain ⟨f, g, ih1⟩ := ih1
    obtain ⟨f', g', ih2⟩ := ih2
    refine ⟨fun i => f' (f i), fun i => g (g' i), fun i hi => ?_⟩
    have hl := h1.length_eq
    obtain ⟨a1, a2, a3, a4, a5, a6⟩ := ih1 i hi
    obtain ⟨b1, b2, b3, b4, b5, b6⟩ := ih2 (f i) (by omega)
    obtain ⟨d1, d2, d3, d4, d5, d6⟩ := ih2 i (by omega)
    obtain ⟨e1, e2, e3, e4, e5, e6⟩ := ih1 (g' i) (by omega)
    refine ⟨b1.trans a1, ?_, by show f' (f i) < _; omega, e4.trans d4, ?_, e6⟩
    · show g (g' (f' (f i))) = i
      rw [b2, a2]
    · show f' (f (g (g' i))) = i
      rw [e5, d5]

/-! ## Proofs as trees -/

/-- A proof of one goal: by `==`, `\==` or `is`, or with the clause at a position and proofs of its goals. -/
inductive PTree where
  | own
  | node (k : Nat) (ts : List PTree)

section
variable (P : List Clause)
mutual
/-- The tree proves the atom. -/
def PTree.Shows : PTree → GAtom ITree → Prop
  | .own, g => OwnTrue g
  | .node k ts, g => ∃ c σ, P[k]? = some c ∧ g = c.head.inst itreeAlg σ ∧ PTree.ShowsL ts (c.body.map (Node.inst itreeAlg σ))
def PTree.ShowsL : List PTree → List (GAtom ITree) → Prop
  | [], [] => True
  | t :: ts, g :: gs => PTree.Shows t g ∧ PTree.ShowsL ts gs
  | [], _ :: _ => False
  | _ :: _, [] => False
end
end

mutual
/-- The positions of the clauses used, from left to right. -/
def PTree.word : PTree → List Nat
  | .own => []
  | .node k ts => k :: PTree.wordL ts
def PTree.wordL : List PTree → List Nat
  | [] => []
  | t :: ts => PTree.word t ++ PTree.wordL ts
end

namespace PTree
variable {P P2 : List Clause}

theorem showsL_append {ts gs ts' gs'} (h : ShowsL P ts gs) (h' : ShowsL P ts' gs') : ShowsL P (ts ++ ts') (gs ++ gs') := by
  induction ts generalizing gs with
  | nil => cases gs with
    | nil => exact h'
    | cons => exact h.elim
  | cons t ts ih => cases gs with
    | nil => exact h.elim
    | cons g gs => exact ⟨h.1, ih h.2⟩

theorem showsL_split {gs gs' ts} (h : ShowsL P ts (gs ++ gs')) : ∃ t1 t2, ts = t1 ++ t2 ∧ ShowsL P t1 gs ∧ ShowsL P t2 gs' := by
  induction gs generalizing ts with
  | nil => exact ⟨[], ts, rfl, trivial, h⟩
  | cons g gs ih => cases ts with
    | nil => exact h.elim
    | cons t ts =>
      obtain ⟨t1, t2, rfl, h1, h2⟩ := ih h.2
      exact ⟨t :: t1, t2, rfl, ⟨h.1, h1⟩, h2⟩

theorem wordL_append (ts ts' : List PTree) : wordL (ts ++ ts') = wordL ts ++ wordL ts' := by
  induction ts with
  | nil => rfl
  | cons t ts ih => simp [wordL, ih]

theorem showsL_length {ts gs} (h : ShowsL P ts gs) : ts.length = gs.length := by
  induction ts generalizing gs with
  | nil => cases gs with
    | nil => rfl
    | cons => exact h.elim
  | cons t ts ih => cases gs with
    | nil => exact h.elim
    | cons g gs => simp [ih h.2]

theorem showsL_iff {ts gs} : ShowsL P ts gs ↔ ts.length = gs.length ∧ ∀ (i : Nat) t g, ts[i]? = some t → gs[i]? = some g → Shows P t g := by
  induction ts generalizing gs with
  | nil => cases gs <;> simp [ShowsL]
  | cons t ts ih => cases gs with
    | nil => simp [ShowsL]
    | cons g gs =>
      simp only [ShowsL, ih, List.length_cons, Nat.add_right_cancel_iff]
      constructor
      · rintro ⟨h1, h2, h3⟩
        refine ⟨h2, fun i t' g' ht hg => ?_⟩
        cases i with
        | zero => simp only [List.getElem?_cons_zero, Option.some.injEq] at ht hg; subst ht hg; exact h1
        | succ i => exact h3 i t' g' (by simpa using ht) (by simpa using hg)
      · rintro ⟨h2, h3⟩
        exact ⟨h3 0 t g rfl rfl, h2, fun i t' g' ht hg => h3 (i + 1) t' g' (by simpa using ht) (by simpa using hg)⟩

/-- Every proof is the listing of a tree. -/
theorem of_follows {w gs} (h : Follows P w gs) : ∃ ts, ShowsL P ts gs ∧ wordL ts = w := by
  induction h with
  | nil => exact ⟨[], trivial, rfl⟩
  | @clause k c σ w rest hk _ ih =>
    obtain ⟨ts, h1, h2⟩ := ih
    obtain ⟨t1, t2, rfl, h3, h4⟩ := showsL_split h1
    refine ⟨.node k t1 :: t2, ⟨⟨c, σ, hk, rfl, h3⟩, h4⟩, ?_⟩
    rw [wordL_append] at h2
    simp [wordL, word, h2]
  | own ho _ ih =>
    obtain ⟨ts, h1, h2⟩ := ih
    exact ⟨.own :: ts, ⟨ho, h1⟩, by simp [wordL, word, h2]⟩

mutual
theorem follows_one {w rest} : ∀ (t : PTree) {g}, Shows P t g → Follows P w rest → Follows P (word t ++ w) (g :: rest)
  | .own, g, h, hr => by
    rw [Shows] at h
    exact .own h hr
  | .node k ts, g, h, hr => by
    rw [Shows] at h
    obtain ⟨c, σ, h1, rfl, h3⟩ := h
    exact .clause h1 (follows_list ts h3 hr)
theorem follows_list {w rest} : ∀ (ts : List PTree) {gs}, ShowsL P ts gs → Follows P w rest → Follows P (wordL ts ++ w) (gs ++ rest)
  | [], [], _, hr => hr
  | t :: ts, g :: gs, h, hr => by
    rw [wordL, List.append_assoc]
    exact follows_one t h.1 (follows_list ts h.2 hr)
  | [], _ :: _, h, _ => h.elim
  | _ :: _, [], h, _ => h.elim
end

theorem follows {ts gs} (h : ShowsL P ts gs) : Follows P (wordL ts) gs := by
  simpa using follows_list ts h .nil

/-- Goals that call the same predicates, and proofs with the same listing: they are the same. -/
theorem same_fv {p : List Clause} : ∀ {c : Clause} {k : Nat} {g : GAtom ITree} {σ}, (inForce p)[k]? = some c → g = c.head.inst itreeAlg σ → g.fv ∉ ownFVs := by
  intro c k g σ hk hg
  rw [hg, head_fv]
  exact inForce_own c (List.mem_of_getElem? hk)

mutual
theorem unique_one {p : List Clause} : ∀ (t t' : PTree) {g g' w w'}, Shows (inForce p) t g → Shows (inForce p) t' g' → g.fv = g'.fv → word t ++ w = word t' ++ w' → t = t' ∧ w = w'
  | .own, .own, _, _, _, _, _, _, _, hw => ⟨rfl, hw⟩
  | .own, .node k ts, g, g', _, _, h, h', hf, _ => by
    simp only [Shows] at h h'
    obtain ⟨c, σ, h1, h2, _⟩ := h'
    exact absurd (hf ▸ h.fv) (same_fv h1 h2)
  | .node k ts, .own, g, g', _, _, h, h', hf, _ => by
    simp only [Shows] at h h'
    obtain ⟨c, σ, h1, h2, _⟩ := h
    exact absurd (hf ▸ h'.fv) (same_fv h1 h2)
  | .node k ts, .node k' ts', g, g', _, _, h, h', hf, hw => by
    simp only [Shows] at h h'
    obtain ⟨c, σ, h1, h2, h3⟩ := h
    obtain ⟨c', σ', h1', h2', h3'⟩ := h'
    simp only [word, List.cons_append, List.cons.injEq] at hw
    obtain ⟨rfl, hw⟩ := hw
    rw [h1] at h1'
    cases h1'
    obtain ⟨rfl, e⟩ := unique_list ts ts' h3 h3' (by simp only [List.map_map]; exact List.map_congr_left fun b _ => by simp [head_fv]) hw
    exact ⟨rfl, e⟩
theorem unique_list {p : List Clause} : ∀ (ts ts' : List PTree) {gs gs' w w'}, ShowsL (inForce p) ts gs → ShowsL (inForce p) ts' gs' → gs.map GAtom.fv = gs'.map GAtom.fv →
    wordL ts ++ w = wordL ts' ++ w' → ts = ts' ∧ w = w'
  | [], [], [], [], _, _, _, _, _, hw => ⟨rfl, hw⟩
  | t :: ts, t' :: ts', g :: gs, g' :: gs', _, _, h, h', hf, hw => by
    simp only [List.map_cons, List.cons.injEq] at hf
    simp only [wordL, List.append_assoc] at hw
    obtain ⟨rfl, e⟩ := unique_one t t' h.1 h'.1 hf.1 hw
    obtain ⟨rfl, e'⟩ := unique_list ts ts' h.2 h'.2 hf.2 e
    exact ⟨rfl, e'⟩
  | [], _ :: _, [], [], _, _, _, h', _, _ => h'.elim
  | _, _ :: _, _, [], _, _, _, h', _, _ => h'.elim
  | _, [], _, _ :: _, _, _, _, h', _, _ => h'.elim
  | [], _, _ :: _, _, _, _, h, _, _, _ => h.elim
  | _ :: _, _, [], _, _, _, h, _, _, _ => h.elim
  | [], _ :: _, [], _ :: _, _, _, _, _, hf, _ => by simp at hf
  | _ :: _, [], _ :: _, [], _, _, _, _, hf, _ => by simp at hf
end

/-! ## Rearranging trees -/

/-- The elements in another order. -/
def pick (g : Nat → Nat) (ts : List PTree) : List PTree := (List.range ts.length).map fun j => ts.getD (g j) .own

variable (κ : Nat → Nat) (G : Nat → Nat → Nat)
mutual
/-- Other positions of the clauses, and the proofs of their goals in another order. -/
def shuffle : PTree → PTree
  | .own => .own
  | .node k ts => .node (κ k) (pick (G k) (shuffleL ts))
def shuffleL : List PTree → List PTree
  | [] => []
  | t :: ts => shuffle t :: shuffleL ts
end
variable {κ G}

theorem shuffleL_map (ts : List PTree) : shuffleL κ G ts = ts.map (shuffle κ G) := by
  induction ts with
  | nil => rfl
  | cons t ts ih => simp [shuffleL, ih]

theorem pick_length (g ts) : (pick g ts).length = ts.length := by simp [pick]

theorem pick_map (g ts) : (pick g ts).map (shuffle κ G) = pick g (ts.map (shuffle κ G)) := by
  simp only [pick, List.map_map, List.length_map]
  refine List.map_congr_left fun j _ => ?_
  simp only [Function.comp, List.getD_eq_getElem?_getD, List.getElem?_map]
  cases ts[g j]? <;> rfl

theorem pick_getElem? {g ts} {j : Nat} (hj : j < ts.length) (hg : g j < ts.length) : (pick g ts)[j]? = ts[g j]? := by
  simp [pick, hj, List.getD_eq_getElem?_getD, hg]

theorem pick_pick {f g : Nat → Nat} {ts : List PTree} (h : ∀ i, i < ts.length → g (f i) = i ∧ f i < ts.length) : pick f (pick g ts) = ts := by
  apply List.ext_getElem?
  intro i
  by_cases hi : i < ts.length
  · obtain ⟨h1, h2⟩ := h i hi
    rw [pick_getElem? (by rwa [pick_length]) (by rwa [pick_length]), pick_getElem? h2 (by omega), h1]
  · rw [List.getElem?_eq_none (by rw [pick_length, pick_length]; omega), List.getElem?_eq_none (by omega)]

theorem showsL_pick {g ts} {gs gs2 : List (GAtom ITree)} (h : ShowsL P ts gs) (hl : gs2.length = gs.length) (hg : ∀ j, j < gs.length → gs[g j]? = gs2[j]?) : ShowsL P (pick g ts) gs2 := by
  obtain ⟨h1, h2⟩ := showsL_iff.1 h
  refine showsL_iff.2 ⟨by rw [pick_length]; omega, fun j t a ht ha => ?_⟩
  have hj : j < gs2.length := (List.getElem?_eq_some_iff.1 ha).1
  have e := hg j (by omega)
  rw [ha] at e
  have hgj : g j < gs.length := (List.getElem?_eq_some_iff.1 e).1
  rw [pick_getElem? (by omega) (by omega)] at ht
  exact h2 _ _ _ ht e

/-- Positions of clauses and of goals in two programs, and back. -/
structure Match (P P2 : List Clause) (κ κ' : Nat → Nat) (G G' : Nat → Nat → Nat) : Prop where
  clause : ∀ k c, P[k]? = some c → κ' (κ k) = k ∧ ∃ c2, P2[κ k]? = some c2 ∧ c2.head = c.head ∧ c2.body.length = c.body.length ∧
    ∀ j, j < c.body.length → c.body[G k j]? = c2.body[j]? ∧ G k (G' (κ k) j) = j ∧ G' (κ k) j < c.body.length

theorem map_pick {α β} {f : α → β} {l l2 : List α} {g : Nat → Nat} {n : Nat} (h : ∀ j, j < n → l[g j]? = l2[j]?) : ∀ j, j < n → (l.map f)[g j]? = (l2.map f)[j]? :=
  fun j hj => by rw [List.getElem?_map, List.getElem?_map, h j hj]

variable {κ' : Nat → Nat} {G' : Nat → Nat → Nat}

mutual
theorem Match.shows (hm : Match P P2 κ κ' G G') : ∀ (t : PTree) {g}, Shows P t g → Shows P2 (shuffle κ G t) g ∧ shuffle κ' G' (shuffle κ G t) = t
  | .own, g, h => ⟨h, rfl⟩
  | .node k ts, g, h => by
    simp only [Shows] at h
    obtain ⟨c, σ, h1, rfl, h3⟩ := h
    obtain ⟨e0, c2, e1, e2, e3, e4⟩ := hm.clause k c h1
    obtain ⟨f1, f2⟩ := hm.showsL ts h3
    have hlen := showsL_length h3
    have hlen' := showsL_length f1
    simp only [List.length_map] at hlen hlen'
    refine ⟨?_, ?_⟩
    · simp only [shuffle, Shows]
      exact ⟨c2, σ, e1, by rw [e2], showsL_pick f1 (by simp [e3]) (by
        simp only [List.length_map]
        exact map_pick fun j hj => (e4 j hj).1)⟩
    · simp only [shuffle, shuffleL_map] at f2 ⊢
      rw [pick_map, f2, e0, pick_pick fun i hi => (e4 i (by omega)).2.imp_right fun h => by omega]
theorem Match.showsL (hm : Match P P2 κ κ' G G') : ∀ (ts : List PTree) {gs}, ShowsL P ts gs → ShowsL P2 (shuffleL κ G ts) gs ∧ shuffleL κ' G' (shuffleL κ G ts) = ts
  | [], [], _ => ⟨trivial, rfl⟩
  | t :: ts, g :: gs, h => by
    obtain ⟨a1, a2⟩ := hm.shows t h.1
    obtain ⟨b1, b2⟩ := hm.showsL ts h.2
    exact ⟨⟨a1, b1⟩, by simp only [shuffleL, a2, b2]⟩
  | [], _ :: _, h => h.elim
  | _ :: _, [], h => h.elim
end

/-- Each proof of the query has one tree. -/
theorem trees (p : List Clause) (atoms : List Node) : ∃ T : List Nat → List PTree, ∀ ts ρ, ShowsL (inForce p) ts (atoms.map (Node.inst itreeAlg ρ)) → T (wordL ts) = ts := by
  suffices h : ∀ w, ∃ t : List PTree, ∀ ts ρ, ShowsL (inForce p) ts (atoms.map (Node.inst itreeAlg ρ)) → wordL ts = w → t = ts by
    obtain ⟨T, hT⟩ := Classical.skolem.1 h
    exact ⟨T, fun ts ρ h => hT _ ts ρ h rfl⟩
  intro w
  by_cases h : ∃ ts ρ, ShowsL (inForce p) ts (atoms.map (Node.inst itreeAlg ρ)) ∧ wordL ts = w
  · obtain ⟨ts, ρ, h1, rfl⟩ := h
    refine ⟨ts, fun ts' ρ' h' hw => (unique_list ts ts' h1 h' ?_ (w := []) (w' := []) (by simp [hw])).1⟩
    simp only [List.map_map]
    exact List.map_congr_left fun b _ => by simp [head_fv]
  · exact ⟨[], fun ts ρ h1 h2 => absurd ⟨ts, ρ, h1, h2⟩ h⟩

/-- A proof rearranged, and back. -/
theorem Match.back {p p2 : List Clause} {atoms atoms2 : List Node} (hm : Match (inForce p) (inForce p2) κ κ' G G') {f g : Nat → Nat} (hl : atoms2.length = atoms.length)
    (hfg : ∀ j, j < atoms.length → atoms[g j]? = atoms2[j]? ∧ g (f j) = j ∧ f j < atoms.length) {T T2 : List Nat → List PTree}
    (hT : ∀ ts ρ, ShowsL (inForce p) ts (atoms.map (Node.inst itreeAlg ρ)) → T (wordL ts) = ts)
    (hT2 : ∀ ts ρ, ShowsL (inForce p2) ts (atoms2.map (Node.inst itreeAlg ρ)) → T2 (wordL ts) = ts) {w ρ} (h : ProvedBy (inForce p) atoms w ρ) :
    ProvedBy (inForce p2) atoms2 (wordL (pick g (shuffleL κ G (T w)))) ρ ∧
      wordL (pick f (shuffleL κ' G' (T2 (wordL (pick g (shuffleL κ G (T w))))))) = w := by
  obtain ⟨ts, h1, rfl⟩ := of_follows h
  rw [hT ts ρ h1]
  obtain ⟨h2, h3⟩ := hm.showsL ts h1
  have h4 : ShowsL (inForce p2) (pick g (shuffleL κ G ts)) (atoms2.map (Node.inst itreeAlg ρ)) :=
    showsL_pick h2 (by simp [hl]) (by
      simp only [List.length_map]
      exact map_pick fun j hj => (hfg j hj).1)
  refine ⟨follows h4, ?_⟩
  rw [hT2 _ ρ h4]
  have hlen := showsL_length h1
  simp only [List.length_map] at hlen
  simp only [shuffleL_map] at h3 ⊢
  rw [pick_map, h3, pick_pick fun i hi => (hfg i (by omega)).2.imp_right fun h => by omega]

end PTree

theorem forall₂_entries {α β} {R : α → β → Prop} {as : List α} {bs : List β} (h : List.Forall₂ R as bs) : as.length = bs.length ∧
    ∀ (i : Nat) a b, as[i]? = some a → bs[i]? = some b → R a b := by
  induction h with
  | nil => simp
  | cons h1 _ ih =>
    refine ⟨by simp [ih.1], fun i a b ha hb => ?_⟩
    cases i with
    | zero => simp only [List.getElem?_cons_zero, Option.some.injEq] at ha hb; subst ha hb; exact h1
    | succ i => exact ih.2 i a b (by simpa using ha) (by simpa using hb)

theorem Rearranged.positions {P P2 : List Clause} (h : Rearranged P P2) : ∃ κ κ' G G', PTree.Match P P2 κ κ' G G' ∧ PTree.Match P2 P κ' κ G' G := by
  obtain ⟨p', h1, h2⟩ := h
  obtain ⟨f, g, hfg⟩ := perm_index h1
  obtain ⟨hl, h2⟩ := forall₂_entries h2
  have hl1 := h1.length_eq
  have : ∀ k, ∃ fg : (Nat → Nat) × (Nat → Nat), ∀ c c2, P[k]? = some c → P2[f k]? = some c2 → ∀ j, j < c.body.length →
      c2.body[fg.1 j]? = c.body[j]? ∧ fg.2 (fg.1 j) = j ∧ fg.1 j < c.body.length ∧ c.body[fg.2 j]? = c2.body[j]? ∧ fg.1 (fg.2 j) = j ∧ fg.2 j < c.body.length := by
    intro k
    by_cases hk : ∃ c c2, P[k]? = some c ∧ P2[f k]? = some c2
    · obtain ⟨c, c2, e1, e2⟩ := hk
      have hlt : k < P.length := (List.getElem?_eq_some_iff.1 e1).1
      obtain ⟨a, b, hab⟩ := perm_index (h2 (f k) c c2 ((hfg k hlt).1.trans e1) e2).2
      refine ⟨(a, b), fun c' c2' e1' e2' => ?_⟩
      rw [e1] at e1'
      rw [e2] at e2'
      cases e1'
      cases e2'
      exact hab
    · exact ⟨(id, id), fun c c2 e1 e2 => absurd ⟨c, c2, e1, e2⟩ hk⟩
  obtain ⟨H, hH⟩ := Classical.skolem.1 this
  refine ⟨f, g, fun k => (H k).2, fun m => (H (g m)).1, ⟨fun k c hk => ?_⟩, ⟨fun m c2 hm => ?_⟩⟩
  · have hlt : k < P.length := (List.getElem?_eq_some_iff.1 hk).1
    obtain ⟨a1, a2, a3, _⟩ := hfg k hlt
    obtain ⟨c2, hc2⟩ : ∃ c2, P2[f k]? = some c2 := ⟨_, List.getElem?_eq_getElem (by omega)⟩
    obtain ⟨b1, b2⟩ := h2 (f k) c c2 (a1.trans hk) hc2
    refine ⟨a2, c2, hc2, b1, b2.length_eq.symm, fun j hj => ?_⟩
    obtain ⟨d1, d2, d3, d4, d5, d6⟩ := hH k c c2 hk hc2 j hj
    rw [a2]
    exact ⟨d4, d2, d3⟩
  · have hlt : m < P2.length := (List.getElem?_eq_some_iff.1 hm).1
    obtain ⟨_, _, _, a4, a5, a6⟩ := hfg m (by omega)
    obtain ⟨c, hc⟩ : ∃ c, P[g m]? = some c := ⟨_, List.getElem?_eq_getElem a6⟩
    obtain ⟨b1, b2⟩ := h2 m c c2 (a4.symm.trans hc) hm
    refine ⟨a5, c, hc, b1.symm, b2.length_eq, fun j hj => ?_⟩
    have := b2.length_eq
    obtain ⟨d1, d2, d3, d4, d5, d6⟩ := hH (g m) c c2 hc (by rw [a5]; exact hm) j (by omega)
    exact ⟨d1, d5, by omega⟩

theorem forall₂_filter {α β} {R : α → β → Prop} {f : α → Bool} {g : β → Bool} (hR : ∀ a b, R a b → f a = g b) {as : List α} {bs : List β} (h : List.Forall₂ R as bs) :
    List.Forall₂ R (as.filter f) (bs.filter g) := by
  induction h with
  | nil => exact .nil
  | @cons a b _ _ h1 _ ih =>
    have := hR _ _ h1
    cases hf : f a with
    | true => rw [List.filter_cons_of_pos hf, List.filter_cons_of_pos (by rw [← this, hf])]; exact .cons h1 ih
    | false => rw [List.filter_cons_of_neg (by simp [hf]), List.filter_cons_of_neg (by simp [← this, hf])]; exact ih

theorem Rearranged.inForce {p p2 : List Clause} (h : Rearranged p p2) : Rearranged (inForce p) (inForce p2) := by
  obtain ⟨p', h1, h2⟩ := h
  refine ⟨PBfs.inForce p', (h1.filter _).append_right _, ?_⟩
  refine forall₂_append (forall₂_filter (fun c c2 h => by rw [h.1]) h2) ?_
  exact .cons ⟨rfl, .refl _⟩ (.cons ⟨rfl, .refl _⟩ .nil)

/-- The proofs with the one program are those with the other, in another order: of the same instances of the query. -/
theorem Rearranged.proofs {p p2 : List Clause} {atoms atoms2 : List Node} (hp : Rearranged p p2) (ha : atoms.Perm atoms2) : ∃ F F' : List Nat → List Nat,
    (∀ w ρ, ProvedBy (PBfs.inForce p) atoms w ρ → ProvedBy (PBfs.inForce p2) atoms2 (F w) ρ ∧ F' (F w) = w) ∧
    (∀ w ρ, ProvedBy (PBfs.inForce p2) atoms2 w ρ → ProvedBy (PBfs.inForce p) atoms (F' w) ρ ∧ F (F' w) = w) := by
  obtain ⟨κ, κ', G, G', m1, m2⟩ := hp.inForce.positions
  obtain ⟨f, g, hfg⟩ := perm_index ha
  obtain ⟨T, hT⟩ := PTree.trees p atoms
  obtain ⟨T2, hT2⟩ := PTree.trees p2 atoms2
  have hl := ha.length_eq
  exact ⟨fun w => PTree.wordL (PTree.pick g (PTree.shuffleL κ G (T w))), fun w => PTree.wordL (PTree.pick f (PTree.shuffleL κ' G' (T2 w))), fun w ρ h => m1.back (f := f) (g := g) hl.symm (fun j hj => ⟨(hfg j hj).2.2.2.1, (hfg j hj).2.1, (hfg j hj).2.2.1⟩) hT hT2 h,
    fun w ρ h => m2.back (f := g) (g := f) hl (fun j hj => ⟨(hfg j (by omega)).1, (hfg j (by omega)).2.2.2.2.1, by have := (hfg j (by omega)).2.2.2.2.2; omega⟩) hT2 hT h⟩

/-- So both have the same solutions. -/
theorem Rearranged.fulfils {p p2 : List Clause} {atoms atoms2 : List Node} (hp : Rearranged p p2) (ha : atoms.Perm atoms2) {ρ} :
    Fulfils (PBfs.inForce p) atoms ρ ↔ Fulfils (PBfs.inForce p2) atoms2 ρ := by
  obtain ⟨F, F', h1, h2⟩ := hp.proofs ha
  rw [fulfils_iff, fulfils_iff]
  exact ⟨fun ⟨w, h⟩ => ⟨_, (h1 w ρ h).1⟩, fun ⟨w, h⟩ => ⟨_, (h2 w ρ h).1⟩⟩

theorem HasValues.rearranged {p p2 : List Clause} {atoms atoms2 : List Node} (hp : Rearranged p p2) (ha : atoms.Perm atoms2) (h : HasValues (inForce p) atoms) : HasValues (inForce p2) atoms2 := by
  intro ρ hρ x ⟨a, h1, h2⟩
  exact h ρ ((hp.fulfils ha).2 hρ) x ⟨a, ha.mem_iff.2 h1, h2⟩

/-! ## Answers -/

theorem forall₂_perm {α β} {R : α → β → Prop} {as : List α} {bs bs' : List β} (h : List.Forall₂ R as bs) (hp : bs.Perm bs') : ∃ as', as.Perm as' ∧ List.Forall₂ R as' bs' := by
  induction hp generalizing as with
  | nil => exact ⟨as, .refl _, h⟩
  | cons x _ ih =>
    cases h with
    | cons h1 h2 =>
      obtain ⟨as', h3, h4⟩ := ih h2
      exact ⟨_, h3.cons _, .cons h1 h4⟩
  | swap x y l =>
    cases h with
    | cons h1 h2 =>
      cases h2 with
      | cons h2 h3 => exact ⟨_, .swap _ _ _, .cons h2 (.cons h1 h3)⟩
  | trans _ _ ih1 ih2 =>
    obtain ⟨as1, h1, h2⟩ := ih1 h
    obtain ⟨as2, h3, h4⟩ := ih2 h2
    exact ⟨as2, h1.trans h3, h4⟩

/-- What is reported with proofs, by the proofs alone. -/
theorem forall₂_keep {α β} {R : α → Option β → Prop} {f : α → Bool} (hR : ∀ a b, R a b → (f a = true ↔ b.isSome = true)) {as : List α} {bs : List (Option β)}
    (h : List.Forall₂ R as bs) : List.Forall₂ (fun a b => R a (some b)) (as.filter f) (bs.filterMap id) := by
  induction h with
  | nil => exact .nil
  | @cons a b _ _ h1 _ ih =>
    have := hR _ _ h1
    cases b with
    | none =>
      rw [List.filter_cons_of_neg (by simp [this])]
      exact ih
    | some b =>
      rw [List.filter_cons_of_pos (by simp [this])]
      exact .cons h1 ih

theorem forall₂_map_right {α β γ} {R : α → β → Prop} {T : α → γ → Prop} {f : β → γ} {as : List α} {bs : List β} (h : List.Forall₂ R as bs) (hT : ∀ a b, b ∈ bs → R a b → T a (f b)) :
    List.Forall₂ T as (bs.map f) := by
  induction h with
  | nil => exact .nil
  | cons h1 _ ih => exact .cons (hT _ _ (.head _) h1) (ih fun a b hb => hT a b (.tail _ hb))

/-- Lists of the proofs of two queries, in which each is once. -/
theorem proofs_perm {p p2 : List Clause} {atoms atoms2 : List Node} {F F' : List Nat → List Nat}
    (h1 : ∀ w ρ, ProvedBy (inForce p) atoms w ρ → ProvedBy (inForce p2) atoms2 (F w) ρ ∧ F' (F w) = w)
    (h2 : ∀ w ρ, ProvedBy (inForce p2) atoms2 w ρ → ProvedBy (inForce p) atoms (F' w) ρ ∧ F (F' w) = w) {ws ws2 : List (List Nat)} (hn : ws.Nodup) (hn2 : ws2.Nodup)
    (hw : ∀ w, w ∈ ws ↔ ∃ ρ, ProvedBy (inForce p) atoms w ρ) (hw2 : ∀ w, w ∈ ws2 ↔ ∃ ρ, ProvedBy (inForce p2) atoms2 w ρ) : (ws.map F).Perm ws2 := by
  refine (List.perm_ext_iff_of_nodup ?_ hn2).2 fun w => ?_
  · refine List.Nodup.map_on (fun a ha b hb e => ?_) hn
    obtain ⟨ρ, ha⟩ := (hw a).1 ha
    obtain ⟨σ, hb⟩ := (hw b).1 hb
    rw [← (h1 _ _ ha).2, ← (h1 _ _ hb).2, e]
  · rw [hw2, List.mem_map]
    constructor
    · rintro ⟨v, hv, rfl⟩
      obtain ⟨ρ, hv⟩ := (hw v).1 hv
      exact ⟨ρ, (h1 _ _ hv).1⟩
    · rintro ⟨ρ, hv⟩
      exact ⟨F' w, (hw _).2 ⟨ρ, (h2 _ _ hv).1⟩, (h2 _ _ hv).2⟩

theorem Proven.isSome {P atoms rep ow} (h : Proven P atoms rep ow) : rep.isAnswer = true ↔ ow.isSome = true := by
  cases h <;> simp [Rep.isAnswer]

theorem forall₂_join {α β γ} {R : α → γ → Prop} {T : β → γ → Prop} {as : List α} {bs : List β} {cs : List γ} (h : List.Forall₂ R as cs) (h' : List.Forall₂ T bs cs) :
    List.Forall₂ (fun a b => ∃ c, R a c ∧ T b c) as bs := by
  induction h generalizing bs with
  | nil => cases h'; exact .nil
  | cons h _ ih =>
    cases h' with
    | cons h' hs' => exact .cons ⟨_, h, h'⟩ (ih hs')

theorem proven_iff {st atoms fuel p} {rs : List Res} {reps : List Rep} {ws : List (Option (List Nat))} (h1 : List.Forall₂ (Meets st atoms fuel) rs reps)
    (h2 : List.Forall₂ (Proven (inForce p) atoms) reps ws) (h : ∀ w ρ, ProvedBy (inForce p) atoms w ρ → some w ∈ ws) (w) :
    w ∈ ws.filterMap id ↔ ∃ ρ, ProvedBy (inForce p) atoms w ρ := by
  refine ⟨fun hw => ?_, fun ⟨ρ, hw⟩ => by simpa using h w ρ hw⟩
  obtain ⟨r, hr, rep, b1, b2⟩ := forall₂_of_mem' (forall₂_trans h1 h2) (y := some w) (by simpa using hw)
  cases b2 with
  | answer b2 =>
    cases b1 with
    | answer b1 =>
      obtain ⟨ρ, gs, hg⟩ := b1.some
      exact ⟨ρ, (b2 ρ).1 ⟨gs, hg⟩⟩

section
variable {o o' o2 o2' : Org} {p p2 : List Clause} {atoms atoms2 : List Node} {M M2 : Modes} {fuel fuel2 : Nat}

theorem answers_match (hp : Rearranged p p2) (ha : atoms.Perm atoms2) {st st2} {rs rs2 : List Res} {reps reps2 : List Rep} {ws ws2 : List (Option (List Nat))}
    (h1 : List.Forall₂ (Meets st atoms fuel) rs reps) (h2 : List.Forall₂ (Proven (inForce p) atoms) reps ws) (h3 : (ws.filterMap id).Nodup)
    (h4 : ∀ w ρ, ProvedBy (inForce p) atoms w ρ → some w ∈ ws) (g1 : List.Forall₂ (Meets st2 atoms2 fuel2) rs2 reps2)
    (g2 : List.Forall₂ (Proven (inForce p2) atoms2) reps2 ws2) (g3 : (ws2.filterMap id).Nodup) (g4 : ∀ w ρ, ProvedBy (inForce p2) atoms2 w ρ → some w ∈ ws2) :
    ∃ reps', (reps.filter Rep.isAnswer).Perm reps' ∧ List.Forall₂ SameInsts reps' (reps2.filter Rep.isAnswer) := by
  obtain ⟨F, F', hF, hF'⟩ := hp.proofs ha
  have a1 := forall₂_keep (R := Proven (inForce p) atoms) (fun _ _ h => h.isSome) h2
  have a2 := forall₂_keep (R := Proven (inForce p2) atoms2) (fun _ _ h => h.isSome) g2
  have hpm := proofs_perm hF hF' h3 g3 (proven_iff h1 h2 h4) (proven_iff g1 g2 g4)
  have a3 := forall₂_map_right (f := F) (T := fun rep w2 => ∃ S, rep = .answer S ∧ ∀ ρ, (∃ gs, S ρ gs) ↔ ProvedBy (inForce p2) atoms2 w2 ρ) a1 (by
    intro rep w hw hr
    obtain ⟨σ, hσ⟩ := (proven_iff h1 h2 h4 w).1 hw
    cases hr with
    | @answer S w hr =>
      refine ⟨S, rfl, fun ρ => (hr ρ).trans ⟨fun h => (hF w ρ h).1, fun h => ?_⟩⟩
      have := (hF' _ ρ h).1
      rwa [(hF w σ hσ).2] at this)
  obtain ⟨reps', c1, c2⟩ := forall₂_perm a3 hpm
  refine ⟨reps', c1, (forall₂_join c2 a2).imp ?_⟩
  rintro _ _ ⟨w, ⟨S, rfl, d1⟩, d2⟩
  cases d2 with
  | @answer S2 w d2 => exact fun ρ => (d1 ρ).trans (d2 ρ).symm

/-- **C87**: two searches that have ended, with programs and queries that differ only in the order of clauses and goals, have found the same answers, each as often, perhaps in another order. -/
theorem C87_answers (h : Asked o p atoms) (hM : Directed M p atoms) (h2 : Asked o2 p2 atoms2) (hM2 : Directed M2 p2 atoms2) (hp : Rearranged p p2) (ha : atoms.Perm atoms2)
    {k k2 ts ts2} (hr : o.iterate fuel k = .ok (o', ts)) (hq : o'.queue = []) (hr2 : o2.iterate fuel2 k2 = .ok (o2', ts2)) (hq2 : o2'.queue = []) :
    ∃ reps reps2 reps', List.Forall₂ (Meets o.st atoms fuel) (reports ts) reps ∧ List.Forall₂ (Meets o2.st atoms2 fuel2) (reports ts2) reps2 ∧
      (reps.filter Rep.isAnswer).Perm reps' ∧ List.Forall₂ SameInsts reps' (reps2.filter Rep.isAnswer) := by
  obtain ⟨reps, ws, a1, a2, a3, a4⟩ := C86_proofs h hM hr
  obtain ⟨reps2, ws2, b1, b2, b3, b4⟩ := C86_proofs h2 hM2 hr2
  obtain ⟨reps', c1, c2⟩ := answers_match hp ha a1 a2 a3 (a4 hq) b1 b2 b3 (b4 hq2)
  exact ⟨reps, reps2, reps', a1, b1, c1, c2⟩

/-- The same for the calls of `get_answer` that have led to "no more answers". -/
theorem C87_sessions (h : Asked o p atoms) (hM : Directed M p atoms) (h2 : Asked o2 p2 atoms2) (hM2 : Directed M2 p2 atoms2) (hp : Rearranged p p2) (ha : atoms.Perm atoms2)
    {clocks clocks2 rs rs2} (hs : o.session fuel clocks = .ok (o', rs)) (hl : rs.getLast? = some .noAnswer) (hs2 : o2.session fuel2 clocks2 = .ok (o2', rs2))
    (hl2 : rs2.getLast? = some .noAnswer) :
    ∃ reps reps2 reps', List.Forall₂ (Meets o.st atoms fuel) (rs.filter Res.isReport) reps ∧ List.Forall₂ (Meets o2.st atoms2 fuel2) (rs2.filter Res.isReport) reps2 ∧
      (reps.filter Rep.isAnswer).Perm reps' ∧ List.Forall₂ SameInsts reps' (reps2.filter Rep.isAnswer) := by
  obtain ⟨reps, ws, a1, a2, a3, a4⟩ := C86_sessions h hM hs
  obtain ⟨reps2, ws2, b1, b2, b3, b4⟩ := C86_sessions h2 hM2 hs2
  obtain ⟨reps', c1, c2⟩ := answers_match hp ha a1 a2 a3 (a4 hl) b1 b2 b3 (b4 hl2)
  exact ⟨reps, reps2, reps', a1, b1, c1, c2⟩

theorem forall₂_length {α β} {R : α → β → Prop} {as : List α} {bs : List β} (h : List.Forall₂ R as bs) : as.length = bs.length := (forall₂_entries h).1

/-- In particular there are as many. -/
theorem C87_count (h : Asked o p atoms) (hM : Directed M p atoms) (h2 : Asked o2 p2 atoms2) (hM2 : Directed M2 p2 atoms2) (hp : Rearranged p p2) (ha : atoms.Perm atoms2)
    {k k2 ts ts2} (hr : o.iterate fuel k = .ok (o', ts)) (hq : o'.queue = []) (hr2 : o2.iterate fuel2 k2 = .ok (o2', ts2)) (hq2 : o2'.queue = []) :
    ((reports ts).filter Res.isAnswer).length = ((reports ts2).filter Res.isAnswer).length := by
  obtain ⟨reps, reps2, reps', h1, h2, h3, h4⟩ := C87_answers h hM h2 hM2 hp ha hr hq hr2 hq2
  have key : ∀ {st atoms fuel rs} {reps : List Rep}, List.Forall₂ (Meets st atoms fuel) rs reps → (rs.filter Res.isAnswer).length = (reps.filter Rep.isAnswer).length := by
    intro st atoms fuel rs reps h
    refine forall₂_length (forall₂_filter ?_ h)
    intro r rep hr
    cases hr <;> rfl
  rw [key h1, key h2, h3.length_eq, forall₂_length h4]

end

/-! ## The web page -/

theorem Line.solutionLine {q ρ l} (h : Line q ρ l) : solutionLine l = true := by
  obtain ⟨bs, _, _, _, h1, h2⟩ := h
  cases bs with
  | nil => rw [h1 rfl]; decide
  | cons b bs =>
    rw [h2 (by simp)]
    cases bs <;> simp [PBfs.solutionLine]

theorem error_no_solutionLine {e l} (h : LineFor (.error e) l) : solutionLine l = false := by
  simp only [LineFor] at h
  cases hk : e.kind <;> simp only [hk] at h
  · obtain ⟨pre, post, rfl, t, rfl⟩ := h
    simp [solutionLine]
  · obtain ⟨post, rfl⟩ := h
    simp [solutionLine]
  all_goals subst h; decide

theorem LineProves.isSome {P q l ow} (h : LineProves P q l ow) : solutionLine l = true ↔ ow.isSome = true := by
  cases ow with
  | none =>
    obtain ⟨e, h⟩ := h
    simp [error_no_solutionLine h]
  | some w =>
    obtain ⟨⟨ρ, h1⟩, h2⟩ := h
    simp [(h2 ρ h1).solutionLine]

/-- **C87 on the web page**: two boxes with "false" whose programs and queries differ only in the order of clauses and goals show the same solutions, each in as many lines. -/
theorem C87_lines {fuel : Nat} {es : List Event} {s : Site} (ha : Ample es) (ho : ProperRuns es) (h : Site.empty.steps fuel es = .ok s) {a b : Page} (hpa : a ∈ s.pages) (hpb : b ∈ s.pages)
    (hfa : n!"false" ∈ a.lines) (hfb : n!"false" ∈ b.lines) :
    ∃ ord program c ord2 program2 c2, Event.run ord program a.query c ∈ es ∧ Event.run ord2 program2 b.query c2 ∈ es ∧ ∀ cs q M cs2 q2 M2, Readable program a.query cs q → Directed M cs q →
      HasValues (inForce cs) q → Readable program2 b.query cs2 q2 → Directed M2 cs2 q2 → Rearranged cs cs2 → q.Perm q2 →
      ∃ ls, (a.lines.filter solutionLine).Perm ls ∧ List.Forall₂ (fun l l2 => ∃ ρ, Fulfils (inForce cs) q ρ ∧ Line q ρ l ∧ Line q2 ρ l2) ls (b.lines.filter solutionLine) := by
  obtain ⟨ord, program, c, a1, a2⟩ := C86_lines ha ho h a hpa
  obtain ⟨ord2, program2, c2, b1, b2⟩ := C86_lines ha ho h b hpb
  refine ⟨ord, program, c, ord2, program2, c2, a1, b1, fun cs q M cs2 q2 M2 hr hM hw hr2 hM2 hp hq => ?_⟩
  obtain ⟨ws, a3, a4, a5⟩ := a2 cs q M hr hM hw
  obtain ⟨ws2, b3, b4, b5⟩ := b2 cs2 q2 M2 hr2 hM2 (hw.rearranged hp hq)
  have hfil : ∀ ls : List Name, ((ls.filter (· ≠ n!"Soft memory limit reached. Please close some results.")).filter (· ≠ n!"false")).filter solutionLine = ls.filter solutionLine := by
    intro ls
    rw [List.filter_filter, List.filter_filter]
    refine List.filter_congr fun l _ => ?_
    cases hs : solutionLine l with
    | false => simp
    | true =>
      have n1 : l ≠ n!"false" := by rintro rfl; exact absurd hs (by decide)
      have n2 : l ≠ n!"Soft memory limit reached. Please close some results." := by rintro rfl; exact absurd hs (by decide)
      simp [n1, n2]
  have a6 := forall₂_keep (R := LineProves (inForce cs) q) (fun _ _ h => h.isSome) a3
  have b6 := forall₂_keep (R := LineProves (inForce cs2) q2) (fun _ _ h => h.isSome) b3
  rw [hfil] at a6 b6
  have mem : ∀ {P q} {ls : List Name} {ws : List (List Nat)}, List.Forall₂ (fun l w => LineProves P q l (some w)) ls ws → ∀ w ∈ ws, ∃ ρ, ProvedBy P q w ρ := by
    intro P q ls ws h w hw
    obtain ⟨l, _, h⟩ := forall₂_of_mem' h hw
    exact h.1
  obtain ⟨F, F', hF, hF'⟩ := hp.proofs hq
  have hpm := proofs_perm hF hF' a4 b4 (fun w => ⟨mem a6 w, fun ⟨ρ, hw⟩ => by simpa using a5 hfa w ρ hw⟩) (fun w => ⟨mem b6 w, fun ⟨ρ, hw⟩ => by simpa using b5 hfb w ρ hw⟩)
  have a7 := forall₂_map_right (f := F) (T := fun l w2 => ∃ ρ, ProvedBy (inForce cs) q (F' w2) ρ ∧ Line q ρ l) a6 (by
    intro l w hw hr
    obtain ⟨⟨ρ, h1⟩, h2⟩ := hr
    exact ⟨ρ, by rw [(hF w ρ h1).2]; exact h1, h2 ρ h1⟩)
  obtain ⟨ls, c1, c2⟩ := forall₂_perm a7 hpm
  refine ⟨ls, c1, (forall₂_join c2 b6).imp ?_⟩
  rintro l l2 ⟨w, ⟨ρ, d1, d2⟩, ⟨σ, d3⟩, d4⟩
  have := (hF _ ρ d1).1
  rw [(hF' w σ d3).2] at this
  exact ⟨ρ, fulfils_iff.2 ⟨_, d1⟩, d2, d4 ρ this⟩

/-! ## Concrete cases -/

namespace RearrangeExample
open SoundExamples CompleteExamples ComputesExample

/-- `p(a).  p(b).  r(X,Y) :- p(X), p(Y).` -/
def one : List Clause :=
  [⟨.fn n!"p" [.cons n!"a"], []⟩, ⟨.fn n!"p" [.cons n!"b"], []⟩, ⟨.fn n!"r" [.var n!"X", .var n!"Y"], [.fn n!"p" [.var n!"X"], .fn n!"p" [.var n!"Y"]]⟩]
/-- `p(b).  r(X,Y) :- p(Y), p(X).  p(a).` -/
def other : List Clause :=
  [⟨.fn n!"p" [.cons n!"b"], []⟩, ⟨.fn n!"r" [.var n!"X", .var n!"Y"], [.fn n!"p" [.var n!"Y"], .fn n!"p" [.var n!"X"]]⟩, ⟨.fn n!"p" [.cons n!"a"], []⟩]
/-- `r(A,B), p(A)` -/
def ask : List Node := [.fn n!"r" [.var n!"A", .var n!"B"], .fn n!"p" [.var n!"A"]]
/-- `p(A), r(A,B)` -/
def ask' : List Node := [.fn n!"p" [.var n!"A"], .fn n!"r" [.var n!"A", .var n!"B"]]

theorem rearranged : Rearranged one other := by
  refine ⟨[⟨.fn n!"p" [.cons n!"b"], []⟩, ⟨.fn n!"r" [.var n!"X", .var n!"Y"], [.fn n!"p" [.var n!"X"], .fn n!"p" [.var n!"Y"]]⟩, ⟨.fn n!"p" [.cons n!"a"], []⟩], ?_, ?_⟩
  · exact (List.Perm.swap _ _ _).trans ((List.Perm.swap _ _ _).cons _)
  · exact .cons ⟨rfl, .refl _⟩ (.cons ⟨rfl, .swap _ _ _⟩ (.cons ⟨rfl, .refl _⟩ .nil))

/-- The hypotheses of `C87_answers` are met, and the same answers come in another order. -/
example : Asked (demo one ask) one ask ∧ Directed .free one ask ∧ Asked (demo other ask') other ask' ∧ Directed .free other ask' ∧ Rearranged one other ∧ ask.Perm ask' :=
  ⟨asked_demo (by decide +kernel) (by decide +kernel) (safe_of_b (by decide +kernel)) (by decide) (by simp [ask]) (by decide +kernel), OnlyClauses.directed ⟨by decide, by decide⟩,
    asked_demo (by decide +kernel) (by decide +kernel) (safe_of_b (by decide +kernel)) (by decide) (by simp [ask']) (by decide +kernel), OnlyClauses.directed ⟨by decide, by decide⟩,
    rearranged, .swap _ _ _⟩

example : ((demo one ask).iterate 20 100).toOption.map (fun r => (r.1.queue, (reports r.2).map Res.text)) =
      some ([], [n!"[A / a] [B / a]", n!"[A / a] [B / b]", n!"[A / b] [B / a]", n!"[A / b] [B / b]"]) ∧
    ((demo other ask').iterate 20 100).toOption.map (fun r => (r.1.queue, (reports r.2).map Res.text)) =
      some ([], [n!"[A / b] [B / b]", n!"[A / b] [B / a]", n!"[A / a] [B / b]", n!"[A / a] [B / a]"]) := ⟨by decide +kernel, by decide +kernel⟩

/-- The text of both boxes, and what is clicked. -/
def clicks : List Event :=
  [.run id n!"p(a). p(b). r(X,Y) :- p(X), p(Y)." n!"r(A,B), p(A)" ⟨List.replicate 50 false, false, false⟩, .next 0 ⟨List.replicate 50 false, false, false⟩,
   .next 0 ⟨List.replicate 50 false, false, false⟩, .next 0 ⟨List.replicate 50 false, false, false⟩, .next 0 ⟨List.replicate 50 false, false, false⟩,
   .run id n!"p(b). r(X,Y) :- p(Y), p(X). p(a)." n!"p(A), r(A,B)" ⟨List.replicate 50 false, false, false⟩, .next 1 ⟨List.replicate 50 false, false, false⟩,
   .next 1 ⟨List.replicate 50 false, false, false⟩, .next 1 ⟨List.replicate 50 false, false, false⟩, .next 1 ⟨List.replicate 50 false, false, false⟩]

theorem truth_one {g : GAtom ITree} (h : Truth itreeAlg (inForce one) g) : (g.name = n!"p" → ∀ x, g.args = [x] → ∃ c, c ∈ [n!"a", n!"b"] ∧ x = itreeAlg.cons c) ∧
    (g.name = n!"r" → ∀ x y, g.args = [x, y] → ∃ c, c ∈ [n!"a", n!"b"] ∧ y = itreeAlg.cons c) := by
  have e : inForce one = one ++ appendClauses := rfl
  induction h with
  | @clause c ρ hc hb ih =>
    rw [e] at hc
    simp only [one, appendClauses, List.cons_append, List.nil_append, List.mem_cons, List.not_mem_nil, or_false] at hc
    rcases hc with rfl | rfl | rfl | rfl | rfl
    · refine ⟨fun _ x h => ?_, by simp [Node.inst, Node.name]⟩
      simp only [Node.inst, Node.children, Node.evals, Node.eval, List.cons.injEq, and_true] at h
      exact ⟨_, .head _, h.symm⟩
    · refine ⟨fun _ x h => ?_, by simp [Node.inst, Node.name]⟩
      simp only [Node.inst, Node.children, Node.evals, Node.eval, List.cons.injEq, and_true] at h
      exact ⟨_, .tail _ (.head _), h.symm⟩
    · refine ⟨by simp [Node.inst, Node.name], fun _ x y h => ?_⟩
      simp only [Node.inst, Node.children, Node.evals, Node.eval, List.cons.injEq, and_true] at h
      rw [← h.2]
      exact (ih (.fn n!"p" [.var n!"Y"]) (by simp)).1 rfl _ rfl
    · simp [Node.inst, Node.name]
    · simp [Node.inst, Node.name]
  | eq => simp
  | neq => simp
  | is => simp

theorem hasValues : HasValues (inForce one) ask := by
  intro ρ h x ⟨a, h1, h2⟩
  have hA := (truth_one (h (.fn n!"p" [.var n!"A"]) (by simp [ask]))).1 rfl _ rfl
  have hB := (truth_one (h (.fn n!"r" [.var n!"A", .var n!"B"]) (by simp [ask]))).2 rfl _ _ rfl
  have key : ∀ c : Name, c ∈ [n!"a", n!"b"] → Text (.cons c) c := fun _ _ => .cons
  have hx : x = n!"A" ∨ x = n!"B" := by
    simp only [ask, List.mem_cons, List.not_mem_nil, or_false] at h1
    rcases h1 with rfl | rfl
    · have : x ∈ [n!"A", n!"B"] := h2
      simpa using this
    · have : x ∈ [n!"A"] := h2
      exact .inl (by simpa using this)
  rcases hx with rfl | rfl
  · obtain ⟨c, hc, e⟩ := hA
    exact ⟨.cons c, c, e, key c hc⟩
  · obtain ⟨c, hc, e⟩ := hB
    exact ⟨.cons c, c, e, key c hc⟩

/-- The hypotheses of `C87_lines` are met. -/
example : Ample clicks ∧ ProperRuns clicks ∧ Readable n!"p(a). p(b). r(X,Y) :- p(X), p(Y)." n!"r(A,B), p(A)" one ask ∧ Readable n!"p(b). r(X,Y) :- p(Y), p(X). p(a)." n!"p(A), r(A,B)" other ask' ∧
    HasValues (inForce one) ask ∧ (Site.empty.steps 30 clicks).toOption.map (fun s => s.pages.map (fun p => (p.query, p.lines))) =
      some [(n!"r(A,B), p(A)", [n!"[A / a] [B / a]", n!"[A / a] [B / b]", n!"[A / b] [B / a]", n!"[A / b] [B / b]", n!"false"]),
        (n!"p(A), r(A,B)", [n!"[A / b] [B / b]", n!"[A / b] [B / a]", n!"[A / a] [B / b]", n!"[A / a] [B / a]", n!"false"])] := by
  refine ⟨?_, ?_, ⟨C41_program_text.1 (by decide +kernel), C41_query_text.1 (by decide +kernel), safe_of_b (by decide +kernel), by decide⟩,
    ⟨C41_program_text.1 (by decide +kernel), C41_query_text.1 (by decide +kernel), safe_of_b (by decide +kernel), by decide⟩, hasValues, by decide +kernel⟩
  · intro e he c hc
    simp only [clicks, List.mem_cons, List.not_mem_nil, or_false] at he
    rcases he with rfl | rfl | rfl | rfl | rfl | rfl | rfl | rfl | rfl | rfl <;> simp [Event.call?] at hc <;> subst hc <;> rfl
  · intro ord program query c h
    simp only [clicks, List.mem_cons, List.not_mem_nil, or_false] at h
    rcases h with h | h | h | h | h | h | h | h | h | h <;> cases h <;> exact HashOrder.id_ok

/-- `e(A,b), A \\== b` -/
def late : List Node := [.fn n!"e" [.var n!"A", .cons n!"b"], .fn n!"\\==" [.var n!"A", .cons n!"b"]]

end RearrangeExample

open RearrangeExample ComputesExample SoundExamples in
/-- It is needed that both programs have modes: `A \\== b, e(A,b)` has an answer, `e(A,b), A \\== b` has none. -/
theorem C87_needed : Asked (demo same early) same early ∧ Asked (demo same late) same late ∧ Rearranged same same ∧ early.Perm late ∧
    ((demo same early).iterate 20 20).toOption.map (fun r => (r.1.queue, reports r.2)) = some ([], [.answer [⟨n!"A", n!"b"⟩]]) ∧
    ((demo same late).iterate 20 20).toOption.map (fun r => (r.1.queue, reports r.2)) = some ([], []) :=
  ⟨C83_needed.1.1, asked_demo (by decide +kernel) (by decide +kernel) (safe_of_b (by decide +kernel)) (by decide) (by simp [late]) (by decide +kernel),
    ⟨same, .refl _, .cons ⟨rfl, .refl _⟩ .nil⟩, .swap _ _ _, C83_needed.1.2.2, by decide +kernel⟩

end PBfs
