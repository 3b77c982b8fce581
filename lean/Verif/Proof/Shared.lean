import Verif.Spec.Shared
import Verif.Proof.Frames3
/-! # Permanent registers in compiled code -/
namespace PBfs

theorem permSets_uses {i : Instr} {y} (h : i.setsPerm = some y) : i.usesPerm = none := by
  cases i <;> simp [Instr.setsPerm] at h <;> rfl

/-- Code run when the registers in `S` have values, and those in `S'` afterwards; `M` are the variables in it. -/
structure PermCode (yOf : Name → Option Nat) (S : List SReg) (M : Name → Prop) (is : List Instr) (S' : List SReg) : Prop where
  once : ∀ pre i post y, is = pre ++ i :: post →
    (i.setsPerm = some y → SReg.y y ∉ S ∧ ∀ j ∈ pre, j.setsPerm ≠ some y ∧ j.usesPerm ≠ some y) ∧
    (i.usesPerm = some y → SReg.y y ∈ S ∨ ∃ j ∈ pre, j.setsPerm = some y)
  after : ∀ y, SReg.y y ∈ S' ↔ SReg.y y ∈ S ∨ ∃ i ∈ is, i.setsPerm = some y
  ment : ∀ y, (∃ i ∈ is, i.setsPerm = some y ∨ i.usesPerm = some y) ↔ ∃ n, M n ∧ yOf n = some y

theorem PermCode.append {yOf S M is S1 N js S2} (h : PermCode yOf S M is S1) (k : PermCode yOf S1 N js S2) :
    PermCode yOf S (fun n => M n ∨ N n) (is ++ js) S2 where
  once pre i post y heq := by
    rcases List.append_eq_append_iff.1 heq with ⟨as, h1, h2⟩ | ⟨cs, h1, h2⟩
    · -- i is in js
      obtain ⟨k1, k2⟩ := k.once as i post y h2
      refine ⟨fun hs => ?_, fun hu => ?_⟩
      · obtain ⟨k3, k4⟩ := k1 hs
        have hno : SReg.y y ∉ S := fun hm => k3 ((h.after y).2 (.inl hm))
        have hns : ∀ j ∈ is, j.setsPerm ≠ some y := fun j hj hx => k3 ((h.after y).2 (.inr ⟨j, hj, hx⟩))
        refine ⟨hno, fun j hj => ?_⟩
        rw [h1] at hj
        rcases List.mem_append.1 hj with hj | hj
        · refine ⟨hns j hj, fun hx => ?_⟩
          obtain ⟨p, q, rfl⟩ := List.append_of_mem hj
          rcases (h.once p j q y rfl).2 hx with hm | ⟨j', hj', hx'⟩
          · exact hno hm
          · exact hns j' (by simp [hj']) hx'
        · exact k4 j hj
      · rcases k2 hu with hm | ⟨j, hj, hx⟩
        · rcases (h.after y).1 hm with hm | ⟨j, hj, hx⟩
          · exact .inl hm
          · exact .inr ⟨j, by rw [h1]; exact List.mem_append_left _ hj, hx⟩
        · exact .inr ⟨j, by rw [h1]; exact List.mem_append_right _ hj, hx⟩
    · cases cs with
      | nil =>
        simp only [List.nil_append, List.append_nil] at h1 h2
        obtain ⟨k1, k2⟩ := k.once [] i post y h2.symm
        refine ⟨fun hs => ?_, fun hu => ?_⟩
        · obtain ⟨k3, k4⟩ := k1 hs
          have hno : SReg.y y ∉ S := fun hm => k3 ((h.after y).2 (.inl hm))
          have hns : ∀ j ∈ is, j.setsPerm ≠ some y := fun j hj hx => k3 ((h.after y).2 (.inr ⟨j, hj, hx⟩))
          refine ⟨hno, fun j hj => ?_⟩
          rw [← h1] at hj
          refine ⟨hns j hj, fun hx => ?_⟩
          obtain ⟨p, q, hpq⟩ := List.append_of_mem hj
          rcases (h.once p j q y hpq).2 hx with hm | ⟨j', hj', hx'⟩
          · exact hno hm
          · exact hns j' (by rw [hpq]; simp [hj']) hx'
        · rcases k2 hu with hm | ⟨j, hj, hx⟩
          · rcases (h.after y).1 hm with hm | ⟨j, hj, hx⟩
            · exact .inl hm
            · exact .inr ⟨j, by rw [← h1]; exact hj, hx⟩
          · cases hj
      | cons c cs =>
        simp only [List.cons_append, List.cons.injEq] at h2
        obtain ⟨rfl, h2⟩ := h2
        exact h.once pre i cs y h1
  after y := by
    rw [k.after, h.after]
    simp only [List.mem_append]
    constructor
    · rintro ((h | ⟨i, hi, hx⟩) | ⟨i, hi, hx⟩)
      · exact .inl h
      · exact .inr ⟨i, .inl hi, hx⟩
      · exact .inr ⟨i, .inr hi, hx⟩
    · rintro (h | ⟨i, hi | hi, hx⟩)
      · exact .inl (.inl h)
      · exact .inl (.inr ⟨i, hi, hx⟩)
      · exact .inr ⟨i, hi, hx⟩
  ment y := by
    have h1 := h.ment y
    have h2 := k.ment y
    simp only [List.mem_append]
    constructor
    · rintro ⟨i, hi | hi, hx⟩
      · obtain ⟨n, hn, hy⟩ := h1.1 ⟨i, hi, hx⟩; exact ⟨n, .inl hn, hy⟩
      · obtain ⟨n, hn, hy⟩ := h2.1 ⟨i, hi, hx⟩; exact ⟨n, .inr hn, hy⟩
    · rintro ⟨n, hn | hn, hy⟩
      · obtain ⟨i, hi, hx⟩ := h1.2 ⟨n, hn, hy⟩; exact ⟨i, .inl hi, hx⟩
      · obtain ⟨i, hi, hx⟩ := h2.2 ⟨n, hn, hy⟩; exact ⟨i, .inr hi, hx⟩

theorem PermCode.congr {yOf S M N is S'} (h : PermCode yOf S M is S') (hn : ∀ n, M n ↔ N n) : PermCode yOf S N is S' :=
  ⟨h.once, h.after, fun y => (h.ment y).trans ⟨fun ⟨n, a, b⟩ => ⟨n, (hn n).1 a, b⟩, fun ⟨n, a, b⟩ => ⟨n, (hn n).2 a, b⟩⟩⟩

theorem PermCode.seen {yOf S M is S' T} (h : PermCode yOf S M is S') (ht : ∀ y, SReg.y y ∈ T ↔ SReg.y y ∈ S') : PermCode yOf S M is T :=
  ⟨h.once, fun y => (ht y).trans (h.after y), h.ment⟩

theorem PermCode.silent {yOf S S'} {is : List Instr} (h : ∀ i ∈ is, i.setsPerm = none ∧ i.usesPerm = none)
    (hs : ∀ y, SReg.y y ∈ S' ↔ SReg.y y ∈ S) : PermCode yOf S (fun _ => False) is S' where
  once pre i post y heq := by
    have := h i (by rw [heq]; simp)
    simp [this.1, this.2]
  after y := by
    rw [hs]
    constructor
    · exact .inl
    · rintro (h' | ⟨i, hi, hx⟩)
      · exact h'
      · rw [(h i hi).1] at hx; cases hx
  ment y := by
    constructor
    · rintro ⟨i, hi, hx | hx⟩
      · rw [(h i hi).1] at hx; cases hx
      · rw [(h i hi).2] at hx; cases hx
    · rintro ⟨_, hx, _⟩; cases hx

theorem PermCode.set {yOf S S' n y} {i : Instr} (hy : yOf n = some y) (hi : i.setsPerm = some y) (h : SReg.y y ∉ S)
    (hs : ∀ z, SReg.y z ∈ S' ↔ SReg.y z ∈ S ∨ z = y) :
    PermCode yOf S (· = n) [i] S' where
  once pre j post z heq := by
    cases pre with
    | cons a pre => simp at heq
    | nil =>
      simp only [List.nil_append, List.cons.injEq] at heq
      obtain ⟨rfl, _⟩ := heq
      refine ⟨fun hz => ?_, fun hz => ?_⟩
      · rw [hi] at hz; cases hz; exact ⟨h, by simp⟩
      · rw [permSets_uses hi] at hz; cases hz
  after z := by
    rw [hs]; simp [hi, eq_comm]
  ment z := by
    simp only [List.mem_singleton, exists_eq_left, hi, permSets_uses hi, hy, reduceCtorEq, or_false]

theorem PermCode.use {yOf S S' n y} {i : Instr} (hy : yOf n = some y) (hi : i.usesPerm = some y) (hi' : i.setsPerm = none) (h : SReg.y y ∈ S)
    (hs : ∀ z, SReg.y z ∈ S' ↔ SReg.y z ∈ S) : PermCode yOf S (· = n) [i] S' where
  once pre j post z heq := by
    cases pre with
    | cons a pre => simp at heq
    | nil =>
      simp only [List.nil_append, List.cons.injEq] at heq
      obtain ⟨rfl, _⟩ := heq
      refine ⟨fun hz => ?_, fun hz => ?_⟩
      · rw [hi'] at hz; cases hz
      · rw [hi] at hz; cases hz; exact .inl h
  after z := by rw [hs]; simp [hi']
  ment z := by
    simp only [List.mem_singleton, exists_eq_left, hi, hi', hy, reduceCtorEq, false_or]

/-- The variables of which code for an item speaks. -/
def AItem.speaks (a : AItem) (n : Name) : Prop := a.node = .var n ∨ a.node.isVar = false ∧ ∃ x, (Node.var n, x) ∈ a.kids

section
variable {yOf : Name → Option Nat}

theorem queryKid_perm {c x g i g'} (h : queryKid yOf c x g = .ok (i, g')) : PermCode yOf g.seen (fun n => c = .var n) [i] g'.seen := by
  have nov : ∀ {S' : List SReg} {j : Instr}, (∀ n, c ≠ .var n) → j.setsPerm = none → j.usesPerm = none →
      (∀ y, SReg.y y ∈ S' ↔ SReg.y y ∈ g.seen) → PermCode yOf g.seen (fun n => c = .var n) [j] S' := by
    intro S' j hc h1 h2 h3
    exact (PermCode.silent (by simp [h1, h2]) h3).congr fun n => ⟨False.elim, fun h => absurd h (hc n)⟩
  have xs : ∀ {j g1}, (if g.has (.x x) then (pure (Instr.setValue x, g) : CR (Instr × GenSt))
      else
        let g := g.mark (.x x)
        let (v, st) := g.st.pushBackVar c.name
        pure (Instr.setVariable x v, { g with st := st })) = .ok (j, g1) →
      j.setsPerm = none ∧ j.usesPerm = none ∧ ∀ y, SReg.y y ∈ g1.seen ↔ SReg.y y ∈ g.seen := by
    intro j g1 hx
    split at hx
    · simp only [pure_ok, Prod.mk.injEq] at hx; obtain ⟨rfl, rfl⟩ := hx; exact ⟨rfl, rfl, fun _ => Iff.rfl⟩
    · simp only [pure_ok, Prod.mk.injEq] at hx; obtain ⟨rfl, rfl⟩ := hx; exact ⟨rfl, rfl, by simp [GenSt.mark]⟩
  cases c with
  | int v =>
    simp only [queryKid, bind_ok, pure_ok, Prod.mk.injEq] at h
    obtain ⟨⟨cell, g1⟩, h1, rfl, rfl⟩ := h
    exact nov (by simp) rfl rfl (by rw [structCell_seen h1]; simp)
  | cons v =>
    simp only [queryKid, bind_ok, pure_ok, Prod.mk.injEq] at h
    obtain ⟨⟨cell, g1⟩, h1, rfl, rfl⟩ := h
    exact nov (by simp) rfl rfl (by rw [structCell_seen h1]; simp)
  | fn f cs => obtain ⟨h1, h2, h3⟩ := xs h; exact nov (by simp) h1 h2 h3
  | efn f cs => obtain ⟨h1, h2, h3⟩ := xs h; exact nov (by simp) h1 h2 h3
  | var n =>
    simp only [queryKid] at h
    cases hy : yOf n with
    | none =>
      simp only [hy] at h
      obtain ⟨h1, h2, h3⟩ := xs h
      refine ⟨(PermCode.silent (yOf := yOf) (is := [i]) (by simp [h1, h2]) h3).once, (PermCode.silent (yOf := yOf) (is := [i]) (by simp [h1, h2]) h3).after, fun y => ?_⟩
      simp [h1, h2, hy]
    | some y =>
      simp only [hy] at h
      split at h
      · rename_i hm
        simp only [pure_ok, Prod.mk.injEq] at h; obtain ⟨rfl, rfl⟩ := h
        exact (PermCode.use hy rfl rfl (by simpa [GenSt.has] using hm) (fun _ => Iff.rfl)).congr fun m => by simp [eq_comm]
      · rename_i hm
        simp only [pure_ok, Prod.mk.injEq] at h; obtain ⟨rfl, rfl⟩ := h
        exact (PermCode.set hy rfl (by simpa [GenSt.has] using hm) (by simp [GenSt.mark, or_comm])).congr fun m => by simp [eq_comm]

theorem queryKids_perm : ∀ {ks g is g'}, queryKids yOf ks g = .ok (is, g') →
    PermCode yOf g.seen (fun n => ∃ x, (Node.var n, x) ∈ ks) is g'.seen
  | [], g, is, g', h => by
    simp only [queryKids, pure_ok, Prod.mk.injEq] at h; obtain ⟨rfl, rfl⟩ := h
    exact (PermCode.silent (by simp) (fun _ => Iff.rfl)).congr fun n => by simp
  | (c, x) :: ks, g, is, g', h => by
    simp only [queryKids, bind_ok, pure_ok, Prod.mk.injEq] at h
    obtain ⟨⟨i, g1⟩, h1, ⟨is', g2⟩, h2, rfl, rfl⟩ := h
    refine ((queryKid_perm h1).append (queryKids_perm h2)).congr fun n => ?_
    simp only [List.mem_cons, Prod.mk.injEq]
    constructor
    · rintro (rfl | ⟨x', h⟩)
      · exact ⟨x, .inl ⟨rfl, rfl⟩⟩
      · exact ⟨x', .inr h⟩
    · rintro ⟨x', ⟨rfl, rfl⟩ | h⟩
      · exact .inl rfl
      · exact .inr ⟨x', h⟩

theorem queryItem_perm {xOf a g is g'} (h : queryItem yOf xOf a g = .ok (is, g')) :
    PermCode yOf g.seen a.speaks is g'.seen := by
  have other : ∀ {g1 g2 : GenSt} {cell} {js : List Instr}, a.node.isVar = false → (∀ y, SReg.y y ∈ g1.seen ↔ SReg.y y ∈ g.seen) →
      queryKids yOf a.kids g1 = .ok (js, g2) → PermCode yOf g.seen a.speaks (.putStructure cell a.x :: js) g2.seen := by
    intro g1 g2 cell js hv hs hk
    have := (PermCode.silent (yOf := yOf) (S := g.seen) (S' := g1.seen) (is := [Instr.putStructure cell a.x]) (by simp [Instr.setsPerm, Instr.usesPerm]) hs).append
      (queryKids_perm hk)
    refine this.congr fun n => ?_
    simp only [AItem.speaks, hv, true_and, false_or]
    constructor
    · exact .inr
    · rintro (h | h)
      · rw [h] at hv; cases hv
      · exact h
  cases hn : a.node with
  | var n =>
    simp only [queryItem, hn] at h
    have hsp : ∀ m, a.speaks m ↔ m = n := by
      intro m; simp only [AItem.speaks, hn, Node.isVar, Node.var.injEq]; simp [eq_comm]
    cases hy : yOf n with
    | none =>
      simp only [hy] at h
      have key : ∀ {S' : List SReg} {j : Instr}, j.setsPerm = none → j.usesPerm = none →
          (∀ y, SReg.y y ∈ S' ↔ SReg.y y ∈ g.seen) → PermCode yOf g.seen a.speaks [j] S' := by
        intro S' j h1 h2 h3
        have k := PermCode.silent (yOf := yOf) (is := [j]) (by simp [h1, h2]) h3
        refine ⟨k.once, k.after, fun y => ?_⟩
        simp [h1, h2, hsp, hy]
      split at h
      · simp only [pure_ok, Prod.mk.injEq] at h; obtain ⟨rfl, rfl⟩ := h
        exact key rfl rfl fun _ => Iff.rfl
      · simp only [pure_ok, Prod.mk.injEq] at h; obtain ⟨rfl, rfl⟩ := h
        exact key rfl rfl (by simp [GenSt.mark])
    | some y =>
      simp only [hy] at h
      split at h
      · rename_i hm
        simp only [pure_ok, Prod.mk.injEq] at h; obtain ⟨rfl, rfl⟩ := h
        exact (PermCode.use hy rfl rfl (by simpa [GenSt.has] using hm) (fun _ => Iff.rfl)).congr fun m => (hsp m).symm
      · rename_i hm
        simp only [pure_ok, Prod.mk.injEq] at h; obtain ⟨rfl, rfl⟩ := h
        exact (PermCode.set hy rfl (by simpa [GenSt.has] using hm) (by simp [GenSt.mark, or_comm])).congr fun m => (hsp m).symm
  | efn f cs =>
    simp only [queryItem, hn] at h
    split at h
    · simp only [bind_ok, pure_ok, Prod.mk.injEq] at h
      obtain ⟨⟨cell, g1⟩, h1, ⟨is', g2⟩, h2, rfl, rfl⟩ := h
      exact other (by rw [hn]; rfl) (by rw [structCell_seen h1]; simp [GenSt.mark]) h2
    · cases h
  | _ =>
    simp only [queryItem, hn, bind_ok, pure_ok, Prod.mk.injEq] at h
    obtain ⟨⟨cell, g1⟩, h1, ⟨is', g2⟩, h2, rfl, rfl⟩ := h
    exact other (by rw [hn]; rfl) (by rw [structCell_seen h1]; simp [GenSt.mark]) h2

theorem queryItems_perm {xOf} : ∀ {as g is g'}, queryItems yOf xOf as g = .ok (is, g') →
    PermCode yOf g.seen (fun n => ∃ a ∈ as, AItem.speaks a n) is g'.seen
  | [], g, is, g', h => by
    simp only [queryItems, pure_ok, Prod.mk.injEq] at h; obtain ⟨rfl, rfl⟩ := h
    exact (PermCode.silent (by simp) (fun _ => Iff.rfl)).congr fun n => by simp
  | a :: as, g, is, g', h => by
    simp only [queryItems, bind_ok, pure_ok, Prod.mk.injEq] at h
    obtain ⟨⟨i, g1⟩, h1, ⟨is', g2⟩, h2, rfl, rfl⟩ := h
    exact ((queryItem_perm h1).append (queryItems_perm h2)).congr fun n => by simp

end

/-- The items for which code is generated speak of the variables of the atom. -/
theorem Nodes.speaks {atom ais} (N : Nodes atom ais) {as : List AItem} (h : ∀ a, a ∈ as ↔ a ∈ ais ∧ a.kept (atomArgs atom).length = true) (n : Name) :
    (∃ a ∈ as, a.speaks n) ↔ n ∈ Node.varss atom.children := by
  rw [← varss_atomArgs]
  constructor
  · rintro ⟨a, ha, hs⟩
    have ha := ((h a).1 ha).1
    rcases hs with hs | ⟨_, x, hs⟩
    · exact N.itemVar.1 ⟨a, ha, hs⟩
    · obtain ⟨b, hb, hbn, _⟩ := N.kidItem a ha _ x hs
      exact N.itemVar.1 ⟨b, hb, hbn⟩
  · refine N.find (Q := fun n => ∃ a ∈ as, a.speaks n) ?_ ?_ n
    · intro a ha v hlt hn
      exact ⟨a, (h a).2 ⟨ha, kept_iff.2 (.inl hlt)⟩, .inl hn⟩
    · intro a ha hk v x hx
      refine ⟨a, (h a).2 ⟨ha, kept_iff.2 hk⟩, .inr ⟨?_, x, hx⟩⟩
      cases hn : a.node with
      | var n =>
        have := N.kids a ha
        rw [hn] at this
        simp [Node.children] at this
        rw [this] at hx; simp at hx
      | _ => rfl

theorem toQuery_perm {yOf xOf : Name → Option Nat} { atom ais g is g'}
    (N : Nodes atom ais) (h : toQuery yOf xOf atom ais g = .ok (is, g')) :
    PermCode yOf g.seen (· ∈ Node.varss atom.children) is g'.seen := by
  simp only [toQuery, bind_ok, pure_ok, Prod.mk.injEq] at h
  obtain ⟨⟨js, g1⟩, h1, rfl, rfl⟩ := h
  refine ((queryItems_perm h1).append (PermCode.silent (is := [.call atom.fv]) (by simp [Instr.setsPerm, Instr.usesPerm]) (fun _ => Iff.rfl))).congr fun n => ?_
  rw [or_false]
  exact N.speaks (fun a => mem_flattenQuery) n

section
variable {yOf xOf : Name → Option Nat} (yinj : ∀ n m y, yOf n = some y → yOf m = some y → n = m)
  (xinj : ∀ n m r, xOf n = some r → xOf m = some r → n = m)
include yinj xinj

omit yinj xinj in
/-- One occurrence of a variable in a head. -/
theorem headVar_perm {n x y} {S S' : List SReg} {i : Instr} (m : MarkInv yOf xOf S) (hx : xOf n = some x) (hy : yOf n = some y)
    (h : (SReg.x x ∈ S ∧ i.usesPerm = some y ∧ i.setsPerm = none ∧ S' = S) ∨
      (SReg.x x ∉ S ∧ i.setsPerm = some y ∧ ∀ z, SReg.y z ∈ S' ↔ SReg.y z ∈ S ∨ z = y)) : PermCode yOf S (· = n) [i] S' := by
  rcases h with ⟨h1, h2, h3, rfl⟩ | ⟨h1, h2, h3⟩
  · exact PermCode.use hy h2 h3 ((m.sync n x y hx hy).1 h1) (fun _ => Iff.rfl)
  · exact PermCode.set hy h2 (fun h => h1 ((m.sync n x y hx hy).2 h)) h3

omit yinj xinj in
theorem programKid_perm {c x g i g'} (m : MarkInv yOf xOf g.seen) (hv : ∀ v, c = .var v → xOf v = some x)
    (h : programKid yOf c x g = .ok (i, g')) : PermCode yOf g.seen (fun n => c = .var n) [i] g'.seen := by
  have nov : ∀ {S' : List SReg} {j : Instr}, (∀ n y, c = .var n → yOf n ≠ some y) → j.setsPerm = none → j.usesPerm = none →
      (∀ y, SReg.y y ∈ S' ↔ SReg.y y ∈ g.seen) → PermCode yOf g.seen (fun n => c = .var n) [j] S' := by
    intro S' j hc h1 h2 h3
    have k := PermCode.silent (yOf := yOf) (is := [j]) (by simp [h1, h2]) h3
    refine ⟨k.once, k.after, fun y => ?_⟩
    simp only [List.mem_singleton, exists_eq_left, h1, h2, reduceCtorEq, or_false, false_iff]
    rintro ⟨n, h4, h5⟩
    exact hc n y h4 h5
  cases c with
  | int v =>
    simp only [programKid, bind_ok, pure_ok, Prod.mk.injEq] at h
    obtain ⟨⟨cell, g1⟩, h1, rfl, rfl⟩ := h
    exact nov (by simp) rfl rfl (by rw [structCell_seen h1]; simp)
  | cons v =>
    simp only [programKid, bind_ok, pure_ok, Prod.mk.injEq] at h
    obtain ⟨⟨cell, g1⟩, h1, rfl, rfl⟩ := h
    exact nov (by simp) rfl rfl (by rw [structCell_seen h1]; simp)
  | fn f cs =>
    simp only [programKid] at h
    split at h
    · simp only [pure_ok, Prod.mk.injEq] at h; obtain ⟨rfl, rfl⟩ := h; exact nov (by simp) rfl rfl fun _ => Iff.rfl
    · simp only [pure_ok, Prod.mk.injEq] at h; obtain ⟨rfl, rfl⟩ := h; exact nov (by simp) rfl rfl (by simp [GenSt.mark])
  | efn f cs =>
    simp only [programKid] at h
    split at h
    · simp only [pure_ok, Prod.mk.injEq] at h; obtain ⟨rfl, rfl⟩ := h; exact nov (by simp) rfl rfl fun _ => Iff.rfl
    · simp only [pure_ok, Prod.mk.injEq] at h; obtain ⟨rfl, rfl⟩ := h; exact nov (by simp) rfl rfl (by simp [GenSt.mark])
  | var n =>
    simp only [programKid] at h
    cases hy : yOf n with
    | none =>
      have hno : ∀ k y, Node.var n = .var k → yOf k ≠ some y := by rintro k y h hk; cases h; rw [hy] at hk; cases hk
      simp only [hy] at h
      split at h
      · simp only [pure_ok, Prod.mk.injEq] at h; obtain ⟨rfl, rfl⟩ := h; exact nov hno rfl rfl fun _ => Iff.rfl
      · simp only [pure_ok, Prod.mk.injEq] at h; obtain ⟨rfl, rfl⟩ := h; exact nov hno rfl rfl (by simp [GenSt.mark])
    | some y =>
      simp only [hy] at h
      refine (headVar_perm m (hv n rfl) hy (i := i) (S' := g'.seen) ?_).congr fun k => by simp [eq_comm]
      split at h
      · rename_i hm
        simp only [pure_ok, Prod.mk.injEq] at h; obtain ⟨rfl, rfl⟩ := h
        exact .inl ⟨by simpa [GenSt.has] using hm, rfl, rfl, rfl⟩
      · rename_i hm
        simp only [pure_ok, Prod.mk.injEq] at h; obtain ⟨rfl, rfl⟩ := h
        exact .inr ⟨by simpa [GenSt.has] using hm, rfl, by simp [GenSt.mark, or_comm]⟩

theorem programKids_perm : ∀ {ks g is g'}, MarkInv yOf xOf g.seen →
    (∀ c x, (c, x) ∈ ks → (∀ v, c = .var v → xOf v = some x) ∧ (c.isFn = true ∨ c.isEfn = true → ∀ v, xOf v ≠ some x)) →
    programKids yOf ks g = .ok (is, g') → PermCode yOf g.seen (fun n => ∃ x, (Node.var n, x) ∈ ks) is g'.seen
  | [], g, is, g', _, _, h => by
    simp only [programKids, pure_ok, Prod.mk.injEq] at h; obtain ⟨rfl, rfl⟩ := h
    exact (PermCode.silent (by simp) (fun _ => Iff.rfl)).congr fun n => by simp
  | (c, x) :: ks, g, is, g', m, hk, h => by
    simp only [programKids, bind_ok, pure_ok, Prod.mk.injEq] at h
    obtain ⟨⟨i, g1⟩, h1, ⟨is', g2⟩, h2, rfl, rfl⟩ := h
    have m1 : MarkInv yOf xOf g1.seen := by
      rw [programKid_seen h1]; exact (markKid_step yinj xinj m (hk c x (by simp)).1 (hk c x (by simp)).2).1.inv
    refine ((programKid_perm m (hk c x (by simp)).1 h1).append (programKids_perm m1 (fun c x h => hk c x (by simp [h])) h2)).congr fun n => ?_
    simp only [List.mem_cons, Prod.mk.injEq]
    constructor
    · rintro (rfl | ⟨x', h⟩)
      · exact ⟨x, .inl ⟨rfl, rfl⟩⟩
      · exact ⟨x', .inr h⟩
    · rintro ⟨x', ⟨rfl, rfl⟩ | h⟩
      · exact .inl rfl
      · exact .inr ⟨x', h⟩

theorem programItem_perm {atom nr ais a g is g'} (R : Regs atom nr ais xOf) (ha : a ∈ ais) (m : MarkInv yOf xOf g.seen)
    (h : programItem yOf a g = .ok (is, g')) : PermCode yOf g.seen a.speaks is g'.seen := by
  have hk : ∀ c x, (c, x) ∈ a.kids → (∀ v, c = .var v → xOf v = some x) ∧ (c.isFn = true ∨ c.isEfn = true → ∀ v, xOf v ≠ some x) := by
    intro c x hc
    obtain ⟨b, hb, hbn, hbx, _, hbl⟩ := R.kidItem a ha c x hc
    subst hbn hbx
    refine ⟨fun v hv => R.var b hb v hv, fun hf v hx => ?_⟩
    refine (R.sReg b hb ?_ hbl).2.2 v hx
    cases hbb : b.node <;> simp_all [Node.isFn, Node.isEfn, Node.isVar]
  cases hn : a.node with
  | var n =>
    have hsp : ∀ m, a.speaks m ↔ m = n := by
      intro m; simp only [AItem.speaks, hn, Node.isVar, Node.var.injEq]; simp [eq_comm]
    simp only [programItem, hn] at h
    cases hy : yOf n with
    | none =>
      have key : ∀ {S' : List SReg} {j : Instr}, j.setsPerm = none → j.usesPerm = none →
          (∀ y, SReg.y y ∈ S' ↔ SReg.y y ∈ g.seen) → PermCode yOf g.seen a.speaks [j] S' := by
        intro S' j h1 h2 h3
        have k := PermCode.silent (yOf := yOf) (is := [j]) (by simp [h1, h2]) h3
        refine ⟨k.once, k.after, fun y => ?_⟩
        simp [h1, h2, hsp, hy]
      simp only [hy] at h
      split at h
      · simp only [pure_ok, Prod.mk.injEq] at h; obtain ⟨rfl, rfl⟩ := h
        exact key rfl rfl fun _ => Iff.rfl
      · simp only [pure_ok, Prod.mk.injEq] at h; obtain ⟨rfl, rfl⟩ := h
        exact key rfl rfl (by simp [GenSt.mark])
    | some y =>
      simp only [hy] at h
      split at h
      · rename_i hm
        simp only [pure_ok, Prod.mk.injEq] at h; obtain ⟨rfl, rfl⟩ := h
        exact (headVar_perm m (R.var a ha n hn) hy (.inl ⟨by simpa [GenSt.has] using hm, rfl, rfl, rfl⟩)).congr fun k => (hsp k).symm
      · rename_i hm
        simp only [pure_ok, Prod.mk.injEq] at h; obtain ⟨rfl, rfl⟩ := h
        exact (headVar_perm m (R.var a ha n hn) hy
          (.inr ⟨by simpa [GenSt.has] using hm, rfl, by simp [GenSt.mark, or_comm]⟩)).congr fun k => (hsp k).symm
  | _ =>
    simp only [programItem, hn, bind_ok, pure_ok, Prod.mk.injEq] at h
    obtain ⟨⟨cell, g1⟩, h1, ⟨is', g2⟩, h2, rfl, rfl⟩ := h
    have hs := structCell_seen h1
    have hv : a.node.isVar = false := by rw [hn]; rfl
    refine ((PermCode.silent (yOf := yOf) (S := g.seen) (S' := g1.seen) (is := [Instr.getStructure cell a.x]) (by simp [Instr.setsPerm, Instr.usesPerm])
      (by rw [hs]; simp)).append (programKids_perm yinj xinj (by rw [hs]; exact m) hk h2)).congr fun n => ?_
    simp only [AItem.speaks, hv, true_and, false_or]
    constructor
    · exact .inr
    · rintro (h | h)
      · rw [h] at hv; cases hv
      · exact h

theorem programItems_perm {atom nr ais} (R : Regs atom nr ais xOf) : ∀ {as g is g'}, (∀ a ∈ as, a ∈ ais) → MarkInv yOf xOf g.seen →
    programItems yOf as g = .ok (is, g') → PermCode yOf g.seen (fun n => ∃ a ∈ as, AItem.speaks a n) is g'.seen
  | [], g, is, g', _, _, h => by
    simp only [programItems, pure_ok, Prod.mk.injEq] at h; obtain ⟨rfl, rfl⟩ := h
    exact (PermCode.silent (by simp) (fun _ => Iff.rfl)).congr fun n => by simp
  | a :: as, g, is, g', ha, m, h => by
    simp only [programItems, bind_ok, pure_ok, Prod.mk.injEq] at h
    obtain ⟨⟨i, g1⟩, h1, ⟨is', g2⟩, h2, rfl, rfl⟩ := h
    have m1 : MarkInv yOf xOf g1.seen := by
      have := (markItems_step yinj xinj R (as := [a]) (fun b hb => ha b (by simp at hb; simp [hb])) m).1.inv
      rw [programItem_seen h1]; exact this
    exact ((programItem_perm yinj xinj R (ha a (by simp)) m h1).append
      (programItems_perm R (fun b hb => ha b (by simp [hb])) m1 h2)).congr fun n => by simp

end

theorem toProgram_perm {yOf xOf : Name → Option Nat} (yinj : ∀ n m y, yOf n = some y → yOf m = some y → n = m) {atom nr ais st is g'}
    (R : Regs atom nr ais xOf) (N : Nodes atom ais) (h : toProgram yOf atom ais ⟨[], st⟩ = .ok (is, g')) :
    PermCode yOf [] (· ∈ Node.varss atom.children) is g'.seen := by
  simp only [toProgram, bind_ok, pure_ok, Prod.mk.injEq] at h
  obtain ⟨⟨js, g1⟩, h1, rfl, rfl⟩ := h
  have := programItems_perm yinj R.varInj R (fun a ha => (List.mem_filter.1 ha).1) ⟨by simp, by simp⟩ h1
  refine (this.append (PermCode.silent (is := [.proceed]) (by simp [Instr.setsPerm, Instr.usesPerm]) (fun _ => Iff.rfl))).congr fun n => ?_
  rw [or_false]
  exact N.speaks (fun a => List.mem_filter) n

theorem mem_dropX_y {S : List SReg} {y} : SReg.y y ∈ dropX S ↔ SReg.y y ∈ S := by simp [dropX]

/-- The code of an atom mentions the registers of the variables of the atom. -/
def AtomPerm (yOf : Name → Option Nat) (a : Node) (c : CAtom) : Prop :=
  c.parsed = a ∧ ∀ y, (∃ i ∈ c.instrs, i.mentionsPerm y) ↔ ∃ v ∈ Node.varss a.children, yOf v = some y

theorem alloc_silent {yOf S n} : PermCode yOf S (fun _ => False) (allocInstrs n) S := by
  refine PermCode.silent ?_ (fun _ => Iff.rfl)
  intro i hi
  unfold allocInstrs at hi
  split at hi
  · cases hi
  · simp only [List.mem_singleton] at hi; subst hi; exact ⟨rfl, rfl⟩

theorem PermCode.alloc {yOf S M is S' n} (h : PermCode yOf S M is S') : PermCode yOf S M (allocInstrs n ++ is) S' :=
  (alloc_silent.append h).congr fun _ => by simp

theorem compileQueryAtoms_perm {yOf : Name → Option Nat} {n fq} : ∀ {atoms pre g cs g'}, pre = [] ∨ pre = allocInstrs n →
    compileQueryAtoms yOf pre fq atoms g = .ok (cs, g') →
    (∃ M, PermCode yOf g.seen M (cs.flatMap (·.instrs)) g'.seen) ∧ List.Forall₂ (AtomPerm yOf) atoms cs
  | [], pre, g, cs, g', _, h => by
    simp only [compileQueryAtoms, pure_ok, Prod.mk.injEq] at h
    obtain ⟨rfl, rfl⟩ := h
    exact ⟨⟨_, .silent (by simp) fun _ => Iff.rfl⟩, .nil⟩
  | a :: atoms, pre, g, cs, g', hp, h => by
    simp only [compileQueryAtoms, compileQueryAtom, bind_ok, pure_ok, Prod.mk.injEq] at h
    obtain ⟨⟨c, g1⟩, ⟨⟨is, g0⟩, h1, rfl, rfl⟩, ⟨cs', g2⟩, h2, rfl, rfl⟩ := h
    have k : PermCode yOf g.seen (· ∈ Node.varss a.children) (pre ++ is) (dropX g0.seen) := by
      have := (toQuery_perm (assignSingle_nodes a) h1).seen (T := dropX g0.seen) fun _ => mem_dropX_y
      rcases hp with rfl | rfl
      · exact this
      · exact this.alloc
    obtain ⟨⟨M, k1⟩, k2⟩ := compileQueryAtoms_perm (n := n) (.inl rfl) h2
    exact ⟨⟨_, by simpa using k.append k1⟩, .cons ⟨rfl, k.ment⟩ k2⟩

theorem PermCode.setOnce {yOf M is S'} (h : PermCode yOf [] M is S') : SetOnce is := fun pre i post y he =>
  ⟨fun hs => ((h.once pre i post y he).1 hs).2, fun hu => ((h.once pre i post y he).2 hu).resolve_left (by simp)⟩

theorem alloc_first {ys : List Name} {v y is} (h : indexOf? v ys = some y) : ∃ n js, allocInstrs ys.length ++ is = .allocate n :: js ∧ y < n := by
  have := yOf_lt v y h
  refine ⟨ys.length, is, ?_, this⟩
  have : ys.length ≠ 0 := by omega
  simp [allocInstrs, this]

theorem dealloc_silent {n} : ∀ c ∈ deallocAtoms n, ∀ i ∈ c.instrs, i.setsPerm = none ∧ i.usesPerm = none := by
  intro c hc i hi
  unfold deallocAtoms at hc
  split at hc
  · cases hc
  · simp only [List.mem_singleton] at hc; subst hc
    simp only [deallocAtom, List.mem_singleton] at hi; subst hi; exact ⟨rfl, rfl⟩

theorem not_mentions {i : Instr} (h : i.setsPerm = none ∧ i.usesPerm = none) (y) : ¬ i.mentionsPerm y := by
  simp [Instr.mentionsPerm, h.1, h.2]

theorem compileQuery_keeps {ord : HashOrder} (ho : ord.OK) {atoms st q st'} (h : compileQuery ord atoms st = .ok (q, st')) :
    KeepsShared false atoms q := by
  simp only [compileQuery, bind_ok, pure_ok, Prod.mk.injEq] at h
  obtain ⟨⟨cs, g⟩, h1, rfl, _⟩ := h
  obtain ⟨⟨M, k1⟩, k2⟩ := compileQueryAtoms_perm (.inr rfl) h1
  have hsh : ∀ v, SharedVar false atoms v → ∃ y, indexOf? v (permVars ord false atoms) = some y := by
    rintro v ⟨pre, a, mid, b, post, h, _, ha, hb⟩
    exact indexOf?_isSome ((ho _).mem_iff.2 (permVarsRaw_query (by simpa using h) ha hb))
  refine ⟨(indexOf? · (permVars ord false atoms)), yOf_inj, hsh, fun v y hy => ?_, k1.setOnce, cs, [], by simp, by simp, k2⟩
  cases atoms with
  | nil =>
    have : permVars ord false [] = [] := List.Perm.eq_nil (ho _)
    simp only [this] at hy; cases hy
  | cons a atoms =>
    simp only [compileQueryAtoms, compileQueryAtom, bind_ok, pure_ok, Prod.mk.injEq] at h1
    obtain ⟨⟨c, g1⟩, ⟨⟨is, g0⟩, _, rfl, rfl⟩, ⟨cs', g2⟩, _, rfl, rfl⟩ := h1
    simp only [List.flatMap_cons, List.append_assoc]
    exact alloc_first hy

theorem compileClause_keeps {ord : HashOrder} (ho : ord.OK) {bi head body st f r st'} (h : compileClause ord bi head body st = .ok (f, r, st')) :
    KeepsShared true (head :: body) r := by
  cases body with
  | nil =>
    obtain ⟨_, is, g, h1, rfl, rfl, rfl⟩ := compileClause_fact h
    have k := (toProgram_perm yOf_inj (assignSingle_regs rfl) (assignSingle_nodes head) h1).alloc (n := (permVars ord true [head]).length)
    refine ⟨(indexOf? · (permVars ord true [head])), yOf_inj, ?_, ?_, ?_, [_], _, rfl,
      fun c hc i hi => not_mentions (dealloc_silent c hc i hi), .cons ⟨rfl, k.ment⟩ .nil⟩
    · rintro v ⟨pre, a, mid, b, post, h, _⟩
      have := congrArg List.length h
      simp at this; omega
    · intro v y hy
      simp only [List.flatMap_cons, List.append_assoc]
      exact alloc_first hy
    · refine (k.append (PermCode.silent (is := (deallocAtoms _).flatMap (·.instrs)) ?_ fun _ => Iff.rfl)).setOnce
      intro i hi
      obtain ⟨c, hc, hi⟩ := List.mem_flatMap.1 hi
      exact dealloc_silent c hc i hi
  | cons b0 bs =>
    obtain ⟨_, is, g, js, g1, cs, g2, h1, h2, h3, rfl, rfl, rfl⟩ := compileClause_rule h
    obtain ⟨R, _, _⟩ := assignPair_head head b0
    obtain ⟨Nh, Nb⟩ := assignPair_nodes head b0
    have k0 := ((toProgram_perm yOf_inj R Nh h1).alloc (n := (permVars ord true (head :: b0 :: bs)).length)).seen
      (T := eraseStructRegs head (assignPair head b0).1.1 g.seen) fun _ => mem_eraseStructRegs_y
    have k1 := (toQuery_perm Nb h2).seen (T := dropX g1.seen) fun _ => mem_dropX_y
    obtain ⟨⟨M, k2⟩, k3⟩ := compileQueryAtoms_perm (n := 0) (.inl rfl) h3
    refine ⟨(indexOf? · (permVars ord true (head :: b0 :: bs))), yOf_inj, ?_, ?_, ?_, _ :: _ :: cs, _, rfl,
      fun c hc i hi => not_mentions (dealloc_silent c hc i hi), .cons ⟨rfl, k0.ment⟩ (.cons ⟨rfl, k1.ment⟩ k3)⟩
    · intro v hv
      exact indexOf?_isSome ((ho _).mem_iff.2 (shared_clause hv))
    · intro v y hy
      simp only [List.flatMap_cons, List.append_assoc]
      exact alloc_first hy
    · have := (((k0.append k1).append k2).append (PermCode.silent (is := (deallocAtoms (permVars ord true (head :: b0 :: bs)).length).flatMap (·.instrs)) (by
        intro i hi
        obtain ⟨c, hc, hi⟩ := List.mem_flatMap.1 hi
        exact dealloc_silent c hc i hi) fun _ => Iff.rfl)).setOnce
      simpa using this

end PBfs
