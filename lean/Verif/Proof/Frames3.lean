import Verif.Proof.Frames2
/-! # Clauses compile to code with the right meaning -/
namespace PBfs

/-! ## The registers marked by a head -/

/-- The marks of `programKid`. -/
def markKid (yOf : Name → Option Nat) (c : Node) (x : Nat) (seen : List SReg) : List SReg :=
  match c with
  | .int _ => seen
  | .cons _ => seen
  | .var n => if seen.contains (.x x) then seen else
    match yOf n with
    | some y => .y y :: .x x :: seen
    | none => .x x :: seen
  | _ => if seen.contains (.x x) then seen else .x x :: seen

def markKids (yOf : Name → Option Nat) : List (Node × Nat) → List SReg → List SReg
  | [], seen => seen
  | (c, x) :: ks, seen => markKids yOf ks (markKid yOf c x seen)

/-- The marks of `programItem`. -/
def markItem (yOf : Name → Option Nat) (a : AItem) (seen : List SReg) : List SReg :=
  match a.node with
  | .var n => markKid yOf (.var n) a.x seen
  | _ => markKids yOf a.kids seen

def markItems (yOf : Name → Option Nat) : List AItem → List SReg → List SReg
  | [], seen => seen
  | a :: as, seen => markItems yOf as (markItem yOf a seen)

theorem structCell_seen {n g cell g'} (h : structCell n g = .ok (cell, g')) : g'.seen = g.seen := by
  cases n with
  | int v =>
    simp only [structCell, bind_ok, pure_ok] at h
    obtain ⟨v, _, h⟩ := h; cases h; rfl
  | var v => cases h
  | cons v => cases h; rfl
  | fn f v => cases h; rfl
  | efn f v =>
    simp only [structCell] at h
    split at h <;> cases h
    rfl

theorem programKid_seen {yOf c x g i g'} (h : programKid yOf c x g = .ok (i, g')) : g'.seen = markKid yOf c x g.seen := by
  cases c with
  | int v =>
    simp only [programKid, bind_ok, pure_ok] at h
    obtain ⟨⟨cell, g1⟩, h1, h2⟩ := h
    cases h2; exact structCell_seen h1
  | cons v =>
    simp only [programKid, bind_ok, pure_ok] at h
    obtain ⟨⟨cell, g1⟩, h1, h2⟩ := h
    cases h2; exact structCell_seen h1
  | var n =>
    simp only [programKid] at h
    simp only [markKid]
    by_cases hc : g.has (.x x) = true
    · rw [if_pos hc] at h; rw [if_pos (show g.seen.contains _ = true from hc)]
      cases hy : yOf n <;> simp only [hy] at h <;> cases h <;> rfl
    · rw [if_neg hc] at h; rw [if_neg (show ¬ g.seen.contains _ = true from hc)]
      cases hy : yOf n <;> simp only [hy] at h <;> cases h <;> rfl
  | fn f cs =>
    simp only [programKid] at h
    simp only [markKid]
    by_cases hc : g.has (.x x) = true
    · rw [if_pos hc] at h; rw [if_pos (show g.seen.contains _ = true from hc)]; cases h; rfl
    · rw [if_neg hc] at h; rw [if_neg (show ¬ g.seen.contains _ = true from hc)]; cases h; rfl
  | efn f cs =>
    simp only [programKid] at h
    simp only [markKid]
    by_cases hc : g.has (.x x) = true
    · rw [if_pos hc] at h; rw [if_pos (show g.seen.contains _ = true from hc)]; cases h; rfl
    · rw [if_neg hc] at h; rw [if_neg (show ¬ g.seen.contains _ = true from hc)]; cases h; rfl

theorem programKids_seen {yOf ks g is g'} (h : programKids yOf ks g = .ok (is, g')) : g'.seen = markKids yOf ks g.seen := by
  induction ks generalizing g is with
  | nil => simp only [programKids, pure_ok] at h; cases h; rfl
  | cons k ks ih =>
    obtain ⟨c, x⟩ := k
    simp only [programKids, bind_ok, pure_ok] at h
    obtain ⟨⟨i, g1⟩, h1, ⟨js, g2⟩, h2, h3⟩ := h
    cases h3
    rw [markKids, ← programKid_seen h1]; exact ih h2

theorem programItem_seen {yOf a g is g'} (h : programItem yOf a g = .ok (is, g')) : g'.seen = markItem yOf a g.seen := by
  cases hn : a.node with
  | var n =>
    simp only [programItem, hn] at h
    simp only [markItem, hn, markKid]
    by_cases hc : g.has (.x a.x) = true
    · rw [if_pos hc] at h; rw [if_pos (show g.seen.contains _ = true from hc)]
      cases hy : yOf n <;> simp only [hy] at h <;> cases h <;> rfl
    · rw [if_neg hc] at h; rw [if_neg (show ¬ g.seen.contains _ = true from hc)]
      cases hy : yOf n <;> simp only [hy] at h <;> cases h <;> rfl
  | _ =>
    simp only [programItem, hn, bind_ok, pure_ok] at h
    obtain ⟨⟨cell, g1⟩, h1, ⟨js, g2⟩, h2, h3⟩ := h
    cases h3
    simp only [markItem, hn]
    rw [← structCell_seen h1]; exact programKids_seen h2

theorem programItems_seen {yOf as g is g'} (h : programItems yOf as g = .ok (is, g')) : g'.seen = markItems yOf as g.seen := by
  induction as generalizing g is with
  | nil => simp only [programItems, pure_ok] at h; cases h; rfl
  | cons a as ih =>
    simp only [programItems, bind_ok, pure_ok] at h
    obtain ⟨⟨i, g1⟩, h1, ⟨js, g2⟩, h2, h3⟩ := h
    cases h3
    rw [markItems, ← programItem_seen h1]; exact ih h2

/-- x and y registers of variables are marked together. -/
structure MarkInv (yOf xOf : Name → Option Nat) (seen : List SReg) : Prop where
  sync : ∀ v r y, xOf v = some r → yOf v = some y → (SReg.x r ∈ seen ↔ SReg.y y ∈ seen)
  has : ∀ v y, yOf v = some y → SReg.y y ∈ seen → (xOf v).isSome

structure MarkStep (yOf xOf : Name → Option Nat) (seen seen' : List SReg) : Prop where
  inv : MarkInv yOf xOf seen'
  mono : ∀ r, r ∈ seen → r ∈ seen'

theorem MarkStep.trans {yOf xOf s1 s2 s3} (h : MarkStep yOf xOf s1 s2) (h' : MarkStep yOf xOf s2 s3) : MarkStep yOf xOf s1 s3 :=
  ⟨h'.inv, fun r hr => h'.mono r (h.mono r hr)⟩

section
variable {yOf xOf : Name → Option Nat} (yinj : ∀ n m y, yOf n = some y → yOf m = some y → n = m)
  (xinj : ∀ n m r, xOf n = some r → xOf m = some r → n = m)
include yinj xinj

theorem markKid_step {c x seen} (h : MarkInv yOf xOf seen) (hv : ∀ v, c = .var v → xOf v = some x)
    (hn : c.isFn = true ∨ c.isEfn = true → ∀ v, xOf v ≠ some x) :
    MarkStep yOf xOf seen (markKid yOf c x seen) ∧ ∀ v, c = .var v → SReg.x x ∈ markKid yOf c x seen := by
  have other : (∀ v, xOf v ≠ some x) → MarkStep yOf xOf seen (.x x :: seen) := by
    intro hn
    refine ⟨⟨fun v r y hr hy => ?_, fun v y hy hm => h.has v y hy (by simpa using hm)⟩, fun r hr => by simp [hr]⟩
    have : r ≠ x := by rintro rfl; exact hn v hr
    simp only [List.mem_cons, SReg.x.injEq, this, false_or, reduceCtorEq]
    exact h.sync v r y hr hy
  cases c with
  | int v => exact ⟨⟨h, fun _ h => h⟩, by simp⟩
  | cons v => exact ⟨⟨h, fun _ h => h⟩, by simp⟩
  | fn f cs =>
    simp only [markKid]
    split
    · exact ⟨⟨h, fun _ h => h⟩, by simp⟩
    · exact ⟨other (hn (.inl rfl)), by simp⟩
  | efn f cs =>
    simp only [markKid]
    split
    · exact ⟨⟨h, fun _ h => h⟩, by simp⟩
    · exact ⟨other (hn (.inr rfl)), by simp⟩
  | var n =>
    have hxn := hv n rfl
    simp only [markKid]
    split
    · rename_i hc
      exact ⟨⟨h, fun _ h => h⟩, fun _ _ => by simpa using hc⟩
    · rename_i hc
      cases hy : yOf n with
      | some y =>
        simp only
        refine ⟨⟨⟨fun w r z hr hz => ?_, fun w z hz hm => ?_⟩, fun r hr => by simp [hr]⟩, fun _ _ => by simp⟩
        · simp only [List.mem_cons, SReg.x.injEq, SReg.y.injEq, false_or, reduceCtorEq]
          constructor
          · rintro (rfl | hr')
            · left
              have := xinj w n r hr hxn
              subst this
              rw [hy] at hz; exact (Option.some.inj hz).symm
            · exact .inr ((h.sync w r z hr hz).1 hr')
          · rintro (rfl | hr')
            · left
              have := yinj w n z hz hy
              subst this
              rw [hxn] at hr; exact (Option.some.inj hr).symm
            · exact .inr ((h.sync w r z hr hz).2 hr')
        · simp only [List.mem_cons, SReg.y.injEq, reduceCtorEq, false_or] at hm
          rcases hm with rfl | hm
          · rw [yinj w n z hz hy, hxn]; rfl
          · exact h.has w z hz hm
      | none =>
        simp only
        refine ⟨⟨⟨fun w r z hr hz => ?_, fun w z hz hm => h.has w z hz (by simpa using hm)⟩, fun r hr => by simp [hr]⟩, fun _ _ => by simp⟩
        have : r ≠ x := by
          rintro rfl
          rw [xinj w n r hr hxn, hy] at hz; cases hz
        simp only [List.mem_cons, SReg.x.injEq, this, false_or, reduceCtorEq]
        exact h.sync w r z hr hz

theorem markKids_step {ks seen} (h : MarkInv yOf xOf seen)
    (hk : ∀ c x, (c, x) ∈ ks → (∀ v, c = .var v → xOf v = some x) ∧ (c.isFn = true ∨ c.isEfn = true → ∀ v, xOf v ≠ some x)) :
    MarkStep yOf xOf seen (markKids yOf ks seen) ∧ ∀ v x, (Node.var v, x) ∈ ks → SReg.x x ∈ markKids yOf ks seen := by
  induction ks generalizing seen with
  | nil => exact ⟨⟨h, fun _ h => h⟩, by simp⟩
  | cons k ks ih =>
    obtain ⟨c, x⟩ := k
    obtain ⟨a1, a2⟩ := markKid_step yinj xinj h (hk c x (by simp)).1 (hk c x (by simp)).2
    obtain ⟨b1, b2⟩ := ih a1.inv fun c x hc => hk c x (by simp [hc])
    refine ⟨a1.trans b1, fun v z hz => ?_⟩
    rcases List.mem_cons.1 hz with hz | hz
    · cases hz; exact b1.mono _ (a2 v rfl)
    · exact b2 v z hz

theorem markItems_step {atom nr ais} (R : Regs atom nr ais xOf) {as seen} (has : ∀ a ∈ as, a ∈ ais) (h : MarkInv yOf xOf seen) :
    MarkStep yOf xOf seen (markItems yOf as seen) ∧
      (∀ a ∈ as, ∀ v, a.node = .var v → SReg.x a.x ∈ markItems yOf as seen) ∧
      (∀ a ∈ as, a.node.isVar = false → ∀ v x, (Node.var v, x) ∈ a.kids → SReg.x x ∈ markItems yOf as seen) := by
  induction as generalizing seen with
  | nil => exact ⟨⟨h, fun _ h => h⟩, by simp, by simp⟩
  | cons a as ih =>
    have ha := has a (by simp)
    have s : MarkStep yOf xOf seen (markItem yOf a seen) ∧ (∀ v, a.node = .var v → SReg.x a.x ∈ markItem yOf a seen) ∧
        (a.node.isVar = false → ∀ v x, (Node.var v, x) ∈ a.kids → SReg.x x ∈ markItem yOf a seen) := by
      by_cases hv : a.node.isVar = true
      · cases hn : a.node with
        | var n =>
          simp only [markItem, hn]
          obtain ⟨a1, a2⟩ := markKid_step yinj xinj (c := .var n) (x := a.x) h (by rintro v hv; cases hv; exact R.var a ha n hn) (by simp [Node.isFn, Node.isEfn])
          exact ⟨a1, fun _ _ => a2 n rfl, by simp [Node.isVar]⟩
        | _ => rw [hn] at hv; cases hv
      · have hm : markItem yOf a seen = markKids yOf a.kids seen := by
          unfold markItem
          cases hn : a.node with
          | var n => rw [hn] at hv; exact absurd rfl hv
          | _ => rfl
        rw [hm]
        obtain ⟨a1, a2⟩ := markKids_step yinj xinj (ks := a.kids) h (by
          intro c x hc
          obtain ⟨b, hb, hbn, hbx, _, hbl⟩ := R.kidItem a ha c x hc
          subst hbn hbx
          refine ⟨fun v hv => R.var b hb v hv, fun hf v hx => ?_⟩
          refine (R.sReg b hb ?_ hbl).2.2 v hx
          cases hbb : b.node <;> simp_all [Node.isFn, Node.isEfn, Node.isVar])
        exact ⟨a1, fun v hvv => by rw [hvv] at hv; exact absurd rfl hv, fun _ => a2⟩
    obtain ⟨b1, b2, b3⟩ := ih (fun b hb => has b (by simp [hb])) s.1.inv
    refine ⟨s.1.trans b1, ?_, ?_⟩
    · intro b hb v hbn
      rcases List.mem_cons.1 hb with rfl | hb
      · exact b1.mono _ (s.2.1 v hbn)
      · exact b2 b hb v hbn
    · intro b hb hbn v x hk
      rcases List.mem_cons.1 hb with rfl | hb
      · exact b1.mono _ (s.2.2 hbn v x hk)
      · exact b3 b hb hbn v x hk

/-- Exactly the variables of the head are marked. -/
theorem headMarks_spec {atom nr ais} (R : Regs atom nr ais xOf) (N : Nodes atom ais) :
    (∀ v r, xOf v = some r → SReg.x r ∈ markItems yOf (flattenProgram (atomArgs atom).length ais) []) ∧
    (∀ v y, yOf v = some y → (SReg.y y ∈ markItems yOf (flattenProgram (atomArgs atom).length ais) [] ↔
      v ∈ Node.varss (atomArgs atom))) := by
  have hi : MarkInv yOf xOf [] := ⟨by simp, by simp⟩
  obtain ⟨a1, a2, a3⟩ := markItems_step yinj xinj R (as := flattenProgram (atomArgs atom).length ais)
    (fun a ha => (List.mem_filter.1 ha).1) hi
  generalize markItems yOf (flattenProgram (atomArgs atom).length ais) [] = seen at *
  have hx : ∀ v r, xOf v = some r → SReg.x r ∈ seen := by
    have key : ∀ v ∈ Node.varss (atomArgs atom), ∀ r, xOf v = some r → SReg.x r ∈ seen := by
      refine N.find (Q := fun v => ∀ r, xOf v = some r → SReg.x r ∈ seen) ?_ ?_
      · intro a ha v hlt hn r hr
        rw [R.var a ha v hn] at hr; cases hr
        exact a2 a (List.mem_filter.2 ⟨ha, kept_iff.2 (.inl hlt)⟩) v hn
      · intro a ha hk v x hx r hr
        obtain ⟨b, hb, hbn, hbx, _, _⟩ := R.kidItem a ha _ x hx
        rw [R.var b hb v hbn, hbx] at hr; cases hr
        refine a3 a (List.mem_filter.2 ⟨ha, kept_iff.2 hk⟩) ?_ v x hx
        cases hn : a.node with
        | var n =>
          have := R.kids a ha
          rw [hn] at this
          simp [Node.children] at this
          rw [this] at hx; simp at hx
        | _ => rfl
    intro v r hr
    exact key v (N.itemVar.1 (R.varMem v r hr)) r hr
  refine ⟨hx, fun v y hy => ⟨fun hm => ?_, fun hm => ?_⟩⟩
  · obtain ⟨r, hr⟩ := Option.isSome_iff_exists.1 (a1.inv.has v y hy hm)
    exact N.itemVar.1 (R.varMem v r hr)
  · obtain ⟨a, ha, hn⟩ := N.itemVar.2 hm
    exact (a1.inv.sync v a.x y (R.var a ha v hn) hy).1 (hx v _ (R.var a ha v hn))

end

theorem Regs.mono {atom nr nr' ais xOf} (R : Regs atom nr ais xOf) (h : nr ≤ nr') : Regs atom nr' ais xOf :=
  { R with
    varR := fun v r hr => ⟨(R.varR v r hr).1, Nat.lt_of_lt_of_le (R.varR v r hr).2 h⟩
    sReg := fun a ha hv hl => ⟨(R.sReg a ha hv hl).1, Nat.lt_of_lt_of_le (R.sReg a ha hv hl).2.1 h, (R.sReg a ha hv hl).2.2⟩
    nr := Nat.le_trans R.nr h }

theorem assignSingle_pos (atom : Node) : (atomArgs atom).length ≤ (assignSingle atom).2.2 := (assignSingle_regs rfl).nr

theorem assignPair_head (head b0 : Node) :
    Regs head (assignPair head b0).2.2 (assignPair head b0).1.1 ((assignPair head b0).1.2.lookup ·) ∧
    (head.wf = true → ∀ a ∈ (assignPair head b0).1.1, a.node.wf = true) ∧
    ∃ cst, KidTree (atomArgs head).length (assignPair head b0).1.1 cst := by
  have hs : Regs head (assignSingle head).2.2 (assignSingle head).1 ((assignSingle head).2.1.lookup ·) := assignSingle_regs rfl
  have hw : head.wf = true → ∀ a ∈ (assignSingle head).1, a.node.wf = true := assignSingle_wf
  have ht : ∃ cst, KidTree (atomArgs head).length (assignSingle head).1 cst := annotate_tree ..
  unfold assignPair
  split
  · exact ⟨hs.mono (by simp), hw, ht⟩
  · split
    · refine ⟨hs.mono ?_, hw, ht⟩
      rename_i b0 _ c
      have : (assignSingle (.cons c)).2.2 = 1 := rfl
      rw [this]; simp
    · exact ⟨hs.mono (Nat.le_max_left ..), hw, ht⟩

theorem assignPair_first_wf (head b0 : Node) (h : b0.wf = true) : ∀ a ∈ (assignPair head b0).2.1.1, a.node.wf = true := by
  unfold assignPair
  split
  · exact assignSingle_wf h
  · split
    · exact assignSingle_wf h
    · exact annotate_wf h

/-! ## The state after a head -/

/-- What is known after the code of a head has run: its variables are placed, the temporary ones in their
registers. -/
def headSym (yOf : Name → Option Nat) (head : Node) (hs : List AItem) : Sym where
  seen := eraseStructRegs head hs (markItems yOf (flattenProgram (atomArgs head).length hs) [])
  x r := ((hs.find? fun a => a.node.isVar && (yOf a.node.name).isNone && a.x == r)).map (·.node)
  pl := Node.varss (atomArgs head)

theorem mem_eraseStructRegs_y {head hs seen y} : SReg.y y ∈ eraseStructRegs head hs seen ↔ SReg.y y ∈ seen := by
  unfold eraseStructRegs
  split
  · rfl
  · simp

theorem headSym_x {yOf head hs r n} (h : (headSym yOf head hs).x r = some n) :
    ∃ a ∈ hs, ∃ v, n = .var v ∧ a.node = .var v ∧ yOf v = none ∧ a.x = r := by
  simp only [headSym, Option.map_eq_some_iff] at h
  obtain ⟨a, ha, rfl⟩ := h
  have h1 := List.mem_of_find?_eq_some ha
  have h2 := List.find?_some ha
  simp only [Bool.and_eq_true, beq_iff_eq] at h2
  cases hn : a.node with
  | var v =>
    rw [hn] at h2
    exact ⟨a, h1, v, rfl, hn, by simpa [Node.name] using h2.1.2, h2.2⟩
  | _ => rw [hn] at h2; exact absurd h2.1.1 (by simp [Node.isVar])

theorem headSym_sane {yOf xOf : Name → Option Nat} (yinj : ∀ n m y, yOf n = some y → yOf m = some y → n = m) {head nr hs}
    (R : Regs head nr hs xOf) (N : Nodes head hs) : (headSym yOf head hs).Sane yOf where
  x r n h := by
    obtain ⟨a, ha, v, hv, hn, _, _⟩ := headSym_x h
    cases hv
    exact N.itemVar.1 ⟨a, ha, hn⟩
  y n y hy := by
    simp only [Sym.has, List.contains_iff_mem, headSym, mem_eraseStructRegs_y]
    exact (headMarks_spec yinj R.varInj R N).2 n y hy

theorem programItems_ne {yOf as g is g'} (h : programItems yOf as g = .ok (is, g')) (hne : as ≠ []) : is ≠ [] := by
  cases as with
  | nil => exact absurd rfl hne
  | cons a as =>
    simp only [programItems, bind_ok, pure_ok] at h
    obtain ⟨⟨i, g1⟩, h1, ⟨js, g2⟩, h2, h3⟩ := h
    cases h3
    simp [programItem_ne h1]

theorem flattenProgram_ne {atom ais} (hg : atom.goal = true) (N : Nodes atom ais) : flattenProgram (atomArgs atom).length ais ≠ [] := by
  have h0 := atomArgs_ne hg
  obtain ⟨n, hn⟩ := List.exists_mem_of_ne_nil _ h0
  obtain ⟨i, hi⟩ := List.getElem?_of_mem hn
  obtain ⟨a, ha, _⟩ := N.args i n hi
  have : a ∈ flattenProgram (atomArgs atom).length ais := List.mem_filter.2 ⟨List.mem_of_getElem? ha, kept_iff.2 (.inl (by
    rw [N.id i a ha]; exact (List.getElem?_eq_some_iff.1 hi).1))⟩
  intro h; rw [h] at this; simp at this

theorem toProgram_sem {st : Storage} {I} (hst : StOK st) (hI : Interp I st) {yOf xOf : Name → Option Nat} {ny nr : Nat}
    (ylt : ∀ n y, yOf n = some y → y < ny)
    (yinj : ∀ n m y, yOf n = some y → yOf m = some y → n = m) {head hs st0 is g1}
    (hg : head.goal = true) (R : Regs head nr hs xOf) (N : Nodes head hs) (hw : ∀ a ∈ hs, a.node.wf = true)
    {cst} (T : KidTree (atomArgs head).length hs cst)
    (h : toProgram yOf head hs ⟨[], st0⟩ = .ok (is, g1)) (hle : StLe g1.st st)
    (c : CAtom) (hci : c.instrs = allocInstrs ny ++ is) (hcn : c.regCount = nr) :
    HeadSem st I yOf ny c head (headSym yOf head hs) ∧ g1.seen = markItems yOf (flattenProgram (atomArgs head).length hs) [] := by
  simp only [toProgram, bind_ok, pure_ok] at h
  obtain ⟨⟨ds, g2⟩, h1, h2⟩ := h
  cases h2
  have hseen := programItems_seen h1
  have hdata := programItems_data h1
  refine ⟨⟨⟨ds, hci, programItems_ne h1 (flattenProgram_ne hg N), hdata.1,
    fun h0 => (programItems_envFree (no_perm ylt h0) h1).1, ?_⟩, hg, hcn ▸ R.nr⟩, hseen⟩
  subst hcn
  intro pre fuel e args gd hr hregs henv hlen hargs
  have ok : ∀ inp n, HCtx.OK ⟨⟨st, I, pre, yOf, ny, c.regCount⟩, head, hs, xOf, inp, n⟩ := fun _ _ =>
    { stok := hst, interp := hI, ylt := ylt, yinj := yinj, regs := R, wf := hw }
  rcases head_exec (Γ := ⟨⟨st, I, pre, yOf, ny, c.regCount⟩, head, hs, xOf, fun _ => false, 0⟩) (ok _ _) T (fun _ _ _ _ _ => rfl)
    (fuel := fuel) (Nat.zero_le _) h1 hle gd hr hregs henv hlen hargs (fun _ _ _ h => by cases h) with
    ⟨e', ν', r1, r2, r3, r4⟩ | r1
  · refine .inl ⟨e', ν', r1, fun hr' => ?_, r4⟩
    obtain ⟨k', c0', α', H⟩ := r3 hr'
    obtain ⟨m1, m2⟩ := headMarks_spec yinj R.varInj R N
    rw [hseen] at H
    have hpl : ∀ n, n ∈ Node.varss (atomArgs head) ↔ (ν' n).isSome := by
      intro n
      constructor
      · intro hn
        obtain ⟨a, ha, han⟩ := N.itemVar.2 hn
        exact (H.vx n a.x (R.var a ha n han)).1 (m1 n _ (R.var a ha n han))
      · intro hn
        obtain ⟨r, hr⟩ := H.νx n hn
        exact N.itemVar.1 (R.varMem n r hr)
    refine { good := r2 hr', regs := H.regs, x := ?_, pl := hpl, νlt := H.νlt, env := H.env, y := ?_ }
    · intro r n hx
      obtain ⟨a, ha, v, rfl, han, hy, rfl⟩ := headSym_x hx
      have hs := (hpl v).1 (N.itemVar.1 ⟨a, ha, han⟩)
      obtain ⟨p, hp⟩ := Option.isSome_iff_exists.1 hs
      obtain ⟨cell, h1, h2⟩ := H.x v a.x p hy (R.var a ha v han) hp
      exact ⟨cell, h1, p, h2.1, H.νlt v p hp, h2.2, fun D A σ ρ _ hag => hag v p hp⟩
    · intro n y hy hn
      obtain ⟨p, hp⟩ := Option.isSome_iff_exists.1 ((hpl n).1 hn)
      obtain ⟨cell, h1, h2⟩ := H.y n y p hy hp
      exact ⟨cell, h1, p, h2.1, H.νlt n p hp, h2.2, fun D A σ ρ _ hag => hag n p hp⟩
  · refine .inr ⟨r1.1, fun J n hf hn hnd => ?_⟩
    obtain ⟨inp, C⟩ := N.colours cst T J
    rcases head_exec (Γ := ⟨⟨st, I, pre, yOf, ny, c.regCount⟩, head, hs, xOf, inp, n⟩) (ok _ _) T C.kid
      (fuel := fuel) hn h1 hle gd hr hregs henv hlen hargs (fun i p hp hi => hf i p hp (by
        rw [← C.arg i (by rw [← hlen]; exact (List.getElem?_eq_some_iff.1 hp).1)]; exact hi)) with ⟨e', _, r2, _⟩ | ⟨_, v, b, hb, b', hb', hne, h3, h4, h5, h6⟩
    · exact absurd (r2.symm.trans r1.1) (by simp)
    · exact hne (C.once hnd v b hb b' hb' h3 h4 h5 h6)

/-! ## Variables placed by an atom -/

theorem symKid_pl {yOf nr c x S S'} (hs : symKid yOf nr c x S = some S') : ∀ v ∈ S'.pl, v ∈ S.pl ∨ c = .var v := by
  intro v hv
  cases c with
  | int n => simp only [symKid] at hs; split at hs <;> cases hs; exact .inl hv
  | cons n => simp only [symKid] at hs; split at hs <;> cases hs; exact .inl hv
  | fn f n =>
    simp only [symKid] at hs
    split at hs
    · split at hs <;> cases hs; exact .inl hv
    · cases hs
  | efn f n =>
    simp only [symKid] at hs
    split at hs
    · split at hs <;> cases hs; exact .inl hv
    · cases hs
  | var n =>
    simp only [symKid] at hs
    cases hy : yOf n with
    | some y =>
      simp only [hy] at hs
      split at hs
      · split at hs <;> cases hs; exact .inl hv
      · split at hs <;> cases hs
        rcases List.mem_cons.1 hv with rfl | hv
        · exact .inr rfl
        · exact .inl hv
    | none =>
      simp only [hy] at hs
      split at hs
      · split at hs <;> cases hs; exact .inl hv
      · split at hs
        · cases hs
        split at hs <;> cases hs
        rcases List.mem_cons.1 hv with rfl | hv
        · exact .inr rfl
        · exact .inl hv

theorem symKids_pl {yOf nr ks S S'} (hs : symKids yOf nr ks S = some S') : ∀ v ∈ S'.pl, v ∈ S.pl ∨ ∃ x, (Node.var v, x) ∈ ks := by
  induction ks generalizing S with
  | nil => cases hs; exact fun v h => .inl h
  | cons k ks ih =>
    obtain ⟨c, x⟩ := k
    simp only [symKids, Option.bind_eq_some_iff] at hs
    obtain ⟨S1, h1, h2⟩ := hs
    intro v hv
    rcases ih h2 v hv with h | ⟨y, hy⟩
    · rcases symKid_pl h1 v h with h | rfl
      · exact .inl h
      · exact .inr ⟨x, by simp⟩
    · exact .inr ⟨y, by simp [hy]⟩

theorem symItem_pl {yOf nr a S S'} (hs : symItem yOf nr a S = some S') :
    ∀ v ∈ S'.pl, v ∈ S.pl ∨ a.node = .var v ∨ ∃ x, (Node.var v, x) ∈ a.kids := by
  intro v hv
  have struct : ∀ node, (if a.x < nr then
      (symKids yOf nr a.kids ((S.mark (.x a.x)).clearX a.x)).bind fun S' =>
        if S'.x a.x = none then some (S'.setX a.x node) else none
    else none) = some S' → v ∈ S.pl ∨ ∃ x, (Node.var v, x) ∈ a.kids := by
    intro node hs
    split at hs
    · simp only [Option.bind_eq_some_iff] at hs
      obtain ⟨S1, h1, h2⟩ := hs
      split at h2 <;> cases h2
      exact symKids_pl h1 v hv
    · cases hs
  cases hn : a.node with
  | var n =>
    simp only [symItem, hn] at hs
    split at hs
    · cases hy : yOf n with
      | some y =>
        simp only [hy] at hs
        split at hs
        · split at hs <;> cases hs; exact .inl hv
        · split at hs <;> cases hs
          rcases List.mem_cons.1 hv with rfl | hv
          · exact .inr (.inl rfl)
          · exact .inl hv
      | none =>
        simp only [hy] at hs
        split at hs
        · split at hs <;> cases hs; exact .inl hv
        · split at hs
          · cases hs
          split at hs <;> cases hs
          rcases List.mem_cons.1 hv with rfl | hv
          · exact .inr (.inl rfl)
          · exact .inl hv
    · cases hs
  | _ =>
    simp only [symItem, hn] at hs
    exact (struct _ hs).imp_right .inr

theorem symItems_pl {yOf nr as S S'} (hs : symItems yOf nr as S = some S') :
    ∀ v ∈ S'.pl, v ∈ S.pl ∨ ∃ a ∈ as, a.node = .var v ∨ ∃ x, (Node.var v, x) ∈ a.kids := by
  induction as generalizing S with
  | nil => cases hs; exact fun v h => .inl h
  | cons a as ih =>
    simp only [symItems, Option.bind_eq_some_iff] at hs
    obtain ⟨S1, h1, h2⟩ := hs
    intro v hv
    rcases ih h2 v hv with h | ⟨b, hb, h⟩
    · rcases symItem_pl h1 v h with h | h
      · exact .inl h
      · exact .inr ⟨a, by simp, h⟩
    · exact .inr ⟨b, by simp [hb], h⟩

theorem symAtom_pl {yOf nr atom ais S S'} (N : Nodes atom ais) (hs : symAtom yOf nr atom ais S = some S') :
    ∀ v ∈ S'.pl, v ∈ S.pl ∨ v ∈ Node.varss atom.children := by
  simp only [symAtom, Option.bind_eq_some_iff] at hs
  obtain ⟨S1, h1, h2⟩ := hs
  split at h2 <;> cases h2
  intro v hv
  rcases symItems_pl h1 v hv with h | ⟨a, ha, h⟩
  · exact .inl h
  · right
    rw [← varss_atomArgs, ← N.itemVar]
    have ha := (mem_flattenQuery.1 ha).1
    rcases h with h | ⟨x, h⟩
    · exact ⟨a, ha, h⟩
    · obtain ⟨b, hb, hbn, _⟩ := N.kidItem a ha _ x h
      exact ⟨b, hb, hbn⟩

/-! ## Clauses -/

/-- The first body atom of the clause finds its registers intact: replaying the register use of its code
from the state left by the head succeeds.  (It fails when the code overwrites a register that is still
needed or reads one that holds something else.) -/
def safeClause (ord : HashOrder) (head : Node) (body : List Node) : Bool :=
  match body with
  | [] => true
  | b :: bs =>
    let ys := permVars ord true (head :: b :: bs)
    (symAtom (indexOf? · ys) (assignPair head b).2.2 b (assignPair head b).2.1.1
      (headSym (indexOf? · ys) head (assignPair head b).1.1)).isSome

theorem compileClause_sem {st : Storage} {I : Int → FV} (hst : StOK st) (hI : Interp I st) {ord : HashOrder} (ho : ord.OK)
    {bi head body st0 f r st1} (h : compileClause ord bi head body st0 = .ok (f, r, st1)) (hle : StLe st1 st)
    (hok : ∀ a ∈ head :: body, Node.goal a = true ∧ a.wf = true) (hs : safeClause ord head body = true) :
    RuleSem st I r ⟨head, body⟩ := by
  have hh := hok head (by simp)
  cases body with
  | nil =>
    obtain ⟨_, is, g, h1, rfl, rfl, rfl⟩ := compileClause_fact h
    refine ⟨(indexOf? · (permVars ord true [head])), (permVars ord true [head]).length, _, [], _, rfl, yOf_lt, yOf_inj,
      (toProgram_sem (nr := (assignSingle head).2.2) hst hI yOf_lt yOf_inj hh.1 (assignSingle_regs rfl) (assignSingle_nodes head) (assignSingle_wf hh.2)
        (annotate_tree ..).choose_spec h1 hle _ rfl rfl).1, .nil, by simp, fun _ => ?_, by simp, clause_ny ho⟩
    have : (permVars ord true [head]).Perm [] := ho _
    exact this.length_eq
  | cons b0 bs =>
    obtain ⟨_, is, g, js, g1, cs, g2, h1, h2, h3, rfl, rfl, rfl⟩ := compileClause_rule h
    have hb := hok b0 (by simp)
    have hbs : ∀ a ∈ bs, Node.goal a = true ∧ a.wf = true := fun a ha => hok a (by simp [ha])
    obtain ⟨R, hw, cst, T⟩ := assignPair_head head b0
    obtain ⟨Nh, Nb⟩ := assignPair_nodes head b0
    have hle1 : StLe g1.st st := (compileQueryAtoms_le (fun a ha => (hbs a ha).2) h3).trans hle
    have hle0 : StLe g.st st := (toQuery_le Nb (assignPair_first_wf head b0 hb.2) h2).trans hle1
    simp only [safeClause, Option.isSome_iff_exists] at hs
    obtain ⟨S', hs⟩ := hs
    obtain ⟨H, e1⟩ := toProgram_sem hst hI yOf_lt yOf_inj hh.1 R Nh (hw hh.2) T h1 hle0
      ⟨(assignPair head b0).2.2, allocInstrs (permVars ord true (head :: b0 :: bs)).length ++ is,
          varRegs (indexOf? · (permVars ord true (head :: b0 :: bs))) (assignPair head b0).1.1 [], head, false⟩ rfl rfl
    have sane := headSym_sane (yOf := (indexOf? · (permVars ord true (head :: b0 :: bs)))) yOf_inj R Nh
    obtain ⟨G, e2, _⟩ := toQuery_sem hst hI yOf_lt yOf_inj hb.1 Nb (assignPair_first_wf head b0 hb.2) h2 hle1 hs sane
      (by simp only [headSym, e1]) []
      ⟨(assignPair head b0).2.2, js,
          varRegs (indexOf? · (permVars ord true (head :: b0 :: bs))) (assignPair head b0).2.1.1 [], b0, false⟩ rfl rfl rfl (by simp)
    obtain ⟨s1, _, _⟩ := symAtom_sane yOf_inj Nb hs sane
    refine ⟨(indexOf? · (permVars ord true (head :: b0 :: bs))), (permVars ord true (head :: b0 :: bs)).length, _, _ :: cs, _, rfl, yOf_lt, yOf_inj, H,
      .cons G (compileQueryAtoms_sem hst hI yOf_lt yOf_inj h3 hbs hle s1.sane.next (by rw [← e2]; rfl) Sym.next_nox ?_ ?_), by simp, by simp, ?_, clause_ny ho⟩
    · intro v hy a ha hva hp
      have hpl := symAtom_pl Nb hs v hp
      refine yOf_none ho hy (permVarsRaw_clause_first ?_ ha hva)
      rcases hpl with h | h
      · exact .inl (by rw [← varss_atomArgs]; exact h)
      · exact .inr h
    · refine pairwise_split fun pre a mid b post hl v hy ha hb => ?_
      exact yOf_none ho hy (permVarsRaw_clause_later hl ha hb)
    · intro c hc
      rcases List.mem_cons.1 hc with rfl | hc
      · rfl
      · exact compileQueryAtoms_fq h3 c hc

end PBfs
