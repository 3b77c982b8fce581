import Verif.Proof.Twin5
import Verif.Proof.Frames2
/-! # Compiling the same text twice -/
namespace PBfs

/-- A relation between storages which is kept by storing the same functors and variables in both. -/
structure ZRel (M : Cmp) where
  rel : Storage → Storage → Prop
  functor : ∀ {s s'}, rel s s' → ∀ f, rel (s.functorIndexOf f).2 (s'.functorIndexOf f).2
  same : ∀ {s s'}, rel s s' → M.ex → s = s'
  var : ∀ {s s'}, rel s s' → ∀ n, rel (s.pushBackVar n).2 (s'.pushBackVar n).2

theorem zero_functor {s s' : Storage} (h : s.functors[0]? = s'.functors[0]?) (f) :
    (s.functorIndexOf f).2.functors[0]? = (s'.functorIndexOf f).2.functors[0]? := by
  have aux : ∀ {s : Storage} {a}, s.functors[0]? = some a → (s.functorIndexOf f).2.functors[0]? = some a := fun h =>
    prefix_getElem? (functorIndexOf_grow _ f).le.functors h
  have aux2 : ∀ {s : Storage}, s.functors[0]? = none → (s.functorIndexOf f).2.functors[0]? = some f := by
    intro s h
    have : s.functors = [] := by
      rw [List.getElem?_eq_none_iff] at h
      exact List.eq_nil_of_length_eq_zero (by omega)
    simp [Storage.functorIndexOf, this, indexOf?]
  cases h1 : s.functors[0]? with
  | none => rw [aux2 h1, aux2 (h ▸ h1)]
  | some a => rw [aux h1, aux (h ▸ h1)]

def ZRel.any {M : Cmp} (h : ¬ M.ex) : ZRel M := ⟨fun _ _ => True, fun _ _ => trivial, fun _ he => absurd he h, fun _ _ => trivial⟩

def ZRel.zero (M : Cmp) : ZRel M where
  rel s s' := s.functors[0]? = s'.functors[0]? ∧ (M.ex → s = s')
  functor h f := ⟨zero_functor h.1 f, fun he => by rw [h.2 he]⟩
  same h := h.2
  var h n := ⟨h.1, fun he => by rw [h.2 he]⟩

/-- Compiler states with the same registers seen. -/
structure GR {M : Cmp} (z : ZRel M) (fr : YFrame) (g g' : GenSt) : Prop where
  x : ∀ x, g.has (.x x) = g'.has (.x x)
  y : ∀ y y', YRel fr y y' → g.has (.y y) = g'.has (.y y')
  zero : z.rel g.st g'.st

/-- Two compilations: both succeed or both throw the same; `F`, `F'` are later storages. -/
def CS {M : Cmp} (z : ZRel M) (F F' : Storage) (fr : YFrame) (g g' : GenSt) {α β} (P : α → β → Prop) : CR (α × GenSt) → CR (β × GenSt) → Prop
  | .ok (a, g1), .ok (b, g1') => Grow g.st g1.st ∧ Grow g'.st g1'.st ∧ GR z fr g1 g1' ∧ (StLe g1.st F → StLe g1'.st F' → P a b)
  | .error (e, s), .error (e', s') => e = e' ∧ (z.rel s s') ∧ Grow g.st s ∧ Grow g'.st s'
  | _, _ => False

section
variable {M : Cmp} {z : ZRel M} {F F' : Storage} {fr : YFrame} {g g' : GenSt}

theorem CS.bind {α β γ δ} {P : α → β → Prop} {Q : γ → δ → Prop} {x : CR (α × GenSt)} {y : CR (β × GenSt)}
    {k : α × GenSt → CR (γ × GenSt)} {l : β × GenSt → CR (δ × GenSt)} (h : CS z F F' fr g g' P x y)
    (hk : ∀ a b g1 g1', GR z fr g1 g1' → CS z F F' fr g1 g1' (fun c d => P a b → Q c d) (k (a, g1)) (l (b, g1'))) : CS z F F' fr g g' Q (x >>= k) (y >>= l) := by
  cases x with
  | error e =>
    cases y with
    | error e' => exact h
    | ok b => cases h
  | ok a =>
    cases y with
    | error e' => cases h
    | ok b =>
      obtain ⟨a, g1⟩ := a
      obtain ⟨b, g1'⟩ := b
      obtain ⟨h1, h2, h3, h4⟩ := h
      have := hk a b g1 g1' h3
      show CS z F F' fr g g' Q (k (a, g1)) (l (b, g1'))
      cases hx : k (a, g1) with
      | error e =>
        cases hy : l (b, g1') with
        | error e' =>
          rw [hx, hy] at this
          obtain ⟨t1, t2, t3, t4⟩ := this
          exact ⟨t1, t2, h1.trans t3, h2.trans t4⟩
        | ok b => rw [hx, hy] at this; cases this
      | ok c =>
        cases hy : l (b, g1') with
        | error e' => rw [hx, hy] at this; cases this
        | ok d =>
          rw [hx, hy] at this
          obtain ⟨c, g2⟩ := c
          obtain ⟨d, g2'⟩ := d
          obtain ⟨t1, t2, t3, t4⟩ := this
          exact ⟨h1.trans t1, h2.trans t2, t3, fun s1 s2 => t4 s1 s2 (h4 (t1.le.trans s1) (t2.le.trans s2))⟩

theorem CS.ret {α β} {P : α → β → Prop} {a b} (h : GR z fr g g') (hp : P a b) : CS z F F' fr g g' P (pure (a, g)) (pure (b, g')) :=
  ⟨.refl _, .refl _, h, fun _ _ => hp⟩

theorem CS.throw {α β} {P : α → β → Prop} (e) (h : GR z fr g g') : CS z F F' fr g g' P (.error (e, g.st)) (.error (e, g'.st)) :=
  ⟨rfl, h.zero, .refl _, .refl _⟩

theorem CS.ite {α β} {P : α → β → Prop} {c d : Prop} [Decidable c] [Decidable d] {x1 x2 : CR (α × GenSt)} {y1 y2 : CR (β × GenSt)} (hc : c ↔ d)
    (h1 : CS z F F' fr g g' P x1 y1) (h2 : CS z F F' fr g g' P x2 y2) :
    CS z F F' fr g g' P (if c then x1 else x2) (if d then y1 else y2) := by
  by_cases h : c
  · rw [if_pos h, if_pos (hc.1 h)]; exact h1
  · rw [if_neg h, if_neg fun hd => h (hc.2 hd)]; exact h2

/-- Starting from states with the same storages. -/
theorem CS.from {α β} {P : α → β → Prop} {g1 g1' : GenSt} {x : CR (α × GenSt)} {y : CR (β × GenSt)} (h : CS z F F' fr g1 g1' P x y)
    (e : Grow g.st g1.st) (e' : Grow g'.st g1'.st) : CS z F F' fr g g' P x y := by
  cases x with
  | error e1 =>
    cases y with
    | error e' => obtain ⟨t1, t2, t3, t4⟩ := h; exact ⟨t1, t2, e.trans t3, (by assumption : Grow g'.st g1'.st).trans t4⟩
    | ok b => cases h
  | ok a =>
    cases y with
    | error e' => cases h
    | ok b => obtain ⟨t1, t2, t3, t4⟩ := h; exact ⟨e.trans t1, e'.trans t2, t3, t4⟩

theorem GenSt.has_mark (g : GenSt) (r s : SReg) : (g.mark r).has s = (decide (s = r) || g.has s) := by
  unfold GenSt.has GenSt.mark
  rw [List.contains_cons]
  congr 1

theorem GR.mark (h : GR z fr g g') (x : Nat) : GR z fr (g.mark (.x x)) (g'.mark (.x x)) := by
  refine ⟨fun z => ?_, fun y y' hy => ?_, h.zero⟩
  · rw [GenSt.has_mark, GenSt.has_mark, h.x]
  · rw [GenSt.has_mark, GenSt.has_mark, h.y y y' hy]
    simp

theorem GR.markY (h : GR z fr g g') {y y'} (hy : YRel fr y y') : GR z fr (g.mark (.y y)) (g'.mark (.y y')) := by
  refine ⟨fun z => ?_, fun z z' hz => ?_, h.zero⟩
  · rw [GenSt.has_mark, GenSt.has_mark, h.x]
    simp
  · rw [GenSt.has_mark, GenSt.has_mark, h.y z z' hz]
    simp only [SReg.y.injEq, hz.inj hy]

theorem functor_later {s : Storage} (f) (hF : F.functors.length ≤ 32768) (h : StLe (s.functorIndexOf f).2 F) : F.functorAt (s.functorIndexOf f).1 = some f := by
  obtain ⟨_, k, hk, hi⟩ := functorIndexOf_spec (s := s) (f := f) (i := (s.functorIndexOf f).1) (s' := (s.functorIndexOf f).2) rfl
  have hk' := prefix_getElem? h.functors hk
  have hlt := (List.getElem?_eq_some_iff.1 hk').1
  rw [hi, toShort_small (by omega)]
  unfold Storage.functorAt
  rw [if_pos (by omega)]
  simpa using hk'

theorem var_later {s : Storage} (n) (hF : F.vars.length ≤ 32768) (h : StLe (s.pushBackVar n).2 F) : F.varAt (s.pushBackVar n).1 = some n := by
  have hk : (s.pushBackVar n).2.vars[s.vars.length]? = some n := by simp [Storage.pushBackVar]
  have hk' := prefix_getElem? h.vars hk
  have hlt := (List.getElem?_eq_some_iff.1 hk').1
  show F.varAt (toShort s.vars.length) = some n
  rw [toShort_small (by omega)]
  unfold Storage.varAt
  rw [if_pos (by omega)]
  simpa using hk'

theorem functorIndexOf_cs {C : Int → Cell} (T : Twin M F F') (h : GR z fr g g') (f : FV) (hC : ∀ i j, FIdx M F F' i j → CellRel M F F' (C i) (C j)) :
    CS z F F' fr g g' (CellRel M F F') (pure (C (g.st.functorIndexOf f).1, { g with st := (g.st.functorIndexOf f).2 }))
      (pure (C (g'.st.functorIndexOf f).1, { g' with st := (g'.st.functorIndexOf f).2 })) := by
  refine ⟨functorIndexOf_grow _ f, functorIndexOf_grow _ f, ⟨h.x, h.y, z.functor h.zero f⟩, fun h1 h2 => hC _ _ ?_⟩
  by_cases he : M.ex
  · exact .inr (.inr ⟨he, by rw [z.same h.zero he]⟩)
  · exact .inl ⟨f, functor_later f (T.small he) h1, functor_later f (T.small' he) h2⟩

theorem pushVar_cs {α} {C : Int → α} {C' : Int → α} {P : α → α → Prop} (T : Twin M F F') (h : GR z fr g g') (n : Name) (hC : ∀ i j, VIdx M F F' i j → P (C i) (C' j)) :
    CS z F F' fr g g' P (pure (C (g.st.pushBackVar n).1, { g with st := (g.st.pushBackVar n).2 }))
      (pure (C' (g'.st.pushBackVar n).1, { g' with st := (g'.st.pushBackVar n).2 })) := by
  refine ⟨pushBackVar_grow _ n, pushBackVar_grow _ n, ⟨h.x, h.y, z.var h.zero n⟩, fun h1 h2 => hC _ _ ?_⟩
  by_cases he : M.ex
  · exact .inr ⟨he, by rw [z.same h.zero he]⟩
  · exact .inl ⟨n, var_later n (T.vars he) h1, var_later n (T.vars' he) h2⟩

theorem structCell_cs (T : Twin M F F') (h : GR z fr g g') (n : Node) :
    CS z F F' fr g g' (fun c c' => c.isRef = false ∧ CellRel M F F' c c') (structCell n g) (structCell n g') := by
  have aux : ∀ {C : Int → Cell} (f : FV), (∀ i, (C i).isRef = false) → (∀ i j, FIdx M F F' i j → CellRel M F F' (C i) (C j)) →
    CS z F F' fr g g' (fun c c' => c.isRef = false ∧ CellRel M F F' c c') (pure (C (g.st.functorIndexOf f).1, { g with st := (g.st.functorIndexOf f).2 }))
      (pure (C (g'.st.functorIndexOf f).1, { g' with st := (g'.st.functorIndexOf f).2 })) := by
    intro C f h1 h2
    obtain ⟨t1, t2, t3, t4⟩ := functorIndexOf_cs T h f h2
    exact ⟨t1, t2, t3, fun s1 s2 => ⟨h1 _, t4 s1 s2⟩⟩
  cases n with
  | int v =>
    unfold structCell stoi
    by_cases hv : -2147483648 ≤ v ∧ v ≤ 2147483647
    · simp only [if_pos hv]
      exact .ret h ⟨rfl, .int v⟩
    · simp only [if_neg hv]
      exact .throw _ h
  | cons c => exact aux (C := .cons) ⟨c, 0⟩ (fun _ => rfl) fun _ _ h => .cons h
  | fn f cs => exact aux (C := (.fn · cs.length)) ⟨f, cs.length⟩ (fun _ => rfl) fun _ _ h => .fn _ h
  | efn f cs =>
    unfold structCell
    simp only
    split
    · exact .ret h ⟨rfl, .efn _ _⟩
    · exact .throw _ h
  | var n => exact .throw _ h

theorem yOf_rel (hm : ∀ n, n ∈ fr.ys ↔ n ∈ fr.ys') (n : Name) :
    (∃ y y', indexOf? n fr.ys = some y ∧ indexOf? n fr.ys' = some y' ∧ YRel fr y y' ∧ fr.ys ≠ []) ∨ (indexOf? n fr.ys = none ∧ indexOf? n fr.ys' = none) := by
  cases h1 : indexOf? n fr.ys with
  | some y =>
    have hmem : n ∈ fr.ys := List.mem_of_getElem? (indexOf?_get h1)
    obtain ⟨y', hy'⟩ := indexOf?_isSome ((hm n).1 hmem)
    exact .inl ⟨y, y', rfl, hy', ⟨n, h1, hy'⟩, fun h => by rw [h] at hmem; cases hmem⟩
  | none =>
    cases h2 : indexOf? n fr.ys' with
    | some y => exact absurd ((hm n).2 (List.mem_of_getElem? (indexOf?_get h2))) (indexOf?_none_not_mem h1)
    | none => exact .inr ⟨rfl, rfl⟩

variable {cur : Option YFrame}

/-- What a clause and its environment have in common. -/
structure YOK (fr : YFrame) (cur : Option YFrame) : Prop where
  mem : ∀ n, n ∈ fr.ys ↔ n ∈ fr.ys'
  cur : fr.ys ≠ [] → cur = some fr

local notation "yy" => (indexOf? · fr.ys)
local notation "yy'" => (indexOf? · fr.ys')

theorem definedVars_eq (hf : YOK fr cur) (h : GR z fr g g') (xOf : Name → Option Nat) (cs : List Node) :
    definedVars yy xOf g cs = definedVars yy' xOf g' cs := by
  unfold definedVars
  congr 1
  funext v
  rcases yOf_rel hf.mem v with ⟨y, y', h1, h2, h3, _⟩ | ⟨h1, h2⟩
  · simp only [h1, h2]
    exact h.y y y' h3
  · simp only [h1, h2]
    split
    · exact h.x _
    · rfl

theorem queryKid_cs (T : Twin M F F') (hf : YOK fr cur) (h : GR z fr g g') (c : Node) (x : Nat) :
    CS z F F' fr g g' (DRel M F F' cur) (queryKid yy c x g) (queryKid yy' c x g') := by
  have xcase : CS z F F' fr g g' (DRel M F F' cur) (if g.has (.x x) then pure (.setValue x, g)
      else pure (.setVariable x ((g.mark (.x x)).st.pushBackVar c.name).1, { g.mark (.x x) with st := ((g.mark (.x x)).st.pushBackVar c.name).2 }))
      (if g'.has (.x x) then pure (.setValue x, g')
      else pure (.setVariable x ((g'.mark (.x x)).st.pushBackVar c.name).1, { g'.mark (.x x) with st := ((g'.mark (.x x)).st.pushBackVar c.name).2 })) := by
    refine .ite (by rw [h.x]) (.ret h (.setValue x)) ?_
    exact (pushVar_cs (C := Instr.setVariable x) (C' := Instr.setVariable x) (P := DRel M F F' cur) T (h.mark x) c.name fun _ _ hv => .setVariable x hv).from (.refl g.st) (.refl g'.st)
  have struct : CS z F F' fr g g' (DRel M F F' cur) (structCell c g >>= fun r => pure (.putStructure r.1 x, r.2))
      (structCell c g' >>= fun r => pure (.putStructure r.1 x, r.2)) := by
    refine (structCell_cs T h c).bind fun a b g1 g1' h1 => ?_
    exact .ret h1 fun hp => .putStructure x hp.1 hp.2
  cases c with
  | int v => exact struct
  | cons v => exact struct
  | fn f cs => exact xcase
  | efn f cs => exact xcase
  | var n =>
    unfold queryKid
    simp only
    rcases yOf_rel hf.mem n with ⟨y, y', h1, h2, h3, h4⟩ | ⟨h1, h2⟩
    · simp only [h1, h2]
      refine .ite (by rw [h.y y y' h3]) (.ret h (.setPermValue (hf.cur h4) h3)) ?_
      exact (pushVar_cs (C := Instr.setPermVariable y) (C' := Instr.setPermVariable y') (P := DRel M F F' cur) T (h.markY h3) n fun _ _ hv => .setPermVariable (hf.cur h4) h3 hv).from (.refl g.st) (.refl g'.st)
    · simp only [h1, h2]
      exact xcase

theorem queryKids_cs (T : Twin M F F') (hf : YOK fr cur) : ∀ (ks : List (Node × Nat)) {g g' : GenSt}, GR z fr g g' →
    CS z F F' fr g g' (List.Forall₂ (DRel M F F' cur)) (queryKids yy ks g) (queryKids yy' ks g')
  | [], g, g', h => .ret h .nil
  | (c, x) :: ks, g, g', h => by
    unfold queryKids
    refine (queryKid_cs (M := M) T hf h c x).bind fun a b g1 g1' h1 => ?_
    refine (queryKids_cs T hf ks h1).bind fun as bs g2 g2' h2 => ?_
    exact .ret h2 fun ha hb => .cons hb ha

theorem queryItem_cs (T : Twin M F F') (hf : YOK fr cur) (xOf : Name → Option Nat) (a : AItem) (h : GR z fr g g') :
    CS z F F' fr g g' (List.Forall₂ (DRel M F F' cur)) (queryItem yy xOf a g) (queryItem yy' xOf a g') := by
  have str : CS z F F' fr g g' (List.Forall₂ (DRel M F F' cur))
      (structCell a.node (g.mark (.x a.x)) >>= fun r => queryKids yy a.kids r.2 >>= fun s => pure (.putStructure r.1 a.x :: s.1, s.2))
      (structCell a.node (g'.mark (.x a.x)) >>= fun r => queryKids yy' a.kids r.2 >>= fun s => pure (.putStructure r.1 a.x :: s.1, s.2)) := by
    refine CS.from (g1 := g.mark (.x a.x)) (g1' := g'.mark (.x a.x)) ?_ (.refl _) (.refl _)
    refine (structCell_cs T (h.mark a.x) a.node).bind fun c c' g1 g1' h1 => ?_
    refine (queryKids_cs (M := M) T hf a.kids h1).bind fun as bs g2 g2' h2 => ?_
    exact .ret h2 fun ha hc => .cons (.putStructure _ hc.1 hc.2) ha
  unfold queryItem
  cases hn : a.node with
  | var n =>
    simp only
    rcases yOf_rel hf.mem n with ⟨y, y', h1, h2, h3, h4⟩ | ⟨h1, h2⟩
    · simp only [h1, h2]
      refine .ite (by rw [h.y y y' h3]) (.ret h (.cons (.putPermValue _ (hf.cur h4) h3) .nil)) ?_
      exact (pushVar_cs (C := fun v => [Instr.putPermVariable y a.id v]) (C' := fun v => [Instr.putPermVariable y' a.id v]) (P := List.Forall₂ (DRel M F F' cur)) T (h.markY h3) n
        fun _ _ hv => .cons (.putPermVariable _ (hf.cur h4) h3 hv) .nil).from (.refl g.st) (.refl g'.st)
    · simp only [h1, h2]
      refine .ite (by rw [h.x]) (.ret h (.cons (.putValue _ _) .nil)) ?_
      exact (pushVar_cs (C := fun v => [Instr.putVariable a.x a.id v]) (C' := fun v => [Instr.putVariable a.x a.id v]) (P := List.Forall₂ (DRel M F F' cur)) T (h.mark a.x) n
        fun _ _ hv => .cons (.putVariable _ _ hv) .nil).from (.refl g.st) (.refl g'.st)
  | efn f cs =>
    simp only
    rw [← hn]
    refine .ite (by rw [definedVars_eq hf (h.mark a.x)]) str ?_
    exact (CS.throw _ (h.mark a.x)).from (.refl g.st) (.refl g'.st)
  | int v => rw [hn] at str; exact str
  | cons v => rw [hn] at str; exact str
  | fn f cs => rw [hn] at str; exact str

theorem queryItems_cs (T : Twin M F F') (hf : YOK fr cur) (xOf : Name → Option Nat) : ∀ (as : List AItem) {g g' : GenSt}, GR z fr g g' →
    CS z F F' fr g g' (List.Forall₂ (DRel M F F' cur)) (queryItems yy xOf as g) (queryItems yy' xOf as g')
  | [], g, g', h => .ret h .nil
  | a :: as, g, g', h => by
    unfold queryItems
    refine (queryItem_cs (M := M) T hf xOf a h).bind fun a b g1 g1' h1 => ?_
    refine (queryItems_cs T hf xOf as h1).bind fun as bs g2 g2' h2 => ?_
    exact .ret h2 fun ha hb => forall₂_app hb ha

theorem ILRel.datas {frs is is' js js' out} (h : List.Forall₂ (DRel M F F' frs.head?) is is') (hj : ILRel M F F' frs js js' out) :
    ILRel M F F' frs (is ++ js) (is' ++ js') out := by
  induction h with
  | nil => exact hj
  | cons h _ ih => exact .data h ih

variable {frs : List YFrame}

theorem toQuery_cs (T : Twin M F F') (hf : YOK fr frs.head?) (xOf : Name → Option Nat) (atom : Node) (hl : M.calls atom.fv) (as : List AItem)
    (h : GR z fr g g') : CS z F F' fr g g' (ILRel M F F' frs · · frs) (toQuery yy xOf atom as g) (toQuery yy' xOf atom as g') := by
  unfold toQuery
  refine (queryItems_cs (M := M) T hf xOf _ h).bind fun a b g1 g1' h1 => ?_
  exact .ret h1 fun ha => .datas ha (.call _ hl)

theorem programKid_cs (T : Twin M F F') (hf : YOK fr cur) (h : GR z fr g g') (c : Node) (x : Nat) :
    CS z F F' fr g g' (DRel M F F' cur) (programKid yy c x g) (programKid yy' c x g') := by
  have struct : CS z F F' fr g g' (DRel M F F' cur) (structCell c g >>= fun r => pure (.unifyStructure r.1 x, r.2))
      (structCell c g' >>= fun r => pure (.unifyStructure r.1 x, r.2)) := by
    refine (structCell_cs T h c).bind fun a b g1 g1' h1 => ?_
    exact .ret h1 fun hp => .unifyStructure x hp.1 hp.2
  have other : CS z F F' fr g g' (DRel M F F' cur)
      (if g.has (.x x) then pure (.unifyValue x, g) else pure (.unifyVariable x ((g.mark (.x x)).st.pushBackVar c.name).1, { g.mark (.x x) with st := ((g.mark (.x x)).st.pushBackVar c.name).2 }))
      (if g'.has (.x x) then pure (.unifyValue x, g') else pure (.unifyVariable x ((g'.mark (.x x)).st.pushBackVar c.name).1, { g'.mark (.x x) with st := ((g'.mark (.x x)).st.pushBackVar c.name).2 })) := by
    refine .ite (by rw [h.x]) (.ret h (.unifyValue x)) ?_
    exact (pushVar_cs (C := Instr.unifyVariable x) (C' := Instr.unifyVariable x) (P := DRel M F F' cur) T (h.mark x) c.name fun _ _ hv => .unifyVariable x hv).from (.refl g.st) (.refl g'.st)
  cases c with
  | int v => exact struct
  | cons v => exact struct
  | fn f cs => exact other
  | efn f cs => exact other
  | var n =>
    unfold programKid
    simp only
    rcases yOf_rel hf.mem n with ⟨y, y', h1, h2, h3, h4⟩ | ⟨h1, h2⟩
    · simp only [h1, h2]
      refine .ite (by rw [h.x]) (.ret h (.unifyPermValue (hf.cur h4) h3)) ?_
      obtain ⟨t1, t2, t3, t4⟩ := pushVar_cs (C := Instr.unifyPermVariable y) (C' := Instr.unifyPermVariable y') (P := DRel M F F' cur) T (h.mark x) n
        fun _ _ hv => .unifyPermVariable (hf.cur h4) h3 hv
      exact ⟨t1, t2, t3.markY h3, t4⟩
    · simp only [h1, h2]
      exact other

theorem programKids_cs (T : Twin M F F') (hf : YOK fr cur) : ∀ (ks : List (Node × Nat)) {g g' : GenSt}, GR z fr g g' →
    CS z F F' fr g g' (List.Forall₂ (DRel M F F' cur)) (programKids yy ks g) (programKids yy' ks g')
  | [], g, g', h => .ret h .nil
  | (c, x) :: ks, g, g', h => by
    unfold programKids
    refine (programKid_cs (M := M) T hf h c x).bind fun a b g1 g1' h1 => ?_
    refine (programKids_cs T hf ks h1).bind fun as bs g2 g2' h2 => ?_
    exact .ret h2 fun ha hb => .cons hb ha

theorem programItem_cs (T : Twin M F F') (hf : YOK fr cur) (a : AItem) (h : GR z fr g g') :
    CS z F F' fr g g' (List.Forall₂ (DRel M F F' cur)) (programItem yy a g) (programItem yy' a g') := by
  have str : CS z F F' fr g g' (List.Forall₂ (DRel M F F' cur))
      (structCell a.node g >>= fun r => programKids yy a.kids r.2 >>= fun s => pure (.getStructure r.1 a.x :: s.1, s.2))
      (structCell a.node g' >>= fun r => programKids yy' a.kids r.2 >>= fun s => pure (.getStructure r.1 a.x :: s.1, s.2)) := by
    refine (structCell_cs T h a.node).bind fun c c' g1 g1' h1 => ?_
    refine (programKids_cs (M := M) T hf a.kids h1).bind fun as bs g2 g2' h2 => ?_
    exact .ret h2 fun ha hc => .cons (.getStructure _ hc.1 hc.2) ha
  unfold programItem
  cases hn : a.node with
  | var n =>
    simp only
    rcases yOf_rel hf.mem n with ⟨y, y', h1, h2, h3, h4⟩ | ⟨h1, h2⟩
    · simp only [h1, h2]
      refine .ite (by rw [h.x]) (.ret h (.cons (.getPermValue _ (hf.cur h4) h3) .nil)) ?_
      exact (CS.ret ((h.mark a.x).markY h3) (.cons (.getPermVariable _ (hf.cur h4) h3) .nil)).from (.refl g.st) (.refl g'.st)
    · simp only [h1, h2]
      refine .ite (by rw [h.x]) (.ret h (.cons (.getValue _ _) .nil)) ?_
      exact (CS.ret (h.mark a.x) (.cons (.getVariable _ _) .nil)).from (.refl g.st) (.refl g'.st)
  | efn f cs => rw [hn] at str; exact str
  | int v => rw [hn] at str; exact str
  | cons v => rw [hn] at str; exact str
  | fn f cs => rw [hn] at str; exact str

theorem programItems_cs (T : Twin M F F') (hf : YOK fr cur) : ∀ (as : List AItem) {g g' : GenSt}, GR z fr g g' →
    CS z F F' fr g g' (List.Forall₂ (DRel M F F' cur)) (programItems yy as g) (programItems yy' as g')
  | [], g, g', h => .ret h .nil
  | a :: as, g, g', h => by
    unfold programItems
    refine (programItem_cs (M := M) T hf a h).bind fun a b g1 g1' h1 => ?_
    refine (programItems_cs T hf as h1).bind fun as bs g2 g2' h2 => ?_
    exact .ret h2 fun ha hb => forall₂_app hb ha

theorem toProgram_cs (T : Twin M F F') (hf : YOK fr frs.head?) (atom : Node) (as : List AItem)
    (h : GR z fr g g') : CS z F F' fr g g' (ILRel M F F' frs · · frs) (toProgram yy atom as g) (toProgram yy' atom as g') := by
  unfold toProgram
  refine (programItems_cs (M := M) T hf _ h).bind fun a b g1 g1' h1 => ?_
  exact .ret h1 fun ha => .datas ha .proceed

theorem varRegs_rel (hf : YOK fr cur) : ∀ (as : List AItem) (handled : List Name),
    List.Forall₂ (SubRel cur) (varRegs yy as handled) (varRegs yy' as handled)
  | [], _ => .nil
  | a :: as, handled => by
    unfold varRegs
    cases hn : a.node with
    | var n =>
      simp only
      split
      · exact varRegs_rel hf as _
      · rcases yOf_rel hf.mem n with ⟨y, y', h1, h2, h3, h4⟩ | ⟨h1, h2⟩
        · simp only [h1, h2]
          exact .cons ⟨rfl, rfl, fun _ => ⟨fr, hf.cur h4, h3⟩, fun h => by cases h⟩ (varRegs_rel hf as _)
        · simp only [h1, h2]
          exact .cons ⟨rfl, rfl, fun h => (by cases h), fun _ => rfl⟩ (varRegs_rel hf as _)
    | _ => exact varRegs_rel hf as _

theorem has_dropX (s : GenSt) (r : SReg) : ({ s with seen := dropX s.seen } : GenSt).has r = match r with | .x _ => false | .y _ => s.has r := by
  unfold GenSt.has dropX
  cases r with
  | x n => simp [List.mem_filter]
  | y n => simp only [List.contains_eq_mem, List.mem_filter]; simp

theorem GR.dropX (h : GR z fr g g') : GR z fr { g with seen := dropX g.seen } { g' with seen := PBfs.dropX g'.seen } :=
  ⟨fun x => by rw [has_dropX, has_dropX], fun y y' hy => by rw [has_dropX, has_dropX]; exact h.y y y' hy, h.zero⟩

theorem has_filter (s : GenSt) (p : SReg → Bool) (r : SReg) : ({ s with seen := s.seen.filter p } : GenSt).has r = (s.has r && p r) := by
  unfold GenSt.has
  simp only [List.contains_eq_mem, List.mem_filter]
  simp

theorem GR.erase (h : GR z fr g g') (head : Node) (as : List AItem) :
    GR z fr { g with seen := eraseStructRegs head as g.seen } { g' with seen := eraseStructRegs head as g'.seen } := by
  unfold eraseStructRegs
  split
  · exact h
  · refine ⟨fun x => by rw [has_filter, has_filter, h.x], fun y y' hy => ?_, h.zero⟩
    rw [has_filter, has_filter, h.y y y' hy]
    congr 1

theorem compileQueryAtom_cs (T : Twin M F F') (hf : YOK fr frs.head?) {pre pre' : List Instr} (fq : Bool) (atom : Node) (hl : M.calls atom.fv) {frs0 : List YFrame}
    (hp : ∀ is is', ILRel M F F' frs is is' frs → ILRel M F F' frs0 (pre ++ is) (pre' ++ is') frs) (h : GR z fr g g') :
    CS z F F' fr g g' (AtomRel M F F' frs0 · · frs) (compileQueryAtom yy pre fq atom g) (compileQueryAtom yy' pre' fq atom g') := by
  unfold compileQueryAtom
  refine (toQuery_cs (M := M) T hf _ atom hl _ h).bind fun a b g1 g1' h1 => ?_
  exact ⟨.refl _, .refl _, h1.dropX, fun _ _ ha => ⟨rfl, hp _ _ ha, rfl, varRegs_rel hf _ _⟩⟩

theorem compileQueryAtoms_cs (T : Twin M F F') (hf : YOK fr frs.head?) (fq : Bool) : ∀ (atoms : List Node), (∀ a ∈ atoms, M.calls a.fv) →
    ∀ {g g' : GenSt}, GR z fr g g' → CS z F F' fr g g' (ChainRel M F F' frs · · frs) (compileQueryAtoms yy [] fq atoms g) (compileQueryAtoms yy' [] fq atoms g')
  | [], _, g, g', h => .ret h (.nil _)
  | a :: as, hl, g, g', h => by
    unfold compileQueryAtoms
    refine (compileQueryAtom_cs (M := M) T hf fq a (hl a (by simp)) (frs0 := frs) (pre := []) (pre' := []) (fun _ _ h => h) h).bind fun c c' g1 g1' h1 => ?_
    refine (compileQueryAtoms_cs T hf fq as (fun a ha => hl a (by simp [ha])) h1).bind fun as bs g2 g2' h2 => ?_
    exact .ret h2 fun ha hb => .cons hb ha

end
end PBfs
