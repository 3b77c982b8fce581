import Verif.Proof.Rename1
import Verif.Proof.Reach
/-! # Replacing names: the compiler -/
namespace PBfs
variable {ρ : Name → Name}

/-- A result of the compiler with names replaced. -/
def CR.rename (ρ : Name → Name) (f : α → β) : CR α → CR β
  | .ok a => .ok (f a)
  | .error (e, st) => .error (e, st.rename ρ)

/-- The same without a change of the value. -/
def CR.late (ρ : Name → Name) : CR α → CR α
  | .ok a => .ok a
  | .error (e, st) => .error (e, st.rename ρ)

theorem CR.rename_bind (f : β → γ) (x : CR α) (k : α → CR β) : CR.rename ρ f (x >>= k) = CR.late ρ x >>= fun a => CR.rename ρ f (k a) := by
  cases x <;> rfl

theorem CR.bind_rename (f : α → β) (x : CR α) (k : β → CR γ) : (x.rename ρ f >>= k) = CR.late ρ x >>= fun a => k (f a) := by
  cases x <;> rfl

theorem CR.rename_pure (f : α → β) (a : α) : CR.rename ρ f (pure a) = pure (f a) := rfl
theorem CR.rename_ok (f : α → β) (a : α) : CR.rename ρ f (.ok a) = .ok (f a) := rfl
theorem CR.rename_error (f : α → β) (e st) : CR.rename ρ f (.error (e, st)) = .error (e, st.rename ρ) := rfl
theorem CR.rename_ite (f : α → β) (c : Prop) [Decidable c] (x y : CR α) : CR.rename ρ f (if c then x else y) = if c then x.rename ρ f else y.rename ρ f := by
  split <;> rfl

theorem indexOf?_map [DecidableEq α] [DecidableEq β] {f : α → β} (hf : ∀ a b, f a = f b ↔ a = b) (x : α) : ∀ l : List α, indexOf? (f x) (l.map f) = indexOf? x l
  | [] => rfl
  | y :: l => by simp only [List.map_cons, indexOf?, hf, indexOf?_map hf x l]

theorem functorIndexOf_rename (h : Renaming ρ) (s : Storage) (f : FV) :
    (s.rename ρ).functorIndexOf (f.rename ρ) = ((s.functorIndexOf f).1, (s.functorIndexOf f).2.rename ρ) := by
  unfold Storage.functorIndexOf
  have : indexOf? (f.rename ρ) (s.rename ρ).functors = indexOf? f s.functors := indexOf?_map (fun _ _ => h.fv) f _
  rw [this]
  cases indexOf? f s.functors with
  | some i => rfl
  | none => simp [Storage.rename]

theorem pushBackVar_rename (s : Storage) (n : Name) :
    (s.rename ρ).pushBackVar (ρ n) = ((s.pushBackVar n).1, (s.pushBackVar n).2.rename ρ) := by
  simp [Storage.pushBackVar, Storage.rename]

/-! ## Nodes and items -/

theorem number_rename (k) : ∀ cs : List Node, number k (cs.map (Node.rename ρ)) = (number k cs).map fun e => (e.1, e.2.rename ρ)
  | [] => rfl
  | c :: cs => by simp only [List.map_cons, number, number_rename (k + 1) cs]

def Item.rename (ρ : Name → Name) (i : Item) : Item := { i with node := i.node.rename ρ }

theorem bfsLoop_rename : ∀ n (q : List (Nat × Node)) next,
    bfsLoop n (q.map fun e => (e.1, e.2.rename ρ)) next = (bfsLoop n q next).map (Item.rename ρ)
  | 0, _, _ => by simp only [bfsLoop, List.map_nil]
  | n + 1, [], _ => by simp only [bfsLoop, List.map_nil]
  | n + 1, (i, nd) :: q, next => by
    simp only [List.map_cons, bfsLoop, Node.rename_children, Node.renames_eq, number_rename, List.length_map, ← List.map_append]
    rw [bfsLoop_rename]
    rfl

mutual
theorem Node.rename_size : ∀ n : Node, (n.rename ρ).size = n.size
  | .var _ => by simp only [Node.rename, Node.size]
  | .cons _ => by simp only [Node.rename, Node.size]
  | .int _ => by simp only [Node.rename, Node.size]
  | .fn _ cs => by simp only [Node.rename, Node.size, Node.renames_sizes cs]
  | .efn _ cs => by simp only [Node.rename, Node.size, Node.renames_sizes cs]
theorem Node.renames_sizes : ∀ cs : List Node, Node.sizes (Node.renames ρ cs) = Node.sizes cs
  | [] => by simp only [Node.renames]
  | c :: cs => by simp only [Node.renames, Node.sizes, Node.rename_size c, Node.renames_sizes cs]
end

mutual
theorem Node.rename_vars : ∀ n : Node, (n.rename ρ).vars = n.vars.map ρ
  | .var _ => by simp only [Node.rename, Node.vars, List.map_cons, List.map_nil]
  | .cons _ => by simp only [Node.rename, Node.vars, List.map_nil]
  | .int _ => by simp only [Node.rename, Node.vars, List.map_nil]
  | .fn _ cs => by simp only [Node.rename, Node.vars, Node.renames_varss cs]
  | .efn _ cs => by simp only [Node.rename, Node.vars, Node.renames_varss cs]
theorem Node.renames_varss : ∀ cs : List Node, Node.varss (Node.renames ρ cs) = (Node.varss cs).map ρ
  | [] => by simp only [Node.renames, Node.varss, List.map_nil]
  | c :: cs => by simp only [Node.renames, Node.varss, Node.rename_vars c, Node.renames_varss cs, List.map_append]
end

theorem atomArgs_rename (a : Node) : atomArgs (a.rename ρ) = (atomArgs a).map (Node.rename ρ) := by
  cases a <;> simp only [Node.rename, atomArgs, Node.children, Node.renames_eq, List.map_nil, List.map_cons]

theorem items_rename (a : Node) : items (a.rename ρ) = (items a).map (Item.rename ρ) := by
  unfold items
  rw [atomArgs_rename, number_rename, List.length_map, bfsLoop_rename, ← Node.renames_eq, Node.renames_sizes]

def RegSt.rename (ρ : Name → Name) (s : RegSt) : RegSt := ⟨s.varX.map fun e => (ρ e.1, e.2), s.ctr⟩

theorem lookup_rename (h : Renaming ρ) (v : Name) : ∀ l : List (Name × β), (l.map fun e => (ρ e.1, e.2)).lookup (ρ v) = l.lookup v
  | [] => rfl
  | (w, b) :: l => by
    simp only [List.map_cons, List.lookup_cons, lookup_rename h v l]
    have : (ρ v == ρ w) = (v == w) := by
      rw [Bool.eq_iff_iff]; simp only [beq_iff_eq]; exact h.eq_iff
    rw [this]

theorem assignItems_rename (h : Renaming ρ) (nargs) : ∀ (its : List Item) (st : RegSt),
    assignItems nargs (its.map (Item.rename ρ)) (st.rename ρ) = ((assignItems nargs its st).1, (assignItems nargs its st).2.rename ρ)
  | [], _ => by simp only [List.map_nil, assignItems]
  | ⟨id, node, cs⟩ :: rest, st => by
    have hc : ∀ st' : RegSt, st'.ctr = (st'.rename ρ).ctr := fun _ => rfl
    cases node with
    | var v =>
      simp only [List.map_cons, Item.rename, Node.rename, assignItems]
      have : (st.rename ρ).varX.lookup (ρ v) = st.varX.lookup v := lookup_rename h v _
      rw [this]
      cases st.varX.lookup v with
      | some r =>
        have e := assignItems_rename h nargs rest st
        simp only [e]
      | none =>
        have e := assignItems_rename h nargs rest ⟨(v, st.ctr) :: st.varX, st.ctr + 1⟩
        simp only [RegSt.rename, List.map_cons] at e
        simp only [RegSt.rename, e]
    | _ =>
      simp only [List.map_cons, Item.rename, Node.rename, assignItems]
      split
      · have e := assignItems_rename h nargs rest st
        simp only [e]
      · have e := assignItems_rename h nargs rest { st with ctr := st.ctr + 1 }
        simp only [RegSt.rename] at e
        simp only [RegSt.rename, e]

def AItem.rename (ρ : Name → Name) (a : AItem) : AItem := { a with node := a.node.rename ρ, kids := a.kids.map fun k => (k.1.rename ρ, k.2) }

theorem kidsOf_rename (xs) : ∀ (start) (cs : List Node), kidsOf xs start (cs.map (Node.rename ρ)) = (kidsOf xs start cs).map fun k => (k.1.rename ρ, k.2)
  | _, [] => rfl
  | start, c :: cs => by simp only [List.map_cons, kidsOf, kidsOf_rename xs (start + 1) cs]

theorem annotate_rename (its : List Item) (xs) : annotate (its.map (Item.rename ρ)) xs = (annotate its xs).map (AItem.rename ρ) := by
  simp only [annotate, List.map_map]
  congr 1; funext it
  simp only [Function.comp, Item.rename, AItem.rename, Node.rename_children, Node.renames_eq, kidsOf_rename]

theorem assignAtom_rename (h : Renaming ρ) (varX atom) : assignAtom (varX.map fun e => (ρ e.1, e.2)) (atom.rename ρ) =
    ((assignAtom varX atom).1.map (AItem.rename ρ), (assignAtom varX atom).2.rename ρ) := by
  have e := assignItems_rename h (atomArgs atom).length (items atom) ⟨varX, (atomArgs atom).length⟩
  simp only [RegSt.rename] at e
  simp only [assignAtom, items_rename, atomArgs_rename, List.length_map, e, annotate_rename, RegSt.rename]

theorem assignSingle_rename (h : Renaming ρ) (atom) : assignSingle (atom.rename ρ) =
    ((assignSingle atom).1.map (AItem.rename ρ), (assignSingle atom).2.1.map (fun e => (ρ e.1, e.2)), (assignSingle atom).2.2) := by
  have e := assignAtom_rename h [] atom
  simp only [List.map_nil] at e
  simp only [assignSingle, e, RegSt.rename]

def pairRename (ρ : Name → Name) (p : (List AItem × List (Name × Nat)) × (List AItem × List (Name × Nat)) × Nat) :=
  ((p.1.1.map (AItem.rename ρ), p.1.2.map fun e => (ρ e.1, e.2)), (p.2.1.1.map (AItem.rename ρ), p.2.1.2.map fun e => (ρ e.1, e.2)), p.2.2)

theorem assignPair_rename (h : Renaming ρ) (hd b : Node) : assignPair (hd.rename ρ) (b.rename ρ) = pairRename ρ (assignPair hd b) := by
  have h1 := assignSingle_rename h hd
  have h2 := assignSingle_rename h b
  have h3 := assignAtom_rename h [] hd
  have h4 := assignAtom_rename h (assignAtom [] hd).2.varX b
  simp only [List.map_nil] at h3
  have h5 : (((assignAtom [] hd).2.rename ρ).varX) = (assignAtom [] hd).2.varX.map fun e => (ρ e.1, e.2) := rfl
  have key : (∀ c, b ≠ .cons c) → (∀ c, hd ≠ .cons c) → pairRename ρ (assignPair hd b) =
      (let (x, st) := assignAtom [] (hd.rename ρ)
       let (y, st') := assignAtom st.varX (b.rename ρ)
       ((x, st.varX), (y, st'.varX), max st.ctr st'.ctr)) := by
    intro hb hh
    simp only [h3, h5, h4]
    unfold assignPair
    split
    · exact absurd rfl (hb _)
    · split
      · exact absurd rfl (hh _)
      · rfl
  by_cases hb : ∃ c, b = .cons c
  · obtain ⟨c, rfl⟩ := hb
    rw [Node.rename] at h2 ⊢
    simp only [assignPair, h1, h2, pairRename]
  · have hb' : ∀ c, b ≠ .cons c := fun c e => hb ⟨c, e⟩
    have hb2 : ∀ c, b.rename ρ ≠ .cons c := by
      intro c e; cases b <;> simp only [Node.rename] at e <;> cases e; exact hb' _ rfl
    by_cases hh : ∃ c, hd = .cons c
    · obtain ⟨c, rfl⟩ := hh
      rw [Node.rename] at h1 ⊢
      unfold assignPair
      split
      · rename_i e; exact absurd e (hb2 _)
      · simp only [h1, h2]
        rfl
    · have hh' : ∀ c, hd ≠ .cons c := fun c e => hh ⟨c, e⟩
      have hh2 : ∀ c, hd.rename ρ ≠ .cons c := by
        intro c e; cases hd <;> simp only [Node.rename] at e <;> cases e; exact hh' _ rfl
      rw [key hb' hh']
      unfold assignPair
      split
      · rename_i e; exact absurd e (hb2 _)
      · split
        · rename_i e; exact absurd e (hh2 _)
        · rfl

/-! ## Permanent variables -/

def VarInfo.rename (ρ : Name → Name) (v : VarInfo) : VarInfo := { v with name := ρ v.name }

theorem noteFirst_rename (h : Renaming ρ) (k v) : ∀ m : List VarInfo, noteFirst k (ρ v) (m.map (VarInfo.rename ρ)) = (noteFirst k v m).map (VarInfo.rename ρ)
  | [] => rfl
  | i :: m => by
    simp only [List.map_cons, noteFirst, VarInfo.rename, h.eq_iff]
    split
    · rfl
    · rw [List.map_cons, ← noteFirst_rename h k v m]; rfl

theorem noteLater_rename (h : Renaming ρ) (k v) : ∀ m : List VarInfo, noteLater k (ρ v) (m.map (VarInfo.rename ρ)) = (noteLater k v m).map (VarInfo.rename ρ)
  | [] => rfl
  | i :: m => by
    simp only [List.map_cons, noteLater, VarInfo.rename, h.eq_iff]
    split
    · rfl
    · rw [List.map_cons, ← noteLater_rename h k v m]; rfl

theorem foldFirst_rename (h : Renaming ρ) (k) : ∀ (vs : List Name) (m : List VarInfo),
    (vs.map ρ).foldl (fun m v => noteFirst k v m) (m.map (VarInfo.rename ρ)) = (vs.foldl (fun m v => noteFirst k v m) m).map (VarInfo.rename ρ)
  | [], _ => rfl
  | v :: vs, m => by simp only [List.map_cons, List.foldl_cons, noteFirst_rename h, foldFirst_rename h k vs]

theorem foldLater_rename (h : Renaming ρ) (k) : ∀ (vs : List Name) (m : List VarInfo),
    (vs.map ρ).foldl (fun m v => noteLater k v m) (m.map (VarInfo.rename ρ)) = (vs.foldl (fun m v => noteLater k v m) m).map (VarInfo.rename ρ)
  | [], _ => rfl
  | v :: vs, m => by simp only [List.map_cons, List.foldl_cons, noteLater_rename h, foldLater_rename h k vs]

theorem Node.rename_isCons (a : Node) : (a.rename ρ).isCons = a.isCons := by cases a <;> simp only [Node.rename, Node.isCons]
theorem Node.rename_isFn (a : Node) : (a.rename ρ).isFn = a.isFn := by cases a <;> simp only [Node.rename, Node.isFn]
theorem Node.rename_isEfn (a : Node) : (a.rename ρ).isEfn = a.isEfn := by cases a <;> simp only [Node.rename, Node.isEfn]

theorem permLater_rename (h : Renaming ρ) : ∀ (k) (as : List Node) (m : List VarInfo),
    permLater k (as.map (Node.rename ρ)) (m.map (VarInfo.rename ρ)) = (permLater k as m).map (VarInfo.rename ρ)
  | _, [], _ => by simp only [List.map_nil, permLater]
  | k, a :: as, m => by
    simp only [List.map_cons, permLater, Node.rename_isCons, Node.rename_children, Node.renames_varss, foldLater_rename h, permLater_rename h]
    split <;> rfl

theorem permFilter_rename (m : List VarInfo) : ((m.map (VarInfo.rename ρ)).filter (·.perm)).map (·.name) = ((m.filter (·.perm)).map (·.name)).map ρ := by
  rw [List.filter_map, List.map_map, List.map_map]
  rfl

theorem permVarsRaw_rename (h : Renaming ρ) (prog) (as : List Node) : permVarsRaw prog (as.map (Node.rename ρ)) = (permVarsRaw prog as).map ρ := by
  have hf := fun k vs => foldFirst_rename h k vs []
  simp only [List.map_nil] at hf
  match as, prog with
  | [], _ => simp only [List.map_nil, permVarsRaw]
  | [_], _ => simp only [List.map_nil, List.map_cons, permVarsRaw]
  | [_, _], true => simp only [List.map_nil, List.map_cons, permVarsRaw]
  | a :: b :: as, false =>
    simp only [List.map_cons, permVarsRaw, Node.rename_children, Node.renames_varss, hf]
    rw [← List.map_cons (f := Node.rename ρ), permLater_rename h, permFilter_rename]
  | a :: b :: c :: as, true =>
    simp only [List.map_cons, permVarsRaw, Node.rename_children, Node.renames_varss, hf, foldFirst_rename h, Node.rename_isCons]
    rw [← List.map_cons (f := Node.rename ρ), permLater_rename h, permFilter_rename]

/-! ## Instructions -/

def GenSt.rename (ρ : Name → Name) (g : GenSt) : GenSt := { g with st := g.st.rename ρ }

theorem arithIndex_rename (h : Renaming ρ) (n : Name) : arithIndex (ρ n) = arithIndex n := by
  have : arithNames = arithNames.map ρ := by
    have h1 : ∀ n ∈ arithNames, n = ρ n := by
      intro n hn
      refine (h.fixed n ?_).symm
      revert n
      decide
    conv => lhs; rw [← List.map_id arithNames]
    exact List.map_congr_left h1
  unfold arithIndex
  conv => lhs; rw [this]
  exact indexOf?_map (fun _ _ => h.eq_iff) n _

theorem structCell_rename (h : Renaming ρ) (n : Node) (g : GenSt) :
    structCell (n.rename ρ) (g.rename ρ) = CR.rename ρ (fun r => (r.1, r.2.rename ρ)) (structCell n g) := by
  cases n with
  | int v =>
    simp only [Node.rename, structCell, stoi, CR.rename_bind]
    split <;> rfl
  | cons c =>
    have e := functorIndexOf_rename h g.st ⟨c, 0⟩
    simp only [FV.rename] at e
    simp only [Node.rename, structCell, GenSt.rename, e]
    rfl
  | fn f cs =>
    have e := functorIndexOf_rename h g.st ⟨f, cs.length⟩
    simp only [FV.rename] at e
    simp only [Node.rename, structCell, Node.renames_eq, List.length_map, GenSt.rename, e]
    rfl
  | efn f cs =>
    simp only [Node.rename, structCell, arithIndex_rename h]
    cases arithIndex f <;> rfl
  | var v => simp only [Node.rename, structCell]; rfl

theorem definedVars_rename {yOf xOf yOf' xOf' : Name → Option Nat} (hy : ∀ n, yOf' (ρ n) = yOf n) (hx : ∀ n, xOf' (ρ n) = xOf n)
    (g : GenSt) (cs : List Node) : definedVars yOf' xOf' (g.rename ρ) (Node.renames ρ cs) = definedVars yOf xOf g cs := by
  unfold definedVars
  rw [Node.renames_varss, List.all_map]
  congr 1; funext v
  simp only [Function.comp, hy, hx]
  rfl

end PBfs
