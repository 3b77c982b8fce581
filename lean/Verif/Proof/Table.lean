import Verif.Spec.Table
import Verif.Proof.Frames
import Verif.Proof.Replay
import Verif.Proof.Untangled
import Verif.Proof.Grow
import Verif.Proof.Memory2
/-! # What loading adds to the tables of names -/
namespace PBfs

/-- The symbols `F` are added, and at most `k` variables; if there is an error, perhaps not all of them. -/
def Adds {α} (F : List FV) (k : Nat) (st : Storage) (f : α → Storage) (m : CR α) : Prop :=
  match m with
  | .ok a => (∀ x, x ∈ (f a).functors ↔ x ∈ st.functors ∨ x ∈ F) ∧ (f a).vars.length ≤ st.vars.length + k
  | .error e => (∀ x ∈ e.2.functors, x ∈ st.functors ∨ x ∈ F) ∧ e.2.vars.length ≤ st.vars.length + k

namespace Adds
variable {α β : Type} {F F' : List FV} {k k' : Nat} {st : Storage} {f : α → Storage} {g : β → Storage}

theorem pure {a : α} (h : f a = st) : Adds [] 0 st f (Pure.pure a : CR α) := by
  refine ⟨fun x => ?_, ?_⟩ <;> rw [h] <;> simp

theorem err {e} : Adds F k st f (.error (e, st) : CR α) := ⟨fun _ h => .inl h, Nat.le_add_right _ _⟩

theorem bind {m : CR α} {c : α → CR β} (h : Adds F k st f m) (hc : ∀ a, m = .ok a → Adds F' k' (f a) g (c a)) :
    Adds (F ++ F') (k + k') st g (m >>= c) := by
  cases hm : m with
  | error e =>
    rw [hm] at h
    refine ⟨fun x hx => ?_, by have := h.2; show e.2.vars.length ≤ _; omega⟩
    rcases h.1 x hx with h | h
    · exact .inl h
    · exact .inr (List.mem_append_left _ h)
  | ok a =>
    rw [hm] at h
    show Adds _ _ st g (c a)
    have h' := hc a hm
    cases hb : c a with
    | error e =>
      rw [hb] at h'
      refine ⟨fun x hx => ?_, by have := h.2; have := h'.2; show e.2.vars.length ≤ _; omega⟩
      rcases h'.1 x hx with h' | h'
      · rcases (h.1 x).1 h' with h | h
        · exact .inl h
        · exact .inr (List.mem_append_left _ h)
      · exact .inr (List.mem_append_right _ h')
    | ok b =>
      rw [hb] at h'
      refine ⟨fun x => ?_, by have := h.2; have := h'.2; show (g b).vars.length ≤ _; omega⟩
      rw [h'.1 x, h.1 x, List.mem_append, or_assoc]

theorem mono {m : CR α} (h : Adds F k st f m) (hF : ∀ x, x ∈ F ↔ x ∈ F') (hk : k ≤ k') : Adds F' k' st f m := by
  unfold Adds at h ⊢
  split at h
  · refine ⟨fun x => ?_, by have := h.2; omega⟩
    rw [h.1, hF]
  · refine ⟨fun x hx => ?_, by have := h.2; omega⟩
    rw [← hF]; exact h.1 x hx

/-- Nothing is added after `m`. -/
theorem last {m : CR α} {c : α → CR β} (h : Adds F k st f m) (hc : ∀ a, m = .ok a → Adds [] 0 (f a) g (c a)) : Adds F k st g (m >>= c) := by
  have := h.bind hc
  rwa [List.append_nil, Nat.add_zero] at this

end Adds

theorem functorIndexOf_adds (s : Storage) (f : FV) : (∀ x, x ∈ (s.functorIndexOf f).2.functors ↔ x ∈ s.functors ∨ x ∈ [f]) ∧ (s.functorIndexOf f).2.vars = s.vars := by
  unfold Storage.functorIndexOf
  split
  · rename_i i hi
    refine ⟨fun x => ⟨.inl, ?_⟩, rfl⟩
    rintro (h | h)
    · exact h
    · obtain rfl := List.mem_singleton.1 h
      have : ∀ {l : List FV} {i}, indexOf? x l = some i → x ∈ l := by
        intro l
        induction l with
        | nil => intro i h; cases h
        | cons y ys ih =>
          intro i h
          rw [indexOf?] at h
          split at h
          · rename_i e; rw [e]; exact .head _
          · cases hh : indexOf? x ys with
            | none => rw [hh] at h; cases h
            | some j => exact .tail _ (ih hh)
      exact this hi
  · exact ⟨fun x => by simp, rfl⟩

theorem pushBackVar_adds (s : Storage) (n) : (s.pushBackVar n).2.functors = s.functors ∧ (s.pushBackVar n).2.vars.length = s.vars.length + 1 := by
  simp [Storage.pushBackVar]

/-- The symbol of a node itself. -/
def Node.own : Node → List FV
  | .cons c => [⟨c, 0⟩]
  | .fn f cs => [⟨f, cs.length⟩]
  | _ => []

/-- The symbol of a child that gets no entry in the flattened term of its own. -/
def Node.kidOwn : Node → List FV
  | .cons c => [⟨c, 0⟩]
  | _ => []

theorem structCell_adds (n : Node) (g : GenSt) : Adds n.own 0 g.st (fun r => r.2.st) (structCell n g) := by
  unfold structCell
  split
  · refine Adds.last (f := fun _ => g.st) (g := fun r : Cell × GenSt => r.2.st) ?_ fun a _ => Adds.pure rfl
    unfold stoi
    split
    · exact ⟨by simp [Node.own], Nat.le_refl _⟩
    · exact Adds.err
  · have := functorIndexOf_adds g.st ⟨‹Name›, 0⟩
    exact ⟨this.1, Nat.le_of_eq (congrArg List.length this.2)⟩
  · have := functorIndexOf_adds g.st ⟨‹Name›, (‹List Node›).length⟩
    exact ⟨this.1, Nat.le_of_eq (congrArg List.length this.2)⟩
  · split
    · exact Adds.pure rfl
    · exact Adds.err
  · exact Adds.err

theorem pure_push {α} {st : Storage} {f : α → Storage} {a : α} {n} (h : f a = (st.pushBackVar n).2) : Adds [] 1 st f (Pure.pure a : CR α) := by
  have := pushBackVar_adds st n
  refine ⟨fun x => ?_, ?_⟩
  · rw [h, this.1]; simp
  · rw [h, this.2]

/-- How many variables a child adds in a query. -/
def Node.kidVar : Node → Nat
  | .var _ => 1
  | _ => 0

/-- In a query, a child that is a structure has been built before. -/
def Built (seen : List SReg) (c : Node) (x : Nat) : Prop := (c.isFn || c.isEfn) = true → .x x ∈ seen

theorem queryKid_adds (yOf : Name → Option Nat) (c : Node) (x : Nat) (g : GenSt) (hb : Built g.seen c x) :
    Adds c.kidOwn c.kidVar g.st (fun r => r.2.st) (queryKid yOf c x g) := by
  unfold queryKid
  cases c with
  | int v => exact Adds.last (structCell_adds (.int v) g) fun a _ => Adds.pure rfl
  | cons v => exact Adds.last (structCell_adds (.cons v) g) fun a _ => Adds.pure rfl
  | var n =>
    simp only []
    cases yOf n with
    | none =>
      simp only []
      split
      · exact (Adds.pure rfl).mono (fun _ => .rfl) (Nat.zero_le _)
      · exact pure_push (n := n) rfl
    | some y =>
      simp only []
      split
      · exact (Adds.pure rfl).mono (fun _ => .rfl) (Nat.zero_le _)
      · exact pure_push (n := n) rfl
  | fn f cs =>
    have : g.has (.x x) = true := by simpa [GenSt.has] using hb rfl
    simp only [this, if_true]
    exact Adds.pure rfl
  | efn f cs =>
    have : g.has (.x x) = true := by simpa [GenSt.has] using hb rfl
    simp only [this, if_true]
    exact Adds.pure rfl

theorem queryKid_gone {yOf c x g r} (h : queryKid yOf c x g = .ok r) : ∀ s ∈ g.seen, s ∈ r.2.seen := by
  unfold queryKid at h
  simp only [] at h
  repeat' split at h
  all_goals first
    | (simp only [pure_ok] at h; rw [← h]; intro s hs; first | exact hs | exact .tail _ hs)
    | (simp only [bind_ok, pure_ok] at h; obtain ⟨⟨cell, g1⟩, h1, rfl⟩ := h; intro s hs; rw [structCell_seen h1]; exact hs)

/-- The symbols of the children that are constants. -/
def kidsOwn (ks : List (Node × Nat)) : List FV := ks.flatMap (·.1.kidOwn)

/-- The number of children that are variables. -/
def kidsVar (ks : List (Node × Nat)) : Nat := (ks.map (·.1.kidVar)).sum

theorem queryKids_gone {yOf} : ∀ {ks : List (Node × Nat)} {g r}, queryKids yOf ks g = .ok r → ∀ s ∈ g.seen, s ∈ r.2.seen
  | [], g, r, h => by
    simp only [queryKids, pure_ok] at h
    rw [← h]; exact fun _ h => h
  | (c, x) :: ks, g, r, h => by
    simp only [queryKids, bind_ok, pure_ok] at h
    obtain ⟨⟨i, g1⟩, h1, ⟨is, g2⟩, h2, rfl⟩ := h
    exact fun s hs => queryKids_gone h2 s (queryKid_gone h1 s hs)

theorem queryKids_adds (yOf : Name → Option Nat) : ∀ ks (g : GenSt), (∀ k ∈ ks, Built g.seen k.1 k.2) →
    Adds (kidsOwn ks) (kidsVar ks) g.st (fun r => r.2.st) (queryKids yOf ks g)
  | [], g, _ => Adds.pure rfl
  | (c, x) :: ks, g, hb => by
    rw [queryKids]
    refine (Adds.bind (queryKid_adds yOf c x g (hb _ (.head _))) (F' := kidsOwn ks) (k' := kidsVar ks) (g := fun r : List Instr × GenSt => r.2.st) fun a ha => ?_).mono (fun _ => .rfl) (Nat.le_of_eq rfl)
    refine Adds.last (queryKids_adds yOf ks a.2 fun k hk hs => queryKid_gone ha _ (hb k (.tail _ hk) hs)) fun b _ => Adds.pure rfl

/-- The symbols for which an entry of the flattened term stands. -/
def AItem.syms (a : AItem) : List FV := if a.node.isVar then [] else a.node.own ++ kidsOwn a.kids

/-- The number of variables for which an entry of the flattened term stands. -/
def AItem.vars (a : AItem) : Nat := if a.node.isVar then 1 else kidsVar a.kids

theorem queryItem_adds (yOf xOf : Name → Option Nat) (a : AItem) (g : GenSt) (hb : a.node.isVar = false → ∀ k ∈ a.kids, Built g.seen k.1 k.2) :
    Adds a.syms a.vars g.st (fun r => r.2.st) (queryItem yOf xOf a g) := by
  have str : a.node.isVar = false → Adds a.syms a.vars g.st (fun r => r.2.st) (do
      let g := g.mark (.x a.x)
      let (cell, g) ← structCell a.node g
      let (is, g) ← queryKids yOf a.kids g
      pure (.putStructure cell a.x :: is, g) : CR (List Instr × GenSt)) := by
    intro hv
    refine Adds.mono (F' := a.syms) (k' := a.vars) (Adds.bind (g := fun r : List Instr × GenSt => r.2.st) (structCell_adds a.node (g.mark (.x a.x))) fun b h1 =>
      Adds.last (queryKids_adds yOf a.kids b.2 fun k hk hs => ?_) fun _ _ => Adds.pure rfl) (fun x => by simp [AItem.syms, hv]) (by simp [AItem.vars, hv])
    rw [structCell_seen h1]
    exact .tail _ (hb hv k hk hs)
  unfold queryItem
  split
  · rename_i n hn
    have e1 : a.syms = [] := by simp [AItem.syms, hn, Node.isVar]
    have e2 : a.vars = 1 := by simp [AItem.vars, hn, Node.isVar]
    rw [e1, e2]
    split
    · split
      · exact (Adds.pure rfl).mono (fun _ => .rfl) (by decide)
      · exact pure_push (n := n) rfl
    · split
      · exact (Adds.pure rfl).mono (fun _ => .rfl) (by decide)
      · exact pure_push (n := n) rfl
  · rename_i hn
    simp only []
    split
    · exact str (by rw [hn]; rfl)
    · exact Adds.err
  · refine str ?_
    cases hn : a.node with
    | var n => rename_i h _; exact absurd hn (h n)
    | _ => rfl

theorem queryItem_gone {yOf xOf a g r} (h : queryItem yOf xOf a g = .ok r) : (∀ s ∈ g.seen, s ∈ r.2.seen) ∧ (a.node.isVar = false → .x a.x ∈ r.2.seen) := by
  have str : ∀ {r}, (do
      let g := g.mark (.x a.x)
      let (cell, g) ← structCell a.node g
      let (is, g) ← queryKids yOf a.kids g
      pure (.putStructure cell a.x :: is, g) : CR (List Instr × GenSt)) = .ok r → (∀ s ∈ g.seen, s ∈ r.2.seen) ∧ (a.node.isVar = false → .x a.x ∈ r.2.seen) := by
    intro r h
    simp only [bind_ok, pure_ok] at h
    obtain ⟨⟨c, g1⟩, h1, ⟨is, g2⟩, h2, rfl⟩ := h
    have h3 := structCell_seen h1
    have h4 := queryKids_gone h2
    simp only [h3, GenSt.mark] at h4
    exact ⟨fun s hs => h4 s (.tail _ hs), fun _ => h4 _ (.head _)⟩
  unfold queryItem at h
  split at h
  · rename_i n hn
    refine ⟨?_, fun hv => by rw [hn] at hv; cases hv⟩
    repeat' split at h
    all_goals (simp only [pure_ok] at h; rw [← h]; intro s hs; first | exact hs | exact .tail _ hs)
  · simp only [] at h
    split at h
    · exact str h
    · cases h
  · exact str h

/-- Structures are built before they are used. -/
def Ordered (seen : List SReg) : List AItem → Prop
  | [] => True
  | a :: as => (a.node.isVar = false → ∀ k ∈ a.kids, Built seen k.1 k.2) ∧ Ordered (if a.node.isVar then seen else .x a.x :: seen) as

theorem Ordered.mono : ∀ {as : List AItem} {s s' : List SReg}, Ordered s as → (∀ r ∈ s, r ∈ s') → Ordered s' as
  | [], _, _, _, _ => trivial
  | a :: as, s, s', h, hs => ⟨fun hv k hk hb => hs _ (h.1 hv k hk hb), h.2.mono fun r hr => by
      split at hr
      · rw [if_pos ‹_›]; exact hs _ hr
      · rw [if_neg ‹_›]
        rcases List.mem_cons.1 hr with rfl | hr
        · exact .head _
        · exact .tail _ (hs _ hr)⟩

theorem queryItems_adds (yOf xOf : Name → Option Nat) : ∀ as (g : GenSt), Ordered g.seen as →
    Adds (as.flatMap AItem.syms) (as.map AItem.vars).sum g.st (fun r => r.2.st) (queryItems yOf xOf as g)
  | [], g, _ => Adds.pure rfl
  | a :: as, g, h => by
    rw [queryItems]
    refine (Adds.bind (queryItem_adds yOf xOf a g h.1) (F' := as.flatMap AItem.syms) (k' := (as.map AItem.vars).sum) (g := fun r : List Instr × GenSt => r.2.st) fun b hb => ?_).mono
      (fun _ => .rfl) (Nat.le_of_eq rfl)
    refine Adds.last (queryItems_adds yOf xOf as b.2 (h.2.mono fun r hr => ?_)) fun c _ => Adds.pure rfl
    have hm := queryItem_gone hb
    split at hr
    · exact hm.1 _ hr
    · rcases List.mem_cons.1 hr with rfl | hr
      · exact hm.2 (by simpa using ‹¬ a.node.isVar = true›)
      · exact hm.1 _ hr

/-! ## Flattened terms -/

theorem Ordered.of : ∀ {as : List AItem} {seen : List SReg}, (∀ pre a post, as = pre ++ a :: post → a.node.isVar = false → ∀ k ∈ a.kids, (k.1.isFn || k.1.isEfn) = true →
      ∃ b ∈ pre, b.node.isVar = false ∧ b.x = k.2) → Ordered seen as := by
  have key : ∀ (as done : List AItem) (seen : List SReg), (∀ b ∈ done, b.node.isVar = false → .x b.x ∈ seen) →
      (∀ pre a post, as = pre ++ a :: post → a.node.isVar = false → ∀ k ∈ a.kids, (k.1.isFn || k.1.isEfn) = true →
        ∃ b ∈ done ++ pre, b.node.isVar = false ∧ b.x = k.2) → Ordered seen as := by
    intro as
    induction as with
    | nil => intro _ _ _ _; trivial
    | cons a as ih =>
      intro done seen hd h
      refine ⟨fun hv k hk hb => ?_, ih (done ++ [a]) _ (fun b hb hv => ?_) fun pre b post e hv k hk hf => ?_⟩
      · obtain ⟨b, h1, h2, h3⟩ := h [] a as rfl hv k hk hb
        rw [← h3]; exact hd b (by simpa using h1) h2
      · rcases List.mem_append.1 hb with hb | hb
        · split
          · exact hd b hb hv
          · exact .tail _ (hd b hb hv)
        · obtain rfl := List.mem_singleton.1 hb
          rw [if_neg (by rw [hv]; simp)]; exact .head _
      · obtain ⟨c, h1, h2⟩ := h (a :: pre) b post (by rw [e]; rfl) hv k hk hf
        exact ⟨c, by simpa using h1, h2⟩
  intro as seen h
  exact key as [] seen (by simp) (by simpa using h)

theorem Nodes.enough {atom : Node} {as : List AItem} (hN : Nodes atom as) : (atomArgs atom).length ≤ as.length := by
  cases h : (atomArgs atom).length with
  | zero => exact Nat.zero_le _
  | succ n =>
    obtain ⟨a, ha, _⟩ := hN.args n _ (List.getElem?_eq_getElem (by omega))
    exact (List.getElem?_eq_some_iff.1 ha).1

theorem flattenQuery_ordered {atom : Node} {as : List AItem} (hN : Nodes atom as) (seen : List SReg) : Ordered seen (flattenQuery (atomArgs atom).length as) := by
  apply Ordered.of
  intro pre a post e hv k hk hf
  have ha : a ∈ flattenQuery (atomArgs atom).length as := by rw [e]; simp
  obtain ⟨b, hb, h1, h2, h3, h4⟩ := hN.kidItem a (mem_flattenQuery.1 ha).1 k.1 k.2 hk
  have hbv : b.node.isVar = false := by
    rw [h1]; revert hf; cases k.1 <;> simp [Node.isFn, Node.isEfn, Node.isVar]
  have hbk : b.kept (atomArgs atom).length = true := by
    simp only [AItem.kept, h1, Bool.or_eq_true] at hf ⊢
    rcases hf with hf | hf
    · exact .inl (.inr hf)
    · exact .inr hf
  refine ⟨b, ?_, hbv, h2⟩
  have hbm : b ∈ flattenQuery (atomArgs atom).length as := mem_flattenQuery.2 ⟨hb, hbk⟩
  rw [e] at hbm
  rcases List.mem_append.1 hbm with hbm | hbm
  · exact hbm
  exfalso
  rcases List.mem_cons.1 hbm with rfl | hbm
  · omega
  have hs : (flattenQuery (atomArgs atom).length as).Pairwise fun x y => y.id < (atomArgs atom).length ∨ y.id < x.id := by
    have hlow : ∀ y ∈ (flattenProgram (atomArgs atom).length as).take (atomArgs atom).length, y.id < (atomArgs atom).length := by
      intro y hy
      rw [(flattenProgram_split hN.id hN.enough).1] at hy
      obtain ⟨i, hi, rfl⟩ := List.getElem_of_mem hy
      rw [List.getElem_take, hN.id i _ (List.getElem?_eq_getElem _)]
      rw [List.length_take] at hi; omega
    rw [flattenQuery, List.pairwise_append]
    refine ⟨?_, ?_, fun x _ y hy => .inl (hlow y hy)⟩
    · rw [List.pairwise_reverse]
      exact ((ids_sorted hN.id).filter _).sublist (List.drop_sublist _ _) |>.imp .inr
    · exact List.Pairwise.imp_of_mem (R := fun _ _ => True) (fun _ hy _ => .inl (hlow _ hy)) (List.pairwise_of_forall fun _ _ => trivial)
  rw [e, List.pairwise_append, List.pairwise_cons] at hs
  have := hs.2.1.1 b hbm
  omega

end PBfs
