import Verif.Proof.Work
import Verif.Proof.Solve
import Verif.Proof.Fuel
/-! # The search finds every derivable instance -/
namespace PBfs

/-- The goals `gs` can be derived, from left to right, by `n` uses of clauses and of `is`. -/
inductive DerL {D} (A : Alg D) (P : List Clause) : Nat → List (GAtom D) → Prop
  | nil : DerL A P 0 []
  | cons {c ρ gs n} : c ∈ P → DerL A P n (c.body.map (Node.inst A ρ) ++ gs) → DerL A P (n + 1) (c.head.inst A ρ :: gs)
  | is {d v gs n} : Evals A d v → DerL A P n gs → DerL A P (n + 1) (⟨n!"is", [A.int v, d]⟩ :: gs)

/-- No goal of the text compares terms, and no clause defines a built-in predicate. -/
structure Ctx.Plain (X : Ctx) : Prop where
  text : ∀ a, X.Text a → ∀ b : Builtin, b ≠ .is → a.fv ≠ ⟨b.name, 2⟩
  heads : ∀ c ∈ X.P, ∀ b : Builtin, c.head.fv ≠ ⟨b.name, 2⟩

theorem DerL.of_proves {D} {A : Alg D} {P : List Clause} (hb : ∀ c ∈ P, ∀ a ∈ c.body, ∀ b : Builtin, b ≠ .is → a.fv ≠ ⟨b.name, 2⟩) {g} (h : Proves A P g)
    (hg : ∀ b : Builtin, b ≠ .is → g.name = b.name → g.args.length ≠ 2) {n gs} (hgs : DerL A P n gs) : ∃ m, DerL A P m (g :: gs) := by
  induction h generalizing n gs with
  | @clause c ρ hc _ ih =>
    have : ∀ (l : List Node), (∀ a ∈ l, a ∈ c.body) → ∃ m, DerL A P m (l.map (Node.inst A ρ) ++ gs) := by
      intro l
      induction l with
      | nil => intro _; exact ⟨n, hgs⟩
      | cons a l ihl =>
        intro hl
        obtain ⟨m, hm⟩ := ihl fun a ha => hl a (by simp [ha])
        refine ih a (hl a (by simp)) (fun b h0 h1 h2 => ?_) hm
        refine hb c hc a (hl a (by simp)) b h0 ?_
        simp only [Node.inst, evals_length] at h1 h2
        simp [Node.fv, h1, h2]
    obtain ⟨m, hm⟩ := this c.body fun _ h => h
    exact ⟨m + 1, .cons hc hm⟩
  | eq => exact absurd rfl (hg .eq (by simp) rfl)
  | neq => exact absurd rfl (hg .neq (by simp) rfl)
  | is h => exact ⟨n + 1, .is h hgs⟩

/-- A pending executor from which the instance `ρq` can be reached. -/
inductive Lead (X : Ctx) (o : Org) (ρq : Name → Tree) (id : Nat) : Nat → Nat → Prop
  | res {e b fr fs L σ gs n} : Pending X o id e (.res b fr fs) L → Kind.Within X (.res b fr fs) →
      Mod (toIAlg treeAlg X.I) (e.hp.at? (preOf o.execs e)) σ → Goals treeAlg σ ρq (fr :: fs) gs → DerL treeAlg X.P n gs →
      Lead X o ρq id n (fs.length + 1)
  | head {e f ps fs r L σ gs n cl ρ} : Pending X o id e (.head f ps fs r) L → Kind.Within X (.head f ps fs r) →
      Mod (toIAlg treeAlg X.I) (e.hp.at? (preOf o.execs e)) σ → Goals treeAlg σ ρq fs gs → cl ∈ X.P → cl.head.fv = f →
      RuleSem X.st X.I r cl → gAtom f (ps.map σ) = cl.head.inst treeAlg ρ → DerL treeAlg X.P n (cl.body.map (Node.inst treeAlg ρ) ++ gs) →
      Lead X o ρq id (n + 1) 0
  | is {e ps fs sub src L σ gs n} : Pending X o id e (.head ⟨Builtin.is.name, 2⟩ ps fs (builtinRule .is sub src)) L →
      Kind.Within X (.head ⟨Builtin.is.name, 2⟩ ps fs (builtinRule .is sub src)) →
      Mod (toIAlg treeAlg X.I) (e.hp.at? (preOf o.execs e)) σ → Goals treeAlg σ ρq fs gs → BHolds treeAlg .is (ps.map σ) → DerL treeAlg X.P n gs →
      Lead X o ρq id (n + 1) 0

/-- The answer has the instance `ρq`. -/
def Covers (X : Ctx) (ρq : Name → Tree) (pre : Nat → Option Cell) (hp : Hp) (L : List (Name × Nat)) : Prop :=
  Final X (hp.at? pre) hp.size L ∧ ∃ σ, Mod (toIAlg treeAlg X.I) (hp.at? pre) σ ∧ ∀ p ∈ L, σ p.2 = ρq p.1

theorem Lead.other {X : Ctx} {o o' : Org} {ρq id j n l} (h : Lead X o ρq j n l) (inv : o.Inv) (hid : id ∈ o.queue)
    (hk : Keeps o o' id) (hj : j ≠ id) : Lead X o' ρq j n l := by
  cases h with
  | res h1 h2 h3 h4 h5 =>
    have hv := preOf_other inv hid hk h1.get
    exact .res (h1.other inv hid hk hj) h2 (by rw [hv]; exact h3) h4 h5
  | head h1 h2 h3 h4 h5 h6 h7 h8 h9 =>
    have hv := preOf_other inv hid hk h1.get
    exact .head (h1.other inv hid hk hj) h2 (by rw [hv]; exact h3) h4 h5 h6 h7 h8 h9
  | is h1 h2 h3 h4 h5 h6 =>
    have hv := preOf_other inv hid hk h1.get
    exact .is (h1.other inv hid hk hj) h2 (by rw [hv]; exact h3) h4 h5 h6

theorem fv_of_inst {X : Ctx} {o : Org} {id e f ps fs r L} (hp : Pending X o id e (.head f ps fs r) L) {D} {A : Alg D} {σ : Nat → D} {a : Node} {ρ}
    (h : gAtom f (ps.map σ) = a.inst A ρ) : a.fv = f := by
  obtain ⟨_, _, rest, _, C⟩ := hp.exec
  have hl := C.len
  have h1 := congrArg GAtom.name h
  have h2 := congrArg (fun g => g.args.length) h
  simp only [gAtom, Node.inst, List.length_take, List.length_map, evals_length] at h1 h2
  obtain ⟨fn, fa⟩ := f
  simp only [Node.fv, FV.mk.injEq] at h1 h2 hl ⊢
  exact ⟨h1.symm, by omega⟩

theorem list_getElem_of_mem {α} {l : List α} {a : α} (h : a ∈ l) : ∃ i : Nat, l[i]? = some a := List.mem_iff_getElem?.1 h

/-- A turn of an executor leading to `ρq` leads closer to it, or reports it, or stops at `is`. -/
theorem Lead.turn {X : Ctx} (ok : X.OK) (pu : X.Plain) {o : Org} (w : Work X o) {ρq id q n l fuel} (hq : o.queue = id :: q) (h : Lead X o ρq id n l) :
    (∃ x, o.turn fuel = .error x) ∨
    (∃ o' id' n' l', o.turn fuel = .ok (o', .continue) ∧ id' ∈ o'.queue ∧ Lead X o' ρq id' n' l' ∧ (n' < n ∨ (n' = n ∧ l' < l))) ∨
    (∃ o' pre hp L, o.turn fuel = (Org.renderSubs (stringRep pre hp X.st L fuel false) L [] >>= fun bs => .ok (o', .answer bs)) ∧
      Covers X ρq pre hp L) ∨
    ∃ o' err, o.turn fuel = .ok (o', .error err) ∧ err.kind = .notInstantiated ∧ ¬ X.NoIs := by
  have hfree := treeAlg_free ok.st ok.interp
  cases h with
  | @res e b fr fs L σ gs n hp hw m hg hd =>
    right; left
    cases hc : fr.codes with
    | nil =>
      obtain ⟨rfl, o', e', fr', fs', h1, h2, B, h3, h4, rfl, hp', h5, h6⟩ := step_dealloc (fuel := fuel) w.inv w.gen hq hp hc
      refine ⟨o', id, n, _, h1, by rw [h3]; simp, .res hp' (fun f hf => hw f (by simp [hf])) (by rw [h5]; exact m) (hg.drop_nil h6) hd, ?_⟩
      right; simp
    | cons c cs =>
      obtain ⟨o', f, ps, fs', L', h1, h2, h3, h4, h5, h6, h7, h8, ⟨a, as, g1, g2, g3, _⟩, h9⟩ := step_goal (fuel := fuel) ok w.inv w.st w.gen w.prog hq hp hc
      have ht : X.Text a := hw fr (by simp) a (by simp [g1])
      obtain ⟨g0, gs0, rfl⟩ : ∃ g gs0, gs = g :: gs0 := by
        cases hg with
        | cons ρ _ _ _ => rw [g1]; exact ⟨_, _, rfl⟩
      have hfv : g0.name = f.name ∧ g0.args.length = f.arity := by
        obtain ⟨ρ1, gs1, e1⟩ : ∃ ρ1 gs1, g0 :: gs0 = fr.atoms.map (Node.inst treeAlg ρ1) ++ gs1 := by
          generalize hgs : (g0 :: gs0 : List (GAtom Tree)) = gs2 at hg
          cases hg with
          | cons ρ1 _ _ _ => exact ⟨ρ1, _, rfl⟩
        rw [g1] at e1
        simp only [List.map_cons, List.cons_append, List.cons.injEq] at e1
        rw [e1.1, g2]
        simp [Node.inst, evals_length, Node.fv]
      have hw' : ∀ r, Kind.Within X (.head f ps fs' r) := by
        refine fun r => ⟨⟨a, ht, g2⟩, fun f' hf' b hb => ?_⟩
        rcases g3 f' hf' with hin | heq
        · exact hw f' (by simp [hin]) b hb
        · exact hw fr (by simp) b (by rw [g1, ← heq]; simp [hb])
      have hmemq : ∀ {i r}, ((X.prog.rules? f).getD [])[i]? = some r → o.execs.length + i ∈ o'.queue := by
        intro i r hi
        have hlt : i < ((X.prog.rules? f).getD []).length := (List.getElem?_eq_some_iff.1 hi).1
        rw [h7]
        refine List.mem_append_right _ ?_
        simp only [List.mem_range'_1]
        omega
      cases hd with
      | @cons cl ρ _ n0 hcl hd' =>
        have hfv : cl.head.fv = f := by
          simp only [Node.inst, evals_length] at hfv
          obtain ⟨fn, fa⟩ := f
          simp only at hfv
          simp [Node.fv, hfv.1, hfv.2]
        have hnb : ∀ b : Builtin, f ≠ ⟨b.name, 2⟩ := fun b => by rw [← hfv]; exact pu.heads cl hcl b
        have hmem : cl ∈ X.P.filter (·.head.fv = f) := by simp [hcl, hfv]
        obtain ⟨r, hr, hs⟩ := forall₂_mem_right (ok.prog.user f hnb) hmem
        obtain ⟨i, hi⟩ := list_getElem_of_mem hr
        obtain ⟨e', hp', hcomp, _⟩ := h9 i r hi
        obtain ⟨σ', gs', m', e1, hg'⟩ := hcomp _ _ σ ρq _ m hg
        simp only [List.cons.injEq] at e1
        obtain ⟨e1, rfl⟩ := e1
        exact ⟨o', o.execs.length + i, n0 + 1, 0, h1, hmemq hi, .head hp' (hw' r) m' hg' hcl hfv hs e1.symm hd', .inr ⟨rfl, by omega⟩⟩
      | @is d v _ n0 hv hd' =>
        have hfv : f = ⟨Builtin.is.name, 2⟩ := by
          obtain ⟨fn, fa⟩ := f
          simp only [List.length_cons, List.length_nil] at hfv
          simp [← hfv.1, ← hfv.2, Builtin.name]
        obtain ⟨sub, src, hr⟩ := ok.prog.builtin .is
        subst hfv
        have hi : ((X.prog.rules? ⟨Builtin.is.name, 2⟩).getD [])[0]? = some (builtinRule .is sub src) := by rw [hr]; rfl
        obtain ⟨e', hp', hcomp, _⟩ := h9 0 _ hi
        obtain ⟨σ', gs', m', e1, hg'⟩ := hcomp _ _ σ ρq _ m hg
        simp only [List.cons.injEq] at e1
        obtain ⟨e1, rfl⟩ := e1
        refine ⟨o', o.execs.length + 0, n0 + 1, 0, h1, hmemq hi, .is hp' (hw' _) m' hg' ⟨v, d, ?_, hv⟩ hd', .inr ⟨rfl, by omega⟩⟩
        obtain ⟨_, _, rest, _, C⟩ := hp'.exec
        have hl : ps.length = 2 := C.len
        have := congrArg GAtom.args e1
        simp only [gAtom] at this
        rw [List.take_of_length_le (by simp [hl])] at this
        exact this.symm
  | @head e f ps fs r L σ gs n cl ρ hp hw m hg hcl hfv hs he hd =>
    rcases step_user (fuel := fuel) w.inv w.st w.gen hq hp hcl hfv hs with ⟨h, _⟩ | ⟨o', B, _, h⟩
    · exact .inl ⟨_, h⟩
    · right
      rcases h with ⟨t1, t2, t3, t4⟩ | ⟨e', fr', fs', t1, t2, t3, t4, t5, _, _, _, t6⟩ | ⟨pre, hp', t1, t2, t3, t4, _, _, _, t5, _⟩
      · exact absurd he (t4 _ _ σ ρ hfree m)
      · left
        obtain ⟨σ', m', hg'⟩ := t6 _ _ σ ρq gs ρ hfree m hg he
        refine ⟨o', _, n, _, t1, by rw [t2]; simp, .res t4 ?_ m' hg' hd, .inl (by omega)⟩
        intro f' hf' a ha
        rcases t5 f' hf' with hin | heq
        · exact hw.2 f' hin a ha
        · exact .inr ⟨cl, hcl, by rw [← heq]; exact ha⟩
      · right; left
        obtain ⟨σ', m', hL⟩ := t5 _ _ σ ρq gs ρ hfree m hg he
        exact ⟨o', pre, hp', L, t1, t4, σ', m', hL⟩
  | @is e ps fs sub src L σ gs n hp hw m hg hb hd =>
    have hbt := builtin_turn (fuel := fuel) ok w.inv w.st w.gen hq hp
    obtain ⟨hrun, _, rest, hcodes, C⟩ := hp.exec
    cases hr : runData (preOf o.execs e) fuel X.st (builtinData .is) { e with regs := Org.resize 4 e.regs } with
    | error x =>
      rw [hr] at hbt
      exact .inl ⟨x, hbt⟩
    | ok e1 =>
      rw [hr] at hbt
      obtain ⟨o', B, hc, h⟩ := hbt
      have hrun' := is_run ok.st ok.interp C hrun hr treeAlg_sharp m hb
      right
      rcases h with ⟨s1, h⟩ | ⟨err, s1, s2, h1, h2, h3⟩ | ⟨e', fr', fs', s1, h1, h2, h3, rfl, h5, h6⟩ | ⟨s1, h1, h2, h3, h4, h5, h6, _⟩
      · exfalso
        rcases hrun' with ⟨_, s, _⟩ | ⟨s, _⟩ <;> rw [s1] at s <;> cases s
      · right; right
        rcases hrun' with ⟨err', s, s3, hk⟩ | ⟨s, _⟩
        · rw [s2] at s3; cases s3
          refine ⟨o', err, h1, hk, fun hno => ?_⟩
          obtain ⟨a, ha, he⟩ := hw.1
          exact hno a ha he.symm
        · rw [s1] at s; cases s
      · left
        rcases hrun' with ⟨_, s, _⟩ | ⟨_, σ', hσ, m'⟩
        · rw [s1] at s; cases s
        · exact ⟨o', _, n, _, h1, by rw [h2]; simp, .res h5 (fun f' hf' => hw.2 f' hf') (by rw [h6]; exact m') (hg.congr C.frs hσ) hd, .inl (by omega)⟩
      · right; left
        rcases hrun' with ⟨_, s, _⟩ | ⟨_, σ', hσ, m'⟩
        · rw [s1] at s; cases s
        · exact ⟨o', _, _, L, h1, h4, σ', m', h6 _ _ σ' ρq gs m' (hg.congr C.frs hσ)⟩

/-! ## Printing is defined -/

/-- Names and numbers of symbols under which printing is defined. -/
structure Printable (st : Storage) : Prop where
  functors : st.functors.length ≤ 32768
  vars : st.vars.length ≤ 32768
  bar : ∀ f ∈ st.functors, f.name ≠ n!"|"
  list : ∀ f ∈ st.functors, f.name = n!"[" → f.arity = 0 ∨ f.arity = 2

theorem orHang_bind {α β} {x : R α} {f : α → R β} (hx : x = .error .hang ∨ ∃ a, x = .ok a) (hf : ∀ a, x = .ok a → f a = .error .hang ∨ ∃ b, f a = .ok b) :
    (x >>= f) = .error .hang ∨ ∃ b, (x >>= f) = .ok b := by
  rcases hx with rfl | ⟨a, rfl⟩
  · exact .inl rfl
  · exact hf a rfl

theorem renderArgs_total {rep : Nat → R Name} {d : Nat} : ∀ {k i : Nat}, (∀ j, i ≤ j → j ≤ i + k → rep (d + j) = .error .hang ∨ ∃ s, rep (d + j) = .ok s) →
    renderArgs rep d i k = .error .hang ∨ ∃ s, renderArgs rep d i k = .ok s := by
  intro k
  induction k with
  | zero => intro i h; exact h i (Nat.le_refl _) (by omega)
  | succ k ih =>
    intro i h
    rw [renderArgs]
    refine orHang_bind (h i (Nat.le_refl _) (by omega)) fun s _ => orHang_bind (ih fun j h1 h2 => h j (by omega) (by omega)) fun t _ => .inr ⟨_, rfl⟩

theorem functorAt_valid {st : Storage} (hs : st.functors.length ≤ 32768) {k : Nat} {fv} (h : st.functors[k]? = some fv) :
    st.functorAt (toShort k) = some fv := by
  have hk := (List.getElem?_eq_some_iff.1 h).1
  rw [toShort_small (by omega)]
  simp [Storage.functorAt, h]

theorem stringRep_total {st : Storage} (hst : Printable st) {pre : Nat → Option Cell} {h : Hp} (g : Good (ValidCell st) (h.at? pre) h.size h.size)
    {L} : ∀ n b a, a < h.size → stringRep pre h st L n b a = .error .hang ∨ ∃ s, stringRep pre h st L n b a = .ok s := by
  intro n
  induction n with
  | zero => intro b a _; exact .inl rfl
  | succ n ih =>
    intro b a ha
    obtain ⟨d, hd1, hd2⟩ := deref_ok g ha
    have hdl := hd2.lt g
    obtain ⟨c, hc⟩ := g.get hdl
    have hv := g.valid _ _ hc
    rw [stringRep, hd1, ok_bind, hc, orFault_some, ok_bind]
    cases c with
    | ref x v =>
      obtain ⟨k, hk, rfl⟩ := hv
      have : st.varAt (toShort k) = some (st.vars[k]'hk) := by
        have := hst.vars
        rw [toShort_small (by omega)]
        simp [Storage.varAt, hk]
      simp only [this, orFault_some, ok_bind]
      exact .inr ⟨_, rfl⟩
    | int v => exact .inr ⟨_, rfl⟩
    | str x =>
      rcases hd2.end_cell.2 with ⟨v, hv⟩ | ⟨c, hv, hp⟩
      · rw [hc] at hv; cases hv
      · rw [hc] at hv; cases hv; cases hp
    | cons i =>
      obtain ⟨k, fv, h1, h2, rfl⟩ := hv
      simp only [functorAt_valid hst.functors h1, orFault_some, ok_bind]
      exact .inr ⟨_, rfl⟩
    | efn f k =>
      have := g.efnArgs _ _ _ hc
      obtain ⟨_, rfl⟩ := hv
      exact orHang_bind (ih _ _ (by omega)) fun l _ => orHang_bind (ih _ _ (by omega)) fun r _ => .inr ⟨_, rfl⟩
    | fn i n' =>
      obtain ⟨k, fv, h1, rfl, rfl, _⟩ := hv
      have hargs := g.fnArgs _ _ _ hc
      have hmem : fv ∈ st.functors := List.mem_iff_getElem?.2 ⟨k, h1⟩
      simp only [functorAt_valid hst.functors h1, orFault_some, ok_bind]
      split
      · exact .inr ⟨_, rfl⟩
      · rename_i hne
        rw [if_neg (hst.bar fv hmem)]
        split
        · rename_i hl
          have hl' : fv.name = n!"[" := by simpa [FV.isList] using hl
          have har : fv.arity = 2 := by
            rcases hst.list fv hmem hl' with h0 | h2
            · exact absurd (by simp [FV.isEmptyList, hl', h0]) hne
            · exact h2
          refine orHang_bind (ih _ _ (by omega)) fun hd _ => ?_
          obtain ⟨r, hr1, hr2⟩ := deref_ok g (show d + 2 < h.size by omega)
          obtain ⟨c, hc'⟩ := g.get (hr2.lt g)
          rw [hr1, ok_bind, hc', orFault_some, ok_bind]
          exact orHang_bind (ih _ _ (by omega)) fun tl _ => .inr ⟨_, rfl⟩
        · refine orHang_bind ?_ fun args _ => .inr ⟨_, rfl⟩
          split
          · exact ih _ _ hdl
          · rename_i k' hk'
            exact renderArgs_total fun j h1 h2 => ih _ _ (by omega)

theorem renderSubs_total {rep : Nat → R Name} : ∀ {L acc}, (∀ p ∈ L, rep p.2 = .error .hang ∨ ∃ s, rep p.2 = .ok s) →
    Org.renderSubs rep L acc = .error .hang ∨ ∃ bs, Org.renderSubs rep L acc = .ok bs := by
  intro L
  induction L with
  | nil => intro acc _; exact .inr ⟨_, rfl⟩
  | cons p L ih =>
    intro acc h
    obtain ⟨v, a⟩ := p
    rw [Org.renderSubs]
    split
    · exact ih fun p hp => h p (by simp [hp])
    · exact orHang_bind (h (v, a) (by simp)) fun s _ => ih fun p hp => h p (by simp [hp])

theorem Final.render {X : Ctx} {pre hp L} (F : Final X (hp.at? pre) hp.size L) (hpr : Printable X.st) (fuel : Nat) :
    Org.renderSubs (stringRep pre hp X.st L fuel false) L [] = .error .hang ∨
      ∃ bs, Org.renderSubs (stringRep pre hp X.st L fuel false) L [] = .ok bs :=
  renderSubs_total fun p hp => stringRep_total hpr F.good _ _ _ (F.lt p hp)

end PBfs
