import Verif.Proof.Control2
import Verif.Proof.Terms
import Verif.Proof.Arith
import Verif.Proof.Interp
/-! # The built-in predicates implemented in C++ -/
namespace PBfs

/-- What a built-in predicate says about its arguments. -/
def BHolds {D} (A : Alg D) : Builtin → List D → Prop
  | .is, vs => ∃ v d, vs = [A.int v, d] ∧ Evals A d v
  | .eq, vs => ∃ d, vs = [d, d]
  | .neq, vs => ∃ d e, vs = [d, e]

/-- The rule of a built-in predicate. -/
def builtinRule (b : Builtin) (sub : List VarReg) (src : Node) : Rule :=
  [⟨4, [.getVariable 2 0, .getVariable 3 1, .builtin b 2 3, .proceed], sub, src, false⟩]

/-- What a successful built-in predicate has done. -/
structure BOut (st : Storage) (I : Int → FV) (pre : Nat → Option Cell) (e e1 : Exec) (b : Builtin) (ps : List Nat) : Prop where
  size : e.hp.size ≤ e1.hp.size
  modLe : ModLe I (e.hp.at? pre) (e1.hp.at? pre)
  good : Good (ValidCell st) (e1.hp.at? pre) e1.hp.size e1.hp.size
  envs : e1.envs = e.envs
  sound : ∀ (D : Type) (A : Alg D) (σ : Nat → D), Mod (toIAlg A I) (e1.hp.at? pre) σ → BHolds A b (ps.map σ)

/-- Evaluation of an expression. -/
theorem evalArith_spec {st : Storage} {I : Int → FV} {pre} {h : Hp} (g : Good (ValidCell st) (h.at? pre) h.size h.size) :
    ∀ n {a v}, a < h.size → evalArith pre st h n a = .ok (.inr v) →
    Int32 v ∧ ∀ (D : Type) (A : Alg D) (σ : Nat → D), Mod (toIAlg A I) (h.at? pre) σ → Evals A (σ a) v := by
  intro n
  induction n with
  | zero => intro a v _ h; cases h
  | succ n ih =>
    intro a v ha hv
    obtain ⟨d, e1, t1⟩ := deref_ok g ha
    obtain ⟨c, hc⟩ := g.get (t1.lt g)
    rw [evalArith] at hv
    simp only [e1, hc, orFault_some, ok_bind, bind_ok] at hv
    obtain ⟨err, _, hv⟩ := hv
    cases err with
    | some e => simp only [pure_ok] at hv; cases hv
    | none =>
      cases c with
      | int w =>
        simp only [pure_ok] at hv
        cases hv
        refine ⟨g.valid _ _ hc, fun D A σ m => ?_⟩
        rw [m.deref t1, m _ _ hc]; exact .int
      | efn f k =>
        obtain ⟨hf, rfl⟩ := g.valid _ _ hc
        have hl := g.efnArgs _ _ _ hc
        simp only [bind_ok] at hv
        obtain ⟨l, hl1, hv⟩ := hv
        cases l with
        | inl => simp only [pure_ok] at hv; cases hv
        | inr l =>
          simp only [bind_ok] at hv
          obtain ⟨r, hr1, hv⟩ := hv
          cases r with
          | inl => simp only [pure_ok] at hv; cases hv
          | inr r =>
            simp only at hv
            split at hv
            · simp only [pure_ok] at hv; cases hv
            · rename_i h0
              simp only [bind_ok, pure_ok] at hv
              obtain ⟨w, hw, hv⟩ := hv
              cases hv
              obtain ⟨l1, l2⟩ := ih (by omega) hl1
              obtain ⟨r1, r2⟩ := ih (by omega) hr1
              refine ⟨arithOp_range hw, fun D A σ m => ?_⟩
              rw [m.deref t1, m _ _ hc]
              exact .op (l2 D A σ m) (r2 D A σ m) (arithOp_spec hw l1 fun h4 hz => h0 ⟨h4, hz⟩)
      | _ => cases hv

theorem two_of_length {α} {l : List α} (h : l.length = 2) : ∃ a b, l = [a, b] := by
  match l, h with
  | [a, b], _ => exact ⟨a, b, rfl⟩

/-- The head of a built-in predicate copies the argument registers. -/
theorem builtin_head {st : Storage} {I : Int → FV} {g pre} {e : Exec} {n : Name} {ps : List Nat} {fs : List Fr} {rest fuel} {b : Builtin}
    (C : Callee st I g (e.hp.at? pre) e.hp.size e.regs e.envs rest ⟨n, 2⟩ ps fs) (hrun : e.state = .running) :
    ∃ p0 p1 c0 c1 regs, ps = [p0, p1] ∧ p0 < e.hp.size ∧ p1 < e.hp.size ∧ c0.ptr = some p0 ∧ c1.ptr = some p1 ∧
      regs[2]? = some c0 ∧ regs[3]? = some c1 ∧
      runData pre fuel st [.getVariable 2 0, .getVariable 3 1, .builtin b 2 3] { e with regs := Org.resize 4 e.regs } =
        stepData pre fuel st (.builtin b 2 3) { e with regs := regs } := by
  obtain ⟨p0, p1, rfl⟩ := two_of_length C.len
  obtain ⟨h0, c0, a0, b0, _⟩ := C.args 0 p0 rfl
  obtain ⟨h1, c1, a1, b1, _⟩ := C.args 1 p1 rfl
  have r0 : (Org.resize 4 e.regs)[0]? = some c0 := resize_get a0 (by omega)
  have r1 : (Org.resize 4 e.regs)[1]? = some c1 := resize_get a1 (by omega)
  have hl := resize_length 4 e.regs
  generalize Org.resize 4 e.regs = rs at *
  obtain ⟨x2, x3, rfl⟩ : ∃ x2 x3, rs = [c0, c1, x2, x3] := by
    match rs, hl with
    | [x0, x1, x2, x3], _ => cases r0; cases r1; exact ⟨x2, x3, rfl⟩
  refine ⟨p0, p1, c0, c1, [c0, c1, c0, c1], rfl, h0, h1, b0, b1, rfl, rfl, ?_⟩
  have s1 : stepData pre fuel st (.getVariable 2 0) { e with regs := [c0, c1, x2, x3] } = .ok { e with regs := [c0, c1, c0, x3] } := rfl
  have s2 : stepData pre fuel st (.getVariable 3 1) { e with regs := [c0, c1, c0, x3] } = .ok { e with regs := [c0, c1, c0, c1] } := rfl
  have f1 : Exec.failed { e with regs := [c0, c1, c0, x3] } = false := by simp [Exec.failed, hrun]
  have f2 : Exec.failed { e with regs := [c0, c1, c0, c1] } = false := by simp [Exec.failed, hrun]
  rw [runData, s1]
  simp only [ok_bind, f1, Bool.false_eq_true, if_false]
  rw [runData, s2]
  simp only [ok_bind, f2, Bool.false_eq_true, if_false]
  rw [runData]
  simp only [runData]
  cases stepData pre fuel st (.builtin b 2 3) { e with regs := [c0, c1, c0, c1] } with
  | error => rfl
  | ok e1 => simp [ok_bind, pure, Except.pure]

theorem builtin_run {st : Storage} {I : Int → FV} (hst : StOK st) (hI : Interp I st) {g pre} {e : Exec} {n : Name} {ps : List Nat}
    {fs : List Fr} {rest fuel} {b : Builtin}
    (C : Callee st I g (e.hp.at? pre) e.hp.size e.regs e.envs rest ⟨n, 2⟩ ps fs) (hrun : e.state = .running) {e1}
    (h : runData pre fuel st [.getVariable 2 0, .getVariable 3 1, .builtin b 2 3] { e with regs := Org.resize 4 e.regs } = .ok e1)
    (hr1 : e1.state = .running) : BOut st I pre e e1 b ps := by
  obtain ⟨p0, p1, c0, c1, regs, rfl, h0, h1, b0, b1, g2, g3, eq⟩ := builtin_head (b := b) (fuel := fuel) C hrun
  rw [eq] at h
  have a0 : c0.addr = .ok p0 := by simp [Cell.addr, b0, orFault_some]
  have a1 : c1.addr = .ok p1 := by simp [Cell.addr, b1, orFault_some]
  cases b with
  | eq =>
    simp only [stepData, equalsCheck, Exec.reg, g2, g3, orFault_some, ok_bind, a0, a1, bind_ok, pure_ok] at h
    obtain ⟨r, hr, rfl⟩ := h
    cases r with
    | false => simp [Exec.setFailed] at hr1
    | true =>
      refine ⟨Nat.le_refl _, .refl, C.good, rfl, fun D A σ m => ?_⟩
      obtain ⟨t, x, y⟩ := (heapRegEquals_iff C.good _ h0 h1 hr).1 rfl
      exact ⟨σ p0, by simp [Reads.value m x y]⟩
  | neq =>
    simp only [stepData, notEqualsCheck, equalsCheck, Exec.reg, g2, g3, orFault_some, ok_bind, a0, a1, bind_ok, pure_ok] at h
    obtain ⟨e2, ⟨r, hr, rfl⟩, rfl⟩ := h
    cases r with
    | true => simp [Exec.failed, hrun, Exec.setFailed] at hr1
    | false =>
      simp only [Bool.false_eq_true, if_false, Exec.setFailed, Exec.failed]
      exact ⟨Nat.le_refl _, .refl, C.good, rfl, fun D A σ m => ⟨σ p0, σ p1, rfl⟩⟩
  | is =>
    simp only [stepData, isPred, Exec.reg, g2, g3, orFault_some, ok_bind, a0, a1, bind_ok] at h
    obtain ⟨v, hv, h⟩ := h
    cases v with
    | inl err => simp only [pure_ok] at h; subst h; cases hr1
    | inr v =>
      obtain ⟨v1, v2⟩ := evalArith_spec (I := I) C.good _ h1 hv
      obtain ⟨d, e1', t1⟩ := deref_ok C.good h0
      obtain ⟨c, hc⟩ := C.good.get (t1.lt C.good)
      simp only [Exec.deref, Exec.heapAt, e1', hc, orFault_some, ok_bind] at h
      cases c with
      | int w =>
        simp only [pure_ok] at h; subst h
        split at hr1
        · rename_i hw
          rw [if_pos hw]
          subst hw
          refine ⟨Nat.le_refl _, .refl, C.good, rfl, fun D A σ m => ⟨w, σ p1, ?_, v2 D A σ m⟩⟩
          have : σ p0 = A.int w := by rw [m.deref t1, m _ _ hc]; rfl
          simp [this]
        · simp [Exec.setFailed] at hr1
      | ref x k =>
        simp only at h
        split at h
        · cases h
        · simp only [bind_ok, pure_ok] at h
          obtain ⟨hp, hb, rfl⟩ := h
          have hx : x = d := by
            rcases t1.end_cell.2 with ⟨w, hw⟩ | ⟨c, hw, hp⟩
            · rw [hc] at hw; cases hw; rfl
            · rw [hc] at hw; cases hw; cases hp
          subst hx
          obtain ⟨hp', q1, q2, q3, q4, q5⟩ := bind_new (Γ := ⟨st, I, pre, fun _ => none, 0, 0⟩) ⟨hst, hI, by simp, by simp⟩
            (e := { e with regs := regs }) (n := .int v) (c := .int v) C.good hc rfl v1
          rw [show hp = hp' by
            have := hb.symm.trans q1
            cases this; rfl]
          refine ⟨by rw [q2]; exact Nat.le_succ _, fun D A σ m => ((q5 D A σ).1 m).1, ?_, rfl, fun D A σ m => ⟨v, σ p1, ?_, ?_⟩⟩
          · rw [q2]; exact q4
          · obtain ⟨m1, m2, m3⟩ := (q5 D A σ).1 m
            have : σ p0 = A.int v := by
              rw [m1.deref t1, m2]; exact m3
            simp [this]
          · exact v2 D A σ ((q5 D A σ).1 m).1
      | _ => simp only [pure_ok] at h; subst h; simp [Exec.setFailed] at hr1

/-- Comparisons have no undefined behaviour. -/
theorem builtin_total {st : Storage} {I : Int → FV} {g pre} {e : Exec} {n : Name} {ps : List Nat}
    {fs : List Fr} {rest fuel} {b : Builtin} (hb : b ≠ .is)
    (C : Callee st I g (e.hp.at? pre) e.hp.size e.regs e.envs rest ⟨n, 2⟩ ps fs) (hrun : e.state = .running) :
    runData pre fuel st [.getVariable 2 0, .getVariable 3 1, .builtin b 2 3] { e with regs := Org.resize 4 e.regs } = .error .hang ∨
    ∃ e1, runData pre fuel st [.getVariable 2 0, .getVariable 3 1, .builtin b 2 3] { e with regs := Org.resize 4 e.regs } = .ok e1 ∧
      (e1.state = .running ∨ e1.state = .fail) := by
  obtain ⟨p0, p1, c0, c1, regs, rfl, h0, h1, b0, b1, g2, g3, eq⟩ := builtin_head (b := b) (fuel := fuel) C hrun
  rw [eq]
  have a0 : c0.addr = .ok p0 := by simp [Cell.addr, b0, orFault_some]
  have a1 : c1.addr = .ok p1 := by simp [Cell.addr, b1, orFault_some]
  have tot := heapRegEquals_total C.good fuel h0 h1
  cases b with
  | is => exact absurd rfl hb
  | eq =>
    simp only [stepData, equalsCheck, Exec.reg, g2, g3, orFault_some, ok_bind, a0, a1]
    rcases tot with ⟨r, hr⟩ | hr
    · rw [hr]
      refine .inr ⟨_, rfl, ?_⟩
      cases r
      · exact .inr rfl
      · exact .inl hrun
    · rw [hr]; exact .inl rfl
  | neq =>
    simp only [stepData, notEqualsCheck, equalsCheck, Exec.reg, g2, g3, orFault_some, ok_bind, a0, a1]
    rcases tot with ⟨r, hr⟩ | hr
    · rw [hr]
      refine .inr ⟨_, rfl, ?_⟩
      cases r
      · exact .inl rfl
      · refine .inr ?_
        simp [Exec.failed, hrun, Exec.setFailed]
    · rw [hr]; exact .inl rfl

/-! ## Evaluation along a solution -/

theorem ArithSpec.det {f a b v w} (h : ArithSpec f a b v) (h' : ArithSpec f a b w) : v = w := by
  generalize hf : f = f' at h'
  cases h <;> cases h' <;> first | rfl | (simp at hf; done) | (rename_i h1 h2; cases h1.symm.trans h2; rfl)

theorem Evals.int_inv {D} {A : Alg D} (S : A.Sharp) {w v} (h : Evals A (A.int w) v) : v = w := by
  generalize hx : A.int w = x at h
  cases h with
  | int => exact (S.int_inj hx).symm
  | op => exact absurd hx S.int_efn

theorem Evals.cons_inv {D} {A : Alg D} (S : A.Sharp) {n v} (h : Evals A (A.cons n) v) : False := by
  generalize hx : A.cons n = x at h
  cases h with
  | int => exact S.cons_int hx
  | op => exact S.cons_efn hx

theorem Evals.fn_inv {D} {A : Alg D} (S : A.Sharp) {f as v} (h : Evals A (A.fn f as) v) : False := by
  generalize hx : A.fn f as = x at h
  cases h with
  | int => exact S.int_fn hx.symm
  | op => exact S.fn_efn hx

theorem Evals.efn_inv {D} {A : Alg D} (S : A.Sharp) {f as v} (h : Evals A (A.efn f as) v) :
    ∃ l r a b, as = [l, r] ∧ Evals A l a ∧ Evals A r b ∧ ArithSpec f a b v := by
  generalize hx : A.efn f as = x at h
  cases h with
  | int => exact absurd hx.symm S.int_efn
  | op h1 h2 h3 =>
    obtain ⟨rfl, rfl⟩ := S.efn_inj hx
    exact ⟨_, _, _, _, rfl, h1, h2, h3⟩

theorem Evals.det {D} {A : Alg D} (S : A.Sharp) {d v w} (h : Evals A d v) (h' : Evals A d w) : v = w := by
  induction h generalizing w with
  | int => exact (h'.int_inv S).symm
  | op h1 h2 h3 ih1 ih2 =>
    obtain ⟨l, r, a, b, e, k1, k2, k3⟩ := h'.efn_inv S
    simp only [List.cons.injEq, and_true] at e
    obtain ⟨rfl, rfl⟩ := e
    cases ih1 k1
    cases ih2 k2
    exact h3.det k3

/-- If an expression has a value under a solution of the heap, its evaluation gives this value or reports that a
variable is not bound. -/
theorem evalArith_lead {st : Storage} {I : Int → FV} {pre} {h : Hp} (g : Good (ValidCell st) (h.at? pre) h.size h.size)
    {D} {A : Alg D} (S : A.Sharp)
    {σ : Nat → D} (m : Mod (toIAlg A I) (h.at? pre) σ) :
    ∀ n {a v}, a < h.size → Evals A (σ a) v → (∃ x, evalArith pre st h n a = .error x) ∨
      (∃ err, evalArith pre st h n a = .ok (.inl err) ∧ err.kind = .notInstantiated) ∨ evalArith pre st h n a = .ok (.inr v) := by
  intro n
  induction n with
  | zero => intro a v _ _; exact .inl ⟨_, rfl⟩
  | succ n ih =>
    intro a v ha hv
    obtain ⟨d, e1, t1⟩ := deref_ok g ha
    obtain ⟨c, hc⟩ := g.get (t1.lt g)
    rw [m.deref t1] at hv
    have hd := m _ _ hc
    rw [evalArith]
    simp only [e1, hc, orFault_some, ok_bind]
    cases c with
    | int w =>
      right; right
      have hd : σ d = A.int w := hd
      rw [hd] at hv
      cases hv.int_inv S
      rfl
    | ref b k =>
      simp only [checkEvaluable]
      cases hn : st.varAt k with
      | none => exact .inl ⟨_, rfl⟩
      | some nm => exact .inr (.inl ⟨_, rfl, rfl⟩)
    | str b =>
      rcases t1.end_cell.2 with ⟨w, hw⟩ | ⟨c, hw, hp⟩
      · rw [hc] at hw; cases hw
      · rw [hc] at hw; cases hw; cases hp
    | cons i =>
      have hd : σ d = A.cons (I i).name := hd
      rw [hd] at hv
      exact (hv.cons_inv S).elim
    | fn f k =>
      have hd : σ d = A.fn (I f).name _ := hd
      rw [hd] at hv
      exact (hv.fn_inv S).elim
    | efn f k =>
      obtain ⟨hf, rfl⟩ := g.valid _ _ hc
      have hl := g.efnArgs _ _ _ hc
      have hd : σ d = A.efn _ [σ (d + 1), σ (d + 2)] := hd
      rw [hd] at hv
      obtain ⟨l, r, a, b, hx, h1, h2, h3⟩ := hv.efn_inv S
      simp only [List.cons.injEq, and_true] at hx
      obtain ⟨rfl, rfl⟩ := hx
      simp only [checkEvaluable, pure_bind]
      rcases ih (a := d + 1) (by omega) h1 with ⟨x, h⟩ | ⟨err, h, hk⟩ | h
      · exact .inl ⟨x, by rw [h]; rfl⟩
      · exact .inr (.inl ⟨err, by rw [h]; rfl, hk⟩)
      · rcases ih (a := d + 2) (by omega) h2 with ⟨x, h'⟩ | ⟨err, h', hk⟩ | h'
        · exact .inl ⟨x, by simp only [h, h', ok_bind]; rfl⟩
        · exact .inr (.inl ⟨err, by simp only [h, h', ok_bind]; rfl, hk⟩)
        · simp only [h, h', ok_bind]
          have hz : ¬ (f = 4 ∧ b = 0) := by
            rintro ⟨rfl, rfl⟩
            have h3 : ArithSpec n!"//" a 0 v := h3
            generalize hz : (0 : Int) = z at h3
            generalize ho : n!"//" = op at h3
            cases h3 <;> first | exact absurd hz.symm (by assumption) | (revert ho; decide)
          simp only [if_neg hz]
          cases ho : arithOp f a b with
          | error x => exact .inl ⟨x, rfl⟩
          | ok w =>
            right; right
            have : w = v := by
              have := arithOp_spec ho (evalArith_spec (I := I) g _ (by omega) h).1 fun h4 hb => hz ⟨h4, hb⟩
              exact this.det h3
            subst this
            rfl

/-- `is` along a solution: it reports that a variable is not bound, or the solution remains one. -/
theorem is_run {st : Storage} {I : Int → FV} (hst : StOK st) (hI : Interp I st) {g pre} {e : Exec} {n : Name} {ps : List Nat}
    {fs : List Fr} {rest fuel}
    (C : Callee st I g (e.hp.at? pre) e.hp.size e.regs e.envs rest ⟨n, 2⟩ ps fs) (hrun : e.state = .running) {e1}
    (h : runData pre fuel st [.getVariable 2 0, .getVariable 3 1, .builtin .is 2 3] { e with regs := Org.resize 4 e.regs } = .ok e1)
    {D} {A : Alg D} (S : A.Sharp) {σ : Nat → D} (m : Mod (toIAlg A I) (e.hp.at? pre) σ) (hb : BHolds A .is (ps.map σ)) :
    (∃ err, e1.state = .rtErr ∧ e1.err = some err ∧ err.kind = .notInstantiated) ∨
    (e1.state = .running ∧ ∃ σ', (∀ a, a < e.hp.size → σ' a = σ a) ∧ Mod (toIAlg A I) (e1.hp.at? pre) σ') := by
  obtain ⟨p0, p1, c0, c1, regs, rfl, h0, h1, b0, b1, g2, g3, eq⟩ := builtin_head (b := .is) (fuel := fuel) C hrun
  rw [eq] at h
  have a0 : c0.addr = .ok p0 := by simp [Cell.addr, b0, orFault_some]
  have a1 : c1.addr = .ok p1 := by simp [Cell.addr, b1, orFault_some]
  obtain ⟨v, d, hd, hv⟩ := hb
  simp only [List.map_cons, List.map_nil, List.cons.injEq, and_true] at hd
  obtain ⟨hv0, rfl⟩ := hd
  simp only [stepData, isPred, Exec.reg, g2, g3, orFault_some, ok_bind, a0, a1, bind_ok] at h
  obtain ⟨w, hw, h⟩ := h
  rcases evalArith_lead (I := I) C.good S m fuel h1 hv with ⟨x, hx⟩ | ⟨err, hx, hk⟩ | hx
  · rw [hx] at hw; cases hw
  · rw [hx] at hw; cases hw
    simp only [pure_ok] at h
    subst h
    exact .inl ⟨err, rfl, rfl, hk⟩
  · rw [hx] at hw; cases hw
    right
    obtain ⟨v1, v2⟩ := evalArith_spec (I := I) C.good _ h1 hx
    obtain ⟨d, e1', t1⟩ := deref_ok C.good h0
    obtain ⟨c, hc⟩ := C.good.get (t1.lt C.good)
    have hd := m _ _ hc
    rw [m.deref t1] at hv0
    simp only [Exec.deref, Exec.heapAt, e1', hc, orFault_some, ok_bind] at h
    cases c with
    | int w =>
      have hd : σ d = A.int w := hd
      rw [hd] at hv0
      cases S.int_inj hv0
      simp only [pure_ok, if_true] at h
      subst h
      exact ⟨hrun, σ, fun _ _ => rfl, m⟩
    | cons i => have hd : σ d = A.cons (I i).name := hd; rw [hd] at hv0; exact absurd hv0 S.cons_int
    | fn f k => have hd : σ d = A.fn (I f).name _ := hd; rw [hd] at hv0; exact absurd hv0.symm S.int_fn
    | efn f k => have hd : σ d = A.efn _ _ := hd; rw [hd] at hv0; exact absurd hv0.symm S.int_efn
    | str b =>
      rcases t1.end_cell.2 with ⟨w, hw⟩ | ⟨c, hw, hp⟩
      · rw [hc] at hw; cases hw
      · rw [hc] at hw; cases hw; cases hp
    | ref x k =>
      simp only at h
      split at h
      · cases h
      · simp only [bind_ok, pure_ok] at h
        obtain ⟨hp, hb, rfl⟩ := h
        have hx : x = d := by
          rcases t1.end_cell.2 with ⟨w, hw⟩ | ⟨c, hw, hp⟩
          · rw [hc] at hw; cases hw; rfl
          · rw [hc] at hw; cases hw; cases hp
        subst hx
        obtain ⟨hp', q1, q2, q3, q4, q5⟩ := bind_new (Γ := ⟨st, I, pre, fun _ => none, 0, 0⟩) ⟨hst, hI, by simp, by simp⟩
          (e := { e with regs := regs }) (n := .int v) (c := .int v) C.good hc rfl v1
        rw [show hp = hp' by
          have := hb.symm.trans q1
          cases this; rfl]
        let σ' : Nat → D := fun a => if a = e.hp.size then A.int v else σ a
        refine ⟨hrun, σ', fun a ha => by simp [σ', show a ≠ e.hp.size by omega], (q5 D A σ').2 ⟨?_, ?_, ?_⟩⟩
        · exact mod_congr C.good (fun a ha => by simp [σ', show a ≠ e.hp.size by omega]) m
        · have hl := C.good.lt hc
          simp [σ', show x ≠ e.hp.size by omega]; exact hv0
        · simp [σ', CellEq]; rfl

end PBfs
