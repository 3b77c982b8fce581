import Verif.Proof.Builtin
import Verif.Props.Unify
import Verif.Spec.Demo
/-! # C12 – C16: `==`, `\==`, `is` -/
namespace PBfs

/-- Registers `l` and `r` of the executor point to the addresses `a` and `b` of its (well-formed) heap. -/
structure TwoArgs (st : Storage) (pre : Nat → Option Cell) (e : Exec) (l r a b : Nat) : Prop where
  wf : WF st pre e.hp
  left : ∃ c, e.regs[l]? = some c ∧ c.ptr = some a
  right : ∃ c, e.regs[r]? = some c ∧ c.ptr = some b
  la : a < e.hp.size
  lb : b < e.hp.size
  run : e.state = .running

theorem TwoArgs.getL {st pre e l r a b} (h : TwoArgs st pre e l r a b) : ∃ c, e.reg l = .ok c ∧ c.addr = .ok a := by
  obtain ⟨c, h1, h2⟩ := h.left
  exact ⟨c, by simp [Exec.reg, h1, orFault_some], by simp [Cell.addr, h2, orFault_some]⟩

theorem TwoArgs.getR {st pre e l r a b} (h : TwoArgs st pre e l r a b) : ∃ c, e.reg r = .ok c ∧ c.addr = .ok b := by
  obtain ⟨c, h1, h2⟩ := h.right
  exact ⟨c, by simp [Exec.reg, h1, orFault_some], by simp [Cell.addr, h2, orFault_some]⟩

theorem equalsCheck_eq {st pre fuel e l r a b} (h : TwoArgs st pre e l r a b) :
    equalsCheck pre fuel l r e = (heapRegEquals pre e.hp fuel a b >>= fun eq => pure (if eq then e else e.setFailed)) := by
  obtain ⟨c1, h1, h2⟩ := h.getL
  obtain ⟨c2, h3, h4⟩ := h.getR
  unfold equalsCheck
  simp only [h1, h2, h3, h4, ok_bind]

/-- **C12.** `==` succeeds exactly if both arguments stand for the same finite term at that moment, variables
being the same only if they are the same unbound cell; in any case nothing is bound (the executor is
unchanged, or only marked as failed).  It decides every pair of terms of which one is finite. -/
theorem C12_eq_is_identity {st pre fuel e l r a b} (h : TwoArgs st pre e l r a b) :
    (∀ e', stepData pre fuel st (.builtin .eq l r) e = .ok e' →
      (e' = e ∧ ∃ t, Reads (e.hp.at? pre) a t ∧ Reads (e.hp.at? pre) b t) ∨
      (e' = e.setFailed ∧ ¬ ∃ t, Reads (e.hp.at? pre) a t ∧ Reads (e.hp.at? pre) b t)) ∧
    (∀ s, Reads (e.hp.at? pre) a s ∨ Reads (e.hp.at? pre) b s → s.depth < fuel →
      ∃ e', stepData pre fuel st (.builtin .eq l r) e = .ok e') := by
  constructor
  · intro e' he
    change equalsCheck pre fuel l r e = .ok e' at he
    rw [equalsCheck_eq h, bind_ok] at he
    obtain ⟨q, hq, he⟩ := he
    have := heapRegEquals_iff h.wf fuel h.la h.lb hq
    cases he
    cases q with
    | true => exact .inl ⟨rfl, this.1 rfl⟩
    | false => exact .inr ⟨rfl, fun ht => by cases this.2 ht⟩
  · intro s hs hd
    change ∃ e', equalsCheck pre fuel l r e = .ok e'
    rw [equalsCheck_eq h]
    have : ∃ q, heapRegEquals pre e.hp fuel a b = .ok q := by
      rcases hs with hs | hs
      · exact heapRegEquals_finite h.wf fuel h.la h.lb hs hd
      · exact heapRegEquals_finite_right h.wf fuel h.la h.lb hs hd
    obtain ⟨q, hq⟩ := this
    rw [hq]
    exact ⟨_, rfl⟩

/-- **C13.** In every state of an executor that has not failed, `\==` ends without undefined behaviour exactly
if `==` does, succeeds exactly if `==` fails, fails exactly if it succeeds, and changes nothing else. -/
theorem C13_neq_complement {st pre fuel l r} {e : Exec} (run : e.state = .running) :
    match stepData pre fuel st (.builtin .eq l r) e with
    | .ok e' => (e' = e ∧ stepData pre fuel st (.builtin .neq l r) e = .ok e.setFailed) ∨
        (e' = e.setFailed ∧ stepData pre fuel st (.builtin .neq l r) e = .ok e)
    | .error f => stepData pre fuel st (.builtin .neq l r) e = .error f := by
  change match equalsCheck pre fuel l r e with
    | .ok e' => (e' = e ∧ notEqualsCheck pre fuel l r e = .ok e.setFailed) ∨
        (e' = e.setFailed ∧ notEqualsCheck pre fuel l r e = .ok e)
    | .error f => notEqualsCheck pre fuel l r e = .error f
  have hc : ∀ e', equalsCheck pre fuel l r e = .ok e' → e' = e ∨ e' = e.setFailed := by
    intro e' he
    unfold equalsCheck at he
    simp only [bind_ok, pure_ok] at he
    obtain ⟨_, _, _, _, _, _, _, _, q, _, rfl⟩ := he
    cases q <;> simp
  unfold notEqualsCheck
  cases he : equalsCheck pre fuel l r e with
  | error f => rfl
  | ok e' =>
    simp only [ok_bind]
    rcases hc e' he with rfl | rfl
    · left
      refine ⟨rfl, ?_⟩
      simp [Exec.failed, run, pure, Except.pure]
    · right
      refine ⟨rfl, ?_⟩
      have : { e.setFailed with state := EState.running } = e := by
        unfold Exec.setFailed
        rw [← run]
      simp only [Exec.failed, Exec.setFailed]
      simp [pure, Except.pure, ← run]

/-! ## Values of expressions -/

/-- The expression (`arithNames`: `^`, `+`, `-`, `*`, `//` have the numbers 0 to 4) has the value `v` in
mathematics, all intermediate values fit in 32 bits and no divisor is 0.  `P b e v` says what counts as `b ^ e`. -/
inductive OTerm.Value (P : Int → Int → Int → Prop) : OTerm → Int → Prop
  | int {v} : Int32 v → Value P (.int v) v
  | add {l r x y} : Value P l x → Value P r y → Int32 (x + y) → Value P (.efn 1 [l, r]) (x + y)
  | sub {l r x y} : Value P l x → Value P r y → Int32 (x - y) → Value P (.efn 2 [l, r]) (x - y)
  | mul {l r x y} : Value P l x → Value P r y → Int32 (x * y) → Value P (.efn 3 [l, r]) (x * y)
  | div {l r x y} : Value P l x → Value P r y → y ≠ 0 → Int32 (x.tdiv y) → Value P (.efn 4 [l, r]) (x.tdiv y)
  | pow {l r x y v} : Value P l x → Value P r y → P x y v → Value P (.efn 0 [l, r]) v

example : arithNames = [n!"^", n!"+", n!"-", n!"*", n!"//"] := rfl

/-- What the machine computes for `b ^ e`. -/
def MachinePow (b e v : Int) : Prop := powInt b e = .ok v

/-- A number that a `float` can represent: at most 24 significant bits. -/
def Float24 (z : Int) : Prop := ∃ m k : Nat, z.natAbs = m * 2 ^ k ∧ m < 2 ^ 24

/-- Exact powers that are `int`s and `float`s; for -1, exponents up to 2^24. -/
def FloatPow (b e v : Int) : Prop :=
  ∃ n : Nat, e = n ∧ v = b ^ n ∧ Int32 v ∧ Float24 v ∧ (b = -1 → n ≤ 2 ^ 24)

theorem OTerm.Value.mono {P Q : Int → Int → Int → Prop} (h : ∀ b e v, P b e v → Q b e v) {t v} (hv : Value P t v) :
    Value Q t v := by
  induction hv with
  | int h => exact .int h
  | add _ _ h a b => exact .add a b h
  | sub _ _ h a b => exact .sub a b h
  | mul _ _ h a b => exact .mul a b h
  | div _ _ h h' a b => exact .div a b h h'
  | pow _ _ h' a b => exact .pow a b (h _ _ _ h')

theorem OTerm.Value.int32 {t v} (hv : Value MachinePow t v) : Int32 v := by
  cases hv with
  | int h => exact h
  | add _ _ h => exact h
  | sub _ _ h => exact h
  | mul _ _ h => exact h
  | div _ _ _ h => exact h
  | pow _ _ h => exact powInt_range h

theorem OTerm.Value.det {t v w} (h : Value MachinePow t v) : Value MachinePow t w → v = w := by
  induction h generalizing w with
  | int => intro h; cases h; rfl
  | add _ _ _ a b => intro h; cases h with | add h1 h2 => rw [a h1, b h2]
  | sub _ _ _ a b => intro h; cases h with | sub h1 h2 => rw [a h1, b h2]
  | mul _ _ _ a b => intro h; cases h with | mul h1 h2 => rw [a h1, b h2]
  | div _ _ _ _ a b => intro h; cases h with | div h1 h2 => rw [a h1, b h2]
  | pow _ _ h' a b =>
    intro h
    cases h with
    | pow h1 h2 h3 =>
      have := a h1; have := b h2
      subst_vars
      have := h'.symm.trans h3
      cases this; rfl

theorem arithOp_sum {a b : Int} (h : Int32 (a + b)) : arithOp 1 a b = .ok (a + b) := by
  show toInt32 (roundInt 53 (a + b)) = _
  unfold Int32 at h
  rw [roundInt_small (by omega)]
  exact toInt32_ok.2 ⟨rfl, h⟩

theorem arithOp_diff {a b : Int} (h : Int32 (a - b)) : arithOp 2 a b = .ok (a - b) := by
  show toInt32 (roundInt 53 (a - b)) = _
  unfold Int32 at h
  rw [roundInt_small (by omega)]
  exact toInt32_ok.2 ⟨rfl, h⟩

theorem arithOp_prod {a b : Int} (h : Int32 (a * b)) : arithOp 3 a b = .ok (a * b) := by
  show toInt32 (roundInt 53 (a * b)) = _
  unfold Int32 at h
  rw [roundInt_small (by omega)]
  exact toInt32_ok.2 ⟨rfl, h⟩

theorem arithOp_quot {a b : Int} (ha : Int32 a) (hb : b ≠ 0) (h : Int32 (a.tdiv b)) : arithOp 4 a b = .ok (a.tdiv b) := by
  show toInt32 (divInt a b) = _
  unfold Int32 at ha
  rw [divInt_eq hb (by omega)]
  exact toInt32_ok.2 ⟨rfl, h⟩

section
variable {st : Storage} {pre : Nat → Option Cell} {h : Hp}

theorem evalArith_int {n a d v} (g : WF st pre h) (ha : a < h.size) (t : DerefTo (h.at? pre) a d)
    (hc : h.at? pre d = some (.int v)) : evalArith pre st h (n + 1) a = .ok (.inr v) := by
  obtain ⟨d', e1, t1⟩ := deref_ok g ha
  cases t1.det t
  rw [evalArith]
  simp only [e1, hc, orFault_some, ok_bind, checkEvaluable]
  rfl

theorem evalArith_efn {n a d f k} (g : WF st pre h) (ha : a < h.size) (t : DerefTo (h.at? pre) a d)
    (hc : h.at? pre d = some (.efn f k)) : evalArith pre st h (n + 1) a = (do
        let l ← evalArith pre st h n (d + 1)
        match l with
        | .inl e => pure (.inl e)
        | .inr l => do
          let r ← evalArith pre st h n (d + 2)
          match r with
          | .inl e => pure (.inl e)
          | .inr r =>
            if f = 4 ∧ r = 0 then pure (.inl ⟨.divByZero, []⟩)
            else do
              let v ← arithOp f l r
              pure (.inr v)) := by
  obtain ⟨d', e1, t1⟩ := deref_ok g ha
  cases t1.det t
  rw [evalArith]
  simp only [e1, hc, orFault_some, ok_bind, checkEvaluable]
  rfl

/-- The address at which the term itself begins. -/
theorem Reads.node {a t} (g : WF st pre h) (ha : a < h.size) (hr : Reads (h.at? pre) a t) :
    ∃ d, DerefTo (h.at? pre) a d ∧ d < h.size ∧ Reads (h.at? pre) d t ∧ match t with
    | .var x => x = d ∧ ∃ v, h.at? pre d = some (.ref d v)
    | .cons i => h.at? pre d = some (.cons i)
    | .int v => h.at? pre d = some (.int v)
    | .fn f ts => h.at? pre d = some (.fn f ts.length)
    | .efn f ts => h.at? pre d = some (.efn f ts.length) ∧ ∃ l r, ts = [l, r] ∧ d + 2 < h.size ∧
        Reads (h.at? pre) (d + 1) l ∧ Reads (h.at? pre) (d + 2) r := by
  obtain ⟨d, t1⟩ := g.ends a ha
  have hd := t1.lt g
  rw [Reads.deref t1] at hr
  refine ⟨d, t1, hd, hr, ?_⟩
  have hend : ∀ b v, h.at? pre d = some (.ref b v) → b = d := by
    intro b v hb
    rcases t1.end_cell.2 with ⟨w, hw⟩ | ⟨c, hw, hp⟩
    · rw [hb] at hw; cases hw; rfl
    · rw [hb] at hw; cases hw; cases hp
  have hns : ∀ b, h.at? pre d ≠ some (.str b) := by
    intro b hb
    rcases t1.end_cell.2 with ⟨w, hw⟩ | ⟨c, hw, hp⟩
    · rw [hb] at hw; cases hw
    · rw [hb] at hw; cases hw; cases hp
  cases hr with
  | ref h1 h2 _ => exact absurd (hend _ _ h1) h2
  | str h1 _ => exact absurd h1 (hns _)
  | var h1 => exact ⟨rfl, _, h1⟩
  | cons h1 => exact h1
  | int h1 => exact h1
  | fn h1 h2 _ => subst h2; exact h1
  | @efn _ f n ts h1 h2 h3 =>
    subst h2
    refine ⟨h1, ?_⟩
    obtain ⟨_, h4⟩ := g.valid _ _ h1
    have h5 := g.efnArgs _ _ _ h1
    match ts, h4 with
    | [l, r], _ => exact ⟨l, r, rfl, by simpa using h5, h3 0 l rfl, h3 1 r rfl⟩

/-- The machine computes the value of an expression. -/
theorem evalArith_value (g : WF st pre h) {t v} (hv : OTerm.Value MachinePow t v) :
    ∀ n {a}, a < h.size → Reads (h.at? pre) a t → t.depth < n → evalArith pre st h n a = .ok (.inr v) := by
  have two : ∀ {f l r : _} {x y v : Int} , (f = 4 → y ≠ 0) → arithOp f x y = .ok v →
      (∀ n {a}, a < h.size → Reads (h.at? pre) a l → l.depth < n → evalArith pre st h n a = .ok (.inr x)) →
      (∀ n {a}, a < h.size → Reads (h.at? pre) a r → r.depth < n → evalArith pre st h n a = .ok (.inr y)) →
      ∀ n {a}, a < h.size → Reads (h.at? pre) a (.efn f [l, r]) → (OTerm.efn f [l, r]).depth < n →
        evalArith pre st h n a = .ok (.inr v) := by
    intro f l r x y v h0 hop hl hr n a ha hR hd
    obtain ⟨d, t1, _, _, hc, l', r', e, h2, hl', hr'⟩ := Reads.node g ha hR
    cases e
    have d1 := OTerm.depth_le (ts := [l, r]) (i := 0) (t := l) rfl
    have d2 := OTerm.depth_le (ts := [l, r]) (i := 1) (t := r) rfl
    cases n with
    | zero => omega
    | succ n =>
      simp only [OTerm.depth] at hd
      rw [evalArith_efn g ha t1 hc, hl n (by omega) hl' (by omega)]
      simp only [ok_bind]
      rw [hr n (by omega) hr' (by omega)]
      simp only [ok_bind]
      rw [if_neg (by rintro ⟨a, b⟩; exact h0 a b), hop]
      rfl
  induction hv with
  | int _ =>
    intro n a ha hR hd
    obtain ⟨d, t1, _, _, hc⟩ := Reads.node g ha hR
    cases n with
    | zero => omega
    | succ n => exact evalArith_int g ha t1 hc
  | add _ _ h' a b => exact two (by omega) (arithOp_sum h') a b
  | sub _ _ h' a b => exact two (by omega) (arithOp_diff h') a b
  | mul _ _ h' a b => exact two (by omega) (arithOp_prod h') a b
  | div h1 _ h0 h' a b => exact two (fun _ => h0) (arithOp_quot h1.int32 h0 h') a b
  | pow _ _ h' a b => exact two (by omega) h' a b

end

theorem Reads.bound {H H' : HV} {x k s} (hag : ∀ y c, H y = some c → y ≠ x → H' y = some c) (hx : Reads H' x s)
    (h0 : H x = some (.ref x k)) {a} (h : Reads H a (.var x)) : Reads H' a s := by
  generalize ht : OTerm.var x = t at h
  induction h with
  | @ref a b v t h1 h2 _ ih =>
    by_cases ha : a = x
    · subst ha; exact hx
    · exact .ref (hag _ _ h1 ha) h2 (ih ht)
  | @str a b t h1 _ ih =>
    by_cases ha : a = x
    · subst ha; exact hx
    · exact .str (hag _ _ h1 ha) (ih ht)
  | var => cases ht; exact hx
  | cons => cases ht
  | int => cases ht
  | fn => cases ht
  | efn => cases ht

/-- What `is` does with the value `v` of its right-hand side: an integer is compared, an unbound variable (in
the part of the heap that is shared with the parent, where all variables of a called goal are) becomes `v`
and nothing else changes; everything else fails. -/
def IsDone (pre : Nat → Option Cell) (e : Exec) (a : Nat) (s : OTerm) (v : Int) (e' : Exec) : Prop :=
  match s with
  | .int w => e' = if w = v then e else e.setFailed
  | .var d => e'.state = .running ∧ e'.hp.size = e.hp.size + 1 ∧ Reads (e'.hp.at? pre) a (.int v) ∧
      ∀ x, x < e.hp.size → x ≠ d → e'.hp.at? pre x = e.hp.at? pre x
  | _ => e' = e.setFailed

theorem isPred_value {st : Storage} {pre fuel e l r a b t v s} (h : TwoArgs st pre e l r a b)
    (hb : Reads (e.hp.at? pre) b t) (hv : t.Value MachinePow v) (hf : t.depth < fuel)
    (ha : Reads (e.hp.at? pre) a s) (hd : ∀ d, s = .var d → d < e.hp.start) :
    ∃ e', stepData pre fuel st (.builtin .is l r) e = .ok e' ∧ IsDone pre e a s v e' := by
  change ∃ e', isPred pre fuel st l r e = .ok e' ∧ IsDone pre e a s v e'
  obtain ⟨c1, h1, h2⟩ := h.getL
  obtain ⟨c2, h3, h4⟩ := h.getR
  unfold isPred
  simp only [h1, h2, h3, h4, ok_bind, evalArith_value h.wf hv fuel h.lb hb hf]
  obtain ⟨d, t1, hlt, hR, hc⟩ := Reads.node h.wf h.la ha
  obtain ⟨d', e1, t2⟩ := deref_ok h.wf h.la
  cases t2.det t1
  simp only [Exec.deref, Exec.heapAt, e1, ok_bind]
  cases s with
  | int w =>
    simp only at hc
    simp only [hc, orFault_some, ok_bind]
    exact ⟨_, rfl, rfl⟩
  | cons i =>
    simp only at hc
    simp only [hc, orFault_some, ok_bind]
    exact ⟨_, rfl, rfl⟩
  | fn f ts =>
    simp only at hc
    simp only [hc, orFault_some, ok_bind]
    exact ⟨_, rfl, rfl⟩
  | efn f ts =>
    obtain ⟨hc, _⟩ := hc
    simp only [hc, orFault_some, ok_bind]
    exact ⟨_, rfl, rfl⟩
  | var x =>
    obtain ⟨rfl, k, hc⟩ := hc
    simp only [hc, orFault_some, ok_bind]
    rw [if_neg (by have := hd _ rfl; omega)]
    have g := h.wf
    have hsz : (e.push (.int v)).hp.size = e.hp.size + 1 := Hp.size_push _ _
    have hview : (e.push (.int v)).hp.at? pre = HV.upd (e.hp.at? pre) e.hp.size (.int v) := Hp.at_push _ _ _
    have hd1 : (e.push (.int v)).hp.at? pre x = some (.ref x k) := by rw [hview, upd_old hlt, hc]
    rw [Hp.bind_eq hd1]
    have hw := Hp.at_write pre (e.push (.int v)).hp x (.ref ((e.push (.int v)).hp.size - 1) k) (by rw [hsz]; omega)
    refine ⟨_, rfl, h.run, by simp [hsz], ?_, ?_⟩
    · show Reads (Hp.at? pre (Hp.write ..)) a (.int v)
      refine Reads.bound (H := e.hp.at? pre) (x := x) (k := k) ?_ ?_ hc ha
      · intro y c hy hyx
        rw [hw, HV.upd_ne _ _ hyx, hview, upd_old (g.lt hy), hy]
      · refine .ref (b := e.hp.size) (v := k) ?_ (by omega) (.int ?_)
        · rw [hw, HV.upd_same, hsz, Nat.add_sub_cancel]
        · rw [hw, HV.upd_ne _ _ (by omega), hview, HV.upd_same]
    · intro y hy hyx
      show Hp.at? pre (Hp.write ..) y = _
      rw [hw, HV.upd_ne _ _ hyx, hview, upd_old hy]

/-- **C14.** If the right-hand side of `is` is an expression over `+`, `-`, `*`, `//` whose value and all
intermediate values fit in 32 bits, without division by zero, the left-hand side is compared with, respectively
becomes, exactly that value, although it is computed with `double`s.  (`a` and `b` are what the
two arguments point to, `s` and `t` the terms there; the recursion depth of the evaluation is that of the expression.) -/
theorem C14_is_exact {st : Storage} {pre fuel e l r a b t v s} (h : TwoArgs st pre e l r a b)
    (hb : Reads (e.hp.at? pre) b t) (hv : t.Value (fun _ _ _ => False) v) (hf : t.depth < fuel)
    (ha : Reads (e.hp.at? pre) a s) (hd : ∀ d, s = .var d → d < e.hp.start) :
    ∃ e', stepData pre fuel st (.builtin .is l r) e = .ok e' ∧ IsDone pre e a s v e' :=
  isPred_value h hb (hv.mono fun _ _ _ h => h.elim) hf ha hd

/-! ## Powers -/

theorem roundNat_float {m k : Nat} (hm : m < 2 ^ 24) : roundNat 24 (m * 2 ^ k) = m * 2 ^ k := by
  unfold roundNat
  split
  · rfl
  · rename_i h
    have h0 : m * 2 ^ k ≠ 0 := by
      intro h'; rw [h'] at h; simp at h
    have h1 : Nat.log2 (m * 2 ^ k) < 24 + k := by
      rw [Nat.log2_lt h0, Nat.pow_add]
      exact Nat.mul_lt_mul_of_pos_right hm (Nat.two_pow_pos k)
    generalize hE : Nat.log2 (m * 2 ^ k) + 1 - 24 = E
    have hk : k = (k - E) + E := by omega
    have : m * 2 ^ k = m * 2 ^ (k - E) * 2 ^ E := by
      conv => lhs; rw [hk, Nat.pow_add, ← Nat.mul_assoc]
    simp only
    rw [this]
    generalize m * 2 ^ (k - E) = q
    have hp := Nat.two_pow_pos E
    unfold roundDiv
    simp only [Nat.mul_mod_left, Nat.mul_div_cancel _ hp]
    rw [if_pos (by omega)]

theorem roundInt_float {z : Int} (h : Float24 z) : roundInt 24 z = z := by
  obtain ⟨m, k, h1, h2⟩ := h
  unfold roundInt
  rw [h1, roundNat_float h2, ← h1]
  split <;> omega

theorem float24_small {z : Int} (h : z.natAbs ≤ 2 ^ 24) : Float24 z := by
  by_cases h' : z.natAbs < 2 ^ 24
  · exact ⟨z.natAbs, 0, by simp, h'⟩
  · exact ⟨1, 24, by omega, by omega⟩

theorem int_one_pow (n : Nat) : (1 : Int) ^ n = 1 := by
  induction n with
  | zero => rfl
  | succ n ih => rw [Int.pow_succ, ih]; rfl

theorem natAbs_pow_ge {b : Int} (hb : 2 ≤ b.natAbs) (n : Nat) : 2 ^ n ≤ (b ^ n).natAbs := by
  rw [Int.natAbs_pow]
  exact Nat.pow_le_pow_left hb n

/-- For these powers `std::pow` on `float`s is exact. -/
theorem FloatPow.machine {b e v : Int} (h : FloatPow b e v) : powInt b e = .ok v := by
  obtain ⟨n, rfl, rfl, hi, hf, h1⟩ := h
  by_cases hn : n = 0
  · subst hn
    have : roundInt 24 ((0 : Nat) : Int) = 0 := by decide +kernel
    unfold powInt
    simp only [this]
    simp only [Int.pow_zero]
    have : toInt32 (roundInt 24 ((roundInt 24 b) ^ (0 : Int).toNat)) = .ok 1 := by
      have : (roundInt 24 b) ^ (0 : Int).toNat = 1 := by simp
      rw [this]; decide +kernel
    rw [this]
    simp
  · have hpos : 0 < roundNat 24 n := by
      by_cases h : n < 2 ^ 24
      · rw [roundNat_small h]; omega
      · have := roundNat_big (p := 24) (a := n) (by omega) (by omega)
        omega
    have he' : roundInt 24 (n : Int) = (roundNat 24 n : Int) := by
      unfold roundInt; rw [if_pos (by omega)]; simp
    by_cases hb : 2 ≤ b.natAbs
    · have h2 := natAbs_pow_ge hb n
      have hn31 : n ≤ 31 := by
        refine Decidable.byContradiction fun h => ?_
        have : 2 ^ 32 ≤ 2 ^ n := Nat.pow_le_pow_right (by omega) (by omega)
        unfold Int32 at hi
        omega
      have hnn : roundInt 24 (n : Int) = n := roundInt_float (float24_small (by simp; omega))
      have hbb : roundInt 24 b = b := by
        by_cases hn1 : n = 1
        · subst hn1; rw [Int.pow_one] at hf; exact roundInt_float hf
        · have : b.natAbs * b.natAbs ≤ (b ^ n).natAbs := by
            rw [Int.natAbs_pow, ← Nat.pow_two]
            exact Nat.pow_le_pow_right (by omega) (by omega)
          refine roundInt_float (float24_small ?_)
          refine Decidable.byContradiction fun h => ?_
          have h3 : (2 ^ 24) * (2 ^ 24) ≤ b.natAbs * b.natAbs := Nat.mul_le_mul (by omega) (by omega)
          unfold Int32 at hi
          omega
      unfold powInt
      simp only [hnn, hbb]
      rw [if_pos (by omega), if_neg (by omega), if_neg (by omega), if_neg (by omega), if_neg (by omega)]
      rw [Int.toNat_natCast, roundInt_float hf]
      exact toInt32_ok.2 ⟨rfl, hi⟩
    · have hbb : roundInt 24 b = b := roundInt_float (float24_small (by omega))
      unfold powInt
      simp only [he', hbb]
      rw [if_pos (by omega)]
      have : b = 0 ∨ b = 1 ∨ b = -1 := by omega
      rcases this with rfl | rfl | rfl
      · simp [Int.zero_pow hn]; omega
      · simp [int_one_pow]
      · have hnn : roundNat 24 n = n := by
          have := roundInt_float (float24_small (z := (n : Int)) (by have := h1 rfl; omega))
          omega
        rw [hnn]
        simp only [show ¬ ((-1 : Int) = 0) by decide, show ¬ ((-1 : Int) = 1) by decide, if_false, if_true]
        congr 1
        split
        · rename_i h
          obtain ⟨k, rfl⟩ : ∃ k, n = 2 * k := ⟨n / 2, by omega⟩
          rw [Int.pow_mul]; simp [int_one_pow]
        · rename_i h
          obtain ⟨k, rfl⟩ : ∃ k, n = 2 * k + 1 := ⟨n / 2, by omega⟩
          rw [Int.pow_succ, Int.pow_mul]; simp [int_one_pow]

/-- **C16, restricted.** `X is B^E` is exact if the power is an `int` that a `float` can represent, in particular if it is at
most 2^24.  For other powers it is not: `C16_pow_wrong`. -/
theorem C16_pow_exact_partial {st : Storage} {pre fuel e l r a b t v s} (h : TwoArgs st pre e l r a b)
    (hb : Reads (e.hp.at? pre) b t) (hv : t.Value FloatPow v) (hf : t.depth < fuel)
    (ha : Reads (e.hp.at? pre) a s) (hd : ∀ d, s = .var d → d < e.hp.start) :
    ∃ e', stepData pre fuel st (.builtin .is l r) e = .ok e' ∧ IsDone pre e a s v e' :=
  isPred_value h hb (hv.mono fun _ _ _ h => h.machine) hf ha hd

/-- **C16 is false in general**: `X is 3^16` gives 43046720 instead of 43046721. -/
theorem C16_pow_wrong : (demo [] [.fn n!"is" [.var n!"X", .efn n!"^" [.int 3, .int 16]]]).reportsOf 20 20 =
    some [.answer [⟨n!"X", n!"43046720"⟩]] ∧ (3 : Int) ^ 16 = 43046721 ∧ Int32 43046721 := by
  refine ⟨by decide +kernel, by decide, by unfold Int32; omega⟩

/-! ## Errors -/

/-- The expression has a bad operand somewhere; the kind of the error that belongs to it. -/
inductive OTerm.Bad : OTerm → ErrKind → Prop
  | var {a} : Bad (.var a) .notInstantiated
  | cons {i} : Bad (.cons i) .notArithmetic
  | fn {f ts} : Bad (.fn f ts) .notArithmetic
  | left {f l r k} : Bad l k → Bad (.efn f [l, r]) k
  | right {f l r k} : Bad r k → Bad (.efn f [l, r]) k
  | zero {l r} : r.Value MachinePow 0 → Bad (.efn 4 [l, r]) .divByZero

/-- The same, if the operands are looked at from left to right and the looking ends with the first bad one. -/
inductive OTerm.First : OTerm → ErrKind → Prop
  | var {a} : First (.var a) .notInstantiated
  | cons {i} : First (.cons i) .notArithmetic
  | fn {f ts} : First (.fn f ts) .notArithmetic
  | left {f l r k} : First l k → First (.efn f [l, r]) k
  | right {f l r v k} : l.Value MachinePow v → First r k → First (.efn f [l, r]) k
  | zero {l r v} : l.Value MachinePow v → r.Value MachinePow 0 → First (.efn 4 [l, r]) .divByZero

theorem OTerm.Bad.no_value {t k} (h : Bad t k) : ∀ {v}, ¬ Value MachinePow t v := by
  induction h with
  | var => intro v h; cases h
  | cons => intro v h; cases h
  | fn => intro v h; cases h
  | left _ ih => intro v h; cases h <;> exact ih (by assumption)
  | right _ ih => intro v h; cases h <;> exact ih (by assumption)
  | zero h0 => intro v h; cases h with | div _ h1 h2 => exact h2 (h1.det h0)

theorem OTerm.First.bad {t k} (h : First t k) : Bad t k := by
  induction h with
  | var => exact .var
  | cons => exact .cons
  | fn => exact .fn
  | left _ ih => exact .left ih
  | right _ _ ih => exact .right ih
  | zero _ h => exact .zero h

section
variable {st : Storage} {pre : Nat → Option Cell} {h : Hp}

theorem arithOp_value {f : Nat} {x y v : Int} {l r : OTerm} (h : arithOp f x y = .ok v) (hl : l.Value MachinePow x)
    (hr : r.Value MachinePow y) (h0 : ¬ (f = 4 ∧ y = 0)) : (OTerm.efn f [l, r]).Value MachinePow v := by
  have ha := hl.int32
  match f, h, h0 with
  | 0, h, _ => exact .pow hl hr h
  | 1, h, _ => obtain ⟨rfl, q⟩ := toInt32_round h; exact .add hl hr q
  | 2, h, _ => obtain ⟨rfl, q⟩ := toInt32_round h; exact .sub hl hr q
  | 3, h, _ => obtain ⟨rfl, q⟩ := toInt32_round h; exact .mul hl hr q
  | 4, h, h0 =>
    have hy : y ≠ 0 := fun e => h0 ⟨rfl, e⟩
    change toInt32 (divInt x y) = .ok v at h
    rw [divInt_eq hy (by unfold Int32 at ha; omega), toInt32_ok] at h
    obtain ⟨rfl, q⟩ := h
    exact .div hl hr hy q
  | n + 5, h, _ => cases h

theorem evalArith_result (g : WF st pre h) : ∀ n {a t r}, a < h.size → Reads (h.at? pre) a t →
    evalArith pre st h n a = .ok r → match r with
      | .inl err => t.Bad err.kind
      | .inr v => t.Value MachinePow v := by
  intro n
  induction n with
  | zero => intro a t r _ _ h; cases h
  | succ n ih =>
    intro a t r ha hR hr
    obtain ⟨d, t1, hlt, _, hc⟩ := Reads.node g ha hR
    have hgen : ∀ c, h.at? pre d = some c → (∃ f k, c = .efn f k) ∨ (∃ v, c = .int v) ∨
        (checkEvaluable pre st h c >>= fun err => match err with
          | some e => pure (.inl e)
          | none => .error .memory) = .ok r := by
      intro c hcc
      obtain ⟨d', e1, t2⟩ := deref_ok g ha
      cases t2.det t1
      rw [evalArith] at hr
      simp only [e1, hcc, orFault_some, ok_bind] at hr
      cases c with
      | efn f k => exact .inl ⟨f, k, rfl⟩
      | int v => exact .inr (.inl ⟨v, rfl⟩)
      | _ => exact .inr (.inr hr)
    cases t with
    | var x =>
      obtain ⟨rfl, v, hc⟩ := hc
      rcases hgen _ hc with ⟨_, _, h'⟩ | ⟨_, h'⟩ | h'
      · cases h'
      · cases h'
      · simp only [checkEvaluable, bind_ok, pure_ok] at h'
        obtain ⟨_, ⟨_, _, rfl⟩, h'⟩ := h'
        simp only [pure_ok] at h'
        subst h'
        exact .var
    | cons i =>
      rcases hgen _ hc with ⟨_, _, h'⟩ | ⟨_, h'⟩ | h'
      · cases h'
      · cases h'
      · simp only [checkEvaluable, bind_ok, pure_ok] at h'
        obtain ⟨_, ⟨_, _, rfl⟩, h'⟩ := h'
        simp only [pure_ok] at h'
        subst h'
        exact .cons
    | fn f ts =>
      rcases hgen _ hc with ⟨_, _, h'⟩ | ⟨_, h'⟩ | h'
      · cases h'
      · cases h'
      · simp only [checkEvaluable, bind_ok, pure_ok] at h'
        obtain ⟨_, ⟨_, _, rfl⟩, h'⟩ := h'
        simp only [pure_ok] at h'
        subst h'
        exact .fn
    | int v =>
      rw [evalArith_int g ha t1 hc] at hr
      cases hr
      exact .int (g.valid _ _ hc)
    | efn f ts =>
      obtain ⟨hc, l, r', rfl, h2, hl', hr'⟩ := hc
      rw [evalArith_efn g ha t1 hc, bind_ok] at hr
      obtain ⟨x, hx, hr⟩ := hr
      have ix := ih (by omega) hl' hx
      cases x with
      | inl err => simp only [pure_ok] at hr; subst hr; exact .left ix
      | inr x =>
        simp only [bind_ok] at hr
        obtain ⟨y, hy, hr⟩ := hr
        have iy := ih (by omega) hr' hy
        cases y with
        | inl err => simp only [pure_ok] at hr; subst hr; exact .right iy
        | inr y =>
          simp only at hr
          split at hr
          · rename_i h0
            obtain ⟨rfl, rfl⟩ := h0
            simp only [pure_ok] at hr; subst hr; exact .zero iy
          · rename_i h0
            simp only [bind_ok, pure_ok] at hr
            obtain ⟨v, hv, rfl⟩ := hr
            exact arithOp_value hv ix iy h0

theorem evalArith_first (g : WF st pre h) (hv : st.vars.length ≤ 32768) {t k} (hb : OTerm.First t k) (hk : k ≠ .notArithmetic) :
    ∀ n {a}, a < h.size → Reads (h.at? pre) a t → t.depth < n →
    ∃ err, evalArith pre st h n a = .ok (.inl err) ∧ err.kind = k := by
  induction hb with
  | cons => exact absurd rfl hk
  | fn => exact absurd rfl hk
  | @var x =>
    intro n a ha hR hd
    obtain ⟨d, t1, hlt, _, rfl, v, hc⟩ := Reads.node g ha hR
    cases n with
    | zero => omega
    | succ n =>
      obtain ⟨d', e1, t2⟩ := deref_ok g ha
      cases t2.det t1
      rw [evalArith]
      obtain ⟨j, hj, rfl⟩ := g.valid _ _ hc
      obtain ⟨nm, hnm⟩ : ∃ nm, st.varAt (toShort j) = some nm := by
        have : toShort j = j := toShort_small (by omega)
        exact ⟨_, by simp [Storage.varAt, this, List.getElem?_eq_getElem hj]; rfl⟩
      simp only [e1, hc, orFault_some, ok_bind, checkEvaluable, hnm]
      exact ⟨_, rfl, rfl⟩
  | @left f l r k _ ih =>
    intro n a ha hR hd
    obtain ⟨d, t1, hlt, _, hc, l', r', e, h2, hl', hr'⟩ := Reads.node g ha hR
    cases e
    have d1 := OTerm.depth_le (ts := [l, r]) (i := 0) (t := l) rfl
    simp only [OTerm.depth] at hd
    cases n with
    | zero => omega
    | succ n =>
      rw [evalArith_efn g ha t1 hc]
      obtain ⟨err, h3, h4⟩ := ih hk n (by omega) hl' (by omega)
      rw [h3]
      exact ⟨err, rfl, h4⟩
  | @right f l r v k hl _ ih =>
    intro n a ha hR hd
    obtain ⟨d, t1, hlt, _, hc, l', r', e, h2, hl', hr'⟩ := Reads.node g ha hR
    cases e
    have d1 := OTerm.depth_le (ts := [l, r]) (i := 0) (t := l) rfl
    have d2 := OTerm.depth_le (ts := [l, r]) (i := 1) (t := r) rfl
    simp only [OTerm.depth] at hd
    cases n with
    | zero => omega
    | succ n =>
      rw [evalArith_efn g ha t1 hc, evalArith_value g hl n (by omega) hl' (by omega)]
      obtain ⟨err, h3, h4⟩ := ih hk n (by omega) hr' (by omega)
      simp only [ok_bind, h3]
      exact ⟨err, rfl, h4⟩
  | @zero l r v hl hr =>
    intro n a ha hR hd
    obtain ⟨d, t1, hlt, _, hc, l', r', e, h2, hl', hr'⟩ := Reads.node g ha hR
    cases e
    have d1 := OTerm.depth_le (ts := [l, r]) (i := 0) (t := l) rfl
    have d2 := OTerm.depth_le (ts := [l, r]) (i := 1) (t := r) rfl
    simp only [OTerm.depth] at hd
    cases n with
    | zero => omega
    | succ n =>
      rw [evalArith_efn g ha t1 hc, evalArith_value g hl n (by omega) hl' (by omega)]
      simp only [ok_bind, evalArith_value g hr n (by omega) hr' (by omega)]
      exact ⟨_, rfl, rfl⟩

end

/-- **C15 (part that holds).** Whenever the evaluation of the right-hand side of `is` ends, it ends with an error if
there is a bad operand, and the error is of a kind that belongs to one of the bad operands; and it ends
with a value, the one of mathematics, if there is none (`Value` and `Bad` exclude each other).  It does end, with the kind of the leftmost bad
operand, for unbound variables and divisions by zero.
Missing: for constants and other functors it may have undefined behaviour (`C34_is_message`), and the message names the wrong
functor (`C15_message_wrong`); values beyond 32 bits are undefined behaviour; powers are those of the machine (C16). -/
theorem C15_error_kinds_partial {st : Storage} {pre fuel e l r a b t} (h : TwoArgs st pre e l r a b)
    (hb : Reads (e.hp.at? pre) b t) :
    (∀ e', stepData pre fuel st (.builtin .is l r) e = .ok e' →
      (∃ err, e' = { e with state := .rtErr, err := some err } ∧ t.Bad err.kind ∧ ∀ v, ¬ t.Value MachinePow v) ∨
      (e'.state ≠ .rtErr ∧ (∃ v, t.Value MachinePow v) ∧ ∀ k, ¬ t.Bad k)) ∧
    (∀ k, t.First k → k ≠ .notArithmetic → st.vars.length ≤ 32768 → t.depth < fuel →
      ∃ err, err.kind = k ∧
        stepData pre fuel st (.builtin .is l r) e = .ok { e with state := .rtErr, err := some err }) := by
  obtain ⟨c1, h1, h2⟩ := h.getL
  obtain ⟨c2, h3, h4⟩ := h.getR
  constructor
  · intro e' he
    change isPred pre fuel st l r e = .ok e' at he
    unfold isPred at he
    simp only [h3, h4, ok_bind, bind_ok] at he
    obtain ⟨v, hv, he⟩ := he
    have hR := evalArith_result h.wf fuel h.lb hb hv
    cases v with
    | inl err =>
      simp only [pure_ok] at he
      exact .inl ⟨err, he.symm, hR, fun v => hR.no_value⟩
    | inr v =>
      refine .inr ⟨?_, ⟨v, hR⟩, fun k hk => hk.no_value hR⟩
      simp only [bind_ok] at he
      obtain ⟨_, _, _, _, d, _, cell, _, he⟩ := he
      have hrun := h.run
      cases cell with
      | int w =>
        simp only [pure_ok] at he; subst he
        split
        · simp [hrun]
        · simp [Exec.setFailed]
      | ref x k =>
        simp only at he
        split at he
        · cases he
        · simp only [bind_ok, pure_ok] at he
          obtain ⟨hp, _, rfl⟩ := he
          simp [Exec.push, hrun]
      | _ => simp only [pure_ok] at he; subst he; simp [Exec.setFailed]
  · intro k hk hka hvars hd
    obtain ⟨err, h5, h6⟩ := evalArith_first h.wf hvars hk hka fuel h.lb hb hd
    refine ⟨err, h6, ?_⟩
    show isPred pre fuel st l r e = _
    unfold isPred
    simp only [h3, h4, ok_bind, h5]
    rfl

/-- **C15 is false in general**: the message of `p(f(b,c,d,e,e,e,e)), X is a` says that `e/0` (instead of `a/0`) is
not arithmetic. -/
theorem C15_message_wrong :
    (demo [⟨.fn n!"p" [.var n!"X"], []⟩]
      [.fn n!"p" [.fn n!"f" [.cons n!"b", .cons n!"c", .cons n!"d", .cons n!"e", .cons n!"e", .cons n!"e", .cons n!"e"]],
       .fn n!"is" [.var n!"X", .cons n!"a"]]).reportsOf 20 20 = some [.error ⟨.notArithmetic, n!"e/0"⟩] := by
  decide +kernel

namespace BuiltinExamples

/-- Constants `a`, a functor `g/1`, a variable `X`. -/
def st : Storage := ⟨[⟨n!"a", 0⟩, ⟨n!"g", 1⟩], [n!"X", n!"Y"]⟩

/-- `X` at 0, `7 - 2 * 3` at 1, `7 // 0` at 7, `g(X)` at 10 and at 12, `7 - Y` at 14, `3 ^ 2` at 17. -/
def cells : List Cell :=
  [.ref 0 0, .efn 2 2, .int 7, .str 4, .efn 3 2, .int 2, .int 3, .efn 4 2, .int 7, .int 0,
   .fn 1 1, .ref 0 0, .fn 1 1, .ref 0 0, .efn 2 2, .int 7, .ref 16 1, .efn 0 2, .int 3, .int 2]

/-- All cells belong to the parent. -/
def heap : Hp := ⟨20, (List.range 20).zip cells, []⟩

theorem heap_view : heap.at? (fun _ => none) = Hp.at? (fun _ => none) ⟨0, [], cells⟩ := by
  funext a
  by_cases h : a < 20
  · have : ∀ a, a < 20 → heap.at? (fun _ => none) a = Hp.at? (fun _ => none) ⟨0, [], cells⟩ a := by decide
    exact this a h
  · simp [Hp.at?, heap, cells, h]

def exec : Exec := { Org.initExec [] with hp := heap, regs := [.str 0, .str 1, .str 7, .str 10, .str 12, .str 14, .str 17] }

theorem args (l r a b : Nat) (ha : a < 20) (hb : b < 20) (h1 : ((exec.regs[l]?).bind Cell.ptr) = some a)
    (h2 : ((exec.regs[r]?).bind Cell.ptr) = some b) : TwoArgs st (fun _ => none) exec l r a b where
  wf := by
    have : WF st (fun _ => none) ⟨0, [], cells⟩ := good_of_check (by decide)
    unfold WF at this ⊢
    show Good _ (heap.at? _) 20 20
    rw [heap_view]
    exact this
  left := by
    cases h : exec.regs[l]? with
    | none => rw [h] at h1; cases h1
    | some c => rw [h] at h1; exact ⟨c, rfl, h1⟩
  right := by
    cases h : exec.regs[r]? with
    | none => rw [h] at h2; cases h2
    | some c => rw [h] at h2; exact ⟨c, rfl, h2⟩
  la := ha
  lb := hb
  run := rfl

abbrev H : HV := heap.at? fun _ => none

theorem reads_gX (a : Nat) (h0 : H a = some (.fn 1 1)) (h1 : H (a + 1) = some (.ref 0 0)) (ha : 0 ≠ a + 1) :
    Reads H a (.fn 1 [.var 0]) := by
  refine .fn h0 rfl ?_
  intro i t ht
  match i with
  | 0 => cases ht; exact .ref h1 ha (.var (v := 0) rfl)
  | i + 1 => simp at ht

theorem reads_efn {a f l r} (h0 : H a = some (.efn f 2)) (h1 : Reads H (a + 1) l) (h2 : Reads H (a + 2) r) :
    Reads H a (.efn f [l, r]) := by
  refine .efn h0 rfl ?_
  intro i t ht
  match i with
  | 0 => cases ht; exact h1
  | 1 => cases ht; exact h2
  | i + 2 => simp at ht

/-- C12 and C13: `g(X) == g(X)`, two different copies, succeeds. -/
example : TwoArgs st (fun _ => none) exec 3 4 10 12 ∧ Reads H 10 (.fn 1 [.var 0]) ∧ Reads H 12 (.fn 1 [.var 0]) ∧
    stepData (fun _ => none) 5 st (.builtin .eq 3 4) exec = .ok exec ∧
    stepData (fun _ => none) 5 st (.builtin .neq 3 4) exec = .ok exec.setFailed :=
  ⟨args 3 4 10 12 (by omega) (by omega) rfl rfl, reads_gX 10 rfl rfl (by omega), reads_gX 12 rfl rfl (by omega), rfl, rfl⟩

/-- C14: `X is 7 - 2 * 3` makes `X` 1. -/
example : TwoArgs st (fun _ => none) exec 0 1 0 1 ∧ Reads H 0 (.var 0) ∧
    Reads H 1 (.efn 2 [.int 7, .efn 3 [.int 2, .int 3]]) ∧
    OTerm.Value (fun _ _ _ => False) (.efn 2 [.int 7, .efn 3 [.int 2, .int 3]]) 1 ∧ 0 < exec.hp.start := by
  refine ⟨args 0 1 0 1 (by omega) (by omega) rfl rfl, .var (v := 0) rfl, ?_, ?_, by decide⟩
  · exact reads_efn rfl (.int rfl) (.str (b := 4) rfl (reads_efn rfl (.int rfl) (.int rfl)))
  · have i32 : ∀ v : Int, -10 ≤ v → v ≤ 10 → Int32 v := fun v _ _ => ⟨by omega, by omega⟩
    exact .sub (x := 7) (y := 6) (.int (i32 _ (by omega) (by omega)))
      (.mul (x := 2) (y := 3) (.int (i32 _ (by omega) (by omega))) (.int (i32 _ (by omega) (by omega))) (i32 _ (by omega) (by omega)))
      (i32 _ (by omega) (by omega))

/-- C15: `7 // 0` and `7 - Y`. -/
example : TwoArgs st (fun _ => none) exec 0 2 0 7 ∧ Reads H 7 (.efn 4 [.int 7, .int 0]) ∧ OTerm.First (.efn 4 [.int 7, .int 0]) .divByZero ∧
    TwoArgs st (fun _ => none) exec 0 5 0 14 ∧ Reads H 14 (.efn 2 [.int 7, .var 16]) ∧ OTerm.First (.efn 2 [.int 7, .var 16]) .notInstantiated := by
  refine ⟨args 0 2 0 7 (by omega) (by omega) rfl rfl, reads_efn rfl (.int rfl) (.int rfl), ?_,
    args 0 5 0 14 (by omega) (by omega) rfl rfl, reads_efn rfl (.int rfl) (.var (v := 1) rfl), ?_⟩
  · exact .zero (.int (by unfold Int32; omega)) (.int (by unfold Int32; omega))
  · exact .right (.int (by unfold Int32; omega)) .var

/-- C16: `X is 3 ^ 2`; larger powers with few bits are fine as well. -/
example : TwoArgs st (fun _ => none) exec 0 6 0 17 ∧ Reads H 17 (.efn 0 [.int 3, .int 2]) ∧
    OTerm.Value FloatPow (.efn 0 [.int 3, .int 2]) 9 ∧ FloatPow 6 11 362797056 := by
  refine ⟨args 0 6 0 17 (by omega) (by omega) rfl rfl, reads_efn rfl (.int rfl) (.int rfl), ?_, ?_⟩
  · exact .pow (.int (by unfold Int32; omega)) (.int (by unfold Int32; omega))
      ⟨2, rfl, rfl, by unfold Int32; omega, ⟨9, 0, rfl, by decide⟩, by omega⟩
  · exact ⟨11, rfl, rfl, by unfold Int32; omega, ⟨177147, 11, rfl, by decide⟩, by omega⟩

end BuiltinExamples
end PBfs
