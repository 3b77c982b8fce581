import Verif.Spec.Undefined
import Verif.Proof.Resolution
/-! # What goes wrong in a call of `is` -/
namespace PBfs

theorem toInt32_error {z : Int} {x} (h : toInt32 z = .error x) : x = .overflow ∧ (z < -2147483648 ∨ 2147483647 < z) := by
  unfold toInt32 at h
  split at h
  · cases h
  · cases h; exact ⟨rfl, by omega⟩

theorem toInt32_round_error {z : Int} {x} (h : toInt32 (roundInt 53 z) = .error x) : x = .overflow ∧ (z < -2147483648 ∨ 2147483647 < z) := by
  obtain ⟨h1, h2⟩ := toInt32_error h
  refine ⟨h1, ?_⟩
  by_cases hs : z.natAbs < 2 ^ 53
  · rwa [roundInt_small hs] at h2
  · have : (2:Nat) ^ 53 = 9007199254740992 := by decide
    omega

theorem powInt_error {a b : Int} {x} (h : powInt a b = .error x) : x = .overflow := by
  unfold powInt at h
  simp only at h
  repeat' split at h
  all_goals first
    | exact (toInt32_error h).1
    | (cases h; rfl)
    | cases h

theorem arithOp_error {f a b x} (h : arithOp f a b = .error x) (ha : Int32 a) (hf : f < arithNames.length) (h0 : f = 4 → b ≠ 0) :
    x = .overflow ∧ ∀ v, ArithSpec (arithNames.getD f []) a b v → v < -2147483648 ∨ 2147483647 < v := by
  have hlen : arithNames.length = 5 := rfl
  unfold arithOp at h
  split at h
  · refine ⟨powInt_error h, fun v hv => ?_⟩
    generalize hn : arithNames.getD 0 [] = n at hv
    cases hv <;> try cases hn
    rename_i hv
    rw [h] at hv; cases hv
  · obtain ⟨h1, h2⟩ := toInt32_round_error h
    refine ⟨h1, fun v hv => ?_⟩
    generalize hn : arithNames.getD 1 [] = n at hv
    cases hv <;> try cases hn
    exact h2
  · obtain ⟨h1, h2⟩ := toInt32_round_error h
    refine ⟨h1, fun v hv => ?_⟩
    generalize hn : arithNames.getD 2 [] = n at hv
    cases hv <;> try cases hn
    exact h2
  · obtain ⟨h1, h2⟩ := toInt32_round_error h
    refine ⟨h1, fun v hv => ?_⟩
    generalize hn : arithNames.getD 3 [] = n at hv
    cases hv <;> try cases hn
    exact h2
  · rw [divInt_eq (h0 rfl) (by unfold Int32 at ha; omega)] at h
    obtain ⟨h1, h2⟩ := toInt32_error h
    refine ⟨h1, fun v hv => ?_⟩
    generalize hn : arithNames.getD 4 [] = n at hv
    cases hv <;> try cases hn
    exact h2
  · rename_i h5
    exfalso
    match f, hf with
    | 0, _ => contradiction
    | 1, _ => contradiction
    | 2, _ => contradiction
    | 3, _ => contradiction
    | 4, _ => contradiction
    | n + 5, h => omega

theorem orFault_error {α} {x : Option α} {f} (h : orFault x = .error f) : f = .memory ∧ x = none := by
  cases x with
  | none => simp [orFault] at h; exact ⟨h.symm, rfl⟩
  | some a => simp [orFault] at h

theorem error_of_bind {α β} {x : R α} {f : α → R β} {e} (h : (x >>= f) = .error e) : x = .error e ∨ ∃ a, x = .ok a ∧ f a = .error e := by
  cases x with
  | error e' => rw [error_bind] at h; cases h; exact .inl rfl
  | ok a => exact .inr ⟨a, rfl, h⟩

theorem functorOfAddr_error {pre st h i x} (e : functorOfAddr pre st h i = .error x) : x = .memory := by
  unfold functorOfAddr at e
  rcases error_of_bind e with e | ⟨_, _, e⟩
  · exact (orFault_error e).1
  · exact (orFault_error e).1

/-- An evaluation that goes wrong. -/
theorem evalArith_fault {st : Storage} (hpr : Printable st) {I : Int → FV} {pre} {h : Hp} (g : Good (ValidCell st) (h.at? pre) h.size h.size) :
    ∀ n {a x}, a < h.size → evalArith pre st h n a = .error x →
      x = .hang ∨ ∀ σ : Nat → ITree, Mod (toIAlg itreeAlg I) (h.at? pre) σ → Undefined x (σ a) := by
  intro n
  induction n with
  | zero => intro a x _ h; cases h; exact .inl rfl
  | succ n ih =>
    intro a x ha hr
    obtain ⟨d, e1, t1⟩ := deref_ok g ha
    obtain ⟨c, hc⟩ := g.get (t1.lt g)
    rw [evalArith] at hr
    simp only [e1, hc, orFault_some, ok_bind] at hr
    cases c with
    | int w => simp [checkEvaluable, pure, Except.pure, bind, Except.bind] at hr
    | str b =>
      rcases t1.end_cell.2 with ⟨w, hw⟩ | ⟨c, hw, hp⟩
      · rw [hc] at hw; cases hw
      · rw [hc] at hw; cases hw; cases hp
    | ref b k =>
      simp only [checkEvaluable] at hr
      rcases error_of_bind hr with hr | ⟨_, _, hr⟩
      · rcases error_of_bind hr with hr | ⟨_, _, hr⟩
        · obtain ⟨_, hn⟩ := orFault_error hr
          obtain ⟨j, hj, rfl⟩ := g.valid _ _ hc
          have := hpr.vars
          rw [toShort_small (by omega)] at hn
          simp [Storage.varAt] at hn
          omega
        · cases hr
      · rename_i h1
        simp only [bind_ok, pure_ok] at h1
        obtain ⟨_, _, rfl⟩ := h1
        cases hr
    | cons i =>
      right
      intro σ m
      simp only [checkEvaluable] at hr
      have hx : x = .memory := by
        rcases error_of_bind hr with hr | ⟨e, he, hr⟩
        · rcases error_of_bind hr with hr | ⟨_, _, hr⟩
          · exact functorOfAddr_error hr
          · cases hr
        · simp only [bind_ok, pure_ok] at he
          obtain ⟨_, _, rfl⟩ := he
          cases hr
      subst hx
      rw [m.deref t1, m _ _ hc]
      exact .message .cons
    | fn i k =>
      right
      intro σ m
      simp only [checkEvaluable] at hr
      have hx : x = .memory := by
        rcases error_of_bind hr with hr | ⟨e, he, hr⟩
        · rcases error_of_bind hr with hr | ⟨_, _, hr⟩
          · exact functorOfAddr_error hr
          · cases hr
        · simp only [bind_ok, pure_ok] at he
          obtain ⟨_, _, rfl⟩ := he
          cases hr
      subst hx
      rw [m.deref t1, m _ _ hc]
      exact .message .fn
    | efn f k =>
      obtain ⟨hf, rfl⟩ := g.valid _ _ hc
      have hl := g.efnArgs _ _ _ hc
      have hd : ∀ {σ : Nat → ITree}, Mod (toIAlg itreeAlg I) (h.at? pre) σ → σ a = itreeAlg.efn (arithNames.getD f []) [σ (d + 1), σ (d + 2)] := by
        intro σ m
        rw [m.deref t1]
        exact m _ _ hc
      simp only [checkEvaluable, pure_bind] at hr
      rcases error_of_bind hr with hr | ⟨l, hl1, hr⟩
      · rcases ih (a := d + 1) (by omega) hr with h1 | h1
        · exact .inl h1
        · refine .inr fun σ m => ?_
          rw [hd m]
          cases h1 σ m with
          | overflow h => exact .overflow (.left h)
          | message h => exact .message (.left h)
      · cases l with
        | inl e => cases hr
        | inr l =>
          have lv := evalArith_spec (I := I) g n (a := d + 1) (by omega) hl1
          rcases error_of_bind hr with hr | ⟨r, hr1, hr⟩
          · rcases ih (a := d + 2) (by omega) hr with h1 | h1
            · exact .inl h1
            · refine .inr fun σ m => ?_
              rw [hd m]
              cases h1 σ m with
              | overflow h => exact .overflow (.right (lv.2 _ _ σ m) h)
              | message h => exact .message (.right (lv.2 _ _ σ m) h)
          · cases r with
            | inl e => cases hr
            | inr r =>
              have rv := evalArith_spec (I := I) g n (a := d + 2) (by omega) hr1
              simp only at hr
              split at hr
              · cases hr
              · rename_i h0
                rcases error_of_bind hr with hr | ⟨_, _, hr⟩
                · obtain ⟨rfl, h2⟩ := arithOp_error hr lv.1 hf fun h4 hz => h0 ⟨h4, hz⟩
                  refine .inr fun σ m => ?_
                  rw [hd m]
                  refine .overflow (.op (lv.2 _ _ σ m) (rv.2 _ _ σ m) ?_ ?_ h2)
                  · rw [List.getD_eq_getElem?_getD, List.getElem?_eq_getElem hf]
                    exact List.getElem_mem _
                  · intro hn hz
                    refine h0 ⟨?_, hz⟩
                    clear * - hn hf
                    match f, hf with
                    | 0, _ => cases hn
                    | 1, _ => cases hn
                    | 2, _ => cases hn
                    | 3, _ => cases hn
                    | 4, _ => rfl
                    | n + 5, h => have : arithNames.length = 5 := rfl; omega
                · cases hr

/-- A call of `is` that goes wrong. -/
theorem is_fault {X : Ctx} (hpr : Printable X.st) {pre} {e : Exec} {n : Name} {ps : List Nat} {fs : List Fr} {rest fuel x}
    (C : Callee X.st X.I X.g (e.hp.at? pre) e.hp.size e.regs e.envs rest ⟨n, 2⟩ ps fs) (hrun : e.state = .running) (hf : e.hp.own = [])
    (h : runData pre fuel X.st (builtinData .is) { e with regs := Org.resize 4 e.regs } = .error x) :
    x = .hang ∨ ∃ p0 p1, ps = [p0, p1] ∧ ∀ σ : Nat → ITree, Mod (toIAlg itreeAlg X.I) (e.hp.at? pre) σ → Undefined x (σ p1) := by
  obtain ⟨p0, p1, c0, c1, regs, rfl, h0, h1, b0, b1, g2, g3, eq⟩ := builtin_head (b := .is) (fuel := fuel) C hrun
  unfold builtinData at h
  rw [eq] at h
  have a0 : c0.addr = .ok p0 := by simp [Cell.addr, b0, orFault_some]
  have a1 : c1.addr = .ok p1 := by simp [Cell.addr, b1, orFault_some]
  simp only [stepData, isPred, Exec.reg, g2, g3, orFault_some, ok_bind, a0, a1] at h
  rcases error_of_bind h with h | ⟨v, hv, h⟩
  · rcases evalArith_fault (I := X.I) hpr C.good fuel h1 h with h | h
    · exact .inl h
    · exact .inr ⟨p0, p1, rfl, h⟩
  · cases v with
    | inl err => cases h
    | inr v =>
      exfalso
      obtain ⟨d, e1, t1⟩ := deref_ok C.good h0
      obtain ⟨c, hc⟩ := C.good.get (t1.lt C.good)
      simp only [Exec.deref, e1, Exec.heapAt, hc, orFault_some, ok_bind] at h
      cases c with
      | ref b k =>
        simp only at h
        split at h
        · rename_i hd
          have := t1.lt C.good
          simp only [Hp.size, hf, List.length_nil] at this
          omega
        · simp only [Exec.push] at h
          rcases error_of_bind h with h | ⟨_, _, h⟩
          · rcases t1.end_cell.2 with ⟨w, hw⟩ | ⟨c, hw, hp⟩
            · have hne : d ≠ e.hp.size := by have := t1.lt C.good; omega
              have hw' : (e.hp.push (.int v)).at? pre d = some (.ref d w) := by
                rw [Hp.at_push, HV.upd_ne _ _ hne]; exact hw
              rw [Hp.bind_eq hw'] at h
              cases h
            · rw [hc] at hw; cases hw; cases hp
          · cases h
      | _ => cases h

theorem Final.render_hang {X : Ctx} {pre hp L} (F : Final X (hp.at? pre) hp.size L) (hpr : Printable X.st) {fuel x} {o' : Org}
    (h : (Org.renderSubs (stringRep pre hp X.st L fuel false) L [] >>= fun bs => (.ok (o', .answer bs) : R (Org × Org.Turn))) = .error x) : x = .hang := by
  rcases F.render hpr fuel with h1 | ⟨bs, h1⟩
  · rw [h1] at h; cases h; rfl
  · rw [h1] at h; cases h

/-- A turn that goes wrong. -/
theorem Work.fault {X : Ctx} (ok : X.OK) (hpr : Printable X.st) {o : Org} (w : Work X o) {id q fuel x} {i : SItem} {is : List SItem} (hq : o.queue = id :: q)
    (hs : Queued X o (i :: is)) (ht : o.turn fuel = .error x) :
    x = .hang ∨ ∃ ts S, i = .own ⟨n!"is", 2⟩ ts S ∧ S.Always fun _ e => Undefined x e := by
  unfold Queued at hs
  rw [hq] at hs
  cases hs with
  | cons hat hrest =>
  obtain ⟨e, k, L, hp, hw, hst⟩ := hat
  cases hst with
  | @res b fr fs =>
    cases hc : fr.codes with
    | nil =>
      obtain ⟨rfl, o1, e', fr', fs', h1, _⟩ := step_dealloc (fuel := fuel) w.inv w.gen hq hp hc
      rw [h1] at ht; cases ht
    | cons c cs =>
      obtain ⟨o1, f, ps, fs', L', h1, _⟩ := step_goal (fuel := fuel) ok w.inv w.st w.gen w.prog hq hp hc
      rw [h1] at ht; cases ht
  | @clause f ps fs r cl h1 h2 h3 h4 =>
    rcases step_user (fuel := fuel) w.inv w.st w.gen hq hp h1 h2 h3 with ⟨h, _⟩ | ⟨o', B, _, h⟩
    · rw [h] at ht; cases ht; exact .inl rfl
    · rcases h with ⟨t1, _⟩ | ⟨e', fr', fs', t1, _⟩ | ⟨pre, hp', t1, t2, t3, t4, _⟩
      · rw [t1] at ht; cases ht
      · rw [t1] at ht; cases ht
      · rw [t1] at ht; exact .inl (t4.render_hang hpr ht)
  | @own b ps fs sub src =>
    have hbt := builtin_turn (fuel := fuel) ok w.inv w.st w.gen hq hp
    obtain ⟨hrun, _, rest, hcodes, C⟩ := hp.exec
    cases hr : runData (preOf o.execs e) fuel X.st (builtinData b) { e with regs := Org.resize 4 e.regs } with
    | error y =>
      rw [hr] at hbt
      simp only at hbt
      rw [hbt] at ht; cases ht
      by_cases hb : b = .is
      · subst hb
        rcases is_fault hpr C hrun hp.fresh hr with h | ⟨p0, p1, rfl, h⟩
        · exact .inl h
        · refine .inr ⟨_, _, rfl, ?_, ?_⟩
          · obtain ⟨σ, m, _⟩ := C.good.solve_itree X.I (fun _ => mark 0)
            obtain ⟨ρq, gs, hg⟩ := C.frs.exists_goals itreeAlg σ
            exact ⟨ρq, _, σ p0, σ p1, gs, (insts_own rfl).2 ⟨σ, gs, m, rfl, hg⟩, h σ m⟩
          · intro ρq n d c gs hS
            obtain ⟨σ, gs', m, e1, hg⟩ := (insts_own rfl).1 hS
            cases e1
            exact h σ m
      · rcases builtin_total (fuel := fuel) hb C hrun with h | ⟨e1, h, _⟩
        · rw [builtinData, h] at hr; cases hr; exact .inl rfl
        · rw [builtinData, h] at hr; cases hr
    | ok e1 =>
      rw [hr] at hbt
      obtain ⟨o', B, hc, h⟩ := hbt
      rcases h with ⟨_, h, _⟩ | ⟨err, hs, _, h1, h2, h3⟩ | ⟨e', fr', fs', _, h1, _⟩ | ⟨_, h1, h2, h3, h4, h5, _⟩
      · rw [h] at ht; cases ht
      · rw [h1] at ht; cases ht
      · rw [h1] at ht; cases ht
      · rw [h1] at ht; exact .inl (h4.render_hang hpr ht)

end PBfs
