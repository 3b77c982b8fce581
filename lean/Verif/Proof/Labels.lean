import Verif.Spec.Labels
import Verif.Proof.Tree2
import Verif.Proof.Unambiguous
import Verif.Proof.Listed
import Verif.Proof.Frames3
/-! # What is written at the nodes of the unification tree -/
namespace PBfs
open Org

/-! ## Nodes for terms -/

theorem derefN_stands {st : Storage} {pre : Nat → Option Cell} {h : Hp} : ∀ {n a d x}, derefN pre h n a = .ok d → StandsAt st (h.at? pre) d x → StandsAt st (h.at? pre) a x := by
  intro n
  induction n with
  | zero => intro a d x h; simp [derefN] at h
  | succ n ih =>
    intro a d x hd hs
    unfold derefN at hd
    split at hd
    · cases hd
    · rename_i b v hc
      split at hd
      · cases hd; exact hs
      · rename_i hne
        exact .ref hc hne (ih hd hs)
    · rename_i b hc
      split at hd
      · cases hd; exact hs
      · rename_i hne
        exact .str hc hne (ih hd hs)
    · cases hd; exact hs

theorem derefN_self {pre : Nat → Option Cell} {h : Hp} : ∀ {n a d b v}, derefN pre h n a = .ok d → h.at? pre d = some (.ref b v) → b = d := by
  intro n
  induction n with
  | zero => intro a d b v h; simp [derefN] at h
  | succ n ih =>
    intro a d b v hd hc
    unfold derefN at hd
    split at hd
    · cases hd
    · rename_i b' v' hc'
      split at hd
      · rename_i hb; cases hd; rw [hc'] at hc; cases hc; exact hb
      · exact ih hd hc
    · rename_i b' hc'
      split at hd
      · cases hd; rw [hc'] at hc; cases hc
      · exact ih hd hc
    · rename_i c hn1 hn2 hn3
      cases hd
      exact absurd (by first | exact hc | simp_all) (hn1 b v)

theorem repArgs_spec {rep : Nat → R RNode} {P : Nat → RNode → Prop} (hp : ∀ a n, rep a = .ok n → P a n) : ∀ {k a ns}, repArgs rep a k = .ok ns →
    ns.length = k ∧ ∀ (j : Nat) c, ns[j]? = some c → P (a + j) c := by
  intro k
  induction k with
  | zero => intro a ns h; simp only [repArgs, pure_ok] at h; subst h; simp
  | succ k ih =>
    intro a ns h
    simp only [repArgs, bind_ok, pure_ok] at h
    obtain ⟨n, h1, ms, h2, rfl⟩ := h
    obtain ⟨g1, g2⟩ := ih h2
    refine ⟨by simp [g1], fun j c hc => ?_⟩
    cases j with
    | zero => simp only [List.getElem?_cons_zero, Option.some.injEq] at hc; subst hc; exact hp _ _ h1
    | succ j =>
      simp only [List.getElem?_cons_succ] at hc
      have := g2 j c hc
      rwa [show a + (j + 1) = a + 1 + j by omega]

theorem nodeRep_stands {pre : Nat → Option Cell} {h : Hp} {st : Storage} : ∀ {n a x}, nodeRep pre h st n a = .ok x → StandsAt st (h.at? pre) a x := by
  intro n
  induction n with
  | zero => intro a x h; simp [nodeRep] at h
  | succ n ih =>
    intro a x hx
    simp only [nodeRep, bind_ok, orFault_ok] at hx
    obtain ⟨d, hd, c, hc, hx⟩ := hx
    refine derefN_stands hd ?_
    cases c with
    | ref b v =>
      have := derefN_self hd hc
      subst this
      simp only [bind_ok, orFault_ok, pure_ok] at hx
      obtain ⟨y, hy, rfl⟩ := hx
      exact .var hc hy
    | int v => simp only [pure_ok] at hx; subst hx; exact .int hc
    | cons i =>
      simp only [bind_ok, orFault_ok, pure_ok] at hx
      obtain ⟨f, hf, rfl⟩ := hx
      exact .cons hc hf
    | fn i k =>
      simp only [bind_ok, orFault_ok, pure_ok] at hx
      obtain ⟨f, hf, cs, hcs, rfl⟩ := hx
      obtain ⟨g1, g2⟩ := repArgs_spec (rep := nodeRep pre h st n) (P := StandsAt st (h.at? pre)) (fun a n h => ih h) hcs
      exact .fn hc hf g1 g2
    | efn f k =>
      simp only [bind_ok, pure_ok] at hx
      obtain ⟨cs, hcs, rfl⟩ := hx
      obtain ⟨g1, g2⟩ := repArgs_spec (rep := nodeRep pre h st n) (P := StandsAt st (h.at? pre)) (fun a n h => ih h) hcs
      exact .efn hc g1 g2
    | str b => cases hx

/-! ## Texts -/

theorem pointwise_cons {P : RNode → Name → Prop} {c s} {cs : List RNode} {ss : List Name} (h : P c s)
    (hs : ∀ (j : Nat) c s, cs[j]? = some c → ss[j]? = some s → P c s) : ∀ (j : Nat) x y, (c :: cs)[j]? = some x → (s :: ss)[j]? = some y → P x y := by
  intro j x y hx hy
  cases j with
  | zero => simp at hx hy; subst hx; subst hy; exact h
  | succ j => exact hs j x y (by simpa using hx) (by simpa using hy)

theorem restOf_other {r : RNode} (h : ∀ cs, r ≠ .fn n!"[" cs) {s : Name} (hs : NText r s) : ∃ (ts : List RNode) (ss : List Name), RestOf r ts ∧ ss.length = ts.length ∧
    (∀ (j : Nat) c s, ts[j]? = some c → ss[j]? = some s → NText c s) ∧ n!", " ++ s ++ n!"]" = ss.flatMap (n!", " ++ ·) ++ n!"]" :=
  ⟨[r], [s], .other h, rfl, pointwise_cons hs (by simp), by simp⟩

mutual
theorem RNode.str_text : ∀ (n : RNode) {s}, n.str = .ok s → NText n s
  | .var x a, s, h => by simp only [RNode.str, pure_ok] at h; subst h; exact .var
  | .cons x, s, h => by simp only [RNode.str, pure_ok] at h; subst h; exact .cons
  | .int v, s, h => by simp only [RNode.str, pure_ok] at h; subst h; exact .int (intText v)
  | .fn f cs, s, h => by
    unfold RNode.str at h
    split at h
    · rename_i hf
      subst hf
      match cs, h with
      | [], h => simp only [pure_ok] at h; subst h; exact .nil
      | [c, d], h =>
        simp only [bind_ok, pure_ok] at h
        obtain ⟨a, h1, b, h2, rfl⟩ := h
        obtain ⟨ts, ss, g1, g2, g3, rfl⟩ := RNode.tail_text d h2
        have := NText.list (h := c) g1 (ss := a :: ss) (by simp [g2]) (pointwise_cons (RNode.str_text c h1) g3)
        simpa [listed] using this
      | [_], h => cases h
      | _ :: _ :: _ :: _, h => cases h
    · rename_i hf
      simp only [bind_ok, pure_ok] at h
      obtain ⟨a, h1, rfl⟩ := h
      obtain ⟨g0, ss, g1, g2, rfl⟩ := RNode.args_text cs h1
      exact .fn hf g0 g1 g2
  | .efn f cs, s, h => by
    unfold RNode.str at h
    match cs, h with
    | [], h => cases h
    | [c], h =>
      simp only [bind_ok, pure_ok] at h
      obtain ⟨a, h1, rfl⟩ := h
      exact .sign (RNode.str_text c h1)
    | [c, d], h =>
      simp only [bind_ok, pure_ok] at h
      obtain ⟨a, h1, b, h2, rfl⟩ := h
      exact .efn (RNode.str_text c h1) (RNode.str_text d h2)
    | _ :: _ :: _ :: _, h => cases h
theorem RNode.tail_text : ∀ (n : RNode) {s}, n.tailStr = .ok s → ∃ (ts : List RNode) (ss : List Name), RestOf n ts ∧ ss.length = ts.length ∧
    (∀ (j : Nat) c s, ts[j]? = some c → ss[j]? = some s → NText c s) ∧ s = ss.flatMap (n!", " ++ ·) ++ n!"]"
  | .var x a, s, h => by
    simp only [RNode.tailStr, pure_ok] at h; subst h
    exact restOf_other (by simp) .var
  | .cons x, s, h => by
    simp only [RNode.tailStr, pure_ok] at h; subst h
    exact restOf_other (by simp) .cons
  | .int v, s, h => by
    simp only [RNode.tailStr, pure_ok] at h; subst h
    exact restOf_other (by simp) (.int (intText v))
  | .fn f cs, s, h => by
    unfold RNode.tailStr at h
    split at h
    · rename_i hf
      subst hf
      match cs, h with
      | [], h => simp only [pure_ok] at h; subst h; exact ⟨[], [], .nil, rfl, by simp, rfl⟩
      | [c, d], h =>
        simp only [bind_ok, pure_ok] at h
        obtain ⟨a, h1, b, h2, rfl⟩ := h
        obtain ⟨ts, ss, g1, g2, g3, rfl⟩ := RNode.tail_text d h2
        exact ⟨c :: ts, a :: ss, .cons g1, by simp [g2], pointwise_cons (RNode.str_text c h1) g3, by simp⟩
      | [_], h => cases h
      | _ :: _ :: _ :: _, h => cases h
    · rename_i hf
      simp only [bind_ok, pure_ok] at h
      obtain ⟨a, h1, rfl⟩ := h
      obtain ⟨g0, ss, g1, g2, rfl⟩ := RNode.args_text cs h1
      exact restOf_other (by intro cs' h'; cases h'; exact hf rfl) (.fn hf g0 g1 g2)
  | .efn f cs, s, h => by
    unfold RNode.tailStr at h
    match cs, h with
    | [], h => cases h
    | [c], h =>
      simp only [bind_ok, pure_ok] at h
      obtain ⟨a, h1, rfl⟩ := h
      exact restOf_other (by simp) (.sign (RNode.str_text c h1))
    | [c, d], h =>
      simp only [bind_ok, pure_ok] at h
      obtain ⟨a, h1, b, h2, rfl⟩ := h
      exact restOf_other (by simp) (.efn (RNode.str_text c h1) (RNode.str_text d h2))
    | _ :: _ :: _ :: _, h => cases h
theorem RNode.args_text : ∀ (cs : List RNode) {s}, RNode.argStrs cs = .ok s → cs ≠ [] ∧ ∃ ss, ss.length = cs.length ∧
    (∀ (j : Nat) c s, cs[j]? = some c → ss[j]? = some s → NText c s) ∧ s = listed ss
  | [], s, h => by cases h
  | [c], s, h => by
    simp only [RNode.argStrs] at h
    exact ⟨by simp, [s], rfl, pointwise_cons (RNode.str_text c h) (by simp), by simp [listed]⟩
  | c :: d :: cs, s, h => by
    simp only [RNode.argStrs, bind_ok, pure_ok] at h
    obtain ⟨a, h1, b, h2, rfl⟩ := h
    obtain ⟨_, ss, g1, g2, rfl⟩ := RNode.args_text (d :: cs) h2
    refine ⟨by simp, a :: ss, by simp [g1], pointwise_cons (RNode.str_text c h1) g2, ?_⟩
    cases ss with
    | nil => simp at g1
    | cons x ss => simp [listed]
end

/-! ## Variables -/

theorem RNode.mem_addVars {x : Name × Nat} : ∀ {cs : List RNode} {seen}, x ∈ RNode.addVars seen cs ↔ x ∈ seen ∨ RNode.var x.1 x.2 ∈ cs
  | [], seen => by simp [RNode.addVars]
  | .var n a :: cs, seen => by
    obtain ⟨y, b⟩ := x
    simp only [RNode.addVars, RNode.mem_addVars (cs := cs)]
    split
    · rename_i h
      simp only [List.contains_iff_mem] at h
      simp only [List.mem_cons, RNode.var.injEq]
      constructor
      · rintro (h | h)
        · exact .inl h
        · exact .inr (.inr h)
      · rintro (h | ⟨rfl, rfl⟩ | h)
        · exact .inl h
        · exact .inl ‹_›
        · exact .inr h
    · simp [or_assoc]
  | .cons _ :: cs, seen => by simp [RNode.addVars, RNode.mem_addVars (cs := cs)]
  | .int _ :: cs, seen => by simp [RNode.addVars, RNode.mem_addVars (cs := cs)]
  | .fn _ _ :: cs, seen => by simp [RNode.addVars, RNode.mem_addVars (cs := cs)]
  | .efn _ _ :: cs, seen => by simp [RNode.addVars, RNode.mem_addVars (cs := cs)]

theorem RNode.addVars_nodup : ∀ {cs : List RNode} {seen : List (Name × Nat)}, seen.Nodup → (RNode.addVars seen cs).Nodup
  | [], seen, h => h
  | .var n a :: cs, seen, h => by
    simp only [RNode.addVars]
    apply RNode.addVars_nodup
    split
    · exact h
    · rename_i hn
      simp only [List.contains_iff_mem] at hn
      rw [List.nodup_append]
      refine ⟨h, by simp, ?_⟩
      intro x hx y hy hxy
      simp only [List.mem_singleton] at hy
      subst hy; subst hxy
      exact hn hx
  | .cons _ :: cs, seen, h => by simp only [RNode.addVars]; exact RNode.addVars_nodup h
  | .int _ :: cs, seen, h => by simp only [RNode.addVars]; exact RNode.addVars_nodup h
  | .fn _ _ :: cs, seen, h => by simp only [RNode.addVars]; exact RNode.addVars_nodup h
  | .efn _ _ :: cs, seen, h => by simp only [RNode.addVars]; exact RNode.addVars_nodup h

theorem RNode.sizes_append (a b : List RNode) : RNode.sizes (a ++ b) = RNode.sizes a + RNode.sizes b := by
  induction a with
  | nil => simp [RNode.sizes]
  | cons x a ih => simp only [List.cons_append, RNode.sizes, ih]; omega

theorem RNode.size_children (c : RNode) : c.size = 1 + RNode.sizes c.children := by
  cases c <;> simp [RNode.size, RNode.children, RNode.sizes]

theorem occ_iff {x : Name × Nat} {c : RNode} : Occ x c ↔ c = .var x.1 x.2 ∨ ∃ d ∈ c.children, Occ x d := by
  constructor
  · intro h
    cases h with
    | var => exact .inl rfl
    | fn h1 h2 => exact .inr ⟨_, h1, h2⟩
    | efn h1 h2 => exact .inr ⟨_, h1, h2⟩
  · rintro (rfl | ⟨d, h1, h2⟩)
    · exact .var
    · cases c with
      | fn => exact .fn h1 h2
      | efn => exact .efn h1 h2
      | _ => cases h1

theorem RNode.mem_bfs {x : Name × Nat} : ∀ {n : Nat} {q : List RNode}, RNode.sizes q ≤ n → (RNode.var x.1 x.2 ∈ RNode.bfs n q ↔ ∃ c ∈ q, Occ x c) := by
  intro n
  induction n with
  | zero =>
    intro q h
    cases q with
    | nil => simp [RNode.bfs]
    | cons c q => simp only [RNode.sizes, RNode.size_children] at h; omega
  | succ n ih =>
    intro q h
    cases q with
    | nil => simp [RNode.bfs]
    | cons c q =>
      simp only [RNode.sizes, RNode.size_children] at h
      simp only [RNode.bfs, List.mem_cons]
      rw [ih (by rw [RNode.sizes_append]; omega)]
      constructor
      · rintro (h | ⟨d, hd, ho⟩)
        · exact ⟨c, .inl rfl, occ_iff.2 (.inl h.symm)⟩
        · rcases List.mem_append.1 hd with hd | hd
          · exact ⟨d, .inr hd, ho⟩
          · exact ⟨c, .inl rfl, occ_iff.2 (.inr ⟨d, hd, ho⟩)⟩
      · rintro ⟨d, rfl | hd, ho⟩
        · rcases occ_iff.1 ho with h | ⟨e, he, ho⟩
          · exact .inl h.symm
          · exact .inr ⟨e, List.mem_append.2 (.inr he), ho⟩
        · exact .inr ⟨d, List.mem_append.2 (.inl hd), ho⟩

theorem RNode.mem_uniqueVars {x : Name × Nat} {n : RNode} : x ∈ n.uniqueVars ↔ ∃ c ∈ n.children, Occ x c := by
  unfold RNode.uniqueVars
  rw [RNode.mem_addVars, RNode.mem_bfs (Nat.le_refl _)]
  simp

theorem RNode.uniqueVars_nodup (n : RNode) : n.uniqueVars.Nodup := RNode.addVars_nodup (by simp)

/-! ## Goals -/

theorem getElem?_cons_cases {α} {x : α} {l : List α} {j : Nat} {y : α} (h : (x :: l)[j]? = some y) : (j = 0 ∧ y = x) ∨ ∃ i, j = i + 1 ∧ l[i]? = some y := by
  cases j with
  | zero => simp at h; exact .inl ⟨rfl, h.symm⟩
  | succ j => exact .inr ⟨j, rfl, by simpa using h⟩

mutual
theorem Node.fill_spec {f : Name → R RNode} {g : Name → RNode → Prop} (hf : ∀ v n, f v = .ok n → g v n) : ∀ (c : Node) {n}, c.fill f = .ok n → Fills g c n
  | .var v, n, h => by simp only [Node.fill] at h; exact .var (hf _ _ h)
  | .cons x, n, h => by simp only [Node.fill, pure_ok] at h; subst h; exact .cons
  | .int v, n, h => by simp only [Node.fill, pure_ok] at h; subst h; exact .int
  | .fn x cs, n, h => by
    simp only [Node.fill, bind_ok, pure_ok] at h
    obtain ⟨ns, h1, rfl⟩ := h
    obtain ⟨g1, g2⟩ := Node.fills_spec hf cs h1
    exact .fn g1 g2
  | .efn x cs, n, h => by
    simp only [Node.fill, bind_ok, pure_ok] at h
    obtain ⟨ns, h1, rfl⟩ := h
    obtain ⟨g1, g2⟩ := Node.fills_spec hf cs h1
    exact .efn g1 g2
theorem Node.fills_spec {f : Name → R RNode} {g : Name → RNode → Prop} (hf : ∀ v n, f v = .ok n → g v n) : ∀ (cs : List Node) {ns}, Node.fills f cs = .ok ns →
    ns.length = cs.length ∧ ∀ (j : Nat) c n, cs[j]? = some c → ns[j]? = some n → Fills g c n
  | [], ns, h => by simp only [Node.fills, pure_ok] at h; subst h; simp
  | c :: cs, ns, h => by
    simp only [Node.fills, bind_ok, pure_ok] at h
    obtain ⟨n, h1, ms, h2, rfl⟩ := h
    obtain ⟨g1, g2⟩ := Node.fills_spec hf cs h2
    refine ⟨by simp [g1], fun j x y hx hy => ?_⟩
    rcases getElem?_cons_cases hx with ⟨rfl, rfl⟩ | ⟨i, rfl, hx⟩
    · simp at hy; subst hy; exact Node.fill_spec hf _ h1
    · exact g2 i x y hx (by simpa using hy)
end

theorem topAtom_front {o : Org} {e : Exec} {a} (h : o.topAtom e = .ok a) : Front e a := by
  unfold topAtom at h
  split at h
  · cases h
  · rename_i t ts hc
    refine ⟨t, ts, hc, ?_⟩
    unfold code at h
    split at h
    · cases h
    · cases h; rfl

theorem goalName_spec {fuel : Nat} {o : Org} {e : Exec} (hl : ∀ a, Front e a → Lists a) {n} (h : o.goalName fuel e = .ok n) :
    (e.state = .running ∧ n = none) ∨ (e.state ≠ .running ∧ ∃ x, n = some x ∧ GoalIs o e x) := by
  unfold goalName at h
  split at h
  · rename_i hr
    simp only [pure_ok] at h; exact .inl ⟨hr, h.symm⟩
  · rename_i hr
    simp only [bind_ok, pure_ok] at h
    obtain ⟨a, ha, x, hx, rfl⟩ := h
    refine .inr ⟨hr, x, rfl, a, topAtom_front ha, hl _ (topAtom_front ha), Node.fill_spec (fun v n hn => ?_) _ hx⟩
    simp only [bind_ok] at hn
    obtain ⟨i, hi, hn⟩ := hn
    simp only [pointVar, bind_ok, orFault_ok] at hi
    obtain ⟨r, hr, c, hc, hi⟩ := hi
    exact ⟨r, i, List.mem_of_find?_eq_some hr, by simpa using List.find?_some hr, ⟨c, hc, hi⟩, nodeRep_stands hn⟩

/-! ## All pieces of code list their variables -/

theorem varRegs_fresh {yOf : Name → Option Nat} : ∀ {as : List AItem} {hd : List Name}, ((varRegs yOf as hd).map (·.name)).Nodup ∧ ∀ v ∈ (varRegs yOf as hd).map (·.name), v ∉ hd := by
  intro as
  induction as with
  | nil => intro hd; simp [varRegs]
  | cons a as ih =>
    intro hd
    unfold varRegs
    split
    · rename_i n hn
      split
      · exact ih
      · rename_i hc
        have hc : n ∉ hd := by simpa using hc
        have key : ∀ y b, ((⟨n, y, b⟩ :: varRegs yOf as (n :: hd)).map (·.name)).Nodup ∧ ∀ v ∈ (⟨n, y, b⟩ :: varRegs yOf as (n :: hd)).map (·.name), v ∉ hd := by
          intro y b
          obtain ⟨i1, i2⟩ := ih (hd := n :: hd)
          simp only [List.map_cons, List.nodup_cons, List.mem_cons]
          refine ⟨⟨fun h => i2 n h (by simp), i1⟩, ?_⟩
          rintro v (rfl | hv)
          · exact hc
          · exact fun h => i2 v hv (by simp [h])
        split
        · exact key _ _
        · exact key _ _
    · exact ih

theorem varRegs_lists {yOf : Name → Option Nat} {as : List AItem} {atom : Node} (N : ∀ v, (∃ a ∈ as, a.node = .var v) ↔ v ∈ Node.varss atom.children) (n is fq) :
    Lists ⟨n, is, varRegs yOf as [], atom, fq⟩ := by
  refine ⟨varRegs_fresh.1, fun v => ?_⟩
  obtain ⟨v1, v2⟩ := varRegs_spec (yOf := yOf) (as := as) (hd := [])
  rw [← N]
  constructor
  · intro hv
    obtain ⟨w, hw, rfl⟩ := List.mem_map.1 hv
    obtain ⟨a, ha, hn, _⟩ := v1 w hw
    exact ⟨a, ha, hn⟩
  · rintro ⟨a, ha, hn⟩
    exact (v2 a ha v hn).resolve_left (by simp)

/-- All pieces of code satisfy `P`. -/
structure AllCode (P : CAtom → Prop) (o : Org) : Prop where
  exec : ∀ e ∈ o.execs, ∀ t ∈ e.codes, P t.atom
  prog : ∀ f rs, o.program.rules? f = some rs → ∀ r ∈ rs, ∀ c ∈ r, P c
  bi : ∀ x ∈ o.builtins, ∀ r ∈ x.2, ∀ c ∈ r, P c

theorem AllCode.update {P : CAtom → Prop} {o o' : Org} (h : AllCode P o) {e : Exec} {id : Nat} {x : Exec} {news : List Exec} (he : o.execs[id]? = some e)
    (hx : ∀ t ∈ x.codes, t ∈ e.codes) (hn : ∀ n ∈ news, ∀ t ∈ n.codes, P t.atom) (h1 : o'.execs = o.execs.set id x ++ news) (h2 : o'.program = o.program)
    (h3 : o'.builtins = o.builtins) : AllCode P o' := by
  refine ⟨fun y hy t ht => ?_, by rw [h2]; exact h.prog, by rw [h3]; exact h.bi⟩
  rw [h1, List.mem_append] at hy
  rcases hy with hy | hy
  · rcases List.mem_or_eq_of_mem_set hy with hy | rfl
    · exact h.exec y hy t ht
    · exact h.exec e (List.mem_of_getElem? he) t (hx t ht)
  · exact hn y hy t ht

theorem AllCode.turn {P : CAtom → Prop} {o o' : Org} {fuel r} (h : AllCode P o) (hf : FInv o) (ht : o.turn fuel = .ok (o', r)) : AllCode P o' := by
  cases hq : o.queue with
  | nil =>
    simp only [Org.turn, hq, pure_ok, Prod.mk.injEq] at ht
    rw [← ht.1]; exact h
  | cons id q =>
    have inv := hf.rinv.inv
    obtain ⟨e, he, hrun, _⟩ := inv.qrun id (by simp [hq])
    cases hc : e.codes with
    | nil => simp [Org.turn, hq, turnOf, Org.exec, he, hc] at ht
    | cons t ts =>
      have old : ∀ u ∈ ts, P u.atom := fun u hu => h.exec e (List.mem_of_getElem? he) u (by simp [hc, hu])
      rcases hf.front hq he hc with ⟨ds, h1, h2, _, h4⟩ | hg | ⟨h1, env, es', h2, h3⟩
      · obtain ⟨e1, hr, hst, hx⟩ := turn_proceed inv hq he hc h1 h2 ht
        have hcod : e1.codes = t :: ts := (runData_frame hr).codes.trans hc
        have hsub : ∀ u ∈ e1.codes.take 1, u ∈ e.codes := by rw [hcod, hc]; simp
        rcases hx with ⟨k1, k2, rfl⟩ | ⟨err, k1, k2, k3, rfl⟩ | ⟨k1, k2, k3, rfl⟩ | ⟨k1, k2, k3, rfl⟩
        · exact h.update (news := []) he hsub (by simp) (by simp; rfl) rfl rfl
        · exact h.update (news := []) he hsub (by simp) (by simp; rfl) rfl rfl
        · exact h.update (news := []) he hsub (by simp) (by simp; rfl) rfl rfl
        · refine h.update he ?_ ?_ rfl rfl rfl
          · simp [hcod, hc]
          · intro n hn u hu
            simp only [List.mem_singleton] at hn
            subst hn
            exact old u (by simpa [proceedChild, hcod] using hu)
      · obtain ⟨ds, h1, h2, _, h3⟩ := hg
        obtain ⟨e1, hr, _, hst, hx⟩ := turn_call inv hq he hc h1 h2 (fun e1 hr => (h3 _ _ _ (e.start t.atom) _ rfl hrun hr).1) ht
        have hcod : e1.codes = t :: ts := (runData_frame hr).codes.trans hc
        have hsub : ∀ u ∈ e1.codes.take 1, u ∈ e.codes := by rw [hcod, hc]; simp
        rcases hx with ⟨_, rfl⟩ | ⟨rules, hrl, rfl⟩
        · exact h.update (news := []) he hsub (by simp) (by simp; rfl) rfl rfl
        · refine h.update he hsub ?_ rfl rfl rfl
          intro n hn u hu
          obtain ⟨r, hm, rfl⟩ := List.mem_map.1 hn
          simp only [callChild, hcod, List.drop_succ_cons, List.drop_zero, List.mem_append, List.mem_map] at hu
          rcases hu with ⟨c, hcr, rfl⟩ | hu
          · exact h.prog _ _ hrl r hm c hcr
          · exact old u hu
      · obtain ⟨env', es2, k1, _, _, rfl⟩ := turn_dealloc inv hq he hc (by rw [h1]; rfl) ht
        refine h.update (news := []) he ?_ (by simp) (by simp; rfl) rfl rfl
        simp only [hc]
        intro u hu
        simp [show u ∈ ts by simpa using hu]

theorem AllCode.getAnswer {P : CAtom → Prop} {o o' : Org} {fuel clock r} (h : AllCode P o) (hf : FInv o) (ha : o.getAnswer fuel clock = .ok (o', r)) : AllCode P o' := by
  induction clock generalizing o with
  | nil =>
    unfold Org.getAnswer at ha
    split at ha <;> (simp only [pure_ok, Prod.mk.injEq] at ha; rw [← ha.1]; exact h)
  | cons c clock ih =>
    unfold Org.getAnswer at ha
    split at ha
    · simp only [pure_ok, Prod.mk.injEq] at ha; rw [← ha.1]; exact h
    · cases c with
      | true => simp only [pure_ok, Prod.mk.injEq] at ha; rw [← ha.1]; exact h
      | false =>
        simp only [bind_ok] at ha
        obtain ⟨⟨o1, t⟩, h1, ha⟩ := ha
        have h' := h.turn hf h1
        cases t with
        | «continue» => exact ih h' (hf.turn h1) ha
        | answer => simp only [pure_ok, Prod.mk.injEq] at ha; rw [← ha.1]; exact h'
        | error => simp only [pure_ok, Prod.mk.injEq] at ha; rw [← ha.1]; exact h'

theorem nodes_lists {yOf : Name → Option Nat} {as : List AItem} {atom : Node} (N : Nodes atom as) (n is fq) : Lists ⟨n, is, varRegs yOf as [], atom, fq⟩ :=
  varRegs_lists (fun v => by rw [← varss_atomArgs]; exact N.itemVar) n is fq

theorem deallocAtoms_lists (n : Nat) : ∀ c ∈ deallocAtoms n, Lists c := by
  unfold deallocAtoms
  split
  · simp
  · simp only [List.mem_singleton, forall_eq]
    exact ⟨by simp [deallocAtom], by simp [deallocAtom, Node.children, Node.varss]⟩

theorem compileQueryAtoms_lists {yOf : Name → Option Nat} {pre fq} : ∀ {as g cs g'}, compileQueryAtoms yOf pre fq as g = .ok (cs, g') → ∀ c ∈ cs, Lists c := by
  intro as
  induction as generalizing pre with
  | nil => intro g cs g' h; simp only [compileQueryAtoms, pure_ok, Prod.mk.injEq] at h; simp [← h.1]
  | cons a as ih =>
    intro g cs g' h
    simp only [compileQueryAtoms, bind_ok, pure_ok, Prod.mk.injEq] at h
    obtain ⟨⟨c, g1⟩, h1, ⟨ds, g2⟩, h2, rfl, rfl⟩ := h
    simp only [compileQueryAtom, bind_ok, pure_ok, Prod.mk.injEq] at h1
    obtain ⟨⟨is, g3⟩, _, rfl, _⟩ := h1
    intro c hc
    rcases List.mem_cons.1 hc with rfl | hc
    · exact nodes_lists (assignSingle_nodes a) _ _ _
    · exact ih h2 c hc

theorem compileClause_lists {ord b head body st f r st'} (h : compileClause ord b head body st = .ok (f, r, st')) : ∀ c ∈ r, Lists c := by
  cases body with
  | nil =>
    obtain ⟨_, is, g, h1, rfl, rfl, rfl⟩ := compileClause_fact h
    intro c hc
    rcases List.mem_cons.1 hc with rfl | hc
    · exact nodes_lists (assignSingle_nodes _) _ _ _
    · exact deallocAtoms_lists _ c hc
  | cons b0 bs =>
    obtain ⟨_, is, g, js, g1, cs, g2, h1, h2, h3, rfl, rfl, rfl⟩ := compileClause_rule h
    intro c hc
    simp only [List.mem_cons, List.mem_append] at hc
    rcases hc with rfl | rfl | hc | hc
    · exact nodes_lists (assignPair_nodes _ _).1 _ _ _
    · exact nodes_lists (assignPair_nodes _ _).2 _ _ _
    · exact compileQueryAtoms_lists h3 c hc
    · exact deallocAtoms_lists _ c hc

theorem compileProgram_all {P : CAtom → Prop} (hP : ∀ ord b head body st f r st', compileClause ord b head body st = .ok (f, r, st') → ∀ c ∈ r, P c) {ord} :
    ∀ {cs p st p' st'}, (∀ f rs, Program.rules? p f = some rs → ∀ r ∈ rs, ∀ c ∈ r, P c) → compileProgram ord cs p st = .ok (p', st') →
      ∀ f rs, Program.rules? p' f = some rs → ∀ r ∈ rs, ∀ c ∈ r, P c := by
  intro cs
  induction cs with
  | nil => intro p st p' st' hp h; simp only [compileProgram, pure_ok, Prod.mk.injEq] at h; rw [← h.1]; exact hp
  | cons c cs ih =>
    intro p st p' st' hp h
    simp only [compileProgram, bind_ok] at h
    obtain ⟨⟨f, r, st1⟩, h1, h2⟩ := h
    refine ih ?_ h2
    intro g rs hg
    rw [Program.rules?_addRule] at hg
    split at hg
    · cases hg
      intro r' hr'
      simp only [List.mem_append, List.mem_singleton] at hr'
      rcases hr' with hr' | rfl
      · cases hpf : p.rules? f with
        | none => simp [hpf] at hr'
        | some qs => simp [hpf] at hr'; exact hp f qs hpf r' hr'
      · exact hP _ _ _ _ _ _ _ _ h1
    · exact hp g rs hg

theorem mergeBuiltins_all {P : CAtom → Prop} {b p : Program} (hb : ∀ x ∈ b, ∀ r ∈ x.2, ∀ c ∈ r, P c)
    (hp : ∀ f rs, p.rules? f = some rs → ∀ r ∈ rs, ∀ c ∈ r, P c) : ∀ f rs, (Org.mergeBuiltins b p).rules? f = some rs → ∀ r ∈ rs, ∀ c ∈ r, P c := by
  unfold Org.mergeBuiltins
  induction b generalizing p with
  | nil => exact hp
  | cons e b ih =>
    simp only [List.foldl_cons]
    refine ih (fun e' he' => hb e' (by simp [he'])) ?_
    intro g rs' hg
    rw [Program.rules?_assign] at hg
    split at hg
    · cases hg; exact hb e (by simp)
    · exact hp g rs' hg

theorem Reach.allCode {P : CAtom → Prop} (hC : ∀ ord b head body st f r st', compileClause ord b head body st = .ok (f, r, st') → ∀ c ∈ r, P c)
    (hQ : ∀ ord atoms st q st', compileQuery ord atoms st = .ok (q, st') → ∀ c ∈ q, P c)
    (hB : ∀ x ∈ Org.init0.builtins, ∀ r ∈ x.2, ∀ c ∈ r, P c) {o} (h : Reach o) : AllCode P o := by
  induction h with
  | init h =>
    rw [Org.init_eq] at h
    cases h
    have h2 := Org.init_eq
    unfold Org.init at h2
    simp only [bind_ok, pure_ok] at h2
    obtain ⟨⟨b, st⟩, _, h2⟩ := h2
    have hx : Org.init0.execs = [initExec []] := by rw [← h2]
    refine ⟨by rw [hx]; simp [initExec], ?_, hB⟩
    rw [Org.init0_program]
    intro f rs hf
    have mem : ∀ p : Program, p.rules? f = some rs → (f, rs) ∈ p := by
      intro p hf
      unfold Program.rules? at hf
      induction p with
      | nil => simp at hf
      | cons e p ih =>
        obtain ⟨g, qs⟩ := e
        rw [List.lookup_cons] at hf
        split at hf
        · rename_i hb
          have : f = g := by simpa using hb
          cases hf; simp [this]
        · exact List.mem_cons_of_mem _ (ih hf)
    exact hB (f, rs) (mem _ hf)
  | @program o ord parsed _ ih =>
    unfold Org.loadProgram
    split
    · exact ih
    · split
      · exact ⟨ih.exec, ih.prog, ih.bi⟩
      · rename_i hc
        exact ⟨ih.exec, mergeBuiltins_all ih.bi (compileProgram_all hC (by intro f rs h; simp [Program.rules?] at h) hc), ih.bi⟩
  | @query o ord parsed hr ih =>
    unfold Org.loadQuery
    simp only
    cases parsed with
    | none => exact ⟨ih.exec, ih.prog, ih.bi⟩
    | some cs =>
      simp only
      cases hc : compileQuery ord cs o.st with
      | error x => exact ⟨ih.exec, ih.prog, ih.bi⟩
      | ok x =>
        obtain ⟨qy, st⟩ := x
        refine ⟨?_, ih.prog, ih.bi⟩
        intro e he t ht
        simp only [List.mem_singleton] at he
        subst he
        simp only [initExec, List.mem_map] at ht
        obtain ⟨c, hcq, rfl⟩ := ht
        exact hQ _ _ _ _ _ hc c hcq
  | answer hr ha ih => exact ih.getAnswer hr.finv ha
  | @memory o hr ih =>
    refine ⟨?_, by simp [Org.clearMemory, Program.rules?], by simp [Org.clearMemory]⟩
    intro x hx t ht
    cases hl : o.execs with
    | nil => simp [Org.clearMemory, hl] at hx
    | cons e es =>
      have : x = { e with codes := e.codes.map fun t => ⟨o.gen, t.atom⟩, children := [] } := by simpa [Org.clearMemory, hl] using hx
      subst this
      obtain ⟨t', h3, rfl⟩ := List.mem_map.1 ht
      exact ih.exec e (by simp [hl]) t' h3

theorem init0_lists : ∀ x ∈ Org.init0.builtins, ∀ r ∈ x.2, ∀ c ∈ r, Lists c := by
  have : Org.init0.builtins.all (fun e => e.2.all fun r => r.all fun c => decide ((c.subst.map (·.name)).Nodup) &&
    (c.subst.map (·.name)).all (fun v => (Node.varss c.parsed.children).contains v) &&
    (Node.varss c.parsed.children).all (fun v => (c.subst.map (·.name)).contains v)) = true := by decide +kernel
  intro e he r hr c hc
  simp only [List.all_eq_true] at this
  have := this e he r hr c hc
  simp only [Bool.and_eq_true, decide_eq_true_eq, List.all_eq_true, List.contains_iff_mem] at this
  exact ⟨this.1.1, fun v => ⟨this.1.2 v, this.2 v⟩⟩

theorem Reach.lists {o : Org} (h : Reach o) : ∀ e ∈ o.execs, ∀ a, Front e a → Lists a := by
  rintro e he a ⟨t, ts, hc, rfl⟩
  refine (h.allCode (P := Lists) (fun _ _ _ _ _ _ _ _ => compileClause_lists) ?_ init0_lists).exec e he t (by simp [hc])
  intro ord atoms st q st' h
  simp only [compileQuery, bind_ok, pure_ok, Prod.mk.injEq] at h
  obtain ⟨⟨cs, g⟩, h1, rfl, _⟩ := h
  exact compileQueryAtoms_lists h1

/-! ## Bindings -/

theorem shownBindings_spec {st : Storage} {H : Nat → Option Cell} {rep : Nat → R RNode} (hr : ∀ a n, rep a = .ok n → StandsAt st H a n) :
    ∀ {vs : List (Name × Nat)} {bs}, shownBindings rep vs = .ok bs → Shown st H vs bs
  | [], bs, h => by simp only [shownBindings, pure_ok] at h; subst h; exact .nil
  | (v, a) :: vs, bs, h => by
    simp only [shownBindings, bind_ok] at h
    obtain ⟨n, h1, cs, h2, h⟩ := h
    have ih := shownBindings_spec hr h2
    have hs := hr _ _ h1
    cases n with
    | var w b =>
      simp only at h
      split at h
      · rename_i hc
        obtain ⟨rfl, rfl⟩ := hc
        simp only [pure_ok] at h; subst h
        exact .self hs ih
      · rename_i hc
        simp only [pure_ok] at h; subst h
        exact .bound hs (by intro he; cases he; exact hc ⟨rfl, rfl⟩) .var ih
    | _ =>
      simp only [bind_ok, pure_ok] at h
      obtain ⟨s, h3, rfl⟩ := h
      exact .bound hs (by simp) (RNode.str_text _ h3) ih

theorem pointSubs_spec {e : Exec} : ∀ {vs : List VarReg} {fs}, pointSubs e vs = .ok fs → List.Forall₂ (fun r x => x.1 = r.name ∧ Holds e r x.2) vs fs
  | [], fs, h => by simp only [pointSubs, pure_ok] at h; subst h; exact .nil
  | v :: vs, fs, h => by
    simp only [pointSubs, bind_ok, pure_ok] at h
    obtain ⟨c, h1, a, h2, rest, h3, rfl⟩ := h
    exact .cons ⟨rfl, c, h1, h2⟩ (pointSubs_spec h3)

/-- What the tree is like before texts are filled in: executors that failed or are running have nothing below them. -/
def PlainNode (o : Org) (s : UTree) : Prop :=
  s.info.bindings = [] ∧ s.info.firstFact = 0 ∧ ∀ e, o.execs[s.info.exec]? = some e → e.failed = true ∨ e.state = .running → s.kids = []

theorem clauseBindings_spec {fuel : Nat} {o : Org} {n : RNode} {e : Exec} {bs k} (hl : ∀ a, Front e a → Lists a) (h : o.clauseBindings fuel n e = .ok (bs, k)) :
    ∃ a qs fs bq bf, Front e a ∧ Lists a ∧ qs.Nodup ∧ (∀ x, x ∈ qs ↔ ∃ c ∈ n.children, Occ x c) ∧
      List.Forall₂ (fun r x => x.1 = r.name ∧ Holds e r x.2) a.subst fs ∧ Shown o.st (o.heap e) qs bq ∧ Shown o.st (o.heap e) fs bf ∧
      bs = bq ++ bf ∧ k = bq.length := by
  simp only [clauseBindings, bind_ok, pure_ok, Prod.mk.injEq] at h
  obtain ⟨a, ha, fs, hfs, bq, hq, bf, hf, rfl, rfl⟩ := h
  have hr : ∀ a n, nodeRep (preOf o.execs e) e.hp o.st fuel a = .ok n → StandsAt o.st (o.heap e) a n := fun a n h => nodeRep_stands h
  have hq' := shownBindings_spec hr hq
  refine ⟨a, _, fs, bq, bf, topAtom_front ha, hl _ (topAtom_front ha), ?_, ?_, pointSubs_spec hfs, hq', shownBindings_spec hr hf, rfl, rfl⟩
  · cases n <;> first | exact RNode.uniqueVars_nodup _ | simp
  · intro x
    cases n <;> first | exact RNode.mem_uniqueVars | simp [RNode.children]

mutual
theorem resolveGoal_labels {fuel : Nat} {o : Org} (hl : ∀ e ∈ o.execs, ∀ a, Front e a → Lists a) : ∀ {t t' : UTree}, o.resolveGoal fuel t = .ok t' → t.info.goal = true →
    (∀ s ∈ t.nodes, PlainNode o s ∧ ∀ k ∈ s.kids, k.info.goal = !s.info.goal) → ∀ s ∈ t'.nodes, s.info.goal = true → LabelOK o s
  | .node i ks, t', h, hg, hp, s, hs, hsg => by
    simp only [resolveGoal, bind_ok] at h
    obtain ⟨e, he, n, hn, h⟩ := h
    have he := exec_ok he
    obtain ⟨⟨p1, p2, p3⟩, p4⟩ := hp _ (UTree.self_mem _)
    simp only [UTree.info_node, UTree.kids_node] at p1 p2 p3 p4 hg
    rcases goalName_spec (hl e (List.mem_of_getElem? he)) hn with ⟨hr, rfl⟩ | ⟨hr, x, rfl, hx⟩
    · simp only [pure_ok] at h; subst h
      have hk := p3 e he (.inr hr)
      subst hk
      simp only [UTree.nodes, UTree.nodess, List.mem_singleton] at hs
      subst hs
      exact ⟨e, he, fun _ => ⟨rfl, rfl⟩, fun h => absurd hr h⟩
    · simp only [bind_ok] at h
      obtain ⟨str, hstr, h⟩ := h
      split at h
      · rename_i hf
        simp only [pure_ok] at h; subst h
        have hk := p3 e he (.inl hf)
        subst hk
        simp only [UTree.nodes, UTree.nodess, List.mem_singleton] at hs
        subst hs
        exact ⟨e, he, fun h => absurd h hr, fun _ => ⟨x, hx, RNode.str_text _ hstr, by simp [UTree.kids_node]⟩⟩
      · simp only [bind_ok, pure_ok] at h
        obtain ⟨ks', h1, rfl⟩ := h
        obtain ⟨g1, g2⟩ := resolveClauses_labels hl h1 (fun k hk => by rw [p4 k hk, hg]; rfl)
          (fun s hs => hp s (by simp only [UTree.nodes, List.mem_cons]; exact .inr hs))
        simp only [UTree.nodes, List.mem_cons] at hs
        rcases hs with rfl | hs
        · exact ⟨e, he, fun h => absurd h hr, fun _ => ⟨x, hx, RNode.str_text _ hstr, g1⟩⟩
        · exact g2 s hs hsg
theorem resolveClauses_labels {fuel : Nat} {o : Org} {n : RNode} (hl : ∀ e ∈ o.execs, ∀ a, Front e a → Lists a) : ∀ {ts ts' : List UTree}, o.resolveClauses fuel n ts = .ok ts' → (∀ k ∈ ts, k.info.goal = false) →
    (∀ s ∈ UTree.nodess ts, PlainNode o s ∧ ∀ k ∈ s.kids, k.info.goal = !s.info.goal) →
    (∀ k ∈ ts', BindingsOK o n k) ∧ ∀ s ∈ UTree.nodess ts', s.info.goal = true → LabelOK o s
  | [], ts', h, _, _ => by simp only [resolveClauses, pure_ok] at h; subst h; simp [UTree.nodess]
  | .node i ks :: ts, ts', h, hg, hp => by
    simp only [resolveClauses, bind_ok, pure_ok] at h
    obtain ⟨e, he, t, h1, ts1, h2, rfl⟩ := h
    have he := exec_ok he
    obtain ⟨g1, g2⟩ := resolveClauses_labels hl h2 (fun k hk => hg k (by simp [hk]))
      (fun s hs => hp s (by simp only [UTree.nodess, List.mem_append]; exact .inr hs))
    obtain ⟨⟨p1, p2, p3⟩, p4⟩ := hp (.node i ks) (by simp only [UTree.nodess, List.mem_append]; exact .inl (UTree.self_mem _))
    have hgi := hg _ (List.mem_cons_self ..)
    simp only [UTree.info_node, UTree.kids_node] at p1 p2 p3 p4 hgi
    have key : BindingsOK o n t ∧ ∀ s ∈ t.nodes, s.info.goal = true → LabelOK o s := by
      split at h1
      · rename_i hc
        simp only [pure_ok] at h1; subst h1
        refine ⟨⟨e, he, fun _ => ⟨p1, p2⟩, fun hf hr => ?_⟩, fun s hs hsg => ?_⟩
        · rcases hc with hc | hc
          · rw [hf] at hc; cases hc
          · exact absurd hc hr
        · rw [p3 e he hc] at hs
          simp only [UTree.nodes, UTree.nodess, List.mem_singleton] at hs
          subst hs
          simp only [UTree.info_node, hgi] at hsg
          cases hsg
      · rename_i hc
        simp only [bind_ok, pure_ok] at h1
        obtain ⟨⟨bs, m⟩, h3, ks', h4, rfl⟩ := h1
        have hn := resolveNext_labels hl h4 (fun k hk => by rw [p4 k hk, hgi]; rfl)
          (fun s hs => hp s (by simp only [UTree.nodess, UTree.nodes, List.mem_append, List.mem_cons]; exact .inl (.inr hs)))
        refine ⟨⟨e, he, fun h => absurd h hc, fun _ _ => clauseBindings_spec (hl e (List.mem_of_getElem? he)) h3⟩, fun s hs hsg => ?_⟩
        simp only [UTree.nodes, List.mem_cons] at hs
        rcases hs with rfl | hs
        · simp only [UTree.info_node, hgi] at hsg
          cases hsg
        · exact hn s hs hsg
    refine ⟨fun k hk => ?_, fun s hs hsg => ?_⟩
    · rcases List.mem_cons.1 hk with rfl | hk
      · exact key.1
      · exact g1 k hk
    · simp only [UTree.nodess, List.mem_append] at hs
      rcases hs with hs | hs
      · exact key.2 s hs hsg
      · exact g2 s hs hsg
theorem resolveNext_labels {fuel : Nat} {o : Org} (hl : ∀ e ∈ o.execs, ∀ a, Front e a → Lists a) : ∀ {ts ts' : List UTree}, o.resolveNext fuel ts = .ok ts' → (∀ k ∈ ts, k.info.goal = true) →
    (∀ s ∈ UTree.nodess ts, PlainNode o s ∧ ∀ k ∈ s.kids, k.info.goal = !s.info.goal) → ∀ s ∈ UTree.nodess ts', s.info.goal = true → LabelOK o s
  | [], ts', h, _, _ => by simp only [resolveNext, pure_ok] at h; subst h; simp [UTree.nodess]
  | t :: ts, ts', h, hg, hp => by
    simp only [resolveNext, bind_ok, pure_ok] at h
    obtain ⟨t1, h1, ts1, h2, rfl⟩ := h
    intro s hs hsg
    simp only [UTree.nodess, List.mem_append] at hs
    rcases hs with hs | hs
    · exact resolveGoal_labels hl h1 (hg t (by simp)) (fun s hs => hp s (by simp only [UTree.nodess, List.mem_append]; exact .inl hs)) s hs hsg
    · exact resolveNext_labels hl h2 (fun k hk => hg k (by simp [hk])) (fun s hs => hp s (by simp only [UTree.nodess, List.mem_append]; exact .inr hs)) s hs hsg
end

/-- Before texts are filled in, there are no bindings. -/
theorem goalTree_blank {fuel : Nat} {o : Org} : ∀ n k c t c', o.goalTree fuel n k c = .ok (t, c') → ∀ s ∈ t.nodes, s.info.bindings = [] ∧ s.info.firstFact = 0 := by
  intro n
  induction n with
  | zero => intro k c t c' h; simp [goalTree] at h
  | succ n ih =>
    intro k c t c' h
    simp only [goalTree, bind_ok, pure_ok, Prod.mk.injEq] at h
    obtain ⟨e, he, ⟨ts, c1⟩, h1, rfl, rfl⟩ := h
    have hc : ∀ k c t c', clauseTree fuel o (goalTree fuel o n) k c = .ok (t, c') → ∀ s ∈ t.nodes, s.info.bindings = [] ∧ s.info.firstFact = 0 := by
      intro k c t c' h s hs
      simp only [clauseTree, bind_ok] at h
      obtain ⟨e, _, h⟩ := h
      split at h
      · simp only [bind_ok, pure_ok, Prod.mk.injEq] at h
        obtain ⟨bs, _, rfl, _⟩ := h
        simp only [UTree.nodes, UTree.nodess, List.mem_singleton] at hs
        subst hs; exact ⟨rfl, rfl⟩
      · simp only [bind_ok, pure_ok, Prod.mk.injEq] at h
        obtain ⟨g, _, ⟨t1, c2⟩, h2, rfl, _⟩ := h
        simp only [UTree.nodes, UTree.nodess, List.mem_cons, List.append_nil] at hs
        rcases hs with rfl | hs
        · exact ⟨rfl, rfl⟩
        · exact ih _ _ _ _ h2 s hs
      · simp only [pure_ok, Prod.mk.injEq] at h
        obtain ⟨rfl, _⟩ := h
        simp only [UTree.nodes, UTree.nodess, List.mem_singleton] at hs
        subst hs; exact ⟨rfl, rfl⟩
    have hl : ∀ (ks : List Nat) (c : Nat) (ts : List UTree) (c' : Nat), treesOf (clauseTree fuel o (goalTree fuel o n)) ks c = .ok (ts, c') →
        ∀ s ∈ UTree.nodess ts, s.info.bindings = [] ∧ s.info.firstFact = 0 := by
      intro ks
      induction ks with
      | nil => intro c ts c' h s hs; simp only [treesOf, pure_ok, Prod.mk.injEq] at h; rw [← h.1] at hs; simp [UTree.nodess] at hs
      | cons k ks ihk =>
        intro c ts c' h s hs
        simp only [treesOf, bind_ok, pure_ok, Prod.mk.injEq] at h
        obtain ⟨⟨t, c1⟩, h1, ⟨ts1, c2⟩, h2, rfl, _⟩ := h
        simp only [UTree.nodess, List.mem_append] at hs
        rcases hs with hs | hs
        · exact hc _ _ _ _ h1 s hs
        · exact ihk _ _ _ h2 s hs
    intro s hs
    simp only [UTree.nodes, List.mem_cons] at hs
    rcases hs with rfl | hs
    · exact ⟨rfl, rfl⟩
    · exact hl _ _ _ _ h1 s hs

theorem tree_labels {fuel : Nat} {o : Org} {t} (hr : Reach o) (h : o.unificationTree fuel = .ok t) : ∀ s ∈ t.nodes, s.info.goal = true → LabelOK o s := by
  obtain ⟨lab, hk⟩ := hr.kinv
  have inv := hr.finv.rinv.inv
  simp only [unificationTree, bind_ok] at h
  obtain ⟨⟨t0, c⟩, h1, h2⟩ := h
  obtain ⟨_, a2, a3⟩ := goalTree_good hk inv _ _ _ _ _ hk.root h1
  refine resolveGoal_labels hr.lists h2 a2 fun s hs => ⟨⟨(goalTree_blank _ _ _ _ _ h1 s hs).1, (goalTree_blank _ _ _ _ _ h1 s hs).2, fun e he hc => ?_⟩, (a3 s hs).alt⟩
  have hne : e.state ≠ .archived := by
    intro ha
    rcases hc with hc | hc
    · simp [Exec.failed, ha] at hc
    · rw [ha] at hc; cases hc
  have := (a3 s hs).kids
  rw [hk.unarchived inv he hne] at this
  simpa using this

end PBfs
