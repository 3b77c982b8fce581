import Verif.Spec.Tree
import Verif.Props.Goals
/-! # The tree of executors -/
namespace PBfs
open Org

/-! ## Who created whom -/

theorem createdBy_set {l : List Exec} {id : Nat} {e e' : Exec} (he : l[id]? = some e) (hp : e'.parent = e.parent) (p : Nat) :
    createdBy (l.set id e') p = createdBy l p := by
  unfold createdBy
  rw [List.length_set]
  apply List.filter_congr
  intro j _
  by_cases hj : id = j
  · subst hj
    rw [List.getElem?_set_self (List.getElem?_eq_some_iff.1 he).1, he]
    simp [hp]
  · rw [List.getElem?_set_ne hj]

theorem createdBy_append {l news : List Exec} {id : Nat} (hn : ∀ n ∈ news, n.parent = some id) (p : Nat) :
    createdBy (l ++ news) p = createdBy l p ++ (if p = id then List.range' l.length news.length else []) := by
  unfold createdBy
  rw [List.length_append, List.range_eq_range', ← List.range'_append_1, List.filter_append, ← List.range_eq_range', Nat.zero_add]
  congr 1
  · apply List.filter_congr
    intro j hj
    rw [List.getElem?_append_left (by simpa using hj)]
  · have key : ∀ j ∈ List.range' l.length news.length, ((l ++ news)[j]?.bind (·.parent)) = some id := by
      intro j hj
      simp only [List.mem_range'_1] at hj
      rw [List.getElem?_append_right hj.1, List.getElem?_eq_getElem (by omega)]
      exact hn _ (List.getElem_mem _)
    split
    · rename_i h
      subst h
      rw [List.filter_eq_self]
      intro j hj
      rw [key j hj]; simp
    · rename_i h
      rw [List.filter_eq_nil_iff]
      intro j hj
      rw [key j hj]
      simp only [beq_iff_eq, Option.some.injEq]
      exact fun h' => h h'.symm

theorem mem_createdBy {l : List Exec} {p j : Nat} : j ∈ createdBy l p ↔ ∃ e, l[j]? = some e ∧ e.parent = some p := by
  unfold createdBy
  simp only [List.mem_filter, List.mem_range, beq_iff_eq]
  constructor
  · rintro ⟨h1, h2⟩
    rw [List.getElem?_eq_getElem h1] at h2 ⊢
    exact ⟨_, rfl, by simpa using h2⟩
  · rintro ⟨e, h1, h2⟩
    exact ⟨(List.getElem?_eq_some_iff.1 h1).1, by rw [h1]; simpa using h2⟩

theorem createdBy_nodup (l : List Exec) (p : Nat) : (createdBy l p).Nodup := List.nodup_range.filter _

/-- What the executor works on or has worked on. -/
def Exec.top (e : Exec) : Option CAtom := e.codes.head?.map (·.atom)

/-- What holds of the tree of executors; `lab` tells which ones are there for goals, not for clauses. -/
structure KInv (o : Org) (lab : Nat → Bool) : Prop where
  root : lab 0 = true
  nonempty : o.execs ≠ []
  par : ∀ (id : Nat) (e : Exec), o.execs[id]? = some e → (e.parent = none ↔ id = 0)
  alt : ∀ (id : Nat) (e : Exec) (p : Nat), o.execs[id]? = some e → e.parent = some p → lab id = !lab p
  kids : ∀ (id : Nat) (e : Exec), o.execs[id]? = some e → e.children = createdBy o.execs id
  one : ∀ (id : Nat) (e : Exec), o.execs[id]? = some e → lab id = false → e.state = .archived → ∃ k, e.children = [k]
  head : ∀ (id : Nat) (e : Exec), o.execs[id]? = some e → lab id = false → ∃ t ts, e.codes = t :: ts ∧ t.atom.head?.isSome
  goal : ∀ (id : Nat) (e : Exec), o.execs[id]? = some e → lab id = true → id ∈ o.queue → ∀ t ∈ e.codes, t.atom.head? = none
  called : ∀ (id : Nat) (e : Exec), o.execs[id]? = some e → lab id = true → e.state ≠ .running → e.state ≠ .success ∧ ∃ a g, e.top = some a ∧ a.goal? = some g

theorem KInv.congr {o o' : Org} {lab} (h : KInv o lab) (he : o'.execs = o.execs) (hq : ∀ id ∈ o'.queue, id ∈ o.queue) : KInv o' lab := by
  refine ⟨h.root, ?_, ?_, ?_, ?_, ?_, ?_, ?_, ?_⟩ <;> rw [he]
  · exact h.nonempty
  · exact h.par
  · exact h.alt
  · exact h.kids
  · exact h.one
  · exact h.head
  · exact fun id e h1 h2 h3 => h.goal id e h1 h2 (hq id h3)
  · exact h.called

/-- The executor at work changes, without creating others. -/
theorem KInv.set {o o' : Org} {lab id q} {e e' : Exec} (h : KInv o lab) (he : o.execs[id]? = some e) (hq : o.queue = id :: q)
    (hx : o'.execs = o.execs.set id e') (hp : e'.parent = e.parent) (hk : e'.children = e.children) (hs : e'.state ≠ .archived)
    (hh : lab id = false → ∃ t ts, e'.codes = t :: ts ∧ t.atom.head?.isSome)
    (hq' : o'.queue = q ∨ o'.queue = q ++ [id] ∧ (lab id = true → ∀ t ∈ e'.codes, t.atom.head? = none)) (hnd : id ∉ q)
    (hcl : lab id = true → e'.state ≠ .running → e'.state ≠ .success ∧ ∃ a g, e'.top = some a ∧ a.goal? = some g) : KInv o' lab := by
  have hlt : id < o.execs.length := (List.getElem?_eq_some_iff.1 he).1
  have cb : ∀ p, createdBy o'.execs p = createdBy o.execs p := fun p => by rw [hx]; exact createdBy_set he hp p
  have get : ∀ {j x}, o'.execs[j]? = some x → (j = id ∧ x = e') ∨ (j ≠ id ∧ o.execs[j]? = some x) := by
    intro j x hj
    rw [hx] at hj
    rcases getElem?_set_some hj with ⟨rfl, rfl⟩ | ⟨h1, h2⟩
    · exact .inl ⟨rfl, rfl⟩
    · exact .inr ⟨fun h => h1 h.symm, h2⟩
  refine ⟨h.root, by rw [hx]; simpa using h.nonempty, ?_, ?_, ?_, ?_, ?_, ?_, ?_⟩
  · intro j x hj
    rcases get hj with ⟨rfl, rfl⟩ | ⟨_, hj⟩
    · rw [hp]; exact h.par _ _ he
    · exact h.par _ _ hj
  · intro j x p hj hp'
    rcases get hj with ⟨rfl, rfl⟩ | ⟨_, hj⟩
    · exact h.alt _ _ _ he (hp ▸ hp')
    · exact h.alt _ _ _ hj hp'
  · intro j x hj
    rw [cb]
    rcases get hj with ⟨rfl, rfl⟩ | ⟨_, hj⟩
    · rw [hk]; exact h.kids _ _ he
    · exact h.kids _ _ hj
  · intro j x hj hl ha
    rcases get hj with ⟨rfl, rfl⟩ | ⟨_, hj⟩
    · exact absurd ha hs
    · exact h.one _ _ hj hl ha
  · intro j x hj hl
    rcases get hj with ⟨rfl, rfl⟩ | ⟨_, hj⟩
    · exact hh hl
    · exact h.head _ _ hj hl
  · intro j x hj hl hm
    rcases get hj with ⟨rfl, rfl⟩ | ⟨hne, hj⟩
    · rcases hq' with h1 | ⟨h1, h2⟩
      · rw [h1] at hm; exact absurd hm hnd
      · exact h2 hl
    · refine h.goal _ _ hj hl ?_
      rw [hq]
      rcases hq' with h1 | ⟨h1, _⟩
      · rw [h1] at hm; exact List.mem_cons_of_mem _ hm
      · rw [h1] at hm
        simp only [List.mem_append, List.mem_singleton] at hm
        rcases hm with hm | hm
        · exact List.mem_cons_of_mem _ hm
        · exact absurd hm hne
  · intro j x hj hl hr
    rcases get hj with ⟨rfl, rfl⟩ | ⟨_, hj⟩
    · exact hcl hl hr
    · exact h.called _ _ hj hl hr

/-- The executor at work creates others. -/
theorem KInv.spawn {o o' : Org} {lab id q} {e e' : Exec} {news : List Exec} (h : KInv o lab) (hpl : ParLt o.execs) (he : o.execs[id]? = some e) (hq : o.queue = id :: q)
    (hx : o'.execs = o.execs.set id e' ++ news) (hp : e'.parent = e.parent)
    (hk : e'.children = e.children ++ List.range' o.execs.length news.length)
    (hn : ∀ n ∈ news, n.parent = some id ∧ n.children = [] ∧ n.state = .running)
    (hh : lab id = false → (∃ t ts, e'.codes = t :: ts ∧ t.atom.head?.isSome) ∧ news.length = 1 ∧ ∀ n ∈ news, ∀ t ∈ n.codes, t.atom.head? = none)
    (hg : lab id = true → ∀ n ∈ news, ∃ t ts, n.codes = t :: ts ∧ t.atom.head?.isSome)
    (hc : e.children = []) (hq' : o'.queue = q ++ List.range' o.execs.length news.length) (hnd : id ∉ q)
    (hcl : lab id = true → e'.state ≠ .success ∧ ∃ a g, e'.top = some a ∧ a.goal? = some g) :
    KInv o' (fun j => if j < o.execs.length then lab j else !lab id) := by
  have hlt : id < o.execs.length := (List.getElem?_eq_some_iff.1 he).1
  have cb : ∀ p, createdBy o'.execs p = createdBy o.execs p ++ (if p = id then List.range' o.execs.length news.length else []) := fun p => by
    rw [hx, createdBy_append (fun n hm => (hn n hm).1), createdBy_set he hp, List.length_set]
  have get : ∀ {j x}, o'.execs[j]? = some x → (j = id ∧ x = e') ∨ (j ≠ id ∧ j < o.execs.length ∧ o.execs[j]? = some x) ∨
      (o.execs.length ≤ j ∧ x ∈ news) := by
    intro j x hj
    rw [hx] at hj
    by_cases hl : j < o.execs.length
    · rw [List.getElem?_append_left (by simpa using hl)] at hj
      rcases getElem?_set_some hj with ⟨rfl, rfl⟩ | ⟨h1, h2⟩
      · exact .inl ⟨rfl, rfl⟩
      · exact .inr (.inl ⟨fun h => h1 h.symm, hl, h2⟩)
    · rw [List.getElem?_append_right (by simp; omega)] at hj
      exact .inr (.inr ⟨by omega, List.mem_of_getElem? hj⟩)
  have lpos : 0 < o.execs.length := by omega
  refine ⟨by simp [lpos, h.root], by rw [hx]; simp [h.nonempty], ?_, ?_, ?_, ?_, ?_, ?_, ?_⟩
  · intro j x hj
    rcases get hj with ⟨rfl, rfl⟩ | ⟨_, _, hj⟩ | ⟨hl, hm⟩
    · rw [hp]; exact h.par _ _ he
    · exact h.par _ _ hj
    · rw [(hn x hm).1]; simp; omega
  · intro j x p hj hp'
    have old : ∀ {j : Nat} {x : Exec}, o.execs[j]? = some x → x.parent = some p → p < o.execs.length → j < o.execs.length →
        (fun j => if j < o.execs.length then lab j else !lab id) j = !(fun j => if j < o.execs.length then lab j else !lab id) p := by
      intro j x hj hp' h1 h2
      simp only [h1, h2, if_true]
      exact h.alt _ _ _ hj hp'
    have plt : ∀ {j : Nat} {x : Exec}, o.execs[j]? = some x → x.parent = some p → p < o.execs.length := by
      intro j x hj hp'
      have := hpl _ _ _ hj hp'
      have := (List.getElem?_eq_some_iff.1 hj).1
      omega
    rcases get hj with ⟨rfl, rfl⟩ | ⟨_, hl, hj⟩ | ⟨hl, hm⟩
    · exact old he (hp ▸ hp') (plt he (hp ▸ hp')) hlt
    · exact old hj hp' (plt hj hp') hl
    · rw [(hn x hm).1] at hp'
      cases hp'
      simp [hlt, Nat.not_lt.2 hl]
  · intro j x hj
    rw [cb]
    rcases get hj with ⟨rfl, rfl⟩ | ⟨hne, _, hj⟩ | ⟨hl, hm⟩
    · rw [hk, if_pos rfl, h.kids _ _ he]
    · rw [if_neg hne, List.append_nil]; exact h.kids _ _ hj
    · rw [(hn x hm).2.1, if_neg (by omega), List.append_nil]
      symm
      rw [List.eq_nil_iff_forall_not_mem]
      intro k hk
      obtain ⟨y, k1, k2⟩ := mem_createdBy.1 hk
      have := hpl _ _ _ k1 k2
      have := (List.getElem?_eq_some_iff.1 k1).1
      omega
  · intro j x hj hl ha
    rcases get hj with ⟨rfl, rfl⟩ | ⟨hne, hlj, hj⟩ | ⟨hlj, hm⟩
    · simp only [hlt, if_true] at hl
      rw [hk, hc, (hh hl).2.1]
      exact ⟨_, rfl⟩
    · simp only [hlj, if_true] at hl
      exact h.one _ _ hj hl ha
    · exact absurd ha (by rw [(hn x hm).2.2]; simp)
  · intro j x hj hl
    rcases get hj with ⟨rfl, rfl⟩ | ⟨hne, hlj, hj⟩ | ⟨hlj, hm⟩
    · simp only [hlt, if_true] at hl
      exact (hh hl).1
    · simp only [hlj, if_true] at hl
      exact h.head _ _ hj hl
    · simp only [Nat.not_lt.2 hlj, if_false, Bool.not_eq_false'] at hl
      exact hg hl x hm
  · intro j x hj hl hm
    rw [hq', List.mem_append] at hm
    rcases get hj with ⟨rfl, rfl⟩ | ⟨hne, hlj, hj⟩ | ⟨hlj, hx⟩
    · rcases hm with hm | hm
      · exact absurd hm hnd
      · simp at hm; omega
    · simp only [hlj, if_true] at hl
      refine h.goal _ _ hj hl ?_
      rcases hm with hm | hm
      · rw [hq]; exact List.mem_cons_of_mem _ hm
      · simp at hm; omega
    · simp only [Nat.not_lt.2 hlj, if_false, Bool.not_eq_true'] at hl
      exact (hh hl).2.2 x hx
  · intro j x hj hl hs
    rcases get hj with ⟨rfl, rfl⟩ | ⟨hne, hlj, hj⟩ | ⟨hlj, hm⟩
    · simp only [hlt, if_true] at hl
      exact hcl hl
    · simp only [hlj, if_true] at hl
      exact h.called _ _ hj hl hs
    · exact absurd (hn x hm).2.2 hs

theorem Stacked.no_head {cs es} (h : Stacked QBase cs es) : ∀ t ∈ cs, t.atom.head? = none := by
  intro t ht
  rcases h.kinds t ht with h1 | h1
  · unfold CAtom.goal? at h1
    unfold CAtom.head?
    split at h1
    · rename_i h2; rw [h2]
    · cases h1
  · rw [h1]; exact dealloc_kind.2

theorem KInv.no_kids {o : Org} {lab id e} (h : KInv o lab) (inv : o.Inv) (hid : id ∈ o.queue) (he : o.execs[id]? = some e) : e.children = [] := by
  rw [h.kids _ _ he, List.eq_nil_iff_forall_not_mem]
  intro k hk
  obtain ⟨y, k1, k2⟩ := mem_createdBy.1 hk
  exact inv.no_child hid k1 k2

theorem KInv.turn {o o' : Org} {fuel r lab} (h : KInv o lab) (hf : FInv o) (ht : o.turn fuel = .ok (o', r)) : ∃ lab', KInv o' lab' := by
  cases hq : o.queue with
  | nil =>
    simp only [Org.turn, hq, pure_ok, Prod.mk.injEq] at ht
    rw [← ht.1]; exact ⟨lab, h⟩
  | cons id q =>
    have inv := hf.rinv.inv
    have hm : id ∈ o.queue := by simp [hq]
    have hnd : id ∉ q := by
      have := inv.qnd
      rw [hq] at this
      exact (List.nodup_cons.1 this).1
    obtain ⟨e, he, hrun, _⟩ := inv.qrun id hm
    have hlt : id < o.execs.length := (List.getElem?_eq_some_iff.1 he).1
    have hnk := h.no_kids inv hm he
    cases hc : e.codes with
    | nil => simp [Org.turn, hq, turnOf, Org.exec, he, hc] at ht
    | cons t ts =>
      rcases hf.front hq he hc with ⟨ds, h1, h2, _, h4⟩ | hg | ⟨h1, env, es', h2, h3⟩
      · have hlab : lab id = false := by
          cases hl : lab id with
          | false => rfl
          | true =>
            have := h.goal _ _ he hl hm t (by simp [hc])
            rw [(head?_of_proceed h1).1] at this; cases this
        have hhd : t.atom.head?.isSome := by rw [(head?_of_proceed h1).1]; rfl
        obtain ⟨e1, hr, hst, hx⟩ := turn_proceed inv hq he hc h1 h2 ht
        have fr := runData_frame hr
        have hcod : e1.codes = t :: ts := fr.codes.trans hc
        have hpar : e1.parent = e.parent := fr.parent
        have hkid : e1.children = e.children := fr.children
        have htop : ∃ t' ts', e1.codes.take 1 = t' :: ts' ∧ t'.atom.head?.isSome := ⟨t, [], by rw [hcod]; rfl, hhd⟩
        rcases hx with ⟨k1, k2, rfl⟩ | ⟨err, k1, k2, k3, rfl⟩ | ⟨k1, k2, k3, rfl⟩ | ⟨k1, k2, k3, rfl⟩
        · exact ⟨lab, h.set he hq rfl hpar hkid (by simp [Exec.clear, k1]) (fun _ => htop) (.inl rfl) hnd (fun hl => by rw [hlab] at hl; cases hl)⟩
        · exact ⟨lab, h.set he hq rfl hpar hkid (by simp [Exec.clear, k1]) (fun _ => htop) (.inl rfl) hnd (fun hl => by rw [hlab] at hl; cases hl)⟩
        · exact ⟨lab, h.set he hq rfl hpar hkid (by simp) (fun _ => htop) (.inl rfl) hnd (fun hl => by rw [hlab] at hl; cases hl)⟩
        · refine ⟨_, h.spawn (news := [proceedChild id e1]) inv.parLt he hq rfl hpar (by simp [hkid, List.range']) ?_ (fun _ => ⟨htop, rfl, ?_⟩)
            (fun hl => by rw [hlab] at hl; cases hl) hnk (by simp [List.range']) hnd (fun hl => by rw [hlab] at hl; cases hl)⟩
          · intro n hn
            simp only [List.mem_singleton] at hn
            subst hn
            exact ⟨rfl, rfl, rfl⟩
          · intro n hn
            simp only [List.mem_singleton] at hn
            subst hn
            simp only [proceedChild, hcod, List.drop_succ_cons, List.drop_zero]
            exact (h4 _ _ _ (e.start t.atom) _ rfl hrun hr).no_head
      · have hlab : lab id = true := by
          cases hl : lab id with
          | true => rfl
          | false =>
            obtain ⟨t', ts', k1, k2⟩ := h.head _ _ he hl
            rw [hc] at k1; cases k1
            rw [hg.goal?.2] at k2; cases k2
        have hgl := hg.goal?.1
        obtain ⟨ds, h1, h2, _, h3⟩ := hg
        obtain ⟨e1, hr, _, hst, hx⟩ := turn_call inv hq he hc h1 h2 (fun e1 hr => (h3 _ _ _ (e.start t.atom) _ rfl hrun hr).1) ht
        have fr := runData_frame hr
        have hpar : e1.parent = e.parent := fr.parent
        have hkid : e1.children = e.children := fr.children
        have hcod : e1.codes = t :: ts := fr.codes.trans hc
        rcases hx with ⟨_, rfl⟩ | ⟨rules, hrl, rfl⟩
        · exact ⟨lab, h.set he hq rfl hpar hkid (by simp [Exec.clear, Exec.setFailed]) (fun hl => by rw [hlab] at hl; cases hl) (.inl rfl) hnd
            fun _ _ => ⟨by simp [Exec.clear, Exec.setFailed], t.atom, _, by simp [Exec.top, Exec.clear, Exec.setFailed, hcod], hgl⟩⟩
        · refine ⟨_, h.spawn (news := rules.map (o.callChild id e1)) inv.parLt he hq rfl hpar (by simp [hkid, Exec.clear]) ?_
            (fun hl => by rw [hlab] at hl; cases hl) ?_ hnk (by simp) hnd
            fun _ => ⟨by simp, t.atom, _, by simp [Exec.top, Exec.clear, hcod], hgl⟩⟩
          · intro n hn
            obtain ⟨r, _, rfl⟩ := List.mem_map.1 hn
            exact ⟨rfl, rfl, rfl⟩
          · intro _ n hn
            obtain ⟨r, hm, rfl⟩ := List.mem_map.1 hn
            obtain ⟨head, body, hrf, _⟩ := (hf.prog _ _ hrl).2 r hm
            obtain ⟨a, r', rfl, k2, _⟩ := hrf.goals 0
            exact ⟨_, _, rfl, by rw [k2]; rfl⟩
      · obtain ⟨env', es2, k1, _, _, rfl⟩ := turn_dealloc inv hq he hc (by rw [h1]; rfl) ht
        have hlab : lab id = true := by
          cases hl : lab id with
          | true => rfl
          | false =>
            obtain ⟨t', ts', k1, k2⟩ := h.head _ _ he hl
            rw [hc] at k1; cases k1
            rw [h1, dealloc_kind.2] at k2; cases k2
        exact ⟨lab, h.set he hq rfl rfl rfl (by simp [Exec.start, hrun]) (fun hl => by rw [hlab] at hl; cases hl)
          (.inr ⟨rfl, fun _ => h3.no_head⟩) hnd (fun _ h => absurd hrun h)⟩

theorem KInv.single {o : Org} {e : Exec} (h : o.execs = [e]) (hp : e.parent = none) (hc : e.children = [])
    (hg : 0 ∈ o.queue → ∀ t ∈ e.codes, t.atom.head? = none)
    (hcl : e.state ≠ .running → e.state ≠ .success ∧ ∃ a g, e.top = some a ∧ a.goal? = some g) : KInv o fun _ => true := by
  have get : ∀ {j x}, o.execs[j]? = some x → j = 0 ∧ x = e := by
    intro j x hj
    rw [h] at hj
    cases j with
    | zero => simp at hj; exact ⟨rfl, hj.symm⟩
    | succ j => simp at hj
  refine ⟨rfl, by simp [h], ?_, ?_, ?_, by simp, by simp, ?_, ?_⟩
  · intro j x hj
    obtain ⟨rfl, rfl⟩ := get hj
    simp [hp]
  · intro j x p hj hpp
    obtain ⟨rfl, rfl⟩ := get hj
    rw [hp] at hpp; cases hpp
  · intro j x hj
    obtain ⟨rfl, rfl⟩ := get hj
    rw [hc, h]
    simp [createdBy, hp]
  · intro j x hj _ hm
    obtain ⟨rfl, rfl⟩ := get hj
    exact hg hm
  · intro j x hj _
    obtain ⟨rfl, rfl⟩ := get hj
    exact hcl

theorem KInv.getAnswer {o o' : Org} {fuel clock r lab} (h : KInv o lab) (hf : FInv o) (ha : o.getAnswer fuel clock = .ok (o', r)) :
    ∃ lab', KInv o' lab' := by
  induction clock generalizing o lab with
  | nil =>
    unfold Org.getAnswer at ha
    split at ha <;> (simp only [pure_ok, Prod.mk.injEq] at ha; rw [← ha.1]; exact ⟨_, h⟩)
  | cons c clock ih =>
    unfold Org.getAnswer at ha
    split at ha
    · simp only [pure_ok, Prod.mk.injEq] at ha; rw [← ha.1]; exact ⟨_, h⟩
    · cases c with
      | true => simp only [pure_ok, Prod.mk.injEq] at ha; rw [← ha.1]; exact ⟨_, h⟩
      | false =>
        simp only [bind_ok] at ha
        obtain ⟨⟨o1, t⟩, h1, ha⟩ := ha
        obtain ⟨lab', h'⟩ := h.turn hf h1
        cases t with
        | «continue» => exact ih h' (hf.turn h1) ha
        | answer => simp only [pure_ok, Prod.mk.injEq] at ha; rw [← ha.1]; exact ⟨_, h'⟩
        | error => simp only [pure_ok, Prod.mk.injEq] at ha; rw [← ha.1]; exact ⟨_, h'⟩

theorem Reach.kinv {o} (h : Reach o) : ∃ lab, KInv o lab := by
  induction h with
  | init h =>
    unfold Org.init at h
    simp only [bind_ok, pure_ok] at h
    obtain ⟨⟨b, st⟩, hb, rfl⟩ := h
    exact ⟨_, .single rfl rfl rfl (by simp) (fun h => absurd rfl h)⟩
  | @program o ord parsed _ ih =>
    obtain ⟨lab, ih⟩ := ih
    refine ⟨lab, ih.congr ?_ ?_⟩
    · unfold Org.loadProgram; split
      · rfl
      · split <;> rfl
    · unfold Org.loadProgram; split
      · exact fun _ h => h
      · split <;> exact fun _ h => h
  | @query o ord parsed hr ih =>
    obtain ⟨lab, ih⟩ := ih
    have hf := (hr.query ord parsed).finv
    unfold Org.loadQuery at hf ⊢
    simp only at hf ⊢
    cases parsed with
    | none => exact ⟨lab, ih.congr rfl (by simp)⟩
    | some cs =>
      simp only at hf ⊢
      cases hc : compileQuery ord cs o.st with
      | error x => exact ⟨lab, ih.congr rfl (by simp)⟩
      | ok x =>
        obtain ⟨qy, st⟩ := x
        simp only
        refine ⟨_, .single rfl rfl rfl (fun _ => ?_) (fun h => absurd rfl h)⟩
        have : Stacked QBase (initExec qy).codes [] := by
          refine .base (.start (atoms := cs) ?_ rfl)
          have := compileQuery_form hc
          simpa [initExec, Function.comp_def] using this
        exact this.no_head
  | answer hr ha ih =>
    obtain ⟨lab, ih⟩ := ih
    exact ih.getAnswer hr.finv ha
  | @memory o hr ih =>
    obtain ⟨lab, ih⟩ := ih
    cases hx : o.execs with
    | nil => exact absurd hx ih.nonempty
    | cons e es =>
      refine ⟨_, .single (e := { e with codes := e.codes.map fun t => ⟨o.gen, t.atom⟩, children := [] }) (by simp [Org.clearMemory, hx]) ?_ rfl
        (by simp [Org.clearMemory]) ?_⟩
      · exact (ih.par 0 e (by simp [hx])).2 rfl
      · intro hs
        obtain ⟨h1, a, g, ha, hg⟩ := ih.called 0 e (by simp [hx]) ih.root hs
        refine ⟨h1, a, g, ?_, hg⟩
        revert ha
        cases hc : e.codes <;> simp [Exec.top, hc]

end PBfs
