import Verif.Proof.Draw
/-! # The drawing shows the whole tree -/
namespace PBfs
open Org

/-- The goals in a tree. -/
def UTree.goals (t : UTree) : List UTree := t.nodes.filter (·.info.goal)

/-- What is known about the nodes of the tree. -/
structure TOK (fuel : Nat) (o : Org) (lab : Nat → Bool) (t : UTree) : Prop where
  ok : ∀ s ∈ t.nodes, NodeOK fuel o lab s
  k : KInv o lab
  inv : o.Inv

theorem UTree.nodess_eq (ts : List UTree) : nodess ts = ts.flatMap nodes := by
  induction ts with
  | nil => rfl
  | cons t ts ih => simp [nodess, ih]

theorem UTree.nodes_eq (t : UTree) : t.nodes = t :: t.kids.flatMap nodes := by
  cases t with
  | node i ks => simp [nodes, kids, nodess_eq]

section
variable {fuel : Nat} {o : Org} {lab : Nat → Bool} {t u : UTree} (h : TOK fuel o lab t) (hu : u ∈ t.nodes)
include h hu

theorem TOK.kids_nil {e} (he : o.execs[u.info.exec]? = some e) (hs : e.state ≠ .archived) : u.kids = [] := by
  have := (h.ok u hu).kids
  rw [h.k.unarchived h.inv he hs] at this
  exact List.map_eq_nil_iff.1 this

theorem TOK.kids_one {e} (he : o.execs[u.info.exec]? = some e) (hg : u.info.goal = false) (hs : e.state = .archived) : ∃ g, u.kids = [g] := by
  obtain ⟨k, hk⟩ := h.k.one _ _ he ((h.ok u hu).lab.trans hg) hs
  have := (h.ok u hu).kids
  rw [← h.k.kids _ _ he, hk] at this
  cases hx : u.kids with
  | nil => rw [hx] at this; cases this
  | cons g gs =>
    rw [hx] at this
    simp only [List.map_cons, List.cons.injEq, List.map_eq_nil_iff] at this
    exact ⟨g, by rw [this.2]⟩

theorem TOK.goal_state {e} (he : o.execs[u.info.exec]? = some e) (hg : u.info.goal = true) :
    e.state = .running ∨ e.failed = true ∨ e.state = .archived := by
  by_cases hr : e.state = .running
  · exact .inl hr
  · have := (h.k.called _ _ he ((h.ok u hu).lab.trans hg) hr).1
    simp only [Exec.failed]
    cases hs : e.state <;> simp_all

/-- What is drawn for an alternative. -/
theorem TOK.alt {e} (he : o.execs[u.info.exec]? = some e) (hg : u.info.goal = false) :
    (outAlt o u).getLeft?.toList = u.kids ∧
    ((outAlt o u).getRight?.toList.filterMap Box.answer?) = (u.info.final.map finalStr).toList ∧
    ((outAlt o u).getRight?.toList.countP (· = .more)) = if e.state = .running then 1 else 0 := by
  have hkn := fun hs => h.kids_nil hu he hs
  have hko := fun hs => h.kids_one hu he hg hs
  have hfin := (h.ok u hu).final e he
  have hans := (h.ok u hu).answered e he hg
  rw [hg] at hfin
  simp only [true_and] at hfin
  cases u with
  | node i ks =>
    simp only [UTree.info_node, UTree.kids_node] at *
    by_cases ha : e.state = .archived
    · obtain ⟨g, rfl⟩ := hko ha
      rw [if_neg (by simp [ha])] at hfin
      rw [hfin]
      simp [outAlt, ha]
    · rw [hkn ha]
      simp only [outAlt, he]
      by_cases hf : e.failed = true
      · rw [if_pos hf]
        have h1 : e.state ≠ .success := by intro h1; simp [Exec.failed, h1] at hf
        have h2 : e.state ≠ .running := by intro h1; simp [Exec.failed, h1] at hf
        rw [if_neg h1] at hfin
        rw [hfin]
        simp [h2, Box.answer?]
      · rw [if_neg hf]
        by_cases hs : e.state = .success
        · rw [if_pos hs] at hfin ⊢
          obtain ⟨bs, hb⟩ := hans hs
          rw [hfin, hb]
          simp [hs, Box.answer?, Except.toOption]
        · rw [if_neg hs] at hfin ⊢
          rw [hfin]
          have : e.state = .running := by
            simp only [Exec.failed] at hf
            cases hx : e.state <;> simp_all
          simp [this, Box.answer?]
end

/-- Whether an executor waits for its turn. -/
def isRunning (o : Org) (s : UTree) : Bool := (o.execs[s.info.exec]?.map (·.state)) == some .running

theorem nexts_cons (x : UTree ⊕ Box) (l) : nexts (x :: l) = x.getLeft?.toList ++ nexts l := by
  cases x <;> simp [nexts, List.filterMap_cons, Sum.getLeft?]

theorem boxes_cons (x : UTree ⊕ Box) (l) : boxes (x :: l) = x.getRight?.toList ++ boxes l := by
  cases x <;> simp [boxes, List.filterMap_cons, Sum.getRight?]

theorem TOK.alts {fuel : Nat} {o : Org} {lab : Nat → Bool} {t : UTree} (h : TOK fuel o lab t) : ∀ (ks : List UTree),
    (∀ k ∈ ks, k ∈ t.nodes ∧ k.info.goal = false) →
    nexts (ks.map (outAlt o)) = ks.flatMap UTree.kids ∧
    (boxes (ks.map (outAlt o))).filterMap Box.answer? = ks.filterMap (fun k => k.info.final.map finalStr) ∧
    (boxes (ks.map (outAlt o))).countP (· = .more) = ks.countP (isRunning o)
  | [], _ => by simp [nexts, boxes]
  | k :: ks, hm => by
    obtain ⟨h1, h2, h3⟩ := h.alts ks (fun k hk => hm k (by simp [hk]))
    obtain ⟨m1, m2⟩ := hm k (by simp)
    obtain ⟨e, he⟩ := (h.ok k m1).ex
    obtain ⟨a1, a2, a3⟩ := h.alt m1 he m2
    refine ⟨?_, ?_, ?_⟩
    · rw [List.map_cons, nexts_cons, h1, a1]; rfl
    · rw [List.map_cons, boxes_cons, List.filterMap_append, h2, a2, List.filterMap_cons]
      cases k.info.final <;> rfl
    · rw [List.map_cons, boxes_cons, List.countP_append, h3, a3, List.countP_cons]
      simp only [isRunning, he, Option.map_some]
      by_cases hr : e.state = .running <;> simp [hr, Nat.add_comm]

/-- What is drawn for a goal. -/
theorem TOK.goal {fuel : Nat} {o : Org} {lab : Nat → Bool} {t u : UTree} (h : TOK fuel o lab t) (hu : u ∈ t.nodes) (hg : u.info.goal = true) :
    nexts (outs o u) = u.kids.flatMap UTree.kids ∧
    (boxes (outs o u)).filterMap Box.answer? = (u :: u.kids).filterMap (fun k => k.info.final.map finalStr) ∧
    (boxes (outs o u)).countP (· = .more) = (u :: u.kids).countP (isRunning o) := by
  obtain ⟨e, he⟩ := (h.ok u hu).ex
  have hkn := fun hs => h.kids_nil hu he hs
  have hkm : ∀ k ∈ u.kids, k ∈ t.nodes ∧ k.info.goal = false := fun k hk => ⟨t.kid_mem hu hk, by rw [(h.ok u hu).alt k hk, hg]; rfl⟩
  have hst := h.goal_state hu he hg
  have hfin := (h.ok u hu).final e he
  rw [if_neg (by simp [hg])] at hfin
  have hal := h.alts u.kids hkm
  cases u with
  | node i ks =>
    simp only [UTree.info_node, UTree.kids_node] at *
    simp only [outs, he, List.filterMap_cons, UTree.info_node, hfin, List.countP_cons, isRunning, Option.map_some, Option.map_none]
    by_cases hr : e.state = .running
    · rw [if_pos hr, hkn (by simp [hr])]
      simp [nexts, boxes, hr, Box.answer?, Sum.getLeft?, Sum.getRight?, List.filterMap_cons]
    · rw [if_neg hr]
      by_cases hf : e.failed = true
      · rw [if_pos hf, hkn (by intro h1; simp [Exec.failed, h1] at hf)]
        simp [nexts, boxes, hr, Box.answer?, Sum.getLeft?, Sum.getRight?, List.filterMap_cons]
      · rw [if_neg hf]
        refine ⟨hal.1, hal.2.1, ?_⟩
        rw [hal.2.2]
        simp [hr]

theorem UTree.goals_eq {t : UTree} (hg : t.info.goal = true) (ha : ∀ k ∈ t.kids, k.info.goal = false) :
    t.goals = t :: (t.kids.flatMap kids).flatMap goals := by
  unfold goals
  rw [nodes_eq, List.filter_cons, if_pos hg]
  congr 1
  generalize t.kids = ks at ha
  induction ks with
  | nil => rfl
  | cons k ks ih =>
    rw [List.flatMap_cons, List.filter_append, ih (fun k hk => ha k (by simp [hk])), List.flatMap_cons, List.flatMap_append]
    congr 1
    rw [nodes_eq, List.filter_cons, if_neg (by simp [ha k (by simp)])]
    generalize k.kids = gs
    induction gs with
    | nil => rfl
    | cons g gs ih => simp [List.filter_append, ih]

/-- The goals and their alternatives are all nodes. -/
theorem TOK.split {fuel : Nat} {o : Org} {lab : Nat → Bool} {t : UTree} (h : TOK fuel o lab t) : ∀ (n : Nat) (u : UTree), u.nodes.length ≤ n →
    u ∈ t.nodes → u.info.goal = true → u.nodes.Perm (u.goals.flatMap fun g => g :: g.kids)
  | 0, u, hn, _, _ => by rw [u.nodes_eq] at hn; simp at hn
  | n + 1, u, hn, hu, hg => by
    have hka : ∀ k ∈ u.kids, k.info.goal = false := fun k hk => by rw [(h.ok u hu).alt k hk, hg]; rfl
    have hkm : ∀ k ∈ u.kids, k ∈ t.nodes := fun k hk => t.kid_mem hu hk
    rw [UTree.goals_eq hg hka, List.flatMap_cons, u.nodes_eq, List.cons_append]
    refine List.Perm.cons _ ?_
    rw [u.nodes_eq] at hn
    simp only [List.length_cons] at hn
    replace hn : (u.kids.flatMap UTree.nodes).length ≤ n := by omega
    generalize u.kids = ks at *
    induction ks with
    | nil => exact List.Perm.nil
    | cons k ks ih =>
      simp only [List.flatMap_cons, List.length_append] at hn
      have ih := ih (fun k hk => hka k (by simp [hk])) (fun k hk => hkm k (by simp [hk])) (by omega)
      rw [List.flatMap_cons, List.flatMap_cons, List.flatMap_append, List.flatMap_append, k.nodes_eq, List.cons_append, List.cons_append]
      refine List.Perm.cons _ ?_
      have hk : (k.kids.flatMap UTree.nodes).Perm ((k.kids.flatMap UTree.goals).flatMap fun g => g :: g.kids) := by
        have hkg : ∀ g ∈ k.kids, g ∈ t.nodes ∧ g.info.goal = true := fun g hg' =>
          ⟨t.kid_mem (hkm k (by simp)) hg', by rw [(h.ok k (hkm k (by simp))).alt g hg', hka k (by simp)]; rfl⟩
        have hl : (k.kids.flatMap UTree.nodes).length ≤ n := by
          rw [k.nodes_eq] at hn; simp only [List.length_cons] at hn; omega
        generalize k.kids = gs at hkg hl
        induction gs with
        | nil => exact List.Perm.nil
        | cons g gs ihg =>
          simp only [List.flatMap_cons, List.length_append] at hl
          rw [List.flatMap_cons, List.flatMap_cons, List.flatMap_append]
          exact (h.split n g (by omega) (hkg g (by simp)).1 (hkg g (by simp)).2).append (ihg (fun g hg' => hkg g (by simp [hg'])) (by omega))
      refine (hk.append ih).trans ?_
      rw [← List.append_assoc, ← List.append_assoc]
      exact List.Perm.append_right _ List.perm_append_comm

/-- The state of the loop, continued. -/
structure DGoals (t0 : UTree) (P : List UTree) (s : DrawSt) : Prop where
  mem : ∀ u ∈ s.queue, u ∈ t0.nodes ∧ u.info.goal = true
  all : (P ++ s.queue.flatMap UTree.goals).Perm t0.goals

theorem DGoals.step {fuel : Nat} {o : Org} {lab : Nat → Bool} {t0 P s t q} (h : DGoals t0 P s) (k : TOK fuel o lab t0) (hq : s.queue = t :: q) :
    DGoals t0 (P ++ [t]) (DrawSt.puts t.num (outs o t) (DrawSt.goal t { s with queue := q })) := by
  obtain ⟨h1, _⟩ := puts_spec t.num (outs o t) (DrawSt.goal t { s with queue := q })
  obtain ⟨m1, m2⟩ := h.mem t (by simp [hq])
  have hn := (k.goal m1 m2).1
  have hka : ∀ k ∈ t.kids, k.info.goal = false := fun a ha => by rw [(k.ok t m1).alt a ha, m2]; rfl
  rw [hn] at h1
  have h1' : (DrawSt.puts t.num (outs o t) (DrawSt.goal t { s with queue := q })).queue = q ++ t.kids.flatMap UTree.kids := h1
  refine ⟨?_, ?_⟩
  · rw [h1']
    simp only [List.mem_append, List.mem_flatMap]
    rintro u (hu | ⟨a, ha, hu⟩)
    · exact h.mem u (by simp [hq, hu])
    · exact ⟨t0.kid_mem (t0.kid_mem m1 ha) hu, by rw [(k.ok a (t0.kid_mem m1 ha)).alt u hu, hka a ha]; rfl⟩
  · rw [h1', List.flatMap_append]
    have := h.all
    rw [hq, List.flatMap_cons, UTree.goals_eq m2 hka] at this
    refine List.Perm.trans ?_ this
    rw [List.append_assoc]
    refine List.Perm.append_left _ ?_
    rw [List.singleton_append, List.cons_append]
    exact List.Perm.cons _ List.perm_append_comm

theorem drawLoop_goals {fuel : Nat} {o : Org} {lab : Nat → Bool} {t0} (k : TOK fuel o lab t0) : ∀ {n P s s'}, DInv o t0 P s → DGoals t0 P s →
    o.drawLoop n s = .ok s' → ∃ P', DInv o t0 P' s' ∧ s'.queue = [] ∧ P'.Perm t0.goals
  | n, P, s, s', h, g, hl => by
    unfold drawLoop at hl
    split at hl
    · rename_i hq
      simp only [pure_ok] at hl; rw [← hl]
      have := g.all
      rw [hq, List.flatMap_nil, List.append_nil] at this
      exact ⟨P, h, hq, this⟩
    · rename_i t q hq
      cases n with
      | zero => cases hl
      | succ n =>
        simp only [bind_ok] at hl
        obtain ⟨s1, h1, h2⟩ := hl
        rw [drawGoal_puts h1] at h2
        exact drawLoop_goals k (h.step hq) (g.step k hq) h2

/-! ## The drawing exists -/

theorem drawAlts_total {fuel : Nat} {o : Org} {lab : Nat → Bool} {t : UTree} (h : TOK fuel o lab t) (src) : ∀ (ks : List UTree) (s : DrawSt),
    (∀ k ∈ ks, k ∈ t.nodes ∧ k.info.goal = false) → ∃ s', o.drawAlts src ks s = .ok s'
  | [], s, _ => ⟨s, rfl⟩
  | k :: ks, s, hm => by
    obtain ⟨m1, m2⟩ := hm k (by simp)
    obtain ⟨e, he⟩ := (h.ok k m1).ex
    have hfin := (h.ok k m1).final e he
    have hans := (h.ok k m1).answered e he m2
    rw [m2] at hfin
    have : ∃ s1, o.drawAlt src k s = .ok s1 := by
      cases k with
      | node i gs =>
        cases gs with
        | cons g gs => exact ⟨_, rfl⟩
        | nil =>
          simp only [UTree.info_node] at *
          simp only [drawAlt, Org.exec, he, orFault_some, ok_bind]
          split
          · exact ⟨_, rfl⟩
          · split
            · rename_i hs
              obtain ⟨bs, hb⟩ := hans hs
              rw [if_pos ⟨trivial, hs⟩, hb] at hfin
              rw [hfin]; exact ⟨_, rfl⟩
            · exact ⟨_, rfl⟩
    obtain ⟨s1, h1⟩ := this
    obtain ⟨s2, h2⟩ := drawAlts_total h src ks s1 (fun k hk => hm k (by simp [hk]))
    exact ⟨s2, by simp only [drawAlts, h1, ok_bind, h2]⟩

theorem drawGoal_total {fuel : Nat} {o : Org} {lab : Nat → Bool} {t u : UTree} (h : TOK fuel o lab t) (hu : u ∈ t.nodes) (hg : u.info.goal = true)
    (s : DrawSt) : ∃ s', o.drawGoal u s = .ok s' := by
  obtain ⟨e, he⟩ := (h.ok u hu).ex
  have hkm : ∀ k ∈ u.kids, k ∈ t.nodes ∧ k.info.goal = false := fun k hk => ⟨t.kid_mem hu hk, by rw [(h.ok u hu).alt k hk, hg]; rfl⟩
  cases u with
  | node i ks =>
    simp only [UTree.info_node, UTree.kids_node] at *
    simp only [drawGoal, Org.exec, he, orFault_some, ok_bind]
    split
    · exact ⟨_, rfl⟩
    · split
      · exact ⟨_, rfl⟩
      · exact drawAlts_total h _ ks _ hkm

theorem drawLoop_total {fuel : Nat} {o : Org} {lab : Nat → Bool} {t0} (k : TOK fuel o lab t0) : ∀ {n P s}, DGoals t0 P s →
    t0.goals.length ≤ n + P.length → ∃ s', o.drawLoop n s = .ok s'
  | n, P, s, g, hl => by
    unfold drawLoop
    split
    · exact ⟨_, rfl⟩
    · rename_i t q hq
      obtain ⟨m1, m2⟩ := g.mem t (by simp [hq])
      cases n with
      | zero =>
        exfalso
        have h1 := g.all.length_eq
        have h2 : t.goals ≠ [] := by
          have : t ∈ t.goals := List.mem_filter.2 ⟨t.self_mem, m2⟩
          intro h; rw [h] at this; cases this
        have := List.length_pos_iff.2 h2
        rw [hq, List.length_append, List.flatMap_cons, List.length_append] at h1
        omega
      | succ n =>
        obtain ⟨s1, h1⟩ := drawGoal_total k m1 m2 { s with queue := q }
        simp only [h1, ok_bind]
        rw [drawGoal_puts h1]
        exact drawLoop_total k (g.step k hq) (by simp; omega)

theorem DGoals.start {t : UTree} (hg : t.info.goal = true) : DGoals t [] ⟨⟨[], [], []⟩, -1, [t]⟩ :=
  ⟨by simp only [List.mem_singleton]; rintro u rfl; exact ⟨u.self_mem, hg⟩, by simp⟩

end PBfs
