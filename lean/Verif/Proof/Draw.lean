import Verif.Spec.Draw
import Verif.Props.Tree
/-! # The loop that makes the drawing -/
namespace PBfs
open Org

/-- What becomes of an alternative: a goal that is drawn later, or a box. -/
def outAlt (o : Org) : UTree → UTree ⊕ Box
  | .node _ (g :: _) => .inl g
  | .node i [] =>
    match o.execs[i.exec]? with
    | none => .inr .more
    | some e =>
      if e.failed then .inr .clash
      else if e.state = .success then .inr (.answer (finalStr (i.final.getD [])))
      else .inr .more

/-- What is drawn below a goal. -/
def outs (o : Org) : UTree → List (UTree ⊕ Box)
  | .node i kids =>
    match o.execs[i.exec]? with
    | none => []
    | some e =>
      if e.state = .running then [.inr .more]
      else if e.failed then [.inr .noRule]
      else kids.map (outAlt o)

def nexts (l : List (UTree ⊕ Box)) : List UTree := l.filterMap Sum.getLeft?
def boxes (l : List (UTree ⊕ Box)) : List Box := l.filterMap Sum.getRight?

def DrawSt.put (src : Int) (s : DrawSt) : UTree ⊕ Box → DrawSt
  | .inl g => { s with queue := s.queue ++ [g], drawing := { s.drawing with edges := s.drawing.edges ++ [⟨src, g.num⟩] } }
  | .inr b => s.leaf src b

def DrawSt.puts (src : Int) : List (UTree ⊕ Box) → DrawSt → DrawSt
  | [], s => s
  | x :: xs, s => DrawSt.puts src xs (s.put src x)

def DrawSt.goal (t : UTree) (s : DrawSt) : DrawSt :=
  { s with drawing := { s.drawing with nodes := s.drawing.nodes ++ [⟨t.num, .goal t.info.title⟩] } }

theorem drawAlt_put {o : Org} {src t s s'} (h : o.drawAlt src t s = .ok s') : s' = s.put src (outAlt o t) := by
  cases t with
  | node i ks =>
    cases ks with
    | cons g ks => simp only [drawAlt, pure_ok] at h; rw [← h]; rfl
    | nil =>
      simp only [drawAlt, bind_ok] at h
      obtain ⟨e, he, h⟩ := h
      simp only [Org.exec, orFault_ok] at he
      simp only [outAlt, he]
      by_cases hf : e.failed = true
      · rw [if_pos hf] at h ⊢; simp only [pure_ok] at h; rw [← h]; rfl
      · rw [if_neg hf] at h ⊢
        by_cases hs : e.state = .success
        · rw [if_pos hs] at h ⊢
          simp only [bind_ok, pure_ok, orFault_ok] at h
          obtain ⟨bs, hb, rfl⟩ := h
          rw [hb]; rfl
        · rw [if_neg hs] at h ⊢; simp only [pure_ok] at h; rw [← h]; rfl

theorem drawAlts_puts {o : Org} {src} : ∀ {ts s s'}, o.drawAlts src ts s = .ok s' → s' = DrawSt.puts src (ts.map (outAlt o)) s
  | [], s, s', h => by simp only [drawAlts, pure_ok] at h; rw [← h]; rfl
  | t :: ts, s, s', h => by
    simp only [drawAlts, bind_ok] at h
    obtain ⟨s1, h1, h2⟩ := h
    rw [drawAlts_puts h2, drawAlt_put h1]; rfl

theorem drawGoal_puts {o : Org} {t s s'} (h : o.drawGoal t s = .ok s') : s' = DrawSt.puts t.num (outs o t) (s.goal t) := by
  cases t with
  | node i ks =>
    simp only [drawGoal, bind_ok] at h
    obtain ⟨e, he, h⟩ := h
    simp only [Org.exec, orFault_ok] at he
    simp only [outs, he]
    split at h
    · rename_i hs; rw [if_pos hs]; simp only [pure_ok] at h; rw [← h]; rfl
    · rename_i hs
      rw [if_neg hs]
      split at h
      · rename_i hf; rw [if_pos hf]; simp only [pure_ok] at h; rw [← h]; rfl
      · rename_i hf; rw [if_neg hf]
        exact drawAlts_puts h

/-- Boxes with the numbers `c`, `c - 1`, … -/
def numbered (c : Int) : List Box → List VisNode
  | [] => []
  | b :: bs => ⟨c, b⟩ :: numbered (c - 1) bs

theorem puts_spec (src : Int) : ∀ (l : List (UTree ⊕ Box)) (s : DrawSt),
    (DrawSt.puts src l s).queue = s.queue ++ nexts l ∧
    (DrawSt.puts src l s).counter = s.counter - (boxes l).length ∧
    (DrawSt.puts src l s).drawing.nodes = s.drawing.nodes ++ numbered s.counter (boxes l) ∧
    (DrawSt.puts src l s).drawing.buttons = s.drawing.buttons ++ ((numbered s.counter (boxes l)).filter (·.box = .more)).map (·.id) ∧
    ∃ E, (DrawSt.puts src l s).drawing.edges = s.drawing.edges ++ E ∧ (∀ e ∈ E, e.src = src) ∧
      (E.map (·.dst)).Perm ((numbered s.counter (boxes l)).map (·.id) ++ (nexts l).map UTree.num)
  | [], s => by simp [DrawSt.puts, nexts, boxes, numbered]
  | .inl g :: l, s => by
    obtain ⟨h1, h2, h3, h4, E, h5, h6, h7⟩ := puts_spec src l (s.put src (.inl g))
    simp only [DrawSt.put] at h1 h2 h3 h4 h5 h6 h7
    refine ⟨by simpa [DrawSt.puts, DrawSt.put, nexts] using h1, h2, h3, h4, ⟨src, g.num⟩ :: E, by simpa [DrawSt.puts, DrawSt.put] using h5, ?_, ?_⟩
    · simp only [List.mem_cons]; rintro e (rfl | he)
      · rfl
      · exact h6 e he
    · simp only [List.map_cons, nexts, List.filterMap_cons, Sum.getLeft?]
      exact (h7.cons _).trans List.perm_middle.symm
  | .inr b :: l, s => by
    obtain ⟨h1, h2, h3, h4, E, h5, h6, h7⟩ := puts_spec src l (s.put src (.inr b))
    simp only [DrawSt.put, DrawSt.leaf] at h1 h2 h3 h4 h5 h6 h7
    refine ⟨h1, ?_, ?_, ?_, ⟨src, s.counter⟩ :: E, by simpa [DrawSt.puts, DrawSt.put, DrawSt.leaf] using h5, ?_, ?_⟩
    · simp only [DrawSt.puts, DrawSt.put, DrawSt.leaf]
      rw [h2]; simp [boxes]; omega
    · simp only [DrawSt.puts, DrawSt.put, DrawSt.leaf]
      rw [h3]; simp [boxes, numbered]
    · simp only [DrawSt.puts, DrawSt.put, DrawSt.leaf]
      rw [h4]
      by_cases hb : b = .more <;> simp [boxes, numbered, hb]
    · simp only [List.mem_cons]; rintro e (rfl | he)
      · rfl
      · exact h6 e he
    · simp only [boxes, nexts, numbered, List.filterMap_cons, Sum.getRight?, Sum.getLeft?, List.map_cons, List.cons_append]
      exact h7.cons _

theorem numbered_append : ∀ (c : Int) (a b : List Box), numbered c (a ++ b) = numbered c a ++ numbered (c - a.length) b
  | c, [], b => by simp [numbered]
  | c, x :: a, b => by
    simp only [List.cons_append, numbered, numbered_append (c - 1) a b, List.length_cons, List.cons.injEq, true_and]
    congr 2; push_cast; omega

theorem numbered_box (c : Int) (l : List Box) : (numbered c l).map (·.box) = l := by
  induction l generalizing c with
  | nil => rfl
  | cons b l ih => simp [numbered, ih]

theorem numbered_le {c : Int} {l : List Box} : ∀ n ∈ numbered c l, n.id ≤ c := by
  induction l generalizing c with
  | nil => simp [numbered]
  | cons b l ih =>
    simp only [numbered, List.mem_cons]
    rintro n (rfl | hn)
    · exact Int.le_refl _
    · have := ih n hn; omega

theorem numbered_nodup (c : Int) (l : List Box) : ((numbered c l).map (·.id)).Nodup := by
  induction l generalizing c with
  | nil => simp [numbered]
  | cons b l ih =>
    simp only [numbered, List.map_cons, List.nodup_cons, ih, and_true]
    intro h
    obtain ⟨n, hn, he⟩ := List.mem_map.1 h
    have := numbered_le n hn
    omega

theorem UTree.num_eq (t : UTree) : t.num = t.info.id := by cases t; rfl

/-- The state of the loop after the goals `P`. -/
structure DInv (o : Org) (t0 : UTree) (P : List UTree) (s : DrawSt) : Prop where
  bfs : P ++ s.queue = t0 :: P.flatMap fun u => nexts (outs o u)
  counter : s.counter = -1 - (P.flatMap fun u => boxes (outs o u)).length
  nodes : s.drawing.nodes.Perm ((P.map fun u => ⟨u.num, .goal u.info.title⟩) ++ numbered (-1) (P.flatMap fun u => boxes (outs o u)))
  buttons : s.drawing.buttons = (s.drawing.nodes.filter (·.box = .more)).map (·.id)
  edges : (s.drawing.edges.map (·.dst)).Perm
    ((numbered (-1) (P.flatMap fun u => boxes (outs o u))).map (·.id) ++ (P.flatMap fun u => nexts (outs o u)).map UTree.num)
  src : ∀ e ∈ s.drawing.edges, ∃ u ∈ P, e.src = u.num
  below : (∀ n ∈ s.drawing.nodes, s.drawing.Below t0.num n.id) ∧ ∀ u ∈ s.queue, s.drawing.Below t0.num u.num
  joined : ∀ u ∈ P, (∀ g ∈ nexts (outs o u), ⟨u.num, g.num⟩ ∈ s.drawing.edges) ∧
    ∀ b ∈ boxes (outs o u), ∃ v ∈ s.drawing.nodes, v.box = b ∧ ⟨u.num, v.id⟩ ∈ s.drawing.edges

theorem Drawing.Below.mono {d d' : Drawing} {r n} (h : d.Below r n) (he : ∀ e ∈ d.edges, e ∈ d'.edges) : d'.Below r n := by
  induction h with
  | root => exact .root
  | edge h _ ih => exact .edge (he _ h) ih

theorem DInv.start (o : Org) (t : UTree) : DInv o t [] ⟨⟨[], [], []⟩, -1, [t]⟩ := by
  refine ⟨rfl, rfl, ?_, rfl, ?_, by simp, ⟨by simp, ?_⟩, by simp⟩
  · simp [numbered]
  · simp [numbered]
  · simp only [List.mem_singleton]; rintro u rfl; exact .root

theorem DInv.step {o : Org} {t0 P s t q} (h : DInv o t0 P s) (hq : s.queue = t :: q) :
    DInv o t0 (P ++ [t]) (DrawSt.puts t.num (outs o t) (DrawSt.goal t { s with queue := q })) := by
  obtain ⟨h1, h2, h3, h4, E, h5, h6, h7⟩ := puts_spec t.num (outs o t) (DrawSt.goal t { s with queue := q })
  simp only [DrawSt.goal] at h1 h2 h3 h4 h5 h6 h7
  generalize hs' : DrawSt.puts t.num (outs o t) (DrawSt.goal t { s with queue := q }) = s'
  simp only [DrawSt.goal] at hs'
  rw [hs'] at h1 h2 h3 h4 h5
  have hc : s.counter = -1 - ((P.flatMap fun u => boxes (outs o u)).length : Int) := h.counter
  have hnum : numbered (-1) ((P ++ [t]).flatMap fun u => boxes (outs o u)) =
      numbered (-1) (P.flatMap fun u => boxes (outs o u)) ++ numbered s.counter (boxes (outs o t)) := by
    rw [List.flatMap_append, numbered_append, ← hc]; simp
  have hedge : ∀ e ∈ s.drawing.edges, e ∈ s'.drawing.edges := fun e he => by rw [h5]; exact List.mem_append_left _ he
  have ht : s'.drawing.Below t0.num t.num := (h.below.2 t (by simp [hq])).mono hedge
  have hE : ∀ x ∈ E.map (·.dst), s'.drawing.Below t0.num x := by
    intro x hx
    obtain ⟨e, he, rfl⟩ := List.mem_map.1 hx
    exact .edge (by rw [h5]; exact List.mem_append_right _ he) (by rw [h6 e he]; exact ht)
  have hE' : ∀ x ∈ E.map (·.dst), ⟨t.num, x⟩ ∈ s'.drawing.edges := by
    intro x hx
    obtain ⟨e, he, rfl⟩ := List.mem_map.1 hx
    rw [h5]; exact List.mem_append_right _ (h6 e he ▸ he)
  refine ⟨?_, ?_, ?_, ?_, ?_, ?_, ⟨?_, ?_⟩, ?_⟩
  · rw [h1, List.append_assoc, List.flatMap_append]
    have := h.bfs
    rw [hq] at this
    simp only [List.singleton_append, ← List.cons_append, ← this, List.flatMap_cons, List.flatMap_nil, List.append_nil]
    simp
  · rw [h2, hc]; simp; omega
  · rw [h3, hnum]
    refine (List.Perm.append_right _ (List.Perm.append_right _ h.nodes)).trans ?_
    simp only [List.map_append, List.map_cons, List.map_nil, List.append_assoc]
    refine List.Perm.append_left _ ?_
    simp only [← List.append_assoc]
    refine List.Perm.append_right _ ?_
    exact List.perm_append_comm
  · rw [h4, h3, h.buttons]; simp
  · rw [h5, hnum, List.map_append, List.map_append, List.flatMap_append, List.map_append]
    refine (List.Perm.append h.edges h7).trans ?_
    simp only [List.flatMap_cons, List.flatMap_nil, List.append_nil, List.append_assoc]
    refine List.Perm.append_left _ ?_
    simp only [← List.append_assoc]
    exact List.Perm.append_right _ List.perm_append_comm
  · rw [h5]
    simp only [List.mem_append, List.mem_singleton]
    rintro e (he | he)
    · obtain ⟨u, hu, hx⟩ := h.src e he
      exact ⟨u, .inl hu, hx⟩
    · exact ⟨t, .inr rfl, h6 e he⟩
  · rw [h3]
    simp only [List.mem_append, List.mem_singleton]
    rintro n ((hn | rfl) | hn)
    · exact (h.below.1 n hn).mono hedge
    · exact ht
    · exact hE _ (h7.mem_iff.2 (List.mem_append_left _ (List.mem_map_of_mem hn)))
  · rw [h1]
    simp only [List.mem_append]
    rintro u (hu | hu)
    · exact (h.below.2 u (by simp [hq, hu])).mono hedge
    · exact hE _ (h7.mem_iff.2 (List.mem_append_right _ (List.mem_map_of_mem hu)))
  · simp only [List.mem_append, List.mem_singleton]
    rintro u (hu | rfl)
    · obtain ⟨j1, j2⟩ := h.joined u hu
      refine ⟨fun g hg => hedge _ (j1 g hg), fun b hb => ?_⟩
      obtain ⟨v, hv, h8, h9⟩ := j2 b hb
      exact ⟨v, by rw [h3]; simp [hv], h8, hedge _ h9⟩
    · refine ⟨fun g hg => hE' _ (h7.mem_iff.2 (List.mem_append_right _ (List.mem_map_of_mem hg))), fun b hb => ?_⟩
      rw [← numbered_box s.counter (boxes _)] at hb
      obtain ⟨v, hv, rfl⟩ := List.mem_map.1 hb
      exact ⟨v, by rw [h3]; simp [hv], rfl, hE' _ (h7.mem_iff.2 (List.mem_append_left _ (List.mem_map_of_mem hv)))⟩

theorem drawLoop_inv {o : Org} {t0} : ∀ {n P s s'}, DInv o t0 P s → o.drawLoop n s = .ok s' → ∃ P', DInv o t0 P' s' ∧ s'.queue = []
  | n, P, s, s', h, hl => by
    unfold drawLoop at hl
    split at hl
    · rename_i hq
      simp only [pure_ok] at hl; rw [← hl]; exact ⟨P, h, hq⟩
    · rename_i t q hq
      cases n with
      | zero => cases hl
      | succ n =>
        simp only [bind_ok] at hl
        obtain ⟨s1, h1, h2⟩ := hl
        rw [drawGoal_puts h1] at h2
        exact drawLoop_inv (h.step hq) h2

end PBfs
