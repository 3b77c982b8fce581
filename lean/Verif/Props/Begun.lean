import Verif.Spec.Begun
import Verif.Props.Proofs
import Verif.Props.Memory
/-! # C89: the work of a search is the number of beginnings of proofs -/
namespace PBfs
open Org

section
variable {M : Modes} {p : List Clause} {atoms : List Node}

/-! ## Every beginning is visited -/

/-- In a search that ends every item has its turn. -/
theorem ARun.turn_of {P : List Clause} {q rs q'} (h : ARun P q rs q') (hq : q' = []) : ∀ x ∈ q,
    ∃ news r rs' q1, STurn P x.2 news r ∧ (∃ r, (r, x.1) ∈ rs) ∧ (∀ y ∈ retag P x.1 x.2 news, y ∈ q1) ∧ ARun P q1 rs' [] ∧ ∀ y ∈ rs', y ∈ rs := by
  induction h with
  | nil => subst hq; simp
  | @cons u i q news r rs q' t h ih =>
    intro x hx
    rcases List.mem_cons.1 hx with rfl | hx
    · exact ⟨news, r, rs, _, t, ⟨r, .head _⟩, fun y hy => List.mem_append_right _ hy, hq ▸ h, fun y hy => .tail _ hy⟩
    · obtain ⟨n', r', rs', q1, h1, ⟨r2, h2⟩, h3, h4, h5⟩ := ih hq x (List.mem_append_left _ hx)
      exact ⟨n', r', rs', q1, h1, ⟨r2, .tail _ h2⟩, h3, h4, fun y hy => .tail _ (h5 y hy)⟩

theorem visit_goals (h : Directed M p atoms) {ρ w gs} (hw : BeginsBy (inForce p) w gs) : ∀ ts S u, Steady M p atoms (calls ts) S → S ρ gs →
    ∀ q rs, ARun (inForce p) q rs [] → (u, SItem.goals ts S) ∈ q → ∃ r, (r, u ++ w) ∈ rs := by
  induction hw with
  | nil =>
    intro ts S u _ _ q rs hr hx
    obtain ⟨_, _, _, _, _, h1, _⟩ := hr.turn_of rfl _ hx
    simpa using h1
  | @clause k c σ w rest hk hw ih =>
    intro ts
    induction ts with
    | nil => exact fun S u hS hs => absurd (hS.fvs _ _ hs) (by simp [calls])
    | cons t ts ih2 =>
      intro S u hS hs q rs hr hx
      have hc := List.mem_of_getElem? hk
      obtain ⟨news, r, rs', q1, t, _, h3, h4, h5⟩ := hr.turn_of rfl _ hx
      cases t with
      | leave =>
        obtain ⟨r, hr⟩ := ih2 S u hS hs q1 rs' h4 (h3 _ (.head _))
        exact ⟨r, h5 _ hr⟩
      | @call f _ _ hf =>
        have hfv : (c.head.inst itreeAlg σ :: rest).map GAtom.fv = f :: calls ts := hS.fvs _ _ hs
        simp only [List.map_cons, List.cons.injEq, head_fv] at hfv
        have hS' : Steady M p atoms (c.head.fv :: calls ts) S := by rw [hfv.1]; exact hS
        have hm : (u ++ [k], SItem.clause c ts S) ∈ q1 := h3 _ (by
          simp only [retag, hf, if_false]
          exact List.mem_map.2 ⟨(c, k), List.mem_filter.2 ⟨List.mem_zipIdx_iff_getElem?.2 hk, by simpa using hfv.1⟩, rfl⟩)
        have he : S.enter c ρ (c.body.map (Node.inst itreeAlg σ) ++ rest) := ⟨σ, rest, hs, rfl⟩
        have hE : Steady M p atoms (calls (c.todo ++ ts)) (S.enter c) := by rw [calls_append, calls_todo]; exact hS'.enter h hc
        rw [show u ++ k :: w = (u ++ [k]) ++ w by simp]
        obtain ⟨news, r, rs2, q2, t, ⟨r2, h6⟩, h7, h8, h9⟩ := h4.turn_of rfl _ hm
        cases t with
        | reject h0 => exact absurd he (h0 _ _)
        | enter _ hn =>
          obtain ⟨r, hr⟩ := ih _ _ (u ++ [k]) hE he q2 rs2 h8 (h7 _ (.head _))
          exact ⟨r, h5 _ (h9 _ hr)⟩
        | answer _ hn =>
          have := hE.fvs _ _ he
          rw [noGoal_calls hn] at this
          rw [List.map_eq_nil_iff.1 this] at hw
          cases hw
          exact ⟨r2, by simpa using h5 _ h6⟩
      | callOwn hf =>
        have hfv : (c.head.inst itreeAlg σ :: rest).map GAtom.fv = _ :: calls ts := hS.fvs _ _ hs
        simp only [List.map_cons, List.cons.injEq, head_fv] at hfv
        exact absurd (by rw [hfv.1]; exact hf) (inForce_own c hc)
  | @own g w rest hg hw ih =>
    intro ts
    induction ts with
    | nil => exact fun S u hS hs => absurd (hS.fvs _ _ hs) (by simp [calls])
    | cons t ts ih2 =>
      intro S u hS hs q rs hr hx
      obtain ⟨news, r, rs', q1, t, _, h3, h4, h5⟩ := hr.turn_of rfl _ hx
      cases t with
      | leave =>
        obtain ⟨r, hr⟩ := ih2 S u hS hs q1 rs' h4 (h3 _ (.head _))
        exact ⟨r, h5 _ hr⟩
      | @call f _ _ hf =>
        have hfv : (g :: rest).map GAtom.fv = f :: calls ts := hS.fvs _ _ hs
        simp only [List.map_cons, List.cons.injEq] at hfv
        exact absurd (by rw [← hfv.1]; exact hg.fv) hf
      | @callOwn f _ _ hf =>
        have hS : Steady M p atoms (f :: calls ts) S := hS
        have hm : (u, SItem.own f ts S) ∈ q1 := h3 _ (by simp [retag, hf])
        obtain ⟨n1, n2⟩ := hS.no_fail h hs hg
        obtain ⟨news, r, rs2, q2, t, ⟨r2, h6⟩, h7, h8, h9⟩ := h4.turn_of rfl _ hm
        cases t with
        | ownFail ho => exact absurd ho n1
        | error ho => exact absurd ho (n2 _)
        | ownPass ho hn =>
          have h1 := (hS.passes h ho).2 ⟨g, hs, hg⟩
          obtain ⟨r, hr⟩ := ih _ _ u (Steady.own h hS ho) h1 q2 rs2 h8 (h7 _ (.head _))
          exact ⟨r, h5 _ (h9 _ hr)⟩
        | ownAnswer ho hn =>
          have h1 := (hS.passes h ho).2 ⟨g, hs, hg⟩
          have := (Steady.own h hS ho).fvs _ _ h1
          rw [noGoal_calls hn] at this
          rw [List.map_eq_nil_iff.1 this] at hw
          cases hw
          exact ⟨r2, by simpa using h5 _ h6⟩

/-! ## Nothing else is visited -/

/-- How many of these words begin with `u`. -/
def under (L : List (List Nat)) (u : List Nat) : Nat := L.countP (u.isPrefixOf ·)

theorem under_children (u : List Nat) {ks : List Nat} (hk : ks.Nodup) : ∀ L : List (List Nat), (ks.map fun k => under L (u ++ [k])).sum + (if u ∈ L then 1 else 0) ≤ under L u
  | [] => by simp [under]
  | x :: L => by
    have ih := under_children u hk L
    have e : ∀ v, under (x :: L) v = under L v + if v.isPrefixOf x then 1 else 0 := fun v => by rw [under, List.countP_cons]; rfl
    have s : ∀ (f g : Nat → Nat) (l : List Nat), (l.map fun k => f k + g k).sum = (l.map f).sum + (l.map g).sum := by
      intro f g l
      induction l with
      | nil => rfl
      | cons a l ih => simp only [List.map_cons, List.sum_cons, ih]; omega
    simp only [e, s]
    have one : (ks.map fun k => if (u ++ [k]).isPrefixOf x then 1 else 0).sum + (if u = x then 1 else 0) ≤ if u.isPrefixOf x then 1 else 0 := by
      have z : ∀ {l : List Nat}, (∀ k ∈ l, ¬ (u ++ [k]) <+: x) → (l.map fun k => if (u ++ [k]).isPrefixOf x then 1 else 0).sum = 0 := by
        intro l
        induction l with
        | nil => simp
        | cons a l ih =>
          intro h
          rw [List.map_cons, List.sum_cons, ih fun k hk => h k (.tail _ hk), if_neg (by rw [List.isPrefixOf_iff_prefix]; exact h a (.head _))]
      by_cases hx : u <+: x
      · rw [if_pos (List.isPrefixOf_iff_prefix.2 hx)]
        obtain ⟨v, rfl⟩ := hx
        cases v with
        | nil =>
          rw [z fun k _ h => by have := h.length_le; simp at this; omega]
          split <;> omega
        | cons a v =>
          rw [if_neg (fun h => by have := congrArg List.length h; simp at this)]
          rw [Nat.add_zero]
          have ne : ∀ k, k ≠ a → ¬ (u ++ [k]) <+: (u ++ a :: v) := by
            intro k hk h
            rw [List.prefix_append_right_inj, List.cons_prefix_cons] at h
            exact hk h.1
          clear ih s e
          induction ks with
          | nil => simp
          | cons k ks ih =>
            obtain ⟨h1, h2⟩ := List.nodup_cons.1 hk
            rw [List.map_cons, List.sum_cons]
            by_cases hka : k = a
            · subst hka
              rw [z fun j hj => ne j fun h => h1 (h ▸ hj)]
              split <;> omega
            · rw [if_neg (by rw [List.isPrefixOf_iff_prefix]; exact ne k hka)]
              have := ih h2
              omega
      · rw [z fun k _ h => hx ((List.prefix_append _ _).trans h), if_neg (fun h : u = x => hx (h ▸ List.prefix_rfl))]
        omega
    have m : (if u ∈ x :: L then 1 else 0) ≤ (if u = x then 1 else 0) + if u ∈ L then 1 else 0 := by
      by_cases h1 : u = x
      · rw [if_pos h1]; split <;> omega
      · by_cases h2 : u ∈ L <;> simp [h1, h2]
    omega

/-- What the instances can begin with, the query can. -/
def Ventured (p : List Clause) (atoms : List Node) (u : List Nat) (S : Insts) : Prop := ∀ ρ gs w, S ρ gs → BeginsBy (inForce p) w gs → BegunBy (inForce p) atoms (u ++ w)

theorem Ventured.enter {c : Clause} {u S k} (hk : (inForce p)[k]? = some c) (h : Ventured p atoms u S) : Ventured p atoms (u ++ [k]) (S.enter c) := by
  rintro ρ gs w ⟨σ, rest, hs, rfl⟩ hw
  rw [List.append_assoc]
  exact h ρ _ _ hs (.clause hk hw)

theorem Ventured.own (h : Directed M p atoms) {f fs S S' u} (hS : Steady M p atoms (f :: fs) S) (ho : Own f S (some S')) (hl : Ventured p atoms u S) : Ventured p atoms u S' := by
  intro ρ gs w hs hw
  obtain ⟨g, h1, h2⟩ := (hS.passes h ho).1 hs
  exact hl ρ _ _ h1 (.own h2 hw)

/-- What is known of an item in the queue, when all beginnings are among `L` and clauses have at most `m` goals. -/
def SItem.Ventured (p : List Clause) (atoms : List Node) (m : Nat) (L : List (List Nat)) (u : List Nat) : SItem → Prop
  | .goals ts S => u ∈ L ∧ PBfs.Ventured p atoms u S ∧ ts.length ≤ atoms.length + u.length * (m + 1)
  | .own _ ts S => u ∈ L ∧ PBfs.Ventured p atoms u S ∧ ts.length ≤ atoms.length + u.length * (m + 1)
  | .clause c ts S => ∃ u' k, u = u' ++ [k] ∧ (inForce p)[k]? = some c ∧ PBfs.Ventured p atoms u' S ∧ ts.length ≤ atoms.length + u'.length * (m + 1)

/-- How many turns an item may still lead to. -/
def SItem.ahead (b C : Nat) (L : List (List Nat)) (u : List Nat) : SItem → Nat
  | .goals ts _ => 2 * ts.length + 1 + b + C * (under L u - 1)
  | .own _ ts _ => 2 * ts.length + 2 + b + C * (under L u - 1)
  | .clause _ _ _ => 1 + C * under L u

theorem mem_under {L : List (List Nat)} {u} (h : u ∈ L) : 1 ≤ under L u := List.countP_pos_iff.2 ⟨u, h, List.isPrefixOf_iff_prefix.2 List.prefix_rfl⟩

theorem STurn.ventured (h : Directed M p atoms) {m b d : Nat} {L : List (List Nat)} (hL : ∀ w, BegunBy (inForce p) atoms w → w ∈ L) (hd : ∀ w ∈ L, w.length ≤ d) (hm : ∀ c ∈ inForce p, c.body.length ≤ m)
    (hb : AtMost b (inForce p)) {u i news r} (t : STurn (inForce p) i news r) (hi : i.Moded M p atoms) (ho : i.Ventured p atoms m L u) :
    (∀ x ∈ retag (inForce p) u i news, x.2.Ventured p atoms m L x.1) ∧
    1 + ((retag (inForce p) u i news).map fun x => x.2.ahead b (perBeginning b m d atoms.length) L x.1).sum ≤ i.ahead b (perBeginning b m d atoms.length) L u := by
  generalize hC : perBeginning b m d atoms.length = C
  cases t with
  | leave =>
    obtain ⟨h1, h2, h3⟩ := ho
    simp only [List.length_cons] at h3
    refine ⟨?_, ?_⟩
    · intro x hx
      obtain rfl : x = _ := by simpa [retag] using hx
      exact ⟨h1, h2, by show _ ≤ atoms.length + u.length * (m + 1); omega⟩
    · simp [retag, SItem.ahead]; omega
  | @call f ts S hf =>
    obtain ⟨h1, h2, h3⟩ := ho
    simp only [List.length_cons] at h3
    simp only [retag, hf, if_false]
    refine ⟨fun x hx => ?_, ?_⟩
    · obtain ⟨⟨c, k⟩, hc, rfl⟩ := List.mem_map.1 hx
      exact ⟨u, k, rfl, List.mem_zipIdx_iff_getElem?.1 (List.mem_filter.1 hc).1, h2, by omega⟩
    · have nd : ((((inForce p).zipIdx.filter (fun x => x.1.head.fv = f)).map Prod.snd)).Nodup := by
        rw [List.Nodup, List.pairwise_map]
        exact List.Pairwise.filter _ (zipIdx_apart _ 0)
      have hu := under_children u nd L
      rw [if_pos h1, List.map_map] at hu
      have hlen : ((inForce p).zipIdx.filter (fun x => x.1.head.fv = f)).length ≤ b := by
        have e := congrArg List.length (retag_snd (u := u) (STurn.call (P := inForce p) (ts := ts) (S := S) hf))
        simp only [retag, hf, if_false, List.length_map] at e
        rw [e]
        exact hb f
      have sum : ∀ l : List (Clause × Nat), ((l.map fun x => (u ++ [x.2], SItem.clause x.1 ts S)).map fun x => x.2.ahead b C L x.1).sum =
          l.length + C * (l.map ((fun k => under L (u ++ [k])) ∘ Prod.snd)).sum := by
        intro l
        induction l with
        | nil => simp
        | cons a l ih =>
          rw [List.map_cons, List.map_cons, List.sum_cons, ih, List.map_cons, List.sum_cons, List.length_cons, Nat.mul_add]
          show 1 + C * under L (u ++ [a.2]) + _ = l.length + 1 + (C * under L (u ++ [a.2]) + _)
          omega
      rw [sum]
      have := Nat.mul_le_mul_left C (show _ ≤ under L u - 1 from Nat.le_sub_of_add_le hu)
      simp only [SItem.ahead, List.length_cons]
      omega
  | callOwn hf =>
    obtain ⟨h1, h2, h3⟩ := ho
    simp only [List.length_cons] at h3
    refine ⟨?_, ?_⟩
    · intro x hx
      obtain rfl : x = _ := by simpa [retag, hf] using hx
      exact ⟨h1, h2, by show _ ≤ atoms.length + u.length * (m + 1); omega⟩
    · simp [retag, hf, SItem.ahead]; omega
  | @enter c ts S hE =>
    obtain ⟨u', k, rfl, hk, h2, h3⟩ := ho
    have he := h2.enter hk
    have hin : u' ++ [k] ∈ L := by
      have : ∃ ρ gs, S.enter c ρ gs := by
        apply Classical.byContradiction
        intro h0
        exact hE fun ρ gs hs => h0 ⟨ρ, gs, hs⟩
      obtain ⟨ρ, gs, hs⟩ := this
      exact hL _ (by simpa using he ρ gs [] hs .nil)
    have hlen : (c.todo ++ ts).length ≤ atoms.length + (u' ++ [k]).length * (m + 1) := by
      have := hm c (List.mem_of_getElem? hk)
      simp only [Clause.todo, List.length_append, List.length_map, List.length_cons, List.length_nil, Nat.add_mul]
      split <;> simp <;> omega
    refine ⟨?_, ?_⟩
    · intro x hx
      obtain rfl : x = _ := by simpa [retag] using hx
      exact ⟨hin, he, hlen⟩
    · have h4 := mem_under hin
      have h5 := Nat.mul_le_mul_right (m + 1) (hd _ hin)
      have h6 : C * under L (u' ++ [k]) = C * (under L (u' ++ [k]) - 1) + C := by
        conv => lhs; rw [show under L (u' ++ [k]) = under L (u' ++ [k]) - 1 + 1 by omega]
        rw [Nat.mul_add, Nat.mul_one]
      simp only [perBeginning] at hC
      simp only [retag, List.map_cons, List.map_nil, List.sum_cons, List.sum_nil, SItem.ahead]
      omega
  | ownPass hp =>
    obtain ⟨h1, h2, h3⟩ := ho
    refine ⟨?_, ?_⟩
    · intro x hx
      obtain rfl : x = _ := by simpa [retag] using hx
      exact ⟨h1, h2.own h hi hp, h3⟩
    · simp [retag, SItem.ahead]; omega
  | reject | answer | ownFail | ownAnswer | error => simp [retag, SItem.ahead]; try omega

theorem ARun.length_le (h : Directed M p atoms) {m b d : Nat} {L : List (List Nat)} (hL : ∀ w, BegunBy (inForce p) atoms w → w ∈ L) (hd : ∀ w ∈ L, w.length ≤ d) (hm : ∀ c ∈ inForce p, c.body.length ≤ m)
    (hb : AtMost b (inForce p)) {q rs q'} (hr : ARun (inForce p) q rs q') (hq : ∀ x ∈ q, x.2.Moded M p atoms ∧ x.2.Ventured p atoms m L x.1) :
    rs.length ≤ (q.map fun x => x.2.ahead b (perBeginning b m d atoms.length) L x.1).sum := by
  induction hr with
  | nil => simp
  | @cons u i q news r rs q' t _ ih =>
    obtain ⟨h1, h2⟩ := hq _ (.head _)
    obtain ⟨h3, h4⟩ := t.ventured (u := u) h hL hd hm hb h1 h2
    have := ih fun x hx => by
      rcases List.mem_append.1 hx with hx | hx
      · exact hq x (.tail _ hx)
      · exact ⟨t.moded h h1 _ (mem_retag t hx), h3 x hx⟩
    simp only [List.map_append, List.sum_append, List.map_cons, List.sum_cons, List.length_cons] at this ⊢
    omega

/-! ## The search -/

/-- **C89, the search**: when it has ended, it has had a turn for every beginning of a proof. -/
theorem SRun.begun (h : Directed M p atoms) {rs} (hr : SRun (inForce p) [.goals (atoms.map (.goal ·.fv)) (Insts.query atoms)] rs []) :
    ∃ L : List (List Nat), L.length = rs.length ∧ ∀ w, BegunBy (inForce p) atoms w → w ∈ L := by
  obtain ⟨ars, aq', h1, rfl, h3⟩ := hr.tagged (aq := [([], .goals (atoms.map (.goal ·.fv)) (Insts.query atoms))]) rfl
  obtain rfl := List.map_eq_nil_iff.1 h3
  refine ⟨ars.map Prod.snd, by simp, fun w ⟨ρ, hw⟩ => ?_⟩
  obtain ⟨r, hr⟩ := visit_goals h hw _ (Insts.query atoms) [] (by rw [calls_goals]; exact .query h) rfl _ _ h1 (.head _)
  exact List.mem_map.2 ⟨_, hr, rfl⟩

theorem SRun.length_begun (h : Directed M p atoms) {m b d : Nat} {L : List (List Nat)} (hL : ∀ w, BegunBy (inForce p) atoms w → w ∈ L) (hd : ∀ w ∈ L, w.length ≤ d)
    (hm : ∀ c ∈ inForce p, c.body.length ≤ m) (hb : AtMost b (inForce p)) {rs items} (hr : SRun (inForce p) [.goals (atoms.map (.goal ·.fv)) (Insts.query atoms)] rs items) :
    rs.length ≤ perBeginning b m d atoms.length * L.length := by
  obtain ⟨ars, aq', h1, rfl, h3⟩ := hr.tagged (aq := [([], .goals (atoms.map (.goal ·.fv)) (Insts.query atoms))]) rfl
  have hin : [] ∈ L := hL [] ⟨fun _ => itreeAlg.int 0, .nil⟩
  have := h1.length_le h hL hd hm hb fun x hx => by
    obtain rfl := List.mem_singleton.1 hx
    refine ⟨(query_left h).1, hin, fun ρ gs w hs hw => ⟨ρ, ?_⟩, by simp⟩
    rw [hs] at hw
    exact hw
  have hu : under L [] = L.length := List.countP_eq_length.2 fun _ _ => rfl
  have hp := mem_under hin
  simp only [List.map_cons, List.map_nil, List.sum_cons, List.sum_nil, SItem.ahead, List.length_map, hu] at this ⊢
  rw [hu] at hp
  have e : perBeginning b m d atoms.length * L.length = perBeginning b m d atoms.length * (L.length - 1) + perBeginning b m d atoms.length := by
    conv => lhs; rw [show L.length = L.length - 1 + 1 by omega]
    rw [Nat.mul_add, Nat.mul_one]
  have e2 : 2 * atoms.length + 1 + b ≤ perBeginning b m d atoms.length := by
    simp only [perBeginning, Nat.mul_add]
    omega
  omega

end

/-! ## The interpreter -/

/-- **C89, the least**: a search that has ended has made at least as many iterations as there are beginnings of proofs. -/
theorem C89_least {o o' : Org} {p atoms M fuel k ts} (h : Asked o p atoms) (hM : Directed M p atoms) (hr : o.iterate fuel k = .ok (o', ts)) (hq : o'.queue = [])
    {L : List (List Nat)} (hn : L.Nodup) (hL : ∀ w ∈ L, BegunBy (inForce p) atoms w) : L.length ≤ ts.length := by
  obtain ⟨items, rs, h1, h2, h3⟩ := C42_breadth_first_resolution_partial h hr
  rw [hq] at h3
  obtain rfl := List.length_eq_zero_iff.1 h3
  obtain ⟨L', e, h4⟩ := h1.begun hM
  rw [h2.length_eq, ← e]
  exact (List.subperm_of_subset hn fun w hw => h4 w (hL w hw)).length_le

/-- **C89, the most**: if all beginnings of proofs are among those in a list, the search makes no more than a certain number of iterations for each of them, and then ends. -/
theorem C89_most {o o' : Org} {p atoms M fuel k ts b m d} (h : Asked o p atoms) (hM : Directed M p atoms) {L : List (List Nat)} (hL : ∀ w, BegunBy (inForce p) atoms w → w ∈ L)
    (hd : ∀ w ∈ L, w.length ≤ d) (hb : AtMost b (inForce p)) (hm : ∀ c ∈ inForce p, c.body.length ≤ m) (hr : o.iterate fuel k = .ok (o', ts)) :
    ts.length ≤ perBeginning b m d atoms.length * L.length ∧ (perBeginning b m d atoms.length * L.length < k → o'.queue = []) := by
  obtain ⟨items, rs, h1, h2, _⟩ := C42_breadth_first_resolution_partial h hr
  have hl : ts.length ≤ perBeginning b m d atoms.length * L.length := by
    rw [h2.length_eq]
    exact h1.length_begun hM hL hd hm hb
  exact ⟨hl, fun hk => (iterate_length hr).2 (by omega)⟩

/-- **C89**: a search in which nothing goes wrong ends if and only if there are finitely many beginnings of proofs. -/
theorem C89_ends {o : Org} {p atoms M} (h : Asked o p atoms) (hM : Directed M p atoms) (hk : ∀ k, ∃ fuel o' ts, o.iterate fuel k = .ok (o', ts)) :
    (∃ fuel k o' ts, o.iterate fuel k = .ok (o', ts) ∧ o'.queue = []) ↔ ∃ L : List (List Nat), ∀ w, BegunBy (inForce p) atoms w → w ∈ L := by
  constructor
  · rintro ⟨fuel, k, o', ts, hr, hq⟩
    obtain ⟨items, rs, h1, h2, h3⟩ := C42_breadth_first_resolution_partial h hr
    rw [hq] at h3
    obtain rfl := List.length_eq_zero_iff.1 h3
    obtain ⟨L, _, h4⟩ := h1.begun hM
    exact ⟨L, h4⟩
  · rintro ⟨L, hL⟩
    obtain ⟨m, hm⟩ := goals_le (inForce p)
    have hd : ∃ d, ∀ w ∈ L, w.length ≤ d := by
      clear hL
      induction L with
      | nil => exact ⟨0, by simp⟩
      | cons x L ih =>
        obtain ⟨d, hd⟩ := ih
        refine ⟨x.length + d, fun w hw => ?_⟩
        rcases List.mem_cons.1 hw with rfl | hw
        · omega
        · have := hd w hw; omega
    obtain ⟨d, hd⟩ := hd
    obtain ⟨fuel, o', ts, hr⟩ := hk (perBeginning (inForce p).length m d atoms.length * L.length + 1)
    exact ⟨_, _, _, _, hr, (C89_most h hM hL hd (fun f => List.length_filter_le _ _) hm hr).2 (by omega)⟩

/-- Without `is`, nothing goes wrong. -/
theorem C89_free {o : Org} {p atoms M N} (h : Asked o p atoms) (hpr : Printable o.st) (hM : Directed M p atoms) (hl : WellModed N p atoms) (hn : ¬ MayCall p atoms ⟨n!"is", 2⟩) :
    (∃ fuel k o' ts, o.iterate fuel k = .ok (o', ts) ∧ o'.queue = []) ↔ ∃ L : List (List Nat), ∀ w, BegunBy (inForce p) atoms w → w ∈ L := by
  refine C89_ends h hM fun k => ?_
  obtain ⟨N, o', ts, _, _, h1, _⟩ := C57_search h hpr hl hn k
  exact ⟨N, o', ts, h1 N (Nat.le_refl _)⟩

/-- If the calls of `get_answer` have gone on until there were no more answers, there were finitely many beginnings of proofs. -/
theorem C89_sessions {o o' : Org} {p atoms M fuel clocks rs} (h : Asked o p atoms) (hM : Directed M p atoms) (hs : o.session fuel clocks = .ok (o', rs))
    (hl : rs.getLast? = some .noAnswer) : ∃ L : List (List Nat), ∀ w, BegunBy (inForce p) atoms w → w ∈ L := by
  obtain ⟨ts, a1, _⟩ := C05_timeouts_transparent h.reach hs
  obtain ⟨items, rs, h1, h2, h3⟩ := C42_breadth_first_resolution_partial h a1
  rw [session_exhausted hs hl h.reach.rinv] at h3
  obtain rfl := List.length_eq_zero_iff.1 h3
  obtain ⟨L, _, h4⟩ := h1.begun hM
  exact ⟨L, h4⟩

/-- **C89, memory**: with C70, the memory that a search needs in all its course is bounded by the beginnings of proofs as well. -/
theorem C89_memory {o o' : Org} {p atoms M fuel k ts b m d T} (h : Asked o p atoms) (hM : Directed M p atoms) {L : List (List Nat)} (hL : ∀ w, BegunBy (inForce p) atoms w → w ∈ L) (hd : ∀ w ∈ L, w.length ≤ d)
    (hb : AtMost b (inForce p)) (hm : ∀ c ∈ inForce p, c.body.length ≤ m) (hT : ∀ c ∈ inForce p, Node.symbolss (c.head :: c.body) ≤ T) (hq : Node.symbolss atoms ≤ T)
    (hr : o.iterate fuel k = .ok (o', ts)) :
    o'.execs.length ≤ 1 + perBeginning b m d atoms.length * L.length * b ∧
    o'.room ≤ (b + 1) * (8 * T + 10) * ((perBeginning b m d atoms.length * L.length + 1) * (perBeginning b m d atoms.length * L.length + 1)) := by
  have h1 := (C89_most h hM hL hd hb hm hr).1
  obtain ⟨hist, h2, h3⟩ := iterate_runs .nil hr
  rw [List.nil_append] at h2
  obtain ⟨o0, ord, ord', hs, ho, _, ho', hl⟩ := h.loaded
  have h4 : hist.length = ts.length := by simpa using congrArg List.length h3
  obtain ⟨h5, _, h6⟩ := C70_text hs ho ho' hl hb hT hq h2
  rw [h4] at h5 h6
  exact ⟨Nat.le_trans h5 (Nat.add_le_add_left (Nat.mul_le_mul_right _ h1) _), Nat.le_trans h6 (Nat.mul_le_mul_left _ (Nat.mul_le_mul (by omega) (by omega)))⟩

/-! ## The web page -/

/-- **C89, the web page**: a box shows "false" only if there are finitely many beginnings of proofs. -/
theorem C89_lines {fuel : Nat} {es : List Event} {s : Site} (ha : Ample es) (ho : ProperRuns es) (h : Site.empty.steps fuel es = .ok s) :
    ∀ p ∈ s.pages, n!"false" ∈ p.lines → ∃ ord program c, Event.run ord program p.query c ∈ es ∧ ∀ cs q M, Readable program p.query cs q → Directed M cs q →
      ∃ L : List (List Nat), ∀ w, BegunBy (inForce cs) q w → w ∈ L := by
  intro p hp hf
  obtain ⟨ord, program, c, o0, o, h1, h2, _, ts, k, h3, h4, h5⟩ := C50_lines_show_search ha h p hp
  refine ⟨ord, program, c, h1, fun cs q M hr hM => ?_⟩
  obtain ⟨a1, a2⟩ := h2.asked (ho _ _ _ _ h1) hr
  obtain ⟨items, rs, b1, b2, b3⟩ := C42_breadth_first_resolution_partial a1 h3
  have nf : ∀ r ∈ reports ts, r.text ≠ n!"false" := by
    intro r hr
    obtain ⟨rep, _, g5⟩ := forall₂_of_mem (Says.meets b2) hr
    cases g5 with
    | answer => exact answer_not_false
    | error => exact error_not_false
  rw [h4 (by
    rintro rfl
    have : n!"false" ∈ p.lines.filter (· ≠ n!"Soft memory limit reached. Please close some results.") := List.mem_filter.2 ⟨hf, by decide⟩
    rw [h5, List.replicate_zero, List.append_nil] at this
    obtain ⟨r, hr, g3⟩ := List.mem_map.1 this
    exact nf r hr g3)] at b3
  obtain rfl := List.length_eq_zero_iff.1 b3
  obtain ⟨L, _, h4⟩ := b1.begun hM
  exact ⟨L, h4⟩

theorem SRun.no_is {M p atoms} (hM : Directed M p atoms) (hn : ¬ MayCall p atoms ⟨n!"is", 2⟩) {q rs q'} (h : SRun (inForce p) q rs q') : (∀ i ∈ q, i.Moded M p atoms) →
    ∀ e, some (.error e) ∉ rs := by
  induction h with
  | nil => simp
  | @cons i q news r rs q' t _ ih =>
    intro hq e he
    rcases List.mem_cons.1 he with he | he
    · subst he
      cases t with
      | error ho => cases ho <;> exact hn ((hq _ (.head _)).may _ (.head _))
    · refine ih (fun j hj => ?_) e he
      rcases List.mem_append.1 hj with hj | hj
      · exact hq j (.tail _ hj)
      · exact t.moded hM (hq _ (.head _)) j hj

/-- And if there are finitely many, then in every open box, after whatever has happened on the page, clicking "Next" leads to "false", with no more clicks than the bound of `C89_most`, if there is
time for that many iterations each time. -/
theorem C89_clicks {fuel : Nat} {es : List Event} {s : Site} (ha : Ample es) (ho : ProperRuns es) (h : Site.empty.steps fuel es = .ok s) {i p} (hp : s.pages[i]? = some p)
    (hopen : p.org ≠ none) :
    ∃ ord program c, Event.run ord program p.query c ∈ es ∧ ∀ cs q M N b m d (L : List (List Nat)), Readable program p.query cs q → WellModed M cs q → Directed N cs q →
      ¬ MayCall cs q ⟨n!"is", 2⟩ → (∀ w, BegunBy (inForce cs) q w → w ∈ L) → (∀ w ∈ L, w.length ≤ d) → AtMost b (inForce cs) → (∀ c ∈ inForce cs, c.body.length ≤ m) →
      ∃ fuel0, ∀ fuel', fuel0 ≤ fuel' → ∀ calls : List Call, perBeginning b m d q.length * L.length < calls.length →
        (∀ c ∈ calls, List.replicate (perBeginning b m d q.length * L.length + 1) false <+: c.clock) →
        ∃ s' p', s.steps fuel' (clicks i p calls) = .ok s' ∧ s'.pages[i]? = some p' ∧ p.lines <+: p'.lines ∧ n!"false" ∈ p'.lines ∧ p'.nextOn = false := by
  obtain ⟨ord, program, c, o0, o, h1, h2, h2', ts, k, h3, h4, h5⟩ := C50_lines_show_search ha h p (List.mem_of_getElem? hp)
  have horg : p.org = some o := h2'.resolve_left hopen
  refine ⟨ord, program, c, h1, fun cs q M N b m d L hr hM hN hn hL hd hb hm => ?_⟩
  obtain ⟨a1, a2⟩ := h2.asked (ho _ _ _ _ h1) hr
  generalize hK : perBeginning b m d q.length * L.length = K
  obtain ⟨f0, oE, tsE, items, rs, e1, _, b1, b2, b3⟩ := C57_search a1 a2 hM hn (ts.length + (K + 1))
  obtain ⟨hbound, hqE⟩ := C89_most a1 hN hL hd hb hm (e1 f0 (Nat.le_refl _))
  rw [hK] at hbound hqE
  have hqE := hqE (by omega)
  have only := onlyAnswers b2 (b1.no_is hN hn (by simpa using (query_left hN).1))
  have hfuel : ∀ fuel', max fuel f0 ≤ fuel' → ∃ ts2, o.iterate fuel' (K + 1) = .ok (oE, ts2) ∧ tsE = ts ++ ts2 := by
    intro fuel' hf
    have x1 := e1 fuel' (by omega)
    have x2 : o0.iterate fuel' ts.length = .ok (o, ts) := by
      rw [Org.iterate_fuel (n := fuel) (by omega) _ _ (by rw [h3]; simp), h3]
    rw [iterate_add, x2, ok_bind, bind_ok] at x1
    obtain ⟨⟨o2, ts2⟩, y1, y2⟩ := x1
    simp only [pure_ok, Prod.mk.injEq] at y2
    exact ⟨ts2, by rw [y1, y2.1], y2.2.symm⟩
  obtain ⟨ts2, -, hts⟩ := hfuel _ (Nat.le_refl _)
  subst hts
  have hlen : (reports ts2).length ≤ K := by
    have := reports_length ts2
    simp only [List.length_append] at *
    omega
  rw [reports_append] at only
  refine ⟨max fuel f0, fun fuel' hf calls hl hc => ?_⟩
  obtain ⟨ts3, g1, g2⟩ := hfuel fuel' hf
  obtain rfl := List.append_cancel_left g2
  obtain ⟨s', p', x1, x2, x3, x4, x5, _⟩ := clicks_end h hp horg h4 h5 only g1 hqE hlen hl hc
  exact ⟨s', p', x1, x2, x3, x4, x5⟩

/-! ## Concrete cases -/

theorem BeginsBy.clause_inv {p : List Clause} {k w} {g : GAtom ITree} {gs} (h : BeginsBy (inForce p) (k :: w) (g :: gs)) (hf : g.fv ∉ ownFVs) :
    ∃ c σ, (inForce p)[k]? = some c ∧ g = c.head.inst itreeAlg σ ∧ BeginsBy (inForce p) w (c.body.map (Node.inst itreeAlg σ) ++ gs) := by
  generalize hx : k :: w = x at h
  cases h with
  | nil => cases hx
  | clause hk h => cases hx; exact ⟨_, _, hk, rfl, h⟩
  | own ho => exact absurd ho.fv hf

theorem BeginsBy.own_inv {p : List Clause} {k w} {g : GAtom ITree} {gs} (h : BeginsBy (inForce p) (k :: w) (g :: gs)) (hf : g.fv ∈ ownFVs) : OwnTrue g ∧ BeginsBy (inForce p) (k :: w) gs := by
  generalize hx : k :: w = x at h
  cases h with
  | nil => cases hx
  | @clause k c σ w rest hk h =>
    rw [head_fv] at hf
    exact absurd hf (inForce_own c (List.mem_of_getElem? hk))
  | own ho h => subst hx; exact ⟨ho, h⟩

namespace BegunExample
open ComputesExample SoundExamples CompleteExamples EffortExamples

/-- The second clause any number of times up to `n + 1`, or `n` times and then the first one. -/
def words (n : Nat) : List (List Nat) := (List.replicate n 1 ++ [0]) :: (List.range (n + 2)).map (List.replicate · 1)

theorem mem_words {n w} : w ∈ words n ↔ w = List.replicate n 1 ++ [0] ∨ ∃ j, j < n + 2 ∧ w = List.replicate j 1 := by
  simp [words, eq_comm]

theorem cases4 {k c} (hk : (inForce fac)[k]? = some c) (hc : c.head.name = n!"fac") : (k = 0 ∧ c = ⟨.fn n!"fac" [.int 0, .int 1], []⟩) ∨
      (k = 1 ∧ c = ⟨.fn n!"fac" [.var n!"N", .var n!"F"],
    [.fn n!"\\==" [.var n!"N", .int 0], .fn n!"is" [.var n!"M", .efn n!"-" [.var n!"N", .int 1]], .fn n!"fac" [.var n!"M", .var n!"G"],
     .fn n!"is" [.var n!"F", .efn n!"*" [.var n!"N", .var n!"G"]]]⟩) := by
  have e : inForce fac = fac ++ appendClauses := rfl
  rw [e] at hk
  match k, hk with
  | 0, hk => left; simpa [fac, appendClauses, eq_comm] using hk
  | 1, hk => right; simpa [fac, appendClauses, eq_comm] using hk
  | 2, hk =>
    simp only [fac, appendClauses, List.cons_append, List.nil_append, List.getElem?_cons_succ, List.getElem?_cons_zero, Option.some.injEq] at hk
    subst hk; exact absurd hc (by decide)
  | 3, hk =>
    simp only [fac, appendClauses, List.cons_append, List.nil_append, List.getElem?_cons_succ, List.getElem?_cons_zero, Option.some.injEq] at hk
    subst hk; exact absurd hc (by decide)
  | k + 4, hk => simp [fac, appendClauses] at hk

/-- Goals that are about numbers only: no clause is used for them. -/
theorem no_clause {w} : ∀ {gs : List (GAtom ITree)}, BeginsBy (inForce fac) w gs → (∀ g ∈ gs, g.fv ∈ ownFVs) → w = []
  | [], h, _ => by
    cases h
    rfl
  | g :: gs, h, hg => by
    cases w with
    | nil => rfl
    | cons k w => exact no_clause (h.own_inv (hg g (.head _))).2 fun x hx => hg x (.tail _ hx)

theorem own2 {a : Name} {b : List Node} {σ : Name → ITree} (h : (⟨a, b.length⟩ : FV) ∈ ownFVs) : ((Node.fn a b).inst itreeAlg σ).fv ∈ ownFVs := by
  rw [head_fv]; exact h

/-- The beginnings of the proofs of `fac(n,F)` are among these. -/
theorem only_words : ∀ (n : Nat) {y w rest}, (∀ g ∈ rest, g.fv ∈ ownFVs) → BeginsBy (inForce fac) w (⟨n!"fac", [itreeAlg.int n, y]⟩ :: rest) → w ∈ words n := by
  intro n
  induction n with
  | zero =>
    intro y w rest hr h
    cases w with
    | nil => exact mem_words.2 (.inr ⟨0, by omega, rfl⟩)
    | cons k w =>
      obtain ⟨c, σ, hk, hg, h1⟩ := h.clause_inv (by simp [GAtom.fv, ownFVs])
      rcases cases4 hk (congrArg GAtom.name hg).symm with ⟨rfl, rfl⟩ | ⟨rfl, rfl⟩
      · obtain rfl := no_clause h1 hr
        exact mem_words.2 (.inl rfl)
      · simp only [Node.inst, Node.children, Node.evals, Node.eval, GAtom.mk.injEq, List.cons.injEq, and_true] at hg
        simp only [List.map_cons, List.cons_append] at h1
        cases w with
        | nil => exact mem_words.2 (.inr ⟨1, by omega, rfl⟩)
        | cons k w =>
          have := ((h1.own_inv (own2 (by decide))).1.truth (P := inForce fac)).neq_inv
          simp only [Node.eval] at this
          exact absurd hg.2.1.symm this
  | succ n ih =>
    intro y w rest hr h
    cases w with
    | nil => exact mem_words.2 (.inr ⟨0, by omega, rfl⟩)
    | cons k w =>
      obtain ⟨c, σ, hk, hg, h1⟩ := h.clause_inv (by simp [GAtom.fv, ownFVs])
      rcases cases4 hk (congrArg GAtom.name hg).symm with ⟨rfl, rfl⟩ | ⟨rfl, rfl⟩
      · simp only [Node.inst, Node.children, Node.evals, Node.eval, GAtom.mk.injEq, List.cons.injEq, and_true] at hg
        exact absurd (itreeAlg_sharp.int_inj hg.2.1) (by omega)
      · simp only [Node.inst, Node.children, Node.evals, Node.eval, GAtom.mk.injEq, List.cons.injEq, and_true] at hg
        simp only [List.map_cons, List.map_nil, List.cons_append, List.nil_append] at h1
        cases w with
        | nil => exact mem_words.2 (.inr ⟨1, by omega, rfl⟩)
        | cons k w =>
          obtain ⟨_, h2⟩ := h1.own_inv (own2 (by decide))
          obtain ⟨t3, h3⟩ := h2.own_inv (own2 (by decide))
          obtain ⟨m, h4, h5⟩ := (t3.truth (P := inForce fac)).is_inv
          simp only [Node.eval, Node.evals] at h4 h5
          rw [← hg.2.1] at h5
          obtain rfl : m = n := (h5.det itreeAlg_sharp (.op .int .int .sub)).trans (by omega)
          have h6 : BeginsBy (inForce fac) (k :: w) (⟨n!"fac", [itreeAlg.int n, σ n!"G"]⟩ :: (Node.fn n!"is" [.var n!"F", .efn n!"*" [.var n!"N", .var n!"G"]]).inst itreeAlg σ :: rest) := by
            rw [← h4]; exact h3
          have := ih (fun g hg => by
            rcases List.mem_cons.1 hg with rfl | hg
            · exact own2 (by decide)
            · exact hr g hg) h6
          rcases mem_words.1 this with h6 | ⟨j, hj, h6⟩
          · exact mem_words.2 (.inl (by rw [h6]; rfl))
          · exact mem_words.2 (.inr ⟨j + 1, by omega, by rw [h6]; rfl⟩)

/-- **C89**, an example: the iterations of the search for the factorial of `n` grow no faster than the square of `n`, where C85 bounds them by powers with the exponent `n`. -/
theorem C89_factorial {n : Nat} {o o' : Org} {fuel k ts} (h : Asked o fac (askFac n)) (hr : o.iterate fuel k = .ok (o', ts)) :
    ts.length ≤ (10 * n + 15) * (n + 3) ∧ ((10 * n + 15) * (n + 3) < k → o'.queue = []) := by
  have := C89_most h (directed n) (L := words n) (fun w ⟨ρ, hw⟩ => only_words n (rest := []) (by simp) hw) (d := n + 1) (fun w hw => ?_) (b := 2) (m := 4) (atMost_of (by decide +kernel)) (by decide) hr
  · have e : perBeginning 2 4 (n + 1) (askFac n).length * (words n).length = (10 * n + 15) * (n + 3) := by
      have e1 : perBeginning 2 4 (n + 1) (askFac n).length = 10 * n + 15 := by
        show 2 * (1 + (n + 1) * (4 + 1)) + 1 + 2 = _
        omega
      rw [e1]
      simp [words]
    rwa [e] at this
  · rcases mem_words.1 hw with rfl | ⟨j, hj, rfl⟩
    · simp
    · simp; omega

/-- And these are beginnings. -/
theorem all_words : ∀ (n : Nat) {w rest}, w ∈ words n → BeginsBy (inForce fac) w (⟨n!"fac", [itreeAlg.int n, itreeAlg.int 1]⟩ :: rest) := by
  have enter : ∀ (n : Nat) {w rest}, (w = [] ∨ ∃ m, n = m + 1 ∧ ∀ rest, BeginsBy (inForce fac) w (⟨n!"fac", [itreeAlg.int m, itreeAlg.int 1]⟩ :: rest)) →
      BeginsBy (inForce fac) (1 :: w) (⟨n!"fac", [itreeAlg.int n, itreeAlg.int 1]⟩ :: rest) := by
    intro n w rest h
    refine BeginsBy.clause (P := inForce fac) (k := 1) (c := fac[1]) (σ := fun v => if v = n!"N" then itreeAlg.int n else if v = n!"M" then itreeAlg.int ((n : Int) - 1) else itreeAlg.int 1) rfl ?_
    rcases h with rfl | ⟨m, rfl, h⟩
    · exact .nil
    · refine .own (.neq fun h0 => ?_) (.own (.is (.op .int .int .sub)) ?_)
      · exact absurd (itreeAlg_sharp.int_inj h0) (by omega)
      · have e : ((m + 1 : Nat) : Int) - 1 = m := by omega
        have := h (((Node.fn n!"is" [.var n!"F", .efn n!"*" [.var n!"N", .var n!"G"]]).inst itreeAlg
          (fun v => if v = n!"N" then itreeAlg.int (m + 1 : Nat) else if v = n!"M" then itreeAlg.int (((m + 1 : Nat) : Int) - 1) else itreeAlg.int 1)) :: rest)
        rw [← e] at this
        exact this
  intro n
  induction n with
  | zero =>
    intro w rest hw
    rcases mem_words.1 hw with rfl | ⟨j, hj, rfl⟩
    · exact BeginsBy.clause (P := inForce fac) (k := 0) (c := fac[0]) (σ := fun _ => itreeAlg.int 1) rfl .nil
    · match j, hj with
      | 0, _ => exact .nil
      | 1, _ => exact enter 0 (.inl rfl)
  | succ n ih =>
    intro w rest hw
    rcases mem_words.1 hw with rfl | ⟨j, hj, rfl⟩
    · exact enter (n + 1) (.inr ⟨n, rfl, fun rest => ih (mem_words.2 (.inl rfl))⟩)
    · match j, hj with
      | 0, _ => exact .nil
      | j + 1, hj => exact enter (n + 1) (.inr ⟨n, rfl, fun rest => ih (mem_words.2 (.inr ⟨j, by omega, rfl⟩))⟩)

theorem words_nodup (n : Nat) : (words n).Nodup := by
  rw [words, List.nodup_cons]
  constructor
  · intro h
    obtain ⟨j, _, h⟩ := List.mem_map.1 h
    have : 0 ∈ List.replicate j 1 := by rw [h]; simp
    simp at this
  · rw [List.Nodup, List.pairwise_map]
    refine List.nodup_range.imp fun {a b} hab h => hab ?_
    simpa using congrArg List.length h

/-- The bounds for the factorial of 2, from below 5 and from above 175, and how many iterations there are indeed. -/
theorem C89_two : Asked (demo fac (askFac 2)) fac (askFac 2) ∧ Directed modes fac (askFac 2) ∧ (∀ w, BegunBy (inForce fac) (askFac 2) w ↔ w ∈ words 2) ∧ (words 2).Nodup ∧
    (words 2).length = 5 ∧ ((demo fac (askFac 2)).iterate 40 100).toOption.map (fun r => (r.2.length, r.1.queue)) = some (24, []) := by
  refine ⟨asked_demo (by decide +kernel) (by decide +kernel) (safe_of_b (by decide +kernel)) (by decide) (by simp [askFac]) (by decide +kernel), directed 2,
    fun w => ⟨fun ⟨ρ, hw⟩ => only_words 2 (rest := []) (by simp) hw, fun hw => ⟨fun _ => itreeAlg.int 1, all_words 2 (rest := []) hw⟩⟩, words_nodup 2, rfl, by decide +kernel⟩

/-- With `p(X) :- p(X).` there are infinitely many beginnings of proofs for `p(a)`, though there are no proofs; so the search for `p(a)` never ends. -/
theorem C89_loop {o o' : Org} {fuel k ts} (h : Asked o AcceptableExamples.loop [.fn n!"p" [.cons n!"a"]]) (hr : o.iterate fuel k = .ok (o', ts)) : o'.queue ≠ [] := by
  intro hq
  have hM : Directed .free AcceptableExamples.loop [.fn n!"p" [.cons n!"a"]] := OnlyClauses.directed ⟨by decide, by decide⟩
  have hb : ∀ n, BeginsBy (inForce AcceptableExamples.loop) (List.replicate n 0) [⟨n!"p", [itreeAlg.cons n!"a"]⟩] := by
    intro n
    induction n with
    | zero => exact .nil
    | succ n ih => exact BeginsBy.clause (P := inForce AcceptableExamples.loop) (k := 0) (c := AcceptableExamples.loop[0]) (σ := fun _ => itreeAlg.cons n!"a") (rest := []) rfl ih
  have := C89_least h hM hr hq (L := (List.range (ts.length + 1)).map (List.replicate · 0)) (by
    rw [List.Nodup, List.pairwise_map]
    refine List.nodup_range.imp fun {a b} hab h => hab ?_
    simpa using congrArg List.length h) (fun w hw => by
    obtain ⟨j, _, rfl⟩ := List.mem_map.1 hw
    exact ⟨fun _ => itreeAlg.int 0, hb j⟩)
  simp at this
  omega

/-- The hypotheses of `C89_loop` and of `C89_free` are met. -/
example : Asked (demo AcceptableExamples.loop [.fn n!"p" [.cons n!"a"]]) AcceptableExamples.loop [.fn n!"p" [.cons n!"a"]] ∧
    ((demo AcceptableExamples.loop [.fn n!"p" [.cons n!"a"]]).iterate 40 100).toOption.map (fun r => r.2.length) = some 100 :=
  ⟨asked_demo (by decide +kernel) (by decide +kernel) (safe_of_b (by decide +kernel)) (by decide) (by simp) (by decide +kernel), by decide +kernel⟩

open AcceptableExamples ModedExamples in
example : Asked (demo rev askRev) rev askRev ∧ Printable (demo rev askRev).st ∧ Directed .free rev askRev ∧ WellModed forth rev askRev ∧ ¬ MayCall rev askRev ⟨n!"is", 2⟩ :=
  ⟨asked_demo (by decide +kernel) (by decide +kernel) (safe_of_b (by decide +kernel)) (by decide) (by simp [askRev]) (by decide +kernel),
    ⟨by decide +kernel, by decide +kernel, by decide +kernel, by decide +kernel⟩, OnlyClauses.directed ⟨by decide, by decide⟩,
    .of [⟨n!"rev", 2⟩, ⟨n!"append", 3⟩] ⟨fun _ => rfl, fun _ => rfl, fun _ _ => rfl⟩ (by decide) (by decide) (by decide), NoArith.notCalled ⟨by decide, by decide⟩⟩

open AcceptableExamples ModedExamples EndsExample in
/-- The hypotheses of `C89_lines` and `C89_clicks` are met: there is a box for `rev([a,b],R)`, and its query has finitely many beginnings of proofs, as the search ends. -/
example : Ample started ∧ ProperRuns started ∧ ((Site.empty.steps 0 started).toOption.map fun s => s.pages.map (fun p => (p.query, p.org.isSome))) = some [(n!"rev([a,b],R)", true)] ∧
    Readable EndsExample.text n!"rev([a,b],R)" rev askRev ∧ ∃ L : List (List Nat), ∀ w, BegunBy (inForce rev) askRev w → w ∈ L := by
  refine ⟨started_ample, started_proper, by decide +kernel, readable, ?_⟩
  have h : Asked (demo rev askRev) rev askRev :=
    asked_demo (by decide +kernel) (by decide +kernel) (safe_of_b (by decide +kernel)) (by decide) (by simp [askRev]) (by decide +kernel)
  have hr : ((demo rev askRev).iterate 40 100).toOption.map (fun r => r.1.queue) = some [] := by decide +kernel
  cases hi : (demo rev askRev).iterate 40 100 with
  | error => rw [hi] at hr; cases hr
  | ok r =>
    rw [hi] at hr
    obtain ⟨items, rs, b1, b2, b3⟩ := C42_breadth_first_resolution_partial h hi
    rw [show r.1.queue = [] from Option.some.inj hr] at b3
    obtain rfl := List.length_eq_zero_iff.1 b3
    obtain ⟨L, _, hL⟩ := b1.begun (OnlyClauses.directed ⟨by decide, by decide⟩)
    exact ⟨L, hL⟩

end BegunExample
end PBfs
