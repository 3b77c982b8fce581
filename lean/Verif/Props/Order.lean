import Verif.Spec.Order
import Verif.Props.Effort
/-! # C77: what the order of the clauses matters for, and what more clauses do -/
namespace PBfs
open Org

namespace PartOf
variable {α β : Type _}

theorem refl (xs : List α) : PartOf xs xs := ⟨[], by simp⟩

theorem of_perm {xs ys : List α} (h : xs.Perm ys) : PartOf xs ys := ⟨[], by simpa using h⟩

theorem nil (xs : List α) : PartOf [] xs := ⟨xs, by simp⟩

theorem left (xs ys : List α) : PartOf xs (xs ++ ys) := ⟨ys, .refl _⟩

theorem trans {xs ys zs : List α} (h : PartOf xs ys) (h' : PartOf ys zs) : PartOf xs zs := by
  obtain ⟨a, ha⟩ := h
  obtain ⟨b, hb⟩ := h'
  exact ⟨a ++ b, by rw [← List.append_assoc]; exact (ha.append_right b).trans hb⟩

theorem append {xs ys xs' ys' : List α} (h : PartOf xs ys) (h' : PartOf xs' ys') : PartOf (xs ++ xs') (ys ++ ys') := by
  obtain ⟨a, ha⟩ := h
  obtain ⟨b, hb⟩ := h'
  refine ⟨a ++ b, .trans ?_ (ha.append hb)⟩
  rw [List.append_assoc, List.append_assoc]
  refine List.Perm.append_left xs ?_
  rw [← List.append_assoc, ← List.append_assoc]
  exact List.Perm.append_right b List.perm_append_comm

theorem filterMap {xs ys : List α} (f : α → Option β) (h : PartOf xs ys) : PartOf (xs.filterMap f) (ys.filterMap f) := by
  obtain ⟨a, ha⟩ := h
  exact ⟨a.filterMap f, by rw [← List.filterMap_append]; exact ha.filterMap f⟩

theorem filter {xs ys : List α} (f : α → Bool) (h : PartOf xs ys) : PartOf (xs.filter f) (ys.filter f) := by
  obtain ⟨a, ha⟩ := h
  exact ⟨a.filter f, by rw [← List.filter_append]; exact ha.filter f⟩

theorem map {xs ys : List α} (f : α → β) (h : PartOf xs ys) : PartOf (xs.map f) (ys.map f) := by
  obtain ⟨a, ha⟩ := h
  exact ⟨a.map f, by rw [← List.map_append]; exact ha.map f⟩

theorem length_le {xs ys : List α} (h : PartOf xs ys) : xs.length ≤ ys.length := by
  obtain ⟨a, ha⟩ := h
  have := ha.length_eq
  rw [List.length_append] at this
  omega

theorem eq_nil {xs : List α} (h : PartOf xs []) : xs = [] := List.length_eq_zero_iff.1 (by have := h.length_le; simp at this; simp [this])

theorem perm {xs ys : List α} (h : PartOf xs ys) (hl : ys.length ≤ xs.length) : xs.Perm ys := by
  obtain ⟨a, ha⟩ := h
  have := ha.length_eq
  rw [List.length_append] at this
  obtain rfl := List.length_eq_zero_iff.1 (by omega : a.length = 0)
  simpa using ha

end PartOf

/-! ## Rounds of the search -/

section
variable {P P' : List Clause}

/-- Everything in the queue has its turn. -/
inductive Round (P : List Clause) : List SItem → List (Option Rep) → List SItem → Prop
  | nil : Round P [] [] []
  | cons {i q news r rs q'} : STurn P i news r → Round P q rs q' → Round P (i :: q) (r :: rs) (news ++ q')

inductive Rounds (P : List Clause) : Nat → List SItem → List (Option Rep) → List SItem → Prop
  | zero {q} : Rounds P 0 q [] q
  | succ {n q rs q1 rs' q2} : Round P q rs q1 → Rounds P n q1 rs' q2 → Rounds P (n + 1) q (rs ++ rs') q2

theorem STurn.more (hP : PartOf P P') {i news r} (h : STurn P i news r) : ∃ news', STurn P' i news' r ∧ PartOf news news' := by
  cases h with
  | leave => exact ⟨_, .leave, .refl _⟩
  | call hf => exact ⟨_, .call hf, (hP.filter _).map _⟩
  | callOwn hf => exact ⟨_, .callOwn hf, .refl _⟩
  | reject h => exact ⟨_, .reject h, .refl _⟩
  | enter h h' => exact ⟨_, .enter h h', .refl _⟩
  | answer h h' => exact ⟨_, .answer h h', .refl _⟩
  | ownFail h => exact ⟨_, .ownFail h, .refl _⟩
  | ownPass h h' => exact ⟨_, .ownPass h h', .refl _⟩
  | ownAnswer h h' => exact ⟨_, .ownAnswer h h', .refl _⟩
  | error h => exact ⟨_, .error h, .refl _⟩

theorem STurn.fewer (hP : PartOf P P') {i news' r} (h : STurn P' i news' r) : ∃ news, STurn P i news r ∧ PartOf news news' := by
  cases h with
  | leave => exact ⟨_, .leave, .refl _⟩
  | call hf => exact ⟨_, .call hf, (hP.filter _).map _⟩
  | callOwn hf => exact ⟨_, .callOwn hf, .refl _⟩
  | reject h => exact ⟨_, .reject h, .refl _⟩
  | enter h h' => exact ⟨_, .enter h h', .refl _⟩
  | answer h h' => exact ⟨_, .answer h h', .refl _⟩
  | ownFail h => exact ⟨_, .ownFail h, .refl _⟩
  | ownPass h h' => exact ⟨_, .ownPass h h', .refl _⟩
  | ownAnswer h h' => exact ⟨_, .ownAnswer h h', .refl _⟩
  | error h => exact ⟨_, .error h, .refl _⟩

theorem Round.split : ∀ {q1 q2 rs q'}, Round P (q1 ++ q2) rs q' → ∃ r1 r2 n1 n2, Round P q1 r1 n1 ∧ Round P q2 r2 n2 ∧ rs = r1 ++ r2 ∧ q' = n1 ++ n2
  | [], _, _, _, h => ⟨[], _, [], _, .nil, h, rfl, rfl⟩
  | _ :: q1, _, _, _, h => by
    cases h with
    | cons t h =>
      obtain ⟨r1, r2, n1, n2, h1, h2, rfl, rfl⟩ := Round.split (q1 := q1) h
      exact ⟨_, _, _, _, .cons t h1, h2, rfl, (List.append_assoc _ _ _).symm⟩

theorem Round.perm {q q2 : List SItem} (hq : q.Perm q2) : ∀ {rs n}, Round P q rs n → ∃ rs2 n2, Round P q2 rs2 n2 ∧ rs.Perm rs2 ∧ n.Perm n2 := by
  induction hq with
  | nil => intro rs n h; exact ⟨_, _, h, .refl _, .refl _⟩
  | cons _ _ ih =>
    intro rs n h
    cases h with
    | cons t h =>
      obtain ⟨_, _, h1, h2, h3⟩ := ih h
      exact ⟨_, _, .cons t h1, h2.cons _, h3.append_left _⟩
  | swap =>
    intro rs n h
    cases h with
    | cons t h =>
      cases h with
      | cons t' h =>
        refine ⟨_, _, .cons t' (.cons t h), .swap _ _ _, ?_⟩
        rw [← List.append_assoc, ← List.append_assoc]
        exact List.Perm.append_right _ List.perm_append_comm
  | trans _ _ ih1 ih2 =>
    intro rs n h
    obtain ⟨_, _, h1, h2, h3⟩ := ih1 h
    obtain ⟨_, _, h4, h5, h6⟩ := ih2 h1
    exact ⟨_, _, h4, h2.trans h5, h3.trans h6⟩

theorem Round.same (hP : PartOf P P') {q rs n'} (h : Round P' q rs n') : ∃ n, Round P q rs n ∧ PartOf n n' := by
  induction h with
  | nil => exact ⟨_, .nil, .refl _⟩
  | cons t _ ih =>
    obtain ⟨n, h1, h2⟩ := ih
    obtain ⟨m, t1, t2⟩ := t.fewer hP
    exact ⟨_, .cons t1 h1, t2.append h2⟩

/-- With fewer clauses and less in the queue there is less to do. -/
theorem Round.fewer (hP : PartOf P P') {q q2 rs2 n2} (hq : PartOf q q2) (h : Round P' q2 rs2 n2) : ∃ rs n, Round P q rs n ∧ PartOf rs rs2 ∧ PartOf n n2 := by
  obtain ⟨zs, hz⟩ := hq
  obtain ⟨rs3, n3, h1, h2, h3⟩ := h.perm hz.symm
  obtain ⟨r1, r2, m1, m2, h4, _, rfl, rfl⟩ := h1.split
  obtain ⟨n, h5, h6⟩ := h4.same hP
  exact ⟨r1, n, h5, (PartOf.left _ _).trans (.of_perm h2.symm), h6.trans ((PartOf.left _ _).trans (.of_perm h3.symm))⟩

theorem Rounds.fewer (hP : PartOf P P') {k q2 rs2 n2} (h : Rounds P' k q2 rs2 n2) : ∀ {q}, PartOf q q2 → ∃ rs n, Rounds P k q rs n ∧ PartOf rs rs2 ∧ PartOf n n2 := by
  induction h with
  | zero => intro q hq; exact ⟨_, _, .zero, .refl _, hq⟩
  | succ h _ ih =>
    intro q hq
    obtain ⟨rs, n, h1, h2, h3⟩ := h.fewer hP hq
    obtain ⟨rs', n', h4, h5, h6⟩ := ih h3
    exact ⟨_, _, .succ h1 h4, h2.append h5, h6⟩

/-! ## Rounds and turns -/

theorem Round.srun {q rs n} (h : Round P q rs n) : ∀ q0, SRun P (q ++ q0) rs (q0 ++ n) := by
  induction h with
  | nil => intro q0; simpa using SRun.nil
  | @cons i q news r rs q' t _ ih =>
    intro q0
    have := ih (q0 ++ news)
    rw [← List.append_assoc, List.append_assoc q0] at this
    exact .cons t this

theorem Rounds.srun {k q rs n} (h : Rounds P k q rs n) : SRun P q rs n := by
  induction h with
  | zero => exact .nil
  | succ h _ ih =>
    have := h.srun []
    simp only [List.append_nil, List.nil_append] at this
    exact this.append ih

theorem SRun.left_le {q rs q'} (h : SRun P q rs q') : q.length ≤ rs.length + q'.length := by
  induction h with
  | nil => simp
  | cons _ _ ih => simp only [List.length_cons, List.length_append] at ih ⊢; omega

theorem SRun.round : ∀ {q q0 rs q'}, SRun P (q ++ q0) rs q' → q.length ≤ rs.length → ∃ r1 r2 n, Round P q r1 n ∧ rs = r1 ++ r2 ∧ r1.length = q.length ∧ SRun P (q0 ++ n) r2 q'
  | [], q0, rs, q', h, _ => ⟨[], rs, [], .nil, rfl, rfl, by simpa using h⟩
  | i :: q, q0, rs, q', h, hl => by
    cases h with
    | nil => simp at hl
    | cons t h =>
      have h' : SRun P (q ++ q0 ++ _) _ _ := h
      rw [List.append_assoc] at h'
      obtain ⟨r1, r2, n, h1, rfl, h2, h3⟩ := SRun.round h' (by simpa using hl)
      exact ⟨_, r2, _, .cons t h1, rfl, by simp [h2], by rw [List.append_assoc] at h3; exact h3⟩

theorem SRun.rounds : ∀ {m : Nat} {q rs}, rs.length ≤ m → SRun P q rs [] → ∃ k, Rounds P k q rs [] := by
  intro m
  induction m with
  | zero =>
    intro q rs hm h
    obtain rfl := List.length_eq_zero_iff.1 (by omega : rs.length = 0)
    cases h
    exact ⟨0, .zero⟩
  | succ m ih =>
    intro q rs hm h
    cases q with
    | nil => obtain ⟨rfl, _⟩ := h.nil_inv; exact ⟨0, .zero⟩
    | cons i q =>
      have hl := h.left_le
      obtain ⟨r1, r2, n, h1, rfl, h2, h3⟩ := SRun.round (q := i :: q) (q0 := []) (by simpa using h) (by simpa using hl)
      simp only [List.length_append, List.length_cons] at hm h2
      obtain ⟨k, hk⟩ := ih (by omega) h3
      exact ⟨k + 1, .succ h1 hk⟩

/-- The search does not get stuck. -/
def Goes (P : List Clause) (q : List SItem) : Prop := ∀ k, ∃ rs q', SRun P q rs q' ∧ (rs.length = k ∨ q' = [])

theorem Goes.rounds : ∀ {k : Nat} {q}, Goes P q → ∃ rs q', Rounds P k q rs q' := by
  intro k
  induction k with
  | zero => intro q _; exact ⟨_, _, .zero⟩
  | succ k ih =>
    intro q h
    have key : ∀ j, ∃ rs q', SRun P q rs q' ∧ (rs.length = q.length + j ∨ q' = []) ∧ q.length ≤ rs.length := by
      intro j
      obtain ⟨rs, q', h1, h2⟩ := h (q.length + j)
      refine ⟨rs, q', h1, h2, ?_⟩
      rcases h2 with h2 | rfl
      · omega
      · simpa using h1.left_le
    obtain ⟨rs, q', h1, _, h3⟩ := key 0
    obtain ⟨r1, r2, n, h4, _, h5, _⟩ := SRun.round (q := q) (q0 := []) (by simpa using h1) h3
    have hn : Goes P n := by
      intro j
      obtain ⟨rs', q2, g1, g2, g3⟩ := key j
      obtain ⟨s1, s2, n', g4, rfl, g5, g6⟩ := SRun.round (q := q) (q0 := []) (by simpa using g1) g3
      have e1 := h4.srun []
      have e2 := g4.srun []
      obtain ⟨_, e3⟩ := C42_determined e1 e2 (by omega)
      simp only [List.nil_append] at e3
      subst e3
      refine ⟨s2, q2, by simpa using g6, ?_⟩
      rcases g2 with g2 | g2
      · left; rw [List.length_append] at g2; omega
      · exact .inr g2
    obtain ⟨rs', q2, h6⟩ := ih hn
    exact ⟨_, _, .succ h4 h6⟩

theorem Rounds.nil_inv {k rs q'} (h : Rounds P k [] rs q') : q' = [] := by
  generalize hq : ([] : List SItem) = q at h
  induction h with
  | zero => rfl
  | succ h _ ih => subst hq; cases h; exact ih rfl

theorem Rounds.many {k q rs q'} (h : Rounds P k q rs q') : k ≤ rs.length ∨ q' = [] := by
  induction h with
  | zero => exact .inl (by simp)
  | succ h h' ih =>
    rcases ih with ih | ih
    · cases h with
      | nil => exact .inr h'.nil_inv
      | cons => left; simp only [List.length_append, List.length_cons]; omega
    · exact .inr ih

theorem SRun.prefix {q rs q' rs2 q2} (h : SRun P q rs q') (h' : SRun P q rs2 q2) (hl : rs.length ≤ rs2.length) : ∃ rest, rs2 = rs ++ rest := by
  induction h generalizing rs2 q2 with
  | nil => exact ⟨rs2, rfl⟩
  | cons t _ ih =>
    cases h' with
    | nil => simp at hl
    | cons t' h' =>
      obtain ⟨rfl, rfl⟩ := t.det t'
      obtain ⟨rest, rfl⟩ := ih h' (by simpa using hl)
      exact ⟨rest, rfl⟩

theorem Rounds.contain {q rs q' k RS Q} (h : SRun P q rs q') (h' : Rounds P k q RS Q) (hk : rs.length ≤ k) : PartOf rs RS := by
  have hs := h'.srun
  have hl : rs.length ≤ RS.length := by
    rcases h'.many with hm | rfl
    · omega
    · exact hs.ended h
  obtain ⟨rest, rfl⟩ := h.prefix hs hl
  exact .left _ _

/-- With fewer clauses, breadth-first resolution ends, too. -/
theorem SRun.fewer (hP : PartOf P P') {q rs'} (h : SRun P' q rs' []) : ∃ rs, SRun P q rs [] ∧ PartOf rs rs' := by
  obtain ⟨k, hk⟩ := h.rounds (Nat.le_refl _)
  obtain ⟨rs, n, h1, h2, h3⟩ := hk.fewer hP (.refl _)
  obtain rfl := h3.eq_nil
  exact ⟨rs, h1.srun, h2⟩

/-- With more clauses, breadth-first resolution reports what it reports with fewer, sooner or later. -/
theorem Goes.more (hP : PartOf P P') {q} (h : Goes P' q) {rs q'} (hr : SRun P q rs q') : ∃ K, ∀ rs' q2, SRun P' q rs' q2 → (rs'.length = K ∨ q2 = []) → PartOf rs rs' := by
  obtain ⟨RS', Q', h1⟩ := h.rounds (k := rs.length)
  obtain ⟨RS, Q, h2, h3, _⟩ := h1.fewer hP (.refl _)
  have h4 := (Rounds.contain hr h2 (Nat.le_refl _)).trans h3
  refine ⟨RS'.length, fun rs' q2 h5 h6 => ?_⟩
  have hl : RS'.length ≤ rs'.length := by
    rcases h6 with h6 | rfl
    · omega
    · exact h5.ended h1.srun
  obtain ⟨rest, rfl⟩ := h1.srun.prefix h5 hl
  exact h4.trans (.left _ _)

end

theorem inForce_within {p p'} (h : PartOf p p') : PartOf (inForce p) (inForce p') := (h.filter _).append (.refl _)

/-! ## The interpreter -/

/-- Two results of `get_answer`, by two interpreters, with the same meaning: errors of the same kind, or answers with the same instances. -/
def SameRes (st st' : Storage) (atoms : List Node) (fuel fuel' : Nat) (r r' : Org.Res) : Prop :=
  ∃ rep, Meets st atoms fuel r rep ∧ Meets st' atoms fuel' r' rep

/-- All reports in `rs` have counterparts in `rs'`, different reports different ones. -/
def Reappear (st st' : Storage) (atoms : List Node) (fuel fuel' : Nat) (rs rs' : List Org.Res) : Prop :=
  ∃ l, List.Forall₂ (SameRes st st' atoms fuel fuel') rs l ∧ PartOf l rs'

section
variable {α β : Type} {R : α → β → Prop}

theorem forall₂_permuted {bs bs' : List β} (hp : bs.Perm bs') : ∀ {xs}, List.Forall₂ R xs bs → ∃ xs', xs.Perm xs' ∧ List.Forall₂ R xs' bs' := by
  induction hp with
  | nil => intro xs h; cases h; exact ⟨[], .refl _, .nil⟩
  | cons _ _ ih =>
    intro xs h
    cases h with
    | cons h1 h2 =>
      obtain ⟨xs', h3, h4⟩ := ih h2
      exact ⟨_, h3.cons _, .cons h1 h4⟩
  | swap =>
    intro xs h
    cases h with
    | cons h1 h2 =>
      cases h2 with
      | cons h2 h3 => exact ⟨_, .swap _ _ _, .cons h2 (.cons h1 h3)⟩
  | trans _ _ ih1 ih2 =>
    intro xs h
    obtain ⟨_, h1, h2⟩ := ih1 h
    obtain ⟨_, h3, h4⟩ := ih2 h2
    exact ⟨_, h1.trans h3, h4⟩

theorem forall₂_append_inv {xs : List α} {as bs : List β} (h : List.Forall₂ R xs (as ++ bs)) : ∃ ys zs, xs = ys ++ zs ∧ List.Forall₂ R ys as ∧ List.Forall₂ R zs bs := by
  induction as generalizing xs with
  | nil => exact ⟨[], xs, rfl, .nil, h⟩
  | cons a as ih =>
    cases h with
    | cons h1 h2 =>
      obtain ⟨ys, zs, rfl, h3, h4⟩ := ih h2
      exact ⟨_, zs, rfl, .cons h1 h3, h4⟩

end

theorem reappear_of {st st' atoms fuel fuel' rs rs'} {reps reps' : List Rep} (h : List.Forall₂ (Meets st atoms fuel) rs reps)
    (h' : List.Forall₂ (Meets st' atoms fuel') rs' reps') (hw : PartOf reps reps') : Reappear st st' atoms fuel fuel' rs rs' := by
  obtain ⟨zs, hz⟩ := hw
  obtain ⟨xs, h1, h2⟩ := forall₂_permuted hz.symm h'
  obtain ⟨l, rest, rfl, h3, h4⟩ := forall₂_append_inv h2
  refine ⟨l, ?_, (PartOf.left _ _).trans (.of_perm h1.symm)⟩
  clear hz h1 h2 h4 h'
  induction h generalizing l with
  | nil => cases h3; exact .nil
  | cons a _ ih =>
    cases h3 with
    | cons b h3 => exact .cons ⟨_, a, b⟩ (ih _ h3)

/-- **C77, fewer clauses**: if the search with a program ends, then so does the search with a part of its clauses, in any order and with any history; it takes no more
iterations and reports nothing that is not reported with all clauses. -/
theorem C77_fewer {o o2 oe o' : Org} {p p2 atoms fuel fuel2 k k2 ts ts2} (h : Asked o p atoms) (h2 : Asked o2 p2 atoms) (hp : PartOf p p2)
    (hr2 : o2.iterate fuel2 k2 = .ok (oe, ts2)) (hq : oe.queue = []) (hr : o.iterate fuel k = .ok (o', ts)) :
    ts.length ≤ ts2.length ∧ (ts2.length ≤ k → o'.queue = []) ∧ Reappear o.st o2.st atoms fuel fuel2 (reports ts) (reports ts2) := by
  obtain ⟨items2, rs2, a1, a2, a3⟩ := C42_breadth_first_resolution_partial h2 hr2
  obtain ⟨items, rs, b1, b2, b3⟩ := C42_breadth_first_resolution_partial h hr
  rw [hq] at a3
  obtain rfl := List.length_eq_zero_iff.1 a3
  obtain ⟨rs', c1, c2⟩ := a1.fewer (inForce_within hp)
  have hl := c1.ended b1
  have hl2 := c2.length_le
  obtain ⟨rest, rfl⟩ := b1.prefix c1 hl
  have e1 := b2.length_eq
  have e2 := a2.length_eq
  refine ⟨by omega, fun hk => ?_, reappear_of (Says.meets b2) (Says.meets a2) (((PartOf.left _ _).trans c2).filterMap _)⟩
  rcases Nat.lt_or_ge ts.length k with hlt | hge
  · exact (iterate_length hr).2 hlt
  · have : (rs ++ rest).length ≤ rs.length := by omega
    rw [List.length_append] at this
    obtain rfl := List.length_eq_zero_iff.1 (by omega : rest.length = 0)
    rw [List.append_nil] at c1
    obtain ⟨_, rfl⟩ := C42_determined c1 b1 rfl
    exact List.length_eq_zero_iff.1 b3.symm

/-- **C77, order**: if two programs have the same clauses in different order and the search with one of them ends, then so does the search with the other; it takes as many
iterations and makes the same reports in some order. -/
theorem C77_order {o o2 oe o' : Org} {p p2 atoms fuel fuel2 k k2 ts ts2} (h : Asked o p atoms) (h2 : Asked o2 p2 atoms) (hp : p.Perm p2)
    (hr2 : o2.iterate fuel2 k2 = .ok (oe, ts2)) (hq : oe.queue = []) (hr : o.iterate fuel k = .ok (o', ts)) (hk : ts2.length ≤ k) :
    o'.queue = [] ∧ ts.length = ts2.length ∧ ∃ l, List.Forall₂ (SameRes o.st o2.st atoms fuel fuel2) (reports ts) l ∧ l.Perm (reports ts2) := by
  obtain ⟨a1, a2, l, a3, a4⟩ := C77_fewer h h2 (.of_perm hp) hr2 hq hr
  have hq' := a2 hk
  have hk' : ts.length ≤ k2 := Nat.le_trans a1 (iterate_length hr2).1
  obtain ⟨b1, _, l', b3, b4⟩ := C77_fewer h2 h (.of_perm hp.symm) hr hq' hr2
  refine ⟨hq', by omega, l, a3, a4.perm ?_⟩
  have := b3.length_eq
  have := b4.length_le
  have := a3.length_eq
  omega

/-- **C77, more clauses**: what is reported with some clauses is reported with more clauses, too, in any order and with any history, if there is enough time - whether or not the
searches end. -/
theorem C77_more {o o2 o' : Org} {p p2 atoms fuel k ts} (h : Asked o p atoms) (h2 : Asked o2 p2 atoms) (hp : PartOf p p2) (hr : o.iterate fuel k = .ok (o', ts)) :
    ∃ K, ∀ fuel2 oe ts2, o2.iterate fuel2 K = .ok (oe, ts2) → Reappear o.st o2.st atoms fuel fuel2 (reports ts) (reports ts2) := by
  obtain ⟨items, rs, b1, b2, b3⟩ := C42_breadth_first_resolution_partial h hr
  have done : ∀ {K fuel2 oe ts2}, o2.iterate fuel2 K = .ok (oe, ts2) → ∃ rs2 q2, SRun (inForce p2) [.goals (atoms.map (.goal ·.fv)) (Insts.query atoms)] rs2 q2 ∧
      List.Forall₂ (Says o2.st atoms fuel2) ts2 rs2 ∧ (rs2.length = K ∨ q2 = []) := by
    intro K fuel2 oe ts2 hr2
    obtain ⟨items2, rs2, a1, a2, a3⟩ := C42_breadth_first_resolution_partial h2 hr2
    refine ⟨rs2, items2, a1, a2, ?_⟩
    have := a2.length_eq
    obtain ⟨h1, h2⟩ := iterate_length hr2
    rcases Nat.lt_or_ge ts2.length K with hlt | hge
    · rw [h2 hlt] at a3
      exact .inr (List.length_eq_zero_iff.1 a3)
    · exact .inl (by omega)
  by_cases hg : Goes (inForce p2) [.goals (atoms.map (.goal ·.fv)) (Insts.query atoms)]
  · obtain ⟨K, hK⟩ := hg.more (inForce_within hp) b1
    refine ⟨K, fun fuel2 oe ts2 hr2 => ?_⟩
    obtain ⟨rs2, q2, c1, c2, c3⟩ := done hr2
    exact reappear_of (Says.meets b2) (Says.meets c2) ((hK _ _ c1 c3).filterMap _)
  · simp only [Goes, not_forall, not_exists, not_and] at hg
    obtain ⟨K, hK⟩ := hg
    refine ⟨K, fun fuel2 oe ts2 hr2 => ?_⟩
    obtain ⟨rs2, q2, c1, c2, c3⟩ := done hr2
    exact absurd c3 (hK _ _ c1)

/-- The same for calls of `get_answer`: if with both orders of the clauses they have gone on until there were no more answers, then they have reported the same, in some order,
whatever the clock did. -/
theorem C77_sessions {o o2 o' o2' : Org} {p p2 atoms fuel fuel2 clocks clocks2 rs rs2} (h : Asked o p atoms) (h2 : Asked o2 p2 atoms) (hp : p.Perm p2)
    (hs : o.session fuel clocks = .ok (o', rs)) (hl : rs.getLast? = some .noAnswer) (hs2 : o2.session fuel2 clocks2 = .ok (o2', rs2)) (hl2 : rs2.getLast? = some .noAnswer) :
    ∃ l, List.Forall₂ (SameRes o.st o2.st atoms fuel fuel2) (rs.filter Res.isReport) l ∧ l.Perm (rs2.filter Res.isReport) := by
  obtain ⟨ts, a1, a2⟩ := C05_timeouts_transparent h.reach hs
  obtain ⟨ts2, b1, b2⟩ := C05_timeouts_transparent h2.reach hs2
  have hq := session_exhausted hs hl h.reach.rinv
  have hq2 := session_exhausted hs2 hl2 h2.reach.rinv
  have hle := (C77_fewer h2 h (.of_perm hp.symm) a1 hq b1).1
  obtain ⟨_, _, l, c1, c2⟩ := C77_order h h2 hp b1 hq2 a1 hle
  rw [a2, b2]
  exact ⟨l, c1, c2⟩

/-- Where a variable has the same finite value in all instances, answers with the same instances show the same text. -/
theorem C77_text {st st' : Storage} {atoms fuel fuel' bs bs'} (hpr : Printable st) (sok : StOK st) (hpr' : Printable st') (sok' : StOK st')
    (h : SameRes st st' atoms fuel fuel' (.answer bs) (.answer bs')) :
    ∃ S, ShowsInsts st atoms fuel bs S ∧ ShowsInsts st' atoms fuel' bs' S ∧
      ∀ x u s, (∀ ρ gs, S ρ gs → ρ x = u.fold itreeAlg) → Text u s → ∀ b ∈ bs ++ bs', b.name = x → b.value = s := by
  obtain ⟨rep, h1, h2⟩ := h
  cases h1 with
  | @answer _ S h1 =>
    cases h2 with
    | answer h2 =>
      refine ⟨S, h1, h2, fun x u s hx hs b hb hn => ?_⟩
      rcases List.mem_append.1 hb with hb | hb
      · exact h1.text hpr sok hx hs hb hn
      · exact h2.text hpr' sok' hx hs hb hn

/-! ## Concrete cases -/

namespace OrderExamples
open SoundExamples CompleteExamples

/-- `n(z).  n(s(X)) :- n(X).  n(w).` -/
def up : List Clause :=
  [⟨.fn n!"n" [.cons n!"z"], []⟩, ⟨.fn n!"n" [.fn n!"s" [.var n!"X"]], [.fn n!"n" [.var n!"X"]]⟩, ⟨.fn n!"n" [.cons n!"w"], []⟩]

/-- The same clauses in another order. -/
def down : List Clause :=
  [⟨.fn n!"n" [.fn n!"s" [.var n!"X"]], [.fn n!"n" [.var n!"X"]]⟩, ⟨.fn n!"n" [.cons n!"w"], []⟩, ⟨.fn n!"n" [.cons n!"z"], []⟩]

/-- `n(s(A))` -/
def askUp : List Node := [.fn n!"n" [.fn n!"s" [.var n!"A"]]]

/-- The hypotheses of `C77_more` are met, in both directions, by searches that never end. -/
example : Asked (demo up askUp) up askUp ∧ Asked (demo down askUp) down askUp ∧ up.Perm down ∧
    ((demo up askUp).iterate 20 14).toOption.map (fun r => (reports r.2).take 3) = some [.answer [⟨n!"A", n!"z"⟩], .answer [⟨n!"A", n!"w"⟩], .answer [⟨n!"A", n!"s(z)"⟩]] ∧
    ((demo down askUp).iterate 20 14).toOption.map (fun r => (reports r.2).take 3) = some [.answer [⟨n!"A", n!"w"⟩], .answer [⟨n!"A", n!"z"⟩], .answer [⟨n!"A", n!"s(w)"⟩]] := by
  refine ⟨asked_demo (by decide +kernel) (by decide +kernel) (safe_of_b (by decide +kernel)) (by decide) (by simp [askUp]) (by decide +kernel),
    asked_demo (by decide +kernel) (by decide +kernel) (safe_of_b (by decide +kernel)) (by decide) (by simp [askUp]) (by decide +kernel), ?_, by decide +kernel, by decide +kernel⟩
  exact List.perm_append_comm (l₁ := [_])  (l₂ := [_, _])

/-- `n(s(s(z)))` -/
def askTwoUp : List Node := [.fn n!"n" [.fn n!"s" [.fn n!"s" [.cons n!"z"]]]]

/-- The hypotheses of `C77_order` are met: both searches end after as many iterations. -/
example : Asked (demo up askTwoUp) up askTwoUp ∧ Asked (demo down askTwoUp) down askTwoUp ∧
    ((demo up askTwoUp).iterate 20 100).toOption.map (fun r => (r.1.queue, r.2.length, reports r.2)) = some ([], 12, [.answer []]) ∧
    ((demo down askTwoUp).iterate 20 100).toOption.map (fun r => (r.1.queue, r.2.length, reports r.2)) = some ([], 12, [.answer []]) :=
  ⟨asked_demo (by decide +kernel) (by decide +kernel) (safe_of_b (by decide +kernel)) (by decide) (by simp [askTwoUp]) (by decide +kernel),
    asked_demo (by decide +kernel) (by decide +kernel) (safe_of_b (by decide +kernel)) (by decide) (by simp [askTwoUp]) (by decide +kernel), by decide +kernel, by decide +kernel⟩

end OrderExamples
end PBfs
