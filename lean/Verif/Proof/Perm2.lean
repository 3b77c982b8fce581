import Verif.Proof.Perm
import Verif.Spec.Shared
/-! # Permanent variables are shared -/
namespace PBfs

/-- What is known of the variables while atom number `k`, with the variables `cur`, is visited: those in `D` occurred before it. -/
def Seen (k : Nat) (D cur : Name → Prop) (Sh : Name → Prop) (m : List VarInfo) : Prop :=
  ∀ i ∈ m, (D i.name ∨ cur i.name) ∧ (i.first ≠ k → D i.name) ∧ (i.perm = true → Sh i.name)

theorem Seen.later {k D cur Sh m v} (h : Seen k D cur Sh m) (hv : cur v) (hs : D v → Sh v) : Seen k D cur Sh (noteLater k v m) := by
  induction m with
  | nil =>
    intro i hi
    simp only [noteLater, List.mem_singleton] at hi
    subst hi
    exact ⟨.inr hv, fun h => absurd rfl h, fun h => by cases h⟩
  | cons j m ih =>
    unfold noteLater
    split
    · rename_i hj
      intro i hi
      rcases List.mem_cons.1 hi with rfl | hi
      · obtain ⟨h1, h2, h3⟩ := h j (by simp)
        refine ⟨h1, h2, fun hp => ?_⟩
        simp only [bne_iff_ne] at hp
        have := h2 hp
        show Sh j.name
        rw [hj] at this ⊢
        exact hs this
      · exact h i (by simp [hi])
    · intro i hi
      rcases List.mem_cons.1 hi with rfl | hi
      · exact h i (by simp)
      · exact ih (fun i hi => h i (by simp [hi])) i hi

theorem Seen.fold {k D cur Sh} : ∀ {vs : List Name} {m}, Seen k D cur Sh m → (∀ v ∈ vs, cur v ∧ (D v → Sh v)) →
    Seen k D cur Sh (vs.foldl (fun m v => noteLater k v m) m)
  | [], _, h, _ => h
  | v :: vs, _, h, hv => by
    rw [List.foldl_cons]
    exact (h.later (hv v (by simp)).1 (hv v (by simp)).2).fold fun w hw => hv w (by simp [hw])

theorem permLater_shared {Sh : Name → Prop} : ∀ {as : List Node} {k m} {D : Name → Prop},
    (∀ i ∈ m, D i.name ∧ (i.perm = true → Sh i.name)) →
    (∀ pre a post v, as = pre ++ a :: post → v ∈ Node.varss a.children → (D v ∨ ∃ b ∈ pre, v ∈ Node.varss b.children) → Sh v) →
    ∀ i ∈ permLater k as m, i.perm = true → Sh i.name := by
  intro as
  induction as with
  | nil => intro k m D h _ i hi; exact (h i hi).2
  | cons a as ih =>
    intro k m D h hs
    unfold permLater
    split
    · refine ih (D := D) h fun pre b post v hl hv hd => hs (a :: pre) b post v (by rw [hl]; rfl) hv ?_
      rcases hd with hd | ⟨c, hc, hvc⟩
      · exact .inl hd
      · exact .inr ⟨c, by simp [hc], hvc⟩
    · have S : Seen k D (· ∈ Node.varss a.children) Sh m := fun i hi => ⟨.inl (h i hi).1, fun _ => (h i hi).1, (h i hi).2⟩
      have S' := S.fold (vs := Node.varss a.children) fun v hv => ⟨hv, fun hd => hs [] a as v rfl hv (.inl hd)⟩
      refine ih (D := fun v => D v ∨ v ∈ Node.varss a.children) (fun i hi => ⟨(S' i hi).1, (S' i hi).2.2⟩)
        fun pre b post v hl hv hd => hs (a :: pre) b post v (by rw [hl]; rfl) hv ?_
      rcases hd with (hd | hd) | ⟨c, hc, hvc⟩
      · exact .inl hd
      · exact .inr ⟨a, by simp, hd⟩
      · exact .inr ⟨c, by simp [hc], hvc⟩

theorem noteFirst_names {k : Nat} : ∀ {vs : List Name} {m : List VarInfo} {i}, i ∈ vs.foldl (fun m v => noteFirst k v m) m →
    (i.name ∈ vs ∧ (i.perm = true → ∃ j ∈ m, j.name = i.name ∧ j.perm = true)) ∨ i ∈ m := by
  intro vs
  induction vs with
  | nil => intro m i h; exact .inr h
  | cons v vs ih =>
    intro m i h
    rw [List.foldl_cons] at h
    have one : ∀ {m : List VarInfo} {j : VarInfo}, j ∈ noteFirst k v m → (j.name = v ∧ (j.perm = true → ∃ j' ∈ m, j'.name = j.name ∧ j'.perm = true)) ∨ j ∈ m := by
      intro m
      induction m with
      | nil =>
        intro j hj
        simp only [noteFirst, List.mem_singleton] at hj
        subst hj
        exact .inl ⟨rfl, fun h => by cases h⟩
      | cons x m ihm =>
        intro j hj
        unfold noteFirst at hj
        split at hj
        · rename_i hx
          rcases List.mem_cons.1 hj with rfl | hj
          · exact .inl ⟨hx, fun hp => ⟨x, by simp, rfl, hp⟩⟩
          · exact .inr (by simp [hj])
        · rcases List.mem_cons.1 hj with rfl | hj
          · exact .inr (by simp)
          · rcases ihm hj with ⟨h1, h2⟩ | h1
            · exact .inl ⟨h1, fun hp => (h2 hp).imp fun j' hj' => ⟨by simp [hj'.1], hj'.2⟩⟩
            · exact .inr (by simp [h1])
    rcases ih h with ⟨h1, h2⟩ | h1
    · refine .inl ⟨by simp [h1], fun hp => ?_⟩
      obtain ⟨j, hj, e, hp'⟩ := h2 hp
      rcases one hj with ⟨_, h4⟩ | h4
      · obtain ⟨j', a, b, c⟩ := h4 hp'
        exact ⟨j', a, b.trans e, c⟩
      · exact ⟨j, h4, e, hp'⟩
    · rcases one h1 with ⟨h3, h4⟩ | h3
      · exact .inl ⟨by simp [h3], h4⟩
      · exact .inr h3

/-- The permanent variables of a clause occur in two atoms between which something is called. -/
theorem permVarsRaw_shared {head : Node} {body : List Node} {v : Name} (h : v ∈ permVarsRaw true (head :: body)) : SharedVar true (head :: body) v := by
  match body, h with
  | [], h => cases h
  | [_], h => cases h
  | b :: c :: bs, h =>
    rw [permVarsRaw_clause_eq] at h
    simp only [List.mem_map, List.mem_filter] at h
    obtain ⟨i, ⟨hi, hp⟩, rfl⟩ := h
    refine permLater_shared (Sh := SharedVar true (head :: b :: c :: bs)) (D := fun v => v ∈ Node.varss head.children ∨ v ∈ Node.varss b.children) ?_ ?_ i hi hp
    · intro j hj
      rcases noteFirst_names hj with ⟨h1, h2⟩ | h1
      · refine ⟨.inr h1, fun hp => ?_⟩
        obtain ⟨j', a1, _, a3⟩ := h2 hp
        rcases noteFirst_names a1 with ⟨_, h4⟩ | h4
        · obtain ⟨_, h5, _⟩ := h4 a3; cases h5
        · cases h4
      · rcases noteFirst_names h1 with ⟨h2, h3⟩ | h2
        · exact ⟨.inl h2, fun hp => by obtain ⟨_, h5, _⟩ := h3 hp; cases h5⟩
        · cases h2
    · rintro pre a post w hl hw ((hd | hd) | ⟨d, hd, hwd⟩)
      · exact ⟨[], head, b :: pre, a, post, by rw [hl]; rfl, by simp, hd, hw⟩
      · exact ⟨[head], b, pre, a, post, by rw [hl]; rfl, by simp, hd, hw⟩
      · obtain ⟨p1, p2, rfl⟩ := List.append_of_mem hd
        exact ⟨head :: b :: p1, d, p2, a, post, by rw [hl]; simp, by simp, hwd, hw⟩

theorem shared_clause {head b0 bs v} (h : SharedVar true (head :: b0 :: bs) v) : v ∈ permVarsRaw true (head :: b0 :: bs) := by
  obtain ⟨pre, a, mid, b, post, h, hn, ha, hb⟩ := h
  match pre with
  | [] =>
    simp only [List.nil_append, List.cons.injEq] at h
    obtain ⟨rfl, h⟩ := h
    cases mid with
    | nil => simp at hn
    | cons m mid =>
      simp only [List.cons_append, List.cons.injEq] at h
      obtain ⟨rfl, rfl⟩ := h
      exact permVarsRaw_clause_first (.inl ha) (c := b) (by simp) hb
  | [_] =>
    simp only [List.cons_append, List.nil_append, List.cons.injEq] at h
    obtain ⟨rfl, rfl, rfl⟩ := h
    exact permVarsRaw_clause_first (.inr ha) (c := b) (by simp) hb
  | _ :: _ :: pre =>
    simp only [List.cons_append, List.cons.injEq] at h
    obtain ⟨rfl, rfl, rfl⟩ := h
    exact permVarsRaw_clause_later (pre := pre) (c := a) (mid := mid) (d := b) (post := post) (by simp) ha hb

/-- A clause gets an environment if and only if it has shared variables. -/
theorem clause_ny {ord : HashOrder} (ho : ord.OK) {head : Node} {body : List Node} :
    (permVars ord true (head :: body)).length ≠ 0 ↔ ∃ v, SharedVar true (head :: body) v := by
  have hp : (permVars ord true (head :: body)).Perm (permVarsRaw true (head :: body)) := ho _
  rw [hp.length_eq]
  constructor
  · intro h
    cases hl : permVarsRaw true (head :: body) with
    | nil => rw [hl] at h; simp at h
    | cons v vs => exact ⟨v, permVarsRaw_shared (by simp [hl])⟩
  · rintro ⟨v, hv⟩ h
    cases body with
    | nil =>
      obtain ⟨pre, a, mid, b, post, h, _⟩ := hv
      have := congrArg List.length h
      simp at this; omega
    | cons b bs =>
      have := shared_clause hv
      rw [List.length_eq_zero_iff.1 h] at this
      cases this

end PBfs
