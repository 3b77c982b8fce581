import Verif.Proof.Den
/-! # Which variables are permanent -/
namespace PBfs

def vFind (m : List VarInfo) (v : Name) : Option VarInfo := m.find? fun i => i.name == v

theorem vFind_noteLater (k w m v) : vFind (noteLater k w m) v =
    if v = w then some (match vFind m w with
      | none => ⟨w, k, false⟩
      | some i => { i with perm := i.first != k })
    else vFind m v := by
  induction m with
  | nil =>
    by_cases h : v = w
    · subst h; simp [noteLater, vFind]
    · simp [noteLater, vFind, h, Ne.symm h]
  | cons i m ih =>
    unfold noteLater
    by_cases hi : i.name = w
    · subst hi
      by_cases h : v = i.name
      · subst h; simp [vFind]
      · simp [vFind, h, Ne.symm h]
    · simp only [hi, if_false]
      unfold vFind at ih ⊢
      by_cases hv : i.name = v
      · subst hv
        simp [hi]
      · have h1 : (i.name == v) = false := by simpa using hv
        have h2 : (i.name == w) = false := by simpa using hi
        simp only [List.find?_cons, h1, h2]
        exact ih

theorem vFind_noteFirst (k w m v) : vFind (noteFirst k w m) v =
    if v = w then some (match vFind m w with
      | none => ⟨w, k, false⟩
      | some i => { i with first := k })
    else vFind m v := by
  induction m with
  | nil =>
    by_cases h : v = w
    · subst h; simp [noteFirst, vFind]
    · simp [noteFirst, vFind, h, Ne.symm h]
  | cons i m ih =>
    unfold noteFirst
    by_cases hi : i.name = w
    · subst hi
      by_cases h : v = i.name
      · subst h; simp [vFind]
      · simp [vFind, h, Ne.symm h]
    · simp only [hi, if_false]
      unfold vFind at ih ⊢
      by_cases hv : i.name = v
      · subst hv
        simp [hi]
      · have h1 : (i.name == v) = false := by simpa using hv
        have h2 : (i.name == w) = false := by simpa using hi
        simp only [List.find?_cons, h1, h2]
        exact ih

theorem foldLater_notin {k : Nat} {vs : List Name} {m : List VarInfo} {v : Name} (h : v ∉ vs) :
    vFind (vs.foldl (fun m v => noteLater k v m) m) v = vFind m v := by
  induction vs generalizing m with
  | nil => rfl
  | cons w vs ih =>
    simp only [List.mem_cons, not_or] at h
    rw [List.foldl_cons, ih h.2, vFind_noteLater, if_neg h.1]

theorem foldLater_old {k : Nat} {vs : List Name} {m : List VarInfo} {v : Name} {i : VarInfo} (h : vFind m v = some i) (hk : i.first < k) :
    ∃ i', vFind (vs.foldl (fun m v => noteLater k v m) m) v = some i' ∧ i'.first = i.first ∧
      (i.perm = true ∨ v ∈ vs → i'.perm = true) := by
  induction vs generalizing m i with
  | nil => exact ⟨i, h, rfl, by simp⟩
  | cons w vs ih =>
    rw [List.foldl_cons]
    by_cases hw : v = w
    · subst hw
      have h1 : vFind (noteLater k v m) v = some { i with perm := i.first != k } := by
        rw [vFind_noteLater, if_pos rfl, h]
      obtain ⟨i', a, b, c⟩ := ih h1 hk
      exact ⟨i', a, b, fun _ => c (.inl (by simp; omega))⟩
    · have h1 : vFind (noteLater k w m) v = some i := by rw [vFind_noteLater, if_neg hw, h]
      obtain ⟨i', a, b, c⟩ := ih h1 hk
      refine ⟨i', a, b, ?_⟩
      rintro (d | d)
      · exact c (.inl d)
      · rcases List.mem_cons.1 d with d | d
        · exact absurd d hw
        · exact c (.inr d)

theorem foldLater_cur {k : Nat} {vs : List Name} {m : List VarInfo} {v : Name} {i : VarInfo} (h : vFind m v = some i) (hk : i.first = k) :
    ∃ i', vFind (vs.foldl (fun m v => noteLater k v m) m) v = some i' ∧ i'.first = k := by
  induction vs generalizing m i with
  | nil => exact ⟨i, h, hk⟩
  | cons w vs ih =>
    rw [List.foldl_cons]
    by_cases hw : v = w
    · subst hw
      exact ih (i := { i with perm := i.first != k }) (by rw [vFind_noteLater, if_pos rfl, h]) hk
    · exact ih (by rw [vFind_noteLater, if_neg hw, h]) hk

theorem foldLater_new {k : Nat} {vs : List Name} {m : List VarInfo} {v : Name} (h : vFind m v = none) (hv : v ∈ vs) :
    ∃ i', vFind (vs.foldl (fun m v => noteLater k v m) m) v = some i' ∧ i'.first = k := by
  induction vs generalizing m with
  | nil => simp at hv
  | cons w vs ih =>
    rw [List.foldl_cons]
    by_cases hw : v = w
    · subst hw
      exact foldLater_cur (i := ⟨v, k, false⟩) (by rw [vFind_noteLater, if_pos rfl, h]) rfl
    · exact ih (by rw [vFind_noteLater, if_neg hw, h]) ((List.mem_cons.1 hv).resolve_left hw)

theorem permLater_old {k as m v i} (h : vFind m v = some i) (hk : i.first < k) :
    ∃ i', vFind (permLater k as m) v = some i' ∧
      (i.perm = true ∨ (∃ a ∈ as, v ∈ Node.varss a.children) → i'.perm = true) := by
  induction as generalizing k m i with
  | nil => exact ⟨i, h, by simp⟩
  | cons a as ih =>
    unfold permLater
    split
    · rename_i hc
      obtain ⟨i', h1, h2⟩ := ih h hk
      refine ⟨i', h1, ?_⟩
      rintro (d | ⟨b, hb, hv⟩)
      · exact h2 (.inl d)
      · rcases List.mem_cons.1 hb with rfl | hb
        · cases b <;> simp [Node.isCons, Node.children, Node.varss] at hc hv
        · exact h2 (.inr ⟨b, hb, hv⟩)
    · obtain ⟨j, a1, a2, a3⟩ := foldLater_old (vs := Node.varss a.children) h hk
      obtain ⟨i', h1, h2⟩ := ih (k := k + 1) a1 (by omega)
      refine ⟨i', h1, ?_⟩
      rintro (d | ⟨b, hb, hv⟩)
      · exact h2 (.inl (a3 (.inl d)))
      · rcases List.mem_cons.1 hb with rfl | hb
        · exact h2 (.inl (a3 (.inr hv)))
        · exact h2 (.inr ⟨b, hb, hv⟩)

theorem permLater_twice {k as m v} (hm : vFind m v = none ∨ ∃ i, vFind m v = some i ∧ i.first < k) {pre : List Node} {a : Node} {post : List Node} {b : Node}
    (has : as = pre ++ a :: post) (hb : b ∈ post) (hva : v ∈ Node.varss a.children) (hvb : v ∈ Node.varss b.children) :
    ∃ i', vFind (permLater k as m) v = some i' ∧ i'.perm = true := by
  rcases hm with hm | ⟨i, hi, hik⟩
  · induction pre generalizing k as m with
    | nil =>
      subst has
      have hc : a.isCons = false := by
        cases a <;> simp [Node.isCons, Node.children, Node.varss] at hva ⊢
      simp only [List.nil_append]
      unfold permLater
      simp only [hc, Bool.false_eq_true, if_false]
      obtain ⟨i', h1, h2⟩ := foldLater_new (k := k) hm hva
      obtain ⟨i'', h3, h4⟩ := permLater_old (k := k + 1) (as := post) h1 (by omega)
      exact ⟨i'', h3, h4 (.inr ⟨b, hb, hvb⟩)⟩
    | cons c pre ih =>
      subst has
      simp only [List.cons_append]
      unfold permLater
      split
      · exact ih rfl hm
      · by_cases hc : v ∈ Node.varss c.children
        · obtain ⟨i', h1, h2⟩ := foldLater_new (k := k) hm hc
          obtain ⟨i'', h3, h4⟩ := permLater_old (k := k + 1) (as := pre ++ a :: post) h1 (by omega)
          exact ⟨i'', h3, h4 (.inr ⟨b, by simp [hb], hvb⟩)⟩
        · exact ih rfl (by rw [foldLater_notin hc]; exact hm)
  · obtain ⟨i', h1, h2⟩ := permLater_old (as := as) hi hik
    exact ⟨i', h1, h2 (.inr ⟨b, by simp [has, hb], hvb⟩)⟩

theorem foldFirst {k : Nat} {vs : List Name} {m : List VarInfo} {v : Name} :
    (v ∉ vs → vFind (vs.foldl (fun m v => noteFirst k v m) m) v = vFind m v) ∧
    (v ∈ vs ∨ (∃ i, vFind m v = some i ∧ i.first = k) →
      ∃ i, vFind (vs.foldl (fun m v => noteFirst k v m) m) v = some i ∧ i.first = k) := by
  induction vs generalizing m with
  | nil => simp
  | cons w vs ih =>
    rw [List.foldl_cons]
    constructor
    · intro h
      simp only [List.mem_cons, not_or] at h
      rw [ih.1 h.2, vFind_noteFirst, if_neg h.1]
    · intro h
      refine ih.2 ?_
      by_cases hw : v = w
      · subst hw
        right
        rw [vFind_noteFirst, if_pos rfl]
        cases vFind m v <;> exact ⟨_, rfl, rfl⟩
      · rw [vFind_noteFirst, if_neg hw]
        rcases h with h | h
        · exact .inl ((List.mem_cons.1 h).resolve_left hw)
        · exact .inr h

theorem mem_perm {m : List VarInfo} {v i} (h : vFind m v = some i) (hp : i.perm = true) :
    v ∈ (m.filter (·.perm)).map (·.name) := by
  unfold vFind at h
  have h1 := List.find?_some h
  have h2 := List.mem_of_find?_eq_some h
  simp only [List.mem_map, List.mem_filter]
  exact ⟨i, ⟨h2, hp⟩, by simpa using h1⟩

theorem permVarsRaw_query_eq {a : Node} {as : List Node} (h : as ≠ []) : permVarsRaw false (a :: as) =
    ((permLater 1 as ((Node.varss a.children).foldl (fun m v => noteFirst 0 v m) [])).filter
      (·.perm)).map (·.name) := by
  match as with
  | [] => exact absurd rfl h
  | [_] => rfl
  | _ :: _ :: _ => rfl

/-- A variable occurring in two atoms of a query is permanent. -/
theorem permVarsRaw_query {atoms pre : List Node} {a : Node} {mid : List Node} {b : Node} {post : List Node} {v : Name} (h : atoms = pre ++ a :: mid ++ b :: post)
    (ha : v ∈ Node.varss a.children) (hb : v ∈ Node.varss b.children) : v ∈ permVarsRaw false atoms := by
  subst h
  cases pre with
  | nil =>
    simp only [List.nil_append, List.cons_append]
    have hraw : permVarsRaw false (a :: (mid ++ b :: post)) =
        ((permLater 1 (mid ++ b :: post) ((Node.varss a.children).foldl (fun m v => noteFirst 0 v m) [])).filter
          (·.perm)).map (·.name) := by
      refine permVarsRaw_query_eq ?_; simp
    rw [hraw]
    obtain ⟨i, h1, h2⟩ := (foldFirst (k := 0) (m := [])).2 (.inl ha)
    obtain ⟨i', h3, h4⟩ := permLater_old (k := 1) (as := mid ++ b :: post) h1 (by omega)
    exact mem_perm h3 (h4 (.inr ⟨b, by simp, hb⟩))
  | cons c pre =>
    simp only [List.cons_append, List.append_assoc]
    have hraw : permVarsRaw false (c :: (pre ++ a :: (mid ++ b :: post))) =
        ((permLater 1 (pre ++ a :: (mid ++ b :: post)) ((Node.varss c.children).foldl (fun m v => noteFirst 0 v m) [])).filter
          (·.perm)).map (·.name) := by
      refine permVarsRaw_query_eq ?_; simp
    rw [hraw]
    by_cases hc : v ∈ Node.varss c.children
    · obtain ⟨i, h1, h2⟩ := (foldFirst (k := 0) (m := [])).2 (.inl hc)
      obtain ⟨i', h3, h4⟩ := permLater_old (k := 1) (as := pre ++ a :: (mid ++ b :: post)) h1 (by omega)
      exact mem_perm h3 (h4 (.inr ⟨b, by simp, hb⟩))
    · obtain ⟨i', h3, h4⟩ := permLater_twice (k := 1) (as := pre ++ a :: (mid ++ b :: post))
        (m := (Node.varss c.children).foldl (fun m v => noteFirst 0 v m) []) (v := v)
        (.inl (by rw [foldFirst.1 hc]; rfl)) rfl (b := b) (by simp) ha hb
      exact mem_perm h3 h4

theorem permVarsRaw_clause_eq {h b c bs} : permVarsRaw true (h :: b :: c :: bs) =
    ((permLater (if b.isCons then 1 else 2) (c :: bs) ((Node.varss b.children).foldl (fun m v => noteFirst 1 v m)
      ((Node.varss h.children).foldl (fun m v => noteFirst 0 v m) []))).filter (·.perm)).map (·.name) := rfl

theorem clause_firsts {h b : Node} {v} :
    (v ∉ Node.varss h.children → v ∉ Node.varss b.children →
      vFind ((Node.varss b.children).foldl (fun m v => noteFirst 1 v m)
      ((Node.varss h.children).foldl (fun m v => noteFirst 0 v m) [])) v = none) ∧
    (v ∈ Node.varss h.children ∨ v ∈ Node.varss b.children →
      ∃ i, vFind ((Node.varss b.children).foldl (fun m v => noteFirst 1 v m)
      ((Node.varss h.children).foldl (fun m v => noteFirst 0 v m) [])) v = some i ∧ i.first < if b.isCons then 1 else 2) := by
  constructor
  · intro h1 h2
    rw [foldFirst.1 h2, foldFirst.1 h1]; rfl
  · intro hv
    by_cases hb : v ∈ Node.varss b.children
    · obtain ⟨i, h1, h2⟩ := (foldFirst (k := 1) (m := (Node.varss h.children).foldl (fun m v => noteFirst 0 v m) [])).2 (.inl hb)
      refine ⟨i, h1, ?_⟩
      have hc : b.isCons = false := by
        cases b <;> simp [Node.isCons, Node.children, Node.varss] at hb ⊢
      simp [hc, h2]
    · obtain ⟨i, h1, h2⟩ := (foldFirst (k := 0) (m := [])).2 (.inl (hv.resolve_right hb))
      rw [foldFirst.1 hb]
      refine ⟨i, h1, ?_⟩
      split <;> omega

/-- A variable of head or first body atom that occurs in a later atom is permanent. -/
theorem permVarsRaw_clause_first {h b : Node} {bs : List Node} {c : Node} {v : Name} (hv : v ∈ Node.varss h.children ∨ v ∈ Node.varss b.children)
    (hc : c ∈ bs) (hvc : v ∈ Node.varss c.children) : v ∈ permVarsRaw true (h :: b :: bs) := by
  cases bs with
  | nil => simp at hc
  | cons d bs =>
    rw [permVarsRaw_clause_eq]
    obtain ⟨i, h1, h2⟩ := (clause_firsts (h := h) (b := b)).2 hv
    obtain ⟨i', h3, h4⟩ := permLater_old (as := d :: bs) h1 h2
    exact mem_perm h3 (h4 (.inr ⟨c, hc, hvc⟩))

/-- A variable occurring in two later atoms of a clause is permanent. -/
theorem permVarsRaw_clause_later {h b : Node} {bs pre : List Node} {c : Node} {mid : List Node} {d : Node} {post : List Node} {v : Name} (hbs : bs = pre ++ c :: mid ++ d :: post)
    (hc : v ∈ Node.varss c.children) (hd : v ∈ Node.varss d.children) : v ∈ permVarsRaw true (h :: b :: bs) := by
  by_cases hv : v ∈ Node.varss h.children ∨ v ∈ Node.varss b.children
  · exact permVarsRaw_clause_first hv (by simp [hbs]) hd
  · rw [not_or] at hv
    have hm := (clause_firsts (h := h) (b := b)).1 hv.1 hv.2
    have hbs' : bs = pre ++ c :: (mid ++ d :: post) := by rw [hbs]; simp
    cases bs with
    | nil => cases pre <;> simp at hbs
    | cons x bs =>
      rw [permVarsRaw_clause_eq]
      obtain ⟨i', h3, h4⟩ := permLater_twice (k := if b.isCons then 1 else 2) (.inl hm) hbs' (b := d) (by simp) hc hd
      exact mem_perm h3 h4

theorem Node.mem_varss {cs : List Node} {v} : v ∈ Node.varss cs ↔ ∃ c ∈ cs, v ∈ c.vars := by
  induction cs with
  | nil => simp [Node.varss]
  | cons c cs ih => simp [Node.varss, ih]

theorem Node.mem_vars_child {n c : Node} {v} (hc : c ∈ n.children) (hv : v ∈ c.vars) : v ∈ n.vars := by
  match n with
  | .fn f cs => simp only [Node.children] at hc; simp only [Node.vars]; exact Node.mem_varss.2 ⟨c, hc, hv⟩
  | .efn f cs => simp only [Node.children] at hc; simp only [Node.vars]; exact Node.mem_varss.2 ⟨c, hc, hv⟩
  | .var _ => simp [Node.children] at hc
  | .cons _ => simp [Node.children] at hc
  | .int _ => simp [Node.children] at hc

end PBfs
