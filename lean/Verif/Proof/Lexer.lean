import Verif.Spec.Syntax
/-! # Lemmas about the elementary parsers -/
namespace PBfs

namespace PR

@[simp] theorem bind_ok {a : α} {r} {k : α → List Char → PR β} : (PR.ok a r).bind k = k a r := rfl
@[simp] theorem bind_fail {k : α → List Char → PR β} : (PR.fail : PR α).bind k = .fail := rfl
@[simp] theorem bind_expect {p} {k : α → List Char → PR β} : (PR.expect p : PR α).bind k = .expect p := rfl
@[simp] theorem bind_hang {k : α → List Char → PR β} : (PR.hang : PR α).bind k = .hang := rfl
@[simp] theorem map_ok {a : α} {r} {f : α → β} : (PR.ok a r).map f = .ok (f a) r := rfl
@[simp] theorem map_fail {f : α → β} : (PR.fail : PR α).map f = .fail := rfl
@[simp] theorem map_expect {p} {f : α → β} : (PR.expect p : PR α).map f = .expect p := rfl
@[simp] theorem map_hang {f : α → β} : (PR.hang : PR α).map f = .hang := rfl
@[simp] theorem must_ok {a : α} {r q} : (PR.ok a r).must q = .ok a r := rfl
@[simp] theorem must_fail {q} : (PR.fail : PR α).must q = .expect q := rfl
@[simp] theorem must_expect {p q} : (PR.expect p : PR α).must q = .expect p := rfl
@[simp] theorem must_hang {q} : (PR.hang : PR α).must q = .hang := rfl
@[simp] theorem orElse_ok {a : α} {r} {y} : (PR.ok a r).orElse y = .ok a r := rfl
@[simp] theorem orElse_fail {y : PR α} : (PR.fail : PR α).orElse y = y := rfl
@[simp] theorem orElse_expect {p} {y : PR α} : (PR.expect p : PR α).orElse y = .expect p := rfl
@[simp] theorem orElse_hang {y : PR α} : (PR.hang : PR α).orElse y = .hang := rfl

theorem bind_eq_ok {x : PR α} {k : α → List Char → PR β} {b r} :
    x.bind k = .ok b r ↔ ∃ a r', x = .ok a r' ∧ k a r' = .ok b r := by
  cases x with
  | ok a r' => exact ⟨fun h => ⟨a, r', rfl, h⟩, fun ⟨_, _, h, h'⟩ => by cases h; exact h'⟩
  | _ => simp

theorem map_eq_ok {x : PR α} {f : α → β} {b r} : x.map f = .ok b r ↔ ∃ a, x = .ok a r ∧ f a = b := by
  cases x with
  | ok a r' =>
    refine ⟨fun h => ?_, fun ⟨_, h, h'⟩ => by cases h; subst h'; rfl⟩
    simp only [map_ok, ok.injEq] at h
    obtain ⟨h1, rfl⟩ := h
    exact ⟨a, rfl, h1⟩
  | _ => simp

theorem must_eq_ok {x : PR α} {q a r} : x.must q = .ok a r ↔ x = .ok a r := by
  cases x <;> simp [must]

theorem orElse_eq_ok {x y : PR α} {a r} : x.orElse y = .ok a r ↔ x = .ok a r ∨ (x = .fail ∧ y = .ok a r) := by
  cases x <;> simp

theorem bind_eq_hang {x : PR α} {k : α → List Char → PR β} :
    x.bind k = .hang ↔ x = .hang ∨ ∃ a r, x = .ok a r ∧ k a r = .hang := by
  cases x with
  | ok a r' => exact ⟨fun h => .inr ⟨a, r', rfl, h⟩, fun h => by rcases h with h | ⟨_, _, h, h'⟩; cases h; cases h; exact h'⟩
  | _ => simp

theorem map_eq_hang {x : PR α} {f : α → β} : x.map f = .hang ↔ x = .hang := by
  cases x <;> simp

theorem must_eq_hang {x : PR α} {q} : x.must q = .hang ↔ x = .hang := by
  cases x <;> simp

theorem orElse_eq_hang {x y : PR α} : x.orElse y = .hang ↔ x = .hang ∨ (x = .fail ∧ y = .hang) := by
  cases x <;> simp

theorem map_eq_fail {x : PR α} {f : α → β} : x.map f = .fail ↔ x = .fail := by
  cases x <;> simp

theorem bind_eq_fail {x : PR α} {k : α → List Char → PR β} :
    x.bind k = .fail ↔ x = .fail ∨ ∃ a r, x = .ok a r ∧ k a r = .fail := by
  cases x with
  | ok a r' => exact ⟨fun h => .inr ⟨a, r', rfl, h⟩, fun h => by rcases h with h | ⟨_, _, h, h'⟩; cases h; cases h; exact h'⟩
  | _ => simp

theorem must_ne_fail {x : PR α} {q} : x.must q ≠ .fail := by
  cases x <;> simp

theorem bind_eq_expect {x : PR α} {k : α → List Char → PR β} {p} :
    x.bind k = .expect p ↔ x = .expect p ∨ ∃ a r, x = .ok a r ∧ k a r = .expect p := by
  cases x with
  | ok a r' => exact ⟨fun h => .inr ⟨a, r', rfl, h⟩, fun h => by rcases h with h | ⟨_, _, h, h'⟩; cases h; cases h; exact h'⟩
  | _ => simp

theorem map_eq_expect {x : PR α} {f : α → β} {p} : x.map f = .expect p ↔ x = .expect p := by
  cases x <;> simp

theorem must_eq_expect {x : PR α} {p q} : x.must q = .expect p ↔ x = .expect p ∨ (x = .fail ∧ q = p) := by
  cases x <;> simp

theorem orElse_eq_expect {x y : PR α} {p} : x.orElse y = .expect p ↔ x = .expect p ∨ (x = .fail ∧ y = .expect p) := by
  cases x <;> simp

end PR

/-! ## Characters -/

theorem isSpace_cases {c : Char} (h : isSpace c = true) :
    c = ' ' ∨ c = '\t' ∨ c = '\n' ∨ c = '\r' ∨ c = Char.ofNat 11 ∨ c = Char.ofNat 12 := by
  simp only [isSpace, Bool.or_eq_true, decide_eq_true_eq] at h
  rcases h with ((((h | h) | h) | h) | h) | h <;> simp [h]

theorem not_space {p : Char → Bool} {c : Char} (hp : p c = true)
    (h : p ' ' = false ∧ p '\t' = false ∧ p '\n' = false ∧ p '\r' = false ∧ p (Char.ofNat 11) = false ∧ p (Char.ofNat 12) = false) :
    isSpace c = false := by
  cases hs : isSpace c with
  | false => rfl
  | true =>
    rcases isSpace_cases hs with rfl | rfl | rfl | rfl | rfl | rfl <;> simp_all

theorem lower_not_space {c} (h : isLower c = true) : isSpace c = false := not_space h (by decide)
theorem upper_not_space {c} (h : isUpper c = true) : isSpace c = false := not_space h (by decide)
theorem digit_not_space {c} (h : isDigit c = true) : isSpace c = false := not_space h (by decide)

theorem upper_not_lower {c} (h : isUpper c = true) : isLower c = false := by
  simp only [isUpper, isLower, Bool.and_eq_true, decide_eq_true_eq, Bool.and_eq_false_iff, decide_eq_false_iff_not] at *
  left
  intro h'
  have : ('a' : Char) ≤ 'Z' := Char.le_trans h' h.2
  exact absurd this (by decide)

theorem digit_not_upper {c} (h : isDigit c = true) : isUpper c = false := by
  simp only [isUpper, isDigit, Bool.and_eq_true, decide_eq_true_eq, Bool.and_eq_false_iff, decide_eq_false_iff_not] at *
  left
  intro h'
  have : ('A' : Char) ≤ '9' := Char.le_trans h' h.2
  exact absurd this (by decide)

theorem digit_not_lower {c} (h : isDigit c = true) : isLower c = false := by
  simp only [isLower, isDigit, Bool.and_eq_true, decide_eq_true_eq, Bool.and_eq_false_iff, decide_eq_false_iff_not] at *
  left
  intro h'
  have : ('a' : Char) ≤ '9' := Char.le_trans h' h.2
  exact absurd this (by decide)

/-! ## White space -/

theorem skipWs_space {ws s : List Char} (h : ∀ c ∈ ws, isSpace c = true) : skipWs (ws ++ s) = skipWs s := by
  unfold skipWs
  induction ws with
  | nil => rfl
  | cons c ws ih =>
    rw [List.cons_append, List.dropWhile_cons_of_pos (h c (by simp))]
    exact ih fun d hd => h d (by simp [hd])

theorem skipWs_cons {c : Char} {s : List Char} (h : isSpace c = false) : skipWs (c :: s) = c :: s := by
  unfold skipWs
  rw [List.dropWhile_cons_of_neg (by simp [h])]

theorem skipWs_split (s : List Char) : ∃ ws, (∀ c ∈ ws, isSpace c = true) ∧ s = ws ++ skipWs s := by
  refine ⟨s.takeWhile isSpace, fun c hc => ?_, (List.takeWhile_append_dropWhile).symm⟩
  induction s with
  | nil => simp at hc
  | cons d s ih =>
    by_cases hd : isSpace d = true
    · rw [List.takeWhile_cons_of_pos hd, List.mem_cons] at hc
      rcases hc with rfl | hc
      · exact hd
      · exact ih hc
    · rw [List.takeWhile_cons_of_neg hd] at hc; simp at hc

theorem skipWs_length (s : List Char) : (skipWs s).length ≤ s.length := by
  obtain ⟨ws, _, h⟩ := skipWs_split s
  have := congrArg List.length h
  rw [List.length_append] at this
  omega

theorem skipWs_all {s : List Char} (h : ∀ c ∈ s, isSpace c = true) : skipWs s = [] := by
  have := skipWs_space (s := []) h
  simpa [skipWs] using this

theorem skipWs_nil {s : List Char} (h : skipWs s = []) : ∀ c ∈ s, isSpace c = true := by
  obtain ⟨ws, h1, h2⟩ := skipWs_split s
  rw [h, List.append_nil] at h2
  rw [h2]; exact h1

theorem takeWhile_stop {p : Char → Bool} {w s : List Char} (h : ∀ c ∈ w, p c = true) (hs : ∀ c, s.head? = some c → p c = false) :
    (w ++ s).takeWhile p = w ∧ (w ++ s).dropWhile p = s := by
  induction w with
  | nil =>
    cases s with
    | nil => exact ⟨rfl, rfl⟩
    | cons c s =>
      have := hs c rfl
      simp [this]
  | cons c w ih =>
    have hc := h c (by simp)
    obtain ⟨h1, h2⟩ := ih fun d hd => h d (by simp [hd])
    simp [hc, h1, h2]

theorem takeWhile_split (p : Char → Bool) (s : List Char) :
    s = s.takeWhile p ++ s.dropWhile p ∧ (∀ c ∈ s.takeWhile p, p c = true) ∧
      ∀ c, (s.dropWhile p).head? = some c → p c = false := by
  refine ⟨(List.takeWhile_append_dropWhile).symm, ?_, ?_⟩
  · induction s with
    | nil => simp
    | cons d s ih =>
      by_cases hd : p d = true
      · rw [List.takeWhile_cons_of_pos hd]
        intro c hc
        rcases List.mem_cons.1 hc with rfl | hc
        · exact hd
        · exact ih c hc
      · rw [List.takeWhile_cons_of_neg hd]; simp
  · induction s with
    | nil => simp
    | cons d s ih =>
      by_cases hd : p d = true
      · rw [List.dropWhile_cons_of_pos hd]; exact ih
      · rw [List.dropWhile_cons_of_neg hd]
        intro c hc
        cases hc
        simpa using hd

/-! ## Literals -/

theorem exactly_ok {t s : List Char} {u r} : exactly t s = .ok u r ↔ s = t ++ r := by
  induction t generalizing s with
  | nil => simp [exactly]
  | cons c t ih =>
    cases s with
    | nil => simp [exactly]
    | cons d s =>
      simp only [exactly]
      split
      · rename_i h; subst h; simp [ih]
      · rename_i h; simp [h]

theorem exactly_total {t s : List Char} : exactly t s = .fail ∨ ∃ r, exactly t s = .ok () r := by
  induction t generalizing s with
  | nil => exact .inr ⟨s, rfl⟩
  | cons c t ih =>
    cases s with
    | nil => exact .inl rfl
    | cons d s =>
      simp only [exactly]
      split
      · exact ih
      · exact .inl rfl

theorem lit_total {t s : List Char} : lit t s = .fail ∨ ∃ r, lit t s = .ok () r := exactly_total

theorem lit_length {t s : List Char} {u r} (h : lit t s = .ok u r) : r.length + t.length ≤ s.length := by
  have := exactly_ok.1 h
  have h2 := skipWs_length s
  rw [this, List.length_append] at h2
  omega

/-! ## Tokens -/

theorem Tok.Valid.head {t : Tok} (h : t.Valid) : ∃ c cs, t.text = c :: cs ∧ isSpace c = false := by
  cases t with
  | name w => obtain ⟨c, cs, rfl, hc, _⟩ := h; exact ⟨c, cs, rfl, lower_not_space hc⟩
  | opening w => obtain ⟨c, cs, rfl, hc, _⟩ := h; exact ⟨c, cs ++ ['('], rfl, lower_not_space hc⟩
  | var w => obtain ⟨c, cs, rfl, hc, _⟩ := h; exact ⟨c, cs, rfl, upper_not_space hc⟩
  | num neg ds =>
    obtain ⟨h0, hd⟩ := h
    cases neg with
    | true => exact ⟨'-', ds, rfl, rfl⟩
    | false =>
      cases ds with
      | nil => cases h0 rfl
      | cons d ds => exact ⟨d, ds, rfl, digit_not_space (hd d (by simp))⟩
  | sym t => exact h
  | comment t => exact ⟨'%', t ++ ['\n'], rfl, rfl⟩

theorem Spell.cons_inv {t ts s} (h : Spell (t :: ts) s) : ∃ r, skipWs s = t.text ++ r ∧ t.Valid ∧ t.stops r ∧ Spell ts r := by
  cases h with
  | cons hw hv hst h =>
    refine ⟨_, ?_, hv, hst, h⟩
    rw [skipWs_space hw]
    obtain ⟨c, cs, e, hc⟩ := hv.head
    rw [e, List.cons_append, skipWs_cons hc]

theorem Spell.mk {t ts s r} (h : skipWs s = t.text ++ r) (hv : t.Valid) (hst : t.stops r) (hr : Spell ts r) : Spell (t :: ts) s := by
  obtain ⟨ws, hw, e⟩ := skipWs_split s
  rw [e, h]
  exact .cons hw hv hst hr

/-- At the beginning of `s` there are the tokens `ts`, and `z` is what follows them. -/
inductive Takes : List Tok → List Char → List Char → Prop
  | nil {s} : Takes [] s s
  | mk {t ts s r z} : skipWs s = t.text ++ r → t.Valid → t.stops r → Takes ts r z → Takes (t :: ts) s z

theorem Takes.append {us s z} : ∀ {ts r}, Takes ts r s → Takes us s z → Takes (ts ++ us) r z
  | _, _, .nil, h => h
  | _, _, .mk h1 h2 h3 h, h' => .mk h1 h2 h3 (h.append h')

theorem Takes.spell {us z} (h : Spell us z) : ∀ {ts s}, Takes ts s z → Spell (ts ++ us) s
  | _, _, .nil => h
  | _, _, .mk h1 h2 h3 g => .mk h1 h2 h3 (Takes.spell h g)

theorem Takes.spells {ts s z} (h : Takes ts s z) (hz : ∀ c ∈ z, isSpace c = true) : Spell ts s := by
  simpa using h.spell (.nil hz)

theorem Spell.skip {ts s} (h : Spell ts s) : Spell ts (skipWs s) := by
  cases ts with
  | nil =>
    cases h with
    | nil hw => rw [skipWs_all hw]; exact .nil (by simp)
  | cons t ts =>
    obtain ⟨r, h1, h2, h3, h4⟩ := h.cons_inv
    rw [h1]
    exact .cons (ws := []) (by simp) h2 h3 h4

/-- The first character of the next token. -/
def lead (ts : List Tok) : Option Char := ts.head?.bind fun t => t.text.head?

theorem Spell.lead {ts s} (h : Spell ts s) : (skipWs s).head? = lead ts := by
  cases ts with
  | nil =>
    cases h with
    | nil hw => rw [skipWs_all hw]; rfl
  | cons t ts =>
    obtain ⟨r, h1, h2, _⟩ := h.cons_inv
    obtain ⟨c, cs, e, _⟩ := h2.head
    rw [h1, e]
    show some c = t.text.head?
    rw [e]; rfl

theorem lit_ok {t us s} (h : Spell (.sym t :: us) s) : ∃ r, lit t s = .ok () r ∧ Spell us r := by
  obtain ⟨r, h1, h2, _, h4⟩ := h.cons_inv
  exact ⟨r, exactly_ok.2 h1, h4⟩

theorem lit_fail {c : Char} {cs us s} (h : Spell us s) (hl : lead us ≠ some c) : lit (c :: cs) s = .fail := by
  rw [← h.lead] at hl
  unfold lit
  cases hs : skipWs s with
  | nil => rfl
  | cons d r =>
    rw [hs] at hl
    simp only [List.head?_cons, ne_eq, Option.some.injEq] at hl
    simp [exactly, hl]

theorem lit_sound {t s u r} (h : lit t s = .ok u r) (ht : (Tok.sym t).Valid) {us} (hr : Takes us r z) : Takes (.sym t :: us) s z :=
  .mk (exactly_ok.1 h) ht trivial hr

/-! ## Words -/

theorem word_ok {p : Char → Bool} {s w r} (h : skipWs s = w ++ r) (hw : IsWord p w)
    (hst : ∀ c, r.head? = some c → isWord c = false) : word p s = .ok w r := by
  obtain ⟨c, cs, rfl, hc, hcs⟩ := hw
  unfold word
  rw [h]
  obtain ⟨h1, h2⟩ := takeWhile_stop hcs hst
  simp [hc, h1, h2]

theorem word_fail {p : Char → Bool} {s us} (h : Spell us s) (hl : ∀ c, lead us = some c → p c = false) : word p s = .fail := by
  rw [← h.lead] at hl
  unfold word
  cases hs : skipWs s with
  | nil => rfl
  | cons d r =>
    rw [hs] at hl
    simp [hl d rfl]

theorem word_sound {p : Char → Bool} {s w r} (h : word p s = .ok w r) :
    skipWs s = w ++ r ∧ IsWord p w ∧ ∀ c, r.head? = some c → isWord c = false := by
  unfold word at h
  cases hs : skipWs s with
  | nil => rw [hs] at h; cases h
  | cons d s' =>
    rw [hs] at h
    simp only at h
    split at h
    · cases h
      obtain ⟨h1, h2, h3⟩ := takeWhile_split isWord s'
      refine ⟨?_, ⟨d, _, rfl, by assumption, h2⟩, h3⟩
      rw [List.cons_append, ← h1]
    · cases h

theorem word_total {p : Char → Bool} {s} : word p s = .fail ∨ ∃ w r, word p s = .ok w r := by
  unfold word
  split
  · exact .inl rfl
  · split
    · exact .inr ⟨_, _, rfl⟩
    · exact .inl rfl

theorem word_length {p : Char → Bool} {s w r} (h : word p s = .ok w r) : r.length < s.length := by
  obtain ⟨h1, ⟨c, cs, rfl, _, _⟩, _⟩ := word_sound h
  have h2 := skipWs_length s
  rw [h1] at h2
  simp only [List.cons_append, List.length_cons, List.length_append] at h2
  omega

theorem constantP_ok {w us s} (h : Spell (.name w :: us) s) : ∃ r, constantP s = .ok (.cons w) r ∧ Spell us r := by
  obtain ⟨r, h1, h2, h3, h4⟩ := h.cons_inv
  refine ⟨r, ?_, h4⟩
  unfold constantP
  rw [word_ok h1 h2 fun c hc => (h3 c hc).1]; rfl

theorem variableP_ok {w us s} (h : Spell (.var w :: us) s) : ∃ r, variableP s = .ok (.var w) r ∧ Spell us r := by
  obtain ⟨r, h1, h2, h3, h4⟩ := h.cons_inv
  refine ⟨r, ?_, h4⟩
  unfold variableP
  rw [word_ok h1 h2 fun c hc => h3 c hc]; rfl

theorem variableP_sound {s a r} (h : variableP s = .ok a r) : ∃ w, a = .var w ∧ ∀ {z} us, Takes us r z → Takes (.var w :: us) s z := by
  unfold variableP at h
  obtain ⟨w, h1, rfl⟩ := PR.map_eq_ok.1 h
  obtain ⟨h2, h3, h4⟩ := word_sound h1
  exact ⟨w, rfl, fun us hu => .mk h2 h3 h4 hu⟩

/-! ## Numbers -/

theorem digitsVal_append (ds es : List Char) :
    (ds ++ es).foldl (fun n d => 10 * n + (d.toNat - 48)) 0 =
      es.foldl (fun n d => 10 * n + (d.toNat - 48)) (digitsVal ds) := by
  rw [List.foldl_append]; rfl

theorem foldl_decimal (es : List Char) : ∀ n, es.foldl (fun n d => 10 * n + (d.toNat - 48)) n = n * 10 ^ es.length + decimal es := by
  induction es with
  | nil => intro n; simp [decimal]
  | cons d ds ih =>
    intro n
    have h48 : '0'.toNat = 48 := rfl
    rw [List.foldl_cons, ih, decimal, List.length_cons, Nat.pow_succ, h48, Nat.add_mul]
    rw [Nat.mul_comm 10 n, Nat.mul_assoc, Nat.mul_comm 10 (10 ^ ds.length)]
    omega

theorem digitsVal_eq (ds : List Char) : digitsVal ds = decimal ds := by
  have := foldl_decimal ds 0
  simpa [digitsVal] using this

/-- The sign of a number and what follows. -/
def signed (s : List Char) : Bool × List Char := match s with
  | '-' :: r => (true, r)
  | _ => (false, s)

theorem signed_minus (r : List Char) : signed ('-' :: r) = (true, r) := rfl

theorem signed_other {s : List Char} (h : s.head? ≠ some '-') : signed s = (false, s) := by
  unfold signed
  split
  · simp at h
  · rfl

theorem numberP_eq (s : List Char) : numberP s = match (signed (skipWs s)).2.takeWhile isDigit with
    | [] => .fail
    | d :: ds => .ok (.int (if (signed (skipWs s)).1 then -(digitsVal (d :: ds) : Int) else digitsVal (d :: ds)))
        ((signed (skipWs s)).2.dropWhile isDigit) := rfl

theorem signed_cases (s : List Char) : (∃ r, s = '-' :: r ∧ signed s = (true, r)) ∨ signed s = (false, s) := by
  unfold signed
  split
  · exact .inl ⟨_, rfl, rfl⟩
  · exact .inr rfl

theorem numberP_ok {neg ds us s} (h : Spell (.num neg ds :: us) s) :
    ∃ r, numberP s = .ok (.int (if neg then -(decimal ds : Int) else decimal ds)) r ∧ Spell us r := by
  obtain ⟨r, h1, ⟨h0, hd⟩, h3, h4⟩ := h.cons_inv
  refine ⟨r, ?_, h4⟩
  obtain ⟨t1, t2⟩ := takeWhile_stop hd h3
  rw [numberP_eq, h1]
  have : signed ((Tok.num neg ds).text ++ r) = (neg, ds ++ r) := by
    cases neg with
    | true => rfl
    | false =>
      refine signed_other ?_
      cases ds with
      | nil => cases h0 rfl
      | cons d ds =>
        intro e
        cases e
        exact absurd (hd '-' (by simp)) (by decide)
  rw [this]
  cases ds with
  | nil => cases h0 rfl
  | cons d ds => simp only [t1, t2, digitsVal_eq]

theorem numberP_fail {us s} (h : Spell us s) (hl : ∀ c, lead us = some c → isDigit c = false ∧ c ≠ '-') : numberP s = .fail := by
  rw [← h.lead] at hl
  rw [numberP_eq]
  cases hs : skipWs s with
  | nil => rfl
  | cons d r =>
    rw [hs] at hl
    obtain ⟨h1, h2⟩ := hl d rfl
    rw [signed_other (by simpa using h2)]
    simp [h1]

theorem numberP_sound {s a r} (h : numberP s = .ok a r) :
    ∃ neg ds, a = .int (if neg then -(decimal ds : Int) else decimal ds) ∧ ∀ {z} us, Takes us r z → Takes (.num neg ds :: us) s z := by
  rw [numberP_eq] at h
  obtain ⟨t1, t2, t3⟩ := takeWhile_split isDigit (signed (skipWs s)).2
  cases htw : (signed (skipWs s)).2.takeWhile isDigit with
  | nil => rw [htw] at h; cases h
  | cons d ds =>
    rw [htw] at h t1 t2
    simp only [PR.ok.injEq] at h
    obtain ⟨rfl, rfl⟩ := h
    refine ⟨(signed (skipWs s)).1, d :: ds, by rw [digitsVal_eq], fun us hu => .mk ?_ ⟨by simp, t2⟩ t3 hu⟩
    rcases signed_cases (skipWs s) with ⟨r', h1, h2⟩ | h2
    · rw [h2] at t1 ⊢
      rw [h1, t1]
      simp [Tok.text, ← t1]
    · rw [h2] at t1 ⊢
      simpa [Tok.text] using t1

theorem numberP_total {s} : numberP s = .fail ∨ ∃ a r, numberP s = .ok a r := by
  rw [numberP_eq]
  split
  · exact .inl rfl
  · exact .inr ⟨_, _, rfl⟩

theorem numberP_length {s a r} (h : numberP s = .ok a r) : r.length < s.length := by
  rw [numberP_eq] at h
  have hl : (signed (skipWs s)).2.length ≤ s.length := by
    have h2 := skipWs_length s
    rcases signed_cases (skipWs s) with ⟨r', h1, h3⟩ | h3
    · rw [h3]; rw [h1, List.length_cons] at h2; simp only; omega
    · rw [h3]; exact h2
  obtain ⟨t1, t2, t3⟩ := takeWhile_split isDigit (signed (skipWs s)).2
  cases htw : (signed (skipWs s)).2.takeWhile isDigit with
  | nil => rw [htw] at h; cases h
  | cons d ds =>
    rw [htw] at h t1
    simp only [PR.ok.injEq] at h
    obtain ⟨_, rfl⟩ := h
    have := congrArg List.length t1
    simp only [List.cons_append, List.length_cons, List.length_append] at this
    omega

end PBfs
