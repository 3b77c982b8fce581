import Verif.Spec.Source
import Verif.Proof.ParserPos
/-! # Source positions: the parser -/
namespace PBfs

theorem lastRow_eq (s : List Char) : lastRow s = 1 + s.count '\n' := by
  induction s with
  | nil => rfl
  | cons c s ih =>
    simp only [lastRow, ih, List.count_cons, beq_iff_eq]
    omega

theorem errorRow_eq {u pos : List Char} : errorRow (u ++ pos) pos = lastRow u := by
  simp [errorRow, lastRow_eq]

/-! ## Leading white space -/

theorem constantP_skip (s) : constantP (skipWs s) = constantP s := by simp only [constantP, word_skip]
theorem variableP_skip (s) : variableP (skipWs s) = variableP s := by simp only [variableP, word_skip]
theorem numberP_skip (s) : numberP (skipWs s) = numberP s := by simp only [numberP, skipWs_skipWs]
theorem functorP_skip (el s) : functorP el (skipWs s) = functorP el s := by simp only [functorP, word_skip]
theorem valueP_skip (ex s) : valueP ex (skipWs s) = valueP ex s := by simp only [valueP, variableP_skip, numberP_skip, lit_skip]
theorem powerP_skip (ex s) : powerP ex (skipWs s) = powerP ex s := by simp only [powerP, valueP_skip]
theorem chainP_skip {operand : P Node} {ops} (h : ∀ s, operand (skipWs s) = operand s) (s) : chainP operand ops (skipWs s) = chainP operand ops s := by
  simp only [chainP, h]
theorem expressionP_skip (n s) : expressionP n (skipWs s) = expressionP n s := by
  cases n with
  | zero => rfl
  | succ n => exact chainP_skip (chainP_skip (powerP_skip _)) s
theorem listP_skip (el ls s) : listP el ls (skipWs s) = listP el ls s := by simp only [listP, lit_skip]
theorem elementP_skip (n s) : elementP n (skipWs s) = elementP n s := by
  cases n with
  | zero => rfl
  | succ n => simp only [elementP_succ, functorP_skip, constantP_skip, listP_skip, expressionP_skip]
theorem infixP_skip {el : P Node} {op rhs} (h : ∀ s, el (skipWs s) = el s) (s) : infixP el op rhs (skipWs s) = infixP el op rhs s := by
  simp only [infixP, h]
theorem atomP_skip (n s) : atomP n (skipWs s) = atomP n s := by
  simp only [atomP, infixP_skip (elementP_skip n), functorP_skip, constantP_skip]
theorem headP_skip (n s) : (functorP (elementP n) (skipWs s)).orElse (constantP (skipWs s)) = (functorP (elementP n) s).orElse (constantP s) := by
  simp only [functorP_skip, constantP_skip]
theorem clauseP_skip (n s) : clauseP n (skipWs s) = clauseP n s := by
  unfold clauseP
  rw [headP_skip]

/-! ## Without positions -/

theorem PR.map_bind {x : PR α} {k : α → List Char → PR β} {f : β → γ} : (x.bind k).map f = x.bind fun a r => (k a r).map f := by
  cases x <;> rfl

theorem PR.bind_map {x : PR α} {f : α → β} {k : β → List Char → PR γ} : (x.map f).bind k = x.bind fun a r => k (f a) r := by
  cases x <;> rfl

theorem PR.map_map {x : PR α} {f : α → β} {g : β → γ} : (x.map f).map g = x.map fun a => g (f a) := by
  cases x <;> rfl

theorem PR.map_orElse {x y : PR α} {f : α → β} : (x.orElse y).map f = (x.map f).orElse (y.map f) := by
  cases x <;> rfl

theorem PR.bind_congr {x : PR α} {k k' : α → List Char → PR β} (h : ∀ a r, k a r = k' a r) : x.bind k = x.bind k' := by
  cases x <;> first | rfl | exact h _ _

theorem located_erase {p : P α} (text s) : (located text p s).map (·.1) = p (skipWs s) := by
  unfold located
  rw [PR.map_bind]
  cases p (skipWs s) <;> rfl

theorem many_erase {p : P α} {q : P β} {f : α → β} (h : ∀ s, (p s).map f = q s) : ∀ k s, (many p k s).map (List.map f) = many q k s := by
  intro k
  induction k with
  | zero => intro s; rfl
  | succ k ih =>
    intro s
    simp only [many, ← h s]
    cases p s with
    | ok a r =>
      simp only [PR.map, PR.bind] at *
      rw [← ih r]
      cases many p k r <;> rfl
    | fail => rfl
    | expect => rfl
    | hang => rfl

theorem sepBy1_erase {p : P α} {q : P β} {f : α → β} (h : ∀ s, (p s).map f = q s) (sep k s) :
    (sepBy1 p sep k s).map (List.map f) = sepBy1 q sep k s := by
  unfold sepBy1
  rw [← h s, PR.map_bind, PR.bind_map]
  refine PR.bind_congr fun a r => ?_
  have := many_erase (p := fun s => (lit sep s).bind fun _ r => p r) (q := fun s => (lit sep s).bind fun _ r => q r) (f := f) (fun s => by
    rw [PR.map_bind]
    exact PR.bind_congr fun _ r => h r) k r
  rw [← this, PR.map_map, PR.map_map]
  rfl

theorem atomAtP_erase (text n s) : (atomAtP text n s).map (·.1) = atomP n s := by
  unfold atomAtP
  rw [located_erase, atomP_skip]

theorem headAtP_erase (text n s) : (headAtP text n s).map (·.1) = (functorP (elementP n) s).orElse (constantP s) := by
  unfold headAtP
  rw [located_erase, headP_skip]

theorem clauseAtP_erase (text n s) : (clauseAtP text n s).map (fun x => Clause.mk x.1.1 (x.2.map (·.1))) = clauseP n s := by
  unfold clauseAtP clauseP
  rw [← headAtP_erase text, PR.map_bind, PR.bind_map]
  refine PR.bind_congr fun h r => ?_
  simp only [PR.map_bind]
  have hb : ((lit n!":-" r).bind fun _ r => sepBy1 (atomP n) [','] (r.length + 1) r) =
      ((lit n!":-" r).bind fun _ r => sepBy1 (atomAtP text n) [','] (r.length + 1) r).map (List.map (·.1)) := by
    rw [PR.map_bind]
    exact PR.bind_congr fun _ r => (sepBy1_erase (atomAtP_erase text n) _ _ r).symm
  rw [hb]
  generalize ((lit n!":-" r).bind fun _ r => sepBy1 (atomAtP text n) [','] (r.length + 1) r) = x
  have : (x.map (List.map (fun x : Node × Info => x.1))).orElse (.ok [] r) = (x.orElse (.ok [] r)).map (List.map (·.1)) := by
    rw [PR.map_orElse]; rfl
  rw [this, PR.bind_map]
  refine PR.bind_congr fun b r => ?_
  rw [PR.map_map]

theorem ruleAtP_erase (text n s) : (ruleAtP text n s).map ClauseAt.clause = ruleP n s := by
  unfold ruleAtP ruleP
  have h : clauseP n s = (located text (clauseAtP text n) s).map fun c => Clause.mk c.1.1.1 (c.1.2.map (·.1)) := by
    rw [← clauseP_skip, ← clauseAtP_erase text, ← located_erase (p := clauseAtP text n) text s, PR.map_map]
  rw [h, PR.map_bind, PR.bind_map]
  refine PR.bind_congr fun c r => ?_
  cases commentP r <;> rfl

theorem lineAtP_erase (text n s) : (lineAtP text n s).map (Option.map ClauseAt.clause) = lineP n s := by
  unfold lineAtP lineP
  rw [PR.map_orElse, ← ruleAtP_erase text]
  simp only [PR.map_map]
  rfl

theorem filterMap_id_map {f : α → β} (ls : List (Option α)) : (ls.map (Option.map f)).filterMap id = (ls.filterMap id).map f := by
  induction ls with
  | nil => rfl
  | cons l ls ih =>
    cases l with
    | none => simpa using ih
    | some a => simpa using ih

/-- Change the result. -/
def Parsed.map (f : α → β) : Parsed α → Parsed β
  | .ok a => .ok (f a)
  | .error p => .error p
  | .blank => .blank

theorem parseProgramAt_erase (text) : (parseProgramAt text).map (List.map ClauseAt.clause) = parseProgram text := by
  unfold parseProgramAt parseProgram
  rw [← many_erase (lineAtP_erase text (text.length + 1))]
  cases many (lineAtP text (text.length + 1)) (text.length + 1) text with
  | ok ls r =>
    simp only [PR.map, PR.bind]
    split
    · simp only [Parsed.map, filterMap_id_map]
    · rfl
  | fail => rfl
  | expect => rfl
  | hang => rfl

theorem parseQueryAt_erase (text) : (parseQueryAt text).map (List.map (·.1)) = parseQuery text := by
  unfold parseQueryAt parseQuery
  rw [← sepBy1_erase (atomAtP_erase text (text.length + 1))]
  cases sepBy1 (atomAtP text (text.length + 1)) [','] (text.length + 1) text with
  | ok ls r =>
    simp only [PR.map, PR.bind]
    cases lit ['.'] r with
    | ok _ r =>
      simp only []
      split <;> rfl
    | _ => rfl
  | fail => rfl
  | expect => rfl
  | hang => rfl

/-! ## Layout -/

/-- The last character of the token is not white space. -/
def Tok.tidy (t : Tok) : Prop := t.Valid → ∃ cs c, t.text = cs ++ [c] ∧ isSpace c = false

theorem word_last {p : Char → Bool} (hp : ∀ c, p c = true → isSpace c = false) {w : Name} (h : IsWord p w) :
    ∃ cs c, w = cs ++ [c] ∧ isSpace c = false := by
  obtain ⟨c, cs, rfl, hc, hw⟩ := h
  rcases List.eq_nil_or_concat cs with rfl | ⟨ds, d, rfl⟩
  · exact ⟨[], c, rfl, hp c hc⟩
  · exact ⟨c :: ds, d, by simp, not_space (hw d (by simp)) (by decide)⟩

theorem tidy_name {w} : (Tok.name w).tidy := fun h => word_last (fun _ => lower_not_space) h
theorem tidy_var {w} : (Tok.var w).tidy := fun h => word_last (fun _ => upper_not_space) h
theorem tidy_opening {w} : (Tok.opening w).tidy := fun _ => ⟨w, '(', rfl, rfl⟩
theorem tidy_num {neg ds} : (Tok.num neg ds).tidy := by
  rintro ⟨h0, hd⟩
  rcases List.eq_nil_or_concat ds with rfl | ⟨es, d, rfl⟩
  · exact absurd rfl h0
  · exact ⟨(if neg then ['-'] else []) ++ es, d, by simp [Tok.text], digit_not_space (hd d (by simp))⟩
theorem tidy_sym {t cs c} (h : t = cs ++ [c]) (hc : isSpace c = false) : (Tok.sym t).tidy := fun _ => ⟨cs, c, h, hc⟩

def Tidy (ts : List Tok) : Prop := ∀ t ∈ ts, t.tidy

theorem Tidy.append {ts us} (h : Tidy ts) (g : Tidy us) : Tidy (ts ++ us) := by
  intro t ht
  rcases List.mem_append.1 ht with ht | ht
  · exact h t ht
  · exact g t ht

theorem Tidy.cons {t ts} (h : t.tidy) (g : Tidy ts) : Tidy (t :: ts) := by
  intro u hu
  rcases List.mem_cons.1 hu with rfl | hu
  · exact h
  · exact g u hu

theorem Tidy.nil : Tidy [] := by simp [Tidy]

theorem Syn.tidy {c as ts} (h : Syn c as ts) : Tidy ts := by
  induction h with
  | var => exact .cons tidy_var .nil
  | num => exact .cons tidy_num .nil
  | paren _ ih => exact .cons (tidy_sym (cs := []) rfl rfl) (ih.append (.cons (tidy_sym (cs := []) rfl rfl) .nil))
  | power1 _ ih => exact ih
  | pow _ _ ih ih' => exact ih.append (.cons (tidy_sym (cs := []) rfl rfl) ih')
  | product1 _ ih => exact ih
  | mul ho _ _ ih ih' =>
    refine ih.append (.cons ?_ ih')
    rcases ho with rfl | rfl
    · exact tidy_sym (cs := []) rfl rfl
    · exact tidy_sym (cs := ['/']) rfl rfl
  | sum1 _ ih => exact ih
  | add ho _ _ ih ih' =>
    refine ih.append (.cons ?_ ih')
    rcases ho with rfl | rfl
    · exact tidy_sym (cs := []) rfl rfl
    · exact tidy_sym (cs := []) rfl rfl
  | fn _ ih => exact .cons tidy_opening (ih.append (.cons (tidy_sym (cs := []) rfl rfl) .nil))
  | cons => exact .cons tidy_name .nil
  | elist _ ih => exact ih
  | esum _ ih => exact ih
  | nil => exact .cons (tidy_sym (cs := []) rfl rfl) (.cons (tidy_sym (cs := []) rfl rfl) .nil)
  | list _ ih => exact .cons (tidy_sym (cs := []) rfl rfl) (ih.append (.cons (tidy_sym (cs := []) rfl rfl) .nil))
  | listVar _ ih =>
    exact .cons (tidy_sym (cs := []) rfl rfl) (ih.append (.cons (tidy_sym (cs := []) rfl rfl) (.cons tidy_var (.cons (tidy_sym (cs := []) rfl rfl) .nil))))
  | listList _ _ ih ih' =>
    exact Tidy.append (.cons (tidy_sym (cs := []) rfl rfl) (ih.append (.cons (tidy_sym (cs := []) rfl rfl) ih'))) (.cons (tidy_sym (cs := []) rfl rfl) .nil)
  | one _ ih => exact ih
  | more _ _ ih ih' => exact ih.append (.cons (tidy_sym (cs := []) rfl rfl) ih')

theorem HeadSyn.tidy {a ts} (h : HeadSyn a ts) : Tidy ts := h.element.tidy

theorem GoalSyn.tidy {a ts} (h : GoalSyn a ts) : Tidy ts := by
  cases h with
  | eq h h' => exact h.tidy.append (.cons (tidy_sym (cs := ['=']) rfl rfl) h'.tidy)
  | neq h h' => exact h.tidy.append (.cons (tidy_sym (cs := ['\\', '=']) rfl rfl) h'.tidy)
  | is h h' => exact h.tidy.append (.cons (tidy_sym (cs := ['i']) rfl rfl) h'.tidy)
  | head h => exact h.tidy

theorem HeadSyn.nonempty {a ts} (h : HeadSyn a ts) : ts ≠ [] := by cases h <;> simp
theorem GoalSyn.nonempty {a ts} (h : GoalSyn a ts) : ts ≠ [] := by
  cases h with
  | head h => exact h.nonempty
  | _ => simp

/-- The text of some tokens, without the white space around it. -/
theorem Takes.trim : ∀ {ts s z}, Takes ts s z → ts ≠ [] → Tidy ts → ∃ v, skipWs s = v ++ z ∧ Spell ts v ∧ Trimmed v
  | _, _, _, .nil, h, _ => absurd rfl h
  | _, s, z, .mk (t := t) (ts := ts) (r := r) h1 h2 h3 h, _, ht => by
    obtain ⟨c, cs, e, hc⟩ := h2.head
    cases ts with
    | nil =>
      cases h
      refine ⟨t.text, h1, ?_, ⟨c, cs, e, hc⟩, ht t (by simp) h2⟩
      have := Spell.cons (ws := []) (ts := []) (s := []) (by simp) h2 (Tok.stops_closing closing_nil) (.nil (by simp))
      simpa using this
    | cons u us =>
      obtain ⟨v, g1, g2, ⟨d, ds, g3, hd⟩, es, x, g4, hx⟩ := h.trim (by simp) fun t h => ht t (by simp [h])
      obtain ⟨ws, hw, e'⟩ := skipWs_split r
      refine ⟨t.text ++ (ws ++ v), by rw [h1, e', g1]; simp, ?_, ⟨c, cs ++ (ws ++ v), by rw [e]; rfl, hc⟩, t.text ++ ws ++ es, x, by rw [g4]; simp, hx⟩
      have hs : Spell (u :: us) (ws ++ v) := by
        obtain ⟨r', k1, k2, k3, k4⟩ := g2.cons_inv
        exact .mk (by rw [skipWs_space hw]; exact k1) k2 k3 k4
      refine Spell.cons (ws := []) (by simp) h2 (Tok.stops_head ?_ h3) hs
      rw [e', g1]
      cases ws with
      | nil => rw [g3]; rfl
      | cons => rfl

theorem sourceInfo_describes {text pre v r : List Char} (h : text = pre ++ (v ++ r)) (ht : Trimmed v) :
    (sourceInfo text (v ++ r) r).Describes pre v := by
  refine ⟨?_, ?_, ?_, ht⟩
  · simp [sourceInfo]
  · simp only [sourceInfo]
    rw [h, errorRow_eq]
  · simp only [sourceInfo]
    rw [h, ← List.append_assoc, errorRow_eq]

theorem located_ok {text} {p : P α} {s a i r} (h : located text p s = .ok (a, i) r) :
    p (skipWs s) = .ok a r ∧ i = sourceInfo text (skipWs s) r := by
  unfold located at h
  obtain ⟨b, r', h1, h2⟩ := PR.bind_eq_ok.1 h
  cases h2
  exact ⟨h1, rfl⟩

theorem located_laid {F : Node → List Tok → Prop} (hne : ∀ {a ts}, F a ts → ts ≠ []) (htd : ∀ {a ts}, F a ts → Tidy ts)
    {p : P Node} (hp : SoundP p F) {text pre s a i r} (ht : text = pre ++ s) (h : located text p s = .ok (a, i) r) :
    ∃ w v, Blank w ∧ s = w ++ (v ++ r) ∧ (∃ ts, F a ts ∧ Spell ts v) ∧ i.Describes (pre ++ w) v := by
  obtain ⟨h1, rfl⟩ := located_ok h
  obtain ⟨ts, g1, g2⟩ := hp _ _ _ h1
  have g3 : Takes ts (skipWs s) r := by simpa using g2 [] .nil
  obtain ⟨v, g4, g5, g6⟩ := g3.trim (hne g1) (htd g1)
  rw [skipWs_skipWs] at g4
  obtain ⟨w, hw, e⟩ := skipWs_split s
  refine ⟨w, v, hw, by rw [← g4]; exact e, ⟨ts, g1, g5⟩, ?_⟩
  rw [g4]
  exact sourceInfo_describes (by rw [ht, e, g4]; simp) g6

theorem atomAt_laid {text n pre s a i r} (ht : text = pre ++ s) (h : atomAtP text n s = .ok (a, i) r) :
    ∃ w v, Blank w ∧ s = w ++ (v ++ r) ∧ GoalText a v ∧ i.Describes (pre ++ w) v :=
  located_laid (fun h => h.nonempty) (fun h => h.tidy) (atom_sound n) ht h

theorem headAt_laid {text n pre s a i r} (ht : text = pre ++ s) (h : headAtP text n s = .ok (a, i) r) :
    ∃ w v, Blank w ∧ s = w ++ (v ++ r) ∧ HeadText a v ∧ i.Describes (pre ++ w) v :=
  located_laid (fun h => h.nonempty) (fun h => h.tidy) (head_sound n) ht h

theorem lit_laid {t s u r} (h : lit t s = .ok u r) : ∃ w, Blank w ∧ s = w ++ (t ++ r) := by
  obtain ⟨w, hw, e⟩ := skipWs_split s
  exact ⟨w, hw, by rw [← exactly_ok.1 h]; exact e⟩

theorem goals_laid_many {text n} : ∀ (k : Nat) {pre v a i s as r}, text = pre ++ (v ++ s) → GoalText a v → i.Describes pre v →
    many (fun s => (lit [','] s).bind fun _ r => atomAtP text n r) k s = .ok as r →
    ∃ t, v ++ s = t ++ r ∧ GoalsLaid pre ((a, i) :: as) t := by
  intro k
  induction k with
  | zero => intro pre v a i s as r _ _ _ h; cases h
  | succ k ih =>
    intro pre v a i s as r ht hg hd h
    simp only [many] at h
    split at h
    · rename_i b r1 h1
      obtain ⟨_, r0, h2, h3⟩ := PR.bind_eq_ok.1 h1
      obtain ⟨bs, h4, rfl⟩ := PR.map_eq_ok.1 h
      obtain ⟨w, hw, rfl⟩ := lit_laid h2
      obtain ⟨b, j⟩ := b
      obtain ⟨w', u, hw', rfl, hu, hj⟩ := atomAt_laid (pre := pre ++ (v ++ w ++ [','])) (by rw [ht]; simp) h3
      obtain ⟨t, e, hl⟩ := ih (pre := pre ++ (v ++ w ++ [','] ++ w')) (by rw [ht]; simp) hu (by simpa using hj) h4
      refine ⟨v ++ w ++ [','] ++ w' ++ t, ?_, .more hg hd hw hw' hl⟩
      simp only [List.append_assoc]
      rw [← e]
    · cases h
      exact ⟨v, rfl, .one hg hd⟩
    · cases h
    · cases h

theorem goals_laid {text n k pre s as r} (ht : text = pre ++ s) (h : sepBy1 (atomAtP text n) [','] k s = .ok as r) :
    ∃ w t, Blank w ∧ s = w ++ (t ++ r) ∧ GoalsLaid (pre ++ w) as t := by
  unfold sepBy1 at h
  obtain ⟨⟨a, i⟩, r1, h1, h⟩ := PR.bind_eq_ok.1 h
  obtain ⟨bs, h2, rfl⟩ := PR.map_eq_ok.1 h
  obtain ⟨w, v, hw, rfl, hv, hi⟩ := atomAt_laid ht h1
  obtain ⟨t, e, hl⟩ := goals_laid_many k (pre := pre ++ w) (by rw [ht]; simp) hv hi h2
  exact ⟨w, t, hw, by rw [e], hl⟩

theorem clauseAt_laid {text n pre s x r} (ht : text = pre ++ s) (h : clauseAtP text n s = .ok x r) :
    ∃ w v, Blank w ∧ s = w ++ (v ++ r) ∧ ClauseLaid (pre ++ w) x v := by
  unfold clauseAtP at h
  obtain ⟨⟨hd, i⟩, r1, h1, h⟩ := PR.bind_eq_ok.1 h
  obtain ⟨b, r2, h2, h⟩ := PR.bind_eq_ok.1 h
  obtain ⟨_, h3, rfl⟩ := PR.map_eq_ok.1 h
  rw [PR.must_eq_ok] at h3
  obtain ⟨w, v, hw, rfl, hv, hi⟩ := headAt_laid ht h1
  obtain ⟨w1, hw1, rfl⟩ := lit_laid h3
  rcases PR.orElse_eq_ok.1 h2 with h2 | ⟨_, h2⟩
  · obtain ⟨_, r3, h4, h5⟩ := PR.bind_eq_ok.1 h2
    obtain ⟨w2, hw2, rfl⟩ := lit_laid h4
    obtain ⟨w3, t, hw3, rfl, hl⟩ := goals_laid (pre := pre ++ w ++ (v ++ w2 ++ [':', '-'])) (by rw [ht]; simp) h5
    refine ⟨w, v ++ w2 ++ [':', '-'] ++ w3 ++ t ++ w1 ++ ['.'], hw, by simp, .rule hv hi hw2 hw3 ?_ hw1⟩
    simpa using hl
  · cases h2
    exact ⟨w, v ++ w1 ++ ['.'], hw, by simp, .fact hv hi hw1⟩

theorem ClauseLaid.trimmed {pre x v} (h : ClauseLaid pre x v) : Trimmed v := by
  cases h with
  | fact h1 h2 h3 =>
    obtain ⟨_, _, _, ⟨c, cs, rfl, hc⟩, _⟩ := h2
    exact ⟨⟨c, _, by simp only [List.cons_append]; rfl, hc⟩, _, '.', rfl, rfl⟩
  | rule h1 h2 h3 =>
    obtain ⟨_, _, _, ⟨c, cs, rfl, hc⟩, _⟩ := h2
    exact ⟨⟨c, _, by simp only [List.cons_append]; rfl, hc⟩, _, '.', rfl, rfl⟩

theorem comment_laid {s u r} (h : commentP s = .ok u r) : ∃ w t, Blank w ∧ '\n' ∉ t ∧ s = w ++ ['%'] ++ t ++ ['\n'] ++ r := by
  unfold commentP at h
  obtain ⟨_, r1, h1, h2⟩ := PR.bind_eq_ok.1 h
  rw [PR.must_eq_ok] at h2
  obtain ⟨w, hw, rfl⟩ := lit_laid h1
  obtain ⟨e, ht, _⟩ := takeWhile_split (fun c => decide (c ≠ '\n')) r1
  have := exactly_ok.1 h2
  refine ⟨w, r1.takeWhile (fun c => decide (c ≠ '\n')), hw, fun hm => by simpa using ht _ hm, ?_⟩
  conv => lhs; rw [e]
  rw [this]
  simp

theorem ruleAt_laid {text n pre s c r} (ht : text = pre ++ s) (h : ruleAtP text n s = .ok c r) :
    ∃ u, s = u ++ r ∧ ∀ p t, ProgLaid (pre ++ u) p t → ProgLaid pre (c :: p) (u ++ t) := by
  unfold ruleAtP at h
  obtain ⟨⟨x, i⟩, r1, h1, h2⟩ := PR.bind_eq_ok.1 h
  obtain ⟨h3, rfl⟩ := located_ok h1
  obtain ⟨w, hw, e⟩ := skipWs_split s
  obtain ⟨w', v, hw', e', hl⟩ := clauseAt_laid (pre := pre ++ w) (by rw [ht]; conv => lhs; rw [e]
                                                                     simp) h3
  have hw0 : w' = [] := by
    have h4 := skipWs_skipWs s
    rw [e', skipWs_space hw'] at h4
    obtain ⟨⟨c, cs, rfl, hc⟩, _⟩ := hl.trimmed
    rw [List.cons_append, skipWs_cons hc] at h4
    have := congrArg List.length h4
    simp only [List.length_append, List.length_cons] at this
    cases w' with
    | nil => rfl
    | cons => simp at this
  subst hw0
  rw [List.nil_append] at e'
  rw [List.append_nil] at hl
  have hi : (sourceInfo text (skipWs s) r1).Describes (pre ++ w) v := by
    rw [e']
    exact sourceInfo_describes (by rw [ht, e, e']; simp) hl.trimmed
  split at h2
  · rename_i r2 h4
    cases h2
    obtain ⟨w2, t2, hw2, hn, rfl⟩ := comment_laid h4
    refine ⟨w ++ v ++ (w2 ++ ['%'] ++ t2 ++ ['\n']), by rw [e, e']; simp, fun p t hp => ?_⟩
    have := ProgLaid.clause (c := ⟨sourceInfo text (skipWs s) (w2 ++ ['%'] ++ t2 ++ ['\n'] ++ r), x.1, x.2⟩) hw hl hi
      (ProgLaid.comment (t := t2) hw2 hn (by simpa using hp))
    simpa using this
  · cases h2
    refine ⟨w ++ v, by rw [e, e']; simp, fun p t hp => ?_⟩
    have := ProgLaid.clause (c := ⟨sourceInfo text (skipWs s) r, x.1, x.2⟩) hw hl hi hp
    simpa using this
  · cases h2
  · cases h2

theorem lineAt_laid {text n pre s l r} (ht : text = pre ++ s) (h : lineAtP text n s = .ok l r) :
    ∃ u, s = u ++ r ∧ ∀ p t, ProgLaid (pre ++ u) p t → ProgLaid pre (l.toList ++ p) (u ++ t) := by
  unfold lineAtP at h
  rcases PR.orElse_eq_ok.1 h with h | ⟨_, h⟩
  · obtain ⟨_, h1, rfl⟩ := PR.map_eq_ok.1 h
    obtain ⟨w, t2, hw, hn, rfl⟩ := comment_laid h1
    exact ⟨_, rfl, fun p t hp => .comment hw hn hp⟩
  · obtain ⟨c, h1, rfl⟩ := PR.map_eq_ok.1 h
    exact ruleAt_laid ht h1

theorem linesAt_laid {text n} : ∀ (k : Nat) {pre s ls r}, text = pre ++ s → many (lineAtP text n) k s = .ok ls r → skipWs r = [] →
    ProgLaid pre (ls.filterMap id) s := by
  intro k
  induction k with
  | zero => intro pre s ls r _ h; cases h
  | succ k ih =>
    intro pre s ls r ht h hr
    simp only [many] at h
    split at h
    · rename_i l r1 h1
      obtain ⟨ls', h2, rfl⟩ := PR.map_eq_ok.1 h
      obtain ⟨u, rfl, hu⟩ := lineAt_laid ht h1
      have := hu _ _ (ih (pre := pre ++ u) (by rw [ht]; simp) h2 hr)
      cases l with
      | none => simpa using this
      | some c => simpa using this
    · cases h
      exact .nil (skipWs_nil hr)
    · cases h
    · cases h

theorem parseProgramAt_laid {text p} (h : parseProgramAt text = .ok p) : ProgLaid [] p text := by
  unfold parseProgramAt at h
  split at h
  · rename_i ls r h1
    split at h
    · rename_i hr
      cases h
      exact linesAt_laid _ rfl h1 hr
    · cases h
  · cases h
  · cases h

theorem parseQueryAt_laid {text q} (h : parseQueryAt text = .ok q) :
    ∃ w t w' w'', text = w ++ t ++ w' ++ ['.'] ++ w'' ∧ Blank w ∧ Blank w' ∧ Blank w'' ∧ GoalsLaid w q t := by
  unfold parseQueryAt at h
  split at h
  · rename_i as r h1
    split at h
    · rename_i r1 h2
      split at h
      · rename_i hr
        cases h
        obtain ⟨w, t, hw, e, hl⟩ := goals_laid (pre := []) rfl h1
        obtain ⟨w', hw', rfl⟩ := lit_laid h2
        exact ⟨w, t, w', r1, by rw [e]; simp, hw, hw', skipWs_nil hr, by simpa using hl⟩
      · cases h
    · cases h
  · cases h
  · cases h
  · cases h

end PBfs
