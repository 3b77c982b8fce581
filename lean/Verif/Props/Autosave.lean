import Verif.Model.Autosave
import Verif.Model.Page
/-! # C69: saved texts -/
namespace PBfs
namespace Browser

/-- A save, on whichever page. -/
def saves : Deed → Bool
  | .tick _ => true
  | .close _ => true
  | _ => false

theorem steps_append {fits} : ∀ {ds es : List Deed} {b : Browser}, b.steps fits (ds ++ es) = (b.steps fits ds).steps fits es
  | [], _, _ => rfl
  | _ :: ds, _, _ => steps_append (ds := ds)

theorem step_keeps {fits} {b : Browser} {d} (h : saves d = false) (he : d ≠ .expire) :
    (b.step fits d).programCode = b.programCode ∧ (b.step fits d).queryCode = b.queryCode := by
  cases d <;> simp [saves, step] at h he ⊢ <;> split <;> exact ⟨rfl, rfl⟩

theorem steps_keep {fits} : ∀ {ds} {b : Browser}, (∀ d ∈ ds, saves d = false ∧ d ≠ .expire) →
    (b.steps fits ds).programCode = b.programCode ∧ (b.steps fits ds).queryCode = b.queryCode
  | [], _, _ => ⟨rfl, rfl⟩
  | d :: ds, b, h => by
    obtain ⟨h1, h2⟩ := step_keeps (b := b) (fits := fits) (h d (by simp)).1 (h d (by simp)).2
    obtain ⟨h3, h4⟩ := steps_keep (ds := ds) (b := b.step fits d) fun e he => h e (by simp [he])
    exact ⟨h3.trans h1, h4.trans h2⟩

theorem step_save {fits} {b : Browser} {i t d} (hd : d = .tick i ∨ d = .close i) (ht : b.pages[i]? = some t) :
    (b.step fits d).programCode = (if fits t.program then some t.program else b.programCode) ∧
    (b.step fits d).queryCode = (if fits t.query then some t.query else b.queryCode) := by
  rcases hd with rfl | rfl <;> simp [step, ht, save, put]

end Browser

open Browser in
/-- **C69, the part that holds.** After a minute is over on a page, or it is closed, pages that are opened show its texts, also after a crash, as long as nothing is saved by
another page and the cookies have not expired; if the texts are not empty and not too long. -/
theorem C69_reopened_partial {fits : Name → Bool} {b : Browser} {ds : List Deed} {i t d} (hd : d = .tick i ∨ d = .close i) (ht : b.pages[i]? = some t)
    (hp : t.program ≠ [] ∧ fits t.program = true) (hq : t.query ≠ [] ∧ fits t.query = true) (hs : ∀ d ∈ ds, saves d = false ∧ d ≠ .expire) :
    (b.steps fits (d :: ds ++ [.open])).pages.getLast? = some t := by
  obtain ⟨h1, h2⟩ := step_save (fits := fits) hd ht
  obtain ⟨h3, h4⟩ := steps_keep (fits := fits) (b := b.step fits d) hs
  rw [List.cons_append, steps, steps_append]
  generalize (b.step fits d).steps fits ds = c at h3 h4
  rw [h1, if_pos hp.2] at h3
  rw [h2, if_pos hq.2] at h4
  obtain ⟨p, q⟩ := t
  simp only at hp hq h3 h4
  cases p with
  | nil => exact absurd rfl hp.1
  | cons x xs =>
    cases q with
    | nil => exact absurd rfl hq.1
    | cons y ys => simp [steps, step, h3, h4, Browser.get]

/-- Everything can be stored. -/
def Demo.roomy : Name → Bool := fun _ => true

/-- An instance: the page crashes after a minute, what was typed later is lost. -/
theorem C69_sample : (Browser.new.steps Demo.roomy [.open, .program 0 n!"p(a).", .query 0 n!"p(X)", .tick 0, .program 0 n!"p(b).", .crash, .open]).pages =
    [⟨n!"p(a).", n!"p(X)"⟩] := by decide +kernel

/-- It is a case of the theorem. -/
example : let b := Browser.new.steps Demo.roomy [.open, .program 0 n!"p(a).", .query 0 n!"p(X)"]
    (b.steps Demo.roomy (.tick 0 :: [.program 0 n!"p(b).", .crash] ++ [.open])).pages.getLast? = some ⟨n!"p(a).", n!"p(X)"⟩ :=
  C69_reopened_partial (.inl rfl) (by decide +kernel) (by decide) (by decide) (by decide)

/-- **C69 fails** for the empty text: a page that is closed with an empty program shows another program when it is opened again. -/
theorem C69_empty (fits : Name → Bool) (b : Browser) (t : Texts) (h : b.pages[0]? = some t) (he : t.program = []) (hf : fits [] = true) :
    ((b.steps fits [.close 0, .open]).pages.getLast?.map (·.program)) = some n!"your_program_code_here." := by
  simp [Browser.steps, Browser.step, h, Browser.save, Browser.put, he, hf, Browser.get]

/-- **C69 fails** for texts that are too long: the program that is shown is the one that was saved last before. -/
theorem C69_long (fits : Name → Bool) (b : Browser) (t : Texts) (h : b.pages[0]? = some t) (hf : fits t.program = false) :
    ((b.steps fits [.close 0, .open]).pages.getLast?.map (·.program)) = some (Browser.get b.programCode n!"your_program_code_here.") := by
  simp [Browser.steps, Browser.step, h, Browser.save, Browser.put, hf]

/-- **C69 fails** if the page is open twice: the texts of the one that is closed first do not come back. -/
theorem C69_two_pages : (Browser.new.steps Demo.roomy [.open, .open, .program 0 n!"p(a).", .close 0, .close 0, .open]).pages =
    [⟨n!"your_program_code_here.", n!"your_query_code_here."⟩] := by decide +kernel

/-- The texts shown on the first visit can be run; the answer is `false`. -/
theorem C69_first_run : (Site.empty.steps 40 [.run id n!"your_program_code_here." n!"your_query_code_here." ⟨List.replicate 9 false, false, false⟩]).toOption.map
    (fun s => s.pages.map (·.lines)) = some [[n!"false"]] := by decide +kernel

end PBfs
