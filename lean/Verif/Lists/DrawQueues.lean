import Verif.Lists.PrioAux
import Verif.Lists.DrawProofs

/-!
# Drawings of stacks, queues, deques and priority queues

The drawing of a priority queue with `SHOW_PRIORITY` on, and helper lemmas on what a drawing tells.
-/

set_option linter.unusedSectionVars false

namespace Extra
variable {V X P : Type} [PyData V] [PyShow V]

/-! ## The model -/

/-- `PriorityNode._represent` with `SHOW_PRIORITY` on — priority_queue.py:133-134 -/
def representP [PyShow P] (nd : Node V P) : List Char :=
  showData nd.data ++ ['|', 'P', ':'] ++ PyShow.str nd.ext

/-- `__repr__` with `SHOW_PRIORITY` on — priority_queue.py:226, queue.py:110-126 -/
def PQueue.reprP [PyShow P] (q : PQueue V P) : CRes V × PQueue V P :=
  q.run (qRepr (q.heap.nNodes + 1) '⟶' representP q.cont) (fun t => (.text t, false))

/-! ## The specification -/

/-- an item and its priority, as a priority queue shows them with `SHOW_PRIORITY` on -/
def pairText [PyShow P] (x : V × P) : List Char :=
  PyShow.str x.1 ++ ['|', 'P', ':'] ++ PyShow.str x.2

/-- the three lines of a queue that is not empty, with one box for each text -/
def boxLines (dir : Char) (cells : List (List Char)) : List (List Char) :=
  [ruler ['─', '┬'] '┬' cells ['─'], boxes [dir, '│'] cells [dir], ruler ['─', '┴'] '┴' cells ['─']]

/-- the three lines of a stack, with one box for each text -/
def stackLines (cells : List (List Char)) : List (List Char) :=
  [ruler ['┌'] '┬' cells ['─'], boxes ['│'] cells [' '], ruler ['└'] '┴' cells ['─']]

/-! ## Reading a drawing -/

theorem split_at_inj {α : Type} {c : α} {a b x y : List α} (ha : c ∉ a) (hb : c ∉ b)
    (h : a ++ c :: x = b ++ c :: y) : a = b ∧ x = y := by
  induction a generalizing b with
  | nil =>
    cases b with
    | nil => simpa using h
    | cons d b =>
      simp only [List.nil_append, List.cons_append, List.cons.injEq] at h
      exact absurd (by rw [h.1]; exact List.mem_cons_self) hb
  | cons d a ih =>
    cases b with
    | nil =>
      simp only [List.nil_append, List.cons_append, List.cons.injEq] at h
      exact absurd (by rw [← h.1]; exact List.mem_cons_self) ha
    | cons e b =>
      simp only [List.cons_append, List.cons.injEq] at h
      obtain ⟨h1, h2⟩ := ih (fun hm => ha (List.mem_cons_of_mem _ hm))
        (fun hm => hb (List.mem_cons_of_mem _ hm)) h.2
      exact ⟨by rw [h.1, h1], h2⟩

/-- the line above the boxes tells how long the texts are and how it ends -/
theorem ruler_reads {j : Char} (hj : j ≠ '─') {r r' : List Char} (hr : j ∉ r) (hr' : j ∉ r') :
    ∀ {cs ds : List (List Char)}, ruler [] j cs r = ruler [] j ds r' →
      cs.map List.length = ds.map List.length ∧ r = r'
  | [], [], h => ⟨rfl, by simpa [ruler] using h⟩
  | [], d :: ds, h => by
    exfalso; apply hr
    have e : ruler [] j [] r = r := by simp [ruler]
    rw [← e, h]; simp [ruler]
  | c :: cs, [], h => by
    exfalso; apply hr'
    have e : ruler [] j [] r' = r' := by simp [ruler]
    rw [← e, ← h]; simp [ruler]
  | c :: cs, d :: ds, h => by
    have hn : ∀ n, j ∉ List.replicate n '─' := fun n hm => hj (List.mem_replicate.1 hm).2
    have h' : List.replicate (c.length + 2) '─' ++ j :: ruler [] j cs r =
        List.replicate (d.length + 2) '─' ++ j :: ruler [] j ds r' := by
      simpa [ruler] using h
    obtain ⟨h1, h2⟩ := split_at_inj (hn _) (hn _) h'
    obtain ⟨i1, i2⟩ := ruler_reads hj hr hr' h2
    have h1 := congrArg List.length h1
    simp only [List.length_replicate] at h1
    exact ⟨by simp [i1]; omega, i2⟩

theorem ruler_left (l : List Char) (j : Char) (cs : List (List Char)) (r : List Char) :
    ruler l j cs r = l ++ ruler [] j cs r := by simp [ruler]

theorem boxes_left (l : List Char) (cs : List (List Char)) (r : List Char) :
    boxes l cs r = l ++ boxes [] cs r := by simp [boxes]

/-- texts of known lengths can be read off the boxes -/
theorem boxes_reads {r r' : List Char} : ∀ {cs ds : List (List Char)},
    cs.map List.length = ds.map List.length → boxes [] cs r = boxes [] ds r' → cs = ds
  | [], [], _, _ => rfl
  | [], d :: ds, h, _ => by simp at h
  | c :: cs, [], h, _ => by simp at h
  | c :: cs, d :: ds, h, e => by
    simp only [List.map_cons, List.cons.injEq] at h
    have e' : c ++ ([' ', '│'] ++ boxes [] cs r) = d ++ ([' ', '│'] ++ boxes [] ds r') := by
      simpa [boxes] using e
    obtain ⟨h1, h2⟩ := List.append_inj e' h.1
    rw [h1, boxes_reads h.2 (List.append_cancel_left h2)]

theorem boxLines_inj {dir : Char} {cs ds : List (List Char)} (h : boxLines dir cs = boxLines dir ds) :
    cs = ds := by
  simp only [boxLines, List.cons.injEq] at h
  obtain ⟨h1, h2, -⟩ := h
  rw [ruler_left, ruler_left _ _ ds] at h1
  rw [boxes_left, boxes_left _ ds] at h2
  exact boxes_reads (ruler_reads (by decide) (by decide) (by decide) (List.append_cancel_left h1)).1
    (List.append_cancel_left h2)

theorem stackLines_inj {cs ds : List (List Char)} (h : stackLines cs = stackLines ds) : cs = ds := by
  simp only [stackLines, List.cons.injEq] at h
  obtain ⟨h1, h2, -⟩ := h
  rw [ruler_left, ruler_left _ _ ds] at h1
  rw [boxes_left, boxes_left _ ds] at h2
  exact boxes_reads (ruler_reads (by decide) (by decide) (by decide) (List.append_cancel_left h1)).1
    (List.append_cancel_left h2)

theorem ruler_mem {l r : List Char} {j c : Char} {cs : List (List Char)} (hc : c ≠ '─') (hj : c ≠ j)
    (hl : c ∉ l) (hr : c ∉ r) : c ∉ ruler l j cs r := by
  simp [ruler, hl, hr, hc, hj]

theorem boxes_mem {l r : List Char} {c : Char} {cs : List (List Char)} (h1 : c ≠ ' ') (h2 : c ≠ '│')
    (hl : c ∉ l) (hr : c ∉ r) (hcs : ∀ x ∈ cs, c ∉ x) : c ∉ boxes l cs r := by
  simp only [boxes, List.mem_append, List.mem_flatMap, List.mem_cons, List.not_mem_nil, hl, hr, h1, h2,
    false_or, or_false, not_exists, not_and]
  exact hcs

theorem boxLines_nl {dir : Char} (hd : dir ≠ '\n') {cs : List (List Char)} (hcs : ∀ x ∈ cs, '\n' ∉ x) :
    ∀ l ∈ boxLines dir cs, '\n' ∉ l := by
  have hd' : '\n' ∉ [dir] := by simpa using hd.symm
  have hd2 : '\n' ∉ [dir, '│'] := by simpa using hd.symm
  intro l hl
  simp only [boxLines, List.mem_cons, List.not_mem_nil, or_false] at hl
  rcases hl with rfl | rfl | rfl
  · exact ruler_mem (by decide) (by decide) (by decide) (by decide)
  · exact boxes_mem (by decide) (by decide) hd2 hd' hcs
  · exact ruler_mem (by decide) (by decide) (by decide) (by decide)

theorem stackLines_nl {cs : List (List Char)} (hcs : ∀ x ∈ cs, '\n' ∉ x) :
    ∀ l ∈ stackLines cs, '\n' ∉ l := by
  intro l hl
  simp only [stackLines, List.mem_cons, List.not_mem_nil, or_false] at hl
  rcases hl with rfl | rfl | rfl
  · exact ruler_mem (by decide) (by decide) (by decide) (by decide)
  · exact boxes_mem (by decide) (by decide) (by decide) (by decide) hcs
  · exact ruler_mem (by decide) (by decide) (by decide) (by decide)

theorem boxLines_ne (dir : Char) (cs : List (List Char)) : boxLines dir cs ≠ [] := by simp [boxLines]

theorem stackLines_ne (cs : List (List Char)) : stackLines cs ≠ [] := by simp [stackLines]

theorem ruler_length (l : List Char) (j : Char) (cs : List (List Char)) (r : List Char) :
    (ruler l j cs r).length = l.length + (cs.map (fun c => c.length + 3)).sum + r.length := by
  induction cs with
  | nil => simp [ruler]
  | cons c cs ih =>
    simp only [ruler, List.length_append, List.flatMap_cons, List.length_replicate, List.map_cons,
      List.sum_cons, List.length_cons, List.length_nil] at ih ⊢
    omega

theorem boxes_length (l : List Char) (cs : List (List Char)) (r : List Char) :
    (boxes l cs r).length = l.length + (cs.map (fun c => c.length + 3)).sum + r.length := by
  induction cs with
  | nil => simp [boxes]
  | cons c cs ih =>
    simp only [boxes, List.length_append, List.flatMap_cons, List.map_cons,
      List.sum_cons, List.length_cons, List.length_nil] at ih ⊢
    omega

/-! ## What an empty queue may show -/

/-- the lines of an empty queue: nothing, or one box that is not closed -/
def openLines (dir : Char) (lines : List (List Char)) : Prop :=
  lines = [['─', '┬'], [dir, '│'], ['─', '┴']] ∨
  ∃ c, lines = [ruler ['─', '┬'] '┬' [c] [], boxes [dir, '│'] [c] [], ruler ['─', '┴'] '┴' [c] []]

/-- an empty queue never looks like one that is not empty -/
theorem openLines_ne {dir : Char} {lines : List (List Char)} (h : openLines dir lines)
    (cs : List (List Char)) : (boxLines dir cs).head? ≠ lines.head? := by
  intro e
  rcases h with rfl | ⟨c, rfl⟩
  · simp only [boxLines, List.head?_cons, Option.some.injEq] at e
    have := congrArg List.length e
    rw [ruler_length] at this
    simp at this
    omega
  · simp only [boxLines, List.head?_cons, Option.some.injEq] at e
    rw [ruler_left, ruler_left _ _ [c]] at e
    have := (ruler_reads (by decide) (by decide) (by decide) (List.append_cancel_left e)).2
    simp at this

theorem shownText_open (dir : Char) (st : Option V) : openLines dir (shownText dir ([] : List V) st) := by
  cases st with
  | none => left; simp [shownText, queueText]
  | some v => right; exact ⟨PyShow.str v, by simp [shownText]⟩

theorem shownText_cons (dir : Char) {xs : List V} (h : xs ≠ []) (st : Option V) :
    shownText dir xs st = boxLines dir (xs.map PyShow.str) := by
  cases xs with
  | nil => exact absurd rfl h
  | cons x xs => simp [shownText, queueText, boxLines]

theorem queueText_cons (dir : Char) {xs : List V} (h : xs ≠ []) :
    queueText dir xs = boxLines dir (xs.map PyShow.str) := by
  cases xs with
  | nil => exact absurd rfl h
  | cons x xs => simp [queueText, boxLines]

/-- the first lines differ if the first line of the joined text does -/
theorem joinLines_head {l m : List Char} {ls ms : List (List Char)} (hl : ls ≠ []) (hm : ms ≠ [])
    (h1 : '\n' ∉ l) (h2 : '\n' ∉ m) (h : joinLines (l :: ls) = joinLines (m :: ms)) : l = m := by
  rw [joinLines_cons _ hl, joinLines_cons _ hm] at h
  exact (append_nl_inj h1 h2 h).1

theorem openLines_join {dir : Char} {lines : List (List Char)} (h : openLines dir lines)
    (cs : List (List Char)) : joinLines (boxLines dir cs) ≠ joinLines lines := by
  intro e
  apply openLines_ne h cs
  rcases h with rfl | ⟨c, rfl⟩ <;>
  · have := joinLines_head (by simp) (by simp)
      (ruler_mem (by decide) (by decide) (by decide) (by decide)) (by simp [ruler]) e
    simp [boxLines, this]

/-! ## Priorities in the drawing -/

/-- the text of a priority can be split off -/
theorem pairText_inj [PyShow P] (hP : ∀ p : P, '|' ∉ PyShow.str p) {x y : V × P}
    (h : pairText x = pairText y) :
    PyShow.str x.1 = PyShow.str y.1 ∧ PyShow.str x.2 = PyShow.str y.2 := by
  have h' : (PyShow.str x.2).reverse ++ [':', 'P'] ++ '|' :: (PyShow.str x.1).reverse =
      (PyShow.str y.2).reverse ++ [':', 'P'] ++ '|' :: (PyShow.str y.1).reverse := by
    have := congrArg List.reverse h
    simpa [pairText] using this
  obtain ⟨h1, h2⟩ := split_at_inj (by simpa using hP x.2) (by simpa using hP y.2) h'
  exact ⟨List.reverse_injective h2, List.reverse_injective (List.append_cancel_right h1)⟩

variable [LinearOrder P] [BoundedOrder P] [Inhabited P]

theorem reprP_spec [PyShow P] {q : PQueue V P} {s : PAbs V P} (I : PInv q s) :
    ∃ lines, q.reprP = (.ok (.text lines, false), q) ∧
      (s.xs ≠ [] → lines = boxLines '⟶' (s.xs.map pairText)) ∧
      (s.xs = [] → openLines '⟶' lines) := by
  obtain ⟨ns, r, he⟩ := I.rep
  have hs : s.xs.map Prod.fst = [] → Stale q.heap q.cont s.st := fun h => I.stale (by simpa using h)
  have hq := qRepr_spec r '⟶' (representP (V := V) (P := P)) s.st hs
  refine ⟨_, by rw [PQueue.reprP, PQueue.run, hq], fun hx => ?_, fun hx => ?_⟩
  · rw [if_neg (by simpa using hx)]
    have : (ns.map q.heap.node).map representP = s.xs.map pairText := by
      have hd := r.show_cells
      refine List.ext_getElem? (fun i => ?_)
      have e1 := congrArg (·[i]?) hd
      have e2 := congrArg (·[i]?) he
      simp only [List.getElem?_map] at e1 e2 ⊢
      cases h1 : ns[i]? with
      | none =>
        cases h2 : s.xs[i]? with
        | none => simp
        | some x => simp [h1, h2] at e2
      | some a =>
        cases h2 : s.xs[i]? with
        | none => simp [h1, h2] at e2
        | some x =>
          simp only [h1, h2, Option.map_some, Option.some.injEq] at e1 e2 ⊢
          simp [representP, pairText, e1, e2]
    rw [this]; rfl
  · rw [if_pos (by simpa using hx)]
    split
    · exact Or.inl rfl
    · exact Or.inr ⟨_, rfl⟩

end Extra
