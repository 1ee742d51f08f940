import Verif.Trees.Draw
import Verif.Trees.TreeProofs

/-!
# Helper lemmas for the drawing of `Tree`
-/

namespace Extra
variable {V : Type}

/-! ## The specification -/

/-- the node at the path is the last child of its parent; the root is nobody's child -/
def RTree.lastAt (t : RTree V) (p : List Nat) : Bool :=
  match p.getLast? with
  | none => false
  | some i => (t.sub (p.dropLast ++ [i + 1])).isNone

/-- the line of the node at the path: two columns for each node between the root and the node, with a
bar unless that node is a last child, then the branch to the node itself, then the label -/
def RTree.lineAt (t : RTree V) (rep : V → List Char) (p : List Nat) : List Char :=
  (if p = [] then []
   else (List.range (p.length - 1)).flatMap
      (fun k => if t.lastAt (p.take (k + 1)) then [' ', ' '] else ['│', ' ']) ++
    (if t.lastAt p then ['└', '─'] else ['├', '─']) ++
    (if (t.sub (p ++ [0])).isSome then ['┬', ' '] else ['─', ' '])) ++
  ((t.sub p).map (fun s => rep s.data)).getD []

mutual
/-- the tree of the labels -/
def RTree.labels {W : Type} (f : V → W) : RTree V → RTree W
  | .node d cs => .node (f d) (RTree.labelsAll f cs)
def RTree.labelsAll {W : Type} (f : V → W) : List (RTree V) → List (RTree W)
  | [] => []
  | c :: cs => c.labels f :: RTree.labelsAll f cs
end

theorem RTree.lastAt_snoc (t : RTree V) (q : List Nat) (i : Nat) :
    t.lastAt (q ++ [i]) = (t.sub (q ++ [i + 1])).isNone := by
  simp [RTree.lastAt]

theorem RTree.sub_append (t : RTree V) : ∀ (q p : List Nat), t.sub (q ++ p) = (t.sub q).bind (·.sub p) := by
  intro q
  induction q generalizing t with
  | nil => intro p; rw [RTree.sub_nil]; rfl
  | cons i q ih =>
    intro p
    obtain ⟨d, cs⟩ := t
    rw [List.cons_append, RTree.sub_cons, RTree.sub_cons]
    cases h : cs[i]? with
    | none => rfl
    | some c => exact ih c p

/-! ## The lines -/

/-- the flags on the way to a node -/
def RTree.seqAt (t : RTree V) (q : List Nat) : List Bool :=
  (List.range q.length).map (fun k => t.lastAt (q.take k))

theorem RTree.seqAt_snoc (t : RTree V) (q : List Nat) (i : Nat) :
    t.seqAt (q ++ [i]) = t.seqAt q ++ [t.lastAt q] := by
  rw [RTree.seqAt, List.length_append, List.length_singleton, List.range_succ, List.map_append,
    RTree.seqAt]
  congr 1
  · refine List.map_congr_left fun k hk => ?_
    rw [List.mem_range] at hk
    rw [List.take_append_of_le_length (by omega)]
  · simp

theorem RTree.linePrefix_eq (t : RTree V) (q : List Nat) (b : Bool)
    (hb : b = (t.sub (q ++ [0])).isSome) (rep : V → List Char) {s : RTree V} (hs : t.sub q = some s) :
    linePrefix b (t.lastAt q) (t.seqAt q) ++ rep s.data = t.lineAt rep q := by
  rw [RTree.lineAt, hs]
  cases q with
  | nil => simp [RTree.seqAt, linePrefix]
  | cons i q =>
    rw [if_neg (by simp)]
    have : t.seqAt (i :: q) = t.lastAt [] ::
        (List.range q.length).map (fun k => t.lastAt ((i :: q).take (k + 1))) := by
      rw [RTree.seqAt, List.length_cons, List.range_succ_eq_map, List.map_cons, List.map_map]
      rfl
    rw [this, linePrefix, hb, List.flatMap_map]
    simp

mutual
theorem RTree.drawSub_eq (t : RTree V) (rep : V → List Char) : ∀ (s : RTree V) (q : List Nat)
    (lines : List (List Char)), t.sub q = some s →
    s.drawSub rep lines (t.lastAt q) (t.seqAt q) = lines ++ s.paths.map (fun p => t.lineAt rep (q ++ p))
  | .node d cs, q, lines, hs => by
    rw [RTree.drawSub, ← RTree.seqAt_snoc t q 0, RTree.paths, List.map_cons, List.append_nil]
    have e := RTree.linePrefix_eq t q (!cs.isEmpty) (by
      rw [RTree.sub_append, hs]
      show _ = ((RTree.node d cs).sub [0]).isSome
      rw [RTree.sub_cons]
      cases cs <;> simp [RTree.sub_nil]) rep hs
    rw [show rep d = rep (RTree.node d cs).data from rfl, e, RTree.seqAt_snoc]
    rw [RTree.drawKids_eq t rep cs q 0 _ (by
      intro i c hc
      rw [RTree.sub_append, hs]
      show (RTree.node d cs).sub [0 + i] = _
      rw [RTree.sub_cons, Nat.zero_add, hc]
      exact RTree.sub_nil c) (by
      rw [RTree.sub_append, hs]
      show (RTree.node d cs).sub [0 + cs.length] = _
      rw [RTree.sub_cons, Nat.zero_add, List.getElem?_eq_none (Nat.le_refl _)]
      rfl)]
    simp
theorem RTree.drawKids_eq (t : RTree V) (rep : V → List Char) : ∀ (cs : List (RTree V)) (q : List Nat)
    (k : Nat) (lines : List (List Char)),
    (∀ i c, cs[i]? = some c → t.sub (q ++ [k + i]) = some c) → t.sub (q ++ [k + cs.length]) = none →
    RTree.drawKids rep cs lines (t.seqAt q ++ [t.lastAt q]) =
      lines ++ (RTree.pathsAll k cs).map (fun p => t.lineAt rep (q ++ p))
  | [], q, k, lines, _, _ => by simp [RTree.drawKids, RTree.pathsAll]
  | c :: cs, q, k, lines, h1, h2 => by
    have hc : t.sub (q ++ [k]) = some c := h1 0 c rfl
    have hl : t.lastAt (q ++ [k]) = cs.isEmpty := by
      rw [RTree.lastAt_snoc]
      cases cs with
      | nil =>
        rw [show k + 1 = k + [c].length from rfl, h2]
        rfl
      | cons c' cs =>
        rw [h1 1 c' rfl]
        rfl
    have e := RTree.drawSub_eq t rep c (q ++ [k]) lines hc
    rw [hl, RTree.seqAt_snoc] at e
    rw [RTree.drawKids, e, RTree.drawKids_eq t rep cs q (k + 1) _ (fun i c' hc' => by
      rw [← h1 (i + 1) c' hc']; congr 3; omega) (by
      rw [← h2]; congr 3; rw [List.length_cons]; omega), RTree.pathsAll]
    simp
end

/-- all lines of a drawing -/
theorem RTree.draw_lines (t : RTree V) (rep : V → List Char) :
    t.drawSub rep [] false [] = t.paths.map (t.lineAt rep) :=
  RTree.drawSub_eq t rep t [] [] (RTree.sub_nil t)

mutual
theorem RTree.paths_pairwise : ∀ t : RTree V, t.paths.Pairwise (fun p q => lexLt p q = true)
  | .node _ cs => by
    rw [RTree.paths, List.pairwise_cons]
    refine ⟨fun p hp => ?_, RTree.pathsAll_pairwise cs 0⟩
    cases p with
    | nil => exact absurd hp (RTree.nil_not_mem_pathsAll cs 0)
    | cons i p => rfl
theorem RTree.pathsAll_pairwise : ∀ (cs : List (RTree V)) (k : Nat),
    (RTree.pathsAll k cs).Pairwise (fun p q => lexLt p q = true)
  | [], _ => by rw [RTree.pathsAll]; exact List.Pairwise.nil
  | c :: cs, k => by
    rw [RTree.pathsAll, List.pairwise_append]
    refine ⟨?_, RTree.pathsAll_pairwise cs (k + 1), ?_⟩
    · rw [List.pairwise_map]
      refine (RTree.paths_pairwise c).imp ?_
      intro p q h
      simpa [lexLt] using h
    · intro p hp q hq
      rw [List.mem_map] at hp
      obtain ⟨p, _, rfl⟩ := hp
      cases q with
      | nil => exact absurd hq (RTree.nil_not_mem_pathsAll cs _)
      | cons j q =>
        rw [RTree.mem_pathsAll] at hq
        have : k < j := by omega
        simp [lexLt, Nat.ne_of_lt this, this]
end

/-! ## Reading a drawing -/

theorem joinLines_cons (l : List Char) {ls : List (List Char)} (h : ls ≠ []) :
    joinLines (l :: ls) = l ++ '\n' :: joinLines ls := by
  cases ls with
  | nil => exact absurd rfl h
  | cons m ls => rfl

theorem append_nl_inj {a b x y : List Char} (ha : '\n' ∉ a) (hb : '\n' ∉ b)
    (h : a ++ '\n' :: x = b ++ '\n' :: y) : a = b ∧ x = y := by
  induction a generalizing b with
  | nil =>
    cases b with
    | nil => simpa using h
    | cons c b =>
      simp only [List.nil_append, List.cons_append, List.cons.injEq] at h
      exact absurd (by rw [h.1]; exact List.mem_cons_self) hb
  | cons d a ih =>
    cases b with
    | nil =>
      simp only [List.nil_append, List.cons_append, List.cons.injEq] at h
      exact absurd (by rw [← h.1]; exact List.mem_cons_self) ha
    | cons c b =>
      simp only [List.cons_append, List.cons.injEq] at h
      obtain ⟨h1, h2⟩ := ih (fun hm => ha (List.mem_cons_of_mem _ hm))
        (fun hm => hb (List.mem_cons_of_mem _ hm)) h.2
      exact ⟨by rw [h.1, h1], h2⟩

theorem joinLines_inj : ∀ {ls ms : List (List Char)}, ls ≠ [] → ms ≠ [] → (∀ l ∈ ls, '\n' ∉ l) →
    (∀ l ∈ ms, '\n' ∉ l) → joinLines ls = joinLines ms → ls = ms
  | [], _, h, _, _, _, _ => absurd rfl h
  | _ :: _, [], _, h, _, _, _ => absurd rfl h
  | [l], [m], _, _, _, _, h => by rw [joinLines, joinLines] at h; rw [h]
  | [l], m :: m' :: ms, _, _, h1, _, h => by
    exfalso
    apply h1 l List.mem_cons_self
    rw [joinLines, joinLines_cons _ (by simp)] at h
    rw [h]; simp
  | l :: l' :: ls, [m], _, _, _, h1, h => by
    exfalso
    apply h1 m List.mem_cons_self
    rw [joinLines_cons _ (by simp), joinLines] at h
    rw [← h]; simp
  | l :: l' :: ls, m :: m' :: ms, _, _, h1, h2, h => by
    rw [joinLines, joinLines_cons m (by simp)] at h
    obtain ⟨e1, e2⟩ := append_nl_inj (h1 l List.mem_cons_self) (h2 m List.mem_cons_self) h
    rw [e1, joinLines_inj (by simp) (by simp) (fun x hx => h1 x (List.mem_cons_of_mem _ hx))
      (fun x hx => h2 x (List.mem_cons_of_mem _ hx)) e2]

mutual
theorem RTree.drawSub_acc (rep : V → List Char) : ∀ (s : RTree V) (lines : List (List Char)) (b : Bool)
    (seq : List Bool), s.drawSub rep lines b seq = lines ++ s.drawSub rep [] b seq
  | .node d cs, lines, b, seq => by
    rw [RTree.drawSub, RTree.drawSub, RTree.drawKids_acc rep cs, RTree.drawKids_acc rep cs ([] ++ _)]
    simp
theorem RTree.drawKids_acc (rep : V → List Char) : ∀ (cs : List (RTree V)) (lines : List (List Char))
    (seq : List Bool), RTree.drawKids rep cs lines seq = lines ++ RTree.drawKids rep cs [] seq
  | [], lines, seq => by rw [RTree.drawKids, RTree.drawKids, List.append_nil]
  | c :: cs, lines, seq => by
    rw [RTree.drawKids, RTree.drawKids, RTree.drawSub_acc rep c, RTree.drawKids_acc rep cs (lines ++ _),
      RTree.drawKids_acc rep cs (c.drawSub rep [] cs.isEmpty seq), List.append_assoc]
end

theorem linePrefix_inj {p p' b b' : Bool} {seq : List Bool} (hs : seq ≠ []) {x y : List Char}
    (h : linePrefix p b seq ++ x = linePrefix p' b' seq ++ y) : p = p' ∧ b = b' ∧ x = y := by
  cases seq with
  | nil => exact absurd rfl hs
  | cons a seq =>
    rw [linePrefix, linePrefix, List.append_assoc, List.append_assoc, List.append_assoc,
      List.append_assoc] at h
    have h := List.append_cancel_left h
    revert h
    cases p <;> cases p' <;> cases b <;> cases b' <;> simp

mutual
theorem RTree.drawSub_inj {W : Type} (rep : V → List Char) (rep' : W → List Char) :
    ∀ (s : RTree V) (s' : RTree W) (b b' : Bool) (seq : List Bool) (r r' : List (List Char)), seq ≠ [] →
    s.drawSub rep [] b seq ++ r = s'.drawSub rep' [] b' seq ++ r' →
    b = b' ∧ s.labels rep = s'.labels rep' ∧ r = r'
  | .node d cs, .node d' cs', b, b', seq, r, r', hs, h => by
    rw [RTree.drawSub, RTree.drawSub, RTree.drawKids_acc, RTree.drawKids_acc rep' cs' ([] ++ _),
      List.nil_append, List.nil_append, List.append_assoc, List.append_assoc, List.singleton_append,
      List.singleton_append, List.cons.injEq] at h
    obtain ⟨e1, e2, e3⟩ := linePrefix_inj hs h.1
    subst e2
    have := RTree.drawKids_inj rep rep' cs cs' (seq ++ [b]) r r' (by simp) (by simpa using e1) h.2
    exact ⟨rfl, by rw [RTree.labels, RTree.labels, e3, this.1], this.2⟩
theorem RTree.drawKids_inj {W : Type} (rep : V → List Char) (rep' : W → List Char) :
    ∀ (cs : List (RTree V)) (cs' : List (RTree W)) (seq : List Bool) (r r' : List (List Char)), seq ≠ [] →
    cs.isEmpty = cs'.isEmpty →
    RTree.drawKids rep cs [] seq ++ r = RTree.drawKids rep' cs' [] seq ++ r' →
    RTree.labelsAll rep cs = RTree.labelsAll rep' cs' ∧ r = r'
  | [], [], seq, r, r', _, _, h => by
    rw [RTree.drawKids, RTree.drawKids] at h
    exact ⟨by rw [RTree.labelsAll, RTree.labelsAll], h⟩
  | [], _ :: _, _, _, _, _, h, _ => by simp at h
  | _ :: _, [], _, _, _, _, h, _ => by simp at h
  | c :: cs, c' :: cs', seq, r, r', hs, _, h => by
    rw [RTree.drawKids, RTree.drawKids, RTree.drawKids_acc, RTree.drawKids_acc rep' cs',
      List.append_assoc, List.append_assoc] at h
    obtain ⟨e1, e2, e3⟩ := RTree.drawSub_inj rep rep' c c' _ _ seq _ _ hs h
    have := RTree.drawKids_inj rep rep' cs cs' seq r r' hs e1 e3
    exact ⟨by rw [RTree.labelsAll, RTree.labelsAll, e2, this.1], this.2⟩
end

theorem RTree.draw_inj {W : Type} {rep : V → List Char} {rep' : W → List Char} {s : RTree V}
    {s' : RTree W} (hk : s.children.isEmpty = s'.children.isEmpty)
    (h : s.drawSub rep [] false [] = s'.drawSub rep' [] false []) : s.labels rep = s'.labels rep' := by
  obtain ⟨d, cs⟩ := s
  obtain ⟨d', cs'⟩ := s'
  rw [RTree.drawSub, RTree.drawSub, RTree.drawKids_acc, RTree.drawKids_acc rep' cs' ([] ++ _)] at h
  simp only [List.nil_append, List.singleton_append, List.cons.injEq, linePrefix] at h
  have := RTree.drawKids_inj rep rep' cs cs' [false] [] [] (by simp) hk (by simpa using h.2)
  rw [RTree.labels, RTree.labels, h.1, this.1]

/-- no label has a line break -/
def RTree.OneLine (rep : V → List Char) (t : RTree V) : Prop :=
  ∀ p s, t.sub p = some s → '\n' ∉ rep s.data

theorem RTree.lineAt_one {t : RTree V} {rep : V → List Char} (h : t.OneLine rep) (p : List Nat) :
    '\n' ∉ t.lineAt rep p := by
  rw [RTree.lineAt, List.mem_append]
  rintro (hm | hm)
  · by_cases hp : p = []
    · rw [if_pos hp] at hm; exact absurd hm (by simp)
    · rw [if_neg hp, List.mem_append, List.mem_append, List.mem_flatMap] at hm
      rcases hm with (⟨k, _, hm⟩ | hm) | hm
      all_goals
        revert hm
        split <;> simp
  · cases hs : t.sub p with
    | none => rw [hs] at hm; simp at hm
    | some s => rw [hs] at hm; exact h p s hs (by simpa using hm)

theorem RTree.draw_one {t : RTree V} {rep : V → List Char} (h : t.OneLine rep) :
    ∀ l ∈ t.drawSub rep [] false [], '\n' ∉ l := by
  rw [RTree.draw_lines]
  intro l hl
  rw [List.mem_map] at hl
  obtain ⟨p, _, rfl⟩ := hl
  exact RTree.lineAt_one h p

/-- the lines of a drawing, also that of a single node -/
theorem treeRepr_some {rep : V → List Char} (t : RTree V) :
    treeRepr rep rep (some t) = joinLines (t.drawSub rep [] false []) := by
  obtain ⟨d, cs⟩ := t
  rw [treeRepr]
  cases cs with
  | nil => simp [RTree.drawSub, RTree.drawKids, linePrefix, joinLines]
  | cons c cs => rfl

theorem RTree.draw_length (t : RTree V) (rep : V → List Char) :
    (t.drawSub rep [] false []).length = t.count := by
  rw [RTree.draw_lines, List.length_map, RTree.count_eq]

theorem RTree.draw_ne (t : RTree V) (rep : V → List Char) : t.drawSub rep [] false [] ≠ [] := by
  rw [RTree.draw_lines]
  obtain ⟨d, cs⟩ := t
  rw [RTree.paths]
  simp

theorem RTree.children_isEmpty (t : RTree V) : t.children.isEmpty = decide (t.count = 1) := by
  obtain ⟨d, cs⟩ := t
  cases cs with
  | nil => rfl
  | cons c cs =>
    have h1 := RTree.height_lt_count c
    have h2 := RTree.countAll_add cs (1 + c.count)
    have : (RTree.node d (c :: cs)).count ≠ 1 := by
      rw [RTree.count, RTree.countAll, h2]; omega
    simp [RTree.children, this]

theorem treeRepr_inj {W : Type} {rep : V → List Char} {rep' : W → List Char} {s : RTree V} {s' : RTree W}
    (h1 : s.OneLine rep) (h2 : s'.OneLine rep')
    (h : treeRepr rep rep (some s) = treeRepr rep' rep' (some s')) : s.labels rep = s'.labels rep' := by
  rw [treeRepr_some, treeRepr_some] at h
  have e := joinLines_inj (RTree.draw_ne s rep) (RTree.draw_ne s' rep') (RTree.draw_one h1)
    (RTree.draw_one h2) h
  refine RTree.draw_inj ?_ e
  rw [RTree.children_isEmpty, RTree.children_isEmpty, ← RTree.draw_length s rep,
    ← RTree.draw_length s' rep', e]

end Extra
