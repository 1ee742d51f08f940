import Verif.Trees.TreeIterationSpec
import Mathlib.Data.List.Flatten
import Mathlib.Data.List.Nodup
import Mathlib.Data.List.Perm.Basic

/-!
# The walk over a growing tree: the queue of the generator is the specification (no property content)
-/

set_option linter.unusedSectionVars false

namespace Extra
variable {N : Type} [LinearOrder N]

/-! ## Levels -/

/-- the value at the root -/
def BTree.top : BTree N → List N
  | .nil => []
  | .node _ v _ => [v]

/-- the values below a value -/
def BTree.kids (x : N) : BTree N → List N
  | .nil => []
  | .node l w r => if x = w then l.top ++ r.top else l.kids x ++ r.kids x

theorem inorder_mid (l r : BTree N) (w : N) : (BTree.node l w r).inorder = l.inorder ++ w :: r.inorder := by
  simp [BTree.inorder]

theorem row_zero (t : BTree N) : t.row 0 = t.top := by cases t <;> rfl

theorem kids_absent {x : N} {t : BTree N} (h : x ∉ t.inorder) : t.kids x = [] := by
  induction t with
  | nil => rfl
  | node l w r ihl ihr =>
    simp only [inorder_mid, List.mem_append, List.mem_cons, not_or] at h
    simp only [BTree.kids]
    rw [if_neg (by grind), ihl (by grind), ihr (by grind)]; rfl

theorem top_mem {x : N} {t : BTree N} (h : x ∈ t.top) : x ∈ t.inorder := by
  cases t with
  | nil => simp [BTree.top] at h
  | node l w r => simp only [BTree.top, List.mem_singleton] at h; simp [BTree.inorder, h]

theorem kids_mem {x y : N} {t : BTree N} (h : y ∈ t.kids x) : y ∈ t.inorder := by
  induction t with
  | nil => simp [BTree.kids] at h
  | node l w r ihl ihr =>
    simp only [BTree.kids] at h
    have := @top_mem N _ y l
    have := @top_mem N _ y r
    simp only [inorder_mid, List.mem_append, List.mem_cons]
    split at h <;> simp only [List.mem_append] at h <;> grind

theorem row_mem {x : N} {t : BTree N} {k : Nat} (h : x ∈ t.row k) : x ∈ t.inorder := by
  induction t generalizing k with
  | nil => cases k <;> simp [BTree.row] at h
  | node l w r ihl ihr =>
    cases k with
    | zero => simp only [BTree.row, List.mem_singleton] at h; simp [BTree.inorder, h]
    | succ k =>
      simp only [BTree.row, List.mem_append] at h
      simp only [inorder_mid, List.mem_append, List.mem_cons]
      rcases h with h | h
      · exact .inl (ihl h)
      · exact .inr (.inr (ihr h))

theorem nodup_parts {l r : BTree N} {w : N} (h : (BTree.node l w r).inorder.Nodup) :
    l.inorder.Nodup ∧ r.inorder.Nodup ∧ w ∉ l.inorder ∧ w ∉ r.inorder ∧ ∀ x ∈ l.inorder, x ∉ r.inorder := by
  simp only [inorder_mid, List.nodup_append, List.nodup_cons, List.mem_cons] at h
  grind

theorem row_succ {t : BTree N} (hn : t.inorder.Nodup) (k : Nat) :
    t.row (k + 1) = (t.row k).flatMap fun x => t.kids x := by
  induction t generalizing k with
  | nil => cases k <;> rfl
  | node l w r ihl ihr =>
    obtain ⟨h1, h2, h3, h4, h5⟩ := nodup_parts hn
    cases k with
    | zero => simp [BTree.row, row_zero, BTree.kids]
    | succ k =>
      have el : (l.row k).flatMap (fun x => (BTree.node l w r).kids x) = (l.row k).flatMap fun x => l.kids x := by
        refine List.flatMap_congr fun x hx => ?_
        have hx := row_mem hx
        simp only [BTree.kids]
        rw [if_neg (by rintro rfl; exact h3 hx), kids_absent (h5 x hx), List.append_nil]
      have er : (r.row k).flatMap (fun x => (BTree.node l w r).kids x) = (r.row k).flatMap fun x => r.kids x := by
        refine List.flatMap_congr fun x hx => ?_
        have hx := row_mem hx
        simp only [BTree.kids]
        rw [if_neg (by rintro rfl; exact h4 hx), kids_absent (fun hc => h5 x hc hx), List.nil_append]
      rw [BTree.row, ihl h1, ihr h2, BTree.row, List.flatMap_append, el, er]

theorem rows_perm (t : BTree N) (m : Nat) (h : t.total ≤ m) :
    ((List.range m).flatMap fun k => t.row k).Perm t.inorder := by
  induction t generalizing m with
  | nil => simp [BTree.row, BTree.inorder]
  | node l w r ihl ihr =>
    obtain ⟨m, rfl⟩ : ∃ n, m = n + 1 := ⟨m - 1, by simp only [BTree.total] at h; omega⟩
    simp only [BTree.total] at h
    rw [List.range_succ_eq_map, List.flatMap_cons, List.flatMap_map]
    simp only [BTree.row, inorder_mid]
    refine (List.Perm.cons w ((List.flatMap_append_perm _ _ _).symm.trans
      ((ihl m (by omega)).append (ihr m (by omega))))).trans ?_
    exact List.perm_middle.symm

theorem byLevel_perm (t : BTree N) : t.byLevel.Perm t.inorder := rows_perm t _ le_rfl

theorem mem_byLevel {t : BTree N} {x : N} : x ∈ t.byLevel ↔ x ∈ t.inorder := (byLevel_perm t).mem_iff

theorem total_length (t : BTree N) : t.total = t.inorder.length := by
  induction t with
  | nil => rfl
  | node l w r ihl ihr => simp only [BTree.total, ihl, ihr, inorder_mid, List.length_append, List.length_cons]; omega

theorem row_nil (t : BTree N) (k : Nat) (h : t.total ≤ k) : t.row k = [] := by
  induction t generalizing k with
  | nil => cases k <;> rfl
  | node l w r ihl ihr =>
    simp only [BTree.total] at h
    obtain ⟨k, rfl⟩ : ∃ n, k = n + 1 := ⟨k - 1, by omega⟩
    rw [BTree.row, ihl k (by omega), ihr k (by omega)]; rfl

/-! ## A new leaf -/

theorem plant_top (v : N) {t : BTree N} (h : t ≠ .nil) : (t.plant v).top = t.top := by
  cases t with
  | nil => exact absurd rfl h
  | node l w r => rw [BTree.plant]; split_ifs <;> rfl

theorem plant_perm {v : N} {t : BTree N} (h : v ∉ t.inorder) : (t.plant v).inorder.Perm (v :: t.inorder) := by
  induction t with
  | nil => simp [BTree.plant, BTree.inorder]
  | node l w r ihl ihr =>
    simp only [inorder_mid, List.mem_append, List.mem_cons, not_or] at h
    rw [BTree.plant]
    rcases lt_trichotomy v w with e | e | e
    · rw [if_pos e]
      rw [inorder_mid, inorder_mid]
      exact (ihl h.1).append_right _
    · exact absurd e h.2.1
    · rw [if_neg e.not_gt, if_pos e]
      simp only [inorder_mid]
      refine (List.Perm.append_left _ (List.Perm.cons _ (ihr h.2.2))).trans ?_
      refine (List.Perm.append_left _ (List.Perm.swap _ _ _)).trans List.perm_middle

theorem under_mem (v : N) (p : N) {t : BTree N} (h : t ≠ .nil) : t.under v p ∈ t.inorder := by
  induction t generalizing p with
  | nil => exact absurd rfl h
  | node l w r ihl ihr =>
    simp only [BTree.under, inorder_mid, List.mem_append, List.mem_cons]
    split
    · cases l with
      | nil => simp [BTree.under]
      | node a u b => exact .inl (ihl w (by simp))
    · cases r with
      | nil => simp [BTree.under]
      | node a u b => exact .inr (.inr (ihr w (by simp)))

/-- a new leaf changes what is below one value only -/
theorem plant_kids {v : N} (p : N) {t : BTree N} (hv : v ∉ t.inorder) (hn : t.inorder.Nodup) (h : t ≠ .nil) :
    (∀ x, x ≠ t.under v p → (t.plant v).kids x = t.kids x) ∧
    ((t.plant v).kids (t.under v p) = v :: t.kids (t.under v p) ∨
      (t.plant v).kids (t.under v p) = t.kids (t.under v p) ++ [v]) := by
  induction t generalizing p with
  | nil => exact absurd rfl h
  | node l w r ihl ihr =>
    obtain ⟨h1, h2, h3, h4, h5⟩ := nodup_parts hn
    simp only [inorder_mid, List.mem_append, List.mem_cons, not_or] at hv
    obtain ⟨hl, hw, hr⟩ := hv
    have hleaf : ∀ x, (BTree.node .nil v .nil : BTree N).kids x = [] := fun x => by
      simp [BTree.kids, BTree.top]
    rw [BTree.plant, BTree.under]
    rcases lt_trichotomy v w with e | e | e
    · rw [if_pos e, if_pos e]
      cases l with
      | nil =>
        simp only [BTree.under, BTree.plant, BTree.kids, if_true, BTree.top, List.nil_append]
        refine ⟨fun x hx => ?_, .inl rfl⟩
        rw [if_neg hx, if_neg hx]; simp
      | node a u b =>
        obtain ⟨i1, i2⟩ := ihl w hl h1 (by simp)
        have hp := under_mem v w (t := .node a u b) (by simp)
        have hpw : (BTree.node a u b).under v w ≠ w := fun hc => h3 (hc ▸ hp)
        have hpr := kids_absent (h5 _ hp)
        refine ⟨fun x hx => ?_, ?_⟩
        · rw [BTree.kids, BTree.kids, plant_top v (by simp), i1 x hx]
        · rw [BTree.kids, BTree.kids, if_neg hpw, if_neg hpw, hpr, List.append_nil, List.append_nil]
          exact i2
    · exact absurd e hw
    · rw [if_neg e.not_gt, if_pos e, if_neg e.not_gt]
      cases r with
      | nil =>
        simp only [BTree.under, BTree.plant, BTree.kids, if_true, BTree.top, List.append_nil]
        refine ⟨fun x hx => ?_, .inr trivial⟩
        rw [if_neg hx, if_neg hx]; simp
      | node a u b =>
        obtain ⟨i1, i2⟩ := ihr w hr h2 (by simp)
        have hp := under_mem v w (t := .node a u b) (by simp)
        have hpw : (BTree.node a u b).under v w ≠ w := fun hc => h4 (hc ▸ hp)
        have hpl := kids_absent (fun hc => h5 _ hc hp)
        refine ⟨fun x hx => ?_, ?_⟩
        · rw [BTree.kids, BTree.kids, plant_top v (by simp), i1 x hx]
        · rw [BTree.kids, BTree.kids, if_neg hpw, if_neg hpw, hpl, List.nil_append, List.nil_append]
          exact i2

/-! ## The walk -/

/-- not lost -/
def keep (lost xs : List N) : List N := xs.filter fun x => decide (x ∉ lost)

theorem mem_keep {lost xs : List N} {x : N} : x ∈ keep lost xs ↔ x ∈ xs ∧ x ∉ lost := by
  simp [keep]

/-- the levels without the lost values -/
def keepRow (w : Walk N) (k : Nat) : List N := keep w.lost (w.tree.row k)

/-- the generator as a queue of values: the value last given, what is left of its level, and what is known of
the next level -/
structure Queued (w : Walk N) (v : N) (rest next : List N) : Prop where
  nodup : w.tree.inorder.Nodup
  running : w.over = false
  lostIn : ∀ x ∈ w.lost, x ∈ w.tree.inorder
  lostBelow : ∀ p x, x ∈ w.tree.kids p → x ∈ w.lost → p ∈ w.given.dropLast ∨ p ∈ w.lost
  lostClosed : ∀ p x, p ∈ w.lost → x ∈ w.tree.kids p → x ∈ w.lost
  place : ∃ k E, w.given = (List.range k).flatMap (keepRow w) ++ E ++ [v] ∧ keepRow w k = E ++ v :: rest ∧
    next = E.flatMap fun x => keep w.lost (w.tree.kids x)

theorem keepRow_succ {w : Walk N} (hn : w.tree.inorder.Nodup)
    (hc : ∀ p x, p ∈ w.lost → x ∈ w.tree.kids p → x ∈ w.lost) (k : Nat) :
    keepRow w (k + 1) = (keepRow w k).flatMap fun x => keep w.lost (w.tree.kids x) := by
  unfold keepRow
  rw [row_succ hn]
  generalize w.tree.row k = xs
  induction xs with
  | nil => rfl
  | cons x xs ih =>
    rw [List.flatMap_cons, keep, List.filter_append]
    by_cases hx : x ∈ w.lost
    · have e1 : keep w.lost (x :: xs) = keep w.lost xs := by simp [keep, hx]
      have e2 : (w.tree.kids x).filter (fun y => decide (y ∉ w.lost)) = [] := by
        rw [List.filter_eq_nil_iff]
        intro y hy
        simpa using hc x y hx hy
      rw [e1, e2, List.nil_append]
      exact ih
    · have e1 : keep w.lost (x :: xs) = x :: keep w.lost xs := by simp [keep, hx]
      rw [e1, List.flatMap_cons]
      exact congrArg _ ih

theorem keepRow_stays {w : Walk N} (hn : w.tree.inorder.Nodup)
    (hc : ∀ p x, p ∈ w.lost → x ∈ w.tree.kids p → x ∈ w.lost) {k : Nat} (h : keepRow w k = []) (j : Nat) :
    keepRow w (k + j) = [] := by
  induction j with
  | zero => exact h
  | succ j ih => rw [← Nat.add_assoc, keepRow_succ hn hc, ih]; rfl

/-- the levels split after the `k`-th -/
theorem keep_byLevel {w : Walk N} {k : Nat} (h : keepRow w k ≠ []) :
    keep w.lost w.tree.byLevel = (List.range k).flatMap (keepRow w) ++ keepRow w k ++
      (List.range (w.tree.total - (k + 1))).flatMap fun j => keepRow w (k + 1 + j) := by
  have hk : k < w.tree.total := by
    by_contra hc
    exact h (by rw [keepRow, row_nil _ _ (by omega)]; rfl)
  obtain ⟨m, hm⟩ : ∃ m, w.tree.total = k + 1 + m := ⟨_, (Nat.add_sub_of_le hk).symm⟩
  rw [BTree.byLevel, hm, keep, List.filter_flatMap, List.range_add, List.flatMap_append, List.range_succ,
    List.flatMap_append, List.flatMap_map, Nat.add_sub_cancel_left]
  simp only [List.flatMap_cons, List.flatMap_nil, List.append_nil]
  rfl

theorem find_next {xs lost G R : List N} {b : N} (hn : xs.Nodup) (h : keep lost xs = G ++ b :: R) :
    xs.find? (fun v => decide (v ∉ G ∧ v ∉ lost)) = some b := by
  have e : xs.find? (fun v => decide (v ∉ G ∧ v ∉ lost)) = (keep lost xs).find? fun v => decide (v ∉ G) := by
    rw [keep, List.find?_filter]
    congr 1
    funext v
    simp [and_comm]
  have hd : (G ++ b :: R).Nodup := h ▸ hn.filter _
  rw [e, h, List.find?_append, List.find?_eq_none.2 (by simp)]
  have : b ∉ G := fun hc => by
    rw [List.nodup_append] at hd
    exact hd.2.2 b hc b (by simp) rfl
  simp [this]

theorem find_end {xs lost G : List N} (h : keep lost xs = G) :
    xs.find? (fun v => decide (v ∉ G ∧ v ∉ lost)) = none := by
  rw [List.find?_eq_none]
  intro x hx
  have : x ∉ lost → x ∈ G := fun hl => h ▸ mem_keep.2 ⟨hx, hl⟩
  simp only [decide_eq_true_eq, not_and, not_not]
  intro hG
  by_contra hc
  exact hG (this hc)

section
variable {w : Walk N} {v : N} {rest next : List N}

theorem Queued.levelNodup (q : Queued w v rest next) : w.tree.byLevel.Nodup :=
  (byLevel_perm _).nodup_iff.2 q.nodup

/-- what has been given is the beginning of the levels without the lost values -/
theorem Queued.prefix (q : Queued w v rest next) : ∃ R, keep w.lost w.tree.byLevel = w.given ++ R := by
  obtain ⟨k, E, h1, h2, _⟩ := q.place
  refine ⟨rest ++ (List.range (w.tree.total - (k + 1))).flatMap fun j => keepRow w (k + 1 + j), ?_⟩
  rw [keep_byLevel (k := k) (by rw [h2]; simp), h1, h2]
  simp only [List.append_assoc, List.cons_append, List.nil_append]

theorem Queued.givenNodup (q : Queued w v rest next) : w.given.Nodup := by
  obtain ⟨R, h⟩ := q.prefix
  have := q.levelNodup.filter fun x => decide (x ∉ w.lost)
  rw [show w.tree.byLevel.filter (fun x => decide (x ∉ w.lost)) = w.given ++ R from h] at this
  exact (List.nodup_append.1 this).1

/-- nothing below the value last given is lost -/
theorem Queued.kids (q : Queued w v rest next) : keep w.lost (w.tree.kids v) = w.tree.kids v := by
  obtain ⟨k, E, h1, h2, _⟩ := q.place
  have hv : v ∉ w.lost := (mem_keep.1 (show v ∈ keepRow w k by rw [h2]; simp)).2
  have hg := q.givenNodup
  rw [keep, List.filter_eq_self]
  intro x hx
  simp only [decide_eq_true_eq]
  intro hc
  rcases q.lostBelow v x hx hc with h | h
  · rw [h1, List.dropLast_concat] at h
    rw [h1, List.nodup_append] at hg
    exact hg.2.2 v h v (by simp) rfl
  · exact hv h

theorem Queued.nextLevel (q : Queued w v [] next) : ∃ k, w.given = (List.range (k + 1)).flatMap (keepRow w) ∧
    keepRow w k ≠ [] ∧ keepRow w (k + 1) = next ++ w.tree.kids v := by
  obtain ⟨k, E, h1, h2, h3⟩ := q.place
  refine ⟨k, ?_, by rw [h2]; simp, ?_⟩
  · rw [h1, List.range_succ, List.flatMap_append, List.append_assoc]
    simp [h2]
  · rw [keepRow_succ q.nodup q.lostClosed, h2, List.flatMap_append, ← h3]
    simp [q.kids]

theorem Queued.step_same {b : N} (q : Queued w v (b :: rest) next) :
    ∃ w', w.next = (.item b, w') ∧ Queued w' b rest (next ++ w.tree.kids v) := by
  obtain ⟨k, E, h1, h2, h3⟩ := q.place
  have hb := keep_byLevel (w := w) (k := k) (by rw [h2]; simp)
  rw [h2] at hb
  have hb' : keep w.lost w.tree.byLevel = w.given ++ b :: (rest ++
      (List.range (w.tree.total - (k + 1))).flatMap fun j => keepRow w (k + 1 + j)) := by
    rw [hb, h1]; simp
  refine ⟨{ w with given := w.given ++ [b] }, ?_, ⟨q.nodup, q.running, q.lostIn, ?_, q.lostClosed, k, E ++ [v], ?_, ?_, ?_⟩⟩
  · rw [Walk.next, q.running, find_next q.levelNodup hb']; rfl
  · intro p x hx hl
    simp only [List.dropLast_concat]
    exact (q.lostBelow p x hx hl).imp_left fun h => List.dropLast_subset _ h
  · simp only [h1, List.append_assoc]; rfl
  · simp only [List.append_assoc]; exact h2
  · rw [List.flatMap_append, ← h3]; simp [q.kids]

theorem Queued.step_down {b : N} {rest' : List N} (q : Queued w v [] next) (h : next ++ w.tree.kids v = b :: rest') :
    ∃ w', w.next = (.item b, w') ∧ Queued w' b rest' [] := by
  obtain ⟨k, h1, h2, h3⟩ := q.nextLevel
  rw [h] at h3
  have hb := keep_byLevel (w := w) (k := k + 1) (by rw [h3]; simp)
  rw [h3, ← h1, List.append_assoc, List.cons_append] at hb
  refine ⟨{ w with given := w.given ++ [b] }, ?_, ⟨q.nodup, q.running, q.lostIn, ?_, q.lostClosed, k + 1, [], ?_, ?_, ?_⟩⟩
  · rw [Walk.next, q.running, find_next q.levelNodup hb]; rfl
  · intro p x hx hl
    simp only [List.dropLast_concat]
    exact (q.lostBelow p x hx hl).imp_left fun h => List.dropLast_subset _ h
  · simp only [h1, List.append_nil]; rfl
  · exact h3
  · rfl

theorem Queued.step_end (q : Queued w v [] next) (h : next ++ w.tree.kids v = []) :
    w.next = (.stop, { w with over := true }) := by
  obtain ⟨k, h1, h2, h3⟩ := q.nextLevel
  rw [h] at h3
  have hb := keep_byLevel h2
  have e : ((List.range (w.tree.total - (k + 1))).flatMap fun j => keepRow w (k + 1 + j)) = [] := by
    rw [List.flatMap_eq_nil_iff]
    intro j _
    exact keepRow_stays q.nodup q.lostClosed h3 j
  rw [e, List.append_nil] at hb
  have hb' : keep w.lost w.tree.byLevel = w.given := by
    rw [hb, h1, List.range_succ, List.flatMap_append]; simp
  rw [Walk.next, q.running, find_end hb']; rfl

/-- the first value -/
theorem walk_start {w : Walk N} {l r : BTree N} {v : N} (ht : w.tree = .node l v r) (hn : w.tree.inorder.Nodup)
    (hg : w.given = []) (hl : w.lost = []) (ho : w.over = false) :
    ∃ w', w.next = (.item v, w') ∧ Queued w' v [] [] := by
  have e0 : keepRow w 0 = [v] := by rw [keepRow, ht, hl]; rfl
  have hb := keep_byLevel (w := w) (k := 0) (by rw [e0]; simp)
  rw [e0] at hb
  simp only [List.range_zero, List.flatMap_nil, List.nil_append, List.cons_append] at hb
  refine ⟨{ w with given := w.given ++ [v] }, ?_, ⟨hn, ho, ?_, ?_, ?_, 0, [], ?_, ?_, rfl⟩⟩
  · have := find_next (G := []) ((byLevel_perm _).nodup_iff.2 hn) hb
    rw [Walk.next, ho, hg, this]; rfl
  · intro x hx; rw [show (_ : List N) = _ from hl] at hx; cases hx
  · intro p x _ hx; rw [show (_ : List N) = _ from hl] at hx; cases hx
  · intro p x hx; rw [show (_ : List N) = _ from hl] at hx; cases hx
  · simp [hg]
  · exact e0

theorem walk_empty {w : Walk N} (ht : w.tree = .nil) : w.next = (.stop, { w with over := true }) ∨
    (w.over = true ∧ w.next = (.stop, w)) := by
  cases ho : w.over with
  | true => right; rw [Walk.next, ho]; exact ⟨rfl, rfl⟩
  | false => left; rw [Walk.next, ho, ht]; rfl

/-- a value is put in meanwhile -/
theorem Queued.put (q : Queued w v rest next) (u : N) : Queued (w.put u) v rest next := by
  unfold Walk.put
  have hne : w.tree ≠ .nil := by
    intro hc
    obtain ⟨k, E, h1, h2, h3⟩ := q.place
    rw [keepRow, hc] at h2
    cases k <;> simp [BTree.row, keep] at h2
  split_ifs with hu hp
  · exact q
  all_goals
    rw [mem_byLevel] at hu
    have hperm := plant_perm hu
    have hn' : (w.tree.plant u).inorder.Nodup := hperm.nodup_iff.2 (List.nodup_cons.2 ⟨hu, q.nodup⟩)
    obtain ⟨K1, K2⟩ := plant_kids u hu q.nodup hne
    have hkid : ∀ p x, x ∈ (w.tree.plant u).kids p → x = u ∧ p = w.tree.under u u ∨ x ∈ w.tree.kids p := by
      intro p x hx
      by_cases hpp : p = w.tree.under u u
      · subst hpp
        rcases K2 with e | e <;> rw [e] at hx <;> simp at hx <;> grind
      · rw [K1 p hpp] at hx; exact .inr hx
    have hku : ∀ p, u ∉ w.tree.kids p := fun p hc => hu (kids_mem hc)
    have hul : u ∉ w.lost := fun hc => hu (q.lostIn _ hc)
    obtain ⟨k, E, h1, h2, h3⟩ := q.place
  · -- the new value is lost
    have hk : ∀ x, keep (u :: w.lost) ((w.tree.plant u).kids x) = keep w.lost (w.tree.kids x) := by
      intro x
      have e0 : keep (u :: w.lost) (w.tree.kids x) = keep w.lost (w.tree.kids x) := by
        refine List.filter_congr fun y hy => ?_
        have : y ≠ u := fun hc => hku x (hc ▸ hy)
        simp [this]
      by_cases hx : x = w.tree.under u u
      · subst hx
        rw [← e0]
        rcases K2 with e | e <;> rw [e] <;> simp [keep]
      · rw [K1 x hx, e0]
    have hc' : ∀ p x, p ∈ u :: w.lost → x ∈ (w.tree.plant u).kids p → x ∈ u :: w.lost := by
      intro p x hp' hx
      rcases hkid p x hx with ⟨rfl, _⟩ | hx'
      · simp
      · rcases List.mem_cons.1 hp' with hp' | hp'
        · rw [hp', kids_absent hu] at hx'; cases hx'
        · exact List.mem_cons_of_mem _ (q.lostClosed p x hp' hx')
    have hrow : ∀ j, keepRow { w with tree := w.tree.plant u, lost := u :: w.lost } j = keepRow w j := by
      intro j
      induction j with
      | zero =>
        simp only [keepRow, row_zero, plant_top u hne]
        refine List.filter_congr fun y hy => ?_
        have : y ≠ u := fun hc => hu (top_mem (hc ▸ hy))
        simp [this]
      | succ j ih =>
        rw [keepRow_succ (w := { w with tree := w.tree.plant u, lost := u :: w.lost }) hn' hc', ih,
          keepRow_succ q.nodup q.lostClosed]
        exact List.flatMap_congr fun x _ => hk x
    have hrow' : keepRow { w with tree := w.tree.plant u, lost := u :: w.lost } = keepRow w := funext hrow
    refine ⟨hn', q.running, ?_, ?_, hc', k, E, ?_, ?_, ?_⟩
    · intro x hx
      refine hperm.mem_iff.2 ?_
      rcases List.mem_cons.1 hx with rfl | hx
      · simp
      · exact List.mem_cons_of_mem _ (q.lostIn x hx)
    · intro p x hx hl
      simp only [List.mem_append] at hp
      rcases hkid p x hx with ⟨rfl, rfl⟩ | hx'
      · exact hp.imp_right (List.mem_cons_of_mem _)
      · rcases List.mem_cons.1 hl with hl | hl
        · exact absurd (hl ▸ hx') (hku p)
        · exact (q.lostBelow p x hx' hl).imp_right (List.mem_cons_of_mem _)
    · rw [hrow']; exact h1
    · rw [hrow']; exact h2
    · rw [h3]; exact List.flatMap_congr fun x _ => (hk x).symm
  · -- the new value will come
    simp only [List.mem_append, not_or] at hp
    have hk : ∀ x, x ∈ w.given.dropLast → (w.tree.plant u).kids x = w.tree.kids x := fun x hx =>
      K1 x fun hc => hp.1 (hc ▸ hx)
    have hc' : ∀ p x, p ∈ w.lost → x ∈ (w.tree.plant u).kids p → x ∈ w.lost := by
      intro p x hp' hx
      rw [K1 p fun hc => hp.2 (hc ▸ hp')] at hx
      exact q.lostClosed p x hp' hx
    have hd : w.given.dropLast = (List.range k).flatMap (keepRow w) ++ E := by
      rw [h1, List.dropLast_concat]
    have hrow : ∀ j ≤ k, keepRow { w with tree := w.tree.plant u } j = keepRow w j := by
      intro j hj
      induction j with
      | zero => simp only [keepRow, row_zero, plant_top u hne]
      | succ j ih =>
        rw [keepRow_succ (w := { w with tree := w.tree.plant u }) hn' hc', ih (by omega),
          keepRow_succ q.nodup q.lostClosed]
        refine List.flatMap_congr fun x hx => ?_
        have : x ∈ w.given.dropLast := by
          rw [hd]
          exact List.mem_append_left _ (List.mem_flatMap.2 ⟨j, List.mem_range.2 (by omega), hx⟩)
        simp only [hk x this]
    refine ⟨hn', q.running, ?_, ?_, hc', k, E, ?_, ?_, ?_⟩
    · intro x hx
      exact hperm.mem_iff.2 (List.mem_cons_of_mem _ (q.lostIn x hx))
    · intro p x hx hl
      rcases hkid p x hx with ⟨rfl, rfl⟩ | hx
      · exact absurd hl hul
      · exact q.lostBelow p x hx hl
    · have : (List.range k).flatMap (keepRow { w with tree := w.tree.plant u }) = (List.range k).flatMap (keepRow w) :=
        List.flatMap_congr fun j hj => hrow j (Nat.le_of_lt (List.mem_range.1 hj))
      rw [this]; exact h1
    · rw [hrow k le_rfl]; exact h2
    · rw [h3]
      refine List.flatMap_congr fun x hx => ?_
      have : x ∈ w.given.dropLast := by rw [hd]; exact List.mem_append_right _ hx
      simp only [hk x this]

end

end Extra
