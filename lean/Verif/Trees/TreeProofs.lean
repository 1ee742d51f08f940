import Verif.Trees.TreeSpec
import Mathlib.Tactic.Ring
import Mathlib.Data.List.Nodup
import Batteries.Data.List.Lemmas

/-!
# Helper lemmas for `Tree` and `BinaryTree`
-/

set_option linter.unusedSectionVars false

namespace Extra
variable {V : Type}

/-! ## Counting -/

mutual
/-- all paths of a tree, depth first -/
def RTree.paths : RTree V → List (List Nat)
  | .node _ cs => [] :: RTree.pathsAll 0 cs
def RTree.pathsAll : Nat → List (RTree V) → List (List Nat)
  | _, [] => []
  | i, c :: cs => c.paths.map (i :: ·) ++ RTree.pathsAll (i + 1) cs
end

theorem RTree.sub_cons (d : V) (cs : List (RTree V)) (i : Nat) (p : List Nat) :
    (RTree.node d cs).sub (i :: p) = (cs[i]?).bind (fun c => c.sub p) := by
  rw [RTree.sub]; cases cs[i]? <;> rfl

theorem RTree.sub_nil (t : RTree V) : t.sub [] = some t := by cases t; rfl

mutual
theorem RTree.mem_paths : ∀ (t : RTree V) (p : List Nat), p ∈ t.paths ↔ (t.sub p).isSome
  | .node d cs, [] => by simp [RTree.paths, RTree.sub]
  | .node d cs, i :: p => by
    rw [RTree.paths, List.mem_cons, RTree.sub_cons, RTree.mem_pathsAll]
    simp
theorem RTree.mem_pathsAll : ∀ (cs : List (RTree V)) (k : Nat) (i : Nat) (p : List Nat),
    i :: p ∈ RTree.pathsAll k cs ↔ k ≤ i ∧ ((cs[i - k]?).bind (fun c => c.sub p)).isSome
  | [], k, i, p => by simp [RTree.pathsAll]
  | c :: cs, k, i, p => by
    rw [RTree.pathsAll, List.mem_append, RTree.mem_pathsAll cs]
    have h1 := RTree.mem_paths c p
    simp only [List.mem_map, List.cons.injEq]
    by_cases hk : k = i
    · subst hk
      have : ¬ (k + 1 ≤ k) := by omega
      simp only [this, false_and, or_false, true_and, exists_eq_right, le_refl, Nat.sub_self,
        List.getElem?_cons_zero, Option.bind_some]
      exact h1
    · by_cases hlt : k + 1 ≤ i
      · have : i - k = (i - (k + 1)) + 1 := by omega
        rw [this, List.getElem?_cons_succ]
        simp [hk, hlt, Nat.le_of_succ_le hlt]
      · have : ¬ k ≤ i := by omega
        simp [hk, hlt, this]
end

theorem RTree.nil_not_mem_pathsAll : ∀ (cs : List (RTree V)) (k : Nat), [] ∉ RTree.pathsAll k cs
  | [], k => by simp [RTree.pathsAll]
  | c :: cs, k => by simp [RTree.pathsAll, RTree.nil_not_mem_pathsAll cs]

mutual
theorem RTree.paths_nodup : ∀ t : RTree V, t.paths.Nodup
  | .node d cs => by
    rw [RTree.paths, List.nodup_cons]
    exact ⟨RTree.nil_not_mem_pathsAll cs 0, RTree.pathsAll_nodup cs 0⟩
theorem RTree.pathsAll_nodup : ∀ (cs : List (RTree V)) (k : Nat), (RTree.pathsAll k cs).Nodup
  | [], k => by simp [RTree.pathsAll]
  | c :: cs, k => by
    rw [RTree.pathsAll, List.nodup_append]
    refine ⟨(RTree.paths_nodup c).map (fun a b h => (List.cons.inj h).2), RTree.pathsAll_nodup cs _, ?_⟩
    intro a ha b hb e
    subst e
    obtain ⟨q, _, rfl⟩ := List.mem_map.1 ha
    have := ((RTree.mem_pathsAll cs (k + 1) k q).1 hb).1
    omega
end

mutual
theorem RTree.count_eq : ∀ t : RTree V, t.count = t.paths.length
  | .node d cs => by
    rw [RTree.count, RTree.paths, RTree.countAll_eq cs 0 1, List.length_cons]; omega
theorem RTree.countAll_eq : ∀ (cs : List (RTree V)) (k n : Nat),
    RTree.countAll cs n = n + (RTree.pathsAll k cs).length
  | [], k, n => by simp [RTree.countAll, RTree.pathsAll]
  | c :: cs, k, n => by
    rw [RTree.countAll, RTree.pathsAll, RTree.countAll_eq cs (k + 1), RTree.count_eq c]
    simp; omega
end

mutual
theorem RTree.sub_length_le : ∀ (t : RTree V) (p : List Nat), (t.sub p).isSome → p.length ≤ t.height
  | .node d cs, [], _ => by simp
  | .node d cs, i :: p, h => by
    rw [RTree.sub_cons] at h
    rw [RTree.height, List.length_cons]
    exact (RTree.heightAll_le cs 0).2 i p h
theorem RTree.heightAll_le : ∀ (cs : List (RTree V)) (h0 : Nat), h0 ≤ RTree.heightAll cs h0 ∧
    ∀ (i : Nat) (p : List Nat), ((cs[i]?).bind (fun c : RTree V => c.sub p)).isSome → p.length + 1 ≤ RTree.heightAll cs h0
  | [], h0 => by simp [RTree.heightAll]
  | c :: cs, h0 => by
    rw [RTree.heightAll]
    obtain ⟨h1, h2⟩ := RTree.heightAll_le cs (max h0 (1 + c.height))
    refine ⟨by omega, fun i p h => ?_⟩
    cases i with
    | zero =>
      have := RTree.sub_length_le c p (by simpa using h)
      omega
    | succ i => exact h2 i p (by simpa using h)
end

mutual
theorem RTree.sub_height : ∀ t : RTree V, ∃ p, (t.sub p).isSome ∧ p.length = t.height
  | .node d cs => by
    rcases RTree.heightAll_reached cs 0 with h | ⟨i, p, h1, h2⟩
    · exact ⟨[], by simp [RTree.sub_nil], by rw [RTree.height, h]; rfl⟩
    · exact ⟨i :: p, by rw [RTree.sub_cons]; exact h1, by rw [RTree.height, ← h2]; rfl⟩
theorem RTree.heightAll_reached : ∀ (cs : List (RTree V)) (h0 : Nat),
    RTree.heightAll cs h0 = h0 ∨ ∃ (i : Nat) (p : List Nat), ((cs[i]?).bind (fun c : RTree V => c.sub p)).isSome ∧
      p.length + 1 = RTree.heightAll cs h0
  | [], h0 => by simp [RTree.heightAll]
  | c :: cs, h0 => by
    rw [RTree.heightAll]
    rcases RTree.heightAll_reached cs (max h0 (1 + c.height)) with h | ⟨i, p, h1, h2⟩
    · by_cases hc : 1 + c.height ≤ h0
      · left; omega
      · obtain ⟨p, h1, h2⟩ := RTree.sub_height c
        exact Or.inr ⟨0, p, by simpa using h1, by omega⟩
    · exact Or.inr ⟨i + 1, p, by simpa using h1, h2⟩
end

/-- the paths of the leaves -/
def RTree.isLeafB (t : RTree V) (p : List Nat) : Bool :=
  match t.sub p with
  | some n => n.children.isEmpty
  | none => false

theorem RTree.isLeafB_cons (d : V) (cs : List (RTree V)) (i : Nat) (p : List Nat) :
    (RTree.node d cs).isLeafB (i :: p) = ((cs[i]?).map (fun c => c.isLeafB p)).getD false := by
  rw [RTree.isLeafB, RTree.sub_cons]; cases cs[i]? <;> simp [RTree.isLeafB]

theorem RTree.pathsAll_cons (cs : List (RTree V)) (k : Nat) {p : List Nat}
    (h : p ∈ RTree.pathsAll k cs) : ∃ i q, p = i :: q ∧ k ≤ i := by
  cases p with
  | nil => exact absurd h (RTree.nil_not_mem_pathsAll cs k)
  | cons i q => exact ⟨i, q, rfl, ((RTree.mem_pathsAll cs k i q).1 h).1⟩

/-- leaf test on a path into a list of children numbered from `k` -/
def leafIn (k : Nat) (cs : List (RTree V)) : List Nat → Bool
  | [] => false
  | i :: p => ((cs[i - k]?).map (fun c => c.isLeafB p)).getD false

mutual
theorem RTree.leaves_eq : ∀ t : RTree V, t.leaves = (t.paths.filter t.isLeafB).length
  | .node d [] => by
    have h0 : (RTree.node d ([] : List (RTree V))).isLeafB [] = true := rfl
    simp [RTree.leaves, RTree.paths, RTree.pathsAll, h0]
  | .node d (c :: cs) => by
    have h := RTree.leavesAll_eq (c :: cs) 0 0
    rw [RTree.leavesAll] at h
    rw [RTree.leaves, h, RTree.paths, List.filter_cons]
    have h0 : (RTree.node d (c :: cs)).isLeafB [] = false := by
      simp [RTree.isLeafB, RTree.sub, RTree.children]
    simp only [h0, Bool.false_eq_true, if_false, Nat.zero_add]
    congr 1
    apply List.filter_congr
    intro p hp
    obtain ⟨i, q, rfl, _⟩ := RTree.pathsAll_cons _ _ hp
    rw [RTree.isLeafB_cons]; rfl
theorem RTree.leavesAll_eq : ∀ (cs : List (RTree V)) (k n : Nat),
    RTree.leavesAll cs n = n + ((RTree.pathsAll k cs).filter (leafIn k cs)).length
  | [], k, n => by simp [RTree.leavesAll, RTree.pathsAll]
  | c :: cs, k, n => by
    rw [RTree.leavesAll, RTree.leavesAll_eq cs (k + 1), RTree.pathsAll, List.filter_append,
      RTree.leaves_eq c]
    have h1 : (c.paths.map (k :: ·)).filter (leafIn k (c :: cs)) =
        (c.paths.filter c.isLeafB).map (k :: ·) := by
      rw [List.filter_map]
      congr 1
      apply List.filter_congr
      intro p _
      simp [leafIn]
    have h2 : (RTree.pathsAll (k + 1) cs).filter (leafIn k (c :: cs)) =
        (RTree.pathsAll (k + 1) cs).filter (leafIn (k + 1) cs) := by
      apply List.filter_congr
      intro p hp
      obtain ⟨i, q, rfl, hi⟩ := RTree.pathsAll_cons _ _ hp
      have : i - k = (i - (k + 1)) + 1 := by omega
      simp [leafIn, this]
    rw [h1, h2]
    simp; omega
end

/-! ## Levels -/

/-- the nodes of each level -/
def RTree.nodesAt : Nat → RTree V → List (RTree V)
  | 0, t => [t]
  | n + 1, t => t.children.flatMap (RTree.nodesAt n)

theorem RTree.nodesAt_succ' : ∀ (n : Nat) (t : RTree V),
    t.nodesAt (n + 1) = (t.nodesAt n).flatMap RTree.children
  | 0, t => by simp [RTree.nodesAt, List.flatMap_singleton']
  | n + 1, t => by
    rw [RTree.nodesAt, RTree.nodesAt, List.flatMap_assoc]
    congr 1
    funext c
    exact RTree.nodesAt_succ' n c

/-- paths of a level, numbering the children from `k` -/
def idxFlat {A : Type} (f : A → List (List Nat)) : Nat → List A → List (List Nat)
  | _, [] => []
  | k, c :: cs => (f c).map (k :: ·) ++ idxFlat f (k + 1) cs

/-- the paths of each level, from left to right -/
def RTree.pathsAt : Nat → RTree V → List (List Nat)
  | 0, _ => [[]]
  | n + 1, t => idxFlat (RTree.pathsAt n) 0 t.children

theorem idxFlat_cons_le {A : Type} (f : A → List (List Nat)) : ∀ (cs : List A) (k : Nat) (p : List Nat),
    p ∈ idxFlat f k cs → ∃ i q, p = i :: q ∧ k ≤ i
  | [], k, p, h => by simp [idxFlat] at h
  | c :: cs, k, p, h => by
    rw [idxFlat, List.mem_append] at h
    rcases h with h | h
    · obtain ⟨q, _, rfl⟩ := List.mem_map.1 h
      exact ⟨k, q, rfl, le_refl _⟩
    · obtain ⟨i, q, rfl, hi⟩ := idxFlat_cons_le f cs (k + 1) p h
      exact ⟨i, q, rfl, by omega⟩

theorem mem_idxFlat {A : Type} (f : A → List (List Nat)) : ∀ (cs : List A) (k i : Nat) (p : List Nat),
    i :: p ∈ idxFlat f k cs ↔ k ≤ i ∧ ∃ c, cs[i - k]? = some c ∧ p ∈ f c
  | [], k, i, p => by simp [idxFlat]
  | c :: cs, k, i, p => by
    rw [idxFlat, List.mem_append, mem_idxFlat f cs]
    simp only [List.mem_map, List.cons.injEq]
    by_cases hk : k = i
    · subst hk
      have : ¬ (k + 1 ≤ k) := by omega
      simp [this]
    · by_cases hlt : k + 1 ≤ i
      · have : i - k = (i - (k + 1)) + 1 := by omega
        rw [this, List.getElem?_cons_succ]
        simp [hk, hlt, Nat.le_of_succ_le hlt]
      · have : ¬ k ≤ i := by omega
        simp [hk, hlt, this]

theorem RTree.mem_pathsAt : ∀ (n : Nat) (t : RTree V) (p : List Nat),
    p ∈ t.pathsAt n ↔ p.length = n ∧ (t.sub p).isSome
  | 0, t, p => by
    simp only [RTree.pathsAt, List.mem_singleton, List.length_eq_zero_iff]
    constructor
    · rintro rfl; simp [RTree.sub_nil]
    · exact fun h => h.1
  | n + 1, .node d cs, p => by
    rw [RTree.pathsAt]
    cases p with
    | nil =>
      constructor
      · intro h; obtain ⟨_, _, h, _⟩ := idxFlat_cons_le _ _ _ _ h; simp at h
      · rintro ⟨h, _⟩; simp at h
    | cons i p =>
      rw [mem_idxFlat, RTree.sub_cons]
      simp only [Nat.zero_le, true_and, Nat.sub_zero, RTree.children, List.length_cons,
        Nat.add_right_cancel_iff]
      constructor
      · rintro ⟨c, hc, hp⟩
        rw [RTree.mem_pathsAt n c p] at hp
        exact ⟨hp.1, by rw [hc]; exact hp.2⟩
      · rintro ⟨h1, h2⟩
        cases hc : cs[i]? with
        | none => simp [hc] at h2
        | some c => exact ⟨c, rfl, (RTree.mem_pathsAt n c p).2 ⟨h1, by simpa [hc] using h2⟩⟩

theorem idxFlat_pairwise {A : Type} (f : A → List (List Nat))
    (hf : ∀ c, (f c).Pairwise (fun p q => lexLt p q = true)) : ∀ (cs : List A) (k : Nat),
    (idxFlat f k cs).Pairwise (fun p q => lexLt p q = true)
  | [], k => by simp [idxFlat]
  | c :: cs, k => by
    rw [idxFlat, List.pairwise_append]
    refine ⟨?_, idxFlat_pairwise f hf cs (k + 1), ?_⟩
    · rw [List.pairwise_map]
      refine (hf c).imp ?_
      intro a b h; simpa [lexLt] using h
    · intro a ha b hb
      obtain ⟨q, _, rfl⟩ := List.mem_map.1 ha
      obtain ⟨i, r, rfl, hi⟩ := idxFlat_cons_le f _ _ _ hb
      have : k ≠ i := by omega
      simp [lexLt, this]; omega

theorem RTree.pathsAt_pairwise : ∀ (n : Nat) (t : RTree V),
    (t.pathsAt n).Pairwise (fun p q => lexLt p q = true)
  | 0, _ => by simp [RTree.pathsAt]
  | n + 1, t => idxFlat_pairwise _ (RTree.pathsAt_pairwise n) _ _

theorem RTree.pathsAt_map_sub : ∀ (n : Nat) (t : RTree V),
    (t.pathsAt n).map t.sub = (t.nodesAt n).map some
  | 0, t => by simp [RTree.pathsAt, RTree.nodesAt, RTree.sub_nil]
  | n + 1, .node d cs => by
    rw [RTree.pathsAt, RTree.nodesAt]
    have key : ∀ (pre cs : List (RTree V)) , (idxFlat (RTree.pathsAt n) pre.length cs).map
        (RTree.node d (pre ++ cs)).sub = (cs.flatMap (RTree.nodesAt n)).map some := by
      intro pre cs
      induction cs generalizing pre with
      | nil => simp [idxFlat]
      | cons c cs ih =>
        have ih := ih (pre ++ [c])
        rw [List.length_append, List.length_singleton, List.append_assoc, List.singleton_append] at ih
        rw [idxFlat, List.map_append, ih, List.flatMap_cons, List.map_append]
        congr 1
        rw [← RTree.pathsAt_map_sub n c, List.map_map]
        apply List.map_congr_left
        intro p _
        simp only [Function.comp, RTree.sub_cons]
        simp
    exact key [] cs

/-! ## Iteration -/

theorem iterLevel_eq : ∀ (ns : List (RTree V)) (out : List V) (next : List (RTree V)),
    iterLevel ns out next = (out ++ ns.map RTree.data, next ++ ns.flatMap RTree.children)
  | [], out, next => by simp [iterLevel]
  | n :: ns, out, next => by
    rw [iterLevel, iterLevel_eq ns]; simp

theorem RTree.nodesAt_nil_iff (t : RTree V) (n : Nat) : t.nodesAt n = [] ↔ t.height < n := by
  rw [← List.map_eq_nil_iff (f := some), ← RTree.pathsAt_map_sub, List.map_eq_nil_iff]
  constructor
  · intro h
    by_contra hc
    obtain ⟨p, h1, h2⟩ := RTree.sub_height t
    have hp : (t.sub (p.take n)).isSome := by
      clear h h2 hc
      induction n generalizing t p with
      | zero => simp [RTree.sub_nil]
      | succ n ih =>
        cases t with | node d cs =>
        cases p with
        | nil => simp [RTree.sub_nil]
        | cons i p =>
          rw [RTree.sub_cons] at h1
          rw [List.take_succ_cons, RTree.sub_cons]
          cases hc : cs[i]? with
          | none => simp [hc] at h1
          | some c => simpa using ih c p (by simpa [hc] using h1)
    have : p.take n ∈ t.pathsAt n := (RTree.mem_pathsAt n t _).2 ⟨by rw [List.length_take]; omega, hp⟩
    rw [h] at this; simp at this
  · intro h
    apply List.eq_nil_iff_forall_not_mem.2
    intro p hp
    obtain ⟨h1, h2⟩ := (RTree.mem_pathsAt n t p).1 hp
    have := RTree.sub_length_le t p h2
    omega

theorem treeIterLoop_eq (t : RTree V) : ∀ (m k : Nat) (fuel : Nat) (out : List V), k + m = t.height + 1 →
    m ≤ fuel → treeIterLoop fuel (t.nodesAt k) out =
      .ok (out ++ ((List.range' k m).map (fun i => (t.nodesAt i).map RTree.data)).flatten)
  | 0, k, fuel, out, hk, _ => by
    rw [(RTree.nodesAt_nil_iff t k).2 (by omega)]
    cases fuel <;> simp [treeIterLoop]
  | m + 1, k, 0, out, _, hf => by omega
  | m + 1, k, fuel + 1, out, hk, hf => by
    have ih := treeIterLoop_eq t m (k + 1) fuel (out ++ (t.nodesAt k).map RTree.data) (by omega) (by omega)
    have hne : t.nodesAt k ≠ [] := fun h => by
      have := (RTree.nodesAt_nil_iff t k).1 h; omega
    obtain ⟨n, ns, hns⟩ := List.exists_cons_of_ne_nil hne
    have hs := RTree.nodesAt_succ' k t
    rw [hns] at ih hs ⊢
    rw [treeIterLoop, iterLevel_eq, List.nil_append]
    simp only
    rw [← hs, ih, List.range'_succ]
    simp [hns]

mutual
theorem RTree.height_lt_count : ∀ t : RTree V, t.height + 1 ≤ t.count
  | .node d cs => by
    rw [RTree.height, RTree.count]; exact RTree.heightAll_lt_countAll cs 0 1 (by omega)
theorem RTree.heightAll_lt_countAll : ∀ (cs : List (RTree V)) (h n : Nat), h + 1 ≤ n →
    RTree.heightAll cs h + 1 ≤ RTree.countAll cs n
  | [], h, n, hn => by simpa [RTree.heightAll, RTree.countAll] using hn
  | c :: cs, h, n, hn => by
    rw [RTree.heightAll, RTree.countAll]
    have := RTree.height_lt_count c
    exact RTree.heightAll_lt_countAll cs _ _ (by omega)
end

/-- the levels of a tree -/
def RTree.levels (t : RTree V) : List (List V) :=
  (List.range (t.height + 1)).map (fun i => (t.nodesAt i).map RTree.data)

theorem treeIter_some (t : RTree V) : treeIter (some t) = .ok t.levels.flatten := by
  have h := RTree.height_lt_count t
  have := treeIterLoop_eq t (t.height + 1) 0 (t.count + 1) [] (by omega) (by omega)
  rw [RTree.nodesAt] at this
  rw [treeIter, this, List.nil_append, RTree.levels, List.range_eq_range']

/-! ## Nodes per level -/

theorem RTree.heightAll_max : ∀ (cs : List (RTree V)) (h : Nat),
    RTree.heightAll cs h = max h (RTree.heightAll cs 0)
  | [], h => by simp [RTree.heightAll]
  | c :: cs, h => by
    rw [RTree.heightAll, RTree.heightAll, RTree.heightAll_max cs, RTree.heightAll_max cs (max 0 _)]
    omega

theorem getD_set_row (rows : List (List V)) (k : Nat) (row : List V) (hk : k < rows.length) (j : Nat) :
    ((rows.set k row)[j]?).getD [] = if j = k then row else (rows[j]?).getD [] := by
  rw [List.getElem?_set]
  by_cases h : k = j
  · subst h; simp [hk]
  · have : j ≠ k := fun e => h e.symm
    simp [h, this]

mutual
theorem RTree.perLevel_spec : ∀ (t : RTree V) (k : Nat) (rows : List (List V)), k ≤ rows.length →
    ∃ rows', t.perLevel k rows = .ok rows' ∧ rows'.length = max rows.length (k + t.height + 1) ∧
      ∀ j : Nat, (rows'[j]?).getD [] = (rows[j]?).getD [] ++
        (if k ≤ j then (t.nodesAt (j - k)).map RTree.data else [])
  | .node d cs, k, rows, hk => by
    obtain ⟨R, hR⟩ : ∃ R, R = if k = rows.length then rows ++ [[]] else rows := ⟨_, rfl⟩
    have hlen : R.length = max rows.length (k + 1) := by
      rw [hR]; split
      · rw [List.length_append, List.length_singleton]; omega
      · omega
    have hrow : ∀ j : Nat, (R[j]?).getD [] = (rows[j]?).getD [] := by
      intro j
      rw [hR]; split
      · rw [List.getElem?_append]
        split
        · rfl
        · rename_i h1 h2
          rw [List.getElem?_eq_none (by omega : rows.length ≤ j)]
          rcases hj : j - rows.length with _ | n
          · rfl
          · rfl
      · rfl
    have hkR : k < R.length := by omega
    have hget : R[k]? = some R[k] := List.getElem?_eq_getElem hkR
    have hRk : R[k] = (rows[k]?).getD [] := by rw [← hrow, hget]; rfl
    obtain ⟨rows', e, hl, hv⟩ := RTree.perLevelAll_spec cs (k + 1) (R.set k (R[k] ++ [d]))
      (by rw [List.length_set]; omega)
    refine ⟨rows', ?_, ?_, fun j => ?_⟩
    · rw [RTree.perLevel, ← hR, hget]; exact e
    · rw [hl, List.length_set, RTree.height]; omega
    · rw [hv j, getD_set_row _ _ _ hkR]
      by_cases hj : j = k
      · subst hj
        have : ¬ (j + 1 ≤ j) := by omega
        simp [this, hRk, RTree.nodesAt, RTree.data]
      · rw [if_neg hj, hrow]
        by_cases hle : k + 1 ≤ j
        · have h2 : j - k = (j - (k + 1)) + 1 := by omega
          rw [if_pos hle, if_pos (by omega : k ≤ j), h2, RTree.nodesAt, RTree.children,
            List.map_flatMap]
        · rw [if_neg hle, if_neg (by omega : ¬ k ≤ j)]
theorem RTree.perLevelAll_spec : ∀ (cs : List (RTree V)) (k : Nat) (rows : List (List V)),
    k ≤ rows.length →
    ∃ rows', RTree.perLevelAll cs k rows = .ok rows' ∧
      rows'.length = max rows.length (k + RTree.heightAll cs 0) ∧
      ∀ j : Nat, (rows'[j]?).getD [] = (rows[j]?).getD [] ++
        (if k ≤ j then cs.flatMap (fun c => (c.nodesAt (j - k)).map RTree.data) else [])
  | [], k, rows, hk => ⟨rows, rfl, by rw [RTree.heightAll]; omega, by simp⟩
  | c :: cs, k, rows, hk => by
    obtain ⟨rows1, e1, l1, v1⟩ := RTree.perLevel_spec c k rows hk
    obtain ⟨rows2, e2, l2, v2⟩ := RTree.perLevelAll_spec cs k rows1 (by omega)
    refine ⟨rows2, ?_, ?_, fun j => ?_⟩
    · rw [RTree.perLevelAll, e1]; exact e2
    · rw [l2, l1, RTree.heightAll, RTree.heightAll_max cs (max 0 _)]; omega
    · rw [v2, v1]
      split
      · simp
      · simp
end

theorem treeLevels_some (t : RTree V) : treeLevels (some t) = .ok t.levels := by
  obtain ⟨rows, e, hl, hv⟩ := RTree.perLevel_spec t 0 [] (by simp)
  rw [treeLevels, e]
  congr 1
  simp only [List.length_nil, Nat.zero_add, Nat.zero_max] at hl
  apply List.ext_getElem
  · rw [hl, RTree.levels, List.length_map, List.length_range]
  · intro j h1 h2
    have := hv j
    rw [List.getElem?_eq_getElem h1] at this
    simp only [Option.getD_some, List.getElem?_nil, Option.getD_none, List.nil_append, Nat.zero_le,
      if_true, Nat.sub_zero] at this
    rw [this]; simp [RTree.levels]

theorem RTree.levels_visits (t : RTree V) : Visits levelLt (treeAt (some t)) t.levels.flatten := by
  refine ⟨((List.range (t.height + 1)).map (fun i => t.pathsAt i)).flatten, ?_, ?_, ?_⟩
  · rw [List.pairwise_flatten]
    constructor
    · intro l hl
      obtain ⟨i, _, rfl⟩ := List.mem_map.1 hl
      refine (t.pathsAt_pairwise i).imp_of_mem ?_
      intro a b ha hb hab
      have h1 := ((RTree.mem_pathsAt i t a).1 ha).1
      have h2 := ((RTree.mem_pathsAt i t b).1 hb).1
      simp [levelLt, h1, h2, hab]
    · rw [List.pairwise_map]
      refine List.pairwise_lt_range.imp ?_
      intro i j hij p hp q hq
      have h1 := ((RTree.mem_pathsAt i t p).1 hp).1
      have h2 := ((RTree.mem_pathsAt j t q).1 hq).1
      simp [levelLt, h1, h2, hij]
  · intro p
    simp only [List.mem_flatten, List.mem_map, List.mem_range, exists_exists_and_eq_and,
      RTree.mem_pathsAt, treeAt, treeSub, Option.isSome_map]
    constructor
    · rintro ⟨i, _, _, h⟩; exact h
    · intro h
      have := RTree.sub_length_le t p h
      exact ⟨p.length, by omega, rfl, h⟩
  · rw [RTree.levels, List.map_flatten, List.map_flatten, List.map_map, List.map_map]
    congr 1
    apply List.map_congr_left
    intro i _
    have := congrArg (List.map (Option.map RTree.data)) (RTree.pathsAt_map_sub i t)
    rw [List.map_map, List.map_map] at this
    simp only [Function.comp_apply, List.map_map]
    exact this.symm

/-! ## Search -/

/-- nodes on the stack of `_search` -/
def stackCount (st : List (RTree V)) : Nat := RTree.countAll st 0

theorem RTree.countAll_add : ∀ (cs : List (RTree V)) (n : Nat),
    RTree.countAll cs n = n + stackCount cs
  | [], n => by simp [stackCount, RTree.countAll]
  | c :: cs, n => by
    rw [RTree.countAll, stackCount, RTree.countAll, RTree.countAll_add cs, RTree.countAll_add cs (0 + _)]
    omega

theorem stackCount_cons (c : RTree V) (st : List (RTree V)) :
    stackCount (c :: st) = c.count + stackCount st := by
  rw [stackCount, RTree.countAll, RTree.countAll_add]; omega

theorem stackCount_append : ∀ (a b : List (RTree V)), stackCount (a ++ b) = stackCount a + stackCount b
  | [], b => by simp [stackCount, RTree.countAll]
  | c :: a, b => by rw [List.cons_append, stackCount_cons, stackCount_cons, stackCount_append a]; omega

theorem stackCount_reverse : ∀ (a : List (RTree V)), stackCount a.reverse = stackCount a
  | [] => rfl
  | c :: a => by
    rw [List.reverse_cons, stackCount_append, stackCount_reverse a, stackCount_cons, stackCount_cons]
    simp [stackCount, RTree.countAll]; omega

theorem RTree.count_node (d : V) (cs : List (RTree V)) :
    (RTree.node d cs).count = 1 + stackCount cs := by
  rw [RTree.count, RTree.countAll_add]

/-- some node of the tree holds the value -/
def RTree.Holds (value : V) (t : RTree V) : Prop := ∃ p, (t.sub p).map RTree.data = some value

theorem RTree.holds_node (value d : V) (cs : List (RTree V)) :
    (RTree.node d cs).Holds value ↔ d = value ∨ ∃ c ∈ cs, c.Holds value := by
  constructor
  · rintro ⟨p, hp⟩
    cases p with
    | nil => left; simpa [RTree.sub, RTree.data] using hp
    | cons i p =>
      rw [RTree.sub_cons] at hp
      cases hc : cs[i]? with
      | none => simp [hc] at hp
      | some c =>
        right
        exact ⟨c, List.mem_of_getElem? hc, p, by simpa [hc] using hp⟩
  · rintro (h | ⟨c, hc, p, hp⟩)
    · exact ⟨[], by simp [RTree.sub, RTree.data, h]⟩
    · obtain ⟨i, hi⟩ := List.mem_iff_getElem?.1 hc
      exact ⟨i :: p, by rw [RTree.sub_cons, hi]; exact hp⟩

theorem treeSearchLoop_spec [DecidableEq V] (value : V) : ∀ (fuel : Nat) (st : List (RTree V)),
    stackCount st ≤ fuel → ∃ b, treeSearchLoop value fuel st = .ok b ∧
      (b = true ↔ ∃ n ∈ st, n.Holds value)
  | fuel, [], _ => by cases fuel <;> exact ⟨false, rfl, by simp⟩
  | 0, .node d cs :: st, h => by
    rw [stackCount_cons, RTree.count_node] at h; omega
  | fuel + 1, .node d cs :: st, h => by
    rw [stackCount_cons, RTree.count_node] at h
    rw [treeSearchLoop]
    by_cases hd : (RTree.node d cs).data = value
    · rw [if_pos hd]
      exact ⟨true, rfl, by
        simp only [true_iff]
        exact ⟨_, List.mem_cons_self, (RTree.holds_node _ _ _).2 (Or.inl hd)⟩⟩
    · rw [if_neg hd]
      obtain ⟨b, e, hb⟩ := treeSearchLoop_spec value fuel ((RTree.node d cs).children.reverse ++ st)
        (by rw [stackCount_append, stackCount_reverse, RTree.children]; omega)
      refine ⟨b, e, hb.trans ?_⟩
      have hd' : ¬ d = value := hd
      simp only [RTree.children, List.mem_append, List.mem_reverse, List.mem_cons]
      constructor
      · rintro ⟨n, hn | hn, hh⟩
        · exact ⟨_, Or.inl rfl, (RTree.holds_node _ _ _).2 (Or.inr ⟨n, hn, hh⟩)⟩
        · exact ⟨n, Or.inr hn, hh⟩
      · rintro ⟨n, rfl | hn, hh⟩
        · rcases (RTree.holds_node _ _ _).1 hh with h | ⟨c, hc, hh⟩
          · exact absurd h hd'
          · exact ⟨c, Or.inl hc, hh⟩
        · exact ⟨n, Or.inr hn, hh⟩

end Extra
