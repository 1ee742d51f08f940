import Verif.Trees.AvlProofs
import Mathlib.Order.Fin.Basic
import Batteries.Lean.Except

/-!
# Properties C43-C46: AVL

`avlExec`/`avlExecs` run API calls on the model (Verif/Trees/Avl.lean).  `SearchTree`, `Holds`,
`Balanced`, `HeightsTrue` and `BadTie` are the specification (Verif/Trees/BstSpec.lean,
Verif/Trees/AvlSpec.lean).
-/

set_option linter.unusedSectionVars false

namespace Extra
variable {N : Type} [LinearOrder N]

/-! ## C43 -/

private theorem avlInsertNum_spec (t : Bst N Nat) (v : N) (hs : SearchTree t.root) (ho : avlOk t.root)
    (hn : t.length = t.root.keys.length) :
    ∃ t' w, avlInsertNum t v = .ok (t', w) ∧ SearchTree t'.root ∧ avlOk t'.root ∧
      t'.length = t'.root.keys.length ∧ (∀ x, x ∈ t'.root.keys ↔ x = v ∨ x ∈ t.root.keys) ∧
      (w = true ↔ v ∈ t.root.keys) ∧ (v ∈ t.root.keys → t' = t) := by
  obtain ⟨t, n⟩ := t
  cases t with
  | nil =>
    refine ⟨_, _, rfl, ?_, ?_, ?_, ?_, ?_, ?_⟩ <;>
      simp_all [SearchTree, BTree.inorder, avlOk, hl_nil]
  | node l w r =>
    simp only at hn
    obtain ⟨t', rot, new, e, a, _, _, b⟩ := avlInsert_ok v (.node l w r) hs ho
    obtain ⟨k1, k2⟩ := avlInsert_keys v e
    have hf := insertNode_flag (v, 0) (.node l w r) hs
    rw [← k2] at hf
    have hlen := insertNode_length (v, 0) (.node l w r)
    rw [← k1, ← k2] at hlen
    refine ⟨⟨t', if new then n + 1 else n⟩, !new, ?_, ?_, a, ?_, fun x => ?_, ?_, fun hv => ?_⟩
    · simp only [avlInsertNum, e, bind, Except.bind]; rfl
    · show t'.keys.Pairwise (· < ·)
      rw [k1]; exact insertNode_sorted (v, 0) _ hs
    · simp only [hlen, hn]
      split_ifs <;> simp
    · simp only [k1]; exact insertNode_mem (v, 0) _ x
    · simp only [Bool.not_eq_true', ← Bool.not_eq_true, hf, not_not]
    · have hnew : new = false := by rw [← Bool.not_eq_true, hf]; exact fun k => k hv
      simp [b hnew, hnew]

private theorem avlInserts_spec : ∀ (vs : List (NumArg N)) (t : Bst N Nat), SearchTree t.root →
    avlOk t.root → t.length = t.root.keys.length →
    ∃ rs t', avlExecs (vs.map .insert) t = .ok (rs, t') ∧ SearchTree t'.root ∧ avlOk t'.root ∧
      t'.length = t'.root.keys.length ∧ ∀ x, x ∈ t'.root.keys ↔ x ∈ t.root.keys ∨ .num x ∈ vs
  | [], t, h, o, n => ⟨_, _, rfl, h, o, n, by simp⟩
  | v :: vs, t, h, o, n => by
    cases v with
    | num v =>
      obtain ⟨t1, w, e, h1, o1, n1, m1, _⟩ := avlInsertNum_spec t v h o n
      obtain ⟨rs, t2, e2, h2, o2, n2, m2⟩ := avlInserts_spec vs t1 h1 o1 n1
      refine ⟨.ok (.unit, w) :: rs, t2, ?_, h2, o2, n2, fun x => ?_⟩
      · simp only [List.map_cons, avlExecs, avlExec, validNum, e, bind, Except.bind, pure, Except.pure, e2]
      · rw [m2, m1]; simp only [List.mem_cons, NumArg.num.injEq]; tauto
    | none =>
      obtain ⟨rs, t2, e2, h2, o2, n2, m2⟩ := avlInserts_spec vs t h o n
      refine ⟨.error .valueError :: rs, t2, ?_, h2, o2, n2, fun x => by rw [m2]; simp⟩
      simp only [List.map_cons, avlExecs, avlExec, validNum, bind, Except.bind, pure, Except.pure, e2]
    | other =>
      obtain ⟨rs, t2, e2, h2, o2, n2, m2⟩ := avlInserts_spec vs t h o n
      refine ⟨.error .typeError :: rs, t2, ?_, h2, o2, n2, fun x => by rw [m2]; simp⟩
      simp only [List.map_cons, avlExecs, avlExec, validNum, bind, Except.bind, pure, Except.pure, e2]

/-- C43: any sequence of inserts into an empty tree succeeds; the tree is then a balanced search tree of
the numbers inserted, every node stores its true height, and `len` is the number of nodes. -/
theorem C43_inserts (vs : List (NumArg N)) :
    ∃ rs t, avlExecs (vs.map .insert) Bst.empty = .ok (rs, t) ∧ SearchTree t.root ∧
      (∀ x, Holds t.root x ↔ .num x ∈ vs) ∧ Balanced t.root ∧ HeightsTrue t.root ∧
      t.length = t.root.size := by
  obtain ⟨rs, t, e, h, o, n, m⟩ := avlInserts_spec vs Bst.empty
    (by simp [Bst.empty, SearchTree, BTree.inorder]) trivial (by simp [Bst.empty])
  have := (avlOk_iff _).1 o
  exact ⟨rs, t, e, h, fun x => by rw [holds_iff, m]; simp [Bst.empty], this.2, this.1,
    by rw [n, BTree.keys_length_size]⟩

/-- C43: an insert into a balanced search tree with true heights never raises from the middle and keeps
it one; a number held changes nothing and warns. -/
theorem C43_insert (t : Bst N Nat) (hs : SearchTree t.root) (hb : Balanced t.root)
    (hh : HeightsTrue t.root) (hn : t.length = t.root.size) (v : N) :
    (Holds t.root v → avlExec t (.insert (.num v)) = .ok (.ok (.unit, true), t)) ∧
    (¬ Holds t.root v → ∃ t', avlExec t (.insert (.num v)) = .ok (.ok (.unit, false), t') ∧
      SearchTree t'.root ∧ Balanced t'.root ∧ HeightsTrue t'.root ∧ t'.length = t.length + 1 ∧
      ∀ x, Holds t'.root x ↔ x = v ∨ Holds t.root x) := by
  rw [← BTree.keys_length_size] at hn
  obtain ⟨t', w, e, a1, a2, a3, a4, a5, a6⟩ :=
    avlInsertNum_spec t v hs ((avlOk_iff _).2 ⟨hh, hb⟩) hn
  have hx : avlExec t (.insert (.num v)) = .ok (.ok (.unit, w), t') := by
    simp only [avlExec, validNum, e, bind, Except.bind]; rfl
  simp only [holds_iff]
  refine ⟨fun h => ?_, fun h => ?_⟩
  · rw [hx, a5.2 h, a6 h]
  · have hw : w = false := by rw [← Bool.not_eq_true, a5]; exact h
    have := (avlOk_iff _).1 a2
    refine ⟨t', by rw [hx, hw], a1, this.2, this.1, ?_, a4⟩
    rw [a3, hn]
    have hp : t'.root.keys.Perm (v :: t.root.keys) := by
      have hd : ∀ s : BTree (N × Nat), SearchTree s → s.keys.Nodup := fun s hs =>
        (show s.keys.Pairwise (· < ·) from hs).imp (fun {a b} k => ne_of_lt k)
      rw [List.perm_ext_iff_of_nodup (hd _ a1) (List.nodup_cons.2 ⟨h, hd _ hs⟩)]
      intro x; rw [a4, List.mem_cons]
    rw [hp.length_eq]; simp

/-- C43: for a tree with true heights `get_height` is the number of levels below the root, and if the
tree is balanced `is_balanced` says so. -/
theorem C43_queries (t : Bst N Nat) (hh : HeightsTrue t.root) :
    avlExec t .getHeight = .ok (.ok (.int (t.root.nlev - 1 : Nat), false), t) ∧
    (Balanced t.root → ∃ w, avlExec t .isBalanced = .ok (.ok (.bool true, w), t)) := by
  obtain ⟨t, n⟩ := t
  cases t with
  | nil => exact ⟨rfl, fun _ => ⟨_, rfl⟩⟩
  | node l w r =>
    have h0 := hh [] l w r rfl
    refine ⟨?_, fun hb => ⟨false, ?_⟩⟩
    · simp only [avlExec, BTree.avlHeight, ← h0]; rfl
    · have := ((avlOk_iff _).2 ⟨hh, hb⟩).2.2.2
      simp only [avlExec, BTree.avlIsBalanced, decide_eq_true this]

/-- the tree after inserting 0, …, 6 -/
def avlSample : Bst (Fin 20) Nat :=
  match avlExecs ((([0, 1, 2, 3, 4, 5, 6] : List (Fin 20)).map NumArg.num).map .insert) Bst.empty with
  | .ok (_, t) => t
  | .error _ => Bst.empty

example : (avlExec avlSample .inorder).map (·.1) = .ok (.ok (.list [0, 1, 2, 3, 4, 5, 6], false)) := by
  decide +kernel
example : (avlExec avlSample .getHeight).map (·.1) = .ok (.ok (.int 2, false)) := by decide +kernel
example : avlSample.root.at [] = some (3, 2) := by decide +kernel

/-! ## C45 -/

/-- C45: after any sequence of inserts `fib (levels + 2) ≤ n + 1`, where `n` is the number of values held;
with `get_height` one less than the number of levels this is `fib (height + 3) ≤ n + 1` for a tree that is
not empty. -/
theorem C45_height (vs : List (NumArg N)) :
    ∃ rs t, avlExecs (vs.map .insert) Bst.empty = .ok (rs, t) ∧
      Nat.fib (t.root.nlev + 2) ≤ t.root.size + 1 ∧
      (t.root ≠ .nil → ∃ h : Nat, avlExec t .getHeight = .ok (.ok (.int h, false), t) ∧
        avlExec t .len = .ok (.ok (.int t.root.size, false), t) ∧
        Nat.fib (h + 3) ≤ t.root.size + 1) := by
  obtain ⟨rs, t, e, _, _, hb, hh, hn⟩ := C43_inserts vs
  have ho := (avlOk_iff _).2 ⟨hh, hb⟩
  have hf := fib_le t.root ho
  rw [ho.hOk.nlev, BTree.keys_length_size] at hf
  refine ⟨rs, t, e, hf, fun hne => ⟨_, (C43_queries t hh).1, by simp only [avlExec, hn], ?_⟩⟩
  have : t.root.nlev - 1 + 3 = t.root.nlev + 2 := by
    cases ht : t.root with
    | nil => exact absurd ht hne
    | node l w r => simp only [BTree.nlev]; omega
  rw [this]; exact hf

example : Nat.fib (2 + 3) ≤ 7 + 1 := by decide

/-! ## C44, C46 -/

private theorem avlRemoveNum_spec (t : Bst N Nat) (v : N) (hs : SearchTree t.root) (ho : avlOk t.root) :
    (v ∉ t.root.keys → avlRemoveNum t v = .ok (t, true)) ∧
    (v ∈ t.root.keys → ∃ t' A B, avlRemoveNum t v = .ok (t', false) ∧ t'.length = t.length - 1 ∧
      t.root.keys = A ++ v :: B ∧ t'.root.keys = A ++ B ∧ hOk t'.root ∧
      (¬ hasBad t.root → avlOk t'.root)) := by
  obtain ⟨t, n⟩ := t
  obtain ⟨h1, h2⟩ := avlRemove_spec v t hs ho
  have key : t ≠ .nil → (∀ w : N × Nat, t ≠ .node .nil w .nil) →
      avlRemoveNum ⟨t, n⟩ v = (do
        match ← t.avlRemove v with
        | none => pure (⟨t, n⟩, true)
        | some (s, _) => pure (⟨s, n - 1⟩, false)) := by
    intro k1 k2
    rcases t with _ | ⟨_ | _, w, _ | _⟩
    · exact absurd rfl k1
    · exact absurd rfl (k2 w)
    · rfl
    · rfl
    · rfl
  by_cases c1 : t = .nil
  · subst c1; exact ⟨fun _ => rfl, by simp⟩
  by_cases c2 : ∃ w : N × Nat, t = .node .nil w .nil
  · obtain ⟨w, rfl⟩ := c2
    refine ⟨fun hv => ?_, fun hv => ?_⟩
    · have : v ≠ w.1 := by simpa using hv
      simp only [avlRemoveNum, if_neg this]
    · have : v = w.1 := by simpa using hv
      refine ⟨⟨.nil, n - 1⟩, [], [], by simp only [avlRemoveNum, if_pos this], rfl, by simp [this], rfl,
        trivial, fun _ => trivial⟩
  · rw [key c1 (fun w e => c2 ⟨w, e⟩)]
    refine ⟨fun hv => by rw [h1 hv]; rfl, fun hv => ?_⟩
    obtain ⟨t', rot, A, B, a, b, c, d, _, _, f⟩ := h2 hv
    exact ⟨⟨t', n - 1⟩, A, B, by rw [a]; rfl, rfl, b, c, d, f⟩

private theorem hasBad_badTie {t : BTree (N × Nat)} (ho : avlOk t) (h : ¬ BadTie t) : ¬ hasBad t :=
  fun k => h (hasBad_of_iff t ho.hOk k)

/-- C46: removing a value from a balanced search tree never raises and takes out exactly this value:
`inorder_traverse` afterwards is the list before without it.  A value not held changes nothing and warns. -/
theorem C46_remove (t : Bst N Nat) (hs : SearchTree t.root) (hb : Balanced t.root)
    (hh : HeightsTrue t.root) (v : N) :
    (¬ Holds t.root v → avlExec t (.remove (.num v)) = .ok (.ok (.unit, true), t)) ∧
    (Holds t.root v → ∃ t' A B, avlExec t (.remove (.num v)) = .ok (.ok (.unit, false), t') ∧
      t'.length = t.length - 1 ∧
      avlExec t .inorder = .ok (.ok (.list (A ++ v :: B), false), t) ∧
      avlExec t' .inorder = .ok (.ok (.list (A ++ B), false), t') ∧ SearchTree t'.root) := by
  obtain ⟨h1, h2⟩ := avlRemoveNum_spec t v hs ((avlOk_iff _).2 ⟨hh, hb⟩)
  simp only [holds_iff]
  refine ⟨fun hv => ?_, fun hv => ?_⟩
  · simp only [avlExec, h1 hv, bind, Except.bind]; rfl
  · obtain ⟨t', A, B, e, n, k1, k2, _⟩ := h2 hv
    refine ⟨t', A, B, ?_, n, by simp only [avlExec, k1], by simp only [avlExec, k2], ?_⟩
    · simp only [avlExec, e, bind, Except.bind]; rfl
    · show t'.root.keys.Pairwise (· < ·)
      have hs' : t.root.keys.Pairwise (· < ·) := hs
      rw [k1] at hs'
      rw [k2]
      exact hs'.sublist (List.Sublist.append_left (List.sublist_cons_self _ _) _)

/-- C44, in part: a removal from a balanced search tree leaves true heights, and leaves it balanced if no
node has the shape `BadTie`.

Missing: trees with such a node, where balance can be lost (`C44_unbalanced`). -/
theorem C44_remove_partial (t : Bst N Nat) (hs : SearchTree t.root) (hb : Balanced t.root)
    (hh : HeightsTrue t.root) (v : N) :
    ∃ w t', avlExec t (.remove (.num v)) = .ok (.ok (.unit, w), t') ∧ HeightsTrue t'.root ∧
      (¬ BadTie t.root → Balanced t'.root) := by
  have ho := (avlOk_iff _).2 ⟨hh, hb⟩
  obtain ⟨h1, h2⟩ := avlRemoveNum_spec t v hs ho
  by_cases hv : v ∈ t.root.keys
  · obtain ⟨t', A, B, e, _, _, _, d, f⟩ := h2 hv
    refine ⟨false, t', ?_, (heightsTrue_iff _).2 d, fun k =>
      ((avlOk_iff _).1 (f (hasBad_badTie ho k))).2⟩
    simp only [avlExec, e, bind, Except.bind]; rfl
  · refine ⟨true, t, ?_, hh, fun _ => hb⟩
    simp only [avlExec, h1 hv, bind, Except.bind]; rfl

private theorem sub_nlev (t : BTree (N × Nat)) (p : List Bool) : (t.sub p).nlev ≤ t.nlev := by
  induction p generalizing t with
  | nil => simp [BTree.sub]
  | cons b p ih =>
    cases t with
    | nil => simp [BTree.sub]
    | node l w r =>
      have h1 := ih l
      have h2 := ih r
      cases b <;> simp only [BTree.sub, BTree.nlev, Bool.false_eq_true, if_false, if_true] <;> omega

/-- trees of up to three levels have no such node -/
theorem C44_small (t : BTree (N × Nat)) (h : t.nlev ≤ 3) : ¬ BadTie t := by
  rintro ⟨p, pl, pv, b, bv, c, w, r, e, h1, h2, h3⟩
  have := sub_nlev t p
  rw [e] at this
  simp only [BTree.nlev] at this h1 h2 h3
  omega

example : ¬ BadTie avlSample.root := C44_small _ (by decide +kernel)

/-- 6, 7, 5, 1, 2, 3, 4, 0 inserted, 7 removed -/
def avlWitness : List (AvlOp (Fin 20)) :=
  (([6, 7, 5, 1, 2, 3, 4, 0] : List (Fin 20)).map (fun v => AvlOp.insert (.num v))) ++ [.remove (.num 7)]

/-- C44 fails: eight inserts and one removal leave an unbalanced node.  (`is_balanced` looks at the root
only and may still answer `True`.) -/
theorem C44_unbalanced : ¬ ∀ (ops : List (AvlOp (Fin 20))) (rs : List (BstRes (Fin 20)))
    (t : Bst (Fin 20) Nat), avlExecs ops Bst.empty = .ok (rs, t) → Balanced t.root := by
  intro h
  have hw : (avlExecs avlWitness Bst.empty).map (fun x =>
      (x.2.root.sub [false]).root?.isSome && !(decide
        (((x.2.root.sub [false, false]).nlev ≤ (x.2.root.sub [false, true]).nlev + 1) ∧
        ((x.2.root.sub [false, true]).nlev ≤ (x.2.root.sub [false, false]).nlev + 1)))) = .ok true := by
    decide +kernel
  cases e : avlExecs avlWitness Bst.empty with
  | error => rw [e] at hw; cases hw
  | ok x =>
    obtain ⟨rs, t⟩ := x
    have hb := h _ rs t e
    rw [e] at hw
    simp only [Except.map, Except.ok.injEq, Bool.and_eq_true, Bool.not_eq_true',
      decide_eq_false_iff_not] at hw
    obtain ⟨w1, w2⟩ := hw
    cases hsub : t.root.sub [false] with
    | nil => rw [hsub] at w1; simp [BTree.root?] at w1
    | node l w r =>
      refine w2 ?_
      have hk := hb [false] l w r hsub
      cases ht : t.root with
      | nil => rw [ht] at hsub; simp [BTree.sub] at hsub
      | node a b c =>
        rw [ht] at hsub
        simp only [BTree.sub, Bool.false_eq_true, if_false] at hsub
        subst hsub
        simpa [BTree.sub] using hk

/-- fourteen inserts, then 11, 1, 2 and 8 removed -/
def avlOrderWitness : List (AvlOp (Fin 20)) :=
  (([13, 0, 4, 11, 5, 9, 8, 12, 1, 3, 7, 10, 2, 6] : List (Fin 20)).map
    (fun v => AvlOp.insert (.num v))) ++ ([11, 1, 2, 8] : List (Fin 20)).map (fun v => AvlOp.remove (.num v))

/-- Consequence of C44's failure: over whole histories even the order is lost.  After fourteen inserts and
four removals the inorder traversal is not increasing. -/
theorem C46_order_lost : ¬ ∀ (ops : List (AvlOp (Fin 20))) (rs : List (BstRes (Fin 20)))
    (t : Bst (Fin 20) Nat), avlExecs ops Bst.empty = .ok (rs, t) → SearchTree t.root := by
  intro h
  have hw : (avlExecs avlOrderWitness Bst.empty).map (fun x =>
      decide (x.2.root.keys.Pairwise (· < ·))) = .ok false := by decide +kernel
  cases e : avlExecs avlOrderWitness Bst.empty with
  | error => rw [e] at hw; cases hw
  | ok x =>
    obtain ⟨rs, t⟩ := x
    have hs : t.root.keys.Pairwise (· < ·) := h _ rs t e
    rw [e] at hw
    simp only [Except.map, Except.ok.injEq, decide_eq_false_iff_not] at hw
    exact hw hs

example : (avlExec avlSample (.remove (.num 3))).map (fun x => x.2.root.keys) = .ok [0, 1, 2, 4, 5, 6] := by
  decide +kernel

end Extra
