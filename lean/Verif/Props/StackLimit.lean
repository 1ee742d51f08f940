import Verif.Trees.StackLimit
import Verif.Props.BuildCost
import Mathlib.Data.Nat.Fib.Basic

/-!
# How many numbers can be inserted: C117
-/

set_option linter.unusedSectionVars false

namespace Extra
variable {N X : Type} [LinearOrder N]

/-! ## C117

Full statement: a search tree takes any number of numbers, in any order: there is a limit on nested calls with which no
`insert` raises `RecursionError`, however many numbers there are.  -/

/-- **C117, one call.** `insert` raises `RecursionError` exactly if there is no room for a call for each node on the way
down; otherwise it does what it does without a limit. -/
theorem C117_call (room : Nat) (t : BTree (N × X)) (v : N × X) :
    t.insertNodeIn v room = if t.insertLooks v.1 ≤ room then some (t.insertNode v) else none :=
  insertNodeIn_eq v room t

/-- C117 fails for `BST`: of numbers in increasing order the first `room + 1` are inserted and every later one raises
`RecursionError`. -/
theorem C117_bst_increasing (room : Nat) {ns : List N} (h : ns.Pairwise (· < ·)) :
    bstInsertsIn room ns Bst.empty =
      (List.replicate (min ns.length (room + 1)) false ++ List.replicate (ns.length - (room + 1)) true,
       bstAfter (ns.take (room + 1))) := by
  induction ns using List.reverseRecOn with
  | nil => simp [bstInsertsIn, insertsIn, bstAfter, Bst.execs]
  | append_singleton ns v ih =>
    obtain ⟨h1, -, h3⟩ := List.pairwise_append.1 h
    have ih := ih h1
    have hv : ∀ y ∈ ns.take (room + 1), y ≤ v := fun y hy => (h3 y (List.mem_of_mem_take hy) v (by simp)).le
    have hl := C109_worst v (h1.sublist (List.take_sublist (room + 1) ns)) hv
    rw [← insertLooks_eq, List.length_take] at hl
    rw [bstInsertsIn] at ih ⊢
    rw [insertsIn_append, ih, insertsIn_cons, hl]
    simp only [List.length_append, List.length_cons, List.length_nil, zero_add]
    by_cases hr : ns.length ≤ room
    · rw [if_pos (by omega)]
      rw [show min ns.length (room + 1) = ns.length by omega, show ns.length - (room + 1) = 0 by omega,
        show min (ns.length + 1) (room + 1) = ns.length + 1 by omega, show ns.length + 1 - (room + 1) = 0 by omega,
        List.take_of_length_le (by omega), List.take_of_length_le (by simp; omega), List.replicate_succ']
      simp only [List.replicate_zero, List.append_nil, insertsIn, Prod.mk.injEq, true_and]
      rw [bstAfter, bstAfter, List.map_append]
      have app : ∀ (a b : List (BstOp N)) (t : Bst N Unit), (Bst.execs (a ++ b) t).2 = (Bst.execs b (Bst.execs a t).2).2 := by
        intro a b
        induction a with
        | nil => intro t; rfl
        | cons o a ih => intro t; exact ih _
      rw [app]
      rfl
    · rw [if_neg (by omega)]
      rw [show min ns.length (room + 1) = room + 1 by omega, show min (ns.length + 1) (room + 1) = room + 1 by omega,
        show ns.length + 1 - (room + 1) = ns.length - (room + 1) + 1 by omega, List.replicate_succ' (n := ns.length - (room + 1)),
        List.take_append_of_le_length (by omega)]
      simp [insertsIn]

example : bstInsertsIn 3 ([1, 2, 4, 6, 8, 9] : List (Fin 20)) Bst.empty =
    ([false, false, false, false, true, true], bstAfter [1, 2, 4, 6]) ∧
    (bstInsertsIn 3 ([4, 2, 6, 8, 9, 1, 10] : List (Fin 20)) Bst.empty).1 =
      [false, false, false, false, false, false, true] := by decide +kernel

/-- C117 fails for `BST`: whatever the limit, some numbers cannot all be inserted. -/
theorem C117_bst_fails (room : Nat) : ∃ ns : List Int, ns.length = room + 2 ∧ true ∈ (bstInsertsIn room ns Bst.empty).1 := by
  refine ⟨(List.range (room + 2)).map Int.ofNat, by simp, ?_⟩
  have h : ((List.range (room + 2)).map Int.ofNat).Pairwise (· < ·) :=
    (List.pairwise_lt_range (n := room + 2)).map _ (fun a b h => by simpa using h)
  rw [C117_bst_increasing room h]
  simp

/-- C117 fails for `SplayTree`: numbers in falling order, then a greater one. -/
theorem C117_splay_fails (room : Nat) : ∃ ns : List Nat, ns.length = room + 2 ∧ true ∈ (splayInsertsIn room ns Bst.empty).1 := by
  refine ⟨(List.range (room + 1)).reverse ++ [room + 1], by simp, ?_⟩
  by_contra hc
  rw [splayInsertsIn, insertsIn_append] at hc
  simp only [List.mem_append, not_or] at hc
  obtain ⟨h1, h2⟩ := hc
  have e := runDown_fold (room + 1) 0 0
  rw [insertsIn_all _ _ _ _ _ _ h1] at h2
  rw [show (Bst.empty : Bst Nat Unit) = ⟨runDown (room + 1) 0, 0⟩ from rfl, e, insertsIn_cons, runDown_looks _ _ _ (by omega),
    if_neg (by omega)] at h2
  simp at h2

/-- C117 fails for `RedBlackTree`: its insertions can make it deep (C111). -/
theorem C117_redblack_fails (room : Nat) : ∃ ns : List Int, ns.length = 6 * room + 12 ∧
    true ∈ (rbInsertsIn room ns Bst.empty).1 := by
  refine ⟨deepOrder (room + 1) ++ [5], by simp [deepOrder_length]; omega, ?_⟩
  by_contra hc
  rw [rbInsertsIn, insertsIn_append] at hc
  simp only [List.mem_append, not_or] at hc
  obtain ⟨h1, h2⟩ := hc
  rw [insertsIn_all _ _ _ _ _ _ h1] at h2
  have fold : ∀ (ns : List Int) (t t' : Bst Int Color) (rs), rbExecs (ns.map fun v => .insert (.num v)) t = .ok (rs, t') →
      ns.foldl rbStep t = t' := by
    intro ns
    induction ns with
    | nil => intro t t' rs e; cases e; rfl
    | cons n ns ih =>
      intro t t' rs e
      rw [List.map_cons, rbExecs] at e
      rw [List.foldl_cons, rbStep]
      simp only [rbExec, validNum] at e
      cases e1 : rbInsertNum t n with
      | error x => rw [e1] at e; cases e
      | ok p =>
        obtain ⟨t1, w⟩ := p
        rw [e1] at e
        cases e2 : rbExecs (ns.map fun v => .insert (.num v)) t1 with
        | error x => simp only [bind, Except.bind, pure, Except.pure, e2] at e; cases e
        | ok q =>
          obtain ⟨rs2, t2⟩ := q
          simp only [bind, Except.bind, pure, Except.pure, e2] at e
          cases e
          exact ih _ _ _ e2
  have looks : (deepTop (-6 * (room + 1 : Nat)) (deepR (room + 1))).insertLooks 5 = 4 * room + 5 := by
    rw [insertLooks_eq, deepTop, visits_node, if_neg (by show ¬ _; push_cast; omega), if_neg (by show ¬ _; push_cast; omega),
      deepR_visits]
    omega
  rw [fold _ _ _ _ (deepR_exec (room + 1)), insertsIn_cons, looks, if_neg (by omega)] at h2
  simp at h2

private theorem avl_fold : ∀ (ns : List N) (t t' : Bst N Nat) (rs), avlExecs (ns.map fun v => .insert (.num v)) t = .ok (rs, t') →
    ns.foldl avlStep t = t'
  | [], t, t', rs, e => by cases e; rfl
  | n :: ns, t, t', rs, e => by
    rw [List.map_cons, avlExecs] at e
    rw [List.foldl_cons, avlStep]
    simp only [avlExec, validNum] at e
    cases e1 : avlInsertNum t n with
    | error x => rw [e1] at e; cases e
    | ok p =>
      obtain ⟨t1, w⟩ := p
      rw [e1] at e
      cases e2 : avlExecs (ns.map fun v => .insert (.num v)) t1 with
      | error x => simp only [bind, Except.bind, pure, Except.pure, e2] at e; cases e
      | ok q =>
        obtain ⟨rs2, t2⟩ := q
        simp only [bind, Except.bind, pure, Except.pure, e2] at e
        cases e
        exact avl_fold ns _ _ _ e2

example : (splayInsertsIn 3 [3, 2, 1, 0, 9, 8] Bst.empty).1 = [false, false, false, false, true, true] := by decide +kernel

/-- C117, in part: up to as many numbers as the Fibonacci number of `room + 3` less one never raise it in an `AVL`,
whatever their order, and it then holds what it holds without a limit. -/
theorem C117_avl_partial (room : Nat) {ns : List N} (h : ns.length < Nat.fib (room + 3)) :
    (avlInsertsIn room ns Bst.empty).1 = List.replicate ns.length false ∧
    (avlInsertsIn room ns Bst.empty).2.root = avlAfter ns := by
  have after : ∀ p : List N, ∃ t rs, avlExecs (p.map fun v => .insert (.num v)) Bst.empty = .ok (rs, t) ∧
      avlOk t.root ∧ t.root.keys.length ≤ p.length := by
    intro p
    obtain ⟨rs, t, e, hs, hm, hb, hh, hn⟩ := C43_inserts (p.map .num)
    rw [List.map_map] at e
    refine ⟨t, rs, e, (avlOk_iff _).2 ⟨hh, hb⟩, ?_⟩
    have hm' : ∀ x, x ∈ t.root.keys → x ∈ p := fun x hx => by
      rw [← holds_iff, hm] at hx; simpa using hx
    exact (List.subperm_of_subset ((show t.root.keys.Pairwise (· < ·) from hs).imp ne_of_lt) hm').length_le
  have key : (avlInsertsIn room ns Bst.empty).1 = List.replicate ns.length false := by
    induction ns using List.reverseRecOn with
    | nil => rfl
    | append_singleton ns v ih =>
      simp only [List.length_append, List.length_cons, List.length_nil, zero_add] at h
      have ih := ih (by omega)
      obtain ⟨t, rs, e, ho, hl⟩ := after ns
      rw [avlInsertsIn] at ih ⊢
      have h1 : (insertsIn Bst.root 0 avlStep room ns Bst.empty).2 = t := by
        rw [insertsIn_all _ _ _ _ _ _ (by rw [ih]; simp), avl_fold _ _ _ _ e]
      rw [insertsIn_append, h1, ih, insertsIn_cons, if_pos]
      · simp [insertsIn, List.replicate_succ']
      · rw [insertLooks_eq]
        refine (visits_le_nlev _ _).trans ?_
        have h5 := fib_le _ ho
        rw [ho.hOk.nlev] at h5
        by_contra hc
        have := Nat.fib_mono (show room + 3 ≤ t.root.nlev + 2 by omega)
        omega
  refine ⟨key, ?_⟩
  obtain ⟨t, rs, e, -, -⟩ := after ns
  rw [avlInsertsIn] at key ⊢
  rw [insertsIn_all _ _ _ _ _ _ (by rw [key]; simp), avl_fold _ _ _ _ e, avlAfter, e]

example : (avlInsertsIn 3 ([1, 2, 4, 6, 8, 9, 10] : List (Fin 20)) Bst.empty).1 = List.replicate 7 false ∧ 7 < Nat.fib (3 + 3) ∧
    true ∈ (avlInsertsIn 3 ((List.range 16).map Int.ofNat) Bst.empty).1 := by decide +kernel

end Extra
