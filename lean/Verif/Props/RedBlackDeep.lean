import Verif.Trees.RedBlackDeep
import Verif.Props.RedBlackExact
import Verif.Props.BstReads
import Mathlib.Data.Nat.Log
import Mathlib.Tactic.NormNum

/-!
# The height of a `RedBlackTree`: C111

red_black_tree.py:208-210 and the head of the file promise "a guaranteed height of O(log(n))".
-/

namespace Extra
variable {N : Type} [LinearOrder N]

/-- C111, what is left of it: if no insert of a sequence meets a place described by `LosesAt` (C55), then at
the end `2 ^ (height + 1) ≤ (len + 1) ^ 2`, so the height is less than twice the logarithm.

Missing: the property wants this of every sequence of inserts (`C111_not_logarithmic`). -/
theorem C111_kept_partial (vs : List N) (hv : vs ≠ []) (hk : NeverLoses vs Bst.empty) :
    ∃ rs t, ∃ h n : Nat, rbExecs (rbInserts vs) Bst.empty = .ok (rs, t) ∧
      rbExec t .len = .ok (.ok (.int n, false), t) ∧
      bstRead t.root .height = .ok (.int h, false) ∧ 2 ^ (h + 1) ≤ (n + 1) ^ 2 := by
  obtain ⟨rs, t, e, hs, hm, -, hlen, -⟩ := C54_inserts vs
  have hall := (C55_inserts_exact vs).2 hk
  have hok : ∀ (vs : List N) (u : Bst N Color) rs t, KeptThroughout vs u → RedBlackOk u.root →
      rbExecs (rbInserts vs) u = .ok (rs, t) → RedBlackOk t.root := by
    intro vs
    induction vs with
    | nil => intro u rs t _ hu e; cases e; exact hu
    | cons v vs ih =>
      intro u rs t hk hu e
      obtain ⟨r, t', e1, h1, h2⟩ := hk
      simp only [rbInserts, List.map_cons, rbExecs, e1, bind, Except.bind] at e
      cases e2 : rbExecs (rbInserts vs) t' with
      | error x => simp only [rbInserts] at e2; simp [e2] at e
      | ok y =>
        obtain ⟨rs1, t1⟩ := y
        have e3 := e2
        simp only [rbInserts] at e3
        simp only [e3, pure, Except.pure, Except.ok.injEq, Prod.mk.injEq] at e
        obtain ⟨-, rfl⟩ := e
        exact ih t' _ _ h2 h1 e2
  have hr := hok vs Bst.empty rs t hall ((redBlackOk_iff _).2 ⟨⟨0, rfl⟩, rfl⟩) e
  obtain ⟨ks, rows, pre, post, h, n, hv', hi, hb⟩ := C94_rb t
  have hne : ks ≠ [] := by
    rintro rfl
    simp only [rbExec, Except.ok.injEq, Prod.mk.injEq, BstVal.list.injEq, and_true] at hi
    obtain ⟨x, hx⟩ := List.exists_mem_of_ne_nil vs hv
    obtain ⟨p, hp⟩ := (hm x).2 hx
    have := (holds_iff t.root x).1 ⟨p, hp⟩
    rw [hi] at this
    simp at this
  have hks : ks = t.root.keys := by
    simp only [rbExec, Except.ok.injEq, Prod.mk.injEq, BstVal.list.injEq, and_true] at hi
    exact hi.symm
  have hn : t.length = (ks.length : Int) := by
    rw [hlen, hks]
    refine congrArg Nat.cast (List.Perm.length_eq ?_)
    refine (List.perm_ext_iff_of_nodup (List.nodup_dedup _) ?_).2 fun x => ?_
    · exact (show t.root.keys.Pairwise (· < ·) from hs).imp ne_of_lt
    · rw [List.mem_dedup, ← hm, holds_iff]
  exact ⟨rs, t, h, ks.length, e, by simp only [rbExec, hn], hv'.height, hb hr hne⟩

example : NeverLoses [4, 2, 6] (Bst.empty : Bst (Fin 20) Color) ∧
    (rbExecs (rbInserts [4, 2, 6]) (Bst.empty : Bst (Fin 20) Color)).map (fun r => bstRead r.2.root .height) =
      .ok (.ok (.int 1, false)) ∧ 2 ^ (1 + 1) ≤ (3 + 1) ^ 2 := by
  refine ⟨?_, by decide +kernel, by decide⟩
  have no : ∀ (v : Fin 20) (t : BTree (Fin 20 × Color)), (wayTo v t).length ≤ 1 → ¬ LosesAt v t := by
    rintro v t h ⟨k, m, h1, -, -, -, ⟨h2, -⟩ | ⟨h2, -⟩⟩ <;> omega
  refine ⟨no _ _ (by decide +kernel), fun r1 t1 e1 => ?_⟩
  rw [show rbExec (Bst.empty : Bst (Fin 20) Color) (.insert (.num 4)) =
    .ok (.ok (.unit, false), ⟨.node .nil (4, .black) .nil, 1⟩) by decide +kernel] at e1
  cases e1
  refine ⟨no _ _ (by decide +kernel), fun r1 t1 e1 => ?_⟩
  rw [show rbExec (⟨.node .nil (4, .black) .nil, 1⟩ : Bst (Fin 20) Color) (.insert (.num 2)) =
    .ok (.ok (.unit, false), ⟨.node (.node .nil (2, .red) .nil) (4, .black) .nil, 2⟩) by decide +kernel] at e1
  cases e1
  exact ⟨no _ _ (by decide +kernel), fun r1 t1 e1 => trivial⟩

/-- C111, the opposite: for every `k` there are `6 * k + 5` different numbers that, inserted one after the
other, give a tree of height `4 * k + 1` (`2` if `k` is `0`): two thirds of the number of nodes.  A search for
one of the numbers looks at `4 * k + 2` nodes. -/
theorem C111_linear (k : Nat) : ∃ (vs : List Int) (t : Bst Int Color), vs.Nodup ∧ vs.length = 6 * k + 5 ∧
    rbExecs (rbInserts vs) Bst.empty = .ok (List.replicate (6 * k + 5) (.ok (.unit, false)), t) ∧
    rbExec t .len = .ok (.ok (.int (6 * k + 5), false), t) ∧
    bstRead t.root .height = .ok (.int (max 2 (4 * k + 1)), false) ∧
    8 ∈ vs ∧ t.root.visits 8 = 4 * k + 2 := by
  obtain ⟨R, -, h2, h3, h4⟩ := deep_exec k
  have hlen : (deepOrder k).length = 6 * k + 5 := by
    clear h2 h3 h4
    induction k with
    | zero => rfl
    | succ k ih => simp only [deepOrder, List.length_append, ih, deepRound, List.length_cons, List.length_nil]; omega
  have hmem : (8 : Int) ∈ deepOrder k := by
    clear h2 h3 h4 hlen
    induction k with
    | zero => decide
    | succ k ih => exact List.mem_append_left _ ih
  refine ⟨deepOrder k, _, ?_, hlen, h4, rfl, ?_, hmem, ?_⟩
  · obtain ⟨rs, t, e, -, -, -, hd, -⟩ := C54_inserts (deepOrder k)
    rw [rbInserts, h4] at e
    cases e
    have h5 : (deepOrder k).dedup.length = (deepOrder k).length := by
      rw [hlen]; simp only at hd; omega
    rw [← List.dedup_eq_self]
    exact (List.dedup_sublist _).eq_of_length h5
  · rw [(read_views _).height]
    simp only [deepTop, BTree.nlev, h2, Except.ok.injEq, Prod.mk.injEq, ReadVal.int.injEq, and_true]
    omega
  · rw [deepTop, visits_node, if_neg (by omega), if_neg (by omega), h3]
    omega

/-- for 17 numbers: height 9, where twice the logarithm of 18 is less than 9 -/
example : (rbExecs (rbInserts [7, 1, 8, 0, 6, 4, 3, 5, -5, -6, 2, -2, -3, -1, -11, -12, -4])
      (Bst.empty : Bst Int Color)).map (fun r => bstRead r.2.root .height) = .ok (.ok (.int 9, false)) ∧
    18 ^ 2 < 2 ^ 9 := by decide +kernel

/-- C111 fails: there is no factor `c` with which `c * log2 (len + 1)` bounds the height after all sequences of
inserts. -/
theorem C111_not_logarithmic (c : Nat) : ¬ ∀ (vs : List Int) rs t (h : Nat),
    rbExecs (rbInserts vs) Bst.empty = .ok (rs, t) → bstRead t.root .height = .ok (.int h, false) →
    h ≤ c * Nat.log 2 (vs.length + 1) := by
  intro H
  obtain ⟨vs, t, -, hlen, e, -, hh, -⟩ := C111_linear (2 ^ (2 * c))
  have h1 := H vs _ t (max 2 (4 * 2 ^ (2 * c) + 1)) e (by rw [hh]; push_cast; rfl)
  have h2 : Nat.log 2 (vs.length + 1) < 2 * c + 4 := by
    rw [hlen]
    apply Nat.log_lt_of_lt_pow (by omega)
    have : 1 ≤ 2 ^ (2 * c) := Nat.one_le_two_pow
    rw [Nat.pow_add]
    omega
  have h3 : c * Nat.log 2 (vs.length + 1) ≤ c * (2 * c + 3) := Nat.mul_le_mul_left _ (by omega)
  have h4 : c + 1 ≤ 2 ^ c := Nat.lt_two_pow_self
  have h5 : 2 ^ (2 * c) = 2 ^ c * 2 ^ c := by rw [Nat.two_mul, Nat.pow_add]
  have h6 : (c + 1) * (c + 1) ≤ 2 ^ (2 * c) := by rw [h5]; exact Nat.mul_le_mul h4 h4
  have h7 := le_max_right 2 (4 * 2 ^ (2 * c) + 1)
  nlinarith

end Extra
