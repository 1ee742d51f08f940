import Verif.Trees.SplayCostProofs
import Verif.Props.Splay

/-!
# Property C103: the cost of a SplayTree

`SplayOp.visits` counts the nodes a call looks at on its way down, `SplayOp.sinks` the swaps below the
replacement of a removed node (Verif/Trees/SplayCost.lean); `costs` adds a cost up over a history.
-/

set_option linter.unusedSectionVars false

namespace Extra
variable {N : Type} [LinearOrder N]

/-- the nodes a call looks at -/
def SplayOp.work (t : BTree (N × Unit)) (op : SplayOp N) : Nat := op.visits t + op.sinks t

/-! ## The chain of the witnesses -/

/-- the numbers `i, ..., i + n - 1`, each the right child of the one before -/
private def chain (i : Nat) : Nat → BTree (Nat × Unit)
  | 0 => .nil
  | n + 1 => .node .nil (i, ()) (chain (i + 1) n)

/-- `insert(n - 1); ...; insert(0)` -/
private def down (n : Nat) : List (SplayOp Nat) := (List.range n).reverse.map (fun i => .insert (.num i))

private theorem chain_insert (i n : Nat) (c : Int) :
    splayExec ⟨chain (i + 1) n, c⟩ (.insert (.num i)) = .ok (.ok (.unit, false), ⟨chain i (n + 1), c + 1⟩) := by
  cases n with
  | zero => rfl
  | succ n =>
    simp [splayExec, splayInsert, validNum, chain, insertNode_node, BTree.insertNode, BTree.insertPath, BTree.splay,
      BTree.descend, splaying, sideOk, bind, Except.bind, pure, Except.pure]

private theorem run_append (as bs : List (SplayOp N)) : ∀ {t t' t'' : Bst N Unit} {rs ss}
    (_ : splayExecs as t = .ok (rs, t')) (_ : splayExecs bs t' = .ok (ss, t'')),
    splayExecs (as ++ bs) t = .ok (rs ++ ss, t'') ∧
    ∀ c, costs c (as ++ bs) t = costs c as t + costs c bs t' := by
  induction as with
  | nil => intro t t' t'' rs ss h1 h2; cases h1; exact ⟨h2, fun c => by simp [costs]⟩
  | cons a as ih =>
    intro t t' t'' rs ss h1 h2
    obtain ⟨r, t1, rs', e1, e2, rfl⟩ := splayExecs_cons h1
    obtain ⟨i1, i2⟩ := ih e2 h2
    refine ⟨by simp [splayExecs, e1, i1, bind, Except.bind, pure, Except.pure], fun c => ?_⟩
    simp only [List.cons_append, costs, e1, i2, Nat.add_assoc]

private theorem run_down (n : Nat) : ∃ rs, splayExecs (down n) Bst.empty = .ok (rs, ⟨chain 0 n, n⟩) := by
  suffices H : ∀ k i (c : Int), ∃ rs, splayExecs ((List.range k).reverse.map
      (fun j => .insert (.num j))) ⟨chain k i, c⟩ = .ok (rs, ⟨chain 0 (i + k), c + k⟩) by
    have := H n 0 0
    simpa [down, Bst.empty, chain] using this
  intro k
  induction k with
  | zero => intro i c; exact ⟨[], by simp [splayExecs]⟩
  | succ k ih =>
    intro i c
    obtain ⟨rs, e⟩ := ih (i + 1) (c + 1)
    refine ⟨.ok (.unit, false) :: rs, ?_⟩
    simp only [List.range_succ, List.reverse_append, List.reverse_singleton, List.singleton_append,
      List.map_cons, splayExecs, chain_insert, bind, Except.bind, e, pure, Except.pure]
    rw [show i + 1 + k = i + (k + 1) by omega, show c + 1 + (k : Int) = c + ((k + 1 : Nat) : Int) by push_cast; omega]

private theorem chain_sink (i n : Nat) : (chain i (n + 1)).sink = chain (i + 1) n ∧
    (chain i (n + 1)).sinkLen = n := by
  induction n generalizing i with
  | zero => exact ⟨rfl, rfl⟩
  | succ n ih =>
    obtain ⟨h1, h2⟩ := ih (i + 1)
    constructor
    · conv_lhs => rw [chain, chain, BTree.sink]
      rw [show (BTree.node BTree.nil (i + 1, ()) (chain (i + 1 + 1) n)) = chain (i + 1) (n + 1) from rfl, h1]
      rfl
    · rw [chain, chain, BTree.sinkLen]
      rw [show (BTree.node BTree.nil (i + 1, ()) (chain (i + 1 + 1) n)) = chain (i + 1) (n + 1) from rfl, h2]

private theorem chain_search (i n : Nat) : (chain i (n + 1)).search i = [] ∧
    (chain i (n + 1)).dataAt [] = some i := by
  constructor
  · rw [chain, search_node, if_pos rfl]
  · rfl

/-- removing the first number of a chain: the others move up one by one -/
private theorem chain_remove (i n : Nat) (c : Int) :
    splayExec ⟨chain i (n + 2), c⟩ (.remove (.num i)) =
      .ok (.ok (.unit, false), ⟨chain (i + 1) (n + 1), c - 1⟩) ∧
    (SplayOp.remove (.num i)).sinks (chain i (n + 2)) = n := by
  obtain ⟨h1, h2⟩ := chain_search i (n + 1)
  obtain ⟨h3, h4⟩ := chain_sink (i + 1) n
  constructor
  · have e : (chain i (n + 2)).remove i = (chain (i + 1) (n + 1), true) := by
      unfold BTree.remove
      rw [h1, if_pos h2]
      simp only [BTree.replace, BTree.walk]
      rw [chain, chain, BTree.removeRoot]
      simp only [BTree.takeMin]
      rw [show (BTree.node BTree.nil (i + 1, ()) (chain (i + 1 + 1) n)) = chain (i + 1) (n + 1) from rfl, h3]
      rfl
    have e2 : (chain i (n + 2)).lastAccessed i = [] := by
      unfold BTree.lastAccessed
      rw [h1, if_pos h2]
      rfl
    have e3 : splayRemove ⟨chain i (n + 2), c⟩ (.num i) = (do
        let s ← ((chain i (n + 2)).remove i).1.splay ((chain i (n + 2)).lastAccessed i)
        pure (.ok (.unit, !((chain i (n + 2)).remove i).2),
          ⟨s, if ((chain i (n + 2)).remove i).2 then c - 1 else c⟩)) := rfl
    rw [splayExec, e3, e, e2]
    rfl
  · simp only [SplayOp.sinks]
    rw [h1, if_pos h2]
    exact h4

/-- `remove(i); ...; remove(i + n - 1)` -/
private def up (i n : Nat) : List (SplayOp Nat) := (List.range' i n).map (fun i => .remove (.num i))

private theorem run_up (n : Nat) : ∀ i (c : Int), ∃ rs t, splayExecs (up i n) ⟨chain i (n + 1), c⟩ = .ok (rs, t) ∧
    n * n ≤ n + 2 * costs (fun t op => op.sinks t) (up i n) ⟨chain i (n + 1), c⟩ := by
  induction n with
  | zero => intro i c; exact ⟨_, _, rfl, by simp⟩
  | succ n ih =>
    intro i c
    obtain ⟨e1, e2⟩ := chain_remove i n c
    obtain ⟨rs, t, h1, h2⟩ := ih (i + 1) (c - 1)
    refine ⟨.ok (.unit, false) :: rs, t, ?_, ?_⟩
    · simp only [up, List.range'_succ, List.map_cons, splayExecs, e1, bind, Except.bind] at h1 ⊢
      rw [h1]; rfl
    · simp only [up, List.range'_succ, List.map_cons, costs, e1, e2] at h2 ⊢
      rw [Nat.add_mul, Nat.mul_add]
      omega

private theorem chain_max (n : Nat) : ∀ i, (chain i (n + 1)).maxPath.length = n := by
  induction n with
  | zero => intro i; rfl
  | succ n ih =>
    intro i
    have := ih (i + 1)
    rw [chain] at this
    rw [chain, chain, BTree.maxPath, List.length_cons, this]

private theorem run_max (n c : Nat) (k : Int) : ∃ rs, splayExecs (List.replicate c .getMax) ⟨chain 0 (n + 1), k⟩ =
      .ok (rs, ⟨chain 0 (n + 1), k⟩) ∧
    costs (fun t op => op.visits t) (List.replicate c .getMax) ⟨chain 0 (n + 1), k⟩ = c * (n + 1) := by
  induction c with
  | zero => exact ⟨_, rfl, by simp [costs]⟩
  | succ c ih =>
    obtain ⟨rs, e1, e2⟩ := ih
    refine ⟨_ :: rs, by simp only [List.replicate_succ, splayExecs, splayExec, bind, Except.bind, e1]; rfl, ?_⟩
    have e3 : (SplayOp.getMax : SplayOp Nat).visits (chain 0 (n + 1)) = n + 1 := by
      rw [SplayOp.visits, chain_max, if_neg (by simp [chain])]
    simp only [List.replicate_succ, costs, splayExec, e2, e3]
    rw [Nat.add_mul, Nat.one_mul, Nat.add_comm]

private theorem costs_mono {c d : BTree (N × Unit) → SplayOp N → Nat} (h : ∀ t o, c t o ≤ d t o)
    (ops : List (SplayOp N)) : ∀ t, costs c ops t ≤ costs d ops t := by
  induction ops with
  | nil => intro t; exact le_rfl
  | cons o ops ih =>
    intro t
    simp only [costs]
    have := h t.root o
    cases splayExec t o with
    | error e => simp; omega
    | ok p => have := ih p.2; simp; omega

/-- no multiple of `m log m` bounds a square -/
private theorem no_bound (c : Nat) : ∃ n, 2 * n * (c * (Nat.log 2 (2 * n) + 1)) + n < n * n := by
  refine ⟨2 ^ (8 * c + 10) * 2 ^ (8 * c + 10), ?_⟩
  have h0 : 8 * c + 10 < 2 ^ (8 * c + 10) := Nat.lt_two_pow_self
  have h1 : Nat.log 2 (2 * (2 ^ (8 * c + 10) * 2 ^ (8 * c + 10))) = 16 * c + 21 := by
    rw [← pow_add, ← pow_succ', Nat.log_pow (by omega)]; omega
  rw [h1]
  generalize 2 ^ (8 * c + 10) = a at h0
  have h2 : (8 * c + 11) * (8 * c + 11) ≤ a * a := Nat.mul_le_mul h0 h0
  have h3 : 2 * (c * (16 * c + 21 + 1)) + 1 < a * a := by nlinarith
  generalize a * a = n at h2 h3
  have h4 : n * (2 * (c * (16 * c + 21 + 1)) + 1) < n * n := Nat.mul_lt_mul_of_pos_left h3 (by omega)
  calc _ = n * (2 * (c * (16 * c + 21 + 1)) + 1) := by ring
    _ < _ := h4

/-! ## C103 -/

/-- C103, in part: in every history of `insert`, `remove`, `in`, `len` and `clear` on a `SplayTree` the
calls look, on their ways down, at no more than `8 log₂ n + 3` nodes on average, where `n` is the
number of insertions.

Missing: the swaps of `remove` below the replacement (`SplayOp.sinks`) are not counted, and `get_min` and
`get_max` are left out.  `C103_fails` shows that neither can be helped. -/
theorem C103_amortised_partial (ops : List (SplayOp N)) (ho : ∀ o ∈ ops, o.splays = true) {rs : List (BstRes N)}
    {t : Bst N Unit} (h : splayExecs ops Bst.empty = .ok (rs, t)) :
    costs (fun t op => op.visits t) ops Bst.empty ≤ ops.length * (8 * Nat.log 2 (inserts ops) + 3) := by
  have := run_cost ops ho h (inserts ops) (by simp [Bst.empty, BTree.nodes])
  simp only [Bst.empty, BTree.ranks] at this ⊢
  omega

/-- C103: without removals this is the whole work, and such a history always runs to its end. -/
theorem C103_insert_search (ops : List (SplayOp N)) (ho : ∀ o ∈ ops, ∃ a, o = .insert a ∨ o = .contains a) :
    costs SplayOp.work ops Bst.empty ≤ ops.length * (8 * Nat.log 2 (inserts ops) + 3) := by
  obtain ⟨rs, t, h, _⟩ := C47_history ops ho
  have h1 := C103_amortised_partial ops (fun o h => by obtain ⟨a, rfl | rfl⟩ := ho o h <;> rfl) h
  suffices H : ∀ t, costs SplayOp.work ops t = costs (fun t op => op.visits t) ops t by rw [H]; exact h1
  clear * - ho
  induction ops with
  | nil => intro t; rfl
  | cons o ops ih =>
    intro t
    simp only [costs]
    have e : o.work t.root = o.visits t.root := by
      obtain ⟨a, rfl | rfl⟩ := ho o (by simp) <;> simp [SplayOp.work, SplayOp.sinks]
    rw [e]
    cases splayExec t o with
    | error e => rfl
    | ok p => simp only [ih (fun o h => ho o (by simp [h])) p.2]

/-- C103: the same from any tree whatever, of `n` nodes: the tree may owe `2 n log₂ n` visits. -/
theorem C103_from_any_tree (ops : List (SplayOp N)) (ho : ∀ o ∈ ops, o.splays = true) {rs : List (BstRes N)}
    {t t' : Bst N Unit} (h : splayExecs ops t = .ok (rs, t')) :
    costs (fun t op => op.visits t) ops t ≤ 2 * (t.root.nodes * Nat.log 2 t.root.nodes) +
      ops.length * (8 * Nat.log 2 (t.root.nodes + inserts ops) + 3) := by
  have h1 := run_cost ops ho h _ le_rfl
  have h2 := ranks_le t.root
  omega

/-- C103: a single call can look at every node: after `n + 1` insertions in falling order the search for the
largest number does. -/
theorem C103_single_call (n : Nat) : ∃ ops : List (SplayOp Nat), ops.length = n + 1 ∧
    ∃ rs t, splayExecs ops Bst.empty = .ok (rs, t) ∧ (SplayOp.contains (.num n)).visits t.root = n + 1 := by
  obtain ⟨rs, e⟩ := run_down (n + 1)
  refine ⟨down (n + 1), by simp [down], rs, _, e, ?_⟩
  suffices H : ∀ n i, ((chain i (n + 1)).search (i + n)).length = n by
    have := H n 0
    rw [Nat.zero_add] at this
    simp only [SplayOp.visits, this]
    rw [if_neg (by simp [chain])]
  intro n
  induction n with
  | zero => intro i; rw [Nat.add_zero, (chain_search i 0).1]; rfl
  | succ n ih =>
    intro i
    rw [chain, search_node, if_neg (by simp), if_neg (by simp), if_neg (by simp [chain]), List.length_cons,
      show i + (n + 1) = i + 1 + n by omega, ih]

/-- C103, negation: a history of `m` calls with removals, or with calls of `get_max`, can cost more than
any multiple of `m (log₂ m + 1)`. -/
theorem C103_fails :
    (¬ ∃ c, ∀ (ops : List (SplayOp Nat)) rs t, (∀ o ∈ ops, o.splays = true) →
      splayExecs ops Bst.empty = .ok (rs, t) →
      costs SplayOp.work ops Bst.empty ≤ ops.length * (c * (Nat.log 2 ops.length + 1))) ∧
    (¬ ∃ c, ∀ (ops : List (SplayOp Nat)) rs t, (∀ o ∈ ops, (∃ a, o = .insert a) ∨ o = .getMax) →
      splayExecs ops Bst.empty = .ok (rs, t) →
      costs SplayOp.work ops Bst.empty ≤ ops.length * (c * (Nat.log 2 ops.length + 1))) := by
  constructor
  · rintro ⟨c, hc⟩
    obtain ⟨n, hn⟩ := no_bound (8 * c)
    obtain ⟨rs, e1⟩ := run_down (n + 1)
    obtain ⟨ss, t, e2, e3⟩ := run_up n 0 ((n + 1 : Nat) : Int)
    obtain ⟨e4, e5⟩ := run_append _ _ e1 e2
    have h := hc _ _ _ (fun o ho => ?_) e4
    · have h2 : costs (fun t op => op.sinks t) (down (n + 1) ++ up 0 n) Bst.empty ≤
          costs SplayOp.work (down (n + 1) ++ up 0 n) Bst.empty :=
        costs_mono (fun t o => by simp [SplayOp.work]) _ _
      rw [e5] at h2
      have hl : (down (n + 1) ++ up 0 n).length = 2 * n + 1 := by simp [down, up]; omega
      rw [hl] at h
      have hpos : 0 < n := by
        rcases Nat.eq_zero_or_pos n with rfl | h
        · simp at hn
        · exact h
      have h3 : Nat.log 2 (2 * n + 1) ≤ Nat.log 2 (2 * n) + 1 := by
        rw [← Nat.log_mul_base (by omega) (by omega : 2 * n ≠ 0)]
        exact Nat.log_mono_right (by omega)
      generalize Nat.log 2 (2 * n + 1) = a at *
      generalize Nat.log 2 (2 * n) = b at *
      have h4 : (2 * n + 1) * (c * (a + 1)) ≤ (4 * n) * (c * (2 * (b + 1))) := by
        gcongr <;> omega
      have h5 : (4 * n) * (c * (2 * (b + 1))) = 8 * (n * (c * (b + 1))) := by ring
      have h6 : 2 * n * (8 * c * (b + 1)) = 16 * (n * (c * (b + 1))) := by ring
      rw [h6] at hn
      rw [h5] at h4
      generalize n * (c * (b + 1)) = y at *
      generalize (2 * n + 1) * (c * (a + 1)) = z at *
      clear h5 h6
      generalize n * n = q at *
      omega
    · rcases List.mem_append.1 ho with ho | ho
      · simp only [down, List.mem_map] at ho; obtain ⟨_, _, rfl⟩ := ho; rfl
      · simp only [up, List.mem_map] at ho; obtain ⟨_, _, rfl⟩ := ho; rfl
  · rintro ⟨c, hc⟩
    obtain ⟨n, hn⟩ := no_bound (8 * c)
    obtain ⟨rs, e1⟩ := run_down (n + 1)
    obtain ⟨ss, e2, e3⟩ := run_max n n ((n + 1 : Nat) : Int)
    obtain ⟨e4, e5⟩ := run_append _ _ e1 e2
    have h := hc _ _ _ (fun o ho => ?_) e4
    · have h2 : costs (fun t op => op.visits t) (down (n + 1) ++ List.replicate n .getMax) Bst.empty ≤
          costs SplayOp.work (down (n + 1) ++ List.replicate n .getMax) Bst.empty :=
        costs_mono (fun t o => by simp [SplayOp.work]) _ _
      rw [e5, e3] at h2
      have hl : (down (n + 1) ++ List.replicate n SplayOp.getMax).length = 2 * n + 1 := by simp [down]; omega
      rw [hl] at h
      have hpos : 0 < n := by
        rcases Nat.eq_zero_or_pos n with rfl | h
        · simp at hn
        · exact h
      have h3 : Nat.log 2 (2 * n + 1) ≤ Nat.log 2 (2 * n) + 1 := by
        rw [← Nat.log_mul_base (by omega) (by omega : 2 * n ≠ 0)]
        exact Nat.log_mono_right (by omega)
      generalize Nat.log 2 (2 * n + 1) = a at *
      generalize Nat.log 2 (2 * n) = b at *
      have h4 : (2 * n + 1) * (c * (a + 1)) ≤ (4 * n) * (c * (2 * (b + 1))) := by
        gcongr <;> omega
      have h5 : (4 * n) * (c * (2 * (b + 1))) = 8 * (n * (c * (b + 1))) := by ring
      have h6 : 2 * n * (8 * c * (b + 1)) = 16 * (n * (c * (b + 1))) := by ring
      rw [h6] at hn
      rw [h5] at h4
      generalize n * (c * (b + 1)) = y at *
      generalize (2 * n + 1) * (c * (a + 1)) = z at *
      clear h5 h6
      rw [Nat.mul_add] at h2
      generalize n * n = q at *
      omega
    · rcases List.mem_append.1 ho with ho | ho
      · simp only [down, List.mem_map] at ho; obtain ⟨_, _, rfl⟩ := ho; exact .inl ⟨_, rfl⟩
      · exact .inr (List.eq_of_mem_replicate ho)

/-- five insertions in falling order, two searches, a removal: a history of `C103_amortised_partial`, with
its costs -/
private def someOps : List (SplayOp (Fin 20)) :=
  [.insert (.num 5), .insert (.num 4), .insert (.num 3), .insert (.num 2), .insert (.num 1),
    .contains (.num 5), .contains (.num 7), .remove (.num 1)]

example : (∀ o ∈ someOps, o.splays = true) ∧ (∃ rs t, splayExecs someOps Bst.empty = .ok (rs, t)) ∧
    costs (fun t op => op.visits t) someOps Bst.empty = 17 ∧ costs SplayOp.work someOps Bst.empty = 17 ∧
    inserts someOps = 5 := by
  refine ⟨by decide, ?_, by decide +kernel, by decide +kernel, rfl⟩
  cases h : splayExecs someOps Bst.empty with
  | ok p => exact ⟨p.1, p.2, rfl⟩
  | error e =>
    have : (splayExecs someOps Bst.empty).toBool = true := by decide +kernel
    rw [h] at this; cases this

/-- `remove` of the first number of a chain swaps its way to the end without splaying -/
example : (SplayOp.remove (.num 0)).sinks (chain 0 6) = 4 ∧ (SplayOp.remove (.num 0)).visits (chain 0 6) = 2 := by
  decide +kernel

end Extra
