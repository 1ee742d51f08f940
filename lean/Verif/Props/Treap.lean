import Verif.Trees.TreapProofs
import Mathlib.Order.Fin.Basic
import Mathlib.Algebra.Order.Ring.Int
import Batteries.Lean.Except

/-!
# Properties C50-C53: Treap

`treapExec`/`treapExecs` run API calls on the model (Verif/Trees/Treap.lean).  The specification is a map
from numbers to priorities, a list of pairs with increasing numbers: `mapExec`/`mapExecs` say what each
call should answer and what the map is afterwards (Verif/Trees/TreapSpec.lean).
-/

set_option linter.unusedSectionVars false
set_option linter.unusedSimpArgs false

namespace Extra
variable {N P : Type} [LinearOrder N] [LinearOrder P]

/-- a treap that stands for a map: a search tree in heap order with these pairs from left to right -/
structure TreapOf (t : Bst N P) (m : List (N × P)) : Prop where
  search : SearchTree t.root
  heap : TreapOrdered t.root
  pairs : t.root.inorder = m
  len : t.length = (m.length : Int)

private theorem contains_iff (t : Bst N P) (hs : SearchTree t.root) (v : N) :
    t.contains (.num v) = decide (v ∈ t.root.keys) := by
  obtain ⟨t, n⟩ := t
  have h := dataAt_search v t hs
  cases t with
  | nil => simp [Bst.contains]
  | node l w r => simp only [Bst.contains]; exact decide_eq_decide.2 h

private theorem insert_step (t : Bst N P) (m : List (N × P)) (h : TreapOf t m) (v : N) (p : P) :
    ∀ q : TreapPrio P, q.value = .ok p → ∃ t',
      treapInsertNum t (.num v) q = .ok (.ok (.unit, decide (v ∈ m.map Prod.fst)), t') ∧
        TreapOf t' (mapInsert (v, p) m) := by
  intro q hq
  obtain ⟨hs, hh, rfl, hl⟩ := h
  obtain ⟨t, n⟩ := t
  cases t with
  | nil =>
    refine ⟨⟨.node .nil (v, p) .nil, n + 1⟩, ?_, ?_, ?_, ?_, ?_⟩
    · simp [treapInsertNum, validNum, hq]
    · simp [SearchTree]
    · rw [← heapI_iff]; simp [heapI]
    · simp [mapInsert]
    · simp only at hl ⊢; rw [hl]; simp [mapInsert]
  | node l w r =>
    obtain ⟨t', on, e, ok⟩ := treapInsert_ok (v, p) (.node l w r)
    have hf := insertNode_flag (v, p) (.node l w r) hs
    have hlen := insertNode_length (v, p) (.node l w r)
    have hi := insertNode_inorder (v, p) (.node l w r) hs
    have hk : (BTree.node l w r).inorder.map Prod.fst = (BTree.node l w r).keys := rfl
    refine ⟨⟨t', if ((BTree.node l w r).insertNode (v, p)).2 then n + 1 else n⟩, ?_, ?_, ?_, ?_, ?_⟩
    · simp only [treapInsertNum, validNum, hq, e, bind, Except.bind, pure, Except.pure]
      rw [hk]
      cases hb : ((BTree.node l w r).insertNode (v, p)).2 with
      | true => rw [decide_eq_false (hf.1 hb)]; rfl
      | false =>
        have : v ∈ (BTree.node l w r).keys := by
          by_contra hc; rw [hf.2 hc] at hb; cases hb
        rw [decide_eq_true this]; rfl
    · unfold SearchTree; rw [ok.inorder]; exact insertNode_sorted (v, p) _ hs
    · rw [← heapI_iff] at hh ⊢; exact ok.heap hh
    · rw [ok.inorder, hi]
    · simp only at hl ⊢
      rw [hl, ← hi, ← List.length_map (f := Prod.fst), ← List.length_map (f := Prod.fst)]
      change _ = (((BTree.node l w r).insertNode (v, p)).1.keys.length : Int)
      rw [hlen, hk]
      cases ((BTree.node l w r).insertNode (v, p)).2 <;> simp

private theorem filter_length (m : List (N × P)) (v : N) (hs : (m.map Prod.fst).Pairwise (· < ·))
    (hv : v ∈ m.map Prod.fst) : (m.filter (fun w => w.1 ≠ v)).length + 1 = m.length := by
  induction m with
  | nil => simp at hv
  | cons w m ih =>
    simp only [List.map_cons, List.pairwise_cons] at hs
    by_cases e : w.1 = v
    · have : m.filter (fun w => w.1 ≠ v) = m := by
        rw [List.filter_eq_self]
        intro x hx
        have := hs.1 x.1 (List.mem_map_of_mem hx)
        simp only [ne_eq, decide_not, Bool.not_eq_true', decide_eq_false_iff_not]
        rw [← e]; exact this.ne'
      rw [List.filter_cons_of_neg (by simp [e]), this]; simp
    · rw [List.filter_cons_of_pos (by simp [e])]
      simp only [List.map_cons, List.mem_cons] at hv
      have := ih hs.2 (hv.resolve_left (Ne.symm e))
      simp only [List.length_cons]; omega

private theorem remove_step (m1 : P) (t : Bst N P) (m : List (N × P)) (h : TreapOf t m) (v : N) :
    (∃ t', treapRemoveNum m1 t (.num v) = .ok (.ok (.unit, decide (v ∉ m.map Prod.fst)), t') ∧
        TreapOf t' (m.filter (fun w => w.1 ≠ v))) ∨
      (treapRemoveNum m1 t (.num v) = .error .attributeError ∧ v ∈ m.map Prod.fst ∧
        ∃ x ∈ m, x.2 ≤ m1) := by
  obtain ⟨hs, hh, rfl, hl⟩ := h
  obtain ⟨t, n⟩ := t
  simp only at hs hh hl ⊢
  have hk : t.inorder.map Prod.fst = t.keys := rfl
  have same : v ∉ t.keys → TreapOf ⟨t, n⟩ (t.inorder.filter (fun w => w.1 ≠ v)) := by
    intro hv
    have : t.inorder.filter (fun w => w.1 ≠ v) = t.inorder := by
      rw [List.filter_eq_self]
      intro x hx
      simp only [ne_eq, decide_not, Bool.not_eq_true', decide_eq_false_iff_not]
      rintro rfl
      exact hv (List.mem_map_of_mem hx)
    rw [this]
    exact ⟨hs, hh, rfl, hl⟩
  have general : (∀ w, t ≠ .node .nil w .nil) → t ≠ .nil → (∃ t',
      treapRemoveNum m1 ⟨t, n⟩ (.num v) = .ok (.ok (.unit, decide (v ∉ t.keys)), t') ∧
        TreapOf t' (t.inorder.filter (fun w => w.1 ≠ v))) ∨
      (treapRemoveNum m1 ⟨t, n⟩ (.num v) = .error .attributeError ∧ v ∈ t.keys ∧
        ∃ x ∈ t.inorder, x.2 ≤ m1) := by
    intro h1 h2
    have hex : treapRemoveNum m1 ⟨t, n⟩ (.num v) = (do
        match ← t.treapRemove m1 v with
        | none => pure (.ok (.unit, true), ⟨t, n⟩)
        | some (s, _) => pure (.ok (.unit, false), ⟨s, n - 1⟩)) := by
      rcases t with _ | ⟨_ | _, w, _ | _⟩
      · exact absurd rfl h2
      · exact absurd rfl (h1 w)
      all_goals rfl
    rw [hex]
    rcases treapRemove_out m1 v t hs with ⟨hv, e⟩ | ⟨hv, t', c, e, i, sd, hp⟩ | ⟨hv, e, low⟩
    · exact .inl ⟨⟨t, n⟩, by simp [e, bind, Except.bind, hv, pure, Except.pure], same hv⟩
    · refine .inl ⟨⟨t', n - 1⟩, by simp [e, bind, Except.bind, hv, pure, Except.pure], ?_, ?_, i, ?_⟩
      · unfold SearchTree
        rw [i]
        exact List.Pairwise.sublist (List.filter_sublist.map _) hs
      · rw [← heapI_iff] at hh ⊢; exact (hp hh).1
      · have := filter_length t.inorder v hs hv
        simp only
        omega
    · exact .inr ⟨by simp [e, bind, Except.bind], hv, low⟩
  rcases t with _ | ⟨_ | ⟨a, b, c⟩, w, _ | ⟨a', b', c'⟩⟩
  · exact .inl ⟨⟨.nil, n⟩, by simp [treapRemoveNum], same (by simp)⟩
  · left
    by_cases e : v = w.1
    · refine ⟨⟨.nil, n - 1⟩, by simp [treapRemoveNum, e], ?_, ?_, ?_, ?_⟩
      · simp [SearchTree]
      · rw [← heapI_iff]; trivial
      · simp [e]
      · simp at hl
        simp [e, hl]
    · exact ⟨⟨.node .nil w .nil, n⟩, by simp [treapRemoveNum, e], same (by simp [e])⟩
  · exact general (by simp) (by simp)
  · exact general (by simp) (by simp)
  · exact general (by simp) (by simp)

theorem treapOf_step (m1 : P) (t : Bst N P) (m : List (N × P)) (h : TreapOf t m) (op : TreapOp N P) :
    (∃ t', treapExec m1 t op = .ok ((mapExec m op).1, t') ∧ TreapOf t' (mapExec m op).2) ∨
      (treapExec m1 t op = .error .attributeError ∧ ∃ v, op = .remove (.num v) ∧ v ∈ m.map Prod.fst ∧
        ∃ x ∈ m, x.2 ≤ m1) := by
  cases op with
  | insert v p =>
    left
    rcases v with v | _ | _
    · rcases p with p | p | _
      · exact insert_step t m h v p (.num p) rfl
      · exact insert_step t m h v p (.none p) rfl
      · exact ⟨t, rfl, h⟩
    · exact ⟨t, rfl, h⟩
    · exact ⟨t, rfl, h⟩
  | remove v =>
    rcases v with v | _ | _
    · rcases remove_step m1 t m h v with h | ⟨e, hv, low⟩
      · exact .inl h
      · exact .inr ⟨e, v, rfl, hv, low⟩
    · exact .inl ⟨t, rfl, h⟩
    · exact .inl ⟨t, rfl, h⟩
  | contains v =>
    left
    rcases v with v | _ | _
    · refine ⟨t, ?_, h⟩
      simp only [treapExec, mapExec, contains_iff t h.search, BTree.keys, h.pairs]
    · exact ⟨t, rfl, h⟩
    · exact ⟨t, rfl, h⟩
  | getMin =>
    refine .inl ⟨t, ?_, ?_⟩
    · simp only [treapExec, mapExec, Bst.getMin, minNode_head, h.pairs]
      cases m.head? <;> rfl
    · simp only [mapExec]
      cases m.head? <;> exact h
  | getMax =>
    refine .inl ⟨t, ?_, ?_⟩
    · simp only [treapExec, mapExec, Bst.getMax, maxNode_last, h.pairs]
      cases m.getLast? <;> rfl
    · simp only [mapExec]
      cases m.getLast? <;> exact h
  | len => exact .inl ⟨t, by simp [treapExec, mapExec, h.len], h⟩
  | inorder => exact .inl ⟨t, by simp [treapExec, mapExec, BTree.keys, h.pairs], h⟩
  | clear =>
    refine .inl ⟨Bst.empty, rfl, ?_, ?_, rfl, rfl⟩
    · simp [SearchTree, Bst.empty]
    · rw [← heapI_iff]; trivial

theorem treapOf_empty : TreapOf (Bst.empty : Bst N P) [] := by
  refine ⟨?_, ?_, rfl, rfl⟩
  · simp [SearchTree, Bst.empty]
  · rw [← heapI_iff]; trivial

private theorem history (m1 : P) (ops : List (TreapOp N P)) (t : Bst N P) (m : List (N × P))
    (h : TreapOf t m) :
    (∃ t', treapExecs m1 ops t = .ok ((mapExecs ops m).1, t') ∧ TreapOf t' (mapExecs ops m).2) ∨
      (treapExecs m1 ops t = .error .attributeError ∧ ∃ pre v post, ops = pre ++ .remove (.num v) :: post ∧
        v ∈ (mapExecs pre m).2.map Prod.fst ∧ ∃ x ∈ (mapExecs pre m).2, x.2 ≤ m1) := by
  induction ops generalizing t m with
  | nil => exact .inl ⟨t, rfl, h⟩
  | cons op ops ih =>
    rcases treapOf_step m1 t m h op with ⟨t1, e, h1⟩ | ⟨e, v, rfl, hv, low⟩
    · rcases ih t1 _ h1 with ⟨t2, e2, h2⟩ | ⟨e2, pre, v, post, rfl, hv, low⟩
      · exact .inl ⟨t2, by simp [treapExecs, mapExecs, e, e2, bind, Except.bind, pure, Except.pure], h2⟩
      · exact .inr ⟨by simp [treapExecs, e, e2, bind, Except.bind], op :: pre, v, post, rfl, hv, low⟩
    · exact .inr ⟨by simp [treapExecs, e, bind, Except.bind], [], v, ops, rfl, hv, low⟩

/-! ## C50 -/

/-- C50: any history of calls other than `remove` on a new treap, with any priorities given or drawn,
returns, answers what the map answers, and leaves a treap that stands for the map: a search tree in heap order
with exactly the pairs of the map, and the right length. -/
theorem C50_inserts (m1 : P) (ops : List (TreapOp N P)) (hops : ∀ v, TreapOp.remove v ∉ ops) :
    ∃ t, treapExecs m1 ops Bst.empty = .ok ((mapExecs ops []).1, t) ∧ TreapOf t (mapExecs ops []).2 := by
  rcases history m1 ops Bst.empty [] treapOf_empty with h | ⟨_, pre, v, post, rfl, _⟩
  · exact h
  · exact absurd (by simp) (hops (.num v))

/-- C50: one insert into any treap. -/
theorem C50_insert (m1 : P) (t : Bst N P) (m : List (N × P)) (h : TreapOf t m) (v : N) (p : P) :
    ∃ t', treapExec m1 t (.insert (.num v) (.num p)) =
        .ok (.ok (.unit, decide (v ∈ m.map Prod.fst)), t') ∧ TreapOf t' (mapInsert (v, p) m) :=
  insert_step t m h v p (.num p) rfl

/-- four inserts, one of them of a number that is held -/
def treapSample : List (TreapOp (Fin 20) Int) :=
  [.insert (.num 5) (.num 40), .insert (.num 2) (.none 70), .insert (.num 9) (.num 70),
    .insert (.num 2) (.num 99), .inorder, .len]

example : ∀ v, TreapOp.remove v ∉ treapSample := by simp [treapSample]
example : (treapExecs (-1) treapSample Bst.empty).map (·.2.root) =
    .ok (.node .nil (2, 70) (.node (.node .nil (5, 40) .nil) (9, 70) .nil)) := by decide +kernel
example : mapExecs treapSample [] = ([.ok (.unit, false), .ok (.unit, false), .ok (.unit, false),
    .ok (.unit, true), .ok (.list [2, 5, 9], false), .ok (.int 3, false)], [(2, 70), (5, 40), (9, 70)]) := by
  decide +kernel

/-! ## C51 -/

/-- C51: a removal that returns takes out exactly the number, warns if it was not held, and keeps the search
order, the heap order and the length right. -/
theorem C51_remove (m1 : P) (t : Bst N P) (m : List (N × P)) (h : TreapOf t m) (v : N)
    (x : BstRes N × Bst N P) (hx : treapExec m1 t (.remove (.num v)) = .ok x) :
    x.1 = .ok (.unit, decide (v ∉ m.map Prod.fst)) ∧ TreapOf x.2 (m.filter (fun w => w.1 ≠ v)) := by
  rcases remove_step m1 t m h v with ⟨t', e, h'⟩ | ⟨e, _⟩
  · rw [treapExec, e] at hx
    cases hx
    exact ⟨rfl, h'⟩
  · rw [treapExec, e] at hx; cases hx

/-- C51: any history of calls that returns has the answers of the map and leaves a treap that stands for
the map. -/
theorem C51_history (m1 : P) (ops : List (TreapOp N P)) (rs : List (BstRes N)) (t : Bst N P)
    (h : treapExecs m1 ops Bst.empty = .ok (rs, t)) :
    rs = (mapExecs ops []).1 ∧ TreapOf t (mapExecs ops []).2 := by
  rcases history m1 ops Bst.empty [] treapOf_empty with ⟨t', e, h'⟩ | ⟨e, _⟩
  · rw [e] at h; cases h; exact ⟨rfl, h'⟩
  · rw [e] at h; cases h

example : (treapExecs (-1) (treapSample ++ [.remove (.num 9), .remove (.num 4)]) Bst.empty).map (·.2.root) =
    .ok (.node .nil (2, 70) (.node .nil (5, 40) .nil)) := by decide +kernel

/-! ## C52 -/

/-- C52, in part: if every priority used is higher than -1 no call raises from the middle (the priorities
the code draws are between 0 and 100).

Missing: lower priorities.  For them the code can raise, see `C52_raises`; `C52_only_attribute_error` says what
and when. -/
theorem C52_total_partial (m1 : P) (ops : List (TreapOp N P)) (hops : PrioritiesAbove m1 ops) :
    ∃ t, treapExecs m1 ops Bst.empty = .ok ((mapExecs ops []).1, t) := by
  have hm : ∀ (ops : List (TreapOp N P)) (m : List (N × P)), PrioritiesAbove m1 ops → (∀ x ∈ m, m1 < x.2) →
      ∀ x ∈ (mapExecs ops m).2, m1 < x.2 := by
    intro ops
    induction ops with
    | nil => exact fun m _ h => h
    | cons op ops ih =>
      intro m hops h
      have hins : ∀ v p, m1 < p → ∀ x ∈ mapInsert (v, p) m, m1 < x.2 := by
        intro v p hp
        clear ih
        induction m with
        | nil => simpa [mapInsert] using hp
        | cons w m ih =>
          intro x hx
          simp only [mapInsert] at hx
          split_ifs at hx
          · rcases List.mem_cons.1 hx with rfl | hx
            · exact hp
            · exact h x hx
          · exact h x hx
          · rcases List.mem_cons.1 hx with rfl | hx
            · exact h _ (by simp)
            · exact ih (fun x hx => h x (by simp [hx])) x hx
      refine ih _ (fun v p hp => hops v p (hp.imp (List.mem_cons_of_mem _) (List.mem_cons_of_mem _))) ?_
      cases op with
      | insert v p =>
        rcases v with v | _ | _
        · rcases p with p | p | _
          · exact hins v p (hops (.num v) p (.inl (by simp)))
          · exact hins v p (hops (.num v) p (.inr (by simp)))
          · exact h
        · exact h
        · exact h
      | remove v =>
        rcases v with v | _ | _
        · exact fun x hx => h x (List.mem_of_mem_filter hx)
        · exact h
        · exact h
      | contains v => rcases v with v | _ | _ <;> exact h
      | getMin => simp only [mapExec]; cases m.head? <;> exact h
      | getMax => simp only [mapExec]; cases m.getLast? <;> exact h
      | len => exact h
      | inorder => exact h
      | clear => exact fun x hx => by simp [mapExec] at hx
  rcases history m1 ops Bst.empty [] treapOf_empty with ⟨t, e, _⟩ | ⟨_, pre, v, post, rfl, _, x, hx, hx'⟩
  · exact ⟨t, e⟩
  · refine absurd hx' (not_le.2 (hm pre [] (fun v p hp => hops v p ?_) (by simp) x hx))
    exact hp.imp (fun h => by simp [h]) (fun h => by simp [h])

/-- C52: a history that does not return raises `AttributeError` in the removal of a number that is held,
at a time when some priority is at most -1. -/
theorem C52_only_attribute_error (m1 : P) (ops : List (TreapOp N P)) (e : Err)
    (h : treapExecs m1 ops Bst.empty = .error e) :
    e = .attributeError ∧ ∃ pre v post, ops = pre ++ .remove (.num v) :: post ∧
      v ∈ (mapExecs pre []).2.map Prod.fst ∧ ∃ x ∈ (mapExecs pre []).2, x.2 ≤ m1 := by
  rcases history m1 ops Bst.empty [] treapOf_empty with ⟨t', e', _⟩ | ⟨e', h'⟩
  · rw [e'] at h; cases h
  · rw [e'] at h; cases h; exact ⟨rfl, h'⟩

example : PrioritiesAbove (-1) (treapSample ++ [.remove (.num 9)]) := by
  unfold PrioritiesAbove
  simp only [treapSample, List.cons_append, List.nil_append, List.mem_cons, TreapOp.insert.injEq,
    TreapPrio.num.injEq, TreapPrio.none.injEq, reduceCtorEq, and_false, false_or, or_false, List.not_mem_nil]
  intro v p h
  rcases h with (h | h | h) | h <;> omega

/-- C52 fails: two numbers with the priorities -2 and -3; removing the one with -2 raises. -/
theorem C52_raises :
    treapExecs (-1) ([.insert (.num 1) (.num (-2)), .insert (.num 2) (.num (-3)), .remove (.num 1)] :
      List (TreapOp (Fin 20) Int)) Bst.empty = .error .attributeError := by decide +kernel

/-- C52 fails with the priority -1 itself, for a left child. -/
theorem C52_raises_minus_one :
    treapExecs (-1) ([.insert (.num 2) (.num 0), .insert (.num 1) (.num (-1)), .remove (.num 2)] :
      List (TreapOp (Fin 20) Int)) Bst.empty = .error .attributeError := by decide +kernel

/-! ## C53 -/

/-- C53: two treaps that stand for the same map with different priorities are the same tree. -/
theorem C53_unique (t t' : Bst N P) (m : List (N × P)) (h : TreapOf t m) (h' : TreapOf t' m)
    (hp : (m.map Prod.snd).Nodup) : t.root = t'.root := by
  refine treap_unique _ _ ((heapI_iff _).2 h.heap) ((heapI_iff _).2 h'.heap)
    (h.pairs.trans h'.pairs.symm) ?_
  rw [h.pairs]
  exact List.pairwise_map.1 hp

private theorem mapInsert_perm (v : N × P) (m : List (N × P)) (h : v.1 ∉ m.map Prod.fst) :
    (mapInsert v m).Perm (v :: m) := by
  induction m with
  | nil => simp [mapInsert]
  | cons w m ih =>
    simp only [List.map_cons, List.mem_cons, not_or] at h
    simp only [mapInsert, h.1, if_false]
    split_ifs
    · rfl
    · exact ((ih h.2).cons w).trans (List.Perm.swap v w m)

theorem inserts_perm (vs m : List (N × P)) (h : ((vs ++ m).map Prod.fst).Nodup) :
    (mapExecs (vs.map (fun v => TreapOp.insert (.num v.1) (.num v.2))) m).2.Perm (vs ++ m) := by
  induction vs generalizing m with
  | nil => exact List.Perm.refl _
  | cons v vs ih =>
    simp only [List.cons_append, List.map_cons, List.nodup_cons] at h
    have hv : v.1 ∉ m.map Prod.fst := fun k => h.1 (by rw [List.map_append]; exact List.mem_append_right _ k)
    have p1 := mapInsert_perm v m hv
    have p2 : (vs ++ mapInsert v m).Perm (v :: (vs ++ m)) :=
      (p1.append_left vs).trans List.perm_middle
    refine (ih (mapInsert v m) ?_).trans p2
    rw [(p2.map Prod.fst).nodup_iff, List.map_cons, List.nodup_cons]
    exact h

/-- C53: the same pairs of numbers and priorities, all different, inserted in two orders: both histories
return and the trees are the same. -/
theorem C53_order (m1 : P) (vs ws : List (N × P)) (hp : vs.Perm ws) (h1 : (vs.map Prod.fst).Nodup)
    (h2 : (vs.map Prod.snd).Nodup) :
    ∃ rs rs' t t', treapExecs m1 (vs.map (fun v => .insert (.num v.1) (.num v.2))) Bst.empty = .ok (rs, t) ∧
      treapExecs m1 (ws.map (fun v => .insert (.num v.1) (.num v.2))) Bst.empty = .ok (rs', t') ∧
      t.root = t'.root := by
  obtain ⟨t, e, h⟩ := C50_inserts m1 (vs.map (fun v => TreapOp.insert (.num v.1) (.num v.2))) (by simp)
  obtain ⟨t', e', h'⟩ := C50_inserts m1 (ws.map (fun v => TreapOp.insert (.num v.1) (.num v.2))) (by simp)
  refine ⟨_, _, t, t', e, e', ?_⟩
  have p1 := inserts_perm vs [] (by simpa using h1)
  have p2 := inserts_perm ws [] (by simpa using (hp.map Prod.fst).nodup_iff.1 h1)
  simp only [List.append_nil] at p1 p2
  generalize (mapExecs (vs.map (fun v => TreapOp.insert (.num v.1) (.num v.2))) []).2 = m at h p1
  generalize (mapExecs (ws.map (fun v => TreapOp.insert (.num v.1) (.num v.2))) []).2 = m' at h' p2
  have hm : m = m' := by
    have s1 : m.Pairwise (fun x y => x.1 < y.1) := by
      have := h.search; unfold SearchTree at this; rw [h.pairs] at this; exact List.pairwise_map.1 this
    have s2 : m'.Pairwise (fun x y => x.1 < y.1) := by
      have := h'.search; unfold SearchTree at this; rw [h'.pairs] at this; exact List.pairwise_map.1 this
    exact List.Perm.eq_of_pairwise (fun a b _ _ k1 k2 => absurd k1 (lt_asymm k2)) s1 s2
      (p1.trans (hp.trans p2.symm))
  subst hm
  exact C53_unique t t' m h h' ((p1.map Prod.snd).nodup_iff.2 h2)

example : (treapExecs (-1) (([(5, 40), (2, 70), (9, 10)] : List (Fin 20 × Int)).map
    (fun v => .insert (.num v.1) (.num v.2))) Bst.empty).map (·.2.root) =
    .ok (.node .nil (2, 70) (.node .nil (5, 40) (.node .nil (9, 10) .nil))) := by decide +kernel
example : (treapExecs (-1) (([(9, 10), (5, 40), (2, 70)] : List (Fin 20 × Int)).map
    (fun v => .insert (.num v.1) (.num v.2))) Bst.empty).map (·.2.root) =
    .ok (.node .nil (2, 70) (.node .nil (5, 40) (.node .nil (9, 10) .nil))) := by decide +kernel

/-- C53 needs different priorities: with equal ones the last number inserted is at the root. -/
theorem C53_equal_priorities :
    (treapExecs (-1) ([.insert (.num 1) (.num 7), .insert (.num 2) (.num 7)] : List (TreapOp (Fin 20) Int))
      Bst.empty).map (·.2.root.at []) = .ok (some (2, 7)) ∧
    (treapExecs (-1) ([.insert (.num 2) (.num 7), .insert (.num 1) (.num 7)] : List (TreapOp (Fin 20) Int))
      Bst.empty).map (·.2.root.at []) = .ok (some (1, 7)) := by decide +kernel

end Extra
