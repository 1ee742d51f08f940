import Verif.Trees.HeapMirrorSpec
import Mathlib.Order.Monotone.Basic
import Mathlib.Order.Lattice
import Mathlib.Order.MinMax

/-!
# Heaps of replaced numbers
-/

set_option linter.unusedSectionVars false
set_option linter.unusedSimpArgs false

namespace Extra
variable {N M : Type} [LinearOrder N] [BoundedOrder N] [LinearOrder M] [BoundedOrder M]
variable {f : N → M}

theorem bhGet_map (f : N → M) (xs : List N) (i : Nat) : bhGet (xs.map f) i = (bhGet xs i).map f := by
  simp only [bhGet, List.getElem?_map]
  cases xs[i]? <;> rfl

theorem bhSwap_map (f : N → M) (xs : List N) (i j : Nat) (a b : N) :
    bhSwap (xs.map f) i j (f a) (f b) = (bhSwap xs i j a b).map f := by
  simp [bhSwap, List.map_set]

theorem bhWrong_map (hf : StrictAnti f) (m : Bool) (a b : N) :
    bhWrong (!m) (f a) (f b) = bhWrong m a b := by
  cases m <;> simp [bhWrong, hf.lt_iff_gt]

theorem siftUp_map (hf : StrictAnti f) (m : Bool) : ∀ (fuel : Nat) (xs : List N) (i : Nat),
    siftUp (!m) fuel (xs.map f) i = (siftUp m fuel xs i).map (List.map f)
  | 0, xs, i => by
    unfold siftUp
    split <;> rfl
  | fuel + 1, xs, i => by
    unfold siftUp
    split
    · rfl
    · simp only [bhGet_map]
      cases h1 : bhGet xs i with
      | error e => simp [bind, Except.bind, Except.map]
      | ok a =>
        cases h2 : bhGet xs ((i - 1) / 2) with
        | error e => simp [bind, Except.bind, Except.map]
        | ok b =>
          simp only [bind, Except.bind, Except.map, bhWrong_map hf, bhSwap_map]
          split
          · exact siftUp_map hf m fuel _ _
          · rfl

theorem numArg_map (f : N → M) (v : NumArg N) : numArg (v.mirror f) = (numArg v).map f := by
  cases v <;> rfl

theorem bhInsert_map (hf : StrictAnti f) (m : Bool) (xs : List N) (v : NumArg N) :
    bhInsert (!m) (xs.map f) (v.mirror f) = (bhInsert m xs v).map (List.map f) := by
  simp only [bhInsert, numArg_map]
  cases numArg v with
  | error e => rfl
  | ok v =>
    simp only [bind, Except.bind, Except.map, List.length_map]
    have := siftUp_map hf m (xs.length + 1) (xs ++ [v]) xs.length
    rw [List.map_append, List.map_singleton] at this
    rw [this]
    rfl

theorem pickChild_map (hf : StrictAnti f) (m : Bool) (xs : List N) (last i : Nat) :
    pickChild (!m) (xs.map f) last i = pickChild m xs last i := by
  simp only [pickChild, bhGet_map]
  split
  · rfl
  · cases bhGet xs (i * 2 + 1) with
    | error e => rfl
    | ok a =>
      cases bhGet xs (i * 2 + 2) with
      | error e => rfl
      | ok b => cases m <;> simp [bind, Except.bind, Except.map, hf.lt_iff_gt]

theorem siftDown_map (hf : StrictAnti f) (m : Bool) (last : Nat) : ∀ (fuel : Nat) (xs : List N) (i : Nat),
    siftDown (!m) last fuel (xs.map f) i = (siftDown m last fuel xs i).map (List.map f)
  | 0, xs, i => by
    unfold siftDown
    split <;> rfl
  | fuel + 1, xs, i => by
    unfold siftDown
    split
    · simp only [bhGet_map, pickChild_map hf]
      cases bhGet xs i with
      | error e => rfl
      | ok a =>
        cases pickChild m xs last i with
        | error e => rfl
        | ok o =>
          cases o with
          | none => rfl
          | some c =>
            simp only [bind, Except.bind, Except.map]
            cases bhGet xs c with
            | error e => rfl
            | ok b =>
              simp only [bhWrong_map hf, bhSwap_map]
              split
              · exact siftDown_map hf m last fuel _ _
              · rfl
    · rfl

theorem mem_map_inj {f : N → M} (hf : Function.Injective f) {v : N} {xs : List N} :
    f v ∈ xs.map f ↔ v ∈ xs := by
  rw [List.mem_map]
  exact ⟨fun ⟨a, ha, e⟩ => hf e ▸ ha, fun h => ⟨v, h, rfl⟩⟩

theorem idxOf_map {f : N → M} (hf : Function.Injective f) (v : N) : ∀ xs : List N,
    (xs.map f).idxOf (f v) = xs.idxOf v
  | [] => rfl
  | x :: xs => by
    have ih := idxOf_map hf v xs
    by_cases h : x = v
    · subst h; simp
    · have h' : f x ≠ f v := fun e => h (hf e)
      have b1 : (x == v) = false := beq_false_of_ne h
      have b2 : (f x == f v) = false := beq_false_of_ne h'
      rw [List.map_cons, List.idxOf_cons, List.idxOf_cons, b1, b2, ih]

theorem bhRemove_map (hf : StrictAnti f) (hb : f ⊥ = ⊤) (ht : f ⊤ = ⊥) (m : Bool) (xs : List N)
    (v : NumArg N) : bhRemove (!m) (xs.map f) (v.mirror f) =
      (bhRemove m xs v).map (fun r => (r.1.map f, r.2)) := by
  simp only [bhRemove, List.map_eq_nil_iff]
  split
  · simp_all [Except.map]
  · cases v with
    | none => rfl
    | other => rfl
    | num v =>
      simp only [NumArg.mirror, mem_map_inj hf.injective]
      split
      · simp only [List.length_map, bhGet_map, idxOf_map hf.injective]
        cases bhGet xs (xs.length - 1) with
        | error e => rfl
        | ok l =>
          simp only [bind, Except.bind, Except.map]
          have e : ((if (!m) = true then ⊥ else ⊤ : M)) = f (if m = true then ⊥ else ⊤) := by
            cases m <;> simp [hb, ht]
          rw [e, bhSwap_map, ← List.map_set, siftDown_map hf]
          generalize siftDown m (xs.length - 1) xs.length ((bhSwap xs (xs.length - 1) (xs.idxOf v) l v).set
            (xs.length - 1) (if m = true then ⊥ else ⊤)) (xs.idxOf v) = r
          cases r with
          | error e => rfl
          | ok ws => simp [Except.map, List.map_dropLast]
      · rfl

theorem bhFirst_map (f : N → M) (xs : List N) : bhFirst (xs.map f) = (bhFirst xs).map f := by
  simp only [bhFirst, List.map_eq_nil_iff, bhGet_map]
  split <;> rfl

theorem foldl_map_anti {g : N → N → N} {g' : M → M → M} (h : ∀ a b, g' (f a) (f b) = f (g a b)) :
    ∀ (xs : List N) (a : N), (xs.map f).foldl g' (f a) = f (xs.foldl g a)
  | [], _ => rfl
  | x :: xs, a => by
    rw [List.map_cons, List.foldl_cons, List.foldl_cons, h, foldl_map_anti h]

theorem bhFarthest_map (hf : StrictAnti f) (m : Bool) (xs : List N) :
    bhFarthest (!m) (xs.map f) = (bhFarthest m xs).map f := by
  simp only [bhFarthest, List.map_eq_nil_iff, List.length_map, ← List.map_drop]
  split
  · rfl
  · generalize xs.drop (xs.length / 2) = ys
    cases ys with
    | nil => rfl
    | cons y ys =>
      simp only [pyExtreme, List.map_cons, Except.map]
      congr 1
      apply foldl_map_anti
      intro a b
      cases m
      · simpa using (hf.antitone.map_min).symm
      · simpa using (hf.antitone.map_max).symm

/-- a node with the number replaced -/
def HNode.mirror (f : N → M) (n : HNode N) : HNode M := ⟨f n.data, n.left, n.right⟩

theorem transformLoop_map (f : N → M) (xs : List N) : ∀ (fuel : Nat) (nodes : List (HNode N))
    (q : List Nat) (i : Nat), transformLoop (xs.map f) fuel (nodes.map (HNode.mirror f)) q i =
      (transformLoop xs fuel nodes q i).map (List.map (HNode.mirror f))
  | 0, nodes, q, i => by
    unfold transformLoop
    rw [List.length_map]
    split
    · rfl
    · rfl
  | fuel + 1, nodes, [], i => by
    unfold transformLoop
    rw [List.length_map]
    split
    · rfl
    · rfl
  | fuel + 1, nodes, p :: q, i => by
    have e1 : ∀ (ns : List (HNode N)) (a : N) (g : HNode N → HNode N) (g' : HNode M → HNode M),
        (∀ n, g' (n.mirror f) = (g n).mirror f) →
        (ns.map (HNode.mirror f)).modify p g' ++ [⟨f a, none, none⟩] =
          (ns.modify p g ++ [(⟨a, none, none⟩ : HNode N)]).map (HNode.mirror f) := by
      intro ns a g g' h
      rw [List.map_append]
      congr 1
      apply List.ext_getElem?
      intro j
      simp only [List.getElem?_map, List.getElem?_modify]
      cases ns[j]? with
      | none => rfl
      | some n => by_cases hj : p = j <;> simp [hj, h]
    unfold transformLoop
    rw [List.length_map]
    split
    · simp only [bhGet_map]
      cases bhGet xs i with
      | error e => rfl
      | ok a =>
        simp only [bind, Except.bind, Except.map, List.length_map]
        rw [e1 nodes a (fun nd => { nd with left := some nodes.length }) _ (fun n => rfl)]
        split
        · cases bhGet xs (i + 1) with
          | error e => rfl
          | ok b =>
            simp only []
            rw [e1 _ b (fun nd => { nd with right := some (nodes.modify p (fun nd => { nd with left := some nodes.length }) ++ [(⟨a, none, none⟩ : HNode N)]).length }) _ (fun n => by simp [HNode.mirror]), List.length_map]
            exact transformLoop_map f xs fuel _ _ _
        · exact transformLoop_map f xs fuel _ _ _
    · rfl

theorem transform_map (f : N → M) (xs : List N) :
    transform (xs.map f) = (transform xs).map (List.map (HNode.mirror f)) := by
  cases xs with
  | nil => rfl
  | cons x xs =>
    have := transformLoop_map f (x :: xs) (x :: xs).length [⟨x, none, none⟩] [0] 1
    simpa [transform, HNode.mirror] using this

theorem hnode_map (f : N → M) (nodes : List (HNode N)) (i : Nat) :
    hnode (nodes.map (HNode.mirror f)) i = (hnode nodes i).map (fun r => (f r.1, r.2)) := by
  simp only [hnode, List.getElem?_map]
  cases nodes[i]? <;> rfl

theorem levelLoop_map (f : N → M) (nodes : List (HNode N)) : ∀ is : List Nat,
    levelLoop (nodes.map (HNode.mirror f)) is =
      (levelLoop nodes is).map (fun r => (r.1.map f, r.2))
  | [] => rfl
  | i :: is => by
    simp only [levelLoop, hnode_map, levelLoop_map f nodes is]
    cases hnode nodes i with
    | error e => rfl
    | ok r =>
      cases levelLoop nodes is with
      | error e => rfl
      | ok r => rfl

theorem levelsLoop_map (f : N → M) (nodes : List (HNode N)) : ∀ (fuel : Nat) (is : List Nat),
    levelsLoop (nodes.map (HNode.mirror f)) fuel is = (levelsLoop nodes fuel is).map (List.map f)
  | _, [] => by simp [levelsLoop, Except.map]
  | 0, _ :: _ => rfl
  | fuel + 1, i :: is => by
    simp only [levelsLoop, levelLoop_map]
    cases levelLoop nodes (i :: is) with
    | error e => rfl
    | ok r =>
      simp only [bind, Except.bind, Except.map, levelsLoop_map f nodes fuel]
      cases levelsLoop nodes fuel r.2 with
      | error e => rfl
      | ok rest => simp [Except.map]

theorem bhIter_map (f : N → M) (xs : List N) : bhIter (xs.map f) = (bhIter xs).map (List.map f) := by
  simp only [bhIter, transform_map]
  cases transform xs with
  | error e => rfl
  | ok nodes => simp only [bind, Except.bind, Except.map, levelsLoop_map, List.length_map]

theorem bhMin_mirror (hf : StrictAnti f) (h : BinHeap N) : bhMin (h.mirror f) = (bhMax h).map f := by
  obtain ⟨m, xs⟩ := h
  cases m
  · simp [bhMin, bhMax, BinHeap.mirror, bhFirst_map]
  · simpa [bhMin, bhMax, BinHeap.mirror] using bhFarthest_map hf true xs

theorem bhMax_mirror (hf : StrictAnti f) (h : BinHeap N) : bhMax (h.mirror f) = (bhMin h).map f := by
  obtain ⟨m, xs⟩ := h
  cases m
  · simpa [bhMin, bhMax, BinHeap.mirror] using bhFarthest_map hf false xs
  · simp [bhMin, bhMax, BinHeap.mirror, bhFirst_map]

theorem upd_mirror (f : N → M) (h : BinHeap N) (r : Except Err (List N × Bool)) :
    (h.mirror f).upd (r.map (fun r => (r.1.map f, r.2))) =
      (mirrorRes f (h.upd r).1, (h.upd r).2.mirror f) := by
  cases r <;> rfl

theorem exec_mirror (hf : StrictAnti f) (hb : f ⊥ = ⊤) (ht : f ⊤ = ⊥) (h : BinHeap N) (op : BHOp N) :
    (h.mirror f).exec (op.mirror f) = (mirrorRes f (h.exec op).1, (h.exec op).2.mirror f) := by
  have rem : ∀ r : Except Err N,
      (r.map f >>= fun m => bhRemove (h.mirror f).isMin (h.mirror f).arr (.num m)) =
        (r >>= fun m => bhRemove h.isMin h.arr (.num m)).map (fun r => (r.1.map f, r.2)) := by
    intro r
    cases r with
    | error e => rfl
    | ok v => exact bhRemove_map hf hb ht h.isMin h.arr (.num v)
  cases op with
  | insert v =>
    simp only [BHOp.mirror, BinHeap.exec]
    rw [← upd_mirror]
    congr 1
    rw [show (h.mirror f).isMin = !h.isMin from rfl, show (h.mirror f).arr = h.arr.map f from rfl,
      bhInsert_map hf]
    cases bhInsert h.isMin h.arr v <;> rfl
  | remove v =>
    simp only [BHOp.mirror, BinHeap.exec]
    rw [← upd_mirror, show (h.mirror f).isMin = !h.isMin from rfl,
      show (h.mirror f).arr = h.arr.map f from rfl, bhRemove_map hf hb ht]
  | removeMin =>
    simp only [BHOp.mirror, BinHeap.exec]
    rw [← upd_mirror, bhMax_mirror hf, rem]
  | removeMax =>
    simp only [BHOp.mirror, BinHeap.exec]
    rw [← upd_mirror, bhMin_mirror hf, rem]
  | getMin =>
    simp only [BHOp.mirror, BinHeap.exec, bhMax_mirror hf]
    cases bhMin h <;> rfl
  | getMax =>
    simp only [BHOp.mirror, BinHeap.exec, bhMin_mirror hf]
    cases bhMax h <;> rfl
  | contains v =>
    cases v with
    | num v =>
      simp [BHOp.mirror, BinHeap.exec, NumArg.mirror, mirrorRes, BHVal.mirror, BinHeap.mirror,
        mem_map_inj hf.injective]
    | none => rfl
    | other => rfl
  | len => simp [BHOp.mirror, BinHeap.exec, mirrorRes, BHVal.mirror, BinHeap.mirror]
  | isEmpty => simp [BHOp.mirror, BinHeap.exec, mirrorRes, BHVal.mirror, BinHeap.mirror]
  | iter =>
    simp only [BHOp.mirror, BinHeap.exec, BinHeap.mirror, bhIter_map]
    cases bhIter h.arr <;> rfl
  | toList => rfl
  | clear => rfl

end Extra
