import Verif.Lists.PrioNanProofs
import Batteries.Lean.Except
import Mathlib.Order.Fin.Basic

/-!
# C121: `nan` for a priority

Full statement: `dequeue` of a `PriorityQueue` that is not empty returns an item, and no item it holds has a greater
priority (a smaller one, for `lowest_priority=True`), whatever numbers the priorities are.  With `nan` it is false even
for queues that are only ever dequeued in one direction and never full: `C121_nan`.
-/

set_option linter.unusedSectionVars false

namespace Extra
variable {V P : Type} [PyData V] [PyShow V] [LinearOrder P] [BoundedOrder P] [Inhabited P]

/-! ## Without `nan` -/

/-- Without `nan` these functions answer as the model with pointers does, for every history of calls. -/
theorem C121_without_nan_partial {a : CapArg} {cap : Option Nat} (ha : initCap a = .ok cap) :
    ∃ q : PQueue V P, PQueue.init a = .ok q ∧
      ∀ ops, (nqRun cap (ops.map numPrioOp) nqStart).1 = (q.execs ops).1 := by
  obtain ⟨q, h1, h2, I⟩ := PInv.init (V := V) (P := P) ha
  refine ⟨q, h1, fun ops => ?_⟩
  rw [(prio_run ops I).1, h2]
  have := nqRun_num cap ops (⟨[], ⊤, ⊥, none⟩ : PAbs V P)
  rw [show numState (⟨[], ⊤, ⊥, none⟩ : PAbs V P) = nqStart from rfl] at this
  rw [this]

/-! ## With `nan` -/

/-- After a dequeue the remembered priority is looked for again, from the newest item to the oldest.  A `nan` on the way
makes it forget what came before: what is remembered is the least (greatest) priority of the items older than the oldest
with `nan`, or `nan` if there are none. -/
theorem C121_cache (low : Bool) (as : List (V × PyNum P)) (v : V) (bs : List (V × P)) :
    (bs = [] → nqCache low (as ++ (v, .nan) :: bs.map numPair) = .nan) ∧
    (bs ≠ [] → ∃ m, nqCache low (as ++ (v, .nan) :: bs.map numPair) = .num m ∧ Outermost low m (bs.map Prod.snd)) := by
  have hn : ∀ acc : PyNum P, (if low then pyMin .nan acc else pyMax .nan acc) = (.nan : PyNum P) := by
    intro acc
    cases low <;> cases acc <;> rfl
  rw [nqCache, List.foldl_append, List.foldl_cons]
  simp only [hn]
  refine ⟨fun h => by subst h; rfl, fun h => ?_⟩
  cases bs with
  | nil => exact absurd rfl h
  | cons b bs =>
    refine ⟨_, ?_, fold_outermost low (bs.map Prod.snd) b.2⟩
    rw [List.map_cons, List.foldl_cons, ← nqCache_fold]
    congr 1
    cases low <;> rfl

/-- What `dequeue` does, whatever is held and remembered: the newest item whose priority is a number equal to the one
remembered, if there is one; otherwise it raises, and changes nothing. -/
theorem C121_dequeue (low : Bool) (s : PAbs V (PyNum P)) (hx : s.xs ≠ []) :
    (∃ as v k bs, s.xs = as ++ (v, .num k) :: bs ∧ (if low then s.minP else s.maxP) = .num k ∧
        (∀ y ∈ as, y.2 ≠ .num k) ∧ (nqDequeue low s).1 = .ok (.item (some v), false) ∧
        (nqDequeue low s).2.xs.map Prod.fst = as.map Prod.fst ++ bs.map Prod.fst) ∨
    ((∀ y ∈ s.xs, ∀ k, y.2 = .num k → (if low then s.minP else s.maxP) ≠ .num k) ∧
      nqDequeue low s = (.error .unboundLocalError, s)) := by
  have he : s.xs.isEmpty = false := by simpa using hx
  have heq : ∀ (a b : PyNum P), a.eq b = true ↔ ∃ k, a = .num k ∧ b = .num k := by
    intro a b
    cases a <;> cases b <;> simp [PyNum.eq, eq_comm]
  rw [nqDequeue, he, if_neg Bool.false_ne_true]
  simp only
  generalize hkey : (if low then s.minP else s.maxP) = key
  cases hf : nqFind key s.xs with
  | none =>
    refine .inr ⟨fun y hy k hk hc => ?_, rfl⟩
    rw [nqFind, List.find?_eq_none] at hf
    exact hf y hy ((heq _ _).2 ⟨k, hk, hc⟩)
  | some x =>
    left
    rw [nqFind, List.find?_eq_some_iff_append] at hf
    obtain ⟨hxk, as, bs, hs, has⟩ := hf
    obtain ⟨k, h1, h2⟩ := (heq _ _).1 hxk
    obtain ⟨v, p⟩ := x
    simp only at h1
    subst h1 h2
    refine ⟨as, v, k, bs, hs, rfl, fun y hy h => ?_, rfl, ?_⟩
    · have := has y hy
      simp [h, PyNum.eq] at this
    · show (nqErase (.num k) s.xs).map Prod.fst = _
      have hno : ∀ y ∈ as, ¬ y.2.eq (.num k) = true := fun y hy h => by simpa [h] using has y hy
      have her : (as ++ (v, PyNum.num k) :: bs).eraseP (fun y => y.2.eq (.num k)) = as ++ bs := by
        rw [List.eraseP_append_right _ hno, List.eraseP_cons_of_pos (by simp [PyNum.eq])]
      rw [hs]
      cases as with
      | nil =>
        match bs with
        | [] => simp [nqErase, PyNum.eq]
        | [b] => simp [nqErase, PyNum.eq]
        | b :: c :: bs => simp [nqErase, PyNum.eq]
      | cons a as =>
        have ha : ¬ a.2.eq (.num k) = true := hno a List.mem_cons_self
        rw [show nqErase (.num k) (a :: as ++ (v, .num k) :: bs) =
            (a :: as ++ (v, PyNum.num k) :: bs).eraseP fun y => y.2.eq (.num k) from ?_, her, List.map_append]
        rw [List.cons_append]
        cases hl : as ++ (v, PyNum.num k) :: bs with
        | nil => simp at hl
        | cons b t =>
          cases t with
          | nil => rfl
          | cons c t => rw [nqErase, if_neg ha, List.eraseP_cons_of_neg (p := fun y : V × PyNum P => y.2.eq (.num k)) ha]

/-- Once the priority remembered for a direction is `nan`, every `dequeue` in this direction raises while there are items,
until `clear` is called. -/
theorem C121_stuck (low : Bool) (cap : Option Nat) : ∀ (ops : List (PQOp V (PyNum P))) (s : PAbs V (PyNum P)),
    (if low then s.minP else s.maxP) = .nan → .clear ∉ ops →
    let s' := (nqRun cap ops s).2
    (if low then s'.minP else s'.maxP) = .nan ∧
    (s'.xs ≠ [] → nqDequeue low s' = (.error .unboundLocalError, s'))
  | [], s, h, _ => by
    refine ⟨h, fun hx => ?_⟩
    show nqDequeue low s = (.error .unboundLocalError, s)
    rcases C121_dequeue low s hx with ⟨_, _, _, _, _, h2, _⟩ | ⟨_, h2⟩
    · rw [h] at h2; simp at h2
    · exact h2
  | op :: ops, s, h, hc => by
    refine C121_stuck low cap ops _ ?_ (fun hm => hc (List.mem_cons_of_mem _ hm))
    cases op with
    | enqueue item prio =>
      rw [nqStep]
      cases validateItem item with
      | error e => exact h
      | ok v =>
        cases prio.value with
        | error e => exact h
        | ok p =>
          cases low
          · simp only [nqEnqueue, Bool.false_eq_true, if_false] at h ⊢
            rw [h]; cases p <;> rfl
          · simp only [nqEnqueue, if_true] at h ⊢
            rw [h]; cases p <;> rfl
    | dequeue low' =>
      rw [nqStep]
      by_cases hx : s.xs = []
      · rw [nqDequeue]
        simpa [hx] using h
      · by_cases hl : low' = low
        · subst hl
          rcases C121_dequeue low' s hx with ⟨_, _, _, _, _, h2, _⟩ | ⟨_, h2⟩
          · rw [h] at h2; simp at h2
          · rw [h2]; exact h
        · rw [nqDequeue]
          have he : s.xs.isEmpty = false := by simpa using hx
          rw [he, if_neg Bool.false_ne_true]
          simp only
          cases nqFind (if low' then s.minP else s.maxP) s.xs with
          | none => exact h
          | some x => cases low <;> cases low' <;> simp_all
    | clear => exact absurd List.mem_cons_self hc
    | top => exact h
    | len => exact h
    | isEmpty => exact h
    | isFull => exact h
    | repr => exact h

/-- If items were only enqueued, into a queue without a limit, `nan` does no harm: `dequeue` returns the newest of the items
with the greatest (least) of the priorities that are numbers.  If all are `nan` it raises. -/
theorem C121_first_dequeue_partial (low : Bool) (ys : List (V × PyNum P)) (hy : ys ≠ []) :
    let s := ys.foldl (fun s y => nqEnqueue none y.1 y.2 s) nqStart
    s.xs = ys.reverse ∧
    (∀ k, Outermost low k (numbersOf ys) →
      ∃ v, (ys.reverse.find? fun y => decide (y.2 = .num k)) = some (v, .num k) ∧
        (nqDequeue low s).1 = .ok (.item (some v), false)) ∧
    ((∀ y ∈ ys, y.2 = .nan) → nqDequeue low s = (.error .unboundLocalError, s)) := by
  have key : ∀ (ys : List (V × PyNum P)) (s : PAbs V (PyNum P)) (a b : P), s.minP = .num a → s.maxP = .num b →
      let t := ys.foldl (fun s y => nqEnqueue none y.1 y.2 s) s
      t.xs = ys.reverse ++ s.xs ∧
      t.minP = .num ((numbersOf ys).foldl (fun acc p => min p acc) a) ∧
      t.maxP = .num ((numbersOf ys).foldl (fun acc p => max p acc) b) := by
    intro ys
    induction ys with
    | nil => intro s a b ha hb; exact ⟨rfl, ha, hb⟩
    | cons y ys ih =>
      intro s a b ha hb
      obtain ⟨v, p⟩ := y
      cases p with
      | nan =>
        obtain ⟨h1, h2, h3⟩ := ih (nqEnqueue none v .nan s) a b (by simp [nqEnqueue, ha, pyMin, PyNum.lt])
          (by simp [nqEnqueue, hb, pyMax, PyNum.lt])
        exact ⟨by rw [List.foldl_cons, h1]; simp [nqEnqueue, fit], h2, h3⟩
      | num p =>
        obtain ⟨h1, h2, h3⟩ := ih (nqEnqueue none v (.num p) s) (min a p) (max b p) (by simp [nqEnqueue, ha, pyMin_num])
          (by simp [nqEnqueue, hb, pyMax_num])
        refine ⟨by rw [List.foldl_cons, h1]; simp [nqEnqueue, fit], ?_, ?_⟩
        · rw [List.foldl_cons, h2, min_comm]; rfl
        · rw [List.foldl_cons, h3, max_comm]; rfl
  obtain ⟨h1, h2, h3⟩ := key ys nqStart ⊤ ⊥ rfl rfl
  intro s
  have hxs : s.xs = ys.reverse := by rw [show s.xs = _ from h1]; simp [nqStart]
  have hcache : (if low then s.minP else s.maxP) =
      .num ((numbersOf ys).foldl (fun acc p => (if low then min else max) p acc) (if low then ⊤ else ⊥)) := by
    cases low
    · exact h3
    · exact h2
  have hne : s.xs ≠ [] := by rw [hxs]; simpa using hy
  refine ⟨hxs, fun k hk => ?_, fun hall => ?_⟩
  · have hk' : (if low then s.minP else s.maxP) = .num k := by
      rw [hcache]
      congr 1
      have ho := fold_outermost low (numbersOf ys) (if low then ⊤ else ⊥ : P)
      generalize List.foldl _ _ (numbersOf ys) = m at ho ⊢
      obtain ⟨ho1, ho2⟩ := ho
      have a1 := ho2 k (List.mem_cons_of_mem _ hk.1)
      rcases List.mem_cons.1 ho1 with h | h
      · cases low
        · simp at h a1; subst h; exact (le_bot_iff.1 a1).symm
        · simp at h a1; subst h; exact (top_le_iff.1 a1).symm
      · have a2 := hk.2 m h
        cases low
        · exact le_antisymm (by simpa using a2) (by simpa using a1)
        · exact le_antisymm (by simpa using a1) (by simpa using a2)
    have hmem : ∃ y ∈ ys.reverse, y.2 = .num k := by
      have := hk.1
      rw [numbersOf, List.mem_filterMap] at this
      obtain ⟨y, hy, e⟩ := this
      refine ⟨y, List.mem_reverse.2 hy, ?_⟩
      revert e
      cases y.2 <;> simp
    rcases C121_dequeue low s hne with ⟨as, v, k', bs, e1, e2, e3, e4, _⟩ | ⟨e1, _⟩
    · obtain rfl : k = k' := by rw [hk'] at e2; exact PyNum.num.inj e2
      refine ⟨v, ?_, e4⟩
      rw [← hxs, e1, List.find?_append, List.find?_eq_none.2 (fun y hy => by simpa using e3 y hy)]
      simp
    · obtain ⟨y, hy, e⟩ := hmem
      exact absurd hk' (e1 y (hxs ▸ hy) k e)
  · rcases C121_dequeue low s hne with ⟨as, v, k', bs, e1, _⟩ | ⟨_, e⟩
    · have : (v, PyNum.num k') ∈ ys := by
        rw [← List.mem_reverse, ← hxs, e1]; simp
      exact absurd (hall _ this) (by simp)
    · exact e

/-! ## Examples -/

/-- `enqueue(i, p)`, with `none` for `nan` -/
def putPrioNan (i : Int) : Option (Fin 21) → PQOp Val (PyNum (Fin 21))
  | none => .enqueue (.val (.int i)) (.num .nan)
  | some p => .enqueue (.val (.int i)) (.num (.num p))

/-- One item with priority `nan`: `dequeue()` raises `UnboundLocalError`.  Priorities `nan`, 5, 7: `dequeue()` returns the
item with 7, then raises although the item with 5 is there.  Priorities 1, `nan`, 9, 3, 10: after the item with 10 comes
the one with 1, although the item with 9 is there. -/
theorem C121_nan :
    (nqRun none [putPrioNan 0 none, .dequeue false] nqStart).1 = [.ok (.unit, false), .error .unboundLocalError] ∧
    (nqRun none [putPrioNan 0 none, putPrioNan 1 (some 5), putPrioNan 2 (some 7), .dequeue false, .dequeue false, .len] nqStart).1.drop 3 =
      [.ok (.item (some (.int 2)), false), .error .unboundLocalError, .ok (.nat 2, false)] ∧
    (nqRun none [putPrioNan 1 (some 1), putPrioNan 2 none, putPrioNan 3 (some 9), putPrioNan 4 (some 3), putPrioNan 5 (some 10),
        .dequeue false, .dequeue false] nqStart).1.drop 5 =
      [.ok (.item (some (.int 5)), false), .ok (.item (some (.int 1)), false)] := by
  decide +kernel

/-- `C121_cache` where items older than the one with `nan` are left, and `C121_first_dequeue_partial` with `nan` -/
example : nqCache false [(1, (.num 9 : PyNum (Fin 21))), (2, .nan), (3, .num 4), (4, .num 6)] = .num 6 := by decide +kernel
example : Outermost false (7 : Fin 21) (numbersOf [(1, .num 5), (2, .nan), (3, .num 7), (4, .num 2)]) := by
  simp only [Outermost, numbersOf]; decide

end Extra
