import Verif.Lists.PrioNan

/-!
# A priority queue without `nan` among the priorities, and the extreme of a list (helper lemmas)
-/

set_option linter.unusedSectionVars false

namespace Extra
variable {V P : Type} [PyData V] [PyShow V] [LinearOrder P] [BoundedOrder P] [Inhabited P]

/-- a call, its priority taken as a number that is not `nan` -/
def numPrioOp : PQOp V P → PQOp V (PyNum P)
  | .enqueue item (.num p) => .enqueue item (.num (.num p))
  | .enqueue item (.none r) => .enqueue item (.none (.num r))
  | .enqueue item .other => .enqueue item .other
  | .dequeue low => .dequeue low
  | .top => .top
  | .len => .len
  | .isEmpty => .isEmpty
  | .isFull => .isFull
  | .clear => .clear
  | .repr => .repr

/-- a pair of an item and a priority, taken as a number that is not `nan` -/
def numPair (y : V × P) : V × PyNum P := (y.1, .num y.2)

/-- the same for a queue -/
def numState (s : PAbs V P) : PAbs V (PyNum P) := ⟨s.xs.map numPair, .num s.minP, .num s.maxP, s.st⟩

theorem pyMin_num (a b : P) : pyMin (.num a) (.num b) = .num (min a b) := by
  simp only [pyMin, PyNum.lt, decide_eq_true_eq]
  by_cases h : b < a
  · rw [if_pos h, min_eq_right h.le]
  · rw [if_neg h, min_eq_left (not_lt.1 h)]

theorem pyMax_num (a b : P) : pyMax (.num a) (.num b) = .num (max a b) := by
  simp only [pyMax, PyNum.lt, decide_eq_true_eq]
  by_cases h : a < b
  · rw [if_pos h, max_eq_right h.le]
  · rw [if_neg h, max_eq_left (not_lt.1 h)]

theorem fit_map {α β : Type} (f : α → β) (cap : Option Nat) (xs : List α) : fit cap (xs.map f) = (fit cap xs).map f := by
  cases cap with
  | none => rfl
  | some c => simp [fit]

theorem nqFind_num (key : P) (xs : List (V × P)) :
    nqFind (.num key) (xs.map numPair) = (xs.find? fun y => decide (y.2 = key)).map numPair := by
  rw [nqFind, List.find?_map]
  rfl

theorem eraseP_num (key : P) : ∀ xs : List (V × P),
    (xs.map numPair).eraseP (fun y => y.2.eq (.num key)) = (xs.eraseP fun y => decide (y.2 = key)).map numPair
  | [] => rfl
  | x :: xs => by
    rw [List.map_cons, List.eraseP_cons, List.eraseP_cons, eraseP_num key xs]
    simp only [numPair, PyNum.eq]
    cases decide (x.2 = key) <;> rfl

theorem nqErase_num (key : P) : ∀ xs : List (V × P),
    nqErase (.num key) (xs.map numPair) = (codeErase key xs).map numPair
  | [] => rfl
  | [x] => eraseP_num key [x]
  | [x, b] => eraseP_num key [x, b]
  | x :: b :: c :: bs => by
    have := eraseP_num key (b :: c :: bs)
    simp only [List.map_cons] at this ⊢
    rw [nqErase, codeErase, this]
    simp only [numPair, PyNum.eq, decide_eq_true_eq]
    split <;> rfl

theorem nqCache_fold (low : Bool) : ∀ (xs : List (V × P)) (acc : P),
    (xs.map numPair).foldl (fun acc y => if low then pyMin y.2 acc else pyMax y.2 acc) (.num acc) =
      .num ((xs.map Prod.snd).foldl (fun acc p => (if low then min else max) p acc) acc)
  | [], _ => rfl
  | x :: xs, acc => by
    have : (if low then pyMin (numPair x).2 (.num acc) else pyMax (numPair x).2 (.num acc)) =
        (.num ((if low then min else max) x.2 acc) : PyNum P) := by
      cases low <;> simp [numPair, pyMin_num, pyMax_num]
    rw [List.map_cons, List.foldl_cons, this, nqCache_fold low xs]
    rfl

theorem nqCache_num (low : Bool) (xs : List (V × P)) : nqCache low (xs.map numPair) = .num (codeCache low xs) := by
  rw [nqCache, codeCache, ← nqCache_fold]
  cases low <;> rfl

theorem nqStep_num (cap : Option Nat) (op : PQOp V P) (s : PAbs V P) :
    nqStep cap (numPrioOp op) (numState s) = ((codeStep cap op s).1, numState (codeStep cap op s).2) := by
  have hlen : (numState s).xs.length = s.xs.length := by simp [numState]
  have hemp : (numState s).xs.isEmpty = s.xs.isEmpty := by cases h : s.xs <;> simp [numState, h]
  have hfst : (numState s).xs.map Prod.fst = s.xs.map Prod.fst := by
    simp [numState, numPair, Function.comp_def]
  cases op with
  | enqueue item prio =>
    cases item <;> cases prio <;>
      simp [numPrioOp, nqStep, codeStep, validateItem, storeItem, PrioArg.value, givenPrio, nqEnqueue, numState,
        pyMin_num, pyMax_num, ← fit_map, numPair]
  | dequeue low =>
    simp only [numPrioOp, nqStep, nqDequeue, codeStep, hemp]
    by_cases he : s.xs.isEmpty = true
    · simp [he]
    · rw [if_neg he, if_neg he]
      have hk : (if low then (numState s).minP else (numState s).maxP) = .num (if low then s.minP else s.maxP) := by
        cases low <;> rfl
      rw [hk, show (numState s).xs = s.xs.map numPair from rfl, nqFind_num]
      cases hf : s.xs.find? fun y => decide (y.2 = if low then s.minP else s.maxP) with
      | none => simp
      | some x =>
        simp only [Option.map_some, nqErase_num, nqCache_num, List.length_map]
        cases low <;> simp [numState, numPair]
  | top =>
    simp only [numPrioOp, nqStep, codeStep, hemp]
    congr 2
    simp [numState, List.getLast?_map, numPair, Function.comp_def]
  | len => simp [numPrioOp, nqStep, codeStep, hlen]
  | isEmpty => simp [numPrioOp, nqStep, codeStep, hemp]
  | isFull => simp [numPrioOp, nqStep, codeStep, hlen]
  | clear => rfl
  | repr => simp only [numPrioOp, nqStep, codeStep, hfst]; rfl

theorem nqRun_num (cap : Option Nat) : ∀ (ops : List (PQOp V P)) (s : PAbs V P),
    nqRun cap (ops.map numPrioOp) (numState s) = ((codeRun cap ops s).1, numState (codeRun cap ops s).2)
  | [], _ => rfl
  | op :: ops, s => by
    rw [List.map_cons, nqRun, nqStep_num, nqRun_num cap ops]
    rfl

/-- `m` is the least (greatest) of the numbers -/
def Outermost (low : Bool) (m : P) (ps : List P) : Prop := m ∈ ps ∧ ∀ p ∈ ps, if low then m ≤ p else p ≤ m

theorem fold_outermost (low : Bool) : ∀ (ps : List P) (acc : P),
    Outermost low (ps.foldl (fun acc p => (if low then min else max) p acc) acc) (acc :: ps)
  | [], acc => by simp [Outermost]
  | p :: ps, acc => by
    obtain ⟨h1, h2⟩ := fold_outermost low ps ((if low then min else max) p acc)
    rw [List.foldl_cons]
    generalize List.foldl _ _ ps = m at h1 h2 ⊢
    refine ⟨?_, ?_⟩
    · rcases List.mem_cons.1 h1 with h | h
      · rw [h]
        cases low <;> simp only [if_true, if_false, Bool.false_eq_true]
        · rcases max_choice p acc with e | e <;> rw [e] <;> simp
        · rcases min_choice p acc with e | e <;> rw [e] <;> simp
      · exact List.mem_cons_of_mem _ (List.mem_cons_of_mem _ h)
    · intro r hr
      have h0 := h2 _ List.mem_cons_self
      rcases List.mem_cons.1 hr with rfl | hr
      · cases low <;> simp_all
      · rcases List.mem_cons.1 hr with rfl | hr
        · cases low <;> simp_all
        · exact h2 r (List.mem_cons_of_mem _ hr)

/-- the priorities that are numbers -/
def numbersOf (ys : List (V × PyNum P)) : List P := ys.filterMap fun y => match y.2 with | .nan => none | .num p => some p

end Extra
