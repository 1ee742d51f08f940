import Verif.Lists.SkipListRefine
import Mathlib.Order.Fin.Basic
import Batteries.Lean.Except

/-!
# Properties of `SkipList`

C21: a sorted set whatever the coin flips.  C22: the towers are consistent.  C23: every number.
C72: `SkipList(sl)`.

Histories start from `SkipList()`.  `⊥` is `-inf`.
-/

set_option linter.unusedSectionVars false
set_option linter.unusedSimpArgs false

namespace Extra
variable {N : Type} [LinearOrder N] [OrderBot N]
attribute [local instance] numData

/-- the object after a history of calls on a new skip list -/
def skAfter (ops : List (SkOp N)) : SkipList N := (skExecs ops SkipList.new).2

/-- the result of one more call -/
def skAsk (op : SkOp N) (s : SkipList N) : Except Err (SkRes N) := (skExec op s).1

/-- no call of the history is given `-inf` -/
def NoMinusInf (ops : List (SkOp N)) : Prop := ∀ op ∈ ops, op.number ≠ some ⊥

/-- the calls of a history are the same but for the coin flips, and none asks for the height -/
inductive SameFlipless : List (SkOp N) → List (SkOp N) → Prop
  | nil : SameFlipless [] []
  | insert (x : NumArg N) (h h' : Nat) {ops ops' : List (SkOp N)} (t : SameFlipless ops ops') :
      SameFlipless (.insert x h :: ops) (.insert x h' :: ops')
  | same (op : SkOp N) (hn : op ≠ .height) {ops ops' : List (SkOp N)} (t : SameFlipless ops ops') :
      SameFlipless (op :: ops) (op :: ops')

/-- a history with several levels, deletions and refused arguments -/
def skSample : List (SkOp (Fin 20)) :=
  [.insert (.num 5) 0, .insert (.num 3) 2, .insert (.num 7) 1, .insert (.num 3) 0,
   .insert .none 0, .remove (.num 4), .remove (.num 7), .insert (.num 9) 3, .del (.int 0),
   .get (.int 1), .get (.int 2), .contains (.num 5), .len, .height, .toList]

theorem skSample_ok : NoMinusInf skSample := by
  intro op hop
  simp only [skSample, List.mem_cons, List.not_mem_nil, or_false] at hop
  rcases hop with rfl | rfl | rfl | rfl | rfl | rfl | rfl | rfl | rfl | rfl | rfl | rfl | rfl | rfl | rfl <;> decide

/-! ## C21 -/

/-- **C21.** Whatever the coin flips, every call of a history returns what a strictly increasing
list of the held numbers would. -/
theorem C21_history (ops : List (SkOp N)) (h : NoMinusInf ops) :
    (skExecs ops SkipList.new).1 = (skSpecs ops []).1 :=
  (skExecs_spec ops new_inv h).1

example : (skSpecs skSample []).1 =
    [.ok .unit, .ok .unit, .ok .unit, .ok .unit, .error .valueError, .ok .unit, .ok .unit, .ok .unit,
     .ok .unit, .ok (.data (some 9)), .error .indexError, .ok (.bool true), .ok (.nat 2),
     .ok (.nat 4), .ok (.list [some 5, some 9])] := by decide +kernel

theorem skAfter_inv (ops : List (SkOp N)) (h : NoMinusInf ops) :
    SkInv (skAfter ops) (skSpecs ops []).2 :=
  (skExecs_spec ops new_inv h).2

theorem skAsk_spec {s : SkipList N} {st : List (N × Nat)} (I : SkInv s st) {op : SkOp N}
    (hop : op.number ≠ some ⊥) : skAsk op s = (skSpec op st).1 := by
  obtain ⟨s', e, _⟩ := skExec_step I hop
  rw [skAsk, e]

/-- **C21.** After any history `to_list()` is a strictly increasing list; `in` is membership in it,
`sl[i]` its `i`-th element and `len` its length. -/
theorem C21_reads (ops : List (SkOp N)) (h : NoMinusInf ops) :
    ∃ xs : List N, skAsk .toList (skAfter ops) = .ok (.list (xs.map some)) ∧
      xs.Pairwise (· < ·) ∧
      (∀ v, v ≠ ⊥ → skAsk (.contains (.num v)) (skAfter ops) = .ok (.bool (decide (v ∈ xs)))) ∧
      (∀ (i : Nat) (hi : i < xs.length),
        skAsk (.get (.int i)) (skAfter ops) = .ok (.data (some xs[i]))) ∧
      (∀ i : Int, i < 0 ∨ (xs.length : Int) ≤ i →
        skAsk (.get (.int i)) (skAfter ops) = .error .indexError) ∧
      skAsk .len (skAfter ops) = .ok (.nat xs.length) ∧
      skAsk .isEmpty (skAfter ops) = .ok (.bool (decide (xs = []))) := by
  have I := skAfter_inv ops h
  have ok : TowerOk (skSpecs ops []).2 := I.choose_spec.2.2
  have hl : (towerVals (skSpecs ops []).2).length = (skSpecs ops []).2.length := by simp [towerVals]
  refine ⟨towerVals (skSpecs ops []).2, skAsk_spec I (by simp [SkOp.number]),
    (List.pairwise_cons.1 ok).2, ?_, ?_, ?_, ?_, ?_⟩
  · intro v hv
    exact skAsk_spec I (by simpa [SkOp.number] using hv)
  · intro i hi
    rw [skAsk_spec I (by simp [SkOp.number])]
    have hp : skPos (skSpecs ops []).2.length (.int i) = .ok i := by
      simp only [skPos]; rw [if_pos (by omega)]; simp
    simp only [skSpec, hp]
    rw [List.getElem?_eq_getElem hi]
  · intro i hi
    rw [skAsk_spec I (by simp [SkOp.number])]
    have hp : skPos (skSpecs ops []).2.length (.int i) = .error .indexError := by
      simp only [skPos]; rw [if_neg (by omega)]
    simp only [skSpec, hp]
  · rw [skAsk_spec I (by simp [SkOp.number]), hl]; rfl
  · rw [skAsk_spec I (by simp [SkOp.number])]
    simp [skSpec, towerVals]

theorem skAfter_append (ops : List (SkOp N)) (op : SkOp N) :
    skAfter (ops ++ [op]) = (skExec op (skAfter ops)).2 := by
  have : ∀ (ops : List (SkOp N)) (s : SkipList N),
      (skExecs (ops ++ [op]) s).2 = (skExec op (skExecs ops s).2).2 := by
    intro ops
    induction ops with
    | nil => intro s; rfl
    | cons o ops ih => intro s; simp only [List.cons_append, skExecs]; exact ih _
  exact this ops _

theorem skSpecs_append (op : SkOp N) : ∀ (ops : List (SkOp N)) (st : List (N × Nat)),
    (skSpecs (ops ++ [op]) st).2 = (skSpec op (skSpecs ops st).2).2
  | [], _ => rfl
  | _ :: ops, _ => skSpecs_append op ops _

theorem NoMinusInf.concat {ops : List (SkOp N)} {op : SkOp N} (h : NoMinusInf ops)
    (hop : op.number ≠ some ⊥) : NoMinusInf (ops ++ [op]) := by
  intro o ho
  rcases List.mem_append.1 ho with ho | ho
  · exact h o ho
  · rw [List.mem_singleton.1 ho]; exact hop

theorem towerVals_insert (v : N) (k : Nat) {st : List (N × Nat)} (hv : v ∉ towerVals st) (x : N) :
    x ∈ towerVals (towerInsert v k st) ↔ x = v ∨ x ∈ towerVals st := by
  simp only [towerVals, towerInsert, List.map_append, List.map_cons, List.mem_append, List.mem_cons,
    List.mem_map, List.mem_filter, decide_eq_true_eq] at hv ⊢
  constructor
  · rintro (⟨e, ⟨h1, _⟩, rfl⟩ | rfl | ⟨e, ⟨h1, _⟩, rfl⟩)
    · exact Or.inr ⟨e, h1, rfl⟩
    · exact Or.inl rfl
    · exact Or.inr ⟨e, h1, rfl⟩
  · rintro (rfl | ⟨e, h1, rfl⟩)
    · exact Or.inr (Or.inl rfl)
    · rcases lt_trichotomy e.1 v with h | h | h
      · exact Or.inl ⟨e, ⟨h1, h⟩, rfl⟩
      · exact absurd ⟨e, h1, h⟩ hv
      · exact Or.inr (Or.inr ⟨e, ⟨h1, h⟩, rfl⟩)

/-- **C21.** What each call changes: `insert` adds exactly its number, `remove` drops exactly its
number, `del sl[i]` drops exactly the `i`-th element of `to_list()`. -/
theorem C21_changes (ops : List (SkOp N)) (h : NoMinusInf ops) :
    ∃ xs : List N, skAsk .toList (skAfter ops) = .ok (.list (xs.map some)) ∧
      (∀ (v : N) (heads : Nat), v ≠ ⊥ → ∃ ys : List N,
        skAsk .toList (skAfter (ops ++ [.insert (.num v) heads])) = .ok (.list (ys.map some)) ∧
        ys.Pairwise (· < ·) ∧ ∀ x, x ∈ ys ↔ x = v ∨ x ∈ xs) ∧
      (∀ v : N, v ≠ ⊥ → ∃ ys : List N,
        skAsk .toList (skAfter (ops ++ [.remove (.num v)])) = .ok (.list (ys.map some)) ∧
        ys.Pairwise (· < ·) ∧ ∀ x, x ∈ ys ↔ x ≠ v ∧ x ∈ xs) ∧
      (∀ i : Nat, i < xs.length →
        skAsk .toList (skAfter (ops ++ [.del (.int i)])) =
          .ok (.list ((xs.eraseIdx i).map some))) := by
  have I := skAfter_inv ops h
  refine ⟨towerVals (skSpecs ops []).2, skAsk_spec I (by simp [SkOp.number]), ?_, ?_, ?_⟩
  · intro v heads hv
    have I' := skAfter_inv _ (h.concat (op := .insert (.num v) heads)
      (by simpa [SkOp.number] using hv))
    have ok : TowerOk (skSpecs (ops ++ [.insert (.num v) heads]) []).2 := I'.choose_spec.2.2
    refine ⟨_, skAsk_spec I' (by simp [SkOp.number]), (List.pairwise_cons.1 ok).2, ?_⟩
    intro x
    rw [skSpecs_append]
    simp only [skSpec]
    by_cases hin : v ∈ towerVals (skSpecs ops []).2
    · rw [if_pos hin]
      constructor
      · exact Or.inr
      · rintro (rfl | hx)
        · exact hin
        · exact hx
    · rw [if_neg hin]; exact towerVals_insert v heads hin x
  · intro v hv
    have I' := skAfter_inv _ (h.concat (op := .remove (.num v)) (by simpa [SkOp.number] using hv))
    have ok : TowerOk (skSpecs (ops ++ [.remove (.num v)]) []).2 := I'.choose_spec.2.2
    refine ⟨_, skAsk_spec I' (by simp [SkOp.number]), (List.pairwise_cons.1 ok).2, ?_⟩
    intro x
    rw [skSpecs_append]
    simp only [skSpec, towerRemove, towerVals, List.mem_map, List.mem_filter, decide_eq_true_eq]
    constructor
    · rintro ⟨e, ⟨h1, h2⟩, rfl⟩
      exact ⟨h2, e, h1, rfl⟩
    · rintro ⟨h2, e, h1, rfl⟩
      exact ⟨e, ⟨h1, h2⟩, rfl⟩
  · intro i hi
    have I' := skAfter_inv _ (h.concat (op := .del (.int i)) (by simp [SkOp.number]))
    rw [skAsk_spec I' (by simp [SkOp.number]), skSpecs_append]
    have hi' : i < (skSpecs ops []).2.length := by simpa [towerVals] using hi
    have hp : skPos (skSpecs ops []).2.length (.int i) = .ok i := by
      simp only [skPos]; rw [if_pos (by omega)]; simp
    simp only [skSpec, hp, towerVals]
    congr 3
    simp [List.eraseIdx_eq_take_drop_succ]

example : skAsk .toList (skAfter skSample) = .ok (.list [some 5, some 9]) ∧
    skAsk .toList (skAfter (skSample ++ [.insert (.num 6) 1])) =
      .ok (.list [some 5, some 6, some 9]) ∧
    skAsk .toList (skAfter (skSample ++ [.del (.int 1)])) = .ok (.list [some 5]) := by decide +kernel

/-- how a call depends on the abstract state: only through the held numbers -/
theorem skSpec_flipless (op : SkOp N) (hn : op ≠ .height) (h' : Nat) {st st' : List (N × Nat)}
    (e : towerVals st = towerVals st') :
    (skSpec op st).1 = (skSpec op st').1 ∧
      towerVals (skSpec op st).2 = towerVals (skSpec op st').2 ∧
      ∀ x h, op = .insert x h → (skSpec op st).1 = (skSpec (.insert x h') st').1 ∧
        towerVals (skSpec op st).2 = towerVals (skSpec (.insert x h') st').2 := by
  have hl : st.length = st'.length := by simpa [towerVals] using congrArg List.length e
  have hf : ∀ (p : N → Bool) (s : List (N × Nat)),
      towerVals (s.filter (fun e => p e.1)) = (towerVals s).filter p := by
    intro p s
    simp only [towerVals, List.filter_map]; rfl
  have hins : ∀ (v : N) (k : Nat) (s : List (N × Nat)), towerVals (towerInsert v k s) =
      (towerVals s).filter (fun x => decide (x < v)) ++ v ::
        (towerVals s).filter (fun x => decide (v < x)) := by
    intro v k s
    have h1 := hf (fun x => decide (x < v)) s
    have h2 := hf (fun x => decide (v < x)) s
    rw [← h1, ← h2]
    simp [towerInsert, towerVals]
  have main : ∀ (x : NumArg N) (h k : Nat), (skSpec (.insert x h) st).1 = (skSpec (.insert x k) st').1 ∧
      towerVals (skSpec (.insert x h) st).2 = towerVals (skSpec (.insert x k) st').2 := by
    intro x h k
    cases x with
    | num v =>
      refine ⟨rfl, ?_⟩
      simp only [skSpec, e]
      by_cases hv : v ∈ towerVals st'
      · rw [if_pos hv, if_pos hv]; exact e
      · rw [if_neg hv, if_neg hv, hins, hins, e]
    | none => exact ⟨rfl, e⟩
    | other => exact ⟨rfl, e⟩
  have er : ∀ (s : List (N × Nat)) (i : Nat), towerVals (s.eraseIdx i) = (towerVals s).eraseIdx i := by
    intro s i; simp [towerVals, List.eraseIdx_eq_take_drop_succ]
  have hnil : (st = []) ↔ (st' = []) := by
    rw [← List.length_eq_zero_iff, ← List.length_eq_zero_iff, hl]
  cases op with
  | insert x h =>
    exact ⟨(main x h h).1, (main x h h).2, fun x' k he => by cases he; exact main x h h'⟩
  | remove x =>
    cases x with
    | num v =>
      refine ⟨rfl, ?_, fun _ _ he => by cases he⟩
      have h1 := hf (fun x => decide (x ≠ v)) st
      have h2 := hf (fun x => decide (x ≠ v)) st'
      simp only [skSpec, towerRemove]
      rw [h1, h2, e]
    | none => exact ⟨rfl, e, fun _ _ he => by cases he⟩
    | other => exact ⟨rfl, e, fun _ _ he => by cases he⟩
  | del idx =>
    simp only [skSpec, hl]
    cases skPos st'.length idx with
    | ok i => exact ⟨rfl, by rw [er, er, e], fun _ _ he => by cases he⟩
    | error er => exact ⟨rfl, e, fun _ _ he => by cases he⟩
  | contains x =>
    cases x with
    | num v => exact ⟨by simp only [skSpec, e], e, fun _ _ he => by cases he⟩
    | none => exact ⟨rfl, e, fun _ _ he => by cases he⟩
    | other => exact ⟨rfl, e, fun _ _ he => by cases he⟩
  | get idx =>
    simp only [skSpec, hl, e]
    cases skPos st'.length idx with
    | ok i => exact ⟨rfl, e, fun _ _ he => by cases he⟩
    | error er => exact ⟨rfl, e, fun _ _ he => by cases he⟩
  | len => exact ⟨by simp only [skSpec, hl], e, fun _ _ he => by cases he⟩
  | isEmpty => exact ⟨by simp only [skSpec, hnil], e, fun _ _ he => by cases he⟩
  | height => exact absurd rfl hn
  | toList => exact ⟨by simp only [skSpec, e], e, fun _ _ he => by cases he⟩
  | clear => exact ⟨rfl, rfl, fun _ _ he => by cases he⟩

/-- **C21.** The coin flips are not observable: two histories that differ only in the flips return
the same results (but for `get_height`). -/
theorem C21_flips {ops ops' : List (SkOp N)} (hs : SameFlipless ops ops') (h : NoMinusInf ops) :
    (skExecs ops SkipList.new).1 = (skExecs ops' SkipList.new).1 := by
  have h' : NoMinusInf ops' := by
    induction hs with
    | nil => exact h
    | insert x k k' t ih =>
      have ih := ih (fun o ho => h o (List.mem_cons_of_mem _ ho))
      intro o ho
      rcases List.mem_cons.1 ho with rfl | ho
      · have := h _ List.mem_cons_self
        cases x <;> simp_all [SkOp.number]
      · exact ih o ho
    | same op hn t ih =>
      have ih := ih (fun o ho => h o (List.mem_cons_of_mem _ ho))
      intro o ho
      rcases List.mem_cons.1 ho with rfl | ho
      · exact h _ List.mem_cons_self
      · exact ih o ho
  rw [C21_history ops h, C21_history ops' h']
  have : ∀ {ops ops' : List (SkOp N)}, SameFlipless ops ops' → ∀ {st st' : List (N × Nat)},
      towerVals st = towerVals st' → (skSpecs ops st).1 = (skSpecs ops' st').1 := by
    intro ops ops' hs
    induction hs with
    | nil => intro st st' _; rfl
    | insert x k k' t ih =>
      intro st st' e
      have := (skSpec_flipless (.insert x k) (by simp) k' e).2.2 x k rfl
      simp only [skSpecs]
      rw [this.1, ih this.2]
    | same op hn t ih =>
      intro st st' e
      have := skSpec_flipless op hn 0 e
      simp only [skSpecs]
      rw [this.1, ih this.2.1]
  exact this hs rfl

example : SameFlipless (N := Fin 20)
    [.insert (.num 3) 2, .insert (.num 1) 0, .remove (.num 3), .toList]
    [.insert (.num 3) 0, .insert (.num 1) 5, .remove (.num 3), .toList] :=
  .insert _ _ _ (.insert _ _ _ (.same _ (by simp) (.same _ (by simp) .nil)))

/-- the numbers an iterable holds up to its first non-number -/
def numsOf : List (NumArg N × Nat) → List N
  | (.num v, _) :: xs => v :: numsOf xs
  | _ => []

/-- the exception the constructor should raise, if any -/
def badItem : List (NumArg N × Nat) → Option Err
  | [] => none
  | (.num _, _) :: xs => badItem xs
  | (.none, _) :: _ => some .valueError
  | (.other, _) :: _ => some .typeError

/-- **C21.** `SkipList(iterable)`: the first element that is not a number raises; otherwise
`to_list()` is the strictly increasing list of the elements, each once. -/
theorem C21_of_list (xs : List (NumArg N × Nat)) (h : ∀ x ∈ xs, x.1 ≠ .num ⊥) :
    match badItem xs with
    | some e => SkipList.ofList xs = .error e
    | none => ∃ (s : SkipList N) (ys : List N), SkipList.ofList xs = .ok s ∧ skAsk .toList s = .ok (.list (ys.map some)) ∧
        ys.Pairwise (· < ·) ∧ ∀ x, x ∈ ys ↔ x ∈ numsOf xs := by
  have : ∀ (xs : List (NumArg N × Nat)) (s : SkipList N) (st : List (N × Nat)), SkInv s st →
      (∀ x ∈ xs, x.1 ≠ .num ⊥) →
      match badItem xs with
      | some e => skFill xs s = .error e
      | none => ∃ s' st', skFill xs s = .ok s' ∧ SkInv s' st' ∧
          ∀ x, x ∈ towerVals st' ↔ x ∈ towerVals st ∨ x ∈ numsOf xs := by
    intro xs
    induction xs with
    | nil => intro s st I _; exact ⟨s, st, rfl, I, by simp [numsOf]⟩
    | cons y ys ih =>
      intro s st I hne
      obtain ⟨y, k⟩ := y
      cases y with
      | none => rfl
      | other => rfl
      | num v =>
        have hv : v ≠ ⊥ := by
          have := hne _ List.mem_cons_self
          simpa using this
        obtain ⟨s1, e1, I1⟩ := insert_step I hv k
        have ih := ih s1 _ I1 (fun x hx => hne x (List.mem_cons_of_mem _ hx))
        simp only [badItem, skFill, e1]
        cases hb : badItem ys with
        | some e => rw [hb] at ih; exact ih
        | none =>
          rw [hb] at ih
          obtain ⟨s', st', e2, I2, hm⟩ := ih
          refine ⟨s', st', e2, I2, ?_⟩
          intro x
          rw [hm, numsOf, List.mem_cons]
          by_cases hin : v ∈ towerVals st
          · rw [if_pos hin]
            constructor
            · rintro (h1 | h1)
              · exact Or.inl h1
              · exact Or.inr (Or.inr h1)
            · rintro (h1 | rfl | h1)
              · exact Or.inl h1
              · exact Or.inl hin
              · exact Or.inr h1
          · rw [if_neg hin, towerVals_insert v k hin]
            tauto
  have := this xs SkipList.new [] new_inv h
  cases hb : badItem xs with
  | some e => rw [hb] at this; exact this
  | none =>
    rw [hb] at this
    obtain ⟨s', st', e, I, hm⟩ := this
    refine ⟨s', towerVals st', e, skAsk_spec I (by simp [SkOp.number]), ?_, ?_⟩
    · have ok : TowerOk st' := I.choose_spec.2.2
      exact (List.pairwise_cons.1 ok).2
    · intro x
      rw [hm]
      simp [towerVals]

example : badItem [(.num (5 : Fin 20), 1), (.none, 0)] = some .valueError ∧
    badItem [(.num (5 : Fin 20), 1), (.num 3, 0), (.num 5, 2)] = none := by decide

/-! ## C22 -/

/-- the addresses of the first `n` nodes of a chain -/
def chainOf (h : SHeap N) : Nat → Option Addr → List Addr
  | _, none => []
  | 0, _ => []
  | n + 1, some a => a :: chainOf h n (h.node a).next

/-- the nodes of level `i` -/
def levelNodes (s : SkipList N) (i : Nat) : List Addr :=
  match s.levels[i]? with
  | some l => chainOf s.heap s.heap.nNodes (s.heap.lobj l).head
  | none => []

/-- the data of the nodes of level `i` -/
def levelData (s : SkipList N) (i : Nat) : List (Option N) :=
  (levelNodes s i).map (fun a => (s.heap.node a).data)

theorem chainOf_spec {h : SHeap N} : ∀ (ns : List Addr) (n : Nat), Lnk h ns none → ns.length ≤ n →
    chainOf h n ns.head? = ns
  | [], n, _, _ => by cases n <;> rfl
  | a :: as, 0, _, hn => by simp at hn
  | a :: as, n + 1, hl, hn => by
    have h1 := hl.1
    rw [Option.or_none] at h1
    simp only [List.head?_cons, chainOf, h1]
    rw [chainOf_spec as n hl.2 (by simpa using hn)]

theorem levelNodes_spec {s : SkipList N} {T : List (Lvl N)} (r : SkRep s T) {i : Nat} {t : Lvl N}
    (ht : T[i]? = some t) : levelNodes s i = t.ns := by
  have o := r.geo.lvl i t ht
  have hl : s.levels[i]? = some t.l := by rw [r.levels, List.getElem?_map, ht]; rfl
  have hlen := o.1.length_eq
  have hne : t.ns ≠ [] := by intro e; simp [e] at hlen
  simp only [levelNodes, hl]
  rw [o.1.head hne]
  exact chainOf_spec t.ns _ o.1.links (by rw [hlen]; exact o.1.length_le)

/-- **C22.** After any history: `get_height()` is the number of levels; every level is `-inf`
followed by strictly increasing numbers; the numbers of a level are a sublist of those of the level
below; no level but the bottom is empty; and `_down` leads from every node to a node of the level
below that holds the same number. -/
theorem C22_levels (ops : List (SkOp N)) (h : NoMinusInf ops) :
    ∃ L : List (List N), (skAfter ops).levels.length = L.length ∧
      skAsk .height (skAfter ops) = .ok (.nat L.length) ∧
      (∀ (i : Nat) xs, L[i]? = some xs →
        levelData (skAfter ops) i = (⊥ :: xs).map some ∧ xs.Pairwise (· < ·)) ∧
      (∀ (i : Nat) xs ys, L[i]? = some xs → L[i + 1]? = some ys → ys.Sublist xs ∧ ys ≠ []) ∧
      (∀ (i : Nat), ∀ a ∈ levelNodes (skAfter ops) (i + 1), ∃ d ∈ levelNodes (skAfter ops) i,
        ((skAfter ops).heap.node a).ext = some d ∧
        ((skAfter ops).heap.node d).data = ((skAfter ops).heap.node a).data) ∧
      (∀ a ∈ levelNodes (skAfter ops) 0, ((skAfter ops).heap.node a).ext = none) := by
  have I := skAfter_inv ops h
  have I' := I
  obtain ⟨T, r, o, ok⟩ := I
  refine ⟨T.map Lvl.xs, by rw [r.levels]; simp, ?_, ?_, ?_, ?_, ?_⟩
  · rw [skAsk_spec I' (by simp [SkOp.number]), List.length_map, o.length]; rfl
  · intro i xs hx
    rw [List.getElem?_map] at hx
    cases ht : T[i]? with
    | none => rw [ht] at hx; cases hx
    | some t =>
      rw [ht] at hx
      cases hx
      have lo := r.geo.lvl i t ht
      refine ⟨?_, (List.pairwise_cons.1 lo.2).2⟩
      rw [levelData, levelNodes_spec r ht]
      exact lo.1.data
  · intro i xs ys hx hy
    rw [List.getElem?_map, o i] at hx
    rw [List.getElem?_map, o (i + 1)] at hy
    by_cases h1 : i + 1 < towerHeight (skSpecs ops []).2
    · rw [if_pos h1] at hy
      rw [if_pos (by omega)] at hx
      cases hx; cases hy
      refine ⟨towerLevel_sub (by omega), ?_⟩
      rcases (lt_towerHeight _ _).1 h1 with h2 | h2
      · omega
      · exact h2
    · rw [if_neg h1] at hy; cases hy
  · intro i a ha
    cases hu : T[i + 1]? with
    | none =>
      have : (skAfter ops).levels[i + 1]? = none := by rw [r.levels, List.getElem?_map, hu]; rfl
      simp [levelNodes, this] at ha
    | some u =>
      have hlt := get_lt hu
      have hb : T[i]? = some T[i] := List.getElem?_eq_getElem (by omega)
      rw [levelNodes_spec r hu] at ha
      rw [levelNodes_spec r hb]
      exact r.geo.downs i _ u hb hu a ha
  · intro a ha
    cases hu : T[0]? with
    | none =>
      have : (skAfter ops).levels[0]? = none := by rw [r.levels, List.getElem?_map, hu]; rfl
      simp [levelNodes, this] at ha
    | some u =>
      rw [levelNodes_spec r hu] at ha
      exact r.geo.base u hu a ha

/-- **C22.** A number sits on the levels `0` to `heads`, where `heads` is the number of heads its
insertion drew: after inserting a number that was not held, the levels up to `heads` gain it and
the others stay as they were. -/
theorem C22_tower (ops : List (SkOp N)) (h : NoMinusInf ops) {v : N} (hv : v ≠ ⊥)
    (hnew : skAsk (.contains (.num v)) (skAfter ops) = .ok (.bool false)) (heads i : Nat) :
    let before := skAfter ops
    let after := skAfter (ops ++ [.insert (.num v) heads])
    (i ≤ heads → ∀ d, d ∈ levelData after i ↔ d = some v ∨ d = some ⊥ ∨ d ∈ levelData before i) ∧
      (heads < i → levelData after i = levelData before i) := by
  have I := skAfter_inv ops h
  have hnot : v ∉ towerVals (skSpecs ops []).2 := by
    rw [skAsk_spec I (by simpa [SkOp.number] using hv)] at hnew
    simpa [skSpec] using hnew
  have I' := skAfter_inv _ (h.concat (op := .insert (.num v) heads) (by simpa [SkOp.number] using hv))
  rw [skSpecs_append] at I'
  simp only [skSpec, if_neg hnot] at I'
  have key : ∀ (s : SkipList N) (st : List (N × Nat)), SkInv s st → ∀ i,
      levelData s i = if i < towerHeight st then (⊥ :: towerLevel st i).map some else [] := by
    intro s st ⟨T, r, o, ok⟩ i
    cases ht : T[i]? with
    | none =>
      have h1 : s.levels[i]? = none := by rw [r.levels, List.getElem?_map, ht]; rfl
      have h2 : ¬ i < towerHeight st := by
        have := o i
        rw [ht] at this
        intro hh
        rw [if_pos hh] at this
        cases this
      simp [levelData, levelNodes, h1, h2]
    | some t =>
      have h2 : i < towerHeight st := by
        have := o i
        rw [ht] at this
        by_contra hh
        rw [if_neg hh] at this
        cases this
      rw [if_pos h2, levelData, levelNodes_spec r ht, ← o.get ht]
      exact (r.geo.lvl i t ht).1.data
  obtain ⟨est, _⟩ := around_out I.choose_spec.2.2 hnot
  have k1 := key _ _ I i
  have k2 := key _ _ I' i
  generalize hst : (skSpecs ops []).2 = st at *
  have hl : towerLevel (towerInsert v heads st) i =
      towerLevel (st.filter (fun e => e.1 < v)) i ++
        (if i ≤ heads then v :: towerLevel (st.filter (fun e => v < e.1)) i
          else towerLevel (st.filter (fun e => v < e.1)) i) := by
    rw [towerInsert, towerLevel_append, towerLevel_cons]
  have hl0 : towerLevel st i = towerLevel (st.filter (fun e => e.1 < v)) i ++
      towerLevel (st.filter (fun e => v < e.1)) i := by
    conv_lhs => rw [est]
    rw [towerLevel_append]
  have h1 := lt_towerHeight (towerInsert v heads st) i
  have h0 := lt_towerHeight st i
  refine ⟨?_, ?_⟩
  · intro hi d
    rw [if_pos hi] at hl
    rw [k1, k2, if_pos (h1.2 (Or.inr (by rw [hl]; simp)))]
    rw [hl]
    by_cases hlt : i < towerHeight st
    · rw [if_pos hlt, hl0]
      simp only [List.map_cons, List.map_append, List.mem_cons, List.mem_append]
      tauto
    · rw [if_neg hlt]
      have : towerLevel st i = [] := by
        by_contra hh
        exact hlt (h0.2 (Or.inr hh))
      rw [hl0] at this
      obtain ⟨e1, e2⟩ := List.append_eq_nil_iff.1 this
      rw [e1, e2]
      simp only [List.nil_append, List.map_cons, List.map_nil, List.mem_cons, List.not_mem_nil,
        or_false]
      tauto
  · intro hi
    rw [if_neg (by omega)] at hl
    rw [k1, k2, hl, ← hl0]
    rw [hl, ← hl0] at h1
    simp only [h1, h0]

example : levelData (skAfter skSample) 0 = [some 0, some 5, some 9] ∧
    levelData (skAfter skSample) 1 = [some 0, some 9] ∧
    levelData (skAfter skSample) 3 = [some 0, some 9] ∧
    levelData (skAfter skSample) 4 = [] := by decide +kernel

/-! ## C23 -/

/-- **C23, partial.** Every number but `-inf` — in particular `inf` — is handled as in C21: after
any history without `-inf`, a number just inserted is found, and is no longer found once removed.
Missing: `-inf`, see `C23_minus_inf`. -/
theorem C23_partial (ops : List (SkOp N)) (h : NoMinusInf ops) {v : N} (hv : v ≠ ⊥) (heads : Nat) :
    skAsk (.contains (.num v)) (skAfter (ops ++ [.insert (.num v) heads])) = .ok (.bool true) ∧
      skAsk (.contains (.num v)) (skAfter (ops ++ [.remove (.num v)])) = .ok (.bool false) := by
  obtain ⟨xs, _, h1, h2, _⟩ := C21_changes ops h
  obtain ⟨ys, e1, _, m1⟩ := h1 v heads hv
  obtain ⟨zs, e2, _, m2⟩ := h2 v hv
  obtain ⟨ys', e1', _, c1, _⟩ := C21_reads _ (h.concat (op := .insert (.num v) heads)
    (by simpa [SkOp.number] using hv))
  obtain ⟨zs', e2', _, c2, _⟩ := C21_reads _ (h.concat (op := .remove (.num v))
    (by simpa [SkOp.number] using hv))
  have inj : ∀ {a b : List N}, (Except.ok (SkRes.list (a.map some)) : Except Err (SkRes N)) =
      .ok (.list (b.map some)) → a = b := by
    intro a b hh
    simp only [Except.ok.injEq, SkRes.list.injEq] at hh
    exact List.map_injective_iff.2 (Option.some_injective N) hh
  have hy := inj (e1.symm.trans e1')
  have hz := inj (e2.symm.trans e2')
  subst hy hz
  refine ⟨?_, ?_⟩
  · rw [c1 v hv]; simp [m1]
  · rw [c2 v hv]; simp [m2]

example : skAsk (.contains (.num ⊤)) (skAfter (skSample ++ [.insert (.num ⊤) 2])) =
    .ok (.bool true) := by decide +kernel

/-- **C23 fails for `-inf`**: it is always "found", `insert` ignores it, and `remove` takes away the
sentinels, so that numbers are lost (`6` stays, `5` goes from `to_list()` but is still found). -/
theorem C23_minus_inf :
    skAsk (.contains (.num (⊥ : Fin 20))) SkipList.new = .ok (.bool true) ∧
      skAsk .toList (skAfter [.insert (.num (⊥ : Fin 20)) 0]) = .ok (.list []) ∧
      skAsk .toList (skAfter [.insert (.num (5 : Fin 20)) 0, .insert (.num 6) 0, .remove (.num ⊥)]) =
        .ok (.list [some 6]) ∧
      skAsk (.contains (.num (5 : Fin 20)))
        (skAfter [.insert (.num 5) 0, .insert (.num 6) 0, .remove (.num ⊥)]) =
        .ok (.bool true) := by decide +kernel

/-! ## C72 -/

/-- two objects on one heap, the second made by `SkipList(first)`.  `shared`: `_level_lists` is one
and the same Python list in both; each has its own `_num_levels` — skip_list.py:298-300 -/
structure SkPair (N : Type) where
  heap : SHeap N
  levelsA : List Addr
  levelsB : List Addr
  shared : Bool
  numA : Nat
  numB : Nat

/-- `b = SkipList(a)` — skip_list.py:298-300 -/
def SkipList.copied (s : SkipList N) : SkPair N :=
  ⟨s.heap, s.levels, s.levels, true, s.numLevels, s.numLevels⟩

/-- does the call give the object a new `_level_lists`?  Only `clear` — skip_list.py:1082 -/
def SkOp.rebinds : SkOp N → Bool
  | .clear => true
  | _ => false

/-- a call on the original (`false`) or on the copy (`true`) -/
def skPairExec (p : SkPair N) : Bool × SkOp N → Except Err (SkRes N) × SkPair N
  | (false, op) =>
    match skExec op ⟨p.heap, p.levelsA, p.numA⟩ with
    | (r, s) => (r, ⟨s.heap, s.levels, if p.shared && !op.rebinds then s.levels else p.levelsB,
        p.shared && !op.rebinds, s.numLevels, p.numB⟩)
  | (true, op) =>
    match skExec op ⟨p.heap, p.levelsB, p.numB⟩ with
    | (r, s) => (r, ⟨s.heap, if p.shared && !op.rebinds then s.levels else p.levelsA, s.levels,
        p.shared && !op.rebinds, p.numA, s.numLevels⟩)

/-- a history of calls on the two -/
def skPairExecs : List (Bool × SkOp N) → SkPair N → List (Except Err (SkRes N)) × SkPair N
  | [], p => ([], p)
  | op :: ops, p =>
    match skPairExec p op with
    | (r, p') => match skPairExecs ops p' with
      | (rs, p'') => (r :: rs, p'')

/-- **C72, partial.** As long as only the copy is used, it behaves as a skip list that holds what
the original held.  Missing: independence of the two, see `C72_shared`. -/
theorem C72_copy_alone_partial (ops ops' : List (SkOp N)) (h : NoMinusInf ops)
    (h' : NoMinusInf ops') :
    (skPairExecs (ops'.map (fun op => (true, op))) (skAfter ops).copied).1 =
      (skSpecs ops' (skSpecs ops []).2).1 := by
  have key : ∀ (ops' : List (SkOp N)) (p : SkPair N),
      (skPairExecs (ops'.map (fun op => (true, op))) p).1 =
        (skExecs ops' ⟨p.heap, p.levelsB, p.numB⟩).1 := by
    intro ops'
    induction ops' with
    | nil => intro p; rfl
    | cons op ops' ih =>
      intro p
      simp only [List.map_cons, skPairExecs, skPairExec, skExecs]
      rw [ih]
  rw [key]
  exact (skExecs_spec ops' (skAfter_inv ops h) h').1

/-- **C72 fails**: inserting into the copy inserts into the original, and once the copy has grown a
level the original no longer removes from it — the removed number is still found in the copy. -/
theorem C72_shared :
    (skPairExecs [(true, .insert (.num 2) 0), (false, .toList)]
        (skAfter [.insert (.num (1 : Fin 20)) 0]).copied).1 =
      [.ok .unit, .ok (.list [some 1, some 2])] ∧
    (skPairExecs [(true, .insert (.num 2) 1), (false, .remove (.num 2)), (true, .toList),
        (true, .contains (.num 2))]
        (skAfter [.insert (.num (1 : Fin 20)) 0]).copied).1 =
      [.ok .unit, .ok .unit, .ok (.list [some 1]), .ok (.bool true)] := by decide +kernel

end Extra
