import Verif.Trees.TreapSeed

/-!
# The numbers a seed stands for, and which of them a treap gets
-/

set_option linter.unusedSectionVars false

namespace Extra
variable {N P S G : Type} [LinearOrder N] [LinearOrder P]

/-! ## Specification -/

/-- the state of the generator `n` draws after `random.seed(s)` -/
def Rng.state (R : Rng S G P) (s : S) : Nat → G
  | 0 => R.seed s
  | n + 1 => (R.draw (R.state s n)).2

/-- the `n`-th number drawn after `random.seed(s)` -/
def Rng.nth (R : Rng S G P) (s : S) (n : Nat) : P := (R.draw (R.state s n)).1

/-- the calls on one treap other than `clear` -/
inductive TreapOwn (N P : Type)
  | insert (v : NumArg N) (p : TreapPrioArg P)
  | query (q : TreapQuery N)
  deriving DecidableEq

/-- is it a number? -/
def NumArg.isNum : NumArg N → Bool
  | .num _ => true
  | _ => false

/-- how many numbers the call draws: one if it inserts a number and is given no priority -/
def TreapOwn.draws : TreapOwn N P → Nat
  | .insert (.num _) .none => 1
  | _ => 0

/-- the call, if `p` is the number it draws -/
def TreapOwn.withPrio (p : P) : TreapOwn N P → TreapOp N P
  | .insert v (.num q) => .insert v (.num q)
  | .insert v .none => .insert v (.none p)
  | .insert v .other => .insert v .other
  | .query q => q.op

/-- calls that draw the numbers `f n`, `f (n + 1)`, … one after the other -/
def withPrios (f : Nat → P) : Nat → List (TreapOwn N P) → List (TreapOp N P)
  | _, [] => []
  | n, c :: cs => c.withPrio (f n) :: withPrios f (n + c.draws) cs

/-- the call on the `i`-th treap that a step is, if it is one -/
def TWOp.own (i : Nat) : TWOp N P S G → Option (TreapOwn N P)
  | .insert j v p => if j = i then some (.insert v p) else none
  | .query j q => if j = i then some (.query q) else none
  | _ => none

/-- the step sets the state of the generator without regard to what it was -/
def TWOp.reseeds : TWOp N P S G → Bool
  | .new .. => true
  | .clear .. => true
  | .outside _ => true
  | _ => false

/-- how many numbers a step draws that does not reseed -/
def TWOp.draws : TWOp N P S G → Nat
  | .insert _ (.num _) .none => 1
  | .draw => 1
  | _ => 0

/-- the calls on the `i`-th treap -/
def ownCalls (i : Nat) (ops : List (TWOp N P S G)) : List (TreapOwn N P) := ops.filterMap (TWOp.own i)

/-- the calls on the `i`-th treap with the numbers they draw, when the draws of all steps are `f n`,
`f (n + 1)`, … -/
def drawing (i : Nat) (f : Nat → P) : Nat → List (TWOp N P S G) → List (TreapOp N P)
  | _, [] => []
  | n, op :: ops =>
    (match op.own i with
      | some c => [c.withPrio (f n)]
      | none => []) ++ drawing i f (n + op.draws) ops

/-- what the calls on the `i`-th treap returned -/
def ownRes (i : Nat) : List (TWOp N P S G) → List (TWRes N P) → List (BstRes N)
  | op :: ops, .res r :: rs => if (op.own i).isSome then r :: ownRes i ops rs else ownRes i ops rs
  | _ :: ops, _ :: rs => ownRes i ops rs
  | _, _ => []

/-- the insertions the constructor makes -/
def IterArg.calls : IterArg N → List (TreapOwn N P)
  | .items vs => vs.map fun v => .insert v .none
  | _ => []

/-- the constructor does not raise -/
def IterArg.valid : IterArg N → Bool
  | .none => true
  | .notIterable => false
  | .items vs => vs.all NumArg.isNum

/-- how many numbers the constructor draws: one for each item before the first that is not a number -/
def IterArg.draws : IterArg N → Nat
  | .items vs => (vs.takeWhile NumArg.isNum).length
  | _ => 0

/-! ## Lemmas -/

theorem Rng.state_succ (R : Rng S G P) (s : S) (n : Nat) : (R.draw (R.state s n)).2 = R.state s (n + 1) := rfl

theorem treapExecs_append (m1 : P) (xs ys : List (TreapOp N P)) (t t' t'' : Bst N P)
    (rs rs' : List (BstRes N)) (h : treapExecs m1 xs t = .ok (rs, t'))
    (h' : treapExecs m1 ys t' = .ok (rs', t'')) : treapExecs m1 (xs ++ ys) t = .ok (rs ++ rs', t'') := by
  induction xs generalizing t rs with
  | nil =>
    simp only [treapExecs, Except.ok.injEq, Prod.mk.injEq] at h
    obtain ⟨rfl, rfl⟩ := h
    exact h'
  | cons x xs ih =>
    simp only [treapExecs, bind, Except.bind, List.cons_append] at h ⊢
    cases e : treapExec m1 t x with
    | error _ => simp [e] at h
    | ok y =>
      simp only [e] at h ⊢
      cases e' : treapExecs m1 xs y.2 with
      | error _ => simp [e'] at h
      | ok z =>
        simp only [e', pure, Except.pure, Except.ok.injEq, Prod.mk.injEq] at h
        obtain ⟨rfl, rfl⟩ := h
        rw [ih y.2 z.1 e']
        rfl

/-- an insertion draws from the state of the seed -/
theorem insertNum_state (R : Rng S G P) (s : S) (n : Nat) (t : Bst N P) (v : NumArg N) (p : TreapPrioArg P)
    (r : BstRes N) (t' : Bst N P) (g : G) (h : R.insertNum (R.state s n) t v p = .ok ((r, t'), g)) (m1 : P) :
    treapExec m1 t ((TreapOwn.insert v p).withPrio (R.nth s n)) = .ok (r, t') ∧
      g = R.state s (n + (TreapOwn.insert v p).draws) := by
  cases v with
  | num v =>
    cases p with
    | num q =>
      simp only [Rng.insertNum, validNum, bind, Except.bind] at h
      cases e : treapInsertNum t (.num v) (.num q) with
      | error _ => simp [e] at h
      | ok x =>
        simp only [e, pure, Except.pure, Except.ok.injEq, Prod.mk.injEq] at h
        obtain ⟨rfl, rfl⟩ := h
        exact ⟨e, rfl⟩
    | other =>
      simp only [Rng.insertNum, validNum, bind, Except.bind] at h
      cases e : treapInsertNum t (.num v) .other with
      | error _ => simp [e] at h
      | ok x =>
        simp only [e, pure, Except.pure, Except.ok.injEq, Prod.mk.injEq] at h
        obtain ⟨rfl, rfl⟩ := h
        exact ⟨e, rfl⟩
    | none =>
      simp only [Rng.insertNum, validNum, bind, Except.bind] at h
      cases e : treapInsertNum t (.num v) (.none (R.draw (R.state s n)).1) with
      | error _ => simp [e] at h
      | ok x =>
        simp only [e, pure, Except.pure, Except.ok.injEq, Prod.mk.injEq] at h
        obtain ⟨rfl, rfl⟩ := h
        exact ⟨e, rfl⟩
  | none =>
    simp only [Rng.insertNum, validNum, Except.ok.injEq, Prod.mk.injEq] at h
    obtain ⟨⟨rfl, rfl⟩, rfl⟩ := h
    cases p <;> exact ⟨rfl, rfl⟩
  | other =>
    simp only [Rng.insertNum, validNum, Except.ok.injEq, Prod.mk.injEq] at h
    obtain ⟨⟨rfl, rfl⟩, rfl⟩ := h
    cases p <;> exact ⟨rfl, rfl⟩

/-- the result of an insertion of a number without a priority is not an exception -/
theorem insertNum_ok (R : Rng S G P) (g : G) (t : Bst N P) (v : N) (x : (BstRes N × Bst N P) × G)
    (h : R.insertNum g t (.num v) .none = .ok x) : ∃ y, x.1.1 = .ok y := by
  simp only [Rng.insertNum, validNum, bind, Except.bind] at h
  cases e : treapInsertNum t (.num v) (.none (R.draw g).1) with
  | error _ => simp [e] at h
  | ok z =>
    simp only [e, pure, Except.pure, Except.ok.injEq] at h
    subst h
    rcases t with ⟨_ | ⟨l, w, r⟩, k⟩
    · simp only [treapInsertNum, validNum, TreapPrio.value, Except.ok.injEq] at e
      subst e
      exact ⟨_, rfl⟩
    · simp only [treapInsertNum, validNum, TreapPrio.value, bind, Except.bind] at e
      cases e' : (BTree.node l w r).treapInsert (v, (R.draw g).1) with
      | error _ => simp [e'] at e
      | ok u =>
        simp only [e', pure, Except.pure, Except.ok.injEq] at e
        subst e
        exact ⟨_, rfl⟩

/-- the loop of the constructor -/
theorem fill_state (R : Rng S G P) (m1 : P) (s : S) (vs : List (NumArg N)) : ∀ (n : Nat) (t : Bst N P)
    (r : Except Err Unit) (t' : Bst N P) (g : G), R.fill vs (R.state s n) t = .ok (r, t', g) →
      g = R.state s (n + (vs.takeWhile NumArg.isNum).length) ∧
      (r = .ok () ↔ vs.all NumArg.isNum = true) ∧
      (vs.all NumArg.isNum = true → ∃ rs, treapExecs m1
        (withPrios (R.nth s) n (vs.map fun v => .insert v .none)) t = .ok (rs, t')) := by
  induction vs with
  | nil =>
    intro n t r t' g h
    simp only [Rng.fill, Except.ok.injEq, Prod.mk.injEq] at h
    obtain ⟨rfl, rfl, rfl⟩ := h
    exact ⟨rfl, by simp, fun _ => ⟨[], rfl⟩⟩
  | cons v vs ih =>
    intro n t r t' g h
    simp only [Rng.fill, bind, Except.bind] at h
    cases e : R.insertNum (R.state s n) t v .none with
    | error _ => simp [e] at h
    | ok x =>
      obtain ⟨⟨r₁, t₁⟩, g₁⟩ := x
      simp only [e] at h
      obtain ⟨hx, hg⟩ := insertNum_state R s n t v .none r₁ t₁ g₁ e m1
      cases v with
      | none =>
        simp only [Rng.insertNum, validNum, Except.ok.injEq, Prod.mk.injEq] at e
        obtain ⟨⟨rfl, rfl⟩, rfl⟩ := e
        simp only [pure, Except.pure, Except.ok.injEq, Prod.mk.injEq] at h
        obtain ⟨rfl, rfl, rfl⟩ := h
        exact ⟨by simp [NumArg.isNum], by simp [NumArg.isNum], by simp [NumArg.isNum]⟩
      | other =>
        simp only [Rng.insertNum, validNum, Except.ok.injEq, Prod.mk.injEq] at e
        obtain ⟨⟨rfl, rfl⟩, rfl⟩ := e
        simp only [pure, Except.pure, Except.ok.injEq, Prod.mk.injEq] at h
        obtain ⟨rfl, rfl, rfl⟩ := h
        exact ⟨by simp [NumArg.isNum], by simp [NumArg.isNum], by simp [NumArg.isNum]⟩
      | num a =>
        obtain ⟨y, hy⟩ := insertNum_ok R _ t a _ e
        simp only at hy
        subst hy
        simp only [TreapOwn.draws] at hg
        subst hg
        obtain ⟨h1, h2, h3⟩ := ih (n + 1) t₁ r t' g h
        refine ⟨?_, ?_, ?_⟩
        · rw [h1]
          simp only [List.takeWhile_cons, NumArg.isNum, if_true, List.length_cons]
          congr 1
          omega
        · simpa [NumArg.isNum] using h2
        · intro hv
          obtain ⟨rs, hrs⟩ := h3 (by simpa [NumArg.isNum] using hv)
          refine ⟨.ok y :: rs, ?_⟩
          simp only [List.map_cons, withPrios, treapExecs, bind, Except.bind, hx, TreapOwn.draws]
          rw [hrs]
          rfl

/-- the constructor -/
theorem make_state (R : Rng S G P) (m1 : P) (seed : Option S) (ent : S) (its : IterArg N)
    (r : Except Err Unit) (t' : Bst N P) (g : G) (h : R.make seed ent its = .ok (r, t', g)) :
      g = R.state (seed.getD ent) its.draws ∧ (r = .ok () ↔ its.valid = true) ∧
      (its.valid = true → ∃ rs, treapExecs m1
        (withPrios (R.nth (seed.getD ent)) 0 its.calls) Bst.empty = .ok (rs, t')) := by
  cases its with
  | none =>
    simp only [Rng.make, Except.ok.injEq, Prod.mk.injEq] at h
    obtain ⟨rfl, rfl, rfl⟩ := h
    exact ⟨rfl, by simp [IterArg.valid], fun _ => ⟨[], rfl⟩⟩
  | notIterable =>
    simp only [Rng.make, Except.ok.injEq, Prod.mk.injEq] at h
    obtain ⟨rfl, rfl, rfl⟩ := h
    exact ⟨rfl, by simp [IterArg.valid], by simp [IterArg.valid]⟩
  | items vs =>
    have := fill_state R m1 (seed.getD ent) vs 0 Bst.empty r t' g h
    rw [Nat.zero_add] at this
    exact this

/-- a step that does not reseed -/
theorem step_state (R : Rng S G P) (m1 : P) (s : S) (n i : Nat) (op : TWOp N P S G) (hop : op.reseeds = false)
    (ts ts' : List (Bst N P)) (g : G) (r : TWRes N P) (t : Bst N P) (ht : ts[i]? = some t)
    (h : TreapWorld.step R m1 ⟨R.state s n, ts⟩ op = .ok (r, ⟨g, ts'⟩)) :
    g = R.state s (n + op.draws) ∧ ∃ t', ts'[i]? = some t' ∧
      match op.own i with
      | some c => ∃ x, r = .res x ∧ treapExec m1 t (c.withPrio (R.nth s n)) = .ok (x, t')
      | none => t' = t := by
  cases op with
  | new => simp [TWOp.reseeds] at hop
  | clear => simp [TWOp.reseeds] at hop
  | outside => simp [TWOp.reseeds] at hop
  | draw =>
    simp only [TreapWorld.step, Except.ok.injEq, Prod.mk.injEq, TreapWorld.mk.injEq] at h
    obtain ⟨-, rfl, rfl⟩ := h
    exact ⟨rfl, t, ht, rfl⟩
  | query j q =>
    simp only [TreapWorld.step] at h
    cases e : ts[j]? with
    | none => simp [e] at h
    | some u =>
      simp only [e, bind, Except.bind] at h
      cases e' : treapExec m1 u (q.op : TreapOp N P) with
      | error _ => simp [e'] at h
      | ok x =>
        simp only [e', pure, Except.pure, Except.ok.injEq, Prod.mk.injEq, TreapWorld.mk.injEq] at h
        obtain ⟨rfl, rfl, rfl⟩ := h
        refine ⟨rfl, ?_⟩
        by_cases hji : j = i
        · subst hji
          rw [ht] at e
          cases e
          refine ⟨x.2, by rw [List.getElem?_set_self]; exact (List.getElem?_eq_some_iff.1 ht).1, ?_⟩
          simp only [TWOp.own, if_true]
          exact ⟨x.1, rfl, e'⟩
        · refine ⟨t, by rw [List.getElem?_set_ne hji]; exact ht, ?_⟩
          simp [TWOp.own, hji]
  | insert j v p =>
    simp only [TreapWorld.step] at h
    cases e : ts[j]? with
    | none => simp [e] at h
    | some u =>
      simp only [e, bind, Except.bind] at h
      cases e' : R.insertNum (R.state s n) u v p with
      | error _ => simp [e'] at h
      | ok x =>
        obtain ⟨⟨y, u'⟩, g'⟩ := x
        simp only [e', pure, Except.pure, Except.ok.injEq, Prod.mk.injEq, TreapWorld.mk.injEq] at h
        obtain ⟨rfl, rfl, rfl⟩ := h
        obtain ⟨h1, h2⟩ := insertNum_state R s n u v p y u' g' e' m1
        refine ⟨?_, ?_⟩
        · rw [h2]
          cases v <;> cases p <;> rfl
        · by_cases hji : j = i
          · subst hji
            rw [ht] at e
            cases e
            refine ⟨u', by rw [List.getElem?_set_self]; exact (List.getElem?_eq_some_iff.1 ht).1, ?_⟩
            simp only [TWOp.own, if_true]
            exact ⟨y, rfl, h1⟩
          · refine ⟨t, by rw [List.getElem?_set_ne hji]; exact ht, ?_⟩
            simp [TWOp.own, hji]

/-- a history that does not reseed -/
theorem steps_state (R : Rng S G P) (m1 : P) (s : S) (i : Nat) (ops : List (TWOp N P S G)) :
    ∀ (n : Nat) (ts ts' : List (Bst N P)) (g : G) (rs : List (TWRes N P)) (t : Bst N P),
      (∀ op ∈ ops, op.reseeds = false) → ts[i]? = some t →
      TreapWorld.steps R m1 ops ⟨R.state s n, ts⟩ = .ok (rs, ⟨g, ts'⟩) →
      g = R.state s (n + (ops.map TWOp.draws).sum) ∧ ∃ t', ts'[i]? = some t' ∧
        treapExecs m1 (drawing i (R.nth s) n ops) t = .ok (ownRes i ops rs, t') := by
  induction ops with
  | nil =>
    intro n ts ts' g rs t _ ht h
    simp only [TreapWorld.steps, Except.ok.injEq, Prod.mk.injEq, TreapWorld.mk.injEq] at h
    obtain ⟨rfl, rfl, rfl⟩ := h
    exact ⟨rfl, t, ht, rfl⟩
  | cons op ops ih =>
    intro n ts ts' g rs t hops ht h
    simp only [TreapWorld.steps, bind, Except.bind] at h
    cases e : TreapWorld.step R m1 ⟨R.state s n, ts⟩ op with
    | error _ => simp [e] at h
    | ok x =>
      obtain ⟨r₁, g₁, ts₁⟩ := x
      simp only [e] at h
      obtain ⟨hg, t₁, ht₁, ho⟩ := step_state R m1 s n i op (hops op (by simp)) ts ts₁ g₁ r₁ t ht e
      subst hg
      cases e' : TreapWorld.steps R m1 ops ⟨R.state s (n + op.draws), ts₁⟩ with
      | error _ => simp [e'] at h
      | ok y =>
        obtain ⟨rs₂, g₂, ts₂⟩ := y
        simp only [e', pure, Except.pure, Except.ok.injEq, Prod.mk.injEq, TreapWorld.mk.injEq] at h
        obtain ⟨rfl, rfl, rfl⟩ := h
        obtain ⟨h1, t₂, ht₂, hx⟩ := ih (n + op.draws) ts₁ ts₂ g₂ rs₂ t₁ (fun o h => hops o (by simp [h])) ht₁ e'
        refine ⟨?_, t₂, ht₂, ?_⟩
        · rw [h1, List.map_cons, List.sum_cons, Nat.add_assoc]
        · cases ho' : op.own i with
          | none =>
            simp only [ho'] at ho
            subst ho
            have hr : ownRes i (op :: ops) (r₁ :: rs₂) = ownRes i ops rs₂ := by
              cases r₁ <;> simp [ownRes, ho']
            rw [hr]
            simpa [drawing, ho'] using hx
          | some c =>
            simp only [ho'] at ho
            obtain ⟨x, rfl, hc⟩ := ho
            simp only [drawing, ho', List.singleton_append, treapExecs, bind, Except.bind, hc, hx, pure,
              Except.pure, ownRes, Option.isSome_some, if_true]

/-- if only the calls on the treap draw, they draw the numbers one after the other -/
theorem drawing_quiet (i : Nat) (f : Nat → P) (ops : List (TWOp N P S G)) : ∀ (n : Nat),
    (∀ op ∈ ops, op.own i = none → op.draws = 0) → drawing i f n ops = withPrios f n (ownCalls i ops) := by
  induction ops with
  | nil => intro n _; rfl
  | cons op ops ih =>
    intro n h
    rw [drawing, ih _ (fun o ho => h o (by simp [ho]))]
    cases e : op.own i with
    | none => simp [ownCalls, e, h op (by simp) e]
    | some c =>
      have : op.draws = c.draws := by
        cases op with
        | insert j v p =>
          simp only [TWOp.own] at e
          split at e
          · cases e
            cases v <;> cases p <;> rfl
          · cases e
        | query j q =>
          simp only [TWOp.own] at e
          split at e
          · cases e
            rfl
          · cases e
        | _ => simp [TWOp.own] at e
      simp [ownCalls, e, withPrios, this]

/-- the numbers taken in two parts -/
theorem withPrios_append (f : Nat → P) (xs ys : List (TreapOwn N P)) : ∀ (n : Nat),
    withPrios f n (xs ++ ys) = withPrios f n xs ++ withPrios f (n + (xs.map TreapOwn.draws).sum) ys := by
  induction xs with
  | nil => intro n; rfl
  | cons x xs ih =>
    intro n
    simp [withPrios, ih, Nat.add_assoc]

/-- the draws of the constructor -/
theorem calls_draws (its : IterArg N) (h : its.valid = true) :
    ((its.calls : List (TreapOwn N P)).map TreapOwn.draws).sum = its.draws := by
  cases its with
  | none => rfl
  | notIterable => rfl
  | items vs =>
    simp only [IterArg.valid] at h
    simp only [IterArg.calls, IterArg.draws]
    induction vs with
    | nil => rfl
    | cons v vs ih =>
      cases v with
      | num a =>
        have := ih (by simpa [NumArg.isNum] using h)
        simp only [List.map_cons, List.sum_cons, List.takeWhile_cons, NumArg.isNum, if_true, List.length_cons]
        rw [this]
        exact Nat.add_comm _ _
      | none => simp [NumArg.isNum] at h
      | other => simp [NumArg.isNum] at h

end Extra
