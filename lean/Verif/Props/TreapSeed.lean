import Batteries.Lean.Except
import Verif.Trees.TreapSeedLemmas

/-!
# C98: a treap made with a seed is reproducible

`Treap(iterable, seed)` documents "a seed to generate consistent random numbers".  The theorems hold for every
generator.
-/

set_option linter.unusedSectionVars false

namespace Extra
variable {N P S G : Type} [LinearOrder N] [LinearOrder P]

private theorem new_state (R : Rng S G P) (m1 : P) (w w' : TreapWorld N P G) (seed : Option S) (ent : S)
    (its : IterArg N) (r : TWRes N P) (h : w.step R m1 (.new seed ent its) = .ok (r, w')) :
    w'.gen = R.state (seed.getD ent) its.draws ∧ (its.valid = false → w'.treaps = w.treaps) ∧
      (its.valid = true → r = .made w.treaps.length ∧ ∃ rs t, w'.treaps = w.treaps ++ [t] ∧
        treapExecs m1 (withPrios (R.nth (seed.getD ent)) 0 its.calls) Bst.empty = .ok (rs, t)) := by
  simp only [TreapWorld.step, bind, Except.bind] at h
  cases e : R.make (N := N) seed ent its with
  | error _ => simp [e] at h
  | ok x =>
    obtain ⟨x, t, g⟩ := x
    obtain ⟨h1, h2, h3⟩ := make_state R m1 seed ent its x t g e
    cases x with
    | error _ =>
      simp only [e, pure, Except.pure, Except.ok.injEq, Prod.mk.injEq] at h
      obtain ⟨rfl, rfl⟩ := h
      have : its.valid = false := by
        cases hv : its.valid
        · rfl
        · simp [hv] at h2
      exact ⟨h1, fun _ => rfl, by simp [this]⟩
    | ok _ =>
      simp only [e, pure, Except.pure, Except.ok.injEq, Prod.mk.injEq] at h
      obtain ⟨rfl, rfl⟩ := h
      have : its.valid = true := h2.1 rfl
      obtain ⟨rs, hrs⟩ := h3 this
      exact ⟨h1, by simp [this], fun _ => ⟨rfl, rs, t, rfl, hrs⟩⟩

/-- C98, for a treap that nobody disturbs: make a treap with a seed, then let nothing but calls on it (other
than `clear`) use or set the random numbers.  The treap is what the same insertions, removals and queries give
when the insertions without a priority get the numbers the seed stands for, one after the other: it, and all
it returns, depend on the seed and these calls only, whatever the generator was before and whatever else the
program did. -/
theorem C98_reproducible_partial (R : Rng S G P) (m1 : P) (w w' : TreapWorld N P G) (s ent : S)
    (its : IterArg N) (hits : its.valid = true) (ops : List (TWOp N P S G)) (r : TWRes N P)
    (rs : List (TWRes N P)) (hops : ∀ op ∈ ops, op.reseeds = false)
    (hq : ∀ op ∈ ops, op.own w.treaps.length = none → op.draws = 0)
    (h : TreapWorld.steps R m1 (.new (some s) ent its :: ops) w = .ok (r :: rs, w')) :
    ∃ rs₀ t, w'.treaps[w.treaps.length]? = some t ∧ rs₀.length = (its.calls : List (TreapOwn N P)).length ∧
      treapExecs m1 (withPrios (R.nth s) 0 (its.calls ++ ownCalls w.treaps.length ops)) Bst.empty =
        .ok (rs₀ ++ ownRes w.treaps.length ops rs, t) := by
  simp only [TreapWorld.steps, bind, Except.bind] at h
  cases e : w.step R m1 (.new (some s) ent its) with
  | error _ => simp [e] at h
  | ok x =>
    obtain ⟨r₁, w₁⟩ := x
    simp only [e] at h
    cases e' : TreapWorld.steps R m1 ops w₁ with
    | error _ => simp [e'] at h
    | ok y =>
      obtain ⟨rs₂, w₂⟩ := y
      simp only [e', pure, Except.pure, Except.ok.injEq, Prod.mk.injEq, List.cons.injEq] at h
      obtain ⟨⟨rfl, rfl⟩, rfl⟩ := h
      obtain ⟨h1, -, h3⟩ := new_state R m1 w w₁ (some s) ent its r₁ e
      obtain ⟨-, rs₀, t₀, ht₀, hx₀⟩ := h3 hits
      obtain ⟨g₁, ts₁⟩ := w₁
      obtain ⟨g₂, ts₂⟩ := w₂
      simp only at h1 ht₀
      subst h1
      subst ht₀
      obtain ⟨-, t', ht', hx⟩ := steps_state R m1 s w.treaps.length ops its.draws (w.treaps ++ [t₀]) ts₂ g₂
        rs₂ t₀ hops (by simp) e'
      rw [drawing_quiet _ _ _ _ hq] at hx
      refine ⟨rs₀, t', ht', ?_, ?_⟩
      · have len : ∀ (xs : List (TreapOp N P)) (t t' : Bst N P) (rs : List (BstRes N)),
            treapExecs m1 xs t = .ok (rs, t') → rs.length = xs.length := by
          intro xs
          induction xs with
          | nil =>
            intro t t' rs h
            simp only [treapExecs, Except.ok.injEq, Prod.mk.injEq] at h
            rw [← h.1, List.length_nil, List.length_nil]
          | cons x xs ih =>
            intro t t' rs h
            simp only [treapExecs, bind, Except.bind] at h
            cases a : treapExec m1 t x with
            | error _ => simp [a] at h
            | ok y =>
              cases b : treapExecs m1 xs y.2 with
              | error _ => simp [a, b] at h
              | ok z =>
                simp only [a, b, pure, Except.pure, Except.ok.injEq, Prod.mk.injEq] at h
                rw [← h.1, List.length_cons, List.length_cons, ih y.2 z.2 z.1 b]
        have len' : ∀ (f : Nat → P) (cs : List (TreapOwn N P)) (n : Nat),
            (withPrios f n cs).length = cs.length := by
          intro f cs
          induction cs with
          | nil => intro n; rfl
          | cons c cs ih => intro n; simp [withPrios, ih]
        rw [len _ _ _ _ hx₀, len']
      · rw [withPrios_append, Nat.zero_add, calls_draws its hits]
        exact treapExecs_append m1 _ _ _ _ _ _ _ hx₀ hx

/-- so two programs that make a treap with the same seed and the same items and then make the same calls on
it get the same results and the same treap, if nobody else uses the random numbers in between -/
theorem C98_two_programs_partial (R : Rng S G P) (m1 : P) (w₁ w₂ w₁' w₂' : TreapWorld N P G) (s ent₁ ent₂ : S)
    (its : IterArg N) (hits : its.valid = true) (ops₁ ops₂ : List (TWOp N P S G)) (r₁ r₂ : TWRes N P)
    (rs₁ rs₂ : List (TWRes N P)) (hops₁ : ∀ op ∈ ops₁, op.reseeds = false)
    (hops₂ : ∀ op ∈ ops₂, op.reseeds = false)
    (hq₁ : ∀ op ∈ ops₁, op.own w₁.treaps.length = none → op.draws = 0)
    (hq₂ : ∀ op ∈ ops₂, op.own w₂.treaps.length = none → op.draws = 0)
    (same : ownCalls w₁.treaps.length ops₁ = ownCalls w₂.treaps.length ops₂)
    (h₁ : TreapWorld.steps R m1 (.new (some s) ent₁ its :: ops₁) w₁ = .ok (r₁ :: rs₁, w₁'))
    (h₂ : TreapWorld.steps R m1 (.new (some s) ent₂ its :: ops₂) w₂ = .ok (r₂ :: rs₂, w₂')) :
    w₁'.treaps[w₁.treaps.length]? = w₂'.treaps[w₂.treaps.length]? ∧
      ownRes w₁.treaps.length ops₁ rs₁ = ownRes w₂.treaps.length ops₂ rs₂ := by
  obtain ⟨x₁, t₁, ht₁, hl₁, e₁⟩ :=
    C98_reproducible_partial R m1 w₁ w₁' s ent₁ its hits ops₁ r₁ rs₁ hops₁ hq₁ h₁
  obtain ⟨x₂, t₂, ht₂, hl₂, e₂⟩ :=
    C98_reproducible_partial R m1 w₂ w₂' s ent₂ its hits ops₂ r₂ rs₂ hops₂ hq₂ h₂
  rw [same, e₂] at e₁
  simp only [Except.ok.injEq, Prod.mk.injEq] at e₁
  obtain ⟨e, rfl⟩ := e₁
  rw [ht₁, ht₂]
  exact ⟨rfl, (List.append_inj_right e (hl₂.trans hl₁.symm)).symm⟩

/-- C98, exactly: after `random.seed(s)` by whoever it was, and `n` draws by whoever it was, and as long as
nobody seeds again (makes a treap, clears one, or sets the generator in another way), an insertion without a
priority gets the number of the seed whose place is the number of draws of the whole program so far, not of
those of its treap. -/
theorem C98_exact (R : Rng S G P) (m1 : P) (s : S) (n i : Nat) (ops : List (TWOp N P S G))
    (w w' : TreapWorld N P G) (rs : List (TWRes N P)) (t : Bst N P) (hg : w.gen = R.state s n)
    (ht : w.treaps[i]? = some t) (hops : ∀ op ∈ ops, op.reseeds = false)
    (h : TreapWorld.steps R m1 ops w = .ok (rs, w')) :
    w'.gen = R.state s (n + (ops.map TWOp.draws).sum) ∧ ∃ t', w'.treaps[i]? = some t' ∧
      treapExecs m1 (drawing i (R.nth s) n ops) t = .ok (ownRes i ops rs, t') := by
  obtain ⟨g, ts⟩ := w
  obtain ⟨g', ts'⟩ := w'
  simp only at hg ht
  subst hg
  exact steps_state R m1 s i ops n ts ts' g' rs t hops ht h

/-- what making a treap (even one whose constructor raises) does to the random numbers of the whole program -/
theorem C98_new_seeds (R : Rng S G P) (m1 : P) (w w' : TreapWorld N P G) (seed : Option S) (ent : S)
    (its : IterArg N) (r : TWRes N P) (h : w.step R m1 (.new seed ent its) = .ok (r, w')) :
    w'.gen = R.state (seed.getD ent) its.draws := (new_state R m1 w w' seed ent its r h).1

/-- what `clear` of any treap does to them -/
theorem C98_clear_seeds (R : Rng S G P) (m1 : P) (w w' : TreapWorld N P G) (i : Nat) (ent : S)
    (r : TWRes N P) (h : w.step R m1 (.clear i ent) = .ok (r, w')) :
    w'.gen = R.state ent 0 ∧ w'.treaps[i]? = some Bst.empty := by
  simp only [TreapWorld.step] at h
  cases e : w.treaps[i]? with
  | none => simp [e] at h
  | some t =>
    simp only [e, Except.ok.injEq, Prod.mk.injEq] at h
    obtain ⟨-, rfl⟩ := h
    exact ⟨rfl, by simp [(List.getElem?_eq_some_iff.1 e).1]⟩

/-! ## Where the full statement fails -/

/-- the first node of a treap made with a seed, if nothing happens in between: it has the first number of
the seed -/
theorem C98_alone (R : Rng S G P) (m1 : P) (s e₀ e₁ : S) (g : G) (v : N) :
    (TreapWorld.steps R m1 [.new none e₀ .none, .new (some s) e₁ .none, .insert 1 (.num v) .none]
        ⟨g, []⟩).toOption.bind (fun x => x.2.treaps[1]?.map Bst.root) =
      some (.node .nil (v, R.nth s 0) .nil) := rfl

/-- an insertion into another treap in between takes this number away -/
theorem C98_other_insert (R : Rng S G P) (m1 : P) (s e₀ e₁ : S) (g : G) (u v : N) :
    (TreapWorld.steps R m1 [.new none e₀ .none, .new (some s) e₁ .none, .insert 0 (.num u) .none,
        .insert 1 (.num v) .none] ⟨g, []⟩).toOption.bind (fun x => x.2.treaps[1]?.map Bst.root) =
      some (.node .nil (v, R.nth s 1) .nil) := rfl

/-- making another treap in between replaces the seed -/
theorem C98_other_made (R : Rng S G P) (m1 : P) (s s' e₀ e₁ : S) (g : G) (v : N) :
    (TreapWorld.steps R m1 [.new (some s) e₀ .none, .new (some s') e₁ .none, .insert 0 (.num v) .none]
        ⟨g, []⟩).toOption.bind (fun x => x.2.treaps[0]?.map Bst.root) =
      some (.node .nil (v, R.nth s' 0) .nil) := rfl

/-- `clear` forgets the seed: what is drawn then comes from the machine -/
theorem C98_cleared (R : Rng S G P) (m1 : P) (s e₀ e₁ : S) (g : G) (v : N) :
    (TreapWorld.steps R m1 [.new (some s) e₀ .none, .clear 0 e₁, .insert 0 (.num v) .none]
        ⟨g, []⟩).toOption.bind (fun x => x.2.treaps[0]?.map Bst.root) =
      some (.node .nil (v, R.nth e₁ 0) .nil) := rfl

/-- the numbers the program draws itself are those of the seed of the treap, whatever state the program had
set the generator to -/
theorem C98_program (R : Rng S G P) (m1 : P) (s e : S) (g g' : G) :
    (TreapWorld.steps (N := N) R m1 [.outside g', .new (some s) e .none, .draw] ⟨g, []⟩).toOption.bind
      (fun x => x.1[2]?) = some (.drawn (R.nth s 0)) := rfl

/-- so the full statement is false for every generator that draws two different numbers after some seed -/
theorem C98_not_reproducible (R : Rng S G P) (m1 : P) (s : S) (hs : R.nth s 0 ≠ R.nth s 1) (e₀ e₁ : S) (g : G)
    (u v : N) : ∃ ops₁ ops₂ : List (TWOp N P S G), (∃ rs w, TreapWorld.steps R m1
        (.new none e₀ .none :: .new (some s) e₁ .none :: ops₁) ⟨g, []⟩ = .ok (rs, w) ∧
      ∃ rs' w', TreapWorld.steps R m1
        (.new none e₀ .none :: .new (some s) e₁ .none :: ops₂) ⟨g, []⟩ = .ok (rs', w') ∧
      ownCalls 1 ops₁ = ownCalls 1 ops₂ ∧ w.treaps[1]? ≠ w'.treaps[1]?) := by
  refine ⟨[.insert 1 (.num v) .none], [.insert 0 (.num u) .none, .insert 1 (.num v) .none], _, _, rfl, _, _,
    rfl, rfl, ?_⟩
  intro h
  have h' := congrArg (Option.map fun t : Bst N P => t.root) h
  have : R.nth s 0 = R.nth s 1 := by
    have := Option.some.inj h'
    injection this with _ h _
    exact (Prod.mk.inj h).2
  exact hs this

/-! ## Examples -/

/-- a small generator -/
def rngExample : Rng Nat Nat Int where
  seed s := s + 3
  draw g := ((g * 37 % 101 : Nat), g * 5 % 997)

example : (List.range 4).map (rngExample.nth 2) = [84, 16, 80, 97] := by decide +kernel

-- the hypotheses of `C98_reproducible_partial`: another treap is used, but not its random numbers
example : (TreapWorld.steps rngExample (-1 : Int) [.new (some 2) 9 (.items [.num (4 : Int), .num 1]),
    .insert 0 (.num 7) (.num 50), .insert 1 (.num 6) .none, .insert 1 .other .none, .query 0 (.contains (.num 7)),
    .query 1 (.remove (.num 4))]
    ⟨77, [Bst.empty]⟩).toOption.bind (fun x => x.2.treaps[1]?.map Bst.root) =
    some (.node (.node .nil (1, 16) .nil) (6, 80) .nil) := by decide +kernel
example : ownCalls 1 ([.insert 0 (.num 7) (.num 50), .insert 1 (.num 6) .none, .insert 1 .other .none,
    .query 0 (.contains (.num 7)), .query 1 (.remove (.num 4))] : List (TWOp Int Int Nat Nat)) =
    [.insert (.num 6) .none, .insert .other .none, .query (.remove (.num 4))] := by decide +kernel
-- a constructor that raises has drawn
example : (TreapWorld.step rngExample (-1 : Int) ⟨77, []⟩
    (.new (some 2) 9 (.items [.num (4 : Int), .num 1, .other, .num 5]))).toOption.map (fun x => x.2.gen) =
    some (rngExample.state 2 2) := by decide +kernel
-- and the hypothesis of `C98_not_reproducible`
example : rngExample.nth 2 0 ≠ rngExample.nth 2 1 := by decide +kernel

end Extra
