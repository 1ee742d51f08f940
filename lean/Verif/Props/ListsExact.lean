import Verif.Lists.SelfExtend
import Verif.Props.Lists

/-!
# C11, C12 and C13 to the end: what the code does where the claims fail

The vocabulary is that of `Verif/Props/Lists.lean`.
-/

namespace Extra

variable {k : Kind} {w : LWorld} {s : AState Val} {i j : Nat} {xs ys : List Val}

private def ints (ns : List Int) : List (Item Val) := ns.map (fun n => .val (.int n))

/-! ## C11 -/

/-- C11: `a > b` element by element.  As for `<` the first bad position decides; without one and with some
different elements, `a > b` asks that `a` is *not longer* than `b`. -/
theorem C11_gt_elementwise (R : Reach k w s) (hi : s.at? i = some xs) (hj : s.at? j = some ys) :
    (exec k (.gt i j) w).1 = (match firstBad PyOrd.gt xs ys with
      | some p => (match PyOrd.gt p.1 p.2 with | .error e => .error e | .ok _ => .ok (.bool false))
      | none => .ok (.bool (if ∀ p ∈ xs.zip ys, p.1 = p.2 then decide (ys.length < xs.length)
          else decide (xs.length ≤ ys.length)))) := by
  rw [(R.step_one (op := .gt i j) (s' := s) (by simp only [astep, hi, hj, specRead]; rfl)).1]
  cases hc : firstBad PyOrd.gt xs ys with
  | none => rw [specOrd_none hc]; simp [Except.map]
  | some z =>
    rw [specOrd_some hc]
    cases hz : (PyOrd.gt z.1 z.2 : Except Err Bool) <;> simp [Except.map, hz]

/-- C11, exactly: `a > b` and `b < a` give the same answer (or exception) if and only if the lists are
equally long, or some position is bad, or one list is a prefix of the other. -/
theorem C11_gt_lt_exact (R : Reach k w s) (hi : s.at? i = some xs) (hj : s.at? j = some ys) :
    (exec k (.gt i j) w).1 = (exec k (.lt j i) w).1 ↔
      xs.length = ys.length ∨ firstBad PyOrd.gt xs ys ≠ none ∨ xs <+: ys ∨ ys <+: xs := by
  rw [(R.step_one (op := .gt i j) (s' := s) (by simp only [astep, hi, hj, specRead]; rfl)).1,
    (R.step_one (op := .lt j i) (s' := s) (by simp only [astep, hi, hj, specRead]; rfl)).1]
  rw [← specOrd_swap (op := (PyOrd.lt : Val → Val → Except Err Bool)) (op' := PyOrd.gt)
    (by intro a b; cases a <;> cases b <;> simp [PyOrd.lt, PyOrd.gt, Val.order]) ys xs
    (ys.length < xs.length) (ys.length ≤ xs.length)]
  have hpre : (∀ p ∈ xs.zip ys, p.1 = p.2) ↔ (xs <+: ys ∨ ys <+: xs) := by
    clear hi hj R
    induction xs generalizing ys with
    | nil => simp
    | cons x xs ih =>
      cases ys with
      | nil => simp
      | cons y ys =>
        simp only [List.zip_cons_cons, List.forall_mem_cons, ih, List.cons_prefix_cons]
        constructor
        · rintro ⟨rfl, h⟩; simpa using h
        · rintro (⟨rfl, h⟩ | ⟨rfl, h⟩) <;> simp [h]
  cases hc : firstBad PyOrd.gt xs ys with
  | some z =>
    rw [specOrd_some hc, specOrd_some hc]; simp
  | none =>
    rw [specOrd_none hc, specOrd_none hc]
    by_cases he : ∀ p ∈ xs.zip ys, p.1 = p.2
    · have := hpre.1 he
      rw [if_pos he, if_pos he]; simp [this]
    · have hn : ¬ (xs <+: ys ∨ ys <+: xs) := fun h => he (hpre.2 h)
      rw [if_neg he, if_neg he]
      simp only [ne_eq, not_true_eq_false, hn, or_false, Except.map, Except.ok.injEq, Out.bool.injEq,
        decide_eq_decide]
      omega

example : (execs .ll [.new (ints [5, 5]), .new (ints [1]), .new (ints [5]), .gt 0 1, .lt 1 0, .gt 0 2, .lt 2 0]
    (World.init : LWorld)).1.drop 3 =
    [.ok (.bool false), .ok (.bool true), .ok (.bool true), .ok (.bool true)] ∧
    firstBad PyOrd.gt [.int 5, .int 5] [.int 1] = none := by decide +kernel

/-! ## C12 -/

/-- C12, exactly: a slice with a negative step gives a list with the last element of Python's slice only. -/
theorem C12_negative_exact (hk : k ≠ .cll) (R : Reach k w s) (hi : s.at? i = some xs)
    (start stop : Option Int) {st : Int} (hs : st < 0) :
    (execs k [.getItem i (.slice start stop (some st)), .toList s.length] w).1 =
      [.ok (.handle s.length), .ok (.list ((specSlice xs start stop st).getLast?.toList.map some))] := by
  have h0 : (exec k (.getItem i (.slice start stop (some st))) w).1 = .ok (.handle s.length) ∧
      Reach k (exec k (.getItem i (.slice start stop (some st))) w).2
        (s ++ [some (specSlice xs start stop st).getLast?.toList]) := by
    refine R.step_one ?_
    have h1 : ¬ st = 0 := by omega
    have h2 : ¬ 0 < st := by omega
    cases k with
    | cll => exact absurd rfl hk
    | ll | dll => simp [astep, hi, specNew, specSliceImpl, h1, h2]
  obtain ⟨h1, R1⟩ := h0
  obtain ⟨h2, _⟩ := R1.toList (at?_append_new _)
  simp only [execs, h1, h2]

/-- C12, exactly: the slice is Python's if and only if the step is positive or Python's slice has at most
one element. -/
theorem C12_exact (hk : k ≠ .cll) (R : Reach k w s) (hi : s.at? i = some xs) (start stop step : Option Int)
    (h0 : step ≠ some 0) :
    (execs k [.getItem i (.slice start stop step), .toList s.length] w).1 =
      [.ok (.handle s.length), .ok (.list ((specSlice xs start stop (step.getD 1)).map some))] ↔
    0 < step.getD 1 ∨ (specSlice xs start stop (step.getD 1)).length ≤ 1 := by
  by_cases hp : 0 < step.getD 1
  · simp [(C12_slice_partial hk R hi start stop step).1 hp, hp]
  · cases step with
    | none => simp at hp
    | some st =>
      simp only [Option.getD_some] at hp ⊢
      have hn : st < 0 := by
        have : st ≠ 0 := fun e => h0 (by rw [e])
        omega
      rw [C12_negative_exact hk R hi start stop hn]
      simp only [hp, false_or, List.cons.injEq, true_and, and_true, Except.ok.injEq, Out.list.injEq]
      generalize specSlice xs start stop st = zs
      constructor
      · intro h
        have := congrArg List.length h
        cases hz : zs.getLast? <;> simp [hz] at this <;> omega
      · intro h
        match zs, h with
        | [], _ => rfl
        | [z], _ => rfl

example : (execs .dll [.new (ints [1, 2, 3, 4, 5]), .getItem 0 (.slice none none (some (-2))), .toList 1,
    .getItem 0 (.slice (some 3) (some 2) (some (-1))), .toList 2] (World.init : LWorld)).1.drop 1 =
    [.ok (.handle 1), .ok (.list [some (.int 1)]), .ok (.handle 2), .ok (.list [some (.int 4)])] ∧
    specSlice [1, 2, 3, 4, 5] none none (-2) = [5, 3, 1] ∧
    specSlice [1, 2, 3, 4, 5] (some 3) (some 2) (-1) = [4] := by decide +kernel

/-! ## C13 -/

/-- C13, exactly, after a list is extended by itself: it lists its items twice, has twice the length, and the
search ends, with `True`, for the values it holds.  (For the others it does not end:
`C13_self_extend_search_diverges`.) -/
theorem C13_self_extend_exact (hk : k ≠ .cll) (R : Reach k w s) (hi : s.at? i = some xs) (hne : xs ≠ []) :
    let w' := (exec k (.extend i i) w).2
    (exec k (.extend i i) w).1 = .ok .unit ∧
    (exec k (.toList i) w').1 = .ok (.list ((xs ++ xs).map some)) ∧
    (exec k (.len i) w').1 = .ok (.nat (xs ++ xs).length) ∧
    ∀ v, (exec k (.contains i (some v)) w').1 = if v ∈ xs then .ok (.bool true) else .error .diverge := by
  obtain ⟨nsf, I⟩ := R.inv
  obtain ⟨l, hl, r⟩ := I.addr hi
  obtain ⟨h', e, h1, h2, hb, src⟩ := extend_self_src hk w.fuel r hne
  have he : exec k (.extend i i) w = (.ok .unit, ⟨h', w.env⟩) := by
    simp [exec, World.run, run_bind, w.addr_run hl, e]
  have ha := World.addr_run (⟨h', w.env⟩ : LWorld) hl
  have hlen := r.length_eq
  have hns : nsf i ≠ [] := by
    intro h; rw [h] at hlen
    exact hne (List.eq_nil_of_length_eq_zero hlen.symm)
  have hfu : (nsf i).length ≤ (⟨h', w.env⟩ : LWorld).fuel := by
    have := r.length_le
    simp only [World.fuel]; omega
  intro w'
  have hw' : w' = ⟨h', w.env⟩ := by simp only [w', he]
  rw [hw']
  refine ⟨by rw [he], ?_, ?_, fun v => ?_⟩
  · have := iterLoop_spec (nsf i ++ nsf i) (curr := (h'.lobj l).head) src
      (fun _ => by rw [h2]; cases hh : nsf i <;> simp)
    simp only [exec, World.run, run_bind, ha, toList, run_getList, h1, this]
  · simp only [exec, World.run, run_bind, ha, llLen, run_getList, h1]
    simp [hlen]
  · by_cases hv : v ∈ xs
    · obtain ⟨m, ms, hm⟩ := List.exists_cons_of_ne_nil hns
      have src1 : Src h' (nsf i) xs (some m) := by
        have hl' := (Lnk_append.1 src.links).2
        rw [hm, List.head?_cons, ← hm] at hl'
        refine ⟨hl', ?_, r.normed, fun a ha => src.bound a (by simp [ha])⟩
        have := src.data
        rw [List.map_append, List.map_append] at this
        exact (List.append_inj this (by simp [hlen])).1
      obtain ⟨a, e1, d1⟩ := searchLoop_found v (nsf i) (fuel := (⟨h', w.env⟩ : LWorld).fuel) src1 hv hfu
      have hl0 : (h'.lobj l).length ≠ 0 := by
        rw [h1, hm]; simp
      rw [if_pos hv]
      cases k with
      | cll => exact absurd rfl hk
      | ll | dll =>
        simp only [exec, World.run, run_bind, ha, contains, run_getList, hl0, if_false, h2, e1, run_getData, d1,
          run_pure, decide_true]
    · have := (C13_self_extend_search_diverges hk R hi hne hl v hv (⟨h', w.env⟩ : LWorld).fuel).2.2
      rw [he] at this
      rw [if_neg hv]
      simp only [exec, World.run, run_bind, ha]
      generalize hc : contains k (⟨h', w.env⟩ : LWorld).fuel l (some v) h' = c at this ⊢
      obtain ⟨c1, c2⟩ := c
      simp only at this
      subst this
      rfl

example : (execs .dll [.new (ints [1, 2]), .extend 0 0, .toList 0, .contains 0 (some (.int 2)),
    .contains 0 (some (.int 3))] (World.init : LWorld)).1.drop 1 =
    [.ok .unit, .ok (.list [some (.int 1), some (.int 2), some (.int 1), some (.int 2)]), .ok (.bool true),
      .error .diverge] := by decide +kernel

end Extra
