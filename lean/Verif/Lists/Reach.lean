import Verif.Lists.Refine

/-!
# Reachable states of programs over linked lists

`Reach k w s`: some program whose behaviour is specified leads from the start to world `w`, and
the specification says the handles then stand for the sequences `s`.
-/

set_option linter.unusedSectionVars false

namespace Extra
variable {V X : Type} [PyData V] [PyOrd V] [Inhabited X]

/-- the world `w` is reached by a program of specified calls, `s` is its abstract state -/
def Reach (k : Kind) (w : World V X) (s : AState V) : Prop :=
  ∃ ops rss, arun k ops [] = some (rss, s) ∧ (execs k ops World.init).2 = w

variable {k : Kind} {w : World V X} {s s' : AState V}

theorem Reach.inv (h : Reach k w s) : ∃ nsf, Inv k w s nsf := by
  obtain ⟨ops, rss, e, rfl⟩ := h
  exact (history_refines ops (Inv.init (nsf := fun _ => [])) e).2

theorem Reach.init : Reach k (World.init : World V X) [] := ⟨[], [], rfl, rfl⟩

theorem arun_append (ops ops' : List (Op V)) : ∀ s : AState V,
    arun k (ops ++ ops') s = (arun k ops s).bind fun p =>
      (arun k ops' p.2).map fun q => (p.1 ++ q.1, q.2) := by
  induction ops with
  | nil => intro s; simp [arun]
  | cons op ops ih =>
    intro s
    simp only [List.cons_append, arun, Option.bind_eq_bind, ih]
    cases astep k op s with
    | none => rfl
    | some p =>
      simp only [Option.bind_some]
      cases arun k ops p.2 with
      | none => rfl
      | some q =>
        simp only [Option.bind_some]
        cases arun k ops' q.2 <;> rfl

theorem execs_append (ops ops' : List (Op V)) : ∀ w : World V X,
    execs k (ops ++ ops') w = ((execs k ops w).1 ++ (execs k ops' (execs k ops w).2).1,
      (execs k ops' (execs k ops w).2).2) := by
  induction ops with
  | nil => intro w; simp [execs]
  | cons op ops ih => intro w; simp [execs, ih]

/-- one specified call from a reachable state -/
theorem Reach.step (h : Reach k w s) {op : Op V} {rs : List (Res V)}
    (e : astep k op s = some (rs, s')) :
    (exec k op w).1 ∈ rs ∧ Reach k (exec k op w).2 s' := by
  obtain ⟨nsf, I⟩ := h.inv
  refine ⟨(step_refines I op rs s' e).1, ?_⟩
  obtain ⟨ops, rss, e', rfl⟩ := h
  refine ⟨ops ++ [op], rss ++ [rs], ?_, ?_⟩
  · rw [arun_append, e']
    simp [arun, e]
  · rw [execs_append]; simp [execs]

/-- a call with exactly one allowed result -/
theorem Reach.step_one (h : Reach k w s) {op : Op V} {r : Res V}
    (e : astep k op s = one r s') :
    (exec k op w).1 = r ∧ Reach k (exec k op w).2 s' := by
  obtain ⟨h1, h2⟩ := h.step (rs := [r]) e
  exact ⟨by simpa using h1, h2⟩

/-- a program of specified calls from a reachable state -/
theorem Reach.steps (h : Reach k w s) {ops : List (Op V)} {rss : List (List (Res V))}
    (e : arun k ops s = some (rss, s')) :
    List.Forall₂ (fun r rs => r ∈ rs) (execs k ops w).1 rss ∧ Reach k (execs k ops w).2 s' := by
  obtain ⟨nsf, I⟩ := h.inv
  refine ⟨(history_refines ops I e).1, ?_⟩
  obtain ⟨ops0, rss0, e', rfl⟩ := h
  refine ⟨ops0 ++ ops, rss0 ++ rss, ?_, ?_⟩
  · rw [arun_append, e']
    simp [e]
  · rw [execs_append]

/-- the handles whose list a call may change or take over -/
def Op.writes : Op V → List Nat
  | .addFront i _ | .addEnd i _ | .insert i _ _ | .setItem i _ _ | .delItem i _ | .removeFront i
  | .removeEnd i | .remove i _ _ | .clear i => [i]
  | .rotate i _ _ _ => [i]
  | .extend i j => [i, j]
  | _ => []

theorem specUpd_at? {s s' : AState V} {i j : Nat} {r : Except Err (List V)} {rs : List (Res V)}
    (hij : j ≠ i) (e : specUpd s i r = some (rs, s')) : s'.at? j = s.at? j := by
  cases r <;> simp only [specUpd, one, Option.some.injEq, Prod.mk.injEq] at e <;>
    obtain ⟨_, rfl⟩ := e
  · rfl
  · simp only [AState.at?, AState.put, List.getElem?_set, Ne.symm hij, if_false]

theorem specNew_at? {s s' : AState V} {j : Nat} {xs : List V} {r : Except Err (List V)}
    {rs : List (Res V)} (hx : s.at? j = some xs) (e : specNew s r = some (rs, s')) :
    s'.at? j = some xs := by
  have hj := at?_lt hx
  cases r <;> simp only [specNew, one, Option.some.injEq, Prod.mk.injEq] at e <;>
    obtain ⟨_, rfl⟩ := e
  · exact hx
  · rw [AState.at?, List.getElem?_append_left hj]; exact hx

theorem one_at? {s s0 s' : AState V} {r : Res V} {rs : List (Res V)}
    (e : one r s0 = some (rs, s')) : s' = s0 := by
  simp only [one, Option.some.injEq, Prod.mk.injEq] at e
  exact e.2.symm

/-- a call that does not write handle `j` leaves its sequence alone -/
theorem astep_frame {op : Op V} {rs : List (Res V)} {j : Nat} {xs : List V}
    (hw : j ∉ op.writes) (hx : s.at? j = some xs) (e : astep k op s = some (rs, s')) :
    s'.at? j = some xs := by
  have hbind : ∀ {i : Nat} {f : List V → Option (List (Res V) × AState V)},
      (s.at? i >>= f) = some (rs, s') → ∃ ys, s.at? i = some ys ∧ f ys = some (rs, s') := by
    intro i f h
    simp only [Option.bind_eq_bind, Option.bind_eq_some_iff] at h
    exact h
  have hupd : ∀ {i : Nat} {r}, j ≠ i → specUpd s i r = some (rs, s') → s'.at? j = some xs :=
    fun hij e => (specUpd_at? hij e).trans hx
  have hone : ∀ {r : Res V}, one r s = some (rs, s') → s'.at? j = some xs :=
    fun e => by rw [one_at? (s := s) e]; exact hx
  cases op <;> simp only [astep] at e <;> simp only [Op.writes, List.mem_cons, List.not_mem_nil,
    or_false, not_false_eq_true] at hw
  case new items => exact specNew_at? hx e
  case addFront => obtain ⟨ys, -, e⟩ := hbind e; exact hupd hw e
  case addEnd => obtain ⟨ys, -, e⟩ := hbind e; exact hupd hw e
  case insert => obtain ⟨ys, -, e⟩ := hbind e; exact hupd hw e
  case setItem =>
    obtain ⟨ys, -, e⟩ := hbind e
    split at e
    · split at e
      · exact hone e
      · exact hone e
      · simp only [Option.some.injEq, Prod.mk.injEq] at e
        obtain ⟨_, rfl⟩ := e; exact hx
      · simp only [Option.some.injEq, Prod.mk.injEq] at e
        obtain ⟨_, rfl⟩ := e; exact hx
    · exact hupd hw e
  case delItem => obtain ⟨ys, -, e⟩ := hbind e; exact hupd hw e
  case removeFront => obtain ⟨ys, -, e⟩ := hbind e; exact hupd hw e
  case removeEnd => obtain ⟨ys, -, e⟩ := hbind e; exact hupd hw e
  case remove => obtain ⟨ys, -, e⟩ := hbind e; exact hupd hw e
  case clear => obtain ⟨ys, -, e⟩ := hbind e; exact hupd hw e
  case rotate =>
    obtain ⟨ys, -, e⟩ := hbind e
    split at e
    · exact hone e
    · exact hone e
    · split at e
      · exact hone e
      · split at e
        · exact hupd hw e
        · exact specNew_at? hx e
  case toList => obtain ⟨ys, -, e⟩ := hbind e; exact hone e
  case len => obtain ⟨ys, -, e⟩ := hbind e; exact hone e
  case isEmpty => obtain ⟨ys, -, e⟩ := hbind e; exact hone e
  case getItem =>
    obtain ⟨ys, -, e⟩ := hbind e
    split at e
    · exact hone e
    · exact specNew_at? hx e
    · exact hone e
  case contains => obtain ⟨ys, -, e⟩ := hbind e; exact hone e
  case count => obtain ⟨ys, -, e⟩ := hbind e; exact hone e
  case copy => obtain ⟨ys, -, e⟩ := hbind e; exact specNew_at? hx e
  case reverse => obtain ⟨ys, -, e⟩ := hbind e; exact specNew_at? hx e
  case split =>
    obtain ⟨ys, -, e⟩ := hbind e
    split at e
    · exact hone e
    · rw [one_at? (s := s) e, AState.at?, List.getElem?_append_left (at?_lt hx)]; exact hx
  case extend =>
    obtain ⟨ys, -, e⟩ := hbind e
    obtain ⟨zs, -, e⟩ := hbind e
    simp only [not_or] at hw
    split at e
    · exact hone e
    · split at e
      · cases e
      · split at e
        · rw [one_at? (s := s) e, AState.at?, AState.put, List.getElem?_set_ne (Ne.symm hw.1)]
          exact hx
        · rw [one_at? (s := s) e, AState.at?, AState.put, List.getElem?_set_ne (Ne.symm hw.2),
            List.getElem?_set_ne (Ne.symm hw.1)]
          exact hx
  case eq => obtain ⟨ys, -, e⟩ := hbind e; obtain ⟨zs, -, e⟩ := hbind e; exact hone e
  case ne => obtain ⟨ys, -, e⟩ := hbind e; obtain ⟨zs, -, e⟩ := hbind e; exact hone e
  case lt => obtain ⟨ys, -, e⟩ := hbind e; obtain ⟨zs, -, e⟩ := hbind e; exact hone e
  case le => obtain ⟨ys, -, e⟩ := hbind e; obtain ⟨zs, -, e⟩ := hbind e; exact hone e
  case gt => obtain ⟨ys, -, e⟩ := hbind e; obtain ⟨zs, -, e⟩ := hbind e; exact hone e
  case ge => obtain ⟨ys, -, e⟩ := hbind e; obtain ⟨zs, -, e⟩ := hbind e; exact hone e

/-- a program that does not write handle `j` leaves its sequence alone -/
theorem arun_frame {ops : List (Op V)} {j : Nat} {xs : List V} (hw : ∀ op ∈ ops, j ∉ op.writes) :
    ∀ {s s' : AState V} {rss : List (List (Res V))}, s.at? j = some xs →
      arun k ops s = some (rss, s') → s'.at? j = some xs := by
  induction ops with
  | nil =>
    intro s s' rss hx e
    simp only [arun, Option.some.injEq, Prod.mk.injEq] at e
    exact e.2 ▸ hx
  | cons op ops ih =>
    intro s s' rss hx e
    simp only [arun, Option.bind_eq_bind, Option.bind_eq_some_iff] at e
    obtain ⟨⟨rs, s1⟩, e1, ⟨rss', s2⟩, e2, e3⟩ := e
    simp only [Option.some.injEq, Prod.mk.injEq] at e3
    obtain ⟨_, rfl⟩ := e3
    exact ih (fun o ho => hw o (by simp [ho])) (astep_frame (hw op (by simp)) hx e1) e2

/-- calls that involve one list only, with handle `i` -/
def Op.on (i : Nat) : Op V → Bool
  | .addFront j _ | .addEnd j _ | .insert j _ _ | .setItem j _ _ | .delItem j _ | .removeFront j
  | .removeEnd j | .remove j _ _ | .clear j | .rotate j _ _ _ | .toList j | .len j | .isEmpty j
  | .getItem j _ | .contains j _ | .count j _ | .copy j | .reverse j | .split j _ => decide (j = i)
  | _ => false

theorem at?_specUpd {s : AState V} {i : Nat} {xs : List V} (hx : s.at? i = some xs)
    (r : Except Err (List V)) : ∃ r0 s' ys, specUpd s i r = one r0 s' ∧ s'.at? i = some ys := by
  cases r with
  | error e => exact ⟨_, s, xs, rfl, hx⟩
  | ok ys => exact ⟨_, _, ys, rfl, by rw [at?_put hx]; simp⟩

theorem at?_specNew {s : AState V} {i : Nat} {xs : List V} (hx : s.at? i = some xs)
    (r : Except Err (List V)) : ∃ r0 s' ys, specNew s r = one r0 s' ∧ s'.at? i = some ys := by
  cases r with
  | error e => exact ⟨_, s, xs, rfl, hx⟩
  | ok ys => exact ⟨_, _, xs, rfl, by rw [AState.at?, List.getElem?_append_left (at?_lt hx)]; exact hx⟩

/-- the specification covers every call on a live list, and the list stays live; it allows several
results only for item assignment to an empty circular list -/
theorem astep_on {op : Op V} {i : Nat} {xs : List V} (ho : op.on i) (hx : s.at? i = some xs) :
    ∃ rs s' ys, astep k op s = some (rs, s') ∧ s'.at? i = some ys ∧ (k ≠ .cll → ∃ r, rs = [r]) := by
  have key : ∀ {a : Option (List (Res V) × AState V)},
      (∃ r0 s' ys, a = one r0 s' ∧ s'.at? i = some ys) →
      ∃ rs s' ys, a = some (rs, s') ∧ s'.at? i = some ys ∧ (k ≠ .cll → ∃ r, rs = [r]) := by
    rintro a ⟨r0, s', ys, h, h'⟩
    exact ⟨_, s', ys, h, h', fun _ => ⟨r0, rfl⟩⟩
  have hb : ∀ (f : List V → Option (List (Res V) × AState V)), (s.at? i >>= f) = f xs := by
    intro f; rw [hx]; rfl
  cases op <;> simp only [Op.on, decide_eq_true_eq, Bool.false_eq_true] at ho <;>
    (try subst ho) <;> simp only [astep, hb]
  case addFront => exact key (at?_specUpd hx _)
  case addEnd => exact key (at?_specUpd hx _)
  case insert => exact key (at?_specUpd hx _)
  case setItem j idx item =>
    by_cases hc : k = .cll ∧ xs = []
    · obtain ⟨rfl, rfl⟩ := hc
      simp only [and_self, if_true, ne_eq, not_true_eq_false, false_implies, and_true]
      split
      · exact ⟨_, s, [], rfl, hx⟩
      · exact ⟨_, s, [], rfl, hx⟩
      · exact ⟨_, s, [], rfl, hx⟩
      · exact ⟨_, s, [], rfl, hx⟩
    · simp only [hc, if_false]
      exact key (at?_specUpd hx _)
  case delItem => exact key (at?_specUpd hx _)
  case removeFront => exact key (at?_specUpd hx _)
  case removeEnd => exact key (at?_specUpd hx _)
  case remove => exact key (at?_specUpd hx _)
  case clear => exact key (at?_specUpd hx _)
  case rotate =>
    refine key ?_
    split
    · exact ⟨_, s, xs, rfl, hx⟩
    · exact ⟨_, s, xs, rfl, hx⟩
    · split
      · exact ⟨_, s, xs, rfl, hx⟩
      · split
        · exact at?_specUpd hx _
        · exact at?_specNew hx _
  case getItem =>
    refine key ?_
    split
    · exact ⟨_, s, xs, rfl, hx⟩
    · exact at?_specNew hx _
    · exact ⟨_, s, xs, rfl, hx⟩
  case copy => exact key (at?_specNew hx _)
  case reverse => exact key (at?_specNew hx _)
  case split =>
    refine key ?_
    split
    · exact ⟨_, s, xs, rfl, hx⟩
    · exact ⟨_, _, xs, rfl, by rw [AState.at?, List.getElem?_append_left (at?_lt hx)]; exact hx⟩
  all_goals exact key ⟨_, s, xs, rfl, hx⟩

theorem arun_on {ops : List (Op V)} {i : Nat} (ho : ∀ op ∈ ops, op.on i) :
    ∀ {s : AState V} {xs : List V}, s.at? i = some xs →
      ∃ rss s' ys, arun k ops s = some (rss, s') ∧ s'.at? i = some ys ∧
        (k ≠ .cll → ∃ rs : List (Res V), rss = rs.map ([·])) := by
  induction ops with
  | nil => intro s xs hx; exact ⟨[], s, xs, rfl, hx, fun _ => ⟨[], rfl⟩⟩
  | cons op ops ih =>
    intro s xs hx
    obtain ⟨rs, s1, ys, e1, hy, h1⟩ := astep_on (k := k) (ho op (by simp)) hx
    obtain ⟨rss, s2, zs, e2, hz, h2⟩ := ih (fun o h => ho o (by simp [h])) hy
    refine ⟨rs :: rss, s2, zs, ?_, hz, fun hk => ?_⟩
    · simp [arun, e1, e2]
    · obtain ⟨r, rfl⟩ := h1 hk
      obtain ⟨rs', rfl⟩ := h2 hk
      exact ⟨r :: rs', rfl⟩

/-- for the two lists with a single allowed result per call the results are those of the
specification -/
theorem forall₂_singletons {rs : List (Res V)} {rs' : List (Res V)}
    (h : List.Forall₂ (fun r rs => r ∈ rs) rs (rs'.map ([·]))) : rs = rs' := by
  induction rs' generalizing rs with
  | nil => simpa using h
  | cons r rs' ih =>
    rw [List.map_cons] at h
    cases h with
    | cons h1 h2 => rw [ih h2]; simp at h1; rw [h1]

end Extra
