import Verif.Lists.Reads

/-! # Contracts of the comparison methods -/

set_option linter.unusedSectionVars false
set_option linter.unusedSimpArgs false
attribute [local irreducible] Extra.upd

namespace Extra
variable {V X : Type} [PyData V] [Inhabited X]

/-- what the loop of `_compare` computes, on sequences -/
def cmpSeq (op : V → V → Except Err Bool) : Nat → Bool → List V → List V → Except Err (Nat × Bool)
  | c, b, z :: zs, w :: ws =>
    if z = w then cmpSeq op (c + 1) b zs ws
    else match op z w with
      | .error e => .error e
      | .ok false => .ok (c, false)
      | .ok true => cmpSeq op (c + 1) false zs ws
  | c, b, _, _ => .ok (c, b)

theorem compareLoop_spec {h : Heap V X} (op : V → V → Except Err Bool) {e e' : Option Addr} :
    ∀ (bs cs : List Addr) {zs ws : List V} {p q : Option Addr} {c : Nat} {b : Bool},
    Src h bs zs e → Src h cs ws e' → (bs ≠ [] → p = bs.head?) → (cs ≠ [] → q = cs.head?) →
    compareLoop op (min bs.length cs.length) c b p q h = (cmpSeq op c b zs ws, h)
  | [], cs, zs, ws, p, q, c, b, s, s', _, _ => by
    have : zs = [] := List.eq_nil_of_length_eq_zero s.length_eq.symm
    subst this
    simp [compareLoop, cmpSeq]
  | a :: bs, [], zs, ws, p, q, c, b, s, s', _, _ => by
    have : ws = [] := List.eq_nil_of_length_eq_zero s'.length_eq.symm
    subst this
    cases zs <;> simp [compareLoop, cmpSeq]
  | a :: bs, a' :: cs, zs, ws, p, q, c, b, s, s', hp, hq => by
    obtain ⟨z, zs, rfl⟩ := s.cons_inv
    obtain ⟨w, ws, rfl⟩ := s'.cons_inv
    have hp := hp (by simp)
    have hq := hq (by simp)
    simp only [List.head?_cons] at hp hq
    subst hp hq
    obtain ⟨d, nx, _, t⟩ := s.uncons
    obtain ⟨d', nx', _, t'⟩ := s'.uncons
    have ih := fun (c : Nat) (b : Bool) => compareLoop_spec op bs cs (p := (h.node a).next)
      (q := (h.node a').next) (c := c) (b := b) t t'
      (by intro hne; rw [nx]; cases bs <;> simp_all)
      (by intro hne; rw [nx']; cases cs <;> simp_all)
    rw [List.length_cons, List.length_cons, Nat.succ_min_succ]
    by_cases hzw : z = w
    · simp [compareLoop, cmpSeq, run_bind, d, d', hzw, ih]
    · cases ho : op z w with
      | error er => simp [compareLoop, cmpSeq, run_bind, d, d', hzw, ho]
      | ok v =>
        cases v
        · simp [compareLoop, cmpSeq, run_bind, d, d', hzw, ho]
        · simp [compareLoop, cmpSeq, run_bind, d, d', hzw, ho, ih]

theorem compare_spec {k : Kind} {h : Heap V X} {l o : Addr} {ns ms : List Addr} {xs ys : List V}
    (r : Rep k h l ns xs) (r' : Rep k h o ms ys) (op : V → V → Except Err Bool) :
    compare op l o h = (cmpSeq op 0 true xs ys, h) := by
  simp only [compare, run_bind, run_getList, r.len, r'.len]
  exact compareLoop_spec op ns ms r.src r'.src r.head r'.head

/-- the first pair that stops the comparison -/
def badPair (op : V → V → Except Err Bool) (xs ys : List V) : Option (V × V) :=
  (xs.zip ys).find? (fun p => decide (p.1 ≠ p.2 ∧ op p.1 p.2 ≠ .ok true))

theorem cmpSeq_eq (op : V → V → Except Err Bool) : ∀ (xs ys : List V) (c : Nat) (b : Bool),
    match badPair op xs ys with
    | some p =>
      match op p.1 p.2 with
      | .error e => cmpSeq op c b xs ys = .error e
      | .ok _ => ∃ n, n < min xs.length ys.length ∧ cmpSeq op c b xs ys = .ok (c + n, false)
    | none => cmpSeq op c b xs ys =
        .ok (c + min xs.length ys.length, b && (xs.zip ys).all (fun p => decide (p.1 = p.2)))
  | [], ys, c, b => by cases ys <;> simp [badPair, cmpSeq]
  | x :: xs, [], c, b => by simp [badPair, cmpSeq]
  | x :: xs, y :: ys, c, b => by
    by_cases hxy : x = y
    · subst hxy
      have ih := cmpSeq_eq op xs ys (c + 1) b
      have hb : badPair op (x :: xs) (x :: ys) = badPair op xs ys := by
        simp [badPair, List.find?_cons]
      rw [hb]
      have hc : cmpSeq op c b (x :: xs) (x :: ys) = cmpSeq op (c + 1) b xs ys := by simp [cmpSeq]
      rw [hc]
      cases hbp : badPair op xs ys with
      | none =>
        rw [hbp] at ih
        simp only at ih ⊢
        rw [ih]
        simp [Nat.succ_min_succ]; omega
      | some p =>
        rw [hbp] at ih
        simp only at ih ⊢
        cases hop : op p.1 p.2 with
        | error e => rw [hop] at ih; exact ih
        | ok v =>
          rw [hop] at ih
          obtain ⟨n, hn, hh⟩ := ih
          exact ⟨n + 1, by simp; omega, by rw [hh]; simp; omega⟩
    · cases hop : op x y with
      | error e =>
        have hb : badPair op (x :: xs) (y :: ys) = some (x, y) := by
          simp [badPair, List.find?_cons, hxy, hop]
        simp [hb, hop, cmpSeq, hxy]
      | ok v =>
        cases v with
        | false =>
          have hb : badPair op (x :: xs) (y :: ys) = some (x, y) := by
            simp [badPair, List.find?_cons, hxy, hop]
          simp only [hb, hop]
          exact ⟨0, by simp, by simp [cmpSeq, hxy, hop]⟩
        | true =>
          have ih := cmpSeq_eq op xs ys (c + 1) false
          have hb : badPair op (x :: xs) (y :: ys) = badPair op xs ys := by
            simp [badPair, List.find?_cons, hop]
          rw [hb]
          have hc : cmpSeq op c b (x :: xs) (y :: ys) = cmpSeq op (c + 1) false xs ys := by
            simp [cmpSeq, hxy, hop]
          rw [hc]
          cases hbp : badPair op xs ys with
          | none =>
            rw [hbp] at ih
            simp only at ih ⊢
            rw [ih]
            simp [Nat.succ_min_succ, hxy]; omega
          | some p =>
            rw [hbp] at ih
            simp only at ih ⊢
            cases hop : op p.1 p.2 with
            | error e => rw [hop] at ih; exact ih
            | ok v =>
              rw [hop] at ih
              obtain ⟨n, hn, hh⟩ := ih
              exact ⟨n + 1, by simp; omega, by rw [hh]; simp; omega⟩

theorem zip_all_eq : ∀ {xs ys : List V}, xs.length = ys.length →
    ((xs.zip ys).all (fun p => decide (p.1 = p.2)) = true ↔ xs = ys)
  | [], [], _ => by simp
  | x :: xs, y :: ys, hl => by
    have ih := zip_all_eq (xs := xs) (ys := ys) (by simpa using hl)
    rw [List.zip_cons_cons, List.all_cons, Bool.and_eq_true, ih]
    simp

theorem badPair_opEq {xs ys : List V} (hl : xs.length = ys.length) :
    (badPair opEq xs ys = none ↔ xs = ys) := by
  rw [← zip_all_eq hl, badPair, List.find?_eq_none, List.all_eq_true]
  simp [opEq]

theorem llEq_spec {k : Kind} {h : Heap V X} {l o : Addr} {ns ms : List Addr} {xs ys : List V}
    (r : Rep k h l ns xs) (r' : Rep k h o ms ys) :
    llEq l o h = (.ok (decide (xs = ys)), h) ∧ llNe l o h = (.ok (decide (xs ≠ ys)), h) := by
  have hl : (h.lobj l).length = xs.length := by rw [r.len, r.length_eq]
  have hl' : (h.lobj o).length = ys.length := by rw [r'.len, r'.length_eq]
  by_cases hlen : xs.length = ys.length
  · have hc := cmpSeq_eq opEq xs ys 0 true
    have hb := badPair_opEq hlen
    cases hbp : badPair opEq xs ys with
    | none =>
      rw [hbp] at hc
      have : xs = ys := hb.1 hbp
      subst this
      simp only at hc
      simp [llEq, llNe, run_bind, hl, hl', compare_spec r r', hc]
    | some p =>
      rw [hbp] at hc hb
      have : xs ≠ ys := fun e => by simpa using hb.2 e
      obtain ⟨n, hn, hc⟩ : ∃ n, n < min xs.length ys.length ∧
          cmpSeq opEq 0 true xs ys = .ok (0 + n, false) := hc
      have : n ≠ ys.length := by omega
      simp [llEq, llNe, run_bind, hl, hl', compare_spec r r', hc, hlen, *]
  · have : xs ≠ ys := fun e => hlen (by rw [e])
    simp [llEq, llNe, run_bind, hl, hl', hlen, this]

/-- the result of an order operator: `eqv` decides when the common prefix is equal everywhere,
`dec` when it is not -/
def ordResult (op : V → V → Except Err Bool) (xs ys : List V) (eqv dec : Bool) :
    Except Err Bool :=
  match badPair op xs ys with
  | some p => match op p.1 p.2 with
    | .error e => .error e
    | .ok _ => .ok false
  | none => .ok (if (xs.zip ys).all (fun p => decide (p.1 = p.2)) then eqv else dec)

variable {k : Kind} {h : Heap V X} {l o : Addr} {ns ms : List Addr} {xs ys : List V}

theorem llLt_spec (r : Rep k h l ns xs) (r' : Rep k h o ms ys) (op : V → V → Except Err Bool) :
    llLt op l o h = (ordResult op xs ys (decide (xs.length < ys.length))
      (decide (xs.length ≤ ys.length)), h) := by
  have hl : (h.lobj l).length = xs.length := by rw [r.len, r.length_eq]
  have hl' : (h.lobj o).length = ys.length := by rw [r'.len, r'.length_eq]
  have hc := cmpSeq_eq op xs ys 0 true
  cases hbp : badPair op xs ys with
  | none =>
    rw [hbp] at hc
    simp only at hc
    by_cases ha : (xs.zip ys).all (fun p => decide (p.1 = p.2)) = true
    · simp only [llLt, run_bind, run_getList, hl, hl', compare_spec r r', hc, ha, ordResult, hbp,
        Bool.and_self, if_true, run_pure]
    · simp only [llLt, run_bind, run_getList, hl, hl', compare_spec r r', hc, ha, ordResult, hbp,
        Bool.and_false, Bool.false_eq_true, if_false, run_pure]
      congr 2
      rw [decide_eq_decide]; omega
  | some p =>
    rw [hbp] at hc
    simp only at hc
    cases hop : op p.1 p.2 with
    | error e =>
      rw [hop] at hc
      simp only at hc
      simp only [llLt, run_bind, run_getList, hl, hl', compare_spec r r', hc, ordResult, hbp, hop]
    | ok v =>
      rw [hop] at hc
      obtain ⟨n, hn, hc⟩ := hc
      have : 0 + n ≠ xs.length := by omega
      simp only [llLt, run_bind, run_getList, hl, hl', compare_spec r r', hc, ordResult, hbp, hop,
        Bool.false_eq_true, if_false, run_pure, this, decide_false]

theorem llGt_spec (r : Rep k h l ns xs) (r' : Rep k h o ms ys) (op : V → V → Except Err Bool) :
    llGt op l o h = (ordResult op xs ys (decide (xs.length > ys.length))
      (decide (xs.length ≤ ys.length)), h) := by
  have hl : (h.lobj l).length = xs.length := by rw [r.len, r.length_eq]
  have hl' : (h.lobj o).length = ys.length := by rw [r'.len, r'.length_eq]
  have hc := cmpSeq_eq op xs ys 0 true
  cases hbp : badPair op xs ys with
  | none =>
    rw [hbp] at hc
    simp only at hc
    by_cases ha : (xs.zip ys).all (fun p => decide (p.1 = p.2)) = true
    · simp only [llGt, run_bind, run_getList, hl, hl', compare_spec r r', hc, ha, ordResult, hbp,
        Bool.and_self, if_true, run_pure]
    · simp only [llGt, run_bind, run_getList, hl, hl', compare_spec r r', hc, ha, ordResult, hbp,
        Bool.and_false, Bool.false_eq_true, if_false, run_pure]
      congr 2
      rw [decide_eq_decide]; omega
  | some p =>
    rw [hbp] at hc
    simp only at hc
    cases hop : op p.1 p.2 with
    | error e =>
      rw [hop] at hc
      simp only at hc
      simp only [llGt, run_bind, run_getList, hl, hl', compare_spec r r', hc, ordResult, hbp, hop]
    | ok v =>
      rw [hop] at hc
      obtain ⟨n, hn, hc⟩ := hc
      have : 0 + n ≠ xs.length := by omega
      simp only [llGt, run_bind, run_getList, hl, hl', compare_spec r r', hc, ordResult, hbp, hop,
        Bool.false_eq_true, if_false, run_pure, this, decide_false]

theorem llLe_spec (r : Rep k h l ns xs) (r' : Rep k h o ms ys) (op : V → V → Except Err Bool) :
    llLe op l o h = (ordResult op xs ys (decide (xs.length ≤ ys.length))
      (decide (xs.length ≤ ys.length)), h) := by
  have hl : (h.lobj l).length = xs.length := by rw [r.len, r.length_eq]
  have hc := cmpSeq_eq op xs ys 0 true
  cases hbp : badPair op xs ys with
  | none =>
    rw [hbp] at hc
    simp only at hc
    simp only [llLe, run_bind, run_getList, hl, compare_spec r r', hc, ordResult, hbp, run_pure,
      ite_self]
    congr 2
    rw [decide_eq_decide]; omega
  | some p =>
    rw [hbp] at hc
    simp only at hc
    cases hop : op p.1 p.2 with
    | error e =>
      rw [hop] at hc
      simp only at hc
      simp only [llLe, run_bind, run_getList, hl, compare_spec r r', hc, ordResult, hbp, hop]
    | ok v =>
      rw [hop] at hc
      obtain ⟨n, hn, hc⟩ := hc
      have : 0 + n ≠ xs.length := by omega
      simp only [llLe, run_bind, run_getList, hl, compare_spec r r', hc, ordResult, hbp, hop,
        run_pure, this, decide_false]

theorem llGe_spec (r : Rep k h l ns xs) (r' : Rep k h o ms ys) (op : V → V → Except Err Bool) :
    llGe op l o h = (ordResult op xs ys (decide (ys.length ≤ xs.length))
      (decide (ys.length ≤ xs.length)), h) := by
  have hl' : (h.lobj o).length = ys.length := by rw [r'.len, r'.length_eq]
  have hc := cmpSeq_eq op xs ys 0 true
  cases hbp : badPair op xs ys with
  | none =>
    rw [hbp] at hc
    simp only at hc
    simp only [llGe, run_bind, run_getList, hl', compare_spec r r', hc, ordResult, hbp, run_pure,
      ite_self]
    congr 2
    rw [decide_eq_decide]; omega
  | some p =>
    rw [hbp] at hc
    simp only at hc
    cases hop : op p.1 p.2 with
    | error e =>
      rw [hop] at hc
      simp only at hc
      simp only [llGe, run_bind, run_getList, hl', compare_spec r r', hc, ordResult, hbp, hop]
    | ok v =>
      rw [hop] at hc
      obtain ⟨n, hn, hc⟩ := hc
      have : 0 + n ≠ ys.length := by omega
      simp only [llGe, run_bind, run_getList, hl', compare_spec r r', hc, ordResult, hbp, hop,
        run_pure, this, decide_false]

end Extra
