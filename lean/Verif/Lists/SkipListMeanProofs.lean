import Verif.Lists.SkipListMean
import Verif.Lists.SkipListCostProofs

/-! # Averages over coin flips (no property content) -/

set_option linter.unusedSectionVars false
set_option linter.unusedSimpArgs false

open scoped ENNReal

namespace Extra

/-! ## One draw -/

theorem half_two (x : ℝ≥0∞) : 2⁻¹ * x + 2⁻¹ * x = x := by
  rw [← add_mul, ENNReal.inv_two_add_inv_two, one_mul]

theorem coinMean_step (f : Nat → ℝ≥0∞) :
    coinMean f = 2⁻¹ * f 0 + 2⁻¹ * coinMean (fun h => f (h + 1)) := by
  unfold coinMean
  rw [tsum_eq_zero_add' ENNReal.summable, zero_add, pow_one, ← ENNReal.tsum_mul_left]
  congr 1
  apply tsum_congr
  intro h
  rw [pow_succ' _ (h + 1), mul_assoc]

theorem coinMean_mono {f g : Nat → ℝ≥0∞} (h : ∀ k, f k ≤ g k) : coinMean f ≤ coinMean g :=
  ENNReal.tsum_le_tsum fun k => mul_le_mul_right (h k) _

theorem coinMean_add (f g : Nat → ℝ≥0∞) :
    coinMean (fun k => f k + g k) = coinMean f + coinMean g := by
  unfold coinMean
  rw [← ENNReal.tsum_add]
  exact tsum_congr fun k => mul_add _ _ _

theorem coinMean_const (c : ℝ≥0∞) : coinMean (fun _ => c) = c := by
  unfold coinMean
  rw [ENNReal.tsum_mul_right, ENNReal.tsum_geometric_add_one, ENNReal.one_sub_inv_two, inv_inv,
    ENNReal.inv_mul_cancel (by simp) (by simp), one_mul]

theorem coinMean_comm (f : Nat → Nat → ℝ≥0∞) :
    coinMean (fun a => coinMean (fun b => f a b)) = coinMean (fun b => coinMean (fun a => f a b)) := by
  unfold coinMean
  simp only [← ENNReal.tsum_mul_left]
  rw [ENNReal.tsum_comm]
  refine tsum_congr fun a => tsum_congr fun b => ?_
  rw [← mul_assoc, ← mul_assoc, mul_comm (2⁻¹ ^ (b + 1) : ℝ≥0∞)]

theorem coinMean_lt (i : Nat) :
    coinMean (fun h => if i < h then 1 else 0) = 2⁻¹ ^ (i + 1) := by
  induction i with
  | zero =>
    rw [coinMean_step]
    simp [coinMean_const]
  | succ i ih =>
    rw [coinMean_step]
    simp only [Nat.add_lt_add_iff_right, ih]
    simp [pow_succ' _ (i + 1)]

/-- on average one head is drawn -/
theorem coinMean_id : coinMean (fun h => (h : ℝ≥0∞)) = 1 := by
  have e : ∀ h : Nat, (h : ℝ≥0∞) = ∑' i, if i < h then 1 else 0 := by
    intro h
    rw [tsum_eq_sum (s := Finset.range h) (by
      intro i hi
      rw [Finset.mem_range] at hi
      simp [hi])]
    rw [Finset.sum_congr rfl (g := fun _ => (1 : ℝ≥0∞)) (by
      intro i hi
      rw [Finset.mem_range] at hi
      simp [hi])]
    simp
  have : coinMean (fun h => (h : ℝ≥0∞)) = ∑' i, coinMean (fun h => if i < h then 1 else 0) := by
    conv_lhs => unfold coinMean
    simp only [coinMean]
    rw [ENNReal.tsum_comm]
    refine tsum_congr fun h => ?_
    rw [e h, ENNReal.tsum_mul_left]
  rw [this]
  simp only [coinMean_lt]
  have := coinMean_const 1
  simpa [coinMean] using this

theorem coinMean_max (K : Nat) : coinMean (fun h => ((max K h : Nat) : ℝ≥0∞)) = K + 2⁻¹ ^ K := by
  induction K with
  | zero => simp [coinMean_id]
  | succ K ih =>
    rw [coinMean_step]
    have : ∀ h, ((max (K + 1) (h + 1) : Nat) : ℝ≥0∞) = ((max K h : Nat) : ℝ≥0∞) + 1 := by
      intro h
      rw [Nat.add_max_add_right]; simp
    simp only [this, coinMean_add, ih, coinMean_const]
    rw [Nat.max_eq_left (Nat.zero_le _), add_right_comm, mul_add, ← add_assoc,
      Nat.cast_succ, half_two, pow_succ' _ K]

/-- one number more on the way back from the number looked for -/
theorem coinMean_record : ∀ (L m : Nat),
    coinMean (fun h => if m ≤ h then ((L - h : Nat) : ℝ≥0∞) + 1 else ((L - m : Nat) : ℝ≥0∞)) ≤
      ((L - m : Nat) : ℝ≥0∞) + 2⁻¹ ^ L
  | 0, m => by
    refine (coinMean_mono (g := fun _ => 1) ?_).trans ?_
    · intro k; by_cases h : m ≤ k <;> simp [h]
    · simp [coinMean_const]
  | L + 1, 0 => by
    rw [coinMean_step]
    have ih := coinMean_record L 0
    simp only [Nat.zero_le, if_true, Nat.sub_zero, Nat.add_sub_add_right] at ih ⊢
    calc 2⁻¹ * (((L + 1 : Nat) : ℝ≥0∞) + 1) + 2⁻¹ * coinMean (fun h => ((L - h : Nat) : ℝ≥0∞) + 1)
        ≤ 2⁻¹ * (((L + 1 : Nat) : ℝ≥0∞) + 1) + 2⁻¹ * ((L : ℝ≥0∞) + 2⁻¹ ^ L) := by gcongr
      _ = ((L + 1 : Nat) : ℝ≥0∞) + 2⁻¹ ^ (L + 1) := by
        have e : ((L + 1 : Nat) : ℝ≥0∞) + 1 + L = (L + 1 : Nat) + (L + 1 : Nat) := by
          push_cast; ring
        rw [pow_succ' _ L, ← mul_add, ← add_assoc, e, mul_add, mul_add, half_two]
  | L + 1, m + 1 => by
    rw [coinMean_step]
    have ih := coinMean_record L m
    simp only [Nat.add_le_add_iff_right, Nat.add_sub_add_right, Nat.not_succ_le_zero, if_false]
    calc 2⁻¹ * ((L - m : Nat) : ℝ≥0∞) + 2⁻¹ * _
        ≤ 2⁻¹ * ((L - m : Nat) : ℝ≥0∞) + 2⁻¹ * (((L - m : Nat) : ℝ≥0∞) + 2⁻¹ ^ L) := by gcongr
      _ = ((L - m : Nat) : ℝ≥0∞) + 2⁻¹ ^ (L + 1) := by
        rw [mul_add, ← add_assoc, half_two, pow_succ' _ L]

/-! ## The heads of the held numbers -/

variable {N : Type} [LinearOrder N] [OrderBot N]
attribute [local instance] numData

/-- the mean over the heads of the numbers `xs`, which are drawn one apart from the other -/
noncomputable def towersMean : List N → (List (N × Nat) → ℝ≥0∞) → ℝ≥0∞
  | [], F => F []
  | x :: xs, F => coinMean (fun h => towersMean xs (fun st => F ((x, h) :: st)))

theorem towersMean_congr : ∀ {xs : List N} {F G : List (N × Nat) → ℝ≥0∞},
    (∀ st, towerVals st = xs → F st = G st) → towersMean xs F = towersMean xs G
  | [], _, _, h => h [] rfl
  | x :: xs, F, G, h => by
    simp only [towersMean]
    congr 1
    funext k
    exact towersMean_congr fun st hst => h _ (by simp [towerVals] at hst ⊢; exact hst)

theorem towersMean_mono : ∀ {xs : List N} {F G : List (N × Nat) → ℝ≥0∞},
    (∀ st, towerVals st = xs → F st ≤ G st) → towersMean xs F ≤ towersMean xs G
  | [], _, _, h => h [] rfl
  | x :: xs, F, G, h => by
    simp only [towersMean]
    refine coinMean_mono fun k => ?_
    exact towersMean_mono fun st hst => h _ (by simp [towerVals] at hst ⊢; exact hst)

theorem towersMean_const (c : ℝ≥0∞) : ∀ xs : List N, towersMean xs (fun _ => c) = c
  | [] => rfl
  | x :: xs => by simp only [towersMean, towersMean_const c xs, coinMean_const]

theorem towersMean_add : ∀ (xs : List N) (F G : List (N × Nat) → ℝ≥0∞),
    towersMean xs (fun st => F st + G st) = towersMean xs F + towersMean xs G
  | [], _, _ => rfl
  | x :: xs, F, G => by
    simp only [towersMean]
    rw [← coinMean_add]
    congr 1
    funext k
    exact towersMean_add xs _ _

theorem towersMean_append : ∀ (A B : List N) (F : List (N × Nat) → ℝ≥0∞),
    towersMean (A ++ B) F = towersMean A (fun a => towersMean B (fun b => F (a ++ b)))
  | [], _, _ => rfl
  | x :: A, B, F => by
    simp only [List.cons_append, towersMean]
    congr 1
    funext k
    exact towersMean_append A B _

theorem towersMean_coin : ∀ (xs : List N) (F : Nat → List (N × Nat) → ℝ≥0∞),
    towersMean xs (fun st => coinMean (fun h => F h st)) =
      coinMean (fun h => towersMean xs (fun st => F h st))
  | [], _ => rfl
  | x :: xs, F => by
    simp only [towersMean]
    rw [coinMean_comm]
    congr 1
    funext k
    exact towersMean_coin xs fun h st => F h ((x, k) :: st)

theorem towersMean_filter (p : N → Bool) : ∀ (xs : List N) (F : List (N × Nat) → ℝ≥0∞),
    towersMean xs (fun st => F (st.filter (fun e => p e.1))) = towersMean (xs.filter p) F
  | [], _ => rfl
  | x :: xs, F => by
    by_cases hp : p x = true
    · simp only [towersMean, List.filter_cons, hp, if_true]
      congr 1
      funext k
      exact towersMean_filter p xs fun st => F ((x, k) :: st)
    · simp only [towersMean, List.filter_cons, hp, if_false, Bool.false_eq_true]
      simp only [towersMean_filter p xs, coinMean_const]

theorem towersMean_eraseIdx : ∀ (xs : List N) (i : Nat) (F : List (N × Nat) → ℝ≥0∞),
    towersMean xs (fun st => F (st.eraseIdx i)) = towersMean (xs.eraseIdx i) F
  | [], _, _ => by simp [towersMean]
  | x :: xs, 0, F => by
    simp only [towersMean, List.eraseIdx_cons_zero, coinMean_const]
  | x :: xs, i + 1, F => by
    simp only [towersMean, List.eraseIdx_cons_succ]
    congr 1
    funext k
    exact towersMean_eraseIdx xs i fun st => F ((x, k) :: st)

theorem towersMean_reverse : ∀ (xs : List N) (F : List (N × Nat) → ℝ≥0∞),
    towersMean xs (fun st => F st.reverse) = towersMean xs.reverse F
  | [], _ => rfl
  | x :: xs, F => by
    rw [List.reverse_cons, towersMean_append, ← towersMean_reverse xs]
    simp only [towersMean, List.reverse_cons]
    rw [towersMean_coin]

theorem towersMean_insert {xs : List N} {v : N} (hs : xs.Pairwise (· < ·)) (hv : v ∉ xs)
    (F : List (N × Nat) → ℝ≥0∞) :
    towersMean xs (fun st => coinMean (fun h => F (towerInsert v h st))) =
      towersMean (xs.filter (· < v) ++ v :: xs.filter (v < ·)) F := by
  obtain ⟨A, B, rfl, hA, hB⟩ := sorted_split v hs
  have hA' : ∀ a ∈ A, a < v := fun a ha =>
    lt_of_le_of_ne (hA a ha) (by rintro rfl; exact hv (by simp [ha]))
  have fA1 : A.filter (· < v) = A := by
    rw [List.filter_eq_self]; intro a ha; simpa using hA' a ha
  have fA2 : A.filter (v < ·) = [] := by
    rw [List.filter_eq_nil_iff]; intro a ha; simpa using hA a ha
  have fB1 : B.filter (· < v) = [] := by
    rw [List.filter_eq_nil_iff]; intro b hb; simpa using (hB b hb).le
  have fB2 : B.filter (v < ·) = B := by
    rw [List.filter_eq_self]; intro b hb; simpa using hB b hb
  rw [List.filter_append, List.filter_append, fA1, fA2, fB1, fB2, List.append_nil, List.nil_append,
    towersMean_append, towersMean_append]
  refine towersMean_congr fun a ha => ?_
  simp only [towersMean]
  rw [towersMean_coin]
  congr 1
  funext h
  refine towersMean_congr fun b hb => ?_
  congr 1
  have ga1 : a.filter (fun e => e.1 < v) = a := by
    rw [List.filter_eq_self]
    intro e he
    simpa using hA' e.1 (ha ▸ List.mem_map_of_mem he)
  have ga2 : a.filter (fun e => v < e.1) = [] := by
    rw [List.filter_eq_nil_iff]
    intro e he
    simpa using hA e.1 (ha ▸ List.mem_map_of_mem he)
  have gb1 : b.filter (fun e => e.1 < v) = [] := by
    rw [List.filter_eq_nil_iff]
    intro e he
    simpa using (hB e.1 (hb ▸ List.mem_map_of_mem he)).le
  have gb2 : b.filter (fun e => v < e.1) = b := by
    rw [List.filter_eq_self]
    intro e he
    simpa using hB e.1 (hb ▸ List.mem_map_of_mem he)
  rw [towerInsert, List.filter_append, List.filter_append, ga1, ga2, gb1, gb2, List.append_nil,
    List.nil_append]

theorem towersMean_records (L : Nat) : ∀ (xs : List N) (m : Nat),
    towersMean xs (fun st => (records m (st.map (·.2)) : ℝ≥0∞)) ≤
      ((L - m : Nat) : ℝ≥0∞) + xs.length * 2⁻¹ ^ L
  | [], m => by simp [towersMean, records]
  | x :: xs, m => by
    simp only [towersMean, List.map_cons, records]
    calc coinMean (fun h => towersMean xs (fun st =>
            ((if m ≤ h then records h (st.map (·.2)) + 1 else records m (st.map (·.2)) : Nat) :
              ℝ≥0∞)))
        ≤ coinMean (fun h =>
            (if m ≤ h then ((L - h : Nat) : ℝ≥0∞) + 1 else ((L - m : Nat) : ℝ≥0∞)) +
              xs.length * 2⁻¹ ^ L) := by
          refine coinMean_mono fun h => ?_
          by_cases hm : m ≤ h
          · simp only [if_pos hm, Nat.cast_add, Nat.cast_one]
            rw [towersMean_add, towersMean_const, add_right_comm]
            gcongr
            exact towersMean_records L xs h
          · simp only [if_neg hm]
            exact towersMean_records L xs m
      _ ≤ ((L - m : Nat) : ℝ≥0∞) + 2⁻¹ ^ L + xs.length * 2⁻¹ ^ L := by
          rw [coinMean_add, coinMean_const]
          gcongr
          exact coinMean_record L m
      _ = ((L - m : Nat) : ℝ≥0∞) + (x :: xs).length * 2⁻¹ ^ L := by
          rw [List.length_cons, Nat.cast_add, Nat.cast_one, add_mul, one_mul]
          ring

theorem towersMean_max (L : Nat) : ∀ (xs : List N) (M : Nat),
    towersMean xs (fun st => ((max M ((st.map (·.2)).foldr max 0) : Nat) : ℝ≥0∞)) ≤
      ((max M L : Nat) : ℝ≥0∞) + xs.length * 2⁻¹ ^ L
  | [], M => by simp [towersMean]
  | x :: xs, M => by
    simp only [towersMean, List.map_cons, List.foldr_cons, ← Nat.max_assoc]
    calc coinMean (fun h => towersMean xs (fun st =>
            ((max (max M h) ((st.map (·.2)).foldr max 0) : Nat) : ℝ≥0∞)))
        ≤ coinMean (fun h => ((max (max M L) h : Nat) : ℝ≥0∞) + xs.length * 2⁻¹ ^ L) := by
          refine coinMean_mono fun h => ?_
          have := towersMean_max L xs (max M h)
          rwa [Nat.max_right_comm] at this
      _ = ((max M L : Nat) : ℝ≥0∞) + 2⁻¹ ^ (max M L) + xs.length * 2⁻¹ ^ L := by
          rw [coinMean_add, coinMean_const, coinMean_max]
      _ ≤ ((max M L : Nat) : ℝ≥0∞) + 2⁻¹ ^ L + xs.length * 2⁻¹ ^ L := by
          have h1 : (2⁻¹ : ℝ≥0∞) ≤ 1 := by simp
          exact add_le_add (add_le_add le_rfl
            (pow_le_pow_right_of_le_one' h1 (Nat.le_max_right M L))) le_rfl
      _ = ((max M L : Nat) : ℝ≥0∞) + (x :: xs).length * 2⁻¹ ^ L := by
          rw [List.length_cons, Nat.cast_add, Nat.cast_one, add_mul, one_mul]
          ring

theorem towersMean_height (L : Nat) (xs : List N) :
    towersMean xs (fun st => (towerHeight st : ℝ≥0∞)) ≤ (L : ℝ≥0∞) + 1 + xs.length * 2⁻¹ ^ L := by
  have := towersMean_max L xs 0
  simp only [Nat.zero_max, Nat.max_eq_right (Nat.zero_le _)] at this
  simp only [towerHeight, Nat.cast_add, Nat.cast_one]
  rw [towersMean_add, towersMean_const, add_right_comm]
  gcongr

theorem towersMean_tests (L : Nat) (v : N) (xs : List N) :
    towersMean xs (fun st => (searchTests v st : ℝ≥0∞)) ≤
      (L : ℝ≥0∞) + xs.length * 2⁻¹ ^ L + ((L : ℝ≥0∞) + 1 + xs.length * 2⁻¹ ^ L) := by
  have h1 : towersMean xs (fun st => (records 0 (headsBelow v st) : ℝ≥0∞)) ≤
      (L : ℝ≥0∞) + xs.length * 2⁻¹ ^ L := by
    have e1 := towersMean_filter (fun x => decide (x ≤ v)) xs
      (fun st => (records 0 (st.map (·.2)).reverse : ℝ≥0∞))
    have e2 := towersMean_reverse (xs.filter (fun x => decide (x ≤ v)))
      (fun st => (records 0 (st.map (·.2)) : ℝ≥0∞))
    have e3 := towersMean_records L (xs.filter (fun x => decide (x ≤ v))).reverse 0
    simp only [List.map_reverse] at e2
    simp only [headsBelow]
    rw [e1, e2]
    refine e3.trans ?_
    rw [Nat.sub_zero, List.length_reverse]
    gcongr
    exact List.length_filter_le _ _
  refine le_trans ?_ (add_le_add h1 (towersMean_height L xs))
  rw [← towersMean_add]
  refine towersMean_mono fun st _ => ?_
  rw [searchTests, ← Nat.cast_add]
  exact Nat.cast_le.2 (by omega)

/-! ## Histories -/

/-- the mean over a history, on the specification's state -/
noncomputable def specMean (F : List (N × Nat) → ℝ≥0∞) :
    List (SkOp N) → List (N × Nat) → ℝ≥0∞
  | [], st => F st
  | .insert x _ :: ops, st => coinMean (fun h => specMean F ops (skSpec (.insert x h) st).2)
  | op :: ops, st => specMean F ops (skSpec op st).2

theorem skMean_spec {f : SkipList N → ℝ≥0∞} {F : List (N × Nat) → ℝ≥0∞}
    (hf : ∀ s st, SkInv s st → f s = F st) : ∀ (ops : List (SkOp N)) {s : SkipList N}
    {st : List (N × Nat)}, SkInv s st → (∀ op ∈ ops, op.number ≠ some ⊥) →
    skMean f ops s = specMean F ops st
  | [], _, _, I, _ => hf _ _ I
  | op :: ops, s, st, I, hop => by
    have hop' := hop op List.mem_cons_self
    have ht := fun o ho => hop o (List.mem_cons_of_mem _ ho)
    have go : ∀ op : SkOp N, op.number ≠ some ⊥ →
        skMean f ops (skExec op s).2 = specMean F ops (skSpec op st).2 := by
      intro op hop
      obtain ⟨s', e, I'⟩ := skExec_step I hop
      rw [e]
      exact skMean_spec hf ops I' ht
    cases op with
    | insert x k =>
      simp only [skMean, specMean]
      congr 1
      funext h
      refine go _ ?_
      cases x <;> exact hop'
    | _ => exact go _ hop'

theorem towersMean_spec (F : List (N × Nat) → ℝ≥0∞) : ∀ (ops : List (SkOp N)) {s : SkipList N}
    {st : List (N × Nat)}, SkInv s st → (∀ op ∈ ops, op.number ≠ some ⊥) →
    towersMean (towerVals st) (specMean F ops) = towersMean (towerVals (skSpecs ops st).2) F
  | [], _, st, _, _ => rfl
  | op :: ops, s, st, I, hop => by
    have hop' := hop op List.mem_cons_self
    have ht := fun o ho => hop o (List.mem_cons_of_mem _ ho)
    obtain ⟨s', -, I'⟩ := skExec_step I hop'
    have ih := towersMean_spec F ops I' ht
    have ok : (towerVals st).Pairwise (· < ·) := (List.pairwise_cons.1 I.choose_spec.2.2).2
    have hlen : ∀ a : List (N × Nat), towerVals a = towerVals st → a.length = st.length := by
      intro a ha
      have := congrArg List.length ha
      simpa [towerVals] using this
    simp only [skSpecs]
    rw [← ih]
    cases op with
    | insert x k =>
      cases x with
      | num v =>
        simp only [specMean, skSpec]
        by_cases hv : v ∈ towerVals st
        · rw [if_pos hv]
          refine towersMean_congr fun a ha => ?_
          simp only [ha, if_pos hv, coinMean_const]
        · rw [if_neg hv]
          have e : towerVals (towerInsert v k st) =
              (towerVals st).filter (· < v) ++ v :: (towerVals st).filter (v < ·) := by
            simp [towerVals, towerInsert, List.filter_map, Function.comp_def]
          rw [e, ← towersMean_insert ok hv]
          refine towersMean_congr fun a ha => ?_
          simp only [ha, if_neg hv]
      | none => simp only [specMean, skSpec, coinMean_const]
      | other => simp only [specMean, skSpec, coinMean_const]
    | remove x =>
      cases x with
      | num v =>
        simp only [specMean, skSpec]
        have e : towerVals (towerRemove v st) = (towerVals st).filter (fun x => x ≠ v) := by
          simp [towerVals, towerRemove, List.filter_map, Function.comp_def]
        rw [e, ← towersMean_filter]
        rfl
      | none => rfl
      | other => rfl
    | del idx =>
      simp only [specMean, skSpec]
      cases hp : skPos st.length idx with
      | ok i =>
        have e : towerVals (st.eraseIdx i) = (towerVals st).eraseIdx i := by
          simp [towerVals, List.eraseIdx_map]
        simp only [e, ← towersMean_eraseIdx]
        refine towersMean_congr fun a ha => ?_
        simp only [hlen a ha, hp]
      | error x =>
        refine towersMean_congr fun a ha => ?_
        simp only [hlen a ha, hp]
    | contains x => cases x <;> rfl
    | get idx =>
      simp only [specMean, skSpec]
      cases hp : skPos st.length idx with
      | ok i =>
        refine towersMean_congr fun a ha => ?_
        simp only [hlen a ha, hp]
      | error x =>
        refine towersMean_congr fun a ha => ?_
        simp only [hlen a ha, hp]
    | len => rfl
    | isEmpty => rfl
    | height => rfl
    | toList => rfl
    | clear => simp only [specMean, skSpec, towersMean_const]; rfl

/-- the mean after a history is the mean over the heads of the numbers then held -/
theorem skMean_towers {f : SkipList N → ℝ≥0∞} {F : List (N × Nat) → ℝ≥0∞}
    (hf : ∀ s st, SkInv s st → f s = F st) (ops : List (SkOp N))
    (hop : ∀ op ∈ ops, op.number ≠ some ⊥) :
    skMean f ops SkipList.new = towersMean (towerVals (skSpecs ops []).2) F := by
  rw [skMean_spec hf ops new_inv hop, ← towersMean_spec F ops new_inv hop]
  rfl

/-! ## Nodes -/

theorem sum_range_levels : ∀ (st : List (N × Nat)) (H : Nat), (∀ e ∈ st, e.2 < H) →
    ((List.range H).map (fun i => (towerLevel st i).length)).sum = (st.map (fun e => e.2 + 1)).sum
  | [], H, _ => by simp [towerLevel]
  | (v, k) :: st, H, h => by
    have hk : k < H := h (v, k) List.mem_cons_self
    have ih := sum_range_levels st H (fun e he => h e (List.mem_cons_of_mem _ he))
    have e : ∀ i, (towerLevel ((v, k) :: st) i).length =
        (if i ≤ k then 1 else 0) + (towerLevel st i).length := by
      intro i
      rw [towerLevel_cons]
      by_cases hi : i ≤ k
      · simp [hi]; omega
      · simp [hi]
    have hs : ∀ n, k < n → ((List.range n).map (fun i => if i ≤ k then 1 else 0)).sum = k + 1 := by
      intro n hn
      obtain ⟨d, rfl⟩ : ∃ d, n = k + 1 + d := ⟨n - (k + 1), by omega⟩
      clear hn
      induction d with
      | zero =>
        have : (List.range (k + 1)).map (fun i => if i ≤ k then 1 else 0) =
            (List.range (k + 1)).map (fun _ => 1) := by
          apply List.map_congr_left
          intro i hi
          rw [List.mem_range] at hi
          rw [if_pos (by omega)]
        rw [Nat.add_zero, this]
        simp
      | succ d ihd =>
        rw [← Nat.add_assoc, List.range_succ, List.map_append, List.sum_append, ihd]
        have hd : ¬ (k + 1 + d ≤ k) := by omega
        simp [hd]
    simp only [e, List.map_cons, List.sum_cons]
    rw [List.sum_map_add, ih, hs H hk]

theorem skNodes_spec {s : SkipList N} {st : List (N × Nat)} (I : SkInv s st) :
    skNodes s = (st.map (fun e => e.2 + 1)).sum := by
  obtain ⟨T, r, o, ok⟩ := I
  have h1 : ∀ e ∈ st, e.2 < towerHeight st := by
    intro e he
    rw [lt_towerHeight]
    right
    intro hn
    simp only [towerLevel, List.map_eq_nil_iff, List.filter_eq_nil_iff] at hn
    have := hn e he
    simp at this
  rw [← sum_range_levels st _ h1, skNodes, r.levels, List.map_map]
  have h2 : T.map ((fun l => (s.heap.lobj l).length - 1) ∘ Lvl.l) =
      (T.map Lvl.xs).map List.length := by
    rw [List.map_map]
    apply List.map_congr_left
    intro t ht
    obtain ⟨i, hi, rfl⟩ := List.getElem_of_mem ht
    have := (r.geo.lvl i _ (List.getElem?_eq_getElem hi)).1.lenobj
    simp [this]
  rw [h2, o.map, towerLevels, List.map_map]
  rfl

theorem towersMean_nodes : ∀ xs : List N,
    towersMean xs (fun st => (((st.map (fun e => e.2 + 1)).sum : Nat) : ℝ≥0∞)) = 2 * xs.length
  | [] => by simp [towersMean]
  | x :: xs => by
    simp only [towersMean, List.map_cons, List.sum_cons, Nat.cast_add, Nat.cast_one]
    simp only [towersMean_add, towersMean_const, towersMean_nodes xs]
    rw [coinMean_add, coinMean_add, coinMean_id, coinMean_const, coinMean_const]
    push_cast [List.length_cons]
    ring

end Extra
