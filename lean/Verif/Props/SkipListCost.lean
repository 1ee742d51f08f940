import Verif.Lists.SkipListMeanProofs
import Verif.Props.SkipList
import Mathlib.Data.Nat.Log

/-!
# Property C108: how long a search in a `SkipList` takes

The cost of a search is the number of times the loop of `search_sorted` tests its condition
(Verif/Lists/SkipListCost.lean).  Means are over the coin flips of the insertions
(Verif/Lists/SkipListMean.lean).

Histories start from `SkipList()`.  `⊥` is `-inf`.
-/

set_option linter.unusedSectionVars false
set_option linter.unusedSimpArgs false

open scoped ENNReal

namespace Extra
variable {N : Type} [LinearOrder N] [OrderBot N]
attribute [local instance] numData

/-- the number of levels as a term of a mean -/
noncomputable def heightCost (s : SkipList N) : ℝ≥0∞ :=
  match skAsk .height s with
  | .ok (.nat n) => n
  | _ => ∞

/-- no insertion of the history draws a head -/
def NoHeads (ops : List (SkOp N)) : Prop := ∀ x h, .insert x h ∈ ops → h = 0

/-- **C108.** After any history a search makes exactly one test for each number it walks to and one
for each level it visits: walking back from `v`, the numbers that no nearer number up to `v`
surpasses in heads, and the levels down to the highest one of `v`.  The count does not change the
search. -/
theorem C108_tests (ops : List (SkOp N)) (h : NoMinusInf ops) (v : N) (hv : v ≠ ⊥) :
    skTests v (skAfter ops) = .ok (searchTests v (skSpecs ops []).2) ∧
    ∃ r, skipSearch v (skAfter ops) = (.ok r, skAfter ops) ∧
      skipSearchC v (skAfter ops) = (.ok (r, searchTests v (skSpecs ops []).2), skAfter ops) := by
  obtain ⟨r, e1, e2⟩ := skipSearchC_run (skAfter_inv ops h) hv
  exact ⟨by rw [skTests, e2], r, e1, e2⟩

/-- five numbers on four levels -/
def skSteps : List (SkOp (Fin 20)) :=
  [.insert (.num 5) 0, .insert (.num 3) 2, .insert (.num 7) 1, .insert (.num 9) 3,
   .insert (.num 12) 0, .insert (.num 14) 1]

theorem skSteps_ok : NoMinusInf skSteps := by
  intro op hop
  simp only [skSteps, List.mem_cons, List.not_mem_nil, or_false] at hop
  rcases hop with rfl | rfl | rfl | rfl | rfl | rfl <;> decide

example : skTests 13 (skAfter skSteps) = .ok 6 ∧ searchTests 13 (skSpecs skSteps []).2 = 6 ∧
    skTests 9 (skAfter skSteps) = .ok 2 ∧ searchTests 9 (skSpecs skSteps []).2 = 2 ∧
    headsBelow 13 (skSpecs skSteps []).2 = [0, 3, 1, 0, 2] := by decide +kernel

theorem records_le_length : ∀ (l : List Nat) (m : Nat), records m l ≤ l.length
  | [], _ => Nat.le_refl _
  | a :: l, m => by
    have h1 := records_le_length l a
    have h2 := records_le_length l m
    simp only [records, List.length_cons]
    split <;> omega

/-- **C108.** Whatever the flips, a search makes at most as many tests as there are numbers up to
`v` and levels. -/
theorem C108_at_most (ops : List (SkOp N)) (h : NoMinusInf ops) (v : N) (hv : v ≠ ⊥) (xs : List N)
    (n : Nat) (hl : skAsk .toList (skAfter ops) = .ok (.list (xs.map some)))
    (hn : skAsk .height (skAfter ops) = .ok (.nat n)) :
    ∃ c, skTests v (skAfter ops) = .ok c ∧ c ≤ (xs.filter (· ≤ v)).length + n := by
  have I := skAfter_inv ops h
  rw [skAsk_spec I (by simp [SkOp.number])] at hl hn
  simp only [skSpec, Except.ok.injEq, SkRes.list.injEq, SkRes.nat.injEq] at hl hn
  have hx : towerVals (skSpecs ops []).2 = xs :=
    List.map_injective_iff.2 (Option.some_injective N) hl
  refine ⟨_, (C108_tests ops h v hv).1, ?_⟩
  have := records_le_length (headsBelow v (skSpecs ops []).2) 0
  have e : (headsBelow v (skSpecs ops []).2).length = (xs.filter (· ≤ v)).length := by
    rw [← hx]
    simp [headsBelow, towerVals, List.filter_map, Function.comp_def]
  rw [searchTests, hn]
  omega

theorem noHeads_spec : ∀ (ops : List (SkOp N)) (st : List (N × Nat)), NoHeads ops →
    (∀ e ∈ st, e.2 = 0) → ∀ e ∈ (skSpecs ops st).2, e.2 = 0
  | [], _, _, h => h
  | op :: ops, st, hn, h => by
    simp only [skSpecs]
    refine noHeads_spec ops _ (fun x k hk => hn x k (List.mem_cons_of_mem _ hk)) ?_
    cases op with
    | insert x k =>
      have hk := hn x k List.mem_cons_self
      subst hk
      cases x with
      | num v =>
        simp only [skSpec]
        split
        · exact h
        · intro e he
          simp only [towerInsert, List.mem_append, List.mem_filter, List.mem_cons] at he
          rcases he with he | rfl | he
          · exact h e he.1
          · rfl
          · exact h e he.1
      | none => exact h
      | other => exact h
    | remove x =>
      cases x with
      | num v => exact fun e he => h e (List.mem_filter.1 he).1
      | none => exact h
      | other => exact h
    | del idx =>
      simp only [skSpec]
      split
      · exact fun e he => h e ((List.eraseIdx_sublist _ _).subset he)
      · exact h
    | contains x => cases x <;> exact h
    | get idx => simp only [skSpec]; split <;> exact h
    | len => exact h
    | isEmpty => exact h
    | height => exact h
    | toList => exact h
    | clear => exact fun e he => by cases he

/-- **C108.** No bound below the number of held numbers holds for all flips: if no insertion draws
a head, a search tests once for each held number up to `v`, and once more. -/
theorem C108_worst (ops : List (SkOp N)) (h : NoMinusInf ops) (hn : NoHeads ops) (v : N)
    (hv : v ≠ ⊥) (xs : List N) (hl : skAsk .toList (skAfter ops) = .ok (.list (xs.map some))) :
    skTests v (skAfter ops) = .ok ((xs.filter (· ≤ v)).length + 1) := by
  have I := skAfter_inv ops h
  rw [skAsk_spec I (by simp [SkOp.number])] at hl
  simp only [skSpec, Except.ok.injEq, SkRes.list.injEq] at hl
  have hx : towerVals (skSpecs ops []).2 = xs :=
    List.map_injective_iff.2 (Option.some_injective N) hl
  rw [(C108_tests ops h v hv).1]
  have hz := noHeads_spec ops [] hn (by simp)
  have e : (headsBelow v (skSpecs ops []).2).length = (xs.filter (· ≤ v)).length := by
    rw [← hx]
    simp [headsBelow, towerVals, List.filter_map, Function.comp_def]
  have h0 : ∀ x ∈ headsBelow v (skSpecs ops []).2, x = 0 := by
    intro x hx
    simp only [headsBelow, List.mem_reverse, List.mem_map, List.mem_filter] at hx
    obtain ⟨e, he, rfl⟩ := hx
    exact hz e he.1
  have h1 : records 0 (headsBelow v (skSpecs ops []).2) = (xs.filter (· ≤ v)).length := by
    rw [records_top 0 _ (fun x hx => (h0 x hx).le), ← e]
    simp
  have h2 : headsAt v (skSpecs ops []).2 = 0 := by
    rw [headsAt]
    cases hq : (skSpecs ops []).2.find? (fun e => e.1 = v) with
    | none => rfl
    | some e => exact hz e (List.mem_of_find?_eq_some hq)
  have h3 : towerHeight (skSpecs ops []).2 = 1 := by
    have : ∀ st : List (N × Nat), (∀ e ∈ st, e.2 = 0) → (st.map (·.2)).foldr max 0 = 0 := by
      intro st
      induction st with
      | nil => intro _; rfl
      | cons e st ih =>
        intro h
        rw [List.map_cons, List.foldr_cons, ih (fun x hx => h x (List.mem_cons_of_mem _ hx)),
          h e List.mem_cons_self, Nat.max_self]
    rw [towerHeight, this _ hz]
  rw [searchTests, h1, h2, h3]

example : NoHeads (N := Fin 20) [.insert (.num 5) 0, .insert (.num 3) 0, .insert (.num 9) 0] ∧
    skTests 10 (skAfter (N := Fin 20) [.insert (.num 5) 0, .insert (.num 3) 0, .insert (.num 9) 0])
      = .ok 4 := by
  refine ⟨?_, by decide +kernel⟩
  intro x h hm
  simp at hm
  omega

theorem log_bound (n : Nat) : (n : ℝ≥0∞) * 2⁻¹ ^ (Nat.log 2 n) ≤ 2 := by
  have h : n ≤ 2 * 2 ^ Nat.log 2 n := by
    have := Nat.lt_pow_succ_log_self (b := 2) (by omega) n
    rw [pow_succ'] at this
    omega
  calc (n : ℝ≥0∞) * 2⁻¹ ^ (Nat.log 2 n)
      ≤ ((2 * 2 ^ Nat.log 2 n : Nat) : ℝ≥0∞) * 2⁻¹ ^ (Nat.log 2 n) := by gcongr
    _ = 2 * ((2 * 2⁻¹) ^ Nat.log 2 n) := by
      rw [mul_pow]; push_cast; ring
    _ = 2 := by rw [ENNReal.mul_inv_cancel (by simp) (by simp)]; simp

/-- **C108.** After any history that leaves `n` numbers, a search for any number makes on average
at most `2 * log₂ n + 5` tests. -/
theorem C108_mean (ops : List (SkOp N)) (h : NoMinusInf ops) (v : N) (hv : v ≠ ⊥) (n : Nat)
    (hn : skAsk .len (skAfter ops) = .ok (.nat n)) :
    skMean (fun s => asCost (skTests v s)) ops SkipList.new ≤ 2 * Nat.log 2 n + 5 := by
  have I := skAfter_inv ops h
  rw [skAsk_spec I (by simp [SkOp.number])] at hn
  simp only [skSpec, Except.ok.injEq, SkRes.nat.injEq] at hn
  rw [skMean_towers (F := fun st => (searchTests v st : ℝ≥0∞)) (fun s st I => by
    obtain ⟨r, e1, e2⟩ := skipSearchC_run I hv
    simp [skTests, e2, asCost]) ops h]
  refine (towersMean_tests (Nat.log 2 n) v _).trans ?_
  have hl : (towerVals (skSpecs ops []).2).length = n := by rw [← hn]; simp [towerVals]
  rw [hl]
  have hb := log_bound n
  calc (Nat.log 2 n : ℝ≥0∞) + n * 2⁻¹ ^ Nat.log 2 n +
        ((Nat.log 2 n : ℝ≥0∞) + 1 + n * 2⁻¹ ^ Nat.log 2 n)
      ≤ (Nat.log 2 n : ℝ≥0∞) + 2 + ((Nat.log 2 n : ℝ≥0∞) + 1 + 2) := by gcongr
    _ = 2 * Nat.log 2 n + 5 := by ring

/-- **C108.** After any history that leaves `n` numbers there are on average at most `log₂ n + 3`
levels. -/
theorem C108_height (ops : List (SkOp N)) (h : NoMinusInf ops) (n : Nat)
    (hn : skAsk .len (skAfter ops) = .ok (.nat n)) :
    skMean heightCost ops SkipList.new ≤ Nat.log 2 n + 3 := by
  have I := skAfter_inv ops h
  rw [skAsk_spec I (by simp [SkOp.number])] at hn
  simp only [skSpec, Except.ok.injEq, SkRes.nat.injEq] at hn
  rw [skMean_towers (F := fun st => (towerHeight st : ℝ≥0∞)) (fun s st I => by
    rw [heightCost, skAsk_spec I (by simp [SkOp.number])]; rfl) ops h]
  refine (towersMean_height (Nat.log 2 n) _).trans ?_
  have hl : (towerVals (skSpecs ops []).2).length = n := by rw [← hn]; simp [towerVals]
  rw [hl]
  calc (Nat.log 2 n : ℝ≥0∞) + 1 + n * 2⁻¹ ^ Nat.log 2 n
      ≤ (Nat.log 2 n : ℝ≥0∞) + 1 + 2 := by gcongr; exact log_bound n
    _ = Nat.log 2 n + 3 := by ring

/-- **C108.** After any history that leaves `n` numbers the levels hold on average exactly `2 * n`
nodes, the `-inf` at their heads not counted. -/
theorem C108_nodes (ops : List (SkOp N)) (h : NoMinusInf ops) (n : Nat)
    (hn : skAsk .len (skAfter ops) = .ok (.nat n)) :
    skMean (fun s => (skNodes s : ℝ≥0∞)) ops SkipList.new = 2 * n := by
  have I := skAfter_inv ops h
  rw [skAsk_spec I (by simp [SkOp.number])] at hn
  simp only [skSpec, Except.ok.injEq, SkRes.nat.injEq] at hn
  rw [skMean_towers (F := fun st => (((st.map (fun e => e.2 + 1)).sum : Nat) : ℝ≥0∞))
    (fun s st I => by simp only [skNodes_spec I]) ops h, towersMean_nodes]
  have hl : (towerVals (skSpecs ops []).2).length = n := by rw [← hn]; simp [towerVals]
  rw [hl]

example : skNodes (skAfter skSteps) = 13 ∧ skAsk .len (skAfter skSteps) = .ok (.nat 6) := by
  decide +kernel

/-- the history of the example meets the hypotheses: six numbers are held, so a search makes on
average at most nine tests -/
example : skMean (fun s => asCost (skTests 13 s)) skSteps SkipList.new ≤ 9 ∧
    skMean heightCost skSteps SkipList.new ≤ 5 := by
  have hn : skAsk .len (skAfter skSteps) = .ok (.nat 6) := by decide +kernel
  have hl : Nat.log 2 6 = 2 := by decide +kernel
  have h1 := C108_mean skSteps skSteps_ok 13 (by decide) 6 hn
  have h2 := C108_height skSteps skSteps_ok 6 hn
  rw [hl] at h1 h2
  refine ⟨h1.trans (le_of_eq ?_), h2.trans (le_of_eq ?_)⟩ <;> norm_num

/-- the mean is not a bound in disguise: with one held number, a search past it makes three tests
on average -/
example : skMean (fun s => asCost (skTests 9 s)) [.insert (.num 5) 0]
    (SkipList.new : SkipList (Fin 20)) = 3 := by
  have h : NoMinusInf (N := Fin 20) [.insert (.num 5) 0] := by
    intro op hop
    rw [List.mem_singleton.1 hop]
    decide
  rw [skMean_towers (F := fun st => (searchTests 9 st : ℝ≥0∞)) (fun s st I => by
    obtain ⟨r, e1, e2⟩ := skipSearchC_run (v := (9 : Fin 20)) I (by decide)
    simp [skTests, e2, asCost]) _ h]
  have e : towerVals (skSpecs (N := Fin 20) [.insert (.num 5) 0] []).2 = [5] := by decide +kernel
  rw [e]
  have hs : ∀ k : Nat, searchTests (9 : Fin 20) [(5, k)] = k + 2 := by
    intro k
    have h1 : ((5 : Fin 20) ≤ 9) = True := by decide
    have h2 : ((5 : Fin 20) = 9) = False := by decide
    simp [searchTests, headsBelow, headsAt, towerHeight, records, h1, h2]
    omega
  simp only [towersMean, hs, Nat.cast_add]
  rw [coinMean_add, coinMean_id, coinMean_const]
  norm_num

end Extra
