import Verif.Lists.SkipListCost
import Verif.Lists.SkipListRefine

/-! # Counting the tests of a search (no property content) -/

set_option linter.unusedSectionVars false
set_option linter.unusedSimpArgs false

namespace Extra
variable {N : Type} [LinearOrder N] [OrderBot N]
attribute [local instance] numData

/-! ## The counted functions return what the plain ones return -/

/-- forget the count -/
def dropCount {α : Type} : Except Err (α × Nat) → Except Err α
  | .ok (a, _) => .ok a
  | .error e => .error e

theorem searchSortedC_drop (v : N) : ∀ (fuel : Nat) (prev : Option Addr) (a : Addr) (h : SHeap N),
    dropCount (searchSortedC v fuel prev a h).1 = (searchSorted v fuel prev a h).1 ∧
    (searchSortedC v fuel prev a h).2 = (searchSorted v fuel prev a h).2
  | 0, _, _, _ => ⟨rfl, rfl⟩
  | fuel + 1, prev, a, h => by
    cases hn : (h.node a).next with
    | none => simp [searchSortedC, searchSorted, run_bind, hn, dropCount]
    | some n =>
      cases hd : (h.node n).data with
      | none => simp [searchSortedC, searchSorted, run_bind, hn, hd, dropCount, dataLe]
      | some d =>
        by_cases hle : d ≤ v
        · have ih := searchSortedC_drop v fuel (some a) n h
          cases e : searchSortedC v fuel (some a) n h with
          | mk r h' =>
            rw [e] at ih
            cases r with
            | ok x =>
              simp [searchSortedC, searchSorted, run_bind, hn, hd, dataLe, hle, e]
              rw [← Prod.mk.eta (p := searchSorted v fuel (some a) n h), ← ih.1, ← ih.2]
              simp [dropCount]
            | error x =>
              simp [searchSortedC, searchSorted, run_bind, hn, hd, dataLe, hle, e]
              rw [← Prod.mk.eta (p := searchSorted v fuel (some a) n h), ← ih.1, ← ih.2]
              simp [dropCount]
        · simp [searchSortedC, searchSorted, run_bind, hn, hd, dataLe, hle, dropCount]

theorem searchSortedC_pair (v : N) (fuel : Nat) (prev : Option Addr) (a : Addr) (h : SHeap N) :
    searchSorted v fuel prev a h =
      (dropCount (searchSortedC v fuel prev a h).1, (searchSortedC v fuel prev a h).2) := by
  obtain ⟨e1, e2⟩ := searchSortedC_drop v fuel prev a h
  rw [e1, e2]

theorem skipSearchLoopC_drop (v : N) (num fuel : Nat) : ∀ (k : Nat) (prev start : Option Addr)
    (acc : List Addr) (h : SHeap N),
    skipSearchLoop v num fuel k prev start acc h =
      (dropCount (skipSearchLoopC v num fuel k prev start acc h).1,
        (skipSearchLoopC v num fuel k prev start acc h).2)
  | 0, _, _, _, _ => rfl
  | k + 1, prev, none, acc, h => rfl
  | k + 1, prev, some a, acc, h => by
    have e0 := searchSortedC_pair v fuel prev a h
    cases hdn : (h.node a).ext with
    | none =>
      simp only [skipSearchLoopC, skipSearchLoop, run_bind, deref, M.pure, getDown, hdn, e0]
      rcases searchSortedC v fuel prev a h with ⟨⟨x⟩ | ⟨⟨⟨p, f⟩, c⟩⟩, h'⟩
      · rfl
      · by_cases hc : acc.length + 1 = num <;> simp [hc, dropCount, M.throw, M.pure]
    | some d =>
      simp only [skipSearchLoopC, skipSearchLoop, run_bind, deref, M.pure, getDown, hdn, e0]
      rcases searchSortedC v fuel prev a h with ⟨⟨x⟩ | ⟨⟨⟨p, f⟩, c⟩⟩, h'⟩
      · rfl
      · simp only [dropCount, run_getData]
        by_cases hv : (h'.node f).data = some v
        · simp [hv, dropCount, M.pure]
        · simp only [if_neg hv, run_bind, run_getDown]
          cases hp : downPrev p h' with
          | mk r h2 =>
            cases r with
            | error e => simp [dropCount]
            | ok p' =>
              have ih := skipSearchLoopC_drop v num fuel k p' (h'.node f).ext (acc ++ [f]) h2
              simp only [ih]
              rcases skipSearchLoopC v num fuel k p' (h'.node f).ext (acc ++ [f]) h2 with
                ⟨⟨x⟩ | ⟨⟨r, c'⟩⟩, h3⟩ <;> simp [dropCount, M.pure]

theorem skipSearchC_drop (v : N) (s : SkipList N) :
    skipSearch v s = (dropCount (skipSearchC v s).1, (skipSearchC v s).2) := by
  simp only [skipSearchC, skipSearch, srun_bind, srun_getNum, levelAt]
  cases s.levels[s.numLevels - 1]? with
  | none => rfl
  | some l => simp only [SM.onHeap, skipSearchLoopC_drop]

/-! ## Records -/

theorem records_append : ∀ (A B : List Nat) (m : Nat),
    records m (A ++ B) = records m A + records (A.foldl max m) B
  | [], B, m => by simp [records]
  | a :: A, B, m => by
    by_cases h : m ≤ a
    · simp only [List.cons_append, records, if_pos h, records_append A B, List.foldl_cons,
        Nat.max_eq_right h]
      omega
    · simp only [List.cons_append, records, if_neg h, records_append A B, List.foldl_cons,
        Nat.max_eq_left (Nat.le_of_not_le h)]

theorem records_top (j : Nat) : ∀ (B : List Nat), (∀ x ∈ B, x ≤ j) →
    records j B = (B.filter (j ≤ ·)).length
  | [], _ => rfl
  | b :: B, h => by
    have hb := h b List.mem_cons_self
    have ih := records_top j B (fun x hx => h x (List.mem_cons_of_mem _ hx))
    by_cases hj : j ≤ b
    · have : b = j := by omega
      subst this
      simp [records, ih]
    · simp [records, hj, ih]

theorem foldl_max_lt {j : Nat} : ∀ (A : List Nat) (m : Nat), m ≤ j → (∀ x ∈ A, x < j) →
    A.foldl max m ≤ j
  | [], _, h, _ => h
  | a :: A, m, h, hA => by
    have := hA a List.mem_cons_self
    exact foldl_max_lt A _ (by simp; omega) (fun x hx => hA x (List.mem_cons_of_mem _ hx))

theorem records_level {j : Nat} {A B : List Nat} (hA : ∀ x ∈ A, x < j) (hB : ∀ x ∈ B, x ≤ j) :
    records 0 (A ++ j :: B) = records 0 A + ((j :: B).filter (j ≤ ·)).length := by
  rw [records_append, records, if_pos (foldl_max_lt A 0 (by omega) hA), records_top j B hB]
  simp

/-! ## The numbers between the place of the search and the number looked for -/

/-- the entries above `d` and up to `v` -/
def between (d v : N) (st : List (N × Nat)) : List (N × Nat) :=
  st.filter (fun e => d < e.1 ∧ e.1 ≤ v)

theorem between_split {d d' v : N} (h1 : d ≤ d') (h2 : d' ≤ v) : ∀ {st : List (N × Nat)},
    (towerVals st).Pairwise (· < ·) →
    between d v st = between d d' st ++ between d' v st
  | [], _ => rfl
  | e :: st, hs => by
    obtain ⟨p1, p2⟩ := List.pairwise_cons.1 hs
    have ih := between_split h1 h2 (st := st) p2
    unfold between at ih ⊢
    by_cases c1 : d < e.1
    · by_cases c2 : e.1 ≤ d'
      · have c3 : e.1 ≤ v := c2.trans h2
        have c4 : ¬ d' < e.1 := not_lt.2 c2
        simp [c1, c2, c3, c4]
        simpa using ih
      · have c4 := not_le.1 c2
        have : (st.filter (fun e => d < e.1 ∧ e.1 ≤ d')) = [] := by
          rw [List.filter_eq_nil_iff]
          intro x hx
          have := p1 x.1 (List.mem_map_of_mem hx)
          simp only [decide_eq_true_eq, not_and, not_le]
          exact fun _ => c4.trans this
        rw [this] at ih
        by_cases c3 : e.1 ≤ v
        · simp only [List.filter_cons, c1, c2, c3, c4, and_self, and_true, and_false, true_and,
            decide_true, decide_false, if_true, Bool.false_eq_true, if_false, this, List.nil_append]
          rw [ih, List.nil_append]
        · simp only [List.filter_cons, c1, c2, c3, c4, and_self, and_true, and_false, true_and,
            decide_true, decide_false, if_true, Bool.false_eq_true, if_false, this, List.nil_append]
          rw [ih, List.nil_append]
    · have c4 : ¬ d' < e.1 := fun h => c1 (h1.trans_lt h)
      simp only [List.filter_cons, c1, c4, false_and, decide_false, Bool.false_eq_true, if_false]
      exact ih

theorem towerLevel_between (d v : N) (st : List (N × Nat)) (j : Nat) :
    (towerLevel st j).filter (fun x => d < x ∧ x ≤ v) =
      ((between d v st).filter (fun e => j ≤ e.2)).map (·.1) := by
  simp only [towerLevel, between, List.filter_map, List.filter_filter]
  congr 1
  apply List.filter_congr
  intro e _
  simp [Bool.and_comm]

theorem between_self (v : N) (st : List (N × Nat)) : between v v st = [] := by
  rw [between, List.filter_eq_nil_iff]
  intro e _
  simp only [decide_eq_true_eq, not_and, not_le]
  exact fun h => h

/-! ## The walk on one level -/

theorem searchSortedC_run {h : SHeap N} (v : N) : ∀ (cs ds : List Addr) (a : Addr)
    (prev : Option Addr) (fuel : Nat), Lnk h (a :: (cs ++ ds)) none →
    (∀ c ∈ cs, ∃ y, (h.node c).data = some y ∧ y ≤ v) →
    (∀ d, ds.head? = some d → ∃ y, (h.node d).data = some y ∧ v < y) → cs.length < fuel →
    searchSortedC v fuel prev a h = (.ok (sEnd prev a cs, cs.length + 1), h)
  | _, _, _, _, 0, _, _, _, hf => by omega
  | [], ds, a, prev, fuel + 1, hl, hc, hd, hf => by
    have hn := hl.1
    simp only [List.nil_append, Option.or_none] at hn
    cases ds with
    | nil => simp [searchSortedC, run_bind, hn, sEnd]
    | cons d ds =>
      obtain ⟨y, e1, e2⟩ := hd d rfl
      simp [searchSortedC, run_bind, hn, sEnd, e1, dataLe, not_le.2 e2]
  | c :: cs, ds, a, prev, fuel + 1, hl, hc, hd, hf => by
    have hn := hl.1
    simp only [List.cons_append, List.head?_cons, Option.some_or] at hn
    obtain ⟨y, e1, e2⟩ := hc c List.mem_cons_self
    have ih := searchSortedC_run v cs ds c (some a) fuel hl.2
      (fun x hx => hc x (List.mem_cons_of_mem _ hx)) hd (by simpa using hf)
    simp [searchSortedC, run_bind, hn, sEnd, e1, dataLe, e2, ih]

theorem sEnd_last : ∀ (cs : List Addr) (p : Option Addr) (a : Addr),
    some (sEnd p a cs).2 = (a :: cs).getLast?
  | [], _, _ => rfl
  | c :: cs, p, a => by
    simp only [sEnd]
    rw [sEnd_last cs, List.getLast?_cons_cons]

theorem search_levelC {h : SHeap N} {t : Lvl N} {v d : N} {a : Addr} (prev : Option Addr)
    (fuel : Nat) (o : LvlOk h t) (ha : a ∈ t.ns) (hd : (h.node a).data = some d)
    (hf : t.ns.length < fuel) :
    ∃ p f, searchSortedC v fuel prev a h =
        (.ok ((p, f), (t.xs.filter (fun x => d < x ∧ x ≤ v)).length + 1), h) ∧ f ∈ t.ns ∧
      (h.node f).data = (d :: t.xs.filter (fun x => d < x ∧ x ≤ v)).getLast? := by
  have hbot : ¬ d < (⊥ : N) := not_lt_bot
  have efil : t.xs.filter (fun x => d < x ∧ x ≤ v) =
      (⊥ :: t.xs).filter (fun x => d < x ∧ x ≤ v) := by
    simp [List.filter_cons, hbot]
  obtain ⟨n1, n2, y1, y2, en, ey, hl, -⟩ := o.split ha hd
  obtain ⟨r, hs⟩ := o
  rw [efil]
  have hdata := r.data
  rw [en, ey] at hdata
  obtain ⟨-, -, hd2⟩ := data_remove hl hdata
  rw [ey] at hs ⊢
  obtain ⟨p1, p2, p3⟩ := List.pairwise_append.1 hs
  obtain ⟨q1, q2⟩ := List.pairwise_cons.1 p2
  obtain ⟨ys, zs, rfl, l1, l2⟩ := sorted_split v q2
  obtain ⟨cs, bs, rfl, el, d1, d2⟩ := map_split hd2
  have f1 : (y1 ++ d :: (ys ++ zs)).filter (fun x => d < x ∧ x ≤ v) = ys := by
    rw [List.filter_append, List.filter_cons, List.filter_append]
    have g1 : y1.filter (fun x => d < x ∧ x ≤ v) = [] := by
      rw [List.filter_eq_nil_iff]
      intro x hx
      have := p3 x hx d (by simp)
      simp only [decide_eq_true_eq, not_and]
      exact fun h => absurd h (not_lt.2 this.le)
    have g2 : ys.filter (fun x => d < x ∧ x ≤ v) = ys := by
      rw [List.filter_eq_self]
      intro x hx
      simpa using ⟨q1 x (by simp [hx]), l1 x hx⟩
    have g3 : zs.filter (fun x => d < x ∧ x ≤ v) = [] := by
      rw [List.filter_eq_nil_iff]
      intro x hx
      simp only [decide_eq_true_eq, not_and, not_le]
      exact fun _ => l2 x hx
    rw [g1, g2, g3]
    simp
  rw [f1]
  have hlk := r.links
  rw [en, Lnk_append] at hlk
  have hrun := searchSortedC_run (h := h) v cs bs a prev fuel hlk.2
    (fun c hc => by
      obtain ⟨y, hy, ey⟩ := map_some_mem d1 hc
      exact ⟨y, ey, l1 y hy⟩)
    (fun b hb => by
      obtain ⟨z, hz, ez⟩ := map_some_mem d2 (List.mem_of_head? hb)
      exact ⟨z, ez, l2 z hz⟩)
    (by rw [en] at hf; simp at hf; omega)
  have hlast := sEnd_last cs prev a
  refine ⟨(sEnd prev a cs).1, (sEnd prev a cs).2, by rw [hrun, el], ?_, ?_⟩
  · have := List.mem_of_getLast? hlast.symm
    rw [en]
    simp only [List.mem_append, List.mem_cons] at this ⊢
    tauto
  · have e1 : (a :: cs).map (fun a => (h.node a).data) = (d :: ys).map some := by
      simp only [List.map_cons, hd, d1]
    have e2 := congrArg List.getLast? e1
    rw [List.getLast?_map, List.getLast?_map, ← hlast] at e2
    simp only [Option.map_some] at e2
    cases hq : (d :: ys).getLast? with
    | none => simp at hq
    | some q => rw [hq] at e2; simpa using e2

/-! ## The whole search -/

/-- the heads of the entries above `d` and up to `v`, the one nearest to `v` first -/
def betweenHeads (d v : N) (st : List (N × Nat)) : List Nat :=
  ((between d v st).map (·.2)).reverse

theorem headsAt_of_not_mem {v : N} {st : List (N × Nat)} (h : v ∉ towerVals st) :
    headsAt v st = 0 := by
  have : st.find? (fun e => e.1 = v) = none := by
    rw [List.find?_eq_none]
    intro e he
    simp only [decide_eq_true_eq]
    rintro rfl
    exact h (List.mem_map_of_mem he)
  rw [headsAt, this]; rfl

theorem headsAt_of_mem {v : N} {k : Nat} : ∀ {st : List (N × Nat)},
    (towerVals st).Pairwise (· < ·) → (v, k) ∈ st → headsAt v st = k
  | (w, j) :: st, hs, hm => by
    obtain ⟨p1, p2⟩ := List.pairwise_cons.1 hs
    rcases List.mem_cons.1 hm with e | e
    · cases e; simp [headsAt]
    · have hw : w < v := p1 v (List.mem_map_of_mem (f := (·.1)) e)
      have ih := headsAt_of_mem p2 e
      simpa [headsAt, List.find?_cons, hw.ne] using ih

theorem mem_between {d v : N} {st : List (N × Nat)} {e : N × Nat} :
    e ∈ between d v st ↔ e ∈ st ∧ d < e.1 ∧ e.1 ≤ v := by
  simp [between]

theorem between_level_split {d v : N} {j : Nat} {st : List (N × Nat)} {w : N}
    (hs : (towerVals st).Pairwise (· < ·)) (hj : ∀ e ∈ between d v st, e.2 ≤ j)
    (hw : ((between d v st).filter (fun e => j ≤ e.2)).getLast?.map (·.1) = some w) :
    d < w ∧ w ≤ v ∧ (w, j) ∈ st ∧ (∀ e ∈ between w v st, e.2 < j) ∧
    records 0 (betweenHeads d v st) =
      records 0 (betweenHeads w v st) + ((between d v st).filter (fun e => j ≤ e.2)).length := by
  cases hq : ((between d v st).filter (fun e => j ≤ e.2)).getLast? with
  | none => rw [hq] at hw; cases hw
  | some q =>
    rw [hq] at hw
    cases hw
    obtain ⟨w, k⟩ := q
    have hmem := List.mem_of_getLast? hq
    obtain ⟨hm1, hm2⟩ := List.mem_filter.1 hmem
    obtain ⟨m1, m2, m3⟩ := mem_between.1 hm1
    have hk : k = j := by
      have := hj _ hm1
      simp at hm2 this
      omega
    subst hk
    simp only at m2 m3
    have hsplit := between_split m2.le m3 hs
    have hafter : ∀ e ∈ between w v st, e.2 < k := by
      intro e he
      by_contra hc
      have hbw : e ∈ (between w v st).filter (fun e => k ≤ e.2) := by
        rw [List.mem_filter]
        exact ⟨he, by simpa using hc⟩
      rw [hsplit, List.filter_append, List.getLast?_append] at hq
      cases hl : ((between w v st).filter (fun e => k ≤ e.2)).getLast? with
      | none => rw [List.getLast?_eq_none_iff] at hl; rw [hl] at hbw; cases hbw
      | some x =>
        rw [hl] at hq
        simp only [Option.some_or, Option.some.injEq] at hq
        subst hq
        have := mem_between.1 (List.mem_filter.1 (List.mem_of_getLast? hl)).1
        exact lt_irrefl _ this.2.1
    refine ⟨m2, m3, m1, hafter, ?_⟩
    have hlast : ∃ B, between d w st = B ++ [(w, k)] := by
      have hin : (w, k) ∈ between d w st := mem_between.2 ⟨m1, m2, le_refl _⟩
      obtain ⟨B, C, eBC⟩ := List.append_of_mem hin
      cases C with
      | nil => exact ⟨B, eBC⟩
      | cons c C =>
        exfalso
        have hsub : (between d w st).Sublist st := List.filter_sublist
        have hp : ((between d w st).map (·.1)).Pairwise (· < ·) := hs.sublist (hsub.map _)
        rw [eBC, List.map_append, List.map_cons, List.map_cons] at hp
        have h1 := (List.pairwise_cons.1 (List.pairwise_append.1 hp).2.1).1 c.1 (by simp)
        have h2 := (mem_between.1 (show c ∈ between d w st by rw [eBC]; simp)).2.2
        exact absurd h1 (not_lt.2 h2)
    obtain ⟨B, eB⟩ := hlast
    have e1 : betweenHeads d v st = betweenHeads w v st ++ k :: (B.map (·.2)).reverse := by
      simp [betweenHeads, hsplit, eB]
    have hB : ∀ x ∈ (B.map (·.2)).reverse, x ≤ k := by
      intro x hx
      rw [List.mem_reverse, List.mem_map] at hx
      obtain ⟨e, he, rfl⟩ := hx
      exact hj e (by rw [hsplit, eB]; simp [he])
    rw [e1, records_level (by
      intro x hx
      rw [betweenHeads, List.mem_reverse, List.mem_map] at hx
      obtain ⟨e, he, rfl⟩ := hx
      exact hafter e he) hB]
    congr 1
    have e2 : (between w v st).filter (fun e => k ≤ e.2) = [] := by
      rw [List.filter_eq_nil_iff]
      intro e he
      have := hafter e he
      simp; omega
    rw [hsplit, List.filter_append, e2, eB]
    simp [List.filter_cons, List.filter_reverse, List.filter_map, Function.comp_def]

theorem skipSearchLoopC_run {h : SHeap N} {T : List (Lvl N)} {st : List (N × Nat)} {v : N} {m : Nat}
    (g : Geo h T) (ov : VOk T st) (ok : (towerVals st).Pairwise (· < ·))
    (hm : T.length = m + 1) (fuel : Nat) (hfuel : h.nNodes < fuel) :
    ∀ (j k : Nat) (prev : Option Addr) (a : Addr) (acc : List Addr) (t : Lvl N) (d : N),
    j ≤ m → j < k → T[j]? = some t → a ∈ t.ns → (h.node a).data = some d → d < v →
    acc.length = m - j → (∀ e ∈ between d v st, e.2 ≤ j) →
    ∃ r, skipSearchLoopC v (m + 1) fuel k prev (some a) acc h =
      (.ok (r, records 0 (betweenHeads d v st) + (j + 1 - headsAt v st)), h)
  | _, 0, _, _, _, _, _, _, hk, _, _, _, _, _, _ => by omega
  | 0, k + 1, prev, a, acc, t, d, hj, hk, ht, ha, hd, hdv, hacc, hall => by
    have o := g.lvl _ _ ht
    obtain ⟨p, f, e1, hf, hc⟩ := search_levelC (v := v) prev fuel o ha hd
      (by have := o.1.length_le; rw [o.1.length_eq]; omega)
    rw [ov.get ht, towerLevel_between] at e1
    refine ⟨(p, f, acc.reverse), ?_⟩
    have h0 : headsAt v st = 0 := by
      by_cases hv : v ∈ towerVals st
      · obtain ⟨e, he, rfl⟩ := List.mem_map.1 hv
        have := hall e (mem_between.2 ⟨he, hdv, le_refl _⟩)
        rw [headsAt_of_mem ok (k := e.2) he]; omega
      · exact headsAt_of_not_mem hv
    have hz : ∀ x ∈ betweenHeads d v st, x ≤ 0 := by
      intro x hx
      rw [betweenHeads, List.mem_reverse, List.mem_map] at hx
      obtain ⟨e, he, rfl⟩ := hx
      exact hall e he
    have h2 : records 0 (betweenHeads d v st) = (between d v st).length := by
      rw [records_top 0 _ hz]
      simp [betweenHeads]
    simp [skipSearchLoopC, run_bind, g.base _ ht _ ha, e1, hacc, h0, h2]
  | j + 1, k + 1, prev, a, acc, t, d, hj, hk, ht, ha, hd, hdv, hacc, hall => by
    have o := g.lvl _ _ ht
    obtain ⟨p, f, e1, hf, hc⟩ := search_levelC (v := v) prev fuel o ha hd
      (by have := o.1.length_le; rw [o.1.length_eq]; omega)
    rw [ov.get ht, towerLevel_between] at e1 hc
    obtain ⟨b, hb⟩ : ∃ b, T[j]? = some b := ⟨_, List.getElem?_eq_getElem (by omega)⟩
    obtain ⟨da, _, ea, _⟩ := g.downs j b t hb ht a ha
    obtain ⟨df, hdf, ef, edf⟩ := g.downs j b t hb ht f hf
    have hdp : ∃ p', downPrev p h = (.ok p', h) := by
      cases p with
      | none => exact ⟨_, rfl⟩
      | some p => exact ⟨_, rfl⟩
    obtain ⟨p', ep⟩ := hdp
    -- `w` is where the level is left
    have key : ∃ w, (h.node f).data = some w ∧ w ≤ v ∧ (∀ e ∈ between w v st, e.2 ≤ j) ∧
        (w = v → headsAt v st = j + 1) ∧
        records 0 (betweenHeads d v st) = records 0 (betweenHeads w v st) +
          ((between d v st).filter (fun e => j + 1 ≤ e.2)).length := by
      cases hq : ((between d v st).filter (fun e => j + 1 ≤ e.2)).getLast? with
      | none =>
        have hnil := List.getLast?_eq_none_iff.1 hq
        rw [hnil] at hc
        refine ⟨d, by simpa using hc, hdv.le, ?_, fun e => absurd e hdv.ne, by simp [hnil]⟩
        intro e he
        rw [List.filter_eq_nil_iff] at hnil
        have := hnil e he
        simp at this
        omega
      | some q =>
        obtain ⟨w1, w2, w3, w4, w5⟩ := between_level_split ok hall (w := q.1) (by rw [hq]; rfl)
        refine ⟨q.1, ?_, w2, fun e he => by have := w4 e he; omega, ?_, w5⟩
        · rw [hc, List.getLast?_cons, List.getLast?_map, hq]; rfl
        · intro e; rw [e] at w3; exact headsAt_of_mem ok w3
    obtain ⟨w, ew, hwv, hw, hwh, hrec⟩ := key
    rcases eq_or_lt_of_le hwv with rfl | hlt
    · refine ⟨(p, f, acc), ?_⟩
      have hz : betweenHeads w w st = [] := by simp [betweenHeads, between_self]
      simp [skipSearchLoopC, run_bind, ea, e1, ew, hrec, hwh rfl, hz, records]
    · have hk' : headsAt v st ≤ j := by
        by_cases hv : v ∈ towerVals st
        · obtain ⟨e, he, rfl⟩ := List.mem_map.1 hv
          have := hw e (mem_between.2 ⟨he, hlt, le_refl _⟩)
          rw [headsAt_of_mem ok (k := e.2) he]; omega
        · rw [headsAt_of_not_mem hv]; omega
      obtain ⟨r, er⟩ := skipSearchLoopC_run g ov ok hm fuel hfuel j k p' df (acc ++ [f]) b w
        (by omega) (by omega) hb hdf (by rw [edf, ew]) hlt (by simp; omega) hw
      refine ⟨r, ?_⟩
      simp [skipSearchLoopC, run_bind, ea, e1, ew, hlt.ne, ep, ef, er, hrec]
      omega

theorem between_bot {v : N} {st : List (N × Nat)} (ok : TowerOk st) :
    betweenHeads ⊥ v st = headsBelow v st := by
  have : between ⊥ v st = st.filter (fun e => e.1 ≤ v) := by
    rw [between]
    apply List.filter_congr
    intro e he
    have := (List.pairwise_cons.1 ok).1 e.1 (List.mem_map_of_mem he)
    simp [this]
  rw [betweenHeads, headsBelow, this]

/-- a search makes as many tests as it should, and returns what it returns -/
theorem skipSearchC_run {s : SkipList N} {st : List (N × Nat)} {v : N} (I : SkInv s st)
    (hv : v ≠ ⊥) :
    ∃ r, skipSearch v s = (.ok r, s) ∧ skipSearchC v s = (.ok (r, searchTests v st), s) := by
  obtain ⟨T, r, o, ok⟩ := I
  have hm : T.length = (towerHeight st - 1) + 1 := by
    rw [o.length]; simp only [towerHeight]; omega
  generalize towerHeight st - 1 = m at hm
  have hnum := r.num
  have hml : m < T.length := by omega
  have ht : T[m]? = some T[m] := List.getElem?_eq_getElem hml
  have oo := r.geo.lvl m _ ht
  have hlen := oo.1.length_eq
  obtain ⟨a, as, ens⟩ := List.exists_cons_of_ne_nil (l := T[m].ns) (by intro e; simp [e] at hlen)
  have hd : (s.heap.node a).data = some ⊥ := by
    have := oo.1.data
    rw [ens] at this
    simpa using (List.cons.inj this).1
  have hhd : (s.heap.lobj T[m].l).head = some a := by
    rw [oo.1.head (by simp [ens]), ens]; rfl
  have hl := r.geo.length
  have hth : towerHeight st = m + 1 := by rw [← o.length, hm]
  obtain ⟨q, e⟩ := skipSearchLoopC_run (v := v) r.geo o (List.pairwise_cons.1 ok).2 hm
    (s.heap.nNodes + 1) (by omega) m
    (s.heap.nNodes + 1) none a [] T[m] ⊥ (Nat.le_refl _) (by omega) ht (by simp [ens]) hd
    (bot_lt_iff_ne_bot.2 hv) (by simp) (by
      intro e he
      by_contra hc
      have h1 : towerLevel st (m + 1) ≠ [] := by
        intro hn
        simp only [towerLevel, List.map_eq_nil_iff, List.filter_eq_nil_iff] at hn
        have := hn e (mem_between.1 he).1
        simp at this; omega
      have := (lt_towerHeight st (m + 1)).2 (Or.inr h1)
      omega)
  have hlev : s.levels[s.numLevels - 1]? = some T[m].l := by
    rw [r.levels, List.getElem?_map, hnum, hm, Nat.add_sub_cancel, ht]; rfl
  have hC : skipSearchC v s = (.ok (q, searchTests v st), s) := by
    simp only [skipSearchC, srun_bind, srun_getNum, srun_levelAt hlev]
    refine srun_onHeap (h' := s.heap) ?_
    show skipSearchLoopC v s.numLevels (s.heap.nNodes + 1) (s.heap.nNodes + 1) none
      (s.heap.lobj T[m].l).head [] s.heap = _
    rw [hhd, hnum, hm, e, between_bot ok, searchTests, hth]
  exact ⟨q, by rw [skipSearchC_drop, hC]; rfl, hC⟩

end Extra
