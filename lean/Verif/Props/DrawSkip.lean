import Verif.Lists.SkipListDrawProofs
import Verif.Props.SkipList

/-!
# Property C86: the drawing of `SkipList`

`skRepr str s` is `repr` of the skip list `s`, where `str` is Python's `str` on numbers
(Verif/Lists/SkipListDraw.lean).  `skAfter ops` is the object after a history of calls, `levelData s i`
the data of the nodes of its level `i`, `-inf` included (Props/SkipList.lean).
-/

set_option linter.unusedSectionVars false

namespace Extra
variable {N : Type} [LinearOrder N] [BoundedOrder N]
attribute [local instance] numData

/-- `n` characters of a line of a drawing, from a column on -/
def window (lines : List (List Char)) (r a n : Nat) : Option (List Char) :=
  lines[r]?.map (fun l => (l.drop a).take n)

/-! helper lemmas -/

theorem levelData_inv {s : SkipList N} {st : List (N × Nat)} (I : SkInv s st) {i : Nat} :
    levelData s i = if i < towerHeight st then (⊥ :: towerLevel st i).map some else [] := by
  obtain ⟨T, r, o, ok⟩ := I
  by_cases hi : i < towerHeight st
  · have hlt : i < T.length := by rw [o.length]; exact hi
    have ht : T[i]? = some T[i] := List.getElem?_eq_getElem hlt
    rw [levelData, levelNodes_spec r ht, if_pos hi, ← o.get ht]
    exact (r.geo.lvl i _ ht).1.data
  · have : s.levels[i]? = none := by
      rw [r.levels, List.getElem?_map, List.getElem?_eq_none (by rw [o.length]; omega)]; rfl
    rw [if_neg hi]
    simp [levelData, levelNodes, this]

/-! ## The theorems -/

/-- C86 with the labels of the model -/
private theorem picture (str : N → List Char) (hs : ∀ v, '\n' ∉ str v) (ops : List (SkOp N))
    (h : NoMinusInf ops) :
    let s := skAfter ops
    let label := fun v : N => skLabel str (some v)
    ∃ (xs : List N) (H : Nat) (lines : List (List Char)),
      skAsk .toList s = .ok (.list (xs.map some)) ∧ skAsk .height s = .ok (.nat H) ∧
      skRepr str s = (.ok (joinLines lines), s) ∧ (∀ l ∈ lines, '\n' ∉ l) ∧
      lines.length = 2 * H + 1 ∧
      (∀ l ∈ lines, l.length = ((⊥ :: xs).map (fun v => (label v).length + 5)).sum) ∧
      ∀ (j : Nat) (x : N), (⊥ :: xs)[j]? = some x →
        let line := List.replicate ((label x).length + 2) '─'
        let n := (label x).length + 5
        let a := (((⊥ :: xs).take j).map (fun v => (label v).length + 5)).sum
        window lines (2 * H) a n = some ('└' :: line ++ ['┘', ' ']) ∧
        ∀ i, i < H →
          (some x ∈ levelData s i →
            window lines (2 * (H - 1 - i) + 1) a n = some ('|' :: ' ' :: label x ++ [' ', '│', '⟶']) ∧
            window lines (2 * (H - 1 - i)) a n = some (
              if some x ∈ levelData s (i + 1) then '├' :: line ++ ['┤', ' ']
              else '┌' :: line ++ ['┐', ' '])) ∧
          (some x ∉ levelData s i →
            window lines (2 * (H - 1 - i) + 1) a n = some (List.replicate n '⟶') ∧
            window lines (2 * (H - 1 - i)) a n = some (List.replicate n ' ')) := by
  have I := skAfter_inv ops h
  generalize (skSpecs ops []).2 = st at I
  have ok : TowerOk st := by obtain ⟨T, r, o, ok⟩ := I; exact ok
  intro s label
  have hcols := towerVals_cols str st
  refine ⟨towerVals st, towerHeight st, skText (skCols str st) (towerHeight st),
    skAsk_spec I (by simp [SkOp.number]), skAsk_spec I (by simp [SkOp.number]), skRepr_spec str I,
    skText_nl (skCols_nl hs) _, skText_length _ _, ?_, ?_⟩
  · intro l hl
    rw [skText_width _ _ l hl]
    have := congrArg (fun l => (l.map (fun c => c.length + 5)).sum) hcols
    simpa [Function.comp_def] using this
  · intro j x hx
    set E := (⊥, towerHeight st - 1) :: st with hE
    have hEv : towerVals E = ⊥ :: towerVals st := rfl
    rw [← hEv] at hx ⊢
    obtain ⟨e, he, rfl⟩ : ∃ e, E[j]? = some e ∧ e.1 = x := by
      simpa [towerVals, List.getElem?_map] using hx
    have hmem : e ∈ E := List.mem_of_getElem? he
    have hsplit : E = E.take j ++ e :: E.drop (j + 1) := by
      obtain ⟨hj, e'⟩ := List.getElem?_eq_some_iff.1 he
      rw [← e', List.cons_getElem_drop_succ, List.take_append_drop]
    have hlv : ∀ i, some e.1 ∈ levelData s i ↔ i ≤ e.2 := by
      intro i
      have h1 : e.2 < towerHeight st := by
        rcases List.mem_cons.1 hmem with rfl | hm
        · have h0 : 0 < towerHeight st := by simp [towerHeight]
          simp only; omega
        · have := towerVals_le_height hm; have h0 : 0 < towerHeight st := by simp [towerHeight]
          omega
      rw [levelData_inv I]
      by_cases hi : i < towerHeight st
      · rw [if_pos hi]
        have h2 : towerLevel E i = ⊥ :: towerLevel st i := by
          rw [hE, towerLevel_cons, if_pos (by omega)]
        rw [← h2, ← mem_towerLevel (st := E) ok hmem i]
        simp
      · rw [if_neg hi]
        simp
        omega
    have hwin : ∀ (f : List Char × Nat → List Char) (hf : ∀ c, (f c).length = c.1.length + 5),
        (((skCols str st).flatMap f).drop
          (((towerVals E).take j).map (fun v => (label v).length + 5)).sum).take
          ((label e.1).length + 5) = f (label e.1, e.2) := by
      intro f hf
      have := flatMap_window hf ((E.take j).map (fun e => (skLabel str (some e.1), e.2)))
        (label e.1, e.2) ((E.drop (j + 1)).map (fun e => (skLabel str (some e.1), e.2)))
      rw [← List.map_cons (f := fun e : N × Nat => (skLabel str (some e.1), e.2)), ← List.map_append,
        ← hsplit] at this
      have hs' : ((towerVals E).take j).map (fun v => (label v).length + 5) =
          ((E.take j).map (fun e => (skLabel str (some e.1), e.2))).map (fun c => c.1.length + 5) := by
        simp [towerVals, Function.comp_def, label, List.map_take]
      rw [hs']
      exact this
    refine ⟨?_, fun i hi => ?_⟩
    · rw [window, skText_last, Option.map_some, hwin _ bottomCol_length]
      simp [bottomCol, rule]
    · obtain ⟨h1, h2⟩ := skText_above (skCols str st) (towerHeight st) i hi
      simp only [hlv, window, h1, h2, Option.map_some, hwin _ (aboveCol_length i),
        hwin _ (levelCol_length i)]
      refine ⟨fun hle => ⟨?_, ?_⟩, fun hle => ⟨?_, ?_⟩⟩
      · simp [levelCol, hle, padded]
      · by_cases h3 : i + 1 ≤ e.2
        · simp [aboveCol, h3, rule]
        · simp [aboveCol, h3, hle, rule]
      · simp [levelCol, hle]
      · have h3 : ¬ i + 1 ≤ e.2 := by omega
        simp [aboveCol, h3, hle]

/-- **C86.** The drawing of a skip list with `H` levels has `2 * H + 1` lines of the same length.  The
numbers, in order and after `-∞`, take the columns of their text and five more.  Level `i` is in line
`2 * (H - 1 - i) + 1`, where exactly the numbers on that level are shown, and an arrow passes the others;
the borders join the boxes of a number on several levels.  Drawing changes nothing. -/
theorem C86_picture (str : N → List Char) (hs : ∀ v, '\n' ∉ str v) (ops : List (SkOp N))
    (h : NoMinusInf ops) :
    let s := skAfter ops
    let label := fun v : N => if v = ⊥ then ['-', '∞'] else if v = ⊤ then ['∞'] else str v
    ∃ (xs : List N) (H : Nat) (lines : List (List Char)),
      skAsk .toList s = .ok (.list (xs.map some)) ∧ skAsk .height s = .ok (.nat H) ∧
      skRepr str s = (.ok (joinLines lines), s) ∧ (∀ l ∈ lines, '\n' ∉ l) ∧
      lines.length = 2 * H + 1 ∧
      (∀ l ∈ lines, l.length = ((⊥ :: xs).map (fun v => (label v).length + 5)).sum) ∧
      ∀ (j : Nat) (x : N), (⊥ :: xs)[j]? = some x →
        let line := List.replicate ((label x).length + 2) '─'
        let n := (label x).length + 5
        let a := (((⊥ :: xs).take j).map (fun v => (label v).length + 5)).sum
        window lines (2 * H) a n = some ('└' :: line ++ ['┘', ' ']) ∧
        ∀ i, i < H →
          (some x ∈ levelData s i →
            window lines (2 * (H - 1 - i) + 1) a n = some ('|' :: ' ' :: label x ++ [' ', '│', '⟶']) ∧
            window lines (2 * (H - 1 - i)) a n = some (
              if some x ∈ levelData s (i + 1) then '├' :: line ++ ['┤', ' ']
              else '┌' :: line ++ ['┐', ' '])) ∧
          (some x ∉ levelData s i →
            window lines (2 * (H - 1 - i) + 1) a n = some (List.replicate n '⟶') ∧
            window lines (2 * (H - 1 - i)) a n = some (List.replicate n ' ')) :=
  picture str hs ops h

/-- **C86.** If different numbers print differently, and none like `-inf` or `inf` is shown, two skip lists have the same drawing exactly if their
levels hold the same numbers. -/
theorem C86_faithful (str : N → List Char) (hs : ∀ v, '\n' ∉ str v)
    (inj : ∀ v w : N, str v = str w → v = w) (hinf : ∀ v, str v ≠ ['-', '∞'] ∧ str v ≠ ['∞'])
    (ops ops' : List (SkOp N)) (h : NoMinusInf ops) (h' : NoMinusInf ops') :
    (skRepr str (skAfter ops)).1 = (skRepr str (skAfter ops')).1 ↔
      ∀ i, levelData (skAfter ops) i = levelData (skAfter ops') i := by
  have inj : ∀ v w : N, skLabel str (some v) = skLabel str (some w) → v = w := by
    intro v w e
    simp only [skLabel] at e
    split at e <;> split at e <;> (try split at e) <;> (try split at e) <;> first
      | (subst_vars; rfl)
      | exact absurd e (by decide)
      | exact absurd e (hinf _).1
      | exact absurd e (hinf _).2
      | exact absurd e.symm (hinf _).1
      | exact absurd e.symm (hinf _).2
      | exact inj _ _ e
  have I := skAfter_inv ops h
  have I' := skAfter_inv ops' h'
  generalize (skSpecs ops []).2 = st at I
  generalize (skSpecs ops' []).2 = st' at I'
  rw [skRepr_spec str I, skRepr_spec str I']
  simp only [levelData_inv I, levelData_inv I', Except.ok.injEq]
  constructor
  · intro e i
    obtain ⟨e1, e2⟩ := skText_inj skCols_lt skCols_lt (joinLines_inj (skText_ne _ _) (skText_ne _ _)
      (skText_nl (skCols_nl hs) _) (skText_nl (skCols_nl hs) _) e)
    have e3 : st = st' := by
      rw [skCols, skCols] at e1
      have := Function.Injective.list_map (f := fun e : N × Nat => (skLabel str (some e.1), e.2))
        (fun a b hab => by
          simp only [Prod.mk.injEq] at hab
          exact Prod.ext (inj _ _ hab.1) hab.2) e1
      exact (List.cons.inj this).2
    rw [e3]
  · intro e
    have hH : towerHeight st = towerHeight st' := by
      rcases Nat.lt_trichotomy (towerHeight st) (towerHeight st') with hl | hl | hl
      · have := e (towerHeight st); simp [hl] at this
      · exact hl
      · have := e (towerHeight st'); simp [hl] at this
    have hl : ∀ i, towerLevel st i = towerLevel st' i := by
      intro i
      by_cases hi : i < towerHeight st
      · have := e i
        rw [if_pos hi, if_pos (hH ▸ hi)] at this
        exact (List.cons.inj (List.map_injective_iff.2 (Option.some_injective N) this)).2
      · have h1 : towerLevel st i = [] := by
          by_contra hne; exact hi ((lt_towerHeight _ _).2 (Or.inr hne))
        have h2 : towerLevel st' i = [] := by
          by_contra hne; exact hi (hH ▸ (lt_towerHeight _ _).2 (Or.inr hne))
        rw [h1, h2]
    have ok : TowerOk st := by obtain ⟨T, r, o, ok⟩ := I; exact ok
    have ok' : TowerOk st' := by obtain ⟨T, r, o, ok⟩ := I'; exact ok
    have hv : towerVals st = towerVals st' := by rw [← towerLevel_zero, ← towerLevel_zero, hl]
    have e3 : st = st' := by
      have hlen : st.length = st'.length := by
        have := congrArg List.length hv; simpa [towerVals] using this
      refine List.ext_getElem hlen (fun n h1 h2 => ?_)
      have e1 : st[n].1 = st'[n].1 := by
        have := congrArg (fun l => l[n]?) hv
        simpa [towerVals, h1, h2] using this
      have key : ∀ i, i ≤ st[n].2 ↔ i ≤ st'[n].2 := by
        intro i
        rw [← mem_towerLevel (List.pairwise_cons.1 ok).2 (List.getElem_mem h1) i,
          ← mem_towerLevel (List.pairwise_cons.1 ok').2 (List.getElem_mem h2) i, e1, hl]
      have e2 : st[n].2 = st'[n].2 :=
        Nat.le_antisymm ((key _).1 (Nat.le_refl _)) ((key _).2 (Nat.le_refl _))
      exact Prod.ext e1 e2
    rw [e3]

/-- Python's `str` on the numbers of the examples -/
private def digits (n : Fin 20) : List Char := (toString n.val).toList

/-- the text of a drawing -/
private def skDrawn (ops : List (SkOp (Fin 20))) : Except Err String :=
  (skRepr digits (skAfter ops)).1.map String.ofList

example : skDrawn [] = .ok (
      "┌────┐ \n" ++
      "| -∞ │⟶\n" ++
      "└────┘ ") := by decide +kernel

example : skDrawn [.insert (.num 12) 2, .insert (.num 7) 0, .insert (.num 10) 0, .insert (.num ⊤) 1,
      .insert (.num 2) 0, .remove (.num 10)] = .ok (
      "┌────┐             ┌────┐       \n" ++
      "| -∞ │⟶⟶⟶⟶⟶⟶⟶⟶⟶⟶⟶⟶⟶| 12 │⟶⟶⟶⟶⟶⟶⟶\n" ++
      "├────┤             ├────┤ ┌───┐ \n" ++
      "| -∞ │⟶⟶⟶⟶⟶⟶⟶⟶⟶⟶⟶⟶⟶| 12 │⟶| ∞ │⟶\n" ++
      "├────┤ ┌───┐ ┌───┐ ├────┤ ├───┤ \n" ++
      "| -∞ │⟶| 2 │⟶| 7 │⟶| 12 │⟶| ∞ │⟶\n" ++
      "└────┘ └───┘ └───┘ └────┘ └───┘ ") := by decide +kernel

/-- the hypotheses of the theorems hold of these numbers -/
example : (∀ v, '\n' ∉ digits v) ∧
    (∀ v w : Fin 20, digits v = digits w → v = w) ∧
    ∀ v, digits v ≠ ['-', '∞'] ∧ digits v ≠ ['∞'] := by decide +kernel

end Extra
