import Verif.Lists.SkipListDraw
import Verif.Lists.SkipListRefine
import Verif.Lists.DrawProofs

/-! # Helper lemmas for the drawing of `SkipList` -/

set_option linter.unusedSectionVars false

namespace Extra

/-! ## The specification

A column is a text and the highest level it is on. -/

/-- a column in the line above the boxes of a level: a box reaches further up, or ends here, or is lower -/
def aboveCol (lvl : Nat) (c : List Char × Nat) : List Char :=
  if lvl + 1 ≤ c.2 then ['├'] ++ rule c.1 ++ ['┤', ' ']
  else if lvl ≤ c.2 then ['┌'] ++ rule c.1 ++ ['┐', ' ']
  else List.replicate (c.1.length + 5) ' '

/-- a column in the line of a level: the text, or an arrow that passes it -/
def levelCol (lvl : Nat) (c : List Char × Nat) : List Char :=
  if lvl ≤ c.2 then ['|'] ++ padded c.1 ++ ['│', '⟶'] else List.replicate (c.1.length + 5) '⟶'

/-- a column in the last line -/
def bottomCol (c : List Char × Nat) : List Char := ['└'] ++ rule c.1 ++ ['┘', ' ']

/-- the lines of a drawing with the levels below `h` -/
def skText (cols : List (List Char × Nat)) : Nat → List (List Char)
  | 0 => [cols.flatMap bottomCol]
  | h + 1 => cols.flatMap (aboveCol h) :: cols.flatMap (levelCol h) :: skText cols h

variable {N : Type} [LinearOrder N] [BoundedOrder N]
attribute [local instance] numData

/-- the columns of a skip list: `-∞` is on all levels -/
def skCols (str : N → List Char) (st : List (N × Nat)) : List (List Char × Nat) :=
  ((⊥, towerHeight st - 1) :: st).map (fun e => (skLabel str (some e.1), e.2))

/-! ## The loops -/

section
variable {h : SHeap N} {v : N} {k i : Nat} {E : List (N × Nat)}

theorem skipStep_spec {z : Node N (Option Addr)} (hz : z.data = some v) {cs : List Addr}
    (s : Src h cs (towerLevel ((v, k) :: E) i) none) (hv : v ∉ towerVals E) :
    ∃ cs', skipStep z cs.head? h = (.ok (decide (i ≤ k), cs'.head?), h) ∧
      Src h cs' (towerLevel E i) none := by
  have hnm : v ∉ towerLevel E i := fun hm =>
    hv ((towerLevel_zero E) ▸ (towerLevel_sub (Nat.zero_le i)).subset hm)
  rw [towerLevel_cons] at s
  by_cases hk : i ≤ k
  · rw [if_pos hk] at s
    cases cs with
    | nil => have := s.length_eq; simp at this
    | cons c cs =>
      obtain ⟨hd, nx, _, s'⟩ := s.uncons
      rw [Option.or_none] at nx
      refine ⟨cs, ?_, s'⟩
      simp [skipStep, run_bind, hz, hd, nx, hk]
  · rw [if_neg hk] at s
    refine ⟨cs, ?_, s⟩
    cases cs with
    | nil => simp [skipStep, hk]
    | cons c cs =>
      have hd : (h.node c).data ≠ some v := by
        intro e
        have := s.data
        apply hnm
        have hm : some v ∈ (towerLevel E i).map some := by rw [← this]; simp [e]
        simpa using hm
      have hd' : ¬ z.data = (h.node c).data := by rw [hz]; exact fun e => hd e.symm
      simp [skipStep, run_bind, hd', hk]

theorem rep_row (c : Char) (n : Nat) :
    [c] ++ List.replicate (n + 2) c ++ [c, c] = List.replicate (n + 5) c := by
  rw [show n + 5 = (n + 2) + 1 + 2 by omega, List.replicate_add (m := n + 2 + 1)]
  rfl

theorem src_nil {bs : List Addr} (s : Src h bs ([] : List N) none) : bs = [] :=
  List.eq_nil_of_length_eq_zero s.length_eq

theorem skipTopLoop_spec (str : N → List Char) : ∀ (E : List (N × Nat)) (zs cs : List Addr)
    (fuel : Nat), E.length ≤ fuel → (towerVals E).Pairwise (· < ·) → Src h zs (towerVals E) none →
    Src h cs (towerLevel E i) none → (∀ e ∈ E, e.2 ≤ i) →
    skipTopLoop str fuel zs.head? cs.head? h =
      (.ok ((E.map (fun e => (skLabel str (some e.1), e.2))).flatMap (aboveCol i)), h)
  | [], zs, cs, fuel, _, _, s, _, _ => by
    rw [src_nil s]
    cases fuel <;> rfl
  | (v, k) :: E, zs, cs, fuel, hf, hp, s, s', hE => by
    obtain ⟨f, rfl⟩ : ∃ f, fuel = f + 1 := ⟨fuel - 1, by simp at hf; omega⟩
    cases zs with
    | nil => have := s.length_eq; simp [towerVals] at this
    | cons z zs =>
      obtain ⟨hd, nx, _, sz⟩ := Src.uncons (z := v) (zs := towerVals E) s
      rw [Option.or_none] at nx
      have hp' := List.pairwise_cons.1 hp
      obtain ⟨cs', e1, s1⟩ := skipStep_spec hd s' (fun hm => lt_irrefl _ (hp'.1 _ hm))
      have ih := skipTopLoop_spec str E zs cs' f (by simpa using hf) hp'.2 sz s1
        (fun e he => hE e (List.mem_cons_of_mem _ he))
      have hk : ¬ i + 1 ≤ k := by have := hE (v, k) List.mem_cons_self; simp at this; omega
      simp only [List.head?_cons, skipTopLoop, run_bind, run_nodeAt, e1, nx, ih, run_pure,
        List.map_cons, List.flatMap_cons, aboveCol, hk, if_false, hd]
      by_cases hik : i ≤ k
      · simp [hik, times_nat, rule]
      · simp only [hik, decide_false, Bool.false_eq_true, if_false, times_nat, rep_row]

theorem skipLevelLoop_spec (str : N → List Char) : ∀ (E : List (N × Nat)) (zs cs ds : List Addr)
    (fuel : Nat), E.length ≤ fuel → (towerVals E).Pairwise (· < ·) → Src h zs (towerVals E) none →
    Src h cs (towerLevel E (i + 1)) none → Src h ds (towerLevel E i) none →
    skipLevelLoop str fuel zs.head? cs.head? ds.head? h =
      (.ok ((E.map (fun e => (skLabel str (some e.1), e.2))).flatMap (levelCol (i + 1)),
        (E.map (fun e => (skLabel str (some e.1), e.2))).flatMap (aboveCol i)), h)
  | [], zs, cs, ds, fuel, _, _, s, _, _ => by
    rw [src_nil s]
    cases fuel <;> rfl
  | (v, k) :: E, zs, cs, ds, fuel, hf, hp, s, s', s'' => by
    obtain ⟨f, rfl⟩ : ∃ f, fuel = f + 1 := ⟨fuel - 1, by simp at hf; omega⟩
    cases zs with
    | nil => have := s.length_eq; simp [towerVals] at this
    | cons z zs =>
      obtain ⟨hd, nx, _, sz⟩ := Src.uncons (z := v) (zs := towerVals E) s
      rw [Option.or_none] at nx
      have hp' := List.pairwise_cons.1 hp
      have hv : v ∉ towerVals E := fun hm => lt_irrefl _ (hp'.1 _ hm)
      obtain ⟨cs', e1, s1⟩ := skipStep_spec hd s' hv
      obtain ⟨ds', e2, s2⟩ := skipStep_spec hd s'' hv
      have ih := skipLevelLoop_spec str E zs cs' ds' f (by simpa using hf) hp'.2 sz s1 s2
      simp only [List.head?_cons, skipLevelLoop, run_bind, run_nodeAt, e1, e2, nx, ih, run_pure,
        List.map_cons, List.flatMap_cons, aboveCol, levelCol, hd, skipPart]
      by_cases hik : i + 1 ≤ k
      · have hds : ds.head?.isNone = false := by
          cases ds with
          | nil =>
            have := s''.length_eq
            rw [towerLevel_cons, if_pos (by omega)] at this
            simp at this
          | cons d ds => rfl
        simp [hik, times_nat, rule, hds, padded]
      · by_cases hik' : i ≤ k
        · simp only [hik, hik', decide_false, decide_true, Bool.false_eq_true, if_false, if_true,
            rep_row, times_nat, rule]
        · simp only [hik, hik', decide_false, Bool.false_eq_true, if_false, times_nat, rep_row]

theorem skipLevelLoop_zero (str : N → List Char) : ∀ (E : List (N × Nat)) (zs cs : List Addr)
    (fuel : Nat), E.length ≤ fuel → (towerVals E).Pairwise (· < ·) → Src h zs (towerVals E) none →
    Src h cs (towerLevel E 0) none →
    skipLevelLoop str fuel zs.head? cs.head? none h =
      (.ok ((E.map (fun e => (skLabel str (some e.1), e.2))).flatMap (levelCol 0),
        (E.map (fun e => (skLabel str (some e.1), e.2))).flatMap bottomCol), h)
  | [], zs, cs, fuel, _, _, s, _ => by
    rw [src_nil s]
    cases fuel <;> rfl
  | (v, k) :: E, zs, cs, fuel, hf, hp, s, s' => by
    obtain ⟨f, rfl⟩ : ∃ f, fuel = f + 1 := ⟨fuel - 1, by simp at hf; omega⟩
    cases zs with
    | nil => have := s.length_eq; simp [towerVals] at this
    | cons z zs =>
      obtain ⟨hd, nx, _, sz⟩ := Src.uncons (z := v) (zs := towerVals E) s
      rw [Option.or_none] at nx
      have hp' := List.pairwise_cons.1 hp
      have hv : v ∉ towerVals E := fun hm => lt_irrefl _ (hp'.1 _ hm)
      obtain ⟨cs', e1, s1⟩ := skipStep_spec hd s' hv
      have ih := skipLevelLoop_zero str E zs cs' f (by simpa using hf) hp'.2 sz s1
      have e2 : skipStep (h.node z) none h = (.ok (false, none), h) := rfl
      simp only [List.head?_cons, skipLevelLoop, run_bind, run_nodeAt, e1, e2, nx, ih, run_pure,
        List.map_cons, List.flatMap_cons, bottomCol, levelCol, hd, skipPart]
      simp [times_nat, rule, padded]

end

/-! ## The text -/

theorem towerVals_le_height {st : List (N × Nat)} {e : N × Nat} (he : e ∈ st) :
    e.2 ≤ towerHeight st - 1 := by
  have : e.2 < towerHeight st := by
    rw [lt_towerHeight]
    right
    intro h
    have : e.1 ∈ towerLevel st e.2 := List.mem_map.2 ⟨e, List.mem_filter.2 ⟨he, by simp⟩, rfl⟩
    rw [h] at this
    cases this
  omega

section
variable {s : SkipList N} {st : List (N × Nat)} {i : Nat}

/-- the columns as entries -/
theorem levelHead_spec {T : List (Lvl N)} (r : SkRep s T) (o : VOk T st) (hi : i < towerHeight st) :
    ∃ cs, levelHead i s = (.ok cs.head?, s) ∧
      Src s.heap cs (towerLevel ((⊥, towerHeight st - 1) :: st) i) none := by
  have hlt : i < T.length := by rw [o.length]; exact hi
  have ht : T[i]? = some T[i] := List.getElem?_eq_getElem hlt
  have lo := r.geo.lvl i _ ht
  have hlen := lo.1.length_eq
  have hl : s.levels[i]? = some T[i].l := by rw [r.levels, List.getElem?_map, ht]; rfl
  refine ⟨T[i].ns, ?_, ?_⟩
  · have hh := lo.1.head (by intro e; simp [e] at hlen)
    show SM.bind (levelAt i) _ s = _
    simp only [SM.bind, levelAt, hl]
    show SM.bind (SM.onHeap (getList T[i].l)) _ s = _
    simp only [SM.bind, SM.onHeap, run_getList, hh]
    rfl
  · rw [towerLevel_cons, if_pos (by omega), ← o.get ht]
    exact lo.1.src

theorem SkRep.fuel {T : List (Lvl N)} (r : SkRep s T) (o : VOk T st) :
    st.length + 1 ≤ s.heap.nNodes := by
  obtain ⟨t, ht⟩ := o.some (i := 0) (Or.inl rfl)
  have := (r.geo.lvl 0 t ht).1.length_le
  rw [o.get ht, towerLevel_zero] at this
  simpa [towerVals] using this

theorem sm_bind_ok {α β : Type} {m : SM N α} {f : α → SM N β} {s s' : SkipList N} {a : α}
    (e : m s = (.ok a, s')) : (m >>= f) s = f a s' := by
  show SM.bind m f s = _
  rw [SM.bind, e]

theorem onHeap_ok {α : Type} {m : M N (Option Addr) α} {a : α} (e : m s.heap = (.ok a, s.heap)) :
    SM.onHeap m s = (.ok a, s) := by
  rw [SM.onHeap, e]

theorem skipLevel_spec (str : N → List Char) {T : List (Lvl N)} (r : SkRep s T) (o : VOk T st)
    (ok : TowerOk st) (hi : i < towerHeight st) :
    skipLevel str i s = (.ok [(skCols str st).flatMap (levelCol i),
      match i with
      | 0 => (skCols str st).flatMap bottomCol
      | j + 1 => (skCols str st).flatMap (aboveCol j)], s) := by
  have hf := r.fuel o
  obtain ⟨zs, ez, sz⟩ := levelHead_spec r o (i := 0) (by omega)
  obtain ⟨cs, ec, sc⟩ := levelHead_spec r o hi
  have hn : i < s.numLevels := by rw [r.num, o.length]; exact hi
  have hp : (towerVals ((⊥, towerHeight st - 1) :: st)).Pairwise (· < ·) := ok
  have sz' := sz
  rw [towerLevel_zero] at sz'
  refine (sm_bind_ok (N := N) (m := getNum) (a := s.numLevels) rfl).trans ?_
  rw [if_pos hn]
  refine (sm_bind_ok ez).trans ?_
  refine (sm_bind_ok ec).trans ?_
  cases i with
  | zero =>
    refine (sm_bind_ok (N := N) (a := none) rfl).trans ?_
    refine (sm_bind_ok (N := N) (m := skFuel) (a := s.heap.nNodes + 1) rfl).trans ?_
    have e := skipLevelLoop_zero str _ zs cs (s.heap.nNodes + 1) (by simp; omega) hp sz' sc
    exact sm_bind_ok (onHeap_ok e)
  | succ j =>
    obtain ⟨ds, ed, sd⟩ := levelHead_spec r o (i := j) (by omega)
    refine (sm_bind_ok (a := ds.head?) ed).trans ?_
    refine (sm_bind_ok (N := N) (m := skFuel) (a := s.heap.nNodes + 1) rfl).trans ?_
    have e := skipLevelLoop_spec str _ zs cs ds (s.heap.nNodes + 1) (by simp; omega) hp sz' sc sd
    exact sm_bind_ok (onHeap_ok e)

theorem skipTop_spec (str : N → List Char) {T : List (Lvl N)} (r : SkRep s T) (o : VOk T st)
    (ok : TowerOk st) :
    skipTop str s = (.ok ((skCols str st).flatMap (aboveCol (towerHeight st - 1))), s) := by
  have hf := r.fuel o
  have hh : 0 < towerHeight st := by simp [towerHeight]
  obtain ⟨zs, ez, sz⟩ := levelHead_spec r o (i := 0) hh
  obtain ⟨cs, ec, sc⟩ := levelHead_spec r o (i := towerHeight st - 1) (by omega)
  have hn : s.numLevels = towerHeight st := by rw [r.num, o.length]
  rw [towerLevel_zero] at sz
  refine (sm_bind_ok (N := N) (m := getNum) (a := s.numLevels) rfl).trans ?_
  refine (sm_bind_ok ez).trans ?_
  rw [hn]
  refine (sm_bind_ok ec).trans ?_
  refine (sm_bind_ok (N := N) (m := skFuel) (a := s.heap.nNodes + 1) rfl).trans ?_
  refine onHeap_ok (skipTopLoop_spec str _ zs cs (s.heap.nNodes + 1) (by simp; omega) ok sz sc ?_)
  intro e he
  rcases List.mem_cons.1 he with rfl | he
  · exact Nat.le_refl _
  · exact towerVals_le_height he

theorem skipRows_spec (str : N → List Char) {T : List (Lvl N)} (r : SkRep s T) (o : VOk T st)
    (ok : TowerOk st) : ∀ k, k < towerHeight st →
    skipRows str (k + 1) s = (.ok (skText (skCols str st) (k + 1)).tail, s)
  | 0, hk => by
    refine (sm_bind_ok (skipLevel_spec str r o ok hk)).trans ?_
    exact sm_bind_ok (a := []) rfl
  | k + 1, hk => by
    refine (sm_bind_ok (skipLevel_spec str r o ok hk)).trans ?_
    exact sm_bind_ok (skipRows_spec str r o ok k (by omega))

theorem skRepr_spec (str : N → List Char) (I : SkInv s st) :
    skRepr str s = (.ok (joinLines (skText (skCols str st) (towerHeight st))), s) := by
  obtain ⟨T, r, o, ok⟩ := I
  have hn : s.numLevels = towerHeight st := by rw [r.num, o.length]
  obtain ⟨k, hk⟩ : ∃ k, towerHeight st = k + 1 := ⟨_, rfl⟩
  refine (sm_bind_ok (skipTop_spec str r o ok)).trans ?_
  refine (sm_bind_ok (N := N) (m := getNum) (a := s.numLevels) rfl).trans ?_
  rw [hn, hk]
  refine (sm_bind_ok (skipRows_spec str r o ok k (by omega))).trans ?_
  rfl

end

/-! ## What the text determines -/

theorem skText_length (cols : List (List Char × Nat)) : ∀ h, (skText cols h).length = 2 * h + 1
  | 0 => rfl
  | h + 1 => by simp only [skText, List.length_cons, skText_length cols h]; omega

theorem flatMap_inj {α : Type} {f : α → List Char} : ∀ {as bs : List α},
    as.map (fun a => (f a).length) = bs.map (fun a => (f a).length) →
    as.flatMap f = bs.flatMap f → as.map f = bs.map f
  | [], [], _, _ => rfl
  | [], b :: bs, h, _ => by simp at h
  | a :: as, [], h, _ => by simp at h
  | a :: as, b :: bs, h, e => by
    simp only [List.map_cons, List.cons.injEq] at h ⊢
    simp only [List.flatMap_cons] at e
    obtain ⟨e1, e2⟩ := List.append_inj e h.1
    exact ⟨e1, flatMap_inj h.2 e2⟩

@[simp] theorem levelCol_length (i : Nat) (c : List Char × Nat) : (levelCol i c).length = c.1.length + 5 := by
  rw [levelCol]; split <;> simp

@[simp] theorem aboveCol_length (i : Nat) (c : List Char × Nat) : (aboveCol i c).length = c.1.length + 5 := by
  rw [aboveCol]; split
  · simp
  · split <;> simp

@[simp] theorem bottomCol_length (c : List Char × Nat) : (bottomCol c).length = c.1.length + 5 := by
  simp [bottomCol]

theorem bottom_lengths : ∀ {as bs : List (List Char × Nat)},
    as.flatMap bottomCol = bs.flatMap bottomCol →
    as.map (fun c => c.1.length) = bs.map (fun c => c.1.length)
  | [], [], _ => rfl
  | [], b :: bs, h => by simp [bottomCol] at h
  | a :: as, [], h => by simp [bottomCol] at h
  | a :: as, b :: bs, h => by
    simp only [List.flatMap_cons, bottomCol, rule, List.append_assoc, List.cons_append,
      List.nil_append, List.cons.injEq, true_and] at h
    obtain ⟨h1, h2⟩ := replicate_append_inj (by decide) h
    simp only [List.cons.injEq, true_and] at h2
    simp only [List.map_cons, List.cons.injEq]
    exact ⟨by omega, bottom_lengths h2⟩

theorem skText_bottom {as bs : List (List Char × Nat)} : ∀ {h : Nat},
    skText as h = skText bs h → as.flatMap bottomCol = bs.flatMap bottomCol
  | 0, e => by simpa [skText] using e
  | h + 1, e => by
    simp only [skText, List.cons.injEq] at e
    exact skText_bottom e.2.2

theorem skText_level {as bs : List (List Char × Nat)} : ∀ {h i : Nat}, skText as h = skText bs h →
    i < h → as.flatMap (levelCol i) = bs.flatMap (levelCol i)
  | 0, _, _, hi => by omega
  | h + 1, i, e, hi => by
    simp only [skText, List.cons.injEq] at e
    rcases Nat.lt_succ_iff_lt_or_eq.1 hi with hi | rfl
    · exact skText_level e.2.2 hi
    · exact e.2.1

theorem levelCol_inj {a b : List Char × Nat} {h : Nat} (ha : a.2 < h) (hb : b.2 < h)
    (e : ∀ i, i < h → levelCol i a = levelCol i b) : a = b := by
  have h0 := e 0 (by omega)
  have key : ∀ i, i < h → (i ≤ a.2 ↔ i ≤ b.2) := by
    intro i hi
    have := e i hi
    rw [levelCol, levelCol] at this
    by_cases h1 : i ≤ a.2 <;> by_cases h2 : i ≤ b.2
    · simp [h1, h2]
    · rw [if_pos h1, if_neg h2, List.replicate_succ] at this
      simp at this
    · rw [if_neg h1, if_pos h2, List.replicate_succ] at this
      simp at this
    · simp [h1, h2]
  have e1 : a.1 = b.1 := by
    have hl := congrArg List.length h0
    simp only [levelCol_length] at hl
    simp only [levelCol, Nat.zero_le, if_true, padded, List.append_assoc, List.cons_append,
      List.nil_append, List.cons.injEq, true_and] at h0
    exact (List.append_inj h0 (by omega)).1
  have e2 : a.2 = b.2 := by
    have := (key a.2 ha).1 (Nat.le_refl _)
    have := (key b.2 hb).2 (Nat.le_refl _)
    omega
  exact Prod.ext e1 e2

theorem skText_inj {as bs : List (List Char × Nat)} {h h' : Nat} (ha : ∀ a ∈ as, a.2 < h)
    (hb : ∀ b ∈ bs, b.2 < h') (e : skText as h = skText bs h') : as = bs ∧ h = h' := by
  have hh : h = h' := by
    have := congrArg List.length e
    rw [skText_length, skText_length] at this
    omega
  subst hh
  have hl := bottom_lengths (skText_bottom e)
  have key : ∀ i, i < h → as.map (levelCol i) = bs.map (levelCol i) := by
    intro i hi
    refine flatMap_inj ?_ (skText_level e hi)
    have := congrArg (List.map (· + 5)) hl
    simpa [Function.comp_def] using this
  refine ⟨?_, rfl⟩
  have hlen : as.length = bs.length := by simpa using congrArg List.length hl
  refine List.ext_getElem hlen (fun n h1 h2 => ?_)
  refine levelCol_inj (ha _ (List.getElem_mem h1)) (hb _ (List.getElem_mem h2)) (fun i hi => ?_)
  have := congrArg (fun l => l[n]?) (key i hi)
  simpa [h1, h2] using this

theorem skText_nl {cols : List (List Char × Nat)} (hc : ∀ c ∈ cols, '\n' ∉ c.1) : ∀ h,
    ∀ l ∈ skText cols h, '\n' ∉ l := by
  have hb : '\n' ∉ cols.flatMap bottomCol := by
    intro hm
    obtain ⟨c, h1, h2⟩ := List.mem_flatMap.1 hm
    simp [bottomCol, rule_nl] at h2
  have ha : ∀ i, '\n' ∉ cols.flatMap (aboveCol i) := by
    intro i hm
    obtain ⟨c, h1, h2⟩ := List.mem_flatMap.1 hm
    rw [aboveCol] at h2
    split at h2
    · simp [rule_nl] at h2
    · split at h2
      · simp [rule_nl] at h2
      · simp at h2
  have hl : ∀ i, '\n' ∉ cols.flatMap (levelCol i) := by
    intro i hm
    obtain ⟨c, h1, h2⟩ := List.mem_flatMap.1 hm
    rw [levelCol] at h2
    split at h2
    · simp [padded_nl (hc c h1)] at h2
    · simp at h2
  intro h
  induction h with
  | zero => simpa [skText] using hb
  | succ h ih => simp only [skText, List.forall_mem_cons]; exact ⟨ha h, hl h, ih⟩

theorem skText_ne (cols : List (List Char × Nat)) (h : Nat) : skText cols h ≠ [] := by
  cases h <;> simp [skText]

/-! ## Where things are -/

theorem mem_towerLevel {st : List (N × Nat)} (h : (towerVals st).Pairwise (· < ·)) {e : N × Nat}
    (he : e ∈ st) (i : Nat) : e.1 ∈ towerLevel st i ↔ i ≤ e.2 := by
  constructor
  · intro hm
    obtain ⟨e', h1, h2⟩ := List.mem_map.1 hm
    obtain ⟨h3, h4⟩ := List.mem_filter.1 h1
    have hn : (towerVals st).Nodup := h.imp (fun h => ne_of_lt h)
    have : e' = e := List.inj_on_of_nodup_map hn h3 he h2
    subst this
    simpa using h4
  · intro hi
    exact List.mem_map.2 ⟨e, List.mem_filter.2 ⟨he, by simpa using hi⟩, rfl⟩

theorem flatMap_window {f : List Char × Nat → List Char} (hf : ∀ c, (f c).length = c.1.length + 5)
    (as : List (List Char × Nat)) (c : List Char × Nat) (bs : List (List Char × Nat)) :
    (((as ++ c :: bs).flatMap f).drop ((as.map (fun c => c.1.length + 5)).sum)).take (c.1.length + 5) =
      f c := by
  have : (as.flatMap f).length = (as.map (fun c => c.1.length + 5)).sum := by
    simp [List.length_flatMap, hf]
  rw [List.flatMap_append, ← this, List.drop_left, List.flatMap_cons, ← hf c, List.take_left]

theorem skText_above (cols : List (List Char × Nat)) : ∀ (h i : Nat), i < h →
    (skText cols h)[2 * (h - 1 - i)]? = some (cols.flatMap (aboveCol i)) ∧
    (skText cols h)[2 * (h - 1 - i) + 1]? = some (cols.flatMap (levelCol i))
  | 0, _, hi => by omega
  | h + 1, i, hi => by
    rcases Nat.lt_succ_iff_lt_or_eq.1 hi with hi | rfl
    · have ih := skText_above cols h i hi
      rw [show h + 1 - 1 - i = (h - 1 - i) + 1 by omega]
      simp only [skText]
      exact ⟨by rw [← ih.1]; rfl, by rw [← ih.2]; rfl⟩
    · simp [skText]

theorem skText_last (cols : List (List Char × Nat)) : ∀ h : Nat,
    (skText cols h)[2 * h]? = some (cols.flatMap bottomCol)
  | 0 => rfl
  | h + 1 => by simp only [skText]; rw [← skText_last cols h]; rfl

theorem skText_width (cols : List (List Char × Nat)) : ∀ h : Nat, ∀ l ∈ skText cols h,
    l.length = (cols.map (fun c => c.1.length + 5)).sum
  | 0 => by simp [skText, List.length_flatMap]
  | h + 1 => by
    simp only [skText, List.forall_mem_cons]
    exact ⟨by simp [List.length_flatMap], by simp [List.length_flatMap], skText_width cols h⟩

theorem towerVals_cols (str : N → List Char) (st : List (N × Nat)) :
    (skCols str st).map Prod.fst = (⊥ :: towerVals st).map (fun v => skLabel str (some v)) := by
  simp [skCols, towerVals, Function.comp_def]

theorem skCols_lt {str : N → List Char} {st : List (N × Nat)} : ∀ c ∈ skCols str st,
    c.2 < towerHeight st := by
  have h0 : 0 < towerHeight st := by simp [towerHeight]
  intro c hc
  obtain ⟨e, he, rfl⟩ := List.mem_map.1 hc
  rcases List.mem_cons.1 he with rfl | he
  · simp only; omega
  · have := towerVals_le_height he
    simp only; omega

theorem skCols_nl {str : N → List Char} (hs : ∀ v, '\n' ∉ str v) {st : List (N × Nat)} :
    ∀ c ∈ skCols str st, '\n' ∉ c.1 := by
  intro c hc
  obtain ⟨e, he, rfl⟩ := List.mem_map.1 hc
  simp only [skLabel]
  split
  · decide
  · split
    · decide
    · exact hs _

end Extra
