import Verif.Lists.SkipListProofs

/-! # Searching a skip list (no property content) -/

set_option linter.unusedSectionVars false
set_option linter.unusedSimpArgs false
attribute [local irreducible] Extra.upd

namespace Extra
variable {N : Type} [LinearOrder N] [OrderBot N]
attribute [local instance] numData

/-- a level on the heap -/
def LvlOk (h : SHeap N) (t : Lvl N) : Prop :=
  Rep .ll h t.l t.ns (⊥ :: t.xs) ∧ (⊥ :: t.xs).Pairwise (· < ·)

/-- the levels on the heap, and how they hang together -/
structure Geo (h : SHeap N) (T : List (Lvl N)) : Prop where
  lvl : ∀ (i : Nat) t, T[i]? = some t → LvlOk h t
  downs : ∀ (i : Nat) b u, T[i]? = some b → T[i + 1]? = some u → ∀ a ∈ u.ns,
    ∃ d ∈ b.ns, (h.node a).ext = some d ∧ (h.node d).data = (h.node a).data
  base : ∀ b, T[0]? = some b → ∀ a ∈ b.ns, (h.node a).ext = none
  disj : ∀ (i j : Nat) t u, i ≠ j → T[i]? = some t → T[j]? = some u →
    (∀ a ∈ t.ns, a ∉ u.ns) ∧ t.l ≠ u.l

/-- where a walk over `cs` starting at `a` ends: the node before and the node -/
def sEnd : Option Addr → Addr → List Addr → Option Addr × Addr
  | p, a, [] => (p, a)
  | _, a, c :: cs => sEnd (some a) c cs

theorem sEnd_concat : ∀ (cs : List Addr) (p : Option Addr) (a f : Addr),
    sEnd p a (cs ++ [f]) = ((a :: cs).getLast?, f)
  | [], p, a, f => by simp [sEnd]
  | c :: cs, p, a, f => by
    simp only [List.cons_append, sEnd, sEnd_concat cs]
    rw [List.getLast?_cons_cons]

theorem searchSorted_run {h : SHeap N} (v : N) : ∀ (cs ds : List Addr) (a : Addr)
    (prev : Option Addr) (fuel : Nat), Lnk h (a :: (cs ++ ds)) none →
    (∀ c ∈ cs, ∃ y, (h.node c).data = some y ∧ y ≤ v) →
    (∀ d, ds.head? = some d → ∃ y, (h.node d).data = some y ∧ v < y) → cs.length < fuel →
    searchSorted v fuel prev a h = (.ok (sEnd prev a cs), h)
  | _, _, _, _, 0, _, _, _, hf => by omega
  | [], ds, a, prev, fuel + 1, hl, hc, hd, hf => by
    have hn := hl.1
    simp only [List.nil_append, Option.or_none] at hn
    cases ds with
    | nil => simp [searchSorted, run_bind, hn, sEnd]
    | cons d ds =>
      obtain ⟨y, e1, e2⟩ := hd d rfl
      simp [searchSorted, run_bind, hn, sEnd, e1, dataLe, not_le.2 e2]
  | c :: cs, ds, a, prev, fuel + 1, hl, hc, hd, hf => by
    have hn := hl.1
    simp only [List.cons_append, List.head?_cons, Option.some_or] at hn
    obtain ⟨y, e1, e2⟩ := hc c List.mem_cons_self
    have ih := searchSorted_run v cs ds c (some a) fuel hl.2
      (fun x hx => hc x (List.mem_cons_of_mem _ hx)) hd (by simpa using hf)
    simp [searchSorted, run_bind, hn, sEnd, e1, dataLe, e2, ih]

theorem map_some_mem {d : Addr → Option N} {ns : List Addr} {xs : List N}
    (h : ns.map d = xs.map some) {a : Addr} (ha : a ∈ ns) : ∃ x ∈ xs, d a = some x := by
  have : d a ∈ xs.map some := h ▸ List.mem_map_of_mem ha
  obtain ⟨x, hx, e⟩ := List.mem_map.1 this
  exact ⟨x, hx, e.symm⟩

theorem mem_of_map_some {d : Addr → Option N} {ns : List Addr} {xs : List N}
    (h : ns.map d = xs.map some) {x : N} (hx : x ∈ xs) : ∃ a ∈ ns, d a = some x := by
  have : some x ∈ ns.map d := h ▸ List.mem_map_of_mem hx
  obtain ⟨a, ha, e⟩ := List.mem_map.1 this
  exact ⟨a, ha, e⟩

theorem sorted_split (v : N) : ∀ {xs : List N}, xs.Pairwise (· < ·) →
    ∃ ys zs, xs = ys ++ zs ∧ (∀ y ∈ ys, y ≤ v) ∧ (∀ z ∈ zs, v < z)
  | [], _ => ⟨[], [], rfl, by simp, by simp⟩
  | x :: xs, hs => by
    obtain ⟨h1, h2⟩ := List.pairwise_cons.1 hs
    by_cases hx : x ≤ v
    · obtain ⟨ys, zs, e, p1, p2⟩ := sorted_split v h2
      refine ⟨x :: ys, zs, by rw [e]; rfl, ?_, p2⟩
      simpa [hx] using p1
    · have hx := not_le.1 hx
      refine ⟨[], x :: xs, rfl, by simp, ?_⟩
      intro z hz
      rcases List.mem_cons.1 hz with rfl | hz
      · exact hx
      · exact hx.trans (h1 z hz)

theorem map_split {d : Addr → Option N} {ns : List Addr} {ys zs : List N}
    (h : ns.map d = (ys ++ zs).map some) :
    ∃ as bs, ns = as ++ bs ∧ as.length = ys.length ∧ as.map d = ys.map some ∧
      bs.map d = zs.map some := by
  have hl : ns.length = ys.length + zs.length := by
    have := congrArg List.length h; simpa using this
  refine ⟨ns.take ys.length, ns.drop ys.length, (List.take_append_drop _ _).symm,
    by rw [List.length_take]; omega, ?_, ?_⟩
  · rw [List.map_take, h, List.map_append, List.take_left' (by simp)]
  · rw [List.map_drop, h, List.map_append, List.drop_left' (by simp)]

/-- the search stopped at the node `f` that holds `v`; `p` is the node before -/
def Hit (t : Lvl N) (v : N) (p : Option Addr) (f : Addr) : Prop :=
  ∃ as bs ys zs, t.ns = as ++ f :: bs ∧ ⊥ :: t.xs = ys ++ v :: zs ∧ as.length = ys.length ∧
    p = as.getLast?

/-- the search stopped at the last node `f` below `v`; the level does not hold `v` -/
def Miss (t : Lvl N) (v : N) (f : Addr) : Prop :=
  ∃ as bs ys zs, t.ns = (as ++ [f]) ++ bs ∧ ⊥ :: t.xs = ys ++ zs ∧ (as ++ [f]).length = ys.length ∧
    (∀ y ∈ ys, y < v) ∧ (∀ z ∈ zs, v < z)

theorem Hit.data {h : SHeap N} {t : Lvl N} {v : N} {p : Option Addr} {f : Addr} (o : LvlOk h t)
    (hh : Hit t v p f) : (h.node f).data = some v := by
  obtain ⟨as, bs, ys, zs, e1, e2, e3, _⟩ := hh
  have := o.1.data
  rw [e1, e2] at this
  exact (data_remove e3 this).2.1

theorem Hit.mem {t : Lvl N} {v : N} {p : Option Addr} {f : Addr}
    (hh : Hit t v p f) (hv : v ≠ ⊥) : v ∈ t.xs := by
  obtain ⟨as, bs, ys, zs, e1, e2, e3, _⟩ := hh
  have : v ∈ ⊥ :: t.xs := by rw [e2]; simp
  rcases List.mem_cons.1 this with e | e
  · exact absurd e hv
  · exact e

theorem Miss.data {h : SHeap N} {t : Lvl N} {v : N} {f : Addr} (o : LvlOk h t)
    (hm : Miss t v f) : ∃ y, (h.node f).data = some y ∧ y < v := by
  obtain ⟨as, bs, ys, zs, e1, e2, e3, p1, p2⟩ := hm
  have hd := o.1.data
  rw [e1, e2, List.map_append (l₁ := as ++ [f]), List.map_append (l₁ := ys)] at hd
  have h1 := (List.append_inj hd (by rw [List.length_map, List.length_map, e3])).1
  obtain ⟨y, hy, e⟩ := map_some_mem h1 (a := f) (by simp)
  exact ⟨y, e, p1 y hy⟩

theorem Miss.not_mem {t : Lvl N} {v : N} {f : Addr} (hm : Miss t v f) : v ∉ t.xs := by
  obtain ⟨as, bs, ys, zs, e1, e2, e3, p1, p2⟩ := hm
  intro hv
  have : v ∈ ys ++ zs := by rw [← e2]; exact List.mem_cons_of_mem _ hv
  rcases List.mem_append.1 this with h | h
  · exact absurd (p1 v h) (lt_irrefl v)
  · exact absurd (p2 v h) (lt_irrefl v)

theorem search_level {h : SHeap N} {t : Lvl N} {v d : N} {a : Addr} (prev : Option Addr)
    (fuel : Nat) (o : LvlOk h t) (ha : a ∈ t.ns) (hd : (h.node a).data = some d) (hdv : d < v)
    (hf : t.ns.length < fuel) :
    ∃ p f, searchSorted v fuel prev a h = (.ok (p, f), h) ∧ f ∈ t.ns ∧ (Hit t v p f ∨ Miss t v f) := by
  obtain ⟨r, hs⟩ := o
  obtain ⟨ys, zs, e, p1, p2⟩ := sorted_split v hs
  have hdata := r.data
  rw [e] at hdata
  obtain ⟨as, bs, ens, el, d1, d2⟩ := map_split hdata
  have ha' : a ∈ as := by
    rw [ens] at ha
    rcases List.mem_append.1 ha with h1 | h1
    · exact h1
    · obtain ⟨z, hz, ez⟩ := map_some_mem d2 h1
      rw [hd] at ez
      cases ez
      exact absurd (p2 _ hz) (not_lt.2 hdv.le)
  obtain ⟨a1, cs, rfl⟩ := List.append_of_mem ha'
  have hl := r.links
  rw [ens, List.append_assoc, Lnk_append] at hl
  have hrun := searchSorted_run (h := h) v cs bs a prev fuel hl.2
    (fun c hc => by
      obtain ⟨y, hy, ey⟩ := map_some_mem d1 (a := c) (by simp [hc])
      exact ⟨y, ey, p1 y hy⟩)
    (fun b hb => by
      obtain ⟨z, hz, ez⟩ := map_some_mem d2 (List.mem_of_head? hb)
      exact ⟨z, ez, p2 z hz⟩)
    (by rw [ens] at hf; simp at hf; omega)
  rcases List.eq_nil_or_concat ys with rfl | ⟨ys', y, rfl⟩
  · simp at el
  simp only [List.concat_eq_append] at e el d1 p1 hdata
  have miss : ∀ f a2, a1 ++ a :: cs = a2 ++ [f] → y < v → Miss t v f := by
    intro f a2 ef hy
    refine ⟨a2, bs, ys' ++ [y], zs, by rw [ens, ef], e, by rw [← ef]; exact el, ?_, p2⟩
    have hs' := hs
    rw [e] at hs'
    have hs' := (List.pairwise_append.1 (List.pairwise_append.1 hs').1).2.2
    intro x hx
    rcases List.mem_append.1 hx with hx | hx
    · exact (hs' x hx y (by simp)).trans hy
    · rw [List.mem_singleton.1 hx]; exact hy
  have hyv := p1 y (by simp)
  rcases List.eq_nil_or_concat cs with rfl | ⟨cs', f, rfl⟩
  · refine ⟨prev, a, hrun, ha, Or.inr ?_⟩
    have : (h.node a).data = some y := by
      simp only [List.map_append, List.map_cons, List.map_nil] at d1
      have := (List.append_inj' d1 rfl).2
      simpa using this
    rw [hd] at this
    cases this
    exact miss a a1 rfl hdv
  · rw [List.concat_eq_append, sEnd_concat] at hrun
    refine ⟨_, f, hrun, by rw [ens]; simp, ?_⟩
    rcases eq_or_lt_of_le hyv with rfl | hlt
    · left
      refine ⟨a1 ++ a :: cs', bs, ys', zs, by rw [ens]; simp, by rw [e]; simp, ?_, ?_⟩
      · simp at el ⊢; omega
      · rw [List.getLast?_append]
        simp [List.getLast?_cons]
    · right
      exact miss f (a1 ++ a :: cs') (by simp) hlt

theorem srun_bind {α β : Type} (m : SM N α) (f : α → SM N β) (s : SkipList N) :
    (m >>= f) s = match m s with
      | (.ok a, s') => f a s'
      | (.error e, s') => (.error e, s') := rfl

@[simp] theorem srun_pure {α : Type} (a : α) (s : SkipList N) : SM.pure a s = (.ok a, s) := rfl
@[simp] theorem srun_throw {α : Type} (e : Err) (s : SkipList N) :
    (SM.throw e : SM N α) s = (.error e, s) := rfl
@[simp] theorem srun_lift_ok {α : Type} (a : α) (s : SkipList N) :
    SM.lift (.ok a) s = (.ok a, s) := rfl
@[simp] theorem srun_lift_err {α : Type} (e : Err) (s : SkipList N) :
    (SM.lift (.error e) : SM N α) s = (.error e, s) := rfl
@[simp] theorem srun_getNum (s : SkipList N) : getNum s = (.ok s.numLevels, s) := rfl
@[simp] theorem run_getDown (a : Addr) (h : SHeap N) :
    getDown a h = (.ok (h.node a).ext, h) := rfl

theorem srun_onHeap {α : Type} {m : M N (Option Addr) α} {s : SkipList N} {r : Except Err α}
    {h' : SHeap N} (e : m s.heap = (r, h')) :
    SM.onHeap m s = (r, { s with heap := h' }) := by
  simp [SM.onHeap, e]

theorem srun_levelAt {i : Nat} {s : SkipList N} {l : Addr} (e : s.levels[i]? = some l) :
    levelAt i s = (.ok l, s) := by
  simp [levelAt, e]

/-- what `_search` returns -/
def SRes (T : List (Lvl N)) (m : Nat) (v : N) (p : Option Addr) (f : Addr) (last : List Addr) :
    Prop :=
  (∃ i t, i ≤ m ∧ T[i]? = some t ∧ Hit t v p f ∧ last.length = m - i ∧
    ∀ i' u, i < i' → T[i']? = some u → v ∉ u.xs) ∨
  (last.length = m ∧ (∃ t, T[0]? = some t ∧ Miss t v f) ∧
    ∀ (i : Nat) u, T[i + 1]? = some u → ∃ f', last[i]? = some f' ∧ Miss u v f')

theorem skipSearchLoop_run {h : SHeap N} {T : List (Lvl N)} {v : N} {m : Nat} (g : Geo h T)
    (hm : T.length = m + 1) (fuel : Nat) (hfuel : h.nNodes < fuel) :
    ∀ (j k : Nat) (prev : Option Addr) (a : Addr) (acc : List Addr) (t : Lvl N) (d : N),
    j ≤ m → j < k → T[j]? = some t → a ∈ t.ns → (h.node a).data = some d → d < v →
    acc.length = m - j →
    (∀ i' u, j < i' → T[i']? = some u → ∃ f, acc[m - i']? = some f ∧ Miss u v f) →
    ∃ p f last, skipSearchLoop v (m + 1) fuel k prev (some a) acc h = (.ok (p, f, last), h) ∧
      SRes T m v p f last
  | _, 0, _, _, _, _, _, _, hk, _, _, _, _, _, _ => by omega
  | 0, k + 1, prev, a, acc, t, d, hj, hk, ht, ha, hd, hdv, hacc, hall => by
    have o := g.lvl _ _ ht
    obtain ⟨p, f, e1, hf, hc⟩ := search_level prev fuel o ha hd hdv
      (by have := o.1.length_le; rw [o.1.length_eq]; omega)
    refine ⟨p, f, acc.reverse, ?_, ?_⟩
    · simp [skipSearchLoop, run_bind, g.base _ ht _ ha, e1, hacc]
    · rcases hc with hc | hc
      · left
        refine ⟨0, t, by omega, ht, hc, by simp [hacc], ?_⟩
        intro i' u hi hu
        obtain ⟨f', _, hm'⟩ := hall i' u hi hu
        exact hm'.not_mem
      · right
        refine ⟨by simp [hacc], ⟨t, ht, hc⟩, ?_⟩
        intro i u hu
        obtain ⟨f', ef, hm'⟩ := hall (i + 1) u (by omega) hu
        refine ⟨f', ?_, hm'⟩
        have hi : i + 1 < T.length := by
          by_contra hh
          rw [List.getElem?_eq_none (by omega)] at hu
          cases hu
        rw [List.getElem?_reverse (by omega), ← ef]
        congr 1; omega
  | j + 1, k + 1, prev, a, acc, t, d, hj, hk, ht, ha, hd, hdv, hacc, hall => by
    have o := g.lvl _ _ ht
    obtain ⟨p, f, e1, hf, hc⟩ := search_level prev fuel o ha hd hdv
      (by have := o.1.length_le; rw [o.1.length_eq]; omega)
    obtain ⟨b, hb⟩ : ∃ b, T[j]? = some b := ⟨_, List.getElem?_eq_getElem (by omega)⟩
    obtain ⟨da, _, ea, _⟩ := g.downs j b t hb ht a ha
    obtain ⟨df, hdf, ef, edf⟩ := g.downs j b t hb ht f hf
    rcases hc with hc | hc
    · refine ⟨p, f, acc, ?_, ?_⟩
      · simp [skipSearchLoop, run_bind, ea, e1, hc.data o]
      · left
        refine ⟨j + 1, t, hj, ht, hc, hacc, ?_⟩
        intro i' u hi hu
        obtain ⟨f', _, hm'⟩ := hall i' u hi hu
        exact hm'.not_mem
    · obtain ⟨y, ey, hy⟩ := hc.data o
      have hacc' : acc.length = m - (j + 1) := hacc
      have hne : y ≠ v := hy.ne
      have hdp : ∃ p', downPrev p h = (.ok p', h) := by
        cases p with
        | none => exact ⟨_, rfl⟩
        | some p => exact ⟨_, rfl⟩
      obtain ⟨p', ep⟩ := hdp
      obtain ⟨p2, f2, last, e2, r2⟩ := skipSearchLoop_run g hm fuel hfuel j k p' df (acc ++ [f]) b y
        (by omega) (by omega) hb hdf (by rw [edf, ey]) hy (by simp; omega) (by
          intro i' u hi hu
          by_cases hij : i' = j + 1
          · subst hij
            rw [ht] at hu
            cases hu
            exact ⟨f, by rw [← hacc', List.getElem?_concat_length], hc⟩
          · obtain ⟨f', ef', hm'⟩ := hall i' u (by omega) hu
            have hi' : i' < T.length := by
              by_contra hh
              rw [List.getElem?_eq_none (by omega)] at hu
              cases hu
            exact ⟨f', by rw [List.getElem?_append_left (by omega), ef'], hm'⟩)
      refine ⟨p2, f2, last, ?_, r2⟩
      simp [skipSearchLoop, run_bind, ea, e1, ey, hne, ep, ef, e2]

theorem Geo.length {h : SHeap N} {T : List (Lvl N)} (g : Geo h T) : T.length ≤ h.nNodes := by
  have hne : ∀ (i : Nat) t, T[i]? = some t → ∃ a, t.ns.head? = some a ∧ a ∈ t.ns := by
    intro i t ht
    have := (g.lvl i t ht).1.length_eq
    cases hn : t.ns with
    | nil => simp [hn] at this
    | cons a as => exact ⟨a, rfl, by simp⟩
  have hm : ∀ i (hi : i < T.length), ((T[i]).ns.headD 0) ∈ (T[i]).ns := by
    intro i hi
    obtain ⟨a, e1, e2⟩ := hne i _ (List.getElem?_eq_getElem hi)
    rw [List.headD_eq_head?_getD, e1]; exact e2
  have := nodup_length_le (ns := T.map (fun t => t.ns.headD 0)) (n := h.nNodes) (by
    rw [List.nodup_iff_injective_getElem]
    rintro ⟨i, hi⟩ ⟨j, hj⟩ hij
    simp only [List.length_map] at hi hj
    simp only [List.getElem_map] at hij
    by_contra hne
    have hne : i ≠ j := fun e => hne (by simp [e])
    have := (g.disj i j _ _ hne (List.getElem?_eq_getElem hi) (List.getElem?_eq_getElem hj)).1
      _ (hm i hi)
    exact this (hij ▸ hm j hj)) (by
    intro a ha
    obtain ⟨t, ht, rfl⟩ := List.mem_map.1 ha
    obtain ⟨i, hi, rfl⟩ := List.getElem_of_mem ht
    exact (g.lvl i _ (List.getElem?_eq_getElem hi)).1.bound _ (hm i hi))
  simpa using this

/-- the object `s` is represented by the levels `T` -/
structure SkRep (s : SkipList N) (T : List (Lvl N)) : Prop where
  geo : Geo s.heap T
  levels : s.levels = T.map Lvl.l
  num : s.numLevels = T.length

theorem skipSearch_run {s : SkipList N} {T : List (Lvl N)} {v : N} {m : Nat} (r : SkRep s T)
    (hm : T.length = m + 1) (hv : v ≠ ⊥) :
    ∃ p f last, skipSearch v s = (.ok (p, f, last), s) ∧ SRes T m v p f last := by
  have hnum := r.num
  have hml : m < T.length := by omega
  have ht : T[m]? = some T[m] := List.getElem?_eq_getElem hml
  have o := r.geo.lvl m _ ht
  have hlen := o.1.length_eq
  obtain ⟨a, as, ens⟩ := List.exists_cons_of_ne_nil (l := T[m].ns) (by intro e; simp [e] at hlen)
  have hd : (s.heap.node a).data = some ⊥ := by
    have := o.1.data
    rw [ens] at this
    simpa using (List.cons.inj this).1
  have hhd : (s.heap.lobj T[m].l).head = some a := by
    rw [o.1.head (by simp [ens]), ens]; rfl
  have hl := r.geo.length
  obtain ⟨p, f, last, e, sr⟩ := skipSearchLoop_run r.geo hm (s.heap.nNodes + 1) (by omega) m
    (s.heap.nNodes + 1) none a [] T[m] ⊥ (Nat.le_refl _) (by omega) ht (by simp [ens]) hd
    (bot_lt_iff_ne_bot.2 hv) (by simp) (by
      intro i' u hi hu
      rw [List.getElem?_eq_none (by omega)] at hu
      cases hu)
  refine ⟨p, f, last, ?_, sr⟩
  have hlev : s.levels[s.numLevels - 1]? = some T[m].l := by
    rw [r.levels, List.getElem?_map, hnum, hm, Nat.add_sub_cancel, ht]; rfl
  simp only [skipSearch, srun_bind, srun_getNum, srun_levelAt hlev]
  refine srun_onHeap (h' := s.heap) ?_
  show skipSearchLoop v s.numLevels (s.heap.nNodes + 1) (s.heap.nNodes + 1) none
    (s.heap.lobj T[m].l).head [] s.heap = _
  rw [hhd, hnum, hm]
  exact e

end Extra
