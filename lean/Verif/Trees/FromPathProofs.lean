import Verif.Trees.FromPath
import Mathlib.Tactic.ByContra

/-!
# Specification and helper lemmas for `Tree.from_path`
-/

namespace Extra

/-! ## The specification -/

/-- what a file or folder can be called -/
def ValidName (n : FName) : Prop := n ≠ [] ∧ '/' ∉ n ∧ n ≠ ['.'] ∧ n ≠ ['.', '.']

/-- the names in a folder are different, and they are names -/
def FNode.Sound (root : FNode) : Prop :=
  ∀ here es, root.find here = some (.dir es) →
    (es.toList.map Prod.fst).Nodup ∧ ∀ n ∈ es.toList.map Prod.fst, ValidName n

mutual
/-- the tree of a file or folder called `n`: the entries of a folder are its children, in the order of
their names -/
def FNode.tree (n : FName) : FNode → RTree FName
  | .file => .node (escapeNewlines n) []
  | .dir es => .node (escapeNewlines n) ((es.trees.insertionSort (fun a b => a.1 ≤ b.1)).map Prod.snd)
/-- the trees of the entries with their names -/
def FEnts.trees : FEnts → List (FName × RTree FName)
  | .nil => []
  | .cons n f rest => (n, f.tree n) :: rest.trees
end

/-- there are nodes with these data on a way down from the root -/
inductive RTree.HasPath {V : Type} : RTree V → List V → Prop
  | nil {t} : HasPath t []
  | cons {d cs c ns} (hc : c ∈ cs) (h : HasPath c ns) : HasPath (.node d cs) (c.data :: ns)

/-- the data of the children of every node increase -/
inductive RTree.Ordered : RTree FName → Prop
  | node {d cs} (h : (cs.map RTree.data).Pairwise (· < ·)) (hc : ∀ c ∈ cs, c.Ordered) : Ordered (.node d cs)

/-- no name below has a newline -/
def FNode.OneLine (f : FNode) : Prop := ∀ ns g, f.find ns = some g → ∀ n ∈ ns, '\n' ∉ n

/-! ## Finding -/

theorem FNode.find_append (f : FNode) (ns ms : List FName) :
    f.find (ns ++ ms) = (f.find ns).bind (·.find ms) := by
  induction ns generalizing f with
  | nil => rfl
  | cons n ns ih =>
    cases f with
    | file => rfl
    | dir es =>
      simp only [List.cons_append, FNode.find]
      cases es.get n with
      | none => rfl
      | some g => exact ih g

theorem FNode.find_one (es : FEnts) (n : FName) : (FNode.dir es).find [n] = es.get n := by
  simp only [FNode.find]
  cases es.get n <;> rfl

theorem FEnts.get_mem {es : FEnts} {n : FName} {f : FNode} (h : es.get n = some f) : (n, f) ∈ es.toList := by
  match es with
  | .nil => cases h
  | .cons m g rest =>
    rw [FEnts.get] at h
    split at h
    · next hm => cases h; subst hm; exact List.mem_cons_self
    · exact List.mem_cons_of_mem _ (FEnts.get_mem h)

theorem FEnts.get_of_mem : ∀ {es : FEnts} {n : FName} {f : FNode}, (es.toList.map Prod.fst).Nodup →
    (n, f) ∈ es.toList → es.get n = some f
  | .nil, _, _, _, h => by cases h
  | .cons m g rest, n, f, hn, h => by
    rw [FEnts.toList, List.map_cons, List.nodup_cons] at hn
    rw [FEnts.get]
    rcases List.mem_cons.mp h with h | h
    · cases h; rw [if_pos rfl]
    · rw [if_neg]
      · exact FEnts.get_of_mem hn.2 h
      · rintro rfl
        exact hn.1 (List.mem_map.mpr ⟨_, h, rfl⟩)

theorem FEnts.levels_mem : ∀ {es : FEnts} {n : FName} {f : FNode}, (n, f) ∈ es.toList → f.levels ≤ es.levels
  | .nil, _, _, h => by cases h
  | .cons m g rest, n, f, h => by
    rw [FEnts.levels]
    rcases List.mem_cons.mp h with h | h
    · cases h; exact Nat.le_max_left _ _
    · exact Nat.le_trans (FEnts.levels_mem h) (Nat.le_max_right _ _)

theorem FNode.levels_find : ∀ (ns : List FName) {f g : FNode}, f.find ns = some g → g.levels ≤ f.levels
  | [], f, g, h => by cases h; exact Nat.le_refl _
  | n :: ns, .file, g, h => by cases h
  | n :: ns, .dir es, g, h => by
    rw [FNode.find] at h
    cases e : es.get n with
    | none => rw [e] at h; cases h
    | some k =>
      rw [e] at h
      have := FNode.levels_find ns h
      have := FEnts.levels_mem (FEnts.get_mem e)
      rw [FNode.levels]; omega

/-- the names on the way are names -/
theorem FNode.Sound.valid {root : FNode} (W : root.Sound) : ∀ {ns here : List FName} {f : FNode},
    root.find (here ++ ns) = some f → ∀ n ∈ ns, ValidName n
  | [], _, _, _, n, hn => by cases hn
  | m :: ns, here, f, h, n, hn => by
    have h' : root.find ((here ++ [m]) ++ ns) = some f := by simpa using h
    rcases List.mem_cons.mp hn with rfl | hn
    · rw [FNode.find_append, FNode.find_append] at h'
      cases e : root.find here with
      | none => rw [e] at h'; cases h'
      | some g =>
        rw [e] at h'
        cases g with
        | file => cases h'
        | dir es =>
          simp only [Option.bind_some, FNode.find_one] at h'
          cases e2 : es.get n with
          | none => rw [e2] at h'; cases h'
          | some k => exact (W here es e).2 n (List.mem_map_of_mem (f := Prod.fst) (FEnts.get_mem e2))
    · exact FNode.Sound.valid W h' n hn

/-! ## Strings -/

theorem splitSlash_ne (s : List Char) : splitSlash s ≠ [] := by
  cases s with
  | nil => simp [splitSlash]
  | cons c cs =>
    rw [splitSlash]
    split
    · simp
    · split <;> simp

theorem splitSlash_append (a b : List Char) :
    splitSlash (a ++ '/' :: b) = splitSlash a ++ splitSlash b := by
  induction a with
  | nil => simp [splitSlash]
  | cons c a ih =>
    rw [List.cons_append, splitSlash, splitSlash, ih]
    split
    · rfl
    · cases h : splitSlash a with
      | nil => exact absurd h (splitSlash_ne a)
      | cons w ws => rfl

theorem splitSlash_name {n : FName} (h : '/' ∉ n) : splitSlash n = [n] := by
  induction n with
  | nil => rfl
  | cons c n ih =>
    rw [splitSlash, if_neg (fun e : c = '/' => h (e ▸ List.mem_cons_self)), ih (fun m => h (List.mem_cons_of_mem _ m))]

theorem splitSlash_join : ∀ {ns : List FName}, ns ≠ [] → (∀ n ∈ ns, ValidName n) →
    splitSlash (joinSlash ns) = ns
  | [], h, _ => absurd rfl h
  | [n], _, h => splitSlash_name (h n List.mem_cons_self).2.1
  | n :: m :: ns, _, h => by
    rw [joinSlash, splitSlash_append, splitSlash_name (h n List.mem_cons_self).2.1,
      splitSlash_join (by simp) (fun k hk => h k (List.mem_cons_of_mem _ hk))]
    rfl

theorem joinSlash_append : ∀ {ns ms : List FName}, ns ≠ [] → ms ≠ [] →
    joinSlash (ns ++ ms) = joinSlash ns ++ '/' :: joinSlash ms
  | [], _, h, _ => absurd rfl h
  | [n], [], _, h => absurd rfl h
  | [n], m :: ms, _, _ => rfl
  | n :: n' :: ns, ms, _, h => by
    have := joinSlash_append (ns := n' :: ns) (by simp) h
    simp only [List.cons_append, joinSlash] at this ⊢
    rw [this]; simp

/-- the path of a place, with the slashes in front -/
def absStr (r : FName) (ns : List FName) : FName := r ++ joinSlash ns

/-- the slashes that can be in front of an absolute path -/
def Front (r : FName) : Prop := r = ['/'] ∨ r = ['/', '/']

theorem joinSlash_last {ns : List FName} (h : ns ≠ []) (hv : ∀ n ∈ ns, ValidName n) :
    ∃ x, (joinSlash ns).getLast? = some x ∧ x ≠ '/' := by
  obtain ⟨ms, n, rfl⟩ : ∃ ms n, ns = ms ++ [n] := ⟨_, _, (List.dropLast_append_getLast h).symm⟩
  have hn := hv n (by simp)
  have key : ∃ x, n.getLast? = some x ∧ x ≠ '/' := by
    refine ⟨n.getLast hn.1, List.getLast?_eq_getLast_of_ne_nil hn.1, fun e => hn.2.1 (e ▸ List.getLast_mem hn.1)⟩
  obtain ⟨x, hx, hne⟩ := key
  refine ⟨x, ?_, hne⟩
  cases ms with
  | nil => exact hx
  | cons m ms =>
    rw [joinSlash_append (by simp) (by simp), joinSlash]
    have : n ≠ [] := hn.1
    cases n with
    | nil => exact absurd rfl this
    | cons c n =>
      rw [List.getLast?_append, List.getLast?_cons_cons, hx]; rfl

theorem joinSlash_head {ns : List FName} (hv : ∀ n ∈ ns, ValidName n) : (joinSlash ns).head? ≠ some '/' := by
  have one : ∀ n t, ValidName n → (n ++ t).head? ≠ some '/' := by
    intro n t hn
    cases n with
    | nil => exact absurd rfl hn.1
    | cons c n =>
      intro e
      exact hn.2.1 (by cases e; exact List.mem_cons_self)
  match ns with
  | [] => simp [joinSlash]
  | [n] => simpa [joinSlash] using one n [] (hv n List.mem_cons_self)
  | n :: m :: ns => exact one n _ (hv n List.mem_cons_self)

/-- one step further down -/
theorem pathJoin_abs {r : FName} (hr : Front r) {ns : List FName} (hv : ∀ n ∈ ns, ValidName n) {n : FName}
    (hn : ValidName n) : pathJoin (absStr r ns) n = absStr r (ns ++ [n]) := by
  have hh : n.head? ≠ some '/' := by simpa [joinSlash] using joinSlash_head (ns := [n]) (by simpa using hn)
  rw [pathJoin, if_neg hh]
  by_cases h : ns = []
  · subst h
    rw [if_pos]
    · simp [absStr, joinSlash]
    · right
      rcases hr with rfl | rfl <;> rfl
  · obtain ⟨x, hx, hne⟩ := joinSlash_last h hv
    rw [if_neg]
    · rw [absStr, absStr, joinSlash_append h (by simp)]; simp [joinSlash]
    · rintro (e | e)
      · rcases hr with rfl | rfl <;> simp [absStr] at e
      · rw [absStr, List.getLast?_append, hx] at e
        cases e; exact hne rfl

theorem takeWhile_name {n : FName} (h : '/' ∉ n) (a : FName) (ha : a.getLast? = some '/') :
    ((a ++ n).reverse.takeWhile (· ≠ '/')).reverse = n ∧
    ((a ++ n).reverse.dropWhile (· ≠ '/')).reverse = a := by
  have hn : ∀ x ∈ n.reverse, decide (x ≠ '/') = true := by
    intro x hx
    rw [decide_eq_true_eq]; rintro rfl
    exact h (List.mem_reverse.mp hx)
  obtain ⟨b, rfl⟩ : ∃ b, a = b ++ ['/'] := by
    rcases List.eq_nil_or_concat a with rfl | ⟨b, x, rfl⟩
    · cases ha
    · refine ⟨b, ?_⟩
      rw [List.concat_eq_append, List.getLast?_append] at ha
      have : x = '/' := by simpa using ha
      rw [List.concat_eq_append, this]
  rw [List.reverse_append, List.takeWhile_append_of_pos hn, List.dropWhile_append_of_pos hn]
  simp

/-- `os.path.split`, then `os.path.join`: the place of the folder -/
theorem pathSplit_abs {r : FName} (hr : Front r) {ns : List FName} (hv : ∀ n ∈ ns, ValidName n) :
    (pathSplit (absStr r ns)).2 = ns.getLast?.getD [] ∧
    pathJoin (pathSplit (absStr r ns)).1 (pathSplit (absStr r ns)).2 = absStr r ns := by
  have rall : r.all (· = '/') = true := by rcases hr with rfl | rfl <;> decide
  have rlast : r.getLast? = some '/' := by rcases hr with rfl | rfl <;> rfl
  rcases List.eq_nil_or_concat ns with rfl | ⟨ms, n, rfl⟩
  · obtain ⟨h1, h2⟩ := takeWhile_name (n := []) (by simp) r rlast
    rw [List.append_nil] at h1 h2
    simp only [pathSplit, absStr, joinSlash, List.append_nil, h1, h2, rall, if_true]
    refine ⟨rfl, ?_⟩
    rw [pathJoin, if_neg (by simp), if_pos (.inr rlast), List.append_nil]
  · rw [List.concat_eq_append] at hv ⊢
    have hn := hv n (by simp)
    have hms : ∀ m ∈ ms, ValidName m := fun m hm => hv m (by simp [hm])
    by_cases h : ms = []
    · subst h
      obtain ⟨h1, h2⟩ := takeWhile_name hn.2.1 r rlast
      have e : pathSplit (absStr r ([] ++ [n])) = (r, n) := by
        simp only [pathSplit, absStr, List.nil_append, joinSlash, h1, h2, rall, if_true]
      rw [e]
      refine ⟨by simp, ?_⟩
      have := pathJoin_abs hr hms hn
      simpa [absStr, joinSlash] using this
    · have e1 : absStr r (ms ++ [n]) = (absStr r ms ++ ['/']) ++ n := by
        rw [absStr, absStr, joinSlash_append h (by simp)]; simp [joinSlash]
      obtain ⟨h1, h2⟩ := takeWhile_name hn.2.1 (absStr r ms ++ ['/']) (by simp)
      obtain ⟨x, hx, hne⟩ := joinSlash_last h hms
      obtain ⟨b, hb⟩ : ∃ b, absStr r ms = b ++ [x] := by
        rcases List.eq_nil_or_concat (joinSlash ms) with h0 | ⟨b, y, h0⟩
        · rw [h0] at hx; cases hx
        · rw [h0, List.concat_eq_append, List.getLast?_append] at hx
          cases hx
          exact ⟨r ++ b, by rw [absStr, h0]; simp⟩
      have hall : (absStr r ms ++ ['/']).all (· = '/') = false := by
        rw [hb]; simp [hne]
      have hstrip : ((absStr r ms ++ ['/']).reverse.dropWhile (· = '/')).reverse = absStr r ms := by
        rw [hb]; simp [hne]
      have e : pathSplit (absStr r (ms ++ [n])) = (absStr r ms, n) := by
        rw [e1]
        simp only [pathSplit, h1, h2, hall, hstrip]
        simp
      rw [e]
      exact ⟨by simp, pathJoin_abs hr hms hn⟩

/-! ## Following paths -/

theorem FNode.walk_names {root : FNode} : ∀ {ns here : List FName}, (∀ n ∈ ns, ValidName n) →
    (root.find (here ++ ns)).isSome → root.walk here ns = some (here ++ ns)
  | [], here, _, _ => by simp [FNode.walk]
  | n :: ns, here, hv, h => by
    have h' : (root.find ((here ++ [n]) ++ ns)).isSome := by simpa using h
    have hn := hv n List.mem_cons_self
    have h1 : (root.find (here ++ [n])).isSome := by
      rw [FNode.find_append] at h'
      cases e : root.find (here ++ [n]) with
      | none => rw [e] at h'; cases h'
      | some _ => rfl
    have h2 : ∃ es, root.find here = some (.dir es) := by
      rw [FNode.find_append] at h1
      cases e : root.find here with
      | none => rw [e] at h1; cases h1
      | some g =>
        rw [e] at h1
        cases g with
        | file => cases h1
        | dir es => exact ⟨es, rfl⟩
    obtain ⟨es, he⟩ := h2
    rw [FNode.walk, he]
    simp only [hn.1, hn.2.2.1, hn.2.2.2, or_self, if_false, h1, if_true]
    rw [FNode.walk_names (fun m hm => hv m (List.mem_cons_of_mem _ hm)) h']
    simp

/-- an absolute path leads to its place -/
theorem FNode.locate_abs {root : FNode} (W : root.Sound) {r : FName} (hr : Front r) {ns : List FName}
    (cwd : List FName) {f : FNode} (h : root.find ns = some f) (hd : ns = [] → ∃ es, root = .dir es) :
    root.locate cwd (absStr r ns) = some ns := by
  have hv : ∀ n ∈ ns, ValidName n := W.valid (here := []) h
  have hroot : ∃ es, root = .dir es := by
    cases ns with
    | nil => exact hd rfl
    | cons n ns =>
      cases root with
      | file => cases h
      | dir es => exact ⟨es, rfl⟩
  obtain ⟨es, rfl⟩ := hroot
  have skip : ∀ cs, (FNode.dir es).walk [] ([] :: cs) = (FNode.dir es).walk [] cs := by
    intro cs; simp [FNode.walk, FNode.find]
  have base : (FNode.dir es).walk [] (splitSlash (joinSlash ns)) = some ns := by
    by_cases hns : ns = []
    · subst hns
      rw [joinSlash, splitSlash, skip]; rfl
    · rw [splitSlash_join hns hv]
      exact FNode.walk_names (here := []) hv (by simp [h])
  rcases hr with rfl | rfl
  · simp only [absStr, FNode.locate, List.cons_append, List.nil_append, if_true]
    rw [splitSlash, if_pos rfl, skip, base]
  · simp only [absStr, FNode.locate, List.cons_append, List.nil_append, if_true]
    rw [splitSlash, if_pos rfl, splitSlash, if_pos rfl, skip, skip, base]

/-- `os.path.normpath` goes where the system goes -/
theorem normLoop_walk {root : FNode} (W : root.Sound) : ∀ {cs here there : List FName} {f : FNode},
    root.find here = some f → root.walk here cs = some there → normLoop true here cs = there
  | [], here, there, _, _, h => by cases h; rfl
  | c :: cs, here, there, f, hf, h => by
    rw [FNode.walk, hf] at h
    cases f with
    | file => cases h
    | dir es =>
      simp only at h
      rw [normLoop]
      have hv : ∀ n ∈ here, ValidName n := W.valid (here := []) hf
      split at h
      · next hc => rw [if_pos hc]; exact normLoop_walk W hf h
      · next hc =>
        rw [if_neg hc]
        split at h
        · next hc2 =>
          rw [if_neg]
          · have : ∃ g, root.find here.dropLast = some g := by
              rcases List.eq_nil_or_concat here with rfl | ⟨b, x, rfl⟩
              · exact ⟨_, hf⟩
              · rw [List.concat_eq_append, FNode.find_append] at hf
                rw [List.concat_eq_append, List.dropLast_concat]
                cases e : root.find b with
                | none => rw [e] at hf; cases hf
                | some g => exact ⟨g, rfl⟩
            exact normLoop_walk W this.choose_spec h
          · rintro (e | e | e)
            · exact e hc2
            · exact absurd e.1 (by simp)
            · exact (hv _ (List.mem_of_getLast? e)).2.2.2 rfl
        · next hc2 =>
          rw [if_pos (.inl hc2)]
          split at h
          · next hs =>
            obtain ⟨g, hg⟩ := Option.isSome_iff_exists.mp hs
            exact normLoop_walk W hg h
          · cases h

theorem normLoop_append (b : Bool) (acc as cs : List FName) :
    normLoop b acc (as ++ cs) = normLoop b (normLoop b acc as) cs := by
  induction as generalizing acc with
  | nil => rfl
  | cons a as ih =>
    rw [List.cons_append, normLoop, normLoop]
    split
    · exact ih acc
    · split <;> exact ih _

theorem normLoop_names {ns : List FName} (hv : ∀ n ∈ ns, ValidName n) (acc : List FName) :
    normLoop true acc ns = acc ++ ns := by
  induction ns generalizing acc with
  | nil => simp [normLoop]
  | cons n ns ih =>
    have hn := hv n List.mem_cons_self
    rw [normLoop, if_neg (by simp [hn.1, hn.2.2.1]), if_pos (.inl hn.2.2.2),
      ih (fun m hm => hv m (List.mem_cons_of_mem _ hm))]
    simp

theorem splitRoot_front (p : FName) : ∃ r rest, splitRoot ('/' :: p) = (r, rest) ∧ Front r ∧
    normLoop true [] (splitSlash rest) = normLoop true [] (splitSlash ('/' :: p)) := by
  have skip : ∀ s, normLoop true [] (splitSlash ('/' :: s)) = normLoop true [] (splitSlash s) := by
    intro s
    rw [splitSlash, if_pos rfl, normLoop, if_pos (.inl rfl)]
  unfold splitRoot
  split
  · next q h => cases h; exact ⟨_, _, rfl, .inl rfl, (skip _).symm⟩
  · next q _ h => cases h; exact ⟨_, _, rfl, .inr rfl, by rw [skip, skip]⟩
  · next q _ h => cases h; exact ⟨_, _, rfl, .inl rfl, (skip _).symm⟩
  · next h => exact absurd rfl (h p)

/-- a relative path continues that of the working directory -/
theorem join_cwd {cwd : List FName} (hv : ∀ n ∈ cwd, ValidName n) {c : Char} {s : FName} (hc : c ≠ '/') :
    ∃ q, pathJoin (getcwd cwd) (c :: s) = '/' :: q ∧
      normLoop true [] (splitSlash ('/' :: q)) = normLoop true cwd (splitSlash (c :: s)) := by
  have skip : ∀ s, normLoop true [] (splitSlash ('/' :: s)) = normLoop true [] (splitSlash s) := by
    intro s
    rw [splitSlash, if_pos rfl, normLoop, if_pos (.inl rfl)]
  rw [pathJoin, if_neg (by simpa using hc)]
  by_cases h : cwd = []
  · subst h
    exact ⟨c :: s, by simp [getcwd, joinSlash], skip _⟩
  · obtain ⟨x, hx, hne⟩ := joinSlash_last h hv
    refine ⟨joinSlash cwd ++ '/' :: c :: s, ?_, ?_⟩
    · rw [if_neg]
      · simp [getcwd]
      · rintro (e | e)
        · simp [getcwd] at e
        · rw [getcwd, ← List.singleton_append, List.getLast?_append, hx] at e
          cases e; exact hne rfl
    · rw [skip, splitSlash_append, splitSlash_join h hv, normLoop_append, normLoop_names hv]
      rfl

/-- `os.path.abspath` gives the path of the place -/
theorem absPath_spec {root : FNode} (W : root.Sound) {cwd : List FName} (hcwd : (root.find cwd).isSome)
    {p : FName} {there : List FName} (h : root.locate cwd p = some there) :
    ∃ r, Front r ∧ absPath cwd p = absStr r there := by
  have norm : ∀ q, normLoop true [] (splitSlash ('/' :: q)) = there →
      ∃ r, Front r ∧ normPath ('/' :: q) = absStr r there := by
    intro q hq
    obtain ⟨r, rest, e, hr, hn⟩ := splitRoot_front q
    refine ⟨r, hr, ?_⟩
    have hr' : (!r.isEmpty) = true := by rcases hr with rfl | rfl <;> rfl
    rw [normPath, e]
    simp only [hr', hn, hq]
    rw [if_neg]
    · rfl
    · rcases hr with rfl | rfl <;> simp
  match p, h with
  | [], h => cases h
  | c :: s, h =>
    rw [FNode.locate] at h
    by_cases hc : c = '/'
    · subst hc
      rw [if_pos rfl] at h
      rw [absPath, if_pos (by simp)]
      exact norm s (normLoop_walk W (here := []) rfl h)
    · rw [if_neg hc] at h
      obtain ⟨f, hf⟩ := Option.isSome_iff_exists.mp hcwd
      rw [absPath, if_neg (by simpa using hc)]
      obtain ⟨q, e1, e2⟩ := join_cwd (W.valid (here := []) hf) (s := s) hc
      rw [e1]
      exact norm q (e2.trans (normLoop_walk W hf h))

/-- a path leads to something -/
theorem FNode.walk_find {root : FNode} : ∀ {cs here there : List FName}, (root.find here).isSome →
    root.walk here cs = some there → (root.find there).isSome
  | [], here, there, hf, h => by cases h; exact hf
  | c :: cs, here, there, hf, h => by
    rw [FNode.walk] at h
    split at h
    · next es e =>
      split at h
      · exact FNode.walk_find hf h
      · split at h
        · refine FNode.walk_find ?_ h
          rcases List.eq_nil_or_concat here with rfl | ⟨b, x, rfl⟩
          · exact hf
          · rw [List.concat_eq_append, FNode.find_append] at hf
            rw [List.concat_eq_append, List.dropLast_concat]
            cases e : root.find b with
            | none => rw [e] at hf; cases hf
            | some g => rfl
        · split at h
          · next hs => exact FNode.walk_find hs h
          · cases h
    · cases h

/-! ## The tree -/

theorem FEnts.trees_names : ∀ (es : FEnts), es.trees.map Prod.fst = es.toList.map Prod.fst
  | .nil => rfl
  | .cons n f rest => by
    rw [FEnts.trees, FEnts.toList, List.map_cons, List.map_cons, FEnts.trees_names rest]

theorem FEnts.mem_trees : ∀ {es : FEnts} {x : FName × RTree FName}, x ∈ es.trees →
    ∃ f, (x.1, f) ∈ es.toList ∧ x.2 = f.tree x.1
  | .nil, _, h => by cases h
  | .cons n f rest, x, h => by
    rw [FEnts.trees] at h
    rcases List.mem_cons.mp h with rfl | h
    · exact ⟨f, List.mem_cons_self, rfl⟩
    · obtain ⟨g, h1, h2⟩ := FEnts.mem_trees h
      exact ⟨g, List.mem_cons_of_mem _ h1, h2⟩

theorem FEnts.trees_mem : ∀ {es : FEnts} {n : FName} {f : FNode}, (n, f) ∈ es.toList →
    (n, f.tree n) ∈ es.trees
  | .nil, _, _, h => by cases h
  | .cons m g rest, n, f, h => by
    rw [FEnts.trees]
    rcases List.mem_cons.mp h with h | h
    · cases h; exact List.mem_cons_self
    · exact List.mem_cons_of_mem _ (FEnts.trees_mem h)

theorem mapM_pairs {A B : Type} {g : A → Except Err B} : ∀ {xs : List (A × B)}, (∀ x ∈ xs, g x.1 = .ok x.2) →
    (xs.map Prod.fst).mapM g = .ok (xs.map Prod.snd)
  | [], _ => rfl
  | x :: xs, h => by
    rw [List.map_cons, List.mapM_cons, h x List.mem_cons_self,
      mapM_pairs (fun y hy => h y (List.mem_cons_of_mem _ hy))]
    rfl

theorem formTree_spec {root : FNode} (W : root.Sound) (hd : ∃ es, root = .dir es) {r : FName} (hr : Front r)
    (cwd : List FName) : ∀ (fuel : Nat) {ns : List FName} {f : FNode} {parent curr : FName},
    root.find ns = some f → f.levels ≤ fuel → pathJoin parent curr = absStr r ns →
    formTree root cwd fuel parent curr = .ok (f.tree curr)
  | 0, ns, f, parent, curr, _, hl, _ => by cases f <;> simp [FNode.levels] at hl
  | fuel + 1, ns, f, parent, curr, hf, hl, hj => by
    have hloc := FNode.locate_abs W hr cwd hf (fun _ => hd)
    simp only [formTree, hj, hloc, Option.bind_some, hf]
    cases f with
    | file => rfl
    | dir es =>
      obtain ⟨hnd, hval⟩ := W ns es hf
      have sorted : (es.toList.map Prod.fst).insertionSort (· ≤ ·) =
          (es.trees.insertionSort (fun a b => a.1 ≤ b.1)).map Prod.fst := by
        rw [← FEnts.trees_names]
        exact (List.map_insertionSort (r := fun a b : FName × RTree FName => a.1 ≤ b.1) (s := (· ≤ ·))
          Prod.fst es.trees (fun a _ b _ => Iff.rfl)).symm
      have kids : ((es.toList.map Prod.fst).insertionSort (· ≤ ·)).mapM (formTree root cwd fuel (absStr r ns)) =
          .ok ((es.trees.insertionSort (fun a b => a.1 ≤ b.1)).map Prod.snd) := by
        rw [sorted]
        refine mapM_pairs fun x hx => ?_
        obtain ⟨g, hg, ht⟩ := FEnts.mem_trees ((List.mem_insertionSort _).mp hx)
        rw [ht]
        refine formTree_spec W hd hr cwd fuel (ns := ns ++ [x.1]) ?_ ?_ ?_
        · rw [FNode.find_append, hf]
          exact (FNode.find_one es x.1).trans (FEnts.get_of_mem hnd hg)
        · have := FEnts.levels_mem hg
          rw [FNode.levels] at hl; omega
        · exact pathJoin_abs hr (W.valid (here := []) hf) (hval _ (List.mem_map_of_mem (f := Prod.fst) hg))
      simp only [kids, bind, Except.bind, FNode.tree]

theorem fromPath_spec {root : FNode} (W : root.Sound) (hd : ∃ es, root = .dir es) {cwd : List FName}
    (hcwd : (root.find cwd).isSome) {p : FName} {there : List FName} {f : FNode}
    (h : root.locate cwd p = some there) (hf : root.find there = some f) :
    fromPath root cwd (.str p) = .ok (f.tree (there.getLast?.getD [])) := by
  obtain ⟨r, hr, e⟩ := absPath_spec W hcwd h
  obtain ⟨h1, h2⟩ := pathSplit_abs hr (W.valid (here := []) hf)
  rw [fromPath, if_neg (by simp [h]), e]
  simp only
  rw [formTree_spec W hd hr cwd root.levels hf (FNode.levels_find _ hf) h2, h1]

/-! ## The tree tells the paths -/

theorem escape_id {n : FName} (h : '\n' ∉ n) : escapeNewlines n = n := by
  induction n with
  | nil => rfl
  | cons c n ih =>
    rw [escapeNewlines, if_neg (fun e : c = '\n' => h (e ▸ List.mem_cons_self)),
      ih (fun m => h (List.mem_cons_of_mem _ m))]

theorem FNode.tree_data (n : FName) (f : FNode) : (f.tree n).data = escapeNewlines n := by
  cases f <;> rfl

theorem FNode.tree_spec : ∀ (k : Nat) {f : FNode} (n : FName), f.levels ≤ k → f.Sound → f.OneLine →
    (∀ ns, (f.tree n).HasPath ns ↔ (f.find ns).isSome) ∧ (f.tree n).Ordered
  | 0, f, _, h, _, _ => by cases f <;> simp [FNode.levels] at h
  | k + 1, .file, n, _, _, _ => by
    refine ⟨fun ns => ⟨fun h => ?_, fun h => ?_⟩, .node .nil (by simp)⟩
    · cases h with
      | nil => rfl
      | cons hc _ => cases hc
    · cases ns with
      | nil => exact .nil
      | cons m ns => cases h
  | k + 1, .dir es, n, hl, W, O => by
    obtain ⟨hnd, hval⟩ := W [] es rfl
    have sub : ∀ {m g}, (m, g) ∈ es.toList → ∀ ns, (FNode.dir es).find (m :: ns) = g.find ns := by
      intro m g hm ns
      rw [FNode.find, FEnts.get_of_mem hnd hm]
    have ih : ∀ {m g}, (m, g) ∈ es.toList →
        (∀ ns, (g.tree m).HasPath ns ↔ (g.find ns).isSome) ∧ (g.tree m).Ordered := by
      intro m g hm
      refine FNode.tree_spec k m ?_ ?_ ?_
      · have := FEnts.levels_mem hm
        rw [FNode.levels] at hl; omega
      · intro here es' h
        exact W (m :: here) es' ((sub hm here).trans h)
      · intro ns g' h a ha
        exact O (m :: ns) g' ((sub hm ns).trans h) a (List.mem_cons_of_mem _ ha)
    have esc : ∀ {m g}, (m, g) ∈ es.toList → escapeNewlines m = m := by
      intro m g hm
      exact escape_id (O [m] g ((sub hm []).trans rfl) m List.mem_cons_self)
    have kid : ∀ x ∈ es.trees, x.2.data = x.1 := by
      intro x hx
      obtain ⟨g, hg, e⟩ := FEnts.mem_trees hx
      rw [e, FNode.tree_data, esc hg]
    refine ⟨fun ns => ⟨fun h => ?_, fun h => ?_⟩, ?_⟩
    · rw [FNode.tree] at h
      cases h with
      | nil => rfl
      | cons hc h =>
        obtain ⟨x, hx, rfl⟩ := List.mem_map.mp hc
        rw [List.mem_insertionSort] at hx
        obtain ⟨g, hg, e⟩ := FEnts.mem_trees hx
        rw [kid x hx, sub hg]
        rw [e] at h
        exact ((ih hg).1 _).mp h
    · cases ns with
      | nil => exact .nil
      | cons m ns =>
        rw [FNode.find] at h
        cases e : es.get m with
        | none => rw [e] at h; cases h
        | some g =>
          rw [e] at h
          have hg := FEnts.get_mem e
          have hp := ((ih hg).1 ns).mpr h
          have hx : (m, g.tree m) ∈ es.trees := FEnts.trees_mem hg
          have := RTree.HasPath.cons (d := escapeNewlines n)
            (List.mem_map_of_mem (f := Prod.snd) ((List.mem_insertionSort (fun a b => a.1 ≤ b.1)).mpr hx)) hp
          rw [kid _ hx] at this
          exact this
    · rw [FNode.tree]
      refine .node ?_ ?_
      · rw [List.map_map]
        have hdata : (es.trees.insertionSort (fun a b => a.1 ≤ b.1)).map (RTree.data ∘ Prod.snd) =
            (es.trees.insertionSort (fun a b => a.1 ≤ b.1)).map Prod.fst :=
          List.map_congr_left fun x hx => kid x ((List.mem_insertionSort _).mp hx)
        rw [hdata, List.map_insertionSort (r := fun a b : FName × RTree FName => a.1 ≤ b.1) (s := (· ≤ ·))
          Prod.fst es.trees (fun a _ b _ => Iff.rfl), FEnts.trees_names]
        have h1 : ((es.toList.map Prod.fst).insertionSort (· ≤ ·)).Pairwise (· ≤ ·) := by
          have t : Std.Total (fun a b : FName => a ≤ b) := ⟨fun a b => List.le_total a b⟩
          have tr : IsTrans FName (fun a b => a ≤ b) := ⟨fun a b c h1 h2 => List.le_trans h1 h2⟩
          exact List.pairwise_insertionSort (fun a b : FName => a ≤ b) _
        have h2 : ((es.toList.map Prod.fst).insertionSort (· ≤ ·)).Nodup :=
          (List.perm_insertionSort (fun a b : FName => a ≤ b) _).nodup_iff.mpr hnd
        refine List.Pairwise.imp ?_ (h1.and h2)
        rintro a b ⟨hle, hne⟩
        by_contra hlt
        exact hne (List.le_antisymm hle (List.not_lt.1 hlt))
      · intro c hc
        obtain ⟨x, hx, rfl⟩ := List.mem_map.mp hc
        rw [List.mem_insertionSort] at hx
        obtain ⟨g, hg, e⟩ := FEnts.mem_trees hx
        rw [e]; exact (ih hg).2

end Extra
