import Verif.Trees.FromPathProofs
import Verif.Trees.Draw
import Batteries.Lean.Except

/-!
# Property C89: `Tree.from_path`

`fromPath` is `Tree.from_path` in a file system `root` with the working directory `cwd`
(Verif/Trees/FromPath.lean).  `FNode.locate` is where the system arrives when it follows a path, and
`FNode.find` what is there.  `FNode.Sound` says that names are names and that those in a folder are
different; `RTree.HasPath` and `RTree.Ordered` say which data are found below each other in a tree, and
that children are sorted (Verif/Trees/FromPathProofs.lean).
-/

namespace Extra

/-- C89: `from_path` of a path to a file or folder — absolute or not, with `.`, `..` and double slashes
anywhere — returns the tree whose root is called like the file or folder, whose nodes below the root are
exactly the files and folders below it, and where the children of a node are in the order of their names.
(The names have no newlines.) -/
theorem C89_tree {root : FNode} (W : root.Sound) (hd : ∃ es, root = .dir es) {cwd : List FName}
    (hcwd : (root.find cwd).isSome) {p : FName} {there : List FName} {f : FNode}
    (h : root.locate cwd p = some there) (hf : root.find there = some f) (O : root.OneLine) :
    ∃ t, fromPath root cwd (.str p) = .ok t ∧ t.data = there.getLast?.getD [] ∧
      (∀ ns, t.HasPath ns ↔ (root.find (there ++ ns)).isSome) ∧ t.Ordered := by
  have sub : ∀ ns, root.find (there ++ ns) = f.find ns := by
    intro ns; rw [FNode.find_append, hf]; rfl
  have key := FNode.tree_spec f.levels (there.getLast?.getD []) (Nat.le_refl _)
    (fun here es e => W (there ++ here) es ((sub here).trans e))
    (fun ns g e n hn => O (there ++ ns) g ((sub ns).trans e) n (List.mem_append_right _ hn))
  refine ⟨_, fromPath_spec W hd hcwd h hf, ?_, ?_, key.2⟩
  · rw [FNode.tree_data]
    refine escape_id ?_
    cases e : there.getLast? with
    | none => simp
    | some n => exact O there f hf n (List.mem_of_getLast? e)
  · intro ns
    rw [sub]; exact key.1 ns

/-- C89: every file and folder can be given by its absolute path -/
theorem C89_every_place {root : FNode} (W : root.Sound) (hd : ∃ es, root = .dir es) {cwd : List FName}
    (hcwd : (root.find cwd).isSome) {there : List FName} {f : FNode} (hf : root.find there = some f) :
    root.locate cwd ('/' :: joinSlash there) = some there ∧
    fromPath root cwd (.str ('/' :: joinSlash there)) = .ok (f.tree (there.getLast?.getD [])) := by
  have h : root.locate cwd ('/' :: joinSlash there) = some there :=
    FNode.locate_abs W (.inl rfl) cwd hf (fun _ => hd)
  exact ⟨h, fromPath_spec W hd hcwd h hf⟩

/-- C89: paths that lead to the same place give the same tree, also if names have newlines -/
theorem C89_same_place {root : FNode} (W : root.Sound) (hd : ∃ es, root = .dir es) {cwd cwd' : List FName}
    (hcwd : (root.find cwd).isSome) (hcwd' : (root.find cwd').isSome) {p q : FName} {there : List FName}
    (hp : root.locate cwd p = some there) (hq : root.locate cwd' q = some there) :
    fromPath root cwd (.str p) = fromPath root cwd' (.str q) := by
  have : (root.find there).isSome := by
    cases p with
    | nil => cases hp
    | cons c s =>
      rw [FNode.locate] at hp
      refine FNode.walk_find ?_ hp
      split
      · rfl
      · exact hcwd
  obtain ⟨f, hf⟩ := Option.isSome_iff_exists.mp this
  rw [fromPath_spec W hd hcwd hp hf, fromPath_spec W hd hcwd' hq hf]

/-- C89: a path that leads nowhere is refused with a `ValueError`, something else than a string with a
`TypeError` -/
theorem C89_errors (root : FNode) (cwd : List FName) :
    fromPath root cwd .other = .error .typeError ∧
    ∀ p, root.locate cwd p = none → fromPath root cwd (.str p) = .error .valueError := by
  refine ⟨rfl, fun p h => ?_⟩
  rw [fromPath, h]; rfl

/-! ## Cases -/

/-- the entries from a list -/
private def ents : List (String × FNode) → FEnts
  | [] => .nil
  | (n, f) :: es => .cons n.toList f (ents es)

private def disk : FNode :=
  .dir (ents [("tmp", .dir .nil), ("home", .dir (ents [("me", .dir (ents [("z.py", .file),
    ("src", .dir (ents [("b.c", .file), ("a.c", .file)])), ("A.md", .file)]))]))])

/-- the drawing of the tree of a path, with the working directory `/home/me/src` -/
private def drawn (p : String) : Except Err String :=
  (fromPath disk ["home".toList, "me".toList, "src".toList] (.str p.toList)).map
    (fun t => String.ofList (treeRepr id id (some t)))

example : drawn "..//./../me/" = .ok "me\n├── A.md\n├─┬ src\n│ ├── a.c\n│ └── b.c\n└── z.py" := by
  decide +kernel

example : drawn "/" = .ok "\n├─┬ home\n│ └─┬ me\n│   ├── A.md\n│   ├─┬ src\n│   │ ├── a.c\n│   │ └── b.c\n│   └── z.py\n└── tmp" := by
  decide +kernel

example : drawn "a.c" = .ok "a.c" ∧ drawn "a.c/" = .error .valueError ∧ drawn "" = .error .valueError ∧
    drawn "../nothing/.." = .error .valueError := by decide +kernel

private theorem find_ents (P : List FName → FNode → Prop) {es : FEnts}
    (h0 : P [] (.dir es)) (h : ∀ n f, (n, f) ∈ es.toList → ∀ ns g, f.find ns = some g → P (n :: ns) g) :
    ∀ ns g, (FNode.dir es).find ns = some g → P ns g := by
  intro ns g e
  cases ns with
  | nil => cases e; exact h0
  | cons n ns =>
    rw [FNode.find] at e
    cases e2 : es.get n with
    | none => rw [e2] at e; cases e
    | some f => rw [e2] at e; exact h n f (FEnts.get_mem e2) ns g e

private theorem find_file (P : List FName → FNode → Prop) (h0 : P [] .file) :
    ∀ ns g, FNode.file.find ns = some g → P ns g := by
  intro ns g e
  cases ns with
  | nil => cases e; exact h0
  | cons n ns => cases e

instance (n : FName) : Decidable (ValidName n) := by unfold ValidName; infer_instance

/-- what `Sound` and `OneLine` say about one place -/
private def okAt (ns : List FName) (g : FNode) : Prop :=
  (∀ es, g = .dir es → (es.toList.map Prod.fst).Nodup ∧ ∀ n ∈ es.toList.map Prod.fst, ValidName n) ∧
  ∀ n ∈ ns, '\n' ∉ n

private theorem okAt_file {ns : List FName} (h : ∀ n ∈ ns, '\n' ∉ n) : okAt ns .file :=
  ⟨fun _ e => (by cases e), h⟩

private theorem okAt_dir {ns : List FName} {es : FEnts} (h : ∀ n ∈ ns, '\n' ∉ n)
    (h' : (es.toList.map Prod.fst).Nodup ∧ ∀ n ∈ es.toList.map Prod.fst, ValidName n) : okAt ns (.dir es) :=
  ⟨fun _ e => by cases e; exact h', h⟩

private theorem disk_ok : ∀ ns g, disk.find ns = some g → okAt ns g := by
  refine find_ents _ (okAt_dir (by decide) (by decide +kernel)) ?_
  intro n f hn
  simp only [ents, FEnts.toList, List.mem_cons, List.not_mem_nil, or_false, Prod.mk.injEq] at hn
  rcases hn with ⟨rfl, rfl⟩ | ⟨rfl, rfl⟩
  · refine find_ents (fun ns g => okAt (_ :: ns) g) (okAt_dir (by decide) (by decide +kernel)) ?_
    intro n f hn; cases hn
  · refine find_ents (fun ns g => okAt (_ :: ns) g) (okAt_dir (by decide) (by decide +kernel)) ?_
    intro n f hn
    simp only [FEnts.toList, List.mem_cons, List.not_mem_nil, or_false, Prod.mk.injEq] at hn
    obtain ⟨rfl, rfl⟩ := hn
    refine find_ents (fun ns g => okAt (_ :: _ :: ns) g) (okAt_dir (by decide) (by decide +kernel)) ?_
    intro n f hn
    simp only [FEnts.toList, List.mem_cons, List.not_mem_nil, or_false, Prod.mk.injEq] at hn
    rcases hn with ⟨rfl, rfl⟩ | ⟨rfl, rfl⟩ | ⟨rfl, rfl⟩
    · exact find_file (fun ns g => okAt (_ :: _ :: _ :: ns) g) (okAt_file (by decide))
    · refine find_ents (fun ns g => okAt (_ :: _ :: _ :: ns) g) (okAt_dir (by decide) (by decide +kernel)) ?_
      intro n f hn
      simp only [FEnts.toList, List.mem_cons, List.not_mem_nil, or_false, Prod.mk.injEq] at hn
      rcases hn with ⟨rfl, rfl⟩ | ⟨rfl, rfl⟩
      · exact find_file (fun ns g => okAt (_ :: _ :: _ :: _ :: ns) g) (okAt_file (by decide))
      · exact find_file (fun ns g => okAt (_ :: _ :: _ :: _ :: ns) g) (okAt_file (by decide))
    · exact find_file (fun ns g => okAt (_ :: _ :: _ :: ns) g) (okAt_file (by decide))

/-- the hypotheses of C89 hold of it -/
example : disk.Sound ∧ disk.OneLine ∧ (∃ es, disk = .dir es) ∧
    (disk.find ["home".toList, "me".toList, "src".toList]).isSome ∧
    disk.locate ["home".toList, "me".toList, "src".toList] "..//./../me/".toList =
      some ["home".toList, "me".toList] :=
  ⟨fun ns es e => (disk_ok ns _ e).1 es rfl, fun ns g e => (disk_ok ns g e).2, ⟨_, rfl⟩,
    by decide +kernel, by decide +kernel⟩

/-- what the tree does not tell: a file looks like an empty folder, and a newline in a name like a
backslash and an `n` -/
theorem C89_not_told :
    FNode.file.tree "a".toList = (FNode.dir .nil).tree "a".toList ∧
    FNode.file.tree "a\nb".toList = FNode.file.tree "a\\nb".toList :=
  ⟨rfl, rfl⟩

end Extra
