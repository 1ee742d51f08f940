import Batteries.Lean.Except

/-!
# Python values, exceptions and item validation

Shared vocabulary of the model.
-/

namespace Extra

/-- Exceptions the modelled code can raise.  `diverge` is not a Python exception:
it marks a `while`/`for` loop that has used up the fuel given to the model.  Nor is `unmodelled`:
it marks a situation in which the model does not follow the code. -/
inductive Err
  | valueError | typeError | indexError | attributeError | assertionError
  | overflowError | unboundLocalError | notImplementedError | keyError
  | diverge
  | unmodelled
  deriving DecidableEq, Repr

/-- Python values that can be stored in the list-like containers.  `obj n` stands for any
other hashable/comparable object (identified by an identity `n`), on which `<` raises
`TypeError`.  Simplification: `bool`, `float` and user-defined `__eq__` are not modelled
here (`int n` covers numbers). -/
inductive Val
  | int (n : Int)
  | str (s : List Char)
  | obj (n : Nat)
  deriving DecidableEq, Repr

/-- What a caller may pass where an item is expected: `None`, an instance of some `Extra`
class (a nested container or a node) or an ordinary value. -/
inductive Item (V : Type)
  | none
  | extra
  | val (v : V)
  deriving DecidableEq, Repr

/-- `item.replace("\n", "\\n")` — /repo/extra/lists/linked_list.py:38, :87,
/repo/extra/lists/stack.py:223 -/
def escapeNewlines : List Char → List Char
  | [] => []
  | c :: cs => if c = '\n' then '\\' :: 'n' :: escapeNewlines cs else c :: escapeNewlines cs

/-- The normalisation applied to a stored item: strings get their newlines escaped,
everything else is stored as is — /repo/extra/lists/linked_list.py:37-39, :86-88 -/
def Val.norm : Val → Val
  | .str s => .str (escapeNewlines s)
  | .int n => .int n
  | .obj n => .obj n

/-- `Extra._validate_item` — /repo/extra/interface.py:10-33 -/
def validateItem {V : Type} : Item V → Except Err V
  | .none => .error .valueError
  | .extra => .error .typeError
  | .val v => .ok v

/-- Values storable in a node, with the normalisation done by the node constructor and by
`set_data`. (For `SkipNode`, whose data are numbers, `norm` is the identity.) -/
class PyData (V : Type) where
  dec : DecidableEq V
  norm : V → V
  norm_norm : ∀ v, norm (norm v) = norm v

instance {V} [PyData V] : DecidableEq V := PyData.dec

theorem escapeNewlines_of_not_mem : ∀ s : List Char, '\n' ∉ s → escapeNewlines s = s
  | [], _ => rfl
  | c :: cs, h => by
    have hc : c ≠ '\n' := fun e => h (e ▸ List.mem_cons_self)
    have hcs : '\n' ∉ cs := fun e => h (List.mem_cons_of_mem _ e)
    simp [escapeNewlines, hc, escapeNewlines_of_not_mem cs hcs]

theorem newline_not_mem_escape : ∀ s : List Char, '\n' ∉ escapeNewlines s
  | [] => by simp [escapeNewlines]
  | c :: cs => by
    have ih := newline_not_mem_escape cs
    by_cases hc : c = '\n'
    · simp [escapeNewlines, hc, ih]
    · simp [escapeNewlines, hc, ih, Ne.symm hc]

theorem escape_escape (s : List Char) : escapeNewlines (escapeNewlines s) = escapeNewlines s :=
  escapeNewlines_of_not_mem _ (newline_not_mem_escape s)

theorem Val.norm_norm (v : Val) : v.norm.norm = v.norm := by
  cases v <;> simp [Val.norm, escape_escape]

instance : PyData Val where
  dec := inferInstance
  norm := Val.norm
  norm_norm := Val.norm_norm

/-- the results of `<`, `<=`, `>`, `>=` between values; incomparable values raise `TypeError` -/
class PyOrd (V : Type) where
  lt : V → V → Except Err Bool
  le : V → V → Except Err Bool
  gt : V → V → Except Err Bool
  ge : V → V → Except Err Bool

/-- an order operator on `Val`: numbers by value, strings lexicographically by code point,
`TypeError` for anything else (Python language semantics) -/
def Val.order (onInt : Int → Int → Bool) (onStr : List Char → List Char → Bool) :
    Val → Val → Except Err Bool
  | .int a, .int b => .ok (onInt a b)
  | .str a, .str b => .ok (onStr a b)
  | _, _ => .error .typeError

instance : PyOrd Val where
  lt := Val.order (fun a b => decide (a < b)) (fun a b => decide (a < b))
  le := Val.order (fun a b => decide (a ≤ b)) (fun a b => decide (a < b ∨ a = b))
  gt := Val.order (fun a b => decide (b < a)) (fun a b => decide (b < a))
  ge := Val.order (fun a b => decide (b ≤ a)) (fun a b => decide (b < a ∨ a = b))

end Extra
