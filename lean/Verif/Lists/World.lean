import Verif.Lists.Compare
import Verif.Lists.Spec

/-!
# Programs over linked lists

`exec` runs one call of the public API on the heap model; `execs` a history.
-/

namespace Extra
variable {V X : Type} [PyData V] [Inhabited X]

/-- a program state: the heap, and the list object behind each handle -/
structure World (V X : Type) where
  heap : Heap V X
  env : List Addr

/-- the start of a program: nothing allocated -/
def World.init : World V X := ⟨Heap.empty, []⟩

/-- the list object behind a handle; a handle the program does not have is an error of the program,
reported as `unboundLocalError` -/
def World.addr (w : World V X) (i : Nat) : M V X Addr :=
  match w.env[i]? with
  | some l => M.pure l
  | none => M.throw .unboundLocalError

/-- run a call; `f` says how the result extends the handles -/
def World.run {α : Type} (w : World V X) (m : M V X α) (f : α → Res V × List Addr) :
    Res V × World V X :=
  match m w.heap with
  | (.error e, h) => (.error e, ⟨h, w.env⟩)
  | (.ok a, h) => ((f a).1, ⟨h, w.env ++ (f a).2⟩)

/-- fuel for the loops without a counter: one more than the number of nodes ever allocated, so a
loop that uses it up has visited some node twice -/
def World.fuel (w : World V X) : Nat := w.heap.nNodes + 1

/-- one call of the public API.  Each case calls the method of the same name of the model
(Verif/Lists/LinkedList.lean, which cites the code); `ll[idx]` dispatches on the kind of index as
linked_list.py:1066-1137 and circular_linked_list.py:607-657 do. -/
def exec [PyOrd V] (k : Kind) (op : Op V) (w : World V X) : Res V × World V X :=
  let unit : Unit → Res V × List Addr := fun _ => (.ok .unit, [])
  let hdl : Addr → Res V × List Addr := fun l => (.ok (.handle w.env.length), [l])
  let bool : Bool → Res V × List Addr := fun b => (.ok (.bool b), [])
  match op with
  | .new items => w.run (initFrom k items) hdl
  | .addFront i item => w.run (w.addr i >>= fun l => addFront k l item) unit
  | .addEnd i item => w.run (w.addr i >>= fun l => addEnd k l item) unit
  | .insert i idx item => w.run (w.addr i >>= fun l => insert k l idx item) unit
  | .setItem i idx item => w.run (w.addr i >>= fun l => setItem k l idx item) unit
  | .delItem i idx => w.run (w.addr i >>= fun l => delItem k l idx) unit
  | .removeFront i => w.run (w.addr i >>= fun l => removeFront k l) unit
  | .removeEnd i => w.run (w.addr i >>= fun l => removeEnd k l) unit
  | .remove i item all => w.run (w.addr i >>= fun l => remove k l item all) unit
  | .clear i => w.run (w.addr i >>= fun l => clear l) unit
  | .rotate i d dir f => w.run (w.addr i >>= fun l => rotateList k w.fuel l d dir f) (fun r =>
      match r with
      | none => (.ok .unit, [])
      | some l => (.ok (.handle w.env.length), [l]))
  | .toList i => w.run (w.addr i >>= fun l => toList l) (fun xs => (.ok (.list xs), []))
  | .len i => w.run (w.addr i >>= fun l => llLen l) (fun n => (.ok (.nat n), []))
  | .isEmpty i => w.run (w.addr i >>= fun l => isEmpty l) bool
  | .getItem i idx =>
    match k, idx with
    | .cll, idx => w.run (w.addr i >>= fun l => getItem k l idx) (fun v => (.ok (.val v), []))
    | _, .slice a b c => w.run (w.addr i >>= fun l => getSlice k l a b c) hdl
    | _, idx => w.run (w.addr i >>= fun l => getItem k l idx) (fun v => (.ok (.val v), []))
  | .contains i v => w.run (w.addr i >>= fun l => contains k w.fuel l v) bool
  | .count i v => w.run (w.addr i >>= fun l => count l v) (fun n => (.ok (.nat n), []))
  | .copy i => w.run (w.addr i >>= fun l => copy k l) hdl
  | .reverse i => w.run (w.addr i >>= fun l => reverse k l) hdl
  | .split i idx => w.run (w.addr i >>= fun l => split k l idx) (fun p =>
      (.ok (.handles w.env.length (w.env.length + 1)), [p.1, p.2]))
  | .extend i j => w.run (w.addr i >>= fun l => w.addr j >>= fun o => extend k w.fuel l o) unit
  | .eq i j => w.run (w.addr i >>= fun l => w.addr j >>= fun o => llEq l o) bool
  | .ne i j => w.run (w.addr i >>= fun l => w.addr j >>= fun o => llNe l o) bool
  | .lt i j => w.run (w.addr i >>= fun l => w.addr j >>= fun o => llLt PyOrd.lt l o) bool
  | .le i j => w.run (w.addr i >>= fun l => w.addr j >>= fun o => llLe PyOrd.le l o) bool
  | .gt i j => w.run (w.addr i >>= fun l => w.addr j >>= fun o => llGt PyOrd.gt l o) bool
  | .ge i j => w.run (w.addr i >>= fun l => w.addr j >>= fun o => llGe PyOrd.ge l o) bool

/-- a history: the result of each call, and the final world -/
def execs [PyOrd V] (k : Kind) : List (Op V) → World V X → List (Res V) × World V X
  | [], w => ([], w)
  | op :: ops, w =>
    let (r, w') := exec k op w
    let (rs, w'') := execs k ops w'
    (r :: rs, w'')

end Extra
