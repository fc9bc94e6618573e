import Verif.Model.Data
import Verif.Spec.Data

/-! Histories of calls on a `Data` object and their cache-free meaning. -/

namespace Bart
variable {K : Type} [Field K] [LinearOrder K] {n p : Nat}

/-- The data part of bartpy/node.py:90-94 `split_node`: the right child's data, with carried count and sum. Only the right
child is returned; the parent is left behind. -/
def Data.rightOf (d : Data K n p) (j : Fin p) (v : Fl K) : Except PyErr (Data K n p) :=
  match d.add { splittingVariable := j, splittingValue := v, operator := .le } with
  | .error e => .error e
  | .ok left =>
    match d.sumY with
    | .error e => .error e
    | .ok (sNode, d1) =>
      match left.sumY with
      | .error e => .error e
      | .ok (sLeft, left1) =>
        d1.add { splittingVariable := j, splittingValue := v, operator := .gt
                 carryNObsv := some (d1.X.nObsv - left1.X.nObsv), carryYSum := some (sNode - sLeft) }

/-- A call on the current data object. `add` and `splitRight` move on to the derived object. -/
inductive DataOp (K : Type) (n p : Nat) where
  | getColumn (i : Fin p)
  | splittable
  | nSplittable
  | anySplittable
  | isUnique (i : Fin p)
  | maxValue (i : Fin p)
  | proportion (i : Fin p) (v : Fl K)
  | sumY
  | nObsv
  | updateY (y : Option (Fin n → K))
  | add (j : Fin p) (v : Fl K) (op : Op)
  | splitRight (j : Fin p) (v : Fl K)

/-- What a call returns. -/
inductive DataOut (K : Type) (p : Nat) where
  | unit
  | col (l : List (Fl K))
  | vars (l : List (Fin p))
  | nat (k : Nat)
  | int (k : Int)
  | bool (b : Bool)
  | val (v : Fl K)
  | frac (num den : Int)
  | sum (s : K)

/-- One call on the model. A call that raises leaves the object as it was (up to an unobservable column cache). -/
def Data.step (d : Data K n p) : DataOp K n p → Except PyErr (DataOut K p) × Data K n p
  | .getColumn i => (.ok (.col (d.X.getColumn i).1), { d with X := (d.X.getColumn i).2 })
  | .splittable => (.ok (.vars d.X.splittable.1), { d with X := d.X.splittable.2 })
  | .nSplittable => (.ok (.nat d.X.nSplittable.1), { d with X := d.X.nSplittable.2 })
  | .anySplittable => (.ok (.bool d.X.isAtLeastOneSplittable.1), { d with X := d.X.isAtLeastOneSplittable.2 })
  | .isUnique i => (.ok (.bool (d.X.isColumnUnique i).1), { d with X := (d.X.isColumnUnique i).2 })
  | .maxValue i =>
    match d.X.maxValueOfColumn i with
    | .error e => (.error e, d)
    | .ok (m, c) => (.ok (.val m), { d with X := c })
  | .proportion i v => (.ok (.frac (d.X.proportionOfValue i v).1.1 (d.X.proportionOfValue i v).1.2),
      { d with X := (d.X.proportionOfValue i v).2 })
  | .sumY =>
    match d.sumY with
    | .error e => (.error e, d)
    | .ok (s, d') => (.ok (.sum s), d')
  | .nObsv => (.ok (.int d.X.nObsv), d)
  | .updateY y => (.ok .unit, d.updateY y)
  | .add j v op =>
    match d.add { splittingVariable := j, splittingValue := v, operator := op } with
    | .error e => (.error e, d)
    | .ok d' => (.ok .unit, d')
  | .splitRight j v =>
    match d.rightOf j v with
    | .error e => (.error e, d)
    | .ok d' => (.ok .unit, d')

/-- The outputs and the final object of a history. -/
def Data.run (d : Data K n p) : List (DataOp K n p) → List (Except PyErr (DataOut K p)) × Data K n p
  | [] => ([], d)
  | op :: ops => let r := d.step op; let q := r.2.run ops; (r.1 :: q.1, q.2)

namespace Spec

/-- The rows that an added condition keeps: those that do not compare to the other side. -/
def keep (x v : Fl K) : Op → Bool
  | .le => !Fl.gt x v
  | .gt => !Fl.le x v
  | .other => true

/-- One call, computed from scratch. -/
def Ref.step (s : Ref K n p) : DataOp K n p → Except PyErr (DataOut K p) × Ref K n p
  | .getColumn i => (.ok (.col (column s.X s.rows i)), s)
  | .splittable => (.ok (.vars ((List.finRange p).filter (fun i => isNotConstant (column s.X s.rows i)))), s)
  | .nSplittable => (.ok (.nat ((List.finRange p).filter (fun i => isNotConstant (column s.X s.rows i))).length), s)
  | .anySplittable => (.ok (.bool (decide (∃ i, isNotConstant (column s.X s.rows i) = true))), s)
  | .isUnique i => (.ok (.bool (decide (column s.X s.rows i).Nodup)), s)
  | .maxValue i =>
    match npMaxList (column s.X s.rows i) with
    | .error e => (.error e, s)
    | .ok m => (.ok (.val m), s)
  | .proportion i v =>
    if (column s.X s.rows i).Nodup then (.ok (.frac 1 (count s.rows)), s)
    else (.ok (.frac ((column s.X s.rows i).countP (fun x => Fl.eq x v)) (count s.rows)), s)
  | .sumY =>
    match s.y with
    | none => (.error .typeError, s)
    | some y => (.ok (.sum (total y s.rows)), s)
  | .nObsv => (.ok (.int (count s.rows)), s)
  | .updateY y => (.ok .unit, { s with y := y })
  | .add _ _ .other => (.error .typeError, s)
  | .add j v op => (.ok .unit, { s with rows := fun r => s.rows r && keep (s.X r j) v op })
  | .splitRight j v =>
    match s.y with
    | none => (.error .typeError, s)
    | some _ => (.ok .unit, { s with rows := fun r => s.rows r && keep (s.X r j) v .gt })

def Ref.run (s : Ref K n p) : List (DataOp K n p) → List (Except PyErr (DataOut K p)) × Ref K n p
  | [] => ([], s)
  | op :: ops => let r := s.step op; let q := r.2.run ops; (r.1 :: q.1, q.2)

/-- `split_node` is only used with a column and a cut value that are not NaN. -/
def opOk (X : Fin n → Fin p → Fl K) : DataOp K n p → Prop
  | .splitRight j v => (∀ r, X r j ≠ .nan) ∧ v ≠ .nan
  | _ => True

end Spec
end Bart

namespace Bart.Spec
variable {K : Type} [Field K] [LinearOrder K] {n p : Nat}

/-- Data objects that arise from a freshly constructed one by any history of calls. -/
def ReachableData (X : Fin n → Fin p → Fl K) (d : Data K n p) : Prop :=
  ∃ y mask normalize d0 ops, Data.init X y mask normalize none none none none = .ok d0 ∧
    (∀ op ∈ ops, opOk X op) ∧ d = (d0.run ops).2

/-- The target that the last `update_y` of a history has set. -/
def lastTarget (y0 : Option (Fin n → K)) (ops : List (DataOp K n p)) : Option (Fin n → K) :=
  ops.foldl (fun y op => match op with | .updateY y' => y' | _ => y) y0

/-- The rows of the node held by `d`. -/
def rowsOf (d : Data K n p) : Fin n → Bool := fun r => !d.mask r

end Bart.Spec
