import Verif.Py

/-! # Python dictionaries: the keys in insertion order and the values -/
namespace Model
open Py

/-- A Python dictionary, as used in graphs/algorithms.py:822-828. -/
structure PyDict (κ β : Type) where
  keys : List κ
  val : κ → Option β

variable {κ β : Type} [DecidableEq κ]

/-- `{}` (e.g. graphs/algorithms.py:822) -/
def PyDict.empty : PyDict κ β := ⟨[], fun _ => none⟩

/-- `d[k]`: `KeyError` for a missing key. (e.g. graphs/algorithms.py:841) -/
def PyDict.get (d : PyDict κ β) (k : κ) : PyM β :=
  match d.val k with
  | some v => .ok v
  | none => .error .keyError

/-- `d[k] = v` (e.g. graphs/algorithms.py:842) -/
def PyDict.set (d : PyDict κ β) (k : κ) (v : β) : PyDict κ β :=
  ⟨if (d.val k).isSome then d.keys else d.keys ++ [k], fun j => if j = k then some v else d.val j⟩

/-- `d.pop(k)`: `KeyError` for a missing key. (e.g. graphs/algorithms.py:1083) -/
def PyDict.pop (d : PyDict κ β) (k : κ) : PyM (PyDict κ β) :=
  match d.val k with
  | some _ => .ok ⟨d.keys.erase k, fun j => if j = k then none else d.val j⟩
  | none => .error .keyError

/-- `{k: v for k in ks}` for distinct keys. (e.g. graphs/algorithms.py:824-826) -/
def PyDict.const (ks : List κ) (v : β) : PyDict κ β := ⟨ks, fun j => if j ∈ ks then some v else none⟩

end Model
