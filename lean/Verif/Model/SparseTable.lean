import Verif.Model.Util
/-! Model of `/repo/src/data_structure/sparse_table.rs`. The operation `op : Fn(T, T) -> T` may
panic; operations with side effects are in `Model/Eff.lean`. -/
namespace Verif.Model
open Res

/-- `/repo/src/data_structure/sparse_table.rs:2-9`, `struct SparseTable` (the closure `op` is
passed to `get` instead of being stored). -/
structure SparseTable (T : Type) where
  data : List (List T)
  deriving DecidableEq, Repr

namespace SparseTable
variable {T : Type}

/-- `/repo/src/data_structure/sparse_table.rs:18-31`, `from`. -/
def «from» (v : List T) (init : T) (op : T → T → Res T) : Res (SparseTable T) := do
  let n := v.length
  let k ← lg n
  let count := k + 1
  let data := List.replicate count (List.replicate n init)
  let data ← upd data 0 v
  let data ← forRange 1 count data fun c data => do
    let bound ← subU n (1 <<< c)
    forRange 0 (bound + 1) data fun i data => do
      let row ← idx data (c - 1)
      let x ← idx row i
      let y ← idx row (i + (1 <<< (c - 1)))
      let z ← op x y
      let cur ← idx data c
      let cur ← upd cur i z
      upd data c cur
  ok { data := data }

/-- `/repo/src/data_structure/sparse_table.rs:34-38`, `get`. -/
def get (t : SparseTable T) (op : T → T → Res T) (l r : Nat) : Res T := do
  assert (l < r)
  let c ← lg (r - l)
  let row ← idx t.data c
  let x ← idx row l
  let j ← subU r (1 <<< c)
  let y ← idx row j
  op x y

end SparseTable
end Verif.Model
